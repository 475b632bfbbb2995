import Verif.Lemmas.UslLex
import Verif.Props.PolyMorpheme

/-
Reading the tokens of polymorphemes and lexemes.
-/

namespace Verif
open Script

/-- The scripts read from the texts of others. -/
def ReadList (ms ms' : List Script) : Prop := List.Forall₂ (fun m t => parseScript m.str = .ok t) ms ms'

theorem readAs_exists {ms : List Script} (h : ∀ m ∈ ms, WF m) : ∃ ms', ReadList ms ms' := by
  induction ms with
  | nil => exact ⟨[], .nil⟩
  | cons m ms ih =>
    obtain ⟨ms', h'⟩ := ih fun x hx => h x (List.mem_cons_of_mem _ hx)
    obtain ⟨t, ht, _⟩ := parse_str (h m (by simp))
    exact ⟨t :: ms', .cons ht h'⟩

/-- What is read has the same text, and is no sum of one term. -/
theorem read_same {m t : Script} (h : WF m) (ht : parseScript m.str = .ok t) : WF t ∧ t.str = m.str ∧ Script.Plain t := by
  obtain ⟨t', h1, h2, h3, h4⟩ := parse_str_plain h
  rw [ht] at h1
  cases h1
  exact ⟨h2, h3, h4⟩

theorem ReadList.strs {ms ms' : List Script} (h : ∀ m ∈ ms, WF m) (hr : ReadList ms ms') : ms'.map str = ms.map str := by
  induction hr with
  | nil => rfl
  | cons h1 _ ih =>
    simp only [List.map_cons]
    rw [(read_same (h _ (by simp)) h1).2.1, ih fun x hx => h x (List.mem_cons_of_mem _ hx)]

/-- Tokens that do not continue a list of morphemes. -/
def NoMorpheme (ts : List UTok) : Prop := ∀ s r, ts ≠ .morpheme s :: r

/-- Tokens that do not continue a list of groups. -/
def NoMult (ts : List UTok) : Prop := ∀ s r, ts ≠ .mult s :: r

theorem takeMorphemes_none {ts : List UTok} (h : NoMorpheme ts) : takeMorphemes ts = .ok ([], ts) := by
  unfold takeMorphemes
  split
  · exact absurd rfl (h _ _)
  · rfl

theorem takeMorphemes_sum {ms ms' : List Script} (hr : ReadList ms ms') {ts : List UTok} (h : NoMorpheme ts) :
    takeMorphemes (sumToks ms ++ ts) = .ok (ms', ts) := by
  induction hr with
  | nil => exact takeMorphemes_none h
  | cons h1 _ ih =>
    show takeMorphemes (.morpheme _ :: (sumToks _ ++ ts)) = _
    rw [takeMorphemes, h1]
    show (takeMorphemes (sumToks _ ++ ts) >>= _) = _
    rw [ih]
    rfl

/-- The groups read from the texts of others. -/
def GroupsRead (gs gs' : List Group) : Prop := List.Forall₂ (fun g g' => ReadList g.1 g'.1 ∧ g'.2 = g.2) gs gs'

theorem groupsRead_exists {gs : List Group} (h : ∀ g ∈ gs, ∀ m ∈ g.1, WF m) : ∃ gs', GroupsRead gs gs' := by
  induction gs with
  | nil => exact ⟨[], .nil⟩
  | cons g gs ih =>
    obtain ⟨gs', h'⟩ := ih fun x hx => h x (List.mem_cons_of_mem _ hx)
    obtain ⟨ms', hm⟩ := readAs_exists (h g (by simp))
    exact ⟨(ms', g.2) :: gs', .cons ⟨hm, rfl⟩ h'⟩

theorem noMorpheme_rparen (ts : List UTok) : NoMorpheme (.rparen :: ts) := by intro s r h; cases h

theorem takeGroups_groups {gs gs' : List Group} (hr : GroupsRead gs gs') (hne : ∀ g ∈ gs, g.1 ≠ []) {ts : List UTok} (h : NoMult ts) :
    ∀ n, gs.length ≤ n → takeGroups n (gs.flatMap groupToks ++ ts) = .ok (gs', ts) := by
  induction hr with
  | nil =>
    intro n _
    show takeGroups n ts = _
    unfold takeGroups
    split
    · exact absurd rfl (h _ _)
    · rfl
  | @cons g g' gs gs' h1 h2 ih =>
    intro n hn
    obtain ⟨n, rfl⟩ : ∃ k, n = k + 1 := ⟨n - 1, by simp at hn; omega⟩
    have e : (g :: gs).flatMap groupToks ++ ts = .mult (decimal g.2) :: .lparen :: (sumToks g.1 ++ .rparen :: (gs.flatMap groupToks ++ ts)) := by
      simp [groupToks]
    rw [e, takeGroups]
    have hg : takeGroup (decimal g.2) (.lparen :: (sumToks g.1 ++ .rparen :: (gs.flatMap groupToks ++ ts))) = .ok (g', gs.flatMap groupToks ++ ts) := by
      show (takeMorphemes (sumToks g.1 ++ .rparen :: (gs.flatMap groupToks ++ ts)) >>= _) = _
      rw [takeMorphemes_sum h1.1 (noMorpheme_rparen _)]
      obtain ⟨g1, g2⟩ := g'
      obtain ⟨h1, h3⟩ := h1
      have hg1 : g1 ≠ [] := by
        intro e
        subst e
        cases hgg : g.1 with
        | nil => exact hne g (by simp) hgg
        | cons a b => rw [hgg] at h1; cases h1
      simp only at h3
      subst h3
      cases g1 with
      | nil => exact absurd rfl hg1
      | cons a b =>
        show Except.ok ((a :: b, natOf (decimal g.2)), _) = _
        rw [natOf_decimal]
    rw [hg]
    show (takeGroups n (gs.flatMap groupToks ++ ts) >>= _) = _
    rw [ih (fun x hx => hne x (List.mem_cons_of_mem _ hx)) n (by simpa using hn)]
    rfl

theorem flatMap_groupToks_head (gs : List Group) (ts : List UTok) (h : NoMorpheme ts) : NoMorpheme (gs.flatMap groupToks ++ ts) := by
  cases gs with
  | nil => exact h
  | cons g gs => intro s r e; cases e

theorem length_flatMap_groupToks (gs : List Group) : gs.length ≤ (gs.flatMap groupToks).length := by
  induction gs with
  | nil => simp
  | cons g gs ih => simp [groupToks] at *; omega

theorem takePMParts_pm {cs cs' : List Script} {gs gs' : List Group} (hc : ReadList cs cs') (hg : GroupsRead gs gs') (hne : ∀ g ∈ gs, g.1 ≠ [])
    (h0 : cs ≠ [] ∨ gs ≠ []) {ts : List UTok} (h1 : NoMorpheme ts) (h2 : NoMult ts) :
    takePMParts (pmToks cs gs ++ ts) = .ok ((cs', gs'), ts) := by
  unfold takePMParts
  rw [pmToks, List.append_assoc, takeMorphemes_sum hc (flatMap_groupToks_head gs ts h1)]
  show (takeGroups _ (gs.flatMap groupToks ++ ts) >>= _) = _
  rw [takeGroups_groups hg hne h2 _ (by
    show gs.length ≤ (gs.flatMap groupToks ++ ts).length
    rw [List.length_append]
    have := length_flatMap_groupToks gs
    omega)]
  show (if cs'.isEmpty && gs'.isEmpty then _ else _) = _
  have : (cs'.isEmpty && gs'.isEmpty) = false := by
    rcases h0 with h0 | h0
    · cases hc with
      | nil => exact absurd rfl h0
      | cons _ _ => rfl
    · cases hg with
      | nil => exact absurd rfl h0
      | cons _ _ => simp
  rw [this]
  rfl

theorem pmToks_head {cs : List Script} {gs : List Group} (h0 : cs ≠ [] ∨ gs ≠ []) (ts : List UTok) :
    (∃ s r, pmToks cs gs ++ ts = .morpheme s :: r) ∨ ∃ s r, pmToks cs gs ++ ts = .mult s :: r := by
  cases cs with
  | cons c cs => exact Or.inl ⟨_, _, rfl⟩
  | nil =>
    cases gs with
    | nil => simp at h0
    | cons g gs => exact Or.inr ⟨_, _, rfl⟩

theorem takeParen_pm {cs cs' : List Script} {gs gs' : List Group} (hc : ReadList cs cs') (hg : GroupsRead gs gs') (hne : ∀ g ∈ gs, g.1 ≠ [])
    (h0 : cs ≠ [] ∨ gs ≠ []) (ts : List UTok) : takeParen (pmToks cs gs ++ .rparen :: ts) = .ok (some (mkPM cs' gs'), ts) := by
  have hp := takePMParts_pm hc hg hne h0 (noMorpheme_rparen ts) (by intro s r h; cases h)
  unfold takeParen
  split
  · rename_i h
    rcases pmToks_head h0 (.rparen :: ts) with ⟨s, r, h'⟩ | ⟨s, r, h'⟩ <;> rw [h] at h' <;> cases h'
  · rw [hp]
    rfl

end Verif
