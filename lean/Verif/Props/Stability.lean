import Verif.Spec.Stability
import Verif.Lemmas.ReadMade
import Verif.Lemmas.UslTable
import Verif.Model.ReadKey
import Verif.Props.Database

/-
C84: the text of an expression that has been read is read as the same expression.
-/

namespace Verif
open Script

/-! ### Lemmas -/

theorem script_reads {s : Script} (h : WF s) (hr : Readable s) : ∃ t, uslRead s.str = .ok (.script t, []) ∧ WF t ∧ t.str = s.str := by
  obtain ⟨C', hc⟩ := readAs_exists (ms := [s]) (by simpa using h)
  have hl := lexes_all (lexes_script h hr)
  have hp := takePMParts_pm hc .nil (by simp) (.inl (by simp)) (ts := []) (by intro s r h; cases h) (by intro s r h; cases h)
  have hu := takeUsl_pm (pmToks_head (.inl (by simp)) []) hp
  rw [List.append_nil] at hu
  cases hc with
  | cons h1 h2 =>
    cases h2
    rename_i t
    rw [if_pos (by simp)] at hu
    obtain ⟨w1, w2, _⟩ := read_same h h1
    refine ⟨t, ?_, w1, w2⟩
    refine uslRead_of ?_ hl hu
    cases hs : s.str with
    | cons _ _ => rfl
    | nil =>
      rw [hs] at hl
      cases hl

theorem filterEmpty_twice (l : List Script) : filterEmpty (filterEmpty l) = filterEmpty l := by
  unfold filterEmpty
  rw [List.filter_filter]
  simp

/-- Clean polymorphemes made by the constructor are legible. -/
theorem made_legible {p : PM} (hm : MadePM p) (hc : CleanPM p) : ∃ cs gs, p = mkPM cs gs ∧ Legible cs gs := by
  obtain ⟨cs, gs, rfl, h1, h2⟩ := hm
  refine ⟨filterEmpty cs, gs.map fun g => (filterEmpty g.1, g.2), ?_, ?_⟩
  · unfold mkPM
    simp only [filterEmpty_twice, List.map_map, Function.comp_def]
  · have hcon : ∀ x ∈ filterEmpty cs, x ∈ (mkPM cs gs).constant := by
      intro x hx
      show x ∈ if (shownC cs).isEmpty then [.null 0] else shownC cs
      have hx' : x ∈ shownC cs := mem_shownC.2 (mem_filterEmpty.1 hx)
      split
      · rename_i hn
        rw [List.isEmpty_iff.1 hn] at hx'
        cases hx'
      · exact hx'
    have hgr : ∀ g ∈ gs, nrmGroup g ∈ (mkPM cs gs).groups := by
      intro g hg
      show _ ∈ shownG gs
      rw [shownG, mem_pySort]
      exact List.mem_map_of_mem hg
    have hin : ∀ (g : Group) (x : Script), x ∈ filterEmpty g.1 ↔ x ∈ (nrmGroup g).1 := by
      intro g x
      rw [nrmGroup, mem_pySort]
    refine ⟨?_, ?_, ?_⟩
    · intro x hx
      have := hc.constant x (hcon x hx)
      exact ⟨⟨wf_built (h1 x (mem_filterEmpty.1 hx).1), this.2⟩, fun _ => this.1⟩
    · intro g hg x hx
      obtain ⟨g', hg', rfl⟩ := List.mem_map.1 hg
      have := (hc.groups _ (hgr g' hg')).2 x ((hin g' x).1 hx)
      exact ⟨⟨wf_built (h2 g' hg' x (mem_filterEmpty.1 hx).1), this.2⟩, fun _ => this.1⟩
    · intro g hg
      obtain ⟨g', hg', rfl⟩ := List.mem_map.1 hg
      obtain ⟨x, hx⟩ := List.exists_mem_of_ne_nil _ (hc.groups _ (hgr g' hg')).1
      have hx' := (hin g' x).2 hx
      exact ⟨x, hx', (mem_filterEmpty.1 hx').2⟩

theorem made_legibleLexeme {x : Lexeme} (hm : MadeLexeme x) (hc : CleanLexeme x) : LegibleLexeme x := by
  obtain ⟨p, q, rfl, hp, hq⟩ := hm
  obtain ⟨fc, fg, rfl, h1⟩ := made_legible hp hc.1
  obtain ⟨cc, cg, rfl, h2⟩ := made_legible hq hc.2
  exact ⟨fc, fg, cc, cg, h1, h2, rfl⟩

/-! ### C84 -/

/-- **C84**, the claim: reading the text of an expression that was read gives the same expression. -/
def C84_claim : Prop := ∀ t u, uslRead t = .ok (u, []) → ∃ u', uslRead u.text = .ok (u', []) ∧ SameExpr u' u

/-- **C84** (part) The text of an expression that was read, and is clean, is read as the same expression; a polymorpheme of one morpheme
and no group is read as this morpheme.  Missing: the other expressions that can be read, for which the claim is false
(`C84_violated_old_class`, `C84_violated_empty_group`, `C84_violated_empty`, `C84_violated_order`, `C84_violated_missing`). -/
theorem C84_stable_partial {t : Str} {u : Expr} {ds : List (Str × Str)} (h : uslRead t = .ok (u, ds)) (hc : u.Clean) :
    ∃ u', uslRead u.text = .ok (u', []) ∧
      (SameExpr u' u ∨ ∃ p m s, u = .pm p ∧ p.groups = [] ∧ p.constant = [m] ∧ u' = .script s ∧ s.str = m.str ∧ SameMeaning s m ∧ u.text = m.str) := by
  have hm := read_made h
  cases u with
  | script s =>
    have hw : WF s := hm
    obtain ⟨t', h1, h2, h3⟩ := script_reads hw (readable_of hc)
    have hm := C08_text_determines_meaning (wf_built h2) (wf_built hw) h3
    exact ⟨_, h1, .inl ⟨h3, hm.1, hm.2.2⟩⟩
  | pm p =>
    obtain ⟨cs, gs, rfl, hl⟩ := made_legible hm hc.1
    have h0 := not_blank (cs := cs) (gs := gs) fun hb => by
      have := (mkPM_empty_iff cs gs).2 hb
      rw [hc.2] at this
      cases this
    rcases C47_polymorpheme_partial hl h0 with ⟨_, q, h1, h2⟩ | ⟨rfl, m, s, h1, h2, h3, h4⟩
    · exact ⟨_, h1, .inl h2⟩
    · have hfe : filterEmpty cs = cs.filter fun x => x.empty = false := by
        unfold filterEmpty; congr 1; ext x; cases x.empty <;> simp
      have hcon : (mkPM cs []).constant = [m] := by
        unfold mkPM
        rw [hfe, h1]
        rfl
      have hmc : m ∈ cs := (List.mem_filter.1 (h1 ▸ List.mem_cons_self : m ∈ _)).1
      have hs : WF s := read_made h2
      have hm := C08_text_determines_meaning (wf_built hs) (hl.constant m hmc).1.1 h3
      exact ⟨_, h2, .inr ⟨_, m, s, rfl, rfl, hcon, rfl, h3, ⟨hm.1, hm.2.2⟩, h4⟩⟩
  | lexeme x =>
    obtain ⟨fc, fg, cc, cg, h1, h2, rfl⟩ := made_legibleLexeme hm hc
    obtain ⟨y, h3, h4⟩ := C47_lexeme_partial h1 h2
    exact ⟨_, h3, .inl h4⟩
  | word w =>
    have ha := MadeWord.actors hm.1
    obtain ⟨⟨l, t', f, role, hf, hw, _⟩, rx, hrole⟩ := hm
    have hw0 := hw
    obtain ⟨text, h1, h2⟩ := bind_ok.1 hw
    obtain ⟨cl, h3, h4⟩ := bind_ok.1 h2
    rw [pure_ok] at h4
    subst h4
    obtain ⟨w', h5, h6⟩ := C62_word_partial hf hw0 ⟨_, hrole⟩ fun e he => by
      obtain ⟨x, hx, hcx⟩ := hc e he
      exact ⟨x, hx, made_legibleLexeme (ha e he x hx) hcx⟩
    exact ⟨_, h5, .inl h6⟩

/-- **C84** The role of a word that was read is the address of one of its lexemes. -/
theorem C84_role {t : Str} {w : WordUsl} {ds : List (Str × Str)} (h : uslRead t = .ok (.word w, ds)) :
    ∃ x, (w.role, some x) ∈ w.sfun.asList w.context := (read_made h).2

-- The marked lexeme would become a child of a junction, and the word has no such role: `NameError`.  With the mark on the other it is read.
example : (uslRead (c!"[! E:A:. E:A:. j.-A:.-'d.o.-l.o.-', ()(S:) > E:A:. E:T:.-k.u.-' j.-U:.-'d.o.-l.o.-', ()(A:)]")).map (·.1.text) = .error .nameError ∧
    (uslRead (c!"[E:A:. E:A:. j.-A:.-'d.o.-l.o.-', ()(S:) > ! E:A:. E:T:.-k.u.-' j.-U:.-'d.o.-l.o.-', ()(A:)]")).map (·.1.text) =
      .ok (c!"[! E:A:. E:T:.-k.u.-' j.-U:.-'d.o.-l.o.-', ()(A:) > E:A:. E:T:.-k.u.-' j.-A:.-'d.o.-l.o.-', ()(S:)]") := by
  refine ⟨?_, ?_⟩ <;> decide +kernel

/-! ### The characters of texts -/

theorem alphabet_term {c : Char} (h : termChar c = true) : c ∈ uslAlphabet := by
  have key : ∀ c ∈ termLetters ++ termMarks, c ∈ uslAlphabet := by decide +kernel
  unfold termChar at h
  rw [Bool.or_eq_true] at h
  rcases h with h | h
  · exact key c (List.mem_append_left _ (by simpa using h))
  · exact key c (List.mem_append_right _ (by simpa using h))

theorem alphabet_script {s : Script} (h : WF s) : ∀ c ∈ s.str, c ∈ uslAlphabet := fun c hc => alphabet_term (str_termChar h c hc)

theorem alphabet_join : ∀ {l : List Str}, (∀ w ∈ l, ∀ c ∈ w, c ∈ uslAlphabet) → ∀ c ∈ joinSpace l, c ∈ uslAlphabet
  | [], _, c, hc => by cases hc
  | [s], h, c, hc => h s (by simp) c hc
  | s :: t :: ts, h, c, hc => by
    rw [joinSpace, List.mem_append, List.mem_cons] at hc
    rcases hc with hc | rfl | hc
    · exact h s (by simp) c hc
    · decide
    · exact alphabet_join (l := t :: ts) (fun w hw => h w (List.mem_cons_of_mem _ hw)) c hc

theorem alphabet_chevron : ∀ {l : List Str}, (∀ w ∈ l, ∀ c ∈ w, c ∈ uslAlphabet) → ∀ c ∈ joinChevron l, c ∈ uslAlphabet
  | [], _, c, hc => by cases hc
  | [s], h, c, hc => h s (by simp) c hc
  | s :: t :: ts, h, c, hc => by
    rw [joinChevron, List.append_assoc, List.mem_append, List.mem_append] at hc
    rcases hc with hc | hc | hc
    · exact h s (by simp) c hc
    · exact (by decide : ∀ c ∈ c!" > ", c ∈ uslAlphabet) c hc
    · exact alphabet_chevron (l := t :: ts) (fun w hw => h w (List.mem_cons_of_mem _ hw)) c hc

theorem alphabet_group {g : Group} (h : ∀ x ∈ g.1, WF x) : ∀ c ∈ groupText g, c ∈ uslAlphabet := by
  intro c hc
  unfold groupText at hc
  simp only [List.mem_append] at hc
  rcases hc with (((hc | hc) | hc) | hc) | hc
  · exact (by decide : ∀ c ∈ c!"m", c ∈ uslAlphabet) c hc
  · have := decimal_digits _ c hc
    unfold isDigit at this
    exact (by decide : ∀ c ∈ c!"0123456789", c ∈ uslAlphabet) c (by simpa using this)
  · exact (by decide : ∀ c ∈ c!"(", c ∈ uslAlphabet) c hc
  · refine alphabet_join ?_ c hc
    intro w hw
    obtain ⟨x, hx, rfl⟩ := List.mem_map.1 hw
    exact alphabet_script (h x hx)
  · exact (by decide : ∀ c ∈ c!")", c ∈ uslAlphabet) c hc

theorem alphabet_pm {p : PM} (h : MadePM p) : ∀ c ∈ p.text, c ∈ uslAlphabet := by
  obtain ⟨cs, gs, rfl, h1, h2⟩ := h
  rw [mkPM_text]
  refine alphabet_join ?_
  intro w hw
  rcases List.mem_append.1 hw with hw | hw
  · obtain ⟨x, hx, rfl⟩ := List.mem_map.1 hw
    exact alphabet_script (h1 x (mem_shownC.1 hx).1)
  · obtain ⟨g, hg, rfl⟩ := List.mem_map.1 hw
    obtain ⟨g', hg', _, he⟩ := mem_shownG hg
    exact alphabet_group fun x hx => h2 g' hg' x ((he x).1 hx).1

theorem alphabet_lexeme {x : Lexeme} (h : MadeLexeme x) : ∀ c ∈ x.text, c ∈ uslAlphabet := by
  obtain ⟨p, q, rfl, hp, hq⟩ := h
  have par : ∀ {p : PM}, MadePM p → ∀ c ∈ c!"(" ++ p.text ++ c!")", c ∈ uslAlphabet := by
    intro p hp c hc
    simp only [List.mem_append] at hc
    rcases hc with (hc | hc) | hc
    · exact (by decide : ∀ c ∈ c!"(", c ∈ uslAlphabet) c hc
    · exact alphabet_pm hp c hc
    · exact (by decide : ∀ c ∈ c!")", c ∈ uslAlphabet) c hc
  intro c hc
  have hc : c ∈ lexemeText p q := hc
  unfold lexemeText at hc
  dsimp only at hc
  split at hc
  · split at hc
    · exact (by decide : ∀ c ∈ c!"()", c ∈ uslAlphabet) c hc
    · exact par hp c hc
  · rcases List.mem_append.1 hc with hc | hc
    · exact par hp c hc
    · exact par hq c hc

theorem alphabet_address : ∀ a ∈ addressScripts, ∀ c ∈ a, c ∈ uslAlphabet := by decide +kernel

theorem alphabet_word {w : WordUsl} (h : MadeWord w) : ∀ c ∈ w.text, c ∈ uslAlphabet := by
  have ha := h.actors
  obtain ⟨l, t, f, role, hf, hw, _⟩ := h
  have hok := fromList_shape hf
  obtain ⟨text, h1, h2⟩ := bind_ok.1 hw
  obtain ⟨cl, h3, h4⟩ := bind_ok.1 h2
  rw [pure_ok] at h4
  subst h4
  obtain ⟨main, _, h6⟩ := bind_ok.1 h1
  rw [pure_ok] at h6
  subst h6
  intro c hc
  simp only [List.mem_append] at hc
  rcases hc with (hc | hc) | hc
  · exact (by decide : ∀ c ∈ c!"[", c ∈ uslAlphabet) c hc
  · refine alphabet_chevron ?_ c hc
    intro v hv c hc
    obtain ⟨e, he, rfl⟩ := List.mem_map.1 hv
    rw [mem_pySort] at he
    unfold itemText at hc
    simp only [List.mem_append] at hc
    rcases hc with (((hc | hc) | hc) | hc) | hc
    · split at hc
      · exact (by decide : ∀ c ∈ c!"! ", c ∈ uslAlphabet) c hc
      · cases hc
    · have hp := pre_address t
      revert hc
      cases hpre : t.pre with
      | nil => intro hc; cases hc
      | cons a as =>
        intro hc
        rcases List.mem_append.1 hc with hc | hc
        · exact alphabet_address a (hp a (by rw [hpre]; simp)) c hc
        · exact (by decide : ∀ c ∈ c!" ", c ∈ uslAlphabet) c hc
    · refine alphabet_join ?_ c hc
      intro a ha
      exact alphabet_address a (items_address hok e he a ha)
    · exact (by decide : ∀ c ∈ c!" ", c ∈ uslAlphabet) c hc
    · cases hx : e.2 with
      | none =>
        rw [hx] at hc
        exact (by decide : ∀ c ∈ c!"None", c ∈ uslAlphabet) c hc
      | some x =>
        rw [hx] at hc
        refine alphabet_lexeme (ha (pushAddr t.pre e) ?_ x hx) c hc
        show _ ∈ f.asList t
        rw [asList_items]
        exact List.mem_map_of_mem he
  · exact (by decide : ∀ c ∈ c!"]", c ∈ uslAlphabet) c hc

/-- **C84**, the characters of the texts of all the expressions that are read, whatever the text they were read from: the signs of IEML,
digits, blanks; in particular no quotation mark, no line break, no slash and no backslash. -/
theorem C84_alphabet {t : Str} {u : Expr} {ds : List (Str × Str)} (h : uslRead t = .ok (u, ds)) :
    (∀ c ∈ u.text, c ∈ uslAlphabet) ∧ OneLine u.text ∧ NoQuote u.text ∧ '/' ∉ u.text ∧ '\\' ∉ u.text := by
  have key : ∀ c ∈ u.text, c ∈ uslAlphabet := by
    have := read_made h
    cases u with
    | script s => exact alphabet_script this
    | pm p => exact alphabet_pm this
    | lexeme x => exact alphabet_lexeme this
    | word w => exact alphabet_word this.1
  refine ⟨key, ⟨fun h => ?_, fun h => ?_⟩, fun h => ?_, fun h => ?_, fun h => ?_⟩ <;>
    exact absurd (key _ h) (by decide)

/-! ### Keys of the database -/

theorem singular_of_str {x y : Script} (hx : WF x) (hy : WF y) (h : x.str = y.str) (hs : Singular x) : Singular y := by
  rw [singular_iff hx] at hs
  rw [singular_iff hy, ← cardinal_of_str hx hy h, hs]

theorem samePM_mem {p q : PM} (h : SamePM p q) : (∀ x ∈ p.constant, ∃ y ∈ q.constant, y.str = x.str) ∧
    ∀ g ∈ p.groups, ∃ k ∈ q.groups, g.1.map str = k.1.map str ∧ g.2 = k.2 := by
  constructor
  · intro x hx
    have : x.str ∈ q.constant.map str := h.constant ▸ List.mem_map_of_mem hx
    obtain ⟨y, hy, e⟩ := List.mem_map.1 this
    exact ⟨y, hy, e⟩
  · intro g hg
    have : (g.1.map str, g.2) ∈ q.groups.map fun g => (g.1.map str, g.2) := h.groups ▸ List.mem_map_of_mem hg
    obtain ⟨k, hk, e⟩ := List.mem_map.1 this
    rw [Prod.mk.injEq] at e
    exact ⟨k, hk, e.1.symm, e.2.symm⟩

/-- A polymorpheme of clean morphemes with a single word each. -/
def KeyPM (p : PM) : Prop := CleanPM p ∧ p.Each Singular

theorem keyPM_same {p q : PM} (hp : MadePM p) (hq : MadePM q) (h : SamePM p q) (hk : KeyPM q) : KeyPM p := by
  have hc := (samePM_mem h).1
  have hg := (samePM_mem h).2
  have one : ∀ {x y : Script}, WF x → WF y → y.str = x.str → CleanMorpheme y → Singular y → CleanMorpheme x ∧ Singular x := by
    intro x y hx hy e h1 h2
    have := singular_of_str hy hx e h2
    exact ⟨⟨fun c r => e ▸ h1.1 c r, .inr this⟩, this⟩
  have hcon : ∀ x ∈ p.constant, CleanMorpheme x ∧ Singular x := by
    intro x hx
    obtain ⟨y, hy, e⟩ := hc x hx
    exact one (hp.parts.1 x hx) (hq.parts.1 y hy) e (hk.1.constant y hy) (hk.2.1 y hy)
  have hgr : ∀ g ∈ p.groups, g.1 ≠ [] ∧ ∀ x ∈ g.1, CleanMorpheme x ∧ Singular x := by
    intro g hgm
    obtain ⟨k, hkm, e, _⟩ := hg g hgm
    refine ⟨fun hn => ?_, fun x hx => ?_⟩
    · rw [hn] at e
      exact (hk.1.groups k hkm).1 (by simpa using e.symm)
    · have : x.str ∈ k.1.map str := e ▸ List.mem_map_of_mem hx
      obtain ⟨y, hy, ey⟩ := List.mem_map.1 this
      exact one (hp.parts.2 g hgm x hx) (hq.parts.2 k hkm y hy) ey ((hk.1.groups k hkm).2 y hy) (hk.2.2 k hkm y hy)
  exact ⟨⟨fun x hx => (hcon x hx).1, fun g hg => ⟨(hgr g hg).1, fun x hx => ((hgr g hg).2 x hx).1⟩⟩,
    fun x hx => (hcon x hx).2, fun g hg x hx => ((hgr g hg).2 x hx).2⟩

theorem SamePM.lens {p q : PM} (h : SamePM p q) : p.constant.length = q.constant.length ∧ p.groups.length = q.groups.length := by
  have h1 := congrArg List.length h.constant
  have h2 := congrArg List.length h.groups
  simp only [List.length_map] at h1 h2
  exact ⟨h1, h2⟩

theorem samePM_empty {p q : PM} (hp : MadePM p) (hq : MadePM q) (h : SamePM p q) : p.empty = q.empty := by
  have h1 := h.constant
  have h2 := h.lens.2
  have hp := hp.parts.1
  have hq := hq.parts.1
  unfold PM.empty
  generalize p.constant = C at *
  generalize q.constant = D at *
  generalize p.groups = G at *
  generalize q.groups = H at *
  have hg : G.isEmpty = H.isEmpty := by cases G <;> cases H <;> simp_all
  rw [hg]
  match C, D, h1 with
  | [], [], _ => rfl
  | [], _ :: _, h => cases h
  | _ :: _, [], h => cases h
  | x :: C, y :: D, h =>
    rw [List.map_cons, List.map_cons, List.cons.injEq] at h
    have hl : C.length = D.length := by simpa using congrArg List.length h.2
    simp only [List.length_cons, hl, empty_of_str (hp x (by simp)) (hq y (by simp)) h.1]

theorem samePM_lone {p q : PM} (h : SamePM p q) (hl : LonePM p) : LonePM q := by
  obtain ⟨h1, m, h2⟩ := hl
  have := h.lens
  rw [h1, h2] at this
  simp only [List.length_cons, List.length_nil] at this
  refine ⟨List.length_eq_zero_iff.1 this.2.symm, ?_⟩
  exact List.length_eq_one_iff.1 this.1.symm

/-- An expression that is the same as a key is a key. -/
theorem key_same {u v : Expr} (hu : MadeExpr u) (hv : MadeExpr v) (h : SameExpr u v) (hk : v.Key) : u.Key := by
  match u, v, h with
  | .script s, .script t, h =>
    refine ⟨?_, trivial, by simp⟩
    intro c r
    have hc : NotOldClass t := hk.clean
    rw [h.1]
    exact hc c r
  | .pm p, .pm q, h =>
    have hc : CleanPM q ∧ q.empty = false := hk.clean
    have := keyPM_same hu hv h ⟨hc.1, hk.singular⟩
    refine ⟨⟨this.1, (samePM_empty hu hv h).trans hc.2⟩, this.2, ?_⟩
    rintro p' ⟨⟩ hl
    exact hk.notLone q rfl (samePM_lone h hl)
  | .lexeme x, .lexeme y, h =>
    obtain ⟨a, b, rfl, ha, hb⟩ := hu
    obtain ⟨a', b', rfl, ha', hb'⟩ := hv
    have hc : CleanLexeme (mkLexeme a' b') := hk.clean
    have hs : a'.Each Singular ∧ b'.Each Singular := hk.singular
    have k1 := keyPM_same ha ha' h.flexion ⟨hc.1, hs.1⟩
    have k2 := keyPM_same hb hb' h.content ⟨hc.2, hs.2⟩
    exact ⟨⟨k1.1, k2.1⟩, ⟨k1.2, k2.2⟩, by simp⟩
  | .word w, .word v, h =>
    have ma := MadeWord.actors hu.1
    have mb := MadeWord.actors hv.1
    have hc : ∀ e ∈ v.sfun.asList v.context, ∃ x, e.2 = some x ∧ CleanLexeme x := hk.clean
    have hs : ∀ e ∈ v.sfun.asList v.context, ∀ x, e.2 = some x → x.flexion.Each Singular ∧ x.content.Each Singular := hk.singular
    obtain ⟨l, hp, hf⟩ := h.lexemes
    have key : ∀ e ∈ w.sfun.asList w.context, ∃ x, e.2 = some x ∧ CleanLexeme x ∧ x.flexion.Each Singular ∧ x.content.Each Singular := by
      intro e he
      obtain ⟨e', he', hee⟩ := forall₂_mem_left hf (hp.mem_iff.2 he)
      obtain ⟨y, hy, hcy⟩ := hc e' he'
      have hsy := hs e' he' y hy
      have h2 := hee.2
      rw [hy] at h2
      cases hx : e.2 with
      | none => rw [hx] at h2; exact h2.elim
      | some x =>
        rw [hx] at h2
        have h2 : SameLexeme x y := h2
        obtain ⟨a, b, rfl, ha, hb⟩ := ma e he x hx
        obtain ⟨a', b', rfl, ha', hb'⟩ := mb e' he' y hy
        have k1 := keyPM_same ha ha' h2.flexion ⟨hcy.1, hsy.1⟩
        have k2 := keyPM_same hb hb' h2.content ⟨hcy.2, hsy.2⟩
        exact ⟨_, rfl, ⟨k1.1, k2.1⟩, k1.2, k2.2⟩
    refine ⟨fun e he => ?_, fun e he x hx => ?_, by simp⟩
    · obtain ⟨x, h1, h2, _⟩ := key e he
      exact ⟨x, h1, h2⟩
    · obtain ⟨y, h1, _, h2⟩ := key e he
      rw [hx] at h1
      cases h1
      exact h2

theorem KeyPM.ok {p : PM} (hm : MadePM p) (hk : KeyPM p) : OkPM p := by
  obtain ⟨cs, gs, rfl, hl⟩ := made_legible hm hk.1
  exact ⟨cs, gs, rfl, fun x hx => (hl.constant x hx).1, fun g hg x hx => (hl.groups g hg x hx).1⟩

/-- The number of singular sequences of a polymorpheme. -/
theorem same_count {p q : PM} (hp : MadePM p) (hq : MadePM q) (h : SamePM p q) (kp : KeyPM p) (kq : KeyPM q) :
    ∃ L M, p.singularSequences = .ok L ∧ q.singularSequences = .ok M ∧ L.length = M.length := by
  obtain ⟨L, hL⟩ := pm_total p
  obtain ⟨M, hM, M', hp', hf⟩ := same_sequences (kp.ok hp) (kq.ok hq) h hL
  exact ⟨L, M, hL, hM, hf.length_eq.trans hp'.length_eq⟩

theorem lexeme_count {x : Lexeme} {a b : List PM} (ha : x.flexion.singularSequences = .ok a) (hb : x.content.singularSequences = .ok b) :
    ∃ L, x.singularSequences = .ok L ∧ L.length = a.length * b.length := by
  obtain ⟨L, hL⟩ := lexeme_total x
  refine ⟨L, hL, ?_⟩
  rcases lexeme_sequence ha hb hL with ⟨h1, h2, rfl⟩ | ⟨_, rfl⟩
  · rw [h1, h2]; rfl
  · simp [List.length_flatMap]

theorem same_count_lexeme {x y : Lexeme} (hx : MadeLexeme x) (hy : MadeLexeme y) (h : SameLexeme x y) (kx : CleanLexeme x)
    (sx : x.flexion.Each Singular ∧ x.content.Each Singular) (ky : CleanLexeme y) (sy : y.flexion.Each Singular ∧ y.content.Each Singular) :
    ∃ L M, x.singularSequences = .ok L ∧ y.singularSequences = .ok M ∧ L.length = M.length := by
  obtain ⟨a, b, rfl, ha, hb⟩ := hx
  obtain ⟨a', b', rfl, ha', hb'⟩ := hy
  obtain ⟨A, A', h1, h2, h3⟩ := same_count ha ha' h.flexion ⟨kx.1, sx.1⟩ ⟨ky.1, sy.1⟩
  obtain ⟨B, B', h4, h5, h6⟩ := same_count hb hb' h.content ⟨kx.2, sx.2⟩ ⟨ky.2, sy.2⟩
  obtain ⟨L, h7, h8⟩ := lexeme_count (x := mkLexeme a b) h1 h4
  obtain ⟨M, h9, h10⟩ := lexeme_count (x := mkLexeme a' b') h2 h5
  exact ⟨L, M, h7, h9, by rw [h8, h10, h3, h6]⟩

theorem word_lists : ∀ {l : List (RoleEntry Lexeme)}, (∀ e ∈ l, ∃ x, e.2 = some x) →
    ∃ xss : List (List Lexeme), List.Forall₂ (fun e xs => ∃ x : Lexeme, e.2 = some x ∧ x.singularSequences = .ok xs) l xss
  | [], _ => ⟨[], .nil⟩
  | e :: l, h => by
    obtain ⟨xss, hx⟩ := word_lists (l := l) fun e he => h e (List.mem_cons_of_mem _ he)
    obtain ⟨x, h1⟩ := h e (by simp)
    obtain ⟨L, h2⟩ := lexeme_total x
    exact ⟨L :: xss, .cons ⟨x, h1, h2⟩ hx⟩

theorem perm_prod {l m : List Nat} (h : l.Perm m) : l.prod = m.prod := by
  induction h with
  | nil => rfl
  | cons _ _ ih => rw [List.prod_cons, List.prod_cons, ih]
  | swap => simp only [List.prod_cons]; rw [Nat.mul_left_comm]
  | trans _ _ h1 h2 => exact h1.trans h2

theorem _root_.List.Forall₂.imp_mem {α β : Type} {R S : α → β → Prop} {l : List α} {m : List β} (h : List.Forall₂ R l m)
    (hi : ∀ a b, a ∈ l → b ∈ m → R a b → S a b) : List.Forall₂ S l m := by
  induction h with
  | nil => exact .nil
  | cons h1 _ ih =>
    exact .cons (hi _ _ (by simp) (by simp) h1) (ih fun a b ha hb => hi a b (List.mem_cons_of_mem _ ha) (List.mem_cons_of_mem _ hb))

theorem map_forall₂ {α β γ : Type} {f : α → γ} {g : β → γ} {l : List α} {m : List β} (h : List.Forall₂ (fun a b => f a = g b) l m) :
    l.map f = m.map g := by
  induction h with
  | nil => rfl
  | cons h1 _ ih => rw [List.map_cons, List.map_cons, h1, ih]

/-- The same expressions that are keys have the same length. -/
theorem same_len {u v : Expr} (hu : MadeExpr u) (hv : MadeExpr v) (h : SameExpr u v) (ku : u.Key) (kv : v.Key) :
    ∃ n, u.len = .ok n ∧ v.len = .ok n := by
  match u, v, h with
  | .script s, .script t, h => exact ⟨_, rfl, by rw [Expr.len, cardinal_of_str hu hv h.1]⟩
  | .pm p, .pm q, h =>
    have c1 : CleanPM p ∧ p.empty = false := ku.clean
    have c2 : CleanPM q ∧ q.empty = false := kv.clean
    obtain ⟨L, M, h1, h2, h3⟩ := same_count hu hv h ⟨c1.1, ku.singular⟩ ⟨c2.1, kv.singular⟩
    refine ⟨L.length, ?_, ?_⟩
    · simp [Expr.len, Expr.length, Expr.sequences, h1, Except.map]
    · simp [Expr.len, Expr.length, Expr.sequences, h2, Except.map, h3]
  | .lexeme x, .lexeme y, h =>
    obtain ⟨L, M, h1, h2, h3⟩ := same_count_lexeme hu hv h ku.clean ku.singular kv.clean kv.singular
    refine ⟨L.length, ?_, ?_⟩
    · simp [Expr.len, Expr.length, Expr.sequences, h1, Except.map]
    · simp [Expr.len, Expr.length, Expr.sequences, h2, Except.map, h3]
  | .word w, .word v, h =>
    have ma := MadeWord.actors hu.1
    have mb := MadeWord.actors hv.1
    have ca : ∀ e ∈ w.sfun.asList w.context, ∃ x, e.2 = some x ∧ CleanLexeme x := ku.clean
    have cb : ∀ e ∈ v.sfun.asList v.context, ∃ x, e.2 = some x ∧ CleanLexeme x := kv.clean
    have sa : ∀ e ∈ w.sfun.asList w.context, ∀ x, e.2 = some x → x.flexion.Each Singular ∧ x.content.Each Singular := ku.singular
    have sb : ∀ e ∈ v.sfun.asList v.context, ∀ x, e.2 = some x → x.flexion.Each Singular ∧ x.content.Each Singular := kv.singular
    obtain ⟨l, hp, hf⟩ := h.lexemes
    obtain ⟨xss, hx⟩ := word_lists (l := w.sfun.asList w.context) fun e he => (ca e he).imp fun _ h => h.1
    obtain ⟨yss, hy⟩ := word_lists (l := v.sfun.asList v.context) fun e he => (cb e he).imp fun _ h => h.1
    obtain ⟨zss, hz⟩ := word_lists (l := l) fun e he => (ca e (hp.mem_iff.1 he)).imp fun _ h => h.1
    -- by a function of the entries
    have len : ∃ n : RoleEntry Lexeme → Nat, ∀ e x L, e.2 = some x → x.singularSequences = .ok L → n e = L.length := by
      refine ⟨fun e => match e.2 with | some x => (match x.singularSequences with | .ok L => L.length | .error _ => 0) | none => 0, ?_⟩
      intro e x L h1 h2
      simp only [h1, h2]
    obtain ⟨n, hn⟩ := len
    have prods : ∀ {l : List (RoleEntry Lexeme)} {xss : List (List Lexeme)},
        List.Forall₂ (fun e xs => ∃ x : Lexeme, e.2 = some x ∧ x.singularSequences = .ok xs) l xss → xss.map List.length = l.map n := by
      intro l xss h
      induction h with
      | nil => rfl
      | cons h1 _ ih =>
        obtain ⟨x, h1, h2⟩ := h1
        rw [List.map_cons, List.map_cons, ih, hn _ x _ h1 h2]
    have hprod : (xss.map List.length).prod = (yss.map List.length).prod := by
      rw [prods hx, prods hy]
      have e1 : ((w.sfun.asList w.context).map n).prod = (l.map n).prod := (perm_prod (hp.map n)).symm
      rw [e1]
      congr 1
      refine map_forall₂ (hf.imp_mem fun a b ha hb hab => ?_)
      have ha := hp.mem_iff.1 ha
      obtain ⟨x, h1, h2⟩ := ca a ha
      obtain ⟨y, h3, h4⟩ := cb b hb
      have hxy : SameLexeme x y := by
        have := hab.2
        rw [h1, h3] at this
        exact this
      obtain ⟨L, M, h5, h6, h7⟩ := same_count_lexeme (ma a ha x h1) (mb b hb y h3) hxy h2 (sa a ha x h1) h4 (sb b hb y h3)
      rw [hn a x L h1 h5, hn b y M h3 h6, h7]
    obtain ⟨⟨lw, tw, fw, rw_, hfw, hww, _⟩, _⟩ := hu
    obtain ⟨⟨lv, tv, fv, rv, hfv, hwv, _⟩, _⟩ := hv
    have data : ∀ {f : SFun Lexeme} {r : Addr} {t : SType} {w : WordUsl}, mkWord f r t = .ok w → w.sfun = f ∧ w.context = t := by
      intro f r t w hw
      obtain ⟨text, h1, h2⟩ := bind_ok.1 hw
      obtain ⟨cl, h3, h4⟩ := bind_ok.1 h2
      rw [pure_ok] at h4
      subst h4
      exact ⟨rfl, rfl⟩
    obtain ⟨e1, e2⟩ := data hww
    obtain ⟨e3, e4⟩ := data hwv
    rw [e1, e2] at hx
    rw [e3, e4] at hy
    obtain ⟨L, h1, h2, _⟩ := word_sequences hfw hww hx
    obtain ⟨M, h3, h4, _⟩ := word_sequences hfv hwv hy
    refine ⟨L.length, ?_, ?_⟩
    · simp [Expr.len, Expr.length, Expr.sequences, h1, Except.map]
    · simp [Expr.len, Expr.length, Expr.sequences, h3, Except.map, h2, h4, hprod]

theorem same_text_kind {u v : Expr} (h : SameExpr u v) : u.text = v.text ∧ u.kind = v.kind := by
  match u, v, h with
  | .script s, .script t, h => exact ⟨h.1, rfl⟩
  | .pm p, .pm q, h => exact ⟨h.text, rfl⟩
  | .lexeme x, .lexeme y, h => exact ⟨h.text, rfl⟩
  | .word w, .word v, h => exact ⟨h.text, rfl⟩

/-- **C84** for the database: a text read as a key is accepted by the database, whatever decorations and file names are; the text of the
key is accepted too and has the same text, class and singularity, so that it leads to the same file.  It is a key again. -/
theorem C84_key (inst : Expr → List (Str × Str) → Except Err Parsed) (digest : Str → Str) {t : Str} {u : Expr}
    (h : uslRead t = .ok (u, [])) (hk : u.Key) :
    ∃ q, (readerExt inst digest).parse t = .ok q ∧ q.text = u.text ∧ q.kind = u.kind ∧ (readerExt inst digest).parse q.text = .ok q ∧
      (∀ d, pathOf (readerExt inst digest) t d true = pathOf (readerExt inst digest) u.text d false) ∧
      ∃ u', uslRead u.text = .ok (u', []) ∧ SameExpr u' u ∧ u'.Key := by
  obtain ⟨u', h1, h2⟩ := C84_stable_partial h hk.clean
  have h2 : SameExpr u' u := by
    rcases h2 with h2 | ⟨p, m, s, rfl, h3, h4, _⟩
    · exact h2
    · exact absurd ⟨h3, m, h4⟩ (hk.notLone p rfl)
  have k' := key_same (read_made h1) (read_made h) h2 hk
  obtain ⟨n, h3, h4⟩ := same_len (read_made h1) (read_made h) h2 k' hk
  obtain ⟨ht, hkd⟩ := same_text_kind h2
  have p1 : (readerExt inst digest).parse t = .ok ⟨u.text, u.kind, n == 1⟩ := by
    simp [readerExt, h, Expr.parsed, h4, bind, Except.bind, pure, Except.pure]
  have p2 : (readerExt inst digest).parse u.text = .ok ⟨u.text, u.kind, n == 1⟩ := by
    simp [readerExt, h1, Expr.parsed, h3, bind, Except.bind, pure, Except.pure, ht, hkd]
  refine ⟨_, p1, rfl, rfl, p2, ?_, u', h1, h2, k'⟩
  intro d
  simp [pathOf, p1, p2, bind, Except.bind, pure, Except.pure]

/-- **C84** What the database takes from a text that is read without decorations: the text of the expression, its class, and whether it
has exactly one word (a script) or one singular sequence (a USL). -/
theorem C84_filed (inst : Expr → List (Str × Str) → Except Err Parsed) (digest : Str → Str) {t : Str} {u : Expr} {q : Parsed}
    (h : uslRead t = .ok (u, [])) (hq : (readerExt inst digest).parse t = .ok q) :
    q.text = u.text ∧ (∀ s, u = .script s → q.kind = .morpheme ∧ (q.singular = true ↔ Singular s)) ∧
    ((∀ s, u ≠ .script s) → (q.singular = true ↔ ∃ v, u.sequences = .ok [v])) ∧
    (∀ p, u = .pm p → q.kind = .polymorpheme) ∧ (∀ x, u = .lexeme x → q.kind = .lexeme) ∧ ∀ w, u = .word w → q.kind = .word := by
  have hm := read_made h
  simp only [readerExt, h] at hq
  obtain ⟨n, h1, h2⟩ := bind_ok.1 hq
  rw [pure_ok] at h2
  subst h2
  have one : (∀ s, u ≠ .script s) → ((n == 1) = true ↔ ∃ v, u.sequences = .ok [v]) := by
    intro hs
    have hl : u.length = .ok n := by
      cases u with
      | script s => exact absurd rfl (hs s)
      | _ => exact h1
    unfold Expr.length at hl
    cases hseq : u.sequences with
    | error e => rw [hseq] at hl; cases hl
    | ok L =>
      rw [hseq, Except.map, Except.ok.injEq] at hl
      rw [beq_iff_eq, ← hl, List.length_eq_one_iff]
      simp
  refine ⟨rfl, ?_, one, ?_, ?_, ?_⟩
  · rintro s rfl
    have hw : WF s := hm
    cases h1
    exact ⟨rfl, by rw [beq_iff_eq, singular_iff hw]⟩
  · rintro p rfl; rfl
  · rintro p rfl; rfl
  · rintro p rfl; rfl

open Classical in
/-- The parser of the database when only keys are given to it: the other texts are refused. -/
noncomputable def keyExt (inst : Expr → List (Str × Str) → Except Err Parsed) (digest : Str → Str) : Ext where
  parse t := if ∃ u, uslRead t = .ok (u, []) ∧ u.Key then (readerExt inst digest).parse t else .error .cannotParse
  digest := digest

/-- **C84** for the database: as long as only keys are given to it, the hypotheses of the theorems on the database (C25 to C28) hold for
the parser. -/
theorem C84_database (inst : Expr → List (Str × Str) → Except Err Parsed) (digest : Str → Str) :
    (keyExt inst digest).Stable ∧ (keyExt inst digest).Plain ∧
    ∀ t u, uslRead t = .ok (u, []) → u.Key → (keyExt inst digest).parse t = (readerExt inst digest).parse t := by
  have inv : ∀ t q, (keyExt inst digest).parse t = .ok q →
      ∃ u, uslRead t = .ok (u, []) ∧ u.Key ∧ (readerExt inst digest).parse t = .ok q := by
    intro t q h
    by_cases hk : ∃ u, uslRead t = .ok (u, []) ∧ u.Key
    · obtain ⟨u, h1, h2⟩ := hk
      refine ⟨u, h1, h2, ?_⟩
      simpa only [keyExt, if_pos (⟨u, h1, h2⟩ : ∃ u, uslRead t = .ok (u, []) ∧ u.Key)] using h
    · simp only [keyExt, if_neg hk] at h
      cases h
  have out : ∀ t u, uslRead t = .ok (u, []) → u.Key → (keyExt inst digest).parse t = (readerExt inst digest).parse t := by
    intro t u h1 h2
    simp only [keyExt, if_pos (⟨u, h1, h2⟩ : ∃ u, uslRead t = .ok (u, []) ∧ u.Key)]
  refine ⟨?_, ?_, out⟩
  · intro t q h
    obtain ⟨u, h1, h2, h3⟩ := inv t q h
    obtain ⟨q', h4, h5, _, h6, _, u', h7, h8, h9⟩ := C84_key inst digest h1 h2
    rw [h3] at h4
    cases h4
    rw [out _ u' (h5 ▸ h7) h9]
    exact h6
  · intro t q h
    obtain ⟨u, h1, h2, h3⟩ := inv t q h
    obtain ⟨q', h4, h5, _⟩ := C84_key inst digest h1 h2
    rw [h3] at h4
    cases h4
    rw [h5]
    exact ⟨(C84_alphabet h1).2.1, (C84_alphabet h1).2.2.1⟩

/-! ### Where the text of an expression is not read as this expression -/

/-- What reading a text, and reading again the text of the result, give: the texts and the classes. -/
def readTwice (t : Str) : Except Err (Str × Kind) × Except Err (Str × Kind) :=
  match uslRead t with
  | .error e => (.error e, .error e)
  | .ok (u, _) => (.ok (u.text, u.kind), (uslRead u.text).map fun v => (v.1.text, v.1.kind))

/-- **C84** is violated by a morpheme that starts with the empty script of layer 1 and a letter of the old grammatical classes: its text
is refused, or silently read as another morpheme. -/
theorem C84_violated_old_class :
    readTwice (c!"E:.b.E:S:E:.-") = (.ok (c!"E:.b.E:S:.-", .morpheme), .error .cannotParse) ∧
    readTwice (c!"E:.b.E:U:E:.-") = (.ok (c!"E:.b.E:U:.-", .morpheme), .ok (c!"b.E:U:.-", .morpheme)) := by
  decide +kernel

/-- **C84** is violated by an empty group: its text is refused. -/
theorem C84_violated_empty_group : readTwice (c!"A: m1(E:)") = (.ok (c!"A: m1()", .polymorpheme), .error .cannotParse) ∧
    readTwice (c!"(m1(E:))(A:)") = (.ok (c!"(m1())(A:)", .lexeme), .error .cannotParse) := by
  constructor <;> decide +kernel

/-- **C84** is violated by a polymorpheme without morphemes: its text is the empty text, which is read as the empty script. -/
theorem C84_violated_empty : readTwice (c!"E: E:") = (.ok ([], .polymorpheme), .ok (c!"E:", .morpheme)) := by decide +kernel

/-- **C84** is violated by a polymorpheme of one morpheme: its text is read as the morpheme, which the database files in another
folder. -/
theorem C84_violated_lone : readTwice (c!"A: E:") = (.ok (c!"A:", .polymorpheme), .ok (c!"A:", .morpheme)) := by decide +kernel

/-- **C84** is violated by a sum of one term: the order of the morphemes changes when the text is read again, so the text that is
stored is not the text that is looked up. -/
theorem C84_violated_order : readTwice (c!"U:.A:.+S:.B:.-+U:.A:.+S:.B:.- U:.+A:.S:.B:.-") =
    (.ok (c!"U:.+A:.S:.B:.- U:.A:.+S:.B:.-", .polymorpheme), .ok (c!"U:.A:.+S:.B:.- U:.+A:.S:.B:.-", .polymorpheme)) := by
  decide +kernel

/-- **C84** is violated by a word with a missing actor: its text is refused. -/
theorem C84_violated_missing :
    readTwice (c!"[! E:A:. E:A:. (A:)]") = (.ok (c!"[E:A:.  None > ! E:A:. E:A:. (A:)]", .word), .error .cannotParse) := by decide +kernel

/-- What the database uses of a text that is read. -/
def probe (t : Str) : Except Err (Kind × Str × Option Nat × List (Str × Str)) :=
  (uslRead t).map fun r => (r.1.kind, r.1.text, r.1.len.toOption, r.2)

/-- The claim is false, and so is the hypothesis of the theorems on the database for the parser as it is. -/
theorem C84_violated : ¬ C84_claim ∧ ∀ inst digest, ¬ (readerExt inst digest).Stable := by
  have hk : probe (c!"A: E:") = .ok (.polymorpheme, c!"A:", some 1, []) := by rfl
  have hs : probe (c!"A:") = .ok (.morpheme, c!"A:", some 1, []) := by rfl
  cases h1 : uslRead (c!"A: E:") with
  | error e => simp only [probe, h1] at hk; cases hk
  | ok r =>
    cases h2 : uslRead (c!"A:") with
    | error e => simp only [probe, h2] at hs; cases hs
    | ok q =>
      obtain ⟨u, ds⟩ := r
      obtain ⟨v, es⟩ := q
      rw [probe, h1, Except.map, Except.ok.injEq, Prod.mk.injEq, Prod.mk.injEq, Prod.mk.injEq] at hk
      rw [probe, h2, Except.map, Except.ok.injEq, Prod.mk.injEq, Prod.mk.injEq, Prod.mk.injEq] at hs
      obtain ⟨k1, k2, k3, rfl⟩ := hk
      obtain ⟨s1, s2, s3, rfl⟩ := hs
      have ofOption : ∀ {x : Except Err Nat}, x.toOption = some 1 → x = .ok 1 := by
        intro x h
        cases x <;> cases h
        rfl
      have k3 := ofOption k3
      have s3 := ofOption s3
      constructor
      · intro hc
        obtain ⟨u', h3, h4⟩ := hc _ _ h1
        rw [k2, h2] at h3
        cases h3
        have := (same_text_kind h4).2
        rw [s1, k1] at this
        cases this
      · intro inst digest hst
        have p1 : (readerExt inst digest).parse (c!"A: E:") = .ok ⟨c!"A:", .polymorpheme, true⟩ := by
          simp only [readerExt, h1, Expr.parsed, bind, Except.bind, pure, Except.pure]
          simp only [k1, k2, k3]
          rfl
        have p2 : (readerExt inst digest).parse (c!"A:") = .ok ⟨c!"A:", .morpheme, true⟩ := by
          simp only [readerExt, h2, Expr.parsed, bind, Except.bind, pure, Except.pure]
          simp only [s1, s2, s3]
          rfl
        have := hst _ _ p1
        rw [p2] at this
        cases this

/-! ### Cases meeting the hypotheses -/

theorem notOld_of_head {x : Script} {c d : Char} {r : Str} (h : x.str = c :: d :: r) (hd : ¬ (c = 'E' ∧ d = ':')) : NotOldClass x := by
  intro k s hs
  rw [h] at hs
  simp only [List.cons_append, List.nil_append, List.cons.injEq] at hs
  exact hd ⟨hs.1, hs.2.1⟩

theorem keyPM_prims {p : PM} {cs : List Prim} {gs : List (List Prim × Nat)} (hc : p.constant = cs.map .prim)
    (hg : p.groups = gs.map fun g => (g.1.map .prim, g.2)) (hn : ∀ g ∈ gs, g.1 ≠ []) : KeyPM p := by
  have one : ∀ a : Prim, CleanMorpheme (.prim a) ∧ Singular (.prim a) := by
    intro a
    have : Singular (.prim a) := (singular_iff (built_wf (orderly_prim a).1)).2 rfl
    exact ⟨⟨notOld_prim a, .inr this⟩, this⟩
  have h1 : ∀ x ∈ p.constant, CleanMorpheme x ∧ Singular x := by
    intro x hx
    rw [hc, List.mem_map] at hx
    obtain ⟨a, _, rfl⟩ := hx
    exact one a
  have h2 : ∀ g ∈ p.groups, g.1 ≠ [] ∧ ∀ x ∈ g.1, CleanMorpheme x ∧ Singular x := by
    intro g hgm
    rw [hg, List.mem_map] at hgm
    obtain ⟨k, hk, rfl⟩ := hgm
    refine ⟨by simpa using hn k hk, fun x hx => ?_⟩
    obtain ⟨a, _, rfl⟩ := List.mem_map.1 hx
    exact one a
  exact ⟨⟨fun x hx => (h1 x hx).1, fun g hg => ⟨(h2 g hg).1, fun x hx => ((h2 g hg).2 x hx).1⟩⟩,
    fun x hx => (h1 x hx).2, fun g hg x hx => ((h2 g hg).2 x hx).2⟩

/-- A polymorpheme with two groups. -/
def demoKey : PM := mkPM [.prim .S, .prim .U] [([.prim .T, .prim .B], 2), ([.prim .A], 1)]

-- A polymorpheme with groups, written in another order, is a key.
example : uslRead (c!"S: U: m2(T: B:) m1(A:)") = .ok (.pm demoKey, []) ∧ (Expr.pm demoKey).Key ∧
    (Expr.pm demoKey).text = c!"U: S: m1(A:) m2(B: T:)" := by
  refine ⟨by rfl, ?_, by decide +kernel⟩
  have hk : KeyPM demoKey :=
    keyPM_prims (cs := [.U, .S]) (gs := [([.A], 1), ([.B, .T], 2)]) (by decide +kernel) (by decide +kernel) (by simp)
  refine ⟨⟨hk.1, by decide +kernel⟩, hk.2, ?_⟩
  rintro p ⟨⟩ ⟨_, m, hm⟩
  have : ([m] : List Script).length = 2 := by rw [← hm]; decide +kernel
  simp at this

end Verif
