import Verif.Lemmas.Instance
import Verif.Props.Stability
import Verif.Props.DecorationList

/-
C88: the texts of decorated expressions are read back.
-/

namespace Verif
open Script

/-! ### The paths that the lexer of USLs knows -/

/-- The morphemes of a path. -/
def MorphemeOf (p : Path) (m : Script) : Prop := (∃ g k, Step.pm g (some m) k ∈ p) ∨ Step.flexion m ∈ p

/-- A path that can be written in the text of a decorated expression: no focus, no group, not a role alone, no morpheme that starts like an
old grammatical class. -/
structure Writable (p : Path) : Prop where
  focus : ∀ a f, Step.role a f ∈ p → f = false
  alone : ∀ a f, p ≠ [.role a f]
  group : ∀ g m k, Step.pm g m k ∈ p → g = .constant
  morpheme : ∀ m, MorphemeOf p m → NotOldClass m

theorem script_no_bracket {m : Script} (h : WF m) : '[' ∉ m.str := by
  intro hm
  have := termRest_of (str_termChar h _ hm)
  revert this; decide

theorem halfText_no_bracket {w : Str} (h : HalfText w) : '[' ∉ w := by
  cases h with
  | half c => cases c <;> decide
  | constant => decide
  | content hm _ =>
    rw [List.mem_append]
    rintro (h | h)
    · revert h; decide
    · exact script_no_bracket hm h
  | flexion hm _ =>
    rw [List.mem_append]
    rintro (h | h)
    · revert h; decide
    · exact script_no_bracket hm h

theorem lexWritten_half {q : Path} (h : LexWritten q) (hw : ∀ g m k, Step.pm g m k ∈ q → g = .constant)
    (hm : ∀ m, MorphemeOf q m → NotOldClass m) : ∃ w, pathText q = '>' :: w ∧ HalfText w := by
  cases h with
  | one c => exact ⟨_, by simp [pathText, Step.text], .half c⟩
  | @content s hs =>
    cases hs with
    | @constant m k hx =>
      cases m with
      | none => exact ⟨_, rfl, .constant⟩
      | some m =>
        exact ⟨_, by simp [pathText, Step.text, GIdx.index], .content (hx m rfl) (readable_of (hm m (.inl ⟨_, _, by simp; exact ⟨rfl, rfl⟩⟩)))⟩
    | @group g m k hx hk =>
      obtain rfl := hw g m (some k) (by simp)
      cases m with
      | none => exact ⟨_, rfl, .constant⟩
      | some m =>
        exact ⟨_, by simp [pathText, Step.text, GIdx.index], .content (hx m rfl) (readable_of (hm m (.inl ⟨_, _, by simp; exact ⟨rfl, rfl⟩⟩)))⟩
  | @flexion m hx => exact ⟨_, by simp [pathText, Step.text], .flexion hx (readable_of (hm m (.inr (by simp))))⟩

theorem roleText_no_bracket {l : Addr} (ha : ∀ a ∈ l, a ∈ addressScripts) : '[' ∉ roleText l := by
  induction l with
  | nil => simp [roleText, joinSpace]
  | cons a l ih =>
    have h1 : '[' ∉ a := fun h => (address_chars a (ha a (by simp)) _ h).2 rfl
    cases l with
    | nil => simpa [roleText, joinSpace] using h1
    | cons b l =>
      have := ih fun x hx => ha x (List.mem_cons_of_mem _ hx)
      simp only [roleText, joinSpace] at this ⊢
      simp [h1, this]

/-- The lexer finds the end of such a path. -/
theorem path_ends {p : Path} (h : Written p) (hw : Writable p) : ∃ w, pathText p = '>' :: w ∧ PathEnds w ∧ '[' ∉ w := by
  have hcon : ∀ {m : Option Script} {k : Option Nat}, p = [.pm .constant m k] → (∀ x, m = some x → WF x) →
      ∃ w, pathText p = '>' :: w ∧ PathEnds w ∧ '[' ∉ w := by
    rintro m k rfl hx
    cases m with
    | none => exact ⟨c!"constant", rfl, fun r => rfl, by decide⟩
    | some m =>
      have hr := readable_of (hw.morpheme m (.inl ⟨_, _, by simp; exact ⟨rfl, rfl⟩⟩))
      refine ⟨c!"constant>" ++ m.str, by simp [pathText, Step.text, GIdx.index], fun r => ?_, ?_⟩
      · have h1 : roleStage (c!"constant>" ++ m.str ++ ' ' :: '"' :: r) = c!"constant>" ++ m.str ++ ' ' :: '"' :: r := by
          simp [roleStage, afterPrefix, List.isPrefixOf]
        have h2 : halfStage (c!"constant>" ++ m.str ++ ' ' :: '"' :: r) = c!"constant>" ++ m.str ++ ' ' :: '"' :: r := by
          simp [halfStage, afterPrefix, List.isPrefixOf]
        rw [afterPath_stages, h1, h2, (term_script (hx m rfl) hr _).2.1]
      · rw [List.mem_append]
        rintro (h | h)
        · revert h; decide
        · exact script_no_bracket (hx m rfl) h
  cases h with
  | usl => exact ⟨[], rfl, fun r => rfl, by simp⟩
  | @role l f q hl ha hq =>
    obtain rfl := hw.focus l f (by simp)
    rcases hq with rfl | hq
    · exact absurd rfl (hw.alone l false)
    · obtain ⟨w, h1, h2⟩ := lexWritten_half hq (fun g m k hm => hw.group g m k (List.mem_cons_of_mem _ hm)) fun m hm => hw.morpheme m (by
        rcases hm with ⟨g, k, hm⟩ | hm
        · exact .inl ⟨g, k, List.mem_cons_of_mem _ hm⟩
        · exact .inr (List.mem_cons_of_mem _ hm))
      have e : pathText (.role l false :: q) = '>' :: (c!"role>" ++ roleText l ++ pathText q) := by simp [pathText, Step.text]
      refine ⟨_, e, fun r => ?_, ?_⟩
      · rw [h1]
        have e2 : c!"role>" ++ roleText l ++ '>' :: w ++ ' ' :: '"' :: r = c!"role>" ++ roleText l ++ '>' :: (w ++ ' ' :: '"' :: r) := by simp
        rw [e2, afterPath_stages, roleStage_roles hl ha, (halfText_ends h2 _).1]
      · rw [h1]
        simp only [List.mem_append, List.mem_cons, not_or]
        exact ⟨⟨by decide, roleText_no_bracket ha⟩, by decide, halfText_no_bracket h2⟩
  | lexeme hq =>
    obtain ⟨w, h1, h2⟩ := lexWritten_half hq hw.group hw.morpheme
    refine ⟨w, h1, fun r => ?_, halfText_no_bracket h2⟩
    rw [afterPath_stages, (halfText_ends h2 _).2, (halfText_ends h2 _).1]
  | @flexion m hm =>
    have hr := readable_of (hw.morpheme m (.inr (by simp)))
    refine ⟨m.str, by simp [pathText, Step.text], fun r => ?_, script_no_bracket hm⟩
    obtain ⟨h1, _, h2, h3⟩ := term_script hm hr ('"' :: r)
    rw [afterPath_stages, h3, h2, h1]
  | pm hs =>
    cases hs with
    | constant hx => exact hcon rfl hx
    | @group g m k hx hk =>
      obtain rfl := hw.group g m (some k) (by simp)
      exact hcon rfl hx

/-! ### The other paths -/

/-- The lexer stops before the end of the path, and does not find a value. -/
def PathStuck (p : Path) : Prop := ∀ r, ∃ w s, pathText p ++ ' ' :: '"' :: r = '>' :: (w ++ s) ∧ afterPath (w ++ s) = s ∧ '[' ∉ w ∧ Stuck s

/-- A node that is a group or has a morpheme like an old class: how the third part of the lexer's path ends. -/
theorem pm_stuck {s : Step} (h : PMWritten s) (hb : ¬ ((∀ g m k, s = .pm g m k → g = .constant) ∧ ∀ g m k, s = .pm g (some m) k → NotOldClass m)) (r : Str) :
    ∃ w s', s.text ++ ' ' :: '"' :: r = w ++ s' ∧ termStage (w ++ s') = s' ∧ '[' ∉ w ∧ Stuck s' ∧
      roleStage (w ++ s') = w ++ s' ∧ halfStage (w ++ s') = w ++ s' := by
  have old : ∀ {m : Script} {k : Option Nat}, WF m → ¬ NotOldClass m → ∃ w s', (Step.pm .constant (some m) k).text ++ ' ' :: '"' :: r = w ++ s' ∧ termStage (w ++ s') = s' ∧ '[' ∉ w ∧ Stuck s' ∧
      roleStage (w ++ s') = w ++ s' ∧ halfStage (w ++ s') = w ++ s' := by
    intro m k hm ho
    have ho' : oldPrefix m.str = true := by
      by_contra hn
      refine ho fun c t e => hn ?_
      have hne : c ≠ '\n' := by
        rintro rfl
        have := termRest_of (str_termChar hm '\n' (by rw [e]; simp))
        revert this; decide
      rw [e]
      show (c != '\n') = true
      simpa using hne
    obtain ⟨h1, _⟩ := stuck_old ho' (' ' :: '"' :: r)
    refine ⟨c!"constant", '>' :: (m.str ++ ' ' :: '"' :: r), by simp [Step.text, GIdx.index], ?_, by decide, stuck_chevron _, rfl, rfl⟩
    have h2 : matchTerm (m.str ++ ' ' :: '"' :: r) = none := by
      unfold matchTerm
      rw [if_pos h1]
    have h3 : afterGroup (c!"constant" ++ '>' :: (m.str ++ ' ' :: '"' :: r)) = some (m.str ++ ' ' :: '"' :: r) := by
      simp [afterGroup, afterPrefix, List.isPrefixOf]
    unfold termStage
    rw [h3]
    show (match (matchTerm (m.str ++ ' ' :: '"' :: r)).map fun t => (m.str ++ ' ' :: '"' :: r).drop t.length with
      | some r => r
      | none => (c!"constant" ++ '>' :: (m.str ++ ' ' :: '"' :: r)).drop ((matchTerm (c!"constant" ++ '>' :: (m.str ++ ' ' :: '"' :: r))).getD []).length) = _
    rw [h2]
    rfl
  have grp : ∀ {i : GIdx} {m : Option Script} {k : Nat}, i ≠ .constant → ∃ w s', (Step.pm i m (some k)).text ++ ' ' :: '"' :: r = w ++ s' ∧ termStage (w ++ s') = s' ∧ '[' ∉ w ∧ Stuck s' ∧
      roleStage (w ++ s') = w ++ s' ∧ halfStage (w ++ s') = w ++ s' := by
    intro i m k hi
    have : ∃ t, (Step.pm i m (some k)).text ++ ' ' :: '"' :: r = c!"group_" ++ t ∧ termStage (c!"group_" ++ t) = c!"group_" ++ t := by
      cases i with
      | constant => exact absurd rfl hi
      | g0 => exact ⟨'0' :: ' ' :: _, by simp [Step.text, GIdx.index, groupName]; rfl, rfl⟩
      | g1 => exact ⟨'1' :: ' ' :: _, by simp [Step.text, GIdx.index, groupName]; rfl, rfl⟩
      | g2 => exact ⟨'2' :: ' ' :: _, by simp [Step.text, GIdx.index, groupName]; rfl, rfl⟩
    obtain ⟨t, h1, h2⟩ := this
    exact ⟨[], c!"group_" ++ t, h1, h2, by simp, stuck_group t, rfl, rfl⟩
  cases h with
  | @constant m k hx =>
    cases m with
    | none => exact absurd ⟨by rintro g m k ⟨⟩; rfl, by rintro g m k ⟨⟩⟩ hb
    | some m =>
      refine old (hx m rfl) fun ho => hb ⟨by rintro g m k ⟨⟩; rfl, ?_⟩
      rintro g m k ⟨⟩
      exact ho
  | @group i m k hx hk =>
    by_cases hi : i = .constant
    · subst hi
      cases m with
      | none => exact absurd ⟨by rintro g m k ⟨⟩; rfl, by rintro g m k ⟨⟩⟩ hb
      | some m =>
        refine old (hx m rfl) fun ho => hb ⟨by rintro g m k ⟨⟩; rfl, ?_⟩
        rintro g m k ⟨⟩
        exact ho
    · exact grp hi

theorem old_of {m : Script} (hm : WF m) (ho : ¬ NotOldClass m) : oldPrefix m.str = true := by
  by_contra hn
  refine ho fun c t e => hn ?_
  have hne : c ≠ '\n' := by
    rintro rfl
    have := termRest_of (str_termChar hm '\n' (by rw [e]; simp))
    revert this; decide
  rw [e]
  show (c != '\n') = true
  simpa using hne

/-- A morpheme like an old class where the lexer expects the end of the path. -/
theorem term_old {m : Script} (hm : WF m) (ho : ¬ NotOldClass m) (r : Str) : termStage (m.str ++ ' ' :: r) = m.str ++ ' ' :: r ∧ Stuck (m.str ++ ' ' :: r) ∧
    halfStage (m.str ++ ' ' :: r) = m.str ++ ' ' :: r ∧ roleStage (m.str ++ ' ' :: r) = m.str ++ ' ' :: r := by
  have hall : ∀ c ∈ m.str, termRest c = true := fun c hc => termRest_of (str_termChar hm c hc)
  obtain ⟨h1, h2⟩ := stuck_old (old_of hm ho) (' ' :: r)
  refine ⟨?_, h2, ?_, ?_⟩
  · have h1' : matchTerm (m.str ++ ' ' :: r) = none := by
      unfold matchTerm
      rw [if_pos h1]
    have h3 : afterGroup (m.str ++ ' ' :: r) = none := by
      unfold afterGroup
      rw [no_prefix hall (x := 'r') (by decide) (by decide) (by decide)]
      exact no_prefix hall (x := '>') (by decide) (by decide) (by decide)
    unfold termStage
    rw [h3, h1']
    rfl
  · unfold halfStage
    rw [no_prefix hall (x := '>') (by decide) (by decide) (by decide), no_prefix hall (x := '>') (by decide) (by decide) (by decide)]
    rfl
  · unfold roleStage
    rw [no_prefix hall (x := '>') (by decide) (by decide) (by decide)]
    rfl

/-- All the nodes of polymorphemes are constants and no morpheme starts like an old class. -/
def PlainNodes (p : Path) : Prop := (∀ g m k, Step.pm g m k ∈ p → g = .constant) ∧ ∀ m, MorphemeOf p m → NotOldClass m

theorem pm_not_plain {s : Step} {p : Path} (hp : ∀ x ∈ p, x = s ∨ ∃ c, x = .lexeme c) (hb : ¬ PlainNodes p) :
    ¬ ((∀ g m k, s = .pm g m k → g = .constant) ∧ ∀ g m k, s = .pm g (some m) k → NotOldClass m) ∨ ∃ m, s = .flexion m ∧ ¬ NotOldClass m := by
  by_contra h
  rw [not_or, not_not] at h
  obtain ⟨⟨h1, h2⟩, h3⟩ := h
  refine hb ⟨fun g m k hm => ?_, fun m hm => ?_⟩
  · rcases hp _ hm with h | ⟨c, h⟩
    · exact h1 g m k h.symm
    · cases h
  · rcases hm with ⟨g, k, hm⟩ | hm
    · rcases hp _ hm with h | ⟨c, h⟩
      · exact h2 g m k h.symm
      · cases h
    · rcases hp _ hm with h | ⟨c, h⟩
      · by_contra hn
        exact h3 ⟨m, h.symm, hn⟩
      · cases h

theorem lexWritten_stuck {q : Path} (h : LexWritten q) (hb : ¬ PlainNodes q) (r : Str) :
    ∃ w s', pathText q ++ ' ' :: '"' :: r = '>' :: (w ++ s') ∧ termStage (halfStage (w ++ s')) = s' ∧ '[' ∉ w ∧ Stuck s' ∧ roleStage (w ++ s') = w ++ s' := by
  cases h with
  | one c =>
    refine absurd ⟨fun g m k hm => ?_, fun m hm => ?_⟩ hb
    · simp at hm
    · rcases hm with ⟨g, k, hm⟩ | hm <;> simp at hm
  | @content s hs =>
    rcases pm_not_plain (s := s) (by intro x hx; simp at hx; tauto) hb with h | ⟨m, rfl, _⟩
    · obtain ⟨w, s', h1, h2, h3, h4, _, h5⟩ := pm_stuck hs h r
      refine ⟨c!"content>" ++ w, s', ?_, ?_, ?_, h4, ?_⟩
      · have : pathText [.lexeme true, s] ++ ' ' :: '"' :: r = '>' :: (c!"content>" ++ (s.text ++ ' ' :: '"' :: r)) := by simp [pathText, Step.text]
        rw [this, h1, List.append_assoc]
      · have : halfStage (c!"content>" ++ w ++ s') = w ++ s' := by simp [halfStage, afterPrefix, List.isPrefixOf]
        rw [this, h2]
      · rw [List.mem_append]
        rintro (h | h)
        · revert h; decide
        · exact h3 h
      · simp [roleStage, afterPrefix, List.isPrefixOf]
    · cases hs
  | @flexion m hm =>
    rcases pm_not_plain (s := .flexion m) (by intro x hx; simp at hx; tauto) hb with h | ⟨m', h, ho⟩
    · exact absurd ⟨by rintro g m k ⟨⟩, by rintro g m k ⟨⟩⟩ h
    · cases h
      obtain ⟨h1, h2, h3, h4⟩ := term_old hm ho ('"' :: r)
      refine ⟨c!"flexion>", m.str ++ ' ' :: '"' :: r, by simp [pathText, Step.text], ?_, by decide, h2, by simp [roleStage, afterPrefix, List.isPrefixOf]⟩
      have : halfStage (c!"flexion>" ++ (m.str ++ ' ' :: '"' :: r)) = m.str ++ ' ' :: '"' :: r := by simp [halfStage, afterPrefix, List.isPrefixOf]
      rw [this, h1]

theorem role_stuck {s : Str} (h : ∀ n, afterRoles n s = none) : afterPath (c!"role>" ++ s) = c!"role>" ++ s := by
  have h1 : roleStage (c!"role>" ++ s) = c!"role>" ++ s := by
    have e : afterPrefix (c!"role>") (c!"role>" ++ s) = some s := by simp [afterPrefix, List.isPrefixOf]
    unfold roleStage
    rw [e]
    show (afterRoles (s.length + 1) s).getD _ = _
    rw [h]
    rfl
  rw [afterPath_stages, h1]
  rfl

theorem pmWritten_no_role {s : Step} (h : PMWritten s) (a : Addr) (f : Bool) : s ≠ .role a f := by
  rintro rfl
  cases h

theorem lexWritten_no_role {q : Path} (h : LexWritten q) (a : Addr) (f : Bool) : Step.role a f ∉ q := by
  intro hm
  cases h with
  | one c => simp at hm
  | content hs =>
    simp at hm
    exact pmWritten_no_role hs a f hm.symm
  | flexion _ => simp at hm

/-- The lexer does not know the other paths of the grammar. -/
theorem written_stuck {p : Path} (h : Written p) (hn : ¬ Writable p) : PathStuck p := by
  intro r
  cases h with
  | usl =>
    refine absurd ⟨?_, ?_, ?_, ?_⟩ hn
    · intro a f h; simp at h
    · intro a f h; simp at h
    · intro g m k h; simp at h
    · rintro m (⟨g, k, h⟩ | h) <;> simp at h
  | @role l f q hl ha hq =>
    cases f with
    | true =>
      have e : pathText (.role l true :: q) ++ ' ' :: '"' :: r = '>' :: (c!"role>" ++ ('!' :: ' ' :: (roleText l ++ pathText q ++ ' ' :: '"' :: r))) := by simp [pathText, Step.text]
      refine ⟨[], _, e, role_stuck ?_, by simp, stuck_role _⟩
      intro n
      cases n with
      | zero => rfl
      | succ n =>
        rw [afterRoles, List.takeWhile_cons_of_pos (by decide), List.takeWhile_cons_of_neg (by decide), if_neg (by decide +kernel)]
    | false =>
      rcases hq with rfl | hq
      · have e : pathText [.role l false] ++ ' ' :: '"' :: r = '>' :: (c!"role>" ++ (roleText l ++ ' ' :: '"' :: r)) := by simp [pathText, Step.text]
        exact ⟨[], _, e, role_stuck fun n => afterRoles_alone n r ha, by simp, stuck_role _⟩
      · obtain ⟨w, s', h1, h2, h3, h4, _⟩ := lexWritten_stuck hq (r := r) fun hp => hn ⟨(by
            intro a f h
            rcases List.mem_cons.1 h with h | h
            · cases h; rfl
            · exact absurd h (lexWritten_no_role hq a f)), (by
            intro a f h
            cases hq <;> simp at h), fun g m k h => hp.1 g m k (by simpa using h), fun m hm => hp.2 m (by
              rcases hm with ⟨g, k, h⟩ | h
              · exact .inl ⟨g, k, by simpa using h⟩
              · exact .inr (by simpa using h))⟩
        have e : pathText (.role l false :: q) ++ ' ' :: '"' :: r = '>' :: (c!"role>" ++ roleText l ++ (pathText q ++ ' ' :: '"' :: r)) := by simp [pathText, Step.text]
        have e2 : c!"role>" ++ roleText l ++ '>' :: w ++ s' = c!"role>" ++ roleText l ++ '>' :: (w ++ s') := by simp
        refine ⟨c!"role>" ++ roleText l ++ '>' :: w, s', ?_, ?_, ?_, h4⟩
        · rw [e, h1, e2]
        · rw [e2, afterPath_stages, roleStage_roles hl ha, h2]
        · simp only [List.mem_append, List.mem_cons, not_or]
          exact ⟨⟨by decide, roleText_no_bracket ha⟩, by decide, h3⟩
  | lexeme hq =>
    obtain ⟨w, s', h1, h2, h3, h4, h5⟩ := lexWritten_stuck hq (r := r) fun hp => hn ⟨fun a f h => absurd h (lexWritten_no_role hq a f),
      fun a f h => lexWritten_no_role hq a f (by rw [h]; simp), hp.1, hp.2⟩
    exact ⟨w, s', h1, by rw [afterPath_stages, h5, h2], h3, h4⟩
  | @flexion m hm =>
    have ho : ¬ NotOldClass m := fun ho => hn ⟨by intro a f h; simp at h, by intro a f h; simp at h, by intro g m k h; simp at h, by
      rintro m' (⟨g, k, h⟩ | h)
      · simp at h
      · simp at h
        exact h ▸ ho⟩
    obtain ⟨h1, h2, h3, h4⟩ := term_old hm ho ('"' :: r)
    exact ⟨[], m.str ++ ' ' :: '"' :: r, by simp [pathText, Step.text], by rw [afterPath_stages, List.nil_append, h4, h3, h1], by simp, h2⟩
  | @pm s hs =>
    have hb : ¬ PlainNodes [s] := fun hp => hn ⟨fun a f h => absurd (List.mem_singleton.1 h).symm (pmWritten_no_role hs a f),
      fun a f h => pmWritten_no_role hs a f (by simpa using h), hp.1, hp.2⟩
    rcases pm_not_plain (s := s) (by intro x hx; simp at hx; tauto) hb with h | ⟨m, rfl, _⟩
    · obtain ⟨w, s', h1, h2, h3, h4, h5, h6⟩ := pm_stuck hs h r
      refine ⟨w, s', ?_, by rw [afterPath_stages, h5, h6, h2], h3, h4⟩
      have : pathText [s] ++ ' ' :: '"' :: r = '>' :: (s.text ++ ' ' :: '"' :: r) := by simp [pathText]
      rw [this, h1]
    · cases hs

/-! ### Expressions inside a text -/

/-- The text of a clean expression is read as the same expression when decorations follow. -/
theorem expr_read {u : Expr} (hm : MadeExpr u) (hc : u.Clean) (hs : ∀ s, u ≠ .script s) :
    ∃ u' T, Lexes u.text T ∧ SameExpr u' u ∧ (MadeExpr u' ∧ ∀ p, u' = .pm p → OkPM p) ∧ ∀ r, takeUsl (T ++ .lbracket :: r) = .ok (u', .lbracket :: r) := by
  suffices h : ∃ u' T, Lexes u.text T ∧ SameExpr u' u ∧ (∀ p, u' = .pm p → OkPM p) ∧ ∀ r, takeUsl (T ++ .lbracket :: r) = .ok (u', .lbracket :: r) by
    obtain ⟨u', T, h1, h2, h0, h3⟩ := h
    exact ⟨u', T, h1, h2, ⟨gives_usl _ _ (h3 []), h0⟩, h3⟩
  cases u with
  | script s => exact absurd rfl (hs s)
  | pm p =>
    obtain ⟨cs, gs, rfl, hl⟩ := made_legible hm hc.1
    have h0 := not_blank (cs := cs) (gs := gs) fun hb => by
      have := (mkPM_empty_iff cs gs).2 hb
      rw [hc.2] at this
      cases this
    obtain ⟨C', G', h1, h2, h3⟩ := hl.read
    have hord : ∀ {m x : Script}, WF m → parseScript m.str = .ok x → Orderly x := fun hm hx => by
      obtain ⟨h4, _, h5⟩ := read_same hm hx
      exact ⟨wf_built h4, .inl h5⟩
    refine ⟨.pm (mkPM C' G'), _, hl.lexes, h3, fun p hp => ?_, fun r => ?_⟩
    · cases hp
      refine ⟨C', G', rfl, fun x hx => ?_, fun g hg x hx => ?_⟩
      · obtain ⟨m, hm, hx⟩ := forall₂_mem_right h1 hx
        exact hord (hl.wfC m hm).1 hx
      · obtain ⟨g', hg', h4⟩ := forall₂_mem_right h2 hg
        obtain ⟨m, hm, hx⟩ := forall₂_mem_right h4.1 hx
        exact hord (hl.wfG g' hg' m hm).1 hx
    have hp := takePMParts_pm h1 h2 hl.fullG (shown_some h0) (ts := .lbracket :: r) (by intro s r h; cases h) (by intro s r h; cases h)
    rcases pmToks_head (shown_some h0) (.lbracket :: r) with ⟨s, t, e⟩ | ⟨s, t, e⟩ <;>
    · rw [e] at hp ⊢
      show (takePMParts _ >>= _) = _
      rw [hp]
      rcases C' with _ | ⟨a, _ | ⟨b, C'⟩⟩ <;> rcases G' with _ | ⟨x, G'⟩ <;> rfl
  | lexeme x =>
    obtain ⟨y, T, h1, h2, h3⟩ := lexeme_read (made_legibleLexeme hm hc)
    refine ⟨.lexeme y, _, h1, h2, (by intro p h; cases h), fun r => ?_⟩
    show (takeLexeme (T ++ .lbracket :: r) >>= _) = _
    rw [h3 _ (by intro r h; cases h)]
    rfl
  | word w =>
    have ha := MadeWord.actors hm.1
    obtain ⟨⟨l, t', f, role, hf, hw, _⟩, rx, hrole⟩ := hm
    have hw0 := hw
    obtain ⟨text, h1, h2⟩ := bind_ok.1 hw
    obtain ⟨cl, h3, h4⟩ := bind_ok.1 h2
    rw [pure_ok] at h4
    subst h4
    obtain ⟨w', ⟨T, h5, h6⟩, h7⟩ := word_text_reads hf hw0 ⟨_, hrole⟩ fun e he => by
      obtain ⟨x, hx, hcx⟩ := hc e he
      exact ⟨x, hx, made_legibleLexeme (ha e he x hx) hcx⟩
    refine ⟨.word w', _, h5, h7, (by intro p h; cases h), fun r => ?_⟩
    show (takeWord (T ++ .lbracket :: r) >>= _) = _
    rw [h6]
    rfl

/-! ### Lists of decorations -/

/-- The tokens of a decoration. -/
def decToks (d : Path × Str) : List UTok := [.lbracket, .path (pathText d.1), .value ('"' :: (escaped d.2 ++ ['"'])), .rbracket]

/-- The texts of decorations, each after a blank. -/
def decTexts (ds : List (Path × Str)) : Str := ds.flatMap fun d => ' ' :: decorationText d

theorem decTexts_cons (d : Path × Str) (ds : List (Path × Str)) : decTexts (d :: ds) = ' ' :: (decorationText d ++ decTexts ds) := rfl

theorem join_decTexts : ∀ {ds : List (Path × Str)}, ds ≠ [] → c!" " ++ joinSpace (ds.map decorationText) = decTexts ds
  | [], h => absurd rfl h
  | [d], _ => by simp [decTexts, joinSpace]
  | d :: e :: ds, _ => by
    have := join_decTexts (ds := e :: ds) (by simp)
    rw [decTexts_cons, ← this]
    simp [joinSpace]

theorem lex_decs {ds : List (Path × Str)} (h : ∀ d ∈ ds, Written d.1 ∧ Writable d.1 ∧ d.2.getLast? ≠ some '\\') (r : Str) :
    uslLex (decTexts ds ++ r) = ds.flatMap decToks ++ uslLex r := by
  induction ds with
  | nil => rfl
  | cons d ds ih =>
    obtain ⟨h1, h2, h3⟩ := h d (by simp)
    obtain ⟨w, h4, h5, h6⟩ := path_ends h1 h2
    have e : decTexts (d :: ds) ++ r = ' ' :: (decorationText d ++ (decTexts ds ++ r)) := by simp [decTexts_cons]
    rw [e, lex_space, show decorationText d = decorationText (d.1, d.2) from rfl, lex_decoration h4 h5 h6 h3, ih fun x hx => h x (List.mem_cons_of_mem _ hx)]
    simp [decToks]

/-- The decoration `d'` is read from the text of `d`: the same path, the value as it is written. -/
def DecRead (d' d : Path × Str) : Prop := pathRead (pathText d.1) = .ok d'.1 ∧ Alike d.1 d'.1 ∧ pathText d'.1 = pathText d.1 ∧ d'.2 = escaped d.2

theorem takeDecs_decs {ds : List (Path × Str)} (h : ∀ d ∈ ds, Written d.1) (ts : List UTok) :
    ∃ ds', List.Forall₂ DecRead ds' ds ∧ takeDecs (ds.flatMap decToks ++ ts) = (takeDecs ts).map (ds' ++ ·) := by
  induction ds with
  | nil => exact ⟨[], .nil, by rw [List.flatMap_nil, List.nil_append]; cases takeDecs ts <;> rfl⟩
  | cons d ds ih =>
    obtain ⟨ds', h1, h2⟩ := ih fun x hx => h x (List.mem_cons_of_mem _ hx)
    obtain ⟨q, h3, h4, h5⟩ := C66_read (h d (by simp))
    refine ⟨(q, escaped d.2) :: ds', .cons ⟨h3, h4, h5, rfl⟩ h1, ?_⟩
    show takeDecs (.lbracket :: .path (pathText d.1) :: .value ('"' :: (escaped d.2 ++ ['"'])) :: .rbracket :: (ds.flatMap decToks ++ ts)) = _
    rw [takeDecs, h3, h2, unquote_value]
    cases takeDecs ts <;> rfl

/-- Blanks at the beginning of a text of the alphabet do not matter. -/
theorem lex_dropWhile {x : Str} (h : ∀ c ∈ x, c ∈ uslAlphabet) (y : Str) : uslLex ((x ++ '[' :: y).dropWhile pySpace) = uslLex (x ++ '[' :: y) := by
  induction x with
  | nil => rw [List.nil_append, List.dropWhile_cons_of_neg (by decide)]
  | cons c x ih =>
    by_cases hc : pySpace c = true
    · have : ∀ c ∈ uslAlphabet, pySpace c = true → c = ' ' := by decide +kernel
      obtain rfl := this c (h c (by simp)) hc
      rw [List.cons_append, List.dropWhile_cons_of_pos hc, ih fun d hd => h d (List.mem_cons_of_mem _ hd), lex_space]
    · rw [List.cons_append, List.dropWhile_cons_of_neg hc]

theorem decTexts_last : ∀ {ds : List (Path × Str)}, ds ≠ [] → ∃ x, decTexts ds = x ++ [']'] ∧ ∃ y, decTexts ds = ' ' :: '[' :: y
  | [], h => absurd rfl h
  | [d], _ => by
    refine ⟨' ' :: (c!"[" ++ pathText d.1 ++ c!" \"" ++ d.2.flatMap (fun c => if c = '"' then c!"\\\"" else [c]) ++ c!"\""), by simp [decTexts, decorationText], ?_⟩
    exact ⟨_, rfl⟩
  | d :: e :: ds, _ => by
    obtain ⟨x, hx, _⟩ := decTexts_last (ds := e :: ds) (by simp)
    exact ⟨' ' :: (decorationText d ++ x), by rw [decTexts_cons, hx]; simp, _, rfl⟩

/-- The text of a decorated expression, as the lexer sees it. -/
theorem lex_instText {u : Expr} (hu : ∀ c ∈ u.text, c ∈ uslAlphabet) {ds : List (Path × Str)} (hne : ds ≠ []) :
    uslLex (instText u ds) = uslLex (u.text ++ decTexts ds) ∧ (instText u ds).isEmpty = false := by
  obtain ⟨x, h1, y, h2⟩ := decTexts_last hne
  have e : u.text ++ c!" " ++ joinSpace (ds.map decorationText) = u.text ++ decTexts ds := by rw [List.append_assoc, join_decTexts hne]
  have e2 : u.text ++ decTexts ds = (u.text ++ c!" ") ++ '[' :: y := by rw [h2]; simp
  have hal : ∀ c ∈ u.text ++ c!" ", c ∈ uslAlphabet := by
    intro c hc
    rcases List.mem_append.1 hc with hc | hc
    · exact hu c hc
    · exact (by decide : ∀ c ∈ c!" ", c ∈ uslAlphabet) c hc
  -- the end is kept
  have hend : ∀ z : Str, (∃ t, z = t ++ [']']) → (z.reverse.dropWhile pySpace).reverse = z := by
    rintro z ⟨t, rfl⟩
    rw [List.reverse_append]
    show ((']' :: t.reverse).dropWhile pySpace).reverse = _
    rw [List.dropWhile_cons_of_neg (by decide)]
    simp
  have hdrop : ∀ z : Str, ∃ t, (z ++ [']']).dropWhile pySpace = t ++ [']'] := by
    intro z
    induction z with
    | nil => exact ⟨[], by rw [List.nil_append, List.dropWhile_cons_of_neg (by decide)]⟩
    | cons c z ih =>
      rw [List.cons_append]
      by_cases hc : pySpace c = true
      · rw [List.dropWhile_cons_of_pos hc]; exact ih
      · rw [List.dropWhile_cons_of_neg hc]; exact ⟨c :: z, rfl⟩
  have hs : instText u ds = (u.text ++ decTexts ds).dropWhile pySpace := by
    unfold instText strip
    rw [e]
    refine hend _ ?_
    rw [h1, ← List.append_assoc]
    exact hdrop _
  refine ⟨?_, ?_⟩
  · rw [hs, e2, lex_dropWhile hal]
  · obtain ⟨t, ht⟩ := hdrop (u.text ++ x)
    rw [hs, h1, ← List.append_assoc, ht]
    cases t <;> rfl

/-! ### C88 -/

/-- The decorations of a text, where the lexer knows the paths and finds the ends of the values. -/
def Legibly (ds : List (Path × Str)) : Prop := ∀ d ∈ ds, Written d.1 ∧ Writable d.1 ∧ d.2.getLast? ≠ some '\\'

theorem inst_read {t : Str} {u : Expr} {ds0 : List (Str × Str)} (h : uslRead t = .ok (u, ds0)) (hc : u.Clean) (hs : ∀ s, u ≠ .script s)
    {ds : List (Path × Str)} (hne : ds ≠ []) (hd : Legibly ds) :
    ∃ u' ds', takeInst (uslLex (instText u ds)) = .ok (u', ds') ∧ SameExpr u' u ∧ List.Forall₂ DecRead ds' ds ∧ MadeExpr u' ∧ ∀ p, u' = .pm p → OkPM p := by
  obtain ⟨u', T, h1, h2, h0, h3⟩ := expr_read (read_made h) hc hs
  obtain ⟨ds', h4, h5⟩ := takeDecs_decs (fun d hdd => (hd d hdd).1) []
  rw [List.append_nil] at h5
  refine ⟨u', ds', ?_, h2, h4, h0⟩
  have hl : uslLex (u.text ++ decTexts ds) = T ++ ds.flatMap decToks := by
    rw [h1 _ (by
      obtain ⟨_, _, y, h⟩ := decTexts_last hne
      rw [h]
      exact cut_space _)]
    have := lex_decs hd []
    rw [List.append_nil] at this
    rw [this]
    simp [uslLex, uslLexFrom]
  rw [(lex_instText (C84_alphabet h).1 hne).1, hl]
  obtain ⟨d, l, rfl⟩ := List.exists_cons_of_ne_nil hne
  unfold takeInst
  show (takeUsl (T ++ .lbracket :: _) >>= _) = _
  rw [h3]
  show (takeDecs ((d :: l).flatMap decToks) >>= _) = _
  rw [h5]
  simp [takeDecs, Except.map, bind, Except.bind, pure, Except.pure]

/-- **C88** (part) The text of a clean expression with decorations whose paths can be written is read as the same expression, with the
same paths and the values as they are written: a quotation mark stays escaped.  Missing: the other paths (`C88_unreadable`), the
values that end with a backslash (`C88_violated_backslash`), and the expressions that are not clean, as in C84. -/
theorem C88_reads_partial {t : Str} {u : Expr} {ds0 : List (Str × Str)} (h : uslRead t = .ok (u, ds0)) (hc : u.Clean) (hs : ∀ s, u ≠ .script s)
    {ds : List (Path × Str)} (hne : ds ≠ []) (hd : Legibly ds) :
    ∃ u' ds', takeInst (uslLex (instText u ds)) = .ok (u', ds') ∧ SameExpr u' u ∧ List.Forall₂ DecRead ds' ds := by
  obtain ⟨u', ds', h1, h2, h3, _⟩ := inst_read h hc hs hne hd
  exact ⟨u', ds', h1, h2, h3⟩

/-- **C88**, the other paths: if a decoration has a path of the grammar that cannot be written, the text is refused, whatever the value
and whatever follows. -/
theorem C88_unreadable {t : Str} {u : Expr} {ds0 : List (Str × Str)} (h : uslRead t = .ok (u, ds0)) (hc : u.Clean) (hs : ∀ s, u ≠ .script s)
    {ds es : List (Path × Str)} {d : Path × Str} (hd : Legibly ds) (hw : Written d.1) (hn : ¬ Writable d.1)
    (ord : List (Path × Str) → List (Path × Str)) (pk uk : Str → Str) (w : World Ref) :
    instRead ord pk uk (instText u (ds ++ d :: es)) w = (.error .cannotParse, w) := by
  obtain ⟨u', T, h1, _, _, h3⟩ := expr_read (read_made h) hc hs
  have hne : ds ++ d :: es ≠ [] := by simp
  obtain ⟨x, y, hx, hy, hb, hst⟩ := written_stuck hw hn (escaped d.2 ++ '"' :: ']' :: decTexts es)
  obtain ⟨ds', _, h5⟩ := takeDecs_decs (fun d hdd => (hd d hdd).1) (.lbracket :: .path ('>' :: x) :: uslLex y)
  have hl : uslLex (u.text ++ decTexts (ds ++ d :: es)) = T ++ (ds.flatMap decToks ++ .lbracket :: .path ('>' :: x) :: uslLex y) := by
    rw [h1 _ (by
      obtain ⟨_, _, y, h⟩ := decTexts_last hne
      rw [h]
      exact cut_space _)]
    have e : decTexts (ds ++ d :: es) = decTexts ds ++ ' ' :: ('[' :: (pathText d.1 ++ ' ' :: '"' :: (escaped d.2 ++ '"' :: ']' :: decTexts es))) := by
      simp [decTexts, decorationText, escaped]
    rw [e, lex_decs hd, lex_space, hx]
    have := lex_bracket_path x y
    rw [List.cons_append, List.cons_append] at this
    rw [this, lex_path hy hb]
  have hstuck : takeDecs (.lbracket :: .path ('>' :: x) :: uslLex y) = .error .cannotParse := by
    unfold takeDecs
    split
    · rename_i he
      cases he
    · rename_i he
      injection he with _ he
      injection he with _ he
      exact absurd he (hst _ _)
    · rfl
  have hti : takeInst (uslLex (instText u (ds ++ d :: es))) = .error .cannotParse := by
    rw [(lex_instText (C84_alphabet h).1 hne).1, hl]
    unfold takeInst
    have hh : ∃ r, ds.flatMap decToks ++ .lbracket :: .path ('>' :: x) :: uslLex y = .lbracket :: r := by
      cases ds with
      | nil => exact ⟨_, rfl⟩
      | cons e l => exact ⟨_, rfl⟩
    obtain ⟨r, hr⟩ := hh
    rw [hr, h3]
    show (takeDecs (.lbracket :: r) >>= _) = _
    rw [← hr, h5, hstuck]
    rfl
  unfold instRead
  rw [(lex_instText (C84_alphabet h).1 hne).2, hti]
  rfl

end Verif
