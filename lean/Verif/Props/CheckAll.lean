import Verif.Props.CheckAgain

/-
C76 for all morphemes, sums of one term included: what is accepted has morphemes with a single word, among which `<` is an order.
-/

namespace Verif
open Script

theorem mkPM_meant (cs : List Script) (gs : List Group) : mkPM cs gs = mkPM (meantOf cs) (gs.map fun g => (meantOf g.1, g.2)) := by
  simp only [← meantOf_eq]
  unfold mkPM
  simp only [filterEmpty_twice, List.map_map, Function.comp_def]

theorem meantOf_twice (l : List Script) : meantOf (meantOf l) = meantOf l := by
  rw [← meantOf_eq, ← meantOf_eq, filterEmpty_twice]

theorem mem_meantOf {l : List Script} {x : Script} : x ∈ meantOf l ↔ Meant l x := by simp [meantOf, Meant]

theorem wellMade_meant {cs : List Script} {gs : List Group} : WellMade (meantOf cs) (gs.map fun g => (meantOf g.1, g.2)) ↔ WellMade cs gs := by
  have hm : ∀ (l : List Script) (x : Script), Meant (meantOf l) x ↔ Meant l x := by
    intro l x
    rw [← mem_meantOf, meantOf_twice, mem_meantOf]
  have hf : ((gs.map fun g => (meantOf g.1, g.2)).flatMap fun g => meantOf g.1) = gs.flatMap fun g => meantOf g.1 := by
    rw [List.flatMap_map]
    congr 1
    funext g
    exact meantOf_twice g.1
  constructor
  · rintro ⟨h1, h2, h3⟩
    refine ⟨fun x hx => h1 x ?_, ?_, fun g hg hne => ?_⟩
    · rcases hx with hx | ⟨g, hg, hx⟩
      · exact .inl ((hm _ _).2 hx)
      · exact .inr ⟨_, List.mem_map_of_mem hg, (hm _ _).2 hx⟩
    · rwa [meantOf_twice, hf] at h2
    · have := h3 _ (List.mem_map_of_mem (f := fun g : Group => (meantOf g.1, g.2)) hg)
      simp only [meantOf_twice] at this
      exact this hne
  · rintro ⟨h1, h2, h3⟩
    refine ⟨fun x hx => h1 x ?_, ?_, fun g hg hne => ?_⟩
    · rcases hx with hx | ⟨g, hg, hx⟩
      · exact .inl ((hm _ _).1 hx)
      · obtain ⟨k, hk, rfl⟩ := List.mem_map.1 hg
        exact .inr ⟨k, hk, (hm _ _).1 hx⟩
    · rwa [meantOf_twice, hf]
    · obtain ⟨k, hk, rfl⟩ := List.mem_map.1 hg
      simp only [meantOf_twice] at hne ⊢
      exact h3 k hk hne

/-- **C76, polymorphemes**, of any morphemes: `check_polymorpheme` accepts exactly the polymorphemes of morphemes with a single word, none
given twice, whose groups have a multiplicity of 1 to 3 that is not more than their size. -/
theorem C76_polymorpheme {cs : List Script} {gs : List Group} (hc : ∀ x ∈ cs, WF x) (hg : ∀ g ∈ gs, ∀ x ∈ g.1, WF x) :
    (mkPM cs gs).check = true ↔ WellMade cs gs := by
  have key : (∀ x ∈ meantOf cs, Singular x) → (∀ g ∈ gs, ∀ x ∈ meantOf g.1, Singular x) → ((mkPM cs gs).check = true ↔ WellMade cs gs) := by
    intro h1 h2
    rw [mkPM_meant, ← wellMade_meant]
    refine C76_polymorpheme_partial (fun x hx => ⟨wf_built (hc x (mem_meantOf.1 hx).1), .inr (h1 x hx)⟩) ?_
    intro g hgm x hx
    obtain ⟨k, hk, rfl⟩ := List.mem_map.1 hgm
    exact ⟨wf_built (hg k hk x (mem_meantOf.1 hx).1), .inr (h2 k hk x hx)⟩
  constructor
  · intro h
    obtain ⟨s1, s2⟩ := check_singular ⟨cs, gs, rfl, hc, hg⟩ h
    refine (key ?_ ?_).1 h
    · intro x hx
      refine s1 x ?_
      show x ∈ if (shownC cs).isEmpty then [.null 0] else shownC cs
      have hx' : x ∈ shownC cs := mem_shownC.2 (mem_meantOf.1 hx)
      split
      · rename_i hn
        rw [List.isEmpty_iff.1 hn] at hx'
        cases hx'
      · exact hx'
    · intro g hgm x hx
      refine s2 (nrmGroup g) ?_ x ?_
      · show _ ∈ shownG gs
        rw [shownG, mem_pySort]
        exact List.mem_map_of_mem hgm
      · rw [nrmGroup, mem_pySort, mem_filterEmpty]
        exact mem_meantOf.1 hx
  · intro h
    exact (key (fun x hx => h.singular x (.inl (mem_meantOf.1 hx))) fun g hgm x hx => h.singular x (.inr ⟨g, hgm, mem_meantOf.1 hx⟩)).2 h

/-- A lexeme of acceptable polymorphemes. -/
def AcceptableLexeme (x : Lexeme) : Prop :=
  ∃ cs gs cs' gs', x = mkLexeme (mkPM cs gs) (mkPM cs' gs') ∧ (∀ m ∈ cs ++ cs', WF m) ∧ (∀ g ∈ gs ++ gs', ∀ m ∈ g.1, WF m) ∧
    WellMade cs gs ∧ WellMade cs' gs'

/-- **C76, lexemes**, of any morphemes: `check_lexeme` accepts exactly the lexemes made of two acceptable polymorphemes. -/
theorem C76_lexeme {x : Lexeme} (h : MadeLexeme x) : x.check = true ↔ AcceptableLexeme x := by
  constructor
  · intro hc
    obtain ⟨p, q, rfl, ⟨cs, gs, rfl, h1, h2⟩, cs', gs', rfl, h3, h4⟩ := h
    obtain ⟨k1, k2⟩ : (mkPM cs gs).check = true ∧ (mkPM cs' gs').check = true := by
      simpa [Lexeme.check, mkLexeme] using hc
    refine ⟨cs, gs, cs', gs', rfl, ?_, ?_, (C76_polymorpheme h1 h2).1 k1, (C76_polymorpheme h3 h4).1 k2⟩
    · intro m hm
      exact (List.mem_append.1 hm).elim (h1 m) (h3 m)
    · intro g hg
      exact (List.mem_append.1 hg).elim (h2 g) (h4 g)
  · rintro ⟨cs, gs, cs', gs', rfl, h1, h2, k1, k2⟩
    have e1 := (C76_polymorpheme (fun m hm => h1 m (by simp [hm])) (fun g hg => h2 g (by simp [hg]))).2 k1
    have e2 := (C76_polymorpheme (fun m hm => h1 m (by simp [hm])) (fun g hg => h2 g (by simp [hg]))).2 k2
    simp [Lexeme.check, mkLexeme, e1, e2]

/-- **C76, words**: a word that was read is accepted exactly when every role that is not a junction holds an acceptable lexeme. -/
theorem C76_read {s : Str} {w : WordUsl} {ds : List (Str × Str)} (h : uslRead s = .ok (.word w, ds)) :
    w.check = true ↔ ∀ e ∈ w.sfun.asList w.context, ∃ x, e.2 = some x ∧ AcceptableLexeme x := by
  have hm := read_made h
  have ha := MadeWord.actors hm.1
  rw [check_filled hm]
  constructor
  · intro k e he
    obtain ⟨x, hx, hc⟩ := k e he
    exact ⟨x, hx, (C76_lexeme (ha e he x hx)).1 hc⟩
  · intro k e he
    obtain ⟨x, hx, hc⟩ := k e he
    exact ⟨x, hx, (C76_lexeme (ha e he x hx)).2 hc⟩

/-- **C76**, polymorphemes that were read. -/
theorem C76_read_polymorpheme {s : Str} {p : PM} {ds : List (Str × Str)} (h : uslRead s = .ok (.pm p, ds)) :
    ∃ cs gs, p = mkPM cs gs ∧ (p.check = true ↔ WellMade cs gs) := by
  obtain ⟨cs, gs, rfl, h1, h2⟩ := read_made h
  exact ⟨cs, gs, rfl, C76_polymorpheme h1 h2⟩

-- A sum of one term that has several words is refused whatever its place, one of a single word is accepted; the order `<` is no order on the
-- first list.
example : (∀ x ∈ [wM, wM', .add [wM]], WF x) ∧ (mkPM [wM, wM', .add [wM]] []).check = false ∧ ¬ WellMade [wM, wM', .add [wM]] [] ∧
    (∀ x ∈ [prim .S, .add [prim .A]], WF x) ∧ WellMade [prim .S, .add [prim .A]] [([prim .B, .null 0, prim .T], 2)] := by
  have h1 : ∀ x ∈ [wM, wM', .add [wM]], WF x := by
    intro x hx
    simp only [List.mem_cons, List.not_mem_nil, or_false] at hx
    rcases hx with rfl | rfl | rfl <;> exact built_wf (built_of (by decide +kernel))
  have h2 : ∀ x ∈ [prim .S, .add [prim .A]], WF x := by
    intro x hx
    simp only [List.mem_cons, List.not_mem_nil, or_false] at hx
    rcases hx with rfl | rfl <;> exact built_wf (built_of (by decide +kernel))
  have h3 : (mkPM [wM, wM', .add [wM]] []).check = false := by decide +kernel
  refine ⟨h1, h3, fun h => ?_, h2, ?_⟩
  · rw [(C76_polymorpheme h1 (by simp)).2 h] at h3
    cases h3
  · refine (C76_polymorpheme h2 ?_).1 (by decide +kernel)
    intro g hg x hx
    simp only [List.mem_singleton] at hg
    subst hg
    simp only [List.mem_cons, List.not_mem_nil, or_false] at hx
    rcases hx with rfl | rfl | rfl <;> exact built_wf (built_of (by decide +kernel))

end Verif
