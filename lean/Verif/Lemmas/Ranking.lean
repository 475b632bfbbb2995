import Verif.Lemmas.Distance

/-
Lemmas on the groups of ranked words.
-/

namespace Verif

/-- `<` of marks. -/
def ltMark (a b : Str) : Bool := ltBytes (a.map Char.toNat) (b.map Char.toNat)

theorem toNat_map_inj {a b : Str} (h : a.map Char.toNat = b.map Char.toNat) : a = b :=
  List.map_injective_iff.2 (fun x y hxy => Char.toNat_inj.1 hxy) h

theorem ltMark_total {a b : Str} (h : a ≠ b) : ltMark a b = true ∨ ltMark b a = true := ltBytes_total fun e => h (toNat_map_inj e)

theorem ltMark_trans {a b c : Str} (h1 : ltMark a b = true) (h2 : ltMark b c = true) : ltMark a c = true := ltBytes_trans h1 h2

theorem ltMark_irrefl (a : Str) : ltMark a a = false := ltBytes_irrefl _

/-- The groups of a sorted list: their keys increase, and each has the elements of its key in their order. -/
theorem groupMarks_sorted {α : Type} : ∀ {l : List (α × Str)}, l.Pairwise (fun a b => ltMark b.2 a.2 = false) →
    ((groupMarks l).map (·.1)).Pairwise (fun a b => ltMark a b = true) ∧
    (∀ k, k ∈ (groupMarks l).map (·.1) ↔ k ∈ l.map (·.2)) ∧
    ∀ g ∈ groupMarks l, g.2 = (l.filter fun e => e.2 = g.1).map (·.1)
  | [], _ => ⟨by simp [groupMarks], by simp [groupMarks], by simp [groupMarks]⟩
  | (x, k) :: l, h => by
    obtain ⟨h1, h2⟩ := List.pairwise_cons.1 h
    obtain ⟨i1, i2, i3⟩ := groupMarks_sorted h2
    rw [groupMarks]
    cases hg : groupMarks l with
    | nil =>
      have hl : l = [] := by
        cases l with
        | nil => rfl
        | cons e l =>
          have := (i2 e.2).2 (by simp)
          rw [hg] at this
          simp at this
      subst hl
      simp
    | cons g gs =>
      obtain ⟨k', xs⟩ := g
      rw [hg] at i1 i2 i3
      rw [List.map_cons, List.pairwise_cons] at i1
      have hk' : k' ∈ l.map (·.2) := (i2 k').1 (by simp)
      have hle : ltMark k' k = false := by
        obtain ⟨e, he, rfl⟩ := List.mem_map.1 hk'
        exact h1 e he
      dsimp only
      split
      · rename_i hkk
        subst hkk
        refine ⟨by rw [List.map_cons, List.pairwise_cons]; exact i1, fun c => ?_, fun g hm => ?_⟩
        · have := i2 c
          simp only [List.map_cons, List.mem_cons] at this ⊢
          rw [this]
          constructor
          · exact .inr
          · rintro (rfl | h)
            · exact hk'
            · exact h
        · rcases List.mem_cons.1 hm with rfl | hm
          · have := i3 (k, xs) (by simp)
            simp only [List.filter_cons, decide_true, if_true, List.map_cons]
            rw [← this]
          · have hlt := i1.1 g.1 (List.mem_map_of_mem hm)
            have hne : ¬ k = g.1 := by
              intro e
              rw [e, ltMark_irrefl] at hlt
              cases hlt
            simp only [List.filter_cons, hne, decide_false, Bool.false_eq_true, if_false]
            exact i3 g (List.mem_cons_of_mem _ hm)
      · rename_i hkk
        have hlt : ltMark k k' = true := by
          rcases ltMark_total hkk with h | h
          · exact h
          · rw [hle] at h
            cases h
        have hall : ∀ c ∈ ((k', xs) :: gs).map (·.1), ltMark k c = true := by
          intro c hc
          rw [List.map_cons] at hc
          rcases List.mem_cons.1 hc with rfl | hc
          · exact hlt
          · exact ltMark_trans hlt (i1.1 c hc)
        refine ⟨?_, fun c => ?_, fun g hm => ?_⟩
        · rw [List.map_cons, List.pairwise_cons]
          refine ⟨hall, ?_⟩
          rw [List.map_cons, List.pairwise_cons]
          exact i1
        · have := i2 c
          simp only [List.map_cons, List.mem_cons] at this ⊢
          rw [this]
        · rcases List.mem_cons.1 hm with rfl | hm
          · have hnone : l.filter (fun e => decide (e.2 = k)) = [] := by
              refine List.filter_eq_nil_iff.2 fun e he => ?_
              have := hall e.2 ((i2 e.2).2 (List.mem_map_of_mem he))
              intro e'
              simp only [decide_eq_true_eq] at e'
              rw [e', ltMark_irrefl] at this
              cases this
            simp [List.filter_cons, hnone]
          · have hlt := hall g.1 (List.mem_map_of_mem hm)
            have hne : ¬ k = g.1 := by
              intro e
              rw [e, ltMark_irrefl] at hlt
              cases hlt
            simp only [List.filter_cons, hne, decide_false, Bool.false_eq_true, if_false]
            exact i3 g hm

theorem mostOf_le (a b c : Nat) : mostOf a b c ≤ 3 := by
  unfold mostOf
  split
  · omega
  · split
    · omega
    · split <;> omega

theorem mostOf_zero {a b c : Nat} : mostOf a b c = 0 ↔ a = 0 ∧ b = 0 ∧ c = 0 := by
  unfold mostOf
  split
  · simpa
  · rename_i h
    constructor
    · split
      · simp
      · split <;> simp
    · exact fun e => absurd e h

theorem subKlass_ok {n : Nat} (h0 : n ≠ 0) (h3 : n ≤ 3) : ∃ c, subKlass n = .ok c := by
  unfold subKlass
  split
  · exact ⟨_, rfl⟩
  · split
    · exact ⟨_, rfl⟩
    · split
      · exact ⟨_, rfl⟩
      · omega

end Verif
