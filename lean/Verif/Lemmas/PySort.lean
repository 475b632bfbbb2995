import Verif.Lemmas.ScriptOrder

/-
The sort used by the model: permutation and order; removal of duplicates.
-/

namespace Verif

section
variable {α : Type} (lt : α → α → Bool)

theorem insertBy_perm (x : α) : ∀ l, (insertBy lt x l).Perm (x :: l)
  | [] => .refl _
  | y :: ys => by
    rw [insertBy]
    split
    · exact ((insertBy_perm x ys).cons y).trans (.swap x y ys)
    · exact .refl _

theorem pySort_perm : ∀ l, (pySort lt l).Perm l
  | [] => .refl _
  | x :: xs => (insertBy_perm lt x _).trans ((pySort_perm xs).cons x)

theorem mem_pySort {l : List α} {x : α} : x ∈ pySort lt l ↔ x ∈ l := (pySort_perm lt l).mem_iff

theorem length_pySort (l : List α) : (pySort lt l).length = l.length := (pySort_perm lt l).length_eq

/-- Order by a key. -/
theorem insertBy_sorted {k : α → List Nat} {x : α} : ∀ {l : List α}, (∀ a ∈ x :: l, ∀ b ∈ x :: l, lt a b = ltBytes (k a) (k b)) →
    l.Pairwise (fun a b => ltBytes (k b) (k a) = false) →
    (insertBy lt x l).Pairwise (fun a b => ltBytes (k b) (k a) = false)
  | [], _, _ => by simp [insertBy]
  | y :: ys, hk, hs => by
    rw [insertBy]
    have hyx := hk y (by simp) x (by simp)
    have hs' := List.pairwise_cons.1 hs
    split
    · rename_i h
      rw [hyx] at h
      rw [List.pairwise_cons]
      refine ⟨?_, insertBy_sorted (fun a ha b hb => hk a ?_ b ?_) hs'.2⟩
      · intro b hb
        rw [(insertBy_perm lt x ys).mem_iff] at hb
        rcases List.mem_cons.1 hb with rfl | hb
        · cases h' : ltBytes (k b) (k y)
          · rfl
          · have := ltBytes_trans h h'; rw [ltBytes_irrefl] at this; cases this
        · exact hs'.1 b hb
      · simp only [List.mem_cons] at ha ⊢; rcases ha with h | h <;> simp [h]
      · simp only [List.mem_cons] at hb ⊢; rcases hb with h | h <;> simp [h]
    · rename_i h
      rw [hyx] at h
      have h : ltBytes (k y) (k x) = false := by simpa using h
      rw [List.pairwise_cons]
      refine ⟨?_, hs⟩
      intro b hb
      rcases List.mem_cons.1 hb with rfl | hb
      · exact h
      · cases h' : ltBytes (k b) (k x)
        · rfl
        · have h2 := hs'.1 b hb
          by_cases e : k y = k b
          · rw [e, h'] at h; cases h
          · rcases ltBytes_total e with h3 | h3
            · rw [ltBytes_trans h3 h'] at h; cases h
            · rw [h3] at h2; cases h2

theorem pySort_sorted {k : α → List Nat} : ∀ {l : List α}, (∀ a ∈ l, ∀ b ∈ l, lt a b = ltBytes (k a) (k b)) →
    (pySort lt l).Pairwise (fun a b => ltBytes (k b) (k a) = false)
  | [], _ => by simp [pySort]
  | x :: xs, h => by
    rw [pySort]
    refine insertBy_sorted lt (fun a ha b hb => h a ?_ b ?_)
      (pySort_sorted fun a ha b hb => h a (List.mem_cons_of_mem _ ha) b (List.mem_cons_of_mem _ hb))
    · simpa [mem_pySort] using ha
    · simpa [mem_pySort] using hb

/-- Sorting a list that is already in order changes nothing. -/
theorem pySort_of_sorted : ∀ {l : List α}, l.Pairwise (fun a b => lt b a = false) → pySort lt l = l
  | [], _ => rfl
  | x :: xs, h => by
    obtain ⟨h1, h2⟩ := List.pairwise_cons.1 h
    rw [pySort, pySort_of_sorted h2]
    cases xs with
    | nil => rfl
    | cons y ys => rw [insertBy, h1 y (by simp)]; simp

end

section
variable {α κ : Type} [DecidableEq κ] (key : α → κ)

theorem mem_dedupBy {x : α} : ∀ {l : List α}, x ∈ dedupBy key l → x ∈ l
  | [], h => by simp [dedupBy] at h
  | y :: ys, h => by
    rw [dedupBy] at h
    rcases List.mem_cons.1 h with rfl | h
    · simp
    · exact List.mem_cons_of_mem _ (mem_dedupBy (List.mem_of_mem_filter h))

theorem dedupBy_complete {x : α} : ∀ {l : List α}, x ∈ l → ∃ y ∈ dedupBy key l, key y = key x
  | [], h => by cases h
  | z :: zs, h => by
    rw [dedupBy]
    by_cases hk : key x = key z
    · exact ⟨z, by simp, hk.symm⟩
    · rcases List.mem_cons.1 h with rfl | h
      · exact absurd rfl hk
      · obtain ⟨y, hy, hyk⟩ := dedupBy_complete h
        exact ⟨y, List.mem_cons_of_mem _ (List.mem_filter.2 ⟨hy, by simp [hyk, hk]⟩), hyk⟩

theorem dedupBy_pairwise : ∀ (l : List α), (dedupBy key l).Pairwise (fun a b => key a ≠ key b)
  | [] => by simp [dedupBy]
  | z :: zs => by
    rw [dedupBy, List.pairwise_cons]
    refine ⟨fun b hb => ?_, (dedupBy_pairwise zs).filter _⟩
    have := (List.mem_filter.1 hb).2
    simp only [decide_eq_true_eq] at this
    exact Ne.symm this

theorem dedupBy_ne_nil {l : List α} (h : l ≠ []) : dedupBy key l ≠ [] := by
  cases l with
  | nil => exact absurd rfl h
  | cons x xs => simp [dedupBy]

theorem dedupBy_of_pairwise : ∀ {l : List α}, l.Pairwise (fun a b => key a ≠ key b) → dedupBy key l = l
  | [], _ => rfl
  | x :: xs, h => by
    obtain ⟨h1, h2⟩ := List.pairwise_cons.1 h
    rw [dedupBy, dedupBy_of_pairwise h2, List.filter_eq_self.2]
    intro y hy
    simpa using Ne.symm (h1 y hy)

end

namespace Script

/-- Sorting scripts. -/
theorem sortScripts {l : List Script} (h : ∀ c ∈ l, WF c ∧ Plain c) :
    (pySort lt l).Pairwise (fun a b => lt b a = false) := by
  have hk : ∀ a ∈ l, ∀ b ∈ l, lt a b = ltBytes (K a) (K b) :=
    fun a ha b hb => lt_K (h a ha).1 (h a ha).2 (h b hb).1 (h b hb).2
  refine (pySort_sorted lt hk).imp_of_mem ?_
  intro a b ha hb hab
  rw [mem_pySort] at ha hb
  rw [hk b hb a ha, hab]

theorem sortScripts_strict {l : List Script} (h : ∀ c ∈ l, WF c ∧ Plain c) (hd : l.Pairwise (fun a b => a.str ≠ b.str)) :
    (pySort lt l).Pairwise (fun a b => lt a b = true) ∧ (pySort lt l).Pairwise (fun a b => a.str ≠ b.str) := by
  have hd' : (pySort lt l).Pairwise (fun a b => a.str ≠ b.str) :=
    ((pySort_perm lt l).pairwise_iff (fun {_ _} h => Ne.symm h)).2 hd
  refine ⟨?_, hd'⟩
  refine ((sortScripts h).and hd').imp_of_mem ?_
  intro a b ha hb hab
  rw [mem_pySort] at ha hb
  rcases lt_total (h a ha).1 (h a ha).2 (h b hb).1 (h b hb).2 hab.2 with h1 | h1
  · exact h1
  · rw [hab.1] at h1; cases h1

/-- Two lists with the same texts, sorted, have the same texts in the same order. -/
theorem sortScripts_ext {l l' : List Script} (h : ∀ c ∈ l, WF c ∧ Plain c) (h' : ∀ c ∈ l', WF c ∧ Plain c)
    (hp : (l.map str).Perm (l'.map str)) : (pySort lt l).map str = (pySort lt l').map str := by
  have key : ∀ {a b : Script}, WF a ∧ Plain a → WF b ∧ Plain b → lt a b = false → lt b a = false → a.str = b.str := by
    intro a b ha hb h1 h2
    by_contra hne
    rcases lt_total ha.1 ha.2 hb.1 hb.2 hne with h | h
    · rw [h1] at h; cases h
    · rw [h2] at h; cases h
  -- the order transported to texts
  let R : Str → Str → Prop := fun a b => ∀ x y : Script, WF x ∧ Plain x → WF y ∧ Plain y → x.str = a → y.str = b → lt y x = false
  have sorted : ∀ {l : List Script}, (∀ c ∈ l, WF c ∧ Plain c) → ((pySort lt l).map str).Pairwise R := by
    intro l h
    rw [List.pairwise_map]
    refine (sortScripts h).imp_of_mem ?_
    intro a b ha hb hab x y hx hy hxa hyb
    rw [mem_pySort] at ha hb
    rw [lt_congr hy.1 hy.2 (h b hb).1 (h b hb).2 hx.1 hx.2 (h a ha).1 (h a ha).2 hyb hxa, hab]
  have hperm : ((pySort lt l).map str).Perm ((pySort lt l').map str) :=
    (((pySort_perm lt l).map str).trans hp).trans ((pySort_perm lt l').map str).symm
  refine hperm.eq_of_pairwise (le := R) ?_ (sorted h) (sorted h')
  intro a b ha hb hab hba
  obtain ⟨x, hx, rfl⟩ := List.mem_map.1 ha
  obtain ⟨y, hy, rfl⟩ := List.mem_map.1 hb
  rw [mem_pySort] at hx hy
  exact key (h x hx) (h' y hy) (hba y x (h' y hy) (h x hx) rfl rfl) (hab x y (h x hx) (h' y hy) rfl rfl)

end Script
end Verif
