import Verif.Lemmas.Distance

/-
C107: the sort of a collection of USLs by their proximity to one of them.
-/

namespace Verif

variable {S U : Type} [DecidableEq S] [DecidableEq U]

/-- `b` is closer to `s` than `a`: `b` is `s` itself and `a` is not, or `b` has more elements in common with `s` for the number of elements by
which it differs. -/
def Closer (s a b : Finset S) : Prop :=
  a ≠ s ∧ (b = s ∨ (s ∩ a).card * (symmDiff s b).card < (s ∩ b).card * (symmDiff s a).card)

/-- **C107: the key of the sort says which set is closer.** -/
theorem C107_closer (s a b : Finset S) : ltFrac (proximity s a) (proximity s b) = true ↔ Closer s a b := by
  have hle : ∀ t : Finset S, (s ∩ t).card ≤ s.card := fun t => Finset.card_le_card Finset.inter_subset_left
  unfold ltFrac proximity Closer
  dsimp only
  rw [decide_eq_true_eq]
  by_cases ha : (symmDiff s a).card = 0
  · have ea := symmDiff_card.1 ha
    subst ea
    simp only [ha, ne_eq, not_true_eq_false, if_false, false_and, iff_false, Nat.not_lt]
    split
    · rename_i hb
      have := hle b
      have h1 : 1 ≤ (symmDiff s b).card := by omega
      calc (s ∩ b).card * 1 ≤ (s.card + 1) * 1 := by omega
        _ ≤ (s.card + 1) * (symmDiff s b).card := Nat.mul_le_mul_left _ h1
    · exact Nat.le_refl _
  · have na : a ≠ s := fun e => ha (symmDiff_card.2 e.symm)
    by_cases hb : (symmDiff s b).card = 0
    · have eb := symmDiff_card.1 hb
      subst eb
      simp only [ha, hb, ne_eq, not_false_eq_true, if_true, not_true_eq_false, if_false, Nat.mul_one, na, true_or, and_self, iff_true]
      have := hle a
      have h1 : 1 ≤ (symmDiff s a).card := by omega
      calc (s ∩ a).card < (s.card + 1) * 1 := by omega
        _ ≤ (s.card + 1) * (symmDiff s a).card := Nat.mul_le_mul_left _ h1
    · have nb : b ≠ s := fun e => hb (symmDiff_card.2 e.symm)
      simp [ha, hb, na, nb]

example : Closer ({0, 1, 2} : Finset Nat) {0, 5} {0, 1, 5} ∧ ¬ Closer ({0, 1, 2} : Finset Nat) {0, 1, 2} {0, 1} := by
  constructor <;> (unfold Closer; decide)

/-- **C107: the proximity of two sets is the same from both sides.** -/
theorem C107_symmetric (s t : Finset S) : proximity s t = proximity t s := by
  unfold proximity
  rw [symmDiff_comm, Finset.inter_comm]
  dsimp only
  split
  · rfl
  · rename_i h
    have : t = s := symmDiff_card.1 (by simpa using h)
    rw [this]

example : proximity ({0, 1, 2} : Finset Nat) {2, 3} = (1, 3) := by decide

/-- **C107: the collection is sorted with the closest USLs at the end.**  The result has the USLs of the collection, none is followed by one that
is less close, and USLs that are equally close stay in their order. -/
theorem C107_sort (semes : U → Finset S) (u : U) (l : List U) :
    (querySort semes u l).Perm l ∧ (querySort semes u l).Pairwise (fun a b => ¬ Closer (semes u) (semes b) (semes a)) ∧
    ∀ p : U → Bool, (∀ a b, p a = true → p b = true → ¬ Closer (semes u) (semes a) (semes b)) → (querySort semes u l).filter p = l.filter p := by
  unfold querySort
  refine ⟨pySort_perm _ _, ?_, fun p hp => pySort_class (fun a b ha hb => ?_) l⟩
  · refine (pySort_weak ?_ ?_ l).imp fun {a b} h => ?_
    · exact fun a b => ltFrac_asymm
    · exact fun a b c h1 h2 => ltFrac_le_trans (proximity_den _ _) h1 h2
    · rw [← C107_closer, h]
      simp
  · have := hp a b ha hb
    rw [← C107_closer] at this
    simpa using this

/-- **C107: the USLs with the same semes come last**, after all the others. -/
theorem C107_same_last (semes : U → Finset S) (u : U) (l : List U) :
    querySort semes u l = (querySort semes u l).filter (fun v => semes v ≠ semes u) ++ l.filter fun v => semes v = semes u := by
  obtain ⟨_, h2, h3⟩ := C107_sort semes u l
  have h3 := h3 (fun v => decide (semes v = semes u)) (by
    intro a b ha _ hc
    exact hc.1 (by simpa using ha))
  rw [← h3]
  generalize querySort semes u l = m at h2
  clear h3
  induction m with
  | nil => rfl
  | cons x m ih =>
    obtain ⟨h4, h5⟩ := List.pairwise_cons.1 h2
    by_cases hx : semes x = semes u
    · have hall : ∀ y ∈ m, semes y = semes u := by
        intro y hy
        by_contra hne
        exact h4 y hy ⟨hne, .inl hx⟩
      have e1 : m.filter (fun v => decide (semes v ≠ semes u)) = [] := List.filter_eq_nil_iff.2 fun y hy => by simp [hall y hy]
      have e2 : m.filter (fun v => decide (semes v = semes u)) = m := List.filter_eq_self.2 fun y hy => by simp [hall y hy]
      rw [List.filter_cons, List.filter_cons, e1, e2]
      simp [hx]
    · rw [List.filter_cons, List.filter_cons]
      simp only [hx, ne_eq, not_false_eq_true, decide_true, if_true, decide_false, Bool.false_eq_true, if_false, List.cons_append, List.cons.injEq, true_and]
      exact ih h5

example : querySort (fun n : Nat => (Finset.range n)) 2 [2, 0, 3, 1] = [0, 1, 3, 2] := by decide

/-- **C107: the matrix has the ranks of the USLs.**  For a list without repetition, the entry of a row and a column is the rank of the USL of the
column in the list sorted from the USL of the row; so each row has each rank once. -/
theorem C107_matrix {semes : U → Finset S} {l : List U} (h : l.Nodup) {i j : Nat} (hi : i < l.length) (hj : j < l.length) :
    (querySort semes l[i] l)[squareOrder semes l i j]? = some l[j] ∧ squareOrder semes l i j < l.length ∧
    ∀ k, k < l.length → squareOrder semes l i k = squareOrder semes l i j → k = j := by
  have hinj : ∀ a ∈ l, ∀ b ∈ l, lastIndex l a = lastIndex l b → a = b := by
    intro a ha b hb hab
    obtain ⟨m, hm, rfl⟩ := List.getElem_of_mem ha
    obtain ⟨n, hn, rfl⟩ := List.getElem_of_mem hb
    rw [lastIndex_nodup h hm, lastIndex_nodup h hn] at hab
    subst hab
    rfl
  have main : ∀ (us : List U) (m : Nat → Nat → Nat), us.Nodup → (∀ u ∈ us, u ∈ l) →
      (∀ u ∈ us, ∀ n a, (querySort semes u l)[n]? = some a →
        (us.foldl (fun m u => (querySort semes u l).zipIdx.foldl (fun m e => setCell m (lastIndex l u) (lastIndex l e.1) e.2) m) m) (lastIndex l u) (lastIndex l a) = n) ∧
      ∀ p q, (∀ u ∈ us, lastIndex l u ≠ p) →
        (us.foldl (fun m u => (querySort semes u l).zipIdx.foldl (fun m e => setCell m (lastIndex l u) (lastIndex l e.1) e.2) m) m) p q = m p q := by
    intro us
    induction us with
    | nil => intro m _ _; exact ⟨by simp, fun _ _ _ => rfl⟩
    | cons x us ih =>
      intro m hn hs
      rw [List.nodup_cons] at hn
      have hp := (C107_sort semes x l).1
      have hrow := row_writes (ix := lastIndex l) (i := lastIndex l x) (querySort semes x l) 0 m
        (fun a ha b hb => hinj a (hp.mem_iff.1 ha) b (hp.mem_iff.1 hb)) (hp.nodup_iff.2 h)
      obtain ⟨g1, g2⟩ := ih ((querySort semes x l).zipIdx.foldl (fun m e => setCell m (lastIndex l x) (lastIndex l e.1) e.2) m) hn.2
        fun u hu => hs u (List.mem_cons_of_mem _ hu)
      rw [List.foldl_cons]
      refine ⟨fun u hu n a hna => ?_, fun p q hpq => ?_⟩
      · rcases List.mem_cons.1 hu with rfl | hu
        · rw [g2 _ _ fun v hv he => hn.1 (by rw [← hinj v (hs v (List.mem_cons_of_mem _ hv)) u (hs u (by simp)) he]; exact hv)]
          rw [hrow.1 n a hna]
          omega
        · exact g1 u hu n a hna
      · rw [g2 p q fun u hu => hpq u (List.mem_cons_of_mem _ hu)]
        exact hrow.2 p q (fun e => hpq x (by simp) e.symm)
  obtain ⟨g1, _⟩ := main l (fun _ _ => 0) h fun _ hu => hu
  have rank : ∀ k (hk : k < l.length), (querySort semes l[i] l)[squareOrder semes l i k]? = some l[k] := by
    intro k hk
    have hm : l[k] ∈ querySort semes l[i] l := (C107_sort semes l[i] l).1.mem_iff.2 (List.getElem_mem hk)
    obtain ⟨n, hn⟩ := List.mem_iff_getElem?.1 hm
    have := g1 l[i] (List.getElem_mem hi) n _ hn
    rw [lastIndex_nodup h hi, lastIndex_nodup h hk] at this
    unfold squareOrder
    rw [this]
    exact hn
  refine ⟨rank j hj, ?_, fun k hk hkj => ?_⟩
  · have := rank j hj
    rw [List.getElem?_eq_some_iff] at this
    obtain ⟨hlt, _⟩ := this
    rw [(C107_sort semes l[i] l).1.length_eq] at hlt
    exact hlt
  · have h1 := rank k hk
    rw [hkj, rank j hj] at h1
    simp only [Option.some.injEq] at h1
    exact ((h.getElem_inj_iff).1 h1).symm

example : (List.range 4).map (squareOrder (fun n : Nat => Finset.range n) [2, 0, 3, 1] 0) = [3, 0, 2, 1] ∧ [2, 0, 3, 1].Nodup := by decide

/-- **C107 is violated: the rows are not the indexes of the sorted USLs**, as the documentation of `square_order_matrix` says, but their ranks: the
USLs at the indexes of a row are not the sorted list. -/
theorem C107_violated_indexes : ∃ l : List Nat, l.Nodup ∧
    (List.range l.length).map (fun j => l[squareOrder (fun n : Nat => Finset.range n) l 0 j]?) ≠ (querySort (fun n : Nat => Finset.range n) (l[0]?.getD 0) l).map some :=
  ⟨[2, 0, 3, 1], by decide, by decide⟩

/-- **C107 is violated for lists with a USL twice**: the row of the first one is not written. -/
theorem C107_violated_repeated : (List.range 3).map (squareOrder (fun n : Nat => Finset.range n) [2, 2, 1] 0) = [0, 0, 0] ∧
    (List.range 3).map (squareOrder (fun n : Nat => Finset.range n) [2, 2, 1] 1) = [0, 2, 0] := by decide

end Verif
