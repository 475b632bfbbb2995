import Verif.Lemmas.PySort
import Verif.Lemmas.Except
import Verif.Model.Distance

/-
Lemmas on the sorts by distance.
-/

namespace Verif

section
variable {α : Type} {lt : α → α → Bool}

theorem insertBy_weak (has : ∀ a b, lt a b = true → lt b a = false) (htr : ∀ a b c, lt b a = false → lt c b = false → lt c a = false) (x : α) :
    ∀ l : List α, l.Pairwise (fun a b => lt b a = false) → (insertBy lt x l).Pairwise fun a b => lt b a = false
  | [], _ => by simp [insertBy]
  | y :: l, h => by
    rw [insertBy]
    obtain ⟨h1, h2⟩ := List.pairwise_cons.1 h
    split
    · rename_i hyx
      rw [List.pairwise_cons]
      refine ⟨fun b hb => ?_, insertBy_weak has htr x l h2⟩
      rcases List.mem_cons.1 ((insertBy_perm lt x l).mem_iff.1 hb) with rfl | hb
      · exact has _ _ hyx
      · exact h1 b hb
    · rename_i hyx
      have hyx : lt y x = false := by simpa using hyx
      rw [List.pairwise_cons]
      refine ⟨fun b hb => ?_, h⟩
      rcases List.mem_cons.1 hb with rfl | hb
      · exact hyx
      · exact htr _ _ _ hyx (h1 b hb)

/-- The result of `sorted` is in order, for every strict weak order. -/
theorem pySort_weak (has : ∀ a b, lt a b = true → lt b a = false) (htr : ∀ a b c, lt b a = false → lt c b = false → lt c a = false) :
    ∀ l : List α, (pySort lt l).Pairwise fun a b => lt b a = false
  | [] => by simp [pySort]
  | x :: l => insertBy_weak has htr x _ (pySort_weak has htr l)

theorem insertBy_class {p : α → Bool} (hp : ∀ a b, p a = true → p b = true → lt a b = false) (x : α) : ∀ l : List α,
    (insertBy lt x l).filter p = (x :: l).filter p
  | [] => rfl
  | y :: l => by
    rw [insertBy]
    split
    · rename_i hyx
      rw [List.filter_cons, insertBy_class hp x l, List.filter_cons, List.filter_cons, List.filter_cons]
      by_cases h1 : p x = true
      · by_cases h2 : p y = true
        · rw [hp y x h2 h1] at hyx
          cases hyx
        · simp [h2]
      · simp [h1]
    · rfl

/-- `sorted` keeps the order of the elements of which none is before another. -/
theorem pySort_class {p : α → Bool} (hp : ∀ a b, p a = true → p b = true → lt a b = false) : ∀ l : List α, (pySort lt l).filter p = l.filter p
  | [] => rfl
  | x :: l => by
    rw [pySort, insertBy_class hp, List.filter_cons, List.filter_cons, pySort_class hp l]

end

/-! ### Fractions -/

theorem ltFrac_asymm {a b : Nat × Nat} (h : ltFrac a b = true) : ltFrac b a = false := by
  simp only [ltFrac, decide_eq_true_eq, decide_eq_false_iff_not] at *
  omega

theorem ltFrac_le_trans {a b c : Nat × Nat} (hb : 0 < b.2) (h1 : ltFrac b a = false) (h2 : ltFrac c b = false) : ltFrac c a = false := by
  simp only [ltFrac, decide_eq_false_iff_not, Nat.not_lt] at *
  have e1 : a.1 * b.2 * c.2 ≤ b.1 * a.2 * c.2 := Nat.mul_le_mul_right _ h1
  have e2 : b.1 * c.2 * a.2 ≤ c.1 * b.2 * a.2 := Nat.mul_le_mul_right _ h2
  have e3 : b.2 * (a.1 * c.2) ≤ b.2 * (c.1 * a.2) := by
    calc b.2 * (a.1 * c.2) = a.1 * b.2 * c.2 := by rw [← Nat.mul_assoc, Nat.mul_comm b.2 a.1]
      _ ≤ b.1 * a.2 * c.2 := e1
      _ = b.1 * c.2 * a.2 := by rw [Nat.mul_assoc, Nat.mul_comm a.2, ← Nat.mul_assoc]
      _ ≤ c.1 * b.2 * a.2 := e2
      _ = b.2 * (c.1 * a.2) := by rw [← Nat.mul_assoc, Nat.mul_comm b.2 c.1]
  exact Nat.le_of_mul_le_mul_left e3 hb

section
variable {S U : Type} [DecidableEq S] [DecidableEq U]

theorem proximity_den (s t : Finset S) : 0 < (proximity s t).2 := by
  unfold proximity
  dsimp only
  split
  · omega
  · exact Nat.one_pos

theorem symmDiff_card {s t : Finset S} : (symmDiff s t).card = 0 ↔ s = t := by
  rw [Finset.card_eq_zero]
  exact symmDiff_eq_bot

/-- `indexes[u]` when no USL is repeated. -/
theorem lastIndex_nodup {l : List U} (h : l.Nodup) {i : Nat} (hi : i < l.length) : lastIndex l l[i] = i := by
  unfold lastIndex
  have h1 : l[i] = l.reverse[l.length - 1 - i]'(by rw [List.length_reverse]; omega) := by
    rw [List.getElem_reverse]
    congr 1
    omega
  rw [h1, (List.nodup_reverse.2 h).idxOf_getElem]
  omega

theorem setAt_eq (m : Nat → Nat → Nat) (i j v : Nat) : setCell m i j v i j = v := by simp [setCell]

/-- The writes of one row. -/
theorem row_writes {ix : U → Nat} {i : Nat} : ∀ (l : List U) (k : Nat) (m : Nat → Nat → Nat), (∀ a ∈ l, ∀ b ∈ l, ix a = ix b → a = b) → l.Nodup →
    (∀ n a, l[n]? = some a → ((l.zipIdx k).foldl (fun m e => setCell m i (ix e.1) e.2) m) i (ix a) = k + n) ∧
    ∀ p q, p ≠ i → ((l.zipIdx k).foldl (fun m e => setCell m i (ix e.1) e.2) m) p q = m p q
  | [], k, m, _, _ => ⟨by simp, fun _ _ _ => rfl⟩
  | x :: l, k, m, hinj, hn => by
    rw [List.nodup_cons] at hn
    have keep : ∀ (l : List U) (k : Nat) (m : Nat → Nat → Nat) q, (∀ b ∈ l, ix b ≠ q) → ((l.zipIdx k).foldl (fun m e => setCell m i (ix e.1) e.2) m) i q = m i q := by
      intro l
      induction l with
      | nil => intro k m q _; rfl
      | cons b l ih =>
        intro k m q hq
        rw [List.zipIdx_cons, List.foldl_cons, ih _ _ _ fun c hc => hq c (List.mem_cons_of_mem _ hc)]
        have := hq b (by simp)
        simp only [setCell]
        rw [if_neg]
        exact fun h => this h.2.symm
    have ih := row_writes (ix := ix) (i := i) l (k + 1) (setCell m i (ix x) k) (fun a ha b hb => hinj a (List.mem_cons_of_mem _ ha) b (List.mem_cons_of_mem _ hb)) hn.2
    rw [List.zipIdx_cons, List.foldl_cons]
    refine ⟨fun n a hna => ?_, fun p q hp => ?_⟩
    · cases n with
      | zero =>
        simp only [List.getElem?_cons_zero, Option.some.injEq] at hna
        subst hna
        rw [keep _ _ _ _ fun b hb he => hn.1 (by rw [← hinj b (List.mem_cons_of_mem _ hb) x (by simp) he]; exact hb)]
        simp [setCell]
      | succ n =>
        rw [ih.1 n a (by simpa using hna)]
        omega
    · rw [ih.2 p q hp]
      simp [setCell, hp]

end

end Verif
