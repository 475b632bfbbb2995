import Verif.Model.Cells
import Verif.Spec.Tables
import Verif.Lemmas.Parser

/-
Lemmas on the paradigm tables.
-/

namespace Verif
open Script

/-! ### Arrays -/

/-- Indices of an array in order. -/
def lex3 (n0 n1 n2 : Nat) : List (Nat × Nat × Nat) :=
  (List.range n0).flatMap fun i => (List.range n1).flatMap fun j => (List.range n2).map fun k => (i, j, k)

theorem mem_lex3 {n0 n1 n2 : Nat} {p : Nat × Nat × Nat} : p ∈ lex3 n0 n1 n2 ↔ p.1 < n0 ∧ p.2.1 < n1 ∧ p.2.2 < n2 := by
  rcases p with ⟨i, j, k⟩
  simp only [lex3, List.mem_flatMap, List.mem_range, List.mem_map, Prod.mk.injEq]
  constructor
  · rintro ⟨a, ha, b, hb, c, hc, rfl, rfl, rfl⟩; exact ⟨ha, hb, hc⟩
  · rintro ⟨h1, h2, h3⟩; exact ⟨i, h1, j, h2, k, h3, rfl, rfl, rfl⟩

theorem nodup_lex3 (n0 n1 n2 : Nat) : (lex3 n0 n1 n2).Nodup := by
  unfold lex3
  rw [List.nodup_flatMap]
  refine ⟨fun i _ => ?_, ?_⟩
  · rw [List.nodup_flatMap]
    refine ⟨fun j _ => ?_, ?_⟩
    · exact List.nodup_range.map fun a b h => by simpa using h
    · refine List.nodup_range.imp ?_
      intro a b hab x hx hy
      simp only [List.mem_map] at hx hy
      obtain ⟨c, _, rfl⟩ := hx
      obtain ⟨d, _, h⟩ := hy
      simp at h
      exact hab h.1.symm
  · refine List.nodup_range.imp ?_
    intro a b hab x hx hy
    simp only [List.mem_flatMap, List.mem_map] at hx hy
    obtain ⟨c, _, e, _, rfl⟩ := hx
    obtain ⟨d, _, f, _, h⟩ := hy
    simp at h
    exact hab h.1.symm

theorem flat_eq (r : Arr) : r.flat = (lex3 r.n0 r.n1 r.n2).map fun p => r.get p.1 p.2.1 p.2.2 := by
  simp [Arr.flat, lex3, List.map_flatMap, Function.comp_def]

theorem fold_set {idx : Script → Nat × Nat × Nat} : ∀ (L : List Script) (A : Arr), (L.map idx).Nodup →
    (∀ q ∈ L, idx q ∈ lex3 A.n0 A.n1 A.n2) →
    ∃ R, L.foldlM (fun r q => Arr.set r (idx q).1 (idx q).2.1 (idx q).2.2 q) A = .ok R ∧ R.n0 = A.n0 ∧ R.n1 = A.n1 ∧
      R.n2 = A.n2 ∧ (∀ q ∈ L, R.get (idx q).1 (idx q).2.1 (idx q).2.2 = some q) ∧
      ∀ p, p ∉ L.map idx → R.get p.1 p.2.1 p.2.2 = A.get p.1 p.2.1 p.2.2
  | [], A, _, _ => ⟨A, rfl, rfl, rfl, rfl, by simp, by simp⟩
  | q :: L, A, hn, hb => by
    rw [List.map_cons, List.nodup_cons] at hn
    have hq := mem_lex3.1 (hb q (by simp))
    obtain ⟨R, h1, h2, h3, h4, h5, h6⟩ := fold_set (idx := idx) L
      { A with get := fun i' j' k' => if i' = (idx q).1 ∧ j' = (idx q).2.1 ∧ k' = (idx q).2.2 then some q else A.get i' j' k' }
      hn.2 fun q' hq' => hb q' (by simp [hq'])
    refine ⟨R, ?_, h2, h3, h4, ?_, ?_⟩
    · rw [List.foldlM_cons, Arr.set, if_pos hq]
      exact h1
    · intro q' hq'
      rcases List.mem_cons.1 hq' with rfl | hq'
      · rw [h6 _ hn.1]; simp
      · exact h5 q' hq'
    · intro p hp
      simp only [List.map_cons, List.mem_cons, not_or] at hp
      rw [h6 p hp.2]
      have : ¬ (p.1 = (idx q).1 ∧ p.2.1 = (idx q).2.1 ∧ p.2.2 = (idx q).2.2) := by
        rintro ⟨a, b, c⟩
        exact hp.1 (Prod.ext a (Prod.ext b c))
      simp [this]

/-- Filling an array with sequences at distinct positions that exhaust it. -/
theorem fill_array {idx : Script → Nat × Nat × Nat} {L r : List Script} {n0 n1 n2 : Nat} (hp : L.Perm r)
    (hr : r.map idx = lex3 n0 n1 n2) :
    ∃ R, L.foldlM (fun r q => Arr.set r (idx q).1 (idx q).2.1 (idx q).2.2 q) (Arr.zeros n0 n1 n2) = .ok R ∧
      R.flat = r.map some ∧ (R.n0 = n0 ∧ R.n1 = n1 ∧ R.n2 = n2) ∧
      ∀ q ∈ r, R.get (idx q).1 (idx q).2.1 (idx q).2.2 = some q := by
  have hn : (L.map idx).Nodup := by
    rw [(hp.map idx).nodup_iff, hr]; exact nodup_lex3 _ _ _
  obtain ⟨R, h1, h2, h3, h4, h5, _⟩ := fold_set (idx := idx) L (Arr.zeros n0 n1 n2) hn (by
    intro q hq
    show idx q ∈ lex3 n0 n1 n2
    rw [← hr]
    exact List.mem_map_of_mem (hp.mem_iff.1 hq))
  refine ⟨R, h1, ?_, ⟨h2, h3, h4⟩, fun q hq => h5 q (hp.mem_iff.2 hq)⟩
  rw [flat_eq, h2, h3, h4]
  show (lex3 n0 n1 n2).map _ = _
  rw [← hr, List.map_map]
  apply List.map_congr_left
  intro q hq
  exact h5 q (hp.mem_iff.2 hq)

theorem flat_column (ss : List Script) : (Arr.column ss).flat = ss.map some := by
  have h1 : (Arr.column ss).flat = (List.range ss.length).map fun i => ss[i]? := by
    simp only [Arr.flat, Arr.column, List.range_one, List.map_singleton, List.flatMap_singleton]
    generalize List.range ss.length = l
    induction l with
    | nil => rfl
    | cons i l ih => rw [List.flatMap_cons, ih]; rfl
  rw [h1]
  apply List.ext_getElem
  · simp
  · intro n h1 h2
    simp at h1
    simp [h1]

/-- `np.vectorize` when the function is defined on every entry. -/
theorem vectorize_ok {f : Script → Except Err Script} {g : Script → Script} {r : Arr} {xs : List Script}
    (hr : r.flat = xs.map some) (hf : ∀ x ∈ xs, f x = .ok (g x)) :
    ∃ r', r.vectorize f = .ok r' ∧ r'.flat = (xs.map g).map some := by
  have hm : r.flat.mapM (Arr.entry f) = .ok (xs.map g) := by
    rw [hr]
    clear hr
    induction xs with
    | nil => rfl
    | cons x xs ih =>
      rw [List.map_cons, List.mapM_cons, Arr.entry, hf x (by simp)]
      simp only [bind, Except.bind]
      rw [ih fun y hy => hf y (by simp [hy])]
      rfl
  refine ⟨_, by unfold Arr.vectorize; rw [hm]; rfl, ?_⟩
  rw [flat_eq]
  show (lex3 r.n0 r.n1 r.n2).map _ = _
  rw [flat_eq] at hr
  have : ∀ (l : List (Nat × Nat × Nat)) (xs : List Script), l.map (fun p => r.get p.1 p.2.1 p.2.2) = xs.map some →
      (∀ x ∈ xs, f x = .ok (g x)) →
      l.map (fun p => (Arr.entry f (r.get p.1 p.2.1 p.2.2)).toOption) = (xs.map g).map some := by
    intro l
    induction l with
    | nil => intro xs h _; cases xs <;> simp_all
    | cons p l ih =>
      intro xs h hf
      cases xs with
      | nil => simp at h
      | cons x xs =>
        simp only [List.map_cons, List.cons.injEq] at h ⊢
        refine ⟨?_, ih xs h.2 fun y hy => hf y (by simp [hy])⟩
        rw [h.1, Arr.entry, hf x (by simp)]
        rfl
  exact this _ xs hr hf

/-! ### Positions -/

theorem find?_unique {α : Type} {p : α → Bool} {l : List α} {a : α} (ha : a ∈ l) (hp : p a = true)
    (hu : ∀ b ∈ l, p b = true → b = a) : l.find? p = some a := by
  cases h : l.find? p with
  | none => exact absurd hp (by simpa using List.find?_eq_none.1 h a ha)
  | some b => rw [hu b (List.mem_of_find?_eq_some h) (List.find?_some h)]

/-- Position of a sequence in a list, by text. -/
def pos (xs : List Script) (x : Script) : Nat := xs.findIdx fun y => y.pyEq x

theorem norep_getElem {xs : List Script} (h : xs.Pairwise fun a b => a.str ≠ b.str) {i j : Nat} (hi : i < xs.length)
    (hj : j < xs.length) (he : xs[i].str = xs[j].str) : i = j := by
  rcases Nat.lt_trichotomy i j with hl | hl | hl
  · exact absurd he (List.pairwise_iff_getElem.1 h i j hi hj hl)
  · exact hl
  · exact absurd he.symm (List.pairwise_iff_getElem.1 h j i hj hi hl)

theorem pos_getElem {xs : List Script} (h : xs.Pairwise fun a b => a.str ≠ b.str) {i : Nat} (hi : i < xs.length) :
    pos xs xs[i] = i := by
  have hlt : pos xs xs[i] < xs.length := List.findIdx_lt_length_of_exists ⟨xs[i], List.getElem_mem _, by simp [pyEq]⟩
  have : xs[pos xs xs[i]].pyEq xs[i] = true := List.findIdx_getElem (w := hlt)
  exact norep_getElem h hlt hi (eq_of_beq this)

theorem map_pos {xs : List Script} (h : xs.Pairwise fun a b => a.str ≠ b.str) : xs.map (pos xs) = List.range xs.length := by
  apply List.ext_getElem
  · simp
  · intro n h1 h2
    simp at h1
    simp [pos_getElem h h1]

theorem seqIndex_pos {xs : List Script} (h : xs.Pairwise fun a b => a.str ≠ b.str) {x y : Script} (hx : x ∈ xs)
    (hy : y.str = x.str) : seqIndex xs y = .ok (pos xs x) := by
  obtain ⟨i, hi, rfl⟩ := List.mem_iff_getElem.1 hx
  rw [pos_getElem h hi]
  unfold seqIndex
  rw [find?_unique (a := (xs[i], i))]
  · rw [List.mem_reverse, List.mem_zipIdx_iff_getElem?]
    simp [hi]
  · simp [pyEq, hy]
  · rintro ⟨b, j⟩ hb hp
    rw [List.mem_reverse, List.mem_zipIdx_iff_getElem?] at hb
    simp at hb
    obtain ⟨hj, rfl⟩ := List.getElem?_eq_some_iff.1 hb
    have := norep_getElem h hj hi (by simpa [pyEq, hy] using hp)
    subst this
    rfl

end Verif
