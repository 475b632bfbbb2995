import Verif.Model.TableLines
import Verif.Props.TableAccess

/-
C96, the rows of a table as arrays.
-/

namespace Verif
open Script DictOk

/-- **C96**, rows as arrays: `t[i]` holds the cells `t[i, j]` in order, for negative indexes too, its words are those of the header of the row,
and an index outside raises. -/
theorem C96_row {t : Table} (h : TableMade t) (hb : Built t.script) (hd : DisjointSums t.script) (hk : t.kind = .t2d) :
    ∃ rows n1, t.rows = .ok rows ∧ t.shape = .ok [rows.length, n1] ∧
      (∀ (i : Nat) x, rows[i]? = some x → ∀ i' : Int, (i' = i ∨ i' = (i : Int) - rows.length) →
        ∃ r, t.getRow i' = .ok r ∧ r.length = n1 ∧ (∀ j < n1, ∃ q, r[j]? = some (some q) ∧ t.getItem [(i : Int), (j : Int)] = .ok (some q)) ∧
          ∀ w, Den x w ↔ ∃ q, some q ∈ r ∧ Den q w) ∧
      ∀ i' : Int, i' < -rows.length ∨ rows.length ≤ i' → t.getRow i' = .error .indexError := by
  obtain ⟨rows, cols, h1, h2, h3, h4, h5⟩ := C96_rows h hb hd hk
  obtain ⟨tt, c, k1, k2, -⟩ := made_2d h hk (built_wf hb)
  obtain ⟨c', L, e, -, ⟨-, g1, g2, g3⟩ | ⟨hne, -⟩⟩ := access h hb hd (.inl hk)
  swap
  · exact absurd hk hne
  have hcc : t.shape = .ok [c.n0, c.n1] := by
    unfold Table.shape
    rw [hk]
    simp only [k1, k2, first, bind, Except.bind]
    rfl
  have hget : ∀ i' j' : Int, t.getItem [i', j'] = (do return c.get (← wrapIndex c.n0 i') (← wrapIndex c.n1 j') 0) := by
    intro i' j'
    unfold Table.getItem
    rw [hk]
    simp only [k1, k2, first, bind, Except.bind]
  have hrow : ∀ i' : Int, t.getRow i' = (wrapIndex c.n0 i').map fun r => (List.range c.n1).map fun j => c.get r j 0 := by
    intro i'
    unfold Table.getRow
    rw [hk]
    simp only [k1, k2, first, bind, Except.bind]
    cases wrapIndex c.n0 i' <;> rfl
  rw [hcc] at h3
  simp only [Except.ok.injEq, List.cons.injEq, and_true] at h3
  obtain ⟨e0, e1⟩ := h3
  obtain ⟨L', hL⟩ : ∃ L, singularSequences t.script = .ok L := ⟨L, e.run⟩
  have hpl := (C96_places h hb hd (.inl hk) hL hcc).2.1
  have cell : ∀ i < c.n0, ∀ j < c.n1, ∃ q, c.get i j 0 = some q ∧ t.getItem [(i : Int), (j : Int)] = .ok (some q) := by
    intro i hi j hj
    obtain ⟨q, -, hq, -⟩ := hpl [i, j] (.cons hi (.cons hj .nil))
    have hq : t.getItem [(i : Int), (j : Int)] = .ok (some q) := hq
    refine ⟨q, ?_, hq⟩
    rw [hget, wrapIndex_nat hi, wrapIndex_nat hj] at hq
    exact Except.ok.inj hq
  refine ⟨rows, c.n1, h1, by rw [hcc, e0], ?_, ?_⟩
  · intro i x hx i' hi'
    have hi : i < c.n0 := by rw [e0]; exact (List.getElem?_eq_some_iff.1 hx).1
    have hw : wrapIndex c.n0 i' = .ok i := wrapIndex_ok.2 ⟨hi, by rw [e0]; exact hi'⟩
    refine ⟨(List.range c.n1).map fun j => c.get i j 0, by rw [hrow, hw]; rfl, by simp, ?_, ?_⟩
    · intro j hj
      obtain ⟨q, q1, q2⟩ := cell i hi j hj
      exact ⟨q, by simp [hj, q1], q2⟩
    · intro w
      rw [h4 i x hx w]
      constructor
      · rintro ⟨j, hj, q, hq, hw⟩
        obtain ⟨q', q1, q2⟩ := cell i hi j (by omega)
        rw [hq] at q2
        cases q2
        exact ⟨q, List.mem_map.2 ⟨j, List.mem_range.2 (by omega), q1⟩, hw⟩
      · rintro ⟨q, hq, hw⟩
        obtain ⟨j, hj, q1⟩ := List.mem_map.1 hq
        have hj := List.mem_range.1 hj
        obtain ⟨q', q2, q3⟩ := cell i hi j hj
        rw [q1] at q2
        cases q2
        exact ⟨j, by omega, q, q3, hw⟩
  · intro i' hi'
    rw [hrow, wrapIndex_error (by rw [e0]; exact hi')]
    rfl

/-- Iterating over a table of two dimensions gives its rows, in order, and ends. -/
theorem C96_iterated {t : Table} (h : TableMade t) (hb : Built t.script) (hd : DisjointSums t.script) (hk : t.kind = .t2d) {n0 n1 : Nat}
    (hs : t.shape = .ok [n0, n1]) {n : Nat} (hn : n0 < n) :
    ∃ rs, t.iterRows 0 n = .ok rs ∧ rs.length = n0 ∧ ∀ i < n0, ∃ r, rs[i]? = some r ∧ t.getRow (i : Int) = .ok r := by
  obtain ⟨rows, m1, h1, h2, h3, h4⟩ := C96_row h hb hd hk
  rw [hs] at h2
  simp only [Except.ok.injEq, List.cons.injEq, and_true] at h2
  obtain ⟨e0, -⟩ := h2
  have key : ∀ m k, k ≤ n0 → n0 - k < m → ∃ rs, t.iterRows k m = .ok rs ∧ rs.length = n0 - k ∧
      ∀ i < n0 - k, ∃ r, rs[i]? = some r ∧ t.getRow ((k + i : Nat) : Int) = .ok r := by
    intro m
    induction m with
    | zero => intro k _ h; omega
    | succ m ih =>
      intro k hk hm
      unfold Table.iterRows
      by_cases hkn : k = n0
      · rw [h4 k (.inr (by omega))]
        exact ⟨[], rfl, by simp [hkn], fun i hi => by omega⟩
      · obtain ⟨r, r1, -⟩ := h3 k (rows[k]'(by omega)) (List.getElem?_eq_getElem _) k (.inl rfl)
        rw [r1]
        obtain ⟨rs, a1, a2, a3⟩ := ih (k + 1) (by omega) (by omega)
        refine ⟨r :: rs, by simp only [a1]; rfl, by simp [a2]; omega, ?_⟩
        intro i hi
        cases i with
        | zero => exact ⟨r, rfl, r1⟩
        | succ i =>
          obtain ⟨r', b1, b2⟩ := a3 i (by omega)
          exact ⟨r', by simpa using b1, by rw [← b2]; congr 1; omega⟩
  obtain ⟨rs, a1, a2, a3⟩ := key n 0 (by omega) (by omega)
  exact ⟨rs, a1, by simpa using a2, fun i hi => by simpa using a3 i (by omega)⟩

-- The second row of the table of `M:M:.`, and its three rows.
example : TableMade tileRoot ∧ tileRoot.kind = .t2d ∧ (tileRoot.getRow 1).map (fun r => r.map fun q => q.map str) = .ok [some (c!"k."), some (c!"m."), some (c!"n.")] ∧
    (tileRoot.getRow (-2)).map (fun r => r.map fun q => q.map str) = .ok [some (c!"k."), some (c!"m."), some (c!"n.")] ∧
    (tileRoot.iterRows 0 4).map List.length = .ok 3 :=
  ⟨tileRoot_made, rfl, by decide +kernel, by decide +kernel, by decide +kernel⟩

end Verif
