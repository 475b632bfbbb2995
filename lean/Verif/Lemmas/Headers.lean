import Verif.Lemmas.Cells3
import Verif.Lemmas.Except
import Verif.Spec.Headers

/-
The headers of the tables of every script: products with several plural roles give grids, sums give lines, and the recursion on the only
plural role of a product and on the terms of a sum keeps them.
-/

namespace Verif
open Script

/-- The product with its only plural role replaced: by a sequence of the role (`g`) or by a script of the role (`W`). -/
theorem role_case {s a m : Script} (h : WF (mult s a m)) (hd : DisjointSums (mult s a m)) {c : Script} {v : Nat}
    (hp : pluralRoles s a m = [(c, v)]) {L Lc : List Script} (hL : Enum (mult s a m) L) (hLc : Enum c Lc) :
    ∃ (g W : Script → Script) (P : Word → Word → Prop),
      (∀ x ∈ Lc, mapSeq L v x = .ok (g x) ∧ g x ∈ L ∧ ∀ w, Den (g x) w ↔ ∃ u, Den x u ∧ P u w) ∧
      ∀ x, GoodOf c x → withRole s a m v x = .ok (W x) ∧ ∀ w, Den (W x) w ↔ ∃ u, Den x u ∧ P u w := by
  have hc : (mult s a m).cardinal ≠ 1 := by
    intro hc
    rw [cardinal_mult h] at hc
    have h1 : s.cardinal * a.cardinal = 1 := Nat.eq_one_of_mul_eq_one_right hc
    have h2 : m.cardinal = 1 := Nat.eq_one_of_mul_eq_one_left hc
    have h3 : s.cardinal = 1 := Nat.eq_one_of_mul_eq_one_right h1
    have h4 : a.cardinal = 1 := Nat.eq_one_of_mul_eq_one_left h1
    simp [pluralRoles, h2, h3, h4] at hp
  obtain ⟨xs, ys, zs, e1, e2, e3, hrun⟩ := ss_mult h hc
  have hLeq := hrun.symm.trans hL.run
  rw [Except.ok.injEq] at hLeq
  have hperm : L.Perm ((product3 xs ys zs).map roles3) := by rw [← hLeq]; exact pySort_perm _ _
  have hwf := h
  have one : ∀ {c : Script} {L : List Script}, Enum c L → c.cardinal = 1 → ∃ x, L = [x] := by
    intro c L e hc
    exact List.length_eq_one_iff.1 (by rw [e.length, hc])
  have alone : ∀ {c x : Script} {u : Word}, Enum c [x] → (Den c u ↔ Den x u) := by
    intro c x u e
    rw [e.den]; simp
  have fin : ∀ {Lc : List Script} {T : Script → Script × Script × Script}, L.Perm (Lc.map fun x => roles3 (T x)) → ∀ x ∈ Lc,
      roles3 (T x) ∈ L := fun hl x hx => hl.mem_iff.2 (List.mem_map.2 ⟨x, hx, rfl⟩)
  cases h with
  | mult h1 h2 h3 h4 h5 h6 h7 h8 h9 h10 =>
    cases hd with
    | mult d1 d2 d3 =>
    by_cases c1 : s.cardinal = 1 <;> by_cases c2 : a.cardinal = 1 <;> by_cases c3 : m.cardinal = 1 <;>
      simp [pluralRoles, c1, c2, c3] at hp
    · obtain ⟨rfl, rfl⟩ := hp
      obtain ⟨x, rfl⟩ := one e1 c1
      obtain ⟨y, rfl⟩ := one e2 c2
      obtain rfl := enum_unique e3 hLc
      have hl : L.Perm (zs.map fun z => roles3 ((fun z => (x, y, z)) z)) := by simpa [product3, Function.comp_def] using hperm
      refine ⟨fun z => roles3 (x, y, z), fun z => roles3 (s, a, z), fun r w => ∃ u v, Den s u ∧ Den a v ∧ w = u ++ v ++ r, ?_, ?_⟩
      · intro z hz
        refine ⟨mapSeq_ok hl (fun x => rfl) e3.wf ((norep_iff h3 e3).2 d3) z hz, fin (T := fun z => (x, y, z)) hl z hz, fun w => ?_⟩
        rw [(mkMult_sub hwf (e1.good h1 x (by simp)) (e2.good h2 y (by simp)) (e3.good h3 z hz)).2.2.2]
        constructor
        · rintro ⟨u, v, r, a1, a2, a3, rfl⟩; exact ⟨r, a3, u, v, (alone e1).2 a1, (alone e2).2 a2, rfl⟩
        · rintro ⟨r, a3, u, v, a1, a2, rfl⟩; exact ⟨u, v, r, (alone e1).1 a1, (alone e2).1 a2, a3, rfl⟩
      · intro z hz
        obtain ⟨g1, g2, g3, g4⟩ := mkMult_sub hwf (.refl h1) (.refl h2) hz
        refine ⟨g1, fun w => ?_⟩
        rw [g4]
        constructor
        · rintro ⟨u, v, r, a1, a2, a3, rfl⟩; exact ⟨r, a3, u, v, a1, a2, rfl⟩
        · rintro ⟨r, a3, u, v, a1, a2, rfl⟩; exact ⟨u, v, r, a1, a2, a3, rfl⟩
    · obtain ⟨rfl, rfl⟩ := hp
      obtain ⟨x, rfl⟩ := one e1 c1
      obtain ⟨y, rfl⟩ := one e3 c3
      obtain rfl := enum_unique e2 hLc
      have hl : L.Perm (ys.map fun z => roles3 ((fun z => (x, z, y)) z)) := by
        simpa [product3, Function.comp_def, flatMap_one, List.map_flatMap] using hperm
      refine ⟨fun z => roles3 (x, z, y), fun z => roles3 (s, z, m), fun v w => ∃ u r, Den s u ∧ Den m r ∧ w = u ++ v ++ r, ?_, ?_⟩
      · intro z hz
        refine ⟨mapSeq_ok hl (fun x => rfl) e2.wf ((norep_iff h2 e2).2 d2) z hz, fin (T := fun z => (x, z, y)) hl z hz, fun w => ?_⟩
        rw [(mkMult_sub hwf (e1.good h1 x (by simp)) (e2.good h2 z hz) (e3.good h3 y (by simp))).2.2.2]
        constructor
        · rintro ⟨u, v, r, a1, a2, a3, rfl⟩; exact ⟨v, a2, u, r, (alone e1).2 a1, (alone e3).2 a3, rfl⟩
        · rintro ⟨v, a2, u, r, a1, a3, rfl⟩; exact ⟨u, v, r, (alone e1).1 a1, a2, (alone e3).1 a3, rfl⟩
      · intro z hz
        obtain ⟨g1, g2, g3, g4⟩ := mkMult_sub hwf (.refl h1) hz (.refl h3)
        refine ⟨g1, fun w => ?_⟩
        rw [g4]
        constructor
        · rintro ⟨u, v, r, a1, a2, a3, rfl⟩; exact ⟨v, a2, u, r, a1, a3, rfl⟩
        · rintro ⟨v, a2, u, r, a1, a3, rfl⟩; exact ⟨u, v, r, a1, a2, a3, rfl⟩
    · obtain ⟨rfl, rfl⟩ := hp
      obtain ⟨x, rfl⟩ := one e2 c2
      obtain ⟨y, rfl⟩ := one e3 c3
      obtain rfl := enum_unique e1 hLc
      have hl : L.Perm (xs.map fun z => roles3 ((fun z => (z, x, y)) z)) := by
        simpa [product3, Function.comp_def, flatMap_one, List.map_flatMap] using hperm
      refine ⟨fun z => roles3 (z, x, y), fun z => roles3 (z, a, m), fun u w => ∃ v r, Den a v ∧ Den m r ∧ w = u ++ v ++ r, ?_, ?_⟩
      · intro z hz
        refine ⟨mapSeq_ok hl (fun x => rfl) e1.wf ((norep_iff h1 e1).2 d1) z hz, fin (T := fun z => (z, x, y)) hl z hz, fun w => ?_⟩
        rw [(mkMult_sub hwf (e1.good h1 z hz) (e2.good h2 x (by simp)) (e3.good h3 y (by simp))).2.2.2]
        constructor
        · rintro ⟨u, v, r, a1, a2, a3, rfl⟩; exact ⟨u, a1, v, r, (alone e2).2 a2, (alone e3).2 a3, rfl⟩
        · rintro ⟨u, a1, v, r, a2, a3, rfl⟩; exact ⟨u, v, r, a1, (alone e2).1 a2, (alone e3).1 a3, rfl⟩
      · intro z hz
        obtain ⟨g1, g2, g3, g4⟩ := mkMult_sub hwf hz (.refl h2) (.refl h3)
        refine ⟨g1, fun w => ?_⟩
        rw [g4]
        constructor
        · rintro ⟨u, v, r, a1, a2, a3, rfl⟩; exact ⟨u, a1, v, r, a2, a3, rfl⟩
        · rintro ⟨u, a1, v, r, a2, a3, rfl⟩; exact ⟨u, v, r, a1, a2, a3, rfl⟩

theorem forall₂_append_left {α β : Type} {R : α → β → Prop} : ∀ {l l' : List α} {ys : List β}, List.Forall₂ R (l ++ l') ys →
    ∃ y1 y2, List.Forall₂ R l y1 ∧ List.Forall₂ R l' y2 ∧ ys = y1 ++ y2
  | [], _, ys, h => ⟨[], ys, .nil, h, rfl⟩
  | _ :: _, _, _, .cons h1 h => by
    obtain ⟨y1, y2, g1, g2, rfl⟩ := forall₂_append_left h
    exact ⟨_ :: y1, y2, .cons h1 g1, g2, rfl⟩

/-- The array `R'` has in every cell the image of the cell of `R`. -/
structure Mapped (f : Script → Except Err Script) (R R' : Arr) : Prop where
  n0 : R'.n0 = R.n0
  n1 : R'.n1 = R.n1
  n2 : R'.n2 = R.n2
  get : ∀ i < R.n0, ∀ j < R.n1, ∀ k < R.n2, ∀ q, R.get i j k = some q → ∃ q', f q = .ok q' ∧ R'.get i j k = some q'

theorem vectorize_mapped {f : Script → Except Err Script} {R R' : Arr} (h : R.vectorize f = .ok R') : Mapped f R R' := by
  obtain ⟨l, h1, h⟩ := bind_ok.1 h
  injection h with h
  subst h
  refine ⟨rfl, rfl, rfl, fun i hi j hj k hk q hq => ?_⟩
  have hm : some q ∈ R.flat := by
    rw [flat_eq]
    exact List.mem_map.2 ⟨(i, j, k), mem_lex3.2 ⟨hi, hj, hk⟩, hq⟩
  obtain ⟨q', _, hq'⟩ := forall₂_mem_left (mapM_inv h1) hm
  exact ⟨q', hq', by
    show (Arr.entry f (R.get i j k)).toOption = some q'
    rw [hq, hq']; rfl⟩

section
variable {c : Script} {Lc L : List Script} {f : Script → Except Err Script} {g W : Script → Script} {P : Word → Word → Prop}
  (hf : ∀ x ∈ Lc, f x = .ok (g x) ∧ g x ∈ L ∧ ∀ w, Den (g x) w ↔ ∃ u, Den x u ∧ P u w)
  (hW : ∀ x, GoodOf c x → ∀ w, Den (W x) w ↔ ∃ u, Den x u ∧ P u w)
  (hs : ∀ x ∈ L, Singular x)

include hf in
theorem mapped_den {R R' : Arr} (h : Mapped f R R') (hR : ∀ o ∈ R.flat, ∃ x ∈ Lc, o = some x) {i j k : Nat} (hi : i < R.n0) (hj : j < R.n1)
    (hk : k < R.n2) : ∃ q ∈ Lc, R.get i j k = some q ∧ R'.get i j k = some (g q) ∧
      ∀ w, CellDen R' i j k w ↔ ∃ u, CellDen R i j k u ∧ P u w := by
  have hm : R.get i j k ∈ R.flat := by
    rw [flat_eq]
    exact List.mem_map.2 ⟨(i, j, k), mem_lex3.2 ⟨hi, hj, hk⟩, rfl⟩
  obtain ⟨q, hq, e⟩ := hR _ hm
  obtain ⟨q', h1, h2⟩ := h.get i hi j hj k hk q e
  obtain ⟨h3, h4, h5⟩ := hf q hq
  rw [h3, Except.ok.injEq] at h1
  subst h1
  refine ⟨q, hq, e, h2, fun w => ?_⟩
  unfold CellDen
  rw [h2, e]
  constructor
  · rintro ⟨x, hx, hd⟩
    injection hx with hx
    subst hx
    obtain ⟨u, hu, hp⟩ := (h5 w).1 hd
    exact ⟨u, ⟨q, rfl, hu⟩, hp⟩
  · rintro ⟨u, ⟨x, hx, hd⟩, hp⟩
    injection hx with hx
    subst hx
    exact ⟨_, rfl, (h5 w).2 ⟨u, hd, hp⟩⟩

include hf hW hs in
theorem labels_mapped {R R' : Arr} (h : Mapped f R R') (hR : ∀ o ∈ R.flat, ∃ x ∈ Lc, o = some x) {k : Nat} (hk : k < R.n2) {T : Script}
    {rows cols : List Script} (hl : Labels R k T rows cols) (gT : GoodOf c T) (gr : ∀ x ∈ rows, GoodOf c x) (gc : ∀ x ∈ cols, GoodOf c x) :
    Labels R' k (W T) (rows.map W) (cols.map W) := by
  refine ⟨?_, ?_, by rw [List.length_map, hl.nrows, h.n0], by rw [List.length_map, hl.ncols, h.n1], ?_, ?_⟩
  · intro i hi j hj
    rw [h.n0] at hi
    rw [h.n1] at hj
    obtain ⟨q, h1, h2, h3, _⟩ := mapped_den hf h hR hi hj hk
    exact ⟨_, h3, hs _ (hf q h1).2.1⟩
  · intro w
    rw [hW T gT, h.n0, h.n1]
    constructor
    · rintro ⟨u, hu, hp⟩
      obtain ⟨i, hi, j, hj, hc⟩ := (hl.page u).1 hu
      obtain ⟨q, _, _, _, h4⟩ := mapped_den hf h hR hi hj hk
      exact ⟨i, hi, j, hj, (h4 w).2 ⟨u, hc, hp⟩⟩
    · rintro ⟨i, hi, j, hj, hc⟩
      obtain ⟨q, _, _, _, h4⟩ := mapped_den hf h hR hi hj hk
      obtain ⟨u, hu, hp⟩ := (h4 w).1 hc
      exact ⟨u, (hl.page u).2 ⟨i, hi, j, hj, hu⟩, hp⟩
  · intro i x hx w
    rw [List.getElem?_map, Option.map_eq_some_iff] at hx
    obtain ⟨y, hy, rfl⟩ := hx
    have hi : i < R.n0 := by rw [← hl.nrows]; exact (List.getElem?_eq_some_iff.1 hy).1
    rw [hW y (gr y (List.mem_of_getElem? hy)), h.n1]
    constructor
    · rintro ⟨u, hu, hp⟩
      obtain ⟨j, hj, hc⟩ := (hl.row i y hy u).1 hu
      obtain ⟨q, _, _, _, h4⟩ := mapped_den hf h hR hi hj hk
      exact ⟨j, hj, (h4 w).2 ⟨u, hc, hp⟩⟩
    · rintro ⟨j, hj, hc⟩
      obtain ⟨q, _, _, _, h4⟩ := mapped_den hf h hR hi hj hk
      obtain ⟨u, hu, hp⟩ := (h4 w).1 hc
      exact ⟨u, (hl.row i y hy u).2 ⟨j, hj, hu⟩, hp⟩
  · intro j x hx w
    rw [List.getElem?_map, Option.map_eq_some_iff] at hx
    obtain ⟨y, hy, rfl⟩ := hx
    have hj : j < R.n1 := by rw [← hl.ncols]; exact (List.getElem?_eq_some_iff.1 hy).1
    rw [hW y (gc y (List.mem_of_getElem? hy)), h.n0]
    constructor
    · rintro ⟨u, hu, hp⟩
      obtain ⟨i, hi, hc⟩ := (hl.col j y hy u).1 hu
      obtain ⟨q, _, _, _, h4⟩ := mapped_den hf h hR hi hj hk
      exact ⟨i, hi, (h4 w).2 ⟨u, hc, hp⟩⟩
    · rintro ⟨i, hi, hc⟩
      obtain ⟨q, _, _, _, h4⟩ := mapped_den hf h hR hi hj hk
      obtain ⟨u, hu, hp⟩ := (h4 w).1 hc
      exact ⟨u, (hl.col j y hy u).2 ⟨i, hi, hu⟩, hp⟩

include hf hW hs in
theorem block_mapped {b : Tables} {cs : List Arr} (hb : Grid b ∨ Line b) (hc : List.Forall₂ (Mapped f) b.cells cs)
    (hR : ∀ o ∈ b.cells.flatMap Arr.flat, ∃ x ∈ Lc, o = some x) (gs : ∀ x ∈ b.scripts, GoodOf c x)
    (gh : ∀ h ∈ b.headers, ∀ k ∈ h, ∀ x ∈ k, GoodOf c x) :
    Grid ⟨cs, b.scripts.map W, b.headers.map fun h => h.map fun k => k.map W⟩ ∨
      Line ⟨cs, b.scripts.map W, b.headers.map fun h => h.map fun k => k.map W⟩ := by
  rcases hb with ⟨R, h1, h2, h3, h4⟩ | ⟨R, T, h1, h2, h3, h4, h5, h6, h7⟩
  · left
    rw [h1] at hc hR
    cases hc with
    | @cons _ R' _ cs' hm hr =>
    cases hr
    simp only [List.flatMap_cons, List.flatMap_nil, List.append_nil] at hR
    refine ⟨R', rfl, by rw [List.length_map, h2, hm.n2], by rw [List.length_map, h3, hm.n2], fun k hk => ?_⟩
    rw [hm.n2] at hk
    obtain ⟨T, rows, cols, e1, e2, hl⟩ := h4 k hk
    refine ⟨W T, rows.map W, cols.map W, by simp [e1], by simp [e2], ?_⟩
    have hh := gh _ (List.mem_of_getElem? e2)
    exact labels_mapped hf hW hs hm hR hk hl (gs T (List.mem_of_getElem? e1)) (hh rows (by simp)) (hh cols (by simp))
  · right
    rw [h1] at hc hR
    cases hc with
    | @cons _ R' _ cs' hm hr =>
    cases hr
    simp only [List.flatMap_cons, List.flatMap_nil, List.append_nil] at hR
    refine ⟨R', W T, rfl, by simp [h2], by simp [h3], by rw [hm.n1, h4], by rw [hm.n2, h5], ?_, ?_⟩
    · intro i hi
      rw [hm.n0] at hi
      obtain ⟨q, g1, g2, g3, _⟩ := mapped_den hf hm hR hi (by omega : 0 < R.n1) (by omega : 0 < R.n2)
      exact ⟨_, g3, hs _ (hf q g1).2.1⟩
    · intro w
      rw [hW T (gs T (by rw [h2]; simp)), hm.n0]
      constructor
      · rintro ⟨u, hu, hp⟩
        obtain ⟨i, hi, hcd⟩ := (h7 u).1 hu
        obtain ⟨q, _, _, _, g4⟩ := mapped_den hf hm hR hi (by omega : 0 < R.n1) (by omega : 0 < R.n2)
        exact ⟨i, hi, (g4 w).2 ⟨u, hcd, hp⟩⟩
      · rintro ⟨i, hi, hcd⟩
        obtain ⟨q, _, _, _, g4⟩ := mapped_den hf hm hR hi (by omega : 0 < R.n1) (by omega : 0 < R.n2)
        obtain ⟨u, hu, hp⟩ := (g4 w).1 hcd
        exact ⟨u, (h7 u).2 ⟨i, hi, hu⟩, hp⟩

include hf hW hs in
theorem blocks_mapped : ∀ {bs : List Tables} {cs : List Arr}, (∀ b ∈ bs, Grid b ∨ Line b) →
    List.Forall₂ (Mapped f) (bs.flatMap Tables.cells) cs →
    (∀ o ∈ (bs.flatMap Tables.cells).flatMap Arr.flat, ∃ x ∈ Lc, o = some x) → (∀ x ∈ bs.flatMap Tables.scripts, GoodOf c x) →
    (∀ h ∈ bs.flatMap Tables.headers, ∀ k ∈ h, ∀ x ∈ k, GoodOf c x) →
    Blocks ⟨cs, (bs.flatMap Tables.scripts).map W, (bs.flatMap Tables.headers).map fun h => h.map fun k => k.map W⟩
  | [], cs, _, hc, _, _, _ => by
    cases hc
    exact ⟨[], rfl, rfl, rfl, by simp⟩
  | b :: bs, cs, hb, hc, hR, gs, gh => by
    rw [List.flatMap_cons] at hc
    obtain ⟨c1, c2, h1, h2, rfl⟩ := forall₂_append_left hc
    simp only [List.flatMap_cons, List.flatMap_append, List.mem_append] at hR gs gh
    obtain ⟨bs', e1, e2, e3, e4⟩ := blocks_mapped (fun b' hb' => hb b' (by simp [hb'])) h2 (fun o ho => hR o (.inr ho))
      (fun x hx => gs x (.inr hx)) (fun h hh => gh h (.inr hh))
    have := block_mapped hf hW hs (hb b (by simp)) h1 (fun o ho => hR o (.inl ho)) (fun x hx => gs x (.inl hx)) (fun h hh => gh h (.inl hh))
    simp only at e1 e2 e3
    refine ⟨⟨c1, b.scripts.map W, b.headers.map fun h => h.map fun k => k.map W⟩ :: bs', ?_, ?_, ?_, ?_⟩
    · simp only [List.flatMap_cons]
      rw [e1]
    · simp only [List.flatMap_cons, List.map_append]
      rw [e2]
    · simp only [List.flatMap_cons, List.map_append]
      rw [e3]
    intro b' hb'
    rcases List.mem_cons.1 hb' with rfl | hb'
    · exact this
    · exact e4 b' hb'
end

/-- The tables of a product with one plural role. -/
theorem blocks_role {s a m : Script} (h : WF (mult s a m)) (hd : DisjointSums (mult s a m)) {c : Script} {v : Nat}
    (hp : pluralRoles s a m = [(c, v)]) {Lc : List Script} (hLc : Enum c Lc) {t t' : Tables} (ht : TabOk c Lc t) (hb : Blocks t)
    (h' : oneRoleTables s a m v t = .ok t') : Blocks t' := by
  obtain ⟨L, hL⟩ := enum_exists h
  obtain ⟨g, W, P, hg, hW⟩ := role_case h hd hp hL hLc
  unfold oneRoleTables at h'
  rw [hL.run] at h'
  obtain ⟨L', e0, h'⟩ := bind_ok.1 h'
  injection e0 with e0
  subst e0
  obtain ⟨_, _, h'⟩ := bind_ok.1 h'
  obtain ⟨cs, e1, h'⟩ := bind_ok.1 h'
  obtain ⟨ss, e2, h'⟩ := bind_ok.1 h'
  obtain ⟨hs, e3, h'⟩ := bind_ok.1 h'
  rw [pure_ok] at h'
  subst h'
  rw [mapM_ok (f := withRole s a m v) (g := W) fun x hx => (hW x (ht.scripts x hx)).1, Except.ok.injEq] at e2
  rw [mapM_ok (g := fun h => h.map fun k => k.map W) fun h hh => mapM_ok fun k hk => mapM_ok fun x hx =>
    (hW x (ht.headers h hh k hk x hx)).1, Except.ok.injEq] at e3
  subst e2 e3
  obtain ⟨bs, b1, b2, b3, b4⟩ := hb
  have hm : List.Forall₂ (Mapped (mapSeq L v)) t.cells cs := (mapM_inv e1).imp fun _ _ h => vectorize_mapped h
  have hR : ∀ o ∈ t.cells.flatMap Arr.flat, ∃ x ∈ Lc, o = some x := by
    intro o ho
    obtain ⟨x, hx, rfl⟩ := List.mem_map.1 (ht.cells.mem_iff.1 ho)
    exact ⟨x, hx, rfl⟩
  have gs := ht.scripts
  have gh := ht.headers
  rw [b1] at hm hR
  rw [b2] at gs ⊢
  rw [b3] at gh ⊢
  exact blocks_mapped hg (fun x hx => (hW x hx).2) (fun x hx => singular_of_cardinal (hL.wf x hx) (hL.one x hx)) b4 hm hR gs gh

theorem blocks_list : ∀ {cs : List Script} {ts : List Tables}, tablesL cs = .ok ts → (∀ c ∈ cs, ∀ t, tables c = .ok t → Blocks t) →
    ∀ t ∈ ts, Blocks t
  | [], _, h, _ => by
    injection h with h
    subst h; simp
  | c :: cs, ts, h, hb => by
    obtain ⟨t, h1, h⟩ := bind_ok.1 h
    obtain ⟨ts', h2, h⟩ := bind_ok.1 h
    rw [pure_ok] at h
    subst h
    intro x hx
    rcases List.mem_cons.1 hx with rfl | hx
    · exact hb c (by simp) _ h1
    · exact blocks_list h2 (fun c hc => hb c (by simp [hc])) x hx

theorem blocks_join : ∀ {ts : List Tables}, (∀ t ∈ ts, Blocks t) →
    Blocks ⟨ts.flatMap Tables.cells, ts.flatMap Tables.scripts, ts.flatMap Tables.headers⟩
  | [], _ => ⟨[], rfl, rfl, rfl, by simp⟩
  | t :: ts, h => by
    obtain ⟨b1, p1, p2, p3, p4⟩ := h t (by simp)
    obtain ⟨b2, q1, q2, q3, q4⟩ := blocks_join (ts := ts) fun t ht => h t (by simp [ht])
    simp only at q1 q2 q3
    refine ⟨b1 ++ b2, by simp [p1, q1], by simp [p2, q2], by simp [p3, q3], ?_⟩
    intro b hb
    rcases List.mem_append.1 hb with hb | hb
    · exact p4 b hb
    · exact q4 b hb

/-- The tables of every paradigm are put together from grids and lines. -/
theorem tables_blocks {s : Script} (h : WF s) : DisjointSums s → s.cardinal ≠ 1 → ∀ t, tables s = .ok t → Blocks t := by
  induction h with
  | @null l h => intro _ hc; exact absurd rfl hc
  | @prim p => intro _ hc; exact absurd rfl hc
  | @mult s a m h1 h2 h3 h4 h5 h6 h7 h8 h9 h10 ih1 ih2 ih3 =>
    intro hd hc t ht
    have hw : WF (mult s a m) := .mult h1 h2 h3 h4 h5 h6 h7 h8 h9 h10
    have hnw : ¬ TooWide (mult s a m) := by
      intro hx
      rcases tab_outcome hw with ⟨_, ⟨e, he⟩, _⟩ | ⟨h1, _⟩
      · rw [ht] at he; cases he
      · exact h1 hx
    rcases tooWide_mult hw hc with ⟨c, v, hp, hm, hi⟩ | ⟨hl, hi, hi2⟩
    · have hcc : c.cardinal ≠ 1 := by
        have : (c, v) ∈ pluralRoles s a m := by rw [hp]; simp
        simpa using (List.mem_filter.1 this).2
      have key : (DisjointSums c → c.cardinal ≠ 1 → ∀ t, tables c = .ok t → Blocks t) ∧
          tables (mult s a m) = (do let t ← tables c; oneRoleTables s a m v t) ∧ (DisjointSums (mult s a m) → DisjointSums c) ∧ WF c := by
        simp only [List.mem_cons, Prod.mk.injEq, List.not_mem_nil, or_false] at hm
        rcases hm with ⟨rfl, rfl⟩ | ⟨rfl, rfl⟩ | ⟨rfl, rfl⟩
        · exact ⟨ih1, by rw [tables, if_neg hc, hp]; rfl, fun h => by cases h; assumption, h1⟩
        · exact ⟨ih2, by rw [tables, if_neg hc, hp]; rfl, fun h => by cases h; assumption, h2⟩
        · exact ⟨ih3, by rw [tables, if_neg hc, hp]; rfl, fun h => by cases h; assumption, h3⟩
      obtain ⟨ih, he, hds, hwc⟩ := key
      rw [he] at ht
      obtain ⟨tc, g1, g2⟩ := bind_ok.1 ht
      obtain ⟨Lc, ec⟩ := enum_exists hwc
      rcases tab_outcome hwc with ⟨_, ⟨e, hr⟩, _⟩ | ⟨_, hok⟩
      · rw [g1] at hr; cases hr
      · obtain ⟨tc', g3, tok⟩ := hok (hds hd) Lc ec
        rw [g1, Except.ok.injEq] at g3
        subst g3
        exact blocks_role hw hd hp ec tok (ih (hds hd) hcc _ g1) g2
    · have he : tables (mult s a m) = productTables s a m := by
        rw [tables, if_neg hc]
        split
        · rename_i c hp; rw [hp] at hl; simp at hl
        · rfl
      obtain ⟨L, e⟩ := enum_exists hw
      obtain ⟨t', g1, _, hg⟩ := product_array hw hc hd e.run (by
        intro c hcm
        by_contra hlt
        exact hnw (hi2.2 ⟨c, hcm, by omega⟩)) hl
      rw [← he, ht, Except.ok.injEq] at g1
      subst g1
      exact ⟨[t], by simp, by simp, by simp, by simpa using .inl hg⟩
  | @add cs h1 h2 h3 h4 h5 h6 h7 ih =>
    intro hd hc t ht
    have hw : WF (add cs) := .add h1 h2 h3 h4 h5 h6 h7
    have hds : ∀ c ∈ cs, DisjointSums c := by cases hd; assumption
    rw [tables, if_neg hc] at ht
    split at ht
    · obtain ⟨L, e1, ht⟩ := bind_ok.1 ht
      rw [pure_ok] at ht
      subst ht
      obtain ⟨L', e⟩ := enum_exists hw
      rw [e.run, Except.ok.injEq] at e1
      subst e1
      refine ⟨[⟨[Arr.column L'], [add cs], [[[add cs]]]⟩], by simp, by simp, by simp, ?_⟩
      simp only [List.mem_singleton, forall_eq]
      refine .inr ⟨_, _, rfl, rfl, rfl, rfl, rfl, fun i hi => ?_, fun w => ?_⟩
      · have hi' : i < L'.length := hi
        exact ⟨L'[i], by simp [Arr.column, hi'], singular_of_cardinal (e.wf _ (List.getElem_mem hi')) (e.one _ (List.getElem_mem hi'))⟩
      · rw [e.den]
        constructor
        · rintro ⟨x, hx, hdx⟩
          obtain ⟨i, hi, rfl⟩ := List.mem_iff_getElem.1 hx
          exact ⟨i, hi, _, by simp [Arr.column, hi], hdx⟩
        · rintro ⟨i, _, q, hq, hdq⟩
          exact ⟨q, List.mem_of_getElem? hq, hdq⟩
    · rename_i hany
      obtain ⟨ts, e1, ht⟩ := bind_ok.1 ht
      rw [pure_ok] at ht
      subst ht
      refine blocks_join (blocks_list e1 fun c hcm t ht => ih c hcm (hds c hcm) (fun h1 => ?_) t ht)
      exact hany (List.any_eq_true.2 ⟨c, hcm, by simpa using (paradigm_false_iff (h2 c hcm)).2 h1⟩)

end Verif
