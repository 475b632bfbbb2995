import Verif.Lemmas.Cells2

/-
The tables of products with several plural roles, and the tables of every script.
-/

namespace Verif
open Script

theorem withRole_ok {s a m : Script} (h : WF (mult s a m)) : (∀ x, GoodOf s x → withRole s a m 0 x = .ok (roles3 (x, a, m))) ∧
    (∀ x, GoodOf a x → withRole s a m 1 x = .ok (roles3 (s, x, m))) ∧
    (∀ x, GoodOf m x → withRole s a m 2 x = .ok (roles3 (s, a, x))) := by
  have hw := h
  cases h with
  | mult h1 h2 h3 h4 h5 h6 h7 h8 h9 h10 =>
    refine ⟨fun x hx => ?_, fun x hx => ?_, fun x hx => ?_⟩
    · exact (mkMult_sub hw hx (.refl h2) (.refl h3)).1
    · exact (mkMult_sub hw (.refl h1) hx (.refl h3)).1
    · exact (mkMult_sub hw (.refl h1) (.refl h2) hx).1

/-- `withRole` at any of the three positions. -/
theorem withRole_good {s a m c : Script} {v : Nat} (h : WF (mult s a m)) (hc : (c, v) ∈ [(s, 0), (a, 1), (m, 2)]) {x : Script}
    (hx : GoodOf c x) : ∃ y, withRole s a m v x = .ok y ∧ GoodOf (mult s a m) y := by
  have hw := h
  cases h with
  | mult h1 h2 h3 h4 h5 h6 h7 h8 h9 h10 =>
    simp only [List.mem_cons, Prod.mk.injEq, List.not_mem_nil, or_false] at hc
    rcases hc with ⟨rfl, rfl⟩ | ⟨rfl, rfl⟩ | ⟨rfl, rfl⟩
    · exact ⟨_, (mkMult_sub hw hx (.refl h2) (.refl h3)).1, (mkMult_sub hw hx (.refl h2) (.refl h3)).2.1⟩
    · exact ⟨_, (mkMult_sub hw (.refl h1) hx (.refl h3)).1, (mkMult_sub hw (.refl h1) hx (.refl h3)).2.1⟩
    · exact ⟨_, (mkMult_sub hw (.refl h1) (.refl h2) hx).1, (mkMult_sub hw (.refl h1) (.refl h2) hx).2.1⟩

theorem mapM_exists {α β : Type} {f : α → Except Err β} {P : β → Prop} : ∀ {l : List α}, (∀ x ∈ l, ∃ y, f x = .ok y ∧ P y) →
    ∃ ys, l.mapM f = .ok ys ∧ ∀ y ∈ ys, P y
  | [], _ => ⟨[], rfl, by simp⟩
  | x :: l, h => by
    obtain ⟨y, h1, h2⟩ := h x (by simp)
    obtain ⟨ys, h3, h4⟩ := mapM_exists (l := l) fun x hx => h x (by simp [hx])
    exact ⟨y :: ys, by rw [List.mapM_cons, h1, h3]; rfl, by simpa using ⟨h2, h4⟩⟩

/-- The tables of a product with two plural roles. -/
theorem product_two {s a m c1 c2 : Script} {v1 v2 : Nat} {L1 L2 L : List Script} {R : Arr} (h : WF (mult s a m))
    (hp : pluralRoles s a m = [(c1, v1), (c2, v2)]) (e1 : Enum c1 L1) (e2 : Enum c2 L2) (w1 : WF c1) (w2 : WF c2)
    (hw1 : c1.cardinal ≤ 12) (hw2 : c2.cardinal ≤ 12)
    (hss : singularSequences (mult s a m) = .ok L)
    (hR : cellArray [(L1, v1), (L2, v2)] [c1.cardinal, c2.cardinal] L = .ok R) (hf : R.flat.Perm (L.map some)) :
    ∃ t, productTables s a m = .ok t ∧ TabOk (mult s a m) L t ∧ ∃ hd1 hd2, L1.mapM (withRole s a m v1) = .ok hd1 ∧
      L2.mapM (withRole s a m v2) = .ok hd2 ∧ t = ⟨[R], [mult s a m], [[hd1, hd2]]⟩ := by
  have hmem : ∀ c ∈ pluralRoles s a m, c ∈ [(s, 0), (a, 1), (m, 2)] := fun c hc => (List.mem_filter.1 hc).1
  rw [hp] at hmem
  obtain ⟨hd1, g1, g1'⟩ := mapM_exists (f := fun x => withRole s a m v1 x) (P := GoodOf (mult s a m)) (l := L1) fun x hx =>
    withRole_good h (hmem (c1, v1) (by simp)) (e1.good w1 x hx)
  obtain ⟨hd2, g2, g2'⟩ := mapM_exists (f := fun x => withRole s a m v2 x) (P := GoodOf (mult s a m)) (l := L2) fun x hx =>
    withRole_good h (hmem (c2, v2) (by simp)) (e2.good w2 x hx)
  refine ⟨⟨[R], [mult s a m], [[hd1, hd2]]⟩, ?_, ⟨?_, ?_, ?_, ?_, ?_⟩, hd1, hd2, g1, g2, rfl⟩
  · have hany : ([(c1, v1), (c2, v2)].any fun c => decide (c.1.cardinal > maxSizeHeader)) = false := by
      simp [maxSizeHeader, hw1, hw2]
    simp only [productTables, hp, hany]
    simp only [Bool.false_eq_true, if_false, List.mapM_cons, List.mapM_nil, e1.run, e2.run, bind, Except.bind, pure, Except.pure,
      hss, List.map_cons, List.map_nil, hR, List.length_cons, List.length_nil]
    rw [g1, g2]
    rfl
  · simpa using hf
  · simpa using GoodOf.refl h
  · intro hh hhm k hk x hx
    simp only [List.mem_cons, List.not_mem_nil, or_false] at hhm
    subst hhm
    simp only [List.mem_cons, List.not_mem_nil, or_false] at hk
    rcases hk with rfl | rfl
    · exact g1' x hx
    · exact g2' x hx
  · simp
  · simp

theorem sum_const (k : Nat) : ∀ l : List Script, (l.map fun _ => k).sum = l.length * k
  | [] => by simp
  | _ :: l => by rw [List.map_cons, List.sum_cons, sum_const k l, List.length_cons, Nat.succ_mul, Nat.add_comm]

/-- The tables of a product with three plural roles. -/
theorem product_three {s a m : Script} {xs ys zs L : List Script} {R : Arr} (h : WF (mult s a m))
    (hp : pluralRoles s a m = [(s, 0), (a, 1), (m, 2)]) (e1 : Enum s xs) (e2 : Enum a ys) (e3 : Enum m zs)
    (hw1 : s.cardinal ≤ 12) (hw2 : a.cardinal ≤ 12) (hw3 : m.cardinal ≤ 12)
    (hss : singularSequences (mult s a m) = .ok L)
    (hR : cellArray [(xs, 0), (ys, 1), (zs, 2)] [s.cardinal, a.cardinal, m.cardinal] L = .ok R)
    (hf : R.flat.Perm (L.map some)) :
    ∃ t, productTables s a m = .ok t ∧ TabOk (mult s a m) L t ∧ t = ⟨[R], zs.map fun x => roles3 (s, a, x),
      zs.map fun x => [xs.map fun y => roles3 (y, a, x), ys.map fun y => roles3 (s, y, x)]⟩ := by
  have hw := h
  cases h with
  | mult h1 h2 h3 h4 h5 h6 h7 h8 h9 h10 =>
    have hsc := mapM_ok (f := fun x => mkMult [some s, some a, some x]) (g := fun x => roles3 (s, a, x)) (l := zs) fun x hx =>
      (mkMult_sub hw (.refl h1) (.refl h2) (e3.good h3 x hx)).1
    have hh1 : ∀ x ∈ zs, xs.mapM (fun y => mkMult [some y, some a, some x]) = .ok (xs.map fun y => roles3 (y, a, x)) :=
      fun x hx => mapM_ok fun y hy => (mkMult_sub hw (e1.good h1 y hy) (.refl h2) (e3.good h3 x hx)).1
    have hh2 : ∀ x ∈ zs, ys.mapM (fun y => mkMult [some s, some y, some x]) = .ok (ys.map fun y => roles3 (s, y, x)) :=
      fun x hx => mapM_ok fun y hy => (mkMult_sub hw (.refl h1) (e2.good h2 y hy) (e3.good h3 x hx)).1
    have hh := mapM_ok (f := fun x => do
        let h1 ← xs.mapM fun y => mkMult [some y, some a, some x]
        let h2 ← ys.mapM fun y => mkMult [some s, some y, some x]
        return [h1, h2]) (g := fun x => [xs.map fun y => roles3 (y, a, x), ys.map fun y => roles3 (s, y, x)]) (l := zs) (by
          intro x hx
          simp only [hh1 x hx, hh2 x hx]
          rfl)
    refine ⟨⟨[R], zs.map fun x => roles3 (s, a, x), zs.map fun x => [xs.map fun y => roles3 (y, a, x),
      ys.map fun y => roles3 (s, y, x)]⟩, ?_, ⟨?_, ?_, ?_, ?_, ?_⟩, rfl⟩
    · have hany : ([(s, 0), (a, 1), (m, 2)].any fun c => decide (c.1.cardinal > maxSizeHeader)) = false := by
        simp [maxSizeHeader, hw1, hw2, hw3]
      simp only [productTables, hp, hany]
      simp only [Bool.false_eq_true, if_false, List.mapM_cons, List.mapM_nil, e1.run, e2.run, e3.run, bind, Except.bind, pure,
        Except.pure, hss, List.map_cons, List.map_nil, hR, List.length_cons, List.length_nil, if_true]
      rw [hsc]
      simp only [bind, Except.bind, pure, Except.pure] at hh
      simp only [hh]
    · simpa using hf
    · intro x hx
      obtain ⟨z, hz, rfl⟩ := List.mem_map.1 hx
      exact (mkMult_sub hw (.refl h1) (.refl h2) (e3.good h3 z hz)).2.1
    · intro hh hhm k hk x hx
      obtain ⟨z, hz, rfl⟩ := List.mem_map.1 hhm
      simp only [List.mem_cons, List.not_mem_nil, or_false] at hk
      rcases hk with rfl | rfl
      · obtain ⟨y, hy, rfl⟩ := List.mem_map.1 hx
        exact (mkMult_sub hw (e1.good h1 y hy) (.refl h2) (e3.good h3 z hz)).2.1
      · obtain ⟨y, hy, rfl⟩ := List.mem_map.1 hx
        exact (mkMult_sub hw (.refl h1) (e2.good h2 y hy) (e3.good h3 z hz)).2.1
    · intro w
      rw [den_mult]
      constructor
      · rintro ⟨u, v, r, d1, d2, d3, rfl⟩
        obtain ⟨z, hz, d4⟩ := (e3.den r).1 d3
        exact ⟨_, List.mem_map_of_mem hz, ((mkMult_sub hw (.refl h1) (.refl h2) (e3.good h3 z hz)).2.2.2 _).2
          ⟨u, v, r, d1, d2, d4, rfl⟩⟩
      · rintro ⟨x, hx, hd⟩
        obtain ⟨z, hz, rfl⟩ := List.mem_map.1 hx
        obtain ⟨u, v, r, d1, d2, d3, rfl⟩ := ((mkMult_sub hw (.refl h1) (.refl h2) (e3.good h3 z hz)).2.2.2 _).1 hd
        exact ⟨u, v, r, d1, d2, (e3.den r).2 ⟨z, hz, d3⟩, rfl⟩
    · show ((zs.map fun x => roles3 (s, a, x)).map cardinal).sum = _
      rw [List.map_map, cardinal_mult hw, ← e3.length]
      have : zs.map (cardinal ∘ fun x => roles3 (s, a, x)) = zs.map fun _ => s.cardinal * a.cardinal := by
        apply List.map_congr_left
        intro z hz
        show (roles3 (s, a, z)).cardinal = _
        rw [(mkMult_sub hw (.refl h1) (.refl h2) (e3.good h3 z hz)).2.2.1, e3.one z hz, Nat.mul_one]
      rw [this, sum_const, Nat.mul_comm]

/-- The labels of a page, in terms of the three roles in the order of the dimensions. -/
theorem labels_of {c1 c2 : Script} {A B : List Script} {z : Script} {k : Nat} {P : Word → Word → Word → Word → Prop}
    (e1 : Enum c1 A) (e2 : Enum c2 B) {R : Arr} (hn0 : R.n0 = A.length) (hn1 : R.n1 = B.length)
    (hget : ∀ i (hi : i < A.length) j (hj : j < B.length), ∃ q, R.get i j k = some q ∧ Singular q ∧
      ∀ w, Den q w ↔ ∃ u v r, Den A[i] u ∧ Den B[j] v ∧ Den z r ∧ P u v r w)
    {T : Script} {rows cols : List Script} (hT : ∀ w, Den T w ↔ ∃ u v r, Den c1 u ∧ Den c2 v ∧ Den z r ∧ P u v r w)
    (W1 W2 : Script → Script) (hrows : rows = A.map W1) (hcols : cols = B.map W2)
    (hW1 : ∀ x ∈ A, ∀ w, Den (W1 x) w ↔ ∃ u v r, Den x u ∧ Den c2 v ∧ Den z r ∧ P u v r w)
    (hW2 : ∀ x ∈ B, ∀ w, Den (W2 x) w ↔ ∃ u v r, Den c1 u ∧ Den x v ∧ Den z r ∧ P u v r w) :
    Labels R k T rows cols := by
  have hcell : ∀ i (hi : i < A.length) j (hj : j < B.length) w, CellDen R i j k w ↔
      ∃ u v r, Den A[i] u ∧ Den B[j] v ∧ Den z r ∧ P u v r w := by
    intro i hi j hj w
    obtain ⟨q, h1, _, h2⟩ := hget i hi j hj
    rw [← h2 w]
    constructor
    · rintro ⟨q', h3, h4⟩
      rw [h1, Option.some.injEq] at h3
      subst h3; exact h4
    · exact fun h => ⟨q, h1, h⟩
  have hA : ∀ u, Den c1 u ↔ ∃ i, ∃ hi : i < A.length, Den A[i] u := by
    intro u
    rw [e1.den]
    constructor
    · rintro ⟨x, hx, hd⟩
      obtain ⟨i, hi, rfl⟩ := List.mem_iff_getElem.1 hx
      exact ⟨i, hi, hd⟩
    · rintro ⟨i, hi, hd⟩; exact ⟨_, List.getElem_mem hi, hd⟩
  have hB : ∀ u, Den c2 u ↔ ∃ i, ∃ hi : i < B.length, Den B[i] u := by
    intro u
    rw [e2.den]
    constructor
    · rintro ⟨x, hx, hd⟩
      obtain ⟨i, hi, rfl⟩ := List.mem_iff_getElem.1 hx
      exact ⟨i, hi, hd⟩
    · rintro ⟨i, hi, hd⟩; exact ⟨_, List.getElem_mem hi, hd⟩
  refine ⟨?_, ?_, by rw [hrows, hn0, List.length_map], by rw [hcols, hn1, List.length_map], ?_, ?_⟩
  · intro i hi j hj
    rw [hn0] at hi
    rw [hn1] at hj
    obtain ⟨q, h1, h2, _⟩ := hget i hi j hj
    exact ⟨q, h1, h2⟩
  · intro w
    rw [hT, hn0, hn1]
    constructor
    · rintro ⟨u, v, r, d1, d2, d3, hp⟩
      obtain ⟨i, hi, d1⟩ := (hA u).1 d1
      obtain ⟨j, hj, d2⟩ := (hB v).1 d2
      exact ⟨i, hi, j, hj, (hcell i hi j hj w).2 ⟨u, v, r, d1, d2, d3, hp⟩⟩
    · rintro ⟨i, hi, j, hj, hc⟩
      obtain ⟨u, v, r, d1, d2, d3, hp⟩ := (hcell i hi j hj w).1 hc
      exact ⟨u, v, r, (hA u).2 ⟨i, hi, d1⟩, (hB v).2 ⟨j, hj, d2⟩, d3, hp⟩
  · intro i x hx w
    rw [hrows, List.getElem?_map, Option.map_eq_some_iff] at hx
    obtain ⟨y, hy, rfl⟩ := hx
    obtain ⟨hi, rfl⟩ := List.getElem?_eq_some_iff.1 hy
    rw [hW1 _ (List.getElem_mem hi), hn1]
    constructor
    · rintro ⟨u, v, r, d1, d2, d3, hp⟩
      obtain ⟨j, hj, d2⟩ := (hB v).1 d2
      exact ⟨j, hj, (hcell i hi j hj w).2 ⟨u, v, r, d1, d2, d3, hp⟩⟩
    · rintro ⟨j, hj, hc⟩
      obtain ⟨u, v, r, d1, d2, d3, hp⟩ := (hcell i hi j hj w).1 hc
      exact ⟨u, v, r, d1, (hB v).2 ⟨j, hj, d2⟩, d3, hp⟩
  · intro j x hx w
    rw [hcols, List.getElem?_map, Option.map_eq_some_iff] at hx
    obtain ⟨y, hy, rfl⟩ := hx
    obtain ⟨hj, rfl⟩ := List.getElem?_eq_some_iff.1 hy
    rw [hW2 _ (List.getElem_mem hj), hn0]
    constructor
    · rintro ⟨u, v, r, d1, d2, d3, hp⟩
      obtain ⟨i, hi, d1⟩ := (hA u).1 d1
      exact ⟨i, hi, (hcell i hi j hj w).2 ⟨u, v, r, d1, d2, d3, hp⟩⟩
    · rintro ⟨i, hi, hc⟩
      obtain ⟨u, v, r, d1, d2, d3, hp⟩ := (hcell i hi j hj w).1 hc
      exact ⟨u, v, r, (hA u).2 ⟨i, hi, d1⟩, d2, d3, hp⟩

/-- The array of the product. -/
theorem product_array {s a m : Script} (h : WF (mult s a m)) (hc : (mult s a m).cardinal ≠ 1) (hd : DisjointSums (mult s a m))
    {L : List Script} (hss : singularSequences (mult s a m) = .ok L)
    (hw : ∀ c ∈ [s, a, m], c.cardinal ≤ 12) (hn : (pluralRoles s a m).length ≠ 1) :
    ∃ t, productTables s a m = .ok t ∧ TabOk (mult s a m) L t ∧ Grid t := by
  obtain ⟨xs, ys, zs, e1, e2, e3, hrun⟩ := ss_mult h hc
  rw [hrun, Except.ok.injEq] at hss
  have hL : L.Perm ((product3 xs ys zs).map roles3) := by rw [← hss]; exact pySort_perm _ _
  have hwf := h
  cases h with
  | mult h1 h2 h3 h4 h5 h6 h7 h8 h9 h10 =>
    cases hd with
    | mult d1 d2 d3 =>
    have n1 := (norep_iff h1 e1).2 d1
    have n2 := (norep_iff h2 e2).2 d2
    have n3 := (norep_iff h3 e3).2 d3
    have hrun' : singularSequences (mult s a m) = .ok L := by rw [hrun, hss]
    have w1 := hw s (by simp)
    have w2 := hw a (by simp)
    have w3 := hw m (by simp)
    have p1 := map_pos n1
    have p2 := map_pos n2
    have p3 := map_pos n3
    have i1 : ∀ t ∈ product3 xs ys zs, seqIndex xs (role t.1) = .ok (pos xs t.1) := fun t ht =>
      seqIndex_pos n1 (mem_product3.1 ht).1 (str_role (e1.wf _ (mem_product3.1 ht).1))
    have i2 : ∀ t ∈ product3 xs ys zs, seqIndex ys (role t.2.1) = .ok (pos ys t.2.1) := fun t ht =>
      seqIndex_pos n2 (mem_product3.1 ht).2.1 (str_role (e2.wf _ (mem_product3.1 ht).2.1))
    have i3 : ∀ t ∈ product3 xs ys zs, seqIndex zs (role t.2.2) = .ok (pos zs t.2.2) := fun t ht =>
      seqIndex_pos n3 (mem_product3.1 ht).2.2 (str_role (e3.wf _ (mem_product3.1 ht).2.2))
    have fin : ∀ {R : Arr}, R.flat = ((product3 xs ys zs).map roles3).map some → R.flat.Perm (L.map some) := by
      intro R hR
      rw [hR]
      exact (hL.map some).symm
    have one : ∀ {c : Script} {L : List Script}, Enum c L → c.cardinal = 1 → ∃ x, L = [x] := by
      intro c L e hc
      exact List.length_eq_one_iff.1 (by rw [e.length, hc])
    have sub : ∀ t ∈ product3 xs ys zs, _ := fun t ht => mkMult_sub hwf (e1.good h1 _ (mem_product3.1 ht).1)
      (e2.good h2 _ (mem_product3.1 ht).2.1) (e3.good h3 _ (mem_product3.1 ht).2.2)
    have dens : ∀ t ∈ product3 xs ys zs, ∀ w, Den (roles3 t) w ↔
        ∃ u v r, Den t.1 u ∧ Den t.2.1 v ∧ Den t.2.2 r ∧ w = u ++ v ++ r := fun t ht => (sub t ht).2.2.2
    have sing : ∀ t ∈ product3 xs ys zs, Singular (roles3 t) := fun t ht =>
      (singular_iff (sub t ht).2.1.wf).2 (by
        have h := (sub t ht).2.2.1
        rw [e1.one _ (mem_product3.1 ht).1, e2.one _ (mem_product3.1 ht).2.1, e3.one _ (mem_product3.1 ht).2.2] at h
        exact h)
    rw [cardinal_mult hwf] at hc
    by_cases c1 : s.cardinal = 1 <;> by_cases c2 : a.cardinal = 1 <;> by_cases c3 : m.cardinal = 1
    · simp [c1, c2, c3] at hc
    · simp [pluralRoles, c1, c2, c3] at hn
    · simp [pluralRoles, c1, c2, c3] at hn
    · obtain ⟨x, rfl⟩ := one e1 c1
      obtain ⟨R, r1, r2, r3, r4⟩ := cellArray_ok (dims := [(ys, 1), (zs, 2)]) (ns := [a.cardinal, m.cardinal])
        (l := fun t => [pos ys t.2.1, pos zs t.2.2]) hL (by
          intro t ht
          simp only [cellIndex, List.mapM_cons, List.mapM_nil, (child_roles3 t).2.1, (child_roles3 t).2.2, bind, Except.bind,
            i2 t ht, i3 t ht]
          rfl) (by
          have h3 := product3_pos (px := pos ys) (py := pos zs) (pz := fun _ => 0) (xs := ys) (ys := zs) (zs := [x]) p2 p3
            (nz := 1) rfl
          have := product3_first ys zs x (f := fun y z => (pos ys y, pos zs z, 0))
          rw [e2.length, e3.length] at h3
          exact this.trans h3)
      obtain ⟨t, t1, t2, hd1, hd2, t3, t4, t5⟩ := product_two hwf (by simp [pluralRoles, c1, c2, c3]) e2 e3 h2 h3 w2 w3 hrun' r1 (fin r2)
      refine ⟨t, t1, t2, R, by rw [t5], by rw [t5, r3.2.2]; rfl, by rw [t5, r3.2.2]; rfl, ?_⟩
      intro k hk
      rw [r3.2.2] at hk
      have hk0 : k = 0 := Nat.lt_one_iff.1 hk
      subst hk0
      refine ⟨mult s a m, hd1, hd2, by rw [t5]; rfl, by rw [t5]; rfl, ?_⟩
      refine labels_of (z := x) (P := fun u v r w => w = r ++ u ++ v) e2 e3 (by rw [r3.1, e2.length]; rfl) (by rw [r3.2.1, e3.length]; rfl) ?_ ?_
        (fun x => roles3 (s, x, m)) (fun x => roles3 (s, a, x)) ?_ ?_ ?_ ?_
      · intro i hi j hj
        have hm : (x, ys[i], zs[j]) ∈ product3 [x] ys zs := mem_product3.2 ⟨by simp, by simp, by simp⟩
        have := r4 _ hm
        simp only [List.getD_cons_zero, List.getD_cons_succ, List.getD_nil, pos_getElem n2 hi, pos_getElem n3 hj] at this
        refine ⟨_, this, sing _ hm, fun w => ?_⟩
        rw [dens _ hm]
        constructor
        · rintro ⟨u, v, r, a1, a2, a3, rfl⟩; exact ⟨v, r, u, a2, a3, a1, rfl⟩
        · rintro ⟨v, r, u, a2, a3, a1, rfl⟩; exact ⟨u, v, r, a1, a2, a3, rfl⟩
      · intro w
        rw [den_mult]
        simp only [e1.den, List.mem_singleton, exists_eq_left]
        constructor
        · rintro ⟨u, v, r, a1, a2, a3, rfl⟩; exact ⟨v, r, u, a2, a3, a1, rfl⟩
        · rintro ⟨v, r, u, a2, a3, a1, rfl⟩; exact ⟨u, v, r, a1, a2, a3, rfl⟩
      · rw [mapM_ok (g := fun x => roles3 (s, x, m)) fun x hx => (withRole_ok hwf).2.1 x (e2.good h2 x hx)] at t3
        simpa using t3.symm
      · rw [mapM_ok (g := fun x => roles3 (s, a, x)) fun x hx => (withRole_ok hwf).2.2 x (e3.good h3 x hx)] at t4
        simpa using t4.symm
      · intro y hy w
        rw [(mkMult_sub hwf (.refl h1) (e2.good h2 y hy) (.refl h3)).2.2.2]
        simp only [e1.den, List.mem_singleton, exists_eq_left]
        constructor
        · rintro ⟨u, v, r, a1, a2, a3, rfl⟩; exact ⟨v, r, u, a2, a3, a1, rfl⟩
        · rintro ⟨v, r, u, a2, a3, a1, rfl⟩; exact ⟨u, v, r, a1, a2, a3, rfl⟩
      · intro y hy w
        rw [(mkMult_sub hwf (.refl h1) (.refl h2) (e3.good h3 y hy)).2.2.2]
        simp only [e1.den, List.mem_singleton, exists_eq_left]
        constructor
        · rintro ⟨u, v, r, a1, a2, a3, rfl⟩; exact ⟨v, r, u, a2, a3, a1, rfl⟩
        · rintro ⟨v, r, u, a2, a3, a1, rfl⟩; exact ⟨u, v, r, a1, a2, a3, rfl⟩
    · simp [pluralRoles, c1, c2, c3] at hn
    · obtain ⟨x, rfl⟩ := one e2 c2
      obtain ⟨R, r1, r2, r3, r4⟩ := cellArray_ok (dims := [(xs, 0), (zs, 2)]) (ns := [s.cardinal, m.cardinal])
        (l := fun t => [pos xs t.1, pos zs t.2.2]) hL (by
          intro t ht
          simp only [cellIndex, List.mapM_cons, List.mapM_nil, (child_roles3 t).1, (child_roles3 t).2.2, bind, Except.bind,
            i1 t ht, i3 t ht]
          rfl) (by
          have h3 := product3_pos (px := pos xs) (py := pos zs) (pz := fun _ => 0) (xs := xs) (ys := zs) (zs := [x]) p1 p3
            (nz := 1) rfl
          have := product3_mid xs zs x (f := fun y z => (pos xs y, pos zs z, 0))
          rw [e1.length, e3.length] at h3
          exact this.trans h3)
      obtain ⟨t, t1, t2, hd1, hd2, t3, t4, t5⟩ := product_two hwf (by simp [pluralRoles, c1, c2, c3]) e1 e3 h1 h3 w1 w3 hrun' r1 (fin r2)
      refine ⟨t, t1, t2, R, by rw [t5], by rw [t5, r3.2.2]; rfl, by rw [t5, r3.2.2]; rfl, ?_⟩
      intro k hk
      rw [r3.2.2] at hk
      have hk0 : k = 0 := Nat.lt_one_iff.1 hk
      subst hk0
      refine ⟨mult s a m, hd1, hd2, by rw [t5]; rfl, by rw [t5]; rfl, ?_⟩
      refine labels_of (z := x) (P := fun u v r w => w = u ++ r ++ v) e1 e3 (by rw [r3.1, e1.length]; rfl) (by rw [r3.2.1, e3.length]; rfl) ?_ ?_
        (fun x => roles3 (x, a, m)) (fun x => roles3 (s, a, x)) ?_ ?_ ?_ ?_
      · intro i hi j hj
        have hm : (xs[i], x, zs[j]) ∈ product3 xs [x] zs := mem_product3.2 ⟨by simp, by simp, by simp⟩
        have := r4 _ hm
        simp only [List.getD_cons_zero, List.getD_cons_succ, List.getD_nil, pos_getElem n1 hi, pos_getElem n3 hj] at this
        refine ⟨_, this, sing _ hm, fun w => ?_⟩
        rw [dens _ hm]
        constructor
        · rintro ⟨u, v, r, a1, a2, a3, rfl⟩; exact ⟨u, r, v, a1, a3, a2, rfl⟩
        · rintro ⟨u, r, v, a1, a3, a2, rfl⟩; exact ⟨u, v, r, a1, a2, a3, rfl⟩
      · intro w
        rw [den_mult]
        simp only [e2.den, List.mem_singleton, exists_eq_left]
        constructor
        · rintro ⟨u, v, r, a1, a2, a3, rfl⟩; exact ⟨u, r, v, a1, a3, a2, rfl⟩
        · rintro ⟨u, r, v, a1, a3, a2, rfl⟩; exact ⟨u, v, r, a1, a2, a3, rfl⟩
      · rw [mapM_ok (g := fun x => roles3 (x, a, m)) fun x hx => (withRole_ok hwf).1 x (e1.good h1 x hx)] at t3
        simpa using t3.symm
      · rw [mapM_ok (g := fun x => roles3 (s, a, x)) fun x hx => (withRole_ok hwf).2.2 x (e3.good h3 x hx)] at t4
        simpa using t4.symm
      · intro y hy w
        rw [(mkMult_sub hwf (e1.good h1 y hy) (.refl h2) (.refl h3)).2.2.2]
        simp only [e2.den, List.mem_singleton, exists_eq_left]
        constructor
        · rintro ⟨u, v, r, a1, a2, a3, rfl⟩; exact ⟨u, r, v, a1, a3, a2, rfl⟩
        · rintro ⟨u, r, v, a1, a3, a2, rfl⟩; exact ⟨u, v, r, a1, a2, a3, rfl⟩
      · intro y hy w
        rw [(mkMult_sub hwf (.refl h1) (.refl h2) (e3.good h3 y hy)).2.2.2]
        simp only [e2.den, List.mem_singleton, exists_eq_left]
        constructor
        · rintro ⟨u, v, r, a1, a2, a3, rfl⟩; exact ⟨u, r, v, a1, a3, a2, rfl⟩
        · rintro ⟨u, r, v, a1, a3, a2, rfl⟩; exact ⟨u, v, r, a1, a2, a3, rfl⟩
    · obtain ⟨x, rfl⟩ := one e3 c3
      obtain ⟨R, r1, r2, r3, r4⟩ := cellArray_ok (dims := [(xs, 0), (ys, 1)]) (ns := [s.cardinal, a.cardinal])
        (l := fun t => [pos xs t.1, pos ys t.2.1]) hL (by
          intro t ht
          simp only [cellIndex, List.mapM_cons, List.mapM_nil, (child_roles3 t).1, (child_roles3 t).2.1, bind, Except.bind,
            i1 t ht, i2 t ht]
          rfl) (by
          have h3 := product3_pos (px := pos xs) (py := pos ys) (pz := fun _ => 0) (xs := xs) (ys := ys) (zs := [x]) p1 p2
            (nz := 1) rfl
          rw [e1.length, e2.length] at h3
          exact h3)
      obtain ⟨t, t1, t2, hd1, hd2, t3, t4, t5⟩ := product_two hwf (by simp [pluralRoles, c1, c2, c3]) e1 e2 h1 h2 w1 w2 hrun' r1 (fin r2)
      refine ⟨t, t1, t2, R, by rw [t5], by rw [t5, r3.2.2]; rfl, by rw [t5, r3.2.2]; rfl, ?_⟩
      intro k hk
      rw [r3.2.2] at hk
      have hk0 : k = 0 := Nat.lt_one_iff.1 hk
      subst hk0
      refine ⟨mult s a m, hd1, hd2, by rw [t5]; rfl, by rw [t5]; rfl, ?_⟩
      refine labels_of (z := x) (P := fun u v r w => w = u ++ v ++ r) e1 e2 (by rw [r3.1, e1.length]; rfl) (by rw [r3.2.1, e2.length]; rfl) ?_ ?_
        (fun x => roles3 (x, a, m)) (fun x => roles3 (s, x, m)) ?_ ?_ ?_ ?_
      · intro i hi j hj
        have hm : (xs[i], ys[j], x) ∈ product3 xs ys [x] := mem_product3.2 ⟨by simp, by simp, by simp⟩
        have := r4 _ hm
        simp only [List.getD_cons_zero, List.getD_cons_succ, List.getD_nil, pos_getElem n1 hi, pos_getElem n2 hj] at this
        refine ⟨_, this, sing _ hm, fun w => ?_⟩
        rw [dens _ hm]
      · intro w
        rw [den_mult]
        simp only [e3.den, List.mem_singleton, exists_eq_left]
      · rw [mapM_ok (g := fun x => roles3 (x, a, m)) fun x hx => (withRole_ok hwf).1 x (e1.good h1 x hx)] at t3
        simpa using t3.symm
      · rw [mapM_ok (g := fun x => roles3 (s, x, m)) fun x hx => (withRole_ok hwf).2.1 x (e2.good h2 x hx)] at t4
        simpa using t4.symm
      · intro y hy w
        rw [(mkMult_sub hwf (e1.good h1 y hy) (.refl h2) (.refl h3)).2.2.2]
        simp only [e3.den, List.mem_singleton, exists_eq_left]
      · intro y hy w
        rw [(mkMult_sub hwf (.refl h1) (e2.good h2 y hy) (.refl h3)).2.2.2]
        simp only [e3.den, List.mem_singleton, exists_eq_left]
    · obtain ⟨R, r1, r2, r3, r4⟩ := cellArray_ok (dims := [(xs, 0), (ys, 1), (zs, 2)]) (ns := [s.cardinal, a.cardinal, m.cardinal])
        (l := fun t => [pos xs t.1, pos ys t.2.1, pos zs t.2.2]) hL (by
          intro t ht
          simp only [cellIndex, List.mapM_cons, List.mapM_nil, (child_roles3 t).1, (child_roles3 t).2.1, (child_roles3 t).2.2,
            bind, Except.bind, i1 t ht, i2 t ht, i3 t ht]
          rfl) (by
          have h3 := product3_pos p1 p2 p3
          rw [e1.length, e2.length, e3.length] at h3
          exact h3)
      obtain ⟨t, t1, t2, t5⟩ := product_three hwf (by simp [pluralRoles, c1, c2, c3]) e1 e2 e3 w1 w2 w3 hrun' r1 (fin r2)
      have hz : R.n2 = zs.length := by rw [r3.2.2, e3.length]; rfl
      refine ⟨t, t1, t2, R, by rw [t5], by rw [t5, hz, List.length_map], by rw [t5, hz, List.length_map], ?_⟩
      intro k hk
      rw [hz] at hk
      refine ⟨roles3 (s, a, zs[k]), xs.map fun y => roles3 (y, a, zs[k]), ys.map fun y => roles3 (s, y, zs[k]),
        by rw [t5, List.getElem?_map, List.getElem?_eq_getElem hk]; rfl,
        by rw [t5, List.getElem?_map, List.getElem?_eq_getElem hk]; rfl, ?_⟩
      have hg := e3.good h3 zs[k] (List.getElem_mem hk)
      refine labels_of (z := zs[k]) (P := fun u v r w => w = u ++ v ++ r) e1 e2 (by rw [r3.1, e1.length]; rfl)
        (by rw [r3.2.1, e2.length]; rfl) ?_ ?_ (fun y => roles3 (y, a, zs[k])) (fun y => roles3 (s, y, zs[k])) rfl rfl ?_ ?_
      · intro i hi j hj
        have hm : (xs[i], ys[j], zs[k]) ∈ product3 xs ys zs := mem_product3.2 ⟨by simp, by simp, by simp⟩
        have := r4 _ hm
        simp only [List.getD_cons_zero, List.getD_cons_succ, pos_getElem n1 hi, pos_getElem n2 hj, pos_getElem n3 hk] at this
        exact ⟨_, this, sing _ hm, fun w => dens _ hm w⟩
      · intro w
        exact (mkMult_sub hwf (.refl h1) (.refl h2) hg).2.2.2 w
      · intro y hy w
        exact (mkMult_sub hwf (e1.good h1 y hy) (.refl h2) hg).2.2.2 w
      · intro y hy w
        exact (mkMult_sub hwf (.refl h1) (e2.good h2 y hy) hg).2.2.2 w

end Verif

namespace Verif
open Script

theorem enum_unique {s : Script} {L M : List Script} (e : Enum s L) (f : Enum s M) : L = M := by
  have := e.run.symm.trans f.run
  simpa using this

/-- The tables of a product with one plural role, from those of this role. -/
theorem role_tables {s a m : Script} (h : WF (mult s a m)) (hd : DisjointSums (mult s a m)) {c : Script} {v : Nat}
    (hp : pluralRoles s a m = [(c, v)]) {L Lc : List Script} (hL : Enum (mult s a m) L) (hLc : Enum c Lc) {t : Tables}
    (ht : TabOk c Lc t) : ∃ t', oneRoleTables s a m v t = .ok t' ∧ TabOk (mult s a m) L t' := by
  have hc : (mult s a m).cardinal ≠ 1 := by
    intro hc
    rw [cardinal_mult h] at hc
    have h1 : s.cardinal * a.cardinal = 1 := Nat.eq_one_of_mul_eq_one_right hc
    have h2 : m.cardinal = 1 := Nat.eq_one_of_mul_eq_one_left hc
    have h3 : s.cardinal = 1 := Nat.eq_one_of_mul_eq_one_right h1
    have h4 : a.cardinal = 1 := Nat.eq_one_of_mul_eq_one_left h1
    simp [pluralRoles, h2, h3, h4] at hp
  obtain ⟨xs, ys, zs, e1, e2, e3, hrun⟩ := ss_mult h hc
  have hLeq := hrun.symm.trans hL.run
  rw [Except.ok.injEq] at hLeq
  have hperm : L.Perm ((product3 xs ys zs).map roles3) := by rw [← hLeq]; exact pySort_perm _ _
  have hwf := h
  have one : ∀ {c : Script} {L : List Script}, Enum c L → c.cardinal = 1 → ∃ x, L = [x] := by
    intro c L e hc
    exact List.length_eq_one_iff.1 (by rw [e.length, hc])
  cases h with
  | mult h1 h2 h3 h4 h5 h6 h7 h8 h9 h10 =>
    cases hd with
    | mult d1 d2 d3 =>
    by_cases c1 : s.cardinal = 1 <;> by_cases c2 : a.cardinal = 1 <;> by_cases c3 : m.cardinal = 1 <;>
      simp [pluralRoles, c1, c2, c3] at hp
    · obtain ⟨rfl, rfl⟩ := hp
      obtain ⟨x, rfl⟩ := one e1 c1
      obtain ⟨y, rfl⟩ := one e2 c2
      obtain rfl := enum_unique e3 hLc
      refine oneRole_ok (T := fun z => (x, y, z)) (W := fun z => roles3 (s, a, z))
        (P := fun r w => ∃ u v, Den s u ∧ Den a v ∧ w = u ++ v ++ r) hL.run ?_ (fun x => rfl) e3
        ((norep_iff h3 e3).2 d3) ht ?_ ?_ ?_
      · simpa [product3, Function.comp_def] using hperm
      · intro z hz
        obtain ⟨g1, g2, g3, g4⟩ := mkMult_sub hwf (.refl h1) (.refl h2) hz
        refine ⟨g1, g2, by rw [g3, c1, c2]; simp, fun w => ?_⟩
        rw [g4]
        constructor
        · rintro ⟨u, v, r, a1, a2, a3, rfl⟩; exact ⟨r, a3, u, v, a1, a2, rfl⟩
        · rintro ⟨r, a3, u, v, a1, a2, rfl⟩; exact ⟨u, v, r, a1, a2, a3, rfl⟩
      · intro w
        rw [den_mult]
        constructor
        · rintro ⟨u, v, r, a1, a2, a3, rfl⟩; exact ⟨r, a3, u, v, a1, a2, rfl⟩
        · rintro ⟨r, a3, u, v, a1, a2, rfl⟩; exact ⟨u, v, r, a1, a2, a3, rfl⟩
      · rw [cardinal_mult hwf, c1, c2]; simp
    · obtain ⟨rfl, rfl⟩ := hp
      obtain ⟨x, rfl⟩ := one e1 c1
      obtain ⟨y, rfl⟩ := one e3 c3
      obtain rfl := enum_unique e2 hLc
      refine oneRole_ok (T := fun z => (x, z, y)) (W := fun z => roles3 (s, z, m))
        (P := fun v w => ∃ u r, Den s u ∧ Den m r ∧ w = u ++ v ++ r) hL.run ?_ (fun x => rfl) e2
        ((norep_iff h2 e2).2 d2) ht ?_ ?_ ?_
      · simpa [product3, Function.comp_def, flatMap_one, List.map_flatMap] using hperm
      · intro z hz
        obtain ⟨g1, g2, g3, g4⟩ := mkMult_sub hwf (.refl h1) hz (.refl h3)
        refine ⟨g1, g2, by rw [g3, c1, c3]; simp, fun w => ?_⟩
        rw [g4]
        constructor
        · rintro ⟨u, v, r, a1, a2, a3, rfl⟩; exact ⟨v, a2, u, r, a1, a3, rfl⟩
        · rintro ⟨v, a2, u, r, a1, a3, rfl⟩; exact ⟨u, v, r, a1, a2, a3, rfl⟩
      · intro w
        rw [den_mult]
        constructor
        · rintro ⟨u, v, r, a1, a2, a3, rfl⟩; exact ⟨v, a2, u, r, a1, a3, rfl⟩
        · rintro ⟨v, a2, u, r, a1, a3, rfl⟩; exact ⟨u, v, r, a1, a2, a3, rfl⟩
      · rw [cardinal_mult hwf, c1, c3]; simp
    · obtain ⟨rfl, rfl⟩ := hp
      obtain ⟨x, rfl⟩ := one e2 c2
      obtain ⟨y, rfl⟩ := one e3 c3
      obtain rfl := enum_unique e1 hLc
      refine oneRole_ok (T := fun z => (z, x, y)) (W := fun z => roles3 (z, a, m))
        (P := fun u w => ∃ v r, Den a v ∧ Den m r ∧ w = u ++ v ++ r) hL.run ?_ (fun x => rfl) e1
        ((norep_iff h1 e1).2 d1) ht ?_ ?_ ?_
      · simpa [product3, Function.comp_def, flatMap_one, List.map_flatMap] using hperm
      · intro z hz
        obtain ⟨g1, g2, g3, g4⟩ := mkMult_sub hwf hz (.refl h2) (.refl h3)
        refine ⟨g1, g2, by rw [g3, c2, c3]; simp, fun w => ?_⟩
        rw [g4]
        constructor
        · rintro ⟨u, v, r, a1, a2, a3, rfl⟩; exact ⟨u, a1, v, r, a2, a3, rfl⟩
        · rintro ⟨u, a1, v, r, a2, a3, rfl⟩; exact ⟨u, v, r, a1, a2, a3, rfl⟩
      · intro w
        rw [den_mult]
        constructor
        · rintro ⟨u, v, r, a1, a2, a3, rfl⟩; exact ⟨u, a1, v, r, a2, a3, rfl⟩
        · rintro ⟨u, a1, v, r, a2, a3, rfl⟩; exact ⟨u, v, r, a1, a2, a3, rfl⟩
      · rw [cardinal_mult hwf, c2, c3]; simp

/-- Outcome of the tables of `s`. -/
def TabOutcome (s : Script) : Prop :=
  (TooWide s ∧ (∃ e, tables s = .error e) ∧ (DisjointSums s → tables s = .error .valueError)) ∨
    (¬ TooWide s ∧ (DisjointSums s → ∀ L, Enum s L → ∃ t, tables s = .ok t ∧ TabOk s L t))

theorem tab_self {s : Script} (h : WF s) {L : List Script} (e : Enum s L) (hs : singularSequences s = .ok [s]) :
    TabOk s L ⟨[Arr.column [s]], [s], []⟩ := by
  have := hs.symm.trans e.run
  rw [Except.ok.injEq] at this
  subst this
  exact ⟨by simp [flat_column], by simpa using GoodOf.refl h, by simp, by simp, by simp⟩

theorem plural_filter (s a m : Script) : (pluralRoles s a m).map Prod.fst = [s, a, m].filter fun c => c.cardinal ≠ 1 := by
  by_cases c1 : s.cardinal = 1 <;> by_cases c2 : a.cardinal = 1 <;> by_cases c3 : m.cardinal = 1 <;>
      simp [pluralRoles, c1, c2, c3]

theorem ss_self {s : Script} (hw : WF s) (hc : s.cardinal = 1) : singularSequences s = .ok [s] := by
  have hp := (paradigm_false_iff hw).2 hc
  cases s <;> simp [singularSequences, hp]

/-- Part of a sum none of whose terms has one sequence. -/
structure TabsOk (cs M : List Script) (ts : List Tables) : Prop where
  cells : ((ts.flatMap Tables.cells).flatMap Arr.flat).Perm (M.map some)
  scripts : ∀ x ∈ ts.flatMap Tables.scripts, ∃ c ∈ cs, GoodOf c x
  headers : ∀ h ∈ ts.flatMap Tables.headers, ∀ k ∈ h, ∀ x ∈ k, ∃ c ∈ cs, GoodOf c x
  den : ∀ w, (∃ c ∈ cs, Den c w) ↔ ∃ x ∈ ts.flatMap Tables.scripts, Den x w
  card : ((ts.flatMap Tables.scripts).map cardinal).sum = (cs.map cardinal).sum

theorem tablesL_ok : ∀ {cs : List Script}, (∀ c ∈ cs, TabOutcome c) →
    ((∃ c ∈ cs, TooWide c) ∧ (∃ e, tablesL cs = .error e) ∧ ((∀ c ∈ cs, DisjointSums c ∧ ∃ L, Enum c L) → tablesL cs = .error .valueError)) ∨
    ((∀ c ∈ cs, ¬ TooWide c) ∧ ((∀ c ∈ cs, DisjointSums c) → (∀ c ∈ cs, c.isAdd = false ∧ ∃ L, Enum c L) →
      ∃ ts M, tablesL cs = .ok ts ∧ EnumL cs M ∧ TabsOk cs M ts))
  | [], _ => .inr ⟨by simp, fun _ _ => ⟨[], [], rfl, ⟨rfl, by simp, by simp, by simp, by simp, by simp⟩,
      ⟨by simp, by simp, by simp, by simp, by simp⟩⟩⟩
  | c :: cs, h => by
    have ih := tablesL_ok (cs := cs) fun d hd => h d (by simp [hd])
    rcases h c (by simp) with ⟨hw, ⟨e, he⟩, hv⟩ | ⟨hw, hok⟩
    · refine .inl ⟨⟨c, by simp, hw⟩, ⟨e, ?_⟩, fun hds => ?_⟩
      · rw [tablesL, he]; rfl
      · rw [tablesL, hv (hds c (by simp)).1]; rfl
    · rcases ih with ⟨⟨d, hd, hdw⟩, ⟨e, he⟩, hv⟩ | ⟨hnw, hoks⟩
      · refine .inl ⟨⟨d, by simp [hd], hdw⟩, ?_, ?_⟩
        · rw [tablesL, he]
          cases tables c with
          | error e' => exact ⟨e', rfl⟩
          | ok t => exact ⟨e, rfl⟩
        · intro hds
          obtain ⟨hd1, L, e⟩ := hds c (by simp)
          obtain ⟨t, ht, _⟩ := hok hd1 L e
          rw [tablesL, ht, hv fun c hc => hds c (by simp [hc])]
          rfl
      · refine .inr ⟨by simpa using ⟨hw, hnw⟩, fun hds hes => ?_⟩
        obtain ⟨ha, L, e⟩ := hes c (by simp)
        obtain ⟨t, ht, tok⟩ := hok (hds c (by simp)) L e
        obtain ⟨ts, M, hts, eM, toks⟩ := hoks (fun c hc => hds c (by simp [hc])) fun c hc => hes c (by simp [hc])
        obtain ⟨N, eN⟩ := enumL hes
        have hN : N = L ++ M := by
          have h1 := eN.run
          rw [singularSequencesL, e.run, eM.run] at h1
          simpa [bind, Except.bind, pure, Except.pure] using h1.symm
        subst hN
        refine ⟨t :: ts, L ++ M, ?_, eN, ?_, ?_, ?_, ?_, ?_⟩
        · rw [tablesL, ht, hts]; rfl
        · simp only [List.flatMap_cons, List.flatMap_append, List.map_append]
          exact tok.cells.append toks.cells
        · intro x hx
          rw [List.flatMap_cons, List.mem_append] at hx
          rcases hx with hx | hx
          · exact ⟨c, by simp, tok.scripts x hx⟩
          · obtain ⟨d, hd, hg⟩ := toks.scripts x hx
            exact ⟨d, by simp [hd], hg⟩
        · intro hh hhm k hk x hx
          rw [List.flatMap_cons, List.mem_append] at hhm
          rcases hhm with hhm | hhm
          · exact ⟨c, by simp, tok.headers hh hhm k hk x hx⟩
          · obtain ⟨d, hd, hg⟩ := toks.headers hh hhm k hk x hx
            exact ⟨d, by simp [hd], hg⟩
        · intro w
          simp only [List.flatMap_cons, List.mem_append, List.mem_cons, or_and_right, exists_or, exists_eq_left]
          rw [tok.den w, toks.den w]
        · simp only [List.flatMap_cons, List.map_append, List.sum_append, List.map_cons, List.sum_cons]
          rw [tok.card, toks.card]


theorem tooWide_mult {s a m : Script} (h : WF (mult s a m)) (hc : (mult s a m).cardinal ≠ 1) :
    (∃ c v, pluralRoles s a m = [(c, v)] ∧ (c, v) ∈ [(s, 0), (a, 1), (m, 2)] ∧ (TooWide (mult s a m) ↔ TooWide c)) ∨
    ((pluralRoles s a m).length ≠ 1 ∧ (TooWide (mult s a m) ↔ ∃ c ∈ pluralRoles s a m, 12 < c.1.cardinal) ∧
      (TooWide (mult s a m) ↔ ∃ c ∈ [s, a, m], 12 < c.cardinal)) := by
  rw [cardinal_mult h] at hc
  have hf := plural_filter s a m
  have hmem : ∀ c ∈ pluralRoles s a m, c ∈ [(s, 0), (a, 1), (m, 2)] := fun c hc => (List.mem_filter.1 hc).1
  by_cases hl : (pluralRoles s a m).length = 1
  · obtain ⟨⟨c, v⟩, hp⟩ := List.length_eq_one_iff.1 hl
    rw [hp] at hf
    refine .inl ⟨c, v, hp, hmem _ (by simp [hp]), ?_, fun hw => .role hf.symm hw⟩
    intro hw
    cases hw with
    | product h1 h2 h3 => rw [← hf] at h1; simp at h1
    | role h1 h2 => rw [← hf] at h1; simp at h1; rwa [h1]
  · have hl2 : 2 ≤ ([s, a, m].filter fun c => c.cardinal ≠ 1).length := by
      rw [← hf, List.length_map]
      have : (pluralRoles s a m).length ≠ 0 := by
        by_cases c1 : s.cardinal = 1 <;> by_cases c2 : a.cardinal = 1 <;> by_cases c3 : m.cardinal = 1 <;>
          simp_all [pluralRoles]
      omega
    have h2 : TooWide (mult s a m) ↔ ∃ c ∈ [s, a, m], 12 < c.cardinal := by
      constructor
      · intro hw
        cases hw with
        | product h1 h2 h3 => exact ⟨_, h2, h3⟩
        | role h1 h2 => rw [h1] at hl2; simp at hl2
      · rintro ⟨c, h1, h2⟩
        exact .product hl2 h1 h2
    refine .inr ⟨hl, ?_, h2⟩
    rw [h2]
    constructor
    · rintro ⟨c, h1, h2⟩
      have : c ∈ (pluralRoles s a m).map Prod.fst := by
        rw [hf, List.mem_filter]
        exact ⟨h1, by simp; omega⟩
      obtain ⟨p, hp, rfl⟩ := List.mem_map.1 this
      exact ⟨p, hp, h2⟩
    · rintro ⟨p, hp, h2⟩
      have : p.1 ∈ (pluralRoles s a m).map Prod.fst := List.mem_map_of_mem hp
      rw [hf, List.mem_filter] at this
      exact ⟨_, this.1, h2⟩

theorem le_sum_card {c : Script} : ∀ {cs : List Script}, c ∈ cs → c.cardinal ≤ (cs.map cardinal).sum
  | d :: cs, h => by
    rw [List.map_cons, List.sum_cons]
    rcases List.mem_cons.1 h with rfl | h
    · omega
    · have := le_sum_card h; omega

theorem not_tooWide_one {s : Script} (h : WF s) (hc : s.cardinal = 1) : ¬ TooWide s := by
  induction h with
  | null => intro h; cases h
  | prim => intro h; cases h
  | @mult s a m h1 h2 h3 h4 h5 h6 h7 h8 h9 h10 ih1 ih2 ih3 =>
    have hw : WF (mult s a m) := .mult h1 h2 h3 h4 h5 h6 h7 h8 h9 h10
    rw [cardinal_mult hw] at hc
    have g1 : s.cardinal * a.cardinal = 1 := Nat.eq_one_of_mul_eq_one_right hc
    have g2 : m.cardinal = 1 := Nat.eq_one_of_mul_eq_one_left hc
    have g3 : s.cardinal = 1 := Nat.eq_one_of_mul_eq_one_right g1
    have g4 : a.cardinal = 1 := Nat.eq_one_of_mul_eq_one_left g1
    intro h
    cases h with
    | product h1 h2 h3 => simp [g2, g3, g4] at h1
    | role h1 h2 => simp [g2, g3, g4] at h1
  | @add cs h1 h2 h3 h4 h5 h6 h7 ih =>
    intro h
    have hw : WF (add cs) := .add h1 h2 h3 h4 h5 h6 h7
    cases h with
    | @sum _ c h1 h2 h3 =>
      have := cardinal_add hw
      have := le_sum_card h2
      have := h1 c h2
      omega

theorem tab_outcome {s : Script} (h : WF s) : TabOutcome s := by
  induction h with
  | @null l h => exact .inr ⟨(by intro h; cases h), fun _ L e => ⟨_, rfl, tab_self (.null h) e rfl⟩⟩
  | @prim p => exact .inr ⟨(by intro h; cases h), fun _ L e => ⟨_, rfl, tab_self .prim e rfl⟩⟩
  | @mult s a m h1 h2 h3 h4 h5 h6 h7 h8 h9 h10 ih1 ih2 ih3 =>
    have hw : WF (mult s a m) := .mult h1 h2 h3 h4 h5 h6 h7 h8 h9 h10
    by_cases hc : (mult s a m).cardinal = 1
    · exact .inr ⟨not_tooWide_one hw hc, fun _ L e => ⟨_, by rw [tables, if_pos hc], tab_self hw e (ss_self hw hc)⟩⟩
    · rcases tooWide_mult hw hc with ⟨c, v, hp, hm, hi⟩ | ⟨hl, hi, hi2⟩
      · have key : TabOutcome c ∧ tables (mult s a m) = (do let t ← tables c; oneRoleTables s a m v t) ∧
            (DisjointSums (mult s a m) → DisjointSums c) ∧ WF c := by
          simp only [List.mem_cons, Prod.mk.injEq, List.not_mem_nil, or_false] at hm
          rcases hm with ⟨rfl, rfl⟩ | ⟨rfl, rfl⟩ | ⟨rfl, rfl⟩
          · exact ⟨ih1, by rw [tables, if_neg hc, hp]; rfl, fun h => by cases h; assumption, h1⟩
          · exact ⟨ih2, by rw [tables, if_neg hc, hp]; rfl, fun h => by cases h; assumption, h2⟩
          · exact ⟨ih3, by rw [tables, if_neg hc, hp]; rfl, fun h => by cases h; assumption, h3⟩
        obtain ⟨ih, he, hds, hwc⟩ := key
        rcases ih with ⟨hw', ⟨e, hr⟩, hv⟩ | ⟨hw', hok⟩
        · refine .inl ⟨hi.2 hw', ⟨e, by rw [he, hr]; rfl⟩, fun hd => by rw [he, hv (hds hd)]; rfl⟩
        · refine .inr ⟨fun h => hw' (hi.1 h), fun hd L e => ?_⟩
          obtain ⟨Lc, ec⟩ := enum_exists hwc
          obtain ⟨t, ht, tok⟩ := hok (hds hd) Lc ec
          obtain ⟨t', h1, h2⟩ := role_tables hw hd hp e ec tok
          exact ⟨t', by rw [he, ht]; exact h1, h2⟩
      · have he : tables (mult s a m) = productTables s a m := by
          rw [tables, if_neg hc]
          split
          · rename_i c hp; rw [hp] at hl; simp at hl
          · rfl
        by_cases hx : ∃ c ∈ pluralRoles s a m, 12 < c.1.cardinal
        · have hr : productTables s a m = .error .valueError := by
            have : ((pluralRoles s a m).any fun c => decide (c.1.cardinal > maxSizeHeader)) = true := by
              rw [List.any_eq_true]
              obtain ⟨c, h1, h2⟩ := hx
              exact ⟨c, h1, by simpa [maxSizeHeader] using h2⟩
            simp only [productTables, this, if_true]
          exact .inl ⟨hi.2 hx, ⟨_, by rw [he, hr]⟩, fun _ => by rw [he, hr]⟩
        · refine .inr ⟨fun h => hx (hi.1 h), fun hd L e => ?_⟩
          rw [he]
          suffices hs : ∃ t, productTables s a m = .ok t ∧ TabOk (mult s a m) L t ∧ Grid t by
            obtain ⟨t, h1, h2, _⟩ := hs; exact ⟨t, h1, h2⟩
          refine product_array hw hc hd e.run ?_ hl
          intro c hc'
          by_contra hlt
          exact hx (hi.1 (hi2.2 ⟨c, hc', by omega⟩))
  | @add cs h1 h2 h3 h4 h5 h6 h7 ih =>
    have hw : WF (add cs) := .add h1 h2 h3 h4 h5 h6 h7
    have hsum := cardinal_add hw
    have hgood : ∀ {c x : Script}, c ∈ cs → GoodOf c x → GoodOf (add cs) x := by
      intro c x hc hg
      refine ⟨hg.wf, by rw [hg.layer, h3 c hc], ?_⟩
      have := le_sum_card hc
      have := hg.card
      omega
    by_cases hc : (add cs).cardinal = 1
    · exact .inr ⟨not_tooWide_one hw hc, fun _ L e => ⟨_, by rw [tables, if_pos hc], tab_self hw e (ss_self hw hc)⟩⟩
    · by_cases hany : (cs.any fun c => !c.paradigm) = true
      · refine .inr ⟨?_, fun _ L e => ⟨⟨[Arr.column L], [add cs], [[[add cs]]]⟩, ?_, ?_, ?_, ?_, ?_, ?_⟩⟩
        · intro hwd
          obtain ⟨c, hcm, hcp⟩ := List.any_eq_true.1 hany
          cases hwd with
          | sum g1 g2 g3 =>
            have := (paradigm_false_iff (h2 c hcm)).1 (by simpa using hcp)
            have := g1 c hcm
            omega
        · rw [tables, if_neg hc, if_pos hany, e.run]; rfl
        · simp [flat_column]
        · simpa using GoodOf.refl hw
        · simpa using GoodOf.refl hw
        · simp
        · simp
      · have hpl : ∀ c ∈ cs, 1 < c.cardinal := by
          intro c hcm
          have h0 := cardinal_pos (h2 c hcm)
          have : c.cardinal ≠ 1 := by
            intro h1
            exact hany (List.any_eq_true.2 ⟨c, hcm, by simpa using (paradigm_false_iff (h2 c hcm)).2 h1⟩)
          omega
        have he : tables (add cs) = (do
            let ts ← tablesL cs
            return ⟨ts.flatMap Tables.cells, ts.flatMap Tables.scripts, ts.flatMap Tables.headers⟩) := by
          rw [tables, if_neg hc, if_neg hany]
        have hds : DisjointSums (add cs) → ∀ c ∈ cs, DisjointSums c := fun h => by cases h; assumption
        rcases tablesL_ok ih with ⟨⟨c, hcm, hcw⟩, ⟨e, hr⟩, hv⟩ | ⟨hnw, hok⟩
        · refine .inl ⟨.sum hpl hcm hcw, ⟨e, by rw [he, hr]; rfl⟩, fun hd => ?_⟩
          rw [he, hv fun c hc => ⟨hds hd c hc, enum_exists (h2 c hc)⟩]; rfl
        · refine .inr ⟨?_, fun hd L e => ?_⟩
          · intro hwd
            cases hwd with
            | sum g1 g2 g3 => exact hnw _ g2 g3
          · obtain ⟨ts, M, hts, eM, tok⟩ := hok (hds hd) fun c hc => ⟨h4 c hc, enum_exists (h2 c hc)⟩
            have hpar : (add cs).paradigm = true := by
              cases hpp : (add cs).paradigm with
              | true => rfl
              | false => exact absurd ((paradigm_false_iff hw).1 hpp) hc
            have hL : L = pySort lt M := by
              have h1 := e.run
              rw [singularSequences, hpar] at h1
              simp only [Bool.not_true, Bool.false_eq_true, if_false] at h1
              rw [eM.run] at h1
              simpa [bind, Except.bind, pure, Except.pure] using h1.symm
            refine ⟨⟨ts.flatMap Tables.cells, ts.flatMap Tables.scripts, ts.flatMap Tables.headers⟩, ?_, ?_, ?_, ?_, ?_, ?_⟩
            · rw [he, hts]; rfl
            · refine tok.cells.trans ?_
              rw [hL]
              exact (pySort_perm lt M).symm.map some
            · intro x hx
              obtain ⟨c, hc, hg⟩ := tok.scripts x hx
              exact hgood hc hg
            · intro hh hhm k hk x hx
              obtain ⟨c, hc, hg⟩ := tok.headers hh hhm k hk x hx
              exact hgood hc hg
            · intro w
              rw [den_add, tok.den w]
            · rw [hsum]; exact tok.card

end Verif
