import Verif.Lemmas.Cells

/-
The tables of products and sums.
-/

namespace Verif
open Script

/-- A sequence of a product. -/
def roles3 (t : Script × Script × Script) : Script := mult (role t.1) (role t.2.1) (role t.2.2)

/-- The enumeration of a product, before sorting. -/
theorem ss_mult {s a m : Script} (h : WF (mult s a m)) (hp : (mult s a m).cardinal ≠ 1) :
    ∃ xs ys zs, Enum s xs ∧ Enum a ys ∧ Enum m zs ∧
      singularSequences (mult s a m) = .ok (pySort lt ((product3 xs ys zs).map roles3)) := by
  have hw := h
  have hpar : (mult s a m).paradigm = true := by
    cases hpp : (mult s a m).paradigm with
    | true => rfl
    | false => exact absurd ((paradigm_false_iff h).1 hpp) hp
  cases h with
  | mult h1 h2 h3 h4 h5 h6 h7 h8 h9 h10 =>
    obtain ⟨xs, r1, e1⟩ := enum_role h1 h7 (enum_exists h1)
    obtain ⟨ys, r2, e2⟩ := enum_role h2 h8 (enum_exists h2)
    obtain ⟨zs, r3, e3⟩ := enum_role h3 h9 (enum_exists h3)
    refine ⟨xs, ys, zs, e1, e2, e3, ?_⟩
    have hg : ∀ t ∈ product3 xs ys zs, mkMult [some t.1, some t.2.1, some t.2.2] = .ok (roles3 t) := by
      intro t ht
      obtain ⟨m1, m2, m3⟩ := mem_product3.1 ht
      exact (mkMult_singular (e1.wf _ m1) (e2.wf _ m2) (e3.wf _ m3) (e1.one _ m1) (e2.one _ m2) (e3.one _ m3)
        (by rw [e1.layer _ m1, e2.layer _ m2, h4]) (by rw [e1.layer _ m1, e3.layer _ m3, h5]) (by rw [e1.layer _ m1]; exact h6)).1
    rw [singularSequences, hpar]
    simp only [Bool.not_true, Bool.false_eq_true, if_false]
    rw [r1, r2, r3]
    simp only [bind, Except.bind]
    rw [mapM_ok hg]
    rfl

theorem product3_pos {xs ys zs : List Script} {px py pz : Script → Nat} {nx ny nz : Nat} (hx : xs.map px = List.range nx)
    (hy : ys.map py = List.range ny) (hz : zs.map pz = List.range nz) :
    (product3 xs ys zs).map (fun t => (px t.1, py t.2.1, pz t.2.2)) = lex3 nx ny nz := by
  simp only [lex3, product3, ← hx, ← hy, ← hz, List.map_flatMap, List.flatMap_map, List.map_map, Function.comp_def]

theorem flatMap_one {α β : Type} (f : α → β) : ∀ l : List α, (l.flatMap fun a => [f a]) = l.map f
  | [] => rfl
  | a :: l => by rw [List.flatMap_cons, flatMap_one f l]; rfl

theorem product3_mid (xs zs : List Script) (y : Script) {β : Type} (f : Script → Script → β) :
    (product3 xs [y] zs).map (fun t => f t.1 t.2.2) = (product3 xs zs [y]).map (fun t => f t.1 t.2.1) := by
  simp only [product3, List.flatMap_cons, List.flatMap_nil, List.append_nil, List.map_flatMap, List.map_map,
    Function.comp_def, List.map_cons, List.map_nil, flatMap_one]

theorem product3_first (ys zs : List Script) (x : Script) {β : Type} (f : Script → Script → β) :
    (product3 [x] ys zs).map (fun t => f t.2.1 t.2.2) = (product3 ys zs [x]).map (fun t => f t.1 t.2.1) := by
  simp only [product3, List.flatMap_cons, List.flatMap_nil, List.append_nil, List.map_flatMap, List.map_map,
    Function.comp_def, List.map_cons, List.map_nil, flatMap_one]

theorem foldlM_congr {α β : Type} {f g : β → α → Except Err β} : ∀ {L : List α} (b : β), (∀ q ∈ L, ∀ r, f r q = g r q) →
    L.foldlM f b = L.foldlM g b
  | [], _, _ => rfl
  | q :: L, b, h => by
    rw [List.foldlM_cons, List.foldlM_cons, h q (by simp)]
    cases g b q with
    | error e => rfl
    | ok b' => exact foldlM_congr b' fun q' hq' => h q' (by simp [hq'])

/-- The array of a product, given the positions of its sequences. -/
theorem cellArray_ok {dims : List (List Script × Nat)} {ns : List Nat} {T : List (Script × Script × Script)}
    {l : Script × Script × Script → List Nat} {L : List Script} (hL : L.Perm (T.map roles3))
    (hi : ∀ t ∈ T, cellIndex dims (roles3 t) = .ok (l t))
    (hlex : T.map (fun t => ((l t).getD 0 0, (l t).getD 1 0, (l t).getD 2 0)) =
      lex3 (ns.getD 0 1) (ns.getD 1 1) (ns.getD 2 1)) :
    ∃ R, cellArray dims ns L = .ok R ∧ R.flat = (T.map roles3).map some ∧
      (R.n0 = ns.getD 0 1 ∧ R.n1 = ns.getD 1 1 ∧ R.n2 = ns.getD 2 1) ∧
      ∀ t ∈ T, R.get ((l t).getD 0 0) ((l t).getD 1 0) ((l t).getD 2 0) = some (roles3 t) := by
  let tri : List Nat → Nat × Nat × Nat := fun l => (l.getD 0 0, l.getD 1 0, l.getD 2 0)
  let idx : Script → Nat × Nat × Nat := fun q => match cellIndex dims q with
    | .ok l => tri l
    | .error _ => (0, 0, 0)
  have hidx : ∀ t ∈ T, idx (roles3 t) = tri (l t) := by
    intro t ht
    simp only [idx, hi t ht]
  have hr : (T.map roles3).map idx = lex3 (ns.getD 0 1) (ns.getD 1 1) (ns.getD 2 1) := by
    rw [← hlex, List.map_map]
    exact List.map_congr_left hidx
  obtain ⟨R, h1, h2, h3, h4⟩ := fill_array hL hr
  refine ⟨R, ?_, h2, h3, fun t ht => ?_⟩
  case refine_2 =>
    have := h4 _ (List.mem_map_of_mem ht)
    rw [hidx t ht] at this
    exact this
  unfold cellArray
  rw [← h1]
  apply foldlM_congr
  intro q hq r
  obtain ⟨t, ht, rfl⟩ := List.mem_map.1 (hL.mem_iff.1 hq)
  rw [hi t ht, hidx t ht]
  rfl

theorem child_roles3 (t : Script × Script × Script) : child (roles3 t) 0 = .ok (role t.1) ∧
    child (roles3 t) 1 = .ok (role t.2.1) ∧ child (roles3 t) 2 = .ok (role t.2.2) := ⟨rfl, rfl, rfl⟩

end Verif

namespace Verif
open Script

/-- A script that may replace a role without making a product too large. -/
structure GoodOf (s x : Script) : Prop where
  wf : WF x
  layer : x.layer = s.layer
  card : x.cardinal ≤ s.cardinal

theorem GoodOf.refl {s : Script} (h : WF s) : GoodOf s s := ⟨h, rfl, le_refl _⟩

theorem Script.Enum.good {s : Script} {L : List Script} (h : WF s) (e : Enum s L) : ∀ x ∈ L, GoodOf s x := fun x hx =>
  ⟨e.wf x hx, e.layer x hx, by rw [e.one x hx]; exact cardinal_pos h⟩

theorem mkMult_sub {s a m x y z : Script} (h : WF (mult s a m)) (hx : GoodOf s x) (hy : GoodOf a y) (hz : GoodOf m z) :
    mkMult [some x, some y, some z] = .ok (roles3 (x, y, z)) ∧ GoodOf (mult s a m) (roles3 (x, y, z)) ∧
      (roles3 (x, y, z)).cardinal = x.cardinal * y.cardinal * z.cardinal ∧
      ∀ w, Den (roles3 (x, y, z)) w ↔ ∃ u v r, Den x u ∧ Den y v ∧ Den z r ∧ w = u ++ v ++ r := by
  have hw := h
  cases h with
  | mult h1 h2 h3 h4 h5 h6 h7 h8 h9 h10 =>
    have l1 : y.layer = x.layer := by rw [hy.layer, hx.layer, h4]
    have l2 : z.layer = x.layer := by rw [hz.layer, hx.layer, h5]
    have hc : x.cardinal * y.cardinal * z.cardinal ≤ (mult s a m).cardinal := by
      rw [cardinal_mult hw]
      exact Nat.mul_le_mul (Nat.mul_le_mul hx.card hy.card) hz.card
    have he := mkMult_eval hx.wf hy.wf hz.wf l1 l2
    rw [if_neg (by omega), if_pos (by rw [hx.layer]; exact h6)] at he
    have hwf : WF (roles3 (x, y, z)) := mkMult_wf (by
      intro c hc; simp at hc; rcases hc with rfl | rfl | rfl
      · exact hx.wf
      · exact hy.wf
      · exact hz.wf) he
    have hcard := cardinal_mult_role hx.wf hy.wf hz.wf l1 l2
    refine ⟨he, ⟨hwf, ?_, ?_⟩, hcard, ?_⟩
    · show (role x).layer + 1 = s.layer + 1
      rw [(role_wf hx.wf).2.2, hx.layer]
    · exact (le_of_eq hcard).trans hc
    · intro w
      rw [roles3, den_mult]
      constructor
      · rintro ⟨u, v, r, d1, d2, d3, rfl⟩
        exact ⟨u, v, r, (den_role hx.wf u).1 d1, (den_role hy.wf v).1 d2, (den_role hz.wf r).1 d3, rfl⟩
      · rintro ⟨u, v, r, d1, d2, d3, rfl⟩
        exact ⟨u, v, r, (den_role hx.wf u).2 d1, (den_role hy.wf v).2 d2, (den_role hz.wf r).2 d3, rfl⟩

/-- What the tables of `s` satisfy, `L` being its sequences. -/
structure TabOk (s : Script) (L : List Script) (t : Tables) : Prop where
  cells : (t.cells.flatMap Arr.flat).Perm (L.map some)
  scripts : ∀ x ∈ t.scripts, GoodOf s x
  headers : ∀ h ∈ t.headers, ∀ k ∈ h, ∀ x ∈ k, GoodOf s x
  den : ∀ w, Den s w ↔ ∃ x ∈ t.scripts, Den x w
  card : (t.scripts.map cardinal).sum = s.cardinal

theorem vectorize_list {f : Script → Except Err Script} {g : Script → Script} {Lc : List Script}
    (hf : ∀ x ∈ Lc, f x = .ok (g x)) : ∀ {cells : List Arr}, (∀ o ∈ cells.flatMap Arr.flat, ∃ x ∈ Lc, o = some x) →
    ∃ cs, cells.mapM (fun r => r.vectorize f) = .ok cs ∧ cs.flatMap Arr.flat = (cells.flatMap Arr.flat).map (Option.map g)
  | [], _ => ⟨[], rfl, rfl⟩
  | r :: cells, h => by
    simp only [List.flatMap_cons, List.mem_append] at h
    obtain ⟨cs, h1, h2⟩ := vectorize_list hf (cells := cells) fun o ho => h o (.inr ho)
    have hx : ∃ xs : List Script, r.flat = xs.map some ∧ ∀ x ∈ xs, x ∈ Lc := by
      have : ∀ l : List (Option Script), (∀ o ∈ l, ∃ x ∈ Lc, o = some x) →
          ∃ xs : List Script, l = xs.map some ∧ ∀ x ∈ xs, x ∈ Lc := by
        intro l
        induction l with
        | nil => intro _; exact ⟨[], rfl, by simp⟩
        | cons o l ih =>
          intro h
          obtain ⟨x, hx, rfl⟩ := h o (by simp)
          obtain ⟨xs, rfl, hxs⟩ := ih fun o ho => h o (by simp [ho])
          exact ⟨x :: xs, rfl, by simpa using ⟨hx, hxs⟩⟩
      exact this _ fun o ho => h o (.inl ho)
    obtain ⟨xs, hxs, hm⟩ := hx
    obtain ⟨r', h3, h4⟩ := vectorize_ok hxs fun x hx => hf x (hm x hx)
    refine ⟨r' :: cs, ?_, ?_⟩
    · rw [List.mapM_cons, h3, h1]; rfl
    · rw [List.flatMap_cons, h2, h4, List.flatMap_cons, List.map_append, hxs]
      simp

theorem mapSeq_ok {L Lc : List Script} {T : Script → Script × Script × Script} {v : Nat}
    (hL : L.Perm (Lc.map fun x => roles3 (T x))) (hch : ∀ x, (roles3 (T x)).children[v]? = some (role x))
    (hw : ∀ x ∈ Lc, WF x) (hn : Lc.Pairwise fun a b => a.str ≠ b.str) :
    ∀ x ∈ Lc, mapSeq L v x = .ok (roles3 (T x)) := by
  intro x hx
  unfold mapSeq
  rw [find?_unique (a := roles3 (T x))]
  · rw [List.mem_reverse, hL.mem_iff]
    exact List.mem_map.2 ⟨x, hx, rfl⟩
  · simp only [hch]
    simp [pyEq, str_role (hw x hx)]
  · intro q hq hp
    rw [List.mem_reverse, hL.mem_iff] at hq
    obtain ⟨y, hy, rfl⟩ := List.mem_map.1 hq
    simp only [hch] at hp
    have hs : y.str = x.str := by simpa [pyEq, str_role (hw y hy)] using hp
    obtain ⟨i, hi, rfl⟩ := List.mem_iff_getElem.1 hx
    obtain ⟨j, hj, rfl⟩ := List.mem_iff_getElem.1 hy
    have := norep_getElem hn hj hi hs
    subst this
    rfl

/-- The recursion on the only plural role. -/
theorem oneRole_ok {s a m c : Script} {v : Nat} {L Lc : List Script} {T : Script → Script × Script × Script}
    {W : Script → Script} {P : Word → Word → Prop} {t : Tables} (hss : singularSequences (mult s a m) = .ok L)
    (hL : L.Perm (Lc.map fun x => roles3 (T x))) (hch : ∀ x, (roles3 (T x)).children[v]? = some (role x))
    (ec : Enum c Lc) (hn : Lc.Pairwise fun a b => a.str ≠ b.str) (ht : TabOk c Lc t)
    (hW : ∀ x, GoodOf c x → withRole s a m v x = .ok (W x) ∧ GoodOf (mult s a m) (W x) ∧ (W x).cardinal = x.cardinal ∧
      ∀ w, Den (W x) w ↔ ∃ u, Den x u ∧ P u w)
    (hden : ∀ w, Den (mult s a m) w ↔ ∃ u, Den c u ∧ P u w) (hcard : (mult s a m).cardinal = c.cardinal) :
    ∃ t', oneRoleTables s a m v t = .ok t' ∧ TabOk (mult s a m) L t' := by
  have hch' : ∃ ks, L.mapM (fun q => child q v) = .ok ks := by
    have : ∀ q ∈ L, child q v = .ok ((q.children[v]?).getD (null 0)) := by
      intro q hq
      obtain ⟨x, _, rfl⟩ := List.mem_map.1 (hL.mem_iff.1 hq)
      simp [child, hch]
    exact ⟨_, mapM_ok this⟩
  obtain ⟨ks, hks⟩ := hch'
  have hms := mapSeq_ok hL hch ec.wf hn
  obtain ⟨cs, h1, h2⟩ := vectorize_list hms (cells := t.cells) (by
    intro o ho
    have := ht.cells.mem_iff.1 ho
    obtain ⟨x, hx, rfl⟩ := List.mem_map.1 this
    exact ⟨x, hx, rfl⟩)
  have hs := mapM_ok (f := withRole s a m v) (g := W) (l := t.scripts) fun x hx => (hW x (ht.scripts x hx)).1
  have hh : t.headers.mapM (fun h => h.mapM fun k => k.mapM (withRole s a m v)) =
      .ok (t.headers.map fun h => h.map fun k => k.map W) := by
    apply mapM_ok
    intro h hh
    apply mapM_ok
    intro k hk
    apply mapM_ok
    intro x hx
    exact (hW x (ht.headers h hh k hk x hx)).1
  refine ⟨⟨cs, t.scripts.map W, t.headers.map fun h => h.map fun k => k.map W⟩, ?_, ?_, ?_, ?_, ?_, ?_⟩
  · unfold oneRoleTables
    rw [hss]
    simp only [bind, Except.bind]
    rw [hks]
    simp only
    rw [h1]
    simp only
    rw [hs]
    simp only
    rw [hh]
    rfl
  · show (cs.flatMap Arr.flat).Perm _
    rw [h2]
    refine (ht.cells.map _).trans ?_
    rw [List.map_map]
    refine List.Perm.trans ?_ (hL.symm.map some)
    rw [List.map_map]
    exact .refl _
  · intro x hx
    obtain ⟨y, hy, rfl⟩ := List.mem_map.1 hx
    exact (hW y (ht.scripts y hy)).2.1
  · intro h hh k hk x hx
    obtain ⟨h', hh', rfl⟩ := List.mem_map.1 hh
    obtain ⟨k', hk', rfl⟩ := List.mem_map.1 hk
    obtain ⟨y, hy, rfl⟩ := List.mem_map.1 hx
    exact (hW y (ht.headers h' hh' k' hk' y hy)).2.1
  · intro w
    rw [hden]
    constructor
    · rintro ⟨u, hu, hp⟩
      obtain ⟨x, hx, hd⟩ := (ht.den u).1 hu
      exact ⟨W x, List.mem_map_of_mem hx, ((hW x (ht.scripts x hx)).2.2.2 w).2 ⟨u, hd, hp⟩⟩
    · rintro ⟨x, hx, hd⟩
      obtain ⟨y, hy, rfl⟩ := List.mem_map.1 hx
      obtain ⟨u, hu, hp⟩ := ((hW y (ht.scripts y hy)).2.2.2 w).1 hd
      exact ⟨u, (ht.den u).2 ⟨y, hy, hu⟩, hp⟩
  · rw [hcard, ← ht.card]
    show ((t.scripts.map W).map cardinal).sum = _
    rw [List.map_map]
    congr 1
    apply List.map_congr_left
    intro x hx
    exact (hW x (ht.scripts x hx)).2.2.1

end Verif
