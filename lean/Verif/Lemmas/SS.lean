import Verif.Lemmas.Den

/-
The enumeration of singular sequences of well-formed scripts.
-/

namespace Verif

theorem mapM_ok {α β : Type} {f : α → Except Err β} {g : α → β} : ∀ {l : List α}, (∀ x ∈ l, f x = .ok (g x)) →
    l.mapM f = .ok (l.map g)
  | [], _ => rfl
  | x :: xs, h => by
    rw [List.mapM_cons, h x (by simp), mapM_ok fun y hy => h y (List.mem_cons_of_mem _ hy)]
    rfl

namespace Script

/-- What the enumeration of `s` satisfies. -/
structure Enum (s : Script) (L : List Script) : Prop where
  run : singularSequences s = .ok L
  wf : ∀ x ∈ L, WF x
  one : ∀ x ∈ L, x.cardinal = 1
  layer : ∀ x ∈ L, x.layer = s.layer
  plain : Plain s → ∀ x ∈ L, Plain x
  length : L.length = s.cardinal
  sorted : L.Pairwise (fun a b => lt b a = false)
  den : ∀ w, Den s w ↔ ∃ x ∈ L, Den x w

theorem enum_self {s : Script} (h : WF s) (hp : s.paradigm = false) (hr : singularSequences s = .ok [s]) : Enum s [s] where
  run := hr
  wf := by simpa using h
  one := by simpa using (paradigm_false_iff h).1 hp
  layer := by simp
  plain := by simp
  length := by simp [(paradigm_false_iff h).1 hp]
  sorted := by simp
  den := by simp

theorem mem_product3 {xs ys zs : List Script} {t : Script × Script × Script} :
    t ∈ product3 xs ys zs ↔ t.1 ∈ xs ∧ t.2.1 ∈ ys ∧ t.2.2 ∈ zs := by
  rcases t with ⟨x, y, z⟩
  simp only [product3, List.mem_flatMap, List.mem_map, Prod.mk.injEq]
  constructor
  · rintro ⟨a, ha, b, hb, c, hc, rfl, rfl, rfl⟩; exact ⟨ha, hb, hc⟩
  · rintro ⟨ha, hb, hc⟩; exact ⟨x, ha, y, hb, z, hc, rfl, rfl, rfl⟩

theorem length_product3 (xs ys zs : List Script) : (product3 xs ys zs).length = xs.length * ys.length * zs.length := by
  have h1 : ∀ (ys : List Script) (x : Script), (ys.flatMap fun y => zs.map fun z => (x, y, z)).length = ys.length * zs.length := by
    intro ys x
    induction ys with
    | nil => simp
    | cons y ys ih => simp [ih, Nat.add_mul, Nat.add_comm]
  unfold product3
  induction xs with
  | nil => simp
  | cons x xs ih =>
    rw [List.flatMap_cons, List.length_append, ih, h1, List.length_cons, Nat.add_mul, Nat.add_mul, Nat.one_mul, Nat.add_comm]

/-- The product of three singular scripts of one layer. -/
theorem mkMult_singular {x y z : Script} (hx : WF x) (hy : WF y) (hz : WF z) (cx : x.cardinal = 1) (cy : y.cardinal = 1)
    (cz : z.cardinal = 1) (h1 : y.layer = x.layer) (h2 : z.layer = x.layer) (h3 : x.layer ≤ 5) :
    mkMult [some x, some y, some z] = .ok (mult (role x) (role y) (role z)) ∧
      WF (mult (role x) (role y) (role z)) ∧ (mult (role x) (role y) (role z)).cardinal = 1 := by
  have hc : (mult (role x) (role y) (role z)).cardinal = 1 := by
    rw [cardinal]
    split
    · rfl
    · rw [cardinal_role hx, cardinal_role hy, cardinal_role hz, cx, cy, cz]
  obtain ⟨a1, a2, a3⟩ := role_wf hx
  obtain ⟨b1, b2, b3⟩ := role_wf hy
  obtain ⟨c1, c2, c3⟩ := role_wf hz
  refine ⟨?_, .mult a1 b1 c1 (by rw [a3, b3, h1]) (by rw [a3, c3, h2]) (by rw [a3]; exact h3) a2 b2 c2 (by omega), hc⟩
  rw [mkMult_three hx hy hz, if_neg (by simp [h1, h2]), if_neg (by omega), if_pos h3]

/-- The list that a role contributes to the product. -/
theorem enum_role {s : Script} (h : WF s) (hr : Role s) (ih : ∃ L, Enum s L) :
    ∃ L, (if s.empty then (pure [s] : Except Err (List Script)) else singularSequences s) = .ok L ∧ Enum s L := by
  cases he : s.empty with
  | true =>
    refine ⟨[s], rfl, ?_⟩
    have hs := role_empty hr he
    rw [hs]
    exact enum_self (by rw [← hs]; exact h) rfl rfl
  | false =>
    obtain ⟨L, hL⟩ := ih
    exact ⟨L, by simpa using hL.run, hL⟩

theorem plain_mult (s a m : Script) : Plain (mult s a m) := by intro c; simp

theorem enum_mult {s a m : Script} (h : WF (mult s a m)) (ih1 : ∃ L, Enum s L) (ih2 : ∃ L, Enum a L) (ih3 : ∃ L, Enum m L) :
    ∃ L, Enum (mult s a m) L := by
  cases hp : (mult s a m).paradigm with
  | false => exact ⟨_, enum_self h hp (by simp [singularSequences, hp])⟩
  | true =>
    have hw := h
    cases h with
    | mult h1 h2 h3 h4 h5 h6 h7 h8 h9 h10 =>
      obtain ⟨xs, r1, e1⟩ := enum_role h1 h7 ih1
      obtain ⟨ys, r2, e2⟩ := enum_role h2 h8 ih2
      obtain ⟨zs, r3, e3⟩ := enum_role h3 h9 ih3
      let g : Script × Script × Script → Script := fun t => mult (role t.1) (role t.2.1) (role t.2.2)
      have hg : ∀ t ∈ product3 xs ys zs, mkMult [some t.1, some t.2.1, some t.2.2] = .ok (g t) ∧ WF (g t) ∧ (g t).cardinal = 1 := by
        intro t ht
        obtain ⟨m1, m2, m3⟩ := mem_product3.1 ht
        exact mkMult_singular (e1.wf _ m1) (e2.wf _ m2) (e3.wf _ m3) (e1.one _ m1) (e2.one _ m2) (e3.one _ m3)
          (by rw [e1.layer _ m1, e2.layer _ m2, h4]) (by rw [e1.layer _ m1, e3.layer _ m3, h5]) (by rw [e1.layer _ m1]; exact h6)
      have hrun : singularSequences (mult s a m) = .ok (pySort lt ((product3 xs ys zs).map g)) := by
        rw [singularSequences, hp]
        simp only [Bool.not_true, Bool.false_eq_true, if_false]
        rw [r1, r2, r3]
        simp only [bind, Except.bind]
        rw [mapM_ok fun t ht => (hg t ht).1]
        rfl
      have hm : ∀ x, x ∈ pySort lt ((product3 xs ys zs).map g) ↔ ∃ t ∈ product3 xs ys zs, g t = x := by
        intro x; rw [mem_pySort, List.mem_map]
      refine ⟨_, hrun, ?_, ?_, ?_, ?_, ?_, ?_, ?_⟩
      · intro x hx; obtain ⟨t, ht, rfl⟩ := (hm x).1 hx; exact (hg t ht).2.1
      · intro x hx; obtain ⟨t, ht, rfl⟩ := (hm x).1 hx; exact (hg t ht).2.2
      · intro x hx; obtain ⟨t, ht, rfl⟩ := (hm x).1 hx
        obtain ⟨m1, _, _⟩ := mem_product3.1 ht
        show (role t.1).layer + 1 = s.layer + 1
        rw [(role_wf (e1.wf _ m1)).2.2, e1.layer _ m1]
      · intro _ x hx; obtain ⟨t, ht, rfl⟩ := (hm x).1 hx; exact plain_mult _ _ _
      · rw [length_pySort, List.length_map, length_product3, e1.length, e2.length, e3.length, cardinal_mult hw]
      · refine sortScripts ?_
        intro x hx
        obtain ⟨t, ht, rfl⟩ := List.mem_map.1 hx
        exact ⟨(hg t ht).2.1, plain_mult _ _ _⟩
      · intro w
        rw [den_mult]
        constructor
        · rintro ⟨u, v, r, d1, d2, d3, rfl⟩
          obtain ⟨x, hx, dx⟩ := (e1.den u).1 d1
          obtain ⟨y, hy, dy⟩ := (e2.den v).1 d2
          obtain ⟨z, hz, dz⟩ := (e3.den r).1 d3
          refine ⟨g (x, y, z), (hm _).2 ⟨(x, y, z), mem_product3.2 ⟨hx, hy, hz⟩, rfl⟩, den_mult.2 ⟨u, v, r, ?_, ?_, ?_, rfl⟩⟩
          · exact (den_role (e1.wf x hx) u).2 dx
          · exact (den_role (e2.wf y hy) v).2 dy
          · exact (den_role (e3.wf z hz) r).2 dz
        · rintro ⟨x, hx, dx⟩
          obtain ⟨t, ht, rfl⟩ := (hm x).1 hx
          obtain ⟨m1, m2, m3⟩ := mem_product3.1 ht
          obtain ⟨u, v, r, d1, d2, d3, rfl⟩ := den_mult.1 dx
          exact ⟨u, v, r, (e1.den u).2 ⟨_, m1, (den_role (e1.wf _ m1) u).1 d1⟩,
            (e2.den v).2 ⟨_, m2, (den_role (e2.wf _ m2) v).1 d2⟩, (e3.den r).2 ⟨_, m3, (den_role (e3.wf _ m3) r).1 d3⟩, rfl⟩

/-- What the concatenated enumeration of the children of a sum satisfies. -/
structure EnumL (cs : List Script) (L : List Script) : Prop where
  run : singularSequencesL cs = .ok L
  wf : ∀ x ∈ L, WF x ∧ Plain x
  one : ∀ x ∈ L, x.cardinal = 1
  layer : ∀ x ∈ L, ∃ c ∈ cs, x.layer = c.layer
  length : L.length = (cs.map cardinal).sum
  den : ∀ w, (∃ c ∈ cs, Den c w) ↔ ∃ x ∈ L, Den x w

theorem enumL : ∀ {cs : List Script}, (∀ c ∈ cs, c.isAdd = false ∧ ∃ L, Enum c L) → ∃ L, EnumL cs L
  | [], _ => ⟨[], rfl, by simp, by simp, by simp, by simp, by simp⟩
  | c :: cs, h => by
    obtain ⟨ha, L, e⟩ := h c (by simp)
    obtain ⟨M, f⟩ := enumL fun d hd => h d (List.mem_cons_of_mem _ hd)
    refine ⟨L ++ M, ?_, ?_, ?_, ?_, ?_, ?_⟩
    · rw [singularSequencesL, e.run, f.run]; rfl
    · intro x hx
      rcases List.mem_append.1 hx with hx | hx
      · exact ⟨e.wf x hx, e.plain (plain_of_not_isAdd ha) x hx⟩
      · exact f.wf x hx
    · intro x hx
      rcases List.mem_append.1 hx with hx | hx
      · exact e.one x hx
      · exact f.one x hx
    · intro x hx
      rcases List.mem_append.1 hx with hx | hx
      · exact ⟨c, by simp, e.layer x hx⟩
      · obtain ⟨d, hd, hl⟩ := f.layer x hx
        exact ⟨d, List.mem_cons_of_mem _ hd, hl⟩
    · simp [e.length, f.length]
    · intro w
      constructor
      · rintro ⟨d, hd, hw⟩
        rcases List.mem_cons.1 hd with rfl | hd
        · obtain ⟨x, hx, hw⟩ := (e.den w).1 hw
          exact ⟨x, List.mem_append.2 (.inl hx), hw⟩
        · obtain ⟨x, hx, hw⟩ := (f.den w).1 ⟨d, hd, hw⟩
          exact ⟨x, List.mem_append.2 (.inr hx), hw⟩
      · rintro ⟨x, hx, hw⟩
        rcases List.mem_append.1 hx with hx | hx
        · exact ⟨c, by simp, (e.den w).2 ⟨x, hx, hw⟩⟩
        · obtain ⟨d, hd, hw⟩ := (f.den w).2 ⟨x, hx, hw⟩
          exact ⟨d, List.mem_cons_of_mem _ hd, hw⟩

theorem enum_add {cs : List Script} (h : WF (add cs)) (ih : ∀ c ∈ cs, ∃ L, Enum c L) : ∃ L, Enum (add cs) L := by
  cases hp : (add cs).paradigm with
  | false => exact ⟨_, enum_self h hp (by simp [singularSequences, hp])⟩
  | true =>
    have hw := h
    cases h with
    | add h1 h2 h3 h4 h5 h6 h7 =>
      obtain ⟨L, e⟩ := enumL fun c hc => ⟨h4 c hc, ih c hc⟩
      have hrun : singularSequences (add cs) = .ok (pySort lt L) := by
        rw [singularSequences, hp]
        simp only [Bool.not_true, Bool.false_eq_true, if_false]
        rw [e.run]; rfl
      refine ⟨_, hrun, ?_, ?_, ?_, ?_, ?_, ?_, ?_⟩
      · intro x hx; exact (e.wf x ((mem_pySort lt).1 hx)).1
      · intro x hx; exact e.one x ((mem_pySort lt).1 hx)
      · intro x hx
        obtain ⟨c, hc, hl⟩ := e.layer x ((mem_pySort lt).1 hx)
        rw [hl, h3 c hc]
      · intro _ x hx; exact (e.wf x ((mem_pySort lt).1 hx)).2
      · rw [length_pySort, e.length, cardinal_add hw]
      · exact sortScripts e.wf
      · intro w
        rw [den_add, e.den w]
        constructor
        · rintro ⟨x, hx, hd⟩; exact ⟨x, (mem_pySort lt).2 hx, hd⟩
        · rintro ⟨x, hx, hd⟩; exact ⟨x, (mem_pySort lt).1 hx, hd⟩

/-- The enumeration of a well-formed script never fails and is exact. -/
theorem enum_exists {s : Script} (h : WF s) : ∃ L, Enum s L := by
  induction h with
  | @null l h => exact ⟨_, enum_self (.null h) rfl rfl⟩
  | prim => exact ⟨_, enum_self .prim rfl rfl⟩
  | mult h1 h2 h3 h4 h5 h6 h7 h8 h9 h10 ih1 ih2 ih3 => exact enum_mult (.mult h1 h2 h3 h4 h5 h6 h7 h8 h9 h10) ih1 ih2 ih3
  | add h1 h2 h3 h4 h5 h6 h7 ih => exact enum_add (.add h1 h2 h3 h4 h5 h6 h7) ih

theorem enum_of_run {s : Script} (h : WF s) {L : List Script} (hr : singularSequences s = .ok L) : Enum s L := by
  obtain ⟨L', e⟩ := enum_exists h
  have := e.run
  rw [hr, Except.ok.injEq] at this
  rw [this]; exact e

/-- Two singular scripts of the same layer: same text iff they share a word. -/
theorem str_iff_word {x y : Script} (hx : WF x) (hy : WF y) (cx : x.cardinal = 1) (cy : y.cardinal = 1)
    (hl : x.layer = y.layer) : x.str = y.str ↔ ∃ w, Den x w ∧ Den y w := by
  constructor
  · intro h
    obtain ⟨w, hw⟩ := den_exists hx
    exact ⟨w, hw, (den_of_str hx hy h w).1 hw⟩
  · rintro ⟨w, h1, h2⟩
    exact str_of_word hx hy cx cy hl h1 h2

/-- Texts in the enumeration, in terms of words. -/
theorem mem_enum_iff {s : Script} {L : List Script} (e : Enum s L) {x : Script} (hx : WF x) (cx : x.cardinal = 1)
    (hl : x.layer = s.layer) : (∃ y ∈ L, y.str = x.str) ↔ ∃ w, Den x w ∧ Den s w := by
  constructor
  · rintro ⟨y, hy, hs⟩
    obtain ⟨w, hw⟩ := den_exists hx
    exact ⟨w, hw, (e.den w).2 ⟨y, hy, (den_of_str (e.wf y hy) hx hs w).2 hw⟩⟩
  · rintro ⟨w, h1, h2⟩
    obtain ⟨y, hy, h3⟩ := (e.den w).1 h2
    exact ⟨y, hy, str_of_word (e.wf y hy) hx (e.one y hy) cx (by rw [e.layer y hy, hl]) h3 h1⟩

end Script
end Verif
