import Verif.Lemmas.DictOk
import Verif.Spec.Relations

/-
Lemmas on the relations of a built dictionary.
-/

namespace Verif
open Script

/-! ### Pairs -/

theorem pairs_mapM {α β : Type} {f : α → Except Err β} {l : List α} : ∀ {l' : List β}, l.mapM f = .ok l' → ∀ {x y : β},
    (x, y) ∈ DictBase.pairs l' ↔ ∃ p ∈ DictBase.pairs l, f p.1 = .ok x ∧ f p.2 = .ok y := by
  induction l with
  | nil =>
    intro l' h x y
    rw [List.mapM_nil, pure_ok] at h
    subst h
    simp [DictBase.pairs]
  | cons a l ih =>
    intro l' h x y
    rw [List.mapM_cons, bind_ok] at h
    obtain ⟨b, hb, h⟩ := h
    rw [bind_ok] at h
    obtain ⟨bs, hbs, h⟩ := h
    rw [pure_ok] at h
    subst h
    rw [DictBase.pairs, List.mem_append, ih hbs, List.mem_map]
    simp only [DictBase.pairs, List.mem_append, List.mem_map, or_and_right, exists_or]
    apply or_congr
    · constructor
      · rintro ⟨z, hz, e⟩
        rw [Prod.mk.injEq] at e
        obtain ⟨rfl, rfl⟩ := e
        obtain ⟨c, hc, hcz⟩ := (mapM_mem hbs).1 hz
        exact ⟨(a, c), ⟨c, hc, rfl⟩, hb, hcz⟩
      · rintro ⟨p, ⟨c, hc, rfl⟩, h1, h2⟩
        simp only at h1 h2
        rw [hb, Except.ok.injEq] at h1
        exact ⟨y, (mapM_mem hbs).2 ⟨c, hc, h2⟩, by rw [h1]⟩
    · exact Iff.rfl

theorem mem_permutations2 {α : Type} {l : List α} {x y : α} : (x, y) ∈ DictBase.permutations2 l ↔
    (x, y) ∈ DictBase.pairs l ∨ (y, x) ∈ DictBase.pairs l := by
  unfold DictBase.permutations2
  rw [List.mem_flatMap]
  constructor
  · rintro ⟨p, hp, h⟩
    simp only [List.mem_cons, List.not_mem_nil, or_false, Prod.mk.injEq] at h
    rcases h with ⟨rfl, rfl⟩ | ⟨rfl, rfl⟩
    · exact .inl hp
    · exact .inr hp
  · rintro (h | h)
    · exact ⟨_, h, by simp⟩
    · exact ⟨_, h, by simp⟩

/-! ### The rules -/

theorem child_ok {s c : Script} {v : Nat} : child s v = .ok c ↔ s.children[v]? = some c := by
  unfold child
  split
  · rename_i h; rw [h]; simp
  · rename_i h; rw [h]; simp

theorem kid_eq {s c : Script} {v : Nat} (h : child s v = .ok c) : kid s v = some c.str := by
  rw [kid, child_ok.1 h]; rfl

theorem opposedSibling_inv {x y : Script} {b : Bool} (h : DictBase.opposedSibling x y = .ok b) : b = true ↔ Exchanged x y := by
  unfold DictBase.opposedSibling at h
  unfold Exchanged
  split at h
  · rename_i hc
    rw [pure_ok] at h
    subst h
    simp only [Bool.or_eq_true, decide_eq_true_eq] at hc
    constructor
    · intro h; cases h
    · rintro ⟨h1, h2, h3, _⟩
      rcases hc with (hc | hc) | hc
      · rw [h1] at hc; cases hc
      · rw [h2] at hc; cases hc
      · exact absurd h3 hc
  · rename_i hc
    simp only [Bool.or_eq_true, decide_eq_true_eq, not_or, Bool.not_eq_true, not_not] at hc
    rw [bind_ok] at h
    obtain ⟨x0, k1, h⟩ := h
    rw [bind_ok] at h
    obtain ⟨y1, k2, h⟩ := h
    rw [kid_eq k1, kid_eq k2]
    split at h
    · rename_i hn
      rw [pure_ok] at h
      subst h
      simp only [pyEq, Bool.not_eq_true', beq_eq_false_iff_ne, ne_eq] at hn
      constructor
      · intro h; cases h
      · rintro ⟨_, _, _, h4, _⟩
        exact absurd (Option.some.inj h4) hn
    · rename_i hn
      rw [bind_ok] at h
      obtain ⟨x1, k3, h⟩ := h
      rw [bind_ok] at h
      obtain ⟨y0, k4, h⟩ := h
      rw [pure_ok] at h
      subst h
      rw [kid_eq k3, kid_eq k4]
      simp only [pyEq, Bool.not_eq_true', beq_eq_false_iff_ne, ne_eq, not_not] at hn
      simp [pyEq, hc.1.1, hc.1.2, hc.2, hn]

theorem siblingTest_inv {k : DictBase.Sibling} (hk : k ≠ .twin) {x y : Script} {b : Bool} (h : DictBase.siblingTest k x y = .ok b) :
    b = true ↔ SiblingRule k x y := by
  cases k with
  | twin => exact absurd rfl hk
  | opposed => exact opposedSibling_inv h
  | associated =>
    simp only [DictBase.siblingTest, DictBase.associatedSibling] at h
    simp only [SiblingRule]
    split at h
    · rename_i hc
      rw [pure_ok] at h
      subst h
      constructor
      · intro h; cases h
      · rintro ⟨h, _⟩
        exact absurd h hc
    · rename_i hc
      rw [not_not] at hc
      rw [bind_ok] at h
      obtain ⟨x0, k1, h⟩ := h
      rw [bind_ok] at h
      obtain ⟨y0, k2, h⟩ := h
      rw [kid_eq k1, kid_eq k2]
      split at h
      · rename_i hn
        rw [pure_ok] at h
        subst h
        simp only [pyEq, Bool.not_eq_true', beq_eq_false_iff_ne, ne_eq] at hn
        constructor
        · intro h; cases h
        · rintro ⟨_, h, _⟩
          exact absurd (Option.some.inj h) hn
      · rename_i hn
        rw [bind_ok] at h
        obtain ⟨x1, k3, h⟩ := h
        rw [bind_ok] at h
        obtain ⟨y1, k4, h⟩ := h
        rw [kid_eq k3, kid_eq k4]
        split at h
        · rename_i hm
          rw [pure_ok] at h
          subst h
          simp only [pyEq, Bool.not_eq_true', beq_eq_false_iff_ne, ne_eq] at hm
          constructor
          · intro h; cases h
          · rintro ⟨_, _, h, _⟩
            exact absurd (Option.some.inj h) hm
        · rename_i hm
          rw [bind_ok] at h
          obtain ⟨x2, k5, h⟩ := h
          rw [bind_ok] at h
          obtain ⟨y2, k6, h⟩ := h
          rw [pure_ok] at h
          subst h
          rw [kid_eq k5, kid_eq k6]
          simp only [pyEq, Bool.not_eq_true', beq_eq_false_iff_ne, ne_eq, not_not] at hn hm
          simp [pyEq, hc, hn, hm]
  | crossed =>
    simp only [DictBase.siblingTest, DictBase.crossedSibling] at h
    simp only [SiblingRule]
    split at h
    · rename_i hc
      rw [pure_ok] at h
      subst h
      simp only [Bool.or_eq_true, decide_eq_true_eq] at hc
      constructor
      · intro h; cases h
      · rintro ⟨h1, h2, _⟩
        rcases hc with hc | hc
        · omega
        · exact absurd h2 hc
    · rename_i hc
      simp only [Bool.or_eq_true, decide_eq_true_eq, not_or, not_not] at hc
      rw [bind_ok] at h
      obtain ⟨x0, k1, h⟩ := h
      rw [bind_ok] at h
      obtain ⟨y0, k2, h⟩ := h
      rw [bind_ok] at h
      obtain ⟨b0, ho, h⟩ := h
      have r0 := opposedSibling_inv ho
      have g0 := child_ok.1 k1
      have g0' := child_ok.1 k2
      split at h
      · rename_i hn
        rw [pure_ok] at h
        subst h
        constructor
        · intro h; cases h
        · rintro ⟨_, _, h⟩
          obtain ⟨c, c', e1, e2, e3⟩ := h 0 (by omega)
          rw [g0, Option.some.injEq] at e1
          rw [g0', Option.some.injEq] at e2
          subst e1 e2
          rw [r0.2 e3] at hn
          cases hn
      · rename_i hn
        simp only [Bool.not_eq_true', Bool.not_eq_false] at hn
        rw [bind_ok] at h
        obtain ⟨x1, k3, h⟩ := h
        rw [bind_ok] at h
        obtain ⟨y1, k4, h⟩ := h
        have g1 := child_ok.1 k3
        have g1' := child_ok.1 k4
        rw [opposedSibling_inv h]
        constructor
        · intro h1
          refine ⟨by omega, hc.2, fun v hv => ?_⟩
          have : v = 0 ∨ v = 1 := by omega
          rcases this with rfl | rfl
          · exact ⟨x0, y0, g0, g0', r0.1 hn⟩
          · exact ⟨x1, y1, g1, g1', h1⟩
        · rintro ⟨_, _, h⟩
          obtain ⟨c, c', e1, e2, e3⟩ := h 1 (by omega)
          rw [g1, Option.some.injEq] at e1
          rw [g1', Option.some.injEq] at e2
          subst e1 e2
          exact e3

theorem Exchanged.symm {x y : Script} (h : Exchanged x y) : Exchanged y x :=
  ⟨h.2.1, h.1, h.2.2.1.symm, h.2.2.2.2.symm, h.2.2.2.1.symm⟩

theorem SiblingRule.symm {k : DictBase.Sibling} {x y : Script} (hl : x.layer = y.layer) (h : SiblingRule k x y) : SiblingRule k y x := by
  cases k with
  | opposed => exact Exchanged.symm h
  | associated => exact ⟨h.1.symm, h.2.1.symm, h.2.2.1.symm, h.2.2.2.symm⟩
  | crossed =>
    refine ⟨hl ▸ h.1, h.2.1.symm, fun v hv => ?_⟩
    obtain ⟨c, c', h1, h2, h3⟩ := h.2.2 v hv
    exact ⟨c', c, h2, h1, h3.symm⟩
  | twin => exact ⟨h.1.symm, h.2.2, h.2.1⟩

theorem isTwin_inv {t : Table} {b : Bool} (h : DictBase.isTwin t = .ok b) : b = true ↔ kid t.script 0 = kid t.script 1 := by
  unfold DictBase.isTwin at h
  rw [bind_ok] at h
  obtain ⟨x0, k1, h⟩ := h
  rw [bind_ok] at h
  obtain ⟨x1, k2, h⟩ := h
  rw [pure_ok] at h
  subst h
  rw [kid_eq k1, kid_eq k2]
  simp [pyEq]

/-! ### The sibling relations -/

/-- Two tables of a root related by `k`. -/
def SiblingTables (b : DictBase) (k : DictBase.Sibling) (e : Script × List Table) (i j : Nat) : Prop :=
  b.inhibited e.1 k.name = false ∧ ∃ t ∈ e.2, ∃ u ∈ e.2, t.script.isMult = true ∧ u.script.isMult = true ∧
    t.script.str ≠ u.script.str ∧ b.index t.script = .ok i ∧ b.index u.script = .ok j ∧ SiblingRule k t.script u.script

theorem SiblingTables.symm {b : DictBase} {k : DictBase.Sibling} {e : Script × List Table} {i j : Nat}
    (hl : ∀ t ∈ e.2, t.script.layer = e.1.layer) (h : SiblingTables b k e i j) : SiblingTables b k e j i := by
  obtain ⟨h0, t, ht, u, hu, h1, h2, h3, h4, h5, h6⟩ := h
  exact ⟨h0, u, hu, t, ht, h2, h1, h3.symm, h5, h4, h6.symm ((hl t ht).trans (hl u hu).symm)⟩

theorem pairSiblings_inv {b : DictBase} {k : DictBase.Sibling} (hk : k ≠ .twin) {e : Script × List Table}
    (hd : e.2.Pairwise fun a b => a.script.str ≠ b.script.str) (hl : ∀ t ∈ e.2, t.script.layer = e.1.layer)
    {l : List (Nat × Nat)} (h : b.pairSiblings k e.1 e.2 = .ok l) {i j : Nat} : (i, j) ∈ l ↔ SiblingTables b k e i j := by
  unfold DictBase.pairSiblings at h
  split at h
  · rename_i hi
    rw [pure_ok] at h
    subst h
    constructor
    · intro h; cases h
    · intro h
      have := h.1
      rw [hi] at this
      cases this
  · rename_i hi
    rw [Bool.not_eq_true] at hi
    rw [bind_ok] at h
    obtain ⟨ls, h1, h⟩ := h
    rw [pure_ok] at h
    subst h
    have hm : ∀ t, t ∈ e.2.filter (fun t => t.script.isMult) ↔ t ∈ e.2 ∧ t.script.isMult = true := fun t => List.mem_filter
    have hd' := pairwise_pairs'.1 (hd.filter fun t => t.script.isMult)
    generalize e.2.filter (fun t => t.script.isMult) = f at *
    have run : ∀ {p : Table × Table} {x : List (Nat × Nat)}, (do
        let i0 ← b.index p.1.script
        let i1 ← b.index p.2.script
        if ← DictBase.siblingTest k p.1.script p.2.script then return [(i0, i1), (i1, i0)] else return []) = .ok x →
        ∃ i0 i1, b.index p.1.script = .ok i0 ∧ b.index p.2.script = .ok i1 ∧
          ((SiblingRule k p.1.script p.2.script ∧ x = [(i0, i1), (i1, i0)]) ∨ (¬ SiblingRule k p.1.script p.2.script ∧ x = [])) := by
      intro p x hx
      rw [bind_ok] at hx
      obtain ⟨i0, k0, hx⟩ := hx
      rw [bind_ok] at hx
      obtain ⟨i1, k1, hx⟩ := hx
      rw [bind_ok] at hx
      obtain ⟨c, k2, hx⟩ := hx
      have r := siblingTest_inv hk k2
      refine ⟨i0, i1, k0, k1, ?_⟩
      cases c with
      | true =>
        simp only [if_true, pure_ok] at hx
        exact .inl ⟨r.1 rfl, hx.symm⟩
      | false =>
        simp only [Bool.false_eq_true, if_false, pure_ok] at hx
        exact .inr ⟨(fun h => by have := r.2 h; cases this), hx.symm⟩
    rw [List.mem_flatten]
    constructor
    · rintro ⟨x, hx, hij⟩
      obtain ⟨p, hp, hpx⟩ := (mapM_mem h1).1 hx
      obtain ⟨i0, i1, k0, k1, ⟨r, rfl⟩ | ⟨_, rfl⟩⟩ := run hpx
      · have m := DictOk.mem_pairs hp
        have m0 := (hm _).1 m.1
        have m1 := (hm _).1 m.2
        have base : SiblingTables b k e i0 i1 := ⟨hi, p.1, m0.1, p.2, m1.1, m0.2, m1.2, hd' p hp, k0, k1, r⟩
        simp only [List.mem_cons, List.not_mem_nil, or_false, Prod.mk.injEq] at hij
        rcases hij with ⟨rfl, rfl⟩ | ⟨rfl, rfl⟩
        · exact base
        · exact base.symm hl
      · cases hij
    · rintro ⟨_, t, ht, u, hu, g1, g2, g3, g4, g5, g6⟩
      have hne : t ≠ u := fun e => g3 (e ▸ rfl)
      rcases DictOk.pairs_total ((hm t).2 ⟨ht, g1⟩) ((hm u).2 ⟨hu, g2⟩) hne with hp | hp
      · obtain ⟨x, hx, hpx⟩ := mapM_each h1 hp
        refine ⟨x, hx, ?_⟩
        obtain ⟨i0, i1, k0, k1, ⟨r, rfl⟩ | ⟨r, _⟩⟩ := run hpx
        · simp only [g4, g5, Except.ok.injEq] at k0 k1
          subst k0 k1
          simp
        · exact absurd g6 r
      · obtain ⟨x, hx, hpx⟩ := mapM_each h1 hp
        refine ⟨x, hx, ?_⟩
        obtain ⟨i0, i1, k0, k1, ⟨r, rfl⟩ | ⟨r, _⟩⟩ := run hpx
        · simp only [g4, g5, Except.ok.injEq] at k0 k1
          subst k0 k1
          simp
        · exact absurd (g6.symm ((hl t ht).trans (hl u hu).symm)) r
where
  pairwise_pairs' {α : Type} {R : α → α → Prop} {l : List α} : l.Pairwise R ↔ ∀ p ∈ DictBase.pairs l, R p.1 p.2 := DictOk.pairwise_pairs

theorem twinSiblings_inv {b : DictBase} {e : Script × List Table}
    (hd : e.2.Pairwise fun a b => a.script.str ≠ b.script.str)
    {l : List (Nat × Nat)} (h : b.twinSiblings e.1 e.2 = .ok l) {i j : Nat} : (i, j) ∈ l ↔ SiblingTables b .twin e i j := by
  unfold DictBase.twinSiblings at h
  rw [bind_ok] at h
  obtain ⟨tw, htw, h⟩ := h
  split at h
  · rename_i hi
    rw [pure_ok] at h
    subst h
    constructor
    · intro h; cases h
    · intro h
      have := h.1
      rw [hi] at this
      cases this
  · rename_i hi
    rw [Bool.not_eq_true] at hi
    simp only [] at h
    rw [bind_ok] at h
    obtain ⟨ls, h1, h⟩ := h
    rw [pure_ok] at h
    subst h
    obtain ⟨hall, hmem⟩ := filterM_inv htw
    have hm : ∀ t, t ∈ tw ↔ t ∈ e.2 ∧ t.script.isMult = true ∧ kid t.script 0 = kid t.script 1 := by
      intro t
      rw [hmem, List.mem_filter, and_assoc]
      refine and_congr_right fun h1 => and_congr_right fun h2 => ?_
      obtain ⟨c, hc⟩ := hall t (List.mem_filter.2 ⟨h1, h2⟩)
      rw [← isTwin_inv hc, hc, Except.ok.injEq]
    have hd' : tw.Pairwise fun a b => a.script.str ≠ b.script.str := (hd.filter _).sublist (filterM_sublist htw)
    rw [List.mem_flatten]
    have base : ∀ {c : Nat} {p : Table × Table} {i0 i1 : Nat}, p ∈ DictBase.pairs (tw.filter fun t => t.script.cardinal = c) →
        b.index p.1.script = .ok i0 → b.index p.2.script = .ok i1 → SiblingTables b .twin e i0 i1 ∧ SiblingTables b .twin e i1 i0 := by
      intro c p i0 i1 hp k0 k1
      have m := DictOk.mem_pairs hp
      have q0 := List.mem_filter.1 m.1
      have q1 := List.mem_filter.1 m.2
      have m0 := (hm _).1 q0.1
      have m1 := (hm _).1 q1.1
      have c0 : p.1.script.cardinal = c := by simpa using q0.2
      have c1 : p.2.script.cardinal = c := by simpa using q1.2
      have hne := DictOk.pairwise_pairs.1 (hd'.filter fun t => decide (t.script.cardinal = c)) p hp
      exact ⟨⟨hi, p.1, m0.1, p.2, m1.1, m0.2.1, m1.2.1, hne, k0, k1, c0.trans c1.symm, m0.2.2, m1.2.2⟩,
        ⟨hi, p.2, m1.1, p.1, m0.1, m1.2.1, m0.2.1, hne.symm, k1, k0, c1.trans c0.symm, m1.2.2, m0.2.2⟩⟩
    constructor
    · rintro ⟨x, hx, hij⟩
      obtain ⟨c, hc, hcx⟩ := (mapM_mem h1).1 hx
      rw [bind_ok] at hcx
      obtain ⟨ix, hix, hcx⟩ := hcx
      rw [pure_ok] at hcx
      subst hcx
      rcases mem_permutations2.1 hij with hp | hp
      · obtain ⟨p, hp, k0, k1⟩ := (pairs_mapM hix).1 hp
        exact (base hp k0 k1).1
      · obtain ⟨p, hp, k0, k1⟩ := (pairs_mapM hix).1 hp
        exact (base hp k0 k1).2
    · rintro ⟨_, t, ht, u, hu, g1, g2, g3, g4, g5, g6, g7, g8⟩
      have htt := (hm t).2 ⟨ht, g1, g7⟩
      have huu := (hm u).2 ⟨hu, g2, g8⟩
      have hc : t.script.cardinal ∈ dedupBy id ((pySort (fun a b => decide (a.script.cardinal < b.script.cardinal)) tw).map
          fun t => t.script.cardinal) := by
        have : t.script.cardinal ∈ (pySort (fun a b => decide (a.script.cardinal < b.script.cardinal)) tw).map
            fun t => t.script.cardinal := List.mem_map.2 ⟨t, (mem_pySort (lt := fun a b => decide (a.script.cardinal < b.script.cardinal))).2 htt, rfl⟩
        obtain ⟨y, hy, e⟩ := dedupBy_complete id this
        simp only [id] at e
        exact e ▸ hy
      obtain ⟨x, hx, hcx⟩ := mapM_each h1 hc
      refine ⟨x, hx, ?_⟩
      rw [bind_ok] at hcx
      obtain ⟨ix, hix, hcx⟩ := hcx
      rw [pure_ok] at hcx
      subst hcx
      rw [mem_permutations2]
      have hne : t ≠ u := fun e => g3 (e ▸ rfl)
      rcases DictOk.pairs_total (l := tw.filter fun u => u.script.cardinal = t.script.cardinal)
        (List.mem_filter.2 ⟨htt, by simp⟩) (List.mem_filter.2 ⟨huu, by simp [g6]⟩) hne with hp | hp
      · exact .inl ((pairs_mapM hix).2 ⟨_, hp, g4, g5⟩)
      · exact .inr ((pairs_mapM hix).2 ⟨_, hp, g5, g4⟩)

namespace DictOk
variable {d : Dictionary} {sorted : List Script}

/-- The sibling relations of a built dictionary. -/
theorem sibling_mem (h : DictOk d sorted) {k : DictBase.Sibling} {i j : Nat} : (i, j) ∈ d.relation (.sibling k) ↔
    ∃ e ∈ d.base.tables.roots, e.1.layer ≠ 0 ∧ SiblingTables d.base k e i j := by
  have hs := h.rel.sibling k
  unfold DictBase.siblings at hs
  rw [bind_ok] at hs
  obtain ⟨ls, h1, hs⟩ := hs
  rw [pure_ok] at hs
  rw [← hs, List.mem_flatten]
  have one : ∀ {e : Script × List Table} {l : List (Nat × Nat)}, e ∈ d.base.tables.roots →
      (if e.1.layer = 0 then return [] else if k = .twin then d.base.twinSiblings e.1 e.2
        else d.base.pairSiblings k e.1 e.2 : Except Err _) = .ok l →
      ((i, j) ∈ l ↔ e.1.layer ≠ 0 ∧ SiblingTables d.base k e i j) := by
    intro e l he hl
    have hd := h.tables_distinct he
    have hlay : ∀ t ∈ e.2, t.script.layer = e.1.layer := fun t ht => ((h.tabs_of he).2.within t ht).1
    split at hl
    · rename_i h0
      rw [pure_ok] at hl
      subst hl
      simp [h0]
    · rename_i h0
      rw [and_iff_right h0]
      split at hl
      · rename_i hk
        subst hk
        exact twinSiblings_inv hd hl
      · rename_i hk
        exact pairSiblings_inv hk hd hlay hl
  constructor
  · rintro ⟨l, hl, hij⟩
    obtain ⟨e, he, hel⟩ := (mapM_mem h1).1 hl
    exact ⟨e, he, (one he hel).1 hij⟩
  · rintro ⟨e, he, hij⟩
    obtain ⟨l, hl, hel⟩ := mapM_each h1 he
    exact ⟨l, hl, (one he hel).2 hij⟩

theorem layer_eq (h : DictOk d sorted) {e : Script × List Table} (he : e ∈ d.base.tables.roots) {t : Table} (ht : t ∈ e.2) :
    t.script.layer = e.1.layer := ((h.tabs_of he).2.within t ht).1

/-! ### Table relations -/

theorem rankScript_inv {b : DictBase} {c : List (Nat × Nat)} {st st' : List (Nat × Nat × Nat) × Option (List Nat)} {t : Script}
    (h : b.rankScript c st t = .ok st') : ∃ (i : Nat) (ranks : List Nat), b.index t = .ok i ∧ (∀ r ∈ ranks, r < 6) ∧
      ∀ e, e ∈ st'.1 ↔ e ∈ st.1 ∨ (e.1 ∈ ranks ∧ e.2 = (i, i)) := by
  unfold DictBase.rankScript at h
  rw [bind_ok] at h
  obtain ⟨i, h1, h⟩ := h
  rw [bind_ok] at h
  obtain ⟨ranks, _, h⟩ := h
  rw [bind_ok] at h
  obtain ⟨es, h3, h⟩ := h
  rw [pure_ok] at h
  subst h
  obtain ⟨k1, k2⟩ := rankEntries_inv h3
  refine ⟨i, ranks, h1, k1, fun e => ?_⟩
  rw [List.mem_append, k2]
  simp

/-- The entries of the table relations are symmetric and at positions of scripts. -/
theorem table_sym (h : DictOk d sorted) {k : Fin 6} {i j : Nat} (hij : (i, j) ∈ d.relation (.table k)) :
    (j, i) ∈ d.relation (.table k) ∧ (∃ s, d.base.index s = .ok i) ∧ ∃ s, d.base.index s = .ok j := by
  obtain ⟨ranks, h1, h2⟩ := h.rel.table
  rw [h2] at hij ⊢
  have key : ∀ e ∈ ranks, (e.1, e.2.2, e.2.1) ∈ ranks ∧ (∃ s, d.base.index s = .ok e.2.1) ∧ ∃ s, d.base.index s = .ok e.2.2 := by
    unfold DictBase.tableRank at h1
    rw [bind_ok] at h1
    obtain ⟨l, h3, h1⟩ := h1
    rw [bind_ok] at h1
    obtain ⟨st, h4, h1⟩ := h1
    rw [pure_ok] at h1
    subst h1
    refine foldlM_inv (P := fun st : List (Nat × Nat × Nat) × Option (List Nat) => ∀ e ∈ st.1, (e.1, e.2.2, e.2.1) ∈ st.1 ∧
      (∃ s, d.base.index s = .ok e.2.1) ∧ ∃ s, d.base.index s = .ok e.2.2) ?_ ?_ h4
    · intro e he
      simp only [List.mem_flatten, List.mem_map] at he ⊢
      obtain ⟨x, ⟨y, hy, rfl⟩, he⟩ := he
      obtain ⟨p, hp, hpy⟩ := (mapM_mem h3).1 hy
      obtain ⟨i0, i1, rs, k0, k1, _, k3, _⟩ := rankPair_inv hpy
      obtain ⟨_, k4⟩ := rankEntries_inv k3
      have he' := (k4 e).1 he
      simp only [List.mem_cons, List.not_mem_nil, or_false] at he'
      refine ⟨⟨_, ⟨y, hy, rfl⟩, (k4 _).2 ⟨he'.1, ?_⟩⟩, ?_⟩
      · rcases he'.2 with e1 | e1 <;> simp [e1]
      · rcases he'.2 with e1 | e1 <;> rw [e1]
        · exact ⟨⟨_, k0⟩, _, k1⟩
        · exact ⟨⟨_, k1⟩, _, k0⟩
    · intro t _ st st' hst hr e he
      obtain ⟨i, rs, k0, _, k1⟩ := rankScript_inv hr
      rcases (k1 e).1 he with he | ⟨he, he'⟩
      · obtain ⟨g1, g2⟩ := hst e he
        exact ⟨(k1 _).2 (.inl g1), g2⟩
      · refine ⟨(k1 _).2 (.inr ⟨he, by rw [he']⟩), ?_⟩
        rw [he']
        exact ⟨⟨t, k0⟩, t, k0⟩
  rw [List.mem_map] at hij
  obtain ⟨e, he, e1⟩ := hij
  rw [List.mem_filter] at he
  obtain ⟨g1, g2⟩ := key e he.1
  rw [e1] at g1 g2
  refine ⟨List.mem_map.2 ⟨_, List.mem_filter.2 ⟨g1, he.2⟩, rfl⟩, g2⟩

/-! ### Father relations -/

theorem fathers_sub {ix : Script → Option Nat} {j : Nat} : ∀ {s : Script}, j ∈ DictBase.fathers ix s → ∃ x, ix x = some j
  | .null _, h => by simp [DictBase.fathers] at h
  | .prim p, h => by
    simp only [DictBase.fathers, Option.mem_toList] at h
    exact ⟨_, h⟩
  | .mult s a m, h => by
    simp only [DictBase.fathers] at h
    split at h
    · rename_i i hi
      rw [List.mem_singleton] at h
      exact ⟨_, h ▸ hi⟩
    · simp only [List.mem_append] at h
      rcases h with (h | h) | h
      · exact fathers_sub h
      · exact fathers_sub h
      · exact fathers_sub h
  | .add cs, h => by
    simp only [DictBase.fathers] at h
    exact fathersL_sub h
where
  fathersL_sub {ix : Script → Option Nat} {j : Nat} : ∀ {cs : List Script}, j ∈ DictBase.fathersL ix cs → ∃ x, ix x = some j
    | [], h => by simp [DictBase.fathersL] at h
    | c :: cs, h => by
      simp only [DictBase.fathersL, List.mem_append] at h
      rcases h with h | h
      · exact fathers_sub h
      · exact fathersL_sub h

theorem father_sub {b : DictBase} {r : Nat} {rel : Str} {l : List (Nat × Nat)} (h : b.father r rel = .ok l) {i j : Nat}
    (hij : (i, j) ∈ l) : (∃ s, b.index s = .ok i) ∧ ∃ s, b.index s = .ok j := by
  unfold DictBase.father at h
  rw [bind_ok] at h
  obtain ⟨ls, h1, h⟩ := h
  rw [pure_ok] at h
  subst h
  obtain ⟨x, hx, hij⟩ := List.mem_flatten.1 hij
  obtain ⟨s, _, hsx⟩ := (mapM_mem h1).1 hx
  rw [bind_ok] at hsx
  obtain ⟨ys, h2, hsx⟩ := hsx
  rw [pure_ok] at hsx
  subst hsx
  obtain ⟨y, hy, hij⟩ := List.mem_flatten.1 hij
  obtain ⟨u, _, huy⟩ := (mapM_mem h2).1 hy
  split at huy
  · rw [pure_ok] at huy; subst huy; cases hij
  · split at huy
    · rw [pure_ok] at huy; subst huy; cases hij
    · rw [bind_ok] at huy
      obtain ⟨c, _, huy⟩ := huy
      rw [bind_ok] at huy
      obtain ⟨i', hi', huy⟩ := huy
      rw [pure_ok] at huy
      subst huy
      obtain ⟨j', hj', e⟩ := List.mem_map.1 hij
      rw [Prod.mk.injEq] at e
      obtain ⟨rfl, rfl⟩ := e
      obtain ⟨x, hx⟩ := fathers_sub hj'
      refine ⟨⟨s, hi'⟩, x, ?_⟩
      cases hx' : b.index x with
      | error e => rw [hx'] at hx; cases hx
      | ok v => rw [hx'] at hx; rw [Except.toOption, Option.some.injEq] at hx; rw [hx]

/-! ### All relations -/

theorem mem_transpose {l : List (Nat × Nat)} {i j : Nat} : (i, j) ∈ transpose l ↔ (j, i) ∈ l := by
  unfold transpose
  rw [List.mem_map]
  constructor
  · rintro ⟨p, hp, e⟩
    rw [Prod.mk.injEq] at e
    obtain ⟨rfl, rfl⟩ := e
    exact hp
  · intro h
    exact ⟨(j, i), h, rfl⟩

/-- Inverse relations. -/
theorem inverse_mem (h : DictOk d sorted) (r : Rel) {i j : Nat} : (i, j) ∈ d.relation r ↔ (j, i) ∈ d.relation r.inverse := by
  cases r with
  | contains => rw [Rel.inverse, h.rel.contained, mem_transpose]
  | contained => rw [Rel.inverse, h.rel.contained, mem_transpose]
  | father r => rw [Rel.inverse, h.rel.child, mem_transpose]
  | child r => rw [Rel.inverse, h.rel.child, mem_transpose]
  | sibling k =>
    rw [Rel.inverse, h.sibling_mem, h.sibling_mem]
    constructor
    · rintro ⟨e, he, h0, h1⟩
      exact ⟨e, he, h0, h1.symm fun t ht => h.layer_eq he ht⟩
    · rintro ⟨e, he, h0, h1⟩
      exact ⟨e, he, h0, h1.symm fun t ht => h.layer_eq he ht⟩
  | table k =>
    rw [Rel.inverse]
    exact ⟨fun hij => (h.table_sym hij).1, fun hij => (h.table_sym hij).1⟩
  | identity =>
    rw [Rel.inverse, h.rel.identity]
    simp only [List.mem_map, List.mem_range, Prod.mk.injEq]
    constructor <;> rintro ⟨a, h1, h2, h3⟩ <;> exact ⟨a, h1, h3, h2⟩

/-- The positions in a relation are those given by the index, or are equal. -/
theorem last_mem (h : DictOk d sorted) (r : Rel) {i j : Nat} (hij : (i, j) ∈ d.relation r) :
    i = j ∨ ((∃ s, d.base.index s = .ok i) ∧ ∃ s, d.base.index s = .ok j) := by
  have hc : ∀ {i j : Nat}, (i, j) ∈ d.relation .contains → i = j ∨ ((∃ s, d.base.index s = .ok i) ∧ ∃ s, d.base.index s = .ok j) := by
    intro i j hij
    rcases h.contains_mem.1 hij with ⟨e, _⟩ | ⟨e, _, p, _, _, h1, ⟨L, _, q, _, h2⟩ | ⟨k, _, _, _, h2⟩⟩
    · exact .inl e
    · exact .inr ⟨⟨_, h1⟩, _, h2⟩
    · exact .inr ⟨⟨_, h1⟩, _, h2⟩
  cases r with
  | contains => exact hc hij
  | contained =>
    rw [h.rel.contained, mem_transpose] at hij
    rcases hc hij with e | ⟨h1, h2⟩
    · exact .inl e.symm
    · exact .inr ⟨h2, h1⟩
  | father r => exact .inr (father_sub (h.rel.father r) hij)
  | child r =>
    rw [h.rel.child, mem_transpose] at hij
    have := father_sub (h.rel.father r) hij
    exact .inr ⟨this.2, this.1⟩
  | sibling k =>
    obtain ⟨_, _, _, _, t, _, u, _, _, _, _, h1, h2, _⟩ := h.sibling_mem.1 hij
    exact .inr ⟨⟨_, h1⟩, _, h2⟩
  | table k => exact .inr (h.table_sym hij).2
  | identity =>
    rw [h.rel.identity] at hij
    simp only [List.mem_map, List.mem_range, Prod.mk.injEq] at hij
    obtain ⟨a, _, e1, e2⟩ := hij
    exact .inl (e1.symm.trans e2)

/-- The objects of a script. -/
theorem related_iff (h : DictOk d sorted) (r : Rel) {a b : Script} {i j : Nat} (hi : d.base.index a = .ok i)
    (hj : d.base.index b = .ok j) : Related d r a b ↔ (i, j) ∈ d.relation r := by
  unfold Related Dictionary.object
  rw [hi]
  simp only [bind, Except.bind, pure, Except.pure, Except.ok.injEq, exists_eq_left', List.mem_filterMap]
  have hmem : ∀ k, k ∈ pySort (fun a b => decide (a < b)) (dedupBy id (((d.relation r).filter fun p => decide (p.1 = i)).map (·.2))) ↔
      (i, k) ∈ d.relation r := by
    intro k
    rw [mem_pySort (lt := fun a b => decide (a < b))]
    constructor
    · intro hk
      obtain ⟨p, hp, rfl⟩ := List.mem_map.1 (mem_dedupBy _ hk)
      rw [List.mem_filter] at hp
      have : p.1 = i := by simpa using hp.2
      exact this ▸ hp.1
    · intro hk
      have : k ∈ ((d.relation r).filter fun p => decide (p.1 = i)).map (·.2) :=
        List.mem_map.2 ⟨(i, k), List.mem_filter.2 ⟨hk, by simp⟩, rfl⟩
      obtain ⟨y, hy, e⟩ := dedupBy_complete id this
      simp only [id] at e
      exact e ▸ hy
  constructor
  · rintro ⟨x, ⟨k, hk, hkx⟩, hxb⟩
    rw [hmem] at hk
    have last : ∃ s, d.base.index s = .ok k := by
      rcases h.last_mem r hk with e | ⟨_, h1⟩
      · exact ⟨a, e ▸ hi⟩
      · exact h1
    obtain ⟨s, hs⟩ := last
    obtain ⟨y, _, hy, hys⟩ := index_inv hs
    rw [hkx, Option.some.injEq] at hy
    subst hy
    have := (seqIndex_eq hs).2 (hys.symm.trans hxb)
    rw [show seqIndex d.base.scripts b = .ok j from hj, Except.ok.injEq] at this
    exact this ▸ hk
  · intro hij
    obtain ⟨y, _, hy, hyb⟩ := index_inv hj
    exact ⟨y, ⟨j, (hmem j).2 hij, hy⟩, hyb⟩

/-- A script with objects is in the dictionary, and so are its objects. -/
theorem related_index {r : Rel} {a b : Script} (h : Related d r a b) : (∃ i, d.base.index a = .ok i) ∧ ∃ j, d.base.index b = .ok j := by
  obtain ⟨l, h1, x, hx, hxb⟩ := h
  unfold Dictionary.object at h1
  rw [bind_ok] at h1
  obtain ⟨i, hi, h1⟩ := h1
  rw [pure_ok] at h1
  subst h1
  obtain ⟨j, _, hj⟩ := List.mem_filterMap.1 hx
  exact ⟨⟨i, hi⟩, seqIndex_isOk.2 ⟨x, List.mem_of_getElem? hj, hxb⟩⟩

end DictOk

end Verif
