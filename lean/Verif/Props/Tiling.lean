import Verif.Lemmas.Tiling
import Verif.Props.Dictionary

/-
C86: which paradigms a table accepts as parts.
-/

namespace Verif
open Script

/-- A table made by its constructor, as a root or below another table. -/
def TableMade (t : Table) : Prop := mkRoot t.script = .ok t ∨ ∃ r p, mkSub t.script r p = .ok t

theorem made_class {t : Table} (h : TableMade t) : tableClass t.script = .ok t.kind ∧ checkTable t.script t.kind = .ok () := by
  rcases h with h | ⟨r, p, h⟩
  · unfold mkRoot at h
    obtain ⟨k, h1, h⟩ := bind_ok.1 h
    obtain ⟨u, h2, h⟩ := bind_ok.1 h
    rw [pure_ok] at h
    have : k = t.kind := by rw [← h]; rfl
    subst this
    exact ⟨h1, h2⟩
  · unfold mkSub at h
    obtain ⟨k, h1, h⟩ := bind_ok.1 h
    obtain ⟨u, h2, h⟩ := bind_ok.1 h
    rw [pure_ok] at h
    have : k = t.kind := by rw [← h]; rfl
    subst this
    exact ⟨h1, h2⟩

theorem first_ok {α : Type} {l : List α} {x : α} (h : first l = .ok x) : ∃ r, l = x :: r := by
  cases l with
  | nil => cases h
  | cons y r => rw [first, Except.ok.injEq] at h; exact ⟨r, by rw [h]⟩

theorem tables_one {s : Script} (h : WF s) (hc : s.cardinal = 1) : tables s = .ok ⟨[Arr.column [s]], [s], []⟩ := by
  cases h with
  | null => rw [tables]
  | prim => rw [tables]
  | mult => rw [tables, if_pos hc]
  | add => rw [tables, if_pos hc]

theorem class_line {s : Script} {k : TableKind} (h : tableClass s = .ok k) (hc : k ≠ .cell) (hk : k = .t1d ∨ k = .t2d) (hw : WF s) :
    ∃ tt c, tables s = .ok tt ∧ tt.cells = [c] ∧ ShapeOk c ∧
      ([c.n0, c.n1, c.n2].filter fun n => n ≠ 1).length = if k = .t1d then 1 else 2 := by
  have h' := h
  unfold tableClass at h
  split at h
  · exact absurd ((tableClass_cell h').2 ‹_›) hc
  obtain ⟨tt, h1, h⟩ := bind_ok.1 h
  obtain ⟨hs, hl⟩ := tables_shape hw h1
  split at h
  · rename_i hone
    obtain ⟨c, h2, h⟩ := bind_ok.1 h
    obtain ⟨r, hr⟩ := first_ok h2
    have : r = [] := by
      rw [hr, hone] at hl
      cases r with
      | nil => rfl
      | cons a r => simp at hl
    subst this
    refine ⟨tt, c, h1, hr, hs c (by rw [hr]; simp), ?_⟩
    split at h
    · rename_i h3
      rw [pure_ok] at h
      subst h
      exact h3
    · rename_i h3
      rw [pure_ok] at h
      subst h
      exact h3
    · cases h
  · split at h
    · rw [pure_ok] at h
      subst h
      simp at hk
    · rw [pure_ok] at h
      subst h
      simp at hk

theorem made_2d {t : Table} (h : TableMade t) (hk : t.kind = .t2d) (hw : WF t.script) :
    ∃ tt c, tables t.script = .ok tt ∧ tt.cells = [c] ∧ c.n0 ≠ 1 ∧ c.n1 ≠ 1 ∧ c.n2 = 1 := by
  obtain ⟨h1, h2⟩ := made_class h
  rw [hk] at h1 h2
  obtain ⟨tt, c, h3, h4, _, h6⟩ := class_line h1 (by simp) (.inr rfl) hw
  rw [checkTable] at h2
  obtain ⟨tt', h7, h2⟩ := bind_ok.1 h2
  rw [h3, Except.ok.injEq] at h7
  subst h7
  obtain ⟨s0, _, h2⟩ := bind_ok.1 h2
  obtain ⟨c', h8, h2⟩ := bind_ok.1 h2
  rw [h4, first, Except.ok.injEq] at h8
  subst h8
  split at h2
  · cases h2
  · rename_i hc
    simp only [Bool.or_eq_true, Bool.not_eq_true', decide_eq_true_eq, not_or, not_not] at hc
    refine ⟨tt, c, h3, h4, fun h0 => ?_, hc.2, hc.1.2⟩
    rw [h0, hc.1.2] at h6
    have h1' := hc.2
    simp [h1'] at h6

theorem made_1d {t : Table} (h : TableMade t) (hk : t.kind = .t1d ∨ t.kind = .cell) (hw : WF t.script) :
    ∃ tt c, tables t.script = .ok tt ∧ tt.cells = [c] ∧ c.n1 = 1 ∧ c.n2 = 1 := by
  obtain ⟨h1, h2⟩ := made_class h
  rcases hk with hk | hk
  · rw [hk] at h1
    obtain ⟨tt, c, h3, h4, h5, h6⟩ := class_line h1 (by simp) (.inl rfl) hw
    refine ⟨tt, c, h3, h4, ?_⟩
    rcases h5 with h5 | ⟨h5, h5'⟩
    · exact h5
    · exfalso
      rw [if_pos rfl] at h6
      simp [h5, h5'] at h6
  · rw [hk] at h1
    exact ⟨_, _, tables_one hw ((tableClass_cell h1).1 rfl), rfl, rfl, rfl⟩

/-! ### Two dimensions -/

theorem dims_iff {n0 n1 : Nat} {co : List (Nat × Nat)} (h0 : ∀ p ∈ co, p.1 < n0 ∧ p.2 < n1) :
    ((dedupBy id (co.map (·.1))).length = n0 ↔ ∀ i < n0, ∃ j, (i, j) ∈ co) ∧
    ((dedupBy id (co.map (·.2))).length = n1 ↔ ∀ j < n1, ∃ i, (i, j) ∈ co) := by
  constructor
  · rw [dedup_full fun j hj => by obtain ⟨p, hp, rfl⟩ := List.mem_map.1 hj; exact (h0 p hp).1]
    simp [List.mem_map]
  · rw [dedup_full fun j hj => by obtain ⟨p, hp, rfl⟩ := List.mem_map.1 hj; exact (h0 p hp).2]
    simp [List.mem_map]

theorem gapEnd_congr {n : Nat} {I J : Nat → Prop} (h : ∀ i < n, I i ↔ J i) (j : Nat) : GapEnd n I j ↔ GapEnd n J j := by
  unfold GapEnd
  constructor
  · rintro ⟨h1, h2, h3⟩
    exact ⟨h1, fun h' => h2 ((h j h1).2 h'), (h _ (Nat.mod_lt _ (by omega))).1 h3⟩
  · rintro ⟨h1, h2, h3⟩
    exact ⟨h1, fun h' => h2 ((h j h1).1 h'), (h _ (Nat.mod_lt _ (by omega))).2 h3⟩

theorem spaced_congr {n : Nat} {I J : Nat → Prop} (h : ∀ i < n, I i ↔ J i) : Spaced n I ↔ Spaced n J := by
  unfold Spaced
  simp only [gapEnd_congr h]

theorem connexe_iff {c : Arr} {s : Script} {co : List (Nat × Nat)} (hn : co.Nodup) (ho : ∀ i j, (i, j) ∈ co ↔ Occupied c s i j) :
    connexeTiling c.n0 c.n1 co = true ↔ BlockOf c s := by
  have hb : ∀ p ∈ co, p.1 < c.n0 ∧ p.2 < c.n1 := fun p hp => ⟨((ho p.1 p.2).1 hp).1, ((ho p.1 p.2).1 hp).2.1⟩
  have b0 : ∀ j ∈ co.map (·.1), j < c.n0 := fun j hj => by obtain ⟨p, hp, rfl⟩ := List.mem_map.1 hj; exact (hb p hp).1
  have b1 : ∀ j ∈ co.map (·.2), j < c.n1 := fun j hj => by obtain ⟨p, hp, rfl⟩ := List.mem_map.1 hj; exact (hb p hp).2
  unfold connexeTiling
  rw [Bool.and_eq_true, Bool.and_eq_true, beq_iff_eq, tilingDim_iff b0, tilingDim_iff b1, product_iff hn]
  constructor
  · rintro ⟨⟨⟨s0, i, i', hi, hi1, hi2⟩, s1, j, j', hj, hj1, hj2⟩, hp⟩
    refine ⟨(· ∈ co.map (·.1)), (· ∈ co.map (·.2)), fun a b => ?_, ⟨i, i', hi, b0 i' hi2, hi1, hi2⟩, ⟨j, j', hj, b1 j' hj2, hj1, hj2⟩, s0, s1⟩
    rw [← ho]
    exact ⟨fun h => ⟨(hb _ h).1, (hb _ h).2, List.mem_map_of_mem h, List.mem_map_of_mem h⟩, fun h => hp a b h.2.2.1 h.2.2.2⟩
  · rintro ⟨I, J, hIJ, ⟨i, i', hi, hi', hi1, hi2⟩, ⟨j, j', hj, hj', hj1, hj2⟩, s0, s1⟩
    have e0 : ∀ a < c.n0, a ∈ co.map (·.1) ↔ I a := by
      intro a ha
      rw [List.mem_map]
      constructor
      · rintro ⟨⟨a', b⟩, hp, rfl⟩
        exact ((hIJ _ _).1 ((ho _ _).1 hp)).2.2.1
      · intro hI
        exact ⟨(a, j), (ho _ _).2 ((hIJ _ _).2 ⟨ha, by omega, hI, hj1⟩), rfl⟩
    have e1 : ∀ a < c.n1, a ∈ co.map (·.2) ↔ J a := by
      intro a ha
      rw [List.mem_map]
      constructor
      · rintro ⟨⟨b, a'⟩, hp, rfl⟩
        exact ((hIJ _ _).1 ((ho _ _).1 hp)).2.2.2
      · intro hJ
        exact ⟨(i, a), (ho _ _).2 ((hIJ _ _).2 ⟨by omega, ha, hi1, hJ⟩), rfl⟩
    refine ⟨⟨⟨(spaced_congr e0).2 s0, i, i', hi, (e0 i (by omega)).2 hi1, (e0 i' hi').2 hi2⟩,
      (spaced_congr e1).2 s1, j, j', hj, (e1 j (by omega)).2 hj1, (e1 j' hj').2 hj2⟩, fun a b ha hb => ?_⟩
    rw [ho, hIJ]
    exact ⟨b0 a ha, b1 b hb, (e0 a (b0 a ha)).1 ha, (e1 b (b1 b hb)).1 hb⟩

theorem pair_fst (A B : Prop) [Decidable A] [Decidable B] :
    (if A then (true, true) else if B then (true, false) else (false, false) : Bool × Bool).1 = true ↔ A ∨ B := by
  by_cases a : A <;> by_cases b : B <;> simp [a, b]

theorem pair_snd (A B : Prop) [Decidable A] [Decidable B] :
    (if A then (true, true) else if B then (true, false) else (false, false) : Bool × Bool).2 = true ↔ A := by
  by_cases a : A <;> by_cases b : B <;> simp [a, b]

/-- **C86**, two dimensions: a table accepts a paradigm within it exactly when the paradigm has a word in every row, or in every column, or
is a block of rows and columns at equal distances; as a regular part exactly when it is one row or one column.  Tables of even rank other
than 0 accept nothing, and nothing outside the table is accepted.  It never raises. -/
theorem C86_two {t : Table} {s : Script} (h : TableMade t) (hk : t.kind = .t2d) (hb : Built t.script) (hd : DisjointSums t.script)
    (hs : Built s) (hds : DisjointSums s) :
    ∃ tt c, tables t.script = .ok tt ∧ tt.cells = [c] ∧
      (¬ Within s t.script ∨ t.rank ≠ 0 ∧ t.rank % 2 = 0 → t.accept s = .ok (false, false)) ∧
      (Within s t.script → ¬(t.rank ≠ 0 ∧ t.rank % 2 = 0) → ∃ r, t.accept s = .ok r ∧ (r.2 = true ↔ OneLineOf c s) ∧
        (r.1 = true ↔ AcrossOf c s ∨ BlockOf c s)) := by
  have wt := built_wf hb
  have ws := built_wf hs
  obtain ⟨tt, c, h1, h2, h3, h4, h5⟩ := made_2d h hk wt
  obtain ⟨b, hc1, hc2⟩ := contains_ok wt ws
  refine ⟨tt, c, h1, h2, fun hno => ?_, fun hw hr => ?_⟩
  · rw [Table.accept, hk]
    show t.accept2 s = _
    unfold Table.accept2
    rw [hc1]
    cases b with
    | false => rfl
    | true =>
      have hw := hc2.1 rfl
      rcases hno with hno | hno
      · exact absurd hw hno
      · simp only [bind, Except.bind, Bool.not_true, Bool.false_eq_true, if_false, if_pos hno]
        rfl
  · obtain ⟨L, et⟩ := enum_exists wt
    obtain ⟨M, es⟩ := enum_exists ws
    have hperm : c.flat.Perm (L.map some) := by
      rcases tab_outcome wt with ⟨_, ⟨e, he⟩, _⟩ | ⟨_, hok⟩
      · rw [h1] at he; cases he
      · obtain ⟨tt', h6, tok⟩ := hok hd L et
        rw [h1, Except.ok.injEq] at h6
        subst h6
        have := tok.cells
        rw [h2] at this
        simpa using this
    have hp := places_of hperm ((norep_iff wt et).2 hd) h5
    obtain ⟨co, hco, hn, ho⟩ := coords2 hp et es ((norep_iff ws es).2 hds) hw
    have hbd : ∀ p ∈ co, p.1 < c.n0 ∧ p.2 < c.n1 := fun p hp => ⟨((ho p.1 p.2).1 hp).1, ((ho p.1 p.2).1 hp).2.1⟩
    obtain ⟨d0, d1⟩ := dims_iff hbd
    have hne : co ≠ [] := by
      rintro rfl
      have := (mapM_inv hco).length_eq
      exact enum_ne_nil ws es (List.eq_nil_of_length_eq_zero this)
    set m0 := (dedupBy id (co.map (·.1))).length with hm0
    set m1 := (dedupBy id (co.map (·.2))).length with hm1
    have hacc : t.accept s = .ok (if (m0 = c.n0 ∧ m1 = 1) ∨ (m0 ≠ c.n0 ∧ m1 = c.n1 ∧ m0 = 1) then (true, true)
        else if connexeTiling c.n0 c.n1 co = true ∨ m0 = c.n0 ∨ m1 = c.n1 then (true, false) else (false, false)) := by
      rw [Table.accept, hk]
      show t.accept2 s = _
      unfold Table.accept2
      rw [hc1, hc2.2 hw]
      simp only [bind, Except.bind, Bool.not_true, Bool.false_eq_true, if_false, if_neg hr, h1, h2, first, es.run, hco, dimSubset, ← hm0, ← hm1]
      by_cases e0 : m0 = c.n0
      · by_cases e2 : m1 = 1
        · simp [e0, e2, pure, Except.pure]
        · simp [e0, e2, pure, Except.pure]
      · by_cases e1 : m1 = c.n1
        · by_cases e3 : m0 = 1
          · have e0' : ¬ 1 = c.n0 := fun h => e0 (e3.trans h)
            simp [e0', e1, e3, pure, Except.pure]
          · simp [e0, e1, e3, pure, Except.pure]
        · cases hct : connexeTiling c.n0 c.n1 co <;> simp [e0, e1, pure, Except.pure]
    have hline : ((m0 = c.n0 ∧ m1 = 1) ∨ (m0 ≠ c.n0 ∧ m1 = c.n1 ∧ m0 = 1)) ↔ OneLineOf c s := by
      have n0 : 0 < c.n0 := by
        obtain ⟨p, hp⟩ := List.exists_mem_of_ne_nil _ hne
        have := (hbd p hp).1
        omega
      have n1 : 0 < c.n1 := by
        obtain ⟨p, hp⟩ := List.exists_mem_of_ne_nil _ hne
        have := (hbd p hp).2
        omega
      rw [hm0, hm1, d0, d1, dedup_one, dedup_one]
      constructor
      · rintro (⟨ha, _, b, hb⟩ | ⟨_, ha, _, b, hb⟩)
        · left
          refine ⟨b, fun i j => ?_⟩
          rw [← ho]
          constructor
          · intro h
            exact ⟨(hbd _ h).1, hb j (List.mem_map_of_mem (f := (·.2)) h)⟩
          · rintro ⟨hi, rfl⟩
            obtain ⟨j', hj'⟩ := ha i hi
            have := hb j' (List.mem_map_of_mem (f := (·.2)) hj')
            exact this ▸ hj'
        · right
          refine ⟨b, fun i j => ?_⟩
          rw [← ho]
          constructor
          · intro h
            exact ⟨hb i (List.mem_map_of_mem (f := (·.1)) h), (hbd _ h).2⟩
          · rintro ⟨rfl, hj⟩
            obtain ⟨i', hi'⟩ := ha j hj
            have := hb i' (List.mem_map_of_mem (f := (·.1)) hi')
            exact this ▸ hi'
      · rintro (⟨b, hb⟩ | ⟨b, hb⟩)
        · left
          refine ⟨fun i hi => ⟨b, (ho _ _).2 ((hb i b).2 ⟨hi, rfl⟩)⟩, by simpa using hne, b, fun j hj => ?_⟩
          obtain ⟨⟨i, j'⟩, hp, rfl⟩ := List.mem_map.1 hj
          exact ((hb _ _).1 ((ho _ _).1 hp)).2
        · right
          have hall : ∀ j ∈ co.map (·.1), j = b := by
            intro j hj
            obtain ⟨⟨i, j'⟩, hp, rfl⟩ := List.mem_map.1 hj
            exact ((hb _ _).1 ((ho _ _).1 hp)).1
          refine ⟨fun hf => ?_, fun j hj => ⟨b, (ho _ _).2 ((hb b j).2 ⟨rfl, hj⟩)⟩, by simpa using hne, b, hall⟩
          rw [dedup_one.2 ⟨by simpa using hne, b, hall⟩] at hf
          exact h3 hf.symm
    have hacross : m0 = c.n0 ∨ m1 = c.n1 ↔ AcrossOf c s := by
      rw [hm0, hm1, d0, d1, AcrossOf]
      simp only [ho]
    refine ⟨_, hacc, (pair_snd _ _).trans hline, (pair_fst _ _).trans ?_⟩
    rw [← connexe_iff hn ho, ← hacross]
    constructor
    · rintro ((⟨h7, _⟩ | ⟨_, h7, _⟩) | h7 | h7)
      · exact .inl (.inl h7)
      · exact .inl (.inr h7)
      · exact .inr h7
      · exact .inl h7
    · rintro (h7 | h7)
      · exact .inr (.inr h7)
      · exact .inr (.inl h7)

/-! ### One dimension -/

theorem pySort_le : ∀ (l : List Nat), (pySort (fun a b => decide (a < b)) l).Pairwise (· ≤ ·) := by
  have ins : ∀ (x : Nat) (l : List Nat), l.Pairwise (· ≤ ·) → (insertBy (fun a b => decide (a < b)) x l).Pairwise (· ≤ ·) := by
    intro x l
    induction l with
    | nil => intro _; simp [insertBy]
    | cons y l ih =>
      intro h
      have h' := List.pairwise_cons.1 h
      rw [insertBy]
      split
      · rename_i hlt
        rw [List.pairwise_cons]
        refine ⟨fun z hz => ?_, ih h'.2⟩
        rcases List.mem_cons.1 ((insertBy_perm _ x l).mem_iff.1 hz) with rfl | hz
        · simp at hlt; omega
        · exact h'.1 z hz
      · rename_i hlt
        rw [List.pairwise_cons]
        refine ⟨fun z hz => ?_, h⟩
        simp at hlt
        rcases List.mem_cons.1 hz with rfl | hz
        · omega
        · have := h'.1 z hz; omega
  intro l
  induction l with
  | nil => exact List.Pairwise.nil
  | cons x l ih => exact ins x _ ih

theorem indexOf1_eq {c : Arr} (h : c.n1 = 1) (x : Script) : indexOf1 c x = (indexOf2 c x).map (·.1) := by
  have hl : ((List.range c.n0).flatMap fun i => (List.range c.n1).map fun j => (i, j)).reverse = (List.range c.n0).reverse.map fun i => (i, 0) := by
    rw [h, List.map_reverse]
    congr 1
    exact flatMap_one _ _
  unfold indexOf1 indexOf2
  rw [hl, List.find?_map]
  simp only [Function.comp_def]
  cases (List.range c.n0).reverse.find? fun i =>
      match c.get i 0 0 with
      | some y => y.pyEq x
      | none => false <;> rfl

theorem mapM_fst {c : Arr} (h : c.n1 = 1) : ∀ {M : List Script} {co : List (Nat × Nat)}, M.mapM (indexOf2 c) = .ok co →
    M.mapM (indexOf1 c) = .ok (co.map (·.1)) := by
  intro M co hco
  apply mapM_of_forall₂
  have := mapM_inv hco
  clear hco
  induction this with
  | nil => exact .nil
  | cons h1 _ ih =>
    refine .cons ?_ ih
    rw [indexOf1_eq h, h1]
    rfl

theorem interval_iff {l : List Nat} (hn : l.Nodup) {a b : Nat} (ha : (pySort (fun a b => decide (a < b)) l).head? = some a)
    (hb : (pySort (fun a b => decide (a < b)) l).getLast? = some b) :
    l.length = b - a + 1 ↔ ∀ i j k, i ≤ j → j ≤ k → i ∈ l → k ∈ l → j ∈ l := by
  have hs := pySort_le l
  have hm : ∀ x, x ∈ pySort (fun a b => decide (a < b)) l ↔ x ∈ l := fun x => mem_pySort _
  have hla : ∀ x ∈ l, a ≤ x := by
    intro x hx
    have hx := (hm x).2 hx
    cases hp : pySort (fun a b => decide (a < b)) l with
    | nil => rw [hp] at hx; cases hx
    | cons y r =>
      rw [hp] at ha hs hx
      cases ha
      rcases List.mem_cons.1 hx with rfl | hx
      · exact Nat.le_refl _
      · exact (List.pairwise_cons.1 hs).1 x hx
  have hlb : ∀ x ∈ l, x ≤ b := by
    intro x hx
    have hx := (hm x).2 hx
    obtain ⟨r, hr⟩ := List.getLast?_eq_some_iff.1 hb
    rw [hr] at hs hx
    rcases List.mem_append.1 hx with hx | hx
    · exact (List.pairwise_append.1 hs).2.2 x hx b (by simp)
    · rw [List.mem_singleton] at hx
      omega
  have hma : a ∈ l := (hm a).1 (List.mem_of_mem_head? ha)
  have hmb : b ∈ l := (hm b).1 (List.mem_of_getLast? hb)
  have hab := hla b hmb
  have hsub : l.toFinset ⊆ Finset.Icc a b := fun x hx => by
    rw [List.mem_toFinset] at hx
    exact Finset.mem_Icc.2 ⟨hla x hx, hlb x hx⟩
  constructor
  · intro h i j k hij hjk hi hk
    have := Finset.eq_of_subset_of_card_le hsub (by rw [Nat.card_Icc, List.toFinset_card_of_nodup hn, h]; omega)
    have h2 : j ∈ Finset.Icc a b := Finset.mem_Icc.2 ⟨Nat.le_trans (hla i hi) hij, Nat.le_trans hjk (hlb k hk)⟩
    rw [← this, List.mem_toFinset] at h2
    exact h2
  · intro h
    have : l.toFinset = Finset.Icc a b := Finset.Subset.antisymm hsub fun x hx => by
      rw [Finset.mem_Icc] at hx
      exact List.mem_toFinset.2 (h a x b hx.1 hx.2 hma hmb)
    rw [← List.toFinset_card_of_nodup hn, this, Nat.card_Icc]
    omega

/-- **C86**, one dimension and cells: a table accepts a paradigm within it, always as a regular part, exactly when the words of the
paradigm follow each other in the table.  It never raises. -/
theorem C86_one {t : Table} {s : Script} (h : TableMade t) (hk : t.kind = .t1d ∨ t.kind = .cell) (hb : Built t.script)
    (hd : DisjointSums t.script) (hs : Built s) (hds : DisjointSums s) :
    ∃ tt c, tables t.script = .ok tt ∧ tt.cells = [c] ∧ c.n1 = 1 ∧
      (¬ Within s t.script → t.accept s = .ok (false, false)) ∧
      (Within s t.script → ∃ r, t.accept s = .ok (r, r) ∧ (r = true ↔ IntervalOf c s)) := by
  have wt := built_wf hb
  have ws := built_wf hs
  obtain ⟨tt, c, h1, h2, h4, h5⟩ := made_1d h hk wt
  obtain ⟨b, hc1, hc2⟩ := contains_ok wt ws
  have hacc : t.accept s = t.accept1 s := by
    rw [Table.accept]
    rcases hk with hk | hk <;> rw [hk]
  refine ⟨tt, c, h1, h2, h4, fun hno => ?_, fun hw => ?_⟩
  · rw [hacc]
    unfold Table.accept1
    rw [hc1]
    cases b with
    | false => rfl
    | true => exact absurd (hc2.1 rfl) hno
  · obtain ⟨L, et⟩ := enum_exists wt
    obtain ⟨M, es⟩ := enum_exists ws
    have hperm : c.flat.Perm (L.map some) := by
      rcases tab_outcome wt with ⟨_, ⟨e, he⟩, _⟩ | ⟨_, hok⟩
      · rw [h1] at he; cases he
      · obtain ⟨tt', h6, tok⟩ := hok hd L et
        rw [h1, Except.ok.injEq] at h6
        subst h6
        have := tok.cells
        rw [h2] at this
        simpa using this
    have hp := places_of hperm ((norep_iff wt et).2 hd) h5
    obtain ⟨co, hco, hn, ho⟩ := coords2 hp et es ((norep_iff ws es).2 hds) hw
    have hz : ∀ p ∈ co, p.2 = 0 := fun p hp => by
      have := ((ho p.1 p.2).1 hp).2.1
      omega
    have hco1 := mapM_fst h4 hco
    have ho1 : ∀ i, i ∈ co.map (·.1) ↔ Occupied c s i 0 := by
      intro i
      rw [← ho, List.mem_map]
      constructor
      · rintro ⟨⟨a, b⟩, hp, rfl⟩
        have := hz _ hp
        dsimp only at this
        exact this ▸ hp
      · intro hp
        exact ⟨_, hp, rfl⟩
    have hn1 : (co.map (·.1)).Nodup := by
      refine (List.nodup_map_iff_inj_on hn).2 fun p hp q hq e => ?_
      exact Prod.ext e ((hz p hp).trans (hz q hq).symm)
    have hne : co.map (·.1) ≠ [] := by
      intro he
      have := (mapM_inv hco1).length_eq
      rw [he] at this
      exact enum_ne_nil ws es (List.eq_nil_of_length_eq_zero this)
    generalize co.map (·.1) = l at hco1 ho1 hn1 hne
    have hsn : pySort (fun a b => decide (a < b)) l ≠ [] := fun he => by
      have := length_pySort (fun a b => decide (a < b)) l
      rw [he] at this
      exact hne (List.eq_nil_of_length_eq_zero this.symm)
    have ha := List.head?_eq_some_head hsn
    have hb' := List.getLast?_eq_some_getLast hsn
    have hint := interval_iff hn1 ha hb'
    refine ⟨decide (l.length = _), ?_, (decide_eq_true_iff).trans (hint.trans ?_)⟩
    · rw [hacc]
      unfold Table.accept1
      rw [hc1, hc2.2 hw]
      simp only [bind, Except.bind, Bool.not_true, Bool.false_eq_true, if_false, h1, h2, first, es.run, hco1, ha, hb', length_pySort]
      split <;> rename_i h9
      · simp [h9, pure, Except.pure]
      · simp [h9, pure, Except.pure]
    · unfold IntervalOf
      simp only [ho1]

/-! ### Sets of tables -/

/-- **C86**, sets of tables and tables of three dimensions: a paradigm is accepted, never as a regular part, exactly when its words are those
of one or several of the tables; nothing is accepted below another set of tables.  It never raises. -/
theorem C86_set {t : Table} {s : Script} (h : TableMade t) (hk : t.kind = .t3d ∨ t.kind = .set) (hb : Built t.script) (hs : Built s) :
    ∃ tt, tables t.script = .ok tt ∧
      (t.parentIsSet = true → t.accept s = .ok (false, false)) ∧
      (t.parentIsSet = false → ∃ r, t.accept s = .ok (r, false) ∧
        (r = true ↔ ∃ U : List Script, U ≠ [] ∧ (∀ u ∈ U, u ∈ tt.scripts) ∧ s.layer = t.script.layer ∧
          ∀ w, Den s w ↔ ∃ u ∈ U, Den u w)) := by
  have wt := built_wf hb
  have ws := built_wf hs
  have hok : ∃ tt, tables t.script = .ok tt := by
    obtain ⟨_, h2⟩ := made_class h
    rcases hk with hk | hk <;> rw [hk] at h2
    · obtain ⟨tt, h3, _⟩ := bind_ok.1 h2
      exact ⟨tt, h3⟩
    · obtain ⟨tt, h3, _⟩ := bind_ok.1 h2
      exact ⟨tt, h3⟩
  obtain ⟨tt, htt⟩ := hok
  have hacc : t.accept s = t.acceptSet s := by
    rw [Table.accept]
    rcases hk with hk | hk <;> rw [hk]
  refine ⟨tt, htt, fun hp => ?_, fun hp => ?_⟩
  · rw [hacc, Table.acceptSet, if_pos hp]
    rfl
  · have hin : ∀ u ∈ tt.scripts, WF u ∧ Within u t.script := fun u hu => tables_within wt htt hu
    obtain ⟨ts, hts⟩ := filterM_total (f := fun u => contains s u) (l := tt.scripts) fun u hu => by
      obtain ⟨b, h1, _⟩ := contains_ok ws (hin u hu).1
      exact ⟨b, h1⟩
    have hmem := (filterM_inv hts).2
    obtain ⟨M, es⟩ := enum_exists ws
    obtain ⟨us, hus⟩ := mapM_total (f := singularSequences) (l := ts) fun u hu => by
      obtain ⟨L, e⟩ := enum_exists (hin u ((hmem u).1 hu).1).1
      exact ⟨L, e.run⟩
    have hflat : ∀ w, (∃ x ∈ us.flatten, Den x w) ↔ ∃ u ∈ ts, Den u w := by
      intro w
      constructor
      · rintro ⟨x, hx, hxw⟩
        obtain ⟨L, hL, hx⟩ := List.mem_flatten.1 hx
        obtain ⟨u, hu, hLu⟩ := (mapM_mem hus).1 hL
        have e := enum_of_run (hin u ((hmem u).1 hu).1).1 hLu
        exact ⟨u, hu, (e.den w).2 ⟨x, hx, hxw⟩⟩
      · rintro ⟨u, hu, huw⟩
        obtain ⟨L, hL, hLu⟩ := mapM_each hus hu
        have e := enum_of_run (hin u ((hmem u).1 hu).1).1 hLu
        obtain ⟨x, hx, hxw⟩ := (e.den w).1 huw
        exact ⟨x, List.mem_flatten.2 ⟨L, hL, hx⟩, hxw⟩
    have hsub : ∀ u ∈ ts, u ∈ tt.scripts ∧ Within u s := fun u hu =>
      ⟨((hmem u).1 hu).1, (contains_iff ws (hin u ((hmem u).1 hu).1).1).1 ((hmem u).1 hu).2⟩
    have hsingle : ∀ x ∈ us.flatten, WF x ∧ x.cardinal = 1 ∧ x.layer = s.layer := by
      intro x hx
      obtain ⟨L, hL, hx⟩ := List.mem_flatten.1 hx
      obtain ⟨u, hu, hLu⟩ := (mapM_mem hus).1 hL
      have e := enum_of_run (hin u ((hmem u).1 hu).1).1 hLu
      exact ⟨e.wf x hx, e.one x hx, (e.layer x hx).trans (hsub u hu).2.1⟩
    have hset : (us.flatten.all (fun u => M.any fun v => v.pyEq u) = true ∧ M.all (fun u => us.flatten.any fun v => v.pyEq u) = true) ↔
        ∀ w, Den s w ↔ ∃ u ∈ ts, Den u w := by
      simp only [List.all_eq_true, List.any_eq_true, pyEq, beq_iff_eq]
      constructor
      · rintro ⟨_, h2⟩ w
        refine ⟨fun hw => ?_, fun ⟨u, hu, huw⟩ => (hsub u hu).2.2 w huw⟩
        obtain ⟨m, hm, hmw⟩ := (es.den w).1 hw
        obtain ⟨x, hx, hxm⟩ := h2 m hm
        exact (hflat w).1 ⟨x, hx, (den_of_str (hsingle x hx).1 (es.wf m hm) hxm w).2 hmw⟩
      · intro h
        constructor
        · intro x hx
          obtain ⟨w, hxw⟩ := den_exists (hsingle x hx).1
          obtain ⟨m, hm, hmw⟩ := (es.den w).1 ((h w).2 ((hflat w).1 ⟨x, hx, hxw⟩))
          exact ⟨m, hm, str_of_word (es.wf m hm) (hsingle x hx).1 (es.one m hm) (hsingle x hx).2.1
            ((es.layer m hm).trans (hsingle x hx).2.2.symm) hmw hxw⟩
        · intro m hm
          obtain ⟨w, hmw⟩ := den_exists (es.wf m hm)
          obtain ⟨x, hx, hxw⟩ := (hflat w).2 ((h w).1 ((es.den w).2 ⟨m, hm, hmw⟩))
          exact ⟨x, hx, str_of_word (hsingle x hx).1 (es.wf m hm) (hsingle x hx).2.1 (es.one m hm)
            ((hsingle x hx).2.2.trans (es.layer m hm).symm) hxw hmw⟩
    refine ⟨decide (ts.length ≥ 1 ∧ us.flatten.all (fun u => M.any fun v => v.pyEq u) ∧ M.all (fun u => us.flatten.any fun v => v.pyEq u)),
      ?_, decide_eq_true_iff.trans ?_⟩
    · rw [hacc]
      unfold Table.acceptSet
      simp only [hp, Bool.false_eq_true, if_false, htt, bind, Except.bind, hts, es.run, hus]
      split <;> rename_i h9
      · rw [decide_eq_true h9]; rfl
      · rw [decide_eq_false h9]; rfl
    · rw [hset]
      constructor
      · rintro ⟨h1, h2⟩
        have hne : ts ≠ [] := by rintro rfl; simp at h1
        obtain ⟨u, hu⟩ := List.exists_mem_of_ne_nil _ hne
        exact ⟨ts, hne, fun u hu => (hsub u hu).1, (hsub u hu).2.1.symm.trans (hin u (hsub u hu).1).2.1, h2⟩
      · rintro ⟨U, h1, h2, h3, h4⟩
        have hU : ∀ u ∈ U, u ∈ ts := fun u hu => (hmem u).2 ⟨h2 u hu, (contains_iff ws (hin u (h2 u hu)).1).2
          ⟨(hin u (h2 u hu)).2.1.trans h3.symm, fun w hw => (h4 w).2 ⟨u, hu, hw⟩⟩⟩
        obtain ⟨u, hu⟩ := List.exists_mem_of_ne_nil _ h1
        refine ⟨List.length_pos_of_mem (hU u hu), fun w => ?_⟩
        exact ⟨fun hw => by obtain ⟨u, hu, huw⟩ := (h4 w).1 hw; exact ⟨u, hU u hu, huw⟩, fun ⟨u, hu, huw⟩ => (hsub u hu).2.2 w huw⟩

/-! ### Witnesses -/

/-- `M:M:.`, a table of three rows and columns. -/
def tileMM : Script := .mult (.add [.prim .S, .prim .B, .prim .T]) (.add [.prim .S, .prim .B, .prim .T]) (.null 0)

def tileRoot : Table := .root tileMM .t2d

/-- The word of two letters. -/
def tileCell (a b : Prim) : Script := .mult (.prim a) (.prim b) (.null 0)

/-- `S:S:.+B:B:.+T:T:.`, the diagonal. -/
def tileDiag : Script := .add [tileCell .S .S, tileCell .B .B, tileCell .T .T]

/-- `S:S:.+S:B:.+B:S:.`, three corners of a square. -/
def tileCorner : Script := .add [tileCell .S .S, tileCell .S .B, tileCell .B .S]

def tileRow : Script := .mult (.prim .B) (.add [.prim .S, .prim .B, .prim .T]) (.null 0)

def tileBlock : Script := .mult (.add [.prim .S, .prim .T]) (.add [.prim .B, .prim .T]) (.null 0)

theorem tileRoot_made : TableMade tileRoot := by
  left
  have h : (mkRoot tileMM).map (fun t => t.kind) = .ok .t2d := by decide +kernel
  cases hm : mkRoot tileMM with
  | error e => rw [hm] at h; cases h
  | ok t =>
    rw [hm] at h
    obtain ⟨k, rfl, _⟩ := mkRoot_inv hm
    have hk : k = .t2d := by simpa [Except.map, Table.kind] using h
    subst hk
    exact hm

-- The hypotheses of `C86_two` hold; one row, a block and the corners.
example : TableMade tileRoot ∧ tileRoot.kind = .t2d ∧ Built tileMM ∧ tileRoot.rank = 0 ∧ Built tileRow ∧ Built tileBlock ∧ Built tileCorner ∧
    tileRoot.accept tileRow = .ok (true, true) ∧ tileRoot.accept tileBlock = .ok (true, false) ∧ tileRoot.accept tileCorner = .ok (false, false) :=
  ⟨tileRoot_made, rfl, built_of (by decide +kernel), rfl, built_of (by decide +kernel), built_of (by decide +kernel), built_of (by decide +kernel),
    by decide +kernel, by decide +kernel, by decide +kernel⟩

/-- **C86 is violated**: the diagonal of a table is accepted, although it is neither made of rows or columns nor a block. -/
theorem C86_violated_diagonal : ∃ t s c, TableMade t ∧ Built t.script ∧ DisjointSums t.script ∧ Built s ∧ DisjointSums s ∧
    (tables t.script).map (·.cells) = .ok [c] ∧ t.accept s = .ok (true, false) ∧ ¬ LinesOfTable c s ∧ ¬ BlockOf c s := by
  have hb : Built tileMM := built_of (by decide +kernel)
  have hs : Built tileDiag := built_of (by decide +kernel)
  have nr : ∀ {s : Script} {L : List Script}, Built s → singularSequences s = .ok L → (L.map str).Nodup → DisjointSums s := by
    intro s L h hr hn
    refine (norep_iff (built_wf h) (enum_of_run (built_wf h) hr)).1 ?_
    rw [List.Nodup, List.pairwise_map] at hn
    exact hn
  have hd : DisjointSums tileMM := by
    cases hr : singularSequences tileMM with
    | error e =>
      have : (singularSequences tileMM).map (fun L => decide (L.map str).Nodup) = .ok true := by decide +kernel
      rw [hr] at this; cases this
    | ok L =>
      have : (singularSequences tileMM).map (fun L => decide (L.map str).Nodup) = .ok true := by decide +kernel
      rw [hr] at this
      exact nr hb hr (by simpa [Except.map] using this)
  have hds : DisjointSums tileDiag := by
    cases hr : singularSequences tileDiag with
    | error e =>
      have : (singularSequences tileDiag).map (fun L => decide (L.map str).Nodup) = .ok true := by decide +kernel
      rw [hr] at this; cases this
    | ok L =>
      have : (singularSequences tileDiag).map (fun L => decide (L.map str).Nodup) = .ok true := by decide +kernel
      rw [hr] at this
      exact nr hs hr (by simpa [Except.map] using this)
  have wt := built_wf hb
  have ws := built_wf hs
  obtain ⟨tt, c, h1, h2, h3, h4, h5⟩ := made_2d tileRoot_made rfl wt
  have h1' : tables tileMM = .ok tt := h1
  obtain ⟨L, et⟩ := enum_exists wt
  obtain ⟨M, es⟩ := enum_exists ws
  have hperm : c.flat.Perm (L.map some) := by
    rcases tab_outcome wt with ⟨_, ⟨e, he⟩, _⟩ | ⟨_, hok⟩
    · rw [h1'] at he; cases he
    · obtain ⟨tt', h6, tok⟩ := hok hd L et
      rw [h1', Except.ok.injEq] at h6
      subst h6
      have := tok.cells
      rw [h2] at this
      simpa using this
  have hp := places_of hperm ((norep_iff wt et).2 hd) h5
  have hw : Within tileDiag tileMM := (contains_iff wt ws).1 (by decide +kernel)
  obtain ⟨co, hco, hn, ho⟩ := coords2 hp et es ((norep_iff ws es).2 hds) hw
  have hval : (do
      let tt ← tables tileMM
      let c ← first tt.cells
      let M ← singularSequences tileDiag
      let co ← M.mapM (indexOf2 c)
      return (co, c.n0, c.n1)) = .ok ([(0, 0), (1, 1), (2, 2)], 3, 3) := by decide +kernel
  rw [h1', es.run] at hval
  simp only [bind, Except.bind, h2, first, hco, pure, Except.pure, Except.ok.injEq, Prod.mk.injEq] at hval
  obtain ⟨rfl, e0, e1⟩ := hval
  refine ⟨tileRoot, tileDiag, c, tileRoot_made, hb, hd, hs, hds, ?_, by decide +kernel, ?_, ?_⟩
  · show (tables tileMM).map _ = _
    rw [h1']
    show Except.ok tt.cells = _
    rw [h2]
  · rintro (⟨I, hI⟩ | ⟨J, hJ⟩)
    · have a := (hI 0 0).1 ((ho 0 0).1 (by simp))
      have b := (ho 0 1).2 ((hI 0 1).2 ⟨by omega, by omega, a.2.2⟩)
      simp at b
    · have a := (hJ 0 0).1 ((ho 0 0).1 (by simp))
      have b := (ho 1 0).2 ((hJ 1 0).2 ⟨by omega, by omega, a.2.2⟩)
      simp at b
  · rintro ⟨I, J, hIJ, _⟩
    have a := (hIJ 0 0).1 ((ho 0 0).1 (by simp))
    have b := (hIJ 1 1).1 ((ho 1 1).1 (by simp))
    have d := (ho 0 1).2 ((hIJ 0 1).2 ⟨by omega, by omega, a.2.2.1, b.2.2.2⟩)
    simp at d

/-- **C86, what holds of the claim**: a paradigm whose places are some rows and some columns of the table is accepted exactly when it is made
of whole rows or columns, or is a block at equal distances.  Missing: other paradigms, for which the claim is false
(`C86_violated_diagonal`) and `C86_two` tells which are accepted. -/
theorem C86_two_partial {t : Table} {s : Script} (h : TableMade t) (hk : t.kind = .t2d) (hb : Built t.script) (hd : DisjointSums t.script)
    (hs : Built s) (hds : DisjointSums s) (hw : Within s t.script) (hr : ¬(t.rank ≠ 0 ∧ t.rank % 2 = 0)) :
    ∃ tt c, tables t.script = .ok tt ∧ tt.cells = [c] ∧
      ((∃ I J : Nat → Prop, ∀ i j, Occupied c s i j ↔ i < c.n0 ∧ j < c.n1 ∧ I i ∧ J j) →
        ((∃ b, t.accept s = .ok (true, b)) ↔ LinesOfTable c s ∨ BlockOf c s)) := by
  obtain ⟨tt, c, h1, h2, _, h4⟩ := C86_two h hk hb hd hs hds
  obtain ⟨⟨r1, r2⟩, h5, _, h6⟩ := h4 hw hr
  refine ⟨tt, c, h1, h2, ?_⟩
  rintro ⟨I, J, hIJ⟩
  have e : (∃ b, t.accept s = .ok (true, b)) ↔ r1 = true := by
    rw [h5]
    constructor
    · rintro ⟨b, hb⟩; cases hb; rfl
    · intro h; exact ⟨r2, by rw [h]⟩
  rw [e]
  refine h6.trans (or_congr_left ?_)
  have some : ∃ i j, Occupied c s i j := by
    by_contra hno
    simp only [not_exists] at hno
    have wt := built_wf hb
    obtain ⟨L, et⟩ := enum_exists wt
    obtain ⟨_, c', h1', h2', _, _, h5'⟩ := made_2d h hk wt
    rw [h1, Except.ok.injEq] at h1'
    subst h1'
    rw [h2, List.cons.injEq] at h2'
    obtain ⟨rfl, _⟩ := h2'
    have hperm : c.flat.Perm (L.map some) := by
      rcases tab_outcome wt with ⟨_, ⟨e, he⟩, _⟩ | ⟨_, hok⟩
      · rw [h1] at he; cases he
      · obtain ⟨tt', h6, tok⟩ := hok hd L et
        rw [h1, Except.ok.injEq] at h6
        subst h6
        have := tok.cells
        rw [h2] at this
        simpa using this
    obtain ⟨w, hsw⟩ := den_exists (built_wf hs)
    obtain ⟨x, hx, hxw⟩ := (et.den w).1 (hw.2 w hsw)
    obtain ⟨i, j, hi, hj, hg⟩ := (places_of hperm ((norep_iff wt et).2 hd) h5').each x hx
    exact hno i j ⟨hi, hj, x, w, hg, hxw, hsw⟩
  obtain ⟨i0, j0, h0⟩ := some
  have h0' := (hIJ i0 j0).1 h0
  constructor
  · rintro (ha | ha)
    · right
      refine ⟨J, fun i j => ?_⟩
      rw [hIJ]
      exact ⟨fun h => ⟨h.1, h.2.1, h.2.2.2⟩, fun h => ⟨h.1, h.2.1, by
        obtain ⟨j', hj'⟩ := ha i h.1
        exact ((hIJ i j').1 hj').2.2.1, h.2.2⟩⟩
    · left
      refine ⟨I, fun i j => ?_⟩
      rw [hIJ]
      exact ⟨fun h => ⟨h.1, h.2.1, h.2.2.1⟩, fun h => ⟨h.1, h.2.1, h.2.2, by
        obtain ⟨i', hi'⟩ := ha j h.2.1
        exact ((hIJ i' j).1 hi').2.2.2⟩⟩
  · rintro (⟨I', hI⟩ | ⟨J', hJ⟩)
    · right
      intro j hj
      exact ⟨i0, (hI _ _).2 ⟨h0'.1, hj, ((hI _ _).1 h0).2.2⟩⟩
    · left
      intro i hi
      exact ⟨j0, (hJ _ _).2 ⟨hi, h0'.2.1, ((hJ _ _).1 h0).2.2⟩⟩

/-- `O:U:.+M:A:.`, two tables of one dimension, and `O:O:O:.`, a table of three dimensions. -/
def tileSet : Script :=
  .add [.mult (.add [.prim .U, .prim .A]) (.prim .U) (.null 0), .mult (.add [.prim .S, .prim .B, .prim .T]) (.prim .A) (.null 0)]

def tileCube : Script := .mult (.add [.prim .U, .prim .A]) (.add [.prim .U, .prim .A]) (.add [.prim .U, .prim .A])

def tileM : Script := .add [.prim .S, .prim .B, .prim .T]

theorem made_of {s : Script} {k : TableKind} (h : (mkRoot s).map (fun t => t.kind) = .ok k) : TableMade (.root s k) := by
  left
  show mkRoot s = _
  cases hm : mkRoot s with
  | error e => rw [hm] at h; cases h
  | ok t =>
    rw [hm] at h
    obtain ⟨k', rfl, _⟩ := mkRoot_inv hm
    have hk : k' = k := by simpa [Except.map, Table.kind] using h
    rw [hk]

-- The hypotheses of `C86_one`: `S:+B:` is accepted in `M:`, `S:+T:` is not.
example : TableMade (.root tileM .t1d) ∧ Built tileM ∧ Built (.add [.prim .S, .prim .T]) ∧
    (Table.root tileM .t1d).accept (.add [.prim .S, .prim .B]) = .ok (true, true) ∧
    (Table.root tileM .t1d).accept (.add [.prim .S, .prim .T]) = .ok (false, false) :=
  ⟨made_of (by decide +kernel), built_of (by decide +kernel), built_of (by decide +kernel), by decide +kernel, by decide +kernel⟩

-- The hypotheses of `C86_set`: one of the tables is accepted, half of it is not; a page of a cube is accepted, a row is not.
example : TableMade (.root tileSet .set) ∧ TableMade (.root tileCube .t3d) ∧ Built tileSet ∧ Built tileCube ∧
    (Table.root tileSet .set).accept (.mult tileM (.prim .A) (.null 0)) = .ok (true, false) ∧
    (Table.root tileSet .set).accept (.mult (.add [.prim .S, .prim .B]) (.prim .A) (.null 0)) = .ok (false, false) ∧
    (Table.root tileCube .t3d).accept (.mult (.add [.prim .U, .prim .A]) (.add [.prim .U, .prim .A]) (.prim .U)) = .ok (true, false) ∧
    (Table.root tileCube .t3d).accept (.mult (.add [.prim .U, .prim .A]) (.prim .U) (.prim .U)) = .ok (false, false) :=
  ⟨made_of (by decide +kernel), made_of (by decide +kernel), built_of (by decide +kernel), built_of (by decide +kernel), by decide +kernel,
    by decide +kernel, by decide +kernel, by decide +kernel⟩

/-! ### Positions -/

/-- **C86**, `index_of`: in a table without repeated words, the position of a script is the only one that holds its text; a script that is no
cell gives `KeyError`. -/
theorem C86_index {t : Table} (h : TableMade t) (hk : t.kind = .t2d) (hb : Built t.script) (hd : DisjointSums t.script) (x : Script) :
    ∃ tt c, tables t.script = .ok tt ∧ tt.cells = [c] ∧
      (∀ i j, indexOf2 c x = .ok (i, j) ↔ i < c.n0 ∧ j < c.n1 ∧ ∃ y, c.get i j 0 = some y ∧ y.str = x.str) ∧
      ((∀ i j, i < c.n0 → j < c.n1 → ∀ y, c.get i j 0 = some y → y.str ≠ x.str) → indexOf2 c x = .error .keyError) := by
  have wt := built_wf hb
  obtain ⟨tt, c, h1, h2, h3, h4, h5⟩ := made_2d h hk wt
  obtain ⟨L, et⟩ := enum_exists wt
  have hperm : c.flat.Perm (L.map some) := by
    rcases tab_outcome wt with ⟨_, ⟨e, he⟩, _⟩ | ⟨_, hok⟩
    · rw [h1] at he; cases he
    · obtain ⟨tt', h6, tok⟩ := hok hd L et
      rw [h1, Except.ok.injEq] at h6
      subst h6
      have := tok.cells
      rw [h2] at this
      simpa using this
  have hp := places_of hperm ((norep_iff wt et).2 hd) h5
  have found : ∀ p, indexOf2 c x = .ok p → p.1 < c.n0 ∧ p.2 < c.n1 ∧ ∃ y, c.get p.1 p.2 0 = some y ∧ y.str = x.str := by
    intro p hi
    unfold indexOf2 at hi
    split at hi
    · rename_i q hf
      rw [Except.ok.injEq] at hi
      subst hi
      have g1 : q.1 < c.n0 ∧ q.2 < c.n1 := by
        have := List.mem_of_find?_eq_some hf
        rw [List.mem_reverse, List.mem_flatMap] at this
        obtain ⟨i, hi, this⟩ := this
        obtain ⟨j, hj, rfl⟩ := List.mem_map.1 this
        exact ⟨List.mem_range.1 hi, List.mem_range.1 hj⟩
      have g2 := List.find?_some hf
      obtain ⟨z, _, ez⟩ := hp.full g1.1 g1.2
      simp only [ez] at g2
      exact ⟨g1.1, g1.2, z, ez, by simpa [pyEq] using g2⟩
    · cases hi
  refine ⟨tt, c, h1, h2, fun i j => ⟨fun h => found _ h, fun ⟨hi, hj, y, hy, hs⟩ => indexOf2_ok hp hi hj hy hs⟩, fun hno => ?_⟩
  cases hx : indexOf2 c x with
  | ok p =>
    obtain ⟨g1, g2, y, g3, g4⟩ := found p hx
    exact absurd g4 (hno _ _ g1 g2 y g3)
  | error e =>
    unfold indexOf2 at hx
    split at hx
    · cases hx
    · rw [Except.error.injEq] at hx
      rw [hx]

end Verif
