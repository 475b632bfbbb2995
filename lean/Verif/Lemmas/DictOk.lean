import Verif.Lemmas.Reading

/-
Lemmas on built dictionaries.
-/

namespace Verif
open Script

/-! ### Positions -/

theorem seqIndex_inv {ss : List Script} {x : Script} {i : Nat} (h : seqIndex ss x = .ok i) :
    ∃ y, ss[i]? = some y ∧ y.str = x.str ∧ ∀ j z, ss[j]? = some z → z.str = x.str → j ≤ i := by
  unfold seqIndex at h
  split at h
  · rename_i p hp
    rw [Except.ok.injEq] at h
    subst h
    have h1 := List.mem_reverse.1 (List.mem_of_find?_eq_some hp)
    have h2 := List.find?_some hp
    obtain ⟨y, i⟩ := p
    rw [List.mem_zipIdx_iff_getElem?] at h1
    refine ⟨y, h1, by simpa [pyEq] using h2, fun j z hz hzx => ?_⟩
    by_contra hji
    -- the entry `j` comes before in the reversed list
    obtain ⟨hp1, as, bs, hab, hno⟩ := List.find?_eq_some_iff_append.1 hp
    have hrev : ss.zipIdx = bs.reverse ++ (y, i) :: as.reverse := by
      have := congrArg List.reverse hab
      simpa using this
    have hmem : (z, j) ∈ ss.zipIdx := List.mem_zipIdx_iff_getElem?.2 hz
    have hlt : (ss.zipIdx.map Prod.snd).Pairwise (· < ·) := by
      rw [List.zipIdx_map_snd]
      exact List.pairwise_lt_range'
    rw [hrev] at hmem hlt
    rw [List.mem_append, List.mem_cons, List.mem_reverse, List.mem_reverse] at hmem
    rcases hmem with hm | hm | hm
    · rw [List.map_append, List.map_cons, List.pairwise_append] at hlt
      have := hlt.2.2 j (List.mem_map.2 ⟨(z, j), by simpa using hm, rfl⟩) i (by simp)
      simp only at hji; omega
    · rw [Prod.mk.injEq] at hm; simp only at hji; omega
    · have := hno _ hm
      simp [pyEq, hzx] at this
  · cases h

theorem seqIndex_isOk {ss : List Script} {x : Script} : (∃ i, seqIndex ss x = .ok i) ↔ ∃ y ∈ ss, y.str = x.str := by
  constructor
  · rintro ⟨i, h⟩
    obtain ⟨y, h1, h2, _⟩ := seqIndex_inv h
    exact ⟨y, List.mem_of_getElem? h1, h2⟩
  · rintro ⟨y, hy, h⟩
    unfold seqIndex
    split
    · exact ⟨_, rfl⟩
    · rename_i hn
      rw [List.find?_eq_none] at hn
      obtain ⟨i, hi, rfl⟩ := List.mem_iff_getElem.1 hy
      have := hn (ss[i], i) (by rw [List.mem_reverse, List.mem_zipIdx_iff_getElem?]; simp [hi])
      simp [pyEq, h] at this

theorem seqIndex_congr {ss : List Script} {x y : Script} (h : x.str = y.str) : seqIndex ss x = seqIndex ss y := by
  unfold seqIndex pyEq
  rw [h]

theorem seqIndex_eq {ss : List Script} {x y : Script} {i : Nat} (h : seqIndex ss x = .ok i) : seqIndex ss y = .ok i ↔ x.str = y.str := by
  constructor
  · intro h'
    obtain ⟨u, h1, h2, _⟩ := seqIndex_inv h
    obtain ⟨v, h3, h4, _⟩ := seqIndex_inv h'
    rw [h1, Option.some.injEq] at h3
    rw [← h2, h3, h4]
  · intro e
    rw [← seqIndex_congr e, h]

/-! ### Relations -/

/-- The relations come from the computations. -/
structure RelOk (b : DictBase) (rel : Rel → List (Nat × Nat)) : Prop where
  contains : b.contains = .ok (rel .contains)
  contained : rel .contained = transpose (rel .contains)
  father : ∀ r : Fin 3, b.father r.val (fatherName r) = .ok (rel (.father r))
  child : ∀ r, rel (.child r) = transpose (rel (.father r))
  sibling : ∀ k, b.siblings k = .ok (rel (.sibling k))
  table : ∃ ranks, b.tableRank (rel .contains) = .ok ranks ∧ ∀ k : Fin 6, rel (.table k) = (ranks.filter fun e => e.1 = k.val).map (·.2)
  identity : rel .identity = (List.range b.scripts.length).map fun i => (i, i)

theorem computeRelations_inv {b : DictBase} {rel : Rel → List (Nat × Nat)} (h : computeRelations b = .ok rel) : RelOk b rel := by
  unfold computeRelations at h
  rw [bind_ok] at h
  obtain ⟨c, hc, h⟩ := h
  rw [bind_ok] at h
  obtain ⟨f0, h0, h⟩ := h
  rw [bind_ok] at h
  obtain ⟨f1, h1, h⟩ := h
  rw [bind_ok] at h
  obtain ⟨f2, h2, h⟩ := h
  rw [bind_ok] at h
  obtain ⟨s0, h3, h⟩ := h
  rw [bind_ok] at h
  obtain ⟨s1, h4, h⟩ := h
  rw [bind_ok] at h
  obtain ⟨s2, h5, h⟩ := h
  rw [bind_ok] at h
  obtain ⟨s3, h6, h⟩ := h
  rw [bind_ok] at h
  obtain ⟨ranks, h7, h⟩ := h
  rw [pure_ok] at h
  subst h
  refine ⟨hc, rfl, fun r => ?_, fun r => rfl, fun k => ?_, ⟨ranks, h7, fun k => rfl⟩, rfl⟩
  · match r with
    | 0 => exact h0
    | 1 => exact h1
    | 2 => exact h2
  · cases k
    · exact h3
    · exact h4
    · exact h5
    · exact h6

theorem computeRelations_ok {b : DictBase} {c : List (Nat × Nat)} (hc : b.contains = .ok c)
    (hf : ∀ r : Fin 3, ∃ l, b.father r.val (fatherName r) = .ok l) (hs : ∀ k, ∃ l, b.siblings k = .ok l)
    (ht : ∃ l, b.tableRank c = .ok l) : ∃ rel, computeRelations b = .ok rel := by
  obtain ⟨f0, h0⟩ := hf 0
  obtain ⟨f1, h1⟩ := hf 1
  obtain ⟨f2, h2⟩ := hf 2
  obtain ⟨s0, h3⟩ := hs .opposed
  obtain ⟨s1, h4⟩ := hs .associated
  obtain ⟨s2, h5⟩ := hs .crossed
  obtain ⟨s3, h6⟩ := hs .twin
  obtain ⟨l, h7⟩ := ht
  unfold computeRelations
  simp only [Fin.isValue, Fin.val_zero, Fin.val_one, Fin.val_two] at h0 h1 h2
  rw [hc, h0, h1, h2, h3, h4, h5, h6]
  simp only [bind, Except.bind, h7]
  exact ⟨_, rfl⟩

/-- What holds of the scripts, of the tables and of the relation `contains` of a dictionary; `sorted` are the scripts before the
removal of the paradigms without table. -/
structure BaseOk (d : Dictionary) (sorted : List Script) : Prop where
  rootWf : ∀ r ∈ d.roots, WF r
  apart : d.roots.Pairwise Apart
  wf : ∀ s ∈ sorted, WF s
  tabs : List.Forall₂ (fun r e => e.1 = r ∧ TabsOf sorted r e.2) d.roots d.base.tables.roots
  scripts : ∀ s, s ∈ d.base.scripts ↔ s ∈ sorted ∧ (s.cardinal = 1 ∨ (d.base.tables.get? s).isSome)
  contains : d.base.contains = .ok (d.relation .contains)

/-- What holds of a built dictionary. -/
structure DictOk (d : Dictionary) (sorted : List Script) : Prop extends BaseOk d sorted where
  rootIndex : ∀ r ∈ d.roots, ∃ i, d.base.index r = .ok i
  rel : RelOk d.base d.relation

theorem mkDictionary_inv {o : SetOrder} (ho : o.Valid) {ks : List Str} {rows : List (Str × Str × Str)} {d : Dictionary}
    (h : mkDictionary o ks rows = .ok d) :
    ∃ st, readDictionary ks rows = .ok st ∧ DictOk d (pySort lt (st.scripts.map (·.2))) ∧ d.roots = st.roots ∧
      d.base.inhibitions = st.inhibitions ∧ d.base.scripts.Sublist (pySort lt (st.scripts.map (·.2))) := by
  unfold mkDictionary at h
  rw [bind_ok] at h
  obtain ⟨st, h1, h⟩ := h
  rw [bind_ok] at h
  obtain ⟨base, h2, h⟩ := h
  rw [bind_ok] at h
  obtain ⟨ix, h3, h⟩ := h
  rw [bind_ok] at h
  obtain ⟨rel, h4, h⟩ := h
  rw [pure_ok] at h
  subst h
  refine ⟨st, h1, ?_⟩
  obtain ⟨st0, fs, hok, hap, -, -, -, out, hout, k1, k2, k3, k4, k5⟩ := readDictionary_inv h1
  have hroots : ∀ r ∈ st.roots, WF r := fun r hr => hok.roots r (k3.subset hr)
  have hwf : ∀ s ∈ pySort lt (st.scripts.map (·.2)), WF s := by
    intro s hs
    have := (mem_pySort (lt := lt)).1 hs
    obtain ⟨e, he, rfl⟩ := List.mem_map.1 this
    exact hok.wf e ((k1 e).1 he).1
  unfold dictionaryBase at h2
  simp only [] at h2
  rw [bind_ok] at h2
  obtain ⟨x, h5, h2⟩ := h2
  rw [pure_ok] at h2
  subst h2
  refine ⟨⟨⟨hroots, hap.sublist k3, hwf, buildTables_inv ho hroots hwf h5, ?_, (computeRelations_inv h4).contains⟩, ?_,
    computeRelations_inv h4⟩, rfl, rfl,
    List.filter_sublist⟩
  · intro s
    simp [List.mem_filter]
  · intro r hr
    obtain ⟨i, _, hi⟩ := mapM_each h3 hr
    exact ⟨i, hi⟩

namespace DictOk
variable {d : Dictionary} {sorted : List Script}

theorem get?_some {x : TableStructure} {s : Script} {t : Table} (h : x.get? s = some t) : t ∈ x.all ∧ t.script.str = s.str := by
  unfold TableStructure.get? at h
  exact ⟨List.mem_reverse.1 (List.mem_of_find?_eq_some h), by simpa [pyEq] using List.find?_some h⟩

theorem get?_isSome {x : TableStructure} {s : Script} : (x.get? s).isSome ↔ ∃ t ∈ x.all, t.script.str = s.str := by
  unfold TableStructure.get?
  rw [List.find?_isSome]
  simp [pyEq]

theorem mem_all {x : TableStructure} {t : Table} : t ∈ x.all ↔ ∃ e ∈ x.roots, t ∈ e.2 := by
  simp [TableStructure.all, List.mem_flatMap]

/-- The tables of a root. -/
theorem _root_.Verif.BaseOk.tabs_of (h : BaseOk d sorted) {e : Script × List Table} (he : e ∈ d.base.tables.roots) :
    e.1 ∈ d.roots ∧ TabsOf sorted e.1 e.2 := by
  obtain ⟨r, hr, h1, h2⟩ := forall₂_mem_right h.tabs he
  subst h1
  exact ⟨hr, h2⟩

theorem _root_.Verif.BaseOk.tabs_root (h : BaseOk d sorted) {r : Script} (hr : r ∈ d.roots) : ∃ e ∈ d.base.tables.roots, e.1 = r := by
  obtain ⟨e, he, h1, _⟩ := forall₂_mem_left h.tabs hr
  exact ⟨e, he, h1⟩

theorem pairwise_mem {α : Type} {R : α → α → Prop} {l : List α} (hs : ∀ a b, R a b → R b a) (h : l.Pairwise R) {a b : α} (ha : a ∈ l)
    (hb : b ∈ l) (hne : a ≠ b) : R a b := by
  induction l with
  | nil => cases ha
  | cons x l ih =>
    rw [List.pairwise_cons] at h
    rcases List.mem_cons.1 ha with e | ha' <;> rcases List.mem_cons.1 hb with e' | hb'
    · exact absurd (e.trans e'.symm) hne
    · exact e ▸ h.1 b hb'
    · exact e' ▸ hs _ _ (h.1 a ha')
    · exact ih h.2 ha' hb'

/-- Roots that share a word are the same. -/
theorem _root_.Verif.BaseOk.root_unique (h : BaseOk d sorted) {r r' : Script} (hr : r ∈ d.roots) (hr' : r' ∈ d.roots) {w : Word}
    (hw : Den r w) (hw' : Den r' w) : r = r' := by
  by_contra hne
  exact pairwise_mem (fun a b h w hw => h w hw.symm) h.apart hr hr' hne w ⟨hw, hw'⟩

theorem _root_.Verif.BaseOk.roots_map (h : BaseOk d sorted) : d.base.tables.roots.map (·.1) = d.roots := by
  have := h.tabs
  generalize d.base.tables.roots = l at this
  generalize d.roots = m at this
  induction this with
  | nil => rfl
  | cons h1 _ ih => rw [List.map_cons, ih, h1.1]

/-- The tables of a root are unique. -/
theorem _root_.Verif.BaseOk.tabs_unique (h : BaseOk d sorted) {e e' : Script × List Table} (he : e ∈ d.base.tables.roots) (he' : e' ∈ d.base.tables.roots)
    {w : Word} (hw : Den e.1 w) (hw' : Den e'.1 w) : e = e' := by
  have h1 := h.root_unique (h.tabs_of he).1 (h.tabs_of he').1 hw hw'
  have hnd : (d.base.tables.roots.map (·.1)).Nodup := by
    rw [h.roots_map]
    refine List.Pairwise.imp_of_mem ?_ h.apart
    intro a b ha _ hab e
    obtain ⟨w, hw⟩ := den_exists (h.rootWf a ha)
    exact hab w ⟨hw, e ▸ hw⟩
  exact List.inj_on_of_nodup_map hnd he he' h1

/-- A script with several words kept in the dictionary has a table. -/
theorem _root_.Verif.BaseOk.plural_table (h : BaseOk d sorted) {s : Script} (hs : s ∈ d.base.scripts) (hc : s.cardinal ≠ 1) :
    ∃ e ∈ d.base.tables.roots, ∃ t ∈ e.2, t.script.str = s.str := by
  rcases ((h.scripts s).1 hs).2 with h1 | h1
  · exact absurd h1 hc
  · obtain ⟨t, ht, hts⟩ := get?_isSome.1 h1
    obtain ⟨e, he, hte⟩ := mem_all.1 ht
    exact ⟨e, he, t, hte, hts⟩

theorem _root_.Verif.BaseOk.script_wf (h : BaseOk d sorted) {s : Script} (hs : s ∈ d.base.scripts) : WF s := h.wf s ((h.scripts s).1 hs).1

/-! ### Pairs of tables -/

theorem mem_pairs {α : Type} {l : List α} {p : α × α} (h : p ∈ DictBase.pairs l) : p.1 ∈ l ∧ p.2 ∈ l := by
  induction l with
  | nil => cases h
  | cons x l ih =>
    simp only [DictBase.pairs, List.mem_append, List.mem_map] at h
    rcases h with ⟨y, hy, rfl⟩ | h
    · exact ⟨by simp, by simp [hy]⟩
    · have := ih h; exact ⟨by simp [this.1], by simp [this.2]⟩

theorem pairwise_pairs {α : Type} {R : α → α → Prop} {l : List α} : l.Pairwise R ↔ ∀ p ∈ DictBase.pairs l, R p.1 p.2 := by
  induction l with
  | nil => simp [DictBase.pairs]
  | cons x l ih =>
    simp only [DictBase.pairs, List.pairwise_cons, List.mem_append, List.mem_map, or_imp, forall_and, ih]
    simp

theorem pairs_total {α : Type} {l : List α} {a b : α} (ha : a ∈ l) (hb : b ∈ l) (hne : a ≠ b) :
    (a, b) ∈ DictBase.pairs l ∨ (b, a) ∈ DictBase.pairs l := by
  have : l.Pairwise fun a b => (a, b) ∈ DictBase.pairs l := pairwise_pairs.2 fun p hp => hp
  exact pairwise_mem (R := fun a b => (a, b) ∈ DictBase.pairs l ∨ (b, a) ∈ DictBase.pairs l) (fun a b h => h.symm)
    (this.imp fun h => .inl h) ha hb hne

theorem pairs_cover {α : Type} {l : List α} (hl : 2 ≤ l.length) {a : α} (ha : a ∈ l) :
    ∃ p ∈ DictBase.pairs l, p.1 = a ∨ p.2 = a := by
  match l, hl with
  | x :: y :: l, _ =>
    rcases List.mem_cons.1 ha with rfl | ha
    · exact ⟨(a, y), by simp [DictBase.pairs], .inl rfl⟩
    · exact ⟨(x, a), by
        rw [DictBase.pairs, List.mem_append, List.mem_map]
        exact .inl ⟨a, ha, rfl⟩, .inr rfl⟩

/-- The pairs of tables are all processed. -/
theorem rankPairs (h : DictOk d sorted) {e : Script × List Table} (he : e ∈ d.base.tables.roots) {p : Table × Table}
    (hp : p ∈ DictBase.pairs e.2) : ∃ x, d.base.rankPair (d.relation .contains) p = .ok x := by
  obtain ⟨ranks, h1, _⟩ := h.rel.table
  unfold DictBase.tableRank at h1
  rw [bind_ok] at h1
  obtain ⟨l, h2, _⟩ := h1
  obtain ⟨x, _, hx⟩ := mapM_each h2 (List.mem_flatMap.2 ⟨e, he, hp⟩)
  exact ⟨x, hx⟩

theorem rankPair_inv {b : DictBase} {c : List (Nat × Nat)} {p : Table × Table} {x : List (Nat × Nat × Nat) × List Nat}
    (h : b.rankPair c p = .ok x) : ∃ i0 i1 ranks, b.index p.1.script = .ok i0 ∧ b.index p.2.script = .ok i1 ∧
      b.ranksOf ((DictBase.containers c i0).filter fun i => (DictBase.containers c i1).contains i) = .ok ranks ∧
      DictBase.rankEntries ranks [(i0, i1), (i1, i0)] = .ok x.1 ∧ x.2 = ranks := by
  unfold DictBase.rankPair at h
  rw [bind_ok] at h
  obtain ⟨i0, h1, h⟩ := h
  rw [bind_ok] at h
  obtain ⟨i1, h2, h⟩ := h
  rw [bind_ok] at h
  obtain ⟨ranks, h3, h⟩ := h
  rw [bind_ok] at h
  obtain ⟨es, h4, h⟩ := h
  rw [pure_ok] at h
  subst h
  exact ⟨i0, i1, ranks, h1, h2, h3, h4, rfl⟩

theorem rankEntries_inv {ranks : List Nat} {ps : List (Nat × Nat)} {x : List (Nat × Nat × Nat)}
    (h : DictBase.rankEntries ranks ps = .ok x) : (∀ r ∈ ranks, r < 6) ∧ ∀ e, e ∈ x ↔ e.1 ∈ ranks ∧ e.2 ∈ ps := by
  unfold DictBase.rankEntries at h
  rw [bind_ok] at h
  obtain ⟨l, h1, h⟩ := h
  rw [pure_ok] at h
  subst h
  have h6 : ∀ r ∈ ranks, r < 6 := by
    intro r hr
    obtain ⟨y, _, hy⟩ := mapM_each h1 hr
    split at hy
    · assumption
    · cases hy
  refine ⟨h6, fun e => ?_⟩
  rw [List.mem_flatten]
  constructor
  · rintro ⟨y, hy, he⟩
    obtain ⟨r, hr, hy⟩ := (mapM_mem h1).1 hy
    rw [if_pos (h6 r hr), Except.ok.injEq] at hy
    subst hy
    rw [List.mem_map] at he
    obtain ⟨p, hp, rfl⟩ := he
    exact ⟨hr, hp⟩
  · rintro ⟨h2, h3⟩
    refine ⟨ps.map fun p => (e.1, p.1, p.2), (mapM_mem h1).2 ⟨e.1, h2, by rw [if_pos (h6 _ h2)]⟩, ?_⟩
    rw [List.mem_map]
    exact ⟨e.2, h3, rfl⟩

theorem _root_.Verif.BaseOk.two_tables (h : BaseOk d sorted) {e : Script × List Table} (he : e ∈ d.base.tables.roots) : 2 ≤ e.2.length := by
  obtain ⟨k, us, hp, hu⟩ := (h.tabs_of he).2.root
  rw [hp.length_eq, List.length_cons]
  have := List.length_pos_iff.2 hu
  omega

/-- Every table has a script of the dictionary. -/
theorem indexed (h : DictOk d sorted) {e : Script × List Table} (he : e ∈ d.base.tables.roots) {t : Table} (ht : t ∈ e.2) :
    ∃ i, d.base.index t.script = .ok i := by
  obtain ⟨p, hp, hpt⟩ := pairs_cover (h.two_tables he) ht
  obtain ⟨x, hx⟩ := h.rankPairs he hp
  obtain ⟨i0, i1, _, h0, h1, _⟩ := rankPair_inv hx
  rcases hpt with rfl | rfl
  · exact ⟨i0, h0⟩
  · exact ⟨i1, h1⟩

theorem index_inv {b : DictBase} {x : Script} {i : Nat} (h : b.index x = .ok i) : ∃ y ∈ b.scripts, b.scripts[i]? = some y ∧ y.str = x.str := by
  obtain ⟨y, h1, h2, _⟩ := seqIndex_inv h
  exact ⟨y, List.mem_of_getElem? h1, h1, h2⟩

/-! ### The relation `contains` -/

theorem _root_.Verif.BaseOk.contains_mem (h : BaseOk d sorted) {i j : Nat} : (i, j) ∈ d.relation .contains ↔
    (i = j ∧ i < d.base.scripts.length) ∨ ∃ e ∈ d.base.tables.roots, ∃ p ∈ e.2, p.script.cardinal ≠ 1 ∧ d.base.index p.script = .ok i ∧
      ((∃ L, Enum p.script L ∧ ∃ q ∈ L, d.base.index q = .ok j) ∨
       ∃ k ∈ e.2, k.script.cardinal ≠ 1 ∧ Within k.script p.script ∧ d.base.index k.script = .ok j) := by
  have hc := h.contains
  unfold DictBase.contains at hc
  rw [bind_ok] at hc
  obtain ⟨rs, h1, hc⟩ := hc
  rw [pure_ok] at hc
  rw [← hc, List.mem_append, List.mem_map, List.mem_flatten]
  have hpar : ∀ e ∈ d.base.tables.roots, ∀ t ∈ e.2, (t.script.paradigm = true ↔ t.script.cardinal ≠ 1) := by
    intro e he t ht
    have := (h.tabs_of he).2.wf t ht
    rw [paradigm_iff this]
    have := cardinal_pos this
    omega
  apply or_congr
  · constructor
    · rintro ⟨a, ha, hab⟩
      rw [Prod.mk.injEq] at hab
      rw [List.mem_range] at ha
      exact ⟨hab.1.symm.trans hab.2, hab.1 ▸ ha⟩
    · rintro ⟨rfl, hi⟩
      exact ⟨i, List.mem_range.2 hi, rfl⟩
  · -- one root
    have one : ∀ {ps : List Table} {p : Table} {l : List (Nat × Nat)}, (∀ t ∈ ps, WF t.script) → WF p.script →
        d.base.containsOf ps p = .ok l → ((i, j) ∈ l ↔ d.base.index p.script = .ok i ∧
          ((∃ L, Enum p.script L ∧ ∃ q ∈ L, d.base.index q = .ok j) ∨
           ∃ k ∈ ps, Within k.script p.script ∧ d.base.index k.script = .ok j)) := by
      intro ps p l hps hp hl
      unfold DictBase.containsOf at hl
      rw [bind_ok] at hl
      obtain ⟨L, hL, hl⟩ := hl
      rw [bind_ok] at hl
      obtain ⟨ss, hss, hl⟩ := hl
      rw [bind_ok] at hl
      obtain ⟨ks, hks, hl⟩ := hl
      rw [bind_ok] at hl
      obtain ⟨ks', hks', hl⟩ := hl
      rw [bind_ok] at hl
      obtain ⟨i', hi', hl⟩ := hl
      rw [pure_ok] at hl
      subst hl
      have eL := enum_of_run hp hL
      rw [List.mem_map]
      simp only [Prod.mk.injEq, List.mem_append, mapM_mem hss, mapM_mem hks', (filterM_inv hks).2]
      constructor
      · rintro ⟨j', hj', rfl, rfl⟩
        refine ⟨hi', ?_⟩
        rcases hj' with ⟨q, hq, hqj⟩ | ⟨k, ⟨hk, hck⟩, hkj⟩
        · exact .inl ⟨L, eL, q, hq, hqj⟩
        · exact .inr ⟨k, hk, (contains_iff hp (hps k hk)).1 hck, hkj⟩
      · rintro ⟨hi, hj⟩
        rw [hi', Except.ok.injEq] at hi
        refine ⟨j, ?_, hi, rfl⟩
        rcases hj with ⟨L', e', q, hq, hqj⟩ | ⟨k, hk, hck, hkj⟩
        · rw [enum_unique e' eL] at hq
          exact .inl ⟨q, hq, hqj⟩
        · exact .inr ⟨k, ⟨hk, (contains_iff hp (hps k hk)).2 hck⟩, hkj⟩
    constructor
    · rintro ⟨l, hl, hij⟩
      obtain ⟨e, he, hel⟩ := (mapM_mem h1).1 hl
      rw [bind_ok] at hel
      obtain ⟨ls, hls, hel⟩ := hel
      rw [pure_ok] at hel
      subst hel
      obtain ⟨l', hl', hij⟩ := List.mem_flatten.1 hij
      obtain ⟨p, hp, hpl⟩ := (mapM_mem hls).1 hl'
      rw [List.mem_filter] at hp
      have hw := (h.tabs_of he).2.wf
      have := (one (fun t ht => hw t (List.mem_filter.1 ht).1) (hw p hp.1) hpl).1 hij
      refine ⟨e, he, p, hp.1, (hpar e he p hp.1).1 hp.2, this.1, this.2.imp id ?_⟩
      rintro ⟨k, hk, h1, h2⟩
      rw [List.mem_filter] at hk
      exact ⟨k, hk.1, (hpar e he k hk.1).1 hk.2, h1, h2⟩
    · rintro ⟨e, he, p, hp, hpc, hpi, hj⟩
      obtain ⟨l, hl, hel⟩ := mapM_each h1 he
      refine ⟨l, hl, ?_⟩
      rw [bind_ok] at hel
      obtain ⟨ls, hls, hel⟩ := hel
      rw [pure_ok] at hel
      subst hel
      have hp' : p ∈ e.2.filter fun t => t.script.paradigm := List.mem_filter.2 ⟨hp, (hpar e he p hp).2 hpc⟩
      obtain ⟨l', hl', hpl⟩ := mapM_each hls hp'
      refine List.mem_flatten.2 ⟨l', hl', ?_⟩
      have hw := (h.tabs_of he).2.wf
      refine (one (fun t ht => hw t (List.mem_filter.1 ht).1) (hw p hp) hpl).2 ⟨hpi, hj.imp id ?_⟩
      rintro ⟨k, hk, h0, h1, h2⟩
      exact ⟨k, List.mem_filter.2 ⟨hk, (hpar e he k hk).2 h0⟩, h1, h2⟩

/-- For scripts of the dictionary, `contains` is the inclusion of the words. -/
theorem _root_.Verif.BaseOk.contains_within (h : BaseOk d sorted) {a b : Script} (ha : a ∈ d.base.scripts) (hb : b ∈ d.base.scripts) {i j : Nat}
    (hi : d.base.index a = .ok i) (hj : d.base.index b = .ok j) : (i, j) ∈ d.relation .contains ↔ Within b a := by
  have wa := h.script_wf ha
  have wb := h.script_wf hb
  rw [h.contains_mem]
  constructor
  · rintro (⟨rfl, _⟩ | ⟨e, he, p, hp, hpc, hpi, hq⟩)
    · exact within_of_str wb wa ((seqIndex_eq hj).1 hi)
    · have wp := (h.tabs_of he).2.wf p hp
      have hpa := within_of_str wp wa ((seqIndex_eq hpi).1 hi)
      rcases hq with ⟨L, e', q, hq, hqj⟩ | ⟨k, hk, hkc, hkp, hkj⟩
      · have hbq := within_of_str wb (e'.wf q hq) ((seqIndex_eq hj).1 hqj)
        exact hbq.trans (Within.trans ⟨e'.layer q hq, fun w hw => (e'.den w).2 ⟨q, hq, hw⟩⟩ hpa)
      · have hbk := within_of_str wb ((h.tabs_of he).2.wf k hk) ((seqIndex_eq hj).1 hkj)
        exact hbk.trans (hkp.trans hpa)
  · intro hba
    by_cases hca : a.cardinal = 1
    · -- a singular script only contains itself
      refine .inl ?_
      have hcb : b.cardinal = 1 := by
        by_contra hcb
        obtain ⟨u, v, hu, hv, hne⟩ := two_words wb (by have := cardinal_pos wb; omega)
        exact hne (den_unique wa hca (hba.2 u hu) (hba.2 v hv))
      obtain ⟨w, hw⟩ := den_exists wb
      have hs := str_of_word' wb wa hcb hca hw (hba.2 w hw)
      have := (seqIndex_eq hj).2 hs
      rw [show seqIndex d.base.scripts a = .ok i from hi, Except.ok.injEq] at this
      refine ⟨this, ?_⟩
      obtain ⟨y, h1, _, _⟩ := seqIndex_inv hi
      exact (List.getElem?_eq_some_iff.1 h1).1
    · obtain ⟨e, he, p, hp, hpa⟩ := h.plural_table ha hca
      have wp := (h.tabs_of he).2.wf p hp
      have hpc : p.script.cardinal ≠ 1 := by rw [cardinal_of_str wp wa hpa]; exact hca
      refine .inr ⟨e, he, p, hp, hpc, (seqIndex_eq hi).2 hpa.symm, ?_⟩
      have hap := within_of_str wa wp hpa.symm
      have hbp := hba.trans hap
      by_cases hcb : b.cardinal = 1
      · obtain ⟨L, eL⟩ := enum_exists wp
        obtain ⟨w, hw⟩ := den_exists wb
        obtain ⟨q, hq, hqw⟩ := (eL.den w).1 (hbp.2 w hw)
        exact .inl ⟨L, eL, q, hq, (seqIndex_eq hj).2 (str_of_word' wb (eL.wf q hq) hcb (eL.one q hq) hw hqw)⟩
      · obtain ⟨e', he', k, hk, hkb⟩ := h.plural_table hb hcb
        have wk := (h.tabs_of he').2.wf k hk
        have hkp := (within_of_str wk wb hkb).trans hbp
        obtain ⟨w, hw⟩ := den_exists wk
        have hee := h.tabs_unique he' he (((h.tabs_of he').2.within k hk).2 w hw) (((h.tabs_of he).2.within p hp).2 w (hkp.2 w hw))
        subst hee
        exact .inr ⟨k, hk, by rw [cardinal_of_str wk wb hkb]; exact hcb, hkp, (seqIndex_eq hj).2 hkb.symm⟩

/-! ### Distinct tables -/

theorem _root_.Verif.BaseOk.containers_self (h : BaseOk d sorted) {s : Script} {i : Nat} (hi : d.base.index s = .ok i) :
    i ∈ DictBase.containers (d.relation .contains) i := by
  unfold DictBase.containers
  have hlt : i < d.base.scripts.length := by
    obtain ⟨y, h1, _, _⟩ := seqIndex_inv hi
    exact (List.getElem?_eq_some_iff.1 h1).1
  have : i ∈ ((d.relation .contains).filter fun p => p.2 = i).map (·.1) := by
    rw [List.mem_map]
    exact ⟨(i, i), List.mem_filter.2 ⟨h.contains_mem.2 (.inl ⟨rfl, hlt⟩), by simp⟩, rfl⟩
  obtain ⟨y, hy, e⟩ := dedupBy_complete id this
  simp only [id] at e
  exact e ▸ hy

theorem mem_containers {c : List (Nat × Nat)} {i j : Nat} : j ∈ DictBase.containers c i ↔ (j, i) ∈ c := by
  unfold DictBase.containers
  constructor
  · intro h
    have := mem_dedupBy _ h
    rw [List.mem_map] at this
    obtain ⟨p, hp, rfl⟩ := this
    rw [List.mem_filter] at hp
    have : p.2 = i := by simpa using hp.2
    exact this ▸ hp.1
  · intro h
    have : j ∈ (c.filter fun p => p.2 = i).map (·.1) := List.mem_map.2 ⟨(j, i), List.mem_filter.2 ⟨h, by simp⟩, rfl⟩
    obtain ⟨y, hy, e⟩ := dedupBy_complete id this
    simp only [id] at e
    exact e ▸ hy

theorem ranksOf_inv {b : DictBase} {l r : List Nat} (h : b.ranksOf l = .ok r) :
    (∀ i ∈ l, ∃ s t, b.scripts[i]? = some s ∧ b.tables.get? s = some t ∧ t.rank ∈ r) ∧
    ∀ x ∈ r, ∃ i ∈ l, ∃ s t, b.scripts[i]? = some s ∧ b.tables.get? s = some t ∧ t.rank = x := by
  unfold DictBase.ranksOf at h
  rw [bind_ok] at h
  obtain ⟨r', h1, h⟩ := h
  rw [pure_ok] at h
  subst h
  have one : ∀ {i x : Nat}, (match b.scripts[i]? with
      | none => (.error .indexError : Except Err Nat)
      | some s => match b.tables.get? s with
        | none => .error .keyError
        | some t => .ok t.rank) = .ok x ↔ ∃ s t, b.scripts[i]? = some s ∧ b.tables.get? s = some t ∧ t.rank = x := by
    intro i x
    cases hs : b.scripts[i]? with
    | none => simp
    | some s =>
      cases ht : b.tables.get? s with
      | none => simp [ht]
      | some t => simp [ht]
  constructor
  · intro i hi
    obtain ⟨x, hx, hix⟩ := mapM_each h1 hi
    obtain ⟨s, t, h2, h3, h4⟩ := one.1 hix
    obtain ⟨y, hy, e⟩ := dedupBy_complete id hx
    simp only [id] at e
    exact ⟨s, t, h2, h3, by rw [h4, ← e]; exact hy⟩
  · intro x hx
    obtain ⟨i, hi, hix⟩ := (mapM_mem h1).1 (mem_dedupBy _ hx)
    obtain ⟨s, t, h2, h3, h4⟩ := one.1 hix
    exact ⟨i, hi, s, t, h2, h3, h4⟩

theorem cell_rank {t : Table} (h : t.kind = .cell) : t.rank = 6 := by
  cases t with
  | root s k => simp only [Table.kind] at h; subst h; rfl
  | sub s k r p => simp only [Table.kind] at h; subst h; rfl

/-- The tables of a root have distinct texts. -/
theorem tables_distinct (h : DictOk d sorted) {e : Script × List Table} (he : e ∈ d.base.tables.roots) :
    e.2.Pairwise fun a b => a.script.str ≠ b.script.str := by
  have ht := (h.tabs_of he).2
  rw [pairwise_pairs]
  intro p hp hstr
  have hm := mem_pairs hp
  have h0 := pairwise_pairs.1 ht.distinct p hp
  have hcard := cardinal_of_str (ht.wf _ hm.1) (ht.wf _ hm.2) hstr
  by_cases hc : p.1.script.cardinal = 1
  · obtain ⟨x, hx⟩ := h.rankPairs he hp
    obtain ⟨i0, i1, ranks, k0, k1, k2, k3, _⟩ := rankPair_inv hx
    have hi : i0 = i1 := by
      have := (seqIndex_eq k0).2 hstr
      rw [show seqIndex d.base.scripts p.2.script = .ok i1 from k1, Except.ok.injEq] at this
      exact this.symm
    subst hi
    have hself := h.containers_self k0
    obtain ⟨s, t, h2, h3, h4⟩ := (ranksOf_inv k2).1 i0 (List.mem_filter.2 ⟨hself, by simpa using hself⟩)
    obtain ⟨y, _, hy, hys⟩ := index_inv k0
    rw [h2, Option.some.injEq] at hy
    subst hy
    obtain ⟨h5, h6⟩ := get?_some h3
    obtain ⟨e', he', hte'⟩ := mem_all.1 h5
    have ht' := (h.tabs_of he').2
    have : t.script.cardinal = 1 := by rw [cardinal_of_str (ht'.wf t hte') (ht.wf _ hm.1) (h6.trans hys)]; exact hc
    have hr := cell_rank ((ht'.cell t hte').2 this)
    have := (rankEntries_inv k3).1 _ h4
    omega
  · exact h0 hc (by rw [← hcard]; exact hc) hstr

end DictOk
end Verif
