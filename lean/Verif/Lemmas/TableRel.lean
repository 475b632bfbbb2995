import Verif.Props.Relations

/-
Lemmas on the table relations of a dictionary: what their entries are.
-/

namespace Verif
open Script

namespace DictOk
variable {d : Dictionary} {sorted : List Script}

/-- Two tables with one text are the same. -/
theorem table_unique (h : DictOk d sorted) {t u : Table} (ht : t ∈ d.base.tables.all) (hu : u ∈ d.base.tables.all)
    (hs : t.script.str = u.script.str) : t = u := by
  obtain ⟨e, he, hte⟩ := mem_all.1 ht
  obtain ⟨e', he', hue⟩ := mem_all.1 hu
  have te := (h.tabs_of he).2
  have te' := (h.tabs_of he').2
  obtain ⟨w, hw⟩ := den_exists (te.wf t hte)
  have hw' := (den_of_str (te.wf t hte) (te'.wf u hue) hs w).1 hw
  have := h.tabs_unique he he' ((te.within t hte).2 w hw) ((te'.within u hue).2 w hw')
  subst this
  by_contra hne
  exact pairwise_mem (fun a b h e => h e.symm) (h.tables_distinct he) hte hue hne hs

/-- The table of a script. -/
theorem get?_eq (h : DictOk d sorted) {t : Table} (ht : t ∈ d.base.tables.all) {s : Script} (hs : t.script.str = s.str) :
    d.base.tables.get? s = some t := by
  obtain ⟨u, hu⟩ := Option.isSome_iff_exists.1 (get?_isSome.2 ⟨t, ht, hs⟩)
  obtain ⟨h1, h2⟩ := get?_some hu
  rw [hu, h.table_unique ht h1 (hs.trans h2.symm)]

/-- The scripts that contain a script of the dictionary are scripts of the dictionary. -/
theorem containers_script (h : DictOk d sorted) {i c : Nat} {x : Script} (hx : d.base.index x = .ok i)
    (hc : (c, i) ∈ d.relation .contains) : ∃ s ∈ d.base.scripts, d.base.scripts[c]? = some s := by
  have hidx : ∃ z, d.base.index z = .ok c := by
    rcases h.contains_mem.1 hc with ⟨e, _⟩ | ⟨_, _, p, _, _, hp, _⟩
    · exact ⟨x, e ▸ hx⟩
    · exact ⟨_, hp⟩
  obtain ⟨z, hz⟩ := hidx
  obtain ⟨s, hs, hks, _⟩ := index_inv hz
  exact ⟨s, hs, hks⟩

/-- The entries added for the scripts one by one, when all their containers have a table. -/
theorem rankScripts_inv {b : DictBase} {c : List (Nat × Nat)} : ∀ {l : List Script} {st st' : List (Nat × Nat × Nat) × Option (List Nat)},
    (∀ t ∈ l, ∀ i, b.index t = .ok i → ∃ r, b.ranksOf (DictBase.containers c i) = .ok r) →
    l.foldlM (b.rankScript c) st = .ok st' →
    ∀ e, e ∈ st'.1 ↔ e ∈ st.1 ∨ ∃ t ∈ l, ∃ i r, b.index t = .ok i ∧ b.ranksOf (DictBase.containers c i) = .ok r ∧ e.1 ∈ r ∧ e.1 ≠ 6 ∧ e.2 = (i, i)
  | [], st, st', _, h, e => by
    rw [List.foldlM_nil, pure_ok] at h
    subst h
    simp
  | t :: l, st, st', ht, h, e => by
    rw [List.foldlM_cons, bind_ok] at h
    obtain ⟨st1, h1, h⟩ := h
    rw [rankScripts_inv (fun u hu => ht u (by simp [hu])) h]
    unfold DictBase.rankScript at h1
    rw [bind_ok] at h1
    obtain ⟨i, hi, h1⟩ := h1
    rw [bind_ok] at h1
    obtain ⟨ranks, hr, h1⟩ := h1
    rw [bind_ok] at h1
    obtain ⟨es, hes, h1⟩ := h1
    rw [pure_ok] at h1
    subst h1
    obtain ⟨r, hrr⟩ := ht t (by simp) i hi
    unfold DictBase.scriptRanks at hr
    rw [hrr] at hr
    simp only [Except.ok.injEq] at hr
    subst hr
    have key : e ∈ es ↔ e.1 ∈ r ∧ e.1 ≠ 6 ∧ e.2 = (i, i) := by
      rw [(rankEntries_inv hes).2]
      simp [List.mem_filter, and_assoc]
    rw [List.mem_append, key, or_assoc]
    refine or_congr_right ⟨?_, ?_⟩
    · rintro (⟨k1, k2, k3⟩ | ⟨u, hu, x⟩)
      · exact ⟨t, by simp, i, r, hi, hrr, k1, k2, k3⟩
      · exact ⟨u, by simp [hu], x⟩
    · rintro ⟨u, hu, i', r', k1, k2, k3⟩
      rcases List.mem_cons.1 hu with rfl | hu
      · rw [hi, Except.ok.injEq] at k1
        subst k1
        rw [hrr, Except.ok.injEq] at k2
        subst k2
        exact .inl k3
      · exact .inr ⟨u, hu, i', r', k1, k2, k3⟩

/-- The entries of a table relation: positions of two tables of one root, or twice the position of one script, that a table of the
rank contains. -/
theorem table_mem (h : DictOk d sorted) (ht : ∀ s ∈ d.base.scripts, (d.base.tables.get? s).isSome) {k : Fin 6} {i j : Nat} :
    (i, j) ∈ d.relation (.table k) ↔
    ((∃ e ∈ d.base.tables.roots, ∃ p ∈ e.2, ∃ q ∈ e.2, p ≠ q ∧ d.base.index p.script = .ok i ∧ d.base.index q.script = .ok j) ∨
      (i = j ∧ ∃ s ∈ d.base.scripts, d.base.index s = .ok i)) ∧
    ∃ c s t, (c, i) ∈ d.relation .contains ∧ (c, j) ∈ d.relation .contains ∧ d.base.scripts[c]? = some s ∧
      d.base.tables.get? s = some t ∧ t.rank = k.val := by
  have hrk : ∀ t ∈ d.base.scripts, ∀ i, d.base.index t = .ok i → ∃ r, d.base.ranksOf (DictBase.containers (d.relation .contains) i) = .ok r := by
    intro t _ i hi
    refine ranksOf_total fun c hc => ?_
    obtain ⟨s, hs, hcs⟩ := h.containers_script hi (mem_containers.1 hc)
    obtain ⟨u, hu⟩ := Option.isSome_iff_exists.1 (ht s hs)
    exact ⟨s, u, hcs, hu⟩
  obtain ⟨ranks, h1, h2⟩ := h.rel.table
  rw [h2]
  unfold DictBase.tableRank at h1
  rw [bind_ok] at h1
  obtain ⟨l, h3, h1⟩ := h1
  rw [bind_ok] at h1
  obtain ⟨st, h4, h1⟩ := h1
  rw [pure_ok] at h1
  subst h1
  have key := rankScripts_inv hrk h4
  have step : (i, j) ∈ (st.1.filter fun e => decide (e.1 = k.val)).map (·.2) ↔ (k.val, i, j) ∈ st.1 := by
    rw [List.mem_map]
    constructor
    · rintro ⟨e, he, h⟩
      rw [List.mem_filter] at he
      have : e.1 = k.val := by simpa using he.2
      rw [← this, ← h]
      exact he.1
    · intro h
      exact ⟨_, List.mem_filter.2 ⟨h, by simp⟩, rfl⟩
  rw [step, key]
  have rk : ∀ {L r : List Nat}, d.base.ranksOf L = .ok r → (k.val ∈ r ↔ ∃ c ∈ L, ∃ s t, d.base.scripts[c]? = some s ∧ d.base.tables.get? s = some t ∧ t.rank = k.val) := by
    intro L r hr
    obtain ⟨g1, g2⟩ := ranksOf_inv hr
    constructor
    · exact g2 _
    · rintro ⟨c, hc, s, t, e1, e2, e3⟩
      obtain ⟨s', t', e1', e2', e3'⟩ := g1 c hc
      rw [e1, Option.some.injEq] at e1'
      subst e1'
      rw [e2, Option.some.injEq] at e2'
      subst e2'
      exact e3 ▸ e3'
  constructor
  · rintro (he | ⟨s, hs, i', r, hi', hr, k1, k2, k3⟩)
    · simp only [List.mem_flatten, List.mem_map] at he
      obtain ⟨x, ⟨y, hy, rfl⟩, he⟩ := he
      obtain ⟨p, hp, hpy⟩ := (mapM_mem h3).1 hy
      obtain ⟨i0, i1, rs, k0, k1, k2, k3, _⟩ := rankPair_inv hpy
      obtain ⟨hrs, hmem⟩ := (((rankEntries_inv k3).2 _).1 he : k.val ∈ rs ∧ (i, j) ∈ [(i0, i1), (i1, i0)])
      obtain ⟨e, hr, hpe⟩ := List.mem_flatMap.1 hp
      have m := mem_pairs hpe
      have hne : p.1 ≠ p.2 := fun e1 => pairwise_pairs.1 (h.tables_distinct hr) p hpe (by rw [e1])
      obtain ⟨c, hc, s, t, e1, e2, e3⟩ := (rk k2).1 hrs
      rw [List.mem_filter, List.contains_iff_mem, mem_containers, mem_containers] at hc
      simp only [List.mem_cons, Prod.mk.injEq, List.not_mem_nil, or_false] at hmem
      rcases hmem with ⟨rfl, rfl⟩ | ⟨rfl, rfl⟩
      · exact ⟨.inl ⟨e, hr, _, m.1, _, m.2, hne, k0, k1⟩, c, s, t, hc.1, hc.2, e1, e2, e3⟩
      · exact ⟨.inl ⟨e, hr, _, m.2, _, m.1, hne.symm, k1, k0⟩, c, s, t, hc.2, hc.1, e1, e2, e3⟩
    · simp only [Prod.mk.injEq] at k3
      obtain ⟨rfl, rfl⟩ := k3
      obtain ⟨c, hc, s', t, e1, e2, e3⟩ := (rk hr).1 k1
      rw [mem_containers] at hc
      exact ⟨.inr ⟨rfl, s, hs, hi'⟩, c, s', t, hc, hc, e1, e2, e3⟩
  · rintro ⟨h0 | ⟨rfl, s, hs, hi⟩, c, s', t, c1, c2, e1, e2, e3⟩
    · left
      obtain ⟨e, he, p, hp, q, hq, hne, hpi, hqj⟩ := h0
      simp only [List.mem_flatten, List.mem_map]
      have fin : ∀ pr ∈ DictBase.pairs e.2, (pr = (p, q) ∨ pr = (q, p)) → ∃ x, (∃ a ∈ l, a.1 = x) ∧ (k.val, i, j) ∈ x := by
        intro pr hpr hor
        obtain ⟨y, hy, hpy⟩ := mapM_each h3 (List.mem_flatMap.2 ⟨e, he, hpr⟩)
        obtain ⟨i0, i1, rs, k0, k1, k2, k3, _⟩ := rankPair_inv hpy
        refine ⟨y.1, ⟨y, hy, rfl⟩, ((rankEntries_inv k3).2 _).2 ⟨(rk k2).2 ⟨c, ?_, s', t, e1, e2, e3⟩, ?_⟩⟩
        · rw [List.mem_filter, List.contains_iff_mem, mem_containers, mem_containers]
          rcases hor with rfl | rfl
          · rw [hpi, Except.ok.injEq] at k0; rw [hqj, Except.ok.injEq] at k1; subst k0 k1; exact ⟨c1, c2⟩
          · rw [hqj, Except.ok.injEq] at k0; rw [hpi, Except.ok.injEq] at k1; subst k0 k1; exact ⟨c2, c1⟩
        · rcases hor with rfl | rfl
          · rw [hpi, Except.ok.injEq] at k0; rw [hqj, Except.ok.injEq] at k1; subst k0 k1; simp
          · rw [hqj, Except.ok.injEq] at k0; rw [hpi, Except.ok.injEq] at k1; subst k0 k1; simp
      rcases pairs_total hp hq hne with hm | hm
      · exact fin _ hm (.inl rfl)
      · exact fin _ hm (.inr rfl)
    · right
      obtain ⟨r, hr⟩ := hrk s hs i hi
      exact ⟨s, hs, i, r, hi, hr, (rk hr).2 ⟨c, mem_containers.2 c1, s', t, e1, e2, e3⟩, by have := k.isLt; omega, rfl⟩

end DictOk

/-- Every script of the dictionary has a table, when the keys are the texts of scripts and no root is ignored. -/
theorem every_table {o : SetOrder} {ks : List Str} {rows : List (Str × Str × Str)} {d : Dictionary} (ho : o.Valid) (hk : NormalKeys ks)
    (hi : NoIgnoredRoot rows) (h : mkDictionary o ks rows = .ok d) {s : Script} (hs : s ∈ d.base.scripts) :
    (d.base.tables.get? s).isSome := by
  obtain ⟨st, _, hd, _⟩ := mkDictionary_inv ho h
  rcases ((hd.scripts s).1 hs).2 with hc | h1
  swap
  · exact h1
  obtain ⟨r, hr, hw, _⟩ := C20_script_in_one_root_partial ho hk hi h hs
  obtain ⟨e, he, rfl⟩ := hd.tabs_root hr
  have ws := hd.script_wf hs
  obtain ⟨L, eL⟩ := enum_exists (hd.rootWf _ hr)
  obtain ⟨w, hsw⟩ := den_exists ws
  obtain ⟨q, hq, hqw⟩ := (eL.den w).1 (hw.2 w hsw)
  obtain ⟨t, ht, rfl⟩ := (hd.tabs_of he).2.seqs L eL q hq
  exact DictOk.get?_isSome.2 ⟨t, DictOk.mem_all.2 ⟨e, he, ht⟩, str_of_word' (eL.wf _ hq) ws (eL.one _ hq) hc hqw hsw⟩

end Verif
