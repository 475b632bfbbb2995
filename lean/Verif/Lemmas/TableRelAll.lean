import Verif.Lemmas.TableRel

/-
Lemmas on the table relations of any dictionary, also with scripts that have no table.
-/

namespace Verif
open Script

namespace DictOk
variable {d : Dictionary} {sorted : List Script}

/-- One step of the loop over the scripts. -/
theorem rankScript_step {b : DictBase} {c : List (Nat × Nat)} {st st' : List (Nat × Nat × Nat) × Option (List Nat)} {t : Script}
    (h : b.rankScript c st t = .ok st') : ∃ i ranks, b.index t = .ok i ∧ b.scriptRanks st.2 (DictBase.containers c i) = .ok ranks ∧
      st'.2 = some ranks ∧ ∀ e, e ∈ st'.1 ↔ e ∈ st.1 ∨ (e.1 ∈ ranks ∧ e.2 = (i, i)) := by
  unfold DictBase.rankScript at h
  rw [bind_ok] at h
  obtain ⟨i, hi, h⟩ := h
  rw [bind_ok] at h
  obtain ⟨ranks, hr, h⟩ := h
  rw [bind_ok] at h
  obtain ⟨es, hes, h⟩ := h
  rw [pure_ok] at h
  subst h
  refine ⟨i, ranks, hi, hr, rfl, fun e => ?_⟩
  rw [List.mem_append, (rankEntries_inv hes).2]
  simp

/-- The loop over the scripts only adds entries of the scripts. -/
theorem rankScripts_sound {b : DictBase} {c : List (Nat × Nat)} : ∀ {l : List Script} {st st' : List (Nat × Nat × Nat) × Option (List Nat)},
    l.foldlM (b.rankScript c) st = .ok st' → ∀ e, e ∈ st'.1 → e ∈ st.1 ∨ ∃ t ∈ l, ∃ i, b.index t = .ok i ∧ e.2 = (i, i) ∧
      ∀ r, b.ranksOf (DictBase.containers c i) = .ok r → e.1 ∈ r
  | [], st, st', h, e, he => by
    rw [List.foldlM_nil, pure_ok] at h
    subst h
    exact .inl he
  | t :: l, st, st', h, e, he => by
    rw [List.foldlM_cons, bind_ok] at h
    obtain ⟨st1, h1, h⟩ := h
    obtain ⟨i, ranks, hi, hr, _, hm⟩ := rankScript_step h1
    rcases rankScripts_sound h e he with h2 | ⟨u, hu, x⟩
    · rcases (hm e).1 h2 with h3 | ⟨h3, h4⟩
      · exact .inl h3
      · refine .inr ⟨t, by simp, i, hi, h4, fun r hrr => ?_⟩
        unfold DictBase.scriptRanks at hr
        rw [hrr] at hr
        simp only [Except.ok.injEq] at hr
        subst hr
        exact (List.mem_filter.1 h3).1
    · exact .inr ⟨u, by simp [hu], x⟩

/-- The loop over the scripts keeps the entries it has. -/
theorem rankScripts_mono {b : DictBase} {c : List (Nat × Nat)} : ∀ {l : List Script} {st st' : List (Nat × Nat × Nat) × Option (List Nat)},
    l.foldlM (b.rankScript c) st = .ok st' → ∀ e ∈ st.1, e ∈ st'.1
  | [], st, st', h, e, he => by
    rw [List.foldlM_nil, pure_ok] at h
    subst h
    exact he
  | t :: l, st, st', h, e, he => by
    rw [List.foldlM_cons, bind_ok] at h
    obtain ⟨st1, h1, h⟩ := h
    obtain ⟨i, ranks, hi, hr, _, hm⟩ := rankScript_step h1
    exact rankScripts_mono h e ((hm e).2 (.inl he))

/-- The loop over the scripts adds the entries of every script whose containers have tables. -/
theorem rankScripts_complete {b : DictBase} {c : List (Nat × Nat)} : ∀ {l : List Script} {st st' : List (Nat × Nat × Nat) × Option (List Nat)},
    l.foldlM (b.rankScript c) st = .ok st' → ∀ t ∈ l, ∀ i r, b.index t = .ok i → b.ranksOf (DictBase.containers c i) = .ok r →
      ∀ k ∈ r, k ≠ 6 → (k, i, i) ∈ st'.1
  | [], _, _, _, t, ht, _, _, _, _, _, _, _ => by simp at ht
  | u :: l, st, st', h, t, ht, i, r, hi, hr, k, hk, hk6 => by
    rw [List.foldlM_cons, bind_ok] at h
    obtain ⟨st1, h1, h⟩ := h
    rcases List.mem_cons.1 ht with rfl | ht
    · obtain ⟨i', ranks, hi', hr', _, hm⟩ := rankScript_step h1
      rw [hi, Except.ok.injEq] at hi'
      subst hi'
      unfold DictBase.scriptRanks at hr'
      rw [hr] at hr'
      simp only [Except.ok.injEq] at hr'
      subst hr'
      exact rankScripts_mono h _ ((hm _).2 (.inr ⟨by simp [hk, hk6], rfl⟩))
    · exact rankScripts_complete h t ht i r hi hr k hk hk6

/-- A script of the dictionary within a root has a table in this root. -/
theorem table_of_within (h : DictOk d sorted) {e : Script × List Table} (he : e ∈ d.base.tables.roots) {x : Script} (hx : x ∈ d.base.scripts)
    {w : Word} (hxw : Den x w) (hew : Den e.1 w) : ∃ p ∈ e.2, p.script.str = x.str := by
  have ws := h.script_wf hx
  rcases ((h.scripts x).1 hx).2 with hc | h1
  · obtain ⟨hr, tab⟩ := h.tabs_of he
    obtain ⟨L, eL⟩ := enum_exists (h.rootWf _ hr)
    obtain ⟨q, hq, hqw⟩ := (eL.den w).1 hew
    obtain ⟨t, ht, rfl⟩ := tab.seqs L eL q hq
    exact ⟨t, ht, str_of_word' (eL.wf _ hq) ws (eL.one _ hq) hc hqw hxw⟩
  · obtain ⟨p, hp, hpx⟩ := get?_isSome.1 h1
    obtain ⟨e', he', hpe⟩ := mem_all.1 hp
    have tab' := (h.tabs_of he').2
    have := h.tabs_unique he he' hew ((tab'.within p hpe).2 w ((den_of_str (tab'.wf p hpe) ws hpx w).2 hxw))
    subst this
    exact ⟨p, hpe, hpx⟩

/-- The containers of a script with a table have tables. -/
theorem ranks_total (h : DictOk d sorted) {x : Script} {i : Nat} (hi : d.base.index x = .ok i) (ht : (d.base.tables.get? x).isSome) :
    ∃ r, d.base.ranksOf (DictBase.containers (d.relation .contains) i) = .ok r := by
  refine ranksOf_total fun c hc => ?_
  have key : ∃ z, d.base.index z = .ok c ∧ (d.base.tables.get? z).isSome := by
    rcases h.contains_mem.1 (mem_containers.1 hc) with ⟨e, _⟩ | ⟨e, he, p, hpe, _, hp, _⟩
    · exact ⟨x, e ▸ hi, ht⟩
    · exact ⟨_, hp, get?_isSome.2 ⟨p, mem_all.2 ⟨e, he, hpe⟩, rfl⟩⟩
  obtain ⟨z, hz, hzt⟩ := key
  obtain ⟨y, _, hcy, hyz⟩ := index_inv hz
  obtain ⟨p, hp, hpz⟩ := get?_isSome.1 hzt
  exact ⟨y, p, hcy, h.get?_eq hp (hpz.trans (by first | exact hyz | exact hyz.symm))⟩

/-- The entries of a table relation, also when scripts have no table: for two positions, or twice the position of a script with a
table. -/
theorem table_mem_all (h : DictOk d sorted) {k : Fin 6} {i j : Nat} (hij : i ≠ j ∨ ∃ x, d.base.index x = .ok i ∧ (d.base.tables.get? x).isSome) :
    (i, j) ∈ d.relation (.table k) ↔
    ((∃ e ∈ d.base.tables.roots, ∃ p ∈ e.2, ∃ q ∈ e.2, p ≠ q ∧ d.base.index p.script = .ok i ∧ d.base.index q.script = .ok j) ∨
      (i = j ∧ ∃ s ∈ d.base.scripts, d.base.index s = .ok i)) ∧
    ∃ c s t, (c, i) ∈ d.relation .contains ∧ (c, j) ∈ d.relation .contains ∧ d.base.scripts[c]? = some s ∧
      d.base.tables.get? s = some t ∧ t.rank = k.val := by
  obtain ⟨ranks, h1, h2⟩ := h.rel.table
  rw [h2]
  unfold DictBase.tableRank at h1
  rw [bind_ok] at h1
  obtain ⟨l, h3, h1⟩ := h1
  rw [bind_ok] at h1
  obtain ⟨st, h4, h1⟩ := h1
  rw [pure_ok] at h1
  subst h1
  have step : (i, j) ∈ (st.1.filter fun e => decide (e.1 = k.val)).map (·.2) ↔ (k.val, i, j) ∈ st.1 := by
    rw [List.mem_map]
    constructor
    · rintro ⟨e, he, h⟩
      rw [List.mem_filter] at he
      have : e.1 = k.val := by simpa using he.2
      rw [← this, ← h]
      exact he.1
    · intro h
      exact ⟨_, List.mem_filter.2 ⟨h, by simp⟩, rfl⟩
  rw [step]
  have rk : ∀ {L r : List Nat}, d.base.ranksOf L = .ok r → (k.val ∈ r ↔ ∃ c ∈ L, ∃ s t, d.base.scripts[c]? = some s ∧ d.base.tables.get? s = some t ∧ t.rank = k.val) := by
    intro L r hr
    obtain ⟨g1, g2⟩ := ranksOf_inv hr
    constructor
    · exact g2 _
    · rintro ⟨c, hc, s, t, e1, e2, e3⟩
      obtain ⟨s', t', e1', e2', e3'⟩ := g1 c hc
      rw [e1, Option.some.injEq] at e1'
      subst e1'
      rw [e2, Option.some.injEq] at e2'
      subst e2'
      exact e3 ▸ e3'
  constructor
  · intro hst
    rcases rankScripts_sound h4 _ hst with he | ⟨s, hs, i', hi', k3, k1⟩
    · simp only [List.mem_flatten, List.mem_map] at he
      obtain ⟨x, ⟨y, hy, rfl⟩, he⟩ := he
      obtain ⟨p, hp, hpy⟩ := (mapM_mem h3).1 hy
      obtain ⟨i0, i1, rs, k0, k1, k2, k3, _⟩ := rankPair_inv hpy
      obtain ⟨hrs, hmem⟩ := (((rankEntries_inv k3).2 _).1 he : k.val ∈ rs ∧ (i, j) ∈ [(i0, i1), (i1, i0)])
      obtain ⟨e, hr, hpe⟩ := List.mem_flatMap.1 hp
      have m := mem_pairs hpe
      have hne : p.1 ≠ p.2 := fun e1 => pairwise_pairs.1 (h.tables_distinct hr) p hpe (by rw [e1])
      obtain ⟨c, hc, s, t, e1, e2, e3⟩ := (rk k2).1 hrs
      rw [List.mem_filter, List.contains_iff_mem, mem_containers, mem_containers] at hc
      simp only [List.mem_cons, Prod.mk.injEq, List.not_mem_nil, or_false] at hmem
      rcases hmem with ⟨rfl, rfl⟩ | ⟨rfl, rfl⟩
      · exact ⟨.inl ⟨e, hr, _, m.1, _, m.2, hne, k0, k1⟩, c, s, t, hc.1, hc.2, e1, e2, e3⟩
      · exact ⟨.inl ⟨e, hr, _, m.2, _, m.1, hne.symm, k1, k0⟩, c, s, t, hc.2, hc.1, e1, e2, e3⟩
    · simp only [Prod.mk.injEq] at k3
      obtain ⟨rfl, rfl⟩ := k3
      obtain ⟨x, hx, hxt⟩ := hij.resolve_left (by simp)
      obtain ⟨r, hr⟩ := h.ranks_total hx hxt
      obtain ⟨c, hc, s', t, e1, e2, e3⟩ := (rk hr).1 (k1 r hr)
      rw [mem_containers] at hc
      exact ⟨.inr ⟨rfl, s, hs, hi'⟩, c, s', t, hc, hc, e1, e2, e3⟩
  · rintro ⟨h0 | ⟨rfl, s, hs, hi⟩, c, s', t, c1, c2, e1, e2, e3⟩
    · refine rankScripts_mono h4 _ ?_
      obtain ⟨e, he, p, hp, q, hq, hne, hpi, hqj⟩ := h0
      simp only [List.mem_flatten, List.mem_map]
      have fin : ∀ pr ∈ DictBase.pairs e.2, (pr = (p, q) ∨ pr = (q, p)) → ∃ x, (∃ a ∈ l, a.1 = x) ∧ (k.val, i, j) ∈ x := by
        intro pr hpr hor
        obtain ⟨y, hy, hpy⟩ := mapM_each h3 (List.mem_flatMap.2 ⟨e, he, hpr⟩)
        obtain ⟨i0, i1, rs, k0, k1, k2, k3, _⟩ := rankPair_inv hpy
        refine ⟨y.1, ⟨y, hy, rfl⟩, ((rankEntries_inv k3).2 _).2 ⟨(rk k2).2 ⟨c, ?_, s', t, e1, e2, e3⟩, ?_⟩⟩
        · rw [List.mem_filter, List.contains_iff_mem, mem_containers, mem_containers]
          rcases hor with rfl | rfl
          · rw [hpi, Except.ok.injEq] at k0; rw [hqj, Except.ok.injEq] at k1; subst k0 k1; exact ⟨c1, c2⟩
          · rw [hqj, Except.ok.injEq] at k0; rw [hpi, Except.ok.injEq] at k1; subst k0 k1; exact ⟨c2, c1⟩
        · rcases hor with rfl | rfl
          · rw [hpi, Except.ok.injEq] at k0; rw [hqj, Except.ok.injEq] at k1; subst k0 k1; simp
          · rw [hqj, Except.ok.injEq] at k0; rw [hpi, Except.ok.injEq] at k1; subst k0 k1; simp
      rcases pairs_total hp hq hne with hm | hm
      · exact fin _ hm (.inl rfl)
      · exact fin _ hm (.inr rfl)
    · obtain ⟨x, hx, hxt⟩ := hij.resolve_left (by simp)
      obtain ⟨r, hr⟩ := h.ranks_total hx hxt
      exact rankScripts_complete h4 s hs i r hi hr _ ((rk hr).2 ⟨c, mem_containers.2 c1, s', t, e1, e2, e3⟩) (by have := k.isLt; omega)

/-- A script whose containers have no table takes the last ranks. -/
theorem scriptRanks_stale {b : DictBase} {l rs ranks : List Nat} {last : Option (List Nat)} (hn : ∀ r, b.ranksOf l ≠ .ok r)
    (hs : last = some rs) (h : b.scriptRanks last l = .ok ranks) : ranks = rs := by
  unfold DictBase.scriptRanks at h
  subst hs
  split at h
  · rename_i r hr
    exact absurd hr (hn r)
  · simpa using h.symm
  · cases h

/-- Scripts whose containers have no table leave the ranks as they are. -/
theorem rankScripts_last {b : DictBase} {c : List (Nat × Nat)} {rs : List Nat} : ∀ {l : List Script} {st st' : List (Nat × Nat × Nat) × Option (List Nat)},
    l.foldlM (b.rankScript c) st = .ok st' → (∀ t ∈ l, ∀ i, b.index t = .ok i → ∀ r, b.ranksOf (DictBase.containers c i) ≠ .ok r) →
    st.2 = some rs → st'.2 = some rs
  | [], st, st', h, _, hs => by
    rw [List.foldlM_nil, pure_ok] at h
    subst h
    exact hs
  | t :: l, st, st', h, hn, hs => by
    rw [List.foldlM_cons, bind_ok] at h
    obtain ⟨st1, h1, h⟩ := h
    refine rankScripts_last h (fun u hu => hn u (by simp [hu])) ?_
    obtain ⟨i, ranks, hi, hr, h2, _⟩ := rankScript_step h1
    rw [h2, scriptRanks_stale (hn t (by simp) i hi) hs hr]

/-- The entries of a script without table, in the relation of its position with itself: those of the last script before it with a
table. -/
theorem table_stale (h : DictOk d sorted) (hnd : (d.base.scripts.map Script.str).Nodup) {xs ys zs : List Script} {p a : Script}
    (he : d.base.scripts = xs ++ p :: (ys ++ a :: zs)) (hp : (d.base.tables.get? p).isSome) (hy : ∀ y ∈ ys, d.base.tables.get? y = none)
    (ha : d.base.tables.get? a = none) {i j : Nat} (hi : d.base.index p = .ok i) (hj : d.base.index a = .ok j) (k : Fin 6) :
    (j, j) ∈ d.relation (.table k) ↔ (i, i) ∈ d.relation (.table k) := by
  -- a script without table has no ranks
  have none_ranks : ∀ t, t ∈ d.base.scripts → d.base.tables.get? t = none → ∀ i, d.base.index t = .ok i →
      ∀ r, d.base.ranksOf (DictBase.containers (d.relation .contains) i) ≠ .ok r := by
    intro t _ htn i hti r hr
    obtain ⟨y, hy, hiy, hyt⟩ := index_inv hti
    obtain ⟨s, u, h1, h2, _⟩ := (ranksOf_inv hr).1 i (mem_containers.2 (h.contains_mem.2 (.inl ⟨rfl, (List.getElem?_eq_some_iff.1 hiy).1⟩)))
    rw [hiy, Option.some.injEq] at h1
    subst h1
    obtain ⟨h3, h4⟩ := get?_some h2
    have := get?_isSome.2 ⟨u, h3, h4.trans hyt⟩
    rw [htn] at this
    cases this
  -- the text of a script is at one place
  have other : ∀ t ∈ xs ++ p :: ys ++ zs, t.str ≠ a.str := by
    intro t ht hta
    rw [he] at hnd
    have : (((xs ++ p :: ys) ++ a :: zs).map Script.str).Nodup := by simpa using hnd
    rw [List.map_append, List.map_cons, List.nodup_middle, ← List.map_append, List.nodup_cons] at this
    exact this.1 (List.mem_map.2 ⟨t, ht, hta⟩)
  obtain ⟨ranks, h1, h2⟩ := h.rel.table
  rw [h2]
  unfold DictBase.tableRank at h1
  rw [bind_ok] at h1
  obtain ⟨l, h3, h1⟩ := h1
  rw [bind_ok] at h1
  obtain ⟨st, h4, h1⟩ := h1
  rw [pure_ok] at h1
  subst h1
  have step : ∀ j, (j, j) ∈ (st.1.filter fun e => decide (e.1 = k.val)).map (·.2) ↔ (k.val, j, j) ∈ st.1 := by
    intro j
    rw [List.mem_map]
    constructor
    · rintro ⟨e, he, h⟩
      rw [List.mem_filter] at he
      have : e.1 = k.val := by simpa using he.2
      rw [← this, ← h]
      exact he.1
    · intro h
      exact ⟨_, List.mem_filter.2 ⟨h, by simp⟩, rfl⟩
  rw [step, step]
  -- no pair of tables gives an entry on the diagonal
  have nopair : ∀ j, (k.val, j, j) ∉ (l.map (·.1)).flatten := by
    intro j hm
    simp only [List.mem_flatten, List.mem_map] at hm
    obtain ⟨x, ⟨y, hy, rfl⟩, hm⟩ := hm
    obtain ⟨q, hq, hqy⟩ := (mapM_mem h3).1 hy
    obtain ⟨i0, i1, rs, k0, k1, k2, k3, _⟩ := rankPair_inv hqy
    obtain ⟨_, hmem⟩ := (((rankEntries_inv k3).2 _).1 hm : k.val ∈ rs ∧ (j, j) ∈ [(i0, i1), (i1, i0)])
    obtain ⟨e, hr, hpe⟩ := List.mem_flatMap.1 hq
    have e01 : i0 = i1 := by
      simp only [List.mem_cons, Prod.mk.injEq, List.not_mem_nil, or_false] at hmem
      omega
    subst e01
    exact pairwise_pairs.1 (h.tables_distinct hr) q hpe ((seqIndex_eq k0).1 k1)
  have diag : ∀ {l : List Script} {s s' : List (Nat × Nat × Nat) × Option (List Nat)},
      l.foldlM (d.base.rankScript (d.relation .contains)) s = .ok s' → (∀ t ∈ l, t.str ≠ a.str) → (k.val, j, j) ∈ s'.1 → (k.val, j, j) ∈ s.1 := by
    intro l s s' hf hl hm
    rcases rankScripts_sound hf _ hm with h | ⟨t, ht, i', hi', h', _⟩
    · exact h
    · simp only [Prod.mk.injEq] at h'
      obtain ⟨rfl, _⟩ := h'
      exact absurd ((seqIndex_eq hi').1 hj) (hl t ht)
  have h4' := h4
  rw [he, List.foldlM_append, bind_ok] at h4'
  obtain ⟨s1, f1, h4'⟩ := h4'
  rw [List.foldlM_cons, bind_ok] at h4'
  obtain ⟨s2, f2, h4'⟩ := h4'
  rw [List.foldlM_append, bind_ok] at h4'
  obtain ⟨s3, f3, h4'⟩ := h4'
  rw [List.foldlM_cons, bind_ok] at h4'
  obtain ⟨s4, f4, f5⟩ := h4'
  obtain ⟨i', rp, hi', hrp, hs2, hm2⟩ := rankScript_step f2
  rw [hi, Except.ok.injEq] at hi'
  subst hi'
  obtain ⟨j', ra, hj', hra, _, hm4⟩ := rankScript_step f4
  rw [hj, Except.ok.injEq] at hj'
  subst hj'
  have hs3 := rankScripts_last f3 (fun t ht => none_ranks t (by rw [he]; simp [ht]) (hy t ht)) hs2
  have hra' := scriptRanks_stale (none_ranks a (by rw [he]; simp) ha j hj) hs3 hra
  subst hra'
  obtain ⟨r, hr⟩ := h.ranks_total hi hp
  have hrp' : ra = r.filter fun x => x ≠ 6 := by
    unfold DictBase.scriptRanks at hrp
    rw [hr] at hrp
    simpa using hrp.symm
  have left : (k.val, j, j) ∈ st.1 ↔ k.val ∈ ra := by
    constructor
    · intro hm
      have := diag f5 (fun t ht => other t (by simp [ht])) hm
      rcases (hm4 _).1 this with h3 | ⟨h3, _⟩
      · have h3 := diag f3 (fun t ht => other t (by simp [ht])) h3
        rcases (hm2 _).1 h3 with h3 | ⟨_, h3⟩
        · have h3 := diag f1 (fun t ht => other t (by simp [ht])) h3
          exact absurd h3 (nopair j)
        · simp only [Prod.mk.injEq] at h3
          obtain ⟨rfl, _⟩ := h3
          exact absurd ((seqIndex_eq hi).1 hj) (other p (by simp))
      · exact h3
    · intro hk
      exact rankScripts_mono f5 _ ((hm4 _).2 (.inr ⟨hk, rfl⟩))
  have right : (k.val, i, i) ∈ st.1 ↔ k.val ∈ ra := by
    constructor
    · intro hm
      rcases rankScripts_sound h4 _ hm with h3 | ⟨t, _, i', _, h', h3⟩
      · exact absurd h3 (nopair i)
      · simp only [Prod.mk.injEq] at h'
        obtain ⟨rfl, _⟩ := h'
        have := h3 r hr
        have hk := k.isLt
        rw [hrp', List.mem_filter]
        exact ⟨this, by simp; omega⟩
    · intro hk
      exact rankScripts_mono f5 _ ((hm4 _).2 (.inl (rankScripts_mono f3 _ ((hm2 _).2 (.inr ⟨hk, rfl⟩)))))
  rw [left, right]

end DictOk
end Verif
