import Verif.Lemmas.TreeOrder
import Verif.Props.DictBuild
import Verif.Props.TableRelations

/-
C103: the tables of a dictionary, the parents of its tables and the order of the sets.
-/

namespace Verif
open Script DictOk

variable {o o' : SetOrder} {ks : List Str} {rows : List (Str × Str × Str)} {d d' : Dictionary}

/-- Every key lists each of its words once. -/
def OnceKeys (ks : List Str) : Prop := ∀ k ∈ ks, ∀ s, parseScript k = .ok s → DisjointSums s

/-- No two keys have the same words. -/
def DistinctWords (ks : List Str) : Prop := ∀ k ∈ ks, ∀ k' ∈ ks, ∀ s s', parseScript k = .ok s → parseScript k' = .ok s' →
  Within s s' → Within s' s → k = k'

theorem mkDictionary_tables (h : mkDictionary o ks rows = .ok d) : ∃ st, readDictionary ks rows = .ok st ∧
    buildTables o st.roots (pySort lt (st.scripts.map (·.2))) = .ok d.base.tables ∧ d.roots = st.roots ∧
    d.base.inhibitions = st.inhibitions ∧
    d.base.scripts = (pySort lt (st.scripts.map (·.2))).filter fun s => s.cardinal = 1 || (d.base.tables.get? s).isSome := by
  unfold mkDictionary at h
  rw [bind_ok] at h
  obtain ⟨st, h1, h⟩ := h
  rw [bind_ok] at h
  obtain ⟨base, h2, h⟩ := h
  rw [bind_ok] at h
  obtain ⟨_, _, h⟩ := h
  rw [bind_ok] at h
  obtain ⟨rel, _, h⟩ := h
  rw [pure_ok] at h
  subst h
  unfold dictionaryBase at h2
  rw [bind_ok] at h2
  obtain ⟨x, h3, h2⟩ := h2
  rw [pure_ok] at h2
  subst h2
  exact ⟨st, h1, h3, rfl, rfl, rfl⟩

/-- A script of the reading with several words is the one of a key. -/
theorem sorted_key {st : Reading} (h : readDictionary ks rows = .ok st) {s : Script} (hs : s ∈ pySort lt (st.scripts.map (·.2)))
    (hc : s.cardinal ≠ 1) : ∃ k ∈ ks, parseScript k = .ok s := by
  obtain ⟨st0, fs, hok, hap, hrows, hkeys, hn0, out, hout, k1, k2, k3, k4, _⟩ := readDictionary_inv h
  obtain ⟨p1, p2⟩ := read_parsed (readKeys hkeys).2.1 hrows
  rw [mem_pySort (lt := lt), List.mem_map] at hs
  obtain ⟨e, he, rfl⟩ := hs
  exact ⟨e.1, (p1 e ((k1 e).1 he).1).resolve_right hc⟩

/-- The script of a key with several words is not within a script with one word. -/
theorem singular_accepts_none (hf : OnceKeys ks) {k : Str} {s q : Script} (hk : k ∈ ks) (hp : parseScript k = .ok s) (hc : s.cardinal ≠ 1)
    (wq : WF q) (hq : q.cardinal = 1) (hin : Within s q) : False := by
  have ws := parse_wf hp
  obtain ⟨A, eA⟩ := enum_exists ws
  have nA := (norep_iff ws eA).2 (hf k hk _ hp)
  have one : ∀ a ∈ A, a.str = q.str := by
    intro a ha
    obtain ⟨v, hav⟩ := den_exists (eA.wf a ha)
    exact str_of_word' (eA.wf a ha) wq (eA.one a ha) hq hav (hin.2 v ((eA.den v).2 ⟨a, ha, hav⟩))
  have len := eA.length
  match A, eA, nA, len, one with
  | [], eA, _, _, _ => exact enum_ne_nil ws eA rfl
  | [a], _, _, len, _ => exact hc (by simpa using len.symm)
  | a :: b :: A, eA, nA, _, one =>
    exact (List.pairwise_cons.1 nA).1 b (by simp) (by rw [one a (by simp), one b (by simp)])

/-- No root of a dictionary has one word. -/
theorem roots_plural (ho : o.Valid) (hf : OnceKeys ks) (h : mkDictionary o ks rows = .ok d) {r : Script} (hr : r ∈ d.roots) :
    r.cardinal ≠ 1 := by
  intro hc
  obtain ⟨st, h1, hd, _⟩ := mkDictionary_inv ho h
  obtain ⟨e, he, rfl⟩ := hd.tabs_root hr
  have tab := (hd.tabs_of he).2
  have wr := hd.rootWf _ hr
  obtain ⟨k, us, hp, hne⟩ := tab.root
  obtain ⟨u, us', rfl⟩ := List.exists_cons_of_ne_nil hne
  have hu : u ∈ e.2 := hp.mem_iff.2 (by simp)
  have hdis : u.script.str ≠ e.1.str := by
    have := (hd.tables_distinct he).perm hp (fun h => h.symm)
    exact ((List.pairwise_cons.1 this).1 u (by simp)).symm
  have wu := tab.wf u hu
  have hin := tab.within u hu
  by_cases huc : u.script.cardinal = 1
  · obtain ⟨v, hv⟩ := den_exists wu
    exact hdis (str_of_word' wu wr huc hc hv (hin.2 v hv))
  rcases tab.from_ u hu with e1 | e1 | e1
  · exact hdis (by rw [e1])
  · obtain ⟨k', hk', hp'⟩ := sorted_key h1 e1 huc
    exact singular_accepts_none hf hk' hp' huc wr hc hin
  · exact huc e1

/-- The conditions on the keys give the ones of the lemmas. -/
theorem treeData_of (ho : o.Valid) (hk : NormalKeys ks) (hf : OnceKeys ks) (hs : DistinctWords ks) (h : mkDictionary o ks rows = .ok d)
    {st : Reading} (h1 : readDictionary ks rows = .ok st) (hroots : d.roots = st.roots) :
    TreeData st.roots (pySort lt (st.scripts.map (·.2))) := by
  have hk1 := fun s hs hc => sorted_key h1 (s := s) hs hc
  obtain ⟨st0, fs, hok, hap, hrows, hkeys, hn0, out, hout, k1, k2, k3, k4, _⟩ := readDictionary_inv h1
  obtain ⟨p1, p2⟩ := read_parsed (readKeys hkeys).2.1 hrows
  have hn := hn0 hk
  have key : ∀ s ∈ st.roots ++ (pySort lt (st.scripts.map (·.2))).filter fun s => s.cardinal ≠ 1, ∃ k ∈ ks, parseScript k = .ok s := by
    intro s hs
    rcases List.mem_append.1 hs with hs | hs
    · exact (p2 s (k3.subset hs)).resolve_right (roots_plural ho hf h (hroots ▸ hs))
    · obtain ⟨m, c⟩ := List.mem_filter.1 hs
      exact hk1 s m (by simpa using c)
  refine ⟨?_, graded_of ?_ ?_ ?_, ?_⟩
  · intro s hs
    obtain ⟨k, hkm, hp⟩ := key s hs
    exact ⟨parse_wf hp, parse_normal hp (hk k hkm s hp)⟩
  · intro s hs
    obtain ⟨k, hkm, hp⟩ := key s hs
    exact parse_wf hp
  · intro s hs
    obtain ⟨k, hkm, hp⟩ := key s hs
    exact hf k hkm s hp
  · intro a ha b hb hab hba
    obtain ⟨k, hkm, hp⟩ := key a ha
    obtain ⟨k', hkm', hp'⟩ := key b hb
    have := hs k hkm k' hkm' a b hp hp' hab hba
    subst this
    rw [hp, Except.ok.injEq] at hp'
    rw [hp']
  · refine List.Pairwise.perm ?_ (pySort_perm _ _).symm (fun h => fun e => h e.symm)
    rw [List.pairwise_map]
    refine List.Pairwise.imp_of_mem ?_ (List.pairwise_map.1 k2)
    intro a b ha hb hne
    rw [(hn.keys a ((k1 a).1 ha).1).1, (hn.keys b ((k1 b).1 hb).1).1]
    exact hne

theorem related_congr (ho : o.Valid) (h : mkDictionary o ks rows = .ok d) {r : Rel} {a b x y : Script} (ha : a.str = x.str)
    (hb : b.str = y.str) (hab : Related d r a b) : Related d r x y := by
  obtain ⟨st, _, hd, _⟩ := mkDictionary_inv ho h
  obtain ⟨⟨i, hi⟩, j, hj⟩ := related_index hab
  rw [hd.related_iff r hi hj] at hab
  exact (hd.related_iff r ((seqIndex_eq hi).2 ha) ((seqIndex_eq hj).2 hb)).2 hab

/-- The order in which the sets are iterated does not change the dictionary: same roots, same scripts in the same order, same tables
with the same parents, same relations.  Partial: each key lists its words once and no two keys have the same words; otherwise the
order matters (`C103_violated`).  For the relations of the tables no root is ignored, see `C101_violated`. -/
theorem C103_order_partial (ho : o.Valid) (ho' : o'.Valid) (hk : NormalKeys ks) (hi : NoIgnoredRoot rows) (hf : OnceKeys ks)
    (hs : DistinctWords ks) (h : mkDictionary o ks rows = .ok d) (h' : mkDictionary o' ks rows = .ok d') :
    d'.roots = d.roots ∧ d'.base.scripts = d.base.scripts ∧ d'.base.inhibitions = d.base.inhibitions ∧
    List.Forall₂ (fun e e' => e'.1 = e.1 ∧ e'.2.Perm e.2) d.base.tables.roots d'.base.tables.roots ∧
    ∀ r a b, Related d r a b ↔ Related d' r a b := by
  obtain ⟨st, h1, h2, h3, h4, h5⟩ := mkDictionary_tables h
  obtain ⟨st', h1', h2', h3', h4', h5'⟩ := mkDictionary_tables h'
  rw [h1, Except.ok.injEq] at h1'
  subst h1'
  have hperm := buildTables_perm ho ho' (treeData_of ho hk hf hs h h1 h3) h2 h2'
  have hall : ∀ t, t ∈ d.base.tables.all ↔ t ∈ d'.base.tables.all := by
    intro t
    simp only [mem_all]
    constructor
    · rintro ⟨e, he, ht⟩
      obtain ⟨e', he', _, hp⟩ := forall₂_mem_left hperm he
      exact ⟨e', he', hp.mem_iff.2 ht⟩
    · rintro ⟨e, he, ht⟩
      obtain ⟨e', he', _, hp⟩ := forall₂_mem_right hperm he
      exact ⟨e', he', hp.mem_iff.1 ht⟩
  have hscripts : d'.base.scripts = d.base.scripts := by
    rw [h5, h5']
    refine List.filter_congr fun s _ => ?_
    congr 1
    rw [Bool.eq_iff_iff, get?_isSome, get?_isSome]
    exact ⟨fun ⟨t, a, b⟩ => ⟨t, (hall t).2 a, b⟩, fun ⟨t, a, b⟩ => ⟨t, (hall t).1 a, b⟩⟩
  have hinh : d'.base.inhibitions = d.base.inhibitions := h4'.trans h4.symm
  refine ⟨h3'.trans h3.symm, hscripts, hinh, hperm, ?_⟩
  have hidx : ∀ x, d'.base.index x = d.base.index x := by
    intro x
    unfold DictBase.index
    rw [hscripts]
  obtain ⟨_, _, hd, _⟩ := mkDictionary_inv ho h
  obtain ⟨_, _, hd', _⟩ := mkDictionary_inv ho' h'
  -- the relations that are not inverses
  have key : ∀ r, (∀ a ∈ d.base.scripts, ∀ b ∈ d.base.scripts, Related d r a b ↔ Related d' r a b) →
      ∀ a b, Related d r a b ↔ Related d' r a b := by
    intro r hr a b
    have tr : ∀ {D D' : Dictionary} {O O' : SetOrder}, O.Valid → O'.Valid → mkDictionary O ks rows = .ok D → mkDictionary O' ks rows = .ok D' →
        D.base.scripts = d.base.scripts → (∀ a ∈ d.base.scripts, ∀ b ∈ d.base.scripts, Related D r a b → Related D' r a b) →
        Related D r a b → Related D' r a b := by
      intro D D' O O' hO hO' hD hD' hDs hr hab
      obtain ⟨⟨i, hi⟩, j, hj⟩ := related_index hab
      obtain ⟨x, hx, _, hxa⟩ := index_inv hi
      obtain ⟨y, hy, _, hyb⟩ := index_inv hj
      rw [hDs] at hx hy
      exact related_congr hO' hD' hxa hyb (hr x hx y hy (related_congr hO hD hxa.symm hyb.symm hab))
    exact ⟨tr ho ho' h h' rfl fun x hx y hy => (hr x hx y hy).1, tr ho' ho h' h hscripts fun x hx y hy => (hr x hx y hy).2⟩
  have hcont : ∀ a b, Related d .contains a b ↔ Related d' .contains a b := by
    refine key _ fun a ha b hb => ?_
    rw [C25_contains_iff ho h ha hb, C25_contains_iff ho' h' (hscripts ▸ ha) (hscripts ▸ hb)]
  have hfath : ∀ r a b, Related d (.father r) a b ↔ Related d' (.father r) a b := by
    intro r a b
    rw [C102_father ho h, C102_father ho' h', hscripts]
  intro r a b
  cases r with
  | contains => exact hcont a b
  | contained => rw [C24_inverse ho h, C24_inverse ho' h']; exact hcont b a
  | father r => exact hfath r a b
  | child r => rw [C24_inverse ho h, C24_inverse ho' h']; exact hfath r b a
  | sibling k =>
    rw [C26_sibling_iff ho h, C26_sibling_iff ho' h']
    have hin : ∀ x, d'.base.inhibited x k.name = d.base.inhibited x k.name := by
      intro x
      unfold DictBase.inhibited
      rw [hinh]
    constructor
    · rintro ⟨e, he, l, i, t, ht, u, hu, hrest⟩
      obtain ⟨e', he', e1, hp⟩ := forall₂_mem_left hperm he
      exact ⟨e', he', by rw [e1]; exact l, by rw [hin, e1]; exact i, t, hp.mem_iff.2 ht, u, hp.mem_iff.2 hu, hrest⟩
    · rintro ⟨e, he, l, i, t, ht, u, hu, hrest⟩
      obtain ⟨e', he', e1, hp⟩ := forall₂_mem_right hperm he
      exact ⟨e', he', by rw [← e1]; exact l, by rw [← hin, ← e1]; exact i, t, hp.mem_iff.1 ht, u, hp.mem_iff.1 hu, hrest⟩
  | table k =>
    refine key _ (fun a ha b hb => ?_) a b
    rw [C101_tables_partial ho hk hi h k ha hb, C101_tables_partial ho' hk hi h' k (hscripts ▸ ha) (hscripts ▸ hb)]
    exact ⟨fun ⟨t, x, y⟩ => ⟨t, (hall t).1 x, y⟩, fun ⟨t, x, y⟩ => ⟨t, (hall t).2 x, y⟩⟩
  | identity =>
    refine key _ (fun a ha b hb => ?_) a b
    obtain ⟨i, hi⟩ := indexed_of_mem ha
    obtain ⟨j, hj⟩ := indexed_of_mem hb
    rw [hd.related_iff _ hi hj, hd'.related_iff _ ((hidx a).trans hi) ((hidx b).trans hj)]
    rw [hd.rel.identity, hd'.rel.identity, hscripts]

/-- Under the conditions of `C21_builds_partial` every order gives a dictionary, and all are the same. -/
theorem C103_same_partial (ho : o.Valid) (ho' : o'.Valid) (hc : ConsistentData ks rows) (hf : FitKeys ks) (hp : PluralRoots rows)
    (hn : ¬ FourNested ks) (hs : DistinctWords ks) : ∃ d d', mkDictionary o ks rows = .ok d ∧ mkDictionary o' ks rows = .ok d' ∧
      d'.roots = d.roots ∧ d'.base.scripts = d.base.scripts ∧
      List.Forall₂ (fun e e' => e'.1 = e.1 ∧ e'.2.Perm e.2) d.base.tables.roots d'.base.tables.roots ∧
      ∀ r a b, Related d r a b ↔ Related d' r a b := by
  obtain ⟨d, h⟩ := C21_builds_partial ho hc hf hp hn
  obtain ⟨d', h'⟩ := C21_builds_partial ho' hc hf hp hn
  obtain ⟨c1, c2, _, c3, c4⟩ := C103_order_partial ho ho' (NormalKeys.of_consistent hc) (NoIgnoredRoot.of_consistent hc)
    (fun k hk s hs => (hf k hk s hs).1) hs h h'
  exact ⟨d, d', h, h', c1, c2, c3, c4⟩

/-- The tables of a root, with the paradigms assigned to it. -/
theorem dict_tree (ho : o.Valid) (hk : NormalKeys ks) (hf : OnceKeys ks) (hs : DistinctWords ks) (h : mkDictionary o ks rows = .ok d)
    {e : Script × List Table} (he : e ∈ d.base.tables.roots) : ∃ st rs assigned ts cells, readDictionary ks rows = .ok st ∧
      d.roots = st.roots ∧
      st.roots.mapM (fun r => do return (r, ← singularSequences r)) = Except.ok rs ∧
      (pySort lt (st.scripts.map (·.2))).mapM (assignRoot rs) = .ok assigned ∧
      e.2.Perm (ts ++ cells) ∧ TreeOf e.1 (assignedTo assigned e.1) ts ∧ ∀ t ∈ cells, t.kind = .cell := by
  obtain ⟨st, h1, h2, h3, _⟩ := mkDictionary_tables h
  obtain ⟨rs, assigned, t1, t2, t3⟩ := buildTables_tree ho (treeData_of ho hk hf hs h h1 h3) h2
  obtain ⟨r, hr, rfl, ts, cells, p1, p2, L, k, _, _, rfl⟩ := forall₂_mem_right t3 he
  refine ⟨st, rs, assigned, ts, _, h1, h3, t1, t2, p1, p2, fun t ht => ?_⟩
  obtain ⟨q, _, rfl⟩ := List.mem_map.1 ht
  rfl

/-- The parent of a table with several words, other than a root, is a table of the dictionary that accepts its script, and no
accepting table has a script before the one of the parent.  The table is regular when this acceptance is.  Partial: each key lists
its words once and no two keys have the same words. -/
theorem C103_parent_partial (ho : o.Valid) (hk : NormalKeys ks) (hf : OnceKeys ks) (hs : DistinctWords ks)
    (h : mkDictionary o ks rows = .ok d) {s : Script} {k : TableKind} {r : Bool} {p : Table} (hm : Table.sub s k r p ∈ d.base.tables.all)
    (hc : s.cardinal ≠ 1) : p ∈ d.base.tables.all ∧ p.script.str ≠ s.str ∧ p.accept s = .ok (true, r) ∧
      ∀ q ∈ d.base.tables.all, q.script.str ≠ s.str → ∀ b, q.accept s = .ok (true, b) → q ≠ p → lt p.script q.script = true := by
  obtain ⟨_, _, hd, _⟩ := mkDictionary_inv ho h
  obtain ⟨e, he, hte⟩ := mem_all.1 hm
  have tab := (hd.tabs_of he).2
  obtain ⟨st, rs, assigned, ts, cells, h1, h3, t1, t2, p1, p2, hcells⟩ := dict_tree ho hk hf hs h he
  have td := treeData_of ho hk hf hs h h1 h3
  have hts : Table.sub s k r p ∈ ts := by
    rcases List.mem_append.1 (p1.mem_iff.1 hte) with h | h
    · exact h
    · exact absurd ((tab.cell _ hte).1 (hcells _ h)) hc
  rcases p2.form _ hts with ⟨_, _, e'⟩ | ⟨s', k', r', p', e', hs', hne, hk', b1, b2, b3, b4⟩
  · cases e'
  injection e' with e1 e2 e3 e4
  subst e1 e2 e3 e4
  have hpe : p ∈ e.2 := p1.mem_iff.2 (by simp [b1])
  refine ⟨mem_all.2 ⟨e, he, hpe⟩, b2, b3, fun q hq hqs b hb hqp => ?_⟩
  obtain ⟨e', he', hqe⟩ := mem_all.1 hq
  have tab' := (hd.tabs_of he').2
  have ws : WF s := tab.wf _ hte
  have hin := accept_within (tab'.wf q hqe) ws hb
  obtain ⟨w, hw⟩ := den_exists ws
  have := hd.tabs_unique he he' ((tab.within _ hte).2 w hw) ((tab'.within q hqe).2 w (hin.2 w hw))
  subst this
  have hqc : q.script.cardinal ≠ 1 := by
    intro hq1
    obtain ⟨k0, hk0, hp0⟩ := sorted_key h1 (List.mem_filter.1 ((assignedTo_sublist t2 _).subset hs')).1 hc
    exact singular_accepts_none hf hk0 hp0 hc (tab.wf q hqe) hq1 hin
  have hqts : q ∈ ts := by
    rcases List.mem_append.1 (p1.mem_iff.1 hqe) with h | h
    · exact h
    · exact absurd ((tab.cell _ hqe).1 (hcells _ h)) hqc
  have hl := b4 q hqts hqs b hb
  have from_ : ∀ t ∈ ts, WF t.script ∧ Plain t.script := by
    intro t ht
    refine td.wf _ ?_
    rcases p2.form t ht with ⟨k, _, rfl⟩ | ⟨s, k, r, p, rfl, h1, _⟩
    · exact List.mem_append_left _ (h3 ▸ (hd.tabs_of he).1)
    · exact List.mem_append_right _ ((assignedTo_sublist t2 _).subset h1)
  have wq := from_ q hqts
  have wp := from_ p b1
  have hstr : p.script.str ≠ q.script.str := fun e => hqp (hd.table_unique hq (mem_all.2 ⟨_, he, hpe⟩) e.symm)
  rcases lt_total wp.1 wp.2 wq.1 wq.2 hstr with h | h
  · exact h
  · rw [h] at hl; cases hl

/-- A key with several words within a root of the dictionary, not ignored, is kept in the dictionary exactly when it is the root or
another table accepts it.  Partial: each key lists its words once and no two keys have the same words. -/
theorem C103_kept_partial (ho : o.Valid) (hk : NormalKeys ks) (hf : OnceKeys ks) (hs : DistinctWords ks)
    (h : mkDictionary o ks rows = .ok d) {k : Str} {s r : Script} (hks : k ∈ ks) (hp : parseScript k = .ok s) (hc : s.cardinal ≠ 1)
    (hig : ¬ Marked rows (c!"is_ignored") k) (hr : r ∈ d.roots) (hin : Within s r) :
    s ∈ d.base.scripts ↔ s.str = r.str ∨ ∃ q ∈ d.base.tables.all, q.script.str ≠ s.str ∧ ∃ b, q.accept s = .ok (true, b) := by
  obtain ⟨st', h1', hd, _⟩ := mkDictionary_inv ho h
  have ws := parse_wf hp
  obtain ⟨e, he, rfl⟩ := hd.tabs_root hr
  have tab := (hd.tabs_of he).2
  obtain ⟨st, rs, assigned, ts, cells, h1, h3, t1, t2, p1, p2, hcells⟩ := dict_tree ho hk hf hs h he
  rw [h1, Except.ok.injEq] at h1'
  subst h1'
  obtain ⟨w, hw⟩ := den_exists ws
  have same : ∀ e' ∈ d.base.tables.roots, ∀ t ∈ e'.2, ∀ v, Den s v → Den t.script v → e' = e := by
    intro e' he' t ht v hv hv'
    exact hd.tabs_unique he' he (((hd.tabs_of he').2.within t ht).2 v hv') (hin.2 v hv)
  have inTs : ∀ t ∈ e.2, t.script.str = s.str → t ∈ ts := by
    intro t ht hts
    rcases List.mem_append.1 (p1.mem_iff.1 ht) with h | h
    · exact h
    · exact absurd ((cardinal_of_str (tab.wf t ht) ws hts).symm.trans ((tab.cell t ht).1 (hcells t h))) hc
  -- the key is read
  have hsorted : s ∈ pySort lt (st.scripts.map (·.2)) := by
    obtain ⟨st0, fs, hok, hap, hrows, hkeys, hn0, out, hout, k1, k2, k3, k4, _⟩ := readDictionary_inv h1
    obtain ⟨q1, _⟩ := read_parsed (readKeys hkeys).2.1 hrows
    have hn := hn0 hk
    obtain ⟨x, hx⟩ := Option.isSome_iff_exists.1 (hn.present k hks)
    have hm := fsGet_mem hx
    have hxk : x.str = k := (hn.keys _ hm).1
    have hsk : s.str = k := hk k hks s hp
    have hxs : x = s := by
      rcases q1 _ hm with ⟨_, h⟩ | h
      · rw [hp, Except.ok.injEq] at h; exact h.symm
      · exact absurd ((cardinal_of_str (hok.wf _ hm) ws (hxk.trans hsk.symm)).symm.trans h) hc
    subst hxs
    rw [mem_pySort (lt := lt), List.mem_map]
    refine ⟨(k, x), (k1 _).2 ⟨hm, fun y hy hyk => ?_⟩, rfl⟩
    replace hyk : y.str = k := hyk
    rcases List.mem_append.1 hy with hy | hy
    · exact hig (hyk ▸ (hn.ignored y hy).1)
    · obtain ⟨⟨k', hk'⟩, v, hv, hno⟩ := (hout y).1 hy
      exact hno e.1 (k3.subset (h3 ▸ hr)) (hin.2 v ((den_of_str (hok.wf _ hk') ws (hyk.trans hsk.symm) v).1 hv))
  -- and assigned to the root
  have hass : s ∈ assignedTo assigned e.1 := by
    obtain ⟨y, hy, hsy⟩ := mapM_each t2 hsorted
    unfold assignRoot at hsy
    rw [if_neg hc, bind_ok] at hsy
    obtain ⟨ss, hss, hsy⟩ := hsy
    rw [bind_ok] at hsy
    obtain ⟨q, hq, hsy⟩ := hsy
    have eS := enum_of_run ws hss
    have hqm : q ∈ ss := by
      unfold first at hq
      split at hq
      · cases hq
      · rw [Except.ok.injEq] at hq; subst hq; simp
    split at hsy
    · cases hsy
    rename_i r' hr'
    rw [pure_ok] at hsy
    subst hsy
    have her : r' = e.1 := by
      unfold rootOfSeq at hr'
      rw [Option.map_eq_some_iff] at hr'
      obtain ⟨x, hx, rfl⟩ := hr'
      have hxm := List.mem_reverse.1 (List.mem_of_find?_eq_some hx)
      have hany := List.find?_some hx
      obtain ⟨z, hz, hzq⟩ := List.any_eq_true.1 hany
      obtain ⟨r0, hr0, hx0⟩ := (mapM_mem t1).1 hxm
      rw [bind_ok] at hx0
      obtain ⟨L, hL, hx0⟩ := hx0
      rw [pure_ok] at hx0
      subst hx0
      have hr0d : r0 ∈ d.roots := h3 ▸ hr0
      have eL := enum_of_run (hd.rootWf r0 hr0d) hL
      obtain ⟨v, hv⟩ := den_exists (eS.wf q hqm)
      have hzv := (den_of_str (eL.wf z hz) (eS.wf q hqm) (by simpa [pyEq] using hzq) v).2 hv
      exact hd.root_unique hr0d hr ((eL.den v).2 ⟨z, hz, hzv⟩) (hin.2 v ((eS.den v).2 ⟨q, hqm, hv⟩))
    subst her
    unfold assignedTo
    simp only [List.mem_filterMap, id]
    exact ⟨_, ⟨_, hy, rfl⟩, by simp [pyEq]⟩
  have back : ∀ t ∈ e.2, t.script.str = s.str → s ∈ d.base.scripts := by
    intro t ht hts
    rw [hd.scripts]
    refine ⟨hsorted, .inr (get?_isSome.2 ⟨t, mem_all.2 ⟨e, he, ht⟩, hts⟩)⟩
  constructor
  · intro hm
    obtain ⟨e', he', t, ht, hts⟩ := hd.plural_table hm hc
    have := same e' he' t ht w hw ((den_of_str ((hd.tabs_of he').2.wf t ht) ws hts w).2 hw)
    subst this
    rcases p2.form t (inTs t ht hts) with ⟨_, _, rfl⟩ | ⟨s', k', r', p', rfl, hs', hne, hk', b1, b2, b3, b4⟩
    · exact .inl hts.symm
    · right
      have ws' : WF s' := tab.wf _ ht
      have hss : s' = s := by
        -- both are scripts of the key
        obtain ⟨k0, hk0, hp0⟩ := sorted_key h1 (List.mem_filter.1 ((assignedTo_sublist t2 _).subset hs')).1
          (by rw [cardinal_of_str ws' ws hts]; exact hc)
        have : k0 = k := by rw [← hk k0 hk0 s' hp0, ← hk k hks s hp]; exact hts
        subst this
        rw [hp, Except.ok.injEq] at hp0
        exact hp0.symm
      subst hss
      exact ⟨p', mem_all.2 ⟨_, he, p1.mem_iff.2 (by simp [b1])⟩, b2, r', b3⟩
  · rintro (hsr | ⟨q, hq, hqs, b, hb⟩)
    · obtain ⟨k0, _, hm⟩ := p2.top
      exact back _ (p1.mem_iff.2 (List.mem_append_left _ hm)) hsr.symm
    · by_cases hsr : s.str = e.1.str
      · obtain ⟨k0, _, hm⟩ := p2.top
        exact back _ (p1.mem_iff.2 (List.mem_append_left _ hm)) hsr.symm
      obtain ⟨e', he', hqe⟩ := mem_all.1 hq
      have hqw := accept_within ((hd.tabs_of he').2.wf q hqe) ws hb
      have := same e' he' q hqe w hw (hqw.2 w hw)
      subst this
      rcases List.mem_append.1 (p1.mem_iff.1 hqe) with hqt | hqt
      · obtain ⟨t, ht, hts⟩ := p2.kept s hass hsr q hqt hqs b hb
        exact back t (p1.mem_iff.2 (List.mem_append_left _ ht)) (by rw [hts])
      · exact absurd hqt (fun hqt => singular_accepts_none hf hks hp hc (tab.wf q hqe) ((tab.cell _ hqe).1 (hcells _ hqt)) hqw)

theorem distinctWords_of (h : ∀ a ∈ ks, ∀ b ∈ ks,
      ((parseScript a).toOption.bind fun s => (parseScript b).toOption.bind fun t => (contains s t).toOption) = some true →
      ((parseScript b).toOption.bind fun s => (parseScript a).toOption.bind fun t => (contains s t).toOption) = some true → a = b) :
    DistinctWords ks := by
  intro k hk k' hk' s s' hp hp' h1 h2
  refine h k hk k' hk' ?_ ?_
  · rw [hp, hp']; simp only [Except.toOption, Option.bind_some]
    rw [(contains_iff (parse_wf hp) (parse_wf hp')).2 h2]
  · rw [hp, hp']; simp only [Except.toOption, Option.bind_some]
    rw [(contains_iff (parse_wf hp') (parse_wf hp)).2 h1]

theorem onceKeys_of (h : FitKeys ks) : OnceKeys ks := fun k hk s hs => (h k hk s hs).1

/-- The order that iterates every set backwards. -/
def reverseOrder : SetOrder := ⟨List.reverse, List.reverse, List.reverse⟩

theorem reverseOrder_valid : reverseOrder.Valid :=
  ⟨fun l => List.reverse_perm l, fun l => List.reverse_perm l, fun l => List.reverse_perm l⟩

/-- The tables with several words, with the parent. -/
def Dictionary.parents (d : Dictionary) : List (Str × Option Str) :=
  (d.base.tables.all.filter fun t => t.script.cardinal ≠ 1).map fun t => (t.script.str, match t with
    | .root _ _ => none
    | .sub _ _ _ p => some p.script.str)

-- Data that meet the hypotheses: in `I:` the parent of `M:` is `F:`, in `F:O:.` the key `O:U:.` is not kept.
example : DistinctWords exampleKeys ∧ OnceKeys exampleKeys ∧ NormalKeys exampleKeys ∧ NoIgnoredRoot exampleRows ∧
    ((mkDictionary plainOrder exampleKeys exampleRows).map (·.parents)) = .ok [(c!"O:", none), (c!"M:", none), (c!"B:+T:", some (c!"M:"))] ∧
    ((mkDictionary reverseOrder exampleKeys exampleRows).map (·.parents)) = .ok [(c!"O:", none), (c!"B:+T:", some (c!"M:")), (c!"M:", none)] :=
  ⟨distinctWords_of (by decide +kernel), onceKeys_of (fitKeys_of (by decide +kernel)), NormalKeys.of_consistent example_consistent,
    NoIgnoredRoot.of_consistent example_consistent, by decide +kernel, by decide +kernel⟩

example : DistinctWords [c!"I:", c!"F:", c!"M:"] ∧ OnceKeys [c!"I:", c!"F:", c!"M:"] ∧
    ((mkDictionary plainOrder [c!"I:", c!"F:", c!"M:"] [rootRow (c!"I:")]).map (·.parents)) =
      .ok [(c!"I:", none), (c!"F:", some (c!"I:")), (c!"M:", some (c!"F:"))] :=
  ⟨distinctWords_of (by decide +kernel), onceKeys_of (fitKeys_of (by decide +kernel)), by decide +kernel⟩

example : DistinctWords [c!"F:O:.", c!"O:O:.", c!"O:U:.", c!"j.+c."] ∧ OnceKeys [c!"F:O:.", c!"O:O:.", c!"O:U:.", c!"j.+c."] ∧
    ((mkDictionary plainOrder [c!"F:O:.", c!"O:O:.", c!"O:U:.", c!"j.+c."] [rootRow (c!"F:O:.")]).map (·.parents)) =
      .ok [(c!"F:O:.", none), (c!"O:O:.", some (c!"F:O:.")), (c!"j.+c.", some (c!"F:O:."))] :=
  ⟨distinctWords_of (by decide +kernel), onceKeys_of (fitKeys_of (by decide +kernel)), by decide +kernel⟩

/-- The claim fails when keys have the same words: here the script `O:U:.` is in the dictionary for one order of the sets and not
for another. -/
theorem C103_violated : ∃ ks rows d d' s, NormalKeys ks ∧ NoIgnoredRoot rows ∧ OnceKeys ks ∧ mkDictionary plainOrder ks rows = .ok d ∧
    mkDictionary reverseOrder ks rows = .ok d' ∧ reverseOrder.Valid ∧ plainOrder.Valid ∧ d.mem s = false ∧ d'.mem s = true := by
  have h : ∀ D ∈ [(plainOrder, false), (reverseOrder, true)],
      ((mkDictionary D.1 [c!"F:O:.", c!"O:O:.", c!"U:O:.+A:O:.", c!"O:U:.+O:A:.", c!"O:U:."] [rootRow (c!"F:O:.")]).bind fun d =>
        (parseScript (c!"O:U:.")).map fun s => d.mem s) = .ok D.2 := by decide +kernel
  have h1 := h (plainOrder, false) (by simp)
  have h2 := h (reverseOrder, true) (by simp)
  simp only [] at h1 h2
  obtain ⟨s, hs⟩ : ∃ s, parseScript (c!"O:U:.") = .ok s := by
    cases hs : parseScript (c!"O:U:.") with
    | ok s => exact ⟨s, rfl⟩
    | error e =>
      have : (parseScript (c!"O:U:.")).isOk = true := by decide +kernel
      rw [hs] at this
      cases this
  rw [hs] at h1 h2
  cases hd : mkDictionary plainOrder [c!"F:O:.", c!"O:O:.", c!"U:O:.+A:O:.", c!"O:U:.+O:A:.", c!"O:U:."] [rootRow (c!"F:O:.")] with
  | error e => rw [hd] at h1; cases h1
  | ok d =>
    cases hd' : mkDictionary reverseOrder [c!"F:O:.", c!"O:O:.", c!"U:O:.+A:O:.", c!"O:U:.+O:A:.", c!"O:U:."] [rootRow (c!"F:O:.")] with
    | error e => rw [hd'] at h2; cases h2
    | ok d' =>
      rw [hd] at h1
      rw [hd'] at h2
      simp only [Except.bind, Except.map, Except.ok.injEq] at h1 h2
      refine ⟨_, _, d, d', s, ?_, ?_, onceKeys_of (fitKeys_of (by decide +kernel)), hd, hd', reverseOrder_valid, plainOrder_valid, h1, h2⟩
      · have h : ∀ k ∈ [c!"F:O:.", c!"O:O:.", c!"U:O:.+A:O:.", c!"O:U:.+O:A:.", c!"O:U:."], (parseScript k).map (·.str) = .ok k := by
          decide +kernel
        intro k hk s hs
        have := h k hk
        rw [hs] at this
        exact Except.ok.inj this
      · rintro k ⟨_, ⟨c', v', h2, _⟩⟩
        simp [rootRow] at h2

end Verif
