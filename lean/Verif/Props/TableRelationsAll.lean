import Verif.Lemmas.TableRelAll
import Verif.Props.TableRelations

/-
C101 continued: the table relations of any dictionary, also with ignored roots.
-/

namespace Verif
open Script DictOk

variable {o : SetOrder} {ks : List Str} {rows : List (Str × Str × Str)} {d : Dictionary}

/-- A script of the dictionary has a table exactly when a table contains it. -/
theorem has_table_iff {sorted : List Script} (hd : DictOk d sorted) {a : Script} (ha : a ∈ d.base.scripts) :
    (d.base.tables.get? a).isSome ↔ ∃ t ∈ d.base.tables.all, Within a t.script := by
  constructor
  · intro h
    obtain ⟨p, hp, hpa⟩ := get?_isSome.1 h
    obtain ⟨e, he, hpe⟩ := mem_all.1 hp
    exact ⟨p, hp, within_of_str (hd.script_wf ha) ((hd.tabs_of he).2.wf p hpe) hpa.symm⟩
  · rintro ⟨t, ht, hw⟩
    obtain ⟨e, he, hte⟩ := mem_all.1 ht
    obtain ⟨w, hwa⟩ := den_exists (hd.script_wf ha)
    obtain ⟨p, hp, hpa⟩ := hd.table_of_within he ha hwa (((hd.tabs_of he).2.within t hte).2 w (hw.2 w hwa))
    exact get?_isSome.2 ⟨p, mem_all.2 ⟨e, he, hp⟩, hpa⟩

/-- Two scripts are in the relation `table_k` exactly when a table of rank `k` contains both: in every dictionary, whatever its keys
and its ignored roots, for two scripts with different texts and for a script that a table contains.  What is left, a script in no
table and itself, is `C101_without_table`. -/
theorem C101_tables (ho : o.Valid) (h : mkDictionary o ks rows = .ok d) (k : Fin 6) {a b : Script} (ha : a ∈ d.base.scripts)
    (hb : b ∈ d.base.scripts) (hab : a.str ≠ b.str ∨ ∃ t ∈ d.base.tables.all, Within a t.script) :
    Related d (.table k) a b ↔ ∃ t ∈ d.base.tables.all, t.rank = k.val ∧ Within a t.script ∧ Within b t.script := by
  obtain ⟨st, _, hd, _⟩ := mkDictionary_inv ho h
  obtain ⟨i, hia⟩ := indexed_of_mem ha
  obtain ⟨j, hjb⟩ := indexed_of_mem hb
  have hij : i ≠ j ∨ ∃ x, d.base.index x = .ok i ∧ (d.base.tables.get? x).isSome := by
    rcases hab with hab | hab
    · exact .inl fun e => hab ((seqIndex_eq hia).1 (by rw [e]; exact hjb))
    · exact .inr ⟨a, hia, (has_table_iff hd ha).2 hab⟩
  rw [hd.related_iff _ hia hjb, hd.table_mem_all hij]
  constructor
  · rintro ⟨_, c, s, t, c1, c2, hs, hst, hr⟩
    have hsm := List.mem_of_getElem? hs
    obtain ⟨h1, h2⟩ := get?_some hst
    obtain ⟨e, he, hte⟩ := mem_all.1 h1
    have hsw := within_of_str (hd.script_wf hsm) ((hd.tabs_of he).2.wf t hte) h2.symm
    -- the position `c` is the position of `s`
    have key : ∀ {x : Script} {i : Nat}, x ∈ d.base.scripts → d.base.index x = .ok i → (c, i) ∈ d.relation .contains → Within x s := by
      intro x i hx hxi hc
      have hidx : ∃ z, d.base.index z = .ok c := by
        rcases hd.contains_mem.1 hc with ⟨e, _⟩ | ⟨_, _, p, _, _, hp, _⟩
        · exact ⟨x, e ▸ hxi⟩
        · exact ⟨_, hp⟩
      obtain ⟨z, hz⟩ := hidx
      obtain ⟨y, _, hcy, hyz⟩ := index_inv hz
      rw [hs, Option.some.injEq] at hcy
      subst hcy
      exact (hd.contains_within hsm hx ((seqIndex_eq hz).2 hyz.symm) hxi).1 hc
    exact ⟨t, h1, hr, (key ha hia c1).trans hsw, (key hb hjb c2).trans hsw⟩
  · rintro ⟨t, ht, hr, hat, hbt⟩
    obtain ⟨e, he, hte⟩ := mem_all.1 ht
    have tab := (hd.tabs_of he).2
    obtain ⟨c, hc⟩ := hd.indexed he hte
    obtain ⟨y, hy, hcy, hyt⟩ := index_inv hc
    have hyw := within_of_str (tab.wf t hte) (hd.script_wf hy) hyt.symm
    have hyc := (seqIndex_eq hc).2 hyt.symm
    refine ⟨?_, c, y, t, (hd.contains_within hy ha hyc hia).2 (hat.trans hyw), (hd.contains_within hy hb hyc hjb).2 (hbt.trans hyw), hcy,
      hd.get?_eq ht hyt.symm, hr⟩
    -- the table of a script within `t` is a table of the same root
    have key : ∀ {x : Script}, x ∈ d.base.scripts → Within x t.script → ∃ p ∈ e.2, p.script.str = x.str := by
      intro x hx hxt
      obtain ⟨w, hw⟩ := den_exists (hd.script_wf hx)
      exact hd.table_of_within he hx hw ((tab.within t hte).2 w (hxt.2 w hw))
    obtain ⟨p, hp, hpa⟩ := key ha hat
    obtain ⟨q, hq, hqb⟩ := key hb hbt
    by_cases hpq : p = q
    · subst hpq
      have := (seqIndex_eq hia).2 (hpa.symm.trans hqb)
      rw [show seqIndex d.base.scripts b = .ok j from hjb, Except.ok.injEq] at this
      exact .inr ⟨this.symm, a, ha, hia⟩
    · exact .inl ⟨e, he, p, hp, q, hq, hpq, (seqIndex_eq hia).2 hpa.symm, (seqIndex_eq hjb).2 hqb.symm⟩

/-- Two scripts are in the relation `table_0` exactly when one root contains both, in every dictionary without a root of one word, for
two scripts with different texts and for a script that a root contains. -/
theorem C101_root (ho : o.Valid) (h : mkDictionary o ks rows = .ok d) {a b : Script} (ha : a ∈ d.base.scripts)
    (hb : b ∈ d.base.scripts) (hne : ∀ r ∈ d.roots, r.cardinal ≠ 1) (hab : a.str ≠ b.str ∨ ∃ r ∈ d.roots, Within a r) :
    Related d (.table 0) a b ↔ ∃ r ∈ d.roots, Within a r ∧ Within b r := by
  obtain ⟨st, _, hd, _⟩ := mkDictionary_inv ho h
  have root : ∀ r ∈ d.roots, ∃ t ∈ d.base.tables.all, t.rank = 0 ∧ t.script = r := by
    intro r hr
    obtain ⟨e, he, rfl⟩ := hd.tabs_root hr
    obtain ⟨k, us, hp, _⟩ := (hd.tabs_of he).2.root
    have hm : Table.root e.1 k ∈ e.2 := hp.mem_iff.2 (by simp)
    have hkc : k ≠ .cell := fun hc => hne _ hr (((hd.tabs_of he).2.cell _ hm).1 hc)
    refine ⟨_, mem_all.2 ⟨e, he, hm⟩, ?_, ?_⟩ <;> cases k <;> first | rfl | exact absurd rfl hkc
  have hab' : a.str ≠ b.str ∨ ∃ t ∈ d.base.tables.all, Within a t.script := by
    rcases hab with hab | ⟨r, hr, hw⟩
    · exact .inl hab
    · obtain ⟨t, ht, _, rfl⟩ := root r hr
      exact .inr ⟨t, ht, hw⟩
  rw [C101_tables ho h 0 ha hb hab']
  constructor
  · rintro ⟨t, ht, _, h1, h2⟩
    obtain ⟨e, he, hte⟩ := mem_all.1 ht
    have hw := (hd.tabs_of he).2.within t hte
    exact ⟨e.1, (hd.tabs_of he).1, h1.trans hw, h2.trans hw⟩
  · rintro ⟨r, hr, h1, h2⟩
    obtain ⟨t, ht, h0, rfl⟩ := root r hr
    exact ⟨t, ht, h0, h1, h2⟩

/-- What the code does for a script in no table: it is in the relation `table_k` with itself exactly when the last script before it
that a table contains is. -/
theorem C101_without_table (ho : o.Valid) (hk : NormalKeys ks) (h : mkDictionary o ks rows = .ok d) (k : Fin 6)
    {xs ys zs : List Script} {p a : Script} (he : d.base.scripts = xs ++ p :: (ys ++ a :: zs))
    (hp : ∃ t ∈ d.base.tables.all, Within p t.script) (hy : ∀ y ∈ ys, ∀ t ∈ d.base.tables.all, ¬ Within y t.script)
    (ha : ∀ t ∈ d.base.tables.all, ¬ Within a t.script) :
    Related d (.table k) a a ↔ Related d (.table k) p p := by
  obtain ⟨st, _, hd, _⟩ := mkDictionary_inv ho h
  have hnd : (d.base.scripts.map Script.str).Nodup := List.pairwise_map.2 ((C22_positions_partial ho hk h).1.imp fun h => h.2.2)
  have hpm : p ∈ d.base.scripts := by rw [he]; simp
  have ham : a ∈ d.base.scripts := by rw [he]; simp
  have none : ∀ x ∈ d.base.scripts, (∀ t ∈ d.base.tables.all, ¬ Within x t.script) → d.base.tables.get? x = none := by
    intro x hx hn
    by_contra hne
    obtain ⟨t, ht, hw⟩ := (has_table_iff hd hx).1 (Option.isSome_iff_ne_none.2 hne)
    exact hn t ht hw
  obtain ⟨i, hi⟩ := indexed_of_mem hpm
  obtain ⟨j, hj⟩ := indexed_of_mem ham
  rw [hd.related_iff _ hj hj, hd.related_iff _ hi hi]
  exact hd.table_stale hnd he ((has_table_iff hd hpm).2 hp) (fun y hy' => none y (by rw [he]; simp [hy']) (hy y hy')) (none a ham ha) hi hj k

-- with an ignored root: the scripts of the other root are related as said, and those of the ignored root only to themselves
example :
    ((mkDictionary plainOrder [c!"O:", c!"M:"] [rootRow (c!"O:"), rootRow (c!"M:"), ignoredRow (c!"M:")]).map fun d =>
      (d.base.scripts.map Script.str, d.base.tables.all.map fun t => (t.script.str, t.rank))) =
      .ok ([c!"U:", c!"A:", c!"S:", c!"B:", c!"T:", c!"O:"], [(c!"O:", 0), (c!"U:", 6), (c!"A:", 6)]) ∧
    ((mkDictionary plainOrder [c!"O:", c!"M:"] [rootRow (c!"O:"), rootRow (c!"M:"), ignoredRow (c!"M:")]).bind fun d =>
      d.objectTexts (c!"U:") (.table 0)) = .ok [c!"U:", c!"A:", c!"O:"] ∧
    ((mkDictionary plainOrder [c!"O:", c!"M:"] [rootRow (c!"O:"), rootRow (c!"M:"), ignoredRow (c!"M:")]).bind fun d =>
      d.objectTexts (c!"B:") (.table 0)) = .ok [c!"B:"] ∧
    (mkDictionary plainOrder [c!"O:", c!"M:"] [rootRow (c!"O:"), rootRow (c!"M:"), ignoredRow (c!"M:")]).isOk := by
  decide +kernel

end Verif
