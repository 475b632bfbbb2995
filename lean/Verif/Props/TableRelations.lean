import Verif.Lemmas.TableRel
import Verif.Lemmas.FatherRel

/-
C101, C102: the table relations and the father relations of a dictionary, said by the words and the roles of the scripts.
-/

namespace Verif
open Script DictOk

variable {o : SetOrder} {ks : List Str} {rows : List (Str × Str × Str)} {d : Dictionary}

/-! ### C101 -/

/-- Two scripts are in the relation `table_k` exactly when a table of rank `k` contains both.  Partial: the keys are the texts of
scripts and no root is ignored; with an ignored root the claim fails (`C101_violated`). -/
theorem C101_tables_partial (ho : o.Valid) (hk : NormalKeys ks) (hi : NoIgnoredRoot rows) (h : mkDictionary o ks rows = .ok d) (k : Fin 6)
    {a b : Script} (ha : a ∈ d.base.scripts) (hb : b ∈ d.base.scripts) :
    Related d (.table k) a b ↔ ∃ t ∈ d.base.tables.all, t.rank = k.val ∧ Within a t.script ∧ Within b t.script := by
  obtain ⟨st, _, hd, _⟩ := mkDictionary_inv ho h
  have htab : ∀ s ∈ d.base.scripts, (d.base.tables.get? s).isSome := fun s hs => every_table ho hk hi h hs
  obtain ⟨i, hia⟩ := indexed_of_mem ha
  obtain ⟨j, hjb⟩ := indexed_of_mem hb
  rw [hd.related_iff _ hia hjb, hd.table_mem htab]
  constructor
  · rintro ⟨_, c, s, t, c1, c2, hs, hst, hr⟩
    have hsm := List.mem_of_getElem? hs
    obtain ⟨h1, h2⟩ := get?_some hst
    obtain ⟨e, he, hte⟩ := mem_all.1 h1
    have hsw := within_of_str (hd.script_wf hsm) ((hd.tabs_of he).2.wf t hte) h2.symm
    -- the position `c` is the position of `s`
    have key : ∀ {x : Script} {i : Nat}, x ∈ d.base.scripts → d.base.index x = .ok i → (c, i) ∈ d.relation .contains → Within x s := by
      intro x i hx hxi hc
      have hidx : ∃ z, d.base.index z = .ok c := by
        rcases hd.contains_mem.1 hc with ⟨e, _⟩ | ⟨_, _, p, _, _, hp, _⟩
        · exact ⟨x, e ▸ hxi⟩
        · exact ⟨_, hp⟩
      obtain ⟨z, hz⟩ := hidx
      obtain ⟨y, _, hcy, hyz⟩ := index_inv hz
      rw [hs, Option.some.injEq] at hcy
      subst hcy
      exact (hd.contains_within hsm hx ((seqIndex_eq hz).2 hyz.symm) hxi).1 hc
    exact ⟨t, h1, hr, (key ha hia c1).trans hsw, (key hb hjb c2).trans hsw⟩
  · rintro ⟨t, ht, hr, hat, hbt⟩
    obtain ⟨e, he, hte⟩ := mem_all.1 ht
    have tab := (hd.tabs_of he).2
    obtain ⟨c, hc⟩ := hd.indexed he hte
    obtain ⟨y, hy, hcy, hyt⟩ := index_inv hc
    have hyw := within_of_str (tab.wf t hte) (hd.script_wf hy) hyt.symm
    have hyc := (seqIndex_eq hc).2 hyt.symm
    refine ⟨?_, c, y, t, (hd.contains_within hy ha hyc hia).2 (hat.trans hyw), (hd.contains_within hy hb hyc hjb).2 (hbt.trans hyw), hcy,
      hd.get?_eq ht hyt.symm, hr⟩
    -- the table of a script within `t` is a table of the same root
    have key : ∀ {x : Script}, x ∈ d.base.scripts → Within x t.script → ∃ p ∈ e.2, p.script.str = x.str := by
      intro x hx hxt
      obtain ⟨p, hp, hpx⟩ := get?_isSome.1 (htab x hx)
      obtain ⟨e', he', hpe⟩ := mem_all.1 hp
      have tab' := (hd.tabs_of he').2
      obtain ⟨w, hw⟩ := den_exists (hd.script_wf hx)
      have := hd.tabs_unique he he' ((tab.within t hte).2 w (hxt.2 w hw))
        ((tab'.within p hpe).2 w ((den_of_str (tab'.wf p hpe) (hd.script_wf hx) hpx w).2 hw))
      subst this
      exact ⟨p, hpe, hpx⟩
    obtain ⟨p, hp, hpa⟩ := key ha hat
    obtain ⟨q, hq, hqb⟩ := key hb hbt
    by_cases hpq : p = q
    · subst hpq
      have := (seqIndex_eq hia).2 (hpa.symm.trans hqb)
      rw [show seqIndex d.base.scripts b = .ok j from hjb, Except.ok.injEq] at this
      exact .inr ⟨this.symm, a, ha, hia⟩
    · exact .inl ⟨e, he, p, hp, q, hq, hpq, (seqIndex_eq hia).2 hpa.symm, (seqIndex_eq hjb).2 hqb.symm⟩

/-- Two scripts are in the relation `table_0` exactly when one root contains both. -/
theorem C101_root_partial (ho : o.Valid) (hk : NormalKeys ks) (hi : NoIgnoredRoot rows) (h : mkDictionary o ks rows = .ok d)
    {a b : Script} (ha : a ∈ d.base.scripts) (hb : b ∈ d.base.scripts) (hne : ∀ r ∈ d.roots, r.cardinal ≠ 1) :
    Related d (.table 0) a b ↔ ∃ r ∈ d.roots, Within a r ∧ Within b r := by
  rw [C101_tables_partial ho hk hi h 0 ha hb]
  obtain ⟨st, _, hd, _⟩ := mkDictionary_inv ho h
  constructor
  · rintro ⟨t, ht, _, h1, h2⟩
    obtain ⟨e, he, hte⟩ := mem_all.1 ht
    have hw := (hd.tabs_of he).2.within t hte
    exact ⟨e.1, (hd.tabs_of he).1, h1.trans hw, h2.trans hw⟩
  · rintro ⟨r, hr, h1, h2⟩
    obtain ⟨e, he, rfl⟩ := hd.tabs_root hr
    obtain ⟨k, us, hp, _⟩ := (hd.tabs_of he).2.root
    have hm : Table.root e.1 k ∈ e.2 := hp.mem_iff.2 (by simp)
    have hkc : k ≠ .cell := fun hc => hne _ hr (((hd.tabs_of he).2.cell _ hm).1 hc)
    refine ⟨_, mem_all.2 ⟨e, he, hm⟩, ?_, h1, h2⟩
    cases k <;> first | rfl | exact absurd rfl hkc

example : NormalKeys exampleKeys ∧ NoIgnoredRoot exampleRows ∧
    ((mkDictionary plainOrder exampleKeys exampleRows).map fun d => d.base.tables.all.map fun t => (t.script.str, t.rank)) =
      .ok [(c!"O:", 0), (c!"U:", 6), (c!"A:", 6), (c!"M:", 0), (c!"B:+T:", 3), (c!"S:", 6), (c!"B:", 6), (c!"T:", 6)] ∧
    ((mkDictionary plainOrder exampleKeys exampleRows).bind fun d => d.objectTexts (c!"B:") (.table 0)) =
      .ok [c!"S:", c!"B:", c!"T:", c!"B:+T:", c!"M:"] ∧
    ((mkDictionary plainOrder exampleKeys exampleRows).bind fun d => d.objectTexts (c!"B:") (.table 3)) =
      .ok [c!"B:", c!"T:", c!"B:+T:"] ∧
    ((mkDictionary plainOrder exampleKeys exampleRows).bind fun d => d.objectTexts (c!"M:") (.table 3)) = .ok [] :=
  ⟨NormalKeys.of_consistent example_consistent, NoIgnoredRoot.of_consistent example_consistent, by decide +kernel, by decide +kernel,
    by decide +kernel, by decide +kernel⟩

/-- The claim fails with an ignored root: a script without table takes the ranks of the script before it. -/
theorem C101_violated : ∃ d s, mkDictionary plainOrder [c!"O:", c!"M:"] [rootRow (c!"O:"), rootRow (c!"M:"), ignoredRow (c!"M:")] = .ok d ∧
    s ∈ d.base.scripts ∧ Related d (.table 0) s s ∧ ∀ t ∈ d.base.tables.all, ¬ Within s t.script := by
  have h : (mkDictionary plainOrder [c!"O:", c!"M:"] [rootRow (c!"O:"), rootRow (c!"M:"), ignoredRow (c!"M:")]).map
      (fun d => d.base.scripts.any fun s => (d.base.tables.all.all fun t => (contains t.script s).toOption == some false) &&
        match d.object s (.table 0) with
        | .ok l => l.any fun b => b.str = s.str
        | _ => false) = .ok true := by decide +kernel
  cases hd : mkDictionary plainOrder [c!"O:", c!"M:"] [rootRow (c!"O:"), rootRow (c!"M:"), ignoredRow (c!"M:")] with
  | error e => rw [hd] at h; cases h
  | ok d =>
    rw [hd] at h
    simp only [Except.map, Except.ok.injEq, List.any_eq_true, List.all_eq_true, Bool.and_eq_true, beq_iff_eq] at h
    obtain ⟨s, hs, h1, h2⟩ := h
    obtain ⟨st, _, hdo, _⟩ := mkDictionary_inv plainOrder_valid hd
    refine ⟨d, s, rfl, hs, ?_, fun t ht hw => ?_⟩
    · split at h2
      · rename_i l hl
        obtain ⟨b, hb, hbs⟩ := List.any_eq_true.1 h2
        exact ⟨l, hl, b, hb, by simpa using hbs⟩
      · cases h2
    · obtain ⟨e, he, hte⟩ := mem_all.1 ht
      have := h1 t ht
      rw [(contains_iff ((hdo.tabs_of he).2.wf t hte) (hdo.script_wf hs)).2 hw] at this
      cases this

/-! ### C102 -/

/-- The objects of a script for the relation of a role are the scripts of the dictionary nearest to this role in one of its terms.
Inhibitions do not matter (see `C27_violated`). -/
theorem C102_father (ho : o.Valid) (h : mkDictionary o ks rows = .ok d) (r : Fin 3) (a b : Script) :
    Related d (.father r) a b ↔ ∃ s ∈ d.base.scripts, s.str = a.str ∧ ∃ u, TermOf u s ∧ ∃ c, RoleOf r c u ∧
      ∃ x, Nearest (fun x => ∃ y ∈ d.base.scripts, y.str = x.str) c x ∧ x.str = b.str := by
  obtain ⟨st, hst, hd, _, hinh, _⟩ := mkDictionary_inv ho h
  have key := fun i j => father_mem (hd.rel.father r) (fun s hs => hd.script_wf hs) (fun e he => by
    rw [hinh] at he
    obtain ⟨p, hp, e'⟩ := inhibitions_wf hst e he
    rw [e']
    exact fatherName_ne r hp) (i := i) (j := j)
  constructor
  · intro hab
    obtain ⟨⟨i, hi⟩, j, hj⟩ := related_index hab
    rw [hd.related_iff _ hi hj, key] at hab
    obtain ⟨s, hs, hsi, u, hu, c, hc, x, hx, hxj⟩ := hab
    exact ⟨s, hs, (seqIndex_eq hsi).1 hi, u, hu, c, hc, x, hx, (seqIndex_eq hxj).1 hj⟩
  · rintro ⟨s, hs, hsa, u, hu, c, hc, x, hx, hxb⟩
    obtain ⟨i, hi⟩ := indexed_of_mem hs
    have hxD : ∃ y ∈ d.base.scripts, y.str = x.str := by
      clear hc hxb
      induction hx with
      | prim h => exact h
      | here h => exact h
      | role _ _ _ ih => exact ih
      | term _ _ ih => exact ih
    obtain ⟨j, hj⟩ := seqIndex_isOk.2 hxD
    rw [hd.related_iff _ ((seqIndex_eq hi).2 hsa) ((seqIndex_eq hj).2 hxb), key]
    exact ⟨s, hs, hi, u, hu, c, hc, x, hx, hj⟩

-- A sum is looked at term by term, and a product outside the dictionary role by role.
example : (relDict.bind fun d => d.objectTexts (c!"U:O:.") (.father 1)) = .ok [c!"U:", c!"A:"] ∧
    ((mkDictionary plainOrder [c!"O:", c!"O:U:.", c!"O:U:.wo.-"] [rootRow (c!"O:"), rootRow (c!"O:U:."), rootRow (c!"O:U:.wo.-")]).bind fun d =>
      d.objectTexts (c!"O:U:.wo.-") (.father 0)) = .ok [c!"O:U:."] ∧
    ((mkDictionary plainOrder [c!"O:", c!"O:U:.wo.-"] [rootRow (c!"O:"), rootRow (c!"O:U:.wo.-")]).bind fun d =>
      d.objectTexts (c!"O:U:.wo.-") (.father 0)) = .ok [c!"U:", c!"A:"] := by decide +kernel

/-- An object for the relation of a role has a lower layer. -/
theorem C102_layer (ho : o.Valid) (h : mkDictionary o ks rows = .ok d) (r : Fin 3) {a b : Script} (ha : a ∈ d.base.scripts)
    (hb : b ∈ d.base.scripts) (hab : Related d (.father r) a b) : b.layer < a.layer := by
  obtain ⟨s, hs, hsa, u, hu, c, ⟨s0, a0, m0, rfl, hc⟩, x, hx, hxb⟩ := (C102_father ho h r a b).1 hab
  obtain ⟨st, _, hd, _⟩ := mkDictionary_inv ho h
  have ws := hd.script_wf hs
  have wu : WF (mult s0 a0 m0) ∧ (mult s0 a0 m0).layer = s.layer := by
    rcases hu with ⟨rfl, _⟩ | ⟨cs, rfl, hu⟩
    · exact ⟨ws, rfl⟩
    · cases ws with
      | add _ h2 h3 => exact ⟨h2 _ hu, h3 _ hu⟩
  have wc : WF c ∧ c.layer < (mult s0 a0 m0).layer := by
    have hm : c ∈ [s0, a0, m0] := List.mem_of_getElem? hc
    simp only [List.mem_cons, List.not_mem_nil, or_false] at hm
    cases wu.1 with
    | mult w1 w2 w3 l2 l3 =>
      simp only [layer]
      rcases hm with rfl | rfl | rfl
      · exact ⟨w1, by omega⟩
      · exact ⟨w2, by omega⟩
      · exact ⟨w3, by omega⟩
  have wx : WF x ∧ x.layer ≤ c.layer := by
    have := wc.1
    clear hc hxb wc
    induction hx with
    | prim _ => exact ⟨this, le_refl _⟩
    | here _ => exact ⟨this, le_refl _⟩
    | role _ hm _ ih =>
      cases this with
      | mult w1 w2 w3 l2 l3 =>
        simp only [List.mem_cons, List.not_mem_nil, or_false] at hm
        simp only [layer]
        rcases hm with rfl | rfl | rfl
        · obtain ⟨i1, i2⟩ := ih w1; exact ⟨i1, by omega⟩
        · obtain ⟨i1, i2⟩ := ih w2; exact ⟨i1, by omega⟩
        · obtain ⟨i1, i2⟩ := ih w3; exact ⟨i1, by omega⟩
    | term hm _ ih =>
      cases this with
      | add _ h2 h3 =>
        obtain ⟨i1, i2⟩ := ih (h2 _ hm)
        exact ⟨i1, by rw [← h3 _ hm]; exact i2⟩
  rw [← layer_of_str ws (hd.script_wf ha) hsa, ← layer_of_str wx.1 (hd.script_wf hb) hxb, ← wu.2]
  exact lt_of_le_of_lt wx.2 wc.2

end Verif
