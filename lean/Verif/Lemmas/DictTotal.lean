import Verif.Lemmas.Siblings

/-
When the construction of a dictionary raises nothing.
-/

namespace Verif
open Script

/-! ### Fathers and siblings -/

theorem child_mult {s a m : Script} {v : Nat} (hv : v < 3) : ∃ c, child (.mult s a m) v = .ok c := by
  have : v = 0 ∨ v = 1 ∨ v = 2 := by omega
  rcases this with rfl | rfl | rfl
  · exact ⟨s, rfl⟩
  · exact ⟨a, rfl⟩
  · exact ⟨m, rfl⟩

theorem father_total {b : DictBase} (hw : ∀ s ∈ b.scripts, WF s) {r : Nat} (hr : r < 3) (rel : Str) : ∃ l, b.father r rel = .ok l := by
  unfold DictBase.father
  refine bind_total (mapM_total fun s hs => bind_total (mapM_total fun u hu => ?_) fun _ _ => ⟨_, rfl⟩) fun _ _ => ⟨_, rfl⟩
  split
  · exact ⟨_, rfl⟩
  · rename_i h0
    split
    · exact ⟨_, rfl⟩
    · refine bind_total ?_ fun c _ => bind_total (seqIndex_isOk.2 ⟨s, hs, rfl⟩) fun _ _ => ⟨_, rfl⟩
      have hadd : u.isAdd = false := by
        have ws := hw s hs
        cases s with
        | null l => rw [DictBase.terms, List.mem_singleton] at hu; · rw [hu]; rfl
                    · simp
        | prim p => rw [DictBase.terms, List.mem_singleton] at hu; · rw [hu]; rfl
                    · simp
        | mult s a m => rw [DictBase.terms, List.mem_singleton] at hu; · rw [hu]; rfl
                        · simp
        | add cs =>
          cases ws with
          | add _ _ _ h4 => exact h4 u hu
      cases u with
      | null l => simp [children] at h0
      | prim p => simp [children] at h0
      | mult s a m => exact child_mult hr
      | add cs => cases hadd

theorem opposed_total {x y : Script} (hx : x.empty = false → ∃ c0 c1 cs, x.children = c0 :: c1 :: cs)
    (hy : y.empty = false → ∃ c0 c1 cs, y.children = c0 :: c1 :: cs) : ∃ b, DictBase.opposedSibling x y = .ok b := by
  unfold DictBase.opposedSibling
  split
  · exact ⟨_, rfl⟩
  · rename_i hc
    simp only [Bool.or_eq_true, decide_eq_true_eq, not_or, Bool.not_eq_true, not_not] at hc
    obtain ⟨x0, x1, xs, ex⟩ := hx hc.1.1
    obtain ⟨y0, y1, ys, ey⟩ := hy hc.1.2
    have k0 : child x 0 = .ok x0 := child_ok.2 (by rw [ex]; rfl)
    have k1 : child x 1 = .ok x1 := child_ok.2 (by rw [ex]; rfl)
    have k2 : child y 0 = .ok y0 := child_ok.2 (by rw [ey]; rfl)
    have k3 : child y 1 = .ok y1 := child_ok.2 (by rw [ey]; rfl)
    rw [k0, k1, k2, k3]
    simp only [bind, Except.bind]
    split <;> exact ⟨_, rfl⟩

theorem role_children {c : Script} (hw : WF c) (hr : Role c) (hl : 1 ≤ c.layer) (he : c.empty = false) :
    ∃ c0 c1 cs, c.children = c0 :: c1 :: cs := by
  cases c with
  | null l => simp [empty] at he
  | prim p => simp [layer] at hl
  | mult s a m => exact ⟨s, a, [m], rfl⟩
  | add cs =>
    match cs, hw with
    | [], hw => cases hw with | add h _ => exact absurd rfl h
    | [c], _ => exact absurd rfl (hr.1 c)
    | c0 :: c1 :: cs, _ => exact ⟨c0, c1, cs, rfl⟩

theorem siblingTest_total {k : DictBase.Sibling} {s a m s' a' m' : Script} (hx : WF (.mult s a m)) (hy : WF (.mult s' a' m'))
    (hl : (Script.mult s a m).layer = (Script.mult s' a' m').layer) :
    ∃ b, DictBase.siblingTest k (.mult s a m) (.mult s' a' m') = .ok b := by
  cases k with
  | twin => exact ⟨_, rfl⟩
  | opposed => exact opposed_total (fun _ => ⟨s, a, [m], rfl⟩) fun _ => ⟨s', a', [m'], rfl⟩
  | associated =>
    simp only [DictBase.siblingTest, DictBase.associatedSibling]
    split
    · exact ⟨_, rfl⟩
    · rw [show child (.mult s a m) 0 = .ok s from rfl, show child (.mult s a m) 1 = .ok a from rfl,
        show child (.mult s a m) 2 = .ok m from rfl, show child (.mult s' a' m') 0 = .ok s' from rfl,
        show child (.mult s' a' m') 1 = .ok a' from rfl, show child (.mult s' a' m') 2 = .ok m' from rfl]
      simp only [bind, Except.bind]
      split
      · exact ⟨_, rfl⟩
      · split <;> exact ⟨_, rfl⟩
  | crossed =>
    simp only [DictBase.siblingTest, DictBase.crossedSibling]
    split
    · exact ⟨_, rfl⟩
    · rename_i hc
      simp only [Bool.or_eq_true, decide_eq_true_eq, not_or, not_not] at hc
      rw [show child (.mult s a m) 0 = .ok s from rfl, show child (.mult s a m) 1 = .ok a from rfl,
        show child (.mult s' a' m') 0 = .ok s' from rfl, show child (.mult s' a' m') 1 = .ok a' from rfl]
      simp only [bind, Except.bind]
      have h2 : 1 ≤ s.layer := by have := hc.1; simp only [layer] at this; omega
      have h2' : 1 ≤ s'.layer := by have := hc.1; simp only [layer] at this hl; omega
      cases hx with
      | mult w1 w2 w3 l1 l2 l3 r1 r2 r3 =>
        cases hy with
        | mult w1' w2' w3' l1' l2' l3' r1' r2' r3' =>
          obtain ⟨b0, hb0⟩ := opposed_total (role_children w1 r1 h2) (role_children w1' r1' h2')
          obtain ⟨b1, hb1⟩ := opposed_total (role_children w2 r2 (by omega)) (role_children w2' r2' (by omega))
          rw [hb0]
          simp only []
          split
          · exact ⟨_, rfl⟩
          · exact ⟨b1, hb1⟩

theorem isMult_mult {s : Script} (h : s.isMult = true) (hl : s.layer ≠ 0) : ∃ x y z, s = .mult x y z := by
  cases s with
  | null _ => cases h
  | prim p => exact absurd rfl hl
  | mult x y z => exact ⟨x, y, z, rfl⟩
  | add _ => cases h

theorem siblings_total {b : DictBase} (hw : ∀ e ∈ b.tables.roots, ∀ t ∈ e.2, WF t.script ∧ t.script.layer = e.1.layer)
    (hi : ∀ e ∈ b.tables.roots, ∀ t ∈ e.2, ∃ i, b.index t.script = .ok i) (k : DictBase.Sibling) : ∃ l, b.siblings k = .ok l := by
  unfold DictBase.siblings
  have : ∃ l, b.tables.roots.mapM (fun r =>
      if r.1.layer = 0 then (return [] : Except Err _)
      else if k = .twin then b.twinSiblings r.1 r.2
      else b.pairSiblings k r.1 r.2) = .ok l := by
    refine mapM_total fun e he => ?_
    split
    · exact ⟨_, rfl⟩
    · rename_i h0
      have hm : ∀ t ∈ e.2.filter (fun t => t.script.isMult), ∃ x y z, t.script = .mult x y z := by
        intro t ht
        rw [List.mem_filter] at ht
        exact isMult_mult ht.2 (by rw [(hw e he t ht.1).2]; exact h0)
      split
      · unfold DictBase.twinSiblings
        obtain ⟨tw, htw⟩ := filterM_total (f := DictBase.isTwin) (l := e.2.filter fun t => t.script.isMult) fun t ht => by
          obtain ⟨x, y, z, hs⟩ := hm t ht
          unfold DictBase.isTwin
          rw [hs]
          exact ⟨_, rfl⟩
        rw [htw]
        simp only [bind, Except.bind]
        split
        · exact ⟨_, rfl⟩
        · exact bind_total (mapM_total fun c _ => bind_total (mapM_total fun t ht =>
            hi e he t (List.mem_filter.1 (((filterM_inv htw).2 t).1 (List.mem_filter.1 ht).1).1).1) fun _ _ => ⟨_, rfl⟩) fun _ _ => ⟨_, rfl⟩
      · unfold DictBase.pairSiblings
        split
        · exact ⟨_, rfl⟩
        · have : ∃ l, (DictBase.pairs (e.2.filter fun t => t.script.isMult)).mapM (fun p => do
              let i0 ← b.index p.1.script
              let i1 ← b.index p.2.script
              if ← DictBase.siblingTest k p.1.script p.2.script then return [(i0, i1), (i1, i0)] else return []) = .ok l := by
            refine mapM_total fun p hp => ?_
            have m := DictOk.mem_pairs hp
            have m0 := (List.mem_filter.1 m.1).1
            have m1 := (List.mem_filter.1 m.2).1
            obtain ⟨i0, h0⟩ := hi e he _ m0
            obtain ⟨i1, h1⟩ := hi e he _ m1
            have w0 := hw e he _ m0
            have w1 := hw e he _ m1
            obtain ⟨x, y, z, e0⟩ := hm _ m.1
            obtain ⟨x', y', z', e1⟩ := hm _ m.2
            rw [h0, h1]
            rw [e0] at w0 ⊢
            rw [e1] at w1 ⊢
            obtain ⟨c, hc⟩ := siblingTest_total (k := k) w0.1 w1.1 (w0.2.trans w1.2.symm)
            simp only [bind, Except.bind, hc]
            split <;> exact ⟨_, rfl⟩
          obtain ⟨l, hl⟩ := this
          rw [hl]
          exact ⟨_, rfl⟩
  obtain ⟨l, hl⟩ := this
  rw [hl]
  exact ⟨_, rfl⟩

/-! ### Inclusions and ranks -/

theorem contains_total {b : DictBase} (hw : ∀ e ∈ b.tables.roots, ∀ t ∈ e.2, WF t.script ∧ Within t.script e.1)
    (hq : ∀ e ∈ b.tables.roots, WF e.1 ∧ ∀ L, Enum e.1 L → ∀ q ∈ L, ∃ t ∈ e.2, t.script = q)
    (hi : ∀ e ∈ b.tables.roots, ∀ t ∈ e.2, ∃ i, b.index t.script = .ok i) : ∃ l, b.contains = .ok l := by
  unfold DictBase.contains
  refine bind_total (mapM_total fun e he => bind_total ?_ fun _ _ => ⟨_, rfl⟩) fun _ _ => ⟨_, rfl⟩
  · have : ∃ l, (e.2.filter fun t => t.script.paradigm).mapM (b.containsOf (e.2.filter fun t => t.script.paradigm)) = .ok l := by
      refine mapM_total fun p hp => ?_
      have hp' := (List.mem_filter.1 hp).1
      have wp := hw e he p hp'
      unfold DictBase.containsOf
      obtain ⟨L, eL⟩ := enum_exists wp.1
      rw [eL.run]
      simp only [bind, Except.bind]
      obtain ⟨ss, hss⟩ := mapM_total (f := b.index) (l := L) fun q hql => by
        obtain ⟨wr, hqs⟩ := hq e he
        obtain ⟨L', eL'⟩ := enum_exists wr
        have wq := eL.wf q hql
        obtain ⟨w, hwd⟩ := den_exists wq
        obtain ⟨q', hq', hqd⟩ := (eL'.den w).1 (wp.2.2 w ((eL.den w).2 ⟨q, hql, hwd⟩))
        obtain ⟨t, ht, hts⟩ := hqs L' eL' q' hq'
        obtain ⟨i, hii⟩ := hi e he t ht
        refine ⟨i, (seqIndex_eq hii).2 ?_⟩
        rw [hts]
        exact str_of_word' (eL'.wf q' hq') wq (eL'.one q' hq') (eL.one q hql) hqd hwd
      rw [hss]
      simp only []
      obtain ⟨ks, hks⟩ := filterM_total (f := fun k : Table => contains p.script k.script)
        (l := e.2.filter fun t => t.script.paradigm) fun k hk => by
          obtain ⟨c, hc, _⟩ := contains_ok wp.1 (hw e he k (List.mem_filter.1 hk).1).1
          exact ⟨c, hc⟩
      rw [hks]
      simp only []
      obtain ⟨js, hjs⟩ := mapM_total (f := fun k : Table => b.index k.script) (l := ks) fun k hk =>
        hi e he k (List.mem_filter.1 (((filterM_inv hks).2 k).1 hk).1).1
      rw [hjs]
      obtain ⟨i, hii⟩ := hi e he p hp'
      rw [hii]
      exact ⟨_, rfl⟩
    exact this

theorem ranksOf_total {b : DictBase} {l : List Nat} (h : ∀ i ∈ l, ∃ s t, b.scripts[i]? = some s ∧ b.tables.get? s = some t) :
    ∃ r, b.ranksOf l = .ok r := by
  unfold DictBase.ranksOf
  refine bind_total (mapM_total fun i hi => ?_) fun _ _ => ⟨_, rfl⟩
  obtain ⟨s, t, h1, h2⟩ := h i hi
  exact ⟨t.rank, by simp only [h1, h2]⟩

theorem rankEntries_total {ranks : List Nat} (h : ∀ r ∈ ranks, r < 6) (ps : List (Nat × Nat)) : ∃ x, DictBase.rankEntries ranks ps = .ok x := by
  unfold DictBase.rankEntries
  obtain ⟨l, hl⟩ := mapM_total (f := fun r => if r < 6 then (.ok (ps.map fun p => (r, p.1, p.2)) : Except Err _) else .error .indexError)
    (l := ranks) fun r hr => ⟨_, if_pos (h r hr)⟩
  rw [hl]
  exact ⟨_, rfl⟩

/-- The table relations are computed when the tables are distinct, of rank at most 5, and every script has a table. -/
theorem BaseOk.tableRank_total {d : Dictionary} {sorted : List Script} (h : BaseOk d sorted)
    (hi : ∀ e ∈ d.base.tables.roots, ∀ t ∈ e.2, ∃ i, d.base.index t.script = .ok i)
    (hd : ∀ e ∈ d.base.tables.roots, e.2.Pairwise fun a b => a.script.str ≠ b.script.str)
    (hr : ∀ t ∈ d.base.tables.all, t.script.cardinal ≠ 1 → t.rank < 6)
    (ht : ∀ s ∈ d.base.scripts, (d.base.tables.get? s).isSome) : ∃ l, d.base.tableRank (d.relation .contains) = .ok l := by
  -- the containers of an indexed script
  have cont : ∀ {i k : Nat} {x : Script}, d.base.index x = .ok i → k ∈ DictBase.containers (d.relation .contains) i →
      ∃ s, d.base.scripts[k]? = some s ∧ s ∈ d.base.scripts ∧ ∃ y, y ∈ d.base.scripts ∧ y.str = x.str ∧ Within y s := by
    intro i k x hx hk
    rw [DictOk.mem_containers] at hk
    have hidx : ∃ z, d.base.index z = .ok k := by
      rcases h.contains_mem.1 hk with ⟨e, _⟩ | ⟨_, _, p, _, _, hp, _⟩
      · exact ⟨x, e ▸ hx⟩
      · exact ⟨_, hp⟩
    obtain ⟨z, hz⟩ := hidx
    obtain ⟨s, hs, hks, hsz⟩ := DictOk.index_inv hz
    obtain ⟨y, hy, _, hyx⟩ := DictOk.index_inv hx
    exact ⟨s, hks, hs, y, hy, hyx, (h.contains_within hs hy ((seqIndex_eq hz).2 hsz.symm) ((seqIndex_eq hx).2 hyx.symm)).1 hk⟩
  have rank : ∀ {s : Script} {t : Table}, s ∈ d.base.scripts → d.base.tables.get? s = some t → t.rank < 6 ∨ (t.rank = 6 ∧ s.cardinal = 1) := by
    intro s t hs hst
    obtain ⟨h1, h2⟩ := DictOk.get?_some hst
    obtain ⟨e, he, hte⟩ := DictOk.mem_all.1 h1
    have tab := (h.tabs_of he).2
    have hcard := cardinal_of_str (tab.wf t hte) (h.script_wf hs) h2
    by_cases hc : t.script.cardinal = 1
    · exact .inr ⟨DictOk.cell_rank ((tab.cell t hte).2 hc), hcard ▸ hc⟩
    · exact .inl (hr t h1 hc)
  unfold DictBase.tableRank
  have pairsOk : ∃ l, (d.base.tables.roots.flatMap fun r => DictBase.pairs r.2).mapM (d.base.rankPair (d.relation .contains)) = .ok l := by
    refine mapM_total fun p hp => ?_
    obtain ⟨e, he, hpe⟩ := List.mem_flatMap.1 hp
    have m := DictOk.mem_pairs hpe
    obtain ⟨i0, h0⟩ := hi e he _ m.1
    obtain ⟨i1, h1⟩ := hi e he _ m.2
    have hne := DictOk.pairwise_pairs.1 (hd e he) p hpe
    unfold DictBase.rankPair
    rw [h0, h1]
    simp only [bind, Except.bind]
    have hcs : ∀ k ∈ (DictBase.containers (d.relation .contains) i0).filter
        (fun i => (DictBase.containers (d.relation .contains) i1).contains i),
        ∃ s t, d.base.scripts[k]? = some s ∧ d.base.tables.get? s = some t ∧ t.rank < 6 := by
      intro k hk
      rw [List.mem_filter, List.contains_iff_mem] at hk
      obtain ⟨s, hks, hs, y, hy, hyx, hys⟩ := cont h0 hk.1
      obtain ⟨s', hks', _, y', hy', hyx', hys'⟩ := cont h1 hk.2
      rw [hks, Option.some.injEq] at hks'
      subst hks'
      obtain ⟨t, hst⟩ := Option.isSome_iff_exists.1 (ht s hs)
      refine ⟨s, t, hks, hst, ?_⟩
      rcases rank hs hst with h | ⟨_, hc⟩
      · exact h
      · exfalso
        apply hne
        rw [← hyx, ← hyx']
        have ws := h.script_wf hs
        have sing : ∀ {y : Script}, y ∈ d.base.scripts → Within y s → y.str = s.str := by
          intro y hy hw
          have wy := h.script_wf hy
          have hcy : y.cardinal = 1 := by
            by_contra hcb
            obtain ⟨u, v, hu, hv, hne⟩ := two_words wy (by have := cardinal_pos wy; omega)
            exact hne (den_unique ws hc (hw.2 u hu) (hw.2 v hv))
          obtain ⟨w, hwd⟩ := den_exists wy
          exact str_of_word' wy ws hcy hc hwd (hw.2 w hwd)
        rw [sing hy hys, sing hy' hys']
    obtain ⟨ranks, hrk⟩ := ranksOf_total fun k hk => by
      obtain ⟨s, t, g1, g2, _⟩ := hcs k hk
      exact ⟨s, t, g1, g2⟩
    rw [hrk]
    obtain ⟨x, hx⟩ := rankEntries_total (ranks := ranks) (by
      intro r hrr
      obtain ⟨k, hk, s, t, g1, g2, g3⟩ := (DictOk.ranksOf_inv hrk).2 r hrr
      obtain ⟨s', t', g1', g2', g3'⟩ := hcs k hk
      rw [g1, Option.some.injEq] at g1'
      subst g1'
      rw [g2, Option.some.injEq] at g2'
      subst g2'
      omega) [(i0, i1), (i1, i0)]
    simp only [hx]
    exact ⟨_, rfl⟩
  obtain ⟨l, hl⟩ := pairsOk
  rw [hl]
  simp only [bind, Except.bind]
  obtain ⟨st, hst⟩ := foldlM_total (f := d.base.rankScript (d.relation .contains)) (l := d.base.scripts)
    (b := ((l.map (·.1)).flatten, (l.getLast?).map (·.2))) (P := fun _ => True) trivial fun s hs st _ => by
    unfold DictBase.rankScript
    obtain ⟨i, hi'⟩ := seqIndex_isOk.2 ⟨s, hs, rfl⟩
    rw [show d.base.index s = .ok i from hi']
    simp only [bind, Except.bind]
    unfold DictBase.scriptRanks
    have hcs : ∀ k ∈ DictBase.containers (d.relation .contains) i, ∃ s t, d.base.scripts[k]? = some s ∧ d.base.tables.get? s = some t ∧
        t.rank ≤ 6 := by
      intro k hk
      obtain ⟨s', hks, hs', _⟩ := cont hi' hk
      obtain ⟨t, hst⟩ := Option.isSome_iff_exists.1 (ht s' hs')
      refine ⟨s', t, hks, hst, ?_⟩
      rcases rank hs' hst with h | ⟨h, _⟩ <;> omega
    obtain ⟨ranks, hrk⟩ := ranksOf_total fun k hk => by
      obtain ⟨s, t, g1, g2, _⟩ := hcs k hk
      exact ⟨s, t, g1, g2⟩
    rw [hrk]
    simp only []
    obtain ⟨x, hx⟩ := rankEntries_total (ranks := ranks.filter fun x => decide (x ≠ 6)) (by
      intro r hrr
      rw [List.mem_filter] at hrr
      obtain ⟨k, hk, s, t, g1, g2, g3⟩ := (DictOk.ranksOf_inv hrk).2 r hrr.1
      obtain ⟨s', t', g1', g2', g3'⟩ := hcs k hk
      rw [g1, Option.some.injEq] at g1'
      subst g1'
      rw [g2, Option.some.injEq] at g2'
      subst g2'
      have : r ≠ 6 := by simpa using hrr.2
      omega) [(i, i)]
    rw [hx]
    exact ⟨_, rfl, trivial⟩
  simp only [hst]
  exact ⟨_, rfl⟩

end Verif
