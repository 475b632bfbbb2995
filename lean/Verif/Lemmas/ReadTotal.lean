import Verif.Lemmas.DictTotal

/-
Consistent data can be read.
-/

namespace Verif
open Script

theorem NormalKeys.of_consistent {ks : List Str} {rows : List (Str × Str × Str)} (h : ConsistentData ks rows) : NormalKeys ks := by
  intro k hk s hs
  obtain ⟨t, h1, h2⟩ := h.keys k hk
  rw [hs, Except.ok.injEq] at h1
  rw [h1, h2]

theorem NoIgnoredRoot.of_consistent {ks : List Str} {rows : List (Str × Str × Str)} (h : ConsistentData ks rows) : NoIgnoredRoot rows := by
  rintro k ⟨h1, h2⟩
  obtain ⟨s, hs, _⟩ := h.keys k (h.rootKeys k h1)
  exact (h.ignored k s h2 hs).2.1 h1

/-! ### The rows -/

theorem marks_marked {attr : Str} {row : Str × Str × Str} (h : ∃ c v, row.2.2 = c :: v ∧ (c = 't' ∨ c = 'T')) (ha : row.2.1 = attr) :
    marks attr row = true := by
  obtain ⟨c, v, h1, h2⟩ := h
  unfold marks
  rw [h1, ha]
  simpa using h2

/-- The roots and the ignored scripts come from the rows, in the same order. -/
theorem readRows_lists {ks : List Str} {all : List (Str × Str × Str)} : ∀ {rows : List (Str × Str × Str)} {st st' : Reading},
    (∀ r ∈ rows, r ∈ all) → ReadOk st → ReadNormal ks all st → rows.foldlM readRow st = .ok st' →
    ∃ rs is : List Script, st'.roots = st.roots ++ rs ∧ st'.ignored = st.ignored ++ is ∧
      (rs.map str).Sublist ((rows.filter (marks (c!"is_root"))).map (·.1)) ∧
      (is.map str).Sublist ((rows.filter (marks (c!"is_ignored"))).map (·.1))
  | [], st, st', _, _, _, h => by
    rw [List.foldlM_nil, pure_ok] at h
    subst h
    exact ⟨[], [], by simp, by simp, by simp, by simp⟩
  | row :: rows, st, st', hsub, hok, hn, h => by
    rw [List.foldlM_cons, bind_ok] at h
    obtain ⟨st1, h1, h⟩ := h
    have hrow := hsub row (by simp)
    obtain ⟨rs, is, e1, e2, s1, s2⟩ := readRows_lists (fun r hr => hsub r (by simp [hr])) (readRow_ok hok h1)
      (readRow_normal hrow hok hn h1) h
    have up : ∀ attr, ((rows.filter (marks attr)).map (·.1)).Sublist (((row :: rows).filter (marks attr)).map (·.1)) := by
      intro attr
      exact ((List.sublist_cons_self row rows).filter _).map _
    rcases readRow_inv h1 with ⟨_, rfl⟩ | ⟨p, ss, hg, _, _, h⟩
    · exact ⟨rs, is, e1, e2, s1.trans (up _), s2.trans (up _)⟩
    · have hp : p.str = row.1 := (hn.keys _ (fsGet_mem hg)).1
      rcases h with ⟨_, f1, f2, _⟩ | ⟨ha, hv, f1, f2, _⟩ | ⟨ha, hv, f1, f2, _⟩ | ⟨_, f1, f2, _⟩
      · exact ⟨rs, is, by rw [e1, f1], by rw [e2, f2], s1.trans (up _), s2.trans (up _)⟩
      · refine ⟨p :: rs, is, by rw [e1, f1]; simp, by rw [e2, f2], ?_, s2.trans (up _)⟩
        rw [List.filter_cons_of_pos (marks_marked hv ha), List.map_cons, List.map_cons, hp]
        exact s1.cons₂ _
      · refine ⟨rs, p :: is, by rw [e1, f1], by rw [e2, f2]; simp, s1.trans (up _), ?_⟩
        rw [List.filter_cons_of_pos (marks_marked hv ha), List.map_cons, List.map_cons, hp]
        exact s2.cons₂ _
      · exact ⟨rs, is, by rw [e1, f1], by rw [e2, f2], s1.trans (up _), s2.trans (up _)⟩

/-- A key marked as a root is a root. -/
theorem readRows_root {ks : List Str} {rows : List (Str × Str × Str)} {st st' : Reading} (hok : ReadOk st) (hn : ReadNormal ks rows st)
    (h : rows.foldlM readRow st = .ok st') {k : Str} (hk : k ∈ ks) (hm : Marked rows (c!"is_root") k) : ∃ r ∈ st'.roots, r.str = k := by
  obtain ⟨c, v, hrow, hc⟩ := hm
  obtain ⟨l1, l2, st1, st2, e, h1, h2, h3⟩ := foldlM_split hrow h
  have inv := foldlM_inv (P := fun st => ReadOk st ∧ ReadNormal ks rows st) ⟨hok, hn⟩
    (fun row hrow b c hb h => ⟨readRow_ok hb.1 h, readRow_normal (by rw [e]; simp [hrow]) hb.1 hb.2 h⟩) h1
  have inv2 : ReadOk st2 ∧ ReadNormal ks rows st2 := ⟨readRow_ok inv.1 h2, readRow_normal hrow inv.1 inv.2 h2⟩
  obtain ⟨rs, _, e1, _⟩ := readRows_lists (fun r hr => by rw [e]; simp [hr]) inv2.1 inv2.2 h3
  rcases readRow_inv h2 with ⟨hg, _⟩ | ⟨p, ss, hg, _, _, h⟩
  · have := inv.2.present k hk
    simp only at hg
    rw [hg] at this
    cases this
  · have hp : p.str = k := (inv.2.keys _ (fsGet_mem hg)).1
    have f1 : st2.roots = st1.roots ++ [p] := by
      rcases h with ⟨ha, _⟩ | ⟨_, _, f1, _⟩ | ⟨ha, _⟩ | _
      · simp only at ha; exact absurd ha (by decide)
      · exact f1
      · simp only at ha; exact absurd ha (by decide)
      · unfold readRow at h2
        simp only [hg] at h2
        rw [bind_ok] at h2
        obtain ⟨ss', _, h2⟩ := h2
        rw [if_neg (by decide), if_pos trivial, bind_ok] at h2
        obtain ⟨b, hb, h2⟩ := h2
        have hb' : b = true := by
          rw [isTrueValue, Except.ok.injEq] at hb
          rw [← hb]
          simpa using hc
        rw [hb', if_pos rfl, pure_ok] at h2
        rw [← h2]
    exact ⟨p, by rw [e1, f1]; simp, hp⟩

theorem readRow_total {st : Reading} (hok : ReadOk st) {row : Str × Str × Str}
    (hv : row.2.1 = c!"is_root" ∨ row.2.1 = c!"is_ignored" → row.2.2 ≠ []) : ∃ st', readRow st row = .ok st' := by
  unfold readRow
  split
  · exact ⟨_, rfl⟩
  · rename_i p hg
    obtain ⟨L, eL⟩ := enum_exists (hok.wf _ (fsGet_mem hg))
    refine bind_total ⟨L, eL.run⟩ fun ss _ => ?_
    have tv : row.2.2 ≠ [] → ∃ b, isTrueValue row.2.2 = .ok b := by
      intro hne
      cases hv : row.2.2 with
      | nil => exact absurd hv hne
      | cons c v => exact ⟨_, rfl⟩
    simp only []
    split
    · exact ⟨_, rfl⟩
    · split
      · rename_i h
        refine bind_total (tv (hv (.inl h))) fun b _ => ?_
        split <;> exact ⟨_, rfl⟩
      · split
        · rename_i h
          refine bind_total (tv (hv (.inr h))) fun b _ => ?_
          split <;> exact ⟨_, rfl⟩
        · exact ⟨_, rfl⟩

/-! ### The check of the roots, and the removals -/

theorem checkRoots_total : ∀ {roots acc : List Script}, (∀ r ∈ roots, WF r) → (∀ q ∈ acc, WF q) →
    (∀ r ∈ roots, ∀ q ∈ acc, Apart q r) → roots.Pairwise Apart → ∃ seqs, roots.foldlM addRoot acc = .ok seqs
  | [], acc, _, _, _, _ => ⟨acc, rfl⟩
  | r :: roots, acc, hw, ha, hd, hp => by
    rw [List.pairwise_cons] at hp
    obtain ⟨L, eL⟩ := enum_exists (hw r (by simp))
    rw [List.foldlM_cons]
    have hno : ¬ (L.any fun q => memText q acc) = true := by
      intro h
      obtain ⟨q, hq, hm⟩ := List.any_eq_true.1 h
      obtain ⟨x, hx, hxq⟩ := memText_iff.1 hm
      obtain ⟨w, hw'⟩ := den_exists (eL.wf q hq)
      exact hd r (by simp) x hx w ⟨(den_of_str (ha x hx) (eL.wf q hq) hxq w).2 hw', (eL.den w).2 ⟨q, hq, hw'⟩⟩
    have hrun : addRoot acc r = .ok (acc ++ L) := by
      unfold addRoot
      rw [eL.run]
      simp only [bind, Except.bind]
      rw [if_neg hno]
      rfl
    rw [hrun]
    refine checkRoots_total (fun r hr => hw r (by simp [hr])) ?_ ?_ hp.2
    · intro q hq
      rcases List.mem_append.1 hq with hq | hq
      · exact ha q hq
      · exact eL.wf q hq
    · intro r' hr' q hq w hww
      rcases List.mem_append.1 hq with hq | hq
      · exact hd r' (by simp [hr']) q hq w hww
      · exact hp.1 r' hr' w ⟨(eL.den w).2 ⟨q, hq, hww.1⟩, hww.2⟩

theorem outsideRoots_sublist {scripts : List (Str × Script)} {seqs out : List Script} (h : outsideRoots scripts seqs = .ok out) :
    out.Sublist (scripts.map (·.2)) := by
  unfold outsideRoots at h
  rw [bind_ok] at h
  obtain ⟨l, h1, h⟩ := h
  rw [pure_ok] at h
  subst h
  have : l.map (·.1) = scripts.map (·.2) := by
    replace h1 := mapM_inv h1
    induction h1 with
    | nil => rfl
    | cons h _ ih =>
      rw [bind_ok] at h
      obtain ⟨ss, _, h⟩ := h
      rw [pure_ok] at h
      rw [List.map_cons, List.map_cons, ih, ← h]
  rw [← this]
  exact List.filter_sublist.map _

theorem removeAll_total : ∀ {l : List Script} {st : Reading}, (l.Pairwise fun a b => a.str ≠ b.str) →
    (∀ s ∈ l, (fsGet st.scripts s.str).isSome) → ∃ st', l.foldlM removeIgnored st = .ok st'
  | [], st, _, _ => ⟨st, rfl⟩
  | s :: l, st, hp, hs => by
    rw [List.pairwise_cons] at hp
    obtain ⟨x, hx⟩ := Option.isSome_iff_exists.1 (hs s (by simp))
    rw [List.foldlM_cons]
    have : removeIgnored st s = .ok { st with
      scripts := fsRemove st.scripts s.str
      roots := st.roots.eraseP fun r => r.pyEq s
      inhibitions := fsRemove st.inhibitions s.str } := by
      unfold removeIgnored
      rw [hx]
    rw [this]
    refine removeAll_total hp.2 fun t ht => ?_
    simp only []
    rw [fsGet_fsRemove, if_neg (fun e => hp.1 t ht e.symm)]
    exact hs t (by simp [ht])

/-- Consistent data can be read. -/
theorem readDictionary_total {ks : List Str} {rows : List (Str × Str × Str)} (hc : ConsistentData ks rows) :
    ∃ st, readDictionary ks rows = .ok st := by
  unfold readDictionary
  refine bind_total ?_ fun fs h1 => ?_
  · obtain ⟨c, h, _⟩ := foldlM_total (f := fun d k => do return fsSet d k (← parseScript k)) (l := ks) (b := ([] : List (Str × Script)))
      (P := fun _ => True) trivial fun k hk b _ => by
        obtain ⟨s, hs, _⟩ := hc.keys k hk
        exact ⟨fsSet b k s, by rw [hs]; rfl, trivial⟩
    exact ⟨c, h⟩
  obtain ⟨k1, k2, k3⟩ := readKeys h1
  have hok0 : ReadOk ⟨fs, [], [], []⟩ := ⟨k1, fun e he => parse_wf (k2 e he).2, by simp, by simp⟩
  have hn0 : ReadNormal ks rows ⟨fs, [], [], []⟩ := by
    refine ⟨fun e he => ?_, k3, by simp, by simp⟩
    have := k2 e he
    have hstr := NormalKeys.of_consistent hc e.1 this.1 e.2 this.2
    exact ⟨hstr, parse_normal this.2 hstr, .inl this.1⟩
  refine bind_total ?_ fun st h2 => ?_
  · obtain ⟨c, h, _⟩ := foldlM_total (f := readRow) (l := rows) (b := ⟨fs, [], [], []⟩) (P := ReadOk) hok0 fun row hrow b hb => by
      obtain ⟨c, h⟩ := readRow_total hb (hc.values row hrow)
      exact ⟨c, h, readRow_ok hb h⟩
    exact ⟨c, h⟩
  have inv := foldlM_inv (P := fun st => ReadOk st ∧ ReadNormal ks rows st) ⟨hok0, hn0⟩
    (fun row hrow b c hb h => ⟨readRow_ok hb.1 h, readRow_normal hrow hb.1 hb.2 h⟩) h2
  obtain ⟨hok, hn⟩ := inv
  obtain ⟨rs, is, e1, e2, s1, s2⟩ := readRows_lists (fun r hr => hr) hok0 hn0 h2
  simp only [List.nil_append] at e1 e2
  rw [← e1] at s1
  rw [← e2] at s2
  have hap : st.roots.Pairwise Apart := by
    have := hc.apart.sublist s1
    rw [List.pairwise_map] at this
    refine List.Pairwise.imp_of_mem ?_ this
    intro a b ha hb h
    obtain ⟨a', p1, p2, p3, _⟩ := parse_str_plain (hok.roots a ha)
    obtain ⟨b', q1, q2, q3, _⟩ := parse_str_plain (hok.roots b hb)
    intro w hw
    exact h a' b' p1 q1 w ⟨(den_of_str p2 (hok.roots a ha) p3 w).2 hw.1, (den_of_str q2 (hok.roots b hb) q3 w).2 hw.2⟩
  refine bind_total (checkRoots_total hok.roots (by simp) (by simp) hap) fun seqs h3 => ?_
  refine bind_total ?_ fun out h4 => ?_
  · refine bind_total (mapM_total fun e he => ?_) fun _ _ => ⟨_, rfl⟩
    obtain ⟨L, eL⟩ := enum_exists (hok.wf e he)
    exact bind_total ⟨L, eL.run⟩ fun _ _ => ⟨_, rfl⟩
  obtain ⟨c1, _, _⟩ := checkRoots_inv hok.roots (acc := []) (by simp) h3
  have c1' : ∀ q, q ∈ seqs ↔ ∃ r ∈ st.roots, ∃ L, Enum r L ∧ q ∈ L := by intro q; rw [c1]; simp
  have hout := outsideRoots_inv hok.wf hok.roots c1' h4
  apply removeAll_total
  · rw [List.pairwise_append]
    refine ⟨?_, ?_, ?_⟩
    · have := hc.once.sublist s2
      rw [List.Nodup, List.pairwise_map] at this
      exact this
    · have h5 : (st.scripts.map (·.2)).Pairwise fun a b => a.str ≠ b.str := by
        have := hok.nodup
        rw [List.Nodup, List.pairwise_map] at this
        rw [List.pairwise_map]
        refine List.Pairwise.imp_of_mem ?_ this
        intro a b ha hb h
        rw [(hn.keys a ha).1, (hn.keys b hb).1]
        exact h
      exact h5.sublist (outsideRoots_sublist h4)
    · intro a ha b hb hab
      obtain ⟨⟨k, hkb⟩, w, hw, hall⟩ := (hout b).1 hb
      have wb := hok.wf _ hkb
      have wa := hok.ignored a ha
      obtain ⟨a', p1, p2, p3, _⟩ := parse_str_plain wa
      obtain ⟨k', r, g1, g2, g3⟩ := (hc.ignored a.str a' (hn.ignored a ha).1 p1).2.2 w
        ((den_of_str wb p2 (hab.symm.trans p3.symm) w).1 hw)
      obtain ⟨r', hr', hrk⟩ := readRows_root hok0 hn0 h2 (hc.rootKeys k' g1) g1
      have hrs : r.str = k' := NormalKeys.of_consistent hc k' (hc.rootKeys k' g1) r g2
      exact hall r' hr' ((den_of_str (parse_wf g2) (hok.roots r' hr') (hrs.trans hrk.symm) w).1 g3)
  · intro s hs
    rcases List.mem_append.1 hs with hs | hs
    · exact (hn.ignored s hs).2
    · obtain ⟨⟨k, hks⟩, _⟩ := (hout s).1 hs
      have := (hn.keys _ hks).1
      simp only at this
      rw [this, mem_fsGet hok.nodup hks]
      rfl

/-! ### The rest of the construction -/

/-- A singular script kept in the dictionary lies within a root. -/
theorem singular_root {ks : List Str} {rows : List (Str × Str × Str)} {st' : Reading} (hk : NormalKeys ks) (hi : NoIgnoredRoot rows)
    (h : readDictionary ks rows = .ok st') {e : Str × Script} (he : e ∈ st'.scripts) (hc : e.2.cardinal = 1) :
    ∃ r ∈ st'.roots, Within e.2 r := by
  obtain ⟨st, fs, hok, hap, _, _, hn, out, hout, k1, k2, k3, k4, _⟩ := readDictionary_inv h
  replace hn := hn hk
  obtain ⟨he1, he2⟩ := (k1 e).1 he
  have hes := (hn.keys e he1).1
  have hnot : e.2 ∉ out := fun hm => he2 e.2 (List.mem_append_right _ hm) hes
  have wf := hok.wf e he1
  obtain ⟨w, hw⟩ := den_exists wf
  have hr : ∃ r ∈ st.roots, Den r w := by
    by_contra hcon
    exact hnot ((hout e.2).2 ⟨⟨e.1, he1⟩, w, hw, fun r hr hrw => hcon ⟨r, hr, hrw⟩⟩)
  obtain ⟨r, hr, hrw⟩ := hr
  have wr := hok.roots r hr
  refine ⟨r, (k4 r).2 ⟨hr, fun s hs hsr => ?_⟩, layer_of_word wf wr hw hrw, fun u hu => by rw [den_unique wf hc hu hw]; exact hrw⟩
  rcases List.mem_append.1 hs with hs | hs
  · exact hi r.str ⟨(hn.roots r hr).2.1, hsr ▸ (hn.ignored s hs).1⟩
  · obtain ⟨⟨k, hks⟩, u, hu, hall⟩ := (hout s).1 hs
    exact hall r hr ((den_of_str (hok.wf _ hks) wr hsr u).1 hu)

/-- For consistent data, what may still raise is the construction of the tables, a repeated cell, or a rank above 5. -/
theorem mkDictionary_total {o : SetOrder} (ho : o.Valid) {ks : List Str} {rows : List (Str × Str × Str)} (hc : ConsistentData ks rows)
    {st : Reading} {base : DictBase} (h1 : readDictionary ks rows = .ok st) (h2 : dictionaryBase o st = .ok base)
    (hd : ∀ e ∈ base.tables.roots, e.2.Pairwise fun a b => a.script.str ≠ b.script.str)
    (hr : ∀ t ∈ base.tables.all, t.script.cardinal ≠ 1 → t.rank < 6) : ∃ d, mkDictionary o ks rows = .ok d := by
  have hnk := NormalKeys.of_consistent hc
  obtain ⟨st0, fs, hok, hap, _, _, hn, out, hout, k1, k2, k3, k4, _⟩ := readDictionary_inv h1
  replace hn := hn hnk
  have hroots : ∀ r ∈ st.roots, WF r := fun r hr => hok.roots r (k3.subset hr)
  have hwf : ∀ s ∈ pySort lt (st.scripts.map (·.2)), WF s := by
    intro s hs
    have := (mem_pySort (lt := lt)).1 hs
    obtain ⟨e, he, rfl⟩ := List.mem_map.1 this
    exact hok.wf e ((k1 e).1 he).1
  have h2' := h2
  unfold dictionaryBase at h2'
  simp only [] at h2'
  rw [bind_ok] at h2'
  obtain ⟨x, h5, h2'⟩ := h2'
  rw [pure_ok] at h2'
  have htab : List.Forall₂ (fun r e => e.1 = r ∧ TabsOf (pySort lt (st.scripts.map (·.2))) r e.2) st.roots base.tables.roots := by
    rw [← h2']
    exact buildTables_inv ho hroots hwf h5
  have hscripts : ∀ s, s ∈ base.scripts ↔ s ∈ pySort lt (st.scripts.map (·.2)) ∧ (s.cardinal = 1 ∨ (base.tables.get? s).isSome) := by
    intro s
    rw [← h2']
    simp [List.mem_filter]
  have tabs_of : ∀ e ∈ base.tables.roots, e.1 ∈ st.roots ∧ TabsOf (pySort lt (st.scripts.map (·.2))) e.1 e.2 := by
    intro e he
    obtain ⟨r, hr, h⟩ := forall₂_mem_right htab he
    exact ⟨h.1 ▸ hr, h.1 ▸ h.2⟩
  have tabs_root : ∀ r ∈ st.roots, ∃ e ∈ base.tables.roots, e.1 = r := by
    intro r hr
    obtain ⟨e, he, h⟩ := forall₂_mem_left htab hr
    exact ⟨e, he, h.1⟩
  -- the entries that are kept
  have kept : ∀ {y : Str × Script}, y ∈ st0.scripts → (∀ s ∈ st0.ignored ++ out, s.str ≠ y.1) → y.2 ∈ pySort lt (st.scripts.map (·.2)) := by
    intro y hy h
    exact (mem_pySort (lt := lt)).2 (List.mem_map.2 ⟨y, (k1 y).2 ⟨hy, h⟩, rfl⟩)
  have idxSeq : ∀ r ∈ st.roots, ∀ L, Enum r L → ∀ q ∈ L, ∃ i, base.index q = .ok i := by
    intro r hr L eL q hq
    have hr0 := k3.subset hr
    obtain ⟨y, hy⟩ := Option.isSome_iff_exists.1 ((hn.roots r hr0).2.2.2 L eL q hq)
    have hm := fsGet_mem hy
    have hys := (hn.keys _ hm).1
    simp only at hys
    have wq := eL.wf q hq
    have hcy : y.cardinal = 1 := by rw [cardinal_of_str (hok.wf _ hm) wq hys]; exact eL.one q hq
    refine seqIndex_isOk.2 ⟨y, (hscripts y).2 ⟨kept hm fun s hs hsq => ?_, .inl hcy⟩, hys⟩
    simp only at hsq
    rcases List.mem_append.1 hs with hs | hs
    · have ws := hok.ignored s hs
      obtain ⟨a', p1, p2, p3, _⟩ := parse_str_plain ws
      apply (hc.ignored s.str a' (hn.ignored s hs).1 p1).1
      rw [cardinal_of_str p2 wq (p3.trans hsq)]
      exact eL.one q hq
    · obtain ⟨⟨k, hks⟩, u, hu, hall⟩ := (hout s).1 hs
      exact hall r hr0 ((eL.den u).2 ⟨q, hq, (den_of_str (hok.wf _ hks) wq hsq u).1 hu⟩)
  have hi : ∀ e ∈ base.tables.roots, ∀ t ∈ e.2, ∃ i, base.index t.script = .ok i := by
    intro e he t ht
    obtain ⟨hr, tab⟩ := tabs_of e he
    have hsome : ∀ {y : Script}, y.str = t.script.str → (base.tables.get? y).isSome := fun hy =>
      DictOk.get?_isSome.2 ⟨t, DictOk.mem_all.2 ⟨e, he, ht⟩, hy.symm⟩
    rcases tab.from_ t ht with h | h | h
    · have hr0 := k3.subset hr
      obtain ⟨y, hy⟩ := Option.isSome_iff_exists.1 (hn.roots e.1 hr0).2.2.1
      have hm := fsGet_mem hy
      have hys := (hn.keys _ hm).1
      simp only at hys
      refine seqIndex_isOk.2 ⟨y, (hscripts y).2 ⟨kept hm ((k4 e.1).1 hr).2, .inr (hsome ?_)⟩, ?_⟩ <;> rw [h, hys]
    · exact seqIndex_isOk.2 ⟨t.script, (hscripts _).2 ⟨h, .inr (hsome rfl)⟩, rfl⟩
    · obtain ⟨L, eL⟩ := enum_exists (hroots e.1 hr)
      have wt := tab.wf t ht
      obtain ⟨w, hw⟩ := den_exists wt
      obtain ⟨q, hq, hqw⟩ := (eL.den w).1 ((tab.within t ht).2 w hw)
      obtain ⟨i, hii⟩ := idxSeq e.1 hr L eL q hq
      exact ⟨i, (seqIndex_eq hii).2 (str_of_word' (eL.wf q hq) wt (eL.one q hq) h hqw hw)⟩
  have hw2 : ∀ e ∈ base.tables.roots, ∀ t ∈ e.2, WF t.script ∧ Within t.script e.1 := fun e he t ht =>
    ⟨(tabs_of e he).2.wf t ht, (tabs_of e he).2.within t ht⟩
  obtain ⟨c, hcont⟩ := contains_total hw2 (fun e he => ⟨hroots e.1 (tabs_of e he).1, (tabs_of e he).2.seqs⟩) hi
  have hb : BaseOk ⟨base, st.roots, fun _ => c⟩ (pySort lt (st.scripts.map (·.2))) :=
    ⟨hroots, hap.sublist k3, hwf, htab, hscripts, hcont⟩
  have ht : ∀ s ∈ base.scripts, (base.tables.get? s).isSome := by
    intro s hs
    rcases ((hscripts s).1 hs).2 with h | h
    · have hm := ((hscripts s).1 hs).1
      rw [mem_pySort (lt := lt), List.mem_map] at hm
      obtain ⟨y, hy, rfl⟩ := hm
      obtain ⟨r, hr, hwi⟩ := singular_root hnk (NoIgnoredRoot.of_consistent hc) h1 hy h
      obtain ⟨e, he, her⟩ := tabs_root r hr
      obtain ⟨_, tab⟩ := tabs_of e he
      rw [her] at tab
      obtain ⟨L, eL⟩ := enum_exists (hroots r hr)
      have wy := hb.script_wf hs
      obtain ⟨w, hw⟩ := den_exists wy
      obtain ⟨q, hq, hqw⟩ := (eL.den w).1 (hwi.2 w hw)
      obtain ⟨t, htt, hts⟩ := tab.seqs L eL q hq
      exact DictOk.get?_isSome.2 ⟨t, DictOk.mem_all.2 ⟨e, he, htt⟩, by
        rw [hts]; exact str_of_word' (eL.wf q hq) wy (eL.one q hq) h hqw hw⟩
    · exact h
  have hrank := hb.tableRank_total hi hd hr ht
  obtain ⟨rel, hrel⟩ := computeRelations_ok hcont
    (fun r => father_total (fun s hs => hb.script_wf hs) r.isLt _)
    (fun k => siblings_total (fun e he t ht => ⟨(hw2 e he t ht).1, (hw2 e he t ht).2.1⟩) hi k) hrank
  unfold mkDictionary
  rw [h1]
  simp only [bind, Except.bind]
  rw [h2]
  simp only []
  obtain ⟨ix, hix⟩ := mapM_total (f := base.index) (l := st.roots) fun r hr => by
    obtain ⟨e, he, her⟩ := tabs_root r hr
    obtain ⟨k, us, hp, _⟩ := (tabs_of e he).2.root
    obtain ⟨i, hii⟩ := hi e he (.root e.1 k) (hp.mem_iff.2 (by simp))
    exact ⟨i, by rw [← her]; exact hii⟩
  rw [hix]
  simp only [hrel]
  exact ⟨_, rfl⟩

end Verif
