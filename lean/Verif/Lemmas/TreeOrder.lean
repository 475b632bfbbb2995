import Verif.Lemmas.BuildTotal

/-
Lemmas on the tree of the tables of a root: which paradigms have a table, which table is its parent, and that the order of the sets
does not matter when no two scripts have the same words.
-/

namespace Verif
open Script

/-- No script of the list lies within another one with at most as many words. -/
def Graded (l : List Script) : Prop := ∀ a ∈ l, ∀ b ∈ l, Within a b → b.cardinal ≤ a.cardinal → a.str = b.str

/-- Scripts that list each word once, no two with the same words. -/
theorem graded_of {l : List Script} (hw : ∀ s ∈ l, WF s) (hd : ∀ s ∈ l, DisjointSums s)
    (hs : ∀ a ∈ l, ∀ b ∈ l, Within a b → Within b a → a.str = b.str) : Graded l := by
  intro a ha b hb hab hc
  refine hs a ha b hb hab ⟨hab.1.symm, fun w hbw => ?_⟩
  obtain ⟨A, eA⟩ := enum_exists (hw a ha)
  obtain ⟨B, eB⟩ := enum_exists (hw b hb)
  have nA : (A.map str).Nodup := List.pairwise_map.2 ((norep_iff (hw a ha) eA).2 (hd a ha))
  have nB : (B.map str).Nodup := List.pairwise_map.2 ((norep_iff (hw b hb) eB).2 (hd b hb))
  have sub : A.map str ⊆ B.map str := by
    intro x hx
    obtain ⟨q, hq, rfl⟩ := List.mem_map.1 hx
    obtain ⟨u, hu⟩ := den_exists (eA.wf q hq)
    obtain ⟨q', hq', hu'⟩ := (eB.den u).1 (hab.2 u ((eA.den u).2 ⟨q, hq, hu⟩))
    exact List.mem_map.2 ⟨q', hq', str_of_word' (eB.wf q' hq') (eA.wf q hq) (eB.one q' hq') (eA.one q hq) hu' hu⟩
  have len : (B.map str).length ≤ (A.map str).length := by rw [List.length_map, List.length_map, eA.length, eB.length]; exact hc
  have perm : (A.map str).Perm (B.map str) := (List.subperm_of_subset nA sub).perm_of_length_le len
  obtain ⟨q, hq, hqw⟩ := (eB.den w).1 hbw
  obtain ⟨q', hq', hs'⟩ := List.mem_map.1 (perm.mem_iff.2 (List.mem_map_of_mem (f := str) hq))
  exact (eA.den w).2 ⟨q', hq', (den_of_str (eA.wf q' hq') (eB.wf q hq) hs' w).2 hqw⟩

/-- The table has the script, among the accepting tables it is the parent with the least script. -/
def BestParent (ts : List Table) (s : Script) (p : Table) (r : Bool) : Prop :=
  p ∈ ts ∧ p.script.str ≠ s.str ∧ p.accept s = .ok (true, r) ∧
    ∀ q ∈ ts, q.script.str ≠ s.str → ∀ b, q.accept s = .ok (true, b) → lt q.script p.script = false

/-- The tables of a root with the paradigms `ps`. -/
structure TreeOf (root : Script) (ps : List Script) (ts : List Table) : Prop where
  top : ∃ k, tableClass root = .ok k ∧ .root root k ∈ ts
  form : ∀ t ∈ ts, (∃ k, tableClass root = .ok k ∧ t = .root root k) ∨
    ∃ s k r p, t = .sub s k r p ∧ s ∈ ps ∧ s.str ≠ root.str ∧ tableClass s = .ok k ∧ BestParent ts s p r
  kept : ∀ s ∈ ps, s.str ≠ root.str → ∀ q ∈ ts, q.script.str ≠ s.str → ∀ b, q.accept s = .ok (true, b) → ∃ t ∈ ts, t.script = s
  distinct : ts.Pairwise fun a b => a.script.str ≠ b.script.str

theorem minCandidate_least {c : Table × Bool} {cs : List (Table × Bool)} (h : ∀ x ∈ c :: cs, WF x.1.script ∧ Plain x.1.script) :
    ∀ x ∈ c :: cs, lt x.1.script (minCandidate c cs).1.script = false := by
  unfold minCandidate
  induction cs generalizing c with
  | nil =>
    intro x hx
    rw [List.mem_singleton] at hx
    subst hx
    exact lt_irrefl _
  | cons y cs ih =>
    rw [List.foldl_cons]
    have hy := h y (by simp)
    have hc := h c (by simp)
    have memM : ∀ z, (minCandidate z cs) ∈ z :: cs := fun z => minCandidate_mem z cs
    unfold minCandidate at memM
    intro x hx
    -- an element that is not below the one kept is not below the least one
    have step : ∀ z w : Table × Bool, z ∈ c :: y :: cs → w ∈ c :: y :: cs → lt w.1.script z.1.script = false →
        (∀ x ∈ z :: cs, lt x.1.script (cs.foldl (fun m d => if d.1.script.lt m.1.script then d else m) z).1.script = false) →
        lt w.1.script (cs.foldl (fun m d => if d.1.script.lt m.1.script then d else m) z).1.script = false := by
      intro z w hz hw hwz hall
      have hm := memM z
      generalize hM : cs.foldl (fun m d => if d.1.script.lt m.1.script then d else m) z = M at hall hm ⊢
      have hMm : M ∈ c :: y :: cs := by
        rcases List.mem_cons.1 hm with e | e
        · rw [e]; exact hz
        · simp [e]
      have oz := h z hz
      have ow := h w hw
      have oM := h M hMm
      have hzM := hall z (by simp)
      cases hlt : lt w.1.script M.1.script with
      | false => rfl
      | true =>
        by_cases e : z.1.script.str = M.1.script.str
        · rw [← lt_congr ow.1 ow.2 ow.1 ow.2 oz.1 oz.2 oM.1 oM.2 rfl e, hwz] at hlt
          exact hlt.symm
        · rcases lt_total oz.1 oz.2 oM.1 oM.2 e with h1 | h1
          · rw [h1] at hzM; cases hzM
          · rw [lt_trans ow.1 ow.2 oM.1 oM.2 oz.1 oz.2 hlt h1] at hwz; exact hwz
    split
    · rename_i hlt
      have hall := ih (c := y) (fun x hx => h x (by rcases List.mem_cons.1 hx with e | e <;> simp [e]))
      rcases List.mem_cons.1 hx with rfl | hx
      · exact step y x (by simp) (by simp) (lt_asymm hy.1 hy.2 hc.1 hc.2 hlt) hall
      · exact hall x hx
    · rename_i hlt
      have hall := ih (c := c) (fun x hx => h x (by rcases List.mem_cons.1 hx with e | e <;> simp [e]))
      rcases List.mem_cons.1 hx with rfl | hx
      · exact hall _ (by simp)
      · rcases List.mem_cons.1 hx with rfl | hx
        · exact step c x (by simp) (by simp) (by simpa using hlt) hall
        · exact hall x (by simp [hx])

/-- The candidates are exactly the accepting tables. -/
theorem parentCandidates_all {ds : List Table} {s : Script} {cs : List (Table × Bool)} (h : parentCandidates ds s = .ok cs) {t : Table}
    (ht : t ∈ ds) {b : Bool} (hb : t.accept s = .ok (true, b)) : (t, b) ∈ cs := by
  unfold parentCandidates at h
  rw [bind_ok] at h
  obtain ⟨r, h1, h⟩ := h
  rw [pure_ok] at h
  subst h
  obtain ⟨e, he, hte⟩ := mapM_each h1 ht
  rw [bind_ok] at hte
  obtain ⟨a, ha, hte⟩ := hte
  rw [pure_ok] at hte
  subst hte
  rw [hb, Except.ok.injEq] at ha
  subst ha
  exact List.mem_map.2 ⟨_, List.mem_filter.2 ⟨he, rfl⟩, rfl⟩

/-- What one round adds: nothing when no table accepts the script, otherwise a table whose parent has the least script. -/
theorem defineOne_best {o : SetOrder} (ho : o.Valid) {ds ts : List Table} {s : Script} (hd : ∀ t ∈ ds, WF t.script ∧ Plain t.script)
    (h : defineOne o ds s = .ok ts) :
    (ts = ds ∧ ∀ t ∈ ds, ∀ b, t.accept s ≠ .ok (true, b)) ∨
    ∃ p k r, p ∈ ds ∧ ts = ds ++ [.sub s k r p] ∧ tableClass s = .ok k ∧ p.accept s = .ok (true, r) ∧
      ∀ q ∈ ds, ∀ b, q.accept s = .ok (true, b) → lt q.script p.script = false := by
  unfold defineOne at h
  rw [bind_ok] at h
  obtain ⟨cs, h1, h⟩ := h
  have hperm := ho.2.1 cs
  cases hc : o.candidates cs with
  | nil =>
    rw [hc] at h hperm
    simp only [] at h
    rw [pure_ok] at h
    refine .inl ⟨h.symm, fun t ht b hb => ?_⟩
    have := hperm.mem_iff.2 (parentCandidates_all h1 ht hb)
    cases this
  | cons c cs' =>
    rw [hc] at h hperm
    simp only [] at h
    rw [bind_ok] at h
    obtain ⟨t, h2, h⟩ := h
    rw [pure_ok] at h
    obtain ⟨k, rfl, hk⟩ := mkSub_inv h2
    have hm := parentCandidates_mem h1 (hperm.mem_iff.1 (minCandidate_mem c cs'))
    refine .inr ⟨_, k, _, hm.1, h.symm, hk, hm.2, fun q hq b hb => ?_⟩
    exact minCandidate_least (fun x hx => hd _ (parentCandidates_mem h1 (hperm.mem_iff.1 hx)).1) _
      (hperm.mem_iff.2 (parentCandidates_all h1 hq hb))

/-- The tables of a root. -/
theorem defineRoot_tree {o : SetOrder} (ho : o.Valid) {root : Script} {ps : List Script} {ts cells : List Table}
    (hw : ∀ s ∈ root :: ps, WF s ∧ Plain s) (hg : Graded (root :: ps)) (hn : ps.Pairwise fun a b => a.str ≠ b.str)
    (h : defineRoot o root ps = .ok (ts, cells)) :
    TreeOf root ps ts ∧ ∃ L k, singularSequences root = .ok L ∧ tableClass root = .ok k ∧
      cells = L.map fun q => Table.sub q .cell false (.root root k) := by
  unfold defineRoot at h
  rw [bind_ok] at h
  obtain ⟨rt, h1, h⟩ := h
  rw [bind_ok] at h
  obtain ⟨L, h2, h⟩ := h
  rw [bind_ok] at h
  obtain ⟨ts', h3, h⟩ := h
  rw [pure_ok, Prod.mk.injEq] at h
  obtain ⟨rfl, rfl⟩ := h
  obtain ⟨k, rfl, hk⟩ := mkRoot_inv h1
  refine ⟨?_, L, k, h2, hk, rfl⟩
  generalize hq : pySort (fun a b => decide (b.cardinal < a.cardinal))
      (o.scripts ((dedupBy str ps).filter fun s => !s.pyEq root)) = qs at h3
  have hperm : qs.Perm ((dedupBy str ps).filter fun s => !s.pyEq root) := by
    rw [← hq]; exact (pySort_perm _ _).trans (ho.1 _)
  have hdd : ∀ s ∈ ps, s ∈ dedupBy str ps := by
    intro s hs
    obtain ⟨y, hy, e⟩ := dedupBy_complete str hs
    have : y = s := by
      by_contra hne
      exact DictOk.pairwise_mem (fun a b h e => h e.symm) hn (mem_dedupBy _ hy) hs hne e
    exact this ▸ hy
  have hqs : ∀ s, s ∈ qs ↔ s ∈ ps ∧ s.str ≠ root.str := by
    intro s
    rw [hperm.mem_iff, List.mem_filter]
    constructor
    · rintro ⟨h, h'⟩
      exact ⟨mem_dedupBy _ h, by simpa [pyEq] using h'⟩
    · rintro ⟨h, h'⟩
      exact ⟨hdd s h, by simpa [pyEq] using h'⟩
  have hnd : qs.Pairwise fun a b => a.str ≠ b.str :=
    ((dedupBy_pairwise str ps).filter _).perm hperm.symm (fun h => h.symm)
  have hsort : qs.Pairwise fun a b => b.cardinal ≤ a.cardinal := by
    rw [← hq]
    have mem : ∀ a ∈ o.scripts ((dedupBy str ps).filter fun s => !s.pyEq root), a.cardinal ≤ 360 := by
      intro a ha
      rw [(ho.1 _).mem_iff, List.mem_filter] at ha
      exact wf_cardinal (hw a (by simp [mem_dedupBy _ ha.1])).1
    have hsorted := pySort_sorted (lt := fun a b : Script => decide (b.cardinal < a.cardinal)) (k := fun s : Script => [360 - s.cardinal])
      (l := o.scripts ((dedupBy str ps).filter fun s => !s.pyEq root)) (by
        intro a ha b hb
        have h1 := mem a ha
        have h2 := mem b hb
        simp only [ltBytes]
        grind)
    refine List.Pairwise.imp_of_mem ?_ hsorted
    intro a b ha hb h
    have h1 := mem a ((mem_pySort _).1 ha)
    have h2 := mem b ((mem_pySort _).1 hb)
    simp only [ltBytes] at h
    grind
  clear hq hperm
  have loop : ∀ (qs done : List Script) (ds ts : List Table), qs.foldlM (defineOne o) ds = .ok ts →
      (∀ s ∈ done ++ qs, s ∈ ps ∧ s.str ≠ root.str) → ((done ++ qs).Pairwise fun a b => a.str ≠ b.str) →
      ((done ++ qs).Pairwise fun a b => b.cardinal ≤ a.cardinal) →
      (∀ t ∈ ds, t.script = root ∨ t.script ∈ done) →
      TreeOf root done ds → TreeOf root (done ++ qs) ts := by
    intro qs
    induction qs with
    | nil =>
      intro done ds ts h _ _ _ _ h6
      rw [List.foldlM_nil, pure_ok] at h
      subst h
      simpa using h6
    | cons s qs ih =>
      intro done ds ts h hq hnd hcard hfrom htree
      rw [List.foldlM_cons, bind_ok] at h
      obtain ⟨ds', hd, h⟩ := h
      have hds : ∀ t ∈ ds, WF t.script ∧ Plain t.script := by
        intro t ht
        rcases hfrom t ht with e | e
        · rw [e]; exact hw _ (by simp)
        · exact hw _ (by simp [(hq _ (List.mem_append_left _ e)).1])
      have hs := hq s (by simp)
      have hfresh : ∀ t ∈ ds, t.script.str ≠ s.str := by
        intro t ht
        rcases hfrom t ht with e | e
        · rw [e]; exact fun e => hs.2 e.symm
        · exact (List.pairwise_append.1 hnd).2.2 _ e s (by simp)
      have hlist : done ++ s :: qs = (done ++ [s]) ++ qs := by simp
      rw [hlist] at hq hnd hcard ⊢
      rcases defineOne_best ho hds hd with ⟨rfl, hno⟩ | ⟨p, k', r, hp', rfl, hk', hacc, hmin⟩
      · refine ih _ ds' ts h hq hnd hcard (fun t ht => (hfrom t ht).imp_right fun h => by simp [h]) ⟨htree.top, ?_, ?_, htree.distinct⟩
        · intro t ht
          rcases htree.form t ht with h | ⟨s', k'', r, p, e, h1, h2⟩
          · exact .inl h
          · exact .inr ⟨s', k'', r, p, e, by simp [h1], h2⟩
        · intro s' hs' hne q hq' hqs b hb
          rcases List.mem_append.1 hs' with hs' | hs'
          · exact htree.kept s' hs' hne q hq' hqs b hb
          · rw [List.mem_singleton.1 hs'] at hb
            exact absurd hb (hno q hq' b)
      · -- the new table accepts no earlier script
        have hnew : ∀ s' ∈ done, ∀ b, (Table.sub s k' r p).accept s' ≠ .ok (true, b) := by
          intro s' hs' b hb
          have hs'' := hq s' (by simp [hs'])
          have hwi := accept_within (t := .sub s k' r p) (hw s (by simp [hs.1])).1 (hw s' (by simp [hs''.1])).1 hb
          rw [List.append_assoc] at hcard hnd
          have hc := (List.pairwise_append.1 hcard).2.2 s' hs' s (by simp)
          exact (List.pairwise_append.1 hnd).2.2 s' hs' s (by simp) (hg s' (by simp [hs''.1]) s (by simp [hs.1]) hwi hc)
        refine ih _ _ ts h hq hnd hcard ?_ ⟨?_, ?_, ?_, ?_⟩
        · intro t ht
          rcases List.mem_append.1 ht with ht | ht
          · exact (hfrom t ht).imp_right fun h => by simp [h]
          · rw [List.mem_singleton.1 ht]; simp [Table.script]
        · obtain ⟨k, h1, h2⟩ := htree.top
          exact ⟨k, h1, by simp [h2]⟩
        · intro t ht
          rcases List.mem_append.1 ht with ht | ht
          · rcases htree.form t ht with h | ⟨s', k'', r', p', e, h1, h2, h3, b1, b2, b3, b4⟩
            · exact .inl h
            · refine .inr ⟨s', k'', r', p', e, by simp [h1], h2, h3, by simp [b1], b2, b3, fun q hq' hne b hb => ?_⟩
              rcases List.mem_append.1 hq' with hq' | hq'
              · exact b4 q hq' hne b hb
              · rw [List.mem_singleton.1 hq'] at hb
                exact absurd hb (hnew s' h1 b)
          · rw [List.mem_singleton.1 ht]
            refine .inr ⟨s, k', r, p, rfl, by simp, hs.2, hk', by simp [hp'], hfresh p hp', hacc, fun q hq' hne b hb => ?_⟩
            rcases List.mem_append.1 hq' with hq' | hq'
            · exact hmin q hq' b hb
            · rw [List.mem_singleton.1 hq'] at hne
              exact absurd rfl hne
        · intro s' hs' hne q hq' hqs b hb
          rcases List.mem_append.1 hs' with hs' | hs'
          · rcases List.mem_append.1 hq' with hq' | hq'
            · obtain ⟨t, ht, e⟩ := htree.kept s' hs' hne q hq' hqs b hb
              exact ⟨t, by simp [ht], e⟩
            · rw [List.mem_singleton.1 hq'] at hb
              exact absurd hb (hnew s' hs' b)
          · rw [List.mem_singleton.1 hs']
            exact ⟨.sub s k' r p, by simp, rfl⟩
        · rw [List.pairwise_append]
          refine ⟨htree.distinct, by simp, fun t ht x hx => ?_⟩
          rw [List.mem_singleton.1 hx]
          exact hfresh t ht
  have := loop qs [] [.root root k] _ h3 (by simpa using fun s hs => (hqs s).1 hs) (by simpa using hnd) (by simpa using hsort)
    (by intro t ht; rw [List.mem_singleton.1 ht]; exact .inl rfl)
    ⟨⟨k, hk, by simp⟩, by intro t ht; exact .inl ⟨k, hk, List.mem_singleton.1 ht⟩, by simp, by simp⟩
  rw [List.nil_append] at this
  refine ⟨this.top, ?_, ?_, this.distinct⟩
  · intro t ht
    rcases this.form t ht with h | ⟨s', k'', r, p, e, h1, h2⟩
    · exact .inl h
    · exact .inr ⟨s', k'', r, p, e, ((hqs s').1 h1).1, h2⟩
  · intro s hs hne
    exact this.kept s ((hqs s).2 ⟨hs, hne⟩) hne

/-- Two lists with the tables of a root have the same tables. -/
theorem tree_unique {root : Script} {ps : List Script} {ts us : List Table} (hw : ∀ s ∈ root :: ps, WF s ∧ Plain s)
    (hg : Graded (root :: ps)) (ht : TreeOf root ps ts) (hu : TreeOf root ps us) : ts.Perm us := by
  have from_ : ∀ {ts : List Table}, TreeOf root ps ts → ∀ t ∈ ts, t.script ∈ root :: ps := by
    intro ts ht t h
    rcases ht.form t h with ⟨k, _, rfl⟩ | ⟨s, k, r, p, rfl, h1, _⟩
    · simp [Table.script]
    · simp [Table.script, h1]
  -- the script of a parent has more words
  have more : ∀ {ts : List Table}, TreeOf root ps ts → ∀ s ∈ ps, ∀ p r, BestParent ts s p r → s.cardinal < p.script.cardinal := by
    intro ts ht s hs p r hb
    by_contra hc
    have hp := from_ ht p hb.1
    exact hb.2.1 (hg s (by simp [hs]) p.script hp (accept_within (hw _ hp).1 (hw s (by simp [hs])).1 hb.2.2.1) (by omega)).symm
  have bound : ∀ {ts : List Table}, TreeOf root ps ts → ∀ t ∈ ts, t.script.cardinal ≤ 360 := fun ht t h =>
    wf_cardinal (hw _ (from_ ht t h)).1
  have main : ∀ n, ∀ {ts us : List Table}, TreeOf root ps ts → TreeOf root ps us → ∀ t ∈ ts, 360 - t.script.cardinal = n → t ∈ us := by
    intro n
    induction n using Nat.strong_induction_on with
    | _ n ih =>
      intro ts us ht hu t hm hn
      rcases ht.form t hm with ⟨k, hk, rfl⟩ | ⟨s, k, r, p, rfl, hs, hne, hk, hb⟩
      · obtain ⟨k', hk', hm'⟩ := hu.top
        rw [hk, Except.ok.injEq] at hk'
        exact hk' ▸ hm'
      simp only [Table.script] at hn
      have hp := more ht s hs p r hb
      have hp360 := bound ht p hb.1
      have hpu := ih (360 - p.script.cardinal) (by omega) ht hu p hb.1 rfl
      obtain ⟨t', ht', hts⟩ := hu.kept s hs hne p hpu hb.2.1 r hb.2.2.1
      rcases hu.form t' ht' with ⟨k', hk', rfl⟩ | ⟨s', k', r', p', rfl, hs', hne', hk', hb'⟩
      · exact absurd (congrArg str hts).symm hne
      simp only [Table.script] at hts
      subst hts
      have hp' := more hu s' hs' p' r' hb'
      have hp360' := bound hu p' hb'.1
      have hpt := ih (360 - p'.script.cardinal) (by omega) hu ht p' hb'.1 rfl
      have l1 := hb.2.2.2 p' hpt hb'.2.1 r' hb'.2.2.1
      have l2 := hb'.2.2.2 p hpu hb.2.1 r hb.2.2.1
      have w1 := hw _ (from_ ht p hb.1)
      have w2 := hw _ (from_ hu p' hb'.1)
      have hpp : p = p' := by
        by_contra hpp
        refine DictOk.pairwise_mem (fun a b h e => h e.symm) ht.distinct hb.1 hpt hpp ?_
        by_contra hstr
        rcases lt_total w1.1 w1.2 w2.1 w2.2 hstr with h | h
        · rw [h] at l2; cases l2
        · rw [h] at l1; cases l1
      subst hpp
      have h1 := hb.2.2.1
      rw [hb'.2.2.1, Except.ok.injEq, Prod.mk.injEq] at h1
      rw [hk, Except.ok.injEq] at hk'
      rw [hk', ← h1.2]
      exact ht'
  have nd : ∀ {ts : List Table}, TreeOf root ps ts → ts.Nodup := fun ht => ht.distinct.imp fun h e => h (by rw [e])
  exact (List.perm_ext_iff_of_nodup (nd ht) (nd hu)).2 fun t => ⟨fun h => main _ ht hu t h rfl, fun h => main _ hu ht t h rfl⟩

/-- The paradigms assigned to a root. -/
def assignedTo (assigned : List (Option (Script × Script))) (r : Script) : List Script :=
  (assigned.filterMap id).filterMap fun e => if e.1.pyEq r then some e.2 else none

theorem assignedTo_sublist {rs : List (Script × List Script)} {scripts : List Script} {assigned : List (Option (Script × Script))}
    (h : scripts.mapM (assignRoot rs) = .ok assigned) (r : Script) :
    (assignedTo assigned r).Sublist (scripts.filter fun s => s.cardinal ≠ 1) := by
  replace h := mapM_inv h
  unfold assignedTo
  induction h with
  | nil => simp
  | @cons s e l m h1 _ ih =>
    cases e with
    | none =>
      rw [List.filterMap_cons_none rfl]
      exact ih.trans ((List.sublist_cons_self s l).filter _)
    | some e =>
      obtain ⟨e1, e2⟩ := assignRoot_inv h1
      rw [List.filter_cons_of_pos (by simpa using e2)]
      show (List.filterMap _ (e :: List.filterMap id m)).Sublist _
      rw [List.filterMap_cons]
      split
      · exact ih.trans (List.sublist_cons_self _ _)
      · rename_i x hx
        split at hx
        · rw [Option.some.injEq] at hx
          rw [← hx, e1]
          exact ih.cons_cons _
        · cases hx

/-- The conditions under which the order of the sets does not matter. -/
structure TreeData (roots scripts : List Script) : Prop where
  wf : ∀ s ∈ roots ++ scripts.filter (fun s => s.cardinal ≠ 1), WF s ∧ Plain s
  graded : Graded (roots ++ scripts.filter fun s => s.cardinal ≠ 1)
  distinct : scripts.Pairwise fun a b => a.str ≠ b.str

theorem buildTables_tree {o : SetOrder} (ho : o.Valid) {roots scripts : List Script} {x : TableStructure} (hd : TreeData roots scripts)
    (h : buildTables o roots scripts = .ok x) : ∃ rs assigned,
      roots.mapM (fun r => do return (r, ← singularSequences r)) = Except.ok rs ∧ scripts.mapM (assignRoot rs) = .ok assigned ∧
      List.Forall₂ (fun r e => e.1 = r ∧ ∃ ts cells, e.2.Perm (ts ++ cells) ∧ TreeOf r (assignedTo assigned r) ts ∧
        ∃ L k, singularSequences r = .ok L ∧ tableClass r = .ok k ∧ cells = L.map fun q => Table.sub q .cell false (.root r k)) roots x.roots := by
  unfold buildTables at h
  rw [bind_ok] at h
  obtain ⟨rs, h1, h⟩ := h
  rw [bind_ok] at h
  obtain ⟨assigned, h2, h⟩ := h
  rw [bind_ok] at h
  obtain ⟨tabs, h3, h⟩ := h
  rw [pure_ok] at h
  subst h
  refine ⟨rs, assigned, h1, h2, ?_⟩
  have sub := assignedTo_sublist h2
  replace h3 := mapM_inv h3
  have key : ∀ r ∈ roots, ∀ e, (do
      let (ts, cells) ← defineRoot o r (assignedTo assigned r)
      return (r, o.tables (ts ++ cells)) : Except Err (Script × List Table)) = .ok e → e.1 = r ∧ ∃ ts cells, e.2.Perm (ts ++ cells) ∧
        TreeOf r (assignedTo assigned r) ts ∧ ∃ L k, singularSequences r = .ok L ∧ tableClass r = .ok k ∧
          cells = L.map fun q => Table.sub q .cell false (.root r k) := by
    intro r hr e he
    rw [bind_ok] at he
    obtain ⟨⟨ts, cells⟩, h5, he⟩ := he
    rw [pure_ok] at he
    subst he
    have mem : ∀ s ∈ r :: assignedTo assigned r, s ∈ roots ++ scripts.filter fun s => s.cardinal ≠ 1 := by
      intro s hs
      rcases List.mem_cons.1 hs with rfl | hs
      · exact List.mem_append_left _ hr
      · exact List.mem_append_right _ ((sub r).subset hs)
    obtain ⟨t1, t2⟩ := defineRoot_tree ho (fun s hs => hd.wf s (mem s hs)) (fun a ha b hb => hd.graded a (mem a ha) b (mem b hb))
      ((hd.distinct.filter _).sublist (sub r)) h5
    exact ⟨rfl, ts, cells, ho.2.2 _, t1, t2⟩
  clear h1 h2
  have all : ∀ {l : List Script} {ys : List (Script × List Table)}, l ⊆ roots → List.Forall₂ (fun r e => (do
      let (ts, cells) ← defineRoot o r (assignedTo assigned r)
      return (r, o.tables (ts ++ cells)) : Except Err (Script × List Table)) = .ok e) l ys →
      List.Forall₂ (fun r e => e.1 = r ∧ ∃ ts cells, e.2.Perm (ts ++ cells) ∧ TreeOf r (assignedTo assigned r) ts ∧
        ∃ L k, singularSequences r = .ok L ∧ tableClass r = .ok k ∧ cells = L.map fun q => Table.sub q .cell false (.root r k)) l ys := by
    intro l ys hl h
    induction h with
    | nil => exact .nil
    | cons h4 _ ih => exact .cons (key _ (hl (by simp)) _ h4) (ih fun x hx => hl (by simp [hx]))
  exact all (fun _ h => h) h3

/-- Two orders of the sets give the same tables. -/
theorem buildTables_perm {o o' : SetOrder} (ho : o.Valid) (ho' : o'.Valid) {roots scripts : List Script} {x x' : TableStructure}
    (hd : TreeData roots scripts) (h : buildTables o roots scripts = .ok x) (h' : buildTables o' roots scripts = .ok x') :
    List.Forall₂ (fun e e' => e'.1 = e.1 ∧ e'.2.Perm e.2) x.roots x'.roots := by
  obtain ⟨rs, as, h1, h2, h3⟩ := buildTables_tree ho hd h
  obtain ⟨rs', as', h1', h2', h3'⟩ := buildTables_tree ho' hd h'
  rw [h1, Except.ok.injEq] at h1'
  subst h1'
  rw [h2, Except.ok.injEq] at h2'
  subst h2'
  have sub := assignedTo_sublist h2
  have all : ∀ {l : List Script}, l ⊆ roots → ∀ {ys ys' : List (Script × List Table)},
      List.Forall₂ (fun r e => e.1 = r ∧ ∃ ts cells, e.2.Perm (ts ++ cells) ∧ TreeOf r (assignedTo as r) ts ∧
        ∃ L k, singularSequences r = .ok L ∧ tableClass r = .ok k ∧ cells = L.map fun q => Table.sub q .cell false (.root r k)) l ys →
      List.Forall₂ (fun r e => e.1 = r ∧ ∃ ts cells, e.2.Perm (ts ++ cells) ∧ TreeOf r (assignedTo as r) ts ∧
        ∃ L k, singularSequences r = .ok L ∧ tableClass r = .ok k ∧ cells = L.map fun q => Table.sub q .cell false (.root r k)) l ys' →
      List.Forall₂ (fun e e' => e'.1 = e.1 ∧ e'.2.Perm e.2) ys ys' := by
    intro l hl ys ys' h h'
    induction h generalizing ys' with
    | nil => cases h'; exact .nil
    | @cons r e l ys h4 _ ih =>
      cases h' with
      | cons h5 h6 =>
        refine .cons ?_ (ih (fun x hx => hl (by simp [hx])) h6)
        obtain ⟨e1, ts, cells, p1, t1, L, k, a1, a2, rfl⟩ := h4
        obtain ⟨e1', ts', cells', p1', t1', L', k', a1', a2', rfl⟩ := h5
        rw [a1, Except.ok.injEq] at a1'
        rw [a2, Except.ok.injEq] at a2'
        subst a1' a2'
        refine ⟨e1'.trans e1.symm, p1'.trans (List.Perm.trans ?_ p1.symm)⟩
        have mem : ∀ s ∈ r :: assignedTo as r, s ∈ roots ++ scripts.filter fun s => s.cardinal ≠ 1 := by
          intro s hs
          rcases List.mem_cons.1 hs with rfl | hs
          · exact List.mem_append_left _ (hl (by simp))
          · exact List.mem_append_right _ ((sub r).subset hs)
        exact (tree_unique (fun s hs => hd.wf s (mem s hs)) (fun a ha b hb => hd.graded a (mem a ha) b (mem b hb)) t1' t1).append_right _
  exact all (fun _ h => h) h3 h3'

end Verif
