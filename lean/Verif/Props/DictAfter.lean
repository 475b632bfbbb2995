import Verif.Props.DictBuild
import Verif.Props.DictReading
import Verif.Props.Factor

/-
C71, C72, C73: after which transactions the dictionary can be read again.
-/

namespace Verif
open Script

variable {o : SetOrder} {ord : List Script → List Script} {x : Ext} {fs fs' : FS} {d : Dictionary}

/-- The conditions of `C21_builds_partial` on the keys that are listed and on the roots of the dictionary. -/
structure FitFiles (ks : List Str) (d : Dictionary) : Prop where
  keys : FitKeys ks
  roots : ∀ r ∈ d.roots, r.cardinal ≠ 1
  nested : ¬ FourNested ks

/-- Scripts with the same text list their words once together. -/
theorem disjoint_of_str {s t : Script} (hs : WF s) (ht : WF t) (h : s.str = t.str) (hd : DisjointSums s) : DisjointSums t := by
  obtain ⟨L, e⟩ := enum_exists hs
  obtain ⟨M, f⟩ := enum_exists ht
  have hn : (L.map str).Nodup := List.pairwise_map.2 ((norep_iff hs e).2 hd)
  have hsub : L.map str ⊆ M.map str := by
    intro a ha
    obtain ⟨p, hp, rfl⟩ := List.mem_map.1 ha
    obtain ⟨w, hw⟩ := den_exists (e.wf p hp)
    obtain ⟨q, hq, hqw⟩ := (f.den w).1 ((den_of_str hs ht h w).1 ((e.den w).2 ⟨p, hp, hw⟩))
    rw [str_of_word' (e.wf p hp) (f.wf q hq) (e.one p hp) (f.one q hq) hw hqw]
    exact List.mem_map_of_mem hq
  have hlen : (M.map str).length ≤ (L.map str).length := by
    rw [List.length_map, List.length_map, e.length, f.length, cardinal_of_str hs ht h]
  have hp := (List.subperm_of_subset hn hsub).perm_of_length_le hlen
  exact (norep_iff ht f).1 (List.pairwise_map.1 (hp.nodup_iff.1 hn))

/-- A script equal to its factored form lists each word once. -/
theorem Factored.once (ho : FactorOrder ord) {s : Script} (hb : Built s) (h : Factored ord s) : DisjointSums s := by
  obtain ⟨t, h1, h2⟩ := h
  obtain ⟨L, M, _, hM, _, hn⟩ := C14_sequences ho hb h1
  have wt := built_wf (C14_factorize ho hb h1).1
  have e := enum_of_run wt hM
  exact disjoint_of_str wt (built_wf hb) h2 ((norep_iff wt e).1 (List.pairwise_map.1 hn))

/-- The dictionary is read from consistent files that fit. -/
theorem ListsAfter.builds (ho : o.Valid) {S : Str → Prop} (h : ListsAfter fs fs' d S) (hr : ReadsConsistent fs')
    (hf : FitFiles (listParadigms fs') d) (hw : ∀ r ∈ d.roots, WF r) : ∃ d', getDictionary o fs' = .ok d' := by
  obtain ⟨rows, h1, h2⟩ := hr
  obtain ⟨d', h3⟩ := C21_builds_partial ho h2 hf.keys (fun k hk s hs => by
    obtain ⟨r, hr, hrk⟩ := h.roots rows h1 k hk
    obtain ⟨t, ht, htk⟩ := h2.keys k (h2.rootKeys k hk)
    rw [hs, Except.ok.injEq] at ht
    subst ht
    rw [cardinal_of_str (parse_wf hs) (hw r hr) (htk.trans hrk.symm)]
    exact hf.roots r hr) hf.nested
  refine ⟨d', ?_⟩
  unfold getDictionary
  rw [h1]
  exact h3

theorem FitFiles.mono {ks ks' : List Str} (h : FitFiles ks d) (hs : ∀ k ∈ ks', k ∈ ks) : FitFiles ks' d := by
  refine ⟨fun k hk => h.keys k (hs k hk), h.roots, ?_⟩
  rintro ⟨a, ha, b, hb, c, hc, e, he, hh⟩
  exact h.nested ⟨a, hs a ha, b, hs b hb, c, hs c hc, e, hs e he, hh⟩

/-- Keys that fit with one more key. -/
theorem FitFiles.cons {ks : List Str} {s : Script} (h : FitFiles ks d) (hw : WF s) (hd : DisjointSums s)
    (ht : ∀ t, parseScript s.str = .ok t → ¬ TooWide t) (hn : ¬ FourNested (s.str :: ks)) : FitFiles (s.str :: ks) d := by
  refine ⟨fun k hk t hp => ?_, h.roots, hn⟩
  rcases List.mem_cons.1 hk with rfl | hk
  · refine ⟨?_, ht t hp⟩
    obtain ⟨t', p1, _, p3, _⟩ := parse_str_plain hw
    rw [hp, Except.ok.injEq] at p1
    subst p1
    exact disjoint_of_str hw (parse_wf hp) p3.symm hd
  · exact h.keys k hk t hp

/-- **C71** (part): after the addition of a paradigm, the dictionary can be read again and its roots are the same, when the keys that
were listed fit, the tables of the paradigm are not refused for their size, and the paradigm is not the fourth of nested ones
(`C71_violated_broken`).  That the paradigm lists its words once follows from the check of the transaction. -/
theorem C71_builds_partial (ho : o.Valid) (hord : FactorOrder ord) {s : Script} (hb : Built s) {tr co : Str → List Str} {p q : Str}
    (hc : Consistent x fs) (hsc : SConsistent x fs) (hrc : ReadsConsistent fs) (hd : getDictionary o fs = .ok d) (hf : Filed x fs s p q)
    (hp : startsWith p (c!"morpheme/paradigm/") = true) (htr : OneLines tr) (hco : OneLines co) (hfit : FitFiles (listParadigms fs) d)
    (ht : ∀ t, parseScript s.str = .ok t → ¬ TooWide t) (hn : ¬ FourNested (s.str :: listParadigms fs))
    (h : addParadigm o ord x fs s tr co = .ok fs') : ∃ d', getDictionary o fs' = .ok d' ∧ SameRootTexts d d' := by
  obtain ⟨h1, h2, h3, _⟩ := addParadigm_after ho hb hc hsc hrc hd hf hp htr hco h
  obtain ⟨g, _⟩ := addParadigm_inv ho (built_wf hb) hd h
  obtain ⟨l, hok⟩ := getDictionary_ok ho hd
  obtain ⟨d', hd'⟩ := h3.builds ho h1 ((hfit.cons (built_wf hb) (g.once hord hb) ht hn).mono fun k hk => by
    rcases h3.listed k hk with rfl | hk
    · exact List.mem_cons_self
    · exact List.mem_cons_of_mem _ hk) hok.rootWf
  exact ⟨d', hd', h2 d' hd'⟩

/-- **C72** (part): after the deletion of a paradigm that is not a root, the dictionary can be read again and its roots are the same, when
the keys that were listed fit. -/
theorem C72_builds_partial (ho : o.Valid) {s : Script} (hb : Built s) (hn : ¬ Singular s) {p q : Str} (hc : Consistent x fs)
    (hsc : SConsistent x fs) (hrc : ReadsConsistent fs) (hd : getDictionary o fs = .ok d) (hf : Filed x fs s p q)
    (hr : ∀ r ∈ d.roots, r.str ≠ s.str) (hfit : FitFiles (listParadigms fs) d) (h : deleteParadigm o ord x fs s = .ok fs') :
    ∃ d', getDictionary o fs' = .ok d' ∧ SameRootTexts d d' := by
  obtain ⟨h1, h2, h3⟩ := deleteParadigm_after ho hb hn hc hsc hrc hd hf hr h
  obtain ⟨l, hok⟩ := getDictionary_ok ho hd
  obtain ⟨d', hd'⟩ := h3.builds ho h1 (hfit.mono fun k hk => (h3.listed k hk).resolve_left id) hok.rootWf
  exact ⟨d', hd', h2 d' hd'⟩

/-- **C73** (part): after the update of a paradigm that is not a root, the dictionary can be read again and its roots are the same, when
the keys that were listed fit, the tables of the new paradigm are not refused, and it is not the fourth of nested ones. -/
theorem C73_builds_partial (ho : o.Valid) (hord : FactorOrder ord) {old new : Script} (hbo : Built old) (hbn : Built new)
    (hc : Consistent x fs) (hsc : SConsistent x fs) (hrc : ReadsConsistent fs) (hd : getDictionary o fs = .ok d) {p q p' q' : Str}
    (hfo : Filed x fs old p q) (hfn : Filed x fs new p' q') (hne : old.str ≠ new.str) (hr : ∀ r ∈ d.roots, r.str ≠ old.str)
    (hf : SaysRoot fs old.str false)
    (hlines : ∀ l ∈ languages, ∀ a ∈ descriptorClasses, ∀ vs, getValues fs old.str l a = .ok vs → ∀ v ∈ vs, OneLine (strip v))
    (hfit : FitFiles (listParadigms fs) d) (ht : ∀ t, parseScript new.str = .ok t → ¬ TooWide t)
    (hn : ¬ FourNested (new.str :: listParadigms fs))
    (h : updateParadigm o ord x fs old new = .ok fs') : ∃ d', getDictionary o fs' = .ok d' ∧ SameRootTexts d d' := by
  obtain ⟨h1, h2, h3⟩ := updateParadigm_after ho hbo hbn hc hsc hrc hd hfo hfn hne hr hf hlines h
  obtain ⟨_, g, _⟩ := updateParadigm_inv hd hne h
  obtain ⟨l, hok⟩ := getDictionary_ok ho hd
  obtain ⟨d', hd'⟩ := h3.builds ho h1 ((hfit.cons (built_wf hbn) (g.once hord hbn) ht hn).mono fun k hk => by
    rcases h3.listed k hk with rfl | hk
    · exact List.mem_cons_self
    · exact List.mem_cons_of_mem _ hk) hok.rootWf
  exact ⟨d', hd', h2 d' hd'⟩

/-! ### Examples -/

theorem dictFs_fit (hd : getDictionary plainOrder dictFs = .ok d) : FitFiles (listParadigms dictFs) d := by
  refine ⟨fitKeys_of (by decide +kernel), ?_, notNested_of (by decide +kernel)⟩
  have h : (getDictionary plainOrder dictFs).map (fun d => d.roots.map cardinal) = .ok [3, 2] := by decide +kernel
  rw [hd] at h
  intro r hr
  have h2 := List.mem_map_of_mem (f := cardinal) hr
  rw [show d.roots.map cardinal = [3, 2] from Except.ok.inj h] at h2
  intro h1
  rw [h1] at h2
  revert h2
  decide

/-- After the addition of `S:+T:` the dictionary of the example can be read. -/
example : ∃ fs' d', addParadigm plainOrder (dedupBy str) dictExt dictFs scST exTr (fun _ => []) = .ok fs' ∧
    getDictionary plainOrder fs' = .ok d' := by
  obtain ⟨fs', h⟩ := scST_added
  obtain ⟨d, hd, _⟩ := dictFs_dict
  have hk : FitKeys [scST.str] := fitKeys_of (by decide +kernel)
  obtain ⟨d', h1, _⟩ := C71_builds_partial plainOrder_valid factorOrder_insertion (built_of (by decide +kernel)) dictFs_consistent
    dictFs_sconsistent dictFs_reads hd scST_filed (by decide +kernel) exTr_lines oneLines_nil (dictFs_fit hd)
    (fun t ht => (hk _ List.mem_cons_self t ht).2) (notNested_of (by decide +kernel)) h
  exact ⟨fs', d', h, h1⟩

theorem scSB_not_root (hd : getDictionary plainOrder dictFs = .ok d) : ∀ r ∈ d.roots, r.str ≠ scSB.str := by
  intro r hr e
  have := List.mem_map_of_mem (f := str) hr
  rw [dictFs_roots hd, e] at this
  revert this
  decide +kernel

/-- After the deletion of `S:+B:` too. -/
example : ∃ fs' d', deleteParadigm plainOrder (dedupBy str) dictExt dictFs scSB = .ok fs' ∧ getDictionary plainOrder fs' = .ok d' := by
  obtain ⟨fs', h⟩ : ∃ fs', deleteParadigm plainOrder (dedupBy str) dictExt dictFs scSB = .ok fs' := ok_of_isOk (by decide +kernel)
  obtain ⟨d, hd, _⟩ := dictFs_dict
  have hb : Built scSB := built_of (by decide +kernel)
  obtain ⟨d', h1, _⟩ := C72_builds_partial plainOrder_valid hb (fun hs => absurd ((singular_iff (built_wf hb)).1 hs) (by decide +kernel))
    dictFs_consistent dictFs_sconsistent dictFs_reads hd scSB_filed (scSB_not_root hd) (dictFs_fit hd) h
  exact ⟨fs', d', h, h1⟩

/-- And after the update of `S:+B:` to `S:+T:`. -/
example : ∃ fs' d', updateParadigm plainOrder (dedupBy str) dictExt dictFs scSB scST = .ok fs' ∧ getDictionary plainOrder fs' = .ok d' := by
  obtain ⟨fs', h⟩ : ∃ fs', updateParadigm plainOrder (dedupBy str) dictExt dictFs scSB scST = .ok fs' := ok_of_isOk (by decide +kernel)
  obtain ⟨d, hd, _⟩ := dictFs_dict
  have hk : FitKeys [scST.str] := fitKeys_of (by decide +kernel)
  obtain ⟨d', h1, _⟩ := C73_builds_partial plainOrder_valid factorOrder_insertion (built_of (by decide +kernel)) (built_of (by decide +kernel))
    dictFs_consistent dictFs_sconsistent dictFs_reads hd scSB_filed scST_filed (by decide +kernel) (scSB_not_root hd) saysRoot_SB
    scSB_lines (dictFs_fit hd) (fun t ht => (hk _ List.mem_cons_self t ht).2) (notNested_of (by decide +kernel)) h
  exact ⟨fs', d', h, h1⟩

end Verif
