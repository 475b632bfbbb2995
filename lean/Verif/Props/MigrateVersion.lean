import Verif.Lemmas.MigrateVersion
import Verif.Props.Maintenance
import Verif.Props.DictTransaction

/-
C114: the migration to version 0.4 writes each root with its inhibitions, each row of the old descriptors is read back at the
factorised key, and the paradigms that are no roots are marked.  Violated: two keys of the old table that are written in the
same file (two texts of the same expression) leave only the rows of the last one.
-/

namespace Verif
open Script
variable {x : Ext} {factored : Str → Except Err Str} {roots : List OldRoot} {rows : List OldRow} {fs : FS}

/-- The whole run, in terms of what is stored. -/
theorem migrateVersion_run (h : Emptied fs) (hr : ∀ r ∈ roots, r.Stores x factored) (hw : ∀ r ∈ rows, r.Stores x factored) (hi : RowsIndexed rows) :
    ∃ fs' db sdb, migrateVersion x factored roots rows fs = .ok fs' ∧ Holds x fs' db ∧ SHolds x fs' sdb ∧
      (∀ k a, settingValues (allSettings sdb) k a = rootSettings factored roots k a) ∧
      (∀ k l d, (∀ r ∈ rows, (factored r.ieml).bind (pathOf x · true true) ≠ pathOf x k true true) →
        storedValues (allEntries db) k l d = []) ∧
      ∀ i ∈ rows.map (·.ieml), ∀ t, factored i = .ok t →
        (∀ r ∈ rows, MetBefore rows i r.ieml → ¬ SameFile x factored i r.ieml) →
        ∀ k l d, pathOf x k true true = pathOf x t true true →
          storedValues (allEntries db) k l d = if k = t then (oldValues rows i l d).map escapeNewlines else [] := by
  obtain ⟨f1, s1, e1, h1, k1, w1⟩ := migrateRoots_run hr (h.sholds (x := x))
  obtain ⟨n1, n2, n3⟩ := gatherRows_keys rows
  have hget := fun i => gatherRows_get hi i
  have hval : ∀ g ∈ gatherRows rows, g.2 = rowsOf rows g.1 := by
    intro g hg
    rw [← hget, mem_fsGet n1 hg]
    rfl
  have hrow : ∀ g ∈ gatherRows rows, ∃ r ∈ rows, r.ieml = g.1 := by
    intro g hg
    obtain ⟨r, hr, e⟩ := List.mem_map.1 ((n2 g.1).1 (List.mem_map.2 ⟨g, hg, rfl⟩))
    exact ⟨r, hr, e⟩
  let t : Str → Str := fun i => ((factored i).toOption).getD []
  have ht : ∀ {i u}, factored i = .ok u → t i = u := fun e => by show ((factored _).toOption).getD [] = _; rw [e]; rfl
  have hgs : ∀ g ∈ gatherRows rows, factored g.1 = .ok (t g.1) ∧ x.Keeps (t g.1) ∧ GroupStores g.2 := by
    intro g hg
    obtain ⟨r, hr, e⟩ := hrow g hg
    obtain ⟨u, hu, hk⟩ := (hw r hr).key
    rw [e] at hu
    rw [ht hu]
    refine ⟨hu, hk, ?_⟩
    rw [hval g hg]
    intro a ha
    obtain ⟨r', hr', rfl⟩ := List.mem_map.1 ha
    have hs := hw r' (List.mem_filter.1 hr').1
    exact ⟨hs.lang, hs.desc, hs.values⟩
  obtain ⟨f2, db, e2, h2, k2, w2, w3⟩ := migrateKeys_run (gatherRows rows) ((h.holds (x := x)).keep k1) hgs
  refine ⟨f2, db, s1, ?_, h2, h1.keep k2, fun k a => by rw [w1]; rfl, ?_, ?_⟩
  · unfold migrateVersion
    rw [e1]
    exact e2
  · intro k l d hk
    rw [w2 k l d]
    · rfl
    · intro g hg
      obtain ⟨r, hr, e⟩ := hrow g hg
      have := hk r hr
      rw [e, (hgs g hg).1] at this
      exact this
  · intro i hmem u hu hlast k l d hk
    obtain ⟨g, hg, rfl⟩ := List.mem_map.1 ((n2 i).2 hmem)
    obtain ⟨pre, post, e⟩ := List.append_of_mem hg
    have hpost : ∀ a ∈ post, pathOf x (t a.1) true true ≠ pathOf x (t g.1) true true := by
      intro a ha hc
      have hag : a ∈ gatherRows rows := by rw [e]; simp [ha]
      obtain ⟨r, hr, er⟩ := hrow a hag
      have hb : MetBefore rows g.1 a.1 := by
        rw [e, List.map_append, List.map_cons, List.pairwise_append, List.pairwise_cons] at n3
        exact n3.2.1.1 a.1 (List.mem_map.2 ⟨a, ha, rfl⟩)
      refine hlast r hr (er ▸ hb) ?_
      rw [er, SameFile, (hgs g hg).1, (hgs a hag).1]
      exact hc.symm
    rw [← ht hu] at hk ⊢
    rw [w3 pre g post e hpost k l d hk, hval g hg]
    split
    · rename_i hkt
      rw [hkt, stored_entriesOf]
    · rename_i hkt
      exact stored_entriesOf_other _ l d hkt

/-- The file of a key: the rows of the key that is written there last, and nothing else. -/
theorem C114_last (h : Emptied fs) (hr : ∀ r ∈ roots, r.Stores x factored) (hw : ∀ r ∈ rows, r.Stores x factored) (hi : RowsIndexed rows)
    {i t : Str} (hm : ∃ r ∈ rows, r.ieml = i) (ht : factored i = .ok t)
    (hlast : ∀ r ∈ rows, MetBefore rows i r.ieml → ¬ SameFile x factored i r.ieml) :
    ∃ fs', migrateVersion x factored roots rows fs = .ok fs' ∧
      ∀ k l d, pathOf x k true true = pathOf x t true true → l ∈ languages → d ∈ descriptorClasses →
        getValues fs' k l d = .ok (if k = t then (oldValues rows i l d).map escapeNewlines else []) := by
  obtain ⟨fs', db, sdb, e, h1, h2, w1, w2, w3⟩ := migrateVersion_run h hr hw hi
  refine ⟨fs', e, fun k l d hk hl hd => ?_⟩
  rw [h1.getValues hl hd, w3 i (List.mem_map.2 hm) t ht hlast k l d hk]

/-- The file of a key that is no key of the old table: nothing. -/
theorem C114_absent (h : Emptied fs) (hr : ∀ r ∈ roots, r.Stores x factored) (hw : ∀ r ∈ rows, r.Stores x factored) (hi : RowsIndexed rows) :
    ∃ fs', migrateVersion x factored roots rows fs = .ok fs' ∧
      ∀ k l d, (∀ r ∈ rows, (factored r.ieml).bind (pathOf x · true true) ≠ pathOf x k true true) → l ∈ languages → d ∈ descriptorClasses →
        getValues fs' k l d = .ok [] := by
  obtain ⟨fs', db, sdb, e, h1, h2, w1, w2, w3⟩ := migrateVersion_run h hr hw hi
  refine ⟨fs', e, fun k l d hk hl hd => ?_⟩
  rw [h1.getValues hl hd, w2 k l d hk]

/-- When no two keys share a file, the values of each key are read back at the factorised key, with their newlines escaped. -/
theorem C114_descriptors_partial (h : Emptied fs) (hr : ∀ r ∈ roots, r.Stores x factored) (hw : ∀ r ∈ rows, r.Stores x factored)
    (hi : RowsIndexed rows) (hd : ∀ a ∈ rows, ∀ b ∈ rows, SameFile x factored a.ieml b.ieml → a.ieml = b.ieml) :
    ∃ fs', migrateVersion x factored roots rows fs = .ok fs' ∧
      ∀ r ∈ rows, ∀ t, factored r.ieml = .ok t → ∀ l ∈ languages, ∀ d ∈ descriptorClasses,
        getValues fs' t l d = .ok ((oldValues rows r.ieml l d).map escapeNewlines) := by
  obtain ⟨fs', db, sdb, e, h1, h2, w1, w2, w3⟩ := migrateVersion_run h hr hw hi
  refine ⟨fs', e, fun r hr t ht l hl d hd' => ?_⟩
  rw [h1.getValues hl hd', w3 r.ieml (List.mem_map.2 ⟨r, hr, rfl⟩) t ht ?_ t l d rfl, if_pos rfl]
  intro a ha hb hs
  have := hd r hr a ha hs
  rw [← this] at hb
  exact absurd hb (Nat.lt_irrefl _)

/-- In particular each row is read back. -/
theorem C114_row_partial (h : Emptied fs) (hr : ∀ r ∈ roots, r.Stores x factored) (hw : ∀ r ∈ rows, r.Stores x factored)
    (hi : RowsIndexed rows) (hd : ∀ a ∈ rows, ∀ b ∈ rows, SameFile x factored a.ieml b.ieml → a.ieml = b.ieml) :
    ∃ fs', migrateVersion x factored roots rows fs = .ok fs' ∧
      ∀ r ∈ rows, ∀ t, factored r.ieml = .ok t → getValues fs' t r.lang r.desc = .ok (r.values.map escapeNewlines) := by
  obtain ⟨fs', e, hv⟩ := C114_descriptors_partial h hr hw hi hd
  refine ⟨fs', e, fun r hr t ht => ?_⟩
  rw [hv r hr t ht _ (hw r hr).lang _ (hw r hr).desc]
  congr 2
  unfold oldValues
  clear e hv hw ht hd
  induction rows with
  | nil => cases hr
  | cons a rows ih =>
    rw [RowsIndexed, List.pairwise_cons] at hi
    rcases List.mem_cons.1 hr with rfl | hm
    · rw [List.filter_cons, if_pos (by simp), List.flatMap_cons, List.filter_eq_nil_iff.2]
      · simp
      · intro b hb
        simp only [decide_eq_true_eq]
        rintro ⟨e1, e2, e3⟩
        exact hi.1 b hb ⟨e1.symm, e2.symm, e3.symm⟩
    · rw [List.filter_cons, if_neg, ih hi.2 hm]
      simp only [decide_eq_true_eq]
      exact hi.1 r hm

/-- The structure: each root is marked as a root, with its inhibitions, and nothing else. -/
theorem C114_structure (h : Emptied fs) (hr : ∀ r ∈ roots, r.Stores x factored) (hw : ∀ r ∈ rows, r.Stores x factored) (hi : RowsIndexed rows)
    (hne : roots ≠ []) :
    ∃ fs', migrateVersion x factored roots rows fs = .ok fs' ∧
      ∀ k, ∀ a ∈ structureKeys, structureValues fs' k a = .ok (rootSettings factored roots k a) := by
  obtain ⟨fs', db, sdb, e, h1, h2, w1, w2, w3⟩ := migrateVersion_run h hr hw hi
  refine ⟨fs', e, fun k a ha => ?_⟩
  rw [h2.values ?_ ha, w1]
  intro hc
  obtain ⟨r, rs, rfl⟩ := List.exists_cons_of_ne_nil hne
  obtain ⟨t, ht, _⟩ := (hr r (by simp)).key
  have := w1 t (c!"is_root")
  rw [hc, rootSettings, List.filter_cons, if_pos (by simp [ht]), List.flatMap_cons] at this
  simp [settingValues, OldRoot.settings] at this

/-- A root with an inhibition that does not exist stops the program with `ValueError`. -/
theorem C114_inhibition_refused (hr : ∀ r ∈ roots, ∃ t, factored r.ieml = .ok t ∧ x.Keeps t)
    (hb : ∃ r ∈ roots, ∃ i ∈ r.inhibitions, i ≠ [] ∧ i ∉ inhibitableRelations) :
    migrateVersion x factored roots rows fs = .error .valueError := by
  unfold migrateVersion
  rw [foldlM_stops (err := .valueError) fs]
  · rfl
  · intro r hm s
    obtain ⟨t, ht, hk⟩ := hr r hm
    exact (migrateRoot_refused ht hk s).1
  · obtain ⟨r, hm, hbad⟩ := hb
    obtain ⟨t, ht, hk⟩ := hr r hm
    exact ⟨r, hm, fun s => (migrateRoot_refused ht hk s).2 hbad⟩

/-- A key that cannot be read stops the program with the error of the parser: of the roots, then of the rows, the first one. -/
theorem C114_unread {pre post : List OldRoot} {r : OldRoot} {err : Err} (h : Emptied fs) (hr : ∀ r ∈ pre, r.Stores x factored)
    (hf : factored r.ieml = .error err) : migrateVersion x factored (pre ++ r :: post) rows fs = .error err := by
  obtain ⟨f1, s1, e1, _⟩ := migrateRoots_run hr (h.sholds (x := x))
  unfold migrateVersion
  rw [List.foldlM_append, e1]
  have : migrateRoot x factored f1 r = .error err := by
    unfold migrateRoot
    rw [hf]
    rfl
  simp only [bind, Except.bind, List.foldlM_cons, this]

/-- The last step: the flag `is_root` is set to `False` for the paradigms that are no roots, and nothing else changes. -/
theorem C114_paradigms {sdb : List (Str × List Setting)} {rs ss : List Script} (h : SHolds x fs sdb) (hne : allSettings sdb ≠ [])
    (hk : ∀ s ∈ ss, s.cardinal ≠ 1 → x.Keeps s.str) :
    ∃ fs', markParadigms x rs ss fs = .ok fs' ∧ Keeps (c!".desc") fs fs' ∧
      ∀ k, ∀ a ∈ structureKeys, ∃ old, structureValues fs k a = .ok old ∧ structureValues fs' k a = .ok (old ++
        if a = c!"is_root" then
          (ss.filter fun s => decide (s.str = k ∧ s.cardinal ≠ 1 ∧ ∀ r ∈ rs, r.pyEq s = false)).map fun _ => c!"False" else []) := by
  let ts := (ss.filter fun s => s.cardinal ≠ 1 && !rs.any (·.pyEq s)).map (·.str)
  obtain ⟨fs', sdb', e, h1, k1, w⟩ := addNotRoots_run ts (x := x) (by
    intro t ht
    obtain ⟨s, hs, rfl⟩ := List.mem_map.1 ht
    obtain ⟨hs, hp⟩ := List.mem_filter.1 hs
    simp only [Bool.and_eq_true, decide_eq_true_eq] at hp
    exact hk s hs hp.1) h
  refine ⟨fs', ?_, k1, fun k a ha => ⟨_, h.values hne ha, ?_⟩⟩
  · rw [List.foldlM_map] at e
    exact e
  · rw [h1.values ?_ ha, w]
    · congr 2
      by_cases hr : a = c!"is_root"
      · rw [if_pos hr, if_pos hr]
        show ((List.map _ _).filter _).map _ = _
        rw [List.filter_map, List.map_map, List.filter_filter]
        congr 1
        apply List.filter_congr
        intro s _
        by_cases e1 : s.str = k
        · by_cases e2 : s.cardinal = 1
          · simp [e1, e2]
          · simp [e1, e2, List.any_eq]
            rw [Bool.eq_iff_iff]
            simp
        · simp [e1]
      · rw [if_neg hr, if_neg hr]
    · intro hc
      apply hne
      rw [List.eq_nil_iff_forall_not_mem]
      intro e he
      have hmem : e.value ∈ settingValues (allSettings sdb) e.key e.attr := List.mem_map.2 ⟨e, List.mem_filter.2 ⟨he, by simp⟩, rfl⟩
      have := w e.key e.attr
      rw [hc] at this
      have hnil : settingValues [] e.key e.attr = [] := rfl
      rw [hnil] at this
      rw [(List.append_eq_nil_iff.1 this.symm).1] at hmem
      cases hmem

/-! ### Examples -/

/-- The reader of the library. -/
def realFactored (s : Str) : Except Err Str := keyText realExt s

def demoRoots : List OldRoot := [⟨c!"M:", [c!"twin"]⟩, ⟨c!"A:+U:", []⟩]

def demoRows : List OldRow :=
  [⟨c!"A:+U:", c!"fr", c!"translations", [c!"virtuel", c!"a\nb"]⟩, ⟨c!"M:", c!"fr", c!"translations", [c!"matière"]⟩,
   ⟨c!"A:+U:", c!"en", c!"comments", [c!"x"]⟩]

/-- The text of the old version that has another form in the new one. -/
def lostRows : List OldRow :=
  [⟨c!"A:+U:", c!"fr", c!"translations", [c!"virtuel"]⟩, ⟨c!"O:", c!"fr", c!"comments", [c!"pôle"]⟩]

/-- The statement holds for all the tables. -/
def KeptByMigration (x : Ext) (factored : Str → Except Err Str) (rows : List OldRow) : Prop :=
  ∃ fs', migrateVersion x factored [] rows [] = .ok fs' ∧
    ∀ r ∈ rows, ∀ t, factored r.ieml = .ok t → getValues fs' t r.lang r.desc = .ok (r.values.map escapeNewlines)

/-- Two texts of one expression: the rows of the first one are lost. -/
theorem C114_violated : (∀ r ∈ lostRows, r.Stores realExt realFactored) ∧ RowsIndexed lostRows ∧ ¬ KeptByMigration realExt realFactored lostRows := by
  refine ⟨?_, by unfold RowsIndexed; decide +kernel, ?_⟩
  · intro r hr
    simp only [lostRows, List.mem_cons, List.not_mem_nil, or_false] at hr
    rcases hr with rfl | rfl
    · exact ⟨⟨c!"O:", by decide +kernel, real_keeps (by decide +kernel)⟩, by decide, by decide, by decide⟩
    · exact ⟨⟨c!"O:", by decide +kernel, real_keeps (by decide +kernel)⟩, by decide, by decide, by decide⟩
  · rintro ⟨fs', e, h⟩
    have h1 := h ⟨c!"A:+U:", c!"fr", c!"translations", [c!"virtuel"]⟩ (by simp [lostRows]) (c!"O:") (by decide +kernel)
    have e2 : migrateVersion realExt realFactored [] lostRows [] = .ok [(c!"morpheme/paradigm/O:.desc", c!"\"O:\" fr comments \"pôle\"\n")] := by
      decide +kernel
    rw [e] at e2
    injection e2 with e2
    subst e2
    revert h1
    decide +kernel

theorem demo_stores : (∀ r ∈ demoRoots, r.Stores realExt realFactored) ∧ ∀ r ∈ demoRows, r.Stores realExt realFactored := by
  constructor
  · intro r hr
    simp only [demoRoots, List.mem_cons, List.not_mem_nil, or_false] at hr
    rcases hr with rfl | rfl
    · exact ⟨⟨c!"M:", by decide +kernel, real_keeps (by decide +kernel)⟩, by decide⟩
    · exact ⟨⟨c!"O:", by decide +kernel, real_keeps (by decide +kernel)⟩, by decide⟩
  · intro r hr
    simp only [demoRows, List.mem_cons, List.not_mem_nil, or_false] at hr
    rcases hr with rfl | rfl | rfl
    · exact ⟨⟨c!"O:", by decide +kernel, real_keeps (by decide +kernel)⟩, by decide, by decide, by decide⟩
    · exact ⟨⟨c!"M:", by decide +kernel, real_keeps (by decide +kernel)⟩, by decide, by decide, by decide⟩
    · exact ⟨⟨c!"O:", by decide +kernel, real_keeps (by decide +kernel)⟩, by decide, by decide, by decide⟩

/-- The rows of `M:` and of `A:+U:` are read back, the latter at `O:`. -/
example : ∃ fs', migrateVersion realExt realFactored demoRoots demoRows [] = .ok fs' ∧
    ∀ r ∈ demoRows, ∀ t, realFactored r.ieml = .ok t → getValues fs' t r.lang r.desc = .ok (r.values.map escapeNewlines) :=
  C114_row_partial ⟨by simp, by simp⟩ demo_stores.1 demo_stores.2 (by unfold RowsIndexed; decide +kernel) (by
    intro a ha b hb
    unfold SameFile
    revert b
    revert a
    decide +kernel)

example : ∃ fs', migrateVersion realExt realFactored demoRoots demoRows [] = .ok fs' ∧
    getValues fs' (c!"O:") (c!"fr") (c!"translations") = .ok [c!"virtuel", c!"a\\nb"] ∧
    structureValues fs' (c!"O:") (c!"is_root") = .ok [c!"True"] ∧
    structureValues fs' (c!"M:") (c!"inhibition") = .ok [c!"twin"] := by
  obtain ⟨f1, e1, h1⟩ := C114_last (i := c!"A:+U:") (t := c!"O:") (fs := []) ⟨by simp, by simp⟩ demo_stores.1 demo_stores.2 (by unfold RowsIndexed; decide +kernel)
    ⟨_, List.mem_cons_self, rfl⟩ (by decide +kernel) (by unfold MetBefore SameFile; decide +kernel)
  obtain ⟨f2, e2, h2⟩ := C114_structure (fs := []) ⟨by simp, by simp⟩ demo_stores.1 demo_stores.2 (by unfold RowsIndexed; decide +kernel) (by simp [demoRoots])
  rw [e1] at e2
  injection e2 with e2
  subst e2
  refine ⟨f1, e1, ?_, ?_, ?_⟩
  · rw [h1 _ _ _ rfl (by decide) (by decide)]; decide +kernel
  · rw [h2 _ _ (by decide)]; decide +kernel
  · rw [h2 _ _ (by decide)]; decide +kernel

/-- A relation that does not exist; a text that is no expression. -/
example : migrateVersion realExt realFactored [⟨c!"M:", [c!"twins"]⟩] [] [] = .error .valueError :=
  C114_inhibition_refused (by
    intro r hr
    rw [List.mem_singleton.1 hr]
    exact ⟨c!"M:", by decide +kernel, real_keeps (by decide +kernel)⟩) ⟨_, List.mem_singleton.2 rfl, c!"twins", by decide, by decide, by decide⟩

/-- `M:` is a root; the paradigm `O:` is marked as no root, `A:` has one singular sequence only. -/
example : ∃ fs', markParadigms realExt [scM] [scM, scO, .prim .A] [(c!"morpheme/paradigm/M:.ieml", c!"\"M:\" is_root \"True\"\n")] = .ok fs' ∧
    structureValues fs' (c!"O:") (c!"is_root") = .ok [c!"False"] ∧ structureValues fs' (c!"M:") (c!"is_root") = .ok [c!"True"] ∧
    structureValues fs' (c!"A:") (c!"is_root") = .ok [] := by
  have hs : SHolds realExt [(c!"morpheme/paradigm/M:.ieml", c!"\"M:\" is_root \"True\"\n")]
      [(c!"morpheme/paradigm/M:.ieml", [⟨c!"M:", c!"is_root", c!"True"⟩])] := by
    refine ⟨by decide +kernel, by decide +kernel, ?_, ?_⟩
    · intro f hf e he
      simp only [List.mem_cons, List.not_mem_nil, or_false] at hf
      subst hf
      simp only [List.mem_cons, List.not_mem_nil, or_false] at he
      subst he
      constructor <;> decide
    · decide +kernel
  obtain ⟨fs', e, _, h⟩ := C114_paradigms (rs := [scM]) (ss := [scM, scO, .prim .A]) hs (by decide) (by
    intro s hm hc
    simp only [List.mem_cons, List.not_mem_nil, or_false] at hm
    rcases hm with rfl | rfl | rfl
    · exact real_keeps (by decide +kernel)
    · exact real_keeps (by decide +kernel)
    · exact absurd rfl hc)
  refine ⟨fs', e, ?_, ?_, ?_⟩
  · obtain ⟨old, e1, e2⟩ := h (c!"O:") (c!"is_root") (by decide)
    have : old = [] := by rw [hs.values (by decide) (by decide)] at e1; injection e1 with e1; rw [← e1]; decide +kernel
    rw [e2, this]; decide +kernel
  · obtain ⟨old, e1, e2⟩ := h (c!"M:") (c!"is_root") (by decide)
    have : old = [c!"True"] := by rw [hs.values (by decide) (by decide)] at e1; injection e1 with e1; rw [← e1]; decide +kernel
    rw [e2, this]; decide +kernel
  · obtain ⟨old, e1, e2⟩ := h (c!"A:") (c!"is_root") (by decide)
    have : old = [] := by rw [hs.values (by decide) (by decide)] at e1; injection e1 with e1; rw [← e1]; decide +kernel
    rw [e2, this]; decide +kernel

/-- A root that is no expression; a key that no row writes. -/
example : migrateVersion realExt realFactored [⟨c!"M:", []⟩, ⟨c!"M", []⟩] [] [] = .error (.cannotParse) :=
  C114_unread (pre := [⟨c!"M:", []⟩]) (post := []) ⟨by simp, by simp⟩ (by
    intro r hr
    rw [List.mem_singleton.1 hr]
    exact ⟨⟨c!"M:", by decide +kernel, real_keeps (by decide +kernel)⟩, by decide⟩) (by decide +kernel)

example : ∃ fs', migrateVersion realExt realFactored demoRoots demoRows [] = .ok fs' ∧
    getValues fs' (c!"A:") (c!"fr") (c!"translations") = .ok [] := by
  obtain ⟨fs', e, h⟩ := C114_absent (fs := []) ⟨by simp, by simp⟩ demo_stores.1 demo_stores.2 (by unfold RowsIndexed; decide +kernel)
  exact ⟨fs', e, h _ _ _ (by decide +kernel) (by decide) (by decide)⟩

end Verif
