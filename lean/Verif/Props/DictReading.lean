import Verif.Props.DictTransaction
import Verif.Lemmas.Listing

/-
Properties of the dictionary read after a transaction (C71, and parts of C72 and C73).
-/

namespace Verif
open Script
variable {o : SetOrder} {ord : List Script → List Script} {x : Ext} {fs fs' : FS} {d : Dictionary}

/-- The data read from the files are consistent. -/
def ReadsConsistent (fs : FS) : Prop :=
  ∃ rows, getStructure fs = .ok rows ∧ ConsistentData (listParadigms fs) (pySort ltSetting rows)

/-- The texts of the roots are the same. -/
def SameRootTexts (d d' : Dictionary) : Prop := ∀ k, (∃ r ∈ d'.roots, r.str = k) ↔ ∃ r ∈ d.roots, r.str = k

/-- What the data are when they are consistent. -/
theorem ReadsConsistent.data {sdb : List (Str × List Setting)} (h : ReadsConsistent fs) (hs : SHolds x fs sdb) :
    allSettings sdb ≠ [] ∧ getStructure fs = .ok (settingRows sdb) ∧
      ConsistentData (listParadigms fs) (pySort ltSetting (settingRows sdb)) := by
  obtain ⟨rows, h1, h2⟩ := h
  have hne : allSettings sdb ≠ [] := by
    intro h0
    rw [hs.getStructure_empty h0] at h1
    cases h1
  have h3 := hs.getStructure hne
  rw [h3, Except.ok.injEq] at h1
  subst h1
  exact ⟨hne, h3, h2⟩

theorem dict_roots (ho : o.Valid) {sdb : List (Str × List Setting)} (h : ReadsConsistent fs) (hs : SHolds x fs sdb)
    (hd : getDictionary o fs = .ok d) {k : Str} :
    (∃ r ∈ d.roots, r.str = k) ↔ (settingValues (allSettings sdb) k (c!"is_root")).filter saysTrue ≠ [] := by
  obtain ⟨_, h1, h2⟩ := h.data hs
  obtain ⟨rows, h3, h4⟩ := getDictionary_inv hd
  rw [h1, Except.ok.injEq] at h3
  subst h3
  rw [mkDictionary_roots ho h2 h4, marked_rows (pySort_perm ..)]

/-- What the files list after a change: keys that do not satisfy `T` are not new, and the roots are the ones of the dictionary. -/
structure ListsAfter (fs fs' : FS) (d : Dictionary) (T : Str → Prop) : Prop where
  listed : ∀ k ∈ listParadigms fs', T k ∨ k ∈ listParadigms fs
  roots : ∀ rows, getStructure fs' = .ok rows → ∀ k, Marked (pySort ltSetting rows) (c!"is_root") k → ∃ r ∈ d.roots, r.str = k

theorem SameRoots.readable {S T : Str → Prop} (ho : o.Valid) {db db' : List (Str × List Entry)} {sdb sdb' : List (Str × List Setting)}
    (h : Holds x fs db) (h' : Holds x fs' db') (g : SHolds x fs sdb) (g' : SHolds x fs' sdb') (hs : SameRoots db db' sdb sdb' S)
    (hne : allSettings sdb' ≠ []) (hc : ReadsConsistent fs) (hd : getDictionary o fs = .ok d)
    (hT : ∀ k, S k → ∀ l ∈ languages, ∀ a ∈ descriptorClasses, storedValues (allEntries db') k l a ≠ [] → T k) :
    ReadsConsistent fs' ∧ (∀ d', getDictionary o fs' = .ok d' → SameRootTexts d d') ∧ ListsAfter fs fs' d T := by
  obtain ⟨_, h1, h2⟩ := hc.data g
  have hc' : ReadsConsistent fs' :=
    ⟨_, g'.getStructure hne, hs.consistent h h' (pySort_perm ..) (pySort_perm ..) h2⟩
  refine ⟨hc', fun d' hd' k => ?_, fun k hk => ?_, fun rows hrows k hm => ?_⟩
  · rw [dict_roots ho hc g hd, dict_roots ho hc' g' hd', hs.roots]
  · obtain ⟨hn, κ, p, l, a, hl, ha, h5, h6, h7, h8⟩ := (mem_listParadigms' h').1 hk
    by_cases hS : S κ
    · obtain ⟨s, ws, rfl⟩ := hs.texts κ hS
      rw [listedKey_str ws] at h8
      exact .inl (h8 ▸ hT _ hS l hl a ha h7)
    · rw [hs.descs κ hS l hl a ha] at h7
      exact .inr ((mem_listParadigms' h).2 ⟨hn, κ, p, l, a, hl, ha, h5, h6, h7, h8⟩)
  · rw [g'.getStructure hne, Except.ok.injEq] at hrows
    subst hrows
    change Marked (pySort ltSetting (settingRows sdb')) _ _ at hm
    rw [marked_rows (pySort_perm ..), hs.roots] at hm
    exact (dict_roots ho hc g hd).2 hm

/-- The values of consistent settings are not empty. -/
theorem ReadsConsistent.values {sdb : List (Str × List Setting)} (h : ReadsConsistent fs) (hs : SHolds x fs sdb) {k v : Str}
    (hv : v ∈ settingValues (allSettings sdb) k (c!"is_root") ∨ v ∈ settingValues (allSettings sdb) k (c!"is_ignored")) : v ≠ [] := by
  obtain ⟨_, _, h2⟩ := h.data hs
  rcases hv with hv | hv
  · exact h2.values (k, _, v) ((mem_pySort (lt := ltSetting)).2 (mem_settingRows.2 hv)) (.inl rfl)
  · exact h2.values (k, _, v) ((mem_pySort (lt := ltSetting)).2 (mem_settingRows.2 hv)) (.inr rfl)

theorem settings_ne {sdb : List (Str × List Setting)} {k a : Str} (h : settingValues (allSettings sdb) k a ≠ []) : allSettings sdb ≠ [] := by
  intro h0
  rw [h0] at h
  exact h rfl

/-! ### C71: the dictionary after an addition -/

theorem addParadigm_after (ho : o.Valid) {s : Script} (hb : Built s) {tr co : Str → List Str} {p q : Str} (hc : Consistent x fs)
    (hsc : SConsistent x fs) (hrc : ReadsConsistent fs) (hd : getDictionary o fs = .ok d) (hf : Filed x fs s p q)
    (hp : startsWith p (c!"morpheme/paradigm/") = true) (htr : OneLines tr) (hco : OneLines co)
    (h : addParadigm o ord x fs s tr co = .ok fs') :
    ReadsConsistent fs' ∧ (∀ d', getDictionary o fs' = .ok d' → SameRootTexts d d') ∧ ListsAfter fs fs' d (· = s.str) ∧
      ((∃ l ∈ languages, cleaned (tr l) ≠ [] ∨ cleaned (co l) ≠ []) → s.str ∈ listParadigms fs') := by
  have hs := built_wf hb
  obtain ⟨db, g⟩ := hc
  obtain ⟨sdb, g'⟩ := hsc
  obtain ⟨h1, h2, h3, h4⟩ := addParadigm_inv ho hs hd h
  obtain ⟨fs2, db', sdb', e, k, k', v, w⟩ := addParadigm_run ho hs hd g g' hf htr hco h1 h2 h3 h4
  rw [h, Except.ok.injEq] at e
  subst e
  have hfree : (settingValues (allSettings sdb) s.str (c!"is_root")).filter saysTrue = [] := by
    by_contra hn
    obtain ⟨r, hr, hrs⟩ := (dict_roots ho hrc g' hd).2 hn
    obtain ⟨l, hok⟩ := getDictionary_ok ho hd
    obtain ⟨y, hy, e⟩ := hok.root_listed hr
    exact h3 ⟨y, hy, e.trans hrs⟩
  have hsame : SameRoots db db' sdb sdb' (· = s.str) := by
    refine ⟨fun k hk l hl a ha => by rw [v k l hl a ha, if_neg hk], fun k hk => ⟨s, hs, hk.symm⟩, fun k u hu => ?_, fun k => ?_,
      fun k => ?_, fun k hk => hk ▸ hfree⟩
    · rw [w k _ (by decide), w k _ (by decide)] at hu
      by_cases hk : k = s.str
      · simp only [hk, if_true] at hu
        rcases hu with hu | hu
        · rw [List.mem_singleton.1 hu]; decide
        · exact absurd hu (List.not_mem_nil)
      · rw [if_neg hk, if_neg hk] at hu
        exact hrc.values g' hu
    · rw [w k _ (by decide)]
      split
      · rename_i hk; rw [hk, hfree]; rfl
      · rfl
    · rw [w k _ (by decide)]
      split
      · exact Nat.zero_le _
      · exact Nat.le_refl _
  have hne : allSettings sdb' ≠ [] := settings_ne (k := s.str) (a := c!"is_root") (by rw [w _ _ (by decide), if_pos rfl]; decide)
  obtain ⟨r1, r2, r3⟩ := hsame.readable ho g k g' k' hne hrc hd fun _ hk _ _ _ _ _ => hk
  refine ⟨r1, r2, r3, ?_⟩
  rw [mem_listParadigms' k]
  have hstr := str_ne_nil hs
  rintro ⟨l, hl, hv⟩
  rcases hv with hv | hv
  · exact ⟨hstr, s.str, p, l, c!"translations", hl, by decide, hf.desc, hp, by rw [v _ l hl _ (by decide), if_pos rfl]; exact hv,
      listedKey_str hs⟩
  · exact ⟨hstr, s.str, p, l, c!"comments", hl, by decide, hf.desc, hp, by rw [v _ l hl _ (by decide), if_pos rfl]; exact hv,
      listedKey_str hs⟩

/-- Part of **C71**: when the data were consistent, they are after an addition, so that the scripts and the roots can be read (see
`C21_reading_partial`), and the roots are the same; the paradigm is listed in the database when one of the given
descriptors is not blank.  The full claim fails (`C71_violated_lost`, `C71_violated_broken`). -/
theorem C71_partial (ho : o.Valid) {s : Script} (hb : Built s) {tr co : Str → List Str} {p q : Str} (hc : Consistent x fs)
    (hsc : SConsistent x fs) (hrc : ReadsConsistent fs) (hd : getDictionary o fs = .ok d) (hf : Filed x fs s p q)
    (hp : startsWith p (c!"morpheme/paradigm/") = true) (htr : OneLines tr) (hco : OneLines co)
    (h : addParadigm o ord x fs s tr co = .ok fs') :
    ReadsConsistent fs' ∧ (∀ d', getDictionary o fs' = .ok d' → SameRootTexts d d') ∧
      ((∃ l ∈ languages, cleaned (tr l) ≠ [] ∨ cleaned (co l) ≠ []) → s.str ∈ listParadigms fs') := by
  obtain ⟨h1, h2, _, h3⟩ := addParadigm_after ho hb hc hsc hrc hd hf hp htr hco h
  exact ⟨h1, h2, h3⟩

/-- What **C71** claims: after an accepted addition with translations, the dictionary can be read and contains the paradigm. -/
def ContainsAfterAddition : Prop :=
  ∀ (o : SetOrder) (ord : List Script → List Script) (x : Ext) (fs fs' : FS) (d : Dictionary) (s : Script) (p q : Str)
    (tr co : Str → List Str), o.Valid → FactorOrder ord → Consistent x fs → SConsistent x fs → ReadsConsistent fs →
    getDictionary o fs = .ok d → Built s → Filed x fs s p q → OneLines tr → OneLines co → (∃ l ∈ languages, cleaned (tr l) ≠ []) →
    addParadigm o ord x fs s tr co = .ok fs' → ∃ d', getDictionary o fs' = .ok d' ∧ d'.Lists s

/-! ### Examples -/

/-- Texts of the singular sequences of a key. -/
def seqTexts (k : Str) : List Str :=
  match parseScript k with
  | .error _ => []
  | .ok s => match singularSequences s with
    | .error _ => []
    | .ok L => L.map str

theorem apart_of_texts {a b : Str} (h : ∀ t ∈ seqTexts a, t ∉ seqTexts b) :
    ∀ s t, parseScript a = .ok s → parseScript b = .ok t → Apart s t := by
  intro s t hs ht w hw
  obtain ⟨L, eL⟩ := enum_exists (parse_wf hs)
  obtain ⟨M, eM⟩ := enum_exists (parse_wf ht)
  obtain ⟨p, hp, hpw⟩ := (eL.den w).1 hw.1
  obtain ⟨q, hq, hqw⟩ := (eM.den w).1 hw.2
  refine h p.str ?_ ?_
  · simp only [seqTexts, hs, eL.run]
    exact List.mem_map_of_mem hp
  · simp only [seqTexts, ht, eM.run]
    rw [str_of_word' (eL.wf p hp) (eM.wf q hq) (eL.one p hp) (eM.one q hq) hpw hqw]
    exact List.mem_map_of_mem hq

/-- A sufficient condition for data without ignored keys, that can be evaluated. -/
theorem readsConsistent_of {rows : List (Str × Str × Str)} (h1 : getStructure fs = .ok rows)
    (h2 : ∀ k ∈ listParadigms fs, (parseScript k).map str = .ok k) (h3 : ∀ row ∈ rows, row.2.2 ≠ [])
    (h4 : ∀ row ∈ rows, marks (c!"is_root") row = true → row.1 ∈ listParadigms fs) (h5 : ∀ row ∈ rows, marks (c!"is_ignored") row = false)
    (h6 : (((pySort ltSetting rows).filter (marks (c!"is_root"))).map (·.1)).Pairwise fun a b => ∀ t ∈ seqTexts a, t ∉ seqTexts b) :
    ReadsConsistent fs := by
  have mem : ∀ {row}, row ∈ pySort ltSetting rows ↔ row ∈ rows := mem_pySort _
  have hign : ∀ k, ¬ Marked (pySort ltSetting rows) (c!"is_ignored") k := by
    rintro k ⟨c, v, hm, hc⟩
    have h7 := h5 _ (mem.1 hm)
    rw [marks_marked (row := (k, c!"is_ignored", c :: v)) ⟨c, v, rfl, hc⟩ rfl] at h7
    cases h7
  refine ⟨rows, h1, fun k hk => ?_, fun row hr _ => h3 row (mem.1 hr), fun k hk => ?_, h6.imp apart_of_texts, ?_,
    fun k s hk => absurd hk (hign k)⟩
  · have := h2 k hk
    cases h : parseScript k with
    | error e => rw [h] at this; cases this
    | ok s => rw [h] at this; exact ⟨s, rfl, Except.ok.inj this⟩
  · obtain ⟨c, v, hm, hc⟩ := hk
    exact h4 _ (mem.1 hm) (marks_marked ⟨c, v, rfl, hc⟩ rfl)
  · have : (pySort ltSetting rows).filter (marks (c!"is_ignored")) = [] := by
      rw [List.filter_eq_nil_iff]
      intro row hr
      rw [h5 row (mem.1 hr)]
      decide
    rw [this]
    exact List.nodup_nil

theorem dictFs_reads : ReadsConsistent dictFs :=
  readsConsistent_of (rows := settingRows dictSdb) (by decide +kernel) (by decide +kernel) (by decide +kernel) (by decide +kernel)
    (by decide +kernel) (by decide +kernel)

/-- The hypotheses of `C71_partial` hold for the addition of `S:+T:` to the example. -/
example : ∃ fs', addParadigm plainOrder (dedupBy str) dictExt dictFs scST exTr (fun _ => []) = .ok fs' ∧ ReadsConsistent fs' ∧
    c!"S:+T:" ∈ listParadigms fs' := by
  obtain ⟨fs', h⟩ := scST_added
  obtain ⟨d, hd, _⟩ := dictFs_dict
  obtain ⟨h1, _, h2⟩ := C71_partial plainOrder_valid (built_of (by decide +kernel)) dictFs_consistent dictFs_sconsistent dictFs_reads hd
    scST_filed (by decide +kernel) exTr_lines oneLines_nil h
  exact ⟨fs', h, h1, (show scST.str = c!"S:+T:" by decide +kernel) ▸ h2 ⟨c!"fr", by decide, .inl (by decide +kernel)⟩⟩

/-- **C71** is violated: `S:+T:` is accepted in the example, but the dictionary read afterwards does not contain it (its words are
not adjacent in the tables of the root `M:`). -/
theorem C71_violated_lost : ¬ ContainsAfterAddition := by
  intro h
  obtain ⟨fs', h1⟩ := scST_added
  obtain ⟨d, hd, _⟩ := dictFs_dict
  obtain ⟨d', h2, y, hy, e⟩ := h plainOrder (dedupBy str) dictExt dictFs fs' d scST _ _ exTr (fun _ => []) plainOrder_valid
    factorOrder_insertion dictFs_consistent dictFs_sconsistent dictFs_reads hd (built_of (by decide +kernel)) scST_filed exTr_lines
    oneLines_nil ⟨c!"fr", by decide, by decide +kernel⟩ h1
  have h3 : ((addParadigm plainOrder (dedupBy str) dictExt dictFs scST exTr (fun _ => [])).bind fun f =>
      (getDictionary plainOrder f).map fun d => decide (scST.str ∈ d.base.scripts.map str)) = .ok false := by decide +kernel
  rw [h1] at h3
  simp only [Except.bind, h2, Except.map, Except.ok.injEq, decide_eq_false_iff_not] at h3
  exact h3 (e ▸ List.mem_map_of_mem hy)

/-- Three nested paradigms. -/
def nestedFs : FS :=
  [(c!"morpheme/paradigm/I:.desc", c!"\"I:\" fr translations \"tout\"\n"),
   (c!"morpheme/paradigm/I:.ieml", c!"\"I:\" is_root \"True\"\n"),
   (c!"morpheme/paradigm/F:.desc", c!"\"F:\" fr translations \"plein\"\n"),
   (c!"morpheme/paradigm/F:.ieml", c!"\"F:\" is_root \"False\"\n"),
   (c!"morpheme/paradigm/M:.desc", c!"\"M:\" fr translations \"signe etre chose\"\n"),
   (c!"morpheme/paradigm/M:.ieml", c!"\"M:\" is_root \"False\"\n")]

/-- Its descriptors. -/
def nestedDb : List (Str × List Entry) :=
  [(c!"morpheme/paradigm/I:.desc", [⟨c!"I:", c!"fr", c!"translations", c!"tout"⟩]),
   (c!"morpheme/paradigm/F:.desc", [⟨c!"F:", c!"fr", c!"translations", c!"plein"⟩]),
   (c!"morpheme/paradigm/M:.desc", [⟨c!"M:", c!"fr", c!"translations", c!"signe etre chose"⟩])]

/-- Its settings. -/
def nestedSdb : List (Str × List Setting) :=
  [(c!"morpheme/paradigm/I:.ieml", [⟨c!"I:", c!"is_root", c!"True"⟩]),
   (c!"morpheme/paradigm/F:.ieml", [⟨c!"F:", c!"is_root", c!"False"⟩]),
   (c!"morpheme/paradigm/M:.ieml", [⟨c!"M:", c!"is_root", c!"False"⟩])]

theorem nestedFs_holds : Holds dictExt nestedFs nestedDb := by
  refine ⟨by decide +kernel, by decide +kernel, ?_, by decide +kernel⟩
  intro f hf e he
  simp only [nestedDb, List.mem_cons, List.not_mem_nil, or_false] at hf
  rcases hf with rfl | rfl | rfl <;> simp only [List.mem_cons, List.not_mem_nil, or_false] at he <;> subst he <;> constructor <;> decide

theorem nestedFs_sholds : SHolds dictExt nestedFs nestedSdb := by
  refine ⟨by decide +kernel, by decide +kernel, ?_, by decide +kernel⟩
  intro f hf e he
  simp only [nestedSdb, List.mem_cons, List.not_mem_nil, or_false] at hf
  rcases hf with rfl | rfl | rfl <;> simp only [List.mem_cons, List.not_mem_nil, or_false] at he <;> subst he <;> constructor <;> decide

theorem nestedFs_reads : ReadsConsistent nestedFs :=
  readsConsistent_of (rows := settingRows nestedSdb) (by decide +kernel) (by decide +kernel) (by decide +kernel) (by decide +kernel)
    (by decide +kernel) (by decide +kernel)

/-- **C71** is violated: after the addition of `S:+B:` below three nested paradigms, `get_dictionary` raises `IndexError`. -/
theorem C71_violated_broken : ¬ ContainsAfterAddition := by
  intro h
  obtain ⟨fs', h1⟩ : ∃ fs', addParadigm plainOrder (dedupBy str) dictExt nestedFs scSB exTr (fun _ => []) = .ok fs' :=
    ok_of_isOk (by decide +kernel)
  obtain ⟨d, hd⟩ : ∃ d, getDictionary plainOrder nestedFs = .ok d := ok_of_isOk (by decide +kernel)
  have hf : Filed dictExt nestedFs scSB (c!"morpheme/paradigm/S:+B:.desc") (c!"morpheme/paradigm/S:+B:.ieml") :=
    ⟨by decide +kernel, by decide +kernel, by decide +kernel, nestedFs_holds.alone (by decide +kernel),
      nestedFs_sholds.alone (by decide +kernel) (by decide +kernel)⟩
  obtain ⟨d', h2, _⟩ := h plainOrder (dedupBy str) dictExt nestedFs fs' d scSB _ _ exTr (fun _ => []) plainOrder_valid
    factorOrder_insertion ⟨_, nestedFs_holds⟩ ⟨_, nestedFs_sholds⟩ nestedFs_reads hd (built_of (by decide +kernel)) hf exTr_lines
    oneLines_nil ⟨c!"fr", by decide, by decide +kernel⟩ h1
  have h3 : ((addParadigm plainOrder (dedupBy str) dictExt nestedFs scSB exTr (fun _ => [])).bind fun f =>
      .ok (getDictionary plainOrder f).isOk) = .ok false := by decide +kernel
  rw [h1] at h3
  simp only [Except.bind, h2, Except.ok.injEq] at h3
  cases h3

/-! ### C72 and C73 -/

theorem deleteParadigm_after (ho : o.Valid) {s : Script} (hb : Built s) (hn : ¬ Singular s) {p q : Str} (hc : Consistent x fs)
    (hsc : SConsistent x fs) (hrc : ReadsConsistent fs) (hd : getDictionary o fs = .ok d) (hf : Filed x fs s p q)
    (hr : ∀ r ∈ d.roots, r.str ≠ s.str) (h : deleteParadigm o ord x fs s = .ok fs') :
    ReadsConsistent fs' ∧ (∀ d', getDictionary o fs' = .ok d' → SameRootTexts d d') ∧
      ListsAfter fs fs' d fun _ => False := by
  have hs := built_wf hb
  rw [singular_iff hs] at hn
  obtain ⟨db, g⟩ := hc
  obtain ⟨sdb, g'⟩ := hsc
  obtain ⟨h1, h2⟩ := deleteParadigm_inv ho hs hn hd h
  obtain ⟨fs2, db', sdb', e, k, k', v, w⟩ := deleteParadigm_run ho hs hn hd g g' hf h1 h2
  rw [h, Except.ok.injEq] at e
  subst e
  have hfree : (settingValues (allSettings sdb) s.str (c!"is_root")).filter saysTrue = [] := by
    by_contra hn
    obtain ⟨r, hr', hrs⟩ := (dict_roots ho hrc g' hd).2 hn
    exact hr r hr' hrs
  have hsame : SameRoots db db' sdb sdb' (· = s.str) := by
    refine ⟨fun k hk l hl a ha => by rw [v k l hl a ha, if_neg hk], fun k hk => ⟨s, hs, hk.symm⟩, fun k u hu => ?_, fun k => ?_,
      fun k => ?_, fun k hk => hk ▸ hfree⟩
    · rw [w k _ (by decide), w k _ (by decide)] at hu
      by_cases hk : k = s.str
      · simp only [hk, if_true, List.not_mem_nil, or_self] at hu
      · rw [if_neg hk, if_neg hk] at hu
        exact hrc.values g' hu
    · rw [w k _ (by decide)]
      split
      · rename_i hk; rw [hk, hfree]; rfl
      · rfl
    · rw [w k _ (by decide)]
      split
      · exact Nat.zero_le _
      · exact Nat.le_refl _
  obtain ⟨l, hok⟩ := getDictionary_ok ho hd
  obtain ⟨y, hy, _⟩ := h2
  have hroot : ∃ r, r ∈ d.roots := by
    obtain ⟨r, hr⟩ := (hok.root_iff_listed hs hn).2 ⟨y, hy, ‹_›⟩
    obtain ⟨hr, _⟩ := hok.root_within hs hr
    exact ⟨r, hr⟩
  obtain ⟨r, hr'⟩ := hroot
  have hne : allSettings sdb' ≠ [] := by
    have h3 := (dict_roots ho hrc g' hd).1 ⟨r, hr', rfl⟩
    refine settings_ne (k := r.str) (a := c!"is_root") ?_
    rw [w _ _ (by decide), if_neg (hr r hr')]
    intro h0
    rw [h0] at h3
    exact h3 rfl
  refine hsame.readable ho g k g' k' hne hrc hd fun κ hk l hl a ha hv => hv ?_
  rw [v κ l hl a ha, if_pos hk]

/-- Part of **C72**: after the deletion of a paradigm that is not a root, the data are still consistent and the roots are the same. -/
theorem C72_readable_partial (ho : o.Valid) {s : Script} (hb : Built s) (hn : ¬ Singular s) {p q : Str} (hc : Consistent x fs)
    (hsc : SConsistent x fs) (hrc : ReadsConsistent fs) (hd : getDictionary o fs = .ok d) (hf : Filed x fs s p q)
    (hr : ∀ r ∈ d.roots, r.str ≠ s.str) (h : deleteParadigm o ord x fs s = .ok fs') :
    ReadsConsistent fs' ∧ ∀ d', getDictionary o fs' = .ok d' → SameRootTexts d d' := by
  obtain ⟨h1, h2, _⟩ := deleteParadigm_after ho hb hn hc hsc hrc hd hf hr h
  exact ⟨h1, h2⟩

example : ∃ fs', deleteParadigm plainOrder (dedupBy str) dictExt dictFs scSB = .ok fs' ∧ ReadsConsistent fs' := by
  obtain ⟨fs', h⟩ : ∃ fs', deleteParadigm plainOrder (dedupBy str) dictExt dictFs scSB = .ok fs' := ok_of_isOk (by decide +kernel)
  obtain ⟨d, hd, _⟩ := dictFs_dict
  have hb : Built scSB := built_of (by decide +kernel)
  refine ⟨fs', h, (C72_readable_partial plainOrder_valid hb (fun hs => absurd ((singular_iff (built_wf hb)).1 hs) (by decide +kernel))
    dictFs_consistent dictFs_sconsistent dictFs_reads hd scSB_filed (fun r hr e => ?_) h).1⟩
  have := List.mem_map_of_mem (f := str) hr
  rw [dictFs_roots hd, e] at this
  revert this
  decide +kernel

theorem updateParadigm_after (ho : o.Valid) {old new : Script} (hbo : Built old) (hbn : Built new) (hc : Consistent x fs)
    (hsc : SConsistent x fs) (hrc : ReadsConsistent fs) (hd : getDictionary o fs = .ok d) {p q p' q' : Str} (hfo : Filed x fs old p q)
    (hfn : Filed x fs new p' q') (hne : old.str ≠ new.str) (hr : ∀ r ∈ d.roots, r.str ≠ old.str) (hf : SaysRoot fs old.str false)
    (hlines : ∀ l ∈ languages, ∀ a ∈ descriptorClasses, ∀ vs, getValues fs old.str l a = .ok vs → ∀ v ∈ vs, OneLine (strip v))
    (h : updateParadigm o ord x fs old new = .ok fs') :
    ReadsConsistent fs' ∧ (∀ d', getDictionary o fs' = .ok d' → SameRootTexts d d') ∧
      ListsAfter fs fs' d (· = new.str) := by
  have hwo := built_wf hbo
  have hwn := built_wf hbn
  obtain ⟨db, g⟩ := hc
  obtain ⟨sdb, g'⟩ := hsc
  obtain ⟨h1, h2, h3, h4, h5, b, c, _, h7, _⟩ := updateParadigm_inv hd hne h
  obtain ⟨fs2, db', sdb', e, k, k', v, w⟩ := updateParadigm_run hwn hd g g' hfo hfn hne h1 h2 h3 h4 h5 (isRootFlag_iff.2 hf) h7
    fun l hl a ha v hv => hlines l hl a ha _ (g.getValues hl ha) v hv
  rw [h, Except.ok.injEq] at e
  subst e
  have hfree : ∀ k, k = old.str ∨ k = new.str → (settingValues (allSettings sdb) k (c!"is_root")).filter saysTrue = [] := by
    intro k hk
    by_contra hn
    obtain ⟨r, hr', hrs⟩ := (dict_roots ho hrc g' hd).2 hn
    rcases hk with rfl | rfl
    · exact hr r hr' hrs
    · obtain ⟨l, hok⟩ := getDictionary_ok ho hd
      obtain ⟨y, hy, e⟩ := hok.root_listed hr'
      exact h5 ⟨y, hy, e.trans hrs⟩
  have hsame : SameRoots db db' sdb sdb' (fun k => k = old.str ∨ k = new.str) := by
    refine ⟨fun k hk l hl a ha => ?_, fun k hk => ?_, fun k u hu => ?_, fun k => ?_, fun k => ?_, hfree⟩
    · rw [v k l hl a ha, if_neg fun e => hk (.inl e), if_neg fun e => hk (.inr e)]
    · rcases hk with rfl | rfl
      · exact ⟨old, hwo, rfl⟩
      · exact ⟨new, hwn, rfl⟩
    · rw [w k _ (by decide), w k _ (by decide)] at hu
      by_cases hk : k = old.str
      · simp only [hk, if_true, List.not_mem_nil, or_self] at hu
      · rw [if_neg hk, if_neg hk] at hu
        by_cases hk' : k = new.str
        · rw [if_pos ⟨hk', rfl⟩, if_neg fun e => absurd e.2 (by decide)] at hu
          rcases hu with hu | hu
          · rcases List.mem_append.1 hu with hu | hu
            · exact hrc.values g' (.inl hu)
            · rw [List.mem_singleton.1 hu]; decide
          · exact hrc.values g' (.inr hu)
        · rw [if_neg fun e => hk' e.1, if_neg fun e => hk' e.1] at hu
          exact hrc.values g' hu
    · rw [w k _ (by decide)]
      by_cases hk : k = old.str
      · rw [if_pos hk, hk, hfree _ (.inl rfl)]; rfl
      · rw [if_neg hk]
        by_cases hk' : k = new.str
        · rw [if_pos ⟨hk', rfl⟩, hk', List.filter_append, hfree _ (.inr rfl)]; decide
        · rw [if_neg fun e => hk' e.1]
    · rw [w k _ (by decide)]
      by_cases hk : k = old.str
      · rw [if_pos hk]; exact Nat.zero_le _
      · rw [if_neg hk, if_neg fun e => absurd e.2 (by decide)]
  have hne' : allSettings sdb' ≠ [] := by
    refine settings_ne (k := new.str) (a := c!"is_root") ?_
    rw [w _ _ (by decide), if_neg (Ne.symm hne), if_pos ⟨rfl, rfl⟩]
    simp
  refine hsame.readable ho g k g' k' hne' hrc hd fun κ hk l hl a ha hv => hk.resolve_left fun hk => hv ?_
  rw [v κ l hl a ha, if_pos hk]

/-- Part of **C73**: after the update of a paradigm that is not a root, the data are still consistent and the roots are the same. -/
theorem C73_readable_partial (ho : o.Valid) {old new : Script} (hbo : Built old) (hbn : Built new) (hc : Consistent x fs)
    (hsc : SConsistent x fs) (hrc : ReadsConsistent fs) (hd : getDictionary o fs = .ok d) {p q p' q' : Str} (hfo : Filed x fs old p q)
    (hfn : Filed x fs new p' q') (hne : old.str ≠ new.str) (hr : ∀ r ∈ d.roots, r.str ≠ old.str) (hf : SaysRoot fs old.str false)
    (hlines : ∀ l ∈ languages, ∀ a ∈ descriptorClasses, ∀ vs, getValues fs old.str l a = .ok vs → ∀ v ∈ vs, OneLine (strip v))
    (h : updateParadigm o ord x fs old new = .ok fs') :
    ReadsConsistent fs' ∧ ∀ d', getDictionary o fs' = .ok d' → SameRootTexts d d' := by
  obtain ⟨h1, h2, _⟩ := updateParadigm_after ho hbo hbn hc hsc hrc hd hfo hfn hne hr hf hlines h
  exact ⟨h1, h2⟩

example : ∃ fs', updateParadigm plainOrder (dedupBy str) dictExt dictFs scSB scST = .ok fs' ∧ ReadsConsistent fs' := by
  obtain ⟨fs', h⟩ : ∃ fs', updateParadigm plainOrder (dedupBy str) dictExt dictFs scSB scST = .ok fs' := ok_of_isOk (by decide +kernel)
  obtain ⟨d, hd, _⟩ := dictFs_dict
  refine ⟨fs', h, (C73_readable_partial plainOrder_valid (built_of (by decide +kernel)) (built_of (by decide +kernel)) dictFs_consistent
    dictFs_sconsistent dictFs_reads hd scSB_filed scST_filed (by decide +kernel) (fun r hr e => ?_) saysRoot_SB scSB_lines h).1⟩
  have := List.mem_map_of_mem (f := str) hr
  rw [dictFs_roots hd, e] at this
  revert this
  decide +kernel

end Verif
