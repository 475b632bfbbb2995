import Verif.Lemmas.DictTransaction
import Verif.Props.Factor
import Verif.Props.Relations
import Verif.Lemmas.ScriptChars

/-
Properties of the dictionary transactions (C69 to C73).
-/

namespace Verif
open Script
variable {o : SetOrder} {ord : List Script → List Script} {x : Ext} {fs fs' : FS} {d : Dictionary}

/-! ### Vocabulary -/

/-- The script is the result of its own factorisation. -/
def Factored (ord : List Script → List Script) (s : Script) : Prop := ∃ t, factorize ord s = .ok t ∧ t.str = s.str

/-- The dictionary contains the script. -/
def Dictionary.Lists (d : Dictionary) (s : Script) : Prop := ∃ y ∈ d.base.scripts, y.str = s.str

/-- No other key with settings shares the structure file `p` of `k`. -/
def SAlone (x : Ext) (fs : FS) (k p : Str) : Prop :=
  ∀ k' a, a ∈ structureKeys → pathOf x k' false true = .ok p → k' ≠ k → structureValues fs k' a = .ok []

/-- The database reads the text of the script as the script, and stores its descriptors and its settings in files of their own. -/
structure Filed (x : Ext) (fs : FS) (s : Script) (p q : Str) : Prop where
  text : keyText x s.str = .ok s.str
  desc : pathOf x s.str true true = .ok p
  ieml : pathOf x s.str false true = .ok q
  alone : Alone x fs s.str p
  salone : SAlone x fs s.str q

/-- The values fit on one line. -/
def OneLines (tr : Str → List Str) : Prop := ∀ l ∈ languages, ∀ v ∈ tr l, OneLine (strip v)

/-! ### Preliminaries -/

theorem checkScript_ok {s : Script} : checkScript ord s = .ok () ↔ Factored ord s := by
  unfold checkScript Factored
  cases h : factorize ord s with
  | error e => simp [bind, Except.bind]
  | ok t =>
    simp only [bind, Except.bind, Except.ok.injEq, exists_eq_left']
    by_cases e : t.str = s.str
    · simp [pyEq, e, pure, Except.pure]
    · simp [pyEq, e, throw, throwThe, MonadExceptOf.throw]

theorem checkScript_unit {s : Script} {u : Unit} (h : checkScript ord s = .ok u) : Factored ord s := checkScript_ok.1 h

theorem str_line {s : Script} (h : WF s) : OneLine s.str ∧ NoQuote s.str := by
  have := str_termChar h
  refine ⟨⟨fun hc => ?_, fun hc => ?_⟩, fun hc => ?_⟩ <;> exact absurd (this _ hc) (by decide)

theorem refuseRooted_error (T : TableStructure) {ss : List Script} (h : ss ≠ []) : refuseRooted T ss = .error .valueError := by
  cases ss with
  | nil => exact absurd rfl h
  | cons q ss =>
    obtain ⟨r, hr⟩ := root_total T q
    unfold refuseRooted
    rw [List.foldlM_cons]
    simp only [hr, bind, Except.bind]

theorem getDictionary_inv (h : getDictionary o fs = .ok d) : ∃ rows, getStructure fs = .ok rows ∧
    mkDictionary o (listParadigms fs) (pySort ltSetting rows) = .ok d := by
  unfold getDictionary at h
  exact bind_ok.1 h

theorem getDictionary_base (ho : o.Valid) (h : getDictionary o fs = .ok d) : ∃ l, BaseOk d l := by
  obtain ⟨rows, _, h⟩ := getDictionary_inv h
  obtain ⟨st, _, hd, _⟩ := mkDictionary_inv ho h
  exact ⟨_, hd.toBaseOk⟩

theorem getDictionary_settings (h : getDictionary o fs = .ok d) {sdb : List (Str × List Setting)} (hs : SHolds x fs sdb) :
    allSettings sdb ≠ [] := by
  intro h0
  obtain ⟨rows, h1, _⟩ := getDictionary_inv h
  rw [hs.getStructure_empty h0] at h1
  cases h1

theorem Holds.readTranslations {db : List (Str × List Entry)} (h : Holds x fs db) (s : Script) :
    readTranslations fs (some s) = .ok () := by
  unfold Verif.readTranslations
  simp only
  obtain ⟨l, hl⟩ := mapM_total (f := fun l => Verif.getValues fs s.str l (c!"translations")) (l := languages)
    fun l hl => ⟨_, h.getValues hl (by decide)⟩
  rw [hl]
  rfl

theorem readTranslations_none : readTranslations fs none = .error .valueError := rfl

theorem Holds.alone {db : List (Str × List Entry)} {k p : Str} (h : Holds x fs db)
    (hk : ∀ e ∈ (fsGet db p).getD [], e.key = k) : Alone x fs k p := by
  intro k' l' d' hl hd hp hne
  rw [h.getValues hl hd, h.storedValues_eq hp]
  congr 1
  unfold storedValues
  rw [List.map_eq_nil_iff, List.filter_eq_nil_iff]
  intro e he
  simp [hk e he, Ne.symm hne]

theorem SHolds.alone {db : List (Str × List Setting)} {k p : Str} (h : SHolds x fs db) (hne : allSettings db ≠ [])
    (hk : ∀ e ∈ (fsGet db p).getD [], e.key = k) : SAlone x fs k p := by
  intro k' a ha hp hne'
  rw [h.values hne ha, h.values_eq hp]
  congr 1
  unfold settingValues
  rw [List.map_eq_nil_iff, List.filter_eq_nil_iff]
  intro e he
  simp [hk e he, Ne.symm hne']

/-! ### The database of the examples -/

/-- The external functions of the examples: the parser of scripts. -/
def dictExt : Ext where
  parse t := (parseScript t).map fun s => ⟨s.str, .morpheme, s.cardinal = 1⟩
  digest _ := []

/-- Two roots, one of them with a paradigm. -/
def dictFs : FS :=
  [(c!"morpheme/paradigm/O:.desc", c!"\"O:\" fr translations \"virtuel actuel\"\n"),
   (c!"morpheme/paradigm/O:.ieml", c!"\"O:\" is_root \"True\"\n"),
   (c!"morpheme/paradigm/M:.desc", c!"\"M:\" fr translations \"signe etre chose\"\n\"M:\" en comments \"three\"\n"),
   (c!"morpheme/paradigm/M:.ieml", c!"\"M:\" is_root \"True\"\n\"M:\" inhibition \"twin\"\n"),
   (c!"morpheme/paradigm/S:+B:.desc", c!"\"S:+B:\" fr translations \"signe etre\"\n\"S:+B:\" fr tags \"x\"\n"),
   (c!"morpheme/paradigm/S:+B:.ieml", c!"\"S:+B:\" is_root \"False\"\n")]

/-- Its descriptors. -/
def dictDb : List (Str × List Entry) :=
  [(c!"morpheme/paradigm/O:.desc", [⟨c!"O:", c!"fr", c!"translations", c!"virtuel actuel"⟩]),
   (c!"morpheme/paradigm/M:.desc", [⟨c!"M:", c!"fr", c!"translations", c!"signe etre chose"⟩, ⟨c!"M:", c!"en", c!"comments", c!"three"⟩]),
   (c!"morpheme/paradigm/S:+B:.desc", [⟨c!"S:+B:", c!"fr", c!"translations", c!"signe etre"⟩, ⟨c!"S:+B:", c!"fr", c!"tags", c!"x"⟩])]

/-- Its settings. -/
def dictSdb : List (Str × List Setting) :=
  [(c!"morpheme/paradigm/O:.ieml", [⟨c!"O:", c!"is_root", c!"True"⟩]),
   (c!"morpheme/paradigm/M:.ieml", [⟨c!"M:", c!"is_root", c!"True"⟩, ⟨c!"M:", c!"inhibition", c!"twin"⟩]),
   (c!"morpheme/paradigm/S:+B:.ieml", [⟨c!"S:+B:", c!"is_root", c!"False"⟩])]

theorem dictFs_holds : Holds dictExt dictFs dictDb := by
  refine ⟨by decide +kernel, by decide +kernel, ?_, ?_⟩
  · intro f hf e he
    simp only [dictDb, List.mem_cons, List.not_mem_nil, or_false] at hf
    rcases hf with rfl | rfl | rfl <;> simp only [List.mem_cons, List.not_mem_nil, or_false] at he
    · subst he; constructor <;> decide
    · rcases he with rfl | rfl <;> constructor <;> decide
    · rcases he with rfl | rfl <;> constructor <;> decide
  · decide +kernel

theorem dictFs_sholds : SHolds dictExt dictFs dictSdb := by
  refine ⟨by decide +kernel, by decide +kernel, ?_, ?_⟩
  · intro f hf e he
    simp only [dictSdb, List.mem_cons, List.not_mem_nil, or_false] at hf
    rcases hf with rfl | rfl | rfl <;> simp only [List.mem_cons, List.not_mem_nil, or_false] at he
    · subst he; constructor <;> decide
    · rcases he with rfl | rfl <;> constructor <;> decide
    · subst he; constructor <;> decide
  · decide +kernel

theorem dictFs_consistent : Consistent dictExt dictFs := ⟨_, dictFs_holds⟩
theorem dictFs_sconsistent : SConsistent dictExt dictFs := ⟨_, dictFs_sholds⟩

theorem dictFs_filed {s : Script} {p q : Str} (h1 : keyText dictExt s.str = .ok s.str) (h2 : pathOf dictExt s.str true true = .ok p)
    (h3 : pathOf dictExt s.str false true = .ok q) (h4 : ∀ e ∈ (fsGet dictDb p).getD [], e.key = s.str)
    (h5 : ∀ e ∈ (fsGet dictSdb q).getD [], e.key = s.str) : Filed dictExt dictFs s p q :=
  ⟨h1, h2, h3, dictFs_holds.alone h4, dictFs_sholds.alone (by decide) h5⟩

/-- The scripts `S:+B:`, `S:+T:`, `M:`, `O:` and `O:O:.`. -/
def scSB : Script := .add [.prim .S, .prim .B]
def scST : Script := .add [.prim .S, .prim .T]
def scM : Script := .add [.prim .S, .prim .B, .prim .T]
def scO : Script := .add [.prim .U, .prim .A]
def scOO : Script := .mult scO scO (.null 0)

example : [scSB, scST, scM, scO, scOO].map str = [c!"S:+B:", c!"S:+T:", c!"M:", c!"O:", c!"O:O:."] := by decide +kernel

theorem scSB_filed : Filed dictExt dictFs scSB (c!"morpheme/paradigm/S:+B:.desc") (c!"morpheme/paradigm/S:+B:.ieml") :=
  dictFs_filed (by decide +kernel) (by decide +kernel) (by decide +kernel) (by decide +kernel) (by decide +kernel)

theorem scST_filed : Filed dictExt dictFs scST (c!"morpheme/paradigm/S:+T:.desc") (c!"morpheme/paradigm/S:+T:.ieml") :=
  dictFs_filed (by decide +kernel) (by decide +kernel) (by decide +kernel) (by decide +kernel) (by decide +kernel)

theorem scM_filed : Filed dictExt dictFs scM (c!"morpheme/paradigm/M:.desc") (c!"morpheme/paradigm/M:.ieml") :=
  dictFs_filed (by decide +kernel) (by decide +kernel) (by decide +kernel) (by decide +kernel) (by decide +kernel)

theorem dictFs_dict : ∃ d, getDictionary plainOrder dictFs = .ok d ∧ (d.base.scripts.map str, d.roots.map str) =
    ([c!"U:", c!"A:", c!"S:", c!"B:", c!"T:", c!"O:", c!"S:+B:", c!"M:"], [c!"M:", c!"O:"]) := by
  have h : (getDictionary plainOrder dictFs).map (fun d => (d.base.scripts.map str, d.roots.map str)) =
    .ok ([c!"U:", c!"A:", c!"S:", c!"B:", c!"T:", c!"O:", c!"S:+B:", c!"M:"], [c!"M:", c!"O:"]) := by decide +kernel
  cases hd : getDictionary plainOrder dictFs with
  | error e => rw [hd] at h; cases h
  | ok d => rw [hd] at h; injection h with h; exact ⟨d, rfl, h⟩

theorem ok_of_isOk {α : Type} {r : Except Err α} (h : r.isOk = true) : ∃ a, r = .ok a := by
  cases r with
  | ok a => exact ⟨a, rfl⟩
  | error e => cases h

/-! ### C69: creating a root -/

/-- **C69** is violated for every input: `create_root_paradigm` never returns.  (`tables.root` returns `None` for a script in no
table, and the loop expects a `KeyError`.) -/
theorem C69_never {root : Script} (hb : Built root) (inhibitions : List Str) (tr co : Str → List Str) :
    ∃ e, createRoot o ord x fs root inhibitions tr co = .error e := by
  obtain ⟨L, hL⟩ := enum_exists (built_wf hb)
  cases h : createRoot o ord x fs root inhibitions tr co with
  | error e => exact ⟨e, rfl⟩
  | ok fs' =>
    exfalso
    unfold createRoot at h
    obtain ⟨_, _, h⟩ := bind_ok.1 h
    dsimp only at h
    split at h
    · cases h
    obtain ⟨g, _, h⟩ := bind_ok.1 h
    split at h
    · cases h
    obtain ⟨d, _, h⟩ := bind_ok.1 h
    rw [hL.run] at h
    obtain ⟨ss, hss, h⟩ := bind_ok.1 h
    injection hss with hss
    subst hss
    rw [refuseRooted_error _ (enum_ne_nil (built_wf hb) hL)] at h
    cases h

theorem dictFs_roots (hd : getDictionary plainOrder dictFs = .ok d) : d.roots.map str = [c!"M:", c!"O:"] := by
  obtain ⟨d', h1, h2⟩ := dictFs_dict
  rw [hd, Except.ok.injEq] at h1
  rw [h1]
  exact congrArg Prod.snd h2

theorem dictFs_scripts (hd : getDictionary plainOrder dictFs = .ok d) :
    d.base.scripts.map str = [c!"U:", c!"A:", c!"S:", c!"B:", c!"T:", c!"O:", c!"S:+B:", c!"M:"] := by
  obtain ⟨d', h1, h2⟩ := dictFs_dict
  rw [hd, Except.ok.injEq] at h1
  rw [h1]
  exact congrArg Prod.fst h2

theorem scOO_apart (hd : getDictionary plainOrder dictFs = .ok d) : ∀ r ∈ d.roots, Apart scOO r := by
  intro r hr w hw
  obtain ⟨l, hb⟩ := getDictionary_base plainOrder_valid hd
  have hl := layer_of_word (built_wf (built_of (by decide +kernel))) (hb.rootWf r hr) hw.1 hw.2
  have hm : r.str ∈ [c!"M:", c!"O:"] := dictFs_roots hd ▸ List.mem_map_of_mem hr
  simp only [List.mem_cons, List.not_mem_nil, or_false] at hm
  have h0 : r.layer = 0 := by
    rcases hm with hm | hm
    · exact (layer_of_str (t := scM) (hb.rootWf r hr) (built_wf (built_of (by decide +kernel))) (hm.trans (by decide +kernel))).trans
        (by decide +kernel)
    · exact (layer_of_str (t := scO) (hb.rootWf r hr) (built_wf (built_of (by decide +kernel))) (hm.trans (by decide +kernel))).trans
        (by decide +kernel)
  rw [h0] at hl
  revert hl
  decide

/-- What **C69** claims: a paradigm that is its own factorisation, has several words, no descriptor, and no word in common with the
roots of the dictionary is accepted as a root. -/
def CreatesRoots : Prop :=
  ∀ (o : SetOrder) (ord : List Script → List Script) (x : Ext) (fs : FS) (d : Dictionary) (root : Script) (p q : Str)
    (tr co : Str → List Str), o.Valid → FactorOrder ord → Consistent x fs → SConsistent x fs → getDictionary o fs = .ok d → Built root →
    Factored ord root → ¬ Singular root → (∀ l ∈ languages, ∀ a ∈ descriptorClasses, getValues fs root.str l a = .ok []) →
    (∀ r ∈ d.roots, Apart root r) → Filed x fs root p q → OneLines tr → OneLines co → ∃ fs', createRoot o ord x fs root [] tr co = .ok fs'

theorem scOO_filed : Filed dictExt dictFs scOO (c!"morpheme/paradigm/O:O:..desc") (c!"morpheme/paradigm/O:O:..ieml") :=
  dictFs_filed (by decide +kernel) (by decide +kernel) (by decide +kernel) (by decide +kernel) (by decide +kernel)

theorem oneLines_nil : OneLines fun _ => [] := fun _ _ _ h => absurd h (List.not_mem_nil)

/-- **C69** is violated: `O:O:.` cannot be made a root of the example. -/
theorem C69_violated : ¬ CreatesRoots := by
  intro h
  obtain ⟨d, hd, _⟩ := dictFs_dict
  have hb : Built scOO := built_of (by decide +kernel)
  obtain ⟨fs', h1⟩ := h plainOrder (dedupBy str) dictExt dictFs d scOO _ _ (fun _ => []) (fun _ => []) plainOrder_valid
    factorOrder_insertion dictFs_consistent dictFs_sconsistent hd hb (checkScript_ok.1 (by decide +kernel))
    (fun hs => absurd ((singular_iff (built_wf hb)).1 hs) (by decide +kernel)) (by decide +kernel) (scOO_apart hd) scOO_filed
    oneLines_nil oneLines_nil
  obtain ⟨e, h2⟩ := C69_never (o := plainOrder) (ord := dedupBy str) (x := dictExt) (fs := dictFs) hb [] (fun _ => []) (fun _ => [])
  rw [h1] at h2
  cases h2

example : Built scOO ∧ createRoot plainOrder (dedupBy str) dictExt dictFs scOO [] (fun _ => [c!"x"]) (fun _ => []) = .error .valueError :=
  ⟨built_of (by decide +kernel), by decide +kernel⟩

/-! ### C70: adding a paradigm -/

theorem addParadigm_inv (ho : o.Valid) {s : Script} (hs : WF s) {tr co : Str → List Str} (hd : getDictionary o fs = .ok d)
    (h : addParadigm o ord x fs s tr co = .ok fs') :
    Factored ord s ∧ s.cardinal ≠ 1 ∧ ¬ d.Lists s ∧ ∃ r ∈ d.roots, Within s r := by
  obtain ⟨l, hb⟩ := getDictionary_base ho hd
  unfold addParadigm at h
  rw [hd] at h
  obtain ⟨_, hd', h⟩ := bind_ok.1 h
  injection hd' with hd'
  subst hd'
  obtain ⟨_, h1, h⟩ := bind_ok.1 h
  dsimp only at h
  split at h
  · cases h
  rename_i h2
  split at h
  · cases h
  rename_i h3
  obtain ⟨c, h4, h⟩ := bind_ok.1 h
  refine ⟨checkScript_unit h1, h2, fun hl => h3 (memText_iff.2 hl), ?_⟩
  split at h
  · rename_i root
    cases root with
    | none =>
      obtain ⟨_, _, h⟩ := bind_ok.1 h
      obtain ⟨_, h5, _⟩ := bind_ok.1 h
      cases h5
    | some r =>
      exact ⟨r, (hb.candidates_some hs).1 h4⟩
  · cases h

theorem addParadigm_run (ho : o.Valid) {s : Script} (hs : WF s) {tr co : Str → List Str} (hd : getDictionary o fs = .ok d)
    {db : List (Str × List Entry)} {sdb : List (Str × List Setting)} (h : Holds x fs db) (h' : SHolds x fs sdb) {p q : Str}
    (hf : Filed x fs s p q) (htr : OneLines tr) (hco : OneLines co) (h1 : Factored ord s) (h2 : s.cardinal ≠ 1) (h3 : ¬ d.Lists s)
    (h4 : ∃ r ∈ d.roots, Within s r) :
    ∃ fs' db' sdb', addParadigm o ord x fs s tr co = .ok fs' ∧ Holds x fs' db' ∧ SHolds x fs' sdb' ∧
      (∀ k, ∀ l ∈ languages, ∀ a ∈ descriptorClasses, storedValues (allEntries db') k l a =
        if k = s.str then if a = c!"translations" then cleaned (tr l) else if a = c!"comments" then cleaned (co l) else []
        else storedValues (allEntries db) k l a) ∧
      ∀ k, ∀ a ∈ structureKeys, settingValues (allSettings sdb') k a =
        if k = s.str then if a = c!"is_root" then [c!"False"] else [] else settingValues (allSettings sdb) k a := by
  obtain ⟨l, hb⟩ := getDictionary_base ho hd
  obtain ⟨r, hr⟩ := h4
  have hc := (hb.candidates_some hs).2 hr
  obtain ⟨fs1, db1, e1, g1, -, -, v1⟩ := h.removeDescriptor_all hf.text hf.desc
  have k1 := h'.keep (removeDescriptor_keeps e1)
  obtain ⟨fs2, sdb2, e2, k2, w2⟩ := k1.removeAll hf.text hf.ieml
  have g2 := g1.keep (removeStructure_keeps e2)
  obtain ⟨fs3, sdb3, e3, k3, w3⟩ := k2.addNotRoot hf.text hf.ieml (str_line hs)
  have g3 := g2.keep (addStructure_keeps e3)
  obtain ⟨fs4, db4, e4, g4, v4⟩ := g3.writeDescriptors hf.text hf.desc (str_line hs).1 fun l hl => ⟨htr l hl, hco l hl⟩
  have k4 := k3.keep (writeDescriptors_keeps e4)
  refine ⟨fs4, db4, sdb3, ?_, g4, k4, fun k l hl a ha => ?_, fun k a ha => ?_⟩
  · unfold addParadigm
    have hm : memText s d.base.scripts = false := by
      rw [Bool.eq_false_iff]
      exact fun hm => h3 (memText_iff.1 hm)
    simp only [hd, checkScript_ok.2 h1, hm, hc, h.readTranslations, e1, e2, e3, e4, bind, Except.bind, if_neg h2, Bool.false_eq_true,
      if_false]
  · rw [v4]
    by_cases hk : k = s.str
    · subst hk
      simp only [hl, true_and, if_true]
      rw [v1, if_pos hf.desc]
      rfl
    · simp only [hk, false_and, if_false]
      rw [v1]
      split
      · rename_i hp
        have := hf.alone k l a hl ha hp hk
        rw [h.getValues hl ha] at this
        injection this with this
        exact this.symm
      · rfl
  · rw [w3]
    by_cases hk : k = s.str
    · subst hk
      by_cases hka : a = c!"is_root"
      · subst hka
        simp only [if_true, and_self]
        rw [w2, if_pos hf.ieml]
        rfl
      · simp only [hka, and_false, if_false, if_true]
        rw [w2, if_pos hf.ieml]
    · simp only [hk, false_and, if_false]
      rw [w2]
      split
      · rename_i hp
        have := hf.salone k a ha hp hk
        rw [h'.values (getDictionary_settings hd h') ha] at this
        injection this with this
        exact this.symm
      · rfl

/-- **C70**: a paradigm is accepted exactly when it is its own factorisation, has several words, is not in the dictionary and
lies within a root. -/
theorem C70_accepts (ho : o.Valid) {s : Script} (hb : Built s) {tr co : Str → List Str} {p q : Str} (hc : Consistent x fs)
    (hsc : SConsistent x fs) (hd : getDictionary o fs = .ok d) (hf : Filed x fs s p q) (htr : OneLines tr) (hco : OneLines co) :
    (∃ fs', addParadigm o ord x fs s tr co = .ok fs') ↔
      Factored ord s ∧ ¬ Singular s ∧ ¬ d.Lists s ∧ ∃ r ∈ d.roots, Within s r := by
  have hs := built_wf hb
  rw [singular_iff hs]
  constructor
  · rintro ⟨fs', h⟩
    exact addParadigm_inv ho hs hd h
  · rintro ⟨h1, h2, h3, h4⟩
    obtain ⟨db, h⟩ := hc
    obtain ⟨sdb, h'⟩ := hsc
    obtain ⟨fs', _, _, e, _⟩ := addParadigm_run ho hs hd h h' hf htr hco h1 h2 h3 h4
    exact ⟨fs', e⟩

/-- **C70**: after the addition of a paradigm its translations and comments are the given ones, it has no other descriptor, its
only setting says that it is not a root, and the descriptors and settings of all the other keys are unchanged. -/
theorem C70_added (ho : o.Valid) {s : Script} (hb : Built s) {tr co : Str → List Str} {p q : Str} (hc : Consistent x fs)
    (hsc : SConsistent x fs) (hf : Filed x fs s p q) (htr : OneLines tr) (hco : OneLines co)
    (h : addParadigm o ord x fs s tr co = .ok fs') :
    Consistent x fs' ∧ SConsistent x fs' ∧
    (∀ l ∈ languages, getValues fs' s.str l (c!"translations") = .ok (cleaned (tr l)) ∧
      getValues fs' s.str l (c!"comments") = .ok (cleaned (co l)) ∧
      ∀ a ∈ descriptorClasses, a ≠ c!"translations" → a ≠ c!"comments" → getValues fs' s.str l a = .ok []) ∧
    structureValues fs' s.str (c!"is_root") = .ok [c!"False"] ∧
    (∀ a ∈ structureKeys, a ≠ c!"is_root" → structureValues fs' s.str a = .ok []) ∧
    ∀ k, k ≠ s.str → (∀ l ∈ languages, ∀ a ∈ descriptorClasses, getValues fs' k l a = getValues fs k l a) ∧
      ∀ a ∈ structureKeys, structureValues fs' k a = structureValues fs k a := by
  have hs := built_wf hb
  have hd : ∃ d, getDictionary o fs = .ok d := by
    unfold addParadigm at h
    obtain ⟨d, hd, _⟩ := bind_ok.1 h
    exact ⟨d, hd⟩
  obtain ⟨d, hd⟩ := hd
  obtain ⟨h1, h2, h3, h4⟩ := addParadigm_inv ho hs hd h
  obtain ⟨db, g⟩ := hc
  obtain ⟨sdb, g'⟩ := hsc
  obtain ⟨fs2, db2, sdb2, e, k, k', v, w⟩ := addParadigm_run ho hs hd g g' hf htr hco h1 h2 h3 h4
  rw [h] at e
  injection e with e
  subst e
  have hne := getDictionary_settings hd g'
  have hne2 : allSettings sdb2 ≠ [] := by
    intro h0
    have := w s.str (c!"is_root") (by decide)
    rw [h0, if_pos rfl, if_pos rfl] at this
    cases this
  refine ⟨⟨db2, k⟩, ⟨sdb2, k'⟩, fun l hl => ⟨?_, ?_, fun a ha ht hc => ?_⟩, ?_, fun a ha hr => ?_, fun t ht => ⟨fun l hl a ha => ?_, fun a ha => ?_⟩⟩
  · rw [k.getValues hl (by decide), v _ l hl _ (by decide), if_pos rfl, if_pos rfl]
  · rw [k.getValues hl (by decide), v _ l hl _ (by decide), if_pos rfl, if_neg (by decide), if_pos rfl]
  · rw [k.getValues hl ha, v _ l hl _ ha, if_pos rfl, if_neg ht, if_neg hc]
  · rw [k'.values hne2 (by decide), w _ _ (by decide), if_pos rfl, if_pos rfl]
  · rw [k'.values hne2 ha, w _ _ ha, if_pos rfl, if_neg hr]
  · rw [k.getValues hl ha, g.getValues hl ha, v _ l hl _ ha, if_neg ht]
  · rw [k'.values hne2 ha, g'.values hne ha, w _ _ ha, if_neg ht]

/-- The translations of the examples. -/
def exTr : Str → List Str := fun l => if l = c!"fr" then [c!" signe \"et\" chose ", c!"  "] else []

theorem exTr_lines : OneLines exTr := by unfold OneLines; decide +kernel

theorem scST_added : ∃ fs', addParadigm plainOrder (dedupBy str) dictExt dictFs scST exTr (fun _ => []) = .ok fs' :=
  ok_of_isOk (by decide +kernel)

/-- `S:+T:` is accepted in the example, and its translation is stored. -/
example : (∃ d, getDictionary plainOrder dictFs = .ok d ∧ Factored (dedupBy str) scST ∧ ¬ Singular scST ∧ ¬ d.Lists scST ∧
      ∃ r ∈ d.roots, Within scST r) ∧
    ∃ fs', addParadigm plainOrder (dedupBy str) dictExt dictFs scST exTr (fun _ => []) = .ok fs' ∧
      getValues fs' (c!"S:+T:") (c!"fr") (c!"translations") = .ok [c!"signe \"et\" chose"] := by
  have hb : Built scST := built_of (by decide +kernel)
  obtain ⟨d, hd, _⟩ := dictFs_dict
  refine ⟨⟨d, hd, (C70_accepts plainOrder_valid hb dictFs_consistent dictFs_sconsistent hd scST_filed exTr_lines oneLines_nil).1
    scST_added⟩, ?_⟩
  obtain ⟨fs', h⟩ := scST_added
  obtain ⟨_, _, h1, _⟩ := C70_added plainOrder_valid hb dictFs_consistent dictFs_sconsistent scST_filed exTr_lines oneLines_nil h
  refine ⟨fs', h, ?_⟩
  rw [show (c!"S:+T:" : Str) = scST.str by decide +kernel, (h1 (c!"fr") (by decide)).1]
  decide +kernel

/-! ### C72: deleting -/

theorem getDictionary_ok (ho : o.Valid) (h : getDictionary o fs = .ok d) : ∃ l, DictOk d l := by
  obtain ⟨rows, _, h⟩ := getDictionary_inv h
  obtain ⟨st, _, hd, _⟩ := mkDictionary_inv ho h
  exact ⟨_, hd⟩

/-- The roots are scripts of the dictionary. -/
theorem DictOk.root_listed {l : List Script} (h : DictOk d l) {r : Script} (hr : r ∈ d.roots) : d.Lists r :=
  let ⟨_, hi⟩ := h.rootIndex r hr
  seqIndex_isOk.1 ⟨_, hi⟩

/-- A paradigm has a root exactly when it is in the dictionary. -/
theorem DictOk.root_iff_listed {l : List Script} (h : DictOk d l) {s : Script} (hs : WF s) (hc : s.cardinal ≠ 1) :
    (∃ r, d.base.tables.root s = .ok (some r)) ↔ d.Lists s := by
  constructor
  · rintro ⟨r, hr⟩
    obtain ⟨e, he, rfl, t, ht, hts⟩ := root_some hr
    obtain ⟨h1, h2⟩ := h.tabs_of he
    have hct : t.script.cardinal ≠ 1 := by
      rw [← cardinal_norm (h2.wf t ht), norm_eq_of_str (h2.wf t ht) hs hts, cardinal_norm hs]
      exact hc
    rcases h2.from_ t ht with h3 | h3 | h3
    · obtain ⟨y, hy, hys⟩ := h.root_listed h1
      exact ⟨y, hy, by rw [hys, ← h3, hts]⟩
    · refine ⟨t.script, (h.scripts _).2 ⟨h3, .inr ?_⟩, hts⟩
      rw [DictOk.get?_isSome]
      exact ⟨t, mem_all.2 ⟨e, he, ht⟩, rfl⟩
    · exact absurd h3 hct
  · rintro ⟨y, hy, hys⟩
    have hyw := h.script_wf hy
    have hcy : y.cardinal ≠ 1 := by
      rw [← cardinal_norm hyw, norm_eq_of_str hyw hs hys, cardinal_norm hs]
      exact hc
    obtain ⟨e, he, t, ht, hts⟩ := h.plural_table hy hcy
    obtain ⟨o, ho⟩ := root_total d.base.tables s
    cases o with
    | some r => exact ⟨r, ho⟩
    | none => exact absurd (hts.trans hys) (root_none ho e he t ht)

theorem deleteParadigm_inv (ho : o.Valid) {s : Script} (hs : WF s) (hc : s.cardinal ≠ 1) (hd : getDictionary o fs = .ok d)
    (h : deleteParadigm o ord x fs s = .ok fs') : Factored ord s ∧ d.Lists s := by
  obtain ⟨l, hb⟩ := getDictionary_ok ho hd
  unfold deleteParadigm at h
  rw [hd] at h
  obtain ⟨_, hd', h⟩ := bind_ok.1 h
  injection hd' with hd'
  subst hd'
  obtain ⟨_, _, h⟩ := bind_ok.1 h
  obtain ⟨_, h1, h⟩ := bind_ok.1 h
  dsimp only at h
  split at h
  · cases h
  obtain ⟨r, h2, h⟩ := bind_ok.1 h
  obtain ⟨_, _, h⟩ := bind_ok.1 h
  obtain ⟨_, h4, h⟩ := bind_ok.1 h
  refine ⟨checkScript_unit h1, ?_⟩
  cases r with
  | none => cases h4
  | some r => exact (hb.root_iff_listed hs hc).1 ⟨r, h2⟩

theorem deleteParadigm_run (ho : o.Valid) {s : Script} (hs : WF s) (hc : s.cardinal ≠ 1) (hd : getDictionary o fs = .ok d)
    {db : List (Str × List Entry)} {sdb : List (Str × List Setting)} (h : Holds x fs db) (h' : SHolds x fs sdb) {p q : Str}
    (hf : Filed x fs s p q) (h1 : Factored ord s) (h2 : d.Lists s) :
    ∃ fs' db' sdb', deleteParadigm o ord x fs s = .ok fs' ∧ Holds x fs' db' ∧ SHolds x fs' sdb' ∧
      (∀ k, ∀ l ∈ languages, ∀ a ∈ descriptorClasses, storedValues (allEntries db') k l a =
        if k = s.str then [] else storedValues (allEntries db) k l a) ∧
      ∀ k, ∀ a ∈ structureKeys, settingValues (allSettings sdb') k a =
        if k = s.str then [] else settingValues (allSettings sdb) k a := by
  obtain ⟨l, hb⟩ := getDictionary_ok ho hd
  obtain ⟨r, hr⟩ := (hb.root_iff_listed hs hc).2 h2
  obtain ⟨fs1, sdb1, e1, k1, w1⟩ := h'.removeAll hf.text hf.ieml
  have g1 := h.keep (removeStructure_keeps e1)
  obtain ⟨fs2, db2, e2, g2, -, -, v2⟩ := g1.removeDescriptor_all hf.text hf.desc
  have k2 := k1.keep (removeDescriptor_keeps e2)
  refine ⟨fs2, db2, sdb1, ?_, g2, k2, fun k l hl a ha => ?_, fun k a ha => ?_⟩
  · unfold deleteParadigm
    have hcc : decide (s.cardinal = 1) = false := by simpa using hc
    simp only [hd, h.getDescriptors, checkScript_ok.2 h1, hr, h.readTranslations, e1, e2, bind, Except.bind, hcc, Bool.and_false,
      Bool.false_eq_true, if_false]
  · rw [v2]
    by_cases hk : k = s.str
    · rw [if_pos hk, if_pos (hk ▸ hf.desc)]
    · rw [if_neg hk]
      split
      · rename_i hp
        have := hf.alone k l a hl ha hp hk
        rw [h.getValues hl ha] at this
        injection this with this
        exact this.symm
      · rfl
  · rw [w1]
    by_cases hk : k = s.str
    · rw [if_pos hk, if_pos (hk ▸ hf.ieml)]
    · rw [if_neg hk]
      split
      · rename_i hp
        have := hf.salone k a ha hp hk
        rw [h'.values (getDictionary_settings hd h') ha] at this
        injection this with this
        exact this.symm
      · rfl

/-- **C72**: a paradigm can be deleted exactly when it is its own factorisation and is in the dictionary.  (Even when it is a
root: see `C72_violated_root`.) -/
theorem C72_accepts (ho : o.Valid) {s : Script} (hb : Built s) (hn : ¬ Singular s) {p q : Str} (hc : Consistent x fs)
    (hsc : SConsistent x fs) (hd : getDictionary o fs = .ok d) (hf : Filed x fs s p q) :
    (∃ fs', deleteParadigm o ord x fs s = .ok fs') ↔ Factored ord s ∧ d.Lists s := by
  have hs := built_wf hb
  rw [singular_iff hs] at hn
  constructor
  · rintro ⟨fs', h⟩
    exact deleteParadigm_inv ho hs hn hd h
  · rintro ⟨h1, h2⟩
    obtain ⟨db, h⟩ := hc
    obtain ⟨sdb, h'⟩ := hsc
    obtain ⟨fs', _, _, e, _⟩ := deleteParadigm_run ho hs hn hd h h' hf h1 h2
    exact ⟨fs', e⟩

/-- **C72**, error branch: a singular sequence of the dictionary is refused. -/
theorem C72_singular {s : Script} (hb : Built s) (hn : Singular s) (hd : getDictionary o fs = .ok d) (hl : d.Lists s) :
    ∃ e, deleteParadigm o ord x fs s = .error e := by
  cases h : deleteParadigm o ord x fs s with
  | error e => exact ⟨e, rfl⟩
  | ok fs' =>
    exfalso
    unfold deleteParadigm at h
    rw [hd] at h
    obtain ⟨_, hd', h⟩ := bind_ok.1 h
    injection hd' with hd'
    subst hd'
    obtain ⟨_, _, h⟩ := bind_ok.1 h
    obtain ⟨_, h1, h⟩ := bind_ok.1 h
    rw [memText_iff.2 hl, (singular_iff (built_wf hb)).1 hn] at h
    cases h

/-- **C72**: after the deletion of a paradigm it has no descriptor; the descriptors of the other keys are unchanged.  When another
key has a setting, the paradigm has no setting, and the settings of the other keys are unchanged. -/
theorem C72_deleted_partial (ho : o.Valid) {s : Script} (hb : Built s) (hn : ¬ Singular s) {p q : Str} (hc : Consistent x fs)
    (hsc : SConsistent x fs) (hf : Filed x fs s p q) (h : deleteParadigm o ord x fs s = .ok fs') :
    Consistent x fs' ∧ SConsistent x fs' ∧
    (∀ l ∈ languages, ∀ a ∈ descriptorClasses, getValues fs' s.str l a = .ok [] ∧
      ∀ k, k ≠ s.str → getValues fs' k l a = getValues fs k l a) ∧
    ((∃ k a v vs, k ≠ s.str ∧ a ∈ structureKeys ∧ structureValues fs k a = .ok (v :: vs)) →
      ∀ a ∈ structureKeys, structureValues fs' s.str a = .ok [] ∧
        ∀ k, k ≠ s.str → structureValues fs' k a = structureValues fs k a) := by
  have hs := built_wf hb
  rw [singular_iff hs] at hn
  have hd : ∃ d, getDictionary o fs = .ok d := by
    unfold deleteParadigm at h
    obtain ⟨d, hd, _⟩ := bind_ok.1 h
    exact ⟨d, hd⟩
  obtain ⟨d, hd⟩ := hd
  obtain ⟨h1, h2⟩ := deleteParadigm_inv ho hs hn hd h
  obtain ⟨db, g⟩ := hc
  obtain ⟨sdb, g'⟩ := hsc
  obtain ⟨fs2, db2, sdb2, e, k, k', v, w⟩ := deleteParadigm_run ho hs hn hd g g' hf h1 h2
  rw [h] at e
  injection e with e
  subst e
  have hne := getDictionary_settings hd g'
  refine ⟨⟨db2, k⟩, ⟨sdb2, k'⟩, fun l hl a ha => ⟨?_, fun t ht => ?_⟩, ?_⟩
  · rw [k.getValues hl ha, v _ l hl a ha, if_pos rfl]
  · rw [k.getValues hl ha, g.getValues hl ha, v _ l hl a ha, if_neg ht]
  · rintro ⟨k0, a0, v0, vs0, hk0, ha0, hv0⟩ a ha
    have hne2 : allSettings sdb2 ≠ [] := by
      intro h0
      have := w k0 a0 ha0
      rw [g'.values hne ha0] at hv0
      injection hv0 with hv0
      rw [h0, if_neg hk0, hv0] at this
      cases this
    refine ⟨?_, fun t ht => ?_⟩
    · rw [k'.values hne2 ha, w _ a ha, if_pos rfl]
    · rw [k'.values hne2 ha, g'.values hne ha, w _ a ha, if_neg ht]

/-- `S:+B:` is deleted from the example: its tag is removed, the translation of `M:` is kept. -/
example : ∃ d fs', getDictionary plainOrder dictFs = .ok d ∧ d.Lists scSB ∧
    deleteParadigm plainOrder (dedupBy str) dictExt dictFs scSB = .ok fs' ∧ getValues fs' (c!"S:+B:") (c!"fr") (c!"tags") = .ok [] ∧
    getValues fs' (c!"M:") (c!"en") (c!"comments") = .ok [c!"three"] ∧ structureValues fs' (c!"S:+B:") (c!"is_root") = .ok [] := by
  have hb : Built scSB := built_of (by decide +kernel)
  have hn : ¬ Singular scSB := fun hs => absurd ((singular_iff (built_wf hb)).1 hs) (by decide +kernel)
  obtain ⟨d, hd, _⟩ := dictFs_dict
  obtain ⟨fs', h⟩ : ∃ fs', deleteParadigm plainOrder (dedupBy str) dictExt dictFs scSB = .ok fs' := ok_of_isOk (by decide +kernel)
  have hl := ((C72_accepts plainOrder_valid hb hn dictFs_consistent dictFs_sconsistent hd scSB_filed).1 ⟨fs', h⟩).2
  obtain ⟨_, _, h1, h2⟩ := C72_deleted_partial plainOrder_valid hb hn dictFs_consistent dictFs_sconsistent scSB_filed h
  have e : (c!"S:+B:" : Str) = scSB.str := by decide +kernel
  refine ⟨d, fs', hd, hl, h, e ▸ (h1 _ (by decide) _ (by decide)).1, ?_, ?_⟩
  · rw [(h1 _ (by decide) _ (by decide)).2 _ (by decide +kernel)]
    decide +kernel
  · exact e ▸ (h2 ⟨c!"O:", c!"is_root", c!"True", [], by decide +kernel, by decide, by decide +kernel⟩ _ (by decide)).1

/-- `S:` is refused. -/
example : Singular (.prim .S) ∧ deleteParadigm plainOrder (dedupBy str) dictExt dictFs (.prim .S) = .error .valueError :=
  ⟨⟨_, .prim _, by rintro _ ⟨⟩; rfl⟩, by decide +kernel⟩

/-- The key is read as itself, and no other key with stored values shares its file. -/
def Lone (x : Ext) (db : List (Str × List Entry)) (k : Str) : Prop :=
  ∃ p, keyText x k = .ok k ∧ pathOf x k true true = .ok p ∧ ∀ k', k' ≠ k → pathOf x k' true true = .ok p →
    ∀ l ∈ languages, ∀ a ∈ descriptorClasses, storedValues (allEntries db) k' l a = []

theorem Holds.removeScripts : ∀ (ts : List Script) {fs : FS} {db : List (Str × List Entry)}, Holds x fs db →
    (∀ t ∈ ts, Lone x db t.str) →
    ∃ fs' db', ts.foldlM (fun fs t => removeDescriptor x fs (some t.str) none none none) fs = .ok fs' ∧ Holds x fs' db' ∧
      Keeps (c!".ieml") fs fs' ∧
      ∀ k, ∀ l ∈ languages, ∀ a ∈ descriptorClasses, storedValues (allEntries db') k l a =
        if k ∈ ts.map str then [] else storedValues (allEntries db) k l a
  | [], fs, db, h, _ => ⟨fs, db, rfl, h, .refl _ _, by simp⟩
  | t :: ts, fs, db, h, hl => by
    obtain ⟨p, h1, h2, h3⟩ := hl t (by simp)
    obtain ⟨fs1, db1, e1, g1, -, -, v1⟩ := h.removeDescriptor_all h1 h2
    have w1 : ∀ k, ∀ l ∈ languages, ∀ a ∈ descriptorClasses, storedValues (allEntries db1) k l a =
        if k = t.str then [] else storedValues (allEntries db) k l a := by
      intro k l hl a ha
      rw [v1]
      by_cases hk : k = t.str
      · rw [if_pos hk, if_pos (hk ▸ h2)]
      · rw [if_neg hk]
        split
        · rename_i hp
          exact (h3 k hk hp l hl a ha).symm
        · rfl
    obtain ⟨fs2, db2, e2, g2, k2, v2⟩ := Holds.removeScripts ts g1 (fun u hu => by
      obtain ⟨p, h1, h2, h3⟩ := hl u (by simp [hu])
      refine ⟨p, h1, h2, fun k' hk hp l hl a ha => ?_⟩
      rw [w1 k' l hl a ha, h3 k' hk hp l hl a ha]
      split <;> rfl)
    refine ⟨fs2, db2, ?_, g2, (removeDescriptor_keeps e1).trans k2, fun k l hl a ha => ?_⟩
    · rw [List.foldlM_cons, e1]
      exact e2
    · rw [v2 k l hl a ha, w1 k l hl a ha]
      by_cases hk : k = t.str <;> simp [hk]

theorem Filed.lone {s : Script} {p q : Str} (hf : Filed x fs s p q) {db : List (Str × List Entry)} (h : Holds x fs db) :
    Lone x db s.str := by
  refine ⟨p, hf.text, hf.desc, fun k hk hp l hl a ha => ?_⟩
  have := hf.alone k l a hl ha hp hk
  rw [h.getValues hl ha] at this
  injection this

theorem deleteRoot_inv (ho : o.Valid) {s : Script} {b : Bool} (hd : getDictionary o fs = .ok d)
    (h : deleteRoot o ord x fs s b = .ok fs') : Factored ord s ∧ ∃ r ∈ d.roots, r.str = s.str := by
  obtain ⟨l, hb⟩ := getDictionary_ok ho hd
  unfold deleteRoot at h
  rw [hd] at h
  obtain ⟨_, hd', h⟩ := bind_ok.1 h
  injection hd' with hd'
  subst hd'
  obtain ⟨_, _, h⟩ := bind_ok.1 h
  obtain ⟨_, h1, h⟩ := bind_ok.1 h
  dsimp only at h
  split at h
  · cases h
  rename_i h2
  refine ⟨checkScript_unit h1, ?_⟩
  simp only [Bool.not_eq_true', Bool.not_eq_false] at h2
  rw [memText_iff] at h2
  rw [← hb.roots_map]
  exact h2

theorem object_text {s t : Script} (h : s.str = t.str) (r : Rel) : d.object s r = d.object t r := by
  have : d.base.index s = d.base.index t := by
    unfold DictBase.index seqIndex
    simp only [pyEq, h]
  unfold Dictionary.object
  rw [this]

/-- The scripts contained in a root are the scripts of the dictionary within it. -/
theorem contained_iff (ho : o.Valid) (hd : getDictionary o fs = .ok d) {s r : Script} (hs : WF s) (hr : r ∈ d.roots) (hrs : r.str = s.str) :
    ∃ l, d.object s .contains = .ok l ∧ (∀ t ∈ l, t ∈ d.base.scripts) ∧
      ∀ k, k ∈ l.map str ↔ ∃ t ∈ d.base.scripts, t.str = k ∧ Within t s := by
  obtain ⟨rows, _, hm⟩ := getDictionary_inv hd
  obtain ⟨m, hb⟩ := getDictionary_ok ho hd
  obtain ⟨y, hy, hyr⟩ := hb.root_listed hr
  have hys := hyr.trans hrs
  have hyw := hb.script_wf hy
  obtain ⟨i, hi⟩ := indexed_of_mem hy
  have hob : ∃ l, d.object y .contains = .ok l ∧ ∀ t ∈ l, t ∈ d.base.scripts := by
    unfold Dictionary.object
    rw [hi]
    refine ⟨_, rfl, fun t ht => ?_⟩
    obtain ⟨j, _, hj⟩ := List.mem_filterMap.1 ht
    exact List.mem_of_getElem? hj
  obtain ⟨l, hl, hls⟩ := hob
  refine ⟨l, by rw [← object_text hys, hl], hls, fun k => ?_⟩
  constructor
  · intro hk
    obtain ⟨t, ht, rfl⟩ := List.mem_map.1 hk
    exact ⟨t, hls t ht, rfl, ((C25_contains_iff ho hm hy (hls t ht)).1 ⟨l, hl, t, ht, rfl⟩).trans (within_of_str hyw hs hys)⟩
  · rintro ⟨t, ht, rfl, hw⟩
    obtain ⟨l', hl', u, hu, hut⟩ := (C25_contains_iff ho hm hy ht).2 (hw.trans (within_of_str hs hyw hys.symm))
    rw [hl] at hl'
    injection hl' with hl'
    subst hl'
    exact List.mem_map.2 ⟨u, hu, hut⟩

open Classical in
theorem deleteRoot_run (ho : o.Valid) {s : Script} (hs : WF s) {b : Bool} (hd : getDictionary o fs = .ok d)
    {db : List (Str × List Entry)} {sdb : List (Str × List Setting)} (h : Holds x fs db) (h' : SHolds x fs sdb) {p q : Str}
    (hf : Filed x fs s p q) (hall : b = true → ∀ t ∈ d.base.scripts, Within t s → ∃ p q, Filed x fs t p q)
    (h1 : Factored ord s) (h2 : ∃ r ∈ d.roots, r.str = s.str) :
    ∃ fs' db' sdb', deleteRoot o ord x fs s b = .ok fs' ∧ Holds x fs' db' ∧ SHolds x fs' sdb' ∧
      (∀ k, ∀ l ∈ languages, ∀ a ∈ descriptorClasses, storedValues (allEntries db') k l a =
        if b = true ∧ ∃ t ∈ d.base.scripts, t.str = k ∧ Within t s then [] else storedValues (allEntries db) k l a) ∧
      ∀ k, ∀ a ∈ structureKeys, settingValues (allSettings sdb') k a =
        if k = s.str then [] else settingValues (allSettings sdb) k a := by
  obtain ⟨m, hb⟩ := getDictionary_ok ho hd
  obtain ⟨r, hr, hrs⟩ := h2
  obtain ⟨l, hl, hls, hlk⟩ := contained_iff ho hd hs hr hrs
  obtain ⟨fs1, sdb1, e1, k1, w1⟩ := h'.removeAll hf.text hf.ieml
  have g1 := h.keep (removeStructure_keeps e1)
  have hmt : memText s (d.base.tables.roots.map (·.1)) = true := by
    rw [memText_iff, hb.roots_map]
    exact ⟨r, hr, hrs⟩
  have hset : ∀ k, ∀ a ∈ structureKeys, settingValues (allSettings sdb1) k a =
      if k = s.str then [] else settingValues (allSettings sdb) k a := by
    intro k a ha
    rw [w1]
    by_cases hk : k = s.str
    · rw [if_pos hk, if_pos (hk ▸ hf.ieml)]
    · rw [if_neg hk]
      split
      · rename_i hp
        have := hf.salone k a ha hp hk
        rw [h'.values (getDictionary_settings hd h') ha] at this
        injection this with this
        exact this.symm
      · rfl
  cases b with
  | false =>
    refine ⟨fs1, db, sdb1, ?_, g1, k1, fun k l hl a ha => by simp, hset⟩
    unfold deleteRoot
    simp only [hd, h.getDescriptors, checkScript_ok.2 h1, hmt, h.readTranslations, e1, bind, Except.bind, Bool.not_true,
      Bool.false_eq_true, if_false]
    rfl
  | true =>
    obtain ⟨fs2, db2, e2, g2, kp, v2⟩ := g1.removeScripts l fun t ht => by
      obtain ⟨u, hu, hut, hw⟩ := (hlk t.str).1 (List.mem_map_of_mem ht)
      obtain ⟨p, q, hft⟩ := hall rfl u hu hw
      exact hut ▸ hft.lone h
    refine ⟨fs2, db2, sdb1, ?_, g2, k1.keep kp, fun k l' hl' a ha => ?_, hset⟩
    · unfold deleteRoot
      simp only [hd, h.getDescriptors, checkScript_ok.2 h1, hmt, h.readTranslations, e1, bind, Except.bind, Bool.not_true,
        Bool.false_eq_true, if_false, if_true, hl, e2]
    · rw [v2 k l' hl' a ha]
      by_cases hk : k ∈ l.map str
      · rw [if_pos hk, if_pos ⟨rfl, (hlk k).1 hk⟩]
      · rw [if_neg hk, if_neg fun hc => hk ((hlk k).2 hc.2)]

theorem Filed.of_str {s t : Script} {p q : Str} (h : Filed x fs s p q) (e : s.str = t.str) : Filed x fs t p q := by
  obtain ⟨h1, h2, h3, h4, h5⟩ := h
  rw [e] at h1 h2 h3 h4 h5
  exact ⟨h1, h2, h3, h4, h5⟩

theorem dictFs_all (hd : getDictionary plainOrder dictFs = .ok d) : ∀ t ∈ d.base.scripts, ∃ p q, Filed dictExt dictFs t p q := by
  intro t ht
  have hm : t.str ∈ _ := List.mem_map_of_mem (f := str) ht
  rw [dictFs_scripts hd] at hm
  have hs : ∃ s ∈ [.prim .U, .prim .A, .prim .S, .prim .B, .prim .T, scO, scSB, scM], Script.str s = t.str := by
    have e : [c!"U:", c!"A:", c!"S:", c!"B:", c!"T:", c!"O:", c!"S:+B:", c!"M:"] =
        [.prim .U, .prim .A, .prim .S, .prim .B, .prim .T, scO, scSB, scM].map Script.str := by decide +kernel
    rw [e] at hm
    exact List.mem_map.1 hm
  obtain ⟨s, hs, e⟩ := hs
  have : ∃ p q, Filed dictExt dictFs s p q := by
    simp only [List.mem_cons, List.not_mem_nil, or_false] at hs
    rcases hs with rfl | rfl | rfl | rfl | rfl | rfl | rfl | rfl <;>
      exact ⟨_, _, dictFs_filed (by decide +kernel) rfl rfl (by decide +kernel) (by decide +kernel)⟩
  obtain ⟨p, q, h⟩ := this
  exact ⟨p, q, h.of_str e⟩

/-- **C72**: a root can be deleted as a root exactly when it is its own factorisation and a root of the dictionary. -/
theorem C72_root_accepts (ho : o.Valid) {s : Script} (hbs : Built s) {b : Bool} {p q : Str} (hc : Consistent x fs)
    (hsc : SConsistent x fs) (hd : getDictionary o fs = .ok d) (hf : Filed x fs s p q)
    (hall : b = true → ∀ t ∈ d.base.scripts, Within t s → ∃ p q, Filed x fs t p q) :
    (∃ fs', deleteRoot o ord x fs s b = .ok fs') ↔ Factored ord s ∧ ∃ r ∈ d.roots, r.str = s.str := by
  constructor
  · rintro ⟨fs', h⟩
    exact deleteRoot_inv ho hd h
  · rintro ⟨h1, h2⟩
    obtain ⟨db, h⟩ := hc
    obtain ⟨sdb, h'⟩ := hsc
    obtain ⟨fs', _, _, e, _⟩ := deleteRoot_run ho (built_wf hbs) hd h h' hf hall h1 h2
    exact ⟨fs', e⟩

/-- **C72**: after the deletion of a root, the scripts of the dictionary within it have no descriptor (unless the descriptors are to
be kept), and all the other descriptors are unchanged.  When another key has a setting, the root has no setting, and the settings
of the other keys are unchanged. -/
theorem C72_root_deleted_partial (ho : o.Valid) {s : Script} (hbs : Built s) {b : Bool} {p q : Str} (hc : Consistent x fs)
    (hsc : SConsistent x fs) (hd : getDictionary o fs = .ok d) (hf : Filed x fs s p q)
    (hall : b = true → ∀ t ∈ d.base.scripts, Within t s → ∃ p q, Filed x fs t p q) (h : deleteRoot o ord x fs s b = .ok fs') :
    Consistent x fs' ∧ SConsistent x fs' ∧
    (∀ l ∈ languages, ∀ a ∈ descriptorClasses, (b = true → ∀ t ∈ d.base.scripts, Within t s → getValues fs' t.str l a = .ok []) ∧
      ∀ k, (b = true → ∀ t ∈ d.base.scripts, Within t s → t.str ≠ k) → getValues fs' k l a = getValues fs k l a) ∧
    ((∃ k a v vs, k ≠ s.str ∧ a ∈ structureKeys ∧ structureValues fs k a = .ok (v :: vs)) →
      ∀ a ∈ structureKeys, structureValues fs' s.str a = .ok [] ∧
        ∀ k, k ≠ s.str → structureValues fs' k a = structureValues fs k a) := by
  obtain ⟨h1, h2⟩ := deleteRoot_inv ho hd h
  obtain ⟨db, g⟩ := hc
  obtain ⟨sdb, g'⟩ := hsc
  obtain ⟨fs2, db2, sdb2, e, k, k', v, w⟩ := deleteRoot_run ho (built_wf hbs) hd g g' hf hall h1 h2
  rw [h] at e
  injection e with e
  subst e
  have hne := getDictionary_settings hd g'
  refine ⟨⟨db2, k⟩, ⟨sdb2, k'⟩, fun l hl a ha => ⟨fun hb t ht hw => ?_, fun t ht => ?_⟩, ?_⟩
  · rw [k.getValues hl ha, v _ l hl a ha, if_pos ⟨hb, t, ht, rfl, hw⟩]
  · rw [k.getValues hl ha, g.getValues hl ha, v _ l hl a ha, if_neg]
    rintro ⟨hb, u, hu, hut, hw⟩
    exact ht hb u hu hw hut
  · rintro ⟨k0, a0, v0, vs0, hk0, ha0, hv0⟩ a ha
    have hne2 : allSettings sdb2 ≠ [] := by
      intro h0
      have := w k0 a0 ha0
      rw [g'.values hne ha0] at hv0
      injection hv0 with hv0
      rw [h0, if_neg hk0, hv0] at this
      cases this
    refine ⟨?_, fun t ht => ?_⟩
    · rw [k'.values hne2 ha, w _ a ha, if_pos rfl]
    · rw [k'.values hne2 ha, g'.values hne ha, w _ a ha, if_neg ht]

theorem scM_deleted : ∃ fs', deleteRoot plainOrder (dedupBy str) dictExt dictFs scM true = .ok fs' := ok_of_isOk (by decide +kernel)

/-- The root `M:` of the example is deleted with the descriptors of `S:+B:`; those of `O:` remain. -/
example : ∃ fs', deleteRoot plainOrder (dedupBy str) dictExt dictFs scM true = .ok fs' ∧
    getValues fs' (c!"S:+B:") (c!"fr") (c!"tags") = .ok [] ∧
    getValues fs' (c!"O:") (c!"fr") (c!"translations") = .ok [c!"virtuel actuel"] := by
  have hb : Built scM := built_of (by decide +kernel)
  obtain ⟨d, hd, _⟩ := dictFs_dict
  obtain ⟨fs', h⟩ := scM_deleted
  obtain ⟨_, _, h1, _⟩ := C72_root_deleted_partial plainOrder_valid hb dictFs_consistent dictFs_sconsistent hd scM_filed
    (fun _ t ht _ => dictFs_all hd t ht) h
  obtain ⟨l, hl⟩ := getDictionary_base plainOrder_valid hd
  refine ⟨fs', h, ?_, ?_⟩
  · have hm : (c!"S:+B:" : Str) ∈ d.base.scripts.map str := by rw [dictFs_scripts hd]; decide
    obtain ⟨t, ht, e⟩ := List.mem_map.1 hm
    rw [← e]
    refine (h1 (c!"fr") (by decide) (c!"tags") (by decide)).1 rfl t ht ?_
    have h2 : Within scSB scM := (contains_iff (built_wf hb) (built_wf (built_of (by decide +kernel)))).1 (by decide +kernel)
    have h3 : Within t scSB :=
      within_of_str (hl.script_wf ht) (built_wf (built_of (by decide +kernel))) (e.trans (by decide +kernel))
    exact ⟨h3.1.trans h2.1, fun w hw => h2.2 w (h3.2 w hw)⟩
  · rw [(h1 (c!"fr") (by decide) (c!"translations") (by decide)).2 (c!"O:") fun _ t ht hw e => ?_]
    · decide +kernel
    · have h3 : Within scO t := within_of_str (built_wf (built_of (by decide +kernel))) (hl.script_wf ht)
        ((show scO.str = c!"O:" by decide +kernel).trans e.symm)
      have h3 : Within scO scM := ⟨h3.1.trans hw.1, fun w hw' => hw.2 w (h3.2 w hw')⟩
      have h4 := (contains_iff (built_wf hb) (built_wf (built_of (by decide +kernel)))).2 h3
      revert h4
      decide +kernel

/-- What **C72** claims of the deletion of a paradigm: roots are refused. -/
def RefusesRoots : Prop :=
  ∀ (o : SetOrder) (ord : List Script → List Script) (x : Ext) (fs fs' : FS) (d : Dictionary) (s r : Script), o.Valid → FactorOrder ord →
    Consistent x fs → SConsistent x fs → getDictionary o fs = .ok d → Built s → r ∈ d.roots → r.str = s.str →
    deleteParadigm o ord x fs s ≠ .ok fs'

/-- **C72** is violated: a root is deleted as a paradigm, and its paradigms remain without root. -/
theorem C72_violated_root : ¬ RefusesRoots := by
  intro h
  obtain ⟨d, hd, _⟩ := dictFs_dict
  have hm : (c!"M:" : Str) ∈ d.roots.map str := by rw [dictFs_roots hd]; decide
  obtain ⟨r, hr, e⟩ := List.mem_map.1 hm
  obtain ⟨fs', h1⟩ : ∃ fs', deleteParadigm plainOrder (dedupBy str) dictExt dictFs scM = .ok fs' := ok_of_isOk (by decide +kernel)
  exact h plainOrder (dedupBy str) dictExt dictFs fs' d scM r plainOrder_valid factorOrder_insertion dictFs_consistent dictFs_sconsistent
    hd (built_of (by decide +kernel)) hr (e.trans (by decide +kernel)) h1

/-- What **C72** claims of the database: after a deletion the dictionary can be read. -/
def ReadableAfterDeletion : Prop :=
  ∀ (o : SetOrder) (ord : List Script → List Script) (x : Ext) (fs fs' : FS) (d : Dictionary) (s : Script) (b : Bool), o.Valid →
    FactorOrder ord → Consistent x fs → SConsistent x fs → getDictionary o fs = .ok d → Built s →
    deleteRoot o ord x fs s b = .ok fs' → ∃ d', getDictionary o fs' = .ok d'

/-- A dictionary with one root. -/
def oneRootFs : FS :=
  [(c!"morpheme/paradigm/O:.desc", c!"\"O:\" fr translations \"virtuel actuel\"\n"),
   (c!"morpheme/paradigm/O:.ieml", c!"\"O:\" is_root \"True\"\n")]

theorem oneRootFs_consistent : Consistent dictExt oneRootFs := by
  refine ⟨[(c!"morpheme/paradigm/O:.desc", [⟨c!"O:", c!"fr", c!"translations", c!"virtuel actuel"⟩])], by decide +kernel,
    by decide +kernel, ?_, by decide +kernel⟩
  intro f hf e he
  simp only [List.mem_cons, List.not_mem_nil, or_false] at hf
  subst hf
  simp only [List.mem_cons, List.not_mem_nil, or_false] at he
  subst he
  constructor <;> decide

theorem oneRootFs_sconsistent : SConsistent dictExt oneRootFs := by
  refine ⟨[(c!"morpheme/paradigm/O:.ieml", [⟨c!"O:", c!"is_root", c!"True"⟩])], by decide +kernel, by decide +kernel, ?_,
    by decide +kernel⟩
  intro f hf e he
  simp only [List.mem_cons, List.not_mem_nil, or_false] at hf
  subst hf
  simp only [List.mem_cons, List.not_mem_nil, or_false] at he
  subst he
  constructor <;> decide

/-- **C72** is violated: when the last root is deleted, `get_dictionary` raises `ValueError` (`pandas` refuses an empty structure). -/
theorem C72_violated_last : ¬ ReadableAfterDeletion := by
  intro h
  obtain ⟨d, hd⟩ : ∃ d, getDictionary plainOrder oneRootFs = .ok d := ok_of_isOk (by decide +kernel)
  have h2 : ((deleteRoot plainOrder (dedupBy str) dictExt oneRootFs scO true).bind fun fs' =>
      .ok (getDictionary plainOrder fs').isOk) = .ok false := by decide +kernel
  cases h1 : deleteRoot plainOrder (dedupBy str) dictExt oneRootFs scO true with
  | error e => rw [h1] at h2; cases h2
  | ok fs' =>
    rw [h1] at h2
    obtain ⟨d', h3⟩ := h plainOrder (dedupBy str) dictExt oneRootFs fs' d scO true plainOrder_valid factorOrder_insertion
      oneRootFs_consistent oneRootFs_sconsistent hd (built_of (by decide +kernel)) h1
    injection h2 with h2
    rw [h3] at h2
    cases h2

/-! ### C73: updating -/

/-- The first setting `is_root` of the key says whether it is a root; there may be none. -/
def SaysRoot (fs : FS) (k : Str) (b : Bool) : Prop :=
  ∃ vs, structureValues fs k (c!"is_root") = .ok vs ∧
    (vs = [] ∧ b = false ∨ ∃ c w ws, vs = (c :: w) :: ws ∧ (b = true ↔ c = 't' ∨ c = 'T'))

theorem isRootFlag_iff {k : Str} {b : Bool} : isRootFlag fs k = .ok b ↔ SaysRoot fs k b := by
  unfold isRootFlag SaysRoot
  cases structureValues fs k (c!"is_root") with
  | error e => simp [bind, Except.bind]
  | ok vs =>
    simp only [bind, Except.bind, Except.ok.injEq, exists_eq_left']
    match vs with
    | [] => simp [pure, Except.pure, eq_comm]
    | [] :: ws => simp [isTrueValue]
    | (c :: w) :: ws =>
      simp only [isTrueValue, Except.ok.injEq, reduceCtorEq, false_and, false_or, List.cons.injEq]
      constructor
      · intro h
        exact ⟨c, w, ws, ⟨⟨rfl, rfl⟩, rfl⟩, by rw [← h]; simp⟩
      · rintro ⟨c', w', ws', ⟨⟨rfl, rfl⟩, rfl⟩, h⟩
        cases b <;> simp_all

theorem updateParadigm_inv {old new : Script} (hd : getDictionary o fs = .ok d) (hne : old.str ≠ new.str)
    (h : updateParadigm o ord x fs old new = .ok fs') :
    Factored ord old ∧ Factored ord new ∧ ¬ (old.cardinal = 1 ∧ new.cardinal = 1) ∧ d.Lists old ∧ ¬ d.Lists new ∧
      ∃ b c, isRootFlag fs old.str = .ok b ∧ rootCandidates d.base.tables new = .ok [c] ∧ (b = true → contains new old = .ok true) := by
  unfold updateParadigm at h
  obtain ⟨_, h1, h⟩ := bind_ok.1 h
  obtain ⟨_, h2, h⟩ := bind_ok.1 h
  dsimp only at h
  have hpe : old.pyEq new = false := by simpa [pyEq] using hne
  rw [hpe] at h
  simp only [Bool.false_eq_true, if_false, hd] at h
  split at h
  · cases h
  rename_i h3
  obtain ⟨_, hd', h⟩ := bind_ok.1 h
  injection hd' with hd'
  subst hd'
  obtain ⟨g, _, h⟩ := bind_ok.1 h
  split at h
  · cases h
  rename_i h4
  split at h
  · cases h
  rename_i h5
  obtain ⟨b, h6, h⟩ := bind_ok.1 h
  obtain ⟨cs, h7, h⟩ := bind_ok.1 h
  refine ⟨checkScript_unit h1, checkScript_unit h2, by simpa using h3, ?_, fun hl => h5 (memText_iff.2 hl), b, ?_⟩
  · rw [Bool.not_eq_true, Bool.not_eq_false'] at h4
    exact memText_iff.1 h4
  · split at h
    · rename_i c
      refine ⟨c, h6, h7, fun hb => ?_⟩
      subst hb
      obtain ⟨_, _, h⟩ := bind_ok.1 h
      rw [if_pos rfl] at h
      obtain ⟨r, h8, h⟩ := bind_ok.1 h
      cases r with
      | true => exact h8
      | false => cases h
    · cases h

/-- **C73**: a root that is updated keeps its words. -/
theorem C73_root {old new r : Script} (ho : o.Valid) (hbo : Built old) (hbn : Built new) (hd : getDictionary o fs = .ok d)
    (hr : r ∈ d.roots) (hro : r.str = old.str) (hs : SaysRoot fs old.str true) (h : updateParadigm o ord x fs old new = .ok fs') :
    SameMeaning old new := by
  have hwo := built_wf hbo
  have hwn := built_wf hbn
  by_cases hne : old.str = new.str
  · exact ⟨layer_of_str hwo hwn hne, den_of_str hwo hwn hne⟩
  obtain ⟨l, hb⟩ := getDictionary_base ho hd
  obtain ⟨_, _, _, _, _, b, c, h1, h2, h3⟩ := updateParadigm_inv hd hne h
  rw [isRootFlag_iff.2 hs] at h1
  injection h1 with h1
  have hon := (contains_iff hwn hwo).1 (h3 h1.symm)
  have hrw := hb.rootWf r hr
  obtain ⟨w, hw⟩ := den_exists hwo
  have hrd := den_of_str hrw hwo hro
  cases c with
  | none => exact absurd ⟨hon.2 w hw, (hrd w).2 hw⟩ ((hb.candidates_none hwn).1 h2 r hr w)
  | some r' =>
    obtain ⟨hr', hn⟩ := (hb.candidates_some hwn).1 h2
    have := hb.root_unique hr' hr (hn.2 w (hon.2 w hw)) ((hrd w).2 hw)
    subst this
    exact ⟨hon.1, fun u => ⟨fun hu => hon.2 u hu, fun hu => (hrd u).1 (hn.2 u hu)⟩⟩

/-- **C73** is violated for every root: it cannot be updated to a bigger version of it. -/
theorem C73_never {old new r : Script} (ho : o.Valid) (hbo : Built old) (hbn : Built new) (hd : getDictionary o fs = .ok d)
    (hr : r ∈ d.roots) (hro : r.str = old.str) (hs : SaysRoot fs old.str true) {w : Word} (hw : Den new w) (hwo : ¬ Den old w) :
    ∃ e, updateParadigm o ord x fs old new = .error e := by
  cases h : updateParadigm o ord x fs old new with
  | error e => exact ⟨e, rfl⟩
  | ok fs' => exact absurd (((C73_root ho hbo hbn hd hr hro hs h).2 w).2 hw) hwo

/-- **C73** is violated for every root: without the empty word, it cannot be updated to any other script. -/
theorem C73_root_never {old new r : Script} (ho : o.Valid) (hord : FactorOrder ord) (hbo : Built old) (po : NotOneTermSum old)
    (hbn : Built new) (pn : NotOneTermSum new) (hd : getDictionary o fs = .ok d) (hr : r ∈ d.roots) (hro : r.str = old.str)
    (hs : SaysRoot fs old.str true) (hw : ∀ w, Den old w → w ≠ List.replicate (3 ^ old.layer) none) (hne : old.str ≠ new.str) :
    ∃ e, updateParadigm o ord x fs old new = .error e := by
  cases h : updateParadigm o ord x fs old new with
  | error e => exact ⟨e, rfl⟩
  | ok fs' =>
    obtain ⟨⟨s', f, es⟩, ⟨t', g, et⟩, _⟩ := updateParadigm_inv hd hne h
    exact absurd (C74_unique_partial hord hbo po hbn pn (C73_root ho hbo hbn hd hr hro hs h) hw f es g et) hne

theorem saysRoot_M : SaysRoot dictFs scM.str true := isRootFlag_iff.1 (by decide +kernel)

/-- The root `M:` of the example cannot be extended to `F:`. -/
example : ∃ e, updateParadigm plainOrder (dedupBy str) dictExt dictFs scM
    (.add [.prim .U, .prim .A, .prim .S, .prim .B, .prim .T]) = .error e := by
  obtain ⟨d, hd, _⟩ := dictFs_dict
  have hm : (c!"M:" : Str) ∈ d.roots.map str := by rw [dictFs_roots hd]; decide
  obtain ⟨r, hr, e⟩ := List.mem_map.1 hm
  exact C73_never plainOrder_valid (built_of (by decide +kernel)) (built_of (by decide +kernel)) hd hr (e.trans (by decide +kernel))
    saysRoot_M (w := [some .U]) (.add (.head _) (.prim _)) (by
      rintro (_ | _ | _ | ⟨hc, h⟩)
      revert hc h
      simp only [List.mem_cons, List.not_mem_nil, or_false]
      rintro (rfl | rfl | rfl) ⟨⟩)

/-- The root `M:` of the example cannot be updated at all. -/
example {new : Script} (hbn : Built new) (pn : NotOneTermSum new) (hne : scM.str ≠ new.str) :
    ∃ e, updateParadigm plainOrder (dedupBy str) dictExt dictFs scM new = .error e := by
  obtain ⟨d, hd, _⟩ := dictFs_dict
  have hm : (c!"M:" : Str) ∈ d.roots.map str := by rw [dictFs_roots hd]; decide
  obtain ⟨r, hr, e⟩ := List.mem_map.1 hm
  obtain ⟨L, h1, _, p⟩ := enum_example (s := scM) (by decide +kernel)
  have hb : Built scM := built_of (by decide +kernel)
  exact C73_root_never plainOrder_valid factorOrder_insertion hb (by simp [NotOneTermSum, scM]) hbn pn hd hr
    (e.trans (by decide +kernel)) saysRoot_M (nonempty_words (built_wf hb) h1 p) hne

theorem Holds.addGroups {k p : Str} (vals : Str → Str → List Str) (hkt : keyText x k = .ok k) (hp : pathOf x k true true = .ok p)
    (hk : OneLine k) : ∀ (ks : List (Str × Str)) {fs : FS} {db : List (Str × List Entry)}, Holds x fs db → ks.Nodup →
    (∀ g ∈ ks, g.1 ∈ languages ∧ g.2 ∈ descriptorClasses ∧ ∀ v ∈ vals g.1 g.2, OneLine (strip v)) →
    ∃ fs' db', ks.foldlM (fun fs g => (vals g.1 g.2).foldlM
        (fun fs v => Verif.addDescriptor x fs (some k) (some g.1) (some g.2) v) fs) fs = .ok fs' ∧ Holds x fs' db' ∧
      Keeps (c!".ieml") fs fs' ∧
      ∀ k' l a, storedValues (allEntries db') k' l a =
        if k' = k ∧ (l, a) ∈ ks then storedValues (allEntries db) k l a ++ cleaned (vals l a)
        else storedValues (allEntries db) k' l a
  | [], fs, db, h, _, _ => ⟨fs, db, rfl, h, .refl _ _, fun k' l a => by simp⟩
  | (l, a) :: ks, fs, db, h, hn, hv => by
    rw [List.nodup_cons] at hn
    obtain ⟨h1, h2, h3⟩ := hv (l, a) (by simp)
    obtain ⟨fs1, db1, e1, g1, v1⟩ := Holds.addAll hkt hp hk h1 h2 (vals l a) fs db h h3
    have kp : Keeps (c!".ieml") fs fs1 := Keeps.fold (fun _ _ _ h => addDescriptor_keeps h) e1
    obtain ⟨fs2, db2, e2, g2, kp2, v2⟩ := Holds.addGroups vals hkt hp hk ks g1 hn.2 fun g hg => hv g (by simp [hg])
    refine ⟨fs2, db2, ?_, g2, kp.trans kp2, fun k' l' a' => ?_⟩
    · rw [List.foldlM_cons, e1]
      exact e2
    · rw [v2]
      by_cases hk' : k' = k
      · subst hk'
        by_cases hm : (l', a') ∈ ks
        · have hne : ¬ (l' = l ∧ a' = a) := fun e => hn.1 (e.1 ▸ e.2 ▸ hm)
          rw [if_pos ⟨rfl, hm⟩, if_pos ⟨rfl, by simp [hm]⟩, v1, if_neg fun e => hne ⟨e.2.1, e.2.2⟩]
        · rw [if_neg fun e => hm e.2, v1]
          by_cases hla : l' = l ∧ a' = a
          · obtain ⟨rfl, rfl⟩ := hla
            simp
          · rw [if_neg fun e => hla ⟨e.2.1, e.2.2⟩, if_neg]
            rintro ⟨_, he⟩
            rcases List.mem_cons.1 he with he | he
            · exact hla (by simpa using he)
            · exact hm he
      · rw [if_neg fun e => hk' e.1, v1, if_neg fun e => hk' e.1, if_neg fun e => hk' e.1]

/-- What the groups of descriptors of a key are. -/
theorem Holds.groups {db : List (Str × List Entry)} (h : Holds x fs db) (k : Str) : ∃ ks : List (Str × Str),
    descriptorGroups fs k = .ok (ks.map fun g => (g.1, g.2, storedValues (allEntries db) k g.1 g.2)) ∧ ks.Nodup ∧
      ∀ l a, (l, a) ∈ ks ↔ storedValues (allEntries db) k l a ≠ [] := by
  unfold descriptorGroups
  rw [h.getDescriptors]
  simp only [bind, Except.bind, pure, Except.pure]
  generalize hks : pySort _ _ = ks
  refine ⟨ks, ?_, ?_, fun l a => ?_⟩ <;> subst hks
  · refine congrArg _ (List.map_congr_left fun g _ => ?_)
    congr 2
    unfold storedValues
    simp only [List.filter_map, List.map_map, List.filter_filter]
    congr 1
    apply List.filter_congr
    intro e _
    simpa using Bool.and_comm _ _
  · refine ((pySort_perm _ _).nodup_iff).2 ?_
    exact (dedupBy_pairwise (key := id) _).imp fun h => h
  · rw [mem_pySort]
    constructor
    · intro hm
      have hm := mem_dedupBy id hm
      obtain ⟨r, hr, e⟩ := List.mem_map.1 hm
      obtain ⟨hr, hk⟩ := List.mem_filter.1 hr
      obtain ⟨f, hf, rfl⟩ := List.mem_map.1 hr
      simp only [Prod.mk.injEq] at e
      obtain ⟨rfl, rfl⟩ := e
      intro hn
      unfold storedValues at hn
      rw [List.map_eq_nil_iff, List.filter_eq_nil_iff] at hn
      exact hn f hf (by simpa using hk)
    · intro hn
      unfold storedValues at hn
      have : ∃ f ∈ allEntries db, f.key = k ∧ f.lang = l ∧ f.desc = a := by
        by_contra hc
        apply hn
        rw [List.map_eq_nil_iff, List.filter_eq_nil_iff]
        intro e he hp
        exact hc ⟨e, he, by simpa using hp⟩
      obtain ⟨f, hf, rfl, rfl, rfl⟩ := this
      have hm : (f.lang, f.desc) ∈ ((List.map (fun e : Entry => (e.key, e.lang, e.desc, e.value)) (allEntries db)).filter
          fun r => decide (r.1 = f.key)).map fun r => (r.2.1, r.2.2.1) :=
        List.mem_map.2 ⟨(f.key, f.lang, f.desc, f.value), List.mem_filter.2 ⟨List.mem_map_of_mem hf, by simp⟩, rfl⟩
      obtain ⟨y, hy, e⟩ := dedupBy_complete (key := id) hm
      have e : y = (f.lang, f.desc) := e
      exact e ▸ hy

theorem updateParadigm_run {old new : Script} (hwn : WF new) (hd : getDictionary o fs = .ok d)
    {db : List (Str × List Entry)} {sdb : List (Str × List Setting)} (h : Holds x fs db) (h' : SHolds x fs sdb) {p q p' q' : Str}
    (hfo : Filed x fs old p q) (hfn : Filed x fs new p' q') (hne : old.str ≠ new.str)
    (h1 : Factored ord old) (h2 : Factored ord new) (h3 : ¬ (old.cardinal = 1 ∧ new.cardinal = 1)) (h4 : d.Lists old) (h5 : ¬ d.Lists new)
    (h6 : isRootFlag fs old.str = .ok false) {c : Option Script} (h7 : rootCandidates d.base.tables new = .ok [c])
    (hlines : ∀ l ∈ languages, ∀ a ∈ descriptorClasses, ∀ v ∈ storedValues (allEntries db) old.str l a, OneLine (strip v)) :
    ∃ fs' db' sdb', updateParadigm o ord x fs old new = .ok fs' ∧ Holds x fs' db' ∧ SHolds x fs' sdb' ∧
      (∀ k, ∀ l ∈ languages, ∀ a ∈ descriptorClasses, storedValues (allEntries db') k l a =
        if k = old.str then [] else if k = new.str then storedValues (allEntries db) new.str l a ++ cleaned (storedValues (allEntries db) old.str l a)
        else storedValues (allEntries db) k l a) ∧
      ∀ k, ∀ a ∈ structureKeys, settingValues (allSettings sdb') k a =
        if k = old.str then [] else if k = new.str ∧ a = c!"is_root" then settingValues (allSettings sdb) new.str a ++ [c!"False"]
        else settingValues (allSettings sdb) k a := by
  obtain ⟨ks, hg, hks, hmem⟩ := h.groups old.str
  obtain ⟨fs1, sdb1, e1, k1, w1⟩ := h'.removeAll hfo.text hfo.ieml
  have g1 := h.keep (removeStructure_keeps e1)
  obtain ⟨fs2, sdb2, e2, k2, w2⟩ := k1.addNotRoot hfn.text hfn.ieml (str_line hwn)
  have g2 := g1.keep (addStructure_keeps e2)
  obtain ⟨fs3, db3, e3, g3, -, -, v3⟩ := g2.removeDescriptor_all hfo.text hfo.desc
  have k3 := k2.keep (removeDescriptor_keeps e3)
  have hin : ∀ g ∈ ks, g.1 ∈ languages ∧ g.2 ∈ descriptorClasses := by
    rintro ⟨l, a⟩ hg
    have hn := (hmem l a).1 hg
    unfold storedValues at hn
    have : ∃ f ∈ allEntries db, f.lang = l ∧ f.desc = a := by
      by_contra hc
      apply hn
      rw [List.map_eq_nil_iff, List.filter_eq_nil_iff]
      intro e he hp
      have hp : e.key = old.str ∧ e.lang = l ∧ e.desc = a := by simpa using hp
      exact hc ⟨e, he, hp.2⟩
    obtain ⟨f, hf, rfl, rfl⟩ := this
    obtain ⟨F, hF, hfF⟩ := List.mem_flatMap.1 hf
    exact ⟨(h.fits F hF f hfF).lang, (h.fits F hF f hfF).desc⟩
  obtain ⟨fs4, db4, e4, g4, kp4, v4⟩ := g3.addGroups (fun l a => storedValues (allEntries db) old.str l a) hfn.text hfn.desc
    (str_line hwn).1 ks hks fun g hg => ⟨(hin g hg).1, (hin g hg).2, fun v hv => hlines _ (hin g hg).1 _ (hin g hg).2 v hv⟩
  have hst : ∃ gs, structureGroups fs old.str = .ok gs := by
    unfold structureGroups
    rw [h'.getStructure (getDictionary_settings hd h')]
    exact ⟨_, rfl⟩
  obtain ⟨gs, hgs⟩ := hst
  have hpe : old.pyEq new = false := by simpa [pyEq] using hne
  have hcc : (decide (old.cardinal = 1) && decide (new.cardinal = 1)) = false := by
    rw [Bool.eq_false_iff]
    intro hc
    exact h3 (by simpa using hc)
  have hmo : memText old d.base.scripts = true := memText_iff.2 h4
  have hmn : memText new d.base.scripts = false := by
    rw [Bool.eq_false_iff]
    exact fun hc => h5 (memText_iff.1 hc)
  have hmove : moveStructure x fs false old.str new.str gs = .ok fs2 := by
    unfold moveStructure
    simp only [e1, bind, Except.bind, Bool.false_eq_true, if_false, e2]
  have hdesc : moveDescriptors x fs2 false old.str new.str (ks.map fun g => (g.1, g.2, storedValues (allEntries db) old.str g.1 g.2)) = .ok fs4 := by
    unfold moveDescriptors
    simp only [e3, bind, Except.bind]
    rw [List.foldlM_map]
    rw [← e4]
    congr 1
    funext f g
    congr 1
    funext f v
    cases Verif.addDescriptor x f (some new.str) (some g.1) (some g.2) v with
    | error e => rfl
    | ok f' => rfl
  refine ⟨fs4, db4, sdb2, ?_, g4, k3.keep kp4, fun k l hl a ha => ?_, fun k a ha => ?_⟩
  · unfold updateParadigm
    simp only [checkScript_ok.2 h1, checkScript_ok.2 h2, bind, Except.bind, hpe, hcc, hd, hg, hmo, hmn, h6, h7, h.readTranslations,
      Bool.not_true, Bool.false_eq_true, if_false, hgs, hmove, hdesc]
  · have hold : ∀ k, k ≠ old.str → storedValues (allEntries db3) k l a = storedValues (allEntries db) k l a := by
      intro k hk
      rw [v3]
      split
      · rename_i hp
        have := hfo.alone k l a hl ha hp hk
        rw [h.getValues hl ha] at this
        injection this with this
        exact this.symm
      · rfl
    rw [v4]
    by_cases hk : k = old.str
    · have : k ≠ new.str := fun e => hne (hk ▸ e)
      rw [if_pos hk, if_neg fun e => this e.1, v3, if_pos (hk ▸ hfo.desc)]
    · rw [if_neg hk]
      by_cases hk' : k = new.str
      · subst hk'
        rw [if_pos rfl]
        by_cases hm : (l, a) ∈ ks
        · rw [if_pos ⟨rfl, hm⟩, hold _ hk]
        · have : storedValues (allEntries db) old.str l a = [] := by
            by_contra hc
            exact hm ((hmem l a).2 hc)
          rw [if_neg fun e => hm e.2, hold _ hk, this]
          simp [cleaned]
      · rw [if_neg fun e => hk' e.1, if_neg hk', hold _ hk]
  · have hold : ∀ k, k ≠ old.str → settingValues (allSettings sdb1) k a = settingValues (allSettings sdb) k a := by
      intro k hk
      rw [w1]
      split
      · rename_i hp
        have := hfo.salone k a ha hp hk
        rw [h'.values (getDictionary_settings hd h') ha] at this
        injection this with this
        exact this.symm
      · rfl
    rw [w2]
    by_cases hk : k = old.str
    · have : k ≠ new.str := fun e => hne (hk ▸ e)
      rw [if_pos hk, if_neg fun e => this e.1, w1, if_pos (hk ▸ hfo.ieml)]
    · rw [if_neg hk]
      by_cases hk' : k = new.str ∧ a = c!"is_root"
      · obtain ⟨rfl, rfl⟩ := hk'
        rw [if_pos ⟨rfl, rfl⟩, if_pos ⟨rfl, rfl⟩, hold _ hk]
      · rw [if_neg hk', if_neg hk', hold _ hk]

/-- **C73**: a paradigm that is not a root is accepted for update exactly when both are their own factorisations, not both are
singular, the old one is in the dictionary and the new one is not, and the new one lies within a root or has no word in
common with any root. -/
theorem C73_accepts (ho : o.Valid) {old new : Script} (hbo : Built old) (hbn : Built new) (hc : Consistent x fs) (hsc : SConsistent x fs)
    (hd : getDictionary o fs = .ok d) {p q p' q' : Str} (hfo : Filed x fs old p q) (hfn : Filed x fs new p' q') (hne : old.str ≠ new.str)
    (hr : SaysRoot fs old.str false)
    (hlines : ∀ l ∈ languages, ∀ a ∈ descriptorClasses, ∀ vs, getValues fs old.str l a = .ok vs → ∀ v ∈ vs, OneLine (strip v)) :
    (∃ fs', updateParadigm o ord x fs old new = .ok fs') ↔
      Factored ord old ∧ Factored ord new ∧ ¬ (Singular old ∧ Singular new) ∧ d.Lists old ∧ ¬ d.Lists new ∧
        ((∃ r ∈ d.roots, Within new r) ∨ ∀ r ∈ d.roots, Apart new r) := by
  have hwo := built_wf hbo
  have hwn := built_wf hbn
  obtain ⟨l, hb⟩ := getDictionary_base ho hd
  rw [singular_iff hwo, singular_iff hwn]
  have hcand : (∃ c, rootCandidates d.base.tables new = .ok [c]) ↔ (∃ r ∈ d.roots, Within new r) ∨ ∀ r ∈ d.roots, Apart new r := by
    constructor
    · rintro ⟨_ | r, h⟩
      · exact .inr ((hb.candidates_none hwn).1 h)
      · exact .inl ⟨r, (hb.candidates_some hwn).1 h⟩
    · rintro (⟨r, h⟩ | h)
      · exact ⟨_, (hb.candidates_some hwn).2 h⟩
      · exact ⟨_, (hb.candidates_none hwn).2 h⟩
  rw [← hcand]
  constructor
  · rintro ⟨fs', h⟩
    obtain ⟨h1, h2, h3, h4, h5, b, c, _, h7, _⟩ := updateParadigm_inv hd hne h
    exact ⟨h1, h2, h3, h4, h5, c, h7⟩
  · rintro ⟨h1, h2, h3, h4, h5, c, h7⟩
    obtain ⟨db, h⟩ := hc
    obtain ⟨sdb, h'⟩ := hsc
    obtain ⟨fs', _, _, e, _⟩ := updateParadigm_run hwn hd h h' hfo hfn hne h1 h2 h3 h4 h5 (isRootFlag_iff.2 hr) h7
      fun l hl a ha v hv => hlines l hl a ha _ (h.getValues hl ha) v hv
    exact ⟨fs', e⟩

/-- **C73**: after the update of a paradigm that is not a root, the old one has no descriptor and no setting; the new one has its
own descriptors followed by those of the old one, and its own settings followed by one that says that it is not a root; the
descriptors and settings of the other keys are unchanged. -/
theorem C73_moved {old new : Script} (hbn : Built new) (hc : Consistent x fs) (hsc : SConsistent x fs)
    {p q p' q' : Str} (hfo : Filed x fs old p q) (hfn : Filed x fs new p' q') (hne : old.str ≠ new.str)
    (hr : SaysRoot fs old.str false)
    (hlines : ∀ l ∈ languages, ∀ a ∈ descriptorClasses, ∀ vs, getValues fs old.str l a = .ok vs → ∀ v ∈ vs, OneLine (strip v))
    (h : updateParadigm o ord x fs old new = .ok fs') :
    Consistent x fs' ∧ SConsistent x fs' ∧
    (∀ l ∈ languages, ∀ a ∈ descriptorClasses, ∃ u v, getValues fs old.str l a = .ok u ∧ getValues fs new.str l a = .ok v ∧
      getValues fs' old.str l a = .ok [] ∧ getValues fs' new.str l a = .ok (v ++ cleaned u) ∧
      ∀ k, k ≠ old.str → k ≠ new.str → getValues fs' k l a = getValues fs k l a) ∧
    ∀ a ∈ structureKeys, ∃ v, structureValues fs new.str a = .ok v ∧ structureValues fs' old.str a = .ok [] ∧
      structureValues fs' new.str a = .ok (v ++ if a = c!"is_root" then [c!"False"] else []) ∧
      ∀ k, k ≠ old.str → k ≠ new.str → structureValues fs' k a = structureValues fs k a := by
  have hwn := built_wf hbn
  have hd : ∃ d, getDictionary o fs = .ok d := by
    unfold updateParadigm at h
    obtain ⟨_, _, h⟩ := bind_ok.1 h
    obtain ⟨_, _, h⟩ := bind_ok.1 h
    dsimp only at h
    have hpe : old.pyEq new = false := by simpa [pyEq] using hne
    rw [hpe] at h
    simp only [Bool.false_eq_true, if_false] at h
    split at h
    · cases h
    obtain ⟨d, hd, _⟩ := bind_ok.1 h
    exact ⟨d, hd⟩
  obtain ⟨d, hd⟩ := hd
  obtain ⟨h1, h2, h3, h4, h5, b, c, h6, h7, _⟩ := updateParadigm_inv hd hne h
  obtain ⟨db, g⟩ := hc
  obtain ⟨sdb, g'⟩ := hsc
  obtain ⟨fs2, db2, sdb2, e, k, k', v, w⟩ := updateParadigm_run hwn hd g g' hfo hfn hne h1 h2 h3 h4 h5 (isRootFlag_iff.2 hr) h7
      fun l hl a ha v hv => hlines l hl a ha _ (g.getValues hl ha) v hv
  rw [h] at e
  injection e with e
  subst e
  have hnn := getDictionary_settings hd g'
  have hne2 : allSettings sdb2 ≠ [] := by
    intro h0
    have := w new.str (c!"is_root") (by decide)
    rw [h0, if_neg hne.symm, if_pos ⟨rfl, rfl⟩] at this
    have := congrArg List.length this
    simp [settingValues] at this
  refine ⟨⟨db2, k⟩, ⟨sdb2, k'⟩, fun l hl a ha => ⟨_, _, g.getValues hl ha, g.getValues hl ha, ?_, ?_, fun t ht ht' => ?_⟩, fun a ha =>
    ⟨_, g'.values hnn ha, ?_, ?_, fun t ht ht' => ?_⟩⟩
  · rw [k.getValues hl ha, v _ l hl a ha, if_pos rfl]
  · rw [k.getValues hl ha, v _ l hl a ha, if_neg hne.symm, if_pos rfl]
  · rw [k.getValues hl ha, g.getValues hl ha, v _ l hl a ha, if_neg ht, if_neg ht']
  · rw [k'.values hne2 ha, w _ a ha, if_pos rfl]
  · rw [k'.values hne2 ha, w _ a ha, if_neg hne.symm]
    by_cases hi : a = c!"is_root"
    · rw [if_pos ⟨rfl, hi⟩, if_pos hi]
    · rw [if_neg fun e => hi e.2, if_neg hi, List.append_nil]
  · rw [k'.values hne2 ha, g'.values hnn ha, w _ a ha, if_neg ht, if_neg fun e => ht' e.1]

theorem saysRoot_SB : SaysRoot dictFs scSB.str false := isRootFlag_iff.1 (by decide +kernel)

theorem scSB_lines : ∀ l ∈ languages, ∀ a ∈ descriptorClasses, ∀ vs, getValues dictFs scSB.str l a = .ok vs → ∀ v ∈ vs, OneLine (strip v) := by
  have h : ∀ l ∈ languages, ∀ a ∈ descriptorClasses, ∀ v ∈ storedValues (allEntries dictDb) scSB.str l a, OneLine (strip v) := by
    decide +kernel
  intro l hl a ha vs h1 v hv
  rw [dictFs_holds.getValues hl ha] at h1
  injection h1 with h1
  exact h l hl a ha v (h1 ▸ hv)

/-- `S:+B:` is updated to `S:+T:` in the example, and the descriptors move. -/
example : ∃ fs', updateParadigm plainOrder (dedupBy str) dictExt dictFs scSB scST = .ok fs' ∧
    getValues fs' scSB.str (c!"fr") (c!"tags") = .ok [] ∧ getValues fs' scST.str (c!"fr") (c!"tags") = .ok [c!"x"] := by
  obtain ⟨fs', h⟩ : ∃ fs', updateParadigm plainOrder (dedupBy str) dictExt dictFs scSB scST = .ok fs' := ok_of_isOk (by decide +kernel)
  obtain ⟨_, _, h1, _⟩ := C73_moved (built_of (by decide +kernel)) dictFs_consistent dictFs_sconsistent scSB_filed scST_filed
    (by decide +kernel) saysRoot_SB scSB_lines h
  obtain ⟨u, v, h2, h3, h4, h5, _⟩ := h1 (c!"fr") (by decide) (c!"tags") (by decide)
  refine ⟨fs', h, h4, ?_⟩
  rw [h5]
  have e2 : getValues dictFs scSB.str (c!"fr") (c!"tags") = .ok [c!"x"] := by decide +kernel
  have e3 : getValues dictFs scST.str (c!"fr") (c!"tags") = .ok [] := by decide +kernel
  rw [← Except.ok.inj (e2.symm.trans h2), ← Except.ok.inj (e3.symm.trans h3)]
  decide +kernel

/-- What **C73** claims: a paradigm is updated only to a paradigm within a root. -/
def UpdatesWithinRoots : Prop :=
  ∀ (o : SetOrder) (ord : List Script → List Script) (x : Ext) (fs fs' : FS) (d : Dictionary) (old new : Script), o.Valid →
    FactorOrder ord → Consistent x fs → SConsistent x fs → getDictionary o fs = .ok d → Built old → Built new → old.str ≠ new.str →
    updateParadigm o ord x fs old new = .ok fs' → ∃ r ∈ d.roots, Within new r

/-- **C73** is violated: `S:+B:` is updated to `O:O:.`, which has no word in common with the roots. -/
theorem C73_violated : ¬ UpdatesWithinRoots := by
  intro h
  obtain ⟨d, hd, _⟩ := dictFs_dict
  obtain ⟨fs', h1⟩ : ∃ fs', updateParadigm plainOrder (dedupBy str) dictExt dictFs scSB scOO = .ok fs' := ok_of_isOk (by decide +kernel)
  have hb : Built scOO := built_of (by decide +kernel)
  obtain ⟨r, hr, hw⟩ := h plainOrder (dedupBy str) dictExt dictFs fs' d scSB scOO plainOrder_valid factorOrder_insertion dictFs_consistent
    dictFs_sconsistent hd (built_of (by decide +kernel)) hb (by decide +kernel) h1
  obtain ⟨w, hd'⟩ := den_exists (built_wf hb)
  exact scOO_apart hd r hr w ⟨hd', hw.2 w hd'⟩

end Verif
