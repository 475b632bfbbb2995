import Verif.Props.Dictionary
import Verif.Lemmas.Inhibition

/-
Properties C24 to C27: the relations of a dictionary.

`Related d r a b` says that `b` is among the objects of `a` for the relation `r`.  The theorems hold for every order in which Python
may go through its sets (`SetOrder`).
-/

namespace Verif
open Script DictOk

variable {o : SetOrder} {ks : List Str} {rows : List (Str × Str × Str)} {d : Dictionary}

/-- A script of the dictionary has a position. -/
theorem indexed_of_mem {s : Script} (hs : s ∈ d.base.scripts) : ∃ i, d.base.index s = .ok i := seqIndex_isOk.2 ⟨s, hs, rfl⟩

/-- The texts of the objects, for the examples. -/
def Dictionary.objectTexts (d : Dictionary) (k : Str) (r : Rel) : Except Err (List Str) := do
  let s ← parseScript k
  return (← d.object s r).map str

/-- Reading of an object in an example. -/
theorem related_of_texts {k : Str} {s b : Script} {r : Rel} (hs : parseScript k = .ok s) {l : List Str} (h : d.objectTexts k r = .ok l)
    (hb : b.str ∈ l) : Related d r s b := by
  unfold Dictionary.objectTexts at h
  rw [hs] at h
  simp only [bind, Except.bind] at h
  cases ho : d.object s r with
  | error e => rw [ho] at h; cases h
  | ok x =>
    rw [ho] at h
    simp only [pure, Except.pure, Except.ok.injEq] at h
    subst h
    obtain ⟨y, hy, he⟩ := List.mem_map.1 hb
    exact ⟨x, ho, y, hy, he⟩

/-! ### C24 -/

/-- Every relation comes with its inverse. -/
theorem C24_inverse (ho : o.Valid) (h : mkDictionary o ks rows = .ok d) (r : Rel) (a b : Script) :
    Related d r a b ↔ Related d r.inverse b a := by
  obtain ⟨st, _, hd, _⟩ := mkDictionary_inv ho h
  constructor
  · intro hab
    obtain ⟨⟨i, hi⟩, j, hj⟩ := related_index hab
    rw [hd.related_iff r.inverse hj hi, ← hd.inverse_mem r]
    exact (hd.related_iff r hi hj).1 hab
  · intro hab
    obtain ⟨⟨j, hj⟩, i, hi⟩ := related_index hab
    rw [hd.related_iff r hi hj, hd.inverse_mem r]
    exact (hd.related_iff r.inverse hj hi).1 hab

/-- The inverse of the inverse is the relation. -/
theorem C24_inverse_involutive (r : Rel) : r.inverse.inverse = r := by cases r <;> rfl

/-- The dictionary of the examples. -/
def relDict : Except Err Dictionary :=
  mkDictionary plainOrder [c!"O:", c!"O:O:.", c!"U:O:."] [rootRow (c!"O:"), rootRow (c!"O:O:.")]

example : (relDict.bind fun d => d.objectTexts (c!"U:O:.") (.father 0)) = .ok [c!"U:"] ∧
    (relDict.bind fun d => d.objectTexts (c!"U:") (.child 0)) = .ok [c!"wo.", c!"wa.", c!"U:O:.", c!"O:O:."] ∧
    (relDict.bind fun d => d.objectTexts (c!"U:A:.") (.table 3)) = .ok [c!"wo.", c!"wa.", c!"U:O:."] := by decide +kernel

/-! ### C25 -/

/-- For scripts of the dictionary, `a` contains `b` exactly when the words of `b` are words of `a`. -/
theorem C25_contains_iff (ho : o.Valid) (h : mkDictionary o ks rows = .ok d) {a b : Script} (ha : a ∈ d.base.scripts)
    (hb : b ∈ d.base.scripts) : Related d .contains a b ↔ Within b a := by
  obtain ⟨st, _, hd, _⟩ := mkDictionary_inv ho h
  obtain ⟨i, hi⟩ := indexed_of_mem ha
  obtain ⟨j, hj⟩ := indexed_of_mem hb
  rw [hd.related_iff .contains hi hj]
  exact hd.contains_within ha hb hi hj

/-- The relation is reflexive and transitive. -/
theorem C25_contains_preorder (ho : o.Valid) (h : mkDictionary o ks rows = .ok d) :
    (∀ a ∈ d.base.scripts, Related d .contains a a) ∧
    ∀ a ∈ d.base.scripts, ∀ b ∈ d.base.scripts, ∀ c ∈ d.base.scripts,
      Related d .contains a b → Related d .contains b c → Related d .contains a c := by
  refine ⟨fun a ha => (C25_contains_iff ho h ha ha).2 (Within.refl a), fun a ha b hb c hc hab hbc => ?_⟩
  rw [C25_contains_iff ho h ha hb] at hab
  rw [C25_contains_iff ho h hb hc] at hbc
  exact (C25_contains_iff ho h ha hc).2 (hbc.trans hab)

/-- Scripts of which one contains the other, and that are not the same, lie within one root. -/
theorem C25_contains_same_root (ho : o.Valid) (h : mkDictionary o ks rows = .ok d) {a b : Script} (ha : a ∈ d.base.scripts)
    (hb : b ∈ d.base.scripts) (hab : Related d .contains a b) (hne : a.str ≠ b.str) : ∃ r ∈ d.roots, Within a r ∧ Within b r := by
  have hw := (C25_contains_iff ho h ha hb).1 hab
  obtain ⟨st, _, hd, _⟩ := mkDictionary_inv ho h
  have hc : a.cardinal ≠ 1 := by
    intro hc
    have wa := hd.script_wf ha
    have wb := hd.script_wf hb
    have hcb : b.cardinal = 1 := by
      by_contra hcb
      obtain ⟨u, v, hu, hv, hne⟩ := two_words wb (by have := cardinal_pos wb; omega)
      exact hne (den_unique wa hc (hw.2 u hu) (hw.2 v hv))
    obtain ⟨w, hw'⟩ := den_exists wb
    exact hne (str_of_word' wa wb hc hcb (hw.2 w hw') hw')
  obtain ⟨r, hr, har, _⟩ := C20_paradigm_in_one_root ho h ha hc
  exact ⟨r, hr, har, hw.trans har⟩

/-- When the keys are the texts of scripts and no root is ignored: `a` contains `b` exactly when both lie within one root and the
words of `b` are words of `a`.  The full claim fails for an ignored root (`C25_violated_root`). -/
theorem C25_contains_in_root_partial (ho : o.Valid) (hk : NormalKeys ks) (hi : NoIgnoredRoot rows) (h : mkDictionary o ks rows = .ok d)
    {a b : Script} (ha : a ∈ d.base.scripts) (hb : b ∈ d.base.scripts) :
    Related d .contains a b ↔ (∃ r ∈ d.roots, Within a r ∧ Within b r) ∧ Within b a := by
  rw [C25_contains_iff ho h ha hb]
  refine ⟨fun hw => ⟨?_, hw⟩, fun hw => hw.2⟩
  obtain ⟨r, hr, har, _⟩ := C20_script_in_one_root_partial ho hk hi h ha
  exact ⟨r, hr, har, hw.trans har⟩

example : NormalKeys exampleKeys ∧ NoIgnoredRoot exampleRows ∧
    ((mkDictionary plainOrder exampleKeys exampleRows).bind fun d => d.objectTexts (c!"M:") .contains) =
      .ok [c!"S:", c!"B:", c!"T:", c!"B:+T:", c!"M:"] ∧
    ((mkDictionary plainOrder exampleKeys exampleRows).bind fun d => d.objectTexts (c!"B:") .contained) =
      .ok [c!"B:", c!"B:+T:", c!"M:"] :=
  ⟨NormalKeys.of_consistent example_consistent, NoIgnoredRoot.of_consistent example_consistent, by decide +kernel, by decide +kernel⟩

/-- The claim fails when a root is ignored: a script that lies within no root contains itself. -/
theorem C25_violated_root : ∃ d s, mkDictionary plainOrder [c!"O:", c!"M:"] [rootRow (c!"O:"), rootRow (c!"M:"), ignoredRow (c!"M:")] = .ok d ∧
    s ∈ d.base.scripts ∧ Related d .contains s s ∧ ∀ r ∈ d.roots, ¬ Within s r := by
  obtain ⟨d, s, h, hs, hr⟩ := C20_violated
  exact ⟨d, s, h, hs, (C25_contains_preorder plainOrder_valid h).1 s hs, hr⟩

/-- The relation is not antisymmetric: two scripts of the dictionary with the same words and different texts. -/
theorem C25_violated_antisymmetry : ∃ d a b, mkDictionary plainOrder [c!"O:M:.", c!"U:M:.+A:M:."] [rootRow (c!"O:M:.")] = .ok d ∧
    a ∈ d.base.scripts ∧ b ∈ d.base.scripts ∧ Related d .contains a b ∧ Related d .contains b a ∧ a.str ≠ b.str := by
  have h : (mkDictionary plainOrder [c!"O:M:.", c!"U:M:.+A:M:."] [rootRow (c!"O:M:.")]).map
      (fun d => d.base.scripts.any fun a => d.base.scripts.any fun b => (contains a b).toOption == some true &&
        (contains b a).toOption == some true && decide (a.str ≠ b.str)) = .ok true := by decide +kernel
  cases hd : mkDictionary plainOrder [c!"O:M:.", c!"U:M:.+A:M:."] [rootRow (c!"O:M:.")] with
  | error e => rw [hd] at h; cases h
  | ok d =>
    rw [hd] at h
    simp only [Except.map, Except.ok.injEq, List.any_eq_true, Bool.and_eq_true, beq_iff_eq, decide_eq_true_eq] at h
    obtain ⟨a, ha, b, hb, ⟨h1, h2⟩, h3⟩ := h
    obtain ⟨st, _, hdo, _⟩ := mkDictionary_inv plainOrder_valid hd
    have conv : ∀ {x y : Script}, x ∈ d.base.scripts → y ∈ d.base.scripts → (contains x y).toOption = some true →
        Related d .contains x y := by
      intro x y hx hy hxy
      rw [C25_contains_iff plainOrder_valid hd hx hy]
      refine (contains_iff (hdo.script_wf hx) (hdo.script_wf hy)).1 ?_
      cases hc : contains x y with
      | error e => rw [hc] at hxy; cases hxy
      | ok v =>
        rw [hc] at hxy
        simp only [Except.toOption, Option.some.injEq] at hxy
        rw [hxy]
    exact ⟨d, a, b, rfl, ha, hb, conv ha hb h1, conv hb ha h2, h3⟩

/-! ### C26 -/

/-- A sibling relation between two scripts is dictated by their children: both are products (not sums) of one root of layer at
least 1 that does not inhibit the relation, they differ, and their children follow the rule of the relation. -/
theorem C26_sibling_iff (ho : o.Valid) (h : mkDictionary o ks rows = .ok d) (k : DictBase.Sibling) (a b : Script) :
    Related d (.sibling k) a b ↔ ∃ e ∈ d.base.tables.roots, e.1.layer ≠ 0 ∧ d.base.inhibited e.1 k.name = false ∧
      ∃ t ∈ e.2, ∃ u ∈ e.2, t.script.str = a.str ∧ u.script.str = b.str ∧ t.script.isMult = true ∧ u.script.isMult = true ∧
        a.str ≠ b.str ∧ SiblingRule k t.script u.script := by
  obtain ⟨st, _, hd, _⟩ := mkDictionary_inv ho h
  constructor
  · intro hab
    obtain ⟨⟨i, hi⟩, j, hj⟩ := related_index hab
    rw [hd.related_iff _ hi hj, hd.sibling_mem] at hab
    obtain ⟨e, he, hl, h0, t, ht, u, hu, h1, h2, h3, h4, h5, h6⟩ := hab
    have e1 := (seqIndex_eq h4).1 hi
    have e2 := (seqIndex_eq h5).1 hj
    exact ⟨e, he, hl, h0, t, ht, u, hu, e1, e2, h1, h2, by rw [← e1, ← e2]; exact h3, h6⟩
  · rintro ⟨e, he, hl, h0, t, ht, u, hu, e1, e2, h1, h2, h3, h6⟩
    obtain ⟨i, hi⟩ := hd.indexed he ht
    obtain ⟨j, hj⟩ := hd.indexed he hu
    rw [hd.related_iff _ ((seqIndex_eq hi).2 e1) ((seqIndex_eq hj).2 e2), hd.sibling_mem]
    exact ⟨e, he, hl, h0, t, ht, u, hu, h1, h2, by rw [e1, e2]; exact h3, hi, hj, h6⟩

/-- No script is a sibling of itself. -/
theorem C26_irreflexive (ho : o.Valid) (h : mkDictionary o ks rows = .ok d) (k : DictBase.Sibling) (a : Script) :
    ¬ Related d (.sibling k) a a := by
  rw [C26_sibling_iff ho h]
  rintro ⟨e, _, _, _, t, _, u, _, _, _, _, _, hne, _⟩
  exact hne rfl

/-- The sibling relations are symmetric. -/
theorem C26_symmetric (ho : o.Valid) (h : mkDictionary o ks rows = .ok d) (k : DictBase.Sibling) (a b : Script) :
    Related d (.sibling k) a b ↔ Related d (.sibling k) b a := C24_inverse ho h (.sibling k) a b

/-- Opposed, associated and crossed siblings differ in what they compare: a pair is both opposed and associated only if the two
first children of each script are the same. -/
theorem C26_opposed_associated {x y : Script} (h1 : SiblingRule .opposed x y) (h2 : SiblingRule .associated x y) :
    kid x 0 = kid x 1 ∧ kid y 0 = kid y 1 ∧ SiblingRule .twin x y :=
  ⟨h2.2.1.trans (h1.2.2.2.2.symm), h2.2.1.symm.trans h1.2.2.2.1,
    h2.1, h2.2.1.trans h1.2.2.2.2.symm, h2.2.1.symm.trans h1.2.2.2.1⟩

example : (relDict.bind fun d => d.objectTexts (c!"U:A:.") (.sibling .opposed)) = .ok [c!"wu."] ∧
    (relDict.bind fun d => d.objectTexts (c!"U:U:.") (.sibling .twin)) = .ok [c!"we."] ∧
    (relDict.bind fun d => d.objectTexts (c!"U:U:.") (.sibling .opposed)) = .ok [] ∧
    ((mkDictionary plainOrder [c!"O:O:M:."] [rootRow (c!"O:O:M:.")]).bind fun d => d.objectTexts (c!"U:A:S:.") (.sibling .associated)) =
      .ok [c!"U:A:B:.", c!"U:A:T:."] ∧
    ((mkDictionary plainOrder [c!"O:O:.O:O:.-"] [rootRow (c!"O:O:.O:O:.-")]).bind fun d =>
      d.objectTexts (c!"wo.wa.-") (.sibling .crossed)) = .ok [c!"wo.wu.-"] ∧
    ((mkDictionary plainOrder [c!"O:O:.O:O:.-"] [rootRow (c!"O:O:.O:O:.-")]).bind fun d =>
      d.objectTexts (c!"wa.wa.-") (.sibling .crossed)) = .ok [c!"wu.wu.-"] := by decide +kernel

/-! ### C27 -/

/-- A root that inhibits a sibling relation has no script with an object for this relation.  The full claim fails for the other
relations (`C27_violated`). -/
theorem C27_inhibited_partial (ho : o.Valid) (h : mkDictionary o ks rows = .ok d) {key : Str} {k : DictBase.Sibling} (hk : key ∈ ks)
    (hrow : (key, c!"inhibition", k.name) ∈ rows) {s r : Script} (hs : parseScript key = .ok s) (hr : r ∈ d.roots) (hsr : s.str = r.str)
    {a : Script} (ha : a ∈ d.base.scripts) (har : Within a r) : d.object a (.sibling k) = .ok [] ∧
      ∀ b, ¬ Related d (.sibling k) a b ∧ ¬ Related d (.sibling k) b a := by
  have hinh := inhibited_of_row ho h hk hrow hs hr hsr
  have hno : ∀ b, ¬ Related d (.sibling k) a b := by
    intro b hab
    rw [C26_sibling_iff ho h] at hab
    obtain ⟨e, he, _, h0, t, ht, _, _, hta, _⟩ := hab
    obtain ⟨st, _, hd, _⟩ := mkDictionary_inv ho h
    have wt := (hd.tabs_of he).2.wf t ht
    have wa := hd.script_wf ha
    obtain ⟨w, hw⟩ := den_exists wa
    have := hd.root_unique hr (hd.tabs_of he).1 (har.2 w hw) (((hd.tabs_of he).2.within t ht).2 w ((den_of_str wa wt hta.symm w).1 hw))
    rw [← this, hinh] at h0
    cases h0
  refine ⟨?_, fun b => ⟨hno b, fun hb => hno b ((C26_symmetric ho h k a b).2 hb)⟩⟩
  obtain ⟨i, hi⟩ := indexed_of_mem ha
  cases ho' : d.object a (.sibling k) with
  | error e =>
    unfold Dictionary.object at ho'
    rw [hi] at ho'
    cases ho'
  | ok l =>
    cases l with
    | nil => rfl
    | cons x l => exact absurd ⟨_, ho', x, by simp, rfl⟩ (hno x)

/-- The data of the examples: the root inhibits two relations. -/
def inhibitedDict : Except Err Dictionary :=
  mkDictionary plainOrder [c!"O:", c!"O:O:."] [rootRow (c!"O:"), rootRow (c!"O:O:."), (c!"O:O:.", c!"inhibition", c!"opposed"),
    (c!"O:O:.", c!"inhibition", c!"father_substance")]

example : (inhibitedDict.bind fun d => d.objectTexts (c!"U:A:.") (.sibling .opposed)) = .ok [] ∧
    (inhibitedDict.bind fun d => d.objectTexts (c!"U:U:.") (.sibling .twin)) = .ok [c!"we."] := by decide +kernel

/-- The claim fails for the relations with the roles: a root that inhibits `father_substance` still has scripts with a father. -/
theorem C27_violated : ∃ d s b, inhibitedDict = .ok d ∧ s ∈ d.roots ∧ s.str = c!"O:O:." ∧ Related d (.father 0) s b := by
  have h : inhibitedDict.map (fun d => d.roots.any fun s => decide (s.str = c!"O:O:.") &&
      match d.object s (.father 0) with
      | .ok (_ :: _) => true
      | _ => false) = .ok true := by decide +kernel
  cases hd : inhibitedDict with
  | error e => rw [hd] at h; cases h
  | ok d =>
    rw [hd] at h
    simp only [Except.map, Except.ok.injEq, List.any_eq_true, Bool.and_eq_true, decide_eq_true_eq] at h
    obtain ⟨s, hs, h1, h2⟩ := h
    split at h2
    · rename_i b l ho
      exact ⟨d, s, b, rfl, hs, h1, _, ho, b, by simp, rfl⟩
    · cases h2

end Verif
