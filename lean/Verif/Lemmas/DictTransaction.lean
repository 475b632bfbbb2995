import Verif.Model.DictTransaction
import Verif.Lemmas.Siblings
import Verif.Lemmas.ReadTotal
import Verif.Lemmas.SSNodup
import Verif.Props.Structure

/-
Lemmas on the dictionary transactions: the roots of the scripts, and the two kinds of files.
-/

namespace Verif
open Script

/-! ### The root of a script -/

theorem root_total (T : TableStructure) (s : Script) : ∃ r, T.root s = .ok r := by
  unfold TableStructure.root TableStructure.lookupRoot
  split
  · exact ⟨_, rfl⟩
  · rename_i e he
    split at he
    · cases he
    · injection he with he
      subst he
      exact ⟨none, rfl⟩

theorem root_some {T : TableStructure} {s r : Script} (h : T.root s = .ok (some r)) :
    ∃ e ∈ T.roots, e.1 = r ∧ ∃ t ∈ e.2, t.script.str = s.str := by
  unfold TableStructure.root at h
  split at h
  · rename_i r' hr
    injection h with h
    injection h with h
    subst h
    unfold TableStructure.lookupRoot at hr
    split at hr
    · rename_i p hp
      injection hr with hr
      have h1 := List.mem_reverse.1 (List.mem_of_find?_eq_some hp)
      have h2 := List.find?_some hp
      simp only [List.mem_flatMap, List.mem_map] at h1
      obtain ⟨e, he, t, ht, rfl⟩ := h1
      exact ⟨e, he, hr, t, ht, by simpa [pyEq] using h2⟩
    · cases hr
  · split at h <;> cases h

theorem root_none {T : TableStructure} {s : Script} (h : T.root s = .ok none) : ∀ e ∈ T.roots, ∀ t ∈ e.2, t.script.str ≠ s.str := by
  unfold TableStructure.root at h
  split at h
  · cases h
  · rename_i e' he
    unfold TableStructure.lookupRoot at he
    split at he
    · cases he
    · rename_i hn
      rw [List.find?_eq_none] at hn
      intro e he t ht hts
      exact hn (e.1, t) (by simp only [List.mem_reverse, List.mem_flatMap, List.mem_map]; exact ⟨e, he, t, ht, rfl⟩) (by simp [pyEq, hts])

variable {d : Dictionary} {sorted : List Script}

theorem BaseOk.root_within (h : BaseOk d sorted) {s r : Script} (hs : WF s) (hr : d.base.tables.root s = .ok (some r)) :
    r ∈ d.roots ∧ Within s r := by
  obtain ⟨e, he, rfl, t, ht, hts⟩ := root_some hr
  obtain ⟨h1, h2⟩ := h.tabs_of he
  exact ⟨h1, (within_of_str hs (h2.wf t ht) hts.symm).trans (h2.within t ht)⟩

/-- The root of a singular sequence is the root it lies in. -/
theorem BaseOk.root_singular (h : BaseOk d sorted) {q : Script} (hq : WF q) (hc : q.cardinal = 1) {w : Word} (hw : Den q w) {r : Script} :
    d.base.tables.root q = .ok (some r) ↔ r ∈ d.roots ∧ Den r w := by
  constructor
  · intro hr
    obtain ⟨h1, h2⟩ := h.root_within hq hr
    exact ⟨h1, h2.2 w hw⟩
  · rintro ⟨hr, hrw⟩
    obtain ⟨o, ho⟩ := root_total d.base.tables q
    cases o with
    | some r' =>
      obtain ⟨h1, h2⟩ := h.root_within hq ho
      rw [ho, h.root_unique h1 hr (h2.2 w hw) hrw]
    | none =>
      exfalso
      obtain ⟨e, he, rfl⟩ := h.tabs_root hr
      obtain ⟨L, hL⟩ := enum_exists (h.rootWf _ hr)
      obtain ⟨y, hy, hyw⟩ := (hL.den w).1 hrw
      obtain ⟨t, ht, rfl⟩ := (h.tabs_of he).2.seqs L hL y hy
      exact root_none ho e he t ht (str_of_word' (hL.wf _ hy) hq (hL.one _ hy) hc hyw hw)

theorem BaseOk.root_singular_none (h : BaseOk d sorted) {q : Script} (hq : WF q) (hc : q.cardinal = 1) {w : Word} (hw : Den q w) :
    d.base.tables.root q = .ok none ↔ ∀ r ∈ d.roots, ¬ Den r w := by
  constructor
  · intro hn r hr hrw
    rw [(h.root_singular hq hc hw).2 ⟨hr, hrw⟩] at hn
    cases hn
  · intro hn
    obtain ⟨o, ho⟩ := root_total d.base.tables q
    cases o with
    | none => exact ho
    | some r =>
      have := (h.root_singular hq hc hw).1 ho
      exact absurd this.2 (hn r this.1)

theorem dedupBy_single {α κ : Type} [DecidableEq κ] {key : α → κ} {l : List α} {a : α} (h : dedupBy key l = [a]) :
    a ∈ l ∧ ∀ b ∈ l, key b = key a := by
  refine ⟨mem_dedupBy (key := key) (by rw [h]; simp), fun b hb => ?_⟩
  obtain ⟨y, hy, e⟩ := dedupBy_complete (key := key) hb
  rw [h, List.mem_singleton] at hy
  rw [← e, hy]

theorem dedupBy_const {α κ : Type} [DecidableEq κ] {key : α → κ} {l : List α} {a : α} (hl : l ≠ []) (h : ∀ b ∈ l, b = a) :
    dedupBy key l = [a] := by
  cases l with
  | nil => exact absurd rfl hl
  | cons b l =>
    have := h b (by simp)
    subst this
    rw [dedupBy]
    congr 1
    rw [List.filter_eq_nil_iff]
    intro c hc
    have := h c (List.mem_cons_of_mem _ (mem_dedupBy key hc))
    simp [this]

/-- The candidates exist. -/
theorem rootCandidates_total (T : TableStructure) {s : Script} (hs : WF s) : ∃ l, rootCandidates T s = .ok l := by
  obtain ⟨L, hL⟩ := enum_exists hs
  obtain ⟨rs, hr⟩ := mapM_total (f := T.root) (l := L) fun q _ => root_total T q
  unfold rootCandidates
  rw [hL.run]
  simp only [bind, Except.bind, hr]
  exact ⟨_, rfl⟩

/-- One root for all the singular sequences: the script lies within it. -/
theorem BaseOk.candidates_some (h : BaseOk d sorted) {s : Script} (hs : WF s) {r : Script} :
    rootCandidates d.base.tables s = .ok [some r] ↔ r ∈ d.roots ∧ Within s r := by
  obtain ⟨L, hL⟩ := enum_exists hs
  obtain ⟨rs, hr⟩ := mapM_total (f := d.base.tables.root) (l := L) fun q _ => root_total _ q
  have e1 : rootCandidates d.base.tables s = .ok (dedupBy (fun r => r.map str) rs) := by
    unfold rootCandidates
    rw [hL.run]
    simp only [bind, Except.bind, hr]
    rfl
  rw [e1, Except.ok.injEq]
  have hmem := fun {y} => mapM_mem (y := y) hr
  constructor
  · intro hd
    obtain ⟨h1, h2⟩ := dedupBy_single hd
    obtain ⟨q, hq, hqr⟩ := hmem.1 h1
    obtain ⟨w, hw⟩ := den_exists (hL.wf q hq)
    have h3 := (h.root_singular (hL.wf q hq) (hL.one q hq) hw).1 hqr
    refine ⟨h3.1, ?_, fun u hu => ?_⟩
    · rw [← hL.layer q hq]
      exact layer_of_word (hL.wf q hq) (h.rootWf r h3.1) hw h3.2
    · obtain ⟨q', hq', hu'⟩ := (hL.den u).1 hu
      obtain ⟨o, ho⟩ := root_total d.base.tables q'
      have h4 := h2 o (hmem.2 ⟨q', hq', ho⟩)
      cases o with
      | none => cases h4
      | some r' =>
        have h5 := (h.root_singular (hL.wf q' hq') (hL.one q' hq') hu').1 ho
        simp only [Option.map_some, Option.some.injEq] at h4
        exact (den_of_str (h.rootWf r' h5.1) (h.rootWf r h3.1) h4 u).1 h5.2
  · rintro ⟨hr1, hw⟩
    apply dedupBy_const
    · intro he
      have := (mapM_inv hr).length_eq
      rw [he, List.length_nil, List.length_eq_zero_iff] at this
      exact enum_ne_nil hs hL this
    · intro o ho
      obtain ⟨q, hq, hqo⟩ := hmem.1 ho
      obtain ⟨u, hu⟩ := den_exists (hL.wf q hq)
      have := (h.root_singular (hL.wf q hq) (hL.one q hq) hu).2 ⟨hr1, hw.2 u ((hL.den u).2 ⟨q, hq, hu⟩)⟩
      rw [hqo] at this
      injection this

/-- No root for all the singular sequences. -/
theorem BaseOk.candidates_none (h : BaseOk d sorted) {s : Script} (hs : WF s) :
    rootCandidates d.base.tables s = .ok [none] ↔ ∀ r ∈ d.roots, Apart s r := by
  obtain ⟨L, hL⟩ := enum_exists hs
  obtain ⟨rs, hr⟩ := mapM_total (f := d.base.tables.root) (l := L) fun q _ => root_total _ q
  have e1 : rootCandidates d.base.tables s = .ok (dedupBy (fun r => r.map str) rs) := by
    unfold rootCandidates
    rw [hL.run]
    simp only [bind, Except.bind, hr]
    rfl
  rw [e1, Except.ok.injEq]
  have hmem := fun {y} => mapM_mem (y := y) hr
  constructor
  · intro hd r hr1 w ⟨hsw, hrw⟩
    obtain ⟨h1, h2⟩ := dedupBy_single hd
    obtain ⟨q, hq, hu⟩ := (hL.den w).1 hsw
    have h3 := (h.root_singular (hL.wf q hq) (hL.one q hq) hu).2 ⟨hr1, hrw⟩
    have h4 := h2 (some r) (hmem.2 ⟨q, hq, h3⟩)
    cases h4
  · intro ha
    apply dedupBy_const
    · intro he
      have := (mapM_inv hr).length_eq
      rw [he, List.length_nil, List.length_eq_zero_iff] at this
      exact enum_ne_nil hs hL this
    · intro o ho
      obtain ⟨q, hq, hqo⟩ := hmem.1 ho
      obtain ⟨u, hu⟩ := den_exists (hL.wf q hq)
      have := (h.root_singular_none (hL.wf q hq) (hL.one q hq) hu).2 fun r hr1 hru =>
        ha r hr1 u ⟨(hL.den u).2 ⟨q, hq, hu⟩, hru⟩
      rw [hqo] at this
      injection this

/-! ### Files of the other kind -/

/-- The files with the extension are the same. -/
structure Keeps (ext : Str) (fs fs' : FS) : Prop where
  files : fs'.filter (fun f => endsWith f.1 ext) = fs.filter (fun f => endsWith f.1 ext)
  once : (fs.map (·.1)).Nodup → (fs'.map (·.1)).Nodup

theorem Keeps.refl (ext : Str) (fs : FS) : Keeps ext fs fs := ⟨rfl, id⟩

theorem Keeps.trans {ext : Str} {a b c : FS} (h : Keeps ext a b) (h' : Keeps ext b c) : Keeps ext a c :=
  ⟨h'.files.trans h.files, fun n => h'.once (h.once n)⟩

theorem Keeps.set {ext : Str} {fs : FS} {p : Str} (c : Str) (hp : endsWith p ext = false) : Keeps ext fs (fsSet fs p c) :=
  ⟨fsSet_filter_other (P := fun p => endsWith p ext) hp, fsSet_nodup⟩

theorem Keeps.remove {ext : Str} {fs : FS} {p : Str} (hp : endsWith p ext = false) : Keeps ext fs (fsRemove fs p) := by
  refine ⟨?_, fsRemove_nodup⟩
  unfold fsRemove
  rw [List.filter_filter]
  apply List.filter_congr
  intro f _
  by_cases e : f.1 = p
  · simp [e, hp]
  · simp [e]

theorem Keeps.fold {α : Type} {ext : Str} {f : FS → α → Except Err FS} (hf : ∀ a fs fs', f fs a = .ok fs' → Keeps ext fs fs') :
    ∀ {l : List α} {fs fs' : FS}, l.foldlM f fs = .ok fs' → Keeps ext fs fs'
  | [], fs, fs', h => by injection h with h; exact h ▸ .refl _ _
  | a :: l, fs, fs', h => by
    rw [List.foldlM_cons] at h
    obtain ⟨fs1, h1, h2⟩ := bind_ok.1 h
    exact (hf a _ _ h1).trans (Keeps.fold hf h2)

theorem desc_not_ieml {p : Str} (h : endsWith p (c!".desc") = true) : endsWith p (c!".ieml") = false := by
  by_contra hc
  rw [Bool.not_eq_false] at hc
  unfold endsWith at h hc
  rw [List.isSuffixOf_iff_suffix] at h hc
  have := List.suffix_of_suffix_length_le h hc (by decide)
  revert this
  decide

theorem ieml_not_desc {p : Str} (h : endsWith p (c!".ieml") = true) : endsWith p (c!".desc") = false := by
  by_contra hc
  rw [Bool.not_eq_false] at hc
  rw [desc_not_ieml hc] at h
  cases h

variable {x : Ext} {fs fs' : FS}

theorem addDescriptor_keeps {k l de : Option Str} {v : Str} (h : addDescriptor x fs k l de v = .ok fs') : Keeps (c!".ieml") fs fs' := by
  unfold addDescriptor at h
  obtain ⟨⟨a, b, c⟩, _, h⟩ := bind_ok.1 h
  simp only at h
  split at h
  · injection h with h; exact h ▸ .refl _ _
  · split at h
    · obtain ⟨p, hp, h⟩ := bind_ok.1 h
      injection h with h
      exact h ▸ .set _ (desc_not_ieml (pathOf_desc hp))
    · cases h

theorem removeDescriptor_keeps {k : Option Str} (h : removeDescriptor x fs k none none none = .ok fs') : Keeps (c!".ieml") fs fs' := by
  unfold removeDescriptor at h
  simp only at h
  obtain ⟨⟨a, b, c⟩, _, h⟩ := bind_ok.1 h
  simp only at h
  split at h
  · cases h
  · obtain ⟨p, hp, h⟩ := bind_ok.1 h
    split at h
    · injection h with h; exact h ▸ .refl _ _
    · injection h with h
      exact h ▸ .remove (desc_not_ieml (pathOf_desc hp))

theorem addStructure_keeps {k a v : Option Str} (h : addStructure x fs k a v = .ok fs') : Keeps (c!".desc") fs fs' := by
  unfold addStructure at h
  obtain ⟨⟨a, b, c⟩, _, h⟩ := bind_ok.1 h
  simp only at h
  split at h
  · obtain ⟨p, hp, h⟩ := bind_ok.1 h
    injection h with h
    exact h ▸ .set _ (ieml_not_desc (pathOf_ieml hp))
  · cases h

theorem removeStructure_keeps {k a v : Option Str} (h : removeStructure x fs k a v = .ok fs') : Keeps (c!".desc") fs fs' := by
  unfold removeStructure at h
  obtain ⟨⟨a, b, c⟩, _, h⟩ := bind_ok.1 h
  simp only at h
  split at h
  · cases h
  · obtain ⟨p, hp, h⟩ := bind_ok.1 h
    split at h
    · injection h with h; exact h ▸ .refl _ _
    · split at h
      · injection h with h
        exact h ▸ .remove (ieml_not_desc (pathOf_ieml hp))
      · injection h with h
        exact h ▸ .set _ (ieml_not_desc (pathOf_ieml hp))

theorem writeDescriptors_keeps {k : Str} {tr co : Str → List Str} (h : writeDescriptors x fs k tr co = .ok fs') : Keeps (c!".ieml") fs fs' := by
  refine Keeps.fold (fun l fs fs' h => ?_) h
  obtain ⟨fs1, h1, h2⟩ := bind_ok.1 h
  exact (Keeps.fold (fun _ _ _ h => addDescriptor_keeps h) h1).trans (Keeps.fold (fun _ _ _ h => addDescriptor_keeps h) h2)

variable {db : List (Str × List Entry)} {sdb : List (Str × List Setting)}

theorem Holds.keep (h : Holds x fs db) (hk : Keeps (c!".desc") fs fs') : Holds x fs' db :=
  ⟨hk.files.trans h.files, hk.once h.once, h.fits, h.place⟩

theorem SHolds.keep (h : SHolds x fs sdb) (hk : Keeps (c!".ieml") fs fs') : SHolds x fs' sdb :=
  ⟨hk.files.trans h.files, hk.once h.once, h.fits, h.place⟩

/-! ### Structure files -/

theorem SHolds.remove (h : SHolds x fs sdb) {p : Str} : SHolds x (fsRemove fs p) (fsRemove sdb p) := by
  have hmem : ∀ f ∈ fsRemove sdb p, f ∈ sdb := fun f hf => (List.mem_filter.1 hf).1
  constructor
  · rw [fsRemove_filter (P := fun p => endsWith p (c!".ieml")), h.files', fsRemove_map]
    rfl
  · exact fsRemove_nodup h.once
  · intro f hfm e he; exact h.fits f (hmem f hfm) e he
  · intro f hfm e he; exact h.place f (hmem f hfm) e he

theorem SHolds.values_remove (h : SHolds x fs sdb) {p : Str} (k a : Str) :
    settingValues (allSettings (fsRemove sdb p)) k a =
      if pathOf x k false true = .ok p then [] else settingValues (allSettings sdb) k a := by
  have h' := h.remove (p := p)
  split
  · rename_i hk
    rw [h'.values_eq hk, fsGet_fsRemove, if_pos rfl]; rfl
  · rename_i hk
    cases hq : pathOf x k false true with
    | error e =>
      rw [h'.values_nil (by rw [hq]; simp), h.values_nil (by rw [hq]; simp)]
    | ok q =>
      have : q ≠ p := fun e => hk (by rw [hq, e])
      rw [h'.values_eq hq, h.values_eq hq, fsGet_fsRemove, if_neg this]

/-- Removing all the settings of a key. -/
theorem SHolds.removeAll (h : SHolds x fs sdb) {k p : Str} (hkt : keyText x k = .ok k) (hp : pathOf x k false true = .ok p) :
    ∃ fs' sdb', removeStructure x fs (some k) none none = .ok fs' ∧ SHolds x fs' sdb' ∧
      ∀ k' a, settingValues (allSettings sdb') k' a =
        if pathOf x k' false true = .ok p then [] else settingValues (allSettings sdb) k' a := by
  unfold removeStructure
  have e1 : normalizeKey x (some k) none none true true true = .ok (some k, none, none) := by
    rw [normalizeKey_struct_iff, normalizeStructure_iff]
    refine ⟨.inl rfl, normalizeIeml_some.2 hkt, ?_, rfl, .inl ⟨.inr (.inl rfl), rfl⟩⟩
    intro s hs
    cases hs
  rw [e1]
  simp only [bind, Except.bind, hp, pure, Except.pure]
  cases hg : fsGet fs p with
  | none =>
    refine ⟨fs, sdb, rfl, h, fun k' a => ?_⟩
    split
    · rename_i hm
      have : fsGet sdb p = none := by
        rw [h.get (pathOf_ieml hp)] at hg
        cases hd : fsGet sdb p with
        | none => rfl
        | some es => rw [hd] at hg; cases hg
      rw [h.values_eq hm, this]; rfl
    · rfl
  | some c => exact ⟨_, _, rfl, h.remove, fun k' a => h.values_remove k' a⟩

/-- Adding a setting. -/
theorem SHolds.addSetting (h : SHolds x fs sdb) {k a v w p : Str} (hp : pathOf x k false true = .ok p)
    (hn : normalizeKey x (some k) (some a) (some v) true false true = .ok (some k, some a, some w)) (hf : (Setting.mk k a w).Fits) :
    ∃ fs' sdb', addStructure x fs (some k) (some a) (some v) = .ok fs' ∧ SHolds x fs' sdb' ∧
      ∀ k' a', settingValues (allSettings sdb') k' a' =
        if k' = k ∧ a' = a then settingValues (allSettings sdb) k a ++ [w] else settingValues (allSettings sdb) k' a' := by
  unfold addStructure
  rw [hn]
  simp only [bind, Except.bind, hp, pure, Except.pure]
  have e1 : (fsGet fs p).getD [] ++ (c!"\"" ++ k ++ c!"\" " ++ a ++ c!" \"" ++ w ++ c!"\"\n") =
      sRender ((fsGet sdb p).getD [] ++ [Setting.mk k a w]) := by
    rw [h.get (pathOf_ieml hp)]
    unfold sRender
    rw [List.flatMap_append]
    congr 1
    · cases fsGet sdb p <;> rfl
    · simp [settingLine]
  rw [e1]
  have h' := h.set (es := (fsGet sdb p).getD [] ++ [Setting.mk k a w]) (pathOf_ieml hp)
    (by
      intro e he
      rcases List.mem_append.1 he with he | he
      · exact (h.fits_get e he).1
      · rw [List.mem_singleton.1 he]; exact hf)
    (by
      intro e he
      rcases List.mem_append.1 he with he | he
      · exact (h.fits_get e he).2
      · rw [List.mem_singleton.1 he]; exact hp)
  refine ⟨_, _, rfl, h', fun k' a' => ?_⟩
  rw [h.values_set h']
  by_cases hm : k' = k ∧ a' = a
  · obtain ⟨rfl, rfl⟩ := hm
    rw [if_pos hp, if_pos ⟨rfl, rfl⟩, h.values_eq hp]
    unfold settingValues
    simp
  · rw [if_neg hm]
    split
    · rename_i hp'
      rw [h.values_eq hp']
      unfold settingValues
      rw [List.filter_append]
      have : [Setting.mk k a w].filter (fun e => decide (e.key = k' ∧ e.attr = a')) = [] := by
        rw [List.filter_eq_nil_iff]
        intro e he
        rw [List.mem_singleton.1 he]
        intro hP
        have hP := of_decide_eq_true hP
        exact hm ⟨hP.1.symm, hP.2.symm⟩
      rw [this, List.append_nil]
    · rfl

/-- Adding the flag `is_root` with the value `False`. -/
theorem SHolds.addNotRoot (h : SHolds x fs sdb) {k p : Str} (hkt : keyText x k = .ok k)
    (hp : pathOf x k false true = .ok p) (hk : OneLine k ∧ NoQuote k) :
    ∃ fs' sdb', addStructure x fs (some k) (some (c!"is_root")) (some (c!"False")) = .ok fs' ∧ SHolds x fs' sdb' ∧
      ∀ k' a, settingValues (allSettings sdb') k' a =
        if k' = k ∧ a = c!"is_root" then settingValues (allSettings sdb) k (c!"is_root") ++ [c!"False"]
        else settingValues (allSettings sdb) k' a := by
  refine h.addSetting hp ?_ ⟨hk, (by decide : c!"is_root" ∈ structureKeys), ?_, fun e => absurd e (by decide : c!"is_root" ≠ c!"inhibition")⟩
  · unfold normalizeKey
    rw [normalizeIeml_some.2 hkt]
    have : normalizeStructure (some (c!"is_root")) (some (c!"False")) = .ok (some (c!"is_root"), some (c!"False")) := by decide +kernel
    simp only [if_true, this]
    rfl
  · exact (by decide : OneLine (c!"False") ∧ NoQuote (c!"False"))

/-! ### The descriptors written -/

theorem Holds.writeDescriptors {k p : Str} {tr co : Str → List Str} (hkt : keyText x k = .ok k)
    (hp : pathOf x k true true = .ok p) (hk : OneLine k) (h : Holds x fs db)
    (hv : ∀ l ∈ languages, (∀ v ∈ tr l, OneLine (strip v)) ∧ ∀ v ∈ co l, OneLine (strip v)) :
    ∃ fs' db', Verif.writeDescriptors x fs k tr co = .ok fs' ∧ Holds x fs' db' ∧
      ∀ k' l' d', storedValues (allEntries db') k' l' d' =
        if k' = k ∧ l' ∈ languages ∧ d' = c!"translations" then storedValues (allEntries db) k l' d' ++ cleaned (tr l')
        else if k' = k ∧ l' ∈ languages ∧ d' = c!"comments" then storedValues (allEntries db) k l' d' ++ cleaned (co l')
        else storedValues (allEntries db) k' l' d' := by
  have ht : c!"translations" ∈ descriptorClasses := by decide
  have hc : c!"comments" ∈ descriptorClasses := by decide
  have key : ∀ (ls : List Str) (fs : FS) (db : List (Str × List Entry)), Holds x fs db → (∀ l ∈ ls, l ∈ languages) → ls.Nodup →
      ∃ fs' db', ls.foldlM (fun fs l => do
        let fs ← (tr l).foldlM (fun fs v => Verif.addDescriptor x fs (some k) (some l) (some (c!"translations")) v) fs
        (co l).foldlM (fun fs v => Verif.addDescriptor x fs (some k) (some l) (some (c!"comments")) v) fs) fs = .ok fs' ∧
      Holds x fs' db' ∧ ∀ k' l' d', storedValues (allEntries db') k' l' d' =
        if k' = k ∧ l' ∈ ls ∧ d' = c!"translations" then storedValues (allEntries db) k l' d' ++ cleaned (tr l')
        else if k' = k ∧ l' ∈ ls ∧ d' = c!"comments" then storedValues (allEntries db) k l' d' ++ cleaned (co l')
        else storedValues (allEntries db) k' l' d' := by
    intro ls
    induction ls with
    | nil => exact fun fs db h _ _ => ⟨fs, db, rfl, h, fun k' l' d' => by simp⟩
    | cons l ls ih =>
      intro fs db h hl hn
      rw [List.nodup_cons] at hn
      have hll := hl l (by simp)
      obtain ⟨fs1, db1, e1, h1, hv1⟩ := Holds.addAll hkt hp hk hll ht (tr l) fs db h (hv l hll).1
      obtain ⟨fs2, db2, e2, h2, hv2⟩ := Holds.addAll hkt hp hk hll hc (co l) fs1 db1 h1 (hv l hll).2
      obtain ⟨fs3, db3, e3, h3, hv3⟩ := ih fs2 db2 h2 (fun a ha => hl a (by simp [ha])) hn.2
      refine ⟨fs3, db3, ?_, h3, fun k' l' d' => ?_⟩
      · rw [List.foldlM_cons, e1]
        simp only [bind, Except.bind, e2]
        exact e3
      · rw [hv3]
        have hne : (c!"translations" : Str) ≠ c!"comments" := by decide
        by_cases a : k' = k
        · subst a
          by_cases c : l' ∈ ls
          · have hll' : l' ≠ l := fun e => hn.1 (e ▸ c)
            simp only [hv2, hv1, c, hll', true_and, false_and, and_false, if_false, List.mem_cons, or_true]
          · by_cases e : l' = l
            · subst e
              by_cases t : d' = c!"translations"
              · subst t
                simp [hv2, hv1, c]
              · by_cases t' : d' = c!"comments"
                · subst t'
                  simp [hv2, hv1, c]
                · simp [hv2, hv1, c, t, t']
            · simp [hv2, hv1, c, e]
        · simp [hv2, hv1, a]
  exact key languages fs db h (fun _ h => h) (by decide)

end Verif
