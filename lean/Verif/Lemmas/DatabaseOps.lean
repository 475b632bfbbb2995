import Verif.Lemmas.Database

/-
Effect of the operations on the stored entries.
-/

namespace Verif
variable {x : Ext} {fs fs' : FS} {db : List (Str × List Entry)}

theorem suffix_joinPath (p q e : Str) : endsWith (joinPath p (q ++ e)) e = true := by
  unfold joinPath endsWith
  rw [List.isSuffixOf_iff_suffix]
  split
  · exact ⟨p ++ q, by simp⟩
  · exact ⟨p ++ '/' :: q, by simp⟩

theorem pathOf_desc {t p : Str} {n : Bool} (h : pathOf x t true n = .ok p) : endsWith p (c!".desc") = true := by
  unfold pathOf at h
  cases hp : x.parse t with
  | error e => rw [hp] at h; cases h
  | ok u =>
    rw [hp] at h
    simp only [bind, Except.bind, pure, Except.pure, if_true] at h
    injection h with h
    rw [← h]
    split <;> exact suffix_joinPath _ _ _

theorem pathOf_ieml {t p : Str} {n : Bool} (h : pathOf x t false n = .ok p) : endsWith p (c!".ieml") = true := by
  unfold pathOf at h
  cases hp : x.parse t with
  | error e => rw [hp] at h; cases h
  | ok u =>
    rw [hp] at h
    simp only [bind, Except.bind, pure, Except.pure, Bool.false_eq_true, if_false] at h
    injection h with h
    rw [← h]
    split <;> exact suffix_joinPath _ _ _

theorem Holds.files' (h : Holds x fs db) : fs.filter (fun f => endsWith f.1 (c!".desc")) = db.map fun f => (f.1, render f.2) :=
  h.files

theorem Holds.nodup (h : Holds x fs db) : (db.map (·.1)).Nodup := by
  have h1 : db.map (·.1) = (fs.filter fun f => endsWith f.1 (c!".desc")).map (·.1) := by
    rw [h.files', List.map_map]; rfl
  rw [h1]
  exact h.once.sublist (List.Sublist.map _ List.filter_sublist)

theorem Holds.get (h : Holds x fs db) {p : Str} (hp : endsWith p (c!".desc") = true) :
    fsGet fs p = (fsGet db p).map render := by
  rw [← fsGet_filter (P := fun p => endsWith p (c!".desc")) hp, h.files', fsGet_map]

/-- The entries of all the files. -/
def allEntries (db : List (Str × List Entry)) : List Entry := db.flatMap (·.2)

theorem Holds.getDescriptors (h : Holds x fs db) :
    getDescriptors fs = .ok ((allEntries db).map fun e => (e.key, e.lang, e.desc, e.value)) := by
  unfold Verif.getDescriptors
  have e1 : (fs.filter fun f => endsWith f.1 (c!".desc")).flatMap (·.2) = render (allEntries db) := by
    rw [h.files']
    unfold render allEntries
    rw [List.flatMap_map, List.flatMap_assoc]
  rw [e1, csvRead_render]
  · simp only [bind, Except.bind]
    rw [List.mapM_map]
    exact mapM_ok_map fun e _ => rfl
  · intro e he
    obtain ⟨f, hf, he⟩ := List.mem_flatMap.1 he
    exact h.fits f hf e he

/-- The values stored for a key, a language and a descriptor. -/
def storedValues (es : List Entry) (k l d : Str) : List Str :=
  (es.filter fun e => decide (e.key = k ∧ e.lang = l ∧ e.desc = d)).map (·.value)

theorem Holds.getValues (h : Holds x fs db) {k l d : Str} (hl : l ∈ languages) (hd : d ∈ descriptorClasses) :
    getValues fs k l d = .ok (storedValues (allEntries db) k l d) := by
  unfold Verif.getValues
  rw [h.getDescriptors]
  have h1 : (!languages.contains l || !descriptorClasses.contains d) = false := by simp [hl, hd]
  simp only [bind, Except.bind, h1, Bool.false_eq_true, if_false, pure, Except.pure]
  unfold storedValues
  rw [List.filter_map, List.map_map]
  rfl

/-- All the entries of a key are in its file. -/
theorem Holds.storedValues_eq (h : Holds x fs db) {k p : Str} (hp : pathOf x k true true = .ok p) (l d : Str) :
    storedValues (allEntries db) k l d = storedValues ((fsGet db p).getD []) k l d := by
  unfold storedValues allEntries
  rw [flatMap_filter_get h.nodup]
  intro f hf e he hP
  simp only [decide_eq_true_eq] at hP
  have := h.place f hf e he
  rw [hP.1, hp] at this
  injection this with this
  exact this.symm

theorem Holds.storedValues_nil (h : Holds x fs db) {k : Str} (hp : ∀ p, pathOf x k true true ≠ .ok p) (l d : Str) :
    storedValues (allEntries db) k l d = [] := by
  unfold storedValues allEntries
  rw [List.map_eq_nil_iff, List.filter_eq_nil_iff]
  intro e he hP
  simp only [decide_eq_true_eq] at hP
  obtain ⟨f, hf, he⟩ := List.mem_flatMap.1 he
  have := h.place f hf e he
  rw [hP.1] at this
  exact hp _ this

/-- Replacing the entries of a file. -/
theorem Holds.set (h : Holds x fs db) {p : Str} (hp : endsWith p (c!".desc") = true) {es : List Entry}
    (hf : ∀ e ∈ es, e.Fits) (hpl : ∀ e ∈ es, pathOf x e.key true true = .ok p) :
    Holds x (fsSet fs p (render es)) (fsSet db p es) := by
  have hmem : ∀ f ∈ fsSet db p es, f ∈ db ∨ f = (p, es) := by
    intro f hf
    unfold fsSet at hf
    split at hf
    · obtain ⟨g, hg, rfl⟩ := List.mem_map.1 hf
      split
      · exact .inr rfl
      · exact .inl hg
    · rcases List.mem_append.1 hf with hf | hf
      · exact .inl hf
      · exact .inr (by simpa using hf)
  constructor
  · rw [fsSet_filter (P := fun p => endsWith p (c!".desc")) hp, h.files', fsSet_map]
    rfl
  · exact fsSet_nodup h.once
  · intro f hfm e he
    rcases hmem f hfm with hf' | rfl
    · exact h.fits f hf' e he
    · exact hf e he
  · intro f hfm e he
    rcases hmem f hfm with hf' | rfl
    · exact h.place f hf' e he
    · exact hpl e he

/-- The values after replacing the entries of a file. -/
theorem Holds.values_set (h : Holds x fs db) {p : Str} {es : List Entry} (h' : Holds x fs' (fsSet db p es)) (k l d : Str) :
    storedValues (allEntries (fsSet db p es)) k l d =
      if pathOf x k true true = .ok p then storedValues es k l d else storedValues (allEntries db) k l d := by
  split
  · rename_i hk
    rw [h'.storedValues_eq hk, fsGet_fsSet, if_pos rfl]; rfl
  · rename_i hk
    cases hq : pathOf x k true true with
    | error e =>
      rw [h'.storedValues_nil (by rw [hq]; simp), h.storedValues_nil (by rw [hq]; simp)]
    | ok q =>
      have : q ≠ p := fun e => hk (by rw [hq, e])
      rw [h'.storedValues_eq hq, h.storedValues_eq hq, fsGet_fsSet, if_neg this]

/-- Removing a file. -/
theorem Holds.remove (h : Holds x fs db) {p : Str} :
    Holds x (fsRemove fs p) (fsRemove db p) := by
  have hmem : ∀ f ∈ fsRemove db p, f ∈ db := fun f hf => (List.mem_filter.1 hf).1
  constructor
  · rw [fsRemove_filter (P := fun p => endsWith p (c!".desc")), h.files', fsRemove_map]
    rfl
  · exact fsRemove_nodup h.once
  · intro f hfm e he; exact h.fits f (hmem f hfm) e he
  · intro f hfm e he; exact h.place f (hmem f hfm) e he

theorem Holds.values_remove (h : Holds x fs db) {p : Str} (k l d : Str) :
    storedValues (allEntries (fsRemove db p)) k l d =
      if pathOf x k true true = .ok p then [] else storedValues (allEntries db) k l d := by
  have h' := h.remove (p := p)
  split
  · rename_i hk
    rw [h'.storedValues_eq hk, fsGet_fsRemove, if_pos rfl]; rfl
  · rename_i hk
    cases hq : pathOf x k true true with
    | error e =>
      rw [h'.storedValues_nil (by rw [hq]; simp), h.storedValues_nil (by rw [hq]; simp)]
    | ok q =>
      have : q ≠ p := fun e => hk (by rw [hq, e])
      rw [h'.storedValues_eq hq, h.storedValues_eq hq, fsGet_fsRemove, if_neg this]

theorem Holds.fits_get (h : Holds x fs db) {p : Str} : ∀ e ∈ (fsGet db p).getD [], e.Fits ∧ pathOf x e.key true true = .ok p := by
  intro e he
  cases hg : fsGet db p with
  | none => rw [hg] at he; cases he
  | some es =>
    rw [hg] at he
    have := fsGet_mem hg
    exact ⟨h.fits _ this e he, h.place _ this e he⟩

/-! ### Keys -/

/-- The key written in the files for a given one: the text of its expression. -/
def keyText (x : Ext) (t : Str) : Except Err Str := if t = [] then .ok [] else (x.parse t).map Parsed.text

theorem normalizeIeml_some {t k : Str} : normalizeIeml x (some t) true = .ok (some k) ↔ keyText x t = .ok k := by
  unfold normalizeIeml keyText
  cases t with
  | nil => simp
  | cons c cs =>
    simp only [if_true, List.cons_ne_nil, if_false]
    cases x.parse (c :: cs) <;> simp [Except.map]

theorem normalizeIeml_error {t : Str} {e : Err} : normalizeIeml x (some t) true = .error e ↔ keyText x t = .error e := by
  unfold normalizeIeml keyText
  cases t with
  | nil => simp
  | cons c cs =>
    simp only [if_true, List.cons_ne_nil, if_false]
    cases x.parse (c :: cs) <;> simp [Except.map]

theorem normalizeDescriptor_ok {lang desc : Option Str} (hl : ∀ l ∈ lang, l ∈ languages)
    (hd : ∀ d ∈ desc, d ∈ descriptorClasses) : normalizeDescriptor lang desc = .ok (lang, desc) := by
  have hl2 : (truthy lang && !languages.contains (lang.getD [])) = false := by
    cases lang with
    | none => rfl
    | some l => simp [hl l rfl]
  have hd2 : (truthy desc && !descriptorClasses.contains (desc.getD [])) = false := by
    cases desc with
    | none => rfl
    | some l => simp [hd l rfl]
  unfold normalizeDescriptor
  simp only [hl2, hd2, Bool.false_eq_true, if_false]
  rfl

theorem normalizeKey_desc {t l d : Str} (hl : l ∈ languages) (hd : d ∈ descriptorClasses) (part : Bool) :
    normalizeKey x (some t) (some l) (some d) true part false = (keyText x t).map fun k => (some k, some l, some d) := by
  have hl1 : truthy (some l) = true := by
    have := (languages_plain hl).1
    cases l with | nil => exact absurd rfl this | cons => rfl
  have hd1 : truthy (some d) = true := by
    have := (descriptorClasses_plain hd).1
    cases d with | nil => exact absurd rfl this | cons => rfl
  unfold normalizeKey
  rw [normalizeDescriptor_ok (by simpa using hl) (by simpa using hd)]
  simp only [hl1, hd1, Option.isSome_some, Bool.and_true, Bool.or_true, Bool.not_true, Bool.false_eq_true, if_false,
    bind, Except.bind, pure, Except.pure]
  cases hk : keyText x t with
  | error e => rw [normalizeIeml_error.2 hk]; rfl
  | ok k => rw [normalizeIeml_some.2 hk]; rfl

theorem normalizeKey_part {t k : Str} {lang desc : Option Str} (hkt : keyText x t = .ok k)
    (hl : ∀ l ∈ lang, l ∈ languages) (hd : ∀ d ∈ desc, d ∈ descriptorClasses) :
    normalizeKey x (some t) lang desc true true false = .ok (some k, lang, desc) := by
  unfold normalizeKey
  rw [normalizeDescriptor_ok hl hd, normalizeIeml_some.2 hkt]
  rfl

/-! ### Adding -/

theorem addDescriptor_eq {t l d v : Str} (hl : l ∈ languages) (hd : d ∈ descriptorClasses) :
    addDescriptor x fs (some t) (some l) (some d) v = (do
      let k ← keyText x t
      if strip v = [] then return fs
      let p ← pathOf x k true true
      return fsSet fs p ((fsGet fs p).getD [] ++ descriptorLine k l d (strip v))) := by
  unfold addDescriptor
  rw [normalizeKey_desc hl hd]
  cases keyText x t with
  | error e => rfl
  | ok k =>
    simp only [Except.map, bind, Except.bind]
    cases hs : strip v with
    | nil => rfl
    | cons c cs => simp only [List.isEmpty_cons, Bool.false_eq_true, if_false]; rfl

theorem render_append (a b : List Entry) : render (a ++ b) = render a ++ render b := by
  unfold render; rw [List.flatMap_append]

/-- The entry written for a value. -/
def entryOf (k l d v : Str) : Entry := ⟨k, l, d, escapeNewlines (strip v)⟩

theorem strip_mem {s : Str} {c : Char} (h : c ∈ strip s) : c ∈ s := by
  unfold strip at h
  have h1 := (List.dropWhile_sublist _).subset (List.mem_reverse.1 h)
  exact (List.dropWhile_sublist _).subset (List.mem_reverse.1 h1)

theorem entryOf_fits {k l d v : Str} (hk : OneLine k) (hv : '\r' ∉ strip v) (hl : l ∈ languages) (hd : d ∈ descriptorClasses) :
    (entryOf k l d v).Fits :=
  ⟨hk, ⟨newline_not_mem_escapeNewlines _, not_mem_escapeNewlines hv (by decide) (by decide)⟩, hl, hd⟩

theorem Holds.add (h : Holds x fs db) {k l d v p : Str} (hk : OneLine k) (hv : '\r' ∉ strip v) (hl : l ∈ languages)
    (hd : d ∈ descriptorClasses) (hp : pathOf x k true true = .ok p) :
    Holds x (fsSet fs p ((fsGet fs p).getD [] ++ descriptorLine k l d (strip v)))
      (fsSet db p ((fsGet db p).getD [] ++ [entryOf k l d v])) := by
  have e1 : (fsGet fs p).getD [] ++ descriptorLine k l d (strip v) = render ((fsGet db p).getD [] ++ [entryOf k l d v]) := by
    rw [h.get (pathOf_desc hp), render_append]
    congr 1
    · cases fsGet db p <;> rfl
    · simp [render, entryOf, descriptorLine_escaped]
  rw [e1]
  apply h.set (pathOf_desc hp)
  · intro e he
    rcases List.mem_append.1 he with he | he
    · exact (h.fits_get e he).1
    · rw [List.mem_singleton.1 he]; exact entryOf_fits hk hv hl hd
  · intro e he
    rcases List.mem_append.1 he with he | he
    · exact (h.fits_get e he).2
    · rw [List.mem_singleton.1 he]; exact hp

/-! ### Removing -/

theorem removeBoth_eq {t l d : Str} {v : Option Str} (hl : l ∈ languages) (hd : d ∈ descriptorClasses) :
    removeBoth x fs (some t) l d v true = (do
      let k ← keyText x t
      let p ← pathOf x k true true
      match fsGet fs p with
      | none => return fs
      | some content =>
        return fsSet fs p (dropLines content (removedPrefix k l d (v.map fun v => if v.isEmpty then v else strip v)))) := by
  unfold removeBoth
  rw [normalizeKey_desc hl hd]
  cases keyText x t with
  | error e => rfl
  | ok k =>
    simp only [Except.map, bind, Except.bind]
    cases pathOf x k true true with
    | error e => rfl
    | ok p =>
      simp only
      cases fsGet fs p with
      | none => rfl
      | some c => cases v <;> rfl

/-- Which entries are deleted. -/
def deletes (k l d : Str) (v : Option Str) (e : Entry) : Bool :=
  decide (e.key = k ∧ e.lang = l ∧ e.desc = d) &&
    (match v with
      | none => true
      | some v => decide (escapeNewlines v = e.value ∨ (escapeNewlines v ++ ['"']) <+: e.value))

theorem startsWith_deletes {e : Entry} (he : e.Fits) {k l d : Str} (hk : NoQuote k) (hl : l ∈ languages)
    (hd : d ∈ descriptorClasses) (v : Option Str) :
    startsWith (descriptorLine e.key e.lang e.desc e.value) (removedPrefix k l d v) = deletes k l d v e := by
  cases v with
  | none => rw [startsWith_none he hk hl hd]; simp [deletes]
  | some v => rw [startsWith_some he hk hl hd]; simp [deletes]

theorem Holds.removeLines (h : Holds x fs db) {k l d p c : Str} {v : Option Str} (hk : NoQuote k) (hl : l ∈ languages)
    (hd : d ∈ descriptorClasses) (hp : pathOf x k true true = .ok p) (hc : fsGet fs p = some c) :
    Holds x (fsSet fs p (dropLines c (removedPrefix k l d v)))
      (fsSet db p (((fsGet db p).getD []).filter fun e => !deletes k l d v e)) := by
  rw [h.get (pathOf_desc hp)] at hc
  have e1 : c = render ((fsGet db p).getD []) := by
    cases hg : fsGet db p with
    | none => rw [hg] at hc; cases hc
    | some es => rw [hg] at hc; injection hc with hc; exact hc.symm
  rw [e1, dropLines_render (fun e he => (h.fits_get e he).1) _ (deletes k l d v)
    (fun e he => startsWith_deletes (h.fits_get e he).1 hk hl hd v)]
  apply h.set (pathOf_desc hp)
  · intro e he; exact (h.fits_get e (List.mem_filter.1 he).1).1
  · intro e he; exact (h.fits_get e (List.mem_filter.1 he).1).2

/-- The values left after a removal. -/
theorem storedValues_filter (es : List Entry) (k l d : Str) (v : Option Str) (k' l' d' : Str) :
    storedValues (es.filter fun e => !deletes k l d v e) k' l' d' =
      if k' = k ∧ l' = l ∧ d' = d then
        (storedValues es k l d).filter fun w => !(match v with
          | none => true
          | some v => decide (escapeNewlines v = w ∨ (escapeNewlines v ++ ['"']) <+: w))
      else storedValues es k' l' d' := by
  unfold storedValues
  rw [List.filter_filter]
  split
  · rename_i h
    obtain ⟨rfl, rfl, rfl⟩ := h
    rw [List.filter_map, List.filter_filter]
    congr 1
    apply List.filter_congr
    intro e _
    unfold deletes
    by_cases hm : e.key = k' ∧ e.lang = l' ∧ e.desc = d'
    · simp only [hm, Function.comp]
      cases v <;> simp
    · simp only [hm, decide_false, Bool.false_and, Bool.and_false]
  · rename_i h
    congr 1
    apply List.filter_congr
    intro e _
    unfold deletes
    by_cases hm : e.key = k' ∧ e.lang = l' ∧ e.desc = d'
    · obtain ⟨rfl, rfl, rfl⟩ := hm
      simp only [h, decide_false, Bool.false_and, Bool.not_false, Bool.and_true]
    · simp only [hm, decide_false, Bool.false_and]

/-- Whether a value is kept by a removal. -/
def kept (v : Option Str) (w : Str) : Bool :=
  !(match v with
    | none => true
    | some v => decide (escapeNewlines v = w ∨ (escapeNewlines v ++ ['"']) <+: w))

theorem strip_nil : strip [] = [] := rfl

theorem Holds.removeBoth (h : Holds x fs db) {t k l d p : Str} {v : Option Str} (hkt : keyText x t = .ok k)
    (hp : pathOf x k true true = .ok p) (hk : NoQuote k) (hl : l ∈ languages) (hd : d ∈ descriptorClasses) :
    ∃ fs' db', removeBoth x fs (some t) l d v true = .ok fs' ∧ Holds x fs' db' ∧
      (∀ q, q ≠ p → fsGet fs' q = fsGet fs q) ∧ ((fsGet fs p).isSome → (fsGet fs' p).isSome) ∧
      ∀ k' l' d', storedValues (allEntries db') k' l' d' =
        if k' = k ∧ l' = l ∧ d' = d then (storedValues (allEntries db) k l d).filter (kept (v.map strip))
        else storedValues (allEntries db) k' l' d' := by
  have hv : (v.map fun v => if v.isEmpty then v else strip v) = v.map strip := by
    cases v with
    | none => rfl
    | some v => cases v <;> rfl
  rw [removeBoth_eq hl hd, hkt]
  simp only [bind, Except.bind, hp, hv]
  cases hg : fsGet fs p with
  | none =>
    refine ⟨fs, db, rfl, h, fun _ _ => rfl, (fun h => absurd h (by simp)), fun k' l' d' => ?_⟩
    split
    · rename_i hm
      obtain ⟨rfl, rfl, rfl⟩ := hm
      have : fsGet db p = none := by
        rw [h.get (pathOf_desc hp)] at hg
        cases hd : fsGet db p with
        | none => rfl
        | some es => rw [hd] at hg; cases hg
      rw [h.storedValues_eq hp, this]; rfl
    · rfl
  | some c =>
    have h' := h.removeLines (v := v.map strip) hk hl hd hp hg
    refine ⟨_, _, rfl, h', fun q hq => by rw [fsGet_fsSet, if_neg hq], fun _ => by rw [fsGet_fsSet, if_pos rfl]; rfl,
      fun k' l' d' => ?_⟩
    rw [h.values_set h', storedValues_filter]
    by_cases hm : k' = k ∧ l' = l ∧ d' = d
    · obtain ⟨rfl, rfl, rfl⟩ := hm
      rw [if_pos hp, if_pos ⟨rfl, rfl, rfl⟩, if_pos ⟨rfl, rfl, rfl⟩, h.storedValues_eq hp]
      congr 1
      funext w
      unfold kept
      cases v.map strip <;> rfl
    · rw [if_neg hm, if_neg hm]
      split
      · rename_i hp'
        rw [h.storedValues_eq hp']
      · rfl

theorem keyText_stable (hx : x.Stable) {t k : Str} (h : keyText x t = .ok k) : keyText x k = .ok k := by
  unfold keyText at h ⊢
  split at h
  · injection h with h
    subst h
    rfl
  · cases hp : x.parse t with
    | error e => rw [hp] at h; cases h
    | ok u =>
      rw [hp] at h
      injection h with h
      split
      · rename_i h0; rw [h0]
      · rw [← h, hx t u hp]; rfl

/-- What a removal without value does to the stored values. -/
def Erases (db db' : List (Str × List Entry)) (P : Str → Str → Str → Prop) [∀ k l d, Decidable (P k l d)] : Prop :=
  ∀ k l d, storedValues (allEntries db') k l d = if P k l d then [] else storedValues (allEntries db) k l d

theorem filter_kept_none (l : List Str) : l.filter (kept none) = [] := by
  rw [List.filter_eq_nil_iff]; intro a _; simp [kept]

/-- Removing in turn for the descriptors of a list. -/
theorem Holds.removeDescs {k l p : Str} (hx : keyText x k = .ok k)
    (hp : pathOf x k true true = .ok p) (hk : NoQuote k) (hl : l ∈ languages) :
    ∀ (ds : List Str) (fs : FS) (db : List (Str × List Entry)), Holds x fs db → (∀ d ∈ ds, d ∈ descriptorClasses) →
    ∃ fs' db', ds.foldlM (fun fs d => Verif.removeBoth x fs (some k) l d none true) fs = .ok fs' ∧ Holds x fs' db' ∧
      (∀ q, q ≠ p → fsGet fs' q = fsGet fs q) ∧ ((fsGet fs p).isSome → (fsGet fs' p).isSome) ∧
      Erases db db' fun k' l' d' => k' = k ∧ l' = l ∧ d' ∈ ds
  | [], fs, db, h, _ => ⟨fs, db, rfl, h, fun _ _ => rfl, id, fun k' l' d' => by simp⟩
  | d :: ds, fs, db, h, hd => by
    obtain ⟨fs1, db1, e1, h1, hq1, hs1, hv1⟩ := h.removeBoth (v := none) hx hp hk hl (hd d (by simp))
    obtain ⟨fs2, db2, e2, h2, hq2, hs2, hv2⟩ := removeDescs hx hp hk hl ds fs1 db1 h1 fun a ha => hd a (by simp [ha])
    refine ⟨fs2, db2, ?_, h2, fun q hq => (hq2 q hq).trans (hq1 q hq), fun hs => hs2 (hs1 hs), fun k' l' d' => ?_⟩
    · rw [List.foldlM_cons, e1]; exact e2
    · rw [hv2, hv1, Option.map_none, filter_kept_none]
      by_cases a : k' = k <;> by_cases b : l' = l <;> by_cases c : d' = d <;> by_cases e : d' ∈ ds <;>
        simp [a, b, c, e]

/-- Removing for a language and possibly a descriptor, without value. -/
theorem Holds.removeLang {k l p : Str} {desc : Option Str} (h : Holds x fs db) (hx : keyText x k = .ok k)
    (hp : pathOf x k true true = .ok p) (hk : NoQuote k) (hl : l ∈ languages) (hd : ∀ d ∈ desc, d ∈ descriptorClasses) :
    ∃ fs' db', Verif.removeLang x fs (some k) l desc none true = .ok fs' ∧ Holds x fs' db' ∧
      (∀ q, q ≠ p → fsGet fs' q = fsGet fs q) ∧ ((fsGet fs p).isSome → (fsGet fs' p).isSome) ∧
      Erases db db' fun k' l' d' => k' = k ∧ l' = l ∧ (desc = none ∧ d' ∈ descriptorClasses ∨ desc = some d') := by
  cases desc with
  | some d =>
    obtain ⟨fs1, db1, e1, h1, hq1, hs1, hv1⟩ := h.removeBoth (v := none) hx hp hk hl (hd d rfl)
    refine ⟨fs1, db1, e1, h1, hq1, hs1, fun k' l' d' => ?_⟩
    rw [hv1, Option.map_none, filter_kept_none]
    have hc : (some d = some d') = (d' = d) := by rw [Option.some.injEq]; exact propext eq_comm
    simp only [hc, reduceCtorEq, false_and, false_or]
  | none =>
    have e0 : normalizeKey x (some k) (some l) none true true false = .ok (some k, some l, none) :=
      normalizeKey_part hx (by simpa using hl) (by simp)
    unfold Verif.removeLang
    simp only [e0, bind, Except.bind, hp]
    cases hg : fsGet fs p with
    | none =>
      refine ⟨fs, db, rfl, h, fun _ _ => rfl, (fun h => absurd h (by simp)), fun k' l' d' => ?_⟩
      split
      · rename_i hm
        rw [hm.1]
        have : fsGet db p = none := by
          rw [h.get (pathOf_desc hp)] at hg
          cases hd : fsGet db p with
          | none => rfl
          | some es => rw [hd] at hg; cases hg
        rw [h.storedValues_eq hp, this]; rfl
      · rfl
    | some c =>
      obtain ⟨fs1, db1, e1, h1, hq1, hs1, hv1⟩ := removeDescs hx hp hk hl descriptorClasses fs db h fun _ h => h
      refine ⟨fs1, db1, e1, h1, hq1, fun _ => hs1 (by rw [hg]; rfl), fun k' l' d' => ?_⟩
      rw [hv1]
      by_cases a : k' = k <;> by_cases b : l' = l <;> by_cases c : d' ∈ descriptorClasses <;> simp [a, b, c]

/-- Removing in turn for the languages of a list. -/
theorem Holds.removeLangs {k p : Str} {desc : Option Str} (hx : keyText x k = .ok k)
    (hp : pathOf x k true true = .ok p) (hk : NoQuote k) (hd : ∀ d ∈ desc, d ∈ descriptorClasses) :
    ∀ (ls : List Str) (fs : FS) (db : List (Str × List Entry)), Holds x fs db → (∀ l ∈ ls, l ∈ languages) →
    ∃ fs' db', ls.foldlM (fun fs l => Verif.removeLang x fs (some k) l desc none true) fs = .ok fs' ∧ Holds x fs' db' ∧
      (∀ q, q ≠ p → fsGet fs' q = fsGet fs q) ∧
      Erases db db' fun k' l' d' => k' = k ∧ l' ∈ ls ∧ (desc = none ∧ d' ∈ descriptorClasses ∨ desc = some d')
  | [], fs, db, h, _ => ⟨fs, db, rfl, h, fun _ _ => rfl, fun k' l' d' => by simp⟩
  | l :: ls, fs, db, h, hl => by
    obtain ⟨fs1, db1, e1, h1, hq1, _, hv1⟩ := h.removeLang hx hp hk (hl l (by simp)) hd
    obtain ⟨fs2, db2, e2, h2, hq2, hv2⟩ := removeLangs hx hp hk hd ls fs1 db1 h1 fun a ha => hl a (by simp [ha])
    refine ⟨fs2, db2, ?_, h2, fun q hq => (hq2 q hq).trans (hq1 q hq), fun k' l' d' => ?_⟩
    · rw [List.foldlM_cons, e1]; exact e2
    · rw [hv2, hv1]
      by_cases c : (desc = none ∧ d' ∈ descriptorClasses ∨ desc = some d')
      · simp only [c, and_true, List.mem_cons]
        by_cases a : k' = k <;> by_cases b : l' = l <;> by_cases e : l' ∈ ls <;> simp [a, b, e]
      · simp only [c, and_false, if_false]

/-- Removing without language. -/
theorem Holds.removeDescriptor_none {t k p : Str} {desc v : Option Str} (h : Holds x fs db) (hx : x.Stable)
    (hkt : keyText x t = .ok k) (hp : pathOf x k true true = .ok p) (hk : NoQuote k) (hd : ∀ d ∈ desc, d ∈ descriptorClasses)
    (hnn : desc ≠ none ∨ v ≠ none) :
    ∃ fs' db', removeDescriptor x fs (some t) none desc v = .ok fs' ∧ Holds x fs' db' ∧
      (∀ q, q ≠ p → fsGet fs' q = fsGet fs q) ∧
      Erases db db' fun k' l' d' => k' = k ∧ l' ∈ languages ∧ (desc = none ∧ d' ∈ descriptorClasses ∨ desc = some d') := by
  unfold removeDescriptor
  simp only [normalizeKey_part hkt (lang := none) (by simp) hd, bind, Except.bind, hp]
  cases hg : fsGet fs p with
  | none =>
    refine ⟨fs, db, rfl, h, fun _ _ => rfl, fun k' l' d' => ?_⟩
    split
    · rename_i hm
      rw [hm.1]
      have : fsGet db p = none := by
        rw [h.get (pathOf_desc hp)] at hg
        cases hd : fsGet db p with
        | none => rfl
        | some es => rw [hd] at hg; cases hg
      rw [h.storedValues_eq hp, this]; rfl
    · rfl
  | some c =>
    have : (desc.isNone && v.isNone) = false := by
      rcases hnn with h | h
      · cases desc with | none => exact absurd rfl h | some => rfl
      · cases v with | none => exact absurd rfl h | some => simp
    simp only [this, Bool.false_eq_true, if_false]
    exact Holds.removeLangs (keyText_stable hx hkt) hp hk hd languages fs db h fun _ h => h

/-- Removing a whole key. -/
theorem Holds.removeDescriptor_all {t k p : Str} (h : Holds x fs db)
    (hkt : keyText x t = .ok k) (hp : pathOf x k true true = .ok p) :
    ∃ fs' db', removeDescriptor x fs (some t) none none none = .ok fs' ∧ Holds x fs' db' ∧ fsGet fs' p = none ∧
      (∀ q, q ≠ p → fsGet fs' q = fsGet fs q) ∧
      Erases db db' fun k' _ _ => pathOf x k' true true = .ok p := by
  unfold removeDescriptor
  simp only [normalizeKey_part hkt (lang := none) (desc := none) (by simp) (by simp), bind, Except.bind, hp]
  cases hg : fsGet fs p with
  | none =>
    refine ⟨fs, db, rfl, h, hg, fun _ _ => rfl, fun k' l' d' => ?_⟩
    split
    · rename_i hm
      have : fsGet db p = none := by
        rw [h.get (pathOf_desc hp)] at hg
        cases hd : fsGet db p with
        | none => rfl
        | some es => rw [hd] at hg; cases hg
      rw [h.storedValues_eq hm, this]; rfl
    · rfl
  | some c =>
    refine ⟨_, _, rfl, h.remove, by rw [fsGet_fsRemove, if_pos rfl], fun q hq => by rw [fsGet_fsRemove, if_neg hq],
      fun k' l' d' => h.values_remove k' l' d'⟩

/-- Removing for a language and no descriptor. -/
theorem Holds.removeDescriptor_lang {t k l p : Str} {v : Option Str} (h : Holds x fs db) (hx : x.Stable)
    (hkt : keyText x t = .ok k) (hp : pathOf x k true true = .ok p) (hk : NoQuote k) (hl : l ∈ languages) :
    ∃ fs' db', removeDescriptor x fs (some t) (some l) none v = .ok fs' ∧ Holds x fs' db' ∧
      (∀ q, q ≠ p → fsGet fs' q = fsGet fs q) ∧
      Erases db db' fun k' l' d' => k' = k ∧ l' = l ∧ d' ∈ descriptorClasses := by
  have hn : ∀ l' ∈ some l, l' ∈ languages := by simpa using hl
  unfold removeDescriptor Verif.removeLang
  simp only [normalizeKey_part hkt (desc := none) hn (by simp), bind, Except.bind, hp]
  cases hg : fsGet fs p with
  | none =>
    refine ⟨fs, db, rfl, h, fun _ _ => rfl, fun k' l' d' => ?_⟩
    split
    · rename_i hm
      rw [hm.1]
      have : fsGet db p = none := by
        rw [h.get (pathOf_desc hp)] at hg
        cases hd : fsGet db p with
        | none => rfl
        | some es => rw [hd] at hg; cases hg
      rw [h.storedValues_eq hp, this]; rfl
    · rfl
  | some c =>
    obtain ⟨fs1, db1, e1, h1, hq1, _, hv1⟩ :=
      Holds.removeDescs (keyText_stable hx hkt) hp hk hl descriptorClasses fs db h fun _ h => h
    exact ⟨fs1, db1, e1, h1, hq1, hv1⟩

/-- Adding, seen on the stored values. -/
theorem Holds.addDescriptor {t k l d v p : Str} (h : Holds x fs db) (hkt : keyText x t = .ok k)
    (hp : pathOf x k true true = .ok p) (hk : OneLine k) (hl : l ∈ languages) (hd : d ∈ descriptorClasses)
    (hv : '\r' ∉ strip v) :
    ∃ fs' db', Verif.addDescriptor x fs (some t) (some l) (some d) v = .ok fs' ∧ Holds x fs' db' ∧
      (∀ q, q ≠ p → fsGet fs' q = fsGet fs q) ∧
      ∀ k' l' d', storedValues (allEntries db') k' l' d' =
        if k' = k ∧ l' = l ∧ d' = d ∧ strip v ≠ [] then storedValues (allEntries db) k l d ++ [escapeNewlines (strip v)]
        else storedValues (allEntries db) k' l' d' := by
  rw [addDescriptor_eq hl hd, hkt]
  simp only [bind, Except.bind, hp]
  by_cases hs : strip v = []
  · rw [if_pos hs]
    exact ⟨fs, db, rfl, h, fun _ _ => rfl, fun k' l' d' => by simp [hs]⟩
  · rw [if_neg hs]
    have h' := h.add hk hv hl hd hp
    refine ⟨_, _, rfl, h', fun q hq => by rw [fsGet_fsSet, if_neg hq], fun k' l' d' => ?_⟩
    rw [h.values_set h']
    by_cases hm : k' = k ∧ l' = l ∧ d' = d
    · obtain ⟨rfl, rfl, rfl⟩ := hm
      rw [if_pos hp, if_pos ⟨rfl, rfl, rfl, hs⟩, h.storedValues_eq hp]
      unfold storedValues entryOf
      simp
    · have hm' : ¬(k' = k ∧ l' = l ∧ d' = d ∧ strip v ≠ []) := fun hc => hm ⟨hc.1, hc.2.1, hc.2.2.1⟩
      rw [if_neg hm']
      split
      · rename_i hp'
        rw [h.storedValues_eq hp']
        unfold storedValues
        rw [List.filter_append]
        have : [entryOf k l d v].filter (fun e => decide (e.key = k' ∧ e.lang = l' ∧ e.desc = d')) = [] := by
          rw [List.filter_eq_nil_iff]
          intro e he
          rw [List.mem_singleton.1 he]
          intro hP
          have hP := of_decide_eq_true hP
          exact hm ⟨hP.1.symm, hP.2.1.symm, hP.2.2.symm⟩
        rw [this, List.append_nil]
      · rfl

end Verif
