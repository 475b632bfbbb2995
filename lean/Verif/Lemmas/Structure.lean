import Verif.Lemmas.DatabaseOps
import Verif.Props.Keys

/-
The structure files in terms of the stored settings.
-/

namespace Verif
variable {x : Ext} {fs fs' : FS}

/-- One stored setting. -/
structure Setting where
  key : Str
  attr : Str
  value : Str
  deriving DecidableEq, Repr

/-- A setting that fits on one line without escaping. -/
structure Setting.Fits (e : Setting) : Prop where
  key : OneLine e.key ∧ NoQuote e.key
  attr : e.attr ∈ structureKeys
  value : OneLine e.value ∧ NoQuote e.value
  inhibition : e.attr = c!"inhibition" → e.value ∈ inhibitableRelations

/-- The line of a setting. -/
def settingLine (k a v : Str) : Str := c!"\"" ++ k ++ c!"\" " ++ a ++ c!" \"" ++ v ++ c!"\"\n"

/-- The structure files hold the settings `db`, file by file. -/
structure SHolds (x : Ext) (fs : FS) (db : List (Str × List Setting)) : Prop where
  files : fs.filter (fun f => endsWith f.1 (c!".ieml")) =
    db.map fun f => (f.1, f.2.flatMap fun e => settingLine e.key e.attr e.value)
  once : (fs.map (·.1)).Nodup
  fits : ∀ f ∈ db, ∀ e ∈ f.2, e.Fits
  place : ∀ f ∈ db, ∀ e ∈ f.2, pathOf x e.key false true = .ok f.1

theorem structureKeys_plain {a : Str} (h : a ∈ structureKeys) : a ≠ [] ∧ Csv.Plainly a := by
  simp only [structureKeys, List.mem_cons, List.not_mem_nil, or_false] at h
  rcases h with rfl | rfl | rfl <;> exact ⟨by decide, by unfold Csv.Plainly; decide⟩

theorem doubleQuotes_id : ∀ {s : Str}, NoQuote s → doubleQuotes s = s
  | [], _ => rfl
  | c :: s, h => by
    have h1 : c ≠ '"' := fun e => h (by simp [e])
    have h2 : NoQuote s := fun e => h (by simp [e])
    simp only [doubleQuotes, if_neg h1, doubleQuotes_id h2]

/-- The body of a line. -/
def settingBody (k a v : Str) : Str := '"' :: (k ++ '"' :: ' ' :: (a ++ ' ' :: ('"' :: (v ++ ['"']))))

theorem settingLine_eq (k a v : Str) : settingLine k a v = settingBody k a v ++ ['\n'] := by
  simp [settingLine, settingBody]

theorem settingBody_clean {e : Setting} (h : e.Fits) {c : Char} (hc : c = '\n' ∨ c = '\r') :
    c ∉ settingBody e.key e.attr e.value := by
  have h1 : c ∉ e.key := by rcases hc with rfl | rfl; exact h.key.1.1; exact h.key.1.2
  have h2 : c ∉ e.value := by rcases hc with rfl | rfl; exact h.value.1.1; exact h.value.1.2
  have h3 : c ∉ e.attr := fun hm => by
    have := (structureKeys_plain h.attr).2 c hm
    rcases hc with rfl | rfl
    · exact this.2.2.1 rfl
    · exact this.2.2.2 rfl
  unfold settingBody
  simp only [List.mem_cons, List.mem_append, h1, h2, h3, List.not_mem_nil, or_false, false_or]
  rcases hc with rfl | rfl <;> decide

/-- The text of a list of settings. -/
def sRender (es : List Setting) : Str := es.flatMap fun e => settingLine e.key e.attr e.value

theorem sRun_line {e : Setting} (h : e.Fits) (out : List (List Str)) (rest : Str) :
    (Csv.mk .startRecord [] [] out).run (settingLine e.key e.attr e.value ++ rest) =
      (Csv.mk .startRecord [] [] (out ++ [[e.key, e.attr, e.value]])).run rest := by
  have e1 : settingLine e.key e.attr e.value ++ rest =
      '"' :: (doubleQuotes e.key ++ '"' :: ' ' :: (e.attr ++ ' ' ::
        ('"' :: (doubleQuotes e.value ++ '"' :: '\n' :: rest)))) := by
    rw [doubleQuotes_id h.key.2, doubleQuotes_id h.value.2]; simp [settingLine]
  rw [e1, Csv.run_quoted_space _ (.inl rfl),
    Csv.run_word_space _ _ (structureKeys_plain h.attr).1 (structureKeys_plain h.attr).2, Csv.run_quoted_end]
  rfl

theorem sRun_render : ∀ {es : List Setting} (_ : ∀ e ∈ es, e.Fits) (out : List (List Str)),
    (Csv.mk .startRecord [] [] out).run (sRender es) =
      .ok ⟨.startRecord, [], [], out ++ es.map fun e => [e.key, e.attr, e.value]⟩
  | [], _, out => by simp [sRender, Csv.run_nil]
  | e :: es, h, out => by
    unfold sRender
    rw [List.flatMap_cons, sRun_line (h e (by simp))]
    have := sRun_render (es := es) (fun a ha => h a (by simp [ha])) (out ++ [[e.key, e.attr, e.value]])
    unfold sRender at this
    rw [this]
    simp

theorem csvRead_sRender {es : List Setting} (h : ∀ e ∈ es, e.Fits) :
    csvRead (sRender es) = .ok (es.map fun e => [e.key, e.attr, e.value]) := by
  unfold csvRead Csv.init
  rw [sRun_render h]
  simp [Except.map, Csv.finish]

theorem dropLines_sRender {es : List Setting} (h : ∀ e ∈ es, e.Fits) (pre : Str) (P : Setting → Bool)
    (hP : ∀ e ∈ es, startsWith (settingLine e.key e.attr e.value) pre = P e) :
    dropLines (sRender es) pre = sRender (es.filter fun e => !P e) := by
  have e1 : sRender es = es.flatMap fun e => settingBody e.key e.attr e.value ++ ['\n'] := by
    unfold sRender
    apply List.flatMap_congr
    intro e he
    exact settingLine_eq _ _ _
  have hr : '\r' ∉ sRender es := by
    rw [e1, List.mem_flatMap]
    rintro ⟨e, he, hm⟩
    rw [List.mem_append, List.mem_singleton] at hm
    rcases hm with hm | hm
    · exact settingBody_clean (h e he) (.inr rfl) hm
    · exact absurd hm (by decide)
  unfold dropLines
  rw [universalNewlines_id hr, e1, splitLines_flatMap fun e he => settingBody_clean (h e he) (.inl rfl), List.filter_map]
  have e2 : es.filter ((fun l => !startsWith l pre) ∘ fun e => settingBody e.key e.attr e.value ++ ['\n']) =
      es.filter fun e => !P e := by
    apply List.filter_congr
    intro e he
    simp only [Function.comp]
    rw [← settingLine_eq, hP e he]
  rw [e2]
  unfold sRender
  rw [List.flatMap_def]
  congr 1
  apply List.map_congr_left
  intro e _
  exact (settingLine_eq _ _ _).symm

/-- The lines deleted for a value. -/
theorem startsWith_setting {e : Setting} (he : e.Fits) {k a v : Str} (hk : NoQuote k) (ha : a ∈ structureKeys) :
    startsWith (settingLine e.key e.attr e.value) (c!"\"" ++ k ++ c!"\" " ++ a ++ c!" " ++ (c!"\"" ++ v ++ c!"\"")) =
      decide (e.key = k ∧ e.attr = a ∧ e.value = v) := by
  rw [Bool.eq_iff_iff, decide_eq_true_eq]
  unfold startsWith
  rw [List.isPrefixOf_iff_prefix]
  have e1 : (c!"\"" ++ k ++ c!"\" " ++ a ++ c!" " ++ (c!"\"" ++ v ++ c!"\"") : Str) =
      '"' :: (k ++ '"' :: ' ' :: (a ++ ' ' :: ('"' :: (v ++ ['"'])))) := by simp
  have e2 : settingLine e.key e.attr e.value = '"' :: (doubleQuotes e.key ++ '"' :: ' ' :: (e.attr ++ ' ' ::
      ('"' :: (e.value ++ ['"', '\n'])))) := by rw [doubleQuotes_id he.key.2]; simp [settingLine]
  rw [e1, e2, List.cons_prefix_cons, prefix_key _ _ hk,
    prefix_word _ _ (no_space (structureKeys_plain ha).2) (no_space (structureKeys_plain he.attr).2), List.cons_prefix_cons]
  simp only [true_and]
  have key : ∀ {v w : Str}, NoQuote w → ((v ++ ['"']) <+: (w ++ ['"', '\n']) ↔ w = v ∨ ∃ u, v = w ++ '"' :: u ∧ (u ++ ['"']) <+: ['\n']) := by
    intro v
    induction v with
    | nil =>
      intro w hw
      cases w with
      | nil => simp [List.cons_prefix_cons]
      | cons d w =>
        have : d ≠ '"' := fun e => hw (by simp [e])
        simp [List.cons_prefix_cons, Ne.symm this]
    | cons c v ih =>
      intro w hw
      cases w with
      | nil =>
        simp only [List.cons_append, List.nil_append, List.cons_prefix_cons, List.nil_eq, reduceCtorEq, false_or, List.cons.injEq]
        constructor
        · rintro ⟨rfl, h⟩; exact ⟨v, ⟨rfl, rfl⟩, h⟩
        · rintro ⟨u, ⟨rfl, rfl⟩, h⟩; exact ⟨rfl, h⟩
      | cons d w =>
        have hw' : NoQuote w := fun e => hw (by simp [e])
        simp only [List.cons_append, List.cons_prefix_cons, ih hw', List.cons.injEq]
        constructor
        · rintro ⟨rfl, h | ⟨u, h, h'⟩⟩
          · exact .inl ⟨rfl, h⟩
          · exact .inr ⟨u, ⟨rfl, h⟩, h'⟩
        · rintro (⟨rfl, h⟩ | ⟨u, ⟨rfl, h⟩, h'⟩)
          · exact ⟨rfl, .inl h⟩
          · exact ⟨rfl, .inr ⟨u, h, h'⟩⟩
  rw [key he.value.2]
  have hno : ∀ u : Str, ¬(u ++ ['"']) <+: ['\n'] := by
    intro u h
    have hl := h.length_le
    simp only [List.length_append, List.length_cons, List.length_nil] at hl
    have : u = [] := List.length_eq_zero_iff.1 (by omega)
    subst this
    revert h; decide
  constructor
  · rintro ⟨rfl, rfl, h | ⟨u, _, h⟩⟩
    · exact ⟨rfl, rfl, h⟩
    · exact absurd h (hno u)
  · rintro ⟨rfl, rfl, rfl⟩; exact ⟨rfl, rfl, .inl rfl⟩

/-! ### Files -/

variable {db : List (Str × List Setting)}

/-- The settings of all the files. -/
def allSettings (db : List (Str × List Setting)) : List Setting := db.flatMap (·.2)

/-- The values stored for a key and a structure key. -/
def settingValues (es : List Setting) (k a : Str) : List Str :=
  (es.filter fun e => decide (e.key = k ∧ e.attr = a)).map (·.value)

theorem SHolds.files' (h : SHolds x fs db) :
    fs.filter (fun f => endsWith f.1 (c!".ieml")) = db.map fun f => (f.1, sRender f.2) := h.files

theorem SHolds.nodup (h : SHolds x fs db) : (db.map (·.1)).Nodup := by
  have h1 : db.map (·.1) = (fs.filter fun f => endsWith f.1 (c!".ieml")).map (·.1) := by
    rw [h.files', List.map_map]; rfl
  rw [h1]
  exact h.once.sublist (List.Sublist.map _ List.filter_sublist)

theorem SHolds.get (h : SHolds x fs db) {p : Str} (hp : endsWith p (c!".ieml") = true) :
    fsGet fs p = (fsGet db p).map sRender := by
  rw [← fsGet_filter (P := fun p => endsWith p (c!".ieml")) hp, h.files', fsGet_map]

theorem SHolds.getStructure (h : SHolds x fs db) (hne : allSettings db ≠ []) :
    getStructure fs = .ok ((allSettings db).map fun e => (e.key, e.attr, e.value)) := by
  unfold Verif.getStructure
  have e1 : (fs.filter fun f => endsWith f.1 (c!".ieml")).flatMap (·.2) = sRender (allSettings db) := by
    rw [h.files']
    unfold sRender allSettings
    rw [List.flatMap_map, List.flatMap_assoc]
  rw [e1, csvRead_sRender]
  · have : ((allSettings db).map fun e => [e.key, e.attr, e.value]).isEmpty = false := by
      cases h : allSettings db with
      | nil => exact absurd h hne
      | cons => rfl
    simp only [bind, Except.bind, this, Bool.false_eq_true, if_false]
    rw [List.mapM_map]
    exact mapM_ok_map fun e _ => rfl
  · intro e he
    obtain ⟨f, hf, he⟩ := List.mem_flatMap.1 he
    exact h.fits f hf e he

theorem SHolds.getStructure_empty (h : SHolds x fs db) (hne : allSettings db = []) :
    Verif.getStructure fs = .error .valueError := by
  unfold Verif.getStructure
  have e1 : (fs.filter fun f => endsWith f.1 (c!".ieml")).flatMap (·.2) = sRender (allSettings db) := by
    rw [h.files']
    unfold sRender allSettings
    rw [List.flatMap_map, List.flatMap_assoc]
  rw [e1, hne]
  rfl

theorem SHolds.values (h : SHolds x fs db) (hne : allSettings db ≠ []) {k a : Str} (ha : a ∈ structureKeys) :
    structureValues fs k a = .ok (settingValues (allSettings db) k a) := by
  unfold Verif.structureValues
  rw [h.getStructure hne]
  have h1 : (!structureKeys.contains a) = false := by simp [ha]
  simp only [bind, Except.bind, h1, Bool.false_eq_true, if_false, pure, Except.pure]
  unfold settingValues
  rw [List.filter_map, List.map_map]
  rfl

theorem SHolds.values_eq (h : SHolds x fs db) {k p : Str} (hp : pathOf x k false true = .ok p) (a : Str) :
    settingValues (allSettings db) k a = settingValues ((fsGet db p).getD []) k a := by
  unfold settingValues allSettings
  rw [flatMap_filter_get h.nodup]
  intro f hf e he hP
  simp only [decide_eq_true_eq] at hP
  have := h.place f hf e he
  rw [hP.1, hp] at this
  injection this with this
  exact this.symm

theorem SHolds.values_nil (h : SHolds x fs db) {k : Str} (hp : ∀ p, pathOf x k false true ≠ .ok p) (a : Str) :
    settingValues (allSettings db) k a = [] := by
  unfold settingValues allSettings
  rw [List.map_eq_nil_iff, List.filter_eq_nil_iff]
  intro e he hP
  simp only [decide_eq_true_eq] at hP
  obtain ⟨f, hf, he⟩ := List.mem_flatMap.1 he
  have := h.place f hf e he
  rw [hP.1] at this
  exact hp _ this

theorem SHolds.set (h : SHolds x fs db) {p : Str} (hp : endsWith p (c!".ieml") = true) {es : List Setting}
    (hf : ∀ e ∈ es, e.Fits) (hpl : ∀ e ∈ es, pathOf x e.key false true = .ok p) :
    SHolds x (fsSet fs p (sRender es)) (fsSet db p es) := by
  have hmem : ∀ f ∈ fsSet db p es, f ∈ db ∨ f = (p, es) := by
    intro f hf
    unfold fsSet at hf
    split at hf
    · obtain ⟨g, hg, rfl⟩ := List.mem_map.1 hf
      split
      · exact .inr rfl
      · exact .inl hg
    · rcases List.mem_append.1 hf with hf | hf
      · exact .inl hf
      · exact .inr (by simpa using hf)
  constructor
  · rw [fsSet_filter (P := fun p => endsWith p (c!".ieml")) hp, h.files', fsSet_map]
    rfl
  · exact fsSet_nodup h.once
  · intro f hfm e he
    rcases hmem f hfm with hf' | rfl
    · exact h.fits f hf' e he
    · exact hf e he
  · intro f hfm e he
    rcases hmem f hfm with hf' | rfl
    · exact h.place f hf' e he
    · exact hpl e he

theorem SHolds.values_set (h : SHolds x fs db) {p : Str} {es : List Setting} (h' : SHolds x fs' (fsSet db p es)) (k a : Str) :
    settingValues (allSettings (fsSet db p es)) k a =
      if pathOf x k false true = .ok p then settingValues es k a else settingValues (allSettings db) k a := by
  split
  · rename_i hk
    rw [h'.values_eq hk, fsGet_fsSet, if_pos rfl]; rfl
  · rename_i hk
    cases hq : pathOf x k false true with
    | error e =>
      rw [h'.values_nil (by rw [hq]; simp), h.values_nil (by rw [hq]; simp)]
    | ok q =>
      have : q ≠ p := fun e => hk (by rw [hq, e])
      rw [h'.values_eq hq, h.values_eq hq, fsGet_fsSet, if_neg this]

theorem SHolds.fits_get (h : SHolds x fs db) {p : Str} :
    ∀ e ∈ (fsGet db p).getD [], e.Fits ∧ pathOf x e.key false true = .ok p := by
  intro e he
  cases hg : fsGet db p with
  | none => rw [hg] at he; cases he
  | some es =>
    rw [hg] at he
    have := fsGet_mem hg
    exact ⟨h.fits _ this e he, h.place _ this e he⟩

theorem inhibition_word {v : Str} (hv : v ∈ inhibitableRelations) : OneLine v ∧ NoQuote v ∧ v ≠ [] := by
  simp only [inhibitableRelations, List.mem_cons, List.not_mem_nil, or_false] at hv
  rcases hv with rfl | rfl | rfl | rfl | rfl | rfl | rfl <;> decide

theorem normalizeKey_inhibition {k v : Str} {part : Bool} (hk : keyText x k = .ok k) (hv : v ∈ inhibitableRelations) :
    normalizeKey x (some k) (some (c!"inhibition")) (some v) true part true =
      .ok (some k, some (c!"inhibition"), some v) := by
  rw [normalizeKey_struct_iff, normalizeStructure_iff]
  refine ⟨.inr ⟨by simp, _, rfl, by decide⟩, normalizeIeml_some.2 hk, ?_, rfl, .inr (.inl ⟨⟨v, rfl, (inhibition_word hv).2.2⟩, rfl, hv, rfl⟩)⟩
  intro s hs _
  injection hs with hs
  subst hs; decide

theorem SHolds.addInhibition (h : SHolds x fs db) {k p v : Str} (hkt : keyText x k = .ok k)
    (hp : pathOf x k false true = .ok p) (hk : OneLine k ∧ NoQuote k) (hv : v ∈ inhibitableRelations) :
    ∃ fs' db', addStructure x fs (some k) (some (c!"inhibition")) (some v) = .ok fs' ∧ SHolds x fs' db' ∧
      ∀ k' a, settingValues (allSettings db') k' a =
        if k' = k ∧ a = c!"inhibition" then settingValues (allSettings db) k (c!"inhibition") ++ [v]
        else settingValues (allSettings db) k' a := by
  unfold addStructure
  rw [normalizeKey_inhibition hkt hv]
  simp only [bind, Except.bind, hp, pure, Except.pure]
  have hf : (Setting.mk k (c!"inhibition") v).Fits :=
    ⟨hk, (by decide : c!"inhibition" ∈ structureKeys), ⟨(inhibition_word hv).1, (inhibition_word hv).2.1⟩, fun _ => hv⟩
  have e1 : (fsGet fs p).getD [] ++ (c!"\"" ++ k ++ c!"\" " ++ c!"inhibition" ++ c!" \"" ++ v ++ c!"\"\n") =
      sRender ((fsGet db p).getD [] ++ [Setting.mk k (c!"inhibition") v]) := by
    rw [h.get (pathOf_ieml hp)]
    unfold sRender
    rw [List.flatMap_append]
    congr 1
    · cases fsGet db p <;> rfl
    · simp [settingLine]
  rw [e1]
  have h' := h.set (es := (fsGet db p).getD [] ++ [Setting.mk k (c!"inhibition") v]) (pathOf_ieml hp)
    (by
      intro e he
      rcases List.mem_append.1 he with he | he
      · exact (h.fits_get e he).1
      · rw [List.mem_singleton.1 he]; exact hf)
    (by
      intro e he
      rcases List.mem_append.1 he with he | he
      · exact (h.fits_get e he).2
      · rw [List.mem_singleton.1 he]; exact hp)
  refine ⟨_, _, rfl, h', fun k' a => ?_⟩
  rw [h.values_set h']
  by_cases hm : k' = k ∧ a = c!"inhibition"
  · obtain ⟨rfl, rfl⟩ := hm
    rw [if_pos hp, if_pos ⟨rfl, rfl⟩, h.values_eq hp]
    unfold settingValues
    simp
  · rw [if_neg hm]
    split
    · rename_i hp'
      rw [h.values_eq hp']
      unfold settingValues
      rw [List.filter_append]
      have : [Setting.mk k (c!"inhibition") v].filter (fun e => decide (e.key = k' ∧ e.attr = a)) = [] := by
        rw [List.filter_eq_nil_iff]
        intro e he
        rw [List.mem_singleton.1 he]
        intro hP
        have hP := of_decide_eq_true hP
        exact hm ⟨hP.1.symm, hP.2.symm⟩
      rw [this, List.append_nil]
    · rfl

theorem SHolds.removeInhibition (h : SHolds x fs db) {k p v : Str} (hkt : keyText x k = .ok k)
    (hp : pathOf x k false true = .ok p) (hk : OneLine k ∧ NoQuote k) (hv : v ∈ inhibitableRelations) :
    ∃ fs' db', removeStructure x fs (some k) (some (c!"inhibition")) (some v) = .ok fs' ∧ SHolds x fs' db' ∧
      ∀ k' a, settingValues (allSettings db') k' a =
        if k' = k ∧ a = c!"inhibition" then (settingValues (allSettings db) k (c!"inhibition")).filter (fun w => decide (w ≠ v))
        else settingValues (allSettings db) k' a := by
  unfold removeStructure
  rw [normalizeKey_inhibition hkt hv]
  simp only [bind, Except.bind, hp, pure, Except.pure]
  cases hg : fsGet fs p with
  | none =>
    refine ⟨fs, db, rfl, h, fun k' a => ?_⟩
    split
    · rename_i hm
      obtain ⟨rfl, rfl⟩ := hm
      have : fsGet db p = none := by
        rw [h.get (pathOf_ieml hp)] at hg
        cases hd : fsGet db p with
        | none => rfl
        | some es => rw [hd] at hg; cases hg
      rw [h.values_eq hp, this]; rfl
    · rfl
  | some c =>
    have e1 : c = sRender ((fsGet db p).getD []) := by
      rw [h.get (pathOf_ieml hp)] at hg
      cases hd : fsGet db p with
      | none => rw [hd] at hg; cases hg
      | some es => rw [hd] at hg; injection hg with hg; exact hg.symm
    obtain ⟨v0, vs, rfl⟩ : ∃ v0 vs, v = v0 :: vs := by
      cases v with
      | nil => exact absurd rfl (inhibition_word hv).2.2
      | cons a b => exact ⟨a, b, rfl⟩
    simp only
    rw [e1, dropLines_sRender (fun e he => (h.fits_get e he).1) _
      (fun e => decide (e.key = k ∧ e.attr = c!"inhibition" ∧ e.value = v0 :: vs))
      (fun e he => startsWith_setting (h.fits_get e he).1 hk.2 (by decide))]
    have h' := h.set (es := ((fsGet db p).getD []).filter
        fun e => !decide (e.key = k ∧ e.attr = c!"inhibition" ∧ e.value = v0 :: vs)) (pathOf_ieml hp)
      (fun e he => (h.fits_get e (List.mem_filter.1 he).1).1) (fun e he => (h.fits_get e (List.mem_filter.1 he).1).2)
    refine ⟨_, _, rfl, h', fun k' a => ?_⟩
    rw [h.values_set h']
    by_cases hm : k' = k ∧ a = c!"inhibition"
    · obtain ⟨rfl, rfl⟩ := hm
      rw [if_pos hp, if_pos ⟨rfl, rfl⟩, h.values_eq hp]
      unfold settingValues
      rw [List.filter_filter, List.filter_map, List.filter_filter]
      congr 1
      apply List.filter_congr
      intro e _
      by_cases a : e.key = k' <;> by_cases b : e.attr = c!"inhibition" <;> by_cases c : e.value = v0 :: vs <;> simp [a, b, c]
    · rw [if_neg hm]
      split
      · rename_i hp'
        rw [h.values_eq hp']
        unfold settingValues
        rw [List.filter_filter]
        congr 1
        apply List.filter_congr
        intro e _
        by_cases hP : e.key = k' ∧ e.attr = a
        · have : ¬(e.key = k ∧ e.attr = c!"inhibition" ∧ e.value = v0 :: vs) := fun h =>
            hm ⟨hP.1.symm.trans h.1, hP.2.symm.trans h.2.1⟩
          rw [decide_eq_false this, Bool.not_false, Bool.and_true]
        · rw [decide_eq_false hP, Bool.false_and]
      · rfl

theorem SHolds.addInhibitions {k p : Str} (hkt : keyText x k = .ok k)
    (hp : pathOf x k false true = .ok p) (hk : OneLine k ∧ NoQuote k) :
    ∀ (vs : List Str) (fs : FS) (db : List (Str × List Setting)), SHolds x fs db → (∀ v ∈ vs, v ∈ inhibitableRelations) →
    ∃ fs' db', vs.foldlM (fun fs e => addStructure x fs (some k) (some (c!"inhibition")) (some e)) fs = .ok fs' ∧ SHolds x fs' db' ∧
      ∀ k' a, settingValues (allSettings db') k' a =
        if k' = k ∧ a = c!"inhibition" then settingValues (allSettings db) k (c!"inhibition") ++ vs
        else settingValues (allSettings db) k' a
  | [], fs, db, h, _ => ⟨fs, db, rfl, h, fun k' a => by
      split
      · rename_i hm; obtain ⟨rfl, rfl⟩ := hm; simp
      · rfl⟩
  | v :: vs, fs, db, h, hv => by
    obtain ⟨fs1, db1, e1, h1, hv1⟩ := h.addInhibition hkt hp hk (hv v (by simp))
    obtain ⟨fs2, db2, e2, h2, hv2⟩ := addInhibitions hkt hp hk vs fs1 db1 h1 fun w hw => hv w (by simp [hw])
    refine ⟨fs2, db2, ?_, h2, fun k' a => ?_⟩
    · rw [List.foldlM_cons, e1]; exact e2
    · rw [hv2]
      split
      · rw [hv1, if_pos ⟨rfl, rfl⟩]; simp
      · rename_i hm; rw [hv1, if_neg hm]

theorem SHolds.removeInhibitions {k p : Str} (hkt : keyText x k = .ok k)
    (hp : pathOf x k false true = .ok p) (hk : OneLine k ∧ NoQuote k) :
    ∀ (vs : List Str) (fs : FS) (db : List (Str × List Setting)), SHolds x fs db → (∀ v ∈ vs, v ∈ inhibitableRelations) →
    ∃ fs' db', vs.foldlM (fun fs e => removeStructure x fs (some k) (some (c!"inhibition")) (some e)) fs = .ok fs' ∧
      SHolds x fs' db' ∧
      ∀ k' a, settingValues (allSettings db') k' a =
        if k' = k ∧ a = c!"inhibition" then
          (settingValues (allSettings db) k (c!"inhibition")).filter (fun w => decide (w ∉ vs))
        else settingValues (allSettings db) k' a
  | [], fs, db, h, _ => ⟨fs, db, rfl, h, fun k' a => by
      split
      · rename_i hm; obtain ⟨rfl, rfl⟩ := hm; simp
      · rfl⟩
  | v :: vs, fs, db, h, hv => by
    obtain ⟨fs1, db1, e1, h1, hv1⟩ := h.removeInhibition hkt hp hk (hv v (by simp))
    obtain ⟨fs2, db2, e2, h2, hv2⟩ := removeInhibitions hkt hp hk vs fs1 db1 h1 fun w hw => hv w (by simp [hw])
    refine ⟨fs2, db2, ?_, h2, fun k' a => ?_⟩
    · rw [List.foldlM_cons, e1]; exact e2
    · rw [hv2]
      split
      · rw [hv1, if_pos ⟨rfl, rfl⟩, List.filter_filter]
        apply List.filter_congr
        intro w _
        by_cases a : w = v <;> by_cases b : w ∈ vs <;> simp [a, b]
      · rename_i hm; rw [hv1, if_neg hm]

theorem SHolds.inhibitions_valid (h : SHolds x fs db) {k : Str} :
    ∀ v ∈ settingValues (allSettings db) k (c!"inhibition"), v ∈ inhibitableRelations := by
  intro v hv
  unfold settingValues at hv
  obtain ⟨e, he, rfl⟩ := List.mem_map.1 hv
  obtain ⟨he, hP⟩ := List.mem_filter.1 he
  obtain ⟨f, hf, he⟩ := List.mem_flatMap.1 he
  exact (h.fits f hf e he).inhibition (of_decide_eq_true hP).2

end Verif
