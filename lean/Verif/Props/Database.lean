import Verif.Props.Keys
import Verif.Lemmas.PySort

/-
Properties of the descriptor files (C28 to C32).
-/

namespace Verif
variable {x : Ext} {fs fs' : FS}

/-! ### A small instance of the external functions, for the examples -/

/-- A parser that accepts every text that is not blank, up to the spaces around it; the digest keeps the end of the text. -/
def demo : Ext where
  parse t := if strip t = [] then .error .cannotParse else .ok ⟨strip t, .morpheme, true⟩
  digest t := (t.reverse.take 10)

theorem dropWhile_of_head {P : Char → Bool} : ∀ {s : Str}, (∀ c ∈ s.head?, P c = false) → s.dropWhile P = s
  | [], _ => rfl
  | c :: s, h => by rw [List.dropWhile_cons, h c rfl]; rfl

theorem head_dropWhile (P : Char → Bool) : ∀ s : Str, ∀ c ∈ (s.dropWhile P).head?, P c = false
  | [], c, h => by cases h
  | d :: s, c, h => by
    rw [List.dropWhile_cons] at h
    split at h
    · exact head_dropWhile P s c h
    · rename_i hd
      injection h with h
      rw [← h]; simpa using hd

theorem last_dropWhile (P : Char → Bool) : ∀ s : Str, ∀ c ∈ (s.dropWhile P).getLast?, c ∈ s.getLast?
  | [], c, h => by cases h
  | d :: s, c, h => by
    rw [List.dropWhile_cons] at h
    split at h
    · have := last_dropWhile P s c h
      cases s with
      | nil => cases this
      | cons e s => rw [List.getLast?_cons_cons]; exact this
    · exact h

/-- Stripping twice is stripping once. -/
theorem strip_strip (s : Str) : strip (strip s) = strip s := by
  have h1 : ∀ c ∈ (strip s).reverse.head?, pySpace c = false := by
    unfold strip; rw [List.reverse_reverse]; exact head_dropWhile _ _
  have h2 : ∀ c ∈ (strip s).head?, pySpace c = false := by
    intro c hc
    unfold strip at hc
    rw [List.head?_reverse] at hc
    have := last_dropWhile _ _ c hc
    rw [List.getLast?_reverse] at this
    exact head_dropWhile _ _ c this
  generalize strip s = t at h1 h2
  unfold strip
  rw [dropWhile_of_head h2, dropWhile_of_head h1, List.reverse_reverse]

theorem demo_stable : demo.Stable := by
  intro t u h
  simp only [demo] at h ⊢
  split at h
  · cases h
  · rename_i hs
    injection h with h
    subst h
    simp [strip_strip, hs]

/-- The empty folder is a database. -/
theorem consistent_nil : Consistent x [] :=
  ⟨[], by constructor <;> simp⟩

/-! ### C28: storing -/

/-- **C28** on the file: a value without line breaks is stored by adding one line at the end of the file of its key, and this
line is read back as the key, the language, the descriptor and the stripped value; no other file changes. -/
theorem C28_line {t k p l d v : Str} (hk : keyText x t = .ok k) (hp : pathOf x k true true = .ok p) (hk1 : OneLine k)
    (hl : l ∈ languages) (hd : d ∈ descriptorClasses) (hv : OneLine (strip v)) (hne : strip v ≠ []) :
    ∃ fs' line, addDescriptor x fs (some t) (some l) (some d) v = .ok fs' ∧
      fsGet fs' p = some ((fsGet fs p).getD [] ++ line) ∧ csvRead line = .ok [[k, l, d, strip v]] ∧
      (∃ body, line = body ++ ['\n'] ∧ OneLine body) ∧
      ∀ q, q ≠ p → fsGet fs' q = fsGet fs q := by
  have hf : (Entry.mk k l d (strip v)).Fits := ⟨hk1, hv, hl, hd⟩
  rw [addDescriptor_eq hl hd, hk]
  simp only [bind, Except.bind, if_neg hne, hp]
  refine ⟨_, descriptorLine k l d (strip v), rfl, by rw [fsGet_fsSet, if_pos rfl], ?_, ?_, fun q hq => by
    rw [fsGet_fsSet, if_neg hq]⟩
  · have := csvRead_render (es := [Entry.mk k l d (strip v)]) (by simpa using hf)
    simpa [render, Entry.fields] using this
  · exact ⟨_, hf.line_eq, lineBody_clean hf (.inl rfl), lineBody_clean hf (.inr rfl)⟩

/-- **C28**, seen by the reader of the database: in a database, storing a value adds its stripped text at the end of the values
of its key, language and descriptor, and changes no other value. -/
theorem C28_read_back {t k p l d v : Str} (hc : Consistent x fs) (hk : keyText x t = .ok k)
    (hp : pathOf x k true true = .ok p) (hk1 : OneLine k)
    (hl : l ∈ languages) (hd : d ∈ descriptorClasses) (hv : OneLine (strip v)) (hne : strip v ≠ []) :
    ∃ fs' old, addDescriptor x fs (some t) (some l) (some d) v = .ok fs' ∧ Consistent x fs' ∧
      getValues fs k l d = .ok old ∧ getValues fs' k l d = .ok (old ++ [strip v]) ∧
      ∀ k' l' d', l' ∈ languages → d' ∈ descriptorClasses → ¬(k' = k ∧ l' = l ∧ d' = d) →
        getValues fs' k' l' d' = getValues fs k' l' d' := by
  obtain ⟨db, h⟩ := hc
  obtain ⟨fs', db', e1, h', _, hv'⟩ := h.addDescriptor hk hp hk1 hl hd hv.2
  refine ⟨fs', _, e1, ⟨db', h'⟩, h.getValues hl hd, ?_, fun k' l' d' hl' hd' hm => ?_⟩
  · rw [h'.getValues hl hd, hv', if_pos ⟨rfl, rfl, rfl, hne⟩, escapeNewlines_id hv.1]
  · rw [h'.getValues hl' hd', h.getValues hl' hd', hv', if_neg fun hc => hm ⟨hc.1, hc.2.1, hc.2.2.1⟩]

/-- **C28**: blank values change nothing. -/
theorem C28_blank {t k l d v : Str} (hk : keyText x t = .ok k) (hl : l ∈ languages) (hd : d ∈ descriptorClasses)
    (hv : strip v = []) : addDescriptor x fs (some t) (some l) (some d) v = .ok fs := by
  rw [addDescriptor_eq hl hd, hk]
  simp [bind, Except.bind, hv, pure, Except.pure]

/-- **C28**, error branches: an unknown language, an unknown descriptor, a missing argument or a key that does not parse are
refused, and nothing is written. -/
theorem C28_refused {t l d v : Str} (h : l ∉ languages ∨ d ∉ descriptorClasses ∨ ∃ e, keyText x t = .error e) :
    ∃ e, addDescriptor x fs (some t) (some l) (some d) v = .error e := by
  cases hn : normalizeKey x (some t) (some l) (some d) true false false with
  | error e =>
    refine ⟨e, ?_⟩
    unfold addDescriptor
    rw [hn]; rfl
  | ok r =>
    exfalso
    obtain ⟨h1, h2, h3, h4⟩ := (C35_descriptor_keys _ _ _ _).1 ⟨r, hn⟩
    rcases h1 with h1 | ⟨_, ⟨l', e1, hl⟩, ⟨d', e2, hd⟩⟩
    · cases h1
    · injection e1 with e1; subst e1
      injection e2 with e2; subst e2
      rcases h with h | h | ⟨e, h⟩
      · exact h (h3 l rfl hl)
      · exact h (h4 d rfl hd)
      · unfold keyText at h
        split at h
        · cases h
        · rename_i ht
          obtain ⟨u, hu⟩ := h2 t rfl ht
          rw [hu] at h; cases h

/-- An operation on the descriptors. -/
inductive DbOp where
  | add (ieml lang desc value : Str)
  | remove (ieml : Str) (lang desc value : Option Str)

/-- Running an operation. -/
def DbOp.run (x : Ext) (fs : FS) : DbOp → Except Err FS
  | .add t l d v => addDescriptor x fs (some t) (some l) (some d) v
  | .remove t l d v => removeDescriptor x fs (some t) l d v

/-- Texts of expressions that the removal can handle: no quotation marks and no line breaks. -/
def Ext.Plain (x : Ext) : Prop := ∀ t u, x.parse t = .ok u → OneLine u.text ∧ NoQuote u.text

theorem keyText_plain (hx : x.Plain) {t k : Str} (h : keyText x t = .ok k) : OneLine k ∧ NoQuote k := by
  unfold keyText at h
  split at h
  · injection h with h; subst h
    exact ⟨⟨by simp, by simp⟩, by simp [NoQuote]⟩
  · cases hp : x.parse t with
    | error e => rw [hp] at h; cases h
    | ok u => rw [hp] at h; injection h with h; subst h; exact hx t u hp

theorem normalizeKey_keyText {t : Str} {lang desc : Option Str} {part : Bool} {r : Option Str × Option Str × Option Str}
    (h : normalizeKey x (some t) lang desc true part false = .ok r) : ∃ k, keyText x t = .ok k ∧ r = (some k, lang, desc) := by
  rw [normalizeKey_desc_iff, normalizeIeml_ok] at h
  obtain ⟨_, h2, _, _, h5⟩ := h
  obtain ⟨r1, r2⟩ := r
  simp only at h2 h5
  subst h5
  unfold keyText
  rcases h2 with ⟨s, u, e, hs, hp, rfl⟩ | ⟨hg, rfl⟩
  · injection e with e; subst e
    rw [if_neg hs, hp]
    exact ⟨u.text, rfl, rfl⟩
  · by_cases ht : t = []
    · subst ht; exact ⟨[], rfl, rfl⟩
    · exact absurd ⟨t, rfl, ht⟩ hg

theorem given_lang {l : Str} (h : IfGiven (some l) (· ∈ languages)) (hl : l ≠ []) : l ∈ languages := h l rfl hl

theorem addDescriptor_args {t l d v : Str} (h : addDescriptor x fs (some t) (some l) (some d) v = .ok fs') :
    l ∈ languages ∧ d ∈ descriptorClasses ∧ ∃ k, keyText x t = .ok k := by
  by_contra hc
  have : l ∉ languages ∨ d ∉ descriptorClasses ∨ ∃ e, keyText x t = .error e := by
    by_cases h1 : l ∈ languages
    · by_cases h2 : d ∈ descriptorClasses
      · cases hk : keyText x t with
        | error e => exact .inr (.inr ⟨e, rfl⟩)
        | ok k => exact absurd ⟨h1, h2, k, hk⟩ hc
      · exact .inr (.inl h2)
    · exact .inl h1
  obtain ⟨e, he⟩ := C28_refused (fs := fs) (v := v) this
  rw [h] at he; cases he

/-- **C28**, whole histories: every database obtained from the empty folder by storing and removing values holds complete,
readable lines, each in the file of its key. -/
theorem C28_history (hx : x.Stable) (hp : x.Plain) (ops : List DbOp)
    (hv : ∀ t l d v, DbOp.add t l d v ∈ ops → '\r' ∉ v)
    (hr : ∀ t l d v, DbOp.remove t l d v ∈ ops → (∀ a ∈ l, a ∈ languages) ∧ (∀ a ∈ d, a ∈ descriptorClasses)) :
    ∀ fs, Consistent x fs → ops.foldlM (DbOp.run x) fs = .ok fs' → Consistent x fs' := by
  induction ops with
  | nil =>
    intro fs hc h
    injection h with h
    exact h ▸ hc
  | cons op ops ih =>
    intro fs hc h
    rw [List.foldlM_cons] at h
    cases h1 : DbOp.run x fs op with
    | error e => rw [h1] at h; cases h
    | ok fs1 =>
      rw [h1] at h
      refine ih (fun t l d v hm => hv t l d v (by simp [hm])) (fun t l d v hm => hr t l d v (by simp [hm])) fs1 ?_ h
      obtain ⟨db, hdb⟩ := hc
      cases op with
      | add t l d v =>
        have hv' : '\r' ∉ strip v := fun hm => hv t l d v (by simp) (strip_mem hm)
        obtain ⟨hl, hd, k, hk⟩ := addDescriptor_args h1
        have hkp := keyText_plain hp hk
        cases hpa : pathOf x k true true with
        | ok p =>
          obtain ⟨fs2, db2, e2, h2, _⟩ := hdb.addDescriptor hk hpa hkp.1 hl hd hv'
          have : DbOp.run x fs (.add t l d v) = .ok fs2 := e2
          rw [this] at h1; injection h1 with h1; exact ⟨db2, h1 ▸ h2⟩
        | error e =>
          simp only [DbOp.run] at h1
          rw [addDescriptor_eq hl hd, hk] at h1
          simp only [bind, Except.bind, hpa] at h1
          split at h1
          · injection h1 with h1; exact ⟨db, h1 ▸ hdb⟩
          · cases h1
      | remove t l d v =>
        obtain ⟨hl, hd⟩ := hr t l d v (by simp)
        have hkk : ∃ k, keyText x t = .ok k := by
          cases hk : keyText x t with
          | ok k => exact ⟨k, rfl⟩
          | error e =>
            exfalso
            have hn : ∀ l d, ∃ e, normalizeKey x (some t) l d true true false = .error e := by
              intro l d
              cases hn : normalizeKey x (some t) l d true true false with
              | error e => exact ⟨e, rfl⟩
              | ok r =>
                obtain ⟨k, hk', _⟩ := normalizeKey_keyText hn
                rw [hk] at hk'; cases hk'
            simp only [DbOp.run, removeDescriptor] at h1
            cases l with
            | none =>
              obtain ⟨e, he⟩ := hn none d
              rw [he] at h1; cases h1
            | some l =>
              simp only [removeLang] at h1
              cases d with
              | none =>
                obtain ⟨e, he⟩ := hn (some l) none
                rw [he] at h1; cases h1
              | some d =>
                simp only [removeBoth] at h1
                obtain ⟨e, he⟩ := hn (some l) (some d)
                rw [he] at h1; cases h1
        obtain ⟨k, hk⟩ := hkk
        have hkp := keyText_plain hp hk
        have hpath : ∃ p, pathOf x k true true = .ok p := by
          cases hpa : pathOf x k true true with
          | ok p => exact ⟨p, rfl⟩
          | error e =>
            exfalso
            simp only [DbOp.run, removeDescriptor] at h1
            cases l with
            | none =>
              rw [normalizeKey_part hk hl hd] at h1
              simp only [bind, Except.bind, hpa] at h1
              cases h1
            | some l =>
              simp only [removeLang] at h1
              cases d with
              | none =>
                rw [normalizeKey_part hk hl hd] at h1
                simp only [bind, Except.bind, hpa] at h1
                cases h1
              | some d =>
                simp only [removeBoth] at h1
                rw [normalizeKey_part hk hl hd] at h1
                simp only [bind, Except.bind, hpa] at h1
                cases h1
        obtain ⟨p, hpa⟩ := hpath
        have : ∃ fs2 db2, DbOp.run x fs (.remove t l d v) = .ok fs2 ∧ Holds x fs2 db2 := by
          cases l with
          | none =>
            by_cases hn : d = none ∧ v = none
            · obtain ⟨rfl, rfl⟩ := hn
              obtain ⟨fs2, db2, e2, h2, _⟩ := hdb.removeDescriptor_all hk hpa
              exact ⟨fs2, db2, e2, h2⟩
            · have hnn : d ≠ none ∨ v ≠ none := by
                by_cases h1 : d = none
                · exact .inr fun h2 => hn ⟨h1, h2⟩
                · exact .inl h1
              obtain ⟨fs2, db2, e2, h2, _⟩ := hdb.removeDescriptor_none hx hk hpa hkp.2 hd hnn
              exact ⟨fs2, db2, e2, h2⟩
          | some l =>
            cases d with
            | none =>
              obtain ⟨fs2, db2, e2, h2, _⟩ := hdb.removeDescriptor_lang (v := v) hx hk hpa hkp.2 (hl l rfl)
              exact ⟨fs2, db2, e2, h2⟩
            | some d =>
              obtain ⟨fs2, db2, e2, h2, _⟩ := hdb.removeBoth (v := v) hk hpa hkp.2 (hl l rfl) (hd d rfl)
              exact ⟨fs2, db2, e2, h2⟩
        obtain ⟨fs2, db2, e2, h2⟩ := this
        rw [e2] at h1; injection h1 with h1; exact ⟨db2, h1 ▸ h2⟩

/-- A demonstration database: two values in French, one of them with a quotation mark, one tag, one value of another key. -/
def demoFs : FS :=
  [(c!"morpheme/singular/a.", (c!"not read")),
   (c!"morpheme/singular/k.desc", descriptorLine (c!"k") (c!"fr") (c!"translations") (c!"a") ++
      descriptorLine (c!"k") (c!"fr") (c!"translations") (c!"a\"b") ++
      descriptorLine (c!"k") (c!"en") (c!"tags") (c!"x y")),
   (c!"morpheme/singular/k2.desc", descriptorLine (c!"k2") (c!"fr") (c!"translations") (c!"a"))]

theorem demoFs_consistent : Consistent demo demoFs := by
  refine ⟨[(c!"morpheme/singular/k.desc", [⟨c!"k", c!"fr", c!"translations", c!"a"⟩, ⟨c!"k", c!"fr", c!"translations", c!"a\"b"⟩,
      ⟨c!"k", c!"en", c!"tags", c!"x y"⟩]),
    (c!"morpheme/singular/k2.desc", [⟨c!"k2", c!"fr", c!"translations", c!"a"⟩])], ?_, ?_, ?_, ?_⟩
  · decide +kernel
  · decide +kernel
  · intro f hf e he
    simp only [List.mem_cons, List.not_mem_nil, or_false] at hf
    rcases hf with rfl | rfl <;> simp only [List.mem_cons, List.not_mem_nil, or_false] at he
    · rcases he with rfl | rfl | rfl <;> constructor <;> decide
    · subst he; constructor <;> decide
  · intro f hf e he
    simp only [List.mem_cons, List.not_mem_nil, or_false] at hf
    rcases hf with rfl | rfl <;> simp only [List.mem_cons, List.not_mem_nil, or_false] at he
    · rcases he with rfl | rfl | rfl <;> decide +kernel
    · subst he; decide +kernel

/-- The hypotheses of `C28_read_back` hold for a value with quotation marks and spaces, and for a key given with spaces. -/
example : ∃ fs' old, addDescriptor demo demoFs (some (c!" k ")) (some (c!"fr")) (some (c!"translations")) (c!" l'\"eau\"  ") = .ok fs' ∧
    Consistent demo fs' ∧ getValues demoFs (c!"k") (c!"fr") (c!"translations") = .ok old ∧
    getValues fs' (c!"k") (c!"fr") (c!"translations") = .ok (old ++ [c!"l'\"eau\""]) := by
  obtain ⟨fs', old, h1, h2, h3, h4, _⟩ := C28_read_back (x := demo) (t := c!" k ") (k := c!"k") (p := c!"morpheme/singular/k.desc")
    (l := c!"fr") (d := c!"translations") (v := c!" l'\"eau\"  ") demoFs_consistent
    (by decide +kernel) (by decide +kernel) (by decide) (by decide) (by decide) (by decide +kernel) (by decide +kernel)
  exact ⟨fs', old, h1, h2, h3, h4⟩

/-! ### C29: removing one value -/

/-- **C29**, what is proved: in a database, removing a value for a key without quotation marks leaves, for that key, language
and descriptor, exactly the values different from it that do not start with it followed by a quotation mark, in the same order;
all the other values and files are unchanged.  Missing: values starting with the removed one and a quotation mark should be
kept (see `C29_violated_prefix`), and keys with quotation marks should be removed (see `C29_violated_key`). -/
theorem C29_remove_partial {t k p l d v : Str} (hc : Consistent x fs) (hk : keyText x t = .ok k)
    (hp : pathOf x k true true = .ok p) (hkq : NoQuote k) (hl : l ∈ languages) (hd : d ∈ descriptorClasses)
    (hv : '\n' ∉ strip v) :
    ∃ fs' old, removeDescriptor x fs (some t) (some l) (some d) (some v) = .ok fs' ∧ Consistent x fs' ∧
      getValues fs k l d = .ok old ∧
      getValues fs' k l d = .ok (old.filter fun w => decide (w ≠ strip v ∧ ¬(strip v ++ ['"']) <+: w)) ∧
      (∀ k' l' d', l' ∈ languages → d' ∈ descriptorClasses → ¬(k' = k ∧ l' = l ∧ d' = d) →
        getValues fs' k' l' d' = getValues fs k' l' d') ∧
      ∀ q, q ≠ p → fsGet fs' q = fsGet fs q := by
  obtain ⟨db, h⟩ := hc
  obtain ⟨fs', db', e1, h', hq, _, hv'⟩ := h.removeBoth (v := some v) hk hp hkq hl hd
  refine ⟨fs', _, e1, ⟨db', h'⟩, h.getValues hl hd, ?_, fun k' l' d' hl' hd' hm => ?_, hq⟩
  · rw [h'.getValues hl hd, hv', if_pos ⟨rfl, rfl, rfl⟩]
    congr 2
    funext w
    simp only [Option.map_some, kept]
    rw [escapeNewlines_id hv, ← decide_not]
    exact decide_eq_decide.2 (by rw [not_or, eq_comm])
  · rw [h'.getValues hl' hd', h.getValues hl' hd', hv', if_neg hm]

/-- **C29**, the exact removal when no stored value continues the removed one with a quotation mark; in particular when no
stored value contains a quotation mark. -/
theorem C29_exact_partial {t k p l d v : Str} (hc : Consistent x fs) (hk : keyText x t = .ok k)
    (hp : pathOf x k true true = .ok p) (hkq : NoQuote k) (hl : l ∈ languages) (hd : d ∈ descriptorClasses)
    (hv : '\n' ∉ strip v) (hq : ∀ old, getValues fs k l d = .ok old → ∀ w ∈ old, ¬(strip v ++ ['"']) <+: w) :
    ∃ fs' old, removeDescriptor x fs (some t) (some l) (some d) (some v) = .ok fs' ∧ getValues fs k l d = .ok old ∧
      getValues fs' k l d = .ok (old.filter fun w => decide (w ≠ strip v)) := by
  obtain ⟨fs', old, h1, _, h2, h3, _⟩ := C29_remove_partial hc hk hp hkq hl hd hv
  refine ⟨fs', old, h1, h2, ?_⟩
  rw [h3]
  congr 1
  apply List.filter_congr
  intro w hw
  have := hq old h2 w hw
  simp [this]

/-- **C29** is violated: removing `a` also removes the different value `a"b`. -/
theorem C29_violated_prefix :
    getValues demoFs (c!"k") (c!"fr") (c!"translations") = .ok [c!"a", c!"a\"b"] ∧
    (removeDescriptor demo demoFs (some (c!"k")) (some (c!"fr")) (some (c!"translations")) (some (c!"a"))).bind
      (fun fs' => getValues fs' (c!"k") (c!"fr") (c!"translations")) = .ok [] := by
  decide +kernel

/-- **C29** is violated for keys with quotation marks (texts of decorated expressions): nothing is removed, because the key is
escaped when it is written and not when it is compared. -/
theorem C29_violated_key :
    ∃ fs, addDescriptor demo [] (some (c!"k\"x\"")) (some (c!"fr")) (some (c!"tags")) (c!"a") = .ok fs ∧
      getValues fs (c!"k\"x\"") (c!"fr") (c!"tags") = .ok [c!"a"] ∧
      removeDescriptor demo fs (some (c!"k\"x\"")) (some (c!"fr")) (some (c!"tags")) (some (c!"a")) = .ok fs := by
  refine ⟨[(c!"morpheme/singular/k\"x\".desc", c!"\"k\"\"x\"\"\" fr tags \"a\"\n")], ?_⟩
  decide +kernel

/-- The hypotheses of `C29_exact_partial` hold on the demonstration database, for a value that is present. -/
example : ∃ fs' old, removeDescriptor demo demoFs (some (c!"k")) (some (c!"fr")) (some (c!"translations")) (some (c!"a\"b")) = .ok fs' ∧
    getValues demoFs (c!"k") (c!"fr") (c!"translations") = .ok old ∧
    getValues fs' (c!"k") (c!"fr") (c!"translations") = .ok (old.filter fun w => decide (w ≠ strip (c!"a\"b"))) :=
  C29_exact_partial (p := c!"morpheme/singular/k.desc") demoFs_consistent (by decide +kernel) (by decide +kernel) (by decide)
    (by decide) (by decide) (by decide +kernel) (by
      intro old h
      rw [C29_violated_prefix.1] at h
      injection h with h
      subst h
      decide +kernel)

/-! ### C30: the value filter with omitted arguments -/

/-- **C30**, what is proved: when the language and the descriptor are both given, every other value that does not continue the
given one with a quotation mark stays.  Missing: the value is ignored as soon as one of them is omitted
(see `C30_violated_language`, `C30_violated_descriptor`). -/
theorem C30_value_filter_partial {t k p l d v : Str} (hc : Consistent x fs) (hk : keyText x t = .ok k)
    (hp : pathOf x k true true = .ok p) (hkq : NoQuote k) (hl : l ∈ languages) (hd : d ∈ descriptorClasses)
    (hv : '\n' ∉ strip v) :
    ∃ fs' old new, removeDescriptor x fs (some t) (some l) (some d) (some v) = .ok fs' ∧ getValues fs k l d = .ok old ∧
      getValues fs' k l d = .ok new ∧ ∀ w ∈ old, w ≠ strip v → ¬(strip v ++ ['"']) <+: w → w ∈ new := by
  obtain ⟨fs', old, h1, _, h2, h3, _⟩ := C29_remove_partial hc hk hp hkq hl hd hv
  refine ⟨fs', old, _, h1, h2, h3, fun w hw h4 h5 => ?_⟩
  simp [hw, h4, h5]

/-- Without language, all the values of the descriptor are erased in every language, whatever the value given. -/
theorem C30_language_omitted (hx : x.Stable) {t k p d : Str} {v : Option Str} (hc : Consistent x fs) (hk : keyText x t = .ok k)
    (hp : pathOf x k true true = .ok p) (hkq : NoQuote k) (hd : d ∈ descriptorClasses) :
    ∃ fs', removeDescriptor x fs (some t) none (some d) v = .ok fs' ∧ Consistent x fs' ∧
      (∀ l ∈ languages, getValues fs' k l d = .ok []) ∧
      ∀ k' l' d', l' ∈ languages → d' ∈ descriptorClasses → ¬(k' = k ∧ d' = d) →
        getValues fs' k' l' d' = getValues fs k' l' d' := by
  obtain ⟨db, h⟩ := hc
  obtain ⟨fs', db', e1, h', _, hv'⟩ := h.removeDescriptor_none (desc := some d) (v := v) hx hk hp hkq (by simpa using hd) (by simp)
  refine ⟨fs', e1, ⟨db', h'⟩, fun l hl => ?_, fun k' l' d' hl' hd' hm => ?_⟩
  · rw [h'.getValues hl hd, hv', if_pos ⟨rfl, hl, .inr rfl⟩]
  · rw [h'.getValues hl' hd', h.getValues hl' hd', hv', if_neg]
    rintro ⟨rfl, _, h | h⟩
    · cases h.1
    · injection h with h; exact hm ⟨rfl, h.symm⟩

/-- Without descriptor, all the values of the language are erased for every descriptor, whatever the value given. -/
theorem C30_descriptor_omitted (hx : x.Stable) {t k p l : Str} {v : Option Str} (hc : Consistent x fs) (hk : keyText x t = .ok k)
    (hp : pathOf x k true true = .ok p) (hkq : NoQuote k) (hl : l ∈ languages) :
    ∃ fs', removeDescriptor x fs (some t) (some l) none v = .ok fs' ∧ Consistent x fs' ∧
      (∀ d ∈ descriptorClasses, getValues fs' k l d = .ok []) ∧
      ∀ k' l' d', l' ∈ languages → d' ∈ descriptorClasses → ¬(k' = k ∧ l' = l) →
        getValues fs' k' l' d' = getValues fs k' l' d' := by
  obtain ⟨db, h⟩ := hc
  obtain ⟨fs', db', e1, h', _, hv'⟩ := h.removeDescriptor_lang (v := v) hx hk hp hkq hl
  refine ⟨fs', e1, ⟨db', h'⟩, fun d hd => ?_, fun k' l' d' hl' hd' hm => ?_⟩
  · rw [h'.getValues hl hd, hv', if_pos ⟨rfl, rfl, hd⟩]
  · rw [h'.getValues hl' hd', h.getValues hl' hd', hv', if_neg fun h => hm ⟨h.1, h.2.1⟩]

/-- **C30** is violated: removing the value `zzz` (stored nowhere) without naming a language erases the stored values. -/
theorem C30_violated_language :
    (removeDescriptor demo demoFs (some (c!"k")) none (some (c!"tags")) (some (c!"zzz"))).bind
      (fun fs' => getValues fs' (c!"k") (c!"en") (c!"tags")) = .ok [] ∧
    getValues demoFs (c!"k") (c!"en") (c!"tags") = .ok [c!"x y"] := by
  decide +kernel

/-- **C30** is violated in the same way when the descriptor is not named. -/
theorem C30_violated_descriptor :
    (removeDescriptor demo demoFs (some (c!"k")) (some (c!"en")) none (some (c!"zzz"))).bind
      (fun fs' => getValues fs' (c!"k") (c!"en") (c!"tags")) = .ok [] ∧
    getValues demoFs (c!"k") (c!"en") (c!"tags") = .ok [c!"x y"] := by
  decide +kernel

example : ∃ fs', removeDescriptor demo demoFs (some (c!"k")) none (some (c!"translations")) none = .ok fs' ∧ Consistent demo fs' ∧
    ∀ l ∈ languages, getValues fs' (c!"k") l (c!"translations") = .ok [] := by
  obtain ⟨fs', h1, h2, h3, _⟩ := C30_language_omitted (x := demo) (t := c!"k") (k := c!"k") (p := c!"morpheme/singular/k.desc")
    (d := c!"translations") (v := none) demo_stable demoFs_consistent (by decide +kernel) (by decide +kernel) (by decide) (by decide)
  exact ⟨fs', h1, h2, h3⟩

/-! ### C31: distinct values, distinct lines -/

/-- **C31**, what is proved: for values without line breaks, equal lines have equal keys, languages, descriptors and values.
Missing: values with line breaks (see `C31_violated`). -/
theorem C31_distinct_partial {k l d v k' l' d' v' : Str} (hk : OneLine k) (hk' : OneLine k')
    (hl : l ∈ languages) (hl' : l' ∈ languages) (hd : d ∈ descriptorClasses) (hd' : d' ∈ descriptorClasses)
    (hv : OneLine v) (hv' : OneLine v') (h : descriptorLine k l d v = descriptorLine k' l' d' v') :
    k = k' ∧ l = l' ∧ d = d' ∧ v = v' := by
  have h1 := csvRead_render (es := [Entry.mk k l d v]) (by simpa using ⟨hk, hv, hl, hd⟩)
  have h2 := csvRead_render (es := [Entry.mk k' l' d' v']) (by simpa using ⟨hk', hv', hl', hd'⟩)
  simp only [render, List.flatMap_cons, List.flatMap_nil, List.append_nil] at h1 h2
  rw [h, h2] at h1
  simpa [Entry.fields, eq_comm] using h1

/-- **C31**: two values of the same key, language and descriptor have the same line exactly when they have the same text after
replacing each line break by a backslash and an `n`. -/
theorem C31_same_line {k l d v v' : Str} :
    descriptorLine k l d v = descriptorLine k l d v' ↔ escapeNewlines v = escapeNewlines v' := by
  unfold descriptorLine
  rw [escapeValue_comm v, escapeValue_comm v']
  constructor
  · intro h
    have := List.append_cancel_right h
    exact doubleQuotes_inj (List.append_cancel_left this)
  · intro h; rw [h]

/-- **C31** is violated: a line break, and a backslash followed by `n`, are stored as the same line. -/
theorem C31_violated : (c!"a\nb" : Str) ≠ c!"a\\nb" ∧ strip (c!"a\nb") = c!"a\nb" ∧ strip (c!"a\\nb") = c!"a\\nb" ∧
    ∀ k l d, descriptorLine k l d (c!"a\nb") = descriptorLine k l d (c!"a\\nb") := by
  refine ⟨by decide, by decide, by decide, fun k l d => C31_same_line.2 (by decide)⟩

example : (c!"x y\"z" : Str) = c!"x y\"z" :=
  (C31_distinct_partial (k := c!"k") (l := c!"fr") (d := c!"tags") (by decide) (by decide) (by decide) (by decide) (by decide)
    (by decide) (by decide) (by decide) rfl).2.2.2

/-! ### C32: replacing the values of a descriptor -/

/-- The values that a request asks to store: stripped, the blank ones left out. -/
def cleaned (vs : List Str) : List Str := (vs.map strip).filter fun v => decide (v ≠ [])

theorem Holds.addAll {k p l d : Str} (hkt : keyText x k = .ok k) (hp : pathOf x k true true = .ok p) (hk : OneLine k)
    (hl : l ∈ languages) (hd : d ∈ descriptorClasses) : ∀ (vs : List Str) (fs : FS) (db : List (Str × List Entry)),
    Holds x fs db → (∀ v ∈ vs, OneLine (strip v)) →
    ∃ fs' db', vs.foldlM (fun fs v => Verif.addDescriptor x fs (some k) (some l) (some d) v) fs = .ok fs' ∧ Holds x fs' db' ∧
      ∀ k' l' d', storedValues (allEntries db') k' l' d' =
        if k' = k ∧ l' = l ∧ d' = d then storedValues (allEntries db) k l d ++ cleaned vs
        else storedValues (allEntries db) k' l' d'
  | [], fs, db, h, _ => ⟨fs, db, rfl, h, fun k' l' d' => by
      split
      · rename_i hm; obtain ⟨rfl, rfl, rfl⟩ := hm; simp [cleaned]
      · rfl⟩
  | v :: vs, fs, db, h, hv => by
    obtain ⟨fs1, db1, e1, h1, _, hv1⟩ := h.addDescriptor (v := v) hkt hp hk hl hd (hv v (by simp)).2
    obtain ⟨fs2, db2, e2, h2, hv2⟩ := addAll hkt hp hk hl hd vs fs1 db1 h1 fun w hw => hv w (by simp [hw])
    refine ⟨fs2, db2, ?_, h2, fun k' l' d' => ?_⟩
    · rw [List.foldlM_cons, e1]; exact e2
    · rw [hv2]
      by_cases hm : k' = k ∧ l' = l ∧ d' = d
      · rw [if_pos hm, if_pos hm, hv1]
        by_cases hs : strip v = []
        · rw [if_neg (by simp [hs])]
          simp [cleaned, hs]
        · rw [if_pos ⟨rfl, rfl, rfl, hs⟩, escapeNewlines_id (hv v (by simp)).1]
          simp [cleaned, hs]
      · rw [if_neg hm, if_neg hm, hv1]
        have : ¬(k' = k ∧ l' = l ∧ d' = d ∧ strip v ≠ []) := fun h => hm ⟨h.1, h.2.1, h.2.2.1⟩
        rw [if_neg this]

theorem Holds.addLangs {k p d : Str} {values : Str → List Str} (hkt : keyText x k = .ok k) (hp : pathOf x k true true = .ok p)
    (hk : OneLine k) (hd : d ∈ descriptorClasses) : ∀ (ls : List Str) (fs : FS) (db : List (Str × List Entry)),
    Holds x fs db → (∀ l ∈ ls, l ∈ languages) → ls.Nodup → (∀ l ∈ ls, ∀ v ∈ values l, OneLine (strip v)) →
    ∃ fs' db', ls.foldlM (fun fs l => (values l).foldlM
        (fun fs v => Verif.addDescriptor x fs (some k) (some l) (some d) v) fs) fs = .ok fs' ∧ Holds x fs' db' ∧
      ∀ k' l' d', storedValues (allEntries db') k' l' d' =
        if k' = k ∧ l' ∈ ls ∧ d' = d then storedValues (allEntries db) k l' d ++ cleaned (values l')
        else storedValues (allEntries db) k' l' d'
  | [], fs, db, h, _, _, _ => ⟨fs, db, rfl, h, fun k' l' d' => by simp⟩
  | l :: ls, fs, db, h, hl, hn, hv => by
    rw [List.nodup_cons] at hn
    obtain ⟨fs1, db1, e1, h1, hv1⟩ := Holds.addAll hkt hp hk (hl l (by simp)) hd (values l) fs db h (hv l (by simp))
    obtain ⟨fs2, db2, e2, h2, hv2⟩ := addLangs hkt hp hk hd ls fs1 db1 h1 (fun a ha => hl a (by simp [ha])) hn.2
      fun a ha => hv a (by simp [ha])
    refine ⟨fs2, db2, ?_, h2, fun k' l' d' => ?_⟩
    · rw [List.foldlM_cons, e1]; exact e2
    · rw [hv2]
      by_cases a : k' = k <;> by_cases b : d' = d
      · subst a; subst b
        by_cases c : l' ∈ ls
        · have : l' ≠ l := fun e => hn.1 (e ▸ c)
          rw [if_pos ⟨rfl, c, rfl⟩, if_pos ⟨rfl, by simp [c], rfl⟩, hv1, if_neg (by simp [this])]
        · rw [if_neg (by simp [c]), hv1]
          by_cases e : l' = l
          · subst e; rw [if_pos ⟨rfl, rfl, rfl⟩, if_pos ⟨rfl, by simp, rfl⟩]
          · rw [if_neg (by simp [e]), if_neg (by simp [e, c])]
      all_goals
        rw [if_neg (by simp [a, b]), hv1, if_neg (by simp [a, b]), if_neg (by simp [a, b])]

theorem cleaned_clean {vs : List Str} (h : ∀ v ∈ vs, strip v = v ∧ v ≠ []) : cleaned vs = vs := by
  unfold cleaned
  have : vs.map strip = vs := by
    conv_rhs => rw [← List.map_id vs]
    exact List.map_congr_left fun v hv => (h v hv).1
  rw [this, List.filter_eq_self]
  intro v hv
  simpa using (h v hv).2

/-- The two results of `set_descriptors`, on the stored values. -/
theorem Holds.setDescriptors {db : List (Str × List Entry)} {k p d : Str} {values : Str → List Str} (h : Holds x fs db)
    (hx : x.Stable) (hkt : keyText x k = .ok k)
    (hp : pathOf x k true true = .ok p) (hk : OneLine k) (hkq : NoQuote k) (hd : d ∈ descriptorClasses)
    (hv : ∀ l ∈ languages, ∀ v ∈ values l, OneLine (strip v))
    (alone : ∀ k' l' d', l' ∈ languages → d' ∈ descriptorClasses → pathOf x k' true true = .ok p → k' ≠ k →
      storedValues (allEntries db) k' l' d' = []) :
    (setDescriptors x fs k d values = .ok (fs, false) ∧
      ∀ l ∈ languages, (values l).Perm (storedValues (allEntries db) k l d)) ∨
    (∃ fs' db', setDescriptors x fs k d values = .ok (fs', true) ∧ Holds x fs' db' ∧
      ∀ k' l' d', l' ∈ languages → d' ∈ descriptorClasses → storedValues (allEntries db') k' l' d' =
        if k' = k ∧ d' = d then cleaned (values l') else storedValues (allEntries db) k' l' d') := by
  unfold Verif.setDescriptors
  have e1 : languages.mapM (fun l => Verif.getValues fs k l d) =
      .ok (languages.map fun l => storedValues (allEntries db) k l d) :=
    mapM_ok_map fun l hl => h.getValues hl hd
  rw [e1]
  simp only [bind, Except.bind]
  split
  · rename_i hall
    left
    refine ⟨rfl, fun l hl => ?_⟩
    have : pySort ltStr (values l) = pySort ltStr (storedValues (allEntries db) k l d) := by
      simp only [languages, List.map_cons, List.map_nil, List.zip_cons_cons, List.zip_nil_right, List.all_cons, List.all_nil,
        Bool.and_true, Bool.and_eq_true, beq_iff_eq] at hall
      simp only [languages, List.mem_cons, List.not_mem_nil, or_false] at hl
      rcases hl with rfl | rfl
      · exact hall.1
      · exact hall.2
    exact (pySort_perm (lt := ltStr) _).symm.trans (this ▸ pySort_perm (lt := ltStr) _)
  · right
    have e2 : (languages.mapM fun l => descriptorClasses.mapM fun d' =>
        if d' ≠ d then Verif.getValues fs k l d' else .ok (values l)) =
        .ok (languages.map fun l => descriptorClasses.map fun d' =>
          if d' ≠ d then storedValues (allEntries db) k l d' else values l) := by
      apply mapM_ok_map
      intro l hl
      apply mapM_ok_map
      intro d' hd'
      split
      · exact h.getValues hl hd'
      · rfl
    rw [e2]
    simp only [List.all_map]
    split
    · rename_i hall
      obtain ⟨fs', db', e3, h', _, _, hv'⟩ := h.removeDescriptor_all hkt hp
      rw [e3]
      refine ⟨fs', db', rfl, h', fun k' l' d' hl' hd' => ?_⟩
      rw [hv']
      simp only [List.all_eq_true, Function.comp, List.all_map, List.isEmpty_iff] at hall
      by_cases hm : k' = k ∧ d' = d
      · obtain ⟨rfl, rfl⟩ := hm
        rw [if_pos hp, if_pos ⟨rfl, rfl⟩]
        have := hall l' hl' d' hd'
        simp only [ne_eq, not_true, if_false] at this
        rw [this]; rfl
      · rw [if_neg hm]
        split
        · rename_i hp'
          by_cases a : k' = k
          · subst a
            have b : d' ≠ d := fun e => hm ⟨rfl, e⟩
            have := hall l' hl' d' hd'
            rw [if_pos b] at this
            exact this.symm
          · exact (alone k' l' d' hl' hd' hp' a).symm
        · rfl
    · obtain ⟨fs1, db1, e3, h1, _, hv1⟩ := h.removeDescriptor_none (desc := some d) (v := none) hx hkt hp hkq
        (by simpa using hd) (by simp)
      rw [e3]
      simp only
      obtain ⟨fs2, db2, e4, h2, hv2⟩ := Holds.addLangs (values := values) hkt hp hk hd languages fs1 db1 h1 (fun _ h => h)
        (by decide) hv
      rw [e4]
      refine ⟨fs2, db2, rfl, h2, fun k' l' d' hl' hd' => ?_⟩
      rw [hv2]
      by_cases hm : k' = k ∧ d' = d
      · obtain ⟨rfl, rfl⟩ := hm
        rw [if_pos ⟨rfl, hl', rfl⟩, if_pos ⟨rfl, rfl⟩, hv1, if_pos ⟨rfl, hl', .inr rfl⟩]
        rfl
      · rw [if_neg fun h => hm ⟨h.1, h.2.2⟩, if_neg hm, hv1, if_neg]
        rintro ⟨rfl, _, h | h⟩
        · cases h.1
        · injection h with h; exact hm ⟨rfl, h.symm⟩

/-- Every stored value of the key and descriptor is stripped and not blank, as the values written by `add_descriptor` are. -/
def Trimmed (fs : FS) (k d : Str) : Prop :=
  ∀ l ∈ languages, ∀ old, getValues fs k l d = .ok old → ∀ w ∈ old, strip w = w ∧ w ≠ []

/-- No other key with stored values shares the file `p` of `k`: by `C34_separate`, only a digest collision could cause that. -/
def Alone (x : Ext) (fs : FS) (k p : Str) : Prop :=
  ∀ k' l' d', l' ∈ languages → d' ∈ descriptorClasses → pathOf x k' true true = .ok p → k' ≠ k → getValues fs k' l' d' = .ok []

/-- **C32**, what is proved: for a key without quotation marks and values that have no line break once stripped, the stored
values of the descriptor become the requested ones, stripped and without the blank ones, in every language (in some order when
they were already there, in the requested order otherwise), and all the other values are unchanged.  Missing: values with line
breaks (`C32_violated_newline`) and keys with quotation marks (`C32_violated_key`). -/
theorem C32_set_partial (hx : x.Stable) {k p d : Str} {values : Str → List Str} (hc : Consistent x fs)
    (hkt : keyText x k = .ok k) (hp : pathOf x k true true = .ok p) (hk : OneLine k) (hkq : NoQuote k)
    (hd : d ∈ descriptorClasses) (hv : ∀ l ∈ languages, ∀ v ∈ values l, OneLine (strip v)) (ht : Trimmed fs k d)
    (alone : Alone x fs k p) :
    ∃ fs' b, setDescriptors x fs k d values = .ok (fs', b) ∧ Consistent x fs' ∧
      (∀ l ∈ languages, ∃ new, getValues fs' k l d = .ok new ∧ new.Perm (cleaned (values l)) ∧
        (b = true → new = cleaned (values l))) ∧
      (b = false → fs' = fs) ∧
      ∀ k' l' d', l' ∈ languages → d' ∈ descriptorClasses → ¬(k' = k ∧ d' = d) →
        getValues fs' k' l' d' = getValues fs k' l' d' := by
  obtain ⟨db, h⟩ := hc
  have alone' : ∀ k' l' d', l' ∈ languages → d' ∈ descriptorClasses → pathOf x k' true true = .ok p → k' ≠ k →
      storedValues (allEntries db) k' l' d' = [] := by
    intro k' l' d' hl' hd' hp' hne
    have := alone k' l' d' hl' hd' hp' hne
    rw [h.getValues hl' hd'] at this
    injection this
  rcases h.setDescriptors hx hkt hp hk hkq hd hv alone' with ⟨e, hperm⟩ | ⟨fs', db', e, h', hvals⟩
  · refine ⟨fs, false, e, ⟨db, h⟩, fun l hl => ⟨_, h.getValues hl hd, ?_, fun h => by cases h⟩, fun _ => rfl,
      fun _ _ _ _ _ _ => rfl⟩
    have hp1 := hperm l hl
    have : cleaned (values l) = values l := by
      apply cleaned_clean
      intro v hv
      exact ht l hl _ (h.getValues hl hd) v (hp1.mem_iff.1 hv)
    rw [this]
    exact hp1.symm
  · refine ⟨fs', true, e, ⟨db', h'⟩, fun l hl => ⟨_, h'.getValues hl hd, ?_, fun _ => ?_⟩, (fun h => absurd h (by simp)),
      fun k' l' d' hl' hd' hm => ?_⟩
    · rw [hvals k l d hl hd, if_pos ⟨rfl, rfl⟩]
    · rw [hvals k l d hl hd, if_pos ⟨rfl, rfl⟩]
    · rw [h'.getValues hl' hd', h.getValues hl' hd', hvals k' l' d' hl' hd', if_neg hm]

/-- **C32**: repeating the call changes no stored value. -/
theorem C32_repeat_partial (hx : x.Stable) {k p d : Str} {values : Str → List Str} {b : Bool} (hc : Consistent x fs)
    (hkt : keyText x k = .ok k) (hp : pathOf x k true true = .ok p) (hk : OneLine k) (hkq : NoQuote k)
    (hd : d ∈ descriptorClasses) (hv : ∀ l ∈ languages, ∀ v ∈ values l, OneLine (strip v)) (ht : Trimmed fs k d)
    (alone : Alone x fs k p) (h1 : setDescriptors x fs k d values = .ok (fs', b)) :
    ∃ fs'' b', setDescriptors x fs' k d values = .ok (fs'', b') ∧
      ∀ k' l' d', l' ∈ languages → d' ∈ descriptorClasses → getValues fs'' k' l' d' = getValues fs' k' l' d' := by
  obtain ⟨f1, b1, e1, hc1, hn1, hb1, ho1⟩ := C32_set_partial (values := values) hx hc hkt hp hk hkq hd hv ht alone
  rw [h1] at e1
  simp only [Except.ok.injEq, Prod.mk.injEq] at e1
  obtain ⟨rfl, rfl⟩ := e1
  cases b with
  | false =>
    have := hb1 rfl
    subst this
    exact ⟨fs', false, h1, fun _ _ _ _ _ => rfl⟩
  | true =>
    have ht1 : Trimmed fs' k d := by
      intro l hl old ho w hw
      obtain ⟨new, e2, _, e3⟩ := hn1 l hl
      rw [e2] at ho
      injection ho with ho
      subst ho
      rw [e3 rfl] at hw
      unfold cleaned at hw
      obtain ⟨h3, h4⟩ := List.mem_filter.1 hw
      obtain ⟨v, _, rfl⟩ := List.mem_map.1 h3
      exact ⟨strip_strip v, by simpa using h4⟩
    have al1 : Alone x fs' k p := by
      intro k' l' d' hl' hd' hp' hne
      rw [ho1 k' l' d' hl' hd' fun h => hne h.1]
      exact alone k' l' d' hl' hd' hp' hne
    obtain ⟨f2, b2, e2, _, hn2, hb2, ho2⟩ := C32_set_partial (values := values) hx hc1 hkt hp hk hkq hd hv ht1 al1
    refine ⟨f2, b2, e2, fun k' l' d' hl' hd' => ?_⟩
    cases b2 with
    | false => rw [hb2 rfl]
    | true =>
      by_cases hm : k' = k ∧ d' = d
      · obtain ⟨rfl, rfl⟩ := hm
        obtain ⟨n1, q1, _, r1⟩ := hn1 l' hl'
        obtain ⟨n2, q2, _, r2⟩ := hn2 l' hl'
        rw [q1, q2, r1 rfl, r2 rfl]
      · exact ho2 k' l' d' hl' hd' hm

/-- **C32** is violated by values with line breaks: the stored value is another text, and asking again commits again. -/
theorem C32_violated_newline :
    let values : Str → List Str := fun l => if l = c!"fr" then [c!"a\nb"] else []
    ∃ fs, setDescriptors demo [] (c!"k") (c!"tags") values = .ok (fs, true) ∧
      getValues fs (c!"k") (c!"fr") (c!"tags") = .ok [c!"a\\nb"] ∧
      setDescriptors demo fs (c!"k") (c!"tags") values = .ok (fs, true) := by
  refine ⟨[(c!"morpheme/singular/k.desc", c!"\"k\" fr tags \"a\\nb\"\n")], ?_⟩
  decide +kernel

/-- **C32** is violated by keys with quotation marks: the old values stay. -/
theorem C32_violated_key :
    let v1 : Str → List Str := fun l => if l = c!"fr" then [c!"a"] else []
    let v2 : Str → List Str := fun l => if l = c!"fr" then [c!"b"] else []
    ((setDescriptors demo [] (c!"k\"x\"") (c!"tags") v1).bind fun r =>
      (setDescriptors demo r.1 (c!"k\"x\"") (c!"tags") v2).bind fun r =>
        getValues r.1 (c!"k\"x\"") (c!"fr") (c!"tags")) = .ok [c!"a", c!"b"] := by
  decide +kernel

/-- **C32** is violated by carriage returns: the line is broken when the file is rewritten, and the whole database cannot be read
any more in the same way: the other value of the key comes back with a line break. -/
theorem C32_violated_return :
    let v1 : Str → List Str := fun l => if l = c!"fr" then [c!"a\rb"] else []
    let v2 : Str → List Str := fun l => if l = c!"fr" then [c!"c"] else []
    ((setDescriptors demo [] (c!"k") (c!"tags") v1).bind fun r =>
      (setDescriptors demo r.1 (c!"k") (c!"comments") v2).bind fun r =>
        getValues r.1 (c!"k") (c!"fr") (c!"tags")) = .ok [c!"a\nb"] := by
  decide +kernel

/-- The hypotheses of `C32_set_partial` hold on the demonstration database, for a request with blank and unstripped values. -/
example : ∃ fs' b, setDescriptors demo demoFs (c!"k") (c!"translations")
      (fun l => if l = c!"fr" then [c!" b ", c!"  "] else [c!"c"]) = .ok (fs', b) ∧ Consistent demo fs' := by
  have hg : ∀ l ∈ languages, ∀ old, getValues demoFs (c!"k") l (c!"translations") = .ok old → ∀ w ∈ old, strip w = w ∧ w ≠ [] := by
    intro l hl old h
    have h2 : getValues demoFs (c!"k") (c!"en") (c!"translations") = .ok [] := by decide +kernel
    simp only [languages, List.mem_cons, List.not_mem_nil, or_false] at hl
    rcases hl with rfl | rfl
    · rw [C29_violated_prefix.1] at h; injection h with h; subst h; decide +kernel
    · rw [h2] at h; injection h with h; subst h; simp
  have hal : Alone demo demoFs (c!"k") (c!"morpheme/singular/k.desc") := by
    intro k' l' d' hl' hd' hp hne
    have hr : getDescriptors demoFs = .ok [(c!"k", c!"fr", c!"translations", c!"a"), (c!"k", c!"fr", c!"translations", c!"a\"b"),
        (c!"k", c!"en", c!"tags", c!"x y"), (c!"k2", c!"fr", c!"translations", c!"a")] := by decide +kernel
    have h2 : k' ≠ c!"k2" := by
      rintro rfl
      have : pathOf demo (c!"k2") true true = .ok (c!"morpheme/singular/k2.desc") := by decide +kernel
      rw [this] at hp
      injection hp with hp
      exact absurd hp (by decide)
    unfold getValues
    rw [hr]
    simp [bind, Except.bind, hl', hd', pure, Except.pure, Ne.symm hne, Ne.symm h2]
  obtain ⟨fs', b, h1, h2, _⟩ := C32_set_partial (x := demo) (p := c!"morpheme/singular/k.desc")
    (values := fun l => if l = c!"fr" then [c!" b ", c!"  "] else [c!"c"]) demo_stable demoFs_consistent
    (by decide +kernel) (by decide +kernel) (by decide) (by decide) (by decide) (by decide +kernel) hg hal
  exact ⟨fs', b, h1, h2⟩

end Verif
