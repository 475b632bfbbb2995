import Verif.Lemmas.Csv
import Verif.Lemmas.Files

/-
The database operations in terms of the stored entries.
-/

namespace Verif

/-! ### Words -/

theorem languages_plain {l : Str} (h : l ∈ languages) : l ≠ [] ∧ Csv.Plainly l := by
  simp only [languages, List.mem_cons, List.not_mem_nil, or_false] at h
  rcases h with rfl | rfl <;> exact ⟨by decide, by unfold Csv.Plainly; decide⟩

theorem descriptorClasses_plain {d : Str} (h : d ∈ descriptorClasses) : d ≠ [] ∧ Csv.Plainly d := by
  simp only [descriptorClasses, List.mem_cons, List.not_mem_nil, or_false] at h
  rcases h with rfl | rfl | rfl | rfl <;> exact ⟨by decide, by unfold Csv.Plainly; decide⟩

/-! ### Lines -/

/-- The body of a line, without its end. -/
def lineBody (k l d v : Str) : Str :=
  '"' :: (doubleQuotes k ++ '"' :: ' ' :: (l ++ ' ' :: (d ++ ' ' :: ('"' :: (doubleQuotes v ++ ['"'])))))

theorem descriptorLine_eq {k l d v : Str} (hk : '\n' ∉ k) (hv : '\n' ∉ v) :
    descriptorLine k l d v = lineBody k l d v ++ ['\n'] := by
  unfold descriptorLine lineBody
  rw [escapeValue_eq hk, escapeValue_eq hv]
  simp

theorem descriptorLine_escaped (k l d v : Str) : descriptorLine k l d (escapeNewlines v) = descriptorLine k l d v := by
  unfold descriptorLine
  rw [escapeValue_eq (newline_not_mem_escapeNewlines v), ← escapeValue_comm]

theorem Entry.Fits.line_eq {e : Entry} (h : e.Fits) :
    descriptorLine e.key e.lang e.desc e.value = lineBody e.key e.lang e.desc e.value ++ ['\n'] :=
  descriptorLine_eq h.key.1 h.value.1

theorem lineBody_clean {e : Entry} (h : e.Fits) {c : Char} (hc : c = '\n' ∨ c = '\r') :
    c ∉ lineBody e.key e.lang e.desc e.value := by
  have h1 : c ∉ e.key := by rcases hc with rfl | rfl; exact h.key.1; exact h.key.2
  have h2 : c ∉ e.value := by rcases hc with rfl | rfl; exact h.value.1; exact h.value.2
  have h3 : c ∉ e.lang := fun hm => by
    have := (languages_plain h.lang).2 c hm
    rcases hc with rfl | rfl
    · exact this.2.2.1 rfl
    · exact this.2.2.2 rfl
  have h4 : c ∉ e.desc := fun hm => by
    have := (descriptorClasses_plain h.desc).2 c hm
    rcases hc with rfl | rfl
    · exact this.2.2.1 rfl
    · exact this.2.2.2 rfl
  unfold lineBody
  simp only [List.mem_cons, List.mem_append, mem_doubleQuotes, h1, h2, h3, h4, List.not_mem_nil, or_false, false_or]
  rcases hc with rfl | rfl <;> decide

theorem run_line {e : Entry} (h : e.Fits) (out : List (List Str)) (rest : Str) :
    (Csv.mk .startRecord [] [] out).run (descriptorLine e.key e.lang e.desc e.value ++ rest) =
      (Csv.mk .startRecord [] [] (out ++ [e.fields])).run rest := by
  rw [h.line_eq]
  have e1 : lineBody e.key e.lang e.desc e.value ++ ['\n'] ++ rest =
      '"' :: (doubleQuotes e.key ++ '"' :: ' ' :: (e.lang ++ ' ' :: (e.desc ++ ' ' ::
        ('"' :: (doubleQuotes e.value ++ '"' :: '\n' :: rest))))) := by simp [lineBody]
  rw [e1, Csv.run_quoted_space _ (.inl rfl), Csv.run_word_space _ _ (languages_plain h.lang).1 (languages_plain h.lang).2,
    Csv.run_word_space _ _ (descriptorClasses_plain h.desc).1 (descriptorClasses_plain h.desc).2, Csv.run_quoted_end]
  rfl

/-- The text of a list of entries. -/
def render (es : List Entry) : Str := es.flatMap fun e => descriptorLine e.key e.lang e.desc e.value

theorem run_render : ∀ {es : List Entry} (_ : ∀ e ∈ es, e.Fits) (out : List (List Str)),
    (Csv.mk .startRecord [] [] out).run (render es) = .ok ⟨.startRecord, [], [], out ++ es.map Entry.fields⟩
  | [], _, out => by simp [render, Csv.run_nil]
  | e :: es, h, out => by
    unfold render
    rw [List.flatMap_cons, run_line (h e (by simp))]
    have := run_render (es := es) (fun a ha => h a (by simp [ha])) (out ++ [e.fields])
    unfold render at this
    rw [this]
    simp

theorem csvRead_render {es : List Entry} (h : ∀ e ∈ es, e.Fits) : csvRead (render es) = .ok (es.map Entry.fields) := by
  unfold csvRead Csv.init
  rw [run_render h]
  simp [Except.map, Csv.finish]

theorem mapM_ok_map {α β : Type} {f : α → Except Err β} {g : α → β} : ∀ {l : List α}, (∀ a ∈ l, f a = .ok (g a)) →
    l.mapM f = .ok (l.map g)
  | [], _ => rfl
  | a :: l, h => by
    rw [List.mapM_cons, h a (by simp), mapM_ok_map fun b hb => h b (by simp [hb])]
    rfl

/-! ### Dropping lines -/

theorem dropLines_render {es : List Entry} (h : ∀ e ∈ es, e.Fits) (pre : Str) (P : Entry → Bool)
    (hP : ∀ e ∈ es, startsWith (descriptorLine e.key e.lang e.desc e.value) pre = P e) :
    dropLines (render es) pre = render (es.filter fun e => !P e) := by
  have e1 : render es = es.flatMap fun e => lineBody e.key e.lang e.desc e.value ++ ['\n'] := by
    unfold render
    apply List.flatMap_congr
    intro e he
    exact (h e he).line_eq
  have hr : '\r' ∉ render es := by
    rw [e1, List.mem_flatMap]
    rintro ⟨e, he, hm⟩
    rw [List.mem_append, List.mem_singleton] at hm
    rcases hm with hm | hm
    · exact lineBody_clean (h e he) (.inr rfl) hm
    · exact absurd hm (by decide)
  unfold dropLines
  rw [universalNewlines_id hr]
  rw [e1, splitLines_flatMap fun e he => lineBody_clean (h e he) (.inl rfl)]
  rw [List.filter_map]
  have e2 : es.filter ((fun l => !startsWith l pre) ∘ fun e => lineBody e.key e.lang e.desc e.value ++ ['\n']) =
      es.filter fun e => !P e := by
    apply List.filter_congr
    intro e he
    simp only [Function.comp]
    rw [← (h e he).line_eq, hP e he]
  rw [e2]
  unfold render
  rw [List.flatMap_def]
  congr 1
  apply List.map_congr_left
  intro e he
  exact ((h e (List.mem_filter.1 he).1).line_eq).symm

/-! ### Beginnings of lines -/

/-- A quote-free key at the beginning of a line is the key of the line. -/
theorem prefix_key : ∀ {k s : Str} (r t : Str), '"' ∉ k →
    ((k ++ '"' :: ' ' :: r) <+: (doubleQuotes s ++ '"' :: ' ' :: t) ↔ k = s ∧ r <+: t)
  | [], [], r, t, _ => by simp [doubleQuotes, List.cons_prefix_cons]
  | [], c :: s, r, t, _ => by
    rw [doubleQuotes]
    split
    · simp [List.cons_prefix_cons]
    · rename_i h; simp [List.cons_prefix_cons, Ne.symm h]
  | c :: k, [], r, t, h => by
    have : c ≠ '"' := fun e => h (by simp [e])
    simp [doubleQuotes, List.cons_prefix_cons, this]
  | c :: k, d :: s, r, t, h => by
    have h1 : c ≠ '"' := fun e => h (by simp [e])
    have h2 : '"' ∉ k := fun e => h (by simp [e])
    rw [doubleQuotes]
    split
    · rename_i hd; subst hd
      simp [List.cons_prefix_cons, h1]
    · rw [List.cons_append, List.cons_append, List.cons_prefix_cons, prefix_key r t h2]
      simp [and_assoc]

/-- A word followed by a space, at the beginning of another. -/
theorem prefix_word : ∀ {a b : Str} (r t : Str), ' ' ∉ a → ' ' ∉ b →
    ((a ++ ' ' :: r) <+: (b ++ ' ' :: t) ↔ a = b ∧ r <+: t)
  | [], [], r, t, _, _ => by simp [List.cons_prefix_cons]
  | [], c :: b, r, t, _, h => by
    have : c ≠ ' ' := fun e => h (by simp [e])
    simp [List.cons_prefix_cons, Ne.symm this]
  | c :: a, [], r, t, h, _ => by
    have : c ≠ ' ' := fun e => h (by simp [e])
    simp [List.cons_prefix_cons, this]
  | c :: a, d :: b, r, t, ha, hb => by
    have ha' : ' ' ∉ a := fun e => ha (by simp [e])
    have hb' : ' ' ∉ b := fun e => hb (by simp [e])
    rw [List.cons_append, List.cons_append, List.cons_prefix_cons, prefix_word r t ha' hb']
    simp [and_assoc]

/-- A quoted value at the beginning of a quoted value: the same one, or one followed by a quotation mark. -/
theorem prefix_value : ∀ {v w : Str},
    ((doubleQuotes v ++ ['"']) <+: (doubleQuotes w ++ ['"', '\n']) ↔ v = w ∨ (v ++ ['"']) <+: w)
  | [], [] => by simp [doubleQuotes, List.cons_prefix_cons]
  | [], c :: w => by
    by_cases h : c = '"'
    · simp [doubleQuotes, List.cons_prefix_cons, h]
    · simp [doubleQuotes, List.cons_prefix_cons, Ne.symm h, h]
  | c :: v, [] => by
    by_cases h : c = '"'
    · subst h
      simp [doubleQuotes, List.cons_prefix_cons]
    · simp [doubleQuotes, List.cons_prefix_cons, h]
  | c :: v, d :: w => by
    simp only [doubleQuotes]
    by_cases hc : c = '"' <;> by_cases hd : d = '"'
    · subst hc; subst hd
      simp only [if_true, List.cons_append, List.cons_prefix_cons, true_and, prefix_value (v := v) (w := w)]
      simp
    · subst hc
      simp [hd, List.cons_prefix_cons, Ne.symm hd]
    · subst hd
      simp [hc, List.cons_prefix_cons]
    · simp only [hc, hd, if_false, List.cons_append, List.cons_prefix_cons, prefix_value (v := v) (w := w)]
      simp only [List.cons.injEq]
      constructor
      · rintro ⟨rfl, h⟩
        rcases h with h | h
        · exact .inl ⟨rfl, h⟩
        · exact .inr ⟨rfl, h⟩
      · rintro (⟨rfl, h⟩ | ⟨rfl, h⟩)
        · exact ⟨rfl, .inl h⟩
        · exact ⟨rfl, .inr h⟩

theorem no_space {w : Str} (h : Csv.Plainly w) : ' ' ∉ w := fun hm => (h _ hm).1 rfl

/-- The lines deleted when no value is given: those of the key, language and descriptor. -/
theorem startsWith_none {e : Entry} (he : e.Fits) {k l d : Str} (hk : NoQuote k) (hl : l ∈ languages)
    (hd : d ∈ descriptorClasses) :
    startsWith (descriptorLine e.key e.lang e.desc e.value) (removedPrefix k l d none) =
      decide (e.key = k ∧ e.lang = l ∧ e.desc = d) := by
  rw [Bool.eq_iff_iff, decide_eq_true_eq]
  unfold startsWith
  rw [List.isPrefixOf_iff_prefix, he.line_eq]
  have e1 : removedPrefix k l d none = '"' :: (k ++ '"' :: ' ' :: (l ++ ' ' :: (d ++ ' ' :: []))) := by
    simp [removedPrefix]
  have e2 : lineBody e.key e.lang e.desc e.value ++ ['\n'] = '"' :: (doubleQuotes e.key ++ '"' :: ' ' :: (e.lang ++ ' ' ::
      (e.desc ++ ' ' :: ('"' :: (doubleQuotes e.value ++ ['"', '\n']))))) := by simp [lineBody]
  rw [e1, e2, List.cons_prefix_cons, prefix_key _ _ hk,
    prefix_word _ _ (no_space (languages_plain hl).2) (no_space (languages_plain he.lang).2),
    prefix_word _ _ (no_space (descriptorClasses_plain hd).2) (no_space (descriptorClasses_plain he.desc).2)]
  simp only [true_and, List.nil_prefix, and_true]
  constructor
  · rintro ⟨rfl, rfl, rfl⟩; exact ⟨rfl, rfl, rfl⟩
  · rintro ⟨rfl, rfl, rfl⟩; exact ⟨rfl, rfl, rfl⟩

/-- The lines deleted when a value is given: those with this value, or with a value starting with it and a quotation mark. -/
theorem startsWith_some {e : Entry} (he : e.Fits) {k l d : Str} (hk : NoQuote k) (hl : l ∈ languages)
    (hd : d ∈ descriptorClasses) (v : Str) :
    startsWith (descriptorLine e.key e.lang e.desc e.value) (removedPrefix k l d (some v)) =
      decide ((e.key = k ∧ e.lang = l ∧ e.desc = d) ∧
        (escapeNewlines v = e.value ∨ (escapeNewlines v ++ ['"']) <+: e.value)) := by
  rw [Bool.eq_iff_iff, decide_eq_true_eq]
  unfold startsWith
  rw [List.isPrefixOf_iff_prefix, he.line_eq]
  have e1 : removedPrefix k l d (some v) = '"' :: (k ++ '"' :: ' ' :: (l ++ ' ' :: (d ++ ' ' ::
      ('"' :: (doubleQuotes (escapeNewlines v) ++ ['"']))))) := by
    simp [removedPrefix, escapeValue_comm]
  have e2 : lineBody e.key e.lang e.desc e.value ++ ['\n'] = '"' :: (doubleQuotes e.key ++ '"' :: ' ' :: (e.lang ++ ' ' ::
      (e.desc ++ ' ' :: ('"' :: (doubleQuotes e.value ++ ['"', '\n']))))) := by simp [lineBody]
  rw [e1, e2, List.cons_prefix_cons, prefix_key _ _ hk,
    prefix_word _ _ (no_space (languages_plain hl).2) (no_space (languages_plain he.lang).2),
    prefix_word _ _ (no_space (descriptorClasses_plain hd).2) (no_space (descriptorClasses_plain he.desc).2),
    List.cons_prefix_cons, prefix_value]
  simp only [true_and]
  constructor
  · rintro ⟨rfl, rfl, rfl, h⟩; exact ⟨⟨rfl, rfl, rfl⟩, h⟩
  · rintro ⟨⟨rfl, rfl, rfl⟩, h⟩; exact ⟨rfl, rfl, rfl, h⟩

end Verif
