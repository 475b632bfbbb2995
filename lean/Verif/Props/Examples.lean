import Verif.Lemmas.Examples
import Verif.Props.Stability

/-
C117: the program of the examples (`scripts/parse_examples.py`) separates the word from its translation, writes one line for each line
that is no comment, in order, and leaves its own output unchanged.  Violated: a translation with a closing bracket before a hash is
taken for a part of the word.
-/

namespace Verif

/-- The line `l` is made of `i`, between brackets, of a hash between white spaces, and of `t`. -/
def Parted (l i t : Str) : Prop :=
  ∃ a w w' e, l = i ++ w ++ '#' :: w' ++ t ++ e ∧ i = '[' :: (a ++ [']']) ∧ (∀ c ∈ w, pySpace c = true) ∧ (∀ c ∈ w', pySpace c = true) ∧
    '\n' ∉ i ∧ '\n' ∉ t ∧ (e = [] ∨ e = ['\n'])

/-- A closing bracket and then, after white space, a hash. -/
def CloseHash (t : Str) : Prop := ∃ p w q, t = p ++ ']' :: w ++ '#' :: q ∧ ∀ c ∈ w, pySpace c = true

/-- A text that does not start with white space. -/
def Flush (t : Str) : Prop := ∀ c s, t = c :: s → pySpace c = false

theorem newline_space : pySpace '\n' = true := by decide

theorem flush_drop (r : Str) : Flush ((r.dropWhile pySpace).takeWhile fun c => c != '\n') := by
  intro c s h
  cases hd : r.dropWhile pySpace with
  | nil => rw [hd] at h; cases h
  | cons d u =>
    rw [hd, List.takeWhile_cons] at h
    have : pySpace d = false := by
      have := List.head?_dropWhile_not pySpace r
      rw [hd] at this
      simpa using this
    split at h
    · cases h; exact this
    · cases h

/-- What follows a hash, cut in white space and a text that does not start with white space. -/
theorem cut_gap {w' t e : Str} (hw : ∀ c ∈ w', pySpace c = true) (hf : Flush t) (hn : '\n' ∉ t) (he : e = [] ∨ e = ['\n']) :
    ((w' ++ t ++ e).dropWhile pySpace).takeWhile (fun c => c != '\n') = t := by
  rw [List.append_assoc, List.dropWhile_append_of_pos hw]
  cases t with
  | nil =>
    rcases he with rfl | rfl
    · rfl
    · rw [List.nil_append, List.dropWhile_cons, if_pos newline_space]; rfl
  | cons c s =>
    rw [List.cons_append, List.dropWhile_cons, hf c s rfl]
    simp only [Bool.false_eq_true, if_false]
    rw [← List.cons_append, List.takeWhile_append_of_pos (by intro d hd; simp only [bne_iff_ne]; exact fun e => hn (e ▸ hd))]
    rcases he with rfl | rfl <;> simp

/-- Which parts a line is cut in: the longest text between brackets that is followed by a hash, and what follows the hash without the
white space around. -/
theorem C117_match {l : Str} (hl : IsLine l) (i t : Str) :
    splitExample l = some (i, t) ↔ Parted l i t ∧ Flush t ∧ ∀ i' t', Parted l i' t' → i'.length ≤ i.length := by
  have found : ∀ {i' t'}, Parted l i' t' → ∃ p, splitExample l = some p ∧ i'.length ≤ p.1.length := by
    rintro i' t' ⟨a, w, w', e, h, rfl, hw, hw', hn, hn', he⟩
    have e1 : l = '[' :: (a ++ ']' :: (w ++ '#' :: (w' ++ t' ++ e))) := by rw [h]; simp
    obtain ⟨p, h1, h2⟩ := lastClose_some_of (a := a) (b := w ++ '#' :: (w' ++ t' ++ e)) (fun h => hn (by simp [h])) (afterHash_iff.2 ⟨w, rfl, hw⟩)
    refine ⟨_, by rw [e1, splitExample, h1]; rfl, by simpa using h2⟩
  have sound : ∀ {i t}, splitExample l = some (i, t) → Parted l i t ∧ Flush t := by
    intro i t h
    unfold splitExample at h
    split at h
    · next s =>
      obtain ⟨⟨a, r⟩, h1, h2⟩ := Option.map_eq_some_iff.1 h
      cases h2
      obtain ⟨b, rfl, h3, h4, -⟩ := lastClose_some h1
      obtain ⟨w, rfl, hw⟩ := afterHash_iff.1 h3
      have hr : IsLine (r.dropWhile pySpace) := by
        refine IsLine.suffix (a := '[' :: (a ++ ']' :: (w ++ '#' :: r.takeWhile pySpace))) ?_
        have : r.takeWhile pySpace ++ r.dropWhile pySpace = r := List.takeWhile_append_dropWhile
        simpa [this] using hl
      obtain ⟨e, he, he'⟩ := hr.take
      refine ⟨⟨a, w, r.takeWhile pySpace, e, ?_, rfl, hw, fun c hc => List.all_eq_true.1 (List.all_takeWhile (p := pySpace) (l := r)) c hc, ?_, ?_, he'⟩, flush_drop r⟩
      · conv_lhs => rw [← List.takeWhile_append_dropWhile (p := pySpace) (l := r), he]
        simp
      · simpa using h4
      · intro h
        have := List.all_eq_true.1 (List.all_takeWhile (p := fun c => c != '\n') (l := r.dropWhile pySpace)) _ h
        simp at this
    · cases h
  constructor
  · intro h
    refine ⟨(sound h).1, (sound h).2, fun i' t' h' => ?_⟩
    obtain ⟨p, h1, h2⟩ := found h'
    rw [h] at h1
    cases h1
    exact h2
  · rintro ⟨h1, h2, h3⟩
    obtain ⟨⟨i', t'⟩, h4, h5⟩ := found h1
    obtain ⟨h6, h7⟩ := sound h4
    have h8 := h3 _ _ h6
    obtain ⟨a, w, w', e, k1, k2, k3, k4, k5, k6, k7⟩ := h1
    obtain ⟨a', v, v', e', m1, m2, m3, m4, m5, m6, m7⟩ := h6
    have hi : i ++ (w ++ '#' :: (w' ++ t ++ e)) = i' ++ (v ++ '#' :: (v' ++ t' ++ e')) := by
      have := k1.symm.trans m1
      simpa using this
    obtain ⟨q1, q2⟩ := List.append_inj hi (Nat.le_antisymm h5 h8)
    have q3 : w' ++ t ++ e = v' ++ t' ++ e' := by
      have q4 : afterHash (w ++ '#' :: (w' ++ t ++ e)) = some (v' ++ t' ++ e') := afterHash_iff.2 ⟨v, q2, m3⟩
      rw [afterHash_iff.2 ⟨w, rfl, k3⟩] at q4
      exact Option.some.inj q4
    have q5 : t = t' := by rw [← cut_gap k4 h2 k6 k7, q3, cut_gap m4 h7 m6 m7]
    rw [h4, q1, q5]

/-- A line has no parts, and the program stops on it with `AttributeError`, exactly when it is not made of these parts. -/
theorem C117_refused {l : Str} (hl : IsLine l) (accept : Str → Except Err Str) :
    (splitExample l = none ↔ ∀ i t, ¬ Parted l i t) ∧ (splitExample l = none → processLine accept l = .error .attributeError) := by
  refine ⟨⟨fun h i t hp => ?_, fun h => ?_⟩, fun h => by simp [processLine, h]⟩
  · obtain ⟨a, w, w', e, rfl, rfl, hw, hw', hn, hn', he⟩ := hp
    obtain ⟨p, h1, -⟩ := lastClose_some_of (a := a) (b := w ++ '#' :: (w' ++ t ++ e)) (fun h => hn (by simp [h])) (afterHash_iff.2 ⟨w, rfl, hw⟩)
    rw [List.append_assoc w'] at h1
    simp [splitExample, h1] at h
  · cases e : splitExample l with
    | none => rfl
    | some p => exact absurd ((C117_match hl p.1 p.2).1 e).1 (h _ _)

theorem lastClose_clear {t e : Str} (h : ¬ CloseHash t) (he : e = [] ∨ e = ['\n']) : lastClose (t ++ e) = none := by
  cases hc : lastClose (t ++ e) with
  | none => rfl
  | some p =>
    obtain ⟨a, r⟩ := p
    obtain ⟨b, h1, h2, -, -⟩ := lastClose_some hc
    obtain ⟨w, rfl, hw⟩ := afterHash_iff.1 h2
    exfalso
    rcases he with rfl | rfl
    · exact h ⟨a, w, r, by simpa using h1, hw⟩
    · rcases List.eq_nil_or_concat r with rfl | ⟨r', d, rfl⟩
      · have : t ++ ['\n'] = (a ++ ']' :: w) ++ ['#'] := by simpa using h1
        have := (List.append_inj' this rfl).2
        cases this
      · have : t ++ ['\n'] = (a ++ ']' :: w ++ '#' :: r') ++ [d] := by simpa using h1
        exact h ⟨a, w, r', (List.append_inj' this rfl).1, hw⟩

/-- A word without hash and a translation without closing bracket before a hash are found as they are written. -/
theorem C117_clear_partial {i t a w w' e : Str} (hi : i = '[' :: (a ++ [']'])) (hh : '\n' ∉ i) (hw : ∀ c ∈ w, pySpace c = true)
    (hw' : ∀ c ∈ w', pySpace c = true) (ht : ¬ CloseHash t) (hf : Flush t) (hn : '\n' ∉ t) (he : e = [] ∨ e = ['\n']) :
    splitExample (i ++ w ++ '#' :: w' ++ t ++ e) = some (i, t) := by
  subst hi
  have sp : ∀ {c}, pySpace c = true → c ≠ ']' := by rintro c h rfl; revert h; decide
  have h1 : lastClose (w ++ '#' :: (w' ++ (t ++ e))) = none := by
    apply lastClose_skip fun c hc => sp (hw c hc)
    rw [← List.singleton_append]
    exact lastClose_skip (by simp) (lastClose_skip (fun c hc => sp (hw' c hc)) (lastClose_clear ht he))
  have h2 := lastClose_intro (a := a) (r := w' ++ (t ++ e)) (fun h => hh (by simp [h])) (afterHash_iff.2 ⟨w, rfl, hw⟩) h1
  have e1 : '[' :: (a ++ [']']) ++ w ++ '#' :: w' ++ t ++ e = '[' :: (a ++ ']' :: (w ++ '#' :: (w' ++ (t ++ e)))) := by simp
  rw [e1, splitExample, h2]
  simp only [Option.map_some]
  rw [← List.append_assoc w', cut_gap hw' hf hn he]

/-- What is taken for the translation has no closing bracket before a hash, whatever the line. -/
theorem C117_translation {l i t : Str} (hl : IsLine l) (h : splitExample l = some (i, t)) : ¬ CloseHash t ∧ Flush t ∧ '\n' ∉ t := by
  obtain ⟨h1, h2, h3⟩ := (C117_match hl i t).1 h
  obtain ⟨a, w, w', e, rfl, rfl, hw, hw', hn, hn', he⟩ := h1
  refine ⟨?_, h2, hn'⟩
  rintro ⟨p, v, q, rfl, hv⟩
  by_cases hx : '\n' ∈ w ++ '#' :: w'
  · -- a line break before the end of the line
    obtain ⟨s, f, k1, k2, k3⟩ := hl
    have hs : '\n' ∈ s ∨ ∃ x, s ++ f = x ++ ['\n'] ∧ f = ['\n'] := by
      rcases k3 with rfl | rfl
      · left
        rw [List.append_nil] at k1
        rw [← k1]
        simp only [List.mem_append, List.mem_cons] at hx ⊢
        grind
      · exact .inr ⟨s, rfl, rfl⟩
    rcases hs with hs | ⟨x, -, rfl⟩
    · exact k2 hs
    · have k4 : ('[' :: (a ++ [']']) ++ w ++ '#' :: w' ++ (p ++ ']' :: v ++ '#' :: q) ++ e).dropLast = s := by rw [k1]; simp
      apply k2
      rw [← k4]
      have k5 : '[' :: (a ++ [']']) ++ w ++ '#' :: w' ++ (p ++ ']' :: v ++ '#' :: q) ++ e =
        '[' :: (a ++ [']']) ++ ((w ++ '#' :: w') ++ (p ++ ']' :: v ++ '#' :: q ++ e)) := by simp
      rw [k5, List.dropLast_append_of_ne_nil (by simp), List.dropLast_append_of_ne_nil (by simp)]
      simp only [List.mem_append] at hx ⊢
      grind
  · have := h3 ('[' :: (a ++ [']'] ++ w ++ '#' :: w' ++ p ++ [']'])) (q.dropWhile pySpace) ?_
    · simp at this
    · refine ⟨a ++ [']'] ++ w ++ '#' :: w' ++ p, v, q.takeWhile pySpace, e, ?_, rfl, hv,
        fun c hc => List.all_eq_true.1 (List.all_takeWhile (p := pySpace) (l := q)) c hc, ?_, ?_, he⟩
      · conv_lhs => rw [← List.takeWhile_append_dropWhile (p := pySpace) (l := q)]
        simp
      · simp only [List.mem_append, List.mem_cons, not_or] at hn hn' hx ⊢
        grind
      · intro h
        exact hn' (by simp [(List.dropWhile_sublist pySpace).subset h])


/-- The lines that are no comments. -/
def exampleLines (ls : List Str) : List Str := ls.filter fun l => !startsWith l (c!"//")

/-- What is written: one line for each line that is no comment, in order, up to the first that raises. -/
theorem C117_written (accept : Str → Except Err Str) : ∀ ls : List Str, ∃ ps : List (Str × Str),
    (writeExamples accept ls).1 = ps.map (fun p => p.1 ++ c!" # " ++ p.2 ++ ['\n']) ∧
    (((writeExamples accept ls).2 = none ∧ List.Forall₂ (fun l p => processLine accept l = .ok p) (exampleLines ls) ps) ∨
      ∃ b l r e, exampleLines ls = b ++ l :: r ∧ List.Forall₂ (fun l p => processLine accept l = .ok p) b ps ∧
        processLine accept l = .error e ∧ (writeExamples accept ls).2 = some e)
  | [] => ⟨[], rfl, .inl ⟨rfl, .nil⟩⟩
  | l :: ls => by
    obtain ⟨ps, h1, h2⟩ := C117_written accept ls
    unfold writeExamples exampleLines
    by_cases hc : startsWith l (c!"//") = true
    · rw [if_pos hc, List.filter_cons_of_neg (by simp [hc])]
      exact ⟨ps, h1, h2⟩
    · rw [if_neg hc, List.filter_cons_of_pos (by simp [hc])]
      cases hp : processLine accept l with
      | error e => exact ⟨[], rfl, .inr ⟨[], l, _, e, rfl, .nil, hp, rfl⟩⟩
      | ok p =>
        refine ⟨p :: ps, by rw [List.map_cons, ← h1]; rfl, ?_⟩
        rcases h2 with ⟨h2, h3⟩ | ⟨b, l', r, e, h3, h4, h5, h6⟩
        · exact .inl ⟨h2, .cons hp h3⟩
        · exact .inr ⟨l :: b, l', r, e, by rw [List.cons_append, ← h3]; rfl, .cons hp h4, h5, h6⟩

/-- What a pair written comes from. -/
theorem processLine_ok {accept : Str → Except Err Str} {l : Str} {p : Str × Str} (h : processLine accept l = .ok p) :
    ∃ i, splitExample l = some (i, p.2) ∧ accept (replaceX i) = .ok p.1 := by
  unfold processLine at h
  split at h
  · cases h
  · next i t e =>
    cases ha : accept (replaceX i) with
    | error e' => rw [ha] at h; cases h
    | ok u => rw [ha] at h; cases h; exact ⟨i, e, ha⟩

/-- A text between brackets, on one line and without `X`, that is read as itself. -/
def SettledText (accept : Str → Except Err Str) (u : Str) : Prop :=
  (∃ a, u = '[' :: (a ++ [']'])) ∧ '\n' ∉ u ∧ 'X' ∉ u ∧ accept u = .ok u

theorem replaceX_none : ∀ {s : Str}, 'X' ∉ s → replaceX s = s
  | [], _ => rfl
  | c :: s, h => by
    have h1 : c ≠ 'X' := fun e => h (by simp [e])
    have := replaceX_none (s := s) fun e => h (by simp [e])
    unfold replaceX at this ⊢
    rw [List.flatMap_cons, if_neg h1, this]
    rfl

/-- The program leaves what it has written, even before an exception, as it is: the lines read from its output are the lines
written, and these are written again. -/
theorem C117_again_partial {accept : Str → Except Err Str} {ls : List Str} (hs : ∀ l ∈ ls, ∀ p, processLine accept l = .ok p → SettledText accept p.1)
    (hl : ∀ l ∈ ls, IsLine l) :
    splitLines (writeExamples accept ls).1.flatten = (writeExamples accept ls).1 ∧
    writeExamples accept (writeExamples accept ls).1 = ((writeExamples accept ls).1, none) := by
  obtain ⟨ps, h1, h2⟩ := C117_written accept ls
  have hp : ∀ p ∈ ps, ∃ l ∈ ls, IsLine l ∧ processLine accept l = .ok p := by
    have key : ∀ {b : List Str}, (∀ l ∈ b, l ∈ ls) → List.Forall₂ (fun l p => processLine accept l = .ok p) b ps →
        ∀ p ∈ ps, ∃ l ∈ ls, IsLine l ∧ processLine accept l = .ok p := by
      intro b hb h
      clear h1 h2
      induction h with
      | nil => simp
      | cons h _ ih =>
        intro p hp
        rcases List.mem_cons.1 hp with rfl | hp
        · exact ⟨_, hb _ (by simp), hl _ (hb _ (by simp)), h⟩
        · exact ih (fun l hl => hb l (by simp [hl])) p hp
    have hk : ∀ l ∈ exampleLines ls, l ∈ ls := fun l h => (List.mem_filter.1 h).1
    rcases h2 with ⟨-, h⟩ | ⟨b, l, r, e, h, h', -⟩
    · exact key hk h
    · exact key (fun l hl => hk l (by rw [h]; simp [hl])) h'
  have ok : ∀ p ∈ ps, '\n' ∉ p.1 ++ c!" # " ++ p.2 ∧ startsWith (exampleLine p) (c!"//") = false ∧ processLine accept (exampleLine p) = .ok p := by
    intro p h
    obtain ⟨l, k0, k1, k2⟩ := hp p h
    obtain ⟨i, k3, k4⟩ := processLine_ok k2
    obtain ⟨⟨a, ha⟩, m1, m2, m3⟩ := hs l k0 p k2
    obtain ⟨n1, n2, n3⟩ := C117_translation k1 k3
    refine ⟨?_, by rw [exampleLine, ha]; rfl, ?_⟩
    · simp only [List.mem_append, not_or]
      exact ⟨⟨m1, by decide⟩, n3⟩
    · have := C117_clear_partial (w := [' ']) (w' := [' ']) (e := ['\n']) ha m1 (by decide) (by decide) n1 n2 n3 (.inr rfl)
      have e1 : exampleLine p = p.1 ++ [' '] ++ '#' :: [' '] ++ p.2 ++ ['\n'] := by simp [exampleLine]
      rw [processLine, e1, this]
      simp only [replaceX_none m2, m3]
      rfl
  rw [h1]
  constructor
  · have := splitLines_flatMap (f := fun p : Str × Str => p.1 ++ c!" # " ++ p.2) (l := ps) fun p h => (ok p h).1
    rwa [List.flatMap_def] at this
  · clear h1 h2 hp
    induction ps with
    | nil => rfl
    | cons p ps ih =>
      obtain ⟨-, k2, k3⟩ := ok p (by simp)
      have ih := ih fun q hq => ok q (by simp [hq])
      rw [List.map_cons]
      change writeExamples accept (exampleLine p :: _) = _
      rw [writeExamples, k2]
      simp only [Bool.false_eq_true, if_false, k3, ih]
      rfl

/-- The texts of words that the program writes are between brackets, on one line, and without `X` and hash. -/
theorem C117_texts {s u : Str} (h : acceptText s = .ok u) : (∃ a, u = '[' :: (a ++ [']'])) ∧ '\n' ∉ u ∧ 'X' ∉ u ∧ '#' ∉ u := by
  unfold acceptText at h
  cases hr : uslRead s with
  | error e => rw [hr] at h; cases h
  | ok r =>
    obtain ⟨x, ds⟩ := r
    rw [hr] at h
    have hb := C84_alphabet hr
    have hu : x.text = u ∧ ∃ w, x = .word w := by
      cases x with
      | word w => 
        by_cases hd : ds = []
        · by_cases hc : w.check = true
          · simp [bind, Except.bind, hd, hc, pure, Except.pure] at h
            exact ⟨h, w, rfl⟩
          · simp [bind, Except.bind, hd, hc] at h
        · simp [bind, Except.bind, hd, throw, throwThe, MonadExceptOf.throw] at h
      | script _ | pm _ | lexeme _ => 
        by_cases hd : ds = [] <;> simp [bind, Except.bind, hd, throw, throwThe, MonadExceptOf.throw] at h
    obtain ⟨rfl, w, rfl⟩ := hu
    refine ⟨?_, ?_, ?_, ?_⟩
    · obtain ⟨⟨l, t, f, role, hf, hw, -⟩, -⟩ := read_made hr
      obtain ⟨text, h1, h2⟩ := bind_ok.1 hw
      obtain ⟨cl, h3, h4⟩ := bind_ok.1 h2
      rw [pure_ok] at h4
      subst h4
      obtain ⟨main, _, h6⟩ := bind_ok.1 h1
      rw [pure_ok] at h6
      subst h6
      exact ⟨_, rfl⟩
    all_goals exact fun hm => absurd (hb.1 _ hm) (by decide)


/-- The same for the words of the library: it is enough that each text written is read as itself (**C84** says when). -/
theorem C117_words_partial {ls : List Str} (hl : ∀ l ∈ ls, IsLine l)
    (hs : ∀ l ∈ ls, ∀ p, processLine acceptText l = .ok p → acceptText p.1 = .ok p.1) :
    splitLines (writeExamples acceptText ls).1.flatten = (writeExamples acceptText ls).1 ∧
    writeExamples acceptText (writeExamples acceptText ls).1 = ((writeExamples acceptText ls).1, none) := by
  refine C117_again_partial (fun l h p hp => ?_) hl
  obtain ⟨i, -, h2⟩ := processLine_ok hp
  obtain ⟨h3, h4, h5, -⟩ := C117_texts h2
  exact ⟨h3, h4, h5, hs l h p hp⟩

-- A comment, a line in disorder, written in order, and the output again.
def demoExamples : List Str := [c!"// E:A:.\n", c!"[! E:A:. ()(S: A:)]# fr: vu | en: [seen] \n", c!"[! E:A:. (X)]  #\n"]

-- The hypotheses of `C117_again_partial` on the lines, and what is written.
example : (∀ l ∈ demoExamples, IsLine l) ∧ writeExamples acceptText demoExamples =
    ([c!"[! E:A:.  ()(A: S:)] # fr: vu | en: [seen] \n", c!"[! E:A:.  (wa.)] # \n"], none) ∧
    writeExamples acceptText [c!"[! E:A:.  ()(A: S:)] # fr: vu | en: [seen] \n", c!"[! E:A:.  (wa.)] # \n"] =
    ([c!"[! E:A:.  ()(A: S:)] # fr: vu | en: [seen] \n", c!"[! E:A:.  (wa.)] # \n"], none) := by
  refine ⟨?_, by decide +kernel, by decide +kernel⟩
  intro l hl
  simp only [demoExamples, List.mem_cons, List.not_mem_nil, or_false] at hl
  rcases hl with rfl | rfl | rfl
  · exact ⟨c!"// E:A:.", ['\n'], rfl, by decide, .inr rfl⟩
  · exact ⟨c!"[! E:A:. ()(S: A:)]# fr: vu | en: [seen] ", ['\n'], rfl, by decide, .inr rfl⟩
  · exact ⟨c!"[! E:A:. (X)]  #", ['\n'], rfl, by decide, .inr rfl⟩

/-- **C117** is violated by a translation with a closing bracket before a hash: it is read as a part of the word, and the program
stops. -/
theorem C117_violated : acceptText (c!"[! E:A:. ()(A:)]") = .ok (c!"[! E:A:.  ()(A:)]") ∧
    splitExample (c!"[! E:A:. ()(A:)] # vu [rare] # note\n") = some (c!"[! E:A:. ()(A:)] # vu [rare]", c!"note") ∧
    writeExamples acceptText [c!"[! E:A:. ()(A:)] # vu [rare] # note\n"] = ([], some .cannotParse) := by
  refine ⟨?_, ?_, ?_⟩ <;> decide +kernel

/-- **C117** is violated by an empty line, on which the program stops. -/
theorem C117_violated_blank (accept : Str → Except Err Str) (ls : List Str) :
    writeExamples accept (['\n'] :: ls) = ([], some .attributeError) := rfl

end Verif
