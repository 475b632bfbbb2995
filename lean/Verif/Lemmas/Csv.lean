import Verif.Model.Database
import Mathlib.Data.List.Basic

/-
The CSV reader on lines written by the database, and the splitting of such files into lines.
-/

namespace Verif
namespace Csv

theorem run_append (r : Csv) (s t : Str) : r.run (s ++ t) = (r.run s).bind fun r => r.run t := by
  unfold run
  rw [List.foldlM_append]
  rfl

theorem run_cons (r : Csv) (c : Char) (s : Str) : r.run (c :: s) = (r.step c).bind fun r => r.run s := by
  unfold run
  rw [List.foldlM_cons]
  rfl

theorem run_nil (r : Csv) : r.run [] = .ok r := rfl

/-- Inside quotation marks, the doubled text is read as the text. -/
theorem run_doubled : ∀ (s f : Str) (fs : List Str) (out : List (List Str)),
    (Csv.mk .inQuoted f fs out).run (doubleQuotes s) = .ok ⟨.inQuoted, f ++ s, fs, out⟩
  | [], f, fs, out => by simp [doubleQuotes, run_nil]
  | c :: cs, f, fs, out => by
    rw [doubleQuotes]
    by_cases hc : c = '"'
    · subst hc
      rw [if_pos rfl, run_cons]
      have h1 : (Csv.mk .inQuoted f fs out).step '"' = .ok ⟨.quoteInQuoted, f, fs, out⟩ := rfl
      have h2 : (Csv.mk .quoteInQuoted f fs out).step '"' = .ok ⟨.inQuoted, f ++ ['"'], fs, out⟩ := rfl
      rw [h1]; simp only [Except.bind]
      rw [run_cons, h2]; simp only [Except.bind]
      rw [run_doubled cs]; simp
    · rw [if_neg hc, run_cons]
      have h1 : (Csv.mk .inQuoted f fs out).step c = .ok ⟨.inQuoted, f ++ [c], fs, out⟩ := by
        by_cases hn : c = '\n' <;> simp [step, feed, add, eol, hc, bind, Except.bind, pure, Except.pure]
      rw [h1]; simp only [Except.bind]
      rw [run_doubled cs]; simp

/-- A word without separators is read as it is. -/
def Plainly (w : Str) : Prop := ∀ c ∈ w, c ≠ ' ' ∧ c ≠ '"' ∧ c ≠ '\n' ∧ c ≠ '\r'

theorem run_word_in : ∀ (w f : Str) (fs : List Str) (out : List (List Str)), Plainly w →
    (Csv.mk .inField f fs out).run w = .ok ⟨.inField, f ++ w, fs, out⟩
  | [], f, fs, out, _ => by simp [run_nil]
  | c :: cs, f, fs, out, h => by
    obtain ⟨h1, h2, h3, h4⟩ := h c (by simp)
    rw [run_cons]
    have e : (Csv.mk .inField f fs out).step c = .ok ⟨.inField, f ++ [c], fs, out⟩ := by
      simp [step, feed, add, h1, h3, h4, bind, Except.bind, pure, Except.pure]
    rw [e]; simp only [Except.bind]
    rw [run_word_in cs _ fs out fun c hc => h c (by simp [hc])]
    simp

theorem run_word {w : Str} (fs : List Str) (out : List (List Str)) (hw : w ≠ []) (h : Plainly w) :
    (Csv.mk .startField [] fs out).run w = .ok ⟨.inField, w, fs, out⟩ := by
  cases w with
  | nil => exact absurd rfl hw
  | cons c cs =>
    obtain ⟨h1, h2, h3, h4⟩ := h c (by simp)
    rw [run_cons]
    have e : (Csv.mk .startField [] fs out).step c = .ok ⟨.inField, [c], fs, out⟩ := by
      simp [step, feed, atField, add, h1, h2, h3, h4, bind, Except.bind, pure, Except.pure]
    rw [e]; simp only [Except.bind]
    rw [run_word_in cs _ fs out fun c hc => h c (by simp [hc])]
    simp

/-- A word and the space after it. -/
theorem run_word_space {w : Str} (fs : List Str) (out : List (List Str)) (hw : w ≠ []) (h : Plainly w) (rest : Str) :
    (Csv.mk .startField [] fs out).run (w ++ ' ' :: rest) = (Csv.mk .startField [] (fs ++ [w]) out).run rest := by
  rw [run_append, run_word fs out hw h]; simp only [Except.bind]
  rw [run_cons]; rfl

/-- A quoted field, at the start of a line or of a field, and the space after it. -/
theorem run_quoted_space (st : CsvSt) (hst : st = .startRecord ∨ st = .startField) (s : Str) (fs : List Str)
    (out : List (List Str)) (rest : Str) :
    (Csv.mk st [] fs out).run ('"' :: (doubleQuotes s ++ '"' :: ' ' :: rest)) =
      (Csv.mk .startField [] (fs ++ [s]) out).run rest := by
  have h1 : (Csv.mk st [] fs out).step '"' = .ok ⟨.inQuoted, [], fs, out⟩ := by rcases hst with rfl | rfl <;> rfl
  rw [run_cons, h1]; simp only [Except.bind]
  rw [run_append, run_doubled]; simp only [Except.bind, List.nil_append]
  rw [run_cons, show (Csv.mk .inQuoted s fs out).step '"' = .ok ⟨.quoteInQuoted, s, fs, out⟩ from rfl]; simp only [Except.bind]
  rw [run_cons]; rfl

/-- A quoted field and the end of the line. -/
theorem run_quoted_end (s : Str) (fs : List Str) (out : List (List Str)) (rest : Str) :
    (Csv.mk .startField [] fs out).run ('"' :: (doubleQuotes s ++ '"' :: '\n' :: rest)) =
      (Csv.mk .startRecord [] [] (out ++ [fs ++ [s]])).run rest := by
  rw [run_cons, show (Csv.mk .startField [] fs out).step '"' = .ok ⟨.inQuoted, [], fs, out⟩ from rfl]; simp only [Except.bind]
  rw [run_append, run_doubled]; simp only [Except.bind, List.nil_append]
  rw [run_cons, show (Csv.mk .inQuoted s fs out).step '"' = .ok ⟨.quoteInQuoted, s, fs, out⟩ from rfl]; simp only [Except.bind]
  rw [run_cons]; rfl

end Csv

theorem escapeNewlines_id : ∀ {s : Str}, '\n' ∉ s → escapeNewlines s = s
  | [], _ => rfl
  | c :: cs, h => by
    have h1 : c ≠ '\n' := fun e => h (by simp [e])
    have h2 : '\n' ∉ cs := fun e => h (by simp [e])
    rw [escapeNewlines, if_neg h1, escapeNewlines_id h2]

theorem mem_doubleQuotes : ∀ {s : Str} {c : Char}, c ∈ doubleQuotes s ↔ c ∈ s
  | [], c => by simp [doubleQuotes]
  | d :: s, c => by
    rw [doubleQuotes]
    split
    · rename_i h; subst h; simp [mem_doubleQuotes (s := s)]
    · simp [mem_doubleQuotes (s := s)]

theorem escapeValue_eq {s : Str} (h : '\n' ∉ s) : escapeValue s = doubleQuotes s :=
  escapeNewlines_id fun h' => h (mem_doubleQuotes.1 h')

/-- The two replacements commute. -/
theorem escapeValue_comm : ∀ s : Str, escapeValue s = doubleQuotes (escapeNewlines s)
  | [] => rfl
  | c :: cs => by
    have ih := escapeValue_comm cs
    unfold escapeValue at ih ⊢
    rw [doubleQuotes, escapeNewlines]
    by_cases h1 : c = '"'
    · subst h1
      simp [escapeNewlines, doubleQuotes, ih]
    · by_cases h2 : c = '\n'
      · subst h2
        simp [escapeNewlines, doubleQuotes, ih]
      · simp [escapeNewlines, doubleQuotes, ih, h1, h2]

theorem newline_not_mem_escapeNewlines : ∀ s : Str, '\n' ∉ escapeNewlines s
  | [] => by simp [escapeNewlines]
  | c :: cs => by
    rw [escapeNewlines]
    split
    · simp [newline_not_mem_escapeNewlines cs]
    · rename_i h
      simp [newline_not_mem_escapeNewlines cs, Ne.symm h]

theorem not_mem_escapeNewlines {s : Str} {c : Char} (h1 : c ∉ s) (h2 : c ≠ '\\') (h3 : c ≠ 'n') : c ∉ escapeNewlines s := by
  induction s with
  | nil => simp [escapeNewlines]
  | cons d s ih =>
    simp only [List.mem_cons, not_or] at h1
    rw [escapeNewlines]
    split
    · simp [h2, h3, ih h1.2]
    · simp [h1.1, ih h1.2]

theorem doubleQuotes_inj : ∀ {s t : Str}, doubleQuotes s = doubleQuotes t → s = t
  | [], [], _ => rfl
  | [], d :: t, h => by simp only [doubleQuotes] at h; split at h <;> simp at h
  | c :: s, [], h => by simp only [doubleQuotes] at h; split at h <;> simp at h
  | c :: s, d :: t, h => by
    rw [doubleQuotes, doubleQuotes] at h
    split at h <;> split at h <;> rename_i h1 h2
    · simp only [List.cons.injEq, true_and] at h; rw [h1, h2, doubleQuotes_inj h]
    · simp only [List.cons.injEq] at h; exact absurd h.1.symm h2
    · simp only [List.cons.injEq] at h; exact absurd h.1 h1
    · simp only [List.cons.injEq] at h; rw [h.1, doubleQuotes_inj h.2]

/-! ### Lines -/

theorem universalNewlines_id : ∀ {s : Str}, '\r' ∉ s → universalNewlines s = s
  | [], _ => rfl
  | c :: cs, h => by
    have h1 : c ≠ '\r' := fun e => h (by simp [e])
    have h2 : '\r' ∉ cs := fun e => h (by simp [e])
    unfold universalNewlines
    split
    · simp_all
    · simp_all
    · simp_all
    · rename_i d ds _ _ heq
      injection heq with e1 e2
      subst e1; subst e2
      rw [universalNewlines_id h2]

theorem splitLines_line : ∀ {l : Str} (rest : Str), '\n' ∉ l → splitLines (l ++ '\n' :: rest) = (l ++ ['\n']) :: splitLines rest
  | [], rest, _ => by simp [splitLines]
  | c :: l, rest, h => by
    have h1 : c ≠ '\n' := fun e => h (by simp [e])
    have h2 : '\n' ∉ l := fun e => h (by simp [e])
    rw [List.cons_append, splitLines, if_neg h1, splitLines_line rest h2]
    rfl

theorem splitLines_flatMap {α : Type} {f : α → Str} : ∀ {l : List α}, (∀ a ∈ l, '\n' ∉ f a) →
    splitLines (l.flatMap fun a => f a ++ ['\n']) = l.map fun a => f a ++ ['\n']
  | [], _ => rfl
  | a :: l, h => by
    rw [List.flatMap_cons, List.append_assoc, List.singleton_append, splitLines_line _ (h a (by simp)),
      splitLines_flatMap fun b hb => h b (by simp [hb])]
    rfl

end Verif
