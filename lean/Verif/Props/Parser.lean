import Verif.Lemmas.ParserErr
import Verif.Props.ScriptOrder

/-
Properties of the reader of scripts (C09, C18, C19).
-/

namespace Verif
open Script

/-- **C09** Reading back the text of a script succeeds and gives an equal script, which can be built and has the same
meaning. -/
theorem C09_round_trip (s : Script) (h : Built s) :
    ∃ t, parseScript s.str = .ok t ∧ Built t ∧ t.pyEq s = true ∧ SameMeaning t s := by
  obtain ⟨t, h1, h2, h3⟩ := parse_str (built_iff_wf.1 h)
  have ht := built_iff_wf.2 h2
  have hm := C08_text_determines_meaning ht h h3
  exact ⟨t, h1, ht, by simp [pyEq, h3], hm.1, hm.2.2⟩

/-- Hypotheses met by a product with an abbreviation, a sum and elided roles: `U:A:.wa.-+a.-`. -/
example : Built (.add [.mult (.mult (.prim .U) (.prim .A) (.null 0)) (.null 1) (.null 1),
    .mult (.mult (.prim .U) (.prim .S) (.null 0)) (.mult (.prim .T) (.null 0) (.null 0)) (.null 1)]) :=
  built_of (by decide +kernel)

/-- **C09** (second half) What the reader returns is stable: reading the text of a read script gives an equal script. -/
theorem C09_stable (x : Str) (s : Script) (h : parseScript x = .ok s) :
    ∃ t, parseScript s.str = .ok t ∧ t.pyEq s = true := by
  rcases parse_outcome x with ⟨s', h1, h2⟩ | h1 | h1
  · rw [h] at h1
    cases h1
    obtain ⟨t, h3, _, h4⟩ := parse_str h2
    exact ⟨t, h3, by simp [pyEq, h4]⟩
  · rw [h] at h1; cases h1
  · rw [h] at h1; cases h1

/-- A text that is not the text of the script it denotes: the terms are reordered and the abbreviation is used. -/
example : ∃ s, parseScript (c!"wa.+U:.") = .ok s ∧ s.str = c!"U:.+wa." := by
  refine ⟨.add [.mult (.prim .U) (.null 0) (.null 0), .mult (.prim .U) (.prim .A) (.null 0)], ?_, ?_⟩ <;> decide +kernel

/-- **C18**, the claim: reading a text returns a script or raises `CannotParse`. -/
def C18_claim : Prop := ∀ x : Str, (∃ s, parseScript x = .ok s) ∨ parseScript x = .error .cannotParse

/-- **C18** is false: a grammatical text with more than 360 singular sequences raises `TooManySingularSequences`. -/
theorem C18_violated : ¬ C18_claim := by
  intro h
  have hx : parseScript (c!"I:I:I:.+F:I:I:.") = .error .tooMany := by decide +kernel
  rcases h (c!"I:I:I:.+F:I:I:.") with ⟨s, hs⟩ | hs
  · rw [hx] at hs; cases hs
  · rw [hx] at hs; cases hs

/-- **C18** (part) For every text: a script that the constructors can build, or `CannotParse`, or
`TooManySingularSequences`; no other exception.  The full claim excludes the last case. -/
theorem C18_outcomes_partial (x : Str) : (∃ s, parseScript x = .ok s ∧ Built s) ∨ parseScript x = .error .cannotParse ∨
    parseScript x = .error .tooMany := by
  rcases parse_outcome x with ⟨s, h1, h2⟩ | h1 | h1
  · exact .inl ⟨s, h1, built_iff_wf.2 h2⟩
  · exact .inr (.inl h1)
  · exact .inr (.inr h1)

example : parseScript (c!"U:+S:.") = .ok (.mult (.add [.prim .U, .prim .S]) (.null 0) (.null 0)) := by decide +kernel
example : parseScript (c!"U:S:") = .error .cannotParse := by decide +kernel
example : parseScript [] = .error .cannotParse := by decide +kernel

/-- The characters that have a meaning in scripts (`lexer.py` lines 25-38), blanks included. -/
def scriptAlphabet : List Char :=
  c!"EUASBTOMFIwoayeuijgsbthckmnpxdfl:.-'’,_;+ \t\n"

/-- **C19**, the claim: a text with a character outside of the alphabet is refused. -/
def C19_claim : Prop := ∀ x : Str, ∀ c ∈ x, c ∉ scriptAlphabet → ∃ e, parseScript x = .error e

theorem tok1_none_of_foreign {c : Char} (h : c ∉ scriptAlphabet) : tok1 c = none ∧ c ≠ 'w' := by
  constructor
  · unfold tok1
    split
    · subst_vars; exact absurd (by decide) h
    · split
      · subst_vars; exact absurd (by decide) h
      · split
        · rename_i k hk
          obtain ⟨hlt, h1, _⟩ := List.findIdx?_eq_some_iff_getElem.1 (by simpa [List.idxOf?] using hk)
          simp at h1
          have hm : c ∈ layerMarks := by rw [← h1]; exact List.getElem_mem _
          have : ∀ d ∈ layerMarks, d ∈ scriptAlphabet := by decide
          exact absurd (this c hm) h
        · split
          · subst_vars; exact absurd (by decide) h
          · split
            · rename_i p hp
              have := List.find?_some hp
              simp at this
              subst this
              exact absurd (by cases p <;> decide) h
            · split
              · rename_i p hp
                have := List.find?_some hp
                simp at this
                subst this
                exact absurd (by cases p <;> decide) h
              · split
                · rename_i hm
                  simp only [remMulTable, List.map_flatMap, List.mem_flatMap, List.map_map, List.mem_map,
                    Function.comp_apply] at hm
                  obtain ⟨p, _, q, _, hpq⟩ := hm
                  have : ∀ p ∈ Prim.all, ∀ q ∈ Prim.all, ∀ d ∈ remMulName p q, d ∈ scriptAlphabet := by decide
                  refine absurd (this p (by cases p <;> decide) q (by cases q <;> decide) c ?_) h
                  rw [hpq]; simp
                · rfl
  · rintro rfl; exact absurd (by decide) h

/-- **C19** is false for every accepted text and every foreign character: the character is skipped wherever it stands,
unless it separates a `w` from the second letter of an abbreviation. -/
theorem C19_foreign_skipped (x y : Str) (c : Char) (hc : c ∉ scriptAlphabet)
    (h : ¬ ((∃ x', x = x' ++ ['w']) ∧ ∃ d y', y = d :: y' ∧ d ∈ (c!"oaue"))) :
    parseScript (x ++ c :: y) = parseScript (x ++ y) := by
  obtain ⟨h1, h2⟩ := tok1_none_of_foreign hc
  have : lex (x ++ c :: y) = lex (x ++ y) := by
    refine lex_foreign h1 h2 x y ?_
    rintro ⟨h3, d, y', h4, h5⟩
    refine h ⟨h3, d, y', h4, ?_⟩
    rcases h5 with rfl | rfl | rfl | rfl <;> simp
  unfold parseScript
  rw [this]

theorem C19_violated : ¬ C19_claim := by
  intro h
  have hx : parseScript (c!"U:?") = .ok (.prim .U) := by decide +kernel
  obtain ⟨e, he⟩ := h (c!"U:?") '?' (by decide) (by decide)
  rw [hx] at he; cases he

/-- **C19** (part) A text made of foreign characters only is refused.  The full claim is about texts that contain one. -/
theorem C19_only_foreign_partial (x : Str) (h : ∀ c ∈ x, c ∉ scriptAlphabet) : parseScript x = .error .cannotParse := by
  induction x with
  | nil => decide +kernel
  | cons c x ih =>
    have := C19_foreign_skipped [] x c (h c (by simp)) (by rintro ⟨⟨x', hx⟩, _⟩; simp at hx)
    simp only [List.nil_append] at this
    rw [this]
    exact ih fun d hd => h d (by simp [hd])

example : ∀ c ∈ (c!"?!"), c ∉ scriptAlphabet := by decide
/-- The excluded position: here the foreign character does change the reading. -/
example : parseScript (c!"w?a.") ≠ parseScript (c!"wa.") := by decide +kernel

end Verif
