import Verif.Lemmas.ScriptStr
import Verif.Model.PolyMorpheme

/-
The characters of script texts; texts joined by spaces can be separated again.
-/

namespace Verif
open Script

/-- The letters of script texts (`TERM_REGEX`, `ieml/constants.py` line 117). -/
def termLetters : List Char := c!"EUASBTOMFIacbedgfihkjmlonpsutwyx"

/-- The other characters of script texts. -/
def termMarks : List Char := c!".-;:,'_+"

def termChar (c : Char) : Bool := termLetters.contains c || termMarks.contains c

theorem mk_termChar {l : Nat} (h : l ≤ 6) : termChar (mk l) = true := by
  have : ∀ k : Fin 7, termChar (mk k) = true := by decide
  exact this ⟨l, by omega⟩

theorem markStr_termChar {l : Nat} (h : l ≤ 6) : ∀ c ∈ markStr l, termChar c = true := by
  intro c hc
  rw [markStr_eq h] at hc
  simp only [List.mem_singleton] at hc
  subst hc; exact mk_termChar h

theorem remMulLookup_termChar {r ch : Str} (h : remMulLookup r = some ch) : ∀ c ∈ ch, termChar c = true := by
  obtain ⟨p, q, _, rfl⟩ := remMulLookup_some h
  cases p <;> cases q <;> decide

theorem str_termChar {s : Script} (h : WF s) : ∀ c ∈ s.str, termChar c = true := by
  induction h with
  | @null l hl =>
    intro c hc
    rw [str] at hc
    rcases mem_nullStr hl hc with rfl | ⟨j, hj, rfl⟩
    · decide
    · exact mk_termChar (by omega)
  | @prim p => cases p <;> decide
  | @mult s a m h1 h2 h3 h4 h5 h6 h7 h8 h9 h10 ih1 ih2 ih3 =>
    intro c hc
    rw [str_mult'] at hc
    rcases List.mem_append.1 hc with hc | hc
    · rw [bodyMult] at hc
      split at hc
      · rename_i ch hch; exact remMulLookup_termChar hch c hc
      · rcases mem_rawMult hc with h | h | h
        · exact ih1 c h
        · exact ih2 c h
        · exact ih3 c h
    · exact markStr_termChar (by omega) c hc
  | @add cs h1 h2 h3 h4 h5 h6 h7 ih =>
    intro c hc
    rw [str_add] at hc
    split at hc
    · rename_i k _
      rcases List.mem_append.1 hc with hc | hc
      · simp only [List.mem_singleton] at hc; subst hc; cases k <;> decide
      · exact markStr_termChar (by omega) c hc
    · rcases mem_joinPlus hc with rfl | ⟨t, ht, hc⟩
      · decide
      · obtain ⟨x, hx, rfl⟩ := List.mem_map.1 ht
        exact ih x hx c hc

theorem space_not_mem {s : Script} (h : WF s) : ' ' ∉ s.str := by
  intro hc
  have := str_termChar h _ hc
  revert this; decide

theorem str_ne_nil {s : Script} (h : WF s) : s.str ≠ [] := (startsLetter_str h).ne_nil

theorem joinSpace_cons (s : Str) (l : List Str) : joinSpace (s :: l) = if l = [] then s else s ++ ' ' :: joinSpace l := by
  cases l <;> simp [joinSpace]

/-- Texts without spaces can be read off their joined text. -/
theorem joinSpace_inj : ∀ {a b : List Str}, (∀ s ∈ a, s ≠ [] ∧ ' ' ∉ s) → (∀ s ∈ b, s ≠ [] ∧ ' ' ∉ s) →
    joinSpace a = joinSpace b → a = b
  | [], [], _, _, _ => rfl
  | [], s :: l, _, hb, h => by
    rw [joinSpace_cons] at h
    have := (hb s (by simp)).1
    split at h
    · exact absurd h.symm this
    · simp [joinSpace] at h
  | s :: l, [], ha, _, h => by
    rw [joinSpace_cons] at h
    have := (ha s (by simp)).1
    split at h
    · exact absurd h this
    · simp [joinSpace] at h
  | s :: l, s' :: l', ha, hb, h => by
    rw [joinSpace_cons, joinSpace_cons] at h
    have h1 := ha s (by simp)
    have h2 := hb s' (by simp)
    have ha' : ∀ t ∈ l, t ≠ [] ∧ ' ' ∉ t := fun t ht => ha t (by simp [ht])
    have hb' : ∀ t ∈ l', t ≠ [] ∧ ' ' ∉ t := fun t ht => hb t (by simp [ht])
    split at h <;> split at h
    · rename_i e1 e2; rw [h, e1, e2]
    · exact absurd (h ▸ by simp) h1.2
    · exact absurd (h ▸ by simp) h2.2
    · obtain ⟨e1, e2⟩ := split_at_mark h1.2 h2.2 h
      rw [e1, joinSpace_inj ha' hb' e2]

end Verif
