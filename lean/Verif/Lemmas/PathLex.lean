import Verif.Model.PathParser
import Verif.Lemmas.ScriptChars
import Verif.Lemmas.UslLex
import Mathlib.Data.List.TakeWhile

/-
The tokens of the texts of paths.
-/

namespace Verif
open Script

/-! ### The automaton of `TERM_REGEX` on the texts of scripts -/

/-- The marks that can follow the mark of layer `n`. -/
def marksAfter (n : Nat) : List Char := (pathMarks.dropWhile (· != mk n)).tail

theorem takeTerm_mark {n : Nat} (h : n ≤ 6) (r : Str) : takeTerm pathMarks (mk n :: r) = mk n :: takeTerm (marksAfter n) r := by
  interval_cases n <;> rfl

theorem takeTerm_next {n : Nat} (h : n ≤ 5) (r : Str) :
    takeTerm (marksAfter n) (mk (n + 1) :: r) = mk (n + 1) :: takeTerm (marksAfter (n + 1)) r := by
  interval_cases n <;> rfl

theorem takeTerm_plus {n : Nat} (h : n ≤ 6) (r : Str) : takeTerm (marksAfter n) ('+' :: r) = '+' :: takeTerm [] r := by
  interval_cases n <;> rfl

/-- The automaton goes through the text of a script, from any state. -/
theorem takeTerm_str {s : Script} (h : WF s) (ms : List Char) (r : Str) :
    takeTerm ms (s.str ++ r) = s.str ++ takeTerm (marksAfter s.layer) r := by
  induction h generalizing ms r with
  | @null l h => 
    have h : l ≤ 6 := h
    interval_cases l <;> rfl
  | @prim p => cases p <;> rfl
  | @mult s a m hs ha hm la lm ls _ _ _ _ ihs iha ihm =>
    rw [str_mult', markStr_eq (by omega), bodyMult]
    show _ = _ ++ takeTerm (marksAfter (s.layer + 1)) r
    split
    · rename_i ch hch
      obtain ⟨p, q, _, rfl⟩ := remMulLookup_some hch
      have : ∀ x, takeTerm ms (remMulName p q ++ x) = remMulName p q ++ takeTerm pathMarks x := by
        intro x
        cases p <;> cases q <;> rfl
      rw [List.append_assoc, this, List.append_assoc]
      show _ ++ takeTerm pathMarks (mk (s.layer + 1) :: r) = _
      rw [takeTerm_mark (by omega)]
      rfl
    · rw [rawMult_eq, tailRoles]
      have fin : ∀ x, takeTerm (marksAfter s.layer) ([mk (s.layer + 1)] ++ x) = [mk (s.layer + 1)] ++ takeTerm (marksAfter (s.layer + 1)) x :=
        fun x => takeTerm_next ls x
      split
      · simp only [List.append_assoc, ihs, iha, ihm, la, lm, fin]
      · split
        · simp only [List.append_assoc, ihs, iha, la, fin]
        · simp only [List.append_assoc, ihs, fin, List.nil_append]
  | @add cs hne hc hl h1 h2 h3 h4 ih =>
    rw [str_add]
    split
    · rename_i k hk
      have h0 : (add cs).layer = 0 := by
        by_contra h
        rw [remAdd?_of_layer h] at hk
        cases hk
      rw [h0]
      cases k <;> rfl
    · have hn : (add cs).layer ≤ 6 := by
        cases cs with
        | nil => exact absurd rfl hne
        | cons c cs => rw [← hl c (by simp)]; exact wf_layer (hc c (by simp))
      generalize (add cs).layer = n at hl hn ⊢
      rename_i hx
      clear hc h1 h2 h3 h4 hx
      induction cs generalizing ms with
      | nil => exact absurd rfl hne
      | cons c cs ihc =>
        cases cs with
        | nil =>
          simp only [List.map_cons, List.map_nil, joinPlus]
          rw [ih c (by simp), hl c (by simp)]
        | cons d ds =>
          simp only [List.map_cons, joinPlus]
          rw [List.append_assoc, ih c (by simp), hl c (by simp)]
          show _ ++ takeTerm (marksAfter n) ('+' :: (joinPlus ((d :: ds).map str) ++ r)) = _
          rw [takeTerm_plus hn, ihc (by simp) (fun c h => ih c (List.mem_cons_of_mem _ h)) _ (fun c h => hl c (List.mem_cons_of_mem _ h))]
          simp

/-! ### Reserved words -/

/-- The beginning of a script: a letter, then a mark, or a letter for those that begin with `w`. -/
def ScriptHead (w : Str) : Prop := ∃ c d r, w = c :: d :: r ∧ termFirst c = true ∧ (c = 'w' ∨ d ∈ layerMarks)

theorem ScriptHead.append {w : Str} (h : ScriptHead w) (x : Str) : ScriptHead (w ++ x) := by
  obtain ⟨c, d, r, rfl, h⟩ := h
  exact ⟨c, d, r ++ x, by simp, h⟩

theorem mk_mem {n : Nat} (h : n ≤ 6) : mk n ∈ layerMarks := by interval_cases n <;> decide

theorem scriptHead_str {s : Script} (h : WF s) : ScriptHead s.str := by
  induction h with
  | @null l h =>
    have h : l ≤ 6 := h
    interval_cases l <;> exact ⟨_, _, _, rfl, by decide, Or.inr (by decide)⟩
  | @prim p => cases p <;> exact ⟨_, _, _, rfl, by decide, Or.inr (by decide)⟩
  | @mult s a m _ _ _ _ _ ls _ _ _ _ ihs _ _ =>
    rw [str_mult', bodyMult]
    split
    · rename_i h'
      obtain ⟨p, q, _, rfl⟩ := remMulLookup_some h'
      rw [markStr_eq (by omega)]
      have := mk_mem (n := s.layer + 1) (by omega)
      cases p <;> cases q <;>
        first
        | exact ⟨_, _, _, rfl, by decide, Or.inr this⟩
        | exact ⟨_, _, _, rfl, by decide, Or.inl rfl⟩
    · rw [rawMult_eq]
      exact (ihs.append _).append _
  | @add cs h0 hwf hl _ _ _ _ ih =>
    rw [str_add]
    split
    · rename_i k _
      cases k <;> exact ⟨_, _, _, rfl, by decide, Or.inr (by decide)⟩
    · cases cs with
      | nil => exact absurd rfl h0
      | cons c cs =>
        cases cs with
        | nil => simpa [joinPlus] using ih c (by simp)
        | cons d ds =>
          simp only [List.map_cons, joinPlus]
          exact (ih c (by simp)).append _

/-- Words that no script begins with. -/
def wordy (w : Str) : Bool :=
  match w with
  | c :: d :: _ => c != 'w' && !layerMarks.contains d
  | _ => false

theorem wordy_prefix {w s : Str} (hw : wordy w = true) (hs : ScriptHead s) : w.isPrefixOf s = false := by
  obtain ⟨c, d, r, rfl, _, h⟩ := hs
  match w, hw with
  | a :: b :: w, hw =>
    simp only [wordy, Bool.and_eq_true, bne_iff_ne, Bool.not_eq_true', List.contains_eq_mem, decide_eq_false_iff_not] at hw
    simp only [List.isPrefixOf]
    rcases h with rfl | h
    · simp [hw.1]
    · have : b ≠ d := fun e => hw.2 (e ▸ h)
      simp [this]

theorem names_wordy : ∀ e ∈ roleNames, wordy e.1 = true := by decide +kernel

theorem afterPrefix_isPrefixOf {p s : Str} (h : p.isPrefixOf s = false) : afterPrefix p s = none := by
  simp [afterPrefix, h]

theorem reserved_script {s : Str} (h : ScriptHead s) : reserved s = false := by
  have hg : groupAt s = none := by
    rw [groupAt, afterPrefix_isPrefixOf (wordy_prefix (by decide) h)]
  simp only [reserved, wordy_prefix (w := c!"flexion") (by decide) h, wordy_prefix (w := c!"content") (by decide) h, hg,
    wordy_prefix (w := c!"constant") (by decide) h, wordy_prefix (w := c!"role") (by decide) h, Bool.false_or, Option.isSome_none]
  rw [List.any_eq_false]
  intro e he
  rw [wordy_prefix (names_wordy e he) h]
  simp

/-! ### The lexer -/

theorem pathLexFrom_skip : ∀ (w r : Str), pathLexFrom w.length (w ++ r) = pathLex r
  | [], r => rfl
  | c :: w, r => by
    show pathLexFrom (w.length + 1) (c :: (w ++ r)) = _
    rw [pathLexFrom]
    exact pathLexFrom_skip w r

theorem pathLex_token {c : Char} {w r : Str} {t : PTok} (h1 : pTokenAt (c :: (w ++ r)) = some (t, w.length + 1))
    (h2 : (c!" \t\n").contains c = false) : pathLex (c :: (w ++ r)) = t :: pathLex r := by
  rw [pathLex, pathLexFrom, if_neg (by rw [h2]; simp), h1]
  show t :: pathLexFrom w.length (w ++ r) = _
  rw [pathLexFrom_skip]

theorem pathLex_space (r : Str) : pathLex (' ' :: r) = pathLex r := by
  rw [pathLex, pathLexFrom, if_pos (by decide)]
  rfl

/-- A text where a morpheme ends. -/
def Stop (r : Str) : Prop := ∀ ms : List Char, (∀ c ∈ ms, c ∈ pathMarks) → takeTerm ms r = []

theorem stop_nil : Stop [] := fun _ _ => rfl

theorem stop_cons {c : Char} (h1 : termFirst c = false) (h2 : c ∉ pathMarks) (r : Str) : Stop (c :: r) := by
  intro ms hms
  rw [takeTerm, if_neg (by simp [h1])]
  have : ms.dropWhile (· != c) = [] := by
    apply List.dropWhile_eq_nil_iff.2
    intro x hx
    have : x ≠ c := fun e => h2 (e ▸ hms x hx)
    simp [this]
  rw [this]

theorem marksAfter_mem {n : Nat} (c : Char) (h : c ∈ marksAfter n) : c ∈ pathMarks := by
  exact (List.dropWhile_suffix _).subset (List.mem_of_mem_tail h)

theorem pathLex_script {s : Script} (h : WF s) {r : Str} (hr : Stop r) : pathLex (s.str ++ r) = .morpheme s.str :: pathLex r := by
  have ht : takeTerm [] (s.str ++ r) = s.str := by
    rw [takeTerm_str h, hr _ fun c => marksAfter_mem c, List.append_nil]
  have hh := scriptHead_str h
  obtain ⟨c, d, w, hw, hc, _⟩ := hh
  have e1 : pTokenAt (s.str ++ r) = some (.morpheme s.str, s.str.length) := by
    simp only [pTokenAt, ht, reserved_script ((scriptHead_str h).append r)]
    rw [if_pos]
    simp [hw]
  rw [hw] at e1 ⊢
  refine pathLex_token e1 ?_
  cases hb : (c!" \t\n").contains c with
  | false => rfl
  | true =>
    exfalso
    simp at hb
    rcases hb with rfl | rfl | rfl <;> revert hc <;> decide

theorem pathLex_sep (r : Str) : pathLex ('>' :: r) = .sep :: pathLex r := pathLex_token (w := []) rfl (by decide)
theorem pathLex_excl (r : Str) : pathLex ('!' :: r) = .excl :: pathLex r := pathLex_token (w := []) rfl (by decide)
theorem pathLex_role (r : Str) : pathLex (c!"role" ++ r) = .roleTok :: pathLex r := pathLex_token (w := c!"ole") rfl (by decide)
theorem pathLex_content (r : Str) : pathLex (c!"content" ++ r) = .lexPos true :: pathLex r := pathLex_token (w := c!"ontent") rfl (by decide)
theorem pathLex_flexion (r : Str) : pathLex (c!"flexion" ++ r) = .lexPos false :: pathLex r := pathLex_token (w := c!"lexion") rfl (by decide)
theorem pathLex_constant (r : Str) : pathLex (c!"constant" ++ r) = .pmPos none :: pathLex r := pathLex_token (w := c!"onstant") rfl (by decide)

theorem pathLex_group {i : Nat} (h : i ≤ 9) (r : Str) :
    pathLex (c!"group_" ++ decimal i ++ r) = .pmPos (some ((decimal i).headD '0')) :: pathLex r := by
  interval_cases i
  all_goals exact pathLex_token (w := c!"roup_" ++ decimal _) rfl (by decide)

theorem pathLex_digit {i : Nat} (h : i ≤ 9) (r : Str) : pathLex (decimal i ++ r) = .mult ((decimal i).headD '0') :: pathLex r := by
  interval_cases i
  all_goals exact pathLex_token (w := []) rfl (by decide)

end Verif
