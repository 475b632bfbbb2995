import Verif.Model.UslParser
import Verif.Lemmas.ScriptChars
import Verif.Lemmas.Parser
import Verif.Lemmas.Except
import Mathlib.Tactic.IntervalCases

/-
The tokens of the texts of polymorphemes, lexemes and words.
-/

namespace Verif
open Script

/-! ### The lexer -/

theorem lexFrom_prev {p : Option Char} (h : p ≠ some '[') (s : Str) : uslLexFrom 0 p s = uslLex s := by
  unfold uslLex
  cases s with
  | nil => rfl
  | cons c cs =>
    rw [uslLexFrom, uslLexFrom]
    have : tokenAt p (c :: cs) = tokenAt none (c :: cs) := by
      unfold tokenAt
      simp [h]
    rw [this]

theorem lexFrom_skip : ∀ (w : Str) (p : Option Char) (r : Str), p ≠ some '[' → '[' ∉ w → uslLexFrom w.length p (w ++ r) = uslLex r
  | [], p, r, h, _ => lexFrom_prev h r
  | c :: w, p, r, h, hw => by
    show uslLexFrom (w.length + 1) p (c :: (w ++ r)) = _
    rw [uslLexFrom]
    exact lexFrom_skip w (some c) r (by intro e; exact hw (by simp [Option.some.inj e])) (fun h => hw (List.mem_cons_of_mem _ h))

theorem lex_token {c : Char} {w r : Str} {t : UTok} (h1 : tokenAt none (c :: (w ++ r)) = some (t, w.length + 1))
    (h2 : (c!"{} \t\n").contains c = false) (h3 : '[' ∉ c :: w) : uslLex (c :: (w ++ r)) = t :: uslLex r := by
  rw [uslLex, uslLexFrom, if_neg (by rw [h2]; simp), h1]
  show t :: uslLexFrom w.length (some c) (w ++ r) = _
  rw [lexFrom_skip w (some c) r (by intro e; exact h3 (by simp [Option.some.inj e])) (fun h => h3 (List.mem_cons_of_mem _ h))]

theorem lex_space (r : Str) : uslLex (' ' :: r) = uslLex r := by
  rw [uslLex, uslLexFrom, if_pos (by decide)]
  exact lexFrom_prev (by simp) r

theorem lex_lparen (r : Str) : uslLex ('(' :: r) = .lparen :: uslLex r := by
  have : tokenAt none ('(' :: ([] ++ r)) = some (.lparen, 1) := by
    unfold tokenAt
    have h1 : oldPrefix ('(' :: r) = false := by unfold oldPrefix; split <;> simp_all
    have h2 : matchTerm ('(' :: r) = none := by
      unfold matchTerm
      rw [if_neg (by simp [h1])]
      cases r <;> simp [show termFirst '(' = false from by decide]
    simp [h2, matchOld, h1]
  exact lex_token (w := []) this (by decide) (by decide)

/-- A character that is a token by itself. -/
theorem lex_char {c : Char} {t : UTok} (h1 : termFirst c = false) (h2 : c ≠ 'E') (h3 : ∀ r, matchTerm (c :: r) = none → matchOld (c :: r) = none →
    tokenAt none (c :: r) = some (t, 1)) (h4 : (c!"{} \t\n").contains c = false) (h5 : c ≠ '[') (r : Str) : uslLex (c :: r) = t :: uslLex r := by
  have e1 : oldPrefix (c :: r) = false := by unfold oldPrefix; split <;> simp_all
  have e2 : matchTerm (c :: r) = none := by
    unfold matchTerm
    rw [if_neg (by simp [e1])]
    cases r <;> simp [h1]
  refine lex_token (w := []) (h3 r e2 (by simp [matchOld, e1])) h4 (by simp [Ne.symm h5])

theorem lex_rparen (r : Str) : uslLex (')' :: r) = .rparen :: uslLex r :=
  lex_char (by decide) (by decide) (fun r h h' => by simp [tokenAt, h, h']) (by decide) (by decide) r

theorem lex_rchevron (r : Str) : uslLex ('>' :: r) = .rchevron :: uslLex r :=
  lex_char (by decide) (by decide) (fun r h h' => by simp [tokenAt, h, h']) (by decide) (by decide) r

theorem lex_rbracket (r : Str) : uslLex (']' :: r) = .rbracket :: uslLex r :=
  lex_char (by decide) (by decide) (fun r h h' => by simp [tokenAt, h, h']) (by decide) (by decide) r

theorem lex_exclamation (r : Str) : uslLex ('!' :: r) = .exclamation :: uslLex r :=
  lex_char (by decide) (by decide) (fun r h h' => by simp [tokenAt, h, h']) (by decide) (by decide) r

theorem lex_lbracket {r : Str} (hr : ∀ s, r ≠ '>' :: s) : uslLex ('[' :: r) = .lbracket :: uslLex r := by
  have e1 : oldPrefix ('[' :: r) = false := by unfold oldPrefix; split <;> simp_all
  have e2 : matchTerm ('[' :: r) = none := by
    unfold matchTerm
    rw [if_neg (by simp [e1])]
    cases r <;> simp [show termFirst '[' = false from by decide]
  have e3 : tokenAt none ('[' :: r) = some (.lbracket, 1) := by simp [tokenAt, e2, matchOld, e1]
  rw [uslLex, uslLexFrom, if_neg (by decide), e3]
  show _ :: uslLexFrom 0 (some '[') r = _
  congr 1
  cases r with
  | nil => rfl
  | cons c r =>
    have : tokenAt (some '[') (c :: r) = tokenAt none (c :: r) := by
      unfold tokenAt
      have : c ≠ '>' := fun e => hr r (by rw [e])
      simp [this]
    rw [uslLex, uslLexFrom, uslLexFrom, this]

/-! ### Words of the lexer -/

/-- A text where a morpheme and a multiplicity end. -/
def Cut (r : Str) : Prop := ∀ c s, r = c :: s → termRest c = false ∧ isDigit c = false

theorem cut_nil : Cut [] := by intro c s h; cases h

theorem cut_cons {c : Char} (h : termRest c = false ∧ isDigit c = false) (r : Str) : Cut (c :: r) := by
  intro d s e
  injection e with e _
  subst e
  exact h

/-- The text `w` is read as the tokens `T`, where it is followed by a cut. -/
def Lexes (w : Str) (T : List UTok) : Prop := ∀ r, Cut r → uslLex (w ++ r) = T ++ uslLex r

theorem takeWhile_cut {w r : Str} {p : Char → Bool} (h : ∀ c ∈ w, p c = true) (hr : ∀ c s, r = c :: s → p c = false) :
    (w ++ r).takeWhile p = w := by
  induction w with
  | nil =>
    cases r with
    | nil => rfl
    | cons c r => simp [hr c r rfl]
  | cons c w ih =>
    rw [List.cons_append, List.takeWhile_cons, if_pos (h c (by simp)), ih fun d hd => h d (List.mem_cons_of_mem _ hd)]

theorem oldPrefix_append {w r : Str} (h : oldPrefix w = false) (h7 : w ≠ c!"E:.b.E:") (hr : Cut r) : oldPrefix (w ++ r) = false := by
  by_contra hc
  have hc : oldPrefix (w ++ r) = true := by simpa using hc
  unfold oldPrefix at hc
  split at hc
  · rename_i s c rest he
    have hlen : 11 ≤ w.length := by
      by_contra hlt
      have hlt : w.length < 11 := by omega
      have hdrop : r = ('E' :: ':' :: '.' :: 'b' :: '.' :: 'E' :: ':' :: c :: ':' :: '.' :: '-' :: rest).drop w.length := by
        rw [← he]; simp
      have htake : w = ('E' :: ':' :: '.' :: 'b' :: '.' :: 'E' :: ':' :: c :: ':' :: '.' :: '-' :: rest).take w.length := by
        rw [← he]; simp
      generalize w.length = n at *
      interval_cases n
      all_goals first
        | (have := (hr _ _ hdrop).1; revert this; decide)
        | exact h7 htake
    have htake : w = ('E' :: ':' :: '.' :: 'b' :: '.' :: 'E' :: ':' :: c :: ':' :: '.' :: '-' :: rest).take w.length := by
      rw [← he]; simp
    obtain ⟨n, hn⟩ := Nat.exists_eq_add_of_le hlen
    rw [hn, Nat.add_comm] at htake
    simp only [List.take_succ_cons] at htake
    rw [htake] at h
    simp [oldPrefix] at h
    simp [h] at hc
  · cases hc

/-- A morpheme the lexer recognises: its text does not look like an old grammatical class. -/
def Readable (s : Script) : Prop := oldPrefix s.str = false

theorem termRest_of {c : Char} (h : termChar c = true) : termRest c = true := by
  simp only [termChar, Bool.or_eq_true] at h
  simp only [termRest, Bool.or_eq_true]
  rcases h with h | h
  · exact Or.inl h
  · refine Or.inr ?_
    simp only [termMarks, List.contains_iff_mem, List.mem_cons, List.not_mem_nil, or_false] at h ⊢
    tauto

theorem termFirst_of {c : Char} (h : isLetter c = true) (h' : termChar c = true) : termFirst c = true := by
  simp only [termChar, Bool.or_eq_true] at h'
  rcases h' with h' | h'
  · exact h'
  · exfalso
    simp only [termMarks, List.contains_iff_mem, List.mem_cons, List.not_mem_nil, or_false] at h'
    rcases h' with rfl | rfl | rfl | rfl | rfl | rfl | rfl | rfl <;> revert h <;> decide

/-- A script at the beginning of a text. -/
theorem matchTerm_script {s : Script} (h : WF s) (hr : Readable s) {r : Str} (hcut : Cut r) : matchTerm (s.str ++ r) = some s.str := by
  have hall : ∀ c ∈ s.str, termRest c = true := fun c hc => termRest_of (str_termChar h c hc)
  obtain ⟨c, w, hw, hc⟩ := startsLetter_str h
  obtain ⟨b, hb⟩ := str_last h
  have h7 : s.str ≠ c!"E:.b.E:" := by
    intro e
    have hl : mk s.layer = ':' := by
      rw [e] at hb
      have := congrArg List.getLast? hb
      simpa using this.symm
    have hl0 : s.layer = 0 := by
      have : ∀ k : Fin 7, mk k = ':' → k = 0 := by decide
      have := this ⟨s.layer, by have := wf_layer h; omega⟩ hl
      simpa using congrArg Fin.val this
    have := mk_not_mem h (k := 1) (by omega) (by omega)
    rw [e] at this
    exact this (by decide)
  have hold : oldPrefix (s.str ++ r) = false := oldPrefix_append hr h7 hcut
  have hlen : ∃ d w', w = d :: w' := by
    cases w with
    | cons d w' => exact ⟨d, w', rfl⟩
    | nil =>
      rw [hw] at hb
      have : c = mk s.layer := by simpa using congrArg List.getLast? hb
      exact absurd this (letter_ne_mk hc (wf_layer h))
  obtain ⟨d, w', rfl⟩ := hlen
  rw [hw] at hall hold ⊢
  show matchTerm (c :: d :: (w' ++ r)) = some (c :: d :: w')
  unfold matchTerm
  rw [if_neg (by simpa using hold)]
  simp only
  rw [if_pos (by rw [termFirst_of hc (str_termChar h c (by rw [hw]; simp)), hall d (by simp)]; rfl),
    takeWhile_cut (fun x hx => hall x (by simp [hx])) fun x y e => (hcut x y e).1]

theorem lexes_script {s : Script} (h : WF s) (hr : Readable s) : Lexes s.str [.morpheme s.str] := by
  intro r hcut
  have hall : ∀ c ∈ s.str, termRest c = true := fun c hc => termRest_of (str_termChar h c hc)
  have ht := matchTerm_script h hr hcut
  obtain ⟨c, w, hw, hc⟩ := startsLetter_str h
  rw [hw] at hall ht ⊢
  refine lex_token (w := w) ?_ ?_ ?_
  · rw [List.cons_append] at ht
    simp [tokenAt, ht]
  · have hc := hall c (by simp)
    by_contra hn
    have hn : (c!"{} \t\n").contains c = true := eq_true_of_ne_false hn
    simp only [List.contains_iff_mem, List.mem_cons, List.not_mem_nil, or_false] at hn
    rcases hn with rfl | rfl | rfl | rfl | rfl <;> revert hc <;> decide
  · intro hm
    have := hall '[' hm
    revert this; decide

/-! ### Numbers -/

theorem digitChar_digit : ∀ d < 10, isDigit (digitChar d) = true ∧ (digitChar d).toNat - 48 = d := by decide

theorem digitsOf_lt : ∀ (fuel i : Nat), ∀ d ∈ digitsOf 10 fuel i, d < 10
  | 0, i, d, h => by
    simp only [digitsOf, List.mem_singleton] at h
    omega
  | n + 1, i, d, h => by
    rw [digitsOf] at h
    split at h
    · rcases List.mem_append.1 h with h | h
      · exact digitsOf_lt n _ d h
      · simp only [List.mem_singleton] at h; omega
    · simp only [List.mem_singleton] at h; omega

theorem natOf_append (a b : Str) : natOf (a ++ b) = b.foldl (fun n c => 10 * n + (c.toNat - 48)) (natOf a) := by
  simp [natOf, List.foldl_append]

theorem natOf_digits : ∀ (fuel i : Nat), i ≤ fuel → natOf ((digitsOf 10 fuel i).map digitChar) = i
  | 0, i, h => by
    have : i = 0 := by omega
    subst this; decide
  | n + 1, i, h => by
    have hd := (digitChar_digit (i % 10) (by omega)).2
    rw [digitsOf]
    split
    · rw [List.map_append, natOf_append, natOf_digits n (i / 10) (by omega)]
      simp only [List.map_cons, List.map_nil, List.foldl_cons, List.foldl_nil, hd]
      omega
    · rename_i h0
      simp only [List.map_cons, List.map_nil, natOf, List.foldl_cons, List.foldl_nil, hd]
      omega

theorem natOf_decimal (n : Nat) : natOf (decimal n) = n := natOf_digits n n (Nat.le_refl n)

theorem decimal_digits (n : Nat) : ∀ c ∈ decimal n, isDigit c = true := by
  intro c hc
  obtain ⟨d, hd, rfl⟩ := List.mem_map.1 hc
  exact (digitChar_digit d (digitsOf_lt _ _ d hd)).1

theorem decimal_ne_nil (n : Nat) : decimal n ≠ [] := by
  unfold decimal
  cases n with
  | zero => decide
  | succ n => rw [digitsOf]; split <;> simp

theorem lex_mult (n : Nat) (r : Str) : uslLex ('m' :: (decimal n ++ '(' :: r)) = .mult (decimal n) :: .lparen :: uslLex r := by
  have hd := decimal_digits n
  rcases hdec : decimal n with _ | ⟨d, ds⟩
  · exact absurd hdec (decimal_ne_nil n)
  rw [hdec] at hd
  have h1 : oldPrefix ('m' :: d :: (ds ++ '(' :: r)) = false := by unfold oldPrefix; split <;> simp_all
  have h2 : matchTerm ('m' :: d :: (ds ++ '(' :: r)) = none := by
    unfold matchTerm
    rw [if_neg (by simp [h1])]
    have : termRest d = false := by
      have := hd d (by simp)
      by_contra hc
      simp only [isDigit, List.contains_iff_mem, List.mem_cons, List.not_mem_nil, or_false] at this
      rcases this with rfl | rfl | rfl | rfl | rfl | rfl | rfl | rfl | rfl | rfl <;> revert hc <;> decide
    simp [this]
  have h3 : (d :: (ds ++ '(' :: r)).takeWhile isDigit = d :: ds :=
    takeWhile_cut hd fun c s e => by injection e with e _; subst e; decide
  have : tokenAt none ('m' :: d :: (ds ++ '(' :: r)) = some (.mult (d :: ds), (d :: ds).length + 1) := by
    simp [tokenAt, h2, show matchOld ('m' :: d :: (ds ++ '(' :: r)) = none from by simp [matchOld, h1], h3]
  rw [lex_token (w := d :: ds) this (by decide) ?_, lex_lparen]
  intro hm
  rcases List.mem_cons.1 hm with h | h
  · cases h
  · have := hd _ h
    revert this; decide

/-! ### Lists of texts -/

theorem cut_space (r : Str) : Cut (' ' :: r) := cut_cons (by decide) r
theorem cut_lparen (r : Str) : Cut ('(' :: r) := cut_cons (by decide) r
theorem cut_rparen (r : Str) : Cut (')' :: r) := cut_cons (by decide) r

theorem lexes_joinSpace : ∀ {ws : List Str} {Ts : List (List UTok)}, List.Forall₂ Lexes ws Ts → Lexes (joinSpace ws) Ts.flatten
  | [], _, h => by cases h; intro r _; rfl
  | [w], _, .cons h .nil => by
    intro r hr
    rw [joinSpace, h r hr]
    simp
  | w :: w' :: ws, _, .cons (l₂ := Ts) h ht => by
    intro r hr
    rw [joinSpace, List.append_assoc, List.cons_append, h _ (cut_space _), lex_space, lexes_joinSpace ht r hr]
    simp

theorem lexes_scripts {ms : List Script} (h : ∀ m ∈ ms, WF m ∧ Readable m) :
    List.Forall₂ Lexes (ms.map str) (ms.map fun m => [.morpheme m.str]) := by
  induction ms with
  | nil => exact .nil
  | cons m ms ih =>
    exact .cons (lexes_script (h m (by simp)).1 (h m (by simp)).2) (ih fun x hx => h x (List.mem_cons_of_mem _ hx))

/-- The tokens of a list of morphemes. -/
def sumToks (ms : List Script) : List UTok := ms.map fun m => .morpheme m.str

theorem flatten_singletons (ms : List Script) : (ms.map fun m => [UTok.morpheme m.str]).flatten = sumToks ms := by
  induction ms with
  | nil => rfl
  | cons m ms ih => simpa [sumToks] using ih

theorem lexes_sum {ms : List Script} (h : ∀ m ∈ ms, WF m ∧ Readable m) : Lexes (joinSpace (ms.map str)) (sumToks ms) := by
  rw [← flatten_singletons]
  exact lexes_joinSpace (lexes_scripts h)

/-- The tokens of a group. -/
def groupToks (g : Group) : List UTok := .mult (decimal g.2) :: .lparen :: (sumToks g.1 ++ [.rparen])

theorem lexes_group {g : Group} (h : ∀ m ∈ g.1, WF m ∧ Readable m) : Lexes (groupText g) (groupToks g) := by
  intro r hr
  have e : groupText g ++ r = 'm' :: (decimal g.2 ++ '(' :: (joinSpace (g.1.map str) ++ ')' :: r)) := by simp [groupText]
  rw [e, lex_mult, lexes_sum h _ (cut_rparen r), lex_rparen]
  simp [groupToks]

/-- The tokens of a polymorpheme. -/
def pmToks (cs : List Script) (gs : List Group) : List UTok := sumToks cs ++ gs.flatMap groupToks

theorem lexes_pm {cs : List Script} {gs : List Group} (hc : ∀ m ∈ cs, WF m ∧ Readable m) (hg : ∀ g ∈ gs, ∀ m ∈ g.1, WF m ∧ Readable m) :
    Lexes (joinSpace (cs.map str ++ gs.map groupText)) (pmToks cs gs) := by
  have h : List.Forall₂ Lexes (cs.map str ++ gs.map groupText) ((cs.map fun m => [.morpheme m.str]) ++ gs.map groupToks) := by
    refine List.rel_append (lexes_scripts hc) ?_
    induction gs with
    | nil => exact .nil
    | cons g gs ih => exact .cons (lexes_group (hg g (by simp))) (ih fun x hx => hg x (List.mem_cons_of_mem _ hx))
  have := lexes_joinSpace h
  rwa [List.flatten_append, flatten_singletons] at this

end Verif
