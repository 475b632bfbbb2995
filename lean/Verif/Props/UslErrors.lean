import Verif.Props.WordParser
import Verif.Props.Parser
import Verif.Props.SyntagmaticFunction

/-
C65: the exceptions raised when a USL is read.
-/

namespace Verif
open Script

/-! ### Specification -/

/-- **C65**, the claim: reading a text returns a USL or raises `CannotParse`. -/
def C65_claim : Prop := ∀ s : Str, (∃ r, uslRead s = .ok r) ∨ uslRead s = .error .cannotParse

/-- The exceptions that leave the parser. -/
def Leaves (e : Err) : Prop := e = .cannotParse ∨ e = .tooMany ∨ e = .indexError ∨ e = .nameError

/-! ### Lemmas -/

/-- An exception raised satisfies `P`. -/
def Only {β : Type} (P : Err → Prop) (x : Except Err β) : Prop := ∀ e, x = .error e → P e

namespace Only
variable {β γ : Type} {P Q : Err → Prop}

theorem ok (b : β) : Only P (.ok b) := by rintro e ⟨⟩

theorem err {e : Err} (h : P e) : Only P (.error e : Except Err β) := by rintro e ⟨⟩; exact h

theorem bind {x : Except Err β} {f : β → Except Err γ} (hx : Only P x) (hf : ∀ b, Only P (f b)) : Only P (x >>= f) := by
  intro e h
  cases x with
  | error e' => exact hx e (by simpa [Bind.bind, Except.bind] using h)
  | ok b => exact hf b e h

theorem mono {x : Except Err β} (hx : Only P x) (h : ∀ e, P e → Q e) : Only Q x := fun e he => h e (hx e he)

end Only

/-- The exceptions of the readers of scripts. -/
def ScriptErr (e : Err) : Prop := e = .cannotParse ∨ e = .tooMany

/-- The exceptions of the readers of words. -/
def WordErr (e : Err) : Prop := ScriptErr e ∨ e = .valueError ∨ e = .indexError ∨ e = .nameError

theorem only_parse (s : Str) : Only ScriptErr (parseScript s) := by
  intro e h
  rcases C18_outcomes_partial s with ⟨x, h1, _⟩ | h1 | h1 <;> rw [h1] at h <;> cases h
  · exact .inl rfl
  · exact .inr rfl

theorem only_morphemes (ts : List UTok) : Only ScriptErr (takeMorphemes ts) := by
  induction ts with
  | nil => exact .ok _
  | cons t ts ih =>
    cases t
    case morpheme s => exact .bind (only_parse s) fun m => .bind ih fun r => .ok _
    all_goals exact .ok _

theorem only_group (ds : Str) (ts : List UTok) : Only ScriptErr (takeGroup ds ts) := by
  unfold takeGroup
  split
  · refine .bind (only_morphemes _) fun r => ?_
    split
    · exact .ok _
    · exact .err (.inl rfl)
  · exact .err (.inl rfl)

theorem only_groups (n : Nat) (ts : List UTok) : Only ScriptErr (takeGroups n ts) := by
  induction n generalizing ts with
  | zero => exact .ok _
  | succ n ih =>
    unfold takeGroups
    split
    · rename_i h
      cases h
      exact .bind (only_group _ _) fun g => .bind (ih _) fun r => .ok _
    · exact .ok _

theorem only_parts (ts : List UTok) : Only ScriptErr (takePMParts ts) := by
  refine .bind (only_morphemes ts) fun a => .bind (only_groups _ _) fun b => ?_
  split
  · exact .err (.inl rfl)
  · exact .ok _

theorem only_paren (ts : List UTok) : Only ScriptErr (takeParen ts) := by
  unfold takeParen
  split
  · exact .ok _
  · refine .bind (only_parts _) fun r => ?_
    split
    · exact .ok _
    · exact .err (.inl rfl)

theorem only_last (ts : List UTok) : Only ScriptErr (takeLast ts) := by
  refine .bind (only_paren ts) fun r => ?_
  split
  · exact .ok _
  · exact .err (.inl rfl)

theorem only_lexeme (ts : List UTok) : Only ScriptErr (takeLexeme ts) := by
  refine .bind (only_paren ts) fun a => ?_
  split
  · refine .bind (only_paren _) fun b => ?_
    split
    · exact .bind (only_last _) fun r => .ok _
    · exact .bind (only_last _) fun r => .ok _
    · exact .bind (only_last _) fun r => .ok _
    · exact .ok _
    · exact .ok _
    · exact .err (.inl rfl)
  · exact .ok _

theorem only_positioned (ts : List UTok) : Only ScriptErr (takePositioned ts) := by
  refine .bind (only_morphemes ts) fun a => ?_
  split
  · exact .bind (only_lexeme _) fun x => .ok _
  · exact .err (.inl rfl)

theorem only_marked (ts : List UTok) : Only ScriptErr (takeMarked ts) := by
  unfold takeMarked
  split <;> exact .bind (only_positioned _) fun e => .ok _

theorem only_more (n : Nat) (ts : List UTok) : Only ScriptErr (takeMore n ts) := by
  induction n generalizing ts with
  | zero => exact .ok _
  | succ n ih =>
    unfold takeMore
    split
    · rename_i h
      cases h
      exact .bind (only_marked _) fun e => .bind (ih _) fun r => .ok _
    · exact .ok _

theorem only_expandAt {α : Type} (l : List (Addr × SF α)) (r : Addr) : Only WordErr (expandAt l r) := by
  unfold expandAt
  split
  · exact .err (.inr (.inr (.inr rfl)))
  · exact .ok _

theorem only_mkWord (f : SFun Lexeme) (role : Addr) (t : SType) : Only WordErr (mkWord f role t) := by
  refine .bind (.bind ?_ fun m => .ok _) fun text => .bind ?_ fun c => .ok _
  · cases f with
    | quality f => exact only_expandAt _ _
    | process a v acts =>
      rw [SFun.expansion]
      split
      · exact .ok _
      · exact only_expandAt _ _
  · unfold classFromAddress
    split
    · exact .ok _
    · split
      · exact .ok _
      · split
        · exact .ok _
        · exact .err (.inr (.inl rfl))

theorem only_wordOf (l : List (Bool × RoleEntry Lexeme)) : Only WordErr (wordOf l) := by
  unfold wordOf
  split
  · exact .err (.inr (.inl rfl))
  · exact .err (.inr (.inl rfl))
  · refine .bind (fun e h => ?_) fun f => ?_
    · rcases C50_errors_partial h with h | h
      · exact .inr (.inl h)
      · exact .inr (.inr (.inl h))
    · dsimp only
      split
      · exact .err (.inr (.inl rfl))
      · exact only_mkWord _ _ _

theorem only_word (ts : List UTok) : Only WordErr (takeWord ts) := by
  unfold takeWord
  refine .bind ((only_marked _).mono fun _ h => .inl h) fun a => .bind ((only_more _ _).mono fun _ h => .inl h) fun r => ?_
  split
  · exact .bind (only_wordOf _) fun w => .ok _
  · exact .err (.inl (.inl rfl))

theorem only_decorations : ∀ ts : List UTok, Only ScriptErr (takeDecorations ts)
  | [] => .ok _
  | .lbracket :: .path p :: .value v :: .rbracket :: ts => .bind (only_decorations ts) fun r => .ok _
  | t :: ts => by
    unfold takeDecorations
    split
    · exact .ok _
    · rename_i h
      cases h
      exact .bind (only_decorations _) fun r => .ok _
    · exact .err (.inl rfl)

theorem only_usl (ts : List UTok) : Only WordErr (takeUsl ts) := by
  unfold takeUsl
  split
  · exact .bind ((only_lexeme _).mono fun _ h => .inl h) fun x => .ok _
  · exact .bind (only_word _) fun x => .ok _
  · refine .bind ((only_parts _).mono fun _ h => .inl h) fun r => ?_
    split <;> exact .ok _

theorem only_usl_plain {ts : List UTok} (h : ts.head? ≠ some .lbracket) : Only ScriptErr (takeUsl ts) := by
  unfold takeUsl
  split
  · exact .bind (only_lexeme _) fun x => .ok _
  · exact absurd rfl h
  · refine .bind (only_parts _) fun r => ?_
    split <;> exact .ok _

/-! ### C65 -/

/-- **C65** (part) For every text: a USL, or `CannotParse`, `TooManySingularSequences`, `IndexError` or `UnboundLocalError` (a
`NameError`); no other exception, and no `ValueError`.  The full claim excludes the last three. -/
theorem C65_outcomes_partial (s : Str) : (∃ r, uslRead s = .ok r) ∨ ∃ e, uslRead s = .error e ∧ Leaves e := by
  unfold uslRead
  split
  · exact .inl ⟨_, rfl⟩
  · have h : Only WordErr (takeProposition (uslLex s)) :=
      .bind (only_usl _) fun u => .bind ((only_decorations _).mono fun _ h => .inl h) fun ds => .ok _
    split
    · exact .inl ⟨_, rfl⟩
    · rename_i e he
      right
      rcases h e he with (h | h) | h | h | h <;> subst h
      · exact ⟨_, rfl, .inl rfl⟩
      · exact ⟨_, rfl, .inr (.inl rfl)⟩
      · exact ⟨_, rfl, .inl rfl⟩
      · exact ⟨_, rfl, .inr (.inr (.inl rfl))⟩
      · exact ⟨_, rfl, .inr (.inr (.inr rfl))⟩

/-- **C65** (part) For the texts of polymorphemes and lexemes, that is without an opening square bracket first, only
`CannotParse` and `TooManySingularSequences` are raised. -/
theorem C65_plain_partial (s : Str) (h : (uslLex s).head? ≠ some .lbracket) : (∃ r, uslRead s = .ok r) ∨
    uslRead s = .error .cannotParse ∨ uslRead s = .error .tooMany := by
  unfold uslRead
  split
  · exact .inl ⟨_, rfl⟩
  · have h : Only ScriptErr (takeProposition (uslLex s)) :=
      .bind (only_usl_plain h) fun u => .bind (only_decorations _) fun ds => .ok _
    split
    · exact .inl ⟨_, rfl⟩
    · rename_i e he
      right
      rcases h e he with h | h <;> subst h
      · exact .inl rfl
      · exact .inr rfl

/-- The exception raised when a text is read. -/
def raised (s : Str) : Option Err := match uslRead s with
  | .ok _ => none
  | .error e => some e

/-- The texts refused because of a `ValueError`: no role, a role that is none, a lexeme twice at the same role. -/
theorem C65_value_errors : raised (c!"[E:A:. (A:)]") = some .cannotParse ∧ raised (c!"[! (A:)]") = some .cannotParse ∧
    raised (c!"[! E:A:. (A:) > E:A:. (S:)]") = some .cannotParse ∧ raised (c!"[! A: (A:)]") = some .cannotParse := by
  refine ⟨?_, ?_, ?_, ?_⟩ <;> decide +kernel

/-- **C65 is violated** in three ways: a morpheme with too many singular sequences, two lexemes at the same independant role, and an
index that follows no junction. -/
theorem C65_violated : ¬ C65_claim ∧ raised (c!"A: I:I:I:.+F:I:I:.") = some .tooMany ∧
    raised (c!"[! E:U:. (A:) > E:U:. (A:)]") = some .indexError ∧
    raised (c!"[! E:A:. E:A:. " ++ demoSecond ++ c!" (A:) > E:A:. " ++ demoLink ++ c!" " ++ demoFirst ++ c!" (A:)]") = some .nameError := by
  have h1 : raised (c!"A: I:I:I:.+F:I:I:.") = some .tooMany := by decide +kernel
  refine ⟨?_, h1, by decide +kernel, by decide +kernel⟩
  intro h
  rcases h (c!"A: I:I:I:.+F:I:I:.") with ⟨r, hr⟩ | hr <;> simp [raised, hr] at h1

example : (uslLex (c!"(A: m1(S:))(T:)")).head? ≠ some .lbracket ∧ (uslRead (c!"(A: m1(S:))(T:)")).toBool = true ∧
    raised (c!"(A: m1(S:)") = some .cannotParse := by
  refine ⟨?_, ?_, ?_⟩ <;> decide +kernel

end Verif
