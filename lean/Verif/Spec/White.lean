import Verif.Model.Py

/-
Vocabulary of the blank characters.
-/

namespace Verif

/-- The code points of the blank characters of Unicode that Python removes around a text: the controls tab to carriage return and the
four separators, the space, next line, the no-break space, and the spaces and separators of the planes 0x1680, 0x2000 and 0x3000. -/
def blankCodes : List Nat :=
  [9, 10, 11, 12, 13, 28, 29, 30, 31, 32, 133, 160, 5760, 8192, 8193, 8194, 8195, 8196, 8197, 8198, 8199, 8200, 8201, 8202, 8232, 8233,
    8239, 8287, 12288]

/-- A blank character. -/
def WhiteChar (c : Char) : Prop := c.toNat ∈ blankCodes

/-- `t` is `s` without the blanks around it. -/
def Bared (s t : Str) : Prop := ∃ a b, s = a ++ t ++ b ∧ (∀ c ∈ a, WhiteChar c) ∧ (∀ c ∈ b, WhiteChar c) ∧
  (∀ c ∈ t.head?, ¬ WhiteChar c) ∧ ∀ c ∈ t.getLast?, ¬ WhiteChar c

end Verif
