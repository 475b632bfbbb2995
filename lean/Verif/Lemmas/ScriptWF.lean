import Verif.Model.ScriptBuild

/-
Structural invariant of the scripts produced by the constructors, and basic facts about attributes.
-/

namespace Verif
namespace Script

/-- What a role of a product looks like: one-term sums are unwrapped and empty roles are null scripts. -/
def Role (s : Script) : Prop := (∀ c, s ≠ add [c]) ∧ (s.empty = true → ∃ l, s = null l)

/-- Well-formed scripts. -/
inductive WF : Script → Prop where
  | null {l : Nat} : l ≤ 6 → WF (null l)
  | prim {p : Prim} : WF (prim p)
  | mult {s a m : Script} : WF s → WF a → WF m → a.layer = s.layer → m.layer = s.layer → s.layer ≤ 5 →
      Role s → Role a → Role m → (mult s a m).cardinal ≤ 360 → WF (mult s a m)
  | add {cs : List Script} : cs ≠ [] → (∀ c ∈ cs, WF c) → (∀ c ∈ cs, c.layer = (add cs).layer) →
      (∀ c ∈ cs, c.isAdd = false) → cs.Pairwise (fun a b => a.str ≠ b.str) → cs.Pairwise (fun a b => lt a b = true) →
      (add cs).cardinal ≤ 360 → WF (add cs)

/-- Scripts that are not a one-term sum. -/
def Plain (s : Script) : Prop := ∀ c, s ≠ add [c]

/-! ### Marks and characters -/

/-- The mark of layer `l ≤ 6`. -/
def mk (l : Nat) : Char := layerMarks.getD l '?'

theorem markStr_eq {l : Nat} (h : l ≤ 6) : markStr l = [mk l] := by
  have : l = 0 ∨ l = 1 ∨ l = 2 ∨ l = 3 ∨ l = 4 ∨ l = 5 ∨ l = 6 := by omega
  rcases this with rfl | rfl | rfl | rfl | rfl | rfl | rfl <;> rfl

theorem mk_inj {k l : Nat} (hk : k ≤ 6) (hl : l ≤ 6) (h : mk k = mk l) : k = l := by
  have h1 : ∀ k l : Fin 7, mk k = mk l → k = l := by decide
  have := h1 ⟨k, by omega⟩ ⟨l, by omega⟩ h
  simpa using this

/-- Characters that start a script: neither `+` nor a layer mark. -/
def isLetter (c : Char) : Bool := c ≠ '+' && !layerMarks.contains c

theorem mk_not_letter {k : Nat} (hk : k ≤ 6) : isLetter (mk k) = false := by
  have h1 : ∀ k : Fin 7, isLetter (mk k) = false := by decide
  exact h1 ⟨k, by omega⟩

theorem mk_ne_plus {k : Nat} (hk : k ≤ 6) : mk k ≠ '+' := by
  have h1 : ∀ k : Fin 7, mk k ≠ '+' := by decide
  exact h1 ⟨k, by omega⟩

theorem primChar_letter (p : Prim) : isLetter p.char = true := by cases p <;> decide
theorem remChar_letter (k : RemAdd) : isLetter k.char = true := by cases k <;> decide
theorem E_letter : isLetter 'E' = true := by decide

theorem primChar_inj {p q : Prim} (h : p.char = q.char) : p = q := by
  cases p <;> cases q <;> first | rfl | (exfalso; revert h; decide)

theorem remChar_inj {p q : RemAdd} (h : p.char = q.char) : p = q := by
  cases p <;> cases q <;> first | rfl | (exfalso; revert h; decide)

theorem primChar_ne_remChar (p : Prim) (k : RemAdd) : p.char ≠ k.char := by
  cases p <;> cases k <;> decide

theorem primChar_ne_E (p : Prim) : p.char ≠ 'E' := by cases p <;> decide
theorem remChar_ne_E (k : RemAdd) : k.char ≠ 'E' := by cases k <;> decide

theorem letter_ne_mk {c : Char} (h : isLetter c = true) {k : Nat} (hk : k ≤ 6) : c ≠ mk k := by
  intro h'; subst h'; rw [mk_not_letter hk] at h; cases h

/-! ### The table of remarkable multiplications -/

theorem lookup_mem {α β : Type} [BEq α] [LawfulBEq α] {k : α} {v : β} : ∀ {l : List (α × β)}, l.lookup k = some v → (k, v) ∈ l
  | [], h => by simp at h
  | (a, b) :: l, h => by
    rw [List.lookup_cons] at h
    split at h
    · rename_i h'
      simp at h' h; subst h; subst h'; simp
    · exact List.mem_cons_of_mem _ (lookup_mem h)

theorem remMulLookup_some {r ch : Str} (h : remMulLookup r = some ch) :
    ∃ p q : Prim, r = [p.char, ':', q.char, ':'] ∧ ch = remMulName p q := by
  have := lookup_mem h
  simp only [remMulTable, List.mem_flatMap, List.mem_map, Prod.mk.injEq] at this
  obtain ⟨p, _, q, _, h1, h2⟩ := this
  exact ⟨p, q, h1.symm, h2.symm⟩

theorem remMulLookup_pair (p q : Prim) : remMulLookup [p.char, ':', q.char, ':'] = some (remMulName p q) := by
  cases p <;> cases q <;> decide

theorem remMulName_inj {p q p' q' : Prim} (h : remMulName p q = remMulName p' q') : p = p' ∧ q = q' := by
  revert h; revert p q p' q'
  have : ∀ p ∈ Prim.all, ∀ q ∈ Prim.all, ∀ p' ∈ Prim.all, ∀ q' ∈ Prim.all,
    remMulName p q = remMulName p' q' → p = p' ∧ q = q' := by decide
  intro p q p' q' h
  exact this p (by cases p <;> decide) q (by cases q <;> decide) p' (by cases p' <;> decide) q' (by cases q' <;> decide) h

theorem remMulName_letters (p q : Prim) : ∀ c ∈ remMulName p q, isLetter c = true := by
  cases p <;> cases q <;> decide

theorem remMulName_ne_nil (p q : Prim) : remMulName p q ≠ [] := by
  cases p <;> cases q <;> decide

/-! ### Unfolding the list versions -/

theorem emptyL_eq (cs : List Script) : emptyL cs = cs.all empty := by
  induction cs with
  | nil => simp [emptyL]
  | cons c cs ih => simp [emptyL, ih]

theorem strL_eq (cs : List Script) : strL cs = cs.map str := by
  induction cs with
  | nil => simp [strL]
  | cons c cs ih => simp [strL, ih]

theorem paradigmL_eq (cs : List Script) : paradigmL cs = cs.any paradigm := by
  induction cs with
  | nil => simp [paradigmL]
  | cons c cs ih => simp [paradigmL, ih]

theorem cardinalL_eq (cs : List Script) : cardinalL cs = (cs.map cardinal).sum := by
  induction cs with
  | nil => simp [cardinalL]
  | cons c cs ih => simp [cardinalL, ih]

theorem canonicalL_eq (cs : List Script) : canonicalL cs = cs.flatMap canonical := by
  induction cs with
  | nil => simp [canonicalL]
  | cons c cs ih => simp [canonicalL, ih]

theorem layer_add {cs : List Script} {c : Script} (h : c ∈ cs) (hl : ∀ c ∈ cs, c.layer = (add cs).layer) :
    (add cs).layer = c.layer := (hl c h).symm

/-! ### `renderRoles` -/

theorem renderRoles_eq (s a m : Str × Bool) : renderRoles s a m =
    s.1 ++ (if m.2 = false then a.1 ++ m.1 else if a.2 = false then a.1 else []) := by
  rcases s with ⟨s, es⟩; rcases a with ⟨a, ea⟩; rcases m with ⟨m, em⟩
  cases ea <;> cases em <;> simp [renderRoles]

/-- What is rendered after the substance. -/
def tailRoles (a m : Script) : Str :=
  if m.empty = false then a.str ++ m.str else if a.empty = false then a.str else []

theorem rawMult_eq (s a m : Script) : rawMult s a m = s.str ++ tailRoles a m := by
  simp [rawMult, renderRoles_eq, tailRoles]

theorem str_mult (s a m : Script) : (mult s a m).str =
    (match remMulLookup (rawMult s a m) with | some ch => ch | none => rawMult s a m) ++ markStr (s.layer + 1) := by
  simp [str, rawMult]
  rfl

theorem empty_mult (s a m : Script) : (mult s a m).empty =
    (match remMulLookup (rawMult s a m) with | some _ => false | none => s.empty && a.empty && m.empty) := by
  simp [empty, rawMult]
  split <;> simp_all

theorem str_add (cs : List Script) : (add cs).str =
    (match remAdd? cs with | some k => [k.char] ++ markStr 0 | none => joinPlus (cs.map str)) := by
  simp [str, strL_eq]
  rfl

theorem empty_add (cs : List Script) : (add cs).empty =
    (match remAdd? cs with | some _ => false | none => cs.all empty) := by
  simp [empty, emptyL_eq]
  rfl

theorem remAdd?_of_layer {cs : List Script} (h : (add cs).layer ≠ 0) : remAdd? cs = none := by
  simp [remAdd?, h]

/-- Text of a product before its mark. -/
def bodyMult (s a m : Script) : Str :=
  match remMulLookup (rawMult s a m) with | some ch => ch | none => rawMult s a m

theorem str_mult' (s a m : Script) : (mult s a m).str = bodyMult s a m ++ markStr (s.layer + 1) := str_mult s a m

theorem wf_layer {s : Script} (h : WF s) : s.layer ≤ 6 := by
  induction h with
  | null h => simpa [layer] using h
  | prim => simp [layer]
  | mult => simp [layer]; omega
  | @add cs h0 _ hl _ _ _ _ ih =>
    cases cs with
    | nil => exact absurd rfl h0
    | cons c cs => simpa [layer] using ih c (by simp)

end Script
end Verif
