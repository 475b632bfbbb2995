import Verif.Props.DecorationList

/-
C55: the decorations that are refused, and the object that a role leads to.
-/

namespace Verif
open Script

variable {ρ : Type} [DecidableEq ρ]

theorem applyAll_stop {o : Objects ρ} {x : DecArg} {e : Err} (rest : List DecArg) (hx : ∀ (f : Bool) (w : World ρ), (applyAll o (x :: rest) f w).1 = .error e) :
    ∀ (ds : List (Path × Str)), (∀ d ∈ ds, ∃ r, o.reach d.1 = .ok (some r)) → ∀ (f : Bool) (w : World ρ),
      (applyAll o (ds.map some ++ x :: rest) f w).1 = .error e
  | [], _, f, w => hx f w
  | d :: ds, h, f, w => by
    obtain ⟨r, hr⟩ := h d (by simp)
    simp only [List.map_cons, List.cons_append, applyAll, applyDecoration, hr]
    exact applyAll_stop rest hx ds (fun d hd => h d (by simp [hd])) _ _

/-- **C55, refusals.** Whatever is given after it, the first decoration that reaches no object makes the construction fail: with the error of
its path, with `AttributeError` if the path leads to `None`, and with `ValueError` if it is no decoration. Nothing is left out silently. -/
theorem C55_refused (ord : List (Path × Str) → List (Path × Str)) {o : Objects ρ} {ds : List (Path × Str)}
    (h : ∀ d ∈ ds, ∃ r, o.reach d.1 = .ok (some r)) (rest : List DecArg) (w : World ρ) :
    (∀ d e, o.reach d.1 = .error e → (instanced ord o (ds.map some ++ some d :: rest) w).1 = .error e) ∧
    (∀ d, o.reach d.1 = .ok none → (instanced ord o (ds.map some ++ some d :: rest) w).1 = .error .attributeError) ∧
    (instanced ord o (ds.map some ++ none :: rest) w).1 = .error .valueError := by
  have key : ∀ {x : DecArg} {e : Err}, (∀ (f : Bool) (w : World ρ), (applyAll o (x :: rest) f w).1 = .error e) →
      (instanced ord o (ds.map some ++ x :: rest) w).1 = .error e := by
    intro x e hx
    have := applyAll_stop rest hx ds h false w.enter
    unfold instanced
    rcases hh : applyAll o (ds.map some ++ x :: rest) false w.enter with ⟨r, w'⟩
    rw [hh] at this
    simp only at this
    subst this
    rfl
  refine ⟨fun d e hd => key fun f w => ?_, fun d hd => key fun f w => ?_, key fun f w => rfl⟩
  · simp [applyAll, applyDecoration, hd]
  · simp [applyAll, applyDecoration, hd]

/-- **C55, roles.** The lexeme that `get` finds for a role is the one at the key that stands for its identity,
the valences included, each of which stands for the one of the word. -/
theorem C55_role {α : Type} (f : SFun α) (r : Addr) (x : Option α) : f.get r = .ok x ↔ ∃ a, f.slot r = .ok a ∧ f.at a = some x := by
  rw [get_slot]
  cases h : f.slot r with
  | error e => simp [bind, Except.bind]
  | ok a =>
    cases h2 : f.at a <;> simp [bind, Except.bind, h2]

-- In a word with the second valence the role of the first one leads to the lexeme of the verb.
example : (SFun.process (some 7) (c!"E:T:.") []).slot [c!"E:S:."] = .ok [c!"E:T:."] ∧
    (SFun.process (some 7) (c!"E:T:.") []).get [c!"E:S:."] = .ok (some 7) := by
  constructor <;> rfl

-- The first decoration is good, the second one leads nowhere, to `None`, or is no decoration.
example : let o : Objects Nat := ⟨fun p => match p with | [] => .ok none | [.flexion (.prim .A)] => .ok (some 0) | _ => .error .keyError, fun _ => .ok []⟩
    (instanced id o [some ([.flexion (.prim .A)], c!"x"), some ([.flexion (.prim .S)], c!"y"), none] ⟨fun _ => none, []⟩).1 = .error .keyError ∧
    (instanced id o [some ([.flexion (.prim .A)], c!"x"), some ([], c!"y"), none] ⟨fun _ => none, []⟩).1 = .error .attributeError ∧
    (instanced id o [some ([.flexion (.prim .A)], c!"x"), none] ⟨fun _ => none, []⟩).1 = .error .valueError := by
  intro o
  have h : ∀ d ∈ [(([.flexion (.prim .A)] : Path), c!"x")], ∃ r, o.reach d.1 = .ok (some r) := by
    intro d hd
    rw [List.mem_singleton.1 hd]
    exact ⟨0, rfl⟩
  exact ⟨(C55_refused id h [none] _).1 _ _ rfl, (C55_refused id h [none] _).2.1 _ rfl, (C55_refused id h [] _).2.2⟩

end Verif
