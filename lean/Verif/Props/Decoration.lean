import Verif.Model.Decoration
import Verif.Props.PathParser

/-
C54: the literals set by the construction of an `InstancedUSL` do not stay on the components.  C55: the decorations of an
`InstancedUSL` are those it was given.
-/

namespace Verif
open Script

variable {ρ : Type} [DecidableEq ρ]

/-! ### C54 -/

/-- The construction with the decorations `ds` puts a literal on the object `r`: a decoration whose path reaches `r` is met before
any argument that raises an exception. -/
inductive Applied (o : Objects ρ) : List DecArg → ρ → Prop
  | here {p : Path} {v : Str} {ds : List DecArg} {r : ρ} : o.reach p = .ok (some r) → Applied o (some (p, v) :: ds) r
  | later {p : Path} {v : Str} {ds : List DecArg} {r r' : ρ} : o.reach p = .ok (some r') → Applied o ds r →
    Applied o (some (p, v) :: ds) r

/-- The world `w'` has no literal on the objects of `S`, and the literals of `w` on the others. -/
def Cleared (S : ρ → Prop) (w w' : World ρ) : Prop := (∀ r, S r → w'.lit r = none) ∧ ∀ r, ¬ S r → w'.lit r = w.lit r

theorem foldl_clear (l : List ρ) : ∀ w : World ρ, (l.foldl World.clear w).lit = fun r => if r ∈ l then none else w.lit r := by
  induction l with
  | nil => intro w; simp
  | cons a l ih =>
    intro w
    rw [List.foldl_cons, ih]
    funext r
    by_cases h : r = a <;> by_cases h' : r ∈ l <;> simp [World.clear, h, h']

theorem exit_lit (w : World ρ) (r : ρ) : w.exit.lit r = if r ∈ w.stack then none else w.lit r := by
  show (w.stack.foldl World.clear w).lit r = _
  rw [foldl_clear]

/-- What the loop does: the stack grows by the objects that got a literal, the others keep theirs. -/
theorem applyAll_world (o : Objects ρ) (ds : List DecArg) : ∀ (f : Bool) (w : World ρ),
    (∀ r, r ∈ (applyAll o ds f w).2.stack ↔ r ∈ w.stack ∨ Applied o ds r) ∧
    ∀ r, ¬ Applied o ds r → (applyAll o ds f w).2.lit r = w.lit r := by
  induction ds with
  | nil =>
    intro f w
    refine ⟨fun r => ⟨.inl, fun h => ?_⟩, fun r _ => rfl⟩
    rcases h with h | h
    · exact h
    · cases h
  | cons d ds ih =>
    intro f w
    cases d with
    | none =>
      refine ⟨fun r => ⟨.inl, fun h => ?_⟩, fun r _ => rfl⟩
      rcases h with h | h
      · exact h
      · cases h
    | some d =>
      obtain ⟨p, v⟩ := d
      rcases h : o.reach p with e | r0
      · have : applyAll o (some (p, v) :: ds) f w = (.error e, w) := by simp [applyAll, applyDecoration, h]
        rw [this]
        refine ⟨fun r => ⟨.inl, fun h' => ?_⟩, fun r _ => rfl⟩
        rcases h' with h' | h'
        · exact h'
        · cases h' with
          | here h' => rw [h] at h'; cases h'
          | later h' _ => rw [h] at h'; cases h'
      · cases r0 with
        | none =>
          have : applyAll o (some (p, v) :: ds) f w = (.error .attributeError, w) := by simp [applyAll, applyDecoration, h]
          rw [this]
          refine ⟨fun r => ⟨.inl, fun h' => ?_⟩, fun r _ => rfl⟩
          rcases h' with h' | h'
          · exact h'
          · cases h' with
            | here h' => rw [h] at h'; cases h'
            | later h' _ => rw [h] at h'; cases h'
        | some r0 =>
          have : applyAll o (some (p, v) :: ds) f w = applyAll o ds (isFlexionPath p || f) (w.set r0 v) := by
            simp [applyAll, applyDecoration, h]
          rw [this]
          obtain ⟨h1, h2⟩ := ih (isFlexionPath p || f) (w.set r0 v)
          refine ⟨fun r => ?_, fun r hr => ?_⟩
          · rw [h1]
            simp only [World.set, List.mem_cons]
            constructor
            · rintro ((rfl | h') | h')
              · exact .inr (.here h)
              · exact .inl h'
              · exact .inr (.later h h')
            · rintro (h' | h')
              · exact .inl (.inr h')
              · cases h' with
                | here h' => rw [h] at h'; cases h'; exact .inl (.inl rfl)
                | later _ h' => exact .inr h'
          · rw [h2 r fun h' => hr (.later h h')]
            have : r ≠ r0 := fun e => hr (e ▸ .here h)
            simp [World.set, this]

theorem instanced_world (ord : List (Path × Str) → List (Path × Str)) (o : Objects ρ) (ds : List DecArg) (w : World ρ) :
    (instanced ord o ds w).2 = (applyAll o ds false w.enter).2.exit := by
  unfold instanced
  rcases h : applyAll o ds false w.enter with ⟨r, w'⟩
  cases r <;> rfl

/-- **C54**: whatever the decorations, the objects, the literals before and the way the construction ends, after the construction of
an `InstancedUSL` the objects that got a literal from it have none, the others have the literal they had before, and the stack is
empty. -/
theorem C54_construction (ord : List (Path × Str) → List (Path × Str)) (o : Objects ρ) (ds : List DecArg) (w : World ρ) :
    Cleared (Applied o ds) w (instanced ord o ds w).2 ∧ (instanced ord o ds w).2.stack = [] := by
  rw [instanced_world]
  obtain ⟨h1, h2⟩ := applyAll_world o ds false w.enter
  have h1 : ∀ r, r ∈ (applyAll o ds false w.enter).2.stack ↔ Applied o ds r := by
    intro r
    rw [h1]
    simp [World.enter]
  refine ⟨⟨fun r hr => ?_, fun r hr => ?_⟩, rfl⟩
  · rw [exit_lit, if_pos ((h1 r).2 hr)]
  · rw [exit_lit, if_neg (fun h => hr ((h1 r).1 h)), h2 r hr]
    rfl

/-- A world without literals stays so. -/
theorem C54_clean (ord : List (Path × Str) → List (Path × Str)) (o : Objects ρ) (ds : List DecArg) {w : World ρ}
    (h : ∀ r, w.lit r = none) (r : ρ) : (instanced ord o ds w).2.lit r = none := by
  obtain ⟨⟨h1, h2⟩, _⟩ := C54_construction ord o ds w
  by_cases hr : Applied o ds r
  · exact h1 r hr
  · rw [h2 r hr, h r]

/-- `from_usl` takes the literals away from the components it could reach and adds none. -/
theorem C54_from_usl (ord : List (Path × Str) → List (Path × Str)) (o : Objects ρ) (w : World ρ) (r : ρ) :
    (instancedFrom ord o w).2.lit r = none ∨ (instancedFrom ord o w).2.lit r = w.lit r := by
  unfold instancedFrom
  cases listDecorations ord o false w with
  | error e => exact .inr rfl
  | ok ds =>
    obtain ⟨⟨h1, h2⟩, _⟩ := C54_construction ord o (ds.map some) w
    by_cases hr : Applied o (ds.map some) r
    · exact .inl (h1 r hr)
    · exact .inr (h2 r hr)

theorem instancedOne_world (ord : List (Path × Str) → List (Path × Str)) (ds : List (Path × Str)) (o : Objects ρ) (w : World ρ) (r : ρ) :
    (instancedOne ord ds o w).2.lit r = none ∨ (instancedOne ord ds o w).2.lit r = w.lit r := by
  have he : w.enter.exit.lit r = w.lit r := by rw [exit_lit]; simp [World.enter]
  unfold instancedOne
  split
  · exact .inr he
  · exact .inr he
  · rename_i d dec _
    obtain ⟨⟨h1, h2⟩, h3⟩ := C54_construction ord o ((d :: dec).map some) w.enter
    show (instanced ord o ((d :: dec).map some) w.enter).2.exit.lit r = none ∨
      (instanced ord o ((d :: dec).map some) w.enter).2.exit.lit r = w.lit r
    rw [exit_lit, h3]
    by_cases hr : Applied o ((d :: dec).map some) r
    · exact .inl (by simpa using h1 r hr)
    · exact .inr (by simpa [World.enter] using h2 r hr)

/-- The computation of the singular sequences of an `InstancedUSL`, whose contexts are nested, adds no literal either. -/
theorem C54_sequences (ord : List (Path × Str) → List (Path × Str)) (ds : List (Path × Str)) (os : List (Objects ρ)) :
    ∀ (w : World ρ) (r : ρ), (instancedSequences ord ds os w).2.lit r = none ∨ (instancedSequences ord ds os w).2.lit r = w.lit r := by
  induction os with
  | nil => exact fun w r => .inr rfl
  | cons o os ih =>
    intro w r
    have hx := instancedOne_world ord ds o w r
    unfold instancedSequences
    rcases hi : instancedOne ord ds o w with ⟨res, w'⟩
    rw [hi] at hx
    cases res with
    | error e => exact hx
    | ok x =>
      have h := ih w' r
      rcases hx with hx | hx <;> rw [hx] at h
      · exact .inl (h.elim id id)
      · exact h

end Verif
