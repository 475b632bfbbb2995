import Verif.Lemmas.Path

/-
C53: prefixes and composition of paths.  C64: the paths derived from a path.
-/

namespace Verif
open Script

/-! ### Specification -/

/-- Two nodes of paths with the same attributes; scripts and roles count by their texts. -/
def SameNode : Step → Step → Prop
  | .usl, .usl => True
  | .pm g m k, .pm g' m' k' => g = g' ∧ m.map str = m'.map str ∧ k = k'
  | .flexion m, .flexion m' => m.str = m'.str
  | .lexeme c, .lexeme c' => c = c'
  | .role r f, .role r' f' => roleText r = roleText r' ∧ f = f'
  | _, _ => False

/-- `q` is a prefix of `p`: `p` starts with the nodes of `q`, or both end with a node of a polymorpheme of the same group and
multiplicity and have the same nodes before it. -/
def PrefixOf (q p : Path) : Prop :=
  (∃ a r, p = a ++ r ∧ List.Forall₂ SameNode a q) ∨
  (∃ a b g m m' k, p = a ++ [.pm g m k] ∧ q = b ++ [.pm g m' k] ∧ List.Forall₂ SameNode a b)

theorem doEq_iff (s t : Step) : s.doEq t = true ↔ SameNode s t := by
  cases s <;> cases t <;> simp [Step.doEq, SameNode, and_assoc]

/-- Scripts for the examples. -/
def pathS : Script := .prim .S

/-! ### C53 -/

/-- Every path is a prefix of itself. -/
theorem C53_reflexive (p : Path) : hasPrefix p p = .ok true := hasPrefix_refl p

/-- On paths where the nodes of polymorphemes come last, `has_prefix` is the relation specified. -/
theorem C53_meaning_partial {p q : Path} (hp : pmLast p) (hq : pmLast q) : hasPrefix p q = .ok true ↔ PrefixOf q p := by
  induction p generalizing q with
  | nil =>
    cases q with
    | nil => exact ⟨fun _ => .inl ⟨[], [], rfl, .nil⟩, fun _ => rfl⟩
    | cons t q =>
      constructor
      · intro h; cases h
      · rintro (⟨a, r, h, hf⟩ | ⟨a, b, g, m, m', k, h, _⟩)
        · have : a = [] := (List.append_eq_nil_iff.1 h.symm).1
          subst this
          cases hf
        · simp at h
  | cons s p ih =>
    cases q with
    | nil => exact ⟨fun _ => .inl ⟨[], s :: p, rfl, .nil⟩, fun _ => hasPrefix_nil _⟩
    | cons t q =>
      constructor
      · intro h
        cases hd : s.doEq t with
        | false =>
          rw [hasPrefix_other hd] at h
          obtain ⟨g, m, m', k, rfl, rfl⟩ := basePrefix_true h
          obtain rfl := pmLast_pm hp
          obtain rfl := pmLast_pm hq
          exact .inr ⟨[], [], g, m, m', k, rfl, rfl, .nil⟩
        | true =>
          have hs := (doEq_iff s t).1 hd
          rw [hasPrefix_same hd] at h
          split at h
          · next h' =>
            subst h'
            have : q = [] := by simpa using h
            subst this
            exact .inl ⟨[s], [], rfl, .cons hs .nil⟩
          · rcases (ih (pmLast_tail hp) (pmLast_tail hq)).1 h with ⟨a, r, rfl, hf⟩ | ⟨a, b, g, m, m', k, rfl, rfl, hf⟩
            · exact .inl ⟨s :: a, r, rfl, .cons hs hf⟩
            · exact .inr ⟨s :: a, t :: b, g, m, m', k, rfl, rfl, .cons hs hf⟩
      · rintro (⟨a, r, h, hf⟩ | ⟨a, b, g, m, m', k, h, h', hf⟩)
        · cases hf with
          | cons hs hf =>
          cases h
          rw [hasPrefix_same ((doEq_iff _ _).2 hs)]
          split
          · next h' =>
            have : _ = [] := (List.append_eq_nil_iff.1 h').1
            subst this
            cases hf
            rfl
          · exact (ih (pmLast_tail hp) (pmLast_tail hq)).2 (.inl ⟨_, r, rfl, hf⟩)
        · cases hf with
          | nil =>
            cases h
            cases h'
            exact hasPrefix_pm _ _ _ _
          | cons hs hf =>
            cases h
            cases h'
            rw [hasPrefix_same ((doEq_iff _ _).2 hs), if_neg (by simp)]
            exact (ih (pmLast_tail hp) (pmLast_tail hq)).2 (.inr ⟨_, _, g, m, m', k, rfl, rfl, hf⟩)

/-- `has_prefix` is transitive on paths where the nodes of polymorphemes come last; in general it is not, see
`C53_violated_transitive`. -/
theorem C53_transitive_partial {a b c : Path} (ha : pmLast a) (hb : pmLast b) (hc : pmLast c)
    (hab : hasPrefix a b = .ok true) (hbc : hasPrefix b c = .ok true) : hasPrefix a c = .ok true :=
  hasPrefix_trans ha hb hc hab hbc

/-- Without a plain `UslPath` in `p`, what `p.concat(q)` returns has the prefix `p`. -/
theorem C53_concat_partial {p q r : Path} (hv : validPath p) (hn : noUsl p) (h : concat false p q = .ok r) :
    hasPrefix r p = .ok true := concat_prefix hv hn h

/-- When the class of the first node of `q` occurs nowhere in `p` and the constructors accept the result, `p.concat(q)` is `p`
followed by `q`, and removing the prefix gives `q` back. -/
theorem C53_append_partial (f : Bool) {p : Path} {t : Step} {q : Path} (hp : p ≠ []) (hv : validPath (p ++ t :: q))
    (hn : noUsl (p ++ t :: q)) (hc : ∀ s ∈ p, s.cls ≠ t.cls) :
    concat f p (t :: q) = .ok (p ++ t :: q) ∧ removePrefix (p ++ t :: q) p = .ok (t :: q) :=
  ⟨concat_append f hp hv hn hc, removePrefix_append (by simp)⟩

/-- `split_tail` followed by `concat` gives the path back, when the class of the last node occurs nowhere else and no node is a
plain `UslPath`; the tail is the last node. -/
theorem C53_split_partial (f : Bool) {p : Path} {s : Step} (hv : validPath (p ++ [s])) (hn : noUsl (p ++ [s]))
    (hc : ∀ t ∈ p, t.cls ≠ s.cls) :
    ∃ a, splitTail (p ++ [s]) = .ok (a, [s]) ∧ concat f a [s] = .ok (p ++ [s]) := by
  by_cases hp : p = []
  · subst hp
    exact ⟨[.usl], rfl, rfl⟩
  · exact ⟨p, splitTail_eq hp hv hn, concat_append f hp hv hn hc⟩

/-- `UslPath()` alone is split and composed too. -/
theorem C53_split_usl (f : Bool) : splitTail [.usl] = .ok ([.usl], [.usl]) ∧ concat f [.usl] [.usl] = .ok [.usl] := ⟨rfl, rfl⟩

/-- The path `>role>E:A:.>content>constant>S:` of the examples. -/
def pathDemo : Path := [.role [c!"E:A:."] false, .lexeme true, .pm .constant (some pathS) none]

theorem pathDemo_valid : validPath pathDemo := ⟨rfl, rfl, rfl, trivial⟩

theorem pathDemo_noUsl : noUsl pathDemo := by
  intro s hs
  simp only [pathDemo, List.mem_cons, List.not_mem_nil, or_false] at hs
  rcases hs with rfl | rfl | rfl <;> simp [Step.cls]

example : pmLast pathDemo := rfl

example : hasPrefix pathDemo [.role [c!"E:A:."] false, .lexeme true] = .ok true ∧
    hasPrefix [.role [c!"E:A:."] false, .lexeme true] [.role [c!"E:A:."] false] = .ok true ∧
    hasPrefix pathDemo [.role [c!"E:U:."] false] = .ok false := by decide +kernel

example : PrefixOf [.role [c!"E:A:."] false, .lexeme true, .pm .constant none none] pathDemo :=
  (C53_meaning_partial (p := pathDemo) (q := [.role [c!"E:A:."] false, .lexeme true, .pm .constant none none]) rfl rfl).1
    (by decide +kernel)

example : concat false [.role [c!"E:A:."] false] [.lexeme true, .pm .constant (some pathS) none] = .ok pathDemo :=
  (C53_append_partial (p := [.role [c!"E:A:."] false]) false (by simp) pathDemo_valid pathDemo_noUsl (by simp [Step.cls])).1

example : ∃ a, splitTail pathDemo = .ok (a, [.pm .constant (some pathS) none]) ∧
    concat false a [.pm .constant (some pathS) none] = .ok pathDemo :=
  C53_split_partial (p := [.role [c!"E:A:."] false, .lexeme true]) false pathDemo_valid pathDemo_noUsl
    (by simp [Step.cls])

/-- `remove_prefix` gives `None` for a path that is not a prefix, and otherwise what follows the prefix, if anything. -/
theorem C53_remove_partial {p q : Path} (hp : pmLast p) (hq : pmLast q) : (hasPrefix p q = .ok false → removePrefix p q = .ok []) ∧
    (hasPrefix p q = .ok true → removePrefix p q = .ok (p.drop q.length)) := by
  constructor
  · intro h
    cases q with
    | nil => rw [hasPrefix_nil] at h; cases h
    | cons t q =>
      cases p with
      | nil => cases h
      | cons s p =>
        simp only [removePrefix, h]
        rfl
  · induction p generalizing q with
    | nil =>
      intro h
      cases q with
      | nil => rfl
      | cons t q => cases h
    | cons s p ih =>
      intro h
      cases q with
      | nil => rfl
      | cons t q =>
        by_cases hst : s.doEq t = true
        · rw [hasPrefix_same hst] at h
          have hno : ¬ (s.cls ≠ t.cls ∨ s.doEq t = false) := by rw [differ_iff]; simp [hst]
          cases p with
          | nil =>
            simp only [removePrefix, hasPrefix_same hst]
            simp [hno, bind, Except.bind, pure, Except.pure]
          | cons u p =>
            have h : hasPrefix (u :: p) q = .ok true := h
            simp only [removePrefix, hasPrefix_same hst, h]
            simp only [bind, Except.bind, hno, if_false]
            exact ih (pmLast_tail hp) (pmLast_tail hq) h
        · have hst : s.doEq t = false := by simpa using hst
          have hyes : s.cls ≠ t.cls ∨ s.doEq t = false := .inr hst
          have hb := h
          rw [hasPrefix_other hst] at hb
          obtain ⟨g, m, m', k, rfl, rfl⟩ := basePrefix_true hb
          have := pmLast_pm hp
          subst this
          simp only [removePrefix, h]
          simp [hyes, bind, Except.bind, pure, Except.pure]

/-- `has_prefix` is not transitive when a node of a polymorpheme has a child. -/
theorem C53_violated_transitive : ∃ a b c : Path, validPath a ∧ validPath b ∧ validPath c ∧
    hasPrefix a b = .ok true ∧ hasPrefix b c = .ok true ∧ hasPrefix a c = .ok false :=
  ⟨[.pm .constant (some pathS) none], [.pm .constant none none], [.pm .constant (some pathS) none, .usl],
    ⟨rfl, trivial⟩, ⟨rfl, trivial⟩, ⟨rfl, rfl, trivial⟩, by decide +kernel, by decide +kernel, by decide +kernel⟩

/-- `has_prefix` raises `AttributeError` when a node of a polymorpheme meets a node of another class. -/
theorem C53_violated_raises : ∃ p q : Path, validPath p ∧ validPath q ∧ hasPrefix p q = .error .attributeError :=
  ⟨[.pm .constant none none], [.usl], ⟨rfl, trivial⟩, ⟨rfl, trivial⟩, rfl⟩

/-- The result of `concat` does not have the prefix `UslPath()`. -/
theorem C53_violated_concat : ∃ p q r : Path, validPath p ∧ validPath q ∧ concat false p q = .ok r ∧ hasPrefix r p = .ok false :=
  ⟨[.usl], [.lexeme true], [.lexeme true], ⟨rfl, trivial⟩, ⟨rfl, trivial⟩, rfl, rfl⟩

/-- With `force=True` the result of `concat` may lack the prefix. -/
theorem C53_violated_force : ∃ p q r : Path, validPath p ∧ noUsl p ∧ validPath q ∧ concat true p q = .ok r ∧
    hasPrefix r p = .ok false :=
  ⟨[.lexeme true], [.lexeme false], [.lexeme false], ⟨rfl, trivial⟩, by simp [noUsl, Step.cls], ⟨rfl, trivial⟩, rfl, rfl⟩

/-- Splitting and composing loses a node when the last two have the same class. -/
theorem C53_violated_split : ∃ p a b r : Path, validPath p ∧ splitTail p = .ok (a, b) ∧ concat false a b = .ok r ∧
    pathText r ≠ pathText p :=
  ⟨[.pm .g0 none (some 1), .pm .constant none none], [.pm .g0 none (some 1)], [.pm .constant none none], [.pm .g0 none (some 1)],
    ⟨rfl, rfl, trivial⟩, rfl, rfl, by decide +kernel⟩

/-- A path that starts with `UslPath` and has a child is not given back either. -/
theorem C53_violated_split_usl : ∃ p a b r : Path, validPath p ∧ splitTail p = .ok (a, b) ∧ concat false a b = .ok r ∧
    pathText r ≠ pathText p :=
  ⟨[.usl, .lexeme true], [.usl], [.lexeme true], [.lexeme true], ⟨rfl, rfl, trivial⟩, rfl, rfl, by decide +kernel⟩

/-! ### C64 -/

/-- What `without_morpheme` returns is a prefix of the path. -/
theorem C64_without_morpheme {p r : Path} (h : withoutMorpheme p = .ok r) : hasPrefix p r = .ok true :=
  withoutMorpheme_prefix h

/-- No node of what it returns carries a morpheme. -/
theorem C64_no_morpheme {p r : Path} (h : withoutMorpheme p = .ok r) :
    ∀ s ∈ r, s.cls ≠ .flexion ∧ ∀ g m k, s = .pm g m k → m = none := by
  induction p generalizing r with
  | nil => cases h; intro s hs; cases hs
  | cons a p ih =>
    have step : ∀ {b : Step} {r' : Path}, (b.cls ≠ .flexion ∧ ∀ g m k, b = .pm g m k → m = none) → withoutMorpheme p = .ok r' →
        ∀ s ∈ b :: r', s.cls ≠ .flexion ∧ ∀ g m k, s = .pm g m k → m = none := by
      intro b r' hb h s hs
      rcases List.mem_cons.1 hs with rfl | hs
      · exact hb
      · exact ih h s hs
    cases a with
    | usl =>
      have h : (withoutMorpheme p >>= fun r' => pure (Step.usl :: r')) = .ok r := h
      rw [bind_ok] at h
      obtain ⟨r', h1, h2⟩ := h
      cases h2
      exact step ⟨by simp [Step.cls], by intro _ _ _ h; cases h⟩ h1
    | pm g m k =>
      have h : (withoutMorpheme p >>= fun r' => pure (Step.pm g none k :: r')) = .ok r := h
      rw [bind_ok] at h
      obtain ⟨r', h1, h2⟩ := h
      cases h2
      exact step ⟨by simp [Step.cls], by intro _ _ _ h; cases h; rfl⟩ h1
    | flexion m => cases h
    | lexeme b =>
      cases b with
      | true =>
        have h : (withoutMorpheme p >>= construct (.lexeme true)) = .ok r := h
        rw [bind_ok] at h
        obtain ⟨r', h1, h2⟩ := h
        rw [construct_ok h2]
        exact step ⟨by simp [Step.cls], by intro _ _ _ h; cases h⟩ h1
      | false =>
        cases h
        intro s hs
        rw [List.mem_singleton] at hs
        subst hs
        exact ⟨by simp [Step.cls], by intro _ _ _ h; cases h⟩
    | role a f =>
      have h : (withoutMorpheme p >>= construct (.role a f)) = .ok r := h
      rw [bind_ok] at h
      obtain ⟨r', h1, h2⟩ := h
      rw [construct_ok h2]
      exact step ⟨by simp [Step.cls], by intro _ _ _ h; cases h⟩ h1

/-- Without a plain `UslPath`, `as_constant` gives a constant path. -/
theorem C64_as_constant_partial (u : Option Script) {p : Path} (hn : noUsl p) : isConstantPath (asConstant u p) = true := by
  induction p with
  | nil => rfl
  | cons s p ih =>
    have ih := ih (fun x hx => hn x (by simp [hx]))
    have hs := hn s (by simp)
    cases s <;> first | exact absurd rfl hs | (simp only [asConstant, isConstantPath, List.all_cons, Step.isConstant] at ih ⊢; simpa using ih)

/-- `as_constant` keeps the classes of the nodes, so that the constructors accept what it builds. -/
theorem C64_as_constant_valid (u : Option Script) {p : Path} (hv : validPath p) : validPath (asConstant u p) := by
  have hcls : ∀ p : Path, headCls (asConstant u p) = headCls p := by
    intro p
    cases p with
    | nil => rfl
    | cons s p => cases s <;> rfl
  induction p with
  | nil => trivial
  | cons s p ih =>
    have h1 := construct_headCls hv.1 (.inl (hcls p))
    cases s <;> exact ⟨by first | exact h1 | rfl, ih hv.2⟩

/-- `as_constant` is idempotent. -/
theorem C64_as_constant_idempotent (u : Option Script) (p : Path) : asConstant u (asConstant u p) = asConstant u p := by
  induction p with
  | nil => rfl
  | cons s p ih =>
    cases s with
    | pm g m k => simp only [asConstant, ih]; cases m <;> cases u <;> rfl
    | _ => simp only [asConstant, ih]

example : withoutMorpheme pathDemo = .ok [.role [c!"E:A:."] false, .lexeme true, .pm .constant none none] := rfl

example : noUsl pathDemo ∧ asConstant none [.lexeme true, .pm .g1 (some pathS) (some 2)] =
    [.lexeme true, .pm .constant (some pathS) none] := ⟨pathDemo_noUsl, rfl⟩

/-- A path through a plain `UslPath` is never constant. -/
theorem C64_violated_usl (u : Option Script) : ∃ p : Path, validPath p ∧ isConstantPath (asConstant u p) = false :=
  ⟨[.usl], ⟨rfl, trivial⟩, rfl⟩

/-- The flexion of a lexeme loses its morpheme with `without_morpheme`, but a path of a flexion alone raises. -/
theorem C64_violated_flexion (m : Script) : withoutMorpheme [.flexion m] = .error .valueError := rfl

end Verif
