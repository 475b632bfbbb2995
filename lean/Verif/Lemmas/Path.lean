import Verif.Model.Path
import Verif.Lemmas.Except

/-
Lemmas on the operations on paths.
-/

namespace Verif
open Script

theorem Step.doEq_refl (s : Step) : s.doEq s = true := by
  cases s <;> simp [Step.doEq]

theorem Step.doEq_cls {s t : Step} (h : s.doEq t = true) : s.cls = t.cls := by
  cases s <;> cases t <;> first | rfl | (simp [Step.doEq] at h)

theorem Step.doEq_symm {s t : Step} (h : s.doEq t = true) : t.doEq s = true := by
  cases s <;> cases t <;> simp [Step.doEq] at h ⊢ <;> simp [h]

theorem Step.doEq_trans {s t u : Step} (h : s.doEq t = true) (h' : t.doEq u = true) : s.doEq u = true := by
  cases s <;> cases t <;> simp [Step.doEq] at h <;> cases u <;> simp [Step.doEq] at h' ⊢ <;> simp [h, h']

theorem differ_iff (s t : Step) : (s.cls ≠ t.cls ∨ s.doEq t = false) ↔ s.doEq t = false := by
  constructor
  · rintro (h | h)
    · cases hd : s.doEq t with
      | false => rfl
      | true => exact absurd (Step.doEq_cls hd) h
    · exact h
  · exact Or.inr

theorem hasPrefix_nil (p : Path) : hasPrefix p [] = .ok true := by cases p <;> rfl

theorem hasPrefix_cons (s t : Step) (p q : Path) : hasPrefix (s :: p) (t :: q) =
    if s.doEq t = false then s.basePrefix t
    else match p with
      | [] => .ok q.isEmpty
      | _ :: _ => hasPrefix p q := by
  rw [hasPrefix.eq_def]
  simp only [differ_iff]
  rfl

/-- The same node: the recursive case. -/
theorem hasPrefix_same {s t : Step} (h : s.doEq t = true) (p q : Path) :
    hasPrefix (s :: p) (t :: q) = if p = [] then .ok q.isEmpty else hasPrefix p q := by
  rw [hasPrefix_cons, h]
  cases p <;> rfl

theorem hasPrefix_other {s t : Step} (h : s.doEq t = false) (p q : Path) : hasPrefix (s :: p) (t :: q) = s.basePrefix t := by
  rw [hasPrefix_cons, h]
  rfl

/-- `_has_prefix` returns `True` only for two nodes of polymorphemes with the same group and multiplicity. -/
theorem basePrefix_true {s t : Step} (h : s.basePrefix t = .ok true) :
    ∃ g m m' k, s = .pm g m k ∧ t = .pm g m' k := by
  cases s <;> cases t <;> simp [Step.basePrefix] at h
  obtain ⟨rfl, rfl⟩ := h
  exact ⟨_, _, _, _, rfl, rfl⟩

/-- Nodes of polymorphemes have no child. -/
def pmLast : Path → Prop
  | [] => True
  | .pm _ _ _ :: p => p = []
  | _ :: p => pmLast p

theorem pmLast_tail {s : Step} {p : Path} (h : pmLast (s :: p)) : pmLast p := by
  cases s <;> first | exact h | (have h : p = [] := h; rw [h]; trivial)

theorem pmLast_pm {g : GIdx} {m : Option Script} {k : Option Nat} {p : Path} (h : pmLast (.pm g m k :: p)) : p = [] := h

theorem hasPrefix_refl (p : Path) : hasPrefix p p = .ok true := by
  induction p with
  | nil => rfl
  | cons s p ih =>
    rw [hasPrefix_same (Step.doEq_refl s)]
    split
    · next h => rw [h]; rfl
    · exact ih

theorem doEq_pm {s : Step} {g : GIdx} {m : Option Script} {k : Option Nat} (h : s.doEq (.pm g m k) = true) :
    ∃ m', s = .pm g m' k := by
  cases s <;> simp [Step.doEq] at h
  obtain ⟨⟨rfl, _⟩, rfl⟩ := h
  exact ⟨_, rfl⟩

theorem basePrefix_pm (g : GIdx) (m m' : Option Script) (k : Option Nat) :
    (Step.pm g m k).basePrefix (.pm g m' k) = .ok true := by simp [Step.basePrefix]

theorem hasPrefix_pm (g : GIdx) (m m' : Option Script) (k : Option Nat) :
    hasPrefix [.pm g m k] [.pm g m' k] = .ok true := by
  rw [hasPrefix_cons]
  split
  · exact basePrefix_pm _ _ _ _
  · rfl

theorem hasPrefix_trans {a b c : Path} (pa : pmLast a) (pb : pmLast b) (pc : pmLast c)
    (hab : hasPrefix a b = .ok true) (hbc : hasPrefix b c = .ok true) : hasPrefix a c = .ok true := by
  induction a generalizing b c with
  | nil =>
    cases b with
    | nil => exact hbc
    | cons t b => cases hab
  | cons s a ih =>
    cases c with
    | nil => rfl
    | cons u c =>
    cases b with
    | nil => cases hbc
    | cons t b =>
      cases hst : s.doEq t with
      | false =>
        rw [hasPrefix_other hst] at hab
        obtain ⟨g, m, m', k, rfl, rfl⟩ := basePrefix_true hab
        obtain rfl := pmLast_pm pa
        obtain rfl := pmLast_pm pb
        have hu : ∃ m'', u = .pm g m'' k := by
          cases htu : (Step.pm g m' k).doEq u with
          | false =>
            rw [hasPrefix_other htu] at hbc
            obtain ⟨_, _, _, _, h1, rfl⟩ := basePrefix_true hbc
            cases h1
            exact ⟨_, rfl⟩
          | true => exact doEq_pm (Step.doEq_symm htu)
        obtain ⟨m'', rfl⟩ := hu
        obtain rfl := pmLast_pm pc
        exact hasPrefix_pm _ _ _ _
      | true =>
        cases htu : t.doEq u with
        | false =>
          rw [hasPrefix_other htu] at hbc
          obtain ⟨g, m, m', k, rfl, rfl⟩ := basePrefix_true hbc
          obtain ⟨m'', rfl⟩ := doEq_pm hst
          obtain rfl := pmLast_pm pa
          obtain rfl := pmLast_pm pc
          exact hasPrefix_pm _ _ _ _
        | true =>
          rw [hasPrefix_same hst] at hab
          rw [hasPrefix_same htu] at hbc
          rw [hasPrefix_same (Step.doEq_trans hst htu)]
          split at hab
          · next h =>
            subst h
            have hb : b = [] := by simpa using hab
            subst hb
            simpa using hbc
          · next h =>
            rw [if_neg h]
            split at hbc
            · next h' =>
              subst h'
              have hc : c = [] := by simpa using hbc
              subst hc
              exact hasPrefix_nil a
            · exact ih (pmLast_tail pa) (pmLast_tail pb) (pmLast_tail pc) hab hbc

/-- The constructors keep the node and the child. -/
theorem construct_ok {s : Step} {c r : Path} (h : construct s c = .ok r) : r = s :: c := by
  unfold construct at h
  split at h <;> simp_all

theorem castChild_ok {b : Bool} {c r : Path} (h : castChild b c = .ok r) :
    r = c ∨ ∃ g m k rest, c = .pm g m k :: rest := by
  unfold castChild at h
  split at h
  · cases h; exact .inl rfl
  · exact .inr ⟨_, _, _, _, rfl⟩
  · split at h
    · cases h
    · cases h; exact .inl rfl
  · cases h

end Verif

namespace Verif
open Script

/-- The paths that exist: the constructors accept the child of every node. -/
def validPath : Path → Prop
  | [] => True
  | s :: p => construct s p = .ok (s :: p) ∧ validPath p

/-- No node is a plain `UslPath`. -/
def noUsl (p : Path) : Prop := ∀ s ∈ p, s.cls ≠ .usl

theorem hasPrefix_headCls {r p : Path} {t : Step} (h : hasPrefix r (t :: p) = .ok true) :
    ∃ s r', r = s :: r' ∧ s.cls = t.cls := by
  cases r with
  | nil => cases h
  | cons s r =>
    refine ⟨s, r, rfl, ?_⟩
    cases hd : s.doEq t with
    | true => exact Step.doEq_cls hd
    | false =>
      rw [hasPrefix_other hd] at h
      obtain ⟨_, _, _, _, rfl, rfl⟩ := basePrefix_true h
      rfl

theorem cloneWith_ok {s : Step} {c r : Path} (h : cloneWith s c = .ok r) :
    ∃ c', r = s :: c' ∧ (c' = c ∨ (s = .lexeme false ∧ ∃ g m k rest, c = .pm g m k :: rest)) := by
  have other : construct s c = .ok r → ∃ c', r = s :: c' ∧ (c' = c ∨ (s = .lexeme false ∧ ∃ g m k rest, c = .pm g m k :: rest)) :=
    fun h => ⟨c, construct_ok h, .inl rfl⟩
  cases s with
  | lexeme b =>
    have h : (castChild b c >>= construct (.lexeme b)) = .ok r := h
    rw [bind_ok] at h
    obtain ⟨c', h1, h2⟩ := h
    refine ⟨c', construct_ok h2, ?_⟩
    rcases castChild_ok h1 with h3 | ⟨g, m, k, rest, rfl⟩
    · exact .inl h3
    · cases b with
      | true =>
        cases h1
        exact .inl rfl
      | false => exact .inr ⟨rfl, _, _, _, _, rfl⟩
  | usl => exact other h
  | pm _ _ _ => exact other h
  | flexion _ => exact other h
  | role _ _ => exact other h

theorem cloneWith_valid {s : Step} {c : Path} (hv : construct s c = .ok (s :: c)) (hn : noUsl c) :
    cloneWith s c = .ok (s :: c) := by
  cases s with
  | lexeme b =>
    have : castChild b c = .ok c := by
      cases c with
      | nil => rfl
      | cons t c =>
        have ht := hn t (by simp)
        cases b <;> cases t <;> first | rfl | exact absurd rfl ht | (simp [construct, headCls, Step.cls] at hv)
    show (castChild b c >>= construct (.lexeme b)) = _
    rw [this]
    exact hv
  | usl => exact hv
  | pm _ _ _ => exact hv
  | flexion _ => exact hv
  | role _ _ => exact hv

theorem construct_headCls {s : Step} {c d : Path} (hv : construct s c = .ok (s :: c)) (h : headCls d = headCls c ∨ d = []) :
    construct s d = .ok (s :: d) := by
  rcases h with h | rfl
  · unfold construct at hv ⊢
    rw [h]
    split at hv <;> first | (cases hv; done) | rfl
  · unfold construct
    simp [headCls]

theorem concat_cons (f : Bool) {s : Step} (p : Path) {t : Step} (q : Path) (hs : s.cls ≠ .usl) (ht : t.cls ≠ .usl) :
    concat f (s :: p) (t :: q) =
      if s.cls ≠ t.cls then
        (if p = [] then cloneWith s (t :: q) else do cloneWith s (← concat f p (t :: q)))
      else do
        if !(← hasPrefix (t :: q) (s :: p)) && !f then return s :: p
        return t :: q := by
  rw [concat.eq_def]
  simp only [hs, ht, if_false]
  cases p <;> rfl

theorem concat_prefix {p q r : Path} (hv : validPath p) (hn : noUsl p) (h : concat false p q = .ok r) :
    hasPrefix r p = .ok true := by
  induction p generalizing r with
  | nil => exact hasPrefix_nil r
  | cons s p ih =>
    have hs : s.cls ≠ .usl := hn s (by simp)
    cases q with
    | nil =>
      rw [concat.eq_def] at h
      simp only [hs, if_false] at h
      cases h
    | cons t q =>
      by_cases ht : t.cls = .usl
      · rw [concat.eq_def] at h
        simp only [hs, ht, if_false, if_true] at h
        cases h
        exact hasPrefix_refl _
      · rw [concat_cons false p q hs ht] at h
        split at h
        · split at h
          · next hp =>
            subst hp
            obtain ⟨c, rfl, _⟩ := cloneWith_ok h
            rw [hasPrefix_same (Step.doEq_refl s)]
            split
            · rfl
            · exact hasPrefix_nil c
          · next hp =>
            rw [bind_ok] at h
            obtain ⟨r', h1, h2⟩ := h
            have h3 := ih hv.2 (fun x hx => hn x (by simp [hx])) h1
            obtain ⟨c, rfl, hc⟩ := cloneWith_ok h2
            have hcr : c = r' := by
              rcases hc with hc | ⟨rfl, g, m, k, rest, rfl⟩
              · exact hc
              · exfalso
                cases p with
                | nil => exact hp rfl
                | cons u p =>
                  obtain ⟨a, b, hab, hcl⟩ := hasPrefix_headCls h3
                  cases hab
                  cases u <;> simp [Step.cls] at hcl
                  have := hv.1
                  simp [construct, headCls, Step.cls] at this
            subst hcr
            rw [hasPrefix_same (Step.doEq_refl s)]
            split
            · next hc =>
              subst hc
              cases p with
              | nil => rfl
              | cons u p => cases h3
            · exact h3
        · next hst =>
          rw [bind_ok] at h
          obtain ⟨b, h1, h2⟩ := h
          cases b with
          | true => cases h2; exact h1
          | false => cases h2; exact hasPrefix_refl _

/-- Appending: no class of the first path is the class of the first node of the second. -/
theorem concat_append (f : Bool) {p : Path} {t : Step} {q : Path} (hp : p ≠ []) (hv : validPath (p ++ t :: q))
    (hn : noUsl (p ++ t :: q)) (hc : ∀ s ∈ p, s.cls ≠ t.cls) : concat f p (t :: q) = .ok (p ++ t :: q) := by
  induction p with
  | nil => exact absurd rfl hp
  | cons s p ih =>
    have hs : s.cls ≠ .usl := hn s (by simp)
    have ht : t.cls ≠ .usl := hn t (by simp)
    rw [concat_cons f p q hs ht, if_pos (hc s (by simp))]
    split
    · next h =>
      subst h
      exact cloneWith_valid hv.1 (fun x hx => hn x (by simp at hx ⊢; tauto))
    · next h =>
      rw [ih h hv.2 (fun x hx => hn x (by simp at hx ⊢; tauto)) (fun x hx => hc x (by simp [hx]))]
      exact cloneWith_valid hv.1 (fun x hx => hn x (by simp at hx ⊢; tauto))

theorem hasPrefix_append (p q : Path) : hasPrefix (p ++ q) p = .ok true := by
  induction p with
  | nil => exact hasPrefix_nil q
  | cons s p ih =>
    show hasPrefix (s :: (p ++ q)) (s :: p) = _
    rw [hasPrefix_same (Step.doEq_refl s)]
    split
    · next h =>
      have hp : p = [] := (List.append_eq_nil_iff.1 h).1
      rw [hp]; rfl
    · exact ih

theorem removePrefix_append {p q : Path} (hq : q ≠ []) : removePrefix (p ++ q) p = .ok q := by
  induction p with
  | nil => cases q <;> rfl
  | cons s p ih =>
    show removePrefix (s :: (p ++ q)) (s :: p) = _
    have hne : p ++ q ≠ [] := fun h => hq (List.append_eq_nil_iff.1 h).2
    rw [removePrefix.eq_def]
    have h1 : hasPrefix (s :: (p ++ q)) (s :: p) = .ok true := hasPrefix_append (s :: p) q
    simp only [h1, Step.doEq_refl]
    cases hpq : p ++ q with
    | nil => exact absurd hpq hne
    | cons a b =>
      rw [hpq] at ih
      simpa [bind, Except.bind] using ih

theorem validPath_dropLast {s : Step} {p : Path} (hv : construct s p = .ok (s :: p)) :
    construct s p.dropLast = .ok (s :: p.dropLast) := by
  apply construct_headCls hv
  cases p with
  | nil => exact .inr rfl
  | cons t p => cases p with
    | nil => exact .inr rfl
    | cons u p => exact .inl rfl

theorem splitTail_eq {p : Path} {s : Step} (hp : p ≠ []) (hv : validPath (p ++ [s])) (hn : noUsl (p ++ [s])) :
    splitTail (p ++ [s]) = .ok (p, [s]) := by
  induction p with
  | nil => exact absurd rfl hp
  | cons a p ih =>
    cases p with
    | nil =>
      show (do return (← cloneWith a [], [s])) = _
      rw [cloneWith_valid (construct_headCls hv.1 (.inr rfl)) (fun x hx => by cases hx)]
      rfl
    | cons b p =>
      have ih := ih (by simp) hv.2 (fun x hx => hn x (by simp at hx ⊢; tauto))
      have h1 : construct a (b :: p) = .ok (a :: b :: p) := by
        have : construct a (b :: p ++ [s]).dropLast = .ok (a :: (b :: p ++ [s]).dropLast) := validPath_dropLast hv.1
        rwa [List.dropLast_concat] at this
      have h2 := cloneWith_valid h1 (fun x hx => hn x (by simp at hx ⊢; tauto))
      cases hps : p ++ [s] with
      | nil => simp at hps
      | cons u r =>
        have : a :: b :: p ++ [s] = a :: b :: u :: r := by rw [← hps]; rfl
        rw [this]
        show (do let r' ← splitTail (b :: u :: r); return (← cloneWith a r'.1, r'.2)) = _
        rw [show b :: u :: r = b :: p ++ [s] from by rw [← hps]; rfl, ih]
        show (do return (← cloneWith a (b :: p), [s])) = _
        rw [h2]
        rfl

theorem withoutMorpheme_prefix {p r : Path} (h : withoutMorpheme p = .ok r) : hasPrefix p r = .ok true := by
  induction p generalizing r with
  | nil => cases h; rfl
  | cons s p ih =>
    have step : ∀ {t : Step} {r' : Path}, s.doEq t = true → withoutMorpheme p = .ok r' → hasPrefix (s :: p) (t :: r') = .ok true := by
      intro t r' hd h
      rw [hasPrefix_same hd]
      split
      · next hp =>
        subst hp
        cases h
        rfl
      · exact ih h
    cases s with
    | usl =>
      have h : (withoutMorpheme p >>= fun r' => pure (Step.usl :: r')) = .ok r := h
      rw [bind_ok] at h
      obtain ⟨r', h1, h2⟩ := h
      cases h2
      exact step rfl h1
    | pm g m k =>
      have h : (withoutMorpheme p >>= fun r' => pure (Step.pm g none k :: r')) = .ok r := h
      rw [bind_ok] at h
      obtain ⟨r', h1, h2⟩ := h
      cases h2
      cases hd : (Step.pm g m k).doEq (.pm g none k) with
      | true => exact step hd h1
      | false =>
        rw [hasPrefix_other hd]
        exact basePrefix_pm _ _ _ _
    | flexion m => cases h
    | lexeme b =>
      cases b with
      | true =>
        have h : (withoutMorpheme p >>= construct (.lexeme true)) = .ok r := h
        rw [bind_ok] at h
        obtain ⟨r', h1, h2⟩ := h
        rw [construct_ok h2]
        exact step rfl h1
      | false =>
        cases h
        rw [hasPrefix_same (Step.doEq_refl _)]
        split
        · rfl
        · exact hasPrefix_nil p
    | role a f =>
      have h : (withoutMorpheme p >>= construct (.role a f)) = .ok r := h
      rw [bind_ok] at h
      obtain ⟨r', h1, h2⟩ := h
      rw [construct_ok h2]
      exact step (Step.doEq_refl _) h1

end Verif
