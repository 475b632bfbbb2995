import Verif.Lemmas.Sum

/-
The product constructor.
-/

namespace Verif
namespace Script

theorem takeSome_map (xs : List Script) {tail : List (Option Script)} (ht : tail = [] ∨ ∃ r, tail = none :: r) :
    takeSome (xs.map some ++ tail) = xs := by
  induction xs with
  | nil => rcases ht with rfl | ⟨r, rfl⟩ <;> simp [takeSome]
  | cons x xs ih => simp [takeSome, ih]

theorem role_null_eq (l : Nat) : role (null l) = null l := role_of_role (role_null l)

theorem mkMult_pad {x : Script} {xs : List Script} {tail : List (Option Script)} (ht : tail = [] ∨ ∃ r, tail = none :: r)
    (hl : (x :: xs).length ≤ 3) :
    mkMult ((x :: xs).map some ++ tail) =
      mkMult [some x, some (xs.getD 0 (null x.layer)), some (xs.getD 1 (null x.layer))] := by
  have e0 : takeSome ((x :: xs).map some ++ tail) = x :: xs := takeSome_map _ ht
  have e : ∀ l : List Script, (l.map unwrap).map fixEmpty = l.map role := fun l => by rw [List.map_map]; rfl
  have hpad : padRoles x.layer ((x :: xs).map role) = [role x, role (xs.getD 0 (null x.layer)), role (xs.getD 1 (null x.layer))] := by
    rcases xs with _ | ⟨y, _ | ⟨z, _ | ⟨u, us⟩⟩⟩
    · simp [padRoles, role_null_eq, List.replicate]
    · simp [padRoles, role_null_eq]
    · simp [padRoles]
    · simp only [List.length_cons] at hl; omega
  rw [mkMult, mkMult, if_neg (by simp), if_neg (by simp), e0]
  simp only [takeSome, e, hpad]
  rfl

theorem mkMult_long {xs : List Script} {tail : List (Option Script)} (ht : tail = [] ∨ ∃ r, tail = none :: r)
    (hl : 3 < xs.length) : mkMult (xs.map some ++ tail) = .error .invalidScript := by
  have e0 : takeSome (xs.map some ++ tail) = xs := takeSome_map _ ht
  rcases xs with _ | ⟨x, _ | ⟨y, _ | ⟨z, _ | ⟨u, us⟩⟩⟩⟩
  · simp at hl
  · simp at hl
  · simp at hl
  · simp at hl
  · rw [mkMult, if_neg (by simp), e0]
    rfl

theorem cardinal_mult_role {s a m : Script} (h1 : WF s) (h2 : WF a) (h3 : WF m) (h4 : a.layer = s.layer) (h5 : m.layer = s.layer) :
    (mult (role s) (role a) (role m)).cardinal = s.cardinal * a.cardinal * m.cardinal := by
  rw [← cardinal_role h1, ← cardinal_role h2, ← cardinal_role h3]
  cases hc : multChar? (role s) (role a) (role m) with
  | none => rw [cardinal, hc]; simp
  | some ch =>
    have h0 := multChar_layer (role_wf h1).1 hc
    refine cardinal_mult (.mult (role_wf h1).1 (role_wf h2).1 (role_wf h3).1 ?_ ?_ (by omega) (role_wf h1).2.1 (role_wf h2).2.1
      (role_wf h3).2.1 ?_)
    · rw [(role_wf h1).2.2, (role_wf h2).2.2, h4]
    · rw [(role_wf h1).2.2, (role_wf h3).2.2, h5]
    · rw [cardinal, hc]; simp

/-- Evaluation of the product constructor on well-formed roles of one layer. -/
theorem mkMult_eval {s a m : Script} (h1 : WF s) (h2 : WF a) (h3 : WF m) (h4 : a.layer = s.layer) (h5 : m.layer = s.layer) :
    mkMult [some s, some a, some m] =
      if s.cardinal * a.cardinal * m.cardinal > 360 then .error .tooMany
      else if s.layer ≤ 5 then .ok (mult (role s) (role a) (role m))
      else .error .indexError := by
  rw [mkMult_three h1 h2 h3, if_neg (by simp [h4, h5]), cardinal_mult_role h1 h2 h3 h4 h5]

end Script
end Verif
