import Verif.Lemmas.Product

/-
`promote`, and the grammatical class.
-/

namespace Verif
namespace Script

/-- One step of promotion. -/
theorem promote_step {s : Script} (h : WF s) :
    mkMult [some s] = if s.layer ≤ 5 then .ok (mult (role s) (null s.layer) (null s.layer)) else .error .indexError := by
  have hn : WF (null s.layer) := .null (wf_layer h)
  have e := mkMult_pad (x := s) (xs := []) (tail := []) (.inl rfl) (by simp)
  have e2 : mkMult [some s] = mkMult [some s, some (null s.layer), some (null s.layer)] := e
  rw [e2, mkMult_eval h hn hn rfl rfl, if_neg, role_null_eq]
  simp only [cardinal, Nat.mul_one]
  have := wf_cardinal h
  omega

theorem promote_step_wf {s : Script} (h : WF s) (hl : s.layer ≤ 5) :
    WF (mult (role s) (null s.layer) (null s.layer)) ∧ (mult (role s) (null s.layer) (null s.layer)).cardinal = s.cardinal ∧
      (mult (role s) (null s.layer) (null s.layer)).layer = s.layer + 1 := by
  have hn : WF (null s.layer) := .null (wf_layer h)
  have hc := cardinal_mult_role h hn hn rfl rfl
  rw [role_null_eq, show (null s.layer).cardinal = 1 from rfl, Nat.mul_one, Nat.mul_one] at hc
  have := wf_cardinal h
  refine ⟨.mult (role_wf h).1 hn hn ?_ ?_ ?_ (role_wf h).2.1 (role_null _) (role_null _) ?_, ?_, ?_⟩
  · rw [(role_wf h).2.2]; rfl
  · rw [(role_wf h).2.2]; rfl
  · rw [(role_wf h).2.2]; exact hl
  · omega
  · exact hc
  · simp [layer, (role_wf h).2.2]

theorem promoteBy_spec : ∀ (n : Nat) {s : Script}, WF s →
    (s.layer + n ≤ 6 ∨ n = 0 → ∃ t, promoteBy n s = .ok t ∧ WF t ∧ t.layer = s.layer + n ∧ t.cardinal = s.cardinal ∧
      (n = 0 → t = s) ∧ (n ≠ 0 → t.isAdd = false) ∧
      ∀ w, Den t w ↔ ∃ u, Den s u ∧ w = u ++ List.replicate (3 ^ (s.layer + n) - 3 ^ s.layer) none) ∧
    (6 < s.layer + n → n ≠ 0 → promoteBy n s = .error .indexError)
  | 0, s, h => by
    refine ⟨fun _ => ⟨s, rfl, h, rfl, rfl, fun _ => rfl, by simp, fun w => by simp⟩, fun _ h => absurd rfl h⟩
  | n + 1, s, h => by
    rw [promoteBy, promote_step h]
    by_cases hl : s.layer ≤ 5
    · rw [if_pos hl]
      obtain ⟨w1, c1, l1⟩ := promote_step_wf h hl
      generalize hu : mult (role s) (null s.layer) (null s.layer) = u at w1 c1 l1
      obtain ⟨a, b⟩ := promoteBy_spec n w1
      have hd : ∀ w, Den u w ↔ ∃ v, Den s v ∧ w = v ++ List.replicate (3 ^ (s.layer + 1) - 3 ^ s.layer) none := by
        intro w
        rw [← hu, den_mult]
        simp only [den_null, den_role h]
        have e : 3 ^ (s.layer + 1) - 3 ^ s.layer = 3 ^ s.layer + 3 ^ s.layer := by rw [Nat.pow_succ]; omega
        rw [e, List.replicate_add]
        constructor
        · rintro ⟨x, y, z, h1, rfl, rfl, rfl⟩; exact ⟨x, h1, by simp⟩
        · rintro ⟨x, h1, rfl⟩; exact ⟨x, _, _, h1, rfl, rfl, by simp⟩
      constructor
      · intro hle
        obtain ⟨t, h1, h2, h3, h4, h5, h6, h7⟩ := a (by rw [l1]; omega)
        refine ⟨t, h1, h2, by omega, by rw [h4, c1], by simp, fun _ => ?_, ?_⟩
        · by_cases hn : n = 0
          · rw [h5 hn, ← hu]; rfl
          · exact h6 hn
        · intro w
          rw [h7]
          have e : List.replicate (3 ^ (s.layer + (n + 1)) - 3 ^ s.layer) (none : Letter) =
              List.replicate (3 ^ (s.layer + 1) - 3 ^ s.layer) none ++ List.replicate (3 ^ (u.layer + n) - 3 ^ u.layer) none := by
            rw [← List.replicate_add, l1]
            congr 1
            have e1 : s.layer + (n + 1) = s.layer + 1 + n := by omega
            rw [e1]
            have e2 : 3 ^ s.layer ≤ 3 ^ (s.layer + 1) := Nat.pow_le_pow_right (by omega) (by omega)
            have e3 : 3 ^ (s.layer + 1) ≤ 3 ^ (s.layer + 1 + n) := Nat.pow_le_pow_right (by omega) (by omega)
            omega
          rw [e]
          constructor
          · rintro ⟨v, hv, rfl⟩
            obtain ⟨x, hx, rfl⟩ := (hd v).1 hv
            exact ⟨x, hx, by simp⟩
          · rintro ⟨x, hx, rfl⟩
            exact ⟨_, (hd _).2 ⟨x, hx, rfl⟩, by simp⟩
      · intro hlt _
        by_cases hn : n = 0
        · omega
        · exact b (by omega) hn
    · rw [if_neg hl]
      exact ⟨fun h' => by omega, fun _ _ => rfl⟩

theorem scriptClassL_eq (cs : List Script) : scriptClassL cs = (cs.map scriptClass).foldr max 0 := by
  induction cs with
  | nil => rfl
  | cons c cs ih => simp [scriptClassL, ih]

theorem le_foldr_max {l : List Nat} {x : Nat} (h : x ∈ l) : x ≤ l.foldr max 0 := by
  induction l with
  | nil => cases h
  | cons y ys ih =>
    simp only [List.foldr_cons]
    rcases List.mem_cons.1 h with rfl | h
    · omega
    · have := ih h; omega

theorem foldr_max_mem : ∀ {l : List Nat}, l ≠ [] → l.foldr max 0 ∈ l
  | [], h => absurd rfl h
  | [x], _ => by simp
  | x :: y :: ys, _ => by
    have ih := foldr_max_mem (l := y :: ys) (by simp)
    rw [List.foldr_cons]
    by_cases h : x ≤ (y :: ys).foldr max 0
    · rw [Nat.max_eq_right h]; exact List.mem_cons_of_mem _ ih
    · rw [Nat.max_eq_left (by omega)]; simp

theorem scriptClass_spec {s : Script} (h : WF s) :
    (∃ x w, Den s (x :: w) ∧ letterClass x = s.scriptClass) ∧ ∀ x w, Den s (x :: w) → letterClass x ≤ s.scriptClass := by
  induction h with
  | @null l hl =>
    have h3 : 0 < 3 ^ l := Nat.pow_pos (by omega)
    obtain ⟨k, hk⟩ : ∃ k, 3 ^ l = k + 1 := ⟨3 ^ l - 1, by omega⟩
    simp only [den_null, hk, List.replicate_succ, List.cons.injEq]
    exact ⟨⟨none, _, ⟨rfl, rfl⟩, rfl⟩, by rintro x w ⟨rfl, _⟩; simp [letterClass]⟩
  | @prim p =>
    simp only [den_prim, List.cons.injEq]
    refine ⟨⟨some p, [], ⟨rfl, rfl⟩, by cases p <;> rfl⟩, ?_⟩
    rintro x w ⟨rfl, _⟩
    cases p <;> decide
  | @mult s a m h1 h2 h3 h4 h5 h6 h7 h8 h9 h10 ih1 ih2 ih3 =>
    rw [scriptClass]
    refine ⟨?_, ?_⟩
    · obtain ⟨x, w, hw, he⟩ := ih1.1
      obtain ⟨u, hu⟩ := den_exists h2
      obtain ⟨v, hv⟩ := den_exists h3
      exact ⟨x, _, .mult hw hu hv, he⟩
    · intro x w hw
      obtain ⟨u, v, r, hu, hv, hr, he⟩ := den_mult.1 hw
      cases u with
      | nil =>
        have := den_length h1 hu
        have h3 : 0 < 3 ^ s.layer := Nat.pow_pos (by omega)
        simp at this; omega
      | cons y u =>
        simp only [List.cons_append, List.cons.injEq] at he
        rw [he.1]; exact ih1.2 y u hu
  | @add cs h1 h2 h3 h4 h5 h6 h7 ih =>
    rw [scriptClass, scriptClassL_eq]
    constructor
    · have := foldr_max_mem (l := cs.map scriptClass) (by simpa using h1)
      obtain ⟨c, hc, he⟩ := List.mem_map.1 this
      obtain ⟨x, w, hw, hx⟩ := (ih c hc).1
      exact ⟨x, w, .add hc hw, by rw [hx, he]⟩
    · intro x w hw
      obtain ⟨c, hc, hcw⟩ := den_add.1 hw
      exact Nat.le_trans ((ih c hc).2 x w hcw) (le_foldr_max (List.mem_map.2 ⟨c, hc, rfl⟩))

theorem foldl_max_le (l : List Nat) : ∀ a : Nat, a ≤ l.foldl max a ∧ ∀ x ∈ l, x ≤ l.foldl max a := by
  induction l with
  | nil => simp
  | cons y ys ih =>
    intro a
    obtain ⟨h1, h2⟩ := ih (max a y)
    simp only [List.foldl_cons]
    refine ⟨by omega, ?_⟩
    intro x hx
    rcases List.mem_cons.1 hx with rfl | hx
    · omega
    · exact h2 x hx

theorem foldl_max_mem (l : List Nat) : ∀ a : Nat, l.foldl max a = a ∨ l.foldl max a ∈ l := by
  induction l with
  | nil => simp
  | cons y ys ih =>
    intro a
    simp only [List.foldl_cons]
    rcases ih (max a y) with h | h
    · rw [h]
      by_cases hay : a ≤ y
      · rw [Nat.max_eq_right hay]; simp
      · rw [Nat.max_eq_left (by omega)]; simp
    · exact .inr (List.mem_cons_of_mem _ h)

end Script
end Verif
