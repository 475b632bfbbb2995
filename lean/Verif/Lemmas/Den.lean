import Verif.Lemmas.ScriptBuilt
import Verif.Spec.Word

/-
Meaning of well-formed scripts.
-/

namespace Verif
namespace Script

theorem den_mult {s a m : Script} {w : Word} : Den (mult s a m) w ↔ ∃ u v x, Den s u ∧ Den a v ∧ Den m x ∧ w = u ++ v ++ x := by
  constructor
  · intro h; cases h with | mult h1 h2 h3 => exact ⟨_, _, _, h1, h2, h3, rfl⟩
  · rintro ⟨u, v, x, h1, h2, h3, rfl⟩; exact .mult h1 h2 h3

theorem den_add {cs : List Script} {w : Word} : Den (add cs) w ↔ ∃ c ∈ cs, Den c w := by
  constructor
  · intro h; cases h with | add h1 h2 => exact ⟨_, h1, h2⟩
  · rintro ⟨c, h1, h2⟩; exact .add h1 h2

theorem den_null {l : Nat} {w : Word} : Den (null l) w ↔ w = List.replicate (3 ^ l) none := by
  constructor
  · intro h; cases h; rfl
  · rintro rfl; exact .null l

theorem den_prim {p : Prim} {w : Word} : Den (prim p) w ↔ w = [some p] := by
  constructor
  · intro h; cases h; rfl
  · rintro rfl; exact .prim p

theorem den_length {s : Script} (h : WF s) {w : Word} (hd : Den s w) : w.length = 3 ^ s.layer := by
  induction h generalizing w with
  | null => rw [den_null] at hd; simp [hd, layer]
  | prim => rw [den_prim] at hd; simp [hd, layer]
  | @mult s a m h1 h2 h3 h4 h5 h6 h7 h8 h9 h10 ih1 ih2 ih3 =>
    obtain ⟨u, v, x, d1, d2, d3, rfl⟩ := den_mult.1 hd
    simp only [List.length_append, ih1 d1, ih2 d2, ih3 d3, layer, h4, h5]
    rw [Nat.pow_succ]; omega
  | @add cs h1 h2 h3 h4 h5 h6 h7 ih =>
    obtain ⟨c, hc, hd⟩ := den_add.1 hd
    rw [ih c hc hd, h3 c hc]

theorem den_norm {s : Script} (h : WF s) (w : Word) : Den s.norm w ↔ Den s w := by
  induction h generalizing w with
  | null => simp [norm]
  | prim => simp [norm]
  | @mult s a m h1 h2 h3 h4 h5 h6 h7 h8 h9 h10 ih1 ih2 ih3 =>
    rw [norm]; split
    · rename_i he
      rw [empty_mult_wf (.mult h1 h2 h3 h4 h5 h6 h7 h8 h9 h10)] at he
      simp only [Bool.and_eq_true] at he
      rw [role_empty h7 he.1.1, role_empty h8 he.1.2, role_empty h9 he.2, h4, h5, den_null, den_mult]
      simp only [den_null, exists_and_left, exists_eq_left, List.replicate_append_replicate, layer]
      rw [Nat.pow_succ, show 3 ^ s.layer * 3 = 3 ^ s.layer + 3 ^ s.layer + 3 ^ s.layer by omega]
    · simp only [den_mult, ih1, ih2, ih3]
  | @add cs h1 h2 h3 h4 h5 h6 h7 ih =>
    rcases norm_add_cases (.add h1 h2 h3 h4 h5 h6 h7) with ⟨c, rfl, hn⟩ | ⟨hn, _, _⟩
    · rw [hn, ih c (by simp), den_add]; simp
    · rw [hn, den_add, den_add]
      constructor
      · rintro ⟨d, hd, hw⟩
        obtain ⟨c, hc, rfl⟩ := List.mem_map.1 hd
        exact ⟨c, hc, (ih c hc w).1 hw⟩
      · rintro ⟨c, hc, hw⟩
        exact ⟨c.norm, List.mem_map.2 ⟨c, hc, rfl⟩, (ih c hc w).2 hw⟩

theorem den_of_str {s t : Script} (hs : WF s) (ht : WF t) (h : s.str = t.str) (w : Word) : Den s w ↔ Den t w := by
  rw [← den_norm hs, ← den_norm ht, norm_eq_of_str hs ht h]

theorem den_exists {s : Script} (h : WF s) : ∃ w, Den s w := by
  induction h with
  | null => exact ⟨_, .null _⟩
  | prim => exact ⟨_, .prim _⟩
  | mult _ _ _ _ _ _ _ _ _ _ ih1 ih2 ih3 =>
    obtain ⟨u, hu⟩ := ih1; obtain ⟨v, hv⟩ := ih2; obtain ⟨w, hw⟩ := ih3
    exact ⟨_, .mult hu hv hw⟩
  | @add cs h1 _ _ _ _ _ _ ih =>
    cases cs with
    | nil => exact absurd rfl h1
    | cons c cs => obtain ⟨w, hw⟩ := ih c (by simp); exact ⟨w, .add (by simp) hw⟩

theorem cardinal_one_add {cs : List Script} (h : WF (add cs)) (hc : (add cs).cardinal = 1) :
    ∃ c, cs = [c] ∧ c.cardinal = 1 := by
  rw [cardinal_add h] at hc
  cases h with
  | add h1 h2 =>
    have := sum_ge_length fun c hc => cardinal_pos (h2 c hc)
    rcases cs with _ | ⟨c, _ | ⟨d, ds⟩⟩
    · exact absurd rfl h1
    · exact ⟨c, rfl, by simpa using hc⟩
    · simp only [List.length_cons] at this; omega

/-- Scripts of cardinal 1 have at most one word. -/
theorem den_unique {s : Script} (h : WF s) (hc : s.cardinal = 1) {u v : Word} (hu : Den s u) (hv : Den s v) : u = v := by
  induction h generalizing u v with
  | null => rw [den_null] at hu hv; rw [hu, hv]
  | prim => rw [den_prim] at hu hv; rw [hu, hv]
  | @mult s a m h1 h2 h3 h4 h5 h6 h7 h8 h9 h10 ih1 ih2 ih3 =>
    rw [cardinal_mult (.mult h1 h2 h3 h4 h5 h6 h7 h8 h9 h10)] at hc
    obtain ⟨c1, c2, c3⟩ := mult_eq_one hc
    obtain ⟨u1, v1, x1, d1, d2, d3, rfl⟩ := den_mult.1 hu
    obtain ⟨u2, v2, x2, e1, e2, e3, rfl⟩ := den_mult.1 hv
    rw [ih1 c1 d1 e1, ih2 c2 d2 e2, ih3 c3 d3 e3]
  | @add cs h1 h2 h3 h4 h5 h6 h7 ih =>
    obtain ⟨c, rfl, hc'⟩ := cardinal_one_add (.add h1 h2 h3 h4 h5 h6 h7) hc
    rw [den_add] at hu hv
    simp only [List.mem_cons, List.not_mem_nil, or_false, exists_eq_left] at hu hv
    exact ih c (by simp) hc' hu hv

theorem append3_inj {α : Type} {u v w u' v' w' : List α} (h : u ++ v ++ w = u' ++ v' ++ w')
    (h1 : u.length = u'.length) (h2 : v.length = v'.length) : u = u' ∧ v = v' ∧ w = w' := by
  rw [List.append_assoc, List.append_assoc] at h
  obtain ⟨e1, e2⟩ := List.append_inj h h1
  obtain ⟨e3, e4⟩ := List.append_inj e2 h2
  exact ⟨e1, e3, e4⟩

theorem append_replicate {α : Type} {x : α} {u v : List α} {n : Nat} (h : u ++ v = List.replicate n x) :
    u = List.replicate u.length x ∧ v = List.replicate v.length x := by
  have h' := fun y (hy : y ∈ u ++ v) => List.eq_of_mem_replicate (h ▸ hy)
  exact ⟨List.eq_replicate_iff.2 ⟨rfl, fun y hy => h' y (by simp [hy])⟩,
    List.eq_replicate_iff.2 ⟨rfl, fun y hy => h' y (by simp [hy])⟩⟩

/-- A singular script whose word is empty is empty, and conversely. -/
theorem empty_iff_word {s : Script} (h : WF s) (hc : s.cardinal = 1) :
    s.empty = true ↔ Den s (List.replicate (3 ^ s.layer) none) := by
  induction h with
  | null => simp [empty, layer, den_null]
  | prim => simp [empty, layer, den_prim]
  | @mult s a m h1 h2 h3 h4 h5 h6 h7 h8 h9 h10 ih1 ih2 ih3 =>
    have hw : WF (mult s a m) := .mult h1 h2 h3 h4 h5 h6 h7 h8 h9 h10
    rw [cardinal_mult hw] at hc
    obtain ⟨c1, c2, c3⟩ := mult_eq_one hc
    rw [empty_mult_wf hw, Bool.and_eq_true, Bool.and_eq_true, ih1 c1, ih2 c2, ih3 c3, h4, h5, den_mult, layer]
    have e : 3 ^ (s.layer + 1) = 3 ^ s.layer + 3 ^ s.layer + 3 ^ s.layer := by rw [Nat.pow_succ]; omega
    constructor
    · rintro ⟨⟨d1, d2⟩, d3⟩
      exact ⟨_, _, _, d1, d2, d3, by rw [List.replicate_append_replicate, List.replicate_append_replicate, e]⟩
    · rintro ⟨u, v, x, d1, d2, d3, he⟩
      have l1 := den_length h1 d1
      have l2 := den_length h2 d2
      have l3 := den_length h3 d3
      have he1 := append_replicate he.symm
      have he2 := append_replicate he1.1
      rw [he2.1, l1] at d1; rw [he2.2, l2, h4] at d2; rw [he1.2, l3, h5] at d3
      exact ⟨⟨d1, d2⟩, d3⟩
  | @add cs h1 h2 h3 h4 h5 h6 h7 ih =>
    have hw : WF (add cs) := .add h1 h2 h3 h4 h5 h6 h7
    obtain ⟨c, rfl, hc'⟩ := cardinal_one_add hw hc
    rw [empty_add_wf hw, den_add]
    simp [layer, ih c (by simp) hc']

/-- Singular scripts: same layer and same word, same normal form. -/
theorem norm_of_word : ∀ (l : Nat) {s t : Script}, WF s → WF t → s.layer = l → t.layer = l → s.cardinal = 1 → t.cardinal = 1 →
    ∀ {w : Word}, Den s w → Den t w → s.norm = t.norm := by
  have unw : ∀ {s : Script}, WF s → s.cardinal = 1 → ∃ s', WF s' ∧ s'.isAdd = false ∧ s'.layer = s.layer ∧ s'.cardinal = 1 ∧
      s'.norm = s.norm ∧ ∀ w, Den s w → Den s' w := by
    intro s hs hc
    cases s with
    | add cs =>
      obtain ⟨c, rfl, hc'⟩ := cardinal_one_add hs hc
      have hn : (add [c]).norm = c.norm := by simp [norm_add, packN]
      cases hs with
      | add h1 h2 h3 h4 =>
        refine ⟨c, h2 c (by simp), h4 c (by simp), rfl, hc', hn.symm, fun w hw => ?_⟩
        simpa [den_add] using hw
    | _ => exact ⟨_, hs, rfl, rfl, hc, rfl, fun w h => h⟩
  intro l
  induction l with
  | zero =>
    intro s t hs ht ls lt cs ct w ds dt
    obtain ⟨s', a1, a2, a3, a4, a5, a6⟩ := unw hs cs
    obtain ⟨t', b1, b2, b3, b4, b5, b6⟩ := unw ht ct
    rw [← a5, ← b5]
    have ds' := a6 w ds
    have dt' := b6 w dt
    rcases layer0_cases (by rw [a3, ls]) a2 with rfl | ⟨p, rfl⟩ <;>
      rcases layer0_cases (by rw [b3, lt]) b2 with rfl | ⟨q, rfl⟩ <;>
      simp only [den_null, den_prim] at ds' dt' <;> rw [ds'] at dt' <;> simp at dt'
    · rw [dt']
  | succ l ih =>
    intro s t hs ht ls lt cs ct w ds dt
    obtain ⟨s', a1, a2, a3, a4, a5, a6⟩ := unw hs cs
    obtain ⟨t', b1, b2, b3, b4, b5, b6⟩ := unw ht ct
    rw [← a5, ← b5]
    have ds' := a6 w ds
    have dt' := b6 w dt
    have le : s'.layer = t'.layer := by rw [a3, b3, ls, lt]
    have hee : s'.empty = t'.empty := by
      have h1 := empty_iff_word a1 a4
      have h2 := empty_iff_word b1 b4
      rw [Bool.eq_iff_iff, h1, h2, le]
      constructor
      · intro h
        have := den_unique a1 a4 h ds'
        rw [this]; exact dt'
      · intro h
        have := den_unique b1 b4 h dt'
        rw [this]; exact ds'
    cases he : s'.empty with
    | true =>
      have n1 := norm_isNull a1; have n2 := norm_isNull b1
      rw [he] at n1; rw [← hee, he] at n2
      have l1 := layer_norm a1; have l2 := layer_norm b1
      cases hn1 : s'.norm <;> simp [hn1, isNull] at n1
      cases hn2 : t'.norm <;> simp [hn2, isNull] at n2
      rw [hn1] at l1; rw [hn2] at l2
      simp only [layer] at l1 l2
      rw [l1, l2, le]
    | false =>
      have he' : t'.empty = false := by rw [← hee, he]
      have lx : s'.layer = l + 1 := by rw [a3, ls]
      have ly : t'.layer = l + 1 := by rw [b3, lt]
      cases a1 with
      | null => simp [empty] at he
      | prim => simp [layer] at lx
      | add => simp [isAdd] at a2
      | @mult x y z h1 h2 h3 h4 h5 h6 h7 h8 h9 h10 =>
        cases b1 with
        | null => simp [empty] at he'
        | prim => simp [layer] at ly
        | add => simp [isAdd] at b2
        | @mult x' y' z' g1 g2 g3 g4 g5 g6 g7 g8 g9 g10 =>
          rw [cardinal_mult (.mult h1 h2 h3 h4 h5 h6 h7 h8 h9 h10)] at a4
          rw [cardinal_mult (.mult g1 g2 g3 g4 g5 g6 g7 g8 g9 g10)] at b4
          obtain ⟨c1, c2, c3⟩ := mult_eq_one a4
          obtain ⟨e1, e2, e3⟩ := mult_eq_one b4
          obtain ⟨u, v, r, d1, d2, d3, rfl⟩ := den_mult.1 ds'
          obtain ⟨u', v', r', f1, f2, f3, hw⟩ := den_mult.1 dt'
          simp only [layer, Nat.add_right_cancel_iff] at lx ly
          obtain ⟨w1, w2, w3⟩ := append3_inj hw (by rw [den_length h1 d1, den_length g1 f1, lx, ly])
            (by rw [den_length h2 d2, den_length g2 f2, h4, g4, lx, ly])
          subst w1; subst w2; subst w3
          rw [norm, norm, he, he']
          simp only [Bool.false_eq_true, if_false]
          rw [ih h1 g1 lx ly c1 e1 d1 f1, ih h2 g2 (by rw [h4, lx]) (by rw [g4, ly]) c2 e2 d2 f2,
            ih h3 g3 (by rw [h5, lx]) (by rw [g5, ly]) c3 e3 d3 f3]

theorem str_of_word {s t : Script} (hs : WF s) (ht : WF t) (cs : s.cardinal = 1) (ct : t.cardinal = 1)
    (hl : s.layer = t.layer) {w : Word} (ds : Den s w) (dt : Den t w) : s.str = t.str :=
  (norm_eq_iff hs ht).1 (norm_of_word t.layer hs ht hl rfl cs ct ds dt)

/-- Singular scripts are those of cardinal one. -/
theorem singular_of_cardinal {s : Script} (h : WF s) (hc : s.cardinal = 1) : Singular s := by
  obtain ⟨w, hw⟩ := den_exists h
  exact ⟨w, hw, fun w' hw' => den_unique h hc hw' hw⟩

theorem den_role {s : Script} (h : WF s) (w : Word) : Den (role s) w ↔ Den s w := by
  have hn : (role s).norm = s.norm := by
    obtain ⟨h1, h2, h3⟩ := unwrap_wf h
    rw [role, fixEmpty]
    split
    · rename_i he
      have n := norm_isNull h1
      have l := layer_norm h1
      rw [he] at n
      rw [← norm_unwrap s]
      cases hn : (unwrap s).norm <;> simp [hn, isNull] at n
      rw [hn] at l
      simp only [layer] at l
      rw [norm, l]
    · exact norm_unwrap s
  rw [← den_norm (role_wf h).1, ← den_norm h, hn]

theorem norm_role {s : Script} (h : WF s) : (role s).norm = s.norm := by
  obtain ⟨h1, h2, h3⟩ := unwrap_wf h
  rw [role, fixEmpty]
  split
  · rename_i he
    have n := norm_isNull h1
    have l := layer_norm h1
    rw [he] at n
    rw [← norm_unwrap s]
    cases hn : (unwrap s).norm <;> simp [hn, isNull] at n
    rw [hn] at l
    simp only [layer] at l
    rw [norm, l]
  · exact norm_unwrap s

theorem cardinal_role {s : Script} (h : WF s) : (role s).cardinal = s.cardinal := by
  rw [← cardinal_norm (role_wf h).1, ← cardinal_norm h, norm_role h]

theorem empty_role {s : Script} (h : WF s) : (role s).empty = s.empty := by
  rw [← empty_norm (role_wf h).1, ← empty_norm h, norm_role h]

theorem str_role {s : Script} (h : WF s) : (role s).str = s.str := by
  rw [← str_norm (role_wf h).1, ← str_norm h, norm_role h]

end Script
end Verif
