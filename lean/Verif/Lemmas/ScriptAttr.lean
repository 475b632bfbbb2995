import Verif.Lemmas.ScriptNorm

/-
Attributes depend on the text only, and closed formulas for `cardinal` and `paradigm`.
-/

namespace Verif
namespace Script

theorem packN_ne {cs : List Script} (h : ∀ c, cs ≠ [c]) : packN cs = add cs := by
  unfold packN
  split
  · exact absurd rfl (h _)
  · rfl

theorem layer_norm {s : Script} (h : WF s) : s.norm.layer = s.layer := by
  induction h with
  | null => rfl
  | prim => rfl
  | @mult s a m _ _ _ _ _ _ _ _ _ _ ih1 =>
    rw [norm]; split
    · rfl
    · simp [layer, ih1]
  | @add cs h1 _ _ _ _ _ _ ih =>
    rw [norm_add]
    rcases cs with _ | ⟨c, _ | ⟨d, ds⟩⟩
    · rfl
    · simp [packN, layer, ih c]
    · simp [packN, layer, ih c]

theorem norm_layer0 {s : Script} (h0 : s.layer = 0) (ha : s.isAdd = false) : s.norm = s := by
  rcases layer0_cases h0 ha with rfl | ⟨p, rfl⟩ <;> simp [norm]

theorem map_id_of {f : Script → Script} : ∀ {cs : List Script}, (∀ c ∈ cs, f c = c) → cs.map f = cs
  | [], _ => rfl
  | c :: cs, h => by
    rw [List.map_cons, h c (by simp), map_id_of fun d hd => h d (List.mem_cons_of_mem _ hd)]

/-- Case analysis for `norm` on sums. -/
theorem norm_add_cases {cs : List Script} (h : WF (add cs)) :
    (∃ c, cs = [c] ∧ (add cs).norm = c.norm) ∨
    ((add cs).norm = add (cs.map norm) ∧ (∀ c, cs ≠ [c]) ∧ remAdd? (cs.map norm) = remAdd? cs) := by
  by_cases hc : ∃ c, cs = [c]
  · obtain ⟨c, rfl⟩ := hc
    left; exact ⟨c, rfl, by simp [norm_add, packN]⟩
  · right
    have hc' : ∀ c, cs ≠ [c] := fun c h => hc ⟨c, h⟩
    refine ⟨?_, hc', ?_⟩
    · rw [norm_add, packN_ne]
      intro c hcc
      rcases cs with _ | ⟨c, _ | ⟨d, ds⟩⟩ <;> simp at hcc
      exact hc' _ rfl
    · cases h with
      | add h1 h2 h3 h4 h5 h6 h7 =>
        by_cases h0 : (add cs).layer = 0
        · rw [map_id_of fun c hc => norm_layer0 (by rw [h3 c hc, h0]) (h4 c hc)]
        · rw [remAdd?_of_layer h0, remAdd?_of_layer]
          cases cs with
          | nil => exact absurd rfl h1
          | cons c cs =>
            simp only [List.map_cons, layer]
            rw [layer_norm (h2 c (by simp))]
            simpa [layer] using h0

theorem str_empty_norm {s : Script} (h : WF s) : s.norm.str = s.str ∧ s.norm.empty = s.empty := by
  induction h with
  | null => simp [norm]
  | prim => simp [norm]
  | @mult s a m h1 h2 h3 h4 h5 h6 h7 h8 h9 h10 ih1 ih2 ih3 =>
    have hw : WF (mult s a m) := .mult h1 h2 h3 h4 h5 h6 h7 h8 h9 h10
    rw [norm]; split
    · rename_i he
      rw [he, empty_str hw rfl he]
      simp [str, empty, layer]
    · rw [str_mult, str_mult, empty_mult, empty_mult]
      simp only [rawMult, ih1.1, ih1.2, ih2.1, ih2.2, ih3.1, ih3.2, layer_norm h1, and_self]
  | @add cs h1 h2 h3 h4 h5 h6 h7 ih =>
    have hw : WF (add cs) := .add h1 h2 h3 h4 h5 h6 h7
    rcases norm_add_cases hw with ⟨c, rfl, hn⟩ | ⟨hn, _, hr⟩
    · rw [hn, (ih c (by simp)).1, (ih c (by simp)).2, str_add, empty_add, remAdd?_single]
      simp [joinPlus]
    · rw [hn, str_add, str_add, empty_add, empty_add, hr]
      have e1 : (cs.map norm).map str = cs.map str := by
        rw [List.map_map]; exact List.map_congr_left fun c hc => (ih c hc).1
      have e2 : (cs.map norm).all empty = cs.all empty := by
        rw [List.all_map, Bool.eq_iff_iff, List.all_eq_true, List.all_eq_true]
        exact forall₂_congr fun c hc => by simp [(ih c hc).2]
      rw [e1, e2]
      exact ⟨rfl, rfl⟩

theorem str_norm {s : Script} (h : WF s) : s.norm.str = s.str := (str_empty_norm h).1
theorem empty_norm {s : Script} (h : WF s) : s.norm.empty = s.empty := (str_empty_norm h).2

theorem norm_eq_iff {s t : Script} (hs : WF s) (ht : WF t) : s.norm = t.norm ↔ s.str = t.str :=
  ⟨fun h => by rw [← str_norm hs, ← str_norm ht, h], norm_eq_of_str hs ht⟩

/-! ### Remarkable products and sums -/

theorem norm_eq_prim {s : Script} {p : Prim} (hp : Plain s) (h : s.norm = prim p) : s = prim p := by
  cases s with
  | null l => simp [norm] at h
  | prim q => simpa [norm] using h
  | mult s a m => rw [norm] at h; split at h <;> cases h
  | add cs =>
    rw [norm_add] at h
    rcases cs with _ | ⟨c, _ | ⟨d, ds⟩⟩
    · simp [packN] at h
    · exact absurd rfl (hp c)
    · simp [packN] at h

theorem norm_eq_null {s : Script} {l : Nat} (hp : Role s) (hs : WF s) (h : s.norm = null l) : s = null l := by
  have : s.empty = true := by rw [← norm_isNull hs, h]; rfl
  obtain ⟨k, rfl⟩ := hp.2 this
  simpa [norm] using h

/-- The only products with an abbreviation are the products of two non-empty primitives. -/
theorem multChar_some {s a m : Script} (h : WF (mult s a m)) {ch : Str} (hc : multChar? s a m = some ch) :
    ∃ p q, s = prim p ∧ a = prim q ∧ m = null 0 ∧ ch = remMulName p q := by
  obtain ⟨p, q, hr, hq⟩ := remMulLookup_some hc
  have hw := h
  cases h with
  | mult h1 h2 h3 h4 h5 h6 h7 h8 h9 h10 =>
    have hl : s.layer = 0 := by
      obtain ⟨b, hb⟩ := str_last h1
      have : mk s.layer ∈ rawMult s a m := by rw [rawMult_eq, hb]; simp
      rw [hr] at this
      simp only [List.mem_cons, List.not_mem_nil, or_false] at this
      have e0 : (':' : Char) = mk 0 := rfl
      have hl := wf_layer h1
      rcases this with h | h | h | h
      · exact absurd h.symm (letter_ne_mk (primChar_letter p) hl)
      · rw [e0] at h; exact mk_inj hl (by omega) h
      · exact absurd h.symm (letter_ne_mk (primChar_letter q) hl)
      · rw [e0] at h; exact mk_inj hl (by omega) h
    have rp : ∀ p, Role (prim p) := fun p => ⟨by simp, by simp [empty]⟩
    have rn : Role (null 0) := ⟨by simp, fun _ => ⟨0, rfl⟩⟩
    have hraw : rawMult (prim p) (prim q) (null 0) = [p.char, ':', q.char, ':'] := by
      simp [rawMult, renderRoles, str, empty, markStr, layerMarks]
    have hw' : WF (mult (prim p) (prim q) (null 0)) := by
      refine .mult .prim .prim (.null (by omega)) rfl rfl (by simp [layer]) (rp p) (rp q) rn ?_
      simp only [cardinal, multChar?, hraw, remMulLookup_pair]
      omega
    have hs : (mult s a m).str = (mult (prim p) (prim q) (null 0)).str := by
      rw [str_mult, str_mult, hr, hraw, hl]; rfl
    have hn := norm_eq_of_str hw hw' hs
    have e1 : (mult s a m).empty = false := by
      rw [empty_mult, hr, remMulLookup_pair]
    have e2 : (mult (prim p) (prim q) (null 0)).empty = false := by
      rw [empty_mult, hraw, remMulLookup_pair]
    rw [norm, norm, e1, e2] at hn
    simp only [Bool.false_eq_true, if_false, mult.injEq] at hn
    refine ⟨p, q, norm_eq_prim h7.1 (by simpa [norm] using hn.1), norm_eq_prim h8.1 (by simpa [norm] using hn.2.1),
      norm_eq_null h9 h3 (by simpa [norm] using hn.2.2), hq⟩

theorem cardinal_mult {s a m : Script} (h : WF (mult s a m)) :
    (mult s a m).cardinal = s.cardinal * a.cardinal * m.cardinal := by
  rw [cardinal]
  split
  · rename_i hc
    obtain ⟨p, q, rfl, rfl, rfl, _⟩ := multChar_some h hc
    simp [cardinal]
  · simp

theorem paradigm_mult {s a m : Script} (h : WF (mult s a m)) :
    (mult s a m).paradigm = (s.paradigm || a.paradigm || m.paradigm) := by
  rw [paradigm]
  split
  · rename_i hc
    obtain ⟨p, q, rfl, rfl, rfl, _⟩ := multChar_some h hc
    simp [paradigm]
  · rfl

theorem remAddChildren_mem {k : RemAdd} : ∀ c ∈ remAddChildren k, c.layer = 0 ∧ c.isAdd = false ∧ c.cardinal = 1 ∧
    c.paradigm = false := by
  cases k <;> simp [remAddChildren, RemAdd.letters, primOfChar?, Prim.all, Prim.char, layer, isAdd, cardinal, paradigm]

/-- A remarkable addition has exactly the children of its table entry. -/
theorem remAdd?_children {cs : List Script} (h : WF (add cs)) {k : RemAdd} (hk : remAdd? cs = some k) :
    cs = remAddChildren k := by
  obtain ⟨h0, hs⟩ := remAdd?_some hk
  cases h with
  | add h1 h2 h3 h4 h5 h6 h7 =>
    refine layer0_list_ext (fun c hc => by rw [h3 c hc, h0]) h4 (fun c hc => (remAddChildren_mem c hc).1)
      (fun c hc => (remAddChildren_mem c hc).2.1) h6 ?_ ?_
    · cases k <;> decide
    · intro c
      rw [sameSet_iff.1 hs c]
      cases k <;> simp [remAddChildren, RemAdd.letters, primOfChar?, Prim.all, Prim.char, letter?]

theorem cardinal_add {cs : List Script} (h : WF (add cs)) : (add cs).cardinal = (cs.map cardinal).sum := by
  rw [cardinal]
  split
  · rename_i k hk
    rw [remAdd?_children h hk]
    cases k <;> decide
  · rw [cardinalL_eq]

theorem paradigm_add {cs : List Script} (h : WF (add cs)) :
    (add cs).paradigm = (decide (cs.length > 1) || cs.any paradigm) := by
  rw [paradigm]
  split
  · rename_i k hk
    rw [remAdd?_children h hk]
    cases k <;> decide
  · rw [paradigmL_eq]

/-! ### Cardinal and paradigm -/

theorem cardinal_pos {s : Script} (h : WF s) : 1 ≤ s.cardinal := by
  induction h with
  | null => simp [cardinal]
  | prim => simp [cardinal]
  | @mult s a m h1 h2 h3 h4 h5 h6 h7 h8 h9 h10 ih1 ih2 ih3 =>
    rw [cardinal_mult (.mult h1 h2 h3 h4 h5 h6 h7 h8 h9 h10)]
    exact Nat.mul_pos (Nat.mul_pos ih1 ih2) ih3
  | @add cs h1 h2 h3 h4 h5 h6 h7 ih =>
    rw [cardinal_add (.add h1 h2 h3 h4 h5 h6 h7)]
    cases cs with
    | nil => exact absurd rfl h1
    | cons c cs => simp only [List.map_cons, List.sum_cons]; have := ih c (by simp); omega

theorem sum_ge_length : ∀ {cs : List Script}, (∀ c ∈ cs, 1 ≤ c.cardinal) → cs.length ≤ (cs.map cardinal).sum
  | [], _ => by simp
  | c :: cs, h => by
    have := h c (by simp)
    have := sum_ge_length fun d hd => h d (List.mem_cons_of_mem _ hd)
    simp; omega

/-- A script is a paradigm exactly when its cardinal is not one. -/
theorem paradigm_iff {s : Script} (h : WF s) : s.paradigm = true ↔ 1 < s.cardinal := by
  induction h with
  | null => simp [paradigm, cardinal]
  | prim => simp [paradigm, cardinal]
  | @mult s a m h1 h2 h3 h4 h5 h6 h7 h8 h9 h10 ih1 ih2 ih3 =>
    have hw : WF (mult s a m) := .mult h1 h2 h3 h4 h5 h6 h7 h8 h9 h10
    rw [cardinal_mult hw, paradigm_mult hw, Bool.or_eq_true, Bool.or_eq_true, ih1, ih2, ih3]
    have p1 := cardinal_pos h1; have p2 := cardinal_pos h2; have p3 := cardinal_pos h3
    generalize s.cardinal = x at *
    generalize a.cardinal = y at *
    generalize m.cardinal = z at *
    constructor
    · rintro ((h | h) | h)
      · exact Nat.lt_of_lt_of_le h (by rw [Nat.mul_assoc]; exact Nat.le_mul_of_pos_right x (Nat.mul_pos p2 p3))
      · exact Nat.lt_of_lt_of_le h (by rw [Nat.mul_comm x y, Nat.mul_assoc]; exact Nat.le_mul_of_pos_right y (Nat.mul_pos p1 p3))
      · exact Nat.lt_of_lt_of_le h (Nat.le_mul_of_pos_left z (Nat.mul_pos p1 p2))
    · intro h
      by_contra hc
      have hx : x = 1 := by omega
      have hy : y = 1 := by omega
      have hz : z = 1 := by omega
      simp [hx, hy, hz] at h
  | @add cs h1 h2 h3 h4 h5 h6 h7 ih =>
    have hw : WF (add cs) := .add h1 h2 h3 h4 h5 h6 h7
    rw [cardinal_add hw, paradigm_add hw]
    rcases cs with _ | ⟨c, _ | ⟨d, ds⟩⟩
    · exact absurd rfl h1
    · simpa using ih c (by simp)
    · have := sum_ge_length fun c hc => cardinal_pos (h2 c hc)
      simp only [List.length_cons, List.map_cons, List.sum_cons] at this ⊢
      simp; omega

theorem paradigm_false_iff {s : Script} (h : WF s) : s.paradigm = false ↔ s.cardinal = 1 := by
  have h1 := paradigm_iff h
  have h2 := cardinal_pos h
  cases hp : s.paradigm <;> simp [hp] at h1 ⊢ <;> omega

/-! ### Invariance of the other attributes -/

theorem cardinal_norm {s : Script} (h : WF s) : s.norm.cardinal = s.cardinal := by
  induction h with
  | null => simp [norm]
  | prim => simp [norm]
  | @mult s a m h1 h2 h3 h4 h5 h6 h7 h8 h9 h10 ih1 ih2 ih3 =>
    have hw : WF (mult s a m) := .mult h1 h2 h3 h4 h5 h6 h7 h8 h9 h10
    rw [norm]; split
    · rename_i he
      rw [empty_mult_wf hw] at he
      simp only [Bool.and_eq_true] at he
      rw [cardinal_mult hw, role_empty h7 he.1.1, role_empty h8 he.1.2, role_empty h9 he.2]
      simp [cardinal]
    · rw [cardinal, cardinal, multChar?, multChar?]
      simp only [rawMult, str_norm h1, str_norm h2, str_norm h3, empty_norm h1, empty_norm h2, empty_norm h3, ih1, ih2, ih3]
  | @add cs h1 h2 h3 h4 h5 h6 h7 ih =>
    have hw : WF (add cs) := .add h1 h2 h3 h4 h5 h6 h7
    rcases norm_add_cases hw with ⟨c, rfl, hn⟩ | ⟨hn, _, hr⟩
    · rw [hn, ih c (by simp), cardinal_add hw]; simp
    · rw [hn, cardinal, cardinal, hr, cardinalL_eq, cardinalL_eq, List.map_map]
      rw [show cs.map (cardinal ∘ norm) = cs.map cardinal from List.map_congr_left fun c hc => ih c hc]

theorem canonical_empty {s : Script} (h : WF s) (ha : s.isAdd = false) (he : s.empty = true) :
    s.canonical = List.replicate (3 ^ s.layer) 1 := by
  have hw := h
  cases h with
  | null => simp [canonical, layer]
  | prim => simp [empty] at he
  | @mult s a m h1 h2 h3 h4 h5 h6 h7 h8 h9 h10 =>
    rw [empty_mult_wf hw] at he
    simp only [Bool.and_eq_true] at he
    rw [role_empty h7 he.1.1, role_empty h8 he.1.2, role_empty h9 he.2, h4, h5]
    simp only [canonical, layer, List.replicate_append_replicate]
    congr 1; rw [Nat.pow_succ]; omega
  | add => simp [isAdd] at ha

theorem canonical_add {cs : List Script} : (add cs).canonical =
    if (add cs).layer = 0 then [cs.foldl (fun v c => v ||| c.charValue) 0] else cs.flatMap canonical := by
  rw [canonical, canonicalL_eq]

theorem canonical_single {c : Script} (hc : c.isAdd = false) : (add [c]).canonical = c.canonical := by
  rw [canonical_add]
  split
  · rename_i h0
    simp only [layer] at h0
    rcases layer0_cases h0 hc with rfl | ⟨p, rfl⟩
    · rfl
    · cases p <;> rfl
  · simp

theorem canonical_norm {s : Script} (h : WF s) : s.norm.canonical = s.canonical := by
  induction h with
  | null => simp [norm]
  | prim => simp [norm]
  | @mult s a m h1 h2 h3 h4 h5 h6 h7 h8 h9 h10 ih1 ih2 ih3 =>
    have hw : WF (mult s a m) := .mult h1 h2 h3 h4 h5 h6 h7 h8 h9 h10
    rw [norm]; split
    · rename_i he
      rw [canonical_empty hw rfl he]; simp [canonical, layer]
    · simp [canonical, ih1, ih2, ih3]
  | @add cs h1 h2 h3 h4 h5 h6 h7 ih =>
    have hw : WF (add cs) := .add h1 h2 h3 h4 h5 h6 h7
    rcases norm_add_cases hw with ⟨c, rfl, hn⟩ | ⟨hn, _, hr⟩
    · rw [hn, ih c (by simp), canonical_single (h4 c (by simp))]
    · rw [hn, canonical_add, canonical_add]
      have hl : (add (cs.map norm)).layer = (add cs).layer := by rw [← hn, layer_norm hw]
      rw [hl]
      split
      · rename_i h0
        rw [map_id_of fun c hc => norm_layer0 (by rw [h3 c hc, h0]) (h4 c hc)]
      · rw [List.flatMap_map]
        rw [List.flatMap_def, List.flatMap_def, List.map_congr_left fun c hc => ih c hc]

theorem paradigm_of_str {s t : Script} (hs : WF s) (ht : WF t) (h : s.str = t.str) : s.paradigm = t.paradigm := by
  have : s.cardinal = t.cardinal := by rw [← cardinal_norm hs, ← cardinal_norm ht, norm_eq_of_str hs ht h]
  rw [Bool.eq_iff_iff, paradigm_iff hs, paradigm_iff ht, this]

theorem cardinal_of_str {s t : Script} (hs : WF s) (ht : WF t) (h : s.str = t.str) : s.cardinal = t.cardinal := by
  rw [← cardinal_norm hs, ← cardinal_norm ht, norm_eq_of_str hs ht h]

theorem empty_of_str {s t : Script} (hs : WF s) (ht : WF t) (h : s.str = t.str) : s.empty = t.empty := by
  rw [← empty_norm hs, ← empty_norm ht, norm_eq_of_str hs ht h]

end Script
end Verif
