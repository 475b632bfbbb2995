import Verif.Lemmas.Factorize

/-
The factored form of a set of words is unique.
-/

namespace Verif
open Script

/-- A singular script, as a role, is determined by its text. -/
theorem norm_singular {x : Script} (h : WF x) (hc : x.cardinal = 1) (hr : Role x) : x.norm = x := by
  induction h with
  | null => simp [norm]
  | prim => simp [norm]
  | @mult s a m h1 h2 h3 h4 h5 h6 r1 r2 r3 h10 ih1 ih2 ih3 =>
    have hne : (mult s a m).empty = false := by
      cases he : (mult s a m).empty with
      | false => rfl
      | true => obtain ⟨l, hl⟩ := hr.2 he; cases hl
    have hcm := cardinal_mult (.mult h1 h2 h3 h4 h5 h6 r1 r2 r3 h10)
    rw [hc] at hcm
    have e := Nat.eq_one_of_mul_eq_one_right hcm.symm
    have e' := Nat.eq_one_of_mul_eq_one_left hcm.symm
    rw [norm, if_neg (by rw [hne]; decide), ih1 (Nat.eq_one_of_mul_eq_one_right e) r1, ih2 (Nat.eq_one_of_mul_eq_one_left e) r2,
      ih3 e' r3]
  | @add cs h1 h2 h3 h4 h5 h6 h7 ih =>
    exfalso
    have hlen := sum_ge_length fun c hc => cardinal_pos (h2 c hc)
    rw [← cardinal_add (.add h1 h2 h3 h4 h5 h6 h7), hc] at hlen
    match cs, h1, hr, hlen with
    | [c], _, hr, _ => exact hr.1 c rfl
    | _ :: _ :: _, _, _, hlen => simp at hlen

/-- The enumeration of a script without repeated sequence and without the empty word depends only on its words. -/
theorem enum_of_words {s t : Script} {L M : List Script} (ps : Plain s) (pt : Plain t) (e : Enum s L) (f : Enum t M)
    (hl : s.layer = t.layer) (hd : ∀ w, Den s w ↔ Den t w) (hne : ∀ w, Den s w → w ≠ List.replicate (3 ^ s.layer) none)
    (hL : (L.map str).Nodup) (hM : (M.map str).Nodup) : L = M := by
  have strict : ∀ {s : Script} {L : List Script}, Plain s → Enum s L → (L.map str).Nodup → L.Pairwise fun a b => lt a b = true := by
    intro s L ps e hL
    have hn : L.Pairwise fun a b => a.str ≠ b.str := List.pairwise_map.1 hL
    refine List.Pairwise.imp_of_mem ?_ (e.sorted.and hn)
    intro a b ha hb h
    rcases lt_total (e.wf a ha) (e.plain ps a ha) (e.wf b hb) (e.plain ps b hb) h.2 with h' | h'
    · exact h'
    · rw [h.1] at h'; cases h'
  have role : ∀ {s : Script} {L : List Script}, Plain s → Enum s L → (∀ w, Den s w → w ≠ List.replicate (3 ^ s.layer) none) →
      ∀ x ∈ L, x.norm = x := by
    intro s L ps e hne x hx
    refine norm_singular (e.wf x hx) (e.one x hx) ⟨e.plain ps x hx, fun he => ?_⟩
    rw [empty_iff_word (e.wf x hx) (e.one x hx), e.layer x hx] at he
    exact absurd rfl (hne _ ((e.den _).2 ⟨x, hx, he⟩))
  have hne' : ∀ w, Den t w → w ≠ List.replicate (3 ^ t.layer) none := fun w hw => hl ▸ hne w ((hd w).2 hw)
  have sub : ∀ {s t : Script} {L M : List Script}, Plain s → Plain t → Enum s L → Enum t M → s.layer = t.layer →
      (∀ w, Den s w → Den t w) → (∀ w, Den s w → w ≠ List.replicate (3 ^ s.layer) none) →
      (∀ w, Den t w → w ≠ List.replicate (3 ^ t.layer) none) → ∀ x ∈ L, x ∈ M := by
    intro s t L M ps pt e f hl hd hne hne' x hx
    obtain ⟨w, hw⟩ := den_exists (e.wf x hx)
    obtain ⟨y, hy, hyw⟩ := (f.den w).1 (hd w ((e.den w).2 ⟨x, hx, hw⟩))
    have hxy : x.norm = y.norm := norm_of_word s.layer (e.wf x hx) (f.wf y hy) (e.layer x hx) ((f.layer y hy).trans hl.symm) (e.one x hx)
      (f.one y hy) hw hyw
    rw [role ps e hne x hx, role pt f hne' y hy] at hxy
    exact hxy ▸ hy
  refine List.Perm.eq_of_pairwise (le := fun a b => lt a b = true) ?_ (strict ps e hL) (strict pt f hM) ?_
  · intro a b ha hb h1 h2
    rw [lt_asymm (e.wf a ha) (e.plain ps a ha) (f.wf b hb) (f.plain pt b hb) h1] at h2
    cases h2
  · rw [List.perm_ext_iff_of_nodup (List.Nodup.of_map _ hL) (List.Nodup.of_map _ hM)]
    exact fun x => ⟨sub ps pt e f hl (fun w => (hd w).1) hne hne' x, sub pt ps f e hl.symm (fun w => (hd w).2) hne' hne x⟩

/-- The sequences of what the factorisation returns are listed once. -/
theorem factorize_once {ord : List Script → List Script} (ho : FactorOrder ord) {s s' : Script} {L : List Script} (hs : WF s)
    (f : factorize ord s = .ok s') (e : Enum s' L) : (L.map str).Nodup := by
  obtain ⟨h1, h2, h3, W, hW, hc⟩ := (factorize_spec ho hs).1 s' f
  exact enum_nodup_of_card h1 e (fun w => (hW w).trans (h3 w).symm) hc

/-- What the factorisation returns for a script without repeated sequence is not a sum of one term. -/
theorem factorize_plain {ord : List Script → List Script} (ho : FactorOrder ord) {s s' : Script} {L : List Script} (hs : WF s) (ps : Plain s)
    (e : Enum s L) (hL : (L.map str).Nodup) (f : factorize ord s = .ok s') : Plain s' := by
  rw [factorize_eq e] at f
  rcases enum_sing e hs with ⟨rfl, h1⟩ | hS
  · rw [factorSequences_one] at f
    cases f
    exact ps
  · have hc : (wordSet L).card ≤ 360 := Nat.le_trans (wordSet_le L) (by rw [e.length]; exact wf_cardinal hs)
    exact ((factorSequences_spec ho (enum_ne_nil hs e) hS hc).1 s' f).2.2.2.2 (.inr (List.pairwise_map.1 hL))

/-- Two scripts without repeated sequence that have the same words are factored alike. -/
theorem factorize_words {ord : List Script → List Script} {s t : Script} {L M : List Script} (ps : Plain s) (pt : Plain t) (e : Enum s L)
    (f : Enum t M) (hl : s.layer = t.layer) (hd : ∀ w, Den s w ↔ Den t w) (hne : ∀ w, Den s w → w ≠ List.replicate (3 ^ s.layer) none)
    (hL : (L.map str).Nodup) (hM : (M.map str).Nodup) : factorize ord s = factorize ord t := by
  unfold factorize
  rw [e.run, f.run, enum_of_words ps pt e f hl hd hne hL hM]

/-- Two factored scripts with the same words have the same text. -/
theorem factored_unique {ord : List Script → List Script} (ho : FactorOrder ord) {s t s' t' : Script} (hs : WF s) (ps : Plain s) (ht : WF t)
    (pt : Plain t) (hl : s.layer = t.layer) (hd : ∀ w, Den s w ↔ Den t w) (hne : ∀ w, Den s w → w ≠ List.replicate (3 ^ s.layer) none)
    (f : factorize ord s = .ok s') (es : s'.str = s.str) (g : factorize ord t = .ok t') (et : t'.str = t.str) : s.str = t.str := by
  have once : ∀ {s s' : Script} {L : List Script}, WF s → factorize ord s = .ok s' → s'.str = s.str → Enum s L → (L.map str).Nodup := by
    intro s s' L hs f es e
    obtain ⟨h1, h2, h3, W, hW, hc⟩ := (factorize_spec ho hs).1 s' f
    exact enum_nodup_of_card hs e (fun w => hW w) (by rw [← cardinal_norm hs, ← norm_eq_of_str h1 hs es, cardinal_norm h1, hc])
  obtain ⟨L, e⟩ := enum_exists hs
  obtain ⟨M, e'⟩ := enum_exists ht
  have h := factorize_words (ord := ord) ps pt e e' hl hd hne (once hs f es e) (once ht g et e')
  rw [f, g, Except.ok.injEq] at h
  rw [← es, ← et, h]

end Verif
