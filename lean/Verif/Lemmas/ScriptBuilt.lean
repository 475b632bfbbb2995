import Verif.Lemmas.PySort

/-
Everything the constructors return is well-formed.
-/

namespace Verif
namespace Script

/-! ### Products -/

theorem unwrap_wf {s : Script} (h : WF s) : WF (unwrap s) ∧ Plain (unwrap s) ∧ (unwrap s).layer = s.layer := by
  unfold unwrap
  split
  · rename_i c
    cases h with
    | add h1 h2 h3 h4 h5 h6 h7 =>
      exact ⟨h2 c (by simp), plain_of_not_isAdd (h4 c (by simp)), by simp [layer]⟩
  · rename_i hn
    exact ⟨h, fun c hc => hn c hc, rfl⟩

theorem norm_unwrap (s : Script) : (unwrap s).norm = s.norm := by
  unfold unwrap
  split
  · simp [norm_add, packN]
  · rfl

theorem str_unwrap (s : Script) : (unwrap s).str = s.str := by
  unfold unwrap
  split
  · rw [str_add, remAdd?_single]; simp [joinPlus]
  · rfl

theorem unwrap_plain {s : Script} (h : Plain s) : unwrap s = s := by
  unfold unwrap
  split
  · exact absurd rfl (h _)
  · rfl

theorem fixEmpty_wf {s : Script} (h : WF s) (hp : Plain s) :
    WF (fixEmpty s) ∧ Role (fixEmpty s) ∧ (fixEmpty s).layer = s.layer := by
  unfold fixEmpty
  split
  · exact ⟨.null (wf_layer h), ⟨by simp, fun _ => ⟨_, rfl⟩⟩, rfl⟩
  · rename_i he
    exact ⟨h, ⟨hp, fun h' => absurd h' he⟩, rfl⟩

theorem role_null (l : Nat) : Role (null l) := ⟨by simp, fun _ => ⟨l, rfl⟩⟩
theorem role_prim (p : Prim) : Role (prim p) := ⟨by simp, by simp [empty]⟩

/-- A role as the product constructor stores it. -/
def role (s : Script) : Script := fixEmpty (unwrap s)

theorem role_wf {s : Script} (h : WF s) : WF (role s) ∧ Role (role s) ∧ (role s).layer = s.layer := by
  obtain ⟨h1, h2, h3⟩ := unwrap_wf h
  obtain ⟨h4, h5, h6⟩ := fixEmpty_wf h1 h2
  exact ⟨h4, h5, by rw [role, h6, h3]⟩

theorem mem_takeSome {c : Script} : ∀ {cs : List (Option Script)}, c ∈ takeSome cs → some c ∈ cs
  | [], h => by simp [takeSome] at h
  | none :: cs, h => by simp [takeSome] at h
  | some d :: cs, h => by
    simp only [takeSome, List.mem_cons] at h
    rcases h with rfl | h
    · simp
    · exact List.mem_cons_of_mem _ (mem_takeSome h)

/-- What a successful product construction checked. -/
theorem mkMult_ok {children : List (Option Script)} {t : Script} (h : mkMult children = .ok t) :
    ∃ c rest s a m, takeSome children = c :: rest ∧ t = mult s a m ∧
      padRoles c.layer ((c :: rest).map role) = [s, a, m] ∧ a.layer = s.layer ∧ m.layer = s.layer ∧
      (mult s a m).cardinal ≤ 360 ∧ s.layer ≤ 5 := by
  unfold mkMult at h
  split at h
  · cases h
  · split at h
    · cases h
    · rename_i c rest hts
      simp only [] at h
      split at h
      · rename_i s a m hp
        split at h
        · cases h
        · rename_i h1
          split at h
          · cases h
          · split at h
            · cases h
            · rename_i h3
              split at h
              · rename_i h4
                simp only [Except.ok.injEq] at h
                simp only [Bool.not_eq_true', decide_eq_false_iff_not, not_not] at h1
                simp only [layerMarks, List.length_cons, List.length_nil] at h4
                simp only [maxSingularSequences] at h3
                refine ⟨c, rest, s, a, m, hts, h.symm, ?_, h1.1.symm, by rw [← h1.2, h1.1], by omega, by omega⟩
                rw [← hp]
                rw [List.map_map]; rfl
              · cases h
      · cases h

theorem padRoles_wf {l : Nat} (hl : l ≤ 6) {cs : List Script} (h : ∀ c ∈ cs, WF c) :
    ∀ x ∈ padRoles l (cs.map role), WF x ∧ Role x := by
  intro x hx
  simp only [padRoles, List.mem_append, List.mem_map] at hx
  rcases hx with ⟨c, hc, rfl⟩ | hx
  · exact ⟨(role_wf (h c hc)).1, (role_wf (h c hc)).2.1⟩
  · rw [List.eq_of_mem_replicate hx]
    exact ⟨.null hl, role_null l⟩

theorem mkMult_wf {children : List (Option Script)} {t : Script} (hc : ∀ c, some c ∈ children → WF c)
    (h : mkMult children = .ok t) : WF t := by
  obtain ⟨c, rest, s, a, m, h1, rfl, h3, h4, h5, h6, h7⟩ := mkMult_ok h
  have hw : ∀ d ∈ c :: rest, WF d := fun d hd => hc d (mem_takeSome (by rw [h1]; exact hd))
  have := padRoles_wf (wf_layer (hw c (by simp))) hw
  rw [h3] at this
  obtain ⟨a1, a2⟩ := this s (by simp)
  obtain ⟨b1, b2⟩ := this a (by simp)
  obtain ⟨c1, c2⟩ := this m (by simp)
  exact .mult a1 b1 c1 h4 h5 h7 a2 b2 c2 h6

/-- The raw text of a remarkable product. -/
theorem rawMult_prims (p q : Prim) : rawMult (prim p) (prim q) (null 0) = [p.char, ':', q.char, ':'] := by
  simp [rawMult, renderRoles, str, empty, markStr, layerMarks]

theorem wf_remMul (p q : Prim) : WF (mult (prim p) (prim q) (null 0)) := by
  refine .mult .prim .prim (.null (by omega)) rfl rfl (by simp [layer]) (role_prim p) (role_prim q) (role_null 0) ?_
  simp only [cardinal, multChar?, rawMult_prims, remMulLookup_pair]
  omega

theorem mkMultChar_ok {ch : Str} {s : Script} (h : mkMultChar ch = .ok s) :
    (∃ p, s = prim p) ∨ ∃ p q, s = mult (prim p) (prim q) (null 0) := by
  unfold mkMultChar at h
  split at h
  · cases h
  · split at h
    · cases h
    · split at h
      · split at h
        · cases h; exact .inl ⟨_, rfl⟩
        · split at h
          · cases h; exact .inr ⟨_, _, rfl⟩
          · cases h
      · split at h
        · cases h; exact .inr ⟨_, _, rfl⟩
        · cases h

theorem mkMultChar_wf {ch : Str} {s : Script} (h : mkMultChar ch = .ok s) : WF s := by
  rcases mkMultChar_ok h with ⟨p, rfl⟩ | ⟨p, q, rfl⟩
  · exact .prim
  · exact wf_remMul p q

/-! ### Sums -/

theorem mem_sumTerms {cs : List Script} (hw : ∀ c ∈ cs, WF c) {c : Script} (h : c ∈ sumTerms cs) :
    c.isAdd = false ∧ (c ∈ cs ∨ ∃ ds, add ds ∈ cs ∧ c ∈ ds) := by
  have h := mem_dedupBy str h
  simp only [List.mem_filter, List.mem_append, List.mem_flatMap] at h
  obtain ⟨h1, h2⟩ := h
  rcases h1 with h1 | ⟨d, hd, h1⟩
  · refine ⟨?_, .inl h1⟩
    cases hc : c.isAdd
    · rfl
    · simp only [Bool.not_eq_true', List.any_eq_false, List.mem_filter] at h2
      exact absurd (by simp [pyEq]) (h2 c ⟨h1, hc⟩)
  · obtain ⟨hd1, hd2⟩ := hd
    cases d with
    | add ds =>
      have := hw _ hd1
      cases this with
      | add g1 g2 g3 g4 g5 g6 g7 => exact ⟨g4 c h1, .inr ⟨ds, hd1, h1⟩⟩
    | null => simp [isAdd] at hd2
    | prim => simp [isAdd] at hd2
    | mult => simp [isAdd] at hd2

theorem sumTerms_wf {cs : List Script} (hw : ∀ c ∈ cs, WF c) {l : Nat} (hl : ∀ c ∈ cs, c.layer = l) :
    ∀ c ∈ sumTerms cs, WF c ∧ c.isAdd = false ∧ c.layer = l := by
  intro c hc
  obtain ⟨h1, h2⟩ := mem_sumTerms hw hc
  rcases h2 with h2 | ⟨ds, h2, h3⟩
  · exact ⟨hw c h2, h1, hl c h2⟩
  · have h4 := hw _ h2
    have h5 := hl _ h2
    cases h4 with
    | add g1 g2 g3 g4 g5 g6 g7 => exact ⟨g2 c h3, h1, by rw [g3 c h3, h5]⟩

theorem layer_add_of {cs : List Script} (h : cs ≠ []) {l : Nat} (hl : ∀ c ∈ cs, c.layer = l) : (add cs).layer = l := by
  cases cs with
  | nil => exact absurd rfl h
  | cons c cs => simpa [layer] using hl c (by simp)

theorem sameSet_congr {a a' b : List Char} (h : ∀ c, c ∈ a ↔ c ∈ a') : sameSet a b = sameSet a' b := by
  rw [Bool.eq_iff_iff, sameSet_iff, sameSet_iff]
  exact ⟨fun h' c => (h c).symm.trans (h' c), fun h' c => (h c).trans (h' c)⟩

theorem remAdd?_perm {cs ds : List Script} (hp : cs.Perm ds) {l : Nat} (hl : ∀ c ∈ cs, c.layer = l) :
    remAdd? cs = remAdd? ds := by
  by_cases h : cs = []
  · subst h
    rw [List.nil_perm.1 hp]
  · have h' : ds ≠ [] := fun h' => h (by subst h'; simpa using hp)
    have l1 := layer_add_of h hl
    have l2 := layer_add_of h' (fun c hc => hl c (hp.mem_iff.2 hc))
    rw [remAdd?, remAdd?, l1, l2]
    have : (fun k : RemAdd => sameSet (cs.filterMap letter?) k.letters) =
        fun k : RemAdd => sameSet (ds.filterMap letter?) k.letters := by
      funext k
      exact sameSet_congr fun c => (hp.filterMap letter?).mem_iff
    rw [this]

theorem sum_perm {a b : List Nat} (h : a.Perm b) : a.sum = b.sum := by
  induction h with
  | nil => rfl
  | cons x _ ih => simp [ih]
  | swap x y l => simp; omega
  | trans _ _ h1 h2 => rw [h1, h2]

theorem maxSS_eq : maxSingularSequences = 360 := rfl
theorem marks_length : layerMarks.length = 7 := rfl

theorem cardinal_perm {cs ds : List Script} (hp : cs.Perm ds) {l : Nat} (hl : ∀ c ∈ cs, c.layer = l) :
    (add cs).cardinal = (add ds).cardinal := by
  rw [cardinal, cardinal, remAdd?_perm hp hl, cardinalL_eq, cardinalL_eq, sum_perm (hp.map cardinal)]

theorem add_wf_of_terms {ts : List Script} (h : ts ≠ []) {l : Nat}
    (ht : ∀ c ∈ ts, WF c ∧ c.isAdd = false ∧ c.layer = l) (hd : ts.Pairwise (fun a b => a.str ≠ b.str))
    (hc : (add ts).cardinal ≤ 360) : WF (add (pySort lt ts)) := by
  have hp := pySort_perm lt ts
  have hm : ∀ c ∈ pySort lt ts, WF c ∧ c.isAdd = false ∧ c.layer = l := fun c hc => ht c (hp.mem_iff.1 hc)
  have hne : pySort lt ts ≠ [] := fun h' => h (by rw [h'] at hp; simpa using hp)
  have hl := layer_add_of hne (fun c hc => (hm c hc).2.2)
  obtain ⟨s1, s2⟩ := sortScripts_strict (fun c hc => ⟨(ht c hc).1, plain_of_not_isAdd (ht c hc).2.1⟩) hd
  refine .add hne (fun c hc => (hm c hc).1) (fun c hc => by rw [hl, (hm c hc).2.2]) (fun c hc => (hm c hc).2.1) s2 s1 ?_
  rw [cardinal_perm hp (fun c hc => (hm c hc).2.2)]
  exact hc

/-- What a successful sum construction checked. -/
theorem mkAdd_ok {cs : List Script} {t : Script} (h : mkAdd cs = .ok t) :
    ∃ l, cs ≠ [] ∧ (∀ c ∈ cs, c.layer = l) ∧ sumTerms cs ≠ [] ∧ (add (sumTerms cs)).cardinal ≤ 360 ∧
      t = add (pySort lt (sumTerms cs)) := by
  unfold mkAdd at h
  split at h
  · cases h
  · rename_i c cs
    split at h
    · cases h
    · rename_i hl
      split at h
      · cases h
      · rename_i t ts hts
        split at h
        · cases h
        · rename_i hc
          simp only [Except.ok.injEq] at h
          refine ⟨c.layer, by simp, ?_, by rw [hts]; simp, ?_, ?_⟩
          · intro d hd
            simp only [Bool.not_eq_true, List.any_eq_false, decide_eq_true_eq, not_not] at hl
            simpa using hl d hd
          · rw [hts]; simp only [maxSingularSequences] at hc; omega
          · rw [hts, h]

theorem mkAdd_wf {cs : List Script} {t : Script} (hw : ∀ c ∈ cs, WF c) (h : mkAdd cs = .ok t) : WF t := by
  obtain ⟨l, h1, h2, h3, h4, rfl⟩ := mkAdd_ok h
  exact add_wf_of_terms h3 (sumTerms_wf hw h2) (dedupBy_pairwise str _) h4

theorem remAddChildren_wf (k : RemAdd) : ∀ c ∈ remAddChildren k, WF c := by
  intro c hc
  obtain ⟨h1, h2, _⟩ := remAddChildren_mem c hc
  rcases layer0_cases h1 h2 with rfl | ⟨p, rfl⟩
  · exact .null (by omega)
  · exact .prim

theorem built_wf {s : Script} (h : Built s) : WF s := by
  induction h with
  | @null l s h =>
    unfold mkNull at h
    split at h
    · rename_i hl
      cases h
      simp only [layerMarks, List.length_cons, List.length_nil] at hl
      exact .null (by omega)
    · cases h
  | multChar h => exact mkMultChar_wf h
  | mult _ h ih => exact mkMult_wf ih h
  | @addChar ch s h =>
    unfold mkAddChar at h
    split at h
    · split at h
      · exact mkAdd_wf (remAddChildren_wf _) h
      · cases h
    · cases h
  | add _ h ih => exact mkAdd_wf ih h

/-! ### Conversely every well-formed script can be built -/

theorem padRoles_three (l : Nat) (s a m : Script) : padRoles l [s, a, m] = [s, a, m] := by simp [padRoles]

theorem role_of_role {s : Script} (h : Role s) : role s = s := by
  rw [role, unwrap_plain h.1, fixEmpty]
  split
  · rename_i he; rw [← role_empty h he]
  · rfl

theorem multChar_layer {s a m : Script} (h1 : WF s) {ch : Str} (hc : multChar? s a m = some ch) : s.layer = 0 := by
  obtain ⟨p, q, hr, hq⟩ := remMulLookup_some hc
  obtain ⟨b, hb⟩ := str_last h1
  have : mk s.layer ∈ rawMult s a m := by rw [rawMult_eq, hb]; simp
  rw [hr] at this
  simp only [List.mem_cons, List.not_mem_nil, or_false] at this
  have e0 : (':' : Char) = mk 0 := rfl
  have hl := wf_layer h1
  rcases this with h | h | h | h
  · exact absurd h.symm (letter_ne_mk (primChar_letter p) hl)
  · rw [e0] at h; exact mk_inj hl (by omega) h
  · exact absurd h.symm (letter_ne_mk (primChar_letter q) hl)
  · rw [e0] at h; exact mk_inj hl (by omega) h

/-- Evaluation of the product constructor on three well-formed scripts. -/
theorem mkMult_three {s a m : Script} (hs : WF s) (ha : WF a) (hm : WF m) :
    mkMult [some s, some a, some m] =
      if ¬ (a.layer = s.layer ∧ m.layer = s.layer) then .error .invalidScript
      else if (mult (role s) (role a) (role m)).cardinal > 360 then .error .tooMany
      else if s.layer ≤ 5 then .ok (mult (role s) (role a) (role m))
      else .error .indexError := by
  have e : ((([s, a, m] : List Script).map unwrap).map fixEmpty) = [role s, role a, role m] := rfl
  rw [mkMult, if_neg (by simp)]
  simp only [takeSome, e, padRoles_three]
  rw [(role_wf hs).2.2, (role_wf ha).2.2, (role_wf hm).2.2]
  by_cases h : a.layer = s.layer ∧ m.layer = s.layer
  · have h' : s.layer = a.layer ∧ a.layer = m.layer := ⟨h.1.symm, by rw [h.1, h.2]⟩
    have h2 : ¬ ((multChar? (role s) (role a) (role m)).isSome = true ∧ s.layer ≠ 0) := by
      rintro ⟨h3, h4⟩
      obtain ⟨ch, hch⟩ := Option.isSome_iff_exists.1 h3
      have := multChar_layer (role_wf hs).1 hch
      rw [(role_wf hs).2.2] at this
      exact h4 this
    rw [if_neg (by simp [h']), if_neg h2, if_neg (not_not.2 h)]
    rw [maxSS_eq, marks_length]
    by_cases h5 : s.layer ≤ 5
    · rw [if_pos (show s.layer + 1 < 7 by omega), if_pos h5]
    · rw [if_neg (show ¬ s.layer + 1 < 7 by omega), if_neg h5]
  · have h' : ¬ (s.layer = a.layer ∧ a.layer = m.layer) := by
      rintro ⟨e1, e2⟩; exact h ⟨e1.symm, by rw [← e2, ← e1]⟩
    rw [if_pos (by rw [Bool.not_eq_true', decide_eq_false_iff_not]; exact h'), if_pos h]

theorem mkMult_self {s a m : Script} (h : WF (mult s a m)) : mkMult [some s, some a, some m] = .ok (mult s a m) := by
  cases h with
  | mult h1 h2 h3 h4 h5 h6 h7 h8 h9 h10 =>
    rw [mkMult_three h1 h2 h3, role_of_role h7, role_of_role h8, role_of_role h9, if_neg (by simp [h4, h5]),
      if_neg (by omega), if_pos h6]

theorem sumTerms_plain {cs : List Script} (h : ∀ c ∈ cs, c.isAdd = false) (hd : cs.Pairwise (fun a b => a.str ≠ b.str)) :
    sumTerms cs = cs := by
  have : cs.filter isAdd = [] := List.filter_eq_nil_iff.2 fun c hc => by simp [h c hc]
  simp only [sumTerms, this, List.flatMap_nil, List.append_nil, List.any_nil, Bool.not_false]
  rw [show cs.filter (fun _ => true) = cs from List.filter_eq_self.2 (by simp)]
  exact dedupBy_of_pairwise str hd

theorem mkAdd_self {cs : List Script} (h : WF (add cs)) : mkAdd cs = .ok (add cs) := by
  cases h with
  | add h1 h2 h3 h4 h5 h6 h7 =>
    have hs : pySort lt cs = cs := by
      refine pySort_of_sorted lt (h6.imp_of_mem ?_)
      intro a b ha hb hab
      exact lt_asymm (h2 a ha) (plain_of_not_isAdd (h4 a ha)) (h2 b hb) (plain_of_not_isAdd (h4 b hb)) hab
    have ht := sumTerms_plain h4 h5
    cases cs with
    | nil => exact absurd rfl h1
    | cons c cs =>
      rw [mkAdd, if_neg, ht]
      · show (if (add (c :: cs)).cardinal > maxSingularSequences then _ else _) = _
        rw [maxSS_eq, if_neg (by omega), hs]
      · simp only [Bool.not_eq_true, List.any_eq_false, decide_eq_true_eq, not_not]
        intro d hd
        rw [h3 d hd, h3 c (by simp)]

theorem mkMultChar_prim (p : Prim) : mkMultChar [p.char] = .ok (prim p) := by cases p <;> rfl

theorem wf_built {s : Script} (h : WF s) : Built s := by
  induction h with
  | @null l hl => exact .null (l := l) (by simp [mkNull, layerMarks]; omega)
  | @prim p => exact .multChar (mkMultChar_prim p)
  | @mult s a m h1 h2 h3 h4 h5 h6 h7 h8 h9 h10 ih1 ih2 ih3 =>
    refine .mult (cs := [some s, some a, some m]) ?_ (mkMult_self (.mult h1 h2 h3 h4 h5 h6 h7 h8 h9 h10))
    intro c hc
    simp only [List.mem_cons, Option.some.injEq, List.not_mem_nil, or_false] at hc
    rcases hc with rfl | rfl | rfl <;> assumption
  | add h1 h2 h3 h4 h5 h6 h7 ih => exact .add ih (mkAdd_self (.add h1 h2 h3 h4 h5 h6 h7))

theorem built_iff_wf {s : Script} : Built s ↔ WF s := ⟨built_wf, wf_built⟩

end Script
end Verif
