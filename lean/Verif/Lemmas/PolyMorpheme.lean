import Verif.Lemmas.OrderSingular
import Verif.Lemmas.OrderedDict
import Verif.Lemmas.ScriptChars
import Verif.Spec.PolyMorpheme
import Mathlib.Data.List.Sublists
import Mathlib.Data.List.Range

/-
Combinations, products and the selections of a polymorpheme.
-/

namespace Verif
open Script

theorem mem_combs {α : Type} : ∀ {k : Nat} {l c : List α}, c ∈ combs k l ↔ c.Sublist l ∧ c.length = k
  | 0, l, c => by
    simp only [combs, List.mem_singleton]
    constructor
    · rintro rfl; simp
    · rintro ⟨_, h⟩; exact List.length_eq_zero_iff.1 h
  | k + 1, [], c => by
    simp only [combs, List.not_mem_nil, false_iff, not_and]
    intro h; rw [List.sublist_nil.1 h]; simp
  | k + 1, x :: xs, c => by
    simp only [combs, List.mem_append, List.mem_map, mem_combs (l := xs)]
    constructor
    · rintro (⟨d, ⟨h1, h2⟩, rfl⟩ | ⟨h1, h2⟩)
      · exact ⟨h1.cons_cons x, by simp [h2]⟩
      · exact ⟨h1.cons x, h2⟩
    · rintro ⟨h1, h2⟩
      cases h1 with
      | cons _ h => exact .inr ⟨h, h2⟩
      | @cons_cons d _ _ h => exact .inl ⟨d, ⟨h, by simpa using h2⟩, rfl⟩

theorem mem_prodL {α : Type} : ∀ {ls : List (List α)} {t : List α}, t ∈ prodL ls ↔ List.Forall₂ (· ∈ ·) t ls
  | [], t => by simp [prodL]
  | l :: ls, t => by
    simp only [prodL, List.mem_flatMap, List.mem_map, mem_prodL (ls := ls)]
    constructor
    · rintro ⟨x, hx, u, hu, rfl⟩; exact .cons hx hu
    · rintro (_ | ⟨hx, hu⟩); exact ⟨_, hx, _, hu, rfl⟩

theorem takeWhile_eq_filter {α : Type} {p : α → Bool} : ∀ {l : List α}, l.Pairwise (fun a b => p b = true → p a = true) →
    l.takeWhile p = l.filter p
  | [], _ => rfl
  | x :: xs, h => by
    obtain ⟨h1, h2⟩ := List.pairwise_cons.1 h
    cases hp : p x
    · rw [List.takeWhile_cons_of_neg (by simp [hp]), List.filter_cons_of_neg (by simp [hp])]
      symm; rw [List.filter_eq_nil_iff]
      intro y hy hpy
      have := h1 y hy hpy
      rw [hp] at this; cases this
    · rw [List.takeWhile_cons_of_pos hp, List.filter_cons_of_pos hp, takeWhile_eq_filter h2]

theorem forall₂_fun {α β : Type} [DecidableEq β] [Inhabited α] {R : α → β → Prop} : ∀ {gs : List α} {L : List β}, L.Nodup → List.Forall₂ R gs L →
    ∃ f : β → α, gs = L.map f ∧ ∀ j ∈ L, R (f j) j
  | [], [], _, _ => ⟨fun _ => default, rfl, by simp⟩
  | g :: gs, j :: L, hn, h => by
    obtain ⟨h1, h2⟩ := List.nodup_cons.1 hn
    cases h with
    | cons hg hr =>
      obtain ⟨f, hf, hR⟩ := forall₂_fun h2 hr
      refine ⟨fun i => if i = j then g else f i, ?_, ?_⟩
      · simp only [List.map_cons, if_true, List.cons.injEq, true_and]
        rw [hf]
        refine List.map_congr_left fun i hi => ?_
        rw [if_neg]; rintro rfl; exact h1 hi
      · intro i hi
        by_cases e : i = j
        · subst e; simpa using hg
        · simp only [e, if_false]
          exact hR i ((List.mem_cons.1 hi).resolve_left e)

theorem minLen_spec {groups : List Group} (h : groups ≠ []) : SmallestSize groups (minLen groups) := by
  cases groups with
  | nil => exact absurd rfl h
  | cons g gs =>
    have key : ∀ (gs : List Group) (m : Nat),
        (gs.foldl (fun m h => min m h.1.length) m = m ∨ ∃ g ∈ gs, g.1.length = gs.foldl (fun m h => min m h.1.length) m) ∧
        gs.foldl (fun m h => min m h.1.length) m ≤ m ∧ ∀ g ∈ gs, gs.foldl (fun m h => min m h.1.length) m ≤ g.1.length := by
      intro gs
      induction gs with
      | nil => intro m; simp
      | cons g gs ih =>
        intro m
        obtain ⟨h1, h2, h3⟩ := ih (min m g.1.length)
        simp only [List.foldl_cons]
        refine ⟨?_, by omega, ?_⟩
        · rcases h1 with h1 | ⟨g', hg', h1⟩
          · rw [h1]
            by_cases hm : m ≤ g.1.length
            · left; omega
            · right; exact ⟨g, by simp, by omega⟩
          · right; exact ⟨g', by simp [hg'], h1⟩
        · intro g' hg'
          rcases List.mem_cons.1 hg' with rfl | hg'
          · omega
          · exact h3 g' hg'
    obtain ⟨h1, h2, h3⟩ := key gs g.1.length
    refine ⟨?_, ?_⟩
    · rcases h1 with h1 | ⟨g', hg', h1⟩
      · exact ⟨g, by simp, by rw [minLen, h1]⟩
      · exact ⟨g', by simp [hg'], h1⟩
    · intro g' hg'
      rcases List.mem_cons.1 hg' with rfl | hg'
      · exact h2
      · exact h3 g' hg'

theorem smallestSize_unique {groups : List Group} {a b : Nat} (ha : SmallestSize groups a) (hb : SmallestSize groups b) : a = b := by
  obtain ⟨⟨g, hg, h1⟩, h2⟩ := ha
  obtain ⟨⟨g', hg', h1'⟩, h2'⟩ := hb
  have := h2 g' hg'
  have := h2' g hg
  omega

theorem split_range {N : Nat} {J : List Nat} (h : J.Sublist (List.range N)) :
    (J ++ (List.range N).filter fun j => !J.contains j).Perm (List.range N) := by
  have hn : J.Nodup := h.nodup List.nodup_range
  rw [List.perm_ext_iff_of_nodup]
  · intro a
    simp only [List.mem_append, List.mem_filter, Bool.not_eq_true', List.contains_eq_mem, decide_eq_false_iff_not]
    constructor
    · rintro (ha | ⟨ha, _⟩)
      · exact h.subset ha
      · exact ha
    · intro ha
      by_cases e : a ∈ J
      · exact .inl e
      · exact .inr ⟨ha, e⟩
  · rw [List.nodup_append]
    refine ⟨hn, List.nodup_range.filter _, ?_⟩
    intro a ha b hb e
    subst e
    have := (List.mem_filter.1 hb).2
    simp [ha] at this
  · exact List.nodup_range

theorem selection_takes {groups : List Group} {R : List Script → Group → Prop} {f : Nat → List Script} :
    List.Forall₂ R ((List.range groups.length).map f) groups ↔ ∀ j (h : j < groups.length), R (f j) groups[j] := by
  rw [List.forall₂_iff_get]
  simp

/-- The selections listed by `iter_groups_combinations` are, up to order, the balanced ones. -/
theorem mem_groupCombinations {groups : List Group} (hne : groups ≠ []) {ml : Nat} (hml : SmallestSize groups ml) :
    (∀ gs ∈ groupCombinations groups, ∃ q sels, Selection groups ml q sels ∧ gs.Perm sels) ∧
    (∀ q sels, Selection groups ml q sels → ∃ gs ∈ groupCombinations groups, gs.Perm sels) := by
  have hmle : minLen groups = ml := smallestSize_unique (minLen_spec hne) hml
  have hN : 0 < groups.length := List.length_pos_iff.2 hne
  have hgetD : ∀ {j} (h : j < groups.length), groups.getD j ([], 0) = groups[j] := by intro j h; simp [h]
  have hcomb : groupCombinations groups = ((List.range (groups.length * (ml + 1))).filter fun i =>
      !groups.any fun g => inMaxSizes ml g (i / groups.length)).flatMap (stage groups) := by
    rw [groupCombinations]
    simp only [hmle]
    rw [takeWhile_eq_filter]
    refine List.pairwise_lt_range.imp_of_mem ?_
    intro a b ha hb hab
    rw [List.mem_range] at hb
    have hb' : b / groups.length < ml + 1 := Nat.div_lt_of_lt_mul hb
    have hab' : a / groups.length ≤ b / groups.length := Nat.div_le_div_right (Nat.le_of_lt hab)
    simp only [Bool.not_eq_true', List.any_eq_false, inMaxSizes, Bool.and_eq_true, decide_eq_true_eq, not_and]
    intro h g hg h1
    have := h g hg
    omega
  have hmem : ∀ gs, gs ∈ groupCombinations groups ↔ ∃ i, i < groups.length * (ml + 1) ∧ (∀ g ∈ groups, i / groups.length ≤ g.2) ∧
      gs ∈ stage groups i := by
    intro gs
    rw [hcomb]
    simp only [List.mem_flatMap, List.mem_filter, List.mem_range, Bool.not_eq_true', List.any_eq_false, inMaxSizes,
      Bool.and_eq_true, decide_eq_true_eq, not_and, and_assoc]
    constructor
    · rintro ⟨i, hi, h1, h2⟩
      have hi' : i / groups.length < ml + 1 := Nat.div_lt_of_lt_mul hi
      exact ⟨i, hi, fun g hg => by have := h1 g hg; omega, h2⟩
    · rintro ⟨i, hi, h1, h2⟩
      exact ⟨i, hi, fun g hg => by have := h1 g hg; omega, h2⟩
  constructor
  · intro gs hgs
    obtain ⟨i, hi, h1, h2⟩ := (hmem gs).1 hgs
    have hi' : i / groups.length < ml + 1 := Nat.div_lt_of_lt_mul hi
    rw [stage] at h2
    simp only [hmle, List.mem_flatMap, mem_combs] at h2
    obtain ⟨J, ⟨hJ, _⟩, h2⟩ := h2
    split at h2
    · cases h2
    · rename_i hm1
      split at h2
      · cases h2
      · rename_i hm2
        simp only [List.any_eq_true, inMaxSizes, Bool.and_eq_true, decide_eq_true_eq, not_exists, not_and] at hm1 hm2
        rw [mem_prodL] at h2
        have hJlt : ∀ j ∈ J, j < groups.length := fun j hj => List.mem_range.1 (hJ.subset hj)
        have e1 : J.map (fun j => combs (i / groups.length + 1) (groups.getD j ([], 0)).1) =
            J.map (fun j => combs (if J.contains j then i / groups.length + 1 else i / groups.length)
              (groups.getD j ([], 0)).1) := List.map_congr_left fun j hj => by simp [hj]
        have e2 : ((List.range groups.length).filter fun j => !J.contains j).map
              (fun j => combs (i / groups.length) (groups.getD j ([], 0)).1) =
            ((List.range groups.length).filter fun j => !J.contains j).map
              (fun j => combs (if J.contains j then i / groups.length + 1 else i / groups.length)
                (groups.getD j ([], 0)).1) := List.map_congr_left fun j hj => by
          have := (List.mem_filter.1 hj).2
          simp only [Bool.not_eq_true'] at this
          simp only [this]; rfl
        rw [e1, e2, ← List.map_append] at h2
        rw [List.forall₂_map_right_iff] at h2
        have hperm := split_range hJ
        obtain ⟨f, rfl, hf⟩ := forall₂_fun (hperm.nodup_iff.2 List.nodup_range) h2
        refine ⟨i / groups.length, (List.range groups.length).map f, ⟨by omega, h1, ?_⟩, hperm.map f⟩
        rw [selection_takes]
        intro j hj
        have := hf j (hperm.mem_iff.2 (List.mem_range.2 hj))
        rw [mem_combs, hgetD hj] at this
        refine ⟨this.1, ?_⟩
        by_cases hjJ : j ∈ J
        · right
          have h3 := hm1 j hjJ
          rw [hgetD hj] at h3
          refine ⟨by simpa [hjJ] using this.2, by omega⟩
        · left; simpa [hjJ] using this.2
  · intro q sels hsel
    have hlen : sels.length = groups.length := hsel.takes.length_eq
    -- a common description of the selections by index
    obtain ⟨f, hf⟩ : ∃ f : Nat → List Script, sels = (List.range groups.length).map f := by
      refine ⟨fun j => sels.getD j [], ?_⟩
      apply List.ext_getElem
      · simp [hlen]
      · intro n h1 h2; simp [h1]
    subst hf
    have ht := selection_takes.1 hsel.takes
    -- it suffices to treat a selection where some group yields exactly `q`
    have main : ∀ q, q ≤ ml → (∀ g ∈ groups, q ≤ g.2) → (∀ j (h : j < groups.length), Takes ml q (f j) groups[j]) →
        (∃ j, j < groups.length ∧ (f j).length = q) → ∃ gs ∈ groupCombinations groups, gs.Perm ((List.range groups.length).map f) := by
      intro q hq hm ht hex
      let J := (List.range groups.length).filter fun j => (f j).length = q + 1
      have hJ : J.Sublist (List.range groups.length) := List.filter_sublist
      have hperm := split_range hJ
      have hr : J.length < groups.length := by
        obtain ⟨j, hj, hjq⟩ := hex
        have h1 : J.length ≤ groups.length := by simpa using hJ.length_le
        rcases Nat.lt_or_ge J.length groups.length with h | h
        · exact h
        · have : J = List.range groups.length := hJ.eq_of_length (by simp; omega)
          have : j ∈ J := by rw [this]; simpa using hj
          have := (List.mem_filter.1 this).2
          simp at this; omega
      have hq1 : (groups.length * q + J.length) / groups.length = q := by
        rw [Nat.mul_add_div hN, Nat.div_eq_of_lt hr]; rfl
      have hr1 : (groups.length * q + J.length) % groups.length = J.length := by
        rw [Nat.mul_add_mod, Nat.mod_eq_of_lt hr]
      refine ⟨(J ++ (List.range groups.length).filter fun j => !J.contains j).map f, ?_, hperm.map f⟩
      rw [hmem]
      refine ⟨groups.length * q + J.length, ?_, by rw [hq1]; exact hm, ?_⟩
      · have : groups.length * q ≤ groups.length * ml := Nat.mul_le_mul_left _ hq
        rw [Nat.mul_add]; omega
      · rw [stage]
        simp only [hmle, hq1, hr1, List.mem_flatMap]
        refine ⟨J, mem_combs.2 ⟨hJ, rfl⟩, ?_⟩
        have hJmem : ∀ j, j ∈ J ↔ j < groups.length ∧ (f j).length = q + 1 := by intro j; simp [J]
        rw [if_neg, if_neg]
        · rw [mem_prodL, List.map_append]
          refine List.rel_append ?_ ?_
          · rw [List.forall₂_map_left_iff, List.forall₂_map_right_iff, List.forall₂_same]
            intro j hj
            obtain ⟨hj1, hj2⟩ := (hJmem j).1 hj
            rw [mem_combs, hgetD hj1]
            exact ⟨(ht j hj1).sub, hj2⟩
          · rw [List.forall₂_map_left_iff, List.forall₂_map_right_iff, List.forall₂_same]
            intro j hj
            simp only [List.mem_filter, List.mem_range, Bool.not_eq_true', List.contains_eq_mem, decide_eq_false_iff_not] at hj
            obtain ⟨hj1, hj2⟩ := hj
            rw [mem_combs, hgetD hj1]
            refine ⟨(ht j hj1).sub, ?_⟩
            rcases (ht j hj1).size with h | ⟨h, _⟩
            · exact h
            · exact absurd ((hJmem j).2 ⟨hj1, h⟩) hj2
        · simp only [List.any_eq_true, decide_eq_true_eq, not_exists, not_and]
          intro j hj
          obtain ⟨hj1, hj2⟩ := (hJmem j).1 hj
          rw [hgetD hj1]
          have := (ht j hj1).sub.length_le
          omega
        · simp only [List.any_eq_true, inMaxSizes, Bool.and_eq_true, decide_eq_true_eq, not_exists, not_and]
          intro j hj
          obtain ⟨hj1, hj2⟩ := (hJmem j).1 hj
          rw [hgetD hj1]
          rcases (ht j hj1).size with h | ⟨h, h'⟩ <;> omega
    by_cases hex : ∃ j, j < groups.length ∧ (f j).length = q
    · exact main q hsel.small hsel.mult ht hex
    · -- every group yields `q + 1`
      have hall : ∀ j (h : j < groups.length), (f j).length = q + 1 ∧ (q + 1 ≤ groups[j].2 ∨ q = ml) := by
        intro j hj
        rcases (ht j hj).size with h | h
        · exact absurd ⟨j, hj, h⟩ hex
        · exact h
      have hq1 : q + 1 ≤ ml := by
        obtain ⟨⟨g, hg, hgl⟩, _⟩ := hml
        obtain ⟨j, hj, rfl⟩ := List.getElem_of_mem hg
        have := (ht j hj).sub.length_le
        have := (hall j hj).1
        omega
      have hm1 : ∀ j (h : j < groups.length), q + 1 ≤ groups[j].2 := fun j hj => by
        rcases (hall j hj).2 with h | h <;> omega
      refine main (q + 1) hq1 ?_ ?_ ⟨0, hN, (hall 0 hN).1⟩
      · intro g hg
        obtain ⟨j, hj, rfl⟩ := List.getElem_of_mem hg
        exact hm1 j hj
      · intro j hj
        exact ⟨(ht j hj).sub, .inl (hall j hj).1⟩

end Verif

namespace Verif
open Script

/-! ### The loop filling `traits` -/

/-- The sequence of a selection, when its size is accepted. -/
def seqOf (constants : List Script) (gs : List (List Script)) : PM := mkPM (dedupBy str (gs.flatten ++ constants)) []

/-- The size of a selection is accepted. -/
def Fits (constants : List Script) (gs : List (List Script)) : Prop :=
  (dedupBy str (gs.flatten ++ constants)).length ≠ 0 ∧ (dedupBy str (gs.flatten ++ constants)).length ≤ sizeLimit

theorem traitStep_eq (constants : List Script) (d : OD Str PM) (gs : List (List Script)) :
    (Fits constants gs → traitStep constants d gs =
      .ok ((d.filter fun p => p.1 ≠ (seqOf constants gs).text) ++ [((seqOf constants gs).text, seqOf constants gs)])) ∧
    (¬ Fits constants gs → traitStep constants d gs = .ok d) := by
  unfold traitStep Fits
  constructor
  · rintro ⟨h1, h2⟩
    have h2' : ¬ (dedupBy str (gs.flatten ++ constants)).length > sizeLimit := by omega
    simp only [h1, h2', or_self, if_false]
    rw [OD.set_eq]; rfl
  · intro h
    rw [if_pos]
    omega

theorem traits_loop (constants : List Script) : ∀ (L : List (List (List Script))) (d : OD Str PM),
    (∀ e ∈ d, e.1 = e.2.text) → d.Pairwise (fun a b => a.1 ≠ b.1) →
    ∃ d', L.foldlM (traitStep constants) d = .ok d' ∧ (∀ e ∈ d', e.1 = e.2.text) ∧ d'.Pairwise (fun a b => a.1 ≠ b.1) ∧
      (∀ e ∈ d', e ∈ d ∨ ∃ gs ∈ L, Fits constants gs ∧ e.2 = seqOf constants gs) ∧
      (∀ e ∈ d, ∃ e' ∈ d', e'.1 = e.1) ∧ (∀ gs ∈ L, Fits constants gs → ∃ e ∈ d', e.1 = (seqOf constants gs).text)
  | [], d, h1, h2 => ⟨d, rfl, h1, h2, fun e he => .inl he, fun e he => ⟨e, he, rfl⟩, by simp⟩
  | gs :: L, d, h1, h2 => by
    rw [List.foldlM_cons]
    by_cases hf : Fits constants gs
    · rw [(traitStep_eq constants d gs).1 hf]
      obtain ⟨d', e1, e2, e3, e4, e5, e6⟩ := traits_loop constants L
        ((d.filter fun p => p.1 ≠ (seqOf constants gs).text) ++ [((seqOf constants gs).text, seqOf constants gs)])
        (by
          intro e he
          rcases List.mem_append.1 he with he | he
          · exact h1 e (List.mem_filter.1 he).1
          · simp only [List.mem_singleton] at he; subst he; rfl)
        (by
          rw [List.pairwise_append]
          refine ⟨h2.filter _, by simp, ?_⟩
          intro a ha b hb
          simp only [List.mem_singleton] at hb
          subst hb
          simpa using (List.mem_filter.1 ha).2)
      refine ⟨d', e1, e2, e3, ?_, ?_, ?_⟩
      · intro e he
        rcases e4 e he with he | ⟨g, hg, hh⟩
        · rcases List.mem_append.1 he with he | he
          · exact .inl (List.mem_filter.1 he).1
          · simp only [List.mem_singleton] at he; subst he
            exact .inr ⟨gs, by simp, hf, rfl⟩
        · exact .inr ⟨g, by simp [hg], hh⟩
      · intro e he
        by_cases hk : e.1 = (seqOf constants gs).text
        · obtain ⟨e', he', hk'⟩ := e5 ((seqOf constants gs).text, seqOf constants gs) (by simp)
          exact ⟨e', he', hk'.trans hk.symm⟩
        · exact e5 e (List.mem_append_left _ (List.mem_filter.2 ⟨he, by simpa using hk⟩))
      · intro g hg hfg
        rcases List.mem_cons.1 hg with rfl | hg
        · exact e5 ((seqOf constants g).text, seqOf constants g) (by simp)
        · exact e6 g hg hfg
    · rw [(traitStep_eq constants d gs).2 hf]
      obtain ⟨d', e1, e2, e3, e4, e5, e6⟩ := traits_loop constants L d h1 h2
      refine ⟨d', e1, e2, e3, ?_, e5, ?_⟩
      · intro e he
        rcases e4 e he with he | ⟨g, hg, hh⟩
        · exact .inl he
        · exact .inr ⟨g, by simp [hg], hh⟩
      · intro g hg hfg
        rcases List.mem_cons.1 hg with rfl | hg
        · exact absurd hfg hf
        · exact e6 g hg hfg

theorem pmSequences_spec (constants : List Script) (groups : List Group) :
    ∃ L, pmSequences constants groups = .ok L ∧ L.Pairwise (fun a b => a.text ≠ b.text) ∧
      (∀ m ∈ L, ∃ gs ∈ groupCombinations groups, Fits constants gs ∧ m = seqOf constants gs) ∧
      (∀ gs ∈ groupCombinations groups, Fits constants gs → ∃ m ∈ L, m.text = (seqOf constants gs).text) := by
  obtain ⟨d', e1, e2, e3, e4, e5, e6⟩ := traits_loop constants (groupCombinations groups) [] (by simp) (by simp)
  refine ⟨d'.map (·.2), ?_, ?_, ?_, ?_⟩
  · rw [pmSequences, e1]; rfl
  · rw [List.pairwise_map]
    refine e3.imp_of_mem ?_
    intro a b ha hb hab
    rw [← e2 a ha, ← e2 b hb]; exact hab
  · intro m hm
    obtain ⟨e, he, rfl⟩ := List.mem_map.1 hm
    rcases e4 e he with h | h
    · simp at h
    · exact h
  · intro gs hgs hf
    obtain ⟨e, he, hk⟩ := e6 gs hgs hf
    exact ⟨e.2, List.mem_map.2 ⟨e, he, rfl⟩, by rw [← e2 e he, hk]⟩

theorem length_dedupBy_str (l : List Script) : (dedupBy str l).length = distinct l := by
  have h1 : ((dedupBy str l).map str).Nodup := by
    rw [List.Nodup, List.pairwise_map]; exact dedupBy_pairwise str l
  rw [distinct, ← List.length_map (f := str), ← List.toFinset_card_of_nodup h1]
  congr 1
  ext t
  simp only [List.mem_toFinset, List.mem_map]
  constructor
  · rintro ⟨x, hx, rfl⟩; exact ⟨x, mem_dedupBy str hx, rfl⟩
  · rintro ⟨x, hx, rfl⟩
    obtain ⟨y, hy, hyx⟩ := dedupBy_complete str hx
    exact ⟨y, hy, hyx⟩

theorem distinct_perm {a b c : List Script} (h : a.Perm b) : distinct (a ++ c) = distinct (b ++ c) := by
  have : ((a ++ c).map str).Perm ((b ++ c).map str) := (h.append_right c).map str
  rw [distinct, distinct, List.toFinset_eq_of_perm _ _ this]

/-- What the sequence of a selection is made of.  Here `E:` has to be the only empty morpheme, which holds for built scripts
up to text. -/
theorem mkPM_constant (cs : List Script) : (mkPM cs []).constant = [.null 0] ∧ filterEmpty cs = [] ∨
    (mkPM cs []).constant = pySort lt (filterEmpty cs) ∧ filterEmpty cs ≠ [] := by
  have hl := length_pySort lt (filterEmpty cs)
  by_cases h : filterEmpty cs = []
  · left; simp [mkPM, h, pySort]
  · right
    refine ⟨?_, h⟩
    have : pySort lt (filterEmpty cs) ≠ [] := by
      intro h'; rw [h'] at hl; exact h (List.length_eq_zero_iff.1 hl.symm)
    simp [mkPM, this]

theorem gathers_seqOf {constants : List Script} {gs : List (List Script)}
    (hw : ∀ x ∈ gs.flatten ++ constants, WF x) : Gathers (gs.flatten ++ constants) (seqOf constants gs) := by
  have hmem : ∀ t, (∃ x, Meant (dedupBy str (gs.flatten ++ constants)) x ∧ x.str = t) ↔
      ∃ x, Meant (gs.flatten ++ constants) x ∧ x.str = t := by
    intro t
    constructor
    · rintro ⟨x, ⟨hx, he⟩, rfl⟩; exact ⟨x, ⟨mem_dedupBy str hx, he⟩, rfl⟩
    · rintro ⟨x, ⟨hx, he⟩, rfl⟩
      obtain ⟨y, hy, hyx⟩ := dedupBy_complete str hx
      exact ⟨y, ⟨hy, by rw [empty_of_str (hw y (mem_dedupBy str hy)) (hw x hx) hyx, he]⟩, hyx⟩
  have hfil : ∀ l x, x ∈ filterEmpty l ↔ Meant l x := by intro l x; simp [filterEmpty, Meant]
  refine ⟨by simp [seqOf, mkPM, pySort], ?_, ?_⟩
  · rcases mkPM_constant (dedupBy str (gs.flatten ++ constants)) with ⟨h, _⟩ | ⟨h, _⟩
    · rw [seqOf, h]; simp
    · rw [seqOf, h, (pySort_perm lt _).pairwise_iff (fun {_ _} h => Ne.symm h)]
      exact (dedupBy_pairwise str _).filter _
  · intro t
    rw [← hmem]
    rcases mkPM_constant (dedupBy str (gs.flatten ++ constants)) with ⟨h, h'⟩ | ⟨h, h'⟩
    · rw [seqOf, h]
      constructor
      · rintro ⟨x, ⟨hx, he⟩, _⟩
        simp only [List.mem_singleton] at hx
        subst hx; simp [Script.empty] at he
      · rintro ⟨x, hx, _⟩
        rw [← hfil, h'] at hx; cases hx
    · rw [seqOf, h]
      constructor
      · rintro ⟨x, ⟨hx, he⟩, rfl⟩
        rw [mem_pySort, hfil] at hx
        exact ⟨x, hx, rfl⟩
      · rintro ⟨x, hx, rfl⟩
        exact ⟨x, ⟨by rw [mem_pySort, hfil]; exact hx, hx.2⟩, rfl⟩

theorem mkPM_texts {a b : List Script} (ha : ∀ x ∈ a, WF x) (hb : ∀ x ∈ b, WF x) (h : (mkPM a []).text = (mkPM b []).text) :
    (mkPM a []).constant.map str = (mkPM b []).constant.map str := by
  have hs : ∀ {l : List Script}, (∀ x ∈ l, WF x) → ∀ t ∈ (pySort lt (filterEmpty l)).map str, t ≠ [] ∧ ' ' ∉ t := by
    intro l hl t ht
    obtain ⟨x, hx, rfl⟩ := List.mem_map.1 ht
    rw [mem_pySort] at hx
    have := hl x (List.mem_filter.1 hx).1
    exact ⟨str_ne_nil this, space_not_mem this⟩
  have he : (pySort lt (filterEmpty a)).map str = (pySort lt (filterEmpty b)).map str := by
    refine joinSpace_inj (hs ha) (hs hb) ?_
    simpa [mkPM, pySort] using h
  have hl := congrArg List.length he
  simp only [List.length_map, length_pySort] at hl
  rcases mkPM_constant a with ⟨h1, h2⟩ | ⟨h1, h2⟩ <;> rcases mkPM_constant b with ⟨h3, h4⟩ | ⟨h3, h4⟩
  · rw [h1, h3]
  · exact absurd (List.length_eq_zero_iff.1 (by rw [← hl, h2]; rfl)) h4
  · exact absurd (List.length_eq_zero_iff.1 (by rw [hl, h4]; rfl)) h2
  · rw [h1, h3, he]

theorem Gathers.congr {ls : List Script} {m m' : PM} (h : Gathers ls m) (hg : m'.groups = [])
    (hc : m'.constant.map str = m.constant.map str) (hw : ∀ x ∈ m.constant, WF x) (hw' : ∀ x ∈ m'.constant, WF x) : Gathers ls m' := by
  refine ⟨hg, ?_, fun t => ?_⟩
  · have := h.nodup
    rw [← List.pairwise_map] at this ⊢
    rwa [hc]
  · rw [← h.mem]
    have key : ∀ {a b : List Script}, a.map str = b.map str → (∀ x ∈ a, WF x) → (∀ x ∈ b, WF x) →
        (∃ x, Meant a x ∧ x.str = t) → ∃ x, Meant b x ∧ x.str = t := by
      rintro a b hab ha hb ⟨x, ⟨hx, he⟩, rfl⟩
      have : x.str ∈ b.map str := by rw [← hab]; exact List.mem_map.2 ⟨x, hx, rfl⟩
      obtain ⟨y, hy, hyx⟩ := List.mem_map.1 this
      exact ⟨y, ⟨hy, by rw [empty_of_str (hb y hy) (ha x hx) hyx, he]⟩, hyx⟩
    exact ⟨key hc hw' hw, key hc.symm hw hw'⟩

end Verif
