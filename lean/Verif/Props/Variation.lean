import Verif.Model.Variation
import Verif.Props.PolyMorpheme
import Mathlib.Algebra.BigOperators.Group.Finset.Basic
import Mathlib.Data.Nat.Choose.Basic

/-
C92: variations of polymorphemes.
-/

namespace Verif
open Script

/-! ### Combinations -/

theorem length_combs {α : Type} : ∀ (k : Nat) (l : List α), (combs k l).length = l.length.choose k
  | 0, l => by cases l <;> simp [combs]
  | k + 1, [] => by simp [combs]
  | k + 1, x :: xs => by
    rw [combs, List.length_append, List.length_map, length_combs k xs, length_combs (k + 1) xs, List.length_cons, Nat.choose_succ_succ]

theorem nodup_combs {α : Type} : ∀ {k : Nat} {l : List α}, l.Nodup → (combs k l).Nodup
  | 0, l, _ => by cases l <;> simp [combs]
  | k + 1, [], _ => by simp [combs]
  | k + 1, x :: xs, h => by
    rw [List.nodup_cons] at h
    rw [combs, List.nodup_append]
    refine ⟨(nodup_combs h.2).map fun a b e => by simpa using e, nodup_combs h.2, ?_⟩
    rintro a ha b hb rfl
    obtain ⟨c, _, rfl⟩ := List.mem_map.1 ha
    exact h.1 ((mem_combs.1 hb).1.subset (by simp))

theorem combs_map {α β : Type} (f : α → β) : ∀ (k : Nat) (l : List α), (combs k l).map (·.map f) = combs k (l.map f)
  | 0, l => by cases l <;> simp [combs]
  | k + 1, [] => by simp [combs]
  | k + 1, x :: xs => by
    simp only [combs, List.map_append, List.map_map, List.map_cons, ← combs_map f k xs, ← combs_map f (k + 1) xs]
    rfl

/-- The choices of at most `k` elements. -/
def upTo {α : Type} (k : Nat) (l : List α) : List (List α) := (List.range (k + 1)).flatMap fun i => combs i l

theorem mem_upTo {α : Type} {k : Nat} {l c : List α} : c ∈ upTo k l ↔ c.Sublist l ∧ c.length ≤ k := by
  simp only [upTo, List.mem_flatMap, List.mem_range, mem_combs]
  constructor
  · rintro ⟨i, h, h1, h2⟩; exact ⟨h1, by omega⟩
  · rintro ⟨h1, h2⟩; exact ⟨c.length, by omega, h1, rfl⟩

theorem length_upTo {α : Type} (k : Nat) (l : List α) : (upTo k l).length = ∑ i ∈ Finset.range (k + 1), l.length.choose i := by
  rw [upTo, List.length_flatMap]
  simp only [length_combs]
  induction k + 1 with
  | zero => rfl
  | succ n ih => rw [List.range_succ, List.map_append, List.sum_append, ih, Finset.sum_range_succ]; simp

theorem nodup_upTo {α : Type} {k : Nat} {l : List α} (h : l.Nodup) : (upTo k l).Nodup := by
  rw [upTo, List.nodup_flatMap]
  refine ⟨fun i _ => nodup_combs h, List.nodup_range.imp ?_⟩
  intro i j hij c hc hc'
  exact hij ((mem_combs.1 hc).2.symm.trans (mem_combs.1 hc').2)

/-- Two parts of a list without repetition are the same list when they have the same elements. -/
theorem sublist_ext {l a b : List Str} (h : l.Nodup) (ha : a.Sublist l) (hb : b.Sublist l) (e : ∀ x, x ∈ a ↔ x ∈ b) : a = b := by
  have key : ∀ {l a : List Str}, l.Nodup → a.Sublist l → l.filter (fun x => decide (x ∈ a)) = a := by
    intro l a h ha
    induction ha with
    | slnil => rfl
    | @cons a l x ha ih =>
      rw [List.nodup_cons] at h
      rw [List.filter_cons_of_neg (by simpa using fun hx => h.1 (ha.subset hx)), ih h.2]
    | @cons_cons a l x ha ih =>
      rw [List.nodup_cons] at h
      rw [List.filter_cons_of_pos (by simp)]
      congr 1
      conv => rhs; rw [← ih h.2]
      apply List.filter_congr
      intro y hy
      have : y ≠ x := by rintro rfl; exact h.1 hy
      simp [this]
  rw [← key h ha, ← key h hb]
  apply List.filter_congr
  intro x _
  simp [e]

/-! ### The sequences of a variation -/

/-- The sequences as polymorphemes of choices of items. -/
theorem sequences_upTo {items : List Script} (h : items ≠ []) (k : Int) :
    (mkVariation items k).sequences = ((upTo k.toNat (pySort lt items)).map fun r => mkPM r []).map .pm := by
  have hl : (pySort lt items).length ≠ 0 := by
    rw [length_pySort]; exact fun e => h (List.length_eq_zero_iff.1 e)
  have h0 : mkPM [.null 0] [] = mkPM [] [] := by rfl
  show variationSequences (pySort lt items) k = _
  rw [variationSequences, if_neg hl, upTo, List.range_succ_eq_map, List.flatMap_cons, List.flatMap_map]
  simp only [combs, List.map_cons, h0, List.map_map, List.singleton_append]
  rfl

theorem gathers_mkPM {s : List Script} (hw : ∀ x ∈ s, WF x) (hd : s.Pairwise fun x y => x.str ≠ y.str) : Gathers s (mkPM s []) := by
  have h := gathers_seqOf (constants := []) (gs := [s]) (by simpa using hw)
  have e : [s].flatten ++ [] = s := by simp
  rw [seqOf, e, dedupBy_of_pairwise str hd] at h
  exact h

/-- Items of a variation as they are meant: morphemes that can be built, not empty, with different texts. -/
structure Items (items : List Script) : Prop where
  wf : ∀ x ∈ items, WF x
  full : ∀ x ∈ items, x.empty = false
  diff : items.Pairwise fun x y => x.str ≠ y.str

theorem Items.of_perm {l l' : List Script} (h : Items l) (hp : l.Perm l') : Items l' :=
  ⟨fun x hx => h.wf x (hp.mem_iff.2 hx), fun x hx => h.full x (hp.mem_iff.2 hx),
    (hp.pairwise_iff fun {_ _} e => Ne.symm e).1 h.diff⟩

theorem Items.sublist {l s : List Script} (h : Items l) (hs : s.Sublist l) : Items s :=
  ⟨fun x hx => h.wf x (hs.subset hx), fun x hx => h.full x (hs.subset hx), h.diff.sublist hs⟩

theorem Items.nodup {l : List Script} (h : Items l) : (l.map str).Nodup := by
  rw [List.Nodup, List.pairwise_map]; exact h.diff

/-- Different choices have different texts. -/
theorem choice_text {l a b : List Script} (h : Items l) (ha : a.Sublist l) (hb : b.Sublist l)
    (e : (mkPM a []).text = (mkPM b []).text) : a = b := by
  have ia := h.sublist ha
  have ib := h.sublist hb
  have hc := mkPM_texts ia.wf ib.wf e
  have key : ∀ {s : List Script}, Items s → ∀ t, (∃ x, Meant (mkPM s []).constant x ∧ x.str = t) ↔ t ∈ s.map str := by
    intro s hs t
    rw [(gathers_mkPM hs.wf hs.diff).mem, List.mem_map]
    exact ⟨fun ⟨x, hx, ht⟩ => ⟨x, hx.1, ht⟩, fun ⟨x, hx, ht⟩ => ⟨x, ⟨hx, hs.full x hx⟩, ht⟩⟩
  have hwf : ∀ {s : List Script}, Items s → ∀ x ∈ (mkPM s []).constant, WF x := by
    intro s hs x hx
    rcases mkPM_constant s with ⟨h1, _⟩ | ⟨h1, _⟩ <;> rw [h1] at hx
    · rw [List.mem_singleton] at hx; subst hx; exact .null (Nat.zero_le _)
    · rw [mem_pySort] at hx; exact hs.wf x (List.mem_filter.1 hx).1
  have hm : ∀ t, t ∈ a.map str ↔ t ∈ b.map str := by
    intro t
    rw [← key ia, ← key ib]
    have tr : ∀ {p q : List Script}, p.map str = q.map str → (∀ x ∈ p, WF x) → (∀ x ∈ q, WF x) →
        (∃ x, Meant p x ∧ x.str = t) → ∃ x, Meant q x ∧ x.str = t := by
      rintro p q hpq hp hq ⟨x, ⟨hx, he⟩, rfl⟩
      have : x.str ∈ q.map str := by rw [← hpq]; exact List.mem_map.2 ⟨x, hx, rfl⟩
      obtain ⟨y, hy, hyx⟩ := List.mem_map.1 this
      exact ⟨y, ⟨hy, by rw [empty_of_str (hq y hy) (hp x hx) hyx, he]⟩, hyx⟩
    exact ⟨tr hc (hwf ia) (hwf ib), tr hc.symm (hwf ib) (hwf ia)⟩
  have es := sublist_ext h.nodup (ha.map str) (hb.map str) hm
  have inj : ∀ x ∈ l, ∀ y ∈ l, x.str = y.str → x = y := fun x hx y hy => List.inj_on_of_nodup_map h.nodup hx hy
  have hb' : ∀ {a b : List Script}, a.map str = b.map str → (∀ x ∈ a, x ∈ l) → (∀ x ∈ b, x ∈ l) → a = b := by
    intro a
    induction a with
    | nil => intro b h _ _; exact (List.map_eq_nil_iff.1 h.symm).symm
    | cons x a ih =>
      intro b h h1 h2
      cases b with
      | nil => simp at h
      | cons y b =>
        simp only [List.map_cons, List.cons.injEq] at h
        rw [inj x (h1 x (by simp)) y (h2 y (by simp)) h.1, ih h.2 (fun z hz => h1 z (by simp [hz])) fun z hz => h2 z (by simp [hz])]
  exact hb' es (fun x hx => ha.subset hx) fun x hx => hb.subset hx

/-- **C92, number.** The cardinal of a variation of `n` items, with repetitions or not, is the number of choices of at most
`multiplicity` of them. -/
theorem C92_cardinal {items : List Script} (h : items ≠ []) (k : Int) :
    (mkVariation items k).cardinal = ∑ i ∈ Finset.range (k.toNat + 1), items.length.choose i := by
  rw [PMVariation.cardinal, sequences_upTo h, List.length_map, List.length_map, length_upTo, length_pySort]

/-- **C92, sequences.** The sequences of a variation of different items that are not empty are polymorphemes with
different texts: one for every choice of at most `multiplicity` items, made of exactly the chosen ones.  Missing: repeated and
empty items, see `C92_violated_repeated`; no items, see `C92_violated_tuple`. -/
theorem C92_sequences_partial {items : List Script} (h : Items items) (hne : items ≠ []) (k : Int) :
    ∃ L : List PM, (mkVariation items k).sequences = L.map .pm ∧ L.Pairwise (fun p q => p.text ≠ q.text) ∧
      (∀ m ∈ L, ∃ s, s.Subperm items ∧ s.length ≤ k.toNat ∧ Gathers s m) ∧
      ∀ s, s.Subperm items → s.length ≤ k.toNat → ∃ m ∈ L, Gathers s m := by
  have hs := h.of_perm (pySort_perm lt items).symm
  refine ⟨_, sequences_upTo hne k, ?_, ?_, ?_⟩
  · rw [List.pairwise_map]
    have hn : (upTo k.toNat (pySort lt items)).Nodup := nodup_upTo (List.Nodup.of_map str hs.nodup)
    refine hn.imp_of_mem ?_
    intro a b ha hb hab e
    exact hab (choice_text hs (mem_upTo.1 ha).1 (mem_upTo.1 hb).1 e)
  · intro m hm
    obtain ⟨s, hsm, rfl⟩ := List.mem_map.1 hm
    obtain ⟨h1, h2⟩ := mem_upTo.1 hsm
    have := hs.sublist h1
    exact ⟨s, h1.subperm.trans (pySort_perm lt items).subperm, h2, gathers_mkPM this.wf this.diff⟩
  · intro s hsub hlen
    obtain ⟨s', hp, hs'⟩ := hsub.trans (pySort_perm lt items).symm.subperm
    have := hs.sublist hs'
    refine ⟨mkPM s' [], List.mem_map.2 ⟨s', mem_upTo.2 ⟨hs', by rw [hp.length_eq]; exact hlen⟩, rfl⟩, ?_⟩
    have g := gathers_mkPM this.wf this.diff
    refine ⟨g.groups, g.nodup, fun t => ?_⟩
    rw [g.mem]
    simp only [Meant, hp.mem_iff]

/-- The sequences of three items taken two at a time at most. -/
example : Items [.prim .U, .prim .A, .prim .S] ∧
    (mkVariation [.prim .S, .prim .U, .prim .A] 2).sequences.map (fun x => match x with | .pm p => some p.text | .tuple _ => none) =
      [some [], some (c!"U:"), some (c!"A:"), some (c!"S:"), some (c!"U: A:"), some (c!"U: S:"), some (c!"A: S:")] ∧
    (mkVariation [.prim .S, .prim .U, .prim .A] 2).cardinal = 1 + 3 + 3 := by
  refine ⟨⟨fun x hx => ?_, fun x hx => ?_, by decide +kernel⟩, by decide +kernel, by decide +kernel⟩ <;>
    simp only [List.mem_cons, List.not_mem_nil, or_false] at hx <;> rcases hx with rfl | rfl | rfl
  all_goals first | exact .prim | rfl

/-! ### A variation and a polymorpheme with a single group -/

theorem single_groups {items : List Script} (h : Items items) (k : Nat) : (mkPM [] [(items, k)]).groups = [(pySort lt items, k)] ∧
    (mkPM [] [(items, k)]).constant = [.null 0] := by
  have e : filterEmpty items = items := by
    rw [filterEmpty, List.filter_eq_self]
    intro x hx; simp [h.full x hx]
  constructor
  · show pySort ltGroup [(pySort lt (filterEmpty items), k)] = _
    rw [e]; rfl
  · rfl

theorem pySort_text {s : List Script} (h : Items s) : (mkPM (dedupBy str (s ++ [.null 0])) []).text = (mkPM s []).text := by
  have hn : ∀ x ∈ s, x.str ≠ (null 0).str := by
    intro x hx e
    have := empty_of_str (h.wf x hx) (.null (Nat.zero_le _)) e
    rw [h.full x hx] at this; cases this
  rw [dedupBy_of_pairwise str]
  · have : filterEmpty (s ++ [.null 0]) = filterEmpty s := by simp [filterEmpty, Script.empty]
    simp only [mkPM, this]
  · rw [List.pairwise_append]
    exact ⟨h.diff, by simp, fun x hx y hy => by rw [List.mem_singleton] at hy; subst hy; exact hn x hx⟩

theorem length_choice {s : List Script} (h : Items s) : (dedupBy str (s ++ [.null 0])).length = s.length + 1 := by
  rw [dedupBy_of_pairwise str]
  · simp
  · rw [List.pairwise_append]
    refine ⟨h.diff, by simp, fun x hx y hy => ?_⟩
    rw [List.mem_singleton] at hy; subst hy
    intro e
    have := empty_of_str (h.wf x hx) (.null (Nat.zero_le _)) e
    rw [h.full x hx] at this; cases this

/-- **C92, group.** A variation has the same sequences as the polymorpheme whose only group has the same items and the same
multiplicity, as long as at most four of them are taken.  Missing: five or more, see `C92_violated_five`; negative
multiplicities, which the text of a polymorpheme cannot show. -/
theorem C92_group_partial {items : List Script} (h : Items items) (hne : items ≠ []) {k : Nat} (hk : k ≤ 4 ∨ items.length ≤ 4) :
    ∃ L M : List PM, (mkVariation items k).sequences = L.map .pm ∧ (mkPM [] [(items, k)]).singularSequences = .ok M ∧
      (L.map (·.text)).Perm (M.map (·.text)) ∧ (mkPM [] [(items, k)]).cardinal = .ok (mkVariation items k).cardinal := by
  have hs := h.of_perm (pySort_perm lt items).symm
  obtain ⟨eg, ec⟩ := single_groups h k
  set l := pySort lt items with hl
  have hll : l.length = items.length := length_pySort lt items
  obtain ⟨M, m1, m2, m3, m4⟩ := pmSequences_spec [.null 0] [(l, k)]
  have hM : (mkPM [] [(items, k)]).singularSequences = .ok M := by
    rw [PM.singularSequences, eg, ec]; exact m1
  have hml : SmallestSize [(l, k)] l.length := ⟨⟨(l, k), by simp, rfl⟩, by simp⟩
  obtain ⟨c1, c2⟩ := mem_groupCombinations (groups := [(l, k)]) (by simp) hml
  have fwd : ∀ gs ∈ groupCombinations [(l, k)], ∃ s, gs = [s] ∧ s.Sublist l ∧ s.length ≤ k := by
    intro gs hgs
    obtain ⟨q, sels, hsel, hp⟩ := c1 gs hgs
    obtain ⟨s, hs1, rfl⟩ : ∃ s, Takes l.length q s (l, k) ∧ sels = [s] := by
      have := hsel.takes
      cases this with
      | cons a b => cases b; exact ⟨_, a, rfl⟩
    refine ⟨s, List.perm_singleton.1 hp, hs1.sub, ?_⟩
    have := hs1.sub.length_le
    have hq := hsel.mult (l, k) (by simp)
    rcases hs1.size with e | ⟨e, e' | e'⟩ <;> simp only at * <;> omega
  have bwd : ∀ s, s.Sublist l → s.length ≤ k → [s] ∈ groupCombinations [(l, k)] := by
    intro s h1 h2
    obtain ⟨gs, hgs, hp⟩ := c2 s.length [s] ⟨h1.length_le, by simpa using h2, .cons ⟨h1, .inl rfl⟩ .nil⟩
    rwa [List.perm_singleton.1 hp] at hgs
  have fits : ∀ s, s.Sublist l → s.length ≤ k → Fits [.null 0] [s] := by
    intro s h1 h2
    have := length_choice (hs.sublist h1)
    have h3 := h1.length_le
    simp only [Fits, List.flatten_cons, List.flatten_nil, List.append_nil, this, sizeLimit]
    omega
  have text : ∀ s, s.Sublist l → (seqOf [.null 0] [s]).text = (mkPM s []).text := by
    intro s h1
    rw [← pySort_text (hs.sublist h1)]
    simp [seqOf]
  have hperm : (((upTo k l).map fun r => mkPM r []).map (·.text)).Perm (M.map (·.text)) := by
    refine (List.perm_ext_iff_of_nodup ?_ ?_).2 ?_
    · rw [List.map_map, List.Nodup, List.pairwise_map]
      have hn : (upTo k l).Nodup := nodup_upTo (List.Nodup.of_map str hs.nodup)
      refine hn.imp_of_mem ?_
      intro a b ha hb hab e
      exact hab (choice_text hs (mem_upTo.1 ha).1 (mem_upTo.1 hb).1 e)
    · rw [List.Nodup, List.pairwise_map]; exact m2
    · intro t
      simp only [List.mem_map]
      constructor
      · rintro ⟨_, ⟨s, h1, rfl⟩, rfl⟩
        rw [mem_upTo] at h1
        obtain ⟨m, hm, e⟩ := m4 [s] (bwd s h1.1 h1.2) (fits s h1.1 h1.2)
        exact ⟨m, hm, by rw [e, text s h1.1]⟩
      · rintro ⟨m, hm, rfl⟩
        obtain ⟨gs, hgs, _, rfl⟩ := m3 m hm
        obtain ⟨s, rfl, h1, h2⟩ := fwd gs hgs
        exact ⟨_, ⟨s, mem_upTo.2 ⟨h1, h2⟩, rfl⟩, (text s h1).symm⟩
  have hL := sequences_upTo hne (k : Int)
  rw [Int.toNat_natCast] at hL
  refine ⟨_, M, hL, hM, hperm, ?_⟩
  rw [PM.cardinal, hM, PMVariation.cardinal, hL]
  have := hperm.length_eq
  simp only [List.length_map] at this ⊢
  rw [this]
  rfl

/-- Five primitives, all of them allowed: the variation has the sequence of all five, the group has not. -/
theorem C92_violated_five :
    (mkVariation [.prim .U, .prim .A, .prim .S, .prim .B, .prim .T] 5).cardinal = 32 ∧
    (mkPM [] [([.prim .U, .prim .A, .prim .S, .prim .B, .prim .T], 5)]).cardinal = .ok 31 := by
  refine ⟨?_, ?_⟩ <;> decide +kernel

/-- A repeated item: two sequences with the same text, and one that repeats a morpheme. -/
theorem C92_violated_repeated :
    (mkVariation [.prim .U, .prim .U] 2).sequences.map (fun x => match x with | .pm p => some p.text | .tuple _ => none) =
      [some [], some (c!"U:"), some (c!"U:"), some (c!"U: U:")] := by
  decide +kernel

/-- Without items the only sequence is not a polymorpheme, whatever the multiplicity. -/
theorem C92_violated_tuple (items : List Script) (k : Int) :
    (∃ x ∈ (mkVariation items k).sequences, ∃ l, x = .tuple l) ↔ items = [] := by
  constructor
  · rintro ⟨x, hx, l, rfl⟩
    by_contra h
    rw [sequences_upTo h] at hx
    simp at hx
  · rintro rfl
    exact ⟨.tuple [.null 0], by simp [mkVariation, pySort, variationSequences], _, rfl⟩

/-- **C92, violated.** A variation is `empty`, and false as a condition, exactly when it has items, even though it then has a
sequence that is empty and, if the multiplicity is positive, others that are not. -/
theorem C92_violated_empty (items : List Script) (k : Int) :
    ((mkVariation items k).empty = true ↔ items ≠ []) ∧ ((mkVariation items k).truth = true ↔ items = []) := by
  have : (mkVariation items k).items.length = items.length := length_pySort lt items
  simp [PMVariation.truth, PMVariation.empty, this]

/-- **C92, violated.** The paths of the items can be asked for only when there are none. -/
theorem C92_violated_paths (items : List Script) (k : Int) :
    (items = [] → (mkVariation items k).structureByType = .ok []) ∧
    (items ≠ [] → (mkVariation items k).structureByType = .error .typeError) := by
  have hlen : (mkVariation items k).items.length = items.length := length_pySort lt items
  constructor
  · rintro rfl; rfl
  · intro h
    rw [PMVariation.structureByType, PMVariation.structurePath]
    cases hi : (mkVariation items k).items with
    | nil => rw [hi] at hlen; exact absurd (List.length_eq_zero_iff.1 hlen.symm) h
    | cons x xs => rfl

/-! ### The check -/

/-- **C92, check.** The check accepts exactly singular items with a multiplicity below three. -/
theorem C92_check {items : List Script} (hw : ∀ x ∈ items, WF x) (k : Int) :
    (mkVariation items k).check = true ↔ (∀ x ∈ items, Singular x) ∧ k ≤ 2 := by
  have hm : ∀ x, x ∈ (mkVariation items k).items ↔ x ∈ items := fun x => mem_pySort lt
  rw [PMVariation.check, Bool.and_eq_true, List.all_eq_true, decide_eq_true_iff]
  show _ ∧ k < 3 ↔ _
  have : k < 3 ↔ k ≤ 2 := by omega
  rw [this]
  refine and_congr_left fun _ => ⟨fun h x hx => (singular_iff (hw x hx)).2 (by simpa using h x ((hm x).2 hx)), fun h x hx => ?_⟩
  have := (singular_iff (hw x ((hm x).1 hx))).1 (h x ((hm x).1 hx))
  simpa using this

/-- **C92, violated.** The multiplicity three, accepted by the check of polymorphemes, is refused; the multiplicities zero
and minus one are accepted, where the check of polymorphemes refuses zero. -/
theorem C92_violated_check :
    (mkVariation [.prim .U, .prim .A, .prim .S] 3).check = false ∧ (mkPM [] [([.prim .U, .prim .A, .prim .S], 3)]).check = true ∧
    (mkVariation [.prim .U] 0).check = true ∧ (mkVariation [.prim .U] (-1)).check = true ∧ (mkPM [] [([.prim .U], 0)]).check = false := by
  refine ⟨?_, ?_, ?_, ?_, ?_⟩ <;> decide +kernel

/-! ### The order -/

/-- What a variation is made of. -/
def PMVariation.says (v : PMVariation) : List Str × Int := (v.items.map str, v.multiplicity)

/-- The items are orderly and not empty. -/
def TidyItems (items : List Script) : Prop := ∀ x ∈ items, Orderly x ∧ x.empty = false

theorem TidyItems.good {items : List Script} (h : TidyItems items) (k : Int) : ∀ x ∈ (mkVariation items k).items, Good x :=
  fun x hx => (h x ((mem_pySort lt).1 hx)).1.good (h x ((mem_pySort lt).1 hx)).2

theorem variation_lt {v w : PMVariation} (hv : ∀ x ∈ v.items, Good x) (hw : ∀ x ∈ w.items, Good x) :
    (v.lt w = true ↔ KT v.items = KT w.items ∧ v.multiplicity < w.multiplicity ∨ KT v.items ≠ KT w.items ∧ ltBytes (KT v.items) (KT w.items) = true) ∧
    (KT v.items = KT w.items ↔ v.items.map str = w.items.map str) := by
  have h1 := KT_lt (xs := v.items) (ys := w.items) [] [] hv hw
  have h2 := KT_iff (xs := v.items) (ys := w.items) (u := []) (v := []) hv hw
  simp only [List.append_nil, and_true] at h1 h2
  refine ⟨?_, h2⟩
  rw [PMVariation.lt, h1]
  by_cases e : v.items.map str = w.items.map str
  · simp [eqTuple, e, h2.2 e]
  · have e' : KT v.items ≠ KT w.items := fun h => e (h2.1 h)
    simp [eqTuple, e, e']

/-- **C92, order.** `do_lt` is a strict total order on variations of orderly items: exactly one of `v < w`, `w < v` and "same
items, same multiplicity" holds, and it is transitive. -/
theorem C92_order_partial {a b c : List Script} {i j k : Int} (ha : TidyItems a) (hb : TidyItems b) (hc : TidyItems c) :
    ((mkVariation a i).lt (mkVariation b j) = true ↔ (mkVariation b j).lt (mkVariation a i) = false ∧ (mkVariation a i).says ≠ (mkVariation b j).says) ∧
    ((mkVariation a i).lt (mkVariation b j) = true → (mkVariation b j).lt (mkVariation c k) = true → (mkVariation a i).lt (mkVariation c k) = true) := by
  have ga := ha.good i
  have gb := hb.good j
  have gc := hc.good k
  generalize mkVariation a i = u at *
  generalize mkVariation b j = v at *
  generalize mkVariation c k = w at *
  obtain ⟨uv, uv'⟩ := variation_lt ga gb
  obtain ⟨vu, vu'⟩ := variation_lt gb ga
  obtain ⟨vw, _⟩ := variation_lt gb gc
  obtain ⟨uw, _⟩ := variation_lt ga gc
  refine ⟨?_, ?_⟩
  · rw [← Bool.not_eq_true, uv, vu, PMVariation.says, PMVariation.says]
    simp only [ne_eq, Prod.mk.injEq, ← uv']
    by_cases e : KT u.items = KT v.items
    · simp only [e, true_and, ne_eq, not_true_eq_false, false_and, or_false, not_lt]
      omega
    · have e' : KT v.items ≠ KT u.items := Ne.symm e
      simp only [e, e', false_and, ne_eq, not_false_eq_true, true_and, false_or, and_true, Bool.not_eq_true]
      constructor
      · intro h
        cases hh : ltBytes (KT v.items) (KT u.items)
        · rfl
        · rw [← ltBytes_irrefl (KT u.items)]; exact (ltBytes_trans h hh).symm
      · intro h
        rcases ltBytes_total e with h' | h'
        · exact h'
        · rw [h] at h'; cases h'
  · rw [uv, vw, uw]
    rintro (⟨e1, h1⟩ | ⟨e1, h1⟩) (⟨e2, h2⟩ | ⟨e2, h2⟩)
    · exact .inl ⟨e1.trans e2, by omega⟩
    · exact .inr ⟨by rw [e1]; exact e2, by rw [e1]; exact h2⟩
    · exact .inr ⟨by rw [← e2]; exact e1, by rw [← e2]; exact h1⟩
    · have h3 := ltBytes_trans h1 h2
      refine .inr ⟨?_, h3⟩
      intro e
      rw [e, ltBytes_irrefl] at h3; cases h3

/-- **C92, any order.** The order in which orderly items are given does not matter: same items, same sequences in the same
order. -/
theorem C92_any_order_partial {a b : List Script} (ha : TidyItems a) (hb : TidyItems b) (h : (a.map str).Perm (b.map str)) (hne : a ≠ []) (k : Int) :
    (mkVariation a k).says = (mkVariation b k).says ∧
    ∃ L M : List PM, (mkVariation a k).sequences = L.map .pm ∧ (mkVariation b k).sequences = M.map .pm ∧ L.map (·.text) = M.map (·.text) := by
  have hf : ∀ {l : List Script}, TidyItems l → filterEmpty l = l ∧ l.filter (fun x => x.empty = false) = l := by
    intro l hl
    refine ⟨?_, ?_⟩
    · rw [filterEmpty, List.filter_eq_self]; intro x hx; simp [(hl x hx).2]
    · rw [List.filter_eq_self]; intro x hx; simp [(hl x hx).2]
  have hs : (pySort lt a).map str = (pySort lt b).map str := by
    have := sort_rearranged (l := a) (l' := b) (fun x hx => ?_) ?_
    · rwa [(hf ha).1, (hf hb).1] at this
    · rcases List.mem_append.1 hx with hx | hx
      · exact (ha x hx).1
      · exact (hb x hx).1
    · rw [Rearranged, (hf ha).2, (hf hb).2]; exact h
  have hnb : b ≠ [] := by rintro rfl; simp at h; exact hne h
  refine ⟨by rw [PMVariation.says, PMVariation.says]; exact Prod.ext hs rfl, _, _, sequences_upTo hne k, sequences_upTo hnb k, ?_⟩
  have hmap : (upTo k.toNat (pySort lt a)).map (·.map str) = (upTo k.toNat (pySort lt b)).map (·.map str) := by
    simp only [upTo, List.map_flatMap, combs_map, hs]
  have hta : ∀ r ∈ upTo k.toNat (pySort lt a), TidyItems r := fun r hr x hx => ha x ((mem_pySort lt).1 ((mem_upTo.1 hr).1.subset hx))
  have htb : ∀ r ∈ upTo k.toNat (pySort lt b), TidyItems r := fun r hr x hx => hb x ((mem_pySort lt).1 ((mem_upTo.1 hr).1.subset hx))
  revert hmap hta htb
  generalize upTo k.toNat (pySort lt a) = U
  generalize upTo k.toNat (pySort lt b) = V
  intro hmap hta htb
  induction U generalizing V with
  | nil => rw [List.map_nil] at hmap; rw [List.map_eq_nil_iff.1 hmap.symm]
  | cons u U ih =>
    cases V with
    | nil => simp at hmap
    | cons v V =>
      simp only [List.map_cons, List.cons.injEq] at hmap ⊢
      refine ⟨?_, ih V hmap.2 (fun r hr => hta r (by simp [hr])) fun r hr => htb r (by simp [hr])⟩
      have tu := hta u (by simp)
      have tv := htb v (by simp)
      have := sort_rearranged (l := u) (l' := v) (fun x hx => ?_) (by rw [Rearranged, (hf tu).2, (hf tv).2, hmap.1])
      · simp only [mkPM, this, List.map_nil]
      · rcases List.mem_append.1 hx with hx | hx
        · exact (tu x hx).1
        · exact (tv x hx).1

example : TidyItems [.prim .U, .prim .A] ∧ (mkVariation [.prim .A, .prim .U] 1).lt (mkVariation [.prim .U, .prim .A] 2) = true ∧
    (mkVariation [.prim .U] 2).lt (mkVariation [.prim .A] 1) = true ∧ (mkVariation [.prim .A] 1).lt (mkVariation [.prim .U] 2) = false := by
  refine ⟨?_, by decide +kernel, by decide +kernel, by decide +kernel⟩
  intro x hx
  simp only [List.mem_cons, List.not_mem_nil, or_false] at hx
  rcases hx with rfl | rfl <;> exact ⟨⟨built_of (by decide +kernel), .inr ((singular_iff .prim).2 (by decide +kernel))⟩, rfl⟩

end Verif
