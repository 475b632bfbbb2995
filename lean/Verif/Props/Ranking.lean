import Verif.Lemmas.Ranking

/-
C109: the ranking of words from a word.
-/

namespace Verif

variable {T : Type} [DecidableEq T]

/-- The terms of a word. -/
def RootWord.terms (w : RootWord T) : List T := w.root ++ w.flexing

/-- **C109: class B is that of the words that share a term.** -/
theorem C109_shared (w0 w : RootWord T) : countId w0 w = 0 ↔ ∀ t ∈ w0.terms, t ∉ w.terms := by
  unfold countId RootWord.terms
  rw [mostOf_zero]
  simp only [Finset.card_eq_zero, Finset.union_eq_empty, ← Finset.disjoint_iff_inter_eq_empty, Finset.disjoint_left, List.mem_toFinset, List.mem_append]
  constructor
  · rintro ⟨h1, h2, h3, h4⟩ t ht hw
    rcases ht with ht | ht <;> rcases hw with hw | hw
    · exact h1 ht hw
    · exact h3 ht hw
    · exact h4 hw ht
    · exact h2 ht hw
  · intro h
    exact ⟨fun t h1 h2 => h t (.inl h1) (.inl h2), fun t h1 h2 => h t (.inr h1) (.inr h2), fun t h1 h2 => h t (.inl h1) (.inr h2),
      fun t h1 h2 => h t (.inr h2) (.inl h1)⟩

/-- **C109: class C is that of the words with a term related to a term of the word.** -/
theorem C109_related (related : T → List T) (w0 w : RootWord T) : countRelations related w0 w = 0 ↔ ∀ s ∈ w0.terms, ∀ t ∈ related s, t ∉ w.terms := by
  unfold countRelations RootWord.terms
  rw [mostOf_zero]
  simp only [Finset.card_eq_zero, Finset.union_eq_empty, ← Finset.disjoint_iff_inter_eq_empty, Finset.disjoint_left, List.mem_toFinset, List.mem_append,
    List.mem_flatMap, forall_exists_index, and_imp]
  constructor
  · rintro ⟨h1, h2, h3, h4⟩ s hs t ht hw
    rcases hs with hs | hs <;> rcases hw with hw | hw
    · exact h1 s hs ht hw
    · exact h3 s hs ht hw
    · exact h4 s hs ht hw
    · exact h2 s hs ht hw
  · intro h
    exact ⟨fun t s h1 h2 h3 => h s (.inl h1) t h2 (.inl h3), fun t s h1 h2 h3 => h s (.inr h1) t h2 (.inr h3),
      fun t s h1 h2 h3 => h s (.inl h1) t h2 (.inr h3), fun t s h1 h2 h3 => h s (.inr h1) t h2 (.inl h3)⟩

/-- Both are one term, and the terms are opposed. -/
def OneOpposed (opposed : T → T → Bool) (m0 m1 : List T) : Prop := ∃ a b, m0 = [a] ∧ m1 = [b] ∧ opposed a b = true

/-- The word is associated, opposed or crossed with `w0` (class A). -/
def Near (opposed : T → T → Bool) (w0 w : RootWord T) : Prop :=
  w0.root = w.root ∨ (w0.root = w.flexing ∧ w0.flexing = w.root) ∨ (OneOpposed opposed w0.root w.root ∧ OneOpposed opposed w0.flexing w.flexing)

theorem mOpposed_iff {opposed : T → T → Bool} {m0 m1 : List T} : mOpposed opposed m0 m1 = true ↔ OneOpposed opposed m0 m1 := by
  unfold mOpposed OneOpposed
  split
  · simp
  · rename_i h
    constructor
    · simp
    · rintro ⟨a, b, rfl, rfl, _⟩
      exact absurd rfl (h a b rfl)

/-- **C109: every word has a mark, of the first class it belongs to.**  The classes are in turn: A, the word is associated, opposed or crossed;
B, it shares a term; C, it has a related term; D, its root is its flexing; E, all the others. -/
theorem C109_mark (opposed : T → T → Bool) (related : T → List T) (w0 w : RootWord T) : ∃ k, getMark opposed related w0 w = .ok k ∧
    (k.head? = some 'A' ↔ Near opposed w0 w) ∧
    (k.head? = some 'B' ↔ ¬ Near opposed w0 w ∧ ∃ t ∈ w0.terms, t ∈ w.terms) ∧
    (k.head? = some 'C' ↔ ¬ Near opposed w0 w ∧ (∀ t ∈ w0.terms, t ∉ w.terms) ∧ ∃ s ∈ w0.terms, ∃ t ∈ related s, t ∈ w.terms) ∧
    (k = c!"D0" ↔ ¬ Near opposed w0 w ∧ (∀ t ∈ w0.terms, t ∉ w.terms) ∧ (∀ s ∈ w0.terms, ∀ t ∈ related s, t ∉ w.terms) ∧ w.root = w.flexing) ∧
    (k = c!"E" ↔ ¬ Near opposed w0 w ∧ (∀ t ∈ w0.terms, t ∉ w.terms) ∧ (∀ s ∈ w0.terms, ∀ t ∈ related s, t ∉ w.terms) ∧ w.root ≠ w.flexing) ∧
    (k = c!"A0" ↔ w0.root = w.root) := by
  have hB : (∃ t ∈ w0.terms, t ∈ w.terms) ↔ countId w0 w ≠ 0 := by
    rw [Ne, C109_shared]
    push Not
    rfl
  have hC : (∃ s ∈ w0.terms, ∃ t ∈ related s, t ∈ w.terms) ↔ countRelations related w0 w ≠ 0 := by
    rw [Ne, C109_related]
    push Not
    rfl
  rw [hB, hC, ← C109_shared, ← C109_related]
  unfold Near getMark
  rw [← mOpposed_iff, ← mOpposed_iff]
  by_cases h1 : w0.root = w.root
  · rw [if_pos h1]
    exact ⟨_, rfl, by simp [h1], by simp [h1], by simp [h1], by simp [h1], by simp [h1], by simp [h1]⟩
  rw [if_neg h1]
  by_cases h2 : w0.root = w.flexing ∧ w0.flexing = w.root
  · rw [if_pos h2]
    exact ⟨_, rfl, by simp [h2], by simp [h2], by simp [h2], by simp [h2], by simp [h2], by simp [h1]⟩
  rw [if_neg h2]
  by_cases h3 : (mOpposed opposed w0.root w.root && mOpposed opposed w0.flexing w.flexing) = true
  · rw [if_pos h3]
    rw [Bool.and_eq_true] at h3
    exact ⟨_, rfl, by simp [h3], by simp [h3], by simp [h3], by simp [h3], by simp [h3], by simp [h1]⟩
  rw [if_neg h3]
  rw [Bool.and_eq_true] at h3
  have hn : ¬ (w0.root = w.root ∨ (w0.root = w.flexing ∧ w0.flexing = w.root) ∨ mOpposed opposed w0.root w.root = true ∧ mOpposed opposed w0.flexing w.flexing = true) := by
    rintro (h | h | h)
    · exact h1 h
    · exact h2 h
    · exact h3 h
  by_cases h4 : countId w0 w ≠ 0
  · rw [if_pos h4]
    obtain ⟨c, hc⟩ := subKlass_ok h4 (mostOf_le _ _ _)
    rw [hc]
    exact ⟨_, rfl, by simp [hn], by simp [hn, h4], by simp [h4], by simp [h4], by simp [h4], by simp [h1]⟩
  rw [if_neg h4]
  rw [not_not] at h4
  by_cases h5 : countRelations related w0 w ≠ 0
  · rw [if_pos h5]
    obtain ⟨c, hc⟩ := subKlass_ok h5 (mostOf_le _ _ _)
    rw [hc]
    exact ⟨_, rfl, by simp [hn], by simp [h4], by simp [hn, h4, h5], by simp [h5], by simp [h5], by simp [h1]⟩
  rw [if_neg h5]
  rw [not_not] at h5
  by_cases h6 : w.root = w.flexing
  · rw [if_pos h6]
    refine ⟨_, rfl, by simp [hn], by simp [h4], by simp [h5], ?_, by simp [h6], by simp [h1]⟩
    exact iff_of_true rfl ⟨hn, h4, h5, h6⟩
  · rw [if_neg h6]
    refine ⟨_, rfl, by simp [hn], by simp [h4], by simp [h5], by simp [h6], ?_, by simp [h1]⟩
    exact iff_of_true rfl ⟨hn, h4, h5, h6⟩

/-- The terms are numbers, a number is opposed to the next one and related to its double. -/
def demoOpposed (a b : Nat) : Bool := b == a + 1
@[inherit_doc demoOpposed] def demoRelated (a : Nat) : List Nat := [2 * a]

example : [⟨[1], [5]⟩, ⟨[3], [1]⟩, ⟨[2], [4]⟩, ⟨[7], [1, 3]⟩, ⟨[7], [6]⟩, ⟨[8], [8]⟩, ⟨[8], [9]⟩].map (getMark demoOpposed demoRelated ⟨[1], [3]⟩) =
    [c!"A0", c!"A1", c!"A2", c!"B1", c!"C1", c!"D0", c!"E"].map Except.ok := by decide

/-- **C109: the second character is that of the larger number of shared terms**: in the roots, in the flexings, or between root and flexing; of equal
numbers the first one. -/
theorem C109_sub {opposed : T → T → Bool} {related : T → List T} {w0 w : RootWord T} {c : Char} (h : getMark opposed related w0 w = .ok ['B', c]) :
    let r := (w0.root.toFinset ∩ w.root.toFinset).card
    let f := (w0.flexing.toFinset ∩ w.flexing.toFinset).card
    let x := (w0.root.toFinset ∩ w.flexing.toFinset ∪ w.root.toFinset ∩ w0.flexing.toFinset).card
    (c = '0' ↔ f ≤ r ∧ x ≤ r) ∧ (c = '1' ↔ r < f ∧ x ≤ f) ∧ (c = '2' ↔ r < x ∧ f < x) := by
  intro r f x
  unfold getMark at h
  split at h
  · cases h
  split at h
  · cases h
  split at h
  · cases h
  split at h
  · rename_i hne
    have e : countId w0 w = mostOf r f x := rfl
    rw [e] at h hne
    generalize r = r, f = f, x = x at *
    unfold mostOf at h hne
    by_cases h0 : r = 0 ∧ f = 0 ∧ x = 0
    · rw [if_pos h0] at hne
      exact absurd rfl hne
    rw [if_neg h0] at h
    by_cases h1 : f ≤ r ∧ x ≤ r
    · rw [if_pos h1] at h
      cases h
      refine ⟨by simp [h1], ?_, ?_⟩ <;> simp <;> omega
    rw [if_neg h1] at h
    by_cases h2 : x ≤ f
    · rw [if_pos h2] at h
      cases h
      refine ⟨by simp; omega, ?_, ?_⟩ <;> simp <;> omega
    · rw [if_neg h2] at h
      cases h
      refine ⟨by simp; omega, ?_, ?_⟩ <;> simp <;> omega
  · split at h
    · obtain ⟨c', hc⟩ := subKlass_ok (n := countRelations related w0 w) (by assumption) (mostOf_le _ _ _)
      rw [hc] at h
      cases h
    · split at h <;> cases h

example : getMark demoOpposed demoRelated ⟨[1, 2], [3]⟩ ⟨[2, 5], [1, 3]⟩ = .ok ['B', '0'] := by decide

/-- **C109: the groups of the ranking.**  The marks of the groups increase; a mark has a group exactly when a word of the list has it; and the group of
a mark is the sublist of the words that have it. -/
theorem C109_groups (opposed : T → T → Bool) (related : T → List T) (w0 : RootWord T) (l : List (RootWord T)) : ∃ res,
    orderWordList opposed related w0 l = .ok res ∧ (res.map (·.1)).Pairwise (fun a b => ltBytes (a.map Char.toNat) (b.map Char.toNat) = true) ∧
    (∀ k, k ∈ res.map (·.1) ↔ ∃ w ∈ l, getMark opposed related w0 w = .ok k) ∧
    ∀ g ∈ res, g.2 = l.filter fun w => (getMark opposed related w0 w).toOption = some g.1 := by
  let mark : RootWord T → Str := fun w => ((getMark opposed related w0 w).toOption).getD []
  have hmark : ∀ w, getMark opposed related w0 w = .ok (mark w) := by
    intro w
    obtain ⟨k, hk, _⟩ := C109_mark opposed related w0 w
    simp [mark, hk, Except.toOption]
  have hmap : ∀ l : List (RootWord T), (l.mapM fun w => do
      let k ← getMark opposed related w0 w
      return (w, k)) = .ok (l.map fun w => (w, mark w)) := by
    intro l
    induction l with
    | nil => rfl
    | cons w l ih =>
      rw [List.mapM_cons, ih, hmark w]
      rfl
  let S := pySort (fun a b : RootWord T × Str => ltBytes (a.2.map Char.toNat) (b.2.map Char.toNat)) (l.map fun w => (w, mark w))
  have hsort : S.Pairwise fun a b => ltMark b.2 a.2 = false := by
    refine pySort_weak (lt := fun a b : RootWord T × Str => ltMark a.2 b.2) ?_ ?_ _
    · intro a b h
      cases h' : ltMark b.2 a.2 with
      | false => rfl
      | true =>
        have := ltMark_trans h h'
        rw [ltMark_irrefl] at this
        cases this
    · intro a b c h1 h2
      by_contra h3
      have h3 : ltMark c.2 a.2 = true := by simpa using h3
      by_cases e : b.2 = c.2
      · rw [e, h3] at h1
        cases h1
      · rcases ltMark_total e with h | h
        · rw [ltMark_trans h h3] at h1
          cases h1
        · rw [h] at h2
          cases h2
  obtain ⟨g1, g2, g3⟩ := groupMarks_sorted hsort
  have hnd : ((groupMarks S).map (·.1)).Nodup := by
    refine g1.imp fun {a b} h e => ?_
    rw [e, ltMark_irrefl] at h
    cases h
  have hkeep : (groupMarks S).filter (fun g => decide (((groupMarks S).reverse.find? fun h => decide (h.1 = g.1)) = some g)) = groupMarks S := by
    refine List.filter_eq_self.2 fun g hg => ?_
    rw [decide_eq_true_eq]
    cases hf : (groupMarks S).reverse.find? fun h => h.1 = g.1 with
    | none =>
      have := List.find?_eq_none.1 hf g (List.mem_reverse.2 hg)
      simp at this
    | some h =>
      have h1 : h.1 = g.1 := by simpa using List.find?_some hf
      rw [List.inj_on_of_nodup_map hnd (List.mem_reverse.1 (List.mem_of_find?_eq_some hf)) hg h1]
  have hrun : orderWordList opposed related w0 l = .ok (groupMarks S) := by
    unfold orderWordList
    rw [hmap]
    exact congrArg Except.ok hkeep
  have hp : S.Perm (l.map fun w => (w, mark w)) := pySort_perm _ _
  refine ⟨_, hrun, g1, fun k => ?_, fun g hg => ?_⟩
  · rw [g2, (hp.map (·.2)).mem_iff, List.map_map, List.mem_map]
    constructor
    · rintro ⟨w, hw, rfl⟩
      exact ⟨w, hw, hmark w⟩
    · rintro ⟨w, hw, h⟩
      rw [hmark w] at h
      cases h
      exact ⟨w, hw, rfl⟩
  · rw [g3 g hg]
    have hcl : S.filter (fun e => decide (e.2 = g.1)) = (l.map fun w => (w, mark w)).filter fun e => decide (e.2 = g.1) := by
      refine pySort_class (fun a b ha hb => ?_) _
      simp only [decide_eq_true_eq] at ha hb
      rw [ha, hb]
      exact ltBytes_irrefl _
    rw [hcl, List.filter_map, List.map_map]
    have e1 : ((fun x : RootWord T × Str => x.1) ∘ fun w => (w, mark w)) = id := rfl
    rw [e1, List.map_id]
    refine List.filter_congr fun w _ => ?_
    rw [hmark w]
    simp [Except.toOption]

example : orderWordList demoOpposed demoRelated ⟨[1], [3]⟩ [⟨[8], [9]⟩, ⟨[1], [5]⟩, ⟨[8], [8]⟩, ⟨[8], [7]⟩, ⟨[1], [3]⟩] =
    .ok [(c!"A0", [⟨[1], [5]⟩, ⟨[1], [3]⟩]), (c!"D0", [⟨[8], [8]⟩]), (c!"E", [⟨[8], [9]⟩, ⟨[8], [7]⟩])] := by decide

end Verif
