import Mathlib.Data.List.Nodup
import Mathlib.Data.List.Perm.Basic
import Mathlib.Data.List.Sublists
import Mathlib.Data.Finset.Card
import Verif.Model.Export

/-
Lemmas about the export of the relations.
-/

namespace Verif
variable {T : Type} [DecidableEq T]

theorem mem_exportPairs {t u : T} : ∀ {l : List T}, (t, u) ∈ exportPairs l ↔ (t = u ∧ t ∈ l) ∨ [t, u].Sublist l
  | [] => by simp [exportPairs]
  | x :: l => by
    simp only [exportPairs, List.mem_append, List.mem_map, Prod.mk.injEq, mem_exportPairs (l := l), List.mem_cons]
    constructor
    · rintro (⟨v, hv, rfl, rfl⟩ | ⟨rfl, h⟩ | h)
      · rcases hv with rfl | hv
        · exact .inl ⟨rfl, .inl rfl⟩
        · exact .inr (List.Sublist.cons_cons _ (List.singleton_sublist.2 hv))
      · exact .inl ⟨rfl, .inr h⟩
      · exact .inr (h.cons _)
    · rintro (⟨rfl, rfl | h⟩ | h)
      · exact .inl ⟨t, .inl rfl, rfl, rfl⟩
      · exact .inr (.inl ⟨rfl, h⟩)
      · cases h with
        | cons _ h => exact .inr (.inr h)
        | cons_cons _ h => exact .inl ⟨u, .inr (List.singleton_sublist.1 h), rfl, rfl⟩

/-- `r` is stored for the pair `p`. -/
def StoredName (acc : List ((T × T) × List Rel)) (p : T × T) (r : Rel) : Prop := ∃ e ∈ acc, e.1 = p ∧ r ∈ e.2

/-- No pair is stored twice, and no name twice for a pair. -/
def TidyNames (acc : List ((T × T) × List Rel)) : Prop := (acc.map (·.1)).Nodup ∧ ∀ e ∈ acc, e.2.Nodup

theorem stored_addName (acc : List ((T × T) × List Rel)) (p q : T × T) (r s : Rel) :
    StoredName (addName acc p r) q s ↔ StoredName acc q s ∨ (q = p ∧ s = r) := by
  unfold addName
  by_cases h : acc.any (fun e => decide (e.1 = p)) = true
  · rw [if_pos h]
    obtain ⟨e0, he0, hp0⟩ := List.any_eq_true.1 h
    have hp0 : e0.1 = p := by simpa using hp0
    constructor
    · rintro ⟨e, he, rfl, hs⟩
      obtain ⟨e', he', rfl⟩ := List.mem_map.1 he
      by_cases hp : e'.1 = p
      · rw [if_pos hp] at hs ⊢
        simp only at hs ⊢
        by_cases hr : r ∈ e'.2
        · rw [if_pos hr] at hs
          exact .inl ⟨e', he', rfl, hs⟩
        · rw [if_neg hr, List.mem_append, List.mem_singleton] at hs
          rcases hs with hs | hs
          · exact .inl ⟨e', he', rfl, hs⟩
          · exact .inr ⟨hp, hs⟩
      · rw [if_neg hp] at hs ⊢
        exact .inl ⟨e', he', rfl, hs⟩
    · rintro (⟨e, he, rfl, hs⟩ | ⟨rfl, rfl⟩)
      · refine ⟨_, List.mem_map.2 ⟨e, he, rfl⟩, ?_, ?_⟩
        · split <;> rfl
        · split
          · simp only; split
            · exact hs
            · exact List.mem_append_left _ hs
          · exact hs
      · refine ⟨_, List.mem_map.2 ⟨e0, he0, rfl⟩, ?_, ?_⟩
        · split
          · exact hp0
          · exact hp0
        · rw [if_pos hp0]
          simp only
          split
          · assumption
          · simp
  · rw [if_neg h]
    constructor
    · rintro ⟨e, he, rfl, hs⟩
      rw [List.mem_append, List.mem_singleton] at he
      rcases he with he | rfl
      · exact .inl ⟨e, he, rfl, hs⟩
      · exact .inr ⟨rfl, by simpa using hs⟩
    · rintro (⟨e, he, rfl, hs⟩ | ⟨rfl, rfl⟩)
      · exact ⟨e, List.mem_append_left _ he, rfl, hs⟩
      · exact ⟨(q, [s]), by simp, rfl, by simp⟩

theorem tidy_addName {acc : List ((T × T) × List Rel)} (h : TidyNames acc) (p : T × T) (r : Rel) : TidyNames (addName acc p r) := by
  unfold addName
  by_cases ha : acc.any (fun e => decide (e.1 = p)) = true
  · rw [if_pos ha]
    refine ⟨?_, ?_⟩
    · have : (acc.map fun e => if e.1 = p then (e.1, if r ∈ e.2 then e.2 else e.2 ++ [r]) else e).map (·.1) = acc.map (·.1) := by
        rw [List.map_map]
        apply List.map_congr_left
        intro e _
        simp only [Function.comp]
        split <;> rfl
      rw [this]
      exact h.1
    · intro e he
      obtain ⟨e', he', rfl⟩ := List.mem_map.1 he
      have := h.2 e' he'
      split
      · simp only; split
        · exact this
        · rename_i hr
          exact List.nodup_append.2 ⟨this, by simp, by
            intro a ha b hb; rw [List.mem_singleton] at hb; subst hb; rintro rfl; exact hr ha⟩
      · exact this
  · rw [if_neg ha]
    refine ⟨?_, ?_⟩
    · rw [List.map_append, List.nodup_append]
      refine ⟨h.1, by simp, ?_⟩
      intro a hm b hb
      simp only [List.map_cons, List.map_nil, List.mem_singleton] at hb
      subst hb
      rintro rfl
      obtain ⟨e, he, rfl⟩ := List.mem_map.1 hm
      exact ha (List.any_eq_true.2 ⟨e, he, by simp⟩)
    · intro e he
      rw [List.mem_append, List.mem_singleton] at he
      rcases he with he | rfl
      · exact h.2 e he
      · simp

/-- The pair under which the relations of two terms are stored. -/
def storedKey (lt : T → T → Bool) (t0 t1 : T) : T × T := if lt t0 t1 then (t1, t0) else (t0, t1)

theorem storedKey_ne {lt : T → T → Bool} {t0 t1 : T} : (storedKey lt t0 t1).1 ≠ (storedKey lt t0 t1).2 ↔ t0 ≠ t1 := by
  unfold storedKey
  split
  · exact ne_comm
  · exact Iff.rfl

theorem stored_addRelation (lt : T → T → Bool) (acc : List ((T × T) × List Rel)) (t0 t1 : T) (q : T × T) (r s : Rel) :
    StoredName (addRelation lt acc t0 t1 r) q s ↔ StoredName acc q s ∨ (t0 ≠ t1 ∧ q = storedKey lt t0 t1 ∧ s = r) := by
  have h : addRelation lt acc t0 t1 r = if (storedKey lt t0 t1).1 ≠ (storedKey lt t0 t1).2 then addName acc (storedKey lt t0 t1) r else acc := rfl
  rw [h]
  by_cases hne : t0 = t1
  · rw [if_neg (fun h => storedKey_ne.1 h hne)]
    simp [hne]
  · rw [if_pos (storedKey_ne.2 hne), stored_addName]
    simp [hne]

theorem tidy_addRelation {lt : T → T → Bool} {acc : List ((T × T) × List Rel)} (h : TidyNames acc) (t0 t1 : T) (r : Rel) :
    TidyNames (addRelation lt acc t0 t1 r) := by
  have e : addRelation lt acc t0 t1 r = if (storedKey lt t0 t1).1 ≠ (storedKey lt t0 t1).2 then addName acc (storedKey lt t0 t1) r else acc := rfl
  rw [e]
  by_cases hne : (storedKey lt t0 t1).1 ≠ (storedKey lt t0 t1).2
  · rw [if_pos hne]; exact tidy_addName h _ _
  · rw [if_neg hne]; exact h

theorem collect_fold (lt : T → T → Bool) (names : T → T → List Rel) : ∀ (ps : List (T × T)) (acc : List ((T × T) × List Rel)),
    (∀ q s, StoredName (ps.foldl (fun acc p => (names p.1 p.2).foldl (fun acc r => addRelation lt acc p.1 p.2 r) acc) acc) q s ↔
      StoredName acc q s ∨ ∃ p ∈ ps, p.1 ≠ p.2 ∧ s ∈ names p.1 p.2 ∧ q = storedKey lt p.1 p.2) ∧
    (TidyNames acc → TidyNames (ps.foldl (fun acc p => (names p.1 p.2).foldl (fun acc r => addRelation lt acc p.1 p.2 r) acc) acc)) := by
  have inner : ∀ (p : T × T) (rs : List Rel) (acc : List ((T × T) × List Rel)),
      (∀ q s, StoredName (rs.foldl (fun acc r => addRelation lt acc p.1 p.2 r) acc) q s ↔
        StoredName acc q s ∨ (p.1 ≠ p.2 ∧ s ∈ rs ∧ q = storedKey lt p.1 p.2)) ∧
      (TidyNames acc → TidyNames (rs.foldl (fun acc r => addRelation lt acc p.1 p.2 r) acc)) := by
    intro p rs
    induction rs with
    | nil => intro acc; simp
    | cons r rs ih =>
      intro acc
      obtain ⟨i1, i2⟩ := ih (addRelation lt acc p.1 p.2 r)
      refine ⟨fun q s => ?_, fun h => i2 (tidy_addRelation h _ _ _)⟩
      rw [List.foldl_cons, i1, stored_addRelation, List.mem_cons]
      constructor
      · rintro ((h | ⟨h1, h2, h3⟩) | ⟨h1, h2, h3⟩)
        · exact .inl h
        · exact .inr ⟨h1, .inl h3, h2⟩
        · exact .inr ⟨h1, .inr h2, h3⟩
      · rintro (h | ⟨h1, h2 | h2, h3⟩)
        · exact .inl (.inl h)
        · exact .inl (.inr ⟨h1, h3, h2⟩)
        · exact .inr ⟨h1, h2, h3⟩
  intro ps
  induction ps with
  | nil => intro acc; simp
  | cons p ps ih =>
    intro acc
    obtain ⟨i1, i2⟩ := ih ((names p.1 p.2).foldl (fun acc r => addRelation lt acc p.1 p.2 r) acc)
    obtain ⟨j1, j2⟩ := inner p (names p.1 p.2) acc
    refine ⟨fun q s => ?_, fun h => i2 (j2 h)⟩
    rw [List.foldl_cons, i1, j1]
    simp only [List.mem_cons, exists_eq_or_imp]
    constructor
    · rintro ((h | h) | h)
      · exact .inl h
      · exact .inr (.inl h)
      · exact .inr (.inr h)
    · rintro (h | h | h)
      · exact .inl (.inl h)
      · exact .inl (.inr h)
      · exact .inr h

theorem stored_collect {lt : T → T → Bool} {names : T → T → List Rel} {paradigm : List T} {q : T × T} {s : Rel} :
    StoredName (collectRelations lt names paradigm) q s ↔
      ∃ t0 t1, [t0, t1].Sublist paradigm ∧ t0 ≠ t1 ∧ s ∈ names t0 t1 ∧ q = storedKey lt t0 t1 := by
  unfold collectRelations
  rw [(collect_fold lt names _ _).1 q s]
  constructor
  · rintro (⟨e, he, _⟩ | ⟨⟨t0, t1⟩, hp, h1, h2, h3⟩)
    · cases he
    · rcases mem_exportPairs.1 hp with ⟨h, _⟩ | h
      · exact absurd h h1
      · exact ⟨t0, t1, h, h1, h2, h3⟩
  · rintro ⟨t0, t1, h, h1, h2, h3⟩
    exact .inr ⟨(t0, t1), mem_exportPairs.2 (.inr h), h1, h2, h3⟩

theorem tidy_collect {lt : T → T → Bool} {names : T → T → List Rel} {paradigm : List T} : TidyNames (collectRelations lt names paradigm) :=
  (collect_fold lt names _ _).2 ⟨by simp, by simp⟩

omit [DecidableEq T] in
/-- The relations stored, in the order of the rows. -/
theorem mem_flat {acc : List ((T × T) × List Rel)} {q : T × T} {s : Rel} :
    (q, s) ∈ (acc.flatMap fun e => e.2.map fun r => (e.1, r)) ↔ StoredName acc q s := by
  simp only [List.mem_flatMap, List.mem_map, Prod.mk.injEq, StoredName]
  constructor
  · rintro ⟨e, he, r, hr, h1, rfl⟩; exact ⟨e, he, h1, hr⟩
  · rintro ⟨e, he, h1, hr⟩; exact ⟨e, he, s, hr, h1, rfl⟩

omit [DecidableEq T] in
theorem nodup_flat {acc : List ((T × T) × List Rel)} (h : TidyNames acc) : (acc.flatMap fun e => e.2.map fun r => (e.1, r)).Nodup := by
  induction acc with
  | nil => simp
  | cons e acc ih =>
    have h1 := h.1
    rw [List.map_cons, List.nodup_cons] at h1
    rw [List.flatMap_cons, List.nodup_append]
    refine ⟨(h.2 e (by simp)).map fun a b hab => (Prod.mk.inj hab).2, ih ⟨h1.2, fun e' he' => h.2 e' (by simp [he'])⟩, ?_⟩
    intro a ha b hb hab
    subst hab
    obtain ⟨r, _, rfl⟩ := List.mem_map.1 ha
    obtain ⟨e', he', hr, _⟩ := mem_flat.1 hb
    exact h1.1 (List.mem_map.2 ⟨e', he', hr⟩)

end Verif
