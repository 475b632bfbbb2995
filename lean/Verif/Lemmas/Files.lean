import Verif.Spec.Database
import Mathlib.Data.List.Nodup
import Mathlib.Tactic.ByContra

/-
Association lists used as file systems.
-/

namespace Verif
variable {α β : Type}

theorem fsGet_fsSet (fs : List (Str × α)) (p q : Str) (c : α) : fsGet (fsSet fs p c) q = if q = p then some c else fsGet fs q := by
  unfold fsGet fsSet
  by_cases ha : fs.any fun f => f.1 = p
  · rw [if_pos ha]
    by_cases hq : q = p
    · subst hq
      rw [if_pos rfl]
      induction fs with
      | nil => simp at ha
      | cons f fs ih =>
        rw [List.map_cons, List.find?_cons]
        by_cases hf : f.1 = q
        · simp [hf]
        · rw [List.any_cons] at ha
          have : (fs.any fun f => decide (f.1 = q)) = true := by simpa [hf] using ha
          simp only [hf, if_false, decide_false]
          exact ih this
    · rw [if_neg hq]
      clear ha
      induction fs with
      | nil => rfl
      | cons f fs ih =>
        rw [List.map_cons, List.find?_cons, List.find?_cons]
        by_cases hf : f.1 = p
        · have : ¬ f.1 = q := by rw [hf]; exact fun e => hq e.symm
          simp only [hf, if_true]
          have h2 : ¬ p = q := fun e => hq e.symm
          simp only [h2, decide_false]
          exact ih
        · simp only [hf, if_false]
          by_cases hfq : f.1 = q
          · simp [hfq]
          · simp only [hfq, decide_false]; exact ih
  · rw [if_neg ha, List.find?_append]
    have hn : ∀ f ∈ fs, f.1 ≠ p := by
      intro f hf e
      exact ha (List.any_eq_true.2 ⟨f, hf, by simp [e]⟩)
    by_cases hq : q = p
    · subst hq
      have : fs.find? (fun f => decide (f.1 = q)) = none := List.find?_eq_none.2 fun f hf => by simp [hn f hf]
      simp [this]
    · rw [if_neg hq]
      have : ¬ p = q := fun e => hq e.symm
      cases fs.find? fun f => decide (f.1 = q) <;> simp [this]

theorem fsGet_fsRemove (fs : List (Str × α)) (p q : Str) : fsGet (fsRemove fs p) q = if q = p then none else fsGet fs q := by
  unfold fsGet fsRemove
  rw [List.find?_filter]
  by_cases hq : q = p
  · subst hq
    rw [if_pos rfl]
    simp
  · rw [if_neg hq]
    congr 2
    funext f
    by_cases h : f.1 = q
    · have : f.1 ≠ p := by rw [h]; exact hq
      simp [h, hq]
    · simp [h]

theorem fsGet_mem {fs : List (Str × α)} {p : Str} {c : α} (h : fsGet fs p = some c) : (p, c) ∈ fs := by
  unfold fsGet at h
  cases hf : fs.find? fun f => decide (f.1 = p) with
  | none => rw [hf] at h; cases h
  | some f =>
    rw [hf] at h
    have h1 := List.mem_of_find?_eq_some hf
    have h2 := List.find?_some hf
    simp only [decide_eq_true_eq] at h2
    injection h with h
    obtain ⟨a, b⟩ := f
    simp only at h h2
    rw [← h, ← h2]; exact h1

theorem mem_fsGet {fs : List (Str × α)} {p : Str} {c : α} (hn : (fs.map (·.1)).Nodup) (h : (p, c) ∈ fs) : fsGet fs p = some c := by
  induction fs with
  | nil => cases h
  | cons f fs ih =>
    rw [List.map_cons, List.nodup_cons] at hn
    unfold fsGet
    rw [List.find?_cons]
    rcases List.mem_cons.1 h with rfl | h
    · simp
    · have : f.1 ≠ p := by
        intro e
        exact hn.1 (e ▸ List.mem_map_of_mem h)
      simp only [this, decide_false]
      exact ih hn.2 h

theorem fsSet_map (fs : List (Str × α)) (p : Str) (c : α) (g : α → β) :
    fsSet (fs.map fun f => (f.1, g f.2)) p (g c) = (fsSet fs p c).map fun f => (f.1, g f.2) := by
  unfold fsSet
  have e : (fs.map fun f => (f.1, g f.2)).any (fun f => decide (f.1 = p)) = fs.any (fun f => decide (f.1 = p)) := by
    rw [List.any_map]; rfl
  rw [e]
  split
  · rw [List.map_map, List.map_map]
    apply List.map_congr_left
    intro f _
    simp only [Function.comp]
    split <;> rfl
  · simp

theorem fsGet_map (fs : List (Str × α)) (p : Str) (g : α → β) :
    fsGet (fs.map fun f => (f.1, g f.2)) p = (fsGet fs p).map g := by
  unfold fsGet
  rw [List.find?_map, Option.map_map, Option.map_map]
  rfl

theorem fsRemove_map (fs : List (Str × α)) (p : Str) (g : α → β) :
    fsRemove (fs.map fun f => (f.1, g f.2)) p = (fsRemove fs p).map fun f => (f.1, g f.2) := by
  unfold fsRemove
  rw [List.filter_map]
  rfl

theorem fsGet_filter {fs : List (Str × α)} {p : Str} {P : Str → Bool} (h : P p = true) :
    fsGet (fs.filter fun f => P f.1) p = fsGet fs p := by
  unfold fsGet
  rw [List.find?_filter]
  congr 2
  funext f
  by_cases hf : f.1 = p
  · simp [hf, h]
  · simp [hf]

theorem fsSet_filter {fs : List (Str × α)} {p : Str} {c : α} {P : Str → Bool} (h : P p = true) :
    (fsSet fs p c).filter (fun f => P f.1) = fsSet (fs.filter fun f => P f.1) p c := by
  unfold fsSet
  have e : (fs.filter fun f => P f.1).any (fun f => decide (f.1 = p)) = fs.any (fun f => decide (f.1 = p)) := by
    rw [List.any_filter]
    congr 1
    funext f
    by_cases hf : f.1 = p
    · simp [hf, h]
    · simp [hf]
  rw [e]
  split
  · rw [List.filter_map]
    congr 1
    apply List.filter_congr
    intro f _
    simp only [Function.comp]
    by_cases hf : f.1 = p
    · simp [hf]
    · simp [hf]
  · rw [List.filter_append]
    simp [h]

theorem fsSet_filter_other {fs : List (Str × α)} {p : Str} {c : α} {P : Str → Bool} (h : P p = false) :
    (fsSet fs p c).filter (fun f => P f.1) = fs.filter fun f => P f.1 := by
  unfold fsSet
  split
  · induction fs with
    | nil => rfl
    | cons f fs ih =>
      rename_i ha
      have ih' : (fs.map fun f => if f.1 = p then (p, c) else f).filter (fun f => P f.1) = fs.filter fun f => P f.1 := by
        by_cases ha' : (fs.any fun f => decide (f.1 = p)) = true
        · exact ih ha'
        · have : (fs.map fun f => if f.1 = p then (p, c) else f) = fs := by
            conv => rhs; rw [← List.map_id fs]
            apply List.map_congr_left
            intro g hg
            have : g.1 ≠ p := fun e => ha' (List.any_eq_true.2 ⟨g, hg, by simp [e]⟩)
            simp [this]
          rw [this]
      rw [List.map_cons, List.filter_cons, List.filter_cons, ih']
      by_cases hf : f.1 = p
      · simp [hf, h]
      · simp [hf]
  · rw [List.filter_append]; simp [h]

theorem fsRemove_filter {fs : List (Str × α)} {p : Str} {P : Str → Bool} :
    (fsRemove fs p).filter (fun f => P f.1) = fsRemove (fs.filter fun f => P f.1) p := by
  unfold fsRemove
  rw [List.filter_filter, List.filter_filter]
  congr 1
  funext f
  rw [Bool.and_comm]

theorem fsSet_keys (fs : List (Str × α)) (p : Str) (c : α) :
    (fsSet fs p c).map (·.1) = if p ∈ fs.map (·.1) then fs.map (·.1) else fs.map (·.1) ++ [p] := by
  unfold fsSet
  have e : fs.any (fun f => decide (f.1 = p)) = decide (p ∈ fs.map (·.1)) := by
    rw [Bool.eq_iff_iff]
    simp only [List.any_eq_true, decide_eq_true_eq, List.mem_map]
  rw [e]
  by_cases h : p ∈ fs.map (·.1)
  · simp only [h, decide_true, if_true]
    rw [List.map_map]
    apply List.map_congr_left
    intro f _
    simp only [Function.comp]
    split
    · rename_i hf; exact hf.symm
    · rfl
  · simp [h]

theorem fsSet_nodup {fs : List (Str × α)} {p : Str} {c : α} (h : (fs.map (·.1)).Nodup) : ((fsSet fs p c).map (·.1)).Nodup := by
  rw [fsSet_keys]
  split
  · exact h
  · rename_i hp
    exact List.nodup_append.2 ⟨h, by simp, by
      intro a ha b hb e
      simp only [List.mem_singleton] at hb
      subst e; subst hb; exact hp ha⟩

theorem fsRemove_nodup {fs : List (Str × α)} {p : Str} (h : (fs.map (·.1)).Nodup) : ((fsRemove fs p).map (·.1)).Nodup :=
  h.sublist (List.Sublist.map _ List.filter_sublist)

/-- The elements of all the files satisfying a predicate that only holds in one file. -/
theorem flatMap_filter_get {fs : List (Str × List β)} {p : Str} {P : β → Bool} (hn : (fs.map (·.1)).Nodup)
    (hP : ∀ f ∈ fs, ∀ b ∈ f.2, P b = true → f.1 = p) :
    (fs.flatMap (·.2)).filter P = ((fsGet fs p).getD []).filter P := by
  induction fs with
  | nil => rfl
  | cons f fs ih =>
    rw [List.map_cons, List.nodup_cons] at hn
    rw [List.flatMap_cons, List.filter_append, ih hn.2 fun g hg => hP g (by simp [hg])]
    unfold fsGet
    rw [List.find?_cons]
    by_cases hf : f.1 = p
    · simp only [hf, decide_true]
      have : fs.find? (fun f => decide (f.1 = p)) = none := by
        apply List.find?_eq_none.2
        intro g hg
        have : g.1 ≠ p := fun e => hn.1 (by rw [hf, ← e]; exact List.mem_map_of_mem hg)
        simp [this]
      rw [this]
      simp
    · simp only [hf, decide_false]
      have : f.2.filter P = [] := by
        rw [List.filter_eq_nil_iff]
        intro b hb hPb
        exact hf (hP f (by simp) b hb hPb)
      rw [this]; rfl

end Verif
