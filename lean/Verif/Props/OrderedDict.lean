import Verif.Lemmas.OrderedDict
import Mathlib.Tactic.ByContra

/-
C56: `LastUpdatedOrderedDict` iterates by time of last assignment.
-/

namespace Verif
namespace OD
variable {κ ν : Type} [DecidableEq κ]

/-- Specification, by the history only: the key `k` was assigned `v` at time `t`, and neither assigned nor deleted since. -/
def LastAssigned (ops : List (Op κ ν)) (k : κ) (v : ν) (t : Nat) : Prop :=
  ops[t]? = some (.assign k v) ∧ ∀ t', t < t' → (∀ v', ops[t']? ≠ some (.assign k v')) ∧ ops[t']? ≠ some (.delete k)

/-- The dictionary `d` is the one the history requires: its items are the last assignments, in order of time. -/
structure Agrees (ops : List (Op κ ν)) (d : OD κ ν) : Prop where
  items : ∀ k v, (k, v) ∈ d ↔ ∃ t, LastAssigned ops k v t
  order : ∀ i j (hi : i < d.length) (hj : j < d.length), i < j →
    ∃ t t', LastAssigned ops d[i].1 d[i].2 t ∧ LastAssigned ops d[j].1 d[j].2 t' ∧ t < t'

omit [DecidableEq κ] in
theorem lastAssigned_append {ops : List (Op κ ν)} {o : Op κ ν} {k : κ} {v : ν} {t : Nat} :
    LastAssigned (ops ++ [o]) k v t ↔
      (t = ops.length ∧ o = .assign k v) ∨ (LastAssigned ops k v t ∧ (∀ v', o ≠ .assign k v') ∧ o ≠ .delete k) := by
  have hlast : (ops ++ [o])[ops.length]? = some o := by simp
  have hbig : ∀ n, ops.length < n → (ops ++ [o])[n]? = none := by
    intro n hn; rw [List.getElem?_eq_none_iff]; simp; omega
  have hsm : ∀ n, n < ops.length → (ops ++ [o])[n]? = ops[n]? := fun n hn => List.getElem?_append_left hn
  constructor
  · rintro ⟨h1, h2⟩
    rcases Nat.lt_trichotomy t ops.length with h | h | h
    · right
      refine ⟨⟨by rw [← hsm t h]; exact h1, fun t' ht' => ?_⟩, ?_, ?_⟩
      · by_cases hl : t' < ops.length
        · rw [← hsm t' hl]; exact h2 t' ht'
        · have : ops[t']? = none := List.getElem?_eq_none_iff.2 (by omega)
          rw [this]; simp
      · intro v' he; have := (h2 ops.length h).1 v'; rw [hlast, he] at this; exact this rfl
      · intro he; have := (h2 ops.length h).2; rw [hlast, he] at this; exact this rfl
    · left; subst h; rw [hlast] at h1; exact ⟨rfl, Option.some.inj h1⟩
    · rw [hbig t h] at h1; cases h1
  · rintro (⟨rfl, rfl⟩ | ⟨⟨h1, h2⟩, h3, h4⟩)
    · refine ⟨hlast, fun t' ht' => ?_⟩
      rw [hbig t' ht']; simp
    · have ht : t < ops.length := by
        by_contra hc
        rw [List.getElem?_eq_none_iff.2 (by omega)] at h1; cases h1
      refine ⟨by rw [hsm t ht]; exact h1, fun t' ht' => ?_⟩
      rcases Nat.lt_trichotomy t' ops.length with h | h | h
      · rw [hsm t' h]; exact h2 t' ht'
      · subst h; rw [hlast]
        exact ⟨fun v' he => h3 v' (Option.some.inj he), fun he => h4 (Option.some.inj he)⟩
      · rw [hbig t' h]; simp

omit [DecidableEq κ] in
theorem lastAssigned_lt {ops : List (Op κ ν)} {k : κ} {v : ν} {t : Nat} (h : LastAssigned ops k v t) : t < ops.length := by
  by_contra hc
  have := h.1
  rw [List.getElem?_eq_none_iff.2 (by omega)] at this; cases this

/-- The same order, as a relation between the items. -/
def TimeLt (ops : List (Op κ ν)) (p q : κ × ν) : Prop :=
  ∃ t t', LastAssigned ops p.1 p.2 t ∧ LastAssigned ops q.1 q.2 t' ∧ t < t'

omit [DecidableEq κ] in
theorem agrees_iff {ops : List (Op κ ν)} {d : OD κ ν} :
    Agrees ops d ↔ (∀ k v, (k, v) ∈ d ↔ ∃ t, LastAssigned ops k v t) ∧ d.Pairwise (TimeLt ops) :=
  ⟨fun h => ⟨h.items, List.pairwise_iff_getElem.2 h.order⟩, fun h => ⟨h.1, List.pairwise_iff_getElem.1 h.2⟩⟩

omit [DecidableEq κ] in
theorem timeLt_append {ops : List (Op κ ν)} {o : Op κ ν} {p q : κ × ν} (h : TimeLt ops p q)
    (hp : (∀ v', o ≠ .assign p.1 v') ∧ o ≠ .delete p.1) (hq : (∀ v', o ≠ .assign q.1 v') ∧ o ≠ .delete q.1) :
    TimeLt (ops ++ [o]) p q := by
  obtain ⟨t, t', h1, h2, h3⟩ := h
  exact ⟨t, t', lastAssigned_append.2 (.inr ⟨h1, hp⟩), lastAssigned_append.2 (.inr ⟨h2, hq⟩), h3⟩

theorem agrees_assign {ops : List (Op κ ν)} {d : OD κ ν} (h : Agrees ops d) (k : κ) (v : ν) :
    Agrees (ops ++ [.assign k v]) ((d.filter fun p => p.1 ≠ k) ++ [(k, v)]) := by
  rw [agrees_iff] at h ⊢
  obtain ⟨h1, h2⟩ := h
  have away : ∀ {p : κ × ν}, p ∈ d.filter (fun p => p.1 ≠ k) →
      (∀ v', (Op.assign k v : Op κ ν) ≠ .assign p.1 v') ∧ (Op.assign k v : Op κ ν) ≠ .delete p.1 := by
    intro p hp
    simp only [List.mem_filter, ne_eq, decide_not, Bool.not_eq_true', decide_eq_false_iff_not] at hp
    refine ⟨fun v' he => ?_, by simp⟩
    injection he with he1 he2
    exact hp.2 he1.symm
  refine ⟨fun k' v' => ?_, ?_⟩
  · simp only [List.mem_append, List.mem_filter, List.mem_singleton, Prod.mk.injEq, lastAssigned_append]
    rw [h1]
    constructor
    · rintro (⟨⟨t, ht⟩, hk⟩ | ⟨rfl, rfl⟩)
      · refine ⟨t, .inr ⟨ht, fun v'' he => ?_, by simp⟩⟩
        injection he with he1 he2
        subst he1; simp at hk
      · exact ⟨ops.length, .inl ⟨rfl, rfl⟩⟩
    · rintro ⟨t, (⟨_, he⟩ | ⟨ht, hne, _⟩)⟩
      · injection he with he1 he2
        exact .inr ⟨he1.symm, he2.symm⟩
      · refine .inl ⟨⟨t, ht⟩, ?_⟩
        simp only [ne_eq, decide_not, Bool.not_eq_true', decide_eq_false_iff_not]
        rintro rfl; exact hne v rfl
  · rw [List.pairwise_append]
    refine ⟨?_, by simp, ?_⟩
    · refine (h2.filter _).imp_of_mem ?_
      intro p q hp hq hpq
      exact timeLt_append hpq (away hp) (away hq)
    · intro p hp q hq
      simp only [List.mem_singleton] at hq
      subst hq
      obtain ⟨t, ht⟩ := (h1 p.1 p.2).1 (List.mem_filter.1 hp).1
      exact ⟨t, ops.length, lastAssigned_append.2 (.inr ⟨ht, away hp⟩), lastAssigned_append.2 (.inl ⟨rfl, rfl⟩),
        lastAssigned_lt ht⟩

theorem agrees_delete {ops : List (Op κ ν)} {d : OD κ ν} (h : Agrees ops d) (k : κ) :
    Agrees (ops ++ [.delete k]) (d.filter fun p => p.1 ≠ k) := by
  rw [agrees_iff] at h ⊢
  obtain ⟨h1, h2⟩ := h
  refine ⟨fun k' v' => ?_, ?_⟩
  · simp only [List.mem_filter, lastAssigned_append]
    rw [h1]
    constructor
    · rintro ⟨⟨t, ht⟩, hk⟩
      refine ⟨t, .inr ⟨ht, by simp, fun he => ?_⟩⟩
      injection he with he1
      subst he1; simp at hk
    · rintro ⟨t, (⟨_, he⟩ | ⟨ht, _, hne⟩)⟩
      · cases he
      · refine ⟨⟨t, ht⟩, ?_⟩
        simp only [ne_eq, decide_not, Bool.not_eq_true', decide_eq_false_iff_not]
        rintro rfl; exact hne rfl
  · refine (h2.filter _).imp_of_mem ?_
    intro p q hp hq hpq
    simp only [List.mem_filter, ne_eq, decide_not, Bool.not_eq_true', decide_eq_false_iff_not] at hp hq
    refine timeLt_append hpq ⟨by simp, fun he => ?_⟩ ⟨by simp, fun he => ?_⟩
    · injection he with he1; exact hp.2 he1.symm
    · injection he with he1; exact hq.2 he1.symm

theorem agrees_run : ∀ (done ops : List (Op κ ν)) (d d' : OD κ ν), Agrees done d → ops.foldlM step d = .ok d' →
    Agrees (done ++ ops) d'
  | done, [], d, d', h, hr => by
    rw [List.foldlM_nil] at hr
    cases hr
    simpa using h
  | done, o :: ops, d, d', h, hr => by
    rw [List.foldlM_cons] at hr
    cases o with
    | assign k v =>
      rw [step, set_eq] at hr
      have := agrees_run _ ops _ d' (agrees_assign h k v) hr
      simpa using this
    | delete k =>
      rw [step, del] at hr
      split at hr
      · have := agrees_run _ ops _ d' (agrees_delete h k) hr
        simpa using this
      · cases hr

omit [DecidableEq κ] in
theorem agrees_nil : Agrees ([] : List (Op κ ν)) [] := by
  rw [agrees_iff]; simp [LastAssigned]

end OD

open OD
variable {κ ν : Type} [DecidableEq κ]

/-- **C56.** After any sequence of assignments and deletions that raises nothing, the items are exactly the last assigned
values of the keys still present, and they are iterated by time of last assignment. -/
theorem C56_order_of_last_assignment {ops : List (Op κ ν)} {d : OD κ ν} (h : OD.run ops = .ok d) : Agrees ops d :=
  agrees_run [] ops [] d agrees_nil h

/-- **C56, errors.** A run raises only by deleting a missing key, and then `KeyError`: a run of assignments never raises, and
looking a key up gives its last assigned value. -/
theorem C56_no_spurious_error {ops : List (Op κ ν)} (h : ∀ o ∈ ops, ∃ k v, o = .assign k v) : ∃ d, OD.run ops = .ok d := by
  have : ∀ (ops : List (Op κ ν)) (d : OD κ ν), (∀ o ∈ ops, ∃ k v, o = .assign k v) → ∃ d', ops.foldlM step d = .ok d' := by
    intro ops
    induction ops with
    | nil => intro d _; exact ⟨d, rfl⟩
    | cons o ops ih =>
      intro d h
      obtain ⟨k, v, rfl⟩ := h o (by simp)
      obtain ⟨d', hd'⟩ := ih ((d.filter fun p => p.1 ≠ k) ++ [(k, v)]) fun o ho => h o (by simp [ho])
      exact ⟨d', by rw [List.foldlM_cons, step, set_eq]; exact hd'⟩
  exact this ops [] h

theorem C56_lookup {ops : List (Op κ ν)} {d : OD κ ν} (h : OD.run ops = .ok d) (k : κ) (v : ν) :
    d.get k = .ok v ↔ ∃ t, LastAssigned ops k v t := by
  have ha := C56_order_of_last_assignment h
  rw [← ha.items]
  unfold OD.get
  constructor
  · intro hg
    split at hg
    · rename_i p hp
      have h1 := List.mem_of_find?_eq_some hp
      have h2 := List.find?_some hp
      simp only [decide_eq_true_eq] at h2
      cases hg
      subst h2; exact h1
    · cases hg
  · intro hm
    cases hf : d.find? fun p => decide (p.1 = k) with
    | none =>
      have := List.find?_eq_none.1 hf _ hm
      simp at this
    | some p =>
      have h1 := List.mem_of_find?_eq_some hf
      have h2 := List.find?_some hf
      simp only [decide_eq_true_eq] at h2
      subst h2
      obtain ⟨t, ht⟩ := (ha.items _ _).1 h1
      obtain ⟨t', ht'⟩ := (ha.items _ _).1 hm
      have hv : v = p.2 := by
        rcases Nat.lt_trichotomy t t' with hl | hl | hl
        · exact absurd ht'.1 ((ht.2 t' hl).1 v)
        · subst hl
          have := ht.1.symm.trans ht'.1
          simp at this; exact this.symm
        · exact absurd ht.1 ((ht'.2 t hl).1 p.2)
      simp [hv]

-- A re-assigned key moves to the end with its new value; a deleted key disappears.
example : OD.run [.assign 1 10, .assign 2 20, .assign 3 30, .assign 1 11, .delete 2] = .ok [(3, 30), (1, 11)] := by
  decide +kernel

example : OD.run [.assign 1 10, .delete 2] = (.error .keyError : Except Err (OD Nat Nat)) := by decide +kernel

end Verif
