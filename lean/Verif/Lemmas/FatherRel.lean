import Verif.Spec.Nearest
import Verif.Props.Relations

/-
Lemmas on the father relations of a dictionary.
-/

namespace Verif
open Script DictOk

variable {ks : List Str} {rows : List (Str × Str × Str)}

mutual
theorem fathers_mem {ix : Script → Option Nat} {j : Nat} : ∀ (s : Script),
    j ∈ DictBase.fathers ix s ↔ ∃ x, Nearest (fun x => (ix x).isSome) s x ∧ ix x = some j
  | .null l => by
    simp only [DictBase.fathers, List.not_mem_nil, false_iff]
    rintro ⟨x, h, _⟩
    cases h
  | .prim p => by
    simp only [DictBase.fathers, Option.mem_toList]
    constructor
    · intro h
      exact ⟨_, .prim (by rw [h]; rfl), h⟩
    · rintro ⟨x, h, e⟩
      cases h
      exact e
  | .mult s a m => by
    simp only [DictBase.fathers]
    split
    · rename_i i hi
      rw [List.mem_singleton]
      constructor
      · rintro rfl
        exact ⟨_, .here (by rw [hi]; rfl), hi⟩
      · rintro ⟨x, h, e⟩
        cases h with
        | here _ => rw [hi, Option.some.injEq] at e; exact e.symm
        | role hn _ _ => exact absurd (by rw [hi]; rfl) hn
    · rename_i hi
      rw [List.mem_append, List.mem_append, fathers_mem s, fathers_mem a, fathers_mem m]
      have hn : ¬ (ix (.mult s a m)).isSome = true := by rw [hi]; simp
      constructor
      · rintro ((⟨x, h, e⟩ | ⟨x, h, e⟩) | ⟨x, h, e⟩)
        · exact ⟨x, .role hn (by simp) h, e⟩
        · exact ⟨x, .role hn (by simp) h, e⟩
        · exact ⟨x, .role hn (by simp) h, e⟩
      · rintro ⟨x, h, e⟩
        cases h with
        | here h => exact absurd h hn
        | role _ hc h =>
          simp only [List.mem_cons, List.not_mem_nil, or_false] at hc
          rcases hc with rfl | rfl | rfl
          · exact .inl (.inl ⟨x, h, e⟩)
          · exact .inl (.inr ⟨x, h, e⟩)
          · exact .inr ⟨x, h, e⟩
  | .add cs => by
    simp only [DictBase.fathers]
    rw [fathersL_mem cs]
    constructor
    · rintro ⟨c, hc, x, h, e⟩
      exact ⟨x, .term hc h, e⟩
    · rintro ⟨x, h, e⟩
      cases h with
      | term hc h => exact ⟨_, hc, x, h, e⟩
theorem fathersL_mem {ix : Script → Option Nat} {j : Nat} : ∀ (cs : List Script),
    j ∈ DictBase.fathersL ix cs ↔ ∃ c ∈ cs, ∃ x, Nearest (fun x => (ix x).isSome) c x ∧ ix x = some j
  | [] => by simp [DictBase.fathersL]
  | c :: cs => by
    rw [DictBase.fathersL, List.mem_append, fathers_mem c, fathersL_mem cs]
    simp
end

/-- The inhibitions are at texts of scripts. -/
theorem inhibitions_wf {st : Reading} (h : readDictionary ks rows = .ok st) : ∀ e ∈ st.inhibitions, ∃ p, WF p ∧ e.1 = p.str := by
  unfold readDictionary at h
  rw [bind_ok] at h
  obtain ⟨fs, h1, h⟩ := h
  rw [bind_ok] at h
  obtain ⟨st1, h2, h⟩ := h
  rw [bind_ok] at h
  obtain ⟨seqs, h3, h⟩ := h
  rw [bind_ok] at h
  obtain ⟨out, h4, h⟩ := h
  obtain ⟨k1, k2, k3⟩ := readKeys h1
  have hok0 : ReadOk ⟨fs, [], [], []⟩ := ⟨k1, fun e he => parse_wf (k2 e he).2, by simp, by simp⟩
  have inv := foldlM_inv (P := fun st : Reading => ReadOk st ∧ ∀ e ∈ st.inhibitions, ∃ p, WF p ∧ e.1 = p.str) ⟨hok0, by simp⟩ (by
    intro row _ b c hb hr
    refine ⟨readRow_ok hb.1 hr, ?_⟩
    rcases readRow_inv hr with ⟨_, rfl⟩ | ⟨p, ss, hg, _, _, h⟩
    · exact hb.2
    · rcases h with ⟨_, _, _, h⟩ | ⟨_, _, _, _, h⟩ | ⟨_, _, _, _, h⟩ | ⟨_, _, _, h⟩ <;> rw [h]
      · intro e he
        rcases mem_fsSet he with he | he
        · exact ⟨p, hb.1.wf _ (fsGet_mem hg), by rw [he]⟩
        · exact hb.2 e he
      all_goals exact hb.2) h2
  refine foldlM_inv (P := fun st : Reading => ∀ e ∈ st.inhibitions, ∃ p, WF p ∧ e.1 = p.str) inv.2 ?_ h
  intro s _ b c hb hr
  unfold removeIgnored at hr
  split at hr
  · cases hr
  · rw [Except.ok.injEq] at hr
    subst hr
    intro e he
    exact hb e (List.mem_filter.1 he).1

/-- The name of a father relation is not the text of a script. -/
theorem fatherName_ne (r : Fin 3) {p : Script} (h : WF p) : p.str ≠ fatherName r := by
  intro e
  obtain ⟨t, ht, _⟩ := parse_str_plain h
  rw [e] at ht
  have : ∀ r : Fin 3, (parseScript (fatherName r)).isOk = false := by decide +kernel
  have h := this r
  rw [ht] at h
  cases h

theorem terms_mem {u s : Script} : u ∈ DictBase.terms s ↔ TermOf u s := by
  unfold TermOf
  cases s <;> simp [DictBase.terms]

theorem father_mem {b : DictBase} {r : Fin 3} {rel : Str} {l : List (Nat × Nat)} (h : b.father r.val rel = .ok l) (hs : ∀ s ∈ b.scripts, WF s)
    (hi : ∀ e ∈ b.inhibitions, e.1 ≠ rel) {i j : Nat} : (i, j) ∈ l ↔ ∃ s ∈ b.scripts, b.index s = .ok i ∧ ∃ u, TermOf u s ∧
      ∃ c, RoleOf r c u ∧ ∃ x, Nearest (fun x => ∃ y ∈ b.scripts, y.str = x.str) c x ∧ b.index x = .ok j := by
  have hD : (fun x => ((b.index x).toOption).isSome = true) = fun x => ∃ y ∈ b.scripts, y.str = x.str := by
    funext x
    rw [← seqIndex_isOk]
    unfold DictBase.index
    cases seqIndex b.scripts x <;> simp [Except.toOption]
  have hj : ∀ x j, (b.index x).toOption = some j ↔ b.index x = .ok j := by
    intro x j
    cases b.index x <;> simp [Except.toOption]
  unfold DictBase.father at h
  rw [bind_ok] at h
  obtain ⟨ls, h1, h⟩ := h
  rw [pure_ok] at h
  subst h
  have hany : (b.inhibitions.any fun e => decide (e.1 = rel)) = false := by
    rw [List.any_eq_false]
    intro e he
    simpa using hi e he
  rw [hany] at h1
  simp only [Bool.false_eq_true, if_false] at h1
  have one : ∀ {s u : Script} {y : List (Nat × Nat)}, s ∈ b.scripts → u ∈ DictBase.terms s → (if u.children.length = 0 || u.isNull then pure []
      else do
        let c ← child u r.val
        let i ← b.index s
        return (DictBase.fathers (fun x => (b.index x).toOption) c).map fun j => (i, j) : Except Err (List (Nat × Nat))) = .ok y →
      ((i, j) ∈ y ↔ b.index s = .ok i ∧ ∃ c, RoleOf r c u ∧ ∃ x, Nearest (fun x => ∃ y ∈ b.scripts, y.str = x.str) c x ∧ b.index x = .ok j) := by
    intro s u y hsm hu hy
    cases u with
    | null l =>
      rw [if_pos (by simp [isNull]), pure_ok] at hy
      subst hy
      simp [RoleOf]
    | prim p =>
      rw [if_pos (by simp [children]), pure_ok] at hy
      subst hy
      simp [RoleOf]
    | mult s0 a0 m0 =>
      rw [if_neg (by simp [children, isNull]), bind_ok] at hy
      obtain ⟨c, hc, hy⟩ := hy
      rw [bind_ok] at hy
      obtain ⟨i', hi', hy⟩ := hy
      rw [pure_ok] at hy
      subst hy
      rw [child_ok] at hc
      have hrole : ∀ c', RoleOf r c' (.mult s0 a0 m0) ↔ c' = c := by
        intro c'
        unfold RoleOf
        constructor
        · rintro ⟨s1, a1, m1, e, hc'⟩
          injection e with e1 e2 e3
          subst e1 e2 e3
          simp only [children] at hc
          rw [hc, Option.some.injEq] at hc'
          exact hc'.symm
        · rintro rfl
          exact ⟨s0, a0, m0, rfl, hc⟩
      simp only [hrole, exists_eq_left, List.mem_map, Prod.mk.injEq, fathers_mem, hD, hj, hi', Except.ok.injEq]
      constructor
      · rintro ⟨j', hx, rfl, rfl⟩
        exact ⟨rfl, hx⟩
      · rintro ⟨rfl, hx⟩
        exact ⟨j, hx, rfl, rfl⟩
    | add cs =>
      exfalso
      have hw := hs s hsm
      cases s with
      | add ds =>
        cases hw with
        | add h1 h2 h3 h4 h5 h6 h7 =>
          simp only [DictBase.terms] at hu
          exact absurd (h4 _ hu) (by simp [isAdd])
      | _ => simp [DictBase.terms] at hu
  rw [List.mem_flatten]
  constructor
  · rintro ⟨x, hx, hij⟩
    obtain ⟨s, hsm, hsx⟩ := (mapM_mem h1).1 hx
    rw [bind_ok] at hsx
    obtain ⟨ys, h2, hsx⟩ := hsx
    rw [pure_ok] at hsx
    subst hsx
    obtain ⟨y, hy, hij⟩ := List.mem_flatten.1 hij
    obtain ⟨u, hu, huy⟩ := (mapM_mem h2).1 hy
    obtain ⟨g1, g2⟩ := (one hsm hu huy).1 hij
    exact ⟨s, hsm, g1, u, terms_mem.1 hu, g2⟩
  · rintro ⟨s, hsm, g1, u, hu, g2⟩
    obtain ⟨x, hx, hsx⟩ := mapM_each h1 hsm
    rw [bind_ok] at hsx
    obtain ⟨ys, h2, hsx⟩ := hsx
    rw [pure_ok] at hsx
    subst hsx
    obtain ⟨y, hy, huy⟩ := mapM_each h2 (terms_mem.2 hu)
    exact ⟨_, hx, List.mem_flatten.2 ⟨y, hy, (one hsm (terms_mem.2 hu) huy).2 ⟨g1, g2⟩⟩⟩

end Verif
