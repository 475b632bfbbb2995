import Verif.Lemmas.WordText
import Verif.Lemmas.Deference
import Verif.Model.RoleLookup

/-
Lemmas on the lookups of roles.
-/

namespace Verif

variable {α : Type}

/-- The functions read below a process. -/
def OkN (n : Nat) (f : SF α) : Prop := OkD n f ∨ OkI n f

theorem actorsL_iff {link : Str} : ∀ {n : Nat} {cs : List (SF α)} {e : Addr × SF α}, e ∈ actorsL link n cs ↔
    ∃ i c, cs[i]? = some c ∧ ∃ x ∈ c.actors, e = (childPrefix link (n + i) ++ x.1, x.2)
  | n, [], e => by simp [actorsL]
  | n, c :: cs, e => by
    rw [actorsL, List.mem_append, List.mem_map, actorsL_iff]
    constructor
    · rintro (⟨x, hx, rfl⟩ | ⟨i, c', hi, x, hx, rfl⟩)
      · exact ⟨0, c, rfl, x, hx, rfl⟩
      · exact ⟨i + 1, c', by simpa using hi, x, hx, by rw [Nat.add_right_comm, Nat.add_assoc]⟩
    · rintro ⟨i, c', hi, x, hx, rfl⟩
      cases i with
      | zero =>
        simp only [List.getElem?_cons_zero, Option.some.injEq] at hi
        subst hi
        exact .inl ⟨x, hx, rfl⟩
      | succ i => exact .inr ⟨i, c', by simpa using hi, x, hx, by rw [Nat.add_right_comm, Nat.add_assoc]⟩

theorem mem_leaves {f : SF α} {r : Addr} {x : Option α} : (r, x) ∈ leaves f ↔ ∃ g, (r, g) ∈ f.actors ∧ g.isJunction = false ∧ g.actor = x := by
  unfold leaves listed
  simp only [List.mem_map, List.mem_filter, List.nil_append, Prod.mk.injEq]
  constructor
  · rintro ⟨e, ⟨h1, h2⟩, h3, h4⟩
    exact ⟨e.2, by rw [← h3]; exact h1, by simpa using h2, h4⟩
  · rintro ⟨g, h1, h2, h3⟩
    exact ⟨(r, g), ⟨h1, by simpa using h2⟩, rfl, h3⟩

theorem okN_leaves {n : Nat} {f : SF α} (h : OkN n f) : leaves f ≠ [] := h.elim okD_leaves okI_leaves

/-- What a junction read from a list is made of. -/
theorem okN_junction {n : Nat} {link : Str} {cs : List (SF α)} (h : OkN n (.junction link cs)) :
    ∃ m, n = m + 1 ∧ link ∈ junctionScripts ∧ cs ≠ [] ∧ cs.length ≤ 12 ∧ ∀ c ∈ cs, OkN m c := by
  cases n with
  | zero => rcases h with h | h <;> cases h
  | succ m =>
    rcases h with ⟨h1, h2, h3, h4⟩ | ⟨h1, h2, h3, h4⟩
    · exact ⟨m, rfl, h1, h2, h3, fun c hc => .inl (h4 c hc)⟩
    · exact ⟨m, rfl, h1, h2, h3, fun c hc => .inr (h4 c hc)⟩

theorem okN_dep {n : Nat} {a : Option α} {d i : Option (SF α)} (h : OkN n (.dep a d i)) :
    ∃ m, n = m + 1 ∧ (∀ f, d = some f → OkN m f) ∧ ∀ f, i = some f → OkN m f := by
  cases n with
  | zero => rcases h with h | h <;> cases h
  | succ m =>
    rcases h with ⟨h1, h2⟩ | h
    · exact ⟨m, rfl, fun f hf => .inl (h1 f hf), fun f hf => .inr (h2 f hf)⟩
    · cases h

theorem mem_actorsO_iff {q : Str} {o : Option (SF α)} {e : Addr × SF α} : e ∈ actorsO q o ↔ ∃ f, o = some f ∧ ∃ x ∈ f.actors, e = (q :: x.1, x.2) := by
  cases o with
  | none => simp [actorsO]
  | some f =>
    rw [actorsO, List.mem_map]
    constructor
    · rintro ⟨x, hx, rfl⟩
      exact ⟨f, rfl, x, hx, rfl⟩
    · rintro ⟨_, h, x, hx, rfl⟩
      cases h
      exact ⟨x, hx, rfl⟩

theorem index_not_junction : ∀ i ∈ junctionIndex, i ∉ junctionScripts := by decide +kernel

theorem quality_not_junction : independantQuality ∉ junctionScripts ∧ dependantQuality ∉ junctionScripts := by decide +kernel

/-- Below a junction there is a lexeme, at an address that goes on with the script of the junction. -/
theorem junction_below : ∀ {n : Nat} {f : SF α}, OkN n f → ∀ ⦃r : Addr⦄ ⦃link : Str⦄ ⦃cs : List (SF α)⦄, (r, SF.junction link cs) ∈ f.actors →
    link ∈ junctionScripts ∧ ∃ rest x, (r ++ link :: rest, x) ∈ leaves f
  | _, .indep a, _ => by intro r link cs h; simp [SF.actors] at h
  | _, .dep a d i, h => by
    intro r link cs hm
    obtain ⟨m, rfl, hd, hi⟩ := okN_dep h
    rw [SF.actors, List.mem_cons, List.mem_append] at hm
    rcases hm with hm | hm | hm
    · simp at hm
    all_goals
      obtain ⟨g, rfl, ⟨s, k⟩, hx, he⟩ := mem_actorsO_iff.1 hm
      simp only [Prod.mk.injEq] at he
      obtain ⟨rfl, rfl⟩ := he
    · obtain ⟨h1, rest, x, hl⟩ := junction_below (hi g rfl) hx
      refine ⟨h1, rest, x, ?_⟩
      obtain ⟨k, hk, hj, ha⟩ := mem_leaves.1 hl
      refine mem_leaves.2 ⟨k, ?_, hj, ha⟩
      rw [SF.actors, List.mem_cons, List.mem_append]
      exact .inr (.inl (mem_actorsO_iff.2 ⟨g, rfl, _, hk, by simp⟩))
    · obtain ⟨h1, rest, x, hl⟩ := junction_below (hd g rfl) hx
      refine ⟨h1, rest, x, ?_⟩
      obtain ⟨k, hk, hj, ha⟩ := mem_leaves.1 hl
      refine mem_leaves.2 ⟨k, ?_, hj, ha⟩
      rw [SF.actors, List.mem_cons, List.mem_append]
      exact .inr (.inr (mem_actorsO_iff.2 ⟨g, rfl, _, hk, by simp⟩))
  | _, .junction link0 cs0, h => by
    intro r link cs hm
    obtain ⟨m, rfl, hl0, hne, _, hc⟩ := okN_junction h
    rw [SF.actors, List.mem_cons] at hm
    rcases hm with hm | hm
    · simp only [Prod.mk.injEq, SF.junction.injEq] at hm
      obtain ⟨rfl, rfl, rfl⟩ := hm
      refine ⟨hl0, ?_⟩
      cases cs with
      | nil => exact absurd rfl hne
      | cons c cs =>
        obtain ⟨⟨s, x⟩, hs⟩ := List.exists_mem_of_ne_nil _ (okN_leaves (hc c (by simp)))
        obtain ⟨k, hk, hj, ha⟩ := mem_leaves.1 hs
        refine ⟨junctionIndex.getD 0 [] :: s, x, mem_leaves.2 ⟨k, ?_, hj, ha⟩⟩
        rw [SF.actors, List.mem_cons]
        exact .inr (actorsL_iff.2 ⟨0, c, rfl, _, hk, rfl⟩)
    · obtain ⟨i, c, hi, ⟨s, k⟩, hx, he⟩ := actorsL_iff.1 hm
      simp only [Prod.mk.injEq] at he
      obtain ⟨rfl, rfl⟩ := he
      obtain ⟨h1, rest, x, hl⟩ := junction_below (hc c (List.mem_of_getElem? hi)) hx
      refine ⟨h1, rest, x, ?_⟩
      obtain ⟨k, hk, hj, ha⟩ := mem_leaves.1 hl
      refine mem_leaves.2 ⟨k, ?_, hj, ha⟩
      rw [SF.actors, List.mem_cons]
      exact .inr (actorsL_iff.2 ⟨i, c, hi, _, hk, by simp⟩)

/-- Where the address of a lexeme goes on with the script of a junction, there is a junction. -/
theorem junction_above : ∀ {n : Nat} {f : SF α}, OkN n f → ∀ ⦃r : Addr⦄ ⦃link : Str⦄ ⦃rest : Addr⦄ ⦃x : Option α⦄, link ∈ junctionScripts →
    (r ++ link :: rest, x) ∈ leaves f → ∃ cs, (r, SF.junction link cs) ∈ f.actors
  | _, .indep a, _ => by intro r link rest x _ h; simp [leaves_indep] at h
  | _, .dep a d i, h => by
    intro r link rest x hlink hm
    obtain ⟨m, rfl, hd, hi⟩ := okN_dep h
    obtain ⟨k, hk, hj, ha⟩ := mem_leaves.1 hm
    rw [SF.actors, List.mem_cons, List.mem_append] at hk
    rcases hk with hk | hk | hk
    · simp at hk
    all_goals
      obtain ⟨g, rfl, ⟨s, k'⟩, hx, he⟩ := mem_actorsO_iff.1 hk
      simp only [Prod.mk.injEq] at he
      obtain ⟨he, rfl⟩ := he
      cases r with
      | nil =>
        simp only [List.nil_append, List.cons.injEq] at he
        rw [he.1] at hlink
        first
          | exact absurd hlink quality_not_junction.1
          | exact absurd hlink quality_not_junction.2
      | cons q r =>
        simp only [List.cons_append, List.cons.injEq] at he
        obtain ⟨rfl, rfl⟩ := he
        obtain ⟨cs, hcs⟩ := junction_above (by first | exact hi g rfl | exact hd g rfl) hlink (mem_leaves.2 ⟨k, hx, hj, ha⟩)
        refine ⟨cs, ?_⟩
        rw [SF.actors, List.mem_cons, List.mem_append]
        first
          | exact .inr (.inl (mem_actorsO_iff.2 ⟨g, rfl, _, hcs, rfl⟩))
          | exact .inr (.inr (mem_actorsO_iff.2 ⟨g, rfl, _, hcs, rfl⟩))
  | _, .junction link0 cs0, h => by
    intro r link rest x hlink hm
    obtain ⟨m, rfl, hl0, hne, hlen, hc⟩ := okN_junction h
    obtain ⟨k, hk, hj, ha⟩ := mem_leaves.1 hm
    rw [SF.actors, List.mem_cons] at hk
    rcases hk with hk | hk
    · simp at hk
    · obtain ⟨i, c, hi, ⟨s, k'⟩, hx, he⟩ := actorsL_iff.1 hk
      simp only [Prod.mk.injEq, childPrefix, Nat.zero_add, List.cons_append, List.nil_append] at he
      obtain ⟨he, rfl⟩ := he
      have hlt : i < cs0.length := by
        by_contra hge
        rw [List.getElem?_eq_none (by omega)] at hi
        cases hi
      match r, he with
      | [], he =>
        simp only [List.nil_append, List.cons.injEq] at he
        obtain ⟨rfl, _⟩ := he
        exact ⟨cs0, by rw [SF.actors]; simp⟩
      | [q], he =>
        simp only [List.cons_append, List.nil_append, List.cons.injEq] at he
        obtain ⟨_, rfl, _⟩ := he
        exact absurd hlink (index_not_junction _ (junctionIndex_idx i (by omega)).1)
      | q :: q' :: r, he =>
        simp only [List.cons_append, List.cons.injEq] at he
        obtain ⟨rfl, rfl, rfl⟩ := he
        obtain ⟨cs, hcs⟩ := junction_above (hc c (List.mem_of_getElem? hi)) hlink (mem_leaves.2 ⟨k, hx, hj, ha⟩)
        refine ⟨cs, ?_⟩
        rw [SF.actors, List.mem_cons]
        exact .inr (actorsL_iff.2 ⟨i, c, hi, _, hcs, by simp [childPrefix]⟩)

/-! ### The items of `actors` -/

theorem all_nodup {t : SType} {f : SFun α} (h : OkFun t f) : (f.all.map (·.1)).Nodup := by
  have hn := nodes_nodup h
  cases f with
  | quality f =>
    have e : ((SFun.quality f).all.map (·.1)) = f.actors.map (·.1) := by simp [SFun.all, List.map_map, Function.comp_def]
    rw [e]
    exact hn
  | process a v acts =>
    cases t with
    | dependant => cases h
    | independant => cases h
    | process =>
      obtain ⟨hv, n, _, h⟩ := h
      have e : ((SFun.process a v acts).all.map (·.1)) = [v] :: (processActors acts).map (·.1) := by
        simp [SFun.all, List.map_map, Function.comp_def]
      rw [e, List.nodup_cons]
      refine ⟨fun hm => ?_, hn⟩
      obtain ⟨x, hx, hh⟩ := List.mem_map.1 hm
      exact processActors_ne h hv hx hh

theorem node_iff {t : SType} {f g : SFun α} {r : Addr} (h : OkFun t f) : f.node r = some g ↔ (r, g) ∈ f.all := by
  unfold SFun.node
  constructor
  · intro hh
    rw [Option.map_eq_some_iff] at hh
    obtain ⟨e, he, rfl⟩ := hh
    have h1 : e.1 = r := by simpa using List.find?_some he
    rw [← h1]
    exact List.mem_of_find?_eq_some he
  · intro hm
    cases hf : f.all.find? fun e => e.1 = r with
    | none =>
      have := List.find?_eq_none.1 hf _ hm
      simp at this
    | some e =>
      have h1 : e.1 = r := by simpa using List.find?_some hf
      have h2 := List.mem_of_find?_eq_some hf
      have : e = (r, g) := List.inj_on_of_nodup_map (all_nodup h) h2 hm h1
      rw [this]
      rfl

theorem node_none {f : SFun α} {r : Addr} : f.node r = none ↔ ∀ g, (r, g) ∉ f.all := by
  unfold SFun.node
  rw [Option.map_eq_none_iff, List.find?_eq_none]
  constructor
  · intro h g hg
    simpa using h _ hg
  · intro h e he hh
    simp only [decide_eq_true_eq] at hh
    exact h e.2 (by rw [← hh]; exact he)

theorem node_at (f : SFun α) (r : Addr) : (f.node r).map SFun.actor = f.at r := by
  have key : ∀ l : List (Addr × SF α), (((l.map fun e => (e.1, SFun.quality e.2)).find? fun e => e.1 = r).map (·.2)).map SFun.actor =
      (l.find? fun e => e.1 = r).map fun e => e.2.actor := by
    intro l
    induction l with
    | nil => rfl
    | cons e l ih =>
      rw [List.map_cons, List.find?_cons, List.find?_cons]
      by_cases he : e.1 = r
      · simp [he, SFun.actor]
      · simp only [he, decide_false]
        exact ih
  cases f with
  | quality f => exact key _
  | process a v acts =>
    rw [SFun.node, SFun.all, SFun.at, List.find?_cons]
    by_cases he : r = [v]
    · simp [he, SFun.actor]
    · simp only [he, if_false]
      have : decide (([v] : Addr) = r) = false := by simpa using fun h => he h.symm
      simp only [this]
      exact key _

/-- The lexemes are at the items that are no junctions. -/
theorem items_all {f : SFun α} {r : Addr} {x : α} : (r, some x) ∈ f.items ↔ ∃ g, (r, g) ∈ f.all ∧ g.actor = some x := by
  have key : ∀ l : List (Addr × SF α), (r, some x) ∈ listed [] l ↔ ∃ g, (r, g) ∈ (l.map fun e => (e.1, SFun.quality e.2)) ∧ g.actor = some x := by
    intro l
    unfold listed
    simp only [List.mem_map, List.mem_filter, List.nil_append, Prod.mk.injEq]
    constructor
    · rintro ⟨e, ⟨h1, h2⟩, h3, h4⟩
      exact ⟨_, ⟨e, h1, h3, rfl⟩, h4⟩
    · rintro ⟨_, ⟨e, h1, h3, rfl⟩, h4⟩
      refine ⟨e, ⟨h1, ?_⟩, h3, h4⟩
      have h4 : e.2.actor = some x := h4
      cases he : e.2 with
      | junction _ _ => rw [he] at h4; cases h4
      | indep _ => rfl
      | dep _ _ _ => rfl
  cases f with
  | quality f => exact key _
  | process a v acts =>
    rw [SFun.items, SFun.all, List.mem_cons, key]
    constructor
    · rintro (h | ⟨g, h1, h2⟩)
      · simp only [Prod.mk.injEq] at h
        exact ⟨.process a v acts, by rw [h.1]; exact List.mem_cons_self, h.2.symm⟩
      · exact ⟨g, List.mem_cons_of_mem _ h1, h2⟩
    · rintro ⟨g, h1, h2⟩
      rcases List.mem_cons.1 h1 with h1 | h1
      · simp only [Prod.mk.injEq] at h1
        obtain ⟨rfl, rfl⟩ := h1
        exact .inl (by rw [← h2]; rfl)
      · exact .inr ⟨g, h1, h2⟩

/-- `==` of the lists of pairs. -/
theorem eqEntries_iff : ∀ {l m : List (RoleEntry Lexeme)}, eqEntries l m = true ↔
    l.map (fun e => (roleText e.1, e.2.map Lexeme.text)) = m.map fun e => (roleText e.1, e.2.map Lexeme.text)
  | [], [] => by simp [eqEntries]
  | [], _ :: _ => by simp [eqEntries]
  | _ :: _, [] => by simp [eqEntries]
  | (a, x) :: l, (b, y) :: m => by
    rw [eqEntries, Bool.and_eq_true, eqEntries_iff, List.map_cons, List.map_cons, List.cons.injEq]
    refine and_congr ?_ Iff.rfl
    cases x <;> cases y <;> simp [eqEntry, eqActor]

end Verif
