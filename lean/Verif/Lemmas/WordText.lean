import Verif.Lemmas.SFun6
import Verif.Lemmas.OrderSingular
import Verif.Lemmas.Usl

/-
The addresses of a function are different; the text of a word does not depend on the order of the actants.
-/

namespace Verif
variable {α : Type}

/-! ### The addresses -/

theorem mem_actorsL {link : Str} : ∀ {n : Nat} {cs : List (SF α)} {e : Addr × SF α}, e ∈ actorsL link n cs →
    ∃ i, n ≤ i ∧ i < n + cs.length ∧ ∃ c ∈ cs, ∃ x ∈ c.actors, e = (childPrefix link i ++ x.1, x.2)
  | n, [], e, h => by simp [actorsL] at h
  | n, c :: cs, e, h => by
    rw [actorsL, List.mem_append, List.mem_map] at h
    rcases h with ⟨x, hx, rfl⟩ | h
    · exact ⟨n, Nat.le_refl n, by simp, c, by simp, x, hx, rfl⟩
    · obtain ⟨i, h1, h2, c', hc', x, hx, rfl⟩ := mem_actorsL h
      exact ⟨i, by omega, by simp; omega, c', by simp [hc'], x, hx, rfl⟩

theorem nodup_push {p : Addr} {l : List (Addr × SF α)} (h : (l.map (·.1)).Nodup) : ((l.map fun e => (p ++ e.1, e.2)).map (·.1)).Nodup := by
  rw [List.map_map]
  have : ((fun e : Addr × SF α => e.1) ∘ fun e : Addr × SF α => (p ++ e.1, e.2)) = (fun a : Addr => p ++ a) ∘ (fun e : Addr × SF α => e.1) := rfl
  rw [this, ← List.map_map]
  exact h.map (List.append_right_injective p)

theorem actorsL_nodup {link : Str} : ∀ {n : Nat} {cs : List (SF α)}, n + cs.length ≤ 12 → (∀ c ∈ cs, (c.actors.map (·.1)).Nodup) →
    ((actorsL link n cs).map (·.1)).Nodup
  | n, [], _, _ => by simp [actorsL]
  | n, c :: cs, hn, h => by
    simp only [List.length_cons] at hn
    rw [actorsL, List.map_append, List.nodup_append]
    refine ⟨nodup_push (h c (by simp)), actorsL_nodup (by omega) fun c hc => h c (by simp [hc]), ?_⟩
    intro a ha b hb he
    obtain ⟨x, hx, rfl⟩ := List.mem_map.1 ha
    obtain ⟨y, _, rfl⟩ := List.mem_map.1 hx
    obtain ⟨z, hz, rfl⟩ := List.mem_map.1 hb
    obtain ⟨i, h1, h2, c', _, w, _, rfl⟩ := mem_actorsL hz
    simp only [childPrefix, List.cons_append, List.nil_append, List.cons.injEq, true_and] at he
    have h3 := (junctionIndex_idx n (by omega)).2
    have h4 := (junctionIndex_idx i (by omega)).2
    rw [he.1, h4] at h3
    omega

theorem actors_nodup_junction {link : Str} {cs : List (SF α)} (hn : cs.length ≤ 12) (h : ∀ c ∈ cs, (c.actors.map (·.1)).Nodup) :
    ((SF.junction link cs).actors.map (·.1)).Nodup := by
  rw [SF.actors, List.map_cons, List.nodup_cons]
  refine ⟨?_, actorsL_nodup (by omega) h⟩
  intro hm
  obtain ⟨x, hx, he⟩ := List.mem_map.1 hm
  obtain ⟨i, _, _, c', _, w, _, rfl⟩ := mem_actorsL hx
  simp [childPrefix] at he

theorem okI_nodup : ∀ {n : Nat} {f : SF α}, OkI n f → (f.actors.map (·.1)).Nodup
  | n + 1, .indep a, _ => by simp [SF.actors]
  | n + 1, .junction link cs, h => actors_nodup_junction h.2.2.1 fun c hc => okI_nodup (h.2.2.2 c hc)

theorem actorsO_nodup {role : Str} {o : Option (SF α)} (h : ∀ f, o = some f → (f.actors.map (·.1)).Nodup) : ((actorsO role o).map (·.1)).Nodup := by
  cases o with
  | none => simp [actorsO]
  | some f => exact nodup_push (p := [role]) (h f rfl)

theorem mem_actorsO {role : Str} {o : Option (SF α)} {e : Addr × SF α} (h : e ∈ actorsO role o) : ∃ rest, e.1 = role :: rest := by
  cases o with
  | none => simp [actorsO] at h
  | some f =>
    obtain ⟨x, _, rfl⟩ := List.mem_map.1 h
    exact ⟨x.1, rfl⟩

theorem okD_nodup : ∀ {n : Nat} {f : SF α}, OkD n f → (f.actors.map (·.1)).Nodup
  | n + 1, .dep a d i, h => by
    rw [SF.actors, List.map_cons, List.nodup_cons, List.map_append, List.nodup_append]
    refine ⟨?_, actorsO_nodup fun f hf => okI_nodup (h.2 f hf), actorsO_nodup fun f hf => okD_nodup (h.1 f hf), ?_⟩
    · intro hm
      rcases List.mem_append.1 hm with hm | hm
      all_goals
        obtain ⟨x, hx, he⟩ := List.mem_map.1 hm
        obtain ⟨rest, hr⟩ := mem_actorsO hx
        rw [hr] at he
        cases he
    · intro x hx y hy he
      obtain ⟨u, hu, rfl⟩ := List.mem_map.1 hx
      obtain ⟨v, hv, rfl⟩ := List.mem_map.1 hy
      obtain ⟨_, h1⟩ := mem_actorsO hu
      obtain ⟨_, h2⟩ := mem_actorsO hv
      rw [h1, h2] at he
      injection he with he
      exact dep_ne_indep he.symm
  | n + 1, .junction link cs, h => actors_nodup_junction h.2.2.1 fun c hc => okD_nodup (h.2.2.2 c hc)

theorem processActors_nodup : ∀ {acts : List (Str × SF α)}, (acts.map (·.1)).Nodup → (∀ g ∈ acts, (g.2.actors.map (·.1)).Nodup) →
    ((processActors acts).map (·.1)).Nodup
  | [], _, _ => by simp [processActors]
  | g :: acts, hn, h => by
    rw [List.map_cons, List.nodup_cons] at hn
    have e1 : processActors (g :: acts) = (g.2.actors.map fun x => ([g.1] ++ x.1, x.2)) ++ processActors acts := rfl
    rw [e1, List.map_append, List.nodup_append]
    refine ⟨nodup_push (h g (by simp)), processActors_nodup hn.2 fun g hg => h g (by simp [hg]), ?_⟩
    intro a ha b hb he
    obtain ⟨x, hx, rfl⟩ := List.mem_map.1 ha
    obtain ⟨y, _, rfl⟩ := List.mem_map.1 hx
    obtain ⟨z, hz, rfl⟩ := List.mem_map.1 hb
    obtain ⟨g', hg', hz⟩ := List.mem_flatMap.1 hz
    obtain ⟨w, _, rfl⟩ := List.mem_map.1 hz
    simp only [List.cons_append, List.nil_append, List.cons.injEq] at he
    exact hn.1 (by rw [he.1]; exact List.mem_map_of_mem hg')

/-- All the items of `actors` of a function except the process itself. -/
def SFun.nodes : SFun α → List (Addr × SF α)
  | .quality f => f.actors
  | .process _ _ acts => processActors acts

theorem nodes_nodup {t : SType} {f : SFun α} (h : OkFun t f) : (f.nodes.map (·.1)).Nodup := by
  cases t with
  | dependant =>
    cases f with
    | process => cases h
    | quality f => obtain ⟨n, h⟩ := h; exact okD_nodup h
  | independant =>
    cases f with
    | process => cases h
    | quality f => obtain ⟨n, h⟩ := h; exact okI_nodup h
  | process =>
    cases f with
    | quality f => cases h
    | process a v acts =>
      obtain ⟨_, n, hn, h⟩ := h
      exact processActors_nodup hn fun g hg => okD_nodup (h g hg).2

theorem listed_addr {p : Addr} {l : List (Addr × SF α)} : ((listed p l).map (·.1)).Sublist ((l.map (·.1)).map (p ++ ·)) := by
  unfold listed
  rw [List.map_map, List.map_map]
  exact List.filter_sublist.map _

theorem processActors_ne {acts : List (Str × SF α)} {n : Nat} (h : ∀ g ∈ acts, g.1 ∈ actantScripts ∧ OkD n g.2) {v : Str} (hv : v ∈ valenceScripts)
    {e : Addr × SF α} (he : e ∈ processActors acts) : e.1 ≠ [v] := by
  intro hh
  obtain ⟨g, hg, he⟩ := List.mem_flatMap.1 he
  obtain ⟨x, _, rfl⟩ := List.mem_map.1 he
  simp only [List.cons.injEq] at hh
  exact actant_not_valence _ (h g hg).1 (hh.1 ▸ hv)

/-- The addresses of the lexemes of a function are different. -/
theorem items_nodup {t : SType} {f : SFun α} (h : OkFun t f) : (f.items.map (·.1)).Nodup := by
  have hn := nodes_nodup h
  have h1 : ∀ l : List (Addr × SF α), (l.map (·.1)).Nodup → ((listed [] l).map (·.1)).Nodup := by
    intro l hl
    refine List.Nodup.sublist listed_addr ?_
    have e : (l.map (·.1)).map (([] : Addr) ++ ·) = l.map (·.1) := by
      rw [List.map_map]
      rfl
    rw [e]
    exact hl
  cases f with
  | quality f => exact h1 _ hn
  | process a v acts =>
    rw [SFun.items, List.map_cons, List.nodup_cons]
    refine ⟨?_, h1 _ hn⟩
    intro hm
    cases t with
    | dependant => cases h
    | independant => cases h
    | process =>
      have := listed_addr.subset hm
      simp only [List.nil_append, List.map_id'] at this
      obtain ⟨e, he, hh⟩ := List.mem_map.1 this
      exact processActors_ne h.2.choose_spec.2 h.1 he hh

theorem asList_items (t : SType) (f : SFun α) : f.asList t = f.items.map (pushAddr t.pre) := by
  have : ∀ l : List (Addr × SF α), listed t.pre l = (listed [] l).map (pushAddr t.pre) := by
    intro l
    have := listed_push t.pre [] l
    simpa using this
  cases f with
  | quality f => exact this _
  | process a v acts =>
    rw [SFun.asList, SFun.items, List.map_cons, this]
    rfl

/-- The role of a lexeme is its only expansion. -/
theorem expansion_leaf {t : SType} {f : SFun α} (h : OkFun t f) {r : Addr} {x : Option α} (hr : (r, x) ∈ f.items) :
    f.expansion r = .ok [r] := by
  have key : ∀ {l : List (Addr × SF α)}, (l.map (·.1)).Nodup → (r, x) ∈ listed [] l → expandAt l r = .ok [r] := by
    intro l hn hm
    obtain ⟨e, he, hh⟩ := List.mem_map.1 hm
    obtain ⟨he, hj⟩ := List.mem_filter.1 he
    simp only [List.nil_append, Prod.mk.injEq] at hh
    unfold expandAt
    cases hf : l.find? fun e => e.1 = r with
    | none =>
      have := List.find?_eq_none.1 hf e he
      simp [hh.1] at this
    | some e' =>
      have h1 : e'.1 = r := by simpa using List.find?_some hf
      have h2 := List.mem_of_find?_eq_some hf
      have : e' = e := List.inj_on_of_nodup_map hn h2 he (h1.trans hh.1.symm)
      subst this
      simp only
      cases hs : e'.2 with
      | junction link cs => rw [hs] at hj; simp [SF.isJunction] at hj
      | indep a => rfl
      | dep a d i => rfl
  have hn := nodes_nodup h
  cases f with
  | quality f => exact key hn hr
  | process a v acts =>
    rw [SFun.expansion]
    split
    · rfl
    · rename_i hv
      rw [SFun.items, List.mem_cons] at hr
      rcases hr with hr | hr
      · exact absurd (by simpa using congrArg Prod.fst hr) hv
      · exact key hn hr

/-! ### The order of the roles -/

theorem ltNats_eq : ∀ a b : List Nat, ltNats a b = ltBytes a b
  | [], [] => rfl
  | _ :: _, [] => rfl
  | [], _ :: _ => rfl
  | x :: xs, y :: ys => by
    rw [ltNats, ltBytes, ltNats_eq xs ys]

theorem idx_inj {a b : Addr} (ha : ∀ x ∈ a, x ∈ addressScripts) (hb : ∀ x ∈ b, x ∈ addressScripts) (h : a.map addressScripts.idxOf = b.map addressScripts.idxOf) :
    a = b := by
  induction a generalizing b with
  | nil => cases b with
    | nil => rfl
    | cons y b => cases h
  | cons x a ih =>
    cases b with
    | nil => cases h
    | cons y b =>
      simp only [List.map_cons, List.cons.injEq] at h
      rw [ih (fun x hx => ha x (by simp [hx])) (fun x hx => hb x (by simp [hx])) h.2]
      rw [(List.idxOf_inj (ha x (by simp))).1 h.1]

/-- The sorted lists of two lists of items with the same addresses and the same texts. -/
theorem sort_items {text : α → Str} {l l' : List (RoleEntry α)} (ha : ∀ e ∈ l ++ l', ∀ x ∈ e.1, x ∈ addressScripts)
    (hn : (l'.map (·.1)).Nodup)
    (hp : (l.map fun e => (e.1, actorText text e.2)).Perm (l'.map fun e => (e.1, actorText text e.2))) :
    (pySort (fun a b => addrLt a.1 b.1) l).map (fun e => (e.1, actorText text e.2)) =
      (pySort (fun a b => addrLt a.1 b.1) l').map fun e => (e.1, actorText text e.2) := by
  refine pySort_ext (k := fun e => e.1.map addressScripts.idxOf) ?_ ?_ hp
  · intro a _ b _
    exact ltNats_eq _ _
  · intro a hma b hmb
    constructor
    · intro h
      have h1 := idx_inj (ha a hma) (ha b hmb) h
      have hm : ∀ c ∈ l ++ l', ((c.1, actorText text c.2) : Addr × Str) ∈ l'.map fun e => (e.1, actorText text e.2) := by
        intro c hc
        rcases List.mem_append.1 hc with hc | hc
        · exact hp.mem_iff.1 (List.mem_map_of_mem hc)
        · exact List.mem_map_of_mem hc
      have hn' : ((l'.map fun e => ((e.1, actorText text e.2) : Addr × Str)).map (·.1)).Nodup := by
        rw [List.map_map]
        exact hn
      exact List.inj_on_of_nodup_map hn' (hm a hma) (hm b hmb) h1
    · intro h
      simp only [Prod.mk.injEq] at h
      rw [h.1]

/-! ### The scripts of the addresses -/

theorem inner_address {a : Str} (h : Inner a) : a ∈ addressScripts := by
  rcases h with rfl | rfl | h | h
  · decide +kernel
  · decide +kernel
  · simp [addressScripts, h]
  · simp [addressScripts, h]

theorem items_address {t : SType} {f : SFun α} (h : OkFun t f) : ∀ e ∈ f.items, ∀ a ∈ e.1, a ∈ addressScripts := by
  intro e he a ha
  cases t with
  | dependant =>
    cases f with
    | process => cases h
    | quality f => obtain ⟨n, h⟩ := h; exact inner_address (okD_inner h e he a ha)
  | independant =>
    cases f with
    | process => cases h
    | quality f => obtain ⟨n, h⟩ := h; exact inner_address (okI_inner h e he a ha)
  | process =>
    cases f with
    | quality f => cases h
    | process b v acts =>
      obtain ⟨hv, n, _, h⟩ := h
      rw [SFun.items, List.mem_cons] at he
      rcases he with rfl | he
      · simp only [List.mem_singleton] at ha
        subst ha
        simp [addressScripts, hv]
      · rw [listed_process] at he
        obtain ⟨g, hg, x, hx, rfl⟩ := mem_actLeaves he
        simp only [pushAddr, List.cons_append, List.nil_append, List.mem_cons] at ha
        rcases ha with rfl | ha
        · simp [addressScripts, (h g hg).1]
        · exact inner_address (okD_inner (h g hg).2 x hx a ha)

theorem pre_address (t : SType) : ∀ a ∈ t.pre, a ∈ addressScripts := by
  cases t <;> decide +kernel

/-- Every address begins with a script: it is empty only under a prefix. -/
theorem full_address {t : SType} {f : SFun α} (h : OkFun t f) : ∀ e ∈ f.items, t.pre ++ e.1 ≠ [] := by
  intro e he
  cases t with
  | dependant => simp [SType.pre]
  | independant => simp [SType.pre]
  | process =>
    cases f with
    | quality f => cases h
    | process b v acts =>
      rw [SFun.items, List.mem_cons] at he
      rcases he with rfl | he
      · simp [SType.pre]
      · rw [listed_process] at he
        obtain ⟨g, hg, x, hx, rfl⟩ := mem_actLeaves he
        simp [pushAddr]

end Verif
