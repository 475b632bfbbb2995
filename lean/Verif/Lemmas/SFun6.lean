import Verif.Lemmas.SFun3

/-
Reading the list form of a function in any order.
-/

namespace Verif
variable {α : Type}

theorem mapM_perm {β γ : Type} {f : β → Except Err γ} {l l' : List β} (hp : l.Perm l') : ∀ {r : List γ}, l.mapM f = .ok r →
    ∃ r', l'.mapM f = .ok r' ∧ r.Perm r' := by
  intro r h
  obtain ⟨r', h1, h2⟩ := List.perm_comp_forall₂ hp.symm (mapM_inv h)
  exact ⟨r', mapM_of_forall₂ h1, h2.symm⟩

theorem keysOf_perm {es es' : List (Nat × RoleEntry α)} (h : es.Perm es') : (keysOf es).Perm (keysOf es') := by
  rw [List.perm_ext_iff_of_nodup (nodup_dedupId _) (nodup_dedupId _)]
  intro a
  rw [mem_dedupId, mem_dedupId]
  exact (h.map _).mem_iff

theorem groupOf_perm {es es' : List (Nat × RoleEntry α)} (h : es.Perm es') (i : Nat) : (groupOf es i).Perm (groupOf es' i) :=
  (h.filter _).map _

theorem junction_perm {rec : List (RoleEntry α) → Except Err (SF α)} {link : Str} {cs : List (SF α)} (hl : link ∈ junctionScripts)
    (hne : cs ≠ []) (hlen : cs.length ≤ 12) (hv : ∀ c ∈ cs, leaves c ≠ []) (hrec : ∀ c ∈ cs, ∀ l, l.Perm (leaves c) → rec l = .ok c)
    {l : List (RoleEntry α)} (hp : l.Perm (leavesL link 0 cs)) : junctionFrom rec l = .ok (.junction link cs) := by
  have hk := tagged_keys (n := 0) hv
  have hL := leavesL_ne_nil (link := link) (n := 0) hne hv
  have hln : l ≠ [] := fun h => hL (by rw [h] at hp; exact hp.symm.eq_nil)
  obtain ⟨es, he, hes⟩ := mapM_perm hp.symm (leavesL_split (link := link) (n := 0) (cs := cs) (by omega))
  have hkp := keysOf_perm hes.symm
  rw [hk] at hkp
  have hkl : (keysOf es).length = cs.length := by rw [hkp.length_eq, List.length_range']
  refine junctionFrom_ok.2 ⟨l.map fun _ => link, link, es, cs, ?_, ?_, he, ?_, ?_, rfl⟩
  · apply mapM_head_of
    intro e he
    obtain ⟨i, _, _, c, _, x, _, rfl⟩ := mem_leavesL (hp.mem_iff.1 he)
    exact ⟨_, rfl⟩
  · rw [List.filter_eq_self.2]
    · apply dedup_single
      · intro x hx
        obtain ⟨_, _, rfl⟩ := List.mem_map.1 hx
        rfl
      · simpa using hln
    · intro x hx
      obtain ⟨_, _, rfl⟩ := List.mem_map.1 hx
      simpa using hl
  · rw [checkGroups_ok, hkl]
    intro i hi
    have := List.mem_range'_1.1 (hkp.mem_iff.1 hi)
    omega
  · rw [hkl]
    apply mapM_of_forall₂
    rw [List.forall₂_iff_get]
    refine ⟨by simp, ?_⟩
    intro i h1 h2
    have h3 : i < cs.length := by simpa using h1
    have := tagged_group (n := 0) i h3
    rw [Nat.zero_add] at this
    simp only [List.get_eq_getElem, List.getElem_range]
    refine hrec _ (List.getElem_mem h3) _ ?_
    rw [← this]
    exact groupOf_perm hes.symm i

theorem fromI_perm : ∀ {n : Nat} {f : SF α}, OkI n f → ∀ {l : List (RoleEntry α)}, l.Perm (leaves f) → fromI n l = .ok f
  | n + 1, .indep a, _, l, hp => by
    rw [leaves_indep, List.perm_singleton] at hp
    subst hp
    rfl
  | n + 1, .junction link cs, h, l, hp => by
    obtain ⟨h1, h2, h3, h4⟩ := h
    rw [leaves_junction] at hp
    have hj := junction_perm (rec := fromI n) h1 h2 h3 (fun c hc => okI_leaves (h4 c hc)) (fun c hc l hl => fromI_perm (h4 c hc) hl) hp
    rw [fromI, indepFrom.eq_def]
    split
    · rename_i x
      have : (([], x) : RoleEntry α) ∈ leavesL link 0 cs := hp.mem_iff.1 (by simp)
      obtain ⟨i, _, _, c, _, y, _, e⟩ := mem_leavesL this
      simp [pushAddr, childPrefix] at e
    · exact hj

/-- An entry under the role `r`, without this role. -/
def stripRole (r : Str) (e : RoleEntry α) : Option (RoleEntry α) :=
  match e.1 with
  | [] => none
  | a :: rest => if a = r then some (rest, e.2) else none

theorem strip_push (r : Str) (e : RoleEntry α) : stripRole r (pushAddr [r] e) = some e := by
  simp [stripRole, pushAddr]

theorem strip_other {r r' : Str} (h : r' ≠ r) (e : RoleEntry α) : stripRole r (pushAddr [r'] e) = none := by
  simp [stripRole, pushAddr, h]

theorem strip_map (r : Str) (l : List (RoleEntry α)) : (l.map (pushAddr [r])).filterMap (stripRole r) = l := by
  rw [List.filterMap_map]
  have : (stripRole r ∘ pushAddr [r]) = (some : RoleEntry α → _) := by
    funext e; exact strip_push r e
  rw [this]
  exact List.filterMap_some

theorem strip_map_other {r r' : Str} (h : r' ≠ r) (l : List (RoleEntry α)) : (l.map (pushAddr [r'])).filterMap (stripRole r) = [] := by
  rw [List.filterMap_map]
  have : (stripRole r ∘ pushAddr [r']) = fun _ : RoleEntry α => none := by
    funext e; exact strip_other h e
  rw [this, List.filterMap_eq_nil_iff]
  simp

theorem fold_quality : ∀ (l : List (RoleEntry α)) (st : DepState α), st.junction = false →
    (∀ e ∈ l, (∃ x, e = pushAddr [independantQuality] x) ∨ ∃ x, e = pushAddr [dependantQuality] x) →
    l.foldlM depStep st = .ok { st with independant := st.independant ++ l.filterMap (stripRole independantQuality)
                                        dependant := st.dependant ++ l.filterMap (stripRole dependantQuality) }
  | [], st, _, _ => by simp; rfl
  | e :: l, st, h, hl => by
    rw [List.foldlM_cons]
    rcases hl e (by simp) with ⟨x, rfl⟩ | ⟨x, rfl⟩
    · have : depStep st (pushAddr [independantQuality] x) = .ok { st with independant := st.independant ++ [x] } := by
        simp [depStep, pushAddr, indep_not_junction, h]
      rw [this]
      simp only [bind, Except.bind]
      refine (fold_quality l { st with independant := st.independant ++ [x] } h fun e he => hl e (by simp [he])).trans ?_
      have e1 := strip_push independantQuality x
      have e2 := strip_other dep_ne_indep.symm x
      simp [e1, e2]
    · have : depStep st (pushAddr [dependantQuality] x) = .ok { st with dependant := st.dependant ++ [x] } := by
        simp [depStep, pushAddr, dep_not_junction, h, dep_ne_indep]
      rw [this]
      simp only [bind, Except.bind]
      refine (fold_quality l { st with dependant := st.dependant ++ [x] } h fun e he => hl e (by simp [he])).trans ?_
      have e1 := strip_push dependantQuality x
      have e2 := strip_other dep_ne_indep x
      simp [e1, e2]

theorem optFrom_perm {rec : List (RoleEntry α) → Except Err (SF α)} {o : Option (SF α)} (hv : ∀ f, o = some f → leaves f ≠ [])
    (h : ∀ f, o = some f → ∀ l, l.Perm (leaves f) → rec l = .ok f) {l : List (RoleEntry α)} (hp : l.Perm (optLeaves o)) :
    optFrom rec l = .ok o := by
  cases o with
  | none =>
    rw [optLeaves, List.perm_nil] at hp
    subst hp
    rfl
  | some f =>
    rw [optLeaves] at hp
    rw [optFrom.eq_def]
    split
    · exact absurd hp.symm.eq_nil (hv f rfl)
    · rw [h f rfl _ hp]
      rfl

theorem fromD_perm : ∀ {n : Nat} {f : SF α}, OkD n f → ∀ {l : List (RoleEntry α)}, l.Perm (leaves f) → fromD n l = .ok f
  | n + 1, .dep a d i, h, l, hp => by
    obtain ⟨h1, h2⟩ := h
    rw [leaves_dep, leavesO_eq, leavesO_eq] at hp
    obtain ⟨l1, l2, rfl⟩ := List.append_of_mem (hp.mem_iff.2 (List.mem_cons_self))
    have hp' := (List.perm_middle.symm.trans hp).cons_inv
    have hq : ∀ e ∈ l1 ++ l2, (∃ x, e = pushAddr [independantQuality] x) ∨ ∃ x, e = pushAddr [dependantQuality] x := by
      intro e he
      rcases List.mem_append.1 (hp'.mem_iff.1 he) with he | he
      · obtain ⟨x, _, rfl⟩ := List.mem_map.1 he
        exact .inl ⟨x, rfl⟩
      · obtain ⟨x, _, rfl⟩ := List.mem_map.1 he
        exact .inr ⟨x, rfl⟩
    rw [fromD, depFrom, bind_ok]
    refine ⟨⟨a, (l1 ++ l2).filterMap (stripRole dependantQuality), (l1 ++ l2).filterMap (stripRole independantQuality), false⟩, ?_, ?_⟩
    · rw [List.foldlM_append, fold_quality l1 _ rfl fun e he => hq e (by simp [he])]
      simp only [bind, Except.bind, List.nil_append, List.foldlM_cons, depStep]
      rw [fold_quality l2 _ rfl fun e he => hq e (by simp [he])]
      simp
    · simp only [Bool.false_eq_true, if_false]
      have hd := hp'.filterMap (stripRole dependantQuality)
      have hi := hp'.filterMap (stripRole independantQuality)
      rw [List.filterMap_append (l' := (optLeaves d).map _), strip_map_other dep_ne_indep.symm, strip_map, List.nil_append] at hd
      rw [List.filterMap_append (l' := (optLeaves d).map _), strip_map_other dep_ne_indep, strip_map, List.append_nil] at hi
      rw [optFrom_perm (fun f hf => okD_leaves (h1 f hf)) (fun f hf l hl => fromD_perm (h1 f hf) hl) hd]
      rw [optFrom_perm (fun f hf => okI_leaves (h2 f hf)) (fun f hf l hl => fromI_perm (h2 f hf) hl) hi]
      rfl
  | n + 1, .junction link cs, h, l, hp => by
    obtain ⟨h1, h2, h3, h4⟩ := h
    rw [leaves_junction] at hp
    have hj := junction_perm (rec := fromD n) h1 h2 h3 (fun c hc => okD_leaves (h4 c hc)) (fun c hc l hl => fromD_perm (h4 c hc) hl) hp
    rw [fromD, depFrom]
    obtain ⟨st, h5, h6⟩ := fold_junction h1 l ⟨none, [], [], false⟩
      (fun e => leavesL_ne_nil (link := link) (n := 0) h2 (fun c hc => okD_leaves (h4 c hc)) (by rw [e] at hp; exact hp.symm.eq_nil)) (by
        intro e he
        obtain ⟨i, _, _, c, _, x, _, rfl⟩ := mem_leavesL (hp.mem_iff.1 he)
        exact ⟨_, rfl⟩)
    rw [h5]
    simp only [bind, Except.bind, h6, if_true]
    exact hj

/-- With any sufficient fuel. -/
theorem fromI_leaves_perm {n m : Nat} {f : SF α} (h : OkI n f) {l : List (RoleEntry α)} (hp : l.Perm (leaves f)) (hs : Short m l) : fromI m l = .ok f := by
  rw [fromI_fuel_le hs (Nat.le_max_right n m)]
  exact fromI_perm (okI_mono h (Nat.le_max_left n m)) hp

theorem fromD_leaves_perm {n m : Nat} {f : SF α} (h : OkD n f) {l : List (RoleEntry α)} (hp : l.Perm (leaves f)) (hs : Short m l) : fromD m l = .ok f := by
  rw [fromD_fuel_le hs (Nat.le_max_right n m)]
  exact fromD_perm (okD_mono h (Nat.le_max_left n m)) hp

/-! ### Processes -/

/-- The state of the loop after the entries `done`, all of them under actants. -/
structure Sorted (done : List (RoleEntry α)) (gs : List (Str × List (RoleEntry α))) : Prop where
  nodup : (gs.map (·.1)).Nodup
  all : ∀ g ∈ gs, g.2 = done.filterMap (stripRole g.1)
  keys : ∀ r, r ∈ gs.map (·.1) ↔ ∃ e ∈ done, ∃ rest, e.1 = r :: rest

theorem mem_addActant {r : Str} {e : RoleEntry α} : ∀ {gs : List (Str × List (RoleEntry α))}, (gs.map (·.1)).Nodup →
    ∀ {g : Str × List (RoleEntry α)}, g ∈ addActant r e gs → (g.1 ≠ r ∧ g ∈ gs) ∨ (g = (r, [e]) ∧ r ∉ gs.map (·.1)) ∨ ∃ m, (r, m) ∈ gs ∧ g = (r, m ++ [e])
  | [], _, g, h => by
    rw [addActant, List.mem_singleton] at h
    exact .inr (.inl ⟨h, by simp⟩)
  | x :: gs, hn, g, h => by
    rw [List.map_cons, List.nodup_cons] at hn
    rw [addActant] at h
    split at h
    · rename_i hx
      rcases List.mem_cons.1 h with rfl | h
      · refine .inr (.inr ⟨x.2, ?_, by rw [hx]⟩)
        rw [← hx]
        simp
      · refine .inl ⟨?_, by simp [h]⟩
        intro he
        rw [← hx] at he
        exact hn.1 (he ▸ List.mem_map_of_mem h)
    · rename_i hx
      rcases List.mem_cons.1 h with rfl | h
      · exact .inl ⟨hx, by simp⟩
      · rcases mem_addActant hn.2 h with ⟨h1, h2⟩ | ⟨h1, h2⟩ | ⟨m, h, h'⟩
        · exact .inl ⟨h1, by simp [h2]⟩
        · refine .inr (.inl ⟨h1, ?_⟩)
          rw [List.map_cons, List.mem_cons, not_or]
          exact ⟨Ne.symm hx, h2⟩
        · exact .inr (.inr ⟨m, by simp [h], h'⟩)

theorem Sorted.add {done : List (RoleEntry α)} {gs : List (Str × List (RoleEntry α))} (h : Sorted done gs) (r : Str) (e : RoleEntry α) :
    Sorted (done ++ [pushAddr [r] e]) (addActant r e gs) := by
  refine ⟨?_, ?_, ?_⟩
  · rw [addActant_keys]
    split
    · exact h.nodup
    · rename_i hm
      simp only [List.nodup_append, List.nodup_singleton, List.mem_singleton, true_and]
      refine ⟨h.nodup, ?_⟩
      rintro a ha _ rfl rfl
      exact hm ha
  · intro g hg
    rw [List.filterMap_append]
    rcases mem_addActant h.nodup hg with ⟨h1, h2⟩ | ⟨rfl, h2⟩ | ⟨m, hm, rfl⟩
    · rw [← h.all g h2, List.filterMap_cons, strip_other (Ne.symm h1)]
      simp
    · rw [List.filterMap_cons, strip_push]
      have : done.filterMap (stripRole r) = [] := by
        rw [List.filterMap_eq_nil_iff]
        intro x hx
        unfold stripRole
        split
        · rfl
        · rename_i a rest hxe
          split
          · rename_i har
            subst har
            exact absurd ((h.keys a).2 ⟨x, hx, rest, hxe⟩) h2
          · rfl
      simp [this]
    · rw [List.filterMap_cons, strip_push, ← h.all _ hm]
      simp
  · intro a
    rw [addActant_keys]
    have : (∃ x ∈ done ++ [pushAddr [r] e], ∃ rest, x.1 = a :: rest) ↔ (∃ x ∈ done, ∃ rest, x.1 = a :: rest) ∨ a = r := by
      constructor
      · rintro ⟨x, hx, rest, hxe⟩
        rcases List.mem_append.1 hx with hx | hx
        · exact .inl ⟨x, hx, rest, hxe⟩
        · rw [List.mem_singleton] at hx
          subst hx
          simp only [pushAddr, List.cons_append, List.nil_append, List.cons.injEq] at hxe
          exact .inr hxe.1.symm
      · rintro (⟨x, hx, rest, hxe⟩ | rfl)
        · exact ⟨x, by simp [hx], rest, hxe⟩
        · exact ⟨pushAddr [a] e, by simp, e.1, rfl⟩
    rw [this, ← h.keys]
    split
    · rename_i hr
      constructor
      · exact .inl
      · rintro (h | rfl)
        · exact h
        · exact hr
    · simp

theorem procFold_sorted : ∀ {l done : List (RoleEntry α)} {st : ProcState α}, Sorted done st.actants →
    (∀ e ∈ l, ∃ r x, r ∈ actantScripts ∧ (∀ a ∈ x.1, Inner a) ∧ e = pushAddr [r] x) →
    ∃ gs, Sorted (done ++ l) gs ∧ l.foldlM procStep st = .ok { st with actants := gs }
  | [], done, st, hs, _ => ⟨st.actants, by simpa using hs, rfl⟩
  | e :: l, done, st, hs, h => by
    obtain ⟨r, x, hr, hi, rfl⟩ := h e (by simp)
    obtain ⟨gs, h1, h2⟩ := procFold_sorted (l := l) (st := { st with actants := addActant r x st.actants }) (hs.add r x) fun e he => h e (by simp [he])
    refine ⟨gs, by simpa using h1, ?_⟩
    rw [List.foldlM_cons, procStep_actant hr hi]
    exact h2

theorem actLeaves_strip {r : Str} : ∀ {acts : List (Str × SF α)} {f : SF α}, (acts.map (·.1)).Nodup → (r, f) ∈ acts →
    (actLeaves acts).filterMap (stripRole r) = leaves f
  | [], f, _, h => by cases h
  | g :: acts, f, hn, h => by
    rw [List.map_cons, List.nodup_cons] at hn
    have e1 : actLeaves (g :: acts) = (leaves g.2).map (pushAddr [g.1]) ++ actLeaves acts := rfl
    have none : ∀ {acts : List (Str × SF α)}, r ∉ acts.map (·.1) → (actLeaves acts).filterMap (stripRole r) = [] := by
      intro acts hr
      rw [List.filterMap_eq_nil_iff]
      intro e he
      obtain ⟨g, hg, x, _, rfl⟩ := mem_actLeaves he
      exact strip_other (fun e : g.1 = r => hr (by rw [← e]; exact List.mem_map_of_mem hg)) x
    rw [e1, List.filterMap_append]
    rcases List.mem_cons.1 h with rfl | h
    · rw [strip_map, none hn.1, List.append_nil]
    · rw [strip_map_other, List.nil_append, actLeaves_strip hn.2 h]
      intro e
      exact hn.1 (e ▸ List.mem_map_of_mem h)

/-- The same function, up to the order in which the actants were given. -/
def SameFun : SFun α → SFun α → Prop
  | .quality f, .quality g => f = g
  | .process a v acts, .process b w acts' => a = b ∧ v = w ∧ acts.Perm acts'
  | _, _ => False

theorem mapM_head_count {l : List (RoleEntry α)} {roles : List Str} (h : l.mapM headOf = .ok roles) :
    (roles.filter fun r => decide (r ∈ valenceScripts)).length = (l.filter fun e => decide (e.1.headD [] ∈ valenceScripts)).length := by
  have := mapM_inv h
  clear h
  induction this with
  | nil => rfl
  | @cons e r l roles h1 _ ih =>
    have : e.1.headD [] = r := by
      unfold headOf at h1
      split at h1
      · cases h1
      · rename_i he
        rw [he]
        simpa using h1
    rw [List.filter_cons, List.filter_cons, this]
    split <;> simp [ih]

theorem fromList_perm {t : SType} {f : SFun α} (h : OkFun t f) {l : List (RoleEntry α)} (hp : l.Perm (f.asList t)) :
    ∃ f', fromList l = .ok (t, f') ∧ SameFun f f' := by
  have quality : ∀ {role : Str} {m : List (RoleEntry α)}, l.Perm (m.map (pushAddr [role])) → ∃ m' : List (RoleEntry α), l = m'.map (pushAddr [role]) ∧ m'.Perm m := by
    intro role m hp
    have hl : l = (l.filterMap (stripRole role)).map (pushAddr [role]) := by
      have : ∀ l : List (RoleEntry α), (∀ e ∈ l, ∃ x, e = pushAddr [role] x) → l = (l.filterMap (stripRole role)).map (pushAddr [role]) := by
        intro l
        induction l with
        | nil => intro _; rfl
        | cons e l ih =>
          intro h
          obtain ⟨x, rfl⟩ := h e (by simp)
          rw [List.filterMap_cons, strip_push, List.map_cons, ← ih fun e he => h e (by simp [he])]
      refine this l fun e he => ?_
      obtain ⟨x, _, rfl⟩ := List.mem_map.1 (hp.mem_iff.1 he)
      exact ⟨x, rfl⟩
    refine ⟨_, hl, ?_⟩
    have := hp.filterMap (stripRole role)
    rwa [strip_map] at this
  cases t with
  | dependant =>
    cases f with
    | process => cases h
    | quality f =>
      obtain ⟨n, h⟩ := h
      rw [asList_quality, SType.pre] at hp
      obtain ⟨m, rfl, hm⟩ := quality hp
      refine ⟨.quality f, ?_, rfl⟩
      rw [fromList_prefix (fun e => okD_leaves h (by rw [e] at hm; exact hm.symm.eq_nil)) dep_not_valence, if_pos rfl,
        fromD_leaves_perm h hm (depth_short (p := [dependantQuality]) fun e he => List.mem_map_of_mem he)]
      rfl
  | independant =>
    cases f with
    | process => cases h
    | quality f =>
      obtain ⟨n, h⟩ := h
      rw [asList_quality, SType.pre] at hp
      obtain ⟨m, rfl, hm⟩ := quality hp
      refine ⟨.quality f, ?_, rfl⟩
      rw [fromList_prefix (fun e => okI_leaves h (by rw [e] at hm; exact hm.symm.eq_nil)) indep_not_valence, if_neg dep_ne_indep.symm, if_pos rfl,
        fromI_leaves_perm h hm (depth_short (p := [independantQuality]) fun e he => List.mem_map_of_mem he)]
      rfl
  | process =>
    cases f with
    | quality f => cases h
    | process a v acts =>
      obtain ⟨hv, n, hn, hacts⟩ := h
      rw [asList_process] at hp
      obtain ⟨l1, l2, rfl⟩ := List.append_of_mem (hp.mem_iff.2 (List.mem_cons_self))
      have hp' := (List.perm_middle.symm.trans hp).cons_inv
      have hq : ∀ e ∈ l1 ++ l2, ∃ r x, r ∈ actantScripts ∧ (∀ a ∈ x.1, Inner a) ∧ e = pushAddr [r] x := by
        intro e he
        obtain ⟨g, hg, x, hx, rfl⟩ := mem_actLeaves (hp'.mem_iff.1 he)
        exact ⟨g.1, x, (hacts g hg).1, okD_inner (hacts g hg).2 x hx, rfl⟩
      obtain ⟨roles, hr⟩ : ∃ roles, (l1 ++ ([v], a) :: l2).mapM headOf = .ok roles := mapM_total fun e he => by
        rcases List.mem_cons.1 (hp.mem_iff.1 he) with rfl | he
        · exact ⟨v, rfl⟩
        · obtain ⟨g, _, x, _, rfl⟩ := mem_actLeaves he
          exact ⟨g.1, rfl⟩
      have hcount : (roles.filter fun r => decide (r ∈ valenceScripts)).length = 1 := by
        rw [mapM_head_count hr, (hp.filter _).length_eq, List.filter_cons_of_pos (by simpa using hv), List.filter_eq_nil_iff.2]
        · rfl
        · intro e he
          obtain ⟨g, hg, x, _, rfl⟩ := mem_actLeaves he
          simpa [pushAddr] using actant_not_valence _ (hacts g hg).1
      obtain ⟨gs1, hs1, hf1⟩ := procFold_sorted (l := l1) (done := []) (st := ⟨none, [], []⟩) ⟨by simp, by simp, by simp⟩
        fun e he => hq e (by simp [he])
      obtain ⟨gs, hs, hf⟩ := procFold_sorted (l := l2) (done := l1) (st := ⟨a, v, gs1⟩) (by simpa using hs1)
        fun e he => hq e (by simp [he])
      have hfold : (l1 ++ ([v], a) :: l2).foldlM procStep ⟨none, [], []⟩ = .ok ⟨a, v, gs⟩ := by
        rw [List.foldlM_append, hf1]
        simp only [bind, Except.bind]
        rw [List.foldlM_cons]
        have : procStep ⟨none, [], gs1⟩ (([v], a) : RoleEntry α) = .ok ⟨a, v, gs1⟩ := by
          simp [procStep, hv]
        rw [this]
        exact hf
      -- the actants read
      have hkey : ∀ g ∈ gs, ∃ f, (g.1, f) ∈ acts ∧ g.2.Perm (leaves f) := by
        intro g hg
        obtain ⟨e, he, rest, h1⟩ := (hs.keys g.1).1 (List.mem_map_of_mem hg)
        obtain ⟨g', hg', x, hx, rfl⟩ := mem_actLeaves (hp'.mem_iff.1 he)
        simp only [pushAddr, List.cons_append, List.nil_append, List.cons.injEq] at h1
        refine ⟨g'.2, by rw [← h1.1]; exact hg', ?_⟩
        rw [hs.all g hg, ← actLeaves_strip (r := g.1) hn (by rw [← h1.1]; exact hg')]
        exact hp'.filterMap _
      have hmap : ∀ g ∈ gs, ∃ g' : Str × SF α, g'.1 = g.1 ∧ g' ∈ acts ∧ fromD (depthOf (l1 ++ ([v], a) :: l2)) g.2 = .ok g'.2 := by
        intro g hg
        obtain ⟨f, h1, h2⟩ := hkey g hg
        refine ⟨(g.1, f), rfl, h1, fromD_leaves_perm (hacts _ h1).2 h2 (depth_short (p := [g.1]) fun e he => ?_)⟩
        refine hp.mem_iff.2 (List.mem_cons_of_mem _ (List.mem_flatMap.2 ⟨_, h1, List.mem_map_of_mem (h2.mem_iff.1 he)⟩))
      obtain ⟨acts', ha⟩ : ∃ acts', List.Forall₂ (fun (g : Str × List (RoleEntry α)) (g' : Str × SF α) => g'.1 = g.1 ∧ g' ∈ acts ∧
          fromD (depthOf (l1 ++ ([v], a) :: l2)) g.2 = .ok g'.2) gs acts' := by
        clear hs hf hfold hkey
        induction gs with
        | nil => exact ⟨[], .nil⟩
        | cons g gs ih =>
          obtain ⟨l, hl⟩ := ih fun g hg => hmap g (by simp [hg])
          obtain ⟨g', hg'⟩ := hmap g (by simp)
          exact ⟨g' :: l, .cons hg' hl⟩
      have hk : acts'.map (·.1) = gs.map (·.1) := by
        clear hs hf hfold hkey hmap
        induction ha with
        | nil => rfl
        | cons h _ ih => rw [List.map_cons, List.map_cons, ih, h.1]
      have hperm : acts.Perm acts' := by
        have hn' : acts'.Nodup := List.Nodup.of_map _ (by rw [hk]; exact hs.nodup)
        rw [List.perm_ext_iff_of_nodup (List.Nodup.of_map _ hn) hn']
        intro g
        constructor
        · intro hg
          have hne := okD_leaves (hacts g hg).2
          obtain ⟨x, hx⟩ := List.exists_mem_of_ne_nil _ hne
          have hm : pushAddr [g.1] x ∈ l1 ++ l2 := hp'.mem_iff.2 (List.mem_flatMap.2 ⟨g, hg, List.mem_map_of_mem hx⟩)
          have := (hs.keys g.1).2 ⟨_, hm, x.1, rfl⟩
          rw [← hk] at this
          obtain ⟨g', hg', he⟩ := List.mem_map.1 this
          obtain ⟨_, _, h1⟩ := forall₂_mem_right ha hg'
          have : g' = g := List.inj_on_of_nodup_map hn h1.2.1 hg he
          exact this ▸ hg'
        · intro hg
          obtain ⟨_, _, h1⟩ := forall₂_mem_right ha hg
          exact h1.2.1
      have hpf : processFrom (depthOf (l1 ++ ([v], a) :: l2)) (l1 ++ ([v], a) :: l2) = .ok (.process a v acts') := by
        rw [processFrom, bind_ok]
        refine ⟨_, hfold, ?_⟩
        rw [bind_ok]
        refine ⟨acts', mapM_of_forall₂ (ha.imp ?_), rfl⟩
        rintro g ⟨k, f⟩ ⟨h1, _, h2⟩
        simp only at h1 h2
        subst h1
        simp only [bind_ok]
        exact ⟨f, h2, rfl⟩
      refine ⟨.process a v acts', ?_, rfl, rfl, hperm⟩
      rw [fromList, if_neg (by simp), hr]
      simp only [bind, Except.bind, pure, Except.pure]
      rw [if_pos hcount, hpf]

end Verif
