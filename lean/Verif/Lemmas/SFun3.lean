import Verif.Lemmas.SFun2
import Mathlib.Data.List.Perm.Basic

/-
Processes, the list form of functions with other actors, and `from_list` on the list form.
-/

namespace Verif
variable {α β : Type}

/-! ### The scripts of the addresses -/

/-- The scripts used inside an actant. -/
def Inner (a : Str) : Prop := a = independantQuality ∨ a = dependantQuality ∨ a ∈ junctionScripts ∨ a ∈ junctionIndex

theorem leavesL_inner {link : Str} (hl : link ∈ junctionScripts) {n : Nat} {cs : List (SF α)} (hn : n + cs.length ≤ 12)
    (h : ∀ c ∈ cs, ∀ e ∈ leaves c, ∀ a ∈ e.1, Inner a) : ∀ e ∈ leavesL link n cs, ∀ a ∈ e.1, Inner a := by
  intro e he a ha
  obtain ⟨i, _, h2, c, hc, x, hx, rfl⟩ := mem_leavesL he
  simp only [pushAddr, childPrefix, List.cons_append, List.nil_append, List.mem_cons] at ha
  rcases ha with rfl | rfl | ha
  · exact .inr (.inr (.inl hl))
  · exact .inr (.inr (.inr (junctionIndex_idx i (by omega)).1))
  · exact h c hc x hx a ha

theorem okI_inner : ∀ {n : Nat} {f : SF α}, OkI n f → ∀ e ∈ leaves f, ∀ a ∈ e.1, Inner a
  | n + 1, .indep x, _ => by simp [leaves_indep]
  | n + 1, .junction link cs, h => by
    rw [leaves_junction]
    exact leavesL_inner h.1 (by have := h.2.2.1; omega) fun c hc => okI_inner (h.2.2.2 c hc)

theorem okD_inner : ∀ {n : Nat} {f : SF α}, OkD n f → ∀ e ∈ leaves f, ∀ a ∈ e.1, Inner a
  | n + 1, .dep x d i, h => by
    rw [leaves_dep]
    intro e he a ha
    rcases List.mem_cons.1 he with rfl | he
    · simp at ha
    · rcases List.mem_append.1 he with he | he
      · cases i with
        | none => simp [leavesO] at he
        | some f =>
          obtain ⟨y, hy, rfl⟩ := List.mem_map.1 he
          simp only [pushAddr, List.cons_append, List.nil_append, List.mem_cons] at ha
          rcases ha with rfl | ha
          · exact .inl rfl
          · exact okI_inner (h.2 f rfl) y hy a ha
      · cases d with
        | none => simp [leavesO] at he
        | some f =>
          obtain ⟨y, hy, rfl⟩ := List.mem_map.1 he
          simp only [pushAddr, List.cons_append, List.nil_append, List.mem_cons] at ha
          rcases ha with rfl | ha
          · exact .inr (.inl rfl)
          · exact okD_inner (h.1 f rfl) y hy a ha
  | n + 1, .junction link cs, h => by
    rw [leaves_junction]
    exact leavesL_inner h.1 (by have := h.2.2.1; omega) fun c hc => okD_inner (h.2.2.2 c hc)

theorem actant_not_inner {a : Str} (h : Inner a) : a ∉ actantScripts := by
  rcases h with rfl | rfl | h | h
  · decide +kernel
  · decide +kernel
  · revert a; decide +kernel
  · revert a; decide +kernel

theorem actant_not_valence : ∀ a ∈ actantScripts, a ∉ valenceScripts := by decide +kernel
theorem dep_not_valence : dependantQuality ∉ valenceScripts := by decide +kernel
theorem indep_not_valence : independantQuality ∉ valenceScripts := by decide +kernel

/-! ### Processes -/

theorem addActant_new {r : Str} {e : RoleEntry α} : ∀ {gs : List (Str × List (RoleEntry α))}, r ∉ gs.map (·.1) → addActant r e gs = gs ++ [(r, [e])]
  | [], _ => rfl
  | g :: gs, h => by
    rw [addActant, if_neg (fun he => h (by simp [he])), addActant_new (fun hm => h (by simp at hm ⊢; exact .inr hm))]
    rfl

theorem addActant_last {r : Str} {e : RoleEntry α} {m : List (RoleEntry α)} : ∀ {gs : List (Str × List (RoleEntry α))}, r ∉ gs.map (·.1) →
    addActant r e (gs ++ [(r, m)]) = gs ++ [(r, m ++ [e])]
  | [], _ => by simp [addActant]
  | g :: gs, h => by
    rw [List.cons_append, addActant, if_neg (fun he => h (by simp [he])),
      addActant_last (fun hm => h (by simp at hm ⊢; exact .inr hm))]
    rfl

theorem procStep_actant {st : ProcState α} {r : Str} {e : RoleEntry α} (hr : r ∈ actantScripts) (he : ∀ a ∈ e.1, Inner a) :
    procStep st (pushAddr [r] e) = .ok { st with actants := addActant r e st.actants } := by
  have h1 : (e.1.filter fun a => decide (a ∈ actantScripts)) = [] := by
    rw [List.filter_eq_nil_iff]
    intro a ha
    simpa using actant_not_inner (he a ha)
  simp [procStep, pushAddr, actant_not_valence r hr, hr, h1]

theorem procFold_more {r : Str} (hr : r ∈ actantScripts) : ∀ (l m : List (RoleEntry α)) (st : ProcState α) (gs : List (Str × List (RoleEntry α))),
    (∀ e ∈ l, ∀ a ∈ e.1, Inner a) → r ∉ gs.map (·.1) → st.actants = gs ++ [(r, m)] →
    (l.map (pushAddr [r])).foldlM procStep st = .ok { st with actants := gs ++ [(r, m ++ l)] }
  | [], m, st, gs, _, _, h => by
    rw [List.map_nil, List.foldlM_nil, List.append_nil, ← h]
    rfl
  | e :: l, m, st, gs, hi, hg, h => by
    rw [List.map_cons, List.foldlM_cons, procStep_actant hr (hi e (by simp))]
    simp only [bind, Except.bind]
    refine (procFold_more hr l (m ++ [e]) _ gs (fun e he => hi e (by simp [he])) hg ?_).trans (by simp)
    rw [h, addActant_last hg]

theorem procFold_actant {r : Str} (hr : r ∈ actantScripts) {l : List (RoleEntry α)} {st : ProcState α} (hne : l ≠ [])
    (hi : ∀ e ∈ l, ∀ a ∈ e.1, Inner a) (hg : r ∉ st.actants.map (·.1)) :
    (l.map (pushAddr [r])).foldlM procStep st = .ok { st with actants := st.actants ++ [(r, l)] } := by
  cases l with
  | nil => exact absurd rfl hne
  | cons e l =>
    rw [List.map_cons, List.foldlM_cons, procStep_actant hr (hi e (by simp))]
    simp only [bind, Except.bind]
    refine (procFold_more hr l [e] _ st.actants (fun e he => hi e (by simp [he])) hg ?_).trans (by simp)
    rw [addActant_new hg]

/-- The list form of the actants of a process. -/
def actLeaves (acts : List (Str × SF α)) : List (RoleEntry α) := acts.flatMap fun g => (leaves g.2).map (pushAddr [g.1])

theorem listed_process (acts : List (Str × SF α)) : listed [] (processActors acts) = actLeaves acts := by
  induction acts with
  | nil => rfl
  | cons g gs ih =>
    have e1 : processActors (g :: gs) = (g.2.actors.map fun x => ([g.1] ++ x.1, x.2)) ++ processActors gs := rfl
    rw [e1, listed_append, listed_push, ih]
    rfl

/-- The actants of a process read from a list. -/
def OkActs (n : Nat) (acts : List (Str × SF α)) : Prop :=
  (acts.map (·.1)).Nodup ∧ ∀ g ∈ acts, g.1 ∈ actantScripts ∧ OkD n g.2

theorem procFold_acts {n : Nat} : ∀ (acts : List (Str × SF α)) (st : ProcState α), (∀ g ∈ acts, g.1 ∈ actantScripts ∧ OkD n g.2) →
    (st.actants.map (·.1) ++ acts.map (·.1)).Nodup →
    (actLeaves acts).foldlM procStep st = .ok { st with actants := st.actants ++ acts.map fun g => (g.1, leaves g.2) }
  | [], st, _, _ => by simp [actLeaves]; rfl
  | g :: gs, st, h, hn => by
    obtain ⟨h1, h2⟩ := h g (by simp)
    have e1 : actLeaves (g :: gs) = (leaves g.2).map (pushAddr [g.1]) ++ actLeaves gs := rfl
    have hg : g.1 ∉ st.actants.map (·.1) := by
      intro hm
      exact (List.disjoint_of_nodup_append hn) hm (by simp)
    rw [e1, List.foldlM_append, procFold_actant h1 (okD_leaves h2) (okD_inner h2) hg]
    simp only [bind, Except.bind]
    refine (procFold_acts gs _ (fun g hg => h g (by simp [hg])) ?_).trans (by simp)
    simpa using hn

/-- The state of the loop of a process. -/
structure OkProc (l : List (RoleEntry α)) (st : ProcState α) : Prop where
  nodup : (st.actants.map (·.1)).Nodup
  keys : ∀ g ∈ st.actants, g.1 ∈ actantScripts ∧ g.2 ≠ []
  sub : ∀ g ∈ st.actants, (g.2.map (pushAddr [g.1])).Sublist l

theorem addActant_keys {r : Str} {e : RoleEntry α} : ∀ {gs : List (Str × List (RoleEntry α))},
    (addActant r e gs).map (·.1) = if r ∈ gs.map (·.1) then gs.map (·.1) else gs.map (·.1) ++ [r]
  | [] => by simp [addActant]
  | g :: gs => by
    rw [addActant]
    split
    · rename_i h
      simp [h]
    · rename_i h
      rw [List.map_cons, addActant_keys]
      simp only [List.map_cons, List.mem_cons, Ne.symm h, false_or]
      split <;> simp

theorem addActant_mem {r : Str} {e : RoleEntry α} : ∀ {gs : List (Str × List (RoleEntry α))} {g : Str × List (RoleEntry α)},
    g ∈ addActant r e gs → g ∈ gs ∨ g = (r, [e]) ∨ ∃ m, (r, m) ∈ gs ∧ g = (r, m ++ [e])
  | [], g, h => by
    rw [addActant, List.mem_singleton] at h
    exact .inr (.inl h)
  | x :: gs, g, h => by
    rw [addActant] at h
    split at h
    · rename_i hx
      rcases List.mem_cons.1 h with rfl | h
      · refine .inr (.inr ⟨x.2, ?_, by rw [hx]⟩)
        rw [← hx]
        simp
      · exact .inl (by simp [h])
    · rcases List.mem_cons.1 h with rfl | h
      · exact .inl (by simp)
      · rcases addActant_mem h with h | h | ⟨m, h, h'⟩
        · exact .inl (by simp [h])
        · exact .inr (.inl h)
        · exact .inr (.inr ⟨m, by simp [h], h'⟩)

theorem procStep_inv {st st' : ProcState α} {e : RoleEntry α} (h : procStep st e = .ok st') :
    (∃ v, v ∈ valenceScripts ∧ e.1 = [v] ∧ st.actor = none ∧ st' = { st with actor := e.2, valence := v }) ∨
    (∃ r rest, r ∈ actantScripts ∧ e.1 = r :: rest ∧ st' = { st with actants := addActant r (rest, e.2) st.actants }) := by
  unfold procStep at h
  split at h
  · cases h
  · rename_i role rest he
    split at h
    · rename_i hv
      split at h
      · cases h
      · rename_i hc
        rw [not_or] at hc
        rw [Except.ok.injEq] at h
        refine .inl ⟨role, hv, ?_, ?_, h.symm⟩
        · rw [he, not_not.1 hc.1]
        · cases ha : st.actor with
          | none => rfl
          | some a => rw [ha] at hc; simp at hc
    · split at h
      · rename_i ha
        split at h
        · rw [Except.ok.injEq] at h
          exact .inr ⟨role, rest, ha, he, h.symm⟩
        · cases h
      · cases h

theorem okProc_step {l : List (RoleEntry α)} {st st' : ProcState α} {e : RoleEntry α} (ok : OkProc l st) (h : procStep st e = .ok st') :
    OkProc (l ++ [e]) st' := by
  rcases procStep_inv h with ⟨v, _, _, _, rfl⟩ | ⟨r, rest, hr, he, rfl⟩
  · exact ⟨ok.nodup, ok.keys, fun g hg => (ok.sub g hg).trans (List.sublist_append_left _ _)⟩
  · refine ⟨?_, ?_, ?_⟩
    · rw [addActant_keys]
      split
      · exact ok.nodup
      · rename_i hm
        simp only [List.nodup_append, List.nodup_singleton, List.mem_singleton, true_and]
        refine ⟨ok.nodup, ?_⟩
        rintro a ha _ rfl rfl
        exact hm ha
    · intro g hg
      rcases addActant_mem hg with hg | rfl | ⟨m, hm, rfl⟩
      · exact ok.keys g hg
      · exact ⟨hr, by simp⟩
      · exact ⟨hr, by simp⟩
    · intro g hg
      have hp : pushAddr [r] (rest, e.2) = e := by rw [pushAddr, List.singleton_append, ← he]
      rcases addActant_mem hg with hg | rfl | ⟨m, hm, rfl⟩
      · exact (ok.sub g hg).trans (List.sublist_append_left _ _)
      · simp [hp]
      · rw [List.map_append, List.map_singleton, hp]
        exact (ok.sub _ hm).append (List.Sublist.refl _)

theorem okProc_fold : ∀ {l done : List (RoleEntry α)} {st st' : ProcState α}, OkProc done st → l.foldlM procStep st = .ok st' →
    OkProc (done ++ l) st'
  | [], done, st, st', ok, h => by
    rw [List.foldlM_nil, pure_ok] at h
    subst h
    simpa using ok
  | e :: l, done, st, st', ok, h => by
    rw [List.foldlM_cons, bind_ok] at h
    obtain ⟨st1, h1, h⟩ := h
    have := okProc_fold (okProc_step ok h1) h
    simpa using this

theorem okProc_init {l : List (RoleEntry α)} {st : ProcState α} (h : l.foldlM procStep ⟨none, [], []⟩ = .ok st) : OkProc l st := by
  have := okProc_fold (done := []) ⟨by simp, by simp, by simp⟩ h
  simpa using this

theorem procFold_valence : ∀ {l : List (RoleEntry α)} {st st' : ProcState α}, l.foldlM procStep st = .ok st' →
    (st.valence ∈ valenceScripts ∨ ∃ e ∈ l, ∃ v rest, e.1 = v :: rest ∧ v ∈ valenceScripts) → st'.valence ∈ valenceScripts
  | [], st, st', h, hv => by
    rw [List.foldlM_nil, pure_ok] at h
    subst h
    simpa using hv
  | e :: l, st, st', h, hv => by
    rw [List.foldlM_cons, bind_ok] at h
    obtain ⟨st1, h1, h⟩ := h
    apply procFold_valence h
    rcases procStep_inv h1 with ⟨v, hv', _, _, rfl⟩ | ⟨r, rest, hr, he, rfl⟩
    · exact .inl hv'
    · rcases hv with hv | ⟨x, hx, v, rest', hxe, hv⟩
      · exact .inl hv
      · rcases List.mem_cons.1 hx with rfl | hx
        · rw [he] at hxe
          injection hxe with h1 h2
          subst h1
          exact absurd hv (actant_not_valence _ hr)
        · exact .inr ⟨x, hx, v, rest', hxe, hv⟩

theorem processFrom_ok {n : Nat} {l : List (RoleEntry α)} {f : SFun α} (h : processFrom n l = .ok f) :
    ∃ st acts, l.foldlM procStep ⟨none, [], []⟩ = .ok st ∧
      List.Forall₂ (fun (g : Str × List (RoleEntry α)) (g' : Str × SF α) => g'.1 = g.1 ∧ fromD n g.2 = .ok g'.2) st.actants acts ∧
      f = .process st.actor st.valence acts := by
  rw [processFrom, bind_ok] at h
  obtain ⟨st, h1, h⟩ := h
  rw [bind_ok] at h
  obtain ⟨acts, h2, h⟩ := h
  rw [pure_ok] at h
  refine ⟨st, acts, h1, (mapM_inv h2).imp ?_, h.symm⟩
  intro g g' hg
  rw [bind_ok] at hg
  obtain ⟨f, hf, hg⟩ := hg
  rw [pure_ok] at hg
  subst hg
  exact ⟨rfl, hf⟩

theorem processFrom_shape {n : Nat} {l : List (RoleEntry α)} {f : SFun α} (h : processFrom n l = .ok f) :
    ∃ a v acts, f = .process a v acts ∧ OkActs n acts ∧
      ((∃ e ∈ l, ∃ w rest, e.1 = w :: rest ∧ w ∈ valenceScripts) → v ∈ valenceScripts) := by
  obtain ⟨st, acts, h1, h2, rfl⟩ := processFrom_ok h
  have ok := okProc_init h1
  have hk : acts.map (·.1) = st.actants.map (·.1) := by
    have : ∀ {l : List (Str × List (RoleEntry α))} {m : List (Str × SF α)}, List.Forall₂ (fun g g' => g'.1 = g.1 ∧ fromD n g.2 = .ok g'.2) l m →
        m.map (·.1) = l.map (·.1) := by
      intro l m h
      induction h with
      | nil => rfl
      | cons h _ ih => rw [List.map_cons, List.map_cons, ih, h.1]
    exact this h2
  refine ⟨_, _, _, rfl, ⟨by rw [hk]; exact ok.nodup, ?_⟩, fun hv => procFold_valence h1 (.inr hv)⟩
  intro g hg
  obtain ⟨g', hg', e1, e2⟩ := forall₂_mem_right h2 hg
  exact ⟨by rw [e1]; exact (ok.keys g' hg').1, fromD_shape e2⟩

/-! ### `from_list` on list forms -/

theorem mapM_head_of {l : List (RoleEntry α)} {role : Str} (h : ∀ e ∈ l, ∃ rest, e.1 = role :: rest) :
    l.mapM headOf = .ok (l.map fun _ => role) := by
  apply mapM_of_forall₂
  rw [List.forall₂_map_right_iff, List.forall₂_same]
  intro e he
  obtain ⟨rest, h⟩ := h e he
  rw [headOf, h]

theorem fromList_prefix {l : List (RoleEntry α)} {role : Str} (hne : l ≠ []) (hr : role ∉ valenceScripts) :
    fromList (l.map (pushAddr [role])) =
      (if role = dependantQuality then (fromD (depthOf (l.map (pushAddr [role]))) l).map fun f => (.dependant, .quality f)
      else if role = independantQuality then (fromI (depthOf (l.map (pushAddr [role]))) l).map fun f => (.independant, .quality f)
      else .error .valueError) := by
  have h1 : (l.map (pushAddr [role])).mapM headOf = .ok ((l.map (pushAddr [role])).map fun _ => role) :=
    mapM_head_of fun e he => by
      obtain ⟨x, _, rfl⟩ := List.mem_map.1 he
      exact ⟨_, rfl⟩
  have h2 : (l.map (pushAddr [role])).map (fun e : RoleEntry α => (e.1.drop 1, e.2)) = l := by
    rw [List.map_map]
    conv_rhs => rw [← List.map_id l]
    apply List.map_congr_left
    intro e _
    simp [pushAddr]
  have h3 : ((l.map (pushAddr [role])).map fun _ => role).filter (fun r => decide (r ∈ valenceScripts)) = [] := by
    rw [List.filter_eq_nil_iff]
    intro x hx
    obtain ⟨_, _, rfl⟩ := List.mem_map.1 hx
    simpa using hr
  have h4 : dedupBy id ((l.map (pushAddr [role])).map fun _ => role) = [role] := by
    apply dedup_single
    · intro x hx
      obtain ⟨_, _, rfl⟩ := List.mem_map.1 hx
      rfl
    · simpa using hne
  rw [fromList, if_neg (by simpa using hne), h1]
  simp only [bind, Except.bind, pure, Except.pure, h2, h3, h4, List.length_nil]
  split
  · omega
  · split
    · omega
    · split
      · cases fromD (depthOf (l.map (pushAddr [role]))) l <;> rfl
      · split
        · cases fromI (depthOf (l.map (pushAddr [role]))) l <;> rfl
        · rfl

/-- A function of the given type that `from_list` can return. -/
def OkFun : SType → SFun α → Prop
  | .dependant, .quality f => ∃ n, OkD n f
  | .independant, .quality f => ∃ n, OkI n f
  | .process, .process _ v acts => v ∈ valenceScripts ∧ ∃ n, OkActs n acts
  | _, _ => False

theorem fromList_ok {l : List (RoleEntry α)} {t : SType} {f : SFun α} (h : fromList l = .ok (t, f)) :
    l ≠ [] ∧
    ((t = .process ∧ processFrom (depthOf l) l = .ok f ∧ (∃ e ∈ l, ∃ w rest, e.1 = w :: rest ∧ w ∈ valenceScripts)) ∨
    (t = .dependant ∧ ∃ m g, l = m.map (pushAddr [dependantQuality]) ∧ f = .quality g ∧ fromD (depthOf l) m = .ok g) ∨
    (t = .independant ∧ ∃ m g, l = m.map (pushAddr [independantQuality]) ∧ f = .quality g ∧ fromI (depthOf l) m = .ok g)) := by
  rw [fromList] at h
  split at h
  · cases h
  rename_i hne
  refine ⟨by simpa using hne, ?_⟩
  simp only at h
  rw [bind_ok] at h
  obtain ⟨roles, h1, h⟩ := h
  have hl : ∀ role, dedupBy id roles = [role] → l = (l.map fun e => (e.1.drop 1, e.2)).map (pushAddr [role]) := by
    intro role hd
    rw [List.map_map]
    conv_lhs => rw [← List.map_id l]
    apply List.map_congr_left
    intro e he
    obtain ⟨r, hr, h3⟩ := mapM_each h1 he
    have : r ∈ dedupBy id roles := mem_dedupId.2 hr
    rw [hd, List.mem_singleton] at this
    subst this
    obtain ⟨addr, x⟩ := e
    unfold headOf at h3
    simp only at h3
    split at h3
    · cases h3
    · rw [Except.ok.injEq] at h3
      subst h3
      rfl
  split at h
  · rename_i hc
    rw [bind_ok] at h
    obtain ⟨g, h2, h⟩ := h
    rw [pure_ok] at h
    injection h with h3 h4
    subst h3 h4
    refine .inl ⟨rfl, h2, ?_⟩
    have hne : (roles.filter fun r => decide (r ∈ valenceScripts)) ≠ [] := by
      intro he
      rw [he] at hc
      simp at hc
    obtain ⟨w, hw⟩ := List.exists_mem_of_ne_nil _ hne
    rw [List.mem_filter] at hw
    obtain ⟨e, he, h3⟩ := (mapM_mem h1).1 hw.1
    refine ⟨e, he, w, ?_⟩
    unfold headOf at h3
    split at h3
    · cases h3
    · rename_i r rest hr
      rw [Except.ok.injEq] at h3
      subst h3
      exact ⟨rest, hr, by simpa using hw.2⟩
  · split at h
    · cases h
    · split at h
      · rename_i role hd
        have hl := hl role hd
        split at h
        · rename_i hr
          rw [bind_ok] at h
          obtain ⟨g, h2, h⟩ := h
          rw [pure_ok] at h
          injection h with h3 h4
          subst h3 h4
          subst hr
          exact .inr (.inl ⟨rfl, _, g, hl, rfl, h2⟩)
        · split at h
          · rename_i hr
            rw [bind_ok] at h
            obtain ⟨g, h2, h⟩ := h
            rw [pure_ok] at h
            injection h with h3 h4
            subst h3 h4
            subst hr
            exact .inr (.inr ⟨rfl, _, g, hl, rfl, h2⟩)
          · cases h
      · cases h

theorem fromList_shape {l : List (RoleEntry α)} {t : SType} {f : SFun α} (h : fromList l = .ok (t, f)) : OkFun t f := by
  obtain ⟨_, ⟨rfl, h1, h2⟩ | ⟨rfl, m, g, _, rfl, h1⟩ | ⟨rfl, m, g, _, rfl, h1⟩⟩ := fromList_ok h
  · obtain ⟨a, v, acts, rfl, h3, h4⟩ := processFrom_shape h1
    exact ⟨h4 h2, _, h3⟩
  · exact ⟨_, fromD_shape h1⟩
  · exact ⟨_, fromI_shape h1⟩

theorem asList_quality (t : SType) (f : SF α) : (SFun.quality f).asList t = (leaves f).map (pushAddr t.pre) := by
  rw [SFun.asList, listed_pre]

theorem asList_process (a : Option α) (v : Str) (acts : List (Str × SF α)) :
    (SFun.process a v acts).asList .process = ([v], a) :: actLeaves acts := by
  rw [SFun.asList, SType.pre, listed_process]
  rfl

theorem mem_actLeaves {acts : List (Str × SF α)} {e : RoleEntry α} (h : e ∈ actLeaves acts) :
    ∃ g ∈ acts, ∃ x ∈ leaves g.2, e = pushAddr [g.1] x := by
  obtain ⟨g, hg, h⟩ := List.mem_flatMap.1 h
  obtain ⟨x, hx, rfl⟩ := List.mem_map.1 h
  exact ⟨g, hg, x, hx, rfl⟩

theorem fromList_back {t : SType} {f : SFun α} (h : OkFun t f) : fromList (f.asList t) = .ok (t, f) := by
  cases t with
  | dependant =>
    cases f with
    | process => cases h
    | quality f =>
      obtain ⟨n, h⟩ := h
      rw [asList_quality, SType.pre, fromList_prefix (okD_leaves h) dep_not_valence, if_pos rfl,
        fromD_leaves h (depth_short (p := [dependantQuality]) fun e he => List.mem_map_of_mem he)]
      rfl
  | independant =>
    cases f with
    | process => cases h
    | quality f =>
      obtain ⟨n, h⟩ := h
      rw [asList_quality, SType.pre, fromList_prefix (okI_leaves h) indep_not_valence, if_neg dep_ne_indep.symm, if_pos rfl,
        fromI_leaves h (depth_short (p := [independantQuality]) fun e he => List.mem_map_of_mem he)]
      rfl
  | process =>
    cases f with
    | quality f => cases h
    | process a v acts =>
      obtain ⟨hv, n, hn, hacts⟩ := h
      rw [asList_process]
      obtain ⟨roles, hr⟩ : ∃ roles, (actLeaves acts).mapM headOf = .ok roles := mapM_total fun e he => by
        obtain ⟨g, _, x, _, rfl⟩ := mem_actLeaves he
        exact ⟨g.1, rfl⟩
      have hroles : (roles.filter fun r => decide (r ∈ valenceScripts)) = [] := by
        rw [List.filter_eq_nil_iff]
        intro r hm
        obtain ⟨e, he, h1⟩ := (mapM_mem hr).1 hm
        obtain ⟨g, hg, x, _, rfl⟩ := mem_actLeaves he
        have : g.1 = r := by
          simp only [headOf, pushAddr, List.singleton_append, Except.ok.injEq] at h1
          exact h1
        subst this
        simpa using actant_not_valence _ (hacts g hg).1
      have hh : (([v], a) :: actLeaves acts : List (RoleEntry α)).mapM headOf = .ok (v :: roles) := by
        rw [List.mapM_cons, hr]
        rfl
      have hp : processFrom (depthOf (([v], a) :: actLeaves acts)) (([v], a) :: actLeaves acts) = .ok (.process a v acts) := by
        rw [processFrom, bind_ok]
        refine ⟨⟨a, v, acts.map fun g => (g.1, leaves g.2)⟩, ?_, ?_⟩
        · rw [List.foldlM_cons]
          have : procStep ⟨none, [], []⟩ (([v], a) : RoleEntry α) = .ok ⟨a, v, []⟩ := by
            simp [procStep, hv]
          rw [this]
          simp only [bind, Except.bind]
          refine (procFold_acts acts _ hacts (by simpa using hn)).trans (by simp)
        · rw [bind_ok]
          refine ⟨acts, ?_, rfl⟩
          apply mapM_of_forall₂
          rw [List.forall₂_map_left_iff, List.forall₂_same]
          intro g hg
          simp only [bind_ok]
          refine ⟨g.2, fromD_leaves (hacts g hg).2 (depth_short (p := [g.1]) fun e he => ?_), rfl⟩
          rw [List.mem_cons]
          exact .inr (List.mem_flatMap.2 ⟨g, hg, List.mem_map_of_mem he⟩)
      rw [fromList, if_neg (by simp), hh]
      simp only [bind, Except.bind, pure, Except.pure]
      rw [List.filter_cons_of_pos (by simpa using hv), hroles, if_pos (show ([v] : List Str).length = 1 from rfl), hp]

end Verif
