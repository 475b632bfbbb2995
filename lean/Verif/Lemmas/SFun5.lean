import Verif.Lemmas.SFun4

/-
The errors of `from_list`, and the lists without junctions.
-/

namespace Verif
variable {α β : Type}

theorem procStep_err {st : ProcState α} {e : RoleEntry α} {x : Err} (h : procStep st e = .error x) :
    x = .valueError ∨ (x = .indexError ∧ e.1 = []) := by
  unfold procStep at h
  split at h
  · rename_i he
    rw [Except.error.injEq] at h
    exact .inr ⟨h.symm, he⟩
  · repeat' split at h
    all_goals first | (rw [Except.error.injEq] at h; exact .inl h.symm) | cases h

theorem foldlM_err_mem {γ σ : Type} {f : σ → γ → Except Err σ} : ∀ {l : List γ} {s : σ} {e : Err}, l.foldlM f s = .error e →
    ∃ x ∈ l, ∃ s', f s' x = .error e
  | [], s, e, h => by cases h
  | x :: l, s, e, h => by
    rw [List.foldlM_cons, bind_err] at h
    rcases h with h | ⟨s', _, h⟩
    · exact ⟨x, by simp, s, h⟩
    · obtain ⟨y, hy, s2, h2⟩ := foldlM_err_mem h
      exact ⟨y, by simp [hy], s2, h2⟩

/-- The ways `from_list` raises. -/
theorem fromList_err {l : List (RoleEntry α)} {e : Err} (h : fromList l = .error e) :
    e = .valueError ∨ (e = .indexError ∧ ∃ x ∈ l, x.1 = []) ∨
    (∃ st, l.foldlM procStep ⟨none, [], []⟩ = .ok st ∧ ∃ g ∈ st.actants, fromD (depthOf l) g.2 = .error e) ∨
    (∃ m, l = m.map (pushAddr [dependantQuality]) ∧ fromD (depthOf l) m = .error e) ∨
    (∃ m, l = m.map (pushAddr [independantQuality]) ∧ fromI (depthOf l) m = .error e) := by
  rw [fromList] at h
  split at h
  · have h : Except.error Err.valueError = Except.error e := h
    rw [Except.error.injEq] at h
    exact .inl h.symm
  rename_i hne
  rw [bind_err] at h
  rcases h with h | ⟨roles, h1, h⟩
  · obtain ⟨x, hx, h⟩ := mapM_err h
    exact .inr (.inl ⟨(headOf_err h).2, x, hx, (headOf_err h).1⟩)
  have hroles := mapM_inv h1
  dsimp only at h
  split at h
  · rw [bind_err] at h
    rcases h with h | ⟨_, _, h⟩
    · rw [processFrom, bind_err] at h
      rcases h with h | ⟨st, h2, h⟩
      · obtain ⟨x, hx, s', h⟩ := foldlM_err_mem h
        rcases procStep_err h with h | ⟨h, h'⟩
        · exact .inl h
        · exact .inr (.inl ⟨h, x, hx, h'⟩)
      · rw [bind_err] at h
        rcases h with h | ⟨_, _, h⟩
        · obtain ⟨g, hg, h⟩ := mapM_err h
          rw [bind_err] at h
          rcases h with h | ⟨_, _, h⟩
          · exact .inr (.inr (.inl ⟨st, h2, g, hg, h⟩))
          · cases h
        · cases h
    · cases h
  · split at h
    · have h : Except.error Err.valueError = Except.error e := h
      rw [Except.error.injEq] at h
      exact .inl h.symm
    · split at h
      · rename_i role hr
        have hl : l = (l.map fun e => (e.1.drop 1, e.2)).map (pushAddr [role]) := by
          rw [List.map_map]
          conv_lhs => rw [← List.map_id l]
          apply List.map_congr_left
          intro x hx
          obtain ⟨r, hrm, hxr⟩ := forall₂_mem_left hroles hx
          have : r ∈ dedupBy id roles := mem_dedupId.2 hrm
          rw [hr, List.mem_singleton] at this
          subst this
          obtain ⟨a, y⟩ := x
          cases a with
          | nil => cases hxr
          | cons b a =>
            have : b = r := by simpa [headOf] using hxr
            subst this
            rfl
        split at h
        · rename_i hd
          subst hd
          rw [bind_err] at h
          rcases h with h | ⟨_, _, h⟩
          · exact .inr (.inr (.inr (.inl ⟨_, hl, h⟩)))
          · cases h
        · split at h
          · rename_i hd
            subst hd
            rw [bind_err] at h
            rcases h with h | ⟨_, _, h⟩
            · exact .inr (.inr (.inr (.inr ⟨_, hl, h⟩)))
            · cases h
          · have h : Except.error Err.valueError = Except.error e := h
            rw [Except.error.injEq] at h
            exact .inl h.symm
      · have h : Except.error Err.valueError = Except.error e := h
        rw [Except.error.injEq] at h
        exact .inl h.symm

theorem fromList_reported {l : List (RoleEntry α)} {e : Err} (h : fromList l = .error e) : Reported e := by
  rcases fromList_err h with h | ⟨h, _⟩ | ⟨st, h1, g, hg, h⟩ | ⟨m, hm, h⟩ | ⟨m, hm, h⟩
  · exact .inl h
  · exact .inr h
  · exact fromD_err (depth_short (p := [g.1]) fun x hx => ((okProc_init h1).sub g hg).subset (List.mem_map_of_mem hx)) h
  · exact fromD_err (depth_short (p := [dependantQuality]) fun x hx => by rw [hm]; exact List.mem_map_of_mem hx) h
  · exact fromI_err (depth_short (p := [independantQuality]) fun x hx => by rw [hm]; exact List.mem_map_of_mem hx) h

/-! ### Lists without junctions -/

/-- No script of a junction. -/
def Plain (l : List (RoleEntry α)) : Prop := ∀ e ∈ l, ∀ a ∈ e.1, a ∉ junctionScripts

theorem Plain.sub {l m : List (RoleEntry α)} {p : Addr} (h : Plain l) (hs : (m.map (pushAddr p)).Sublist l) : Plain m := by
  intro e he a ha
  exact h _ (hs.subset (List.mem_map_of_mem he)) a (by simp [pushAddr, ha])

theorem junctionFrom_plain {rec : List (RoleEntry α) → Except Err (SF α)} {l : List (RoleEntry α)} (hp : Plain l) (hne : ∀ e ∈ l, e.1 ≠ []) :
    junctionFrom rec l = .error .valueError := by
  rw [junctionFrom]
  cases hh : l.mapM headOf with
  | error e =>
    obtain ⟨x, hx, h⟩ := mapM_err hh
    exact absurd (headOf_err h).1 (hne x hx)
  | ok heads =>
    have : (heads.filter fun h => decide (h ∈ junctionScripts)) = [] := by
      rw [List.filter_eq_nil_iff]
      intro r hr
      obtain ⟨x, hx, h⟩ := forall₂_mem_right (mapM_inv hh) hr
      obtain ⟨a, y⟩ := x
      cases a with
      | nil => cases h
      | cons b a =>
        have : b = r := by simpa [headOf] using h
        subst this
        simpa using hp _ hx b (by simp)
    simp only [bind, Except.bind]
    rw [this]
    rfl

/-- The entries at the address `p` are separate from the others. -/
theorem fromI_plain {n : Nat} {l : List (RoleEntry α)} {q : Addr} (hp : Plain l) (hs : Separate (l.map (pushAddr (q ++ [independantQuality])))) :
    fromI n l ≠ .error .indexError := by
  cases n with
  | zero => rw [fromI]; simp
  | succ n =>
    intro h
    rw [fromI, indepFrom.eq_def] at h
    split at h
    · cases h
    · rename_i hl
      by_cases hne : ∀ e ∈ l, e.1 ≠ []
      · rw [junctionFrom_plain hp hne] at h
        cases h
      · push_neg at hne
        obtain ⟨e, he, hn⟩ := hne
        obtain ⟨a, x⟩ := e
        simp only at hn
        subst hn
        have hall : ∀ e', List.Sublist [([], x), e'] l ∨ List.Sublist [e', ([], x)] l → False := by
          rintro e' (hsub | hsub)
          · have := hs.sublist (hsub.map _)
            have := (List.pairwise_cons.1 this).1 _ (by simp; rfl)
            exact this.1 q (by simp [pushAddr]) (by simp [pushAddr])
          · have := hs.sublist (hsub.map _)
            have := (List.pairwise_cons.1 this).1 _ (by simp; rfl)
            exact this.2 q (by simp [pushAddr]) (by simp [pushAddr])
        obtain ⟨u, v, rfl⟩ := List.append_of_mem he
        cases v with
        | cons e' v =>
          exact hall e' (.inl ((List.Sublist.cons_cons _ (List.Sublist.cons_cons _ (List.nil_sublist v))).trans
            (List.sublist_append_right u _)))
        | nil =>
          cases u with
          | nil => exact hl x rfl
          | cons e' u =>
            exact hall e' (.inr (List.Sublist.cons_cons _ (List.sublist_append_right u _)))

theorem depStep_sub {done : List (RoleEntry α)} {st st' : DepState α} {e : RoleEntry α} (h : depStep st e = .ok st')
    (h1 : (st.dependant.map (pushAddr [dependantQuality])).Sublist done)
    (h2 : (st.independant.map (pushAddr [independantQuality])).Sublist done) :
    (st'.dependant.map (pushAddr [dependantQuality])).Sublist (done ++ [e]) ∧
    (st'.independant.map (pushAddr [independantQuality])).Sublist (done ++ [e]) := by
  have a1 := h1.trans (List.sublist_append_left done [e])
  have a2 := h2.trans (List.sublist_append_left done [e])
  obtain ⟨addr, x⟩ := e
  unfold depStep at h
  split at h
  · split at h
    · cases h
    · rw [Except.ok.injEq] at h
      subst h
      exact ⟨a1, a2⟩
  · rename_i role rest he
    simp only at he
    subst he
    split at h
    · rw [Except.ok.injEq] at h
      subst h
      exact ⟨a1, a2⟩
    · split at h
      · cases h
      · split at h
        · rename_i hr
          rw [Except.ok.injEq] at h
          subst h hr
          refine ⟨a1, ?_⟩
          simp only [List.map_append]
          exact h2.append (.refl _)
        · split at h
          · rename_i hr
            rw [Except.ok.injEq] at h
            subst h hr
            refine ⟨?_, a2⟩
            simp only [List.map_append]
            exact h1.append (.refl _)
          · cases h

theorem depFold_sub : ∀ {l done : List (RoleEntry α)} {st st' : DepState α}, l.foldlM depStep st = .ok st' →
    (st.dependant.map (pushAddr [dependantQuality])).Sublist done → (st.independant.map (pushAddr [independantQuality])).Sublist done →
    (st'.dependant.map (pushAddr [dependantQuality])).Sublist (done ++ l) ∧
    (st'.independant.map (pushAddr [independantQuality])).Sublist (done ++ l)
  | [], done, st, st', h, h1, h2 => by
    rw [List.foldlM_nil, pure_ok] at h
    subst h
    simpa using ⟨h1, h2⟩
  | e :: l, done, st, st', h, h1, h2 => by
    rw [List.foldlM_cons, bind_ok] at h
    obtain ⟨st1, h3, h⟩ := h
    obtain ⟨a, b⟩ := depStep_sub h3 h1 h2
    have := depFold_sub h a b
    simpa using this

theorem depStep_plain {st st' : DepState α} {e : RoleEntry α} (hp : ∀ a ∈ e.1, a ∉ junctionScripts) (h : depStep st e = .ok st') :
    st'.junction = st.junction := by
  unfold depStep at h
  split at h
  · split at h
    · cases h
    · rw [Except.ok.injEq] at h
      subst h
      rfl
  · rename_i role rest he
    rw [if_neg (hp role (by rw [he]; simp))] at h
    repeat' split at h
    all_goals first | (rw [Except.ok.injEq] at h; subst h; rfl) | cases h

theorem depFold_plain : ∀ {l : List (RoleEntry α)} {st st' : DepState α}, Plain l → l.foldlM depStep st = .ok st' → st'.junction = st.junction
  | [], st, st', _, h => by
    rw [List.foldlM_nil, pure_ok] at h
    rw [h]
  | e :: l, st, st', hp, h => by
    rw [List.foldlM_cons, bind_ok] at h
    obtain ⟨st1, h3, h⟩ := h
    rw [depFold_plain (fun e he => hp e (by simp [he])) h, depStep_plain (hp e (by simp)) h3]

theorem Separate.sub {l m : List (RoleEntry α)} {p q : Addr} (h : Separate (l.map (pushAddr p))) (hs : (m.map (pushAddr q)).Sublist l) :
    Separate (m.map (pushAddr (p ++ q))) := by
  have := List.Pairwise.sublist (hs.map (pushAddr p)) h
  rw [List.map_map] at this
  have e : pushAddr p ∘ pushAddr q = (pushAddr (p ++ q) : RoleEntry α → RoleEntry α) := by
    funext e
    simp [pushAddr]
  rw [e] at this
  exact this

theorem fromD_plain : ∀ {n : Nat} {l : List (RoleEntry α)} {p : Addr}, Plain l → Separate (l.map (pushAddr p)) → fromD n l ≠ .error .indexError
  | 0, _, _, _, _ => by rw [fromD]; simp
  | n + 1, l, p, hp, hs => by
    intro h
    rw [fromD, depFrom, bind_err] at h
    rcases h with h | ⟨st, h1, h⟩
    · obtain ⟨x, _, s, h⟩ := foldlM_err_mem h
      cases depStep_err h
    · rw [depFold_plain hp h1] at h
      obtain ⟨s1, s2⟩ := depFold_sub (done := []) h1 (by simp) (by simp)
      rw [List.nil_append] at s1 s2
      simp only [Bool.false_eq_true, if_false] at h
      rw [bind_err] at h
      rcases h with h | ⟨_, _, h⟩
      · exact fromD_plain (hp.sub s1) (hs.sub s1) (optFrom_err h).2
      · rw [bind_err] at h
        rcases h with h | ⟨_, _, h⟩
        · exact fromI_plain (hp.sub s2) (hs.sub s2) (optFrom_err h).2
        · cases h

theorem fromList_plain {l : List (RoleEntry α)} (hne : ∀ e ∈ l, e.1 ≠ []) (hp : Plain l) (hs : Separate l) : fromList l ≠ .error .indexError := by
  intro h
  rcases fromList_err h with h | ⟨_, x, hx, h⟩ | ⟨st, h1, g, hg, h⟩ | ⟨m, hm, h⟩ | ⟨m, hm, h⟩
  · cases h
  · exact hne x hx h
  · have s := (okProc_init h1).sub g hg
    exact fromD_plain (p := [g.1]) (hp.sub s) (List.Pairwise.sublist s hs) h
  · rw [hm] at hs hp
    exact fromD_plain (p := [dependantQuality]) (hp.sub (.refl _)) hs h
  · rw [hm] at hs hp
    exact fromI_plain (q := []) (hp.sub (.refl _)) hs h

end Verif
