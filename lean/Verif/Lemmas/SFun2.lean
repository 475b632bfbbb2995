import Verif.Lemmas.SFun

/-
The reading of lists of roles: the fuel of the model does not matter, the errors raised.
-/

namespace Verif
variable {α : Type}

/-! ### Invariants of the loop of dependant qualities -/

theorem depStep_mem {st st' : DepState α} {e : RoleEntry α} (h : depStep st e = .ok st') :
    (∀ x ∈ st'.dependant, x ∈ st.dependant ∨ e = pushAddr [dependantQuality] x) ∧
    (∀ x ∈ st'.independant, x ∈ st.independant ∨ e = pushAddr [independantQuality] x) := by
  obtain ⟨addr, x⟩ := e
  unfold depStep at h
  split at h
  · split at h
    · cases h
    · rw [Except.ok.injEq] at h
      subst h
      exact ⟨fun x hx => .inl hx, fun x hx => .inl hx⟩
  · rename_i role rest he
    simp only at he
    subst he
    split at h
    · rw [Except.ok.injEq] at h
      subst h
      exact ⟨fun x hx => .inl hx, fun x hx => .inl hx⟩
    · split at h
      · cases h
      · split at h
        · rename_i hr
          rw [Except.ok.injEq] at h
          subst h hr
          refine ⟨fun x hx => .inl hx, fun y hy => ?_⟩
          rcases List.mem_append.1 hy with hy | hy
          · exact .inl hy
          · rw [List.mem_singleton] at hy
            subst hy
            exact .inr rfl
        · split at h
          · rename_i hr
            rw [Except.ok.injEq] at h
            subst h hr
            refine ⟨fun y hy => ?_, fun x hx => .inl hx⟩
            rcases List.mem_append.1 hy with hy | hy
            · exact .inl hy
            · rw [List.mem_singleton] at hy
              subst hy
              exact .inr rfl
          · cases h

theorem depFold_mem : ∀ {l : List (RoleEntry α)} {st st' : DepState α}, l.foldlM depStep st = .ok st' →
    (∀ x ∈ st'.dependant, x ∈ st.dependant ∨ pushAddr [dependantQuality] x ∈ l) ∧
    (∀ x ∈ st'.independant, x ∈ st.independant ∨ pushAddr [independantQuality] x ∈ l)
  | [], st, st', h => by
    rw [List.foldlM_nil, pure_ok] at h
    subst h
    exact ⟨fun x hx => .inl hx, fun x hx => .inl hx⟩
  | e :: l, st, st', h => by
    rw [List.foldlM_cons, bind_ok] at h
    obtain ⟨st1, h1, h⟩ := h
    obtain ⟨a1, a2⟩ := depStep_mem h1
    obtain ⟨b1, b2⟩ := depFold_mem h
    refine ⟨fun x hx => ?_, fun x hx => ?_⟩
    · rcases b1 x hx with h | h
      · rcases a1 x h with h | h
        · exact .inl h
        · exact .inr (by rw [← h]; simp)
      · exact .inr (by simp [h])
    · rcases b2 x hx with h | h
      · rcases a2 x h with h | h
        · exact .inl h
        · exact .inr (by rw [← h]; simp)
      · exact .inr (by simp [h])

theorem depInit_mem {l : List (RoleEntry α)} {st : DepState α} (h : l.foldlM depStep ⟨none, [], [], false⟩ = .ok st) :
    (∀ x ∈ st.dependant, pushAddr [dependantQuality] x ∈ l) ∧ (∀ x ∈ st.independant, pushAddr [independantQuality] x ∈ l) := by
  obtain ⟨h1, h2⟩ := depFold_mem h
  refine ⟨fun x hx => ?_, fun x hx => ?_⟩
  · rcases h1 x hx with h | h
    · simp at h
    · exact h
  · rcases h2 x hx with h | h
    · simp at h
    · exact h

theorem group_mem {l : List (RoleEntry α)} {es : List (Nat × RoleEntry α)} (h : l.mapM splitIndex = .ok es) {i : Nat} {x : RoleEntry α}
    (hx : x ∈ groupOf es i) : ∃ a j, (a :: j :: x.1, x.2) ∈ l := by
  obtain ⟨e, he, rfl⟩ := List.mem_map.1 hx
  obtain ⟨y, hy, hs⟩ := (mapM_mem h).1 (List.mem_filter.1 he).1
  obtain ⟨a, j, rest, h1, _, rfl⟩ := splitIndex_ok hs
  refine ⟨a, j, ?_⟩
  rw [← h1]
  exact hy

/-! ### The fuel -/

/-- All addresses are shorter than `n`. -/
def Short (n : Nat) (l : List (RoleEntry α)) : Prop := 0 < n ∧ ∀ e ∈ l, e.1.length < n

theorem mapM_congr_mem {β γ : Type} {f g : β → Except Err γ} : ∀ {l : List β}, (∀ x ∈ l, f x = g x) → l.mapM f = l.mapM g
  | [], _ => rfl
  | x :: l, h => by
    rw [List.mapM_cons, List.mapM_cons, h x (by simp), mapM_congr_mem (l := l) fun y hy => h y (by simp [hy])]

theorem group_short {n : Nat} {l : List (RoleEntry α)} {es : List (Nat × RoleEntry α)} (hl : Short (n + 1) l) (he : l.mapM splitIndex = .ok es)
    {i : Nat} (hi : i ∈ List.range (keysOf es).length) : Short n (groupOf es i) := by
  constructor
  · have : keysOf es ≠ [] := by
      intro h
      rw [h] at hi
      simp at hi
    obtain ⟨k, hk⟩ := List.exists_mem_of_ne_nil _ this
    obtain ⟨e, hm, _⟩ := List.mem_map.1 (mem_dedupId.1 hk)
    obtain ⟨x, hx, hs⟩ := (mapM_mem he).1 hm
    obtain ⟨a, j, rest, h1, _⟩ := splitIndex_ok hs
    have := hl.2 x hx
    rw [h1] at this
    simp at this
    omega
  · intro x hx
    obtain ⟨a, j, hm⟩ := group_mem he hx
    have := hl.2 _ hm
    simp at this
    omega

theorem junction_congr {rec rec' : List (RoleEntry α) → Except Err (SF α)} {n : Nat} {l : List (RoleEntry α)} (hl : Short (n + 1) l)
    (h : ∀ l', Short n l' → rec l' = rec' l') : junctionFrom rec l = junctionFrom rec' l := by
  unfold junctionFrom
  cases l.mapM headOf with
  | error e => rfl
  | ok heads =>
    simp only [bind, Except.bind]
    split
    · cases he : l.mapM splitIndex with
      | error e => rfl
      | ok es =>
        simp only
        have hm := mapM_congr_mem (f := fun i => rec (groupOf es i)) (g := fun i => rec' (groupOf es i))
          (l := List.range (keysOf es).length) fun i hi => h _ (group_short hl he hi)
        rw [hm]
    · rfl

theorem Short.mono {n m : Nat} {l : List (RoleEntry α)} (h : Short n l) (hm : n ≤ m) : Short m l :=
  ⟨by have := h.1; omega, fun e he => by have := h.2 e he; omega⟩

theorem fromI_fuel_le : ∀ {n m : Nat} {l : List (RoleEntry α)}, Short n l → n ≤ m → fromI n l = fromI m l
  | 0, _, l, h, _ => by cases h.1
  | n + 1, 0, l, h, hm => by omega
  | n + 1, m + 1, l, h1, hm => by
    rw [fromI, fromI, indepFrom.eq_def, indepFrom.eq_def]
    split
    · rfl
    · exact junction_congr h1 fun l' hl' => fromI_fuel_le hl' (by omega)

theorem opt_congr {rec rec' : List (RoleEntry α) → Except Err (SF α)} {l : List (RoleEntry α)} (h : l ≠ [] → rec l = rec' l) :
    optFrom rec l = optFrom rec' l := by
  cases l with
  | nil => rfl
  | cons e l =>
    show (rec (e :: l)).map some = (rec' (e :: l)).map some
    rw [h (by simp)]

theorem strip_short {n : Nat} {l m : List (RoleEntry α)} {role : Str} (hl : Short (n + 1) l) (hm : ∀ x ∈ m, pushAddr [role] x ∈ l)
    (hne : m ≠ []) : Short n m := by
  constructor
  · obtain ⟨x, hx⟩ := List.exists_mem_of_ne_nil _ hne
    have := hl.2 _ (hm x hx)
    simp [pushAddr] at this
    omega
  · intro x hx
    have := hl.2 _ (hm x hx)
    simp [pushAddr] at this
    omega

theorem fromD_fuel_le : ∀ {n m : Nat} {l : List (RoleEntry α)}, Short n l → n ≤ m → fromD n l = fromD m l
  | 0, _, l, h, _ => by cases h.1
  | n + 1, 0, l, h, hm => by omega
  | n + 1, m + 1, l, h1, hm => by
    rw [fromD, fromD, depFrom, depFrom]
    cases he : l.foldlM depStep ⟨none, [], [], false⟩ with
    | error e => rfl
    | ok st =>
      obtain ⟨a1, a2⟩ := depInit_mem he
      simp only [bind, Except.bind]
      rw [junction_congr h1 fun l' hl' => fromD_fuel_le (m := m) hl' (by omega),
        opt_congr fun hne => fromD_fuel_le (m := m) (strip_short h1 a1 hne) (by omega),
        opt_congr fun hne => fromI_fuel_le (m := m) (strip_short h1 a2 hne) (by omega)]

/-- More fuel changes nothing once a result is found. -/
theorem junction_mono {rec rec' : List (RoleEntry α) → Except Err (SF α)} {l : List (RoleEntry α)} {f : SF α}
    (h : ∀ l' f', rec l' = .ok f' → rec' l' = .ok f') (hj : junctionFrom rec l = .ok f) : junctionFrom rec' l = .ok f := by
  obtain ⟨heads, link, es, cs, h1, h2, h3, h4, h5, rfl⟩ := junctionFrom_ok.1 hj
  refine junctionFrom_ok.2 ⟨heads, link, es, cs, h1, h2, h3, h4, ?_, rfl⟩
  exact mapM_of_forall₂ ((mapM_inv h5).imp fun _ _ hx => h _ _ hx)

theorem okI_mono : ∀ {n m : Nat} {f : SF α}, OkI n f → n ≤ m → OkI m f
  | n + 1, 0, _, _, hm => by omega
  | n + 1, m + 1, .indep _, _, _ => trivial
  | n + 1, m + 1, .junction _ _, h, hm => ⟨h.1, h.2.1, h.2.2.1, fun c hc => okI_mono (h.2.2.2 c hc) (by omega)⟩

theorem okD_mono : ∀ {n m : Nat} {f : SF α}, OkD n f → n ≤ m → OkD m f
  | n + 1, 0, _, _, hm => by omega
  | n + 1, m + 1, .dep _ _ _, h, hm =>
    ⟨fun f hf => okD_mono (h.1 f hf) (by omega), fun f hf => okI_mono (h.2 f hf) (by omega)⟩
  | n + 1, m + 1, .junction _ _, h, hm => ⟨h.1, h.2.1, h.2.2.1, fun c hc => okD_mono (h.2.2.2 c hc) (by omega)⟩

/-- The list form is read back with any sufficient fuel. -/
theorem fromI_leaves {n m : Nat} {f : SF α} (h : OkI n f) (hs : Short m (leaves f)) : fromI m (leaves f) = .ok f := by
  rw [fromI_fuel_le hs (Nat.le_max_right n m)]
  exact fromI_back (okI_mono h (Nat.le_max_left n m))

theorem fromD_leaves {n m : Nat} {f : SF α} (h : OkD n f) (hs : Short m (leaves f)) : fromD m (leaves f) = .ok f := by
  rw [fromD_fuel_le hs (Nat.le_max_right n m)]
  exact fromD_back (okD_mono h (Nat.le_max_left n m))

theorem foldl_max_mem : ∀ (l : List Nat) (a : Nat), a ≤ l.foldl max a ∧ ∀ x ∈ l, x ≤ l.foldl max a
  | [], a => by simp
  | y :: l, a => by
    obtain ⟨h1, h2⟩ := foldl_max_mem l (max a y)
    rw [List.foldl_cons]
    refine ⟨by omega, fun x hx => ?_⟩
    rcases List.mem_cons.1 hx with rfl | hx
    · omega
    · exact h2 x hx

theorem depth_lt {l : List (RoleEntry α)} {e : RoleEntry α} (he : e ∈ l) : e.1.length < depthOf l := by
  have := (foldl_max_mem (l.map fun e => e.1.length) 0).2 _ (List.mem_map_of_mem he)
  unfold depthOf
  omega

theorem depth_short {l m : List (RoleEntry α)} {p : Addr} (h : ∀ e ∈ m, pushAddr p e ∈ l) : Short (depthOf l) m := by
  refine ⟨by unfold depthOf; omega, fun e he => ?_⟩
  have := depth_lt (h e he)
  simp [pushAddr] at this
  omega

/-! ### The errors -/

/-- The errors that `from_list` may raise. -/
def Reported (e : Err) : Prop := e = .valueError ∨ e = .indexError

theorem mapM_err {β γ : Type} {f : β → Except Err γ} : ∀ {l : List β} {e : Err}, l.mapM f = .error e → ∃ x ∈ l, f x = .error e
  | [], e, h => by cases h
  | x :: l, e, h => by
    rw [List.mapM_cons] at h
    cases hx : f x with
    | error e' =>
      rw [hx] at h
      simp only [bind, Except.bind, Except.error.injEq] at h
      subst h
      exact ⟨x, by simp, hx⟩
    | ok y =>
      rw [hx] at h
      simp only [bind, Except.bind] at h
      cases hl : l.mapM f with
      | error e' =>
        rw [hl] at h
        simp only [Except.error.injEq] at h
        subst h
        obtain ⟨z, hz, h⟩ := mapM_err hl
        exact ⟨z, by simp [hz], h⟩
      | ok ys =>
        rw [hl] at h
        cases h

theorem headOf_err {e : RoleEntry α} {x : Err} (h : headOf e = .error x) : e.1 = [] ∧ x = .indexError := by
  unfold headOf at h
  split at h
  · rename_i he
    rw [Except.error.injEq] at h
    exact ⟨he, h.symm⟩
  · cases h

theorem splitIndex_err {e : RoleEntry α} {x : Err} (h : splitIndex e = .error x) : Reported x := by
  unfold splitIndex at h
  split at h
  · split at h
    · cases h
    · rw [Except.error.injEq] at h
      exact .inl h.symm
  · rw [Except.error.injEq] at h
    exact .inr h.symm

theorem checkGroups_err {n : Nat} {x : Err} : ∀ {l : List Nat}, checkGroups n l = .error x → Reported x
  | [], h => by cases h
  | i :: is, h => by
    rw [checkGroups] at h
    split at h
    · rw [Except.error.injEq] at h
      exact .inl h.symm
    · split at h
      · rw [Except.error.injEq] at h
        exact .inr h.symm
      · exact checkGroups_err h

theorem bind_err {β γ : Type} {x : Except Err β} {f : β → Except Err γ} {e : Err} :
    (x >>= f) = .error e ↔ x = .error e ∨ ∃ a, x = .ok a ∧ f a = .error e := by
  cases x with
  | error e' => simp [bind, Except.bind]
  | ok a => simp [bind, Except.bind]

theorem junction_err {rec : List (RoleEntry α) → Except Err (SF α)} {n : Nat} {l : List (RoleEntry α)} (hl : Short (n + 1) l)
    (h : ∀ l' e, Short n l' → rec l' = .error e → Reported e) {e : Err} (he : junctionFrom rec l = .error e) : Reported e := by
  rw [junctionFrom, bind_err] at he
  rcases he with he | ⟨heads, _, he⟩
  · obtain ⟨x, _, hx⟩ := mapM_err he
    exact .inr (headOf_err hx).2
  · split at he
    · rw [bind_err] at he
      rcases he with he | ⟨es, h2, he⟩
      · obtain ⟨x, _, hx⟩ := mapM_err he
        exact splitIndex_err hx
      · rw [bind_err] at he
        rcases he with he | ⟨_, _, he⟩
        · exact checkGroups_err he
        · rw [bind_err] at he
          rcases he with he | ⟨_, _, he⟩
          · obtain ⟨i, hi, hx⟩ := mapM_err he
            exact h _ _ (group_short hl h2 hi) hx
          · cases he
    · injection he with he
      exact .inl he.symm

theorem fromI_err : ∀ {n : Nat} {l : List (RoleEntry α)} {e : Err}, Short n l → fromI n l = .error e → Reported e
  | 0, l, e, h, _ => by cases h.1
  | n + 1, l, e, h, he => by
    rw [fromI, indepFrom.eq_def] at he
    split at he
    · cases he
    · exact junction_err h (fun l' e hl' => fromI_err hl') he

theorem depStep_err {st : DepState α} {e : RoleEntry α} {x : Err} (h : depStep st e = .error x) : x = .valueError := by
  unfold depStep at h
  split at h
  · split at h
    · rw [Except.error.injEq] at h
      exact h.symm
    · cases h
  · repeat' split at h
    all_goals first | (cases h; done) | (rw [Except.error.injEq] at h; exact h.symm)

theorem foldlM_err {β σ : Type} {f : σ → β → Except Err σ} {P : Err → Prop} (hf : ∀ s x e, f s x = .error e → P e) :
    ∀ {l : List β} {s : σ} {e : Err}, l.foldlM f s = .error e → P e
  | [], s, e, h => by cases h
  | x :: l, s, e, h => by
    rw [List.foldlM_cons, bind_err] at h
    rcases h with h | ⟨s', _, h⟩
    · exact hf _ _ _ h
    · exact foldlM_err hf h

theorem optFrom_err {rec : List (RoleEntry α) → Except Err (SF α)} {l : List (RoleEntry α)} {e : Err} (h : optFrom rec l = .error e) :
    l ≠ [] ∧ rec l = .error e := by
  cases l with
  | nil => cases h
  | cons x l =>
    refine ⟨by simp, ?_⟩
    replace h : (rec (x :: l)).map some = .error e := h
    cases hr : rec (x :: l) with
    | ok f => rw [hr] at h; cases h
    | error e' =>
      rw [hr] at h
      simpa [Except.map] using h

theorem fromD_err : ∀ {n : Nat} {l : List (RoleEntry α)} {e : Err}, Short n l → fromD n l = .error e → Reported e
  | 0, l, e, h, _ => by cases h.1
  | n + 1, l, e, h, he => by
    rw [fromD, depFrom, bind_err] at he
    rcases he with he | ⟨st, hst, he⟩
    · exact foldlM_err (P := Reported) (fun s x e h => .inl (depStep_err h)) he
    · obtain ⟨a1, a2⟩ := depInit_mem hst
      split at he
      · exact junction_err h (fun l' e hl' => fromD_err hl') he
      · rw [bind_err] at he
        rcases he with he | ⟨d, _, he⟩
        · obtain ⟨hne, he⟩ := optFrom_err he
          exact fromD_err (strip_short h a1 hne) he
        · rw [bind_err] at he
          rcases he with he | ⟨i, _, he⟩
          · obtain ⟨hne, he⟩ := optFrom_err he
            exact fromI_err (strip_short h a2 hne) he
          · cases he

end Verif
