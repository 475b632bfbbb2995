import Verif.Model.Usl
import Verif.Lemmas.SFun5

/-
Lemmas on words: functions with other actors, expansion of roles, singular sequences.
-/

namespace Verif
variable {α β : Type}

mutual

/-- A function without its actors. -/
def SF.void {α : Type} : SF α → SF Unit
  | .junction link cs => .junction link (voidL cs)
  | .indep _ => .indep none
  | .dep _ d i => .dep none (voidO d) (voidO i)

@[inherit_doc SF.void]
def voidL {α : Type} : List (SF α) → List (SF Unit)
  | [] => []
  | f :: fs => f.void :: voidL fs

@[inherit_doc SF.void]
def voidO {α : Type} : Option (SF α) → Option (SF Unit)
  | none => none
  | some f => some f.void

end

/-- An item without its actors. -/
def voidItem (e : Addr × SF α) : Addr × SF Unit := (e.1, e.2.void)

mutual

theorem actors_void : ∀ f : SF α, f.void.actors = f.actors.map voidItem
  | .junction link cs => by
    rw [SF.actors, List.map_cons, ← actorsL_void, SF.void, SF.actors]
    rfl
  | .indep a => by simp [SF.void, SF.actors, voidItem]
  | .dep a d i => by
    rw [SF.actors, List.map_cons, List.map_append, ← actorsO_void, ← actorsO_void, SF.void, SF.actors]
    rfl

theorem actorsL_void (link : Str) : ∀ (n : Nat) (cs : List (SF α)), actorsL link n (voidL cs) = (actorsL link n cs).map voidItem
  | _, [] => rfl
  | n, f :: fs => by
    rw [voidL, actorsL, actorsL, List.map_append, actorsL_void link (n + 1) fs, actors_void f, List.map_map, List.map_map]
    rfl

theorem actorsO_void (role : Str) : ∀ o : Option (SF α), actorsO role (voidO o) = (actorsO role o).map voidItem
  | none => rfl
  | some f => by
    rw [voidO, actorsO, actorsO, actors_void f, List.map_map, List.map_map]
    rfl

end

mutual

theorem expand_void (role : Addr) : ∀ f : SF α, f.void.expand role = f.expand role
  | .junction link cs => by rw [SF.void, SF.expand, SF.expand, expandL_void]
  | .indep a => rfl
  | .dep a d i => rfl

theorem expandL_void (role : Addr) (link : Str) : ∀ (n : Nat) (cs : List (SF α)), expandL role link n (voidL cs) = expandL role link n cs
  | _, [] => rfl
  | n, f :: fs => by rw [voidL, expandL, expandL, expand_void _ f, expandL_void]

end

theorem expandAt_void (items : List (Addr × SF α)) (role : Addr) : expandAt (items.map voidItem) role = expandAt items role := by
  unfold expandAt
  rw [List.find?_map]
  have e : ((fun e : Addr × SF Unit => decide (e.1 = role)) ∘ voidItem) = fun e : Addr × SF α => decide (e.1 = role) := rfl
  rw [e]
  cases items.find? fun e => decide (e.1 = role) with
  | none => rfl
  | some x => simp [voidItem, expand_void]

/-- A function without its actors. -/
def SFun.void : SFun α → SFun Unit
  | .quality f => .quality f.void
  | .process _ v acts => .process none v (acts.map fun g => (g.1, g.2.void))

theorem expansion_void (f : SFun α) (role : Addr) : f.void.expansion role = f.expansion role := by
  cases f with
  | quality f => rw [SFun.void, SFun.expansion, SFun.expansion, actors_void, expandAt_void]
  | process a v acts =>
    rw [SFun.void, SFun.expansion, SFun.expansion]
    have : processActors (acts.map fun g => (g.1, g.2.void)) = (processActors acts).map voidItem := by
      unfold processActors
      rw [List.flatMap_map, List.map_flatMap]
      congr 1
      funext g
      simp only [actors_void, List.map_map]
      rfl
    rw [this, expandAt_void]

/-! ### Other actors -/

/-- The entries `l` with the actors `xs`. -/
def relab (l : List (RoleEntry α)) (xs : List (Option β)) : List (RoleEntry β) := List.zipWith (fun e x => (e.1, x)) l xs

theorem relab_push (p : Addr) (l : List (RoleEntry α)) (xs : List (Option β)) : relab (l.map (pushAddr p)) xs = (relab l xs).map (pushAddr p) := by
  rw [relab, relab, List.zipWith_map_left, List.map_zipWith]
  rfl

theorem relab_append {l l' : List (RoleEntry α)} {xs : List (Option β)} (h : xs.length = (l ++ l').length) :
    relab (l ++ l') xs = relab l (xs.take l.length) ++ relab l' (xs.drop l.length) := by
  conv_lhs => rw [← List.take_append_drop l.length xs]
  rw [relab, List.zipWith_append]
  · rfl
  · rw [List.length_take, h, List.length_append]
    omega

theorem len_take {l l' : List (RoleEntry α)} {xs : List (Option β)} (h : xs.length = (l ++ l').length) :
    (xs.take l.length).length = l.length ∧ (xs.drop l.length).length = l'.length := by
  rw [List.length_take, List.length_drop, h, List.length_append]
  omega

theorem relabelL {P : SF α → Prop} {Q : SF β → Prop}
    (h : ∀ c, P c → ∀ xs : List (Option β), xs.length = (leaves c).length → ∃ c', Q c' ∧ leaves c' = relab (leaves c) xs ∧ c'.void = c.void)
    (link : Str) : ∀ (n : Nat) (cs : List (SF α)), (∀ c ∈ cs, P c) → ∀ xs : List (Option β), xs.length = (leavesL link n cs).length →
      ∃ cs', cs'.length = cs.length ∧ (∀ c ∈ cs', Q c) ∧ leavesL link n cs' = relab (leavesL link n cs) xs ∧ voidL cs' = voidL cs
  | _, [], _, xs, hx => ⟨[], rfl, by simp, by simp [leavesL, relab], rfl⟩
  | n, c :: cs, hc, xs, hx => by
    rw [leavesL] at hx
    have hx2 := len_take hx
    rw [List.length_map] at hx2
    obtain ⟨c', q1, q2, q3⟩ := h c (hc c (by simp)) _ hx2.1
    obtain ⟨cs', r1, r2, r3, r4⟩ := relabelL h link (n + 1) cs (fun c hm => hc c (by simp [hm])) _ hx2.2
    refine ⟨c' :: cs', by simp [r1], ?_, ?_, by rw [voidL, voidL, q3, r4]⟩
    · intro d hd
      rcases List.mem_cons.1 hd with rfl | hd
      · exact q1
      · exact r2 d hd
    · rw [leavesL, leavesL, relab_append hx, relab_push, List.length_map, q2, r3]

theorem relabelI : ∀ {n : Nat} {f : SF α}, OkI n f → ∀ xs : List (Option β), xs.length = (leaves f).length →
    ∃ f' : SF β, OkI n f' ∧ leaves f' = relab (leaves f) xs ∧ f'.void = f.void
  | 0, _, h, _, _ => absurd h (by simp [OkI])
  | n + 1, .indep a, h, xs, hx => by
    rw [leaves_indep] at hx
    match xs, hx with
    | [x], _ => exact ⟨.indep x, trivial, by rw [leaves_indep, leaves_indep]; rfl, rfl⟩
  | n + 1, .junction link cs, h, xs, hx => by
    rw [leaves_junction] at hx
    obtain ⟨h1, h2, h3, h4⟩ := h
    obtain ⟨cs', r1, r2, r3, r4⟩ := relabelL (P := OkI n) (Q := OkI n) (fun c hc xs hx => relabelI hc xs hx) link 0 cs h4 xs hx
    refine ⟨.junction link cs', ⟨h1, ?_, by omega, r2⟩, by rw [leaves_junction, leaves_junction, r3], by rw [SF.void, SF.void, r4]⟩
    intro he
    subst he
    exact h2 (List.length_eq_zero_iff.1 r1.symm)
  | n + 1, .dep _ _ _, h, _, _ => absurd h (by simp [OkI])

theorem relabelO {P : SF α → Prop} {Q : SF β → Prop}
    (h : ∀ c, P c → ∀ xs : List (Option β), xs.length = (leaves c).length → ∃ c', Q c' ∧ leaves c' = relab (leaves c) xs ∧ c'.void = c.void)
    (role : Str) : ∀ o : Option (SF α), (∀ f, o = some f → P f) → ∀ xs : List (Option β), xs.length = (leavesO role o).length →
      ∃ o' : Option (SF β), (∀ f, o' = some f → Q f) ∧ leavesO role o' = relab (leavesO role o) xs ∧ voidO o' = voidO o
  | none, _, xs, hx => ⟨none, by simp, by simp [leavesO, relab], rfl⟩
  | some f, hf, xs, hx => by
    rw [leavesO, List.length_map] at hx
    obtain ⟨c', q1, q2, q3⟩ := h f (hf f rfl) xs hx
    refine ⟨some c', ?_, by rw [leavesO, leavesO, relab_push, q2], by rw [voidO, voidO, q3]⟩
    intro g hg
    rw [Option.some.injEq] at hg
    exact hg ▸ q1

theorem relabelD : ∀ {n : Nat} {f : SF α}, OkD n f → ∀ xs : List (Option β), xs.length = (leaves f).length →
    ∃ f' : SF β, OkD n f' ∧ leaves f' = relab (leaves f) xs ∧ f'.void = f.void
  | 0, _, h, _, _ => absurd h (by simp [OkD])
  | n + 1, .indep a, h, xs, hx => absurd h (by simp [OkD])
  | n + 1, .junction link cs, h, xs, hx => by
    rw [leaves_junction] at hx
    obtain ⟨h1, h2, h3, h4⟩ := h
    obtain ⟨cs', r1, r2, r3, r4⟩ := relabelL (P := OkD n) (Q := OkD n) (fun c hc xs hx => relabelD hc xs hx) link 0 cs h4 xs hx
    refine ⟨.junction link cs', ⟨h1, ?_, by omega, r2⟩, by rw [leaves_junction, leaves_junction, r3], by rw [SF.void, SF.void, r4]⟩
    intro he
    subst he
    exact h2 (List.length_eq_zero_iff.1 r1.symm)
  | n + 1, .dep a d i, h, xs, hx => by
    rw [leaves_dep] at hx
    match xs, hx with
    | x :: xs, hx =>
      rw [List.length_cons, List.length_cons, Nat.add_right_cancel_iff] at hx
      have hx2 := len_take hx
      obtain ⟨i', q1, q2, q3⟩ := relabelO (P := OkI n) (Q := OkI n) (fun c hc xs hx => relabelI hc xs hx) independantQuality i h.2 _ hx2.1
      obtain ⟨d', r1, r2, r3⟩ := relabelO (P := OkD n) (Q := OkD n) (fun c hc xs hx => relabelD hc xs hx) dependantQuality d h.1 _ hx2.2
      refine ⟨.dep x d' i', ⟨r1, q1⟩, ?_, by rw [SF.void, SF.void, q3, r3]⟩
      rw [leaves_dep, leaves_dep, q2, r2, ← relab_append hx]
      rfl

theorem relabelActs {n : Nat} : ∀ (acts : List (Str × SF α)), (∀ g ∈ acts, OkD n g.2) → ∀ xs : List (Option β), xs.length = (actLeaves acts).length →
    ∃ acts' : List (Str × SF β), acts'.map (·.1) = acts.map (·.1) ∧ (∀ g ∈ acts', OkD n g.2) ∧ actLeaves acts' = relab (actLeaves acts) xs ∧
      (acts'.map fun g => (g.1, g.2.void)) = acts.map fun g => (g.1, g.2.void)
  | [], _, xs, hx => ⟨[], rfl, by simp, by simp [actLeaves, relab], rfl⟩
  | g :: gs, hg, xs, hx => by
    have e1 : actLeaves (g :: gs) = (leaves g.2).map (pushAddr [g.1]) ++ actLeaves gs := rfl
    rw [e1] at hx
    have hx2 := len_take hx
    rw [List.length_map] at hx2
    obtain ⟨c', q1, q2, q3⟩ := relabelD (hg g (by simp)) _ hx2.1
    obtain ⟨gs', r1, r2, r3, r4⟩ := relabelActs gs (fun c hm => hg c (by simp [hm])) _ hx2.2
    refine ⟨(g.1, c') :: gs', by simp [r1], ?_, ?_, by rw [List.map_cons, List.map_cons, q3, r4]⟩
    · intro d hd
      rcases List.mem_cons.1 hd with rfl | hd
      · exact q1
      · exact r2 d hd
    · have e2 : actLeaves ((g.1, c') :: gs') = (leaves c').map (pushAddr [g.1]) ++ actLeaves gs' := rfl
      rw [e1, e2, relab_append hx, relab_push, List.length_map, q2, r3]

/-- A function with other actors. -/
theorem relabel {t : SType} {f : SFun α} (h : OkFun t f) {xs : List (Option β)} (hx : xs.length = (f.asList t).length) :
    ∃ f' : SFun β, fromList (relab (f.asList t) xs) = .ok (t, f') ∧ f'.asList t = relab (f.asList t) xs ∧ f'.void = f.void := by
  have key : ∃ f' : SFun β, OkFun t f' ∧ f'.asList t = relab (f.asList t) xs ∧ f'.void = f.void := by
    cases f with
    | quality g =>
      rw [asList_quality, List.length_map] at hx
      cases t with
      | dependant =>
        obtain ⟨n, h⟩ := h
        obtain ⟨g', r1, r2, r3⟩ := relabelD h xs hx
        exact ⟨.quality g', ⟨n, r1⟩, by rw [asList_quality, asList_quality, relab_push, r2], by rw [SFun.void, SFun.void, r3]⟩
      | independant =>
        obtain ⟨n, h⟩ := h
        obtain ⟨g', r1, r2, r3⟩ := relabelI h xs hx
        exact ⟨.quality g', ⟨n, r1⟩, by rw [asList_quality, asList_quality, relab_push, r2], by rw [SFun.void, SFun.void, r3]⟩
      | process => exact absurd h (by simp [OkFun])
    | process a v acts =>
      cases t with
      | dependant => exact absurd h (by simp [OkFun])
      | independant => exact absurd h (by simp [OkFun])
      | process =>
        obtain ⟨hv, n, h1, h2⟩ := h
        rw [asList_process] at hx
        match xs, hx with
        | x :: xs, hx =>
          rw [List.length_cons, List.length_cons, Nat.add_right_cancel_iff] at hx
          obtain ⟨acts', r1, r2, r3, r4⟩ := relabelActs acts (fun g hg => (h2 g hg).2) xs hx
          refine ⟨.process x v acts', ⟨hv, n, by rw [r1]; exact h1, fun g hg => ⟨?_, r2 g hg⟩⟩, ?_, by rw [SFun.void, SFun.void, r4]⟩
          · have : g.1 ∈ acts'.map (·.1) := List.mem_map_of_mem hg
            rw [r1] at this
            obtain ⟨g', hg', e⟩ := List.mem_map.1 this
            rw [← e]
            exact (h2 g' hg').1
          · rw [asList_process, asList_process, r3]
            rfl
  obtain ⟨f', h1, h2, h3⟩ := key
  exact ⟨f', by rw [← h2]; exact fromList_back h1, h2, h3⟩

end Verif
