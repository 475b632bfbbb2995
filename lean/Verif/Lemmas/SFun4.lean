import Verif.Lemmas.SFun3
import Verif.Spec.Roles
import Mathlib.Data.List.Perm.Basic
import Mathlib.Data.List.Forall2

/-
Reading a list of roles loses no actor; lists without junctions raise no `IndexError`; functions with other actors.
-/

namespace Verif
variable {α β : Type}

/-! ### No actor is lost -/

/-- The entries of `l`, up to the order, with some scripts replaced, are those of `k`. -/
def Conserved (l k : List (RoleEntry α)) : Prop := ∃ m, List.Forall₂ Moved (solid l) m ∧ m.Perm (solid k)

theorem Rewritten.refl : ∀ p : Addr, Rewritten p p
  | [] => .nil
  | _ :: p => .same (Rewritten.refl p)

theorem index_disjoint {i : Str} (h : i ∈ junctionIndex) : i ∉ junctionScripts := by
  have : ∀ i ∈ junctionIndex, i ∉ junctionScripts := by decide +kernel
  exact this i h

theorem Rewritten.head {p q : Addr} (h : Rewritten p q) {i : Str} (hq : q.head? = some i) (hi : i ∈ junctionIndex) : p.head? = some i := by
  cases h with
  | nil => exact hq
  | same h => exact hq
  | link h1 h2 h3 h4 h5 =>
    rw [List.head?_cons, Option.some.injEq] at hq
    subst hq
    exact absurd h2 (index_disjoint hi)

theorem Rewritten.trans {p q r : Addr} (h : Rewritten p q) (h' : Rewritten q r) : Rewritten p r := by
  induction h generalizing r with
  | nil => exact h'
  | same h ih =>
    cases h' with
    | same h' => exact .same (ih h')
    | link h1 h2 h3 h4 h5 => exact .link h1 h2 (h.head h3 h4) h4 (ih h5)
  | link h1 h2 h3 h4 h5 ih =>
    cases h' with
    | same h' => exact .link h1 h2 h3 h4 (ih h')
    | link h6 _ _ _ _ => exact absurd h2 h6

theorem Rewritten.push {q r : Addr} (h : Rewritten q r) : ∀ p : Addr, Rewritten (p ++ q) (p ++ r)
  | [] => h
  | _ :: p => .same (Rewritten.push h p)

theorem Rewritten.eq_of_indexed {p q : Addr} (h : Rewritten p q) (hp : Indexed p) : q = p := by
  induction h with
  | nil => rfl
  | same h ih =>
    rename_i a p q
    rw [ih]
    cases p with
    | nil => trivial
    | cons i p => exact hp.2
  | link h1 h2 h3 h4 h5 ih =>
    rename_i a b i p q
    cases p with
    | nil => cases h3
    | cons j p =>
      rw [List.head?_cons, Option.some.injEq] at h3
      subst h3
      exact absurd (hp.1 h4) h1

theorem Moved.refl (e : RoleEntry α) : Moved e e := ⟨rfl, .refl _⟩

theorem forall₂_trans {γ : Type} {R : γ → γ → Prop} (hR : ∀ a b c, R a b → R b c → R a c) :
    ∀ {l m k : List γ}, List.Forall₂ R l m → List.Forall₂ R m k → List.Forall₂ R l k
  | _, _, _, .nil, .nil => .nil
  | _, _, _, .cons h1 t1, .cons h2 t2 => .cons (hR _ _ _ h1 h2) (forall₂_trans hR t1 t2)

theorem Moved.trans {a b c : RoleEntry α} (h : Moved a b) (h' : Moved b c) : Moved a c := ⟨h'.1.trans h.1, h.2.trans h'.2⟩

theorem Moved.push {e e' : RoleEntry α} (p : Addr) (h : Moved e e') : Moved (pushAddr p e) (pushAddr p e') := ⟨h.1, h.2.push p⟩

theorem solid_append (l m : List (RoleEntry α)) : solid (l ++ m) = solid l ++ solid m := List.filter_append ..

theorem solid_push (p : Addr) (l : List (RoleEntry α)) : solid (l.map (pushAddr p)) = (solid l).map (pushAddr p) := by
  rw [solid, List.filter_map]
  rfl

theorem Conserved.refl (l : List (RoleEntry α)) : Conserved l l := ⟨solid l, List.forall₂_same.2 fun e _ => Moved.refl e, .refl _⟩

theorem Conserved.of_perm {l k : List (RoleEntry α)} (h : (solid l).Perm (solid k)) : Conserved l k :=
  ⟨solid l, List.forall₂_same.2 fun e _ => Moved.refl e, h⟩

theorem Conserved.trans {l m k : List (RoleEntry α)} (h : Conserved l m) (h' : Conserved m k) : Conserved l k := by
  obtain ⟨x, h1, h2⟩ := h
  obtain ⟨y, h3, h4⟩ := h'
  obtain ⟨z, h5, h6⟩ : Relation.Comp (List.Forall₂ Moved) List.Perm x y := by
    rw [List.forall₂_comp_perm_eq_perm_comp_forall₂]
    exact ⟨_, h2, h3⟩
  exact ⟨z, forall₂_trans (R := Moved) (fun _ _ _ h h' => Moved.trans h h') h1 h5, h6.trans h4⟩

theorem Conserved.append {l l' k k' : List (RoleEntry α)} (h : Conserved l k) (h' : Conserved l' k') : Conserved (l ++ l') (k ++ k') := by
  obtain ⟨x, h1, h2⟩ := h
  obtain ⟨y, h3, h4⟩ := h'
  refine ⟨x ++ y, ?_, ?_⟩
  · rw [solid_append]
    exact List.rel_append h1 h3
  · rw [solid_append]
    exact h2.append h4

theorem Conserved.push {l k : List (RoleEntry α)} (p : Addr) (h : Conserved l k) :
    Conserved (l.map (pushAddr p)) (k.map (pushAddr p)) := by
  obtain ⟨x, h1, h2⟩ := h
  refine ⟨x.map (pushAddr p), ?_, ?_⟩
  · rw [solid_push, List.forall₂_map_left_iff, List.forall₂_map_right_iff]
    exact h1.imp fun _ _ h => h.push p
  · rw [solid_push]
    exact h2.map _

theorem forall₂_filter {γ : Type} {R : γ → γ → Prop} {p : γ → Bool} (hp : ∀ a b, R a b → p a = p b) : ∀ {l m : List γ},
    List.Forall₂ R l m → List.Forall₂ R (l.filter p) (m.filter p)
  | _, _, .nil => .nil
  | a :: l, b :: m, .cons h t => by
    rw [List.filter_cons, List.filter_cons, hp a b h]
    split
    · exact .cons h (forall₂_filter hp t)
    · exact forall₂_filter hp t

theorem Conserved.of_forall₂ {l k : List (RoleEntry α)} (h : List.Forall₂ Moved l k) : Conserved l k :=
  ⟨solid k, forall₂_filter (fun a b h => by rw [h.1]) h, .refl _⟩

theorem perm_groups {γ : Type} : ∀ (n : Nat) (es : List (Nat × γ)), (∀ e ∈ es, e.1 < n) →
    es.Perm ((List.range n).flatMap fun i => es.filter fun e => e.1 = i)
  | 0, es, h => by
    cases es with
    | nil => simp
    | cons e es => exact absurd (h e (by simp)) (by omega)
  | n + 1, es, h => by
    rw [List.range_succ, List.flatMap_append]
    have h1 : es.Perm (es.filter (fun e => decide (e.1 < n)) ++ es.filter fun e => !decide (e.1 < n)) :=
      (List.filter_append_perm _ es).symm
    refine h1.trans ?_
    have h2 := perm_groups n (es.filter fun e => decide (e.1 < n)) (by
      intro e he
      simpa using (List.mem_filter.1 he).2)
    have h3 : ((List.range n).flatMap fun i => (es.filter fun e => decide (e.1 < n)).filter fun e => decide (e.1 = i)) =
        (List.range n).flatMap fun i => es.filter fun e => decide (e.1 = i) := by
      rw [List.flatMap_congr]
      intro i hi
      rw [List.filter_filter]
      apply List.filter_congr
      intro e _
      rw [List.mem_range] at hi
      by_cases he : e.1 = i
      · simp [he, hi]
      · simp [he]
    rw [h3] at h2
    have h4 : (es.filter fun e => !decide (e.1 < n)) = es.filter fun e => decide (e.1 = n) := by
      apply List.filter_congr
      intro e he
      have := h e he
      by_cases he : e.1 = n
      · simp [he]
      · simp [he]; omega
    rw [h4]
    simpa using h2.append_right _

theorem forall₂_mem_imp {γ δ : Type} {R : γ → δ → Prop} : ∀ {l : List γ} {m : List δ}, List.Forall₂ R l m →
    List.Forall₂ (fun a b => a ∈ l ∧ R a b) l m
  | _, _, .nil => .nil
  | _, _, .cons h t => .cons ⟨by simp, h⟩ ((forall₂_mem_imp t).imp fun _ _ h => ⟨by simp [h.1], h.2⟩)

/-- The junctions read from a list keep the actors if the reading of the children does. -/
theorem junction_conserved {rec : List (RoleEntry α) → Except Err (SF α)} (hrec : ∀ l f, rec l = .ok f → Conserved l (leaves f))
    {l : List (RoleEntry α)} {f : SF α} (h : junctionFrom rec l = .ok f) : Conserved l (leaves f) := by
  obtain ⟨heads, link, es, cs, h1, hl, h2, h3, h4, rfl⟩ := junctionFrom_ok.1 h
  have hlink : link ∈ junctionScripts := by
    have : link ∈ dedupBy id (heads.filter fun h => decide (h ∈ junctionScripts)) := by rw [hl]; simp
    simpa using (List.mem_filter.1 (mem_dedupId.1 this)).2
  -- the addresses with the link
  have c1 : Conserved l (es.map fun e => pushAddr (childPrefix link e.1) e.2) := by
    apply Conserved.of_forall₂
    rw [List.forall₂_map_right_iff]
    refine (forall₂_mem_imp (mapM_inv h2)).imp fun e r hr => ?_
    obtain ⟨hel, hr⟩ := hr
    obtain ⟨a, i, rest, he, hi, rfl⟩ := splitIndex_ok hr
    refine ⟨rfl, ?_⟩
    rw [he]
    have hlt : junctionIndex.idxOf i < junctionIndex.length := List.idxOf_lt_length_iff.2 hi
    have hidx : junctionIndex.getD (junctionIndex.idxOf i) [] = i := by
      simp [List.getD, List.getElem?_eq_getElem hlt, List.getElem_idxOf]
    show Rewritten (a :: i :: rest) (link :: junctionIndex.getD (junctionIndex.idxOf i) [] :: rest)
    rw [hidx]
    by_cases ha : a ∈ junctionScripts
    · obtain ⟨b, hb, hab⟩ := forall₂_mem_left (mapM_inv h1) hel
      obtain ⟨addr, x⟩ := e
      simp only at he
      subst he
      have : a = b := by simpa [headOf] using hab
      subst this
      have : a ∈ dedupBy id (heads.filter fun h => decide (h ∈ junctionScripts)) := mem_dedupId.2 (by simp [hb, ha])
      rw [hl, List.mem_singleton] at this
      subst this
      exact .refl _
    · exact .link ha hlink rfl hi (.refl _)
  -- by groups
  have hk := checkGroups_ok.1 h3
  have hp := perm_groups (keysOf es).length es fun e he => hk _ (mem_dedupId.2 (List.mem_map_of_mem he))
  have c2 : Conserved (es.map fun e => pushAddr (childPrefix link e.1) e.2)
      (((List.range (keysOf es).length).flatMap fun i => es.filter fun e => e.1 = i).map fun e => pushAddr (childPrefix link e.1) e.2) :=
    Conserved.of_perm ((hp.map _).filter _)
  refine c1.trans (c2.trans ?_)
  rw [leaves_junction]
  have h5 := mapM_inv h4
  generalize (keysOf es).length = n at h5
  rw [List.range_eq_range'] at h5 ⊢
  generalize 0 = s at h5 ⊢
  clear c1 c2 hp hk h1 h2 h3 h4 hl h
  induction cs generalizing s n with
  | nil =>
    have : n = 0 := by simpa using h5.length_eq
    subst this
    exact Conserved.refl _
  | cons c cs ih =>
    cases n with
    | zero => cases h5
    | succ n =>
      rw [List.range'_succ] at h5 ⊢
      obtain ⟨h6, h7⟩ := List.forall₂_cons.1 h5
      rw [List.flatMap_cons, List.map_append, leavesL]
      refine Conserved.append ?_ (ih n (s + 1) h7)
      have := (hrec _ _ h6).push (childPrefix link s)
      have e : ((es.filter fun e => decide (e.1 = s)).map fun e => pushAddr (childPrefix link e.1) e.2) =
          (groupOf es s).map (pushAddr (childPrefix link s)) := by
        rw [groupOf, List.map_map]
        apply List.map_congr_left
        intro e he
        have : e.1 = s := by simpa using (List.mem_filter.1 he).2
        simp [this]
      rw [e]
      exact this

theorem fromI_conserved : ∀ {n : Nat} {l : List (RoleEntry α)} {f : SF α}, fromI n l = .ok f → Conserved l (leaves f)
  | 0, _, _, h => by cases h
  | n + 1, l, f, h => by
    rw [fromI, indepFrom.eq_def] at h
    split at h
    · rw [Except.ok.injEq] at h
      subst h
      rw [leaves_indep]
      exact Conserved.refl _
    · exact junction_conserved (fun _ _ => fromI_conserved) h

/-- The entries in the variables of the loop of dependant qualities. -/
def packD (st : DepState α) : List (RoleEntry α) :=
  ([], st.actor) :: (st.independant.map (pushAddr [independantQuality]) ++ st.dependant.map (pushAddr [dependantQuality]))

theorem depStep_perm {st st' : DepState α} {e : RoleEntry α} (h : depStep st e = .ok st') (hj : st'.junction = false) :
    (solid (packD st')).Perm (solid (packD st ++ [e])) := by
  obtain ⟨addr, x⟩ := e
  unfold depStep at h
  split at h
  · rename_i he
    simp only at he
    subst he
    split at h
    · cases h
    · rename_i ha
      rw [Except.ok.injEq] at h
      subst h
      simp only [packD, ha]
      rw [List.cons_append, solid, List.filter_cons, solid, List.filter_cons]
      simp only [Option.isSome_none, Bool.false_eq_true, if_false]
      rw [List.filter_append]
      cases x with
      | none => simp
      | some a =>
        simp only [Option.isSome_some, if_true]
        rw [List.filter_append (l₂ := [_]), List.filter_append]
        exact (List.perm_append_singleton _ _).symm
  · rename_i role rest he
    simp only at he
    subst he
    split at h
    · rw [Except.ok.injEq] at h
      subst h
      cases hj
    · split at h
      · cases h
      · split at h
        · rename_i hr
          rw [Except.ok.injEq] at h
          subst h hr
          refine List.Perm.filter _ ?_
          simp only [packD, List.map_append, List.cons_append, List.append_assoc]
          refine .cons _ (.append_left _ ?_)
          exact (List.perm_append_comm (l₁ := [pushAddr [independantQuality] (rest, x)]))
        · split at h
          · rename_i hr
            rw [Except.ok.injEq] at h
            subst h hr
            refine List.Perm.filter _ ?_
            simp only [packD, List.map_append, List.cons_append, List.append_assoc]
            exact .refl _
          · cases h

theorem depStep_junction {st st' : DepState α} {e : RoleEntry α} (h : depStep st e = .ok st') (hj : st'.junction = false) : st.junction = false := by
  unfold depStep at h
  split at h
  · split at h
    · cases h
    · rw [Except.ok.injEq] at h
      subst h
      exact hj
  · split at h
    · rw [Except.ok.injEq] at h
      subst h
      cases hj
    · split at h
      · cases h
      · rename_i hn
        simpa using hn

theorem depFold_perm : ∀ {l : List (RoleEntry α)} {st st' : DepState α}, l.foldlM depStep st = .ok st' → st'.junction = false →
    st.junction = false ∧ (solid (packD st')).Perm (solid (packD st ++ l))
  | [], st, st', h, hj => by
    rw [List.foldlM_nil, pure_ok] at h
    subst h
    exact ⟨hj, by simp⟩
  | e :: l, st, st', h, hj => by
    rw [List.foldlM_cons, bind_ok] at h
    obtain ⟨st1, h1, h⟩ := h
    obtain ⟨h2, h3⟩ := depFold_perm h hj
    refine ⟨depStep_junction h1 h2, h3.trans ?_⟩
    have := depStep_perm h1 h2
    have e : packD st ++ e :: l = packD st ++ [e] ++ l := by simp
    rw [e, solid_append, solid_append (packD st ++ [_])]
    exact this.append_right _

theorem fromD_conserved : ∀ {n : Nat} {l : List (RoleEntry α)} {f : SF α}, fromD n l = .ok f → Conserved l (leaves f)
  | 0, _, _, h => by cases h
  | n + 1, l, f, h => by
    rw [fromD] at h
    obtain ⟨st, hf, ⟨_, h⟩ | ⟨hj, d, i, h1, h2, rfl⟩⟩ := depFrom_ok h
    · exact junction_conserved (fun _ _ => fromD_conserved) h
    · have hp := (depFold_perm hf hj).2
      have c1 : Conserved l (packD st) := Conserved.of_perm (by simpa [packD, solid] using hp.symm)
      refine c1.trans ?_
      rw [leaves_dep, packD]
      refine Conserved.append (l := [_]) (k := [_]) (Conserved.refl _) (Conserved.append ?_ ?_)
      · rcases optFrom_ok h2 with ⟨h3, rfl⟩ | ⟨_, g, h3, rfl⟩
        · rw [h3]; exact Conserved.refl _
        · exact (fromI_conserved h3).push _
      · rcases optFrom_ok h1 with ⟨h3, rfl⟩ | ⟨_, g, h3, rfl⟩
        · rw [h3]; exact Conserved.refl _
        · exact (fromD_conserved h3).push _

/-- The entries in the variables of the loop of processes. -/
def packP (st : ProcState α) : List (RoleEntry α) :=
  ([st.valence], st.actor) :: st.actants.flatMap fun g => g.2.map (pushAddr [g.1])

theorem addActant_perm {r : Str} {e : RoleEntry α} : ∀ (gs : List (Str × List (RoleEntry α))),
    ((addActant r e gs).flatMap fun g => g.2.map (pushAddr [g.1])).Perm ((gs.flatMap fun g => g.2.map (pushAddr [g.1])) ++ [pushAddr [r] e])
  | [] => by simp [addActant]
  | g :: gs => by
    rw [addActant]
    split
    · rename_i h
      subst h
      rw [List.flatMap_cons, List.flatMap_cons]
      simp only [List.map_append, List.map_singleton, List.append_assoc]
      exact .append_left _ (List.perm_append_comm (l₁ := [pushAddr [g.1] e]))
    · rw [List.flatMap_cons, List.flatMap_cons, List.append_assoc]
      exact .append_left _ (addActant_perm gs)

theorem procStep_perm {st st' : ProcState α} {e : RoleEntry α} (h : procStep st e = .ok st') :
    (solid (packP st')).Perm (solid (packP st ++ [e])) := by
  obtain ⟨addr, x⟩ := e
  rcases procStep_inv h with ⟨v, _, he, ha, rfl⟩ | ⟨r, rest, _, he, rfl⟩
  · simp only at he
    subst he
    simp only [packP, ha]
    rw [List.cons_append, solid, List.filter_cons, solid, List.filter_cons]
    simp only [Option.isSome_none, Bool.false_eq_true, if_false]
    rw [List.filter_append]
    cases x with
    | none => simp
    | some a =>
      simp only [Option.isSome_some, if_true]
      exact (List.perm_append_singleton _ _).symm
  · simp only at he
    subst he
    refine List.Perm.filter _ ?_
    rw [packP, packP, List.cons_append]
    exact .cons _ (addActant_perm _)

theorem procFold_perm : ∀ {l : List (RoleEntry α)} {st st' : ProcState α}, l.foldlM procStep st = .ok st' →
    (solid (packP st')).Perm (solid (packP st ++ l))
  | [], st, st', h => by
    rw [List.foldlM_nil, pure_ok] at h
    subst h
    simp
  | e :: l, st, st', h => by
    rw [List.foldlM_cons, bind_ok] at h
    obtain ⟨st1, h1, h⟩ := h
    refine (procFold_perm h).trans ?_
    have e : packP st ++ e :: l = packP st ++ [e] ++ l := by simp
    rw [e, solid_append, solid_append (packP st ++ [_])]
    exact (procStep_perm h1).append_right _

theorem processFrom_conserved {n : Nat} {l : List (RoleEntry α)} {f : SFun α} (h : processFrom n l = .ok f) :
    Conserved l (f.asList .process) := by
  obtain ⟨st, acts, h1, h2, rfl⟩ := processFrom_ok h
  have c1 : Conserved l (packP st) := Conserved.of_perm (by simpa [packP, solid] using (procFold_perm h1).symm)
  refine c1.trans ?_
  rw [asList_process, packP]
  refine Conserved.append (l := [_]) (k := [_]) (Conserved.refl _) ?_
  have : ∀ {gs : List (Str × List (RoleEntry α))} {acts : List (Str × SF α)},
      List.Forall₂ (fun g g' => g'.1 = g.1 ∧ fromD n g.2 = .ok g'.2) gs acts →
      Conserved (gs.flatMap fun g => g.2.map (pushAddr [g.1])) (actLeaves acts) := by
    intro gs acts h
    induction h with
    | nil => exact Conserved.refl _
    | cons h _ ih =>
      rw [List.flatMap_cons, actLeaves, List.flatMap_cons]
      refine Conserved.append ?_ ih
      rw [h.1]
      exact (fromD_conserved h.2).push _
  exact this h2

theorem fromList_conserved {l : List (RoleEntry α)} {t : SType} {f : SFun α} (h : fromList l = .ok (t, f)) : Conserved l (f.asList t) := by
  obtain ⟨_, ⟨rfl, h1, h2⟩ | ⟨rfl, m, g, rfl, rfl, h1⟩ | ⟨rfl, m, g, rfl, rfl, h1⟩⟩ := fromList_ok h
  · exact processFrom_conserved h1
  · rw [asList_quality]
    exact (fromD_conserved h1).push _
  · rw [asList_quality]
    exact (fromI_conserved h1).push _

theorem conserved_indexed {l k : List (RoleEntry α)} (h : Conserved l k) (hi : ∀ e ∈ l, Indexed e.1) : (solid l).Perm (solid k) := by
  obtain ⟨m, h1, h2⟩ := h
  have : List.Forall₂ (· = ·) (solid l) m := (forall₂_mem_imp h1).imp fun e e' h =>
    Prod.ext (h.2.2.eq_of_indexed (hi e (List.mem_of_mem_filter h.1))).symm h.2.1.symm
  rw [List.forall₂_eq_eq_eq] at this
  subst this
  exact h2

end Verif
