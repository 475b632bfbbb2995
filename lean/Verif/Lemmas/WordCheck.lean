import Verif.Model.WordCheck
import Verif.Lemmas.WordText

/-
The addresses of the functions read from lists pass `check_address_script`; what remains of the check of a function is the check
of its actors.
-/

namespace Verif
variable {α : Type}

/-! ### The scripts of the addresses -/

theorem inner_not_process {a : Str} (h : Inner a) : a ∉ valenceScripts ++ actantScripts := by
  rcases h with rfl | rfl | h | h
  · decide +kernel
  · decide +kernel
  · revert a; decide +kernel
  · revert a; decide +kernel

theorem junction_not_quality {a : Str} (h : a ∈ junctionScripts ∨ a ∈ junctionIndex) : a ≠ independantQuality ∧ a ≠ dependantQuality := by
  rcases h with h | h <;> revert a <;> decide +kernel

theorem countIn_nil {l : Addr} {s : List Str} (h : ∀ a ∈ l, a ∉ s) : countIn l s = 0 := by
  unfold countIn
  rw [List.length_eq_zero_iff, List.filter_eq_nil_iff]
  intro a ha
  simpa using h a ha

theorem countIn_cons (a : Str) (l : Addr) (s : List Str) : countIn (a :: l) s = (if a ∈ s then 1 else 0) + countIn l s := by
  unfold countIn
  by_cases h : a ∈ s
  · simp [h]; omega
  · simp [h]

theorem countIn_append (l m : Addr) (s : List Str) : countIn (l ++ m) s = countIn l s + countIn m s := by
  simp [countIn]

/-- The addresses inside an independant quality. -/
theorem okI_addr : ∀ {n : Nat} {f : SF α}, OkI n f → ∀ e ∈ f.actors, ∀ a ∈ e.1, a ∈ junctionScripts ∨ a ∈ junctionIndex
  | n + 1, .indep x, _ => by simp [SF.actors]
  | n + 1, .junction link cs, h => by
    intro e he a ha
    rw [SF.actors, List.mem_cons] at he
    rcases he with rfl | he
    · simp at ha
    · obtain ⟨i, _, h2, c, hc, x, hx, rfl⟩ := mem_actorsL he
      simp only [childPrefix, List.cons_append, List.nil_append, List.mem_cons] at ha
      rcases ha with rfl | rfl | ha
      · exact .inl h.1
      · exact .inr (junctionIndex_idx i (by have := h.2.2.1; omega)).1
      · exact okI_addr (h.2.2.2 c hc) x hx a ha

/-- The addresses inside an actant: an independant quality occurs at most once. -/
theorem okD_addr : ∀ {n : Nat} {f : SF α}, OkD n f → ∀ e ∈ f.actors, (∀ a ∈ e.1, Inner a) ∧ countIn e.1 [independantQuality] ≤ 1
  | n + 1, .dep x d i, h => by
    intro e he
    rw [SF.actors, List.mem_cons, List.mem_append] at he
    rcases he with rfl | he | he
    · simp [countIn]
    · cases i with
      | none => simp [actorsO] at he
      | some g =>
        obtain ⟨y, hy, rfl⟩ := List.mem_map.1 he
        have hi := okI_addr (h.2 g rfl) y hy
        refine ⟨?_, ?_⟩
        · intro a ha
          rcases List.mem_cons.1 ha with rfl | ha
          · exact .inl rfl
          · exact .inr (.inr (hi a ha))
        · rw [countIn_cons, countIn_nil (fun a ha => by simpa using (junction_not_quality (hi a ha)).1)]
          split <;> omega
    · cases d with
      | none => simp [actorsO] at he
      | some g =>
        obtain ⟨y, hy, rfl⟩ := List.mem_map.1 he
        have hi := okD_addr (h.1 g rfl) y hy
        refine ⟨?_, ?_⟩
        · intro a ha
          rcases List.mem_cons.1 ha with rfl | ha
          · exact .inr (.inl rfl)
          · exact hi.1 a ha
        · rw [countIn_cons, if_neg (by simpa using dep_ne_indep), Nat.zero_add]
          exact hi.2
  | n + 1, .junction link cs, h => by
    intro e he
    rw [SF.actors, List.mem_cons] at he
    rcases he with rfl | he
    · simp [countIn]
    · obtain ⟨i, _, h2, c, hc, x, hx, rfl⟩ := mem_actorsL he
      have hi := okD_addr (h.2.2.2 c hc) x hx
      have h3 := (junctionIndex_idx i (by have := h.2.2.1; omega)).1
      refine ⟨?_, ?_⟩
      · intro a ha
        simp only [childPrefix, List.cons_append, List.nil_append, List.mem_cons] at ha
        rcases ha with rfl | rfl | ha
        · exact .inr (.inr (.inl h.1))
        · exact .inr (.inr (.inr h3))
        · exact hi.1 a ha
      · simp only [childPrefix, List.cons_append, List.nil_append]
        rw [countIn_cons, countIn_cons, if_neg (by simpa using (junction_not_quality (.inl h.1)).1),
          if_neg (by simpa using (junction_not_quality (.inr h3)).1)]
        simpa using hi.2

/-! ### The check of an address -/

theorem checkAddress_inner {l : Addr} (h : ∀ a ∈ l, Inner a) (hc : countIn l [independantQuality] ≤ 1) {k : FunClass} (hk : k ≠ .independant) :
    checkAddress k l = true := by
  have h0 : countIn l (valenceScripts ++ actantScripts) = 0 := countIn_nil fun a ha => inner_not_process (h a ha)
  have h1 : (l.any fun s => decide (s ∈ valenceScripts ++ actantScripts)) = false := by
    rw [List.any_eq_false]
    intro a ha
    simpa using inner_not_process (h a ha)
  have h2 : l.all (fun s => decide (s ∈ addressScripts)) = true := by
    rw [List.all_eq_true]
    intro a ha
    simpa using inner_address (h a ha)
  unfold checkAddress
  rw [h0, h1, h2]
  cases k <;> simp_all

theorem checkAddress_quality {l : Addr} (h : ∀ a ∈ l, Inner a) (hd : dependantQuality ∉ l) (hc : countIn l [independantQuality] ≤ 1) (k : FunClass) :
    checkAddress k l = true := by
  by_cases hk : k = .independant
  · subst hk
    have h1 := checkAddress_inner h hc (k := .junction) (by simp)
    unfold checkAddress at h1 ⊢
    have h0 : countIn l (valenceScripts ++ actantScripts ++ [dependantQuality]) = 0 := by
      apply countIn_nil
      intro a ha hm
      rcases List.mem_append.1 hm with hm | hm
      · exact inner_not_process (h a ha) hm
      · exact hd (by simp only [List.mem_singleton] at hm; exact hm ▸ ha)
    rw [h0]
    simpa using h1
  · exact checkAddress_inner h hc hk

theorem checkAddress_process {r : Str} {l : Addr} (hr : r ∈ valenceScripts ++ actantScripts) (h : ∀ a ∈ l, Inner a)
    (hc : countIn l [independantQuality] ≤ 1) {k : FunClass} (hk : k = .process ∨ k = .junction) : checkAddress k (r :: l) = true := by
  have h0 : countIn l (valenceScripts ++ actantScripts) = 0 := countIn_nil fun a ha => inner_not_process (h a ha)
  have h1 : countIn (r :: l) (valenceScripts ++ actantScripts) = 1 := by rw [countIn_cons, if_pos hr, h0]
  have h2 : (r :: l).all (fun s => decide (s ∈ addressScripts)) = true := by
    rw [List.all_eq_true]
    intro a ha
    rcases List.mem_cons.1 ha with rfl | ha
    · have : a ∈ addressScripts := by
        unfold addressScripts
        rw [List.append_assoc, List.append_assoc]
        exact List.mem_append_left _ hr
      simpa using this
    · simpa using inner_address (h a ha)
  have h3 : countIn (r :: l) [independantQuality] ≤ 1 := by
    have : r ∉ [independantQuality] := by
      have : ∀ x ∈ valenceScripts ++ actantScripts, x ∉ [independantQuality] := by decide +kernel
      exact this r hr
    rw [countIn_cons, if_neg this]
    omega
  unfold checkAddress
  rw [h1, h2]
  rcases hk with rfl | rfl <;> simp [h3]

/-! ### The check of a function -/

theorem okI_checked {n : Nat} {f : SF α} (h : OkI n f) (k : FunClass) : f.actors.all (fun e => checkAddress k e.1) = true := by
  rw [List.all_eq_true]
  intro e he
  have hi := okI_addr h e he
  refine checkAddress_quality (fun a ha => .inr (.inr (hi a ha))) (fun hm => (junction_not_quality (hi _ hm)).2 rfl) ?_ k
  rw [countIn_nil fun a ha => by simpa using (junction_not_quality (hi a ha)).1]
  exact Nat.zero_le _

theorem okD_checked {n : Nat} {f : SF α} (h : OkD n f) {k : FunClass} (hk : k ≠ .independant) :
    f.actors.all (fun e => checkAddress k e.1) = true := by
  rw [List.all_eq_true]
  intro e he
  have hi := okD_addr h e he
  exact checkAddress_inner hi.1 hi.2 hk

/-- All the actors of the items are present and checked. -/
def Filled (chk : α → Bool) (l : List (RoleEntry α)) : Prop := ∀ e ∈ l, ∃ x, e.2 = some x ∧ chk x = true

theorem filled_append {chk : α → Bool} {l m : List (RoleEntry α)} : Filled chk (l ++ m) ↔ Filled chk l ∧ Filled chk m := by
  simp [Filled, or_imp, forall_and]

theorem filled_push {chk : α → Bool} {p : Addr} {l : List (RoleEntry α)} : Filled chk (l.map (pushAddr p)) ↔ Filled chk l := by
  unfold Filled
  constructor
  · intro h e he
    exact h (pushAddr p e) (List.mem_map_of_mem he)
  · intro h e he
    obtain ⟨y, hy, rfl⟩ := List.mem_map.1 he
    exact h y hy

theorem checkActor_iff {chk : α → Bool} {a : Option α} {r : Addr} : checkActor chk a = true ↔ Filled chk [(r, a)] := by
  cases a <;> simp [checkActor, Filled]

theorem checkL_iff {chk : α → Bool} {k : FunClass} : ∀ {cs : List (SF α)} {link : Str} {n : Nat},
    (∀ c ∈ cs, (c.check chk k = true ↔ Filled chk (leaves c))) → (checkL chk k cs = true ↔ Filled chk (leavesL link n cs))
  | [], _, _, _ => by simp [checkL, leavesL, Filled]
  | c :: cs, link, n, h => by
    rw [checkL, Bool.and_eq_true, h c (by simp), leavesL, filled_append, filled_push,
      checkL_iff (link := link) (n := n + 1) fun c hc => h c (by simp [hc])]

theorem okI_check {chk : α → Bool} (k : FunClass) : ∀ {n : Nat} {f : SF α}, OkI n f → (f.check chk k = true ↔ Filled chk (leaves f))
  | n + 1, .indep x, h => by
    rw [SF.check, okI_checked h, Bool.and_true, leaves_indep]
    exact checkActor_iff
  | n + 1, .junction link cs, h => by
    rw [SF.check, okI_checked h, Bool.true_and, leaves_junction]
    exact checkL_iff fun c hc => okI_check k (h.2.2.2 c hc)

theorem okD_check {chk : α → Bool} {k : FunClass} (hk : k ≠ .independant) : ∀ {n : Nat} {f : SF α}, OkD n f →
    (f.check chk k = true ↔ Filled chk (leaves f))
  | n + 1, .dep x d i, h => by
    rw [SF.check, okD_checked h hk, Bool.and_true, leaves_dep, Bool.and_eq_true, Bool.and_eq_true, checkActor_iff (r := []), and_assoc]
    have hi : checkO chk k i = true ↔ Filled chk (leavesO independantQuality i) := by
      cases i with
      | none => simp [checkO, leavesO, Filled]
      | some g =>
        rw [checkO, okI_check k (h.2 g rfl)]
        exact filled_push.symm
    have hd : checkO chk k d = true ↔ Filled chk (leavesO dependantQuality d) := by
      cases d with
      | none => simp [checkO, leavesO, Filled]
      | some g =>
        rw [checkO, okD_check hk (h.1 g rfl)]
        exact filled_push.symm
    rw [hi, hd, ← filled_append, ← filled_append, List.singleton_append]
  | n + 1, .junction link cs, h => by
    rw [SF.check, okD_checked h hk, Bool.true_and, leaves_junction]
    exact checkL_iff fun c hc => okD_check hk (h.2.2.2 c hc)

theorem mem_processActors {acts : List (Str × SF α)} {e : Addr × SF α} (h : e ∈ processActors acts) :
    ∃ g ∈ acts, ∃ x ∈ g.2.actors, e = (g.1 :: x.1, x.2) := by
  obtain ⟨g, hg, he⟩ := List.mem_flatMap.1 h
  obtain ⟨x, hx, rfl⟩ := List.mem_map.1 he
  exact ⟨g, hg, x, hx, rfl⟩

theorem checkedActants_all : ∀ r ∈ actantScripts, r ∈ checkedActants := by decide +kernel

/-- The check of a function read from a list is the check of its actors. -/
theorem okFun_check {chk : α → Bool} {t : SType} {f : SFun α} (h : OkFun t f) : f.check chk f.cls = true ↔ Filled chk f.items := by
  cases t with
  | dependant =>
    cases f with
    | process => cases h
    | quality f =>
      obtain ⟨n, h⟩ := h
      refine okD_check ?_ h
      cases n with
      | zero => cases h
      | succ n => cases f <;> simp_all [SFun.cls, SF.cls, OkD]
  | independant =>
    cases f with
    | process => cases h
    | quality f => obtain ⟨n, h⟩ := h; exact okI_check _ h
  | process =>
    cases f with
    | quality f => cases h
    | process a v acts =>
      obtain ⟨hv, n, hn, h⟩ := h
      have h1 : checkAddress .process [v] = true :=
        checkAddress_process (List.mem_append_left _ hv) (by simp) (by simp [countIn]) (.inl rfl)
      have h2 : (processActors acts).all (fun e => checkAddress .process e.1) = true := by
        rw [List.all_eq_true]
        intro e he
        obtain ⟨g, hg, x, hx, rfl⟩ := mem_processActors he
        have hi := okD_addr (h g hg).2 x hx
        exact checkAddress_process (List.mem_append_right _ (h g hg).1) hi.1 hi.2 (.inl rfl)
      have e1 : (SFun.process a v acts).cls = .process := rfl
      have e2 : (SFun.process a v acts).items = ([([v], a)] : List (RoleEntry α)) ++ listed [] (processActors acts) := rfl
      rw [e1, SFun.check, h1, h2, Bool.and_true, Bool.and_true, Bool.and_eq_true, e2, filled_append, ← checkActor_iff, listed_process]
      refine and_congr_right fun _ => ?_
      have h3 : Filled chk (actLeaves acts) ↔ ∀ g ∈ acts, Filled chk (leaves g.2) := by
        unfold Filled actLeaves
        constructor
        · intro hh g hg e he
          exact hh (pushAddr [g.1] e) (List.mem_flatMap.2 ⟨g, hg, List.mem_map_of_mem he⟩)
        · intro hh e he
          obtain ⟨g, hg, he⟩ := List.mem_flatMap.1 he
          obtain ⟨y, hy, rfl⟩ := List.mem_map.1 he
          exact hh g hg y hy
      rw [h3, List.all_eq_true]
      constructor
      · intro hh g hg
        have := hh g.1 (checkedActants_all _ (h g hg).1)
        cases hf : acts.find? (fun g' => g'.1 = g.1) with
        | none =>
          have := List.find?_eq_none.1 hf g hg
          simp at this
        | some g' =>
          rw [hf] at this
          have h4 := List.mem_of_find?_eq_some hf
          have h5 : g'.1 = g.1 := by simpa using List.find?_some hf
          have h6 : g' = g := List.inj_on_of_nodup_map hn h4 hg h5
          subst h6
          exact (okD_check (by simp) (h g' hg).2).1 this
      · intro hh r _
        cases hf : acts.find? (fun g' => g'.1 = r) with
        | none => rfl
        | some g' =>
          have h4 := List.mem_of_find?_eq_some hf
          exact (okD_check (by simp) (h g' h4).2).2 (hh g' h4)

/-- The addresses of all the items of `actors` of a function. -/
def SFun.addrs : SFun α → List Addr
  | .quality f => f.actors.map (·.1)
  | .process _ v acts => [v] :: (processActors acts).map (·.1)

/-- The roles of a function, with the prefix of its type, pass the check. -/
theorem okFun_role {t : SType} {f : SFun α} (h : OkFun t f) {a : Addr} (ha : a ∈ f.addrs) : checkAddress f.cls (t.pre ++ a) = true := by
  cases t with
  | dependant =>
    cases f with
    | process => cases h
    | quality f =>
      obtain ⟨n, h⟩ := h
      obtain ⟨e, he, rfl⟩ := List.mem_map.1 ha
      have hi := okD_addr h e he
      refine checkAddress_inner ?_ ?_ ?_
      · intro b hb
        rcases List.mem_append.1 hb with hb | hb
        · exact .inr (.inl (by simpa [SType.pre] using hb))
        · exact hi.1 b hb
      · simp only [SType.pre, List.singleton_append]
        rw [countIn_cons, if_neg (by simpa using dep_ne_indep), Nat.zero_add]
        exact hi.2
      · cases n with
        | zero => cases h
        | succ n => cases f <;> simp_all [SFun.cls, SF.cls, OkD]
  | independant =>
    cases f with
    | process => cases h
    | quality f =>
      obtain ⟨n, h⟩ := h
      obtain ⟨e, he, rfl⟩ := List.mem_map.1 ha
      have hi := okI_addr h e he
      refine checkAddress_quality ?_ ?_ ?_ _
      · intro b hb
        rcases List.mem_append.1 hb with hb | hb
        · exact .inl (by simpa [SType.pre] using hb)
        · exact .inr (.inr (hi b hb))
      · intro hm
        rcases List.mem_append.1 hm with hm | hm
        · exact dep_ne_indep (by simpa [SType.pre] using hm)
        · exact (junction_not_quality (hi _ hm)).2 rfl
      · simp only [SType.pre, List.singleton_append]
        rw [countIn_cons, countIn_nil fun a ha => by simpa using (junction_not_quality (hi a ha)).1]
        split <;> omega
  | process =>
    cases f with
    | quality f => cases h
    | process x v acts =>
      obtain ⟨hv, n, hn, h⟩ := h
      rcases List.mem_cons.1 ha with rfl | ha
      · exact checkAddress_process (List.mem_append_left _ hv) (by simp) (by simp [countIn]) (.inl rfl)
      · obtain ⟨e, he, rfl⟩ := List.mem_map.1 ha
        obtain ⟨g, hg, y, hy, rfl⟩ := mem_processActors he
        have hi := okD_addr (h g hg).2 y hy
        exact checkAddress_process (List.mem_append_right _ (h g hg).1) hi.1 hi.2 (.inl rfl)

end Verif
