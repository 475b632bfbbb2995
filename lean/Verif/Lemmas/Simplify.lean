import Verif.Lemmas.WordCheck

/-
`simplify_word` on functions without junctions.
-/

namespace Verif

theorem onRole_iff {role r : Addr} : onRole role r = true ↔ r <+: role := by
  unfold onRole
  induction r generalizing role with
  | nil => simp
  | cons a r ih =>
    cases role with
    | nil => simp
    | cons b role =>
      have := ih (role := role)
      simp only [Bool.not_eq_true', Bool.or_eq_false_iff, decide_eq_false_iff_not, List.length_cons, List.zip_cons_cons, List.any_cons,
        List.cons_prefix_cons] at this ⊢
      rw [← this]
      constructor
      · rintro ⟨h1, h2, h3⟩
        exact ⟨by have : b = a := by simpa using h2
                  exact this.symm, by omega, h3⟩
      · rintro ⟨rfl, h1, h2⟩
        exact ⟨by omega, by simp, h2⟩

/-- No function inside is a junction. -/
def NoJunction : SF Lexeme → Prop
  | f => ∀ e ∈ f.actors, e.2.isJunction = false

/-- A function inside which nothing is written. -/
abbrev blankAt (f : SF Lexeme) : Bool := blank (f.actors.map fun x => x.2.actor)

/-- What `simplify_word` keeps of a function, `q` telling the addresses that lead to the role. -/
def keptOf (q : Addr → Bool) (f : SF Lexeme) : List (RoleEntry Lexeme) :=
  (f.actors.filter fun e => !(blankAt e.2 && !q e.1)).map fun e => (e.1, e.2.actor)

theorem filter_pushed {q : Addr → Bool} {r : Str} (g : SF Lexeme) :
    (((g.actors.map fun e => (r :: e.1, e.2)).filter fun e => !(blankAt e.2 && !q e.1)).map fun e => (e.1, e.2.actor)) =
      (keptOf (fun a => q (r :: a)) g).map (pushAddr [r]) := by
  unfold keptOf
  rw [List.filter_map, List.map_map, List.map_map]
  rfl

theorem blank_sub {f : SF Lexeme} (h : ∀ e ∈ f.actors, ∀ x ∈ e.2.actors, (e.1 ++ x.1, x.2) ∈ f.actors) {e : Addr × SF Lexeme} (he : e ∈ f.actors)
    (hb : blankAt f = true) : blankAt e.2 = true := by
  unfold blankAt blank at hb ⊢
  rw [List.all_eq_true] at hb ⊢
  intro a ha
  obtain ⟨x, hx, rfl⟩ := List.mem_map.1 ha
  exact hb _ (List.mem_map.2 ⟨_, h e he x hx, rfl⟩)

/-- The functions inside a function inside. -/
theorem okI_below : ∀ {n : Nat} {f : SF Lexeme}, OkI n f → NoJunction f → ∃ a, f = .indep a
  | n + 1, .indep a, _, _ => ⟨a, rfl⟩
  | n + 1, .junction link cs, _, hj => by
    have := hj ([], .junction link cs) (by simp [SF.actors])
    simp [SF.isJunction] at this

theorem noJunction_indep {a : Option Lexeme} {d i : Option (SF Lexeme)} (h : NoJunction (.dep a d i)) {g : SF Lexeme} (hg : i = some g) :
    NoJunction g := by
  intro e he
  refine h (independantQuality :: e.1, e.2) ?_
  subst hg
  rw [SF.actors, List.mem_cons, List.mem_append]
  exact .inr (.inl (List.mem_map_of_mem (f := fun e : Addr × SF Lexeme => (independantQuality :: e.1, e.2)) he))

theorem noJunction_dep {a : Option Lexeme} {d i : Option (SF Lexeme)} (h : NoJunction (.dep a d i)) {g : SF Lexeme} (hg : d = some g) :
    NoJunction g := by
  intro e he
  refine h (dependantQuality :: e.1, e.2) ?_
  subst hg
  rw [SF.actors, List.mem_cons, List.mem_append]
  exact .inr (.inr (List.mem_map_of_mem (f := fun e : Addr × SF Lexeme => (dependantQuality :: e.1, e.2)) he))

theorem okD_dep {n : Nat} {f : SF Lexeme} (h : OkD n f) (hj : NoJunction f) :
    ∃ m a d i, n = m + 1 ∧ f = .dep a d i ∧ (∀ g, d = some g → OkD m g ∧ NoJunction g) ∧ ∀ g, i = some g → ∃ b, g = .indep b := by
  cases n with
  | zero => cases h
  | succ n =>
    cases f with
    | indep a => cases h
    | junction link cs =>
      have := hj ([], .junction link cs) (by simp [SF.actors])
      simp [SF.isJunction] at this
    | dep a d i =>
      exact ⟨n, a, d, i, rfl, rfl, fun g hg => ⟨h.1 g hg, noJunction_dep hj hg⟩,
        fun g hg => okI_below (h.2 g hg) (noJunction_indep hj hg)⟩

/-- The functions inside a function inside are inside, and conversely. -/
theorem okD_inside : ∀ {n : Nat} {f : SF Lexeme}, OkD n f → NoJunction f → ∀ e ∈ f.actors, ∀ a g, (a, g) ∈ e.2.actors ↔ (e.1 ++ a, g) ∈ f.actors := by
  intro n
  induction n with
  | zero => intro f h; cases h
  | succ n ih =>
    intro f h hj e he a g
    obtain ⟨m, x, d, i, hn, rfl, hd, hi⟩ := okD_dep h hj
    cases hn
    rw [SF.actors, List.mem_cons, List.mem_append] at he
    rcases he with rfl | he | he
    · rfl
    · cases i with
      | none => cases he
      | some g' =>
        obtain ⟨b, rfl⟩ := hi g' rfl
        simp only [actorsO, SF.actors, List.map_cons, List.map_nil, List.mem_singleton] at he
        subst he
        rw [SF.actors, SF.actors, List.mem_cons (a := (([independantQuality], SF.indep b).1 ++ a, g)), List.mem_append]
        constructor
        · intro hm
          rw [List.mem_singleton, Prod.mk.injEq] at hm
          obtain ⟨rfl, rfl⟩ := hm
          exact .inr (.inl (by simp [actorsO, SF.actors]))
        · intro hm
          rcases hm with hm | hm | hm
          · simp at hm
          · simpa [actorsO, SF.actors] using hm
          · obtain ⟨rest, hr⟩ := mem_actorsO hm
            simp only [List.cons_append, List.cons.injEq] at hr
            exact absurd hr.1.symm dep_ne_indep
    · cases d with
      | none => cases he
      | some g' =>
        obtain ⟨y, hy, rfl⟩ := List.mem_map.1 he
        rw [ih (hd g' rfl).1 (hd g' rfl).2 y hy a g, SF.actors, List.mem_cons, List.mem_append]
        constructor
        · intro hm
          exact .inr (.inr (List.mem_map_of_mem (f := fun e : Addr × SF Lexeme => (dependantQuality :: e.1, e.2)) hm))
        · intro hm
          rcases hm with hm | hm | hm
          · simp at hm
          · obtain ⟨rest, hr⟩ := mem_actorsO hm
            simp only [List.cons_append, List.cons.injEq] at hr
            exact absurd hr.1 dep_ne_indep
          · obtain ⟨z, hz, he⟩ := List.mem_map.1 hm
            simp only [List.cons_append, Prod.mk.injEq, List.cons.injEq, true_and] at he
            rw [← he.1, ← he.2]
            exact hz

theorem keptOf_none {q : Addr → Bool} (hq : ∀ r s, q (r ++ s) = true → q r = true) {n : Nat} {f : SF Lexeme} (h : OkD n f) (hj : NoJunction f)
    (hk : blankAt f = true ∧ q [] = false) : keptOf q f = [] := by
  unfold keptOf
  rw [List.map_eq_nil_iff, List.filter_eq_nil_iff]
  intro e he
  have h1 : blankAt e.2 = true := blank_sub (fun e he x hx => (okD_inside h hj e he x.1 x.2).1 hx) he hk.1
  have h2 : q e.1 = false := by
    cases hb : q e.1 with
    | false => rfl
    | true => exact absurd (hq [] e.1 hb) (by simp [hk.2])
  simp [h1, h2]

/-- What is kept of a function of which something is kept is a function. -/
theorem keptOf_some : ∀ {n : Nat} {f : SF Lexeme} {q : Addr → Bool}, (∀ r s, q (r ++ s) = true → q r = true) → OkD n f → NoJunction f →
    ¬ (blankAt f = true ∧ q [] = false) → ∃ f', OkD n f' ∧ NoJunction f' ∧ (∃ a d i, f' = .dep a d i) ∧ keptOf q f = leaves f' := by
  intro n
  induction n with
  | zero => intro f q _ h; cases h
  | succ n ih =>
    intro f q hq h hj hk
    obtain ⟨m, x, d, i, hn, rfl, hd, hi⟩ := okD_dep h hj
    obtain rfl : n = m := by omega
    have hroot : (!(blankAt (.dep x d i) && !q [])) = true := by
      cases h1 : blankAt (.dep x d i)
      · rfl
      · cases h2 : q []
        · exact absurd ⟨h1, h2⟩ hk
        · rfl
    have hstep : ∀ (r : Str), ∀ a s, (fun a => q (r :: a)) (a ++ s) = true → (fun a => q (r :: a)) a = true := fun r a s hh => hq (r :: a) s hh
    have hnil : ∀ (r : Str) (b : Bool), (¬ (b = true ∧ q [r] = false)) ∨ (b = true ∧ q [r] = false) := fun r b => (em _).symm
    -- the part of the dependant
    have pd : ∃ d' : Option (SF Lexeme), (∀ g, d' = some g → OkD n g ∧ NoJunction g) ∧
        (((actorsO dependantQuality d).filter fun e => !(blankAt e.2 && !q e.1)).map fun e => (e.1, e.2.actor)) = leavesO dependantQuality d' := by
      cases d with
      | none => exact ⟨none, by simp, by simp [actorsO, leavesO]⟩
      | some g =>
        obtain ⟨og, jg⟩ := hd g rfl
        rcases hnil dependantQuality (blankAt g) with hb | hb
        · obtain ⟨f', o', j', _, e'⟩ := ih (q := fun a => q (dependantQuality :: a)) (hstep dependantQuality) og jg hb
          refine ⟨some f', by intro g' hg'; cases hg'; exact ⟨o', j'⟩, ?_⟩
          rw [actorsO, filter_pushed, e']
          rfl
        · refine ⟨none, by simp, ?_⟩
          rw [actorsO, filter_pushed, keptOf_none (hstep dependantQuality) og jg hb]
          rfl
    have pi : ∃ i' : Option (SF Lexeme), (∀ g, i' = some g → ∃ b, g = .indep b) ∧
        (((actorsO independantQuality i).filter fun e => !(blankAt e.2 && !q e.1)).map fun e => (e.1, e.2.actor)) = leavesO independantQuality i' := by
      cases i with
      | none => exact ⟨none, by simp, by simp [actorsO, leavesO]⟩
      | some g =>
        obtain ⟨b, rfl⟩ := hi g rfl
        by_cases hb : (!(blankAt (.indep b) && !q [independantQuality])) = true
        · refine ⟨some (.indep b), fun g hg => ⟨b, by cases hg; rfl⟩, ?_⟩
          have : actorsO independantQuality (some (.indep b : SF Lexeme)) = [([independantQuality], .indep b)] := by simp [actorsO, SF.actors]
          rw [this, List.filter_cons_of_pos (p := fun e : Addr × SF Lexeme => !(blankAt e.2 && !q e.1)) hb]
          simp [leavesO, leaves_indep, pushAddr, SF.actor]
        · refine ⟨none, by simp, ?_⟩
          have : actorsO independantQuality (some (.indep b : SF Lexeme)) = [([independantQuality], .indep b)] := by simp [actorsO, SF.actors]
          rw [this, List.filter_cons_of_neg (p := fun e : Addr × SF Lexeme => !(blankAt e.2 && !q e.1)) hb]
          rfl
    obtain ⟨d', hd', ed⟩ := pd
    obtain ⟨i', hi', ei⟩ := pi
    refine ⟨.dep x d' i', ⟨fun g hg => (hd' g hg).1, fun g hg => ?_⟩, ?_, ⟨_, _, _, rfl⟩, ?_⟩
    · obtain ⟨b, rfl⟩ := hi' g hg
      cases n with
      | zero =>
        cases i with
        | none =>
          subst hg
          simp [actorsO, leavesO, leaves_indep] at ei
        | some g0 => exact absurd (h.2 g0 rfl) (by simp [OkI])
      | succ n => trivial
    · intro e he
      rw [SF.actors, List.mem_cons, List.mem_append] at he
      rcases he with rfl | he | he
      · rfl
      · cases i' with
        | none => cases he
        | some g =>
          obtain ⟨b, rfl⟩ := hi' g rfl
          simp only [actorsO, SF.actors, List.map_cons, List.map_nil, List.mem_singleton] at he
          subst he
          rfl
      · cases d' with
        | none => cases he
        | some g =>
          obtain ⟨y, hy, rfl⟩ := List.mem_map.1 he
          exact (hd' g rfl).2 y hy
    · rw [leaves_dep, ← ed, ← ei]
      unfold keptOf
      rw [SF.actors, List.filter_cons_of_pos (p := fun e : Addr × SF Lexeme => !(blankAt e.2 && !q e.1)) hroot, List.map_cons, List.filter_append, List.map_append]
      rfl

/-! ### What is kept -/

/-- A lexeme is written at the entry. -/
def HasText (e : RoleEntry Lexeme) : Prop := ∃ x, e.2 = some x ∧ x.empty = false

theorem leaves_noJunction {f : SF Lexeme} (hj : NoJunction f) : leaves f = f.actors.map fun e => (e.1, e.2.actor) := by
  unfold leaves listed
  rw [List.filter_eq_self.2 fun e he => by simp [hj e he]]
  simp

theorem blankAt_false {g : SF Lexeme} : blankAt g = false ↔ ∃ e ∈ g.actors, ∃ x, e.2.actor = some x ∧ x.empty = false := by
  unfold blankAt blank
  rw [List.all_eq_false]
  constructor
  · rintro ⟨a, ha, hb⟩
    obtain ⟨e, he, rfl⟩ := List.mem_map.1 ha
    cases hx : e.2.actor with
    | none => rw [hx] at hb; simp at hb
    | some x => rw [hx] at hb; exact ⟨e, he, x, hx, by simpa using hb⟩
  · rintro ⟨e, he, x, hx, hb⟩
    exact ⟨e.2.actor, List.mem_map.2 ⟨e, he, rfl⟩, by rw [hx]; simp [hb]⟩

theorem mem_keptOf {n : Nat} {f : SF Lexeme} {q : Addr → Bool} (h : OkD n f) (hj : NoJunction f) {e : RoleEntry Lexeme} :
    e ∈ keptOf q f ↔ e ∈ leaves f ∧ (q e.1 = true ∨ ∃ e' ∈ leaves f, e.1 <+: e'.1 ∧ HasText e') := by
  rw [leaves_noJunction hj]
  unfold keptOf
  have key : ∀ y ∈ f.actors, (!(blankAt y.2 && !q y.1)) = true ↔ (q y.1 = true ∨ ∃ e' ∈ f.actors.map fun e => (e.1, e.2.actor), y.1 <+: e'.1 ∧ HasText e') := by
    intro y hy
    rw [Bool.not_eq_true', Bool.and_eq_false_iff, Bool.not_eq_false', or_comm, blankAt_false]
    refine or_congr_right ?_
    constructor
    · rintro ⟨z, hz, x, hx, hb⟩
      exact ⟨_, List.mem_map.2 ⟨_, (okD_inside h hj y hy z.1 z.2).1 hz, rfl⟩, List.prefix_append _ _, x, hx, hb⟩
    · rintro ⟨e', he', ⟨s, hs⟩, x, hx, hb⟩
      obtain ⟨z, hz, rfl⟩ := List.mem_map.1 he'
      refine ⟨(s, z.2), (okD_inside h hj y hy s z.2).2 ?_, x, hx, hb⟩
      rw [hs]
      exact hz
  rw [List.mem_map, List.mem_map]
  constructor
  · rintro ⟨y, hy, rfl⟩
    obtain ⟨h1, h2⟩ := List.mem_filter.1 hy
    exact ⟨⟨y, h1, rfl⟩, (key y h1).1 h2⟩
  · rintro ⟨⟨y, hy, rfl⟩, h2⟩
    exact ⟨y, List.mem_filter.2 ⟨hy, (key y hy).2 h2⟩, rfl⟩

theorem keptOf_sublist {f : SF Lexeme} (hj : NoJunction f) (q : Addr → Bool) : (keptOf q f).Sublist (leaves f) := by
  rw [leaves_noJunction hj]
  exact List.filter_sublist.map _

/-! ### Functions without junction scripts -/

theorem noJunction_of_leavesI : ∀ {n : Nat} {f : SF Lexeme}, OkI n f → (∀ e ∈ leaves f, ∀ s ∈ e.1, s ∉ junctionScripts) → ∃ a, f = .indep a
  | n + 1, .indep a, _, _ => ⟨a, rfl⟩
  | n + 1, .junction link cs, h, hs => by
    exfalso
    rw [leaves_junction] at hs
    cases cs with
    | nil => exact h.2.1 rfl
    | cons c cs =>
      have hc := okI_leaves (h.2.2.2 c (by simp))
      obtain ⟨x, xs, hx⟩ := List.exists_cons_of_ne_nil hc
      refine hs (pushAddr (childPrefix link 0) x) ?_ link (by simp [pushAddr, childPrefix]) h.1
      rw [leavesL, List.mem_append]
      exact .inl (List.mem_map_of_mem (by rw [hx]; simp))

theorem noJunction_of_leaves : ∀ {n : Nat} {f : SF Lexeme}, OkD n f → (∀ e ∈ leaves f, ∀ s ∈ e.1, s ∉ junctionScripts) → NoJunction f
  | n + 1, .dep a d i, h, hs => by
    rw [leaves_dep] at hs
    intro e he
    rw [SF.actors, List.mem_cons, List.mem_append] at he
    rcases he with rfl | he | he
    · rfl
    · cases i with
      | none => cases he
      | some g =>
        obtain ⟨b, rfl⟩ := noJunction_of_leavesI (h.2 g rfl) fun e he s hm =>
          hs (pushAddr [independantQuality] e) (by simp only [leavesO, List.mem_cons, List.mem_append]; exact .inr (.inl (List.mem_map_of_mem he))) s
            (by simp [pushAddr, hm])
        simp only [actorsO, SF.actors, List.map_cons, List.map_nil, List.mem_singleton] at he
        subst he
        rfl
    · cases d with
      | none => cases he
      | some g =>
        have := noJunction_of_leaves (h.1 g rfl) fun e he s hm =>
          hs (pushAddr [dependantQuality] e) (by simp only [leavesO, List.mem_cons, List.mem_append]; exact .inr (.inr (List.mem_map_of_mem he))) s
            (by simp [pushAddr, hm])
        obtain ⟨y, hy, rfl⟩ := List.mem_map.1 he
        exact this y hy
  | n + 1, .junction link cs, h, hs => by
    exfalso
    rw [leaves_junction] at hs
    cases cs with
    | nil => exact h.2.1 rfl
    | cons c cs =>
      have hc := okD_leaves (h.2.2.2 c (by simp))
      obtain ⟨x, xs, hx⟩ := List.exists_cons_of_ne_nil hc
      refine hs (pushAddr (childPrefix link 0) x) ?_ link (by simp [pushAddr, childPrefix]) h.1
      rw [leavesL, List.mem_append]
      exact .inl (List.mem_map_of_mem (by rw [hx]; simp))

/-! ### Processes -/

/-- What is kept of the actants. -/
def keptActs (q : Addr → Bool) (acts : List (Str × SF Lexeme)) : List (RoleEntry Lexeme) :=
  ((processActors acts).filter fun e => !(blankAt e.2 && !q e.1)).map fun e => (e.1, e.2.actor)

theorem keptActs_cons (q : Addr → Bool) (g : Str × SF Lexeme) (acts : List (Str × SF Lexeme)) :
    keptActs q (g :: acts) = (keptOf (fun a => q (g.1 :: a)) g.2).map (pushAddr [g.1]) ++ keptActs q acts := by
  have e1 : processActors (g :: acts) = (g.2.actors.map fun x => (g.1 :: x.1, x.2)) ++ processActors acts := rfl
  unfold keptActs
  rw [e1, List.filter_append, List.map_append, filter_pushed]

theorem keptActs_some {n : Nat} {q : Addr → Bool} (hq : ∀ r s, q (r ++ s) = true → q r = true) : ∀ {acts : List (Str × SF Lexeme)},
    (∀ g ∈ acts, g.1 ∈ actantScripts ∧ OkD n g.2 ∧ NoJunction g.2) →
    ∃ acts' : List (Str × SF Lexeme), (acts'.map (·.1)).Sublist (acts.map (·.1)) ∧ (∀ g ∈ acts', g.1 ∈ actantScripts ∧ OkD n g.2 ∧ NoJunction g.2) ∧
      keptActs q acts = actLeaves acts'
  | [], _ => ⟨[], by simp, by simp, rfl⟩
  | g :: acts, h => by
    obtain ⟨acts', h1, h2, h3⟩ := keptActs_some hq (acts := acts) fun g hg => h g (by simp [hg])
    obtain ⟨hr, hd, hj⟩ := h g (by simp)
    have hstep : ∀ a s, (fun a => q (g.1 :: a)) (a ++ s) = true → (fun a => q (g.1 :: a)) a = true := fun a s hh => hq (g.1 :: a) s hh
    rw [keptActs_cons]
    by_cases hb : blankAt g.2 = true ∧ q [g.1] = false
    · refine ⟨acts', ?_, h2, ?_⟩
      · rw [List.map_cons]; exact h1.cons _
      · rw [keptOf_none hstep hd hj hb, List.map_nil, List.nil_append, h3]
    · obtain ⟨f', o', j', _, e'⟩ := keptOf_some (q := fun a => q (g.1 :: a)) hstep hd hj hb
      refine ⟨(g.1, f') :: acts', ?_, ?_, ?_⟩
      · rw [List.map_cons, List.map_cons]; exact h1.cons_cons _
      · intro g' hg'
        rcases List.mem_cons.1 hg' with rfl | hg'
        · exact ⟨hr, o', j'⟩
        · exact h2 g' hg'
      · rw [e', h3]
        rfl

theorem keptActs_sublist {q : Addr → Bool} : ∀ {acts : List (Str × SF Lexeme)}, (∀ g ∈ acts, NoJunction g.2) → (keptActs q acts).Sublist (actLeaves acts)
  | [], _ => by simp [keptActs, processActors, actLeaves]
  | g :: acts, h => by
    rw [keptActs_cons]
    exact ((keptOf_sublist (h g (by simp)) _).map _).append (keptActs_sublist fun g hg => h g (by simp [hg]))

theorem mem_keptActs {q : Addr → Bool} : ∀ {acts : List (Str × SF Lexeme)} {e : RoleEntry Lexeme},
    e ∈ keptActs q acts ↔ ∃ g ∈ acts, ∃ y ∈ keptOf (fun a => q (g.1 :: a)) g.2, e = pushAddr [g.1] y
  | [], e => by simp [keptActs, processActors]
  | g :: acts, e => by
    rw [keptActs_cons, List.mem_append, mem_keptActs, List.mem_map]
    simp only [List.mem_cons, exists_eq_or_imp]
    refine or_congr_left ?_
    constructor
    · rintro ⟨y, hy, rfl⟩; exact ⟨y, hy, rfl⟩
    · rintro ⟨y, hy, rfl⟩; exact ⟨y, hy, rfl⟩

theorem mem_keptActs' {n : Nat} {q : Addr → Bool} {acts : List (Str × SF Lexeme)} (hn : (acts.map (·.1)).Nodup)
    (h : ∀ g ∈ acts, OkD n g.2 ∧ NoJunction g.2) {e : RoleEntry Lexeme} :
    e ∈ keptActs q acts ↔ e ∈ actLeaves acts ∧ (q e.1 = true ∨ ∃ e' ∈ actLeaves acts, e.1 <+: e'.1 ∧ HasText e') := by
  rw [mem_keptActs]
  constructor
  · rintro ⟨g, hg, y, hy, rfl⟩
    rw [mem_keptOf (h g hg).1 (h g hg).2] at hy
    refine ⟨List.mem_flatMap.2 ⟨g, hg, List.mem_map_of_mem hy.1⟩, hy.2.imp id ?_⟩
    rintro ⟨e', he', hp, hw⟩
    refine ⟨pushAddr [g.1] e', List.mem_flatMap.2 ⟨g, hg, List.mem_map_of_mem he'⟩, ?_, hw⟩
    simpa [pushAddr] using hp
  · rintro ⟨he, hk⟩
    obtain ⟨g, hg, y, hy, rfl⟩ := mem_actLeaves he
    refine ⟨g, hg, y, ?_, rfl⟩
    rw [mem_keptOf (h g hg).1 (h g hg).2]
    refine ⟨hy, hk.imp id ?_⟩
    rintro ⟨e', he', hp, hw⟩
    obtain ⟨g', hg', y', hy', rfl⟩ := mem_actLeaves he'
    simp only [pushAddr, List.singleton_append, List.cons_prefix_cons] at hp
    have : g' = g := List.inj_on_of_nodup_map hn hg' hg hp.1.symm
    subst this
    exact ⟨y', hy', hp.2, hw⟩

end Verif
