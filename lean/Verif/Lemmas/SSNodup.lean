import Verif.Lemmas.SS

/-
When the enumeration of singular sequences has no repetition.
-/

namespace Verif
namespace Script

/-- Cardinal above one means at least two words. -/
theorem two_words {s : Script} (h : WF s) (hc : 1 < s.cardinal) : ∃ u v, Den s u ∧ Den s v ∧ u ≠ v := by
  induction h with
  | null => simp [cardinal] at hc
  | prim => simp [cardinal] at hc
  | @mult s a m h1 h2 h3 h4 h5 h6 h7 h8 h9 h10 ih1 ih2 ih3 =>
    rw [cardinal_mult (.mult h1 h2 h3 h4 h5 h6 h7 h8 h9 h10)] at hc
    have hor : 1 < s.cardinal ∨ 1 < a.cardinal ∨ 1 < m.cardinal := by
      by_contra hn
      have p1 := cardinal_pos h1; have p2 := cardinal_pos h2; have p3 := cardinal_pos h3
      have e1 : s.cardinal = 1 := by omega
      have e2 : a.cardinal = 1 := by omega
      have e3 : m.cardinal = 1 := by omega
      simp [e1, e2, e3] at hc
    obtain ⟨us, hus⟩ := den_exists h1
    obtain ⟨ua, hua⟩ := den_exists h2
    obtain ⟨um, hum⟩ := den_exists h3
    rcases hor with hc | hc | hc
    · obtain ⟨u, v, hu, hv, hne⟩ := ih1 hc
      refine ⟨_, _, .mult hu hua hum, .mult hv hua hum, fun he => hne ?_⟩
      exact (append3_inj he (by rw [den_length h1 hu, den_length h1 hv]) rfl).1
    · obtain ⟨u, v, hu, hv, hne⟩ := ih2 hc
      refine ⟨_, _, .mult hus hu hum, .mult hus hv hum, fun he => hne ?_⟩
      exact (append3_inj he rfl (by rw [den_length h2 hu, den_length h2 hv])).2.1
    · obtain ⟨u, v, hu, hv, hne⟩ := ih3 hc
      refine ⟨_, _, .mult hus hua hu, .mult hus hua hv, fun he => hne ?_⟩
      exact (append3_inj he rfl rfl).2.2
  | @add cs h1 h2 h3 h4 h5 h6 h7 ih =>
    by_cases hb : ∃ c ∈ cs, 1 < c.cardinal
    · obtain ⟨c, hcm, hcc⟩ := hb
      obtain ⟨u, v, hu, hv, hne⟩ := ih c hcm hcc
      exact ⟨u, v, .add hcm hu, .add hcm hv, hne⟩
    · have hone : ∀ c ∈ cs, c.cardinal = 1 := by
        intro c hcm
        have := cardinal_pos (h2 c hcm)
        by_contra hne
        exact hb ⟨c, hcm, by omega⟩
      rw [cardinal_add (.add h1 h2 h3 h4 h5 h6 h7)] at hc
      rcases cs with _ | ⟨c, _ | ⟨d, ds⟩⟩
      · exact absurd rfl h1
      · simp [hone c] at hc
      · obtain ⟨u, hu⟩ := den_exists (h2 c (by simp))
        obtain ⟨v, hv⟩ := den_exists (h2 d (by simp))
        refine ⟨u, v, .add (by simp) hu, .add (by simp) hv, ?_⟩
        rintro rfl
        have := (List.pairwise_cons.1 h5).1 d (by simp)
        exact this (str_of_word (h2 c (by simp)) (h2 d (by simp)) (hone c (by simp)) (hone d (by simp))
          (by rw [h3 c (by simp), h3 d (by simp)]) hu hv)

theorem singular_iff {s : Script} (h : WF s) : Singular s ↔ s.cardinal = 1 := by
  constructor
  · rintro ⟨w, _, hu⟩
    by_contra hne
    have := cardinal_pos h
    obtain ⟨u, v, hu', hv', hne⟩ := two_words h (by omega)
    exact hne (by rw [hu u hu', hu v hv'])
  · exact singular_of_cardinal h

/-- No two elements of the list have the same text. -/
def NoRep (L : List Script) : Prop := L.Pairwise (fun a b => a.str ≠ b.str)

theorem noRep_perm {L M : List Script} (h : L.Perm M) : NoRep L ↔ NoRep M :=
  h.pairwise_iff (fun {_ _} h => Ne.symm h)

/-- Key of a triple. -/
def key3 (t : Script × Script × Script) : Str × Str × Str := (t.1.str, t.2.1.str, t.2.2.str)

theorem product3_cons (x : Script) (xs ys zs : List Script) :
    product3 (x :: xs) ys zs = (ys.flatMap fun y => zs.map fun z => (x, y, z)) ++ product3 xs ys zs := rfl

theorem pairwise_inner (x : Script) (zs : List Script) (hz : NoRep zs) : ∀ ys : List Script, NoRep ys →
    (ys.flatMap fun y => zs.map fun z => (x, y, z)).Pairwise (fun t t' => key3 t ≠ key3 t')
  | [], _ => by simp
  | y :: ys, h => by
    obtain ⟨h1, h2⟩ := List.pairwise_cons.1 h
    rw [List.flatMap_cons, List.pairwise_append]
    refine ⟨?_, pairwise_inner x zs hz ys h2, ?_⟩
    · rw [List.pairwise_map]
      exact hz.imp (fun {a b} hab he => hab (by simpa [key3] using he))
    · intro t ht t' ht' he
      obtain ⟨z, _, rfl⟩ := List.mem_map.1 ht
      obtain ⟨y', hy', ht'⟩ := List.mem_flatMap.1 ht'
      obtain ⟨z', _, rfl⟩ := List.mem_map.1 ht'
      simp only [key3, Prod.mk.injEq] at he
      exact h1 y' hy' he.2.1

theorem pairwise_product3 {ys zs : List Script} (hy : NoRep ys) (hz : NoRep zs) : ∀ {xs : List Script}, NoRep xs →
    (product3 xs ys zs).Pairwise (fun t t' => key3 t ≠ key3 t')
  | [], _ => by simp [product3]
  | x :: xs, h => by
    obtain ⟨h1, h2⟩ := List.pairwise_cons.1 h
    rw [product3_cons, List.pairwise_append]
    refine ⟨pairwise_inner x zs hz ys hy, pairwise_product3 hy hz h2, ?_⟩
    intro t ht t' ht' he
    obtain ⟨y, _, ht⟩ := List.mem_flatMap.1 ht
    obtain ⟨z, _, rfl⟩ := List.mem_map.1 ht
    have := (mem_product3.1 ht').1
    simp only [key3, Prod.mk.injEq] at he
    exact h1 _ this he.1

/-- Conversely. -/
theorem sublist_product3 {ys zs : List Script} {y z : Script} (hy : y ∈ ys) (hz : z ∈ zs) : ∀ xs : List Script,
    (xs.map fun x => (x, y, z)).Sublist (product3 xs ys zs)
  | [] => by simp [product3]
  | x :: xs => by
    rw [product3_cons, List.map_cons]
    refine List.Sublist.append (l₁ := [(x, y, z)]) ?_ (sublist_product3 hy hz xs)
    rw [List.singleton_sublist]
    exact List.mem_flatMap.2 ⟨y, hy, List.mem_map.2 ⟨z, hz, rfl⟩⟩

theorem inner_sublist {x : Script} {xs ys zs : List Script} (hx : x ∈ xs) :
    (ys.flatMap fun y => zs.map fun z => (x, y, z)).Sublist (product3 xs ys zs) := by
  induction xs with
  | nil => cases hx
  | cons a xs ih =>
    rw [product3_cons]
    rcases List.mem_cons.1 hx with rfl | hx
    · exact List.sublist_append_left _ _
    · exact (ih hx).trans (List.sublist_append_right _ _)

theorem sublist_mid {x z : Script} {zs : List Script} (hz : z ∈ zs) : ∀ ys : List Script,
    (ys.map fun y => (x, y, z)).Sublist (ys.flatMap fun y => zs.map fun z => (x, y, z))
  | [] => by simp
  | y :: ys => by
    rw [List.flatMap_cons, List.map_cons]
    refine List.Sublist.append (l₁ := [(x, y, z)]) ?_ (sublist_mid hz ys)
    rw [List.singleton_sublist]
    exact List.mem_map.2 ⟨z, hz, rfl⟩

theorem sublist_last {x y : Script} {ys zs : List Script} (hy : y ∈ ys) :
    (zs.map fun z => (x, y, z)).Sublist (ys.flatMap fun y => zs.map fun z => (x, y, z)) := by
  induction ys with
  | nil => cases hy
  | cons a ys ih =>
    rw [List.flatMap_cons]
    rcases List.mem_cons.1 hy with rfl | hy
    · exact List.sublist_append_left _ _
    · exact (ih hy).trans (List.sublist_append_right _ _)

theorem product3_norep {xs ys zs : List Script} (hx : xs ≠ []) (hy : ys ≠ []) (hz : zs ≠ []) :
    (product3 xs ys zs).Pairwise (fun t t' => key3 t ≠ key3 t') ↔ NoRep xs ∧ NoRep ys ∧ NoRep zs := by
  constructor
  · intro h
    obtain ⟨x, hx⟩ := List.exists_mem_of_ne_nil _ hx
    obtain ⟨y, hy⟩ := List.exists_mem_of_ne_nil _ hy
    obtain ⟨z, hz⟩ := List.exists_mem_of_ne_nil _ hz
    refine ⟨?_, ?_, ?_⟩
    · have := h.sublist (sublist_product3 hy hz xs)
      rw [List.pairwise_map] at this
      exact this.imp (fun {a b} hab he => hab (by simp [key3, he]))
    · have := h.sublist ((sublist_mid hz ys).trans (inner_sublist hx))
      rw [List.pairwise_map] at this
      exact this.imp (fun {a b} hab he => hab (by simp [key3, he]))
    · have := h.sublist ((sublist_last hy).trans (inner_sublist hx))
      rw [List.pairwise_map] at this
      exact this.imp (fun {a b} hab he => hab (by simp [key3, he]))
  · rintro ⟨h1, h2, h3⟩
    exact pairwise_product3 h2 h3 h1

/-- Products of singular scripts have the same text exactly when their roles have. -/
theorem str_mult_roles {x y z x' y' z' : Script} (hx : WF x) (hy : WF y) (hz : WF z) (hx' : WF x') (hy' : WF y') (hz' : WF z')
    (cx : x.cardinal = 1) (cy : y.cardinal = 1) (cz : z.cardinal = 1) (cx' : x'.cardinal = 1) (cy' : y'.cardinal = 1)
    (cz' : z'.cardinal = 1) (h1 : y.layer = x.layer) (h2 : z.layer = x.layer) (h1' : y'.layer = x'.layer)
    (h2' : z'.layer = x'.layer) (h3 : x.layer ≤ 5) (hl : x'.layer = x.layer) :
    (mult (role x) (role y) (role z)).str = (mult (role x') (role y') (role z')).str ↔
      x.str = x'.str ∧ y.str = y'.str ∧ z.str = z'.str := by
  obtain ⟨_, w1, c1⟩ := mkMult_singular hx hy hz cx cy cz h1 h2 h3
  obtain ⟨_, w2, c2⟩ := mkMult_singular hx' hy' hz' cx' cy' cz' h1' h2' (by omega)
  have l1 : (mult (role x) (role y) (role z)).layer = x.layer + 1 := by simp [layer, (role_wf hx).2.2]
  have l2 : (mult (role x') (role y') (role z')).layer = x'.layer + 1 := by simp [layer, (role_wf hx').2.2]
  rw [str_iff_word w1 w2 c1 c2 (by rw [l1, l2, hl])]
  constructor
  · rintro ⟨w, d1, d2⟩
    obtain ⟨u, v, r, e1, e2, e3, rfl⟩ := den_mult.1 d1
    obtain ⟨u', v', r', f1, f2, f3, hw⟩ := den_mult.1 d2
    rw [den_role hx] at e1; rw [den_role hy] at e2; rw [den_role hz] at e3
    rw [den_role hx'] at f1; rw [den_role hy'] at f2; rw [den_role hz'] at f3
    obtain ⟨g1, g2, g3⟩ := append3_inj hw (by rw [den_length hx e1, den_length hx' f1, hl])
      (by rw [den_length hy e2, den_length hy' f2, h1, h1', hl])
    subst g1; subst g2; subst g3
    exact ⟨str_of_word hx hx' cx cx' hl.symm e1 f1, str_of_word hy hy' cy cy' (by omega) e2 f2,
      str_of_word hz hz' cz cz' (by omega) e3 f3⟩
  · rintro ⟨e1, e2, e3⟩
    obtain ⟨u, hu⟩ := den_exists hx
    obtain ⟨v, hv⟩ := den_exists hy
    obtain ⟨r, hr⟩ := den_exists hz
    refine ⟨_, .mult ((den_role hx u).2 hu) ((den_role hy v).2 hv) ((den_role hz r).2 hr), ?_⟩
    exact .mult ((den_role hx' u).2 ((den_of_str hx hx' e1 u).1 hu)) ((den_role hy' v).2 ((den_of_str hy hy' e2 v).1 hv))
      ((den_role hz' r).2 ((den_of_str hz hz' e3 r).1 hr))

theorem enum_ne_nil {s : Script} (h : WF s) {L : List Script} (e : Enum s L) : L ≠ [] := by
  intro he
  have := e.length
  have := cardinal_pos h
  subst he; simp_all; omega

theorem disjointSums_singular {s : Script} (h : WF s) (hc : s.cardinal = 1) : DisjointSums s := by
  induction h with
  | null => exact .null _
  | prim => exact .prim _
  | mult h1 h2 h3 h4 h5 h6 h7 h8 h9 h10 ih1 ih2 ih3 =>
    rw [cardinal_mult (.mult h1 h2 h3 h4 h5 h6 h7 h8 h9 h10)] at hc
    obtain ⟨c1, c2, c3⟩ := mult_eq_one hc
    exact .mult (ih1 c1) (ih2 c2) (ih3 c3)
  | add h1 h2 h3 h4 h5 h6 h7 ih =>
    obtain ⟨c, rfl, hc'⟩ := cardinal_one_add (.add h1 h2 h3 h4 h5 h6 h7) hc
    exact .add (by simpa using ih c (by simp) hc') (by simp)

theorem enumL_norep : ∀ {cs : List Script}, (∀ c ∈ cs, WF c ∧ c.isAdd = false) → (∀ c ∈ cs, ∀ L, Enum c L → (NoRep L ↔ DisjointSums c)) →
    {l : Nat} → (∀ c ∈ cs, c.layer = l) → ∀ {L : List Script}, EnumL cs L →
    (NoRep L ↔ (∀ c ∈ cs, DisjointSums c) ∧ cs.Pairwise (fun c d => ∀ w, ¬ (Den c w ∧ Den d w)))
  | [], _, _, _, _, L, e => by
    have : L = [] := List.eq_nil_of_length_eq_zero (by simpa using e.length)
    subst this; simp [NoRep]
  | c :: cs, hw, ih, l, hl, L, e => by
    obtain ⟨A, ea⟩ := enum_exists (hw c (by simp)).1
    obtain ⟨B, eb⟩ := enumL (cs := cs) fun d hd => ⟨(hw d (List.mem_cons_of_mem _ hd)).2, enum_exists (hw d (List.mem_cons_of_mem _ hd)).1⟩
    have hL : L = A ++ B := by
      have := e.run
      rw [singularSequencesL, ea.run, eb.run] at this
      simpa [bind, Except.bind, pure, Except.pure] using this.symm
    subst hL
    have iha := ih c (by simp) A ea
    have ihb := enumL_norep (fun d hd => hw d (List.mem_cons_of_mem _ hd)) (fun d hd => ih d (List.mem_cons_of_mem _ hd))
      (fun d hd => hl d (List.mem_cons_of_mem _ hd)) eb
    have hcross : (∀ a ∈ A, ∀ b ∈ B, a.str ≠ b.str) ↔ ∀ d ∈ cs, ∀ w, ¬ (Den c w ∧ Den d w) := by
      constructor
      · rintro h d hd w ⟨h1, h2⟩
        obtain ⟨a, ha, hda⟩ := (ea.den w).1 h1
        obtain ⟨b, hb, hdb⟩ := (eb.den w).1 ⟨d, hd, h2⟩
        obtain ⟨d', hd', hld⟩ := eb.layer b hb
        refine h a ha b hb (str_of_word (ea.wf a ha) (eb.wf b hb).1 (ea.one a ha) (eb.one b hb) ?_ hda hdb)
        rw [ea.layer a ha, hld, hl c (by simp), hl d' (List.mem_cons_of_mem _ hd')]
      · intro h a ha b hb hs
        obtain ⟨w, hw'⟩ := den_exists (ea.wf a ha)
        have h2 := (den_of_str (ea.wf a ha) (eb.wf b hb).1 hs w).1 hw'
        obtain ⟨d, hd, hdw⟩ := (eb.den w).2 ⟨b, hb, h2⟩
        exact h d hd w ⟨(ea.den w).2 ⟨a, ha, hw'⟩, hdw⟩
    rw [NoRep, List.pairwise_append, hcross, List.pairwise_cons]
    constructor
    · rintro ⟨h1, h2, h3⟩
      obtain ⟨h4, h5⟩ := ihb.1 h2
      refine ⟨?_, h3, h5⟩
      intro d hd
      rcases List.mem_cons.1 hd with rfl | hd
      · exact iha.1 h1
      · exact h4 d hd
    · rintro ⟨h1, h2, h3⟩
      exact ⟨iha.2 (h1 c (by simp)), ihb.2 ⟨fun d hd => h1 d (List.mem_cons_of_mem _ hd), h3⟩, h2⟩

/-- The enumeration has no repetition exactly when the terms of every sum are disjoint. -/
theorem norep_iff {s : Script} (h : WF s) : ∀ {L : List Script}, Enum s L → (NoRep L ↔ DisjointSums s) := by
  have one : ∀ {s : Script}, WF s → s.cardinal = 1 → ∀ {L : List Script}, Enum s L → (NoRep L ↔ DisjointSums s) := by
    intro s h hc L e
    have hl := e.length
    rw [hc] at hl
    obtain ⟨x, rfl⟩ := List.length_eq_one_iff.1 hl
    simp [NoRep, disjointSums_singular h hc]
  induction h with
  | null h => exact fun e => one (.null h) rfl e
  | prim => exact fun e => one .prim rfl e
  | @mult s a m h1 h2 h3 h4 h5 h6 h7 h8 h9 h10 ih1 ih2 ih3 =>
    intro L e
    have hw : WF (mult s a m) := .mult h1 h2 h3 h4 h5 h6 h7 h8 h9 h10
    cases hp : (mult s a m).paradigm with
    | false => exact one hw ((paradigm_false_iff hw).1 hp) e
    | true =>
      obtain ⟨xs, r1, e1⟩ := enum_role h1 h7 (enum_exists h1)
      obtain ⟨ys, r2, e2⟩ := enum_role h2 h8 (enum_exists h2)
      obtain ⟨zs, r3, e3⟩ := enum_role h3 h9 (enum_exists h3)
      let g : Script × Script × Script → Script := fun t => mult (role t.1) (role t.2.1) (role t.2.2)
      have hg : ∀ t ∈ product3 xs ys zs, mkMult [some t.1, some t.2.1, some t.2.2] = .ok (g t) ∧ WF (g t) ∧ (g t).cardinal = 1 := by
        intro t ht
        obtain ⟨m1, m2, m3⟩ := mem_product3.1 ht
        exact mkMult_singular (e1.wf _ m1) (e2.wf _ m2) (e3.wf _ m3) (e1.one _ m1) (e2.one _ m2) (e3.one _ m3)
          (by rw [e1.layer _ m1, e2.layer _ m2, h4]) (by rw [e1.layer _ m1, e3.layer _ m3, h5]) (by rw [e1.layer _ m1]; exact h6)
      have hrun : singularSequences (mult s a m) = .ok (pySort lt ((product3 xs ys zs).map g)) := by
        rw [singularSequences, hp]
        simp only [Bool.not_true, Bool.false_eq_true, if_false]
        rw [r1, r2, r3]
        simp only [bind, Except.bind]
        rw [mapM_ok fun t ht => (hg t ht).1]
        rfl
      have hL : L = pySort lt ((product3 xs ys zs).map g) := by
        have := e.run
        rw [hrun, Except.ok.injEq] at this
        exact this.symm
      rw [hL, noRep_perm (pySort_perm lt _), NoRep, List.pairwise_map]
      have hiff : (product3 xs ys zs).Pairwise (fun t t' => (g t).str ≠ (g t').str) ↔
          (product3 xs ys zs).Pairwise (fun t t' => key3 t ≠ key3 t') := by
        refine List.Pairwise.iff_of_mem ?_
        intro t t' ht ht'
        obtain ⟨m1, m2, m3⟩ := mem_product3.1 ht
        obtain ⟨n1, n2, n3⟩ := mem_product3.1 ht'
        have := str_mult_roles (e1.wf _ m1) (e2.wf _ m2) (e3.wf _ m3) (e1.wf _ n1) (e2.wf _ n2) (e3.wf _ n3)
          (e1.one _ m1) (e2.one _ m2) (e3.one _ m3) (e1.one _ n1) (e2.one _ n2) (e3.one _ n3)
          (by rw [e1.layer _ m1, e2.layer _ m2, h4]) (by rw [e1.layer _ m1, e3.layer _ m3, h5])
          (by rw [e1.layer _ n1, e2.layer _ n2, h4]) (by rw [e1.layer _ n1, e3.layer _ n3, h5])
          (by rw [e1.layer _ m1]; exact h6) (by rw [e1.layer _ n1, e1.layer _ m1])
        simp only [ne_eq, key3, Prod.mk.injEq]
        exact not_congr this
      rw [hiff, product3_norep (enum_ne_nil h1 e1) (enum_ne_nil h2 e2) (enum_ne_nil h3 e3), ih1 e1, ih2 e2, ih3 e3]
      constructor
      · rintro ⟨a, b, c⟩; exact .mult a b c
      · intro h; cases h with | mult a b c => exact ⟨a, b, c⟩
  | @add cs h1 h2 h3 h4 h5 h6 h7 ih =>
    intro L e
    have hw : WF (add cs) := .add h1 h2 h3 h4 h5 h6 h7
    cases hp : (add cs).paradigm with
    | false => exact one hw ((paradigm_false_iff hw).1 hp) e
    | true =>
      obtain ⟨M, f⟩ := enumL fun c hc => ⟨h4 c hc, enum_exists (h2 c hc)⟩
      have hrun : singularSequences (add cs) = .ok (pySort lt M) := by
        rw [singularSequences, hp]
        simp only [Bool.not_true, Bool.false_eq_true, if_false]
        rw [f.run]; rfl
      have hL : L = pySort lt M := by
        have := e.run
        rw [hrun, Except.ok.injEq] at this
        exact this.symm
      rw [hL, noRep_perm (pySort_perm lt _), enumL_norep (fun c hc => ⟨h2 c hc, h4 c hc⟩) (fun c hc L e => ih c hc e) h3 f]
      constructor
      · rintro ⟨a, b⟩; exact .add a b
      · intro h; cases h with | add a b => exact ⟨a, b⟩

end Script
end Verif
