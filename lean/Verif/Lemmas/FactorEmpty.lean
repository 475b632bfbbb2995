import Verif.Lemmas.FactorRepeat
import Verif.Lemmas.SFun2

/-
Factorisation does not see how the empty sequence is represented: as a null script or as the product of three null scripts, which have
the same text.
-/

namespace Verif
open Script

theorem pySort_map_mem {α β : Type} {lt : α → α → Bool} {lt' : β → β → Bool} {g : α → β} {l : List α}
    (h : ∀ a ∈ l, ∀ b ∈ l, lt' (g a) (g b) = lt a b) : pySort lt' (l.map g) = (pySort lt l).map g := by
  have ins : ∀ {x : α} {m : List α}, (∀ a ∈ x :: m, ∀ b ∈ x :: m, lt' (g a) (g b) = lt a b) →
      insertBy lt' (g x) (m.map g) = (insertBy lt x m).map g := by
    intro x m
    induction m with
    | nil => intro _; rfl
    | cons y m ih =>
      intro hm
      simp only [List.map_cons, insertBy, hm y (by simp) x (by simp)]
      split
      · simp [ih fun a ha b hb => hm a (by simp at ha ⊢; tauto) b (by simp at hb ⊢; tauto)]
      · simp
  induction l with
  | nil => rfl
  | cons x l ih =>
    rw [List.map_cons, pySort, pySort, ih fun a ha b hb => h a (by simp [ha]) b (by simp [hb])]
    refine ins fun a ha b hb => h a ?_ b ?_
    · simpa [mem_pySort (lt := lt)] using ha
    · simpa [mem_pySort (lt := lt)] using hb

/-- The empty script of a layer, in one representation. -/
def nullified (x : Script) : Script := if x.empty then null x.layer else x

theorem nullified_nullified (x : Script) : nullified (nullified x) = nullified x := by
  unfold nullified
  by_cases h : x.empty = true
  · simp [h, Script.empty, layer]
  · simp [h]

/-- A script that is not a sum and its representation with a null script are the same, for everything that factorisation looks at. -/
theorem nullified_facts {x : Script} (h : WF x) (ha : x.isAdd = false) : WF (nullified x) ∧ (nullified x).isAdd = false ∧
    (nullified x).str = x.str ∧ (nullified x).layer = x.layer ∧ (nullified x).cardinal = x.cardinal ∧ K (nullified x) = K x ∧
    (nullified x).norm = x.norm := by
  unfold nullified
  by_cases he : x.empty = true
  · rw [if_pos he]
    have hp : Plain x := fun c hc => by rw [hc] at ha; cases ha
    have hn : x.norm = null x.layer := by
      have h1 := norm_isNull h
      have h2 := layer_norm h
      rw [he] at h1
      cases hx : x.norm with
      | null l => rw [hx] at h2; simp only [layer] at h2; rw [h2]
      | prim p => rw [hx] at h1; cases h1
      | mult s a m => rw [hx] at h1; cases h1
      | add cs => rw [hx] at h1; cases h1
    rw [← hn]
    refine ⟨?_, by rw [hn]; rfl, str_norm h, layer_norm h, cardinal_norm h, K_norm h hp, by rw [hn]; simp [norm]⟩
    rw [hn]
    exact .null (wf_layer h)
  · rw [if_neg he]
    exact ⟨h, ha, rfl, rfl, rfl, rfl, rfl⟩

theorem nullified_sing {l : Nat} {x : Script} (h : Sing l x) : Sing l (nullified x) ∧ (nullified x).str = x.str := by
  obtain ⟨h1, h2, h3, h4, h5, _⟩ := nullified_facts h.1 h.2.2.2
  exact ⟨⟨h1, h5.trans h.2.1, h4.trans h.2.2.1, h2⟩, h3⟩

theorem nullified_lt {x y : Script} (hx : WF x) (ax : x.isAdd = false) (hy : WF y) (ay : y.isAdd = false) :
    lt (nullified x) (nullified y) = lt x y := by
  have plain : ∀ {x : Script}, x.isAdd = false → Plain x := fun ha c hc => by rw [hc] at ha; cases ha
  obtain ⟨h1, h2, _, _, _, h6, _⟩ := nullified_facts hx ax
  obtain ⟨k1, k2, _, _, _, k6, _⟩ := nullified_facts hy ay
  rw [lt_K h1 (plain h2) k1 (plain k2), lt_K hx (plain ax) hy (plain ay), h6, k6]

/-- The roles of a sequence do not depend on its representation. -/
theorem nullified_roles {l : Nat} {x : Script} (h : Sing (l + 1) x) : rolesOf (nullified x) = rolesOf x := by
  unfold nullified
  by_cases he : x.empty = true
  · rw [if_pos he, h.2.2.1]
    cases x with
    | null k =>
      have : k = l + 1 := h.2.2.1
      rw [this]
    | prim p => cases he
    | add cs => cases h.2.2.2
    | mult s a m =>
      obtain ⟨hw, _, hl, _⟩ := h
      simp only [layer, Nat.add_right_cancel_iff] at hl
      cases hw with
      | mult h1 h2 h3 h4 h5 h6 r1 r2 r3 h10 =>
        have he : s.empty = true ∧ a.empty = true ∧ m.empty = true := by
          simp only [Script.empty] at he
          split at he
          · cases he
          · simpa [and_assoc] using he
        obtain ⟨k1, rfl⟩ := r1.2 he.1
        obtain ⟨k2, rfl⟩ := r2.2 he.2.1
        obtain ⟨k3, rfl⟩ := r3.2 he.2.2
        simp only [layer] at h4 h5 hl
        subst h4 h5 hl
        rfl
  · rw [if_neg he]

theorem dedupBy_nullified : ∀ {S : List Script}, (∀ x ∈ S, (nullified x).str = x.str) → dedupBy str (S.map nullified) = (dedupBy str S).map nullified
  | [], _ => rfl
  | x :: S, h => by
    have ih := dedupBy_nullified fun y hy => h y (List.mem_cons_of_mem x hy)
    rw [List.map_cons, dedupBy, dedupBy, List.map_cons, ih, List.filter_map, h x (by simp)]
    congr 2
    refine List.filter_congr fun y hy => ?_
    have := h y (List.mem_cons_of_mem x (mem_dedupBy str hy))
    simp [Function.comp, this]

theorem dictSet_nullified (c : Coord) (v : Script) : ∀ d : List (Coord × Script),
    dictSet id c (nullified v) (d.map fun e => (e.1, nullified e.2)) = (dictSet id c v d).map fun e => (e.1, nullified e.2)
  | [] => rfl
  | e :: d => by
    simp only [List.map_cons, dictSet]
    split
    · simp
    · rw [dictSet_nullified c v d]; simp

theorem scriptsOf_nullified (l : List (Coord × Script)) : scriptsOf (l.map fun e => (e.1, nullified e.2)) = (scriptsOf l).map fun e => (e.1, nullified e.2) := by
  induction l using List.reverseRecOn with
  | nil => rfl
  | append_singleton l x ih =>
    unfold scriptsOf at ih ⊢
    rw [List.map_append, List.foldl_append, ih, List.foldl_append]
    exact dictSet_nullified x.1 x.2 _

theorem dictGet_nullified (c : Coord) : ∀ d : List (Coord × Script),
    dictGet id c (d.map fun e => (e.1, nullified e.2)) = (dictGet id c d).map nullified
  | [] => rfl
  | e :: d => by
    simp only [List.map_cons, dictGet]
    split
    · simp
    · exact dictGet_nullified c d

theorem any_congr_mem {α : Type} {f g : α → Bool} : ∀ {l : List α}, (∀ x ∈ l, f x = g x) → l.any f = l.any g
  | [], _ => rfl
  | x :: l, h => by rw [List.any_cons, List.any_cons, h x (by simp), any_congr_mem fun y hy => h y (by simp [hy])]

theorem mapM_map_ok {α β : Type} {f g : α → Except Err β} {h : β → β} (hf : ∀ x, g x = (f x).map h) : ∀ l : List α,
    l.mapM g = (l.mapM f).map (List.map h)
  | [] => rfl
  | x :: l => by
    rw [List.mapM_cons, List.mapM_cons, hf x, mapM_map_ok hf l]
    cases f x <;> cases l.mapM f <;> rfl

theorem scriptsOf_mem {l : List (Coord × Script)} {e : Coord × Script} (h : e ∈ scriptsOf l) : e ∈ l := by
  induction l using List.reverseRecOn generalizing e with
  | nil => exact h
  | append_singleton l x ih =>
    unfold scriptsOf at h ih
    rw [List.foldl_append] at h
    rcases dictSet_id_mem x.1 x.2 h with h | h
    · rw [h]; simp
    · simp [ih h]

theorem picked_mem {l : List (Coord × Script)} {best : List Coord} {p : List Script} (h : best.mapM (scriptAt (scriptsOf l)) = .ok p) :
    ∀ x ∈ p, x ∈ l.map (·.2) := by
  intro x hx
  obtain ⟨c, _, hc⟩ := (mapM_mem h).1 hx
  unfold scriptAt at hc
  split at hc
  · rename_i s hs
    cases hc
    exact List.mem_map.2 ⟨_, scriptsOf_mem (dictGet_id_mem hs), rfl⟩
  · cases hc

/-- Lines 20-90 do not see the representation. -/
theorem splitSequences_nullified {l : Nat} {S : List Script} (hS : ∀ x ∈ S, Sing (l + 1) x) :
    splitSequences (S.map nullified) = (splitSequences S).map fun r => (r.1, r.2.1, r.2.2.1, r.2.2.2.map nullified) := by
  have hr : (S.map nullified).mapM rolesOf = S.mapM rolesOf := by
    rw [List.mapM_map]
    exact mapM_congr_mem fun x hx => nullified_roles (hS x hx)
  unfold splitSequences
  rw [hr]
  cases h1 : S.mapM rolesOf with
  | error e => rfl
  | ok rows =>
    simp only [bind, Except.bind]
    cases h2 : rows.mapM (coordOf (axis (rows.map (·.1))) (axis (rows.map (·.2.1))) (axis (rows.map (·.2.2)))) with
    | error e => rfl
    | ok coords =>
      simp only []
      have hz : coords.zip (S.map nullified) = (coords.zip S).map fun e => (e.1, nullified e.2) := by
        rw [List.zip_map_right]; rfl
      have hk : ((scriptsOf (coords.zip S)).map fun e => (e.1, nullified e.2)).map (·.1) = (scriptsOf (coords.zip S)).map (·.1) := by
        simp [Function.comp_def]
      rw [hz, scriptsOf_nullified, hk]
      cases h3 : bestFactors ((scriptsOf (coords.zip S)).map (·.1)) with
      | error e => rfl
      | ok best =>
        simp only []
        have hp : best.mapM (scriptAt ((scriptsOf (coords.zip S)).map fun e => (e.1, nullified e.2))) =
            (best.mapM (scriptAt (scriptsOf (coords.zip S)))).map (List.map nullified) := by
          refine mapM_map_ok (fun c => ?_) best
          unfold scriptAt
          rw [dictGet_nullified]
          cases dictGet id c (scriptsOf (coords.zip S)) <;> rfl
        rw [hp]
        cases h4 : best.mapM (scriptAt (scriptsOf (coords.zip S))) with
        | error e => rfl
        | ok picked =>
          simp only [Except.map]
          cases semesOf (axis (rows.map (·.1))) (best.map (·.1)) with
          | error e => rfl
          | ok p0 =>
            simp only []
            cases semesOf (axis (rows.map (·.2.1))) (best.map (·.2.1)) with
            | error e => rfl
            | ok p1 =>
              simp only []
              cases semesOf (axis (rows.map (·.2.2))) (best.map (·.2.2)) with
              | error e => rfl
              | ok p2 =>
                simp only [pure, Except.pure, Except.ok.injEq, Prod.mk.injEq, true_and]
                have hpm : ∀ p ∈ picked, (nullified p).str = p.str := by
                  intro p hp
                  obtain ⟨e, he, rfl⟩ := List.mem_map.1 (picked_mem h4 p hp)
                  exact (nullified_sing (hS _ (List.of_mem_zip he).2)).2
                unfold remainingOf
                rw [dedupBy_nullified fun x hx => (nullified_sing (hS x hx)).2, List.filter_map]
                have hf : (dedupBy str S).filter ((fun s => !((picked.map nullified).any fun p => p.pyEq s)) ∘ nullified) =
                    (dedupBy str S).filter fun s => !(picked.any fun p => p.pyEq s) := by
                  refine List.filter_congr fun x hx => ?_
                  have hx' := (nullified_sing (hS x (mem_dedupBy str hx))).2
                  simp only [Function.comp, List.any_map]
                  congr 1
                  refine any_congr_mem fun p hp => ?_
                  simp only [Function.comp, pyEq, hpm p hp, hx']
                rw [hf]
                refine pySort_map_mem fun a ha b hb => ?_
                have ha := hS a (mem_dedupBy str (List.mem_filter.1 ha).1)
                have hb := hS b (mem_dedupBy str (List.mem_filter.1 hb).1)
                exact nullified_lt ha.1 ha.2.2.2 hb.1 hb.2.2.2

/-- The elements of a factorisation, with one representation of the empty sequence. -/
def Facto.nullified : Facto → Facto
  | .script s => .script (Verif.nullified s)
  | f => f

theorem remaining_mem {S p0 p1 p2 rem : List Script} (h : splitSequences S = .ok (p0, p1, p2, rem)) : ∀ x ∈ rem, x ∈ S := by
  unfold splitSequences at h
  repeat (rw [bind_ok] at h; obtain ⟨_, _, h⟩ := h)
  rw [pure_ok] at h
  simp only [Prod.mk.injEq] at h
  obtain ⟨_, _, _, rfl⟩ := h
  intro x hx
  unfold remainingOf at hx
  exact mem_dedupBy str (List.mem_filter.1 ((mem_pySort (lt := lt)).1 hx)).1

theorem factorLoop_nullified {ord : List Script → List Script} {l : Nat} {sub : List Script → Except Err (List Facto)} : ∀ (n : Nat) (S : List Script),
    (∀ x ∈ S, Sing (l + 1) x) →
    factorLoop ord l sub n (S.map nullified) = (factorLoop ord l sub n S).map (List.map Facto.nullified) := by
  intro n
  induction n with
  | zero =>
    intro S hS
    match S, hS with
    | [], _ => rw [List.map_nil, factorLoop.eq_def]; rfl
    | [x], hS =>
      have h1 := hS x (by simp)
      have h2 := (nullified_sing h1).1
      rw [List.map_cons, List.map_nil, factorLoop.eq_def, factorLoop.eq_def]
      simp only [h1.2.2.1, h2.2.2.1, if_true]
      rfl
    | x :: y :: S, hS =>
      have h1 := hS x (by simp)
      have h2 := (nullified_sing h1).1
      have hs := splitSequences_nullified hS
      rw [List.map_cons, List.map_cons] at hs ⊢
      rw [factorLoop.eq_def]
      conv_rhs => rw [factorLoop.eq_def]
      simp only [h1.2.2.1, h2.2.2.1, ne_eq, not_true_eq_false, if_false]
      rw [hs]
      cases splitSequences (x :: y :: S) with
      | error e => rfl
      | ok r =>
        obtain ⟨p0, p1, p2, rem⟩ := r
        simp only [bind, Except.bind, Except.map]
        cases sub (ord p0) with
        | error e => rfl
        | ok f0 =>
          cases sub (ord p1) with
          | error e => rfl
          | ok f1 =>
            cases sub (ord p2) with
            | error e => rfl
            | ok f2 => cases rem <;> rfl
  | succ n ih =>
    intro S hS
    match S, hS with
    | [], _ => rw [List.map_nil, factorLoop.eq_def]; rfl
    | [x], hS =>
      have h1 := hS x (by simp)
      have h2 := (nullified_sing h1).1
      rw [List.map_cons, List.map_nil, factorLoop.eq_def, factorLoop.eq_def]
      simp only [h1.2.2.1, h2.2.2.1, if_true]
      rfl
    | x :: y :: S, hS =>
      have h1 := hS x (by simp)
      have h2 := (nullified_sing h1).1
      have hs := splitSequences_nullified hS
      rw [List.map_cons, List.map_cons] at hs ⊢
      rw [factorLoop.eq_def]
      conv_rhs => rw [factorLoop.eq_def]
      simp only [h1.2.2.1, h2.2.2.1, ne_eq, not_true_eq_false, if_false]
      rw [hs]
      cases hr : splitSequences (x :: y :: S) with
      | error e => rfl
      | ok r =>
        obtain ⟨p0, p1, p2, rem⟩ := r
        have hm := remaining_mem hr
        simp only [bind, Except.bind, Except.map]
        cases sub (ord p0) with
        | error e => rfl
        | ok f0 =>
          cases sub (ord p1) with
          | error e => rfl
          | ok f1 =>
            cases sub (ord p2) with
            | error e => rfl
            | ok f2 =>
              cases rem with
              | nil => rfl
              | cons r rs =>
                have := ih (r :: rs) fun z hz => hS z (hm z hz)
                rw [List.map_cons] at this
                simp only [List.map_cons]
                rw [this]
                cases factorLoop ord l sub n (r :: rs) <;> rfl

/-- The packed elements are the same scripts, up to the representation of the empty sequence. -/
theorem packAll_nullified : ∀ {fs : List Facto} {ts : List Script}, packAll fs = .ok ts →
    ∃ ts', packAll (fs.map Facto.nullified) = .ok ts' ∧ ts'.map nullified = ts.map nullified
  | [], ts, h => by
    rw [packAll, Except.ok.injEq] at h
    subst h
    exact ⟨[], by rw [List.map_nil, packAll], rfl⟩
  | f :: fs, ts, h => by
    rw [packAll, bind_ok] at h
    obtain ⟨s, h1, h⟩ := h
    rw [bind_ok] at h
    obtain ⟨r, h2, h⟩ := h
    rw [pure_ok] at h
    subst h
    obtain ⟨r', h3, h4⟩ := packAll_nullified h2
    have one : ∃ s', packOne f.nullified = .ok s' ∧ nullified s' = nullified s := by
      cases f with
      | script x =>
        rw [packOne, Except.ok.injEq] at h1
        subst h1
        exact ⟨nullified x, by rw [Facto.nullified, packOne], nullified_nullified x⟩
      | product a b c => exact ⟨s, h1, rfl⟩
    obtain ⟨s', h5, h6⟩ := one
    exact ⟨s' :: r', by rw [List.map_cons, packAll, h5, h3]; rfl, by simp [h4, h6]⟩

/-- The sum of packed elements has the same text in the two representations. -/
theorem packSum_nullified {l : Nat} {ts : List Script} (hne : ts ≠ []) (ht : ∀ t ∈ ts, WF t ∧ t.isAdd = false ∧ t.layer = l) :
    (packSum (ts.map nullified)).map str = (packSum ts).map str := by
  have fact := fun t (h : t ∈ ts) => nullified_facts (ht t h).1 (ht t h).2.1
  match ts, hne, ht, fact with
  | [x], _, ht, fact => simp only [List.map_cons, List.map_nil, packSum, Except.map, (fact x (by simp)).2.2.1]
  | x :: y :: ts, hne, ht, fact =>
    have two : ∀ a b (c : List Script), packSum (a :: b :: c) = mkAdd (a :: b :: c) := fun _ _ _ => rfl
    rw [List.map_cons, List.map_cons, two, two, ← List.map_cons, ← List.map_cons]
    generalize hT : x :: y :: ts = T at hne ht fact
    have w1 : ∀ c ∈ T.map nullified, WF c := by
      intro c hc; obtain ⟨t, h, rfl⟩ := List.mem_map.1 hc; exact (fact t h).1
    have a1 : ∀ c ∈ T.map nullified, c.isAdd = false := by
      intro c hc; obtain ⟨t, h, rfl⟩ := List.mem_map.1 hc; exact (fact t h).2.1
    have l1 : ∀ c ∈ T.map nullified, c.layer = l := by
      intro c hc; obtain ⟨t, h, rfl⟩ := List.mem_map.1 hc; exact (fact t h).2.2.2.1.trans (ht t h).2.2
    have w2 : ∀ c ∈ T, WF c := fun c hc => (ht c hc).1
    have e1 := mkAdd_eval (cs := T.map nullified) (by simpa using hne) w1 l1
    have e2 := mkAdd_eval hne w2 fun c hc => (ht c hc).2.2
    rw [sumTerms_flat a1, dedupBy_nullified fun t h => (fact t h).2.2.1] at e1
    rw [sumTerms_flat fun c hc => (ht c hc).2.1] at e2
    have hsub : ∀ t ∈ dedupBy str T, t ∈ T := fun t h => mem_dedupBy str h
    have hcard : ((dedupBy str T).map nullified).map cardinal = (dedupBy str T).map cardinal := by
      rw [List.map_map]
      exact List.map_congr_left fun t h => (fact t (hsub t h)).2.2.2.2.1
    rw [hcard, pySort_map_mem (lt := lt) fun a ha b hb => nullified_lt (ht a (hsub a ha)).1 (ht a (hsub a ha)).2.1 (ht b (hsub b hb)).1 (ht b (hsub b hb)).2.1] at e1
    simp only [List.map_eq_nil_iff] at e1
    by_cases hn : dedupBy str T = []
    · rw [e1, e2, if_pos hn, if_pos hn]
    · rw [if_neg hn] at e1 e2
      by_cases hc : ((dedupBy str T).map cardinal).sum > 360
      · rw [e1, e2, if_pos hc, if_pos hc]
      · rw [if_neg hc] at e1 e2
        rw [e1, e2]
        have h1 := mkAdd_wf w1 e1
        have h2 := mkAdd_wf w2 e2
        simp only [Except.map, Except.ok.injEq]
        rw [← norm_eq_iff h1 h2, norm_add, norm_add, List.map_map]
        congr 1
        refine List.map_congr_left fun t h => ?_
        exact (fact t (hsub t ((mem_pySort (lt := lt)).1 h))).2.2.2.2.2.2

/-- The factorisation of singular sequences gives the same text in the two representations of the empty sequence. -/
theorem factorSequences_nullified {ord : List Script → List Script} (ho : FactorOrder ord) {l : Nat} {S : List Script} (hne : S ≠ [])
    (hS : ∀ x ∈ S, Sing l x) (hc : (wordSet S).card ≤ 360) :
    (factorSequences ord (S.map nullified)).map str = (factorSequences ord S).map str := by
  cases l with
  | zero =>
    have : S.map nullified = S := by
      conv_rhs => rw [← List.map_id S]
      refine List.map_congr_left fun x hx => ?_
      have h := hS x hx
      unfold nullified
      rcases layer0_cases h.2.2.1 h.2.2.2 with rfl | ⟨p, rfl⟩
      · rfl
      · rfl
    rw [this]
  | succ l =>
    have hE : ∀ {S : List Script}, S ≠ [] → (∀ x ∈ S, Sing (l + 1) x) → factorSequences ord S = factor ord (l + 1) S >>= packFactorisation := by
      intro S hne hS
      cases S with
      | nil => exact absurd rfl hne
      | cons x S => rw [factorSequences, (hS x (by simp)).2.2.1]
    have hS' : ∀ x ∈ S.map nullified, Sing (l + 1) x := by
      intro c hc; obtain ⟨t, h, rfl⟩ := List.mem_map.1 hc; exact (nullified_sing (hS t h)).1
    have hw : wordSet (S.map nullified) = wordSet S := by
      unfold wordSet
      rw [List.map_map]
      congr 1
      refine List.map_congr_left fun x hx => ?_
      obtain ⟨h1, h2⟩ := nullified_sing (hS x hx)
      exact (str_sing h1 (hS x hx)).1 h2
    rw [hE hne hS, hE (by simpa using hne) hS', factor, factor, List.length_map, factorLoop_nullified _ S hS]
    cases h : factorLoop ord l (factor ord l) S.length S with
    | error e => rfl
    | ok fs =>
      obtain ⟨ts, h1, h2⟩ := factor_packed ho (l + 1) S fs hne hS (fun h => by omega) hc (by rw [factor]; exact h)
      obtain ⟨ts', h3, h4⟩ := packAll_nullified h1
      show (packFactorisation (fs.map Facto.nullified)).map str = (packFactorisation fs).map str
      rw [packFactorisation, packFactorisation, h1, h3]
      show (packSum ts').map str = (packSum ts).map str
      obtain ⟨ts2, h5, h6⟩ := factor_packed ho (l + 1) (S.map nullified) (fs.map Facto.nullified) (by simpa using hne) hS' (fun h => by omega)
        (by rw [hw]; exact hc) (by rw [factor, List.length_map, factorLoop_nullified _ S hS, h]; rfl)
      rw [h3, Except.ok.injEq] at h5
      subst h5
      rw [← packSum_nullified h2.ne h2.each, ← packSum_nullified h6.ne h6.each, h4]

/-- The sequences of a script, in one representation. -/
theorem nullified_of_words {l : Nat} {x y : Script} (hx : Sing l x) (hy : Sing l y) {w : Word} (h1 : Den x w) (h2 : Den y w) :
    nullified x = nullified y := by
  have role : ∀ {x : Script}, Sing l x → nullified x = x.norm := by
    intro x h
    obtain ⟨k1, k2, _, _, k5, _, k7⟩ := nullified_facts h.1 h.2.2.2
    have hpl : Plain (nullified x) := fun c hc => by rw [hc] at k2; cases k2
    rw [← k7]
    refine (norm_singular k1 (k5.trans h.2.1) ⟨hpl, fun he => ?_⟩).symm
    by_cases hx : x.empty = true
    · exact ⟨x.layer, by unfold nullified; rw [if_pos hx]⟩
    · unfold nullified at he
      rw [if_neg hx] at he
      exact absurd he hx
  rw [role hx, role hy]
  exact norm_of_word l hx.1 hy.1 hx.2.2.1 hy.2.2.1 hx.2.1 hy.2.1 h1 h2

/-- The sequences up to repetition depend only on the words. -/
theorem dedup_nullified {s t : Script} {L M : List Script} (e : Enum s L) (f : Enum t M) (hL : ∀ x ∈ L, Sing s.layer x)
    (hM : ∀ x ∈ M, Sing t.layer x) (hl : s.layer = t.layer) (hd : ∀ w, Den s w ↔ Den t w) :
    dedupBy str (L.map nullified) = dedupBy str (M.map nullified) := by
  have plain : ∀ {x : Script}, x.isAdd = false → Plain x := fun ha c hc => by rw [hc] at ha; cases ha
  have strict : ∀ {s : Script} {L : List Script}, Enum s L → (∀ x ∈ L, Sing s.layer x) →
      (dedupBy str (L.map nullified)).Pairwise fun a b => lt a b = true := by
    intro s L e hL
    have hs : (L.map nullified).Pairwise fun a b => lt b a = false := by
      rw [List.pairwise_map]
      refine List.Pairwise.imp_of_mem ?_ e.sorted
      intro a b ha hb h
      rw [nullified_lt (hL b hb).1 (hL b hb).2.2.2 (hL a ha).1 (hL a ha).2.2.2, h]
    refine List.Pairwise.imp_of_mem ?_ ((hs.sublist (dedupBy_sublist str _)).and (dedupBy_pairwise str _))
    intro a b ha hb h
    obtain ⟨a, ha', rfl⟩ := List.mem_map.1 (mem_dedupBy str ha)
    replace ha := ha'
    obtain ⟨b, hb', rfl⟩ := List.mem_map.1 (mem_dedupBy str hb)
    replace hb := hb'
    have ka := (nullified_sing (hL a ha)).1
    have kb := (nullified_sing (hL b hb)).1
    rcases lt_total ka.1 (plain ka.2.2.2) kb.1 (plain kb.2.2.2) h.2 with h' | h'
    · exact h'
    · rw [h.1] at h'; cases h'
  have memD : ∀ {s : Script} {L : List Script}, (∀ x ∈ L, Sing s.layer x) → ∀ x, x ∈ dedupBy str (L.map nullified) ↔ x ∈ L.map nullified := by
    intro s L hL x
    refine ⟨mem_dedupBy str, fun hx => ?_⟩
    obtain ⟨y, hy, he⟩ := dedupBy_complete str hx
    obtain ⟨x, hx', rfl⟩ := List.mem_map.1 hx
    obtain ⟨z, hz, rfl⟩ := List.mem_map.1 (mem_dedupBy str hy)
    have hx' := hL x hx'
    have hz := hL z hz
    obtain ⟨w, hw⟩ := den_exists hx'.1
    have hzw := (den_of_str hx'.1 hz.1 (by rw [← (nullified_sing hx').2, ← (nullified_sing hz).2, he]) w).1 hw
    rw [nullified_of_words hx' hz hw hzw]
    exact hy
  have sub : ∀ {s t : Script} {L M : List Script}, Enum s L → Enum t M → (∀ x ∈ L, Sing s.layer x) → (∀ x ∈ M, Sing t.layer x) → s.layer = t.layer →
      (∀ w, Den s w → Den t w) → ∀ x ∈ L.map nullified, x ∈ M.map nullified := by
    intro s t L M e f hL hM hl hd x hx
    obtain ⟨x, hx', rfl⟩ := List.mem_map.1 hx
    replace hx := hx'
    obtain ⟨w, hw⟩ := den_exists (e.wf x hx)
    obtain ⟨y, hy, hyw⟩ := (f.den w).1 (hd w ((e.den w).2 ⟨x, hx, hw⟩))
    exact List.mem_map.2 ⟨y, hy, nullified_of_words (hM y hy) (hl ▸ hL x hx) hyw hw⟩
  refine List.Perm.eq_of_pairwise (le := fun a b => lt a b = true) ?_ (strict e hL) (strict f hM) ?_
  · intro a b ha hb h1 h2
    obtain ⟨a, ha', rfl⟩ := List.mem_map.1 (mem_dedupBy str ha)
    replace ha := ha'
    obtain ⟨b, hb', rfl⟩ := List.mem_map.1 (mem_dedupBy str hb)
    replace hb := hb'
    have ka := (nullified_sing (hL a ha)).1
    have kb := (nullified_sing (hM b hb)).1
    rw [lt_asymm ka.1 (plain ka.2.2.2) kb.1 (plain kb.2.2.2) h1] at h2
    cases h2
  · have nd : ∀ L : List Script, (dedupBy str L).Nodup := fun L => List.Nodup.of_map str (List.pairwise_map.2 (dedupBy_pairwise str L))
    rw [List.perm_ext_iff_of_nodup (nd _) (nd _)]
    intro x
    rw [memD hL, memD hM]
    exact ⟨sub e f hL hM hl (fun w => (hd w).1) x, sub f e hM hL hl.symm (fun w => (hd w).2) x⟩

/-- Two scripts with the same words are factored to the same text, or both raise the same exception. -/
theorem factorize_text {ord : List Script → List Script} (ho : FactorOrder ord) {s t : Script} (hs : WF s) (ht : WF t)
    (hl : s.layer = t.layer) (hd : ∀ w, Den s w ↔ Den t w) : (factorize ord s).map str = (factorize ord t).map str := by
  obtain ⟨L, e⟩ := enum_exists hs
  obtain ⟨M, f⟩ := enum_exists ht
  by_cases hone : s.cardinal = 1
  · -- one word: both are returned as they are
    have hone' : t.cardinal = 1 := by
      obtain ⟨W, hW⟩ := den_exists hs
      exact one_word_one ht fun w v hw hv => den_unique hs hone ((hd w).2 hw) ((hd v).2 hv)
    have self : ∀ {s : Script} {L : List Script}, WF s → s.cardinal = 1 → Enum s L → (factorize ord s).map str = .ok s.str := by
      intro s L hs hc e
      have hlen := e.length
      rw [hc] at hlen
      match L, hlen, e with
      | [x], _, e =>
        rw [factorize_eq e, factorSequences_one]
        obtain ⟨w, hw⟩ := den_exists hs
        obtain ⟨y, hy, hyw⟩ := (e.den w).1 hw
        rw [List.mem_singleton] at hy
        subst hy
        rw [← str_of_word (e.wf y (by simp)) hs (e.one y (by simp)) hc (e.layer y (by simp)) hyw hw]
        rfl
    obtain ⟨w, hw⟩ := den_exists hs
    rw [self hs hone e, self ht hone' f, str_of_word hs ht hone hone' hl hw ((hd w).1 hw)]
  · have hone' : t.cardinal ≠ 1 := by
      intro hc
      exact hone (one_word_one hs fun w v hw hv => den_unique ht hc ((hd w).1 hw) ((hd v).1 hv))
    have hL : ∀ x ∈ L, Sing s.layer x := (enum_sing e hs).resolve_left fun h => hone h.2
    have hM : ∀ x ∈ M, Sing t.layer x := (enum_sing f ht).resolve_left fun h => hone' h.2
    have step : ∀ {s : Script} {L : List Script}, WF s → s.cardinal ≠ 1 → Enum s L → (∀ x ∈ L, Sing s.layer x) →
        (factorize ord s).map str = (factorSequences ord (dedupBy str (L.map nullified))).map str := by
      intro s L hs hc e hL
      have hS' : ∀ x ∈ L.map nullified, Sing s.layer x := by
        intro c hc; obtain ⟨t, h, rfl⟩ := List.mem_map.1 hc; exact (nullified_sing (hL t h)).1
      have hi : ∀ x ∈ L.map nullified, ∀ y ∈ L.map nullified, x.str = y.str → x = y := by
        intro x hx y hy he
        obtain ⟨x, hx', rfl⟩ := List.mem_map.1 hx
        replace hx := hx'
        obtain ⟨y, hy', rfl⟩ := List.mem_map.1 hy
        replace hy := hy'
        obtain ⟨w, hw⟩ := den_exists (hL x hx).1
        refine nullified_of_words (hL x hx) (hL y hy) hw ?_
        exact (den_of_str (hL x hx).1 (hL y hy).1 (by rw [← (nullified_sing (hL x hx)).2, ← (nullified_sing (hL y hy)).2, he]) w).1 hw
      have hcard : (wordSet L).card ≤ 360 := Nat.le_trans (wordSet_le L) (by rw [e.length]; exact wf_cardinal hs)
      have hne := enum_ne_nil hs e
      rw [factorize_eq e, ← factorSequences_nullified ho hne hL hcard]
      rcases one_or_two (dedupBy_ne_nil str (by simpa using hne : L.map nullified ≠ [])) with ⟨x, hx⟩ | h2
      · exfalso
        refine hc (one_word_one hs fun w v hw hv => ?_)
        obtain ⟨y, hy, hyw⟩ := (e.den w).1 hw
        obtain ⟨z, hz, hzv⟩ := (e.den v).1 hv
        have key : ∀ y ∈ L, (nullified y) = x := by
          intro y hy
          obtain ⟨y', hy', he⟩ := dedupBy_complete str (List.mem_map_of_mem (f := nullified) hy)
          have := hi y' (mem_dedupBy str hy') _ (List.mem_map_of_mem hy) he
          rw [hx, List.mem_singleton] at hy'
          rw [← this, hy']
        have hyz : y.str = z.str := by
          rw [← (nullified_sing (hL y hy)).2, ← (nullified_sing (hL z hz)).2, key y hy, key z hz]
        exact den_unique (e.wf z hz) (e.one z hz) ((den_of_str (e.wf y hy) (e.wf z hz) hyz w).1 hyw) hzv
      · rw [factorSequences_dedup ho hS' hi h2]
    rw [step hs hone e hL, step ht hone' f hM, dedup_nullified e f hL hM hl hd]

end Verif
