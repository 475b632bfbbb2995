import Verif.Lemmas.FactorUnique

/-
Factorisation does not see repeated sequences.
-/

namespace Verif
open Script

section
variable {α β κ μ : Type} [DecidableEq κ] [DecidableEq μ]

theorem dedupBy_filter (key : α → κ) (q : α → Bool) (hq : ∀ a b, key a = key b → q a = q b) : ∀ l : List α,
    (dedupBy key l).filter q = dedupBy key (l.filter q)
  | [] => rfl
  | x :: xs => by
    have ih := dedupBy_filter key q hq xs
    rw [dedupBy]
    by_cases hx : q x = true
    · rw [List.filter_cons_of_pos hx, List.filter_cons_of_pos hx, dedupBy, ← ih, List.filter_filter, List.filter_filter]
      congr 1
      apply List.filter_congr
      intro y _
      rw [Bool.and_comm]
    · rw [List.filter_cons_of_neg hx, List.filter_cons_of_neg hx, ← ih, List.filter_filter]
      apply List.filter_congr
      intro y _
      by_cases hy : key y = key x
      · rw [hq y x hy]; simp [hx]
      · simp [hy]

/-- A column of a list is the same, up to repetitions, for the list without its repetitions. -/
theorem dedupBy_map_dedupBy (key : α → κ) (k : β → μ) (h : α → β) : ∀ (l : List α), (∀ x ∈ l, ∀ y ∈ l, key x = key y → x = y) →
    dedupBy k ((dedupBy key l).map h) = dedupBy k (l.map h)
  | [], _ => rfl
  | x :: xs, hi => by
    have ih := dedupBy_map_dedupBy key k h xs fun a ha b hb => hi a (by simp [ha]) b (by simp [hb])
    rw [dedupBy, List.map_cons, List.map_cons, dedupBy, dedupBy, ← ih]
    congr 1
    have hk : ∀ a b : β, k a = k b → decide (k a ≠ k (h x)) = decide (k b ≠ k (h x)) := fun a b e => by rw [e]
    rw [dedupBy_filter k (fun y => decide (k y ≠ k (h x))) hk, dedupBy_filter k (fun y => decide (k y ≠ k (h x))) hk]
    congr 1
    rw [List.filter_map, List.filter_map, List.filter_filter]
    congr 1
    apply List.filter_congr
    intro y hy
    by_cases e : key y = key x
    · have := hi y (by simp [mem_dedupBy key hy]) x (by simp) e
      subst this
      simp
    · simp [e]

theorem dedupBy_append_one (key : α → κ) (x : α) : ∀ l : List α,
    dedupBy key (l ++ [x]) = if l.any fun y => decide (key y = key x) then dedupBy key l else dedupBy key l ++ [x]
  | [] => by simp [dedupBy]
  | z :: l => by
    rw [List.cons_append, dedupBy, dedupBy_append_one key x l, dedupBy]
    by_cases h : (l.any fun y => decide (key y = key x)) = true
    · rw [if_pos h, if_pos (by simp only [List.any_cons, h, Bool.or_true])]
    · rw [if_neg h]
      by_cases hz : key z = key x
      · rw [if_pos (by simp [hz]), List.filter_append]
        simp [hz]
      · rw [if_neg (by simpa [hz] using h), List.filter_append]
        simp only [List.filter_cons, List.filter_nil, ne_eq, decide_not]
        rw [if_pos (by simpa using fun e : key x = key z => hz e.symm)]
        rfl

end

theorem dictSet_present {β : Type} {c : Coord} {v : β} : ∀ {d : List (Coord × β)}, (d.map (·.1)).Nodup → (c, v) ∈ d → dictSet id c v d = d
  | e :: d, hn, h => by
    rw [dictSet]
    rw [List.map_cons, List.nodup_cons] at hn
    rcases List.mem_cons.1 h with rfl | h
    · simp
    · have : ¬ id e.1 = id c := fun he => hn.1 (by
        have he : e.1 = c := he
        rw [he]; exact List.mem_map.2 ⟨_, h, rfl⟩)
      rw [if_neg this, dictSet_present hn.2 h]

theorem dictSet_absent {β : Type} {c : Coord} {v : β} : ∀ {d : List (Coord × β)}, c ∉ d.map (·.1) → dictSet id c v d = d ++ [(c, v)]
  | [], _ => rfl
  | e :: d, h => by
    rw [List.map_cons, List.mem_cons, not_or] at h
    have hne : ¬ id e.1 = id c := fun he => h.1 (Eq.symm he)
    rw [dictSet, if_neg hne, dictSet_absent h.2]
    rfl

/-- The dictionary of the coordinates of the sequences. -/
theorem scriptsOf_dedup (c : Script → Coord) (S : List Script) (hi : ∀ x ∈ S, ∀ y ∈ S, x.str = y.str → x = y)
    (hc : ∀ x ∈ S, ∀ y ∈ S, c x = c y → x = y) : scriptsOf (S.map fun x => (c x, x)) = (dedupBy str S).map fun x => (c x, x) := by
  induction S using List.reverseRecOn with
  | nil => rfl
  | append_singleton S x ih =>
    have ih := ih (fun a ha b hb => hi a (by simp [ha]) b (by simp [hb])) (fun a ha b hb => hc a (by simp [ha]) b (by simp [hb]))
    unfold scriptsOf at ih ⊢
    rw [List.map_append, List.foldl_append, ih, dedupBy_append_one]
    have hkeys : ((dedupBy str S).map fun x => (c x, x)).map (·.1) = (dedupBy str S).map c := by simp [Function.comp_def]
    by_cases h : (S.any fun y => decide (y.str = x.str)) = true
    · rw [if_pos h]
      simp only [List.map_cons, List.map_nil, List.foldl_cons, List.foldl_nil]
      obtain ⟨y, hy, he⟩ := List.any_eq_true.1 h
      have : y = x := hi y (by simp [hy]) x (by simp) (by simpa using he)
      subst this
      obtain ⟨z, hz, he⟩ := dedupBy_complete str hy
      have hzy := hi z (by simp [mem_dedupBy str hz]) y (by simp) he
      subst hzy
      refine dictSet_present ?_ (List.mem_map.2 ⟨z, hz, rfl⟩)
      rw [hkeys]
      refine List.Nodup.map_on (fun a ha b hb => hc a (by simp [mem_dedupBy str ha]) b (by simp [mem_dedupBy str hb])) ?_
      exact List.Nodup.of_map str (List.pairwise_map.2 (dedupBy_pairwise str S))
    · rw [if_neg h]
      simp only [List.map_cons, List.map_nil, List.foldl_cons, List.foldl_nil, List.map_append]
      refine dictSet_absent ?_
      rw [hkeys, List.mem_map]
      rintro ⟨y, hy, he⟩
      have hy := mem_dedupBy str hy
      have := hc y (by simp [hy]) x (by simp) he
      subst this
      exact h (List.any_eq_true.2 ⟨y, hy, by simp⟩)

theorem zip_map_self {α β : Type} (f : α → β) : ∀ l : List α, (l.map f).zip l = l.map fun x => (f x, x)
  | [] => rfl
  | x :: l => by simp [zip_map_self f l]

/-- Lines 20-90 do not see repeated sequences. -/
theorem splitSequences_dedup {l : Nat} {S : List Script} (hS : ∀ x ∈ S, Sing (l + 1) x) (hi : ∀ x ∈ S, ∀ y ∈ S, x.str = y.str → x = y) :
    splitSequences (dedupBy str S) = splitSequences S := by
  have : ∀ x, ∃ r : Script × Script × Script, x ∈ S → rolesOf x = .ok r := by
    intro x
    by_cases hx : x ∈ S
    · obtain ⟨a, b, c, h, _⟩ := rolesOf_sing (hS x hx)
      exact ⟨_, fun _ => h⟩
    · exact ⟨(x, x, x), fun h => absurd h hx⟩
  choose g hg using this
  have hsub : ∀ x ∈ dedupBy str S, x ∈ S := fun x hx => mem_dedupBy str hx
  have ax : ∀ f : Script × Script × Script → Script, axis (((dedupBy str S).map g).map f) = axis ((S.map g).map f) := by
    intro f
    unfold axis
    rw [List.map_map, List.map_map, dedupBy_map_dedupBy str str (f ∘ g) S hi]
  have : ∀ x, ∃ c : Coord, x ∈ S → coordOf (axis ((S.map g).map (·.1))) (axis ((S.map g).map (·.2.1))) (axis ((S.map g).map (·.2.2))) (g x) = .ok c ∧
      ∃ t0 t1 t2, (axis ((S.map g).map (·.1)))[c.1]? = some t0 ∧ (axis ((S.map g).map (·.2.1)))[c.2.1]? = some t1 ∧
        (axis ((S.map g).map (·.2.2)))[c.2.2]? = some t2 ∧ t0.str = (g x).1.str ∧ t1.str = (g x).2.1.str ∧ t2.str = (g x).2.2.str := by
    intro x
    by_cases hx : x ∈ S
    · have hr : g x ∈ S.map g := List.mem_map_of_mem hx
      obtain ⟨i, t0, i1, i2, _, i4⟩ := rankIn_axis (List.mem_map_of_mem (f := (·.1)) hr)
      obtain ⟨j, t1, j1, j2, _, j4⟩ := rankIn_axis (List.mem_map_of_mem (f := (·.2.1)) hr)
      obtain ⟨k, t2, k1, k2, _, k4⟩ := rankIn_axis (List.mem_map_of_mem (f := (·.2.2)) hr)
      refine ⟨(i, j, k), fun _ => ⟨?_, t0, t1, t2, i2, j2, k2, i4, j4, k4⟩⟩
      unfold coordOf
      rw [i1, j1, k1]
      rfl
    · exact ⟨(0, 0, 0), fun h => absurd h hx⟩
  choose c hc using this
  have cinj : ∀ x ∈ S, ∀ y ∈ S, c x = c y → x = y := by
    intro x hx y hy he
    obtain ⟨_, t0, t1, t2, a1, a2, a3, b1, b2, b3⟩ := hc x hx
    obtain ⟨_, u0, u1, u2, d1, d2, d3, e1, e2, e3⟩ := hc y hy
    rw [he] at a1 a2 a3
    rw [a1, Option.some.injEq] at d1
    rw [a2, Option.some.injEq] at d2
    rw [a3, Option.some.injEq] at d3
    subst d1 d2 d3
    obtain ⟨p, q, r, h1, s1, s2, s3, h2⟩ := rolesOf_sing (hS x hx)
    obtain ⟨p', q', r', h1', s1', s2', s3', h2'⟩ := rolesOf_sing (hS y hy)
    rw [hg x hx, Except.ok.injEq] at h1
    rw [hg y hy, Except.ok.injEq] at h1'
    rw [h1] at b1 b2 b3
    rw [h1'] at e1 e2 e3
    refine hi x hx y hy ((str_sing (hS x hx) (hS y hy)).2 ?_)
    rw [h2, h2', (str_sing s1 s1').1 (b1.symm.trans e1), (str_sing s2 s2').1 (b2.symm.trans e2), (str_sing s3 s3').1 (b3.symm.trans e3)]
  unfold splitSequences
  rw [mapM_ok hg, mapM_ok (fun x hx => hg x (hsub x hx))]
  simp only [bind, Except.bind]
  rw [ax, ax, ax]
  have r1 : (S.map g).mapM (coordOf (axis ((S.map g).map (·.1))) (axis ((S.map g).map (·.2.1))) (axis ((S.map g).map (·.2.2)))) = .ok (S.map c) := by
    rw [List.mapM_map]
    exact mapM_ok fun x hx => (hc x hx).1
  have r2 : ((dedupBy str S).map g).mapM (coordOf (axis ((S.map g).map (·.1))) (axis ((S.map g).map (·.2.1))) (axis ((S.map g).map (·.2.2)))) =
      .ok ((dedupBy str S).map c) := by
    rw [List.mapM_map]
    exact mapM_ok fun x hx => (hc x (hsub x hx)).1
  rw [r1, r2]
  simp only []
  have dd : dedupBy str (dedupBy str S) = dedupBy str S := dedupBy_of_pairwise str (dedupBy_pairwise str S)
  rw [zip_map_self, zip_map_self, scriptsOf_dedup c S hi cinj,
    scriptsOf_dedup c (dedupBy str S) (fun x hx y hy => hi x (hsub x hx) y (hsub y hy)) (fun x hx y hy => cinj x (hsub x hx) y (hsub y hy)), dd]
  unfold remainingOf
  rw [dd]

/-- More fuel changes nothing. -/
theorem factorLoop_fuel {ord : List Script → List Script} {l : Nat} {sub : List Script → Except Err (List Facto)} : ∀ (n k : Nat) (S : List Script),
    factorLoop ord l sub n S ≠ .error .unmodelled → factorLoop ord l sub (n + k) S = factorLoop ord l sub n S := by
  intro n
  induction n with
  | zero =>
    intro k S h
    match S with
    | [] => exact absurd (by rw [factorLoop.eq_def]) h
    | [x] => rw [factorLoop.eq_def, factorLoop.eq_def]
    | x :: y :: S =>
      rw [factorLoop.eq_def] at h ⊢
      conv_rhs => rw [factorLoop.eq_def]
      simp only [] at h ⊢
      by_cases hx : x.layer ≠ l + 1
      · rw [if_pos hx, if_pos hx]
      · rw [if_neg hx] at h ⊢
        rw [if_neg hx]
        cases h1 : splitSequences (x :: y :: S) with
        | error e => rfl
        | ok r =>
          obtain ⟨p0, p1, p2, rem⟩ := r
          rw [h1] at h
          simp only [bind, Except.bind] at h ⊢
          cases h2 : sub (ord p0) with
          | error e => rfl
          | ok f0 =>
            rw [h2] at h
            simp only [] at h ⊢
            cases h3 : sub (ord p1) with
            | error e => rfl
            | ok f1 =>
              rw [h3] at h
              simp only [] at h ⊢
              cases h4 : sub (ord p2) with
              | error e => rfl
              | ok f2 =>
                rw [h4] at h
                simp only [] at h ⊢
                cases rem with
                | nil => rfl
                | cons r rs => exact absurd rfl h
  | succ n ih =>
    intro k S h
    match S with
    | [] => exact absurd (by rw [factorLoop.eq_def]) h
    | [x] => rw [factorLoop.eq_def, factorLoop.eq_def]
    | x :: y :: S =>
      rw [factorLoop.eq_def] at h ⊢
      conv_rhs => rw [factorLoop.eq_def]
      simp only [] at h ⊢
      by_cases hx : x.layer ≠ l + 1
      · rw [if_pos hx, if_pos hx]
      · rw [if_neg hx] at h ⊢
        rw [if_neg hx]
        cases h1 : splitSequences (x :: y :: S) with
        | error e => rfl
        | ok r =>
          obtain ⟨p0, p1, p2, rem⟩ := r
          rw [h1] at h
          simp only [bind, Except.bind] at h ⊢
          cases h2 : sub (ord p0) with
          | error e => rfl
          | ok f0 =>
            rw [h2] at h
            simp only [] at h ⊢
            cases h3 : sub (ord p1) with
            | error e => rfl
            | ok f1 =>
              rw [h3] at h
              simp only [] at h ⊢
              cases h4 : sub (ord p2) with
              | error e => rfl
              | ok f2 =>
                rw [h4] at h
                simp only [] at h ⊢
                cases rem with
                | nil => rfl
                | cons r rs =>
                  simp only [] at h ⊢
                  have e : n + 1 + k = (n + k) + 1 := by omega
                  rw [e]
                  simp only []
                  rw [ih k (r :: rs) (fun hc => h (by rw [hc]))]

/-- `factor` does not see repeated sequences, when there are two different ones. -/
theorem factor_dedup {ord : List Script → List Script} (ho : FactorOrder ord) {l : Nat} {S : List Script} (hS : ∀ x ∈ S, Sing (l + 1) x)
    (hi : ∀ x ∈ S, ∀ y ∈ S, x.str = y.str → x = y) (h2 : 2 ≤ (dedupBy str S).length) : factor ord (l + 1) S = factor ord (l + 1) (dedupBy str S) := by
  have hlen : (dedupBy str S).length ≤ S.length := (dedupBy_sublist str S).length_le
  have hs := splitSequences_dedup hS hi
  have hne : dedupBy str S ≠ [] := fun h => by rw [h] at h2; simp at h2
  have hD := factor_only ho (l + 1) (dedupBy str S) hne fun x hx => hS x (mem_dedupBy str hx)
  have hnot : factorLoop ord l (factor ord l) (dedupBy str S).length (dedupBy str S) ≠ .error .unmodelled := by
    rw [factor] at hD
    rcases hD with ⟨fs, h⟩ | h <;> rw [h] <;> exact fun h => by cases h
  rw [factor, factor, ← factorLoop_fuel _ (S.length - (dedupBy str S).length) _ hnot,
    show (dedupBy str S).length + (S.length - (dedupBy str S).length) = S.length by omega]
  match S, hlen, hs, h2 with
  | [], _, _, h2 => simp [dedupBy] at h2
  | [x], _, _, h2 => simp [dedupBy] at h2
  | x :: y :: S, _, hs, h2 =>
    obtain ⟨z, D, hD⟩ : ∃ z D, dedupBy str (x :: y :: S) = x :: z :: D := by
      rw [dedupBy] at h2 ⊢
      generalize (dedupBy str (y :: S)).filter (fun y => y.str ≠ x.str) = E at h2
      cases E with
      | nil => simp at h2
      | cons z D => exact ⟨z, D, rfl⟩
    rw [hD] at hs ⊢
    rw [factorLoop.eq_def]
    conv_rhs => rw [factorLoop.eq_def]
    simp only []
    rw [hs]

/-- Scripts with one word have one sequence. -/
theorem one_word_one {s : Script} (h : WF s) (hw : ∀ w v, Den s w → Den s v → w = v) : s.cardinal = 1 := by
  induction h with
  | null => rfl
  | prim => rfl
  | @mult s a m h1 h2 h3 h4 h5 h6 r1 r2 r3 h10 ih1 ih2 ih3 =>
    have wm := WF.mult h1 h2 h3 h4 h5 h6 r1 r2 r3 h10
    obtain ⟨u, hu⟩ := den_exists h1
    obtain ⟨v, hv⟩ := den_exists h2
    obtain ⟨x, hx⟩ := den_exists h3
    rw [cardinal_mult wm, ih1 ?_, ih2 ?_, ih3 ?_]
    · intro w w' d d'
      have := hw _ _ (.mult hu hv d) (.mult hu hv d')
      exact List.append_cancel_left this
    · intro w w' d d'
      have := hw _ _ (.mult hu d hx) (.mult hu d' hx)
      exact List.append_cancel_left (List.append_cancel_right this)
    · intro w w' d d'
      have := hw _ _ (.mult d hv hx) (.mult d' hv hx)
      exact List.append_cancel_right (List.append_cancel_right this)
  | @add cs h1 h2 h3 h4 h5 h6 h7 ih =>
    have wa := WF.add h1 h2 h3 h4 h5 h6 h7
    have one : ∀ c ∈ cs, c.cardinal = 1 := fun c hc => ih c hc fun w v d d' => hw w v (.add hc d) (.add hc d')
    match cs, h1 with
    | [c], _ => rw [cardinal_add wa]; simp [one c (by simp)]
    | c :: d :: cs, _ =>
      exfalso
      obtain ⟨w, hcw⟩ := den_exists (h2 c (by simp))
      obtain ⟨v, hdv⟩ := den_exists (h2 d (by simp))
      have := hw w v (.add (by simp) hcw) (.add (by simp) hdv)
      subst this
      exact (List.pairwise_cons.1 h5).1 d (by simp) (str_of_word (h2 c (by simp)) (h2 d (by simp)) (one c (by simp)) (one d (by simp))
        ((h3 c (by simp)).trans (h3 d (by simp)).symm) hcw hdv)

/-- The factorisation of singular sequences does not see repeated ones, when there are two different ones. -/
theorem factorSequences_dedup {ord : List Script → List Script} (ho : FactorOrder ord) {l : Nat} {S : List Script} (hS : ∀ x ∈ S, Sing l x)
    (hi : ∀ x ∈ S, ∀ y ∈ S, x.str = y.str → x = y) (h2 : 2 ≤ (dedupBy str S).length) :
    factorSequences ord S = factorSequences ord (dedupBy str S) := by
  have hlen : (dedupBy str S).length ≤ S.length := (dedupBy_sublist str S).length_le
  have hE : ∀ {S : List Script}, S ≠ [] → (∀ x ∈ S, Sing l x) → factorSequences ord S = factor ord l S >>= packFactorisation := by
    intro S hne hS
    cases S with
    | nil => exact absurd rfl hne
    | cons x S => rw [factorSequences, (hS x (by simp)).2.2.1]
  have n1 : S ≠ [] := fun h => by rw [h] at h2; simp [dedupBy] at h2
  have n2 : dedupBy str S ≠ [] := dedupBy_ne_nil str n1
  have hD : ∀ x ∈ dedupBy str S, Sing l x := fun x hx => hS x (mem_dedupBy str hx)
  rw [hE n1 hS, hE n2 hD]
  cases l with
  | succ l => rw [factor_dedup ho hS hi h2]
  | zero =>
    rw [factor_zero n1 fun x hx => (hS x hx).2.2.1, factor_zero n2 fun x hx => (hD x hx).2.2.1]
    show packFactorisation _ = packFactorisation _
    unfold packFactorisation
    rw [factor_packed_all, factor_packed_all]
    show packSum S = packSum (dedupBy str S)
    have two : ∀ {S : List Script}, 2 ≤ S.length → packSum S = mkAdd S := by
      intro S h
      match S, h with
      | _ :: _ :: _, _ => rfl
    rw [two (by omega), two h2, mkAdd_eval n1 (fun x hx => (hS x hx).1) (fun x hx => (hS x hx).2.2.1),
      mkAdd_eval n2 (fun x hx => (hD x hx).1) (fun x hx => (hD x hx).2.2.1), sumTerms_flat fun x hx => (hS x hx).2.2.2,
      sumTerms_flat fun x hx => (hD x hx).2.2.2, dedupBy_of_pairwise str (dedupBy_pairwise str S)]

/-- The sequences of a script without the empty word, up to repetition, depend only on its words. -/
theorem dedup_of_words {s t : Script} {L M : List Script} (ps : Plain s) (pt : Plain t) (e : Enum s L) (f : Enum t M)
    (hl : s.layer = t.layer) (hd : ∀ w, Den s w ↔ Den t w) (hne : ∀ w, Den s w → w ≠ List.replicate (3 ^ s.layer) none) :
    (∀ x ∈ L, ∀ y ∈ L, x.str = y.str → x = y) ∧ dedupBy str L = dedupBy str M := by
  have strict : ∀ {s : Script} {L : List Script}, Plain s → Enum s L → (dedupBy str L).Pairwise fun a b => lt a b = true := by
    intro s L ps e
    refine List.Pairwise.imp_of_mem ?_ ((e.sorted.sublist (dedupBy_sublist str L)).and (dedupBy_pairwise str L))
    intro a b ha hb h
    replace ha := mem_dedupBy str ha
    replace hb := mem_dedupBy str hb
    rcases lt_total (e.wf a ha) (e.plain ps a ha) (e.wf b hb) (e.plain ps b hb) h.2 with h' | h'
    · exact h'
    · rw [h.1] at h'; cases h'
  have role : ∀ {s : Script} {L : List Script}, Plain s → Enum s L → (∀ w, Den s w → w ≠ List.replicate (3 ^ s.layer) none) →
      ∀ x ∈ L, x.norm = x := by
    intro s L ps e hne x hx
    refine norm_singular (e.wf x hx) (e.one x hx) ⟨e.plain ps x hx, fun he => ?_⟩
    rw [empty_iff_word (e.wf x hx) (e.one x hx), e.layer x hx] at he
    exact absurd rfl (hne _ ((e.den _).2 ⟨x, hx, he⟩))
  have hne' : ∀ w, Den t w → w ≠ List.replicate (3 ^ t.layer) none := fun w hw => hl ▸ hne w ((hd w).2 hw)
  have inj : ∀ {s : Script} {L : List Script}, Plain s → Enum s L → (∀ w, Den s w → w ≠ List.replicate (3 ^ s.layer) none) →
      ∀ x ∈ L, ∀ y ∈ L, x.str = y.str → x = y := by
    intro s L ps e hne x hx y hy he
    rw [← role ps e hne x hx, ← role ps e hne y hy]
    exact norm_eq_of_str (e.wf x hx) (e.wf y hy) he
  have memD : ∀ {s : Script} {L : List Script}, Plain s → Enum s L → (∀ w, Den s w → w ≠ List.replicate (3 ^ s.layer) none) →
      ∀ x, x ∈ dedupBy str L ↔ x ∈ L := by
    intro s L ps e hne x
    refine ⟨mem_dedupBy str, fun hx => ?_⟩
    obtain ⟨y, hy, he⟩ := dedupBy_complete str hx
    exact inj ps e hne y (mem_dedupBy str hy) x hx he ▸ hy
  have sub : ∀ {s t : Script} {L M : List Script}, Plain s → Plain t → Enum s L → Enum t M → s.layer = t.layer →
      (∀ w, Den s w → Den t w) → (∀ w, Den s w → w ≠ List.replicate (3 ^ s.layer) none) →
      (∀ w, Den t w → w ≠ List.replicate (3 ^ t.layer) none) → ∀ x ∈ L, x ∈ M := by
    intro s t L M ps pt e f hl hd hne hne' x hx
    obtain ⟨w, hw⟩ := den_exists (e.wf x hx)
    obtain ⟨y, hy, hyw⟩ := (f.den w).1 (hd w ((e.den w).2 ⟨x, hx, hw⟩))
    have hxy : x.norm = y.norm := norm_of_word s.layer (e.wf x hx) (f.wf y hy) (e.layer x hx) ((f.layer y hy).trans hl.symm) (e.one x hx)
      (f.one y hy) hw hyw
    rw [role ps e hne x hx, role pt f hne' y hy] at hxy
    exact hxy ▸ hy
  refine ⟨inj ps e hne, List.Perm.eq_of_pairwise (le := fun a b => lt a b = true) ?_ (strict ps e) (strict pt f) ?_⟩
  · intro a b ha hb h1 h2
    replace ha := mem_dedupBy str ha
    replace hb := mem_dedupBy str hb
    rw [lt_asymm (e.wf a ha) (e.plain ps a ha) (f.wf b hb) (f.plain pt b hb) h1] at h2
    cases h2
  · have nd : ∀ L : List Script, (dedupBy str L).Nodup := fun L => List.Nodup.of_map str (List.pairwise_map.2 (dedupBy_pairwise str L))
    rw [List.perm_ext_iff_of_nodup (nd L) (nd M)]
    intro x
    rw [memD ps e hne, memD pt f hne']
    exact ⟨sub ps pt e f hl (fun w => (hd w).1) hne hne' x, sub pt ps f e hl.symm (fun w => (hd w).2) hne' hne x⟩

/-- Factorisation sees only the set of the sequences. -/
theorem factorize_dedup {ord : List Script → List Script} (ho : FactorOrder ord) {s : Script} {L : List Script} (hs : WF s) (ps : Plain s) (e : Enum s L)
    (hne : ∀ w, Den s w → w ≠ List.replicate (3 ^ s.layer) none) : factorize ord s = factorSequences ord (dedupBy str L) := by
  have hi := (dedup_of_words ps ps e e rfl (fun _ => .rfl) hne).1
  have hS : ∀ x ∈ L, Sing s.layer x := fun x hx => sing_of_plain (e.wf x hx) (e.one x hx) (e.layer x hx) (e.plain ps x hx)
  rw [factorize_eq e]
  rcases one_or_two (dedupBy_ne_nil str (enum_ne_nil hs e)) with ⟨x, hx⟩ | h2
  · have hone : s.cardinal = 1 := by
      refine one_word_one hs fun w v hw hv => ?_
      obtain ⟨y, hy, hyw⟩ := (e.den w).1 hw
      obtain ⟨z, hz, hzv⟩ := (e.den v).1 hv
      have key : ∀ y ∈ L, y = x := by
        intro y hy
        obtain ⟨y', hy', he⟩ := dedupBy_complete str hy
        have := hi y' (mem_dedupBy str hy') y hy he
        rw [hx, List.mem_singleton] at hy'
        rw [← this, hy']
      rw [key y hy] at hyw
      rw [key z hz] at hzv
      have hxm : x ∈ L := key y hy ▸ hy
      exact den_unique (e.wf x hxm) (e.one x hxm) hyw hzv
    have hl := e.length
    rw [hone] at hl
    match L, hl with
    | [y], _ => rfl
  · exact factorSequences_dedup ho hS hi h2

/-- Two scripts with the same words, none of them empty, are factored alike. -/
theorem factorize_same {ord : List Script → List Script} (ho : FactorOrder ord) {s t : Script} (hs : WF s) (ps : Plain s) (ht : WF t) (pt : Plain t)
    (hl : s.layer = t.layer) (hd : ∀ w, Den s w ↔ Den t w) (hne : ∀ w, Den s w → w ≠ List.replicate (3 ^ s.layer) none) :
    factorize ord s = factorize ord t := by
  obtain ⟨L, e⟩ := enum_exists hs
  obtain ⟨M, f⟩ := enum_exists ht
  rw [factorize_dedup ho hs ps e hne, factorize_dedup ho ht pt f (fun w hw => hl ▸ hne w ((hd w).2 hw)),
    (dedup_of_words ps pt e f hl hd hne).2]

/-- What the factorisation returns for a script without the empty word is not a sum of one term. -/
theorem factorize_plain_of {ord : List Script → List Script} (ho : FactorOrder ord) {s s' : Script} (hs : WF s) (ps : Plain s)
    (hne : ∀ w, Den s w → w ≠ List.replicate (3 ^ s.layer) none) (f : factorize ord s = .ok s') : Plain s' := by
  obtain ⟨L, e⟩ := enum_exists hs
  rw [factorize_dedup ho hs ps e hne] at f
  have hS : ∀ x ∈ dedupBy str L, Sing s.layer x := fun x hx =>
    have hx := mem_dedupBy str hx
    sing_of_plain (e.wf x hx) (e.one x hx) (e.layer x hx) (e.plain ps x hx)
  have hc : (wordSet (dedupBy str L)).card ≤ 360 := by
    have h1 := wordSet_le (dedupBy str L)
    have h2 := (dedupBy_sublist str L).length_le
    have h3 := e.length
    have h4 := wf_cardinal hs
    omega
  exact ((factorSequences_spec ho (dedupBy_ne_nil str (enum_ne_nil hs e)) hS hc).1 s' f).2.2.2.2 (.inr (dedupBy_pairwise str L))

end Verif
