import Verif.Lemmas.Product

/-
C05–C07: sums and products of scripts.
-/

namespace Verif
open Script

/-- A script that is not a sum of exactly one term. -/
def NotOneTermSum (s : Script) : Prop := ∀ c, s ≠ .add [c]

/-- **C05, what holds.** For a list of buildable scripts none of which is a one-term sum: the construction fails exactly
on the empty list (`InvalidScript`), on mixed layers (`IncompatiblesScriptsLayers`) and, at most when the total size is
above 360, with `TooManySingularSequences`; when it succeeds the result is buildable, has the common layer and its words
are the union of the words of the terms.  Missing: one-term sums as terms, for which the claim is false
(`C05_violated`). -/
theorem C05_sum_is_union_partial {cs : List Script} (hb : ∀ c ∈ cs, Built c) (hp : ∀ c ∈ cs, NotOneTermSum c) :
    (∃ t, mkAdd cs = .ok t ∧ Built t ∧ (∀ c ∈ cs, c.layer = t.layer) ∧ ∀ w, Den t w ↔ ∃ c ∈ cs, Den c w) ∨
    (mkAdd cs = .error .invalidScript ∧ cs = []) ∨
    (mkAdd cs = .error .incompatibleLayers ∧ ∃ c ∈ cs, ∃ d ∈ cs, c.layer ≠ d.layer) ∨
    (mkAdd cs = .error .tooMany ∧ 360 < (cs.map cardinal).sum ∧ ∀ c ∈ cs, ∀ d ∈ cs, c.layer = d.layer) := by
  have hw : ∀ c ∈ cs, WF c := fun c hc => built_wf (hb c hc)
  rcases cs with _ | ⟨c, cs⟩
  · exact .inr (.inl ⟨rfl, rfl⟩)
  by_cases hl : ∀ d ∈ c :: cs, d.layer = c.layer
  · have hne := sumTerms_ne_nil hw hp (by simp)
    have hev := mkAdd_eval (by simp) hw hl
    rw [if_neg hne] at hev
    split at hev
    · rename_i hgt
      have := card_sumTerms_le hw
      exact .inr (.inr (.inr ⟨hev, by omega, fun c hc d hd => by rw [hl c hc, hl d hd]⟩))
    · have hwt := mkAdd_wf hw hev
      refine .inl ⟨_, hev, wf_built hwt, ?_, den_mkAdd hev hw hp⟩
      intro d hd
      rw [hl d hd]
      refine (layer_add_of ?_ ?_).symm
      · intro h
        have := length_pySort lt (sumTerms (c :: cs))
        rw [h] at this
        exact hne (List.length_eq_zero_iff.1 (by simpa using this.symm))
      · intro e he
        exact (sumTerms_wf hw hl e ((mem_pySort lt).1 he)).2.2
  · have : ∃ d ∈ c :: cs, d.layer ≠ c.layer := by
      by_contra hn
      exact hl fun d hd => by_contra fun h => hn ⟨d, hd, h⟩
    obtain ⟨d, hd, hne⟩ := this
    exact .inr (.inr (.inl ⟨mkAdd_mixed hd (by simp) hne, d, hd, c, by simp, hne⟩))

/-- **C05, soundness for all lists.** Even with one-term sums among the terms, a successful sum has only words of its
terms. -/
theorem C05_sum_sound {cs : List Script} (hb : ∀ c ∈ cs, Built c) {t : Script} (h : mkAdd cs = .ok t) :
    Built t ∧ ∀ w, Den t w → ∃ c ∈ cs, Den c w :=
  ⟨wf_built (mkAdd_wf (fun c hc => built_wf (hb c hc)) h), fun _ hd => den_mkAdd_sub h (fun c hc => built_wf (hb c hc)) hd⟩

/-- **C05 is violated**: a term that is itself a one-term sum is lost, `AdditiveScript([AdditiveScript([U:]), A:])` is
`A:`; and alone it makes the construction fail with `IndexError`. -/
theorem C05_violated :
    ∃ s, mkAdd [.prim .U] = .ok s ∧ mkAdd [s] = .error .indexError ∧
      ∃ t, mkAdd [s, .prim .A] = .ok t ∧ t.str = c!"A:" ∧ Den s [some .U] ∧ ¬ Den t [some .U] := by
  refine ⟨.add [.prim .U], by decide +kernel, by decide +kernel, .add [.prim .A], by decide +kernel, by decide +kernel, ?_, ?_⟩
  · simp [den_add, den_prim]
  · simp [den_add, den_prim]

-- Hypotheses of `C05_sum_is_union_partial` met by `U: + O: + M:`, which is `F:`.
example : (∀ c ∈ [Script.prim .U, .add [.prim .U, .prim .A], .add [.prim .S, .prim .B, .prim .T]], Built c ∧ NotOneTermSum c) ∧
    (mkAdd [.prim .U, .add [.prim .U, .prim .A], .add [.prim .S, .prim .B, .prim .T]]).map str = .ok (c!"F:") := by
  refine ⟨?_, by decide +kernel⟩
  intro c hc
  simp only [List.mem_cons, List.not_mem_nil, or_false] at hc
  rcases hc with rfl | rfl | rfl
  · exact ⟨built_of (by decide +kernel), by simp [NotOneTermSum]⟩
  · exact ⟨built_of (by decide +kernel), by simp [NotOneTermSum]⟩
  · exact ⟨built_of (by decide +kernel), by simp [NotOneTermSum]⟩

-- Every branch occurs.
example : mkAdd [] = .error .invalidScript ∧ mkAdd [.prim .U, .null 1] = .error .incompatibleLayers := by decide +kernel
example : let f := Script.add [.prim .U, .prim .A, .prim .S, .prim .B, .prim .T]
    let i := Script.add [.null 0, .prim .U, .prim .A, .prim .S, .prim .B, .prim .T]
    Script.wfb (.mult i i i) = true ∧ Script.wfb (.mult i i f) = true ∧
      mkAdd [.mult i i i, .mult i i f] = .error .tooMany := by decide +kernel

/-- **C06, order and repetition.** Two lists of buildable scripts with the same elements, in any order and with any
repetition, give the same result: the same error or scripts with the same text. -/
theorem C06_order_and_repetition {cs ds : List Script} (hb : ∀ c ∈ cs, Built c) (h : ∀ c, c ∈ cs ↔ c ∈ ds) :
    SameResult (mkAdd cs) (mkAdd ds) := by
  have hw : ∀ c ∈ cs, WF c := fun c hc => built_wf (hb c hc)
  have hw' : ∀ c ∈ ds, WF c := fun c hc => hw c ((h c).2 hc)
  have hnil : cs = [] ↔ ds = [] := by
    constructor
    · rintro rfl; exact List.eq_nil_iff_forall_not_mem.2 fun c hc => by simpa using (h c).2 hc
    · rintro rfl; exact List.eq_nil_iff_forall_not_mem.2 fun c hc => by simpa using (h c).1 hc
  by_cases hc : cs = []
  · rw [hnil.1 hc, hc]; exact sameResult_refl _
  obtain ⟨c, hcm⟩ := List.exists_mem_of_ne_nil _ hc
  by_cases hl : ∀ d ∈ cs, d.layer = c.layer
  · refine mkAdd_congr hc (fun h' => hc (hnil.2 h')) hw hw' hl (fun d hd => hl d ((h d).2 hd)) fun t => ?_
    simp only [SumTexts, h]
  · have : ∃ d ∈ cs, d.layer ≠ c.layer := by
      by_contra hn
      exact hl fun d hd => by_contra fun h => hn ⟨d, hd, h⟩
    obtain ⟨d, hd, hne⟩ := this
    rw [mkAdd_mixed hd hcm hne, mkAdd_mixed ((h d).1 hd) ((h c).1 hcm) hne]
    rfl

/-- `g` stands for the group `ds`: either the single script itself or the sum of the group. -/
def GroupOf (ds : List Script) (g : Script) : Prop := ds = [g] ∨ mkAdd ds = .ok g

/-- **C06, grouping, what holds.** Summing partial sums is summing all the terms at once, when neither the terms nor the
partial sums are one-term sums.  Missing: one-term sums, for which it is false (`C06_grouping_violated`). -/
theorem C06_grouping_partial {dss : List (List Script)} {gs : List Script} (h : List.Forall₂ GroupOf dss gs)
    (hb : ∀ ds ∈ dss, ∀ c ∈ ds, Built c ∧ NotOneTermSum c) (hg : ∀ g ∈ gs, NotOneTermSum g) :
    SameResult (mkAdd gs) (mkAdd dss.flatten) := by
  have hall : ∀ c ∈ dss.flatten, WF c ∧ Plain c := by
    intro c hc
    obtain ⟨ds, h1, h2⟩ := List.mem_flatten.1 hc
    exact ⟨built_wf (hb ds h1 c h2).1, (hb ds h1 c h2).2⟩
  -- what a group and its members share
  have grp : ∀ {ds : List Script} {g : Script}, GroupOf ds g → (∀ c ∈ ds, Built c ∧ NotOneTermSum c) → NotOneTermSum g →
      ds ≠ [] ∧ WF g ∧ (∀ c ∈ ds, c.layer = g.layer) ∧
        ∀ t, (∃ d ∈ g.terms, d.str = t) ↔ ∃ c ∈ ds, ∃ d ∈ c.terms, d.str = t := by
    intro ds g hgr hds hpg
    have hwd : ∀ c ∈ ds, WF c := fun c hc => built_wf (hds c hc).1
    rcases hgr with rfl | hgr
    · refine ⟨by simp, hwd g (by simp), by simp, by simp⟩
    · have hwg := mkAdd_wf hwd hgr
      obtain ⟨l, h1, h2, h3, h4, rfl⟩ := mkAdd_ok hgr
      have hl : (add (pySort lt (sumTerms ds))).layer = l := by
        refine layer_add_of ?_ fun e he => (sumTerms_wf hwd h2 e ((mem_pySort lt).1 he)).2.2
        intro h
        have := length_pySort lt (sumTerms ds)
        rw [h] at this
        exact h3 (List.length_eq_zero_iff.1 (by simpa using this.symm))
      refine ⟨h1, hwg, fun c hc => by rw [hl, h2 c hc], fun t => ?_⟩
      rw [← sumTexts_plain hwd (fun c hc => (hds c hc).2) t, ← mem_sumTerms_str]
      simp [terms, mem_pySort]
  have mem1 : ∀ {dss : List (List Script)} {gs : List Script}, List.Forall₂ GroupOf dss gs → ∀ g ∈ gs, ∃ ds ∈ dss, GroupOf ds g := by
    intro dss gs h
    induction h with
    | nil => simp
    | cons h1 _ ih =>
      intro g hg
      rcases List.mem_cons.1 hg with rfl | hg
      · exact ⟨_, by simp, h1⟩
      · obtain ⟨ds, a, b⟩ := ih g hg; exact ⟨ds, List.mem_cons_of_mem _ a, b⟩
  have mem2 : ∀ {dss : List (List Script)} {gs : List Script}, List.Forall₂ GroupOf dss gs → ∀ ds ∈ dss, ∃ g ∈ gs, GroupOf ds g := by
    intro dss gs h
    induction h with
    | nil => simp
    | cons h1 _ ih =>
      intro ds hd
      rcases List.mem_cons.1 hd with rfl | hd
      · exact ⟨_, by simp, h1⟩
      · obtain ⟨g, a, b⟩ := ih ds hd; exact ⟨g, List.mem_cons_of_mem _ a, b⟩
  have hwg : ∀ g ∈ gs, WF g := by
    intro g hgm
    obtain ⟨ds, h1, h2⟩ := mem1 h g hgm
    exact (grp h2 (hb ds h1) (hg g hgm)).2.1
  by_cases hn : gs = []
  · subst hn
    cases h
    exact sameResult_refl _
  obtain ⟨g0, hg0⟩ := List.exists_mem_of_ne_nil _ hn
  -- membership both ways
  have up : ∀ g ∈ gs, ∃ c ∈ dss.flatten, c.layer = g.layer := by
    intro g hgm
    obtain ⟨ds, h1, h2⟩ := mem1 h g hgm
    obtain ⟨a, b, c, d⟩ := grp h2 (hb ds h1) (hg g hgm)
    obtain ⟨e, he⟩ := List.exists_mem_of_ne_nil _ a
    exact ⟨e, List.mem_flatten.2 ⟨ds, h1, he⟩, c e he⟩
  have down : ∀ c ∈ dss.flatten, ∃ g ∈ gs, c.layer = g.layer := by
    intro c hc
    obtain ⟨ds, h1, h2⟩ := List.mem_flatten.1 hc
    obtain ⟨g, hgm, h3⟩ := mem2 h ds h1
    exact ⟨g, hgm, (grp h3 (hb ds h1) (hg g hgm)).2.2.1 c h2⟩
  by_cases hl : ∀ g ∈ gs, g.layer = g0.layer
  · have hfl : dss.flatten ≠ [] := by
      obtain ⟨c, hc, _⟩ := up g0 hg0
      exact List.ne_nil_of_mem hc
    refine mkAdd_congr hn hfl hwg (fun c hc => (hall c hc).1) hl ?_ fun t => ?_
    · intro c hc
      obtain ⟨g, hgm, e⟩ := down c hc
      rw [e, hl g hgm]
    · rw [sumTexts_plain hwg hg, sumTexts_plain (fun c hc => (hall c hc).1) (fun c hc => (hall c hc).2)]
      constructor
      · rintro ⟨g, hgm, hd⟩
        obtain ⟨ds, h1, h2⟩ := mem1 h g hgm
        obtain ⟨c, hc, hd⟩ := ((grp h2 (hb ds h1) (hg g hgm)).2.2.2 t).1 hd
        exact ⟨c, List.mem_flatten.2 ⟨ds, h1, hc⟩, hd⟩
      · rintro ⟨c, hc, hd⟩
        obtain ⟨ds, h1, h2⟩ := List.mem_flatten.1 hc
        obtain ⟨g, hgm, h3⟩ := mem2 h ds h1
        exact ⟨g, hgm, ((grp h3 (hb ds h1) (hg g hgm)).2.2.2 t).2 ⟨c, h2, hd⟩⟩
  · have : ∃ d ∈ gs, d.layer ≠ g0.layer := by
      by_contra hn
      exact hl fun d hd => by_contra fun h => hn ⟨d, hd, h⟩
    obtain ⟨d, hd, hne⟩ := this
    obtain ⟨c1, hc1, e1⟩ := up d hd
    obtain ⟨c2, hc2, e2⟩ := up g0 hg0
    rw [mkAdd_mixed hd hg0 hne, mkAdd_mixed hc1 hc2 (by rw [e1, e2]; exact hne)]
    rfl

/-- **C06 is violated for one-term partial sums**: `(U:) + A:` is not `U: + A:`. -/
theorem C06_grouping_violated : ∃ g, mkAdd [.prim .U] = .ok g ∧ ¬ SameResult (mkAdd [g, .prim .A]) (mkAdd [.prim .U, .prim .A]) := by
  refine ⟨.add [.prim .U], by decide +kernel, ?_⟩
  rw [show mkAdd [.add [.prim .U], .prim .A] = .ok (.add [.prim .A]) by decide +kernel,
    show mkAdd [.prim .U, .prim .A] = .ok (.add [.prim .U, .prim .A]) by decide +kernel]
  show ¬ _ = _
  decide +kernel

-- `[O:, M:]` groups `[U:, A:]` and `[S:, B:, T:]`; reordering and repetition are covered as well.
example : ∃ g h, GroupOf [.prim .A, .prim .U] g ∧ GroupOf [.prim .T, .prim .B, .prim .S] h ∧ NotOneTermSum g ∧ NotOneTermSum h ∧
    SameResult (mkAdd [g, h]) (mkAdd [.prim .A, .prim .U, .prim .T, .prim .B, .prim .S]) := by
  have g1 : GroupOf [.prim .A, .prim .U] (.add [.prim .U, .prim .A]) := .inr (by decide +kernel)
  have g2 : GroupOf [.prim .T, .prim .B, .prim .S] (.add [.prim .S, .prim .B, .prim .T]) := .inr (by decide +kernel)
  refine ⟨_, _, g1, g2, by simp [NotOneTermSum], by simp [NotOneTermSum], ?_⟩
  refine C06_grouping_partial (.cons g1 (.cons g2 .nil)) ?_ (by simp [NotOneTermSum])
  simp [NotOneTermSum, wf_built WF.prim]

/-- **C07.** The product of the roles `xs` (what follows a first `None` is ignored): no role at all is refused, more than
three roles or mixed layers are refused with `InvalidScript`; a size above 360 with `TooManySingularSequences`; layer 7
does not exist and gives an `IndexError`; otherwise the result is buildable, one layer higher, and its words are the
concatenations of a word of each of the three roles, a missing role counting as the empty word of the layer. -/
theorem C07_product {xs : List Script} {tail : List (Option Script)} (ht : tail = [] ∨ ∃ r, tail = none :: r)
    (hb : ∀ c ∈ xs, Built c) :
    (xs = [] ∧ tail = [] ∧ mkMult (xs.map some ++ tail) = .error .invalidScript) ∨
    (xs = [] ∧ tail ≠ [] ∧ mkMult (xs.map some ++ tail) = .error .indexError) ∨
    (3 < xs.length ∧ mkMult (xs.map some ++ tail) = .error .invalidScript) ∨
    (xs.length ≤ 3 ∧ (∃ c ∈ xs, ∃ d ∈ xs, c.layer ≠ d.layer) ∧ mkMult (xs.map some ++ tail) = .error .invalidScript) ∨
    (∃ l, 1 ≤ xs.length ∧ xs.length ≤ 3 ∧ (∀ c ∈ xs, c.layer = l) ∧
      ((360 < (xs.map cardinal).prod ∧ mkMult (xs.map some ++ tail) = .error .tooMany) ∨
       ((xs.map cardinal).prod ≤ 360 ∧ 6 ≤ l ∧ mkMult (xs.map some ++ tail) = .error .indexError) ∨
       ((xs.map cardinal).prod ≤ 360 ∧ l ≤ 5 ∧ ∃ t, mkMult (xs.map some ++ tail) = .ok t ∧ Built t ∧ t.layer = l + 1 ∧
         ∀ w, Den t w ↔ ∃ u v r, RoleDen l xs[0]? u ∧ RoleDen l xs[1]? v ∧ RoleDen l xs[2]? r ∧ w = u ++ v ++ r))) := by
  have hw : ∀ c ∈ xs, WF c := fun c hc => built_wf (hb c hc)
  rcases xs with _ | ⟨x, xs⟩
  · rcases ht with rfl | ⟨r, rfl⟩
    · exact .inl ⟨rfl, rfl, rfl⟩
    · exact .inr (.inl ⟨rfl, by simp, by simp [mkMult, takeSome]⟩)
  refine .inr (.inr ?_)
  by_cases h3 : 3 < (x :: xs).length
  · exact .inl ⟨h3, mkMult_long ht h3⟩
  refine .inr ?_
  have h3' : (x :: xs).length ≤ 3 := by omega
  rw [mkMult_pad ht h3']
  have hx := hw x (by simp)
  have hxl := wf_layer hx
  by_cases hl : ∀ c ∈ x :: xs, c.layer = x.layer
  · refine .inr ⟨x.layer, by simp, h3', hl, ?_⟩
    -- the padded roles
    have pw : ∀ i, WF (xs.getD i (null x.layer)) ∧ (xs.getD i (null x.layer)).layer = x.layer := by
      intro i
      rw [List.getD_eq_getElem?_getD]
      cases hi : xs[i]? with
      | none => exact ⟨.null hxl, rfl⟩
      | some y => exact ⟨hw y (List.mem_cons_of_mem _ (List.mem_of_getElem? hi)), hl y (List.mem_cons_of_mem _ (List.mem_of_getElem? hi))⟩
    have hcard : x.cardinal * (xs.getD 0 (null x.layer)).cardinal * (xs.getD 1 (null x.layer)).cardinal =
        ((x :: xs).map cardinal).prod := by
      rcases xs with _ | ⟨y, _ | ⟨z, _ | ⟨u, us⟩⟩⟩
      · simp [cardinal]
      · simp [cardinal]
      · simp [Nat.mul_assoc]
      · simp only [List.length_cons] at h3'; omega
    have hden : ∀ i w, Den (xs.getD i (null x.layer)) w ↔ RoleDen x.layer (x :: xs)[i + 1]? w := by
      intro i w
      rw [List.getElem?_cons_succ, List.getD_eq_getElem?_getD]
      cases xs[i]? with
      | none => simp [RoleDen, den_null]
      | some y => simp [RoleDen]
    rw [mkMult_eval hx (pw 0).1 (pw 1).1 (pw 0).2 (pw 1).2, hcard]
    split
    · rename_i h; exact .inl ⟨h, rfl⟩
    · rename_i h
      split
      · rename_i h5
        refine .inr (.inr ⟨by omega, h5, _, rfl, ?_⟩)
        have hwt : WF (mult (role x) (role (xs.getD 0 (null x.layer))) (role (xs.getD 1 (null x.layer)))) := by
          refine .mult (role_wf hx).1 (role_wf (pw 0).1).1 (role_wf (pw 1).1).1 ?_ ?_ ?_ (role_wf hx).2.1 (role_wf (pw 0).1).2.1
            (role_wf (pw 1).1).2.1 ?_
          · rw [(role_wf hx).2.2, (role_wf (pw 0).1).2.2, (pw 0).2]
          · rw [(role_wf hx).2.2, (role_wf (pw 1).1).2.2, (pw 1).2]
          · rw [(role_wf hx).2.2]; exact h5
          · rw [cardinal_mult_role hx (pw 0).1 (pw 1).1 (pw 0).2 (pw 1).2, hcard]; omega
        refine ⟨wf_built hwt, by simp [layer, (role_wf hx).2.2], fun w => ?_⟩
        rw [den_mult]
        simp only [den_role hx, den_role (pw 0).1, den_role (pw 1).1, hden]
        rfl
      · exact .inr (.inl ⟨by omega, by omega, rfl⟩)
  · have hex : ∃ d ∈ x :: xs, d.layer ≠ x.layer := by
      by_contra hn
      exact hl fun d hd => by_contra fun h => hn ⟨d, hd, h⟩
    obtain ⟨d, hd, hne⟩ := hex
    refine .inl ⟨h3', ⟨d, hd, x, by simp, hne⟩, ?_⟩
    have hdx : d ∈ xs := by
      rcases List.mem_cons.1 hd with rfl | hd
      · exact absurd rfl hne
      · exact hd
    have pw : ∀ i, WF (xs.getD i (null x.layer)) := by
      intro i
      rw [List.getD_eq_getElem?_getD]
      cases hi : xs[i]? with
      | none => exact .null hxl
      | some y => exact hw y (List.mem_cons_of_mem _ (List.mem_of_getElem? hi))
    rw [mkMult_three hx (pw 0) (pw 1), if_pos]
    rintro ⟨e1, e2⟩
    rcases xs with _ | ⟨y, _ | ⟨z, _ | ⟨u, us⟩⟩⟩
    · cases hdx
    · simp only [List.mem_singleton] at hdx; subst hdx; exact hne e1
    · simp only [List.mem_cons, List.not_mem_nil, or_false] at hdx
      rcases hdx with rfl | rfl
      · exact hne e1
      · exact hne e2
    · simp only [List.length_cons] at h3'; omega

-- Every branch of `C07_product` occurs; a wrapped one-term sum counts as its term.
example : mkMult [] = .error .invalidScript ∧ mkMult [none] = .error .indexError ∧
    mkMult [some (.prim .U), some (.null 1)] = .error .invalidScript ∧
    mkMult [some (.prim .U), some (.prim .U), some (.prim .U), some (.prim .U)] = .error .invalidScript ∧
    mkMult [some (.null 6)] = .error .indexError := by decide +kernel
example : let i := Script.add [.null 0, .prim .U, .prim .A, .prim .S, .prim .B, .prim .T]
    let p := Script.mult i i i
    Script.wfb p = true ∧ mkMult [some p, some i] = .error .invalidScript ∧ mkMult [some p, some p] = .error .tooMany := by decide +kernel
example : (mkMult [some (.add [.prim .U]), some (.add [.prim .S, .prim .B, .prim .T]), none, some (.null 3)]).map str = .ok (c!"U:M:.") ∧
    Script.wfb (.add [.prim .U]) = true := by decide +kernel

end Verif
