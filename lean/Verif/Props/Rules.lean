import Verif.Lemmas.Rules
import Verif.Props.ScriptOrder
import Verif.Lemmas.Except

/-
C104: the rules that move the scripts of a root to a new root (`scripts/dictionary_tools.py`).
-/

namespace Verif
open Script Layout

/-- **C104, what holds.** A script laid out by products as the rule expects, of a layer for which the new script exists,
is always moved: the new script can be built, has the layer meant and as many words, and its words are exactly the
words of the script, each laid out in the new way.  Missing: scripts of which a part that the rule takes apart is a sum
(`C104_violated`, `C104_sum_refused`). -/
theorem C104_moved_partial (r : Rule) {σ : Nat → Script} {s : Script} (hb : Built s) (hl : r.LayerOk s.layer)
    (hm : r.move.src.Matches σ s) :
    ∃ t, r.run s = .ok t ∧ Built t ∧ t.layer = r.layerOf s.layer ∧ t.cardinal = s.cardinal ∧
      ∀ w', Den t w' ↔ ∃ w, Den s w ∧ r.move.Moves s.layer t.layer w w' := by
  obtain ⟨hmade, hP⟩ := parts_of_matches (rule_sound r).1 (rule_parts r).1 (built_wf hb) hm
  obtain ⟨t, h1, h2⟩ := rule_made r (built_wf hb) hl hP hm
  obtain ⟨h3, h4⟩ := made_moves (rule_sound r).1 (rule_parts r).2 hP.wf hmade h2
  exact ⟨t, h1, wf_built h2.wf, h2.layer, h3, by rw [h2.layer]; exact h4⟩

/-- **C104, one-to-one.** No rule sends two words to one, or one word to two. -/
theorem C104_one_to_one (r : Rule) {l l' : Nat} {u v u' v' : Word} (hu : r.move.Moves l l' u u') (hv : r.move.Moves l l' v v') :
    u = v ↔ u' = v' :=
  moves_one_to_one (rule_sound r).1 (rule_sound r).2 (rule_parts r).2 hu hv

/-- **C104, within the new root.** For two scripts moved by the same rule, the new ones are one within the other exactly
when the old ones are; so the paradigms of a root become paradigms of the new root, and no other script does. -/
theorem C104_within_partial (r : Rule) {σ τ : Nat → Script} {root s : Script} (hr : Built root) (hb : Built s)
    (hlr : r.LayerOk root.layer) (hl : root.layer = s.layer) (hmr : r.move.src.Matches σ root) (hm : r.move.src.Matches τ s) :
    ∃ root' t, r.run root = .ok root' ∧ r.run s = .ok t ∧ contains root' t = contains root s := by
  obtain ⟨R, h1, h2, h3, _, h4⟩ := C104_moved_partial r hr hlr hmr
  obtain ⟨t, k1, k2, k3, _, k4⟩ := C104_moved_partial r hb (hl ▸ hlr) hm
  refine ⟨R, t, h1, k1, ?_⟩
  obtain ⟨b, e1, e2⟩ := C11_inclusion h2 k2
  obtain ⟨b', f1, f2⟩ := C11_inclusion hr hb
  rw [e1, f1]
  congr 1
  have hll : t.layer = R.layer := by rw [h3, k3, hl]
  rw [Bool.eq_iff_iff, e2, f2]
  constructor
  · rintro ⟨_, h⟩
    refine ⟨hl.symm, fun w hw => ?_⟩
    -- the image of a word
    obtain ⟨w', hw'⟩ : ∃ w', r.move.Moves s.layer t.layer w w' := by
      obtain ⟨hmade, hP⟩ := parts_of_matches (rule_sound r).1 (rule_parts r).1 (built_wf hb) hm
      obtain ⟨t', g1, g2⟩ := rule_made r (built_wf hb) (hl ▸ hlr) hP hm
      obtain ⟨ρ, a, b⟩ := (hmade.den w).1 hw
      obtain ⟨w0, hw0⟩ := den_exists g2.wf
      obtain ⟨ρ0, a0, b0⟩ := (g2.den w0).1 hw0
      have hp := (rule_parts r).2
      obtain ⟨w', hw'⟩ := Layout.spells_replace b0 (ρ' := ρ) fun i hi => by
        rw [den_length (hP.wf i (hp.mem_iff.2 hi)) (a i (hp.mem_iff.2 hi)), den_length (hP.wf i (hp.mem_iff.2 hi)) (a0 i hi)]
      exact ⟨w', ρ, b, by rw [k3]; exact hw'⟩
    obtain ⟨v, hv, hv'⟩ := (h4 w').1 (h w' ((k4 w').2 ⟨w, hw, hw'⟩))
    rw [hl, ← hll] at hv'
    rw [(C104_one_to_one r hw' hv').2 rfl]
    exact hv
  · rintro ⟨_, h⟩
    refine ⟨hll, fun w' hw' => ?_⟩
    obtain ⟨w, hw, hmv⟩ := (k4 w').1 hw'
    exact (h4 w').2 ⟨w, h w hw, by rw [hl, ← hll]; exact hmv⟩

/-- **C104, nothing is lost.** Two scripts moved by the same rule have the same words afterwards exactly when they had the
same words before. -/
theorem C104_distinct_partial (r : Rule) {σ τ : Nat → Script} {s s' t t' : Script} (hb : Built s) (hb' : Built s')
    (hlr : r.LayerOk s.layer) (hl : s.layer = s'.layer) (hm : r.move.src.Matches σ s) (hm' : r.move.src.Matches τ s')
    (ht : r.run s = .ok t) (ht' : r.run s' = .ok t') : SameMeaning t t' ↔ SameMeaning s s' := by
  obtain ⟨x, e1, b1, _⟩ := C104_moved_partial r hb hlr hm
  obtain ⟨y, e2, b2, _⟩ := C104_moved_partial r hb' (hl ▸ hlr) hm'
  rw [ht, Except.ok.injEq] at e1
  rw [ht', Except.ok.injEq] at e2
  subst e1 e2
  obtain ⟨_, _, c1, c2, c3⟩ := C104_within_partial r hb hb' hlr hl hm hm'
  obtain ⟨_, _, d1, d2, d3⟩ := C104_within_partial r hb' hb (hl ▸ hlr) hl.symm hm' hm
  rw [ht, Except.ok.injEq] at c1 d2
  rw [ht', Except.ok.injEq] at c2 d1
  subst c1 c2 d1 d2
  rw [← (C11_preorder b1 b1 b2).2.2, ← (C11_preorder hb hb hb').2.2, c3, d3]

/-- **C104, sums.** Every rule raises `ValueError` on a sum that does not have exactly three terms. -/
theorem C104_sum_refused (r : Rule) {cs : List Script} (h : cs.length ≠ 3) : r.run (.add cs) = .error .valueError := by
  have hu : unpack (.add cs) = .error .valueError := by
    unfold unpack
    split
    · rename_i x y z he
      simp only [iter, children] at he
      exact absurd (by rw [he]; rfl) h
    · rfl
  cases r <;> simp only [Rule.run, rotateSc, doubleRotate, splitSubst, promoteAndSplit, transferSubstance, addModeT, insertAttrF,
    fixTypo, bodyParts, removeAttrF, competence, noetic, tisse, formesVisuelles, ecosystem, ecosystemTern, hu] <;> rfl

/-- **C104, sums of three terms.** Such a sum is taken for a product: a rotation, when it returns, gives a script of a
higher layer, which is in no rotated root of the layer of the sum. -/
theorem C104_three_terms {x y z t : Script} (hb : Built (.add [x, y, z])) (h : rotateSc (.add [x, y, z]) = .ok t) :
    t.layer = (Script.add [x, y, z]).layer + 1 ∧
      ∀ σ root root', Built root → root.layer = (Script.add [x, y, z]).layer → (Rule.move .rotate).src.Matches σ root →
        rotateSc root = .ok root' → contains root' t = .ok false := by
  have hw := built_wf hb
  have hlay : t.layer = (Script.add [x, y, z]).layer + 1 := by
    cases hw with
    | add _ hc hl _ _ _ _ =>
      have hz := hl z (by simp)
      have hy := hl y (by simp)
      have hx := hl x (by simp)
      have h : mkMult [some z, some x, some y] = .ok t := h
      rw [mkMult_eval (hc z (by simp)) (hc x (by simp)) (hc y (by simp)) (by rw [hx, hz]) (by rw [hy, hz])] at h
      split at h
      · cases h
      · split at h
        · cases h
          rw [layer, (role_wf (hc z (by simp))).2.2, hz]
        · cases h
  refine ⟨hlay, ?_⟩
  intro σ root root' hr hl hm he
  obtain ⟨R, e1, _, e3, _⟩ := C104_moved_partial .rotate hr trivial hm
  have he' : root' = R := by
    have : rotateSc root = .ok R := e1
    rw [he] at this
    exact Except.ok.inj this
  have e3 : R.layer = root.layer := e3
  rw [contains, if_pos]
  rw [he', e3, hlay, hl]
  omega

/-- **C104, refusals.** A product with something at a place that the rule expects empty is refused. -/
theorem C104_refused {x y z : Script} (hz : z.isNull = false) :
    splitSubst (.mult x y z) = .error .assertionError ∧ addModeT (.mult x y z) = .error .assertionError ∧
    insertAttrF (.mult x y z) = .error .assertionError ∧ insertFAdditive (.mult x y z) = .error .assertionError := by
  simp [splitSubst, addModeT, insertAttrF, insertFAdditive, unpack_mult, ok_bind, assertThat, hz]
  exact ⟨rfl, rfl, rfl, rfl⟩

/-- **C104, refusals inside.** So is a product of which a part taken apart has something at a place that the rule expects empty; a script
too small for the rule has no parts of parts. -/
theorem C104_refused_inside {a b c y z : Script} (hc : c.isNull = false) (p : Prim) :
    splitSubst (.mult (.mult a b c) y z) = .error .assertionError ∧ promoteAndSplit (.mult (.mult a b c) y z) = .error .assertionError ∧
    competence (.mult y (.mult a b c) z) = .error .assertionError ∧ transferSubstance (.mult y (.mult a b c) z) = .error .assertionError ∧
    noetic (.mult (.mult (.prim p) b c) y z) = .error .indexError := by
  refine ⟨?_, ?_, ?_, ?_, ?_⟩
  · cases hz : z.isNull <;> simp [splitSubst, unpack_mult, ok_bind, assertThat, hc, hz] <;> rfl
  · simp [promoteAndSplit, unpack_mult, ok_bind, assertThat, hc]; rfl
  · simp [competence, unpack_mult, ok_bind, assertThat, hc]; rfl
  · simp [transferSubstance, unpack_mult, ok_bind, assertThat, hc]; rfl
  · have : parseScript (c!"s.") = .ok (((parseScript (c!"s.")).toOption).getD (.null 0)) := by decide +kernel
    rw [noetic, this]
    simp [unpack_mult, ok_bind, childAt, children]
    rfl

/-- A sum moved term by term. -/
theorem moved_sum {f : Script → Except Err Script} {R : Word → Word → Prop} {cs : List Script} (hw : WF (.add cs)) {l : Nat}
    (each : ∀ c ∈ cs, ∃ t, f c = .ok t ∧ Built t ∧ t.isAdd = false ∧ t.layer = l ∧ t.cardinal = c.cardinal ∧
      ∀ w', Den t w' ↔ ∃ w, Den c w ∧ R w w') :
    ∃ t, (do mkAdd (← cs.mapM f)) = .ok t ∧ Built t ∧ t.layer = l ∧ t.cardinal ≤ (Script.add cs).cardinal ∧
      ∀ w', Den t w' ↔ ∃ w, Den (.add cs) w ∧ R w w' := by
  have hsum := cardinal_add hw
  have hcard := wf_cardinal hw
  have hne : cs ≠ [] := by cases hw with | add h _ _ _ _ _ _ => exact h
  obtain ⟨ts, e⟩ := mapM_total fun c hc => (each c hc).imp fun _ h => h.1
  have hf := mapM_inv e
  have back : ∀ t ∈ ts, ∃ c ∈ cs, f c = .ok t := fun t ht => forall₂_mem_right hf ht
  have info : ∀ {c t}, c ∈ cs → f c = .ok t → Built t ∧ t.isAdd = false ∧ t.layer = l ∧ t.cardinal = c.cardinal ∧
      ∀ w', Den t w' ↔ ∃ w, Den c w ∧ R w w' := by
    intro c t hc ht
    obtain ⟨t', h1, h2⟩ := each c hc
    rw [ht, Except.ok.injEq] at h1
    subst h1
    exact h2
  have hts : (ts.map cardinal).sum = (cs.map cardinal).sum := by
    clear back hsum hcard hw hne e
    induction hf with
    | nil => rfl
    | cons h1 _ ih =>
      rw [List.map_cons, List.map_cons, List.sum_cons, List.sum_cons, (info (by simp) h1).2.2.2.1,
        ih (fun c hc => each c (by simp [hc])) fun {c t} hc ht => info (by simp [hc]) ht]
  have hb : ∀ t ∈ ts, Built t := fun t ht => by obtain ⟨c, hc, h⟩ := back t ht; exact (info hc h).1
  have hp : ∀ t ∈ ts, NotOneTermSum t := fun t ht d hd => by
    obtain ⟨c, hc, h⟩ := back t ht
    have := (info hc h).2.1
    rw [hd] at this
    cases this
  have hl : ∀ t ∈ ts, t.layer = l := fun t ht => by obtain ⟨c, hc, h⟩ := back t ht; exact (info hc h).2.2.1
  have hne' : ts ≠ [] := by
    rintro rfl
    cases hf
    exact hne rfl
  rw [e]
  rcases C05_sum_is_union_partial hb hp with ⟨t, h1, h2, h3, h4⟩ | ⟨_, h⟩ | ⟨_, c, hc, d, hd, h⟩ | ⟨_, h, _⟩
  · refine ⟨t, h1, h2, ?_, ?_, ?_⟩
    · obtain ⟨t0, ht0⟩ := List.exists_mem_of_ne_nil _ hne'
      rw [← h3 t0 ht0, hl t0 ht0]
    · have hwt := built_wf h2
      obtain ⟨_, _, _, _, _, rfl⟩ := mkAdd_ok h1
      rw [cardinal_add hwt, hsum, ← hts, ((pySort_perm lt (sumTerms ts)).map cardinal).sum_eq]
      exact card_sumTerms_le fun c hc => built_wf (hb c hc)
    · intro w'
      rw [h4]
      constructor
      · rintro ⟨t, ht, hd⟩
        obtain ⟨c, hc, h⟩ := back t ht
        obtain ⟨w, h5, h6⟩ := ((info hc h).2.2.2.2 w').1 hd
        exact ⟨w, den_add.2 ⟨c, hc, h5⟩, h6⟩
      · rintro ⟨w, hd, hR⟩
        obtain ⟨c, hc, hcw⟩ := den_add.1 hd
        obtain ⟨t, ht, h⟩ := forall₂_mem_left hf hc
        exact ⟨t, ht, ((info hc h).2.2.2.2 w').2 ⟨w, hcw, hR⟩⟩
  · exact absurd h hne'
  · exact absurd (by rw [hl c hc, hl d hd]) h
  · omega

theorem mOp_isAdd {a b c : Option Script} {t : Script} (h : mOp a b c = .ok t) : t.isAdd = false := by
  obtain ⟨_, _, _, _, _, _, e, _⟩ := mkMult_ok (h : mkMult [a, b, c] = .ok t)
  rw [e]; rfl

/-- **C104, rotation of sums.** A sum of products is rotated term by term: the words are exactly the rotated ones. -/
theorem C104_rotate_sum {cs : List Script} (hb : Built (.add cs))
    (hm : ∀ c ∈ cs, ∃ σ, (Rule.move .rotate).src.Matches σ c) :
    ∃ t, rotateScAdditive (.add cs) = .ok t ∧ Built t ∧ t.layer = (Script.add cs).layer ∧
      ∀ w', Den t w' ↔ ∃ w, Den (.add cs) w ∧ (Rule.move .rotate).Moves t.layer t.layer w w' := by
  have hw := built_wf hb
  obtain ⟨t, h1, h2, h3, _, h4⟩ := moved_sum (f := rotateSc) (l := (Script.add cs).layer)
    (R := (Rule.move .rotate).Moves (Script.add cs).layer (Script.add cs).layer) hw (by
      intro c hcm
      cases hw with
      | add hne hc hl _ _ _ _ =>
        obtain ⟨σ, hσ⟩ := hm c hcm
        obtain ⟨t, h1, h2, h3, h4, h5⟩ := C104_moved_partial .rotate (wf_built (hc c hcm)) trivial hσ
        have h1 : rotateSc c = .ok t := h1
        have h3 : t.layer = c.layer := h3
        rw [h3, hl c hcm] at h5
        refine ⟨t, h1, h2, ?_, by rw [h3, hl c hcm], h4, h5⟩
        obtain ⟨x, y, z, rfl, -⟩ := hσ
        exact mOp_isAdd (a := some z) (b := some x) (c := some y) h1)
  exact ⟨t, h1, h2, h3, by rw [h3]; exact h4⟩

/-- The script `f.` in the middle of the substance: `i.B:.-O:.-' => i.f.B:.-O:.-'`. -/
def insertMove : Move := ⟨Rule.n2 (Rule.n2 (part 0) (part 1)) (part 2), Rule.n2 (.node (part 0) (fixedOf (c!"f.")) (part 1)) (part 2)⟩

/-- **C104, insertion in the substance.** For a product of layer 3 whose substance is a product of two roles, or a sum of
such products: the words are exactly the old ones with `f.` inserted. -/
theorem C104_insert_sum {x y : Script} {l : Nat} (hb : Built (.mult x y (.null l))) (hl : (Script.mult x y (.null l)).layer = 3)
    (hm : ∀ c ∈ (if x.isAdd then x.children else [x]), ∃ σ, (Rule.move .insertAttrF).src.Matches σ c) :
    ∃ t, insertFAdditive (.mult x y (.null l)) = .ok t ∧ Built t ∧ t.layer = 3 ∧
      ∀ w', Den t w' ↔ ∃ w, Den (.mult x y (.null l)) w ∧ insertMove.Moves 3 3 w w' := by
  have hw := built_wf hb
  obtain ⟨wx, wy, _, ly, ln, _⟩ := wf_mult_roles hw
  have hlx : x.layer = 2 := by rw [layer] at hl; omega
  have one : ∀ {c : Script}, WF c → c.layer = 2 → (∃ σ, (Rule.move .insertAttrF).src.Matches σ c) →
      ∃ t, insertAttrF c = .ok t ∧ Built t ∧ t.isAdd = false ∧ t.layer = 2 ∧ t.cardinal = c.cardinal ∧
        ∀ w', Den t w' ↔ ∃ w, Den c w ∧ (Rule.move .insertAttrF).Moves 2 2 w w' := by
    rintro c hc hl ⟨σ, hσ⟩
    obtain ⟨t, h1, h2, h3, h4, h5⟩ := C104_moved_partial .insertAttrF (wf_built hc) hl hσ
    have h1 : insertAttrF c = .ok t := h1
    have h3 : t.layer = c.layer := h3
    rw [h3, hl] at h5
    refine ⟨t, h1, h2, ?_, by rw [h3, hl], h4, h5⟩
    obtain ⟨a, b, z, rfl, -, -, ⟨k, rfl⟩⟩ := hσ
    obtain ⟨f, hf, -⟩ := fix_of (t := c!"f.") (l := 1) (by decide +kernel)
    have h1 : mOp (some a) (some f) (some b) = .ok t := by
      rw [← h1]; simp only [insertAttrF, unpack_mult, assert_null, ok_bind, hf]
    exact mOp_isAdd h1
  -- the substance
  obtain ⟨x', e, bx, lx', cx, dx⟩ : ∃ x', (if x.isAdd then (do mkAdd (← x.iter.mapM insertAttrF)) else insertAttrF x) = .ok x' ∧
      Built x' ∧ x'.layer = 2 ∧ x'.cardinal ≤ x.cardinal ∧
        ∀ w', Den x' w' ↔ ∃ w, Den x w ∧ (Rule.move .insertAttrF).Moves 2 2 w w' := by
    cases hx : x.isAdd with
    | false =>
      rw [hx] at hm
      obtain ⟨t, h1, h2, _, h3, h4, h5⟩ := one wx hlx (hm x (by simp))
      exact ⟨t, h1, h2, h3, by omega, h5⟩
    | true =>
      cases x with
      | add cs =>
        refine moved_sum wx fun c hc => ?_
        rw [hx] at hm
        cases wx with
        | add _ h2 h3 _ _ _ _ => exact one (h2 c hc) (by rw [h3 c hc, hlx]) (hm c hc)
      | _ => cases hx
  have hdo : insertFAdditive (.mult x y (.null l)) = ((if x.isAdd then (do mkAdd (← x.iter.mapM insertAttrF)) else insertAttrF x) >>=
      fun x' => mOp (some x') (some y)) := by
    cases hx : x.isAdd <;> simp only [insertFAdditive, unpack_mult, assert_null, ok_bind, hx] <;> rfl
  have wx' := built_wf bx
  have hc360 := wf_cardinal hw
  rw [cardinal_mult hw] at hc360
  have hn1 : (null l).cardinal = 1 := by simp [cardinal]
  have hprod : x'.cardinal * y.cardinal * (null 2).cardinal ≤ 360 := by
    have : (null 2).cardinal = 1 := by simp [cardinal]
    rw [this]
    rw [hn1] at hc360
    exact le_trans (by rw [Nat.mul_one, Nat.mul_one]; exact Nat.mul_le_mul_right _ cx) hc360
  have hev := mkMult_eval wx' wy (.null (l := 2) (by omega)) (by rw [ly, hlx, lx']) (by rw [lx', layer])
  rw [if_neg (by omega), if_pos (by omega)] at hev
  have hm2 : mOp (some x') (some y) = .ok (mult (role x') (role y) (role (null 2))) := by
    rw [← hev]
    have := mkMult_pad (x := x') (xs := [y]) (tail := [none]) (.inr ⟨_, rfl⟩) (by simp)
    rw [lx'] at this
    exact this
  refine ⟨_, by rw [hdo, e, ok_bind, hm2], wf_built (mkMult_wf (by
      intro c hc
      simp only [List.mem_cons, Option.some.injEq, List.not_mem_nil, or_false] at hc
      rcases hc with rfl | rfl | rfl
      · exact wx'
      · exact wy
      · exact .null (by omega)) hev), by rw [layer, (role_wf wx').2.2, lx'], ?_⟩
  intro w'
  have l2 : l = 2 := by rw [layer] at ln; omega
  subst l2
  rw [den_mult]
  simp only [den_role wx', den_role wy, den_role (.null (l := 2) (by omega)), den_mult]
  constructor
  · rintro ⟨u', v, z, h1, h2, h3, rfl⟩
    obtain ⟨u, hu, ρ, ha, hb'⟩ := (dx u').1 h1
    refine ⟨u ++ v ++ z, ⟨u, v, z, hu, h2, h3, rfl⟩, fun i => if i = 2 then v else ρ i, ⟨u, v, z, ?_, ⟨by simp, ?_⟩, ?_, rfl⟩,
      ⟨u', v, z, ?_, ⟨by simp, ?_⟩, ?_, rfl⟩⟩
    · refine (spells_congr ?_).1 ha
      intro i hi
      have : i ≠ 2 := by rintro rfl; revert hi; decide
      simp [this]
    · rw [den_length wy h2, ly, hlx]
    · exact den_null.1 h3
    · refine (spells_congr ?_).1 hb'
      intro i hi
      have : i ≠ 2 := by rintro rfl; revert hi; simp [Rule.move, parts, parts_fixedOf]
      simp [this]
    · rw [den_length wy h2, ly, hlx]
    · exact den_null.1 h3
  · rintro ⟨w, ⟨u, v, z, hu, hv, hz, rfl⟩, ρ, ⟨u1, v1, z1, a1, a2, a3, a4⟩, ⟨u2, v2, z2, b1, b2, b3, rfl⟩⟩
    have hsd : (Rule.move .insertAttrF).src.Sound := (rule_sound .insertAttrF).1
    obtain ⟨rfl, rfl, rfl⟩ := append3_inj a4
      (by rw [den_length wx hu, hlx]; exact (spells_length hsd a1).symm)
      (by rw [den_length wy hv, ly, hlx]; exact a2.2.symm)
    refine ⟨u2, v2, z2, (dx u2).2 ⟨u, hu, ρ, a1, b1⟩, ?_, den_null.2 b3, rfl⟩
    rw [b2.1, ← a2.1]
    exact hv

/-- The text of the script that a rule makes of a text. -/
def ruleText (f : Script → Except Err Script) (t : Str) : Except Err Str := do pure (← f (← parseScript t)).str

/-- **C104 is violated**: a paradigm of a root that is a sum of three terms, such as the diagonal of a table, is taken for
a product; the rule returns a script of another layer, which is not in the new root. -/
theorem C104_violated : ∃ root s root' t, Built root ∧ Built s ∧ root.str = (c!"M:.M:.a.-") ∧ s.str = (c!"S:.S:.a.-+B:.B:.a.-+T:.T:.a.-") ∧
    contains root s = .ok true ∧ (∃ σ, (Rule.move .rotate).src.Matches σ root) ∧ rotateSc root = .ok root' ∧ rotateSc s = .ok t ∧
    t.str = (c!"T:.T:.a.-S:.S:.a.-B:.B:.a.-'") ∧ contains root' t = .ok false := by
  let p (q : Prim) : Script := .mult (.prim q) (.null 0) (.null 0)
  let a : Script := .mult (.prim .A) (.prim .B) (.null 0)
  let M : Script := .mult (.add [.prim .S, .prim .B, .prim .T]) (.null 0) (.null 0)
  let d (q : Prim) : Script := .mult (p q) (p q) a
  refine ⟨.mult M M a, .add [d .S, d .B, d .T], .mult a M M, .mult (d .T) (d .S) (d .B), built_of (by decide +kernel),
    built_of (by decide +kernel), by decide +kernel, by decide +kernel, by decide +kernel,
    ⟨fun i => if i = 2 then a else M, M, M, a, rfl, rfl, rfl, rfl⟩, by decide +kernel, by decide +kernel, by decide +kernel,
    by decide +kernel⟩

-- The table `result` of `dictionary_tools.py` (lines 156-172) and the examples of the comments.
example : ruleText rotateScAdditive (c!"s.-S:.U:.-'l.-S:.O:.-'n.-S:.U:.-',+M:.-'M:.-'n.-S:.U:.-',") =
    .ok (c!"n.-S:.U:.-'s.-S:.U:.-'l.-S:.O:.-',+n.-S:.U:.-'M:.-'M:.-',") := by decide +kernel
example : ruleText doubleRotate (c!"M:.-',M:.-',S:.-'B:.-'n.-S:.U:.-',_") = .ok (c!"n.-S:.U:.-'S:.-'B:.-',M:.-',M:.-',_") := by
  decide +kernel
-- The middle of `U:A:S:.` is no place of a product taken apart: refused; `U:A:.` is not.
example : ruleText splitSubst (c!"U:A:S:.B:.-") = .error .assertionError ∧ ruleText splitSubst (c!"U:A:.B:.-") = .ok (c!"U:.A:.B:.-") ∧
    ruleText noetic (c!"U:A:S:.B:.-") = .error .indexError := by decide +kernel

example : ruleText splitSubst (c!"E:O:.M:O:.-") = .ok (c!"E:.O:.M:O:.-") ∧
    ruleText promoteAndSplit (c!"E:F:.O:M:.t.-") = .ok (c!"E:.-F:.O:M:.-t.-'") ∧
    ruleText transferSubstance (c!"E:O:.-M:O:.-t.o.-'") = .ok (c!"E:.-O:.M:O:.-t.o.-'") ∧
    ruleText addModeT (c!"O:O:.O:O:.-") = .ok (c!"O:O:.O:O:.t.-") ∧
    ruleText insertAttrF (c!"O:O:.F:.-") = .ok (c!"O:O:.f.F:.-") ∧
    ruleText removeAttrF (c!"O:O:.f.F:.-") = .ok (c!"O:O:.F:.-") ∧
    ruleText insertFAdditive (c!"i.B:.-+u.M:.-O:.-'") = .ok (c!"i.f.B:.-+u.f.M:.-O:.-'") := by decide +kernel
example : ruleText fixTypo (c!"M:.-O:.-'M:.-wa.e.-'t.x.-s.y.-',") = .ok (c!"M:.-O:.-'M:.-wa.e.-'t.-x.-s.y.-',") ∧
    ruleText competence (c!"M:.-O:.-'M:.-wa.e.-'t.-x.-s.y.-',") = .ok (c!"t.-x.-s.y.-'wa.e.-',M:M:.-',O:.-',_") ∧
    ruleText noetic (c!"M:.O:.-O:.O:.-B:.T:.n.-'") = .ok (c!"s.M:O:.O:O:.-") ∧
    ruleText tisse (c!"O:M:.-O:M:.-we.h.-'") = .ok (c!"O:M:.-'O:M:.-'s.o.-k.o.-',") ∧
    ruleText formesVisuelles (c!"s.u.-'O:M:.-'O:.-',") = .ok (c!"b.-S:.U:.-'O:M:.-'O:.-',") ∧
    ruleText ecosystem (c!"O:.M:.-") = .ok (c!"s.o.-k.o.-'M:O:.-',") ∧
    ruleText ecosystemTern (c!"O:.M:.-M:.-'") = .ok (c!"s.o.-k.o.-'M:O:.-',M:.-',_") := by decide +kernel
example : ruleText bodyParts (c!"f.o.-f.o.-'E:.-U:.n.-l.-',E:.-U:.M:.T:.-l.-'E:.-A:.M:.T:.-l.-',_") =
    .ok (c!"f.o.-f.o.-'E:.-U:.n.-l.-',E:.-U:.M:T:.-l.-'E:.-A:.M:T:.-l.-',_") := by decide +kernel

-- A script that meets the hypotheses of `C104_moved_partial` for `_promote_and_split`: `E:F:.O:M:.t.-` of layer 2.
example : let O : Script := .add [.prim .U, .prim .A]
    let M : Script := .add [.prim .S, .prim .B, .prim .T]
    let F : Script := .add [.prim .U, .prim .A, .prim .S, .prim .B, .prim .T]
    let om : Script := .mult O M (.null 0)
    let t : Script := .mult (.prim .S) (.prim .T) (.null 0)
    let s : Script := .mult (.mult (.null 0) F (.null 0)) om t
    Built s ∧ s.str = (c!"E:F:.O:M:.t.-") ∧ Rule.LayerOk .promoteAndSplit s.layer ∧
      ∃ σ, (Rule.move .promoteAndSplit).src.Matches σ s := by
  refine ⟨built_of (by decide +kernel), by decide +kernel, show 2 ≤ 5 by decide, fun i => match i with
    | 0 => .null 0 | 1 => .add [.prim .U, .prim .A, .prim .S, .prim .B, .prim .T]
    | 2 => .mult (.add [.prim .U, .prim .A]) (.add [.prim .S, .prim .B, .prim .T]) (.null 0)
    | _ => .mult (.prim .S) (.prim .T) (.null 0), _, _, _, rfl, ⟨_, _, _, rfl, rfl, rfl, ⟨0, rfl⟩⟩, rfl, rfl⟩

end Verif
