import Verif.Spec.RulesSums
import Verif.Props.Rules

/-
C113: the rules of `scripts/dictionary_tools.py` that also accept sums.
-/

namespace Verif
open Script Layout

/-- The substance moved, term by term if it is a sum, and the attribute kept. -/
theorem moved_substance {f : Script → Except Err Script} {p : Move} (hsd : p.src.Sound) (h2 : 2 ∉ p.src.parts) (h2' : 2 ∉ p.dst.parts)
    {x y : Script} {l : Nat} (hb : Built (.mult x y (.null l))) (hl : (Script.mult x y (.null l)).layer = 3)
    (one : ∀ c ∈ (if x.isAdd then x.children else [x]), ∃ t, f c = .ok t ∧ Built t ∧ t.isAdd = false ∧ t.layer = 2 ∧
      t.cardinal = c.cardinal ∧ ∀ w', Den t w' ↔ ∃ w, Den c w ∧ p.Moves 2 2 w w') :
    ∃ t, ((if x.isAdd then (do mkAdd (← x.iter.mapM f)) else f x) >>= fun x' => mOp (some x') (some y)) = .ok t ∧ Built t ∧
      t.layer = 3 ∧ ∀ w', Den t w' ↔ ∃ w, Den (.mult x y (.null l)) w ∧
        (⟨Rule.n2 p.src (part 2), Rule.n2 p.dst (part 2)⟩ : Move).Moves 3 3 w w' := by
  have hw := built_wf hb
  obtain ⟨wx, wy, _, ly, ln, _⟩ := wf_mult_roles hw
  have hlx : x.layer = 2 := by rw [layer] at hl; omega
  obtain ⟨x', e, bx, lx', cx, dx⟩ : ∃ x', (if x.isAdd then (do mkAdd (← x.iter.mapM f)) else f x) = .ok x' ∧
      Built x' ∧ x'.layer = 2 ∧ x'.cardinal ≤ x.cardinal ∧ ∀ w', Den x' w' ↔ ∃ w, Den x w ∧ p.Moves 2 2 w w' := by
    cases hx : x.isAdd with
    | false =>
      rw [hx] at one
      obtain ⟨t, h1, h2, _, h3, h4, h5⟩ := one x (by simp)
      exact ⟨t, h1, h2, h3, by omega, h5⟩
    | true =>
      cases x with
      | add cs =>
        rw [hx] at one
        exact moved_sum wx fun c hc => one c hc
      | _ => cases hx
  have wx' := built_wf bx
  have hc360 := wf_cardinal hw
  rw [cardinal_mult hw] at hc360
  have hn1 : (null l).cardinal = 1 := by simp [cardinal]
  have hprod : x'.cardinal * y.cardinal * (null 2).cardinal ≤ 360 := by
    have : (null 2).cardinal = 1 := by simp [cardinal]
    rw [this]
    rw [hn1] at hc360
    exact le_trans (by rw [Nat.mul_one, Nat.mul_one]; exact Nat.mul_le_mul_right _ cx) hc360
  have hev := mkMult_eval wx' wy (.null (l := 2) (by omega)) (by rw [ly, hlx, lx']) (by rw [lx', layer])
  rw [if_neg (by omega), if_pos (by omega)] at hev
  have hm2 : mOp (some x') (some y) = .ok (mult (role x') (role y) (role (null 2))) := by
    rw [← hev]
    have := mkMult_pad (x := x') (xs := [y]) (tail := [none]) (.inr ⟨_, rfl⟩) (by simp)
    rw [lx'] at this
    exact this
  refine ⟨_, by rw [e, ok_bind, hm2], wf_built (mkMult_wf (by
      intro c hc
      simp only [List.mem_cons, Option.some.injEq, List.not_mem_nil, or_false] at hc
      rcases hc with rfl | rfl | rfl
      · exact wx'
      · exact wy
      · exact .null (by omega)) hev), by rw [layer, (role_wf wx').2.2, lx'], ?_⟩
  intro w'
  have l2 : l = 2 := by rw [layer] at ln; omega
  subst l2
  rw [den_mult]
  simp only [den_role wx', den_role wy, den_role (.null (l := 2) (by omega)), den_mult]
  constructor
  · rintro ⟨u', v, z, h1, hv, h3, rfl⟩
    obtain ⟨u, hu, ρ, ha, hb'⟩ := (dx u').1 h1
    refine ⟨u ++ v ++ z, ⟨u, v, z, hu, hv, h3, rfl⟩, fun i => if i = 2 then v else ρ i, ⟨u, v, z, ?_, ⟨by simp, ?_⟩, ?_, rfl⟩,
      ⟨u', v, z, ?_, ⟨by simp, ?_⟩, ?_, rfl⟩⟩
    · refine (spells_congr ?_).1 ha
      intro i hi
      have : i ≠ 2 := by rintro rfl; exact h2 hi
      simp [this]
    · rw [den_length wy hv, ly, hlx]
    · exact den_null.1 h3
    · refine (spells_congr ?_).1 hb'
      intro i hi
      have : i ≠ 2 := by rintro rfl; exact h2' hi
      simp [this]
    · rw [den_length wy hv, ly, hlx]
    · exact den_null.1 h3
  · rintro ⟨w, ⟨u, v, z, hu, hv, hz, rfl⟩, ρ, ⟨u1, v1, z1, a1, a2, a3, a4⟩, ⟨u2, v2, z2, b1, b2, b3, rfl⟩⟩
    obtain ⟨rfl, rfl, rfl⟩ := append3_inj a4
      (by rw [den_length wx hu, hlx]; exact (spells_length hsd a1).symm)
      (by rw [den_length wy hv, ly, hlx]; exact a2.2.symm)
    refine ⟨u2, v2, z2, (dx u2).2 ⟨u, hu, ρ, a1, b1⟩, ?_, den_null.2 b3, rfl⟩
    rw [b2.1, ← a2.1]
    exact hv

/-- **C113, removal in the substance.** For a product of layer 3 whose substance is a product with `f.` as attribute, or a
sum of such products: the words are exactly the old ones with `f.` removed. -/
theorem C113_remove_sum {x y : Script} {l : Nat} (hb : Built (.mult x y (.null l))) (hl : (Script.mult x y (.null l)).layer = 3)
    (hm : ∀ c ∈ (if x.isAdd then x.children else [x]), ∃ σ, (Rule.move .removeAttrF).src.Matches σ c) :
    ∃ t, removeFAdditive (.mult x y (.null l)) = .ok t ∧ Built t ∧ t.layer = 3 ∧
      ∀ w', Den t w' ↔ ∃ w, Den (.mult x y (.null l)) w ∧ removeMove.Moves 3 3 w w' := by
  have hw := built_wf hb
  obtain ⟨wx, _⟩ := wf_mult_roles hw
  have hlx : x.layer = 2 := by rw [layer] at hl; omega
  have hterm : ∀ c ∈ (if x.isAdd then x.children else [x]), WF c ∧ c.layer = 2 := by
    intro c hc
    cases x with
    | add cs =>
      cases wx with
      | add _ h2 h3 _ _ _ _ => exact ⟨h2 c hc, by rw [h3 c hc, hlx]⟩
    | _ =>
      obtain rfl : c = _ := by simpa [isAdd] using hc
      exact ⟨wx, hlx⟩
  obtain ⟨t, h1, h2⟩ := moved_substance (f := removeAttrF) (p := Rule.move .removeAttrF) (rule_sound .removeAttrF).1
    (by simp [Rule.move, parts, parts_fixedOf]) (by simp [Rule.move, parts]) hb hl (by
      intro c hc
      obtain ⟨wc, lc⟩ := hterm c hc
      obtain ⟨σ, hσ⟩ := hm c hc
      obtain ⟨t, h1, h2, h3, h4, h5⟩ := C104_moved_partial .removeAttrF (wf_built wc) trivial hσ
      have h1 : removeAttrF c = .ok t := h1
      have h3 : t.layer = c.layer := h3
      rw [h3, lc] at h5
      refine ⟨t, h1, h2, ?_, by rw [h3, lc], h4, h5⟩
      obtain ⟨a, b, z, rfl, -⟩ := hσ
      exact mOp_isAdd (a := some a) (b := some z) (c := none) h1)
  refine ⟨t, ?_, h2⟩
  rw [← h1]
  cases hx : x.isAdd <;> simp only [removeFAdditive, unpack_mult, assert_null, ok_bind, hx] <;> rfl

/-- **C113, a mode.** A product with a mode is refused. -/
theorem C113_remove_refused {x y z : Script} (hz : z.isNull = false) : removeFAdditive (.mult x y z) = .error .assertionError := by
  simp [removeFAdditive, unpack_mult, ok_bind, assertThat, hz]
  rfl

/-- **C113, sums of visual forms.** A sum of products that begin with `s.u.-'` is moved term by term: its words are exactly
the old ones with the first role replaced by `b.-S:.U:.-'`. -/
theorem C113_visual_sum {cs : List Script} (hb : Built (.add cs)) (hl : (Script.add cs).layer = 4)
    (hm : ∀ c ∈ cs, ∃ σ, (Rule.move .formesVisuelles).src.Matches σ c) :
    ∃ t, visualForms (.add cs) = .ok t ∧ Built t ∧ t.layer = 4 ∧
      ∀ w', Den t w' ↔ ∃ w, Den (.add cs) w ∧ (Rule.move .formesVisuelles).Moves 4 4 w w' := by
  have hw := built_wf hb
  obtain ⟨t, h1, h2, h3, _, h4⟩ := moved_sum (f := formesVisuelles) (l := 4)
    (R := (Rule.move .formesVisuelles).Moves 4 4) hw (by
      intro c hcm
      cases hw with
      | add hne hc hlc _ _ _ _ =>
        obtain ⟨σ, hσ⟩ := hm c hcm
        have lc : c.layer = 4 := by rw [hlc c hcm, hl]
        obtain ⟨t, h1, h2, h3, h4, h5⟩ := C104_moved_partial .formesVisuelles (wf_built (hc c hcm)) lc hσ
        have h1 : formesVisuelles c = .ok t := h1
        have h3 : t.layer = c.layer := h3
        rw [h3, lc] at h5
        refine ⟨t, h1, h2, ?_, by rw [h3, lc], h4, h5⟩
        obtain ⟨x, y, z, rfl, -⟩ := hσ
        obtain ⟨f, hf, -⟩ := fix_of (t := c!"b.-S:.U:.-'") (l := 3) (by decide +kernel)
        have h1 : mOp (some f) (some y) (some z) = .ok t := by
          rw [← h1]; simp only [formesVisuelles, unpack_mult, ok_bind, hf]
        exact mOp_isAdd h1)
  exact ⟨t, h1, h2, h3, h4⟩

/-- **C113, other visual forms.** A script that is not a sum is moved by the rule of C104. -/
theorem C113_visual_one {s : Script} (h : s.isAdd = false) : visualForms s = formesVisuelles s := by
  rw [visualForms, h]; rfl

/-- **C113, insertion and removal.** Removing `f.` from a script in which it was inserted gives back the words of the
script. -/
theorem C113_back {x y x' y' : Script} {l l' : Nat} (hb : Built (.mult x y (.null l))) (hl : (Script.mult x y (.null l)).layer = 3)
    (hm : ∀ c ∈ (if x.isAdd then x.children else [x]), ∃ σ, (Rule.move .insertAttrF).src.Matches σ c)
    (h : insertFAdditive (.mult x y (.null l)) = .ok (.mult x' y' (.null l')))
    (hm' : ∀ c ∈ (if x'.isAdd then x'.children else [x']), ∃ σ, (Rule.move .removeAttrF).src.Matches σ c) :
    ∃ t, removeFAdditive (.mult x' y' (.null l')) = .ok t ∧ SameMeaning t (.mult x y (.null l)) := by
  obtain ⟨t0, e0, b0, l0, d0⟩ := C104_insert_sum hb hl hm
  rw [h, Except.ok.injEq] at e0
  subst e0
  obtain ⟨t, e, _, lt', d⟩ := C113_remove_sum b0 l0 hm'
  refine ⟨t, e, by rw [lt', hl], fun w => ?_⟩
  have hf := fix_sound (t := c!"f.") (l := 1) (by decide +kernel)
  have s1 : insertMove.src.Sound := by simp [insertMove, Layout.Sound]
  have s2 : insertMove.dst.Sound := by simp [insertMove, Layout.Sound, hf]
  have hp : insertMove.src.parts.Perm insertMove.dst.parts := by simp [insertMove, parts, parts_fixedOf]
  rw [d]
  constructor
  · rintro ⟨w', h1, h2⟩
    obtain ⟨v, h3, h4⟩ := (d0 w').1 h1
    have h2 : insertMove.Moves 3 3 w w' := by obtain ⟨ρ, a, b⟩ := h2; exact ⟨ρ, b, a⟩
    rw [(moves_one_to_one s1 s2 hp h2 h4).2 rfl]
    exact h3
  · intro hw
    obtain ⟨w1, hw1⟩ := den_exists (built_wf b0)
    obtain ⟨v, _, ρ0, a0, b0'⟩ := (d0 w1).1 hw1
    obtain ⟨wx, wy, _, ly, ln, _⟩ := wf_mult_roles (built_wf hb)
    have hlx : x.layer = 2 := by rw [layer] at hl; omega
    -- the word is laid out as the rule expects
    obtain ⟨ρ, hρ⟩ : ∃ ρ, insertMove.src.Spells 3 ρ w := by
      obtain ⟨u, v, z, hu, hv, hz, rfl⟩ := den_mult.1 hw
      obtain ⟨ρ, hρ⟩ : ∃ ρ, (Rule.move .insertAttrF).src.Spells 2 ρ u := by
        have one : ∀ {c : Script}, WF c → c.layer = 2 → Den c u → (∃ σ, (Rule.move .insertAttrF).src.Matches σ c) →
            ∃ ρ, (Rule.move .insertAttrF).src.Spells 2 ρ u := by
          rintro c wc lc hc ⟨σ, hσ⟩
          obtain ⟨hmade, _⟩ := parts_of_matches (rule_sound .insertAttrF).1 (rule_parts .insertAttrF).1 wc hσ
          obtain ⟨ρ, _, hρ⟩ := (hmade.den u).1 hc
          exact ⟨ρ, lc ▸ hρ⟩
        cases x with
        | add cs =>
          obtain ⟨c, hc, hcu⟩ := den_add.1 hu
          cases wx with
          | add _ h2 h3 _ _ _ _ => exact one (h2 c hc) (by rw [h3 c hc, hlx]) hcu (hm c hc)
        | _ => exact one wx hlx hu (hm _ (by simp [isAdd]))
      refine ⟨fun i => if i = 2 then v else ρ i, u, v, z, (spells_congr ?_).1 hρ, ⟨by simp, by rw [den_length wy hv, ly, hlx]⟩, ?_, rfl⟩
      · intro i hi
        have : i ≠ 2 := by rintro rfl; revert hi; decide
        simp [this]
      · have l2 : l = 2 := by rw [layer] at ln; omega
        subst l2
        exact den_null.1 hz
    have lens : ∀ {ρ : Nat → Word} {w : Word}, insertMove.src.Spells 3 ρ w →
        (ρ 0).length = 3 ∧ (ρ 1).length = 3 ∧ (ρ 2).length = 9 := by
      rintro ρ w ⟨_, _, _, ⟨_, _, _, ⟨rfl, e0⟩, ⟨rfl, e1⟩, _, _⟩, ⟨rfl, e2⟩, _, _⟩
      exact ⟨e0, e1, e2⟩
    obtain ⟨w', hw'⟩ := Layout.spells_replace b0' (ρ' := ρ) fun i hi => by
      have hi : i = 0 ∨ i = 1 ∨ i = 2 := by simpa [insertMove, parts, parts_fixedOf] using hi
      obtain ⟨p0, p1, p2⟩ := lens hρ
      obtain ⟨q0, q1, q2⟩ := lens a0
      rcases hi with rfl | rfl | rfl <;> omega
    exact ⟨w', (d0 w').2 ⟨w, hw, ρ, hρ, hw'⟩, ρ, hw', hρ⟩

theorem ocean_parts : parseScript (c!"M:.-'M:.-'n.-T:.A:.-',") = .ok oceanTable ∧
    parseScript (c!"s.-S:.U:.-'l.-S:.O:.-'n.-T:.A:.-',") = .ok oceanWord ∧ Built oceanTable ∧ Built oceanWord ∧
    oceanTable.layer = 4 ∧ oceanWord.layer = 4 ∧
    contains oceanTable (.null 4) = .ok false ∧ contains oceanWord (.null 4) = .ok false :=
  ⟨by decide +kernel, by decide +kernel, built_of (by decide +kernel), built_of (by decide +kernel), by decide +kernel,
    by decide +kernel, by decide +kernel, by decide +kernel⟩

/-- No word is in both parts of the root. -/
theorem ocean_disjoint {w : Word} (h1 : Den oceanTable w) (h2 : Den oceanWord w) : False := by
  obtain ⟨-, -, bt, bw, lt', lw, -⟩ := ocean_parts
  obtain ⟨A, ea⟩ := enum_exists (built_wf bw)
  obtain ⟨x, hx, hxw⟩ := (ea.den w).1 h2
  have hall : ∀ B, singularSequences oceanWord = .ok B → ∀ x ∈ B, contains oceanTable x = .ok false := by
    have : (match singularSequences oceanWord with
      | .ok B => B.all fun x => decide (contains oceanTable x = .ok false)
      | .error _ => true) = true := by decide +kernel
    intro B hB x hx
    rw [hB] at this
    exact of_decide_eq_true (List.all_eq_true.1 this x hx)
  have hc := hall A ea.run x hx
  obtain ⟨b, e1, e2⟩ := C11_inclusion bt (wf_built (ea.wf x hx))
  rw [hc, Except.ok.injEq] at e1
  subst e1
  have := e2.2 ⟨by rw [lt', ea.layer x hx, lw], fun v hv => by rw [den_unique (ea.wf x hx) (ea.one x hx) hv hxw]; exact h1⟩
  cases this

/-- The branches of `translate_ocean`. -/
theorem oceanWith_eq (s : Script) (rest : Except Err (Option Script)) :
    (contains oceanTable s = .ok true → oceanWith s rest = (do return some (← rotateSc s))) ∧
    (contains oceanTable s = .ok false → contains oceanWord s = .ok true → oceanWith s rest = (do
      let (subst, attr, mode) ← unpack s
      return some (← mOp (some subst) (some mode) (some attr)))) ∧
    (contains oceanTable s = .ok false → contains oceanWord s = .ok false → oceanWith s rest = rest) := by
  obtain ⟨p1, p2, -⟩ := ocean_parts
  refine ⟨fun h => ?_, fun h h' => ?_, fun h h' => ?_⟩
  · simp only [oceanWith, p1, ok_bind, h]; rfl
  · simp only [oceanWith, p1, p2, ok_bind, h, h']; rfl
  · simp only [oceanWith, p1, p2, ok_bind, h, h']; rfl

/-- The script is in the part `r` of the root. -/
theorem in_part {r s : Script} (hr : Built r) (hs : Built s) :
    contains r s = .ok true ∧ (s.layer = r.layer ∧ ∀ w, Den s w → Den r w) ∨
      contains r s = .ok false ∧ ¬ (s.layer = r.layer ∧ ∀ w, Den s w → Den r w) := by
  obtain ⟨b, e1, e2⟩ := C11_inclusion hr hs
  cases b
  · exact .inr ⟨e1, fun h => by cases e2.2 h⟩
  · exact .inl ⟨e1, e2.1 rfl⟩

theorem swap_parts : swapMove.src.Sound ∧ swapMove.dst.Sound ∧ swapMove.src.parts.Nodup ∧ swapMove.src.parts.Perm swapMove.dst.parts := by
  refine ⟨by simp [swapMove, Layout.Sound], by simp [swapMove, Layout.Sound], by decide, by decide⟩

/-- A product with its last two roles exchanged. -/
theorem swapped {x y z : Script} (hb : Built (.mult x y z)) :
    ∃ t, mOp (some x) (some z) (some y) = .ok t ∧ Built t ∧ t.isAdd = false ∧ t.layer = (Script.mult x y z).layer ∧
      t.cardinal = (Script.mult x y z).cardinal ∧
      ∀ w', Den t w' ↔ ∃ w, Den (.mult x y z) w ∧ swapMove.Moves (Script.mult x y z).layer (Script.mult x y z).layer w w' := by
  obtain ⟨s1, s2, s3, s4⟩ := swap_parts
  let σ : Nat → Script := fun i => match i with | 0 => x | 1 => y | _ => z
  obtain ⟨hmade, hP⟩ := parts_of_matches (σ := σ) s1 s3 (built_wf hb) ⟨x, y, z, rfl, rfl, rfl, rfl⟩
  obtain ⟨w0, w1, w2, l1, l2, l5⟩ := wf_mult_roles (built_wf hb)
  have hP' : Parts [0, 1, 2] σ := hP
  obtain ⟨t, h1, h2⟩ := made_three (p := part 0) (q := part 2) (r := part 1) hP' l5 (made_part (σ := σ) (i := 0) w0 rfl)
    (made_part (σ := σ) (i := 2) w2 l2) (made_part (σ := σ) (i := 1) w1 l1) (List.Perm.subperm (by decide))
  have h2 : Made swapMove.dst σ (Script.mult x y z).layer t := by rw [layer]; exact h2
  obtain ⟨h3, h4⟩ := made_moves s1 s4 hP.wf hmade h2
  exact ⟨t, h1, wf_built h2.wf, mOp_isAdd h1, h2.layer, h3, h4⟩

/-- A script of the root that is not a sum. -/
theorem ocean_one {s : Script} (hb : Built s) (hs : s.isAdd = false) (hl : s.layer = 4)
    (h : (∀ w, Den s w → Den oceanTable w) ∨ ∀ w, Den s w → Den oceanWord w) :
    ∃ t, ocean s = .ok (some t) ∧ Built t ∧ t.isAdd = false ∧ t.layer = 4 ∧ t.cardinal = s.cardinal ∧
      ∀ w', Den t w' ↔ ∃ w, Den s w ∧ OceanMoves w w' := by
  obtain ⟨-, -, bt, bw, l1, l2, n1, n2⟩ := ocean_parts
  cases s with
  | null l =>
    obtain rfl : l = 4 := hl
    rcases in_part bt hb with ⟨e, _⟩ | ⟨_, e⟩
    · rw [n1] at e; cases e
    rcases in_part bw hb with ⟨e', _⟩ | ⟨_, e'⟩
    · rw [n2] at e'; cases e'
    rcases h with h | h
    · exact absurd ⟨by rw [l1]; rfl, h⟩ e
    · exact absurd ⟨by rw [l2]; rfl, h⟩ e'
  | prim p => cases hl
  | add cs => cases hs
  | mult x y z =>
    have eo : ocean (.mult x y z) = oceanWith (.mult x y z) (.ok none) := by rw [ocean]
    obtain ⟨k1, k2, -⟩ := oceanWith_eq (.mult x y z) (.ok none)
    rcases in_part bt hb with ⟨e, _, hin⟩ | ⟨e, hout⟩
    · obtain ⟨t, h1, h2, h3, h4, h5⟩ := C104_moved_partial .rotate (σ := fun i => match i with | 0 => x | 1 => y | _ => z) hb trivial
        ⟨x, y, z, rfl, rfl, rfl, rfl⟩
      have h1 : rotateSc (.mult x y z) = .ok t := h1
      have h3 : t.layer = (Script.mult x y z).layer := h3
      rw [h3, hl] at h5
      refine ⟨t, by rw [eo, k1 e, h1]; rfl, h2, mOp_isAdd (a := some z) (b := some x) (c := some y) h1, by rw [h3, hl], h4, fun w' => ?_⟩
      rw [h5]
      constructor
      · rintro ⟨w, a, b⟩
        exact ⟨w, a, .inl ⟨hin w a, b⟩⟩
      · rintro ⟨w, a, ⟨_, b⟩ | ⟨b, _⟩⟩
        · exact ⟨w, a, b⟩
        · exact (ocean_disjoint (hin w a) b).elim
    · have hin : ∀ w, Den (.mult x y z) w → Den oceanWord w := by
        rcases h with h | h
        · exact absurd ⟨by rw [l1, hl], h⟩ hout
        · exact h
      have e' : contains oceanWord (.mult x y z) = .ok true := by
        rcases in_part bw hb with ⟨e', _⟩ | ⟨_, hout'⟩
        · exact e'
        · exact absurd ⟨by rw [l2, hl], hin⟩ hout'
      obtain ⟨t, h1, h2, h3, h4, h5, h6⟩ := swapped hb
      rw [hl] at h6
      refine ⟨t, by rw [eo, k2 e e', unpack_mult, ok_bind]; simp only [h1]; rfl, h2, h3, by rw [h4, hl], h5, fun w' => ?_⟩
      rw [h6]
      constructor
      · rintro ⟨w, a, b⟩
        exact ⟨w, a, .inr ⟨hin w a, b⟩⟩
      · rintro ⟨w, a, ⟨b, _⟩ | ⟨_, b⟩⟩
        · exact (ocean_disjoint b (hin w a)).elim
        · exact ⟨w, a, b⟩

/-- A script that is not a sum and not in the root. -/
theorem ocean_other {s : Script} (hb : Built s) (hs : s.isAdd = false)
    (h1 : ¬ (s.layer = 4 ∧ ∀ w, Den s w → Den oceanTable w)) (h2 : ¬ (s.layer = 4 ∧ ∀ w, Den s w → Den oceanWord w)) :
    ocean s = .ok none := by
  obtain ⟨-, -, bt, bw, l1, l2, -⟩ := ocean_parts
  obtain ⟨-, -, k3⟩ := oceanWith_eq s (.ok none)
  have e1 : contains oceanTable s = .ok false := by
    rcases in_part bt hb with ⟨_, e⟩ | ⟨e, _⟩
    · rw [l1] at e; exact absurd e h1
    · exact e
  have e2 : contains oceanWord s = .ok false := by
    rcases in_part bw hb with ⟨_, e⟩ | ⟨e, _⟩
    · rw [l2] at e; exact absurd e h2
    · exact e
  cases s with
  | add cs => cases hs
  | _ => rw [ocean, k3 e1 e2]

theorem oceans_mapM : ∀ cs : List Script, oceans cs = cs.mapM ocean
  | [] => rfl
  | c :: cs => by rw [oceans, List.mapM_cons, oceans_mapM cs]

theorem childFault_some (l : Nat) : ∀ ts : List Script, (ts.map some).findSome? (childFault l) =
    if ts.any (fun d => d.layer ≠ l) then some .incompatibleLayers else none
  | [] => rfl
  | t :: ts => by
    rw [List.map_cons, List.findSome?_cons, List.any_cons, childFault_some l ts]
    by_cases h : t.layer = l <;> simp [childFault, h]

/-- `AdditiveScript` of children none of which is `None`. -/
theorem mkAddOpt_some (ts : List Script) : mkAddOpt (ts.map some) = mkAdd ts := by
  cases ts with
  | nil => rfl
  | cons t ts =>
    have : (t :: ts).map some = some t :: ts.map some := rfl
    rw [this]
    unfold mkAddOpt
    simp only
    rw [← this, childFault_some]
    by_cases h : (t :: ts).any (fun d => d.layer ≠ t.layer) = true
    · rw [if_pos h, mkAdd, if_pos h]
    · rw [if_neg h]
      simp

/-- `AdditiveScript` of children of one layer and of `None`. -/
theorem mkAddOpt_none {ts : List (Option Script)} {l : Nat} (h : ∀ o ∈ ts, o = none ∨ ∃ t, o = some t ∧ t.layer = l)
    (hn : none ∈ ts) : mkAddOpt ts = .error .attributeError := by
  have key : ∀ {ts : List (Option Script)}, (∀ o ∈ ts, o = none ∨ ∃ t, o = some t ∧ t.layer = l) → none ∈ ts →
      ts.findSome? (childFault l) = some .attributeError := by
    intro ts
    induction ts with
    | nil => intro _ h; cases h
    | cons o ts ih =>
      intro h hn
      rw [List.findSome?_cons]
      rcases h o (by simp) with rfl | ⟨t, rfl, ht⟩
      · rfl
      · simp only [childFault, ht, ne_eq, not_true_eq_false, if_false]
        exact ih (fun o ho => h o (by simp [ho])) (by simpa using hn)
  cases ts with
  | nil => cases hn
  | cons o ts =>
    rcases h o (by simp) with rfl | ⟨t, rfl, ht⟩
    · rfl
    · unfold mkAddOpt
      simp only [ht]
      rw [key h hn]

/-- **C113, the ocean, what holds.** A script of the old root that is not a sum, or a sum of such scripts that is in none
of the two parts of the root, is moved: the new script has the layer of the old one and its words are exactly the old ones,
those of the table rotated and the others with their last two roles exchanged.  Missing: sums within one part of the root
(`C113_ocean_sum_refused`, `C113_violated`). -/
theorem C113_ocean_partial {s : Script} (hb : Built s) (hl : s.layer = 4)
    (hin : ∀ c ∈ (if s.isAdd then s.children else [s]), (∀ w, Den c w → Den oceanTable w) ∨ ∀ w, Den c w → Den oceanWord w)
    (hsum : s.isAdd = true → ¬ (∀ w, Den s w → Den oceanTable w) ∧ ¬ ∀ w, Den s w → Den oceanWord w) :
    ∃ t, ocean s = .ok (some t) ∧ Built t ∧ t.layer = 4 ∧ ∀ w', Den t w' ↔ ∃ w, Den s w ∧ OceanMoves w w' := by
  cases hs : s.isAdd with
  | false =>
    rw [hs] at hin
    obtain ⟨t, h1, h2, _, h3, _, h4⟩ := ocean_one hb hs hl (hin s (by simp))
    exact ⟨t, h1, h2, h3, h4⟩
  | true =>
    cases s with
    | add cs =>
      rw [hs] at hin
      obtain ⟨n1, n2⟩ := hsum hs
      obtain ⟨-, -, bt, bw, l1, l2, -⟩ := ocean_parts
      have e1 : contains oceanTable (.add cs) = .ok false := by
        rcases in_part bt hb with ⟨_, _, e⟩ | ⟨e, _⟩
        · exact absurd e n1
        · exact e
      have e2 : contains oceanWord (.add cs) = .ok false := by
        rcases in_part bw hb with ⟨_, _, e⟩ | ⟨e, _⟩
        · exact absurd e n2
        · exact e
      have hw := built_wf hb
      let f : Script → Except Err Script := fun c => match ocean c with
        | .ok (some t) => .ok t
        | .ok none => .error .attributeError
        | .error e => .error e
      obtain ⟨t, h1, h2, h3, -, h4⟩ := moved_sum (f := f) (l := 4) (R := OceanMoves) hw (by
        intro c hc
        cases hw with
        | add _ hcw hlc hna _ _ _ =>
          obtain ⟨t, h1, h2⟩ := ocean_one (wf_built (hcw c hc)) (hna c hc) (by rw [hlc c hc, hl]) (hin c hc)
          exact ⟨t, by simp only [f, h1], h2⟩)
      refine ⟨t, ?_, h2, h3, h4⟩
      rw [ocean, (oceanWith_eq _ _).2.2 e1 e2, oceans_mapM]
      cases hts : cs.mapM f with
      | error e => rw [hts] at h1; cases h1
      | ok ts =>
        rw [hts, ok_bind] at h1
        have hmap : cs.mapM ocean = .ok (ts.map some) := by
          have hf := mapM_inv hts
          clear hts h1 h4 e1 e2 n1 n2 hin hsum hs hl hb hw
          induction hf with
          | nil => rfl
          | @cons c t cs ts h _ ih =>
            have hc : ocean c = .ok (some t) := by
              simp only [f] at h
              split at h
              · rename_i e; cases h; exact e
              · cases h
              · cases h
            rw [List.mapM_cons, hc, ok_bind, ih, ok_bind]
            rfl
        rw [hmap, ok_bind, mkAddOpt_some, h1]
        rfl
    | _ => cases hs

/-- **C113, the ocean, sums within one part.** A sum within one of the two parts of the root that does not have exactly
three terms raises `ValueError`. -/
theorem C113_ocean_sum_refused {cs : List Script} (hb : Built (.add cs)) (hl : (Script.add cs).layer = 4) (h3 : cs.length ≠ 3)
    (h : (∀ w, Den (.add cs) w → Den oceanTable w) ∨ ∀ w, Den (.add cs) w → Den oceanWord w) :
    ocean (.add cs) = .error .valueError := by
  obtain ⟨-, -, bt, bw, l1, l2, -⟩ := ocean_parts
  have hu : unpack (.add cs) = .error .valueError := by
    unfold unpack
    split
    · rename_i x y z he
      simp only [iter, children] at he
      exact absurd (by rw [he]; rfl) h3
    · rfl
  rw [ocean]
  rcases in_part bt hb with ⟨e, _⟩ | ⟨e, hout⟩
  · rw [(oceanWith_eq _ _).1 e, rotateSc, hu]
    rfl
  · have hin : ∀ w, Den (.add cs) w → Den oceanWord w := by
      rcases h with h | h
      · exact absurd ⟨by rw [l1, hl], h⟩ hout
      · exact h
    have e' : contains oceanWord (.add cs) = .ok true := by
      rcases in_part bw hb with ⟨e', _⟩ | ⟨_, hout'⟩
      · exact e'
      · exact absurd ⟨by rw [l2, hl], hin⟩ hout'
    rw [(oceanWith_eq _ _).2.1 e e', hu]
    rfl

/-- **C113, the ocean, other scripts.** A script that is not a sum and is in none of the two parts gives `None`; a sum with
such a term, in none of the two parts, raises `AttributeError`. -/
theorem C113_ocean_other {s : Script} (hb : Built s)
    (h : ∃ c ∈ (if s.isAdd then s.children else [s]), ¬ (c.layer = 4 ∧ ∀ w, Den c w → Den oceanTable w) ∧
      ¬ (c.layer = 4 ∧ ∀ w, Den c w → Den oceanWord w)) :
    ocean s = if s.isAdd then .error .attributeError else .ok none := by
  cases hs : s.isAdd with
  | false =>
    rw [hs] at h
    obtain ⟨c, hc, h1, h2⟩ := h
    obtain rfl : c = s := by simpa using hc
    exact ocean_other hb hs h1 h2
  | true =>
    cases s with
    | add cs =>
      rw [hs] at h
      obtain ⟨c, hc, h1, h2⟩ := h
      have hc : c ∈ cs := hc
      obtain ⟨-, -, bt, bw, l1, l2, -⟩ := ocean_parts
      have hw := built_wf hb
      cases hw with
      | add _ hcw hlc hna _ _ _ =>
        have e1 : contains oceanTable (.add cs) = .ok false := by
          rcases in_part bt hb with ⟨_, hl, e⟩ | ⟨e, _⟩
          · exact absurd ⟨by rw [hlc c hc, hl, l1], fun w hw => e w (den_add.2 ⟨c, hc, hw⟩)⟩ h1
          · exact e
        have e2 : contains oceanWord (.add cs) = .ok false := by
          rcases in_part bw hb with ⟨_, hl, e⟩ | ⟨e, _⟩
          · exact absurd ⟨by rw [hlc c hc, hl, l2], fun w hw => e w (den_add.2 ⟨c, hc, hw⟩)⟩ h2
          · exact e
        have each : ∀ d ∈ cs, ∃ o, ocean d = .ok o ∧ (o = none ∨ ∃ t, o = some t ∧ t.layer = 4) := by
          intro d hd
          by_cases k1 : d.layer = 4 ∧ ∀ w, Den d w → Den oceanTable w
          · obtain ⟨t, g1, _, _, g2, _⟩ := ocean_one (wf_built (hcw d hd)) (hna d hd) k1.1 (.inl k1.2)
            exact ⟨_, g1, .inr ⟨t, rfl, g2⟩⟩
          · by_cases k2 : d.layer = 4 ∧ ∀ w, Den d w → Den oceanWord w
            · obtain ⟨t, g1, _, _, g2, _⟩ := ocean_one (wf_built (hcw d hd)) (hna d hd) k2.1 (.inr k2.2)
              exact ⟨_, g1, .inr ⟨t, rfl, g2⟩⟩
            · exact ⟨_, ocean_other (wf_built (hcw d hd)) (hna d hd) k1 k2, .inl rfl⟩
        obtain ⟨ts, e⟩ := mapM_total fun d hd => (each d hd).imp fun _ h => h.1
        have hf := mapM_inv e
        rw [ocean, (oceanWith_eq _ _).2.2 e1 e2, oceans_mapM, e, ok_bind, mkAddOpt_none (l := 4)]
        · rfl
        · intro o ho
          obtain ⟨d, hd, hdo⟩ := forall₂_mem_right hf ho
          obtain ⟨o', g1, g2⟩ := each d hd
          rw [hdo, Except.ok.injEq] at g1
          subst g1
          exact g2
        · obtain ⟨o, ho, hdo⟩ := forall₂_mem_left hf hc
          rw [ocean_other (wf_built (hcw c hc)) (hna c hc) h1 h2, Except.ok.injEq] at hdo
          rw [hdo]
          exact ho
    | _ => cases hs

/-- The text of the script that `translate_ocean` makes of a text. -/
def oceanText (t : Str) : Except Err (Option Str) := do pure ((← ocean (← parseScript t)).map str)

/-- **C113 is violated**: the diagonals of the table of the ocean are sums within the table; with two terms the rule raises
`ValueError`, with three it takes the sum for a product and returns a script of another layer. -/
theorem C113_violated :
    (∃ s, parseScript (c!"S:.-'S:.-'n.-T:.A:.-',+B:.-'B:.-'n.-T:.A:.-',") = .ok s ∧ Built s ∧ contains oceanTable s = .ok true ∧
      ocean s = .error .valueError) ∧
    ∃ s t, parseScript (c!"S:.-'S:.-'n.-T:.A:.-',+B:.-'B:.-'n.-T:.A:.-',+T:.-'T:.-'n.-T:.A:.-',") = .ok s ∧ Built s ∧
      contains oceanTable s = .ok true ∧ ocean s = .ok (some t) ∧ t.layer = s.layer + 1 := by
  refine ⟨⟨readScript (c!"S:.-'S:.-'n.-T:.A:.-',+B:.-'B:.-'n.-T:.A:.-',"), by decide +kernel, built_of (by decide +kernel),
    by decide +kernel, by decide +kernel⟩,
    readScript (c!"S:.-'S:.-'n.-T:.A:.-',+B:.-'B:.-'n.-T:.A:.-',+T:.-'T:.-'n.-T:.A:.-',"),
    readScript (c!"T:.-'T:.-'n.-T:.A:.-',S:.-'S:.-'n.-T:.A:.-',B:.-'B:.-'n.-T:.A:.-',_"), by decide +kernel,
    built_of (by decide +kernel), by decide +kernel, by decide +kernel, by decide +kernel⟩

-- The comment above `translate_ocean`.
example : oceanText (c!"s.-S:.U:.-'l.-S:.O:.-'n.-T:.A:.-',+M:.-'M:.-'n.-T:.A:.-',") =
    .ok (some (c!"s.-S:.U:.-'n.-T:.A:.-'l.-S:.O:.-',+n.-T:.A:.-'M:.-'M:.-',")) := by decide +kernel
-- Scripts outside the root.
example : oceanText (c!"M:.-'M:.-'M:.-',") = .ok none ∧
    oceanText (c!"M:.-'M:.-'M:.-',+M:.-'M:.-'n.-T:.A:.-',") = .error .attributeError := by decide +kernel
-- The comments of the other rules, and the way back.
example : ruleText removeFAdditive (c!"i.f.B:.-+u.f.M:.-O:.-'") = .ok (c!"i.B:.-+u.M:.-O:.-'") ∧
    ruleText (fun s => do removeFAdditive (← insertFAdditive s)) (c!"i.B:.-+u.M:.-O:.-'") = .ok (c!"i.B:.-+u.M:.-O:.-'") ∧
    ruleText visualForms (c!"s.u.-'O:M:.-'O:.-',+s.u.-'M:O:.-O:.-'M:.-',") =
      .ok (c!"b.-S:.U:.-'O:M:.-'O:.-',+b.-S:.U:.-'M:O:.-O:.-'M:.-',") := by decide +kernel
-- Scripts that meet the hypotheses of `C113_back`: a sum in the substance, before and after the insertion.
example : let r (t : Str) : Script := readScript t
    let x := Script.add [.mult (r (c!"i.")) (r (c!"B:.")) (.null 1), .mult (r (c!"u.")) (r (c!"M:.")) (.null 1)]
    let x' := Script.add [.mult (r (c!"i.")) (r (c!"f.")) (r (c!"B:.")), .mult (r (c!"u.")) (r (c!"f.")) (r (c!"M:."))]
    let y := r (c!"O:.-")
    Built (.mult x y (.null 2)) ∧ (Script.mult x y (.null 2)).layer = 3 ∧
      (∀ c ∈ (if x.isAdd then x.children else [x]), ∃ σ, (Rule.move .insertAttrF).src.Matches σ c) ∧
      insertFAdditive (.mult x y (.null 2)) = .ok (.mult x' y (.null 2)) ∧
      ∀ c ∈ (if x'.isAdd then x'.children else [x']), ∃ σ, (Rule.move .removeAttrF).src.Matches σ c := by
  intro r x x' y
  refine ⟨built_of (by decide +kernel), by decide +kernel, ?_, by decide +kernel, ?_⟩
  · intro c hc
    have hc : c ∈ x.children := hc
    simp only [x, children, List.mem_cons, List.not_mem_nil, or_false] at hc
    rcases hc with rfl | rfl
    · exact ⟨fun i => if i = 0 then r (c!"i.") else r (c!"B:."), _, _, _, rfl, rfl, rfl, 1, rfl⟩
    · exact ⟨fun i => if i = 0 then r (c!"u.") else r (c!"M:."), _, _, _, rfl, rfl, rfl, 1, rfl⟩
  · intro c hc
    have hc : c ∈ x'.children := hc
    simp only [x', children, List.mem_cons, List.not_mem_nil, or_false] at hc
    rcases hc with rfl | rfl
    · exact ⟨fun i => if i = 0 then r (c!"i.") else r (c!"B:."), _, _, _, rfl, rfl, rfl, rfl⟩
    · exact ⟨fun i => if i = 0 then r (c!"u.") else r (c!"M:."), _, _, _, rfl, rfl, rfl, rfl⟩

end Verif
