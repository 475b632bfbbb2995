import Verif.Spec.Rules
import Verif.Lemmas.Layout

/-
The rules of `scripts/dictionary_tools.py`, one by one.
-/

namespace Verif
open Script Layout


/-- The text can be read as a script with one word. -/
def fixOk (t : Str) (l : Nat) : Bool :=
  match parseScript t with
  | .ok c => wfb c && c.cardinal == 1 && c.layer == l
  | .error _ => false

theorem fix_of {t : Str} {l : Nat} (h : fixOk t l = true) :
    ∃ c, parseScript t = .ok c ∧ fixedOf t = .fixed c ∧ WF c ∧ c.cardinal = 1 ∧ c.layer = l := by
  unfold fixOk at h
  split at h
  · rename_i c hc
    simp only [Bool.and_eq_true, beq_iff_eq] at h
    exact ⟨c, hc, by rw [fixedOf, hc]; rfl, wfb_sound h.1.1, h.1.2, h.2⟩
  · cases h

theorem fix_sound {t : Str} {l : Nat} (h : fixOk t l = true) : (fixedOf t).Sound := by
  obtain ⟨c, _, h2, h3, h4, _⟩ := fix_of h
  rw [h2]; exact ⟨h3, h4⟩

theorem rule_sound (r : Rule) : r.move.src.Sound ∧ r.move.dst.Sound := by
  have h1 := fix_sound (t := c!"t.") (l := 1) (by decide +kernel)
  have h2 := fix_sound (t := c!"f.") (l := 1) (by decide +kernel)
  have h3 := fix_sound (t := c!"t.x.-s.y.-'") (l := 3) (by decide +kernel)
  have h4 := fix_sound (t := c!"t.-x.-s.y.-'") (l := 3) (by decide +kernel)
  have h5 := fix_sound (t := c!"B:.T:.n.-") (l := 2) (by decide +kernel)
  have h6 := fix_sound (t := c!"s.") (l := 1) (by decide +kernel)
  have h7 := fix_sound (t := c!"we.h.-") (l := 2) (by decide +kernel)
  have h8 := fix_sound (t := c!"s.o.-k.o.-'") (l := 3) (by decide +kernel)
  have h9 := fix_sound (t := c!"s.u.-'") (l := 3) (by decide +kernel)
  have h10 := fix_sound (t := c!"b.-S:.U:.-'") (l := 3) (by decide +kernel)
  cases r <;> simp [Rule.move, Layout.Sound, h1, h2, h3, h4, h5, h6, h7, h8, h9, h10]

theorem parts_fixedOf (t : Str) : (fixedOf t).parts = [] := rfl

theorem rule_parts (r : Rule) : r.move.src.parts.Nodup ∧ r.move.src.parts.Perm r.move.dst.parts := by
  cases r <;> simp only [Rule.move, Layout.parts, parts_fixedOf] <;> decide

theorem wf_mult_roles {x y z : Script} (h : WF (mult x y z)) :
    WF x ∧ WF y ∧ WF z ∧ y.layer = x.layer ∧ z.layer = x.layer ∧ x.layer ≤ 5 := by
  cases h with
  | mult h1 h2 h3 h4 h5 h6 _ _ _ _ => exact ⟨h1, h2, h3, h4, h5, h6⟩

/-- Some of the parts, each once. -/
local macro "sp" : tactic =>
  `(tactic| (simp only [Layout.parts, List.nil_append, List.append_nil, List.cons_append]; decide))

theorem unpack_mult (x y z : Script) : unpack (mult x y z) = .ok (x, y, z) := rfl
theorem childAt_mult0 (x y z : Script) : childAt (mult x y z) 0 = .ok x := rfl
theorem childAt_mult1 (x y z : Script) : childAt (mult x y z) 1 = .ok y := rfl
theorem assert_null (l : Nat) : assertThat (null l).isNull = .ok () := rfl
theorem assert_null2 (l k : Nat) : assertThat ((null l).isNull && (null k).isNull) = .ok () := rfl
theorem ok_bind {α β : Type} (a : α) (f : α → Except Err β) : (Except.ok a >>= f) = f a := rfl

/-- Running through a rule. -/
local macro "go" "[" ls:Lean.Parser.Tactic.simpLemma,* "]" : tactic =>
  `(tactic| simp only [Rule.run, unpack_mult, childAt_mult0, childAt_mult1, assert_null, assert_null2, ok_bind, $ls,*])

theorem rotate_made {P : List Nat} {σ : Nat → Script} {p q r : Layout} {l : Nat} {x y z : Script} (hP : Parts P σ) (hl : l ≤ 5)
    (hp : Made p σ l x) (hq : Made q σ l y) (hr : Made r σ l z) (hs : (r.parts ++ p.parts ++ q.parts).Subperm P) :
    ∃ t, rotateSc (mult x y z) = .ok t ∧ Made (.node r p q) σ (l + 1) t := by
  obtain ⟨t, h1, h2⟩ := made_three hP hl hr hp hq hs
  exact ⟨t, by go [rotateSc, h1], h2⟩

/-- What a rule makes. -/
def RuleMade (r : Rule) : Prop := ∀ {σ : Nat → Script} {s : Script}, WF s → r.LayerOk s.layer → Parts r.move.src.parts σ →
    r.move.src.Matches σ s → ∃ t, r.run s = .ok t ∧ Made r.move.dst σ (r.layerOf s.layer) t

theorem made_rotate : RuleMade .rotate := by
  intro σ s hw hl hP hm
  replace hP : Parts [0, 1, 2] σ := hP
  obtain ⟨_, _, _, rfl, rfl, rfl, rfl⟩ := hm
  obtain ⟨w0, w1, w2, l1, l2, l5⟩ := wf_mult_roles hw
  exact rotate_made hP l5 (made_part w0 rfl) (made_part w1 l1) (made_part w2 l2) (by sp)

theorem made_doubleRotate : RuleMade .doubleRotate := by
  intro σ s hw hl hP hm
  replace hP : Parts [0, 1, 2, 3, 4] σ := hP
  obtain ⟨_, _, _, rfl, rfl, rfl, _, _, _, rfl, rfl, rfl, rfl⟩ := hm
  obtain ⟨w0, w1, wm, l1, lm, l5⟩ := wf_mult_roles hw
  obtain ⟨w2, w3, w4, l3, l4, l5'⟩ := wf_mult_roles wm
  obtain ⟨x, e1, m1⟩ := rotate_made hP l5' (made_part w2 rfl) (made_part w3 l3) (made_part w4 l4) (by sp)
  rw [layer] at lm
  obtain ⟨t, e2, m2⟩ := made_three hP (by omega) m1 (made_part w0 lm.symm) (made_part w1 (by omega)) (by sp)
  refine ⟨t, by go [Script.doubleRotate, e1, e2], ?_⟩
  rw [lm] at m2
  exact m2

theorem made_splitSubst : RuleMade .splitSubst := by
  intro σ s hw hl hP hm
  replace hP : Parts [0, 1, 2] σ := hP
  obtain ⟨_, _, _, rfl, ⟨_, _, _, rfl, rfl, rfl, ⟨_, rfl⟩⟩, rfl, ⟨_, rfl⟩⟩ := hm
  obtain ⟨ws, w2, _, l2, _, l5⟩ := wf_mult_roles hw
  obtain ⟨w0, w1, _, l1, _, l5'⟩ := wf_mult_roles ws
  rw [layer] at l2
  obtain ⟨x, e1, m1⟩ := made_one hP l5' (made_part w0 rfl) (by sp)
  obtain ⟨y, e2, m2⟩ := made_one hP l5' (made_part w1 l1) (by sp)
  obtain ⟨t, e3, m3⟩ := made_three hP (by rw [layer] at l5; exact l5) m1 m2 (made_part w2 l2) (by sp)
  exact ⟨t, by go [Script.splitSubst, e1, e2, e3], m3⟩

theorem made_promoteAndSplit : RuleMade .promoteAndSplit := by
  intro σ s hw hl hP hm
  replace hP : Parts [0, 1, 2, 3] σ := hP
  obtain ⟨_, _, _, rfl, ⟨_, _, _, rfl, rfl, rfl, ⟨_, rfl⟩⟩, rfl, rfl⟩ := hm
  obtain ⟨ws, w2, w3, l2, l3, l5⟩ := wf_mult_roles hw
  obtain ⟨w0, w1, _, l1, _, l5'⟩ := wf_mult_roles ws
  simp only [layer, Rule.LayerOk] at l2 l3 l5 hl
  obtain ⟨x, e1, m1⟩ := made_one hP l5' (made_part w0 rfl) (by sp)
  obtain ⟨x', e1', m1'⟩ := made_one hP (by omega) m1 (by sp)
  obtain ⟨y, e2, m2⟩ := made_one hP l5' (made_part w1 l1) (by sp)
  obtain ⟨y', e2', m2'⟩ := made_two hP (by omega) m2 (made_part w2 l2) (by sp)
  obtain ⟨z, e3, m3⟩ := made_one hP (by omega) (made_part w3 l3) (by sp)
  obtain ⟨t, e4, m4⟩ := made_three hP (by omega) m1' m2' m3 (by sp)
  exact ⟨t, by go [Script.promoteAndSplit, e1, e1', e2, e2', e3, e4], m4⟩

theorem made_transferSubstance : RuleMade .transferSubstance := by
  intro σ s hw hl hP hm
  replace hP : Parts [0, 1, 2, 3] σ := hP
  obtain ⟨_, _, _, rfl, ⟨_, _, _, rfl, ⟨_, _, _, rfl, rfl, rfl, ⟨_, rfl⟩⟩, ⟨_, rfl⟩, ⟨_, rfl⟩⟩,
    ⟨_, _, _, rfl, rfl, ⟨_, rfl⟩, ⟨_, rfl⟩⟩, rfl⟩ := hm
  obtain ⟨ws, wa, w3, la, l3, l5⟩ := wf_mult_roles hw
  obtain ⟨wss, _, _, _, _, _⟩ := wf_mult_roles ws
  obtain ⟨w0, w1, _, l1, _, l5'⟩ := wf_mult_roles wss
  obtain ⟨w2, _, _, _, _, _⟩ := wf_mult_roles wa
  simp only [layer] at la l3 l5
  obtain ⟨x, e1, m1⟩ := made_one hP l5' (made_part w0 rfl) (by sp)
  obtain ⟨x', e1', m1'⟩ := made_one hP (by omega) m1 (by sp)
  obtain ⟨y, e2, m2⟩ := made_one hP l5' (made_part w1 l1) (by sp)
  obtain ⟨y', e2', m2'⟩ := made_two hP (by omega) m2 (made_part w2 (by omega)) (by sp)
  obtain ⟨t, e4, m4⟩ := made_three hP (by omega) m1' m2' (made_part w3 l3) (by sp)
  exact ⟨t, by go [Script.transferSubstance, e1, e1', e2, e2', e4], m4⟩

theorem made_addModeT : RuleMade .addModeT := by
  intro σ s hw hl hP hm
  replace hP : Parts [0, 1] σ := hP
  obtain ⟨_, _, _, rfl, rfl, rfl, ⟨_, rfl⟩⟩ := hm
  obtain ⟨w0, w1, _, l1, _, l5⟩ := wf_mult_roles hw
  obtain ⟨c, hc, hf, wc, c1, lc⟩ := fix_of (t := c!"t.") (l := 1) (by decide +kernel)
  simp only [layer, Rule.LayerOk] at hl
  have mc := made_fixed (σ := σ) wc c1 wc rfl
  rw [lc, show 1 = (σ 0).layer by omega] at mc
  obtain ⟨t, e, m⟩ := made_three hP l5 (made_part w0 rfl) (made_part w1 l1) mc (by sp)
  refine ⟨t, by go [Script.addModeT, hc, e], ?_⟩
  simp only [Rule.move, hf]
  exact m

theorem made_insertAttrF : RuleMade .insertAttrF := by
  intro σ s hw hl hP hm
  replace hP : Parts [0, 1] σ := hP
  obtain ⟨_, _, _, rfl, rfl, rfl, ⟨_, rfl⟩⟩ := hm
  obtain ⟨w0, w1, _, l1, _, l5⟩ := wf_mult_roles hw
  obtain ⟨c, hc, hf, wc, c1, lc⟩ := fix_of (t := c!"f.") (l := 1) (by decide +kernel)
  simp only [layer, Rule.LayerOk] at hl
  have mc := made_fixed (σ := σ) wc c1 wc rfl
  rw [lc, show 1 = (σ 0).layer by omega] at mc
  obtain ⟨t, e, m⟩ := made_three hP l5 (made_part w0 rfl) mc (made_part w1 l1) (by sp)
  refine ⟨t, by go [Script.insertAttrF, hc, e], ?_⟩
  simp only [Rule.move, hf]
  exact m

theorem made_fixTypo : RuleMade .fixTypo := by
  intro σ s hw hl hP hm
  replace hP : Parts [0, 1] σ := hP
  obtain ⟨_, _, _, rfl, rfl, rfl, -⟩ := hm
  obtain ⟨w0, w1, _, l1, _, l5⟩ := wf_mult_roles hw
  obtain ⟨c, hc, hf, wc, c1, lc⟩ := fix_of (t := c!"t.-x.-s.y.-'") (l := 3) (by decide +kernel)
  simp only [layer, Rule.LayerOk] at hl
  have mc := made_fixed (σ := σ) wc c1 wc rfl
  rw [lc, show 3 = (σ 0).layer by omega] at mc
  obtain ⟨t, e, m⟩ := made_three hP l5 (made_part w0 rfl) (made_part w1 l1) mc (by sp)
  refine ⟨t, by go [Script.fixTypo, hc, e], ?_⟩
  simp only [Rule.move, hf]
  exact m

theorem level3_made {P : List Nat} {σ : Nat → Script} (hP : Parts P σ) {a b c d e i j k k' : Nat}
    (hw : WF (mult (σ a) (mult (σ b) (mult (σ c) (null i) (null j)) (mult (σ d) (null k) (null k'))) (σ e)))
    (hs : [a, b, c, d, e].Subperm P) :
    ∃ t, bodyLevel3 (mult (σ a) (mult (σ b) (mult (σ c) (null i) (null j)) (mult (σ d) (null k) (null k'))) (σ e)) = .ok t ∧
      Made (.node (part a) (Rule.n2 (part b) (Rule.n2 (part c) (part d))) (part e)) σ ((σ a).layer + 1) t := by
  obtain ⟨wa, wx, we, lx, le, l5⟩ := wf_mult_roles hw
  obtain ⟨wb, wy, wz, ly, lz, _⟩ := wf_mult_roles wx
  obtain ⟨wc, _, _, _, _, _⟩ := wf_mult_roles wy
  obtain ⟨wd, _, _, _, _, _⟩ := wf_mult_roles wz
  simp only [layer] at lx ly lz
  have s1 : [c, d].Subperm P := (List.Sublist.subperm (by simp)).trans hs
  have s2 : [b, c, d].Subperm P := (List.Sublist.subperm (by simp)).trans hs
  obtain ⟨x1, e1, m1⟩ := made_two hP (by omega) (made_part wc rfl) (made_part wd (by omega)) s1
  obtain ⟨x2, e2, m2⟩ := made_two hP (by omega) (made_part wb ly.symm) m1 s2
  rw [show (σ c).layer + 1 + 1 = (σ a).layer by omega] at m2
  obtain ⟨x3, e3, m3⟩ := made_three hP l5 (made_part wa rfl) m2 (made_part we le) hs
  exact ⟨x3, by go [bodyLevel3, e1, e2, e3], m3⟩

theorem made_bodyParts : RuleMade .bodyParts := by
  intro σ s hw hl hP hm
  replace hP : Parts [0, 1, 2, 3, 4, 5, 6, 7, 8, 9, 10] σ := hP
  obtain ⟨x0, y0, z0, rfl, rfl, ⟨s3, a3, z1, rfl, h1, h2, ⟨_, rfl⟩⟩, ⟨_, rfl⟩⟩ := hm
  obtain ⟨_, _, _, rfl, rfl, ⟨_, _, _, rfl, rfl, ⟨_, _, _, rfl, rfl, ⟨_, rfl⟩, ⟨_, rfl⟩⟩, ⟨_, _, _, rfl, rfl, ⟨_, rfl⟩, ⟨_, rfl⟩⟩⟩, rfl⟩ := h1
  obtain ⟨_, _, _, rfl, rfl, ⟨_, _, _, rfl, rfl, ⟨_, _, _, rfl, rfl, ⟨_, rfl⟩, ⟨_, rfl⟩⟩, ⟨_, _, _, rfl, rfl, ⟨_, rfl⟩, ⟨_, rfl⟩⟩⟩, rfl⟩ := h2
  obtain ⟨w0, wa, _, la, _, l5⟩ := wf_mult_roles hw
  obtain ⟨wb, wc, _, lb, _, l5'⟩ := wf_mult_roles wa
  simp only [layer] at la lb l5'
  obtain ⟨x, e1, m1⟩ := level3_made hP wb (by decide)
  obtain ⟨y, e2, m2⟩ := level3_made hP wc (by decide)
  rw [lb] at m2
  obtain ⟨z, e3, m3⟩ := made_two hP l5' m1 m2 (by sp)
  rw [la] at m3
  obtain ⟨t, e4, m4⟩ := made_two hP l5 (made_part w0 rfl) m3 (by sp)
  exact ⟨t, by go [Script.bodyParts, e1, e2, e3, e4], m4⟩

theorem made_removeAttrF : RuleMade .removeAttrF := by
  intro σ s hw hl hP hm
  replace hP : Parts [0, 1] σ := hP
  obtain ⟨_, _, _, rfl, rfl, -, rfl⟩ := hm
  obtain ⟨w0, _, w1, _, l1, l5⟩ := wf_mult_roles hw
  obtain ⟨t, e, m⟩ := made_two hP l5 (made_part w0 rfl) (made_part w1 l1) (by sp)
  exact ⟨t, by go [Script.removeAttrF, e], m⟩

theorem made_competence : RuleMade .competence := by
  intro σ s hw hl hP hm
  replace hP : Parts [0, 1, 2, 3, 4] σ := hP
  obtain ⟨_, _, _, rfl, ⟨_, _, _, rfl, ⟨_, _, _, rfl, ⟨_, _, _, rfl, rfl, ⟨_, rfl⟩, ⟨_, rfl⟩⟩, ⟨_, rfl⟩, ⟨_, rfl⟩⟩, rfl, ⟨_, rfl⟩⟩,
    ⟨_, _, _, rfl, ⟨_, _, _, rfl, ⟨_, _, _, rfl, rfl, ⟨_, rfl⟩, ⟨_, rfl⟩⟩, ⟨_, rfl⟩, ⟨_, rfl⟩⟩, rfl, ⟨_, rfl⟩⟩, rfl⟩ := hm
  obtain ⟨ws, wa, w4, la, l4, l5⟩ := wf_mult_roles hw
  obtain ⟨ws1, w1, _, l1, _, _⟩ := wf_mult_roles ws
  obtain ⟨wa1, w3, _, l3, _, _⟩ := wf_mult_roles wa
  obtain ⟨ws2, _, _, _, _, _⟩ := wf_mult_roles ws1
  obtain ⟨w0, _, _, _, _, _⟩ := wf_mult_roles ws2
  obtain ⟨wa2, _, _, _, _, _⟩ := wf_mult_roles wa1
  obtain ⟨w2, _, _, _, _, _⟩ := wf_mult_roles wa2
  simp only [layer, Rule.LayerOk] at la l4 l5 l1 l3 hl
  obtain ⟨x1, e1, m1⟩ := made_one hP (by omega) (made_part w3 rfl) (by sp)
  obtain ⟨x2, e2, m2⟩ := made_two hP (by omega) (made_part w4 (by omega)) m1 (by sp)
  obtain ⟨y1, f1, n1⟩ := made_two hP (by omega) (made_part w0 rfl) (made_part w2 (by omega)) (by sp)
  obtain ⟨y2, f2, n2⟩ := made_one hP (by omega) n1 (by sp)
  obtain ⟨y3, f3, n3⟩ := made_one hP (by omega) n2 (by sp)
  obtain ⟨y4, f4, n4⟩ := made_one hP (by omega) n3 (by sp)
  obtain ⟨z1, g1, o1⟩ := made_one hP (by omega) (made_part w1 rfl) (by sp)
  obtain ⟨z2, g2, o2⟩ := made_one hP (by omega) o1 (by sp)
  rw [show (σ 3).layer = (σ 0).layer + 1 + 1 by omega] at m2
  rw [show (σ 1).layer = (σ 0).layer + 1 + 1 by omega] at o2
  obtain ⟨t, g3, o3⟩ := made_three hP (by omega) m2 n4 o2 (by sp)
  exact ⟨t, by go [Script.competence, e1, e2, f1, f2, f3, f4, g1, g2, g3], o3⟩

theorem made_noetic : RuleMade .noetic := by
  intro σ s hw hl hP hm
  replace hP : Parts [0, 1, 2, 3] σ := hP
  obtain ⟨_, _, _, rfl, ⟨_, _, _, rfl, ⟨_, _, _, rfl, rfl, ⟨_, rfl⟩, ⟨_, rfl⟩⟩, ⟨_, _, _, rfl, rfl, ⟨_, rfl⟩, ⟨_, rfl⟩⟩, ⟨_, rfl⟩⟩,
    ⟨_, _, _, rfl, ⟨_, _, _, rfl, rfl, ⟨_, rfl⟩, ⟨_, rfl⟩⟩, ⟨_, _, _, rfl, rfl, ⟨_, rfl⟩, ⟨_, rfl⟩⟩, ⟨_, rfl⟩⟩, -⟩ := hm
  obtain ⟨ws, wa, _, la, _, l5⟩ := wf_mult_roles hw
  obtain ⟨ws0, ws1, _, ls, _, _⟩ := wf_mult_roles ws
  obtain ⟨wa0, wa1, _, la', _, _⟩ := wf_mult_roles wa
  obtain ⟨w0, _, _, _, _, _⟩ := wf_mult_roles ws0
  obtain ⟨w1, _, _, _, _, _⟩ := wf_mult_roles ws1
  obtain ⟨w2, _, _, _, _, _⟩ := wf_mult_roles wa0
  obtain ⟨w3, _, _, _, _, _⟩ := wf_mult_roles wa1
  obtain ⟨c, hc, hf, wc, c1, lc⟩ := fix_of (t := c!"s.") (l := 1) (by decide +kernel)
  simp only [layer, Rule.LayerOk] at la ls la' hl
  have mc := made_fixed (σ := σ) wc c1 wc rfl
  rw [lc, show 1 = (σ 0).layer + 1 by omega] at mc
  obtain ⟨y, e1, m1⟩ := made_two hP (by omega) (made_part w0 rfl) (made_part w1 (by omega)) (by sp)
  obtain ⟨z, e2, m2⟩ := made_two hP (by omega) (made_part w2 (show _ = (σ 0).layer by omega)) (made_part w3 (by omega)) (by sp)
  obtain ⟨t, e3, m3⟩ := made_three hP (by omega) mc m1 m2 (by sp)
  refine ⟨t, by go [Script.noetic, hc, e1, e2, e3], ?_⟩
  simp only [Rule.move, hf, Rule.layerOf, layer]
  exact m3

theorem made_tisse : RuleMade .tisse := by
  intro σ s hw hl hP hm
  replace hP : Parts [0, 1] σ := hP
  obtain ⟨_, _, _, rfl, rfl, rfl, -⟩ := hm
  obtain ⟨w0, w1, _, l1, _, l5⟩ := wf_mult_roles hw
  obtain ⟨c, hc, hf, wc, c1, lc⟩ := fix_of (t := c!"s.o.-k.o.-'") (l := 3) (by decide +kernel)
  simp only [layer, Rule.LayerOk] at hl
  have mc := made_fixed (σ := σ) wc c1 wc rfl
  rw [lc, show 3 = (σ 0).layer + 1 by omega] at mc
  obtain ⟨x, e1, m1⟩ := made_one hP l5 (made_part w0 rfl) (by sp)
  obtain ⟨y, e2, m2⟩ := made_one hP l5 (made_part w1 l1) (by sp)
  obtain ⟨t, e, m⟩ := made_three hP (by omega) m1 m2 mc (by sp)
  refine ⟨t, by go [Script.tisse, hc, e1, e2, e], ?_⟩
  simp only [Rule.move, hf]
  exact m

theorem made_formesVisuelles : RuleMade .formesVisuelles := by
  intro σ s hw hl hP hm
  replace hP : Parts [0, 1] σ := hP
  obtain ⟨_, _, _, rfl, -, rfl, rfl⟩ := hm
  obtain ⟨_, w0, w1, l0, l1, l5⟩ := wf_mult_roles hw
  obtain ⟨c, hc, hf, wc, c1, lc⟩ := fix_of (t := c!"b.-S:.U:.-'") (l := 3) (by decide +kernel)
  simp only [layer, Rule.LayerOk] at hl
  have mc := made_fixed (σ := σ) wc c1 wc rfl
  rw [lc] at mc
  obtain ⟨t, e, m⟩ := made_three hP (by omega) mc (made_part w0 (by omega)) (made_part w1 (by omega)) (by sp)
  refine ⟨t, by go [Script.formesVisuelles, hc, e], ?_⟩
  simp only [Rule.move, hf, Rule.layerOf, layer, hl]
  exact m

theorem ecosystem_made {P : List Nat} {σ : Nat → Script} (hP : Parts P σ) {x y : Script} {i j k k' k2 : Nat}
    (hw : WF (mult x y (null i))) (hx : x = mult (σ 0) (null j) (null k)) (hy : y = mult (σ 1) (null k') (null k2))
    (hl : (mult x y (null i)).layer = 2) (hs : [1, 0].Subperm P) :
    ∃ t, Script.ecosystem (mult x y (null i)) = .ok t ∧
      Made (Rule.n2 (fixedOf (c!"s.o.-k.o.-'")) (Rule.n1 (Rule.n1 (Rule.n2 (part 1) (part 0))))) σ 4 t := by
  subst hx hy
  obtain ⟨ws, wa, _, la, _, _⟩ := wf_mult_roles hw
  obtain ⟨w0, _, _, _, _, _⟩ := wf_mult_roles ws
  obtain ⟨w1, _, _, _, _, _⟩ := wf_mult_roles wa
  obtain ⟨c, hc, hf, wc, c1, lc⟩ := fix_of (t := c!"s.o.-k.o.-'") (l := 3) (by decide +kernel)
  simp only [layer] at la hl
  have mc := made_fixed (σ := σ) wc c1 wc rfl
  rw [lc] at mc
  obtain ⟨x, e1, m1⟩ := made_two hP (by omega) (made_part w1 (show _ = 0 by omega)) (made_part w0 (by omega)) hs
  obtain ⟨x', e2, m2⟩ := made_one hP (by omega) m1 hs
  obtain ⟨y, e3, m3⟩ := made_one hP (by omega) m2 hs
  obtain ⟨t, e4, m4⟩ := made_two hP (by omega) mc m3 hs
  refine ⟨t, by go [Script.ecosystem, hc, e1, e2, e3, e4], ?_⟩
  rw [hf]
  exact m4

theorem made_ecosystem : RuleMade .ecosystem := by
  intro σ s hw hl hP hm
  replace hP : Parts [0, 1] σ := hP
  obtain ⟨_, _, _, rfl, ⟨_, _, _, rfl, rfl, ⟨_, rfl⟩, ⟨_, rfl⟩⟩, ⟨_, _, _, rfl, rfl, ⟨_, rfl⟩, ⟨_, rfl⟩⟩, ⟨_, rfl⟩⟩ := hm
  have hl : _ = 2 := hl
  obtain ⟨t, e, m⟩ := ecosystem_made hP hw rfl rfl hl (by decide)
  refine ⟨t, e, ?_⟩
  rw [hl]
  exact m

theorem made_ecosystemTern : RuleMade .ecosystemTern := by
  intro σ s hw hl hP hm
  replace hP : Parts [0, 1, 2] σ := hP
  obtain ⟨_, _, _, rfl, ⟨_, _, _, rfl, ⟨_, _, _, rfl, rfl, ⟨_, rfl⟩, ⟨_, rfl⟩⟩, ⟨_, _, _, rfl, rfl, ⟨_, rfl⟩, ⟨_, rfl⟩⟩, ⟨_, rfl⟩⟩,
    rfl, ⟨_, rfl⟩⟩ := hm
  have hl : _ = 3 := hl
  obtain ⟨ws, w2, _, l2, _, _⟩ := wf_mult_roles hw
  have hl' := hl
  rw [layer] at hl'
  have h2 := Nat.succ.inj hl'
  obtain ⟨x, e, m⟩ := ecosystem_made hP ws rfl rfl h2 (by decide)
  rw [h2] at l2
  obtain ⟨y, e1, m1⟩ := made_one hP (by omega) (made_part w2 l2) (by sp)
  obtain ⟨z, e2, m2⟩ := made_one hP (by omega) m1 (by sp)
  obtain ⟨t, e3, m3⟩ := made_two hP (by omega) m m2 (by decide)
  refine ⟨t, by go [Script.ecosystemTern, e, e1, e2, e3], ?_⟩
  rw [hl]
  exact m3

theorem rule_made (r : Rule) : RuleMade r := by
  cases r with
  | rotate => exact made_rotate
  | doubleRotate => exact made_doubleRotate
  | splitSubst => exact made_splitSubst
  | promoteAndSplit => exact made_promoteAndSplit
  | transferSubstance => exact made_transferSubstance
  | addModeT => exact made_addModeT
  | insertAttrF => exact made_insertAttrF
  | fixTypo => exact made_fixTypo
  | bodyParts => exact made_bodyParts
  | removeAttrF => exact made_removeAttrF
  | competence => exact made_competence
  | noetic => exact made_noetic
  | tisse => exact made_tisse
  | formesVisuelles => exact made_formesVisuelles
  | ecosystem => exact made_ecosystem
  | ecosystemTern => exact made_ecosystemTern

end Verif
