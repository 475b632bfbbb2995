import Verif.Spec.Migrate
import Verif.Lemmas.Rules
import Verif.Lemmas.SS
import Verif.Lemmas.FlexionCheck

/-
The rules of `scripts/migrate_script.py`, one by one.
-/

namespace Verif
open Script Layout

/-- The guard of the rules. -/
theorem wordsWithin_iff {s : Script} (hs : WF s) {t : Str} {R : Script} (ht : parseScript t = .ok R) (hR : WF R) :
    ∃ b, wordsWithin s t = .ok b ∧ (b = true ↔ s.layer = R.layer ∧ ∀ w, Den s w → Den R w) := by
  obtain ⟨A, ea⟩ := enum_exists hR
  obtain ⟨B, eb⟩ := enum_exists hs
  refine ⟨_, by unfold wordsWithin; rw [eb.run, ht]; simp only [ok_bind]; rw [ea.run]; rfl, ?_⟩
  simp only [List.all_eq_true, List.any_eq_true, pyEq, beq_iff_eq]
  constructor
  · intro h
    refine ⟨?_, fun w hw => ?_⟩
    · obtain ⟨w, hw⟩ := den_exists hs
      obtain ⟨x, hx, _⟩ := (eb.den w).1 hw
      obtain ⟨y, hy, hyx⟩ := h x hx
      rw [← eb.layer x hx, ← ea.layer y hy, layer_of_str (ea.wf y hy) (eb.wf x hx) hyx]
    · obtain ⟨x, hx, hxw⟩ := (eb.den w).1 hw
      obtain ⟨y, hy, hyx⟩ := h x hx
      exact (ea.den w).2 ⟨y, hy, (den_of_str (ea.wf y hy) (eb.wf x hx) hyx w).2 hxw⟩
  · rintro ⟨hl, h⟩ x hx
    refine (mem_enum_iff ea (eb.wf x hx) (eb.one x hx) (by rw [eb.layer x hx, hl])).2 ?_
    obtain ⟨w, hw⟩ := den_exists (eb.wf x hx)
    exact ⟨w, hw, h w ((eb.den w).2 ⟨x, hx, hw⟩)⟩

mutual
/-- Some word of the script is empty. -/
def hasEmptyWord : Script → Bool
  | .null _ => true
  | .prim _ => false
  | .mult s a m => hasEmptyWord s && hasEmptyWord a && hasEmptyWord m
  | .add cs => hasEmptyWordL cs
/-- Some word of one of the scripts is empty. -/
def hasEmptyWordL : List Script → Bool
  | [] => false
  | c :: cs => hasEmptyWord c || hasEmptyWordL cs
end

theorem hasEmptyWordL_of : ∀ {cs : List Script} {c : Script}, c ∈ cs → hasEmptyWord c = true → hasEmptyWordL cs = true
  | d :: cs, c, h, e => by
    rcases List.mem_cons.1 h with rfl | h
    · simp [hasEmptyWordL, e]
    · simp [hasEmptyWordL, hasEmptyWordL_of h e]

theorem hasEmptyWord_of {s : Script} (h : WF s) (hd : Den s (List.replicate (3 ^ s.layer) none)) : hasEmptyWord s = true := by
  induction h with
  | null => simp [hasEmptyWord]
  | prim => rw [den_prim] at hd; simp [layer] at hd
  | @mult s a m h1 h2 h3 h4 h5 h6 h7 h8 h9 h10 ih1 ih2 ih3 =>
    obtain ⟨u, v, x, du, dv, dx, e⟩ := den_mult.1 hd
    have all : ∀ c ∈ u ++ v ++ x, c = none := fun c hc => List.eq_of_mem_replicate (e ▸ hc)
    have rep : ∀ {t : Script} {w : Word}, WF t → Den t w → (∀ c ∈ w, c = none) → w = List.replicate (3 ^ t.layer) none :=
      fun ht dw hc => List.eq_replicate_iff.2 ⟨den_length ht dw, hc⟩
    rw [rep h1 du fun c hc => all c (by simp [hc])] at du
    rw [rep h2 dv fun c hc => all c (by simp [hc])] at dv
    rw [rep h3 dx fun c hc => all c (by simp [hc])] at dx
    simp [hasEmptyWord, ih1 du, ih2 dv, ih3 dx]
  | @add cs h1 h2 h3 h4 h5 h6 h7 ih =>
    obtain ⟨c, hc, dc⟩ := den_add.1 hd
    rw [← h3 c hc] at dc
    rw [hasEmptyWord]
    exact hasEmptyWordL_of hc (ih c hc dc)

/-- The script is laid out in this way, and no part that is taken apart has an empty word. -/
def Layout.fits : Layout → Script → Bool
  | .part _, _ => true
  | .blank, s => s.isNull
  | .fixed _, _ => false
  | .node p q r, .mult x y z => !hasEmptyWord (.mult x y z) && p.fits x && q.fits y && r.fits z
  | .node _ _ _, _ => false

theorem matches_congr : ∀ {p : Layout} {σ τ : Nat → Script} {s : Script}, (∀ i ∈ p.parts, σ i = τ i) → p.Matches σ s → p.Matches τ s
  | .part i, σ, τ, s, h, hm => by rw [Layout.Matches] at hm ⊢; rw [hm, h i (by simp [Layout.parts])]
  | .blank, _, _, _, _, hm => hm
  | .fixed _, _, _, _, _, hm => hm
  | .node p q r, σ, τ, s, h, hm => by
    obtain ⟨x, y, z, e, h1, h2, h3⟩ := hm
    exact ⟨x, y, z, e, matches_congr (fun i hi => h i (by simp [Layout.parts, hi])) h1,
      matches_congr (fun i hi => h i (by simp [Layout.parts, hi])) h2, matches_congr (fun i hi => h i (by simp [Layout.parts, hi])) h3⟩

/-- A script within one that is laid out in some way is laid out in this way, if no part that is taken apart is a sum. -/
theorem matches_within : ∀ {p : Layout} {R s : Script}, p.fits R = true → p.parts.Nodup → WF R → WF s → (p = .blank → Role s) →
    s.layer = R.layer → (∀ w, Den s w → Den R w) → p.Apart s → ∃ σ, p.Matches σ s
  | .part i, R, s, _, _, _, _, _, _, _, _ => ⟨fun _ => s, rfl⟩
  | .blank, R, s, hf, _, _, hs, hr, hl, hw, _ => by
    cases R <;> simp [Layout.fits, isNull] at hf
    rename_i l
    have he : s.empty = true := (void_iff hs).2 fun w dw c hc => by
      have := hw w dw
      rw [den_null] at this
      exact List.eq_of_mem_replicate (this ▸ hc)
    exact ⟨fun _ => s, _, role_empty (hr rfl) he⟩
  | .fixed _, R, s, hf, _, _, _, _, _, _, _ => by simp [Layout.fits] at hf
  | .node p q r, R, s, hf, hn, hR, hs, hr, hl, hw, ha => by
    cases R with
    | null | prim | add => simp [Layout.fits] at hf
    | mult X Y Z =>
      simp only [Layout.fits, Bool.and_eq_true, Bool.not_eq_true'] at hf
      obtain ⟨⟨⟨f0, f1⟩, f2⟩, f3⟩ := hf
      have hne : s.isNull = false := by
        cases s with
        | null l =>
          have := hasEmptyWord_of hR (by rw [← hl]; exact hw _ (.null l))
          rw [f0] at this
          cases this
        | _ => rfl
      cases s with
      | null => cases hne
      | prim => simp [layer] at hl
      | add => cases ha.1
      | mult x y z =>
        obtain ⟨WX, WY, WZ, lY, lZ, _⟩ := wf_mult_roles hR
        obtain ⟨wx, wy, wz, ly, lz, _⟩ := wf_mult_roles hs
        have hro : Role x ∧ Role y ∧ Role z := by
          cases hs with | mult _ _ _ _ _ _ h1 h2 h3 _ => exact ⟨h1, h2, h3⟩
        simp only [layer] at hl
        have hlx : x.layer = X.layer := by omega
        have sub : ∀ {u v k}, Den x u → Den y v → Den z k → Den X u ∧ Den Y v ∧ Den Z k := by
          intro u v k du dv dk
          obtain ⟨u', v', k', du', dv', dk', e⟩ := den_mult.1 (hw _ (.mult du dv dk))
          have e1 := List.append_inj' e (by rw [den_length wz dk, den_length WZ dk', lz, lZ, hlx])
          have e2 := List.append_inj' e1.1 (by rw [den_length wy dv, den_length WY dv', ly, lY, hlx])
          rw [e2.1, e2.2, e1.2]
          exact ⟨du', dv', dk'⟩
        obtain ⟨u, du⟩ := den_exists wx
        obtain ⟨v, dv⟩ := den_exists wy
        obtain ⟨k, dk⟩ := den_exists wz
        obtain ⟨a1, a2, a3⟩ := ha.2 x y z rfl
        simp only [Layout.parts, List.nodup_append, List.mem_append] at hn
        obtain ⟨⟨n1, n2, n12⟩, n3, n123⟩ := hn
        obtain ⟨σ1, m1⟩ := matches_within f1 n1 WX wx (fun _ => hro.1) hlx (fun w dw => (sub dw dv dk).1) a1
        obtain ⟨σ2, m2⟩ := matches_within f2 n2 WY wy (fun _ => hro.2.1) (by omega) (fun w dw => (sub du dw dk).2.1) a2
        obtain ⟨σ3, m3⟩ := matches_within f3 n3 WZ wz (fun _ => hro.2.2) (by omega) (fun w dw => (sub du dv dw).2.2) a3
        refine ⟨fun i => if i ∈ p.parts then σ1 i else if i ∈ q.parts then σ2 i else σ3 i, x, y, z, rfl,
          matches_congr (fun i hi => by simp [hi]) m1, matches_congr (fun i hi => ?_) m2, matches_congr (fun i hi => ?_) m3⟩
        · have : i ∉ p.parts := fun h => n12 i h i hi rfl
          simp [this, hi]
        · have h1 : i ∉ p.parts := fun h => n123 i (.inl h) i hi rfl
          have h2 : i ∉ q.parts := fun h => n123 i (.inr h) i hi rfl
          simp [h1, h2]

/-- The root of a rule. -/
def Migration.rootOk (r : Migration) : Bool :=
  match parseScript r.root with
  | .ok R => wfb R && r.move.src.fits R
  | .error _ => false

theorem root_of (r : Migration) : ∃ R, parseScript r.root = .ok R ∧ WF R ∧ r.move.src.fits R = true := by
  have h : r.rootOk = true := by cases r <;> decide +kernel
  unfold Migration.rootOk at h
  split at h
  · rename_i R hR
    rw [Bool.and_eq_true] at h
    exact ⟨R, hR, wfb_sound h.1, h.2⟩
  · cases h

theorem migration_sound (r : Migration) : r.move.src.Sound ∧ r.move.dst.Sound := by
  have h1 := fix_sound (t := c!"o.") (l := 1) (by decide +kernel)
  have h2 := fix_sound (t := c!"S:.") (l := 1) (by decide +kernel)
  cases r <;> simp [Migration.move, Layout.Sound, h1, h2]

theorem migration_parts (r : Migration) : r.move.src.parts.Nodup ∧ r.move.src.parts.Perm r.move.dst.parts := by
  cases r <;> simp only [Migration.move, Layout.parts, parts_fixedOf] <;> decide

/-- The layers of the two roots. -/
def Migration.layers : Migration → Nat × Nat
  | sOOF => (3, 4)
  | EMOto => (2, 3)
  | EOOMt0 => (4, 4)
  | EOETI => (2, 2)
  | temps => (3, 4)
  | tidi => (3, 4)

/-- What a rule makes. -/
def MigrationMade (r : Migration) : Prop := ∀ {σ : Nat → Script} {s : Script}, WF s → s.layer = r.layers.1 →
    wordsWithin s r.root = .ok true → Parts r.move.src.parts σ → r.move.src.Matches σ s →
    ∃ t, r.run s = .ok t ∧ Made r.move.dst σ r.layers.2 t

/-- Some of the parts, each once. -/
local macro "sp" : tactic =>
  `(tactic| (simp only [Layout.parts, List.nil_append, List.append_nil, List.cons_append]; decide))

theorem childrenOf_mult (x y z : Script) : childrenOf (mult x y z) = .ok (x, y, z) := rfl

/-- Running through a rule. -/
local macro "go" "[" ls:Lean.Parser.Tactic.simpLemma,* "]" : tactic =>
  `(tactic| simp only [Migration.run, unpack_mult, childrenOf_mult, ok_bind, Bool.not_true, Bool.false_eq_true, if_false, pure_bind, $ls,*])

theorem made_sOOF : MigrationMade .sOOF := by
  intro σ s hw hl hg hP hm
  replace hP : Parts [0, 1, 2] σ := hP
  obtain ⟨_, _, _, rfl, ⟨_, _, _, rfl, rfl, rfl, ⟨_, rfl⟩⟩, rfl, ⟨_, rfl⟩⟩ := hm
  obtain ⟨ws, w2, _, l2, _, _⟩ := wf_mult_roles hw
  obtain ⟨w0, w1, _, l1, _, _⟩ := wf_mult_roles ws
  obtain ⟨c, hc, hf, wc, c1, lc⟩ := fix_of (t := c!"o.") (l := 1) (by decide +kernel)
  simp only [layer, Migration.layers] at hl l2
  have mc := made_fixed (σ := σ) wc c1 wc rfl
  rw [lc] at mc
  obtain ⟨x, e1, m1⟩ := made_two hP (by omega) (made_part w0 (by omega)) mc (by sp)
  obtain ⟨y, e2, m2⟩ := made_one hP (by omega) (made_part w1 (l := 1) (by omega)) (by sp)
  obtain ⟨x', e3, m3⟩ := made_two hP (by omega) m1 m2 (by sp)
  obtain ⟨z, e4, m4⟩ := made_one hP (by omega) (made_part w2 (l := 2) (by omega)) (by sp)
  obtain ⟨t, e5, m5⟩ := made_two hP (by omega) m3 m4 (by sp)
  have hg : wordsWithin (mult (mult (σ 0) (σ 1) (null _)) (σ 2) (null _)) (c!"s.O:O:.-F:.-'") = .ok true := hg
  refine ⟨t, by go [migrateSOOF, hg, hc, e1, e2, e3, e4, e5], ?_⟩
  simp only [Migration.move, hf]
  exact m5

theorem made_EMOto : MigrationMade .EMOto := by
  intro σ s hw hl hg hP hm
  replace hP : Parts [0, 1, 2, 3] σ := hP
  obtain ⟨_, _, _, rfl, ⟨_, _, _, rfl, ⟨_, rfl⟩, rfl, rfl⟩, rfl, rfl⟩ := hm
  obtain ⟨ws, w2, w3, l2, l3, _⟩ := wf_mult_roles hw
  obtain ⟨wn, w0, w1, l0, l1, _⟩ := wf_mult_roles ws
  simp only [layer, Migration.layers] at hl l0 l1 l2 l3
  rename_i n _ _
  obtain rfl : n = 0 := by omega
  obtain ⟨x, e1, m1⟩ := made_two hP (by omega) (made_blank (by omega)) (made_part w0 l0) (by sp)
  obtain ⟨x', e2, m2⟩ := made_one hP (by omega) m1 (by sp)
  obtain ⟨y, e3, m3⟩ := made_one hP (by omega) (made_part w1 l1) (by sp)
  obtain ⟨y', e4, m4⟩ := made_one hP (by omega) m3 (by sp)
  obtain ⟨z, e5, m5⟩ := made_two hP (by omega) (made_part w2 l2) (made_part w3 l3) (by sp)
  obtain ⟨t, e6, m6⟩ := made_three hP (by omega) m2 m4 m5 (by sp)
  have hg : wordsWithin (mult (mult (null 0) (σ 0) (σ 1)) (σ 2) (σ 3)) (c!"E:M:O:.t.o.-") = .ok true := hg
  exact ⟨t, by go [migrateEMOto, hg, e1, e2, e3, e4, e5, e6], m6⟩

theorem made_EOOMt0 : MigrationMade .EOOMt0 := by
  intro σ s hw hl hg hP hm
  replace hP : Parts [0, 1, 2, 3] σ := hP
  obtain ⟨_, _, _, rfl, ⟨_, rfl⟩, ⟨_, _, _, rfl, rfl, ⟨_, _, _, rfl, rfl, rfl, rfl⟩, ⟨_, rfl⟩⟩, ⟨_, rfl⟩⟩ := hm
  obtain ⟨_, wa, _, la, _, _⟩ := wf_mult_roles hw
  obtain ⟨w0, waa, _, l0, _, _⟩ := wf_mult_roles wa
  obtain ⟨w1, w2, w3, l2, l3, _⟩ := wf_mult_roles waa
  simp only [layer, Migration.layers] at hl la l0 l2 l3
  rename_i n _ _ _ _ _ _ _ _ _ _
  obtain rfl : n = 3 := by omega
  obtain ⟨y, e1, m1⟩ := made_one hP (by omega) (made_part w1 (l := 1) (by omega)) (by sp)
  obtain ⟨y', e2, m2⟩ := made_two hP (by omega) (made_part w0 (by omega)) m1 (by sp)
  obtain ⟨z, e3, m3⟩ := made_two hP (by omega) (made_part w2 (l := 1) (by omega)) (made_part w3 (by omega)) (by sp)
  obtain ⟨z', e4, m4⟩ := made_one hP (by omega) m3 (by sp)
  obtain ⟨t, e5, m5⟩ := made_three hP (by omega) (made_blank (by omega)) m2 m4 (by sp)
  have hg : wordsWithin (mult (null 3) (mult (σ 0) (mult (σ 1) (σ 2) (σ 3)) (null _)) (null _)) (c!"E:.-'O:O:.-M:.t.o.-',") = .ok true := hg
  exact ⟨t, by go [migrateEOOMt0, hg, e1, e2, e3, e4, e5], m5⟩

theorem made_EOETI : MigrationMade .EOETI := by
  intro σ s hw hl hg hP hm
  replace hP : Parts [0, 1] σ := hP
  obtain ⟨_, _, _, rfl, ⟨_, rfl⟩, rfl, rfl⟩ := hm
  obtain ⟨_, w0, w1, l0, l1, _⟩ := wf_mult_roles hw
  obtain ⟨c, hc, hf, wc, c1, lc⟩ := fix_of (t := c!"S:.") (l := 1) (by decide +kernel)
  simp only [layer, Migration.layers] at hl l0 l1
  have mc := made_fixed (σ := σ) wc c1 wc rfl
  rw [lc] at mc
  obtain ⟨t, e1, m1⟩ := made_three hP (by omega) mc (made_part w0 (by omega)) (made_part w1 (by omega)) (by sp)
  have hg : wordsWithin (mult (null _) (σ 0) (σ 1)) (c!"E:.O:.E:T:.+I:.-") = .ok true := hg
  refine ⟨t, by go [migrateEOETI, hg, hc, e1], ?_⟩
  simp only [Migration.move, hf]
  exact m1

theorem made_tidi : MigrationMade .tidi := by
  intro σ s hw hl hg hP hm
  replace hP : Parts [0, 1, 2] σ := hP
  obtain ⟨_, _, _, rfl, rfl, rfl, rfl⟩ := hm
  obtain ⟨w0, w1, w2, l1, l2, _⟩ := wf_mult_roles hw
  simp only [layer, Migration.layers] at hl
  obtain ⟨x, e1, m1⟩ := made_two hP (by omega) (made_part w0 (l := 2) (by omega)) (made_part w1 (by omega)) (by sp)
  obtain ⟨z, e2, m2⟩ := made_one hP (by omega) (made_part w2 (l := 2) (by omega)) (by sp)
  obtain ⟨t, e3, m3⟩ := made_two hP (by omega) m1 m2 (by sp)
  have hg : wordsWithin (mult (σ 0) (σ 1) (σ 2)) (c!"t.i.-d.i.-t.+M:O:.-'") = .ok true := hg
  exact ⟨t, by go [migrateTidi, hg, e1, e2, e3], m3⟩

/-- The blank in the text of the root is skipped. -/
theorem temps_guard (s : Script) : wordsWithin s (c!"t.o.-n.o.-M: O:.-'") = wordsWithin s (c!"t.o.-n.o.-M:O:.-'") := by
  have : parseScript (c!"t.o.-n.o.-M: O:.-'") = parseScript (c!"t.o.-n.o.-M:O:.-'") := by decide +kernel
  unfold wordsWithin
  rw [this]

theorem made_temps : MigrationMade .temps := by
  intro σ s hw hl hg hP hm
  replace hP : Parts [0, 1, 2] σ := hP
  obtain ⟨_, _, _, rfl, rfl, rfl, rfl⟩ := hm
  obtain ⟨w0, w1, w2, l1, l2, _⟩ := wf_mult_roles hw
  simp only [layer, Migration.layers] at hl
  obtain ⟨x, e1, m1⟩ := made_two hP (by omega) (made_part w0 (l := 2) (by omega)) (made_part w1 (by omega)) (by sp)
  obtain ⟨z, e2, m2⟩ := made_one hP (by omega) (made_part w2 (l := 2) (by omega)) (by sp)
  obtain ⟨t, e3, m3⟩ := made_two hP (by omega) m1 m2 (by sp)
  have hg : wordsWithin (mult (σ 0) (σ 1) (σ 2)) (c!"t.o.-n.o.-M: O:.-'") = .ok true := by rw [temps_guard]; exact hg
  exact ⟨t, by go [translateTemps, hg, e1, e2, e3], m3⟩

theorem migration_made (r : Migration) : MigrationMade r := by
  cases r
  · exact made_sOOF
  · exact made_EMOto
  · exact made_EOOMt0
  · exact made_EOETI
  · exact made_temps
  · exact made_tidi

/-- A script with a word outside the root is left as it is. -/
theorem migration_left (r : Migration) {s : Script} (hg : wordsWithin s r.root = .ok false) : r.run s = .ok s := by
  cases r
  · have hg : wordsWithin s (c!"s.O:O:.-F:.-'") = .ok false := hg
    simp only [Migration.run, migrateSOOF, hg, ok_bind]; rfl
  · have hg : wordsWithin s (c!"E:M:O:.t.o.-") = .ok false := hg
    simp only [Migration.run, migrateEMOto, hg, ok_bind]; rfl
  · have hg : wordsWithin s (c!"E:.-'O:O:.-M:.t.o.-',") = .ok false := hg
    simp only [Migration.run, migrateEOOMt0, hg, ok_bind]; rfl
  · have hg : wordsWithin s (c!"E:.O:.E:T:.+I:.-") = .ok false := hg
    simp only [Migration.run, migrateEOETI, hg, ok_bind]; rfl
  · have hg : wordsWithin s (c!"t.o.-n.o.-M: O:.-'") = .ok false := by rw [temps_guard]; exact hg
    simp only [Migration.run, translateTemps, hg, ok_bind]; rfl
  · have hg : wordsWithin s (c!"t.i.-d.i.-t.+M:O:.-'") = .ok false := hg
    simp only [Migration.run, migrateTidi, hg, ok_bind]; rfl

end Verif
