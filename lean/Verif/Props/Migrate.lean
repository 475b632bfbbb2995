import Verif.Lemmas.Migrate
import Verif.Lemmas.MigrateFiles
import Verif.Props.Rules
import Verif.Props.Maintenance

/-
C110: the rules of `scripts/migrate_script.py` and the program that applies one of them to the dictionary.
-/

namespace Verif
open Script Layout

theorem within_guard (r : Migration) {s : Script} (hb : Built s) : ∃ b, wordsWithin s r.root = .ok b ∧ (b = true ↔ r.Within s) := by
  obtain ⟨R, hR, wR, _⟩ := root_of r
  obtain ⟨b, h1, h2⟩ := wordsWithin_iff (built_wf hb) hR wR
  refine ⟨b, h1, h2.trans ⟨fun h => ⟨R, hR, h⟩, ?_⟩⟩
  rintro ⟨R', hR', h⟩
  rw [hR, Except.ok.injEq] at hR'
  rw [hR']
  exact h

theorem within_layer (r : Migration) {s : Script} (h : r.Within s) : s.layer = r.layers.1 := by
  obtain ⟨R, hR, hl, _⟩ := h
  have : (parseScript r.root).map Script.layer = .ok r.layers.1 := by cases r <;> decide +kernel
  rw [hR] at this
  rw [hl]
  exact Except.ok.inj this

theorem new_layer (r : Migration) : ∃ R', parseScript r.newRoot = .ok R' ∧ r.layers.2 = R'.layer := by
  have : (parseScript r.newRoot).map Script.layer = .ok r.layers.2 := by cases r <;> decide +kernel
  cases h : parseScript r.newRoot with
  | error e => rw [h] at this; cases this
  | ok R' => rw [h] at this; exact ⟨R', rfl, (Except.ok.inj this).symm⟩

theorem fits_apart : ∀ {p : Layout} {s : Script}, p.fits s = true → p.Apart s
  | .part _, _, _ => trivial
  | .blank, _, _ => trivial
  | .fixed _, _, _ => trivial
  | .node p q r, s, h => by
    cases s with
    | null | prim | add => simp [Layout.fits] at h
    | mult x y z =>
      simp only [Layout.fits, Bool.and_eq_true] at h
      refine ⟨rfl, ?_⟩
      rintro _ _ _ ⟨⟩
      exact ⟨fits_apart h.1.1.2, fits_apart h.1.2, fits_apart h.2⟩

/-- **C110, the other scripts.** A script with a word that is not in the root of the rule is left as it is. -/
theorem C110_left (r : Migration) {s : Script} (hb : Built s) (h : ¬ r.Within s) : r.run s = .ok s := by
  obtain ⟨b, h1, h2⟩ := within_guard r hb
  cases b with
  | true => exact absurd (h2.1 rfl) h
  | false => exact migration_left r h1

/-- **C110, what holds.** A script all of whose words are in the root is always moved, if no part that the rule takes apart is
a sum: the new script can be built, has as many words and the layer of the new root, and its words are exactly the words of
the script, each laid out in the new way.  Missing: sums (`C110_sum_refused`, `C110_violated`). -/
theorem C110_moved_partial (r : Migration) {s : Script} (hb : Built s) (h : r.Within s) (ha : r.move.src.Apart s) :
    ∃ t, r.run s = .ok t ∧ Built t ∧ (∃ R', parseScript r.newRoot = .ok R' ∧ t.layer = R'.layer) ∧ t.cardinal = s.cardinal ∧
      ∀ w', Den t w' ↔ ∃ w, Den s w ∧ r.move.Moves s.layer t.layer w w' := by
  have hl := within_layer r h
  obtain ⟨b, g1, g2⟩ := within_guard r hb
  rw [g2.2 h] at g1
  obtain ⟨R, hR, wR, hf⟩ := root_of r
  obtain ⟨R', hR', hlR, hw⟩ := h
  rw [hR, Except.ok.injEq] at hR'
  subst hR'
  obtain ⟨σ, hm⟩ := matches_within hf (migration_parts r).1 wR (built_wf hb) (by cases r <;> simp [Migration.move]) hlR hw ha
  obtain ⟨hmade, hP⟩ := parts_of_matches (migration_sound r).1 (migration_parts r).1 (built_wf hb) hm
  obtain ⟨t, h1, h2⟩ := migration_made r (built_wf hb) hl g1 hP hm
  obtain ⟨h3, h4⟩ := made_moves (migration_sound r).1 (migration_parts r).2 hP.wf hmade h2
  exact ⟨t, h1, wf_built h2.wf, by rw [h2.layer]; exact new_layer r, h3, by rw [h2.layer]; exact h4⟩

/-- **C110, the roots.** Each rule sends its root to the new root. -/
theorem C110_root (r : Migration) : ∃ R R', parseScript r.root = .ok R ∧ parseScript r.newRoot = .ok R' ∧ r.Within R ∧
    r.run R = .ok R' ∧ R'.str = r.newRoot := by
  have h : ∀ r : Migration, (match parseScript r.root, parseScript r.newRoot with
      | .ok R, .ok R' => (match r.run R with | .ok t => decide (t = R') | .error _ => false) && decide (R'.str = r.newRoot)
      | _, _ => false) = true := by
    intro r
    cases r <;> decide +kernel
  have h := h r
  split at h
  · rename_i R R' h1 h2
    refine ⟨R, R', h1, h2, ⟨R, h1, rfl, fun _ h => h⟩, ?_⟩
    rw [Bool.and_eq_true, decide_eq_true_eq] at h
    split at h
    · rename_i t ht
      have := h.1
      rw [decide_eq_true_eq] at this
      rw [ht, this]
      exact ⟨rfl, h.2⟩
    · cases h.1
  · cases h

theorem migration_one_to_one (r : Migration) {l l' : Nat} {u v u' v' : Word} (hu : r.move.Moves l l' u u') (hv : r.move.Moves l l' v v') :
    u = v ↔ u' = v' :=
  moves_one_to_one (migration_sound r).1 (migration_sound r).2 (migration_parts r).2 hu hv

/-- **C110, within the new root.** What a script within the root is moved to is within the new root. -/
theorem C110_within_partial (r : Migration) {s : Script} (hb : Built s) (h : r.Within s) (ha : r.move.src.Apart s) :
    ∃ R' t, parseScript r.newRoot = .ok R' ∧ r.run s = .ok t ∧ contains R' t = .ok true := by
  obtain ⟨t, e1, b1, ⟨R', p1, l1⟩, _, d1⟩ := C110_moved_partial r hb h ha
  obtain ⟨R, R'', q1, q2, hR, q3, _⟩ := C110_root r
  obtain ⟨Q, o1, o2, o3⟩ := root_of r
  rw [q1, Except.ok.injEq] at o1
  subst o1
  rw [p1, Except.ok.injEq] at q2
  subst q2
  obtain ⟨_, e2, b2, _, _, d2⟩ := C110_moved_partial r (wf_built o2) hR (fits_apart o3)
  rw [q3, Except.ok.injEq] at e2
  subst e2
  refine ⟨R', t, p1, e1, ?_⟩
  obtain ⟨b, f1, f2⟩ := C11_inclusion b2 b1
  rw [f1, f2.2 ⟨l1, fun w' hw' => ?_⟩]
  obtain ⟨w, hw, hmv⟩ := (d1 w').1 hw'
  obtain ⟨R0, hR0, hl, hin⟩ := h
  rw [q1, Except.ok.injEq] at hR0
  subst hR0
  exact (d2 w').2 ⟨w, hin w hw, by rw [← hl, ← l1]; exact hmv⟩

/-- **C110, nothing is lost.** Two scripts moved by the same rule have the same words afterwards exactly when they had the
same words before. -/
theorem C110_distinct_partial (r : Migration) {s s' t t' : Script} (hb : Built s) (hb' : Built s') (h : r.Within s) (h' : r.Within s')
    (ha : r.move.src.Apart s) (ha' : r.move.src.Apart s') (ht : r.run s = .ok t) (ht' : r.run s' = .ok t') :
    SameMeaning t t' ↔ SameMeaning s s' := by
  obtain ⟨x, e1, b1, ⟨R1, p1, l1⟩, c1, d1⟩ := C110_moved_partial r hb h ha
  obtain ⟨y, e2, b2, ⟨R2, p2, l2⟩, c2, d2⟩ := C110_moved_partial r hb' h' ha'
  rw [ht, Except.ok.injEq] at e1
  rw [ht', Except.ok.injEq] at e2
  rw [p1, Except.ok.injEq] at p2
  subst e1 e2 p2
  have hl : s.layer = s'.layer := by rw [within_layer r h, within_layer r h']
  have hl' : t.layer = t'.layer := by rw [l1, l2]
  -- every word has an image
  have image : ∀ {s t : Script}, Built s → r.Within s → r.move.src.Apart s → r.run s = .ok t → ∀ w, Den s w →
      ∃ w', r.move.Moves s.layer t.layer w w' := by
    intro s t hb h ha ht w hw
    have hl := within_layer r h
    obtain ⟨b, g1, g2⟩ := within_guard r hb
    rw [g2.2 h] at g1
    obtain ⟨R, hR, wR, hf⟩ := root_of r
    obtain ⟨R', hR', hlR, hwR⟩ := h
    rw [hR, Except.ok.injEq] at hR'
    subst hR'
    obtain ⟨σ, hm⟩ := matches_within hf (migration_parts r).1 wR (built_wf hb) (by cases r <;> simp [Migration.move]) hlR hwR ha
    obtain ⟨hmade, hP⟩ := parts_of_matches (migration_sound r).1 (migration_parts r).1 (built_wf hb) hm
    obtain ⟨t', h1, h2⟩ := migration_made r (built_wf hb) hl g1 hP hm
    rw [ht, Except.ok.injEq] at h1
    subst h1
    obtain ⟨ρ, a, b⟩ := (hmade.den w).1 hw
    obtain ⟨w0, hw0⟩ := den_exists h2.wf
    obtain ⟨ρ0, a0, b0⟩ := (h2.den w0).1 hw0
    have hp := (migration_parts r).2
    obtain ⟨w', hw'⟩ := Layout.spells_replace b0 (ρ' := ρ) fun i hi => by
      rw [den_length (hP.wf i (hp.mem_iff.2 hi)) (a i (hp.mem_iff.2 hi)), den_length (hP.wf i (hp.mem_iff.2 hi)) (a0 i hi)]
    exact ⟨w', ρ, b, by rw [h2.layer]; exact hw'⟩
  have one : ∀ {s s' t t' : Script}, s.layer = s'.layer → t.layer = t'.layer →
      (∀ w, Den s w → ∃ w', r.move.Moves s.layer t.layer w w') →
      (∀ w', Den t w' ↔ ∃ w, Den s w ∧ r.move.Moves s.layer t.layer w w') →
      (∀ w', Den t' w' ↔ ∃ w, Den s' w ∧ r.move.Moves s'.layer t'.layer w w') →
      ((∀ w, Den t w → Den t' w) ↔ ∀ w, Den s w → Den s' w) := by
    intro s s' t t' hl hl' hi d d'
    constructor
    · intro hs w hw
      obtain ⟨w', hw'⟩ := hi w hw
      obtain ⟨v, hv, hv'⟩ := (d' w').1 (hs w' ((d w').2 ⟨w, hw, hw'⟩))
      rw [← hl, ← hl'] at hv'
      rw [(migration_one_to_one r hw' hv').2 rfl]
      exact hv
    · intro hs w' hw'
      obtain ⟨w, hw, hm⟩ := (d w').1 hw'
      exact (d' w').2 ⟨w, hs w hw, by rw [← hl, ← hl']; exact hm⟩
  have o1 := one hl hl' (image hb h ha ht) d1 d2
  have o2 := one hl.symm hl'.symm (image hb' h' ha' ht') d2 d1
  unfold SameMeaning
  rw [hl, hl']
  constructor
  · rintro ⟨_, h⟩
    exact ⟨rfl, fun w => ⟨o1.1 (fun w => (h w).1) w, o2.1 (fun w => (h w).2) w⟩⟩
  · rintro ⟨_, h⟩
    exact ⟨rfl, fun w => ⟨o1.2 (fun w => (h w).1) w, o2.2 (fun w => (h w).2) w⟩⟩

/-- **C110, sums.** A sum within the root that does not have exactly three terms is refused with `ValueError`. -/
theorem C110_sum_refused (r : Migration) {cs : List Script} (hb : Built (.add cs)) (hw : r.Within (.add cs)) (h : cs.length ≠ 3) :
    r.run (.add cs) = .error .valueError := by
  have hu : unpack (.add cs) = .error .valueError := by
    unfold unpack
    split
    · rename_i x y z he
      simp only [iter, children] at he
      exact absurd (by rw [he]; rfl) h
    · rfl
  have hc : childrenOf (.add cs) = .error .valueError := by
    unfold childrenOf
    split
    · rename_i x y z he
      simp only [children] at he
      exact absurd (by rw [he]; rfl) h
    · rfl
  obtain ⟨b, g1, g2⟩ := within_guard r hb
  rw [g2.2 hw] at g1
  cases r
  · have hg : wordsWithin (.add cs) (c!"s.O:O:.-F:.-'") = .ok true := g1
    simp only [Migration.run, migrateSOOF, hg, ok_bind, hc]; rfl
  · have hg : wordsWithin (.add cs) (c!"E:M:O:.t.o.-") = .ok true := g1
    simp only [Migration.run, migrateEMOto, hg, ok_bind, hc]; rfl
  · have hg : wordsWithin (.add cs) (c!"E:.-'O:O:.-M:.t.o.-',") = .ok true := g1
    simp only [Migration.run, migrateEOOMt0, hg, ok_bind, hc]; rfl
  · have hg : wordsWithin (.add cs) (c!"E:.O:.E:T:.+I:.-") = .ok true := g1
    simp only [Migration.run, migrateEOETI, hg, ok_bind, hc]; rfl
  · have hg : wordsWithin (.add cs) (c!"t.o.-n.o.-M: O:.-'") = .ok true := by rw [temps_guard]; exact g1
    simp only [Migration.run, translateTemps, hg, ok_bind, hu]; rfl
  · have hg : wordsWithin (.add cs) (c!"t.i.-d.i.-t.+M:O:.-'") = .ok true := g1
    simp only [Migration.run, migrateTidi, hg, ok_bind, hu]; rfl

/-- The result of a rule on a text. -/
def Migration.onText (r : Migration) (t : Str) : Except Err (Str × Nat) := do
  let u ← r.run (← parseScript t)
  return (u.str, u.layer)

/-- **C110 is violated** by sums of three terms, which are taken for products: two scripts within the root get a layer that is
not that of the new root (4 and 3). -/
theorem C110_violated :
    Migration.tidi.onText (c!"t.i.-d.i.-t.-'+t.i.-d.i.-S:U:.-'+t.i.-d.i.-B:A:.-'") =
      .ok (c!"t.i.-d.i.-j.-'t.i.-d.i.-t.-',t.i.-d.i.-c.-',_", 5) ∧
    Migration.EMOto.onText (c!"E:S:U:.t.o.-+E:B:U:.t.o.-+E:T:U:.t.o.-") = .ok (c!"E:S:U:.t.-'o.-'E:B:U:.t.o.-E:T:U:.t.o.-',", 4) := by
  decide +kernel

/-- No word is both in the root of a rule and in its new root. -/
theorem roots_disjoint (r : Migration) {R R' : Script} (h : parseScript r.root = .ok R) (h' : parseScript r.newRoot = .ok R')
    (wR : WF R) (wR' : WF R') (hl : R.layer = R'.layer) {w : Word} (hw : Den R w) (hw' : Den R' w) : False := by
  have key : ∀ r : Migration, r.layers.1 ≠ r.layers.2 ∨ (match (do
      let L ← singularSequences (← parseScript r.root)
      let L' ← singularSequences (← parseScript r.newRoot)
      return (L, L') : Except Err (List Script × List Script)) with
      | .ok (L, L') => L.all fun y => L'.all fun y' => y.str != y'.str
      | .error _ => false) = true := by
    intro r
    cases r <;> decide +kernel
  have hR : r.layers.1 = R.layer := (within_layer r ⟨R, h, rfl, fun _ h => h⟩).symm
  obtain ⟨Q, q1, q2⟩ := new_layer r
  rw [h', Except.ok.injEq] at q1
  subst q1
  rcases key r with k | k
  · exact k (by rw [hR, q2, hl])
  · obtain ⟨L, e⟩ := enum_exists wR
    obtain ⟨L', e'⟩ := enum_exists wR'
    rw [h, h'] at k
    simp only [bind, Except.bind, e.run, e'.run, pure, Except.pure] at k
    obtain ⟨y, hy, d⟩ := (e.den w).1 hw
    obtain ⟨y', hy', d'⟩ := (e'.den w).1 hw'
    have := List.all_eq_true.1 (List.all_eq_true.1 k y hy) y' hy'
    rw [str_of_word (e.wf y hy) (e'.wf y' hy') (e.one y hy) (e'.one y' hy') (by rw [e.layer y hy, e'.layer y' hy', hl]) d d'] at this
    simp at this

/-- **C110, once is enough.** What a script is moved to is outside the root: it has another text than every script within the
root, and the rule leaves it as it is. -/
theorem C110_again_partial (r : Migration) {s t : Script} (hb : Built s) (h : r.Within s) (ha : r.move.src.Apart s) (ht : r.run s = .ok t) :
    ¬ r.Within t ∧ r.run t = .ok t ∧ ∀ s', Built s' → r.Within s' → t.str ≠ s'.str := by
  obtain ⟨t', e1, b1, _, _, _⟩ := C110_moved_partial r hb h ha
  obtain ⟨R', t'', p1, e2, hc⟩ := C110_within_partial r hb h ha
  rw [ht, Except.ok.injEq] at e1 e2
  subst e1
  subst e2
  have bR' : Built R' := by
    obtain ⟨R, Q, q1, q2, hR, q3, _⟩ := C110_root r
    obtain ⟨R0, o1, o2, o3⟩ := root_of r
    rw [q1, Except.ok.injEq] at o1
    subst o1
    rw [p1, Except.ok.injEq] at q2
    subst q2
    obtain ⟨_, f1, f2, _⟩ := C110_moved_partial r (wf_built o2) hR (fits_apart o3)
    rw [q3, Except.ok.injEq] at f1
    subst f1
    exact f2
  obtain ⟨b, f1, f2⟩ := C11_inclusion bR' b1
  rw [hc, Except.ok.injEq] at f1
  subst f1
  obtain ⟨l1, l2⟩ := f2.1 rfl
  have hn : ¬ r.Within t := by
    rintro ⟨R, hR, hl, hw⟩
    obtain ⟨R0, o1, o2, _⟩ := root_of r
    rw [hR, Except.ok.injEq] at o1
    subst o1
    obtain ⟨w, hw0⟩ := den_exists (built_wf b1)
    exact roots_disjoint r hR p1 o2 (built_wf bR') (hl.symm.trans l1) (hw w hw0) (l2 w hw0)
  refine ⟨hn, C110_left r b1 hn, fun s' hb' hw' he => hn ?_⟩
  obtain ⟨R, hR, hl, hw⟩ := hw'
  exact ⟨R, hR, by rw [layer_of_str (built_wf b1) (built_wf hb') he, hl],
    fun w h => hw w ((den_of_str (built_wf b1) (built_wf hb') he w).1 h)⟩

/-! ### The database -/

variable {x : Ext} {fs : FS}

/-- **C110, the files.** In a consistent database, when the texts are in the form the parser gives them and no new text has the file
of an old one, all the changes are made without error: what was stored for the old texts is added to the new ones, the old
texts have nothing left, and the others are unchanged.  Missing: a new text that has the file of an old one
(`C110_violated_chain`); with one rule that can only happen through the digests of long names, see `C110_again_partial`. -/
theorem C110_files_partial {m : List (Str × Str)} (hc : Consistent x fs) (hsc : SConsistent x fs) (hf : PlainFlags fs)
    (hl : SettingLeft x fs (m.map (·.1))) (ho : ∀ e ∈ m, x.Keeps e.1 ∧ x.Keeps e.2)
    (hd : ∀ e ∈ m, ∀ e' ∈ m, ∀ d, pathOf x e.2 d true ≠ pathOf x e'.1 d true) :
    ∃ steps fs', migrateSteps x fs m = .ok steps ∧ runSteps steps fs = (fs', none) ∧ Consistent x fs' ∧ SConsistent x fs' ∧
      MovedTo x fs fs' (m.map (·.1)) m := by
  obtain ⟨db, h⟩ := hc
  obtain ⟨sdb, g⟩ := hsc
  obtain ⟨hne, hfl, hk⟩ := moved_start g hf hl
  obtain ⟨s1, f1, d1, t1, e1, r1, h1, g1, v1, w1⟩ := migrateSteps_run h g hne hfl m ho hd h g
  exact ⟨_, f1, by unfold migrateSteps; rw [e1]; rfl, r1, ⟨_, h1⟩, ⟨_, g1⟩, moved_end h g h1 g1 hne hk v1 w1⟩

/-- **C110, the scripts that are moved**: exactly those the function changes, in order, with the texts before and after. -/
theorem C110_changed {f : Script → Except Err Script} : ∀ {l : List Script} {m : List (Str × Str)}, changedBy f l = .ok m →
    (∀ e, e ∈ m ↔ ∃ s ∈ l, ∃ t, f s = .ok t ∧ t.str ≠ s.str ∧ e = (s.str, t.str)) ∧ (m.map (·.1)).Sublist (l.map (·.str)) := by
  intro l
  induction l with
  | nil => intro m h; cases h; simp
  | cons s l ih =>
    intro m h
    unfold changedBy at h
    cases hs : f s with
    | error e => rw [hs] at h; cases h
    | ok t =>
      rw [hs] at h
      cases hr : changedBy f l with
      | error e => rw [hr] at h; cases h
      | ok r =>
        rw [hr] at h
        obtain ⟨i1, i2⟩ := ih hr
        simp only [bind, Except.bind, pure, Except.pure, Except.ok.injEq] at h
        by_cases he : t.str = s.str
        · have hp : t.pyEq s = true := by simp [Script.pyEq, he]
          rw [hp, if_pos rfl] at h
          subst h
          refine ⟨fun e => ?_, by rw [List.map_cons]; exact i2.cons _⟩
          rw [i1 e]
          constructor
          · rintro ⟨s', h1, h2⟩; exact ⟨s', List.mem_cons_of_mem _ h1, h2⟩
          · rintro ⟨s', h1, t', h2, h3, h4⟩
            rcases List.mem_cons.1 h1 with rfl | h1
            · rw [hs, Except.ok.injEq] at h2; subst h2; exact absurd he h3
            · exact ⟨s', h1, t', h2, h3, h4⟩
        · have hp : t.pyEq s = false := by simp [Script.pyEq, he]
          rw [hp, if_neg (by simp)] at h
          subst h
          refine ⟨fun e => ?_, by simp only [List.map_cons]; exact i2.cons_cons _⟩
          rw [List.mem_cons, i1 e]
          constructor
          · rintro (rfl | ⟨s', h1, h2⟩)
            · exact ⟨s, List.mem_cons_self, t, hs, he, rfl⟩
            · exact ⟨s', List.mem_cons_of_mem _ h1, h2⟩
          · rintro ⟨s', h1, t', h2, h3, h4⟩
            rcases List.mem_cons.1 h1 with rfl | h1
            · rw [hs, Except.ok.injEq] at h2; subst h2; exact .inl h4
            · exact .inr ⟨s', h1, t', h2, h3, h4⟩

/-- **C110, the program**, in a clean repository: it commits exactly the moves of the scripts that the function changes. -/
theorem C110_database_partial {scripts : FS → Except Err (List Script)} {f : Script → Except Err Script} {old new t : Script}
    {r : Repo} {l : List Script} {m : List (Str × Str)} (hr : r.Clean) (hc : Consistent x r.work) (hsc : SConsistent x r.work)
    (hf : PlainFlags r.work) (hl : SettingLeft x r.work (m.map (·.1))) (ht : f old = .ok t) (hn : t.str = new.str)
    (hs : scripts r.work = .ok l) (hm : changedBy f l = .ok m) (ho : ∀ e ∈ m, x.Keeps e.1 ∧ x.Keeps e.2)
    (hd : ∀ e ∈ m, ∀ e' ∈ m, ∀ d, pathOf x e.2 d true ≠ pathOf x e'.1 d true) :
    ∃ r', migrateDatabase x scripts f old new r none = (r', none) ∧ r'.Clean ∧ MovedTo x r.work r'.work (m.map (·.1)) m := by
  obtain ⟨steps, fs', e1, e2, _, _, hmv⟩ := C110_files_partial hc hsc hf hl ho hd
  have hds : ∃ u, getDescriptors r.work = .ok u := by
    obtain ⟨db, h⟩ := hc
    exact ⟨_, h.getDescriptors⟩
  have hst : ∃ u, getStructure r.work = .ok u := by
    obtain ⟨sdb, g⟩ := hsc
    exact ⟨_, g.getStructure (moved_start g hf hl).1⟩
  obtain ⟨u, hu⟩ := hds
  obtain ⟨v, hv⟩ := hst
  have hp : t.pyEq new = true := by simp [Script.pyEq, hn]
  have key : migrateDatabase x scripts f old new r none = r.transaction (runSteps steps) none := by
    unfold migrateDatabase
    simp only [ht, hp, hu, hv, hs, hm, e1, assertThat, bind, Except.bind, if_true]
  have hb : (runSteps steps r.work).2 = none := by rw [e2]
  rw [key]
  by_cases hw : ∀ p, Visible p → fsGet (runSteps steps r.work).1 p = fsGet r.work p
  · refine ⟨_, C36_nothing hr hb hw, ?_, by rw [e2]; exact hmv⟩
    intro p hp
    have := hr p hp
    exact ⟨this.1, by simp only; rw [hw p hp]; exact this.2⟩
  · simp only [not_forall] at hw
    obtain ⟨q, hq, hw⟩ := hw
    obtain ⟨r', tree, i1, -, -, i2, -, i3, -⟩ := C36_commit hr hb hq hw
    exact ⟨r', i1, i3, by rw [i2, e2]; exact hmv⟩

/-- **C110, error branch**: when the program stops with an error, whatever the point, the current commit and the visible files are
as before. -/
theorem C110_stopped {scripts : FS → Except Err (List Script)} {f : Script → Except Err Script} {old new : Script}
    {r r' : Repo} {fault : Option Fault} {e : Err} (hv : r.Valid) (h : migrateDatabase x scripts f old new r fault = (r', some e)) :
    r'.head = r.head ∧ r'.headTree = r.headTree ∧
      ∀ p, Visible p → fsGet r'.index p = fsGet r.index p ∧ fsGet r'.work p = fsGet r.work p := by
  have same : ∀ {r' : Repo}, r = r' → r'.head = r.head ∧ r'.headTree = r.headTree ∧
      ∀ p, Visible p → fsGet r'.index p = fsGet r.index p ∧ fsGet r'.work p = fsGet r.work p := by
    rintro _ rfl
    exact ⟨rfl, rfl, fun _ _ => ⟨rfl, rfl⟩⟩
  unfold migrateDatabase at h
  simp only at h
  split at h
  · injection h with h1 _
    exact same h1
  · rename_i steps _
    by_cases hc : r.Clean
    · have hf : (∃ e, (runSteps steps r.work).2 = some e) ∨ ((runSteps steps r.work).2 = none ∧ fault ≠ none ∧
          ∃ q, Visible q ∧ fsGet (runSteps steps r.work).1 q ≠ fsGet r.work q) := by
        cases hb : (runSteps steps r.work).2 with
        | some e => exact .inl ⟨e, rfl⟩
        | none =>
          right
          by_cases hw : ∀ p, Visible p → fsGet (runSteps steps r.work).1 p = fsGet r.work p
          · rw [C36_nothing hc hb hw] at h
            cases h
          · simp only [not_forall] at hw
            obtain ⟨q, hq, hw⟩ := hw
            refine ⟨rfl, ?_, q, hq, hw⟩
            rintro rfl
            obtain ⟨r'', _, i1, _⟩ := C36_commit hc hb hq hw
            rw [i1] at h
            cases h
      obtain ⟨r'', _, i1, _, i2, _, i3, i4⟩ := C36_rollback_partial hv hc hf
      rw [i1] at h
      injection h with h1 _
      subst h1
      exact ⟨i2, i3, i4⟩
    · rw [C36_refused _ _ hc] at h
      injection h with h1 _
      exact same h1

/-- **C110, error branch**: the program refuses a function that does not send the old root to the new one, before reading
anything. -/
theorem C110_refused {scripts : FS → Except Err (List Script)} {f : Script → Except Err Script} {old new t : Script} (r : Repo)
    (fault : Option Fault) (ht : f old = .ok t) (hn : t.str ≠ new.str) :
    migrateDatabase x scripts f old new r fault = (r, some .assertionError) := by
  have hp : t.pyEq new = false := by simp [Script.pyEq, hn]
  unfold migrateDatabase
  simp only [ht, hp, assertThat, bind, Except.bind]
  rfl

/-- The files left by the changes, or the error. -/
def migratedFiles (x : Ext) (fs : FS) (m : List (Str × Str)) : FS × Option Err :=
  match migrateSteps x fs m with
  | .error e => (fs, some e)
  | .ok steps => runSteps steps fs

/-- **C110, the files** are not those of the move when an expression is both moved and the target of a move: what was stored for
`S:+B:` is lost. -/
theorem C110_violated_chain :
    migratedFiles dictExt dictFs [(c!"S:+B:", c!"M:"), (c!"M:", c!"O:")] =
      ([(c!"morpheme/paradigm/O:.desc",
          c!"\"O:\" fr translations \"virtuel actuel\"\n\"O:\" en comments \"three\"\n\"O:\" fr translations \"signe etre chose\"\n"),
        (c!"morpheme/paradigm/O:.ieml", c!"\"O:\" is_root \"True\"\n\"O:\" inhibition \"twin\"\n\"O:\" is_root \"True\"\n")], none) := by
  decide +kernel

/-! ### The hypotheses are met -/

/-- Scripts moved by each rule. -/
example : Migration.sOOF.onText (c!"s.U:O:.-F:.-'") = .ok (c!"s.o.-U:O:.-'F:.-',", 4) ∧
    Migration.EMOto.onText (c!"E:B:O:.t.o.-") = .ok (c!"E:B:.-O:.-t.o.-'", 3) ∧
    Migration.EOOMt0.onText (c!"E:.-'U:O:.-M:.t.o.-',") = .ok (c!"E:.-'U:O:.-M:.-'t.o.-',", 4) ∧
    Migration.EOETI.onText (c!"E:.U:.E:T:.+I:.-") = .ok (c!"S:.U:.E:T:.+I:.-", 2) ∧
    Migration.temps.onText (c!"t.o.-n.o.-S:U:.-'") = .ok (c!"t.o.-n.o.-'j.-',", 4) ∧
    Migration.tidi.onText (c!"t.i.-d.i.-S:U:.-'") = .ok (c!"t.i.-d.i.-'j.-',", 4) := by
  decide +kernel

/-- A sum of two scripts within the root. -/
example : Migration.sOOF.onText (c!"s.wu.-+s.U:O:.-F:.-'") = .error .valueError := by decide +kernel

/-- Two scripts of the dictionary are moved by the rule and two are not. -/
def migFs : FS :=
  [(c!"morpheme/paradigm/M:.ieml", c!"\"M:\" is_root \"True\"\n"),
   (c!"morpheme/paradigm/M:.desc", c!"\"M:\" fr translations \"signe etre chose\"\n"),
   (c!"morpheme/paradigm/E:.O:.E:T:.+I:.-.ieml", c!"\"E:.O:.E:T:.+I:.-\" is_root \"True\"\n"),
   (c!"morpheme/paradigm/E:.U:.E:T:.+I:.-.desc", c!"\"E:.U:.E:T:.+I:.-\" en comments \"half\"\n")]

def migDb : List (Str × List Entry) :=
  [(c!"morpheme/paradigm/M:.desc", [⟨c!"M:", c!"fr", c!"translations", c!"signe etre chose"⟩]),
   (c!"morpheme/paradigm/E:.U:.E:T:.+I:.-.desc", [⟨c!"E:.U:.E:T:.+I:.-", c!"en", c!"comments", c!"half"⟩])]

def migSdb : List (Str × List Setting) :=
  [(c!"morpheme/paradigm/M:.ieml", [⟨c!"M:", c!"is_root", c!"True"⟩]),
   (c!"morpheme/paradigm/E:.O:.E:T:.+I:.-.ieml", [⟨c!"E:.O:.E:T:.+I:.-", c!"is_root", c!"True"⟩])]

theorem migFs_holds : Holds dictExt migFs migDb := by
  refine ⟨by decide +kernel, by decide +kernel, ?_, ?_⟩
  · intro f hf e he
    simp only [migDb, List.mem_cons, List.not_mem_nil, or_false] at hf
    rcases hf with rfl | rfl <;> simp only [List.mem_cons, List.not_mem_nil, or_false] at he <;> subst he <;> constructor <;> decide
  · decide +kernel

theorem migFs_sholds : SHolds dictExt migFs migSdb := by
  refine ⟨by decide +kernel, by decide +kernel, ?_, ?_⟩
  · intro f hf e he
    simp only [migSdb, List.mem_cons, List.not_mem_nil, or_false] at hf
    rcases hf with rfl | rfl <;> simp only [List.mem_cons, List.not_mem_nil, or_false] at he <;> subst he <;> constructor <;> decide
  · decide +kernel

/-- The scripts of the dictionary. -/
def migScripts : Except Err (List Script) := [c!"M:", c!"E:.O:.E:T:.+I:.-", c!"E:.U:.E:T:.+I:.-", c!"S:+B:"].mapM parseScript

def migMoves : List (Str × Str) :=
  [(c!"E:.O:.E:T:.+I:.-", c!"S:.O:.E:T:.+I:.-"), (c!"E:.U:.E:T:.+I:.-", c!"S:.U:.E:T:.+I:.-")]

example : ∃ R R' r', parseScript Migration.EOETI.root = .ok R ∧ parseScript Migration.EOETI.newRoot = .ok R' ∧
    migrateDatabase dictExt (fun _ => migScripts) Migration.EOETI.run R R' ⟨[⟨migFs, []⟩], 0, migFs, migFs⟩ none = (r', none) ∧
    r'.Clean ∧ MovedTo dictExt migFs r'.work (migMoves.map (·.1)) migMoves := by
  obtain ⟨R, R', h1, h2, _, h3, _⟩ := C110_root .EOETI
  have hl : ∃ l, migScripts = .ok l ∧ changedBy Migration.EOETI.run l = .ok migMoves := by
    have : (migScripts.bind (changedBy Migration.EOETI.run)) = .ok migMoves := by decide +kernel
    cases h : migScripts with
    | error e => rw [h] at this; cases this
    | ok l => rw [h] at this; exact ⟨l, rfl, this⟩
  obtain ⟨l, l1, l2⟩ := hl
  obtain ⟨r', e⟩ := C110_database_partial (x := dictExt) (scripts := fun _ => migScripts) (old := R) (new := R')
    (r := ⟨[⟨migFs, []⟩], 0, migFs, migFs⟩) (fun p _ => ⟨rfl, rfl⟩) ⟨_, migFs_holds⟩ ⟨_, migFs_sholds⟩ (by
      intro k a vs ha hi hv v hm
      rw [migFs_sholds.values (by decide) ha] at hv
      injection hv with hv
      subst hv
      obtain ⟨e, he, rfl⟩ := List.mem_map.1 hm
      have he := (List.mem_filter.1 he).1
      exact (by decide : ∀ e ∈ allSettings migSdb, e.value = c!"True" ∨ e.value = c!"False") e he)
    ⟨c!"M:", c!"is_root", c!"True", [], by decide, by decide +kernel, by
      intro o ho
      simp only [migMoves, List.map_cons, List.map_nil, List.mem_cons, List.not_mem_nil, or_false] at ho
      rcases ho with rfl | rfl <;> decide +kernel⟩ h3 rfl l1 l2 (by
      intro e he
      simp only [migMoves, List.mem_cons, List.not_mem_nil, or_false] at he
      rcases he with rfl | rfl <;> exact ⟨dict_keeps (by decide +kernel), dict_keeps (by decide +kernel)⟩) (by
      intro e he e' he' d
      simp only [migMoves, List.mem_cons, List.not_mem_nil, or_false] at he he'
      cases d <;> rcases he with rfl | rfl <;> rcases he' with rfl | rfl <;> decide +kernel)
  exact ⟨R, R', r', h1, h2, e⟩

/-- The files after it. -/
example : migratedFiles dictExt migFs migMoves =
    ([(c!"morpheme/paradigm/M:.ieml", c!"\"M:\" is_root \"True\"\n"),
      (c!"morpheme/paradigm/M:.desc", c!"\"M:\" fr translations \"signe etre chose\"\n"),
      (c!"morpheme/paradigm/S:.O:.E:T:.+I:.-.ieml", c!"\"S:.O:.E:T:.+I:.-\" is_root \"True\"\n"),
      (c!"morpheme/paradigm/S:.U:.E:T:.+I:.-.desc", c!"\"S:.U:.E:T:.+I:.-\" en comments \"half\"\n")], none) := by
  decide +kernel

end Verif
