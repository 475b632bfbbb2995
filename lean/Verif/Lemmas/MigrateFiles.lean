import Verif.Model.Migrate
import Verif.Lemmas.Maintenance

/-
The changes made to the files by `migrate` (`scripts/migrate_script.py`).
-/

namespace Verif

variable {x : Ext} {fs : FS} {sdb : List (Str × List Setting)} {db : List (Str × List Entry)}

/-- Moving one expression. -/
theorem migrateStep_run {all : FS} {db₀ : List (Str × List Entry)} {sdb₀ : List (Str × List Setting)} (h₀ : Holds x all db₀) (g₀ : SHolds x all sdb₀)
    (hne : allSettings sdb₀ ≠ []) (hfl : FlagsPlain (allSettings sdb₀)) {old new : Str} (hold : x.Keeps old) (hnew : x.Keeps new)
    (h : Holds x fs db) (g : SHolds x fs sdb) :
    ∃ ss fs' db' sdb', migrateStep x all old new = .ok ss ∧ runSteps ss fs = (fs', none) ∧ Holds x fs' db' ∧ SHolds x fs' sdb' ∧
      (∀ k l d, storedValues (allEntries db') k l d =
        (if pathOf x k true true = pathOf x old true true then [] else storedValues (allEntries db) k l d) ++
        if k = new then cleaned (storedValues (allEntries db₀) old l d) else []) ∧
      ∀ k a, settingValues (allSettings sdb') k a =
        (if pathOf x k false true = pathOf x old false true then [] else settingValues (allSettings sdb) k a) ++
        if k = new then settingValues (allSettings sdb₀) old a else [] := by
  obtain ⟨op, hop⟩ := hold.path true
  obtain ⟨oq, hoq⟩ := hold.path false
  obtain ⟨p, hp⟩ := hnew.path true
  obtain ⟨q, hq⟩ := hnew.path false
  obtain ⟨ks, hks, nks, mks⟩ := h₀.groups old
  obtain ⟨as, has, nas, mas⟩ := g₀.groups hne old
  obtain ⟨f0, s0, e0, g0, w0⟩ := g.removeAll hold.text hoq
  obtain ⟨f1, s1, e1, g1, k1, w1⟩ := SHolds.addGroups (fun a => settingValues (allSettings sdb₀) old a) hnew.text hq as g0 nas (by
    intro a _ v hv
    obtain ⟨i1, i2⟩ := settingValues_fits g₀ hv
    exact ⟨⟨hnew.line, i2.attr, i2.value, i2.inhibition⟩, hfl _ i1⟩)
  obtain ⟨f2, d2, e2, h2, -, -, v2⟩ := ((h.keep (removeStructure_keeps e0)).keep k1).removeDescriptor_all hold.text hop
  obtain ⟨f3, d3, e3, h3, k3, w3⟩ := Holds.addGroups (fun l d => storedValues (allEntries db₀) old l d) hnew.text hp hnew.line.1 ks
    h2 nks (by
      rintro ⟨l, d⟩ hg
      obtain ⟨v, hv⟩ := List.exists_mem_of_ne_nil _ ((mks l d).1 hg)
      obtain ⟨_, i1, i2⟩ := storedValues_fits h₀ hv
      exact ⟨i1, i2, fun v hv => oneLine_strip (storedValues_fits h₀ hv).1⟩)
  refine ⟨_, f3, d3, s1, by unfold migrateStep; rw [has, hks]; rfl, ?_, h3, (g1.keep (removeDescriptor_keeps e2)).keep k3,
    fun k l d => ?_, fun k a => ?_⟩
  · refine runSteps_append.2 ⟨f1, runSteps_cons.2 ⟨f0, e0, ?_⟩, runSteps_cons.2 ⟨f2, e2, ?_⟩⟩
    · rw [List.flatMap_map]
      exact (runSteps_flatMap (fun a => settingValues (allSettings sdb₀) old a)
        (fun a v fs => addStructure x fs (some new) (some a) (some v))).2 e1
    · rw [List.flatMap_map]
      exact (runSteps_flatMap (fun g : Str × Str => storedValues (allEntries db₀) old g.1 g.2)
        (fun g v fs => addDescriptor x fs (some new) (some g.1) (some g.2) v)).2 e3
  · rw [hop, ← v2 k l d, w3]
    by_cases hk : k = new
    · subst hk
      by_cases hm : (l, d) ∈ ks
      · simp [hm]
      · have : storedValues (allEntries db₀) old l d = [] := by
          by_contra hc
          exact hm ((mks l d).2 hc)
        simp [hm, this, cleaned]
    · simp [hk]
  · rw [hoq, ← w0 k a, w1]
    by_cases hk : k = new
    · subst hk
      by_cases hm : a ∈ as
      · simp [hm]
      · have : settingValues (allSettings sdb₀) old a = [] := by
          by_contra hc
          exact hm ((mas a).2 hc)
        simp [hm, this]
    · simp [hk]

/-- Values after removing the files of some expressions and copying others, in turn. -/
theorem turn_values {γ : Type} {path : Str → Except Err Str} {F : Str × Str → List γ} {k : Str} {e : Str × Str} {m : List (Str × Str)}
    {v0 v1 v2 : List γ} (hd : ∀ e' ∈ e :: m, ∀ e'' ∈ e :: m, path e'.2 ≠ path e''.1)
    (h1 : v1 = (if path k = path e.1 then [] else v0) ++ if k = e.2 then F e else [])
    (h2 : ((∃ o ∈ m.map (·.1), path k = path o) → v2 = []) ∧
      ((∀ o ∈ m.map (·.1), path k ≠ path o) → v2 = v1 ++ m.flatMap fun e => if k = e.2 then F e else [])) :
    ((∃ o ∈ (e :: m).map (·.1), path k = path o) → v2 = []) ∧
      ((∀ o ∈ (e :: m).map (·.1), path k ≠ path o) → v2 = v0 ++ (e :: m).flatMap fun e => if k = e.2 then F e else []) := by
  constructor
  · rintro ⟨o, ho, hk⟩
    by_cases hin : ∃ o ∈ m.map (·.1), path k = path o
    · exact h2.1 hin
    · rw [List.map_cons] at ho
      rcases List.mem_cons.1 ho with rfl | ho
      · have n1 : k ≠ e.2 := by rintro rfl; exact hd e (by simp) e (by simp) hk
        have n2 : (m.flatMap fun e => if k = e.2 then F e else []) = [] :=
          List.flatMap_eq_nil_iff.2 fun e' he' => if_neg (by rintro rfl; exact hd e' (by simp [he']) e (by simp) hk)
        rw [h2.2 fun o ho e => hin ⟨o, ho, e⟩, h1, if_pos hk, if_neg n1, n2]
        rfl
      · exact absurd ⟨o, ho, hk⟩ hin
  · intro hn
    rw [h2.2 fun o ho => hn o (by rw [List.map_cons]; exact List.mem_cons_of_mem _ ho), h1, if_neg (hn e.1 (by simp)),
      List.flatMap_cons, List.append_assoc]

/-- Moving several expressions in turn, when no new expression has the file of an old one. -/
theorem migrateSteps_run {all : FS} {db₀ : List (Str × List Entry)} {sdb₀ : List (Str × List Setting)} (h₀ : Holds x all db₀) (g₀ : SHolds x all sdb₀)
    (hne : allSettings sdb₀ ≠ []) (hfl : FlagsPlain (allSettings sdb₀)) : ∀ (m : List (Str × Str)), (∀ e ∈ m, x.Keeps e.1 ∧ x.Keeps e.2) →
    (∀ e ∈ m, ∀ e' ∈ m, ∀ d, pathOf x e.2 d true ≠ pathOf x e'.1 d true) →
    ∀ {fs : FS} {db : List (Str × List Entry)} {sdb : List (Str × List Setting)}, Holds x fs db → SHolds x fs sdb →
    ∃ ss fs' db' sdb', m.mapM (fun e => migrateStep x all e.1 e.2) = .ok ss ∧
      runSteps ss.flatten fs = (fs', none) ∧ Holds x fs' db' ∧ SHolds x fs' sdb' ∧
      (∀ k l d, ((∃ o ∈ m.map (·.1), pathOf x k true true = pathOf x o true true) → storedValues (allEntries db') k l d = []) ∧
        ((∀ o ∈ m.map (·.1), pathOf x k true true ≠ pathOf x o true true) → storedValues (allEntries db') k l d =
          storedValues (allEntries db) k l d ++ m.flatMap fun e => if k = e.2 then cleaned (storedValues (allEntries db₀) e.1 l d) else [])) ∧
      ∀ k a, ((∃ o ∈ m.map (·.1), pathOf x k false true = pathOf x o false true) → settingValues (allSettings sdb') k a = []) ∧
        ((∀ o ∈ m.map (·.1), pathOf x k false true ≠ pathOf x o false true) → settingValues (allSettings sdb') k a =
          settingValues (allSettings sdb) k a ++ m.flatMap fun e => if k = e.2 then settingValues (allSettings sdb₀) e.1 a else [])
  | [], _, _, fs, db, sdb, h, g => ⟨[], fs, db, sdb, rfl, rfl, h, g, by simp, by simp⟩
  | e :: m, hm, hd, fs, db, sdb, h, g => by
    obtain ⟨s1, f1, d1, t1, e1, r1, h1, g1, v1, w1⟩ := migrateStep_run h₀ g₀ hne hfl (hm e (by simp)).1 (hm e (by simp)).2 h g
    obtain ⟨s2, f2, d2, t2, e2, r2, h2, g2, v2, w2⟩ := migrateSteps_run h₀ g₀ hne hfl m (fun e he => hm e (by simp [he]))
      (fun e he e' he' => hd e (by simp [he]) e' (by simp [he'])) h1 g1
    refine ⟨s1 :: s2, f2, d2, t2, ?_, ?_, h2, g2, fun k l d => ?_, fun k a => ?_⟩
    · rw [List.mapM_cons, e1, e2]; rfl
    · rw [List.flatten_cons]
      exact runSteps_append.2 ⟨f1, r1, r2⟩
    · exact turn_values (F := fun e => cleaned (storedValues (allEntries db₀) e.1 l d)) (path := fun k => pathOf x k true true)
        (fun e' h' e'' h'' => hd e' h' e'' h'' true) (v1 k l d) (v2 k l d)
    · exact turn_values (F := fun e => settingValues (allSettings sdb₀) e.1 a) (path := fun k => pathOf x k false true)
        (fun e' h' e'' h'' => hd e' h' e'' h'' false) (w1 k a) (w2 k a)

end Verif
