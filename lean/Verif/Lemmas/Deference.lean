import Verif.Lemmas.Path
import Verif.Lemmas.WordText
import Verif.Lemmas.PolyMorpheme

/-
Lemmas on what paths reach.
-/

namespace Verif
open Script

theorem inGroup_mem {m : Script} {l : List Script} (h : m ∈ l) : inGroup m l = true := by
  unfold inGroup
  rw [List.any_eq_true]
  exact ⟨m, h, by simp [Script.pyEq]⟩

theorem deference_one (s : Step) (x : Node) : deference [s] x = s.reach x := by
  show (s.reach x >>= fun y => .ok y) = _
  cases s.reach x <;> rfl

theorem deference_cons {s : Step} {x y : Node} (h : s.reach x = .ok y) (p : Path) : deference (s :: p) x = deference p y := by
  show (s.reach x >>= fun y => deference p y) = _
  rw [h]
  rfl

/-- The entries of one group. -/
theorem groupPaths_reach {p : PM} {i : GIdx} {n : Nat} (hi : i.index = some n) {g : Group} (hg : p.groups[n]? = some g) :
    ∀ e ∈ groupPaths i g, deference e.1 (.expr (.pm p)) = .ok e.2 := by
  intro e he
  unfold groupPaths at he
  rcases List.mem_cons.1 he with rfl | he
  · rw [deference_one]
    simp only [Step.reach, hi, hg]
  · obtain ⟨m, hm, rfl⟩ := List.mem_map.1 he
    rw [deference_one]
    simp only [Step.reach, hi, hg, inGroup_mem hm]
    simp

theorem pm_reach (p : PM) : ∀ e ∈ p.paths, deference e.1 (.expr (.pm p)) = .ok e.2 := by
  intro e he
  have hc : ∀ m ∈ p.constant, deference [.pm .constant (some m) none] (.expr (.pm p)) = .ok (.expr (.script m)) := by
    intro m hm
    rw [deference_one]
    simp only [Step.reach, GIdx.index, inGroup_mem hm]
    simp
  unfold PM.paths at he
  rw [List.mem_append, List.mem_cons] at he
  rcases he with (rfl | he) | he
  · rfl
  · obtain ⟨m, hm, rfl⟩ := List.mem_map.1 he
    exact hc m hm
  · split at he
    · cases he
    · next h => exact groupPaths_reach (n := 0) rfl (by rw [h]; rfl) e he
    · next h =>
      rcases List.mem_append.1 he with he | he
      · exact groupPaths_reach (n := 0) rfl (by rw [h]; rfl) e he
      · exact groupPaths_reach (n := 1) rfl (by rw [h]; rfl) e he
    · next h =>
      rcases List.mem_append.1 he with he | he
      · rcases List.mem_append.1 he with he | he
        · exact groupPaths_reach (n := 0) rfl (by rw [h]; rfl) e he
        · exact groupPaths_reach (n := 1) rfl (by rw [h]; rfl) e he
      · exact groupPaths_reach (n := 2) rfl (by rw [h]; rfl) e he

/-- The shape of the entries of a polymorpheme. -/
theorem pm_entry {p : PM} {e : Path × Node} (he : e ∈ p.paths) :
    (∃ g k, e.1 = [.pm g none k]) ∨
    ∃ g m k, e = ([.pm g (some m) k], .expr (.script m)) ∧ (m ∈ p.constant ∨ ∃ h ∈ p.groups, m ∈ h.1) := by
  have hgr : ∀ {i : GIdx} {g : Group}, g ∈ p.groups → e ∈ groupPaths i g → (∃ g k, e.1 = [.pm g none k]) ∨
      ∃ g m k, e = ([.pm g (some m) k], .expr (.script m)) ∧ (m ∈ p.constant ∨ ∃ h ∈ p.groups, m ∈ h.1) := by
    intro i g hg he
    unfold groupPaths at he
    rcases List.mem_cons.1 he with rfl | he
    · exact .inl ⟨_, _, rfl⟩
    · obtain ⟨m, hm, rfl⟩ := List.mem_map.1 he
      exact .inr ⟨_, _, _, rfl, .inr ⟨g, hg, hm⟩⟩
  unfold PM.paths at he
  rw [List.mem_append, List.mem_cons] at he
  rcases he with (rfl | he) | he
  · exact .inl ⟨_, _, rfl⟩
  · obtain ⟨m, hm, rfl⟩ := List.mem_map.1 he
    exact .inr ⟨_, _, _, rfl, .inl hm⟩
  · split at he
    · cases he
    · next h => exact hgr (by rw [h]; simp) he
    · next h =>
      rcases List.mem_append.1 he with he | he
      · exact hgr (by rw [h]; simp) he
      · exact hgr (by rw [h]; simp) he
    · next h =>
      rcases List.mem_append.1 he with he | he
      · rcases List.mem_append.1 he with he | he
        · exact hgr (by rw [h]; simp) he
        · exact hgr (by rw [h]; simp) he
      · exact hgr (by rw [h]; simp) he

/-- No morpheme of a group is empty, as in every polymorpheme built by the constructor. -/
def FullGroups (p : PM) : Prop := ∀ g ∈ p.groups, ∀ m ∈ g.1, m.empty = false

theorem fullGroups_mkPM (cs : List Script) (gs : List Group) : FullGroups (mkPM cs gs) := by
  intro g hg m hm
  have hg : g ∈ pySort ltGroup (gs.map fun g => (pySort lt (filterEmpty g.1), g.2)) := hg
  rw [mem_pySort] at hg
  obtain ⟨h, _, rfl⟩ := List.mem_map.1 hg
  have hm : m ∈ pySort lt (filterEmpty h.1) := hm
  rw [mem_pySort] at hm
  simpa [filterEmpty] using (List.mem_filter.1 hm).2

/-- The entries of a lexeme: those of its flexion without a morpheme are the only ones whose path does not reach the value. -/
theorem lexeme_reach {x : Lexeme} (hf : FullGroups x.flexion) : ∀ e ∈ x.paths,
    deference e.1 (.expr (.lexeme x)) = .ok e.2 ∨ e.1 = [.lexeme false] := by
  intro e he
  unfold Lexeme.paths at he
  rw [List.mem_append, List.mem_cons] at he
  rcases he with (rfl | he) | he
  · exact .inr rfl
  · obtain ⟨y, hy, rfl⟩ := List.mem_map.1 he
    rcases pm_entry hy with ⟨g, k, h⟩ | ⟨g, m, k, rfl, h⟩
    · right
      simp [h, flexionChild]
    · left
      show deference [.lexeme false, .flexion m] _ = _
      rw [deference_cons (s := .lexeme false) (y := .expr (.pm x.flexion)) rfl, deference_one]
      have : inGroup m (x.flexion.constant ++ x.flexion.groups.flatMap fun g => filterEmpty g.1) = true := by
        apply inGroup_mem
        rw [List.mem_append, List.mem_flatMap]
        rcases h with h | ⟨g, hg, hm⟩
        · exact .inl h
        · exact .inr ⟨g, hg, by simp [filterEmpty, hm, hf g hg m hm]⟩
      simp only [Step.reach, this, if_true]
  · left
    rcases List.mem_cons.1 he with rfl | he
    · rfl
    · obtain ⟨y, hy, rfl⟩ := List.mem_map.1 he
      show deference (.lexeme true :: y.1) _ = _
      rw [deference_cons (s := .lexeme true) (y := .expr (.pm x.content)) rfl]
      exact pm_reach x.content y hy

/-! ### Roles -/

variable {α : Type}

theorem at_items {t : SType} {f : SFun α} (h : OkFun t f) {r : Addr} {x : Option α} (hr : (r, x) ∈ f.items) : f.at r = some x := by
  have key : ∀ {l : List (Addr × SF α)}, (l.map (·.1)).Nodup → (r, x) ∈ listed [] l →
      (l.find? fun e => e.1 = r).map (fun e => e.2.actor) = some x := by
    intro l hn hm
    obtain ⟨e, he, hh⟩ := List.mem_map.1 hm
    obtain ⟨he, hj⟩ := List.mem_filter.1 he
    simp only [List.nil_append, Prod.mk.injEq] at hh
    cases hf : l.find? fun e => e.1 = r with
    | none =>
      have := List.find?_eq_none.1 hf e he
      simp [hh.1] at this
    | some e' =>
      have h1 : e'.1 = r := by simpa using List.find?_some hf
      have h2 := List.mem_of_find?_eq_some hf
      have : e' = e := List.inj_on_of_nodup_map hn h2 he (h1.trans hh.1.symm)
      subst this
      simp [hh.2]
  have hn := nodes_nodup h
  have hi := items_nodup h
  cases f with
  | quality f => exact key hn hr
  | process a v acts =>
    rw [SFun.at]
    split
    · rename_i hv
      have h1 : ((([v], a) : RoleEntry α)) ∈ (SFun.process a v acts).items := by rw [SFun.items]; simp
      have := List.inj_on_of_nodup_map hi hr h1 hv
      simp only [Prod.mk.injEq] at this
      rw [this.2]
    · rename_i hv
      rw [SFun.items, List.mem_cons] at hr
      rcases hr with hr | hr
      · exact absurd (by simpa using congrArg Prod.fst hr) hv
      · exact key hn hr

theorem inner_not_valence {a : Str} (h : Inner a) : a ∉ valenceScripts := by
  rcases h with rfl | rfl | h | h
  · exact indep_not_valence
  · exact dep_not_valence
  · have : ∀ a ∈ junctionScripts, a ∉ valenceScripts := by decide +kernel
    exact this a h
  · have : ∀ a ∈ junctionIndex, a ∉ valenceScripts := by decide +kernel
    exact this a h

theorem get_quality {f : SFun α} {q : Str} (hq : q ∉ rolesInProcess) {r : Addr} {x : Option α}
    (hi : ∀ a ∈ r, Inner a) (ha : f.at r = some x) : f.get (q :: r) = .ok x := by
  unfold SFun.get
  simp only [hq, if_false]
  cases r with
  | nil => simp [bind, Except.bind, pure, Except.pure, ha]
  | cons a r =>
    have := inner_not_valence (hi a (by simp))
    simp [bind, Except.bind, pure, Except.pure, this, ha]

/-- The role of a lexeme, with its prefix, gives the lexeme. -/
theorem get_items {t : SType} {f : SFun α} (h : OkFun t f) {r : Addr} {x : Option α} (hr : (r, x) ∈ f.items) :
    f.get (t.pre ++ r) = .ok x := by
  have ha := at_items h hr
  cases t with
  | dependant =>
    cases f with
    | process => cases h
    | quality f =>
      obtain ⟨n, h⟩ := h
      exact get_quality (by decide +kernel) (okD_inner h _ hr) ha
  | independant =>
    cases f with
    | process => cases h
    | quality f =>
      obtain ⟨n, h⟩ := h
      exact get_quality (by decide +kernel) (okI_inner h _ hr) ha
  | process =>
    cases f with
    | quality f => cases h
    | process b v acts =>
      obtain ⟨hv, n, _, h⟩ := h
      show (SFun.process b v acts).get r = _
      rw [SFun.items, List.mem_cons] at hr
      have hat : ∀ w ∈ valenceScripts, ((SFun.process b v acts).at [w]).isSome = true → w = v := by
        intro w hw hs
        rw [SFun.at] at hs
        split at hs
        · rename_i e
          simpa using e
        · cases hf : (processActors acts).find? fun e => e.1 = [w] with
          | none => rw [hf] at hs; cases hs
          | some e =>
            have h1 : e.1 = [w] := by simpa using List.find?_some hf
            exact absurd h1 (processActors_ne h hw (List.mem_of_find?_eq_some hf))
      rcases hr with hr | hr
      · cases hr
        have hrole : v ∈ rolesInProcess := by simp [rolesInProcess, hv]
        have hfind : (valenceScripts.find? fun w => ((SFun.process x v acts).at [w]).isSome) = some v := by
          cases hf : valenceScripts.find? fun w => ((SFun.process x v acts).at [w]).isSome with
          | none =>
            have := List.find?_eq_none.1 hf v hv
            rw [ha] at this
            simp at this
          | some w =>
            have h1 := List.find?_some hf
            rw [hat w (List.mem_of_find?_eq_some hf) h1]
        unfold SFun.get
        simp [bind, Except.bind, pure, Except.pure, hrole, hv, hfind, ha]
      · rw [listed_process] at hr
        obtain ⟨g, hg, y, hy, he⟩ := mem_actLeaves hr
        simp only [pushAddr, List.cons_append, List.nil_append, Prod.mk.injEq] at he
        have hr1 := he.1
        subst hr1
        have h1 := (h g hg).1
        have hrole : g.1 ∈ rolesInProcess := by simp [rolesInProcess, h1]
        have hnv := actant_not_valence _ h1
        unfold SFun.get
        simp [bind, Except.bind, pure, Except.pure, hrole, hnv, ha]

end Verif
