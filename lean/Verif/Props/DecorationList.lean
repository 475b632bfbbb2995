import Verif.Props.Decoration

/-
C55: the decorations of an `InstancedUSL` are those it was given.
-/

namespace Verif
open Script

/-! ### Any objects -/

section
variable {ρ : Type} [DecidableEq ρ]

/-- The decoration reaches the object. -/
def hits (o : Objects ρ) (r : ρ) (d : Path × Str) : Bool :=
  match o.reach d.1 with
  | .ok (some x) => decide (x = r)
  | _ => false

theorem hits_iff {o : Objects ρ} {r : ρ} {d : Path × Str} : hits o r d = true ↔ o.reach d.1 = .ok (some r) := by
  unfold hits
  rcases o.reach d.1 with e | (_ | x) <;> simp

/-- The value of the last decoration that reaches the object. -/
def lastValue (o : Objects ρ) (ds : List (Path × Str)) (r : ρ) : Option Str := ((ds.filter (hits o r)).getLast?).map (·.2)

theorem applyAll_ok {o : Objects ρ} (ds : List (Path × Str)) : (∀ d ∈ ds, ∃ r, o.reach d.1 = .ok (some r)) → ∀ (f : Bool) (w : World ρ),
    (applyAll o (ds.map some) f w).1 = .ok (f || ds.any fun d => isFlexionPath d.1) ∧
    ∀ r, (applyAll o (ds.map some) f w).2.lit r = (lastValue o ds r).or (w.lit r) := by
  induction ds with
  | nil => exact fun _ f w => ⟨by simp [applyAll], fun r => rfl⟩
  | cons d ds ih =>
    intro h f w
    obtain ⟨r0, h0⟩ := h d (by simp)
    have : applyAll o ((d :: ds).map some) f w = applyAll o (ds.map some) (isFlexionPath d.1 || f) (w.set r0 d.2) := by
      simp [applyAll, applyDecoration, h0]
    rw [this]
    obtain ⟨h1, h2⟩ := ih (fun d hd => h d (by simp [hd])) (isFlexionPath d.1 || f) (w.set r0 d.2)
    refine ⟨?_, fun r => ?_⟩
    · rw [h1]
      simp only [List.any_cons]
      cases f <;> cases isFlexionPath d.1 <;> simp
    · rw [h2]
      unfold lastValue
      by_cases hr : r = r0
      · subst hr
        have hh : hits o r d = true := hits_iff.2 h0
        rw [List.filter_cons, if_pos hh, List.getLast?_cons]
        cases (ds.filter (hits o r)).getLast? <;> simp [World.set]
      · have hh : ¬ hits o r d = true := by
          rw [hits_iff, h0]
          simpa using fun e : r0 = r => hr e.symm
        rw [List.filter_cons, if_neg hh]
        simp [World.set, hr]

/-- What an `InstancedUSL` lists, for any objects: the paths whose object was reached by a decoration, with the value of the last
one, and the paths whose object had a literal before. -/
theorem C55_exact (ord : List (Path × Str) → List (Path × Str)) {o : Objects ρ} {ds : List (Path × Str)}
    (h : ∀ d ∈ ds, ∃ r, o.reach d.1 = .ok (some r)) (w : World ρ) :
    (instanced ord o (ds.map some) w).1 = (o.listing (ds.any fun d => isFlexionPath d.1)).map fun L =>
      ord (L.filterMap fun e => ((lastValue o ds e.2).or (w.lit e.2)).map fun v => (e.1, v)) := by
  obtain ⟨h1, h2⟩ := applyAll_ok ds h false w.enter
  unfold instanced
  rcases hh : applyAll o (ds.map some) false w.enter with ⟨r, w'⟩
  rw [hh] at h1 h2
  simp only at h1 h2
  subst h1
  simp only [Bool.false_or, listDecorations]
  congr 1
  funext L
  congr 2
  funext e
  rw [h2]
  rfl

/-- The texts of a decoration. -/
def decKey (d : Path × Str) : Str × Str := (pathText d.1, d.2)

/-- If each decoration reaches an object that is listed once, under the same path, the decorations listed are those given. -/
theorem listed_given {ord : List (Path × Str) → List (Path × Str)} (ho : ∀ l, (ord l).Perm l) {o : Objects ρ} {ds : List (Path × Str)}
    {L : List (Path × ρ)} (hL : o.listing (ds.any fun d => isFlexionPath d.1) = .ok L) {w : World ρ} (hw : ∀ e ∈ L, w.lit e.2 = none)
    (hd : ∀ d ∈ ds, ∃ e ∈ L, o.reach d.1 = .ok (some e.2) ∧ pathText e.1 = pathText d.1 ∧ (L.map (·.2)).count e.2 = 1)
    (hn : (ds.map fun d => pathText d.1).Nodup) :
    ∃ D, (instanced ord o (ds.map some) w).1 = .ok D ∧ (D.map decKey).Perm (ds.map decKey) := by
  rw [C55_exact ord (fun d hdd => by obtain ⟨e, _, h, _⟩ := hd d hdd; exact ⟨_, h⟩) w, hL]
  refine ⟨_, rfl, ((ho _).map decKey).trans ?_⟩
  -- the value of an object
  have hval : ∀ {r : ρ} {v : Str}, lastValue o ds r = some v ↔ ∃ d ∈ ds, o.reach d.1 = .ok (some r) ∧ d.2 = v := by
    intro r v
    have huniq : ∀ d ∈ ds, ∀ d' ∈ ds, o.reach d.1 = .ok (some r) → o.reach d'.1 = .ok (some r) → d = d' := by
      intro d hdd d' hdd' h1 h2
      obtain ⟨e, he, h3, h4, h5⟩ := hd d hdd
      obtain ⟨e', he', h3', h4', h5'⟩ := hd d' hdd'
      rw [h1] at h3
      rw [h2] at h3'
      simp only [Except.ok.injEq, Option.some.injEq] at h3 h3'
      have : e = e' := by
        have hc : 1 = ((L.filter fun x => x.2 = r)).length := by
          rw [← h5, ← h3, List.count, List.countP_map, List.countP_eq_length_filter]
          congr 1
        obtain ⟨a, ha⟩ := List.length_eq_one_iff.1 hc.symm
        have h6 : e ∈ L.filter fun x => x.2 = r := by simp [he, h3]
        have h7 : e' ∈ L.filter fun x => x.2 = r := by simp [he', h3']
        rw [ha, List.mem_singleton] at h6 h7
        rw [h6, h7]
      subst this
      exact List.inj_on_of_nodup_map hn hdd hdd' (h4.symm.trans h4')
    constructor
    · intro h
      obtain ⟨d, h1, h2⟩ := Option.map_eq_some_iff.1 h
      obtain ⟨h3, h4⟩ := List.mem_filter.1 (List.mem_of_getLast? h1)
      exact ⟨d, h3, hits_iff.1 h4, h2⟩
    · rintro ⟨d, h1, h2, rfl⟩
      unfold lastValue
      have hm : d ∈ ds.filter (hits o r) := List.mem_filter.2 ⟨h1, hits_iff.2 h2⟩
      cases hg : (ds.filter (hits o r)).getLast? with
      | none =>
        rw [List.getLast?_eq_none_iff] at hg
        rw [hg] at hm
        cases hm
      | some d' =>
        obtain ⟨h3, h4⟩ := List.mem_filter.1 (List.mem_of_getLast? hg)
        rw [huniq d h1 d' h3 h2 (hits_iff.1 h4)]
        rfl
  have hfm : ∀ x, x ∈ (L.filterMap fun e => ((lastValue o ds e.2).or (w.lit e.2)).map fun v => (e.1, v)) ↔
      ∃ e ∈ L, ∃ d ∈ ds, o.reach d.1 = .ok (some e.2) ∧ x = (e.1, d.2) := by
    intro x
    rw [List.mem_filterMap]
    constructor
    · rintro ⟨e, he, h⟩
      rw [hw e he, Option.or_none, Option.map_eq_some_iff] at h
      obtain ⟨v, h1, h2⟩ := h
      obtain ⟨d, h3, h4, rfl⟩ := hval.1 h1
      exact ⟨e, he, d, h3, h4, h2.symm⟩
    · rintro ⟨e, he, d, h1, h2, rfl⟩
      refine ⟨e, he, ?_⟩
      rw [hw e he, Option.or_none, hval.2 ⟨d, h1, h2, rfl⟩]
      rfl
  have hone : ∀ d ∈ ds, ∀ e ∈ L, o.reach d.1 = .ok (some e.2) → pathText e.1 = pathText d.1 ∧ (L.map (·.2)).count e.2 = 1 := by
    intro d h1 e he h2
    obtain ⟨e', he', h3, h4, h5⟩ := hd d h1
    rw [h2] at h3
    simp only [Except.ok.injEq, Option.some.injEq] at h3
    have : e = e' := by
      have hc : 1 = ((L.filter fun x => x.2 = e.2)).length := by
        rw [← h5, ← h3, List.count, List.countP_map, List.countP_eq_length_filter]
        congr 1
      obtain ⟨a, ha⟩ := List.length_eq_one_iff.1 hc.symm
      have h6 : e ∈ L.filter fun x => x.2 = e.2 := by simp [he]
      have h7 : e' ∈ L.filter fun x => x.2 = e.2 := by simp [he', h3]
      rw [ha, List.mem_singleton] at h6 h7
      rw [h6, h7]
    subst this
    exact ⟨h4, h5⟩
  rw [List.perm_ext_iff_of_nodup]
  · intro k
    rw [List.mem_map, List.mem_map]
    constructor
    · rintro ⟨x, hx, rfl⟩
      obtain ⟨e, he, d, h1, h2, rfl⟩ := (hfm x).1 hx
      exact ⟨d, h1, by simp [decKey, (hone d h1 e he h2).1]⟩
    · rintro ⟨d, h1, rfl⟩
      obtain ⟨e, he, h2, h3, _⟩ := hd d h1
      exact ⟨(e.1, d.2), (hfm _).2 ⟨e, he, d, h1, h2, rfl⟩, by simp [decKey, h3]⟩
  · -- the texts of the paths listed are different
    suffices h : ((L.filterMap fun e => ((lastValue o ds e.2).or (w.lit e.2)).map fun v => (e.1, v)).map decKey).Nodup from h
    rw [List.map_filterMap]
    have hsub : (L.filter fun e => (lastValue o ds e.2).isSome).map (·.2) |>.Nodup := by
      rw [List.nodup_iff_count_le_one]
      intro r
      by_cases hr : r ∈ (L.filter fun e => (lastValue o ds e.2).isSome).map (·.2)
      · obtain ⟨e, he, rfl⟩ := List.mem_map.1 hr
        obtain ⟨he, hs⟩ := List.mem_filter.1 he
        obtain ⟨v, hv⟩ := Option.isSome_iff_exists.1 hs
        obtain ⟨d, h1, h2, _⟩ := hval.1 hv
        rw [← (hone d h1 e he h2).2]
        exact ((List.filter_sublist (l := L)).map (·.2)).count_le e.2
      · rw [List.count_eq_zero.2 hr]
        exact Nat.zero_le _
    have heq : (L.filterMap fun e => (((lastValue o ds e.2).or (w.lit e.2)).map fun v => (e.1, v)).map decKey) =
        (L.filter fun e => (lastValue o ds e.2).isSome).map fun e => (pathText e.1, (lastValue o ds e.2).getD []) := by
      rw [← List.filterMap_eq_map, List.filterMap_filter]
      apply List.filterMap_congr
      intro e he
      rw [hw e he, Option.or_none]
      cases hv : lastValue o ds e.2 <;> simp [decKey, hv]
    rw [heq]
    refine List.Nodup.map_on ?_ (List.Nodup.of_map _ hsub)
    intro e he e' he' h
    simp only [Prod.mk.injEq] at h
    refine List.inj_on_of_nodup_map hsub he he' ?_
    obtain ⟨he, hs⟩ := List.mem_filter.1 he
    obtain ⟨he', hs'⟩ := List.mem_filter.1 he'
    obtain ⟨v, hv⟩ := Option.isSome_iff_exists.1 hs
    obtain ⟨v', hv'⟩ := Option.isSome_iff_exists.1 hs'
    obtain ⟨d, h1, h2, _⟩ := hval.1 hv
    obtain ⟨d', h1', h2', _⟩ := hval.1 hv'
    have h3 := (hone d h1 e he h2).1
    have h3' := (hone d' h1' e' he' h2').1
    have : d = d' := List.inj_on_of_nodup_map hn h1 h1' (h3.symm.trans (h.1.trans h3'))
    subst this
    rw [h2] at h2'
    simpa using h2'
  · exact List.Nodup.of_map Prod.fst (by simpa [List.map_map, Function.comp_def, decKey] using hn)

end

/-! ### The objects of USLs -/

/-- The role of a lexeme, with its prefix, gives its key. -/
theorem slot_items {α : Type} {t : SType} {f : SFun α} (h : OkFun t f) {r : Addr} {x : Option α} (hr : (r, x) ∈ f.items) :
    f.slot (t.pre ++ r) = .ok r := by
  have ha := at_items h hr
  have hq : ∀ {q : Str}, q ∉ rolesInProcess → (∀ a ∈ r, Inner a) → f.slot (q :: r) = .ok r := by
    intro q hq hi
    unfold SFun.slot
    simp only [hq, if_false]
    cases r with
    | nil => rfl
    | cons a r =>
      have := inner_not_valence (hi a (by simp))
      simp [bind, Except.bind, pure, Except.pure, this]
  cases t with
  | dependant =>
    cases f with
    | process => cases h
    | quality f =>
      obtain ⟨n, h⟩ := h
      exact hq (by decide +kernel) (okD_inner h _ hr)
  | independant =>
    cases f with
    | process => cases h
    | quality f =>
      obtain ⟨n, h⟩ := h
      exact hq (by decide +kernel) (okI_inner h _ hr)
  | process =>
    cases f with
    | quality f => cases h
    | process b v acts =>
      obtain ⟨hv, n, _, h⟩ := h
      show (SFun.process b v acts).slot r = _
      rw [SFun.items, List.mem_cons] at hr
      have hat : ∀ w ∈ valenceScripts, ((SFun.process b v acts).at [w]).isSome = true → w = v := by
        intro w hw hs
        rw [SFun.at] at hs
        split at hs
        · rename_i e
          simpa using e
        · cases hf : (processActors acts).find? fun e => e.1 = [w] with
          | none => rw [hf] at hs; cases hs
          | some e =>
            have h1 : e.1 = [w] := by simpa using List.find?_some hf
            exact absurd h1 (processActors_ne h hw (List.mem_of_find?_eq_some hf))
      rcases hr with hr | hr
      · cases hr
        have hrole : v ∈ rolesInProcess := by simp [rolesInProcess, hv]
        have hfind : (valenceScripts.find? fun w => ((SFun.process x v acts).at [w]).isSome) = some v := by
          cases hf : valenceScripts.find? fun w => ((SFun.process x v acts).at [w]).isSome with
          | none =>
            have := List.find?_eq_none.1 hf v hv
            rw [ha] at this
            simp at this
          | some w =>
            have h1 := List.find?_some hf
            rw [hat w (List.mem_of_find?_eq_some hf) h1]
        unfold SFun.slot
        simp [bind, Except.bind, pure, Except.pure, hrole, hv, hfind]
      · rw [listed_process] at hr
        obtain ⟨g, hg, y, hy, he⟩ := mem_actLeaves hr
        simp only [pushAddr, List.cons_append, List.nil_append, Prod.mk.injEq] at he
        have hr1 := he.1
        subst hr1
        have h1 := (h g hg).1
        have hrole : g.1 ∈ rolesInProcess := by simp [rolesInProcess, h1]
        have hnv := actant_not_valence _ h1
        unfold SFun.slot
        simp [bind, Except.bind, pure, Except.pure, hrole, hnv]

/-- `get` is what is at the slot. -/
theorem get_slot {α : Type} (f : SFun α) (r : Addr) : f.get r = (f.slot r >>= fun a => match f.at a with
    | some x => .ok x
    | none => .error .keyError) := by
  unfold SFun.get SFun.slot
  cases r with
  | nil => rfl
  | cons a r =>
    simp only [bind, Except.bind, pure, Except.pure]
    generalize (if a ∈ rolesInProcess then a :: r else r) = b
    cases b with
    | nil => simp only; cases f.at [] <;> rfl
    | cons c b =>
      simp only
      split
      · cases valenceScripts.find? fun v => (f.at [v]).isSome with
        | none => rfl
        | some v => simp only; cases f.at (v :: b) <;> rfl
      · simp only; cases f.at (c :: b) <;> rfl

/-- An object of the USL, not one that is built for a path. -/
def Kept : Ref → Prop
  | .temp _ _ => False
  | _ => True

/-- The morphemes of the path are the objects of the USL. -/
def Agree (pk uk : Str → Str) (p : Path) : Prop :=
  (∀ g m k, Step.pm g (some m) k ∈ p → pk m.str = uk m.str) ∧ ∀ m, Step.flexion m ∈ p → pk m.str = uk m.str

theorem group_paths_objs (uk : Str → Str) (i : GIdx) (g : Group) : (groupObjs uk i g).map (·.1) = (groupPaths i g).map (·.1) := by
  simp [groupObjs, groupPaths, Function.comp_def]

theorem pm_paths_objs (uk : Str → Str) (p : PM) : (p.objs uk).map (·.1) = p.paths.map (·.1) := by
  unfold PM.objs PM.paths
  rw [List.map_append, List.map_append]
  congr 1
  · simp [Function.comp_def]
  · rcases p.groups with _ | ⟨a, _ | ⟨b, _ | ⟨c, t⟩⟩⟩ <;> simp [group_paths_objs]

theorem lexeme_paths_objs (uk : Str → Str) (r : Ref) (x : Lexeme) : (x.objs uk r).map (·.1) = x.paths.map (·.1) := by
  unfold Lexeme.objs Lexeme.paths
  have h : ∀ p : PM, (p.objs uk).map (fun e => Step.lexeme true :: e.1) = p.paths.map fun e => Step.lexeme true :: e.1 := by
    intro p
    have := congrArg (List.map (Step.lexeme true :: ·)) (pm_paths_objs uk p)
    simpa [List.map_map, Function.comp_def] using this
  have h' : ∀ p : PM, (p.objs uk).map (fun e => Step.lexeme false :: flexionChild e.1) = p.paths.map fun e => Step.lexeme false :: flexionChild e.1 := by
    intro p
    have := congrArg (List.map (fun q => Step.lexeme false :: flexionChild q)) (pm_paths_objs uk p)
    simpa [List.map_map, Function.comp_def] using this
  simp [Function.comp_def, h, h']

theorem pm_refs {uk : Str → Str} {p : PM} {e : Path × Ref} (he : e ∈ p.objs uk) (hk : Kept e.2) :
    ∃ i m k, e = ([.pm i (some m) k], .script (uk m.str)) := by
  have hg : ∀ {i g}, e ∈ groupObjs uk i g → ∃ i m k, e = ([.pm i (some m) k], .script (uk m.str)) := by
    intro i g he
    unfold groupObjs at he
    rcases List.mem_cons.1 he with rfl | he
    · cases hk
    · obtain ⟨m, _, rfl⟩ := List.mem_map.1 he
      exact ⟨i, m, _, rfl⟩
  unfold PM.objs at he
  rw [List.mem_append, List.mem_cons] at he
  rcases he with (rfl | he) | he
  · cases hk
  · obtain ⟨m, _, rfl⟩ := List.mem_map.1 he
    exact ⟨_, m, _, rfl⟩
  · split at he
    · cases he
    · exact hg he
    · rcases List.mem_append.1 he with he | he
      · exact hg he
      · exact hg he
    · rcases List.mem_append.1 he with he | he
      · rcases List.mem_append.1 he with he | he
        · exact hg he
        · exact hg he
      · exact hg he

/-- The paths listed for a lexeme lead to the objects listed with them. -/
theorem lexeme_refs {pk uk : Str → Str} (u : Expr) {r : Ref} {x : Lexeme} {e : Path × Ref} (he : e ∈ x.objs uk r) (hk : Kept e.2)
    (ha : Agree pk uk e.1) : refAt pk u r e.1 = e.2 := by
  unfold Lexeme.objs at he
  rw [List.mem_append, List.mem_cons] at he
  rcases he with (rfl | he) | he
  · rfl
  · obtain ⟨y, hy, rfl⟩ := List.mem_map.1 he
    obtain ⟨i, m, k, rfl⟩ := pm_refs hy hk
    have := ha.2 m (by simp [flexionChild])
    simp [flexionChild, refAt, this]
  · rcases List.mem_cons.1 he with rfl | he
    · rfl
    · obtain ⟨y, hy, rfl⟩ := List.mem_map.1 he
      obtain ⟨i, m, k, rfl⟩ := pm_refs hy hk
      have := ha.1 i m k (by simp)
      simp [refAt, this]

/-- No morpheme of the groups of the flexions is empty, as in all those built by the constructors. -/
def FullFlexions : Expr → Prop
  | .lexeme x => FullGroups x.flexion
  | .word w => ∀ e ∈ w.sfun.items, ∀ x, e.2 = some x → FullGroups x.flexion
  | _ => True

theorem pm_paths_expr {p : PM} {e : Path × Node} (he : e ∈ p.paths) : ∃ y, e.2 = .expr y := by
  have hg : ∀ {i g}, e ∈ groupPaths i g → ∃ y, e.2 = .expr y := by
    intro i g he
    unfold groupPaths at he
    rcases List.mem_cons.1 he with rfl | he
    · exact ⟨_, rfl⟩
    · obtain ⟨m, _, rfl⟩ := List.mem_map.1 he
      exact ⟨_, rfl⟩
  unfold PM.paths at he
  rw [List.mem_append, List.mem_cons] at he
  rcases he with (rfl | he) | he
  · exact ⟨_, rfl⟩
  · obtain ⟨m, _, rfl⟩ := List.mem_map.1 he
    exact ⟨_, rfl⟩
  · split at he
    · cases he
    · exact hg he
    · rcases List.mem_append.1 he with he | he
      · exact hg he
      · exact hg he
    · rcases List.mem_append.1 he with he | he
      · rcases List.mem_append.1 he with he | he
        · exact hg he
        · exact hg he
      · exact hg he

theorem lexeme_paths_expr {x : Lexeme} {e : Path × Node} (he : e ∈ x.paths) : ∃ y, e.2 = .expr y := by
  unfold Lexeme.paths at he
  rw [List.mem_append, List.mem_cons] at he
  rcases he with (rfl | he) | he
  · exact ⟨_, rfl⟩
  · obtain ⟨y, hy, rfl⟩ := List.mem_map.1 he
    obtain ⟨z, hz⟩ := pm_paths_expr hy
    exact ⟨z, hz⟩
  · rcases List.mem_cons.1 he with rfl | he
    · exact ⟨_, rfl⟩
    · obtain ⟨y, hy, rfl⟩ := List.mem_map.1 he
      obtain ⟨z, hz⟩ := pm_paths_expr hy
      exact ⟨z, hz⟩

theorem pm_path_ok {uk : Str → Str} {p : PM} {e : Path × Ref} (he : e ∈ p.objs uk) : ∃ y, deference e.1 (.expr (.pm p)) = .ok (.expr y) := by
  have h : e.1 ∈ p.paths.map (·.1) := by
    rw [← pm_paths_objs uk p]
    exact List.mem_map.2 ⟨e, he, rfl⟩
  obtain ⟨e', he', h⟩ := List.mem_map.1 h
  obtain ⟨y, hy⟩ := pm_paths_expr he'
  exact ⟨y, by rw [← h, pm_reach p e' he', hy]⟩

theorem lexeme_path_ok {uk : Str → Str} {r : Ref} {x : Lexeme} (hf : FullGroups x.flexion) {e : Path × Ref} (he : e ∈ x.objs uk r) :
    ∃ y, deference e.1 (.expr (.lexeme x)) = .ok (.expr y) := by
  have h : e.1 ∈ x.paths.map (·.1) := by
    rw [← lexeme_paths_objs uk r x]
    exact List.mem_map.2 ⟨e, he, rfl⟩
  obtain ⟨e', he', h⟩ := List.mem_map.1 h
  obtain ⟨y, hy⟩ := lexeme_paths_expr he'
  rcases lexeme_reach hf e' he' with h1 | h1
  · exact ⟨y, by rw [← h, h1, hy]⟩
  · exact ⟨_, by rw [← h, h1]; rfl⟩

/-- The objects listed for a word. -/
theorem word_objs {uk : Str → Str} {w : WordUsl} {L : List (Path × Ref)} (h : w.objs uk = .ok L) {e : Path × Ref} (he : e ∈ L) :
    e = ([.usl], .root) ∨ ∃ r x f, (r, some x) ∈ w.sfun.items ∧
      (e = ([.role (w.context.pre ++ r) f], .actor r) ∨ ∃ y ∈ x.objs uk (.actor r), e = (.role (w.context.pre ++ r) f :: y.1, y.2)) := by
  unfold WordUsl.objs at h
  rw [bind_ok] at h
  obtain ⟨l, hl, h⟩ := h
  cases h
  have hl := mapM_inv hl
  rw [asList_items] at hl
  rw [List.mem_cons, List.mem_flatten] at he
  refine he.imp id ?_
  rintro ⟨b, hb, he⟩
  obtain ⟨a, ha, hab⟩ := forall₂_mem_right hl hb
  obtain ⟨⟨r, x⟩, hi, rfl⟩ := List.mem_map.1 ha
  cases x with
  | none => simp [roleObjs, pushAddr] at hab
  | some x =>
    simp only [roleObjs, pushAddr, Except.ok.injEq, List.drop_left] at hab
    subst hab
    refine ⟨r, x, decide (roleText (w.context.pre ++ r) = roleText w.role), hi, ?_⟩
    rcases List.mem_cons.1 he with rfl | he
    · exact .inl rfl
    · obtain ⟨y, hy, rfl⟩ := List.mem_map.1 he
      exact .inr ⟨y, hy, rfl⟩

theorem mkWord_fields {f : SFun Lexeme} {role : Addr} {t : SType} {w : WordUsl} (hw : mkWord f role t = .ok w) : w.sfun = f ∧ w.context = t := by
  unfold mkWord at hw
  rw [bind_ok] at hw
  obtain ⟨_, _, hw⟩ := hw
  rw [bind_ok] at hw
  obtain ⟨_, _, hw⟩ := hw
  cases hw
  exact ⟨rfl, rfl⟩

theorem reachRef_ok {pk : Str → Str} {u : Expr} {p : Path} {y : Expr} (h : deference p (.expr u) = .ok (.expr y)) :
    reachRef pk u p = .ok (some (refAt pk u .root p)) := by
  unfold reachRef
  rw [h]
  rfl

/-- The listed paths lead to the objects listed with them. -/
theorem listed_reached {pk uk : Str → Str} {u : Expr} (hr : FromRoles u) (hf : FullFlexions u) {b : Bool} {L : List (Path × Ref)}
    (hL : objsOf uk u b = .ok L) {e : Path × Ref} (he : e ∈ L) (hk : Kept e.2) (ha : Agree pk uk e.1) :
    reachRef pk u e.1 = .ok (some e.2) := by
  cases u with
  | script => cases hL
  | pm p =>
    unfold objsOf at hL
    cases b <;> simp only [Bool.false_eq_true, if_true, if_false] at hL <;> cases hL
    obtain ⟨y, hy⟩ := pm_path_ok he
    rw [reachRef_ok hy]
    obtain ⟨i, m, k, rfl⟩ := pm_refs he hk
    have := ha.1 i m k (by simp)
    simp [refAt, this]
  | lexeme x =>
    cases hL
    obtain ⟨y, hy⟩ := lexeme_path_ok hf he
    rw [reachRef_ok hy, lexeme_refs _ he hk ha]
  | word w =>
    obtain ⟨l, t, f, hl, hw⟩ := hr
    have hwf := mkWord_fields hw
    have hslot : ∀ {r x}, (r, x) ∈ w.sfun.items → slotOf (.word w) (w.context.pre ++ r) = r := by
      intro r x hi
      have := slot_items (fromList_shape hl) (hwf.1 ▸ hi)
      rw [← hwf.1, ← hwf.2] at this
      simp [slotOf, this]
    rcases word_objs hL he with rfl | ⟨r, x, fo, hi, rfl | ⟨y, hy, rfl⟩⟩
    · rfl
    · rw [reachRef_ok (y := .lexeme x) (by rw [deference_one]; exact word_step hl hw hi fo)]
      simp [refAt, hslot hi]
    · obtain ⟨z, hz⟩ := lexeme_path_ok (hf _ hi x rfl) hy
      rw [reachRef_ok (y := z) (by rw [deference_cons (word_step hl hw hi fo)]; exact hz)]
      have ha' : Agree pk uk y.1 := ⟨fun g m k h => ha.1 g m k (List.mem_cons_of_mem _ h), fun m h => ha.2 m (List.mem_cons_of_mem _ h)⟩
      show Except.ok (some (refAt pk (.word w) (.actor (slotOf (.word w) (w.context.pre ++ r))) y.1)) = _
      rw [hslot hi, lexeme_refs _ hy hk ha']

theorem refAt_alike {pk : Str → Str} (u : Expr) {p q : Path} (h : Alike p q) (r : Ref) : refAt pk u r p = refAt pk u r q := by
  induction h generalizing r with
  | nil => rfl
  | @cons s t p q hst _ ih =>
    cases s <;> cases t <;> simp only [AlikeStep] at hst
    · exact ih r
    · rename_i g m k g' m' k'
      obtain ⟨rfl, hm, hk⟩ := hst
      cases m with
      | none =>
        cases m' with
        | some _ => cases hm
        | none =>
          have : pathText [.pm g none k] = pathText [.pm g none k'] := by
            rcases hk with rfl | rfl <;> rfl
          simp only [refAt, this]
          exact ih _
      | some m =>
        cases m' with
        | none => cases hm
        | some m' =>
          have hm : m.str = m'.str := by simpa using hm
          simp only [refAt, hm]
          exact ih _
    · simp only [refAt, hst]
      exact ih _
    · simp only [refAt, hst]
      exact ih _
    · simp only [refAt, hst.1]
      exact ih _

/-- The path, or what is read from its text. -/
def Names (q p : Path) : Prop := q = p ∨ pathRead (pathText p) = .ok q

theorem names_reach {pk : Str → Str} (u : Expr) {p q : Path} (hp : Written p) (h : Names q p) : reachRef pk u q = reachRef pk u p := by
  rcases h with rfl | h
  · rfl
  · obtain ⟨q', h1, h2, _⟩ := C66_read hp
    rw [h1] at h
    cases h
    have h3 := C66_reaches hp h1 (.expr u)
    unfold reachRef
    rw [refAt_alike u h2]
    cases hd : deference p (.expr u) with
    | error e =>
      rw [hd] at h3
      cases hd' : deference q (.expr u) with
      | ok _ => rw [hd'] at h3; cases h3
      | error e' => rw [hd'] at h3; rw [show e = e' from h3]
    | ok x =>
      rw [hd] at h3
      cases hd' : deference q (.expr u) with
      | error _ => rw [hd'] at h3; cases h3
      | ok y =>
        rw [hd'] at h3
        rcases h3 with rfl | ⟨m, m', rfl, rfl, _⟩ <;> rfl

theorem names_agree {pk uk : Str → Str} {p q : Path} (hp : Written p) (h : Names q p) (ha : Agree pk uk q) : Agree pk uk p := by
  rcases h with rfl | h
  · exact ha
  · obtain ⟨q', h1, h2, _⟩ := C66_read hp
    rw [h1] at h
    cases h
    refine ⟨fun g m k hm => ?_, fun m hm => ?_⟩
    · obtain ⟨t, ht, hst⟩ := forall₂_mem_left h2 hm
      cases t <;> simp only [AlikeStep] at hst
      rename_i g' m' k'
      cases m' with
      | none => simp at hst
      | some m' =>
        have := ha.1 _ _ _ ht
        have hs : m.str = m'.str := by simpa using hst.2.1
        rw [hs, this]
    · obtain ⟨t, ht, hst⟩ := forall₂_mem_left h2 hm
      cases t <;> simp only [AlikeStep] at hst
      have := ha.2 _ ht
      rw [hst, this]

/-- No listed path begins with a `FlexionPath`. -/
theorem listed_not_flexion {uk : Str → Str} {u : Expr} {b : Bool} {L : List (Path × Ref)} (hL : objsOf uk u b = .ok L) {e : Path × Ref}
    (he : e ∈ L) (hk : Kept e.2) : isFlexionPath e.1 = false := by
  cases u with
  | script => cases hL
  | pm p =>
    unfold objsOf at hL
    cases b <;> simp only [Bool.false_eq_true, if_true, if_false] at hL <;> cases hL
    obtain ⟨i, m, k, rfl⟩ := pm_refs he hk
    rfl
  | lexeme x =>
    cases hL
    unfold Lexeme.objs at he
    rw [List.mem_append, List.mem_cons] at he
    rcases he with (rfl | he) | he
    · rfl
    · obtain ⟨y, hy, rfl⟩ := List.mem_map.1 he
      rfl
    · rcases List.mem_cons.1 he with rfl | he
      · rfl
      · obtain ⟨y, hy, rfl⟩ := List.mem_map.1 he
        rfl
  | word w =>
    rcases word_objs hL he with rfl | ⟨r, x, fo, hi, rfl | ⟨y, hy, rfl⟩⟩ <;> rfl

theorem alike_flexion {p q : Path} (h : Alike p q) : isFlexionPath q = isFlexionPath p := by
  cases h with
  | nil => rfl
  | @cons s t p q hst _ => cases s <;> cases t <;> simp only [AlikeStep] at hst <;> rfl

/-- The listed paths are in the grammar of paths. -/
theorem objs_written {uk : Str → Str} {u : Expr} (h : OneDigitUsl u) (hr : FromRoles u) {b : Bool} {L : List (Path × Ref)}
    (hL : objsOf uk u b = .ok L) {e : Path × Ref} (he : e ∈ L) : Written e.1 := by
  cases u with
  | script => cases hL
  | pm p =>
    unfold objsOf at hL
    cases b <;> simp only [Bool.false_eq_true, if_true, if_false] at hL <;> cases hL
    have h1 : e.1 ∈ p.paths.map (·.1) := by
      rw [← pm_paths_objs uk p]
      exact List.mem_map.2 ⟨e, he, rfl⟩
    obtain ⟨e', he', h1⟩ := List.mem_map.1 h1
    obtain ⟨s, hs, hw⟩ := pm_listed h he'
    rw [← h1, hs]
    exact .pm hw
  | lexeme x =>
    cases hL
    have h1 : e.1 ∈ x.paths.map (·.1) := by
      rw [← lexeme_paths_objs uk .root x]
      exact List.mem_map.2 ⟨e, he, rfl⟩
    obtain ⟨e', he', h1⟩ := List.mem_map.1 h1
    rw [← h1]
    exact .lexeme (lexeme_listed h he')
  | word w =>
    obtain ⟨l, t, f, hf, hw⟩ := hr
    have hok := fromList_shape hf
    have hwf := mkWord_fields hw
    rw [← hwf.1, ← hwf.2] at hok
    have addr : ∀ {r : Addr} {x : Option Lexeme}, (r, x) ∈ w.sfun.items → w.context.pre ++ r ≠ [] ∧ ∀ a ∈ w.context.pre ++ r, a ∈ addressScripts := by
      intro r x hi
      refine ⟨full_address hok _ hi, ?_⟩
      intro a ha
      rcases List.mem_append.1 ha with ha | ha
      · exact pre_address _ a ha
      · exact items_address hok _ hi a ha
    rcases word_objs hL he with rfl | ⟨r, x, fo, hi, rfl | ⟨y, hy, rfl⟩⟩
    · exact .usl
    · exact .role fo (addr hi).1 (addr hi).2 (.inl rfl)
    · have h1 : y.1 ∈ x.paths.map (·.1) := by
        rw [← lexeme_paths_objs uk (.actor r) x]
        exact List.mem_map.2 ⟨y, hy, rfl⟩
      obtain ⟨e', he', h1⟩ := List.mem_map.1 h1
      refine .role fo (addr hi).1 (addr hi).2 (.inr ?_)
      show LexWritten y.1
      rw [← h1]
      exact lexeme_listed (h _ hi x rfl) he'

/-! ### C55 -/

/-- **C55** for decorations of objects of the USL that occur once in it: the decorations listed are those given, path by path.  The
paths are those of the USL, or are read from their texts; the components have no literal before; `uk` and `pk` are the identities of
the scripts of the USL and of the paths. -/
theorem C55_partial {ord : List (Path × Str) → List (Path × Str)} (ho : ∀ l, (ord l).Perm l) {pk uk : Str → Str} {u : Expr}
    (h1 : OneDigitUsl u) (hr : FromRoles u) (hf : FullFlexions u) {L : List (Path × Ref)} (hL : objsOf uk u false = .ok L)
    {w : World Ref} (hw : ∀ e ∈ L, w.lit e.2 = none) {ds : List (Path × Str)} (hn : (ds.map fun d => pathText d.1).Nodup)
    (hd : ∀ d ∈ ds, Agree pk uk d.1 ∧ ∃ e ∈ L, Names d.1 e.1 ∧ Kept e.2 ∧ (L.map (·.2)).count e.2 = 1) :
    ∃ D, (instanced ord (uslObjects pk uk u) (ds.map some) w).1 = .ok D ∧ (D.map decKey).Perm (ds.map decKey) := by
  have hfl : (ds.any fun d => isFlexionPath d.1) = false := by
    rw [List.any_eq_false]
    intro d hdd
    obtain ⟨_, e, he, hN, hk, _⟩ := hd d hdd
    have h2 := listed_not_flexion hL he hk
    rcases hN with hN | hN
    · rw [hN, h2]
      decide
    · obtain ⟨q, h3, h4, _⟩ := C66_read (objs_written h1 hr hL he)
      rw [h3] at hN
      cases hN
      rw [alike_flexion h4, h2]
      decide
  refine listed_given ho (L := L) (by rw [hfl]; exact hL) hw ?_ hn
  intro d hdd
  obtain ⟨ha, e, he, hN, hk, hc⟩ := hd d hdd
  have hW := objs_written h1 hr hL he
  refine ⟨e, he, ?_, ?_, hc⟩
  · show reachRef pk u d.1 = _
    rw [names_reach u hW hN]
    exact listed_reached hr hf hL he hk (names_agree hW hN ha)
  · rcases hN with hN | hN
    · rw [hN]
    · obtain ⟨q, h3, _, h5⟩ := C66_read hW
      rw [h3] at hN
      cases hN
      exact h5.symm

section
variable {ρ : Type} [DecidableEq ρ]

/-- `from_usl` gives the decorations found on the components if the listed paths reach the components listed with them. -/
theorem from_listed (ord : List (Path × Str) → List (Path × Str)) (ho : ∀ l, (ord l).Perm l) {o : Objects ρ} {L : List (Path × ρ)}
    (hL : o.listing false = .ok L) {w : World ρ}
    (hr : ∀ e ∈ L, w.lit e.2 ≠ none → o.reach e.1 = .ok (some e.2) ∧ isFlexionPath e.1 = false) :
    (instancedFrom ord o w).1 = listDecorations ord o false w := by
  unfold instancedFrom
  have hl : listDecorations ord o false w = .ok (ord (L.filterMap fun e => (w.lit e.2).map fun v => (e.1, v))) := by
    unfold listDecorations
    rw [hL]
    rfl
  rw [hl]
  show (instanced ord o _ w).1 = _
  have hm : ∀ d ∈ ord (L.filterMap fun e => (w.lit e.2).map fun v => (e.1, v)), ∃ e ∈ L, w.lit e.2 = some d.2 ∧ e.1 = d.1 := by
    intro d hd
    rw [(ho _).mem_iff, List.mem_filterMap] at hd
    obtain ⟨e, he, hd⟩ := hd
    obtain ⟨v, h1, rfl⟩ := Option.map_eq_some_iff.1 hd
    exact ⟨e, he, h1, rfl⟩
  have hm' : ∀ d ∈ ord (L.filterMap fun e => (w.lit e.2).map fun v => (e.1, v)), ∃ e ∈ L, w.lit e.2 = some d.2 ∧ e.1 = d.1 ∧
      o.reach d.1 = .ok (some e.2) ∧ isFlexionPath d.1 = false := by
    intro d hd
    obtain ⟨e, he, h1, h2⟩ := hm d hd
    have := hr e he (by rw [h1]; simp)
    rw [h2] at this
    exact ⟨e, he, h1, h2, this.1, this.2⟩
  rw [C55_exact ord (fun d hd => by obtain ⟨e, _, _, _, h, _⟩ := hm' d hd; exact ⟨_, h⟩)]
  have hfl : ((ord (L.filterMap fun e => (w.lit e.2).map fun v => (e.1, v))).any fun d => isFlexionPath d.1) = false := by
    rw [List.any_eq_false]
    intro d hd
    obtain ⟨_, _, _, _, _, h⟩ := hm' d hd
    rw [h]
    decide
  rw [hfl, hL]
  show Except.ok _ = _
  refine congrArg Except.ok (congrArg ord (List.filterMap_congr ?_))
  intro e he
  congr 1
  cases hv : lastValue o (ord (L.filterMap fun e => (w.lit e.2).map fun v => (e.1, v))) e.2 with
  | none => rfl
  | some v =>
    unfold lastValue at hv
    obtain ⟨d, h1, rfl⟩ := Option.map_eq_some_iff.1 hv
    obtain ⟨h3, h4⟩ := List.mem_filter.1 (List.mem_of_getLast? h1)
    obtain ⟨e', _, h5, _, h6, _⟩ := hm' d h3
    rw [hits_iff.1 h4] at h6
    simp only [Except.ok.injEq, Option.some.injEq] at h6
    rw [h6, h5]
    rfl

end

/-- `InstancedUSL.from_usl`: the decorations are exactly those found on the components of the USL (the paths are made from the
morphemes of the USL; the polymorphemes made for the list have no literal). -/
theorem C55_from_usl (ord : List (Path × Str) → List (Path × Str)) (ho : ∀ l, (ord l).Perm l) {uk : Str → Str} {u : Expr}
    (hr : FromRoles u) (hf : FullFlexions u) {L : List (Path × Ref)} (hL : objsOf uk u false = .ok L)
    {w : World Ref} (hw : ∀ e ∈ L, ¬ Kept e.2 → w.lit e.2 = none) :
    (instancedFrom ord (uslObjects uk uk u) w).1 = .ok (ord (L.filterMap fun e => (w.lit e.2).map fun v => (e.1, v))) := by
  rw [from_listed ord ho (L := L) hL]
  · unfold listDecorations
    rw [show (uslObjects uk uk u).listing false = .ok L from hL]
    rfl
  · intro e he hl
    have hk : Kept e.2 := by
      by_contra hk
      exact hl (hw e he hk)
    exact ⟨listed_reached hr hf hL he hk ⟨fun _ _ _ _ => rfl, fun _ _ => rfl⟩, listed_not_flexion hL he hk⟩

/-- The identities of the scripts of a USL: those read from texts are shared; the constant of a polymorpheme without constants is
`NULL_SCRIPTS[0]` (`polymorpheme.py` line 169), which is not what is read from `E:`. -/
def sharedKey (s : Str) : Str := if s = c!"E:" then c!"NULL_SCRIPTS[0]" else s

/-- The texts of the decorations of an `InstancedUSL` made from the texts of paths, no component having a literal before. -/
def decorate (u : Expr) (ds : List (Str × Str)) : Except Err (List (Str × Str)) := do
  let ds ← ds.mapM fun d => return (← pathRead d.1, d.2)
  let D ← (instanced id (uslObjects id sharedKey u) (ds.map some) ⟨fun _ => none, []⟩).1
  return D.map decKey

/-- **C55 is violated**: a morpheme that occurs twice gets both decorations from one. -/
theorem C55_violated_shared : (∃ x : Lexeme, x.text = c!"(A:)(A: S:)" ∧
    decorate (.lexeme x) [(c!">content>constant>A:", c!"x")] = .ok [(c!">flexion>A:", c!"x"), (c!">content>constant>A:", c!"x")]) ∧
    ∃ p : PM, p.text = c!"A: m1(A: S:)" ∧ decorate (.pm p) [(c!">constant>A:", c!"x"), (c!">group_0 1>A:", c!"y")] =
      .ok [(c!">constant>A:", c!"y"), (c!">group_0 1>A:", c!"y")] :=
  ⟨⟨mkLexeme (mkPM [.prim .A] []) (mkPM [.prim .A, .prim .S] []), by decide +kernel, by decide +kernel⟩,
   ⟨mkPM [.prim .A] [([.prim .A, .prim .S], 1)], by decide +kernel, by decide +kernel⟩⟩

/-- **C55 is violated**: the decorations of the constants, of a group and of the empty constant are lost. -/
theorem C55_violated_lost : ∃ p : PM, p.text = c!"A: m1(S: B:)" ∧ decorate (.pm p) [(c!">constant", c!"x")] = .ok [] ∧
    decorate (.pm p) [(c!">group_0 1", c!"x")] = .ok [] ∧ decorate (.pm p) [(c!">constant>E:", c!"x")] = .ok [] ∧
    decorate (.pm (mkPM [] [])) [(c!">constant>E:", c!"x")] = .ok [] :=
  ⟨mkPM [.prim .A] [([.prim .B, .prim .S], 1)], by decide +kernel, by decide +kernel, by decide +kernel, by decide +kernel, by decide +kernel⟩

/-- **C55 is violated**: the decoration of a polymorpheme by the path of a flexion raises `AssertionError`, although the path
reaches the morpheme. -/
theorem C55_violated_flexion : ∃ p : PM, p.text = c!"A:" ∧ (deference [.flexion (.prim .A)] (.expr (.pm p))).isOk = true ∧
    decorate (.pm p) [(c!">A:", c!"x")] = .error .assertionError :=
  ⟨mkPM [.prim .A] [], by decide +kernel, by decide +kernel, by decide +kernel⟩

/-! ### Cases -/

theorem demo_oneDigit : OneDigit (mkPM [.prim .A] [([.prim .S, .prim .B], 1)]) := by
  have hb : ∀ p, Built (.prim p) := fun p => wf_built .prim
  constructor
  · rw [show (mkPM [.prim .A] [([.prim .S, .prim .B], 1)]).constant = [.prim .A] from rfl]
    intro m hm
    simp only [List.mem_cons, List.not_mem_nil, or_false] at hm
    rw [hm]
    exact hb _
  · rw [show (mkPM [.prim .A] [([.prim .S, .prim .B], 1)]).groups = [([.prim .S, .prim .B], 1)] from rfl]
    intro g hg
    simp only [List.mem_cons, List.not_mem_nil, or_false] at hg
    subst hg
    refine ⟨by decide, ?_⟩
    intro m hm
    simp only [List.mem_cons, List.not_mem_nil, or_false] at hm
    rcases hm with rfl | rfl <;> exact hb _

-- The hypotheses of `C55_partial` for two decorations of `A: m1(S: B:)`, given in the other order.
example : ∃ D, (instanced id (uslObjects id sharedKey (.pm (mkPM [.prim .A] [([.prim .S, .prim .B], 1)])))
    [some ([.pm .g0 (some (.prim .S)) (some 1)], c!"y"), some ([.pm .constant (some (.prim .A)) none], c!"x")] ⟨fun _ => none, []⟩).1 = .ok D ∧
    (D.map decKey).Perm [(c!">group_0 1>S:", c!"y"), (c!">constant>A:", c!"x")] := by
  refine C55_partial (u := .pm (mkPM [.prim .A] [([.prim .S, .prim .B], 1)])) (ds := [([.pm .g0 (some (.prim .S)) (some 1)], c!"y"), ([.pm .constant (some (.prim .A)) none], c!"x")])
    (L := (mkPM [.prim .A] [([.prim .S, .prim .B], 1)]).objs sharedKey) (fun l => .refl _) demo_oneDigit trivial trivial rfl
    (fun _ _ => rfl) (by decide +kernel) ?_
  intro d hd
  simp only [List.mem_cons, List.not_mem_nil, or_false] at hd
  rcases hd with rfl | rfl
  · refine ⟨⟨?_, ?_⟩, ([.pm .g0 (some (.prim .S)) (some 1)], .script (c!"S:")), ?_, .inl rfl, trivial, by decide +kernel⟩
    · intro g m k h
      simp only [List.mem_cons, List.not_mem_nil, or_false, Step.pm.injEq, Option.some.injEq] at h
      rw [h.2.1]
      decide +kernel
    · intro m h
      simp at h
    · exact List.mem_append_right _ (List.mem_cons_of_mem _ (List.mem_cons_self ..))
  · refine ⟨⟨?_, ?_⟩, ([.pm .constant (some (.prim .A)) none], .script (c!"A:")), ?_, .inl rfl, trivial, by decide +kernel⟩
    · intro g m k h
      simp only [List.mem_cons, List.not_mem_nil, or_false, Step.pm.injEq, Option.some.injEq] at h
      rw [h.2.1]
      decide +kernel
    · intro m h
      simp at h
    · exact List.mem_append_left _ (List.mem_cons_of_mem _ (List.mem_cons_self ..))

-- A lexeme whose flexion, content and morphemes are decorated.
example : decorate (.lexeme (mkLexeme (mkPM [.prim .S] []) (mkPM [.prim .A] [([.prim .T, .prim .B], 1)])))
    [(c!">flexion", c!"f"), (c!">flexion>S:", c!"s"), (c!">content", c!"c"), (c!">content>group_0 1>T:", c!"t")] =
    .ok [(c!">flexion", c!"f"), (c!">flexion>S:", c!"s"), (c!">content", c!"c"), (c!">content>group_0 1>T:", c!"t")] := by decide +kernel

/-- A word with a lexeme of content `A:` and another of content `S:`, decorated. -/
def decoratedWord (ds : List (Str × Str)) : Except Err (List (Str × Str)) := do
  let r ← fromList [([c!"E:T:."], some (mkLexeme (mkPM [] []) (mkPM [.prim .A] []))), ([c!"E:.n.-"], some (mkLexeme (mkPM [] []) (mkPM [.prim .S] [])))]
  let w ← mkWord r.2 [c!"E:T:."] r.1
  decorate (.word w) ds

-- A word, its lexemes and their morphemes.
example : decoratedWord [(c!">role>E:.n.->content>constant>S:", c!"s"), (c!">", c!"w"), (c!">role>! E:T:.", c!"l"), (c!">role>E:.n.->flexion", c!"f")] =
    .ok [(c!">", c!"w"), (c!">role>! E:T:.", c!"l"), (c!">role>E:.n.->flexion", c!"f"), (c!">role>E:.n.->content>constant>S:", c!"s")] := by
  decide +kernel

/-- The literal of `A:` after the construction of `A: S:` with the decorations, `A:` having the literal `before` or none. -/
def literalAfter (before : Option Str) (ds : List DecArg) : Option Str :=
  (instanced id (uslObjects id sharedKey (.pm (mkPM [.prim .A, .prim .S] []))) ds ⟨fun r => if r = .script (c!"A:") then before else none, []⟩).2.lit
    (.script (c!"A:"))

-- `C54_construction`: no literal of the construction stays, whether it succeeds or an argument raises an exception after the
-- literal was set; a literal that was there before is lost, unless the exception comes first.
example : literalAfter none [some ([.pm .constant (some (.prim .A)) none], c!"x")] = none ∧
    literalAfter none [some ([.pm .constant (some (.prim .A)) none], c!"x"), none] = none ∧
    literalAfter none [some ([.pm .constant (some (.prim .A)) none], c!"x"), some ([.pm .g0 none none], c!"x")] = none ∧
    literalAfter (some (c!"b")) [some ([.pm .constant (some (.prim .A)) none], c!"x")] = none ∧
    literalAfter (some (c!"b")) [none, some ([.pm .constant (some (.prim .A)) none], c!"x")] = some (c!"b") := by decide +kernel

end Verif
