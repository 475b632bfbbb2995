import Verif.Lemmas.UslTableParts

/-
Lemmas on the tables of polymorphemes by the paths of their groups: the rows and the assembled USLs.
-/

namespace Verif
open Script

/-! ### The dimensions of the rows -/

/-- The path of a group. -/
def partPath (p : PM) (g : GIdx) : Path := [.pm g none (some (multAt p g))]

theorem partPath_inj {p : PM} (h : Tabular p) {g g' : GIdx} (hg : g ≠ .constant) (hg' : g' ≠ .constant) (e : pathText (partPath p g) = pathText (partPath p g')) : g = g' := by
  have hw : ∀ {g}, g ≠ .constant → PMWritten (.pm g none (some (multAt p g))) := fun hg => .group (by simp) (h.mult _).2
  have := idx_of_text (hw hg) (hw hg') (by simpa [pathText, partPath] using e)
  simpa [stepIdx] using this

theorem setAdd_part {p : PM} (h : Tabular p) {X : List GIdx} (hX : ∀ g ∈ X, g ≠ .constant) {g : GIdx} (hg : g ≠ .constant) :
    setAdd pathText (partPath p g) (X.map (partPath p)) = (if g ∈ X then X else X ++ [g]).map (partPath p) := by
  unfold setAdd
  by_cases hm : g ∈ X
  · rw [if_pos hm, if_pos]
    rw [List.any_eq_true]
    exact ⟨_, List.mem_map_of_mem hm, by simp⟩
  · rw [if_neg hm, if_neg, List.map_append, List.map_singleton]
    rw [Bool.not_eq_true, List.any_eq_false]
    intro y hy
    obtain ⟨g', hg', rfl⟩ := List.mem_map.1 hy
    intro e
    have := partPath_inj h (hX g' hg') hg (by simpa using e)
    exact hm (this ▸ hg')

theorem dims_fold {p : PM} (hp : Tabular p) {α : Type} {f : List Path × List Path → α → Except Err (List Path × List Path)} {sel : α → Bool} {idx : α → GIdx} : ∀ {l : List α}
    (_ : ∀ e ∈ l, sel e = true → idx e ≠ .constant)
    (_ : ∀ e ∈ l, ∀ X, f ([], X) e = .ok ([], if sel e then setAdd pathText (partPath p (idx e)) X else X))
    {X : List GIdx} (_ : ∀ g ∈ X, g ≠ .constant) (_ : X.Nodup),
    ∃ Y : List GIdx, l.foldlM f ([], X.map (partPath p)) = .ok ([], Y.map (partPath p)) ∧ Y.Nodup ∧ ∀ g, g ∈ Y ↔ g ∈ X ∨ ∃ e ∈ l, sel e = true ∧ idx e = g
  | [], _, _, X, _, hn => ⟨X, rfl, hn, by simp⟩
  | e :: l, hs, hf, X, hX, hn => by
    rw [List.foldlM_cons, hf e (by simp), ok_then]
    have hs' := fun x hx => hs x (List.mem_cons_of_mem _ hx)
    have hf' := fun x hx => hf x (List.mem_cons_of_mem _ hx)
    by_cases h : sel e = true
    · have hi := hs e (by simp) h
      rw [if_pos h, setAdd_part hp hX hi]
      obtain ⟨Y, h1, h2, h3⟩ := dims_fold hp hs' hf' (X := if idx e ∈ X then X else X ++ [idx e]) (by
        split
        · exact hX
        · intro g hg
          rcases List.mem_append.1 hg with hg | hg
          · exact hX g hg
          · rw [List.mem_singleton.1 hg]; exact hi) (by
        split
        · exact hn
        · next hm => exact List.nodup_append.2 ⟨hn, by simp, fun a ha b hb => by rw [List.mem_singleton.1 hb]; rintro rfl; exact hm ha⟩)
      refine ⟨Y, h1, h2, fun g => ?_⟩
      rw [h3]
      simp only [List.mem_cons, exists_eq_or_imp, h, true_and]
      split
      · next hm =>
        constructor
        · rintro (h | h)
          · exact .inl h
          · exact .inr (.inr h)
        · rintro (h | h | h)
          · exact .inl h
          · exact .inl (h ▸ hm)
          · exact .inr h
      · simp only [List.mem_append, List.mem_singleton, eq_comm (a := g), or_assoc]
    · rw [if_neg h]
      obtain ⟨Y, h1, h2, h3⟩ := dims_fold hp hs' hf' hX hn
      refine ⟨Y, h1, h2, fun g => ?_⟩
      rw [h3]
      simp [h]

theorem cardinal_group {p : PM} (hp : Tabular p) {g : GIdx} {G : Group} (h : partAt p g = some G) :
    ∃ n, (Node.expr (.pm (mkPM [] [G]))).cardinal = .ok n ∧ n ≠ 1 := by
  obtain ⟨A, hA⟩ := pm_total (mkPM [] [G])
  refine ⟨A.length, ?_, (hp.several (gs := [G]) (by simpa using partAt_mem h) hA).2 (by simp)⟩
  simp [Node.cardinal, PM.cardinal, hA, Except.map]

theorem dimensions_eq {p : PM} (hp : Tabular p) {T : Table2D} {i : GIdx} {R S : List GIdx} (h : TableCase p T i R S) :
    ∃ Y : List GIdx, T.dimensions = .ok ([], Y.map (partPath p)) ∧ Y.Perm R := by
  have hpl := h.place
  cases h with
  | @rows i j G H h1 h2 h3 =>
    have hj : j ≠ .constant := by rintro rfl; cases h2
    obtain ⟨n, c1, c2⟩ := cardinal_group hp h2
    unfold Table2D.dimensions
    simp only []
    rw [deference_group h2, ok_then, scripts_pm, ok_then]
    obtain ⟨Y, y1, y2, y3⟩ := dims_fold hp (sel := fun _ => true) (idx := fun _ : Path × Script => j) (X := []) (l := (pmPairs (mkPM [] [H])).map (pairPath (multAt (mkPM [] [H])) fun _ => true))
      (f := fun a e => do
        let p' ← concat false [.pm j none (some H.2)] (← withoutMorpheme e.1)
        if (← (← deference p' (.expr (.pm p))).cardinal) ≠ 1 then return (a.1, setAdd pathText p' a.2)
        else return (setAdd pathText p' a.1, a.2)) (fun _ _ _ => hj) (by
        intro e he X
        obtain ⟨f, _, rfl⟩ := List.mem_map.1 he
        simp only [pairPath, if_true, withoutMorpheme]
        show (concat false [.pm j none (some H.2)] [.pm f.1 none _] >>= _) = _
        rw [concat_none, ok_then, deference_group h2, ok_then, c1, ok_then, if_pos c2]
        simp [partPath, multAt_of h2, pure, Except.pure]) (by simp) List.nodup_nil
    refine ⟨Y, y1, ?_⟩
    rw [List.perm_ext_iff_of_nodup y2 (by simp)]
    intro g
    rw [y3]
    simp only [List.not_mem_nil, false_or, true_and, List.mem_singleton]
    constructor
    · rintro ⟨_, _, rfl⟩; rfl
    · rintro rfl
      exact ⟨_, List.mem_map_of_mem (mem_pmPairs.2 (.inl ⟨rfl, by rw [none_constant]; simp⟩) : (GIdx.constant, Script.null 0) ∈ pmPairs (mkPM [] [H])), rfl⟩
  | @all i G h1 =>
    have hi : i ≠ .constant := by rintro rfl; cases h1
    unfold Table2D.dimensions
    simp only []
    rw [scripts_pm, ok_then]
    have hidx : ∀ e ∈ pmPairs p, e.1 ≠ .constant → ∃ G, partAt p e.1 = some G ∧ e.2 ∈ G.1 := by
      intro e he hc
      rcases mem_pmPairs.1 he with ⟨h4, _⟩ | h4
      · exact absurd h4 hc
      · exact h4
    have hfold : ∀ e ∈ (pmPairs p).map (pairPath (multAt p) fun _ => true), ∃ f ∈ pmPairs p, e = pairPath (multAt p) (fun _ => true) f := by
      intro e he
      obtain ⟨f, hf, rfl⟩ := List.mem_map.1 he
      exact ⟨f, hf, rfl⟩
    let idx : Path × Script → GIdx := fun e => match e.1 with | [.pm g _ _] => g | _ => .constant
    obtain ⟨Y, y1, y2, y3⟩ := dims_fold hp (sel := fun e => decide (idx e ≠ .constant) && decide (idx e ≠ i)) (idx := idx) (X := []) (l := (pmPairs p).map (pairPath (multAt p) fun _ => true))
      (f := fun a e => do
        let p' ← withoutMorpheme e.1
        if !(← hasPrefix p' [.pm i none (some G.2)]) then
          if (← (← deference p' (.expr (.pm p))).cardinal) ≠ 1 then return (a.1, setAdd pathText (← withoutMorpheme p') a.2)
        return a) (by
        intro e _ hs
        simp only [Bool.and_eq_true, decide_eq_true_eq] at hs
        exact hs.1) (by
        intro e he X
        obtain ⟨f, hf, rfl⟩ := List.mem_map.1 he
        simp only [pairPath, if_true, withoutMorpheme, idx]
        show (hasPrefix [.pm f.1 none _] [.pm i none (some G.2)] >>= _) = _
        rw [hasPrefix_none, ok_then]
        by_cases hc : f.1 = .constant
        · rw [hc]
          have : (Node.expr (.pm (mkPM p.constant []))).cardinal = .ok 1 := by
            simp [Node.cardinal, PM.cardinal, pm_single (p := mkPM p.constant []) rfl, Except.map]
          simp [Ne.symm hi, deference, Step.reach, GIdx.index, this, bind, Except.bind, pure, Except.pure]
        · obtain ⟨H, hH, _⟩ := hidx f hf hc
          by_cases hfi : f.1 = i
          · have : H = G := by rw [hfi, h1] at hH; cases hH; rfl
            simp [hfi, hi, multAt_of h1, pure, Except.pure]
          · obtain ⟨n, c1, c2⟩ := cardinal_group hp hH
            have hd := deference_group hH (some (multAt p f.1))
            simp only [hc, hfi, if_false, decide_false, Bool.false_and, Bool.not_false, if_true]
            rw [hd, ok_then, c1, ok_then, if_pos c2]
            simp [partPath, hc, hfi, withoutMorpheme, bind, Except.bind, pure, Except.pure]) (by simp) List.nodup_nil
    refine ⟨Y, y1, ?_⟩
    rw [List.perm_ext_iff_of_nodup y2 hpl.2.2.2.1]
    intro g
    rw [y3]
    simp only [List.not_mem_nil, false_or, Bool.and_eq_true, decide_eq_true_eq, List.mem_filter]
    constructor
    · rintro ⟨e, he, ⟨e1, e2⟩, rfl⟩
      obtain ⟨f, hf, rfl⟩ := hfold e he
      have : idx (pairPath (multAt p) (fun _ => true) f) = f.1 := rfl
      rw [this] at e1 e2 ⊢
      obtain ⟨H, hH, _⟩ := hidx f hf e1
      exact ⟨partAt_idx hH, e2, by simp [hH]⟩
    · rintro ⟨_, e2, e3⟩
      obtain ⟨H, hH⟩ := Option.isSome_iff_exists.1 e3
      obtain ⟨x, hx⟩ := List.exists_mem_of_ne_nil _ (hp.full H (partAt_mem hH))
      have hc : g ≠ .constant := by rintro rfl; cases hH
      exact ⟨_, List.mem_map_of_mem (mem_pmPairs.2 (.inr ⟨H, hH, hx⟩) : (g, x) ∈ pmPairs p), ⟨hc, e2⟩, rfl⟩

/-! ### The variations of the rows -/

theorem forM_ok {α : Type} {f : α → Except Err Unit} : ∀ {l : List α}, (∀ x ∈ l, f x = .ok ()) → l.forM f = .ok ()
  | [], _ => rfl
  | x :: l, h => by
    show (f x >>= fun _ => l.forM f) = _
    rw [h x (by simp), ok_then]
    exact forM_ok fun y hy => h y (List.mem_cons_of_mem _ hy)

theorem variationsRead_eq {p : PM} {T : Table2D} (hu : T.usl = .pm p) {Y : List GIdx} (hY : ∀ g ∈ Y, (partAt p g).isSome) :
    T.variationsRead (Y.map (partPath p)) = .ok () := by
  unfold Table2D.variationsRead
  refine forM_ok fun x hx => ?_
  obtain ⟨g, hg, rfl⟩ := List.mem_map.1 hx
  obtain ⟨G, hG⟩ := Option.isSome_iff_exists.1 (hY g hg)
  obtain ⟨A, hA⟩ := pm_total (mkPM [] [G])
  rw [hu]
  unfold partPath
  rw [deference_group hG, ok_then, node_sequences _ hA, ok_then]
  refine forM_ok fun y hy => ?_
  obtain ⟨a, ha, rfl⟩ := List.mem_map.1 hy
  rw [scripts_pm, ok_then]
  exact forM_ok fun _ _ => by simp [withoutMorpheme, bind, Except.bind, pure, Except.pure]

/-- The morphemes of groups, with an empty one for each. -/
def binPairs (p : PM) (Y : List GIdx) : List (GIdx × Script) :=
  Y.flatMap fun g => match partAt p g with
    | some G => (pmPairs (mkPM [] [G])).map fun e => (g, e.2)
    | none => []

theorem mem_binPairs {p : PM} (hp : Tabular p) {Y : List GIdx} {e : GIdx × Script} :
    e ∈ binPairs p Y ↔ e.1 ∈ Y ∧ ∃ G, partAt p e.1 = some G ∧ (e.2 = .null 0 ∨ e.2 ∈ G.1) := by
  obtain ⟨g, m⟩ := e
  have one : ∀ G : Group, G ∈ p.groups → ((∃ e ∈ pmPairs (mkPM [] [G]), e.2 = m) ↔ m = .null 0 ∨ m ∈ G.1) := by
    intro G hG
    constructor
    · rintro ⟨f, hf, rfl⟩
      rcases mem_pmPairs.1 hf with ⟨_, h⟩ | ⟨H, hH, h⟩
      · rw [none_constant, List.mem_singleton] at h
        exact .inl h
      · have := partAt_mem hH
        rw [(one_group G).2, List.mem_singleton] at this
        subst this
        rw [mem_pySort, mem_filterEmpty] at h
        exact .inr h.1
    · rintro (rfl | h)
      · exact ⟨(.constant, .null 0), mem_pmPairs.2 (.inl ⟨rfl, by rw [none_constant]; simp⟩), rfl⟩
      · refine ⟨(.g0, m), mem_pmPairs.2 (.inr ⟨(pySort lt (filterEmpty G.1), G.2), rfl, ?_⟩), rfl⟩
        rw [mem_pySort, mem_filterEmpty]
        exact ⟨h, (hp.groups G hG m h).2⟩
  unfold binPairs
  rw [List.mem_flatMap]
  constructor
  · rintro ⟨g', hg', h⟩
    split at h
    · next G hG =>
      obtain ⟨f, hf, e⟩ := List.mem_map.1 h
      cases e
      exact ⟨hg', G, hG, (one G (partAt_mem hG)).1 ⟨f, hf, rfl⟩⟩
    · cases h
  · rintro ⟨hg, G, hG, h⟩
    refine ⟨g, hg, ?_⟩
    simp only at hG
    rw [hG]
    obtain ⟨f, hf, rfl⟩ := (one G (partAt_mem hG)).2 h
    exact List.mem_map.2 ⟨f, hf, rfl⟩

theorem bins_eq {p : PM} {T : Table2D} (hu : T.usl = .pm p) {Y : List GIdx} (hY : ∀ g ∈ Y, (partAt p g).isSome) :
    T.bins (Y.map (partPath p)) = .ok (if Y = [] then [] else [([.usl], (binPairs p Y).map (pairPath (multAt p) fun _ => false))]) := by
  have key : ∀ (Y Z : List GIdx), (∀ g ∈ Y, (partAt p g).isSome) → (Y.map (partPath p)).foldlM (fun d p' => do
      let r ← splitTail p'
      if Table2D.isPart r.2 then
        let l ← (← deference p' (.expr T.usl)).scripts
        return dictSet pathText r.1 ((dictGet pathText r.1 d).getD [] ++ l.map fun e => (r.2, e.2)) d
      else return d) (if Z = [] then [] else [([.usl], (binPairs p Z).map (pairPath (multAt p) fun _ => false))]) =
      (.ok (if Z ++ Y = [] then [] else [([.usl], (binPairs p (Z ++ Y)).map (pairPath (multAt p) fun _ => false))]) : Except Err (List (Path × List (Path × Script)))) := by
    intro Y
    induction Y with
    | nil => intro Z _; rw [List.append_nil]; rfl
    | cons g Y ih =>
      intro Z hY
      obtain ⟨G, hG⟩ := Option.isSome_iff_exists.1 (hY g (by simp))
      have hgc : g ≠ .constant := by rintro rfl; cases hG
      have := ih (Z ++ [g]) fun x hx => hY x (List.mem_cons_of_mem _ hx)
      rw [List.append_assoc, List.singleton_append] at this
      rw [← this, List.map_cons, List.foldlM_cons]
      have step : ∀ (d : List (Path × List (Path × Script))), (do
          let r ← splitTail (partPath p g)
          if Table2D.isPart r.2 then
            let l ← (← deference (partPath p g) (.expr T.usl)).scripts
            return dictSet pathText r.1 ((dictGet pathText r.1 d).getD [] ++ l.map fun e => (r.2, e.2)) d
          else return d : Except Err _) = .ok (dictSet pathText [.usl] ((dictGet pathText [.usl] d).getD [] ++
            (List.map (pairPath (multAt (mkPM [] [G])) fun _ => true) (pmPairs (mkPM [] [G]))).map (fun e => (([.pm g none (some (multAt p g))] : Path), e.2))) d) := by
        intro d
        rw [hu]
        unfold partPath
        rw [splitTail, ok_then]
        simp only [Table2D.isPart, if_true]
        rw [deference_group hG, ok_then, scripts_pm, ok_then]
        rfl
      rw [step, ok_then]
      congr 1
      have hl : (List.map (pairPath (multAt (mkPM [] [G])) fun _ => true) (pmPairs (mkPM [] [G]))).map (fun e => (([.pm g none (some (multAt p g))] : Path), e.2)) =
          (binPairs p [g]).map (pairPath (multAt p) fun _ => false) := by
        unfold binPairs
        rw [List.flatMap_singleton, hG, List.map_map, List.map_map]
        refine List.map_congr_left fun e _ => ?_
        simp [pairPath, hgc]
      have hb : binPairs p (Z ++ [g]) = binPairs p Z ++ binPairs p [g] := by unfold binPairs; rw [List.flatMap_append]
      rw [hb, List.map_append, hl]
      by_cases hZ : Z = []
      · subst hZ
        simp [dictSet, dictGet, binPairs]
      · rw [if_neg hZ, if_neg (by simp)]
        simp [dictSet, dictGet]
  have := key Y [] hY
  rw [List.nil_append] at this
  exact this

theorem groupsOf_part {p : PM} (hp : Tabular p) {Y : List GIdx} (hY : ∀ g ∈ Y, (partAt p g).isSome) :
    groupsOf (multAt p) (fun g => if g ∈ Y then ((partAt p g).map Prod.fst).getD [] else []) =
      ([GIdx.g0, .g1, .g2].filter fun g => decide (g ∈ Y)).filterMap (partAt p) := by
  unfold groupsOf
  rw [List.filterMap_filter]
  refine List.filterMap_congr fun g _ => ?_
  by_cases h : g ∈ Y
  · obtain ⟨G, hG⟩ := Option.isSome_iff_exists.1 (hY g h)
    have := hp.full G (partAt_mem hG)
    simp [h, hG, this, multAt_of hG]
  · simp [h]

theorem Tabular.group_nodup {p : PM} (hp : Tabular p) {g : GIdx} {G : Group} (h : partAt p g = some G) : ((G.1.filter fun x => x.empty = false).map str).Nodup := by
  have h1 := (hp.sep.groups G (partAt_mem h)).1
  rw [List.Nodup, List.pairwise_map] at h1 ⊢
  exact h1.filter _

/-- The parts of an assembly of whole groups and constants. -/
theorem assemble_groups {ord : List Expr → List Expr} (ho : Rearranges ord) {p : PM} (hp : Tabular p) (st : GIdx → Bool)
    {l : List (GIdx × Script)} (hl : ∀ e ∈ l, Sound e.2) (hne : l ≠ []) {Y : List GIdx} (hY : ∀ g ∈ Y, (partAt p g).isSome)
    (hmem : ∀ g, g ≠ .constant → ∀ t, (∃ e ∈ l, e.1 = g ∧ e.2.empty = false ∧ e.2.str = t) ↔ g ∈ Y ∧ ∃ G, partAt p g = some G ∧ ∃ x ∈ G.1, x.str = t)
    (hout : ∀ e ∈ l, e.1 = .constant ∨ e.1 ∈ Y) :
    ∃ q, uslOf ord (l.map (pairPath (multAt p) st)) = .ok (.pm q) ∧
      SamePM q (mkPM (placed l .constant) (([GIdx.g0, .g1, .g2].filter fun g => decide (g ∈ Y)).filterMap (partAt p))) ∧ OkPM q := by
  rw [← groupsOf_part hp hY]
  refine assemble_pairs ho hp.mult st (fun e he => ⟨(hl e he).wf, (hl e he).2⟩) hne (placed_names hl _) (fun g hg => ?_) fun g hg => ?_
  · by_cases h : g ∈ Y
    · obtain ⟨G, hG⟩ := Option.isSome_iff_exists.1 (hY g h)
      simp only [h, if_true, hG, Option.map_some, Option.getD_some]
      refine ⟨fun x hx => (hp.groups G (partAt_mem hG) x hx).1.1, hp.group_nodup hG, fun t => ?_⟩
      rw [hmem g hg t]
      constructor
      · rintro ⟨x, ⟨hx, _⟩, e⟩
        exact ⟨h, G, hG, x, hx, e⟩
      · rintro ⟨_, G', hG', x, hx, e⟩
        rw [hG] at hG'
        cases hG'
        exact ⟨x, ⟨hx, (hp.groups G (partAt_mem hG) x hx).2⟩, e⟩
    · simp only [h, if_false]
      refine ⟨by simp, by simp, fun t => ?_⟩
      rw [hmem g hg t]
      simp [h, Meant]
  · by_cases h : g ∈ Y
    · obtain ⟨G, hG⟩ := Option.isSome_iff_exists.1 (hY g h)
      have hf := hp.full G (partAt_mem hG)
      simp only [h, if_true, hG, Option.map_some, Option.getD_some, hf, false_iff]
      intro hno
      obtain ⟨x, hx⟩ := List.exists_mem_of_ne_nil _ hf
      obtain ⟨e, he, e1, _⟩ := (hmem g hg x.str).2 ⟨h, G, hG, x, hx, rfl⟩
      exact hno e he e1
    · simp only [h, if_false, true_iff]
      intro e he e1
      rcases hout e he with h2 | h2
      · exact hg (e1 ▸ h2)
      · exact h (e1 ▸ h2)

theorem forall₂_imp_mem {α β : Type} {P Q : α → β → Prop} {l : List α} {k : List β} (h : List.Forall₂ P l k) : (∀ a b, a ∈ l → b ∈ k → P a b → Q a b) → List.Forall₂ Q l k := by
  induction h with
  | nil => intro _; exact .nil
  | cons h _ ih =>
    intro hq
    exact .cons (hq _ _ (by simp) (by simp) h) (ih fun a b ha hb => hq a b (List.mem_cons_of_mem _ ha) (List.mem_cons_of_mem _ hb))

theorem filter_idx_perm {Y R : List GIdx} (h : Y.Perm R) (hR : R = [GIdx.g0, .g1, .g2].filter fun g => decide (g ∈ R)) : ([GIdx.g0, .g1, .g2].filter fun g => decide (g ∈ Y)) = R := by
  conv_rhs => rw [hR]
  refine List.filter_congr fun g _ => ?_
  simp only [h.mem_iff]

/-- **The rows.** Their variations are the sequences of the groups of the rows, as constants, sorted. -/
theorem rowVariation_eq {ord : List Expr → List Expr} (ho : Rearranges ord) {ordP : List Path → List Path} (hP : ∀ l, (ordP l).Perm l) {p : PM} (hp : Tabular p) {T : Table2D}
    {i : GIdx} {R S : List GIdx} (h : TableCase p T i R S) :
    ∃ (B B' : List PM) (RB : List (List Script)), (mkPM [] (R.filterMap (partAt p))).singularSequences = .ok B ∧ B'.Perm B ∧
      List.Forall₂ (fun r b => SameMeant r b.constant ∧ ∀ x ∈ r, Sound x) RB B' ∧
      T.rowVariation ord ordP = .ok (RB.map fun r => (asPairs r).map (pairPath (multAt p) fun _ => true)) ∧
      ∃ Q : List Script → PM, (∀ r ∈ RB, uslOf ord ((asPairs r ++ keptPairs p S).map (pairPath (multAt p) fun _ => true)) = .ok (.pm (Q r)) ∧ OkPM (Q r)) ∧
        RB.Pairwise fun a b => (Q b).lt (Q a) = false := by
  obtain ⟨Y0, hd, hY0⟩ := dimensions_eq hp h
  obtain ⟨Y, hYp, hYe⟩ := perm_lift (hP (Y0.map (partPath p)))
  have hYR : Y.Perm R := hYp.trans hY0
  have hpl := h.place
  have hY : ∀ g ∈ Y, (partAt p g).isSome := fun g hg => (hpl.2.1 g (hYR.mem_iff.1 hg)).1
  obtain ⟨B, hB⟩ := pm_total (mkPM [] (R.filterMap (partAt p)))
  have hgs : ∀ g ∈ R.filterMap (partAt p), g ∈ p.groups := by
    intro g hg
    obtain ⟨x, _, hx⟩ := List.mem_filterMap.1 hg
    exact partAt_mem hx
  -- the unsorted rows
  have rows : ∃ (B' : List PM) (RB : List (List Script)) (vs : List (List (List (Path × Script)))), B'.Perm B ∧
      List.Forall₂ (fun r b => SameMeant r b.constant ∧ ∀ x ∈ r, Sound x) RB B' ∧
      (if Y = [] then [] else [([.usl], (binPairs p Y).map (pairPath (multAt p) fun _ => false))] : List (Path × List (Path × Script))).mapM (Table2D.binVariations ord) = .ok vs ∧
      ((prodL vs).map fun v => ([] : List (Path × Node)) ++ v.flatten.map fun e => (e.1, Node.expr (.script e.2))).mapM Table2D.asRow =
        .ok (RB.map fun r => (asPairs r).map (pairPath (multAt p) fun _ => true)) := by
    by_cases hY0 : Y = []
    · have hR : R = [] := by
        rw [hY0] at hYR
        exact hYR.symm.eq_nil
      rw [hR] at hB
      rw [pm_single (p := mkPM [] (([] : List GIdx).filterMap (partAt p))) rfl, Except.ok.injEq] at hB
      subst hB
      refine ⟨_, [[]], [], List.Perm.refl _, .cons ⟨?_, by simp⟩ .nil, by rw [if_pos hY0]; rfl, rfl⟩
      intro t
      rw [none_constant]
      simp only [Meant, List.not_mem_nil, false_and, exists_false, List.mem_singleton, false_iff]
      rintro ⟨x, ⟨rfl, hx⟩, _⟩
      simp [Script.empty] at hx
    · rw [if_neg hY0]
      have hne : binPairs p Y ≠ [] := by
        obtain ⟨g, hg⟩ := List.exists_mem_of_ne_nil _ hY0
        obtain ⟨G, hG⟩ := Option.isSome_iff_exists.1 (hY g hg)
        exact List.ne_nil_of_mem (a := (g, .null 0)) ((mem_binPairs hp).2 ⟨hg, G, hG, .inl rfl⟩)
      have hsound : ∀ e ∈ binPairs p Y, Sound e.2 := by
        intro e he
        obtain ⟨_, G, hG, h1 | h1⟩ := (mem_binPairs hp).1 he
        · rw [h1]; exact sound_null
        · exact (hp.groups G (partAt_mem hG) _ h1).1
      obtain ⟨u, hu, hsame, hok⟩ := assemble_groups ho hp (fun _ => false) hsound hne hY (by
        intro g hg t
        constructor
        · rintro ⟨e, he, rfl, he2, rfl⟩
          obtain ⟨h1, G, hG, h2 | h2⟩ := (mem_binPairs hp).1 he
          · rw [h2] at he2; simp [Script.empty] at he2
          · exact ⟨h1, G, hG, _, h2, rfl⟩
        · rintro ⟨h1, G, hG, x, hx, rfl⟩
          exact ⟨(g, x), (mem_binPairs hp).2 ⟨h1, G, hG, .inr hx⟩, rfl, (hp.groups G (partAt_mem hG) x hx).2, rfl⟩)
        (fun e he => .inr ((mem_binPairs hp).1 he).1)
      have hcst : placed (binPairs p Y) .constant = [] := by
        rw [List.eq_nil_iff_forall_not_mem]
        intro x hx
        obtain ⟨_, G, hG, _⟩ := (mem_binPairs hp).1 (mem_placed hx)
        cases hG
      rw [hcst, filter_idx_perm hYR hpl.2.2.2.2.1] at hsame
      obtain ⟨L, hL⟩ := pm_total u
      obtain ⟨B1, hB1, B', hB', hall⟩ := same_sequences hok (hp.part hgs).1 hsame hL
      rw [hB, Except.ok.injEq] at hB1
      subst hB1
      have hLs : ∀ a ∈ L, ∀ m ∈ a.constant, Sound m ∧ ∃ e ∈ binPairs p Y, e.2.str = m.str := by
        intro a ha m hm
        obtain ⟨b, hb, hab⟩ := forall₂_mem_left hall ha
        have hstr : m.str ∈ b.constant.map str := hab.constant ▸ List.mem_map_of_mem hm
        obtain ⟨x, hx, e⟩ := List.mem_map.1 hstr
        obtain ⟨s1, s2⟩ := hp.seq hgs hB (hB'.mem_iff.1 hb) hx
        refine ⟨⟨(okPM_orderly ((pm_sequence hL ha).2 hok)).1 m hm, ?_⟩, ?_⟩
        · have := s1.2
          unfold Readable at this ⊢
          rw [← e]
          exact this
        · rcases s2 with rfl | ⟨G, hG, hx⟩
          · obtain ⟨g, hg⟩ := List.exists_mem_of_ne_nil _ hY0
            obtain ⟨G, hG⟩ := Option.isSome_iff_exists.1 (hY g hg)
            exact ⟨(g, .null 0), (mem_binPairs hp).2 ⟨hg, G, hG, .inl rfl⟩, e⟩
          · obtain ⟨g, hg, hgG⟩ := List.mem_filterMap.1 hG
            exact ⟨(g, x), (mem_binPairs hp).2 ⟨hYR.mem_iff.2 hg, G, hgG, .inr hx⟩, e⟩
      have hget : ∀ a ∈ L, ∀ m ∈ a.constant, ∃ g k, Table2D.pathOf (Table2D.lastPath ((binPairs p Y).map (pairPath (multAt p) fun _ => false))) m = .ok [.pm g none k] := by
        intro a ha m hm
        obtain ⟨e, he, e1⟩ := (hLs a ha m hm).2
        obtain ⟨f, hf, _, h2⟩ := lastPath_get (l := (binPairs p Y).map (pairPath (multAt p) fun _ => false)) (m := m) ⟨_, List.mem_map_of_mem he, e1⟩
        obtain ⟨f', _, rfl⟩ := List.mem_map.1 hf
        exact ⟨f'.1, _, by rw [h2]; rfl⟩
      let P : Script → Path := fun m => match Table2D.pathOf (Table2D.lastPath ((binPairs p Y).map (pairPath (multAt p) fun _ => false))) m with | .ok x => x | .error _ => []
      refine ⟨B', L.map PM.constant, [L.map fun a => a.constant.map fun m => (P m, m)], hB', ?_, ?_, ?_⟩
      · rw [List.forall₂_map_left_iff]
        refine forall₂_imp_mem hall fun a b ha hb hab => ⟨?_, fun x hx => (hLs a ha x hx).1⟩
        exact fun t => meant_texts (fun x hx => (hLs a ha x hx).1.wf) (fun x hx => (hp.seq hgs hB (hB'.mem_iff.1 hb) hx).1.wf) hab.constant t
      · rw [List.mapM_cons, List.mapM_nil]
        have : Table2D.binVariations ord ([.usl], (binPairs p Y).map (pairPath (multAt p) fun _ => false)) = .ok (L.map fun a => a.constant.map fun m => (P m, m)) := by
          unfold Table2D.binVariations
          simp only []
          rw [hu, ok_then, node_sequences _ hL, ok_then]
          refine mapM_map fun a ha => ?_
          rw [scripts_single (pm_sequence hL ha).1 (multAt p), ok_then, List.map_map]
          refine mapM_map fun m hm => ?_
          obtain ⟨g, k, hgk⟩ := hget a ha m hm
          have hPm : P m = [.pm g none k] := by simp only [P, hgk]
          simp only [Function.comp_apply, pairPath]
          rw [hgk, ok_then, hPm]
          rfl
        rw [this]
        rfl
      · have hprod : prodL [L.map fun a => a.constant.map fun m => (P m, m)] = L.map fun a => [a.constant.map fun m => (P m, m)] := by
          simp [prodL, List.flatMap_map]
          exact List.flatMap_pure_eq_map _ _
        rw [hprod, List.map_map, List.map_map]
        refine mapM_map fun a ha => ?_
        simp only [Function.comp_apply, List.flatten_singleton, List.nil_append, List.map_map]
        unfold Table2D.asRow
        rw [mapM_map (g := fun m => [(([.pm .constant (some m) none] : Path), m)]), ok_then]
        · show Except.ok _ = _
          congr 1
          simp only [asPairs, List.map_map]
          rw [← List.flatMap_def]
          exact List.flatMap_pure_eq_map _ _
        · intro m hm
          obtain ⟨g, k, hgk⟩ := hget a ha m hm
          have hPm : P m = [.pm g none k] := by simp only [P, hgk]
          simp only [Function.comp_apply, hPm]
          rfl
  obtain ⟨B', RB, vs, hB', hall, hv, hr⟩ := rows
  -- the keys
  let F : List Script → List (Path × Script) := fun r => (asPairs r).map (pairPath (multAt p) fun _ => true)
  have hkey : ∀ r ∈ RB, ∃ q, (do
      let c ← T.constantPaths
      uslOf ord ((F r).map (fun e : Path × Script => (asConstant none e.1, e.2)) ++ c)) = .ok (Expr.pm q) ∧
      uslOf ord ((asPairs r ++ keptPairs p S).map (pairPath (multAt p) fun _ => true)) = .ok (.pm q) ∧ OkPM q := by
    intro r hr
    obtain ⟨b, _, _, hs⟩ := forall₂_mem_left hall hr
    have hl : ∀ e ∈ asPairs r ++ keptPairs p S, Sound e.2 := by
      intro e he
      rcases List.mem_append.1 he with he | he
      · obtain ⟨m, hm, rfl⟩ := List.mem_map.1 he
        exact hs m hm
      · exact keptPairs_sound hp S e he
    obtain ⟨q, h1, _, h2⟩ := assemble_placed ho hp.mult (fun _ => true) hl (by simp [keptPairs_ne hp S])
    refine ⟨q, ?_, h1, h2⟩
    rw [constantPaths_eq h, ok_then, ← h1]
    congr 1
    simp only [F, asPairs, List.map_append, List.map_map]
    congr 1
  have : Nonempty PM := ⟨mkPM [] []⟩
  choose! Q hQ using hkey
  have hperm : (pySort (fun a b => (Q a).lt (Q b)) RB).Perm RB := pySort_perm _ _
  obtain ⟨B'', hall', hB''⟩ := List.perm_comp_forall₂ hperm hall
  refine ⟨B, B'', pySort (fun a b => (Q a).lt (Q b)) RB, hB, hB''.trans hB', hall', ?_, Q, fun r hr => (hQ r (hperm.mem_iff.1 hr)).2, sorted_keys fun a ha => (hQ a ha).2.2⟩
  unfold Table2D.rowVariation
  have hc : T.dimConstants (ordP []) = .ok [] := by
    rw [(hP []).eq_nil]
    rfl
  rw [hd, ok_then, ← hYe, variationsRead_eq h.usl hY, ok_then, hc, ok_then, bins_eq h.usl hY, ok_then, hv, ok_then]
  simp only []
  rw [hr, ok_then]
  have hs := sortKeyed_pm (key := fun l => (do
      let c ← T.constantPaths
      uslOf ord (l.map (fun e : Path × Script => (asConstant none e.1, e.2)) ++ c) : Except Err Expr)) (l := RB.map F)
      (Q := fun l => match (do
        let c ← T.constantPaths
        uslOf ord (l.map (fun e : Path × Script => (asConstant none e.1, e.2)) ++ c) : Except Err Expr) with | .ok (.pm q) => q | _ => mkPM [] []) (by
      intro l hl
      obtain ⟨a, ha, rfl⟩ := List.mem_map.1 hl
      rw [(hQ a ha).1])
  rw [hs, pySort_map' (lt := fun a b => (Q a).lt (Q b))]
  intro a ha b hb
  simp only [(hQ a ha).1, (hQ b hb).1]

end Verif
