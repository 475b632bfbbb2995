import Verif.Props.FromPaths

/-
Lemmas on the families of flexions: assembling a flexion from its morphemes.
-/

namespace Verif
open Script

/-! ### Flexions -/

theorem families_nodup : (flexionFamilies.flatMap fun r => (familySequences r).map str).Nodup := by decide +kernel

/-- A morpheme is in one family at most. -/
theorem family_unique {r r' : Str} (hr : r ∈ flexionFamilies) (hr' : r' ∈ flexionFamilies) {m : Str} (h : inFamily r m = true) (h' : inFamily r' m = true) : r = r' := by
  have hd := (List.nodup_flatMap.1 families_nodup).2
  by_contra hne
  have : Std.Symm (Function.onFun List.Disjoint fun r => List.map str (familySequences r)) := ⟨fun _ _ h x hx hy => h hy hx⟩
  have := hd.forall hr hr' hne
  unfold inFamily at h h'
  rw [List.any_eq_true] at h h'
  obtain ⟨x, hx, ex⟩ := h
  obtain ⟨y, hy, ey⟩ := h'
  rw [decide_eq_true_eq] at ex ey
  exact this (List.mem_map.2 ⟨x, hx, ex⟩) (List.mem_map.2 ⟨y, hy, ey⟩)

theorem familyStep_skip {m : Expr} : ∀ {fs : List Str} {d : List (Str × List Expr)}, (∀ r ∈ fs, inFamily r m.text = false) → fs.foldl (fun d r => familyStep d m r) d = d
  | [], _, _ => rfl
  | r :: fs, d, h => by
    rw [List.foldl_cons, familyStep, h r (by simp)]
    exact familyStep_skip fun x hx => h x (List.mem_cons_of_mem _ hx)

theorem familyStep_once {m : Expr} {r : Str} (hr : r ∈ flexionFamilies) (h : inFamily r m.text = true) (d : List (Str × List Expr)) :
    flexionFamilies.foldl (fun d r => familyStep d m r) d = dictSet id r (setAdd Expr.text m ((dictGet id r d).getD [])) d := by
  have hn : flexionFamilies.Nodup := by decide +kernel
  have hu : ∀ r' ∈ flexionFamilies, r' ≠ r → inFamily r' m.text = false := by
    intro r' h' hne
    by_contra hc
    exact hne (family_unique h' hr (by simpa using hc) h)
  obtain ⟨a, b, e⟩ := List.append_of_mem hr
  rw [e] at hn hu ⊢
  rw [List.nodup_append, List.nodup_cons] at hn
  rw [List.foldl_append, List.foldl_cons, familyStep_skip (fs := a), familyStep, if_pos h, familyStep_skip]
  · exact fun x hx => hu x (by simp [hx]) (by rintro rfl; exact hn.2.1.1 hx)
  · exact fun x hx => hu x (by simp [hx]) (hn.2.2 x hx r (by simp))

/-- One iteration of the outer loop. -/
def familyFold (d : List (Str × List Expr)) (m : Expr) : List (Str × List Expr) := flexionFamilies.foldl (fun d r => familyStep d m r) d

theorem family_more {r : Str} (hr : r ∈ flexionFamilies) {d : List (Str × List Expr)} (hd : ∀ e ∈ d, e.1 ≠ r) : ∀ {ms done : List Expr}, (∀ m ∈ ms, inFamily r m.text = true) →
    ((done ++ ms).map Expr.text).Nodup → ms.foldl familyFold (d ++ [(r, done)]) = d ++ [(r, done ++ ms)]
  | [], done, _, _ => by simp
  | m :: ms, done, h, hn => by
    have hf : ∀ y ∈ done, y.text ≠ m.text := by
      rw [List.map_append, List.nodup_append] at hn
      exact fun y hy => hn.2.2 _ (List.mem_map_of_mem hy) _ (by simp)
    rw [List.foldl_cons, familyFold, familyStep_once hr (h m (by simp)), dictGet_mid (key := id) hd rfl, Option.getD_some, setAdd_fresh hf, dictSet_mid (key := id) hd rfl,
      family_more hr hd (fun x hx => h x (List.mem_cons_of_mem _ hx)) (by simpa using hn)]
    simp

theorem family_slot {r : Str} (hr : r ∈ flexionFamilies) {d : List (Str × List Expr)} (hd : ∀ e ∈ d, e.1 ≠ r) {ms : List Expr} (hne : ms ≠ []) (h : ∀ m ∈ ms, inFamily r m.text = true)
    (hn : (ms.map Expr.text).Nodup) : ms.foldl familyFold d = d ++ [(r, ms)] := by
  cases ms with
  | nil => exact absurd rfl hne
  | cons m ms =>
    rw [List.foldl_cons, familyFold, familyStep_once hr (h m (by simp)), dictGet_fresh (key := id) hd, Option.getD_none, setAdd_nil, dictSet_fresh (key := id) hd,
      family_more hr hd (fun x hx => h x (List.mem_cons_of_mem _ hx)) (by simpa using hn)]
    rfl

theorem family_slots : ∀ {rs : List Str} {S : List (List Expr)} {d : List (Str × List Expr)}, (∀ r ∈ rs, r ∈ flexionFamilies) → (d.map Prod.fst ++ rs).Nodup →
    List.Forall₂ (fun r s => s ≠ [] ∧ (∀ m ∈ s, inFamily r m.text = true) ∧ (s.map Expr.text).Nodup) rs S → S.flatten.foldl familyFold d = d ++ rs.zip S
  | _, _, d, _, _, .nil => by simp
  | r :: rs, s :: S, d, hr, hn, .cons h1 h2 => by
    have hd : ∀ e ∈ d, e.1 ≠ r := by
      rw [List.nodup_append] at hn
      exact fun e he => hn.2.2 _ (List.mem_map_of_mem he) _ (by simp)
    rw [List.flatten_cons, List.foldl_append, family_slot (hr r (by simp)) hd h1.1 h1.2.1 h1.2.2,
      family_slots (fun x hx => hr x (List.mem_cons_of_mem _ hx)) (by simpa using hn) h2]
    simp

theorem flexionGroups_eq (ms : List Expr) : flexionGroups ms = ms.foldl familyFold [] := rfl

/-- The flexions that the library can find again: every morpheme belongs to a family of flexions, every constant is alone of its family, and a group
has at least two morphemes of a same family, and the multiplicity 1; there are at most three groups, no family and no morpheme comes back. -/
structure FlexionForm (p : PM) : Prop where
  distinct : ((p.constant ++ p.groups.flatMap Prod.fst).map str).Nodup
  groups : ∀ g ∈ p.groups, g.2 = 1 ∧ 2 ≤ g.1.length
  three : p.groups.length ≤ 3
  families : ∃ rs : List Str, rs.Nodup ∧ (∀ r ∈ rs, r ∈ flexionFamilies) ∧
    List.Forall₂ (fun r slot => ∀ m ∈ slot, inFamily r m.str = true) rs ((p.constant.filter fun m => m.empty = false).map (fun m => [m]) ++ p.groups.map Prod.fst)

/-- The scripts of values. -/
theorem asScripts (l : List Expr) (ms : List Script) (h : l.Perm (ms.map Expr.script)) : ∃ ms' : List Script, ms'.Perm ms ∧ l = ms'.map Expr.script ∧ l.mapM asScript = .ok ms' := by
  obtain ⟨ms', h1, h2⟩ : ∃ ms' : List Script, ms'.Perm ms ∧ ms'.map Expr.script = l := by
    let f : Expr → Option Script := fun e => match e with | .script s => some s | _ => none
    have hl : ∀ e ∈ l, ∃ m, e = Expr.script m := by
      intro e he
      obtain ⟨m, _, rfl⟩ := List.mem_map.1 (h.mem_iff.1 he)
      exact ⟨m, rfl⟩
    refine ⟨l.filterMap f, ?_, ?_⟩
    · have := h.filterMap f
      rwa [List.filterMap_map, show f ∘ Expr.script = some from rfl, List.filterMap_some] at this
    · clear h
      induction l with
      | nil => rfl
      | cons e l ih =>
        obtain ⟨m, rfl⟩ := hl e (by simp)
        rw [List.filterMap_cons, show f (Expr.script m) = some m from rfl]
        simp only [List.map_cons]
        rw [ih fun x hx => hl x (List.mem_cons_of_mem _ hx)]
  refine ⟨ms', h1, h2.symm, ?_⟩
  subst h2
  clear h h1
  induction ms' with
  | nil => rfl
  | cons m ms ih => rw [List.map_cons, List.mapM_cons, ih]; rfl

theorem forall₂_with_right {α β : Type} {R : α → β → Prop} {l : List α} {u : List β} (h : List.Forall₂ R l u) : List.Forall₂ (fun a b => R a b ∧ b ∈ u) l u := by
  induction h with
  | nil => exact .nil
  | cons h _ ih => exact .cons ⟨h, by simp⟩ (ih.imp fun _ _ h => ⟨h.1, List.mem_cons_of_mem _ h.2⟩)

/-- One constant. -/
theorem flexionPart_one {ord : List Expr → List Expr} (ho : Rearranges ord) (a : List Script × List Group) (m : Script) :
    flexionPart ord a [.script m] = .ok (a.1 ++ [m], a.2) := by
  unfold flexionPart
  rw [ho.single]
  rfl

/-- One group. -/
theorem flexionPart_many {ord : List Expr → List Expr} (ho : Rearranges ord) (a : List Script × List Group) {ms : List Script} (h : 2 ≤ ms.length) :
    ∃ ms' : List Script, ms'.Perm ms ∧ flexionPart ord a (ms.map .script) = .ok (a.1, a.2 ++ [(ms', 1)]) := by
  obtain ⟨ms', h1, h2, h3⟩ := asScripts _ ms (ho (ms.map .script))
  refine ⟨ms', h1, ?_⟩
  unfold flexionPart
  rw [h3]
  have hl := h1.length_eq
  match ms', hl with
  | [], hl => simp at hl; omega
  | [_], hl => simp at hl; omega
  | _ :: _ :: _, _ => rfl

theorem flexion_constants {ord : List Expr → List Expr} (ho : Rearranges ord) : ∀ (cs : List Script) (a : List Script × List Group),
    ((cs.map fun m => [m]).map fun l => l.map Expr.script).foldlM (flexionPart ord) a = .ok (a.1 ++ cs, a.2)
  | [], a => by simp; rfl
  | m :: cs, a => by
    rw [List.map_cons, List.map_cons, List.foldlM_cons]
    rw [show [m].map Expr.script = [Expr.script m] from rfl, flexionPart_one ho]
    show List.foldlM _ _ _ = _
    rw [flexion_constants ho cs]
    simp

theorem flexion_groups {ord : List Expr → List Expr} (ho : Rearranges ord) : ∀ (gs : List (List Script)), (∀ g ∈ gs, 2 ≤ g.length) → ∀ a : List Script × List Group,
    ∃ G : List Group, (gs.map fun l => l.map Expr.script).foldlM (flexionPart ord) a = .ok (a.1, a.2 ++ G) ∧ List.Forall₂ (fun g' g => g'.1.Perm g ∧ g'.2 = 1) G gs
  | [], _, a => ⟨[], by simp; rfl, .nil⟩
  | g :: gs, h, a => by
    obtain ⟨g', h1, h2⟩ := flexionPart_many ho a (h g (by simp))
    obtain ⟨G, h3, h4⟩ := flexion_groups ho gs (fun x hx => h x (List.mem_cons_of_mem _ hx)) (a.1, a.2 ++ [(g', 1)])
    refine ⟨(g', 1) :: G, ?_, .cons ⟨h1, rfl⟩ h4⟩
    rw [List.map_cons, List.foldlM_cons, h2]
    show List.foldlM _ _ _ = _
    rw [h3]
    simp

theorem null_family {r : Str} (hr : r ∈ flexionFamilies) : inFamily r (Script.null 0).str = false := by
  have h : ∀ r ∈ flexionFamilies, inFamily r (Script.null 0).str = false := by decide +kernel
  exact h r hr

/-- The constants are those shown, or the empty one. -/
theorem constant_cases (cs : List Script) (gs : List Group) : ((mkPM cs gs).constant = shownC cs ∧ ∀ m ∈ shownC cs, m.empty = false) ∨
    ((mkPM cs gs).constant = [.null 0] ∧ shownC cs = []) := by
  have e2 : (mkPM cs gs).constant = if (shownC cs).isEmpty then [.null 0] else shownC cs := rfl
  have hm : ∀ m ∈ shownC cs, m.empty = false := fun m hm => by
    rw [shownC, mem_pySort, mem_filterEmpty] at hm
    exact hm.2
  rw [e2]
  split
  · next h => exact .inr ⟨rfl, by simpa using h⟩
  · exact .inl ⟨rfl, hm⟩

theorem constant_shown (cs : List Script) (gs : List Group) : (mkPM cs gs).constant.filter (fun m => m.empty = false) = shownC cs := by
  rcases constant_cases cs gs with ⟨h1, h2⟩ | ⟨h1, h2⟩
  · rw [h1, List.filter_eq_self]
    simpa using h2
  · rw [h1, h2]
    rfl

theorem reads_list {M : Script → Script} (hM : ∀ m, WF m → parseScript m.str = .ok (M m)) {l : List Script} (hl : ∀ m ∈ l, WF m) : ReadList l (l.map M) := by
  induction l with
  | nil => exact .nil
  | cons a l ih => exact .cons (hM a (hl a (by simp))) (ih fun x hx => hl x (List.mem_cons_of_mem _ hx))

theorem reads_groups {M : Script → Script} (hM : ∀ m, WF m → parseScript m.str = .ok (M m)) {G : List Group} (hw : ∀ g ∈ G, ∀ m ∈ g.1, WF m) :
    GroupsRead G (G.map fun g => (g.1.map M, g.2)) := by
  induction G with
  | nil => exact .nil
  | cons g G ih => exact .cons ⟨reads_list hM (hw g (by simp)), rfl⟩ (ih fun x hx => hw x (List.mem_cons_of_mem _ hx))

/-- A flexion assembled from its morphemes, read from their texts. -/
theorem flexionOf_read {ord : List Expr → List Expr} (ho : Rearranges ord) {cs : List Script} {gs : List Group} (h : Legible cs gs) (hf : FlexionForm (mkPM cs gs))
    {M : Script → Script} (hM : ∀ m, WF m → parseScript m.str = .ok (M m)) :
    ∃ q, flexionOf ord (((mkPM cs gs).constant ++ (mkPM cs gs).groups.flatMap Prod.fst).map fun m => .script (M m)) = .ok q ∧ SamePM q (mkPM cs gs) ∧ q.empty = (mkPM cs gs).empty := by
  have hgs : (mkPM cs gs).groups = shownG gs := rfl
  have hwc : ∀ m ∈ shownC cs, WF m := fun m hm => (h.wfC m hm).1
  have hwg : ∀ g ∈ shownG gs, ∀ m ∈ g.1, WF m := fun g hg m hm => (h.wfG g hg m hm).1
  have hMs : ∀ m, WF m → (M m).str = m.str := fun m hm => (read_same hm (hM m hm)).2.1
  -- the families
  obtain ⟨rs, hrn, hrf, hrs⟩ := hf.families
  rw [constant_shown, hgs] at hrs
  let S : List (List Script) := (shownC cs).map (fun m => [m]) ++ (shownG gs).map Prod.fst
  have hSw : ∀ l ∈ S, ∀ m ∈ l, WF m := by
    intro l hl m hm
    rcases List.mem_append.1 hl with hl | hl
    · obtain ⟨x, hx, rfl⟩ := List.mem_map.1 hl
      rw [List.mem_singleton.1 hm]
      exact hwc x hx
    · obtain ⟨g, hg, rfl⟩ := List.mem_map.1 hl
      exact hwg g hg m hm
  have hflat : S.flatten = shownC cs ++ (shownG gs).flatMap Prod.fst := by
    rw [List.flatten_append, List.flatMap_def]
    congr 1
    exact List.flatMap_singleton' _
  have hdis := hf.distinct
  rw [hgs] at hdis
  have hSd : ∀ l ∈ S, (l.map str).Nodup := by
    intro l hl
    have h1 : (S.flatten.map str).Nodup := by
      rw [hflat]
      refine hdis.sublist (List.Sublist.map _ (List.Sublist.append ?_ (.refl _)))
      rw [← constant_shown cs gs]
      exact List.filter_sublist
    exact h1.sublist (List.Sublist.map _ (List.sublist_flatten_of_mem hl))
  have hSne : ∀ l ∈ S, l ≠ [] := by
    intro l hl
    rcases List.mem_append.1 hl with hl | hl
    · obtain ⟨x, hx, rfl⟩ := List.mem_map.1 hl
      simp
    · obtain ⟨g, hg, rfl⟩ := List.mem_map.1 hl
      exact h.fullG g hg
  have hgroups : flexionGroups (((mkPM cs gs).constant ++ (mkPM cs gs).groups.flatMap Prod.fst).map fun m => .script (M m)) =
      rs.zip (S.map fun l => l.map fun m => Expr.script (M m)) := by
    have h1 : flexionGroups (((mkPM cs gs).constant ++ (mkPM cs gs).groups.flatMap Prod.fst).map fun m => .script (M m)) =
        (S.flatten.map fun m => Expr.script (M m)).foldl familyFold [] := by
      rw [flexionGroups_eq, hflat, hgs]
      rcases constant_cases cs gs with ⟨h1, _⟩ | ⟨h1, h2⟩
      · rw [h1]
      · rw [h1, h2, List.singleton_append, List.nil_append, List.map_cons, List.foldl_cons]
        congr 1
        unfold familyFold
        refine familyStep_skip fun r hr => ?_
        show inFamily r (M (.null 0)).str = false
        rw [hMs _ (.null (by omega))]
        exact null_family hr
    rw [h1, List.map_flatten]
    have := family_slots (rs := rs) (S := S.map fun l => l.map fun m => Expr.script (M m)) (d := []) hrf (by simpa using hrn) (by
      rw [List.forall₂_map_right_iff]
      have hb : List.Forall₂ (fun r (slot : List Script) => (∀ m ∈ slot, inFamily r m.str = true) ∧ slot ∈ S) rs S := by
        exact forall₂_with_right hrs
      refine hb.imp fun r l hl => ⟨?_, ?_, ?_⟩
      · simpa using hSne l hl.2
      · intro e he
        obtain ⟨m, hm, rfl⟩ := List.mem_map.1 he
        show inFamily r (M m).str = true
        rw [hMs m (hSw l hl.2 m hm)]
        exact hl.1 m hm
      · rw [List.map_map, List.map_congr_left (g := str)]
        · exact hSd l hl.2
        · exact fun m hm => hMs m (hSw l hl.2 m hm))
    rwa [List.nil_append] at this
  -- the polymorpheme
  have hlen : rs.length = S.length := hrs.length_eq
  have hsplit : (S.map fun l => l.map fun m => Expr.script (M m)) =
      (((shownC cs).map M).map fun m => [m]).map (fun l => l.map Expr.script) ++ (((shownG gs).map fun g => g.1.map M)).map fun l => l.map Expr.script := by
    simp only [S, List.map_append, List.map_map]
    congr 1
    refine List.map_congr_left fun g _ => ?_
    simp
  obtain ⟨G, hG, hGG⟩ := flexion_groups ho ((shownG gs).map fun g => g.1.map M) (by
    intro l hl
    obtain ⟨g, hg, rfl⟩ := List.mem_map.1 hl
    rw [List.length_map]
    exact (hf.groups g hg).2) ((shownC cs).map M, [])
  have hof : flexionOf ord (((mkPM cs gs).constant ++ (mkPM cs gs).groups.flatMap Prod.fst).map fun m => .script (M m)) = .ok (mkPM ((shownC cs).map M) G) := by
    unfold flexionOf
    rw [hgroups]
    have h1 : ∀ (l : List (Str × List Expr)) a, l.foldlM (fun a e => flexionPart ord a e.2) a = (l.map Prod.snd).foldlM (flexionPart ord) a := by
      intro l a
      rw [List.foldlM_map]
    rw [h1, List.map_snd_zip (by simp [hlen]), hsplit, List.foldlM_append, flexion_constants ho]
    show (List.foldlM (m := Except Err) _ _ _ >>= _) = _
    rw [List.nil_append, hG]
    rfl
  have hsame : SamePM (mkPM ((shownC cs).map M) G) (mkPM cs gs) := by
    have h1 := h.same (reads_list hM hwc) (reads_groups hM hwg)
    have h2 : SamePM (mkPM ((shownC cs).map M) G) (mkPM ((shownC cs).map M) ((shownG gs).map fun g => (g.1.map M, g.2))) := by
      have hord : ∀ m, WF m → Orderly (M m) := fun m hm => by
        obtain ⟨a, _, b⟩ := read_same hm (hM m hm)
        exact ⟨wf_built a, Or.inl b⟩
      rw [List.forall₂_map_right_iff] at hGG
      refine C41_normal_form_partial ?_ ?_ (.refl _) ⟨(shownG gs).map fun g => (g.1.map M, g.2), ?_, .refl _⟩
      · intro x hx
        rw [List.mem_append, or_self] at hx
        obtain ⟨m, hm, rfl⟩ := List.mem_map.1 hx
        exact hord m (hwc m hm)
      · intro g hg x hx
        rcases List.mem_append.1 hg with hg | hg
        · obtain ⟨g', hg', hp, _⟩ := forall₂_mem_left hGG hg
          obtain ⟨m, hm, rfl⟩ := List.mem_map.1 (hp.mem_iff.1 hx)
          exact hord m (hwg g' hg' m hm)
        · obtain ⟨g', hg', rfl⟩ := List.mem_map.1 hg
          obtain ⟨m, hm, rfl⟩ := List.mem_map.1 hx
          exact hord m (hwg g' hg' m hm)
      · rw [List.forall₂_map_right_iff]
        have hb : List.Forall₂ (fun (g' : Group) (g : Group) => (g'.1.Perm (g.1.map M) ∧ g'.2 = 1) ∧ g ∈ shownG gs) G (shownG gs) := by
          exact forall₂_with_right hGG
        refine hb.imp fun g' g hg => ⟨(hg.1.1.filter _).map _, ?_⟩
        rw [hg.1.2]
        exact ((hf.groups g hg.2).1).symm
    exact ⟨h2.text.trans h1.text, h2.constant.trans h1.constant, h2.groups.trans h1.groups⟩
  refine ⟨_, hof, hsame, hsame.empty ?_ fun x hx => (constant_wf h hx).1⟩
  refine fun x hx => mkPM_constant_wf (fun y hy => ?_) hx
  obtain ⟨m, hm, rfl⟩ := List.mem_map.1 hy
  exact (read_same (hwc m hm) (hM m (hwc m hm))).1

end Verif
