import Verif.Model.Git
import Verif.Lemmas.Files
import Verif.Lemmas.PySort

/-
Effect of the git operations, file by file.
-/

namespace Verif

theorem change_same {a b : Option Str} : change a b = .same ↔ a = b := by
  unfold change
  split <;> simp

theorem change_new {a b : Option Str} : change a b = .new ↔ a = none ∧ ∃ c, b = some c := by
  unfold change
  split <;> simp_all
  split <;> simp

theorem fsGet_append {α : Type} (a b : List (Str × α)) (p : Str) : fsGet (a ++ b) p = (fsGet a p).or (fsGet b p) := by
  unfold fsGet
  rw [List.find?_append]
  cases List.find? (fun f => decide (f.1 = p)) a <;> simp

theorem fsGet_filter_if {α : Type} (fs : List (Str × α)) (p : Str) (P : Str → Bool) :
    fsGet (fs.filter fun f => P f.1) p = if P p then fsGet fs p else none := by
  split
  · rename_i h; exact fsGet_filter h
  · rename_i h
    unfold fsGet
    rw [Option.map_eq_none_iff, List.find?_eq_none]
    intro f hf e
    have hf := (List.mem_filter.1 hf).2
    have e : f.1 = p := of_decide_eq_true e
    rw [e] at hf
    exact h hf

theorem fsGet_none {α : Type} {fs : List (Str × α)} {p : Str} : fsGet fs p = none ↔ p ∉ fs.map (·.1) := by
  unfold fsGet
  rw [Option.map_eq_none_iff, List.find?_eq_none]
  simp only [List.mem_map, Prod.exists, exists_and_right, exists_eq_right, not_exists, decide_eq_true_eq, Prod.forall]
  exact ⟨fun h x hx => h p x hx rfl, fun h a b hab e => h b (e ▸ hab)⟩

theorem mem_dedup_id {l : List Str} {p : Str} : p ∈ dedupBy id l ↔ p ∈ l :=
  ⟨mem_dedupBy id, fun h => by
    obtain ⟨y, hy, e⟩ := dedupBy_complete (key := id) h
    have e : y = p := e
    exact e ▸ hy⟩

theorem nodup_dedup_id (l : List Str) : (dedupBy id l).Nodup := by
  have := dedupBy_pairwise (key := id) l
  exact this

namespace Repo

theorem mem_status {r : Repo} {p : Str} {i w : Change} : (p, i, w) ∈ r.status ↔
    startsWith p (c!".") = false ∧ i = change (fsGet r.headTree p) (fsGet r.index p) ∧
      w = change (fsGet r.index p) (fsGet r.work p) ∧ ¬(i = .same ∧ w = .same) := by
  unfold status
  simp only [List.mem_filterMap]
  constructor
  · rintro ⟨q, _, h⟩
    split at h
    · cases h
    · rename_i h1
      split at h
      · cases h
      · rename_i h2
        simp only [Option.some.injEq, Prod.mk.injEq] at h
        obtain ⟨rfl, rfl, rfl⟩ := h
        exact ⟨by simpa using h1, rfl, rfl, h2⟩
  · rintro ⟨h1, rfl, rfl, h2⟩
    refine ⟨p, ?_, ?_⟩
    · rw [mem_dedup_id]
      by_contra hm
      simp only [List.map_append, List.mem_append, not_or] at hm
      apply h2
      rw [fsGet_none.2 hm.1.1, fsGet_none.2 hm.1.2, fsGet_none.2 hm.2]
      exact ⟨rfl, rfl⟩
    · rw [if_neg (by simp [h1]), if_neg h2]

theorem status_nil {r : Repo} : r.status = [] ↔ ∀ p, startsWith p (c!".") = false →
    fsGet r.headTree p = fsGet r.index p ∧ fsGet r.index p = fsGet r.work p := by
  rw [List.eq_nil_iff_forall_not_mem]
  constructor
  · intro h p hp
    by_contra hn
    refine h (p, _, _) (mem_status.2 ⟨hp, rfl, rfl, ?_⟩)
    rw [change_same, change_same]
    exact hn
  · rintro h ⟨p, i, w⟩ hm
    rw [mem_status] at hm
    obtain ⟨hp, rfl, rfl, hn⟩ := hm
    rw [change_same, change_same] at hn
    exact hn (h p hp)

theorem status_nodup (r : Repo) : (r.status.map (·.1)).Nodup := by
  unfold status
  have key : ∀ (l : List Str) (f : Str → Option (Str × Change × Change)), (∀ p e, f p = some e → e.1 = p) →
      ((l.filterMap f).map (·.1)).Sublist l := by
    intro l f hf
    induction l with
    | nil => exact List.Sublist.refl _
    | cons a l ih =>
      rw [List.filterMap_cons]
      cases h : f a with
      | none => exact ih.cons _
      | some e => rw [List.map_cons, hf a e h]; exact ih.cons_cons _
  refine (nodup_dedup_id _).sublist (key _ _ ?_)
  intro p e h
  simp only at h
  split at h
  · cases h
  · split at h
    · cases h
    · injection h with h; rw [← h]

theorem foldl_removeNew (es : List (Str × Change × Change)) : ∀ r : Repo,
    let r' := es.foldl (fun r e => if e.2.2 = .new then { r with work := fsRemove r.work e.1 } else r) r
    r'.head = r.head ∧ r'.index = r.index ∧ r'.commits = r.commits ∧
      ∀ p, fsGet r'.work p = if (∃ e ∈ es, e.1 = p ∧ e.2.2 = .new) then none else fsGet r.work p := by
  induction es with
  | nil => intro r; simp
  | cons e es ih =>
    intro r
    simp only [List.foldl_cons]
    obtain ⟨h1, h2, h3, h4⟩ := ih (if e.2.2 = .new then { r with work := fsRemove r.work e.1 } else r)
    refine ⟨?_, ?_, ?_, fun p => ?_⟩
    · rw [h1]; split <;> rfl
    · rw [h2]; split <;> rfl
    · rw [h3]; split <;> rfl
    · rw [h4]
      by_cases hn : e.2.2 = .new
      · rw [if_pos hn, fsGet_fsRemove]
        by_cases hp : e.1 = p
        · subst hp
          rw [if_pos rfl]
          split
          · rw [if_pos ⟨e, List.mem_cons_self, rfl, hn⟩]
          · rw [if_pos ⟨e, List.mem_cons_self, rfl, hn⟩]
        · rw [if_neg (Ne.symm hp)]
          refine if_congr ⟨fun ⟨f, hf, h⟩ => ⟨f, List.mem_cons_of_mem _ hf, h⟩, fun ⟨f, hf, h⟩ => ⟨f, ?_, h⟩⟩ rfl rfl
          rcases List.mem_cons.1 hf with rfl | hf
          · exact absurd h.1 hp
          · exact hf
      · rw [if_neg hn]
        refine if_congr ⟨fun ⟨f, hf, h⟩ => ⟨f, List.mem_cons_of_mem _ hf, h⟩, fun ⟨f, hf, h⟩ => ⟨f, ?_, h⟩⟩ rfl rfl
        rcases List.mem_cons.1 hf with rfl | hf
        · exact absurd h.2 hn
        · exact hf

theorem resetHard_work (r : Repo) (c : Nat) (p : Str) : fsGet (r.resetHard c).work p =
    match fsGet (r.treeOf c) p with
    | some x => some x
    | none => if (fsGet r.index p).isSome then none else fsGet r.work p := by
  unfold resetHard
  simp only [fsGet_append]
  have := fsGet_filter_if r.work p fun q => (fsGet (r.treeOf c) q).isNone && (fsGet r.index q).isNone
  rw [this]
  cases h1 : fsGet (r.treeOf c) p with
  | some x => rfl
  | none => cases h2 : fsGet r.index p <;> simp

/-- What `reset` leaves. -/
theorem reset_spec (r : Repo) (c : Nat) : (r.reset c).head = c ∧ (r.reset c).index = r.treeOf c ∧
    (r.reset c).commits = r.commits ∧ ∀ p, fsGet (r.reset c).work p =
      match fsGet (r.treeOf c) p with
      | some x => some x
      | none => if startsWith p (c!".") then (if (fsGet r.index p).isSome then none else fsGet r.work p) else none := by
  unfold reset
  obtain ⟨h1, h2, h3, h4⟩ := foldl_removeNew (r.resetHard c).status (r.resetHard c)
  refine ⟨h1, h2, h3, fun p => ?_⟩
  simp only at h4 ⊢
  rw [h4]
  have hi : (r.resetHard c).index = r.treeOf c := rfl
  split
  · rename_i hm
    obtain ⟨⟨q, i, w⟩, hm, rfl, rfl⟩ := hm
    rw [mem_status] at hm
    obtain ⟨hq, _, hw, _⟩ := hm
    have := (change_new.1 hw.symm).1
    rw [hi] at this
    rw [this]
    simp [hq]
  · rename_i hm
    rw [resetHard_work]
    cases ht : fsGet (r.treeOf c) p with
    | some x => rfl
    | none =>
      simp only
      cases hp : startsWith p (c!".") with
      | true => rfl
      | false =>
        simp only [Bool.false_eq_true, if_false]
        split
        · rfl
        · rename_i hs
          cases hwk : fsGet r.work p with
          | none => rfl
          | some x =>
            exfalso
            apply hm
            refine ⟨(p, change (fsGet (r.resetHard c).headTree p) (fsGet (r.resetHard c).index p), .new), ?_, rfl, rfl⟩
            have hw : Change.new = change (fsGet (r.resetHard c).index p) (fsGet (r.resetHard c).work p) := by
              symm
              rw [change_new, hi, ht, resetHard_work, ht]
              exact ⟨rfl, x, by simp only [hs]; exact hwk⟩
            rw [mem_status]
            exact ⟨hp, rfl, hw, fun h => absurd h.2 (by decide)⟩

end Repo

theorem stage_all (work : FS) : ∀ (es : List (Str × Change × Change)) (index : FS), (es.map (·.1)).Nodup →
    (∀ e ∈ es, e.2.2 = change (fsGet index e.1) (fsGet work e.1)) →
    ∃ index', es.foldlM (stageOne work) index = .ok index' ∧
      ∀ p, fsGet index' p = if p ∈ es.map (·.1) then fsGet work p else fsGet index p
  | [], index, _, _ => ⟨index, rfl, fun p => by simp⟩
  | e :: es, index, hn, h => by
    have he := h e (by simp)
    rw [List.map_cons, List.nodup_cons] at hn
    have step : ∃ i1, stageOne work index e = .ok i1 ∧ ∀ p, fsGet i1 p = if p = e.1 then fsGet work p else fsGet index p := by
      unfold stageOne
      rw [he]
      cases hi : fsGet index e.1 with
      | none =>
        cases hw : fsGet work e.1 with
        | none =>
          refine ⟨index, rfl, fun p => ?_⟩
          split
          · rename_i hp; rw [hp, hi, hw]
          · rfl
        | some c =>
          refine ⟨_, rfl, fun p => ?_⟩
          rw [fsGet_fsSet]
          split
          · rename_i hp; rw [hp, hw]
          · rfl
      | some d =>
        cases hw : fsGet work e.1 with
        | none =>
          refine ⟨_, rfl, fun p => ?_⟩
          rw [fsGet_fsRemove]
          split
          · rename_i hp; rw [hp, hw]
          · rfl
        | some c =>
          by_cases hcd : d = c
          · subst hcd
            refine ⟨index, by simp [change], fun p => ?_⟩
            split
            · rename_i hp; rw [hp, hi, hw]
            · rfl
          · refine ⟨fsSet index e.1 c, by simp [change, hcd], fun p => ?_⟩
            rw [fsGet_fsSet]
            split
            · rename_i hp; rw [hp, hw]
            · rfl
    obtain ⟨i1, h1, h2⟩ := step
    obtain ⟨i2, h3, h4⟩ := stage_all work es i1 hn.2 (by
      intro f hf
      have : f.1 ≠ e.1 := fun eq => hn.1 (eq ▸ List.mem_map_of_mem hf)
      rw [h f (by simp [hf]), h2, if_neg this])
    refine ⟨i2, by rw [List.foldlM_cons, h1]; exact h3, fun p => ?_⟩
    rw [h4, List.map_cons]
    by_cases hp : p ∈ es.map (·.1)
    · rw [if_pos hp, if_pos (by simp [hp])]
    · rw [if_neg hp, h2]
      by_cases hpe : p = e.1
      · simp [hpe]
      · rw [if_neg hpe, if_neg (by simp only [List.mem_cons, hpe, hp, or_self, not_false_iff])]

end Verif

namespace Verif

/-! ### Merging -/

variable {g : Merger} {b l t : FS}

theorem mem_mergePaths {p : Str} : p ∈ mergePaths b l t ↔ fsGet b p ≠ none ∨ fsGet l p ≠ none ∨ fsGet t p ≠ none := by
  unfold mergePaths
  rw [(pySort_perm (lt := ltStr) _).mem_iff, mem_dedup_id]
  simp only [List.map_append, List.mem_append, ne_eq, fsGet_none, not_not, or_assoc]

theorem mergePaths_nodup : (mergePaths b l t).Nodup :=
  (pySort_perm (lt := ltStr) _).nodup_iff.2 (nodup_dedup_id _)

theorem mergeFile_none {p : Str} (h : p ∉ mergePaths b l t) : fsGet b p = none ∧ fsGet l p = none ∧ fsGet t p = none := by
  rw [mem_mergePaths] at h
  simpa only [not_or, not_not, ne_eq] using h

theorem mem_conflictsOf {c : Conflict} : c ∈ conflictsOf g b l t ↔
    mergeFile g (fsGet b c.path) (fsGet l c.path) (fsGet t c.path) = .conflict ∧
      c.ancestor = fsGet b c.path ∧ c.local_ = fsGet l c.path ∧ c.remote = fsGet t c.path := by
  unfold conflictsOf
  rw [List.mem_filterMap]
  constructor
  · rintro ⟨p, _, h⟩
    split at h
    · rename_i hm; injection h with h; subst h; exact ⟨hm, rfl, rfl, rfl⟩
    · cases h
  · rintro ⟨h1, h2, h3, h4⟩
    refine ⟨c.path, ?_, ?_⟩
    · by_contra hn
      obtain ⟨e1, e2, e3⟩ := mergeFile_none hn
      rw [e1, e2, e3] at h1
      exact absurd h1 (by simp [mergeFile])
    · rw [if_pos h1]
      obtain ⟨_, _, _, _⟩ := c
      simp only at h2 h3 h4
      rw [h2, h3, h4]

theorem conflictsOf_nodup : ((conflictsOf g b l t).map (·.path)).Nodup := by
  have key : ∀ (ps : List Str) (f : Str → Option Conflict), (∀ p e, f p = some e → e.path = p) →
      ((ps.filterMap f).map (·.path)).Sublist ps := by
    intro ps f hf
    induction ps with
    | nil => exact List.Sublist.refl _
    | cons a ps ih =>
      rw [List.filterMap_cons]
      cases h : f a with
      | none => exact ih.cons _
      | some e => rw [List.map_cons, hf a e h]; exact ih.cons_cons _
  refine mergePaths_nodup.sublist (key _ _ ?_)
  intro p e h
  split at h
  · injection h with h; rw [← h]
  · cases h

theorem fsGet_filterMap {α : Type} (f : Str → Option (Str × α)) (hf : ∀ p e, f p = some e → e.1 = p) (q : Str) :
    ∀ ps : List Str, fsGet (ps.filterMap f) q = if q ∈ ps then (f q).map (·.2) else none
  | [] => by simp [fsGet]
  | p :: ps => by
    rw [List.filterMap_cons]
    cases h : f p with
    | none =>
      simp only
      rw [fsGet_filterMap f hf q ps]
      by_cases hq : q = p
      · subst hq; simp [h]
      · simp [hq]
    | some e =>
      have e1 := hf p e h
      simp only
      unfold fsGet
      rw [List.find?_cons]
      by_cases hq : e.1 = q
      · have : q = p := hq.symm.trans e1
        subst this
        simp [hq, h]
      · have := fsGet_filterMap f hf q ps
        unfold fsGet at this
        simp only [hq, decide_false]
        rw [this]
        have : q ≠ p := fun e2 => hq (e1.trans e2.symm)
        simp [this]

/-- Content of a merged file. -/
def Merged.content : Merged → Option Str
  | .clean c => c
  | .conflict => none

theorem fsGet_mergedIndex (p : Str) : fsGet (mergedIndex g b l t) p =
    (mergeFile g (fsGet b p) (fsGet l p) (fsGet t p)).content := by
  unfold mergedIndex
  rw [fsGet_filterMap]
  · split
    · cases mergeFile g (fsGet b p) (fsGet l p) (fsGet t p) with
      | clean c => cases c <;> rfl
      | conflict => rfl
    · rename_i h
      obtain ⟨e1, e2, e3⟩ := mergeFile_none h
      rw [e1, e2, e3]
      rfl
  · intro p e h
    split at h
    · injection h with h; rw [← h]
    · cases h

theorem fsGet_conflictFiles (p : Str) : fsGet ((conflictsOf g b l t).map fun c => (c.path, conflictFile g c)) p =
    if mergeFile g (fsGet b p) (fsGet l p) (fsGet t p) = .conflict then
      some (conflictFile g ⟨p, fsGet b p, fsGet l p, fsGet t p⟩) else none := by
  split
  · rename_i h
    apply mem_fsGet
    · rw [List.map_map]; exact conflictsOf_nodup
    · exact List.mem_map.2 ⟨⟨p, _, _, _⟩, mem_conflictsOf.2 ⟨h, rfl, rfl, rfl⟩, rfl⟩
  · rename_i h
    rw [fsGet_none]
    intro hm
    rw [List.map_map] at hm
    obtain ⟨c, hc, rfl⟩ := List.mem_map.1 hm
    exact h (mem_conflictsOf.1 hc).1

theorem accept_all : ∀ (cs : List Conflict) (index work : FS), (cs.map (·.path)).Nodup →
    (∀ c ∈ cs, fsGet index c.path = none ∧ (fsGet work c.path).isSome = true) →
    ∃ index' work', cs.foldlM acceptRemote (index, work) = .ok (index', work') ∧
      (∀ c ∈ cs, fsGet index' c.path = c.remote ∧ fsGet work' c.path = c.remote) ∧
      ∀ p, p ∉ cs.map (·.path) → fsGet index' p = fsGet index p ∧ fsGet work' p = fsGet work p
  | [], index, work, _, _ => ⟨index, work, rfl, by simp, by simp⟩
  | c :: cs, index, work, hn, h => by
    rw [List.map_cons, List.nodup_cons] at hn
    have step : ∃ i1 w1, acceptRemote (index, work) c = .ok (i1, w1) ∧
        (fsGet i1 c.path = c.remote ∧ fsGet w1 c.path = c.remote) ∧
        ∀ p, p ≠ c.path → fsGet i1 p = fsGet index p ∧ fsGet w1 p = fsGet work p := by
      unfold acceptRemote
      cases hr : c.remote with
      | some x =>
        refine ⟨_, _, rfl, ?_, fun p hp => ?_⟩
        · simp [fsGet_fsSet]
        · simp [fsGet_fsSet, hp]
      | none =>
        obtain ⟨h1, h2⟩ := h c (by simp)
        cases hw : fsGet work c.path with
        | none => rw [hw] at h2; cases h2
        | some x =>
          simp only
          refine ⟨_, _, rfl, ?_, fun p hp => ?_⟩
          · simp [fsGet_fsRemove, h1]
          · simp [fsGet_fsRemove, hp]
    obtain ⟨i1, w1, s1, s2, s3⟩ := step
    obtain ⟨i2, w2, k1, k2, k3⟩ := accept_all cs i1 w1 hn.2 (by
      intro d hd
      have : d.path ≠ c.path := fun e => hn.1 (e ▸ List.mem_map_of_mem hd)
      rw [(s3 _ this).1, (s3 _ this).2]
      exact h d (by simp [hd]))
    refine ⟨i2, w2, by rw [List.foldlM_cons, s1]; exact k1, fun d hd => ?_, fun p hp => ?_⟩
    · rcases List.mem_cons.1 hd with rfl | hd
      · rw [(k3 _ hn.1).1, (k3 _ hn.1).2]; exact s2
      · exact k2 d hd
    · rw [List.map_cons, List.mem_cons, not_or] at hp
      rw [(k3 p hp.2).1, (k3 p hp.2).2]
      exact s3 p hp.1

/-- The table built from the conflicts. -/
theorem table_all : ∀ (cs : List Conflict) (tab : PullTable) (o : Option Str) (read : Conflict → Str × Values),
    (∀ c ∈ cs, endsWith c.path (c!".desc") = true → ∃ x, c.local_ = some x ∧ uniqueDescriptor x = .ok (read c)) →
    (cs.filter fun c => endsWith c.path (c!".desc")).Pairwise (fun c d => (read c).1 ≠ (read d).1) →
    (∀ e ∈ tab, ∀ c ∈ cs, endsWith c.path (c!".desc") = true → e.1 ≠ (read c).1) →
    ∃ o', cs.foldlM pullConflict (tab, o) =
        .ok (tab ++ (cs.filter fun c => endsWith c.path (c!".desc")).map read, o') ∧
      ((o.isSome = true ∨ ∃ c ∈ cs, endsWith c.path (c!".desc") = true) → o'.isSome = true) ∧
      (o = none → (∀ c ∈ cs, endsWith c.path (c!".desc") = false) → o' = none)
  | [], tab, o, _, _, _, _ => ⟨o, by simp [pure, Except.pure], by simp, fun h _ => h⟩
  | c :: cs, tab, o, read, h1, h2, h3 => by
    by_cases hc : endsWith c.path (c!".desc") = true
    · obtain ⟨x, hx, hu⟩ := h1 c (by simp) hc
      have step : pullConflict (tab, o) c = .ok (tab ++ [read c], some (read c).1) := by
        unfold pullConflict
        rw [if_pos hc, hx]
        simp only [hu, bind, Except.bind, pure, Except.pure]
        congr 2
        unfold PullTable.set
        rw [if_neg]
        simp only [List.any_eq_true, decide_eq_true_eq, not_exists, not_and]
        exact fun e he => h3 e he c (by simp) hc
      simp only [List.filter_cons, hc, if_true] at h2
      rw [List.pairwise_cons] at h2
      obtain ⟨o', k1, k2, k3⟩ := table_all cs (tab ++ [read c]) (some (read c).1) read
        (fun d hd => h1 d (by simp [hd])) h2.2 (by
          intro e he d hd hdd
          rcases List.mem_append.1 he with he | he
          · exact h3 e he d (by simp [hd]) hdd
          · rw [List.mem_singleton.1 he]
            exact h2.1 d (List.mem_filter.2 ⟨hd, hdd⟩))
      refine ⟨o', ?_, fun _ => k2 (.inl rfl), fun _ hall => absurd (hall c (by simp)) (by simp [hc])⟩
      rw [List.foldlM_cons, step]
      simp only [List.filter_cons, hc, if_true, List.map_cons]
      simpa [bind, Except.bind] using k1
    · have step : pullConflict (tab, o) c = .ok (tab, o) := by
        unfold pullConflict
        rw [if_neg hc]
      simp only [List.filter_cons, hc, Bool.false_eq_true, if_false] at h2 ⊢
      obtain ⟨o', k1, k2, k3⟩ := table_all cs tab o read (fun d hd => h1 d (by simp [hd])) h2
        (fun e he d hd => h3 e he d (by simp [hd]))
      refine ⟨o', by rw [List.foldlM_cons, step]; exact k1, fun h => k2 ?_, fun h hall => k3 h fun d hd => hall d (by simp [hd])⟩
      rcases h with h | ⟨d, hd, hdd⟩
      · exact .inl h
      · rcases List.mem_cons.1 hd with rfl | hd
        · exact absurd hdd hc
        · exact .inr ⟨d, hd, hdd⟩

end Verif
