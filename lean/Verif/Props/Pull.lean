import Verif.Lemmas.DatabaseOps
import Verif.Props.Transaction

/-
Properties of `pull` (C37).
-/

namespace Verif
variable {g : Merger} {b l t : FS}

/-- Both sides changed the file, differently, and the texts cannot be merged. -/
def Conflicting (g : Merger) (b l t : FS) (p : Str) : Prop :=
  fsGet l p ≠ fsGet t p ∧ fsGet b p ≠ fsGet l p ∧ fsGet b p ≠ fsGet t p ∧
    ∀ x y, fsGet l p = some x → fsGet t p = some y → g.merge (fsGet b p) x y = none

/-- `c` is the right content of the file after the merge: the remote version for a conflict, the changed version if one side
changed it, the common version if the sides agree, the merged text otherwise. -/
structure Resolved (g : Merger) (b l t : FS) (p : Str) (c : Option Str) : Prop where
  conflict : Conflicting g b l t p → c = fsGet t p
  agree : fsGet l p = fsGet t p → c = fsGet l p
  remoteOnly : fsGet b p = fsGet l p → c = fsGet t p
  localOnly : fsGet b p = fsGet t p → c = fsGet l p
  merged : ∀ x y m, fsGet l p = some x → fsGet t p = some y → x ≠ y → fsGet b p ≠ some x → fsGet b p ≠ some y →
    g.merge (fsGet b p) x y = some m → c = some m

theorem conflicting_iff {p : Str} : mergeFile g (fsGet b p) (fsGet l p) (fsGet t p) = .conflict ↔ Conflicting g b l t p := by
  unfold mergeFile Conflicting
  by_cases h1 : fsGet l p = fsGet t p
  · simp [h1]
  by_cases h2 : fsGet b p = fsGet l p
  · simp [h1, h2]
  by_cases h3 : fsGet b p = fsGet t p
  · rw [if_neg h1, if_neg h2, if_pos h3]; simp [h3]
  rw [if_neg h1, if_neg h2, if_neg h3]
  cases hl : fsGet l p with
  | none => simp [hl] at h1 h2 ⊢; exact ⟨h1, h2, h3⟩
  | some x =>
    cases ht : fsGet t p with
    | none => simp [ht] at h3 ⊢; exact ⟨by rw [hl] at h2; exact h2, h3⟩
    | some y =>
      rw [hl] at h1 h2; rw [ht] at h1 h3
      simp only [ne_eq, h1, h2, h3, not_false_eq_true, true_and, Option.some.injEq]
      cases hm : g.merge (fsGet b p) x y with
      | some m =>
        constructor
        · intro h; cases h
        · intro h; exact absurd (h x y rfl rfl) (by simp [hm])
      | none =>
        simp only [true_iff]
        rintro _ _ rfl rfl; exact hm

/-- The merged content is the right one. -/
theorem resolved_merge {p : Str} {c : Option Str}
    (h : mergeFile g (fsGet b p) (fsGet l p) (fsGet t p) = .clean c) : Resolved g b l t p c := by
  constructor
  · intro hc
    rw [conflicting_iff.2 hc] at h; cases h
  all_goals unfold mergeFile at h
  · intro h1; rw [if_pos h1] at h; injection h with h; exact h.symm
  · intro h2
    split at h
    · rename_i h1; injection h with h; rw [← h, h1]
    · injection h with h; exact h.symm
  · intro h3
    split at h
    · injection h with h; exact h.symm
    · split at h
      · rename_i h2; injection h with h; rw [← h, ← h3, h2]
      · injection h with h; exact h.symm
  · intro x y m hx hy hxy h2 h3 hm
    rw [hx, hy, if_neg (by simpa using hxy), if_neg h2, if_neg h3] at h
    simp only [hm] at h
    injection h with h; exact h.symm

theorem Resolved.of_conflict {p : Str} (h : Conflicting g b l t p) : Resolved g b l t p (fsGet t p) := by
  refine ⟨fun _ => rfl, fun h1 => absurd h1 h.1, fun h2 => absurd h2 h.2.1, fun h3 => absurd h3 h.2.2.1, ?_⟩
  intro x y m hx hy _ _ _ hm
  rw [h.2.2.2 x y hx hy] at hm; cases hm

theorem Resolved.unique {p : Str} {c d : Option Str} (h1 : Resolved g b l t p c) (h2 : Resolved g b l t p d) : c = d := by
  cases hm : mergeFile g (fsGet b p) (fsGet l p) (fsGet t p) with
  | conflict => rw [h1.conflict (conflicting_iff.1 hm), h2.conflict (conflicting_iff.1 hm)]
  | clean e =>
    by_cases a1 : fsGet l p = fsGet t p
    · rw [h1.agree a1, h2.agree a1]
    by_cases a2 : fsGet b p = fsGet l p
    · rw [h1.remoteOnly a2, h2.remoteOnly a2]
    by_cases a3 : fsGet b p = fsGet t p
    · rw [h1.localOnly a3, h2.localOnly a3]
    · unfold mergeFile at hm
      rw [if_neg a1, if_neg a2, if_neg a3] at hm
      split at hm
      · rename_i x y hx hy
        split at hm
        · rename_i m hmm
          rw [h1.merged x y m hx hy (by simpa [hx, hy] using a1) (by simpa [hx] using a2) (by simpa [hy] using a3) hmm,
            h2.merged x y m hx hy (by simpa [hx, hy] using a1) (by simpa [hx] using a2) (by simpa [hy] using a3) hmm]
        · cases hm
      · cases hm

/-- The conflict read from a path. -/
def conflictAt (b l t : FS) (p : Str) : Conflict := ⟨p, fsGet b p, fsGet l p, fsGet t p⟩

theorem mem_conflicts {c : Conflict} : c ∈ conflictsOf g b l t ↔ ∃ p, Conflicting g b l t p ∧ c = conflictAt b l t p := by
  rw [mem_conflictsOf]
  constructor
  · rintro ⟨h1, h2, h3, h4⟩
    refine ⟨c.path, conflicting_iff.1 h1, ?_⟩
    obtain ⟨_, _, _, _⟩ := c
    simp only at h2 h3 h4
    simp [conflictAt, h2, h3, h4]
  · rintro ⟨p, h, rfl⟩
    exact ⟨conflicting_iff.2 h, rfl, rfl, rfl⟩

/-- The working tree after `repo.merge`. -/
theorem work_after {work : FS} {p : Str} :
    let other := work.filter fun f => !(mergePaths b l t).contains f.1
    let kept := work.filter fun f => (mergePaths b l t).contains f.1 &&
      mergeFile g (fsGet b f.1) (fsGet l f.1) (fsGet t f.1) == .clean (fsGet l f.1)
    let changed := (mergedIndex g b l t).filter fun f =>
      mergeFile g (fsGet b f.1) (fsGet l f.1) (fsGet t f.1) != .clean (fsGet l f.1)
    fsGet (other ++ kept ++ changed ++ (conflictsOf g b l t).map fun c => (c.path, conflictFile g c)) p =
      match mergeFile g (fsGet b p) (fsGet l p) (fsGet t p) with
      | .clean c => if c = fsGet l p then fsGet work p else c
      | .conflict => some (conflictFile g (conflictAt b l t p)) := by
  intro other kept changed
  rw [fsGet_append, fsGet_append, fsGet_append, fsGet_conflictFiles]
  have e1 := fsGet_filter_if work p fun q => !(mergePaths b l t).contains q
  have e2 := fsGet_filter_if work p fun q => (mergePaths b l t).contains q &&
    mergeFile g (fsGet b q) (fsGet l q) (fsGet t q) == .clean (fsGet l q)
  have e3 := fsGet_filter_if (mergedIndex g b l t) p fun q =>
    mergeFile g (fsGet b q) (fsGet l q) (fsGet t q) != .clean (fsGet l q)
  have e1' : fsGet other p = _ := e1
  have e2' : fsGet kept p = _ := e2
  have e3' : fsGet changed p = _ := e3
  rw [e1', e2', e3', fsGet_mergedIndex]
  by_cases hp : p ∈ mergePaths b l t
  · simp only [List.contains_eq_mem, hp, decide_true, Bool.not_true, Bool.false_eq_true, if_false, Bool.true_and,
      Option.none_or]
    cases hm : mergeFile g (fsGet b p) (fsGet l p) (fsGet t p) with
    | conflict => simp [conflictAt, Merged.content]
    | clean c =>
      by_cases hcl : c = fsGet l p
      · subst hcl; simp
      · have : (Merged.clean c == Merged.clean (fsGet l p)) = false := by simpa using hcl
        simp [this, bne, hcl, Merged.content]
  · obtain ⟨n1, n2, n3⟩ := mergeFile_none hp
    have hm : mergeFile g (fsGet b p) (fsGet l p) (fsGet t p) = .clean none := by rw [n1, n2, n3]; rfl
    simp only [hm, Merged.content]
    simp [hp, n2]

/-- What `pullMerge` does up to the conflicts. -/
theorem Repo.pullMerge_ok {r : Repo} {target : Nat} {read : Str → Str × Values} (hc : r.Clean)
    (hh : ∀ p, ¬Visible p → fsGet (r.treeOf target) p = fsGet r.headTree p)
    (hl : ∀ p, Conflicting g b r.headTree (r.treeOf target) p → endsWith p (c!".desc") = true →
      ∃ c, fsGet r.headTree p = some c ∧ uniqueDescriptor c = .ok (read p))
    (hd : ∀ p q, Conflicting g b r.headTree (r.treeOf target) p → Conflicting g b r.headTree (r.treeOf target) q →
      endsWith p (c!".desc") = true → endsWith q (c!".desc") = true → (read p).1 = (read q).1 → p = q)
    (he : (∃ p, Conflicting g b r.headTree (r.treeOf target) p) →
      ∃ p, Conflicting g b r.headTree (r.treeOf target) p ∧ endsWith p (c!".desc") = true) :
    ∃ r' table, r.pullMerge g b target = .ok (r', table) ∧
      r'.commits = r.commits ++ [⟨r'.index, [r.head, target]⟩] ∧ r'.head = r.commits.length ∧
      (∀ p, Resolved g b r.headTree (r.treeOf target) p (fsGet r'.index p)) ∧
      (∀ p, Visible p → fsGet r'.work p = fsGet r'.index p) ∧
      ∀ k v, (k, v) ∈ table ↔ ∃ p, Conflicting g b r.headTree (r.treeOf target) p ∧ endsWith p (c!".desc") = true ∧
        read p = (k, v) := by
  have hidden : ∀ p, ¬Visible p → mergeFile g (fsGet b p) (fsGet r.headTree p) (fsGet (r.treeOf target) p) =
      .clean (fsGet r.headTree p) := by
    intro p hp
    unfold mergeFile
    rw [if_pos (hh p hp).symm]
  have hwl : ∀ p, Visible p → fsGet r.work p = fsGet r.headTree p := fun p hp => ((hc p hp).1.trans (hc p hp).2).symm
  have hwork : ∀ p, _ := fun p => work_after (g := g) (b := b) (l := r.headTree) (t := r.treeOf target) (work := r.work) (p := p)
  unfold Repo.pullMerge
  simp only
  rw [if_neg (by
    intro h
    obtain ⟨p, _, h⟩ := List.any_eq_true.1 h
    simp only [Bool.and_eq_true, bne_iff_ne, Bool.not_eq_true'] at h
    by_cases hp : Visible p
    · have h2 := h.2
      rw [hwl p hp, ← (hc p hp).1] at h2
      simp at h2
    · exact h.1 (hidden p hp))]
  simp only at hwork
  generalize hW : (List.filter (fun f => !(mergePaths b r.headTree (r.treeOf target)).contains f.1) r.work ++ _ ++ _ ++ _ : FS) = W at hwork ⊢
  by_cases hne : (conflictsOf g b r.headTree (r.treeOf target)).isEmpty = true
  · rw [if_pos hne]
    simp only [Repo.createCommit, List.head?_cons, if_true, bind, Except.bind, pure, Except.pure]
    have hno : ∀ p, ¬Conflicting g b r.headTree (r.treeOf target) p := by
      intro p hp
      have := mem_conflicts.2 ⟨p, hp, rfl⟩
      rw [List.isEmpty_iff.1 hne] at this
      cases this
    have hclean : ∀ p, ∃ c, mergeFile g (fsGet b p) (fsGet r.headTree p) (fsGet (r.treeOf target) p) = .clean c := by
      intro p
      cases hm : mergeFile g (fsGet b p) (fsGet r.headTree p) (fsGet (r.treeOf target) p) with
      | clean c => exact ⟨c, rfl⟩
      | conflict => exact absurd (conflicting_iff.1 hm) (hno p)
    refine ⟨_, _, rfl, rfl, rfl, fun p => ?_, fun p hp => ?_, fun k v => ⟨fun h => absurd h (by simp), ?_⟩⟩
    · obtain ⟨c, hm⟩ := hclean p
      simp only
      rw [fsGet_mergedIndex, hm]
      exact resolved_merge hm
    · obtain ⟨c, hm⟩ := hclean p
      simp only
      rw [hwork, fsGet_mergedIndex, hm, hwl p hp]
      simp only [Merged.content]
      split
      · rename_i h; exact h.symm
      · rfl
    · rintro ⟨p, hp, _⟩
      exact absurd hp (hno p)
  · rw [if_neg hne]
    obtain ⟨c0, hc0⟩ : ∃ c, c ∈ conflictsOf g b r.headTree (r.treeOf target) := by
      cases h : conflictsOf g b r.headTree (r.treeOf target) with
      | nil => rw [h] at hne; exact absurd rfl hne
      | cons c cs => exact ⟨c, List.mem_cons_self⟩
    obtain ⟨p0, hp0, hp0d⟩ := he ⟨_, (mem_conflicts.1 hc0).choose_spec.1⟩
    obtain ⟨o', k1, k2, _⟩ := table_all (conflictsOf g b r.headTree (r.treeOf target)) [] none (fun c => read c.path) (by
        intro c hcm hcd
        obtain ⟨p, hp, rfl⟩ := mem_conflicts.1 hcm
        exact hl p hp hcd)
      (by
        have hn := conflictsOf_nodup (g := g) (b := b) (l := r.headTree) (t := r.treeOf target)
        rw [List.Nodup, List.pairwise_map] at hn
        refine List.Pairwise.imp_of_mem ?_ (hn.filter _)
        intro c d hcm hdm hne heq
        obtain ⟨hcm, hcd⟩ := List.mem_filter.1 hcm
        obtain ⟨hdm, hdd⟩ := List.mem_filter.1 hdm
        obtain ⟨p, hp, rfl⟩ := mem_conflicts.1 hcm
        obtain ⟨q, hq, rfl⟩ := mem_conflicts.1 hdm
        exact hne (hd p q hp hq hcd hdd heq))
      (by simp)
    have ho' := k2 (.inr ⟨_, mem_conflicts.2 ⟨p0, hp0, rfl⟩, hp0d⟩)
    rw [k1]
    obtain ⟨i', w', m1, m2, m3⟩ := accept_all (conflictsOf g b r.headTree (r.treeOf target))
      (mergedIndex g b r.headTree (r.treeOf target)) W conflictsOf_nodup (by
        intro c hcm
        obtain ⟨p, hp, rfl⟩ := mem_conflicts.1 hcm
        have hm := conflicting_iff.2 hp
        simp only [conflictAt]
        rw [fsGet_mergedIndex, hwork, hm]
        exact ⟨rfl, rfl⟩)
    simp only [bind, Except.bind, m1]
    cases o' with
    | none => cases ho'
    | some k0 =>
      simp only [Repo.createCommit, List.head?_cons, if_true, pure, Except.pure]
      have hidx : ∀ p, Conflicting g b r.headTree (r.treeOf target) p →
          fsGet i' p = fsGet (r.treeOf target) p ∧ fsGet w' p = fsGet (r.treeOf target) p := fun p hp =>
        m2 _ (mem_conflicts.2 ⟨p, hp, rfl⟩)
      have hidx' : ∀ p, ¬Conflicting g b r.headTree (r.treeOf target) p →
          ∃ c, mergeFile g (fsGet b p) (fsGet r.headTree p) (fsGet (r.treeOf target) p) = .clean c ∧
            fsGet i' p = c ∧ (Visible p → fsGet w' p = c) := by
        intro p hp
        have hnm : p ∉ (conflictsOf g b r.headTree (r.treeOf target)).map (·.path) := by
          intro hm
          obtain ⟨c, hcm, rfl⟩ := List.mem_map.1 hm
          obtain ⟨q, hq, rfl⟩ := mem_conflicts.1 hcm
          exact hp hq
        cases hm : mergeFile g (fsGet b p) (fsGet r.headTree p) (fsGet (r.treeOf target) p) with
        | conflict => exact absurd (conflicting_iff.1 hm) hp
        | clean c =>
          refine ⟨c, rfl, ?_, fun hv => ?_⟩
          · rw [(m3 p hnm).1, fsGet_mergedIndex, hm]; rfl
          · rw [(m3 p hnm).2, hwork, hm, hwl p hv]
            simp only
            split
            · rename_i h; exact h.symm
            · rfl
      refine ⟨_, _, rfl, rfl, rfl, fun p => ?_, fun p hv => ?_, fun k v => ?_⟩
      · by_cases hp : Conflicting g b r.headTree (r.treeOf target) p
        · simp only; rw [(hidx p hp).1]; exact Resolved.of_conflict hp
        · obtain ⟨c, h1, h2, _⟩ := hidx' p hp
          simp only; rw [h2]; exact resolved_merge h1
      · by_cases hp : Conflicting g b r.headTree (r.treeOf target) p
        · simp only; rw [(hidx p hp).1, (hidx p hp).2]
        · obtain ⟨c, h1, h2, h3⟩ := hidx' p hp
          simp only; rw [h2, h3 hv]
      · simp only [List.nil_append, List.mem_map, List.mem_filter]
        constructor
        · rintro ⟨c, ⟨hcm, hcd⟩, heq⟩
          obtain ⟨p, hp, rfl⟩ := mem_conflicts.1 hcm
          exact ⟨p, hp, hcd, heq⟩
        · rintro ⟨p, hp, hpd, heq⟩
          exact ⟨conflictAt b r.headTree (r.treeOf target) p, ⟨mem_conflicts.2 ⟨p, hp, rfl⟩, hpd⟩, heq⟩

/-- The values read from a descriptor file of one key. -/
theorem uniqueDescriptor_render {k : Str} {es : List Entry} (hne : es ≠ []) (h : ∀ e ∈ es, e.Fits ∧ e.key = k) :
    uniqueDescriptor (render es) = .ok (k, fun d l => storedValues es k l d) := by
  unfold uniqueDescriptor fromCsv
  rw [csvRead_render fun e he => (h e he).1]
  simp only [bind, Except.bind]
  rw [List.mapM_map, mapM_ok_map (g := fun e : Entry => (e.key, e.lang, e.desc, e.value)) (by
    intro e he
    have := (h e he).1
    simp [Entry.fields, this.lang, this.desc])]
  simp only
  have hk : ∀ {es : List Entry}, es ≠ [] → (∀ e ∈ es, e.key = k) → dedupBy id (es.map fun e => e.key) = [k] := by
    intro es hne h
    cases es with
    | nil => exact absurd rfl hne
    | cons e es =>
      simp only [List.map_cons, dedupBy, h e (by simp)]
      congr 1
      rw [List.filter_eq_nil_iff]
      intro y hy
      have := mem_dedupBy id hy
      obtain ⟨f, hf, rfl⟩ := List.mem_map.1 this
      simp [h f (by simp [hf])]
  rw [List.map_map]
  have : dedupBy id (es.map ((fun x : Str × Str × Str × Str => x.1) ∘ fun e : Entry => (e.key, e.lang, e.desc, e.value))) = [k] :=
    hk hne fun e he => (h e he).2
  rw [this]
  simp only [pure, Except.pure, Except.ok.injEq, Prod.mk.injEq, true_and]
  funext d l
  unfold storedValues
  rw [List.filter_map, List.map_map]
  congr 1
  apply List.filter_congr
  intro e he
  simp [(h e he).2]

/-- **C37**, what is proved: in a clean repository whose hidden files are not changed by the remote, if the local version of every
conflicting descriptor file holds the values of one key (each key in one file), and if one of the conflicts, if any, is about a
descriptor file, then `pull` makes a merge commit of both branches, in which every conflicting file has its remote version and
every other file is merged; the visible working tree is that of the commit; and the table returned maps exactly the keys of the
conflicting descriptor files to their local values, by descriptor and language.
Missing: files deleted locally and changed remotely (`C37_violated_deleted`), conflicts about structure files only
(`C37_violated_structure`). -/
theorem C37_pull_partial {r : Repo} {target : Nat} {entries : Str → List Entry} {key : Str → Str} (hc : r.Clean)
    (ha : r.analysis target = .normal)
    (hh : ∀ p, ¬Visible p → fsGet (r.treeOf target) p = fsGet r.headTree p)
    (hl : ∀ p, Conflicting g b r.headTree (r.treeOf target) p → endsWith p (c!".desc") = true →
      entries p ≠ [] ∧ (∀ e ∈ entries p, e.Fits ∧ e.key = key p) ∧
      fsGet r.headTree p = some ((entries p).flatMap fun e => descriptorLine e.key e.lang e.desc e.value))
    (hd : ∀ p q, Conflicting g b r.headTree (r.treeOf target) p → Conflicting g b r.headTree (r.treeOf target) q →
      endsWith p (c!".desc") = true → endsWith q (c!".desc") = true → key p = key q → p = q)
    (he : (∃ p, Conflicting g b r.headTree (r.treeOf target) p) →
      ∃ p, Conflicting g b r.headTree (r.treeOf target) p ∧ endsWith p (c!".desc") = true) :
    ∃ r' table, r.pull g b target = .ok (r', table) ∧
      r'.commits = r.commits ++ [⟨r'.index, [r.head, target]⟩] ∧ r'.head = r.commits.length ∧
      (∀ p, Resolved g b r.headTree (r.treeOf target) p (fsGet r'.index p)) ∧
      (∀ p, Visible p → fsGet r'.work p = fsGet r'.index p) ∧
      ∀ k v, (k, v) ∈ table ↔ ∃ p, Conflicting g b r.headTree (r.treeOf target) p ∧ endsWith p (c!".desc") = true ∧
        k = key p ∧ ∀ d l, v d l = ((entries p).filter fun e => decide (e.lang = l ∧ e.desc = d)).map (·.value) := by
  obtain ⟨r', table, h1, h2, h3, h4, h5, h6⟩ := Repo.pullMerge_ok (g := g) (b := b) (r := r) (target := target)
    (read := fun p => (key p, fun d l => storedValues (entries p) (key p) l d)) hc hh
    (fun p hp hpd => by
      obtain ⟨q1, q2, q3⟩ := hl p hp hpd
      exact ⟨_, q3, uniqueDescriptor_render q1 q2⟩) hd he
  refine ⟨r', table, ?_, h2, h3, h4, h5, fun k v => ?_⟩
  · unfold Repo.pull; rw [ha]; exact h1
  · rw [h6]
    refine exists_congr fun p => and_congr_right fun hp => and_congr_right fun hpd => ?_
    have hv : ∀ d l, storedValues (entries p) (key p) l d =
        ((entries p).filter fun e => decide (e.lang = l ∧ e.desc = d)).map (·.value) := by
      intro d l
      unfold storedValues
      congr 1
      apply List.filter_congr
      intro e he
      simp [((hl p hp hpd).2.1 e he).2]
    simp only [Prod.mk.injEq]
    constructor
    · rintro ⟨rfl, rfl⟩; exact ⟨rfl, hv⟩
    · rintro ⟨rfl, h⟩; exact ⟨rfl, by funext d l; rw [h, hv]⟩

/-- Nothing happens when the remote commit is already in the branch; the branch moves to the remote commit when it has no commit
of its own, and the visible files are then those of that commit. -/
theorem C37_forward {r : Repo} {target : Nat} :
    (r.analysis target = .upToDate → r.pull g b target = .ok (r, [])) ∧
    (r.analysis target = .fastForward → ∃ r', r.pull g b target = .ok (r', []) ∧ r'.head = target ∧ r'.commits = r.commits ∧
      r'.index = r.treeOf target ∧ ∀ p, Visible p → fsGet r'.work p = fsGet (r.treeOf target) p) := by
  constructor
  · intro h; unfold Repo.pull; rw [h]
  · intro h
    unfold Repo.pull
    rw [h]
    obtain ⟨a1, a2, a3, a4⟩ := Repo.reset_spec r r.head
    obtain ⟨c1, c2, c3, c4⟩ := Repo.reset_spec (r.reset r.head) target
    have ht : (r.reset r.head).treeOf target = r.treeOf target := by unfold Repo.treeOf; rw [a3]
    refine ⟨_, rfl, c1, c3.trans a3, c2.trans ht, fun p hp => ?_⟩
    have := c4 p
    unfold Repo.checkout
    rw [this, ht, visible_iff.1 hp]
    cases fsGet (r.treeOf target) p <;> rfl

/-! ### Demonstrations -/

/-- A merger that gives up on every text. -/
def noMerge : Merger := ⟨fun _ _ _ => none, fun _ l t => l ++ t⟩

/-- A repository with a common ancestor 0, a local commit 1 and a remote commit 2. -/
def twoBranches (b l t : FS) : Repo := ⟨[⟨b, []⟩, ⟨l, [0]⟩, ⟨t, [0]⟩], 1, l, l⟩

/-- The line of a tag. -/
def tagLine (v : Str) : Str := descriptorLine (c!"k") (c!"fr") (c!"tags") v

/-- **C37** is violated when a descriptor file is deleted locally and changed remotely: `pull` raises `NameError`. -/
theorem C37_violated_deleted :
    let b : FS := [(c!"m/k.desc", tagLine (c!"a"))]
    let t : FS := [(c!"m/k.desc", tagLine (c!"b"))]
    (twoBranches b [] t).analysis 2 = .normal ∧ (twoBranches b [] t).status = [] ∧
    ((twoBranches b [] t).pull noMerge b 2).map (fun _ => ()) = .error .nameError := by
  decide +kernel

/-- **C37** is violated when the only conflicts are about structure files: `pull` raises `NameError` (`UnboundLocalError`). -/
theorem C37_violated_structure :
    let b : FS := [(c!"m/k.ieml", c!"a")]
    let l : FS := [(c!"m/k.ieml", c!"b")]
    let t : FS := [(c!"m/k.ieml", c!"c")]
    (twoBranches b l t).analysis 2 = .normal ∧ (twoBranches b l t).status = [] ∧
    ((twoBranches b l t).pull noMerge b 2).map (fun _ => ()) = .error .nameError := by
  decide +kernel

/-- Three files: one changed on both sides, one deleted remotely and changed locally, one added remotely. -/
example :
    let b : FS := [(c!"m/k.desc", tagLine (c!"a")), (c!"m/k.ieml", c!"x")]
    let l : FS := [(c!"m/k.desc", tagLine (c!"b")), (c!"m/k.ieml", c!"y")]
    let t : FS := [(c!"m/k.desc", tagLine (c!"c")), (c!"m/n.desc", c!"z")]
    ∃ r' table, (twoBranches b l t).pull noMerge b 2 = .ok (r', table) ∧
      fsGet r'.work (c!"m/k.desc") = some (tagLine (c!"c")) ∧ fsGet r'.work (c!"m/k.ieml") = none ∧
      fsGet r'.work (c!"m/n.desc") = some (c!"z") ∧
      ∃ v, (c!"k", v) ∈ table ∧ v (c!"tags") (c!"fr") = [c!"b"] := by
  intro b l t
  have hconf : ∀ p, Conflicting noMerge b l t p → endsWith p (c!".desc") = true → p = c!"m/k.desc" := by
    intro p hp hd
    have hm : p ∈ mergePaths b l t := by
      by_contra hn
      obtain ⟨e1, e2, e3⟩ := mergeFile_none hn
      exact hp.1 (e2.trans e3.symm)
    have hps : mergePaths b l t = [c!"m/k.desc", c!"m/k.ieml", c!"m/n.desc"] := by decide +kernel
    rw [hps] at hm
    simp only [List.mem_cons, List.not_mem_nil, or_false] at hm
    rcases hm with rfl | rfl | rfl
    · rfl
    · exact absurd hd (by decide)
    · exact absurd rfl hp.2.1
  have hk : Conflicting noMerge b l t (c!"m/k.desc") := ⟨by decide +kernel, by decide +kernel, by decide +kernel, fun _ _ _ _ => rfl⟩
  have hi : Conflicting noMerge b l t (c!"m/k.ieml") := ⟨by decide +kernel, by decide +kernel, by decide +kernel, fun _ _ _ _ => rfl⟩
  obtain ⟨r', table, h1, _, _, h2, h3, h4⟩ := C37_pull_partial (g := noMerge) (b := b) (r := twoBranches b l t) (target := 2)
    (entries := fun _ => [⟨c!"k", c!"fr", c!"tags", c!"b"⟩]) (key := fun _ => c!"k")
    (Repo.clean_of (by decide +kernel)) (by decide +kernel)
    (fun p hp => by
      have hn : ∀ q, Visible q → p ≠ q := fun q hq e => hp (e ▸ hq)
      have : ∀ fs : FS, (∀ f ∈ fs, Visible f.1) → fsGet fs p = none := by
        intro fs hfs
        rw [fsGet_none]
        intro hm
        obtain ⟨f, hf, rfl⟩ := List.mem_map.1 hm
        exact hp (hfs f hf)
      rw [this, this]
      · unfold Visible; decide
      · unfold Visible; decide)
    (fun p hp hd => by
      rw [hconf p hp hd]
      refine ⟨by simp, ?_, by decide +kernel⟩
      intro e he
      rw [List.mem_singleton.1 he]
      exact ⟨by constructor <;> decide, rfl⟩)
    (fun p q hp hq hpd hqd _ => (hconf p hp hpd).trans (hconf q hq hqd).symm)
    (fun _ => ⟨_, hk, by decide⟩)
  refine ⟨r', table, h1, ?_, ?_, ?_, ?_⟩
  · rw [h3 _ (by unfold Visible; decide), (h2 _).conflict hk]; decide +kernel
  · rw [h3 _ (by unfold Visible; decide), (h2 _).conflict hi]; decide +kernel
  · rw [h3 _ (by unfold Visible; decide), (h2 _).remoteOnly (by decide +kernel)]; decide +kernel
  · exact ⟨_, (h4 _ _).2 ⟨_, hk, by decide, rfl, fun d l => rfl⟩, by decide +kernel⟩

end Verif
