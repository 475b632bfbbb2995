import Verif.Lemmas.Git

/-
Properties of git transactions (C36).
-/

namespace Verif

/-- Paths that the program looks at: those not starting with a point. -/
def Visible (p : Str) : Prop := p.head? ≠ some '.'

theorem visible_iff {p : Str} : Visible p ↔ startsWith p (c!".") = false := by
  unfold Visible startsWith
  cases p with
  | nil => simp [List.isPrefixOf]
  | cons c p =>
    simp only [List.head?_cons, ne_eq, Option.some.injEq, List.isPrefixOf, Bool.and_true, beq_eq_false_iff_ne]
    exact not_congr eq_comm

/-- A repository with a current commit. -/
def Repo.Valid (r : Repo) : Prop := r.head < r.commits.length

/-- The visible files are the same in the current commit, the index and the working tree. -/
def Repo.Clean (r : Repo) : Prop :=
  ∀ p, Visible p → fsGet r.headTree p = fsGet r.index p ∧ fsGet r.index p = fsGet r.work p

theorem Repo.status_clean {r : Repo} : r.status.isEmpty = true ↔ r.Clean := by
  rw [List.isEmpty_iff, Repo.status_nil]
  exact forall_congr' fun p => by rw [visible_iff]

/-- **C36**: a repository whose visible files are not clean is refused, and nothing is touched. -/
theorem C36_refused {r : Repo} (body : FS → FS × Option Err) (fault : Option Fault) (h : ¬r.Clean) :
    r.transaction body fault = (r, some .valueError) := by
  unfold Repo.transaction
  rw [if_pos]
  cases hs : r.status.isEmpty with
  | false => rfl
  | true => exact absurd (Repo.status_clean.1 hs) h

theorem Repo.transaction_clean {r : Repo} (body : FS → FS × Option Err) (fault : Option Fault) (h : r.Clean) :
    r.transaction body fault = match (body r.work).2 with
      | some e => ({ r with work := (body r.work).1 }.reset r.head, some e)
      | none => { r with work := (body r.work).1 }.exitCommit r.head fault := by
  unfold Repo.transaction
  rw [if_neg]
  · rfl
  · simp [Repo.status_clean.2 h]

/-- **C36**: a body that leaves the visible files as they were makes no commit. -/
theorem C36_nothing {r : Repo} {body : FS → FS × Option Err} {fault : Option Fault} (h : r.Clean)
    (hb : (body r.work).2 = none) (hw : ∀ p, Visible p → fsGet (body r.work).1 p = fsGet r.work p) :
    r.transaction body fault = ({ r with work := (body r.work).1 }, none) := by
  rw [Repo.transaction_clean body fault h, hb]
  simp only
  unfold Repo.exitCommit
  rw [if_pos]
  rw [Repo.status_clean]
  intro p hp
  exact ⟨(h p hp).1, by rw [hw p hp]; exact (h p hp).2⟩

theorem Repo.stage {r : Repo} : ∃ index, r.status.foldlM (stageOne r.work) r.index = .ok index ∧
    (∀ p, ¬Visible p → fsGet index p = fsGet r.index p) ∧
    ((∀ p, Visible p → fsGet r.headTree p = fsGet r.index p) → ∀ p, Visible p → fsGet index p = fsGet r.work p) := by
  obtain ⟨index, h1, h2⟩ := stage_all r.work r.status r.index r.status_nodup (by
    rintro ⟨p, i, w⟩ hm
    exact (Repo.mem_status.1 hm).2.2.1)
  refine ⟨index, h1, fun p hp => ?_, fun hc p hp => ?_⟩
  · rw [h2, if_neg]
    intro hm
    obtain ⟨⟨q, i, w⟩, hm', rfl⟩ := List.mem_map.1 hm
    exact hp (visible_iff.2 (Repo.mem_status.1 hm').1)
  · rw [h2]
    split
    · rfl
    · rename_i hm
      by_contra hne
      apply hm
      exact List.mem_map.2 ⟨(p, _, _), Repo.mem_status.2 ⟨visible_iff.1 hp, rfl, rfl, fun hs => hne (change_same.1 hs.2)⟩, rfl⟩

/-- **C36**: a body that ends well and changes a visible file makes one commit, on top of the previous one, whose visible files
are those of the resulting working tree; the repository is then clean, and the hidden files of the commit are those of the
index. -/
theorem C36_commit {r : Repo} {body : FS → FS × Option Err} (h : r.Clean)
    (hb : (body r.work).2 = none) {q : Str} (hq : Visible q) (hw : fsGet (body r.work).1 q ≠ fsGet r.work q) :
    ∃ r' tree, r.transaction body none = (r', none) ∧ r'.commits = r.commits ++ [⟨tree, [r.head]⟩] ∧
      r'.head = r.commits.length ∧ r'.work = (body r.work).1 ∧ r'.index = tree ∧ r'.Clean ∧
      (∀ p, Visible p → fsGet tree p = fsGet (body r.work).1 p) ∧ ∀ p, ¬Visible p → fsGet tree p = fsGet r.index p := by
  rw [Repo.transaction_clean body none h, hb]
  simp only
  obtain ⟨index, h1, h2, h3⟩ := Repo.stage (r := { r with work := (body r.work).1 })
  have h3 := h3 fun p hp => (h p hp).1
  unfold Repo.exitCommit
  rw [if_neg]
  · simp only [h1]
    simp only [reduceCtorEq, if_false, Repo.createCommit, List.head?_cons, if_true]
    refine ⟨_, index, rfl, rfl, rfl, rfl, rfl, ?_, h3, h2⟩
    intro p hp
    refine ⟨?_, h3 p hp⟩
    simp [Repo.headTree, Repo.treeOf]
  · rw [Repo.status_clean]
    intro hc
    have := (hc q hq).2
    exact hw (this.symm.trans (h q hq).2)

/-- What is left after a failure. -/
theorem Repo.failure {r : Repo} {body : FS → FS × Option Err} {fault : Option Fault} (h : r.Clean)
    (hf : (∃ e, (body r.work).2 = some e) ∨
      ((body r.work).2 = none ∧ fault ≠ none ∧ ∃ q, Visible q ∧ fsGet (body r.work).1 q ≠ fsGet r.work q)) :
    ∃ (r' : Repo) (e : Err), r.transaction body fault = (r'.reset r.head, some e) ∧ r'.work = (body r.work).1 ∧
      (∀ e', (body r.work).2 = some e' → e = e') ∧ r.commits <+: r'.commits ∧
      ∀ p, ¬Visible p → fsGet r'.index p = fsGet r.index p := by
  rw [Repo.transaction_clean body fault h]
  rcases hf with ⟨e, he⟩ | ⟨hb, hf, q, hq, hw⟩
  · rw [he]
    refine ⟨_, e, rfl, rfl, (fun e' h => by injection h), List.prefix_refl _, fun _ _ => rfl⟩
  · rw [hb]
    simp only
    obtain ⟨index, h1, h2, h3⟩ := Repo.stage (r := { r with work := (body r.work).1 })
    unfold Repo.exitCommit
    rw [if_neg]
    · simp only [h1]
      cases fault with
      | none => exact absurd rfl hf
      | some f =>
        cases f with
        | beforeWrite =>
          simp only [if_true]
          exact ⟨_, .gitError, rfl, rfl, (fun e' h => by cases h), List.prefix_refl _, fun _ _ => rfl⟩
        | afterWrite =>
          simp only [if_true, Option.some.injEq, reduceCtorEq, if_false]
          exact ⟨_, .gitError, rfl, rfl, (fun e' h => by cases h), List.prefix_refl _, fun p hp => h2 p hp⟩
        | afterCommit =>
          simp only [Option.some.injEq, reduceCtorEq, if_false, Repo.createCommit, List.head?_cons, if_true]
          exact ⟨_, .gitError, rfl, rfl, (fun e' h => by cases h), List.prefix_append _ _, fun p hp => h2 p hp⟩
    · rw [Repo.status_clean]
      intro hc
      have := (hc q hq).2
      exact hw (this.symm.trans (h q hq).2)

theorem Repo.treeOf_prefix {r r' : Repo} (hv : r.Valid) (h : r.commits <+: r'.commits) : r'.treeOf r.head = r.headTree := by
  obtain ⟨t, ht⟩ := h
  unfold Repo.headTree Repo.treeOf
  rw [← ht, List.getElem?_append_left hv]

/-- **C36**, what is proved: when the body raises, at any point, or when the end of the transaction raises, at any point, the
current commit is the one before the transaction, and the visible files of the index and of the working tree are as before.
Missing: hidden files (see `C36_violated_hidden`). -/
theorem C36_rollback_partial {r : Repo} {body : FS → FS × Option Err} {fault : Option Fault} (hv : r.Valid) (h : r.Clean)
    (hf : (∃ e, (body r.work).2 = some e) ∨
      ((body r.work).2 = none ∧ fault ≠ none ∧ ∃ q, Visible q ∧ fsGet (body r.work).1 q ≠ fsGet r.work q)) :
    ∃ r' e, r.transaction body fault = (r', some e) ∧ (∀ e', (body r.work).2 = some e' → e = e') ∧
      r'.head = r.head ∧ r.commits <+: r'.commits ∧ r'.headTree = r.headTree ∧
      ∀ p, Visible p → fsGet r'.index p = fsGet r.index p ∧ fsGet r'.work p = fsGet r.work p := by
  obtain ⟨r1, e, h1, h2, h3, h4, h5⟩ := Repo.failure h hf
  obtain ⟨g1, g2, g3, g4⟩ := Repo.reset_spec r1 r.head
  have ht := Repo.treeOf_prefix hv h4
  refine ⟨_, e, h1, h3, g1, by rw [g3]; exact h4, ?_, fun p hp => ?_⟩
  · unfold Repo.headTree
    rw [g1]
    unfold Repo.treeOf
    rw [g3]
    exact ht
  · rw [g2, g4, ht, (h p hp).1]
    refine ⟨rfl, ?_⟩
    rw [visible_iff.1 hp, (h p hp).2]
    cases fsGet r.work p <;> rfl

/-- **C36**: if moreover the hidden files that git follows are clean and the body does not touch hidden files (which is the case
of all the files of the database), every file of the index and of the working tree is as before. -/
theorem C36_rollback_all {r : Repo} {body : FS → FS × Option Err} {fault : Option Fault} (hv : r.Valid) (h : r.Clean)
    (hh : ∀ p, ¬Visible p → fsGet r.headTree p = fsGet r.index p ∧
      ((fsGet r.index p).isSome = true → fsGet r.work p = fsGet r.index p))
    (hb : ∀ p, ¬Visible p → fsGet (body r.work).1 p = fsGet r.work p)
    (hf : (∃ e, (body r.work).2 = some e) ∨
      ((body r.work).2 = none ∧ fault ≠ none ∧ ∃ q, Visible q ∧ fsGet (body r.work).1 q ≠ fsGet r.work q)) :
    ∃ r' e, r.transaction body fault = (r', some e) ∧ r'.head = r.head ∧ r'.headTree = r.headTree ∧
      ∀ p, fsGet r'.index p = fsGet r.index p ∧ fsGet r'.work p = fsGet r.work p := by
  obtain ⟨r2, e2, k1, _, k2, _, k3, k4⟩ := C36_rollback_partial hv h hf
  refine ⟨r2, e2, k1, k2, k3, fun p => ?_⟩
  by_cases hp : Visible p
  · exact k4 p hp
  · obtain ⟨r1, e, h1, h2, h3, h4, h5⟩ := Repo.failure h hf
    obtain ⟨g1, g2, g3, g4⟩ := Repo.reset_spec r1 r.head
    have ht := Repo.treeOf_prefix hv h4
    rw [h1] at k1
    have k1 := (Prod.mk.inj k1).1
    subst k1
    have hp' : startsWith p (c!".") = true := by
      cases hs : startsWith p (c!".") with
      | true => rfl
      | false => exact absurd (visible_iff.2 hs) hp
    rw [g2, g4, ht, (hh p hp).1]
    refine ⟨rfl, ?_⟩
    rw [hp', h5 p hp, h2, hb p hp]
    cases hi : fsGet r.index p with
    | some x => exact ((hh p hp).2 (by rw [hi]; rfl)).trans hi |>.symm
    | none => simp

/-- A repository with one commit, a file of the database and a hidden file that git follows. -/
def demoRepo : Repo :=
  let tree : FS := [(c!"morpheme/singular/k.desc", c!"1"), (c!".conf", c!"x")]
  ⟨[⟨tree, []⟩], 0, tree, tree⟩

/-- **C36** is violated by hidden files: a new one stays after the body has raised, and a change made before the transaction to a
hidden file that git follows is lost. -/
theorem C36_violated_hidden :
    (demoRepo.transaction (fun w => (fsSet w (c!".new") (c!"y"), some .valueError)) none).1.work ≠ demoRepo.work ∧
    (let r := { demoRepo with work := fsSet demoRepo.work (c!".conf") (c!"changed") }
     (r.transaction (fun w => (w, some .valueError)) none).2 = some .valueError ∧
     fsGet (r.transaction (fun w => (w, some .valueError)) none).1.work (c!".conf") = some (c!"x")) := by
  decide +kernel

theorem Repo.clean_of {r : Repo} (h : r.status = []) : r.Clean := Repo.status_clean.1 (by rw [h]; rfl)

/-- A body that removes a file, adds another one and then raises. -/
example : ∃ r' e, demoRepo.transaction (fun w =>
      (fsSet (fsRemove w (c!"morpheme/singular/k.desc")) (c!"morpheme/singular/k2.desc") (c!"2"), some .valueError)) none =
        (r', some e) ∧ fsGet r'.work (c!"morpheme/singular/k.desc") = some (c!"1") ∧
      fsGet r'.work (c!"morpheme/singular/k2.desc") = none := by
  obtain ⟨r', e, h1, _, _, _, _, h2⟩ := C36_rollback_partial (r := demoRepo) (fault := none)
    (body := fun w => (fsSet (fsRemove w (c!"morpheme/singular/k.desc")) (c!"morpheme/singular/k2.desc") (c!"2"), some .valueError))
    (by unfold Repo.Valid; decide) (Repo.clean_of (by decide +kernel)) (.inl ⟨_, rfl⟩)
  exact ⟨r', e, h1, (h2 _ (by unfold Visible; decide)).2.trans (by decide +kernel),
    (h2 _ (by unfold Visible; decide)).2.trans (by decide +kernel)⟩

example : ∃ r' e, demoRepo.transaction (fun w => (fsRemove w (c!"morpheme/singular/k.desc"), none)) (some .afterWrite) =
        (r', some e) ∧ ∀ p, fsGet r'.work p = fsGet demoRepo.work p := by
  obtain ⟨r', e, h1, _, _, h2⟩ := C36_rollback_all (r := demoRepo) (fault := some .afterWrite)
    (body := fun w => (fsRemove w (c!"morpheme/singular/k.desc"), none))
    (by unfold Repo.Valid; decide) (Repo.clean_of (by decide +kernel)) (fun p _ => ⟨rfl, fun _ => rfl⟩)
    (fun p hp => by
      simp only
      rw [fsGet_fsRemove, if_neg]
      rintro rfl
      exact hp (by unfold Visible; decide))
    (.inr ⟨rfl, by simp, c!"morpheme/singular/k.desc", by unfold Visible; decide, by decide +kernel⟩)
  exact ⟨r', e, h1, fun p => (h2 p).2⟩

example : ∃ r' tree, demoRepo.transaction (fun w => (fsRemove w (c!"morpheme/singular/k.desc"), none)) none = (r', none) ∧
    r'.commits = demoRepo.commits ++ [⟨tree, [0]⟩] ∧ fsGet tree (c!"morpheme/singular/k.desc") = none := by
  obtain ⟨r', tree, h1, h2, _, _, _, _, h3, _⟩ := C36_commit (r := demoRepo)
    (body := fun w => (fsRemove w (c!"morpheme/singular/k.desc"), none)) (Repo.clean_of (by decide +kernel)) rfl
    (q := c!"morpheme/singular/k.desc") (by unfold Visible; decide) (by decide +kernel)
  exact ⟨r', tree, h1, h2, (h3 _ (by unfold Visible; decide)).trans (by decide +kernel)⟩

end Verif
