import Verif.Lemmas.Except
import Verif.Lemmas.GitFolder
import Verif.Props.Pull

/-
Properties of the folders with a repository: opening, branches, remotes, `push` (C97).
-/

namespace Verif

/-! ### Checkout -/

/-- **C97**: after a successful checkout the current branch is the one that was asked for and its commit is the one that was asked for, by
default the one it had; the visible files are those of this commit, nothing is to be committed; no commit is lost, the other branches are
where they were; a hidden file that neither git nor the commits know stays. -/
theorem C97_open {f f' : Folder} {branch : Option Str} {commit : Option Nat} (h : f.checkout branch commit = (f', none)) :
    ∃ c, f.branch (branch.getD f.current) = some c ∧ f'.version = (branch.getD f.current, commit.getD c) ∧
      f'.repo.commits = f.repo.commits ∧ f'.repo.Clean ∧
      (∀ p, Visible p → fsGet f'.repo.work p = fsGet (f.repo.treeOf (commit.getD c)) p) ∧
      (∀ b, b ≠ branch.getD f.current → f'.branch b = f.branch b) ∧
      ∀ p, ¬Visible p → fsGet f.repo.headTree p = none → fsGet f.repo.index p = none → fsGet (f.repo.treeOf c) p = none →
        fsGet (f.repo.treeOf (commit.getD c)) p = none → fsGet f'.repo.work p = fsGet f.repo.work p := by
  cases hb : f.branch (branch.getD f.current) with
  | none => rw [Folder.checkout_missing hb] at h; cases h
  | some c =>
    refine ⟨c, rfl, ?_⟩
    by_cases hw : ∃ p, InTheWay f.repo c p
    · rw [Folder.checkout_blocked hb hw] at h; cases h
    · rw [Folder.checkout_free hb hw] at h
      set g := f.switched (branch.getD f.current) c with hg
      have hcom : g.repo.commits = f.repo.commits := by rw [hg, Folder.switched_repo]; exact (Repo.reset_head f.repo).2.2.1
      have hhead : g.repo.head = c := by rw [hg, Folder.switched_repo]; rfl
      have hidx : g.repo.index = f.repo.treeOf c := by
        rw [hg, Folder.switched_repo]; exact Repo.treeOf_commits (Repo.reset_head f.repo).2.2.1 c
      have hcur : g.current = branch.getD f.current := Folder.switched_current _ _ _
      have hoth : ∀ b, b ≠ branch.getD f.current → fsGet g.others b = f.branch b := fun b hb => Folder.switched_others hb
      have hvis : ∀ p, Visible p → fsGet g.repo.work p = fsGet (f.repo.treeOf c) p := by
        intro p hp
        rw [hg, Folder.switched_work, visible_iff.1 hp]
        cases fsGet (f.repo.treeOf c) p <;> simp
      have hhid : ∀ p, ¬Visible p → fsGet f.repo.headTree p = none → fsGet f.repo.index p = none → fsGet (f.repo.treeOf c) p = none →
          fsGet g.repo.work p = fsGet f.repo.work p := by
        intro p hp h1 h2 h3
        rw [visible_iff, Bool.not_eq_false] at hp
        rw [hg, Folder.switched_work, h3]
        simp only
        rw [if_pos ⟨hp, h1, h2⟩]
      cases commit with
      | none =>
        simp only [Prod.mk.injEq, and_true] at h
        subst h
        refine ⟨by simp [Folder.version, hcur, hhead], hcom, ?_, hvis, ?_, fun p hp h1 h2 h3 _ => hhid p hp h1 h2 h3⟩
        · intro p hp
          unfold Repo.headTree
          rw [hhead, Repo.treeOf_commits hcom, hidx, hvis p hp]
          exact ⟨rfl, rfl⟩
        · intro b hb
          unfold Folder.branch
          rw [hcur, if_neg hb, hoth b hb]
          rfl
      | some c' =>
        simp only at h
        split at h
        · simp only [Prod.mk.injEq, and_true] at h
          subst h
          obtain ⟨r1, r2, r3, r4⟩ := Repo.reset_spec g.repo c'
          have ht : g.repo.treeOf c' = f.repo.treeOf c' := Repo.treeOf_commits hcom c'
          rw [ht] at r2 r4
          have hv : ∀ p, Visible p → fsGet (g.repo.reset c').work p = fsGet (f.repo.treeOf c') p := by
            intro p hp
            rw [r4 p, visible_iff.1 hp]
            cases fsGet (f.repo.treeOf c') p <;> simp
          refine ⟨by simp [Folder.version, hcur, r1], by simp only [r3, hcom], ?_, hv, ?_, ?_⟩
          · intro p hp
            unfold Repo.headTree
            simp only
            rw [r1, Repo.treeOf_commits (r3.trans hcom), r2, hv p hp]
            exact ⟨rfl, rfl⟩
          · intro b hb
            unfold Folder.branch
            simp only
            rw [hcur, if_neg hb, hoth b hb]
            rfl
          · intro p hp h1 h2 h3 h4
            simp only [Option.getD_some] at h4
            simp only
            rw [r4 p, h4, hidx, h3, hhid p hp h1 h2 h3]
            rw [visible_iff, Bool.not_eq_false] at hp
            simp [hp]
        · exact absurd (congrArg Prod.snd h) (by simp)

/-- **C97**: exactly when a checkout raises, and what. -/
theorem C97_outcome (f : Folder) (branch : Option Str) (commit : Option Nat) :
    ((f.checkout branch commit).2 = some .gitError ↔ ∃ c, f.branch (branch.getD f.current) = some c ∧ ∃ p, InTheWay f.repo c p) ∧
    ((f.checkout branch commit).2 = some .keyError ↔ f.branch (branch.getD f.current) = none ∨
      ∃ c c', f.branch (branch.getD f.current) = some c ∧ (∀ p, ¬InTheWay f.repo c p) ∧ commit = some c' ∧ f.repo.commits.length ≤ c') ∧
    ((f.checkout branch commit).2 = none ↔ ∃ c, f.branch (branch.getD f.current) = some c ∧ (∀ p, ¬InTheWay f.repo c p) ∧
      ∀ c', commit = some c' → c' < f.repo.commits.length) := by
  cases hb : f.branch (branch.getD f.current) with
  | none => rw [Folder.checkout_missing hb]; simp
  | some c =>
    by_cases hw : ∃ p, InTheWay f.repo c p
    · rw [Folder.checkout_blocked hb hw]
      obtain ⟨p, hp⟩ := hw
      refine ⟨⟨fun _ => ⟨c, rfl, p, hp⟩, fun _ => rfl⟩, ⟨by simp, ?_⟩, ⟨by simp, ?_⟩⟩
      · rintro (h | ⟨a, b, h, h', _⟩)
        · cases h
        · cases h; exact absurd hp (h' p)
      · rintro ⟨a, h, h', _⟩
        cases h; exact absurd hp (h' p)
    · rw [Folder.checkout_free hb hw]
      have hn : ∀ p, ¬InTheWay f.repo c p := fun p hp => hw ⟨p, hp⟩
      cases commit with
      | none =>
        refine ⟨⟨by simp, ?_⟩, ⟨by simp, ?_⟩, ⟨fun _ => ⟨c, rfl, hn, by simp⟩, fun _ => rfl⟩⟩
        · rintro ⟨a, h, h'⟩; cases h; exact absurd h' hw
        · rintro (h | ⟨a, b, _, _, h, _⟩) <;> cases h
      | some c' =>
        simp only
        split
        · rename_i hl
          refine ⟨⟨by simp, ?_⟩, ⟨by simp, ?_⟩, ⟨fun _ => ⟨c, rfl, hn, by rintro _ ⟨⟩; exact hl⟩, fun _ => rfl⟩⟩
          · rintro ⟨a, h, h'⟩; cases h; exact absurd h' hw
          · rintro (h | ⟨a, b, _, _, h, hl'⟩)
            · cases h
            · cases h; omega
        · rename_i hl
          refine ⟨⟨by simp, ?_⟩, ⟨fun _ => .inr ⟨c, c', rfl, hn, rfl, by omega⟩, fun _ => rfl⟩, ⟨by simp, ?_⟩⟩
          · rintro ⟨a, h, h'⟩; cases h; exact absurd h' hw
          · rintro ⟨_, _, _, h⟩; exact absurd (h c' rfl) hl

/-- **C97**: a checkout that raises moves no branch and loses no commit, but uncommitted changes are lost all the same. -/
theorem C97_failed {f f' : Folder} {branch : Option Str} {commit : Option Nat} {e : Err} (h : f.checkout branch commit = (f', some e)) :
    f'.repo.commits = f.repo.commits ∧ f'.repo.Clean ∧ ∀ b, f'.branch b = f.branch b := by
  have hreset : (f.repo.reset f.repo.head).Clean := by
    obtain ⟨r1, r2, r3, r4⟩ := Repo.reset_head f.repo
    intro p hp
    unfold Repo.headTree
    rw [r1, Repo.treeOf_commits r3, r2, r4 p, visible_iff.1 hp]
    refine ⟨rfl, ?_⟩
    cases fsGet f.repo.headTree p <;> simp
  cases hb : f.branch (branch.getD f.current) with
  | none =>
    rw [Folder.checkout_missing hb] at h
    simp only [Prod.mk.injEq] at h
    rw [← h.1]
    exact ⟨(Repo.reset_head f.repo).2.2.1, hreset, Folder.branch_reset f⟩
  | some c =>
    by_cases hw : ∃ p, InTheWay f.repo c p
    · rw [Folder.checkout_blocked hb hw] at h
      simp only [Prod.mk.injEq] at h
      rw [← h.1]
      exact ⟨(Repo.reset_head f.repo).2.2.1, hreset, Folder.branch_reset f⟩
    · have h0 := Folder.checkout_free (commit := none) hb hw
      obtain ⟨c0, hc0, hv, hk, hcl, _, ho, _⟩ := C97_open h0
      rw [hb] at hc0; cases hc0
      rw [Folder.checkout_free hb hw] at h
      cases commit with
      | none => cases h
      | some c' =>
        simp only at h
        split at h
        · cases h
        · simp only [Prod.mk.injEq] at h
          rw [← h.1]
          refine ⟨hk, hcl, fun b => ?_⟩
          by_cases hbb : b = branch.getD f.current
          · subst hbb
            rw [hb]
            simp only [Folder.version, Prod.mk.injEq, Option.getD_none] at hv
            unfold Folder.branch
            rw [if_pos hv.1.symm, hv.2]
          · exact ho b hbb

/-- **C97**: doing the same checkout again succeeds and changes nothing. -/
theorem C97_again {f f' : Folder} {branch : Option Str} {commit : Option Nat} (h : f.checkout branch commit = (f', none)) :
    ∃ f'', f'.checkout branch commit = (f'', none) ∧ f''.version = f'.version ∧ (∀ b, f''.branch b = f'.branch b) ∧
      ∀ p, Visible p → fsGet f''.repo.work p = fsGet f'.repo.work p := by
  obtain ⟨c, hc, hv, hk, _, hw, _, _⟩ := C97_open h
  simp only [Folder.version, Prod.mk.injEq] at hv
  have hcur : branch.getD f'.current = branch.getD f.current := by rw [hv.1]; cases branch <;> rfl
  have hb : f'.branch (branch.getD f'.current) = some (commit.getD c) := by
    unfold Folder.branch; rw [hcur, if_pos hv.1.symm, hv.2]
  have hn : ∀ p, ¬InTheWay f'.repo (commit.getD c) p := by
    rintro p ⟨_, h1, _, x, y, _, h3, _⟩
    unfold Repo.headTree at h1
    rw [hv.2, h3] at h1
    cases h1
  have hok : (f'.checkout branch commit).2 = none := by
    rw [(C97_outcome f' branch commit).2.2]
    refine ⟨_, hb, hn, ?_⟩
    intro c' hc'
    obtain ⟨_, _, _, hl⟩ := (C97_outcome f branch commit).2.2.1 (by rw [h])
    rw [hk]; exact hl c' hc'
  refine ⟨(f'.checkout branch commit).1, Prod.ext rfl hok, ?_⟩
  obtain ⟨c1, hc1, hv1, hk1, _, hw1, ho1, _⟩ := C97_open (Prod.ext rfl hok : f'.checkout branch commit = (_, none))
  rw [hb] at hc1
  obtain rfl := Option.some.inj hc1
  have hcc : commit.getD (commit.getD c) = commit.getD c := by cases commit <;> rfl
  rw [hcc] at hv1 hw1
  have hv1' := hv1
  simp only [Folder.version, Prod.mk.injEq] at hv1'
  refine ⟨by rw [hv1, hcur]; exact (Prod.ext hv.1 hv.2).symm, fun b => ?_, fun p hp => ?_⟩
  · by_cases hbb : b = branch.getD f'.current
    · subst hbb
      rw [hb]
      unfold Folder.branch
      rw [if_pos hv1'.1.symm, hv1'.2]
    · exact ho1 b hbb
  · rw [hw1 p hp, hw p hp, Repo.treeOf_commits hk]

/-! ### Opening -/

/-- **C97**: opening a folder that does not exist, on the default branch of the server, gives the files and the commit of the server. -/
theorem C97_clone {commits : List Commit} {s : Server} {c : Nat} (h : fsGet s.branches s.default = some c) :
    ∃ f, opened none commits s s.default none = some (f, none) ∧ f.version = (s.default, c) ∧ f.repo.Clean ∧
      ∀ p, Visible p → fsGet f.repo.work p = fsGet (f.repo.treeOf c) p := by
  set f : Folder := ⟨⟨commits, c, (⟨commits, c, [], []⟩ : Repo).treeOf c, (⟨commits, c, [], []⟩ : Repo).treeOf c⟩, s.default, []⟩ with hf
  have ho : opened none commits s s.default none = some (f.checkout (some s.default) none) := by
    simp [opened, cloned, h, hf]
  have hb : f.branch ((some s.default).getD f.current) = some c := by simp [Folder.branch, hf]
  have hok : (f.checkout (some s.default) none).2 = none := by
    rw [(C97_outcome f _ _).2.2]
    refine ⟨c, hb, ?_, by simp⟩
    rintro p ⟨_, h1, _, x, y, _, h3, _⟩
    unfold Repo.headTree at h1
    have : f.repo.head = c := rfl
    rw [this, h3] at h1
    cases h1
  obtain ⟨c1, hc1, hv, hk, hcl, hw, _, _⟩ := C97_open (Prod.ext rfl hok : f.checkout (some s.default) none = (_, none))
  rw [hb] at hc1
  obtain rfl := Option.some.inj hc1
  refine ⟨(f.checkout (some s.default) none).1, ?_, hv, hcl, fun p hp => ?_⟩
  · rw [ho]; exact congrArg some (Prod.ext rfl hok)
  · rw [hw p hp, Repo.treeOf_commits hk]; rfl

/-- **C97** fails: a folder that does not exist cannot be opened on another branch of the server, although the server has it. -/
theorem C97_violated_clone {commits : List Commit} {s : Server} {c : Nat} (h : fsGet s.branches s.default = some c) {b : Str}
    (hb : b ≠ s.default) (commit : Option Nat) : ∃ f, opened none commits s b commit = some (f, some .keyError) := by
  simp only [opened, cloned, h, Option.map_some]
  rw [Folder.checkout_missing]
  · exact ⟨_, rfl⟩
  · simp [Folder.branch, hb, fsGet]

/-! ### Ancestors -/

/-- **C97**: `merge_analysis` is about ancestry. -/
theorem C97_analysis {r : Repo} (ho : OrderedCommits r.commits) (t : Nat) :
    (r.analysis t = .upToDate ↔ Ancestor r.commits r.head t) ∧
    (r.analysis t = .fastForward ↔ Ancestor r.commits t r.head ∧ t ≠ r.head) ∧
    (r.analysis t = .normal ↔ ¬Ancestor r.commits r.head t ∧ ¬Ancestor r.commits t r.head) := by
  unfold Repo.analysis
  have h1 : (r.reach r.commits.length r.head).contains t = true ↔ Ancestor r.commits r.head t := by
    rw [List.contains_iff_mem, reach_iff ho]
  have h2 : (r.reach r.commits.length t).contains r.head = true ↔ Ancestor r.commits t r.head := by
    rw [List.contains_iff_mem, reach_iff ho]
  by_cases a : Ancestor r.commits r.head t
  · rw [if_pos (h1.2 a)]
    refine ⟨by simp [a], ⟨by simp, ?_⟩, by simp [a]⟩
    rintro ⟨b, hne⟩
    exact absurd (Nat.le_antisymm (a.le ho) (b.le ho)) hne
  · rw [if_neg (mt h1.1 a)]
    have hne : t ≠ r.head := by rintro rfl; exact a (.refl _)
    by_cases b : Ancestor r.commits t r.head
    · rw [if_pos (h2.2 b)]; simp [a, b, hne]
    · rw [if_neg (mt h2.1 b)]; simp [a, b]

/-- A merge makes one commit, whose parents are both sides. -/
theorem pullMerge_commit {r r' : Repo} {g : Merger} {base : FS} {t : Nat} {table : PullTable} (h : r.pullMerge g base t = .ok (r', table)) :
    ∃ tree, r'.commits = r.commits ++ [⟨tree, [r.head, t]⟩] ∧ r'.head = r.commits.length := by
  have hcreate : ∀ (i w tree : FS) (r0 : Repo), ({ r with index := i, work := w } : Repo).createCommit tree [r.head, t] = .ok r0 →
      r0.commits = r.commits ++ [⟨tree, [r.head, t]⟩] ∧ r0.head = r.commits.length := by
    intro i w tree r0 hc
    simp only [Repo.createCommit, List.head?_cons, if_true, Except.ok.injEq] at hc
    rw [← hc]
    exact ⟨rfl, rfl⟩
  unfold Repo.pullMerge at h
  simp only at h
  split at h
  · cases h
  · split at h
    · obtain ⟨r0, h1, h2⟩ := bind_ok.1 h
      rw [pure_ok] at h2
      cases h2
      exact ⟨_, hcreate _ _ _ _ h1⟩
    · obtain ⟨⟨tab, ieml⟩, _, h⟩ := bind_ok.1 h
      obtain ⟨⟨i, w⟩, _, h⟩ := bind_ok.1 h
      cases ieml with
      | none => cases h
      | some k =>
        obtain ⟨r0, h1, h2⟩ := bind_ok.1 h
        rw [pure_ok] at h2
        cases h2
        exact ⟨_, hcreate _ _ _ _ h1⟩

/-- **C97**: after a pull, the commit that was pulled and the commit that was the current one are the current commit or ancestors of it; no commit
is lost. -/
theorem C97_pulled {r r' : Repo} {g : Merger} {base : FS} {t : Nat} {table : PullTable} (ho : OrderedCommits r.commits)
    (hv : r.Valid) (ht : t < r.commits.length) (h : r.pull g base t = .ok (r', table)) :
    Ancestor r'.commits r'.head t ∧ Ancestor r'.commits r'.head r.head ∧ r.commits <+: r'.commits ∧ OrderedCommits r'.commits := by
  unfold Repo.pull at h
  cases ha : r.analysis t with
  | upToDate =>
    simp only [ha, Except.ok.injEq, Prod.mk.injEq] at h
    rw [← h.1]
    exact ⟨((C97_analysis ho t).1).1 ha, .refl _, List.prefix_refl _, ho⟩
  | fastForward =>
    simp only [ha, Except.ok.injEq, Prod.mk.injEq] at h
    rw [← h.1]
    unfold Repo.checkout
    obtain ⟨h1, _, h3, _⟩ := Repo.reset_spec (r.reset r.head) t
    have h4 := h3.trans (Repo.reset_spec r r.head).2.2.1
    rw [h1, h4]
    exact ⟨.refl _, (((C97_analysis ho t).2.1).1 ha).1, List.prefix_refl _, ho⟩
  | normal =>
    simp only [ha] at h
    obtain ⟨tree, h1, h2⟩ := pullMerge_commit h
    have hk : r'.commits[r'.head]? = some ⟨tree, [r.head, t]⟩ := by rw [h1, h2]; simp
    refine ⟨.step hk (by simp) (.refl _), .step hk (by simp) (.refl _), ⟨_, h1.symm⟩, ?_⟩
    intro c k hc q hq
    rw [h1] at hc
    rcases Nat.lt_trichotomy c r.commits.length with hlt | heq | hgt
    · rw [List.getElem?_append_left hlt] at hc
      exact ho c k hc q hq
    · subst heq
      simp only [List.getElem?_concat_length, Option.some.injEq] at hc
      subst hc
      simp only [List.mem_cons, List.not_mem_nil, or_false] at hq
      rcases hq with rfl | rfl
      · exact hv
      · exact ht
    · rw [List.getElem?_eq_none (by simp; omega)] at hc
      cases hc

/-- **C97**: a folder that was opened at an old commit of a branch is brought by `pull` to the commit of the remote branch, with its files. -/
theorem C97_catch_up {f f' : Folder} {branch : Option Str} {c t : Nat} {g : Merger} {base : FS} (ho : OrderedCommits f.repo.commits)
    (h : f.checkout branch (some c) = (f', none)) (ha : Ancestor f.repo.commits t c) :
    ∃ r', f'.repo.pull g base t = .ok (r', []) ∧ r'.head = t ∧ ∀ p, Visible p → fsGet r'.work p = fsGet (f.repo.treeOf t) p := by
  obtain ⟨c0, _, hv, hk, _, hw, _, _⟩ := C97_open h
  simp only [Folder.version, Prod.mk.injEq, Option.getD_some] at hv hw
  by_cases hne : t = c
  · subst hne
    refine ⟨f'.repo, C37_forward.1 (((C97_analysis (by rw [hk]; exact ho) t).1).2 (by rw [hv.2]; exact .refl _)), hv.2, hw⟩
  · obtain ⟨r', h1, h2, _, _, h5⟩ := C37_forward.2 (((C97_analysis (r := f'.repo) (by rw [hk]; exact ho) t).2.1).2
      ⟨by rw [hv.2, hk]; exact ha, by rw [hv.2]; exact hne⟩)
    exact ⟨r', h1, h2, fun p hp => by rw [h5 p hp, Repo.treeOf_commits hk]⟩

/-! ### Remotes -/

/-- **C97**: `add_remote` fails exactly if the name has another address; then and otherwise no other remote is changed, and afterwards the name has
the address. -/
theorem C97_remote (remotes : List (Str × Str)) (name url : Str) :
    (addRemote remotes name url = .error .valueError ↔ ∃ u, fsGet remotes name = some u ∧ u ≠ url) ∧
    (∀ e, addRemote remotes name url = .error e → e = .valueError) ∧
    ∀ r', addRemote remotes name url = .ok r' → (∀ n, fsGet r' n = if n = name then some url else fsGet remotes n) ∧
      addRemote r' name url = .ok r' := by
  unfold addRemote
  cases h : fsGet remotes name with
  | none =>
    refine ⟨by simp, by simp, ?_⟩
    rintro r' hr
    simp only [Except.ok.injEq] at hr
    subst hr
    have hg : ∀ n, fsGet (remotes ++ [(name, url)]) n = if n = name then some url else fsGet remotes n := by
      intro n
      rw [fsGet_append]
      by_cases hn : n = name
      · subst hn; rw [h, if_pos rfl]; simp [fsGet]
      · rw [if_neg hn]
        have : fsGet [(name, url)] n = none := by simp [fsGet, Ne.symm hn]
        rw [this, Option.or_none]
    exact ⟨hg, by rw [hg name, if_pos rfl]; simp⟩
  | some u =>
    simp only
    by_cases hu : u = url
    · subst hu
      refine ⟨by simp, by simp, ?_⟩
      rintro r' hr
      simp only [if_true, Except.ok.injEq] at hr
      subst hr
      refine ⟨fun n => ?_, by rw [h]; simp⟩
      split
      · rename_i hn; rw [hn, h]
      · rfl
    · rw [if_neg hu]
      exact ⟨by simp [hu], by simp, by simp⟩

/-- **C97**: what a fetch changes: only the branches of the remote that is fetched, and only those the server has; nothing if it does not answer. -/
theorem C97_fetched (t : Tracking) (remote r b : Str) :
    fetched t remote none r b = t r b ∧
    ∀ s : Server, (r ≠ remote → fetched t remote (some s) r b = t r b) ∧
      (∀ c, fsGet s.branches b = some c → fetched t remote (some s) remote b = some c) ∧
      (fsGet s.branches b = none → fetched t remote (some s) remote b = t remote b) := by
  refine ⟨rfl, fun s => ⟨fun h => ?_, fun c h => ?_, fun h => ?_⟩⟩
  · simp [fetched, h]
  · simp [fetched, h]
  · simp [fetched, h]

example : fetched (fun _ _ => some 4) (c!"origin") (some ⟨[], [(c!"master", 7)]⟩) (c!"origin") (c!"master") = some 7 ∧
    fetched (fun _ _ => some 4) (c!"origin") (some ⟨[], [(c!"master", 7)]⟩) (c!"fork") (c!"master") = some 4 := by decide

/-- **C97**: where `pull` takes the commit from: the server if it answers and has the branch, else what was remembered; exactly when there is
none, or no such remote, it raises `KeyError` before anything is changed. -/
theorem C97_pull_source (f : Folder) (g : Merger) (base : FS) (t : Tracking) (remotes : List (Str × Str)) (servers : List (Str × Server)) (remote : Str) :
    (∀ url s c, fsGet remotes remote = some url → fsGet servers url = some s → fsGet s.branches f.current = some c →
      f.pullFrom g base t remotes servers remote = (f.repo.pull g base c).map fun r => ({ f with repo := r.1 }, r.2)) ∧
    (∀ url c, fsGet remotes remote = some url → (∀ s, fsGet servers url = some s → fsGet s.branches f.current = none) → t remote f.current = some c →
      f.pullFrom g base t remotes servers remote = (f.repo.pull g base c).map fun r => ({ f with repo := r.1 }, r.2)) ∧
    ((fsGet remotes remote = none ∨ ∃ url, fsGet remotes remote = some url ∧ (∀ s, fsGet servers url = some s → fsGet s.branches f.current = none) ∧
      t remote f.current = none) → f.pullFrom g base t remotes servers remote = .error .keyError) := by
  have hmap : ∀ c, (do let (r, table) ← f.repo.pull g base c; return (({ f with repo := r } : Folder), table) : Except Err (Folder × PullTable)) =
      (f.repo.pull g base c).map fun r => ({ f with repo := r.1 }, r.2) := by
    intro c
    cases f.repo.pull g base c <;> rfl
  refine ⟨?_, ?_, ?_⟩
  · intro url s c h1 h2 h3
    simp only [Folder.pullFrom, h1, h2, fetched, if_true, h3, Option.some_or]
    exact hmap c
  · intro url c h1 h2 h3
    simp only [Folder.pullFrom, h1, fetched]
    cases hs : fsGet servers url with
    | none => simp only [h3]; exact hmap c
    | some s => simp only [if_true, h2 s hs, Option.none_or, h3]; exact hmap c
  · rintro (h1 | ⟨url, h1, h2, h3⟩)
    · simp only [Folder.pullFrom, h1]
    · simp only [Folder.pullFrom, h1, fetched]
      cases hs : fsGet servers url with
      | none => simp only [h3]
      | some s => simp only [if_true, h2 s hs, Option.none_or, h3]

/-! ### Push -/

/-- **C97**: what `push` raises, in this order: the remote is unknown, there are no credentials, the server does not answer or refuses, which
is when the push is not forced and the commit of its branch is not an ancestor of the commit that is pushed.  Otherwise the branch of the server has the
current commit; its other branches and the other servers stay. -/
theorem C97_push {f : Folder} (ho : OrderedCommits f.repo.commits) (remotes : List (Str × Str)) (servers : List (Str × Server)) (credentials : Bool)
    (remote : Str) (force : Bool) :
    (fsGet remotes remote = none → f.push remotes servers credentials remote force = .error .keyError) ∧
    ∀ url, fsGet remotes remote = some url →
      (credentials = false → f.push remotes servers credentials remote force = .error .valueError) ∧
      (credentials = true → fsGet servers url = none → f.push remotes servers credentials remote force = .error .gitError) ∧
      ∀ s, credentials = true → fsGet servers url = some s →
        (force = false ∧ (∃ old, fsGet s.branches f.current = some old ∧ ¬Ancestor f.repo.commits f.repo.head old) →
          f.push remotes servers credentials remote force = .error .gitError) ∧
        (force = true ∨ (∀ old, fsGet s.branches f.current = some old → Ancestor f.repo.commits f.repo.head old) →
          ∃ servers' s', f.push remotes servers credentials remote force = .ok servers' ∧ fsGet servers' url = some s' ∧
            (∀ b, fsGet s'.branches b = if b = f.current then some f.repo.head else fsGet s.branches b) ∧ s'.default = s.default ∧
            ∀ u, u ≠ url → fsGet servers' u = fsGet servers u) := by
  have hr : ∀ old, (f.repo.reach f.repo.commits.length f.repo.head).contains old = true ↔ Ancestor f.repo.commits f.repo.head old := by
    intro old; rw [List.contains_iff_mem, reach_iff ho]
  refine ⟨fun h => by simp only [Folder.push, h]; rfl, fun url hu => ⟨?_, ?_, ?_⟩⟩
  · rintro rfl; simp only [Folder.push, hu]; rfl
  · rintro rfl h; simp only [Folder.push, hu, h]; rfl
  · rintro s rfl h
    constructor
    · rintro ⟨rfl, old, h1, h2⟩
      have h3 : (f.repo.reach f.repo.commits.length f.repo.head).contains old = false := by
        rw [Bool.eq_false_iff]; exact mt (hr old).1 h2
      simp only [Folder.push, hu, h, Server.receive, h1, h3]
      rfl
    · intro hf
      refine ⟨fsSet servers url { s with branches := fsSet s.branches f.current f.repo.head }, { s with branches := fsSet s.branches f.current f.repo.head }, ?_, ?_, ?_, rfl, ?_⟩
      · have : s.receive f.repo f.current f.repo.head force = .ok { s with branches := fsSet s.branches f.current f.repo.head } := by
          unfold Server.receive
          cases h1 : fsGet s.branches f.current with
          | none => rfl
          | some old =>
            simp only
            rw [if_pos]
            rcases hf with rfl | hf
            · rfl
            · rw [Bool.or_eq_true]; exact .inr ((hr old).2 (hf old h1))
        simp only [Folder.push, hu, h, this]
        rfl
      · rw [fsGet_fsSet, if_pos rfl]
      · intro b; rw [fsGet_fsSet]
      · intro u hne; rw [fsGet_fsSet, if_neg hne]

/-- **C97**: what can be pushed after a `pull` from the same server: everything. -/
theorem C97_pull_push {f f' : Folder} {g : Merger} {base : FS} {t : Tracking} {remotes : List (Str × Str)} {servers : List (Str × Server)}
    {remote url : Str} {s : Server} {c : Nat} {table : PullTable} (ho : OrderedCommits f.repo.commits) (hv : f.repo.Valid) (hc : c < f.repo.commits.length)
    (hu : fsGet remotes remote = some url) (hs : fsGet servers url = some s) (hb : fsGet s.branches f.current = some c)
    (h : f.pullFrom g base t remotes servers remote = .ok (f', table)) :
    ∃ servers', f'.push remotes servers true remote false = .ok servers' := by
  rw [(C97_pull_source f g base t remotes servers remote).1 url s c hu hs hb] at h
  cases hp : f.repo.pull g base c with
  | error e => rw [hp] at h; cases h
  | ok r =>
    obtain ⟨r, tab⟩ := r
    rw [hp] at h
    simp only [Except.map, Except.ok.injEq, Prod.mk.injEq] at h
    obtain ⟨rfl, _⟩ := h
    obtain ⟨h1, _, _, h4⟩ := C97_pulled ho hv hc hp
    obtain ⟨servers', _, h5, _⟩ := ((((C97_push (f := { f with repo := r }) h4 remotes servers true remote false).2 url hu).2.2 s rfl hs).2
      (.inr fun old hold => by
        simp only at hold
        rw [hb] at hold
        obtain rfl := Option.some.inj hold
        exact h1))
    exact ⟨servers', h5⟩

/-- Pushes, none of which is forced, by any folders: commits are only added to the known commits. -/
inductive Pushes (remotes : List (Str × Str)) : List Commit → List (Str × Server) → List Commit → List (Str × Server) → Prop where
  | nil (k : List Commit) (v : List (Str × Server)) : Pushes remotes k v k v
  | push {k k' : List Commit} {v v' v'' : List (Str × Server)} {credentials : Bool} {remote : Str} (f : Folder) : Pushes remotes k v k' v' →
      k' <+: f.repo.commits → f.push remotes v' credentials remote false = .ok v'' → Pushes remotes k v f.repo.commits v''

/-- **C97**: whatever is pushed by whomever, a published commit stays published as long as nobody forces a push. -/
theorem C97_published {remotes : List (Str × Str)} {k k' : List Commit} {v v' : List (Str × Server)} (h : Pushes remotes k v k' v') :
    ∀ url s d, fsGet v url = some s → Published k s d → ∃ s', fsGet v' url = some s' ∧ Published k' s' d := by
  induction h with
  | nil => exact fun url s d h1 h2 => ⟨s, h1, h2⟩
  | @push v k' v' v'' cr remote f _ hk hp ih =>
    intro url s d h1 h2
    obtain ⟨s', h3, b, c, h4, h5⟩ := ih url s d h1 h2
    obtain ⟨more, hm⟩ := hk
    have h5 : Ancestor f.repo.commits c d := hm ▸ h5.append more
    unfold Folder.push at hp
    cases hu : fsGet remotes remote with
    | none => simp only [hu] at hp; cases hp
    | some u =>
      simp only [hu] at hp
      cases cr with
      | false => cases hp
      | true =>
        cases hs : fsGet v' u with
        | none => simp only [hs] at hp; cases hp
        | some s0 =>
          simp only [hs] at hp
          obtain ⟨s1, h6, h7⟩ := bind_ok.1 (show (s0.receive f.repo f.current f.repo.head false >>= fun s' => pure (fsSet v' u s')) = .ok v'' from hp)
          rw [pure_ok] at h7
          subst h7
          rw [fsGet_fsSet]
          by_cases hurl : url = u
          · subst hurl
            rw [h3] at hs
            obtain rfl := Option.some.inj hs
            rw [if_pos rfl]
            refine ⟨s1, rfl, ?_⟩
            unfold Server.receive at h6
            by_cases hb : b = f.current
            · subst hb
              rw [h4] at h6
              simp only [Bool.false_or] at h6
              split at h6
              · rename_i hr
                simp only [Except.ok.injEq] at h6
                subst h6
                exact ⟨f.current, f.repo.head, by simp only; rw [fsGet_fsSet, if_pos rfl],
                  (ancestor_of_reach _ _ (List.contains_iff_mem.1 hr)).trans h5⟩
              · cases h6
            · have : fsGet s1.branches b = some c := by
                split at h6
                · split at h6
                  · simp only [Except.ok.injEq] at h6
                    subst h6
                    simp only
                    rw [fsGet_fsSet, if_neg hb, h4]
                  · cases h6
                · simp only [Except.ok.injEq] at h6
                  subst h6
                  simp only
                  rw [fsGet_fsSet, if_neg hb, h4]
              exact ⟨b, c, this, h5⟩
          · rw [if_neg hurl]
            exact ⟨s', h3, b, c, h4, h5⟩

/-! ### Cases -/

/-- Three commits: two that follow the first one. -/
def demoCommits : List Commit := [⟨[(c!"a.desc", c!"x")], []⟩, ⟨[(c!"a.desc", c!"y")], [0]⟩, ⟨[(c!"a.desc", c!"z"), (c!".note", c!"n")], [0]⟩]

/-- A folder with two branches, an uncommitted file and a hidden file. -/
def demoFolder : Folder := ⟨⟨demoCommits, 1, [(c!"a.desc", c!"y")], [(c!"a.desc", c!"y"), (c!"b.desc", c!"w"), (c!".cache", c!"h")]⟩, c!"master", [(c!"dev", 2)]⟩

/-- A server with the same branches. -/
def demoServer : Server := ⟨c!"master", [(c!"master", 1), (c!"dev", 2)]⟩

theorem demo_ordered : OrderedCommits demoCommits := by
  intro c k h q hq
  rcases c with _ | _ | _ | c
  · cases h; cases hq
  · cases h; simp only [List.mem_singleton] at hq; omega
  · cases h; simp only [List.mem_singleton] at hq; omega
  · cases h

-- The other branch is checked out, at its commit and at the first commit: the hidden file stays, the uncommitted file does not.
example : (demoFolder.checkout (some (c!"dev")) none).2 = none ∧ (demoFolder.checkout (some (c!"dev")) none).1.version = (c!"dev", 2) ∧
    (demoFolder.checkout (some (c!"dev")) none).1.repo.work = [(c!"a.desc", c!"z"), (c!".note", c!"n"), (c!".cache", c!"h")] ∧
    (demoFolder.checkout (some (c!"dev")) (some 0)).2 = none ∧ (demoFolder.checkout (some (c!"dev")) (some 0)).1.version = (c!"dev", 0) ∧
    (demoFolder.checkout (some (c!"dev")) (some 0)).1.branch (c!"master") = some 1 := by decide +kernel

-- A hidden file in the way, an unknown commit.
example : ({ demoFolder with repo := { demoFolder.repo with work := [(c!".note", c!"other")] } }.checkout (some (c!"dev")) none).2 = some .gitError ∧
    (demoFolder.checkout (some (c!"dev")) (some 3)).2 = some .keyError := by decide +kernel

/-- **C97** fails for uncommitted work: it is lost when a folder is opened, even if this fails. -/
theorem C97_violated_work : ∃ (f f' : Folder) (p : Str), Visible p ∧ f.checkout (some (c!"missing")) none = (f', some .keyError) ∧
    fsGet f.repo.work p = some (c!"w") ∧ fsGet f'.repo.work p = none :=
  ⟨demoFolder, (demoFolder.checkout (some (c!"missing")) none).1, c!"b.desc", by unfold Visible; decide, by decide +kernel, by decide +kernel, by decide +kernel⟩

/-- **C97** fails for local commits: opening a folder at an older commit moves the branch, and the later commit belongs to no branch any more. -/
theorem C97_violated_moved : ∃ (f f' : Folder), f.checkout (some (c!"master")) (some 0) = (f', none) ∧ f.branch (c!"master") = some 1 ∧
    ∀ b c, f'.branch b = some c → ¬Ancestor f'.repo.commits c 1 := by
  refine ⟨demoFolder, (demoFolder.checkout (some (c!"master")) (some 0)).1, by decide +kernel, by decide +kernel, ?_⟩
  have hk : (demoFolder.checkout (some (c!"master")) (some 0)).1.repo.commits = demoCommits := by decide +kernel
  have ho : OrderedCommits (demoFolder.checkout (some (c!"master")) (some 0)).1.repo.commits := by rw [hk]; exact demo_ordered
  have hcur : (demoFolder.checkout (some (c!"master")) (some 0)).1.current = c!"master" := by decide +kernel
  have hhead : (demoFolder.checkout (some (c!"master")) (some 0)).1.repo.head = 0 := by decide +kernel
  have hoth : (demoFolder.checkout (some (c!"master")) (some 0)).1.others = [(c!"dev", 2)] := by decide +kernel
  intro b c hb ha
  unfold Folder.branch at hb
  rw [hcur, hhead, hoth] at hb
  rw [← reach_iff ho] at ha
  split at hb
  · cases hb
    revert ha
    decide +kernel
  · have : c = 2 := by
      obtain ⟨e, he, h⟩ := Option.map_eq_some_iff.1 hb
      have := List.mem_of_find?_eq_some he
      rw [List.mem_singleton.1 this] at h
      exact h.symm
    subst this
    revert ha
    decide +kernel

/-- The remotes and servers of the cases. -/
def demoRemotes : List (Str × Str) := [(c!"origin", c!"https://x")]

/-- A push of the current branch, at the commit that the server does not know. -/
def demoPush (force : Bool) : Except Err (List (Str × Server)) :=
  { demoFolder with repo := { demoFolder.repo with head := 2 } }.push demoRemotes [(c!"https://x", demoServer)] true (c!"origin") force

-- Refused unless forced; a push of a commit that follows is accepted; without credentials, without remote.
example : demoPush false = .error .gitError ∧ demoPush true = .ok [(c!"https://x", ⟨c!"master", [(c!"master", 2), (c!"dev", 2)]⟩)] ∧
    demoFolder.push demoRemotes [(c!"https://x", ⟨c!"master", [(c!"master", 0)]⟩)] true (c!"origin") false = .ok [(c!"https://x", ⟨c!"master", [(c!"master", 1)]⟩)] ∧
    demoFolder.push demoRemotes [(c!"https://x", demoServer)] false (c!"origin") false = .error .valueError ∧
    demoFolder.push demoRemotes [(c!"https://x", demoServer)] false (c!"other") false = .error .keyError := by decide +kernel

/-- **C97** fails for forced pushes: a published commit belongs to no branch of the server any more. -/
theorem C97_violated_force : ∃ (f : Folder) (s s' : Server), Published f.repo.commits s 1 ∧
    f.push demoRemotes [(c!"https://x", s)] true (c!"origin") true = .ok [(c!"https://x", s')] ∧ ¬Published f.repo.commits s' 1 := by
  refine ⟨{ demoFolder with repo := { demoFolder.repo with head := 2 } }, demoServer, ⟨c!"master", [(c!"master", 2), (c!"dev", 2)]⟩,
    ⟨c!"master", 1, by decide +kernel, .refl _⟩, by decide +kernel, ?_⟩
  rintro ⟨b, c, h1, h2⟩
  have hc : c = 2 := by
    obtain ⟨e, he, h⟩ := Option.map_eq_some_iff.1 h1
    have := List.mem_of_find?_eq_some he
    simp only [List.mem_cons, List.not_mem_nil, or_false] at this
    rcases this with rfl | rfl <;> exact h.symm
  subst hc
  have := (reach_iff (r := { demoFolder.repo with head := 2 }) demo_ordered).2 h2
  revert this
  decide +kernel

/-- **C97** fails when the server does not answer: `pull` says nothing and the folder stays behind. -/
theorem C97_violated_fetch : ∃ (f : Folder) (t : Tracking), ∀ g base, f.pullFrom g base t demoRemotes [] (c!"origin") = .ok (f, []) :=
  ⟨demoFolder, fun _ _ => some 0, fun g base => by
    rw [(C97_pull_source demoFolder g base _ demoRemotes [] (c!"origin")).2.1 (c!"https://x") 0 (by decide +kernel) (by intro s h; cases h) rfl,
      C37_forward.1 (by decide +kernel)]
    rfl⟩

-- The same address again, another one, a new name.
example : addRemote demoRemotes (c!"origin") (c!"https://x") = .ok demoRemotes ∧ addRemote demoRemotes (c!"origin") (c!"https://y") = .error .valueError ∧
    addRemote demoRemotes (c!"fork") (c!"https://y") = .ok [(c!"origin", c!"https://x"), (c!"fork", c!"https://y")] := by decide +kernel

-- The folder is opened at the first commit, and brought back by `pull`; then it can be pushed.
example : (demoFolder.checkout (some (c!"master")) (some 0)).2 = none ∧ Ancestor demoCommits 1 0 ∧ ∀ g base,
    ((demoFolder.checkout (some (c!"master")) (some 0)).1.pullFrom g base (fun _ _ => none) demoRemotes [(c!"https://x", demoServer)] (c!"origin")).map
      (fun r => r.1.version) = .ok (c!"master", 1) := by
  refine ⟨by decide +kernel, .step (q := 0) rfl (by simp) (.refl _), fun g base => ?_⟩
  have h : demoFolder.checkout (some (c!"master")) (some 0) = ((demoFolder.checkout (some (c!"master")) (some 0)).1, none) := Prod.ext rfl (by decide +kernel)
  obtain ⟨r', h1, h2, _⟩ := C97_catch_up (g := g) (base := base) demo_ordered h (.step (q := 0) (c := 1) rfl (by simp) (.refl _))
  rw [(C97_pull_source _ g base _ demoRemotes _ (c!"origin")).1 (c!"https://x") demoServer 1 (by decide +kernel) (by decide +kernel) (by decide +kernel), h1]
  simp only [Except.map, Folder.version, h2]
  decide +kernel

-- A branch that a server does not know is pushed.
example : Pushes demoRemotes demoCommits [(c!"https://x", ⟨c!"dev", [(c!"dev", 2)]⟩)] demoCommits
    [(c!"https://x", ⟨c!"dev", [(c!"dev", 2), (c!"master", 1)]⟩)] :=
  .push (credentials := true) (remote := c!"origin") demoFolder (.nil _ _) (List.prefix_refl _) (by decide +kernel)

end Verif
