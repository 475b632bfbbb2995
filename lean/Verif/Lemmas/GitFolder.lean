import Verif.Spec.GitFolder
import Verif.Lemmas.Files

/-
Lemmas on ancestry and on the checkout of branches.
-/

namespace Verif

theorem Ancestor.trans {k : List Commit} {a b c : Nat} (h : Ancestor k a b) (h' : Ancestor k b c) : Ancestor k a c := by
  induction h with
  | refl => exact h'
  | step hk hq _ ih => exact .step hk hq (ih h')

theorem Ancestor.le {k : List Commit} (ho : OrderedCommits k) {a b : Nat} (h : Ancestor k a b) : b ≤ a := by
  induction h with
  | refl => exact Nat.le_refl _
  | step hk hq _ ih => exact Nat.le_trans ih (Nat.le_of_lt (ho _ _ hk _ hq))

theorem Ancestor.append {k : List Commit} {a b : Nat} (h : Ancestor k a b) (more : List Commit) : Ancestor (k ++ more) a b := by
  induction h with
  | refl => exact .refl _
  | step hk hq _ ih =>
    refine .step ?_ hq ih
    obtain ⟨hlt, _⟩ := List.getElem?_eq_some_iff.1 hk
    rw [List.getElem?_append_left hlt, hk]

theorem ancestor_of_reach {r : Repo} : ∀ (fuel c : Nat) {d : Nat}, d ∈ r.reach fuel c → Ancestor r.commits c d := by
  intro fuel
  induction fuel with
  | zero =>
    intro c d h
    simp only [Repo.reach, List.mem_singleton] at h
    rw [h]; exact .refl _
  | succ fuel ih =>
    intro c d h
    unfold Repo.reach at h
    rcases List.mem_cons.1 h with rfl | h
    · exact .refl _
    · cases hk : r.commits[c]? with
      | none => rw [hk] at h; cases h
      | some k =>
        rw [hk] at h
        obtain ⟨q, hq, hd⟩ := List.mem_flatMap.1 h
        exact .step hk hq (ih q hd)

theorem reach_of_ancestor {r : Repo} (ho : OrderedCommits r.commits) {c d : Nat} (h : Ancestor r.commits c d) :
    ∀ fuel, c ≤ fuel → d ∈ r.reach fuel c := by
  induction h with
  | refl c => intro fuel _; cases fuel <;> simp [Repo.reach]
  | step hk hq _ ih =>
    intro fuel hf
    have hlt := ho _ _ hk _ hq
    cases fuel with
    | zero => omega
    | succ fuel =>
      unfold Repo.reach
      rw [hk]
      exact List.mem_cons_of_mem _ (List.mem_flatMap.2 ⟨_, hq, ih fuel (by omega)⟩)

theorem ancestor_outside {k : List Commit} {c d : Nat} (hc : k.length ≤ c) (h : Ancestor k c d) : d = c := by
  cases h with
  | refl => rfl
  | step hk => rw [List.getElem?_eq_none hc] at hk; cases hk

/-- Following the commits as many times as there are commits finds all ancestors. -/
theorem reach_iff {r : Repo} (ho : OrderedCommits r.commits) {c d : Nat} : d ∈ r.reach r.commits.length c ↔ Ancestor r.commits c d := by
  refine ⟨ancestor_of_reach _ _, fun h => ?_⟩
  by_cases hc : c ≤ r.commits.length
  · exact reach_of_ancestor ho h _ hc
  · rw [ancestor_outside (by omega) h]
    cases r.commits.length <;> simp [Repo.reach]

namespace Repo

/-- What the first `reset` of `checkout` leaves. -/
theorem reset_head (r : Repo) : (r.reset r.head).head = r.head ∧ (r.reset r.head).index = r.headTree ∧ (r.reset r.head).commits = r.commits ∧
    ∀ p, fsGet (r.reset r.head).work p = match fsGet r.headTree p with
      | some x => some x
      | none => if startsWith p (c!".") then (if (fsGet r.index p).isSome then none else fsGet r.work p) else none :=
  reset_spec r r.head

theorem treeOf_commits {r r' : Repo} (h : r'.commits = r.commits) (c : Nat) : r'.treeOf c = r.treeOf c := by
  unfold treeOf; rw [h]

theorem blocks_iff (r : Repo) (c : Nat) (p : Str) : (r.reset r.head).blocks (r.treeOf c) p = true ↔ InTheWay r c p := by
  obtain ⟨_, hi, _, hw⟩ := reset_head r
  unfold blocks InTheWay
  rw [hi, hw p, visible_iff]
  cases hh : fsGet r.headTree p with
  | some x => simp
  | none =>
    cases hs : startsWith p (c!".") with
    | false => simp
    | true =>
      cases hx : fsGet r.index p with
      | some z => simp
      | none =>
        cases hwk : fsGet r.work p with
        | none => simp
        | some x =>
          cases ht : fsGet (r.treeOf c) p with
          | none => simp
          | some y => simp

theorem blocks_mem {r : Repo} {t : FS} {p : Str} (h : r.blocks t p = true) : p ∈ (t ++ r.index).map (·.1) := by
  unfold blocks at h
  by_contra hn
  have := (fsGet_none (fs := t ++ r.index) (p := p)).2 hn
  rw [fsGet_append] at this
  cases ht : fsGet t p with
  | some x => rw [ht] at this; cases this
  | none =>
    rw [ht] at this
    have hi : fsGet r.index p = none := this
    rw [ht, hi] at h
    simp at h

/-- When `repo.checkout(ref)` refuses. -/
theorem switch_blocked (r : Repo) (c : Nat) :
    (((r.reset r.head).treeOf c ++ (r.reset r.head).index).any fun f => (r.reset r.head).blocks ((r.reset r.head).treeOf c) f.1) = true ↔
      ∃ p, InTheWay r c p := by
  have ht := treeOf_commits (reset_head r).2.2.1 c
  rw [ht, List.any_eq_true]
  constructor
  · rintro ⟨f, _, h⟩
    exact ⟨_, (blocks_iff r c f.1).1 h⟩
  · rintro ⟨p, h⟩
    have hb := (blocks_iff r c p).2 h
    obtain ⟨f, hf, rfl⟩ := List.mem_map.1 (blocks_mem hb)
    exact ⟨f, hf, hb⟩

end Repo
end Verif

namespace Verif
namespace Folder

/-- The folder after the switch to another branch whose commit is `c`. -/
def switched (f : Folder) (b : Str) (c : Nat) : Folder :=
  if b = f.current then { f with repo := (f.repo.reset f.repo.head).resetHard c } else
    { repo := (f.repo.reset f.repo.head).resetHard c, current := b, others := (f.current, f.repo.head) :: fsRemove f.others b }

theorem branch_reset (f : Folder) (b : Str) : ({ f with repo := f.repo.reset f.repo.head } : Folder).branch b = f.branch b := by
  unfold branch; simp only [(Repo.reset_head f.repo).1]

theorem checkout_missing {f : Folder} {branch : Option Str} {commit : Option Nat} (h : f.branch (branch.getD f.current) = none) :
    f.checkout branch commit = ({ f with repo := f.repo.reset f.repo.head }, some .keyError) := by
  unfold checkout
  simp only [branch_reset, h]

theorem checkout_blocked {f : Folder} {branch : Option Str} {commit : Option Nat} {c : Nat} (h : f.branch (branch.getD f.current) = some c)
    (hb : ∃ p, InTheWay f.repo c p) : f.checkout branch commit = ({ f with repo := f.repo.reset f.repo.head }, some .gitError) := by
  unfold checkout
  simp only [branch_reset, h, Repo.switch, (Repo.switch_blocked f.repo c).2 hb, if_true]

theorem checkout_free {f : Folder} {branch : Option Str} {commit : Option Nat} {c : Nat} (h : f.branch (branch.getD f.current) = some c)
    (hb : ¬∃ p, InTheWay f.repo c p) : f.checkout branch commit = match commit with
      | none => (f.switched (branch.getD f.current) c, none)
      | some c' => if c' < f.repo.commits.length then
          ({ f.switched (branch.getD f.current) c with repo := (f.switched (branch.getD f.current) c).repo.reset c' }, none)
        else (f.switched (branch.getD f.current) c, some .keyError) := by
  have hs : (f.repo.reset f.repo.head).switch c = .ok ((f.repo.reset f.repo.head).resetHard c) := by
    unfold Repo.switch
    rw [if_neg (mt (Repo.switch_blocked f.repo c).1 hb)]
    rfl
  have hl : ((f.repo.reset f.repo.head).resetHard c).commits = f.repo.commits := (Repo.reset_head f.repo).2.2.1
  unfold checkout
  simp only [branch_reset, h, hs, (Repo.reset_head f.repo).1]
  unfold switched
  by_cases hc : branch.getD f.current = f.current
  · simp only [hc, if_true]
    cases commit with
    | none => rfl
    | some c' => simp only [hl]
  · simp only [hc, if_false]
    cases commit with
    | none => rfl
    | some c' => simp only [hl]

theorem switched_repo (f : Folder) (b : Str) (c : Nat) : (f.switched b c).repo = (f.repo.reset f.repo.head).resetHard c := by
  unfold switched; split <;> rfl

theorem switched_current (f : Folder) (b : Str) (c : Nat) : (f.switched b c).current = b := by
  unfold switched
  split
  · rename_i h; exact h.symm
  · rfl

theorem switched_others {f : Folder} {b : Str} {c : Nat} {q : Str} (hq : q ≠ b) : fsGet (f.switched b c).others q = f.branch q := by
  unfold switched branch
  split
  · rename_i h
    rw [if_neg (fun e => hq (e.trans h.symm))]
  · simp only
    rw [show (f.current, f.repo.head) :: fsRemove f.others b = [(f.current, f.repo.head)] ++ fsRemove f.others b from rfl, fsGet_append,
      fsGet_fsRemove, if_neg hq]
    by_cases h : q = f.current
    · subst h; simp [fsGet]
    · rw [if_neg h]
      have : fsGet [(f.current, f.repo.head)] q = none := by simp [fsGet, Ne.symm h]
      rw [this]; rfl

/-- The files after the switch. -/
theorem switched_work (f : Folder) (b : Str) (c : Nat) (p : Str) : fsGet (f.switched b c).repo.work p =
    match fsGet (f.repo.treeOf c) p with
    | some x => some x
    | none => if startsWith p (c!".") ∧ fsGet f.repo.headTree p = none ∧ fsGet f.repo.index p = none then fsGet f.repo.work p else none := by
  obtain ⟨_, hi, hc, hw⟩ := Repo.reset_head f.repo
  rw [switched_repo, Repo.resetHard_work, Repo.treeOf_commits hc, hi, hw p]
  cases fsGet (f.repo.treeOf c) p with
  | some x => rfl
  | none =>
    cases fsGet f.repo.headTree p with
    | some x => simp
    | none =>
      cases startsWith p (c!".") with
      | false => simp
      | true => cases fsGet f.repo.index p <;> simp

end Folder
end Verif
