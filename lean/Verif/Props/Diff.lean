import Verif.Spec.Diff
import Verif.Lemmas.Except
import Verif.Lemmas.Git
import Verif.Lemmas.PySort
import Verif.Lemmas.Structure
import Verif.Props.Database

/-
The difference of two commits (C85).
-/

namespace Verif

/-! ### Lines -/

/-- Nothing is lost or invented: the second text with the deleted lines is the first with the added ones. -/
theorem hunks_perm {La Lb : List Str} {hs : List (List DiffLine)} (h : Hunks La Lb hs) :
    (Lb ++ (hs.flatten.filter fun l => l.tag = .deleted).map (·.content)).Perm
      (La ++ (hs.flatten.filter fun l => l.tag = .added).map (·.content)) := by
  have one : ∀ h : List DiffLine, (newLines h ++ (h.filter fun l => l.tag = .deleted).map (·.content)).Perm
      (oldLines h ++ (h.filter fun l => l.tag = .added).map (·.content)) := by
    intro h
    have split : ∀ P : DiffLine → Bool, ((h.filter fun l => !P l) ++ h.filter P).Perm h :=
      fun P => List.perm_append_comm.trans (List.filter_append_perm P h)
    have e1 := (split fun l => l.tag = .deleted).map (·.content)
    have e2 := (split fun l => l.tag = .added).map (·.content)
    rw [List.map_append] at e1 e2
    simpa [newLines, oldLines] using e1.trans e2.symm
  induction h with
  | done s => simp
  | @hunk s h o n hs _ _ ih =>
    rw [List.flatten_cons, List.filter_append, List.filter_append, List.map_append, List.map_append]
    have h1 := one h
    have cong : ∀ {a b c d e : List Str}, (a ++ b ++ c ++ (d ++ e)).Perm (a ++ (b ++ d) ++ (c ++ e)) := by
      intro a b c d e
      simp only [List.append_assoc]
      refine List.Perm.append_left _ (List.Perm.append_left _ ?_)
      rw [← List.append_assoc, ← List.append_assoc]
      exact List.perm_append_comm.append_right _
    exact cong.trans (((h1.append_left s).append ih).trans cong.symm)

theorem hunks_mem {La Lb : List Str} {hs : List (List DiffLine)} (h : Hunks La Lb hs) : ∀ l ∈ hs.flatten, l.content ∈ La ∨ l.content ∈ Lb := by
  induction h with
  | done s => simp
  | @hunk s h o n hs _ _ ih =>
    intro l hl
    rw [List.flatten_cons, List.mem_append] at hl
    rcases hl with hl | hl
    · by_cases ht : l.tag = .added
      · right
        have : l.content ∈ newLines h := List.mem_map_of_mem (List.mem_filter.2 ⟨hl, by simp [ht]⟩)
        simp [this]
      · left
        have : l.content ∈ oldLines h := List.mem_map_of_mem (List.mem_filter.2 ⟨hl, by simp [ht]⟩)
        simp [this]
    · rcases ih l hl with h | h
      · left; simp [h]
      · right; simp [h]

theorem hunks_nil {La Lb : List Str} {hs : List (List DiffLine)} (h : Hunks La Lb hs) : hs.flatten = [] ↔ hs = [] := by
  cases h with
  | done s => simp
  | @hunk s h o n hs hc _ =>
    obtain ⟨l, hl, _⟩ := hc
    constructor
    · intro he
      rw [List.flatten_cons] at he
      have : l ∈ h ++ hs.flatten := List.mem_append_left _ hl
      rw [he] at this
      cases this
    · intro he; cases he

theorem hunks_same {La Lb : List Str} {hs : List (List DiffLine)} (h : Hunks La Lb hs) (hn : hs = []) : La = Lb := by
  cases h with
  | done s => rfl
  | hunk s _ _ => cases hn

theorem lines_eq {s : Str} : ∀ {L M : List Str}, LinesOf s L → LinesOf s M → L = M := by
  have cut : ∀ {b b' r r' : Str}, '\n' ∉ b → '\n' ∉ b' → b ++ '\n' :: r = b' ++ '\n' :: r' → b = b' ∧ r = r' := by
    intro b
    induction b with
    | nil =>
      intro b' r r' _ h' h
      cases b' with
      | nil => simpa using h
      | cons c b' =>
        rw [List.nil_append, List.cons_append, List.cons.injEq] at h
        exact absurd (h.1 ▸ List.mem_cons_self) h'
    | cons c b ih =>
      intro b' r r' hb h' h
      cases b' with
      | nil =>
        rw [List.nil_append, List.cons_append, List.cons.injEq] at h
        exact absurd (h.1 ▸ List.mem_cons_self) hb
      | cons d b' =>
        rw [List.cons_append, List.cons_append, List.cons.injEq] at h
        have := ih (fun h => hb (List.mem_cons_of_mem _ h)) (fun h => h' (List.mem_cons_of_mem _ h)) h.2
        exact ⟨by rw [h.1, this.1], this.2⟩
  intro L
  induction L generalizing s with
  | nil =>
    intro M hL hM
    cases M with
    | nil => rfl
    | cons m M =>
      obtain ⟨b, rfl, _⟩ := hM.2 m (by simp)
      have h1 := hL.1
      rw [← hM.1] at h1
      simp at h1
  | cons l L ih =>
    intro M hL hM
    obtain ⟨b, rfl, hb⟩ := hL.2 l (by simp)
    cases M with
    | nil =>
      have h1 := hL.1
      rw [← hM.1] at h1
      simp at h1
    | cons m M =>
      obtain ⟨b', rfl, hb'⟩ := hM.2 m (by simp)
      have h1 := hL.1
      rw [← hM.1] at h1
      simp only [List.flatten_cons, List.append_assoc, List.cons_append, List.nil_append] at h1
      obtain ⟨rfl, h2⟩ := cut hb hb' h1
      rw [ih (s := M.flatten) ⟨h2, fun l hl => hL.2 l (List.mem_cons_of_mem _ hl)⟩ ⟨rfl, fun l hl => hM.2 l (List.mem_cons_of_mem _ hl)⟩]

/-! ### Files -/

theorem diffFiles_spec {hunks : Str → Str → List (List DiffLine)} {a b : FS} : ∀ {ps : List Str} {r : List (Str × FileDiff)},
    diffFiles hunks a b ps = .ok r → (∀ p d, (p, d) ∈ r ↔ p ∈ ps ∧ change (fsGet a p) (fsGet b p) ≠ .same ∧
      diffFile hunks (fsGet a p) (fsGet b p) = .ok (some d)) ∧ (r.map (·.1)).Sublist ps
  | [], r, h => by cases h; simp
  | p :: ps, r, h => by
    unfold diffFiles at h
    split at h
    · rename_i hs
      obtain ⟨h1, h2⟩ := diffFiles_spec h
      refine ⟨fun q d => ?_, h2.cons _⟩
      rw [h1, List.mem_cons]
      constructor
      · rintro ⟨h3, h4⟩
        exact ⟨.inr h3, h4⟩
      · rintro ⟨h3 | h3, h4⟩
        · subst h3; exact absurd hs h4.1
        · exact ⟨h3, h4⟩
    · rename_i hs
      obtain ⟨o, h1, h⟩ := bind_ok.1 h
      obtain ⟨r', h2, h⟩ := bind_ok.1 h
      obtain ⟨h3, h4⟩ := diffFiles_spec h2
      rw [pure_ok] at h
      cases o with
      | none =>
        dsimp only at h
        subst h
        refine ⟨fun q d => ?_, h4.cons _⟩
        rw [h3, List.mem_cons]
        constructor
        · rintro ⟨h5, h6⟩
          exact ⟨.inr h5, h6⟩
        · rintro ⟨h5 | h5, h6⟩
          · subst h5; rw [h1] at h6; cases h6.2
          · exact ⟨h5, h6⟩
      | some o =>
        dsimp only at h
        subst h
        refine ⟨fun q d => ?_, h4.cons_cons _⟩
        rw [List.mem_cons, h3, List.mem_cons, Prod.mk.injEq]
        constructor
        · rintro (⟨rfl, rfl⟩ | ⟨h5, h6⟩)
          · exact ⟨.inl rfl, hs, h1⟩
          · exact ⟨.inr h5, h6⟩
        · rintro ⟨h5 | h5, h6⟩
          · subst h5
            rw [h1] at h6
            cases h6.2
            exact .inl ⟨rfl, rfl⟩
          · exact .inr ⟨h5, h6⟩

theorem diffFiles_err {hunks : Str → Str → List (List DiffLine)} {a b : FS} {e : Err} : ∀ {ps : List Str},
    diffFiles hunks a b ps = .error e → ∃ p ∈ ps, change (fsGet a p) (fsGet b p) ≠ .same ∧ diffFile hunks (fsGet a p) (fsGet b p) = .error e
  | [], h => by cases h
  | p :: ps, h => by
    unfold diffFiles at h
    split at h
    · obtain ⟨q, h1, h2⟩ := diffFiles_err h
      exact ⟨q, List.mem_cons_of_mem _ h1, h2⟩
    · rename_i hs
      cases h1 : diffFile hunks (fsGet a p) (fsGet b p) with
      | error e' =>
        rw [h1] at h
        cases h
        exact ⟨p, by simp, hs, h1⟩
      | ok o =>
        rw [h1] at h
        cases h2 : diffFiles hunks a b ps with
        | error e' =>
          simp only [bind, Except.bind, h2] at h
          cases h
          obtain ⟨q, h3, h4⟩ := diffFiles_err h2
          exact ⟨q, List.mem_cons_of_mem _ h3, h4⟩
        | ok r => simp only [bind, Except.bind, h2, pure, Except.pure] at h; cases h

theorem diffFiles_fails {hunks : Str → Str → List (List DiffLine)} {a b : FS} {e : Err} : ∀ {ps : List Str} {r : List (Str × FileDiff)},
    diffFiles hunks a b ps = .ok r → ∀ {p}, p ∈ ps → change (fsGet a p) (fsGet b p) ≠ .same → diffFile hunks (fsGet a p) (fsGet b p) ≠ .error e
  | [], r, _, p, hp, _ => by cases hp
  | q :: ps, r, h, p, hp, hc => by
    unfold diffFiles at h
    split at h
    · rename_i hs
      rcases List.mem_cons.1 hp with rfl | hp
      · exact absurd hs hc
      · exact diffFiles_fails h hp hc
    · obtain ⟨o, h1, h⟩ := bind_ok.1 h
      obtain ⟨r', h2, h⟩ := bind_ok.1 h
      rcases List.mem_cons.1 hp with rfl | hp
      · rw [h1]
        intro h; cases h
      · exact diffFiles_fails h2 hp hc

theorem diff_eq {r : Repo} {hunks : Str → Str → List (List DiffLine)} {c0 c1 : Nat} {k0 k1 : Commit} (h0 : r.commits[c0]? = some k0)
    (h1 : r.commits[c1]? = some k1) :
    r.diff hunks c0 c1 = diffFiles hunks k0.tree k1.tree (pySort ltStr (dedupBy id ((k0.tree ++ k1.tree).map (·.1)))) := by
  simp only [Repo.diff, h0, h1]

theorem diff_paths {a b : FS} {p : Str} (h : change (fsGet a p) (fsGet b p) ≠ .same) : p ∈ pySort ltStr (dedupBy id ((a ++ b).map (·.1))) := by
  rw [mem_pySort _, mem_dedup_id, List.map_append, List.mem_append]
  by_contra hn
  rw [not_or] at hn
  rw [fsGet_none.2 hn.1, fsGet_none.2 hn.2] at h
  exact h rfl

theorem hunks_empty {La Lb : List Str} {hs : List (List DiffLine)} (h : Hunks La Lb hs) (ha : La = []) (hb : Lb = []) : hs = [] := by
  cases h with
  | done s => rfl
  | @hunk s h o n hs hc _ =>
    exfalso
    obtain ⟨l, hl, _⟩ := hc
    rw [List.append_eq_nil_iff, List.append_eq_nil_iff] at ha hb
    by_cases ht : l.tag = .added
    · have : l.content ∈ newLines h := List.mem_map_of_mem (List.mem_filter.2 ⟨hl, by simp [ht]⟩)
      rw [hb.1.2] at this
      cases this
    · have : l.content ∈ oldLines h := List.mem_map_of_mem (List.mem_filter.2 ⟨hl, by simp [ht]⟩)
      rw [ha.1.2] at this
      cases this

/-- **C85** Which files are reported, and how: the files whose lines are not the same in the two commits (no file has no line), each once;
the lines added and deleted turn the first version into the second; a file is new (removed) if it is not in the first (second) commit; the
key is in the last line of the difference, a line of one of the versions. -/
theorem C85_reported {r : Repo} {hunks : Str → Str → List (List DiffLine)} (hv : ValidDiff hunks) {c0 c1 : Nat} {k0 k1 : Commit}
    (h0 : r.commits[c0]? = some k0) (h1 : r.commits[c1]? = some k1) {lines0 lines1 : Str → List Str}
    (hl0 : ∀ p, LinesOf ((fsGet k0.tree p).getD []) (lines0 p)) (hl1 : ∀ p, LinesOf ((fsGet k1.tree p).getD []) (lines1 p))
    {res : List (Str × FileDiff)} (h : r.diff hunks c0 c1 = .ok res) :
    (res.map (·.1)).Nodup ∧ (∀ p, p ∈ res.map (·.1) ↔ lines0 p ≠ lines1 p) ∧
    ∀ p d, (p, d) ∈ res → (lines1 p ++ d.deleted).Perm (lines0 p ++ d.added) ∧ (d.isNew = true ↔ p ∉ k0.tree.map (·.1)) ∧
      (d.isRemoved = true ↔ p ∉ k1.tree.map (·.1)) ∧ ∃ l, (l ∈ lines0 p ∨ l ∈ lines1 p) ∧ secondPart l = .ok d.ieml := by
  rw [diff_eq h0 h1] at h
  obtain ⟨hm, hs⟩ := diffFiles_spec h
  have hh : ∀ p, Hunks (lines0 p) (lines1 p) (hunks ((fsGet k0.tree p).getD []) ((fsGet k1.tree p).getD [])) := fun p => hv _ _ _ _ (hl0 p) (hl1 p)
  have nodup : (pySort ltStr (dedupBy id ((k0.tree ++ k1.tree).map (·.1)))).Nodup :=
    (pySort_perm ltStr _).nodup_iff.2 (nodup_dedup_id _)
  refine ⟨hs.nodup nodup, fun p => ?_, fun p d hp => ?_⟩
  · rw [List.mem_map]
    constructor
    · rintro ⟨⟨q, d⟩, hq, rfl⟩ heq
      obtain ⟨h3, h4, h5⟩ := (hm q d).1 hq
      have hc : (fsGet k0.tree q).getD [] = (fsGet k1.tree q).getD [] := by
        rw [← (hl0 q).1, ← (hl1 q).1]
        exact congrArg List.flatten heq
      have he : (fsGet k0.tree q).getD [] = [] ∧ (fsGet k1.tree q).getD [] = [] := by
        cases g0 : fsGet k0.tree q <;> cases g1 : fsGet k1.tree q <;> simp_all [change]
      have e0 : lines0 q = [] := lines_eq (hl0 q) ⟨by rw [he.1]; rfl, by simp⟩
      have e1 : lines1 q = [] := lines_eq (hl1 q) ⟨by rw [he.2]; rfl, by simp⟩
      rw [diffFile, hunks_empty (hh q) e0 e1] at h5
      cases h5
    · intro hne
      have hcs : change (fsGet k0.tree p) (fsGet k1.tree p) ≠ .same := by
        intro hc
        have : fsGet k0.tree p = fsGet k1.tree p := by
          cases g0 : fsGet k0.tree p <;> cases g1 : fsGet k1.tree p <;> simp_all [change]
        have h6 := hl0 p
        rw [this] at h6
        exact hne (lines_eq h6 (hl1 p))
      have hp := diff_paths hcs
      cases hd : diffFile hunks (fsGet k0.tree p) (fsGet k1.tree p) with
      | error e =>
        exfalso
        exact diffFiles_fails h hp hcs hd
      | ok o =>
        cases o with
        | some d => exact ⟨(p, d), (hm p d).2 ⟨hp, hcs, hd⟩, rfl⟩
        | none =>
          exfalso
          unfold diffFile at hd
          dsimp only at hd
          split at hd
          · rename_i hn
            rw [List.getLast?_eq_none_iff, hunks_nil (hh p)] at hn
            exact hne (hunks_same (hh p) hn)
          · obtain ⟨k, _, h7⟩ := bind_ok.1 hd
            cases h7
  · obtain ⟨h3, h4, h5⟩ := (hm p d).1 hp
    unfold diffFile at h5
    dsimp only at h5
    split at h5
    · cases h5
    · rename_i l hl
      obtain ⟨k, h6, h7⟩ := bind_ok.1 h5
      rw [pure_ok, Option.some.injEq] at h7
      subst h7
      refine ⟨hunks_perm (hh p), ?_, ?_, l.content, hunks_mem (hh p) l (List.mem_of_getLast? hl), h6⟩
      · rw [Option.isNone_iff_eq_none, fsGet_none]
      · rw [Option.isNone_iff_eq_none, fsGet_none]

theorem secondPart_key {k l : Str} (h : KeyLine k l) : secondPart l = .ok k := by
  obtain ⟨hk, r, rfl⟩ := h
  have hd : (c!"\"" ++ k ++ c!"\"" ++ r).dropWhile (fun c => c ≠ '"') = '"' :: (k ++ '"' :: r) := by simp
  have ht : (k ++ '"' :: r).takeWhile (fun c => c ≠ '"') = k := by
    rw [List.takeWhile_append_of_pos]
    · simp
    · intro c hc
      have : c ≠ '"' := fun h => hk (h ▸ hc)
      simpa using this
  unfold secondPart
  rw [hd]
  simp only
  rw [ht]

theorem drop_quote : ∀ l : Str, ((l.dropWhile fun c => c ≠ '"') = [] ∧ '"' ∉ l) ∨ ∃ r, (l.dropWhile fun c => c ≠ '"') = '"' :: r ∧ '"' ∈ l
  | [] => .inl ⟨rfl, by simp⟩
  | c :: l => by
    by_cases hc : c = '"'
    · subst hc
      exact .inr ⟨l, by simp, by simp⟩
    · have hd : ((c :: l).dropWhile fun c => c ≠ '"') = l.dropWhile fun c => c ≠ '"' := by simp [hc]
      rw [hd]
      rcases drop_quote l with ⟨h1, h2⟩ | ⟨r, h1, h2⟩
      · exact .inl ⟨h1, by simpa [Ne.symm hc] using h2⟩
      · exact .inr ⟨r, h1, List.mem_cons_of_mem _ h2⟩

theorem secondPart_err {l : Str} {e : Err} : secondPart l = .error e ↔ e = .indexError ∧ '"' ∉ l := by
  unfold secondPart
  rcases drop_quote l with ⟨h1, h2⟩ | ⟨r, h1, h2⟩
  · rw [h1]
    simp [h2, eq_comm]
  · rw [h1]
    simp [h2]

/-- **C85** The key of a file whose lines, in both commits, all start with the same key: this key. -/
theorem C85_key {r : Repo} {hunks : Str → Str → List (List DiffLine)} (hv : ValidDiff hunks) {c0 c1 : Nat} {k0 k1 : Commit}
    (h0 : r.commits[c0]? = some k0) (h1 : r.commits[c1]? = some k1) {lines0 lines1 : Str → List Str}
    (hl0 : ∀ p, LinesOf ((fsGet k0.tree p).getD []) (lines0 p)) (hl1 : ∀ p, LinesOf ((fsGet k1.tree p).getD []) (lines1 p))
    {res : List (Str × FileDiff)} (h : r.diff hunks c0 c1 = .ok res) {p k : Str} {d : FileDiff} (hp : (p, d) ∈ res)
    (hk : ∀ l, l ∈ lines0 p ∨ l ∈ lines1 p → KeyLine k l) : d.ieml = k := by
  obtain ⟨_, _, h2⟩ := C85_reported hv h0 h1 hl0 hl1 h
  obtain ⟨_, _, _, l, hl, h3⟩ := h2 p d hp
  rw [secondPart_key (hk l hl), Except.ok.injEq] at h3
  exact h3.symm

/-- **C85** The errors: `KeyError` for an unknown commit; `IndexError`, for the whole difference, if a line without quotation mark ends the
difference of one file.  If all the lines have a quotation mark there is no error. -/
theorem C85_errors {r : Repo} {hunks : Str → Str → List (List DiffLine)} {c0 c1 : Nat} :
    ((r.commits[c0]? = none ∨ r.commits[c1]? = none) → r.diff hunks c0 c1 = .error .keyError) ∧
    ∀ {k0 k1 : Commit}, r.commits[c0]? = some k0 → r.commits[c1]? = some k1 →
      ((∃ e, r.diff hunks c0 c1 = .error e) ↔ r.diff hunks c0 c1 = .error .indexError) ∧
      (r.diff hunks c0 c1 = .error .indexError ↔ ∃ p l, fsGet k0.tree p ≠ fsGet k1.tree p ∧
        (hunks ((fsGet k0.tree p).getD []) ((fsGet k1.tree p).getD [])).flatten.getLast? = some l ∧ '"' ∉ l.content) := by
  constructor
  · intro h
    unfold Repo.diff
    rcases h with h | h
    · rw [h]
    · rw [h]
      cases r.commits[c0]? <;> rfl
  · intro k0 k1 h0 h1
    have file : ∀ {o n : Option Str} {e : Err}, diffFile hunks o n = .error e ↔
        e = .indexError ∧ ∃ l, (hunks (o.getD []) (n.getD [])).flatten.getLast? = some l ∧ '"' ∉ l.content := by
      intro o n e
      unfold diffFile
      dsimp only
      cases hl : (hunks (o.getD []) (n.getD [])).flatten.getLast? with
      | none => simp
      | some l =>
        dsimp only
        cases hs : secondPart l.content with
        | error e' =>
          obtain ⟨rfl, hq⟩ := secondPart_err.1 hs
          simp only [bind, Except.bind, Except.error.injEq, Option.some.injEq]
          constructor
          · rintro rfl; exact ⟨rfl, l, rfl, hq⟩
          · rintro ⟨rfl, _⟩; rfl
        | ok k =>
          constructor
          · intro h; cases h
          · rintro ⟨rfl, l', hl', hq⟩
            cases hl'
            rw [secondPart_err.2 ⟨rfl, hq⟩] at hs
            cases hs
    rw [diff_eq h0 h1]
    have only : ∀ e, diffFiles hunks k0.tree k1.tree (pySort ltStr (dedupBy id ((k0.tree ++ k1.tree).map (·.1)))) = .error e → e = .indexError := by
      intro e h
      obtain ⟨p, _, _, h2⟩ := diffFiles_err h
      exact (file.1 h2).1
    refine ⟨⟨fun ⟨e, h⟩ => only e h ▸ h, fun h => ⟨_, h⟩⟩, ?_, ?_⟩
    · intro h
      obtain ⟨p, _, h2, h3⟩ := diffFiles_err h
      obtain ⟨l, h4, h5⟩ := (file.1 h3).2
      exact ⟨p, l, fun he => h2 (change_same.2 he), h4, h5⟩
    · rintro ⟨p, l, h2, h3, h4⟩
      have hc : change (fsGet k0.tree p) (fsGet k1.tree p) ≠ .same := fun he => h2 (change_same.1 he)
      cases hd : diffFiles hunks k0.tree k1.tree (pySort ltStr (dedupBy id ((k0.tree ++ k1.tree).map (·.1)))) with
      | error e => rw [only e hd]
      | ok r => exact absurd (file.2 ⟨rfl, l, h3, h4⟩) (diffFiles_fails hd (diff_paths hc) hc)

/-! ### A transaction -/

theorem descriptorLine_line {k l d v : Str} (hk : OneLine k) (hl : l ∈ languages) (hd : d ∈ descriptorClasses) :
    ∃ b, descriptorLine k l d v = b ++ ['\n'] ∧ '\n' ∉ b := by
  refine ⟨c!"\"" ++ escapeValue k ++ c!"\" " ++ l ++ c!" " ++ d ++ c!" \"" ++ escapeValue v ++ c!"\"", by simp [descriptorLine], ?_⟩
  have he : ∀ s, '\n' ∉ escapeValue s := fun s h => by
    rw [escapeValue_comm, mem_doubleQuotes] at h
    exact newline_not_mem_escapeNewlines s h
  have h1 : '\n' ∉ l := by
    simp only [languages, List.mem_cons, List.not_mem_nil, or_false] at hl
    rcases hl with rfl | rfl <;> decide
  have h2 : '\n' ∉ d := by
    simp only [descriptorClasses, List.mem_cons, List.not_mem_nil, or_false] at hd
    rcases hd with rfl | rfl | rfl | rfl <;> decide
  simp [he, h1, h2]

theorem descriptorLine_keyLine {k l d v : Str} (hk : OneLine k) (hq : NoQuote k) : KeyLine k (descriptorLine k l d v) := by
  refine ⟨hq, c!" " ++ l ++ c!" " ++ d ++ c!" \"" ++ escapeValue v ++ c!"\"\n", ?_⟩
  unfold descriptorLine
  rw [escapeValue_eq hk.1, doubleQuotes_id hq]
  simp

/-- **C85** for a transaction that adds a descriptor: between the commits before and after it, the difference has exactly one file, the one
of the key; it is reported under this key, with the new line added; it is new if there was no file. -/
theorem C85_add {x : Ext} {r : Repo} {hunks : Str → Str → List (List DiffLine)} (hv : ValidDiff hunks) {c0 c1 : Nat} {k0 k1 : Commit}
    (h0 : r.commits[c0]? = some k0) (h1 : r.commits[c1]? = some k1) {t l d v k p : Str} (hl : l ∈ languages) (hd : d ∈ descriptorClasses)
    (hkt : keyText x t = .ok k) (hp : pathOf x k true true = .ok p) (hs : strip v ≠ []) (hk : OneLine k) (hq : NoQuote k)
    (ha : addDescriptor x k0.tree (some t) (some l) (some d) v = .ok k1.tree) {lines0 : Str → List Str}
    (hl0 : ∀ p, LinesOf ((fsGet k0.tree p).getD []) (lines0 p)) (hkey : ∀ l ∈ lines0 p, KeyLine k l) :
    ∃ f, r.diff hunks c0 c1 = .ok [(p, f)] ∧ f.ieml = k ∧ f.added.Perm (descriptorLine k l d (strip v) :: f.deleted) ∧
      (f.isNew = true ↔ p ∉ k0.tree.map (·.1)) ∧ f.isRemoved = false := by
  rw [addDescriptor_eq hl hd, hkt] at ha
  simp only [bind, Except.bind, if_neg hs, hp, pure, Except.pure, Except.ok.injEq] at ha
  have hg : ∀ q, fsGet k1.tree q = if q = p then some ((fsGet k0.tree p).getD [] ++ descriptorLine k l d (strip v)) else fsGet k0.tree q :=
    fun q => by rw [← ha, fsGet_fsSet]
  have hl1 : ∀ q, LinesOf ((fsGet k1.tree q).getD []) (if q = p then lines0 p ++ [descriptorLine k l d (strip v)] else lines0 q) := by
    intro q
    rw [hg]
    split
    · refine ⟨by simp [(hl0 p).1], fun m hm => ?_⟩
      rcases List.mem_append.1 hm with hm | hm
      · exact (hl0 p).2 m hm
      · rw [List.mem_singleton] at hm
        exact hm ▸ descriptorLine_line hk hl hd
    · exact hl0 q
  have hkl : ∀ m, m ∈ lines0 p ∨ m ∈ (if p = p then lines0 p ++ [descriptorLine k l d (strip v)] else lines0 p) → KeyLine k m := by
    intro m hm
    rw [if_pos rfl] at hm
    rcases hm with hm | hm
    · exact hkey m hm
    · rcases List.mem_append.1 hm with hm | hm
      · exact hkey m hm
      · rw [List.mem_singleton] at hm
        exact hm ▸ descriptorLine_keyLine hk hq
  cases hr : r.diff hunks c0 c1 with
  | error e =>
    exfalso
    have he := ((C85_errors (r := r) (hunks := hunks) (c0 := c0) (c1 := c1)).2 h0 h1).1.1 ⟨e, hr⟩
    obtain ⟨q, m, h2, h3, h4⟩ := ((C85_errors (r := r) (hunks := hunks) (c0 := c0) (c1 := c1)).2 h0 h1).2.1 he
    have hqp : q = p := by
      by_contra hne
      rw [hg, if_neg hne] at h2
      exact h2 rfl
    subst hqp
    obtain ⟨_, b, hb⟩ := hkl m.content (hunks_mem (hv _ _ _ _ (hl0 q) (hl1 q)) m (List.mem_of_getLast? h3))
    rw [hb] at h4
    simp at h4
  | ok res =>
    obtain ⟨hnd, hmem, hall⟩ := C85_reported hv h0 h1 hl0 hl1 hr
    have hone : ∀ q, q ∈ res.map (·.1) ↔ q = p := by
      intro q
      rw [hmem]
      constructor
      · intro h
        by_contra hne
        rw [if_neg hne] at h
        exact h rfl
      · rintro rfl
        rw [if_pos rfl]
        intro h
        have := congrArg List.length h
        simp at this
    obtain ⟨⟨q, f⟩, hf, hqe⟩ := List.mem_map.1 ((hone p).2 rfl)
    dsimp only at hqe
    subst hqe
    have hres : res = [(q, f)] := by
      cases res with
      | nil => cases hf
      | cons e res =>
        cases res with
        | nil => rw [List.mem_singleton] at hf; rw [hf]
        | cons e' res =>
          exfalso
          have h2 := (hone e.1).1 (by simp)
          have h3 := (hone e'.1).1 (by simp)
          simp only [List.map_cons, List.nodup_cons] at hnd
          exact hnd.1 (by rw [h2, ← h3]; simp)
    subst hres
    obtain ⟨h2, h3, h4, _⟩ := hall q f hf
    refine ⟨f, rfl, C85_key hv h0 h1 hl0 hl1 hr hf hkl, ?_, h3, ?_⟩
    · rw [if_pos rfl, List.append_assoc, List.perm_append_left_iff] at h2
      exact h2.symm
    · rw [Bool.eq_false_iff, ne_eq, h4]
      have : fsGet k1.tree q ≠ none := by rw [hg, if_pos rfl]; simp
      rwa [ne_eq, fsGet_none] at this

/-! ### A correct comparison -/

/-- The comparison that deletes everything and adds everything. -/
def plainDiff (a b : Str) : List (List DiffLine) :=
  if a = b then [] else [(splitLines a).map (⟨.deleted, ·⟩) ++ (splitLines b).map (⟨.added, ·⟩)]

theorem splitLines_of {s : Str} {L : List Str} (h : LinesOf s L) : splitLines s = L := by
  have cons : ∀ {b r : Str}, '\n' ∉ b → splitLines (b ++ '\n' :: r) = (b ++ ['\n']) :: splitLines r := by
    intro b
    induction b with
    | nil => intro r _; simp [splitLines]
    | cons c b ih =>
      intro r hb
      have hc : c ≠ '\n' := fun h => hb (h ▸ List.mem_cons_self)
      rw [List.cons_append, splitLines, if_neg hc, ih fun h => hb (List.mem_cons_of_mem _ h)]
      rfl
  obtain ⟨rfl, hl⟩ := h
  induction L with
  | nil => rfl
  | cons l L ih =>
    obtain ⟨b, rfl, hb⟩ := hl l (by simp)
    rw [List.flatten_cons, List.append_assoc, List.cons_append, List.nil_append, cons hb, ih fun l h => hl l (List.mem_cons_of_mem _ h)]

theorem plainDiff_valid : ValidDiff plainDiff := by
  intro a b La Lb ha hb
  unfold plainDiff
  split
  · rename_i h
    subst h
    rw [lines_eq ha hb]
    exact .done _
  · rename_i h
    rw [splitLines_of ha, splitLines_of hb]
    have ho : oldLines (La.map (⟨.deleted, ·⟩) ++ Lb.map (⟨.added, ·⟩)) = La := by
      simp [oldLines, List.filter_append, List.filter_map, Function.comp_def]
    have hn : newLines (La.map (⟨.deleted, ·⟩) ++ Lb.map (⟨.added, ·⟩)) = Lb := by
      simp [newLines, List.filter_append, List.filter_map, Function.comp_def]
    have := Hunks.hunk [] (h := La.map (⟨.deleted, ·⟩) ++ Lb.map (⟨.added, ·⟩)) (o := []) (n := []) (hs := []) ?_ (.done [])
    · rw [ho, hn] at this
      simpa using this
    · cases La with
      | cons l La => exact ⟨⟨.deleted, l⟩, by simp, by simp⟩
      | nil =>
        cases Lb with
        | cons l Lb => exact ⟨⟨.added, l⟩, by simp, by simp⟩
        | nil => exact absurd (ha.1.symm.trans hb.1) h

/-- Two commits: a value is added to the first file, the second file is created. -/
def demoDiff (a b : FS) : Repo := ⟨[⟨a, []⟩, ⟨b, [0]⟩], 1, b, b⟩

-- The hypotheses hold, with a difference that is reported.
example : (demoDiff [(c!"a.desc", c!"\"A:\" fr tags \"x\"\n")]
      [(c!"a.desc", c!"\"A:\" fr tags \"x\"\n\"A:\" en tags \"y\"\n"), (c!"b.desc", c!"\"B:\" fr tags \"z\"\n")]).diff plainDiff 0 1 =
    .ok [(c!"a.desc", ⟨c!"A:", [c!"\"A:\" fr tags \"x\"\n", c!"\"A:\" en tags \"y\"\n"], [c!"\"A:\" fr tags \"x\"\n"], false, false⟩),
      (c!"b.desc", ⟨c!"B:", [c!"\"B:\" fr tags \"z\"\n"], [], true, false⟩)] := by
  decide +kernel

-- The hypotheses of `C85_add` hold for a second translation of a key.
example : ∃ f, (demoDiff [(c!"morpheme/singular/k.desc", c!"\"k\" fr tags \"x\"\n")]
      [(c!"morpheme/singular/k.desc", c!"\"k\" fr tags \"x\"\n\"k\" en tags \"y\"\n")]).diff plainDiff 0 1 =
        .ok [(c!"morpheme/singular/k.desc", f)] ∧ f.ieml = c!"k" ∧
      f.added.Perm (c!"\"k\" en tags \"y\"\n" :: f.deleted) ∧ f.isNew = false := by
  obtain ⟨f, h1, h2, h3, h4, _⟩ := C85_add (x := demo) plainDiff_valid
    (r := demoDiff [(c!"morpheme/singular/k.desc", c!"\"k\" fr tags \"x\"\n")]
      [(c!"morpheme/singular/k.desc", c!"\"k\" fr tags \"x\"\n\"k\" en tags \"y\"\n")]) (c0 := 0) (c1 := 1) rfl rfl
    (t := c!" k") (l := c!"en") (d := c!"tags") (v := c!" y ") (k := c!"k") (p := c!"morpheme/singular/k.desc")
    (by decide) (by decide) (by decide +kernel) (by decide +kernel) (by decide +kernel) (by decide) (by decide) (by decide +kernel)
    (lines0 := fun q => if q = c!"morpheme/singular/k.desc" then [c!"\"k\" fr tags \"x\"\n"] else []) (by
      intro q
      by_cases h : q = c!"morpheme/singular/k.desc"
      · subst h
        refine ⟨by decide, fun l hl => ?_⟩
        rw [if_pos rfl, List.mem_singleton] at hl
        exact ⟨c!"\"k\" fr tags \"x\"", hl, by decide⟩
      · rw [if_neg h, fsGet_none.2 (by simpa [demoDiff] using h)]
        exact ⟨rfl, by simp⟩) (by
      intro l hl
      rw [if_pos rfl, List.mem_singleton] at hl
      exact ⟨by decide, c!" fr tags \"x\"\n", hl⟩)
  refine ⟨f, h1, h2, h3, ?_⟩
  rw [Bool.eq_false_iff, ne_eq, h4]
  decide

/-- **C85** is violated by a file of two keys, which the digests of file names do not exclude: only one of them is reported, whatever
the comparison. -/
theorem C85_violated_two_keys {hunks : Str → Str → List (List DiffLine)} (hv : ValidDiff hunks) :
    ∃ k, ((demoDiff [] [(c!"x.desc", c!"\"A:\" fr tags \"x\"\n\"B:\" fr tags \"y\"\n")]).diff hunks 0 1).map (·.map fun e => e.2.ieml) = .ok [k] := by
  have hh := hv [] _ [] [c!"\"A:\" fr tags \"x\"\n", c!"\"B:\" fr tags \"y\"\n"] ⟨rfl, by simp⟩ ⟨rfl, by
    intro l hl
    rw [List.mem_pair] at hl
    rcases hl with rfl | rfl
    · exact ⟨c!"\"A:\" fr tags \"x\"", rfl, by decide⟩
    · exact ⟨c!"\"B:\" fr tags \"y\"", rfl, by decide⟩⟩
  show ∃ k, (diffFiles hunks [] [(c!"x.desc", c!"\"A:\" fr tags \"x\"\n\"B:\" fr tags \"y\"\n")] [c!"x.desc"]).map _ = _
  have h1 : fsGet ([] : FS) (c!"x.desc") = none := rfl
  have h2 : fsGet [(c!"x.desc", c!"\"A:\" fr tags \"x\"\n\"B:\" fr tags \"y\"\n")] (c!"x.desc") = some (c!"\"A:\" fr tags \"x\"\n\"B:\" fr tags \"y\"\n") := rfl
  have hne : (hunks [] (c!"\"A:\" fr tags \"x\"\n\"B:\" fr tags \"y\"\n")).flatten ≠ [] := fun hn => by
    have := hunks_same hh ((hunks_nil hh).1 hn)
    cases this
  have hk : ∃ k, secondPart ((hunks [] (c!"\"A:\" fr tags \"x\"\n\"B:\" fr tags \"y\"\n")).flatten.getLast hne).content = .ok k := by
    rcases hunks_mem hh _ (List.getLast_mem hne) with hm | hm
    · cases hm
    · rw [List.mem_pair] at hm
      rcases hm with hm | hm <;> rw [hm]
      · exact ⟨c!"A:", by decide⟩
      · exact ⟨c!"B:", by decide⟩
  obtain ⟨k, hk⟩ := hk
  refine ⟨k, ?_⟩
  unfold diffFiles
  rw [h1, h2]
  unfold diffFile
  simp only [Option.getD_none, Option.getD_some, List.getLast?_eq_some_getLast hne, hk]
  rfl

/-- **C85** is violated by a new file that is empty: it is not reported. -/
theorem C85_violated_empty {hunks : Str → Str → List (List DiffLine)} (hv : ValidDiff hunks) :
    (demoDiff [] [(c!"x.desc", [])]).diff hunks 0 1 = .ok [] := by
  have := hv [] [] [] [] ⟨rfl, by simp⟩ ⟨rfl, by simp⟩
  have hn : hunks [] [] = [] := hunks_empty this rfl rfl
  have hd : diffFile hunks none (some []) = .ok none := by
    simp only [diffFile, Option.getD_none, Option.getD_some, hn]
    rfl
  show diffFiles hunks [] [(c!"x.desc", [])] [c!"x.desc"] = _
  have h1 : fsGet ([] : FS) (c!"x.desc") = none := rfl
  have h2 : fsGet [(c!"x.desc", ([] : Str))] (c!"x.desc") = some [] := rfl
  unfold diffFiles
  rw [h1, h2, hd]
  rfl

/-- **C85** is violated by every file without quotation marks that changes: the whole difference raises `IndexError`. -/
theorem C85_violated_text {hunks : Str → Str → List (List DiffLine)} (hv : ValidDiff hunks) {l : Str} (h : '"' ∉ l) (hl : '\n' ∉ l) :
    (demoDiff [] [(c!"README.md", l ++ ['\n'])]).diff hunks 0 1 = .error .indexError := by
  have hh := hv [] (l ++ ['\n']) [] [l ++ ['\n']] ⟨rfl, by simp⟩ ⟨by simp, by simpa using hl⟩
  have hne : (hunks [] (l ++ ['\n'])).flatten ≠ [] := fun hn => by
    have := hunks_same hh ((hunks_nil hh).1 hn)
    cases this
  refine ((C85_errors (r := demoDiff [] [(c!"README.md", l ++ ['\n'])]) (hunks := hunks) (c0 := 0) (c1 := 1)).2 rfl rfl).2.2
    ⟨c!"README.md", (hunks [] (l ++ ['\n'])).flatten.getLast hne, ?_, ?_, ?_⟩
  · show (none : Option Str) ≠ some _
    simp
  · show (hunks [] (l ++ ['\n'])).flatten.getLast? = _
    exact List.getLast?_eq_some_getLast hne
  · rcases hunks_mem hh _ (List.getLast_mem hne) with hm | hm
    · cases hm
    · rw [List.mem_singleton] at hm
      rw [hm]
      simpa using h

end Verif
