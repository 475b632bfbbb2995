import Verif.Model.Cache
import Verif.Lemmas.Git
import Verif.Lemmas.ScriptOrder
import Mathlib.Data.List.Basic

/-
Properties of the caches (C38, C39, C40).
-/

namespace Verif
variable {V : Type} {c : Cached V} {S : List FS} {db db' : FS} {dir : CacheDir V}

/-! ### Lemmas -/

theorem clear_get (dir : CacheDir V) (p : Str) : ∀ ns : List Str,
    fsGet (ns.foldl fsRemove dir) p = if p ∈ ns then none else fsGet dir p := by
  intro ns
  induction ns generalizing dir with
  | nil => simp
  | cons n ns ih =>
    rw [List.foldl_cons, ih, fsGet_fsRemove]
    by_cases h1 : p ∈ ns
    · simp [h1]
    · by_cases h2 : p = n
      · simp [h2]
      · simp [h1, h2]

theorem Cached.mem_candidates {p : Str} : p ∈ c.candidates dir ↔ (fsGet dir p).isSome = true ∧ startsWith p c.pre = true := by
  unfold Cached.candidates
  rw [List.mem_filter]
  refine and_congr_left fun _ => ?_
  rw [← not_iff_not, ← fsGet_none]
  simp

/-- The cache files hold results of the function on folders of `S`, under the digest of the folder they come from. -/
def Cached.Sound (c : Cached V) (S : List FS) (dir : CacheDir V) : Prop :=
  ∀ h v, fsGet dir (c.pre ++ h) = some (some v) → ∃ db ∈ S, c.compute db = .ok v ∧ c.md5 (keyOf (c.files db)) = h

theorem Cached.Sound.clear (h : c.Sound S dir) (n : Nat) : c.Sound S (c.clear dir n) := by
  intro k v hk
  unfold Cached.clear at hk
  rw [clear_get] at hk
  split at hk
  · cases hk
  · exact h k v hk

theorem Cached.Sound.set (h : c.Sound S dir) {db : FS} (hS : db ∈ S) {o : Option V} (ho : ∀ v, o = some v → c.compute db = .ok v) :
    c.Sound S (fsSet dir (c.file db) o) := by
  intro k v hk
  rw [fsGet_fsSet] at hk
  split at hk
  · rename_i e
    have e := List.append_cancel_left e
    injection hk with hk
    exact ⟨db, hS, ho v hk, e.symm⟩
  · exact h k v hk

theorem Cached.lookup_sound (h : c.Sound S dir) {v : V} (hv : c.lookup db dir = some v) :
    ∃ db' ∈ S, c.compute db' = .ok v ∧ c.md5 (keyOf (c.files db')) = c.md5 (keyOf (c.files db)) := by
  unfold Cached.lookup at hv
  split at hv
  · cases hv
  · split at hv
    · rename_i w hw
      split at hv
      · injection hv with hv
        subst hv
        unfold Cached.get at hw
        rw [Option.join_eq_some_iff] at hw
        exact h _ _ hw
      · cases hv
    · cases hv

theorem Cached.call_sound (h : c.Sound S dir) (hS : db ∈ S) : c.Sound S (c.call db dir).2 := by
  unfold Cached.call
  split
  · exact h
  · split
    · exact h
    · rename_i v hv
      exact (h.clear _).set hS fun w hw => by injection hw with hw; rw [← hw]; exact hv

theorem Cached.crash_sound (h : c.Sound S dir) (hS : db ∈ S) (k : Crash) : c.Sound S (c.crash db dir k) := by
  unfold Cached.crash
  split
  · exact h
  · split
    · exact h
    · cases k with
      | removing n => exact h.clear n
      | writing => exact (h.clear _).set hS fun w hw => by cases hw

/-! ### C39: interruptions -/

/-- What happens to the database and the cache: the folder is changed, the function is called, or a call is interrupted. -/
inductive Event where
  | change (db : FS)
  | call
  | interruption (k : Crash)

/-- The folder and the cache after an event. -/
def Cached.after (c : Cached V) (s : FS × CacheDir V) : Event → FS × CacheDir V
  | .change db => (db, s.2)
  | .call => (s.1, (c.call s.1 s.2).2)
  | .interruption k => (s.1, c.crash s.1 s.2 k)

/-- The folders of a history. -/
def folders (db : FS) : List Event → List FS
  | [] => [db]
  | .change db' :: es => db :: folders db' es
  | _ :: es => folders db es

theorem mem_folders : ∀ (es : List Event) (db : FS), db ∈ folders db es
  | [], _ => List.mem_singleton.2 rfl
  | .change _ :: _, _ => List.mem_cons_self
  | .call :: es, db => mem_folders es db
  | .interruption _ :: es, db => mem_folders es db

theorem Cached.history_sound : ∀ (es : List Event) (s : FS × CacheDir V), c.Sound S s.2 → (∀ d ∈ folders s.1 es, d ∈ S) →
    c.Sound S (es.foldl c.after s).2
  | [], _, h, _ => h
  | e :: es, s, h, hS => by
    rw [List.foldl_cons]
    cases e with
    | change db => exact history_sound es _ h fun d hd => hS d (List.mem_cons_of_mem _ hd)
    | call => exact history_sound es _ (c.call_sound h (hS _ (mem_folders es _))) hS
    | interruption k => exact history_sound es _ (c.crash_sound h (hS _ (mem_folders es _)) k) hS

/-- **C39**: whatever the changes of the folder, the calls and the interruptions before, starting with no cache file, a call
returns the result of the function on the current folder, or its result on an earlier folder of the history with the same
digest. -/
theorem C39_interruptions (db₀ : FS) (dir₀ : CacheDir V) (h0 : c.candidates dir₀ = []) (es : List Event) :
    let s := es.foldl c.after (db₀, dir₀)
    (c.call s.1 s.2).1 = c.compute s.1 ∨
      ∃ db' ∈ folders db₀ es, ∃ v, (c.call s.1 s.2).1 = .ok v ∧ c.compute db' = .ok v ∧
        c.md5 (keyOf (c.files db')) = c.md5 (keyOf (c.files s.1)) := by
  intro s
  have h : c.Sound (folders db₀ es) s.2 := c.history_sound es _ (by
    intro k v hk
    have : c.pre ++ k ∈ c.candidates dir₀ := by
      rw [Cached.mem_candidates]
      refine ⟨by rw [hk]; rfl, ?_⟩
      unfold startsWith
      rw [List.isPrefixOf_iff_prefix]
      exact List.prefix_append _ _
    rw [h0] at this
    cases this) fun _ h => h
  unfold Cached.call
  split
  · rename_i v hv
    obtain ⟨db', h0, h1, h2⟩ := c.lookup_sound h hv
    exact .inr ⟨db', h0, v, rfl, h1, h2⟩
  · left
    split
    · rename_i e; exact e.symm
    · rename_i e; exact e.symm

/-- **C39**: if no folder of the history with the same digest has another result, a call returns the result of the function on
the current folder. -/
theorem C39_current (db₀ : FS) (dir₀ : CacheDir V) (h0 : c.candidates dir₀ = []) (es : List Event)
    (hk : ∀ db' ∈ folders db₀ es, c.md5 (keyOf (c.files db')) = c.md5 (keyOf (c.files (es.foldl c.after (db₀, dir₀)).1)) →
      c.compute db' = c.compute (es.foldl c.after (db₀, dir₀)).1) :
    (c.call (es.foldl c.after (db₀, dir₀)).1 (es.foldl c.after (db₀, dir₀)).2).1 =
      c.compute (es.foldl c.after (db₀, dir₀)).1 := by
  rcases C39_interruptions db₀ dir₀ h0 es with h | ⟨db', hm, v, h1, h2, h3⟩
  · exact h
  · rw [h1, ← hk db' hm h3, h2]

/-- **C39**: while the folder stays, calls and interruptions in any order never change the result, whatever the digest. -/
theorem C39_unchanged (db₀ : FS) (dir₀ : CacheDir V) (h0 : c.candidates dir₀ = []) (es : List Event)
    (hc : ∀ e ∈ es, ∀ db, e ≠ .change db) :
    (c.call db₀ (es.foldl c.after (db₀, dir₀)).2).1 = c.compute db₀ := by
  have hf : folders db₀ es = [db₀] ∧ ∀ d, (es.foldl c.after (db₀, d)).1 = db₀ := by
    clear h0
    induction es with
    | nil => exact ⟨rfl, fun _ => rfl⟩
    | cons e es ih =>
      obtain ⟨i1, i2⟩ := ih fun e' he' => hc e' (List.mem_cons_of_mem _ he')
      cases e with
      | change db => exact absurd rfl (hc _ List.mem_cons_self db)
      | call => exact ⟨i1, fun d => i2 _⟩
      | interruption k => exact ⟨i1, fun d => i2 _⟩
  have := C39_current db₀ dir₀ h0 es (by
    rw [hf.1, hf.2]
    intro d hd _
    rw [List.mem_singleton.1 hd])
  rwa [hf.2] at this

/-! ### C38: changes of the watched files -/

theorem Cached.clear_candidates : c.candidates (c.clear dir (c.candidates dir).length) = [] := by
  rw [List.eq_nil_iff_forall_not_mem]
  intro p hp
  rw [Cached.mem_candidates] at hp
  unfold Cached.clear at hp
  rw [clear_get, List.take_length] at hp
  split at hp
  · exact absurd hp.1 (by simp)
  · rename_i h
    exact h (Cached.mem_candidates.2 hp)

theorem Cached.file_pre : startsWith (c.file db) c.pre = true := by
  unfold startsWith Cached.file
  rw [List.isPrefixOf_iff_prefix]
  exact List.prefix_append _ _

theorem Cached.update_candidates {v : V} : c.candidates (c.update db dir v) = [c.file db] := by
  have h0 := c.clear_candidates (dir := dir)
  unfold Cached.update
  generalize c.clear dir (c.candidates dir).length = d at h0
  have hn : (d.any fun f => decide (f.1 = c.file db)) = false := by
    rw [List.any_eq_false]
    intro f hf he
    have : c.file db ∈ c.candidates d := by
      unfold Cached.candidates
      rw [List.mem_filter]
      exact ⟨of_decide_eq_true he ▸ List.mem_map_of_mem hf, c.file_pre⟩
    rw [h0] at this
    cases this
  unfold fsSet
  rw [hn]
  simp only [Bool.false_eq_true, if_false]
  unfold Cached.candidates at h0 ⊢
  rw [List.map_append, List.filter_append, h0]
  simp [Cached.file_pre]

/-- After a call that returns, the only cache file is the one of the current folder. -/
theorem Cached.call_candidates {v : V} (h : (c.call db dir).1 = .ok v) : c.candidates (c.call db dir).2 = [c.file db] := by
  unfold Cached.call at h ⊢
  split
  · rename_i w hw
    unfold Cached.lookup at hw
    split at hw
    · cases hw
    · rename_i hp
      unfold Cached.isPruned at hp
      split at hp
      · rename_i n hn
        simp only [bne_iff_ne, ne_eq, not_not] at hp
        simp only
        rw [hn, hp]
      · exact absurd rfl hp
  · rename_i hl
    rw [hl] at h
    simp only at h
    split
    · rename_i e he
      rw [he] at h
      cases h
    · exact c.update_candidates

/-- **C38**, what is proved: after a result was cached, a change of the folder that changes the digest is seen: the result is
computed again, on the current folder.  Missing: changes that leave the text from which the digest is taken
(`C38_violated`); see `C38_one_file` for the changes of one file. -/
theorem C38_recompute_partial {v : V} (h : (c.call db dir).1 = .ok v)
    (hd : c.md5 (keyOf (c.files db)) ≠ c.md5 (keyOf (c.files db'))) :
    c.lookup db' (c.call db dir).2 = none ∧ (c.call db' (c.call db dir).2).1 = c.compute db' := by
  have hl : c.lookup db' (c.call db dir).2 = none := by
    unfold Cached.lookup Cached.isPruned
    rw [c.call_candidates h]
    rw [if_pos]
    simp only [bne_iff_ne, ne_eq]
    exact fun e => hd (List.append_cancel_left e)
  refine ⟨hl, ?_⟩
  generalize (c.call db dir).2 = d at hl
  unfold Cached.call
  rw [hl]
  simp only
  split
  · rename_i e; exact e.symm
  · rename_i e; exact e.symm

/-! The text of the digest and the changes of one file. -/

theorem ltStr_irrefl (a : Str) : ltStr a a = false := ltBytes_irrefl _

theorem ltStr_total {a b : Str} (h : a ≠ b) : ltStr a b = true ∨ ltStr b a = true :=
  ltBytes_total fun e => h ((List.map_injective_iff.2 fun _ _ => Char.toNat_inj.1) e)

theorem ltStr_asymm {a b : Str} (h : ltStr a b = true) : ltStr b a = false := by
  cases hb : ltStr b a with
  | false => rfl
  | true => exact absurd (ltBytes_trans h hb) (by simp [ltBytes_irrefl])

theorem ltStr_trans {a b c : Str} (h1 : ltStr a b = true) (h2 : ltStr b c = true) : ltStr a c = true := ltBytes_trans h1 h2

/-- The watched files are strictly sorted when no path is there twice. -/
theorem Cached.files_sorted (hn : (db.map (·.1)).Nodup) : (c.files db).Pairwise fun f g => ltStr f.1 g.1 = true := by
  have h1 : (c.files db).Pairwise fun f g => ltStr g.1 f.1 = false :=
    pySort_sorted (lt := fun f g : Str × Str => ltStr f.1 g.1) (k := fun f => f.1.map Char.toNat) fun _ _ _ _ => rfl
  have h2 : (c.files db).Pairwise fun f g => f.1 ≠ g.1 := by
    have : ((c.files db).map (·.1)).Nodup := by
      have hp := (pySort_perm (lt := fun f g : Str × Str => ltStr f.1 g.1) (db.filter fun f => c.watch f.1)).map (·.1)
      exact hp.nodup_iff.2 (hn.sublist (List.Sublist.map _ List.filter_sublist))
    rwa [List.Nodup, List.pairwise_map] at this
  exact h1.imp₂ (fun f g a b => (ltStr_total b).resolve_right (by simp [a])) h2

theorem Cached.mem_files (hn : (db.map (·.1)).Nodup) {p x : Str} :
    (p, x) ∈ c.files db ↔ c.watch p = true ∧ fsGet db p = some x := by
  unfold Cached.files
  rw [mem_pySort, List.mem_filter, and_comm]
  exact and_congr_right fun _ => ⟨fun h => mem_fsGet hn h, fsGet_mem⟩

theorem sorted_ext : ∀ {l m : FS}, l.Pairwise (fun f g => ltStr f.1 g.1 = true) → m.Pairwise (fun f g => ltStr f.1 g.1 = true) →
    (∀ f, f ∈ l ↔ f ∈ m) → l = m := by
  intro l m hl hm h
  have nd : ∀ {l : FS}, l.Pairwise (fun f g => ltStr f.1 g.1 = true) → l.Nodup := fun h =>
    h.imp fun {a b} hab e => by rw [e, ltStr_irrefl] at hab; cases hab
  refine List.Perm.eq_of_pairwise (le := fun f g => ltStr f.1 g.1 = true) ?_ hl hm ((List.perm_ext_iff_of_nodup (nd hl) (nd hm)).2 h)
  intro a b _ _ h1 h2
  rw [ltStr_asymm h1] at h2
  cases h2

theorem sorted_split {p : Str} : ∀ {l : FS}, l.Pairwise (fun f g => ltStr f.1 g.1 = true) →
    l = l.filter (fun f => ltStr f.1 p) ++ (l.filter (fun f => decide (f.1 = p)) ++ l.filter fun f => ltStr p f.1)
  | [], _ => rfl
  | f :: l, h => by
    obtain ⟨h1, h2⟩ := List.pairwise_cons.1 h
    have ih := sorted_split (p := p) h2
    by_cases he : f.1 = p
    · have e3 : l.filter (fun f => ltStr f.1 p) = [] := by
        rw [List.filter_eq_nil_iff]
        intro g hg
        rw [Bool.not_eq_true]
        exact ltStr_asymm (he ▸ h1 g hg)
      rw [e3, List.nil_append] at ih
      simp only [List.filter_cons, he, ltStr_irrefl, decide_true, if_true, Bool.false_eq_true, if_false, e3, List.nil_append,
        List.cons_append]
      rw [← ih]
    · rcases ltStr_total he with hlt | hgt
      · simp only [List.filter_cons, hlt, if_true, he, decide_false, Bool.false_eq_true, if_false, ltStr_asymm hlt,
          List.cons_append]
        rw [← ih]
      · have e3 : l.filter (fun f => ltStr f.1 p) = [] := by
          rw [List.filter_eq_nil_iff]
          intro g hg
          rw [Bool.not_eq_true]
          exact ltStr_asymm (ltStr_trans hgt (h1 g hg))
        have e4 : l.filter (fun f => decide (f.1 = p)) = [] := by
          rw [List.filter_eq_nil_iff]
          intro g hg e
          have := h1 g hg
          rw [of_decide_eq_true e, ltStr_asymm hgt] at this
          cases this
        rw [e3, e4, List.nil_append, List.nil_append] at ih
        simp only [List.filter_cons, ltStr_asymm hgt, Bool.false_eq_true, if_false, he, decide_false, hgt, if_true, e3, e4,
          List.nil_append]
        rw [← ih]

/-- **C38**: the text of the digest changes when exactly one watched file is added, removed or modified: such a change is seen
unless the digests of two different texts are the same. -/
theorem C38_one_file (hn : (db.map (·.1)).Nodup) (hn' : (db'.map (·.1)).Nodup) {p : Str} (hp : c.watch p = true)
    (hne : fsGet db p ≠ fsGet db' p) (hsame : ∀ q, q ≠ p → c.watch q = true → fsGet db q = fsGet db' q) :
    keyOf (c.files db) ≠ keyOf (c.files db') := by
  have hs := c.files_sorted hn
  have hs' := c.files_sorted hn'
  have e1 : (c.files db).filter (fun f => ltStr f.1 p) = (c.files db').filter fun f => ltStr f.1 p := by
    refine sorted_ext (hs.filter _) (hs'.filter _) ?_
    rintro ⟨q, x⟩
    simp only [List.mem_filter, c.mem_files hn, c.mem_files hn']
    refine and_congr_left fun hlt => and_congr_right fun hw => ?_
    rw [hsame q (fun e => by rw [e, ltStr_irrefl] at hlt; cases hlt) hw]
  have e2 : (c.files db).filter (fun f => ltStr p f.1) = (c.files db').filter fun f => ltStr p f.1 := by
    refine sorted_ext (hs.filter _) (hs'.filter _) ?_
    rintro ⟨q, x⟩
    simp only [List.mem_filter, c.mem_files hn, c.mem_files hn']
    refine and_congr_left fun hlt => and_congr_right fun hw => ?_
    rw [hsame q (fun e => by rw [e, ltStr_irrefl] at hlt; cases hlt) hw]
  have mid : ∀ {db : FS}, (db.map (·.1)).Nodup → (c.files db).filter (fun f => decide (f.1 = p)) =
      match fsGet db p with | some x => [(p, x)] | none => [] := by
    intro db hn
    refine sorted_ext ((c.files_sorted hn).filter _) ?_ ?_
    · split <;> simp
    · rintro ⟨q, x⟩
      simp only [List.mem_filter, c.mem_files hn, decide_eq_true_eq]
      cases hg : fsGet db p with
      | none =>
        simp only [List.not_mem_nil, iff_false, not_and]
        rintro ⟨_, h⟩ rfl
        rw [hg] at h; cases h
      | some y =>
        simp only [List.mem_singleton, Prod.mk.injEq]
        constructor
        · rintro ⟨⟨_, h⟩, rfl⟩
          rw [hg] at h; injection h with h; exact ⟨rfl, h.symm⟩
        · rintro ⟨rfl, rfl⟩; exact ⟨⟨hp, hg⟩, rfl⟩
  intro hk
  rw [sorted_split (p := p) hs, sorted_split (p := p) hs', e1, e2, mid hn, mid hn'] at hk
  unfold keyOf at hk
  rw [List.flatMap_append, List.flatMap_append, List.flatMap_append, List.flatMap_append] at hk
  have hk := List.append_cancel_right (List.append_cancel_left hk)
  cases h1 : fsGet db p with
  | none =>
    cases h2 : fsGet db' p with
    | none => exact hne (h1.trans h2.symm)
    | some y => rw [h1, h2] at hk; simp at hk
  | some x =>
    cases h2 : fsGet db' p with
    | none => rw [h1, h2] at hk; simp at hk
    | some y =>
      rw [h1, h2] at hk
      simp at hk
      exact hne (by rw [h1, h2, hk])

/-- A folder with the same text has the same cache file: the cached result is returned. -/
theorem Cached.stale {v : V} (hk : keyOf (c.files db) = keyOf (c.files db')) (h : c.compute db = .ok v) (ht : c.truth v = true) :
    (c.call db' (c.call db []).2).1 = .ok v := by
  have h1 : c.lookup db [] = none := by simp [Cached.lookup, Cached.isPruned, Cached.candidates]
  have h2 : c.call db [] = (.ok v, c.update db [] v) := by
    unfold Cached.call
    rw [h1]
    simp only [h]
  have h3 : c.lookup db' (c.update db [] v) = some v := by
    have e : c.file db' = c.file db := by unfold Cached.file; rw [hk]
    unfold Cached.lookup Cached.isPruned
    rw [c.update_candidates]
    simp only [e, bne_self_eq_false, Bool.false_eq_true, if_false]
    unfold Cached.get Cached.update
    rw [e, fsGet_fsSet, if_pos rfl]
    simp [ht]
  rw [h2]
  unfold Cached.call
  simp only [h3]

/-- **C38** is violated: the digest is taken on names and contents put one after the other without delimiters.  Whatever the
digest and the function, removing the file `b` and putting its name and its content at the end of the file `a` is not seen. -/
theorem C38_violated (md5 : Str → Str) (f : FS → Except Err Str) (truth : Str → Bool) (v : Str)
    (hv : f [(c!"a", c!"1"), (c!"b", c!"2")] = .ok v) (ht : truth v = true) :
    let c : Cached Str := ⟨c!"n", fun _ => true, md5, truth, f⟩
    (c.call [(c!"a", c!"1b:2")] (c.call [(c!"a", c!"1"), (c!"b", c!"2")] []).2).1 = .ok v :=
  Cached.stale (by rfl) hv ht

/-- Two files are modified at once, no file is added or removed, and the change is not seen. -/
theorem C38_violated_modified (md5 : Str → Str) (f : FS → Except Err Str) (truth : Str → Bool) (v : Str)
    (hv : f [(c!"a", c!"1"), (c!"b", c!"b:2")] = .ok v) (ht : truth v = true) :
    let c : Cached Str := ⟨c!"n", fun _ => true, md5, truth, f⟩
    (c.call [(c!"a", c!"1b:"), (c!"b", c!"2")] (c.call [(c!"a", c!"1"), (c!"b", c!"b:2")] []).2).1 = .ok v :=
  Cached.stale (by rfl) hv ht

/-- A demonstration cache: the function returns the content of `a`. -/
def demoCache : Cached Str := ⟨c!"n", fun _ => true, id, fun v => !v.isEmpty, fun fs => match fsGet fs (c!"a") with
  | some x => .ok x | none => .error .keyError⟩

/-- The result is stale indeed. -/
example : (demoCache.call [(c!"a", c!"1b:2")] (demoCache.call [(c!"a", c!"1"), (c!"b", c!"2")] []).2).1 = .ok (c!"1") ∧
    demoCache.compute [(c!"a", c!"1b:2")] = .ok (c!"1b:2") := by decide +kernel

/-- A change of one file is seen. -/
example : (demoCache.call [(c!"a", c!"3"), (c!"b", c!"2")] (demoCache.call [(c!"a", c!"1"), (c!"b", c!"2")] []).2).1 = .ok (c!"3") :=
  (C38_recompute_partial (c := demoCache) (db := [(c!"a", c!"1"), (c!"b", c!"2")]) (v := c!"1") (by decide +kernel)
    (C38_one_file (c := demoCache) (p := c!"a") (by decide) (by decide) rfl (by decide) (fun q hq _ => by
      simp [fsGet, List.find?_cons, Ne.symm hq]))).2

/-- An interrupted update, then a call. -/
example : (fun s => (demoCache.call s.1 s.2).1)
    ([Event.call, .change [(c!"a", c!"5")], .interruption .writing, .interruption (.removing 1)].foldl demoCache.after
      ([(c!"a", c!"1")], [])) = .ok (c!"5") := by decide +kernel

/-! ### C40: the list of expressions -/

theorem last_folder (c : Cached V) : ∀ (es : List Event) (db : FS) (d : CacheDir V), (es.foldl c.after (db, d)).1 ∈ folders db es
  | [], _, _ => List.mem_singleton.2 rfl
  | .change _ :: es, _, d => List.mem_cons_of_mem _ (last_folder c es _ d)
  | .call :: es, db, _ => last_folder c es db _
  | .interruption _ :: es, db, _ => last_folder c es db _

/-- **C40**, what is proved: the list returned is the one of the current folder or of a folder with the same digest of the watched
files.  Missing: changes of the descriptors of polymorphemes, lexemes and words, which are not watched (`C40_violated`). -/
theorem C40_watched_partial {x : Ext} {md5 : Str → Str} (db₀ : FS) (dir₀ : CacheDir (List (Str × Str × Str × Str)))
    (h0 : (listCache x md5).candidates dir₀ = []) (es : List Event)
    (hk : ∀ a ∈ folders db₀ es, ∀ b ∈ folders db₀ es,
      md5 (keyOf ((listCache x md5).files a)) = md5 (keyOf ((listCache x md5).files b)) →
      (listCache x md5).files a = (listCache x md5).files b) :
    let s := es.foldl (listCache x md5).after (db₀, dir₀)
    ∃ db ∈ folders db₀ es, ((listCache x md5).call s.1 s.2).1 = listDescriptors x db ∧ (listCache x md5).files db = (listCache x md5).files s.1 := by
  intro s
  rcases C39_interruptions (c := listCache x md5) db₀ dir₀ h0 es with h | ⟨db', hm, v, h1, h2, h3⟩
  · exact ⟨s.1, last_folder _ es _ _, h, rfl⟩
  · exact ⟨db', hm, h1.trans h2.symm, hk _ hm _ (last_folder _ es _ _) h3⟩

/-- An expression reader in which the texts starting with `[` are words. -/
def wordsDemo : Ext where
  parse t := match t with
    | [] => .error .cannotParse
    | '[' :: _ => .ok ⟨t, .word, true⟩
    | _ => .ok ⟨t, .morpheme, true⟩
  digest t := t.take 10

/-- **C40** is violated, whatever the digest: after `add_descriptor` on a word, the list is the old one, without the new
descriptor. -/
theorem C40_violated (md5 : Str → Str) :
    let fs : FS := [(c!"morpheme/singular/k.desc", descriptorLine (c!"k") (c!"fr") (c!"tags") (c!"a"))]
    ∃ fs' old new, addDescriptor wordsDemo fs (some (c!"[k]")) (some (c!"fr")) (some (c!"tags")) (c!"b") = .ok fs' ∧
      listDescriptors wordsDemo fs' = .ok new ∧ old ≠ new ∧
      ((listCache wordsDemo md5).call fs' ((listCache wordsDemo md5).call fs []).2).1 = .ok old := by
  intro fs
  refine ⟨fs ++ [(c!"word/singular/[k]/[k].desc", descriptorLine (c!"[k]") (c!"fr") (c!"tags") (c!"b"))],
    [(c!"k", c!"fr", c!"tags", c!"a")], [(c!"k", c!"fr", c!"tags", c!"a"), (c!"[k]", c!"fr", c!"tags", c!"b")],
    by decide +kernel, by decide +kernel, by decide, ?_⟩
  refine Cached.stale (c := listCache wordsDemo md5) ?_ (show listDescriptors wordsDemo fs = _ by decide +kernel) rfl
  have e : (listCache wordsDemo id).files fs =
    (listCache wordsDemo id).files (fs ++ [(c!"word/singular/[k]/[k].desc", descriptorLine (c!"[k]") (c!"fr") (c!"tags") (c!"b"))]) := by
    decide +kernel
  exact congrArg keyOf e

end Verif
