import Verif.Lemmas.Maintenance
import Verif.Props.Stability
import Verif.Props.Transaction

/-
C87: the maintenance programs that move expressions.
-/

namespace Verif
variable {x : Ext} {fs fs' : FS}

/-! ### The files -/

/-- **C87**, the files: when all the changes of a move have been made, the files of the texts that the removed expressions are *parsed as* do
not exist; every other file that is not one of a new expression is as before. -/
theorem C87_files {all : FS} {toRemove : List Str} {m : List (Str × Str)} {steps : List (FS → Except Err FS)}
    (hs : moveSteps x all toRemove m = .ok steps) (h : runSteps steps fs = (fs', none)) :
    (∀ o ∈ toRemove ++ m.map (·.1), ∃ k p q, keyText x o = .ok k ∧ pathOf x k true false = .ok p ∧ pathOf x k false false = .ok q ∧
      fsGet fs' p = none ∧ fsGet fs' q = none) ∧
    ∀ q, (∀ o ∈ toRemove ++ m.map (·.1), ∀ k d, keyText x o = .ok k → pathOf x k d false ≠ .ok q) →
      (∀ e ∈ m, ∀ k d, keyText x e.2 = .ok k → pathOf x k d true ≠ .ok q) → fsGet fs' q = fsGet fs q := by
  unfold moveSteps at hs
  obtain ⟨copies, hc, hs⟩ := bind_ok.1 hs
  rw [← pure_ok.1 hs] at h
  obtain ⟨f1, h1, h2⟩ := runSteps_append.1 h
  obtain ⟨i1, _, i3⟩ := dropAll_file h2
  refine ⟨i1, fun q hq hn => ?_⟩
  rw [i3 q hq]
  refine runSteps_inv (P := fun f => fsGet f q = fsGet fs q) ?_ h1 rfl
  intro s hm f f' hf hp
  obtain ⟨ss, hss, hm⟩ := List.mem_flatten.1 hm
  obtain ⟨e, he, hce⟩ := (mapM_mem hc).1 hss
  rw [copySteps_file hce (hn e he) s hm f f' hf, hp]

/-- **C87** is violated for every expression that is not written in its normal form, whatever the database and the parser: if the new
text is the one the parser gives, then after the move the files of the new text do not exist.  What was copied to them and what they
held before is lost. -/
theorem C87_lost {all : FS} {toRemove : List Str} {m : List (Str × Str)} {steps : List (FS → Except Err FS)} {s t : Str} {u v : Parsed}
    (hs : moveSteps x all toRemove m = .ok steps) (h : runSteps steps fs = (fs', none)) (he : (s, t) ∈ m) (hne : s ≠ [])
    (hu : x.parse s = .ok u) (ht : u.text = t) (hv : x.parse t = .ok v) (hvt : v.text = t) :
    ∃ p q, pathOf x t true true = .ok p ∧ pathOf x t false true = .ok q ∧ fsGet fs' p = none ∧ fsGet fs' q = none := by
  obtain ⟨k, p, q, hk, hp, hq, g1, g2⟩ := (C87_files hs h).1 s (List.mem_append_right _ (List.mem_map.2 ⟨_, he, rfl⟩))
  have hk' : keyText x s = .ok t := by
    unfold keyText
    rw [if_neg hne, hu, ← ht]
    rfl
  rw [hk] at hk'
  injection hk' with hk'
  subst hk'
  rw [pathOf_stable hv hvt] at hp hq
  exact ⟨p, q, hp, hq, g1, g2⟩

theorem toMigrate_mem {inst : Expr → List (Str × Str) → Str} {s t : Str} : ∀ {l : List Str} {m : List (Str × Str)},
    toMigrate inst l = .ok m → ((s, t) ∈ m ↔ s ∈ l ∧ normalText inst s = .ok (some t) ∧ t ≠ s)
  | [], m, h => by
    injection h with h
    subst h
    simp
  | a :: l, m, h => by
    unfold toMigrate at h
    obtain ⟨n, hn, h⟩ := bind_ok.1 h
    obtain ⟨r, hr, h⟩ := bind_ok.1 h
    have ih := toMigrate_mem (s := s) (t := t) hr
    have h := pure_ok.1 h
    cases n with
    | none =>
      simp only at h
      subst h
      rw [ih]
      constructor
      · exact fun ⟨h1, h2⟩ => ⟨by simp [h1], h2⟩
      · rintro ⟨h1, h2, h3⟩
        rcases List.mem_cons.1 h1 with rfl | h1
        · rw [hn] at h2; cases h2
        · exact ⟨h1, h2, h3⟩
    | some n =>
      simp only at h
      subst h
      have key : (s, t) ∈ (if n = a then r else (a, n) :: r) ↔ (s = a ∧ t = n ∧ n ≠ a) ∨ (s, t) ∈ r := by
        split
        · rename_i e; simp [e]
        · rename_i e; simp [e]
      rw [key, ih]
      constructor
      · rintro (⟨rfl, rfl, e⟩ | ⟨h1, h2⟩)
        · exact ⟨by simp, hn, e⟩
        · exact ⟨by simp [h1], h2⟩
      · rintro ⟨h1, h2, h3⟩
        rcases List.mem_cons.1 h1 with rfl | h1
        · rw [hn] at h2
          injection h2 with h2
          injection h2 with h2
          subst h2
          exact .inl ⟨rfl, rfl, h3⟩
        · exact .inr ⟨h1, h2, h3⟩

/-- What a successful transaction leaves in the working tree. -/
theorem Repo.transaction_work {r r' : Repo} {body : FS → FS × Option Err} {fault : Option Fault}
    (h : r.transaction body fault = (r', none)) : r'.work = (body r.work).1 ∧ (body r.work).2 = none := by
  unfold Repo.transaction at h
  split at h
  · cases h
  · simp only at h
    split at h
    · cases h
    · rename_i hb
      refine ⟨?_, hb⟩
      unfold Repo.exitCommit at h
      simp only at h
      split at h
      · injection h with h; rw [← h]
      · split at h
        · cases h
        · split at h
          · cases h
          · split at h
            · cases h
            · split at h
              · cases h
              · rename_i hc
                split at h
                · cases h
                · injection h with h
                  rw [← h]
                  unfold Repo.createCommit at hc
                  split at hc
                  · injection hc with hc; rw [← hc]
                  · cases hc

theorem normalizeDatabase_inv {inst : Expr → List (Str × Str) → Str} {dictionary : FS → Except Err Unit} {exists_ : Str → Bool}
    {r r' : Repo} {fault : Option Fault} (h : normalizeDatabase x inst dictionary exists_ r fault = (r', none)) :
    ∃ keys m steps, listKeys exists_ r.work none none = .ok keys ∧ toMigrate inst (dedupBy id keys) = .ok m ∧
      moveSteps x r.work [] m = .ok steps ∧ runSteps steps r.work = (r'.work, none) := by
  unfold normalizeDatabase at h
  simp only at h
  split at h
  · cases h
  · rename_i steps hp
    obtain ⟨_, _, hp⟩ := bind_ok.1 hp
    obtain ⟨_, _, hp⟩ := bind_ok.1 hp
    obtain ⟨_, _, hp⟩ := bind_ok.1 hp
    obtain ⟨keys, h1, hp⟩ := bind_ok.1 hp
    obtain ⟨m, h2, h3⟩ := bind_ok.1 hp
    obtain ⟨w, e⟩ := Repo.transaction_work h
    exact ⟨keys, m, steps, h1, h2, h3, Prod.ext w.symm e⟩

/-- **C87** is violated for every database by `normalize_database.py`: when it ends without error, every listed expression that is not in
its normal form and is not a word has lost everything that was stored for its normal form.  (Expressions that are keys, see C84.)  A file
that is not one of a normal form, like the one of the old text, is as before. -/
theorem C87_normalize_lost {instP : Expr → List (Str × Str) → Except Err Parsed} {digest : Str → Str} {inst : Expr → List (Str × Str) → Str}
    {dictionary : FS → Except Err Unit} {exists_ : Str → Bool} {r r' : Repo} {fault : Option Fault}
    (h : normalizeDatabase (readerExt instP digest) inst dictionary exists_ r fault = (r', none)) :
    (∀ keys s u, listKeys exists_ r.work none none = .ok keys → s ∈ keys → uslRead s = .ok (u, []) → (∀ w, u ≠ .word w) → u.Key → u.text ≠ s →
      ∃ p q, pathOf (readerExt instP digest) u.text true true = .ok p ∧ pathOf (readerExt instP digest) u.text false true = .ok q ∧
        fsGet r'.work p = none ∧ fsGet r'.work q = none) ∧
    ∀ q, (∀ t k d b, keyText (readerExt instP digest) t = .ok k → pathOf (readerExt instP digest) k d b ≠ .ok q) →
      fsGet r'.work q = fsGet r.work q := by
  obtain ⟨keys, m, steps, h1, h2, h3, h4⟩ := normalizeDatabase_inv h
  refine ⟨?_, fun q hq => ?_⟩
  · intro keys' s u hk hs hu hw hkey hne
    rw [h1] at hk
    injection hk with hk
    subst hk
    obtain ⟨v, p1, p2, _, p3, _⟩ := C84_key instP digest hu hkey
    have hn : normalText inst s = .ok (some u.text) := by
      unfold normalText
      rw [hu]
      cases u with
      | word w => exact absurd rfl (hw w)
      | script s => rfl
      | pm p => rfl
      | lexeme l => rfl
    have hm : (s, u.text) ∈ m := (toMigrate_mem h2).2 ⟨mem_dedup_id.2 hs, hn, hne⟩
    have hs0 : s ≠ [] := by
      rintro rfl
      unfold listKeys at h1
      simp only at h1
      split at h1
      · cases h1
      · injection h1 with h1
        rw [← h1] at hs
        simpa using (List.mem_filter.1 hs).2
    exact C87_lost h3 h4 hm hs0 p1 p2 (p2 ▸ p3) p2
  · exact (C87_files h3 h4).2 q (fun o _ k d hk => hq o k d false hk) fun e _ k d hk => hq e.2 k d true hk

/-- The digest used in the examples. -/
def shortDigest (s : Str) : Str := s.reverse.take 10

/-- The parser of the library, for expressions without decorations. -/
def realExt : Ext := readerExt (fun _ _ => .error .cannotParse) shortDigest

/-- A database of an earlier version of the library, where the sum of `A:` and `U:` was not written `O:`; `O:` has a comment. -/
def oldFs : FS :=
  [(c!"morpheme/paradigm/A:+U:.desc", c!"\"A:+U:\" fr translations \"virtuel\"\n"),
   (c!"morpheme/paradigm/O:.desc", c!"\"O:\" fr comments \"pôle\"\n"),
   (c!"morpheme/paradigm/M:.ieml", c!"\"M:\" is_root \"True\"\n")]

def oldRepo : Repo := { commits := [⟨oldFs, []⟩], head := 0, index := oldFs, work := oldFs }

/-- **C87** is violated: after `normalize_database.py` the translation of `A:+U:` is still under the old text, and the comment of `O:` is
lost. -/
theorem C87_violated :
    normalText (fun _ _ => []) (c!"A:+U:") = .ok (some (c!"O:")) ∧
    (normalizeDatabase realExt (fun _ _ => []) (fun _ => .ok ()) (fun _ => true) oldRepo none).2 = none ∧
    (normalizeDatabase realExt (fun _ _ => []) (fun _ => .ok ()) (fun _ => true) oldRepo none).1.work =
      [(c!"morpheme/paradigm/A:+U:.desc", c!"\"A:+U:\" fr translations \"virtuel\"\n"),
       (c!"morpheme/paradigm/M:.ieml", c!"\"M:\" is_root \"True\"\n")] := by
  decide +kernel

/-! ### When the texts are in their normal form -/

/-- What a move should do: the expressions that share a file with an expression of `olds` have nothing left; to the descriptors and the
settings of each other expression are added those of the expressions moved to it. -/
def MovedTo (x : Ext) (fs fs' : FS) (olds : List Str) (m : List (Str × Str)) : Prop :=
  (∀ l ∈ languages, ∀ d ∈ descriptorClasses, ∃ vals : Str → List Str, (∀ k, getValues fs k l d = .ok (vals k)) ∧ ∀ k,
    ((∃ o ∈ olds, pathOf x k true true = pathOf x o true true) → getValues fs' k l d = .ok []) ∧
    ((∀ o ∈ olds, pathOf x k true true ≠ pathOf x o true true) →
      getValues fs' k l d = .ok (vals k ++ m.flatMap fun e => if k = e.2 then cleaned (vals e.1) else []))) ∧
  ∀ a ∈ structureKeys, ∃ vals : Str → List Str, (∀ k, structureValues fs k a = .ok (vals k)) ∧ ∀ k,
    ((∃ o ∈ olds, pathOf x k false true = pathOf x o false true) → structureValues fs' k a = .ok []) ∧
    ((∀ o ∈ olds, pathOf x k false true ≠ pathOf x o false true) →
      structureValues fs' k a = .ok (vals k ++ m.flatMap fun e => if k = e.2 then vals e.1 else []))

/-- The flags of the database are `True` or `False`. -/
def PlainFlags (fs : FS) : Prop := ∀ k a vs, a ∈ structureKeys → a ≠ c!"inhibition" → structureValues fs k a = .ok vs →
  ∀ v ∈ vs, v = c!"True" ∨ v = c!"False"

/-- There is a setting of an expression that does not share its file with one of `olds`. -/
def SettingLeft (x : Ext) (fs : FS) (olds : List Str) : Prop := ∃ k a v vs, a ∈ structureKeys ∧ structureValues fs k a = .ok (v :: vs) ∧
  ∀ o ∈ olds, pathOf x k false true ≠ pathOf x o false true

theorem moved_start {sdb : List (Str × List Setting)} {olds : List Str} (g : SHolds x fs sdb) (hf : PlainFlags fs)
    (hl : SettingLeft x fs olds) : allSettings sdb ≠ [] ∧ FlagsPlain (allSettings sdb) ∧
      ∃ k a, settingValues (allSettings sdb) k a ≠ [] ∧ ∀ o ∈ olds, pathOf x k false true ≠ pathOf x o false true := by
  obtain ⟨k, a, v, vs, ha, hv, ho⟩ := hl
  have hne : allSettings sdb ≠ [] := by
    intro hc
    unfold structureValues Verif.getStructure at hv
    have e1 : (fs.filter fun f => endsWith f.1 (c!".ieml")).flatMap (·.2) = sRender (allSettings sdb) := by
      rw [g.files']
      unfold sRender allSettings
      rw [List.flatMap_map, List.flatMap_assoc]
    rw [e1, hc] at hv
    cases hv
  refine ⟨hne, fun e he hi => ?_, k, a, ?_, ho⟩
  · obtain ⟨F, hF, he'⟩ := List.mem_flatMap.1 (show e ∈ sdb.flatMap (·.2) from he)
    have ha := (g.fits F hF e he').attr
    refine hf e.key e.attr _ ha hi (g.values hne ha) _ ?_
    unfold settingValues
    exact List.mem_map.2 ⟨e, List.mem_filter.2 ⟨he, by simp⟩, rfl⟩
  · rw [g.values hne ha] at hv
    injection hv with hv
    rw [hv]
    simp

theorem moved_end {fs fs' : FS} {db db' : List (Str × List Entry)} {sdb sdb' : List (Str × List Setting)} {olds : List Str}
    {m : List (Str × Str)} (h : Holds x fs db) (g : SHolds x fs sdb) (h' : Holds x fs' db') (g' : SHolds x fs' sdb')
    (hne : allSettings sdb ≠ [])
    (hk : ∃ k a, settingValues (allSettings sdb) k a ≠ [] ∧ ∀ o ∈ olds, pathOf x k false true ≠ pathOf x o false true)
    (hv : ∀ k l d, ((∃ o ∈ olds, pathOf x k true true = pathOf x o true true) → storedValues (allEntries db') k l d = []) ∧
        ((∀ o ∈ olds, pathOf x k true true ≠ pathOf x o true true) → storedValues (allEntries db') k l d =
          storedValues (allEntries db) k l d ++ m.flatMap fun e => if k = e.2 then cleaned (storedValues (allEntries db) e.1 l d) else []))
    (hw : ∀ k a, ((∃ o ∈ olds, pathOf x k false true = pathOf x o false true) → settingValues (allSettings sdb') k a = []) ∧
        ((∀ o ∈ olds, pathOf x k false true ≠ pathOf x o false true) → settingValues (allSettings sdb') k a =
          settingValues (allSettings sdb) k a ++ m.flatMap fun e => if k = e.2 then settingValues (allSettings sdb) e.1 a else [])) :
    MovedTo x fs fs' olds m := by
  have hne' : allSettings sdb' ≠ [] := by
    obtain ⟨k, a, h1, h2⟩ := hk
    intro hc
    have := (hw k a).2 h2
    rw [hc] at this
    have : settingValues (allSettings sdb) k a = [] := (List.append_eq_nil_iff.1 this.symm).1
    exact h1 this
  refine ⟨fun l hl d hd => ⟨fun k => storedValues (allEntries db) k l d, fun k => h.getValues hl hd, fun k => ?_⟩,
    fun a ha => ⟨fun k => settingValues (allSettings sdb) k a, fun k => g.values hne ha, fun k => ?_⟩⟩
  · rw [h'.getValues hl hd]
    exact ⟨fun e => by rw [(hv k l d).1 e], fun e => by rw [(hv k l d).2 e]⟩
  · rw [g'.values hne' ha]
    exact ⟨fun e => by rw [(hw k a).1 e], fun e => by rw [(hw k a).2 e]⟩

/-- **C87** (part) for `normalize_database.py`, `rewrite_words.py` and `remove_usl.py`, in a consistent database: when the old texts and the
new ones are in the form the parser gives them, all the changes are made without error; what was stored for the old expressions is
added to the new ones (without surrounding blanks), the old expressions have nothing left, and the others are unchanged.  Missing: the
old texts that the parser changes, for which the claim is false (`C87_lost`, `C87_normalize_lost`); an expression that is both a new and an
old one (`C87_violated_chain`). -/
theorem C87_moved_partial {toRemove : List Str} {m : List (Str × Str)} (hc : Consistent x fs) (hsc : SConsistent x fs) (hf : PlainFlags fs)
    (hl : SettingLeft x fs (toRemove ++ m.map (·.1))) (ho : ∀ o ∈ toRemove ++ m.map (·.1), x.Keeps o) (hn : ∀ e ∈ m, x.Keeps e.2) :
    ∃ steps fs', moveSteps x fs toRemove m = .ok steps ∧ runSteps steps fs = (fs', none) ∧ Consistent x fs' ∧ SConsistent x fs' ∧
      MovedTo x fs fs' (toRemove ++ m.map (·.1)) m := by
  obtain ⟨db, h⟩ := hc
  obtain ⟨sdb, g⟩ := hsc
  obtain ⟨hne, hfl, hk⟩ := moved_start g hf hl
  obtain ⟨s1, f1, d1, t1, e1, r1, h1, g1, v1, w1⟩ := copies_run h g hne hfl m hn h g
  obtain ⟨f2, d2, t2, r2, h2, g2, v2, w2⟩ := drops_run (b := false) _ ho h1 g1
  refine ⟨_, f2, by unfold moveSteps; rw [e1]; rfl, runSteps_append.2 ⟨f1, r1, r2⟩, ⟨_, h2⟩, ⟨_, g2⟩, moved_end h g h2 g2 hne hk ?_ ?_⟩
  · exact fun k l d => ⟨(v2 k l d).1, fun e => by rw [(v2 k l d).2 e, v1]⟩
  · exact fun k a => ⟨(w2 k a).1, fun e => by rw [(w2 k a).2 e, w1]⟩

/-- **C87** (part) for `factorize_db.py`, when moreover no new expression has the file of an old one. -/
theorem C87_factorize_partial {m : List (Str × Str)} (hc : Consistent x fs) (hsc : SConsistent x fs) (hf : PlainFlags fs)
    (hl : SettingLeft x fs (m.map (·.1))) (ho : ∀ e ∈ m, x.Keeps e.1 ∧ x.Keeps e.2)
    (hd : ∀ e ∈ m, ∀ e' ∈ m, ∀ d, pathOf x e.2 d true ≠ pathOf x e'.1 d true) :
    ∃ steps fs', factorizeSteps x fs m = .ok steps ∧ runSteps steps fs = (fs', none) ∧ Consistent x fs' ∧ SConsistent x fs' ∧
      MovedTo x fs fs' (m.map (·.1)) m := by
  obtain ⟨db, h⟩ := hc
  obtain ⟨sdb, g⟩ := hsc
  obtain ⟨hne, hfl, hk⟩ := moved_start g hf hl
  obtain ⟨s1, f1, d1, t1, e1, r1, h1, g1, v1, w1⟩ := moves_run h g hne hfl m ho hd h g
  exact ⟨_, f1, by unfold factorizeSteps; rw [e1]; rfl, r1, ⟨_, h1⟩, ⟨_, g1⟩, moved_end h g h1 g1 hne hk v1 w1⟩

/-- **C87** (part): an expression moved to one that is not in a removed file arrives there: each of its values is a value of the new
expression. -/
theorem C87_arrives_partial {olds : List Str} {m : List (Str × Str)} {fs fs' : FS} (h : MovedTo x fs fs' olds m) {o n : Str} (he : (o, n) ∈ m)
    (hn : ∀ k ∈ olds, ∀ d, pathOf x n d true ≠ pathOf x k d true) :
    (∀ l ∈ languages, ∀ d ∈ descriptorClasses, ∃ vs ws, getValues fs o l d = .ok vs ∧ getValues fs' n l d = .ok ws ∧
      ∀ v ∈ vs, strip v ≠ [] → strip v ∈ ws) ∧
    ∀ a ∈ structureKeys, ∃ vs ws, structureValues fs o a = .ok vs ∧ structureValues fs' n a = .ok ws ∧ ∀ v ∈ vs, v ∈ ws := by
  refine ⟨fun l hl d hd => ?_, fun a ha => ?_⟩
  · obtain ⟨vals, h1, h2⟩ := h.1 l hl d hd
    refine ⟨_, _, h1 o, (h2 n).2 fun k hk => hn k hk true, fun v hv hne => List.mem_append_right _ (List.mem_flatMap.2 ⟨_, he, ?_⟩)⟩
    simp only [if_true]
    unfold cleaned
    simp only [List.mem_filter, List.mem_map]
    exact ⟨⟨v, hv, rfl⟩, by simpa using hne⟩
  · obtain ⟨vals, h1, h2⟩ := h.2 a ha
    refine ⟨_, _, h1 o, (h2 n).2 fun k hk => hn k hk false, fun v hv => List.mem_append_right _ (List.mem_flatMap.2 ⟨_, he, ?_⟩)⟩
    simpa using hv

/-- **C87** (part) for the whole of `normalize_database.py`, in a clean repository. -/
theorem C87_normalize_partial {inst : Expr → List (Str × Str) → Str} {dictionary : FS → Except Err Unit} {exists_ : Str → Bool}
    {r : Repo} {keys : List Str} {m : List (Str × Str)} (hr : r.Clean) (hc : Consistent x r.work) (hsc : SConsistent x r.work)
    (hf : PlainFlags r.work) (hl : SettingLeft x r.work (m.map (·.1))) (hd : dictionary r.work = .ok ())
    (hk : listKeys exists_ r.work none none = .ok keys) (hm : toMigrate inst (dedupBy id keys) = .ok m)
    (ho : ∀ e ∈ m, x.Keeps e.1 ∧ x.Keeps e.2) :
    ∃ r', normalizeDatabase x inst dictionary exists_ r none = (r', none) ∧ r'.Clean ∧ MovedTo x r.work r'.work (m.map (·.1)) m := by
  obtain ⟨steps, fs', e1, e2, _, _, hmv⟩ := C87_moved_partial (toRemove := []) (m := m) hc hsc hf hl
    (fun o h => by obtain ⟨e, he, rfl⟩ := List.mem_map.1 h; exact (ho e he).1) fun e he => (ho e he).2
  have hds : ∃ u, getDescriptors r.work = .ok u := by
    obtain ⟨db, h⟩ := hc
    exact ⟨_, h.getDescriptors⟩
  have hst : ∃ u, getStructure r.work = .ok u := by
    obtain ⟨sdb, g⟩ := hsc
    exact ⟨_, g.getStructure (moved_start g hf hl).1⟩
  obtain ⟨u, hu⟩ := hds
  obtain ⟨v, hv⟩ := hst
  have key : normalizeDatabase x inst dictionary exists_ r none = r.transaction (runSteps steps) none := by
    unfold normalizeDatabase
    simp only [hu, hv, hd, hk, hm, e1, bind, Except.bind]
  have hb : (runSteps steps r.work).2 = none := by rw [e2]
  rw [key]
  by_cases hw : ∀ p, Visible p → fsGet (runSteps steps r.work).1 p = fsGet r.work p
  · refine ⟨_, C36_nothing hr hb hw, ?_, by rw [e2]; exact hmv⟩
    intro p hp
    have := hr p hp
    exact ⟨this.1, by simp only; rw [hw p hp]; exact this.2⟩
  · simp only [not_forall] at hw
    obtain ⟨q, hq, hw⟩ := hw
    obtain ⟨r', tree, i1, -, -, i2, -, i3, -⟩ := C36_commit hr hb hq hw
    exact ⟨r', i1, i3, by rw [i2, e2]; exact hmv⟩

/-- **C87**, error branch: when `normalize_database.py` stops with an error, whatever the point, the current commit and the visible files
are as before. -/
theorem C87_stopped {inst : Expr → List (Str × Str) → Str} {dictionary : FS → Except Err Unit} {exists_ : Str → Bool}
    {r r' : Repo} {fault : Option Fault} {e : Err} (hv : r.Valid) (h : normalizeDatabase x inst dictionary exists_ r fault = (r', some e)) :
    r'.head = r.head ∧ r'.headTree = r.headTree ∧
      ∀ p, Visible p → fsGet r'.index p = fsGet r.index p ∧ fsGet r'.work p = fsGet r.work p := by
  have same : ∀ {r' : Repo}, r = r' → r'.head = r.head ∧ r'.headTree = r.headTree ∧
      ∀ p, Visible p → fsGet r'.index p = fsGet r.index p ∧ fsGet r'.work p = fsGet r.work p := by
    rintro _ rfl
    exact ⟨rfl, rfl, fun _ _ => ⟨rfl, rfl⟩⟩
  unfold normalizeDatabase at h
  simp only at h
  split at h
  · injection h with h1 _
    exact same h1
  · rename_i steps _
    by_cases hc : r.Clean
    · have hf : (∃ e, (runSteps steps r.work).2 = some e) ∨ ((runSteps steps r.work).2 = none ∧ fault ≠ none ∧
          ∃ q, Visible q ∧ fsGet (runSteps steps r.work).1 q ≠ fsGet r.work q) := by
        cases hb : (runSteps steps r.work).2 with
        | some e => exact .inl ⟨e, rfl⟩
        | none =>
          right
          by_cases hw : ∀ p, Visible p → fsGet (runSteps steps r.work).1 p = fsGet r.work p
          · rw [C36_nothing hc hb hw] at h
            cases h
          · simp only [not_forall] at hw
            obtain ⟨q, hq, hw⟩ := hw
            refine ⟨rfl, ?_, q, hq, hw⟩
            rintro rfl
            obtain ⟨r'', _, i1, _⟩ := C36_commit hc hb hq hw
            rw [i1] at h
            cases h
      obtain ⟨r'', _, i1, _, i2, _, i3, i4⟩ := C36_rollback_partial hv hc hf
      rw [i1] at h
      injection h with h1 _
      subst h1
      exact ⟨i2, i3, i4⟩
    · rw [C36_refused _ _ hc] at h
      injection h with h1 _
      exact same h1

/-! ### The hypotheses are met -/

theorem dictFs_flags : PlainFlags dictFs := by
  intro k a vs ha hi hv v hm
  rw [dictFs_sholds.values (by decide) ha] at hv
  injection hv with hv
  subst hv
  obtain ⟨e, he, rfl⟩ := List.mem_map.1 hm
  obtain ⟨he, hp⟩ := List.mem_filter.1 he
  have hp : e.key = k ∧ e.attr = a := by simpa using hp
  rw [← hp.2] at hi
  exact (by decide : ∀ e ∈ allSettings dictSdb, e.attr ≠ c!"inhibition" → e.value = c!"True" ∨ e.value = c!"False") e he hi

theorem dictFs_left : SettingLeft dictExt dictFs [c!"O:", c!"S:+B:"] :=
  ⟨c!"M:", c!"is_root", c!"True", [], by decide, by decide +kernel, by
    intro o ho
    simp only [List.mem_cons, List.not_mem_nil, or_false] at ho
    rcases ho with rfl | rfl <;> decide +kernel⟩

theorem dict_keeps {k : Str} (h : (k == [] || keyText dictExt k != .ok k || k.contains '\n' || k.contains '\r' || k.contains '"') = false) :
    dictExt.Keeps k := by
  simp only [Bool.or_eq_false_iff, beq_eq_false_iff_ne, bne_eq_false_iff_eq] at h
  obtain ⟨⟨⟨⟨h1, h2⟩, h3⟩, h4⟩, h5⟩ := h
  refine ⟨h1, h2, ⟨?_, ?_⟩, ?_⟩
  · intro hc; rw [List.contains_iff_mem.2 hc] at h3; cases h3
  · intro hc; rw [List.contains_iff_mem.2 hc] at h4; cases h4
  · intro hc; rw [List.contains_iff_mem.2 hc] at h5; cases h5

/-- `O:` is removed and `S:+B:` is moved to `S:+T:`. -/
example : ∃ steps fs', moveSteps dictExt dictFs [c!"O:"] [(c!"S:+B:", c!"S:+T:")] = .ok steps ∧ runSteps steps dictFs = (fs', none) ∧
    Consistent dictExt fs' ∧ SConsistent dictExt fs' ∧ MovedTo dictExt dictFs fs' [c!"O:", c!"S:+B:"] [(c!"S:+B:", c!"S:+T:")] := by
  refine C87_moved_partial dictFs_consistent dictFs_sconsistent dictFs_flags dictFs_left ?_ ?_
  · intro o ho
    simp only [List.map_cons, List.map_nil, List.cons_append, List.nil_append, List.mem_cons, List.not_mem_nil, or_false] at ho
    rcases ho with rfl | rfl <;> exact dict_keeps (by decide +kernel)
  · intro e he
    simp only [List.mem_cons, List.not_mem_nil, or_false] at he
    subst he
    exact dict_keeps (by decide +kernel)

/-- `S:+B:` is moved to `S:+T:` and `O:` to `A:`. -/
example : ∃ steps fs', factorizeSteps dictExt dictFs [(c!"O:", c!"A:"), (c!"S:+B:", c!"S:+T:")] = .ok steps ∧
    runSteps steps dictFs = (fs', none) ∧ Consistent dictExt fs' ∧ SConsistent dictExt fs' ∧
    MovedTo dictExt dictFs fs' [c!"O:", c!"S:+B:"] [(c!"O:", c!"A:"), (c!"S:+B:", c!"S:+T:")] := by
  refine C87_factorize_partial dictFs_consistent dictFs_sconsistent dictFs_flags dictFs_left ?_ ?_
  · intro e he
    simp only [List.mem_cons, List.not_mem_nil, or_false] at he
    rcases he with rfl | rfl <;> exact ⟨dict_keeps (by decide +kernel), dict_keeps (by decide +kernel)⟩
  · intro e he e' he' d
    simp only [List.mem_cons, List.not_mem_nil, or_false] at he he'
    cases d <;> rcases he with rfl | rfl <;> rcases he' with rfl | rfl <;> decide +kernel

/-- The files left by a move, or the error. -/
def moveFiles (x : Ext) (fs : FS) (toRemove : List Str) (m : List (Str × Str)) : FS × Option Err :=
  match moveSteps x fs toRemove m with
  | .error e => (fs, some e)
  | .ok steps => runSteps steps fs

/-- **C87** is violated when an expression is both moved and the target of a move: `S:+B:` is moved to `M:` and `M:` to `O:`, and what
was stored for `S:+B:` is lost. -/
theorem C87_violated_chain :
    moveFiles dictExt dictFs [] [(c!"S:+B:", c!"M:"), (c!"M:", c!"O:")] =
      ([(c!"morpheme/paradigm/O:.desc",
          c!"\"O:\" fr translations \"virtuel actuel\"\n\"O:\" en comments \"three\"\n\"O:\" fr translations \"signe etre chose\"\n"),
        (c!"morpheme/paradigm/O:.ieml", c!"\"O:\" is_root \"True\"\n\"O:\" inhibition \"twin\"\n\"O:\" is_root \"True\"\n")], none) := by
  decide +kernel

/-- A word with an empty role, and a root. -/
def longWord : Str := c!"[! E:T:. ()(b.-) > E:.n.- ()]"

def wordFs : FS :=
  [(c!"word/singular/[! E:T:. (/[! E:T:. ()(b.-) > E:.n.- ()].desc", c!"\"[! E:T:. ()(b.-) > E:.n.- ()]\" fr translations \"mot\"\n"),
   (c!"morpheme/paradigm/M:.ieml", c!"\"M:\" is_root \"True\"\n")]

theorem wordFs_holds : Holds realExt wordFs [(c!"word/singular/[! E:T:. (/[! E:T:. ()(b.-) > E:.n.- ()].desc", [⟨longWord, c!"fr", c!"translations", c!"mot"⟩])] := by
  refine ⟨by decide +kernel, by decide +kernel, ?_, ?_⟩
  · intro f hf e he
    simp only [List.mem_cons, List.not_mem_nil, or_false] at hf
    subst hf
    simp only [List.mem_cons, List.not_mem_nil, or_false] at he
    subst he
    constructor <;> decide
  · decide +kernel

theorem wordFs_sholds : SHolds realExt wordFs [(c!"morpheme/paradigm/M:.ieml", [⟨c!"M:", c!"is_root", c!"True"⟩])] := by
  refine ⟨by decide +kernel, by decide +kernel, ?_, ?_⟩
  · intro f hf e he
    simp only [List.mem_cons, List.not_mem_nil, or_false] at hf
    subst hf
    simp only [List.mem_cons, List.not_mem_nil, or_false] at he
    subst he
    constructor <;> decide
  · decide +kernel

theorem real_keeps {k : Str} (h : (k == [] || keyText realExt k != .ok k || k.contains '\n' || k.contains '\r' || k.contains '"') = false) :
    realExt.Keeps k := by
  simp only [Bool.or_eq_false_iff, beq_eq_false_iff_ne, bne_eq_false_iff_eq] at h
  obtain ⟨⟨⟨⟨h1, h2⟩, h3⟩, h4⟩, h5⟩ := h
  refine ⟨h1, h2, ⟨?_, ?_⟩, ?_⟩
  · intro hc; rw [List.contains_iff_mem.2 hc] at h3; cases h3
  · intro hc; rw [List.contains_iff_mem.2 hc] at h4; cases h4
  · intro hc; rw [List.contains_iff_mem.2 hc] at h5; cases h5

/-- With the parser of the library, `normalize_database.py` moves a word to its simplified form. -/
example : ∃ r', normalizeDatabase realExt (fun _ _ => []) (fun _ => .ok ()) (fun _ => true) ⟨[⟨wordFs, []⟩], 0, wordFs, wordFs⟩ none = (r', none) ∧
    r'.Clean ∧ MovedTo realExt wordFs r'.work [longWord] [(longWord, c!"[! E:T:. ()(b.-)]")] := by
  refine C87_normalize_partial (x := realExt) (r := ⟨[⟨wordFs, []⟩], 0, wordFs, wordFs⟩) (keys := [longWord])
    (m := [(longWord, c!"[! E:T:. ()(b.-)]")]) (fun p _ => ⟨rfl, rfl⟩) ⟨_, wordFs_holds⟩ ⟨_, wordFs_sholds⟩ ?_ ?_ rfl ?_ ?_ ?_
  · intro k a vs ha hi hv v hm
    rw [wordFs_sholds.values (by decide) ha] at hv
    injection hv with hv
    subst hv
    obtain ⟨e, he, rfl⟩ := List.mem_map.1 hm
    have he := (List.mem_filter.1 he).1
    simp only [allSettings, List.flatMap_cons, List.flatMap_nil, List.append_nil, List.mem_cons, List.not_mem_nil, or_false] at he
    subst he
    exact .inl rfl
  · refine ⟨c!"M:", c!"is_root", c!"True", [], by decide, by decide +kernel, ?_⟩
    intro o ho
    simp only [List.map_cons, List.map_nil, List.mem_cons, List.not_mem_nil, or_false] at ho
    subst ho
    decide +kernel
  · decide +kernel
  · decide +kernel
  · intro e he
    simp only [List.mem_cons, List.not_mem_nil, or_false] at he
    subst he
    exact ⟨real_keeps (by decide +kernel), real_keeps (by decide +kernel)⟩

/-- The program stops while committing; or because there is no setting at all. -/
example : (normalizeDatabase realExt (fun _ _ => []) (fun _ => .ok ()) (fun _ => true) oldRepo (some .beforeWrite)).2 = some .gitError ∧
    (normalizeDatabase realExt (fun _ _ => []) (fun _ => .ok ()) (fun _ => true) ⟨[⟨[], []⟩], 0, [], []⟩ none).2 ≠ none := by
  decide +kernel

end Verif
