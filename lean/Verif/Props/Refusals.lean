import Verif.Model.Cache
import Verif.Model.FromPaths
import Verif.Model.Git
import Verif.Lemmas.Except
import Verif.Lemmas.SFun

/-
Error branches of claims whose main theorems are elsewhere.
-/

namespace Verif

/-! ### One expression in a file (C37) -/

/-- **C37** A version of a file is accepted in a conflict exactly when it has records and all have the same key; else `ValueError` is
raised.  The values are those of the records, for each descriptor and language. -/
theorem C37_unique {s : Str} {rows : List (Str × Str × Str × Str)} (h : fromCsv s = .ok rows) :
    (∀ k v, uniqueDescriptor s = .ok (k, v) ↔ rows ≠ [] ∧ (∀ r ∈ rows, r.1 = k) ∧
      v = fun d l => (rows.filter fun r => r.2.1 = l ∧ r.2.2.1 = d).map (·.2.2.2)) ∧
    (∀ e, uniqueDescriptor s = .error e ↔ e = .valueError ∧ ∀ k, rows = [] ∨ ∃ r ∈ rows, r.1 ≠ k) := by
  have one : ∀ k, dedupBy id (rows.map (·.1)) = [k] ↔ rows ≠ [] ∧ ∀ r ∈ rows, r.1 = k := by
    intro k
    constructor
    · intro hk
      refine ⟨fun hn => ?_, fun r hr => ?_⟩
      · subst hn; cases hk
      · have : r.1 ∈ dedupBy id (rows.map (·.1)) := mem_dedupId.2 (List.mem_map_of_mem hr)
        rw [hk] at this
        exact List.mem_singleton.1 this
    · rintro ⟨h1, h2⟩
      refine dedup_single ?_ (by simpa using h1)
      intro x hx
      obtain ⟨r, hr, rfl⟩ := List.mem_map.1 hx
      exact h2 r hr
  by_cases hk : ∃ k, dedupBy id (rows.map (·.1)) = [k]
  · obtain ⟨k, hk⟩ := hk
    have hu : uniqueDescriptor s = .ok (k, fun d l => (rows.filter fun r => r.2.1 = l ∧ r.2.2.1 = d).map (·.2.2.2)) := by
      unfold uniqueDescriptor
      rw [h]
      simp only [bind, Except.bind, hk, pure, Except.pure]
    obtain ⟨h1, h2⟩ := (one k).1 hk
    rw [hu]
    constructor
    · intro k' v
      rw [Except.ok.injEq, Prod.mk.injEq]
      constructor
      · rintro ⟨rfl, rfl⟩
        exact ⟨h1, h2, rfl⟩
      · rintro ⟨_, h3, rfl⟩
        obtain ⟨r, hr⟩ := List.exists_mem_of_ne_nil _ h1
        exact ⟨(h2 r hr).symm.trans (h3 r hr), rfl⟩
    · intro e
      constructor
      · intro h; cases h
      · rintro ⟨_, h3⟩
        rcases h3 k with h3 | ⟨r, hr, h3⟩
        · exact absurd h3 h1
        · exact absurd (h2 r hr) h3
  · have hu : uniqueDescriptor s = .error .valueError := by
      unfold uniqueDescriptor
      rw [h]
      simp only [bind, Except.bind]
      split
      · exact absurd ⟨_, by assumption⟩ hk
      · rfl
    rw [hu]
    constructor
    · intro k v
      constructor
      · intro h; cases h
      · rintro ⟨h1, h2, _⟩
        exact absurd ⟨k, (one k).2 ⟨h1, h2⟩⟩ hk
    · intro e
      rw [Except.error.injEq]
      constructor
      · rintro rfl
        refine ⟨rfl, fun k => ?_⟩
        by_cases h1 : rows = []
        · exact .inl h1
        · right
          by_contra hn
          refine hk ⟨k, (one k).2 ⟨h1, fun r hr => ?_⟩⟩
          by_contra h2
          exact hn ⟨r, hr, h2⟩
      · rintro ⟨rfl, _⟩
        rfl

-- Two keys in one file.
example : ∃ rows, fromCsv (c!"\"A:\" fr comments \"a\"\n\"B:\" fr comments \"b\"\n") = .ok rows ∧ rows.map (·.1) = [c!"A:", c!"B:"] :=
  ⟨[(c!"A:", c!"fr", c!"comments", c!"a"), (c!"B:", c!"fr", c!"comments", c!"b")], by decide +kernel, rfl⟩

/-! ### What the list holds (C40) -/

/-- **C40** The list holds the stored records whose key is read, in the order of the files, and no other. -/
theorem C40_listed {x : Ext} {fs : FS} {L : List (Str × Str × Str × Str)} (h : listDescriptors x fs = .ok L) :
    ∃ rows, getDescriptors fs = .ok rows ∧ L.Sublist rows ∧
      ∀ r, ((∃ u, x.parse r.1 = .ok u) → L.count r = rows.count r) ∧ ((∃ e, x.parse r.1 = .error e) → r ∉ L) := by
  obtain ⟨rows, h1, h2⟩ := bind_ok.1 h
  rw [pure_ok] at h2
  subst h2
  refine ⟨rows, h1, List.filter_sublist, fun r => ⟨?_, ?_⟩⟩
  · rintro ⟨u, hu⟩
    exact List.count_filter (by simp only [hu])
  · rintro ⟨e, he⟩ hm
    have := (List.mem_filter.1 hm).2
    simp only [he, Bool.false_eq_true] at this

-- A key that is not read is not listed.
example : listDescriptors ⟨fun t => if t = c!"A:" then .ok ⟨t, .morpheme, true⟩ else .error .cannotParse, id⟩
    [(c!"morpheme/singular/A/A.desc", c!"\"A:\" fr comments \"a\"\n\"x\" fr comments \"b\"\n")] = .ok [(c!"A:", c!"fr", c!"comments", c!"a")] := by
  decide +kernel

/-! ### Mixed paths (C51) -/

/-- The class of the steps under a bin. -/
def Bin.cls : Bin → Option PClass
  | .mk t _ _ => t

/-- The bin under a step, after `recursive_group_by`. -/
def Bin.stored (kids : List (Step × Bin)) (s : Step) (p : Path) (v : List Expr) : Except Err Bin :=
  match p with
  | [] => pure (((dictGet Step.text s kids).getD Bin.empty).setNode v)
  | _ :: _ => ((dictGet Step.text s kids).getD Bin.empty).group p v

theorem group_none (n : Option (List Expr)) (kids : List (Step × Bin)) (s : Step) (p : Path) (v : List Expr) :
    Bin.group (.mk none n kids) (s :: p) v = (Bin.stored kids s p v >>= fun b => pure (Bin.mk (some s.cls) n (dictSet Step.text s b kids))) := by
  conv_lhs => unfold Bin.group
  cases p <;> rfl

theorem group_some (c : PClass) (n : Option (List Expr)) (kids : List (Step × Bin)) (s : Step) (p : Path) (v : List Expr) :
    Bin.group (.mk (some c) n kids) (s :: p) v = if s.isInstance c then
      (Bin.stored kids s p v >>= fun b => pure (Bin.mk (some c) n (dictSet Step.text s b kids))) else .error .valueError := by
  conv_lhs => unfold Bin.group
  dsimp only
  split
  · cases p <;> rfl
  · rfl

theorem bind_inv_err {α β : Type} {x : Except Err α} {f : α → Except Err β} {e : Err} (h : (x >>= f) = .error e) :
    x = .error e ∨ ∃ a, x = .ok a ∧ f a = .error e := by
  cases x with
  | error e' => cases h; exact .inl rfl
  | ok a => exact .inr ⟨a, rfl, h⟩

theorem group_error {b : Bin} {e : Err} : ∀ {p : Path} {v : List Expr}, p ≠ [] → b.group p v = .error e → e = .valueError := by
  intro p
  induction p generalizing b with
  | nil => intro v h; exact absurd rfl h
  | cons s p ih =>
    intro v _ h
    obtain ⟨t, n, kids⟩ := b
    have below : ∀ {c : PClass}, (Bin.stored kids s p v >>= fun b => pure (Bin.mk (some c) n (dictSet Step.text s b kids))) = Except.error e →
        e = .valueError := by
      intro c h
      rcases bind_inv_err h with h | ⟨b', h2, h⟩
      · cases p with
        | nil => cases h
        | cons q p => exact ih (by simp) h
      · cases h
    cases t with
    | none => exact below (group_none .. ▸ h)
    | some c =>
      rw [group_some] at h
      split at h
      · exact below h
      · cases h; rfl

theorem group_cls {b b' : Bin} {s : Step} {p : Path} {v : List Expr} (h : b.group (s :: p) v = .ok b') :
    (b.cls = none ∧ b'.cls = some s.cls) ∨ ∃ c, b.cls = some c ∧ b'.cls = some c ∧ (c = .usl ∨ s.cls = c) := by
  obtain ⟨t, n, kids⟩ := b
  cases t with
  | none =>
    rw [group_none] at h
    obtain ⟨ch, h2, h⟩ := bind_ok.1 h
    rw [pure_ok] at h
    subst h
    exact .inl ⟨rfl, rfl⟩
  | some d =>
    right
    rw [group_some] at h
    split at h
    · rename_i hi
      obtain ⟨ch, h2, h⟩ := bind_ok.1 h
      rw [pure_ok] at h
      subst h
      refine ⟨d, rfl, rfl, ?_⟩
      simpa [Step.isInstance] using hi
    · cases h

theorem groups_cls {ord : List Expr → List Expr} : ∀ {d : List (Path × List Expr)} {b b' : Bin} {c : PClass},
    d.foldlM (fun b e => b.group e.1 (ord e.2)) b = .ok b' → b.cls = some c → c ≠ .usl → ∀ e ∈ d, ∃ s p, e.1 = s :: p ∧ s.cls = c
  | [], _, _, _, _, _, _ => by simp
  | (p, v) :: d, b, b', c, h, hb, hc => by
    rw [List.foldlM_cons] at h
    obtain ⟨b₁, h1, h2⟩ := bind_ok.1 h
    cases p with
    | nil =>
      obtain ⟨t, n, kids⟩ := b
      cases h1
    | cons s p =>
      rcases group_cls h1 with ⟨h3, _⟩ | ⟨c', h3, h4, h5⟩
      · rw [hb] at h3; cases h3
      · rw [hb, Option.some.injEq] at h3
        subst h3
        have := groups_cls h2 h4 hc
        intro e he
        rcases List.mem_cons.1 he with rfl | he
        · exact ⟨s, p, rfl, h5.resolve_left hc⟩
        · exact this e he

/-- **C51** Paths that start with steps of different classes are refused with `ValueError`, whatever the values. -/
theorem C51_mixed {ord : List Expr → List Expr} {l : List (Str × Str)} {d : List (Path × List Expr)} (hd : pathToValue l = .ok d)
    (hne : ∀ e ∈ d, ∃ s p, e.1 = s :: p ∧ s.cls ≠ .usl) {s t : Step} {p q : Path} {v w : List Expr} (h1 : (s :: p, v) ∈ d) (h2 : (t :: q, w) ∈ d)
    (hst : s.cls ≠ t.cls) : fromPaths ord l = .error .valueError := by
  have key : d.foldlM (fun b e => b.group e.1 (ord e.2)) Bin.empty = .error .valueError := by
    cases hf : d.foldlM (fun b e => b.group e.1 (ord e.2)) Bin.empty with
    | error e =>
      congr 1
      clear hd h1 h2 hst
      generalize Bin.empty = b at hf
      induction d generalizing b with
      | nil => cases hf
      | cons a d ih =>
        rw [List.foldlM_cons] at hf
        rcases bind_inv_err hf with h | ⟨b', h, h'⟩
        · obtain ⟨s, p, hs, _⟩ := hne a (by simp)
          exact group_error (by simp [hs]) h
        · exact ih (fun e he => hne e (by simp [he])) _ h'
    | ok b' =>
      exfalso
      match d, hne, h1, h2, hf with
      | [], _, h1, _, _ => cases h1
      | (r, x) :: d, hne, h1, h2, hf =>
        obtain ⟨a, r', ha, hu⟩ := hne (r, x) (by simp)
        cases ha
        rw [List.foldlM_cons] at hf
        obtain ⟨b₁, h3, h4⟩ := bind_ok.1 hf
        rcases group_cls h3 with ⟨_, h5⟩ | ⟨c, h5, _⟩
        · have all := groups_cls h4 h5 hu
          have each : ∀ {s p v}, (s :: p, v) ∈ (a :: r', x) :: d → s.cls = a.cls := by
            intro s p v h
            rcases List.mem_cons.1 h with h | h
            · cases h; rfl
            · obtain ⟨s', p', he, hc⟩ := all _ h
              cases he
              exact hc
          exact hst ((each h1).trans (each h2).symm)
        · cases h5
  unfold fromPaths
  rw [hd]
  simp only [bind, Except.bind] at key ⊢
  rw [key]

-- A path of a lexeme and a path of a word.
example : (pathToValue [(c!">content>constant>A:", c!"A:"), (c!">role>! E:A:.>content>constant>A:", c!"A:")]).map (fun d => d.map fun e => e.1.map Step.cls) =
    .ok [[.lexeme, .pm], [.role, .lexeme, .pm]] := by decide +kernel

end Verif
