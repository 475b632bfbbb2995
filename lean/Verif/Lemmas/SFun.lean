import Verif.Model.SFun
import Verif.Lemmas.Except
import Verif.Lemmas.PySort
import Mathlib.Data.List.Basic
import Mathlib.Data.List.Nodup

/-
Lemmas on the list form of syntagmatic functions: the functions read from a list, and reading their list form back.
-/

namespace Verif
variable {α : Type}

/-- The list form of a function without prefix. -/
def leaves (f : SF α) : List (RoleEntry α) := listed [] f.actors

/-- An entry with a longer address. -/
def pushAddr (p : Addr) (e : RoleEntry α) : RoleEntry α := (p ++ e.1, e.2)

/-- The list form of the children of a junction. -/
def leavesL (link : Str) : Nat → List (SF α) → List (RoleEntry α)
  | _, [] => []
  | n, f :: fs => (leaves f).map (pushAddr (childPrefix link n)) ++ leavesL link (n + 1) fs

/-- The list form of a dependant or independant function. -/
def leavesO (role : Str) : Option (SF α) → List (RoleEntry α)
  | none => []
  | some f => (leaves f).map (pushAddr [role])

theorem listed_append (p : Addr) (a b : List (Addr × SF α)) : listed p (a ++ b) = listed p a ++ listed p b := by
  simp [listed]

theorem listed_push (p q : Addr) (a : List (Addr × SF α)) :
    listed p (a.map fun e => (q ++ e.1, e.2)) = (listed [] a).map (pushAddr (p ++ q)) := by
  induction a with
  | nil => rfl
  | cons e a ih =>
    have h1 : ∀ p' : Addr, ∀ e : Addr × SF α, ∀ a : List (Addr × SF α), listed p' (e :: a) = (if e.2.isJunction then [] else [(p' ++ e.1, e.2.actor)]) ++ listed p' a := by
      intro p' e a
      unfold listed
      cases hj : e.2.isJunction <;> simp [hj]
    rw [List.map_cons, h1, h1, ih]
    cases e.2.isJunction <;> simp [pushAddr]

theorem listed_pre (p : Addr) (f : SF α) : listed p f.actors = (leaves f).map (pushAddr p) := by
  have := listed_push p [] f.actors
  simpa [leaves] using this

theorem actorsL_listed (link : Str) : ∀ (n : Nat) (cs : List (SF α)), listed [] (actorsL link n cs) = leavesL link n cs
  | _, [] => rfl
  | n, f :: fs => by
    rw [actorsL, listed_append, listed_push, actorsL_listed, leavesL]
    rfl

theorem leaves_junction (link : Str) (cs : List (SF α)) : leaves (.junction link cs) = leavesL link 0 cs := by
  rw [leaves, SF.actors, ← actorsL_listed]
  simp [listed, SF.isJunction]

theorem leaves_indep (a : Option α) : leaves (.indep a) = [([], a)] := by
  simp [leaves, SF.actors, listed, SF.isJunction, SF.actor]

theorem actorsO_listed (role : Str) (o : Option (SF α)) : listed [] (actorsO role o) = leavesO role o := by
  cases o with
  | none => rfl
  | some f =>
    rw [actorsO, leavesO]
    exact listed_push [] [role] f.actors

theorem leaves_dep (a : Option α) (d i : Option (SF α)) :
    leaves (.dep a d i) = ([], a) :: (leavesO independantQuality i ++ leavesO dependantQuality d) := by
  rw [leaves, SF.actors, ← actorsO_listed, ← actorsO_listed, ← listed_append]
  simp [listed, SF.isJunction, SF.actor]

/-! ### Shapes of the functions read from a list -/

/-- The functions read by `fromI` with the fuel `n`. -/
def OkI : Nat → SF α → Prop
  | 0, _ => False
  | _ + 1, .indep _ => True
  | n + 1, .junction link cs => link ∈ junctionScripts ∧ cs ≠ [] ∧ cs.length ≤ 12 ∧ ∀ c ∈ cs, OkI n c
  | _ + 1, .dep _ _ _ => False

/-- The functions read by `fromD` with the fuel `n`. -/
def OkD : Nat → SF α → Prop
  | 0, _ => False
  | _ + 1, .indep _ => False
  | n + 1, .junction link cs => link ∈ junctionScripts ∧ cs ≠ [] ∧ cs.length ≤ 12 ∧ ∀ c ∈ cs, OkD n c
  | n + 1, .dep _ d i => (∀ f, d = some f → OkD n f) ∧ ∀ f, i = some f → OkI n f

/-- The keys of the groups of a junction. -/
abbrev keysOf (es : List (Nat × RoleEntry α)) : List Nat := dedupBy id (es.map fun e => e.1)

/-- The entries of a group of a junction. -/
abbrev groupOf (es : List (Nat × RoleEntry α)) (i : Nat) : List (RoleEntry α) := (es.filter fun e => e.1 = i).map fun e => e.2

theorem junctionFrom_ok {rec : List (RoleEntry α) → Except Err (SF α)} {l : List (RoleEntry α)} {f : SF α} :
    junctionFrom rec l = .ok f ↔ ∃ (heads : List Str) (link : Str) (es : List (Nat × RoleEntry α)) (cs : List (SF α)),
      l.mapM headOf = .ok heads ∧ dedupBy id (heads.filter fun h => decide (h ∈ junctionScripts)) = [link] ∧
      l.mapM splitIndex = .ok es ∧ checkGroups (keysOf es).length (keysOf es) = .ok () ∧
      (List.range (keysOf es).length).mapM (fun i => rec (groupOf es i)) = .ok cs ∧ f = .junction link cs := by
  rw [junctionFrom, bind_ok]
  constructor
  · rintro ⟨heads, h1, h⟩
    split at h
    · rename_i link hl
      rw [bind_ok] at h
      obtain ⟨es, h2, h⟩ := h
      rw [bind_ok] at h
      obtain ⟨_, h3, h⟩ := h
      rw [bind_ok] at h
      obtain ⟨cs, h4, h⟩ := h
      rw [pure_ok] at h
      exact ⟨heads, link, es, cs, h1, hl, h2, h3, h4, h.symm⟩
    · cases h
  · rintro ⟨heads, link, es, cs, h1, hl, h2, h3, h4, rfl⟩
    refine ⟨heads, h1, ?_⟩
    rw [hl]
    simp only [bind_ok]
    exact ⟨es, h2, (), h3, cs, h4, rfl⟩

theorem checkGroups_ok {n : Nat} : ∀ {l : List Nat}, checkGroups n l = .ok () ↔ ∀ i ∈ l, i < n
  | [] => by simp [checkGroups]
  | i :: is => by
    rw [checkGroups]
    split
    · rename_i h; simp only [List.forall_mem_cons]; constructor
      · intro h'; cases h'
      · intro h'; omega
    · split
      · rename_i h; simp only [List.forall_mem_cons]; constructor
        · intro h'; cases h'
        · intro h'; omega
      · rw [checkGroups_ok, List.forall_mem_cons]
        constructor
        · intro h; exact ⟨by omega, h⟩
        · exact fun h => h.2

theorem splitIndex_ok {e : RoleEntry α} {r : Nat × RoleEntry α} (h : splitIndex e = .ok r) :
    ∃ a i rest, e.1 = a :: i :: rest ∧ i ∈ junctionIndex ∧ r = (junctionIndex.idxOf i, (rest, e.2)) := by
  unfold splitIndex at h
  split at h
  · rename_i a i rest he
    split at h
    · rename_i hi
      rw [Except.ok.injEq] at h
      exact ⟨a, i, rest, he, hi, h.symm⟩
    · cases h
  · cases h

theorem mem_dedupId {κ : Type} [DecidableEq κ] {l : List κ} {p : κ} : p ∈ dedupBy id l ↔ p ∈ l :=
  ⟨mem_dedupBy id, fun h => by
    obtain ⟨y, hy, e⟩ := dedupBy_complete (key := id) h
    have e : y = p := e
    exact e ▸ hy⟩

theorem nodup_dedupId {κ : Type} [DecidableEq κ] (l : List κ) : (dedupBy id l).Nodup := dedupBy_pairwise (key := id) l

/-- The groups of a junction that passes the checks: their keys are below twelve, and are `0, …, n - 1`. -/
theorem keys_bound {l : List (RoleEntry α)} {es : List (Nat × RoleEntry α)} (h : l.mapM splitIndex = .ok es) : (keysOf es).length ≤ 12 := by
  have h1 : keysOf es ⊆ List.range 12 := by
    intro i hi
    obtain ⟨e, he, rfl⟩ := List.mem_map.1 (mem_dedupId.1 hi)
    obtain ⟨x, _, hx⟩ := (mapM_mem h).1 he
    obtain ⟨a, j, rest, _, hj, rfl⟩ := splitIndex_ok hx
    have : junctionIndex.idxOf j < junctionIndex.length := List.idxOf_lt_length_iff.2 hj
    rw [List.mem_range]
    exact this
  simpa using (List.subperm_of_subset (nodup_dedupId _) h1).length_le

theorem dedup_single {κ : Type} [DecidableEq κ] {a : κ} : ∀ {l : List κ}, (∀ x ∈ l, x = a) → l ≠ [] → dedupBy id l = [a]
  | [], _, h => absurd rfl h
  | x :: l, h, _ => by
    have hx : x = a := h x (by simp)
    subst hx
    rw [dedupBy]
    congr 1
    rw [List.filter_eq_nil_iff]
    intro y hy
    have := h y (by simp [mem_dedupId.1 hy])
    simp [this]

theorem range_mapM_length {β : Type} {g : Nat → Except Err β} {n : Nat} {cs : List β} (h : (List.range n).mapM g = .ok cs) : cs.length = n := by
  have := (mapM_inv h).length_eq
  simpa using this.symm

/-- The junctions read from a list. -/
theorem junction_shape {rec : List (RoleEntry α) → Except Err (SF α)} {P : SF α → Prop} (hrec : ∀ l f, rec l = .ok f → P f)
    {l : List (RoleEntry α)} {f : SF α} (h : junctionFrom rec l = .ok f) :
    ∃ link cs, f = .junction link cs ∧ link ∈ junctionScripts ∧ cs ≠ [] ∧ cs.length ≤ 12 ∧ ∀ c ∈ cs, P c := by
  obtain ⟨heads, link, es, cs, h1, hl, h2, _, h4, rfl⟩ := junctionFrom_ok.1 h
  have hlink : link ∈ dedupBy id (heads.filter fun h => decide (h ∈ junctionScripts)) := by rw [hl]; simp
  have hlink := mem_dedupId.1 hlink
  rw [List.mem_filter] at hlink
  have hlen := range_mapM_length h4
  refine ⟨link, cs, rfl, by simpa using hlink.2, ?_, by rw [hlen]; exact keys_bound h2, ?_⟩
  · obtain ⟨e, he, _⟩ := (mapM_mem h1).1 hlink.1
    obtain ⟨y, hy, _⟩ := mapM_each h2 he
    have : y.1 ∈ keysOf es := mem_dedupId.2 (List.mem_map_of_mem hy)
    have := List.length_pos_of_mem this
    intro hc
    rw [hc] at hlen
    simp at hlen
    omega
  · intro c hc
    obtain ⟨i, _, hi⟩ := (mapM_mem h4).1 hc
    exact hrec _ _ hi

theorem fromI_shape : ∀ {n : Nat} {l : List (RoleEntry α)} {f : SF α}, fromI n l = .ok f → OkI n f
  | 0, _, _, h => by cases h
  | n + 1, l, f, h => by
    rw [fromI, indepFrom.eq_def] at h
    split at h
    · rw [Except.ok.injEq] at h
      subst h
      trivial
    · obtain ⟨link, cs, rfl, h'⟩ := junction_shape (P := OkI n) (fun l f => fromI_shape) h
      exact h'

theorem optFrom_ok {rec : List (RoleEntry α) → Except Err (SF α)} {l : List (RoleEntry α)} {o : Option (SF α)} (h : optFrom rec l = .ok o) :
    (l = [] ∧ o = none) ∨ (l ≠ [] ∧ ∃ f, rec l = .ok f ∧ o = some f) := by
  unfold optFrom at h
  split at h
  · rw [Except.ok.injEq] at h
    exact .inl ⟨rfl, h.symm⟩
  · rename_i hl
    refine .inr ⟨fun he => hl he, ?_⟩
    cases hr : rec l with
    | error e => rw [hr] at h; cases h
    | ok f =>
      rw [hr] at h
      simp only [Except.map, Except.ok.injEq] at h
      exact ⟨f, rfl, h.symm⟩

theorem depFrom_ok {recD recI : List (RoleEntry α) → Except Err (SF α)} {l : List (RoleEntry α)} {f : SF α} (h : depFrom recD recI l = .ok f) :
    ∃ st, l.foldlM depStep ⟨none, [], [], false⟩ = .ok st ∧
      ((st.junction = true ∧ junctionFrom recD l = .ok f) ∨
        (st.junction = false ∧ ∃ d i, optFrom recD st.dependant = .ok d ∧ optFrom recI st.independant = .ok i ∧ f = .dep st.actor d i)) := by
  rw [depFrom, bind_ok] at h
  obtain ⟨st, h1, h⟩ := h
  refine ⟨st, h1, ?_⟩
  split at h
  · rename_i hj
    exact .inl ⟨hj, h⟩
  · rename_i hj
    rw [bind_ok] at h
    obtain ⟨d, h2, h⟩ := h
    rw [bind_ok] at h
    obtain ⟨i, h3, h⟩ := h
    rw [pure_ok] at h
    exact .inr ⟨by simpa using hj, d, i, h2, h3, h.symm⟩

theorem fromD_shape : ∀ {n : Nat} {l : List (RoleEntry α)} {f : SF α}, fromD n l = .ok f → OkD n f
  | 0, _, _, h => by cases h
  | n + 1, l, f, h => by
    rw [fromD] at h
    obtain ⟨st, _, ⟨_, h⟩ | ⟨_, d, i, h1, h2, rfl⟩⟩ := depFrom_ok h
    · obtain ⟨link, cs, rfl, h'⟩ := junction_shape (P := OkD n) (fun l f => fromD_shape) h
      exact h'
    · refine ⟨?_, ?_⟩
      · rintro f rfl
        rcases optFrom_ok h1 with ⟨_, h⟩ | ⟨_, f', h, h'⟩
        · cases h
        · cases h'
          exact fromD_shape h
      · rintro f rfl
        rcases optFrom_ok h2 with ⟨_, h⟩ | ⟨_, f', h, h'⟩
        · cases h
        · cases h'
          exact fromI_shape h

/-! ### Reading the list form back -/

theorem leavesL_ne_nil {link : Str} {n : Nat} {cs : List (SF α)} (h : cs ≠ []) (hc : ∀ c ∈ cs, leaves c ≠ []) : leavesL link n cs ≠ [] := by
  cases cs with
  | nil => exact absurd rfl h
  | cons c cs =>
    rw [leavesL]
    have := hc c (by simp)
    simp [this]

theorem okI_leaves : ∀ {n : Nat} {f : SF α}, OkI n f → leaves f ≠ []
  | n + 1, .indep a, _ => by simp [leaves_indep]
  | n + 1, .junction link cs, h => by
    rw [leaves_junction]
    exact leavesL_ne_nil h.2.1 fun c hc => okI_leaves (h.2.2.2 c hc)

theorem okD_leaves : ∀ {n : Nat} {f : SF α}, OkD n f → leaves f ≠ []
  | n + 1, .dep a d i, _ => by simp [leaves_dep]
  | n + 1, .junction link cs, h => by
    rw [leaves_junction]
    exact leavesL_ne_nil h.2.1 fun c hc => okD_leaves (h.2.2.2 c hc)

/-- The entries of `leavesL` with the index of their child. -/
def tagged : Nat → List (SF α) → List (Nat × RoleEntry α)
  | _, [] => []
  | n, f :: fs => (leaves f).map (fun e => (n, e)) ++ tagged (n + 1) fs

theorem mem_leavesL {link : Str} : ∀ {n : Nat} {cs : List (SF α)} {e : RoleEntry α}, e ∈ leavesL link n cs →
    ∃ i, n ≤ i ∧ i < n + cs.length ∧ ∃ c ∈ cs, ∃ x ∈ leaves c, e = pushAddr (childPrefix link i) x
  | n, [], e, h => by simp [leavesL] at h
  | n, c :: cs, e, h => by
    rw [leavesL, List.mem_append, List.mem_map] at h
    rcases h with ⟨x, hx, rfl⟩ | h
    · exact ⟨n, by omega, by simp, c, by simp, x, hx, rfl⟩
    · obtain ⟨i, h1, h2, c', hc, h3⟩ := mem_leavesL h
      exact ⟨i, by omega, by simp; omega, c', by simp [hc], h3⟩

theorem junctionIndex_idx : ∀ i < 12, junctionIndex.getD i [] ∈ junctionIndex ∧ junctionIndex.idxOf (junctionIndex.getD i []) = i := by
  decide +kernel

theorem splitIndex_push {link : Str} {i : Nat} (hi : i < 12) (e : RoleEntry α) :
    splitIndex (pushAddr (childPrefix link i) e) = .ok (i, e) := by
  obtain ⟨h1, h2⟩ := junctionIndex_idx i hi
  rw [splitIndex]
  simp only [pushAddr, childPrefix, List.cons_append, List.nil_append]
  rw [if_pos h1, h2]

theorem leavesL_split {link : Str} : ∀ {n : Nat} {cs : List (SF α)}, n + cs.length ≤ 12 →
    (leavesL link n cs).mapM splitIndex = .ok (tagged n cs)
  | n, [], _ => rfl
  | n, c :: cs, h => by
    rw [leavesL, tagged]
    apply mapM_of_forall₂
    refine List.rel_append ?_ ?_
    · rw [List.forall₂_map_left_iff, List.forall₂_map_right_iff, List.forall₂_same]
      intro e _
      exact splitIndex_push (by simp at h; omega) e
    · exact mapM_inv (leavesL_split (by simp at h; omega))

theorem tagged_ge : ∀ {n : Nat} {cs : List (SF α)} {e : Nat × RoleEntry α}, e ∈ tagged n cs → n ≤ e.1
  | n, [], e, h => by simp [tagged] at h
  | n, c :: cs, e, h => by
    rw [tagged, List.mem_append, List.mem_map] at h
    rcases h with ⟨x, _, rfl⟩ | h
    · exact le_refl _
    · have := tagged_ge h
      omega

theorem dedup_append_const {κ : Type} [DecidableEq κ] {a : κ} {l m : List κ} (hl : ∀ x ∈ l, x = a) (hne : l ≠ []) (hm : a ∉ m) :
    dedupBy id (l ++ m) = a :: dedupBy id m := by
  induction l with
  | nil => exact absurd rfl hne
  | cons x l ih =>
    have hx : x = a := hl x (by simp)
    subst hx
    rw [List.cons_append, dedupBy]
    congr 1
    by_cases he : l = []
    · subst he
      rw [List.nil_append, List.filter_eq_self]
      intro y hy
      have : y ≠ x := fun he => hm (he ▸ mem_dedupId.1 hy)
      simpa using this
    · rw [ih (fun y hy => hl y (by simp [hy])) he, List.filter_cons_of_neg (by simp), List.filter_eq_self]
      intro y hy
      have : y ≠ x := fun he => hm (he ▸ mem_dedupId.1 hy)
      simpa using this

theorem tagged_keys : ∀ {n : Nat} {cs : List (SF α)}, (∀ c ∈ cs, leaves c ≠ []) → keysOf (tagged n cs) = List.range' n cs.length
  | n, [], _ => rfl
  | n, c :: cs, h => by
    rw [keysOf, tagged, List.map_append, List.map_map, dedup_append_const (a := n)]
    · have ih := tagged_keys (n := n + 1) (cs := cs) fun c hc => h c (by simp [hc])
      rw [keysOf] at ih
      rw [ih, List.length_cons, List.range'_succ]
    · intro x hx
      obtain ⟨e, _, rfl⟩ := List.mem_map.1 hx
      rfl
    · have := h c (by simp)
      simpa using this
    · intro hx
      obtain ⟨e, he, hn⟩ := List.mem_map.1 hx
      have := tagged_ge he
      omega

theorem tagged_group : ∀ {n : Nat} {cs : List (SF α)} (i : Nat) (hi : i < cs.length), groupOf (tagged n cs) (n + i) = leaves cs[i]
  | n, [], i, hi => by simp at hi
  | n, c :: cs, 0, hi => by
    rw [groupOf, tagged, List.filter_append, List.filter_eq_self.2, List.filter_eq_nil_iff.2]
    · simp [List.map_map, Function.comp_def]
    · intro e he
      have := tagged_ge he
      simp; omega
    · intro e he
      obtain ⟨x, _, rfl⟩ := List.mem_map.1 he
      simp
  | n, c :: cs, i + 1, hi => by
    rw [groupOf, tagged, List.filter_append, List.filter_eq_nil_iff.2, List.nil_append]
    · have := tagged_group (n := n + 1) (cs := cs) i (by simpa using hi)
      have e : n + 1 + i = n + (i + 1) := by omega
      rw [groupOf, e] at this
      rw [this]
      rfl
    · intro e he
      obtain ⟨x, _, rfl⟩ := List.mem_map.1 he
      simp

theorem junction_back {rec : List (RoleEntry α) → Except Err (SF α)} {link : Str} {cs : List (SF α)} (hl : link ∈ junctionScripts)
    (hne : cs ≠ []) (hlen : cs.length ≤ 12) (hv : ∀ c ∈ cs, leaves c ≠ []) (hrec : ∀ c ∈ cs, rec (leaves c) = .ok c) :
    junctionFrom rec (leavesL link 0 cs) = .ok (.junction link cs) := by
  have hk := tagged_keys (n := 0) hv
  have hL := leavesL_ne_nil (link := link) (n := 0) hne hv
  refine junctionFrom_ok.2 ⟨(leavesL link 0 cs).map fun _ => link, link, tagged 0 cs, cs, ?_, ?_, leavesL_split (by omega), ?_, ?_, rfl⟩
  · apply mapM_of_forall₂
    rw [List.forall₂_map_right_iff, List.forall₂_same]
    intro e he
    obtain ⟨i, _, _, c, _, x, _, rfl⟩ := mem_leavesL he
    rfl
  · rw [List.filter_eq_self.2]
    · apply dedup_single
      · intro x hx
        obtain ⟨_, _, rfl⟩ := List.mem_map.1 hx
        rfl
      · simpa using hL
    · intro x hx
      obtain ⟨_, _, rfl⟩ := List.mem_map.1 hx
      simpa using hl
  · rw [checkGroups_ok, hk]
    intro i hi
    rw [List.length_range']
    have := List.mem_range'_1.1 hi
    omega
  · rw [hk, List.length_range']
    apply mapM_of_forall₂
    rw [List.forall₂_iff_get]
    refine ⟨by simp, ?_⟩
    intro i h1 h2
    have h3 : i < cs.length := by simpa using h1
    have := tagged_group (n := 0) i h3
    rw [Nat.zero_add] at this
    simp only [List.get_eq_getElem, List.getElem_range]
    rw [this]
    exact hrec _ (List.getElem_mem h3)

theorem fromI_back : ∀ {n : Nat} {f : SF α}, OkI n f → fromI n (leaves f) = .ok f
  | n + 1, .indep a, _ => by rw [leaves_indep]; rfl
  | n + 1, .junction link cs, h => by
    obtain ⟨h1, h2, h3, h4⟩ := h
    have hj := junction_back (rec := fromI n) h1 h2 h3 (fun c hc => okI_leaves (h4 c hc)) fun c hc => fromI_back (h4 c hc)
    rw [leaves_junction, fromI, indepFrom.eq_def]
    split
    · rename_i x he
      have : (([], x) : RoleEntry α) ∈ leavesL link 0 cs := by rw [he]; simp
      obtain ⟨i, _, _, c, _, y, _, e⟩ := mem_leavesL this
      simp [pushAddr, childPrefix] at e
    · exact hj

theorem indep_not_junction : independantQuality ∉ junctionScripts := by decide +kernel
theorem dep_not_junction : dependantQuality ∉ junctionScripts := by decide +kernel
theorem dep_ne_indep : dependantQuality ≠ independantQuality := by decide +kernel

theorem fold_indep : ∀ (l : List (RoleEntry α)) (st : DepState α), st.junction = false →
    (l.map (pushAddr [independantQuality])).foldlM depStep st = .ok { st with independant := st.independant ++ l }
  | [], st, _ => by simp; rfl
  | e :: l, st, h => by
    rw [List.map_cons, List.foldlM_cons]
    have : depStep st (pushAddr [independantQuality] e) = .ok { st with independant := st.independant ++ [e] } := by
      simp [depStep, pushAddr, indep_not_junction, h]
    rw [this]
    simp only [bind, Except.bind]
    refine (fold_indep l { st with independant := st.independant ++ [e] } h).trans ?_
    simp

theorem fold_dep : ∀ (l : List (RoleEntry α)) (st : DepState α), st.junction = false →
    (l.map (pushAddr [dependantQuality])).foldlM depStep st = .ok { st with dependant := st.dependant ++ l }
  | [], st, _ => by simp; rfl
  | e :: l, st, h => by
    rw [List.map_cons, List.foldlM_cons]
    have : depStep st (pushAddr [dependantQuality] e) = .ok { st with dependant := st.dependant ++ [e] } := by
      simp [depStep, pushAddr, dep_not_junction, h, dep_ne_indep]
    rw [this]
    simp only [bind, Except.bind]
    refine (fold_dep l { st with dependant := st.dependant ++ [e] } h).trans ?_
    simp

/-- The list of an optional function. -/
def optLeaves : Option (SF α) → List (RoleEntry α)
  | none => []
  | some f => leaves f

theorem leavesO_eq (role : Str) (o : Option (SF α)) : leavesO role o = (optLeaves o).map (pushAddr [role]) := by
  cases o <;> rfl

theorem optFrom_back {rec : List (RoleEntry α) → Except Err (SF α)} {o : Option (SF α)} (hv : ∀ f, o = some f → leaves f ≠ [])
    (h : ∀ f, o = some f → rec (leaves f) = .ok f) : optFrom rec (optLeaves o) = .ok o := by
  cases o with
  | none => rfl
  | some f =>
    rw [optLeaves, optFrom.eq_def]
    split
    · rename_i he
      exact absurd he (hv f rfl)
    · rw [h f rfl]
      rfl

theorem fold_junction {link : Str} (hl : link ∈ junctionScripts) : ∀ (l : List (RoleEntry α)) (st : DepState α), l ≠ [] →
    (∀ e ∈ l, ∃ rest, e.1 = link :: rest) → ∃ st', l.foldlM depStep st = .ok st' ∧ st'.junction = true
  | [], _, h, _ => absurd rfl h
  | e :: l, st, _, h => by
    obtain ⟨rest, he⟩ := h e (by simp)
    have : depStep st e = .ok { st with junction := true } := by
      simp [depStep, he, hl]
    rw [List.foldlM_cons, this]
    simp only [bind, Except.bind]
    by_cases hn : l = []
    · subst hn
      exact ⟨_, rfl, rfl⟩
    · exact fold_junction hl l _ hn fun e he => h e (by simp [he])

theorem fromD_back : ∀ {n : Nat} {f : SF α}, OkD n f → fromD n (leaves f) = .ok f
  | n + 1, .dep a d i, h => by
    obtain ⟨h1, h2⟩ := h
    rw [fromD, depFrom, bind_ok]
    refine ⟨⟨a, optLeaves d, optLeaves i, false⟩, ?_, ?_⟩
    · rw [leaves_dep, List.foldlM_cons]
      simp only [depStep]
      rw [leavesO_eq, leavesO_eq]
      simp only [bind, Except.bind]
      rw [List.foldlM_append]
      simp only [bind, Except.bind]
      rw [fold_indep _ _ rfl]
      simp only
      rw [fold_dep _ _ rfl]
      simp
    · simp only [Bool.false_eq_true, if_false]
      rw [optFrom_back (fun f hf => okD_leaves (h1 f hf)) (fun f hf => fromD_back (h1 f hf))]
      rw [optFrom_back (fun f hf => okI_leaves (h2 f hf)) (fun f hf => fromI_back (h2 f hf))]
      rfl
  | n + 1, .junction link cs, h => by
    obtain ⟨h1, h2, h3, h4⟩ := h
    have hj := junction_back (rec := fromD n) h1 h2 h3 (fun c hc => okD_leaves (h4 c hc)) fun c hc => fromD_back (h4 c hc)
    rw [leaves_junction, fromD, depFrom]
    obtain ⟨st, h5, h6⟩ := fold_junction h1 (leavesL link 0 cs) ⟨none, [], [], false⟩
      (leavesL_ne_nil h2 fun c hc => okD_leaves (h4 c hc)) (by
        intro e he
        obtain ⟨i, _, _, c, _, x, _, rfl⟩ := mem_leavesL he
        exact ⟨_, rfl⟩)
    rw [h5]
    simp only [bind, Except.bind, h6, if_true]
    exact hj

end Verif
