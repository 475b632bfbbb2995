import Verif.Model.RelationViews
import Verif.Props.Relations
import Verif.Lemmas.SFun2

/-
C100: the views of the relations of a dictionary show the same relations.
-/

namespace Verif
open Script

variable {o : SetOrder} {ks : List Str} {rows : List (Str × Str × Str)} {d : Dictionary}

theorem mem_relationOrder (r : Rel) : r ∈ relationOrder := by
  cases r with
  | contains => decide
  | contained => decide
  | father k => revert k; decide
  | child k => revert k; decide
  | sibling k => cases k <;> decide
  | table k => revert k; decide
  | identity => decide

theorem relationOrder_nodup : relationOrder.Nodup := by decide

theorem name_inj {r q : Rel} (h : r.name = q.name) : r = q := by
  have : ∀ r ∈ relationOrder, ∀ q ∈ relationOrder, r.name = q.name → r = q := by decide +kernel
  exact this r (mem_relationOrder r) q (mem_relationOrder q) h

/-- The names of the relations, as in `RELATIONS` (`constants.py` lines 159-178). -/
theorem C100_names : relationOrder.map Rel.name =
    [c!"contains", c!"contained", c!"father_substance", c!"child_substance", c!"father_attribute", c!"child_attribute", c!"father_mode",
     c!"child_mode", c!"opposed", c!"associated", c!"crossed", c!"twin", c!"table_0", c!"table_1", c!"table_2", c!"table_3", c!"table_4",
     c!"table_5", c!"identity"] := by decide +kernel

theorem object_total {s : Script} {i : Nat} (hi : d.base.index s = .ok i) (r : Rel) : ∃ l, d.object s r = .ok l := by
  unfold Dictionary.object
  rw [hi]
  exact ⟨_, rfl⟩

theorem object_missing {s : Script} (hs : ¬ d.mem s) (r : Rel) : d.object s r = .error .keyError := by
  unfold Dictionary.mem at hs
  unfold Dictionary.object
  cases h : d.base.index s with
  | ok i => rw [h] at hs; exact absurd rfl hs
  | error e =>
    unfold DictBase.index seqIndex at h
    split at h
    · cases h
    · cases h
      rfl

theorem relationObject_ok {s : Script} {i : Nat} (hi : d.base.index s = .ok i) :
    ∃ g : Rel → List Script, (∀ r, d.object s r = .ok (g r)) ∧ d.relationObject s = .ok (relationOrder.map fun r => (r, g r)) := by
  refine ⟨fun r => (object_total hi r).choose, fun r => (object_total hi r).choose_spec, ?_⟩
  unfold Dictionary.relationObject
  refine mapM_ok fun r _ => ?_
  rw [(object_total hi r).choose_spec]
  rfl

/-- **C100** The views of a script exist exactly when it is in the dictionary; otherwise `KeyError` is raised. -/
theorem C100_outcome (s t : Script) :
    (d.mem s = true → (∃ l, d.relationObject s = .ok l) ∧ ∃ l, d.between s t = .ok l) ∧
    (d.mem s = false → d.relationObject s = .error .keyError ∧ d.between s t = .error .keyError) ∧ ∃ l, d.pandas = .ok l := by
  have hm : d.mem s = true ↔ ∃ i, d.base.index s = .ok i := by
    unfold Dictionary.mem
    cases d.base.index s <;> simp [Except.isOk, Except.toBool]
  refine ⟨fun h => ?_, fun h => ?_, ?_⟩
  · obtain ⟨i, hi⟩ := hm.1 h
    obtain ⟨g, _, hg⟩ := relationObject_ok hi
    refine ⟨⟨_, hg⟩, ?_⟩
    unfold Dictionary.between
    rw [hg]
    exact ⟨_, rfl⟩
  · have hr : d.relationObject s = .error .keyError := by
      unfold Dictionary.relationObject relationOrder
      rw [List.mapM_cons, object_missing (by simp [h])]
      rfl
    refine ⟨hr, ?_⟩
    unfold Dictionary.between
    rw [hr]
    rfl
  · unfold Dictionary.pandas
    have : ∀ x ∈ d.base.scripts, ∃ l, d.rowsOf x = .ok l := by
      intro x hx
      obtain ⟨i, hi⟩ := indexed_of_mem hx
      obtain ⟨g, _, hg⟩ := relationObject_ok hi
      unfold Dictionary.rowsOf
      rw [hg]
      exact ⟨_, rfl⟩
    cases hp : d.base.scripts.mapM d.rowsOf with
    | ok l => exact ⟨_, rfl⟩
    | error e =>
      obtain ⟨x, hx, he⟩ := mapM_err hp
      obtain ⟨l, hl⟩ := this x hx
      rw [hl] at he
      cases he

/-- **C100** The relations between two scripts, in the order of the names: those for which the second is among the objects of the first. -/
theorem C100_between {s t : Script} {l : List Rel} (h : d.between s t = .ok l) : l.Sublist relationOrder ∧ ∀ r, r ∈ l ↔ Related d r s t := by
  unfold Dictionary.between at h
  obtain ⟨q, h1, h2⟩ := bind_ok.1 h
  rw [pure_ok] at h2
  obtain ⟨i, hi⟩ : ∃ i, d.base.index s = .ok i := by
    cases hi : d.base.index s with
    | ok i => exact ⟨i, rfl⟩
    | error e =>
      have := ((C100_outcome (d := d) s s).2.1 (by simp [Dictionary.mem, hi, Except.isOk, Except.toBool])).1
      rw [this] at h1
      cases h1
  obtain ⟨g, hg, hq⟩ := relationObject_ok hi
  rw [hq, Except.ok.injEq] at h1
  subst h1 h2
  rw [List.filter_map, List.map_map]
  have he : (relationOrder.filter ((fun e : Rel × List Script => e.2.any fun x => x.pyEq t) ∘ fun r => (r, g r))).map ((fun e : Rel × List Script => e.1) ∘ fun r => (r, g r)) =
      relationOrder.filter fun r => (g r).any fun x => x.pyEq t := by
    exact List.map_id _
  rw [he]
  refine ⟨List.filter_sublist, fun r => ?_⟩
  rw [List.mem_filter, List.any_eq_true]
  unfold Related
  rw [hg r]
  simp only [mem_relationOrder, true_and, Except.ok.injEq, exists_eq_left', pyEq, beq_iff_eq]

/-- **C100** The relations seen from the other script are the inverse ones. -/
theorem C100_between_inverse (ho : o.Valid) (h : mkDictionary o ks rows = .ok d) {s t : Script} {l m : List Rel} (h1 : d.between s t = .ok l)
    (h2 : d.between t s = .ok m) (r : Rel) : r ∈ l ↔ r.inverse ∈ m := by
  rw [(C100_between h1).2, (C100_between h2).2]
  exact C24_inverse ho h r s t

/-- **C100** The identity relates each script with itself only. -/
theorem C100_identity (ho : o.Valid) (h : mkDictionary o ks rows = .ok d) {s t : Script} (hs : d.mem s = true) :
    Related d .identity s t ↔ s.str = t.str := by
  obtain ⟨st, _, hd, _⟩ := mkDictionary_inv ho h
  obtain ⟨i, hi⟩ : ∃ i, d.base.index s = .ok i := by
    unfold Dictionary.mem at hs
    cases hi : d.base.index s with
    | ok i => exact ⟨i, rfl⟩
    | error e => rw [hi] at hs; cases hs
  constructor
  · intro hr
    obtain ⟨_, j, hj⟩ := DictOk.related_index hr
    rw [hd.related_iff _ hi hj, hd.rel.identity] at hr
    obtain ⟨k, _, hk⟩ := List.mem_map.1 hr
    simp only [Prod.mk.injEq] at hk
    rw [← hk.1.symm.trans hk.2] at hj
    exact (seqIndex_eq hi).1 hj
  · intro he
    have hj : d.base.index t = .ok i := (seqIndex_eq hi).2 he
    rw [hd.related_iff _ hi hj, hd.rel.identity]
    obtain ⟨y, hy, _⟩ := seqIndex_inv hi
    exact List.mem_map.2 ⟨i, List.mem_range.2 (List.getElem?_eq_some_iff.1 hy).1, rfl⟩

/-- **C100** The rows of the table: a row for each pair of related scripts and each of their relations. -/
theorem C100_rows (x y n : Str) {l : List (Str × Str × Str)} (h : d.pandas = .ok l) :
    (x, y, n) ∈ l ↔ ∃ s ∈ d.base.scripts, ∃ t ∈ d.base.scripts, ∃ r, Related d r s t ∧ x = s.str ∧ y = t.str ∧ n = r.name := by
  unfold Dictionary.pandas at h
  obtain ⟨q, h1, h2⟩ := bind_ok.1 h
  rw [pure_ok] at h2
  subst h2
  have hf := mapM_inv h1
  have row : ∀ {s : Script} {m : List (Str × Str × Str)}, s ∈ d.base.scripts → d.rowsOf s = .ok m →
      ((x, y, n) ∈ m ↔ ∃ t ∈ d.base.scripts, ∃ r, Related d r s t ∧ x = s.str ∧ y = t.str ∧ n = r.name) := by
    intro s m hs hm
    obtain ⟨i, hi⟩ := indexed_of_mem hs
    obtain ⟨g, hg, hq⟩ := relationObject_ok hi
    unfold Dictionary.rowsOf at hm
    obtain ⟨q, k1, k2⟩ := bind_ok.1 hm
    rw [pure_ok] at k2
    rw [hq, Except.ok.injEq] at k1
    subst k1 k2
    simp only [List.mem_flatMap, List.mem_map]
    constructor
    · rintro ⟨e, ⟨r, _, rfl⟩, t, ht, he⟩
      simp only [Prod.mk.injEq] at he
      obtain ⟨rfl, rfl, rfl⟩ := he
      refine ⟨t, ?_, r, ⟨_, hg r, t, ht, rfl⟩, rfl, rfl, rfl⟩
      have := hg r
      unfold Dictionary.object at this
      obtain ⟨_, _, k2⟩ := bind_ok.1 this
      rw [pure_ok] at k2
      rw [← k2] at ht
      obtain ⟨j, _, hj⟩ := List.mem_filterMap.1 ht
      exact List.mem_of_getElem? hj
    · rintro ⟨t, ht, r, ⟨l, hl, z, hz, hzt⟩, rfl, rfl, rfl⟩
      rw [hg r, Except.ok.injEq] at hl
      subst hl
      exact ⟨_, ⟨r, mem_relationOrder r, rfl⟩, z, hz, by rw [hzt]⟩
  rw [List.mem_flatten]
  constructor
  · rintro ⟨m, hm, hx⟩
    obtain ⟨s, hs, hr⟩ := forall₂_mem_right hf hm
    obtain ⟨t, ht, r, hh⟩ := (row hs hr).1 hx
    exact ⟨s, hs, t, ht, r, hh⟩
  · rintro ⟨s, hs, hh⟩
    obtain ⟨m, hm, hr⟩ := forall₂_mem_left hf hs
    exact ⟨m, hm, (row hs hr).2 hh⟩

/-- **C100** (part) No row is repeated, when the keys are the texts of scripts. -/
theorem C100_rows_once_partial (ho : o.Valid) (hk : NormalKeys ks) (h : mkDictionary o ks rows = .ok d) {l : List (Str × Str × Str)} (hl : d.pandas = .ok l) : l.Nodup := by
  have hp := (C22_positions_partial ho hk h).1
  unfold Dictionary.pandas at hl
  obtain ⟨q, h1, h2⟩ := bind_ok.1 hl
  rw [pure_ok] at h2
  subst h2
  have hf := mapM_inv h1
  have pos : ∀ (j j' : Nat) (a b : Script), d.base.scripts[j]? = some a → d.base.scripts[j']? = some b → a.str = b.str → j = j' := by
    intro j j' a b ha hb he
    obtain ⟨h1, rfl⟩ := List.getElem?_eq_some_iff.1 ha
    obtain ⟨h2, rfl⟩ := List.getElem?_eq_some_iff.1 hb
    rw [List.pairwise_iff_getElem] at hp
    rcases Nat.lt_trichotomy j j' with hlt | rfl | hlt
    · exact absurd he (hp _ _ h1 h2 hlt).2.2
    · rfl
    · exact absurd he.symm (hp _ _ h2 h1 hlt).2.2
  have own : ∀ {s : Script} {m : List (Str × Str × Str)}, s ∈ d.base.scripts → d.rowsOf s = .ok m → m.Nodup ∧ ∀ e ∈ m, e.1 = s.str := by
    intro s m hs hm
    obtain ⟨i, hi⟩ := indexed_of_mem hs
    obtain ⟨g, hg, hq⟩ := relationObject_ok hi
    unfold Dictionary.rowsOf at hm
    obtain ⟨q, k1, k2⟩ := bind_ok.1 hm
    rw [pure_ok] at k2
    rw [hq, Except.ok.injEq] at k1
    subst k1 k2
    constructor
    · rw [List.flatMap_map]
      refine List.nodup_flatMap.2 ⟨fun r _ => ?_, ?_⟩
      · have := hg r
        unfold Dictionary.object at this
        obtain ⟨k, _, k2⟩ := bind_ok.1 this
        rw [pure_ok] at k2
        simp only [← k2, List.map_filterMap]
        refine List.Nodup.filterMap ?_ ((pySort_perm _ _).nodup_iff.2 (nodup_dedupId _))
        intro j j' e h1 h2
        simp only [Option.mem_def, Option.map_eq_some_iff] at h1 h2
        obtain ⟨a, ha, rfl⟩ := h1
        obtain ⟨b, hb, he⟩ := h2
        simp only [Prod.mk.injEq] at he
        exact pos j j' a b ha hb he.2.1.symm
      · refine relationOrder_nodup.imp fun {r r'} hne => ?_
        intro e h1 h2
        obtain ⟨x, _, rfl⟩ := List.mem_map.1 h1
        obtain ⟨y, _, he⟩ := List.mem_map.1 h2
        simp only [Prod.mk.injEq] at he
        exact hne (name_inj he.2.2.symm)
    · intro e he
      obtain ⟨r, _, he⟩ := List.mem_flatMap.1 he
      obtain ⟨y, _, rfl⟩ := List.mem_map.1 he
      rfl
  rw [List.nodup_flatten]
  constructor
  · intro m hm
    obtain ⟨s, hs, hr⟩ := forall₂_mem_right hf hm
    exact (own hs hr).1
  · have : ∀ {L : List Script} {Q : List (List (Str × Str × Str))}, List.Forall₂ (fun s m => d.rowsOf s = .ok m) L Q → (∀ s ∈ L, s ∈ d.base.scripts) →
        L.Pairwise (fun a b => a.str ≠ b.str) → Q.Pairwise List.Disjoint := by
      intro L Q hf
      induction hf with
      | nil => intro _ _; exact .nil
      | @cons s m L Q hr hf ih =>
        intro hs hp
        obtain ⟨h1, h2⟩ := List.pairwise_cons.1 hp
        refine List.pairwise_cons.2 ⟨fun m' hm' e he he' => ?_, ih (fun x hx => hs x (by simp [hx])) h2⟩
        obtain ⟨s', hs', hr'⟩ := forall₂_mem_right hf hm'
        exact h1 s' hs' (((own (hs s (by simp)) hr).2 e he).symm.trans ((own (hs s' (by simp [hs'])) hr').2 e he'))
    exact this hf (fun _ h => h) (hp.imp fun h => h.2.2)

/-- **C100** With each row there is that of the inverse relation. -/
theorem C100_rows_inverse (ho : o.Valid) (h : mkDictionary o ks rows = .ok d) {l : List (Str × Str × Str)} (hl : d.pandas = .ok l) (x y : Str) (r : Rel) :
    (x, y, r.name) ∈ l ↔ (y, x, r.inverse.name) ∈ l := by
  have swap : ∀ (x y : Str) (r : Rel), (x, y, r.name) ∈ l → (y, x, r.inverse.name) ∈ l := by
    intro x y r hx
    obtain ⟨s, hs, t, ht, q, hq, rfl, rfl, hn⟩ := (C100_rows _ _ _ hl).1 hx
    obtain rfl := name_inj hn
    exact (C100_rows _ _ _ hl).2 ⟨t, ht, s, hs, _, (C24_inverse ho h r s t).1 hq, rfl, rfl, rfl⟩
  refine ⟨swap x y r, fun hx => ?_⟩
  have := swap y x r.inverse hx
  rwa [C24_inverse_involutive] at this

/-- **C100** The matrix: square, symmetric, true on the diagonal, and true exactly where two scripts are related. -/
theorem C100_matrix (ho : o.Valid) (h : mkDictionary o ks rows = .ok d) :
    d.booleanMatrix.length = d.base.scripts.length ∧ (∀ row ∈ d.booleanMatrix, row.length = d.base.scripts.length) ∧
    (∀ i < d.base.scripts.length, (d.booleanMatrix.getD i []).getD i false = true) ∧
    (∀ i j, (d.booleanMatrix.getD i []).getD j false = (d.booleanMatrix.getD j []).getD i false) ∧
    ∀ s t i j, d.base.index s = .ok i → d.base.index t = .ok j → ((d.booleanMatrix.getD i []).getD j false = true ↔ ∃ r, Related d r s t) := by
  obtain ⟨st, _, hd, _⟩ := mkDictionary_inv ho h
  have entry : ∀ i j, (d.booleanMatrix.getD i []).getD j false = true ↔ i < d.base.scripts.length ∧ j < d.base.scripts.length ∧ ∃ r, (i, j) ∈ d.relation r := by
    intro i j
    unfold Dictionary.booleanMatrix
    by_cases hi : i < d.base.scripts.length
    · by_cases hj : j < d.base.scripts.length
      · simp [List.getD, hi, hj, mem_relationOrder]
      · simp [List.getD, hi, hj]
    · simp [List.getD, hi]
  refine ⟨by simp [Dictionary.booleanMatrix], ?_, fun i hi => (entry i i).2 ⟨hi, hi, .identity, ?_⟩, fun i j => ?_, ?_⟩
  · intro row hr
    obtain ⟨i, _, rfl⟩ := List.mem_map.1 hr
    simp
  · rw [hd.rel.identity]
    exact List.mem_map.2 ⟨i, List.mem_range.2 hi, rfl⟩
  · rw [Bool.eq_iff_iff, entry, entry]
    constructor
    · rintro ⟨a, b, r, hr⟩
      exact ⟨b, a, r.inverse, (hd.inverse_mem r).1 hr⟩
    · rintro ⟨a, b, r, hr⟩
      exact ⟨b, a, r.inverse, (hd.inverse_mem r).1 hr⟩
  · intro s t i j hi hj
    rw [entry]
    have lt : ∀ {x : Script} {k : Nat}, d.base.index x = .ok k → k < d.base.scripts.length := by
      intro x k hk
      obtain ⟨y, hy, _⟩ := seqIndex_inv hk
      exact (List.getElem?_eq_some_iff.1 hy).1
    simp only [lt hi, lt hj, true_and, hd.related_iff _ hi hj]

/-- The relations of the dictionary of the examples. -/
example : (relDict.bind fun d => d.between (.prim .U) (.prim .U)) = .ok [.contains, .contained, .table 0, .identity] ∧
    (relDict.bind fun d => (parseScript (c!"U:O:.")).bind fun s => d.between s (.prim .U)) = .ok [.father 0, .father 1] ∧
    (relDict.bind fun d => (parseScript (c!"U:O:.")).bind fun s => d.between (.prim .U) s) = .ok [.child 0, .child 1] ∧
    (relDict.bind fun d => d.between (.prim .T) (.prim .U)) = .error .keyError := by decide +kernel

example : (mkDictionary plainOrder [c!"O:"] [rootRow (c!"O:")]).bind (fun d => d.pandas) = .ok
    [(c!"U:", c!"U:", c!"contains"), (c!"U:", c!"U:", c!"contained"), (c!"U:", c!"O:", c!"contained"), (c!"U:", c!"U:", c!"table_0"),
     (c!"U:", c!"A:", c!"table_0"), (c!"U:", c!"O:", c!"table_0"), (c!"U:", c!"U:", c!"identity"),
     (c!"A:", c!"A:", c!"contains"), (c!"A:", c!"A:", c!"contained"), (c!"A:", c!"O:", c!"contained"), (c!"A:", c!"U:", c!"table_0"),
     (c!"A:", c!"A:", c!"table_0"), (c!"A:", c!"O:", c!"table_0"), (c!"A:", c!"A:", c!"identity"),
     (c!"O:", c!"U:", c!"contains"), (c!"O:", c!"A:", c!"contains"), (c!"O:", c!"O:", c!"contains"), (c!"O:", c!"O:", c!"contained"),
     (c!"O:", c!"U:", c!"table_0"), (c!"O:", c!"A:", c!"table_0"), (c!"O:", c!"O:", c!"table_0"), (c!"O:", c!"O:", c!"identity")] := by
  decide +kernel

/-- Keys that are not the texts of scripts, the violated part of **C100** (compare `C22_violated`): the rows of a script that is in the dictionary twice
are repeated. -/
theorem C100_violated_repeated : ∃ d l, mkDictionary plainOrder [c!"U:+A:", c!"O:"] [rootRow (c!"O:")] = .ok d ∧ d.pandas = .ok l ∧ ¬ l.Nodup := by
  have h : (mkDictionary plainOrder [c!"U:+A:", c!"O:"] [rootRow (c!"O:")]).bind (fun d => d.pandas.map fun l => decide (l.Nodup)) = .ok false := by
    decide +kernel
  cases hd : mkDictionary plainOrder [c!"U:+A:", c!"O:"] [rootRow (c!"O:")] with
  | error e => rw [hd] at h; cases h
  | ok d =>
    rw [hd] at h
    cases hl : d.pandas with
    | error e => simp [Except.bind, hl, Except.map] at h
    | ok l =>
      refine ⟨d, l, rfl, hl, fun hn => ?_⟩
      simp [Except.bind, hl, Except.map, hn] at h

end Verif
