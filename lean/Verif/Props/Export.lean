import Verif.Lemmas.Export

/-
C111: the export of the relations.  C112: the comparison of versions.
-/

namespace Verif
variable {T : Type} [DecidableEq T]

/-! ### Identifiers -/

theorem mem_texts {l : List Str} {t : Str} : t ∈ dedupBy id l ↔ t ∈ l := by
  induction l with
  | nil => simp [dedupBy]
  | cons x l ih =>
    simp only [dedupBy, id, List.mem_cons, List.mem_filter, decide_eq_true_eq, ne_eq]
    rw [ih]
    constructor
    · rintro (h | ⟨h, _⟩)
      · exact .inl h
      · exact .inr h
    · rintro (h | h)
      · exact .inl h
      · by_cases e : t = x
        · exact .inl e
        · exact .inr ⟨h, e⟩

theorem nodup_texts (l : List Str) : (dedupBy id l).Nodup := by
  induction l with
  | nil => simp [dedupBy]
  | cons x l ih =>
    rw [dedupBy, List.nodup_cons]
    exact ⟨by simp, ih.filter _⟩

/-- **C111, identifiers.** The table of identifiers is made exactly when two different texts never have the same identifier; it then gives
each text of the dictionary, and no other, its identifier, between 1000 and 20998. -/
theorem C111_ids (digest : Str → Nat) (texts : List Str) :
    ((drupalIds digest texts).isSome ↔ ∀ t ∈ texts, ∀ u ∈ texts, drupalId digest t = drupalId digest u → t = u) ∧
    ∀ ids, drupalIds digest texts = some ids →
      (∀ t ∈ texts, drupalIdOf ids t = .ok (1000 + digest t % 19999)) ∧ (∀ t ∉ texts, drupalIdOf ids t = .error .keyError) ∧
      ∀ t n, drupalIdOf ids t = .ok n → 1000 ≤ n ∧ n ≤ 20998 := by
  have hmap : ((dedupBy id texts).map fun t => (t, drupalId digest t)).map (·.2) = (dedupBy id texts).map (drupalId digest) := by
    rw [List.map_map]; rfl
  constructor
  · unfold drupalIds
    simp only
    rw [hmap]
    constructor
    · intro h
      split at h
      · rename_i hn
        intro t ht u hu e
        exact List.inj_on_of_nodup_map hn (mem_texts.2 ht) (mem_texts.2 hu) e
      · cases h
    · intro h
      rw [if_pos]
      · rfl
      · exact List.Nodup.map_on (fun t ht u hu e => h t (mem_texts.1 ht) u (mem_texts.1 hu) e) (nodup_texts _)
  · intro ids h
    unfold drupalIds at h
    simp only at h
    split at h
    · rw [Option.some.injEq] at h
      subst h
      have find : ∀ (l : List Str) (t : Str), (l.map fun t => (t, drupalId digest t)).find? (fun e => e.1 = t) =
          if t ∈ l then some (t, drupalId digest t) else none := by
        intro l t
        induction l with
        | nil => rfl
        | cons x l ih =>
          rw [List.map_cons, List.find?_cons]
          by_cases e : x = t
          · subst e; simp
          · simp only [e, decide_false, ih, List.mem_cons, Ne.symm e, false_or]
      have key : ∀ t, drupalIdOf ((dedupBy id texts).map fun t => (t, drupalId digest t)) t =
          if t ∈ texts then .ok (drupalId digest t) else .error .keyError := by
        intro t
        unfold drupalIdOf
        rw [find]
        by_cases ht : t ∈ texts
        · rw [if_pos (mem_texts.2 ht), if_pos ht]
        · rw [if_neg (fun h => ht (mem_texts.1 h)), if_neg ht]
      refine ⟨fun t ht => by rw [key, if_pos ht]; rfl, fun t ht => by rw [key, if_neg ht], fun t n hn => ?_⟩
      rw [key] at hn
      split at hn
      · rw [Except.ok.injEq] at hn
        subst hn
        have : digest t % maxTerms < maxTerms := Nat.mod_lt _ (by decide)
        unfold drupalId
        unfold maxTerms at *
        omega
      · cases hn
    · cases h

/-- **C111, identifiers**: a dictionary of more than 19999 terms cannot be exported, whatever the digests. -/
theorem C111_too_many (digest : Str → Nat) {texts : List Str} (hn : texts.Nodup) (h : 19999 < texts.length) : drupalIds digest texts = none := by
  cases he : drupalIds digest texts with
  | none => rfl
  | some ids =>
    exfalso
    have inj := (C111_ids digest texts).1.1 (by rw [he]; rfl)
    have hc : (texts.map fun t => digest t % 19999).Nodup := List.Nodup.map_on (fun t ht u hu e => inj t ht u hu (by
      unfold drupalId maxTerms; rw [e])) hn
    have hs : (texts.map fun t => digest t % 19999).toFinset ⊆ Finset.range 19999 := by
      intro n hn
      obtain ⟨t, _, rfl⟩ := List.mem_map.1 (List.mem_toFinset.1 hn)
      exact Finset.mem_range.2 (Nat.mod_lt _ (by decide))
    have := Finset.card_le_card hs
    rw [List.toFinset_card_of_nodup hc, List.length_map, Finset.card_range] at this
    omega

/-! ### Relations -/

/-- What a table of identifiers must be for the terms of a list: one identifier for each term, different ones for different terms. -/
structure Identifies (text : T → Str) (ids : List (Str × Nat)) (paradigm : List T) (num : T → Nat) : Prop where
  id : ∀ t ∈ paradigm, drupalIdOf ids (text t) = .ok (num t)
  inj : ∀ t ∈ paradigm, ∀ u ∈ paradigm, num t = num u → t = u

/-- The relation is one of the twelve that are exported. -/
def Rel.Exported : Rel → Prop
  | .table _ | .identity => False
  | _ => True

/-- The type of a relation, in words. -/
def Rel.typeName : Rel → Str
  | .contains | .contained => c!"inclusion"
  | .father _ | .child _ => c!"etymology"
  | .sibling _ => c!"sibling"
  | .table _ | .identity => []

theorem exported_type {r : Rel} (h : r.Exported) : exportedType r = .ok r.typeName := by
  cases r <;> first | rfl | cases h

theorem inverse_type (r : Rel) : r.inverse.typeName = r.typeName := by cases r <;> rfl

theorem rel_inverse_inverse (r : Rel) : r.inverse.inverse = r := by cases r <;> rfl

theorem mapM_rows {text : T → Str} {ids : List (Str × Nat)} {paradigm : List T} {num : T → Nat} (hi : Identifies text ids paradigm num) :
    ∀ (l : List ((T × T) × Rel)), (∀ e ∈ l, e.1.1 ∈ paradigm ∧ e.1.2 ∈ paradigm ∧ e.2.Exported) →
    l.mapM (fun e => relationRows text ids e.1 e.2) = .ok (l.map fun e =>
      [⟨num e.1.1, num e.1.2, e.2, e.2.typeName⟩, ⟨num e.1.2, num e.1.1, e.2.inverse, e.2.typeName⟩])
  | [], _ => rfl
  | e :: l, h => by
    obtain ⟨h1, h2, h3⟩ := h e (by simp)
    rw [List.mapM_cons, mapM_rows hi l fun e he => h e (by simp [he])]
    unfold relationRows
    rw [hi.id _ h1, hi.id _ h2, exported_type h3]
    rfl

theorem storedKey_mem {lt : T → T → Bool} {paradigm : List T} {t0 t1 : T} (h : [t0, t1].Sublist paradigm) :
    (storedKey lt t0 t1).1 ∈ paradigm ∧ (storedKey lt t0 t1).2 ∈ paradigm := by
  have h0 : t0 ∈ paradigm := h.subset (by simp)
  have h1 : t1 ∈ paradigm := h.subset (by simp)
  unfold storedKey
  split
  · exact ⟨h1, h0⟩
  · exact ⟨h0, h1⟩

theorem dump_run {lt : T → T → Bool} {names : T → T → List Rel} {text : T → Str} {ids : List (Str × Nat)} {paradigm : List T} {num : T → Nat}
    (hi : Identifies text ids paradigm num) (hx : ∀ t ∈ paradigm, ∀ u ∈ paradigm, ∀ r ∈ names t u, r.Exported) :
    relationsDump lt names text ids paradigm none = .ok
      ((((collectRelations lt names paradigm).flatMap fun e => e.2.map fun r => (e.1, r)).map fun e =>
        [⟨num e.1.1, num e.1.2, e.2, e.2.typeName⟩, ⟨num e.1.2, num e.1.1, e.2.inverse, e.2.typeName⟩]).flatten) := by
  unfold relationsDump
  rw [mapM_rows hi]
  · rfl
  · rintro ⟨q, r⟩ he
    obtain ⟨t0, t1, h1, h2, h3, rfl⟩ := stored_collect.1 (mem_flat.1 he)
    obtain ⟨k1, k2⟩ := storedKey_mem (lt := lt) h1
    exact ⟨k1, k2, hx t0 (h1.subset (by simp)) t1 (h1.subset (by simp)) r h3⟩

/-- **C111, the rows.** The export succeeds; its rows are, for each relation `r` of a term `t0` to a term `t1` that comes later in the list,
the greater term with `r` and the smaller one, and the smaller term with the inverse of `r` and the greater one, with the type of the relation. -/
theorem C111_rows {lt : T → T → Bool} {names : T → T → List Rel} {text : T → Str} {ids : List (Str × Nat)} {paradigm : List T} {num : T → Nat}
    (hi : Identifies text ids paradigm num) (hx : ∀ t ∈ paradigm, ∀ u ∈ paradigm, ∀ r ∈ names t u, r.Exported) :
    ∃ rows, relationsDump lt names text ids paradigm none = .ok rows ∧
      ∀ row, row ∈ rows ↔ ∃ t0 t1 r, [t0, t1].Sublist paradigm ∧ t0 ≠ t1 ∧ r ∈ names t0 t1 ∧ row.type = r.typeName ∧
        ((lt t0 t1 = true ∧ ((row.src, row.dest, row.name) = (num t1, num t0, r) ∨ (row.src, row.dest, row.name) = (num t0, num t1, r.inverse))) ∨
         (lt t0 t1 = false ∧ ((row.src, row.dest, row.name) = (num t0, num t1, r) ∨ (row.src, row.dest, row.name) = (num t1, num t0, r.inverse)))) := by
  refine ⟨_, dump_run hi hx, fun row => ?_⟩
  simp only [List.mem_flatten, List.mem_map]
  constructor
  · rintro ⟨l, ⟨⟨q, r⟩, he, rfl⟩, hrow⟩
    obtain ⟨t0, t1, h1, h2, h3, rfl⟩ := stored_collect.1 (mem_flat.1 he)
    refine ⟨t0, t1, r, h1, h2, h3, ?_⟩
    simp only [List.mem_cons, List.not_mem_nil, or_false] at hrow
    cases hlt : lt t0 t1
    · rw [show storedKey lt t0 t1 = (t0, t1) by unfold storedKey; rw [hlt]; rfl] at hrow
      rcases hrow with rfl | rfl
      · exact ⟨rfl, .inr ⟨rfl, .inl rfl⟩⟩
      · exact ⟨rfl, .inr ⟨rfl, .inr rfl⟩⟩
    · rw [show storedKey lt t0 t1 = (t1, t0) by unfold storedKey; rw [hlt]; rfl] at hrow
      rcases hrow with rfl | rfl
      · exact ⟨rfl, .inl ⟨rfl, .inl rfl⟩⟩
      · exact ⟨rfl, .inl ⟨rfl, .inr rfl⟩⟩
  · rintro ⟨t0, t1, r, h1, h2, h3, h4, h5⟩
    refine ⟨_, ⟨(storedKey lt t0 t1, r), mem_flat.2 (stored_collect.2 ⟨t0, t1, h1, h2, h3, rfl⟩), rfl⟩, ?_⟩
    obtain ⟨a, b, n, ty⟩ := row
    simp only at h4 h5
    subst h4
    simp only [List.mem_cons, List.not_mem_nil, or_false]
    rcases h5 with ⟨hlt, h5⟩ | ⟨hlt, h5⟩
    · rw [show storedKey lt t0 t1 = (t1, t0) by unfold storedKey; rw [hlt]; rfl]
      rcases h5 with h5 | h5 <;> cases h5
      · exact .inl rfl
      · exact .inr rfl
    · rw [show storedKey lt t0 t1 = (t0, t1) by unfold storedKey; rw [hlt]; rfl]
      rcases h5 with h5 | h5 <;> cases h5
      · exact .inl rfl
      · exact .inr rfl

/-- The relations of a dictionary: each with its inverse. -/
def Mutual (names : T → T → List Rel) : Prop := ∀ t u r, r ∈ names t u ↔ r.inverse ∈ names u t

omit [DecidableEq T] in
theorem order_of_two {l : List T} (hn : l.Nodup) {a b : T} (ha : a ∈ l) (hb : b ∈ l) (h : a ≠ b) : [a, b].Sublist l ∨ [b, a].Sublist l := by
  induction l with
  | nil => cases ha
  | cons x l ih =>
    rw [List.nodup_cons] at hn
    rcases List.mem_cons.1 ha with rfl | ha
    · rcases List.mem_cons.1 hb with rfl | hb
      · exact absurd rfl h
      · exact .inl (List.Sublist.cons_cons _ (List.singleton_sublist.2 hb))
    · rcases List.mem_cons.1 hb with hb' | hb
      · rw [hb']; exact .inr (List.Sublist.cons_cons _ (List.singleton_sublist.2 ha))
      · rcases ih hn.2 ha hb with h | h
        · exact .inl (h.cons _)
        · exact .inr (h.cons _)

/-- **C111, which relation a row says.** For a list without repetition: the row of `a`, `r`, `b` is there exactly when `a` has the relation `r`
to `b` and the greater of the two comes first, or `b` has the relation `r` to `a` and the smaller of the two comes first. -/
theorem C111_direction {lt : T → T → Bool} {names : T → T → List Rel} {text : T → Str} {ids : List (Str × Nat)} {paradigm : List T} {num : T → Nat}
    (hi : Identifies text ids paradigm num) (hx : ∀ t ∈ paradigm, ∀ u ∈ paradigm, ∀ r ∈ names t u, r.Exported) (hm : Mutual names) :
    ∃ rows, relationsDump lt names text ids paradigm none = .ok rows ∧
      ∀ a ∈ paradigm, ∀ b ∈ paradigm, ∀ r, (∃ ty, (⟨num a, num b, r, ty⟩ : RelationRow) ∈ rows) ↔ a ≠ b ∧
        ((r ∈ names a b ∧ (([a, b].Sublist paradigm ∧ lt a b = false) ∨ ([b, a].Sublist paradigm ∧ lt b a = false))) ∨
         (r ∈ names b a ∧ (([a, b].Sublist paradigm ∧ lt a b = true) ∨ ([b, a].Sublist paradigm ∧ lt b a = true)))) := by
  obtain ⟨rows, h1, h2⟩ := C111_rows (lt := lt) hi hx
  refine ⟨rows, h1, fun a ha b hb r => ?_⟩
  constructor
  · rintro ⟨ty, h⟩
    obtain ⟨t0, t1, s, hs, hne, hn, -, h⟩ := (h2 _).1 h
    have m0 : t0 ∈ paradigm := hs.subset (by simp)
    have m1 : t1 ∈ paradigm := hs.subset (by simp)
    rcases h with ⟨hlt, h | h⟩ | ⟨hlt, h | h⟩ <;> simp only [Prod.mk.injEq] at h <;> obtain ⟨e1, e2, rfl⟩ := h
    · obtain rfl := hi.inj _ ha _ m1 e1
      obtain rfl := hi.inj _ hb _ m0 e2
      exact ⟨hne.symm, .inr ⟨hn, .inr ⟨hs, hlt⟩⟩⟩
    · obtain rfl := hi.inj _ ha _ m0 e1
      obtain rfl := hi.inj _ hb _ m1 e2
      exact ⟨hne, .inr ⟨(hm _ _ _).1 hn, .inl ⟨hs, hlt⟩⟩⟩
    · obtain rfl := hi.inj _ ha _ m0 e1
      obtain rfl := hi.inj _ hb _ m1 e2
      exact ⟨hne, .inl ⟨hn, .inl ⟨hs, hlt⟩⟩⟩
    · obtain rfl := hi.inj _ ha _ m1 e1
      obtain rfl := hi.inj _ hb _ m0 e2
      exact ⟨hne.symm, .inl ⟨(hm _ _ _).1 hn, .inr ⟨hs, hlt⟩⟩⟩
  · rintro ⟨hne, ⟨hr, ⟨hs, hlt⟩ | ⟨hs, hlt⟩⟩ | ⟨hr, ⟨hs, hlt⟩ | ⟨hs, hlt⟩⟩⟩
    · exact ⟨r.typeName, (h2 _).2 ⟨a, b, r, hs, hne, hr, rfl, .inr ⟨hlt, .inl rfl⟩⟩⟩
    · exact ⟨r.typeName, (h2 _).2 ⟨b, a, r.inverse, hs, hne.symm, (hm _ _ _).1 hr, (inverse_type r).symm, .inr ⟨hlt, .inr (by rw [rel_inverse_inverse])⟩⟩⟩
    · exact ⟨r.typeName, (h2 _).2 ⟨a, b, r.inverse, hs, hne, (hm _ _ _).1 hr, (inverse_type r).symm, .inl ⟨hlt, .inr (by rw [rel_inverse_inverse])⟩⟩⟩
    · exact ⟨r.typeName, (h2 _).2 ⟨b, a, r, hs, hne.symm, hr, rfl, .inl ⟨hlt, .inl rfl⟩⟩⟩

/-- **C111, what holds.** When no term of the list is before a greater one, the rows are exactly the relations between different terms.
Missing: the other lists, in particular the sorted ones, for which the claim is false (`C111_reversed`, `C111_violated`). -/
theorem C111_relations_partial {lt : T → T → Bool} {names : T → T → List Rel} {text : T → Str} {ids : List (Str × Nat)} {paradigm : List T}
    {num : T → Nat} (hi : Identifies text ids paradigm num) (hx : ∀ t ∈ paradigm, ∀ u ∈ paradigm, ∀ r ∈ names t u, r.Exported) (hm : Mutual names)
    (hn : paradigm.Nodup) (hd : paradigm.Pairwise fun t u => lt t u = false) :
    ∃ rows, relationsDump lt names text ids paradigm none = .ok rows ∧
      ∀ a ∈ paradigm, ∀ b ∈ paradigm, ∀ r, (∃ ty, (⟨num a, num b, r, ty⟩ : RelationRow) ∈ rows) ↔ a ≠ b ∧ r ∈ names a b := by
  obtain ⟨rows, h1, h2⟩ := C111_direction (lt := lt) hi hx hm
  refine ⟨rows, h1, fun a ha b hb r => (h2 a ha b hb r).trans ?_⟩
  have two : ∀ {a b : T}, [a, b].Sublist paradigm → lt a b = false := fun h => by
    have := hd.sublist h
    simpa using this
  constructor
  · rintro ⟨hne, ⟨hr, _⟩ | ⟨_, ⟨hs, hlt⟩ | ⟨hs, hlt⟩⟩⟩
    · exact ⟨hne, hr⟩
    · rw [two hs] at hlt; cases hlt
    · rw [two hs] at hlt; cases hlt
  · rintro ⟨hne, hr⟩
    rcases order_of_two hn ha hb hne with h | h
    · exact ⟨hne, .inl ⟨hr, .inl ⟨h, two h⟩⟩⟩
    · exact ⟨hne, .inl ⟨hr, .inr ⟨h, two h⟩⟩⟩

/-- **C111 is violated** for sorted terms (`export.py` line 87): every row says the relation of the second term to the first. -/
theorem C111_reversed {lt : T → T → Bool} {names : T → T → List Rel} {text : T → Str} {ids : List (Str × Nat)} {paradigm : List T}
    {num : T → Nat} (hi : Identifies text ids paradigm num) (hx : ∀ t ∈ paradigm, ∀ u ∈ paradigm, ∀ r ∈ names t u, r.Exported) (hm : Mutual names)
    (hn : paradigm.Nodup) (hd : paradigm.Pairwise fun t u => lt t u = true) :
    ∃ rows, relationsDump lt names text ids paradigm none = .ok rows ∧
      ∀ a ∈ paradigm, ∀ b ∈ paradigm, ∀ r, (∃ ty, (⟨num a, num b, r, ty⟩ : RelationRow) ∈ rows) ↔ a ≠ b ∧ r ∈ names b a := by
  obtain ⟨rows, h1, h2⟩ := C111_direction (lt := lt) hi hx hm
  refine ⟨rows, h1, fun a ha b hb r => (h2 a ha b hb r).trans ?_⟩
  have two : ∀ {a b : T}, [a, b].Sublist paradigm → lt a b = true := fun h => by
    have := hd.sublist h
    simpa using this
  constructor
  · rintro ⟨hne, ⟨_, ⟨hs, hlt⟩ | ⟨hs, hlt⟩⟩ | ⟨hr, _⟩⟩
    · rw [two hs] at hlt; cases hlt
    · rw [two hs] at hlt; cases hlt
    · exact ⟨hne, hr⟩
  · rintro ⟨hne, hr⟩
    rcases order_of_two hn ha hb hne with h | h
    · exact ⟨hne, .inr ⟨hr, .inl ⟨h, two h⟩⟩⟩
    · exact ⟨hne, .inr ⟨hr, .inr ⟨h, two h⟩⟩⟩

/-- **C111, siblings.** For relations that are their own inverse the rows are right whatever the order. -/
theorem C111_symmetric {lt : T → T → Bool} {names : T → T → List Rel} {text : T → Str} {ids : List (Str × Nat)} {paradigm : List T}
    {num : T → Nat} (hi : Identifies text ids paradigm num) (hx : ∀ t ∈ paradigm, ∀ u ∈ paradigm, ∀ r ∈ names t u, r.Exported) (hm : Mutual names)
    (hn : paradigm.Nodup) :
    ∃ rows, relationsDump lt names text ids paradigm none = .ok rows ∧
      ∀ a ∈ paradigm, ∀ b ∈ paradigm, ∀ r, r.inverse = r → ((∃ ty, (⟨num a, num b, r, ty⟩ : RelationRow) ∈ rows) ↔ a ≠ b ∧ r ∈ names a b) := by
  obtain ⟨rows, h1, h2⟩ := C111_direction (lt := lt) hi hx hm
  refine ⟨rows, h1, fun a ha b hb r he => (h2 a ha b hb r).trans ?_⟩
  have sw : r ∈ names b a ↔ r ∈ names a b := by rw [hm b a r, he]
  rw [sw]
  constructor
  · rintro ⟨hne, ⟨hr, _⟩ | ⟨hr, _⟩⟩ <;> exact ⟨hne, hr⟩
  · rintro ⟨hne, hr⟩
    refine ⟨hne, ?_⟩
    rcases order_of_two hn ha hb hne with h | h
    · cases hl : lt a b
      · exact .inl ⟨hr, .inl ⟨h, rfl⟩⟩
      · exact .inr ⟨hr, .inl ⟨h, rfl⟩⟩
    · cases hl : lt b a
      · exact .inl ⟨hr, .inr ⟨h, rfl⟩⟩
      · exact .inr ⟨hr, .inr ⟨h, rfl⟩⟩

/-- **C111, once.** No row is written twice, if the order of the terms is total. -/
theorem C111_once {lt : T → T → Bool} {names : T → T → List Rel} {text : T → Str} {ids : List (Str × Nat)} {paradigm : List T} {num : T → Nat}
    (hi : Identifies text ids paradigm num) (hx : ∀ t ∈ paradigm, ∀ u ∈ paradigm, ∀ r ∈ names t u, r.Exported)
    (has : ∀ t u, lt t u = true → lt u t = false) (htot : ∀ t u, lt t u = false → lt u t = false → t = u) :
    ∃ rows, relationsDump lt names text ids paradigm none = .ok rows ∧ rows.Nodup := by
  refine ⟨_, dump_run hi hx, ?_⟩
  rw [List.nodup_flatten]
  -- the keys are in decreasing order
  have keys : ∀ {q : T × T} {s : Rel}, (q, s) ∈ ((collectRelations lt names paradigm).flatMap fun e => e.2.map fun r => (e.1, r)) →
      q.1 ∈ paradigm ∧ q.2 ∈ paradigm ∧ q.1 ≠ q.2 ∧ lt q.1 q.2 = false := by
    intro q s h
    obtain ⟨t0, t1, h1, h2, h3, rfl⟩ := stored_collect.1 (mem_flat.1 h)
    refine ⟨(storedKey_mem h1).1, (storedKey_mem h1).2, storedKey_ne.2 h2, ?_⟩
    unfold storedKey
    cases hlt : lt t0 t1
    · exact hlt
    · exact has _ _ hlt
  constructor
  · intro l hl
    obtain ⟨⟨q, s⟩, he, rfl⟩ := List.mem_map.1 hl
    obtain ⟨k1, k2, k3, _⟩ := keys he
    rw [List.nodup_cons]
    refine ⟨?_, by simp⟩
    rw [List.mem_singleton, RelationRow.mk.injEq]
    rintro ⟨e, _⟩
    exact k3 (hi.inj _ k1 _ k2 e)
  · rw [List.pairwise_map]
    refine (nodup_flat tidy_collect).imp_of_mem ?_
    rintro ⟨q, s⟩ ⟨q', s'⟩ he he' hne
    obtain ⟨k1, k2, k3, k4⟩ := keys he
    obtain ⟨l1, l2, l3, l4⟩ := keys he'
    have sub : ∀ {x y : T}, x ∈ paradigm → y ∈ paradigm → num x = num y → x = y := fun h h' => hi.inj _ h _ h'
    have noswap : q.1 = q'.2 → q.2 = q'.1 → False := by
      intro e1 e2
      rw [e1, e2] at k4
      exact l3 (htot _ _ l4 k4)
    simp only [List.disjoint_left, List.mem_cons, List.not_mem_nil, or_false]
    rintro row (rfl | rfl) (h | h) <;> rw [RelationRow.mk.injEq] at h <;> obtain ⟨h1, h2, h3, -⟩ := h
    · exact hne (Prod.ext (Prod.ext (sub k1 l1 h1) (sub k2 l2 h2)) h3)
    · exact noswap (sub k1 l2 h1) (sub k2 l1 h2)
    · exact noswap (sub k1 l2 h2) (sub k2 l1 h1)
    · refine hne (Prod.ext (Prod.ext (sub k1 l1 h2) (sub k2 l2 h1)) ?_)
      show s = s'
      rw [← rel_inverse_inverse s, h3, rel_inverse_inverse]

omit [DecidableEq T] in
theorem rows_fail {text : T → Str} {ids : List (Str × Nat)} : ∀ (l : List ((T × T) × Rel)) {e : (T × T) × Rel}, e ∈ l →
    (¬ e.2.Exported ∨ drupalIdOf ids (text e.1.1) = .error .keyError ∨ drupalIdOf ids (text e.1.2) = .error .keyError) →
    l.mapM (fun e => relationRows text ids e.1 e.2) = .error .keyError
  | x :: l, e, he, h => by
    have only : ∀ t, drupalIdOf ids t = .error .keyError ∨ ∃ n, drupalIdOf ids t = .ok n := by
      intro t
      unfold drupalIdOf
      split
      · exact .inr ⟨_, rfl⟩
      · exact .inl rfl
    have one : ∀ e : (T × T) × Rel, relationRows text ids e.1 e.2 = .error .keyError ∨ (e.2.Exported ∧
        (∃ n, drupalIdOf ids (text e.1.1) = .ok n) ∧ (∃ n, drupalIdOf ids (text e.1.2) = .ok n) ∧
        ∃ rows, relationRows text ids e.1 e.2 = .ok rows) := by
      rintro ⟨q, r⟩
      unfold relationRows
      rcases only (text q.1) with h1 | ⟨n, h1⟩
      · left; rw [h1]; rfl
      · rcases only (text q.2) with h2 | ⟨k, h2⟩
        · left; rw [h1, h2]; rfl
        · cases r <;> simp only [h1, h2] <;> first | exact .inl rfl | exact .inr ⟨trivial, ⟨_, rfl⟩, ⟨_, rfl⟩, _, rfl⟩
    rw [List.mapM_cons]
    rcases one x with hx | ⟨x1, ⟨n, x2⟩, ⟨k, x3⟩, rows, hx⟩
    · rw [hx]; rfl
    · rcases List.mem_cons.1 he with rfl | he
      · rcases h with h | h | h
        · exact absurd x1 h
        · rw [x2] at h; cases h
        · rw [x3] at h; cases h
      · rw [hx, rows_fail l he h]; rfl

/-- **C111, error branch**: a relation that is not one of the twelve, or of a term without identifier, raises `KeyError`. -/
theorem C111_refused {lt : T → T → Bool} {names : T → T → List Rel} {text : T → Str} {ids : List (Str × Nat)} {paradigm : List T}
    {t0 t1 : T} {r : Rel} (number : Option Int) (hs : [t0, t1].Sublist paradigm) (hne : t0 ≠ t1) (hr : r ∈ names t0 t1)
    (h : ¬ r.Exported ∨ drupalIdOf ids (text t0) = .error .keyError ∨ drupalIdOf ids (text t1) = .error .keyError) :
    relationsDump lt names text ids paradigm number = .error .keyError := by
  unfold relationsDump
  rw [rows_fail _ (mem_flat.2 (stored_collect (lt := lt).2 ⟨t0, t1, hs, hne, hr, rfl⟩))]
  · rfl
  · unfold storedKey
    cases lt t0 t1
    · exact h
    · rcases h with h | h | h
      · exact .inl h
      · exact .inr (.inr h)
      · exact .inr (.inl h)

/-- **C111, part of the rows**: `number` keeps that many of the first rows, or leaves out that many of the last if it is negative. -/
theorem C111_number {lt : T → T → Bool} {names : T → T → List Rel} {text : T → Str} {ids : List (Str × Nat)} {paradigm : List T}
    {rows : List RelationRow} (h : relationsDump lt names text ids paradigm none = .ok rows) :
    relationsDump lt names text ids paradigm (some 0) = .ok rows ∧
    (∀ n : Nat, n ≠ 0 → relationsDump lt names text ids paradigm (some n) = .ok (rows.take n)) ∧
    ∀ n : Nat, n ≠ 0 → relationsDump lt names text ids paradigm (some (-n)) = .ok (rows.take (rows.length - n)) := by
  unfold relationsDump at *
  cases hr : ((collectRelations lt names paradigm).flatMap fun e => e.2.map fun r => (e.1, r)).mapM
      fun e => relationRows text ids e.1 e.2 with
  | error e => rw [hr] at h; cases h
  | ok l =>
    rw [hr] at h
    cases h
    refine ⟨rfl, fun n hn => ?_, fun n hn => ?_⟩
    · have hn' : (n : Int) ≠ 0 := by omega
      simp only [bind, Except.bind, pure, Except.pure, if_pos hn', firstRows]
      rw [if_pos (by omega)]
      rfl
    · have hn' : (-n : Int) ≠ 0 := by omega
      simp only [bind, Except.bind, pure, Except.pure, if_pos hn', firstRows]
      rw [if_neg (by omega), Int.neg_neg]
      rfl

/-! ### The hypotheses are met -/

/-- Two terms, the first contained in the second; the order is that of the numbers. -/
def exNames : Nat → Nat → List Rel
  | 1, 2 => [.contained, .sibling .twin]
  | 2, 1 => [.contains, .sibling .twin]
  | _, _ => []

def exText (n : Nat) : Str := if n = 1 then c!"S:" else c!"M:"

def exDigest (t : Str) : Nat := if t = c!"S:" then 20005 else 7

def exIds : List (Str × Nat) := [(c!"S:", 1006), (c!"M:", 1007)]

theorem exIds_eq : drupalIds exDigest [c!"S:", c!"M:", c!"S:"] = some exIds := by decide +kernel

/-- A collision. -/
example : drupalIds (fun t => t.length * 19999) [c!"S:", c!"M:."] = none := by decide +kernel

theorem ex_identifies (l : List Nat) (h : ∀ n ∈ l, n = 1 ∨ n = 2) : Identifies exText exIds l (fun n => 1005 + n) where
  id := by
    intro t ht
    rcases h t ht with rfl | rfl <;> decide
  inj := by intro t _ u _ e; simpa using e

theorem ex_mutual : Mutual exNames := by
  intro t u r
  unfold exNames
  split
  · constructor <;> (simp only [List.mem_cons, List.not_mem_nil, or_false]; rintro _)
    · rename_i h; rcases h with rfl | rfl <;> simp [Rel.inverse]
    · rename_i h; rcases h with h | h <;> rw [← rel_inverse_inverse r, h] <;> simp [Rel.inverse]
  · constructor <;> (simp only [List.mem_cons, List.not_mem_nil, or_false]; rintro _)
    · rename_i h; rcases h with rfl | rfl <;> simp [Rel.inverse]
    · rename_i h; rcases h with h | h <;> rw [← rel_inverse_inverse r, h] <;> simp [Rel.inverse]
  · split
    · simp_all
    · simp_all
    · simp

theorem ex_exported : ∀ t u r, r ∈ exNames t u → r.Exported := by
  intro t u r h
  unfold exNames at h
  split at h
  · simp only [List.mem_cons, List.not_mem_nil, or_false] at h; rcases h with rfl | rfl <;> trivial
  · simp only [List.mem_cons, List.not_mem_nil, or_false] at h; rcases h with rfl | rfl <;> trivial
  · cases h

/-- In decreasing order, the rows are right. -/
example : relationsDump (fun a b => decide (a < b)) exNames exText exIds [2, 1] none = .ok
    [⟨1007, 1006, .contains, c!"inclusion"⟩, ⟨1006, 1007, .contained, c!"inclusion"⟩,
     ⟨1007, 1006, .sibling .twin, c!"sibling"⟩, ⟨1006, 1007, .sibling .twin, c!"sibling"⟩] := by decide +kernel

/-- **C111 is violated**: sorted, `S:` (1006) is said to contain `M:` (1007). -/
theorem C111_violated : relationsDump (fun a b => decide (a < b)) exNames exText exIds [1, 2] none = .ok
    [⟨1007, 1006, .contained, c!"inclusion"⟩, ⟨1006, 1007, .contains, c!"inclusion"⟩,
     ⟨1007, 1006, .sibling .twin, c!"sibling"⟩, ⟨1006, 1007, .sibling .twin, c!"sibling"⟩] := by decide +kernel

example : ∃ rows, relationsDump (fun a b => decide (a < b)) exNames exText exIds [2, 1] none = .ok rows ∧
    ∀ a ∈ [2, 1], ∀ b ∈ [2, 1], ∀ r, (∃ ty, (⟨1005 + a, 1005 + b, r, ty⟩ : RelationRow) ∈ rows) ↔ a ≠ b ∧ r ∈ exNames a b :=
  C111_relations_partial (ex_identifies [2, 1] (by decide)) (fun t _ u _ r => ex_exported t u r) ex_mutual (by decide) (by decide)

example : ∃ rows, relationsDump (fun a b => decide (a < b)) exNames exText exIds [1, 2] none = .ok rows ∧ rows.Nodup :=
  C111_once (ex_identifies [1, 2] (by decide)) (fun t _ u _ r => ex_exported t u r)
    (fun t u h => by simp at *; omega) (fun t u h h' => by simp at *; omega)

/-- A term of the list that is not in the dictionary. -/
example : relationsDump (fun a b => decide (a < b)) exNames exText [(c!"S:", 1006)] [1, 2] none = .error .keyError := by decide +kernel

/-! ### Versions -/

/-- **C112, differences.** The terms printed as deleted are those of the first version only, the ones printed as added those of the second
only, each once. -/
theorem C112_diff (terms0 terms1 : List Str) :
    (∀ t, t ∈ (versionDiff terms0 terms1).1 ↔ t ∈ terms0 ∧ t ∉ terms1) ∧ (∀ t, t ∈ (versionDiff terms0 terms1).2 ↔ t ∈ terms1 ∧ t ∉ terms0) ∧
    (versionDiff terms0 terms1).1.Nodup ∧ (versionDiff terms0 terms1).2.Nodup := by
  unfold versionDiff
  refine ⟨fun t => ?_, fun t => ?_, (nodup_texts _).filter _, (nodup_texts _).filter _⟩ <;>
    simp only [List.mem_filter, mem_texts, decide_eq_true_eq]

variable {V : Type}

theorem firstVersion_run (terms : V → List Str) (sc : Str) : ∀ (l : List V) (last : Option V) (pre : List V) (v : V) (post : List V),
    l = pre ++ v :: post → (∀ u ∈ pre, sc ∈ terms u) → sc ∉ terms v →
    firstVersionFrom terms sc last l = match pre.getLast? with | some u => some u | none => last
  | _, last, [], v, post, rfl, _, hv => by simp [firstVersionFrom, hv]
  | _, last, u :: pre, v, post, rfl, hp, hv => by
    rw [List.cons_append, firstVersionFrom, if_neg (not_not.2 (hp u (by simp))),
      firstVersion_run terms sc _ (some u) pre v post rfl (fun w hw => hp w (by simp [hw])) hv]
    cases pre with
    | nil => rfl
    | cons x l => rw [List.getLast?_cons_cons]; cases h : (x :: l).getLast? with
      | none => simp at h
      | some y => rfl

/-- **C112, the version found**, exactly: the one just before the first version without the script, none if that is the first of all or if
there is no such version. -/
theorem C112_found (terms : V → List Str) (sc : Str) :
    (∀ pre v post, (∀ u ∈ pre, sc ∈ terms u) → sc ∉ terms v → firstVersion terms (pre ++ v :: post) sc = pre.getLast?) ∧
    ∀ l, (∀ u ∈ l, sc ∈ terms u) → firstVersion terms l sc = none := by
  constructor
  · intro pre v post hp hv
    unfold firstVersion
    rw [firstVersion_run terms sc _ none pre v post rfl hp hv]
    cases pre.getLast? <;> rfl
  · intro l
    unfold firstVersion
    suffices ∀ last, (∀ u ∈ l, sc ∈ terms u) → firstVersionFrom terms sc last l = none from this none
    induction l with
    | nil => intros; rfl
    | cons u l ih =>
      intro last h
      rw [firstVersionFrom, if_neg (not_not.2 (h u (by simp)))]
      exact ih _ fun w hw => h w (by simp [hw])

/-- **C112, what holds**: when the versions are given from the last to the first, some version has the script, no version after that lacks it,
and some version lacks it, the version found is the first one with the script.  Missing: versions given from the first to the last
(`C112_violated_order`), scripts of all versions (`C112_violated_all`). -/
theorem C112_first_partial {terms : V → List Str} {sc : Str} {with_ without : List V} (h1 : with_ ≠ []) (h2 : without ≠ [])
    (hw : ∀ u ∈ with_, sc ∈ terms u) (hn : ∀ u ∈ without, sc ∉ terms u) :
    ∃ v, firstVersion terms (with_ ++ without) sc = some v ∧ (with_ ++ without).reverse.find? (fun u => sc ∈ terms u) = some v := by
  obtain ⟨w, ws, rfl⟩ := List.exists_cons_of_ne_nil h2
  have e := (C112_found terms sc).1 with_ w ws hw (hn w (by simp))
  cases hl : with_.getLast? with
  | none => exact absurd (List.getLast?_eq_none_iff.1 hl) h1
  | some v =>
    refine ⟨v, by rw [e, hl], ?_⟩
    rw [List.reverse_append, List.find?_append]
    have : (w :: ws).reverse.find? (fun u => decide (sc ∈ terms u)) = none := by
      rw [List.find?_eq_none]
      intro u hu
      simpa using hn u (List.mem_reverse.1 hu)
    rw [this, Option.none_or]
    have hv : v ∈ with_ := List.mem_of_getLast? hl
    rw [← List.head?_reverse] at hl
    cases hr : with_.reverse with
    | nil => rw [hr] at hl; cases hl
    | cons x l =>
      rw [hr] at hl
      cases hl
      rw [List.find?_cons_of_pos]
      simpa using hw _ hv

/-- **C112 is violated** when the versions are given from the first to the last (`dictionary_tools.py` line 15 reverses the list to begin with
the last): nothing is found for a script added later. -/
theorem C112_violated_order : firstVersion (fun n : Nat => if n = 0 then [c!"S:"] else [c!"S:", c!"B:"]) [0, 1, 2] (c!"B:") = none := by decide

/-- **C112 is violated** for a script of all versions: nothing is found. -/
theorem C112_violated_all : firstVersion (fun n : Nat => if n = 0 then [c!"S:"] else [c!"S:", c!"B:"]) [2, 1, 0] (c!"S:") = none := by decide

example : firstVersion (fun n : Nat => if n = 0 then [c!"S:"] else [c!"S:", c!"B:"]) ([3, 2, 1] ++ [0]) (c!"B:") = some 1 := by decide

example : versionDiff [c!"S:", c!"B:", c!"S:"] [c!"T:", c!"B:"] = ([c!"S:"], [c!"T:"]) := by decide

end Verif
