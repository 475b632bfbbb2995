import Verif.Model.ListUsls
import Verif.Lemmas.PathOrder
import Verif.Lemmas.FromPaths
import Verif.Props.Cache
import Verif.Props.Arguments
import Verif.Props.Index

/-
The list of the expressions of the database: the order of the records, the loop and its elements.
-/

namespace Verif
open Script

/-! ### The order of the records -/

/-- A code of the key of a record. -/
def recordKey (r : Str × Str × Str × Str) : List Nat :=
  (r.1.map Char.toNat).map (· + 1) ++ 0 :: ((r.2.1.map Char.toNat).map (· + 1) ++ 0 :: ((r.2.2.1.map Char.toNat).map (· + 1) ++ 0 :: []))

theorem codes_inj {a b : Str} : a.map Char.toNat = b.map Char.toNat ↔ a = b :=
  ⟨fun e => (List.map_injective_iff.2 fun _ _ => Char.toNat_inj.1) e, fun e => e ▸ rfl⟩

theorem ltRecord_key (a b : Str × Str × Str × Str) : ltRecord a b = ltBytes (recordKey a) (recordKey b) := by
  unfold ltRecord recordKey ltStr
  rw [ltBytes_mapSucc_zero, ltBytes_mapSucc_zero, ltBytes_mapSucc_zero]
  simp only [codes_inj]
  by_cases h1 : a.1 = b.1
  · by_cases h2 : a.2.1 = b.2.1
    · by_cases h3 : a.2.2.1 = b.2.2.1
      · simp [h1, h2, h3, ltBytes_irrefl, ltBytes]
      · simp [h1, h2, h3, ltBytes_irrefl]
    · simp [h1, h2, ltBytes_irrefl]
  · simp [h1]

theorem recordKey_eq {a b : Str × Str × Str × Str} : recordKey a = recordKey b ↔ a.1 = b.1 ∧ a.2.1 = b.2.1 ∧ a.2.2.1 = b.2.2.1 := by
  constructor
  · intro h
    obtain ⟨h1, h⟩ := mapSucc_zero h
    obtain ⟨h2, h⟩ := mapSucc_zero h
    obtain ⟨h3, _⟩ := mapSucc_zero h
    exact ⟨codes_inj.1 h1, codes_inj.1 h2, codes_inj.1 h3⟩
  · rintro ⟨h1, h2, h3⟩
    rw [recordKey, recordKey, h1, h2, h3]

/-- The texts of the sorted records are in order. -/
theorem records_sorted (rows : List (Str × Str × Str × Str)) :
    (pySort ltRecord rows).Pairwise fun a b => ltStr b.1 a.1 = false := by
  refine (pySort_sorted (lt := ltRecord) (k := recordKey) (l := rows) fun a _ b _ => ltRecord_key a b).imp fun {a b} h => ?_
  rw [← ltRecord_key] at h
  cases hc : ltStr b.1 a.1 with
  | false => rfl
  | true => rw [ltRecord, hc, Bool.true_or] at h; cases h

/-- The values of the descriptors of a text, in the order of the records. -/
def recordValues (rows : List (Str × Str × Str × Str)) (k lang desc : Str) : List Str :=
  (rows.filter fun r => r.1 = k ∧ r.2.1 = lang ∧ r.2.2.1 = desc).map (·.2.2.2)

theorem stored_sorted (rows : List (Str × Str × Str × Str)) (k lang desc : Str) :
    recordValues (pySort ltRecord rows) k lang desc = recordValues rows k lang desc := by
  unfold recordValues
  have e : ∀ l : List (Str × Str × Str × Str), l.filter (fun r => decide (r.1 = k ∧ r.2.1 = lang ∧ r.2.2.1 = desc)) =
      l.filter fun r => decide (recordKey r = recordKey (k, lang, desc, [])) := by
    intro l
    congr 1
    funext r
    rw [decide_eq_decide, recordKey_eq]
  rw [e, e, pySort_filter _ fun a _ b _ => ltRecord_key a b]

/-! ### Dictionaries -/

theorem setEntry_mem {β : Type} {k : Str} {v : β} {d : List (Str × β)} (hd : Keyed d) {f : Str × β} :
    f ∈ dictSet id k v d ↔ f = (k, v) ∨ f ∈ d ∧ f.1 ≠ k := by
  by_cases h : k ∈ d.map (·.1)
  · exact argSet_entries hd h
  · have hf : ∀ e ∈ d, e.1 ≠ k := fun e he hc => h (hc ▸ List.mem_map_of_mem he)
    rw [dictSet_fresh (key := id) hf, List.mem_append, List.mem_singleton]
    constructor
    · rintro (h1 | rfl)
      · exact .inr ⟨h1, hf f h1⟩
      · exact .inl rfl
    · rintro (rfl | ⟨h1, _⟩)
      · exact .inr rfl
      · exact .inl h1

theorem setEntry_keys {β : Type} {k : Str} {v : β} {d : List (Str × β)} :
    (dictSet id k v d).map (·.1) = if k ∈ d.map (·.1) then d.map (·.1) else d.map (·.1) ++ [k] := by
  split
  · rename_i h; exact dictSet_keyed h
  · rename_i h
    rw [dictSet_fresh (key := id) fun e he (hc : e.1 = k) => h (hc ▸ List.mem_map_of_mem he), List.map_append]
    rfl

theorem setEntry_keyed {β : Type} {k : Str} {v : β} {d : List (Str × β)} (hd : Keyed d) : Keyed (dictSet id k v d) := by
  unfold Keyed at hd ⊢
  rw [setEntry_keys]
  split
  · exact hd
  · rename_i h
    exact hd.append (List.nodup_singleton _) (by simpa using h)

/-! ### One value more -/

/-- The values of a text: for each of its descriptors the values of every language, in the order of the records. -/
def ValuesOf (rows : List (Str × Str × Str × Str)) (k : Str) (vals : List (Str × List (Str × List Str))) : Prop :=
  Keyed vals ∧ ∀ f, f ∈ vals ↔ (∃ r ∈ rows, r.1 = k ∧ r.2.2.1 = f.1) ∧ f.2 = languages.map fun l => (l, recordValues rows k l f.1)

theorem stored_snoc (rows : List (Str × Str × Str × Str)) (r : Str × Str × Str × Str) (k l desc : Str) :
    recordValues (rows ++ [r]) k l desc =
      recordValues rows k l desc ++ if r.1 = k ∧ r.2.1 = l ∧ r.2.2.1 = desc then [r.2.2.2] else [] := by
  unfold recordValues
  rw [List.filter_append, List.map_append]
  congr 1
  by_cases h : r.1 = k ∧ r.2.1 = l ∧ r.2.2.1 = desc
  · rw [if_pos h, List.filter_cons_of_pos (by simpa using h)]; rfl
  · rw [if_neg h, List.filter_cons_of_neg (by simpa using h)]; rfl

theorem ValuesOf.other {rows : List (Str × Str × Str × Str)} {k : Str} {vals : List (Str × List (Str × List Str))} (h : ValuesOf rows k vals)
    {r : Str × Str × Str × Str} (hr : r.1 ≠ k) : ValuesOf (rows ++ [r]) k vals := by
  refine ⟨h.1, fun f => ?_⟩
  rw [h.2 f]
  have e : ∀ l, recordValues (rows ++ [r]) k l f.1 = recordValues rows k l f.1 := by
    intro l
    rw [stored_snoc, if_neg fun hc => hr hc.1, List.append_nil]
  simp only [e]
  refine and_congr_left fun _ => ?_
  constructor
  · rintro ⟨r', h1, h2⟩; exact ⟨r', by simp [h1], h2⟩
  · rintro ⟨r', h1, h2⟩
    rcases List.mem_append.1 h1 with h1 | h1
    · exact ⟨r', h1, h2⟩
    · rw [List.mem_singleton.1 h1] at h2; exact absurd h2.1 hr

theorem ValuesOf.absent {rows : List (Str × Str × Str × Str)} {k : Str} (h : ∀ r ∈ rows, r.1 ≠ k) : ValuesOf rows k [] := by
  refine ⟨by unfold Keyed; simp, fun f => ?_⟩
  constructor
  · intro hf; cases hf
  · rintro ⟨⟨r, h1, h2, _⟩, _⟩; exact absurd h2 (h r h1)

theorem addListed_ok {e e' : Listed} {lang desc v : Str} : addListed e lang desc v = .ok e' ↔
    (desc ∉ listedFields ∧ lang ∈ languages) ∧
    e' = { e with values := dictSet id desc ((languageLists e.values desc).map fun x => if x.1 = lang then (x.1, x.2 ++ [v]) else x) e.values } := by
  unfold addListed
  by_cases h1 : desc ∈ listedFields
  · rw [if_pos (by simpa using h1)]
    simp [h1, throw, throwThe, MonadExceptOf.throw, bind, Except.bind]
  · rw [if_neg (by simpa using h1)]
    by_cases h2 : lang ∈ languages
    · simp only [List.contains_eq_mem, h2, decide_true, Bool.not_true, Bool.false_eq_true, if_false, h1, not_false_eq_true, true_and]
      constructor
      · intro h
        injection h with h
        exact h.symm
      · rintro rfl
        rfl
    · simp only [List.contains_eq_mem, h2, decide_false, Bool.not_false, if_true, h1]
      simp [throw, throwThe, MonadExceptOf.throw, bind, Except.bind, pure, Except.pure]

theorem ValuesOf.add {rows : List (Str × Str × Str × Str)} {k lang desc v : Str} {e e' : Listed} (h : ValuesOf rows k e.values)
    (ha : addListed e lang desc v = .ok e') : ValuesOf (rows ++ [(k, lang, desc, v)]) k e'.values := by
  obtain ⟨-, rfl⟩ := addListed_ok.1 ha
  have hold : languageLists e.values desc = languages.map fun l => (l, recordValues rows k l desc) := by
    unfold languageLists
    split
    · rename_i x hx
      have h1 := List.mem_of_find?_eq_some hx
      have h2 : x.1 = desc := by simpa using List.find?_some hx
      rw [((h.2 x).1 h1).2, h2]
    · rename_i hx
      refine List.map_congr_left fun l _ => ?_
      have : recordValues rows k l desc = [] := by
        unfold recordValues
        rw [List.map_eq_nil_iff, List.filter_eq_nil_iff]
        intro r hr hc
        simp only [decide_eq_true_eq] at hc
        have := (h.2 (desc, languages.map fun l => (l, recordValues rows k l desc))).2 ⟨⟨r, hr, hc.1, hc.2.2⟩, rfl⟩
        have := List.find?_eq_none.1 hx _ this
        simp at this
      rw [this]
  refine ⟨setEntry_keyed h.1, fun f => ?_⟩
  simp only [hold]
  rw [setEntry_mem h.1, h.2 f]
  have hnew : (languages.map fun l => (l, recordValues rows k l desc)).map (fun x => if x.1 = lang then (x.1, x.2 ++ [v]) else x) =
      languages.map fun l => (l, recordValues (rows ++ [(k, lang, desc, v)]) k l desc) := by
    rw [List.map_map]
    refine List.map_congr_left fun l _ => ?_
    rw [stored_snoc]
    by_cases hl : l = lang
    · simp [hl]
    · have : ¬ lang = l := fun hc => hl hc.symm
      simp [hl, this]
  rw [hnew]
  by_cases hf : f.1 = desc
  · constructor
    · rintro (rfl | ⟨_, hc⟩)
      · exact ⟨⟨(k, lang, desc, v), by simp, rfl, rfl⟩, rfl⟩
      · exact absurd hf hc
    · rintro ⟨_, h2⟩
      exact .inl (Prod.ext hf (by rw [h2, hf]))
  · have e : ∀ l, recordValues (rows ++ [(k, lang, desc, v)]) k l f.1 = recordValues rows k l f.1 := by
      intro l
      rw [stored_snoc, if_neg fun hc => hf hc.2.2.symm, List.append_nil]
    simp only [e]
    constructor
    · rintro (rfl | ⟨⟨⟨r, h1, h2⟩, h3⟩, _⟩)
      · exact absurd rfl hf
      · exact ⟨⟨r, by simp [h1], h2⟩, h3⟩
    · rintro ⟨⟨r, h1, h2⟩, h3⟩
      rcases List.mem_append.1 h1 with h1 | h1
      · exact .inr ⟨⟨⟨r, h1, h2⟩, h3⟩, hf⟩
      · rw [List.mem_singleton.1 h1] at h2; exact absurd h2.2.symm hf

/-! ### The loop -/

/-- A record that the loop takes: its text does not parse, or its element is computed and its value can be added. -/
def TakesRecord (d : DictBase) (r : Str × Str × Str × Str) : Prop :=
  readIn d.scripts r.1 = .error .cannotParse ∨
    ∃ u e, readIn d.scripts r.1 = .ok (u, []) ∧ listedOf d r.1 u = .ok e ∧ r.2.2.1 ∉ listedFields ∧ r.2.1 ∈ languages

/-- The dictionary after some records. -/
structure ListInv (d : DictBase) (rows : List (Str × Str × Str × Str)) (res : List (Str × Listed)) : Prop where
  keys : (res.map (·.1)).Sublist (rows.map (·.1))
  keyed : Keyed res
  read : ∀ x ∈ res, ∃ u e, readIn d.scripts x.1 = .ok (u, []) ∧ listedOf d x.1 u = .ok e ∧ x.2 = { e with values := x.2.values }
  values : ∀ x ∈ res, ValuesOf rows x.1 x.2.values
  rows : ∀ r ∈ rows, TakesRecord d r ∧ (readIn d.scripts r.1 = .error .cannotParse ∨ r.1 ∈ res.map (·.1))

theorem ListInv.nil (d : DictBase) : ListInv d [] [] where
  keys := .slnil
  keyed := by unfold Keyed; simp
  read := by simp
  values := by simp
  rows := by simp

theorem find_key {β : Type} {k : Str} {l : List (Str × β)} {x : Str × β} (h : l.find? (·.1 == k) = some x) : x ∈ l ∧ x.1 = k :=
  ⟨List.mem_of_find?_eq_some h, by simpa using List.find?_some h⟩

theorem find_key_none {β : Type} {k : Str} {l : List (Str × β)} (h : l.find? (·.1 == k) = none) : k ∉ l.map (·.1) := by
  intro hc
  obtain ⟨x, hx, rfl⟩ := List.mem_map.1 hc
  have := List.find?_eq_none.1 h x hx
  simp at this

theorem ListInv.step {d : DictBase} {rows : List (Str × Str × Str × Str)} {res res' : List (Str × Listed)} (h : ListInv d rows res)
    {r : Str × Str × Str × Str} (hs : listStep d res r = .ok res') : ListInv d (rows ++ [r]) res' := by
  unfold listStep at hs
  split at hs
  · rename_i x hx
    obtain ⟨hxm, hxk⟩ := find_key hx
    obtain ⟨e', he', hr⟩ := bind_ok.1 hs
    rw [pure_ok] at hr
    subst hr
    have hk : r.1 ∈ res.map (·.1) := hxk ▸ List.mem_map_of_mem hxm
    obtain ⟨u, e, hu, he, hxe⟩ := h.read x hxm
    obtain ⟨⟨hf, hl⟩, heq⟩ := addListed_ok.1 he'
    refine ⟨?_, setEntry_keyed h.keyed, ?_, ?_, ?_⟩
    · rw [setEntry_keys, if_pos hk, List.map_append]
      exact h.keys.trans (List.sublist_append_left _ _)
    · intro y hy
      rcases (setEntry_mem h.keyed).1 hy with rfl | ⟨hy, _⟩
      · refine ⟨u, e, hxk ▸ hu, hxk ▸ he, ?_⟩
        rw [heq, hxe]
      · exact h.read y hy
    · intro y hy
      rcases (setEntry_mem h.keyed).1 hy with rfl | ⟨hy, hne⟩
      · exact ValuesOf.add (hxk ▸ h.values x hxm) he'
      · exact (h.values y hy).other fun hc => hne hc.symm
    · intro r' hr'
      rw [setEntry_keys, if_pos hk]
      rcases List.mem_append.1 hr' with hr' | hr'
      · exact h.rows r' hr'
      · rw [List.mem_singleton.1 hr']
        exact ⟨.inr ⟨u, e, hxk ▸ hu, hxk ▸ he, hf, hl⟩, .inr hk⟩
  · rename_i hx
    have hk := find_key_none hx
    split at hs
    · rename_i hread
      injection hs with hs
      subst hs
      refine ⟨?_, h.keyed, h.read, ?_, ?_⟩
      · rw [List.map_append]
        exact h.keys.trans (List.sublist_append_left _ _)
      · intro y hy
        exact (h.values y hy).other fun hc => hk (hc ▸ List.mem_map_of_mem hy)
      · intro r' hr'
        rcases List.mem_append.1 hr' with hr' | hr'
        · exact h.rows r' hr'
        · rw [List.mem_singleton.1 hr']
          exact ⟨.inl hread, .inl hread⟩
    · cases hs
    · cases hs
    · rename_i u hu
      obtain ⟨e, he, hs⟩ := bind_ok.1 hs
      obtain ⟨e', he', hr⟩ := bind_ok.1 hs
      rw [pure_ok] at hr
      subst hr
      obtain ⟨⟨hf, hl⟩, heq⟩ := addListed_ok.1 he'
      have hnone : ∀ r' ∈ rows, r'.1 ≠ r.1 := by
        intro r' hr' hc
        rcases (h.rows r' hr').2 with h1 | h1
        · rw [hc, hu] at h1; cases h1
        · exact hk (hc ▸ h1)
      have hv : e.values = [] := by
        unfold listedOf at he
        split at he
        · cases he
        · obtain ⟨_, _, he⟩ := bind_ok.1 he
          obtain ⟨_, _, he⟩ := bind_ok.1 he
          obtain ⟨_, _, he⟩ := bind_ok.1 he
          obtain ⟨_, _, he⟩ := bind_ok.1 he
          rw [pure_ok] at he
          rw [← he]
      refine ⟨?_, setEntry_keyed h.keyed, ?_, ?_, ?_⟩
      · rw [setEntry_keys, if_neg hk, List.map_append]
        exact h.keys.append (List.Sublist.refl _)
      · intro y hy
        rcases (setEntry_mem h.keyed).1 hy with rfl | ⟨hy, _⟩
        · refine ⟨u, e, hu, he, ?_⟩
          rw [heq]
        · exact h.read y hy
      · intro y hy
        rcases (setEntry_mem h.keyed).1 hy with rfl | ⟨hy, hne⟩
        · exact ValuesOf.add (hv ▸ ValuesOf.absent hnone) he'
        · exact (h.values y hy).other fun hc => hne hc.symm
      · intro r' hr'
        rw [setEntry_keys, if_neg hk]
        rcases List.mem_append.1 hr' with hr' | hr'
        · obtain ⟨h1, h2⟩ := h.rows r' hr'
          exact ⟨h1, h2.imp_right fun h2 => by simp [h2]⟩
        · rw [List.mem_singleton.1 hr']
          exact ⟨.inr ⟨u, e, hu, he, hf, hl⟩, .inr (by simp)⟩

theorem ListInv.goes {d : DictBase} {rows : List (Str × Str × Str × Str)} {res : List (Str × Listed)} (hi : ListInv d rows res)
    {r : Str × Str × Str × Str} (h : TakesRecord d r) : ∃ res', listStep d res r = .ok res' := by
  unfold listStep
  split
  · rename_i x hx
    rcases h with h | ⟨u, e, hu, he, hf, hl⟩
    · obtain ⟨hxm, hxk⟩ := find_key hx
      obtain ⟨u, e, hu, _⟩ := hi.read x hxm
      rw [hxk, h] at hu
      cases hu
    · exact ⟨_, by rw [addListed_ok.2 ⟨⟨hf, hl⟩, rfl⟩]; rfl⟩
  · rcases h with h | ⟨u, e, hu, he, hf, hl⟩
    · rw [h]; exact ⟨_, rfl⟩
    · rw [hu]
      show ∃ res', (listedOf d r.1 u >>= _) = _
      rw [he]
      show ∃ res', (addListed e r.2.1 r.2.2.1 r.2.2.2 >>= _) = _
      rw [addListed_ok.2 ⟨⟨hf, hl⟩, rfl⟩]
      exact ⟨_, rfl⟩

theorem loop_inv {d : DictBase} : ∀ {rows done : List (Str × Str × Str × Str)} {res res' : List (Str × Listed)}, ListInv d done res →
    rows.foldlM (listStep d) res = .ok res' → ListInv d (done ++ rows) res'
  | [], done, res, res', h, hf => by
    rw [List.foldlM_nil, pure_ok] at hf
    rw [List.append_nil]
    exact hf ▸ h
  | r :: rows, done, res, res', h, hf => by
    rw [List.foldlM_cons] at hf
    obtain ⟨res1, h1, hf⟩ := bind_ok.1 hf
    have := loop_inv (h.step h1) hf
    rwa [List.append_assoc] at this

theorem loop_goes {d : DictBase} : ∀ {rows done : List (Str × Str × Str × Str)} {res : List (Str × Listed)}, ListInv d done res →
    (∀ r ∈ rows, TakesRecord d r) → ∃ res', rows.foldlM (listStep d) res = .ok res'
  | [], _, res, _, _ => ⟨res, rfl⟩
  | r :: rows, done, res, h, ht => by
    obtain ⟨res1, h1⟩ := h.goes (ht r (by simp))
    obtain ⟨res', h2⟩ := loop_goes (rows := rows) (h.step h1) fun r' hr' => ht r' (by simp [hr'])
    exact ⟨res', by rw [List.foldlM_cons, h1]; exact h2⟩

/-! ### The order of the list -/

theorem pairwise_within {α : Type} {R : α → α → Prop} {k : α → List Nat} : ∀ {l : List α},
    (∀ c, (l.filter fun a => k a = c).Pairwise R) → l.Pairwise fun a b => k a = k b → R a b
  | [], _ => .nil
  | x :: l, h => by
    rw [List.pairwise_cons]
    refine ⟨fun y hy he => ?_, pairwise_within fun c => ?_⟩
    · have := h (k x)
      rw [List.filter_cons_of_pos (by simp)] at this
      exact (List.pairwise_cons.1 this).1 y (List.mem_filter.2 ⟨hy, by simp [he]⟩)
    · exact (h c).sublist ((List.sublist_cons_self x l).filter _)

end Verif
