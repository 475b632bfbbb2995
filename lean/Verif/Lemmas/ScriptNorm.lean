import Verif.Lemmas.ScriptStr
import Mathlib.Data.List.Sort

/-
Two well-formed scripts with the same text have the same structure, up to
* one-term sums (`add [c]` has the text of `c`), and
* `MultiplicativeScript` of three empty roles, which has the text of the `NullScript` of its layer.
-/

namespace Verif
namespace Script

/-- A list of terms as a script: a one-term sum is its term. -/
def packN : List Script → Script
  | [c] => c
  | cs => add cs

mutual
/-- Structure of a script up to one-term sums and products of empty roles. -/
def norm : Script → Script
  | null l => null l
  | prim p => prim p
  | mult s a m => if (mult s a m).empty then null (s.layer + 1) else mult s.norm a.norm m.norm
  | add cs => packN (normL cs)
def normL : List Script → List Script
  | [] => []
  | c :: cs => c.norm :: normL cs
end

theorem normL_eq (cs : List Script) : normL cs = cs.map norm := by
  induction cs with
  | nil => simp [normL]
  | cons c cs ih => simp [normL, ih]

theorem norm_add (cs : List Script) : (add cs).norm = packN (cs.map norm) := by
  simp [norm, normL_eq]

theorem norm_items (s : Script) : s.norm = packN ((items s).map norm) := by
  cases s with
  | null l => simp [items, packN]
  | prim p => simp [items, packN]
  | mult s a m => simp [items, packN]
  | add cs =>
    simp only [items]
    split
    · simp [packN]
    · rw [norm_add]

/-! ### Empty scripts -/

theorem nullStr_succ {l : Nat} (h : l + 1 ≤ 6) : nullStr (l + 1) = nullStr l ++ [mk (l + 1)] := by
  simp [nullStr, List.range_succ, markStr_eq h]

theorem remMulLookup_E {r : Str} : remMulLookup ('E' :: r) = none := by
  cases h : remMulLookup ('E' :: r) with
  | none => rfl
  | some ch =>
    obtain ⟨p, q, h1, _⟩ := remMulLookup_some h
    simp at h1
    exact absurd h1.1.symm (primChar_ne_E p)

theorem remMulLookup_nullStr (l : Nat) : remMulLookup (nullStr l) = none := by
  rw [nullStr]; exact remMulLookup_E

theorem rawMult_empty {s a m : Script} (ha : a.empty = true) (hm : m.empty = true) : rawMult s a m = s.str := by
  simp [rawMult_eq, tailRoles, ha, hm]

theorem remAdd?_single (c : Script) : remAdd? [c] = none := by
  rw [remAdd?]
  split
  · rename_i h
    rw [List.find?_eq_none]
    intro k _
    cases c with
    | prim p => cases p <;> cases k <;> decide
    | _ => cases k <;> simp [letter?, sameSet, RemAdd.letters, List.filterMap]
  · rfl

theorem role_empty {s : Script} (hr : Role s) (h : s.empty = true) : s = null s.layer := by
  obtain ⟨l, rfl⟩ := hr.2 h
  simp [layer]

theorem empty_str {s : Script} (h : WF s) (ha : s.isAdd = false) (he : s.empty = true) : s.str = nullStr s.layer := by
  cases h with
  | null h => simp [str, layer]
  | prim => simp [empty] at he
  | @mult s a m h1 h2 h3 h4 h5 h6 h7 h8 h9 h10 =>
    rw [empty_mult] at he
    split at he
    · cases he
    · rename_i hn
      simp only [Bool.and_eq_true] at he
      rw [str_mult, hn]
      simp only []
      rw [rawMult_empty he.1.2 he.2, role_empty h7 he.1.1, markStr_eq (by simp [layer]; omega)]
      simp only [str, layer]
      rw [nullStr_succ (by omega)]
  | add => simp [isAdd] at ha

/-- A product of empty roles is empty, and only such. -/
theorem empty_mult_wf {s a m : Script} (h : WF (mult s a m)) :
    (mult s a m).empty = (s.empty && a.empty && m.empty) := by
  rw [empty_mult]
  split
  · rename_i hs
    obtain ⟨p, q, hr, rfl⟩ := remMulLookup_some hs
    cases hse : s.empty <;> cases hae : a.empty <;> cases hme : m.empty <;> simp
    cases h with
    | mult h1 h2 h3 h4 h5 h6 h7 h8 h9 h10 =>
      rw [rawMult_empty hae hme, role_empty h7 hse] at hr
      simp only [str, nullStr, List.cons.injEq] at hr
      exact primChar_ne_E p hr.1.symm
  · rfl

theorem empty_add_wf {cs : List Script} (h : WF (add cs)) :
    (add cs).empty = true ↔ ∃ c, cs = [c] ∧ c.empty = true := by
  rw [empty_add]
  constructor
  · intro he
    split at he
    · cases he
    · cases h with
      | add h1 h2 h3 h4 h5 h6 h7 =>
        simp only [List.all_eq_true] at he
        cases cs with
        | nil => exact absurd rfl h1
        | cons c cs =>
          cases cs with
          | nil => exact ⟨c, rfl, he c (by simp)⟩
          | cons d ds =>
            exfalso
            have e1 := empty_str (h2 c (by simp)) (h4 c (by simp)) (he c (by simp))
            have e2 := empty_str (h2 d (by simp)) (h4 d (by simp)) (he d (by simp))
            rw [h3 c (by simp)] at e1
            rw [h3 d (by simp)] at e2
            have := (List.pairwise_cons.1 h5).1 d (by simp)
            exact this (by rw [e1, e2])
  · rintro ⟨c, rfl, hc⟩
    simp [remAdd?_single, hc]

theorem norm_isNull {s : Script} (h : WF s) : s.norm.isNull = s.empty := by
  induction h with
  | null h => simp [norm, isNull, empty]
  | prim => simp [norm, isNull, empty]
  | mult =>
    rw [norm]
    split
    · rename_i h; simp [isNull, h]
    · rename_i h; simp [isNull, h]
  | @add cs h1 h2 h3 h4 h5 h6 h7 ih =>
    have hw : WF (add cs) := .add h1 h2 h3 h4 h5 h6 h7
    rw [norm_add]
    cases cs with
    | nil => exact absurd rfl h1
    | cons c cs =>
      cases cs with
      | nil =>
        simp only [List.map_cons, List.map_nil, packN]
        rw [ih c (by simp), empty_add, remAdd?_single]
        simp
      | cons d ds =>
        simp only [List.map_cons, packN, isNull]
        cases he : (add (c :: d :: ds)).empty with
        | false => rfl
        | true =>
          obtain ⟨c', hc', _⟩ := (empty_add_wf hw).1 he
          simp at hc'

/-! ### Layer 0 -/

/-- The scripts of layer 0 that are not sums. -/
theorem layer0_cases {s : Script} (h0 : s.layer = 0) (ha : s.isAdd = false) : s = null 0 ∨ ∃ p, s = prim p := by
  cases s with
  | null l => simp [layer] at h0; exact Or.inl (by rw [h0])
  | prim p => exact Or.inr ⟨p, rfl⟩
  | mult s a m => simp [layer] at h0
  | add cs => simp [isAdd] at ha

theorem lt_layer0 {s t : Script} (h0 : s.layer = 0) (ha : s.isAdd = false) (h0' : t.layer = 0) (ha' : t.isAdd = false) :
    lt s t = decide (s.charValue < t.charValue) := by
  rcases layer0_cases h0 ha with rfl | ⟨p, rfl⟩ <;> rcases layer0_cases h0' ha' with rfl | ⟨q, rfl⟩
  · decide
  · cases q <;> decide
  · cases p <;> decide
  · cases p <;> cases q <;> decide

theorem charValue_inj {s t : Script} (h0 : s.layer = 0) (ha : s.isAdd = false) (h0' : t.layer = 0)
    (ha' : t.isAdd = false) (h : s.charValue = t.charValue) : s = t := by
  rcases layer0_cases h0 ha with rfl | ⟨p, rfl⟩ <;> rcases layer0_cases h0' ha' with rfl | ⟨q, rfl⟩
  · rfl
  · exfalso; revert h; cases q <;> decide
  · exfalso; revert h; cases p <;> decide
  · revert h; cases p <;> cases q <;> simp [charValue, Prim.value]

theorem letter?_inj {s t : Script} (h0 : s.layer = 0) (ha : s.isAdd = false) (h0' : t.layer = 0)
    (ha' : t.isAdd = false) {c : Char} (h : s.letter? = some c) (h' : t.letter? = some c) : s = t := by
  rcases layer0_cases h0 ha with rfl | ⟨p, rfl⟩ <;> rcases layer0_cases h0' ha' with rfl | ⟨q, rfl⟩
  · rfl
  · simp [letter?] at h h'; rw [← h] at h'; exact absurd h' (primChar_ne_E q)
  · simp [letter?] at h h'; rw [← h'] at h; exact absurd h (primChar_ne_E p)
  · simp [letter?] at h h'; rw [← h'] at h; rw [primChar_inj h]

theorem letter?_isSome {s : Script} (h0 : s.layer = 0) (ha : s.isAdd = false) : ∃ c, s.letter? = some c := by
  rcases layer0_cases h0 ha with rfl | ⟨p, rfl⟩
  · exact ⟨_, rfl⟩
  · exact ⟨_, rfl⟩

theorem remAdd?_some {cs : List Script} {k : RemAdd} (h : remAdd? cs = some k) :
    (add cs).layer = 0 ∧ sameSet (cs.filterMap letter?) k.letters = true := by
  rw [remAdd?] at h
  split at h
  · rename_i h0
    exact ⟨h0, List.find?_some (p := fun k : RemAdd => sameSet (cs.filterMap letter?) k.letters) h⟩
  · cases h

theorem sameSet_iff {a b : List Char} : sameSet a b = true ↔ ∀ c, c ∈ a ↔ c ∈ b := by
  simp only [sameSet, Bool.and_eq_true, List.all_eq_true, List.contains_iff_mem]
  constructor
  · intro h c; exact ⟨h.1 c, h.2 c⟩
  · intro h; exact ⟨fun c hc => (h c).1 hc, fun c hc => (h c).2 hc⟩

/-- Two strictly increasing lists of layer 0 terms with the same letters are equal. -/
theorem layer0_list_ext {cs ds : List Script} (hc0 : ∀ c ∈ cs, c.layer = 0) (hca : ∀ c ∈ cs, c.isAdd = false)
    (hd0 : ∀ c ∈ ds, c.layer = 0) (hda : ∀ c ∈ ds, c.isAdd = false)
    (hcs : cs.Pairwise (fun a b => lt a b = true)) (hds : ds.Pairwise (fun a b => lt a b = true))
    (h : ∀ c, c ∈ cs.filterMap letter? ↔ c ∈ ds.filterMap letter?) : cs = ds := by
  have hcs' : cs.Pairwise (fun a b => a.charValue < b.charValue) := by
    refine hcs.imp_of_mem ?_
    intro a b ha hb hab
    rw [lt_layer0 (hc0 a ha) (hca a ha) (hc0 b hb) (hca b hb)] at hab
    simpa using hab
  have hds' : ds.Pairwise (fun a b => a.charValue < b.charValue) := by
    refine hds.imp_of_mem ?_
    intro a b ha hb hab
    rw [lt_layer0 (hd0 a ha) (hda a ha) (hd0 b hb) (hda b hb)] at hab
    simpa using hab
  have hmem : ∀ x, x ∈ cs ↔ x ∈ ds := by
    intro x
    constructor
    · intro hx
      obtain ⟨c, hc⟩ := letter?_isSome (hc0 x hx) (hca x hx)
      have := (h c).1 (List.mem_filterMap.2 ⟨x, hx, hc⟩)
      obtain ⟨y, hy, hyc⟩ := List.mem_filterMap.1 this
      rw [letter?_inj (hc0 x hx) (hca x hx) (hd0 y hy) (hda y hy) hc hyc]; exact hy
    · intro hx
      obtain ⟨c, hc⟩ := letter?_isSome (hd0 x hx) (hda x hx)
      have := (h c).2 (List.mem_filterMap.2 ⟨x, hx, hc⟩)
      obtain ⟨y, hy, hyc⟩ := List.mem_filterMap.1 this
      rw [letter?_inj (hd0 x hx) (hda x hx) (hc0 y hy) (hca y hy) hc hyc]; exact hy
  have n1 : cs.Nodup := hcs'.imp (fun {a b} h => by rintro rfl; omega)
  have n2 : ds.Nodup := hds'.imp (fun {a b} h => by rintro rfl; omega)
  have hp : cs.Perm ds := (List.perm_ext_iff_of_nodup n1 n2).2 hmem
  refine hp.eq_of_pairwise (le := fun a b => a.charValue < b.charValue) ?_ hcs' hds'
  intro a b _ _ h1 h2
  omega

/-! ### Injectivity -/

theorem item0_inj {s t : Script} (hs : WF s) (ht : WF t) (is : Item s) (it : Item t) (ls : s.layer = 0)
    (lt' : t.layer = 0) (h : s.str = t.str) : s.norm = t.norm := by
  have key : ∀ {s : Script}, WF s → Item s → s.layer = 0 →
      s = null 0 ∧ s.str = ['E', ':'] ∨ (∃ p, s = prim p ∧ s.str = [p.char, ':']) ∨
      ∃ cs k, s = add cs ∧ remAdd? cs = some k ∧ s.str = [k.char, ':'] := by
    intro s hs is ls
    cases s with
    | null l => simp [layer] at ls; subst ls; exact Or.inl ⟨rfl, by decide⟩
    | prim p => exact Or.inr (Or.inl ⟨p, rfl, by simp [str, markStr, layerMarks]⟩)
    | mult s a m => simp [layer] at ls
    | add cs =>
      simp only [Item] at is
      obtain ⟨k, hk⟩ := Option.isSome_iff_exists.1 is
      exact Or.inr (Or.inr ⟨cs, k, rfl, hk, by rw [str_add, hk]; simp [markStr, layerMarks]⟩)
  rcases key hs is ls with ⟨rfl, e⟩ | ⟨p, rfl, e⟩ | ⟨cs, k, rfl, hk, e⟩ <;>
    rcases key ht it lt' with ⟨rfl, e'⟩ | ⟨q, rfl, e'⟩ | ⟨cs', k', rfl, hk', e'⟩ <;>
    replace h := e.symm.trans (h.trans e') <;> simp at h
  · rfl
  · exact absurd h.symm (primChar_ne_E q)
  · exact absurd h.symm (remChar_ne_E k')
  · exact absurd h (primChar_ne_E p)
  · rw [primChar_inj h]
  · exact absurd h (primChar_ne_remChar p k')
  · exact absurd h (remChar_ne_E k)
  · exact absurd h.symm (primChar_ne_remChar q k)
  · have : cs = cs' := by
      have hkk := remChar_inj h
      subst hkk
      obtain ⟨h0, hs1⟩ := remAdd?_some hk
      obtain ⟨h0', hs2⟩ := remAdd?_some hk'
      cases hs with
      | add h1 h2 h3 h4 h5 h6 h7 =>
        cases ht with
        | add g1 g2 g3 g4 g5 g6 g7 =>
          refine layer0_list_ext (fun c hc => by rw [h3 c hc, h0]) h4 (fun c hc => by rw [g3 c hc, h0']) g4 h6 g6 ?_
          intro c
          rw [sameSet_iff.1 hs1 c, sameSet_iff.1 hs2 c]
    rw [this]

/-- The roles of an item of layer `l + 1`. -/
theorem item_roles {s : Script} (hs : WF s) (is : Item s) {l : Nat} (hl : s.layer = l + 1) :
    ∃ x y z, WF x ∧ WF y ∧ WF z ∧ x.layer = l ∧ y.layer = l ∧ z.layer = l ∧ Role x ∧ Role y ∧ Role z ∧ l ≤ 5 ∧
      s.str = bodyMult x y z ++ [mk (l + 1)] ∧
      s.norm = (if x.empty && y.empty && z.empty then null (l + 1) else mult x.norm y.norm z.norm) := by
  cases hs with
  | @null k h =>
    simp only [layer] at hl; subst hl
    have hr : Role (null l) := ⟨by intro c; simp, fun _ => ⟨l, rfl⟩⟩
    refine ⟨null l, null l, null l, .null (by omega), .null (by omega), .null (by omega), rfl, rfl, rfl, hr, hr, hr,
      by omega, ?_, ?_⟩
    · rw [bodyMult, rawMult_empty (by simp [empty]) (by simp [empty])]
      simp only [str]
      rw [remMulLookup_nullStr]
      exact nullStr_succ h
    · simp [norm, empty]
  | prim => simp [layer] at hl
  | @mult x y z h1 h2 h3 h4 h5 h6 h7 h8 h9 h10 =>
    simp only [layer, Nat.add_right_cancel_iff] at hl
    refine ⟨x, y, z, h1, h2, h3, hl, by omega, by omega, h7, h8, h9, by omega, ?_, ?_⟩
    · rw [str_mult', markStr_eq (by omega), hl]
    · rw [norm, empty_mult_wf (.mult h1 h2 h3 h4 h5 h6 h7 h8 h9 h10), hl]
  | @add cs h1 h2 h3 h4 h5 h6 h7 =>
    simp only [Item] at is
    rw [remAdd?_of_layer (by omega)] at is
    cases is

theorem bodyMult_inj {x y z x' y' z' : Script} (h1 : WF x) (h1' : WF x') (h : bodyMult x y z = bodyMult x' y' z') :
    rawMult x y z = rawMult x' y' z' := by
  have aux : ∀ {x y z : Script} {p q : Prim}, WF x → rawMult x y z ≠ remMulName p q := by
    intro x y z p q hx he
    obtain ⟨b, hb⟩ := str_last hx
    have : mk x.layer ∈ rawMult x y z := by rw [rawMult_eq, hb]; simp
    rw [he] at this
    have := remMulName_letters p q _ this
    rw [mk_not_letter (wf_layer hx)] at this
    cases this
  rw [bodyMult, bodyMult] at h
  split at h <;> split at h
  · rename_i e _ _ e'
    obtain ⟨p, q, e1, e2⟩ := remMulLookup_some e
    obtain ⟨p', q', e1', e2'⟩ := remMulLookup_some e'
    rw [e2, e2'] at h
    obtain ⟨rfl, rfl⟩ := remMulName_inj h
    rw [e1, e1']
  · rename_i e _ _
    obtain ⟨p, q, e1, e2⟩ := remMulLookup_some e
    rw [e2] at h
    exact absurd h.symm (aux h1')
  · rename_i _ _ _ e'
    obtain ⟨p, q, e1, e2⟩ := remMulLookup_some e'
    rw [e2] at h
    exact absurd h (aux h1)
  · exact h

theorem tailRoles_inj {y z y' z' : Script} (h2 : WF y) (h3 : WF z) (h2' : WF y') (h3' : WF z')
    (ly : y.layer = y'.layer) (h : tailRoles y z = tailRoles y' z') :
    (y.empty = true ∧ z.empty = true ∧ y'.empty = true ∧ z'.empty = true) ∨
    (y.str = y'.str ∧ z.empty = z'.empty ∧ (z.empty = false → z.str = z'.str)) := by
  rw [tailRoles, tailRoles] at h
  have n2 := (startsLetter_str h2).ne_nil
  have n3 := (startsLetter_str h3).ne_nil
  have n2' := (startsLetter_str h2').ne_nil
  have n3' := (startsLetter_str h3').ne_nil
  have p3 := (startsLetter_str h3).noPlus
  have p3' := (startsLetter_str h3').noPlus
  cases ez : z.empty <;> cases ez' : z'.empty <;> simp only [ez, ez'] at h
  · right
    obtain ⟨_, e1, e2⟩ := str_split h2 h2' ly p3 p3' (by simpa using h)
    exact ⟨e1, rfl, fun _ => e2⟩
  · exfalso
    cases ey' : y'.empty <;> simp [ey'] at h
    · have := str_split h2 h2' ly p3 noPlus_nil (by simpa using h)
      exact n3 this.2.2
    · exact n2 h.1
  · exfalso
    cases ey : y.empty <;> simp [ey] at h
    · have := str_split h2 h2' ly noPlus_nil p3' (by simpa using h)
      exact n3' this.2.2.symm
    · exact n2' h.1
  · cases ey : y.empty <;> cases ey' : y'.empty <;> simp [ey, ey'] at h
    · right; exact ⟨h, rfl, by simp⟩
    · exact absurd h n2
    · exact absurd h n2'
    · left; simp

/-- Same text, same normal form. -/
theorem str_inj_aux : ∀ (l : Nat) {s t : Script}, WF s → WF t → s.layer = l → t.layer = l → s.str = t.str →
    s.norm = t.norm := by
  intro l
  induction l with
  | zero =>
    intro s t hs ht ls lt' h
    have h2 := str_split (x := []) (y := []) hs ht (by rw [ls, lt']) noPlus_nil noPlus_nil (by simpa using h)
    rw [norm_items s, norm_items t]
    congr 1
    have hi := items_item hs
    have hj := items_item ht
    rw [ls] at hi; rw [lt'] at hj
    exact list_map_congr h2.1 hi hj (fun a b ha hb hab => item0_inj ha.1 hb.1 ha.2.1 hb.2.1 ha.2.2 hb.2.2 hab)
  | succ l ih =>
    intro s t hs ht ls lt' h
    have h2 := str_split (x := []) (y := []) hs ht (by rw [ls, lt']) noPlus_nil noPlus_nil (by simpa using h)
    rw [norm_items s, norm_items t]
    congr 1
    have hi := items_item hs
    have hj := items_item ht
    rw [ls] at hi; rw [lt'] at hj
    refine list_map_congr h2.1 hi hj (fun a b ha hb hab => ?_)
    obtain ⟨x, y, z, h1, h2, h3, l1, l2, l3, r1, r2, r3, hl, e, en⟩ := item_roles ha.1 ha.2.1 ha.2.2
    obtain ⟨x', y', z', h1', h2', h3', l1', l2', l3', r1', r2', r3', _, e', en'⟩ := item_roles hb.1 hb.2.1 hb.2.2
    rw [e, e'] at hab
    have hraw := bodyMult_inj h1 h1' (List.append_cancel_right hab)
    rw [rawMult_eq, rawMult_eq] at hraw
    obtain ⟨_, sx, tl⟩ := str_split h1 h1' (by rw [l1, l1']) (noPlus_tailRoles h2) (noPlus_tailRoles h2') hraw
    have nx := ih h1 h1' l1 l1' sx
    have ex : x.empty = x'.empty := by rw [← norm_isNull h1, ← norm_isNull h1', nx]
    have hy : y.norm = y'.norm ∧ z.norm = z'.norm := by
      rcases tailRoles_inj h2 h3 h2' h3' (by rw [l2, l2']) tl with ⟨a1, a2, a3, a4⟩ | ⟨a1, a2, a3⟩
      · rw [role_empty r2 a1, role_empty r3 a2, role_empty r2' a3, role_empty r3' a4, l2, l2', l3, l3']
        exact ⟨rfl, rfl⟩
      · refine ⟨ih h2 h2' l2 l2' a1, ?_⟩
        cases hz : z.empty with
        | false => exact ih h3 h3' l3 l3' (a3 hz)
        | true =>
          rw [hz] at a2
          rw [role_empty r3 hz, role_empty r3' a2.symm, l3, l3']
    have ey : y.empty = y'.empty := by rw [← norm_isNull h2, ← norm_isNull h2', hy.1]
    have ez : z.empty = z'.empty := by rw [← norm_isNull h3, ← norm_isNull h3', hy.2]
    rw [en, en', ex, ey, ez, nx, hy.1, hy.2]
where
  list_map_congr {P Q : Script → Prop} : ∀ {xs ys : List Script}, xs.map str = ys.map str → (∀ c ∈ xs, P c) →
      (∀ c ∈ ys, Q c) → (∀ a b, P a → Q b → a.str = b.str → a.norm = b.norm) → xs.map norm = ys.map norm
    | [], [], _, _, _, _ => rfl
    | [], _ :: _, h, _, _, _ => by simp at h
    | _ :: _, [], h, _, _, _ => by simp at h
    | a :: xs, b :: ys, h, hp, hq, hf => by
      simp only [List.map_cons, List.cons.injEq] at h ⊢
      exact ⟨hf a b (hp a (by simp)) (hq b (by simp)) h.1,
        list_map_congr h.2 (fun c hc => hp c (List.mem_cons_of_mem _ hc))
          (fun c hc => hq c (List.mem_cons_of_mem _ hc)) hf⟩

theorem norm_eq_of_str {s t : Script} (hs : WF s) (ht : WF t) (h : s.str = t.str) : s.norm = t.norm :=
  str_inj_aux s.layer hs ht rfl (layer_of_str hs ht h).symm h

end Script
end Verif
