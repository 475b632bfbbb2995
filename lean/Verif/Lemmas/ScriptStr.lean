import Verif.Lemmas.ScriptWF
import Mathlib.Tactic.ByContra

/-
Shape of the text of a script, and unambiguity of the notation.
-/

namespace Verif
namespace Script

/-! ### Marks of higher layers do not occur -/

theorem mem_joinPlus {c : Char} : ∀ {l : List Str}, c ∈ joinPlus l → c = '+' ∨ ∃ s ∈ l, c ∈ s
  | [], h => by simp [joinPlus] at h
  | [s], h => by simp [joinPlus] at h; exact Or.inr ⟨s, by simp, h⟩
  | s :: t :: ts, h => by
    simp only [joinPlus, List.mem_append, List.mem_cons] at h
    rcases h with h | h | h
    · exact Or.inr ⟨s, by simp, h⟩
    · exact Or.inl h
    · rcases mem_joinPlus h with h | ⟨u, hu, hc⟩
      · exact Or.inl h
      · exact Or.inr ⟨u, List.mem_cons_of_mem _ hu, hc⟩

theorem mem_rawMult {c : Char} {s a m : Script} (h : c ∈ rawMult s a m) : c ∈ s.str ∨ c ∈ a.str ∨ c ∈ m.str := by
  rw [rawMult_eq, tailRoles] at h
  rcases List.mem_append.1 h with h | h
  · exact Or.inl h
  · split at h
    · rcases List.mem_append.1 h with h | h
      · exact Or.inr (Or.inl h)
      · exact Or.inr (Or.inr h)
    · split at h
      · exact Or.inr (Or.inl h)
      · simp at h

theorem mem_bodyMult {c : Char} {s a m : Script} (h : c ∈ bodyMult s a m) :
    isLetter c = true ∨ c ∈ s.str ∨ c ∈ a.str ∨ c ∈ m.str := by
  rw [bodyMult] at h
  split at h
  · rename_i h'
    obtain ⟨p, q, _, rfl⟩ := remMulLookup_some h'
    exact Or.inl (remMulName_letters p q c h)
  · exact Or.inr (mem_rawMult h)

theorem mem_nullStr {c : Char} {l : Nat} (hl : l ≤ 6) (h : c ∈ nullStr l) : c = 'E' ∨ ∃ j ≤ l, c = mk j := by
  simp only [nullStr, List.mem_cons, List.mem_flatMap, List.mem_range] at h
  rcases h with h | ⟨j, hj, h⟩
  · exact Or.inl h
  · rw [markStr_eq (by omega)] at h
    exact Or.inr ⟨j, by omega, by simpa using h⟩

/-- The text of a script of layer `l` has no mark above `l`. -/
theorem mk_not_mem {s : Script} (h : WF s) : ∀ {k : Nat}, s.layer < k → k ≤ 6 → mk k ∉ s.str := by
  induction h with
  | @null l h =>
    intro k hk hk' hm
    simp only [str] at hm
    simp only [layer] at hk
    rcases mem_nullStr h hm with h | ⟨j, hj, h⟩
    · exact letter_ne_mk E_letter hk' h.symm
    · have := mk_inj hk' (by omega) h; omega
  | @prim p =>
    intro k hk hk' hm
    simp only [layer] at hk
    simp only [str, markStr_eq (Nat.zero_le 6), List.mem_append, List.mem_singleton] at hm
    rcases hm with h | h
    · exact letter_ne_mk (primChar_letter p) hk' h.symm
    · have := mk_inj hk' (by omega) h; omega
  | @mult s a m hs ha hm' e1 e2 e3 _ _ _ _ ihs iha ihm =>
    intro k hk hk' hm
    simp only [layer] at hk
    rw [str_mult', markStr_eq (by omega)] at hm
    rcases List.mem_append.1 hm with h | h
    · rcases mem_bodyMult h with h | h | h | h
      · rw [mk_not_letter hk'] at h; cases h
      · exact ihs (by omega) hk' h
      · exact iha (by omega) hk' h
      · exact ihm (by omega) hk' h
    · have := mk_inj hk' (by omega) (List.mem_singleton.1 h); omega
  | @add cs h0 hwf hl _ _ _ _ ih =>
    intro k hk hk' hm
    rw [str_add] at hm
    split at hm
    · rw [markStr_eq (by omega)] at hm
      simp only [List.mem_append, List.mem_singleton] at hm
      rcases hm with h | h
      · exact letter_ne_mk (remChar_letter _) hk' h.symm
      · have := mk_inj hk' (by omega) h; omega
    · rcases mem_joinPlus hm with h | ⟨u, hu, hc⟩
      · exact mk_ne_plus hk' h
      · obtain ⟨c, hc', rfl⟩ := List.mem_map.1 hu
        exact ih c hc' (by rw [hl c hc']; exact hk) hk' hc

/-- A text starts with a letter. -/
def StartsLetter (w : Str) : Prop := ∃ c r, w = c :: r ∧ isLetter c = true

theorem StartsLetter.append {w : Str} (h : StartsLetter w) (x : Str) : StartsLetter (w ++ x) := by
  obtain ⟨c, r, rfl, h⟩ := h
  exact ⟨c, r ++ x, by simp, h⟩

theorem StartsLetter.ne_nil {w : Str} (h : StartsLetter w) : w ≠ [] := by
  obtain ⟨c, r, rfl, _⟩ := h
  simp

theorem startsLetter_str {s : Script} (h : WF s) : StartsLetter s.str := by
  induction h with
  | @null l h => exact ⟨'E', (List.range (l + 1)).flatMap markStr, by simp only [str, nullStr], E_letter⟩
  | @prim p => exact ⟨p.char, markStr 0, by simp [str], primChar_letter p⟩
  | @mult s a m _ _ _ _ _ _ _ _ _ _ ihs _ _ =>
    rw [str_mult', bodyMult]
    split
    · rename_i h'
      obtain ⟨p, q, _, rfl⟩ := remMulLookup_some h'
      apply StartsLetter.append
      have h1 := remMulName_letters p q
      have h2 := remMulName_ne_nil p q
      cases hn : remMulName p q with
      | nil => exact absurd hn h2
      | cons c r => exact ⟨c, r, rfl, h1 c (by rw [hn]; simp)⟩
    · rw [rawMult_eq]
      exact (ihs.append _).append _
  | @add cs h0 hwf hl _ _ _ _ ih =>
    rw [str_add]
    split
    · rename_i k _; exact ⟨k.char, markStr 0, by simp, remChar_letter _⟩
    · cases cs with
      | nil => exact absurd rfl h0
      | cons c cs =>
        cases cs with
        | nil => simpa [joinPlus] using ih c (by simp)
        | cons d ds =>
          simp only [List.map_cons, joinPlus]
          exact (ih c (by simp)).append _

/-- Not starting with `+`. -/
def NoPlus (w : Str) : Prop := ∀ r, w ≠ '+' :: r

theorem StartsLetter.noPlus {w : Str} (h : StartsLetter w) : NoPlus w := by
  obtain ⟨c, r, rfl, h⟩ := h
  intro r' he
  simp at he
  rw [he.1] at h
  revert h; decide

theorem noPlus_nil : NoPlus [] := by intro r; simp

theorem noPlus_tailRoles {a m : Script} (ha : WF a) : NoPlus (tailRoles a m) := by
  rw [tailRoles]
  split
  · exact ((startsLetter_str ha).append _).noPlus
  · split
    · exact (startsLetter_str ha).noPlus
    · exact noPlus_nil

/-! ### Items: the parts of a sum -/

/-- Scripts whose text is not a `+`-separated list. -/
def Item (s : Script) : Prop :=
  match s with
  | add cs => (remAdd? cs).isSome
  | _ => True

/-- The parts of the text between the top-level `+`. -/
def items (s : Script) : List Script :=
  match s with
  | add cs => if (remAdd? cs).isSome then [add cs] else cs
  | s => [s]

theorem str_items (s : Script) : s.str = joinPlus ((items s).map str) := by
  cases s with
  | null l => simp [items, joinPlus]
  | prim p => simp [items, joinPlus]
  | mult s a m => simp [items, joinPlus]
  | add cs =>
    simp only [items]
    split
    · simp [joinPlus]
    · rename_i h
      rw [str_add]
      cases h' : remAdd? cs with
      | none => rfl
      | some k => simp [h'] at h

theorem item_of_not_isAdd {s : Script} (h : s.isAdd = false) : Item s := by
  cases s <;> simp_all [Item, isAdd]

theorem items_item {s : Script} (h : WF s) : ∀ c ∈ items s, WF c ∧ Item c ∧ c.layer = s.layer := by
  intro c hc
  cases h with
  | null h => simp [items] at hc; subst hc; exact ⟨.null h, trivial, rfl⟩
  | prim => simp [items] at hc; subst hc; exact ⟨.prim, trivial, rfl⟩
  | mult h1 h2 h3 h4 h5 h6 h7 h8 h9 h10 =>
    simp [items] at hc; subst hc; exact ⟨.mult h1 h2 h3 h4 h5 h6 h7 h8 h9 h10, trivial, rfl⟩
  | add h1 h2 h3 h4 h5 h6 h7 =>
    simp only [items] at hc
    split at hc
    · rename_i h'
      simp at hc; subst hc
      exact ⟨.add h1 h2 h3 h4 h5 h6 h7, h', rfl⟩
    · exact ⟨h2 c hc, item_of_not_isAdd (h4 c hc), h3 c hc⟩

theorem items_ne_nil {s : Script} (h : WF s) : items s ≠ [] := by
  cases h with
  | add h1 => simp only [items]; split <;> simp_all
  | _ => simp [items]

/-- The text of an item ends with the mark of its layer, which does not occur before. -/
theorem item_body {s : Script} (h : WF s) (hi : Item s) : ∃ b, s.str = b ++ [mk s.layer] ∧ mk s.layer ∉ b := by
  cases h with
  | @null l h =>
    refine ⟨'E' :: (List.range l).flatMap markStr, ?_, ?_⟩
    · simp [str, nullStr, layer, List.range_succ, markStr_eq h]
    · intro hm
      simp only [layer, List.mem_cons, List.mem_flatMap, List.mem_range] at hm
      rcases hm with h' | ⟨j, hj, h'⟩
      · exact letter_ne_mk E_letter h h'.symm
      · rw [markStr_eq (by omega)] at h'
        have := mk_inj h (by omega) (List.mem_singleton.1 h')
        omega
  | @prim p =>
    refine ⟨[p.char], ?_, ?_⟩
    · simp [str, layer, markStr_eq]
    · simp only [List.mem_singleton, layer]
      exact fun h => letter_ne_mk (primChar_letter p) (by omega) h.symm
  | @mult s a m h1 h2 h3 h4 h5 h6 h7 h8 h9 h10 =>
    refine ⟨bodyMult s a m, ?_, ?_⟩
    · rw [str_mult', markStr_eq (by omega)]; simp [layer]
    · simp only [layer]
      intro hm
      rcases mem_bodyMult hm with h | h | h | h
      · rw [mk_not_letter (by omega)] at h; cases h
      · exact mk_not_mem h1 (by omega) (by omega) h
      · exact mk_not_mem h2 (by omega) (by omega) h
      · exact mk_not_mem h3 (by omega) (by omega) h
  | @add cs h1 h2 h3 h4 h5 h6 h7 =>
    simp only [Item] at hi
    obtain ⟨k, hk⟩ := Option.isSome_iff_exists.1 hi
    have hl : (add cs).layer = 0 := by
      by_contra h
      rw [remAdd?_of_layer h] at hk; cases hk
    refine ⟨[k.char], ?_, ?_⟩
    · rw [str_add, hk, hl]; simp [markStr_eq]
    · simp only [List.mem_singleton, hl]
      exact fun h => letter_ne_mk (remChar_letter k) (by omega) h.symm

theorem split_at_mark {c : Char} : ∀ {b b' x y : Str}, c ∉ b → c ∉ b' → b ++ c :: x = b' ++ c :: y → b = b' ∧ x = y
  | [], [], x, y, _, _, h => by simp at h; exact ⟨rfl, h⟩
  | [], d :: b', x, y, _, h2, h => by simp at h; simp [h.1] at h2
  | d :: b, [], x, y, h1, _, h => by simp at h; simp [h.1] at h1
  | d :: b, d' :: b', x, y, h1, h2, h => by
    simp at h h1 h2
    obtain ⟨e1, e2⟩ := split_at_mark (c := c) h1.2 h2.2 h.2
    exact ⟨by rw [h.1, e1], e2⟩

/-- Items of the same layer have prefix-free texts. -/
theorem item_prefix_free {s t : Script} (hs : WF s) (ht : WF t) (is : Item s) (it : Item t) (hl : s.layer = t.layer)
    {x y : Str} (h : s.str ++ x = t.str ++ y) : s.str = t.str ∧ x = y := by
  obtain ⟨b, hb, hb'⟩ := item_body hs is
  obtain ⟨b2, hb2, hb2'⟩ := item_body ht it
  rw [hb, hb2, ← hl] at h
  rw [← hl] at hb2'
  simp only [List.append_assoc, List.singleton_append] at h
  obtain ⟨e1, e2⟩ := split_at_mark hb' hb2' h
  exact ⟨by rw [hb, hb2, e1, hl], e2⟩

/-- Texts of sums of items split uniquely. -/
theorem joinPlus_split {l : Nat} : ∀ {xs ys : List Script} {x y : Str}, xs ≠ [] → ys ≠ [] →
    (∀ c ∈ xs, WF c ∧ Item c ∧ c.layer = l) → (∀ c ∈ ys, WF c ∧ Item c ∧ c.layer = l) →
    NoPlus x → NoPlus y → joinPlus (xs.map str) ++ x = joinPlus (ys.map str) ++ y →
    xs.map str = ys.map str ∧ x = y
  | [], _, _, _, h, _, _, _, _, _, _ => absurd rfl h
  | _ :: _, [], _, _, _, h, _, _, _, _, _ => absurd rfl h
  | [a], [b], x, y, _, _, hx, hy, _, _, h => by
    simp only [List.map_cons, List.map_nil, joinPlus] at h
    obtain ⟨ha, ia, la⟩ := hx a (by simp)
    obtain ⟨hb, ib, lb⟩ := hy b (by simp)
    obtain ⟨e1, e2⟩ := item_prefix_free ha hb ia ib (by rw [la, lb]) h
    simp [e1, e2]
  | [a], b :: b' :: bs, x, y, _, _, hx, hy, px, _, h => by
    simp only [List.map_cons, List.map_nil, joinPlus, List.append_assoc, List.cons_append] at h
    obtain ⟨ha, ia, la⟩ := hx a (by simp)
    obtain ⟨hb, ib, lb⟩ := hy b (by simp)
    obtain ⟨e1, e2⟩ := item_prefix_free ha hb ia ib (by rw [la, lb]) h
    exact absurd e2 (px _)
  | a :: a' :: as, [b], x, y, _, _, hx, hy, _, py, h => by
    simp only [List.map_cons, List.map_nil, joinPlus, List.append_assoc, List.cons_append] at h
    obtain ⟨ha, ia, la⟩ := hx a (by simp)
    obtain ⟨hb, ib, lb⟩ := hy b (by simp)
    obtain ⟨e1, e2⟩ := item_prefix_free ha hb ia ib (by rw [la, lb]) h
    exact absurd e2.symm (py _)
  | a :: a' :: as, b :: b' :: bs, x, y, _, _, hx, hy, px, py, h => by
    simp only [List.map_cons, joinPlus, List.append_assoc, List.cons_append] at h
    obtain ⟨ha, ia, la⟩ := hx a (by simp)
    obtain ⟨hb, ib, lb⟩ := hy b (by simp)
    obtain ⟨e1, e2⟩ := item_prefix_free ha hb ia ib (by rw [la, lb]) h
    simp only [List.cons.injEq, true_and] at e2
    obtain ⟨e3, e4⟩ := joinPlus_split (xs := a' :: as) (ys := b' :: bs) (by simp) (by simp)
      (fun c hc => hx c (List.mem_cons_of_mem _ hc)) (fun c hc => hy c (List.mem_cons_of_mem _ hc)) px py
      (by simpa using e2)
    exact ⟨by rw [List.map_cons, e1, e3]; rfl, e4⟩

theorem str_split {s t : Script} (hs : WF s) (ht : WF t) (hl : s.layer = t.layer) {x y : Str} (px : NoPlus x)
    (py : NoPlus y) (h : s.str ++ x = t.str ++ y) : (items s).map str = (items t).map str ∧ s.str = t.str ∧ x = y := by
  rw [str_items s, str_items t] at h
  have h2 := joinPlus_split (l := s.layer) (items_ne_nil hs) (items_ne_nil ht) (items_item hs)
    (by rw [hl]; exact items_item ht) px py h
  exact ⟨h2.1, by rw [str_items s, str_items t, h2.1], h2.2⟩

/-- The text determines the layer. -/
theorem str_last {s : Script} (h : WF s) : ∃ b, s.str = b ++ [mk s.layer] := by
  rw [str_items]
  have hi := items_item h
  have hn := items_ne_nil h
  generalize hl : s.layer = l at *
  generalize items s = xs at *
  clear h hl
  induction xs with
  | nil => exact absurd rfl hn
  | cons a as ih =>
    obtain ⟨ha, ia, la⟩ := hi a (by simp)
    cases as with
    | nil =>
      obtain ⟨b, hb, _⟩ := item_body ha ia
      exact ⟨b, by simp [joinPlus, hb, la]⟩
    | cons a' as' =>
      obtain ⟨b, hb⟩ := ih (by simp) (fun c hc => hi c (List.mem_cons_of_mem _ hc))
      refine ⟨a.str ++ '+' :: b, ?_⟩
      simp only [List.map_cons, joinPlus] at hb ⊢
      rw [hb]; simp

theorem layer_of_str {s t : Script} (hs : WF s) (ht : WF t) (h : s.str = t.str) : s.layer = t.layer := by
  obtain ⟨b, hb⟩ := str_last hs
  obtain ⟨b', hb'⟩ := str_last ht
  rw [hb, hb'] at h
  have := (List.append_inj' h rfl).2
  exact mk_inj (wf_layer hs) (wf_layer ht) (by simpa using this)

end Script
end Verif
