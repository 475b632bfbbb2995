import Verif.Model.Index
import Verif.Lemmas.ScriptOrder
import Mathlib.Data.List.Basic

/-
C45, C46: sort keys of USLs.
-/

namespace Verif
open Script

theorem alphanumeric_length : alphanumeric.length = 62 := by decide

theorem digit62_lt {a b : Nat} (ha : a < 62) (hb : b < 62) : (digit62 a).toNat < (digit62 b).toNat ↔ a < b := by
  have : ∀ a b : Fin 62, (digit62 a).toNat < (digit62 b).toNat ↔ a.val < b.val := by decide +kernel
  exact this ⟨a, ha⟩ ⟨b, hb⟩

theorem digit62_inj {a b : Nat} (ha : a < 62) (hb : b < 62) (h : digit62 a = digit62 b) : a = b := by
  have h1 := digit62_lt ha hb
  have h2 := digit62_lt hb ha
  rw [h] at h1 h2
  simp at h1 h2
  omega

/-- Digits of `i` in base 62 on `n` places, most significant first: the specification of the encoding. -/
def places : Nat → Nat → List Nat
  | 0, _ => []
  | n + 1, i => places n (i / 62) ++ [i % 62]

theorem places_length : ∀ n i, (places n i).length = n
  | 0, _ => rfl
  | n + 1, i => by simp [places, places_length n]

theorem places_zero : ∀ n, places n 0 = List.replicate n 0
  | 0 => rfl
  | n + 1 => by rw [places, Nat.zero_div, places_zero n, Nat.zero_mod, ← List.replicate_succ']

theorem digit62_zero : digit62 0 = '0' := by decide

/-- The recursion of `int2base` writes the digits on `max` places, or more if the number needs them. -/
theorem int2baseF_places : ∀ (fuel i max : Nat), i ≤ fuel → 1 ≤ max → ∀ n, max ≤ n → i < 62 ^ n →
    (i < 62 ^ max → n = max) → (¬ i < 62 ^ max → 62 ^ (n - 1) ≤ i) →
    int2baseF fuel i max = (places n i).map digit62 := by
  intro fuel
  induction fuel with
  | zero =>
    intro i max hi hmax n hn hlt h1 _
    have hi0 : i = 0 := by omega
    subst hi0
    have : n = max := h1 (Nat.pos_of_ne_zero (by simp))
    subst this
    obtain ⟨k, rfl⟩ : ∃ k, n = k + 1 := ⟨n - 1, by omega⟩
    rw [int2baseF, places_zero, List.map_replicate, digit62_zero, alphanumeric_length, Nat.zero_mod, digit62_zero,
      List.replicate_succ']
    simp
  | succ fuel ih =>
    intro i max hi hmax n hn hlt h1 h2
    obtain ⟨k, rfl⟩ : ∃ k, n = k + 1 := ⟨n - 1, by omega⟩
    rw [int2baseF]
    simp only [alphanumeric_length]
    have hr : i - i / 62 * 62 = i % 62 := by omega
    rw [hr, places, List.map_append]
    by_cases hq : i / 62 = 0
    · rw [if_neg (by simpa using hq)]
      have hi62 : i < 62 := by omega
      have : i < 62 ^ max := Nat.lt_of_lt_of_le hi62 (by
        calc 62 = 62 ^ 1 := rfl
          _ ≤ 62 ^ max := Nat.pow_le_pow_right (by omega) hmax)
      have hk := h1 this
      rw [hq, places_zero, List.map_replicate, digit62_zero, ← hk]; simp
    · rw [if_pos hq]
      by_cases hm1 : max = 1
      · -- no padding left: the number of places is that of the number itself
        subst hm1
        have hge : ¬ i < 62 ^ 1 := by omega
        have hk : 62 ^ k ≤ i := by simpa using h2 hge
        have hk1 : 1 ≤ k := by
          by_contra h
          have : k = 0 := by omega
          subst this; simp at hlt; omega
        -- with `max - 1 = 0` the recursion behaves as with `max = 1`
        have e0 : ∀ fuel i, int2baseF fuel i 0 = int2baseF fuel i 1 := by
          intro fuel
          induction fuel with
          | zero => intro i; simp [int2baseF]
          | succ f ihf => intro i; simp [int2baseF]
        rw [show 1 - 1 = 0 from rfl, e0]
        rw [ih (i / 62) 1 (by omega) (by omega) k hk1 (by rw [Nat.pow_succ] at hlt; omega)]
        · rfl
        · intro h
          by_contra hk'
          have h3 : 62 ^ 2 ≤ 62 ^ k := Nat.pow_le_pow_right (by omega) (by omega)
          omega
        · intro _
          have : 62 ^ (k - 1) * 62 ≤ i := by rw [← Nat.pow_succ, Nat.succ_eq_add_one, Nat.sub_add_cancel hk1]; exact hk
          omega
      · rw [ih (i / 62) (max - 1) (by omega) (by omega) k (by omega) (by rw [Nat.pow_succ] at hlt; omega)]
        · rfl
        · intro h
          have : i < 62 ^ max := by
            have e : 62 ^ max = 62 ^ (max - 1) * 62 := by rw [← Nat.pow_succ, Nat.succ_eq_add_one, Nat.sub_add_cancel hmax]
            omega
          have := h1 this; omega
        · intro h
          have e : 62 ^ max = 62 ^ (max - 1) * 62 := by rw [← Nat.pow_succ, Nat.succ_eq_add_one, Nat.sub_add_cancel hmax]
          have := h2 (by omega)
          have e' : 62 ^ k = 62 ^ (k - 1) * 62 := by rw [← Nat.pow_succ, Nat.succ_eq_add_one, Nat.sub_add_cancel (by omega)]
          simp only [Nat.add_sub_cancel] at this
          omega

theorem places_lt : ∀ {n i : Nat}, ∀ d ∈ places n i, d < 62
  | 0, _, d, h => by simp [places] at h
  | n + 1, i, d, h => by
    rw [places, List.mem_append, List.mem_singleton] at h
    rcases h with h | rfl
    · exact places_lt d h
    · omega

theorem ltBytes_snoc : ∀ {a b : List Nat} (x y : Nat), a.length = b.length →
    ltBytes (a ++ [x]) (b ++ [y]) = (ltBytes a b || (decide (a = b) && decide (x < y)))
  | [], [], x, y, _ => by by_cases h : x = y <;> simp [ltBytes, h]
  | [], _ :: _, _, _, h => by simp at h
  | _ :: _, [], _, _, h => by simp at h
  | a :: as, b :: bs, x, y, h => by
    simp only [List.cons_append, ltBytes]
    by_cases hab : a = b
    · subst hab
      simp only [if_true, ltBytes_snoc x y (by simpa using h : as.length = bs.length), List.cons.injEq, true_and]
    · simp [hab]

theorem places_eq : ∀ {n i j : Nat}, i < 62 ^ n → j < 62 ^ n → (places n i = places n j ↔ i = j)
  | 0, i, j, hi, hj => by simp at hi hj; simp [places, hi, hj]
  | n + 1, i, j, hi, hj => by
    rw [Nat.pow_succ] at hi hj
    simp only [places]
    have ih := places_eq (n := n) (i := i / 62) (j := j / 62) (by omega) (by omega)
    constructor
    · intro h
      obtain ⟨h1, h2⟩ := List.append_inj h (by simp [places_length])
      have h1 := ih.1 h1
      simp only [List.cons.injEq, and_true] at h2
      omega
    · rintro rfl; rfl

theorem places_order : ∀ {n i j : Nat}, i < 62 ^ n → j < 62 ^ n → (ltBytes (places n i) (places n j) = true ↔ i < j)
  | 0, i, j, hi, hj => by simp at hi hj; simp [places, ltBytes, hi, hj]
  | n + 1, i, j, hi, hj => by
    rw [Nat.pow_succ] at hi hj
    simp only [places]
    rw [ltBytes_snoc _ _ (by simp [places_length])]
    simp only [Bool.or_eq_true, Bool.and_eq_true, decide_eq_true_eq]
    rw [places_order (by omega) (by omega), places_eq (by omega) (by omega)]
    omega

/-- Writing the digits with increasing characters keeps the order. -/
theorem ltBytes_map {f : Nat → Nat} : ∀ {a b : List Nat}, (∀ x ∈ a, ∀ y ∈ b, (f x < f y ↔ x < y) ∧ (f x = f y ↔ x = y)) →
    ltBytes (a.map f) (b.map f) = ltBytes a b
  | a, [], _ => by cases a <;> simp [ltBytes]
  | [], b :: bs, _ => by simp [ltBytes]
  | a :: as, b :: bs, h => by
    simp only [List.map_cons, ltBytes]
    have h1 := h a (by simp) b (by simp)
    rw [ltBytes_map fun x hx y hy => h x (by simp [hx]) y (by simp [hy])]
    simp only [h1.1, h1.2]

theorem int2baseF_eq {i N : Nat} (hN : 1 ≤ N) (h : i < 62 ^ N) : int2baseF i i N = (places N i).map digit62 :=
  int2baseF_places i i N (Nat.le_refl _) hN N (Nat.le_refl _) h (fun _ => rfl) (fun h' => absurd h h')

theorem int2base_eq {i : Nat} (h : i < 62 ^ 30) : int2base i = .ok ((places 30 i).map digit62) := by
  have : ¬ ((i : Int) < 0) := by omega
  rw [int2base, if_neg this]
  rw [Int.toNat_natCast, int2baseF_eq (by omega) h]

/-- **C45.** For numbers below `62 ^ 30` the text has 30 characters, and the order of the texts is that of the numbers;
distinct numbers have distinct texts.  A negative number is refused. -/
theorem C45_order_preserved {i j : Nat} (hi : i < 62 ^ 30) (hj : j < 62 ^ 30) :
    ∃ s t, int2base i = .ok s ∧ int2base j = .ok t ∧ s.length = 30 ∧ t.length = 30 ∧ (ltStr s t = true ↔ i < j) ∧
      (s = t ↔ i = j) := by
  have h1 : ltStr ((places 30 i).map digit62) ((places 30 j).map digit62) = true ↔ i < j := by
    rw [ltStr, List.map_map, List.map_map, ltBytes_map, places_order hi hj]
    intro x hx y hy
    have hx := places_lt x hx
    have hy := places_lt y hy
    simp only [Function.comp]
    have h1 := digit62_lt hx hy
    have h2 := digit62_lt hy hx
    exact ⟨h1, by omega⟩
  refine ⟨_, _, int2base_eq hi, int2base_eq hj, by simp [places_length], by simp [places_length], h1, ?_⟩
  constructor
  · intro h
    rw [← places_eq hi hj]
    have hl : (places 30 i).length = (places 30 j).length := by simp [places_length]
    apply List.ext_getElem hl
    intro n hn1 hn2
    have := List.getElem_of_eq h (i := n) (by simpa using hn1)
    simp only [List.getElem_map] at this
    exact digit62_inj (places_lt _ (List.getElem_mem _)) (places_lt _ (List.getElem_mem _)) this
  · rintro rfl; rfl

theorem C45_negative {i : Int} (h : i < 0) : int2base i = .error .assertionError := by rw [int2base, if_pos h]

example : (3843 : Nat) < 62 ^ 30 ∧ int2base 3843 = .ok (c!"0000000000000000000000000000zz") ∧
    int2base 62 = .ok (c!"000000000000000000000000000010") ∧ int2base (-1) = .error .assertionError := by decide +kernel

/-! ### Distinct numbers have distinct texts, without bound -/

theorem exists_places (i : Nat) : ∃ n, 30 ≤ n ∧ i < 62 ^ n ∧ (i < 62 ^ 30 → n = 30) ∧ (¬ i < 62 ^ 30 → 62 ^ (n - 1) ≤ i) := by
  by_cases h : i < 62 ^ 30
  · exact ⟨30, Nat.le_refl _, h, fun _ => rfl, fun h' => absurd h h'⟩
  · have hex : ∃ n, i < 62 ^ n := ⟨i, Nat.lt_pow_self (by omega)⟩
    classical
    let n := Nat.find hex
    have hn : i < 62 ^ n := Nat.find_spec hex
    have h30 : 30 < n := by
      by_contra hle
      exact h (Nat.lt_of_lt_of_le hn (Nat.pow_le_pow_right (by omega) (by omega)))
    refine ⟨n, by omega, hn, fun h' => absurd h' h, fun _ => ?_⟩
    have := Nat.find_min hex (m := n - 1) (by omega)
    omega

theorem int2base_inj {i j : Nat} {s : Str} (hi : int2base i = .ok s) (hj : int2base j = .ok s) : i = j := by
  obtain ⟨n, a1, a2, a3, a4⟩ := exists_places i
  obtain ⟨m, b1, b2, b3, b4⟩ := exists_places j
  have hi0 : ¬ ((i : Int) < 0) := by omega
  have hj0 : ¬ ((j : Int) < 0) := by omega
  rw [int2base, if_neg hi0, Int.toNat_natCast, int2baseF_places i i 30 (Nat.le_refl _) (by omega) n a1 a2 a3 a4] at hi
  rw [int2base, if_neg hj0, Int.toNat_natCast, int2baseF_places j j 30 (Nat.le_refl _) (by omega) m b1 b2 b3 b4] at hj
  injection hi with hi
  injection hj with hj
  have he := hi.trans hj.symm
  have hl := congrArg List.length he
  simp only [List.length_map, places_length] at hl
  subst hl
  rw [← places_eq a2 b2]
  apply List.ext_getElem (by simp [places_length])
  intro k hk1 hk2
  have := List.getElem_of_eq he (i := k) (by simpa using hk1)
  simp only [List.getElem_map] at this
  exact digit62_inj (places_lt _ (List.getElem_mem _)) (places_lt _ (List.getElem_mem _)) this

/-! ### C46 -/

theorem dicIndex_ok {scripts : List Script} {s : Script} {i : Nat} (h : dicIndex scripts s = .ok i) :
    i < scripts.length ∧ (scripts.map str)[i]? = some s.str := by
  unfold dicIndex at h
  split at h
  · rename_i k hk
    injection h with h; subst h
    have h1 := List.mem_of_find?_eq_some hk
    have h2 := List.find?_some hk
    simp only [List.mem_reverse, List.mem_range] at h1
    exact ⟨h1, by simpa using h2⟩
  · cases h

theorem dicIndex_exists {scripts : List Script} {s : Script} (h : s.str ∈ scripts.map str) : ∃ i, dicIndex scripts s = .ok i := by
  obtain ⟨n, hn, he⟩ := List.getElem_of_mem h
  unfold dicIndex
  split
  · rename_i k _; exact ⟨k, rfl⟩
  · rename_i hnone
    have := List.find?_eq_none.1 hnone n (by simpa using hn)
    simp only [List.length_map] at hn
    simp only [List.getElem_map] at he
    simp [hn, he] at this

theorem polymorphIdx_inj {scripts : List Script} : ∀ {a b : List Script} {k i j : Nat}, a.length = b.length →
    polymorphIdx scripts k a = .ok i → polymorphIdx scripts k b = .ok j →
    (∃ i', i = scripts.length ^ k * i') ∧ (∃ j', j = scripts.length ^ k * j') ∧ (i = j → a.map str = b.map str)
  | [], [], k, i, j, _, h1, h2 => by
    rw [polymorphIdx] at h1 h2
    injection h1 with h1; injection h2 with h2
    subst h1; subst h2
    exact ⟨⟨0, by simp⟩, ⟨0, by simp⟩, fun _ => rfl⟩
  | [], _ :: _, _, _, _, h, _, _ => by simp at h
  | _ :: _, [], _, _, _, h, _, _ => by simp at h
  | x :: xs, y :: ys, k, i, j, h, h1, h2 => by
    rw [polymorphIdx] at h1 h2
    simp only [bind, Except.bind, pure, Except.pure] at h1 h2
    cases e1 : dicIndex scripts x with
    | error e => rw [e1] at h1; cases h1
    | ok u =>
      cases e2 : dicIndex scripts y with
      | error e => rw [e2] at h2; cases h2
      | ok v =>
        rw [e1] at h1; rw [e2] at h2
        simp only at h1 h2
        cases e3 : polymorphIdx scripts (k + 1) xs with
        | error e => rw [e3] at h1; cases h1
        | ok r =>
          cases e4 : polymorphIdx scripts (k + 1) ys with
          | error e => rw [e4] at h2; cases h2
          | ok r' =>
            rw [e3] at h1; rw [e4] at h2
            injection h1 with h1; injection h2 with h2
            obtain ⟨⟨i', hi'⟩, ⟨j', hj'⟩, hinj⟩ := polymorphIdx_inj (by simpa using h) e3 e4
            obtain ⟨hu, hu'⟩ := dicIndex_ok e1
            obtain ⟨hv, hv'⟩ := dicIndex_ok e2
            have hN : 0 < scripts.length := by omega
            have ei : i = scripts.length ^ k * (u + scripts.length * i') := by
              rw [← h1, hi', Nat.pow_succ, Nat.mul_add, Nat.mul_assoc]
            have ej : j = scripts.length ^ k * (v + scripts.length * j') := by
              rw [← h2, hj', Nat.pow_succ, Nat.mul_add, Nat.mul_assoc]
            refine ⟨⟨_, ei⟩, ⟨_, ej⟩, fun hij => ?_⟩
            rw [ei, ej] at hij
            have hij := Nat.eq_of_mul_eq_mul_left (Nat.pow_pos hN) hij
            have huv : u = v := by
              have := congrArg (· % scripts.length) hij
              simpa [Nat.add_mul_mod_self_left, Nat.mod_eq_of_lt hu, Nat.mod_eq_of_lt hv] using this
            subst huv
            have hr : r = r' := by
              rw [hi', hj']
              have : scripts.length * i' = scripts.length * j' := by omega
              rw [Nat.eq_of_mul_eq_mul_left hN this]
            rw [hu'] at hv'
            injection hv' with hxy
            rw [List.map_cons, List.map_cons, hxy, hinj hr]

theorem polymorphIdx_ok {scripts : List Script} : ∀ {a : List Script} {k : Nat}, (∀ x ∈ a, x.str ∈ scripts.map str) →
    ∃ i, polymorphIdx scripts k a = .ok i
  | [], _, _ => ⟨0, rfl⟩
  | x :: xs, k, h => by
    obtain ⟨i, hi⟩ := dicIndex_exists (h x (by simp))
    obtain ⟨r, hr⟩ := polymorphIdx_ok (a := xs) (k := k + 1) fun y hy => h y (by simp [hy])
    exact ⟨_, by rw [polymorphIdx, hi]; simp only [bind, Except.bind, hr]; rfl⟩

/-- The key of a polymorpheme with several constants or with groups. -/
theorem getIndexPM_eq {scripts : List Script} {p : PM} (h : p.constant.length ≠ 1 ∨ p.groups ≠ []) :
    getIndexPM scripts p = (do return (1, '1' :: (← int2base (← polymorphIdx scripts 0 p.constant)))) := by
  unfold getIndexPM
  split
  · rename_i c h1 h2
    rw [h1, h2] at h
    simp at h
  · rfl

/-- **C46.** Two polymorphemes without groups having the same number, at least two, of morphemes of the dictionary get indexes,
and equal ones only for equal constants. -/
theorem C46_index_identifies {scripts : List Script} {p q : PM} (_hp : p.groups = []) (_hq : q.groups = [])
    (hl : p.constant.length = q.constant.length) (h2 : 2 ≤ p.constant.length)
    (hps : ∀ x ∈ p.constant, x.str ∈ scripts.map str) (hqs : ∀ x ∈ q.constant, x.str ∈ scripts.map str) :
    ∃ u v, getIndexPM scripts p = .ok u ∧ getIndexPM scripts q = .ok v ∧
      (u = v → p.constant.map str = q.constant.map str) := by
  obtain ⟨i, hi⟩ := polymorphIdx_ok (k := 0) hps
  obtain ⟨j, hj⟩ := polymorphIdx_ok (k := 0) hqs
  have hb : ∀ n : Nat, ∃ s, int2base n = .ok s := by
    intro n
    have : ¬ ((n : Int) < 0) := by omega
    exact ⟨_, by rw [int2base, if_neg this]⟩
  obtain ⟨s, hs⟩ := hb i
  obtain ⟨t, ht⟩ := hb j
  refine ⟨(1, '1' :: s), (1, '1' :: t), ?_, ?_, ?_⟩
  · rw [getIndexPM_eq (.inl (by omega)), hi]; simp only [bind, Except.bind, hs]; rfl
  · rw [getIndexPM_eq (.inl (by omega)), hj]; simp only [bind, Except.bind, ht]; rfl
  · intro he
    simp only [Prod.mk.injEq, List.cons.injEq, true_and] at he
    subst he
    exact (polymorphIdx_inj hl hi hj).2.2 (int2base_inj hs ht)

/-- **C46, groups.** The groups are ignored: two polymorphemes with the same constants and any non-empty groups have the same
index, which is also that of the polymorpheme without groups when there are at least two constants. -/
theorem C46_groups_ignored {scripts : List Script} {p q : PM} (hc : p.constant.map str = q.constant.map str)
    (hp : p.groups ≠ [] ∨ 2 ≤ p.constant.length) (hq : q.groups ≠ [] ∨ 2 ≤ q.constant.length) :
    getIndexPM scripts p = getIndexPM scripts q := by
  have hidx : ∀ {a b : List Script} {k : Nat}, a.map str = b.map str → polymorphIdx scripts k a = polymorphIdx scripts k b := by
    intro a
    induction a with
    | nil => intro b k h; cases b with | nil => rfl | cons => simp at h
    | cons x xs ih =>
      intro b k h
      cases b with
      | nil => simp at h
      | cons y ys =>
        simp only [List.map_cons, List.cons.injEq] at h
        have : dicIndex scripts x = dicIndex scripts y := by simp only [dicIndex, h.1]
        rw [polymorphIdx, polymorphIdx, this]
        simp only [bind, Except.bind, ih h.2]
  have h' : ∀ {p : PM}, (p.groups ≠ [] ∨ 2 ≤ p.constant.length) → p.constant.length ≠ 1 ∨ p.groups ≠ [] := by
    intro p h; rcases h with h | h
    · exact .inr h
    · exact .inl (by omega)
  rw [getIndexPM_eq (h' hp), getIndexPM_eq (h' hq), hidx hc]

/-- **C46, unknown morphemes.** A morpheme outside the dictionary raises `KeyError`. -/
theorem C46_unknown {scripts : List Script} {p : PM} (h : ∃ x ∈ p.constant, x.str ∉ scripts.map str) :
    getIndexPM scripts p = .error .keyError := by
  have hd : ∀ {x : Script}, x.str ∉ scripts.map str → dicIndex scripts x = .error .keyError := by
    intro x hx
    cases e : dicIndex scripts x with
    | ok i =>
      exact absurd (List.mem_of_getElem? (dicIndex_ok e).2) hx
    | error e' =>
      unfold dicIndex at e
      split at e
      · cases e
      · injection e with e; rw [e]
  have hi : ∀ {a : List Script} {k : Nat}, (∃ x ∈ a, x.str ∉ scripts.map str) → polymorphIdx scripts k a = .error .keyError := by
    intro a
    induction a with
    | nil => rintro k ⟨x, hx, _⟩; cases hx
    | cons y ys ih =>
      intro k h
      rw [polymorphIdx]
      by_cases hy : y.str ∈ scripts.map str
      · obtain ⟨i, hi⟩ := dicIndex_exists hy
        obtain ⟨x, hx, hxs⟩ := h
        have hx' : x ∈ ys := by
          rcases List.mem_cons.1 hx with rfl | hx
          · exact absurd hy hxs
          · exact hx
        rw [hi]; simp only [bind, Except.bind, ih ⟨x, hx', hxs⟩]
      · rw [hd hy]; rfl
  unfold getIndexPM
  split
  · rename_i c h1 h2
    rw [h1] at h
    obtain ⟨x, hx, hxs⟩ := h
    simp only [List.mem_singleton] at hx
    subst hx
    rw [hd hxs]; rfl
  · rw [hi h]; rfl

-- Two polymorphemes over a dictionary of three scripts.
example : let d : List Script := [.prim .U, .prim .A, .prim .S]
    (getIndexPM d (mkPM [.prim .U, .prim .S] [])) = .ok (1, c!"1000000000000000000000000000006") ∧
    (getIndexPM d (mkPM [.prim .A, .prim .S] [])) = .ok (1, c!"1000000000000000000000000000007") ∧
    (getIndexPM d (mkPM [.prim .A, .prim .S] [([.prim .U], 1)])) = .ok (1, c!"1000000000000000000000000000007") ∧
    (getIndexPM d (mkPM [.prim .T, .prim .S] [])) = .error .keyError := by decide +kernel

end Verif
