import Mathlib.Data.Nat.ModEq
import Mathlib.Data.Int.GCD
import Mathlib.Data.Nat.Count
import Mathlib.Data.Finset.Card
import Mathlib.Data.Int.CardIntervalMod
import Verif.Spec.Tiling
import Verif.Lemmas.TableStructure
import Verif.Lemmas.SFun

/-
Lemmas on the parts of a table that `accept_script` accepts.
-/

namespace Verif
open Script

/-! ### Equal distances on a circle -/

/-- A set of residues closed under a step that is the quotient of the size by its number is an arithmetic progression. -/
theorem closed_step {n : Nat} {T : Finset Nat} (hT : ∀ j ∈ T, j < n) (hne : T.Nonempty)
    (hc : ∀ j ∈ T, (j + n / T.card) % n ∈ T) : ∃ d a, d ∣ n ∧ ∀ j, j ∈ T ↔ j < n ∧ j % d = a := by
  obtain ⟨a, ha⟩ := hne
  have hn : 0 < n := Nat.lt_of_le_of_lt (Nat.zero_le _) (hT a ha)
  have hk : 0 < T.card := Finset.card_pos.2 ⟨a, ha⟩
  have hkn : T.card ≤ n := by
    have := Finset.card_le_card (fun j hj => Finset.mem_range.2 (hT j hj) : T ⊆ Finset.range n)
    simpa using this
  set st := n / T.card with hst
  have hst0 : 0 < st := Nat.div_pos hkn hk
  have iter : ∀ i, (a + i * st) % n ∈ T := by
    intro i
    induction i with
    | zero => simpa [Nat.mod_eq_of_lt (hT a ha)] using ha
    | succ i ih =>
      have := hc _ ih
      rwa [Nat.mod_add_mod, Nat.add_assoc, ← Nat.succ_mul] at this
  set g := Nat.gcd st n with hg
  have hg0 : 0 < g := Nat.gcd_pos_of_pos_right _ hn
  have all : ∀ j < n, j % g = a % g → j ∈ T := by
    intro j hj hja
    -- solve `a + i * st ≡ j`
    have hmod : ∃ i : Nat, (a + i * st) % n = j := by
      have h1 : ((g : Int)) ∣ ((j : Int) - a) := by
        have : (j : Int) ≡ a [ZMOD g] := by exact_mod_cast hja
        exact this.symm.dvd
      obtain ⟨q, hq⟩ := h1
      have hb := Nat.gcd_eq_gcd_ab st n
      set u := Nat.gcdA st n
      set v := Nat.gcdB st n
      -- i := (u * q) mod n
      refine ⟨((u * q) % n).toNat, ?_⟩
      have hnn : 0 ≤ (u * q) % (n : Int) := Int.emod_nonneg _ (by omega)
      have : ((a + ((u * q) % n).toNat * st : Nat) : Int) % n = (j : Int) % n := by
        push_cast
        rw [Int.toNat_of_nonneg hnn]
        apply Int.ModEq.eq
        have e1 : (u * q) % (n : Int) ≡ u * q [ZMOD n] := Int.mod_modEq _ _
        have e2 : (a : Int) + (u * q) % (n : Int) * st ≡ a + u * q * st [ZMOD n] := (e1.mul_right _).add_left _
        refine e2.trans ?_
        rw [Int.modEq_iff_dvd]
        refine ⟨v * q, ?_⟩
        have e3 : (j : Int) = a + g * q := by linarith
        rw [e3, hg, hb]
        ring
      have h4 : (a + ((u * q) % n).toNat * st) % n = j % n := by exact_mod_cast this
      rw [h4, Nat.mod_eq_of_lt hj]
    obtain ⟨i, hi⟩ := hmod
    rw [← hi]
    exact iter i
  -- count
  have hgn : g ∣ n := Nat.gcd_dvd_right _ _
  have hgs : g ∣ st := Nat.gcd_dvd_left _ _
  have hcount : ((Finset.range n).filter fun j => j % g = a % g).card = n / g := by
    have := Nat.count_modEq_card n hg0 a
    rw [Nat.count_eq_card_filter_range, Nat.mod_eq_zero_of_dvd hgn, if_neg (Nat.not_lt_zero _), Nat.add_zero] at this
    rw [← this]
    rfl
  have hsub : ((Finset.range n).filter fun j => j % g = a % g) ⊆ T := by
    intro j hj
    rw [Finset.mem_filter, Finset.mem_range] at hj
    exact all j hj.1 hj.2
  have hle : n / g ≤ T.card := hcount ▸ Finset.card_le_card hsub
  have hge : T.card * g ≤ n := by
    calc T.card * g ≤ T.card * st := Nat.mul_le_mul_left _ (Nat.le_of_dvd hst0 hgs)
      _ ≤ n := Nat.mul_div_le _ _
  have hge' : T.card ≤ n / g := (Nat.le_div_iff_mul_le hg0).2 hge
  have heq := Finset.eq_of_subset_of_card_le hsub (by rw [hcount]; exact hge')
  refine ⟨g, a % g, hgn, fun j => ?_⟩
  rw [← heq, Finset.mem_filter, Finset.mem_range]

theorem count_class {n d a : Nat} (hd : d ∣ n) (hn : 0 < n) (ha : a < d) : ((Finset.range n).filter fun j => j % d = a).card = n / d := by
  have hd0 : 0 < d := Nat.pos_of_dvd_of_pos hd hn
  have := Nat.count_modEq_card n hd0 a
  rw [Nat.count_eq_card_filter_range, Nat.mod_eq_zero_of_dvd hd, if_neg (Nat.not_lt_zero _), Nat.add_zero] at this
  rw [← this]
  congr 1
  apply Finset.filter_congr
  intro j _
  show j % d = a ↔ j % d = a % d
  rw [Nat.mod_eq_of_lt ha]

/-- One direction of `is_connexe_tilling`: at least two places, at equal distances. -/
theorem tilingDim_iff {n : Nat} {l : List Nat} (hl : ∀ j ∈ l, j < n) :
    tilingDim n l = true ↔ Spaced n (· ∈ l) ∧ ∃ i j, i < j ∧ i ∈ l ∧ j ∈ l := by
  have hdc : ∀ j, (dedupBy id l).contains j = true ↔ j ∈ l := fun j => by rw [List.contains_iff_mem, mem_dedupId]
  set missing := (List.range n).filter fun j => !(dedupBy id l).contains j with hm
  have memm : ∀ j, j ∈ missing ↔ j < n ∧ j ∉ l := by
    intro j
    rw [hm, List.mem_filter, List.mem_range, Bool.not_eq_true', ← Bool.not_eq_true, hdc]
  set tr := missing.filter fun j => !missing.contains ((j + 1) % n) with ht
  have memt : ∀ j, j ∈ tr ↔ GapEnd n (· ∈ l) j := by
    intro j
    rw [ht, List.mem_filter, memm, Bool.not_eq_true', ← Bool.not_eq_true, List.contains_iff_mem, memm]
    constructor
    · rintro ⟨⟨h1, h2⟩, h3⟩
      refine ⟨h1, h2, ?_⟩
      by_contra h4
      exact h3 ⟨Nat.mod_lt _ (by omega), h4⟩
    · rintro ⟨h1, h2, h3⟩
      exact ⟨⟨h1, h2⟩, fun h => h.2 h3⟩
  have ndt : tr.Nodup := (List.nodup_range.filter _).filter _
  have two : 2 ≤ (dedupBy id l).length ↔ ∃ i j, i < j ∧ i ∈ l ∧ j ∈ l := by
    have nd := nodup_dedupId l
    have mm : ∀ j, j ∈ dedupBy id l ↔ j ∈ l := fun j => mem_dedupId
    cases hd : dedupBy id l with
    | nil =>
      constructor
      · intro h; simp at h
      · rintro ⟨i, j, _, hi, _⟩
        have := (mm i).2 hi
        rw [hd] at this
        cases this
    | cons a r =>
      cases r with
      | nil =>
        constructor
        · intro h; simp at h
        · rintro ⟨i, j, hij, hi, hj⟩
          have h1 := (mm i).2 hi
          have h2 := (mm j).2 hj
          rw [hd, List.mem_singleton] at h1 h2
          omega
      | cons b r =>
        refine ⟨fun _ => ?_, fun _ => by simp⟩
        rw [hd] at nd
        have hab : a ≠ b := fun h => by simp [h] at nd
        have h1 := (mm a).1 (by rw [hd]; simp)
        have h2 := (mm b).1 (by rw [hd]; simp)
        rcases Nat.lt_or_gt_of_ne hab with h | h
        · exact ⟨a, b, h, h1, h2⟩
        · exact ⟨b, a, h, h2, h1⟩
  have spaced : (tr.length > 1 && tr.any fun j => !tr.contains ((j + n / tr.length) % n)) = false ↔ Spaced n (· ∈ l) := by
    rw [Bool.and_eq_false_iff, decide_eq_false_iff_not, List.any_eq_false]
    have closed : (∀ x ∈ tr, ¬(!tr.contains ((x + n / tr.length) % n)) = true) ↔ ∀ x ∈ tr, (x + n / tr.length) % n ∈ tr := by
      simp
    rw [closed]
    constructor
    · intro h
      cases hc : tr with
      | nil =>
        left
        intro j hj
        have := (memt j).2 hj
        rw [hc] at this
        cases this
      | cons a r =>
        right
        have hcl : ∀ x ∈ tr, (x + n / tr.length) % n ∈ tr := by
          rcases h with h | h
          · rw [hc] at h ⊢
            have hr : r = [] := by
              cases r with
              | nil => rfl
              | cons b r => simp at h
            subst hr
            intro x hx
            rw [List.mem_singleton] at hx
            subst hx
            have : x < n := ((memt x).1 (by rw [hc]; simp)).1
            simp [Nat.mod_eq_of_lt this]
          · exact h
        have card : tr.toFinset.card = tr.length := List.toFinset_card_of_nodup ndt
        obtain ⟨d, a, hd, hj⟩ := closed_step (n := n) (T := tr.toFinset) (fun j hj => ((memt j).1 (List.mem_toFinset.1 hj)).1)
          ⟨a, by rw [List.mem_toFinset, hc]; simp⟩ (fun j hj => by
            rw [card, List.mem_toFinset]
            exact hcl j (List.mem_toFinset.1 hj))
        exact ⟨d, a, hd, fun j => by rw [← memt, ← hj, List.mem_toFinset]⟩
    · rintro (h | ⟨d, a, hd, h⟩)
      · left
        have : tr = [] := List.eq_nil_iff_forall_not_mem.2 fun j hj => h j ((memt j).1 hj)
        simp [this]
      · right
        intro x hx
        have hx' := (h x).1 ((memt x).1 hx)
        have hn : 0 < n := by omega
        have hd0 : 0 < d := Nat.pos_of_dvd_of_pos hd hn
        have ha : a < d := hx'.2 ▸ Nat.mod_lt _ hd0
        have hset : tr.toFinset = (Finset.range n).filter fun j => j % d = a := by
          ext j
          rw [List.mem_toFinset, memt, h, Finset.mem_filter, Finset.mem_range]
        have card : tr.length = n / d := by rw [← List.toFinset_card_of_nodup ndt, hset, count_class hd hn ha]
        rw [card, Nat.div_div_self hd (by omega), memt, h]
        exact ⟨Nat.mod_lt _ hn, by rw [Nat.mod_mod_of_dvd _ hd, Nat.add_mod_right, hx'.2]⟩
  unfold tilingDim
  dsimp only
  rw [← spaced, ← two, ← hm, ← ht]
  cases (tr.length > 1 && tr.any fun j => !tr.contains ((j + n / tr.length) % n))
  · simp
  · simp

/-! ### Shapes -/

theorem fold_shape {dims : List (List Script × Nat)} : ∀ {L : List Script} {A R : Arr}, L.foldlM (fun r q => do
    let res ← cellIndex dims q
    r.set (res.getD 0 0) (res.getD 1 0) (res.getD 2 0) q) A = .ok R → R.n0 = A.n0 ∧ R.n1 = A.n1 ∧ R.n2 = A.n2
  | [], A, R, h => by
    rw [List.foldlM_nil, pure_ok] at h
    subst h
    exact ⟨rfl, rfl, rfl⟩
  | q :: L, A, R, h => by
    rw [List.foldlM_cons, bind_ok] at h
    obtain ⟨B, h1, h2⟩ := h
    obtain ⟨a, b, c⟩ := fold_shape h2
    rw [bind_ok] at h1
    obtain ⟨res, _, h1⟩ := h1
    unfold Arr.set at h1
    split at h1
    · cases h1
      exact ⟨a, b, c⟩
    · cases h1

theorem vectorize_shape {f : Script → Except Err Script} {r r' : Arr} (h : r.vectorize f = .ok r') : r'.n0 = r.n0 ∧ r'.n1 = r.n1 ∧ r'.n2 = r.n2 := by
  unfold Arr.vectorize at h
  obtain ⟨_, _, h⟩ := bind_ok.1 h
  cases h
  exact ⟨rfl, rfl, rfl⟩

/-- The shape of an array of `tables`: one column, or at least two rows and columns. -/
def ShapeOk (c : Arr) : Prop := (c.n1 = 1 ∧ c.n2 = 1) ∨ (c.n0 ≠ 1 ∧ c.n1 ≠ 1)

theorem shape_column (l : List Script) : ShapeOk (Arr.column l) := .inl ⟨rfl, rfl⟩

theorem productTables_shape {s a m : Script} (h : WF (mult s a m)) (hp : 2 ≤ (pluralRoles s a m).length) {t : Tables}
    (ht : productTables s a m = .ok t) : (∀ c ∈ t.cells, ShapeOk c) ∧ t.cells.length ≤ t.scripts.length := by
  unfold productTables at ht
  simp only [] at ht
  split at ht
  · cases ht
  obtain ⟨dims, h1, ht⟩ := bind_ok.1 ht
  obtain ⟨ss, h2, ht⟩ := bind_ok.1 ht
  obtain ⟨R, h3, ht⟩ := bind_ok.1 ht
  have hR : ShapeOk R := by
    unfold cellArray at h3
    obtain ⟨e0, e1, _⟩ := fold_shape h3
    right
    rw [e0, e1]
    have hne : ∀ c ∈ pluralRoles s a m, c.1.cardinal ≠ 1 := fun c hc => by simpa using (List.mem_filter.1 hc).2
    match hq : pluralRoles s a m, hp, hne with
    | [], hp, _ => simp at hp
    | [_], hp, _ => simp at hp
    | c :: d :: l, _, hne => exact ⟨hne c (by simp), hne d (by simp)⟩
  split at ht
  · obtain ⟨sss, h4, ht⟩ := bind_ok.1 ht
    obtain ⟨ass, h5, ht⟩ := bind_ok.1 ht
    obtain ⟨mss, h6, ht⟩ := bind_ok.1 ht
    obtain ⟨scripts, h7, ht⟩ := bind_ok.1 ht
    obtain ⟨headers, h8, ht⟩ := bind_ok.1 ht
    rw [pure_ok] at ht
    subst ht
    refine ⟨by simpa using hR, ?_⟩
    cases h with
    | mult g1 g2 g3 =>
      have := List.length_pos_iff.2 (enum_ne_nil g3 (enum_of_run g3 h6))
      have := (mapM_inv h7).length_eq
      show 1 ≤ scripts.length
      omega
  · obtain ⟨header, h4, ht⟩ := bind_ok.1 ht
    rw [pure_ok] at ht
    subst ht
    exact ⟨by simpa using hR, Nat.le_refl _⟩

theorem oneRoleTables_shape {s a m : Script} {v : Nat} {t t' : Tables} (h : oneRoleTables s a m v t = .ok t')
    (ht : (∀ c ∈ t.cells, ShapeOk c) ∧ t.cells.length ≤ t.scripts.length) :
    (∀ c ∈ t'.cells, ShapeOk c) ∧ t'.cells.length ≤ t'.scripts.length := by
  unfold oneRoleTables at h
  obtain ⟨ss, _, h⟩ := bind_ok.1 h
  obtain ⟨_, _, h⟩ := bind_ok.1 h
  obtain ⟨cells, h1, h⟩ := bind_ok.1 h
  obtain ⟨scripts, h2, h⟩ := bind_ok.1 h
  obtain ⟨headers, _, h⟩ := bind_ok.1 h
  rw [pure_ok] at h
  subst h
  refine ⟨fun c hc => ?_, ?_⟩
  · obtain ⟨r, hr, hrc⟩ := (mapM_mem h1).1 hc
    obtain ⟨e0, e1, e2⟩ := vectorize_shape hrc
    have := ht.1 r hr
    unfold ShapeOk at this ⊢
    rwa [e0, e1, e2]
  · rw [← (mapM_inv h1).length_eq, ← (mapM_inv h2).length_eq]
    exact ht.2

theorem tables_shape {s : Script} (h : WF s) : ∀ {t : Tables}, tables s = .ok t →
    (∀ c ∈ t.cells, ShapeOk c) ∧ t.cells.length ≤ t.scripts.length := by
  have col : ∀ {l : List Script} {x : Script} {hd : List (List (List Script))} {t : Tables}, (⟨[Arr.column l], [x], hd⟩ : Tables) = t →
      (∀ c ∈ t.cells, ShapeOk c) ∧ t.cells.length ≤ t.scripts.length := by
    rintro l x hd t rfl
    exact ⟨by simpa using shape_column l, Nat.le_refl _⟩
  induction h with
  | @null l h =>
    intro t ht
    rw [tables, Except.ok.injEq] at ht
    exact col ht
  | @prim p =>
    intro t ht
    rw [tables, Except.ok.injEq] at ht
    exact col ht
  | @mult s a m h1 h2 h3 h4 h5 h6 h7 h8 h9 h10 ih1 ih2 ih3 =>
    have hw : WF (mult s a m) := .mult h1 h2 h3 h4 h5 h6 h7 h8 h9 h10
    intro t ht
    rw [tables] at ht
    split at ht
    · rw [Except.ok.injEq] at ht
      exact col ht
    rename_i hc1
    split at ht
    · rename_i c hp
      obtain ⟨t0, h0, ht⟩ := bind_ok.1 ht
      refine oneRoleTables_shape ht ?_
      have hc : c ∈ [(s, 0), (a, 1), (m, 2)] := by
        have : c ∈ pluralRoles s a m := by rw [hp]; simp
        exact (List.mem_filter.1 this).1
      simp only [List.mem_cons, List.not_mem_nil, or_false] at hc
      rcases hc with rfl | rfl | rfl
      · exact ih1 h0
      · exact ih2 h0
      · exact ih3 h0
    · rename_i hne
      refine productTables_shape hw ?_ ht
      match hq : pluralRoles s a m, hne with
      | [], _ =>
        exfalso
        apply hc1
        rw [cardinal_mult hw]
        have : [s, a, m].filter (fun c => c.cardinal ≠ 1) = [] := by rw [← plural_filter, hq]; rfl
        rw [List.filter_eq_nil_iff] at this
        simp only [List.mem_cons, List.not_mem_nil, or_false, decide_eq_true_eq, not_not, forall_eq_or_imp, forall_eq] at this
        rw [this.1, this.2.1, this.2.2]
      | [c], hne => exact absurd rfl (hne c)
      | c :: d :: l, _ => simp
  | @add cs h1 h2 h3 h4 h5 h6 h7 ih =>
    intro t ht
    rw [tables] at ht
    split at ht
    · rw [Except.ok.injEq] at ht
      exact col ht
    split at ht
    · obtain ⟨ss, _, ht⟩ := bind_ok.1 ht
      rw [pure_ok] at ht
      exact col ht
    · obtain ⟨ts, h0, ht⟩ := bind_ok.1 ht
      rw [pure_ok] at ht
      subst ht
      have hall : ∀ t ∈ ts, (∀ c ∈ t.cells, ShapeOk c) ∧ t.cells.length ≤ t.scripts.length := by
        intro t ht
        obtain ⟨c, hc, htc⟩ := forall₂_mem_right (tablesL_inv h0) ht
        exact ih c hc htc
      clear h0 ht
      induction ts with
      | nil => exact ⟨by simp, by simp⟩
      | cons t ts ihs =>
        obtain ⟨a1, a2⟩ := hall t (by simp)
        obtain ⟨b1, b2⟩ := ihs fun t ht => hall t (by simp [ht])
        simp only [List.flatMap_cons, List.length_append, List.mem_append] at b1 b2 ⊢
        refine ⟨fun c hc => ?_, by omega⟩
        rcases hc with hc | hc
        · exact a1 c hc
        · exact b1 c hc

/-! ### Places -/

/-- Every place of the page holds one of the sequences, every sequence is at one place. -/
structure Places (c : Arr) (L : List Script) : Prop where
  full : ∀ {i j}, i < c.n0 → j < c.n1 → ∃ x ∈ L, c.get i j 0 = some x
  each : ∀ x ∈ L, ∃ i j, i < c.n0 ∧ j < c.n1 ∧ c.get i j 0 = some x
  inj : ∀ {i j i' j' x x'}, i < c.n0 → j < c.n1 → i' < c.n0 → j' < c.n1 → c.get i j 0 = some x → c.get i' j' 0 = some x' → x.str = x'.str →
    i = i' ∧ j = j'

theorem places_of {c : Arr} {L : List Script} (hp : c.flat.Perm (L.map some)) (hn : NoRep L) (h2 : c.n2 = 1) : Places c L := by
  have hmem : ∀ {i j}, i < c.n0 → j < c.n1 → c.get i j 0 ∈ c.flat := by
    intro i j hi hj
    rw [flat_eq]
    exact List.mem_map.2 ⟨(i, j, 0), mem_lex3.2 ⟨hi, hj, by show 0 < c.n2; omega⟩, rfl⟩
  have hns : (L.map str).Nodup := by rw [List.Nodup, List.pairwise_map]; exact hn
  have hnd : L.Nodup := hns.of_map _
  have hfn : c.flat.Nodup := hp.nodup_iff.2 (hnd.map (Option.some_injective _))
  have hfull : ∀ {i j}, i < c.n0 → j < c.n1 → ∃ x ∈ L, c.get i j 0 = some x := by
    intro i j hi hj
    obtain ⟨x, hx, e⟩ := List.mem_map.1 (hp.mem_iff.1 (hmem hi hj))
    exact ⟨x, hx, e.symm⟩
  refine ⟨hfull, ?_, ?_⟩
  · intro x hx
    have := hp.mem_iff.2 (List.mem_map_of_mem hx)
    rw [flat_eq, List.mem_map] at this
    obtain ⟨⟨i, j, k⟩, hijk, e⟩ := this
    obtain ⟨hi, hj, hk⟩ := mem_lex3.1 hijk
    have : k = 0 := by have := hk; dsimp only at this; omega
    subst this
    exact ⟨i, j, hi, hj, e⟩
  · intro i j i' j' x x' hi hj hi' hj' e e' hs
    have hxx : x = x' := by
      obtain ⟨y, hy, ey⟩ := hfull hi hj
      obtain ⟨y', hy', ey'⟩ := hfull hi' hj'
      rw [e] at ey
      rw [e'] at ey'
      cases ey
      cases ey'
      exact List.inj_on_of_nodup_map hns hy hy' hs
    rw [flat_eq] at hfn
    have := List.inj_on_of_nodup_map hfn (mem_lex3.2 ⟨hi, hj, by show 0 < c.n2; omega⟩ : (i, j, 0) ∈ lex3 c.n0 c.n1 c.n2)
      (mem_lex3.2 ⟨hi', hj', by show 0 < c.n2; omega⟩ : (i', j', 0) ∈ lex3 c.n0 c.n1 c.n2) (by show c.get i j 0 = c.get i' j' 0; rw [e, e', hxx])
    simp only [Prod.mk.injEq, and_true] at this
    exact this

theorem indexOf2_ok {c : Arr} {L : List Script} (h : Places c L) {i j : Nat} (hi : i < c.n0) (hj : j < c.n1) {x y : Script}
    (hy : c.get i j 0 = some y) (hs : y.str = x.str) : indexOf2 c x = .ok (i, j) := by
  unfold indexOf2
  have hmem : ∀ p : Nat × Nat, p ∈ ((List.range c.n0).flatMap fun i => (List.range c.n1).map fun j => (i, j)).reverse ↔ p.1 < c.n0 ∧ p.2 < c.n1 := by
    rintro ⟨a, b⟩
    simp [List.mem_flatMap]
  cases hf : (((List.range c.n0).flatMap fun i => (List.range c.n1).map fun j => (i, j)).reverse.find? fun p =>
      match c.get p.1 p.2 0 with
      | some y => y.pyEq x
      | none => false) with
  | none =>
    exfalso
    have := List.find?_eq_none.1 hf (i, j) ((hmem _).2 ⟨hi, hj⟩)
    rw [hy] at this
    simp [pyEq, hs] at this
  | some p =>
    have h1 := (hmem p).1 (List.mem_of_find?_eq_some hf)
    have h2 := List.find?_some hf
    obtain ⟨z, hz, ez⟩ := h.full h1.1 h1.2
    rw [ez] at h2
    have h3 : z.str = x.str := by simpa [pyEq] using h2
    obtain ⟨e1, e2⟩ := h.inj hi hj h1.1 h1.2 hy ez (hs.trans h3.symm)
    rcases p with ⟨a, b⟩
    simp only at e1 e2
    rw [e1, e2]

theorem indexOf1_ok {c : Arr} {L : List Script} (h : Places c L) (h1 : c.n1 = 1) {i : Nat} (hi : i < c.n0) {x y : Script}
    (hy : c.get i 0 0 = some y) (hs : y.str = x.str) : indexOf1 c x = .ok i := by
  unfold indexOf1
  cases hf : ((List.range c.n0).reverse.find? fun i =>
      match c.get i 0 0 with
      | some y => y.pyEq x
      | none => false) with
  | none =>
    exfalso
    have := List.find?_eq_none.1 hf i (by simpa using hi)
    rw [hy] at this
    simp [pyEq, hs] at this
  | some p =>
    have g1 : p < c.n0 := by simpa using List.mem_of_find?_eq_some hf
    have h2 := List.find?_some hf
    obtain ⟨z, hz, ez⟩ := h.full g1 (by omega : 0 < c.n1)
    simp only [ez] at h2
    have h3 : z.str = x.str := by simpa [pyEq] using h2
    obtain ⟨e1, _⟩ := h.inj hi (by omega : 0 < c.n1) g1 (by omega : 0 < c.n1) hy ez (hs.trans h3.symm)
    rw [e1]

/-! ### The places of a script -/

theorem norep_map {L : List Script} (hn : NoRep L) : (L.map str).Nodup := by rw [List.Nodup, List.pairwise_map]; exact hn

theorem dedup_full {n : Nat} {l : List Nat} (hl : ∀ j ∈ l, j < n) : (dedupBy id l).length = n ↔ ∀ i < n, i ∈ l := by
  have hnd := nodup_dedupId l
  have hsub : (dedupBy id l).toFinset ⊆ Finset.range n := fun j hj =>
    Finset.mem_range.2 (hl j (mem_dedupId.1 (List.mem_toFinset.1 hj)))
  constructor
  · intro h i hi
    have := Finset.eq_of_subset_of_card_le hsub (by rw [Finset.card_range, List.toFinset_card_of_nodup hnd, h])
    have h2 := Finset.mem_range.2 hi
    rw [← this, List.mem_toFinset, mem_dedupId] at h2
    exact h2
  · intro h
    have : (dedupBy id l).toFinset = Finset.range n :=
      Finset.Subset.antisymm hsub fun j hj => List.mem_toFinset.2 (mem_dedupId.2 (h j (Finset.mem_range.1 hj)))
    rw [← List.toFinset_card_of_nodup hnd, this, Finset.card_range]

theorem dedup_one {l : List Nat} : (dedupBy id l).length = 1 ↔ l ≠ [] ∧ ∃ a, ∀ j ∈ l, j = a := by
  constructor
  · intro h
    obtain ⟨a, ha⟩ := List.length_eq_one_iff.1 h
    refine ⟨?_, a, fun j hj => ?_⟩
    · rintro rfl
      cases h
    · have := mem_dedupId.2 hj
      rw [ha, List.mem_singleton] at this
      exact this
  · rintro ⟨h1, a, h2⟩
    rw [dedup_single h2 h1]
    rfl

theorem product_iff {l : List (Nat × Nat)} (hn : l.Nodup) :
    l.length = (dedupBy id (l.map (·.1))).length * (dedupBy id (l.map (·.2))).length ↔
      ∀ i j, i ∈ l.map (·.1) → j ∈ l.map (·.2) → (i, j) ∈ l := by
  have h0 := nodup_dedupId (l.map (·.1))
  have h1 := nodup_dedupId (l.map (·.2))
  have hsub : l.toFinset ⊆ (dedupBy id (l.map (·.1))).toFinset ×ˢ (dedupBy id (l.map (·.2))).toFinset := by
    intro p hp
    rw [List.mem_toFinset] at hp
    rw [Finset.mem_product, List.mem_toFinset, List.mem_toFinset, mem_dedupId, mem_dedupId]
    exact ⟨List.mem_map_of_mem hp, List.mem_map_of_mem hp⟩
  have hcard : ((dedupBy id (l.map (·.1))).toFinset ×ˢ (dedupBy id (l.map (·.2))).toFinset).card =
      (dedupBy id (l.map (·.1))).length * (dedupBy id (l.map (·.2))).length := by
    rw [Finset.card_product, List.toFinset_card_of_nodup h0, List.toFinset_card_of_nodup h1]
  constructor
  · intro h i j hi hj
    have := Finset.eq_of_subset_of_card_le hsub (by rw [hcard, List.toFinset_card_of_nodup hn, h])
    have h2 : (i, j) ∈ (dedupBy id (l.map (·.1))).toFinset ×ˢ (dedupBy id (l.map (·.2))).toFinset := by
      rw [Finset.mem_product, List.mem_toFinset, List.mem_toFinset, mem_dedupId, mem_dedupId]
      exact ⟨hi, hj⟩
    rw [← this, List.mem_toFinset] at h2
    exact h2
  · intro h
    rw [← hcard, ← List.toFinset_card_of_nodup hn]
    congr 1
    refine Finset.Subset.antisymm hsub ?_
    rintro ⟨i, j⟩ hp
    rw [Finset.mem_product, List.mem_toFinset, List.mem_toFinset, mem_dedupId, mem_dedupId] at hp
    exact List.mem_toFinset.2 (h i j hp.1 hp.2)

theorem coords2 {c : Arr} {t s : Script} {L M : List Script} (hp : Places c L) (et : Enum t L) (es : Enum s M) (hn : NoRep M)
    (hw : Within s t) : ∃ co, M.mapM (indexOf2 c) = .ok co ∧ co.Nodup ∧ ∀ i j, (i, j) ∈ co ↔ Occupied c s i j := by
  have loc : ∀ m ∈ M, ∃ y ∈ L, y.str = m.str ∧ ∃ i j, i < c.n0 ∧ j < c.n1 ∧ c.get i j 0 = some y ∧ indexOf2 c m = .ok (i, j) := by
    intro m hm
    obtain ⟨w, hmw⟩ := den_exists (es.wf m hm)
    obtain ⟨y, hy, hyw⟩ := (et.den w).1 (hw.2 w ((es.den w).2 ⟨m, hm, hmw⟩))
    have hs := str_of_word (et.wf y hy) (es.wf m hm) (et.one y hy) (es.one m hm)
      (by rw [et.layer y hy, es.layer m hm, hw.1]) hyw hmw
    obtain ⟨i, j, hi, hj, hg⟩ := hp.each y hy
    exact ⟨y, hy, hs, i, j, hi, hj, hg, indexOf2_ok hp hi hj hg hs⟩
  obtain ⟨co, hco⟩ := mapM_total (f := indexOf2 c) (l := M) fun m hm => by
    obtain ⟨_, _, _, i, j, _, _, _, h⟩ := loc m hm
    exact ⟨_, h⟩
  refine ⟨co, hco, ?_, fun i j => ?_⟩
  · have := mapM_inv hco
    have hM := hn
    clear hco hn es
    induction this with
    | nil => exact List.nodup_nil
    | @cons m p M co h1 h2 ih =>
      rw [List.nodup_cons]
      have hM' := List.pairwise_cons.1 hM
      refine ⟨fun hmem => ?_, ih (fun m hm => loc m (by simp [hm])) hM'.2⟩
      obtain ⟨m', hm', h'⟩ := forall₂_mem_right h2 hmem
      obtain ⟨y, _, hs, i, j, _, _, hg, h3⟩ := loc m (by simp)
      obtain ⟨y', _, hs', i', j', _, _, hg', h3'⟩ := loc m' (by simp [hm'])
      rw [h1, Except.ok.injEq] at h3
      rw [h', Except.ok.injEq, h3, Prod.mk.injEq] at h3'
      obtain ⟨rfl, rfl⟩ := h3'
      rw [hg, Option.some.injEq] at hg'
      subst hg'
      exact hM'.1 m' hm' (hs.symm.trans hs')
  · rw [mapM_mem hco]
    constructor
    · rintro ⟨m, hm, h⟩
      obtain ⟨y, hy, hs, i', j', hi, hj, hg, h'⟩ := loc m hm
      rw [h, Except.ok.injEq, Prod.mk.injEq] at h'
      obtain ⟨rfl, rfl⟩ := h'
      obtain ⟨w, hmw⟩ := den_exists (es.wf m hm)
      exact ⟨hi, hj, y, w, hg, (den_of_str (et.wf y hy) (es.wf m hm) hs w).2 hmw, (es.den w).2 ⟨m, hm, hmw⟩⟩
    · rintro ⟨hi, hj, y, w, hg, hyw, hsw⟩
      obtain ⟨m, hm, hmw⟩ := (es.den w).1 hsw
      obtain ⟨y', hy', e⟩ := hp.full hi hj
      rw [hg, Option.some.injEq] at e
      subst e
      exact ⟨m, hm, indexOf2_ok hp hi hj hg (str_of_word (et.wf y hy') (es.wf m hm) (et.one y hy') (es.one m hm)
        (by rw [et.layer y hy', es.layer m hm, hw.1]) hyw hmw)⟩

end Verif
