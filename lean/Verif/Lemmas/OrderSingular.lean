import Verif.Lemmas.SSNodup
import Verif.Lemmas.PySort
import Verif.Lemmas.Den
import Verif.Model.PolyMorpheme

/-
The order of scripts that are not one-term sums of several words; sorting lists and tuples of them.
-/

namespace Verif
open Script

/-- Value of a letter in a canonical form. -/
def letterVal : Letter → Nat
  | none => 1
  | some p => p.value

theorem letterVal_inj {x y : Letter} (h : letterVal x = letterVal y) : x = y := by
  have hp : ∀ p : Prim, p.value ≠ 1 := by intro p; cases p <;> decide
  cases x with
  | none =>
    cases y with
    | none => rfl
    | some q => exact absurd h.symm (hp q)
  | some p =>
    cases y with
    | none => exact absurd h (hp p)
    | some q => cases p <;> cases q <;> simp_all [letterVal, Prim.value]

namespace Script

theorem canonical_unwrap {s : Script} (h : WF s) : (unwrap s).canonical = s.canonical := by
  unfold unwrap
  split
  · rename_i c
    cases h with
    | add _ _ _ h4 => exact (canonical_single (h4 c (by simp))).symm
  · rfl

theorem canonical_word {s : Script} (h : WF s) (hc : s.cardinal = 1) : ∀ {w : Verif.Word}, Den s w → s.canonical = w.map letterVal := by
  induction h with
  | null => intro w hw; rw [den_null.1 hw]; simp [canonical, letterVal]
  | prim => intro w hw; rw [den_prim.1 hw]; simp [canonical, letterVal]
  | @mult s a m h1 h2 h3 h4 h5 h6 h7 h8 h9 h10 ih1 ih2 ih3 =>
    intro w hw
    rw [cardinal_mult (.mult h1 h2 h3 h4 h5 h6 h7 h8 h9 h10)] at hc
    obtain ⟨c1, c2, c3⟩ := mult_eq_one hc
    obtain ⟨u, v, x, hu, hv, hx, rfl⟩ := den_mult.1 hw
    rw [canonical, ih1 c1 hu, ih2 c2 hv, ih3 c3 hx]; simp
  | @add cs h1 h2 h3 h4 h5 h6 h7 ih =>
    have hw' : WF (.add cs) := .add h1 h2 h3 h4 h5 h6 h7
    intro w hw
    by_cases hp : Plain (.add cs)
    · have := two_le_cardinal_add hw' hp; omega
    · have : ∃ c, cs = [c] := by
        unfold Plain at hp
        by_contra hne
        exact hp fun c hc' => hne ⟨c, by injection hc'⟩
      obtain ⟨c, rfl⟩ := this
      have hc1 : c.cardinal = 1 := by
        rw [← hc]
        refine cardinal_of_str (h2 c (by simp)) hw' ?_
        have := str_unwrap (.add [c]); simpa [unwrap] using this
      obtain ⟨d, hd, hdw⟩ := den_add.1 hw
      simp only [List.mem_singleton] at hd
      subst hd
      rw [canonical_single (h4 d (by simp)), ih d (by simp) hc1 hdw]

theorem str_of_canonical {s t : Script} (hs : WF s) (ht : WF t) (cs : s.cardinal = 1) (ct : t.cardinal = 1)
    (hl : s.layer = t.layer) (h : s.canonical = t.canonical) : s.str = t.str := by
  obtain ⟨w, hw⟩ := den_exists hs
  obtain ⟨v, hv⟩ := den_exists ht
  rw [canonical_word hs cs hw, canonical_word ht ct hv] at h
  have : w = v := (List.map_injective_iff.2 fun x y => letterVal_inj) h
  subst this
  exact str_of_word hs ht cs ct hl hw hv

/-- The scripts among which `<` is an order: not empty, and a one-term sum only with a single word. -/
structure Good (x : Script) : Prop where
  wf : WF x
  ne : x.empty = false
  plain : Plain x ∨ x.cardinal = 1

/-- Code of a script up to one-term sums. -/
def KK (x : Script) : List Nat := K (unwrap x)

theorem isNull_of_ne {x : Script} (h : x.empty = false) : x.isNull = false := by
  cases x <;> simp_all [isNull, empty]

theorem lt_KK {x y : Script} (hx : Good x) (hy : Good y) : lt x y = ltBytes (KK x) (KK y) := by
  obtain ⟨wx, px, lx⟩ := unwrap_wf hx.wf
  obtain ⟨wy, py, ly⟩ := unwrap_wf hy.wf
  rw [KK, KK, ← lt_K wx px wy py]
  have ex : (unwrap x).empty = false := by rw [empty_of_str wx hx.wf (str_unwrap x), hx.ne]
  have ey : (unwrap y).empty = false := by rw [empty_of_str wy hy.wf (str_unwrap y), hy.ne]
  have cx := cardinal_of_str wx hx.wf (str_unwrap x)
  have cy := cardinal_of_str wy hy.wf (str_unwrap y)
  by_cases h1 : x.cardinal = y.cardinal
  · by_cases h2 : x.cardinal = 1
    · by_cases ht : x.str = y.str
      · rw [lt_of_str ht, lt_of_str (by rw [str_unwrap, str_unwrap, ht])]
      · have h3 : x.layer = y.layer → x.canonical ≠ y.canonical := fun hl hc =>
          ht (str_of_canonical hx.wf hy.wf h2 (h1 ▸ h2) hl hc)
        rw [lt_eq, lt_eq]
        simp only [ltStages, pyEq, str_unwrap, lx, ly, isNull_of_ne hx.ne, isNull_of_ne hy.ne, isNull_of_ne ex, isNull_of_ne ey,
          cx, cy, canonical_unwrap hx.wf, canonical_unwrap hy.wf]
        by_cases hl : x.layer = y.layer
        · have := h3 hl
          simp [this, hl]
        · simp [hl]
    · have p1 : Plain x := hx.plain.resolve_right h2
      have p2 : Plain y := hy.plain.resolve_right (h1 ▸ h2)
      rw [unwrap_plain p1, unwrap_plain p2]
  · rw [lt_eq, lt_eq]
    simp only [ltStages, pyEq, str_unwrap, lx, ly, isNull_of_ne hx.ne, isNull_of_ne hy.ne, isNull_of_ne ex, isNull_of_ne ey,
      cx, cy]
    simp [h1]

theorem KK_iff {x y : Script} (hx : Good x) (hy : Good y) : KK x = KK y ↔ x.str = y.str := by
  obtain ⟨wx, px, lx⟩ := unwrap_wf hx.wf
  obtain ⟨wy, py, ly⟩ := unwrap_wf hy.wf
  rw [KK, KK, K_iff wx px wy py, str_unwrap, str_unwrap]

/-! ### Tuples -/

/-- Code of a tuple of scripts. -/
def KT : List Script → List Nat
  | [] => [0]
  | x :: xs => 1 :: (KK x ++ KT xs)

theorem KT_lt : ∀ {xs ys : List Script} (u v : List Nat), (∀ x ∈ xs, Good x) → (∀ y ∈ ys, Good y) →
    ltBytes (KT xs ++ u) (KT ys ++ v) = if xs.map str = ys.map str then ltBytes u v else ltTuple xs ys
  | [], [], u, v, _, _ => by simp [KT, ltBytes]
  | [], y :: ys, u, v, _, _ => by simp [KT, ltBytes, ltTuple]
  | x :: xs, [], u, v, _, _ => by simp [KT, ltBytes, ltTuple]
  | x :: xs, y :: ys, u, v, hx, hy => by
    have gx := hx x (by simp)
    have gy := hy y (by simp)
    have ih := KT_lt (xs := xs) (ys := ys) u v (fun z hz => hx z (by simp [hz])) (fun z hz => hy z (by simp [hz]))
    simp only [KT, List.cons_append, ltBytes, if_true, List.append_assoc]
    rw [ltBytes_append (a := KK x) (b := KK y) (KT xs ++ u) (KT ys ++ v) fun u v h => (pf _ _ _ _ h).1]
    simp only [KK_iff gx gy, ih, List.map_cons, List.cons.injEq, ltTuple, pyEq, beq_iff_eq]
    by_cases h : x.str = y.str
    · simp [h]
    · simp [h, lt_KK gx gy]

theorem KT_iff : ∀ {xs ys : List Script} {u v : List Nat}, (∀ x ∈ xs, Good x) → (∀ y ∈ ys, Good y) →
    (KT xs ++ u = KT ys ++ v ↔ xs.map str = ys.map str ∧ u = v)
  | [], [], u, v, _, _ => by simp [KT]
  | [], y :: ys, u, v, _, _ => by simp [KT]
  | x :: xs, [], u, v, _, _ => by simp [KT]
  | x :: xs, y :: ys, u, v, hx, hy => by
    have gx := hx x (by simp)
    have gy := hy y (by simp)
    have ih := KT_iff (xs := xs) (ys := ys) (u := u) (v := v) (fun z hz => hx z (by simp [hz])) (fun z hz => hy z (by simp [hz]))
    simp only [KT, List.cons_append, List.append_assoc, List.cons.injEq, true_and, List.map_cons]
    constructor
    · intro h
      obtain ⟨h1, h2⟩ := pf _ _ _ _ h
      obtain ⟨h3, h4⟩ := ih.1 h2
      exact ⟨⟨(KK_iff gx gy).1 h1, h3⟩, h4⟩
    · rintro ⟨⟨h1, h3⟩, h4⟩
      rw [(KK_iff gx gy).2 h1, ih.2 ⟨h3, h4⟩]

/-- Code of a group. -/
def KG (g : Group) : List Nat := KT g.1 ++ [g.2]

theorem ltGroup_KG {g h : Group} (hg : ∀ x ∈ g.1, Good x) (hh : ∀ x ∈ h.1, Good x) : ltGroup g h = ltBytes (KG g) (KG h) := by
  rw [KG, KG, KT_lt _ _ hg hh, ltGroup]
  simp only [eqTuple, beq_iff_eq]
  split
  · by_cases e : g.2 = h.2 <;> simp [ltBytes, e]
  · rfl

theorem KG_iff {g h : Group} (hg : ∀ x ∈ g.1, Good x) (hh : ∀ x ∈ h.1, Good x) :
    KG g = KG h ↔ (g.1.map str, g.2) = (h.1.map str, h.2) := by
  rw [KG, KG, KT_iff hg hh]; simp

end Script

/-- Sorting two lists with the same elements up to `f` gives the same list up to `f`, when the order is that of a key which
determines `f` and is determined by it. -/
theorem pySort_ext {α β : Type} {lt : α → α → Bool} {k : α → List Nat} {f : α → β} {l l' : List α}
    (h : ∀ a ∈ l ++ l', ∀ b ∈ l ++ l', lt a b = ltBytes (k a) (k b))
    (hk : ∀ a ∈ l ++ l', ∀ b ∈ l ++ l', k a = k b ↔ f a = f b) (hp : (l.map f).Perm (l'.map f)) :
    (pySort lt l).map f = (pySort lt l').map f := by
  classical
  let g : β → List Nat := fun b => if hb : ∃ a ∈ l ++ l', f a = b then k hb.choose else []
  have hg : ∀ a ∈ l ++ l', g (f a) = k a := by
    intro a ha
    have hb : ∃ a' ∈ l ++ l', f a' = f a := ⟨a, ha, rfl⟩
    simp only [g, hb, dif_pos]
    exact (hk _ hb.choose_spec.1 _ ha).2 hb.choose_spec.2
  have hperm : ((pySort lt l).map f).Perm ((pySort lt l').map f) :=
    (((pySort_perm lt l).map f).trans hp).trans ((pySort_perm lt l').map f).symm
  have sl := pySort_sorted lt (k := k) (l := l) fun a ha b hb => h a (by simp [ha]) b (by simp [hb])
  have sl' := pySort_sorted lt (k := k) (l := l') fun a ha b hb => h a (by simp [ha]) b (by simp [hb])
  refine hperm.eq_of_pairwise (le := fun a b => ltBytes (g b) (g a) = false) ?_ ?_ ?_
  · intro a b ha hb hab hba
    obtain ⟨x, hx, rfl⟩ := List.mem_map.1 ha
    obtain ⟨y, hy, rfl⟩ := List.mem_map.1 hb
    rw [mem_pySort] at hx hy
    have hx' : x ∈ l ++ l' := by simp [hx]
    have hy' : y ∈ l ++ l' := by simp [hy]
    rw [hg x hx', hg y hy'] at hab hba
    refine (hk x hx' y hy').1 ?_
    by_contra hne
    rcases ltBytes_total hne with h' | h'
    · rw [h'] at hba; cases hba
    · rw [h'] at hab; cases hab
  · rw [List.pairwise_map]
    refine sl.imp_of_mem ?_
    intro a b ha hb hab
    rw [mem_pySort] at ha hb
    rw [hg a (by simp [ha]), hg b (by simp [hb]), hab]
  · rw [List.pairwise_map]
    refine sl'.imp_of_mem ?_
    intro a b ha hb hab
    rw [mem_pySort] at ha hb
    rw [hg a (by simp [ha]), hg b (by simp [hb]), hab]

end Verif
