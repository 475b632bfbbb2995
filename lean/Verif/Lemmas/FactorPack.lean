import Verif.Lemmas.Factor
import Mathlib.Data.Finset.Union
import Mathlib.Data.Finset.Image

/-
Packing a factorisation: the scripts that are built stand for the factorised sequences.
-/

namespace Verif
open Script

/-- One round: either the search fails, or it splits the sequences. -/
theorem splitSequences_eval {l : Nat} {S : List Script} (hS : ∀ x ∈ S, Sing (l + 1) x) (hne : S ≠ []) :
    ∃ a0 a1 a2 d, SeqGrid l S a0 a1 a2 d ∧ d.map (·.1) ≠ [] ∧
    ((bestFactors (d.map (·.1)) = .error .keyError ∧ splitSequences S = .error .keyError) ∨
    ∃ best P0 P1 P2 R, bestFactors (d.map (·.1)) = .ok best ∧ Split l S P0 P1 P2 R ∧ ((∀ c ∈ d.map (·.1), c ∈ best) → R = []) ∧
      splitSequences S = .ok (P0, P1, P2, R)) := by
  obtain ⟨rows, coords, h3, h4, g⟩ := grid_exists hS
  have hK : (scriptsOf (coords.zip S)).map (·.1) ≠ [] := by
    obtain ⟨x, hx⟩ := List.exists_mem_of_ne_nil _ hne
    obtain ⟨c, hc, _⟩ := g.seqs x hx
    exact List.ne_nil_of_mem hc
  refine ⟨_, _, _, _, g, hK, ?_⟩
  rcases bestFactors_only g.nodup hK with ⟨best, hb⟩ | hb
  · right
    obtain ⟨b1, b2, b3⟩ := bestFactors_box g.nodup hK hb
    obtain ⟨picked, P0, P1, P2, e1, e2, e3, e4, hs, hf⟩ := grid_split g b1 b2 b3
    refine ⟨best, P0, P1, P2, _, hb, hs, hf, ?_⟩
    rw [splitSequences]
    simp only [bind, Except.bind, h3, h4, hb, e1, e2, e3, e4]
    rfl
  · left
    refine ⟨hb, ?_⟩
    rw [splitSequences]
    simp only [bind, Except.bind, h3, h4, hb]

theorem factorLoop_two {ord : List Script → List Script} {l : Nat} {sub : List Script → Except Err (List Facto)} {n : Nat}
    {S : List Script} (hS : ∀ x ∈ S, Sing (l + 1) x) (h2 : 2 ≤ S.length) :
    factorLoop ord l sub n S = (splitSequences S >>= fun t => sub (ord t.1) >>= fun f0 => sub (ord t.2.1) >>= fun f1 =>
      sub (ord t.2.2.1) >>= fun f2 =>
      match t.2.2.2, n with
      | [], _ => .ok [.product f0 f1 f2]
      | _ :: _, 0 => .error .unmodelled
      | r :: R, n + 1 => factorLoop ord l sub n (r :: R) >>= fun rest => .ok (.product f0 f1 f2 :: rest)) := by
  obtain ⟨x, y, S', rfl⟩ : ∃ x y S', S = x :: y :: S' := by
    rcases S with _ | ⟨x, _ | ⟨y, S'⟩⟩
    · simp at h2
    · simp at h2
    · exact ⟨x, y, S', rfl⟩
  have hx := hS x (by simp)
  conv => lhs; rw [factorLoop.eq_def]
  simp only [hx.2.2.1, ne_eq, not_true_eq_false, if_false]
  refine bind_congr fun t => ?_
  obtain ⟨p0, p1, p2, R⟩ := t
  refine bind_congr fun f0 => bind_congr fun f1 => bind_congr fun f2 => ?_
  cases R <;> cases n <;> rfl

theorem factorLoop_one {ord : List Script → List Script} {l : Nat} {sub : List Script → Except Err (List Facto)} {n : Nat}
    {x : Script} (hx : x.layer = l + 1) : factorLoop ord l sub n [x] = .ok [.script x] := by
  rw [factorLoop.eq_def]
  simp only [hx, if_true]

theorem one_or_two {S : List Script} (h : S ≠ []) : (∃ x, S = [x]) ∨ 2 ≤ S.length := by
  rcases S with _ | ⟨x, _ | ⟨y, S⟩⟩
  · exact absurd rfl h
  · exact .inl ⟨x, rfl⟩
  · right; simp

/-! ### Sums -/

theorem sumTerms_flat {ts : List Script} (h : ∀ t ∈ ts, t.isAdd = false) : sumTerms ts = dedupBy str ts := by
  have : ts.filter isAdd = [] := by
    rw [List.filter_eq_nil_iff]
    intro t ht
    simp [h t ht]
  simp [sumTerms, this]

/-- The last step of `pack_factorisation`, on scripts that are not sums. -/
theorem packSum_flat {l : Nat} {ts : List Script} (hne : ts ≠ []) (ht : ∀ t ∈ ts, WF t ∧ t.isAdd = false ∧ t.layer = l)
    (hc : ((dedupBy str ts).map cardinal).sum ≤ 360) :
    ∃ t, packSum ts = .ok t ∧ WF t ∧ t.layer = l ∧ (∀ w, Den t w ↔ ∃ c ∈ ts, Den c w) ∧
      t.cardinal = ((dedupBy str ts).map cardinal).sum ∧ (ts.Pairwise (fun a b => a.str ≠ b.str) → Plain t) := by
  have hw : ∀ t ∈ ts, WF t := fun t h => (ht t h).1
  have hpl : ∀ t ∈ ts, Plain t := fun t h => by
    intro c hc
    have := (ht t h).2.1
    rw [hc] at this
    cases this
  rcases ts with _ | ⟨x, _ | ⟨y, ts⟩⟩
  · exact absurd rfl hne
  · refine ⟨x, rfl, hw x (by simp), (ht x (by simp)).2.2, by simp, by simp [dedupBy], fun _ => hpl x (by simp)⟩
  · have hs := sumTerms_flat (ts := x :: y :: ts) fun t h => (ht t h).2.1
    have hd := dedupBy_ne_nil str hne
    have he := mkAdd_eval hne hw (l := l) fun t h => (ht t h).2.2
    rw [hs, if_neg hd, if_neg (by omega)] at he
    refine ⟨_, he, mkAdd_wf hw he, ?_, den_mkAdd he hw hpl, ?_, ?_⟩
    · obtain ⟨t, h⟩ := List.exists_mem_of_ne_nil _ (show pySort lt (dedupBy str (x :: y :: ts)) ≠ [] from fun h => hd (by
        have := length_pySort lt (dedupBy str (x :: y :: ts))
        rw [h] at this
        exact List.eq_nil_of_length_eq_zero this.symm))
      have hwf := mkAdd_wf hw he
      cases hwf with
      | add _ _ h3 _ _ _ _ =>
        rw [← h3 t h]
        exact (ht t (mem_dedupBy str ((mem_pySort _).1 h))).2.2
    · rw [cardinal_add (mkAdd_wf hw he)]
      exact sum_perm ((pySort_perm lt _).map cardinal)
    · intro hp c hcc
      rw [dedupBy_of_pairwise str hp] at hcc
      have := length_pySort lt (x :: y :: ts)
      simp only [add.injEq] at hcc
      rw [hcc] at this
      simp at this

/-- The scripts `ts` share out the words of the sequences `S`. -/
structure Packed (l : Nat) (S ts : List Script) : Prop where
  ne : ts ≠ []
  each : ∀ t ∈ ts, WF t ∧ t.isAdd = false ∧ t.layer = l
  den : ∀ w, w ∈ wordSet S ↔ ∃ t ∈ ts, Den t w
  disjoint : ts.Pairwise fun a b => ∀ w, ¬ (Den a w ∧ Den b w)
  card : (ts.map cardinal).sum = (wordSet S).card

theorem Packed.distinct {l : Nat} {S ts : List Script} (h : Packed l S ts) : ts.Pairwise fun a b => a.str ≠ b.str := by
  refine h.disjoint.imp_of_mem ?_
  intro a b ha hb hd he
  obtain ⟨w, hw⟩ := den_exists (h.each a ha).1
  exact hd w ⟨hw, (den_of_str (h.each a ha).1 (h.each b hb).1 he w).1 hw⟩

theorem Packed.sum {l : Nat} {S ts : List Script} (h : Packed l S ts) (hc : (wordSet S).card ≤ 360) :
    ∃ t, packSum ts = .ok t ∧ WF t ∧ Plain t ∧ t.layer = l ∧ (∀ w, Den t w ↔ w ∈ wordSet S) ∧ t.cardinal = (wordSet S).card := by
  have hd := dedupBy_of_pairwise str h.distinct
  obtain ⟨t, h1, h2, h3, h4, h5, h6⟩ := packSum_flat h.ne h.each (by rw [hd, h.card]; exact hc)
  exact ⟨t, h1, h2, h6 h.distinct, h3, fun w => by rw [h4, h.den], by rw [h5, hd, h.card]⟩

theorem packed_single {l : Nat} {x : Script} (h : Sing l x) : Packed l [x] [x] := by
  refine ⟨by simp, by simpa using ⟨h.1, h.2.2.2, h.2.2.1⟩, ?_, by simp, ?_⟩
  · intro w
    rw [mem_wordSet]
    simp only [List.mem_singleton, exists_eq_left, den_sing h]
    exact eq_comm
  · simp [wordSet, h.2.1]

/-- The number of words of a product. -/
theorem card_product {l : Nat} {P0 P1 P2 : List Script} (h0 : ∀ x ∈ P0, Sing l x) (h1 : ∀ x ∈ P1, Sing l x)
    {W : Finset Word} (hW : ∀ w, w ∈ W ↔ ∃ u ∈ wordSet P0, ∃ v ∈ wordSet P1, ∃ x ∈ wordSet P2, w = u ++ v ++ x) :
    W.card = (wordSet P0).card * (wordSet P1).card * (wordSet P2).card := by
  have he : W = ((wordSet P0 ×ˢ wordSet P1) ×ˢ wordSet P2).image fun t => t.1.1 ++ t.1.2 ++ t.2 := by
    ext w
    rw [hW, Finset.mem_image]
    constructor
    · rintro ⟨u, hu, v, hv, x, hx, rfl⟩
      exact ⟨((u, v), x), by simp [hu, hv, hx], rfl⟩
    · rintro ⟨⟨⟨u, v⟩, x⟩, h, rfl⟩
      simp only [Finset.mem_product] at h
      exact ⟨u, h.1.1, v, h.1.2, x, h.2, rfl⟩
  rw [he, Finset.card_image_of_injOn, Finset.card_product, Finset.card_product]
  rintro ⟨⟨u, v⟩, x⟩ h ⟨⟨u', v'⟩, x'⟩ h' hw
  simp only [Finset.coe_product, Set.mem_prod, Finset.mem_coe] at h h'
  have len : ∀ {P : List Script}, (∀ x ∈ P, Sing l x) → ∀ {w : Word}, w ∈ wordSet P → w.length = 3 ^ l := by
    intro P hP w hw
    obtain ⟨y, hy, rfl⟩ := mem_wordSet.1 hw
    exact length_lettersOf (hP y hy)
  obtain ⟨rfl, rfl, rfl⟩ := append3_inj hw (by rw [len h0 h.1.1, len h0 h'.1.1]) (by rw [len h1 h.1.2, len h1 h'.1.2])
  rfl

theorem wordSet_ne {P : List Script} (h : P ≠ []) : 1 ≤ (wordSet P).card := by
  obtain ⟨x, hx⟩ := List.exists_mem_of_ne_nil _ h
  exact Finset.card_pos.2 ⟨_, mem_wordSet.2 ⟨x, hx, rfl⟩⟩

/-- A split set of sequences. -/
theorem split_card {l : Nat} {S P0 P1 P2 R : List Script} (h : Split l S P0 P1 P2 R) :
    (wordSet S).card = (wordSet P0).card * (wordSet P1).card * (wordSet P2).card + (wordSet R).card := by
  classical
  have hW : ∀ w, w ∈ wordSet S \ wordSet R ↔ ∃ u ∈ wordSet P0, ∃ v ∈ wordSet P1, ∃ x ∈ wordSet P2, w = u ++ v ++ x := by
    intro w
    rw [Finset.mem_sdiff, h.words]
    constructor
    · rintro ⟨h1 | h1, h2⟩
      · exact h1
      · exact absurd h1 h2
    · intro h1
      refine ⟨.inl h1, ?_⟩
      obtain ⟨u, hu, v, hv, x, hx, rfl⟩ := h1
      exact h.disjoint u hu v hv x hx
  rw [← card_product h.sing0 h.sing1 hW]
  have hsub : wordSet R ⊆ wordSet S := fun w hw => (h.words w).2 (.inr hw)
  rw [Finset.card_sdiff_add_card_eq_card hsub]

theorem wordSet_ord {ord : List Script → List Script} (ho : FactorOrder ord) {l : Nat} {P : List Script} (hP : ∀ x ∈ P, Sing l x)
    (hne : P ≠ []) : ord P ≠ [] ∧ (∀ x ∈ ord P, Sing l x) ∧ (ord P).Pairwise (fun a b => a.str ≠ b.str) ∧ wordSet (ord P) = wordSet P := by
  have hp := ho P
  refine ⟨?_, ?_, ?_, ?_⟩
  · intro h
    rw [h] at hp
    exact dedupBy_ne_nil str hne hp.symm.eq_nil
  · intro x hx
    exact hP x (mem_dedupBy str (hp.mem_iff.1 hx))
  · exact (hp.pairwise_iff (fun {_ _} h => Ne.symm h)).2 (dedupBy_pairwise str P)
  · ext w
    rw [mem_wordSet, mem_wordSet]
    constructor
    · rintro ⟨x, hx, rfl⟩
      exact ⟨x, mem_dedupBy str (hp.mem_iff.1 hx), rfl⟩
    · rintro ⟨x, hx, rfl⟩
      obtain ⟨y, hy, he⟩ := dedupBy_complete str hx
      exact ⟨y, hp.mem_iff.2 hy, (str_sing (hP y (mem_dedupBy str hy)) (hP x hx)).1 he⟩

/-- The product of three packed factorisations. -/
theorem packOne_product {l : Nat} (hl : l ≤ 5) {P0 P1 P2 t0 t1 t2 : List Script} {f0 f1 f2 : List Facto}
    (e0 : packAll f0 = .ok t0) (e1 : packAll f1 = .ok t1) (e2 : packAll f2 = .ok t2)
    (h0 : Packed l P0 t0) (h1 : Packed l P1 t1) (h2 : Packed l P2 t2) (n0 : P0 ≠ []) (n1 : P1 ≠ []) (n2 : P2 ≠ [])
    (hc : (wordSet P0).card * (wordSet P1).card * (wordSet P2).card ≤ 360) :
    ∃ t, packOne (.product f0 f1 f2) = .ok t ∧ WF t ∧ t.isAdd = false ∧ t.layer = l + 1 ∧
      (∀ w, Den t w ↔ ∃ u ∈ wordSet P0, ∃ v ∈ wordSet P1, ∃ x ∈ wordSet P2, w = u ++ v ++ x) ∧
      t.cardinal = (wordSet P0).card * (wordSet P1).card * (wordSet P2).card := by
  have k0 := wordSet_ne n0
  have k1 := wordSet_ne n1
  have k2 := wordSet_ne n2
  have c0 : (wordSet P0).card ≤ 360 := by
    refine Nat.le_trans ?_ hc
    rw [Nat.mul_assoc]
    exact Nat.le_mul_of_pos_right _ (Nat.mul_pos k1 k2)
  have c1 : (wordSet P1).card ≤ 360 := by
    refine Nat.le_trans ?_ hc
    exact Nat.le_trans (Nat.le_mul_of_pos_left _ k0) (Nat.le_mul_of_pos_right _ k2)
  have c2 : (wordSet P2).card ≤ 360 := Nat.le_trans (Nat.le_mul_of_pos_left _ (Nat.mul_pos k0 k1)) hc
  obtain ⟨x, x1, x2, _, x3, x4, x5⟩ := h0.sum c0
  obtain ⟨y, y1, y2, _, y3, y4, y5⟩ := h1.sum c1
  obtain ⟨z, z1, z2, _, z3, z4, z5⟩ := h2.sum c2
  have hcard : (mult (role x) (role y) (role z)).cardinal = (wordSet P0).card * (wordSet P1).card * (wordSet P2).card := by
    rw [cardinal_mult_role x2 y2 z2 (by rw [x3, y3]) (by rw [x3, z3]), x5, y5, z5]
  have hm : mkMult [some x, some y, some z] = .ok (mult (role x) (role y) (role z)) := by
    rw [mkMult_three x2 y2 z2, if_neg (by rw [x3, y3, z3]; simp), if_neg (by rw [hcard]; omega), if_pos (by omega)]
  refine ⟨_, ?_, mkMult_wf ?_ hm, rfl, ?_, ?_, hcard⟩
  · simp only [packOne, e0, e1, e2, bind, Except.bind, x1, y1, z1, hm]
  · intro c hcm
    simp only [List.mem_cons, Option.some.injEq, List.not_mem_nil, or_false] at hcm
    rcases hcm with rfl | rfl | rfl <;> assumption
  · simp only [layer]
    rw [(role_wf x2).2.2, x3]
  · intro w
    rw [den_mult]
    constructor
    · rintro ⟨u, v, s, du, dv, ds, rfl⟩
      exact ⟨u, (x4 u).1 ((den_role x2 u).1 du), v, (y4 v).1 ((den_role y2 v).1 dv), s, (z4 s).1 ((den_role z2 s).1 ds), rfl⟩
    · rintro ⟨u, du, v, dv, s, ds, rfl⟩
      exact ⟨u, v, s, (den_role x2 u).2 ((x4 u).2 du), (den_role y2 v).2 ((y4 v).2 dv), (den_role z2 s).2 ((z4 s).2 ds), rfl⟩

/-- What is asked from `factor` on the sequences of layer `l`. -/
def FactorOk (ord : List Script → List Script) (l : Nat) : Prop :=
  ∀ S fs, S ≠ [] → (∀ x ∈ S, Sing l x) → (l = 0 → S.Pairwise (fun a b => a.str ≠ b.str)) → (wordSet S).card ≤ 360 →
    factor ord l S = .ok fs → ∃ ts, packAll fs = .ok ts ∧ Packed l S ts

theorem factorLoop_packed {ord : List Script → List Script} (ho : FactorOrder ord) {l : Nat} (ih : FactorOk ord l) :
    ∀ {n : Nat} {S : List Script} {fs : List Facto}, S ≠ [] → (∀ x ∈ S, Sing (l + 1) x) → (wordSet S).card ≤ 360 →
      factorLoop ord l (factor ord l) n S = .ok fs → ∃ ts, packAll fs = .ok ts ∧ Packed (l + 1) S ts := by
  have main : ∀ {n : Nat}, (∀ m, n = m + 1 → ∀ {S : List Script} {fs : List Facto}, S ≠ [] → (∀ x ∈ S, Sing (l + 1) x) →
      (wordSet S).card ≤ 360 → factorLoop ord l (factor ord l) m S = .ok fs → ∃ ts, packAll fs = .ok ts ∧ Packed (l + 1) S ts) →
      ∀ {S : List Script} {fs : List Facto}, S ≠ [] → (∀ x ∈ S, Sing (l + 1) x) → (wordSet S).card ≤ 360 →
      factorLoop ord l (factor ord l) n S = .ok fs → ∃ ts, packAll fs = .ok ts ∧ Packed (l + 1) S ts := by
    intro n hn S fs hne hS hc h
    rcases one_or_two hne with ⟨x, rfl⟩ | hlen
    · have hx := hS x (by simp)
      rw [factorLoop_one hx.2.2.1, Except.ok.injEq] at h
      subst h
      exact ⟨[x], rfl, packed_single hx⟩
    · rw [factorLoop_two hS hlen] at h
      obtain ⟨a0, a1, a2, d, g, _, ⟨_, he⟩ | ⟨best, P0, P1, P2, R, hb, hs, _, he⟩⟩ := splitSequences_eval hS hne
      · rw [he] at h; cases h
      · rw [he] at h
        simp only [bind, Except.bind] at h
        cases e0 : factor ord l (ord P0) with
        | error e => rw [e0] at h; cases h
        | ok f0 =>
        cases e1 : factor ord l (ord P1) with
        | error e => rw [e0, e1] at h; cases h
        | ok f1 =>
        cases e2 : factor ord l (ord P2) with
        | error e => rw [e0, e1, e2] at h; cases h
        | ok f2 =>
        rw [e0, e1, e2] at h
        simp only at h
        have hcard := split_card hs
        have hl5 : l ≤ 5 := by
          obtain ⟨x, hx⟩ := List.exists_mem_of_ne_nil _ hne
          have := wf_layer (hS x hx).1
          rw [(hS x hx).2.2.1] at this
          omega
        obtain ⟨n0, n1, n2⟩ := hs.ne
        have k0 := wordSet_ne n0
        have k1 := wordSet_ne n1
        have k2 := wordSet_ne n2
        have hprod : (wordSet P0).card * (wordSet P1).card * (wordSet P2).card ≤ 360 := by omega
        have c0 : (wordSet P0).card ≤ 360 := by
          refine Nat.le_trans ?_ hprod
          rw [Nat.mul_assoc]
          exact Nat.le_mul_of_pos_right _ (Nat.mul_pos k1 k2)
        have c1 : (wordSet P1).card ≤ 360 := by
          refine Nat.le_trans ?_ hprod
          exact Nat.le_trans (Nat.le_mul_of_pos_left _ k0) (Nat.le_mul_of_pos_right _ k2)
        have c2 : (wordSet P2).card ≤ 360 := Nat.le_trans (Nat.le_mul_of_pos_left _ (Nat.mul_pos k0 k1)) hprod
        obtain ⟨u1, u2, u3, u4⟩ := wordSet_ord ho hs.sing0 n0
        obtain ⟨v1, v2, v3, v4⟩ := wordSet_ord ho hs.sing1 n1
        obtain ⟨w1, w2, w3, w4⟩ := wordSet_ord ho hs.sing2 n2
        obtain ⟨t0, p0, q0⟩ := ih _ _ u1 u2 (fun _ => u3) (by rw [u4]; exact c0) e0
        obtain ⟨t1, p1, q1⟩ := ih _ _ v1 v2 (fun _ => v3) (by rw [v4]; exact c1) e1
        obtain ⟨t2, p2, q2⟩ := ih _ _ w1 w2 (fun _ => w3) (by rw [w4]; exact c2) e2
        obtain ⟨t, r1, r2, r3, r4, r5, r6⟩ := packOne_product hl5 p0 p1 p2 q0 q1 q2 u1 v1 w1 (by rw [u4, v4, w4]; exact hprod)
        rw [u4, v4, w4] at r5 r6
        cases R with
        | nil =>
          have h' : fs = [.product f0 f1 f2] := by cases n <;> (cases h; rfl)
          subst h'
          refine ⟨[t], by rw [packAll, r1]; rfl, by simp, by simpa using ⟨r2, r3, r4⟩, ?_, by simp, ?_⟩
          · intro w
            rw [hs.words]
            simp only [List.mem_singleton, exists_eq_left, r5]
            simp [wordSet]
          · rw [hcard]
            simpa [wordSet] using r6
        | cons r R =>
          cases n with
          | zero => cases h
          | succ m =>
            simp only at h
            cases e3 : factorLoop ord l (factor ord l) m (r :: R) with
            | error e => rw [e3] at h; cases h
            | ok rest =>
              rw [e3] at h
              cases h
              obtain ⟨ts, y1, y2⟩ := hn m rfl (by simp) hs.singR (by omega) e3
              refine ⟨t :: ts, by rw [packAll, r1, y1]; rfl, by simp, ?_, ?_, ?_, ?_⟩
              · intro s hsm
                rcases List.mem_cons.1 hsm with rfl | hsm
                · exact ⟨r2, r3, r4⟩
                · exact y2.each s hsm
              · intro w
                rw [hs.words]
                simp only [List.mem_cons, exists_eq_or_imp, r5]
                rw [y2.den]
              · refine List.pairwise_cons.2 ⟨?_, y2.disjoint⟩
                intro s hsm w ⟨d1, d2⟩
                obtain ⟨u, hu, v, hv, x, hx, rfl⟩ := (r5 w).1 d1
                exact hs.disjoint u hu v hv x hx ((y2.den _).2 ⟨s, hsm, d2⟩)
              · rw [hcard, List.map_cons, List.sum_cons, r6, y2.card]
  intro n
  induction n with
  | zero => exact main (fun m h => by omega)
  | succ n ihn => exact main (fun m h => by cases h; exact ihn)

theorem factor_packed {ord : List Script → List Script} (ho : FactorOrder ord) : ∀ l, FactorOk ord l
  | 0 => by
    intro S fs hne hS hd hc h
    have hfs : fs = S.map .script := by
      rw [factor.eq_def] at h
      simp only at h
      cases S with
      | nil => exact absurd rfl hne
      | cons x S =>
        simp only [(hS x (by simp)).2.2.1, if_true, Except.ok.injEq] at h
        exact h.symm
    subst hfs
    have hp : ∀ S : List Script, packAll (S.map .script) = .ok S := by
      intro S
      induction S with
      | nil => rfl
      | cons x S ih => rw [List.map_cons, packAll, ih]; rfl
    refine ⟨S, hp S, hne, fun t ht => ⟨(hS t ht).1, (hS t ht).2.2.2, (hS t ht).2.2.1⟩, ?_, ?_, ?_⟩
    · intro w
      rw [mem_wordSet]
      constructor
      · rintro ⟨x, hx, rfl⟩; exact ⟨x, hx, den_lettersOf (hS x hx)⟩
      · rintro ⟨x, hx, h⟩; exact ⟨x, hx, ((den_sing (hS x hx) w).1 h).symm⟩
    · refine (hd rfl).imp_of_mem ?_
      intro a b ha hb hab w ⟨h1, h2⟩
      rw [den_sing (hS a ha)] at h1
      rw [den_sing (hS b hb)] at h2
      exact hab ((str_sing (hS a ha) (hS b hb)).2 (by rw [← h1, ← h2]))
    · have hnd : (S.map lettersOf).Nodup := by
        rw [List.Nodup, List.pairwise_map]
        exact (hd rfl).imp_of_mem fun {a b} ha hb hab he => hab ((str_sing (hS a ha) (hS b hb)).2 he)
      rw [wordSet, List.toFinset_card_of_nodup hnd, List.length_map]
      have : S.map cardinal = List.replicate S.length 1 := by
        rw [List.eq_replicate_iff]
        refine ⟨by simp, ?_⟩
        intro b hb
        obtain ⟨x, hx, rfl⟩ := List.mem_map.1 hb
        exact (hS x hx).2.1
      rw [this]
      simp
  | l + 1 => by
    intro S fs hne hS _ hc h
    rw [factor] at h
    exact factorLoop_packed ho (factor_packed ho l) hne hS hc h

end Verif
