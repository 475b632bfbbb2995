import Verif.Lemmas.FactorPack
import Verif.Spec.Factor

/-
When the factorisation returns, and how it may fail.
-/

namespace Verif
open Script

/-! ### Failures -/

theorem factorLoop_only {ord : List Script → List Script} (ho : FactorOrder ord) {l : Nat} {sub : List Script → Except Err (List Facto)}
    (ih : ∀ S, S ≠ [] → (∀ x ∈ S, Sing l x) → (∃ fs, sub S = .ok fs) ∨ sub S = .error .keyError) :
    ∀ (n : Nat) (S : List Script), S ≠ [] → (∀ x ∈ S, Sing (l + 1) x) → S.length ≤ n →
      (∃ fs, factorLoop ord l sub n S = .ok fs) ∨ factorLoop ord l sub n S = .error .keyError := by
  intro n
  induction n with
  | zero =>
    intro S hne hS hn
    exact absurd (List.eq_nil_of_length_eq_zero (Nat.le_zero.1 hn)) hne
  | succ n ihn =>
    intro S hne hS hn
    rcases one_or_two hne with ⟨x, rfl⟩ | hlen
    · exact .inl ⟨_, factorLoop_one (hS x (by simp)).2.2.1⟩
    · rw [factorLoop_two hS hlen]
      obtain ⟨a0, a1, a2, d, g, _, ⟨_, he⟩ | ⟨best, P0, P1, P2, R, hb, hs, _, he⟩⟩ := splitSequences_eval hS hne
      · rw [he]; exact .inr rfl
      · rw [he]
        simp only [bind, Except.bind]
        obtain ⟨n0, n1, n2⟩ := hs.ne
        obtain ⟨u1, u2, _⟩ := wordSet_ord ho hs.sing0 n0
        obtain ⟨v1, v2, _⟩ := wordSet_ord ho hs.sing1 n1
        obtain ⟨w1, w2, _⟩ := wordSet_ord ho hs.sing2 n2
        rcases ih _ u1 u2 with ⟨f0, e0⟩ | e0
        · rcases ih _ v1 v2 with ⟨f1, e1⟩ | e1
          · rcases ih _ w1 w2 with ⟨f2, e2⟩ | e2
            · rw [e0, e1, e2]
              simp only
              cases R with
              | nil => exact .inl ⟨_, rfl⟩
              | cons r R =>
                have := hs.less
                rcases ihn (r :: R) (by simp) hs.singR (by omega) with ⟨fs, e3⟩ | e3
                · simp only [e3]; exact .inl ⟨_, rfl⟩
                · simp only [e3]; simp
            · rw [e0, e1, e2]; exact .inr rfl
          · rw [e0, e1]; exact .inr rfl
        · rw [e0]; exact .inr rfl

theorem factor_zero {ord : List Script → List Script} {S : List Script} (hne : S ≠ []) (hS : ∀ x ∈ S, x.layer = 0) :
    factor ord 0 S = .ok (S.map .script) := by
  cases S with
  | nil => exact absurd rfl hne
  | cons x S => rw [factor.eq_def]; simp only [hS x (by simp), if_true]

theorem factor_only {ord : List Script → List Script} (ho : FactorOrder ord) : ∀ (l : Nat) (S : List Script), S ≠ [] →
    (∀ x ∈ S, Sing l x) → (∃ fs, factor ord l S = .ok fs) ∨ factor ord l S = .error .keyError
  | 0, S, hne, hS => .inl ⟨_, factor_zero hne fun x hx => (hS x hx).2.2.1⟩
  | l + 1, S, hne, hS => by
    rw [factor]
    exact factorLoop_only ho (factor_only ho l) S.length S hne hS (Nat.le_refl _)

/-! ### Thirds of words -/

theorem part_append {l : Nat} {u v x : Word} (hu : u.length = 3 ^ l) (hv : v.length = 3 ^ l) (hx : x.length = 3 ^ l) :
    part l 0 (u ++ v ++ x) = u ∧ part l 1 (u ++ v ++ x) = v ∧ part l 2 (u ++ v ++ x) = x := by
  refine ⟨?_, ?_, ?_⟩
  · simp [part, ← hu]
  · rw [part, Nat.one_mul, List.append_assoc, List.drop_left' hu, List.take_left' hv]
  · rw [part, List.drop_left' (by rw [List.length_append]; omega), List.take_of_length_le (by omega)]

theorem hereditarilyFlat_mono : ∀ {l : Nat} {V W : Word → Prop}, (∀ w, V w → W w) → HereditarilyFlat l W → HereditarilyFlat l V
  | 0, _, _, _, _ => trivial
  | l + 1, V, W, h, ⟨⟨i, hi, h1⟩, h2⟩ => by
    refine ⟨⟨i, hi, fun w w' a b => h1 w w' (h w a) (h w' b)⟩, fun j hj => hereditarilyFlat_mono ?_ (h2 j hj)⟩
    rintro p ⟨w, hw, rfl⟩
    exact ⟨w, h w hw, rfl⟩

theorem factorable_of_flat {l : Nat} {W : Word → Prop} (h : HereditarilyFlat l W) : Factorable l W := by
  cases l with
  | zero => trivial
  | succ l => exact .inl h

/-- The words of a list of singular scripts. -/
def InWords (S : List Script) : Word → Prop := fun w => w ∈ wordSet S

/-! ### Successes -/

theorem split_parts {l : Nat} {S P0 P1 P2 R : List Script} (h : Split l S P0 P1 P2 R) :
    (∀ w, InWords P0 w → PartWords l 0 (InWords S) w) ∧ (∀ w, InWords P1 w → PartWords l 1 (InWords S) w) ∧
    (∀ w, InWords P2 w → PartWords l 2 (InWords S) w) ∧ ∀ w, InWords R w → InWords S w := by
  obtain ⟨n0, n1, n2⟩ := h.ne
  have len : ∀ {P : List Script}, (∀ x ∈ P, Sing l x) → ∀ {w : Word}, w ∈ wordSet P → w.length = 3 ^ l := by
    intro P hP w hw
    obtain ⟨y, hy, rfl⟩ := mem_wordSet.1 hw
    exact length_lettersOf (hP y hy)
  obtain ⟨u, hu⟩ := Finset.card_pos.1 (wordSet_ne n0)
  obtain ⟨v, hv⟩ := Finset.card_pos.1 (wordSet_ne n1)
  obtain ⟨x, hx⟩ := Finset.card_pos.1 (wordSet_ne n2)
  refine ⟨?_, ?_, ?_, fun w hw => (h.words w).2 (.inr hw)⟩
  · intro w hw
    exact ⟨_, (h.words _).2 (.inl ⟨w, hw, v, hv, x, hx, rfl⟩), (part_append (len h.sing0 hw) (len h.sing1 hv) (len h.sing2 hx)).1⟩
  · intro w hw
    exact ⟨_, (h.words _).2 (.inl ⟨u, hu, w, hw, x, hx, rfl⟩), (part_append (len h.sing0 hu) (len h.sing1 hw) (len h.sing2 hx)).2.1⟩
  · intro w hw
    exact ⟨_, (h.words _).2 (.inl ⟨u, hu, v, hv, w, hw, rfl⟩), (part_append (len h.sing0 hu) (len h.sing1 hv) (len h.sing2 hw)).2.2⟩

theorem split_full {l : Nat} {S P0 P1 P2 : List Script} (h : Split l S P0 P1 P2 []) :
    InWords P0 = PartWords l 0 (InWords S) ∧ InWords P1 = PartWords l 1 (InWords S) ∧ InWords P2 = PartWords l 2 (InWords S) := by
  obtain ⟨a, b, c, _⟩ := split_parts h
  have len : ∀ {P : List Script}, (∀ x ∈ P, Sing l x) → ∀ {w : Word}, w ∈ wordSet P → w.length = 3 ^ l := by
    intro P hP w hw
    obtain ⟨y, hy, rfl⟩ := mem_wordSet.1 hw
    exact length_lettersOf (hP y hy)
  have hS : ∀ w, InWords S w → InWords P0 (part l 0 w) ∧ InWords P1 (part l 1 w) ∧ InWords P2 (part l 2 w) := by
    intro w hw
    rcases (h.words w).1 hw with ⟨u, hu, v, hv, x, hx, rfl⟩ | hw
    · obtain ⟨e0, e1, e2⟩ := part_append (len h.sing0 hu) (len h.sing1 hv) (len h.sing2 hx)
      rw [e0, e1, e2]
      exact ⟨hu, hv, hx⟩
    · simp [wordSet] at hw
  refine ⟨?_, ?_, ?_⟩
  · funext w
    exact propext ⟨a w, by rintro ⟨w, hw, rfl⟩; exact (hS w hw).1⟩
  · funext w
    exact propext ⟨b w, by rintro ⟨w, hw, rfl⟩; exact (hS w hw).2.1⟩
  · funext w
    exact propext ⟨c w, by rintro ⟨w, hw, rfl⟩; exact (hS w hw).2.2⟩

/-- The word at a key of the grid, by thirds. -/
theorem grid_parts {l : Nat} {S a0 a1 a2 : List Script} {d : List (Coord × Script)} (g : SeqGrid l S a0 a1 a2 d) {c : Coord}
    (hc : c ∈ d.map (·.1)) : ∃ w, InWords S w ∧ WordAt a0 a1 a2 c w ∧ (∃ s, a0[c.1]? = some s ∧ part l 0 w = lettersOf s) ∧
      (∃ s, a1[c.2.1]? = some s ∧ part l 1 w = lettersOf s) ∧ ∃ s, a2[c.2.2]? = some s ∧ part l 2 w = lettersOf s := by
  obtain ⟨x, _, hx, hw⟩ := g.keys c hc
  refine ⟨lettersOf x, mem_wordSet.2 ⟨x, hx, rfl⟩, hw, ?_⟩
  obtain ⟨s0, s1, s2, h0, h1, h2, h3⟩ := hw
  obtain ⟨e0, e1, e2⟩ := part_append (length_lettersOf (g.ax0.1 _ (List.mem_of_getElem? h0)))
    (length_lettersOf (g.ax1.1 _ (List.mem_of_getElem? h1))) (length_lettersOf (g.ax2.1 _ (List.mem_of_getElem? h2)))
  rw [h3]
  exact ⟨⟨s0, h0, e0⟩, ⟨s1, h1, e1⟩, s2, h2, e2⟩

theorem grid_flat {l : Nat} {S a0 a1 a2 : List Script} {d : List (Coord × Script)} (g : SeqGrid l S a0 a1 a2 d)
    (h : FlatWords l (InWords S)) : FlatCoords (d.map (·.1)) := by
  obtain ⟨i, hi, h⟩ := h
  have hi' : i = 0 ∨ i = 1 ∨ i = 2 := by omega
  rcases hi' with rfl | rfl | rfl
  · refine .inl fun a ha b hb => ?_
    obtain ⟨u, hu, _, ⟨s, h1, h2⟩, _⟩ := grid_parts g ha
    obtain ⟨v, hv, _, ⟨t, h3, h4⟩, _⟩ := grid_parts g hb
    exact axis_inj g.ax0 h1 h3 (by rw [← h2, ← h4, h u v hu hv])
  · refine .inr (.inl fun a ha b hb => ?_)
    obtain ⟨u, hu, _, _, ⟨s, h1, h2⟩, _⟩ := grid_parts g ha
    obtain ⟨v, hv, _, _, ⟨t, h3, h4⟩, _⟩ := grid_parts g hb
    exact axis_inj g.ax1 h1 h3 (by rw [← h2, ← h4, h u v hu hv])
  · refine .inr (.inr fun a ha b hb => ?_)
    obtain ⟨u, hu, _, _, _, ⟨s, h1, h2⟩⟩ := grid_parts g ha
    obtain ⟨v, hv, _, _, _, ⟨t, h3, h4⟩⟩ := grid_parts g hb
    exact axis_inj g.ax2 h1 h3 (by rw [← h2, ← h4, h u v hu hv])

theorem grid_full {l : Nat} {S a0 a1 a2 : List Script} {d : List (Coord × Script)} (g : SeqGrid l S a0 a1 a2 d)
    (h : FullWords l (InWords S)) : Box (d.map (·.1)) := by
  intro a ha b hb c hc
  obtain ⟨u, hu, _, ⟨s0, h1, h2⟩, _⟩ := grid_parts g ha
  obtain ⟨v, hv, _, _, ⟨s1, h3, h4⟩, _⟩ := grid_parts g hb
  obtain ⟨w, hw, _, _, _, ⟨s2, h5, h6⟩⟩ := grid_parts g hc
  have hm := h u v w hu hv hw
  obtain ⟨x, hx, he⟩ := mem_wordSet.1 hm
  obtain ⟨e, hee, hat⟩ := g.seqs x hx
  have : (a.1, b.2.1, c.2.2) = e :=
    wordAt_inj g.ax0 g.ax1 g.ax2 (w := lettersOf x) ⟨s0, s1, s2, h1, h3, h5, by rw [he, h2, h4, h6]⟩ hat
  exact this ▸ hee

theorem inWords_ord {ord : List Script → List Script} (ho : FactorOrder ord) {l : Nat} {P : List Script} (hP : ∀ x ∈ P, Sing l x)
    (hne : P ≠ []) : InWords (ord P) = InWords P := by
  funext w
  rw [InWords, InWords, (wordSet_ord ho hP hne).2.2.2]

theorem factor_flat {ord : List Script → List Script} (ho : FactorOrder ord) : ∀ (l : Nat) (S : List Script), S ≠ [] →
    (∀ x ∈ S, Sing l x) → HereditarilyFlat l (InWords S) → ∃ fs, factor ord l S = .ok fs
  | 0, S, hne, hS, _ => ⟨_, factor_zero hne fun x hx => (hS x hx).2.2.1⟩
  | l + 1, S, hne, hS, hf => by
    rw [factor]
    have main : ∀ (n : Nat) (S : List Script), S ≠ [] → (∀ x ∈ S, Sing (l + 1) x) → HereditarilyFlat (l + 1) (InWords S) →
        S.length ≤ n → ∃ fs, factorLoop ord l (factor ord l) n S = .ok fs := by
      intro n
      induction n with
      | zero =>
        intro S hne hS hf hn
        exact absurd (List.eq_nil_of_length_eq_zero (Nat.le_zero.1 hn)) hne
      | succ n ihn =>
        intro S hne hS hf hn
        rcases one_or_two hne with ⟨x, rfl⟩ | hlen
        · exact ⟨_, factorLoop_one (hS x (by simp)).2.2.1⟩
        · rw [factorLoop_two hS hlen]
          obtain ⟨a0, a1, a2, d, g, hK, ⟨hb, he⟩ | ⟨best, P0, P1, P2, R, hb, hs, _, he⟩⟩ := splitSequences_eval hS hne
          · obtain ⟨G, hG⟩ := bestFactors_flat g.nodup hK (grid_flat g hf.1)
            rw [hG] at hb
            cases hb
          · rw [he]
            simp only [bind, Except.bind]
            obtain ⟨n0, n1, n2⟩ := hs.ne
            obtain ⟨q0, q1, q2, q3⟩ := split_parts hs
            obtain ⟨u1, u2, _⟩ := wordSet_ord ho hs.sing0 n0
            obtain ⟨v1, v2, _⟩ := wordSet_ord ho hs.sing1 n1
            obtain ⟨w1, w2, _⟩ := wordSet_ord ho hs.sing2 n2
            obtain ⟨f0, e0⟩ := factor_flat ho l _ u1 u2 (by
              rw [inWords_ord ho hs.sing0 n0]; exact hereditarilyFlat_mono q0 (hf.2 0 (by omega)))
            obtain ⟨f1, e1⟩ := factor_flat ho l _ v1 v2 (by
              rw [inWords_ord ho hs.sing1 n1]; exact hereditarilyFlat_mono q1 (hf.2 1 (by omega)))
            obtain ⟨f2, e2⟩ := factor_flat ho l _ w1 w2 (by
              rw [inWords_ord ho hs.sing2 n2]; exact hereditarilyFlat_mono q2 (hf.2 2 (by omega)))
            rw [e0, e1, e2]
            simp only
            cases R with
            | nil => exact ⟨_, rfl⟩
            | cons r R =>
              have := hs.less
              obtain ⟨fs, e3⟩ := ihn (r :: R) (by simp) hs.singR (hereditarilyFlat_mono q3 hf) (by omega)
              simp only [e3]
              exact ⟨_, rfl⟩
    exact main S.length S hne hS hf (Nat.le_refl _)

theorem factor_factorable {ord : List Script → List Script} (ho : FactorOrder ord) : ∀ (l : Nat) (S : List Script), S ≠ [] →
    (∀ x ∈ S, Sing l x) → Factorable l (InWords S) → ∃ fs, factor ord l S = .ok fs
  | 0, S, hne, hS, _ => ⟨_, factor_zero hne fun x hx => (hS x hx).2.2.1⟩
  | l + 1, S, hne, hS, hf => by
    rcases hf with hf | ⟨hf, hsub⟩
    · exact factor_flat ho _ S hne hS hf
    · rw [factor]
      rcases one_or_two hne with ⟨x, rfl⟩ | hlen
      · exact ⟨_, factorLoop_one (hS x (by simp)).2.2.1⟩
      · rw [factorLoop_two hS hlen]
        obtain ⟨a0, a1, a2, d, g, hK, ⟨hb, he⟩ | ⟨best, P0, P1, P2, R, hb, hs, hR, he⟩⟩ := splitSequences_eval hS hne
        · obtain ⟨G, hG, _⟩ := bestFactors_full g.nodup hK (grid_full g hf)
          rw [hG] at hb
          cases hb
        · obtain ⟨G, hG, hall⟩ := bestFactors_full g.nodup hK (grid_full g hf)
          rw [hG] at hb
          cases hb
          have := hR hall
          subst this
          rw [he]
          simp only [bind, Except.bind]
          obtain ⟨n0, n1, n2⟩ := hs.ne
          obtain ⟨q0, q1, q2⟩ := split_full hs
          obtain ⟨u1, u2, _⟩ := wordSet_ord ho hs.sing0 n0
          obtain ⟨v1, v2, _⟩ := wordSet_ord ho hs.sing1 n1
          obtain ⟨w1, w2, _⟩ := wordSet_ord ho hs.sing2 n2
          obtain ⟨f0, e0⟩ := factor_factorable ho l _ u1 u2 (by rw [inWords_ord ho hs.sing0 n0, q0]; exact hsub 0 (by omega))
          obtain ⟨f1, e1⟩ := factor_factorable ho l _ v1 v2 (by rw [inWords_ord ho hs.sing1 n1, q1]; exact hsub 1 (by omega))
          obtain ⟨f2, e2⟩ := factor_factorable ho l _ w1 w2 (by rw [inWords_ord ho hs.sing2 n2, q2]; exact hsub 2 (by omega))
          rw [e0, e1, e2]
          exact ⟨_, rfl⟩

/-! ### Products of sums of primitives -/

theorem factorable_primitiveSums {s : Script} (h : WF s) (hp : PrimitiveSums s) : Factorable s.layer (Den s) := by
  have hnull : ∀ l, Factorable l (Den (null l)) := by
    intro l
    refine factorable_of_flat ?_
    have hone : ∀ (l : Nat) (W : Word → Prop), (∀ u v, W u → W v → u = v) → HereditarilyFlat l W := by
      intro l
      induction l with
      | zero => exact fun _ _ => trivial
      | succ l ih =>
        intro W hW
        refine ⟨⟨0, by omega, fun w w' a b => by rw [hW w w' a b]⟩, fun i _ => ih _ ?_⟩
        rintro u v ⟨w, hw, rfl⟩ ⟨w', hw', rfl⟩
        rw [hW w w' hw hw']
    refine hone l _ fun u v hu hv => ?_
    rw [den_null] at hu hv
    rw [hu, hv]
  induction h with
  | null h => exact hnull _
  | prim => exact trivial
  | @mult s a m h1 h2 h3 h4 h5 h6 h7 h8 h9 h10 ih1 ih2 ih3 =>
    cases hp with
    | mult p1 p2 p3 =>
      have l1 : ∀ w, Den s w → w.length = 3 ^ s.layer := fun w hw => den_length h1 hw
      have l2 : ∀ w, Den a w → w.length = 3 ^ s.layer := fun w hw => by rw [den_length h2 hw, h4]
      have l3 : ∀ w, Den m w → w.length = 3 ^ s.layer := fun w hw => by rw [den_length h3 hw, h5]
      have hparts : ∀ w, Den (mult s a m) w → Den s (part s.layer 0 w) ∧ Den a (part s.layer 1 w) ∧ Den m (part s.layer 2 w) := by
        intro w hw
        obtain ⟨u, v, x, du, dv, dx, rfl⟩ := den_mult.1 hw
        obtain ⟨e0, e1, e2⟩ := part_append (l1 u du) (l2 v dv) (l3 x dx)
        rw [e0, e1, e2]
        exact ⟨du, dv, dx⟩
      obtain ⟨u0, du0⟩ := den_exists h1
      obtain ⟨v0, dv0⟩ := den_exists h2
      obtain ⟨x0, dx0⟩ := den_exists h3
      have e0 : PartWords s.layer 0 (Den (mult s a m)) = Den s := by
        funext w
        refine propext ⟨?_, fun hw => ⟨w ++ v0 ++ x0, .mult hw dv0 dx0, (part_append (l1 _ hw) (l2 _ dv0) (l3 _ dx0)).1⟩⟩
        rintro ⟨w, hw, rfl⟩
        exact (hparts w hw).1
      have e1 : PartWords s.layer 1 (Den (mult s a m)) = Den a := by
        funext w
        refine propext ⟨?_, fun hw => ⟨u0 ++ w ++ x0, .mult du0 hw dx0, (part_append (l1 _ du0) (l2 _ hw) (l3 _ dx0)).2.1⟩⟩
        rintro ⟨w, hw, rfl⟩
        exact (hparts w hw).2.1
      have e2 : PartWords s.layer 2 (Den (mult s a m)) = Den m := by
        funext w
        refine propext ⟨?_, fun hw => ⟨u0 ++ v0 ++ w, .mult du0 dv0 hw, (part_append (l1 _ du0) (l2 _ dv0) (l3 _ hw)).2.2⟩⟩
        rintro ⟨w, hw, rfl⟩
        exact (hparts w hw).2.2
      refine .inr ⟨fun u v w hu hv hw => .mult (hparts u hu).1 (hparts v hv).2.1 (hparts w hw).2.2, ?_⟩
      intro i hi
      have hi' : i = 0 ∨ i = 1 ∨ i = 2 := by omega
      rcases hi' with rfl | rfl | rfl
      · rw [e0]; exact ih1 p1
      · rw [e1, ← h4]; exact ih2 p2
      · rw [e2, ← h5]; exact ih3 p3
  | add h1 h2 h3 h4 h5 h6 h7 ih =>
    cases hp with
    | add h0 => rw [h0]; trivial

end Verif
