import Verif.Lemmas.SSNodup
import Verif.Lemmas.ScriptDec

/-
C01–C04: the enumeration of the singular sequences of a script.
-/

namespace Verif
open Script

/-- A witness used below: `O:.+U:.`, a sum whose two terms share a word. -/
def wOU : Script := .add [.mult (.prim .U) (.null 0) (.null 0), .mult (.add [.prim .U, .prim .A]) (.null 0) (.null 0)]

/-- A witness used below: `O:M:.`, of six words. -/
def wOM : Script := .mult (.add [.prim .U, .prim .A]) (.add [.prim .S, .prim .B, .prim .T]) (.null 0)

theorem built_OM : Built wOM := built_of (by decide +kernel)
theorem built_OU : Built wOU := built_of (by decide +kernel)

/-- **C01.** The enumeration of a buildable script succeeds, it contains only scripts with one word, and the words of the
script are exactly the words of the listed scripts. -/
theorem C01_enumeration_exact {s : Script} (h : Built s) :
    ∃ L, singularSequences s = .ok L ∧ (∀ x ∈ L, Built x ∧ Singular x) ∧ ∀ w, Den s w ↔ ∃ x ∈ L, Den x w := by
  obtain ⟨L, e⟩ := enum_exists (built_wf h)
  exact ⟨L, e.run, fun x hx => ⟨wf_built (e.wf x hx), singular_of_cardinal (e.wf x hx) (e.one x hx)⟩, e.den⟩

-- `O:M:.` has the six expected sequences.
example : Built wOM ∧ (singularSequences wOM).map (fun L => L.map str) =
    .ok [c!"y.", c!"o.", c!"e.", c!"u.", c!"a.", c!"i."] := ⟨built_OM, by decide +kernel⟩

/-- **C02.** The stored cardinal is the length of the enumeration, is between 1 and 360, and is above 1 exactly for the
scripts marked as paradigms, which are exactly the scripts with several words. -/
theorem C02_cardinal {s : Script} (h : Built s) :
    ∃ L, singularSequences s = .ok L ∧ L.length = s.cardinal ∧ 1 ≤ s.cardinal ∧ s.cardinal ≤ 360 ∧
      (s.paradigm = true ↔ 1 < L.length) ∧ (s.paradigm = true ↔ ∃ u v, Den s u ∧ Den s v ∧ u ≠ v) := by
  have hw := built_wf h
  obtain ⟨L, e⟩ := enum_exists hw
  refine ⟨L, e.run, e.length, cardinal_pos hw, wf_cardinal hw, by rw [e.length]; exact paradigm_iff hw, ?_⟩
  rw [paradigm_iff hw]
  refine ⟨two_words hw, ?_⟩
  rintro ⟨u, v, hu, hv, hne⟩
  by_contra hc
  exact hne (den_unique hw (by have := cardinal_pos hw; omega) hu hv)

example : Built wOM ∧ wOM.cardinal = 6 ∧ wOM.paradigm = true := ⟨built_OM, by decide +kernel⟩

/-- **C03.** Every listed script has cardinal 1, is not a paradigm and has the layer of the script; the list is sorted:
no element is strictly below an earlier one. -/
theorem C03_singular_layer_sorted {s : Script} (h : Built s) :
    ∃ L, singularSequences s = .ok L ∧ (∀ x ∈ L, x.cardinal = 1 ∧ x.paradigm = false ∧ x.layer = s.layer) ∧
      ∀ i j (hi : i < L.length) (hj : j < L.length), i < j → lt L[j] L[i] = false := by
  have hw := built_wf h
  obtain ⟨L, e⟩ := enum_exists hw
  refine ⟨L, e.run, fun x hx => ⟨e.one x hx, (paradigm_false_iff (e.wf x hx)).2 (e.one x hx), e.layer x hx⟩, ?_⟩
  intro i j hi hj hij
  exact List.pairwise_iff_getElem.1 e.sorted i j hi hj hij

example : Built wOM ∧ wOM.layer = 1 ∧ ((singularSequences wOM).map (·.length)) = .ok 6 := ⟨built_OM, by decide +kernel⟩

/-- **C04, what holds.** The enumeration is free of repetition exactly when, in every sum inside the script, no two terms
share a word.  The full claim "never a repetition" is false, see `C04_violated`. -/
theorem C04_no_repetition_partial {s : Script} (h : Built s) :
    ∃ L, singularSequences s = .ok L ∧ ((L.map str).Nodup ↔ DisjointSums s) := by
  have hw := built_wf h
  obtain ⟨L, e⟩ := enum_exists hw
  refine ⟨L, e.run, ?_⟩
  rw [← norep_iff hw e, List.Nodup, List.pairwise_map]
  rfl

-- Both sides of the equivalence occur: `O:M:.` has disjoint sums.
example : Built wOM ∧ DisjointSums wOM := by
  refine ⟨built_OM, .mult (.add ?_ ?_) (.add ?_ ?_) (.null 0)⟩ <;> simp [DisjointSums.prim, den_prim]

/-- **C04 is violated**: `U:.+O:.` is buildable and lists `U:.` twice, so that its cardinal exceeds its number of words. -/
theorem C04_violated : ∃ s L, Built s ∧ singularSequences s = .ok L ∧ ¬ (L.map str).Nodup ∧ s.cardinal = 3 ∧
    ∀ w, Den s w ↔ w = [some .U, none, none] ∨ w = [some .A, none, none] := by
  refine ⟨wOU, [.mult (.prim .U) (.null 0) (.null 0), .mult (.prim .U) (.null 0) (.null 0), .mult (.prim .A) (.null 0) (.null 0)],
    built_OU, by decide +kernel, by decide +kernel, by decide +kernel, ?_⟩
  intro w
  simp [wOU, den_add, den_mult, den_prim, den_null]

end Verif
