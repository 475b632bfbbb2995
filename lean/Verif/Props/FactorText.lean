import Verif.Lemmas.FactorEmpty
import Verif.Props.DictTransaction

/-
C74 for every script, also with the empty word, and what it gives for C73.  Scripts are compared by text, as in Python.
-/

namespace Verif
open Script

/-- **C74** The factored form depends only on the words: two scripts of a layer with the same words give the same factored script, or
the same exception.  Scripts with the empty word, with repeated sequences and one-term sums are included. -/
theorem C74_canonical {ord : List Script → List Script} (ho : FactorOrder ord) {s t : Script} (hs : Built s) (ht : Built t)
    (hm : SameMeaning s t) : (factorize ord s).map str = (factorize ord t).map str :=
  factorize_text ho (built_wf hs) (built_wf ht) hm.1 hm.2

/-- **C74** Factorisation is idempotent. -/
theorem C74_idempotent {ord : List Script → List Script} (ho : FactorOrder ord) {s t : Script} (hs : Built s) (h : factorize ord s = .ok t) :
    (factorize ord t).map str = .ok t.str := by
  obtain ⟨hb, hm⟩ := C14_factorize ho hs h
  rw [← C74_canonical ho hs hb hm, h]
  rfl

/-- **C74** There is at most one factored script with given words: two scripts that factorisation leaves unchanged, with the same
words, are equal. -/
theorem C74_unique {ord : List Script → List Script} (ho : FactorOrder ord) {s t : Script} (hs : Built s) (ht : Built t)
    (hm : SameMeaning s t) (f : (factorize ord s).map str = .ok s.str) (g : (factorize ord t).map str = .ok t.str) : s.str = t.str := by
  rw [C74_canonical ho hs ht hm, g, Except.ok.injEq] at f
  exact f.symm

/-- The product `(E:+U:)(E:+U:).` and the sum of its four sequences, one of them the null script. -/
def emptyProduct : Script := .mult (.add [.null 0, .prim .U]) (.add [.null 0, .prim .U]) (.null 0)
@[inherit_doc emptyProduct] def emptySum : Script := .add [.null 1, .mult (.null 0) (.prim .U) (.null 0), .mult (.prim .U) (.null 0) (.null 0),
  .mult (.prim .U) (.prim .U) (.null 0)]

-- the two have the same words, the empty one among them in two representations, and the same factored form
example : Built emptyProduct ∧ Built emptySum ∧
    (emptyProduct.singularSequences.map fun l => l.map str) = (emptySum.singularSequences.map fun l => l.map str) ∧
    emptyProduct.singularSequences ≠ emptySum.singularSequences ∧
    (factorize (dedupBy str) emptySum).map str = .ok emptyProduct.str ∧ (factorize (dedupBy str) emptyProduct).map str = .ok emptyProduct.str ∧
    emptySum.str ≠ emptyProduct.str :=
  ⟨built_of (by decide +kernel), built_of (by decide +kernel), by decide +kernel, by decide +kernel, by decide +kernel, by decide +kernel,
    by decide +kernel⟩

example : SameMeaning emptyProduct emptySum := by
  refine ⟨rfl, fun w => ⟨fun h => ?_, fun h => ?_⟩⟩
  · obtain ⟨L, e⟩ := enum_exists (built_wf (built_of (by decide +kernel) : Built emptyProduct))
    obtain ⟨M, f⟩ := enum_exists (built_wf (built_of (by decide +kernel) : Built emptySum))
    have hw : (match emptyProduct.singularSequences, emptySum.singularSequences with
      | .ok L, .ok M => L.all fun x => M.any fun y => decide (x.str = y.str)
      | _, _ => false) = true := by decide +kernel
    rw [e.run, f.run] at hw
    obtain ⟨x, hx, hxw⟩ := (e.den w).1 h
    obtain ⟨y, hy, he⟩ := List.any_eq_true.1 (List.all_eq_true.1 hw x hx)
    exact (f.den w).2 ⟨y, hy, (den_of_str (e.wf x hx) (f.wf y hy) (by simpa using he) w).1 hxw⟩
  · obtain ⟨L, e⟩ := enum_exists (built_wf (built_of (by decide +kernel) : Built emptyProduct))
    obtain ⟨M, f⟩ := enum_exists (built_wf (built_of (by decide +kernel) : Built emptySum))
    have hw : (match emptySum.singularSequences, emptyProduct.singularSequences with
      | .ok L, .ok M => L.all fun x => M.any fun y => decide (x.str = y.str)
      | _, _ => false) = true := by decide +kernel
    rw [e.run, f.run] at hw
    obtain ⟨x, hx, hxw⟩ := (f.den w).1 h
    obtain ⟨y, hy, he⟩ := List.any_eq_true.1 (List.all_eq_true.1 hw x hx)
    exact (e.den w).2 ⟨y, hy, (den_of_str (f.wf x hx) (e.wf y hy) (by simpa using he) w).1 hxw⟩

/-! ### C73 -/

section
variable {o : SetOrder} {ord : List Script → List Script} {x : Ext} {fs : FS} {d : Dictionary}

/-- **C73** is violated for every root: it cannot be updated to any other script, with or without the empty word. -/
theorem C73_root_fixed {old new r : Script} (ho : o.Valid) (hord : FactorOrder ord) (hbo : Built old)
    (hbn : Built new) (hd : getDictionary o fs = .ok d) (hr : r ∈ d.roots) (hro : r.str = old.str)
    (hs : SaysRoot fs old.str true) (hne : old.str ≠ new.str) : ∃ e, updateParadigm o ord x fs old new = .error e := by
  cases h : updateParadigm o ord x fs old new with
  | error e => exact ⟨e, rfl⟩
  | ok fs' =>
    obtain ⟨⟨s', f, es⟩, ⟨t', g, et⟩, _⟩ := updateParadigm_inv hd hne h
    exact absurd (C74_unique hord hbo hbn (C73_root ho hbo hbn hd hr hro hs h) (by rw [f, ← es]; rfl) (by rw [g, ← et]; rfl)) hne

/-- The root `M:` of the example cannot be updated to any other script. -/
example {new : Script} (hbn : Built new) (hne : scM.str ≠ new.str) :
    ∃ e, updateParadigm plainOrder (dedupBy str) dictExt dictFs scM new = .error e := by
  obtain ⟨d, hd, _⟩ := dictFs_dict
  have hm : (c!"M:" : Str) ∈ d.roots.map str := by rw [dictFs_roots hd]; decide
  obtain ⟨r, hr, e⟩ := List.mem_map.1 hm
  exact C73_root_fixed plainOrder_valid factorOrder_insertion (built_of (by decide +kernel)) hbn hd hr (e.trans (by decide +kernel)) saysRoot_M hne
end

end Verif
