import Verif.Model.OrderedDict

/-
Assignment in a `LastUpdatedOrderedDict`.
-/

namespace Verif
namespace OD
variable {κ ν : Type} [DecidableEq κ]

theorem has_iff {d : OD κ ν} {k : κ} : d.has k = true ↔ ∃ v, (k, v) ∈ d := by
  simp [has]

theorem has_false {d : OD κ ν} {k : κ} : d.has k = false ↔ ∀ v, (k, v) ∉ d := by
  rw [← Bool.not_eq_true, has_iff]; simp

theorem set_eq (d : OD κ ν) (k : κ) (v : ν) : d.set k v = .ok ((d.filter fun p => p.1 ≠ k) ++ [(k, v)]) := by
  have hn : OD.has (d.filter fun p => p.1 ≠ k) k = false := by
    rw [has_false]; intro v hv; simp at hv
  by_cases h : d.has k = true
  · simp only [set, h, if_true, del, bind, Except.bind, pure, Except.pure]
    rw [baseSet, hn]; simp
  · have hf : d.filter (fun p => p.1 ≠ k) = d := by
      rw [List.filter_eq_self]
      intro p hp
      have := has_false.1 (Bool.not_eq_true _ ▸ h) p.2
      simp only [ne_eq, decide_not, Bool.not_eq_true', decide_eq_false_iff_not]
      rintro rfl; exact this hp
    have h' : d.has k = false := by simpa using h
    simp only [set, h', Bool.false_eq_true, if_false, bind, Except.bind, pure, Except.pure, hf]
    rw [baseSet, h']; simp

end OD
end Verif
