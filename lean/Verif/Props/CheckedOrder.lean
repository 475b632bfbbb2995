import Verif.Props.CheckAll
import Verif.Props.UslOrder

/-
C75 for the USLs that are read and accepted by their check: no condition on the morphemes is left.
-/

namespace Verif
open Script

theorem okPM_of_check {p : PM} (hm : MadePM p) (h : p.check = true) : OkPM p := by
  obtain ⟨cs, gs, rfl, hc, hg⟩ := hm
  have hw := (C76_polymorpheme hc hg).1 h
  refine ⟨_, _, mkPM_meant cs gs, ?_, ?_⟩
  · intro x hx
    have hx := mem_meantOf.1 hx
    exact ⟨wf_built (hc x hx.1), .inr (hw.singular x (.inl hx))⟩
  · intro g hgm x hx
    obtain ⟨k, hk, rfl⟩ := List.mem_map.1 hgm
    have hx := mem_meantOf.1 hx
    exact ⟨wf_built (hg k hk x hx.1), .inr (hw.singular x (.inr ⟨k, hk, hx⟩))⟩

theorem okLex_of_check {x : Lexeme} (hm : MadeLexeme x) (h : x.check = true) : OkLex x := by
  obtain ⟨p, q, rfl, hp, hq⟩ := hm
  obtain ⟨k1, k2⟩ : p.check = true ∧ q.check = true := by simpa [Lexeme.check, mkLexeme] using h
  exact ⟨p, q, rfl, okPM_of_check hp k1, okPM_of_check hq k2⟩

/-- What a text gives that its check accepts; a word moreover without junctions. -/
inductive ReadChecked : Expr → Prop
  | pm {s : Str} {p : PM} {ds : List (Str × Str)} : uslRead s = .ok (.pm p, ds) → p.check = true → ReadChecked (.pm p)
  | lexeme {s : Str} {x : Lexeme} {ds : List (Str × Str)} : uslRead s = .ok (.lexeme x, ds) → x.check = true → ReadChecked (.lexeme x)
  | word {s : Str} {w : WordUsl} {ds : List (Str × Str)} : uslRead s = .ok (.word w, ds) → w.check = true →
      (∀ e ∈ w.sfun.nodes, e.2.isJunction = false) → ReadChecked (.word w)

theorem ReadChecked.comparable {a : Expr} (h : ReadChecked a) : Comparable a := by
  cases h with
  | pm h1 h2 => exact .pm (okPM_of_check (read_made h1) h2)
  | lexeme h1 h2 => exact .lexeme (okLex_of_check (read_made h1) h2)
  | @word s w ds h1 h2 h3 =>
    have hm := read_made h1
    have hf := (check_filled hm).1 h2
    have ha := MadeWord.actors hm.1
    obtain ⟨⟨l, t, f, role, hl, hw, -⟩, rx, hr⟩ := hm
    obtain ⟨e1, e2, e3, -⟩ := mkWord_parts hw
    rw [e1, e3, e2, asList_items] at hr
    obtain ⟨y, -, hy⟩ := List.mem_map.1 hr
    have : role = t.pre ++ y.1 := (congrArg Prod.fst hy).symm
    subst this
    rw [e1] at h3
    rw [e1, e3] at hf ha
    refine .word hl hw h3 fun e he => ?_
    obtain ⟨x, hx, hk⟩ := hf e he
    exact ⟨x, hx, okLex_of_check (ha e he x hx) hk⟩

/-- **C75, USLs that are read and accepted** (words without junctions): no comparison of them raises; equal ones are not smaller than each
other, and of two different ones exactly one is smaller; `<` is transitive. -/
theorem C75_checked_partial {a b c : Expr} (ha : ReadChecked a) (hb : ReadChecked b) (hc : ReadChecked c) :
    (a.text = b.text → a.lt b = .ok false ∧ b.lt a = .ok false) ∧
    (a.text ≠ b.text → (a.lt b = .ok true ∧ b.lt a = .ok false) ∨ (a.lt b = .ok false ∧ b.lt a = .ok true)) ∧
    (a.lt b = .ok true → b.lt c = .ok true → a.lt c = .ok true) :=
  ⟨(C75_total_partial ha.comparable hb.comparable).1, (C75_total_partial ha.comparable hb.comparable).2,
    C75_trans_partial ha.comparable hb.comparable hc.comparable⟩

/-- **C75, sorting what is read and accepted** (words without junctions): the texts of the result do not depend on the order of the
collection, and no two elements of the result are in the wrong order. -/
theorem C75_checked_sort_partial {l l' : List Expr} (hl : ∀ a ∈ l, ReadChecked a) (hp : l.Perm l') :
    let lt (a b : Expr) : Bool := a.lt b matches .ok true
    (pySort lt l).map Expr.text = (pySort lt l').map Expr.text ∧ (pySort lt l).Pairwise fun a b => b.lt a = .ok false :=
  C75_sort_partial (fun a ha => (hl a ha).comparable) hp

-- Two words and a polymorpheme that meet the hypotheses; the word of the smaller lexeme is the smaller one.
example : ∃ w v p, ReadChecked (.word w) ∧ ReadChecked (.word v) ∧ ReadChecked (.pm p) ∧ Expr.lt (.word w) (.word v) = .ok true ∧
    Expr.lt (.word v) (.word w) = .ok false ∧ Expr.lt (.pm p) (.word w) = .ok true := by
  have key : (match uslRead (c!"[! E:A:. ()(S: A: m1(B: T:))]"), uslRead (c!"[! E:A:. ()(B: T:)]"), uslRead (c!"S: m1(B: T:)") with
    | .ok (.word w, []), .ok (.word v, []), .ok (.pm p, []) =>
      w.check && v.check && p.check && w.sfun.nodes.all (fun e => !e.2.isJunction) && v.sfun.nodes.all (fun e => !e.2.isJunction) &&
        (Expr.lt (.word w) (.word v) matches .ok true) && (Expr.lt (.word v) (.word w) matches .ok false) &&
        (Expr.lt (.pm p) (.word w) matches .ok true)
    | _, _, _ => false) = true := by decide +kernel
  split at key
  · rename_i w v p h1 h2 h3
    simp only [Bool.and_eq_true, List.all_eq_true, Bool.not_eq_true'] at key
    obtain ⟨⟨⟨⟨⟨⟨⟨k1, k2⟩, k3⟩, k4⟩, k5⟩, k6⟩, k7⟩, k8⟩ := key
    have lt_of : ∀ {x : Except Err Bool}, (x matches .ok true) = true → x = .ok true := by
      intro x h
      split at h <;> simp_all
    have nlt_of : ∀ {x : Except Err Bool}, (x matches .ok false) = true → x = .ok false := by
      intro x h
      split at h <;> simp_all
    exact ⟨w, v, p, .word h1 k1 k4, .word h2 k2 k5, .pm h3 k3, lt_of k6, nlt_of k7, lt_of k8⟩
  · cases key

end Verif
