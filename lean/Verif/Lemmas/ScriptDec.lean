import Verif.Lemmas.ScriptBuilt

/-
Decidable equality and a decidable form of well-formedness, used for concrete examples.
-/

namespace Verif
namespace Script

mutual
/-- Structural equality. -/
def beq : Script → Script → Bool
  | null l, null l' => l = l'
  | prim p, prim p' => p = p'
  | mult s a m, mult s' a' m' => beq s s' && beq a a' && beq m m'
  | add cs, add cs' => beqL cs cs'
  | _, _ => false
/-- Structural equality of lists. -/
def beqL : List Script → List Script → Bool
  | [], [] => true
  | c :: cs, d :: ds => beq c d && beqL cs ds
  | _, _ => false
end

theorem beq_iff (x : Script) : ∀ y, beq x y = true ↔ x = y := by
  induction x using ind with
  | hn l => intro y; cases y <;> simp [beq]
  | hp p => intro y; cases y <;> simp [beq]
  | hm s a m h1 h2 h3 => intro y; cases y <;> simp [beq, h1, h2, h3, and_assoc]
  | ha cs ih =>
    have hl : ∀ ds, beqL cs ds = true ↔ cs = ds := by
      induction cs with
      | nil => intro ds; cases ds <;> simp [beqL]
      | cons c cs ihc =>
        intro ds
        cases ds with
        | nil => simp [beqL]
        | cons d ds => simp [beqL, ih c (by simp), ihc fun e he => ih e (List.mem_cons_of_mem _ he)]
    intro y
    cases y <;> simp [beq, hl]

instance : DecidableEq Script := fun x y => decidable_of_iff _ (beq_iff x y)

/-- Decidable form of `Role`. -/
def roleb : Script → Bool
  | add [_] => false
  | null _ => true
  | s => !s.empty

theorem roleb_sound {s : Script} (h : roleb s = true) : Role s := by
  constructor
  · rintro c rfl; simp [roleb] at h
  · intro he
    cases s with
    | null l => exact ⟨l, rfl⟩
    | prim p => simp [empty] at he
    | mult s a m => simp [roleb, he] at h
    | add cs =>
      rcases cs with _ | ⟨c, _ | ⟨d, ds⟩⟩ <;> simp [roleb, he] at h

mutual
/-- Decidable form of `WF`. -/
def wfb : Script → Bool
  | null l => l ≤ 6
  | prim _ => true
  | mult s a m => wfb s && wfb a && wfb m && a.layer = s.layer && m.layer = s.layer && s.layer ≤ 5 && roleb s && roleb a &&
      roleb m && (mult s a m).cardinal ≤ 360
  | add cs => cs ≠ [] && wfbL cs && cs.all (fun c => c.layer = (add cs).layer) && cs.all (fun c => !c.isAdd) &&
      decide (cs.Pairwise (fun a b => a.str ≠ b.str)) && decide (cs.Pairwise (fun a b => lt a b = true)) &&
      (add cs).cardinal ≤ 360
/-- All elements. -/
def wfbL : List Script → Bool
  | [] => true
  | c :: cs => wfb c && wfbL cs
end

theorem wfb_sound {s : Script} : wfb s = true → WF s := by
  induction s using ind with
  | hn l => intro h; exact .null (by simpa [wfb] using h)
  | hp p => intro; exact .prim
  | hm s a m h1 h2 h3 =>
    intro h
    simp only [wfb, Bool.and_eq_true, decide_eq_true_eq] at h
    obtain ⟨⟨⟨⟨⟨⟨⟨⟨⟨a1, a2⟩, a3⟩, a4⟩, a5⟩, a6⟩, a7⟩, a8⟩, a9⟩, a10⟩ := h
    exact .mult (h1 a1) (h2 a2) (h3 a3) (by omega) (by omega) a6 (roleb_sound a7) (roleb_sound a8) (roleb_sound a9) a10
  | ha cs ih =>
    intro h
    simp only [wfb, Bool.and_eq_true, decide_eq_true_eq, List.all_eq_true, Bool.not_eq_true'] at h
    obtain ⟨⟨⟨⟨⟨⟨a1, a2⟩, a3⟩, a4⟩, a5⟩, a6⟩, a7⟩ := h
    have hl : ∀ {ds : List Script}, (∀ d ∈ ds, wfb d = true → WF d) → wfbL ds = true → ∀ d ∈ ds, WF d := by
      intro ds
      induction ds with
      | nil => simp
      | cons e es ihe =>
        intro hh h
        simp only [wfbL, Bool.and_eq_true] at h
        intro d hd
        rcases List.mem_cons.1 hd with rfl | hd
        · exact hh _ (by simp) h.1
        · exact ihe (fun d hd => hh d (List.mem_cons_of_mem _ hd)) h.2 d hd
    exact .add a1 (hl ih a2) a3 a4 a5 a6 a7

theorem built_of {s : Script} (h : wfb s = true) : Built s := wf_built (wfb_sound h)

theorem wf_cardinal {s : Script} (h : WF s) : s.cardinal ≤ 360 := by
  cases h <;> first | assumption | simp [cardinal]

end Script
end Verif
