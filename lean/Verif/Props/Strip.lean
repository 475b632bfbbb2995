import Verif.Spec.White
import Verif.Props.Database

/-
C28: the text stored for a value.
-/

namespace Verif

theorem pySpace_blank (c : Char) : pySpace c = true ↔ WhiteChar c := by
  unfold pySpace WhiteChar blankCodes
  simp only [Bool.or_eq_true, Bool.and_eq_true, decide_eq_true_eq, beq_iff_eq, List.mem_cons, List.not_mem_nil, or_false]
  omega

theorem dropWhile_blank (P : Char → Bool) : ∀ s : Str, ∃ a, s = a ++ s.dropWhile P ∧ ∀ c ∈ a, P c = true
  | [] => ⟨[], rfl, by simp⟩
  | d :: s => by
    by_cases hd : P d = true
    · obtain ⟨a, h1, h2⟩ := dropWhile_blank P s
      rw [List.dropWhile_cons_of_pos hd]
      refine ⟨d :: a, by rw [List.cons_append, ← h1], fun c hc => ?_⟩
      rcases List.mem_cons.1 hc with rfl | hc
      · exact hd
      · exact h2 c hc
    · rw [List.dropWhile_cons_of_neg hd]
      exact ⟨[], rfl, by simp⟩

/-- The text stored for a value, and compared when a value is removed, is the value without the blanks around it. -/
theorem C28_trimmed (v : Str) : Bared v (strip v) := by
  obtain ⟨a, h1, h2⟩ := dropWhile_blank pySpace v
  obtain ⟨b, h3, h4⟩ := dropWhile_blank pySpace (v.dropWhile pySpace).reverse
  refine ⟨a, b.reverse, ?_, fun c hc => (pySpace_blank c).1 (h2 c hc), fun c hc => (pySpace_blank c).1 (h4 c (List.mem_reverse.1 hc)), ?_, ?_⟩
  · have := congrArg List.reverse h3
    rw [List.reverse_reverse, List.reverse_append] at this
    rw [List.append_assoc]
    unfold strip
    rw [← this]
    exact h1
  · intro c hc hb
    unfold strip at hc
    rw [List.head?_reverse] at hc
    have := last_dropWhile _ _ c hc
    rw [List.getLast?_reverse] at this
    have := head_dropWhile _ _ c this
    rw [(pySpace_blank c).2 hb] at this
    cases this
  · intro c hc hb
    unfold strip at hc
    rw [List.getLast?_reverse] at hc
    have := head_dropWhile _ _ c hc
    rw [(pySpace_blank c).2 hb] at this
    cases this

/-- There is only one such text. -/
theorem C28_trimmed_unique {v t : Str} (h : Bared v t) : t = strip v := by
  obtain ⟨a, b, rfl, ha, hb, hf, hl⟩ := h
  have pre : ∀ (a z : Str), (∀ c ∈ a, WhiteChar c) → (a ++ z).dropWhile pySpace = z.dropWhile pySpace := by
    intro a z ha
    induction a with
    | nil => rfl
    | cons c a ih =>
      rw [List.cons_append, List.dropWhile_cons_of_pos ((pySpace_blank c).2 (ha c (by simp)))]
      exact ih fun c hc => ha c (by simp [hc])
  have stay : ∀ z : Str, (∀ c ∈ z.head?, ¬ WhiteChar c) → z.dropWhile pySpace = z := fun z hz =>
    dropWhile_of_head fun c hc => by
      cases hp : pySpace c with
      | false => rfl
      | true => exact absurd ((pySpace_blank c).1 hp) (hz c hc)
  unfold strip
  rw [List.append_assoc, pre a _ ha]
  cases t with
  | nil =>
    rw [List.nil_append, show b.dropWhile pySpace = [] by have := pre b [] hb; rwa [List.append_nil] at this]
    rfl
  | cons c t =>
    rw [stay (c :: t ++ b) (by simpa using hf), List.reverse_append, pre b.reverse _ (fun x hx => hb x (List.mem_reverse.1 hx)), stay _ ?_,
      List.reverse_reverse]
    intro x hx
    rw [List.head?_reverse] at hx
    exact hl x hx

example : Bared [' ', '\t', 'a', ' ', 'b', ' ', '\n'] ['a', ' ', 'b'] ∧ strip [' ', '\t', 'a', ' ', 'b', ' ', '\n'] = ['a', ' ', 'b'] ∧
    strip [' ', '　'] = [] :=
  ⟨⟨[' ', '\t'], [' ', '\n'], by decide, by unfold WhiteChar; decide, by unfold WhiteChar; decide, by unfold WhiteChar; decide,
    by unfold WhiteChar; decide⟩, by decide, by decide⟩

end Verif
