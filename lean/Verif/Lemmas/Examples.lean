import Verif.Model.Examples
import Verif.Lemmas.Csv

namespace Verif

theorem afterHash_iff {s r : Str} : afterHash s = some r ↔ ∃ w, s = w ++ '#' :: r ∧ ∀ c ∈ w, pySpace c = true := by
  have hh : pySpace '#' = false := by decide
  constructor
  · intro h
    refine ⟨s.takeWhile pySpace, ?_, fun c hc => List.all_eq_true.1 (List.all_takeWhile (p := pySpace) (l := s)) c hc⟩
    unfold afterHash at h
    split at h
    · next q e =>
      cases h
      rw [← e, List.takeWhile_append_dropWhile]
    · cases h
  · rintro ⟨w, rfl, hw⟩
    unfold afterHash
    rw [List.dropWhile_append_of_pos hw, List.dropWhile_cons, hh]
    simp

theorem lastClose_some : ∀ {s a r : Str}, lastClose s = some (a, r) → ∃ b, s = a ++ ']' :: b ∧ afterHash b = some r ∧ '\n' ∉ a ∧ lastClose b = none
  | [], _, _, h => by simp [lastClose] at h
  | c :: s, a, r, h => by
    unfold lastClose at h
    split at h
    · cases h
    · next hn =>
      split at h
      · next a' r' e =>
        cases h
        obtain ⟨b, h1, h2, h3, h4⟩ := lastClose_some e
        exact ⟨b, by rw [h1]; rfl, h2, by simp only [List.mem_cons, not_or]; exact ⟨fun e => hn e.symm, h3⟩, h4⟩
      · next e =>
        split at h
        · next hc =>
          obtain ⟨r', h1, h2⟩ := Option.map_eq_some_iff.1 h
          cases h2
          exact ⟨s, by rw [hc]; rfl, h1, by simp, e⟩
        · cases h

theorem lastClose_intro : ∀ {a b r : Str}, '\n' ∉ a → afterHash b = some r → lastClose b = none → lastClose (a ++ ']' :: b) = some (a, r)
  | [], b, r, _, h1, h2 => by simp [lastClose, h1, h2]
  | c :: a, b, r, hn, h1, h2 => by
    have hc : c ≠ '\n' := fun e => hn (by simp [e])
    have := lastClose_intro (a := a) (fun e => hn (by simp [e])) h1 h2
    rw [List.cons_append, lastClose, if_neg hc, this]

/-- Any closing bracket followed by a hash is found, or a later one. -/
theorem lastClose_some_of : ∀ {a b r : Str}, '\n' ∉ a → afterHash b = some r → ∃ p, lastClose (a ++ ']' :: b) = some p ∧ a.length ≤ p.1.length
  | [], b, r, _, h => by
    cases e : lastClose b with
    | none => exact ⟨([], r), by simp [lastClose, e, h], by simp⟩
    | some p => exact ⟨(']' :: p.1, p.2), by simp [lastClose, e], by simp⟩
  | c :: a, b, r, hn, h => by
    have hc : c ≠ '\n' := fun e => hn (by simp [e])
    obtain ⟨p, h1, h2⟩ := lastClose_some_of (a := a) (fun e => hn (by simp [e])) h
    exact ⟨(c :: p.1, p.2), by rw [List.cons_append, lastClose, if_neg hc, h1], by simpa using h2⟩

theorem lastClose_skip {x s : Str} (hx : ∀ c ∈ x, c ≠ ']') (h : lastClose s = none) : lastClose (x ++ s) = none := by
  induction x with
  | nil => exact h
  | cons c x ih =>
    have := ih fun d hd => hx d (by simp [hd])
    rw [List.cons_append, lastClose, this]
    simp [hx c (by simp)]

/-- A text with a line break at most at its end. -/
def IsLine (l : Str) : Prop := ∃ s e, l = s ++ e ∧ '\n' ∉ s ∧ (e = [] ∨ e = ['\n'])

theorem IsLine.suffix {a b : Str} (h : IsLine (a ++ b)) : IsLine b := by
  induction a with
  | nil => exact h
  | cons c a ih =>
    apply ih
    obtain ⟨s, e, h1, h2, h3⟩ := h
    cases s with
    | nil =>
      rcases h3 with rfl | rfl
      · cases h1
      · simp only [List.cons_append, List.nil_append, List.cons.injEq] at h1
        exact ⟨[], [], h1.2, by simp, .inl rfl⟩
    | cons d s =>
      simp only [List.cons_append, List.cons.injEq] at h1
      exact ⟨s, e, h1.2, fun h => h2 (by simp [h]), h3⟩

theorem IsLine.take {x : Str} (h : IsLine x) : ∃ e, x = x.takeWhile (fun c => c != '\n') ++ e ∧ (e = [] ∨ e = ['\n']) := by
  obtain ⟨s, e, rfl, h2, h3⟩ := h
  have : (s ++ e).takeWhile (fun c => c != '\n') = s := by
    rw [List.takeWhile_append_of_pos (by intro c hc; simp only [bne_iff_ne]; exact fun e => h2 (e ▸ hc))]
    rcases h3 with rfl | rfl <;> simp
  exact ⟨e, by rw [this], h3⟩

end Verif
