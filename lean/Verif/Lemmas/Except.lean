import Verif.Model.Py
import Mathlib.Data.List.Forall2

/-
Inversion lemmas for computations that may raise.
-/

namespace Verif
variable {α β : Type}

theorem bind_ok {x : Except Err α} {f : α → Except Err β} {b : β} : (x >>= f) = .ok b ↔ ∃ a, x = .ok a ∧ f a = .ok b := by
  cases x with
  | error e => simp [bind, Except.bind]
  | ok a => simp [bind, Except.bind]

theorem pure_ok {a b : α} : (pure a : Except Err α) = .ok b ↔ a = b := by simp [pure, Except.pure]

theorem ite_throw {p : Prop} [Decidable p] {e : Err} {a b : α} :
    (if p then (.error e : Except Err α) else .ok a) = .ok b ↔ ¬ p ∧ a = b := by
  by_cases hp : p <;> simp [hp]

theorem mapM_inv {f : α → Except Err β} : ∀ {l : List α} {ys : List β}, l.mapM f = .ok ys → List.Forall₂ (fun x y => f x = .ok y) l ys
  | [], ys, h => by
    rw [List.mapM_nil, pure_ok] at h
    subst h
    exact .nil
  | x :: l, ys, h => by
    rw [List.mapM_cons, bind_ok] at h
    obtain ⟨y, h1, h⟩ := h
    rw [bind_ok] at h
    obtain ⟨ys', h2, h⟩ := h
    rw [pure_ok] at h
    subst h
    exact .cons h1 (mapM_inv h2)

theorem mapM_of_forall₂ {f : α → Except Err β} {l : List α} {ys : List β} (h : List.Forall₂ (fun x y => f x = .ok y) l ys) :
    l.mapM f = .ok ys := by
  induction h with
  | nil => rfl
  | cons h1 _ ih => rw [List.mapM_cons, h1, ih]; rfl

theorem forall₂_mem_left {R : α → β → Prop} {l : List α} {ys : List β} (h : List.Forall₂ R l ys) {x : α} (hx : x ∈ l) :
    ∃ y ∈ ys, R x y := by
  induction h with
  | nil => cases hx
  | cons h1 _ ih =>
    rcases List.mem_cons.1 hx with rfl | hx
    · exact ⟨_, by simp, h1⟩
    · obtain ⟨y, hy, h2⟩ := ih hx
      exact ⟨y, by simp [hy], h2⟩

theorem forall₂_mem_right {R : α → β → Prop} {l : List α} {ys : List β} (h : List.Forall₂ R l ys) {y : β} (hy : y ∈ ys) :
    ∃ x ∈ l, R x y := by
  induction h with
  | nil => cases hy
  | cons h1 _ ih =>
    rcases List.mem_cons.1 hy with rfl | hy
    · exact ⟨_, by simp, h1⟩
    · obtain ⟨y, hy, h2⟩ := ih hy
      exact ⟨y, by simp [hy], h2⟩

theorem mapM_mem {f : α → Except Err β} {l : List α} {ys : List β} (h : l.mapM f = .ok ys) {y : β} :
    y ∈ ys ↔ ∃ x ∈ l, f x = .ok y := by
  have h' := mapM_inv h
  constructor
  · exact fun hy => forall₂_mem_right h' hy
  · rintro ⟨x, hx, hy⟩
    obtain ⟨z, hz, h2⟩ := forall₂_mem_left h' hx
    rw [hy, Except.ok.injEq] at h2
    exact h2 ▸ hz

theorem mapM_each {f : α → Except Err β} {l : List α} {ys : List β} (h : l.mapM f = .ok ys) {x : α} (hx : x ∈ l) :
    ∃ y ∈ ys, f x = .ok y := forall₂_mem_left (mapM_inv h) hx

/-- A map succeeds when it succeeds on each element. -/
theorem mapM_total {f : α → Except Err β} : ∀ {l : List α}, (∀ x ∈ l, ∃ y, f x = .ok y) → ∃ ys, l.mapM f = .ok ys
  | [], _ => ⟨[], rfl⟩
  | x :: l, h => by
    obtain ⟨y, h1⟩ := h x (by simp)
    obtain ⟨ys, h2⟩ := mapM_total (l := l) fun x hx => h x (by simp [hx])
    exact ⟨y :: ys, by rw [List.mapM_cons, h1, h2]; rfl⟩

theorem filterAuxM_inv {f : α → Except Err Bool} : ∀ {l acc ys : List α}, List.filterAuxM f l acc = .ok ys →
    ∃ zs : List α, ys = zs.reverse ++ acc ∧ (∀ x ∈ l, ∃ b, f x = .ok b) ∧ ∀ x, x ∈ zs ↔ x ∈ l ∧ f x = .ok true
  | [], acc, ys, h => by
    rw [List.filterAuxM, pure_ok] at h
    exact ⟨[], by simp [h], by simp, by simp⟩
  | x :: l, acc, ys, h => by
    rw [List.filterAuxM, bind_ok] at h
    obtain ⟨b, h1, h⟩ := h
    obtain ⟨zs, h2, h3, h4⟩ := filterAuxM_inv h
    cases b with
    | true =>
      refine ⟨x :: zs, by rw [h2]; simp [cond], ?_, ?_⟩
      · intro y hy
        rcases List.mem_cons.1 hy with rfl | hy
        · exact ⟨_, h1⟩
        · exact h3 y hy
      · intro y
        rw [List.mem_cons, List.mem_cons, h4]
        constructor
        · rintro (rfl | ⟨hy, hy'⟩)
          · exact ⟨.inl rfl, h1⟩
          · exact ⟨.inr hy, hy'⟩
        · rintro ⟨rfl | hy, hy'⟩
          · exact .inl rfl
          · exact .inr ⟨hy, hy'⟩
    | false =>
      refine ⟨zs, by rw [h2]; simp [cond], ?_, ?_⟩
      · intro y hy
        rcases List.mem_cons.1 hy with rfl | hy
        · exact ⟨_, h1⟩
        · exact h3 y hy
      · intro y
        rw [h4, List.mem_cons]
        constructor
        · rintro ⟨hy, hy'⟩
          exact ⟨.inr hy, hy'⟩
        · rintro ⟨rfl | hy, hy'⟩
          · rw [h1] at hy'; cases hy'
          · exact ⟨hy, hy'⟩

theorem filterM_inv {f : α → Except Err Bool} {l ys : List α} (h : l.filterM f = .ok ys) :
    (∀ x ∈ l, ∃ b, f x = .ok b) ∧ ∀ x, x ∈ ys ↔ x ∈ l ∧ f x = .ok true := by
  rw [List.filterM, bind_ok] at h
  obtain ⟨zs, h1, h2⟩ := h
  rw [pure_ok] at h2
  obtain ⟨us, h3, h4, h5⟩ := filterAuxM_inv h1
  refine ⟨h4, fun x => ?_⟩
  rw [← h5, ← h2, h3]
  simp

theorem filterAuxM_sublist {f : α → Except Err Bool} : ∀ {l acc zs : List α}, List.filterAuxM f l acc = .ok zs →
    ∃ us : List α, zs = us.reverse ++ acc ∧ us.Sublist l
  | [], acc, zs, h => by
    rw [List.filterAuxM, pure_ok] at h
    exact ⟨[], by simp [h], List.Sublist.refl _⟩
  | x :: l, acc, zs, h => by
    rw [List.filterAuxM, bind_ok] at h
    obtain ⟨b, _, h⟩ := h
    obtain ⟨us, h1, h2⟩ := filterAuxM_sublist h
    cases b with
    | true => exact ⟨x :: us, by simp [h1], h2.cons₂ x⟩
    | false => exact ⟨us, by simpa using h1, h2.cons x⟩

theorem filterM_sublist {f : α → Except Err Bool} {l ys : List α} (h : l.filterM f = .ok ys) : ys.Sublist l := by
  rw [List.filterM, bind_ok] at h
  obtain ⟨zs, h1, h2⟩ := h
  rw [pure_ok] at h2
  obtain ⟨us, h3, h4⟩ := filterAuxM_sublist h1
  rw [← h2, h3]
  simpa using h4

theorem filterAuxM_total {f : α → Except Err Bool} : ∀ {l acc : List α}, (∀ x ∈ l, ∃ b, f x = .ok b) →
    ∃ ys, List.filterAuxM f l acc = .ok ys
  | [], acc, _ => ⟨acc, rfl⟩
  | x :: l, acc, h => by
    obtain ⟨b, hb⟩ := h x (by simp)
    obtain ⟨ys, hy⟩ := filterAuxM_total (l := l) (acc := cond b (x :: acc) acc) fun y hy => h y (by simp [hy])
    exact ⟨ys, by rw [List.filterAuxM, hb]; exact hy⟩

theorem filterM_total {f : α → Except Err Bool} {l : List α} (h : ∀ x ∈ l, ∃ b, f x = .ok b) : ∃ ys, l.filterM f = .ok ys := by
  obtain ⟨ys, hy⟩ := filterAuxM_total (acc := []) h
  exact ⟨ys.reverse, by rw [List.filterM, hy]; rfl⟩

/-- A property of the state kept by every round of a loop. -/
theorem foldlM_inv {f : β → α → Except Err β} {P : β → Prop} : ∀ {l : List α} {b c : β}, P b →
    (∀ x ∈ l, ∀ b c, P b → f b x = .ok c → P c) → l.foldlM f b = .ok c → P c
  | [], b, c, hb, _, h => by
    rw [List.foldlM_nil, pure_ok] at h
    exact h ▸ hb
  | x :: l, b, c, hb, hs, h => by
    rw [List.foldlM_cons, bind_ok] at h
    obtain ⟨b', h1, h2⟩ := h
    exact foldlM_inv (hs x (by simp) b b' hb h1) (fun y hy => hs y (by simp [hy])) h2

/-- A loop whose rounds succeed, as long as the state has a property. -/
theorem bind_total {γ δ : Type} {x : Except Err γ} {f : γ → Except Err δ} (hx : ∃ a, x = .ok a) (hf : ∀ a, x = .ok a → ∃ b, f a = .ok b) :
    ∃ b, (x >>= f) = .ok b := by
  obtain ⟨a, ha⟩ := hx
  obtain ⟨b, hb⟩ := hf a ha
  exact ⟨b, by rw [ha]; exact hb⟩

theorem foldlM_total {f : β → α → Except Err β} {P : β → Prop} : ∀ {l : List α} {b : β}, P b →
    (∀ x ∈ l, ∀ b, P b → ∃ c, f b x = .ok c ∧ P c) → ∃ c, l.foldlM f b = .ok c ∧ P c
  | [], b, hb, _ => ⟨b, rfl, hb⟩
  | x :: l, b, hb, hs => by
    obtain ⟨b', h1, h2⟩ := hs x (by simp) b hb
    obtain ⟨c, h3, h4⟩ := foldlM_total (l := l) h2 fun y hy => hs y (by simp [hy])
    exact ⟨c, by rw [List.foldlM_cons, h1]; exact h3, h4⟩

end Verif
