import Verif.Lemmas.Distance
import Verif.Spec.Projection

/-
Lemmas on the projection of USLs.
-/

namespace Verif

variable {T U : Type} [DecidableEq T] [DecidableEq U]

theorem mem_addTo {α : Type} [DecidableEq α] {l : List α} {x y : α} : y ∈ addTo l x ↔ y ∈ l ∨ y = x := by
  unfold addTo
  split
  · rename_i h
    constructor
    · exact .inl
    · rintro (h' | rfl)
      · exact h'
      · exact h
  · simp

theorem addTo_nodup {α : Type} [DecidableEq α] {l : List α} (h : l.Nodup) (x : α) : (addTo l x).Nodup := by
  unfold addTo
  split
  · exact h
  · rename_i hx
    rw [List.nodup_append]
    refine ⟨h, by simp, fun a ha b hb => ?_⟩
    simp only [List.mem_singleton] at hb
    subst hb
    exact fun e => hx (e ▸ ha)

theorem mem_addAll {α : Type} [DecidableEq α] : ∀ {m l : List α} {y : α}, y ∈ m.foldl addTo l ↔ y ∈ l ∨ y ∈ m
  | [], l, y => by simp
  | x :: m, l, y => by
    rw [List.foldl_cons, mem_addAll, mem_addTo, List.mem_cons, or_assoc]

theorem addAll_nodup {α : Type} [DecidableEq α] : ∀ {m l : List α}, l.Nodup → (m.foldl addTo l).Nodup
  | [], _, h => h
  | x :: m, l, h => by
    rw [List.foldl_cons]
    exact addAll_nodup (addTo_nodup h x)

/-- What `cells_to_usls[c].add(u)` changes. -/
theorem get_putAt : ∀ (m : List (T × List U)) (c : T) (u : U) (c' : T), Met.get (putAt m c u) c' =
    if c' = c then some (addTo ((Met.get m c).getD []) u) else Met.get m c'
  | [], c, u, c' => by
    by_cases h : c' = c
    · subst h
      simp [putAt, Met.get, addTo]
    · have : ¬ c = c' := fun e => h e.symm
      simp [putAt, Met.get, h, this]
  | e :: m, c, u, c' => by
    rw [putAt]
    by_cases he : e.1 = c
    · rw [if_pos he]
      by_cases h : c' = c
      · subst h
        simp [Met.get, he]
      · have : ¬ e.1 = c' := fun e' => h (e' ▸ he)
        simp [Met.get, h, this]
    · rw [if_neg he]
      have ih := get_putAt m c u c'
      unfold Met.get at ih ⊢
      rw [List.find?_cons, List.find?_cons, List.find?_cons]
      by_cases h' : e.1 = c'
      · have : ¬ c' = c := fun e' => he (h'.trans e')
        simp [h', this]
      · simp only [h', decide_false, he]
        exact ih

/-- The state after some cells were met by some USLs. -/
structure MetInv (d : Lexicon T U) (st : Met T U) (P : U → T → Prop) : Prop where
  some : ∀ c us, Met.get st.usls c = some us → us ≠ []
  usls : ∀ c u, u ∈ (Met.get st.usls c).getD [] ↔ P u c
  tables : ∀ t, t ∈ st.tables ↔ ∃ u c, P u c ∧ t ∈ d.contained c
  nodup : st.tables.Nodup

theorem meet_inv {d : Lexicon T U} {st : Met T U} {P : U → T → Prop} (h : MetInv d st P) (u : U) (c : T) :
    MetInv d (meet d st u c) fun v e => P v e ∨ (v = u ∧ e = c) := by
  unfold meet
  refine ⟨fun e us he => ?_, fun e v => ?_, fun t => ?_, ?_⟩
  · simp only [get_putAt] at he
    split at he
    · cases he
      intro hn
      have : u ∈ addTo ((Met.get st.usls c).getD []) u := mem_addTo.2 (.inr rfl)
      rw [hn] at this
      simp at this
    · exact h.some e us he
  · simp only [get_putAt]
    split
    · rename_i hc
      subst hc
      rw [Option.getD_some, mem_addTo, h.usls]
      simp
    · rename_i hc
      rw [h.usls]
      simp [hc]
  · dsimp only
    have split2 : (∃ v e, (P v e ∨ (v = u ∧ e = c)) ∧ t ∈ d.contained e) ↔ t ∈ st.tables ∨ t ∈ d.contained c := by
      rw [h.tables]
      constructor
      · rintro ⟨v, e, h1 | ⟨rfl, rfl⟩, h2⟩
        · exact .inl ⟨v, e, h1, h2⟩
        · exact .inr h2
      · rintro (⟨v, e, h1, h2⟩ | h2)
        · exact ⟨v, e, .inl h1, h2⟩
        · exact ⟨u, c, .inr ⟨rfl, rfl⟩, h2⟩
    rw [split2]
    split
    · exact mem_addAll
    · rename_i hc
      constructor
      · exact .inl
      · rintro (h1 | h1)
        · exact h1
        · obtain ⟨v, hv⟩ := List.exists_mem_of_ne_nil _ (fun e : (Met.get st.usls c).getD [] = [] => hc (by rw [e]; rfl))
          exact (h.tables t).2 ⟨v, c, (h.usls c v).1 hv, h1⟩
  · dsimp only
    split
    · exact addAll_nodup h.nodup
    · exact h.nodup

omit [DecidableEq U] in
theorem MetInv.congr {d : Lexicon T U} {st : Met T U} {P Q : U → T → Prop} (h : MetInv d st P) (hpq : ∀ u c, P u c ↔ Q u c) : MetInv d st Q :=
  ⟨h.some, fun c u => (h.usls c u).trans (hpq u c), fun t => (h.tables t).trans (by simp only [hpq]), h.nodup⟩

theorem meetAll_inv (d : Lexicon T U) (usls : List U) : MetInv d (meetAll d usls) fun u c => u ∈ usls ∧ HasCell d u c := by
  have cells : ∀ (u : U) (l : List T) (st : Met T U) (P : U → T → Prop), MetInv d st P →
      MetInv d (l.foldl (fun st c => meet d st u c) st) fun v e => P v e ∨ (v = u ∧ e ∈ l) := by
    intro u l
    induction l with
    | nil => intro st P h; exact h.congr (by simp)
    | cons c l ih =>
      intro st P h
      refine (ih _ _ (meet_inv h u c)).congr fun v e => ?_
      simp only [List.mem_cons]
      tauto
  have terms : ∀ (u : U) (l : List T) (st : Met T U) (P : U → T → Prop), MetInv d st P →
      MetInv d (l.foldl (fun st t => (d.cells t).foldl (fun st c => meet d st u c) st) st) fun v e => P v e ∨ (v = u ∧ ∃ t ∈ l, e ∈ d.cells t) := by
    intro u l
    induction l with
    | nil => intro st P h; exact h.congr (by simp)
    | cons c l ih =>
      intro st P h
      refine (ih _ _ (cells u (d.cells c) st P h)).congr fun v e => ?_
      simp only [List.mem_cons, exists_eq_or_imp]
      tauto
  have all : ∀ (l : List U) (st : Met T U) (P : U → T → Prop), MetInv d st P →
      MetInv d (l.foldl (fun st u => (d.terms u).foldl (fun st t => (d.cells t).foldl (fun st c => meet d st u c) st) st) st)
        fun v e => P v e ∨ (v ∈ l ∧ HasCell d v e) := by
    intro l
    induction l with
    | nil => intro st P h; exact h.congr (by simp)
    | cons u l ih =>
      intro st P h
      refine (ih _ _ (terms u (d.terms u) st P h)).congr fun v e => ?_
      simp only [List.mem_cons, HasCell]
      constructor
      · rintro ((h1 | ⟨rfl, h1⟩) | ⟨h1, h2⟩)
        · exact .inl h1
        · exact .inr ⟨.inl rfl, h1⟩
        · exact .inr ⟨.inr h1, h2⟩
      · rintro (h1 | ⟨rfl | h1, h2⟩)
        · exact .inl (.inl h1)
        · exact .inl (.inr ⟨rfl, h2⟩)
        · exact .inr ⟨h1, h2⟩
  have init : MetInv d { usls := [], tables := [] } fun (_ : U) (_ : T) => False :=
    ⟨by simp [Met.get], by simp [Met.get], by simp, List.nodup_nil⟩
  exact (all usls _ _ init).congr (by simp)

omit [DecidableEq U] in
/-- The cells after the filter of the allowed terms. -/
theorem get_filter (m : List (T × List U)) (allowed : List T) (c : T) :
    Met.get (m.filter fun e => e.1 ∈ allowed) c = if c ∈ allowed then Met.get m c else none := by
  unfold Met.get
  induction m with
  | nil => split <;> rfl
  | cons e m ih =>
    rw [List.filter_cons]
    by_cases he : e.1 = c
    · by_cases hc : c ∈ allowed
      · simp [he, hc]
      · rw [if_neg hc] at ih
        simp [he, hc] at ih ⊢
        exact ih
    · by_cases hc : e.1 ∈ allowed
      · simp only [hc, decide_true, if_true, List.find?_cons, he, decide_false]
        exact ih
      · simp only [hc, decide_false, Bool.false_eq_true, if_false, List.find?_cons, he]
        exact ih

end Verif
