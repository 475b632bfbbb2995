import Verif.Lemmas.Structure
import Verif.Props.Database

/-
Properties of the structure files (C33).
-/

namespace Verif
variable {x : Ext} {fs fs' : FS}

/-- Structure files written by this program: complete lines with a declared structure key, each in the file of its key. -/
def SConsistent (x : Ext) (fs : FS) : Prop := ∃ db, SHolds x fs db

/-- **C33**: in a database where the root has a structure setting other than inhibitions (its `is_root` flag),
`set_inhibitions` leaves exactly the requested inhibitions for the root, and every other setting is unchanged. -/
theorem C33_set_inhibitions {k p a₀ v₀ : Str} {vs₀ inhibitions : List Str} (hc : SConsistent x fs)
    (hkt : keyText x k = .ok k) (hp : pathOf x k false true = .ok p) (hk : OneLine k) (hkq : NoQuote k)
    (hi : ∀ e ∈ inhibitions, e ∈ inhibitableRelations)
    (hr : structureValues fs k a₀ = .ok (v₀ :: vs₀)) (ha : a₀ ∈ structureKeys) (ha' : a₀ ≠ c!"inhibition") :
    ∃ fs' new, setInhibitions x fs k inhibitions = .ok fs' ∧ SConsistent x fs' ∧
      structureValues fs' k (c!"inhibition") = .ok new ∧ (∀ e, e ∈ new ↔ e ∈ inhibitions) ∧
      ∀ k' a, a ∈ structureKeys → ¬(k' = k ∧ a = c!"inhibition") → structureValues fs' k' a = structureValues fs k' a := by
  obtain ⟨db, h⟩ := hc
  have hne : allSettings db ≠ [] := by
    intro h0
    unfold structureValues at hr
    rw [h.getStructure_empty h0] at hr
    cases hr
  rw [h.values hne ha] at hr
  injection hr with hr
  have nonempty : ∀ db', settingValues (allSettings db') k a₀ = settingValues (allSettings db) k a₀ → allSettings db' ≠ [] := by
    intro db' e h0
    rw [hr, h0] at e
    cases e
  have hinh : c!"inhibition" ∈ structureKeys := by decide
  unfold setInhibitions
  have hall : inhibitions.all inhibitableRelations.contains = true := by
    rw [List.all_eq_true]
    intro e he
    simpa using hi e he
  simp only [hall, Bool.not_true, Bool.false_eq_true, if_false, bind, Except.bind, h.values hne hinh, pure, Except.pure]
  split
  · rename_i hs
    simp only [Bool.and_eq_true, List.all_eq_true, List.contains_iff_mem] at hs
    refine ⟨fs, _, rfl, ⟨db, h⟩, h.values hne hinh, fun e => ⟨fun he => hs.1 e he, fun he => hs.2 e he⟩, fun _ _ _ _ => rfl⟩
  · obtain ⟨fs1, db1, e1, h1, hv1⟩ := SHolds.addInhibitions (x := x) hkt hp ⟨hk, hkq⟩
      (inhibitions.filter fun e => !(settingValues (allSettings db) k (c!"inhibition")).contains e) fs db h
      fun v hv => hi v (List.mem_filter.1 hv).1
    rw [e1]
    simp only
    obtain ⟨fs2, db2, e2, h2, hv2⟩ := SHolds.removeInhibitions (x := x) hkt hp ⟨hk, hkq⟩
      ((settingValues (allSettings db) k (c!"inhibition")).filter fun e => !inhibitions.contains e) fs1 db1 h1
      fun v hv => h.inhibitions_valid v (List.mem_filter.1 hv).1
    rw [e2]
    have hn1 : settingValues (allSettings db1) k a₀ = settingValues (allSettings db) k a₀ := by
      rw [hv1, if_neg fun h => ha' h.2]
    have hn2 : settingValues (allSettings db2) k a₀ = settingValues (allSettings db) k a₀ := by
      rw [hv2, if_neg (fun h => ha' h.2), hn1]
    have hne2 := nonempty db2 hn2
    refine ⟨fs2, _, rfl, ⟨db2, h2⟩, h2.values hne2 hinh, fun e => ?_, fun k' a hka hm => ?_⟩
    · rw [hv2, if_pos ⟨rfl, rfl⟩, hv1, if_pos ⟨rfl, rfl⟩]
      simp only [List.mem_filter, List.mem_append, Bool.not_eq_true', List.contains_eq_mem, decide_eq_false_iff_not,
        decide_eq_true_eq, not_and, not_not]
      constructor
      · rintro ⟨he | he, h4⟩
        · exact h4 he
        · exact he.1
      · intro he
        refine ⟨?_, fun _ => he⟩
        by_cases ho : e ∈ settingValues (allSettings db) k (c!"inhibition")
        · exact .inl ho
        · exact .inr ⟨he, ho⟩
    · rw [h2.values hne2 hka, h.values hne hka, hv2, if_neg hm, hv1, if_neg hm]

/-- **C33**: the `is_root` and `is_ignored` flags of every script are unaffected. -/
theorem C33_flags {k p a₀ v₀ : Str} {vs₀ inhibitions : List Str} (hc : SConsistent x fs)
    (hkt : keyText x k = .ok k) (hp : pathOf x k false true = .ok p) (hk : OneLine k) (hkq : NoQuote k)
    (hi : ∀ e ∈ inhibitions, e ∈ inhibitableRelations)
    (hr : structureValues fs k a₀ = .ok (v₀ :: vs₀)) (ha : a₀ ∈ structureKeys) (ha' : a₀ ≠ c!"inhibition")
    (h : setInhibitions x fs k inhibitions = .ok fs') :
    ∀ k', structureValues fs' k' (c!"is_root") = structureValues fs k' (c!"is_root") ∧
      structureValues fs' k' (c!"is_ignored") = structureValues fs k' (c!"is_ignored") := by
  obtain ⟨f, new, e, _, _, _, ho⟩ := C33_set_inhibitions hc hkt hp hk hkq hi hr ha ha'
  rw [h] at e
  injection e with e
  subst e
  exact fun k' => ⟨ho k' _ (by decide) fun h => absurd h.2 (by decide), ho k' _ (by decide) fun h => absurd h.2 (by decide)⟩

/-- **C33**, error branch: a list with a relation that cannot be inhibited is refused before anything is written. -/
theorem C33_refused {k e : Str} {inhibitions : List Str} (he : e ∈ inhibitions) (hi : e ∉ inhibitableRelations) :
    setInhibitions x fs k inhibitions = .error .assertionError := by
  unfold setInhibitions
  have : inhibitions.all inhibitableRelations.contains = false := by
    rw [List.all_eq_false]
    exact ⟨e, he, by simpa using hi⟩
  simp only [this, Bool.not_false, if_true]
  rfl

/-- A demonstration: a root with two inhibitions, and another script. -/
def demoStruct : FS :=
  [(c!"morpheme/singular/k.ieml", c!"\"k\" is_root \"True\"\n\"k\" inhibition \"twin\"\n\"k\" inhibition \"crossed\"\n"),
   (c!"morpheme/singular/k2.ieml", c!"\"k2\" is_root \"False\"\n")]

theorem demoStruct_consistent : SConsistent demo demoStruct := by
  refine ⟨[(c!"morpheme/singular/k.ieml", [⟨c!"k", c!"is_root", c!"True"⟩, ⟨c!"k", c!"inhibition", c!"twin"⟩,
      ⟨c!"k", c!"inhibition", c!"crossed"⟩]),
    (c!"morpheme/singular/k2.ieml", [⟨c!"k2", c!"is_root", c!"False"⟩])], ?_, ?_, ?_, ?_⟩
  · decide +kernel
  · decide +kernel
  · intro f hf e he
    simp only [List.mem_cons, List.not_mem_nil, or_false] at hf
    rcases hf with rfl | rfl <;> simp only [List.mem_cons, List.not_mem_nil, or_false] at he
    · rcases he with rfl | rfl | rfl <;> constructor <;> decide
    · subst he; constructor <;> decide
  · intro f hf e he
    simp only [List.mem_cons, List.not_mem_nil, or_false] at hf
    rcases hf with rfl | rfl <;> simp only [List.mem_cons, List.not_mem_nil, or_false] at he
    · rcases he with rfl | rfl | rfl <;> decide +kernel
    · subst he; decide +kernel

example : ∃ fs' new, setInhibitions demo demoStruct (c!"k") [c!"opposed", c!"twin"] = .ok fs' ∧
    structureValues fs' (c!"k") (c!"inhibition") = .ok new ∧ (∀ e, e ∈ new ↔ e ∈ [(c!"opposed" : Str), c!"twin"]) ∧
    structureValues fs' (c!"k") (c!"is_root") = .ok [c!"True"] := by
  have hr : structureValues demoStruct (c!"k") (c!"is_root") = .ok [c!"True"] := by decide +kernel
  obtain ⟨fs', new, h1, _, h2, h3, h4⟩ := C33_set_inhibitions (x := demo) (p := c!"morpheme/singular/k.ieml")
    (inhibitions := [c!"opposed", c!"twin"]) demoStruct_consistent (by decide +kernel) (by decide +kernel) (by decide) (by decide)
    (by decide) hr (by decide) (by decide)
  exact ⟨fs', new, h1, h2, h3, by rw [h4 _ _ (by decide) (by decide), hr]⟩

end Verif
