import Verif.Lemmas.Families
import Verif.Lemmas.SSNodup
import Verif.Lemmas.Reading
import Verif.Model.FlexionCheck
import Verif.Spec.Flexion

/-
Lemmas on the checks of flexions.
-/

namespace Verif
open Script

theorem void_iff {m : Script} (h : WF m) : m.empty = true ↔ Void m := by
  constructor
  · intro he w hw c hc
    have hn := norm_isNull h
    rw [he] at hn
    rw [← den_norm h] at hw
    cases hm : m.norm <;> simp [hm, isNull] at hn
    rw [hm, den_null] at hw
    subst hw
    exact List.eq_of_mem_replicate hc
  · intro hv
    have hr : ∀ w, Den m w → w = List.replicate (3 ^ m.layer) none := fun w hw => by
      rw [List.eq_replicate_iff]
      exact ⟨den_length h hw, hv w hw⟩
    obtain ⟨w, hw⟩ := den_exists h
    have hc := (singular_iff h).1 ⟨w, hw, fun w' hw' => (hr w' hw').trans (hr w hw).symm⟩
    rw [empty_iff_word h hc, ← hr w hw]
    exact hw

theorem inScripts_iff {m : Script} {S : List Script} : inScripts m S = true ↔ ∃ x ∈ S, x.str = m.str := by
  simp [inScripts]

theorem inScripts_append {m : Script} {S T : List Script} : inScripts m (S ++ T) = true ↔ inScripts m S = true ∨ inScripts m T = true := by
  simp only [inScripts_iff, List.mem_append]
  constructor
  · rintro ⟨x, h | h, e⟩
    · exact .inl ⟨x, h, e⟩
    · exact .inr ⟨x, h, e⟩
  · rintro (⟨x, h, e⟩ | ⟨x, h, e⟩)
    · exact ⟨x, .inl h, e⟩
    · exact ⟨x, .inr h, e⟩

/-- The texts that are read. -/
def readable (r : Str) : Bool := match parseScript r with
  | .ok _ => true
  | .error _ => false

theorem readable_iff {r : Str} : readable r = true ↔ ∃ p, parseScript r = .ok p := by
  unfold readable
  split
  · rename_i p hp
    exact ⟨fun _ => ⟨p, hp⟩, fun _ => rfl⟩
  · rename_i e he
    exact ⟨fun h => absurd h (by simp), fun ⟨p, hp⟩ => by rw [he] at hp; cases hp⟩

theorem families_read : ∀ r ∈ flexionFamilies, readable r = true := by decide +kernel

theorem ofFamily_singular {r : Str} {m : Script} (h : OfFamily r m) : Singular m := by
  obtain ⟨p, w, _, _, _, hw⟩ := h
  exact ⟨w, (hw w).2 rfl, fun v hv => (hw v).1 hv⟩

theorem family_iff {r : Str} (hr : readable r = true) {m : Script} (hm : WF m) : inScripts m (familySequences r) = true ↔ OfFamily r m := by
  obtain ⟨p, hp⟩ := readable_iff.1 hr
  have wp := parse_wf hp
  obtain ⟨L, e⟩ := enum_exists wp
  have hf : familySequences r = L := by
    unfold familySequences
    rw [hp]
    show (match singularSequences p with | .ok l => l | .error _ => []) = L
    rw [e.run]
  rw [hf, inScripts_iff]
  constructor
  · rintro ⟨x, hx, he⟩
    obtain ⟨w, hw, hu⟩ := (singular_iff (e.wf x hx)).2 (e.one x hx)
    refine ⟨p, w, hp, ?_, (e.den w).2 ⟨x, hx, hw⟩, fun v => ?_⟩
    · rw [← layer_of_str (e.wf x hx) hm he, e.layer x hx]
    · rw [← den_of_str (e.wf x hx) hm he]
      exact ⟨hu v, fun h => h ▸ hw⟩
  · intro h
    obtain ⟨p', w, hp', hl, hw, hd⟩ := h
    rw [hp] at hp'
    cases hp'
    have hc := (singular_iff hm).1 ⟨w, (hd w).2 rfl, fun v hv => (hd v).1 hv⟩
    obtain ⟨x, hx, hxw⟩ := (e.den w).1 hw
    exact ⟨x, hx, str_of_word (e.wf x hx) hm (e.one x hx) hc (by rw [e.layer x hx, hl]) hxw ((hd w).2 rfl)⟩

theorem assertAllIn_outcome (l S : List Script) :
    assertAllIn l S = .ok () ∧ (∀ m ∈ l, inScripts m S = true ∨ m.empty = true) ∨
    assertAllIn l S = .error .valueError ∧ ¬ ∀ m ∈ l, inScripts m S = true ∨ m.empty = true := by
  unfold assertAllIn
  split
  · rename_i h
    exact .inl ⟨rfl, by simpa using h⟩
  · rename_i h
    exact .inr ⟨rfl, by simpa using h⟩

theorem filter_once {α : Type} (p : α → Bool) : ∀ l : List α, (l.filter p).length ≤ 1 ↔ l.Pairwise fun a b => ¬ (p a = true ∧ p b = true)
  | [] => by simp
  | a :: l => by
    rw [List.pairwise_cons, ← filter_once p l]
    by_cases ha : p a = true
    · rw [List.filter_cons_of_pos ha]
      constructor
      · intro h
        have h0 : (l.filter p).length = 0 := by rw [List.length_cons] at h; omega
        refine ⟨fun b hb hab => ?_, by omega⟩
        have := List.length_eq_zero_iff.1 h0
        rw [List.filter_eq_nil_iff] at this
        exact this b hb hab.2
      · rintro ⟨h, _⟩
        have : l.filter p = [] := List.filter_eq_nil_iff.2 fun b hb hpb => h b hb ⟨ha, hpb⟩
        simp [this]
    · rw [List.filter_cons_of_neg ha]
      simp [ha]

theorem assertAtMostOne_outcome (l S : List Script) :
    assertAtMostOne l S = .ok () ∧ (l.Pairwise fun a b => ¬ (inScripts a S = true ∧ inScripts b S = true)) ∨
    assertAtMostOne l S = .error .valueError ∧ ¬ (l.Pairwise fun a b => ¬ (inScripts a S = true ∧ inScripts b S = true)) := by
  unfold assertAtMostOne
  split
  · rename_i h
    exact .inl ⟨rfl, (filter_once _ l).1 h⟩
  · rename_i h
    exact .inr ⟨rfl, fun k => h ((filter_once _ l).2 k)⟩

/-- What a run of checks says: nothing is raised if `P` holds, `ValueError` if not. -/
def Says (x : Except Err Unit) (P : Prop) : Prop := x = .ok () ∧ P ∨ x = .error .valueError ∧ ¬ P

theorem Says.bind {x y : Except Err Unit} {P Q : Prop} (hx : Says x P) (hy : Says y Q) : Says (x >>= fun _ => y) (P ∧ Q) := by
  rcases hx with ⟨rfl, p⟩ | ⟨rfl, p⟩
  · rcases hy with ⟨rfl, q⟩ | ⟨rfl, q⟩
    · exact .inl ⟨rfl, p, q⟩
    · exact .inr ⟨rfl, fun h => q h.2⟩
  · exact .inr ⟨rfl, fun h => p h.1⟩

theorem Says.congr {x : Except Err Unit} {P Q : Prop} (hx : Says x P) (h : P ↔ Q) : Says x Q := by
  rcases hx with ⟨e, p⟩ | ⟨e, p⟩
  · exact .inl ⟨e, h.1 p⟩
  · exact .inr ⟨e, fun q => p (h.2 q)⟩

theorem says_once {l : List Script} (hl : ∀ m ∈ l, WF m) {r : Str} (hr : readable r = true) : Says (assertAtMostOne l (familySequences r)) (OnceAtMost l r) := by
  refine Says.congr (assertAtMostOne_outcome l _) ?_
  unfold OnceAtMost
  constructor
  · intro h
    refine h.imp_of_mem fun {a b} ha hb hn hab => hn ?_
    exact ⟨(family_iff hr (hl a ha)).2 hab.1, (family_iff hr (hl b hb)).2 hab.2⟩
  · intro h
    refine h.imp_of_mem fun {a b} ha hb hn hab => hn ?_
    exact ⟨(family_iff hr (hl a ha)).1 hab.1, (family_iff hr (hl b hb)).1 hab.2⟩

/-- Morphemes of the families, or empty. -/
def Known (rs : List Str) (l : List Script) : Prop := ∀ m ∈ l, Void m ∨ ∃ r ∈ rs, OfFamily r m

theorem says_known {l : List Script} (hl : ∀ m ∈ l, WF m) {rs : List Str} (hr : ∀ r ∈ rs, readable r = true) {S : List Script}
    (hS : ∀ m, inScripts m S = true ↔ ∃ r ∈ rs, inScripts m (familySequences r) = true) : Says (assertAllIn l S) (Known rs l) := by
  refine Says.congr (assertAllIn_outcome l _) (forall₂_congr fun m hm => ?_)
  rw [hS, void_iff (hl m hm), or_comm]
  refine or_congr_right ?_
  constructor
  · rintro ⟨r, h1, h2⟩
    exact ⟨r, h1, (family_iff (hr r h1) (hl m hm)).1 h2⟩
  · rintro ⟨r, h1, h2⟩
    exact ⟨r, h1, (family_iff (hr r h1) (hl m hm)).2 h2⟩

section
attribute [local irreducible] familySequences

theorem says_actant {l : List Script} (hl : ∀ m ∈ l, WF m) : Says (checkFlexionActant l) (FlexionOf actantFamilies l) := by
  have hr : ∀ r ∈ actantFamilies, readable r = true := by decide +kernel
  have ho : ∀ r ∈ actantFamilies, Says (assertAtMostOne l (familySequences r)) (OnceAtMost l r) := fun r h => says_once hl (hr r h)
  have hk : Says (assertAllIn l actantFlexions) (Known actantFamilies l) := by
    refine says_known hl hr fun m => ?_
    simp only [actantFlexions, inScripts_append, actantFamilies, List.mem_cons, List.not_mem_nil, or_false, exists_eq_or_imp, exists_eq_left, or_assoc]
  unfold checkFlexionActant
  refine Says.congr (hk.bind ((ho _ (by simp [actantFamilies])).bind ((ho _ (by simp [actantFamilies])).bind ((ho _ (by simp [actantFamilies])).bind
      ((ho _ (by simp [actantFamilies])).bind ((ho _ (by simp [actantFamilies])).bind ((ho _ (by simp [actantFamilies])).bind ((ho _ (by simp
      [actantFamilies])).bind ((ho _ (by simp [actantFamilies])).bind ((ho _ (by simp [actantFamilies])).bind ((ho _ (by simp [actantFamilies])).bind
      ((ho _ (by simp [actantFamilies])).bind ((ho _ (by simp [actantFamilies])).bind ((ho _ (by simp [actantFamilies])).bind (ho _ (by simp
      [actantFamilies])))))))))))))))) ?_
  constructor
  · rintro ⟨h0, h1, h2, h3, h4, h5, h6, h7, h8, h9, h10, h11, h12, h13, h14⟩
    refine ⟨h0, fun r h => ?_⟩
    simp only [actantFamilies, List.mem_cons, List.not_mem_nil, or_false] at h
    rcases h with rfl | rfl | rfl | rfl | rfl | rfl | rfl | rfl | rfl | rfl | rfl | rfl | rfl | rfl <;> assumption
  · rintro ⟨h0, h⟩
    exact ⟨h0, h _ (by simp [actantFamilies]), h _ (by simp [actantFamilies]), h _ (by simp [actantFamilies]), h _ (by simp [actantFamilies]), h _
      (by simp [actantFamilies]), h _ (by simp [actantFamilies]), h _ (by simp [actantFamilies]), h _ (by simp [actantFamilies]), h _ (by simp
      [actantFamilies]), h _ (by simp [actantFamilies]), h _ (by simp [actantFamilies]), h _ (by simp [actantFamilies]), h _ (by simp
      [actantFamilies]), h _ (by simp [actantFamilies])⟩

theorem says_quality {l : List Script} (hl : ∀ m ∈ l, WF m) : Says (checkFlexionQuality l) (FlexionOf qualityFamilies l) := by
  have hr : ∀ r ∈ qualityFamilies, readable r = true := by decide +kernel
  have ho : ∀ r ∈ qualityFamilies, Says (assertAtMostOne l (familySequences r)) (OnceAtMost l r) := fun r h => says_once hl (hr r h)
  have hk : Says (assertAllIn l qualityFlexions) (Known qualityFamilies l) := by
    refine says_known hl hr fun m => ?_
    simp only [qualityFlexions, inScripts_append, qualityFamilies, List.mem_cons, List.not_mem_nil, or_false, exists_eq_or_imp, exists_eq_left, or_assoc]
  unfold checkFlexionQuality
  refine Says.congr (hk.bind ((ho _ (by simp [qualityFamilies])).bind ((ho _ (by simp [qualityFamilies])).bind ((ho _ (by simp
      [qualityFamilies])).bind ((ho _ (by simp [qualityFamilies])).bind ((ho _ (by simp [qualityFamilies])).bind ((ho _ (by simp
      [qualityFamilies])).bind ((ho _ (by simp [qualityFamilies])).bind ((ho _ (by simp [qualityFamilies])).bind (ho _ (by simp
      [qualityFamilies]))))))))))) ?_
  constructor
  · rintro ⟨h0, h1, h2, h3, h4, h5, h6, h7, h8, h9⟩
    refine ⟨h0, fun r h => ?_⟩
    simp only [qualityFamilies, List.mem_cons, List.not_mem_nil, or_false] at h
    rcases h with rfl | rfl | rfl | rfl | rfl | rfl | rfl | rfl | rfl <;> assumption
  · rintro ⟨h0, h⟩
    exact ⟨h0, h _ (by simp [qualityFamilies]), h _ (by simp [qualityFamilies]), h _ (by simp [qualityFamilies]), h _ (by simp [qualityFamilies]), h
      _ (by simp [qualityFamilies]), h _ (by simp [qualityFamilies]), h _ (by simp [qualityFamilies]), h _ (by simp [qualityFamilies]), h _ (by simp
      [qualityFamilies])⟩

/-- The voices that are counted. -/
def voicesOnce (v : Str) (l : List Script) : Prop :=
  if v = c!"E:S:." then l.Pairwise fun a b => ¬ ((OfFamily (c!"E:.-wa.-t.o.-'") a ∨ OfFamily (c!"E:.-wo.-t.o.-'") a) ∧
    (OfFamily (c!"E:.-wa.-t.o.-'") b ∨ OfFamily (c!"E:.-wo.-t.o.-'") b))
  else OnceAtMost l voiceFamily

theorem voices_two : flexionScripts [c!"E:.-wa.-t.o.-'", c!"E:.-wo.-t.o.-'"] =
    familySequences (c!"E:.-wa.-t.o.-'") ++ familySequences (c!"E:.-wo.-t.o.-'") := by decide +kernel

theorem says_voices {l : List Script} (hl : ∀ m ∈ l, WF m) {v : Str} (hv : v ∈ valenceScripts) : ∃ S, processVoices v = .ok S ∧
    Says (assertAtMostOne l S) (voicesOnce v l) := by
  unfold processVoices voicesOnce
  by_cases h1 : v = c!"E:S:."
  · rw [if_pos h1, if_pos h1]
    refine ⟨_, rfl, ?_⟩
    rw [voices_two]
    refine Says.congr (assertAtMostOne_outcome l _) ?_
    have ha : readable (c!"E:.-wa.-t.o.-'") = true := by decide +kernel
    have hb : readable (c!"E:.-wo.-t.o.-'") = true := by decide +kernel
    have e : ∀ m ∈ l, inScripts m (familySequences (c!"E:.-wa.-t.o.-'") ++ familySequences (c!"E:.-wo.-t.o.-'")) = true ↔
        (OfFamily (c!"E:.-wa.-t.o.-'") m ∨ OfFamily (c!"E:.-wo.-t.o.-'") m) := fun m hm => by
      rw [inScripts_append, family_iff ha (hl m hm), family_iff hb (hl m hm)]
    constructor
    · intro h
      refine h.imp_of_mem fun {a b} ha hb hn hab => hn ?_
      exact ⟨(e a ha).2 hab.1, (e b hb).2 hab.2⟩
    · intro h
      refine h.imp_of_mem fun {a b} ha hb hn hab => hn ?_
      exact ⟨(e a ha).1 hab.1, (e b hb).1 hab.2⟩
  · have h2 : v = c!"E:T:." ∨ v = c!"E:B:." := by
      simp only [valenceScripts, List.mem_cons, List.not_mem_nil, or_false] at hv
      rcases hv with h | h | h
      · exact absurd h h1
      · exact .inl h
      · exact .inr h
    rw [if_neg h1, if_neg h1, if_pos h2]
    exact ⟨_, rfl, says_once hl (r := voiceFamily) (by decide +kernel)⟩

theorem known_process {l : List Script} (hl : ∀ m ∈ l, WF m) : Says (assertAllIn l processFlexions) (Known (voiceFamily :: processFamilies) l) := by
  have hr : ∀ r ∈ voiceFamily :: processFamilies, readable r = true := by decide +kernel
  refine says_known hl hr fun m => ?_
  simp only [processFlexions, inScripts_append, voiceFamily, processFamilies, List.mem_cons, List.not_mem_nil, or_false, exists_eq_or_imp, exists_eq_left, or_assoc]

theorem says_process {α : Type} {l : List Script} (hl : ∀ m ∈ l, WF m) (a : Option α) {v : Str} (hv : v ∈ valenceScripts) (acts : List (Str × SF α)) :
    Says (checkFlexionProcess l (some (.process a v acts)))
      (Known (voiceFamily :: processFamilies) l ∧ voicesOnce v l ∧ ∀ r ∈ processFamilies, OnceAtMost l r) := by
  have hr : ∀ r ∈ processFamilies, readable r = true := by decide +kernel
  have ho : ∀ r ∈ processFamilies, Says (assertAtMostOne l (familySequences r)) (OnceAtMost l r) := fun r h => says_once hl (hr r h)
  obtain ⟨S, hS, hs⟩ := says_voices hl hv
  unfold checkFlexionProcess
  have step : ∀ {β γ : Type} (b : β) (f : β → Except Err γ), ((Except.ok b : Except Err β) >>= f) = f b := fun _ _ => rfl
  simp only [valenceOf, step, hS]
  refine Says.congr ((known_process hl).bind (hs.bind ((ho _ (by simp [processFamilies])).bind ((ho _ (by simp [processFamilies])).bind ((ho _ (by
      simp [processFamilies])).bind ((ho _ (by simp [processFamilies])).bind ((ho _ (by simp [processFamilies])).bind ((ho _ (by simp
      [processFamilies])).bind (ho _ (by simp [processFamilies])))))))))) ?_
  constructor
  · rintro ⟨h0, h1, h2, h3, h4, h5, h6, h7, h8⟩
    refine ⟨h0, h1, fun r h => ?_⟩
    simp only [processFamilies, List.mem_cons, List.not_mem_nil, or_false] at h
    rcases h with rfl | rfl | rfl | rfl | rfl | rfl | rfl <;> assumption
  · rintro ⟨h0, h1, h⟩
    exact ⟨h0, h1, h _ (by simp [processFamilies]), h _ (by simp [processFamilies]), h _ (by simp [processFamilies]), h _ (by simp
      [processFamilies]), h _ (by simp [processFamilies]), h _ (by simp [processFamilies]), h _ (by simp [processFamilies])⟩

end

end Verif
