import Verif.Lemmas.FlexionCheck

/-
C105: the checks of flexions accept exactly the flexions made of morphemes of the families of the role, at most one of each.
-/

namespace Verif
open Script

/-- The flexions of actants and dependant qualities are accepted exactly when they are made of morphemes of the families of actants, at most one of
each, and of empty morphemes; otherwise `ValueError` is raised. -/
theorem C105_actant {l : List Script} (hl : ∀ m ∈ l, Built m) :
    (FlexionOf actantFamilies l ∧ checkFlexionActant l = .ok ()) ∨ (¬ FlexionOf actantFamilies l ∧ checkFlexionActant l = .error .valueError) := by
  rcases says_actant fun m hm => built_wf (hl m hm) with h | h
  · exact .inl ⟨h.2, h.1⟩
  · exact .inr ⟨h.2, h.1⟩

/-- The same for independant qualities. -/
theorem C105_quality {l : List Script} (hl : ∀ m ∈ l, Built m) :
    (FlexionOf qualityFamilies l ∧ checkFlexionQuality l = .ok ()) ∨ (¬ FlexionOf qualityFamilies l ∧ checkFlexionQuality l = .error .valueError) := by
  rcases says_quality fun m hm => built_wf (hl m hm) with h | h
  · exact .inl ⟨h.2, h.1⟩
  · exact .inr ⟨h.2, h.1⟩

/-- The same for processes with two or three actants.  Missing: processes with one actant (`C105_violated_voices`). -/
theorem C105_process_partial {α : Type} {l : List Script} (hl : ∀ m ∈ l, Built m) (a : Option α) {v : Str} (hv : v = c!"E:T:." ∨ v = c!"E:B:.")
    (acts : List (Str × SF α)) :
    (FlexionOf (voiceFamily :: processFamilies) l ∧ checkFlexionProcess l (some (.process a v acts)) = .ok ()) ∨
    (¬ FlexionOf (voiceFamily :: processFamilies) l ∧ checkFlexionProcess l (some (.process a v acts)) = .error .valueError) := by
  have hv1 : v ∈ valenceScripts := by rcases hv with rfl | rfl <;> simp [valenceScripts]
  have hv2 : v ≠ c!"E:S:." := by rcases hv with rfl | rfl <;> decide
  have e : (Known (voiceFamily :: processFamilies) l ∧ voicesOnce v l ∧ ∀ r ∈ processFamilies, OnceAtMost l r) ↔ FlexionOf (voiceFamily :: processFamilies) l := by
    rw [voicesOnce, if_neg hv2]
    exact ⟨fun h => ⟨h.1, List.forall_mem_cons.2 h.2⟩, fun h => ⟨h.known, List.forall_mem_cons.1 h.once⟩⟩
  rcases (says_process (fun m hm => built_wf (hl m hm)) a hv1 acts).congr e with h | h
  · exact .inl ⟨h.2, h.1⟩
  · exact .inr ⟨h.2, h.1⟩

/-- Processes with one actant: among the voices only active and passive are counted. -/
theorem C105_process_one {α : Type} {l : List Script} (hl : ∀ m ∈ l, Built m) (a : Option α) (acts : List (Str × SF α)) :
    let ok := (∀ m ∈ l, Void m ∨ ∃ r ∈ voiceFamily :: processFamilies, OfFamily r m) ∧ (∀ r ∈ processFamilies, OnceAtMost l r) ∧
      l.Pairwise fun x y => ¬ ((OfFamily (c!"E:.-wa.-t.o.-'") x ∨ OfFamily (c!"E:.-wo.-t.o.-'") x) ∧
        (OfFamily (c!"E:.-wa.-t.o.-'") y ∨ OfFamily (c!"E:.-wo.-t.o.-'") y))
    (ok ∧ checkFlexionProcess l (some (.process a (c!"E:S:.") acts)) = .ok ()) ∨
    (¬ ok ∧ checkFlexionProcess l (some (.process a (c!"E:S:.") acts)) = .error .valueError) := by
  intro ok
  have h := says_process (fun m hm => built_wf (hl m hm)) a (v := c!"E:S:.") (by simp [valenceScripts]) acts
  rw [voicesOnce, if_pos rfl] at h
  rcases h with h | h
  · exact .inl ⟨⟨h.2.1, h.2.2.2, h.2.2.1⟩, h.1⟩
  · exact .inr ⟨fun k => h.2 ⟨k.1, k.2.2, k.2.1⟩, h.1⟩

/-- Without a process to look at, or with a process of another valence, the check of the flexions of processes raises: `ValueError` if a
morpheme is of no family, and otherwise `AttributeError` and `KeyError`. -/
theorem C105_process_errors {α : Type} {l : List Script} (hl : ∀ m ∈ l, Built m) :
    let known := ∀ m ∈ l, Void m ∨ ∃ r ∈ voiceFamily :: processFamilies, OfFamily r m
    (∀ f : Option (SFun α), (∀ a v acts, f ≠ some (.process a v acts)) →
      (known → checkFlexionProcess l f = .error .attributeError) ∧ (¬ known → checkFlexionProcess l f = .error .valueError)) ∧
    (∀ (a : Option α) v acts, v ∉ valenceScripts →
      (known → checkFlexionProcess l (some (.process a v acts)) = .error .keyError) ∧
      (¬ known → checkFlexionProcess l (some (.process a v acts)) = .error .valueError)) := by
  intro known
  have hk : Says (assertAllIn l processFlexions) known := known_process fun m hm => built_wf (hl m hm)
  constructor
  · intro f hf
    have hv : valenceOf f = .error .attributeError := by
      unfold valenceOf
      split
      · exact absurd rfl (hf _ _ _)
      · rfl
    rcases hk with ⟨h, k⟩ | ⟨h, k⟩ <;> unfold checkFlexionProcess <;> rw [h]
    · refine ⟨fun _ => ?_, fun n => absurd k n⟩
      rw [hv]
      rfl
    · exact ⟨fun n => absurd n k, fun _ => rfl⟩
  · intro a v acts hv
    have hp : processVoices v = .error .keyError := by
      simp only [valenceScripts, List.mem_cons, List.not_mem_nil, or_false, not_or] at hv
      unfold processVoices
      rw [if_neg hv.1, if_neg (by simp only [not_or]; exact hv.2)]
    rcases hk with ⟨h, k⟩ | ⟨h, k⟩ <;> unfold checkFlexionProcess <;> rw [h]
    · refine ⟨fun _ => ?_, fun n => absurd k n⟩
      show (processVoices v >>= _) = _
      rw [hp]
      rfl
    · exact ⟨fun n => absurd n k, fun _ => rfl⟩

/-- `check_lexeme_scripts` chooses the check by the class of the function, accepts everything without a function, refuses junctions, and never
looks at the content. -/
theorem C105_lexeme {α : Type} (pf pc : List Script) :
    (∀ (a : Option α) v acts, checkLexemeScripts pf pc (some (.process a v acts)) = checkFlexionProcess pf (some (.process a v acts))) ∧
    (∀ (a : Option α) d i, checkLexemeScripts pf pc (some (.quality (.dep a d i))) = checkFlexionActant pf) ∧
    (∀ a : Option α, checkLexemeScripts pf pc (some (.quality (.indep a))) = checkFlexionQuality pf) ∧
    (∀ k (fs : List (SF α)), checkLexemeScripts pf pc (some (.quality (.junction k fs))) = .error .valueError) ∧
    checkLexemeScripts pf pc (none : Option (SFun α)) = .ok () ∧
    ∀ (pc' : List Script) (f : Option (SFun α)), checkLexemeScripts pf pc' f = checkLexemeScripts pf pc f :=
  ⟨fun _ _ _ => rfl, fun _ _ _ => rfl, fun _ => rfl, fun _ _ => rfl, rfl, fun _ _ => rfl⟩

/-- The families have no word in common: a morpheme is of one family at most. -/
theorem C105_one_family {m : Script} (hm : Built m) {r r' : Str} (hr : r ∈ voiceFamily :: processFamilies ++ actantFamilies)
    (hr' : r' ∈ voiceFamily :: processFamilies ++ actantFamilies) (h : OfFamily r m) (h' : OfFamily r' m) : r = r' := by
  have sub : ∀ r ∈ voiceFamily :: processFamilies ++ actantFamilies, r ∈ flexionFamilies := by decide +kernel
  have k : ∀ r ∈ voiceFamily :: processFamilies ++ actantFamilies, OfFamily r m → inFamily r m.str = true := fun r hr h => by
    have := (family_iff (families_read r (sub r hr)) (built_wf hm)).2 h
    exact this
  exact family_unique (sub r hr) (sub r' hr') (k r hr h) (k r' hr' h')

/-- Empty morphemes are of no family. -/
theorem C105_void {m : Script} (hm : Built m) {r : Str} (hr : r ∈ voiceFamily :: processFamilies ++ actantFamilies) (h : Void m) : ¬ OfFamily r m := by
  intro hf
  have sub : ∀ r ∈ voiceFamily :: processFamilies ++ actantFamilies, r ∈ flexionFamilies := by decide +kernel
  have none : ∀ r ∈ flexionFamilies, ∀ x ∈ familySequences r, x.empty = false := by decide +kernel
  obtain ⟨x, hx, he⟩ := inScripts_iff.1 ((family_iff (families_read r (sub r hr)) (built_wf hm)).2 hf)
  obtain ⟨p, hp⟩ := readable_iff.1 (families_read r (sub r hr))
  obtain ⟨L, e⟩ := enum_exists (parse_wf hp)
  have hL : familySequences r = L := by
    unfold familySequences
    rw [hp]
    show (match singularSequences p with | .ok l => l | .error _ => []) = L
    rw [e.run]
  have h1 := empty_of_str (e.wf x (hL ▸ hx)) (built_wf hm) he
  rw [none r (sub r hr) x hx, (void_iff (built_wf hm)).2 h] at h1
  cases h1

/-- Neither the order of the morphemes nor empty ones matter, and a part of a flexion of a role is one. -/
theorem C105_parts {rs : List Str} {l l' : List Script} (h : FlexionOf rs l) :
    (l'.Perm l → FlexionOf rs l') ∧ (l'.Sublist l → FlexionOf rs l') ∧
    ((∀ r ∈ rs, r ∈ voiceFamily :: processFamilies ++ actantFamilies) → ∀ k : List Script, (∀ m ∈ k, Built m ∧ Void m) → FlexionOf rs (k ++ l)) := by
  refine ⟨fun p => ⟨fun m hm => h.known m (p.mem_iff.1 hm), fun r hr => ?_⟩,
    fun p => ⟨fun m hm => h.known m (p.subset hm), fun r hr => (h.once r hr).sublist p⟩, fun hrs k hk => ⟨fun m hm => ?_, fun r hr => ?_⟩⟩
  · exact (p.pairwise_iff fun hn hab => hn ⟨hab.2, hab.1⟩).2 (h.once r hr)
  · rcases List.mem_append.1 hm with hm | hm
    · exact .inl (hk m hm).2
    · exact h.known m hm
  · refine List.pairwise_append.2 ⟨?_, h.once r hr, fun a ha b _ hab => C105_void (hk a ha).1 (hrs r hr) (hk a ha).2 hab.1⟩
    exact List.pairwise_of_forall_mem_list fun a ha b _ hab => C105_void (hk a ha).1 (hrs r hr) (hk a ha).2 hab.1

/-- The script of a text that is read. -/
def flexionDemo (t : Str) : Script := (flexionScripts [t]).headD (.null 0)

theorem flexionDemo_built : ∀ t ∈ [c!"E:.-wa.-t.o.-'", c!"E:.-wu.-t.o.-'", c!"E:.-we.-t.o.-'", c!"E:S:.-d.u.-'", c!"E:.wo.-", c!"E:.wa.-", c!"E:A:.", c!"E:"],
    Built (flexionDemo t) := by
  intro t ht
  have hp : ∀ t ∈ [c!"E:.-wa.-t.o.-'", c!"E:.-wu.-t.o.-'", c!"E:.-we.-t.o.-'", c!"E:S:.-d.u.-'", c!"E:.wo.-", c!"E:.wa.-", c!"E:A:.", c!"E:"],
      parseScript t = .ok (flexionDemo t) := by decide +kernel
  exact wf_built (parse_wf (hp t ht))

/-- Definition and number: a flexion of actants. -/
example : FlexionOf actantFamilies [flexionDemo (c!"E:S:.-d.u.-'"), flexionDemo (c!"E:"), flexionDemo (c!"E:.wo.-")] := by
  rcases C105_actant (l := [flexionDemo (c!"E:S:.-d.u.-'"), flexionDemo (c!"E:"), flexionDemo (c!"E:.wo.-")])
    (by simpa using ⟨flexionDemo_built _ (by simp), flexionDemo_built _ (by simp), flexionDemo_built _ (by simp)⟩) with h | h
  · exact h.1
  · exact absurd h.2 (by decide +kernel)

/-- Two numbers: not one. -/
example : ¬ FlexionOf actantFamilies [flexionDemo (c!"E:.wa.-"), flexionDemo (c!"E:.wo.-")] := by
  rcases C105_actant (l := [flexionDemo (c!"E:.wa.-"), flexionDemo (c!"E:.wo.-")])
    (by simpa using ⟨flexionDemo_built _ (by simp), flexionDemo_built _ (by simp)⟩) with h | h
  · exact absurd h.2 (by decide +kernel)
  · exact h.1

/-- A definition is a flexion of qualities, a number is not. -/
example : checkFlexionQuality [flexionDemo (c!"E:S:.-d.u.-'")] = .ok () ∧ checkFlexionQuality [flexionDemo (c!"E:.wo.-")] = .error .valueError := by
  decide +kernel

/-- A voice and a process with two actants. -/
example : FlexionOf (voiceFamily :: processFamilies) [flexionDemo (c!"E:.-wu.-t.o.-'")] := by
  rcases C105_process_partial (α := Unit) (l := [flexionDemo (c!"E:.-wu.-t.o.-'")]) (by simpa using flexionDemo_built _ (by simp)) none (v := c!"E:T:.") (.inl rfl) [] with h | h
  · exact h.1
  · exact absurd h.2 (by decide +kernel)

/-- With one actant two voices are accepted, with two they are refused: the claim is false for processes with one actant. -/
theorem C105_violated_voices : ∃ l : List Script, (∀ m ∈ l, Built m) ∧ ¬ FlexionOf (voiceFamily :: processFamilies) l ∧
    checkLexemeScripts l [] (some (.process (none : Option Unit) (c!"E:S:.") [])) = .ok () ∧
    checkLexemeScripts l [] (some (.process (none : Option Unit) (c!"E:T:.") [])) = .error .valueError := by
  have hb : ∀ m ∈ [flexionDemo (c!"E:.-wu.-t.o.-'"), flexionDemo (c!"E:.-we.-t.o.-'")], Built m := by
    simpa using ⟨flexionDemo_built _ (by simp), flexionDemo_built _ (by simp)⟩
  refine ⟨_, hb, ?_, by decide +kernel, by decide +kernel⟩
  rcases C105_process_partial (α := Unit) hb none (v := c!"E:T:.") (.inl rfl) [] with h | h
  · exact absurd h.2 (by decide +kernel)
  · exact h.1

/-- The content is not looked at: two numbers there are accepted. -/
example : checkLexemeScripts [] [flexionDemo (c!"E:.wa.-"), flexionDemo (c!"E:.wo.-")] (some (.quality (.indep (none : Option Unit)))) = .ok () := by decide +kernel

/-- A flexion of actants for a process without its function, and with a wrong valence. -/
example : checkFlexionProcess [flexionDemo (c!"E:.-wu.-t.o.-'")] (none : Option (SFun Unit)) = .error .attributeError ∧
    checkFlexionProcess [flexionDemo (c!"E:.-wu.-t.o.-'")] (some (.process (none : Option Unit) (c!"E:A:.") [])) = .error .keyError := by decide +kernel

end Verif
