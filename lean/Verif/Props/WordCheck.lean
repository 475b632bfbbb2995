import Verif.Lemmas.WordCheck
import Verif.Props.UslOrder

/-
C76: what the checks of polymorphemes, lexemes and words accept.
-/

namespace Verif
open Script

/-! ### Polymorphemes -/

/-- The morphemes of a list that are not empty, with repetitions. -/
def meantOf (l : List Script) : List Script := l.filter fun x => x.empty = false

/-- The constants `cs` and the groups `gs` form an acceptable polymorpheme: every morpheme stands for one sequence, none is
given twice, and the multiplicity of a group is 1, 2 or 3 and not more than its size. -/
structure WellMade (cs : List Script) (gs : List Group) : Prop where
  singular : ∀ x, (Meant cs x ∨ ∃ g ∈ gs, Meant g.1 x) → Singular x
  distinct : ((meantOf cs ++ gs.flatMap fun g => meantOf g.1).map str).Nodup
  mult : ∀ g ∈ gs, meantOf g.1 ≠ [] → 1 ≤ g.2 ∧ g.2 ≤ 3 ∧ g.2 ≤ (meantOf g.1).length

theorem meantOf_eq (l : List Script) : filterEmpty l = meantOf l := by
  unfold filterEmpty meantOf
  congr 1
  funext x
  cases x.empty <;> rfl

theorem resort_scripts {l : List Script} (h : ∀ x ∈ l, Good x) : (pySort lt (pySort lt l)).map str = (pySort lt l).map str := by
  refine pySort_ext (k := KK) ?_ ?_ ((pySort_perm lt l).map str)
  · intro a ha b hb
    simp only [List.mem_append, mem_pySort, or_self] at ha hb
    exact lt_KK (h a ha) (h b hb)
  · intro a ha b hb
    simp only [List.mem_append, mem_pySort, or_self] at ha hb
    exact KK_iff (h a ha) (h b hb)

theorem resort_groups {l : List Group} (h : ∀ g ∈ l, ∀ x ∈ g.1, Good x) :
    (pySort ltGroup (pySort ltGroup l)).map groupSays = (pySort ltGroup l).map groupSays := by
  refine pySort_ext (k := KG) ?_ ?_ ((pySort_perm ltGroup l).map groupSays)
  · intro a ha b hb
    simp only [List.mem_append, mem_pySort, or_self] at ha hb
    exact ltGroup_KG (h a ha) (h b hb)
  · intro a ha b hb
    simp only [List.mem_append, mem_pySort, or_self] at ha hb
    exact KG_iff (h a ha) (h b hb)

theorem eqGroups_of : ∀ {l m : List Group}, l.map groupSays = m.map groupSays →
    (l.length == m.length && (l.zip m).all fun x => eqGroup x.1 x.2) = true
  | [], [], _ => rfl
  | [], _ :: _, h => by simp at h
  | _ :: _, [], h => by simp at h
  | g :: l, g' :: m, h => by
    simp only [List.map_cons, List.cons.injEq] at h
    have ih := eqGroups_of h.2
    simp only [Bool.and_eq_true, beq_iff_eq, List.all_eq_true] at ih ⊢
    refine ⟨by simp [ih.1], ?_⟩
    intro x hx
    rw [List.zip_cons_cons, List.mem_cons] at hx
    rcases hx with rfl | hx
    · exact eqGroup_iff.2 h.1
    · exact ih.2 x hx

theorem dedup_length_iff {l : List Script} : (dedupBy str l).length = l.length ↔ (l.map str).Nodup := by
  constructor
  · intro h
    have he := (dedupBy_sublist str l).eq_of_length h
    have := dedupBy_pairwise (key := str) l
    rw [he] at this
    rwa [List.Nodup, List.pairwise_map]
  · intro h
    rw [dedupBy_of_pairwise]
    rwa [List.Nodup, List.pairwise_map] at h

theorem nrm_perm (g : Group) : (nrmGroup g).1.Perm (meantOf g.1) := by
  rw [← meantOf_eq]
  exact pySort_perm lt _

theorem shown_flat (gs : List Group) : ((shownG gs).flatMap fun g => g.1).Perm (gs.flatMap fun g => meantOf g.1) := by
  have h1 : ((shownG gs).flatMap fun g => g.1).Perm ((gs.map nrmGroup).flatMap fun g => g.1) := (pySort_perm ltGroup _).flatMap_right _
  refine h1.trans ?_
  rw [List.flatMap_map]
  exact List.Perm.flatMap_left _ fun g _ => nrm_perm g

/-- The three tests of the order always succeed. -/
theorem check_core {cs : List Script} {gs : List Group} (hc : ∀ x ∈ cs, Orderly x) (hg : ∀ g ∈ gs, ∀ x ∈ g.1, Orderly x) :
    (mkPM cs gs).check = true ↔ (∀ g ∈ shownG gs, g.1 ≠ [] → 1 ≤ g.2 ∧ g.2 ≤ 3 ∧ g.2 ≤ g.1.length) ∧
      (((mkPM cs gs).constant ++ (shownG gs).flatMap fun g => g.1).map str).Nodup ∧
      ∀ x ∈ (mkPM cs gs).constant ++ (shownG gs).flatMap fun g => g.1, x.cardinal = 1 := by
  have ok : OkPM (mkPM cs gs) := ⟨cs, gs, rfl, hc, hg⟩
  have gg := ok.good.2
  have eg : (mkPM cs gs).groups = shownG gs := rfl
  rw [eg] at gg
  have t1 : ((pySort ltGroup (shownG gs)).length == (shownG gs).length &&
      ((pySort ltGroup (shownG gs)).zip (shownG gs)).all fun x => eqGroup x.1 x.2) = true := by
    refine eqGroups_of (resort_groups ?_)
    intro g hg' x hx
    exact gg g (by rw [shownG, mem_pySort]; exact hg') x hx
  have t2 : (shownG gs).all (fun g => eqTuple (pySort lt g.1) g.1) = true := by
    rw [List.all_eq_true]
    intro g hg'
    rw [eqTuple, beq_iff_eq]
    have := gg g hg'
    rw [shownG, mem_pySort] at hg'
    obtain ⟨g0, _, rfl⟩ := List.mem_map.1 hg'
    exact resort_scripts fun x hx => this x (by rw [nrmGroup, mem_pySort]; exact hx)
  have t5 : eqTuple (pySort lt (mkPM cs gs).constant) (mkPM cs gs).constant = true := by
    rw [eqTuple, beq_iff_eq]
    rcases constant_cases cs gs with h | h
    · rw [h.1]
      refine resort_scripts fun x hx => ?_
      rw [mem_filterEmpty] at hx
      exact (hc x hx.1).good hx.2
    · rw [h.1]
      rfl
  unfold PM.check
  dsimp only
  rw [eg, t1, t2, t5, Bool.true_and, Bool.true_and, Bool.and_true]
  have ef : ((mkPM cs gs).constant :: (shownG gs).map (·.1)).flatten = (mkPM cs gs).constant ++ (shownG gs).flatMap fun g => g.1 := by
    rw [List.flatten_cons, List.flatMap_def]
  rw [ef, ← List.length_flatten, ef]
  simp only [Bool.and_eq_true, beq_iff_eq, List.all_eq_true, Bool.or_eq_true, decide_eq_true_eq, List.isEmpty_iff]
  rw [dedup_length_iff]
  constructor
  · rintro ⟨⟨⟨h3, h4⟩, h6⟩, h7⟩
    refine ⟨fun g hg' hne => ?_, h6, ?_⟩
    · have a := (h3 g hg').resolve_left hne
      have b := (h4 g hg').resolve_left hne
      omega
    · have h8 := h6
      rw [List.Nodup, List.pairwise_map] at h8
      rwa [dedupBy_of_pairwise (key := str) h8] at h7
  · rintro ⟨h3, h6, h7⟩
    refine ⟨⟨⟨fun g hg' => ?_, fun g hg' => ?_⟩, h6⟩, fun x hx => h7 x (mem_dedupBy (key := str) hx)⟩
    · by_cases hne : g.1 = []
      · exact .inl hne
      · have := h3 g hg' hne
        exact .inr (by omega)
    · by_cases hne : g.1 = []
      · exact .inl hne
      · exact .inr (h3 g hg' hne).2.2

/-- **C76, polymorphemes.** The check accepts exactly the polymorphemes made of morphemes that stand for one sequence each, none
of them given twice, with multiplicities between 1 and 3 that do not exceed the sizes of the groups.  Missing: morphemes that are
sums of one term standing for several sequences, among which `<` is not an order. -/
theorem C76_polymorpheme_partial {cs : List Script} {gs : List Group} (hc : ∀ x ∈ cs, Orderly x) (hg : ∀ g ∈ gs, ∀ x ∈ g.1, Orderly x) :
    (mkPM cs gs).check = true ↔ WellMade cs gs := by
  rw [check_core hc hg]
  have ok : OkPM (mkPM cs gs) := ⟨cs, gs, rfl, hc, hg⟩
  have gg := ok.good.2
  have hm : (∀ g ∈ shownG gs, g.1 ≠ [] → 1 ≤ g.2 ∧ g.2 ≤ 3 ∧ g.2 ≤ g.1.length) ↔
      ∀ g ∈ gs, meantOf g.1 ≠ [] → 1 ≤ g.2 ∧ g.2 ≤ 3 ∧ g.2 ≤ (meantOf g.1).length := by
    have hx : ∀ g : Group, ((nrmGroup g).1 ≠ [] ↔ meantOf g.1 ≠ []) ∧ (nrmGroup g).1.length = (meantOf g.1).length := fun g =>
      ⟨not_congr ⟨fun h => by simpa [h] using (nrm_perm g).symm, fun h => by simpa [h] using nrm_perm g⟩, (nrm_perm g).length_eq⟩
    constructor
    · intro h g hg' hne
      have := h (nrmGroup g) (by rw [shownG, mem_pySort]; exact List.mem_map_of_mem hg') ((hx g).1.2 hne)
      rw [(hx g).2] at this
      exact this
    · intro h g hg' hne
      rw [shownG, mem_pySort] at hg'
      obtain ⟨g0, h0, rfl⟩ := List.mem_map.1 hg'
      rw [(hx g0).2]
      exact h g0 h0 ((hx g0).1.1 hne)
  have hfl := shown_flat gs
  have hsc : (shownC cs).Perm (meantOf cs) := by
    rw [← meantOf_eq]
    exact pySort_perm lt _
  have hnull : ∀ x ∈ (shownG gs).flatMap fun g => g.1, (null 0).str ≠ x.str := by
    intro x hx
    obtain ⟨g, hg', hx⟩ := List.mem_flatMap.1 hx
    exact null_str_ne (gg g hg' x hx)
  have hn : (((mkPM cs gs).constant ++ (shownG gs).flatMap fun g => g.1).map str).Nodup ↔
      ((meantOf cs ++ gs.flatMap fun g => meantOf g.1).map str).Nodup := by
    rw [← ((hsc.append hfl).map str).nodup_iff]
    rcases constant_cases cs gs with h | h
    · rw [h.1]
    · rw [h.1, h.2, List.nil_append, List.singleton_append, List.map_cons, List.nodup_cons, and_iff_right]
      intro hmem
      obtain ⟨x, hx, e⟩ := List.mem_map.1 hmem
      exact hnull x hx e.symm
  have hs : (∀ x ∈ (mkPM cs gs).constant ++ (shownG gs).flatMap fun g => g.1, x.cardinal = 1) ↔
      ∀ x, (Meant cs x ∨ ∃ g ∈ gs, Meant g.1 x) → Singular x := by
    have h1 : ∀ x, (Meant cs x ∨ ∃ g ∈ gs, Meant g.1 x) ↔ x ∈ shownC cs ++ (shownG gs).flatMap fun g => g.1 := by
      intro x
      rw [List.mem_append, mem_shownC, hfl.mem_iff, List.mem_flatMap]
      simp [Meant, meantOf]
    have h2 : ∀ x ∈ shownC cs ++ (shownG gs).flatMap fun g => g.1, Singular x ↔ x.cardinal = 1 := by
      intro x hx
      refine singular_iff ?_
      rcases (h1 x).2 hx with h | ⟨g, hg', h⟩
      · exact built_wf (hc x h.1).1
      · exact built_wf (hg g hg' x h.1).1
    have h3 : (∀ x ∈ (mkPM cs gs).constant ++ (shownG gs).flatMap fun g => g.1, x.cardinal = 1) ↔
        ∀ x ∈ shownC cs ++ (shownG gs).flatMap fun g => g.1, x.cardinal = 1 := by
      rcases constant_cases cs gs with h | h
      · rw [h.1]
      · rw [h.1, h.2]
        simp [cardinal]
    rw [h3]
    exact ⟨fun h x hx => (h2 x ((h1 x).1 hx)).2 (h x ((h1 x).1 hx)), fun h x hx => (h2 x hx).1 (h x ((h1 x).2 hx))⟩
  rw [hm, hn, hs]
  exact ⟨fun h => ⟨h.2.2, h.2.1, h.1⟩, fun h => ⟨h.mult, h.distinct, h.singular⟩⟩

-- Two constants and a group of three morphemes of which two are taken; a group larger than allowed, a repetition and a paradigm are refused.
example : WellMade [.prim .A, .prim .S] [([.prim .B, .prim .T, .null 0], 2)] ∧ ¬ WellMade [] [([.prim .B, .prim .T], 3)] ∧
    ¬ WellMade [.prim .A] [([.prim .A, .prim .T], 1)] ∧ ¬ WellMade [.add [.prim .A, .prim .S]] [] := by
  have op : ∀ p : Prim, Orderly (.prim p) := orderly_prim
  have on : Orderly (.null 0) := ⟨built_of (by decide +kernel), .inl (fun _ h => by cases h)⟩
  have ha : Orderly (.add [.prim .A, .prim .S]) := ⟨built_of (by decide +kernel), .inl (fun _ h => by simp at h)⟩
  refine ⟨(C76_polymorpheme_partial ?_ ?_).1 (by decide +kernel), fun h => ?_, fun h => ?_, fun h => ?_⟩
  · simp [op]
  · simp [op, on]
  · exact absurd ((C76_polymorpheme_partial (by simp) (by simp [op])).2 h) (by decide +kernel)
  · exact absurd ((C76_polymorpheme_partial (by simp [op]) (by simp [op])).2 h) (by decide +kernel)
  · exact absurd ((C76_polymorpheme_partial (by simp [ha]) (by simp)).2 h) (by decide +kernel)

/-! ### Lexemes -/

/-- A lexeme made of two acceptable polymorphemes. -/
def SoundLexeme (x : Lexeme) : Prop :=
  ∃ cs gs cs' gs', x = mkLexeme (mkPM cs gs) (mkPM cs' gs') ∧ (∀ m ∈ cs ++ cs', Orderly m) ∧ (∀ g ∈ gs ++ gs', ∀ m ∈ g.1, Orderly m) ∧
    WellMade cs gs ∧ WellMade cs' gs'

/-- **C76, lexemes.** `check_lexeme` accepts exactly the lexemes made of two acceptable polymorphemes. -/
theorem C76_lexeme_partial {x : Lexeme} (h : OkLex x) : x.check = true ↔ SoundLexeme x := by
  constructor
  · intro hc
    obtain ⟨f, c, rfl, ⟨cs, gs, rfl, h1, h2⟩, cs', gs', rfl, h3, h4⟩ := h
    obtain ⟨k1, k2⟩ : (mkPM cs gs).check = true ∧ (mkPM cs' gs').check = true := by
      simpa [Lexeme.check, mkLexeme] using hc
    refine ⟨cs, gs, cs', gs', rfl, ?_, ?_, (C76_polymorpheme_partial h1 h2).1 k1, (C76_polymorpheme_partial h3 h4).1 k2⟩
    · intro m hm
      exact (List.mem_append.1 hm).elim (h1 m) (h3 m)
    · intro g hg
      exact (List.mem_append.1 hg).elim (h2 g) (h4 g)
  · rintro ⟨cs, gs, cs', gs', rfl, h1, h2, k1, k2⟩
    have e1 := (C76_polymorpheme_partial (fun m hm => h1 m (by simp [hm])) (fun g hg => h2 g (by simp [hg]))).2 k1
    have e2 := (C76_polymorpheme_partial (fun m hm => h1 m (by simp [hm])) (fun g hg => h2 g (by simp [hg]))).2 k2
    simp [Lexeme.check, mkLexeme, e1, e2]

example : SoundLexeme demoLex2 ∧ SoundLexeme demoLex3 :=
  ⟨(C76_lexeme_partial okLex_demo.1).1 (by decide +kernel), (C76_lexeme_partial okLex_demo.2).1 (by decide +kernel)⟩

/-! ### Words -/

theorem expandAt_mem {α : Type} {l : List (Addr × SF α)} {a : Addr} {m : List Addr} (h : expandAt l a = .ok m) : a ∈ l.map (·.1) := by
  unfold expandAt at h
  split at h
  · cases h
  · next e he =>
    have h1 : e.1 = a := by simpa using List.find?_some he
    exact h1 ▸ List.mem_map_of_mem (List.mem_of_find?_eq_some he)

theorem expansion_mem {α : Type} {f : SFun α} {a : Addr} {m : List Addr} (h : f.expansion a = .ok m) : a ∈ f.addrs := by
  cases f with
  | quality f => exact expandAt_mem h
  | process x v acts =>
    rw [SFun.expansion] at h
    split at h
    · next e => simp [SFun.addrs, e]
    · exact List.mem_cons_of_mem _ (expandAt_mem h)

theorem mkWord_parts {f : SFun Lexeme} {role : Addr} {t : SType} {w : WordUsl} (h : mkWord f role t = .ok w) :
    w.sfun = f ∧ w.role = role ∧ w.context = t ∧ role.drop t.pre.length ∈ f.addrs := by
  unfold mkWord at h
  rw [bind_ok] at h
  obtain ⟨text, h1, h⟩ := h
  rw [bind_ok] at h
  obtain ⟨c, h2, h⟩ := h
  rw [pure_ok] at h
  subst h
  unfold SFun.render at h1
  rw [bind_ok] at h1
  obtain ⟨m, h3, _⟩ := h1
  exact ⟨rfl, rfl, rfl, expansion_mem h3⟩

/-- **C76, words.** A word made of a function read from a list, with a role that begins as those of its context, is accepted exactly
when every role that is not a junction holds an acceptable lexeme: nothing else is checked.  Missing: lexemes with sums of one
term. -/
theorem C76_word_partial {l : List (RoleEntry Lexeme)} {t : SType} {f : SFun Lexeme} {role : Addr} {w : WordUsl} (hf : fromList l = .ok (t, f))
    (hw : mkWord f role t = .ok w) (hr : t.pre <+: role) (hl : ∀ e ∈ f.asList t, ∀ x, e.2 = some x → OkLex x) :
    w.check = true ↔ ∀ e ∈ f.asList t, ∃ x, e.2 = some x ∧ SoundLexeme x := by
  have ok := fromList_shape hf
  obtain ⟨e1, e2, _, hm⟩ := mkWord_parts hw
  obtain ⟨a, rfl⟩ := hr
  rw [List.drop_left] at hm
  unfold WordUsl.check
  rw [e1, e2, okFun_role ok hm, Bool.true_and, okFun_check ok]
  rw [asList_items] at hl ⊢
  unfold Filled
  constructor
  · intro h e he
    obtain ⟨y, hy, rfl⟩ := List.mem_map.1 he
    obtain ⟨x, hx, hc⟩ := h y hy
    exact ⟨x, hx, (C76_lexeme_partial (hl _ he x hx)).1 hc⟩
  · intro h e he
    have he' := List.mem_map_of_mem (f := pushAddr t.pre) he
    obtain ⟨x, hx, hc⟩ := h _ he'
    exact ⟨x, hx, (C76_lexeme_partial (hl _ he' x hx)).2 hc⟩

/-- The word read from a list. -/
def readWord (l : List (RoleEntry Lexeme)) (role : Addr) : Except Err WordUsl := do
  let f ← fromList l
  mkWord f.2 role f.1

-- Words with a junction, with two lexemes and with a role below another are accepted.
example : (readWord demoJunction [c!"E:T:."]).map WordUsl.check = .ok true ∧ (readWord demoPlain [c!"E:.n.-"]).map WordUsl.check = .ok true ∧
    (readWord [([dependantQuality], some demoLex2), ([dependantQuality, independantQuality], some demoLex3)]
      [dependantQuality, independantQuality]).map WordUsl.check = .ok true := by decide +kernel

/-- **C76: the reader accepts words that the check refuses**: a word without a lexeme at the place which another one qualifies, one
with a multiplicity larger than its group, and one with a paradigm as morpheme. -/
theorem C76_violated_read :
    ∀ s ∈ [c!"[! E:A:. E:A:. (A:)]", c!"[! E:A:. (m2(A:))]", c!"[! E:A:. (O:)]"],
      ∃ w ds, uslRead s = .ok (.word w, ds) ∧ w.check = false := by
  intro s hs
  have key : (match uslRead s with | .ok (.word w, _) => !w.check | _ => false) = true := by
    simp only [List.mem_cons, List.not_mem_nil, or_false] at hs
    rcases hs with rfl | rfl | rfl <;> decide +kernel
  split at key
  · next w ds h => exact ⟨w, ds, h, by simpa using key⟩
  · cases key

/-- **C76: the check accepts words whose role is not one of theirs**: the first script of the role is never compared with the context.  The
grammatical class of this word, whose only lexeme is at `E:A:.`, is that of the qualities. -/
theorem C76_violated_role : ∃ f w, fromList [([dependantQuality], some demoLex2)] = .ok (.dependant, f) ∧
    mkWord f [independantQuality] .dependant = .ok w ∧ w.check = true ∧ w.gramClass = c!"E:.b.E:T:.-" ∧
    w.text = c!"[! E:A:.  ()(A: m1(S:))]" ∧ (∀ e ∈ f.asList .dependant, ¬ w.role <+: e.1) := by
  refine ⟨.quality (.dep (some demoLex2) none none), _, rfl, rfl, ?_⟩
  decide +kernel

end Verif
