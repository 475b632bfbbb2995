import Verif.Lemmas.UslParse

/-
C47: the texts of polymorphemes and lexemes read back.
-/

namespace Verif
open Script

/-- The text of a script does not start like the grammatical class of the former words, `E:.b.E:X:.-` for a character `X`. -/
def NotOldClass (x : Script) : Prop := ∀ c r, x.str ≠ c!"E:.b.E:" ++ c :: (c!":.-" ++ r)

theorem readable_of {x : Script} (h : NotOldClass x) : Readable x := by
  unfold Readable
  generalize he : x.str = s
  unfold oldPrefix
  split
  · rename_i c r
    exact absurd he (h c r)
  · rfl

/-- The morphemes and groups whose texts are treated by the theorems below: the morphemes are buildable (see `Orderly`), the ones
that are not empty do not start like an old grammatical class, and no group is without morphemes. -/
structure Legible (cs : List Script) (gs : List Group) : Prop where
  constant : ∀ x ∈ cs, Orderly x ∧ (x.empty = false → NotOldClass x)
  groups : ∀ g ∈ gs, ∀ x ∈ g.1, Orderly x ∧ (x.empty = false → NotOldClass x)
  full : ∀ g ∈ gs, ∃ x ∈ g.1, x.empty = false

/-- The morphemes written in the text. -/
def shownC (cs : List Script) : List Script := pySort lt (filterEmpty cs)

/-- The groups written in the text. -/
def shownG (gs : List Group) : List Group := pySort ltGroup (gs.map nrmGroup)

theorem mkPM_text (cs : List Script) (gs : List Group) :
    (mkPM cs gs).text = joinSpace ((shownC cs).map str ++ (shownG gs).map groupText) := rfl

theorem mem_shownC {cs : List Script} {x : Script} : x ∈ shownC cs ↔ x ∈ cs ∧ x.empty = false := by
  rw [shownC, mem_pySort, mem_filterEmpty]

theorem mem_shownG {gs : List Group} {g : Group} (h : g ∈ shownG gs) :
    ∃ g' ∈ gs, g.2 = g'.2 ∧ ∀ x, x ∈ g.1 ↔ x ∈ g'.1 ∧ x.empty = false := by
  rw [shownG, mem_pySort] at h
  obtain ⟨g', hg', rfl⟩ := List.mem_map.1 h
  exact ⟨g', hg', rfl, fun x => by rw [nrmGroup, mem_pySort, mem_filterEmpty]⟩

theorem Legible.wfC {cs : List Script} {gs : List Group} (h : Legible cs gs) : ∀ m ∈ shownC cs, WF m ∧ Readable m := by
  intro m hm
  rw [mem_shownC] at hm
  exact ⟨built_wf (h.constant m hm.1).1.1, readable_of ((h.constant m hm.1).2 hm.2)⟩

theorem Legible.wfG {cs : List Script} {gs : List Group} (h : Legible cs gs) : ∀ g ∈ shownG gs, ∀ m ∈ g.1, WF m ∧ Readable m := by
  intro g hg m hm
  obtain ⟨g', hg', _, he⟩ := mem_shownG hg
  rw [he] at hm
  exact ⟨built_wf (h.groups g' hg' m hm.1).1.1, readable_of ((h.groups g' hg' m hm.1).2 hm.2)⟩

theorem Legible.fullG {cs : List Script} {gs : List Group} (h : Legible cs gs) : ∀ g ∈ shownG gs, g.1 ≠ [] := by
  intro g hg e
  obtain ⟨g', hg', _, he⟩ := mem_shownG hg
  obtain ⟨x, hx, hx'⟩ := h.full g' hg'
  have := (he x).2 ⟨hx, hx'⟩
  rw [e] at this
  cases this

theorem Legible.lexes {cs : List Script} {gs : List Group} (h : Legible cs gs) :
    Lexes (mkPM cs gs).text (pmToks (shownC cs) (shownG gs)) := lexes_pm h.wfC h.wfG

theorem readList_orderly {ms ms' : List Script} (h : ∀ m ∈ ms, WF m) (hr : ReadList ms ms') : ∀ x ∈ ms', Orderly x := by
  intro x hx
  obtain ⟨m, hm, hmx⟩ := forall₂_mem_right hr hx
  obtain ⟨h1, _, h3⟩ := read_same (h m hm) hmx
  exact ⟨wf_built h1, Or.inl h3⟩

/-- Filtering the empty morphemes and taking the texts does not change by reading. -/
theorem readList_shown {ms ms' : List Script} (h : ∀ m ∈ ms, WF m) (hr : ReadList ms ms') :
    (ms'.filter fun x => x.empty = false).map str = (ms.filter fun x => x.empty = false).map str := by
  induction hr with
  | nil => rfl
  | @cons m t ms ms' h1 _ ih =>
    obtain ⟨a, b, _⟩ := read_same (h m (by simp)) h1
    have ih := ih fun x hx => h x (List.mem_cons_of_mem _ hx)
    have he := empty_of_str a (h m (by simp)) b
    rw [List.filter_cons, List.filter_cons, he]
    split
    · rw [List.map_cons, List.map_cons, ih, b]
    · exact ih

theorem filter_shownC (cs : List Script) : ((shownC cs).filter fun x => x.empty = false).Perm (cs.filter fun x => x.empty = false) := by
  have hfe : ∀ l : List Script, filterEmpty l = l.filter fun x => x.empty = false := by
    intro l; unfold filterEmpty; congr 1; ext x; cases x.empty <;> simp
  have h : (shownC cs).Perm (cs.filter fun x => x.empty = false) := by
    rw [← hfe]
    exact pySort_perm _ _
  have h2 := h.filter fun x => decide (x.empty = false)
  rwa [List.filter_filter, show (fun x : Script => decide (x.empty = false) && decide (x.empty = false)) = fun x => decide (x.empty = false) from by
    ext x; simp] at h2

/-- What is read from the text is the same polymorpheme. -/
theorem Legible.same {cs : List Script} {gs : List Group} (h : Legible cs gs) {C' : List Script} {G' : List Group}
    (hc : ReadList (shownC cs) C') (hg : GroupsRead (shownG gs) G') : SamePM (mkPM C' G') (mkPM cs gs) := by
  have hwc : ∀ m ∈ shownC cs, WF m := fun m hm => (h.wfC m hm).1
  have hwg : ∀ g ∈ shownG gs, ∀ m ∈ g.1, WF m := fun g hg m hm => (h.wfG g hg m hm).1
  have key : SamePM (mkPM cs gs) (mkPM C' G') := by
    refine C41_normal_form_partial ?_ ?_ ?_ ?_
    · intro x hx
      rcases List.mem_append.1 hx with hx | hx
      · exact (h.constant x hx).1
      · exact readList_orderly hwc hc x hx
    · intro g hgm x hx
      rcases List.mem_append.1 hgm with hgm | hgm
      · exact (h.groups g hgm x hx).1
      · obtain ⟨g', hg', hgg⟩ := forall₂_mem_right hg hgm
        exact readList_orderly (hwg g' hg') hgg.1 x hx
    · rw [Rearranged, readList_shown hwc hc]
      exact ((filter_shownC cs).map str).symm
    · have h1 : List.Forall₂ GroupRearranged gs (gs.map nrmGroup) := by
        clear hg hwg h
        induction gs with
        | nil => exact .nil
        | cons g gs ih => exact .cons ⟨((filter_shownC g.1).map str).symm, rfl⟩ ih
      have h2 : (gs.map nrmGroup).Perm (shownG gs) := (pySort_perm _ _).symm
      have h3 : List.Forall₂ GroupRearranged (shownG gs) G' := by
        clear h1 h2
        generalize shownG gs = G at hg hwg
        induction hg with
        | nil => exact .nil
        | @cons g g' l l' hgg _ ih =>
          refine .cons ⟨?_, hgg.2.symm⟩ (ih fun x hx => hwg x (List.mem_cons_of_mem _ hx))
          rw [Rearranged, readList_shown (hwg g (by simp)) hgg.1]
      obtain ⟨l, h4, h5⟩ : ∃ l, List.Forall₂ GroupRearranged (gs.map nrmGroup) l ∧ l.Perm G' := by
        exact List.perm_comp_forall₂ h2 h3
      refine ⟨l, ?_, h5⟩
      clear h2 h3 h5 h hg hwg
      generalize gs.map nrmGroup = N at h1 h4
      induction h1 generalizing l with
      | nil => cases h4; exact .nil
      | cons hab _ ih =>
        cases h4 with
        | cons hbc h4 => exact .cons ⟨hab.1.trans hbc.1, hab.2.trans hbc.2⟩ (ih _ h4)
  exact ⟨key.text.symm, key.constant.symm, key.groups.symm⟩

theorem Legible.read {cs : List Script} {gs : List Group} (h : Legible cs gs) :
    ∃ C' G', ReadList (shownC cs) C' ∧ GroupsRead (shownG gs) G' ∧ SamePM (mkPM C' G') (mkPM cs gs) := by
  obtain ⟨C', hc⟩ := readAs_exists fun m hm => (h.wfC m hm).1
  obtain ⟨G', hg⟩ := groupsRead_exists fun g hg m hm => (h.wfG g hg m hm).1
  exact ⟨C', G', hc, hg, h.same hc hg⟩

theorem lexes_all {w : Str} {T : List UTok} (h : Lexes w T) : uslLex w = T := by
  have := h [] cut_nil
  simpa [uslLex, uslLexFrom] using this

theorem shownG_nil {gs : List Group} : shownG gs = [] ↔ gs = [] := by
  have := (pySort_perm ltGroup (gs.map nrmGroup)).length_eq
  rw [← List.length_eq_zero_iff, ← List.length_eq_zero_iff, shownG, this, List.length_map]

theorem shown_some {cs : List Script} {gs : List Group} (h : (∃ x ∈ cs, x.empty = false) ∨ gs ≠ []) : shownC cs ≠ [] ∨ shownG gs ≠ [] := by
  rcases h with ⟨x, hx, he⟩ | h
  · left
    intro e
    have := mem_shownC.2 ⟨hx, he⟩
    rw [e] at this
    cases this
  · right
    rwa [ne_eq, shownG_nil]

/-- The text of a polymorpheme with something in it is not empty. -/
theorem mkPM_text_ne {cs : List Script} {gs : List Group} (h : Legible cs gs) (h0 : (∃ x ∈ cs, x.empty = false) ∨ gs ≠ []) :
    (mkPM cs gs).text.isEmpty = false := by
  have hl := lexes_all h.lexes
  cases ht : (mkPM cs gs).text with
  | cons _ _ => rfl
  | nil =>
    rw [ht] at hl
    have := pmToks_head (shown_some h0) []
    rw [List.append_nil, ← hl] at this
    rcases this with ⟨_, _, h⟩ | ⟨_, _, h⟩ <;> cases h

theorem takeUsl_pm {ts : List UTok} (h : (∃ s r, ts = .morpheme s :: r) ∨ ∃ s r, ts = .mult s :: r) {m : List Script} {g : List Group}
    (hp : takePMParts ts = .ok ((m, g), [])) :
    takeUsl ts = if m.length = 1 ∧ g = [] then .ok (.script (m.headD (.null 0)), []) else .ok (.pm (mkPM m g), []) := by
  rcases h with ⟨s, r, rfl⟩ | ⟨s, r, rfl⟩ <;>
  · show (takePMParts _ >>= _) = _
    rw [hp]
    rcases m with _ | ⟨a, _ | ⟨b, m⟩⟩ <;> rcases g with _ | ⟨x, g⟩ <;> simp <;> rfl

theorem uslRead_of {w : Str} {ts : List UTok} {x : Expr} (h : w.isEmpty = false) (h1 : uslLex w = ts) (h2 : takeUsl ts = .ok (x, [])) :
    uslRead w = .ok (x, []) := by
  unfold uslRead
  rw [h, h1]
  have : takeProposition ts = .ok (x, []) := by
    unfold takeProposition
    rw [h2]
    rfl
  rw [this]
  rfl

/-- **C47, polymorphemes, what holds.** The text of a polymorpheme with at least one morpheme reads back: as the same
polymorpheme, or as its only morpheme if it has no group and one morpheme.  Missing: the polymorphemes that contain a
morpheme which starts like an old grammatical class or a group without morphemes, and the empty polymorpheme, for which the claim is
false (`C47_violated_old_class`, `C47_violated_silently`, `C47_violated_empty_group`, `C47_violated_empty`). -/
theorem C47_polymorpheme_partial {cs : List Script} {gs : List Group} (h : Legible cs gs) (h0 : (∃ x ∈ cs, x.empty = false) ∨ gs ≠ []) :
    ((gs ≠ [] ∨ (cs.filter fun x => x.empty = false).length ≠ 1) ∧
      ∃ p, uslRead (mkPM cs gs).text = .ok (.pm p, []) ∧ SamePM p (mkPM cs gs)) ∨
    (gs = [] ∧ ∃ m t, (cs.filter fun x => x.empty = false) = [m] ∧ uslRead (mkPM cs gs).text = .ok (.script t, []) ∧
      t.str = m.str ∧ (mkPM cs gs).text = m.str) := by
  obtain ⟨C', G', hc, hg, hs⟩ := h.read
  have hl := lexes_all h.lexes
  have hp := takePMParts_pm hc hg h.fullG (shown_some h0) (ts := []) (by intro s r h; cases h) (by intro s r h; cases h)
  have hu := takeUsl_pm (pmToks_head (shown_some h0) []) hp
  rw [List.append_nil] at hu
  have hr : uslRead (mkPM cs gs).text = if C'.length = 1 ∧ G' = [] then .ok (.script (C'.headD (.null 0)), []) else .ok (.pm (mkPM C' G'), []) := by
    by_cases hone : C'.length = 1 ∧ G' = []
    · rw [if_pos hone] at hu ⊢
      exact uslRead_of (mkPM_text_ne h h0) hl hu
    · rw [if_neg hone] at hu ⊢
      exact uslRead_of (mkPM_text_ne h h0) hl hu
  have hlen : C'.length = (cs.filter fun x => x.empty = false).length := by
    rw [← hc.length_eq]
    have := (filter_shownC cs).length_eq
    rw [← this, List.filter_eq_self.2]
    intro x hx
    simpa using (mem_shownC.1 hx).2
  have hG : G' = [] ↔ gs = [] := by
    rw [← shownG_nil (gs := gs), ← List.length_eq_zero_iff, ← List.length_eq_zero_iff, hg.length_eq]
  by_cases hone : C'.length = 1 ∧ G' = []
  · right
    rw [if_pos hone] at hr
    obtain ⟨m, hm⟩ := List.length_eq_one_iff.1 (hlen ▸ hone.1)
    have hgs := hG.1 hone.2
    obtain ⟨t, ht⟩ := List.length_eq_one_iff.1 hone.1
    have hsm : shownC cs = [m] := by
      have hp := filter_shownC cs
      rw [hm, List.perm_singleton, List.filter_eq_self.2 (by intro x hx; simpa using (mem_shownC.1 hx).2)] at hp
      exact hp
    rw [hsm, ht] at hc
    cases hc with
    | cons h1 _ =>
      refine ⟨hgs, m, t, hm, by rw [hr, ht]; rfl, (read_same (h.wfC m (by simp [hsm])).1 h1).2.1, ?_⟩
      rw [mkPM_text, hsm, shownG_nil.2 hgs]
      rfl
  · left
    rw [if_neg hone] at hr
    refine ⟨?_, _, hr, hs⟩
    rw [hlen, hG] at hone
    by_cases hgs : gs = []
    · exact Or.inr fun h => hone ⟨h, hgs⟩
    · exact Or.inl hgs

/-! ### Lexemes -/

/-- The same lexeme: same text, same polymorphemes. -/
structure SameLexeme (x y : Lexeme) : Prop where
  text : x.text = y.text
  flexion : SamePM x.flexion y.flexion
  content : SamePM x.content y.content

/-- Nothing but empty morphemes. -/
def Blank (cs : List Script) (gs : List Group) : Prop := gs = [] ∧ ∀ x ∈ cs, x.empty = true

theorem mkPM_empty_iff (cs : List Script) (gs : List Group) : (mkPM cs gs).empty = true ↔ Blank cs gs := by
  have hg : (mkPM cs gs).groups = shownG gs := rfl
  have hc : (mkPM cs gs).constant = if (shownC cs).isEmpty then [.null 0] else shownC cs := rfl
  have hn : shownC cs = [] ↔ ∀ x ∈ cs, x.empty = true := by
    constructor
    · intro h x hx
      by_contra he
      have := mem_shownC.2 ⟨hx, by simpa using he⟩
      rw [h] at this
      cases this
    · intro h
      rw [List.eq_nil_iff_forall_not_mem]
      intro x hx
      rw [mem_shownC] at hx
      rw [h x hx.1] at hx
      cases hx.2
  unfold PM.empty Blank
  rw [hg, hc, ← hn]
  cases hs : shownC cs with
  | nil => simp [shownG_nil, Script.empty]
  | cons a l =>
    have := (mem_shownC.1 (hs ▸ List.mem_cons_self : a ∈ shownC cs)).2
    simp [this]

theorem mkPM_blank {cs : List Script} {gs : List Group} (h : Blank cs gs) : mkPM cs gs = mkPM [] [] := by
  have : filterEmpty cs = [] := by
    rw [List.eq_nil_iff_forall_not_mem]
    intro x hx
    rw [mem_filterEmpty] at hx
    rw [h.2 x hx.1] at hx
    cases hx.2
  unfold mkPM
  rw [this, h.1]
  rfl

theorem not_blank {cs : List Script} {gs : List Group} (h : ¬ Blank cs gs) : (∃ x ∈ cs, x.empty = false) ∨ gs ≠ [] := by
  by_contra h'
  simp only [not_or, not_exists, not_and, not_not] at h'
  exact h ⟨h'.2, fun x hx => by simpa using h'.1 x hx⟩

theorem SamePM.refl (p : PM) : SamePM p p := ⟨rfl, rfl, rfl⟩

theorem SamePM.empty {p q : PM} (h : SamePM p q) (hp : ∀ x ∈ p.constant, WF x) (hq : ∀ x ∈ q.constant, WF x) : p.empty = q.empty := by
  have hg := congrArg List.length h.groups
  simp only [List.length_map] at hg
  have hc := h.constant
  unfold PM.empty
  have : p.groups.isEmpty = q.groups.isEmpty := by
    rw [Bool.eq_iff_iff, List.isEmpty_iff_length_eq_zero, List.isEmpty_iff_length_eq_zero, hg]
  rw [this]
  have hl := congrArg List.length hc
  simp only [List.length_map] at hl
  rw [hl]
  cases h1 : p.constant with
  | nil =>
    rw [h1] at hl
    rw [List.length_eq_zero_iff.1 hl.symm]
  | cons a l =>
    cases h2 : q.constant with
    | nil => rw [h1, h2] at hl; cases hl
    | cons b l' =>
      rw [h1, h2] at hc
      simp only [List.map_cons, List.cons.injEq] at hc
      have := empty_of_str (hp a (by simp [h1])) (hq b (by simp [h2])) hc.1
      simp [this]

/-- A parenthesis with a polymorpheme: its tokens, and how they are read. -/
theorem paren_read {cs : List Script} {gs : List Group} (h : Legible cs gs) : ∃ T p, (∀ r, uslLex ('(' :: ((mkPM cs gs).text ++ ')' :: r)) = .lparen :: (T ++ .rparen :: uslLex r)) ∧
    SamePM p (mkPM cs gs) ∧ p.empty = (mkPM cs gs).empty ∧
    (∀ ts, takeParen (T ++ .rparen :: ts) = .ok (if (mkPM cs gs).empty then none else some p, ts)) ∧ ((mkPM cs gs).empty = true → p = mkPM [] []) := by
  have hlex : ∀ r, uslLex ('(' :: ((mkPM cs gs).text ++ ')' :: r)) = .lparen :: (pmToks (shownC cs) (shownG gs) ++ .rparen :: uslLex r) := by
    intro r
    rw [lex_lparen, h.lexes _ (cut_rparen r), lex_rparen]
  by_cases hb : Blank cs gs
  · refine ⟨_, mkPM [] [], hlex, ?_, ?_, ?_, fun _ => rfl⟩
    · rw [mkPM_blank hb]; exact SamePM.refl _
    · rw [mkPM_blank hb]
    · intro ts
      have h1 : shownC cs = [] := by
        rw [List.eq_nil_iff_forall_not_mem]
        intro x hx
        rw [mem_shownC] at hx
        rw [hb.2 x hx.1] at hx
        cases hx.2
      rw [h1, shownG_nil.2 hb.1, if_pos ((mkPM_empty_iff cs gs).2 hb)]
      rfl
  · obtain ⟨C', G', hc, hg, hs⟩ := h.read
    have he : (mkPM cs gs).empty = false := by
      rw [← Bool.not_eq_true, mkPM_empty_iff]; exact hb
    have hconst : ∀ (cs : List Script) (gs : List Group), (∀ x ∈ cs, WF x) → ∀ x ∈ (mkPM cs gs).constant, WF x := by
      intro cs gs h x hx
      rcases (C41_contents cs gs).1 with hp | ⟨hp, _⟩
      · exact h x (List.mem_filter.1 (hp.mem_iff.1 hx)).1
      · rw [hp] at hx
        simp only [List.mem_singleton] at hx
        subst hx
        exact .null (by omega)
    refine ⟨_, mkPM C' G', hlex, hs, ?_, ?_, fun h => by rw [he] at h; cases h⟩
    · refine hs.empty (hconst _ _ fun x hx => ?_) (hconst _ _ fun x hx => built_wf (h.constant x hx).1.1)
      exact built_wf (readList_orderly (fun m hm => (h.wfC m hm).1) hc x hx).1
    · intro ts
      rw [he]
      exact takeParen_pm hc hg h.fullG (shown_some (not_blank hb)) ts

theorem lexemeText_same {p q p' q' : PM} (hp : SamePM p p') (hq : SamePM q q') (h1 : p.empty = p'.empty) (h2 : q.empty = q'.empty) :
    lexemeText p q = lexemeText p' q' := by
  simp only [lexemeText]
  rw [h1, h2, hp.text, hq.text]

/-- **C47, lexemes, what holds.** The text of a lexeme whose polymorphemes are legible (possibly empty) reads back as the same
lexeme.  Missing: as for polymorphemes. -/
theorem C47_lexeme_partial {fc cc : List Script} {fg cg : List Group} (hf : Legible fc fg) (hc : Legible cc cg) :
    ∃ x, uslRead (mkLexeme (mkPM fc fg) (mkPM cc cg)).text = .ok (.lexeme x, []) ∧ SameLexeme x (mkLexeme (mkPM fc fg) (mkPM cc cg)) := by
  obtain ⟨T, p, hT, hsp, hep, htp, hbp⟩ := paren_read hf
  obtain ⟨U, q, hU, hsq, heq, htq, hbq⟩ := paren_read hc
  have hread : ∀ {w : Str} {ts : List UTok} {x : Lexeme}, uslLex ('(' :: w) = .lparen :: ts → takeLexeme ts = .ok (x, []) →
      uslRead ('(' :: w) = .ok (.lexeme x, []) := by
    intro w ts x h1 h2
    refine uslRead_of rfl h1 ?_
    show (takeLexeme ts >>= fun x => Except.ok (Expr.lexeme x.1, x.2)) = _
    rw [h2]
    rfl
  refine ⟨mkLexeme p q, ?_, lexemeText_same hsp hsq hep heq, hsp, hsq⟩
  show uslRead (lexemeText (mkPM fc fg) (mkPM cc cg)) = _
  simp only [lexemeText]
  by_cases h2 : (mkPM cc cg).empty = true
  · rw [if_pos h2]
    by_cases h1 : (mkPM fc fg).empty = true
    · rw [if_pos h1, hbp h1, hbq h2]
      rfl
    · rw [if_neg h1]
      have hw : (c!"(" ++ (mkPM fc fg).text ++ c!")" : Str) = '(' :: ((mkPM fc fg).text ++ ')' :: []) := by simp
      rw [hw]
      refine hread (hT []) ?_
      unfold takeLexeme
      rw [htp]
      rw [if_neg h1, hbq h2]
      rfl
  · rw [if_neg h2]
    have hw : (c!"(" ++ (mkPM fc fg).text ++ c!")" ++ (c!"(" ++ (mkPM cc cg).text ++ c!")") : Str) =
        '(' :: ((mkPM fc fg).text ++ ')' :: ('(' :: ((mkPM cc cg).text ++ ')' :: []))) := by simp
    rw [hw]
    refine hread ((hT _).trans (by rw [hU])) ?_
    unfold takeLexeme
    rw [htp]
    show ((takeParen (U ++ .rparen :: uslLex [])) >>= _) = _
    rw [htq, if_neg h2]
    by_cases h1 : (mkPM fc fg).empty = true
    · rw [if_pos h1, hbp h1]
      rfl
    · rw [if_neg h1]
      rfl

/-! ### Examples and violations -/

theorem orderly_prim (p : Prim) : Orderly (.prim p) :=
  ⟨built_of (by cases p <;> decide +kernel), .inl (by simp [NotOneTermSum])⟩

theorem notOld_prim (p : Prim) : NotOldClass (.prim p) := by
  intro c r h
  have := congrArg List.length h
  have h2 : (Script.prim p).str.length = 2 := by cases p <;> rfl
  rw [h2] at this
  simp at this

-- A polymorpheme with constants and groups meeting the hypotheses, and its text.
example : Legible [.prim .S, .null 1, .prim .U] [([.prim .T, .prim .B], 12), ([.null 0, .prim .A], 1)] ∧
    (mkPM [.prim .S, .null 1, .prim .U] [([.prim .T, .prim .B], 12), ([.null 0, .prim .A], 1)]).text = c!"U: S: m1(A:) m12(B: T:)" := by
  have hn : ∀ n ≤ 1, Orderly (.null n) ∧ ((Script.null n).empty = false → NotOldClass (.null n)) := by
    intro n hn
    refine ⟨⟨built_of ?_, .inl (by simp [NotOneTermSum])⟩, by simp [Script.empty]⟩
    rcases Nat.le_one_iff_eq_zero_or_eq_one.1 hn with rfl | rfl <;> decide +kernel
  have hp : ∀ p, Orderly (.prim p) ∧ ((Script.prim p).empty = false → NotOldClass (.prim p)) := fun p => ⟨orderly_prim p, fun _ => notOld_prim p⟩
  refine ⟨⟨?_, ?_, ?_⟩, by decide +kernel⟩
  · simpa [hp, hn 1] using ⟨(hp .S).2, (hn 1 (by omega)).2, (hp .U).2⟩
  · simpa [hp, hn 0] using ⟨⟨(hp .T).2, (hp .B).2⟩, (hn 0 (by omega)).2, (hp .A).2⟩
  · simp [Script.empty]

/-- What a text reads as. -/
def readText (s : Str) : Except Err (Str × List (Str × Str)) := (uslRead s).map fun r => (r.1.text, r.2)

example : readText (c!"U: S: m1(A:) m12(B: T:)") = .ok (c!"U: S: m1(A:) m12(B: T:)", []) ∧
    readText (c!"(U:)(A: m1(S:))") = .ok (c!"(U:)(A: m1(S:))", []) ∧ readText (c!"()(A:)") = .ok (c!"()(A:)", []) ∧
    readText (c!"()") = .ok (c!"()", []) ∧ readText (c!"A:") = .ok (c!"A:", []) := by
  refine ⟨?_, ?_, ?_, ?_, ?_⟩ <;> decide +kernel

/-- The morpheme `E:.b.E:S:.-`. -/
def oldMorpheme (x : Prim) : Script :=
  .mult (.null 1) (.mult (.prim .S) (.prim .B) (.null 0)) (.mult (.null 0) (.prim x) (.null 0))

/-- **C47** is violated by the morphemes `E:.b.E:S:.-`, `E:.b.E:B:.-` and `E:.b.E:T:.-`: they are taken for the grammatical class of a former
word, and the texts of their polymorphemes and lexemes are refused. -/
theorem C47_violated_old_class : ∀ x ∈ [Prim.S, Prim.B, Prim.T], Orderly (oldMorpheme x) ∧ (mkPM [oldMorpheme x] []).check = true ∧
    readText (mkPM [oldMorpheme x] []).text = .error .cannotParse ∧
    readText (mkPM [.prim .A, oldMorpheme x] []).text = .error .cannotParse ∧
    readText (mkLexeme (mkPM [] []) (mkPM [oldMorpheme x] [])).text = .error .cannotParse := by
  intro x hx
  refine ⟨⟨built_of ?_, .inl (by simp [oldMorpheme, NotOneTermSum])⟩, ?_⟩
  · revert x; decide +kernel
  · simp only [List.mem_cons, List.not_mem_nil, or_false] at hx
    rcases hx with rfl | rfl | rfl <;> refine ⟨?_, ?_, ?_, ?_⟩ <;> decide +kernel

/-- **C47** is violated by the morpheme `E:.b.E:U:.-`: the beginning of its text is skipped and another morpheme is read, without
error. -/
theorem C47_violated_silently : Orderly (oldMorpheme .U) ∧ (mkPM [oldMorpheme .U] []).check = true ∧
    (mkPM [.prim .A, oldMorpheme .U] []).text = c!"A: E:.b.E:U:.-" ∧
    readText (mkPM [.prim .A, oldMorpheme .U] []).text = .ok (c!"A: b.E:U:.-", []) ∧
    readText (mkPM [oldMorpheme .U] []).text = .ok (c!"b.E:U:.-", []) := by
  refine ⟨⟨built_of (by decide +kernel), .inl (by simp [oldMorpheme, NotOneTermSum])⟩, ?_⟩
  decide +kernel

/-- **C47** is violated by a group without morphemes: its text is refused. -/
theorem C47_violated_empty_group : (mkPM [.prim .A] [([], 1)]).text = c!"A: m1()" ∧ readText (mkPM [.prim .A] [([], 1)]).text = .error .cannotParse ∧
    (mkPM [.prim .A] [([.null 0], 1)]).text = c!"A: m1()" := by
  decide +kernel

/-- **C47** is violated by the empty polymorpheme: its text is empty and reads as the script `E:`, whose text is another. -/
theorem C47_violated_empty : (mkPM [] []).text = [] ∧ readText (mkPM [] []).text = .ok (c!"E:", []) := by
  decide +kernel

end Verif
