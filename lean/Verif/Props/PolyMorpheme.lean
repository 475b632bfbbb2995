import Verif.Lemmas.PolyMorpheme
import Verif.Props.ScriptOrder

/-
C41–C44: normal form and singular sequences of polymorphemes.
-/

namespace Verif
open Script

/-- A buildable morpheme that is not a sum of one single term, unless it has a single word.  All the morphemes of a
polymorpheme accepted by `check` have a single word. -/
def Orderly (x : Script) : Prop := Built x ∧ (NotOneTermSum x ∨ Singular x)

theorem Orderly.good {x : Script} (h : Orderly x) (he : x.empty = false) : Good x :=
  ⟨built_wf h.1, he, h.2.imp id (singular_iff (built_wf h.1)).1⟩

theorem mem_filterEmpty {l : List Script} {x : Script} : x ∈ filterEmpty l ↔ x ∈ l ∧ x.empty = false := by
  simp [filterEmpty]

theorem sort_rearranged {l l' : List Script} (h : ∀ x ∈ l ++ l', Orderly x) (hr : Rearranged l l') :
    (pySort lt (filterEmpty l)).map str = (pySort lt (filterEmpty l')).map str := by
  have hg : ∀ x ∈ filterEmpty l ++ filterEmpty l', Good x := by
    intro x hx
    rw [List.mem_append, mem_filterEmpty, mem_filterEmpty] at hx
    rcases hx with hx | hx
    · exact (h x (by simp [hx.1])).good hx.2
    · exact (h x (by simp [hx.1])).good hx.2
  refine pySort_ext (k := KK) (fun a ha b hb => lt_KK (hg a ha) (hg b hb)) (fun a ha b hb => KK_iff (hg a ha) (hg b hb)) ?_
  have : ∀ l : List Script, filterEmpty l = l.filter fun x => x.empty = false := by
    intro l; unfold filterEmpty; congr 1; ext x; cases x.empty <;> simp
  rw [this, this]; exact hr

/-- A group after normalisation. -/
def nrmGroup (g : Group) : Group := (pySort lt (filterEmpty g.1), g.2)

theorem groupText_eq {g h : Group} (e : (g.1.map str, g.2) = (h.1.map str, h.2)) : groupText g = groupText h := by
  simp only [Prod.mk.injEq] at e
  simp only [groupText, e.1, e.2]

/-- **C41, what holds.** Rearranging the constants, the groups and the morphemes inside the groups, and adding or removing
empty morphemes, gives the same polymorpheme, provided that one-term sums have a single word (which `check` requires of all
morphemes).  Missing: one-term sums with several words, see `C41_violated`. -/
theorem C41_normal_form_partial {cs cs' : List Script} {gs gs' : List Group} (hc : ∀ x ∈ cs ++ cs', Orderly x)
    (hg : ∀ g ∈ gs ++ gs', ∀ x ∈ g.1, Orderly x) (h1 : Rearranged cs cs') (h2 : GroupsRearranged gs gs') :
    SamePM (mkPM cs gs) (mkPM cs' gs') := by
  have ec := sort_rearranged hc h1
  have eg : (pySort ltGroup (gs.map nrmGroup)).map (fun g => (g.1.map str, g.2)) =
      (pySort ltGroup (gs'.map nrmGroup)).map (fun g => (g.1.map str, g.2)) := by
    have hgood : ∀ g ∈ gs.map nrmGroup ++ gs'.map nrmGroup, ∀ x ∈ g.1, Good x := by
      intro g hg' x hx
      rw [← List.map_append] at hg'
      obtain ⟨g', hg'', rfl⟩ := List.mem_map.1 hg'
      rw [nrmGroup, mem_pySort, mem_filterEmpty] at hx
      exact (hg g' hg'' x hx.1).good hx.2
    refine pySort_ext (k := KG) (fun a ha b hb => ltGroup_KG (hgood a ha) (hgood b hb))
      (fun a ha b hb => KG_iff (hgood a ha) (hgood b hb)) ?_
    obtain ⟨gs'', hf, hp⟩ := h2
    refine List.Perm.trans (List.Perm.of_eq ?_) ((hp.map nrmGroup).map _)
    have hg'' : ∀ g ∈ gs ++ gs'', ∀ x ∈ g.1, Orderly x := by
      intro g hgm
      refine hg g ?_
      rcases List.mem_append.1 hgm with h | h
      · simp [h]
      · simp [hp.mem_iff.1 h]
    clear hgood hp hg
    induction hf with
    | nil => rfl
    | @cons g g' l l' h hl ih =>
      simp only [List.map_cons, List.cons.injEq]
      refine ⟨?_, ih fun g hg => hg'' g ?_⟩
      · simp only [nrmGroup, Prod.mk.injEq]
        refine ⟨sort_rearranged (fun x hx => ?_) h.1, h.2⟩
        rcases List.mem_append.1 hx with hx | hx
        · exact hg'' g (by simp) x hx
        · exact hg'' g' (by simp) x hx
      · rcases List.mem_append.1 hg with h | h <;> simp [h]
  have etext : (pySort ltGroup (gs.map nrmGroup)).map groupText = (pySort ltGroup (gs'.map nrmGroup)).map groupText := by
    have hl := congrArg List.length eg
    simp only [List.length_map] at hl
    apply List.ext_getElem
    · simpa using hl
    · intro n h1 h2
      simp only [List.length_map] at h1 h2
      rw [List.getElem_map, List.getElem_map]
      apply groupText_eq
      have := List.getElem_of_eq eg (i := n) (by simpa using h1)
      simpa using this
  refine ⟨?_, ?_, eg⟩
  · simp only [mkPM]
    rw [ec]
    exact congrArg _ (congrArg _ etext)
  · simp only [mkPM]
    have hl := congrArg List.length ec
    simp only [List.length_map] at hl
    by_cases h : pySort lt (filterEmpty cs) = []
    · have : pySort lt (filterEmpty cs') = [] := by
        rw [← List.length_eq_zero_iff, ← hl, h]; rfl
      simp [h, this]
    · have : pySort lt (filterEmpty cs') ≠ [] := by
        rw [ne_eq, ← List.length_eq_zero_iff, ← hl, List.length_eq_zero_iff]; exact h
      simp only [List.isEmpty_iff, h, this, if_false]
      exact ec

/-- **C41, contents.** For all lists: the constants are the given ones without the empty morphemes (`E:` standing for their
absence), the groups are the given ones rearranged, without empty morphemes, with their multiplicities. -/
theorem C41_contents (cs : List Script) (gs : List Group) :
    ((mkPM cs gs).constant.Perm (cs.filter fun x => x.empty = false) ∨
      (mkPM cs gs).constant = [.null 0] ∧ ∀ x ∈ cs, x.empty = true) ∧
    GroupsRearranged gs (mkPM cs gs).groups ∧ (∀ g ∈ (mkPM cs gs).groups, ∀ x ∈ g.1, x.empty = false) := by
  have hfe : ∀ l : List Script, filterEmpty l = l.filter fun x => x.empty = false := by
    intro l; unfold filterEmpty; congr 1; ext x; cases x.empty <;> simp
  refine ⟨?_, ⟨gs.map nrmGroup, ?_, (pySort_perm _ _).symm⟩, ?_⟩
  · simp only [mkPM]
    by_cases h : filterEmpty cs = []
    · right
      refine ⟨by simp [h, pySort], fun x hx => ?_⟩
      by_contra he
      have : x ∈ filterEmpty cs := mem_filterEmpty.2 ⟨hx, by simpa using he⟩
      rw [h] at this; cases this
    · left
      have hp := pySort_perm lt (filterEmpty cs)
      have : pySort lt (filterEmpty cs) ≠ [] := by
        intro h'; rw [h'] at hp; exact h hp.symm.eq_nil
      simp only [List.isEmpty_iff, this, if_false]
      rw [← hfe]; exact hp
  · induction gs with
    | nil => simp
    | cons g gs ih =>
      refine .cons ⟨?_, rfl⟩ ih
      rw [Rearranged, ← hfe, ← hfe]
      have hp : (pySort lt (filterEmpty g.1)).Perm (filterEmpty g.1) := pySort_perm _ _
      have : filterEmpty (nrmGroup g).1 = (nrmGroup g).1 := by
        rw [filterEmpty, List.filter_eq_self]
        intro x hx
        rw [nrmGroup, mem_pySort, mem_filterEmpty] at hx
        simp [hx.2]
      rw [this]
      exact (hp.map str).symm
  · intro g hg x hx
    simp only [mkPM, mem_pySort, List.mem_map] at hg
    obtain ⟨g', _, rfl⟩ := hg
    rw [mem_pySort, mem_filterEmpty] at hx
    exact hx.2

/-- **C41 is false in general**: with a one-term sum of several words, the order of the constants shows in the text. -/
theorem C41_violated : ∃ cs cs' : List Script, cs.Perm cs' ∧ (∀ x ∈ cs, Built x) ∧ (mkPM cs []).text ≠ (mkPM cs' []).text := by
  refine ⟨[wM, wM', .add [wM]], [.add [wM], wM, wM'], ?_, ?_, by decide +kernel⟩
  · exact List.perm_append_comm (l₁ := [wM, wM']) (l₂ := [.add [wM]])
  · intro x hx
    simp only [List.mem_cons, List.not_mem_nil, or_false] at hx
    rcases hx with rfl | rfl | rfl
    · exact built_of (by decide +kernel)
    · exact built_of (by decide +kernel)
    · exact built_of (by decide +kernel)

-- Reordered constants and groups, with empty morphemes: the same text.
example : (mkPM [.prim .S, .null 1, .prim .U] [([.prim .T, .prim .B], 2), ([.null 0, .prim .A], 1)]).text = c!"U: S: m1(A:) m2(B: T:)" ∧
    (mkPM [.prim .U, .prim .S, .null 0] [([.prim .A], 1), ([.null 2, .prim .B, .prim .T], 2)]).text = c!"U: S: m1(A:) m2(B: T:)" := by
  decide +kernel

example : Orderly (.prim .S) ∧ Orderly (.add [.prim .U]) ∧ Rearranged [.prim .S, .null 1, .prim .U] [.prim .U, .prim .S, .null 0] ∧
    GroupsRearranged [([.prim .T, .prim .B], 2), ([.null 0, .prim .A], 1)] [([.prim .A], 1), ([.null 2, .prim .B, .prim .T], 2)] := by
  refine ⟨⟨built_of (by decide +kernel), .inl (by simp [NotOneTermSum])⟩,
    ⟨built_of (by decide +kernel), .inr (singular_of_cardinal (wfb_sound (by decide +kernel)) (by decide +kernel))⟩, ?_,
    [([.null 2, .prim .B, .prim .T], 2), ([.prim .A], 1)], ?_, List.Perm.swap _ _ _⟩
  · simp only [Rearranged]; decide +kernel
  · refine .cons ⟨?_, rfl⟩ (.cons ⟨?_, rfl⟩ .nil)
    · simp only [Rearranged]; decide +kernel
    · simp only [Rearranged]; decide +kernel

/-! ### C43 -/

/-- **C43, exact form.** The singular sequences of a polymorpheme with groups are, each once, the polymorphemes gathering
the constants and a balanced selection, under the condition that at most 5 different morphemes are gathered, the absence of
constants (`E:`) being counted as one of them; without groups the polymorpheme is its only sequence.  Missing from the claim:
the size limit is 4 instead of 5 without constants, and the empty selection is then listed (`C43_violated`). -/
theorem C43_sequences_partial {cs : List Script} {gs : List Group} (hc : ∀ x ∈ cs, Built x) (hg : ∀ g ∈ gs, ∀ x ∈ g.1, Built x) :
    (gs = [] → (mkPM cs gs).singularSequences = .ok [mkPM cs gs]) ∧
    ∀ ml, SmallestSize (mkPM cs gs).groups ml →
      ∃ L, (mkPM cs gs).singularSequences = .ok L ∧ L.Pairwise (fun a b => a.text ≠ b.text) ∧
        (∀ m ∈ L, ∃ q sels, Selection (mkPM cs gs).groups ml q sels ∧ distinct (sels.flatten ++ (mkPM cs gs).constant) ≤ 5 ∧
          Gathers (sels.flatten ++ (mkPM cs gs).constant) m) ∧
        (∀ q sels, Selection (mkPM cs gs).groups ml q sels → distinct (sels.flatten ++ (mkPM cs gs).constant) ≤ 5 →
          ∃ m ∈ L, Gathers (sels.flatten ++ (mkPM cs gs).constant) m) := by
  constructor
  · rintro rfl
    simp [PM.singularSequences, mkPM, pySort]
  intro ml hml
  have hne : (mkPM cs gs).groups ≠ [] := by
    intro h; obtain ⟨⟨g, hg', _⟩, _⟩ := hml; rw [h] at hg'; cases hg'
  have hwc : ∀ x ∈ (mkPM cs gs).constant, WF x := by
    intro x hx
    rcases (C41_contents cs gs).1 with hp | ⟨hp, _⟩
    · exact built_wf (hc x (List.mem_filter.1 (hp.mem_iff.1 hx)).1)
    · rw [hp] at hx; simp only [List.mem_singleton] at hx; subst hx; exact .null (by omega)
  have hwg : ∀ g ∈ (mkPM cs gs).groups, ∀ x ∈ g.1, WF x := by
    intro g hg' x hx
    simp only [mkPM, mem_pySort, List.mem_map] at hg'
    obtain ⟨g', hg'', rfl⟩ := hg'
    rw [mem_pySort, mem_filterEmpty] at hx
    exact built_wf (hg g' hg'' x hx.1)
  obtain ⟨L, h1, h2, h3, h4⟩ := pmSequences_spec (mkPM cs gs).constant (mkPM cs gs).groups
  obtain ⟨m1, m2⟩ := mem_groupCombinations hne hml
  have hwsel : ∀ {q sels}, Selection (mkPM cs gs).groups ml q sels → ∀ x ∈ sels.flatten ++ (mkPM cs gs).constant, WF x := by
    intro q sels hs x hx
    rcases List.mem_append.1 hx with hx | hx
    · obtain ⟨sel, hsel, hx⟩ := List.mem_flatten.1 hx
      obtain ⟨j, hj, rfl⟩ := List.getElem_of_mem hsel
      have hlen := hs.takes.length_eq
      have := (List.forall₂_iff_get.1 hs.takes).2 j hj (by omega)
      simp only [List.get_eq_getElem] at this
      exact hwg _ (List.getElem_mem _) x (this.sub.subset hx)
    · exact hwc x hx
  have hgath : ∀ {gs' sels : List (List Script)} {m : PM}, gs'.Perm sels →
      Gathers (gs'.flatten ++ (mkPM cs gs).constant) m → Gathers (sels.flatten ++ (mkPM cs gs).constant) m := by
    intro gs' sels m hp h
    refine ⟨h.groups, h.nodup, fun t => ?_⟩
    rw [h.mem]
    constructor
    · rintro ⟨x, ⟨hx, he⟩, rfl⟩
      refine ⟨x, ⟨?_, he⟩, rfl⟩
      simp only [List.mem_append] at hx ⊢
      rwa [← hp.flatten.mem_iff]
    · rintro ⟨x, ⟨hx, he⟩, rfl⟩
      refine ⟨x, ⟨?_, he⟩, rfl⟩
      simp only [List.mem_append] at hx ⊢
      rwa [hp.flatten.mem_iff]
  have hcne : (mkPM cs gs).constant ≠ [] := by
    simp only [mkPM]; split
    · simp
    · rename_i h; simpa using h
  have hfits : ∀ {gs' sels : List (List Script)}, gs'.Perm sels →
      (Fits (mkPM cs gs).constant gs' ↔ distinct (sels.flatten ++ (mkPM cs gs).constant) ≤ 5) := by
    intro gs' sels hp
    rw [Fits, length_dedupBy_str, distinct_perm hp.flatten]
    constructor
    · rintro ⟨_, h⟩; exact h
    · intro h
      refine ⟨?_, h⟩
      rw [← length_dedupBy_str, ne_eq, List.length_eq_zero_iff]
      exact dedupBy_ne_nil str (by simp [hcne])
  refine ⟨L, ?_, h2, ?_, ?_⟩
  · rw [PM.singularSequences, ← h1]; simp [hne]
  · intro m hm
    obtain ⟨gs', hgs', hf, rfl⟩ := h3 m hm
    obtain ⟨q, sels, hs, hp⟩ := m1 gs' hgs'
    refine ⟨q, sels, hs, (hfits hp).1 hf, hgath hp (gathers_seqOf ?_)⟩
    intro x hx
    refine hwsel hs x ?_
    simp only [List.mem_append] at hx ⊢
    rwa [← hp.flatten.mem_iff]
  · intro q sels hs hd
    obtain ⟨gs', hgs', hp⟩ := m2 q sels hs
    obtain ⟨m, hm, hmt⟩ := h4 gs' hgs' ((hfits hp).2 hd)
    obtain ⟨gs2, hgs2, hf2, rfl⟩ := h3 m hm
    obtain ⟨q2, sels2, hs2, hp2⟩ := m1 gs2 hgs2
    have hw1 : ∀ x ∈ gs'.flatten ++ (mkPM cs gs).constant, WF x := fun x hx => hwsel hs x (by
      simp only [List.mem_append] at hx ⊢; rwa [← hp.flatten.mem_iff])
    have hw2 : ∀ x ∈ gs2.flatten ++ (mkPM cs gs).constant, WF x := fun x hx => hwsel hs2 x (by
      simp only [List.mem_append] at hx ⊢; rwa [← hp2.flatten.mem_iff])
    have hcon : ∀ {l : List (List Script)}, (∀ x ∈ l.flatten ++ (mkPM cs gs).constant, WF x) →
        ∀ x ∈ (seqOf (mkPM cs gs).constant l).constant, WF x := by
      intro l hl x hx
      rw [seqOf] at hx
      rcases mkPM_constant (dedupBy str (l.flatten ++ (mkPM cs gs).constant)) with ⟨h, _⟩ | ⟨h, _⟩
      · rw [h] at hx; simp only [List.mem_singleton] at hx; subst hx; exact .null (by omega)
      · rw [h, mem_pySort, mem_filterEmpty] at hx
        exact hl x (mem_dedupBy str hx.1)
    refine ⟨_, hm, hgath hp ((gathers_seqOf hw1).congr (by simp [seqOf, mkPM, pySort]) ?_ (hcon hw1) (hcon hw2))⟩
    exact mkPM_texts (fun x hx => hw2 x (mem_dedupBy str hx)) (fun x hx => hw1 x (mem_dedupBy str hx)) hmt

/-- A polymorpheme with two groups, `m1(U:) m1(S: B: T:)`. -/
def wPM : PM := mkPM [] [([.prim .S, .prim .B, .prim .T], 1), ([.prim .U], 1)]

/-- **C43 is false as stated**: a polymorpheme without constants lists the empty sequence, which takes nothing from any
group, and does not list a balanced choice of five morphemes. -/
theorem C43_violated :
    (wPM.check = true ∧ ∃ L, wPM.singularSequences = .ok L ∧ ∃ m ∈ L, m.text = []) ∧
    (let p := mkPM [] [([.prim .U, .prim .A, .prim .S], 3), ([.prim .B, .prim .T], 2)]
     p.check = true ∧ Selection p.groups 2 2 [[.prim .U, .prim .A, .prim .S], [.prim .B, .prim .T]] ∧
       ∃ L, p.singularSequences = .ok L ∧ ∀ m ∈ L, m.constant.length ≤ 4) := by
  have hex : ∀ {p : PM} (P : PM → Bool), (match p.singularSequences with | .ok L => L.any P | .error _ => false) = true →
      ∃ L, p.singularSequences = .ok L ∧ ∃ m ∈ L, P m = true := by
    intro p P h
    split at h
    · rename_i L hL; exact ⟨L, hL, by simpa using h⟩
    · cases h
  have hall : ∀ {p : PM} (P : PM → Bool), (match p.singularSequences with | .ok L => L.all P | .error _ => false) = true →
      ∃ L, p.singularSequences = .ok L ∧ ∀ m ∈ L, P m = true := by
    intro p P h
    split at h
    · rename_i L hL; exact ⟨L, hL, by simpa using h⟩
    · cases h
  refine ⟨⟨by decide +kernel, ?_⟩, by decide +kernel, ?_, ?_⟩
  · obtain ⟨L, h1, m, hm, h2⟩ := hex (p := wPM) (fun m => m.text == []) (by decide +kernel)
    exact ⟨L, h1, m, hm, by simpa using h2⟩
  · have e : (mkPM [] [([.prim .U, .prim .A, .prim .S], 3), ([.prim .B, .prim .T], 2)]).groups =
        [([.prim .U, .prim .A, .prim .S], 3), ([.prim .B, .prim .T], 2)] := by decide +kernel
    rw [e]
    refine ⟨by omega, by decide, ?_⟩
    exact .cons ⟨List.Sublist.refl _, .inr ⟨rfl, .inr rfl⟩⟩ (.cons ⟨List.Sublist.refl _, .inl rfl⟩ .nil)
  · obtain ⟨L, h1, h2⟩ := hall (p := mkPM [] [([.prim .U, .prim .A, .prim .S], 3), ([.prim .B, .prim .T], 2)])
      (fun m => decide (m.constant.length ≤ 4)) (by decide +kernel)
    exact ⟨L, h1, fun m hm => by simpa using h2 m hm⟩

-- The sequences of `A: m1(S: B:) m1(U:)`, all accepted by the hypotheses of `C43_sequences_partial`.
example : ((mkPM [.prim .A] [([.prim .S, .prim .B], 1), ([.prim .U], 1)]).singularSequences.map (·.map (·.text))) =
    .ok [c!"A:", c!"U: A:", c!"A: S:", c!"A: B:", c!"U: A: S:", c!"U: A: B:", c!"U: A: S: B:"] := by decide +kernel

example : SmallestSize (mkPM [.prim .A] [([.prim .S, .prim .B], 1), ([.prim .U], 1)]).groups 1 ∧
    Built (.prim .A) ∧ Built (.prim .S) ∧ Built (.prim .B) ∧ Built (.prim .U) := by
  have e : (mkPM [.prim .A] [([.prim .S, .prim .B], 1), ([.prim .U], 1)]).groups = [([.prim .U], 1), ([.prim .S, .prim .B], 1)] := by
    decide +kernel
  rw [e]
  exact ⟨⟨⟨([.prim .U], 1), by simp, rfl⟩, by simp⟩, built_of (by decide +kernel), built_of (by decide +kernel),
    built_of (by decide +kernel), built_of (by decide +kernel)⟩

/-! ### C42 -/

/-- Number of morphemes of the sequence `m` that belong to the group `g`. -/
def takenFrom (g : Group) (m : PM) : Nat := (m.constant.filter fun x => decide (x.str ∈ g.1.map str)).length

/-- No morpheme occurs twice in the polymorpheme (required by `check`). -/
def DisjointPM (p : PM) : Prop := (p.constant ++ p.groups.flatMap fun g => g.1).Pairwise fun x y => x.str ≠ y.str

/-- **C42, what holds.** A sequence takes at most `m` morphemes of a group of multiplicity `m`, unless `m` is the size of the
smallest group and this group is larger.  Missing: that case, see `C42_violated`. -/
theorem C42_multiplicity_partial {cs : List Script} {gs : List Group} (hc : ∀ x ∈ cs, Built x) (hg : ∀ g ∈ gs, ∀ x ∈ g.1, Built x)
    (hd : DisjointPM (mkPM cs gs)) {ml : Nat} (hml : SmallestSize (mkPM cs gs).groups ml) {g : Group}
    (hgm : g ∈ (mkPM cs gs).groups) (hex : g.2 ≠ ml ∨ g.1.length = ml) {L : List PM}
    (hL : (mkPM cs gs).singularSequences = .ok L) {m : PM} (hm : m ∈ L) : takenFrom g m ≤ g.2 := by
  obtain ⟨L', h1, _, h3, _⟩ := (C43_sequences_partial hc hg).2 ml hml
  have : L = L' := by rw [hL] at h1; injection h1
  subst this
  obtain ⟨q, sels, hs, _, hga⟩ := h3 m hm
  -- the selection made in the group
  obtain ⟨j, hj, rfl⟩ := List.getElem_of_mem hgm
  have hlen := hs.takes.length_eq
  have hj' : j < sels.length := by omega
  have ht := (List.forall₂_iff_get.1 hs.takes).2 j hj' hj
  simp only [List.get_eq_getElem] at ht
  have hsize : (sels[j]).length ≤ ((mkPM cs gs).groups[j]).2 := by
    have h2 := hs.mult _ hgm
    have h4 := ht.sub.length_le
    have h5 := hs.small
    rcases ht.size with h | ⟨h, h'⟩
    · omega
    · rcases h' with h' | h'
      · omega
      · rcases hex with h6 | h6 <;> omega
  refine Nat.le_trans ?_ hsize
  -- every morpheme of the sequence that lies in the group was selected there
  have hgne := (C41_contents cs gs).2.2
  have hsub : ∀ t ∈ ((m.constant.filter fun x => decide (x.str ∈ ((mkPM cs gs).groups[j]).1.map str)).map str),
      t ∈ (sels[j]).map str := by
    intro t ht'
    obtain ⟨x, hx, rfl⟩ := List.mem_map.1 ht'
    obtain ⟨hx1, hx2⟩ := List.mem_filter.1 hx
    simp only [decide_eq_true_eq] at hx2
    obtain ⟨y, hy, hyx⟩ := List.mem_map.1 hx2
    have wfg : ∀ g ∈ (mkPM cs gs).groups, ∀ x ∈ g.1, WF x := by
      intro g hg' x hx
      simp only [mkPM, mem_pySort, List.mem_map] at hg'
      obtain ⟨g', hg'', rfl⟩ := hg'
      rw [mem_pySort, mem_filterEmpty] at hx
      exact built_wf (hg g' hg'' x hx.1)
    have hye := hgne _ hgm y hy
    have hwy := wfg _ hgm y hy
    -- the text of `x` comes from the selections or the constants
    have hxm : ∃ z, Meant (sels.flatten ++ (mkPM cs gs).constant) z ∧ z.str = x.str := by
      rw [← hga.mem]
      refine ⟨x, ⟨hx1, ?_⟩, rfl⟩
      by_contra he
      rw [Bool.not_eq_false] at he
      -- an empty constant of a sequence is the placeholder `E:`
      have hpl : x = .null 0 ∨ x.empty = false := by
        obtain ⟨L2, p1, _, p3, _⟩ := pmSequences_spec (mkPM cs gs).constant (mkPM cs gs).groups
        have hne : (mkPM cs gs).groups ≠ [] := List.ne_nil_of_mem hgm
        have : L = L2 := by
          rw [PM.singularSequences, if_neg (by simp [hne]), p1] at hL; injection hL with h; exact h.symm
        subst this
        obtain ⟨gs', _, _, rfl⟩ := p3 m hm
        rw [seqOf] at hx1
        rcases mkPM_constant (dedupBy str (gs'.flatten ++ (mkPM cs gs).constant)) with ⟨h, _⟩ | ⟨h, _⟩
        · rw [h] at hx1; left; simpa using hx1
        · rw [h, mem_pySort, mem_filterEmpty] at hx1; exact .inr hx1.2
      rcases hpl with rfl | h
      · rw [empty_of_str hwy (.null (by omega)) hyx] at hye; simp [Script.empty] at hye
      · rw [h] at he; cases he
    obtain ⟨z, ⟨hz, _⟩, hzx⟩ := hxm
    rw [← hzx]
    rw [DisjointPM, List.pairwise_append] at hd
    obtain ⟨_, hd2, hd3⟩ := hd
    rcases List.mem_append.1 hz with hz | hz
    · obtain ⟨sel, hsel, hz⟩ := List.mem_flatten.1 hz
      obtain ⟨i, hi, rfl⟩ := List.getElem_of_mem hsel
      have hi' : i < (mkPM cs gs).groups.length := by omega
      have hti := (List.forall₂_iff_get.1 hs.takes).2 i hi hi'
      simp only [List.get_eq_getElem] at hti
      by_cases hij : i = j
      · subst hij; exact List.mem_map.2 ⟨z, hz, rfl⟩
      · exfalso
        have hz' := hti.sub.subset hz
        rw [List.flatMap, List.pairwise_flatten] at hd2
        have hd4 := hd2.2
        rw [List.pairwise_map, List.pairwise_iff_getElem] at hd4
        rcases Nat.lt_or_gt_of_ne hij with h | h
        · exact hd4 i j hi' hj h z hz' y hy (by rw [hzx, hyx])
        · exact hd4 j i hj hi' h y hy z hz' (by rw [hzx, hyx])
    · exfalso
      exact hd3 z hz y (List.mem_flatMap.2 ⟨_, hgm, hy⟩) (by rw [hzx, hyx])
  have hnd : ((m.constant.filter fun x => decide (x.str ∈ ((mkPM cs gs).groups[j]).1.map str)).map str).Nodup := by
    rw [List.Nodup, List.pairwise_map]; exact hga.nodup.filter _
  have := (List.subperm_of_subset hnd hsub).length_le
  simpa [takenFrom] using this

/-- **C42 is false in general**: `m1(U:) m1(S: B: T:)` has the sequence `U: S: B:`, two morphemes of a group of
multiplicity 1. -/
theorem C42_violated : wPM.check = true ∧ DisjointPM wPM ∧
    ∃ L, wPM.singularSequences = .ok L ∧ ∃ m ∈ L, ∃ g ∈ wPM.groups, g.2 = 1 ∧ takenFrom g m = 2 := by
  refine ⟨by decide +kernel, ?_, ?_⟩
  · have e1 : wPM.constant = [.null 0] := by decide +kernel
    have e2 : wPM.groups = [([.prim .U], 1), ([.prim .S, .prim .B, .prim .T], 1)] := by decide +kernel
    rw [DisjointPM, e1, e2]
    decide +kernel
  · have : (match wPM.singularSequences with
      | .ok L => L.any fun m => wPM.groups.any fun g => g.2 == 1 && takenFrom g m == 2
      | .error _ => false) = true := by decide +kernel
    split at this
    · rename_i L hL
      exact ⟨L, hL, by simpa using this⟩
    · cases this

-- The hypotheses hold for `A: m1(S: B:) m2(U: T:)`: both groups have the smallest size.
example : let p := mkPM [.prim .A] [([.prim .S, .prim .B], 1), ([.prim .U, .prim .T], 2)]
    p.check = true ∧ p.singularSequences.map (·.map (·.text)) = .ok [c!"A:", c!"U: A:", c!"A: T:", c!"A: S:", c!"A: B:",
      c!"U: A: S:", c!"U: A: B:", c!"A: S: T:", c!"A: B: T:", c!"U: A: S: T:", c!"U: A: B: T:"] := by decide +kernel

/-! ### C44 -/

/-- **C44, exact form.** A polymorpheme has at least one singular sequence exactly when it has no groups or at most 5 different
constants.  Missing: it fails with more constants, see `C44_violated`. -/
theorem C44_nonempty_iff_partial {cs : List Script} {gs : List Group} :
    ∃ n, (mkPM cs gs).cardinal = .ok n ∧ (1 ≤ n ↔ gs = [] ∨ distinct (mkPM cs gs).constant ≤ 5) := by
  by_cases hgs : gs = []
  · subst hgs
    exact ⟨1, by simp [PM.cardinal, PM.singularSequences, mkPM, pySort, Except.map], by simp⟩
  have hne : (mkPM cs gs).groups ≠ [] := by
    intro h
    have := length_pySort ltGroup (gs.map fun g => (pySort lt (filterEmpty g.1), g.2))
    have h' : pySort ltGroup (gs.map fun g => (pySort lt (filterEmpty g.1), g.2)) = [] := h
    rw [h'] at this
    simp only [List.length_nil, List.length_map] at this
    exact hgs (List.length_eq_zero_iff.1 this.symm)
  obtain ⟨L, h1, _, h3, h4⟩ := pmSequences_spec (mkPM cs gs).constant (mkPM cs gs).groups
  obtain ⟨m1, m2⟩ := mem_groupCombinations hne (minLen_spec hne)
  have hcne : (mkPM cs gs).constant ≠ [] := by
    simp only [mkPM]; split
    · simp
    · rename_i h; simpa using h
  refine ⟨L.length, ?_, ?_⟩
  · rw [PM.cardinal, PM.singularSequences, if_neg (by simp [hne]), h1]; rfl
  · simp only [hgs, false_or]
    constructor
    · intro hl
      obtain ⟨m, hm⟩ := List.exists_mem_of_length_pos hl
      obtain ⟨gs', _, hf, _⟩ := h3 m hm
      have := hf.2
      rw [length_dedupBy_str] at this
      refine Nat.le_trans (Finset.card_le_card ?_) this
      intro t ht
      simp only [List.mem_toFinset, List.map_append, List.mem_append] at ht ⊢
      exact .inr ht
    · intro hd
      have hsel : Selection (mkPM cs gs).groups (minLen (mkPM cs gs).groups) 0 ((mkPM cs gs).groups.map fun _ => []) := by
        refine ⟨by omega, fun _ _ => by omega, ?_⟩
        rw [List.forall₂_map_left_iff, List.forall₂_same]
        intro g _
        exact ⟨List.nil_sublist _, .inl rfl⟩
      obtain ⟨gs', hgs', hp⟩ := m2 _ _ hsel
      have hfl : gs'.flatten = [] := by
        have := hp.flatten
        have e : ((mkPM cs gs).groups.map fun _ => ([] : List Script)).flatten = [] := by simp
        rw [e] at this
        exact this.eq_nil
      have hf : Fits (mkPM cs gs).constant gs' := by
        rw [Fits, length_dedupBy_str, hfl, List.nil_append]
        refine ⟨?_, hd⟩
        rw [← length_dedupBy_str, ne_eq, List.length_eq_zero_iff]
        exact dedupBy_ne_nil str hcne
      obtain ⟨m, hm, _⟩ := h4 gs' hgs' hf
      exact List.length_pos_iff.2 (List.ne_nil_of_mem hm)

/-- Six constants and a group. -/
def wBig : PM := mkPM [.prim .U, .prim .A, .prim .S, .prim .B, .prim .T, .mult (.prim .U) (.null 0) (.null 0)]
  [([.mult (.prim .A) (.null 0) (.null 0)], 1)]

/-- **C44 is false in general**: six constants and a group, accepted by `check`, have no singular sequence. -/
theorem C44_violated : wBig.check = true ∧ wBig.cardinal = .ok 0 := by decide +kernel

-- Three constants and a group: two sequences.
example : (mkPM [.prim .U, .prim .A, .prim .S] [([.prim .T], 1)]).cardinal = .ok 2 ∧
    distinct (mkPM [.prim .U, .prim .A, .prim .S] [([.prim .T], 1)]).constant = 3 := by decide +kernel

end Verif
