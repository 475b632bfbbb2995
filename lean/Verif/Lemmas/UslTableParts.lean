import Verif.Lemmas.UslTableRows

/-
Lemmas on the tables of polymorphemes by the paths of their groups: `constant_paths`, the columns and the rows.
-/

namespace Verif
open Script

/-- A morpheme that can be written and read again. -/
def Sound (x : Script) : Prop := Orderly x ∧ Readable x

theorem sound_null : Sound (.null 0) := ⟨⟨wf_built (.null (Nat.zero_le _)), .inl (by simp [NotOneTermSum])⟩, by show oldPrefix _ = false; decide +kernel⟩

theorem Sound.wf {x : Script} (h : Sound x) : WF x := built_wf h.1.1

/-- The polymorphemes whose tables are treated: see `Legible` and `Separable`. -/
structure Tabular (p : PM) : Prop where
  ok : OkPM p
  constant : ∀ x ∈ p.constant, Sound x
  groups : ∀ g ∈ p.groups, ∀ x ∈ g.1, Sound x ∧ x.empty = false
  full : ∀ g ∈ p.groups, g.1 ≠ []
  sep : Separable p

theorem tabular_of {cs : List Script} {gs : List Group} (h : Legible cs gs) (hs : Separable (mkPM cs gs)) : Tabular (mkPM cs gs) := by
  have hok : OkPM (mkPM cs gs) := ⟨cs, gs, rfl, fun x hx => (h.constant x hx).1, fun g hg x hx => (h.groups g hg x hx).1⟩
  refine ⟨hok, fun x hx => ⟨(okPM_orderly hok).1 x hx, (constant_wf h hx).2⟩, fun g hg x hx => ⟨⟨(okPM_orderly hok).2 g hg x hx, (h.wfG g hg x hx).2⟩, ?_⟩, h.fullG, hs⟩
  exact (C41_contents cs gs).2.2 g hg x hx

theorem Tabular.pairs {p : PM} (h : Tabular p) {e : GIdx × Script} (he : e ∈ pmPairs p) : Sound e.2 := by
  rcases mem_pmPairs.1 he with ⟨_, h1⟩ | ⟨g, hg, h1⟩
  · exact h.constant _ h1
  · exact (h.groups g (partAt_mem hg) _ h1).1

theorem Tabular.mult {p : PM} (h : Tabular p) (g : GIdx) : 0 < multAt p g ∧ multAt p g ≤ 9 := by
  unfold multAt
  split
  · next x hx => exact ⟨(h.sep.groups x (partAt_mem hx)).2.1, (h.sep.groups x (partAt_mem hx)).2.2⟩
  · omega

/-! ### The polymorpheme of one group -/

theorem one_group (G : Group) : (mkPM [] [G]).constant = [.null 0] ∧ (mkPM [] [G]).groups = [(pySort lt (filterEmpty G.1), G.2)] := by
  constructor <;> rfl

theorem none_constant (gs : List Group) : (mkPM [] gs).constant = [.null 0] := rfl

/-- The parts of the groups of a polymorpheme. -/
theorem Tabular.part {p : PM} (h : Tabular p) {gs : List Group} (hgs : ∀ g ∈ gs, g ∈ p.groups) : OkPM (mkPM [] gs) ∧
    ∀ g ∈ (mkPM [] gs).groups, ∃ g' ∈ gs, g.2 = g'.2 ∧ g.1.Perm g'.1 := by
  refine ⟨⟨[], gs, rfl, by simp, fun g hg x hx => (h.groups g (hgs g hg) x hx).1.1⟩, fun g hg => ?_⟩
  simp only [mkPM, mem_pySort, List.mem_map] at hg
  obtain ⟨g', hg', rfl⟩ := hg
  refine ⟨g', hg', rfl, (pySort_perm lt _).trans (List.Perm.of_eq ?_)⟩
  rw [filterEmpty, List.filter_eq_self]
  intro x hx
  simp [(h.groups g' (hgs g' hg') x hx).2]

/-- Every morpheme of the groups is in a sequence of them; so there are several sequences. -/
theorem Tabular.several {p : PM} (h : Tabular p) {gs : List Group} (hgs : ∀ g ∈ gs, g ∈ p.groups) {L : List PM} (hL : (mkPM [] gs).singularSequences = .ok L) :
    (∀ g ∈ gs, ∀ x ∈ g.1, ∃ m ∈ L, ∃ y ∈ m.constant, y.str = x.str) ∧ (gs ≠ [] → L.length ≠ 1) := by
  obtain ⟨hok, hmem⟩ := h.part hgs
  by_cases hne : gs = []
  · subst hne
    exact ⟨by simp, fun h => absurd rfl h⟩
  have hgne : (mkPM [] gs).groups ≠ [] := by
    intro e
    simp only [mkPM] at e
    have := congrArg List.length e
    rw [length_pySort, List.length_map] at this
    exact hne (List.length_eq_zero_iff.1 this)
  have hml := minLen_spec hgne
  obtain ⟨L', l1, l2, l3, l4⟩ := (C43_sequences_partial (cs := []) (gs := gs) (by simp) fun g hg x hx => (h.groups g (hgs g hg) x hx).1.1.1).2 _ hml
  rw [hL, Except.ok.injEq] at l1
  subst l1
  -- taking nothing, and taking one morpheme
  have hnone : ∀ a : List Group, List.Forall₂ (Takes (minLen (mkPM [] gs).groups) 0) (a.map fun _ => []) a := by
    intro a
    induction a with
    | nil => exact .nil
    | cons x a ih => exact .cons ⟨List.nil_sublist _, .inl rfl⟩ ih
  have hflat : ∀ a : List Group, (a.map fun _ => ([] : List Script)).flatten = [] := by
    intro a
    induction a with
    | nil => rfl
    | cons x a ih => simp
  have hs0 : Selection (mkPM [] gs).groups (minLen (mkPM [] gs).groups) 0 ((mkPM [] gs).groups.map fun _ => []) := ⟨by omega, by simp, hnone _⟩
  have hone : ∀ g ∈ (mkPM [] gs).groups, ∀ x ∈ g.1, ∃ sels, Selection (mkPM [] gs).groups (minLen (mkPM [] gs).groups) 0 sels ∧ sels.flatten = [x] := by
    intro g hg x hx
    obtain ⟨a, b, e⟩ := List.append_of_mem hg
    obtain ⟨g', hg', e2, _⟩ := hmem g hg
    have hm := (h.sep.groups g' (hgs g' hg')).2.1
    refine ⟨(a.map fun _ => []) ++ [x] :: b.map fun _ => [], ⟨by omega, by simp, ?_⟩, ?_⟩
    · have hnone' := hnone
      have ht : Takes (minLen (mkPM [] gs).groups) 0 [x] g := ⟨List.singleton_sublist.2 hx, .inr ⟨rfl, .inl (by rw [e2]; omega)⟩⟩
      have hall := List.rel_append (hnone' a) (List.Forall₂.cons ht (hnone' b))
      show List.Forall₂ _ _ _
      rw [show (mkPM [] gs).groups = a ++ g :: b from e] at hall ⊢
      exact hall
    · rw [List.flatten_append, List.flatten_cons, hflat, hflat]
      rfl
  have hdist : ∀ l : List Script, distinct l ≤ l.length := by
    intro l
    unfold distinct
    exact (List.toFinset_card_le _).trans (by simp)
  have hc : ∀ g ∈ gs, ∀ x ∈ g.1, ∃ m ∈ L, ∃ y ∈ m.constant, y.empty = false ∧ y.str = x.str := by
    intro g hg x hx
    have he := (h.groups g (hgs g hg) x hx).2
    have : ∃ g' ∈ (mkPM [] gs).groups, x ∈ g'.1 := by
      refine ⟨(pySort lt (filterEmpty g.1), g.2), ?_, ?_⟩
      · simp only [mkPM, mem_pySort, List.mem_map]
        exact ⟨g, hg, rfl⟩
      · rw [mem_pySort, mem_filterEmpty]
        exact ⟨hx, he⟩
    obtain ⟨g', hg', hx'⟩ := this
    obtain ⟨sels, hs, hf⟩ := hone g' hg' x hx'
    obtain ⟨m, hm, hga⟩ := l4 0 sels hs (by
      rw [hf, none_constant]
      exact (hdist _).trans (by simp))
    obtain ⟨y, ⟨hy, hye⟩, e⟩ := (hga.mem x.str).2 ⟨x, ⟨by rw [hf]; simp, he⟩, rfl⟩
    exact ⟨m, hm, y, hy, hye, e⟩
  refine ⟨fun g hg x hx => ?_, fun _ hlen => ?_⟩
  · obtain ⟨m, hm, y, hy, _, e⟩ := hc g hg x hx
    exact ⟨m, hm, y, hy, e⟩
  · obtain ⟨m0, hL0⟩ := List.length_eq_one_iff.1 hlen
    obtain ⟨g, hg⟩ := List.exists_mem_of_ne_nil gs hne
    obtain ⟨x, hx⟩ := List.exists_mem_of_ne_nil _ (h.full g (hgs g hg))
    obtain ⟨m, hm, y, hy, hye, e⟩ := hc g hg x hx
    obtain ⟨m', hm', hga⟩ := l4 0 _ hs0 (by
      rw [hflat, none_constant]
      exact (hdist _).trans (by simp))
    rw [hL0, List.mem_singleton] at hm hm'
    subst hm hm'
    obtain ⟨z, ⟨hz, hze⟩, _⟩ := (hga.mem y.str).1 ⟨y, ⟨hy, hye⟩, rfl⟩
    rw [hflat, none_constant] at hz
    simp only [List.nil_append, List.mem_singleton] at hz
    subst hz
    simp [Script.empty] at hze

/-- The morphemes of the sequences of groups. -/
theorem Tabular.seq {p : PM} (h : Tabular p) {gs : List Group} (hgs : ∀ g ∈ gs, g ∈ p.groups) {L : List PM} (hL : (mkPM [] gs).singularSequences = .ok L)
    {m : PM} (hm : m ∈ L) {x : Script} (hx : x ∈ m.constant) : Sound x ∧ (x = .null 0 ∨ ∃ g ∈ gs, x ∈ g.1) := by
  obtain ⟨_, hmem⟩ := h.part hgs
  rcases seq_constant hL hm hx with rfl | hx | ⟨g, hg, hx⟩
  · exact ⟨sound_null, .inl rfl⟩
  · rw [none_constant, List.mem_singleton] at hx
    subst hx
    exact ⟨sound_null, .inl rfl⟩
  · obtain ⟨g', hg', _, hp⟩ := hmem g hg
    exact ⟨(h.groups g' (hgs g' hg') x (hp.mem_iff.1 hx)).1, .inr ⟨g', hg', hp.mem_iff.1 hx⟩⟩

theorem ok_then {ε α β : Type} (a : α) (f : α → Except ε β) : (Except.ok a >>= f) = f a := rfl

/-! ### The cases of tables -/

theorem partAt_idx {p : PM} {i : GIdx} {G : Group} (h : partAt p i = some G) : i ∈ [GIdx.g0, .g1, .g2] := by
  cases i with
  | constant => cases h
  | _ => simp

theorem TableCase.usl {p : PM} {T : Table2D} {i : GIdx} {R S : List GIdx} (h : TableCase p T i R S) : T.usl = .pm p := by cases h <;> rfl

theorem TableCase.column {p : PM} {T : Table2D} {i : GIdx} {R S : List GIdx} (h : TableCase p T i R S) : ∃ G, partAt p i = some G ∧ T.columns = [.pm i none (some G.2)] := by
  cases h with
  | rows h1 _ _ => exact ⟨_, h1, rfl⟩
  | all h1 => exact ⟨_, h1, rfl⟩

theorem TableCase.place {p : PM} {T : Table2D} {i : GIdx} {R S : List GIdx} (h : TableCase p T i R S) :
    (∀ g, (partAt p g).isSome → g = i ∨ g ∈ R ∨ (g ∈ S ∨ T.rows = none)) ∧ (∀ g ∈ R, (partAt p g).isSome ∧ g ≠ i) ∧ (∀ g ∈ S, (partAt p g).isSome ∧ g ≠ i ∧ g ∉ R) ∧ R.Nodup ∧
    R = [GIdx.g0, .g1, .g2].filter (fun g => decide (g ∈ R)) ∧ S = [GIdx.g0, .g1, .g2].filter fun g => decide (g ∈ S) := by
  cases h with
  | @rows i j G H h1 h2 h3 =>
    refine ⟨fun g hg => ?_, fun g hg => ?_, fun g hg => ?_, by simp, ?_, ?_⟩
    · obtain ⟨x, hx⟩ := Option.isSome_iff_exists.1 hg
      by_cases e1 : g = i
      · exact .inl e1
      · by_cases e2 : g = j
        · exact .inr (.inl (by simp [e2]))
        · refine .inr (.inr (.inl (List.mem_filter.2 ⟨partAt_idx hx, ?_⟩)))
          simp [e1, e2, hg]
    · rw [List.mem_singleton] at hg
      subst hg
      exact ⟨by simp [h2], Ne.symm h3⟩
    · simp only [List.mem_filter, Bool.and_eq_true, decide_eq_true_eq] at hg
      exact ⟨hg.2.2, hg.2.1.1, by simpa using hg.2.1.2⟩
    · cases j with
      | constant => cases h2
      | _ => rfl
    · refine List.filter_congr fun g hg => ?_
      simp only [List.mem_filter, hg, true_and]
      simp
  | @all i G h1 =>
    refine ⟨fun g hg => .inr (.inr (.inr rfl)), fun g hg => ?_, by simp, ?_, ?_, by simp⟩
    · simp only [List.mem_filter, Bool.and_eq_true, decide_eq_true_eq] at hg
      exact ⟨hg.2.2, hg.2.1⟩
    · exact List.Nodup.filter _ (by decide)
    · refine List.filter_congr fun g hg => ?_
      simp only [List.mem_filter, hg, true_and]
      simp

/-- The constants and the groups that are neither in the rows nor in the columns. -/
def keptPairs (p : PM) (S : List GIdx) : List (GIdx × Script) := (pmPairs p).filter fun e => decide (e.1 = .constant) || decide (e.1 ∈ S)

theorem pairPath_true (K : GIdx → Nat) (e : GIdx × Script) : pairPath K (fun _ => true) e = ([.pm e.1 (some e.2) (if e.1 = .constant then none else some (K e.1))], e.2) := by
  simp [pairPath]

theorem constantPaths_eq {p : PM} {T : Table2D} {i : GIdx} {R S : List GIdx} (h : TableCase p T i R S) :
    T.constantPaths = .ok ((keptPairs p S).map (pairPath (multAt p) fun _ => true)) := by
  have key : ∀ {i : GIdx} {G : Group}, partAt p i = some G → ∀ e : GIdx × Script, hasPrefix (pairPath (multAt p) (fun _ => true) e).1 [.pm i none (some G.2)] = .ok (decide (e.1 = i)) := by
    intro i G hG e
    rw [pairPath_true, hasPrefix_some]
    by_cases hi : e.1 = i
    · have : i ≠ .constant := by rintro rfl; cases hG
      simp [hi, this, multAt_of hG]
    · simp [hi]
  unfold Table2D.constantPaths
  rw [h.usl, scripts_pm]
  unfold keptPairs
  cases h with
  | @rows i j G H h1 h2 h3 =>
    show List.filterM (m := Except Err) _ _ = _
    rw [filterM_ok (g := fun e => match e.1 with | [.pm g _ _] => !decide (g = j) && !decide (g = i) | _ => false)]
    · rw [List.filter_map]
      congr 2
      refine List.filter_congr fun e he => ?_
      simp only [Function.comp_apply, pairPath]
      rcases mem_pmPairs.1 he with ⟨h4, _⟩ | ⟨x, hx, _⟩
      · have e1 : GIdx.constant ≠ j := by rintro rfl; cases h2
        have e2 : GIdx.constant ≠ i := by rintro rfl; cases h1
        simp [h4, e1, e2]
      · have := partAt_idx hx
        have hc : e.1 ≠ .constant := by intro e'; rw [e'] at hx; cases hx
        simp only [List.mem_filter, this, true_and, hx, Option.isSome_some, Bool.and_true, hc, decide_false, Bool.false_or, Bool.and_eq_true, decide_eq_true_eq, ne_eq]
        by_cases e1 : e.1 = i <;> by_cases e2 : e.1 = j <;> simp [e1, e2]
    · intro x hx
      obtain ⟨e, he, rfl⟩ := List.mem_map.1 hx
      simp only
      rw [key h2, key h1]
      by_cases e2 : e.1 = j
      · simp [e2, pairPath, bind, Except.bind, pure, Except.pure]
      · simp [e2, pairPath, bind, Except.bind, pure, Except.pure]
  | @all i G h1 =>
    show List.filterM (m := Except Err) _ _ = _
    rw [filterM_ok (g := fun e => match e.1 with | [.pm g _ _] => !decide (g = i) && decide (g = .constant) | _ => false)]
    · rw [List.filter_map]
      congr 2
      refine List.filter_congr fun e he => ?_
      simp only [Function.comp_apply, pairPath]
      have e2 : GIdx.constant ≠ i := by rintro rfl; cases h1
      by_cases hc : e.1 = .constant
      · simp [hc, e2]
      · simp [hc]
    · intro x hx
      obtain ⟨e, he, rfl⟩ := List.mem_map.1 hx
      simp only
      rw [key h1]
      by_cases e2 : e.1 = i
      · simp [e2, pairPath, bind, Except.bind, pure, Except.pure]
      · simp [e2, pairPath, bind, Except.bind, pure, Except.pure, isConstantPath, Step.isConstant]

/-! ### Assembly without a given result -/

/-- The morphemes of a place, each once. -/
def placed (l : List (GIdx × Script)) (g : GIdx) : List Script := dedupBy str ((l.filter fun e => e.1 = g).map Prod.snd)

theorem mem_placed {l : List (GIdx × Script)} {g : GIdx} {x : Script} (h : x ∈ placed l g) : (g, x) ∈ l := by
  obtain ⟨e, he, rfl⟩ := List.mem_map.1 (mem_dedupBy (key := str) h)
  obtain ⟨h1, h2⟩ := List.mem_filter.1 he
  have : e.1 = g := by simpa using h2
  rw [← this]
  exact h1

theorem placed_names {l : List (GIdx × Script)} (hl : ∀ e ∈ l, Sound e.2) (g : GIdx) : PlaceNames l g (placed l g) := by
  refine ⟨fun x hx => (hl _ (mem_placed hx)).1, ?_, fun t => ?_⟩
  · have := dedupBy_pairwise (key := str) ((l.filter fun e => e.1 = g).map Prod.snd)
    rw [List.Nodup, List.pairwise_map]
    exact this.filter _
  · constructor
    · rintro ⟨x, ⟨hx, he⟩, rfl⟩
      exact ⟨(g, x), mem_placed hx, rfl, he, rfl⟩
    · rintro ⟨e, he, rfl, h1, rfl⟩
      have hm : e.2 ∈ (l.filter fun x => x.1 = e.1).map Prod.snd := List.mem_map.2 ⟨e, List.mem_filter.2 ⟨he, by simp⟩, rfl⟩
      obtain ⟨y, hy, e'⟩ := dedupBy_complete (key := str) hm
      refine ⟨y, ⟨hy, ?_⟩, e'⟩
      rw [empty_of_str (hl _ (mem_placed hy)).wf (hl e he).wf e']
      exact h1

theorem assemble_placed {ord : List Expr → List Expr} (ho : Rearranges ord) {K : GIdx → Nat} (hK : ∀ g, 0 < K g ∧ K g ≤ 9) (st : GIdx → Bool)
    {l : List (GIdx × Script)} (hl : ∀ e ∈ l, Sound e.2) (hne : l ≠ []) :
    ∃ q, uslOf ord (l.map (pairPath K st)) = .ok (.pm q) ∧ SamePM q (mkPM (placed l .constant) (groupsOf K (placed l))) ∧ OkPM q := by
  refine assemble_pairs ho hK st (fun e he => ⟨(hl e he).wf, (hl e he).2⟩) hne (placed_names hl _) (fun g _ => placed_names hl g) fun g _ => ?_
  constructor
  · intro h e he e'
    have hm : e.2 ∈ (l.filter fun x => x.1 = g).map Prod.snd := List.mem_map.2 ⟨e, List.mem_filter.2 ⟨he, by simpa using e'⟩, rfl⟩
    obtain ⟨y, hy, _⟩ := dedupBy_complete (key := str) hm
    have : y ∈ placed l g := hy
    rw [h] at this
    cases this
  · intro h
    cases hp : placed l g with
    | nil => rfl
    | cons x t => exact absurd rfl (h (g, x) (mem_placed (by rw [hp]; simp)))

theorem keptPairs_sound {p : PM} (h : Tabular p) (S : List GIdx) : ∀ e ∈ keptPairs p S, Sound e.2 := fun _ he => h.pairs (List.mem_filter.1 he).1

theorem keptPairs_ne {p : PM} (h : Tabular p) (S : List GIdx) : keptPairs p S ≠ [] := by
  have hne : p.constant ≠ [] := by
    obtain ⟨cs, gs, rfl, _⟩ := h.ok
    exact constant_ne cs gs
  obtain ⟨x, hx⟩ := List.exists_mem_of_ne_nil _ hne
  exact List.ne_nil_of_mem (a := (.constant, x)) (List.mem_filter.2 ⟨mem_pmPairs.2 (.inl ⟨rfl, hx⟩), by simp⟩)

/-- Morphemes as constants. -/
def asPairs (ms : List Script) : List (GIdx × Script) := ms.map fun m => (.constant, m)

theorem deference_group {p : PM} {i : GIdx} {G : Group} (h : partAt p i = some G) (k : Option Nat) : deference [.pm i none k] (.expr (.pm p)) = .ok (.expr (.pm (mkPM [] [G]))) := by
  unfold partAt at h
  cases hi : i.index with
  | none => rw [hi] at h; cases h
  | some n =>
    rw [hi] at h
    simp only at h
    simp [deference, Step.reach, hi, h, bind, Except.bind]

theorem node_sequences (p : PM) {L : List PM} (h : p.singularSequences = .ok L) : (Node.expr (.pm p)).sequences = .ok (L.map fun x => .expr (.pm x)) := by
  simp [Node.sequences, h, bind, Except.bind, pure, Except.pure]

theorem sorted_keys {α : Type} {Q : α → PM} {l : List α} (h : ∀ a ∈ l, OkPM (Q a)) : (pySort (fun a b => (Q a).lt (Q b)) l).Pairwise fun a b => (Q b).lt (Q a) = false := by
  have hk : ∀ a ∈ l, ∀ b ∈ l, (Q a).lt (Q b) = ltBytes (codePM (Q a)) (codePM (Q b)) := by
    intro a ha b hb
    have := codePM_lt (h a ha) (h b hb) [] []
    rw [List.append_nil, List.append_nil] at this
    rw [this]
    split
    · next e => rw [ltPM_same (h a ha) (h b hb) e]; rfl
    · rfl
  refine (pySort_sorted _ hk).imp_of_mem fun {a b} ha hb e => ?_
  rw [hk b ((mem_pySort _).1 hb) a ((mem_pySort _).1 ha)]
  exact e

/-- **The columns.** Their variations are the sequences of the group, sorted. -/
theorem columnVariation_eq {ord : List Expr → List Expr} (ho : Rearranges ord) {p : PM} (hp : Tabular p) {T : Table2D} {i : GIdx} {R S : List GIdx} (h : TableCase p T i R S) :
    ∃ (G : Group) (A A' : List PM), partAt p i = some G ∧ (mkPM [] [G]).singularSequences = .ok A ∧ A'.Perm A ∧
      T.columnVariation ord = .ok (A'.map fun a => (a.constant.map fun m => (i, m)).map (pairPath (multAt p) fun _ => false)) ∧
      ∃ Q : PM → PM, (∀ a ∈ A, uslOf ord ((asPairs a.constant ++ keptPairs p S).map (pairPath (multAt p) fun _ => true)) = .ok (.pm (Q a)) ∧ OkPM (Q a)) ∧
        A'.Pairwise fun a b => (Q b).lt (Q a) = false := by
  obtain ⟨G, hG, hcol⟩ := h.column
  have hic : i ≠ .constant := by rintro rfl; cases hG
  obtain ⟨A, hA⟩ := pm_total (mkPM [] [G])
  have hgs : ∀ g ∈ [G], g ∈ p.groups := by simpa using partAt_mem hG
  -- the dictionary
  have hd : ((pmPairs (mkPM [] [G])).map (pairPath (multAt (mkPM [] [G])) fun _ => true)).mapM
      (fun e => (do return (← withoutMorpheme e.1, e.2) : Except Err (Path × Script))) =
      .ok ((pmPairs (mkPM [] [G])).map (pairPath (multAt (mkPM [] [G])) fun _ => false)) :=
    mapM_map fun e _ => by simp [pairPath, withoutMorpheme, bind, Except.bind, pure, Except.pure]
  have hget : ∀ a ∈ A, ∀ m ∈ a.constant, ∃ g k, Table2D.pathOf (Table2D.lastPath ((pmPairs (mkPM [] [G])).map (pairPath (multAt (mkPM [] [G])) fun _ => false))) m = .ok [.pm g none k] := by
    intro a ha m hm
    have hex : ∃ e ∈ (pmPairs (mkPM [] [G])).map (pairPath (multAt (mkPM [] [G])) fun _ => false), e.2.str = m.str := by
      rcases (hp.seq hgs hA ha hm).2 with rfl | ⟨g, hg, hx⟩
      · exact ⟨_, List.mem_map_of_mem (mem_pmPairs.2 (.inl ⟨rfl, by rw [none_constant]; simp⟩) : (GIdx.constant, Script.null 0) ∈ pmPairs (mkPM [] [G])), rfl⟩
      · rw [List.mem_singleton] at hg
        subst hg
        refine ⟨_, List.mem_map_of_mem (mem_pmPairs.2 (.inr ⟨(pySort lt (filterEmpty g.1), g.2), rfl, ?_⟩) : (GIdx.g0, m) ∈ pmPairs (mkPM [] [g])), rfl⟩
        rw [mem_pySort, mem_filterEmpty]
        exact ⟨hx, (hp.groups g (hgs g (by simp)) m hx).2⟩
    obtain ⟨e, he, _, h2⟩ := lastPath_get hex
    obtain ⟨f, _, rfl⟩ := List.mem_map.1 he
    exact ⟨f.1, _, by rw [h2]; rfl⟩
  let F : PM → List (Path × Script) := fun a => (a.constant.map fun m => (i, m)).map (pairPath (multAt p) fun _ => false)
  have hF : ∀ (a : PM) m, (m ∈ a.constant) → (([.pm i none (some G.2)], m) : Path × Script) = pairPath (multAt p) (fun _ => false) (i, m) := by
    intro a m _
    simp [pairPath, hic, multAt_of hG]
  -- the keys
  have hkey : ∀ a ∈ A, ∃ q, (do
      let c ← T.constantPaths
      uslOf ord ((F a).map (fun e : Path × Script => (asConstant (some e.2) e.1, e.2)) ++ c)) = .ok (Expr.pm q) ∧
      uslOf ord ((asPairs a.constant ++ keptPairs p S).map (pairPath (multAt p) fun _ => true)) = .ok (.pm q) ∧ OkPM q := by
    intro a ha
    have hl : ∀ e ∈ asPairs a.constant ++ keptPairs p S, Sound e.2 := by
      intro e he
      rcases List.mem_append.1 he with he | he
      · obtain ⟨m, hm, rfl⟩ := List.mem_map.1 he
        exact (hp.seq hgs hA ha hm).1
      · exact keptPairs_sound hp S e he
    obtain ⟨q, h1, _, h2⟩ := assemble_placed ho hp.mult (fun _ => true) hl (by simp [keptPairs_ne hp S])
    refine ⟨q, ?_, h1, h2⟩
    rw [constantPaths_eq h]
    show uslOf ord _ = _
    rw [← h1]
    congr 1
    simp only [F, asPairs, List.map_append, List.map_map]
    congr 1
  choose! Q hQ using hkey
  refine ⟨G, A, pySort (fun a b => (Q a).lt (Q b)) A, hG, hA, pySort_perm _ _, ?_, Q, fun a ha => (hQ a ha).2, sorted_keys fun a ha => (hQ a ha).2.2⟩
  unfold Table2D.columnVariation
  rw [h.usl, hcol, deference_group hG]
  rw [ok_then, scripts_pm, ok_then, hd, ok_then]
  simp only []
  rw [node_sequences _ hA, ok_then]
  rw [mapM_map (g := F), ok_then]
  · have hs := sortKeyed_pm (key := fun l => (do
      let c ← T.constantPaths
      uslOf ord (l.map (fun e : Path × Script => (asConstant (some e.2) e.1, e.2)) ++ c) : Except Err Expr)) (l := A.map F)
      (Q := fun l => match (do
        let c ← T.constantPaths
        uslOf ord (l.map (fun e : Path × Script => (asConstant (some e.2) e.1, e.2)) ++ c) : Except Err Expr) with | .ok (.pm q) => q | _ => mkPM [] []) (by
      intro l hl
      obtain ⟨a, ha, rfl⟩ := List.mem_map.1 hl
      rw [(hQ a ha).1])
    rw [hs, pySort_map' (lt := fun a b => (Q a).lt (Q b))]
    intro a ha b hb
    simp only [(hQ a ha).1, (hQ b hb).1]
  · intro a ha
    rw [scripts_single (pm_sequence hA ha).1 (multAt p), ok_then, List.map_map, mapM_map (g := fun m => (([.pm i none (some G.2)], m) : Path × Script))]
    · congr 1
      simp only [F, List.map_map]
      exact List.map_congr_left fun m hm => hF a m hm
    · intro m hm
      obtain ⟨g, k, hgk⟩ := hget a ha m hm
      simp only [Function.comp_apply, pairPath]
      rw [hgk, ok_then, concat_none]
      rfl

end Verif
