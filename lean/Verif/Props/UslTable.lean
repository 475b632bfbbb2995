import Verif.Lemmas.UslTableCells
import Verif.Props.FromPathsLexeme

/-
Property C80: the cells, the rows and the columns of the tables of USLs by paths.
-/

namespace Verif
open Script

theorem partsAt_eq (p : PM) (Y : List GIdx) : partsAt p Y = ([GIdx.g0, .g1, .g2].filter fun g => decide (g ∈ Y)).filterMap (partAt p) := by
  unfold partsAt
  rw [List.filterMap_filter]
  refine List.filterMap_congr fun g _ => ?_
  by_cases h : g ∈ Y <;> simp [h]

theorem partsAt_one {p : PM} {i : GIdx} {G : Group} (h : partAt p i = some G) : partsAt p [i] = [G] := by
  have := partAt_idx h
  cases i with
  | constant => cases h
  | _ => simp [partsAt, h]

theorem mem_partsAt {p : PM} {Y : List GIdx} {G : Group} : G ∈ partsAt p Y ↔ ∃ g ∈ Y, partAt p g = some G := by
  unfold partsAt
  rw [List.mem_filterMap]
  constructor
  · rintro ⟨g, _, h⟩
    split at h
    · next hg => exact ⟨g, hg, h⟩
    · cases h
  · rintro ⟨g, hg, h⟩
    exact ⟨g, partAt_idx h, by rw [if_pos hg]; exact h⟩

theorem composed_same {ms ms' : List Script} {gs : List Group} {q : PM} (h : SameMeant ms ms') (hq : Composed ms gs q) : Composed ms' gs q := by
  obtain ⟨C, h0, h1, h2, h3⟩ := hq
  exact ⟨C, h0, h1, fun t => (h2 t).trans (h t), h3⟩

theorem meant_append {a b : List Script} {t : Str} : (∃ x, Meant (a ++ b) x ∧ x.str = t) ↔ (∃ x, Meant a x ∧ x.str = t) ∨ ∃ x, Meant b x ∧ x.str = t := by
  simp only [Meant, List.mem_append]
  constructor
  · rintro ⟨x, ⟨h | h, he⟩, e⟩
    · exact .inl ⟨x, ⟨h, he⟩, e⟩
    · exact .inr ⟨x, ⟨h, he⟩, e⟩
  · rintro (⟨x, ⟨h, he⟩, e⟩ | ⟨x, ⟨h, he⟩, e⟩)
    · exact ⟨x, ⟨.inl h, he⟩, e⟩
    · exact ⟨x, ⟨.inr h, he⟩, e⟩

theorem sameMeant_append {a b c d : List Script} (h : SameMeant a b) (h' : SameMeant c d) : SameMeant (a ++ c) (b ++ d) := by
  intro t
  rw [meant_append, meant_append, h t, h' t]

/-- What the constants, further constants and whole groups make. -/
theorem assemble_composed {ord : List Expr → List Expr} (ho : Rearranges ord) {p : PM} (hp : Tabular p) (st : GIdx → Bool) {S Z : List GIdx}
    (hS : ∀ g ∈ S, (partAt p g).isSome) (hZ : ∀ g ∈ Z, (partAt p g).isSome) {ms : List Script} (hms : ∀ x ∈ ms, Sound x) {ex : List (GIdx × Script)}
    (hex : ∀ e ∈ ex, e.1 ∈ Z ∧ Sound e.2 ∧ (e.2 = .null 0 ∨ ∃ G, partAt p e.1 = some G ∧ e.2 ∈ G.1))
    (hall : ∀ g ∈ Z, ∀ G, partAt p g = some G → ∀ x ∈ G.1, ∃ e ∈ ex, e.1 = g ∧ e.2.str = x.str)
    {l : List (GIdx × Script)} (hll : ∀ e, e ∈ l ↔ e ∈ keptPairs p S ++ asPairs ms ++ ex) :
    ∃ q, uslOf ord (l.map (pairPath (multAt p) st)) = .ok (.pm q) ∧ Composed (p.constant ++ ms) (partsAt p (S ++ Z)) q ∧ OkPM q := by
  have hl : ∀ e ∈ l, Sound e.2 := by
    intro e he
    rw [hll] at he
    rcases List.mem_append.1 he with he | he
    · rcases List.mem_append.1 he with he | he
      · exact keptPairs_sound hp S e he
      · obtain ⟨m, hm, rfl⟩ := List.mem_map.1 he
        exact hms m hm
    · exact (hex e he).2.1
  have hcs : ∀ g, (partAt p g).isSome → g ≠ .constant := by rintro g h rfl; cases h
  have hSZ : ∀ g ∈ S ++ Z, (partAt p g).isSome := by
    intro g hg
    rcases List.mem_append.1 hg with hg | hg
    · exact hS g hg
    · exact hZ g hg
  have hk : ∀ {e}, e ∈ keptPairs p S ↔ (e.1 = .constant ∧ e.2 ∈ p.constant) ∨ e.1 ∈ S ∧ ∃ G, partAt p e.1 = some G ∧ e.2 ∈ G.1 := by
    intro e
    unfold keptPairs
    rw [List.mem_filter, mem_pmPairs]
    simp only [Bool.or_eq_true, decide_eq_true_eq]
    constructor
    · rintro ⟨h1 | ⟨G, hG, h1⟩, h2 | h2⟩
      · exact .inl h1
      · exact .inl h1
      · rw [h2] at hG; cases hG
      · exact .inr ⟨h2, G, hG, h1⟩
    · rintro (h1 | ⟨h2, h1⟩)
      · exact ⟨.inl h1, .inl h1.1⟩
      · exact ⟨.inr h1, .inr h2⟩
  obtain ⟨q, h1, h2, h3⟩ := assemble_groups ho hp st hl (by
    obtain ⟨x, hx⟩ := List.exists_mem_of_ne_nil _ (keptPairs_ne hp S)
    exact List.ne_nil_of_mem ((hll x).2 (by simp [hx]))) hSZ (by
    intro g hg t
    constructor
    · rintro ⟨e, he, rfl, h4, rfl⟩
      rw [hll] at he
      rcases List.mem_append.1 he with he | he
      · rcases List.mem_append.1 he with he | he
        · rcases hk.1 he with ⟨h, _⟩ | ⟨h, G, hG, h5⟩
          · exact absurd h hg
          · exact ⟨List.mem_append_left _ h, G, hG, _, h5, rfl⟩
        · obtain ⟨m, hm, rfl⟩ := List.mem_map.1 he
          exact absurd rfl hg
      · obtain ⟨h, _, h5 | ⟨G, hG, h5⟩⟩ := hex e he
        · rw [h5] at h4; simp [Script.empty] at h4
        · exact ⟨List.mem_append_right _ h, G, hG, _, h5, rfl⟩
    · rintro ⟨h, G, hG, x, hx, rfl⟩
      have hxe := hp.groups G (partAt_mem hG) x hx
      rcases List.mem_append.1 h with h | h
      · exact ⟨(g, x), by rw [hll]; simp only [List.mem_append]; exact .inl (.inl (hk.2 (.inr ⟨h, G, hG, hx⟩))), rfl, hxe.2, rfl⟩
      · obtain ⟨e, he, e1, e2⟩ := hall g h G hG x hx
        refine ⟨e, (hll e).2 (List.mem_append_right _ he), e1, ?_, e2⟩
        rw [empty_of_str (hex e he).2.1.wf hxe.1.wf e2]
        exact hxe.2) (by
    intro e he
    rw [hll] at he
    rcases List.mem_append.1 he with he | he
    · rcases List.mem_append.1 he with he | he
      · rcases hk.1 he with ⟨h, _⟩ | ⟨h, _⟩
        · exact .inl h
        · exact .inr (List.mem_append_left _ h)
      · obtain ⟨m, hm, rfl⟩ := List.mem_map.1 he
        exact .inl rfl
    · exact .inr (List.mem_append_right _ (hex e he).1))
  rw [← partsAt_eq] at h2
  refine ⟨q, h1, ⟨_, (placed_names hl .constant).orderly, (placed_names hl .constant).nodup, fun t => ?_, h2⟩, h3⟩
  rw [(placed_names hl .constant).mem, meant_append]
  constructor
  · rintro ⟨e, he, e1, e2, rfl⟩
    rw [hll] at he
    rcases List.mem_append.1 he with he | he
    · rcases List.mem_append.1 he with he | he
      · rcases hk.1 he with ⟨_, h⟩ | ⟨h, _⟩
        · exact .inl ⟨_, ⟨h, e2⟩, rfl⟩
        · exact absurd e1 (hcs _ (hS _ h))
      · obtain ⟨m, hm, rfl⟩ := List.mem_map.1 he
        exact .inr ⟨_, ⟨hm, e2⟩, rfl⟩
    · exact absurd e1 (hcs _ (hZ _ (hex e he).1))
  · rintro (⟨x, ⟨h, he⟩, rfl⟩ | ⟨x, ⟨h, he⟩, rfl⟩)
    · exact ⟨(.constant, x), by rw [hll]; simp only [List.mem_append]; exact .inl (.inl (hk.2 (.inl ⟨rfl, h⟩))), rfl, he, rfl⟩
    · exact ⟨(.constant, x), by rw [hll]; simp only [List.mem_append]; exact .inl (.inr (List.mem_map.2 ⟨x, h, rfl⟩)), rfl, he, rfl⟩

/-- **The table of a polymorpheme by its groups.** The columns are the sequences of the group of the columns and the rows those of the groups
of the rows (of the others, when no path of rows is given).  Every cell has the constants, the morphemes of its row and those of its column; every row USL has the
constants, the morphemes of the row and the group of the columns.  A column USL has the constants, the morphemes of the column and *all* the morphemes of the groups of the rows as constants.  The
other groups stay in all of them.  Rows and columns are in the order of the USLs that they make with the constants.

Missing for the full claim: words and lexemes, paths of constants, and the column USLs as paradigms (`C80_violated_columns`). -/
theorem C80_table_partial {ord : List Expr → List Expr} (ho : Rearranges ord) {ordP : List Path → List Path} (hP : ∀ l, (ordP l).Perm l)
    {cs : List Script} {gs : List Group} (hl : Legible cs gs) (hs : Separable (mkPM cs gs)) {T : Table2D} {i : GIdx} {R S : List GIdx} (hT : TableCase (mkPM cs gs) T i R S) :
    ∃ A B M rs ks, Variations (mkPM cs gs) [i] A ∧ Variations (mkPM cs gs) R B ∧ InOrder (mkPM cs gs) S A ∧ InOrder (mkPM cs gs) S B ∧
      T.cells ord ordP = .ok M ∧ T.rowUsls ord ordP = .ok rs ∧ T.columnUsls ord ordP = .ok ks ∧
      List.Forall₂ (fun b row => List.Forall₂ (fun a c => ∃ q, c = .pm q ∧ OkPM q ∧
        Composed ((mkPM cs gs).constant ++ (a.constant ++ b.constant)) (partsAt (mkPM cs gs) S) q) A row) B M ∧
      List.Forall₂ (fun b r => ∃ q, r = .pm q ∧ OkPM q ∧ Composed ((mkPM cs gs).constant ++ b.constant) (partsAt (mkPM cs gs) (S ++ [i])) q) B rs ∧
      List.Forall₂ (fun a k => ∃ q, k = .pm q ∧ OkPM q ∧
        Composed ((mkPM cs gs).constant ++ (a.constant ++ (partsAt (mkPM cs gs) R).flatMap Prod.fst)) (partsAt (mkPM cs gs) S) q) A ks := by
  have hp := tabular_of hl hs
  generalize hpp : mkPM cs gs = p at *
  obtain ⟨G, A0, A, hG, hA0, hA, hcv, QA, hQA, hsA⟩ := columnVariation_eq ho hp hT
  obtain ⟨B0, B, RB, hB0, hB, hall, hrv, QB, hQB, hsB⟩ := rowVariation_eq ho hP hp hT
  have hpl := hT.place
  have hi : i ≠ .constant := by rintro rfl; cases hG
  have hRp : R.filterMap (partAt p) = partsAt p R := by rw [partsAt_eq, ← hpl.2.2.2.2.1]
  have hgsA : ∀ g ∈ [G], g ∈ p.groups := by simpa using partAt_mem hG
  have hgsB : ∀ g ∈ R.filterMap (partAt p), g ∈ p.groups := by
    intro g hg
    obtain ⟨x, _, hx⟩ := List.mem_filterMap.1 hg
    exact partAt_mem hx
  have hS : ∀ g ∈ S, (partAt p g).isSome := fun g hg => (hpl.2.2.1 g hg).1
  have hAs : ∀ a ∈ A, ∀ x ∈ a.constant, Sound x := fun a ha x hx => (hp.seq hgsA hA0 (hA.mem_iff.1 ha) hx).1
  have hRs : ∀ r ∈ RB, ∀ x ∈ r, Sound x := by
    intro r hr
    obtain ⟨b, _, _, h⟩ := forall₂_mem_left hall hr
    exact h
  -- the constant forms
  have hcc : T.columnConstant ord = .ok (A.map fun a => (asPairs a.constant).map (pairPath (multAt p) fun _ => true)) := by
    unfold Table2D.columnConstant
    rw [hcv, ok_then]
    show Except.ok _ = _
    congr 1
    rw [List.map_map]
    refine List.map_congr_left fun a _ => ?_
    simp only [Function.comp_apply, asPairs, List.map_map]
    exact List.map_congr_left fun m _ => by simp [pairPath, asConstant]
  have hrc : T.rowConstant ord ordP = .ok (RB.map fun r => (asPairs r).map (pairPath (multAt p) fun _ => true)) := by
    unfold Table2D.rowConstant
    rw [hrv, ok_then]
    show Except.ok _ = _
    congr 1
    rw [List.map_map]
    refine List.map_congr_left fun a _ => ?_
    simp only [Function.comp_apply, asPairs, List.map_map]
    exact List.map_congr_left fun m _ => by simp [pairPath, asConstant]
  have hkp := constantPaths_eq hT
  have hkeys : ∀ ms : List Script, (∀ x ∈ ms, Sound x) → ∃ q, uslOf ord ((asPairs ms ++ keptPairs p S).map (pairPath (multAt p) fun _ => true)) = .ok (.pm q) ∧
      Composed (p.constant ++ ms) (partsAt p S) q ∧ OkPM q := by
    intro ms hms
    have := assemble_composed ho hp (fun _ => true) hS (Z := []) (by simp) hms (ex := []) (by simp) (by simp) (l := asPairs ms ++ keptPairs p S) (by
      intro e
      simp only [List.mem_append, List.not_mem_nil, or_false]
      exact or_comm)
    rwa [List.append_nil] at this
  -- the cells
  have hcell : ∀ a ∈ A, ∀ r ∈ RB, ∃ q, uslOf ord ((keptPairs p S).map (pairPath (multAt p) fun _ => true) ++ (asPairs a.constant).map (pairPath (multAt p) fun _ => true) ++
      (asPairs r).map (pairPath (multAt p) fun _ => true)) = .ok (.pm q) ∧ Composed (p.constant ++ (a.constant ++ r)) (partsAt p S) q ∧ OkPM q := by
    intro a ha r hr
    obtain ⟨q, h1, h2, h3⟩ := assemble_composed ho hp (fun _ => true) hS (Z := []) (by simp) (ms := a.constant ++ r) (by
      intro x hx
      rcases List.mem_append.1 hx with hx | hx
      · exact hAs a ha x hx
      · exact hRs r hr x hx) (ex := []) (by simp) (by simp) (fun _ => Iff.rfl)
    rw [List.append_nil] at h1 h2
    refine ⟨q, ?_, h2, h3⟩
    rw [← h1]
    simp [asPairs]
  -- the rows
  have hrow : ∀ r ∈ RB, ∃ q, uslOf ord ((keptPairs p S).map (pairPath (multAt p) fun _ => true) ++ (asPairs r).map (pairPath (multAt p) fun _ => true) ++
      (A.map fun a => (a.constant.map fun m => (i, m)).map (pairPath (multAt p) fun _ => false)).flatten) = .ok (.pm q) ∧
      Composed (p.constant ++ r) (partsAt p (S ++ [i])) q ∧ OkPM q := by
    intro r hr
    obtain ⟨q, h1, h2⟩ := assemble_composed ho hp (fun g => decide (g ≠ i)) hS (Z := [i]) (by simp [hG]) (hRs r hr) (ex := A.flatMap fun a => a.constant.map fun m => (i, m)) (by
      intro e he
      obtain ⟨a, ha, he⟩ := List.mem_flatMap.1 he
      obtain ⟨m, hm, rfl⟩ := List.mem_map.1 he
      obtain ⟨s1, s2⟩ := hp.seq hgsA hA0 (hA.mem_iff.1 ha) hm
      refine ⟨by simp, s1, s2.imp id fun ⟨g, hg, hx⟩ => ?_⟩
      rw [List.mem_singleton] at hg
      subst hg
      exact ⟨g, hG, hx⟩) (by
      intro g hg H hH x hx
      rw [List.mem_singleton] at hg
      subst hg
      rw [hG] at hH
      cases hH
      obtain ⟨m, hm, y, hy, e⟩ := (hp.several hgsA hA0).1 G (by simp) x hx
      exact ⟨(g, y), List.mem_flatMap.2 ⟨m, hA.mem_iff.2 hm, List.mem_map.2 ⟨y, hy, rfl⟩⟩, rfl, e⟩) (fun _ => Iff.rfl)
    refine ⟨q, ?_, h2⟩
    rw [← h1, List.map_append, List.map_append]
    congr 2
    · congr 1
      · refine List.map_congr_left fun e he => ?_
        have : e.1 ≠ i := by
          obtain ⟨h4, h5⟩ := List.mem_filter.1 he
          simp only [Bool.or_eq_true, decide_eq_true_eq] at h5
          rcases h5 with h5 | h5
          · rw [h5]; exact Ne.symm hi
          · exact (hpl.2.2.1 _ h5).2.1
        simp [pairPath, this]
      · refine List.map_congr_left fun e he => ?_
        obtain ⟨m, _, rfl⟩ := List.mem_map.1 he
        simp [pairPath, Ne.symm hi]
    · rw [List.map_flatMap, List.flatMap_def]
      congr 1
      refine List.map_congr_left fun a _ => ?_
      rw [List.map_map, List.map_map]
      exact List.map_congr_left fun m _ => by simp [pairPath]
  -- the columns
  have hcol : ∀ a ∈ A, ∃ q, uslOf ord ((keptPairs p S).map (pairPath (multAt p) fun _ => true) ++ (asPairs a.constant).map (pairPath (multAt p) fun _ => true) ++
      (RB.map fun r => (asPairs r).map (pairPath (multAt p) fun _ => true)).flatten) = .ok (.pm q) ∧
      Composed (p.constant ++ (a.constant ++ RB.flatten)) (partsAt p S) q ∧ OkPM q := by
    intro a ha
    obtain ⟨q, h1, h2, h3⟩ := assemble_composed ho hp (fun _ => true) hS (Z := []) (by simp) (ms := a.constant ++ RB.flatten) (by
      intro x hx
      rcases List.mem_append.1 hx with hx | hx
      · exact hAs a ha x hx
      · obtain ⟨r, hr, hx⟩ := List.mem_flatten.1 hx
        exact hRs r hr x hx) (ex := []) (by simp) (by simp) (fun _ => Iff.rfl)
    rw [List.append_nil] at h1 h2
    refine ⟨q, ?_, h2, h3⟩
    rw [← h1]
    simp [asPairs, List.map_flatten, Function.comp_def]
  have hflat : SameMeant RB.flatten ((partsAt p R).flatMap Prod.fst) := by
    intro t
    constructor
    · rintro ⟨x, ⟨hx, he⟩, rfl⟩
      obtain ⟨r, hr, hx⟩ := List.mem_flatten.1 hx
      obtain ⟨b, hb, h4, _⟩ := forall₂_mem_left hall hr
      obtain ⟨y, ⟨hy, hye⟩, e⟩ := (h4 x.str).1 ⟨x, ⟨hx, he⟩, rfl⟩
      rcases (hp.seq hgsB hB0 (hB.mem_iff.1 hb) hy).2 with rfl | ⟨g, hg, hy⟩
      · simp [Script.empty] at hye
      · exact ⟨y, ⟨List.mem_flatMap.2 ⟨g, hRp ▸ hg, hy⟩, hye⟩, e⟩
    · rintro ⟨x, ⟨hx, he⟩, rfl⟩
      obtain ⟨g, hg, hx⟩ := List.mem_flatMap.1 hx
      rw [← hRp] at hg
      obtain ⟨b, hb, y, hy, e⟩ := (hp.several hgsB hB0).1 g hg x hx
      have hye : y.empty = false := by
        rw [empty_of_str (hp.seq hgsB hB0 hb hy).1.wf (hp.groups g (hgsB g hg) x hx).1.wf e]
        exact he
      obtain ⟨r, hr, h4, _⟩ := forall₂_mem_right hall (hB.mem_iff.2 hb)
      obtain ⟨z, ⟨hz, hze⟩, e'⟩ := (h4 y.str).2 ⟨y, ⟨hy, hye⟩, rfl⟩
      exact ⟨z, ⟨List.mem_flatten.2 ⟨r, hr, hz⟩, hze⟩, e'.trans e⟩
  have : Nonempty PM := ⟨p⟩
  choose! qc hqc using hcell
  choose! qr hqr using hrow
  choose! qk hqk using hcol
  have hlen : List.Forall₂ (fun b r => SameMeant r b.constant ∧ r ∈ RB) B RB := by
    have := forall₂_imp_mem (Q := fun r b => SameMeant r b.constant ∧ r ∈ RB) hall fun r b hr _ h => ⟨h.1, hr⟩
    exact this.flip
  refine ⟨A, B, RB.map fun r => A.map fun a => .pm (qc a r), RB.map fun r => .pm (qr r), A.map fun a => .pm (qk a), ⟨A0, by rw [partsAt_one hG]; exact hA0, hA⟩,
    ⟨B0, by rw [← hRp]; exact hB0, hB⟩, ?_, ?_, ?_, ?_, ?_, ?_, ?_, ?_⟩
  · refine ⟨A.map QA, ?_, List.pairwise_map.2 hsA⟩
    rw [List.forall₂_map_right_iff, List.forall₂_same]
    intro a ha
    obtain ⟨q, h1, h2, _⟩ := hkeys a.constant (hAs a ha)
    rw [(hQA a (hA.mem_iff.1 ha)).1] at h1
    cases h1
    exact h2
  · refine ⟨RB.map QB, ?_, List.pairwise_map.2 hsB⟩
    rw [List.forall₂_map_right_iff]
    refine hlen.imp fun b r h => ?_
    obtain ⟨q, h1, h2, _⟩ := hkeys r (hRs r h.2)
    rw [(hQB r h.2).1] at h1
    cases h1
    exact composed_same (sameMeant_append (fun _ => Iff.rfl) h.1) h2
  · unfold Table2D.cells
    rw [hrc, ok_then]
    refine mapM_map fun r hr => ?_
    rw [hcc, ok_then]
    refine mapM_map fun a ha => ?_
    rw [hkp, ok_then]
    exact (hqc a ha r hr).1
  · unfold Table2D.rowUsls
    rw [hcv, ok_then, hrc, ok_then]
    refine mapM_map fun r hr => ?_
    rw [hkp, ok_then]
    exact (hqr r hr).1
  · unfold Table2D.columnUsls
    rw [hrv, ok_then, hcc, ok_then]
    refine mapM_map fun a ha => ?_
    rw [hkp, ok_then]
    exact (hqk a ha).1
  · rw [List.forall₂_map_right_iff]
    refine hlen.imp fun b r h => ?_
    rw [List.forall₂_map_right_iff, List.forall₂_same]
    intro a ha
    refine ⟨_, rfl, (hqc a ha r h.2).2.2, composed_same ?_ (hqc a ha r h.2).2.1⟩
    exact sameMeant_append (fun _ => Iff.rfl) (sameMeant_append (fun _ => Iff.rfl) h.1)
  · rw [List.forall₂_map_right_iff]
    refine hlen.imp fun b r h => ?_
    exact ⟨_, rfl, (hqr r h.2).2.2, composed_same (sameMeant_append (fun _ => Iff.rfl) h.1) (hqr r h.2).2.1⟩
  · rw [List.forall₂_map_right_iff, List.forall₂_same]
    intro a ha
    exact ⟨_, rfl, (hqk a ha).2.2, composed_same (sameMeant_append (fun _ => Iff.rfl) (sameMeant_append (fun _ => Iff.rfl) hflat)) (hqk a ha).2.1⟩

theorem forall₂_join {α β γ : Type} {P : α → β → Prop} {Q : α → γ → Prop} {l : List α} {m : List β} (h : List.Forall₂ P l m) :
    ∀ {n : List γ}, List.Forall₂ Q l n → List.Forall₂ (fun b c => ∃ a ∈ l, P a b ∧ Q a c) m n := by
  induction h with
  | nil => intro n h; cases h; exact .nil
  | cons h _ ih =>
    intro n h'
    cases h' with
    | cons h1 h2 =>
      refine .cons ⟨_, by simp, h, h1⟩ ((ih h2).imp ?_)
      rintro b c ⟨a, ha, hp⟩
      exact ⟨a, List.mem_cons_of_mem _ ha, hp⟩

theorem gathers_mk {C : List Script} (ho : ∀ x ∈ C, Orderly x) (hn : ((C.filter fun x => x.empty = false).map str).Nodup) : Gathers C (mkPM C []) ∧ OkPM (mkPM C []) := by
  refine ⟨⟨rfl, ?_, fun t => ?_⟩, C, [], rfl, ho, by simp⟩
  · rcases (C41_contents C []).1 with h | ⟨h, _⟩
    · rw [← List.pairwise_map, ← List.Nodup, (h.map str).nodup_iff]
      exact hn
    · rw [h]
      simp
  · rcases (C41_contents C []).1 with h | ⟨h, h'⟩
    · simp only [Meant, h.mem_iff, List.mem_filter, decide_eq_true_eq, and_assoc, and_self]
    · rw [h]
      constructor
      · rintro ⟨x, ⟨hx, he⟩, _⟩
        rw [List.mem_singleton.1 hx] at he
        simp [Script.empty] at he
      · rintro ⟨x, ⟨hx, he⟩, _⟩
        rw [h' x hx] at he
        cases he

theorem distinct_le {a b : List Script} (h : ∀ x ∈ a, ∃ y ∈ b, y.str = x.str) : distinct a ≤ distinct b := by
  unfold distinct
  refine Finset.card_le_card fun t ht => ?_
  rw [List.mem_toFinset, List.mem_map] at ht ⊢
  obtain ⟨x, hx, rfl⟩ := ht
  exact h x hx

/-- **The rows are paradigms of their cells.** When no group is left aside and the morphemes are few enough, the singular sequences of the USL of a row are the cells of the row. -/
theorem C80_row_cells_partial {ord : List Expr → List Expr} (ho : Rearranges ord) {ordP : List Path → List Path} (hP : ∀ l, (ordP l).Perm l)
    {cs : List Script} {gs : List Group} (hl : Legible cs gs) (hs : Separable (mkPM cs gs)) {T : Table2D} {i : GIdx} {R : List GIdx} (hT : TableCase (mkPM cs gs) T i R [])
    (hsize : distinct ((mkPM cs gs).constant ++ (mkPM cs gs).groups.flatMap Prod.fst) ≤ 5) (hfour : ∀ g ∈ (mkPM cs gs).groups, g.1.length ≤ 4) :
    ∃ M rs, T.cells ord ordP = .ok M ∧ T.rowUsls ord ordP = .ok rs ∧
      List.Forall₂ (fun row r => ∃ q L, r = .pm q ∧ q.singularSequences = .ok L ∧
        (∀ m ∈ L, ∃ c, .pm c ∈ row ∧ SamePM m c) ∧ ∀ c ∈ row, ∃ q', c = .pm q' ∧ ∃ m ∈ L, SamePM m q') M rs := by
  obtain ⟨A, B, M, rs, ks, ⟨A0, hA0, hA⟩, ⟨B0, hB0, hB⟩, _, _, h1, h2, _, h4, h5, _⟩ := C80_table_partial ho hP hl hs hT
  have hp := tabular_of hl hs
  obtain ⟨G, hG, _⟩ := hT.column
  generalize hpp : mkPM cs gs = p at *
  refine ⟨M, rs, h1, h2, (forall₂_join h4 h5).imp ?_⟩
  rintro row r ⟨b, hb, hrow, q, rfl, hok, C, hCo, hCn, hCm, hsame⟩
  have hgsA : ∀ g ∈ [G], g ∈ p.groups := by simpa using partAt_mem hG
  have hgsB : ∀ g ∈ partsAt p R, g ∈ p.groups := by
    intro g hg
    obtain ⟨x, _, hx⟩ := mem_partsAt.1 hg
    exact partAt_mem hx
  rw [List.nil_append, partsAt_one hG] at hsame
  rw [partsAt_one hG] at hA0
  have hGo : ∀ g ∈ [G], ∀ x ∈ g.1, Orderly x := fun g hg x hx => (hp.groups g (hgsA g hg) x hx).1.1
  have hok' : OkPM (mkPM C [G]) := ⟨C, [G], rfl, hCo, hGo⟩
  have hgr : ∀ C' : List Script, (mkPM C' [G]).groups = [(pySort lt (filterEmpty G.1), G.2)] := fun _ => rfl
  have hml : ∀ C' : List Script, SmallestSize (mkPM C' [G]).groups (pySort lt (filterEmpty G.1)).length := fun C' => by
    rw [hgr]; exact ⟨⟨_, List.mem_singleton.2 rfl, rfl⟩, fun g hg => by rw [List.mem_singleton.1 hg]⟩
  obtain ⟨A1, a1, _, a3, a4⟩ := (C43_sequences_partial (cs := []) (gs := [G]) (by simp) fun g hg x hx => (hGo g hg x hx).1).2 _ (hml [])
  rw [hA0, Except.ok.injEq] at a1
  subst a1
  obtain ⟨L, l1, _, l3, l4⟩ := (C43_sequences_partial (cs := C) (gs := [G]) (fun x hx => (hCo x hx).1) fun g hg x hx => (hGo g hg x hx).1).2 _ (hml C)
  obtain ⟨Lq, hLq⟩ := pm_total q
  obtain ⟨L1, hL1, L', hL', hLL⟩ := same_sequences hok hok' hsame hLq
  rw [l1, Except.ok.injEq] at hL1
  subst hL1
  -- the morphemes of a selection
  have hsel : ∀ {q0 sels}, Selection (mkPM [] [G]).groups (pySort lt (filterEmpty G.1)).length q0 sels → (∀ x ∈ sels.flatten, x ∈ G.1) ∧ sels.flatten.length ≤ 4 := by
    intro q0 sels hsel
    have ht := hsel.takes
    rw [hgr] at ht
    cases ht with
    | cons h h' =>
      cases h'
      rw [List.flatten_singleton]
      refine ⟨fun x hx => ?_, ?_⟩
      · have := h.sub.subset hx
        rw [mem_pySort, mem_filterEmpty] at this
        exact this.1
      · refine h.sub.length_le.trans ?_
        rw [length_pySort]
        exact (List.length_filter_le _ _).trans (hfour G (partAt_mem hG))
  have hlen : ∀ l : List Script, distinct l ≤ l.length := by
    intro l
    unfold distinct
    exact (List.toFinset_card_le _).trans (by simp)
  have small : ∀ {q0 sels}, Selection (mkPM [] [G]).groups (pySort lt (filterEmpty G.1)).length q0 sels →
      distinct (sels.flatten ++ (mkPM [] [G]).constant) ≤ 5 ∧ distinct (sels.flatten ++ (mkPM C [G]).constant) ≤ 5 := by
    intro q0 sels hs'
    obtain ⟨s1, s2⟩ := hsel hs'
    have hnull : distinct (sels.flatten ++ [.null 0]) ≤ 5 := (hlen _).trans (by rw [List.length_append, List.length_singleton]; omega)
    refine ⟨hnull, ?_⟩
    rcases (C41_contents C [G]).1 with hc | ⟨hc, _⟩
    · refine (distinct_le fun x hx => ?_).trans hsize
      rcases List.mem_append.1 hx with hx | hx
      · exact ⟨x, List.mem_append_right _ (List.mem_flatMap.2 ⟨G, partAt_mem hG, s1 x hx⟩), rfl⟩
      · rw [hc.mem_iff, List.mem_filter] at hx
        obtain ⟨y, ⟨hy, hye⟩, e⟩ := (hCm x.str).1 ⟨x, ⟨hx.1, by simpa using hx.2⟩, rfl⟩
        rcases List.mem_append.1 hy with hy | hy
        · exact ⟨y, List.mem_append_left _ hy, e⟩
        · rcases (hp.seq hgsB hB0 (hB.mem_iff.1 hb) hy).2 with rfl | ⟨g, hg, hy⟩
          · simp [Script.empty] at hye
          · exact ⟨y, List.mem_append_right _ (List.mem_flatMap.2 ⟨g, hgsB g hg, hy⟩), e⟩
    · rw [hc]
      exact hnull
  have hCmem : ∀ t, (∃ x, Meant (mkPM C [G]).constant x ∧ x.str = t) ↔ ∃ x, Meant (p.constant ++ b.constant) x ∧ x.str = t := by
    intro t
    rw [← hCm t]
    exact (gathers_mk hCo hCn).1.mem t
  -- a sequence of the row and the cell of the same selection
  have match_ : ∀ {q0 sels}, Selection (mkPM [] [G]).groups (pySort lt (filterEmpty G.1)).length q0 sels → ∀ {m a c : PM}, m ∈ L → Gathers (sels.flatten ++ (mkPM C [G]).constant) m →
      Gathers (sels.flatten ++ (mkPM [] [G]).constant) a → Composed (p.constant ++ (a.constant ++ b.constant)) (partsAt p []) c → SamePM m c := by
    rintro q0 sels hs' m a c hm hgm hga ⟨D, hDo, hDn, hDm, hD⟩
    have hpn : partsAt p [] = [] := by simp [partsAt]
    rw [hpn] at hD
    obtain ⟨g1, g2⟩ := gathers_mk hDo hDn
    have := gathers_same ((pm_sequence l1 hm).2 hok') g2 hgm g1 (by
      intro t
      rw [hDm t, meant_append, meant_append, meant_append, hCmem t, hga.mem t, meant_append, meant_append, none_constant]
      have : ¬ ∃ x, Meant [Script.null 0] x ∧ x.str = t := by
        rintro ⟨x, ⟨hx, he⟩, _⟩
        rw [List.mem_singleton.1 hx] at he
        simp [Script.empty] at he
      rw [or_iff_left this]
      constructor
      · rintro (h | h | h)
        · exact .inr (.inl h)
        · exact .inl h
        · exact .inr (.inr h)
      · rintro (h | h | h)
        · exact .inr (.inl h)
        · exact .inl h
        · exact .inr (.inr h))
    exact ⟨this.text.trans hD.text.symm, this.constant.trans hD.constant.symm, this.groups.trans hD.groups.symm⟩
  refine ⟨q, Lq, rfl, hLq, fun m hm => ?_, fun c hc => ?_⟩
  · obtain ⟨m', hm', hmm⟩ := forall₂_mem_left hLL hm
    obtain ⟨q0, sels, s1, _, s3⟩ := l3 m' (hL'.mem_iff.1 hm')
    obtain ⟨a, ha, hga⟩ := a4 q0 sels s1 (small s1).1
    obtain ⟨c, hc, q', rfl, _, hq'⟩ := forall₂_mem_left hrow (hA.mem_iff.2 ha)
    have := match_ s1 (hL'.mem_iff.1 hm') s3 hga hq'
    exact ⟨q', hc, hmm.text.trans this.text, hmm.constant.trans this.constant, hmm.groups.trans this.groups⟩
  · obtain ⟨a, ha, q', rfl, _, hq'⟩ := forall₂_mem_right hrow hc
    obtain ⟨q0, sels, s1, _, s3⟩ := a3 a (hA.mem_iff.1 ha)
    obtain ⟨m, hm, hgm⟩ := l4 q0 sels s1 (small s1).2
    have := match_ s1 hm hgm s3 hq'
    obtain ⟨m', hm', hmm⟩ := forall₂_mem_right hLL (hL'.mem_iff.2 hm)
    exact ⟨q', rfl, m', hm', hmm.text.trans this.text, hmm.constant.trans this.constant, hmm.groups.trans this.groups⟩

/-! ### Cases -/

/-- The texts of the cells, the rows and the columns. -/
def tableTexts (T : Table2D) : Except Err (List (List Str) × List Str × List Str) := do
  return ((← T.cells id id).map (·.map Expr.text), (← T.rowUsls id id).map Expr.text, (← T.columnUsls id id).map Expr.text)

/-- The table of `U: m1(A: S:) m1(T: B:)`. -/
def demoTwo : PM := mkPM [.prim .U] [([.prim .A, .prim .S], 1), ([.prim .T, .prim .B], 1)]

theorem demoTwo_legible : Legible [.prim .U] [([.prim .A, .prim .S], 1), ([.prim .T, .prim .B], 1)] := by
  refine ⟨?_, ?_, by decide +kernel⟩
  · intro m hm
    rw [List.mem_singleton.1 hm]
    exact ⟨orderly_prim _, fun _ => notOld_prim _⟩
  · intro g hg m hm
    simp only [List.mem_cons, List.not_mem_nil, or_false] at hg
    rcases hg with rfl | rfl <;> simp only [List.mem_cons, List.not_mem_nil, or_false] at hm <;> rcases hm with rfl | rfl <;>
      exact ⟨orderly_prim _, fun _ => notOld_prim _⟩

example : Separable demoTwo ∧ TableCase demoTwo ⟨.pm demoTwo, [.pm .g1 none (some 1)], some [.pm .g0 none (some 1)]⟩ .g1 [.g0] [] ∧
    TableCase demoTwo ⟨.pm demoTwo, [.pm .g1 none (some 1)], none⟩ .g1 [.g0] [] ∧
    distinct (demoTwo.constant ++ demoTwo.groups.flatMap Prod.fst) ≤ 5 ∧ ∀ g ∈ demoTwo.groups, g.1.length ≤ 4 := by
  refine ⟨⟨by decide +kernel, by decide +kernel, by decide +kernel⟩, ?_, ?_, by decide +kernel, by decide +kernel⟩
  · exact TableCase.rows (p := demoTwo) (i := .g1) (j := .g0) (G := (pySort lt [.prim .T, .prim .B], 1)) (H := (pySort lt [.prim .A, .prim .S], 1)) rfl rfl (by decide)
  · exact TableCase.all (p := demoTwo) (i := .g1) (G := (pySort lt [.prim .T, .prim .B], 1)) rfl

example : tableTexts ⟨.pm demoTwo, [.pm .g1 none (some 1)], some [.pm .g0 none (some 1)]⟩ = .ok
    ([[c!"U:", c!"U: B:", c!"U: T:"], [c!"U: A:", c!"U: A: B:", c!"U: A: T:"], [c!"U: S:", c!"U: S: B:", c!"U: S: T:"]],
     [c!"U: m1(B: T:)", c!"U: A: m1(B: T:)", c!"U: S: m1(B: T:)"], [c!"U: A: S:", c!"U: A: S: B:", c!"U: A: S: T:"]) := by decide +kernel

/-- **C80 is violated by the columns.** The docstring says that the singular sequences of a column USL are the cells of the column.  The morphemes of the rows are all
constants of it instead: it has a single sequence, which is none of the cells. -/
theorem C80_violated_columns : ∃ (p : PM) (M : List (List Str)) (rs ks : List Str), tableTexts ⟨.pm p, [.pm .g1 none (some 1)], some [.pm .g0 none (some 1)]⟩ = .ok (M, rs, ks) ∧
    M.length = 3 ∧ ks.length = 3 ∧ ∀ row ∈ M, ∀ c ∈ row, c ∉ ks :=
  ⟨demoTwo, [[c!"U:", c!"U: B:", c!"U: T:"], [c!"U: A:", c!"U: A: B:", c!"U: A: T:"], [c!"U: S:", c!"U: S: B:", c!"U: S: T:"]],
     [c!"U: m1(B: T:)", c!"U: A: m1(B: T:)", c!"U: S: m1(B: T:)"], [c!"U: A: S:", c!"U: A: S: B:", c!"U: A: S: T:"], by decide +kernel⟩

/-- **C80 is violated by cells outside the USL.** The cell `A: S:` of a table of `m2(A: S: B:) m1(T:)` is no singular sequence of it: two morphemes
of the first group come only with one of the second. -/
theorem C80_violated_outside : ∃ (p : PM) (M : List (List Str)) (rs ks : List Str), tableTexts ⟨.pm p, [.pm .g0 none (some 2)], none⟩ = .ok (M, rs, ks) ∧
    (∃ row ∈ M, c!"A: S:" ∈ row) ∧ ∃ L, p.singularSequences.map (·.map PM.text) = .ok L ∧ c!"A: S:" ∉ L :=
  ⟨mkPM [] [([.prim .A, .prim .S, .prim .B], 2), ([.prim .T], 1)],
    [[c!"", c!"A:", c!"S:", c!"B:", c!"A: S:", c!"A: B:", c!"S: B:"], [c!"T:", c!"A: T:", c!"S: T:", c!"B: T:", c!"A: S: T:", c!"A: B: T:", c!"S: B: T:"]],
    [c!"m2(A: S: B:)", c!"T: m2(A: S: B:)"], [c!"T:", c!"A: T:", c!"S: T:", c!"B: T:", c!"A: S: T:", c!"A: B: T:", c!"S: B: T:"], by decide +kernel, by decide +kernel,
    [c!"", c!"A:", c!"S:", c!"B:", c!"T:", c!"A: T:", c!"S: T:", c!"B: T:", c!"A: S: T:", c!"A: B: T:", c!"S: B: T:"], by decide +kernel, by decide +kernel⟩

/-- **C80 is violated by paths without the multiplicity.** The path `group_1` reaches the group and is no prefix of the paths of its morphemes: without rows, the group
of the columns is varied in the rows as well; with rows, the cells keep the group and the rows repeat its morphemes. -/
theorem C80_violated_multiplicity :
    (∃ M rs ks, tableTexts ⟨.pm demoTwo, [.pm .g1 none none], none⟩ = .ok (M, rs, ks) ∧ M.length = 9 ∧ [c!"U: T:", c!"U: B: T:", c!"U: T:"] ∈ M) ∧
    ∃ M rs ks, tableTexts ⟨.pm demoTwo, [.pm .g1 none none], some [.pm .g0 none (some 1)]⟩ = .ok (M, rs, ks) ∧
      [c!"U: m1(B: T:)", c!"U: B: m1(B: T:)", c!"U: T: m1(B: T:)"] ∈ M ∧ c!"U: m1(B: B: T: T:)" ∈ rs := by
  have ok_of : ∀ {T : Table2D} {Q : List (List Str) → List Str → List Str → Prop} [∀ M rs ks, Decidable (Q M rs ks)],
      (match tableTexts T with | .ok (M, rs, ks) => decide (Q M rs ks) | .error _ => false) = true → ∃ M rs ks, tableTexts T = .ok (M, rs, ks) ∧ Q M rs ks := by
    intro T Q _ h
    cases hT : tableTexts T with
    | error e => rw [hT] at h; cases h
    | ok x => rw [hT] at h; exact ⟨_, _, _, rfl, of_decide_eq_true h⟩
  exact ⟨ok_of (by decide +kernel), ok_of (by decide +kernel)⟩

/-- **C80 is violated by flexions that vary beside constant ones.** The lexeme has twelve sequences; with its content as columns, the rows vary the flexion, the lexeme made of a flexion has
an empty content, and its morpheme `E:` is no key of the dictionary of paths: `KeyError`. -/
theorem C80_violated_flexion : (∃ L, (Node.expr (.lexeme demoLexeme)).sequences = .ok L ∧ L.length = 12) ∧
    tableTexts ⟨.lexeme demoLexeme, [.lexeme true], none⟩ = .error .keyError :=
  ⟨⟨_, rfl, by decide +kernel⟩, by decide +kernel⟩

/-- A word of two roles with three sequences each. -/
def demoGrid : Except Err WordUsl := do
  let r ← fromList [([c!"E:T:."], some (mkLexeme (mkPM [] []) (mkPM [.prim .A] [([.prim .B, .prim .T], 1)]))),
    ([c!"E:.n.-"], some (mkLexeme (mkPM [] []) (mkPM [.prim .S] [([.prim .U, .prim .A], 1)])))]
  mkWord r.2 [c!"E:T:."] r.1

/-- The table of `demoGrid` with these columns and rows. -/
def gridTable (columns : Path) (rows : Option Path) : Except Err (List (List Str) × List Str × List Str) := do
  tableTexts ⟨.word (← demoGrid), columns, rows⟩

/-- The tables of a word, when the columns are the group of one role: nine cells, one for each sequence. -/
example : (gridTable [.role [c!"E:T:."] true, .lexeme true, .pm .g0 none (some 1)] (some [.role [c!"E:.n.-"] false, .lexeme true, .pm .g0 none (some 1)])).map (fun x => x.1) = .ok
    [[c!"[! E:T:. ()(A:) > E:.n.- ()(S:)]", c!"[! E:T:. ()(A: B:) > E:.n.- ()(S:)]", c!"[! E:T:. ()(A: T:) > E:.n.- ()(S:)]"],
     [c!"[! E:T:. ()(A:) > E:.n.- ()(U: S:)]", c!"[! E:T:. ()(A: B:) > E:.n.- ()(U: S:)]", c!"[! E:T:. ()(A: T:) > E:.n.- ()(U: S:)]"],
     [c!"[! E:T:. ()(A:) > E:.n.- ()(A: S:)]", c!"[! E:T:. ()(A: B:) > E:.n.- ()(A: S:)]", c!"[! E:T:. ()(A: T:) > E:.n.- ()(A: S:)]"]] := by decide +kernel

/-- **C80 is violated by the role of the focus.** When the columns or the rows are the whole role with the focus, the USLs by which the others are sorted have no focus, and the constructor
refuses them: `ValueError`; with another role as columns there is a table. -/
theorem C80_violated_focus : (∃ w, demoGrid = .ok w) ∧ gridTable [.role [c!"E:T:."] true] none = .error .valueError ∧
    gridTable [.role [c!"E:T:."] true] (some [.role [c!"E:.n.-"] false]) = .error .valueError ∧
    gridTable [.role [c!"E:.n.-"] false] (some [.role [c!"E:T:."] true]) = .error .valueError ∧
    (gridTable [.role [c!"E:.n.-"] false] none).map (fun x => x.1.flatten.length) = .ok 9 :=
  ⟨⟨_, rfl⟩, by decide +kernel, by decide +kernel, by decide +kernel, by decide +kernel⟩

end Verif
