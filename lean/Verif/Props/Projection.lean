import Verif.Lemmas.Projection
import Verif.Lemmas.SFun

/-
C108: the projection of USLs on the tables of the dictionary.
-/

namespace Verif

variable {T U D : Type} [DecidableEq T] [DecidableEq U] [DecidableEq D]

/-- **C108: the projection without `allowed_terms`.**  It has each reached table once, with the USLs that have a cell of the table, each once. -/
theorem C108_projection (d : Lexicon T U) (usls : List U) : ∃ res, projectUsls d usls [] = .ok res ∧ (res.map (·.1)).Nodup ∧
    (∀ t, t ∈ res.map (·.1) ↔ Reached d usls t) ∧
    ∀ e ∈ res, e.2.Nodup ∧ ∀ u, u ∈ e.2 ↔ u ∈ usls ∧ ∃ c ∈ d.cells e.1, HasCell d u c := by
  have hinv := meetAll_inv d usls
  let row : T → T × List U := fun t => (t, dedupBy id ((d.cells t).map fun c => (Met.get (meetAll d usls).usls c).getD []).flatten)
  have hrow : ∀ t, (d.cells t).mapM (lookupCell false (meetAll d usls).usls) = .ok ((d.cells t).map fun c => (Met.get (meetAll d usls).usls c).getD []) := by
    intro t
    generalize d.cells t = cs
    induction cs with
    | nil => rfl
    | cons c cs ih =>
      rw [List.mapM_cons, ih]
      cases hc : Met.get (meetAll d usls).usls c <;> simp [lookupCell, hc, bind, Except.bind, pure, Except.pure]
  have hres : projectUsls d usls [] = .ok (((meetAll d usls).tables.filter fun t => !d.tableSet t).map row) := by
    unfold projectUsls
    simp only [List.isEmpty_nil, if_true, Bool.not_true]
    generalize (meetAll d usls).tables.filter (fun t => !d.tableSet t) = ts
    induction ts with
    | nil => rfl
    | cons t ts ih =>
      rw [List.mapM_cons, ih, hrow t]
      rfl
  refine ⟨_, hres, ?_, fun t => ?_, fun e he => ?_⟩
  · rw [List.map_map]
    have : ((fun x : T × List U => x.1) ∘ row) = id := rfl
    rw [this, List.map_id]
    exact hinv.nodup.filter _
  · rw [List.map_map]
    have : ((fun x : T × List U => x.1) ∘ row) = id := rfl
    rw [this, List.map_id, List.mem_filter, hinv.tables]
    unfold Reached
    constructor
    · rintro ⟨⟨u, c, ⟨h1, h2⟩, h3⟩, h4⟩
      exact ⟨by simpa using h4, u, h1, c, h2, h3⟩
    · rintro ⟨h4, u, h1, c, h2, h3⟩
      exact ⟨⟨u, c, ⟨h1, h2⟩, h3⟩, by simpa using h4⟩
  · obtain ⟨t, _, rfl⟩ := List.mem_map.1 he
    refine ⟨nodup_dedupId _, fun u => ?_⟩
    simp only [row, mem_dedupId, List.mem_flatten, List.mem_map]
    constructor
    · rintro ⟨_, ⟨c, hc, rfl⟩, hu⟩
      obtain ⟨h1, h2⟩ := (hinv.usls c u).1 hu
      exact ⟨h1, c, hc, h2⟩
    · rintro ⟨h1, c, hc, h2⟩
      exact ⟨_, ⟨c, hc, rfl⟩, (hinv.usls c u).2 ⟨h1, h2⟩⟩

/-- Two USLs, the terms 0, 1 and the table 10 of both, and the set of tables 20. -/
def demoLexicon : Lexicon Nat Nat where
  terms u := [u]
  cells t := if t = 10 then [0, 1] else if t = 11 then [1, 2] else [t]
  contained c := if c = 0 then [0, 10, 20] else if c = 1 then [1, 10, 11, 20] else [c]
  tableSet t := t == 20

example : projectUsls demoLexicon [0, 1] [] = .ok [(0, [0]), (10, [0, 1]), (1, [1]), (11, [1])] := by decide

/-- **C108: the projection on allowed terms.**  It is an error exactly when an allowed table that is reached has a cell that is not allowed or that
no USL has; otherwise it has the reached tables that are allowed, with their USLs. -/
theorem C108_allowed_partial (d : Lexicon T U) (usls : List U) {allowed : List T} (ha : allowed ≠ []) :
    ((∃ t, Reached d usls t ∧ t ∈ allowed ∧ ∃ c ∈ d.cells t, c ∉ allowed ∨ ∀ u ∈ usls, ¬ HasCell d u c) ∧ projectUsls d usls allowed = .error .keyError) ∨
    ((∀ t, Reached d usls t → t ∈ allowed → ∀ c ∈ d.cells t, c ∈ allowed ∧ ∃ u ∈ usls, HasCell d u c) ∧
      ∃ res, projectUsls d usls allowed = .ok res ∧ (res.map (·.1)).Nodup ∧ (∀ t, t ∈ res.map (·.1) ↔ Reached d usls t ∧ t ∈ allowed) ∧
        ∀ e ∈ res, e.2.Nodup ∧ ∀ u, u ∈ e.2 ↔ u ∈ usls ∧ ∃ c ∈ d.cells e.1, HasCell d u c) := by
  have hinv := meetAll_inv d usls
  have hemp : allowed.isEmpty = false := by simpa using ha
  let get : T → Except Err (List U) := lookupCell true ((meetAll d usls).usls.filter fun e => e.1 ∈ allowed)
  let row : T → Except Err (T × List U) := fun t => do
    let ls ← (d.cells t).mapM get
    return (t, dedupBy id ls.flatten)
  let ts := ((meetAll d usls).tables.filter (· ∈ allowed)).filter fun t => !d.tableSet t
  have hproj : projectUsls d usls allowed = ts.mapM row := by
    unfold projectUsls
    simp only [hemp, Bool.false_eq_true, if_false, ts, row, get, Bool.not_false]
  have hts : ∀ t, t ∈ ts ↔ Reached d usls t ∧ t ∈ allowed := by
    intro t
    simp only [ts, List.mem_filter, hinv.tables, decide_eq_true_eq]
    unfold Reached
    constructor
    · rintro ⟨⟨⟨u, c, ⟨h1, h2⟩, h3⟩, h5⟩, h4⟩
      exact ⟨⟨by simpa using h4, u, h1, c, h2, h3⟩, h5⟩
    · rintro ⟨⟨h4, u, h1, c, h2, h3⟩, h5⟩
      exact ⟨⟨⟨u, c, ⟨h1, h2⟩, h3⟩, h5⟩, by simpa using h4⟩
  have hget : ∀ c, (get c = .error .keyError ∧ (c ∉ allowed ∨ ∀ u ∈ usls, ¬ HasCell d u c)) ∨
      (c ∈ allowed ∧ (∃ u ∈ usls, HasCell d u c) ∧ ∃ us, get c = .ok us ∧ ∀ u, u ∈ us ↔ u ∈ usls ∧ HasCell d u c) := by
    intro c
    simp only [get, lookupCell, get_filter]
    by_cases hc : c ∈ allowed
    · rw [if_pos hc]
      cases hm : Met.get (meetAll d usls).usls c with
      | none =>
        refine .inl ⟨rfl, .inr fun u hu h => ?_⟩
        have := (hinv.usls c u).2 ⟨hu, h⟩
        rw [hm] at this
        simp at this
      | some us =>
        have hus : ∀ u, u ∈ us ↔ u ∈ usls ∧ HasCell d u c := by
          intro u
          rw [← hinv.usls c u, hm]
          rfl
        obtain ⟨u, hu⟩ := List.exists_mem_of_ne_nil _ (hinv.some c us hm)
        exact .inr ⟨hc, ⟨u, ((hus u).1 hu).1, ((hus u).1 hu).2⟩, us, rfl, hus⟩
    · rw [if_neg hc]
      exact .inl ⟨rfl, .inl hc⟩
  have hcells : ∀ cs : List T, ((∃ c ∈ cs, c ∉ allowed ∨ ∀ u ∈ usls, ¬ HasCell d u c) ∧ cs.mapM get = .error .keyError) ∨
      ((∀ c ∈ cs, c ∈ allowed ∧ ∃ u ∈ usls, HasCell d u c) ∧ ∃ ls, cs.mapM get = .ok ls ∧ ∀ u, u ∈ ls.flatten ↔ u ∈ usls ∧ ∃ c ∈ cs, HasCell d u c) := by
    intro cs
    induction cs with
    | nil => exact .inr ⟨by simp, [], rfl, by simp⟩
    | cons c cs ih =>
      rw [List.mapM_cons]
      rcases hget c with ⟨h1, h2⟩ | ⟨h1, h2, us, h3, h4⟩
      · exact .inl ⟨⟨c, by simp, h2⟩, by rw [h1]; rfl⟩
      · rcases ih with ⟨⟨c', hc', h5⟩, h6⟩ | ⟨h5, ls, h6, h7⟩
        · exact .inl ⟨⟨c', List.mem_cons_of_mem _ hc', h5⟩, by rw [h3, h6]; rfl⟩
        · refine .inr ⟨fun c' hc' => ?_, us :: ls, by rw [h3, h6]; rfl, fun u => ?_⟩
          · rcases List.mem_cons.1 hc' with rfl | hc'
            · exact ⟨h1, h2⟩
            · exact h5 c' hc'
          · rw [List.flatten_cons, List.mem_append, h4, h7]
            simp only [List.mem_cons, exists_eq_or_imp]
            tauto
  have hmain : ∀ l : List T, ((∃ t ∈ l, ∃ c ∈ d.cells t, c ∉ allowed ∨ ∀ u ∈ usls, ¬ HasCell d u c) ∧ l.mapM row = .error .keyError) ∨
      ((∀ t ∈ l, ∀ c ∈ d.cells t, c ∈ allowed ∧ ∃ u ∈ usls, HasCell d u c) ∧ ∃ res, l.mapM row = .ok res ∧ res.map (·.1) = l ∧
        ∀ e ∈ res, e.2.Nodup ∧ ∀ u, u ∈ e.2 ↔ u ∈ usls ∧ ∃ c ∈ d.cells e.1, HasCell d u c) := by
    intro l
    induction l with
    | nil => exact .inr ⟨by simp, [], rfl, rfl, by simp⟩
    | cons t l ih =>
      rw [List.mapM_cons]
      rcases hcells (d.cells t) with ⟨h1, h2⟩ | ⟨h1, ls, h2, h3⟩
      · refine .inl ⟨⟨t, by simp, h1⟩, ?_⟩
        have : row t = .error .keyError := by simp only [row, h2]; rfl
        rw [this]
        rfl
      · have hr : row t = .ok (t, dedupBy id ls.flatten) := by simp only [row, h2]; rfl
        rcases ih with ⟨⟨t', ht', h5⟩, h6⟩ | ⟨h5, res, h6, h7, h8⟩
        · exact .inl ⟨⟨t', List.mem_cons_of_mem _ ht', h5⟩, by rw [hr, h6]; rfl⟩
        · refine .inr ⟨fun t' ht' => ?_, (t, dedupBy id ls.flatten) :: res, by rw [hr, h6]; rfl, by rw [List.map_cons, h7], fun e he => ?_⟩
          · rcases List.mem_cons.1 ht' with rfl | ht'
            · exact h1
            · exact h5 t' ht'
          · rcases List.mem_cons.1 he with rfl | he
            · refine ⟨nodup_dedupId _, fun u => ?_⟩
              rw [mem_dedupId, h3]
            · exact h8 e he
  rw [hproj]
  rcases hmain ts with ⟨⟨t, ht, h1⟩, h2⟩ | ⟨h1, res, h2, h3, h4⟩
  · exact .inl ⟨⟨t, ((hts t).1 ht).1, ((hts t).1 ht).2, h1⟩, h2⟩
  · refine .inr ⟨fun t h5 h6 => h1 t ((hts t).2 ⟨h5, h6⟩), res, h2, ?_, fun t => ?_, h4⟩
    · rw [h3]
      exact (hinv.nodup.filter _).filter _
    · rw [h3]
      exact hts t

example : projectUsls demoLexicon [0, 1] [0, 1, 10] = .ok [(0, [0]), (10, [0, 1]), (1, [1])] := by decide

/-- **C108 is violated: the projection on allowed terms raises `KeyError`** as soon as a table has a cell that no USL has. -/
theorem C108_violated_allowed : projectUsls demoLexicon [0, 1] [0, 1, 2, 11] = .error .keyError ∧ Reached demoLexicon [0, 1] 11 := by
  refine ⟨by decide, rfl, 1, by simp, 1, ⟨1, by simp [demoLexicon], by simp [demoLexicon]⟩, by simp [demoLexicon]⟩

/-- **C108: the projection with data.**  There is a row for each reached table; its posts are the posts of the USLs of the table, each once; and a
row is not followed by one with more posts times cells. -/
theorem C108_data (d : Lexicon T U) (data : List (U × List D)) (hd : (data.map (·.1)).Nodup) : ∃ rows, projectData d data = .ok rows ∧
    (rows.map (·.1)).Nodup ∧ (∀ t, t ∈ rows.map (·.1) ↔ Reached d (data.map (·.1)) t) ∧
    (∀ e ∈ rows, (∀ u, u ∈ e.2.1 ↔ u ∈ data.map (·.1) ∧ ∃ c ∈ d.cells e.1, HasCell d u c) ∧ e.2.2.Nodup ∧
      ∀ p, p ∈ e.2.2 ↔ ∃ x ∈ data, p ∈ x.2 ∧ ∃ c ∈ d.cells e.1, HasCell d x.1 c) ∧
    rows.Pairwise fun a b => b.2.2.length * {c ∈ (data.flatMap fun e => (d.terms e.1).flatMap d.cells).toFinset | c ∈ d.cells b.1}.card ≤
      a.2.2.length * {c ∈ (data.flatMap fun e => (d.terms e.1).flatMap d.cells).toFinset | c ∈ d.cells a.1}.card := by
  obtain ⟨res, h1, h2, h3, h4⟩ := C108_projection d (data.map (·.1))
  let f : T × List U → T × List U × List D := fun e =>
    (e.1, e.2, dedupBy id (e.2.flatMap fun u => ((data.find? fun x => x.1 = u).map (·.2)).getD []))
  let cells := dedupBy id (data.flatMap fun e => (d.terms e.1).flatMap d.cells)
  let metric : T × List U × List D → Nat := fun e => e.2.2.length * (cells.filter fun c => c ∈ d.cells e.1).length
  have hrun : projectData d data = .ok (pySort (fun a b => decide (metric b < metric a)) (res.map f)) := by
    unfold projectData
    rw [h1]
    rfl
  have hfind : ∀ x ∈ data, (data.find? fun y => y.1 = x.1) = some x := by
    intro x hx
    cases hf : data.find? fun y => y.1 = x.1 with
    | none =>
      have := List.find?_eq_none.1 hf x hx
      simp at this
    | some y =>
      have hy : y.1 = x.1 := by simpa using List.find?_some hf
      rw [List.inj_on_of_nodup_map hd (List.mem_of_find?_eq_some hf) hx hy]
  have hfst : ∀ l : List (T × List U), (l.map f).map (·.1) = l.map (·.1) := by
    intro l
    rw [List.map_map]
    rfl
  have hp := pySort_perm (fun a b => decide (metric b < metric a)) (res.map f)
  refine ⟨_, hrun, ?_, fun t => ?_, fun e he => ?_, ?_⟩
  · rw [(hp.map (·.1)).nodup_iff, hfst]
    exact h2
  · rw [(hp.map (·.1)).mem_iff, hfst]
    exact h3 t
  · obtain ⟨x, hx, rfl⟩ := List.mem_map.1 (hp.mem_iff.1 he)
    refine ⟨(h4 x hx).2, nodup_dedupId _, fun p => ?_⟩
    simp only [f, mem_dedupId, List.mem_flatMap]
    constructor
    · rintro ⟨u, hu, hpu⟩
      obtain ⟨g1, c, g2, g3⟩ := ((h4 x hx).2 u).1 hu
      obtain ⟨y, hy, rfl⟩ := List.mem_map.1 g1
      rw [hfind y hy] at hpu
      exact ⟨y, hy, hpu, c, g2, g3⟩
    · rintro ⟨y, hy, hpy, c, g2, g3⟩
      refine ⟨y.1, ((h4 x hx).2 y.1).2 ⟨List.mem_map_of_mem hy, c, g2, g3⟩, ?_⟩
      rw [hfind y hy]
      exact hpy
  · have hm : ∀ e : T × List U × List D, metric e = e.2.2.length * {c ∈ (data.flatMap fun e => (d.terms e.1).flatMap d.cells).toFinset | c ∈ d.cells e.1}.card := by
      intro e
      have : (cells.filter fun c => c ∈ d.cells e.1).length = {c ∈ (data.flatMap fun e => (d.terms e.1).flatMap d.cells).toFinset | c ∈ d.cells e.1}.card := by
        rw [← List.toFinset_card_of_nodup ((nodup_dedupId _).filter _)]
        congr 1
        ext c
        simp only [cells, List.mem_toFinset, List.mem_filter, mem_dedupId, Finset.mem_filter, decide_eq_true_eq]
      rw [← this]
    simp only [← hm]
    refine (pySort_weak ?_ ?_ _).imp fun {a b} h => ?_
    · intro a b h
      simp only [decide_eq_true_eq, decide_eq_false_iff_not] at *
      omega
    · intro a b c g1 g2
      simp only [decide_eq_false_iff_not] at *
      omega
    · simpa using h

example : projectData demoLexicon [(0, [7]), (1, [7, 8])] = .ok [(10, [0, 1], [7, 8]), (1, [1], [7, 8]), (11, [1], [7, 8]), (0, [0], [7])] := by decide

end Verif
