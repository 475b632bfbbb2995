import Verif.Lemmas.Siblings
import Verif.Lemmas.ReadTotal

/-
Properties C20 to C23: dictionaries and their tables.

The theorems hold for every order in which Python may go through its sets (`SetOrder`).
-/

namespace Verif
open Script DictOk

variable {o : SetOrder} {ks : List Str} {rows : List (Str × Str × Str)} {d : Dictionary}

/-- The order used in the examples. -/
def plainOrder : SetOrder := ⟨id, id, id⟩

theorem plainOrder_valid : plainOrder.Valid := ⟨fun _ => .refl _, fun _ => .refl _, fun _ => .refl _⟩

/-- A row that marks a root. -/
def rootRow (k : Str) : Str × Str × Str := (k, c!"is_root", c!"true")

/-- A row that marks an ignored script. -/
def ignoredRow (k : Str) : Str × Str × Str := (k, c!"is_ignored", c!"True")

/-- What the examples look at: the texts of the scripts, of the roots, and the ranks of the tables. -/
def Dictionary.view (d : Dictionary) : List Str × List Str × List (Str × Nat) :=
  (d.base.scripts.map str, d.roots.map str, d.base.tables.all.map fun t => (t.script.str, t.rank))

/-! ### C20 -/

/-- The roots of a dictionary have no word in common. -/
theorem C20_roots_apart (ho : o.Valid) (h : mkDictionary o ks rows = .ok d) : d.roots.Pairwise Apart := by
  obtain ⟨st, _, hd, _⟩ := mkDictionary_inv ho h
  exact hd.apart

example : (mkDictionary plainOrder [c!"O:", c!"M:", c!"S:+B:"] [rootRow (c!"O:"), rootRow (c!"M:")]).map (·.view) =
    .ok ([c!"U:", c!"A:", c!"S:", c!"B:", c!"T:", c!"O:", c!"S:+B:", c!"M:"], [c!"O:", c!"M:"],
      [(c!"O:", 0), (c!"U:", 6), (c!"A:", 6), (c!"M:", 0), (c!"S:+B:", 3), (c!"S:", 6), (c!"B:", 6), (c!"T:", 6)]) := by
  decide +kernel

/-- A paradigm kept in the dictionary lies within a root, and has no word in common with another root. -/
theorem C20_paradigm_in_one_root (ho : o.Valid) (h : mkDictionary o ks rows = .ok d) {s : Script} (hs : s ∈ d.base.scripts)
    (hc : s.cardinal ≠ 1) : ∃ r ∈ d.roots, Within s r ∧ ∀ r' ∈ d.roots, ¬ Apart s r' → r' = r := by
  obtain ⟨st, _, hd, _⟩ := mkDictionary_inv ho h
  obtain ⟨e, he, t, ht, hts⟩ := hd.plural_table hs hc
  obtain ⟨hr, htab⟩ := hd.tabs_of he
  have hw := (within_of_str (hd.script_wf hs) (htab.wf t ht) hts.symm).trans (htab.within t ht)
  refine ⟨e.1, hr, hw, fun r' hr' hap => ?_⟩
  by_contra hne
  refine hap fun w hww => hne ?_
  exact hd.root_unique hr' hr hww.2 (hw.2 w hww.1)

/-- When the keys are the texts of scripts and no root is ignored, every script kept in the dictionary lies within a root, and has
no word in common with another root.  The full claim fails for an ignored root (`C20_violated`). -/
theorem C20_script_in_one_root_partial (ho : o.Valid) (hk : NormalKeys ks) (hi : NoIgnoredRoot rows) (h : mkDictionary o ks rows = .ok d)
    {s : Script} (hs : s ∈ d.base.scripts) : ∃ r ∈ d.roots, Within s r ∧ ∀ r' ∈ d.roots, ¬ Apart s r' → r' = r := by
  by_cases hc : s.cardinal = 1
  swap
  · exact C20_paradigm_in_one_root ho h hs hc
  obtain ⟨st', h1, hd, hroots, _⟩ := mkDictionary_inv ho h
  obtain ⟨st, fs, hok, hap, _, _, hn, out, hout, k1, k2, k3, k4, _⟩ := readDictionary_inv h1
  have hn := hn hk
  have hmem := ((hd.scripts s).1 hs).1
  rw [mem_pySort (lt := lt), List.mem_map] at hmem
  obtain ⟨e, he, rfl⟩ := hmem
  obtain ⟨he1, he2⟩ := (k1 e).1 he
  have hes := (hn.keys e he1).1
  have hnot : e.2 ∉ out := fun hm => he2 e.2 (List.mem_append_right _ hm) hes
  have wf := hd.script_wf hs
  obtain ⟨w, hw⟩ := den_exists wf
  have hr : ∃ r ∈ st.roots, Den r w := by
    by_contra hcon
    exact hnot ((hout e.2).2 ⟨⟨e.1, he1⟩, w, hw, fun r hr hrw => hcon ⟨r, hr, hrw⟩⟩)
  obtain ⟨r, hr, hrw⟩ := hr
  have wr := hok.roots r hr
  have hr' : r ∈ d.roots := by
    rw [hroots, k4]
    refine ⟨hr, fun s hs hsr => ?_⟩
    rcases List.mem_append.1 hs with hs | hs
    · exact hi r.str ⟨(hn.roots r hr).2.1, hsr ▸ (hn.ignored s hs).1⟩
    · obtain ⟨⟨k, hks⟩, u, hu, hall⟩ := (hout s).1 hs
      exact hall r hr ((den_of_str (hok.wf _ hks) wr hsr u).1 hu)
  have hwithin : Within e.2 r := ⟨layer_of_word wf wr hw hrw, fun u hu => by rw [den_unique wf hc hu hw]; exact hrw⟩
  refine ⟨r, hr', hwithin, fun r' hr'' hapart => ?_⟩
  by_contra hne
  exact hapart fun u hu => hne (hd.root_unique hr'' hr' hu.2 (hwithin.2 u hu.1))

example : NormalKeys [c!"O:", c!"M:", c!"S:+B:"] ∧ NoIgnoredRoot [rootRow (c!"O:"), rootRow (c!"M:"), ignoredRow (c!"S:+B:")] ∧
    (mkDictionary plainOrder [c!"O:", c!"M:", c!"S:+B:"] [rootRow (c!"O:"), rootRow (c!"M:"), ignoredRow (c!"S:+B:")]).isOk = true := by
  refine ⟨?_, ?_, by decide +kernel⟩
  · have h : ∀ k ∈ [c!"O:", c!"M:", c!"S:+B:"], (parseScript k).map (·.str) = .ok k := by decide +kernel
    intro k hk s hs
    have := h k hk
    rw [hs] at this
    exact Except.ok.inj this
  · rintro k ⟨⟨c, v, h1, _⟩, ⟨c', v', h2, _⟩⟩
    simp only [rootRow, ignoredRow, List.mem_cons, List.not_mem_nil, or_false, Prod.mk.injEq] at h1 h2
    revert h1 h2
    rintro (⟨rfl, _⟩ | ⟨rfl, _⟩ | ⟨_, h, _⟩) (⟨h', _⟩ | ⟨h', _⟩ | ⟨h', h'', _⟩) <;> simp_all

/-- The claim fails when a root is ignored: its singular sequences are kept, and lie within no root. -/
theorem C20_violated : ∃ d s, mkDictionary plainOrder [c!"O:", c!"M:"] [rootRow (c!"O:"), rootRow (c!"M:"), ignoredRow (c!"M:")] = .ok d ∧
    s ∈ d.base.scripts ∧ ∀ r ∈ d.roots, ¬ Within s r := by
  have h : (mkDictionary plainOrder [c!"O:", c!"M:"] [rootRow (c!"O:"), rootRow (c!"M:"), ignoredRow (c!"M:")]).map
      (fun d => d.base.scripts.any fun s => d.roots.all fun r => (contains r s).toOption == some false) = .ok true := by decide +kernel
  cases hd : mkDictionary plainOrder [c!"O:", c!"M:"] [rootRow (c!"O:"), rootRow (c!"M:"), ignoredRow (c!"M:")] with
  | error e => rw [hd] at h; cases h
  | ok d =>
    rw [hd] at h
    simp only [Except.map, Except.ok.injEq, List.any_eq_true, List.all_eq_true, beq_iff_eq] at h
    obtain ⟨s, hs, h⟩ := h
    obtain ⟨st, _, hdo, _⟩ := mkDictionary_inv plainOrder_valid hd
    refine ⟨d, s, rfl, hs, fun r hr hw => ?_⟩
    have := h r hr
    rw [(contains_iff (hdo.rootWf r hr) (hdo.script_wf hs)).2 hw] at this
    cases this

/-! ### C21 -/

/-- Roots that are disjoint, in the data of the counterexamples: there is one root, or the roots have no word in common. -/
def disjointRoots (ks : List Str) : Prop :=
  ks.Pairwise fun a b => ∀ s t, parseScript a = .ok s → parseScript b = .ok t → Apart s t

/-- The claim fails: the roots are disjoint, and the construction raises `NameError` (every root is ignored), `KeyError` (a script
outside the roots, or a singular sequence, is ignored), `InvalidScript` (a root is ignored and not its part), `IndexError` (a root
with one word, a root that repeats a word). -/
theorem C21_violated : ∀ e ∈ [
    ([c!"O:"], [c!"O:"], [c!"O:"], Err.nameError),
    ([c!"O:", c!"M:"], [c!"O:"], [c!"M:"], Err.keyError),
    ([c!"O:", c!"U:"], [c!"O:"], [c!"U:"], Err.keyError),
    ([c!"I:", c!"O:"], [c!"I:"], [c!"I:"], Err.invalidScript),
    ([c!"U:"], [c!"U:"], [], Err.indexError),
    ([c!"O:M:.+U:M:."], [c!"O:M:.+U:M:."], [], Err.indexError),
    ([c!"I:", c!"F:", c!"M:", c!"S:+B:"], [c!"I:"], [], Err.indexError)],
    disjointRoots e.2.1 ∧
    ∃ x, mkDictionary plainOrder e.1 (e.2.1.map rootRow ++ e.2.2.1.map ignoredRow) = .error x ∧ x = e.2.2.2 := by
  have h : ∀ e ∈ [
    ([c!"O:"], [c!"O:"], [c!"O:"], Err.nameError),
    ([c!"O:", c!"M:"], [c!"O:"], [c!"M:"], Err.keyError),
    ([c!"O:", c!"U:"], [c!"O:"], [c!"U:"], Err.keyError),
    ([c!"I:", c!"O:"], [c!"I:"], [c!"I:"], Err.invalidScript),
    ([c!"U:"], [c!"U:"], [], Err.indexError),
    ([c!"O:M:.+U:M:."], [c!"O:M:.+U:M:."], [], Err.indexError),
    ([c!"I:", c!"F:", c!"M:", c!"S:+B:"], [c!"I:"], [], Err.indexError)], e.2.1.length ≤ 1 ∧
    (mkDictionary plainOrder e.1 (e.2.1.map rootRow ++ e.2.2.1.map ignoredRow)).map (fun _ => ()) = .error e.2.2.2 := by
    decide +kernel
  intro e he
  obtain ⟨h1, h2⟩ := h e he
  constructor
  · unfold disjointRoots
    match e.2.1, h1 with
    | [], _ => exact .nil
    | [a], _ => exact List.pairwise_singleton _ _
  · cases hd : mkDictionary plainOrder e.1 (e.2.1.map rootRow ++ e.2.2.1.map ignoredRow) with
    | ok d => rw [hd] at h2; cases h2
    | error x =>
      rw [hd] at h2
      exact ⟨x, rfl, by simpa [Except.map] using h2⟩

/-- Part of the claim: consistent data can be read; no root overlaps another one, and every removal finds its script.  The full
claim fails (`C21_violated`). -/
theorem C21_reading_partial (hc : ConsistentData ks rows) : ∃ st, readDictionary ks rows = .ok st := readDictionary_total hc

/-- Part of the claim: from consistent data, the relations are always computed once the tables are built, when no root repeats a
word and no table of several words has a rank above 5.  The full claim fails (`C21_violated`). -/
theorem C21_relations_partial (ho : o.Valid) (hc : ConsistentData ks rows) {st : Reading} {base : DictBase}
    (h1 : readDictionary ks rows = .ok st) (h2 : dictionaryBase o st = .ok base)
    (hd : ∀ e ∈ base.tables.roots, e.2.Pairwise fun a b => a.script.str ≠ b.script.str)
    (hr : ∀ t ∈ base.tables.all, t.script.cardinal ≠ 1 → t.rank < 6) : ∃ d, mkDictionary o ks rows = .ok d :=
  mkDictionary_total ho hc h1 h2 hd hr

/-- The data of the examples below. -/
def exampleKeys : List Str := [c!"O:", c!"M:", c!"S:+B:", c!"B:+T:"]
/-- The structure of the examples below. -/
def exampleRows : List (Str × Str × Str) :=
  [rootRow (c!"O:"), rootRow (c!"M:"), (c!"S:+B:", c!"is_root", c!"false"), ignoredRow (c!"S:+B:"), (c!"M:", c!"inhibition", c!"twin")]

theorem example_consistent : ConsistentData exampleKeys exampleRows := by
  have hp : ∀ k ∈ exampleKeys, (parseScript k).map (·.str) = .ok k := by decide +kernel
  have hO : parseScript (c!"O:") = .ok (.add [.prim .U, .prim .A]) := by rfl
  have hM : parseScript (c!"M:") = .ok (.add [.prim .S, .prim .B, .prim .T]) := by rfl
  have hSB : parseScript (c!"S:+B:") = .ok (.add [.prim .S, .prim .B]) := by rfl
  have hmarked : ∀ {attr k}, Marked exampleRows attr k → (attr = c!"is_root" ∧ (k = c!"O:" ∨ k = c!"M:")) ∨
      (attr = c!"is_ignored" ∧ k = c!"S:+B:") ∨ (attr = c!"inhibition") := by
    rintro attr k ⟨c, v, h, hcv⟩
    simp only [exampleRows, rootRow, ignoredRow, List.mem_cons, List.not_mem_nil, or_false, Prod.mk.injEq, List.cons.injEq] at h
    rcases h with ⟨h1, h2, _⟩ | ⟨h1, h2, _⟩ | ⟨_, _, h3, _⟩ | ⟨h1, h2, _⟩ | ⟨_, h2, _⟩
    · exact .inl ⟨h2, .inl h1⟩
    · exact .inl ⟨h2, .inr h1⟩
    · rw [h3] at hcv; simp at hcv
    · exact .inr (.inl ⟨h2, h1⟩)
    · exact .inr (.inr h2)
  refine ⟨?_, ?_, ?_, ?_, by decide +kernel, ?_⟩
  · intro k hk
    have := hp k hk
    cases h : parseScript k with
    | error e => rw [h] at this; cases this
    | ok s => rw [h] at this; exact ⟨s, rfl, Except.ok.inj this⟩
  · decide +kernel
  · intro k hk
    rcases hmarked hk with ⟨_, rfl | rfl⟩ | ⟨h, _⟩ | h
    · decide +kernel
    · decide +kernel
    · exact absurd h (by decide)
    · exact absurd h (by decide)
  · have : (exampleRows.filter (marks (c!"is_root"))).map (·.1) = [c!"O:", c!"M:"] := by decide +kernel
    rw [this, List.pairwise_cons]
    refine ⟨?_, List.pairwise_singleton _ _⟩
    intro b hb s t hs ht
    rw [List.mem_singleton] at hb
    subst hb
    rw [hO, Except.ok.injEq] at hs
    rw [hM, Except.ok.injEq] at ht
    subst hs ht
    rintro w ⟨h1, h2⟩
    cases h1 with
    | add hx h1 =>
      cases h2 with
      | add hy h2 =>
        simp only [List.mem_cons, List.not_mem_nil, or_false] at hx hy
        rcases hx with rfl | rfl <;> rcases hy with rfl | rfl | rfl <;> cases h1 <;> cases h2
  · intro k s hk hs
    rcases hmarked hk with ⟨h, _⟩ | ⟨_, rfl⟩ | h
    · exact absurd h (by decide)
    · rw [hSB, Except.ok.injEq] at hs
      subst hs
      refine ⟨by decide +kernel, ?_, ?_⟩
      · intro h
        rcases hmarked h with ⟨_, h | h⟩ | ⟨h, _⟩ | h
        · exact absurd h (by decide)
        · exact absurd h (by decide)
        · exact absurd h (by decide)
        · exact absurd h (by decide)
      · intro w hw
        refine ⟨c!"M:", _, ⟨'t', c!"rue", by decide, .inl rfl⟩, hM, ?_⟩
        cases hw with
        | add hx hw =>
          refine .add ?_ hw
          simp only [List.mem_cons, List.not_mem_nil, or_false] at hx ⊢
          rcases hx with rfl | rfl
          · exact .inl rfl
          · exact .inr (.inl rfl)
    · exact absurd h (by decide)

example : (mkDictionary plainOrder exampleKeys exampleRows).map (·.view) =
    .ok ([c!"U:", c!"A:", c!"S:", c!"B:", c!"T:", c!"O:", c!"B:+T:", c!"M:"], [c!"O:", c!"M:"],
      [(c!"O:", 0), (c!"U:", 6), (c!"A:", 6), (c!"M:", 0), (c!"B:+T:", 3), (c!"S:", 6), (c!"B:", 6), (c!"T:", 6)]) := by
  decide +kernel

/-! ### C22 -/

/-- `s in dictionary` holds exactly for the texts of the listed scripts. -/
theorem C22_membership (d : Dictionary) (s : Script) : d.mem s = true ↔ ∃ y ∈ d.base.scripts, y.str = s.str := by
  unfold Dictionary.mem DictBase.index
  rw [← seqIndex_isOk]
  cases seqIndex d.base.scripts s <;> simp [Except.isOk, Except.toBool]

example : (mkDictionary plainOrder exampleKeys exampleRows).map (fun d => (d.mem (.prim .B), d.mem (.null 0))) = .ok (true, false) := by
  decide +kernel

/-- When the keys are the texts of scripts, the scripts of the dictionary are strictly increasing, and the index of a script is its
position.  The full claim fails for other keys (`C22_violated`). -/
theorem C22_positions_partial (ho : o.Valid) (hk : NormalKeys ks) (h : mkDictionary o ks rows = .ok d) :
    d.base.scripts.Pairwise (fun a b => lt a b = true ∧ lt b a = false ∧ a.str ≠ b.str) ∧
    ∀ (s : Script) (i : Nat), d.base.index s = .ok i ↔ ∃ y, d.base.scripts[i]? = some y ∧ y.str = s.str := by
  obtain ⟨st', h1, hd, _, _, hsub⟩ := mkDictionary_inv ho h
  obtain ⟨st, fs, hok, _, _, _, hn, out, _, k1, k2, _⟩ := readDictionary_inv h1
  have hn := hn hk
  have hall : ∀ c ∈ st'.scripts.map (·.2), WF c ∧ Plain c := by
    intro c hc
    obtain ⟨e, he, rfl⟩ := List.mem_map.1 hc
    have := ((k1 e).1 he).1
    exact ⟨hok.wf e this, (hn.keys e this).2.1⟩
  have hdis : (st'.scripts.map (·.2)).Pairwise fun a b => a.str ≠ b.str := by
    rw [List.Nodup, List.pairwise_map] at k2
    rw [List.pairwise_map]
    refine List.Pairwise.imp_of_mem ?_ k2
    intro a b ha hb hab
    rw [(hn.keys a ((k1 a).1 ha).1).1, (hn.keys b ((k1 b).1 hb).1).1]
    exact hab
  obtain ⟨s1, s2⟩ := sortScripts_strict hall hdis
  have t1 := s1.sublist hsub
  have t2 := s2.sublist hsub
  have t3 := (sortScripts hall).sublist hsub
  refine ⟨(t1.and (t3.and t2)), fun s i => ?_⟩
  constructor
  · intro hi
    obtain ⟨y, hy, hys, _⟩ := seqIndex_inv hi
    exact ⟨y, hy, hys⟩
  · rintro ⟨y, hy, hys⟩
    obtain ⟨j, hj⟩ := seqIndex_isOk.2 ⟨y, List.mem_of_getElem? hy, hys⟩
    obtain ⟨z, hz, hzs, _⟩ := seqIndex_inv hj
    have : j = i := by
      by_contra hne
      have hyl := (List.getElem?_eq_some_iff.1 hy)
      have hzl := (List.getElem?_eq_some_iff.1 hz)
      obtain ⟨hi', rfl⟩ := hyl
      obtain ⟨hj', rfl⟩ := hzl
      rw [List.pairwise_iff_getElem] at t2
      rcases Nat.lt_or_gt_of_ne hne with hlt | hlt
      · exact t2 j i hj' hi' hlt (hzs.trans hys.symm)
      · exact t2 i j hi' hj' hlt (hys.trans hzs.symm)
    rw [← this]
    exact hj

example : NormalKeys exampleKeys ∧ (mkDictionary plainOrder exampleKeys exampleRows).isOk = true :=
  ⟨NormalKeys.of_consistent example_consistent, by decide +kernel⟩

/-- The claim fails for a key that is not the text of its script: the script is listed twice. -/
theorem C22_violated : ∃ d a b, mkDictionary plainOrder [c!"U:+A:", c!"O:"] [rootRow (c!"O:")] = .ok d ∧
    d.base.scripts[2]? = some a ∧ d.base.scripts[3]? = some b ∧ a.str = b.str ∧ lt a b = false := by
  have h : (mkDictionary plainOrder [c!"U:+A:", c!"O:"] [rootRow (c!"O:")]).map (fun d => match d.base.scripts[2]?, d.base.scripts[3]? with
      | some a, some b => a.str == b.str && !lt a b
      | _, _ => false) = .ok true := by decide +kernel
  cases hd : mkDictionary plainOrder [c!"U:+A:", c!"O:"] [rootRow (c!"O:")] with
  | error e => rw [hd] at h; cases h
  | ok d =>
    rw [hd] at h
    simp only [Except.map, Except.ok.injEq] at h
    split at h
    · rename_i a b ha hb
      simp only [Bool.and_eq_true, beq_iff_eq, Bool.not_eq_true'] at h
      exact ⟨d, a, b, rfl, ha, hb, h.1, h.2⟩
    · cases h

/-! ### C23 -/

/-- The ranks of the tables of a built dictionary: at most 5 for the tables of several words, 6 for the cells; no other table has the
script of the table.  The full claim, for every built table structure, fails (`C23_violated`). -/
theorem C23_ranks_partial (ho : o.Valid) (h : mkDictionary o ks rows = .ok d) {t : Table} (ht : t ∈ d.base.tables.all) :
    t.rank ≤ 6 ∧ (t.rank = 6 ↔ t.script.cardinal = 1) ∧ d.base.tables.get? t.script = some t := by
  obtain ⟨st, _, hd, _⟩ := mkDictionary_inv ho h
  have huniq : ∀ t ∈ d.base.tables.all, d.base.tables.get? t.script = some t := by
    intro t ht
    obtain ⟨e, he, hte⟩ := mem_all.1 ht
    have hsome := get?_isSome.2 ⟨t, ht, rfl⟩
    obtain ⟨u, hu⟩ := Option.isSome_iff_exists.1 hsome
    obtain ⟨hu1, hu2⟩ := get?_some hu
    obtain ⟨e', he', hue⟩ := mem_all.1 hu1
    have wt := (hd.tabs_of he).2.wf t hte
    have wu := (hd.tabs_of he').2.wf u hue
    obtain ⟨w, hw⟩ := den_exists wt
    have hee : e = e' := hd.tabs_unique he he' (((hd.tabs_of he).2.within t hte).2 w hw)
      (((hd.tabs_of he').2.within u hue).2 w ((den_of_str wt wu hu2.symm w).1 hw))
    subst hee
    rw [hu]
    by_contra hne
    refine pairwise_mem (fun a b h => Ne.symm h) (hd.tables_distinct he) hue hte (fun e => hne (by rw [e])) hu2
  obtain ⟨e, he, hte⟩ := mem_all.1 ht
  have tab := (hd.tabs_of he).2
  have wt := tab.wf t hte
  by_cases hc : t.script.cardinal = 1
  · have := cell_rank ((tab.cell t hte).2 hc)
    exact ⟨by omega, ⟨fun _ => hc, fun _ => this⟩, huniq t ht⟩
  · -- the table and one of its cells
    have hlt : t.rank < 6 := by
      obtain ⟨L, eL⟩ := enum_exists (hd.rootWf e.1 (hd.tabs_of he).1)
      obtain ⟨w, hw⟩ := den_exists wt
      obtain ⟨q, hq, hqw⟩ := (eL.den w).1 ((tab.within t hte).2 w hw)
      obtain ⟨u, hu, hus⟩ := tab.seqs L eL q hq
      have wq : WF u.script := by rw [hus]; exact eL.wf q hq
      have hcu : u.script.cardinal = 1 := by rw [hus]; exact eL.one q hq
      have hne : t ≠ u := fun e => hc (by rw [e]; exact hcu)
      obtain ⟨i, hi⟩ := hd.indexed he hte
      obtain ⟨j, hj⟩ := hd.indexed he hu
      have hin : Within u.script t.script := by
        refine ⟨?_, fun v hv => ?_⟩
        · rw [(tab.within u hu).1, (tab.within t hte).1]
        · have := den_unique wq hcu hv (by rw [hus]; exact hqw)
          rw [this]; exact hw
      have hij : (i, j) ∈ d.relation .contains := by
        refine hd.contains_mem.2 (.inr ⟨e, he, t, hte, hc, hi, .inl ?_⟩)
        obtain ⟨M, eM⟩ := enum_exists wt
        obtain ⟨q', hq', hqw'⟩ := (eM.den w).1 hw
        refine ⟨M, eM, q', hq', ?_⟩
        rw [← hj]
        exact seqIndex_congr (str_of_word' (eM.wf q' hq') wq (eM.one q' hq') hcu hqw' (by rw [hus]; exact hqw))
      have key : ∀ {p : Table × Table} (_ : p ∈ DictBase.pairs e.2) (i0 i1 : Nat), d.base.index p.1.script = .ok i0 →
          d.base.index p.2.script = .ok i1 → (i, i0) ∈ d.relation .contains → (i, i1) ∈ d.relation .contains → t.rank < 6 := by
        intro p hp i0 i1 h0 h1 h2 h3
        obtain ⟨x, hx⟩ := hd.rankPairs he hp
        obtain ⟨j0, j1, ranks, g0, g1, g2, g3, _⟩ := rankPair_inv hx
        rw [h0, Except.ok.injEq] at g0
        rw [h1, Except.ok.injEq] at g1
        subst g0 g1
        obtain ⟨s, t', b1, b2, b3⟩ := (ranksOf_inv g2).1 i (List.mem_filter.2 ⟨mem_containers.2 h2, by
          simpa using mem_containers.2 h3⟩)
        obtain ⟨y, _, hy, hys⟩ := index_inv hi
        rw [b1, Option.some.injEq] at hy
        subst hy
        obtain ⟨c1, c2⟩ := get?_some b2
        have : t' = t := by
          have e1 := huniq t ht
          have e2 := huniq t' c1
          have : d.base.tables.get? t'.script = d.base.tables.get? t.script := by
            unfold TableStructure.get? pyEq
            rw [c2, hys]
          rw [e1, e2, Option.some.injEq] at this
          exact this
        rw [← this]
        exact (rankEntries_inv g3).1 _ b3
      have hself : (i, i) ∈ d.relation .contains := by
        obtain ⟨y, _, hy, _⟩ := index_inv hi
        exact hd.contains_mem.2 (.inl ⟨rfl, (List.getElem?_eq_some_iff.1 hy).1⟩)
      rcases pairs_total hte hu hne with hp | hp
      · exact key hp i j hi hj hself hij
      · exact key hp j i hj hi hij hself
    exact ⟨by omega, ⟨fun h => by omega, fun h => absurd h hc⟩, huniq t ht⟩

example : (mkDictionary plainOrder [c!"I:", c!"F:", c!"M:", c!"O:O:.", c!"U:O:."] [rootRow (c!"I:"), rootRow (c!"O:O:.")]).map
    (fun d => (d.base.tables.all.filter fun t => t.script.cardinal ≠ 1).map fun t => (t.script.str, t.rank)) =
    .ok [(c!"I:", 0), (c!"F:", 3), (c!"M:", 5), (c!"O:O:.", 0), (c!"U:O:.", 3)] := by decide +kernel

/-- The parent of a table of several words is a table of the same dictionary, with all the words of the table.  The parents that are
two dimensional tables are root tables or have an odd rank.  The rank of the table follows from that of its parent. -/
theorem C23_parents (ho : o.Valid) (h : mkDictionary o ks rows = .ok d) {s : Script} {k : TableKind} {r : Bool} {p : Table}
    (ht : Table.sub s k r p ∈ d.base.tables.all) (hc : s.cardinal ≠ 1) :
    p ∈ d.base.tables.all ∧ Within s p.script ∧ (p.kind = .t2d → p.rank = 0 ∨ p.rank % 2 = 1) ∧
      ((Table.sub s k r p).rank = max p.rank 1 ∨ (Table.sub s k r p).rank = max p.rank 1 + 1 ∨
        (Table.sub s k r p).rank = max p.rank 1 + 2) := by
  obtain ⟨st, _, hd, _⟩ := mkDictionary_inv ho h
  obtain ⟨e, he, hte⟩ := mem_all.1 ht
  have tab := (hd.tabs_of he).2
  have hk : k ≠ .cell := fun hk => hc ((tab.cell _ hte).1 hk)
  obtain ⟨h1, h2⟩ := tab.parent _ hte s k r p rfl hk
  refine ⟨mem_all.2 ⟨e, he, h1⟩, accept_within (tab.wf p h1) (tab.wf _ hte) h2, ?_, ?_⟩
  · intro hp
    by_contra hn
    rw [not_or] at hn
    rw [Table.accept, hp] at h2
    simp only [Table.accept2] at h2
    rw [bind_ok] at h2
    obtain ⟨b, _, h2⟩ := h2
    split at h2
    · rw [pure_ok] at h2
      cases h2
    · rw [if_pos ⟨hn.1, by omega⟩, pure_ok] at h2
      cases h2
  · rw [Table.rank, if_neg hk]
    split
    · exact .inl rfl
    · split
      · exact .inr (.inr rfl)
      · exact .inr (.inl rfl)

example : (mkDictionary plainOrder [c!"M:M:.", c!"S:+B:M:.", c!"S:M:."] [rootRow (c!"M:M:.")]).map
    (fun d => (d.base.tables.all.filter fun t => t.script.cardinal ≠ 1).map fun t => (t.script.str, t.rank)) =
    .ok [(c!"M:M:.", 0), (c!"S:+B:M:.", 2), (c!"S:M:.", 3)] := by decide +kernel

/-- The claim fails: four paradigms each inside the next one give a table of rank 7, and the computation of the relations raises
`IndexError`. -/
theorem C23_violated : (∃ st base, readDictionary [c!"I:", c!"F:", c!"M:", c!"S:+B:"] [rootRow (c!"I:")] = .ok st ∧
      dictionaryBase plainOrder st = .ok base ∧ ∃ t ∈ base.tables.all, t.rank = 7) ∧
    ∀ d, mkDictionary plainOrder [c!"I:", c!"F:", c!"M:", c!"S:+B:"] [rootRow (c!"I:")] ≠ .ok d := by
  constructor
  · have h : (readDictionary [c!"I:", c!"F:", c!"M:", c!"S:+B:"] [rootRow (c!"I:")] >>= dictionaryBase plainOrder).map
        (fun b => b.tables.all.any fun t => t.rank == 7) = .ok true := by decide +kernel
    cases h1 : readDictionary [c!"I:", c!"F:", c!"M:", c!"S:+B:"] [rootRow (c!"I:")] with
    | error e => rw [h1] at h; cases h
    | ok st =>
      rw [h1] at h
      cases h2 : dictionaryBase plainOrder st with
      | error e => simp only [bind, Except.bind, h2] at h; cases h
      | ok base =>
        simp only [bind, Except.bind, h2, Except.map, Except.ok.injEq, List.any_eq_true, beq_iff_eq] at h
        exact ⟨st, base, rfl, h2, h⟩
  · intro d hd
    have h : (mkDictionary plainOrder [c!"I:", c!"F:", c!"M:", c!"S:+B:"] [rootRow (c!"I:")]).map (fun _ => ()) = .error .indexError := by
      decide +kernel
    rw [hd] at h
    cases h

end Verif
