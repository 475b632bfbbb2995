import Verif.Lemmas.BuildTotal
import Verif.Props.Dictionary
import Verif.Props.SingularSequences

/-
C21: for which data the dictionary is always built.
-/

namespace Verif
open Script

variable {o : SetOrder} {ks : List Str} {rows : List (Str × Str × Str)}

/-- Every key reads as a script that lists each of its words once and whose tables are not refused for their size. -/
def FitKeys (ks : List Str) : Prop := ∀ k ∈ ks, ∀ s, parseScript k = .ok s → DisjointSums s ∧ ¬ TooWide s

/-- Every root has several words. -/
def PluralRoots (rows : List (Str × Str × Str)) : Prop :=
  ∀ k, Marked rows (c!"is_root") k → ∀ s, parseScript k = .ok s → s.cardinal ≠ 1

/-- Four different keys with several words, each within the one before. -/
def FourNested (ks : List Str) : Prop :=
  ∃ k₁ ∈ ks, ∃ k₂ ∈ ks, ∃ k₃ ∈ ks, ∃ k₄ ∈ ks, [k₁, k₂, k₃, k₄].Nodup ∧ ∃ s₁ s₂ s₃ s₄,
    parseScript k₁ = .ok s₁ ∧ parseScript k₂ = .ok s₂ ∧ parseScript k₃ = .ok s₃ ∧ parseScript k₄ = .ok s₄ ∧
    s₁.cardinal ≠ 1 ∧ s₂.cardinal ≠ 1 ∧ s₃.cardinal ≠ 1 ∧ s₄.cardinal ≠ 1 ∧ Within s₂ s₁ ∧ Within s₃ s₂ ∧ Within s₄ s₃

/-- The scripts and the roots that were read are the ones of the keys, or have one word. -/
theorem read_parsed {st : Reading} {fs : List (Str × Script)}
    (hfs : ∀ e ∈ fs, e.1 ∈ ks ∧ parseScript e.1 = .ok e.2) (h : rows.foldlM readRow ⟨fs, [], [], []⟩ = .ok st) :
    (∀ e ∈ st.scripts, (e.1 ∈ ks ∧ parseScript e.1 = .ok e.2) ∨ e.2.cardinal = 1) ∧
    (∀ r ∈ st.roots, (∃ k ∈ ks, parseScript k = .ok r) ∨ r.cardinal = 1) := by
  have := foldlM_inv (P := fun st : Reading => (∀ e ∈ st.scripts, WF e.2) ∧
      (∀ e ∈ st.scripts, (e.1 ∈ ks ∧ parseScript e.1 = .ok e.2) ∨ e.2.cardinal = 1) ∧
      (∀ r ∈ st.roots, (∃ k ∈ ks, parseScript k = .ok r) ∨ r.cardinal = 1))
    ⟨fun e he => parse_wf (hfs e he).2, fun e he => .inl (hfs e he), by simp⟩ ?_ h
  · exact this.2
  intro row _ st st' ⟨i0, i1, i2⟩ hrow
  rcases readRow_inv hrow with ⟨_, rfl⟩ | ⟨p, ss, hg, hss, hs, h⟩
  · exact ⟨i0, i1, i2⟩
  have hm := fsGet_mem hg
  have e := enum_of_run (i0 _ hm) hss
  have hp : (∃ k ∈ ks, parseScript k = .ok p) ∨ p.cardinal = 1 := (i1 _ hm).imp (fun h => ⟨_, h.1, h.2⟩) id
  refine ⟨?_, ?_, ?_⟩
  · intro x hx
    rw [hs] at hx
    rcases addSeqs_mem hx with hx | ⟨q, hq, rfl⟩
    · exact i0 x hx
    · exact e.wf q hq
  · intro x hx
    rw [hs] at hx
    rcases addSeqs_mem hx with hx | ⟨q, hq, rfl⟩
    · exact i1 x hx
    · exact .inr (e.one q hq)
  · rcases h with ⟨_, e1, _⟩ | ⟨_, _, e1, _⟩ | ⟨_, _, e1, _⟩ | ⟨_, e1, _⟩ <;> rw [e1]
    · exact i2
    · intro r hr
      rcases List.mem_append.1 hr with hr | hr
      · exact i2 r hr
      · rw [List.mem_singleton] at hr; rw [hr]; exact hp
    · exact i2
    · exact i2

/-- A script with one word lists it once. -/
theorem disjoint_of_one {s : Script} (h : WF s) (hc : s.cardinal = 1) : DisjointSums s := by
  obtain ⟨L, e⟩ := enum_exists h
  refine (norep_iff h e).1 ?_
  have := e.length
  rw [hc] at this
  match L, this with
  | [q], _ => exact List.pairwise_singleton _ _

/-- The dictionary is built from consistent data, for every order of iteration of the sets, when the keys list each of their words
once and have tables, the roots have several words, and no four paradigms are nested.  Each of the three further conditions is
needed, see `C21_violated`: one root with one word, one root that lists a word twice, four nested paradigms (`I:`, `F:`, `M:`,
`S:+B:`).  Partial: the claim has only the condition that the roots are disjoint. -/
theorem C21_builds_partial (ho : o.Valid) (hc : ConsistentData ks rows) (hf : FitKeys ks) (hp : PluralRoots rows) (hn : ¬ FourNested ks) :
    ∃ d, mkDictionary o ks rows = .ok d := by
  obtain ⟨st, h1⟩ := readDictionary_total hc
  have hnk := NormalKeys.of_consistent hc
  have hni := NoIgnoredRoot.of_consistent hc
  obtain ⟨st0, fs, hok, hap, hrows, hkeys, hn0, out, hout, k1, k2, k3, k4, _⟩ := readDictionary_inv h1
  replace hn0 := hn0 hnk
  obtain ⟨p1, p2⟩ := read_parsed (readKeys hkeys).2.1 hrows
  -- the roots
  have root : ∀ r ∈ st.roots, r.cardinal ≠ 1 ∧ ∃ k ∈ ks, parseScript k = .ok r := by
    intro r hr
    have hr0 := k3.subset hr
    have hm := (hn0.roots r hr0).2.1
    obtain ⟨s, hs, hsr⟩ := hc.keys _ (hc.rootKeys _ hm)
    have hcr : r.cardinal ≠ 1 := by
      rw [← cardinal_of_str (parse_wf hs) (hok.roots r hr0) hsr]
      exact hp _ hm s hs
    exact ⟨hcr, (p2 r hr0).resolve_right hcr⟩
  have fitRoot : ∀ r ∈ st.roots, FitScript r := by
    intro r hr
    obtain ⟨_, k, hk, hs⟩ := root r hr
    exact ⟨parse_wf hs, hf k hk r hs⟩
  -- the scripts
  have script : ∀ s ∈ pySort lt (st.scripts.map (·.2)), WF s ∧ (s.cardinal ≠ 1 → ∃ k ∈ ks, parseScript k = .ok s) := by
    intro s hs
    rw [mem_pySort (lt := lt), List.mem_map] at hs
    obtain ⟨e, he, rfl⟩ := hs
    have he0 := ((k1 e).1 he).1
    exact ⟨hok.wf e he0, fun hc1 => ⟨e.1, (p1 e he0).resolve_right hc1⟩⟩
  have hw : ∀ s ∈ pySort lt (st.scripts.map (·.2)), ∀ w, Den s w → ∃ r ∈ st.roots, Den r w := by
    intro s hs w hw
    rw [mem_pySort (lt := lt), List.mem_map] at hs
    obtain ⟨e, he, rfl⟩ := hs
    obtain ⟨he1, he2⟩ := (k1 e).1 he
    have hes := (hn0.keys e he1).1
    have hnot : e.2 ∉ out := fun hm => he2 e.2 (List.mem_append_right _ hm) hes
    have hr : ∃ r ∈ st0.roots, Den r w := by
      by_contra hcon
      exact hnot ((hout e.2).2 ⟨⟨e.1, he1⟩, w, hw, fun r hr hrw => hcon ⟨r, hr, hrw⟩⟩)
    obtain ⟨r, hr, hrw⟩ := hr
    have wr := hok.roots r hr
    refine ⟨r, (k4 r).2 ⟨hr, fun s hs hsr => ?_⟩, hrw⟩
    rcases List.mem_append.1 hs with hs | hs
    · exact hni r.str ⟨(hn0.roots r hr).2.1, hsr ▸ (hn0.ignored s hs).1⟩
    · obtain ⟨⟨k, hks⟩, u, hu, hall⟩ := (hout s).1 hs
      exact hall r hr ((den_of_str (hok.wf _ hks) wr hsr u).1 hu)
  obtain ⟨x, hx⟩ := buildTables_total ho fitRoot
    (fun s hs => ⟨(script s hs).1, fun hc1 => by
      obtain ⟨k, hk, hs'⟩ := (script s hs).2 hc1
      exact ⟨parse_wf hs', hf k hk s hs'⟩⟩) hw
  have hbase : ∃ base, dictionaryBase o st = .ok base ∧ base.tables = x := by
    unfold dictionaryBase
    simp only []
    rw [hx]
    exact ⟨_, rfl, rfl⟩
  obtain ⟨base, h2, rfl⟩ := hbase
  have hwfS : ∀ s ∈ pySort lt (st.scripts.map (·.2)), WF s := fun s hs => (script s hs).1
  have hd := buildTables_distinct ho (fun r hr => ⟨(fitRoot r hr).1, (fitRoot r hr).2.1, (root r hr).1⟩) hwfS hx
  refine mkDictionary_total ho hc h1 h2 hd ?_
  intro t ht hct
  by_contra hrank
  obtain ⟨e, he, hte⟩ := DictOk.mem_all.1 ht
  obtain ⟨r, hr, rfl, tab⟩ := forall₂_mem_right (buildTables_inv ho (fun r hr => (fitRoot r hr).1) hwfS hx) he
  -- a table with several words has the script of a key
  have key : ∀ t ∈ e.2, t.script.cardinal ≠ 1 → ∃ k ∈ ks, parseScript k = .ok t.script := by
    intro t ht hct
    rcases tab.from_ t ht with h | h | h
    · rw [h]; exact (root _ hr).2
    · exact (script _ h).2 hct
    · exact absurd h hct
  have hds : ∀ t ∈ e.2, DisjointSums t.script := by
    intro t ht
    by_cases h : t.script.cardinal = 1
    · exact disjoint_of_one (tab.wf t ht) h
    · obtain ⟨k, hk, hs⟩ := key t ht h
      exact (hf k hk _ hs).1
  obtain ⟨p, hp', q, hq, u, hu, w1, w2, w3, c1, c2, c3, nd⟩ := rank_chain tab (hd e he) hds hte hct (by omega)
  obtain ⟨kt, a1, b1⟩ := key t hte hct
  obtain ⟨kp, a2, b2⟩ := key p hp' c1
  obtain ⟨kq, a3, b3⟩ := key q hq c2
  obtain ⟨ku, a4, b4⟩ := key u hu c3
  refine hn ⟨ku, a4, kq, a3, kp, a2, kt, a1, ?_, _, _, _, _, b4, b3, b2, b1, c3, c2, c1, hct, w3, w2, w1⟩
  rw [hnk kt a1 _ b1, hnk kp a2 _ b2, hnk kq a3 _ b3, hnk ku a4 _ b4] at nd
  exact List.nodup_reverse.1 nd

/-- Sufficient conditions that can be evaluated. -/
theorem fitKeys_of (h : ∀ k ∈ ks, ((parseScript k).toOption.map fun s =>
      decide (((singularSequences s).toOption.map fun L => decide (L.map str).Nodup) = some true) && (tables s).isOk) = some true) :
    FitKeys ks := by
  intro k hk s hs
  have h := h k hk
  rw [hs] at h
  simp only [Except.toOption, Option.map_some, Option.some.injEq, Bool.and_eq_true] at h
  have hw := parse_wf hs
  refine ⟨?_, ?_⟩
  · obtain ⟨L, h1, h2⟩ := C04_no_repetition_partial (wf_built hw)
    rw [h1] at h
    exact h2.1 (by simpa using h.1)
  · rcases tab_outcome hw with h' | h'
    · have h2 := h.2
      obtain ⟨e, he⟩ := h'.2.1
      rw [he] at h2
      cases h2
    · exact h'.1

theorem notNested_of (h : ∀ a ∈ ks, ∀ b ∈ ks, ∀ c ∈ ks, ∀ d ∈ ks, [a, b, c, d].Nodup →
      ((parseScript a).toOption.bind fun s => (parseScript b).toOption.bind fun t => (contains s t).toOption) = some true →
      ((parseScript b).toOption.bind fun s => (parseScript c).toOption.bind fun t => (contains s t).toOption) = some true →
      ((parseScript c).toOption.bind fun s => (parseScript d).toOption.bind fun t => (contains s t).toOption) ≠ some true) :
    ¬ FourNested ks := by
  rintro ⟨k₁, h1, k₂, h2, k₃, h3, k₄, h4, nd, s₁, s₂, s₃, s₄, p1, p2, p3, p4, _, _, _, _, w1, w2, w3⟩
  refine h k₁ h1 k₂ h2 k₃ h3 k₄ h4 nd ?_ ?_ ?_
  · rw [p1, p2]; simp only [Except.toOption, Option.bind_some]
    rw [(contains_iff (parse_wf p1) (parse_wf p2)).2 w1]
  · rw [p2, p3]; simp only [Except.toOption, Option.bind_some]
    rw [(contains_iff (parse_wf p2) (parse_wf p3)).2 w2]
  · rw [p3, p4]; simp only [Except.toOption, Option.bind_some]
    rw [(contains_iff (parse_wf p3) (parse_wf p4)).2 w3]

-- The data of the examples of C21 meet every hypothesis.
example : ConsistentData exampleKeys exampleRows ∧ FitKeys exampleKeys ∧ PluralRoots exampleRows ∧ ¬ FourNested exampleKeys := by
  refine ⟨example_consistent, fitKeys_of (by decide +kernel), ?_, notNested_of (by decide +kernel)⟩
  intro k hk s hs
  have h : ∀ row ∈ exampleRows, row.2.1 = c!"is_root" → (parseScript row.1).toOption.map (fun s => decide (s.cardinal = 1)) = some false := by
    decide +kernel
  obtain ⟨c, v, hrow, _⟩ := hk
  have := h _ hrow rfl
  rw [hs] at this
  simpa [Except.toOption] using this

end Verif
