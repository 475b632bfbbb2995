import Verif.Lemmas.Cells3
import Verif.Lemmas.ScriptDec

/-
C16, C17, C59, C60: the paradigm tables of a script.
-/

namespace Verif
open Script

/-- `O:M:.`, a table of two rows and three columns. -/
def tOM : Script := .mult (.add [.prim .U, .prim .A]) (.add [.prim .S, .prim .B, .prim .T]) (.null 0)

/-- `O:M:O:.`, two pages. -/
def tOMO : Script :=
  .mult (.add [.prim .U, .prim .A]) (.add [.prim .S, .prim .B, .prim .T]) (.add [.prim .U, .prim .A])

/-- `O:M:.U:.-`: one plural role, itself a product with two plural roles. -/
def tNest : Script := .mult tOM (.mult (.prim .U) (.null 0) (.null 0)) (.null 1)

/-- `O:.+U:.`, a sum whose terms share a word. -/
def tOU : Script := .add [.mult (.prim .U) (.null 0) (.null 0), .mult (.add [.prim .U, .prim .A]) (.null 0) (.null 0)]

/-- `(O:.+U:.)O:.-`. -/
def tDup : Script := .mult tOU (.mult (.add [.prim .U, .prim .A]) (.null 0) (.null 0)) (.null 1)

/-- A product of layer 3 whose only plural role is `tDup`. -/
def tBad : Script := .mult tDup (.null 2) (.null 2)

/-- The 25 products of two primitives among `U A S B T`. -/
def t25 : Script := .mult (.add [.prim .U, .prim .A, .prim .S, .prim .B, .prim .T])
  (.add [.prim .U, .prim .A, .prim .S, .prim .B, .prim .T]) (.null 0)

/-- A product with two plural roles, one of 25 sequences. -/
def tWide : Script := .mult t25 (.mult (.add [.prim .U, .prim .A]) (.null 0) (.null 0)) (.null 1)

theorem built_tOM : Built tOM := built_of (by decide +kernel)
theorem built_tOMO : Built tOMO := built_of (by decide +kernel)
theorem built_tNest : Built tNest := built_of (by decide +kernel)
theorem built_tBad : Built tBad := built_of (by decide +kernel)
theorem built_tWide : Built tWide := built_of (by decide +kernel)

/-- Texts of the cells, page by page order of numpy. -/
def cellTexts (s : Script) : Except Err (List (List (Option Str))) :=
  (tables s).map fun t => t.cells.map fun r => r.flat.map fun o => o.map str

/-- **C16.** When the sequences of a buildable script have distinct texts and no header is too long, the tables are defined
and their cells, put together, are a permutation of the sequences: each sequence is in exactly one cell and no cell keeps the
initial `0`. -/
theorem C16_cells_permutation {s : Script} (h : Built s) {L : List Script} (hL : singularSequences s = .ok L)
    (hn : (L.map str).Nodup) (hw : ¬ TooWide s) :
    ∃ t, tables s = .ok t ∧ (t.cells.flatMap Arr.flat).Perm (L.map some) := by
  have hwf := built_wf h
  have e := enum_of_run hwf hL
  have hd : DisjointSums s := (norep_iff hwf e).1 (by rw [List.Nodup, List.pairwise_map] at hn; exact hn)
  rcases tab_outcome hwf with ⟨h1, _⟩ | ⟨_, h2⟩
  · exact absurd h1 hw
  · obtain ⟨t, ht, tok⟩ := h2 hd L e
    exact ⟨t, ht, tok.cells⟩

/-- **C16**, as stated in the list of properties: whenever the tables are defined. -/
theorem C16_cells_permutation' {s : Script} (h : Built s) {L : List Script} (hL : singularSequences s = .ok L)
    (hn : (L.map str).Nodup) {t : Tables} (ht : tables s = .ok t) :
    (t.cells.flatMap Arr.flat).Perm (L.map some) := by
  have hwf := built_wf h
  have hw : ¬ TooWide s := by
    intro hw
    rcases tab_outcome hwf with ⟨_, ⟨e, he⟩, _⟩ | ⟨h1, _⟩
    · rw [ht] at he; cases he
    · exact h1 hw
  obtain ⟨t', h1, h2⟩ := C16_cells_permutation h hL hn hw
  rw [ht, Except.ok.injEq] at h1
  subst h1; exact h2

-- The hypotheses are met, and the conclusion is not trivial, for a table of one page, of two pages, and for a nested one.
example : Built tOM ∧ cellTexts tOM = .ok [[some (c!"y."), some (c!"o."), some (c!"e."), some (c!"u."), some (c!"a."),
    some (c!"i.")]] := ⟨built_tOM, by decide +kernel⟩

example : Built tOMO ∧ (singularSequences tOMO).map (fun L => (L.map str).Nodup) = .ok True ∧
    (tables tOMO).map (fun t => t.cells.map fun r => (r.n0, r.n1, r.n2)) = .ok [(2, 3, 2)] :=
  ⟨built_tOMO, by
    have : (singularSequences tOMO).map (fun L => decide (L.map str).Nodup) = .ok true := by decide +kernel
    cases h : singularSequences tOMO with
    | error e => rw [h] at this; cases this
    | ok L => rw [h] at this; simpa [Except.map] using this, by decide +kernel⟩

example : Built tNest ∧ (cellTexts tNest).map (fun l => l.map List.length) = .ok [6] := ⟨built_tNest, by decide +kernel⟩

/-- **C17, first direction, for all buildable scripts**: when a header would be too long, the computation raises. -/
theorem C17_too_wide_raises {s : Script} (h : Built s) (hw : TooWide s) : ∃ e, tables s = .error e := by
  rcases tab_outcome (built_wf h) with ⟨_, h1, _⟩ | ⟨h1, _⟩
  · exact h1
  · exact absurd hw h1

/-- **C17, what holds.** For a script without overlapping sums, the computation raises exactly when a header would be too
long, and the exception is then `ValueError`.  The full claim, without the hypothesis on sums, is false: `C17_violated`. -/
theorem C17_raises_iff_partial {s : Script} (h : Built s) (hd : DisjointSums s) :
    ((∃ e, tables s = .error e) ↔ TooWide s) ∧ (∀ e, tables s = .error e → e = .valueError) := by
  obtain ⟨L, e⟩ := enum_exists (built_wf h)
  rcases tab_outcome (built_wf h) with ⟨h1, h2, h3⟩ | ⟨h1, h2⟩
  · refine ⟨⟨fun _ => h1, fun _ => h2⟩, fun e he => ?_⟩
    rw [h3 hd] at he
    exact (Except.error.inj he).symm
  · obtain ⟨t, ht, _⟩ := h2 hd L e
    refine ⟨⟨?_, fun h => absurd h h1⟩, ?_⟩
    · rintro ⟨e, he⟩; rw [ht] at he; cases he
    · intro e he; rw [ht] at he; cases he

theorem tWide_wide : TooWide tWide :=
  .product (c := t25) (by decide +kernel) (by simp) (by decide +kernel)

example : Built tWide ∧ TooWide tWide ∧ (tables tWide).map (fun _ => ()) = .error .valueError :=
  ⟨built_tWide, tWide_wide, by decide +kernel⟩

example : Built tOM ∧ DisjointSums tOM ∧ ¬ TooWide tOM := by
  refine ⟨built_tOM, .mult (.add ?_ ?_) (.add ?_ ?_) (.null 0), ?_⟩
  any_goals simp [DisjointSums.prim, den_prim]
  intro h
  have := C17_too_wide_raises built_tOM h
  obtain ⟨e, he⟩ := this
  have h2 : (tables tOM).map (fun _ => ()) = .ok () := by decide +kernel
  rw [he] at h2; cases h2

/-- **C17 is violated**: the tables of `tBad` raise `KeyError` although every role has at most 12 sequences.  Its only plural
role is a product with two plural roles, one of which lists a sequence twice: the array of this role keeps an initial `0`. -/
theorem C17_violated : ∃ s, Built s ∧ s.cardinal = 6 ∧ ¬ TooWide s ∧ tables s = .error .keyError := by
  refine ⟨tBad, built_tBad, by decide +kernel, ?_, ?_⟩
  · intro h
    cases h with
    | product h1 h2 h3 =>
      have : ([tDup, .null 2, .null 2].filter fun c => c.cardinal ≠ 1).length = 1 := by decide +kernel
      omega
    | @role _ _ _ c h1 h2 =>
      have h3 : c = tDup := by
        have : [tDup, .null 2, .null 2].filter (fun c => c.cardinal ≠ 1) = [tDup] := by
          have h1 : tDup.cardinal ≠ 1 := by decide +kernel
          simp [h1, cardinal]
        rw [this] at h1
        exact (List.cons.inj h1).1.symm
      subst h3
      cases h2 with
      | @product _ _ _ c h1 h2 h3 =>
        simp only [List.mem_cons, List.not_mem_nil, or_false] at h2
        have a1 : tOU.cardinal = 3 := by decide +kernel
        have a2 : (mult (.add [.prim .U, .prim .A]) (.null 0) (.null 0)).cardinal = 2 := by decide +kernel
        have a3 : (null 1).cardinal = 1 := rfl
        rcases h2 with rfl | rfl | rfl <;> omega
      | role h1 h2 =>
        have := congrArg List.length h1
        have h3 : ([tOU, .mult (.add [.prim .U, .prim .A]) (.null 0) (.null 0), .null 1].filter
          fun c => c.cardinal ≠ 1).length = 2 := by decide +kernel
        simp only [List.length_cons, List.length_nil] at this
        omega
  · have : (tables tBad).map (fun _ => ()) = .error .keyError := by decide +kernel
    cases h : tables tBad with
    | error e => rw [h] at this; simpa [Except.map] using this
    | ok t => rw [h] at this; cases this

/-- **C59.** The scripts of the tables split the script: together they have exactly its words, they are buildable, of its
layer, and their cardinals add up to its cardinal. -/
theorem C59_tables_split {s : Script} (h : Built s) (hd : DisjointSums s) {t : Tables} (ht : tables s = .ok t) :
    (∀ w, Den s w ↔ ∃ x ∈ t.scripts, Den x w) ∧ (∀ x ∈ t.scripts, Built x ∧ x.layer = s.layer) ∧
      (t.scripts.map cardinal).sum = s.cardinal := by
  obtain ⟨L, e⟩ := enum_exists (built_wf h)
  rcases tab_outcome (built_wf h) with ⟨_, ⟨_, h2⟩, _⟩ | ⟨h1, h2⟩
  · rw [ht] at h2; cases h2
  · obtain ⟨t', ht', tok⟩ := h2 hd L e
    rw [ht, Except.ok.injEq] at ht'
    subst ht'
    exact ⟨tok.den, fun x hx => ⟨wf_built (tok.scripts x hx).wf, (tok.scripts x hx).layer⟩, tok.card⟩

example : Built tOMO ∧ (tables tOMO).map (fun t => t.scripts.map str) = .ok [c!"O:M:U:.", c!"O:M:A:."] :=
  ⟨built_tOMO, by decide +kernel⟩

/-- **C60.** The table of a product with several plural roles is one array; each page has a script with the words of the
page, each row a header with the words of the row, each column a header with the words of the column, and there are as many
headers as rows and columns. -/
theorem C60_headers {s a m : Script} (h : Built (mult s a m)) (hd : DisjointSums (mult s a m))
    (hp : 2 ≤ ([s, a, m].filter fun c => c.cardinal ≠ 1).length) {t : Tables} (ht : tables (mult s a m) = .ok t) : Grid t := by
  have hw := built_wf h
  obtain ⟨L, e⟩ := enum_exists hw
  have hl : (pluralRoles s a m).length ≠ 1 := by
    rw [← plural_filter, List.length_map] at hp; omega
  have hc : (mult s a m).cardinal ≠ 1 := by
    intro hc
    rw [cardinal_mult hw] at hc
    have h1 : s.cardinal * a.cardinal = 1 := Nat.eq_one_of_mul_eq_one_right hc
    have h2 : m.cardinal = 1 := Nat.eq_one_of_mul_eq_one_left hc
    have h3 : s.cardinal = 1 := Nat.eq_one_of_mul_eq_one_right h1
    have h4 : a.cardinal = 1 := Nat.eq_one_of_mul_eq_one_left h1
    simp [h2, h3, h4] at hp
  have hnw : ¬ TooWide (mult s a m) := by
    intro hx
    obtain ⟨e, he⟩ := C17_too_wide_raises h hx
    rw [ht] at he; cases he
  rcases tooWide_mult hw hc with ⟨c, v, hp', _⟩ | ⟨_, _, hi⟩
  · rw [hp'] at hl; simp at hl
  · have he : tables (mult s a m) = productTables s a m := by
      rw [tables, if_neg hc]
      split
      · rename_i c hp; rw [hp] at hl; simp at hl
      · rfl
    obtain ⟨t', h1, _, hg⟩ := product_array hw hc hd e.run (by
      intro c hcm
      by_contra hlt
      exact hnw (hi.2 ⟨c, hcm, by omega⟩)) hl
    rw [← he, ht, Except.ok.injEq] at h1
    subst h1; exact hg

example : Built tOM ∧ (tables tOM).map (fun t => t.headers.map fun h => h.map fun k => k.map str) =
    .ok [[[c!"U:M:.", c!"A:M:."], [c!"O:S:.", c!"O:B:.", c!"O:T:."]]] := ⟨built_tOM, by decide +kernel⟩

end Verif
