import Verif.Lemmas.Headers
import Verif.Model.TableAccess
import Verif.Props.Cells
import Verif.Props.Dictionary
import Verif.Props.Tiling

/-
C60 for every paradigm, and **C96**: the cells of a table by their places and the tables of a dictionary by their parents.
-/

namespace Verif
open Script DictOk

/-- **C60**, for every paradigm: the arrays, the scripts and the headers are put together, in order, from grids (one array; for each of its
pages one script and two headers that label it) and lines (one array of one dimension, one script, which is also the only header). -/
theorem C60_headers_all {s : Script} (h : Built s) (hd : DisjointSums s) (hc : s.cardinal ≠ 1) {t : Tables} (ht : tables s = .ok t) :
    Blocks t :=
  tables_blocks (built_wf h) hd hc t ht

-- A product with one plural role, itself a grid, and a sum of a grid of two pages and of a line.
example : Built tNest ∧ tNest.cardinal ≠ 1 ∧ (tables tNest).map (fun t => (t.scripts.map str, t.headers.map fun h => h.map fun k => k.map str)) =
    .ok ([c!"O:M:.U:.-"], [[[c!"U:M:.U:.-", c!"A:M:.U:.-"], [c!"O:S:.U:.-", c!"O:B:.U:.-", c!"O:T:.U:.-"]]]) :=
  ⟨built_tNest, by decide, by decide +kernel⟩

/-! ### C96 -/

theorem wrapIndex_nat {n i : Nat} (h : i < n) : wrapIndex n (i : Int) = .ok i := by
  unfold wrapIndex
  rw [if_pos (by omega), if_pos (by exact_mod_cast h)]
  simp

/-- The place that Python means by an index. -/
theorem wrapIndex_ok {n : Nat} {i : Int} {k : Nat} : wrapIndex n i = .ok k ↔ k < n ∧ (i = k ∨ i = (k : Int) - n) := by
  unfold wrapIndex
  split
  · split
    · rw [Except.ok.injEq]; omega
    · constructor
      · intro h; cases h
      · omega
  · split
    · rw [Except.ok.injEq]; omega
    · constructor
      · intro h; cases h
      · omega

theorem wrapIndex_error {n : Nat} {i : Int} (h : i < -n ∨ n ≤ i) : wrapIndex n i = .error .indexError := by
  unfold wrapIndex
  split
  · rw [if_neg (by omega)]
  · rw [if_neg (by omega)]

/-- The only array of a table with places holds every sequence once. -/
theorem one_array {t : Table} {tt : Tables} {c : Arr} (hb : Built t.script) (hd : DisjointSums t.script) (ht : tables t.script = .ok tt)
    (hc : tt.cells = [c]) : ∃ L, Enum t.script L ∧ NoRep L ∧ c.flat.Perm (L.map some) := by
  have wt := built_wf hb
  obtain ⟨L, e⟩ := enum_exists wt
  refine ⟨L, e, (norep_iff wt e).2 hd, ?_⟩
  rcases tab_outcome wt with ⟨_, ⟨_, h2⟩, _⟩ | ⟨_, h2⟩
  · rw [ht] at h2; cases h2
  · obtain ⟨t', ht', tok⟩ := h2 hd L e
    rw [ht, Except.ok.injEq] at ht'
    subst ht'
    have := tok.cells
    rw [hc] at this
    simpa using this

theorem flat_length (c : Arr) : c.flat.length = c.n0 * c.n1 * c.n2 := by
  rw [flat_eq, List.length_map]
  unfold lex3
  simp [List.length_flatMap, Nat.mul_assoc]

theorem made_3d {t : Table} (h : TableMade t) (hk : t.kind = .t3d) : ∃ tt c, tables t.script = .ok tt ∧ tt.cells = [c] ∧ tt.scripts.length ≠ 1 := by
  obtain ⟨h1, _⟩ := made_class h
  rw [hk] at h1
  unfold tableClass at h1
  split at h1
  · cases h1
  · obtain ⟨tt, h2, h1⟩ := bind_ok.1 h1
    split at h1
    · obtain ⟨c, _, h1⟩ := bind_ok.1 h1
      split at h1 <;> cases h1
    · split at h1
      · rename_i h3 h4
        obtain ⟨c, hc⟩ := List.length_eq_one_iff.1 h4
        exact ⟨tt, c, h2, hc, h3⟩
      · cases h1

/-- **C96**, sizes: the shape of a table that is not a set of tables has as many numbers as the table has dimensions, and their product is the number of
sequences. -/
theorem C96_shape {t : Table} (h : TableMade t) (hb : Built t.script) (hd : DisjointSums t.script) (hk : t.kind ≠ .set) :
    ∃ sh, t.shape = .ok sh ∧ sh.prod = t.script.cardinal ∧
      (t.kind = .t2d → sh.length = 2) ∧ (t.kind = .t3d → sh.length = 3) ∧ (t.kind = .t1d ∨ t.kind = .cell → sh.length = 1) := by
  have size : ∀ {tt : Tables} {c : Arr}, tables t.script = .ok tt → tt.cells = [c] → c.n0 * c.n1 * c.n2 = t.script.cardinal := by
    intro tt c h1 h2
    obtain ⟨L, e, _, hp⟩ := one_array hb hd h1 h2
    have := hp.length_eq
    rw [List.length_map, flat_length, e.length] at this
    exact this
  have wt := built_wf hb
  cases hkk : t.kind with
  | set => exact absurd hkk hk
  | t2d =>
    obtain ⟨tt, c, h1, h2, _, _, h5⟩ := made_2d h hkk wt
    have hs := size h1 h2
    refine ⟨[c.n0, c.n1], by unfold Table.shape; rw [hkk, h1]; simp only [bind, Except.bind]; rw [h2]; rfl, ?_, by simp, by simp, by simp⟩
    rw [← hs, h5]; simp
  | t3d =>
    obtain ⟨tt, c, h1, h2, _⟩ := made_3d h hkk
    have hs := size h1 h2
    refine ⟨[c.n0, c.n1, c.n2], by unfold Table.shape; rw [hkk, h1]; simp only [bind, Except.bind]; rw [h2]; rfl, ?_, by simp, by simp, by simp⟩
    rw [← hs]; simp [Nat.mul_assoc]
  | t1d =>
    obtain ⟨tt, c, h1, h2, h3, h4⟩ := made_1d h (.inl hkk) wt
    have hs := size h1 h2
    refine ⟨[c.n0], by unfold Table.shape; rw [hkk, h1]; simp only [bind, Except.bind]; rw [h2]; rfl, ?_, by simp, by simp, by simp⟩
    rw [← hs, h3, h4]; simp
  | cell =>
    obtain ⟨tt, c, h1, h2, h3, h4⟩ := made_1d h (.inr hkk) wt
    have hs := size h1 h2
    refine ⟨[c.n0], by unfold Table.shape; rw [hkk, h1]; simp only [bind, Except.bind]; rw [h2]; rfl, ?_, by simp, by simp, by simp⟩
    rw [← hs, h3, h4]; simp

/-- A table whose cells have places. -/
def HasPlaces (t : Table) : Prop := t.kind = .t2d ∨ t.kind = .t1d ∨ t.kind = .cell

/-- The access to the only array. -/
theorem access {t : Table} (h : TableMade t) (hb : Built t.script) (hd : DisjointSums t.script) (hk : HasPlaces t) :
    ∃ c L, Enum t.script L ∧ Places c L ∧
      ((t.kind = .t2d ∧ t.shape = .ok [c.n0, c.n1] ∧ (∀ x, t.indexOf x = (indexOf2 c x).map fun p => [p.1, p.2]) ∧
          ∀ i j, t.getItem [i, j] = (do return c.get (← wrapIndex c.n0 i) (← wrapIndex c.n1 j) 0)) ∨
        (t.kind ≠ .t2d ∧ c.n1 = 1 ∧ t.shape = .ok [c.n0] ∧ (∀ x, t.indexOf x = (indexOf1 c x).map fun p => [p]) ∧
          ∀ i, t.getItem [i] = (do return c.get (← wrapIndex c.n0 i) 0 0))) := by
  have wt := built_wf hb
  by_cases h2 : t.kind = .t2d
  · obtain ⟨tt, c, g1, g2, _, _, g5⟩ := made_2d h h2 wt
    obtain ⟨L, e, hn, hp⟩ := one_array hb hd g1 g2
    refine ⟨c, L, e, places_of hp hn g5, .inl ⟨h2, ?_, fun x => ?_, fun i j => ?_⟩⟩
    · unfold Table.shape; rw [h2, g1]; simp only [bind, Except.bind]; rw [g2]; rfl
    · unfold Table.indexOf; rw [h2, g1]; simp only [bind, Except.bind]; rw [g2]
      simp only [first]
      cases indexOf2 c x <;> rfl
    · unfold Table.getItem; rw [h2, g1]; simp only [bind, Except.bind]; rw [g2]; rfl
  · have hk' : t.kind = .t1d ∨ t.kind = .cell := by
      rcases hk with hk | hk | hk
      · exact absurd hk h2
      · exact .inl hk
      · exact .inr hk
    obtain ⟨tt, c, g1, g2, g4, g5⟩ := made_1d h hk' wt
    obtain ⟨L, e, hn, hp⟩ := one_array hb hd g1 g2
    refine ⟨c, L, e, places_of hp hn g5, .inr ⟨h2, g4, ?_, fun x => ?_, fun i => ?_⟩⟩
    · unfold Table.shape; rcases hk' with hk' | hk' <;> (rw [hk', g1]; simp only [bind, Except.bind]; rw [g2]; rfl)
    · unfold Table.indexOf; rcases hk' with hk' | hk' <;> (rw [hk', g1]; simp only [bind, Except.bind]; rw [g2]; simp only [first]; cases indexOf1 c x <;> rfl)
    · unfold Table.getItem; rcases hk' with hk' | hk' <;> (rw [hk', g1]; simp only [bind, Except.bind]; rw [g2]; rfl)

/-- **C96**, places: `index_of` gives the place of every sequence of a table and `t[place]` the sequence at every place within the shape,
and they are inverse of each other; `index_of` raises `KeyError` for every script that is not a sequence of the table. -/
theorem C96_places {t : Table} (h : TableMade t) (hb : Built t.script) (hd : DisjointSums t.script) (hk : HasPlaces t) {L : List Script}
    (hL : singularSequences t.script = .ok L) {sh : List Nat} (hs : t.shape = .ok sh) :
    (∀ q ∈ L, ∃ ix, t.indexOf q = .ok ix ∧ List.Forall₂ (· < ·) ix sh ∧ t.getItem (ix.map Int.ofNat) = .ok (some q)) ∧
    (∀ ix, List.Forall₂ (· < ·) ix sh → ∃ q ∈ L, t.getItem (ix.map Int.ofNat) = .ok (some q) ∧ t.indexOf q = .ok ix) ∧
    ∀ x, (∀ q ∈ L, q.str ≠ x.str) → t.indexOf x = .error .keyError := by
  obtain ⟨c, L', e, hp, hcase⟩ := access h hb hd hk
  rw [e.run, Except.ok.injEq] at hL
  subst hL
  rcases hcase with ⟨_, g1, g2, g3⟩ | ⟨_, g0, g1, g2, g3⟩
  · rw [g1, Except.ok.injEq] at hs
    subst hs
    have get : ∀ {i j}, i < c.n0 → j < c.n1 → t.getItem ([i, j].map Int.ofNat) = .ok (c.get i j 0) := by
      intro i j hi hj
      show t.getItem [(i : Int), (j : Int)] = _
      rw [g3, wrapIndex_nat hi, wrapIndex_nat hj]; rfl
    refine ⟨fun q hq => ?_, fun ix hix => ?_, fun x hx => ?_⟩
    · obtain ⟨i, j, hi, hj, hc⟩ := hp.each q hq
      refine ⟨[i, j], by rw [g2, indexOf2_ok hp hi hj hc rfl]; rfl, .cons hi (.cons hj .nil), by rw [get hi hj, hc]⟩
    · cases hix with
      | @cons i _ ix' _ hi hix =>
      cases hix with
      | @cons j _ ix'' _ hj hix =>
      cases hix
      obtain ⟨q, hq, hc⟩ := hp.full hi hj
      exact ⟨q, hq, by rw [get hi hj, hc], by rw [g2, indexOf2_ok hp hi hj hc rfl]; rfl⟩
    · rw [g2]
      unfold indexOf2
      rw [List.find?_eq_none.2 ?_]
      · rfl
      · rintro ⟨i, j⟩ hm
        simp only [List.mem_reverse, List.mem_flatMap, List.mem_range, List.mem_map, Prod.mk.injEq] at hm
        obtain ⟨i', hi, j', hj, rfl, rfl⟩ := hm
        obtain ⟨q, hq, hc⟩ := hp.full hi hj
        simp [hc, pyEq, hx q hq]
  · rw [g1, Except.ok.injEq] at hs
    subst hs
    have h0 : 0 < c.n1 := by omega
    have get : ∀ {i}, i < c.n0 → t.getItem ([i].map Int.ofNat) = .ok (c.get i 0 0) := by
      intro i hi
      show t.getItem [(i : Int)] = _
      rw [g3, wrapIndex_nat hi]; rfl
    refine ⟨fun q hq => ?_, fun ix hix => ?_, fun x hx => ?_⟩
    · obtain ⟨i, j, hi, hj, hc⟩ := hp.each q hq
      have : j = 0 := by omega
      subst this
      refine ⟨[i], by rw [g2, indexOf1_ok hp g0 hi hc rfl]; rfl, .cons hi .nil, by rw [get hi, hc]⟩
    · cases hix with
      | @cons i _ ix' _ hi hix =>
      cases hix
      obtain ⟨q, hq, hc⟩ := hp.full hi h0
      exact ⟨q, hq, by rw [get hi, hc], by rw [g2, indexOf1_ok hp g0 hi hc rfl]; rfl⟩
    · rw [g2]
      unfold indexOf1
      rw [List.find?_eq_none.2 ?_]
      · rfl
      · intro i hm
        obtain ⟨q, hq, hc⟩ := hp.full (by simpa using hm : i < c.n0) h0
        simp [hc, pyEq, hx q hq]

example : TableMade tileRoot ∧ HasPlaces tileRoot ∧ tileRoot.shape = .ok [3, 3] ∧ tileRoot.indexOf (tileCell .B .T) = .ok [1, 2] ∧
    (tileRoot.getItem [1, 2]).map (fun q => q.map str) = .ok (some (c!"n.")) ∧
    (tileRoot.getItem [-2, -1]).map (fun q => q.map str) = .ok (some (c!"n.")) :=
  ⟨tileRoot_made, .inl rfl, by decide +kernel, by decide +kernel, by decide +kernel, by decide +kernel⟩

/-- **C96**, indexes of Python: in a table of two dimensions a negative index counts from the end, an index outside raises `IndexError`. -/
theorem C96_negative {t : Table} (h : TableMade t) (hb : Built t.script) (hd : DisjointSums t.script) (hk : t.kind = .t2d) :
    ∃ n0 n1, t.shape = .ok [n0, n1] ∧ (∀ i < n0, ∀ j < n1, ∀ i' j' : Int, (i' = i ∨ i' = (i : Int) - n0) → (j' = j ∨ j' = (j : Int) - n1) →
        t.getItem [i', j'] = t.getItem [(i : Int), (j : Int)]) ∧
      ∀ i' j' : Int, (i' < -n0 ∨ n0 ≤ i') ∨ (j' < -n1 ∨ n1 ≤ j') → t.getItem [i', j'] = .error .indexError := by
  obtain ⟨c, L', e, hp, ⟨_, g1, g2, g3⟩ | ⟨hne, _⟩⟩ := access h hb hd (.inl hk)
  · refine ⟨c.n0, c.n1, g1, ?_, ?_⟩
    · intro i hi j hj i' j' h1 h2
      rw [g3, g3, wrapIndex_ok.2 ⟨hi, h1⟩, wrapIndex_ok.2 ⟨hj, h2⟩, wrapIndex_nat hi, wrapIndex_nat hj]
    · intro i' j' h1
      rw [g3]
      rcases h1 with h1 | h1
      · rw [wrapIndex_error h1]; rfl
      · by_cases h3 : i' < -c.n0 ∨ c.n0 ≤ i'
        · rw [wrapIndex_error h3]; rfl
        · rw [wrapIndex_error h1]
          obtain ⟨k, hk⟩ : ∃ k, wrapIndex c.n0 i' = .ok k := by
            by_cases h4 : 0 ≤ i'
            · exact ⟨i'.toNat, wrapIndex_ok.2 (by omega)⟩
            · exact ⟨(c.n0 + i').toNat, wrapIndex_ok.2 (by omega)⟩
          rw [hk]; rfl
  · exact absurd hk hne

/-- **C96**, rows and columns: in a table of two dimensions there is one row script for each row and one column script for each column; a row
script has exactly the words of the cells of its row, a column script those of its column. -/
theorem C96_rows {t : Table} (h : TableMade t) (hb : Built t.script) (hd : DisjointSums t.script) (hk : t.kind = .t2d) :
    ∃ rows cols, t.rows = .ok rows ∧ t.columns = .ok cols ∧ t.shape = .ok [rows.length, cols.length] ∧
      (∀ (i : Nat) x, rows[i]? = some x → ∀ w, Den x w ↔ ∃ j < cols.length, ∃ q, t.getItem [(i : Int), (j : Int)] = .ok (some q) ∧ Den q w) ∧
      ∀ (j : Nat) x, cols[j]? = some x → ∀ w, Den x w ↔ ∃ i < rows.length, ∃ q, t.getItem [(i : Int), (j : Int)] = .ok (some q) ∧ Den q w := by
  have wt := built_wf hb
  obtain ⟨tt, c, h1, h2, h3, h4, h5⟩ := made_2d h hk wt
  have hcard : t.script.cardinal ≠ 1 := by
    intro hc
    have := (tableClass_cell (made_class h).1).2 hc
    rw [hk] at this; cases this
  obtain ⟨bs, b1, b2, b3, b4⟩ := C60_headers_all hb hd hcard h1
  have hone : ∀ b : Tables, Grid b ∨ Line b → ∃ R, b.cells = [R] := by
    rintro b (⟨R, hR, _⟩ | ⟨R, _, hR, _⟩) <;> exact ⟨R, hR⟩
  have hbs : ∃ b, bs = [b] := by
    have hlen : ∀ l : List Tables, (∀ b ∈ l, Grid b ∨ Line b) → (l.flatMap Tables.cells).length = l.length := by
      intro l
      induction l with
      | nil => intro _; rfl
      | cons b l ih =>
        intro hl
        obtain ⟨R, hR⟩ := hone b (hl b (by simp))
        rw [List.flatMap_cons, hR, List.length_append, ih fun b hb => hl b (by simp [hb])]
        simp [Nat.add_comm]
    have := hlen bs b4
    rw [← b1, h2] at this
    exact List.length_eq_one_iff.1 this.symm
  obtain ⟨b, rfl⟩ := hbs
  simp only [List.flatMap_cons, List.flatMap_nil, List.append_nil] at b1 b2 b3
  rcases b4 b (by simp) with ⟨R, r1, r2, r3, r4⟩ | ⟨R, T, r1, _, _, r4, _⟩
  · have hR : R = c := by rw [← b1, h2] at r1; simpa using r1.symm
    subst hR
    obtain ⟨T, rows, cols, e1, e2, hl⟩ := r4 0 (by omega)
    rw [← b3] at e2
    have hh : ∃ r, tt.headers = [rows, cols] :: r := by
      cases hx : tt.headers with
      | nil => rw [hx] at e2; cases e2
      | cons a r => rw [hx] at e2; simp at e2; exact ⟨r, by rw [e2]⟩
    obtain ⟨r, hh⟩ := hh
    have get : ∀ {i j}, i < R.n0 → j < R.n1 → t.getItem [(i : Int), (j : Int)] = .ok (R.get i j 0) := by
      intro i j hi hj
      unfold Table.getItem
      rw [hk, h1]
      simp only [bind, Except.bind]
      rw [h2]
      simp only [first, wrapIndex_nat hi, wrapIndex_nat hj]
      rfl
    refine ⟨rows, cols, ?_, ?_, ?_, ?_, ?_⟩
    · unfold Table.rows; rw [hk, h1]; simp only [bind, Except.bind]; rw [hh]; rfl
    · unfold Table.columns; rw [hk, h1]; simp only [bind, Except.bind]; rw [hh]; rfl
    · unfold Table.shape; rw [hk, h1]; simp only [bind, Except.bind]; rw [h2, hl.nrows, hl.ncols]; rfl
    · intro i x hx w
      have hi : i < R.n0 := by rw [← hl.nrows]; exact (List.getElem?_eq_some_iff.1 hx).1
      rw [hl.row i x hx w, hl.ncols]
      constructor
      · rintro ⟨j, hj, q, hq, hqw⟩; exact ⟨j, hj, q, by rw [get hi hj, hq], hqw⟩
      · rintro ⟨j, hj, q, hq, hqw⟩; exact ⟨j, hj, q, by rw [get hi hj, Except.ok.injEq] at hq; exact hq, hqw⟩
    · intro j x hx w
      have hj : j < R.n1 := by rw [← hl.ncols]; exact (List.getElem?_eq_some_iff.1 hx).1
      rw [hl.col j x hx w, hl.nrows]
      constructor
      · rintro ⟨i, hi, q, hq, hqw⟩; exact ⟨i, hi, q, by rw [get hi hj, hq], hqw⟩
      · rintro ⟨i, hi, q, hq, hqw⟩; exact ⟨i, hi, q, by rw [get hi hj, Except.ok.injEq] at hq; exact hq, hqw⟩
  · have hR : R = c := by rw [← b1, h2] at r1; simpa using r1.symm
    subst hR
    exact absurd r4 h4

example : (tileRoot.rows).map (fun l => l.map str) = .ok [c!"S:M:.", c!"B:M:.", c!"T:M:."] ∧
    (tileRoot.columns).map (fun l => l.map str) = .ok [c!"M:S:.", c!"M:B:.", c!"M:T:."] := by decide +kernel

/-- **C96**, tables of three dimensions and sets of tables: no cell can be reached by its place and no place is found. -/
theorem C96_no_access {t : Table} (hk : t.kind = .t3d ∨ t.kind = .set) (ix : List Int) (x : Script) :
    (∃ e, t.getItem ix = .error e) ∧ t.indexOf x = .error .attributeError := by
  constructor
  · unfold Table.getItem
    rcases hk with hk | hk <;> rw [hk]
    · cases hT : tables t.script with
      | error e => exact ⟨e, rfl⟩
      | ok tt =>
        cases ix with
        | nil => exact ⟨_, rfl⟩
        | cons i ix =>
          cases hw : wrapIndex tt.scripts.length i with
          | error e => exact ⟨e, by simp only [bind, Except.bind, hw]⟩
          | ok k => exact ⟨.typeError, by simp only [bind, Except.bind, hw]; rfl⟩
    · exact ⟨_, rfl⟩
  · unfold Table.indexOf
    rcases hk with hk | hk <;> rw [hk]

/-- Sums are disjoint when the sequences that are listed are different. -/
theorem disjoint_run {s : Script} (h : Built s) (hr : (singularSequences s).map (fun L => decide (L.map str).Nodup) = .ok true) : DisjointSums s := by
  cases hL : singularSequences s with
  | error e => rw [hL] at hr; cases hr
  | ok L =>
    rw [hL] at hr
    refine (norep_iff (built_wf h) (enum_of_run (built_wf h) hL)).1 ?_
    have hn : (L.map str).Nodup := by simpa [Except.map] using hr
    rw [List.Nodup, List.pairwise_map] at hn
    exact hn

/-- **C96** is violated: the table of `O:O:O:.` has the shape 2, 2, 2 and `t[0, 0, 0]` raises `TypeError`. -/
theorem C96_violated_3d : ∃ t, TableMade t ∧ Built t.script ∧ DisjointSums t.script ∧ t.shape = .ok [2, 2, 2] ∧
    t.getItem [0, 0, 0] = .error .typeError :=
  ⟨.root tileCube .t3d, made_of (by decide +kernel), built_of (by decide +kernel), disjoint_run (built_of (by decide +kernel)) (by decide +kernel), by decide +kernel,
    by decide +kernel⟩

/-- The values of the structure of a dictionary are its tables, each of them once. -/
theorem mem_values {o : SetOrder} {ks : List Str} {rows : List (Str × Str × Str)} {d : Dictionary} (ho : o.Valid) (h : mkDictionary o ks rows = .ok d) {t : Table} :
    t ∈ d.base.tables.values ↔ t ∈ d.base.tables.all := by
  unfold TableStructure.values
  rw [List.mem_filterMap]
  constructor
  · rintro ⟨s, _, hs⟩
    exact (get?_some hs).1
  · intro ht
    obtain ⟨y, hy, hys⟩ := dedupBy_complete str (List.mem_map_of_mem (f := Table.script) ht)
    refine ⟨y, hy, ?_⟩
    have := (C23_ranks_partial ho h ht).2.2
    rw [← this]
    unfold TableStructure.get?
    simp only [pyEq, hys]

/-- **C96**, children: in the structure of a dictionary every table except the root tables is a child of exactly one table of the structure,
whose words include its own; the root tables are nobody's children. -/
theorem C96_children {o : SetOrder} {ks : List Str} {rows : List (Str × Str × Str)} {d : Dictionary} (ho : o.Valid) (h : mkDictionary o ks rows = .ok d) {t : Table}
    (ht : t ∈ d.base.tables.all) :
    ((∀ s k, t ≠ .root s k) → ∃ p ∈ d.base.tables.all, t ∈ d.base.tables.children p ∧ Within t.script p.script ∧
      ∀ p', t ∈ d.base.tables.children p' → p' = p) ∧
    ((∃ s k, t = .root s k) → ∀ p, t ∉ d.base.tables.children p) := by
  have hch : ∀ p, t ∈ d.base.tables.children p ↔ t.parent = some p := by
    intro p
    unfold TableStructure.children
    rw [List.mem_filter, mem_values ho h, beq_iff_eq]
    exact ⟨And.right, fun e => ⟨ht, e⟩⟩
  constructor
  · intro hn
    cases t with
    | root s k => exact absurd rfl (hn s k)
    | sub s k r p =>
      have hp : p ∈ d.base.tables.all ∧ Within s p.script := by
        by_cases hc : s.cardinal = 1
        · obtain ⟨st, _, hd, _⟩ := mkDictionary_inv ho h
          obtain ⟨e, he, hte⟩ := mem_all.1 ht
          have tab := (hd.tabs_of he).2
          have hk : k = .cell := (tab.cell _ hte).2 hc
          subst hk
          obtain ⟨h1, k', rfl⟩ := tab.cellParent _ _ _ hte
          exact ⟨mem_all.2 ⟨e, he, h1⟩, tab.within _ hte⟩
        · exact ⟨(C23_parents ho h ht hc).1, (C23_parents ho h ht hc).2.1⟩
      refine ⟨p, hp.1, (hch p).2 rfl, hp.2, fun p' hp' => ?_⟩
      have := (hch p').1 hp'
      exact (Option.some.inj this).symm
  · rintro ⟨s, k, rfl⟩ p hp
    have := (hch p).1 hp
    cases this

-- The children of `O:`, of its cells and of `M:`.
example : (mkDictionary plainOrder [c!"O:", c!"M:", c!"S:+B:"] [rootRow (c!"O:"), rootRow (c!"M:")]).map (fun d =>
      d.base.tables.all.map fun t => (t.script.str, (d.base.tables.children t).map fun u => u.script.str)) =
    .ok [(c!"O:", [c!"U:", c!"A:"]), (c!"U:", []), (c!"A:", []), (c!"M:", [c!"S:+B:", c!"S:", c!"B:", c!"T:"]), (c!"S:+B:", []), (c!"S:", []), (c!"B:", []),
      (c!"T:", [])] := by decide +kernel

/-- **C96**, children: the children of a table are tables of the structure whose parent it is, each of them once. -/
theorem C96_children_once {o : SetOrder} {ks : List Str} {rows : List (Str × Str × Str)} {d : Dictionary} (ho : o.Valid) (h : mkDictionary o ks rows = .ok d)
    (p : Table) : (d.base.tables.children p).Nodup ∧ ∀ t ∈ d.base.tables.children p, t ∈ d.base.tables.all := by
  have hv : d.base.tables.values.Nodup := by
    unfold TableStructure.values
    have hp := dedupBy_pairwise str (d.base.tables.all.map Table.script)
    generalize dedupBy str (d.base.tables.all.map Table.script) = l at hp
    induction l with
    | nil => simp
    | cons s l ih =>
      rw [List.pairwise_cons] at hp
      rw [List.filterMap_cons]
      cases hs : d.base.tables.get? s with
      | none => exact ih hp.2
      | some t =>
        refine List.nodup_cons.2 ⟨fun hm => ?_, ih hp.2⟩
        obtain ⟨u, hu, hut⟩ := List.mem_filterMap.1 hm
        exact hp.1 u hu ((get?_some hs).2.symm.trans (get?_some hut).2)
  refine ⟨hv.filter _, fun t ht => ?_⟩
  exact (mem_values ho h).1 (List.mem_filter.1 ht).1

end Verif
