import Verif.Lemmas.FactorGrid
import Verif.Lemmas.SS
import Verif.Lemmas.Product
import Mathlib.Data.Finset.Prod
import Mathlib.Data.Finset.Card
import Mathlib.Data.List.Nodup

/-
The words of singular scripts, and the grid of coordinates that `factor` builds.
-/

namespace Verif
open Script

/-- A singular script of layer `l` that is not a sum. -/
def Sing (l : Nat) (x : Script) : Prop := WF x ∧ x.cardinal = 1 ∧ x.layer = l ∧ x.isAdd = false

/-- The word of a singular script without sum. -/
def lettersOf : Script → Word
  | null l => List.replicate (3 ^ l) none
  | prim p => [some p]
  | mult s a m => lettersOf s ++ lettersOf a ++ lettersOf m
  | add _ => []

theorem sing_role {s : Script} (h : WF s) (hr : Role s) (hc : s.cardinal = 1) {l : Nat} (hl : s.layer = l) : Sing l s := by
  refine ⟨h, hc, hl, ?_⟩
  cases s with
  | add cs =>
    obtain ⟨c, rfl, _⟩ := cardinal_one_add h hc
    exact absurd rfl (hr.1 c)
  | _ => rfl

theorem sing_mult {l : Nat} {s a m : Script} (h : Sing (l + 1) (mult s a m)) : Sing l s ∧ Sing l a ∧ Sing l m := by
  obtain ⟨h1, h2, h3, _⟩ := h
  rw [cardinal_mult h1] at h2
  obtain ⟨c1, c2, c3⟩ := mult_eq_one h2
  cases h1 with
  | mult a1 a2 a3 a4 a5 a6 a7 a8 a9 a10 =>
    have hl : s.layer = l := by simpa [layer] using h3
    exact ⟨sing_role a1 a7 c1 hl, sing_role a2 a8 c2 (by rw [a4, hl]), sing_role a3 a9 c3 (by rw [a5, hl])⟩

theorem den_lettersOf : ∀ {x : Script} {l : Nat}, Sing l x → Den x (lettersOf x)
  | null k, _, _ => .null k
  | prim p, _, _ => .prim p
  | mult s a m, 0, h => by
    have := h.2.2.1
    simp [layer] at this
  | mult s a m, l + 1, h => by
    obtain ⟨h1, h2, h3⟩ := sing_mult h
    exact .mult (den_lettersOf h1) (den_lettersOf h2) (den_lettersOf h3)
  | add cs, _, h => by
    have := h.2.2.2
    simp [isAdd] at this

theorem den_sing {x : Script} {l : Nat} (h : Sing l x) (w : Word) : Den x w ↔ w = lettersOf x :=
  ⟨fun hw => den_unique h.1 h.2.1 hw (den_lettersOf h), fun hw => hw ▸ den_lettersOf h⟩

theorem length_lettersOf {x : Script} {l : Nat} (h : Sing l x) : (lettersOf x).length = 3 ^ l := by
  rw [den_length h.1 (den_lettersOf h), h.2.2.1]

theorem str_sing {x y : Script} {l : Nat} (hx : Sing l x) (hy : Sing l y) : x.str = y.str ↔ lettersOf x = lettersOf y := by
  rw [str_iff_word hx.1 hy.1 hx.2.1 hy.2.1 (by rw [hx.2.2.1, hy.2.2.1])]
  constructor
  · rintro ⟨w, h1, h2⟩
    rw [den_sing hx] at h1
    rw [den_sing hy] at h2
    rw [← h1, ← h2]
  · intro h
    exact ⟨_, den_lettersOf hx, h ▸ den_lettersOf hy⟩

/-- The roles of a singular sequence. -/
theorem rolesOf_sing {x : Script} {l : Nat} (h : Sing (l + 1) x) : ∃ a b c, rolesOf x = .ok (a, b, c) ∧ Sing l a ∧ Sing l b ∧
    Sing l c ∧ lettersOf x = lettersOf a ++ lettersOf b ++ lettersOf c := by
  cases x with
  | null k =>
    have hk : k = l + 1 := h.2.2.1
    subst hk
    have hn : Sing l (null l) := by
      refine ⟨.null ?_, rfl, rfl, rfl⟩
      have := wf_layer h.1
      simp only [layer] at this
      omega
    refine ⟨null l, null l, null l, rfl, hn, hn, hn, ?_⟩
    simp only [lettersOf, List.replicate_append_replicate]
    congr 1
    rw [Nat.pow_succ]
    omega
  | prim p => have := h.2.2.1; simp [layer] at this
  | mult s a m =>
    obtain ⟨h1, h2, h3⟩ := sing_mult h
    exact ⟨s, a, m, rfl, h1, h2, h3, rfl⟩
  | add cs => have := h.2.2.2; simp [isAdd] at this

/-- The words of a list of singular scripts. -/
def wordSet (S : List Script) : Finset Word := (S.map lettersOf).toFinset

theorem mem_wordSet {S : List Script} {w : Word} : w ∈ wordSet S ↔ ∃ x ∈ S, lettersOf x = w := by
  simp [wordSet]

/-! ### The axes -/

theorem mem_axis {col : List Script} {s : Script} (h : s ∈ axis col) : s ∈ col := mem_dedupBy str ((mem_pySort _).1 h)

theorem axis_pairwise (col : List Script) : (axis col).Pairwise (fun a b => a.str ≠ b.str) :=
  ((pySort_perm lt _).pairwise_iff (fun {_ _} h => Ne.symm h)).2 (dedupBy_pairwise str col)

theorem rankIn_axis {col : List Script} {s : Script} (h : s ∈ col) :
    ∃ i t, rankIn (axis col) s = .ok i ∧ (axis col)[i]? = some t ∧ t ∈ axis col ∧ t.str = s.str := by
  obtain ⟨y, hy, he⟩ := dedupBy_complete str h
  have hy' : y ∈ axis col := (mem_pySort _).2 hy
  rw [rankIn]
  cases hf : (axis col).findIdx? (fun t => t.pyEq s) with
  | none =>
    rw [List.findIdx?_eq_none_iff] at hf
    have := hf y hy'
    simp [pyEq, he] at this
  | some i =>
    rw [List.findIdx?_eq_some_iff_getElem] at hf
    obtain ⟨hi, h1, _⟩ := hf
    refine ⟨i, (axis col)[i], rfl, by simp [hi], List.getElem_mem _, ?_⟩
    simpa [pyEq] using h1

/-! ### The dictionary of the sequences -/

theorem dictSet_id_keys {β : Type} (c : Coord) (v : β) : ∀ (d : List (Coord × β)) (k : Coord),
    k ∈ (dictSet id c v d).map (·.1) ↔ k = c ∨ k ∈ d.map (·.1)
  | [], k => by simp [dictSet]
  | e :: d, k => by
    rw [dictSet]
    split
    · rename_i he
      have he : e.1 = c := he
      simp [he]
    · simp only [List.map_cons, List.mem_cons, dictSet_id_keys c v d k]
      tauto

theorem dictSet_id_nodup {β : Type} (c : Coord) (v : β) : ∀ {d : List (Coord × β)}, (d.map (·.1)).Nodup →
    ((dictSet id c v d).map (·.1)).Nodup
  | [], _ => by simp [dictSet]
  | e :: d, h => by
    rw [List.map_cons, List.nodup_cons] at h
    rw [dictSet]
    split
    · rw [List.map_cons, List.nodup_cons]; exact h
    · rename_i he
      rw [List.map_cons, List.nodup_cons, dictSet_id_keys]
      refine ⟨?_, dictSet_id_nodup c v h.2⟩
      rintro (h' | h')
      · exact he h'
      · exact h.1 h'

theorem dictSet_id_mem {β : Type} (c : Coord) (v : β) : ∀ {d : List (Coord × β)} {e : Coord × β}, e ∈ dictSet id c v d →
    e = (c, v) ∨ e ∈ d
  | [], e, h => by simpa [dictSet] using h
  | f :: d, e, h => by
    rw [dictSet] at h
    split at h
    · rename_i hf
      have hf : f.1 = c := hf
      rcases List.mem_cons.1 h with rfl | h
      · left; rw [hf]
      · exact .inr (List.mem_cons_of_mem _ h)
    · rcases List.mem_cons.1 h with rfl | h
      · right; simp
      · rcases dictSet_id_mem c v h with h | h
        · exact .inl h
        · exact .inr (List.mem_cons_of_mem _ h)

theorem scriptsFold : ∀ (L d : List (Coord × Script)), (d.map (·.1)).Nodup →
    let r := L.foldl (fun d e => dictSet id e.1 e.2 d) d
    (r.map (·.1)).Nodup ∧ (∀ e ∈ r, e ∈ d ∨ e ∈ L) ∧ ∀ k, k ∈ r.map (·.1) ↔ k ∈ d.map (·.1) ∨ k ∈ L.map (·.1)
  | [], d, h => by simpa using h
  | e :: L, d, h => by
    obtain ⟨h1, h2, h3⟩ := scriptsFold L (dictSet id e.1 e.2 d) (dictSet_id_nodup _ _ h)
    refine ⟨h1, ?_, ?_⟩
    · intro f hf
      rcases h2 f hf with hf | hf
      · rcases dictSet_id_mem _ _ hf with rfl | hf
        · right; simp
        · exact .inl hf
      · right; simp [hf]
    · intro k
      rw [List.foldl_cons, h3, dictSet_id_keys, List.map_cons, List.mem_cons]
      tauto

/-! ### The grid -/

/-- The word at a coordinate. -/
def WordAt (a0 a1 a2 : List Script) (c : Coord) (w : Word) : Prop :=
  ∃ s0 s1 s2, a0[c.1]? = some s0 ∧ a1[c.2.1]? = some s1 ∧ a2[c.2.2]? = some s2 ∧ w = lettersOf s0 ++ lettersOf s1 ++ lettersOf s2

/-- An axis: singular scripts of layer `l` with distinct texts. -/
def Axis (l : Nat) (ax : List Script) : Prop := (∀ s ∈ ax, Sing l s) ∧ ax.Pairwise (fun a b => a.str ≠ b.str)

/-- The sequences `S` laid out on three axes. -/
structure SeqGrid (l : Nat) (S a0 a1 a2 : List Script) (d : List (Coord × Script)) : Prop where
  sing : ∀ x ∈ S, Sing (l + 1) x
  ax0 : Axis l a0
  ax1 : Axis l a1
  ax2 : Axis l a2
  nodup : (d.map (·.1)).Nodup
  keys : ∀ c ∈ d.map (·.1), ∃ x, dictGet id c d = some x ∧ x ∈ S ∧ WordAt a0 a1 a2 c (lettersOf x)
  seqs : ∀ x ∈ S, ∃ c ∈ d.map (·.1), WordAt a0 a1 a2 c (lettersOf x)

theorem grid_exists {l : Nat} {S : List Script} (hS : ∀ x ∈ S, Sing (l + 1) x) : ∃ rows coords,
    S.mapM rolesOf = .ok rows ∧
    rows.mapM (coordOf (axis (rows.map (·.1))) (axis (rows.map (·.2.1))) (axis (rows.map (·.2.2)))) = .ok coords ∧
    SeqGrid l S (axis (rows.map (·.1))) (axis (rows.map (·.2.1))) (axis (rows.map (·.2.2))) (scriptsOf (coords.zip S)) := by
  obtain ⟨rows, h1⟩ := mapM_total (f := rolesOf) (l := S) fun x hx => by
    obtain ⟨a, b, c, h, _⟩ := rolesOf_sing (hS x hx)
    exact ⟨_, h⟩
  have f1 := mapM_inv h1
  have hrow : ∀ x ∈ S, ∀ r, rolesOf x = .ok r → Sing l r.1 ∧ Sing l r.2.1 ∧ Sing l r.2.2 ∧
      lettersOf x = lettersOf r.1 ++ lettersOf r.2.1 ++ lettersOf r.2.2 := by
    intro x hx r hr
    obtain ⟨a, b, c, h, h2⟩ := rolesOf_sing (hS x hx)
    rw [hr] at h
    cases h
    exact h2
  have hrows : ∀ r ∈ rows, Sing l r.1 ∧ Sing l r.2.1 ∧ Sing l r.2.2 := by
    intro r hr
    obtain ⟨x, hx, h⟩ := (mapM_mem h1).1 hr
    obtain ⟨a, b, c, _⟩ := hrow x hx r h
    exact ⟨a, b, c⟩
  have hax : ∀ (f : Script × Script × Script → Script), (∀ r ∈ rows, Sing l (f r)) → Axis l (axis (rows.map f)) := by
    intro f hf
    refine ⟨fun s hs => ?_, axis_pairwise _⟩
    obtain ⟨r, hr, rfl⟩ := List.mem_map.1 (mem_axis hs)
    exact hf r hr
  have g0 := hax (·.1) fun r hr => (hrows r hr).1
  have g1 := hax (·.2.1) fun r hr => (hrows r hr).2.1
  have g2 := hax (·.2.2) fun r hr => (hrows r hr).2.2
  have hco : ∀ r ∈ rows, ∃ c, coordOf (axis (rows.map (·.1))) (axis (rows.map (·.2.1))) (axis (rows.map (·.2.2))) r = .ok c ∧
      WordAt (axis (rows.map (·.1))) (axis (rows.map (·.2.1))) (axis (rows.map (·.2.2))) c
        (lettersOf r.1 ++ lettersOf r.2.1 ++ lettersOf r.2.2) := by
    intro r hr
    obtain ⟨s0, s1, s2⟩ := hrows r hr
    obtain ⟨i, t0, i1, i2, i3, i4⟩ := rankIn_axis (List.mem_map_of_mem (f := (·.1)) hr)
    obtain ⟨j, t1, j1, j2, j3, j4⟩ := rankIn_axis (List.mem_map_of_mem (f := (·.2.1)) hr)
    obtain ⟨k, t2, k1, k2, k3, k4⟩ := rankIn_axis (List.mem_map_of_mem (f := (·.2.2)) hr)
    refine ⟨(i, j, k), by rw [coordOf, i1, j1, k1]; rfl, t0, t1, t2, i2, j2, k2, ?_⟩
    rw [(str_sing (g0.1 t0 i3) s0).1 i4, (str_sing (g1.1 t1 j3) s1).1 j4, (str_sing (g2.1 t2 k3) s2).1 k4]
  obtain ⟨coords, h2⟩ := mapM_total (l := rows) fun r hr => (hco r hr).imp fun c h => h.1
  have f2 := mapM_inv h2
  suffices h : ((scriptsOf (coords.zip S)).map (·.1)).Nodup ∧ _ ∧ _ from
    ⟨rows, coords, h1, h2, hS, g0, g1, g2, h.1, h.2.1, h.2.2⟩
  -- the pairs of a coordinate and a sequence
  have hzip : ∀ {S : List Script} {rows : List (Script × Script × Script)} {coords : List Coord}
      {P : Script → Script × Script × Script → Prop} {Q : Script × Script × Script → Coord → Prop},
      List.Forall₂ P S rows → List.Forall₂ Q rows coords →
      (∀ c x, (c, x) ∈ coords.zip S → ∃ r, x ∈ S ∧ r ∈ rows ∧ P x r ∧ Q r c) ∧
      ∀ x ∈ S, ∃ c, (c, x) ∈ coords.zip S := by
    intro S rows coords P Q f1
    induction f1 generalizing coords with
    | nil => intro f2; cases f2; simp
    | @cons x r S rows hx _ ih =>
      intro f2
      cases f2 with
      | @cons _ c _ coords hc f2 =>
        obtain ⟨i1, i2⟩ := ih f2
        refine ⟨?_, ?_⟩
        · intro c' x' h
          rw [List.zip_cons_cons, List.mem_cons] at h
          rcases h with h | h
          · cases h
            exact ⟨r, by simp, by simp, hx, hc⟩
          · obtain ⟨r', a, b, c, d⟩ := i1 c' x' h
            exact ⟨r', by simp [a], by simp [b], c, d⟩
        · intro x' h
          rcases List.mem_cons.1 h with rfl | h
          · exact ⟨c, by simp⟩
          · obtain ⟨c', h⟩ := i2 x' h
            exact ⟨c', by simp [h]⟩
  obtain ⟨z1, z2⟩ := hzip f1 f2
  have hword : ∀ c x, (c, x) ∈ coords.zip S → x ∈ S ∧
      WordAt (axis (rows.map (·.1))) (axis (rows.map (·.2.1))) (axis (rows.map (·.2.2))) c (lettersOf x) := by
    intro c x h
    obtain ⟨r, a, b, h3, h4⟩ := z1 c x h
    obtain ⟨c', h5, h6⟩ := hco r b
    rw [h4] at h5
    cases h5
    exact ⟨a, by rw [(hrow x a r h3).2.2.2]; exact h6⟩
  obtain ⟨s1, s2, s3⟩ := scriptsFold (coords.zip S) [] (by simp)
  refine ⟨s1, ?_, ?_⟩
  · intro c hc
    obtain ⟨x, hx⟩ := dictGet_id_some hc
    rcases s2 _ (dictGet_id_mem hx) with h | h
    · cases h
    · obtain ⟨a, b⟩ := hword c x h
      exact ⟨x, hx, a, b⟩
  · intro x hx
    obtain ⟨c, h⟩ := z2 x hx
    exact ⟨c, (s3 c).2 (.inr (List.mem_map_of_mem (f := (·.1)) h)), (hword c x h).2⟩

theorem axis_inj {l : Nat} {ax : List Script} (h : Axis l ax) {i j : Nat} {s t : Script} (hi : ax[i]? = some s) (hj : ax[j]? = some t)
    (he : lettersOf s = lettersOf t) : i = j := by
  have hst := (str_sing (h.1 s (List.mem_of_getElem? hi)) (h.1 t (List.mem_of_getElem? hj))).2 he
  have hp := List.pairwise_iff_getElem.1 h.2
  obtain ⟨hi', ei⟩ := List.getElem?_eq_some_iff.1 hi
  obtain ⟨hj', ej⟩ := List.getElem?_eq_some_iff.1 hj
  rcases Nat.lt_trichotomy i j with hlt | hlt | hlt
  · exact absurd (by rw [ei, ej, hst]) (hp i j hi' hj' hlt)
  · exact hlt
  · exact absurd (by rw [ei, ej, hst]) (hp j i hj' hi' hlt)

theorem wordAt_inj {l : Nat} {a0 a1 a2 : List Script} (h0 : Axis l a0) (h1 : Axis l a1) (h2 : Axis l a2) {c e : Coord} {w : Word}
    (hc : WordAt a0 a1 a2 c w) (he : WordAt a0 a1 a2 e w) : c = e := by
  obtain ⟨s0, s1, s2, i0, i1, i2, rfl⟩ := hc
  obtain ⟨t0, t1, t2, j0, j1, j2, hw⟩ := he
  obtain ⟨e0, e1, e2⟩ := append3_inj hw
    (by rw [length_lettersOf (h0.1 _ (List.mem_of_getElem? i0)), length_lettersOf (h0.1 _ (List.mem_of_getElem? j0))])
    (by rw [length_lettersOf (h1.1 _ (List.mem_of_getElem? i1)), length_lettersOf (h1.1 _ (List.mem_of_getElem? j1))])
  rw [Prod.ext_iff, Prod.ext_iff]
  exact ⟨axis_inj h0 i0 j0 e0, axis_inj h1 i1 j1 e1, axis_inj h2 i2 j2 e2⟩

/-- The set `S` of sequences is the union of a product and of the remaining sequences `R`. -/
structure Split (l : Nat) (S P0 P1 P2 R : List Script) : Prop where
  ne : P0 ≠ [] ∧ P1 ≠ [] ∧ P2 ≠ []
  sing0 : ∀ x ∈ P0, Sing l x
  sing1 : ∀ x ∈ P1, Sing l x
  sing2 : ∀ x ∈ P2, Sing l x
  singR : ∀ x ∈ R, Sing (l + 1) x
  words : ∀ w, w ∈ wordSet S ↔ (∃ u ∈ wordSet P0, ∃ v ∈ wordSet P1, ∃ x ∈ wordSet P2, w = u ++ v ++ x) ∨ w ∈ wordSet R
  disjoint : ∀ u ∈ wordSet P0, ∀ v ∈ wordSet P1, ∀ x ∈ wordSet P2, u ++ v ++ x ∉ wordSet R
  less : R.length < S.length

theorem semesOf_ok {ax : List Script} {is : List Nat} (h : ∀ i ∈ is, ∃ s, ax[i]? = some s) : ∃ P, semesOf ax is = .ok P ∧
    ∀ s, s ∈ P ↔ ∃ i ∈ is, ax[i]? = some s := by
  obtain ⟨P, hP⟩ := mapM_total (f := fun i => match ax[i]? with
    | some s => (.ok s : Except Err Script)
    | none => .error .keyError) (l := is) fun i hi => by
      obtain ⟨s, hs⟩ := h i hi
      exact ⟨s, by simp only [hs]⟩
  refine ⟨P, hP, fun s => ?_⟩
  rw [mapM_mem hP]
  constructor
  · rintro ⟨i, hi, he⟩
    obtain ⟨t, ht⟩ := h i hi
    simp only [ht, Except.ok.injEq] at he
    exact ⟨i, hi, he ▸ ht⟩
  · rintro ⟨i, hi, he⟩
    exact ⟨i, hi, by simp only [he]⟩

theorem grid_split {l : Nat} {S a0 a1 a2 : List Script} {d : List (Coord × Script)} (g : SeqGrid l S a0 a1 a2 d) {best : List Coord}
    (hsub : ∀ c ∈ best, c ∈ d.map (·.1)) (hbox : Box best) (hne : best ≠ []) : ∃ picked P0 P1 P2,
    best.mapM (scriptAt d) = .ok picked ∧
    semesOf a0 (best.map (·.1)) = .ok P0 ∧ semesOf a1 (best.map (·.2.1)) = .ok P1 ∧ semesOf a2 (best.map (·.2.2)) = .ok P2 ∧
    Split l S P0 P1 P2 (remainingOf S picked) ∧ ((∀ c ∈ d.map (·.1), c ∈ best) → remainingOf S picked = []) := by
  obtain ⟨picked, hp⟩ := mapM_total (f := scriptAt d) (l := best) fun c hc => by
    obtain ⟨x, hx, _⟩ := g.keys c (hsub c hc)
    exact ⟨x, by simp only [scriptAt, hx]⟩
  have hat : ∀ c ∈ best, ∃ s0 s1 s2, a0[c.1]? = some s0 ∧ a1[c.2.1]? = some s1 ∧ a2[c.2.2]? = some s2 := by
    intro c hc
    obtain ⟨_, _, _, s0, s1, s2, h0, h1, h2, _⟩ := g.keys c (hsub c hc)
    exact ⟨s0, s1, s2, h0, h1, h2⟩
  obtain ⟨P0, p0, m0⟩ := semesOf_ok (ax := a0) (is := best.map (·.1)) fun i hi => by
    obtain ⟨c, hc, rfl⟩ := List.mem_map.1 hi
    obtain ⟨s0, s1, s2, h0, h1, h2⟩ := hat c hc
    exact ⟨s0, h0⟩
  obtain ⟨P1, p1, m1⟩ := semesOf_ok (ax := a1) (is := best.map (·.2.1)) fun i hi => by
    obtain ⟨c, hc, rfl⟩ := List.mem_map.1 hi
    obtain ⟨s0, s1, s2, h0, h1, h2⟩ := hat c hc
    exact ⟨s1, h1⟩
  obtain ⟨P2, p2, m2⟩ := semesOf_ok (ax := a2) (is := best.map (·.2.2)) fun i hi => by
    obtain ⟨c, hc, rfl⟩ := List.mem_map.1 hi
    obtain ⟨s0, s1, s2, h0, h1, h2⟩ := hat c hc
    exact ⟨s2, h2⟩
  -- the words of the box
  have hboxw : ∀ w, (∃ u ∈ wordSet P0, ∃ v ∈ wordSet P1, ∃ x ∈ wordSet P2, w = u ++ v ++ x) ↔ ∃ c ∈ best, WordAt a0 a1 a2 c w := by
    intro w
    constructor
    · rintro ⟨u, hu, v, hv, x, hx, rfl⟩
      obtain ⟨s0, h0, rfl⟩ := mem_wordSet.1 hu
      obtain ⟨s1, h1, rfl⟩ := mem_wordSet.1 hv
      obtain ⟨s2, h2, rfl⟩ := mem_wordSet.1 hx
      obtain ⟨i, hi, e0⟩ := (m0 _).1 h0
      obtain ⟨j, hj, e1⟩ := (m1 _).1 h1
      obtain ⟨k, hk, e2⟩ := (m2 _).1 h2
      obtain ⟨a, ha, rfl⟩ := List.mem_map.1 hi
      obtain ⟨b, hb, rfl⟩ := List.mem_map.1 hj
      obtain ⟨c, hc, rfl⟩ := List.mem_map.1 hk
      exact ⟨_, hbox a ha b hb c hc, s0, s1, s2, e0, e1, e2, rfl⟩
    · rintro ⟨c, hc, s0, s1, s2, e0, e1, e2, rfl⟩
      exact ⟨_, mem_wordSet.2 ⟨s0, (m0 _).2 ⟨_, List.mem_map_of_mem hc, e0⟩, rfl⟩,
        _, mem_wordSet.2 ⟨s1, (m1 _).2 ⟨_, List.mem_map_of_mem (f := (·.2.1)) hc, e1⟩, rfl⟩,
        _, mem_wordSet.2 ⟨s2, (m2 _).2 ⟨_, List.mem_map_of_mem (f := (·.2.2)) hc, e2⟩, rfl⟩, rfl⟩
  -- the words that were picked
  have hpick : ∀ w, (∃ x ∈ picked, lettersOf x = w) ↔ ∃ c ∈ best, WordAt a0 a1 a2 c w := by
    intro w
    constructor
    · rintro ⟨x, hx, rfl⟩
      obtain ⟨c, hc, he⟩ := (mapM_mem hp).1 hx
      obtain ⟨y, hy, _, h⟩ := g.keys c (hsub c hc)
      simp only [scriptAt, hy, Except.ok.injEq] at he
      exact ⟨c, hc, he ▸ h⟩
    · rintro ⟨c, hc, hw⟩
      obtain ⟨y, hy, _, h⟩ := g.keys c (hsub c hc)
      refine ⟨y, (mapM_mem hp).2 ⟨c, hc, by simp only [scriptAt, hy]⟩, ?_⟩
      obtain ⟨s0, s1, s2, h0, h1, h2, h3⟩ := h
      obtain ⟨t0, t1, t2, k0, k1, k2, rfl⟩ := hw
      rw [h0] at k0; rw [h1] at k1; rw [h2] at k2
      cases k0; cases k1; cases k2
      exact h3
  have hpS : ∀ x ∈ picked, x ∈ S := by
    intro x hx
    obtain ⟨c, hc, he⟩ := (mapM_mem hp).1 hx
    obtain ⟨y, hy, h, _⟩ := g.keys c (hsub c hc)
    simp only [scriptAt, hy, Except.ok.injEq] at he
    exact he ▸ h
  have hrem : ∀ x, x ∈ remainingOf S picked ↔ x ∈ dedupBy str S ∧ ∀ p ∈ picked, p.str ≠ x.str := by
    intro x
    simp [remainingOf, mem_pySort, pyEq]
  have hremS : ∀ x ∈ remainingOf S picked, x ∈ S := fun x hx => mem_dedupBy str ((hrem x).1 hx).1
  have hremw : ∀ w, w ∈ wordSet (remainingOf S picked) ↔ w ∈ wordSet S ∧ ¬ ∃ x ∈ picked, lettersOf x = w := by
    intro w
    rw [mem_wordSet, mem_wordSet]
    constructor
    · rintro ⟨x, hx, rfl⟩
      refine ⟨⟨x, hremS x hx, rfl⟩, ?_⟩
      rintro ⟨y, hy, he⟩
      exact ((hrem x).1 hx).2 y hy ((str_sing (g.sing y (hpS y hy)) (g.sing x (hremS x hx))).2 he)
    · rintro ⟨⟨x, hx, rfl⟩, hn⟩
      obtain ⟨y, hy, he⟩ := dedupBy_complete str hx
      have hyS := mem_dedupBy str hy
      have hyx : lettersOf y = lettersOf x := (str_sing (g.sing y hyS) (g.sing x hx)).1 he
      refine ⟨y, (hrem y).2 ⟨hy, fun p hpp hpe => hn ⟨p, hpp, ?_⟩⟩, hyx⟩
      rw [← hyx]
      exact (str_sing (g.sing p (hpS p hpp)) (g.sing y hyS)).1 hpe
  have hall : ∀ {f : Coord → Nat} {ax P : List Script}, Axis l ax → (∀ s, s ∈ P ↔ ∃ i ∈ best.map f, ax[i]? = some s) →
      ∀ x ∈ P, Sing l x := by
    intro f ax P ha hm x hx
    obtain ⟨i, _, he⟩ := (hm x).1 hx
    exact ha.1 x (List.mem_of_getElem? he)
  obtain ⟨c0, hc0⟩ := List.exists_mem_of_ne_nil _ hne
  obtain ⟨s0, s1, s2, e0, e1, e2⟩ := hat c0 hc0
  refine ⟨picked, P0, P1, P2, hp, p0, p1, p2, ⟨⟨?_, ?_, ?_⟩, hall g.ax0 m0, hall g.ax1 m1, hall g.ax2 m2, ?_, ?_, ?_, ?_⟩, ?_⟩
  · exact List.ne_nil_of_mem ((m0 s0).2 ⟨_, List.mem_map_of_mem hc0, e0⟩)
  · exact List.ne_nil_of_mem ((m1 s1).2 ⟨_, List.mem_map_of_mem (f := (·.2.1)) hc0, e1⟩)
  · exact List.ne_nil_of_mem ((m2 s2).2 ⟨_, List.mem_map_of_mem (f := (·.2.2)) hc0, e2⟩)
  · exact fun x hx => g.sing x (hremS x hx)
  · intro w
    rw [hboxw, hremw, hpick]
    constructor
    · intro hw
      by_cases hb : ∃ c ∈ best, WordAt a0 a1 a2 c w
      · exact .inl hb
      · exact .inr ⟨hw, hb⟩
    · rintro (hb | hb)
      · obtain ⟨x, hx, rfl⟩ := (hpick w).2 hb
        exact mem_wordSet.2 ⟨x, hpS x hx, rfl⟩
      · exact hb.1
  · intro u hu v hv x hx hr
    rw [hremw, hpick, ← hboxw] at hr
    exact hr.2 ⟨u, hu, v, hv, x, hx, rfl⟩
  · obtain ⟨x, hx, _⟩ := (hpick _).2 ⟨c0, hc0, s0, s1, s2, e0, e1, e2, rfl⟩
    rw [remainingOf, length_pySort]
    have h1 : (dedupBy str S).length ≤ S.length := (dedupBy_sublist str S).length_le
    obtain ⟨y, hy, he⟩ := dedupBy_complete str (hpS x hx)
    have h2 : ((dedupBy str S).filter fun s => !(picked.any fun p => p.pyEq s)).length < (dedupBy str S).length := by
      rw [← List.countP_eq_length_filter]
      refine Nat.lt_of_le_of_ne List.countP_le_length ?_
      intro hc
      rw [List.countP_eq_length] at hc
      have := hc y hy
      simp only [Bool.not_eq_true', List.any_eq_false, pyEq, beq_iff_eq] at this
      exact this x hx he.symm
    omega
  · intro hfull
    by_contra hr
    obtain ⟨x, hx⟩ := List.exists_mem_of_ne_nil _ hr
    have := ((hremw (lettersOf x)).1 (mem_wordSet.2 ⟨x, hx, rfl⟩)).2
    rw [hpick] at this
    obtain ⟨c, hc, hw⟩ := g.seqs x (hremS x hx)
    exact this ⟨c, hfull c hc, hw⟩

end Verif
