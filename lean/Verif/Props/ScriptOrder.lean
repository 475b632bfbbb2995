import Verif.Lemmas.Promote
import Verif.Props.Constructors

/-
C08, C10–C13, C58: text, order, inclusion, class, promotion and dictionary keys of scripts.
-/

namespace Verif
open Script

/-- **C08.** Two buildable scripts with one word each have the same text exactly when they have the same layer and the
same word. -/
theorem C08_text_identifies_singular {s t : Script} (hs : Built s) (ht : Built t) (h1 : Singular s) (h2 : Singular t) :
    s.str = t.str ↔ s.layer = t.layer ∧ ∀ w, Den s w ↔ Den t w := by
  have ws := built_wf hs
  have wt := built_wf ht
  constructor
  · intro h
    exact ⟨layer_of_str ws wt h, den_of_str ws wt h⟩
  · rintro ⟨hl, hd⟩
    obtain ⟨w, hw⟩ := den_exists ws
    exact str_of_word ws wt ((singular_iff ws).1 h1) ((singular_iff wt).1 h2) hl hw ((hd w).1 hw)

/-- **C08, paradigms.** For any two buildable scripts the same text means the same layer, cardinal and words. -/
theorem C08_text_determines_meaning {s t : Script} (hs : Built s) (ht : Built t) (h : s.str = t.str) :
    s.layer = t.layer ∧ s.cardinal = t.cardinal ∧ ∀ w, Den s w ↔ Den t w :=
  ⟨layer_of_str (built_wf hs) (built_wf ht) h, cardinal_of_str (built_wf hs) (built_wf ht) h,
    den_of_str (built_wf hs) (built_wf ht) h⟩

-- Two different objects with the text `E:U:.`: the empty role written by hand or by `NullScript`.
example : let s := Script.mult (.null 0) (.prim .U) (.null 0)
    Built s ∧ Built (.add [s]) ∧ s ≠ .add [s] ∧ s.str = (Script.add [s]).str ∧ Singular s := by
  refine ⟨built_of (by decide +kernel), built_of (by decide +kernel), by decide +kernel, by decide +kernel, ?_⟩
  exact singular_of_cardinal (wfb_sound (by decide +kernel)) (by decide +kernel)

/-- **C10, what holds.** Among buildable scripts that are not one-term sums, `<` is a strict total order for the equality
`==` (same text), and it depends only on texts.  Missing: one-term sums, for which transitivity with `==` fails
(`C10_violated`). -/
theorem C10_strict_total_order_partial {x y : Script} (hx : Built x) (hy : Built y) (px : NotOneTermSum x) (py : NotOneTermSum y) :
    (lt x y = true ∧ lt y x = false ∧ pyEq x y = false ∨ lt x y = false ∧ lt y x = true ∧ pyEq x y = false ∨
      lt x y = false ∧ lt y x = false ∧ pyEq x y = true) ∧
    (∀ z, Built z → NotOneTermSum z → lt x y = true → lt y z = true → lt x z = true) ∧
    (∀ z, Built z → NotOneTermSum z → pyEq x z = true → lt x y = lt z y ∧ lt y x = lt y z) := by
  have wx := built_wf hx
  have wy := built_wf hy
  refine ⟨?_, fun z hz pz => lt_trans wx px wy py (built_wf hz) pz, ?_⟩
  · by_cases h : x.str = y.str
    · exact .inr (.inr ⟨lt_of_str h, lt_of_str h.symm, by simp [pyEq, h]⟩)
    · have hne : pyEq x y = false := by simp [pyEq, h]
      rcases lt_total wx px wy py h with h1 | h1
      · exact .inl ⟨h1, lt_asymm wx px wy py h1, hne⟩
      · exact .inr (.inl ⟨lt_asymm wy py wx px h1, h1, hne⟩)
  · intro z hz pz h
    have he : x.str = z.str := by simpa [pyEq] using h
    exact ⟨lt_congr wx px (built_wf hz) pz wy py wy py he rfl, lt_congr wy py wy py wx px (built_wf hz) pz rfl he⟩

/-- A product at layer 2 used as a counterexample: roles `U:.`, `A:.+S:.`, `B:.`. -/
def wM : Script := .mult (.mult (.prim .U) (.null 0) (.null 0))
  (.add [.mult (.prim .A) (.null 0) (.null 0), .mult (.prim .S) (.null 0) (.null 0)]) (.mult (.prim .B) (.null 0) (.null 0))
@[inherit_doc wM] def wM' : Script := .mult (.add [.mult (.prim .U) (.null 0) (.null 0), .mult (.prim .A) (.null 0) (.null 0)])
  (.mult (.prim .S) (.null 0) (.null 0)) (.mult (.prim .B) (.null 0) (.null 0))

/-- **C10 is violated**: `M < M'` and `M' < N` although `N == M`, where `N` is the one-term sum of `M`. -/
theorem C10_violated : ∃ a b c, Built a ∧ Built b ∧ Built c ∧ lt a b = true ∧ lt b c = true ∧ pyEq c a = true ∧ lt a c = false :=
  ⟨wM, wM', .add [wM], built_of (by decide +kernel), built_of (by decide +kernel), built_of (by decide +kernel),
    by decide +kernel⟩

-- The hypotheses of `C10_strict_total_order_partial` are met by these two products, comparable only by their roles.
example : Built wM ∧ Built wM' ∧ NotOneTermSum wM ∧ NotOneTermSum wM' ∧ wM.canonical = wM'.canonical ∧ lt wM wM' = true :=
  ⟨built_of (by decide +kernel), built_of (by decide +kernel), by simp [NotOneTermSum, wM], by simp [NotOneTermSum, wM'],
    by decide +kernel⟩

/-- **C11.** `t in s` always has an answer, which is true exactly when the layers agree and every word of `t` is a word
of `s`. -/
theorem C11_inclusion {s t : Script} (hs : Built s) (ht : Built t) :
    ∃ b, contains s t = .ok b ∧ (b = true ↔ t.layer = s.layer ∧ ∀ w, Den t w → Den s w) := by
  have ws := built_wf hs
  have wt := built_wf ht
  by_cases hl : t.layer = s.layer
  · obtain ⟨A, ea⟩ := enum_exists ws
    obtain ⟨B, eb⟩ := enum_exists wt
    refine ⟨_, by rw [contains, if_neg (not_not.2 hl), eb.run, ea.run]; rfl, ?_⟩
    simp only [List.all_eq_true, List.any_eq_true, pyEq, beq_iff_eq, hl, true_and]
    constructor
    · intro h w hw
      obtain ⟨x, hx, hxw⟩ := (eb.den w).1 hw
      obtain ⟨y, hy, hyx⟩ := h x hx
      exact (ea.den w).2 ⟨y, hy, (den_of_str (ea.wf y hy) (eb.wf x hx) hyx w).2 hxw⟩
    · intro h x hx
      refine (mem_enum_iff ea (eb.wf x hx) (eb.one x hx) (by rw [eb.layer x hx, hl])).2 ?_
      obtain ⟨w, hw⟩ := den_exists (eb.wf x hx)
      exact ⟨w, hw, h w ((eb.den w).2 ⟨x, hx, hw⟩)⟩
  · exact ⟨false, by rw [contains, if_pos hl], by simp [hl]⟩

/-- **C11, order laws.** `in` is reflexive and transitive, and mutual inclusion means the same layer and words. -/
theorem C11_preorder {r s t : Script} (hr : Built r) (hs : Built s) (ht : Built t) :
    contains s s = .ok true ∧
    (contains s t = .ok true → contains r s = .ok true → contains r t = .ok true) ∧
    (contains s t = .ok true ∧ contains t s = .ok true ↔ SameMeaning s t) := by
  have key : ∀ {s t : Script}, Built s → Built t → (contains s t = .ok true ↔ t.layer = s.layer ∧ ∀ w, Den t w → Den s w) := by
    intro s t hs ht
    obtain ⟨b, h1, h2⟩ := C11_inclusion hs ht
    rw [h1, ← h2, Except.ok.injEq]
  rw [key hs hs, key hs ht, key hr hs, key hr ht, key ht hs]
  refine ⟨⟨rfl, fun _ h => h⟩, ?_, ?_⟩
  · rintro ⟨h1, h2⟩ ⟨h3, h4⟩
    exact ⟨by rw [h1, h3], fun w hw => h4 w (h2 w hw)⟩
  · constructor
    · rintro ⟨⟨h1, h2⟩, ⟨_, h4⟩⟩
      exact ⟨h1.symm, fun w => ⟨h4 w, h2 w⟩⟩
    · rintro ⟨h1, h2⟩
      exact ⟨⟨h1.symm, fun w => (h2 w).2⟩, ⟨h1, fun w => (h2 w).1⟩⟩

-- `U:.+O:.` and `O:.` contain each other without being equal.
example : let o := Script.mult (.add [.prim .U, .prim .A]) (.null 0) (.null 0)
    let u := Script.mult (.prim .U) (.null 0) (.null 0)
    Built o ∧ Built (.add [u, o]) ∧ contains o (.add [u, o]) = .ok true ∧ contains (.add [u, o]) o = .ok true ∧
      contains u o = .ok false ∧ pyEq o (.add [u, o]) = false :=
  ⟨built_of (by decide +kernel), built_of (by decide +kernel), by decide +kernel⟩

/-- **C12.** The class of a script is the largest class of the first letter of its words. -/
theorem C12_script_class {s : Script} (h : Built s) :
    (∃ x w, Den s (x :: w) ∧ letterClass x = s.scriptClass) ∧ ∀ x w, Den s (x :: w) → letterClass x ≤ s.scriptClass :=
  scriptClass_spec (built_wf h)

example : Built (.add [.null 0, .prim .U]) ∧ (Script.add [.null 0, .prim .U]).scriptClass = 1 ∧ letterClass (some .U) = 1 ∧
    letterClass none = 0 := ⟨built_of (by decide +kernel), by decide +kernel⟩

/-- **C13, promotion.** For `l` at most the layer the script itself is returned; for a higher `l ≤ 6` the result has layer
`l`, the same cardinal, and the words of `s` padded on the right with empty letters; a layer above 6 gives `IndexError`. -/
theorem C13_promote {s : Script} (h : Built s) (l : Nat) :
    (l ≤ s.layer → promote s l = .ok s) ∧
    (s.layer < l → l ≤ 6 → ∃ t, promote s l = .ok t ∧ Built t ∧ t.layer = l ∧ t.cardinal = s.cardinal ∧
      ∀ w, Den t w ↔ ∃ u, Den s u ∧ w = u ++ List.replicate (3 ^ l - 3 ^ s.layer) none) ∧
    (6 < l → promote s l = .error .indexError) := by
  have hw := built_wf h
  have h6 := wf_layer hw
  obtain ⟨a, b⟩ := promoteBy_spec (l - s.layer) hw
  refine ⟨?_, ?_, ?_⟩
  · intro hle
    rw [promote, show l - s.layer = 0 by omega]; rfl
  · intro hlt hl6
    obtain ⟨t, h1, h2, h3, h4, _, _, h5⟩ := a (by omega)
    have e : s.layer + (l - s.layer) = l := by omega
    rw [e] at h5
    exact ⟨t, h1, wf_built h2, by omega, h4, h5⟩
  · intro hgt
    exact b (by omega) (by omega)

example : Built wM ∧ (promote wM 4).map layer = .ok 4 ∧ promote wM 7 = .error .indexError ∧ promote wM 1 = .ok wM :=
  ⟨built_of (by decide +kernel), by decide +kernel⟩

/-- **C13, mixed addition, what holds.** `add` of no script raises `ValueError`; otherwise, for buildable scripts that are
not one-term sums, it either exceeds the size limit (possible only when the total size is above 360) or has the highest
layer `l` and the words of all the scripts padded on the right to layer `l`.  Missing: one-term sums (see
`C05_violated`). -/
theorem C13_add_partial {ss : List Script} (hb : ∀ s ∈ ss, Built s) (hp : ∀ s ∈ ss, NotOneTermSum s) :
    (ss = [] ∧ addOp ss = .error .valueError) ∨
    (360 < (ss.map cardinal).sum ∧ addOp ss = .error .tooMany) ∨
    ∃ t, addOp ss = .ok t ∧ Built t ∧ (∃ s ∈ ss, s.layer = t.layer) ∧ (∀ s ∈ ss, s.layer ≤ t.layer) ∧
      ∀ w, Den t w ↔ ∃ s ∈ ss, ∃ u, Den s u ∧ w = u ++ List.replicate (3 ^ t.layer - 3 ^ s.layer) none := by
  rcases ss with _ | ⟨s0, ss⟩
  · exact .inl ⟨rfl, rfl⟩
  refine .inr ?_
  obtain ⟨_, hmax⟩ := foldl_max_le ((s0 :: ss).map layer) 0
  have hl : ∀ s ∈ s0 :: ss, s.layer ≤ ((s0 :: ss).map layer).foldl max 0 := fun s hs => hmax _ (List.mem_map.2 ⟨s, hs, rfl⟩)
  have hmem : ∃ s ∈ s0 :: ss, s.layer = ((s0 :: ss).map layer).foldl max 0 := by
    rcases foldl_max_mem ((s0 :: ss).map layer) 0 with h | h
    · exact ⟨s0, by simp, by have := hl s0 (by simp); omega⟩
    · obtain ⟨s, hs, he⟩ := List.mem_map.1 h
      exact ⟨s, hs, he⟩
  have hrw : addOp (s0 :: ss) = ((s0 :: ss).mapM fun s => promote s (((s0 :: ss).map layer).foldl max 0)) >>= mkAdd := rfl
  rw [hrw]
  generalize ((s0 :: ss).map layer).foldl max 0 = l at hl hmem
  have hl6 : l ≤ 6 := by
    obtain ⟨s, hs, he⟩ := hmem
    have := wf_layer (built_wf (hb s hs))
    omega
  have hpr : ∀ s ∈ s0 :: ss, ∃ t, promote s l = .ok t ∧ WF t ∧ t.layer = l ∧ t.cardinal = s.cardinal ∧ Plain t ∧
      ∀ w, Den t w ↔ ∃ u, Den s u ∧ w = u ++ List.replicate (3 ^ l - 3 ^ s.layer) none := by
    intro s hs
    have := hl s hs
    obtain ⟨t, h1, h2, h3, h4, h5, h6, h7⟩ := (promoteBy_spec (l - s.layer) (built_wf (hb s hs))).1 (by omega)
    have e : s.layer + (l - s.layer) = l := by omega
    rw [e] at h7
    refine ⟨t, h1, h2, by omega, h4, ?_, h7⟩
    by_cases hn : l - s.layer = 0
    · rw [h5 hn]; exact hp s hs
    · exact plain_of_not_isAdd (h6 hn)
  have hch : ∃ g : Script → Script, ∀ s ∈ s0 :: ss, promote s l = .ok (g s) ∧ WF (g s) ∧ (g s).layer = l ∧
      (g s).cardinal = s.cardinal ∧ Plain (g s) ∧
      ∀ w, Den (g s) w ↔ ∃ u, Den s u ∧ w = u ++ List.replicate (3 ^ l - 3 ^ s.layer) none := by
    classical
    refine ⟨fun s => if h : s ∈ s0 :: ss then (hpr s h).choose else s, fun s hs => ?_⟩
    simp only [dif_pos hs]
    exact (hpr s hs).choose_spec
  obtain ⟨g, hg⟩ := hch
  rw [mapM_ok (g := g) fun s hs => (hg s hs).1]
  show (_ ∧ mkAdd ((s0 :: ss).map g) = _) ∨ ∃ t, mkAdd ((s0 :: ss).map g) = _ ∧ _
  have hgb : ∀ c ∈ (s0 :: ss).map g, Built c ∧ NotOneTermSum c ∧ c.layer = l := by
    intro c hc
    obtain ⟨s, hs, rfl⟩ := List.mem_map.1 hc
    exact ⟨wf_built (hg s hs).2.1, (hg s hs).2.2.2.2.1, (hg s hs).2.2.1⟩
  have hcard : ((s0 :: ss).map g).map cardinal = (s0 :: ss).map cardinal := by
    rw [List.map_map]
    exact List.map_congr_left fun s hs => (hg s hs).2.2.2.1
  rcases C05_sum_is_union_partial (fun c hc => (hgb c hc).1) (fun c hc => (hgb c hc).2.1) with
    ⟨t, h1, h2, h3, h4⟩ | ⟨_, h⟩ | ⟨_, c, hc, d, hd, hne⟩ | ⟨h1, h2, _⟩
  · have htl : t.layer = l := by
      rw [← h3 (g s0) (by simp), (hg s0 (by simp)).2.2.1]
    refine .inr ⟨t, h1, h2, ?_, ?_, ?_⟩
    · rw [htl]; exact hmem
    · rw [htl]; exact hl
    · intro w
      rw [h4, htl]
      constructor
      · rintro ⟨c, hc, hw⟩
        obtain ⟨s, hs, rfl⟩ := List.mem_map.1 hc
        exact ⟨s, hs, ((hg s hs).2.2.2.2.2 w).1 hw⟩
      · rintro ⟨s, hs, hw⟩
        exact ⟨g s, List.mem_map.2 ⟨s, hs, rfl⟩, ((hg s hs).2.2.2.2.2 w).2 hw⟩
  · simp at h
  · exact absurd (by rw [(hgb c hc).2.2, (hgb d hd).2.2]) hne
  · rw [hcard] at h2
    exact .inl ⟨h2, h1⟩

example : (addOp [.prim .U, wM]).map layer = .ok 2 ∧ (addOp [.prim .U, wM]).map cardinal = .ok 3 := by decide +kernel

/-- **C58.** Equality of keys is equality of texts, whatever mixture of scripts and texts is used, equal keys have equal
hashes, and looking up a script or its text in a dictionary gives the same answer. -/
theorem C58_keys (h : Str → Int) (k k' : PyKey) :
    (k.eq k' = true ↔ k.str = k'.str) ∧ (k.eq k' = true → k.hash h = k'.hash h) ∧
    (∀ {β : Type} (d : List (PyKey × β)), k.eq k' = true → k.lookup h d = k'.lookup h d) ∧
    (∀ s : Script, ∀ {β : Type} (d : List (PyKey × β)), (PyKey.script s).lookup h d = (PyKey.text s.str).lookup h d) := by
  have he : ∀ k k' : PyKey, k.eq k' = true ↔ k.str = k'.str := by
    intro k k'
    cases k with
    | script s => cases k' <;> simp [PyKey.eq, PyKey.str, pyEq]
    | text t =>
      cases k' with
      | script s => simp only [PyKey.eq, PyKey.str, beq_iff_eq]; exact eq_comm
      | text u => simp [PyKey.eq, PyKey.str]
  have hh : ∀ k : PyKey, k.hash h = h k.str := by intro k; cases k <;> rfl
  have hl : ∀ {k k' : PyKey} {β : Type} (d : List (PyKey × β)), k.str = k'.str → k.lookup h d = k'.lookup h d := by
    intro k k' β d hk
    induction d with
    | nil => rfl
    | cons e d ih =>
      rcases e with ⟨k0, v⟩
      have hb : k0.eq k = k0.eq k' := by rw [Bool.eq_iff_iff, he, he, hk]
      rw [PyKey.lookup, PyKey.lookup, ih, hh, hh, hh, hb, hk]
  refine ⟨he k k', fun h' => by rw [hh, hh, (he _ _).1 h'], fun d h' => hl d ((he _ _).1 h'), fun s _ d => hl d rfl⟩

example : (PyKey.script wM).eq (.script (.add [wM])) = true ∧ (PyKey.text (c!"U:")).eq (.script (.prim .U)) = true ∧
    (PyKey.text (c!"U:")).lookup (fun _ => 0) [(.script (.prim .A), 1), (.script (.prim .U), 2)] = some 2 := by decide +kernel

end Verif
