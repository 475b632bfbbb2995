import Verif.Lemmas.Families

/-
C51: a lexeme is assembled again from its paths and morphemes.
-/

namespace Verif
open Script

/-- The listed morphemes of a lexeme with their paths. -/
def lexItems (x : Lexeme) : List (Path × Script) :=
  (pmItems x.flexion).map (fun e => ([.lexeme false, .flexion e.2], e.2)) ++ (pmItems x.content).map fun e => ([.lexeme true, e.1], e.2)

/-- The test of `iter_structure_path_by_script_ss`. -/
def endsInMorpheme (p : Path) : Bool :=
  match pathTail p with
  | some (.flexion _) => true
  | some (.pm _ (some _) _) => true
  | _ => false

theorem scriptPaths_eq (l : List (Path × Node)) : scriptPaths l = l.filter fun e => endsInMorpheme e.1 := rfl

theorem scriptPaths_map {l : List (Path × Node)} {f : Path × Node → Path × Node} (h : ∀ e ∈ l, endsInMorpheme (f e).1 = endsInMorpheme e.1) :
    scriptPaths (l.map f) = (scriptPaths l).map f := by
  rw [scriptPaths_eq, scriptPaths_eq, List.filter_map]
  congr 1
  exact List.filter_congr h

theorem pm_paths_shape {p : PM} {e : Path × Node} (h : e ∈ p.paths) : ∃ g m k, e.1 = [.pm g m k] := by
  have hg : ∀ i g, e ∈ groupPaths i g → ∃ g m k, e.1 = [.pm g m k] := by
    intro i g h
    unfold groupPaths at h
    rcases List.mem_cons.1 h with rfl | h
    · exact ⟨_, _, _, rfl⟩
    · obtain ⟨m, _, rfl⟩ := List.mem_map.1 h
      exact ⟨_, _, _, rfl⟩
  unfold PM.paths at h
  rcases List.mem_append.1 h with h | h
  · rcases List.mem_cons.1 h with rfl | h
    · exact ⟨_, _, _, rfl⟩
    · obtain ⟨m, _, rfl⟩ := List.mem_map.1 h
      exact ⟨_, _, _, rfl⟩
  · split at h
    · cases h
    · exact hg _ _ h
    · rcases List.mem_append.1 h with h | h <;> exact hg _ _ h
    · rcases List.mem_append.1 h with h | h
      · rcases List.mem_append.1 h with h | h <;> exact hg _ _ h
      · exact hg _ _ h

theorem pmItems_shape {p : PM} {e : Step × Script} (he : e ∈ pmItems p) : ∃ g k, e.1 = .pm g (some e.2) k := by
  rcases mem_pmItems he with ⟨_, h1⟩ | ⟨i, _, g, _, _, h1⟩
  · exact ⟨_, _, h1⟩
  · exact ⟨_, _, h1⟩

theorem scriptPaths_lexeme (x : Lexeme) : scriptPaths x.paths = (lexItems x).map fun e => (e.1, .expr (.script e.2)) := by
  have e : x.paths = [([.lexeme false], .expr (.pm x.flexion))] ++ x.flexion.paths.map (fun e => (.lexeme false :: flexionChild e.1, e.2)) ++
      ([([.lexeme true], .expr (.pm x.content))] ++ x.content.paths.map fun e => (.lexeme true :: e.1, e.2)) := rfl
  rw [e, scriptPaths_append, scriptPaths_append, scriptPaths_append, scriptPaths_map (l := x.flexion.paths), scriptPaths_map (l := x.content.paths), scriptPaths_pm,
    scriptPaths_pm, lexItems, List.map_append]
  · congr 1
    · show [] ++ _ = _
      rw [List.nil_append, List.map_map, List.map_map]
      refine List.map_congr_left fun e he => ?_
      obtain ⟨g, k, h⟩ := pmItems_shape he
      simp only [Function.comp_def]
      rw [h]
      rfl
    · show [] ++ _ = _
      rw [List.nil_append, List.map_map, List.map_map]
      rfl
  · intro e he
    obtain ⟨g, m, k, h⟩ := pm_paths_shape he
    simp only [h]
    rfl
  · intro e he
    obtain ⟨g, m, k, h⟩ := pm_paths_shape he
    simp only [h]
    cases m <;> rfl

/-- The lexemes that can be taken apart. -/
def LexemeForm (x : Lexeme) : Prop :=
  ∃ fc fg cc cg, Legible fc fg ∧ Legible cc cg ∧ x = mkLexeme (mkPM fc fg) (mkPM cc cg) ∧ FlexionForm (mkPM fc fg) ∧ Separable (mkPM cc cg)

/-- The morphemes of the items. -/
theorem pmItems_morphemes {p : PM} (h : p.groups.length ≤ 3) : (pmItems p).map Prod.snd = p.constant ++ p.groups.flatMap Prod.fst := by
  unfold pmItems
  rw [List.map_append, List.map_map]
  congr 1
  · exact List.map_id _
  · rcases hg : p.groups with _ | ⟨a, _ | ⟨b, _ | ⟨c, _ | ⟨d, l⟩⟩⟩⟩
    · rfl
    · simp [Function.comp_def]
    · simp [Function.comp_def]
    · simp [Function.comp_def]
    · rw [hg] at h
      simp at h

/-- Paths of the grammar with the same text have nodes with the same texts. -/
theorem steps_of_text {p q : Path} (hp : Written p) (hq : Written q) (h : pathText p = pathText q) : p.map Step.text = q.map Step.text := by
  obtain ⟨r, h1, h2, _⟩ := C66_read hp
  obtain ⟨r', h1', h2', _⟩ := C66_read hq
  rw [h, h1'] at h1
  cases h1
  have key : ∀ {a b : Path}, Alike a b → a.map Step.text = b.map Step.text := by
    intro a b h
    induction h with
    | nil => rfl
    | cons h _ ih => rw [List.map_cons, List.map_cons, alikeStep_text h, ih]
  rw [key h2, key h2']

theorem lexItems_ok {x : Lexeme} (h : LexemeForm x) {e : Path × Script} (he : e ∈ lexItems x) : LexWritten e.1 ∧ WF e.2 ∧ Readable e.2 := by
  obtain ⟨fc, fg, cc, cg, hf, hc, rfl, hff, hs⟩ := h
  rcases List.mem_append.1 he with he | he
  · obtain ⟨y, hy, rfl⟩ := List.mem_map.1 he
    have := pmItems_wf hf hy
    exact ⟨.flexion this.1, this⟩
  · obtain ⟨y, hy, rfl⟩ := List.mem_map.1 he
    exact ⟨.content (pmItems_written hs (fun e he => (pmItems_wf hc he).1) hy), pmItems_wf hc hy⟩

theorem lexItems_ne (x : Lexeme) {fc fg} (h : x.flexion = mkPM fc fg) : lexItems x ≠ [] := by
  intro he
  have := List.append_eq_nil_iff.1 he
  rw [h] at this
  exact pmItems_ne fc fg (List.map_eq_nil_iff.1 this.1)

theorem flexion_texts {p : PM} (h : FlexionForm p) : ((pmItems p).map fun e => e.2.str).Nodup := by
  have := h.distinct
  rw [← pmItems_morphemes h.three, List.map_map] at this
  exact this

/-- The nodes of the paths of a lexeme differ. -/
theorem lexItems_steps {x : Lexeme} (h : LexemeForm x) : ((lexItems x).map fun e => e.1.map Step.text).Nodup := by
  obtain ⟨fc, fg, cc, cg, hf, hc, rfl, hff, hs⟩ := h
  unfold lexItems
  rw [List.map_append, List.map_map, List.map_map, List.nodup_append]
  refine ⟨?_, ?_, ?_⟩
  · refine nodup_map_of ?_ (flexion_texts hff)
    intro a _ b _ e
    have : a.2.str = b.2.str := by simpa [Step.text] using e
    exact this
  · refine nodup_map_of ?_ (pmItems_texts hs fun e he => (pmItems_wf hc he).1)
    intro a _ b _ e
    simpa using e
  · intro a ha b hb e
    subst e
    obtain ⟨y, _, rfl⟩ := List.mem_map.1 ha
    obtain ⟨z, _, e⟩ := List.mem_map.1 hb
    have h1 := congrArg List.head? e
    revert h1
    show ¬ some (Step.text (.lexeme true)) = some (Step.text (.lexeme false))
    decide +kernel

/-- A flexion is assembled from its items. -/
theorem flexion_assembled {ord : List Expr → List Expr} (ho : Rearranges ord) {cs : List Script} {gs : List Group} (h : Legible cs gs) (hf : FlexionForm (mkPM cs gs))
    {T : Step → Step} {M : Script → Script} (hT : ∀ e ∈ pmItems (mkPM cs gs), AlikeStep (.flexion e.2) (T (.flexion e.2)))
    (hM : ∀ m, WF m → parseScript m.str = .ok (M m)) :
    ∃ b q, groupAll Bin.empty ((pmItems (mkPM cs gs)).map fun e => ([T (.flexion e.2)], [.script (M e.2)])) = .ok b ∧ b.build ord = .ok (.usl (.pm q)) ∧ SamePM q (mkPM cs gs) ∧
      q.empty = (mkPM cs gs).empty := by
  have hg := groupAll_leaves (c := .flexion) (n := none) (l := (pmItems (mkPM cs gs)).map fun e => (T (.flexion e.2), [.script (M e.2)])) (t := none) (kids := []) (.inl rfl)
    (by simpa using pmItems_ne cs gs) (by
      intro e he
      obtain ⟨x, hx, rfl⟩ := List.mem_map.1 he
      rw [alikeStep_cls (hT x hx)]
      rfl) (by
      have : ((pmItems (mkPM cs gs)).map fun e => (T (.flexion e.2), [Expr.script (M e.2)])).map (fun e => e.1.text) = (pmItems (mkPM cs gs)).map fun e => e.2.str := by
        rw [List.map_map]
        exact List.map_congr_left fun e he => (alikeStep_text (hT e he)).symm
      rw [List.map_nil, List.nil_append, this]
      exact flexion_texts hf)
  rw [List.map_map] at hg
  obtain ⟨q, h1, h2, h3⟩ := flexionOf_read ho h hf hM
  refine ⟨_, q, hg, ?_, h2, h3⟩
  rw [List.nil_append, Bin.build, build_leaves, List.map_map]
  show (buildUsl ord (some .flexion) ((pmItems (mkPM cs gs)).map fun e => (T (.flexion e.2), .values [.script (M e.2)])) >>= _) = _
  unfold buildUsl
  simp only
  unfold buildFlexion
  have hv : ((pmItems (mkPM cs gs)).map fun e => (T (.flexion e.2), Built'.values [.script (M e.2)])).mapM flexionValues =
      .ok ((pmItems (mkPM cs gs)).map fun e => [.script (M e.2)]) := by
    refine mapM_of_forall₂ ?_
    rw [List.forall₂_map_left_iff, List.forall₂_map_right_iff, List.forall₂_same]
    intro e he
    have := hT e he
    cases ht : T (.flexion e.2) with
    | flexion m => rfl
    | _ => rw [ht] at this; exact this.elim
  rw [hv]
  show ((flexionOf ord _ >>= _) >>= _) = _
  have hm : ((pmItems (mkPM cs gs)).map fun e => [Expr.script (M e.2)]).flatten =
      ((mkPM cs gs).constant ++ (mkPM cs gs).groups.flatMap Prod.fst).map fun m => .script (M m) := by
    rw [← pmItems_morphemes hf.three, List.map_map, ← List.flatMap_def]
    exact List.flatMap_pure_eq_map ..
  rw [hm, h1]
  rfl

/-- A lexeme is assembled from its items. -/
theorem lexeme_assembled {ord : List Expr → List Expr} (ho : Rearranges ord) {x : Lexeme} (h : LexemeForm x) {T : Path → Path} {M : Script → Script}
    (hT : ∀ e ∈ lexItems x, Alike e.1 (T e.1)) (hM : ∀ m, WF m → parseScript m.str = .ok (M m)) :
    ∃ b y, groupAll Bin.empty ((lexItems x).map fun e => (T e.1, [.script (M e.2)])) = .ok b ∧ b.build ord = .ok (.usl (.lexeme y)) ∧ SameLexeme y x := by
  obtain ⟨fc, fg, cc, cg, hf, hc, rfl, hff, hs⟩ := h
  -- the nodes
  have hT' : ∀ c s, Alike [.lexeme c, s] (T [.lexeme c, s]) → T [.lexeme c, s] = [.lexeme c, (T [.lexeme c, s]).getD 1 .usl] ∧
      AlikeStep s ((T [.lexeme c, s]).getD 1 .usl) := by
    intro c s h
    generalize T [.lexeme c, s] = t at h
    cases h with
    | @cons _ u _ _ h1 h2 =>
      cases h2 with
      | cons h2 h3 =>
        cases h3
        cases u with
        | lexeme c' => cases h1; exact ⟨rfl, h2⟩
        | _ => exact h1.elim
  have hTf := fun e (he : e ∈ pmItems (mkPM fc fg)) => hT' false (.flexion e.2) (hT ([.lexeme false, .flexion e.2], e.2) (List.mem_append_left _ (List.mem_map.2 ⟨e, he, rfl⟩)))
  have hTc := fun e (he : e ∈ pmItems (mkPM cc cg)) => hT' true e.1 (hT ([.lexeme true, e.1], e.2) (List.mem_append_right _ (List.mem_map.2 ⟨e, he, rfl⟩)))
  obtain ⟨b1, p, f1, f2, f3, f4⟩ := flexion_assembled ho hf hff (T := fun s => (T [.lexeme false, s]).getD 1 .usl) (fun e he => (hTf e he).2) hM
  obtain ⟨b2, q, c1, c2, c3, c4⟩ := pm_assembled ord hc hs (T := fun s => (T [.lexeme true, s]).getD 1 .usl) (fun e he => (hTc e he).2) hM
  have hblocks := groupAll_blocks (c := .lexeme) (n := none) (t := none) (kids := [])
    (B := [(.lexeme false, (pmItems (mkPM fc fg)).map fun e => ([(T [.lexeme false, .flexion e.2]).getD 1 .usl], [.script (M e.2)])),
      (.lexeme true, (pmItems (mkPM cc cg)).map fun e => ([(T [.lexeme true, e.1]).getD 1 .usl], [.script (M e.2)]))]) (bs := [b1, b2]) (.inl rfl) (by simp) (by
      intro e he
      simp only [List.mem_cons, List.not_mem_nil, or_false] at he
      rcases he with rfl | rfl
      · refine ⟨rfl, by simpa using pmItems_ne fc fg, fun x hx => ?_⟩
        obtain ⟨y, _, rfl⟩ := List.mem_map.1 hx
        simp
      · refine ⟨rfl, by simpa using pmItems_ne cc cg, fun x hx => ?_⟩
        obtain ⟨y, _, rfl⟩ := List.mem_map.1 hx
        simp) (.cons f1 (.cons c1 .nil)) (by
      show [Step.text (.lexeme false), Step.text (.lexeme true)].Nodup
      decide +kernel)
  have hlist : (lexItems (mkLexeme (mkPM fc fg) (mkPM cc cg))).map (fun e => (T e.1, [Expr.script (M e.2)])) =
      ([(Step.lexeme false, (pmItems (mkPM fc fg)).map fun e => ([(T [.lexeme false, .flexion e.2]).getD 1 .usl], [Expr.script (M e.2)])),
      (.lexeme true, (pmItems (mkPM cc cg)).map fun e => ([(T [.lexeme true, e.1]).getD 1 .usl], [.script (M e.2)]))]).flatMap fun e => e.2.map fun x => (e.1 :: x.1, x.2) := by
    rw [List.flatMap_cons, List.flatMap_cons, List.flatMap_nil, List.append_nil, lexItems, List.map_append, List.map_map, List.map_map, List.map_map, List.map_map]
    congr 1
    · refine List.map_congr_left fun e he => ?_
      simp only [Function.comp_def]
      rw [← (hTf e he).1]
    · refine List.map_congr_left fun e he => ?_
      simp only [Function.comp_def]
      rw [← (hTc e he).1]
  rw [hlist]
  refine ⟨_, mkLexeme p q, hblocks, ?_, ⟨lexemeText_same f3 c3 f4 c4, f3, c3⟩⟩
  rw [List.nil_append, Bin.build]
  have := buildKids_of (ord := ord) (kids := [(.lexeme false, b1), (.lexeme true, b2)]) (vs := [.usl (.pm p), .usl (.pm q)]) (.cons f2 (.cons c2 .nil))
  show (buildKids ord [(.lexeme false, b1), (.lexeme true, b2)] >>= _) = _
  rw [this]
  rfl

/-- **C51, lexemes, what holds.** A lexeme whose flexion has the form of flexions and whose content can be taken apart is assembled again from its
paths and morphemes.  Missing: the other lexemes, for which the claim is false (`C51_violated_flexion` and those of polymorphemes). -/
theorem C51_lexeme_partial {ord : List Expr → List Expr} (ho : Rearranges ord) {x : Lexeme} (h : LexemeForm x) :
    ∃ y, reassemble ord (.lexeme x) = .ok (.lexeme y) ∧ SameLexeme y x := by
  obtain ⟨T, M, hT, hM, hr⟩ := read_all (L := lexItems x) (fun e he => ⟨.lexeme (lexItems_ok h he).1, (lexItems_ok h he).2⟩) (by
    refine nodup_map_of ?_ (lexItems_steps h)
    exact fun a ha b hb e => steps_of_text (.lexeme (lexItems_ok h ha).1) (.lexeme (lexItems_ok h hb).1) e)
  obtain ⟨b, y, h1, h2, h3⟩ := lexeme_assembled ho h hT hM
  refine ⟨y, ?_, h3⟩
  have hta : takeApart (.lexeme x) = .ok ((lexItems x).map fun e => (pathText e.1, e.2.str)) := by
    show Except.ok _ = _
    rw [scriptPaths_lexeme, List.map_map]
    rfl
  unfold reassemble
  rw [hta]
  refine fromPaths_of ho hr ?_ h1 h2
  intro e he
  obtain ⟨x, _, rfl⟩ := List.mem_map.1 he
  exact ⟨_, rfl⟩

/-- `E:x:y:.` -/
def demoFlexion (x y : Prim) : Script := .mult (.null 0) (.prim x) (.prim y)

theorem demoFlexion_legible (x y : Prim) : Orderly (demoFlexion x y) ∧ ((demoFlexion x y).empty = false → NotOldClass (demoFlexion x y)) := by
  refine ⟨⟨built_of (by cases x <;> cases y <;> decide +kernel), .inl (by simp [demoFlexion, NotOneTermSum])⟩, fun _ c r h => ?_⟩
  have := congrArg List.length h
  have h2 : (demoFlexion x y).str.length = 7 := by cases x <;> cases y <;> rfl
  rw [h2] at this
  simp at this

/-- A lexeme whose flexion has a constant and a group. -/
def demoLexeme : Lexeme := mkLexeme (mkPM [demoFlexion .S .U] [([demoFlexion .U .U, demoFlexion .U .A], 1)]) (mkPM [.prim .A] [([.prim .B, .prim .T], 2)])

theorem demoLexeme_form : LexemeForm demoLexeme := by
  refine ⟨_, _, _, _, ⟨?_, ?_, ?_⟩, ⟨?_, ?_, ?_⟩, rfl, ⟨by decide +kernel, by decide +kernel, by decide +kernel, [c!"E:M:O:.", c!"E:O:O:."], by decide +kernel, by decide +kernel, ?_⟩,
    ⟨by decide +kernel, by decide +kernel, by decide +kernel⟩⟩
  · simpa using demoFlexion_legible _ _
  · intro g hg m hm
    rw [List.mem_singleton.1 hg] at hm
    simp only [List.mem_cons, List.not_mem_nil, or_false] at hm
    rcases hm with rfl | rfl <;> exact demoFlexion_legible _ _
  · intro g hg
    rw [List.mem_singleton.1 hg]
    exact ⟨_, List.mem_cons_self, rfl⟩
  · intro m hm
    rw [List.mem_singleton.1 hm]
    exact ⟨orderly_prim _, fun _ => notOld_prim _⟩
  · intro g hg m hm
    rw [List.mem_singleton.1 hg] at hm
    simp only [List.mem_cons, List.not_mem_nil, or_false] at hm
    rcases hm with rfl | rfl <;> exact ⟨orderly_prim _, fun _ => notOld_prim _⟩
  · intro g hg
    rw [List.mem_singleton.1 hg]
    exact ⟨_, List.mem_cons_self, rfl⟩
  · exact .cons (by decide +kernel) (.cons (by decide +kernel) .nil)

example : demoLexeme.text = c!"(E:S:U:. m1(E:U:U:. E:U:A:.))(A: m2(B: T:))" ∧ tripText (.lexeme demoLexeme) = .ok demoLexeme.text := by decide +kernel

/-- **C51 is violated by flexions outside the families, and by a group of flexions with a single morpheme.** -/
theorem C51_violated_flexion : (∃ x : Lexeme, x.text = c!"(S:)(A:)" ∧ tripText (.lexeme x) = .ok (c!"()(A:)")) ∧
    (∃ x : Lexeme, x.text = c!"(m1(E:S:U:.))(A:)" ∧ tripText (.lexeme x) = .ok (c!"(E:S:U:.)(A:)")) ∧
    (∃ x : Lexeme, x.text = c!"(E:S:U:. E:S:A:.)(A:)" ∧ tripText (.lexeme x) = .ok (c!"(m1(E:S:U:. E:S:A:.))(A:)")) :=
  ⟨⟨mkLexeme (mkPM [.prim .S] []) (mkPM [.prim .A] []), by decide +kernel⟩,
   ⟨mkLexeme (mkPM [] [([demoFlexion .S .U], 1)]) (mkPM [.prim .A] []), by decide +kernel⟩,
   ⟨mkLexeme (mkPM [demoFlexion .S .U, demoFlexion .S .A] []) (mkPM [.prim .A] []), by decide +kernel⟩⟩

end Verif
