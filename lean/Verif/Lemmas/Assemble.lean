import Verif.Props.FromPaths
import Verif.Model.UslTable

/-
Assembly of polymorphemes from any list of paths and morphemes: the paths may occur several times and hold several morphemes.
-/

namespace Verif
open Script

/-! ### Dictionaries of sets -/

/-- What the dictionary holds for the paths `P` after the items `Z`. -/
structure SetsOf (P : List Path) (Z : List (Path × Expr)) (d : List (Path × List Expr)) : Prop where
  keys : (d.map fun e => pathText e.1).Nodup
  all : ∀ p ∈ P, ∃ e ∈ d, pathText e.1 = pathText p
  key : ∀ e ∈ d, e.1 ∈ P
  nodup : ∀ e ∈ d, (e.2.map Expr.text).Nodup
  value : ∀ e ∈ d, ∀ v ∈ e.2, ∃ x ∈ Z, x.2 = v
  mem : ∀ e ∈ d, ∀ t, t ∈ e.2.map Expr.text ↔ ∃ x ∈ Z, pathText x.1 = pathText e.1 ∧ x.2.text = t

theorem SetsOf.split {P : List Path} {Z : List (Path × Expr)} {d : List (Path × List Expr)} (h : SetsOf P Z d) {p : Path} (hp : p ∈ P) :
    ∃ l k v r, d = l ++ (k, v) :: r ∧ pathText k = pathText p ∧ (∀ e ∈ l, pathText e.1 ≠ pathText p) ∧ ∀ e ∈ r, pathText e.1 ≠ pathText p := by
  obtain ⟨⟨k, v⟩, he, hk⟩ := h.all p hp
  obtain ⟨l, r, rfl⟩ := List.append_of_mem he
  have hk : pathText k = pathText p := hk
  have hn := h.keys
  rw [List.map_append, List.map_cons, List.nodup_append, List.nodup_cons] at hn
  obtain ⟨_, ⟨h2, _⟩, h3⟩ := hn
  refine ⟨l, k, v, r, rfl, hk, fun e he e' => ?_, fun e he e' => ?_⟩
  · exact h3 _ (List.mem_map_of_mem (f := fun e : Path × List Expr => pathText e.1) he) _ (by simp) (e'.trans hk.symm)
  · exact h2 (List.mem_map.2 ⟨e, he, e'.trans hk.symm⟩)

theorem SetsOf.key_step {P : List Path} {d : List (Path × List Expr)} (h : SetsOf P [] d) (p : Path) : SetsOf (P ++ [p]) [] (dictSet pathText p [] d) := by
  have hempty : ∀ e ∈ d, e.2 = [] := by
    intro e he
    cases hv : e.2 with
    | nil => rfl
    | cons v l =>
      obtain ⟨_, hx, _⟩ := h.value e he v (by rw [hv]; simp)
      cases hx
  by_cases hex : ∃ e ∈ d, pathText e.1 = pathText p
  · obtain ⟨⟨k, v⟩, he, hk⟩ := hex
    obtain ⟨l, k', v', r, rfl, hk', hl, hr⟩ := h.split (h.key _ he)
    have hk : pathText k = pathText p := hk
    have e0 : v' = [] := hempty (k', v') (by simp)
    subst e0
    rw [dictSet_mid (by rwa [hk] at hl) (by rw [hk', hk])]
    exact ⟨h.keys, fun q hq => by
      rcases List.mem_append.1 hq with hq | hq
      · exact h.all q hq
      · simp only [List.mem_singleton] at hq
        subst hq
        exact ⟨(k', []), by simp, by rw [hk', hk]⟩, fun e he => List.mem_append_left _ (h.key e he), h.nodup, h.value, h.mem⟩
  · have hf : ∀ e ∈ d, pathText e.1 ≠ pathText p := fun e he e' => hex ⟨e, he, e'⟩
    rw [dictSet_fresh hf]
    refine ⟨?_, ?_, ?_, ?_, ?_, ?_⟩
    · rw [List.map_append, List.nodup_append]
      refine ⟨h.keys, by simp, ?_⟩
      intro a ha b hb
      obtain ⟨e, he, rfl⟩ := List.mem_map.1 ha
      simp only [List.map_cons, List.map_nil, List.mem_singleton] at hb
      subst hb
      exact hf e he
    · intro q hq
      rcases List.mem_append.1 hq with hq | hq
      · obtain ⟨e, he, h'⟩ := h.all q hq
        exact ⟨e, List.mem_append_left _ he, h'⟩
      · simp only [List.mem_singleton] at hq
        subst hq
        exact ⟨(q, []), by simp, rfl⟩
    all_goals
      intro e he
      rcases List.mem_append.1 he with he | he
    · exact List.mem_append_left _ (h.key e he)
    · simp only [List.mem_singleton] at he
      subst he
      simp
    · exact h.nodup e he
    · simp only [List.mem_singleton] at he
      subst he
      simp
    · exact h.value e he
    · simp only [List.mem_singleton] at he
      subst he
      intro v hv
      cases hv
    · exact h.mem e he
    · simp only [List.mem_singleton] at he
      subst he
      intro t
      simp

theorem setAdd_facts (v : Expr) (s : List Expr) (hs : (s.map Expr.text).Nodup) :
    ((setAdd Expr.text v s).map Expr.text).Nodup ∧ (∀ x ∈ setAdd Expr.text v s, x ∈ s ∨ x = v) ∧
    ∀ t, t ∈ (setAdd Expr.text v s).map Expr.text ↔ t ∈ s.map Expr.text ∨ v.text = t := by
  unfold setAdd
  split
  · next h =>
    rw [List.any_eq_true] at h
    obtain ⟨y, hy, h⟩ := h
    have h : y.text = v.text := by simpa using h
    refine ⟨hs, fun x hx => .inl hx, fun t => ⟨.inl, ?_⟩⟩
    rintro (h' | rfl)
    · exact h'
    · exact List.mem_map.2 ⟨y, hy, h⟩
  · next h =>
    rw [Bool.not_eq_true, List.any_eq_false] at h
    refine ⟨?_, fun x hx => by simpa using hx, fun t => by simp [eq_comm]⟩
    rw [List.map_append, List.nodup_append]
    refine ⟨hs, by simp, ?_⟩
    intro a ha b hb e
    obtain ⟨y, hy, rfl⟩ := List.mem_map.1 ha
    simp only [List.map_cons, List.map_nil, List.mem_singleton] at hb
    exact h y hy (by simpa using e.trans hb)

theorem SetsOf.value_step {P : List Path} {Z : List (Path × Expr)} {d : List (Path × List Expr)} (h : SetsOf P Z d) {p : Path} (hp : p ∈ P) (v : Expr) :
    SetsOf P (Z ++ [(p, v)]) (dictSet pathText p (setAdd Expr.text v ((dictGet pathText p d).getD [])) d) := by
  obtain ⟨l, k, s, r, rfl, hk, hl, hr⟩ := h.split hp
  rw [dictGet_mid hl hk, dictSet_mid hl hk, Option.getD_some]
  have hks : (k, s) ∈ l ++ (k, s) :: r := by simp
  obtain ⟨f1, f2, f3⟩ := setAdd_facts v s (h.nodup _ hks)
  have hold : ∀ e ∈ l ++ (k, setAdd Expr.text v s) :: r, e = (k, setAdd Expr.text v s) ∨ (e ∈ l ++ (k, s) :: r ∧ pathText e.1 ≠ pathText p) := by
    intro e he
    rcases List.mem_append.1 he with he | he
    · exact .inr ⟨List.mem_append_left _ he, hl e he⟩
    · rcases List.mem_cons.1 he with rfl | he
      · exact .inl rfl
      · exact .inr ⟨List.mem_append_right _ (List.mem_cons_of_mem _ he), hr e he⟩
  refine ⟨by simpa using h.keys, ?_, ?_, ?_, ?_, ?_⟩
  · intro q hq
    obtain ⟨e, he, h'⟩ := h.all q hq
    rcases List.mem_append.1 he with he | he
    · exact ⟨e, List.mem_append_left _ he, h'⟩
    · rcases List.mem_cons.1 he with rfl | he
      · exact ⟨(k, setAdd Expr.text v s), by simp, h'⟩
      · exact ⟨e, List.mem_append_right _ (List.mem_cons_of_mem _ he), h'⟩
  · intro e he
    rcases hold e he with rfl | ⟨he, _⟩
    · exact h.key (k, s) hks
    · exact h.key e he
  · intro e he
    rcases hold e he with rfl | ⟨he, _⟩
    · exact f1
    · exact h.nodup e he
  · intro e he x hx
    rcases hold e he with rfl | ⟨he, _⟩
    · rcases f2 x hx with hx | rfl
      · obtain ⟨y, hy, h'⟩ := h.value _ hks x hx
        exact ⟨y, List.mem_append_left _ hy, h'⟩
      · exact ⟨(p, x), by simp, rfl⟩
    · obtain ⟨y, hy, h'⟩ := h.value e he x hx
      exact ⟨y, List.mem_append_left _ hy, h'⟩
  · intro e he t
    rcases hold e he with rfl | ⟨he, hne⟩
    · rw [f3, h.mem _ hks]
      constructor
      · rintro (⟨x, hx, h'⟩ | h')
        · exact ⟨x, List.mem_append_left _ hx, h'⟩
        · exact ⟨(p, v), by simp, hk.symm, h'⟩
      · rintro ⟨x, hx, h'⟩
        rcases List.mem_append.1 hx with hx | hx
        · exact .inl ⟨x, hx, h'⟩
        · simp only [List.mem_singleton] at hx
          subst hx
          exact .inr h'.2
    · rw [h.mem e he]
      constructor
      · rintro ⟨x, hx, h'⟩
        exact ⟨x, List.mem_append_left _ hx, h'⟩
      · rintro ⟨x, hx, h'⟩
        rcases List.mem_append.1 hx with hx | hx
        · exact ⟨x, hx, h'⟩
        · simp only [List.mem_singleton] at hx
          subst hx
          exact absurd h'.1.symm hne

/-- The dictionary of the paths and the sets of their values, whatever the paths. -/
theorem pathToValue_sets {l : List (Str × Str)} {ps : List Path} {vs : List Expr} (hp : List.Forall₂ (fun e p => pathRead e.1 = .ok p) l ps)
    (hv : List.Forall₂ (fun e v => readValue e.2 = .ok v) l vs) : ∃ d, pathToValue l = .ok d ∧ SetsOf ps (ps.zip vs) d := by
  unfold pathToValue
  rw [mapM_of_forall₂ hp, mapM_of_forall₂ hv]
  refine ⟨_, rfl, ?_⟩
  have h1 : ∀ (ps qs : List Path) (d : List (Path × List Expr)), SetsOf qs [] d → SetsOf (qs ++ ps) [] (ps.foldl (fun d p => dictSet pathText p [] d) d) := by
    intro ps
    induction ps with
    | nil => intro qs d h; simpa using h
    | cons p ps ih =>
      intro qs d h
      have := ih (qs ++ [p]) _ (h.key_step p)
      simpa using this
  have h2 : ∀ (P : List Path) (W Z : List (Path × Expr)) (d : List (Path × List Expr)), (∀ x ∈ W, x.1 ∈ P) → SetsOf P Z d →
      SetsOf P (Z ++ W) (W.foldl (fun d e => dictSet pathText e.1 (setAdd Expr.text e.2 ((dictGet pathText e.1 d).getD [])) d) d) := by
    intro P W
    induction W with
    | nil => intro Z d _ h; simpa using h
    | cons x W ih =>
      intro Z d hW h
      have := ih (Z ++ [x]) _ (fun y hy => hW y (List.mem_cons_of_mem _ hy)) (h.value_step (hW x (by simp)) x.2)
      simpa using this
  have h0 : SetsOf [] [] [] := ⟨by simp, by simp, by simp, by simp, by simp, by simp⟩
  have := h2 ps (ps.zip vs) [] _ (fun x hx => (List.of_mem_zip hx).1) (by simpa using h1 ps [] [] h0)
  simpa using this

/-! ### The parts of a polymorpheme -/

/-- The group of a node. -/
def stepIdx : Step → GIdx
  | .pm g _ _ => g
  | _ => .constant

/-- The morphemes of the items of one group. -/
def partOf (I : List (Step × List Script)) (g : GIdx) : List Script := (I.filter fun i => stepIdx i.1 = g).flatMap (·.2)

theorem mem_partOf {I : List (Step × List Script)} {g : GIdx} {x : Script} : x ∈ partOf I g ↔ ∃ i ∈ I, stepIdx i.1 = g ∧ x ∈ i.2 := by
  simp [partOf, and_assoc]

theorem expand_scripts (vs : List Script) : ((vs.map Expr.script).mapM expandValue : Except Err _) = .ok (vs.map fun v => [v]) := by
  induction vs with
  | nil => rfl
  | cons v vs ih =>
    rw [List.map_cons, List.mapM_cons, ih]
    rfl

theorem flatten_singles (vs : List Script) : (vs.map fun v => [v]).flatten = vs := by
  induction vs with
  | nil => rfl
  | cons v vs ih => simpa using ih

/-- The parts gathered by the loop on the items. -/
theorem fold_parts (K : GIdx → Nat) (hK : ∀ g, 0 < K g) : ∀ {I : List (Step × List Script)} {a : PMParts},
    (∀ i ∈ I, ∃ g m k, i.1 = .pm g m k ∧ (g ≠ .constant → k = some (K g))) →
    (∀ g, g ≠ .constant → (a.part g).2 = none ∨ (a.part g).2 = some (K g)) →
    ∃ a', (I.map fun i => (i.1, Built'.values (i.2.map Expr.script))).foldlM (fun a e => pmStep a e.1 e.2) a = .ok a' ∧
      (∀ g, (a'.part g).1 = (a.part g).1 ++ partOf I g) ∧
      ∀ g, g ≠ .constant → (a'.part g).2 = some (K g) ∨ (a'.part g).2 = (a.part g).2 ∧ partOf I g = []
  | [], a, _, _ => ⟨a, rfl, by simp [partOf], fun g _ => .inr ⟨rfl, rfl⟩⟩
  | i :: I, a, hI, ha => by
    obtain ⟨g, m, k, hi, hk⟩ := hI i (by simp)
    obtain ⟨s, vs⟩ := i
    have hi : s = .pm g m k := hi
    subst hi
    have hs : ∃ a1, pmStep a (.pm g m k) (.values (vs.map Expr.script)) = .ok a1 ∧ (a1.part g).1 = (a.part g).1 ++ vs ∧
        (g ≠ .constant → (a1.part g).2 = some (K g)) ∧ ∀ g', g' ≠ g → a1.part g' = a.part g' := by
      have hgs : g ≠ .constant → groupStep (a.part g) vs k = .ok ((a.part g).1 ++ vs, some (K g)) := by
        intro hg
        rw [hk hg]
        obtain ⟨n, hn⟩ : ∃ n, K g = n + 1 := ⟨K g - 1, by have := hK g; omega⟩
        rw [hn]
        unfold groupStep
        rcases ha g hg with h | h
        · simp [h]
        · simp [h, hn]
      cases g with
      | constant =>
        refine ⟨{ a with constant := a.constant ++ vs }, ?_, rfl, by simp, fun g' hg' => by cases g' <;> first | rfl | exact absurd rfl hg'⟩
        simp only [pmStep, expand_scripts]
        show Except.ok _ = _
        rw [flatten_singles]
      | g0 =>
        refine ⟨{ a with g0 := (a.g0.1 ++ vs, some (K .g0)) }, ?_, rfl, fun _ => rfl, fun g' hg' => by cases g' <;> first | rfl | exact absurd rfl hg'⟩
        have h1 : groupStep a.g0 vs k = _ := hgs (by simp)
        simp only [pmStep, expand_scripts]
        show (groupStep a.g0 _ k >>= fun x => Except.ok { a with g0 := x }) = _
        rw [flatten_singles, h1]; rfl
      | g1 =>
        refine ⟨{ a with g1 := (a.g1.1 ++ vs, some (K .g1)) }, ?_, rfl, fun _ => rfl, fun g' hg' => by cases g' <;> first | rfl | exact absurd rfl hg'⟩
        have h1 : groupStep a.g1 vs k = _ := hgs (by simp)
        simp only [pmStep, expand_scripts]
        show (groupStep a.g1 _ k >>= fun x => Except.ok { a with g1 := x }) = _
        rw [flatten_singles, h1]; rfl
      | g2 =>
        refine ⟨{ a with g2 := (a.g2.1 ++ vs, some (K .g2)) }, ?_, rfl, fun _ => rfl, fun g' hg' => by cases g' <;> first | rfl | exact absurd rfl hg'⟩
        have h1 : groupStep a.g2 vs k = _ := hgs (by simp)
        simp only [pmStep, expand_scripts]
        show (groupStep a.g2 _ k >>= fun x => Except.ok { a with g2 := x }) = _
        rw [flatten_singles, h1]; rfl
    obtain ⟨a1, h1, h2, h3, h4⟩ := hs
    obtain ⟨a', k1, k2, k3⟩ := fold_parts K hK (I := I) (a := a1) (fun x hx => hI x (List.mem_cons_of_mem _ hx)) (by
      intro g' hg'
      by_cases e : g' = g
      · subst e
        exact .inr (h3 hg')
      · rw [h4 g' e]
        exact ha g' hg')
    have hpart : ∀ g', partOf ((.pm g m k, vs) :: I) g' = (if g = g' then vs else []) ++ partOf I g' := by
      intro g'
      unfold partOf
      rw [List.filter_cons]
      by_cases e : g = g'
      · simp [stepIdx, e]
      · simp [stepIdx, e]
    refine ⟨a', ?_, ?_, ?_⟩
    · rw [List.map_cons, List.foldlM_cons]
      simp only
      rw [h1]
      exact k1
    · intro g'
      rw [k2, hpart]
      by_cases e : g' = g
      · subst e
        rw [h2, if_pos rfl, List.append_assoc]
      · rw [h4 g' e, if_neg (Ne.symm e), List.nil_append]
    · intro g' hg'
      rcases k3 g' hg' with h | ⟨h, h'⟩
      · exact .inl h
      · by_cases e : g' = g
        · subst e
          exact .inl (h.trans (h3 hg'))
        · refine .inr ⟨h.trans (by rw [h4 g' e]), ?_⟩
          rw [hpart, if_neg (Ne.symm e), h']
          rfl

/-- The groups that are not empty. -/
def groupsOf (K : GIdx → Nat) (P : GIdx → List Script) : List Group :=
  [GIdx.g0, .g1, .g2].filterMap fun g => if P g = [] then none else some (P g, K g)

theorem buildPM_parts (K : GIdx → Nat) (hK : ∀ g, 0 < K g) {I : List (Step × List Script)}
    (hI : ∀ i ∈ I, ∃ g m k, i.1 = .pm g m k ∧ (g ≠ .constant → k = some (K g))) :
    buildPM (I.map fun i => (i.1, .values (i.2.map Expr.script))) = .ok (mkPM (partOf I .constant) (groupsOf K (partOf I))) := by
  obtain ⟨a, h1, h2, h3⟩ := fold_parts K hK (a := ⟨[], ([], none), ([], none), ([], none)⟩) hI (by intro g hg; cases g <;> simp [PMParts.part])
  unfold buildPM
  rw [h1]
  show Except.ok _ = _
  have e : ∀ g, g ≠ .constant → ([a.part g].filter fun g => !g.1.isEmpty).map (fun g => (g.1, g.2.getD 1)) = [g].filterMap fun g => if partOf I g = [] then none else some (partOf I g, K g) := by
    intro g hg
    have e1 : (a.part g).1 = partOf I g := by
      rw [h2]
      cases g <;> rfl
    by_cases he : partOf I g = []
    · simp [e1, he]
    · rcases h3 g hg with h | ⟨_, h⟩
      · simp [e1, he, h]
      · exact absurd h he
  congr 2
  · exact h2 .constant
  · have e0 := e .g0 (by simp)
    have e1 := e .g1 (by simp)
    have e2 := e .g2 (by simp)
    have f1 : ∀ (x y z : List Script × Option Nat), [x, y, z] = [x] ++ [y] ++ [z] := fun _ _ _ => rfl
    have f2 : [GIdx.g0, .g1, .g2] = [.g0] ++ [.g1] ++ [.g2] := rfl
    unfold groupsOf
    rw [f1, f2, List.filter_append, List.filter_append, List.map_append, List.map_append, List.filterMap_append, List.filterMap_append, ← e0, ← e1, ← e2]
    rfl

/-! ### Assembly -/

/-- The items a polymorpheme can be assembled from: the multiplicities of a group are the same everywhere, and a morpheme is always
at the same path of a group. -/
structure Fit (K : GIdx → Nat) (L : List (Step × Script)) : Prop where
  item : ∀ e ∈ L, ∃ g m, e.1 = .pm g m (if g = .constant then none else some (K g)) ∧ (∀ x, m = some x → WF x)
  wf : ∀ e ∈ L, WF e.2 ∧ Readable e.2
  det : ∀ e ∈ L, ∀ f ∈ L, stepIdx e.1 = stepIdx f.1 → e.2.str = f.2.str → e.1.text = f.1.text
  mult : ∀ g, 0 < K g ∧ K g ≤ 9

theorem Fit.written {K : GIdx → Nat} {L : List (Step × Script)} (h : Fit K L) {e : Step × Script} (he : e ∈ L) : PMWritten e.1 := by
  obtain ⟨g, m, h1, h2⟩ := h.item e he
  rw [h1]
  by_cases hg : g = .constant
  · subst hg
    exact .constant h2
  · rw [if_neg hg]
    exact .group h2 (h.mult g).2

theorem idx_of_text {s t : Step} (hs : PMWritten s) (ht : PMWritten t) (h : s.text = t.text) : stepIdx s = stepIdx t := by
  obtain ⟨u, h1, h2⟩ := pm_text_inj hs ht h
  cases hs <;> cases ht <;> cases u <;> simp only [AlikeStep] at h1 h2 <;> exact h1.1.trans h2.1.symm

theorem exists_map_of {α β : Type} {f : β → α} {Q : β → Prop} : ∀ {l : List α}, (∀ a ∈ l, ∃ b, f b = a ∧ Q b) → ∃ l' : List β, l = l'.map f ∧ ∀ b ∈ l', Q b
  | [], _ => ⟨[], rfl, by simp⟩
  | a :: l, h => by
    obtain ⟨b, rfl, hb⟩ := h a (by simp)
    obtain ⟨l', rfl, hl⟩ := exists_map_of fun x hx => h x (List.mem_cons_of_mem _ hx)
    exact ⟨b :: l', rfl, by simpa using ⟨hb, hl⟩⟩

/-- The morphemes listed in `C` are those of the items of the group `g`. -/
structure Lists (L : List (Step × Script)) (g : GIdx) (C : List Script) : Prop where
  orderly : ∀ x ∈ C, Orderly x
  nodup : ((C.filter fun x => x.empty = false).map str).Nodup
  mem : ∀ t, (∃ x ∈ C, x.empty = false ∧ x.str = t) ↔ ∃ e ∈ L, stepIdx e.1 = g ∧ e.2.empty = false ∧ e.2.str = t

theorem groups_same {K : GIdx → Nat} {P Q : GIdx → List Script} (h0 : ∀ g, g ≠ .constant → (P g = [] ↔ Q g = [])) (hr : ∀ g, g ≠ .constant → Rearranged (P g) (Q g)) :
    GroupsRearranged (groupsOf K P) (groupsOf K Q) := by
  refine ⟨groupsOf K Q, ?_, List.Perm.refl _⟩
  have one : ∀ l : List GIdx, (∀ g ∈ l, g ≠ .constant) → List.Forall₂ GroupRearranged (l.filterMap fun g => if P g = [] then none else some (P g, K g))
      (l.filterMap fun g => if Q g = [] then none else some (Q g, K g)) := by
    intro l
    induction l with
    | nil => intro _; exact .nil
    | cons g l ih =>
      intro hl
      have ih := ih fun x hx => hl x (List.mem_cons_of_mem _ hx)
      have hg := hl g (by simp)
      by_cases e : P g = []
      · simp only [List.filterMap_cons, e, (h0 g hg).1 e, if_true]
        exact ih
      · have e' : ¬ Q g = [] := fun x => e ((h0 g hg).2 x)
        simp only [List.filterMap_cons, e, e', if_false]
        exact .cons ⟨hr g hg, rfl⟩ ih
  exact one _ (by simp)

/-- **Assembly.** From items, the polymorpheme of their morphemes. -/
theorem assemble {ord : List Expr → List Expr} (ho : Rearranges ord) {K : GIdx → Nat} {L : List (Step × Script)} (h : Fit K L) (hne : L ≠ []) {C : List Script}
    {G : GIdx → List Script} (hC : Lists L .constant C) (hG : ∀ g, g ≠ .constant → Lists L g (G g))
    (hG0 : ∀ g, g ≠ .constant → (G g = [] ↔ ∀ e ∈ L, stepIdx e.1 ≠ g)) :
    ∃ q, uslOf ord (L.map fun e => ([e.1], e.2)) = .ok (.pm q) ∧ SamePM q (mkPM C (groupsOf K G)) ∧
      ∃ C' G', q = mkPM C' G' ∧ (∀ x ∈ C', Orderly x) ∧ ∀ g ∈ G', ∀ x ∈ g.1, Orderly x := by
  -- reading
  have hps : ∃ ps, List.Forall₂ (fun (e : Str × Str) p => pathRead e.1 = .ok p) ((L.map fun e => (([e.1] : Path), e.2)).map fun e => (pathText e.1, e.2.str)) ps ∧
      List.Forall₂ (fun (e : Step × Script) p => ∃ s, p = [s] ∧ AlikeStep e.1 s) L ps := by
    have hw : ∀ e ∈ L, PMWritten e.1 := fun e he => h.written he
    clear hne hC hG hG0 h
    induction L with
    | nil => exact ⟨[], .nil, .nil⟩
    | cons e L ih =>
      obtain ⟨ps, i1, i2⟩ := ih fun x hx => hw x (List.mem_cons_of_mem _ hx)
      obtain ⟨q, k1, k2, _⟩ := C66_read (Written.pm (hw e (by simp)))
      cases k2 with
      | cons k2 k3 =>
        cases k3
        exact ⟨_ :: ps, .cons k1 i1, .cons ⟨_, rfl, k2⟩ i2⟩
  have hvs : ∃ vs : List Script, List.Forall₂ (fun (e : Str × Str) v => readValue e.2 = .ok v) ((L.map fun e => (([e.1] : Path), e.2)).map fun e => (pathText e.1, e.2.str)) (vs.map Expr.script) ∧
      List.Forall₂ (fun (e : Step × Script) v => WF v ∧ v.str = e.2.str ∧ Orderly v) L vs := by
    have hw := h.wf
    clear hne hC hG hG0 h hps
    induction L with
    | nil => exact ⟨[], .nil, .nil⟩
    | cons e L ih =>
      obtain ⟨vs, i1, i2⟩ := ih fun x hx => hw x (List.mem_cons_of_mem _ hx)
      obtain ⟨w, r⟩ := hw e (by simp)
      obtain ⟨t, ht, _⟩ := parse_str w
      obtain ⟨a, b, c⟩ := read_same w ht
      exact ⟨t :: vs, .cons (value_read w r ht) i1, .cons ⟨a, b, wf_built a, .inl c⟩ i2⟩
  obtain ⟨ps, p1, p2⟩ := hps
  obtain ⟨vs, v1, v2⟩ := hvs
  obtain ⟨d, hd, H⟩ := pathToValue_sets p1 v1
  have hpsL : ∀ p ∈ ps, ∃ e ∈ L, ∃ s, p = [s] ∧ AlikeStep e.1 s := fun p hp => forall₂_mem_right p2 hp
  have hLps : ∀ e ∈ L, ∃ p ∈ ps, pathText p = pathText [e.1] := fun e he => by
    obtain ⟨p, hp, s, rfl, hs⟩ := forall₂_mem_left p2 he
    exact ⟨[s], hp, alike_text (p := [s]) (q := [e.1]) (.cons (by
      revert hs
      cases e.1 <;> cases s <;> simp only [AlikeStep] <;> intro hs <;> first
        | exact hs
        | exact hs.symm
        | exact ⟨hs.1.symm, hs.2.1.symm, hs.2.2.imp Eq.symm (fun x => hs.1 ▸ x)⟩
        | exact ⟨hs.1.symm, hs.2.symm⟩) .nil)⟩
  have single : ∀ s t : Step, pathText [s] = pathText [t] ↔ s.text = t.text := fun s t => by simp [pathText]
  -- the values with their paths
  have hzip : ∀ {ps : List Path} {vs : List Script} {L : List (Step × Script)}, List.Forall₂ (fun (e : Step × Script) p => ∃ s, p = [s] ∧ AlikeStep e.1 s) L ps →
      List.Forall₂ (fun (e : Step × Script) v => WF v ∧ v.str = e.2.str ∧ Orderly v) L vs →
      (∀ x ∈ ps.zip (vs.map Expr.script), ∃ e ∈ L, pathText x.1 = pathText [e.1] ∧ ∃ v, x.2 = .script v ∧ WF v ∧ v.str = e.2.str ∧ Orderly v) ∧
      ∀ e ∈ L, ∃ x ∈ ps.zip (vs.map Expr.script), pathText x.1 = pathText [e.1] ∧ x.2.text = e.2.str := by
    intro ps vs L a b
    induction a generalizing vs with
    | nil => simp
    | @cons e p L ps h1 _ ih =>
      cases b with
      | @cons _ v _ vs h2 h3 =>
        obtain ⟨i1, i2⟩ := ih h3
        obtain ⟨s, rfl, hs⟩ := h1
        have ht : pathText [s] = pathText [e.1] := (single _ _).2 (alikeStep_text hs).symm
        rw [List.map_cons, List.zip_cons_cons]
        constructor
        · intro x hx
          rcases List.mem_cons.1 hx with rfl | hx
          · exact ⟨e, by simp, ht, v, rfl, h2⟩
          · obtain ⟨f, hf, h'⟩ := i1 x hx
            exact ⟨f, List.mem_cons_of_mem _ hf, h'⟩
        · intro f hf
          rcases List.mem_cons.1 hf with rfl | hf
          · exact ⟨_, List.mem_cons_self, ht, h2.2.1⟩
          · obtain ⟨x, hx, h'⟩ := i2 f hf
            exact ⟨x, List.mem_cons_of_mem _ hx, h'⟩
  obtain ⟨z1, z2⟩ := hzip p2 v2
  -- the items
  obtain ⟨I, hI, hQ⟩ := exists_map_of (l := d.map fun e => (e.1, ord e.2)) (f := fun i : Step × List Script => (([i.1] : Path), i.2.map Expr.script))
      (Q := fun i => (∃ e ∈ L, AlikeStep e.1 i.1) ∧ (i.2.map str).Nodup ∧ (∀ x ∈ i.2, WF x ∧ Orderly x) ∧
        ∀ t, t ∈ i.2.map str ↔ ∃ e ∈ L, e.1.text = i.1.text ∧ e.2.str = t) (by
    intro a ha
    obtain ⟨e, he, rfl⟩ := List.mem_map.1 ha
    obtain ⟨f, hf, s, hs, hs'⟩ := hpsL e.1 (H.key e he)
    have hsc : ∀ v ∈ ord e.2, ∃ m, Expr.script m = v ∧ (WF m ∧ Orderly m) := by
      intro v hv
      obtain ⟨x, hx, rfl⟩ := H.value e he v ((ho e.2).mem_iff.1 hv)
      obtain ⟨_, _, _, m, hm, w, _, o⟩ := z1 x hx
      exact ⟨m, hm.symm, w, o⟩
    obtain ⟨ms, hms, hms'⟩ := exists_map_of hsc
    have htx : (ord e.2).map Expr.text = ms.map str := by rw [hms, List.map_map]; rfl
    refine ⟨(s, ms), by rw [hs, hms], ⟨f, hf, hs'⟩, ?_, hms', ?_⟩
    · rw [← htx]
      exact (((ho e.2).map Expr.text).nodup_iff).2 (H.nodup e he)
    · intro t
      show t ∈ ms.map str ↔ _
      rw [← htx, ((ho e.2).map Expr.text).mem_iff, H.mem e he t]
      constructor
      · rintro ⟨x, hx, h1, h2⟩
        obtain ⟨e', he', h3, v, hv, _, h4, _⟩ := z1 x hx
        refine ⟨e', he', ?_, ?_⟩
        · rw [← single, ← h3, h1, hs]
        · rw [← h4, ← h2, hv]
          rfl
      · rintro ⟨e', he', h1, rfl⟩
        obtain ⟨x, hx, h2, h3⟩ := z2 e' he'
        exact ⟨x, hx, by rw [h2, hs, single, h1], h3⟩)
  have hIw : ∀ i ∈ I, ∃ g m k, i.1 = .pm g m k ∧ (g ≠ .constant → k = some (K g)) := by
    intro i hi
    obtain ⟨⟨e, he, ha⟩, _⟩ := hQ i hi
    obtain ⟨g, m, h1, _⟩ := h.item e he
    rw [h1] at ha
    cases hs : i.1 <;> rw [hs] at ha <;> simp only [AlikeStep] at ha
    obtain ⟨rfl, _, hk⟩ := ha
    refine ⟨_, _, _, rfl, fun hg => ?_⟩
    rw [if_neg hg] at hk
    exact hk.resolve_right hg
  have hkeys : (I.map fun i => i.1.text).Nodup := by
    have h1 := H.keys
    have h2 : (d.map fun e => pathText e.1) = I.map fun i => pathText [i.1] := by
      have := congrArg (List.map fun e : Path × List Expr => pathText e.1) hI
      simpa [List.map_map, Function.comp_def] using this
    rw [h2] at h1
    exact nodup_map_of (f := fun i : Step × List Script => pathText [i.1]) (fun a _ b _ e => (single _ _).2 e) h1
  have hcover : ∀ e ∈ L, ∃ i ∈ I, i.1.text = e.1.text := by
    intro e he
    obtain ⟨p, hp, h1⟩ := hLps e he
    obtain ⟨x, hx, h2⟩ := H.all p hp
    have : (x.1, ord x.2) ∈ I.map fun i : Step × List Script => (([i.1] : Path), i.2.map Expr.script) := by
      rw [← hI]
      exact List.mem_map_of_mem (f := fun e : Path × List Expr => (e.1, ord e.2)) hx
    obtain ⟨i, hi, h3⟩ := List.mem_map.1 this
    refine ⟨i, hi, ?_⟩
    rw [← single, ← h1, ← h2, ← (Prod.mk.inj h3).1]
  have hIidx : ∀ i ∈ I, ∀ e ∈ L, e.1.text = i.1.text → stepIdx e.1 = stepIdx i.1 := by
    intro i hi e he het
    obtain ⟨⟨f, hf, ha⟩, _⟩ := hQ i hi
    rw [idx_of_text (h.written he) (h.written hf) (het.trans (alikeStep_text ha).symm)]
    cases hs : f.1 <;> cases hs' : i.1 <;> rw [hs, hs'] at ha <;> simp only [AlikeStep] at ha <;> first | rfl | exact ha.1
  have hmem : ∀ g t, t ∈ (partOf I g).map str ↔ ∃ e ∈ L, stepIdx e.1 = g ∧ e.2.str = t := by
    intro g t
    constructor
    · intro ht
      obtain ⟨x, hx, rfl⟩ := List.mem_map.1 ht
      obtain ⟨i, hi, hg, hx⟩ := mem_partOf.1 hx
      obtain ⟨e, he, h1, h2⟩ := ((hQ i hi).2.2.2 x.str).1 (List.mem_map_of_mem hx)
      exact ⟨e, he, (hIidx i hi e he h1).trans hg, h2⟩
    · rintro ⟨e, he, rfl, rfl⟩
      obtain ⟨i, hi, h1⟩ := hcover e he
      obtain ⟨x, hx, h2⟩ := List.mem_map.1 (((hQ i hi).2.2.2 e.2.str).2 ⟨e, he, h1.symm, rfl⟩)
      exact List.mem_map.2 ⟨x, mem_partOf.2 ⟨i, hi, (hIidx i hi e he h1.symm).symm, hx⟩, h2⟩
  have hnod : ∀ g, ((partOf I g).map str).Nodup := by
    intro g
    unfold partOf
    rw [List.map_flatMap, List.nodup_flatMap]
    constructor
    · intro i hi
      exact (hQ i (List.mem_filter.1 hi).1).2.1
    · have h1 : (I.filter fun i => stepIdx i.1 = g).Pairwise fun a b => a.1.text ≠ b.1.text := by
        rw [List.Nodup, List.pairwise_map] at hkeys
        exact hkeys.filter _
      refine h1.imp_of_mem fun {a b} ha hb hab => ?_
      intro t hta htb
      obtain ⟨ha, hga⟩ := List.mem_filter.1 ha
      obtain ⟨hb, hgb⟩ := List.mem_filter.1 hb
      obtain ⟨e, he, h2, h3⟩ := ((hQ a ha).2.2.2 t).1 hta
      obtain ⟨f, hf, h4, h5⟩ := ((hQ b hb).2.2.2 t).1 htb
      have hga : stepIdx a.1 = g := by simpa using hga
      have hgb : stepIdx b.1 = g := by simpa using hgb
      refine hab (h2.symm.trans ((h.det e he f hf ?_ (h3.trans h5.symm)).trans h4))
      rw [hIidx a ha e he h2, hIidx b hb f hf h4, hga, hgb]
  have hord : ∀ g, ∀ x ∈ partOf I g, WF x ∧ Orderly x := by
    intro g x hx
    obtain ⟨i, hi, _, hx⟩ := mem_partOf.1 hx
    exact (hQ i hi).2.2.1 x hx
  have hre : ∀ g (C : List Script), Lists L g C → Rearranged (partOf I g) C := by
    intro g C hC
    have hn1 : ((partOf I g).filter (fun x => x.empty = false) |>.map str).Nodup := (hnod g).sublist (List.filter_sublist.map str)
    refine (List.perm_ext_iff_of_nodup hn1 hC.nodup).2 fun t => ?_
    have := hC.mem t
    simp only [List.mem_map, List.mem_filter, decide_eq_true_eq, and_assoc]
    rw [this]
    constructor
    · rintro ⟨x, hx, hxe, rfl⟩
      obtain ⟨e, he, h1, h2⟩ := (hmem g x.str).1 (List.mem_map_of_mem hx)
      refine ⟨e, he, h1, ?_, h2⟩
      rw [empty_of_str (h.wf e he).1 (hord g x hx).1 h2]
      exact hxe
    · rintro ⟨e, he, h1, h2, rfl⟩
      obtain ⟨x, hx, h3⟩ := List.mem_map.1 ((hmem g e.2.str).2 ⟨e, he, h1, rfl⟩)
      refine ⟨x, hx, ?_, h3⟩
      rw [empty_of_str (hord g x hx).1 (h.wf e he).1 h3]
      exact h2
  -- grouping and building
  have hIne : I ≠ [] := by
    obtain ⟨e, he⟩ := List.exists_mem_of_ne_nil L hne
    obtain ⟨i, hi, _⟩ := hcover e he
    exact List.ne_nil_of_mem hi
  have hgr : d.foldlM (fun b e => b.group e.1 (ord e.2)) Bin.empty = .ok (Bin.mk (some PClass.pm) none (I.map fun i => (i.1, leaf (i.2.map Expr.script)))) := by
    have h1 : d.foldlM (fun b e => b.group e.1 (ord e.2)) Bin.empty = groupAll Bin.empty (d.map fun e => (e.1, ord e.2)) := by
      unfold groupAll
      rw [List.foldlM_map]
    have h2 := groupAll_leaves (c := .pm) (n := none) (l := I.map fun i => (i.1, i.2.map Expr.script)) (t := none) (kids := []) (.inl rfl) (by simpa using hIne) (by
      intro e he
      obtain ⟨i, hi, rfl⟩ := List.mem_map.1 he
      obtain ⟨g, m, k, h1, _⟩ := hIw i hi
      simp only
      rw [h1]
      rfl) (by
      rw [List.map_nil, List.nil_append, List.map_map]
      exact hkeys)
    rw [List.map_map, List.map_map] at h2
    rw [h1, hI]
    exact h2
  have hbuild := buildPM_parts K (fun g => (h.mult g).1) hIw
  have hord' : ∀ g ∈ groupsOf K (partOf I), ∀ x ∈ g.1, Orderly x := by
    intro g hg x hx
    simp only [groupsOf, List.mem_filterMap] at hg
    obtain ⟨i, _, h1⟩ := hg
    split at h1
    · cases h1
    · rw [← Option.some.inj h1] at hx
      exact (hord _ x hx).2
  refine ⟨mkPM (partOf I .constant) (groupsOf K (partOf I)), ?_, ?_, _, _, rfl, fun x hx => (hord .constant x hx).2, hord'⟩
  · unfold uslOf
    rw [if_neg (by simpa using hne)]
    unfold fromPaths
    rw [hd]
    show (List.foldlM (fun b e => b.group e.1 (ord e.2)) Bin.empty d >>= _) = _
    rw [hgr]
    show (Bin.build ord _ >>= _) = _
    rw [Bin.build]
    have hk := build_leaves ord (I.map fun i => (i.1, i.2.map Expr.script))
    rw [List.map_map, List.map_map] at hk
    have hk : buildKids ord (I.map fun i => (i.1, leaf (i.2.map Expr.script))) = .ok (I.map fun i => (i.1, .values (i.2.map Expr.script))) := hk
    rw [hk]
    show (((buildUsl ord (some .pm) _) >>= _) >>= _) = _
    unfold buildUsl
    simp only
    rw [hbuild]
    rfl
  · refine C41_normal_form_partial ?_ ?_ (hre _ _ hC) (groups_same ?_ fun g hg => hre g _ (hG g hg))
    · intro x hx
      rcases List.mem_append.1 hx with hx | hx
      · exact (hord _ x hx).2
      · exact hC.orderly x hx
    · intro g hg x hx
      rcases List.mem_append.1 hg with hg | hg
      · exact hord' g hg x hx
      · simp only [groupsOf, List.mem_filterMap] at hg
        obtain ⟨i, hi, h1⟩ := hg
        split at h1
        · cases h1
        · rw [← Option.some.inj h1] at hx
          exact (hG i (by rintro rfl; simp at hi)).orderly x hx
    · intro g hg
      rw [hG0 g hg]
      constructor
      · intro e f hf hfg
        have := (hmem g f.2.str).2 ⟨f, hf, hfg, rfl⟩
        rw [e] at this
        cases this
      · intro hn
        cases hp : partOf I g with
        | nil => rfl
        | cons x l =>
          obtain ⟨e, he, h1, _⟩ := (hmem g x.str).1 (by rw [hp]; simp)
          exact absurd h1 (hn e he)

end Verif
