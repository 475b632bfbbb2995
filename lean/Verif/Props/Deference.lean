import Verif.Lemmas.Deference
import Verif.Props.PolyMorpheme
import Verif.Props.Path

/-
C52: the paths listed for a USL reach the values listed with them.
-/

namespace Verif
open Script

/-! ### Specification -/

/-- The path reaches a component equal to the value: USLs and scripts are compared by their texts. -/
def Reaches (u : Expr) (e : Path × Node) : Prop := ∃ v, deference e.1 (.expr u) = .ok v ∧ v.text = e.2.text

/-- The polymorpheme has no group. -/
def NoGroups (p : PM) : Prop := p.groups = []

theorem joinSpace_longer (a : List Str) {b : List Str} (hb : b ≠ []) (hne : ∀ s ∈ b, s ≠ []) :
    (joinSpace a).length < (joinSpace (a ++ b)).length := by
  induction a with
  | nil =>
    match b, hb with
    | [s], _ =>
      show 0 < s.length
      exact List.length_pos_iff.2 (hne s (by simp))
    | s :: t :: ts, _ =>
      show 0 < (s ++ ' ' :: joinSpace (t :: ts)).length
      simp only [List.length_append, List.length_cons]
      omega
  | cons s a ih =>
    cases a with
    | nil =>
      match b, hb with
      | t :: ts, _ =>
        show s.length < (s ++ ' ' :: joinSpace (t :: ts)).length
        simp
    | cons t ts =>
      show (s ++ ' ' :: joinSpace (t :: ts)).length < (s ++ ' ' :: joinSpace (t :: (ts ++ b))).length
      have ih : (joinSpace (t :: ts)).length < (joinSpace (t :: (ts ++ b))).length := ih
      simp only [List.length_append, List.length_cons]
      omega

theorem rearranged_constant (cs : List Script) (gs : List Group) : Rearranged (mkPM cs gs).constant cs := by
  rcases (C41_contents cs gs).1 with h | ⟨h, he⟩
  · unfold Rearranged
    have h2 : ((mkPM cs gs).constant.filter fun x => x.empty = false) = (mkPM cs gs).constant := by
      rw [List.filter_eq_self]
      intro x hx
      exact (List.mem_filter.1 (h.mem_iff.1 hx)).2
    rw [h2]
    exact h.map str
  · unfold Rearranged
    rw [h]
    have : (cs.filter fun x => x.empty = false) = [] := by
      rw [List.filter_eq_nil_iff]
      intro x hx
      simp [he x hx]
    rw [this]
    exact .refl _

theorem orderly_constant {cs : List Script} (hc : ∀ x ∈ cs, Orderly x) (gs : List Group) : ∀ x ∈ (mkPM cs gs).constant, Orderly x := by
  rcases (C41_contents cs gs).1 with h | ⟨h, _⟩
  · intro x hx
    exact hc x (List.mem_filter.1 (h.mem_iff.1 hx)).1
  · rw [h]
    intro x hx
    rw [List.mem_singleton] at hx
    subst hx
    exact ⟨built_of (by decide +kernel), .inl (by intro c h; cases h)⟩

/-- The text of the constants of a polymorpheme. -/
theorem constant_text {cs : List Script} (hc : ∀ x ∈ cs, Orderly x) (gs : List Group) :
    (mkPM (mkPM cs gs).constant []).text = joinSpace ((pySort lt (filterEmpty cs)).map str) := by
  have h := (C41_normal_form_partial (cs := (mkPM cs gs).constant) (cs' := cs) (gs := []) (gs' := [])
    (fun x hx => (List.mem_append.1 hx).elim (orderly_constant hc gs x) (hc x)) (by simp) (rearranged_constant cs gs)
    ⟨[], .nil, .refl _⟩).text
  rw [h]
  simp [mkPM, pySort]

theorem constant_text_eq {cs : List Script} (hc : ∀ x ∈ cs, Orderly x) (gs : List Group) :
    (mkPM (mkPM cs gs).constant []).text = (mkPM cs gs).text ↔ NoGroups (mkPM cs gs) := by
  rw [constant_text hc]
  constructor
  · intro h
    by_contra hn
    have := joinSpace_longer ((pySort lt (filterEmpty cs)).map str) (b := (mkPM cs gs).groups.map groupText)
      (by simpa using (show ¬ (mkPM cs gs).groups = [] from hn)) (by
        intro s hs
        obtain ⟨g, _, rfl⟩ := List.mem_map.1 hs
        simp [groupText])
    rw [h] at this
    exact absurd this (Nat.lt_irrefl _)
  · intro h
    have h2 : (mkPM cs gs).text = joinSpace ((pySort lt (filterEmpty cs)).map str ++ (mkPM cs gs).groups.map groupText) := rfl
    rw [h2, show (mkPM cs gs).groups = [] from h]
    simp

/-! ### C52 -/

/-- For polymorphemes, every listed path reaches the listed value. -/
theorem C52_polymorpheme (p : PM) : ∀ e ∈ p.paths, deference e.1 (.expr (.pm p)) = .ok e.2 := pm_reach p

/-- For lexemes, every listed path but `>flexion` reaches the listed value. -/
theorem C52_lexeme_partial (cs : List Script) (gs : List Group) (c : PM) (e : Path × Node)
    (he : e ∈ (mkLexeme (mkPM cs gs) c).paths) (hn : e.1 ≠ [.lexeme false]) :
    deference e.1 (.expr (.lexeme (mkLexeme (mkPM cs gs) c))) = .ok e.2 :=
  (lexeme_reach (x := mkLexeme (mkPM cs gs) c) (fullGroups_mkPM cs gs) e he).resolve_right hn

theorem pm_entry_none {p : PM} (hg : NoGroups p) {e : Path × Node} (he : e ∈ p.paths) (hn : flexionChild e.1 = []) :
    e = ([.pm .constant none none], .expr (.pm (mkPM p.constant []))) := by
  unfold PM.paths at he
  have hg : p.groups = [] := hg
  rw [hg] at he
  rw [List.mem_append, List.mem_cons] at he
  rcases he with (rfl | he) | he
  · rfl
  · obtain ⟨m, _, rfl⟩ := List.mem_map.1 he
    cases hn
  · cases he

theorem flexion_iff {cs : List Script} (hc : ∀ x ∈ cs, Orderly x) (gs : List Group) (c : PM) :
    (∀ e ∈ (mkLexeme (mkPM cs gs) c).paths, e.1 = [.lexeme false] → e.2.text = (mkPM cs gs).text) ↔ NoGroups (mkPM cs gs) := by
  constructor
  · intro h
    rw [← constant_text_eq hc gs]
    refine h ([.lexeme false], .expr (.pm (mkPM (mkPM cs gs).constant []))) ?_ rfl
    unfold Lexeme.paths
    rw [List.mem_append, List.mem_cons]
    left; right
    exact List.mem_map.2 ⟨([.pm .constant none none], .expr (.pm (mkPM (mkPM cs gs).constant []))), by simp [PM.paths, mkLexeme],
      rfl⟩
  · intro hg e he h1
    unfold Lexeme.paths at he
    rw [List.mem_append, List.mem_cons] at he
    rcases he with (rfl | he) | he
    · rfl
    · obtain ⟨y, hy, rfl⟩ := List.mem_map.1 he
      have : flexionChild y.1 = [] := by simpa using h1
      rw [pm_entry_none (p := mkPM cs gs) hg hy this]
      exact (constant_text_eq hc gs).2 hg
    · rcases List.mem_cons.1 he with rfl | he
      · cases h1
      · obtain ⟨y, hy, rfl⟩ := List.mem_map.1 he
        cases h1

/-- **C52 for lexemes**: every listed path reaches its value exactly when the flexion has no group. -/
theorem C52_lexeme_iff {cs : List Script} (hc : ∀ x ∈ cs, Orderly x) (gs : List Group) (c : PM) :
    (∀ e ∈ (mkLexeme (mkPM cs gs) c).paths, Reaches (.lexeme (mkLexeme (mkPM cs gs) c)) e) ↔ gs = [] := by
  have hng : gs = [] ↔ NoGroups (mkPM cs gs) := by
    have : (mkPM cs gs).groups.length = gs.length := by simp [mkPM, (pySort_perm _ _).length_eq]
    rw [NoGroups, ← List.length_eq_zero_iff, ← List.length_eq_zero_iff, this]
  rw [hng, ← flexion_iff hc gs c]
  have hd : deference [.lexeme false] (.expr (.lexeme (mkLexeme (mkPM cs gs) c))) = .ok (.expr (.pm (mkPM cs gs))) := rfl
  constructor
  · intro h e he h1
    obtain ⟨v, hv, ht⟩ := h e he
    rw [h1, hd] at hv
    cases hv
    exact ht.symm
  · intro h e he
    by_cases h1 : e.1 = [.lexeme false]
    · exact ⟨.expr (.pm (mkPM cs gs)), by rw [h1]; exact hd, (h e he h1).symm⟩
    · exact ⟨e.2, C52_lexeme_partial cs gs c e he h1, rfl⟩

/-- The paths of a word are listed exactly when every role has a lexeme; otherwise the listing raises `AttributeError`. -/
theorem C52_word_listed {w : WordUsl} : (∃ L, w.paths = .ok L) ↔ ∀ e ∈ w.sfun.items, e.2 ≠ none := by
  have h1 : ∀ l : List (RoleEntry Lexeme), (∃ L, l.mapM (rolePaths w.role) = .ok L) ↔ ∀ e ∈ l, e.2 ≠ none := by
    intro l
    constructor
    · rintro ⟨L, h⟩ e he hn
      obtain ⟨b, _, hb⟩ := forall₂_mem_left (mapM_inv h) he
      simp [rolePaths, hn] at hb
    · intro h
      induction l with
      | nil => exact ⟨[], rfl⟩
      | cons e l ih =>
        obtain ⟨L, hL⟩ := ih fun e he => h e (by simp [he])
        obtain ⟨r, x⟩ := e
        cases x with
        | none => exact absurd rfl (h _ (List.mem_cons_self ..))
        | some x =>
          rw [List.mapM_cons, hL]
          exact ⟨_, rfl⟩
  have h2 : (∃ L, w.paths = .ok L) ↔ ∃ L, (w.sfun.asList w.context).mapM (rolePaths w.role) = .ok L := by
    unfold WordUsl.paths
    cases (w.sfun.asList w.context).mapM (rolePaths w.role) with
    | error e => simp [bind, Except.bind]
    | ok l => simp [bind, Except.bind, pure, Except.pure]
  rw [h2, h1, asList_items]
  constructor
  · intro h e he
    exact h (pushAddr w.context.pre e) (List.mem_map.2 ⟨e, he, rfl⟩)
  · intro h e he
    obtain ⟨y, hy, rfl⟩ := List.mem_map.1 he
    exact h y hy

/-- The entries of a word: itself, its lexemes, and their entries under their role. -/
theorem word_entry {w : WordUsl} {L : List (Path × Node)} (h : w.paths = .ok L) (e : Path × Node) : e ∈ L ↔
    e = ([.usl], .expr (.word w)) ∨ ∃ r x f, (r, some x) ∈ w.sfun.items ∧ f = decide (roleText (w.context.pre ++ r) = roleText w.role) ∧
      (e = ([.role (w.context.pre ++ r) f], .expr (.lexeme x)) ∨ ∃ y ∈ x.paths, e = (.role (w.context.pre ++ r) f :: y.1, y.2)) := by
  unfold WordUsl.paths at h
  rw [bind_ok] at h
  obtain ⟨l, hl, h⟩ := h
  cases h
  have hl := mapM_inv hl
  rw [asList_items] at hl
  rw [List.mem_cons, List.mem_flatten]
  refine or_congr Iff.rfl ?_
  constructor
  · rintro ⟨b, hb, he⟩
    obtain ⟨a, ha, hab⟩ := forall₂_mem_right hl hb
    obtain ⟨⟨r, x⟩, hi, rfl⟩ := List.mem_map.1 ha
    cases x with
    | none => simp [rolePaths, pushAddr] at hab
    | some x =>
      simp only [rolePaths, pushAddr, Except.ok.injEq] at hab
      subst hab
      refine ⟨r, x, _, hi, rfl, ?_⟩
      rcases List.mem_cons.1 he with rfl | he
      · exact .inl rfl
      · obtain ⟨y, hy, rfl⟩ := List.mem_map.1 he
        exact .inr ⟨y, hy, rfl⟩
  · rintro ⟨r, x, f, hi, rfl, he⟩
    obtain ⟨b, hb, hab⟩ := forall₂_mem_left hl (List.mem_map.2 ⟨_, hi, rfl⟩)
    refine ⟨b, hb, ?_⟩
    simp only [rolePaths, pushAddr, Except.ok.injEq] at hab
    subst hab
    rw [List.mem_cons, List.mem_map]
    rcases he with rfl | ⟨y, hy, rfl⟩
    · exact .inl rfl
    · exact .inr ⟨y, hy, rfl⟩

/-- The role of a lexeme of a word leads to it. -/
theorem word_step {l : List (RoleEntry Lexeme)} {t : SType} {f : SFun Lexeme} {role : Addr} {w : WordUsl}
    (hf : fromList l = .ok (t, f)) (hw : mkWord f role t = .ok w) {r : Addr} {x : Lexeme} (hi : (r, some x) ∈ w.sfun.items) (b : Bool) :
    (Step.role (w.context.pre ++ r) b).reach (.expr (.word w)) = .ok (.expr (.lexeme x)) := by
  unfold mkWord at hw
  rw [bind_ok] at hw
  obtain ⟨_, _, hw⟩ := hw
  rw [bind_ok] at hw
  obtain ⟨_, _, hw⟩ := hw
  cases hw
  have := get_items (fromList_shape hf) hi
  simp only [Step.reach]
  rw [this]

/-- For words built from lists of roles, every listed path that does not end with `>flexion` reaches the listed value. -/
theorem C52_word_partial {l : List (RoleEntry Lexeme)} {t : SType} {f : SFun Lexeme} {role : Addr} {w : WordUsl}
    (hf : fromList l = .ok (t, f)) (hw : mkWord f role t = .ok w)
    (hx : ∀ e ∈ w.sfun.items, ∀ x, e.2 = some x → ∃ cs gs c, x = mkLexeme (mkPM cs gs) c)
    {L : List (Path × Node)} (hL : w.paths = .ok L) (e : Path × Node) (he : e ∈ L) (hn : e.1.getLast? ≠ some (.lexeme false)) :
    deference e.1 (.expr (.word w)) = .ok e.2 := by
  rcases (word_entry hL e).1 he with rfl | ⟨r, x, b, hi, _, h | ⟨y, hy, h⟩⟩
  · rfl
  · subst h
    rw [deference_one]
    exact word_step hf hw hi b
  · subst h
    obtain ⟨cs, gs, c, rfl⟩ := hx _ hi x rfl
    show deference (.role (w.context.pre ++ r) b :: y.1) _ = _
    rw [deference_cons (word_step hf hw hi b)]
    apply C52_lexeme_partial cs gs c y hy
    intro h1
    apply hn
    simp [h1]

/-- **C52 for words** built from lists of roles: every listed path reaches its value exactly when no flexion has a group. -/
theorem C52_word_iff {l : List (RoleEntry Lexeme)} {t : SType} {f : SFun Lexeme} {role : Addr} {w : WordUsl}
    (hf : fromList l = .ok (t, f)) (hw : mkWord f role t = .ok w)
    (hx : ∀ e ∈ w.sfun.items, ∀ x, e.2 = some x → ∃ cs gs c, x = mkLexeme (mkPM cs gs) c ∧ ∀ m ∈ cs, Orderly m)
    {L : List (Path × Node)} (hL : w.paths = .ok L) :
    (∀ e ∈ L, Reaches (.word w) e) ↔ ∀ e ∈ w.sfun.items, ∀ x, e.2 = some x → x.flexion.groups = [] := by
  have hng : ∀ cs gs, gs = [] ↔ (mkPM cs gs).groups = [] := by
    intro cs gs
    have : (mkPM cs gs).groups.length = gs.length := by simp [mkPM, (pySort_perm _ _).length_eq]
    rw [← List.length_eq_zero_iff, ← List.length_eq_zero_iff, this]
  have key : ∀ {r x}, (r, some x) ∈ w.sfun.items → ∀ b y,
      Reaches (.word w) (.role (w.context.pre ++ r) b :: y.1, y.2) ↔ Reaches (.lexeme x) y := by
    intro r x hi b y
    simp only [Reaches]
    rw [deference_cons (word_step hf hw hi b)]
  constructor
  · rintro h ⟨r, _⟩ hi x rfl
    obtain ⟨cs, gs, c, rfl, hc⟩ := hx _ hi x rfl
    show (mkPM cs gs).groups = []
    rw [← hng, ← C52_lexeme_iff hc gs c]
    intro y hy
    rw [← key hi (decide (roleText (w.context.pre ++ r) = roleText w.role)) y]
    exact h _ ((word_entry hL _).2 (.inr ⟨r, _, _, hi, rfl, .inr ⟨y, hy, rfl⟩⟩))
  · intro h e he
    rcases (word_entry hL e).1 he with rfl | ⟨r, x, b, hi, _, h' | ⟨y, hy, h'⟩⟩
    · exact ⟨_, rfl, rfl⟩
    · subst h'
      exact ⟨_, by rw [deference_one]; exact word_step hf hw hi b, rfl⟩
    · subst h'
      rw [key hi]
      have h1 := h _ hi x rfl
      obtain ⟨cs, gs, c, rfl, hc⟩ := hx _ hi x rfl
      have h1 : (mkPM cs gs).groups = [] := h1
      rw [← hng] at h1
      exact (C52_lexeme_iff hc gs c).2 h1 y hy

/-- **C52 is violated** by a lexeme whose flexion has a group: `>flexion` is also listed with the constants and with the
group. -/
theorem C52_violated : ∃ x : Lexeme, ∃ e ∈ x.paths, deference e.1 (.expr (.lexeme x)) = .ok (.expr (.pm x.flexion)) ∧
    x.flexion.text = c!"A: m1(S: B:)" ∧ e.2.text = c!"A:" ∧ ¬ Reaches (.lexeme x) e := by
  refine ⟨mkLexeme (mkPM [.prim .A] [([.prim .S, .prim .B], 1)]) (mkPM [] []),
    ([.lexeme false], .expr (.pm (mkPM [.prim .A] []))), ?_, rfl, by decide +kernel, by decide +kernel, ?_⟩
  · have : (mkPM (mkPM [.prim .A] [([.prim .S, .prim .B], 1)]).constant []) = mkPM [.prim .A] [] := rfl
    simp [Lexeme.paths, PM.paths, mkLexeme, flexionChild, this]
  · rintro ⟨v, h1, h2⟩
    cases h1
    revert h2
    decide +kernel

/-- The node of a morpheme reaches it exactly when it is empty, or it is one of the constants, or one of the morphemes of the group; every
other application to a polymorpheme is a `DeferenceError`. -/
theorem C52_morpheme_iff (p : PM) (g : GIdx) (m : Script) (k : Option Nat) :
    ((Step.pm g (some m) k).reach (.expr (.pm p)) = .ok (.expr (.script m)) ↔
      ∃ l, (g = .constant ∧ l = p.constant ∨ ∃ i grp, g.index = some i ∧ p.groups[i]? = some grp ∧ l = grp.1) ∧
        (m.empty = true ∨ ∃ x ∈ l, x.str = m.str)) ∧
    ((Step.pm g (some m) k).reach (.expr (.pm p)) ≠ .ok (.expr (.script m)) →
      (Step.pm g (some m) k).reach (.expr (.pm p)) = .error .keyError) := by
  have hin : ∀ l : List Script, (!m.empty && !inGroup m l) = false ↔ m.empty = true ∨ ∃ x ∈ l, x.str = m.str := by
    intro l
    cases hm : m.empty <;> simp [inGroup, pyEq]
  have key : ∀ l : List Script, ((if (!m.empty && !inGroup m l) = true then (.error .keyError : Except Err Node) else .ok (.expr (.script m))) = .ok (.expr (.script m)) ↔
      (m.empty = true ∨ ∃ x ∈ l, x.str = m.str)) ∧
      ((if (!m.empty && !inGroup m l) = true then (.error .keyError : Except Err Node) else .ok (.expr (.script m))) ≠ .ok (.expr (.script m)) →
       (if (!m.empty && !inGroup m l) = true then (.error .keyError : Except Err Node) else .ok (.expr (.script m))) = .error .keyError) := by
    intro l
    rw [← hin l]
    cases (!m.empty && !inGroup m l) <;> simp
  simp only [Step.reach]
  cases hg : g.index with
  | none =>
    have hc : g = .constant := by cases g <;> simp [GIdx.index] at hg ⊢
    refine ⟨(key p.constant).1.trans ⟨fun h => ⟨_, .inl ⟨hc, rfl⟩, h⟩, ?_⟩, (key p.constant).2⟩
    rintro ⟨l, ⟨_, rfl⟩ | ⟨i, grp, hi, _⟩, h⟩
    · exact h
    · cases hi
  | some i =>
    have hc : g ≠ .constant := by rintro rfl; cases hg
    dsimp only
    cases hgr : p.groups[i]? with
    | none =>
      refine ⟨⟨fun h => by simp at h, ?_⟩, fun _ => rfl⟩
      rintro ⟨l, ⟨h, _⟩ | ⟨j, grp, hj, h', _⟩, _⟩
      · exact absurd h hc
      · cases hj
        rw [hgr] at h'
        cases h'
    | some grp =>
      refine ⟨(key grp.1).1.trans ⟨fun h => ⟨_, .inr ⟨i, grp, rfl, hgr, rfl⟩, h⟩, ?_⟩, (key grp.1).2⟩
      rintro ⟨l, ⟨h, _⟩ | ⟨j, grp', hj, h', rfl⟩, h⟩
      · exact absurd h hc
      · cases hj
        rw [hgr] at h'
        cases h'
        exact h

example : (Step.pm .g1 (some (.prim .S)) none).reach (.expr (.pm (mkPM [.prim .S] [([.prim .B], 1)]))) = .error .keyError := rfl

/-! ### Examples -/

/-- The texts of the listed paths and of their values, and whether the path reaches a value of that text. -/
def pathTexts (u : Expr) : Except Err (List (Str × Str × Bool)) := do
  let L ← u.paths
  return L.map fun e => (pathText e.1, e.2.text, match deference e.1 (.expr u) with | .ok v => v.text == e.2.text | .error _ => false)

example : pathTexts (.pm (mkPM [.prim .A] [([.prim .S, .prim .B], 1), ([.prim .T], 2)])) = .ok
    [(c!">constant", c!"A:", true), (c!">constant>A:", c!"A:", true), (c!">group_0 1", c!"m1(S: B:)", true),
      (c!">group_0 1>S:", c!"S:", true), (c!">group_0 1>B:", c!"B:", true), (c!">group_1 2", c!"m2(T:)", true),
      (c!">group_1 2>T:", c!"T:", true)] := by
  decide +kernel

example : pathTexts (.lexeme (mkLexeme (mkPM [.prim .A] [([.prim .S], 1)]) (mkPM [.prim .U] []))) = .ok
    [(c!">flexion", c!"A: m1(S:)", true), (c!">flexion", c!"A:", false), (c!">flexion>A:", c!"A:", true),
      (c!">flexion", c!"m1(S:)", false), (c!">flexion>S:", c!"S:", true), (c!">content", c!"U:", true),
      (c!">content>constant", c!"U:", true), (c!">content>constant>U:", c!"U:", true)] := by
  decide +kernel

/-- The paths of the word of a list of roles. -/
def demoPaths (l : List (RoleEntry Lexeme)) (role : Addr) : Except Err (List (Str × Str × Bool)) := do
  let r ← fromList l
  let w ← mkWord r.2 role r.1
  pathTexts (.word w)

example : demoPaths [([c!"E:T:."], some (mkLexeme (mkPM [] []) (mkPM [.prim .A] []))),
    ([c!"E:.n.-"], some (mkLexeme (mkPM [.prim .U] []) (mkPM [.prim .B] [])))] [c!"E:.n.-"] = .ok
    [(c!">", c!"[E:T:. ()(A:) > ! E:.n.- (U:)(B:)]", true), (c!">role>E:T:.", c!"()(A:)", true),
      (c!">role>E:T:.>flexion", [], true), (c!">role>E:T:.>flexion", [], true), (c!">role>E:T:.>flexion>E:", c!"E:", true),
      (c!">role>E:T:.>content", c!"A:", true), (c!">role>E:T:.>content>constant", c!"A:", true),
      (c!">role>E:T:.>content>constant>A:", c!"A:", true), (c!">role>! E:.n.-", c!"(U:)(B:)", true),
      (c!">role>! E:.n.->flexion", c!"U:", true), (c!">role>! E:.n.->flexion", c!"U:", true),
      (c!">role>! E:.n.->flexion>U:", c!"U:", true), (c!">role>! E:.n.->content", c!"B:", true),
      (c!">role>! E:.n.->content>constant", c!"B:", true), (c!">role>! E:.n.->content>constant>B:", c!"B:", true)] := by
  decide +kernel

end Verif
