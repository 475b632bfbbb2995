import Verif.Lemmas.PathLex
import Verif.Props.Deference
import Verif.Props.WordParser
import Verif.Props.UslErrors

/-
C66: the texts of paths are read back.  C67: the names of roles are read as their scripts.
-/

namespace Verif
open Script

/-! ### The paths the reader knows -/

/-- The nodes `PolymorphemePath` with a text of the grammar: a group has a multiplicity of one digit. -/
inductive PMWritten : Step → Prop
  | constant {m : Option Script} {k : Option Nat} : (∀ x, m = some x → WF x) → PMWritten (.pm .constant m k)
  | group {g : GIdx} {m : Option Script} {k : Nat} : (∀ x, m = some x → WF x) → k ≤ 9 → PMWritten (.pm g m (some k))

/-- The paths that begin with a `LexemePath`. -/
inductive LexWritten : Path → Prop
  | one (c : Bool) : LexWritten [.lexeme c]
  | content {s : Step} : PMWritten s → LexWritten [.lexeme true, s]
  | flexion {m : Script} : WF m → LexWritten [.lexeme false, .flexion m]

/-- The paths of the grammar of `parser.py`. -/
inductive Written : Path → Prop
  | usl : Written [.usl]
  | role {r : Addr} (f : Bool) {q : Path} : r ≠ [] → (∀ a ∈ r, a ∈ addressScripts) → q = [] ∨ LexWritten q → Written (.role r f :: q)
  | lexeme {q : Path} : LexWritten q → Written q
  | flexion {m : Script} : WF m → Written [.flexion m]
  | pm {s : Step} : PMWritten s → Written [s]

/-- The same node, up to the multiplicity of the constants. -/
def AlikeStep : Step → Step → Prop
  | .usl, .usl => True
  | .pm g m k, .pm g' m' k' => g = g' ∧ m.map str = m'.map str ∧ (k' = k ∨ g = .constant)
  | .flexion m, .flexion m' => m.str = m'.str
  | .lexeme c, .lexeme c' => c = c'
  | .role r f, .role r' f' => r = r' ∧ f = f'
  | _, _ => False

/-- The same path, up to the multiplicities of the constants. -/
def Alike : Path → Path → Prop := List.Forall₂ AlikeStep

/-- The morpheme at the end of a node. -/
def morphText : Option Script → Str
  | some m => '>' :: m.str
  | none => []

theorem pm_text (g : GIdx) (m : Option Script) (k : Option Nat) :
    (Step.pm g m k).text = (match g.index with | none => c!"constant" | some i => groupName i k) ++ morphText m := by
  cases m <;> rfl

theorem alike_text {p q : Path} (h : Alike p q) : pathText p = pathText q := by
  induction h with
  | nil => rfl
  | @cons s t p q hs _ ih =>
    have : s.text = t.text := by
      cases s <;> cases t <;> simp only [AlikeStep] at hs
      · rfl
      · rename_i g m k g' m' k'
        obtain ⟨rfl, hm, hk⟩ := hs
        have e1 : morphText m = morphText m' := by
          cases m <;> cases m' <;> simp at hm
          · rfl
          · simp [morphText, hm]
        rw [pm_text, pm_text, e1]
        rcases hk with rfl | rfl
        · rfl
        · rfl
      · exact hs
      · rw [hs]
      · obtain ⟨rfl, rfl⟩ := hs
        rfl
    simp only [pathText, List.flatMap_cons] at ih ⊢
    rw [this, ih]

/-! ### Lexing and reading, part by part -/

theorem stop_sep (r : Str) : Stop ('>' :: r) := stop_cons (by decide) (by decide) r
theorem stop_space (r : Str) : Stop (' ' :: r) := stop_cons (by decide) (by decide) r

theorem natOf_digit {k : Nat} (h : k ≤ 9) : natOf [(decimal k).headD '0'] = k := by
  interval_cases k <;> rfl

theorem pathGroup_index {g : GIdx} {i : Nat} (h : g.index = some i) : pathGroup (some ((decimal i).headD '0')) = .ok g := by
  cases g <;> simp [GIdx.index] at h <;> subst h <;> rfl

theorem index_le {g : GIdx} {i : Nat} (h : g.index = some i) : i ≤ 9 := by
  cases g <;> simp [GIdx.index] at h <;> omega

/-- A node `PolymorphemePath` at the end of a text. -/
theorem pm_read {s : Step} (h : PMWritten s) : ∃ d ts t, pathLex s.text = .pmPos d :: ts ∧ takePMPath d ts = .ok [t] ∧ AlikeStep s t ∧ t.cls = .pm := by
  have morph : ∀ {x : Script}, WF x → ∃ y, parseScript x.str = .ok y ∧ y.str = x.str := fun hx =>
    let ⟨y, h1, _, h2⟩ := parse_str hx
    ⟨y, h1, h2⟩
  have constant : ∀ (m : Option Script) (k : Option Nat), (∀ x, m = some x → WF x) → ∃ d ts t, pathLex (Step.pm .constant m k).text = .pmPos d :: ts ∧
      takePMPath d ts = .ok [t] ∧ AlikeStep (.pm .constant m k) t ∧ t.cls = .pm := by
    intro m k hm
    cases m with
    | none =>
      refine ⟨none, [], .pm .constant none (some 1), ?_, rfl, ⟨rfl, rfl, .inr rfl⟩, rfl⟩
      show pathLex (c!"constant" ++ []) = _
      rw [pathLex_constant]
      rfl
    | some x =>
      obtain ⟨y, hy, hs⟩ := morph (hm x rfl)
      refine ⟨none, [.sep, .morpheme x.str], .pm .constant (some y) (some 1), ?_, ?_, ⟨rfl, by simp [hs], .inr rfl⟩, rfl⟩
      · show pathLex (c!"constant" ++ '>' :: x.str) = _
        rw [pathLex_constant, pathLex_sep]
        have := pathLex_script (hm x rfl) stop_nil
        rw [List.append_nil] at this
        rw [this]
        rfl
      · simp [takePMPath, pathGroup, hy]
        rfl
  cases h with
  | constant hm => exact constant _ _ hm
  | @group g m k hm hk =>
    cases hg : g.index with
    | none =>
      have : g = .constant := by cases g <;> simp [GIdx.index] at hg ⊢
      subst this
      exact constant _ _ hm
    | some i =>
      have ht : ∀ w, (Step.pm g m (some k)).text ++ w = c!"group_" ++ decimal i ++ (' ' :: (decimal k ++
          (morphText m ++ w))) := by
        intro w
        rw [pm_text]
        simp [hg, groupName]
      have ht := ht []
      rw [List.append_nil] at ht
      cases m with
      | none =>
        refine ⟨some ((decimal i).headD '0'), [.mult ((decimal k).headD '0')], .pm g none (some k), ?_, ?_, ⟨rfl, rfl, .inl rfl⟩, rfl⟩
        · rw [ht, pathLex_group (index_le hg), pathLex_space, pathLex_digit hk]
          rfl
        · simp only [takePMPath, pathGroup_index hg, natOf_digit hk]
          rfl
      | some x =>
        obtain ⟨y, hy, hs⟩ := morph (hm x rfl)
        refine ⟨some ((decimal i).headD '0'), [.mult ((decimal k).headD '0'), .sep, .morpheme x.str], .pm g (some y) (some k), ?_, ?_, ⟨rfl, by simp [hs], .inl rfl⟩, rfl⟩
        · rw [ht, pathLex_group (index_le hg), pathLex_space, pathLex_digit hk]
          show _ :: _ :: pathLex ('>' :: (x.str ++ [])) = _
          rw [pathLex_sep, pathLex_script (hm x rfl) stop_nil]
          rfl
        · simp only [takePMPath, pathGroup_index hg, natOf_digit hk, hy]
          rfl

theorem flexion_read {m : Script} (h : WF m) : ∃ y, pathLex m.str = [.morpheme m.str] ∧ takeFlexion m.str [] = .ok [.flexion y] ∧ m.str = y.str := by
  obtain ⟨y, h1, _, h2⟩ := parse_str h
  have := pathLex_script h stop_nil
  rw [List.append_nil] at this
  refine ⟨y, this, ?_, h2.symm⟩
  simp only [takeFlexion, h1]
  rfl

theorem lex_read {p : Path} (h : LexWritten p) : ∃ c ts q, pathLex (pathText p) = .sep :: .lexPos c :: ts ∧ takeLexPath c ts = .ok q ∧ Alike p q ∧
    headCls q = some .lexeme := by
  cases h with
  | one c =>
    refine ⟨c, [], [.lexeme c], ?_, rfl, List.Forall₂.cons rfl .nil, rfl⟩
    cases c
    · show pathLex ('>' :: (c!"flexion" ++ [])) = _
      rw [pathLex_sep, pathLex_flexion]
      rfl
    · show pathLex ('>' :: (c!"content" ++ [])) = _
      rw [pathLex_sep, pathLex_content]
      rfl
  | @content s hs =>
    obtain ⟨d, ts, t, h1, h2, h3, h4⟩ := pm_read hs
    refine ⟨true, .sep :: .pmPos d :: ts, [.lexeme true, t], ?_, ?_, .cons rfl (.cons h3 .nil), rfl⟩
    · have : pathText [.lexeme true, s] = '>' :: (c!"content" ++ '>' :: s.text) := by
        simp [pathText, Step.text]
      rw [this, pathLex_sep, pathLex_content, pathLex_sep, h1]
    · simp only [takeLexPath, h2]
      show construct (.lexeme true) [t] = _
      cases t <;> simp [Step.cls] at h4
      rfl
  | @flexion m hm =>
    obtain ⟨y, h1, h2, h3⟩ := flexion_read hm
    refine ⟨false, .sep :: .morpheme m.str :: [], [.lexeme false, .flexion y], ?_, ?_, .cons rfl (.cons h3 .nil), rfl⟩
    · have : pathText [.lexeme false, .flexion m] = '>' :: (c!"flexion" ++ '>' :: m.str) := by
        simp [pathText, Step.text]
      rw [this, pathLex_sep, pathLex_flexion, pathLex_sep, h1]
    · simp only [takeLexPath, h2]
      rfl

/-- The scripts of a role, one after another. -/
theorem pathLex_address {r : Addr} (h : ∀ a ∈ r, a ∈ addressScripts) {w : Str} (hw : Stop w) :
    pathLex (roleText r ++ w) = r.map PTok.morpheme ++ pathLex w := by
  unfold roleText
  induction r with
  | nil => rfl
  | cons a r ih =>
    obtain ⟨s, hs, _, rfl⟩ := address_script (h a (by simp))
    cases r with
    | nil => exact pathLex_script hs hw
    | cons b r =>
      have := ih fun x hx => h x (List.mem_cons_of_mem _ hx)
      simp only [joinSpace] at this ⊢
      rw [List.append_assoc, List.cons_append, pathLex_script hs (stop_space _), pathLex_space, this]
      rfl

/-- What cannot continue a role. -/
def NoRole (ts : List PTok) : Prop := takeRoles ts = .ok ([], ts)

theorem takeRoles_address {r : Addr} (h : ∀ a ∈ r, a ∈ addressScripts) {ts : List PTok} (hts : NoRole ts) :
    takeRoles (r.map PTok.morpheme ++ ts) = .ok (r, ts) := by
  induction r with
  | nil => exact hts
  | cons a r ih =>
    have hp := C49_addresses.2 a (h a (by simp))
    cases hq : parseScript a with
    | error e => rw [hq] at hp; cases hp
    | ok s =>
      rw [hq] at hp
      have hs : s.str = a := Except.ok.inj hp
      show takeRoles (.morpheme a :: (r.map PTok.morpheme ++ ts)) = _
      simp only [takeRoles, hq, ih fun x hx => h x (List.mem_cons_of_mem _ hx)]
      show Except.ok (s.str :: r, ts) = _
      rw [hs]

theorem roleText_cons {r : Addr} (h : ∀ a ∈ r, a ∈ addressScripts) (hr : r ≠ []) : ∃ t ts, r.map PTok.morpheme = t :: ts ∧ t ≠ .excl := by
  cases r with
  | nil => exact absurd rfl hr
  | cons a r => exact ⟨_, _, rfl, by simp⟩

theorem takeRolePath_eq (f : Bool) {r : Addr} (h : ∀ a ∈ r, a ∈ addressScripts) (hr : r ≠ []) {ts : List PTok} (hts : NoRole ts) :
    takeRolePath ((if f then [.excl] else []) ++ r.map PTok.morpheme ++ ts) = (do
      let q ← match ts with
        | [] => pure []
        | .sep :: .lexPos c :: ts => takeLexPath c ts
        | _ => throw .cannotParse
      construct (.role r f) q) := by
  have hany : (r.any fun a => decide (a ∉ addressScripts)) = false := by
    rw [List.any_eq_false]
    intro a ha
    simp [h a ha]
  have hempty : r.isEmpty = false := by cases r <;> simp_all
  cases f with
  | true =>
    simp only [takeRolePath, if_true, List.cons_append, List.nil_append, takeRoles_address h hts]
    simp only [bind, Except.bind, hempty, hany]
    rfl
  | false =>
    obtain ⟨a, r', rfl⟩ := List.exists_cons_of_ne_nil hr
    have := takeRoles_address h hts
    simp only [List.map_cons, List.cons_append] at this
    simp only [Bool.false_eq_true, if_false, List.nil_append, takeRolePath, List.map_cons, List.cons_append, this]
    simp only [bind, Except.bind, hempty, hany]
    rfl

/-! ### C66 -/

/-- **C66 for the paths of the grammar**: the text of such a path is read as the same path, up to the multiplicity of the constants, and
with the same text (the only thing compared by `==`). -/
theorem C66_read {p : Path} (h : Written p) : ∃ q, pathRead (pathText p) = .ok q ∧ Alike p q ∧ pathText q = pathText p := by
  suffices h : ∃ q, takePath (pathLex (pathText p)) = .ok q ∧ Alike p q by
    obtain ⟨q, h1, h2⟩ := h
    exact ⟨q, by rw [pathRead, h1], h2, (alike_text h2).symm⟩
  cases h with
  | usl => exact ⟨[.usl], rfl, .cons trivial .nil⟩
  | @role r f q hr ha hq =>
    have ht : pathText (.role r f :: q) = '>' :: (c!"role" ++ '>' :: ((if f then c!"! " else []) ++ (roleText r ++ pathText q))) := by
      simp [pathText, Step.text]
    have hx : ∀ w, pathLex ((if f then c!"! " else []) ++ w) = (if f then [.excl] else []) ++ pathLex w := by
      intro w
      cases f
      · rfl
      · show pathLex ('!' :: ' ' :: w) = _
        rw [pathLex_excl, pathLex_space]
        rfl
    rw [ht, pathLex_sep, pathLex_role, pathLex_sep, hx]
    rcases hq with rfl | hq
    · refine ⟨[.role r f], ?_, .cons ⟨rfl, rfl⟩ .nil⟩
      rw [show pathText [] = [] from rfl, pathLex_address ha stop_nil, ← List.append_assoc]
      show takeRolePath _ = _
      rw [show pathLex [] = [] from rfl, takeRolePath_eq f ha hr (ts := []) rfl]
      rfl
    · obtain ⟨c, ts, q', h1, h2, h3, h4⟩ := lex_read hq
      refine ⟨.role r f :: q', ?_, .cons ⟨rfl, rfl⟩ h3⟩
      have hstop : Stop (pathText q) := by
        cases hq <;> exact stop_sep _
      rw [pathLex_address ha hstop, h1, ← List.append_assoc]
      show takeRolePath _ = _
      rw [takeRolePath_eq f ha hr (ts := .sep :: .lexPos c :: ts) rfl]
      simp only [h2]
      show construct (.role r f) q' = _
      simp only [construct, h4]
  | lexeme hq =>
    obtain ⟨c, ts, q', h1, h2, h3, h4⟩ := lex_read hq
    rw [h1]
    exact ⟨q', h2, h3⟩
  | @flexion m hm =>
    obtain ⟨y, h1, h2, h3⟩ := flexion_read hm
    refine ⟨[.flexion y], ?_, .cons h3 .nil⟩
    have : pathText [.flexion m] = '>' :: m.str := by simp [pathText, Step.text]
    rw [this, pathLex_sep, h1]
    exact h2
  | @pm s hs =>
    obtain ⟨d, ts, t, h1, h2, h3, h4⟩ := pm_read hs
    refine ⟨[t], ?_, .cons h3 .nil⟩
    have : pathText [s] = '>' :: s.text := by simp [pathText]
    rw [this, pathLex_sep, h1]
    exact h2

/-- Nodes that are alike reach the same thing, up to the attributes of scripts that are not in their texts. -/
def SameReach : Except Err Node → Except Err Node → Prop
  | .ok x, .ok y => x = y ∨ ∃ m m' : Script, x = .expr (.script m) ∧ y = .expr (.script m') ∧ m.str = m'.str
  | .error e, .error e' => e = e'
  | _, _ => False

theorem sameReach_refl (x : Except Err Node) : SameReach x x := by
  cases x
  · rfl
  · exact .inl rfl

theorem reach_alike {s t : Step} (h : AlikeStep s t) (hs : ∀ g m k, s = .pm g (some m) k → WF m) (ht : ∀ g m k, t = .pm g (some m) k → WF m) (x : Node) :
    SameReach (s.reach x) (t.reach x) := by
  have pyEq_str : ∀ {m m' : Script} (g : List Script), m.str = m'.str → inGroup m g = inGroup m' g := by
    intro m m' g h
    simp only [inGroup, pyEq]
    congr 1
    funext y
    rw [h]
  cases s <;> cases t <;> simp only [AlikeStep] at h
  · exact sameReach_refl _
  · rename_i g m k g' m' k'
    obtain ⟨rfl, hm, _⟩ := h
    cases m with
    | none =>
      cases m' with
      | some m' => simp at hm
      | none =>
        have : (Step.pm g none k).reach x = (Step.pm g none k').reach x := by
          cases x with
          | none => rfl
          | expr e => cases e <;> rfl
        rw [this]
        exact sameReach_refl _
    | some m =>
      cases m' with
      | none => simp at hm
      | some m' =>
        have hm : m.str = m'.str := by simpa using hm
        have he : m.empty = m'.empty := by
          have h1 := hs g m k rfl
          have h2 := ht g m' k' rfl
          rw [← empty_norm h1, ← empty_norm h2, (norm_eq_iff h1 h2).2 hm]
        cases x with
        | none => exact rfl
        | expr e =>
          cases e with
          | script _ => exact rfl
          | lexeme _ => exact rfl
          | word _ => exact rfl
          | pm p =>
            simp only [Step.reach]
            cases g.index with
            | none =>
              simp only [he, pyEq_str p.constant hm]
              split
              · rfl
              · exact .inr ⟨m, m', rfl, rfl, hm⟩
            | some i =>
              simp only
              cases p.groups[i]? with
              | none => rfl
              | some grp =>
                simp only [he, pyEq_str grp.1 hm]
                split
                · rfl
                · exact .inr ⟨m, m', rfl, rfl, hm⟩
  · rename_i m m'
    cases x with
    | none => exact rfl
    | expr e =>
      cases e with
      | script _ => exact rfl
      | lexeme _ => exact rfl
      | word _ => exact rfl
      | pm p =>
        simp only [Step.reach, pyEq_str _ h]
        split
        · exact .inr ⟨m, m', rfl, rfl, h⟩
        · rfl
  · rw [h]
    exact sameReach_refl _
  · obtain ⟨rfl, rfl⟩ := h
    exact sameReach_refl _

/-- Paths that are alike reach the same thing. -/
theorem deference_alike {p q : Path} (h : Alike p q) (hp : ∀ g m k, .pm g (some m) k ∈ p → WF m) (hq : ∀ g m k, .pm g (some m) k ∈ q → WF m) (x : Node) :
    SameReach (deference p x) (deference q x) := by
  induction h generalizing x with
  | nil => exact .inl rfl
  | @cons s t p q hst hpq ih =>
    have h1 := reach_alike hst (fun g m k e => hp g m k (by simp [e])) (fun g m k e => hq g m k (by simp [e])) x
    have ih := ih (fun g m k h => hp g m k (List.mem_cons_of_mem _ h)) (fun g m k h => hq g m k (List.mem_cons_of_mem _ h))
    simp only [deference]
    cases hs : s.reach x with
    | error e =>
      rw [hs] at h1
      cases ht : t.reach x with
      | ok _ => rw [ht] at h1; cases h1
      | error e' =>
        rw [ht] at h1
        exact h1
    | ok y =>
      rw [hs] at h1
      cases ht : t.reach x with
      | error _ => rw [ht] at h1; cases h1
      | ok z =>
        rw [ht] at h1
        rcases h1 with rfl | ⟨m, m', rfl, rfl, hm⟩
        · exact ih y
        · cases hpq with
          | nil => exact .inr ⟨m, m', rfl, rfl, hm⟩
          | @cons a b p q hab _ =>
            cases a <;> cases b <;> simp only [AlikeStep] at hab <;> exact rfl

/-! ### What the reader gives -/

theorem pTokenAt_mult {s : Str} {c : Char} {n : Nat} (h : pTokenAt s = some (.mult c, n)) : isDigit c = true := by
  unfold pTokenAt at h
  simp only at h
  repeat' split at h
  all_goals first | (simp at h; done) | skip
  simp only [Option.some.injEq, Prod.mk.injEq, PTok.mult.injEq] at h
  obtain ⟨rfl, _⟩ := h
  assumption

theorem pathLex_mult {c : Char} : ∀ {s : Str} {n : Nat}, .mult c ∈ pathLexFrom n s → isDigit c = true
  | [], n, h => by cases n <;> simp [pathLexFrom] at h
  | _ :: cs, n + 1, h => pathLex_mult (s := cs) (n := n) h
  | a :: cs, 0, h => by
    rw [pathLexFrom] at h
    split at h
    · exact pathLex_mult h
    · split at h
      · rename_i t n ht
        rcases List.mem_cons.1 h with h | h
        · rw [← h] at ht
          exact pTokenAt_mult ht
        · exact pathLex_mult h
      · exact pathLex_mult h

theorem natOf_isDigit {c : Char} (h : isDigit c = true) : natOf [c] ≤ 9 := by
  have : c ∈ c!"0123456789" := by simpa [isDigit] using h
  simp only [List.mem_cons, List.not_mem_nil, or_false] at this
  rcases this with rfl | rfl | rfl | rfl | rfl | rfl | rfl | rfl | rfl | rfl <;> decide

theorem takePMPath_written {d : Option Char} {ts : List PTok} (hd : ∀ c, .mult c ∈ ts → isDigit c = true) {q : Path} (h : takePMPath d ts = .ok q) :
    ∃ g m k, q = [.pm g m k] ∧ PMWritten (.pm g m k) := by
  unfold takePMPath at h
  split at h
  · rw [bind_ok] at h
    obtain ⟨g, _, h⟩ := h
    cases h
    exact ⟨_, _, _, rfl, .group (by simp) (by omega)⟩
  · rename_i k
    rw [bind_ok] at h
    obtain ⟨g, _, h⟩ := h
    cases h
    exact ⟨_, _, _, rfl, .group (by simp) (natOf_isDigit (hd k (by simp)))⟩
  · rw [bind_ok] at h
    obtain ⟨g, _, h⟩ := h
    rw [bind_ok] at h
    obtain ⟨m, hm, h⟩ := h
    split at h
    · cases h
      refine ⟨_, _, _, rfl, .group ?_ (by omega)⟩
      rintro x ⟨⟩
      exact parse_wf hm
    · cases h
  · rename_i k _ _
    rw [bind_ok] at h
    obtain ⟨g, _, h⟩ := h
    rw [bind_ok] at h
    obtain ⟨m, hm, h⟩ := h
    split at h
    · cases h
      refine ⟨_, _, _, rfl, .group ?_ (natOf_isDigit (hd k (by simp)))⟩
      rintro x ⟨⟩
      exact parse_wf hm
    · cases h
  · cases h

theorem takeFlexion_written {s : Str} {ts : List PTok} {q : Path} (h : takeFlexion s ts = .ok q) : ∃ m, q = [.flexion m] ∧ WF m := by
  unfold takeFlexion at h
  rw [bind_ok] at h
  obtain ⟨m, hm, h⟩ := h
  split at h
  · cases h
    exact ⟨m, rfl, parse_wf hm⟩
  · cases h

theorem takeLexPath_written {c : Bool} {ts : List PTok} (hd : ∀ c, .mult c ∈ ts → isDigit c = true) {q : Path} (h : takeLexPath c ts = .ok q) : LexWritten q := by
  unfold takeLexPath at h
  split at h
  · cases h
    exact .one c
  · rw [bind_ok] at h
    obtain ⟨p, hp, h⟩ := h
    obtain ⟨g, m, k, rfl, hs⟩ := takePMPath_written (fun c hc => hd c (by simp [hc])) hp
    split at h
    · rename_i hc
      subst hc
      cases h
      exact .content hs
    · cases h
  · rw [bind_ok] at h
    obtain ⟨p, hp, h⟩ := h
    obtain ⟨m, rfl, hm⟩ := takeFlexion_written hp
    split at h
    · cases h
    · rename_i hc
      have hc : c = false := by simpa using hc
      subst hc
      cases h
      exact .flexion hm
  · cases h

theorem takeRoles_rest : ∀ {ts : List PTok} {r : Addr × List PTok}, takeRoles ts = .ok r → ∀ t ∈ r.2, t ∈ ts
  | [], r, h => by cases h; simp
  | t :: ts, r, h => by
    cases t with
    | morpheme s =>
      rw [takeRoles, bind_ok] at h
      obtain ⟨m, _, h⟩ := h
      rw [bind_ok] at h
      obtain ⟨r', hr, h⟩ := h
      cases h
      intro t ht
      exact List.mem_cons_of_mem _ (takeRoles_rest hr t ht)
    | roleName s =>
      simp only [takeRoles] at h
      rw [bind_ok] at h
      obtain ⟨r', hr, h⟩ := h
      cases h
      intro t ht
      exact List.mem_cons_of_mem _ (takeRoles_rest hr t ht)
    | _ => cases h; intro t ht; exact ht

theorem takeRolePath_written {ts : List PTok} (hd : ∀ c, .mult c ∈ ts → isDigit c = true) {q : Path} (h : takeRolePath ts = .ok q) : Written q := by
  have key : ∀ (f : Bool) (ts' : List PTok), (∀ t ∈ ts', t ∈ ts) → (do
      let r ← takeRoles ts'
      if r.1.isEmpty then throw .cannotParse
      let q ← match r.2 with
        | [] => pure []
        | .sep :: .lexPos c :: ts => takeLexPath c ts
        | _ => throw .cannotParse
      if r.1.any fun a => decide (a ∉ addressScripts) then throw .valueError
      construct (.role r.1 f) q : Except Err Path) = .ok q → Written q := by
    intro f ts' hs h
    rw [bind_ok] at h
    obtain ⟨r, hr, h⟩ := h
    have hrest := takeRoles_rest hr
    dsimp only at h
    split at h
    · cases h
    · rename_i hne
      have fin : ∀ c, c = [] ∨ LexWritten c → (if (r.1.any fun a => decide (a ∉ addressScripts)) = true then do
          throw Err.valueError
          construct (Step.role r.1 f) c
        else construct (Step.role r.1 f) c) = .ok q → Written q := by
        intro c hc h
        split at h
        · cases h
        · rename_i hany
          have := construct_ok h
          subst this
          refine .role f ?_ ?_ hc
          · intro e
            exact hne (by rw [e]; rfl)
          · intro a ha
            by_contra hn
            exact hany (List.any_eq_true.2 ⟨a, ha, by simpa using hn⟩)
      split at h
      · exact fin [] (.inl rfl) h
      · rename_i c' ts'' e
        rw [bind_ok] at h
        obtain ⟨c, hc, h⟩ := h
        refine fin c (.inr (takeLexPath_written (fun d hd' => hd d (hs _ (hrest _ ?_))) hc)) h
        rw [e]
        simp [hd']
      · cases h
  unfold takeRolePath at h
  split at h
  rename_i f ts' hts
  split at hts
  · cases hts
    exact key _ _ (fun t ht => List.mem_cons_of_mem _ ht) h
  · cases hts
    exact key _ _ (fun t ht => ht) h

/-- Whatever is read is a path of the grammar. -/
theorem C66_written {s : Str} {q : Path} (h : pathRead s = .ok q) : Written q := by
  have hd : ∀ c, .mult c ∈ pathLex s → isDigit c = true := fun c hc => pathLex_mult hc
  have h : takePath (pathLex s) = .ok q := by
    unfold pathRead at h
    split at h
    · rename_i e
      rw [e]
      exact h
    · split at h <;> cases h
  generalize pathLex s = ts at h hd
  unfold takePath at h
  split at h
  · cases h
    exact .usl
  · exact takeRolePath_written (fun c hc => hd c (by simp [hc])) h
  · exact .lexeme (takeLexPath_written (fun c hc => hd c (by simp [hc])) h)
  · obtain ⟨m, rfl, hm⟩ := takeFlexion_written h
    exact .flexion hm
  · obtain ⟨g, m, k, rfl, hs⟩ := takePMPath_written (fun c hc => hd c (by simp [hc])) h
    exact .pm hs
  · cases h

theorem pmWritten_morpheme {s : Step} (h : PMWritten s) {g : GIdx} {m : Script} {k : Option Nat} (e : .pm g (some m) k = s) : WF m := by
  cases h with
  | constant hm => cases e; exact hm _ rfl
  | group hm _ => cases e; exact hm _ rfl

theorem lexWritten_morpheme {p : Path} (h : LexWritten p) {g : GIdx} {m : Script} {k : Option Nat} (hm : .pm g (some m) k ∈ p) : WF m := by
  cases h with
  | one c => simp at hm
  | content hs => exact pmWritten_morpheme hs (by simpa using hm)
  | flexion => simp at hm

theorem written_morpheme {p : Path} (h : Written p) {g : GIdx} {m : Script} {k : Option Nat} (hm : .pm g (some m) k ∈ p) : WF m := by
  cases h with
  | usl => simp at hm
  | role f _ _ hq =>
    rcases List.mem_cons.1 hm with hm | hm
    · cases hm
    · rcases hq with rfl | hq
      · cases hm
      · exact lexWritten_morpheme hq hm
  | lexeme hq => exact lexWritten_morpheme hq hm
  | flexion => simp at hm
  | pm hs => exact pmWritten_morpheme hs (by simpa using hm)

/-- The path that is read reaches what the path that was written reaches. -/
theorem C66_reaches {p q : Path} (h : Written p) (hq : pathRead (pathText p) = .ok q) (x : Node) :
    SameReach (deference p x) (deference q x) := by
  obtain ⟨q', h1, h2, _⟩ := C66_read h
  rw [h1] at hq
  cases hq
  exact deference_alike h2 (fun g m k hm => written_morpheme h hm) (fun g m k hm => written_morpheme (C66_written h1) hm) x

/-! ### The listed paths -/

/-- A polymorpheme of built scripts whose multiplicities have one digit. -/
def OneDigit (p : PM) : Prop := (∀ m ∈ p.constant, Built m) ∧ ∀ g ∈ p.groups, g.2 ≤ 9 ∧ ∀ m ∈ g.1, Built m

/-- The same for the parts of a USL. -/
def OneDigitUsl : Expr → Prop
  | .script _ => True
  | .pm p => OneDigit p
  | .lexeme x => OneDigit x.flexion ∧ OneDigit x.content
  | .word w => ∀ e ∈ w.sfun.items, ∀ x, e.2 = some x → OneDigit x.flexion ∧ OneDigit x.content

theorem pm_listed {p : PM} (h : OneDigit p) {e : Path × Node} (he : e ∈ p.paths) : ∃ s, e.1 = [s] ∧ PMWritten s := by
  have hgr : ∀ {i : GIdx} {g : Group}, g ∈ p.groups → e ∈ groupPaths i g → ∃ s, e.1 = [s] ∧ PMWritten s := by
    intro i g hg he
    have hk := h.2 g hg
    unfold groupPaths at he
    rcases List.mem_cons.1 he with rfl | he
    · exact ⟨_, rfl, .group (by simp) hk.1⟩
    · obtain ⟨m, hm, rfl⟩ := List.mem_map.1 he
      refine ⟨_, rfl, .group ?_ hk.1⟩
      rintro x ⟨⟩
      exact built_wf (hk.2 m hm)
  unfold PM.paths at he
  rw [List.mem_append, List.mem_cons] at he
  rcases he with (rfl | he) | he
  · exact ⟨_, rfl, .constant (by simp)⟩
  · obtain ⟨m, hm, rfl⟩ := List.mem_map.1 he
    refine ⟨_, rfl, .constant ?_⟩
    rintro x ⟨⟩
    exact built_wf (h.1 m hm)
  · split at he
    · cases he
    · next h => exact hgr (by rw [h]; simp) he
    · next h =>
      rcases List.mem_append.1 he with he | he
      · exact hgr (by rw [h]; simp) he
      · exact hgr (by rw [h]; simp) he
    · next h =>
      rcases List.mem_append.1 he with he | he
      · rcases List.mem_append.1 he with he | he
        · exact hgr (by rw [h]; simp) he
        · exact hgr (by rw [h]; simp) he
      · exact hgr (by rw [h]; simp) he

theorem lexeme_listed {x : Lexeme} (h : OneDigit x.flexion ∧ OneDigit x.content) {e : Path × Node} (he : e ∈ x.paths) : LexWritten e.1 := by
  unfold Lexeme.paths at he
  rw [List.mem_append, List.mem_cons, List.mem_cons] at he
  rcases he with (rfl | he) | rfl | he
  · exact .one false
  · obtain ⟨y, hy, rfl⟩ := List.mem_map.1 he
    rcases pm_entry hy with ⟨g, k, e⟩ | ⟨g, m, k, e, hm⟩
    · show LexWritten (.lexeme false :: flexionChild y.1)
      rw [e]
      exact .one false
    · rw [e]
      refine .flexion (built_wf ?_)
      rcases hm with hm | ⟨gr, hg, hm⟩
      · exact h.1.1 m hm
      · exact (h.1.2 gr hg).2 m hm
  · exact .one true
  · obtain ⟨y, hy, rfl⟩ := List.mem_map.1 he
    obtain ⟨s, hs, hw⟩ := pm_listed h.2 hy
    show LexWritten (.lexeme true :: y.1)
    rw [hs]
    exact .content hw

/-- The words that come from lists of roles. -/
def FromRoles : Expr → Prop
  | .word w => ∃ l t f, fromList l = .ok (t, f) ∧ mkWord f w.role t = .ok w
  | _ => True

/-- The listed paths of a USL whose multiplicities have one digit are in the grammar. -/
theorem listed_written {u : Expr} (h : OneDigitUsl u) (hr : FromRoles u) {L : List (Path × Node)} (hL : u.paths = .ok L) {e : Path × Node} (he : e ∈ L) :
    Written e.1 := by
  cases u with
  | script _ => cases hL
  | pm p =>
    cases hL
    obtain ⟨s, hs, hw⟩ := pm_listed h he
    rw [hs]
    exact .pm hw
  | lexeme x =>
    cases hL
    exact .lexeme (lexeme_listed h he)
  | word w =>
    obtain ⟨l, t, f, hf, hw⟩ := hr
    have hok := fromList_shape hf
    have hwf : w.sfun = f ∧ w.context = t := by
      unfold mkWord at hw
      rw [bind_ok] at hw
      obtain ⟨_, _, hw⟩ := hw
      rw [bind_ok] at hw
      obtain ⟨_, _, hw⟩ := hw
      have hw := Except.ok.inj hw
      exact ⟨(congrArg WordUsl.sfun hw).symm, (congrArg WordUsl.context hw).symm⟩
    rw [← hwf.1, ← hwf.2] at hok
    have addr : ∀ {r : Addr} {x : Option Lexeme}, (r, x) ∈ w.sfun.items → w.context.pre ++ r ≠ [] ∧ ∀ a ∈ w.context.pre ++ r, a ∈ addressScripts := by
      intro r x hi
      refine ⟨full_address hok _ hi, ?_⟩
      intro a ha
      rcases List.mem_append.1 ha with ha | ha
      · exact pre_address _ a ha
      · exact items_address hok _ hi a ha
    rcases (word_entry hL e).1 he with rfl | ⟨r, x, b, hi, _, e | ⟨y, hy, e⟩⟩
    · exact .usl
    · rw [e]
      exact .role b (addr hi).1 (addr hi).2 (.inl rfl)
    · rw [e]
      exact .role b (addr hi).1 (addr hi).2 (.inr (lexeme_listed (h _ hi x rfl) hy))

/-- **C66 for the listed paths**, where all the multiplicities have one digit: every path listed by `iter_structure_path` is read
back from its text, and what is read reaches the same thing. -/
theorem C66_listed_partial {u : Expr} (h : OneDigitUsl u) (hr : FromRoles u) {L : List (Path × Node)} (hL : u.paths = .ok L)
    {e : Path × Node} (he : e ∈ L) : ∃ q, pathRead (pathText e.1) = .ok q ∧ pathText q = pathText e.1 ∧ Alike e.1 q ∧
      ∀ x, SameReach (deference e.1 x) (deference q x) := by
  have hw := listed_written h hr hL he
  obtain ⟨q, h1, h2, h3⟩ := C66_read hw
  exact ⟨q, h1, h3, h2, C66_reaches hw h1⟩

/-- Reading, writing and reading again gives the same text. -/
theorem C66_stable {s : Str} {q : Path} (h : pathRead s = .ok q) : ∃ q', pathRead (pathText q) = .ok q' ∧ pathText q' = pathText q := by
  obtain ⟨q', h1, _, h3⟩ := C66_read (C66_written h)
  exact ⟨q', h1, h3⟩

example : OneDigit (mkPM [.prim .A] [([.prim .S, .prim .B], 2)]) := by
  have h1 : (mkPM [.prim .A] [([.prim .S, .prim .B], 2)]).constant = [.prim .A] := rfl
  have h2 : (mkPM [.prim .A] [([.prim .S, .prim .B], 2)]).groups = [([.prim .S, .prim .B], 2)] := rfl
  have hb : ∀ p, Built (.prim p) := fun p => wf_built .prim
  constructor
  · rw [h1]
    intro m hm
    simp only [List.mem_cons, List.not_mem_nil, or_false] at hm
    rw [hm]
    exact hb _
  · rw [h2]
    intro g hg
    simp only [List.mem_cons, List.not_mem_nil, or_false] at hg
    subst hg
    refine ⟨by decide, ?_⟩
    intro m hm
    simp only [List.mem_cons, List.not_mem_nil, or_false] at hm
    rcases hm with rfl | rfl <;> exact hb _

/-- The text of what is read, or the exception. -/
def rereads (s : Str) : Except Err Str := (pathRead s).map pathText

example : rereads (c!">role>! E:A:. E:A:.>content>group_1 2>wo.U:.-t.o.-'") = .ok (c!">role>! E:A:. E:A:.>content>group_1 2>wo.U:.-t.o.-'") := by
  decide +kernel

/-- **C66 is violated** by the group of multiplicity 10 of a polymorpheme: the text of its path is refused. -/
theorem C66_violated_multiplicity : ∃ p : PM, ∃ e ∈ p.paths, pathText e.1 = c!">group_0 10" ∧ rereads (pathText e.1) = .error .cannotParse := by
  refine ⟨mkPM [] [([.prim .S, .prim .B], 10)], ([.pm .g0 none (some 10)], .expr (.pm (mkPM [] [([.prim .S, .prim .B], 10)]))), ?_, by decide +kernel, by decide +kernel⟩
  have : (mkPM [] [([.prim .S, .prim .B], 10)]).groups = [([.prim .S, .prim .B], 10)] := rfl
  simp [PM.paths, this, groupPaths]

/-- A group without multiplicity is read with the multiplicity 1: its text changes. -/
theorem C66_violated_group : ∃ p : Path, validPath p ∧ rereads (pathText p) = .ok (c!">group_0 1") ∧ pathText p = c!">group_0" :=
  ⟨[.pm .g0 none none], ⟨rfl, trivial⟩, by decide +kernel, by decide +kernel⟩

/-- The path of the constants, listed without multiplicity, is read with the multiplicity 1: it has the same text, so that both are equal
for `==`, but it is not a prefix of itself read again, nor the converse. -/
theorem C66_violated_prefix : ∃ p q : Path, Written p ∧ pathRead (pathText p) = .ok q ∧ pathText p = pathText q ∧
    hasPrefix q p = .ok false ∧ hasPrefix p q = .ok false :=
  ⟨[.pm .constant none none], [.pm .constant none (some 1)], .pm (.constant (by simp)), rfl, rfl, rfl, rfl⟩

/-! ### C67: the names of roles -/

/-- An item of the text of a role: a name or a script, and its script. -/
def RoleItem (w a : Str) : Prop := (w, a) ∈ roleNames ∨ w = a ∧ a ∈ addressScripts

/-- **C67**, the claim: a role written with names and scripts is read as the role of the corresponding scripts. -/
def C67_claim : Prop := ∀ (f : Bool) (l : List (Str × Str)), l ≠ [] → (∀ e ∈ l, RoleItem e.1 e.2) →
  pathRead (c!">role>" ++ (if f then c!"! " else []) ++ joinSpace (l.map (·.1))) = .ok [.role (l.map (·.2)) f]

/-- The names that are read. -/
def goodNames : List (Str × Str) := roleNames.filter fun e => !(e.1 ∈ [c!"*10", c!"*11", c!"*12"])

theorem good_script : ∀ e ∈ goodNames, e.2 ∈ addressScripts ∧ roleNames.find? (fun x => x.1 = e.1) = some e ∧ wordy e.1 = true ∧ e ∈ roleNames ∧
    roleNames.find? (fun x => x.1.isPrefixOf e.1) = some e := by
  decide +kernel

/-- No name goes on with a space or a separator after a name that is read. -/
theorem good_longer : ∀ e ∈ goodNames, ∀ x ∈ roleNames, (e.1 ++ [' ']).isPrefixOf x.1 = false ∧ (e.1 ++ ['>']).isPrefixOf x.1 = false := by
  decide +kernel

theorem prefix_cut {c : Char} {r : Str} : ∀ {n e : Str}, (n ++ [c]).isPrefixOf e = false → e.isPrefixOf (n ++ c :: r) = e.isPrefixOf n
  | [], [], _ => rfl
  | [], x :: e, h => by
    simp [List.isPrefixOf] at h ⊢
    intro e'
    exact absurd e'.symm h
  | y :: n, [], _ => rfl
  | y :: n, x :: e, h => by
    simp only [List.cons_append, List.isPrefixOf] at h ⊢
    by_cases hxy : y = x
    · subst hxy
      simp only [beq_self_eq_true, Bool.true_and] at h ⊢
      exact prefix_cut h
    · have : (x == y) = false := by simpa using fun e => hxy e.symm
      simp [this]

theorem find_agree {α : Type} {p q : α → Bool} {l : List α} (h : ∀ x ∈ l, p x = q x) : l.find? p = l.find? q := by
  induction l with
  | nil => rfl
  | cons a l ih =>
    rw [List.find?_cons, List.find?_cons, h a (by simp), ih fun x hx => h x (List.mem_cons_of_mem _ hx)]

/-- What follows a name. -/
def NameEnd (r : Str) : Prop := r = [] ∨ ∃ w, r = ' ' :: w ∨ r = '>' :: w

theorem name_token {e : Str × Str} (he : e ∈ goodNames) {r : Str} (hr : NameEnd r) : pTokenAt (e.1 ++ r) = some (.roleName e.1, e.1.length) := by
  have hpre : ∀ x ∈ roleNames, x.1.isPrefixOf (e.1 ++ r) = x.1.isPrefixOf e.1 := by
    intro x hx
    rcases hr with rfl | ⟨w, rfl | rfl⟩
    · rw [List.append_nil]
    · exact prefix_cut (good_longer e he x hx).1
    · exact prefix_cut (good_longer e he x hx).2
  obtain ⟨_, _, _, hm, hf⟩ := good_script e he
  have hfind : roleNames.find? (fun x => x.1.isPrefixOf (e.1 ++ r)) = some e := by
    rw [← hf]
    exact find_agree hpre
  have hres : reserved (e.1 ++ r) = true := by
    have : (roleNames.any fun x => x.1.isPrefixOf (e.1 ++ r)) = true :=
      List.any_eq_true.2 ⟨e, hm, by simp⟩
    simp [reserved, this]
  simp only [pTokenAt, hres, hfind]
  rfl

theorem pathLex_name {e : Str × Str} (he : e ∈ goodNames) {r : Str} (hr : NameEnd r) : pathLex (e.1 ++ r) = .roleName e.1 :: pathLex r := by
  have ht := name_token he hr
  have hw := (good_script e he).2.2.1
  have hb : ∀ e ∈ goodNames, ∀ c ∈ e.1.head?, (c!" \t\n").contains c = false := by decide +kernel
  have hb := hb e he
  match h : e.1, hw with
  | c :: d :: w, _ =>
    rw [h] at ht hb
    exact pathLex_token (c := c) (w := d :: w) ht (hb c rfl)

/-- An item that is read. -/
def GoodItem (w a : Str) : Prop := (w, a) ∈ goodNames ∨ w = a ∧ a ∈ addressScripts

/-- The tokens of the items of a role. -/
def itemTok (e : Str × Str) : PTok := if e ∈ goodNames then .roleName e.1 else .morpheme e.1

theorem nameEnd_stop {r : Str} (h : NameEnd r) : Stop r := by
  rcases h with rfl | ⟨w, rfl | rfl⟩
  · exact stop_nil
  · exact stop_space w
  · exact stop_sep w

theorem item_lex {e : Str × Str} (h : GoodItem e.1 e.2) {r : Str} (hr : NameEnd r) : pathLex (e.1 ++ r) = itemTok e :: pathLex r := by
  unfold itemTok
  split
  · exact pathLex_name (by assumption) hr
  · rename_i hn
    rcases h with h | ⟨h1, h2⟩
    · exact absurd h hn
    · obtain ⟨s, hs, _, hstr⟩ := address_script h2
      rw [h1, ← hstr]
      exact pathLex_script hs (nameEnd_stop hr)

theorem items_lex {l : List (Str × Str)} (h : ∀ e ∈ l, GoodItem e.1 e.2) {r : Str} (hr : NameEnd r) :
    pathLex (joinSpace (l.map (·.1)) ++ r) = l.map itemTok ++ pathLex r := by
  induction l with
  | nil => rfl
  | cons a l ih =>
    cases l with
    | nil => exact item_lex (h a (by simp)) hr
    | cons b l =>
      have := ih fun x hx => h x (List.mem_cons_of_mem _ hx)
      simp only [List.map_cons, joinSpace] at this ⊢
      rw [List.append_assoc, List.cons_append, item_lex (h a (by simp)) (.inr ⟨_, .inl rfl⟩), pathLex_space, this]
      rfl

theorem items_take {l : List (Str × Str)} (h : ∀ e ∈ l, GoodItem e.1 e.2) {ts : List PTok} (hts : NoRole ts) :
    takeRoles (l.map itemTok ++ ts) = .ok (l.map (·.2), ts) := by
  induction l with
  | nil => exact hts
  | cons a l ih =>
    have ih := ih fun x hx => h x (List.mem_cons_of_mem _ hx)
    rw [List.map_cons, List.cons_append]
    by_cases hn : a ∈ goodNames
    · rw [show itemTok a = .roleName a.1 from if_pos hn]
      simp only [takeRoles, ih, (good_script a hn).2.1]
      rfl
    · rw [show itemTok a = .morpheme a.1 from if_neg hn]
      rcases h a (by simp) with h | ⟨h1, h2⟩
      · exact absurd h hn
      · have hp := C49_addresses.2 a.2 h2
        cases hq : parseScript a.2 with
        | error e => rw [hq] at hp; cases hp
        | ok s =>
          rw [hq] at hp
          have hs : s.str = a.2 := Except.ok.inj hp
          simp only [takeRoles, h1, hq]
          simp only [bind, Except.bind]
          rw [ih]
          simp only [pure, Except.pure, hs, List.map_cons]

/-- **C67 without the names** `*10`, `*11` and `*12`. -/
theorem C67_names_partial (f : Bool) {l : List (Str × Str)} (hl : l ≠ []) (h : ∀ e ∈ l, GoodItem e.1 e.2) :
    pathRead (c!">role>" ++ (if f then c!"! " else []) ++ joinSpace (l.map (·.1))) = .ok [.role (l.map (·.2)) f] := by
  have hall : ∀ a ∈ l.map (·.2), a ∈ addressScripts := by
    intro a ha
    obtain ⟨e, he, rfl⟩ := List.mem_map.1 ha
    rcases h e he with h | h
    · exact (good_script _ h).1
    · exact h.2
  have hany : ((l.map (·.2)).any fun a => decide (a ∉ addressScripts)) = false := by
    rw [List.any_eq_false]
    intro a ha
    simp [hall a ha]
  have hempty : (l.map (·.2)).isEmpty = false := by cases l <;> simp_all
  have hx : pathLex ((if f then c!"! " else []) ++ joinSpace (l.map (·.1))) = (if f then [.excl] else []) ++ l.map itemTok := by
    have := items_lex h (r := []) (.inl rfl)
    rw [List.append_nil, show pathLex [] = [] from rfl, List.append_nil] at this
    cases f
    · exact this
    · show pathLex ('!' :: ' ' :: joinSpace (l.map (·.1))) = _
      rw [pathLex_excl, pathLex_space, this]
      rfl
  have htext : c!">role>" ++ (if f then c!"! " else []) ++ joinSpace (l.map (·.1)) =
      '>' :: (c!"role" ++ '>' :: ((if f then c!"! " else []) ++ joinSpace (l.map (·.1)))) := by simp
  have htake := items_take h (ts := []) rfl
  rw [List.append_nil] at htake
  rw [pathRead, htext, pathLex_sep, pathLex_role, pathLex_sep, hx]
  have : takePath (.sep :: .roleTok :: .sep :: ((if f then [.excl] else []) ++ l.map itemTok)) = .ok [.role (l.map (·.2)) f] := by
    show takeRolePath _ = _
    cases f with
    | true =>
      simp only [takeRolePath, if_true, List.cons_append, List.nil_append, htake]
      simp only [bind, Except.bind, hempty, hany]
      rfl
    | false =>
      obtain ⟨a, l', rfl⟩ := List.exists_cons_of_ne_nil hl
      simp only [List.map_cons] at htake hempty hany
      simp only [Bool.false_eq_true, if_false, List.nil_append, List.map_cons]
      have hor : (∃ w, itemTok a = .roleName w) ∨ ∃ w, itemTok a = .morpheme w := by
        unfold itemTok
        split
        · exact .inl ⟨_, rfl⟩
        · exact .inr ⟨_, rfl⟩
      rcases hor with ⟨w, hw⟩ | ⟨w, hw⟩
      all_goals
        rw [hw] at htake ⊢
        simp only [takeRolePath, htake]
        simp only [bind, Except.bind, hempty, hany]
        rfl
  rw [this]

example : GoodItem (c!"time") (c!"E:.t.-") ∧ GoodItem (c!"E:A:.") (c!"E:A:.") := by
  constructor
  · left; decide +kernel
  · right; decide +kernel

/-- **C67 is violated** by the names `*10`, `*11` and `*12`: `*1` is tried before them. -/
theorem C67_violated : ∀ n ∈ [c!"*10", c!"*11", c!"*12"], (roleNames.any fun e => e.1 = n) = true ∧
    rereads (c!">role>" ++ n) = .error .cannotParse := by
  decide +kernel

theorem C67_violated_claim : ¬ C67_claim := by
  intro h
  have := h false [(c!"*10", c!"p.-A:.-'d.o.-l.o.-',")] (by simp) (by
    intro e he
    simp only [List.mem_cons, List.not_mem_nil, or_false] at he
    subst he
    left
    decide +kernel)
  have h2 := (C67_violated (c!"*10") (by simp)).2
  unfold rereads at h2
  have e : c!">role>" ++ c!"*10" = c!">role>" ++ (if false then c!"! " else []) ++ joinSpace ([(c!"*10", c!"p.-A:.-'d.o.-l.o.-',")].map (·.1)) := rfl
  rw [e, this] at h2
  cases h2

/-! ### C68: the exceptions -/

/-- **C68**, the claim: reading the text of a path returns a path or raises `CannotParse`. -/
def C68_claim : Prop := ∀ s : Str, (∃ p, pathRead s = .ok p) ∨ pathRead s = .error .cannotParse

/-- The exceptions of the readers of paths. -/
def PathErr (k : Prop) (e : Err) : Prop := ScriptErr e ∨ e = .keyError ∧ k

/-- A token of a group that does not exist. -/
def badGroup (ts : List PTok) : Prop := ∃ d, .pmPos (some d) ∈ ts ∧ d ∉ (c!"012")

theorem only_pathGroup {d : Option Char} : Only (PathErr (∃ c, d = some c ∧ c ∉ c!"012")) (pathGroup d) := by
  cases d with
  | none => exact .ok _
  | some d =>
    simp only [pathGroup]
    split
    · exact .ok _
    · split
      · exact .ok _
      · split
        · exact .ok _
        · have : PathErr (∃ c, some d = some c ∧ c ∉ c!"012") .keyError := .inr ⟨rfl, d, rfl, by simp_all⟩
          exact .err this

theorem only_path_parse (k : Prop) (s : Str) : Only (PathErr k) (parseScript s) := (only_parse s).mono fun _ h => .inl h

theorem only_takePM {d : Option Char} (ts : List PTok) : Only (PathErr (∃ c, d = some c ∧ c ∉ c!"012")) (takePMPath d ts) := by
  unfold takePMPath
  split
  · exact .bind only_pathGroup fun _ => .ok _
  · exact .bind only_pathGroup fun _ => .ok _
  · refine .bind only_pathGroup fun _ => .bind (only_path_parse _ _) fun _ => ?_
    split
    · exact .ok _
    · exact .err (.inl (.inl rfl))
  · refine .bind only_pathGroup fun _ => .bind (only_path_parse _ _) fun _ => ?_
    split
    · exact .ok _
    · exact .err (.inl (.inl rfl))
  · exact .err (.inl (.inl rfl))

theorem only_takeFlexion (k : Prop) (s : Str) (ts : List PTok) : Only (PathErr k) (takeFlexion s ts) := by
  refine .bind (only_path_parse _ _) fun _ => ?_
  split
  · exact .ok _
  · exact .err (.inl (.inl rfl))

theorem only_takeLex {c : Bool} {k : Prop} {ts : List PTok} (hd : ∀ c, .mult c ∈ ts → isDigit c = true) (hk : badGroup ts → k) : Only (PathErr k) (takeLexPath c ts) := by
  intro e he
  unfold takeLexPath at he
  split at he
  · cases he
  · rename_i d ts
    have h1 := only_takePM (d := d) ts
    cases hp : takePMPath d ts with
    | error e' =>
      rw [hp] at he
      cases he
      rcases h1 e hp with h | ⟨h, c, rfl, hc⟩
      · exact .inl h
      · exact .inr ⟨h, hk ⟨c, by simp, hc⟩⟩
    | ok q =>
      obtain ⟨g, m, k, rfl, hs⟩ := takePMPath_written (fun c hc => hd c (by simp [hc])) hp
      rw [hp] at he
      cases c <;> cases he
      exact .inl (.inl rfl)
  · rename_i s ts
    cases hp : takeFlexion s ts with
    | error e' =>
      rw [hp] at he
      cases he
      exact only_takeFlexion k s ts e hp
    | ok q =>
      obtain ⟨m, rfl, _⟩ := takeFlexion_written hp
      rw [hp] at he
      cases c <;> cases he
      exact .inl (.inl rfl)
  · cases he
    exact .inl (.inl rfl)

theorem only_takeRoles (k : Prop) : ∀ ts : List PTok, Only (PathErr k) (takeRoles ts)
  | [] => .ok _
  | .morpheme _ :: ts => .bind (only_path_parse _ _) fun _ => .bind (only_takeRoles k ts) fun _ => .ok _
  | .roleName _ :: ts => .bind (only_takeRoles k ts) fun _ => .ok _
  | .sep :: _ => .ok _
  | .roleTok :: _ => .ok _
  | .excl :: _ => .ok _
  | .lexPos _ :: _ => .ok _
  | .pmPos _ :: _ => .ok _
  | .mult _ :: _ => .ok _

theorem lexWritten_head {q : Path} (h : LexWritten q) : headCls q = some .lexeme := by cases h <;> rfl

/-- The exceptions before `ValueError` is turned into `CannotParse`. -/
def RoleErr (k : Prop) (e : Err) : Prop := PathErr k e ∨ e = .valueError

theorem only_takeRole {k : Prop} {ts : List PTok} (hd : ∀ c, .mult c ∈ ts → isDigit c = true) (hk : badGroup ts → k) : Only (RoleErr k) (takeRolePath ts) := by
  have key : ∀ (f : Bool) (ts' : List PTok), (∀ t ∈ ts', t ∈ ts) → Only (RoleErr k) (do
      let r ← takeRoles ts'
      if r.1.isEmpty then throw .cannotParse
      let q ← match r.2 with
        | [] => pure []
        | .sep :: .lexPos c :: ts => takeLexPath c ts
        | _ => throw .cannotParse
      if r.1.any fun a => decide (a ∉ addressScripts) then throw .valueError
      construct (.role r.1 f) q : Except Err Path) := by
    intro f ts' hs e h
    cases hr : takeRoles ts' with
    | error e' =>
      rw [hr] at h
      cases h
      exact .inl (only_takeRoles k ts' e hr)
    | ok r =>
      rw [hr] at h
      have hrest := takeRoles_rest hr
      simp only [bind, Except.bind] at h
      split at h
      · cases h
        exact .inl (.inl (.inl rfl))
      · have fin : ∀ c, c = [] ∨ LexWritten c → (if (r.1.any fun a => decide (a ∉ addressScripts)) = true then
            (Except.bind (throw Err.valueError) fun (_ : PUnit.{1}) => construct (Step.role r.1 f) c)
          else construct (Step.role r.1 f) c) = .error e → RoleErr k e := by
          intro c hc h
          split at h
          · cases h
            exact .inr rfl
          · have : construct (.role r.1 f) c = .ok (.role r.1 f :: c) := by
              rcases hc with rfl | hc
              · rfl
              · simp [construct, lexWritten_head hc]
            rw [this] at h
            cases h
        split at h
        · exact fin [] (.inl rfl) h
        · rename_i c' ts'' e'
          have hin : ∀ t, t ∈ ts'' → t ∈ ts := by
            intro t ht
            refine hs _ (hrest _ ?_)
            rw [e']
            simp [ht]
          have hd' : ∀ c, .mult c ∈ ts'' → isDigit c = true := fun c hc => hd c (hin _ hc)
          cases hq : takeLexPath c' ts'' with
          | error e'' =>
            rw [hq] at h
            cases h
            exact .inl (only_takeLex hd' (fun ⟨d, h1, h2⟩ => hk ⟨d, hin _ h1, h2⟩) _ hq)
          | ok q =>
            rw [hq] at h
            exact fin q (.inr (takeLexPath_written hd' hq)) h
        · cases h
          exact .inl (.inl (.inl rfl))
  intro e h
  unfold takeRolePath at h
  split at h
  rename_i f ts' hts
  split at hts
  · cases hts
    exact key _ _ (fun t ht => List.mem_cons_of_mem _ ht) e h
  · cases hts
    exact key _ _ (fun t ht => ht) e h

/-- **C68, the exceptions that leave the reader**: `CannotParse`, `TooManySingularSequences` (a script that is too large), and
`KeyError`, only when the text mentions a group other than the first three. -/
theorem C68_outcomes_partial (s : Str) : (∃ p, pathRead s = .ok p) ∨ pathRead s = .error .cannotParse ∨ pathRead s = .error .tooMany ∨
    pathRead s = .error .keyError ∧ badGroup (pathLex s) := by
  have hd : ∀ c, .mult c ∈ pathLex s → isDigit c = true := fun c hc => pathLex_mult hc
  have h : Only (RoleErr (badGroup (pathLex s))) (takePath (pathLex s)) := by
    generalize pathLex s = ts at hd
    intro e h
    unfold takePath at h
    split at h
    · cases h
    · exact only_takeRole (fun c hc => hd c (by simp [hc])) (fun ⟨d, h1, h2⟩ => ⟨d, by simp [h1], h2⟩) e h
    · exact .inl (only_takeLex (fun c hc => hd c (by simp [hc])) (fun ⟨d, h1, h2⟩ => ⟨d, by simp [h1], h2⟩) e h)
    · exact .inl (only_takeFlexion _ _ _ e h)
    · rcases only_takePM _ e h with h | ⟨h, c, hc, h'⟩
      · exact .inl (.inl h)
      · exact .inl (.inr ⟨h, c, by simp [hc], h'⟩)
    · cases h
      exact .inl (.inl (.inl rfl))
  unfold pathRead
  cases hp : takePath (pathLex s) with
  | ok p => exact .inl ⟨p, rfl⟩
  | error e =>
    rcases h e hp with ((rfl | rfl) | ⟨rfl, hb⟩) | rfl
    · exact .inr (.inl rfl)
    · exact .inr (.inr (.inl rfl))
    · exact .inr (.inr (.inr ⟨rfl, hb⟩))
    · exact .inr (.inl rfl)

/-- **C68 is violated** by a fourth group. -/
theorem C68_violated : rereads (c!">group_3 1") = .error .keyError := by decide +kernel

theorem C68_violated_claim : ¬ C68_claim := by
  intro h
  have h2 := C68_violated
  unfold rereads at h2
  rcases h (c!">group_3 1") with ⟨p, h⟩ | h <;> rw [h] at h2 <;> cases h2

end Verif
