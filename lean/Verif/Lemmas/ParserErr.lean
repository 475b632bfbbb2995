import Verif.Lemmas.Parser

/-
Lemmas on the failures of the parser and on skipped characters.
-/

namespace Verif
open Script PState
open PState hiding mk

/-- Errors a text may cause inside the parser. -/
def TextErr (e : Err) : Prop := e.isInvalidScript = true ∨ e = .tooMany

theorem textErr_invalid : TextErr .invalidScript := .inl rfl

/-- Invariant of the stack of the parser. -/
def ItemOk (i : PItem) : Prop := i.terms ≠ [] ∧ ∀ c ∈ i.terms, WF c ∧ Plain c ∧ c.layer = i.level

def StackOk (st : List PItem) : Prop := ∀ i ∈ st, ItemOk i

theorem mkAdd_textErr {i : PItem} (h : ItemOk i) :
    (∃ u, mkAdd i.terms = .ok u ∧ WF u ∧ u.layer = i.level) ∨ ∃ e, mkAdd i.terms = .error e ∧ TextErr e := by
  have hw : ∀ c ∈ i.terms, WF c := fun c hc => (h.2 c hc).1
  have hne := sumTerms_ne_nil hw (fun c hc => (h.2 c hc).2.1) h.1
  have := mkAdd_eval h.1 hw (fun c hc => (h.2 c hc).2.2)
  rw [if_neg hne] at this
  split at this
  · exact .inr ⟨_, this, .inr rfl⟩
  · have hwf := mkAdd_wf hw this
    refine .inl ⟨_, this, hwf, ?_⟩
    obtain ⟨l, h1, h2, h3, h4, h5⟩ := mkAdd_ok this
    have hl : l = i.level := by
      obtain ⟨c, hc⟩ := List.exists_mem_of_ne_nil _ h1
      rw [← h2 c hc]; exact (h.2 c hc).2.2
    have hst := sumTerms_wf hw h2
    rw [← hl]
    refine layer_add_of ?_ fun c hc => (hst c ((pySort_perm lt _).mem_iff.1 hc)).2.2
    intro h0
    have := (pySort_perm lt (sumTerms i.terms)).length_eq
    rw [h0] at this
    simp at this
    exact h3 (List.length_eq_zero_iff.1 this.symm)

theorem mapM_textErr : ∀ {is : List PItem} {k : Nat}, (∀ i ∈ is, ItemOk i ∧ i.level = k) →
    (∃ us, is.mapM (fun i => mkAdd i.terms) = .ok us ∧ us.length = is.length ∧ ∀ u ∈ us, WF u ∧ u.layer = k) ∨
    ∃ e, is.mapM (fun i => mkAdd i.terms) = .error e ∧ TextErr e
  | [], _, _ => .inl ⟨[], by simp [pure, Except.pure], rfl, by simp⟩
  | i :: is, k, h => by
    have hi := h i (by simp)
    rw [List.mapM_cons]
    rcases mkAdd_textErr hi.1 with ⟨u, hu, h1, h2⟩ | ⟨e, he, h1⟩
    · rcases mapM_textErr (is := is) (k := k) fun j hj => h j (by simp [hj]) with ⟨us, h3, h4, h5⟩ | ⟨e, he, h3⟩
      · refine .inl ⟨u :: us, by simp [hu, h3, bind, Except.bind, pure, Except.pure], by simp [h4], ?_⟩
        intro v hv
        rcases List.mem_cons.1 hv with rfl | hv
        · exact ⟨h1, h2.trans hi.2⟩
        · exact h5 v hv
      · exact .inr ⟨e, by simp [hu, he, bind, Except.bind], h3⟩
    · exact .inr ⟨e, by simp [he, bind, Except.bind], h1⟩

theorem reduce_textErr {is : List PItem} {k : Nat} (hk : k ≤ 5) (h : ∀ i ∈ is, ItemOk i ∧ i.level = k) (hne : is ≠ []) :
    (∃ t, reduceProduct is = .ok t ∧ WF t ∧ Plain t ∧ t.layer = k + 1) ∨
    ∃ e, reduceProduct is = .error e ∧ TextErr e := by
  unfold reduceProduct
  rcases mapM_textErr h with ⟨us, h1, h2, h3⟩ | ⟨e, he, h1⟩
  · rw [h1]
    simp only [bind, Except.bind]
    by_cases hlen : us.length ≤ 3
    · cases us with
      | nil => simp at h2; exact absurd h2.symm (by simpa using hne)
      | cons u us =>
        have hp := mkMult_pad (x := u) (xs := us) (tail := []) (.inl rfl) hlen
        rw [List.append_nil] at hp
        rw [hp]
        have hu := h3 u (by simp)
        have hn : ∀ j, WF (us.getD j (null u.layer)) ∧ (us.getD j (null u.layer)).layer = u.layer := by
          intro j
          by_cases hj : j < us.length
          · have := h3 us[j] (by simp)
            simp only [List.getD, List.getElem?_eq_getElem hj, Option.getD_some]
            exact ⟨this.1, this.2.trans hu.2.symm⟩
          · rw [List.getD, List.getElem?_eq_none (by omega)]
            exact ⟨.null (by omega), rfl⟩
        have he := mkMult_eval hu.1 (hn 0).1 (hn 1).1 (hn 0).2 (hn 1).2
        rw [if_pos (show u.layer ≤ 5 by omega)] at he
        split at he
        · exact .inr ⟨_, he, .inr rfl⟩
        · refine .inl ⟨_, he, mkMult_wf ?_ he, by simp [Plain], by simp [layer, (role_wf hu.1).2.2, hu.2]⟩
          intro c hc
          simp at hc
          rcases hc with rfl | rfl | rfl
          · exact hu.1
          · exact (hn 0).1
          · exact (hn 1).1
    · have := mkMult_long (xs := us) (tail := []) (.inl rfl) (by omega)
      rw [List.append_nil] at this
      exact .inr ⟨_, this, textErr_invalid⟩
  · rw [he]; exact .inr ⟨e, rfl, h1⟩

theorem stackOk_push {k : Nat} {t : Script} {st : List PItem} (h : StackOk st) (ht : WF t) (hp : Plain t)
    (hl : t.layer = k) : StackOk (push k t st) := by
  have h1 : ItemOk ⟨k, [t], false⟩ := ⟨by simp, by simpa using ⟨ht, hp, hl⟩⟩
  cases st with
  | nil => intro i hi; simp [push] at hi; subst hi; exact h1
  | cons j st =>
    intro i hi
    rw [push] at hi
    split at hi
    · rename_i hj
      simp at hj
      rcases List.mem_cons.1 hi with rfl | hi
      · refine ⟨by simp, ?_⟩
        intro c hc
        rcases List.mem_cons.1 hc with rfl | hc
        · exact ⟨ht, hp, hl⟩
        · have := (h j (by simp)).2 c hc
          exact ⟨this.1, this.2.1, this.2.2.trans hj.2⟩
      · exact h i (by simp [hi])
    · rcases List.mem_cons.1 hi with rfl | hi
      · exact h1
      · exact h i hi

/-- Tokens the lexer may produce. -/
def TokOk : Tok → Prop
  | .mark k => k ≤ 6
  | .rmul ch => ∃ p q, ch = remMulName p q
  | _ => True

theorem tok1_ok {c : Char} {t : Tok} (h : tok1 c = some t) : TokOk t := by
  cases t with
  | mark k => exact lex_valid [c] k (by simp [lex, h])
  | rmul ch =>
    unfold tok1 at h
    split at h
    · simp at h
    · split at h
      · simp at h
      · split at h
        · simp at h
        · split at h
          · simp at h
          · split at h
            · simp at h
            · split at h
              · simp at h
              · split at h
                · rename_i hm
                  simp only [remMulTable, List.map_flatMap, List.mem_flatMap, List.map_map, List.mem_map,
                    Function.comp_apply] at hm
                  obtain ⟨p, _, q, _, hpq⟩ := hm
                  simp at h
                  exact ⟨p, q, by rw [← h, hpq]⟩
                · simp at h
  | _ => trivial

theorem lex_ok (x : Str) : ∀ t ∈ lex x, TokOk t := by
  induction x using lex.induct with
  | case1 => simp [lex]
  | case2 c => intro t h; simp [lex] at h; exact tok1_ok h
  | case3 c d cs h ih =>
    intro t h'
    rw [lex, if_pos h] at h'
    rcases List.mem_cons.1 h' with rfl | h'
    · obtain ⟨rfl, rfl | rfl | rfl | rfl⟩ := h
      · exact ⟨.U, .U, rfl⟩
      · exact ⟨.U, .A, rfl⟩
      · exact ⟨.A, .U, rfl⟩
      · exact ⟨.A, .A, rfl⟩
    · exact ih t h'
  | case4 c d cs h ih =>
    intro t h'
    rw [lex, if_neg h, List.mem_append] at h'
    rcases h' with h' | h'
    · exact tok1_ok (by simpa using h')
    · exact ih t h'

/-- Invariant of the parser. -/
def StateOk (st : PState) : Prop := StackOk st.stack ∧ ∀ t, st.half = some t → TokOk t ∧ t ≠ .plus ∧ ∀ k, t ≠ .mark k

theorem letterScript_ok {t : Tok} (h1 : t ≠ .plus) (h2 : ∀ k, t ≠ .mark k) (h3 : ∀ ch, t ≠ .rmul ch) :
    ∃ s, letterScript t = .ok s ∧ WF s ∧ Plain s ∧ s.layer = 0 := by
  cases t with
  | prim p =>
    cases p with
    | none => exact ⟨_, rfl, .null (by omega), by simp [Plain], rfl⟩
    | some p => exact ⟨_, mkMultChar_prim p, .prim, by simp [Plain], rfl⟩
  | radd k =>
    have : letterScript (.radd k) = .ok (add (remAddChildren k)) := by cases k <;> decide
    refine ⟨_, this, ?_, ?_, ?_⟩
    · refine mkAdd_wf (remAddChildren_wf k) ?_
      cases k <;> decide
    · cases k <;> simp [Plain, remAddChildren, RemAdd.letters]
    · cases k <;> rfl
  | plus => exact absurd rfl h1
  | mark k => exact absurd rfl (h2 k)
  | rmul ch => exact absurd rfl (h3 ch)

theorem mkMultChar_name (p q : Prim) : mkMultChar (remMulName p q) = .ok (.mult (.prim p) (.prim q) (.null 0)) := by
  cases p <;> cases q <;> decide

theorem step_ok {st : PState} {t : Tok} (h : StateOk st) (ht : TokOk t) :
    (∃ st', step st t = .ok st' ∧ StateOk st') ∨ ∃ e, step st t = .error e ∧ TextErr e := by
  have hinv : TextErr .invalidScript := textErr_invalid
  obtain ⟨stack, half⟩ := st
  obtain ⟨hs, hh⟩ := h
  simp only at hs hh
  have hnew : ∀ {k : Nat} {s : Script}, WF s → Plain s → s.layer = k → StateOk ⟨push k s stack, none⟩ :=
    fun h1 h2 h3 => ⟨stackOk_push hs h1 h2 h3, by simp⟩
  cases half with
  | some x =>
    have hx := hh x rfl
    cases x with
    | plus => exact absurd rfl hx.2.1
    | mark k => exact absurd rfl (hx.2.2 k)
    | rmul ch =>
      obtain ⟨p, q, rfl⟩ := hx.1
      by_cases hm : t = .mark 1
      · subst hm
        refine .inl ⟨⟨push 1 (.mult (.prim p) (.prim q) (.null 0)) stack, none⟩, ?_, hnew (wf_remMul p q) (by simp [Plain]) (by simp [layer])⟩
        simp [step, mkMultChar_name, bind, Except.bind]
      · refine .inr ⟨.invalidScript, ?_, hinv⟩
        cases t with
        | mark k => match k, hm with
          | 0, _ => rfl
          | 1, hm => exact absurd rfl hm
          | k + 2, _ => rfl
        | _ => rfl
    | prim p =>
      obtain ⟨s, h1, h2, h3, h4⟩ := letterScript_ok (t := .prim p) (by simp) (by simp) (by simp)
      by_cases hm : t = .mark 0
      · subst hm
        exact .inl ⟨⟨push 0 s stack, none⟩, by simp [step, h1, bind, Except.bind], hnew h2 h3 h4⟩
      · refine .inr ⟨.invalidScript, ?_, hinv⟩
        unfold step
        split <;> simp_all
    | radd k =>
      obtain ⟨s, h1, h2, h3, h4⟩ := letterScript_ok (t := .radd k) (by simp) (by simp) (by simp)
      by_cases hm : t = .mark 0
      · subst hm
        exact .inl ⟨⟨push 0 s stack, none⟩, by simp [step, h1, bind, Except.bind], hnew h2 h3 h4⟩
      · refine .inr ⟨.invalidScript, ?_, hinv⟩
        unfold step
        split <;> simp_all
  | none =>
    cases t with
    | prim p =>
      by_cases hm : mayStart 0 stack = true
      · exact .inl ⟨⟨stack, some (.prim p)⟩, by simp [step, hm], hs, by simp [TokOk]⟩
      · exact .inr ⟨.invalidScript, by simp [step, hm], hinv⟩
    | radd p =>
      by_cases hm : mayStart 0 stack = true
      · exact .inl ⟨⟨stack, some (.radd p)⟩, by simp [step, hm], hs, by simp [TokOk]⟩
      · exact .inr ⟨.invalidScript, by simp [step, hm], hinv⟩
    | rmul ch =>
      by_cases hm : mayStart 1 stack = true
      · exact .inl ⟨⟨stack, some (.rmul ch)⟩, by simp [step, hm], hs, by
          intro t h; simp at h; subst h; exact ⟨ht, by simp, by simp⟩⟩
      · exact .inr ⟨.invalidScript, by simp [step, hm], hinv⟩
    | plus =>
      cases stack with
      | nil => exact .inr ⟨.invalidScript, by simp [step], hinv⟩
      | cons i is =>
        cases hp : i.pending
        · refine .inl ⟨⟨⟨i.level, i.terms, true⟩ :: is, none⟩, by simp [step, hp], ?_, by simp⟩
          intro j hj
          rcases List.mem_cons.1 hj with rfl | hj
          · exact hs i (by simp)
          · exact hs j (by simp [hj])
        · exact .inr ⟨.invalidScript, by simp [step, hp], hinv⟩
    | mark k =>
      cases k with
      | zero => exact .inr ⟨.invalidScript, by simp [step], hinv⟩
      | succ k =>
        have hrun := run_mark k stack
        rw [run] at hrun
        have hb : ∀ r : Except Err PState, (r >>= run []) = r := by intro r; cases r <;> rfl
        rw [hb] at hrun
        rw [hrun]
        split
        · exact .inr ⟨_, rfl, hinv⟩
        · rename_i h0
          have hk : k ≤ 5 := by have : k + 1 ≤ 6 := ht; omega
          have hmem : ∀ i ∈ (stack.take (topCount k stack)).reverse, ItemOk i ∧ i.level = k := by
            intro i hi
            rw [List.mem_reverse] at hi
            refine ⟨hs i (List.mem_of_mem_take hi), ?_⟩
            have e : stack.take (topCount k stack) = stack.takeWhile fun i => i.level = k && !i.pending := by
              rw [topCount]
              exact (List.prefix_iff_eq_take.1 (List.takeWhile_prefix _)).symm
            rw [e] at hi
            have := List.all_eq_true.1 (List.all_takeWhile (p := fun i : PItem => i.level = k && !i.pending) (l := stack)) i hi
            simp at this
            exact this.1
          have hne : (stack.take (topCount k stack)).reverse ≠ [] := by
            intro h
            have := congrArg List.length h
            simp at this
            rcases this with h | h
            · exact h0 h
            · subst h; exact h0 rfl
          rcases reduce_textErr hk hmem hne with ⟨s, h1, h2, h3, h4⟩ | ⟨e, he, h1⟩
          · refine .inl ⟨_, by rw [h1]; rfl, ?_⟩
            exact ⟨stackOk_push (fun i hi => hs i (List.mem_of_mem_drop hi)) h2 h3 h4, by simp⟩
          · exact .inr ⟨e, by rw [he]; rfl, h1⟩

theorem run_ok : ∀ {ts : List Tok} {st : PState}, StateOk st → (∀ t ∈ ts, TokOk t) →
    (∃ st', run ts st = .ok st' ∧ StateOk st') ∨ ∃ e, run ts st = .error e ∧ TextErr e
  | [], st, h, _ => .inl ⟨st, rfl, h⟩
  | t :: ts, st, h, ht => by
    rcases step_ok h (ht t (by simp)) with ⟨st', h1, h2⟩ | ⟨e, he, h1⟩
    · rcases run_ok (ts := ts) h2 fun t h => ht t (by simp [h]) with ⟨st'', h3, h4⟩ | ⟨e, he, h3⟩
      · exact .inl ⟨st'', by rw [run, h1]; exact h3, h4⟩
      · exact .inr ⟨e, by rw [run, h1]; exact he, h3⟩
    · exact .inr ⟨e, by rw [run, he]; rfl, h1⟩

theorem finish_ok {st : PState} (h : StateOk st) :
    (∃ s, finish st = .ok s ∧ WF s) ∨ ∃ e, finish st = .error e ∧ TextErr e := by
  obtain ⟨stack, half⟩ := st
  unfold finish
  split
  · rename_i lv s _ h1
    refine .inl ⟨_, rfl, ?_⟩
    simp only at h1
    exact ((h.1 ⟨lv, [s], false⟩ (by rw [h1]; simp)).2 s (by simp)).1
  · rename_i lv ts _ _ h1
    simp only at h1
    rcases mkAdd_textErr (h.1 ⟨lv, ts, false⟩ (by rw [h1]; simp)) with ⟨u, h1, h2, _⟩ | ⟨e, he, h1⟩
    · exact .inl ⟨u, h1, h2⟩
    · exact .inr ⟨e, he, h1⟩
  · exact .inr ⟨_, rfl, textErr_invalid⟩

/-- The possible outcomes of reading a text. -/
theorem parse_outcome (x : Str) : (∃ s, parseScript x = .ok s ∧ WF s) ∨ parseScript x = .error .cannotParse ∨
    parseScript x = .error .tooMany := by
  have fin : ∀ e, TextErr e → (PState.run (lex x) ⟨[], none⟩) >>= PState.finish = .error e →
      parseScript x = .error .cannotParse ∨ parseScript x = .error .tooMany := by
    intro e he h
    unfold parseScript
    rw [h]
    rcases he with he | rfl
    · simp [he]
    · right; rfl
  rcases run_ok (ts := lex x) (st := ⟨[], none⟩) ⟨by intro i hi; simp at hi, by simp⟩ (lex_ok x) with ⟨st, h1, h2⟩ | ⟨e, he, h1⟩
  · rcases finish_ok h2 with ⟨s, h3, h4⟩ | ⟨e, he, h3⟩
    · refine .inl ⟨s, ?_, h4⟩
      unfold parseScript
      rw [h1]
      show (match finish st with | .ok s => Except.ok s | .error e => _) = _
      rw [h3]
    · exact .inr (fin e h3 (by rw [h1]; exact he))
  · exact .inr (fin e h1 (by rw [he]; rfl))

/-! ### Skipped characters -/

/-- The second letters of the abbreviations in two letters. -/
def afterW (c : Char) : Prop := c = 'o' ∨ c = 'a' ∨ c = 'u' ∨ c = 'e'

theorem lex_append' {d : Char} (hd : ¬ afterW d) : ∀ (x y : Str), lex (x ++ d :: y) = lex x ++ lex (d :: y)
  | [], y => by simp [lex]
  | [a], y => by
    have : ¬ (a = 'w' ∧ (d = 'o' ∨ d = 'a' ∨ d = 'u' ∨ d = 'e')) := fun h => hd h.2
    simp [lex, this]
  | a :: b :: x, y => by
    simp only [List.cons_append, lex]
    split
    · rw [lex_append' hd x y]; simp
    · have := lex_append' hd (b :: x) y
      simp only [List.cons_append] at this
      rw [this]; simp

theorem lex_skip {c : Char} (h1 : tok1 c = none) (hw : c ≠ 'w') (y : Str) : lex (c :: y) = lex y := by
  have := lex_append hw [] y
  simpa [lex, h1] using this

/-- A character that starts no token is skipped, unless it separates a `w` from the second letter of an abbreviation. -/
theorem lex_foreign {c : Char} (h1 : tok1 c = none) (hw : c ≠ 'w') (x y : Str)
    (h : ¬ ((∃ x', x = x' ++ ['w']) ∧ ∃ d y', y = d :: y' ∧ afterW d)) : lex (x ++ c :: y) = lex (x ++ y) := by
  have hc : ¬ afterW c := by
    rintro (rfl | rfl | rfl | rfl) <;> revert h1 <;> decide
  rw [lex_append' hc, lex_skip h1 hw]
  cases y with
  | nil => simp [lex]
  | cons d y =>
    by_cases hd : afterW d
    · rcases List.eq_nil_or_concat x with rfl | ⟨x', e, rfl⟩
      · simp [lex]
      · have he : e ≠ 'w' := by
          rintro rfl
          exact h ⟨⟨x', by simp⟩, d, y, rfl, hd⟩
        simp only [List.concat_eq_append, List.append_assoc, List.singleton_append]
        rw [lex_append he x' (d :: y)]
    · rw [lex_append' hd]

end Verif
