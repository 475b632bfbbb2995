import Verif.Spec.Threads

/-
The invariants of the threads: who holds which lock, what the running programs still give, and that the threads come to their end.
-/

namespace Verif
variable {β : Type}

/-! ### What a program gives alone -/

theorem eval_unique {P : Parsers β} {l : Option LexState} {j : Job β} {r : β} (h : Eval P l j r) : ∀ {r' : β}, Eval P l j r' → r = r' := by
  induction h with
  | done l r => intro r' h'; cases h'; rfl
  | charNone _ ih => intro r' h'; cases h' with | charNone h' => exact ih h'
  | char _ ih => intro r' h'; cases h' with | char h' => exact ih h'
  | flagNone _ ih => intro r' h'; cases h' with | flagNone h' => exact ih h'
  | flag _ ih => intro r' h'; cases h' with | flag h' => exact ih h'
  | call _ _ ih1 ih2 =>
    intro r' h'
    cases h' with
    | call h1 h2 =>
      have := ih1 h1
      subst this
      exact ih2 h2

theorem start_script (f : Bool) (s : Str) : LexState.start .script f s = LexState.start .script false s := by
  simp [LexState.start]

theorem callGives_script {P : Parsers β} {f : Bool} {s : Str} {v : β} : CallGives P .script f s v ↔ CallGives P .script false s v := by
  unfold CallGives
  rw [start_script]

/-! ### The locks -/

/-- The parsers whose programs are on a stack. -/
def kindsOf (st : List (Option (PKind × Str))) : List PKind := st.filterMap fun o => o.map (·.1)

/-- The programs of a thread, the last called first; the call that begins counts. -/
def Thread.owners : Thread β → List (Option (PKind × Str))
  | .run o _ st => o :: st.map (·.1)
  | .look s st => some (.script, s) :: st.map (·.1)
  | .wait p _ s st => some (p, s) :: st.map (·.1)
  | .input p _ s st => some (p, s) :: st.map (·.1)
  | .store s _ st => some (.script, s) :: st.map (·.1)
  | .fin _ => [none]

/-- The locks a thread has. -/
def Thread.held : Thread β → List PKind
  | .run o _ st => kindsOf (o :: st.map (·.1))
  | .look _ st => kindsOf (st.map (·.1))
  | .wait _ _ _ st => kindsOf (st.map (·.1))
  | .input p _ _ st => p :: kindsOf (st.map (·.1))
  | .store _ _ st => kindsOf (st.map (·.1))
  | .fin _ => []

/-- The programs of the parsers stand above the program of the thread, in the order of the locks. -/
inductive Stacked : List (Option (PKind × Str)) → Prop where
  | main : Stacked [none]
  | call {p : PKind} {s : Str} {st : List (Option (PKind × Str))} : Stacked st → (∀ q ∈ kindsOf st, q.rank < p.rank) → Stacked (some (p, s) :: st)

/-- The order of the calls is kept by all the programs of a thread. -/
def Thread.OrderedCalls : Thread β → Prop
  | .run o j st => j.Above (o.map (·.1)) ∧ ∀ e ∈ st, ∀ r, (e.2 r).Above (e.1.map (·.1))
  | .look _ st => ∀ e ∈ st, ∀ r, (e.2 r).Above (e.1.map (·.1))
  | .wait _ _ _ st => ∀ e ∈ st, ∀ r, (e.2 r).Above (e.1.map (·.1))
  | .input _ _ _ st => ∀ e ∈ st, ∀ r, (e.2 r).Above (e.1.map (·.1))
  | .store _ _ st => ∀ e ∈ st, ∀ r, (e.2 r).Above (e.1.map (·.1))
  | .fin _ => True

theorem stacked_above {o : Option (PKind × Str)} {st : List (Option (PKind × Str))} (h : Stacked (o :: st)) {p : PKind} {s : Str}
    (hp : ∀ q, o.map (·.1) = some q → q.rank < p.rank) : Stacked (some (p, s) :: o :: st) := by
  refine .call h fun q hq => ?_
  cases h with
  | main => simp [kindsOf] at hq
  | @call p' s' st h' hlt =>
    have h1 := hp p' rfl
    simp only [kindsOf, List.filterMap_cons, Option.map_some, List.mem_cons] at hq
    rcases hq with rfl | hq
    · exact h1
    · exact Nat.lt_trans (hlt q hq) h1

theorem stacked_tail {p : PKind} {s : Str} {st : List (Option (PKind × Str))} (h : Stacked (some (p, s) :: st)) : Stacked st := by
  cases h with | call h _ => exact h

theorem stacked_ne_nil {st : List (Option (PKind × Str))} (h : Stacked st) : st ≠ [] := by
  cases h <;> simp

theorem stacked_none {st : List (Option (PKind × Str))} (h : Stacked (none :: st)) : st = [] := by
  cases h; rfl

/-! ### What a thread still gives -/

/-- The state of the lexer of a program. -/
def lexOf (g : Shared β) (o : Option (PKind × Str)) : Option LexState := o.map fun x => g.lex x.1

/-- Given a value with `C`, the programs that wait give one with `M`; those of parsers give what their parser gives. -/
def WaitersOk (P : Parsers β) (g : Shared β) (M : β → Prop) : List (Frame β) → (β → Prop) → Prop
  | [], C => ∀ v, C v → M v
  | (o, k) :: st, C => ∃ D : β → Prop, (∀ p s, o = some (p, s) → ∃ f, ∀ v, D v → CallGives P p f s v) ∧
      (∀ u, C u → ∀ v, Eval P (lexOf g o) (k u) v → D v) ∧ WaitersOk P g M st D

/-- The same for a thread. -/
def ThreadOk (P : Parsers β) (g : Shared β) (M : β → Prop) : Thread β → Prop
  | .run o j st => ∃ D : β → Prop, (∀ p s, o = some (p, s) → ∃ f, ∀ v, D v → CallGives P p f s v) ∧
      (∀ v, Eval P (lexOf g o) j v → D v) ∧ WaitersOk P g M st D
  | .look s st => WaitersOk P g M st (CallGives P .script false s)
  | .wait p f s st => WaitersOk P g M st (CallGives P p f s)
  | .input p f s st => WaitersOk P g M st (CallGives P p f s)
  | .store s r st => CallGives P .script false s r ∧ WaitersOk P g M st (CallGives P .script false s)
  | .fin r => M r

theorem waitersOk_mono {P : Parsers β} {g : Shared β} {M : β → Prop} {st : List (Frame β)} {C C' : β → Prop} (hc : ∀ v, C' v → C v)
    (h : WaitersOk P g M st C) : WaitersOk P g M st C' := by
  cases st with
  | nil => exact fun v hv => h v (hc v hv)
  | cons e st =>
    obtain ⟨o, k⟩ := e
    obtain ⟨D, h1, h2, h3⟩ := h
    exact ⟨D, h1, fun u hu => h2 u (hc u hu), h3⟩

theorem waitersOk_lex {P : Parsers β} {g g' : Shared β} {M : β → Prop} {st : List (Frame β)}
    (hl : ∀ p ∈ kindsOf (st.map (·.1)), g'.lex p = g.lex p) : ∀ {C : β → Prop}, WaitersOk P g M st C → WaitersOk P g' M st C := by
  induction st with
  | nil => exact fun h => h
  | cons e st ih =>
    intro C h
    obtain ⟨o, k⟩ := e
    obtain ⟨D, h1, h2, h3⟩ := h
    refine ⟨D, h1, ?_, ih (fun p hp => hl p ?_) h3⟩
    · have : lexOf g' o = lexOf g o := by
        cases o with
        | none => rfl
        | some x => simp only [lexOf, Option.map_some]; rw [hl x.1 (by simp [kindsOf])]
      rw [this]
      exact h2
    · simp only [kindsOf, List.map_cons, List.filterMap_cons]
      cases o with
      | none => exact hp
      | some x => exact List.mem_cons_of_mem _ hp

theorem threadOk_lex {P : Parsers β} {g g' : Shared β} {M : β → Prop} {t : Thread β} (hl : ∀ p ∈ t.held, g'.lex p = g.lex p)
    (h : ThreadOk P g M t) : ThreadOk P g' M t := by
  cases t with
  | fin r => exact h
  | look s st => exact waitersOk_lex hl h
  | wait p f s st => exact waitersOk_lex hl h
  | input p f s st => exact waitersOk_lex (fun q hq => hl q (List.mem_cons_of_mem _ hq)) h
  | store s r st => exact ⟨h.1, waitersOk_lex hl h.2⟩
  | run o j st =>
    obtain ⟨D, h1, h2, h3⟩ := h
    have hst : ∀ p ∈ kindsOf (st.map (·.1)), g'.lex p = g.lex p := by
      intro p hp
      refine hl p ?_
      simp only [Thread.held, kindsOf, List.filterMap_cons]
      cases o with
      | none => exact hp
      | some x => exact List.mem_cons_of_mem _ hp
    refine ⟨D, h1, ?_, waitersOk_lex hst h3⟩
    have : lexOf g' o = lexOf g o := by
      cases o with
      | none => rfl
      | some x => simp only [lexOf, Option.map_some]; rw [hl x.1 (by simp [Thread.held, kindsOf])]
    rw [this]
    exact h2

theorem threadOk_resume {P : Parsers β} {g : Shared β} {M C : β → Prop} {st : List (Frame β)} {v : β} (hv : C v) (h : WaitersOk P g M st C) :
    ThreadOk P g M (.resume v st) := by
  cases st with
  | nil => exact h v hv
  | cons e st =>
    obtain ⟨o, k⟩ := e
    obtain ⟨D, h1, h2, h3⟩ := h
    exact ⟨D, h1, h2 v hv, h3⟩

theorem waitersOk_shared {P : Parsers β} {g g' : Shared β} {M : β → Prop} {st : List (Frame β)} (hl : g'.lex = g.lex) {C : β → Prop}
    (h : WaitersOk P g M st C) : WaitersOk P g' M st C := waitersOk_lex (fun p _ => by rw [hl]) h

/-- What a memo may contain. -/
def MemoOk (P : Parsers β) (memo : List (Str × β)) : Prop := ∀ e ∈ memo, CallGives P .script false e.1 e.2

theorem remember_mem {P : Parsers β} {memo : List (Str × β)} {s : Str} {r : β} {e : Str × β} (h : e ∈ P.remember memo s r) :
    e ∈ memo ∨ (e = (s, r) ∧ P.keeps r = true) := by
  unfold Parsers.remember at h
  split at h
  · exact .inl h
  · rename_i hk
    split at h
    · exact .inl h
    · rcases List.mem_append.1 h with h | h
      · split at h
        · exact .inl h
        · exact .inl (List.mem_of_mem_drop h)
      · rw [List.mem_singleton] at h
        exact .inr ⟨h, by simpa using hk⟩

/-- A step keeps what its thread gives, and the memo. -/
theorem threadStep_ok {P : Parsers β} {i : Nat} {g g' : Shared β} {M : β → Prop} {t t' : Thread β} (hs : P.step i g t = some (g', t'))
    (ho : Stacked t.owners) (h : ThreadOk P g M t) (hm : MemoOk P g.memo) : ThreadOk P g' M t' ∧ MemoOk P g'.memo := by
  cases t with
  | fin r => cases hs
  | look s st =>
    simp only [Parsers.step] at hs
    split at hs
    · rename_i e he
      cases hs
      have h1 := List.mem_of_find?_eq_some he
      have h2 : e.1 = s := by simpa using List.find?_some he
      have h3 := hm e h1
      rw [h2] at h3
      refine ⟨threadOk_resume h3 (waitersOk_shared (g := g) (by rfl) h), fun x hx => ?_⟩
      rcases List.mem_append.1 hx with hx | hx
      · exact hm x (List.mem_filter.1 hx).1
      · rw [List.mem_singleton.1 hx]; exact hm e h1
    · cases hs
      exact ⟨h, hm⟩
  | wait p f s st =>
    simp only [Parsers.step] at hs
    split at hs
    · cases hs
    · cases hs
      exact ⟨waitersOk_shared (g := g) (by rfl) h, hm⟩
  | input p f s st =>
    simp only [Parsers.step] at hs
    cases hs
    refine ⟨⟨CallGives P p f s, ?_, ?_, ?_⟩, hm⟩
    · rintro p' s' ⟨⟩
      exact ⟨f, fun v hv => hv⟩
    · intro v hv
      simpa [lexOf, setAt, CallGives] using hv
    · cases ho with
      | call _ hlt =>
        refine waitersOk_lex (fun q hq => ?_) h
        have : q ≠ p := fun e => by
          have := hlt q hq
          rw [e] at this
          exact Nat.lt_irrefl _ this
        simp [setAt, this]
  | store s r st =>
    simp only [Parsers.step] at hs
    cases hs
    refine ⟨threadOk_resume h.1 (waitersOk_shared (g := g) (by rfl) h.2), fun x hx => ?_⟩
    rcases remember_mem hx with hx | ⟨rfl, _⟩
    · exact hm x hx
    · exact h.1
  | run o j st =>
    obtain ⟨D, h1, h2, h3⟩ := h
    cases j with
    | call p f s k =>
      simp only [Parsers.step] at hs
      cases hs
      refine ⟨?_, hm⟩
      have key : ∀ f', CallGives P p f' s = CallGives P p f s → WaitersOk P g M ((o, k) :: st) (CallGives P p f' s) := fun f' e =>
        ⟨D, h1, fun u hu v hv => h2 v (.call (by rw [e] at hu; exact hu) hv), h3⟩
      unfold Thread.begin
      split
      · rename_i hp
        subst hp
        exact key false (funext fun v => propext callGives_script.symm)
      · exact key f rfl
    | char k =>
      rcases o with _ | ⟨p, s⟩
      · simp only [Parsers.step] at hs
        cases hs
        exact ⟨⟨D, h1, fun v hv => h2 v (.charNone hv), h3⟩, hm⟩
      · simp only [Parsers.step] at hs
        cases hs
        refine ⟨⟨D, h1, fun v hv => h2 v (.char ?_), ?_⟩, hm⟩
        · simpa [lexOf, setAt] using hv
        · cases ho with
          | call _ hlt =>
            refine waitersOk_lex (fun q hq => ?_) h3
            have : q ≠ p := fun e => by
              have := hlt q hq
              rw [e] at this
              exact Nat.lt_irrefl _ this
            simp [setAt, this]
    | flag k =>
      rcases o with _ | ⟨p, s⟩
      · simp only [Parsers.step] at hs
        cases hs
        exact ⟨⟨D, h1, fun v hv => h2 v (.flagNone hv), h3⟩, hm⟩
      · simp only [Parsers.step] at hs
        cases hs
        exact ⟨⟨D, h1, fun v hv => h2 v (.flag hv), h3⟩, hm⟩
    | done r =>
      have hd : D r := h2 r (.done _ r)
      rcases o with _ | ⟨p, s⟩
      · simp only [Parsers.step] at hs
        cases hs
        exact ⟨threadOk_resume hd h3, hm⟩
      · simp only [Parsers.step] at hs
        cases hs
        refine ⟨?_, hm⟩
        split
        · rename_i hp
          subst hp
          obtain ⟨f, hf⟩ := h1 .script s rfl
          have hg := callGives_script.1 (hf r hd)
          refine ⟨hg, waitersOk_shared (g := g) (by rfl) (waitersOk_mono (fun v hv => ?_) h3)⟩
          have : v = r := eval_unique hv hg
          rw [this]
          exact hd
        · exact threadOk_resume hd (waitersOk_shared (g := g) (by rfl) h3)

/-! ### Who holds the locks -/

theorem resume_owners (r : β) (st : List (Frame β)) : (Thread.resume r st).owners = if st = [] then [none] else st.map (·.1) := by
  cases st with
  | nil => rfl
  | cons e st => rfl

theorem resume_held (r : β) (st : List (Frame β)) : (Thread.resume r st).held = kindsOf (st.map (·.1)) := by
  cases st with
  | nil => rfl
  | cons e st => rfl

theorem begin_owners (p : PKind) (f : Bool) (s : Str) (st : List (Frame β)) : (Thread.begin p f s st).owners = some (p, s) :: st.map (·.1) := by
  unfold Thread.begin
  split
  · rename_i h; subst h; rfl
  · rfl

theorem begin_held (p : PKind) (f : Bool) (s : Str) (st : List (Frame β)) : (Thread.begin p f s st).held = kindsOf (st.map (·.1)) := by
  unfold Thread.begin
  split <;> rfl

theorem resume_stacked {r : β} {st : List (Frame β)} (h : Stacked (st.map (·.1))) : Stacked (Thread.resume r st).owners := by
  rw [resume_owners]
  split
  · exact .main
  · exact h

theorem resume_orderedCalls {r : β} {st : List (Frame β)} (h : ∀ e ∈ st, ∀ r, (e.2 r).Above (e.1.map (·.1))) :
    (Thread.resume r st).OrderedCalls := by
  cases st with
  | nil => trivial
  | cons e st => exact ⟨h e List.mem_cons_self r, fun e' he' => h e' (List.mem_cons_of_mem _ he')⟩

/-- A step keeps the order of the calls. -/
theorem step_order {P : Parsers β} (hP : P.Ordered) {i : Nat} {g g' : Shared β} {t t' : Thread β} (hs : P.step i g t = some (g', t'))
    (ho : Stacked t.owners) (hc : t.OrderedCalls) : Stacked t'.owners ∧ t'.OrderedCalls := by
  cases t with
  | fin r => cases hs
  | look s st =>
    simp only [Parsers.step] at hs
    split at hs
    · cases hs
      exact ⟨resume_stacked (stacked_tail ho), resume_orderedCalls hc⟩
    · cases hs
      exact ⟨ho, hc⟩
  | wait p f s st =>
    simp only [Parsers.step] at hs
    split at hs
    · cases hs
    · cases hs
      exact ⟨ho, hc⟩
  | input p f s st =>
    simp only [Parsers.step] at hs
    cases hs
    exact ⟨ho, hP p s, hc⟩
  | store s r st =>
    simp only [Parsers.step] at hs
    cases hs
    exact ⟨resume_stacked (stacked_tail ho), resume_orderedCalls hc⟩
  | run o j st =>
    obtain ⟨hj, hst⟩ := hc
    cases j with
    | call p f s k =>
      simp only [Parsers.step] at hs
      cases hs
      refine ⟨?_, ?_⟩
      · rw [begin_owners]
        exact stacked_above ho hj.1
      · have : ∀ e ∈ (o, k) :: st, ∀ r, (e.2 r).Above (e.1.map (·.1)) := by
          intro e he r
          rcases List.mem_cons.1 he with rfl | he
          · exact hj.2 r
          · exact hst e he r
        unfold Thread.begin
        split <;> exact this
    | char k =>
      rcases o with _ | ⟨p, s⟩ <;> simp only [Parsers.step] at hs <;> cases hs <;> exact ⟨ho, hj _, hst⟩
    | flag k =>
      rcases o with _ | ⟨p, s⟩ <;> simp only [Parsers.step] at hs <;> cases hs <;> exact ⟨ho, hj _, hst⟩
    | done r =>
      rcases o with _ | ⟨p, s⟩
      · simp only [Parsers.step] at hs
        cases hs
        have : st = [] := List.map_eq_nil_iff.1 (stacked_none ho)
        subst this
        exact ⟨.main, trivial⟩
      · simp only [Parsers.step] at hs
        cases hs
        split
        · rename_i hp
          subst hp
          exact ⟨ho, hst⟩
        · exact ⟨resume_stacked (stacked_tail ho), resume_orderedCalls hst⟩

/-- A step changes at most one lock: it takes a free one, or it gives one back that the thread had. -/
theorem step_locks {P : Parsers β} {i : Nat} {g g' : Shared β} {t t' : Thread β} (hs : P.step i g t = some (g', t'))
    (ho : Stacked t.owners) :
    (g'.lock = g.lock ∧ t'.held = t.held) ∨
    (∃ p, g.lock p = none ∧ g'.lock = setAt g.lock p (some i) ∧ t'.held = p :: t.held) ∨
    (∃ p, p ∉ t'.held ∧ g'.lock = setAt g.lock p none ∧ t.held = p :: t'.held) := by
  cases t with
  | fin r => cases hs
  | look s st =>
    simp only [Parsers.step] at hs
    split at hs
    · cases hs
      exact .inl ⟨rfl, by rw [resume_held]; rfl⟩
    · cases hs
      exact .inl ⟨rfl, rfl⟩
  | wait p f s st =>
    simp only [Parsers.step] at hs
    split at hs
    · cases hs
    · rename_i hp
      cases hs
      exact .inr (.inl ⟨p, hp, rfl, rfl⟩)
  | input p f s st =>
    simp only [Parsers.step] at hs
    cases hs
    exact .inl ⟨rfl, rfl⟩
  | store s r st =>
    simp only [Parsers.step] at hs
    cases hs
    exact .inl ⟨rfl, by rw [resume_held]; rfl⟩
  | run o j st =>
    cases j with
    | call p f s k =>
      simp only [Parsers.step] at hs
      cases hs
      exact .inl ⟨rfl, by rw [begin_held]; rfl⟩
    | char k => rcases o with _ | ⟨p, s⟩ <;> simp only [Parsers.step] at hs <;> cases hs <;> exact .inl ⟨rfl, rfl⟩
    | flag k => rcases o with _ | ⟨p, s⟩ <;> simp only [Parsers.step] at hs <;> cases hs <;> exact .inl ⟨rfl, rfl⟩
    | done r =>
      rcases o with _ | ⟨p, s⟩
      · simp only [Parsers.step] at hs
        cases hs
        exact .inl ⟨rfl, by rw [resume_held]; rfl⟩
      · simp only [Parsers.step] at hs
        cases hs
        refine .inr (.inr ⟨p, ?_, rfl, ?_⟩)
        · have : p ∉ kindsOf (st.map (·.1)) := by
            cases ho with
            | call _ hlt => exact fun h => Nat.lt_irrefl _ (hlt p h)
          split
          · exact this
          · rw [resume_held]; exact this
        · split
          · rfl
          · rw [resume_held]; rfl

/-- A step changes only lexers whose lock the thread has. -/
theorem step_lex {P : Parsers β} {i : Nat} {g g' : Shared β} {t t' : Thread β} (hs : P.step i g t = some (g', t')) {p : PKind}
    (hp : p ∉ t.held) : g'.lex p = g.lex p := by
  cases t with
  | fin r => cases hs
  | look s st =>
    simp only [Parsers.step] at hs
    split at hs <;> cases hs <;> rfl
  | wait q f s st =>
    simp only [Parsers.step] at hs
    split at hs <;> cases hs
    rfl
  | input q f s st =>
    simp only [Parsers.step] at hs
    cases hs
    have : p ≠ q := fun e => hp (by simp [Thread.held, e])
    simp [setAt, this]
  | store s r st =>
    simp only [Parsers.step] at hs
    cases hs
    rfl
  | run o j st =>
    cases j with
    | call q f s k => simp only [Parsers.step] at hs; cases hs; rfl
    | flag k => rcases o with _ | ⟨q, s⟩ <;> simp only [Parsers.step] at hs <;> cases hs <;> rfl
    | done r => rcases o with _ | ⟨q, s⟩ <;> simp only [Parsers.step] at hs <;> cases hs <;> rfl
    | char k =>
      rcases o with _ | ⟨q, s⟩
      · simp only [Parsers.step] at hs
        cases hs
        rfl
      · simp only [Parsers.step] at hs
        cases hs
        have : p ≠ q := fun e => hp (by simp [Thread.held, kindsOf, e])
        simp [setAt, this]

/-! ### All the threads -/

/-- The invariant: `Ms` tells for each thread what it may give. -/
structure PoolOk (P : Parsers β) (Ms : List (β → Prop)) (x : Pool β) : Prop where
  length : x.threads.length = Ms.length
  gives : ∀ (i : Nat) (t : Thread β) (M : β → Prop), x.threads[i]? = some t → Ms[i]? = some M → ThreadOk P x.shared M t
  stacked : ∀ t ∈ x.threads, Stacked t.owners ∧ t.OrderedCalls
  holder : ∀ (i : Nat) (p : PKind), x.shared.lock p = some i ↔ ∃ t, x.threads[i]? = some t ∧ p ∈ t.held
  memo : MemoOk P x.shared.memo

theorem initial_ok (P : Parsers β) (lex : PKind → LexState) (js : List (Job β)) (hj : ∀ j ∈ js, j.Above none) :
    PoolOk P (js.map fun j => Eval P none j) (Pool.initial lex js) where
  length := by simp [Pool.initial]
  gives := by
    intro i t M ht hM
    simp only [Pool.initial, List.getElem?_map] at ht hM
    cases h : js[i]? with
    | none => rw [h] at ht; cases ht
    | some j =>
      rw [h] at ht hM
      cases ht
      cases hM
      exact ⟨Eval P none j, by rintro p s ⟨⟩, fun v hv => hv, fun v hv => hv⟩
  stacked := by
    intro t ht
    simp only [Pool.initial, List.mem_map] at ht
    obtain ⟨j, hj', rfl⟩ := ht
    exact ⟨.main, hj j hj', by simp⟩
  holder := by
    intro i p
    simp only [Pool.initial, List.getElem?_map, reduceCtorEq, false_iff]
    rintro ⟨t, ht, hp⟩
    cases h : js[i]? with
    | none => rw [h] at ht; cases ht
    | some j =>
      rw [h] at ht
      cases ht
      simp [Thread.held, kindsOf] at hp
  memo := by simp [MemoOk, Pool.initial]

theorem getElem?_swap {α : Type} (a b : List α) (t t' : α) (i : Nat) :
    (a ++ t' :: b)[i]? = if i = a.length then some t' else (a ++ t :: b)[i]? := by
  split
  · rename_i h; subst h; simp
  · rename_i h
    rcases Nat.lt_or_gt_of_ne h with h | h
    · rw [List.getElem?_append_left h, List.getElem?_append_left h]
    · rw [List.getElem?_append_right (Nat.le_of_lt h), List.getElem?_append_right (Nat.le_of_lt h)]
      obtain ⟨n, hn⟩ := Nat.exists_eq_add_of_lt h
      have : i - a.length = n + 1 := by omega
      rw [this]
      rfl

theorem step_poolOk {P : Parsers β} (hP : P.Ordered) {Ms : List (β → Prop)} {x y : Pool β} (h : PoolOk P Ms x) (hs : P.Step x y) :
    PoolOk P Ms y := by
  cases hs with
  | @mk g g' a b t t' hs =>
    obtain ⟨hlen, hg, hst, hh, hm⟩ := h
    have htm : t ∈ a ++ t :: b := by simp
    have hti : (a ++ t :: b)[a.length]? = some t := by simp
    have hMi : ∃ M, Ms[a.length]? = some M := by
      have : a.length < Ms.length := by rw [← hlen]; simp
      exact ⟨_, List.getElem?_eq_getElem this⟩
    have hown : ∀ p ∈ t.held, g.lock p = some a.length := fun p hp => (hh a.length p).2 ⟨t, hti, hp⟩
    have hst' := step_order hP hs (hst t htm).1 (hst t htm).2
    have hlk := step_locks hs (hst t htm).1
    obtain ⟨M0, hM0⟩ := hMi
    have hok := threadStep_ok hs (hst t htm).1 (hg a.length t M0 hti hM0) hm
    refine ⟨by simpa using hlen, ?_, ?_, ?_, hok.2⟩
    · intro i u M hu hM
      rw [getElem?_swap a b t t'] at hu
      split at hu
      · rename_i hi
        subst hi
        rw [hM0] at hM
        cases hM
        cases hu
        exact hok.1
      · rename_i hi
        refine threadOk_lex (fun p hp => ?_) (hg i u M hu hM)
        refine step_lex hs fun hp' => hi ?_
        have h1 := hown p hp'
        have h2 := (hh i p).2 ⟨u, hu, hp⟩
        simp only at h2
        rw [h1] at h2
        exact (Option.some.inj h2).symm
    · intro u hu
      simp only [List.mem_append, List.mem_cons] at hu
      rcases hu with hu | rfl | hu
      · exact hst u (by simp [hu])
      · exact hst'
      · exact hst u (by simp [hu])
    · intro i p
      simp only at hh ⊢
      simp only [getElem?_swap a b t t']
      rcases hlk with ⟨hl, he⟩ | ⟨q, hq, hl, he⟩ | ⟨q, hq, hl, he⟩
      · rw [hl, hh]
        by_cases hi : i = a.length
        · subst hi
          simp [he]
        · simp [hi]
      · rw [hl]
        unfold setAt
        by_cases hi : i = a.length
        · subst hi
          simp only [if_true, Option.some.injEq, exists_eq_left', he, List.mem_cons]
          by_cases hpq : p = q
          · simp [hpq]
          · simp only [hpq, if_false, false_or]
            rw [hh]
            simp
        · simp only [hi, if_false]
          by_cases hpq : p = q
          · subst hpq
            simp only [if_true, Option.some.injEq]
            constructor
            · exact fun e => absurd e.symm hi
            · intro h'
              have := (hh i p).2 h'
              rw [hq] at this
              cases this
          · simp only [hpq, if_false]
            exact hh i p
      · rw [hl]
        unfold setAt
        by_cases hi : i = a.length
        · subst hi
          simp only [if_true, Option.some.injEq, exists_eq_left']
          by_cases hpq : p = q
          · subst hpq
            simp [hq]
          · simp only [hpq, if_false]
            rw [hh]
            simp [he, hpq]
        · simp only [hi, if_false]
          by_cases hpq : p = q
          · subst hpq
            simp only [if_true, reduceCtorEq, false_iff]
            intro h'
            have h1 := (hh i p).2 h'
            have h2 := hown p (by rw [he]; exact List.mem_cons_self)
            rw [h2] at h1
            exact hi (Option.some.inj h1).symm
          · simp only [hpq, if_false]
            exact hh i p

theorem steps_poolOk {P : Parsers β} (hP : P.Ordered) {Ms : List (β → Prop)} {x y : Pool β} (h : PoolOk P Ms x) (hs : P.Steps x y) :
    PoolOk P Ms y := by
  induction hs with
  | refl => exact h
  | tail _ hs ih => exact step_poolOk hP ih hs

/-! ### Some thread can go on -/

theorem step_some {P : Parsers β} {i : Nat} {g : Shared β} {t : Thread β} (h : P.step i g t = none) :
    (∃ r, t = .fin r) ∨ ∃ p f s st j, t = .wait p f s st ∧ g.lock p = some j := by
  cases t with
  | fin r => exact .inl ⟨r, rfl⟩
  | look s st => simp only [Parsers.step] at h; split at h <;> cases h
  | wait p f s st =>
    simp only [Parsers.step] at h
    split at h
    · rename_i j hj
      exact .inr ⟨p, f, s, st, j, rfl, hj⟩
    · cases h
  | input p f s st => simp [Parsers.step] at h
  | store s r st => simp [Parsers.step] at h
  | run o j st =>
    cases j <;> rcases o with _ | ⟨p, s⟩ <;> simp [Parsers.step] at h

theorem rank_lt (p : PKind) : p.rank < 3 := by cases p <;> decide

/-- A thread that waits for a lock waits for a thread that can go on. -/
theorem waits_for {P : Parsers β} {Ms : List (β → Prop)} {x : Pool β} (h : PoolOk P Ms x) : ∀ (n : Nat) (p : PKind) (j : Nat), 3 - p.rank = n →
    x.shared.lock p = some j → ∃ (i : Nat) (t : Thread β) (g' : Shared β) (t' : Thread β), x.threads[i]? = some t ∧ P.step i x.shared t = some (g', t') := by
  intro n
  induction n using Nat.strongRecOn with
  | _ n ih =>
    intro p j hn hl
    obtain ⟨t, ht, hp⟩ := (h.holder j p).1 hl
    cases hs : P.step j x.shared t with
    | some y => exact ⟨j, t, y.1, y.2, ht, hs⟩
    | none =>
      rcases step_some hs with ⟨r, rfl⟩ | ⟨q, f, s, st, j', rfl, hq⟩
      · simp [Thread.held] at hp
      · have hst := (h.stacked _ (List.mem_of_getElem? ht)).1
        have hlt : p.rank < q.rank := by
          cases hst with
          | call _ hlt => exact hlt p hp
        have := rank_lt q
        exact ih (3 - q.rank) (by omega) q j' rfl hq

theorem step_of_getElem? {P : Parsers β} {x : Pool β} {i : Nat} {t t' : Thread β} {g' : Shared β} (ht : x.threads[i]? = some t)
    (hs : P.step i x.shared t = some (g', t')) : ∃ y, P.Step x y := by
  obtain ⟨g, ts⟩ := x
  obtain ⟨hi, he⟩ := List.getElem?_eq_some_iff.1 ht
  have hsplit : ts = ts.take i ++ t :: ts.drop (i + 1) := by
    simp only at he
    rw [← he, List.getElem_cons_drop, List.take_append_drop]
  have hlen : (ts.take i).length = i := by simp only at hi; simp [Nat.le_of_lt hi]
  refine ⟨⟨g', ts.take i ++ t' :: ts.drop (i + 1)⟩, ?_⟩
  have := @Parsers.Step.mk β P g g' (ts.take i) (ts.drop (i + 1)) t t' (by rw [hlen]; exact hs)
  rwa [← hsplit] at this

/-- Unless all the threads are finished one can go on. -/
theorem poolOk_progress {P : Parsers β} {Ms : List (β → Prop)} {x : Pool β} (h : PoolOk P Ms x) (hn : ∃ t ∈ x.threads, ∀ r, t ≠ .fin r) :
    ∃ y, P.Step x y := by
  obtain ⟨t, ht, hf⟩ := hn
  obtain ⟨i, hi⟩ := List.mem_iff_getElem?.1 ht
  cases hs : P.step i x.shared t with
  | some y => exact step_of_getElem? hi hs
  | none =>
    rcases step_some hs with ⟨r, rfl⟩ | ⟨p, f, s, st, j, rfl, hl⟩
    · exact absurd rfl (hf r)
    · obtain ⟨i', t', g', t'', h1, h2⟩ := waits_for h _ p j rfl hl
      exact step_of_getElem? h1 h2

/-! ### The threads come to their end -/

/-- One step of a thread, whatever the others do. -/
def ThreadNext (P : Parsers β) (t' t : Thread β) : Prop := ∃ i g g', P.step i g t = some (g', t')

theorem acc_store {P : Parsers β} {s : Str} {r : β} {st : List (Frame β)} (h : Acc (ThreadNext P) (.resume r st)) :
    Acc (ThreadNext P) (.store s r st) := by
  refine .intro _ ?_
  rintro t' ⟨i, g, g', hs⟩
  simp only [Parsers.step] at hs
  cases hs
  exact h

theorem acc_run {P : Parsers β} {o : Option (PKind × Str)}
    (ih : ∀ q : PKind, (∀ p, o.map (·.1) = some p → p.rank < q.rank) → ∀ f s (st : List (Frame β)), (∀ r, Acc (ThreadNext P) (.resume r st)) →
      Acc (ThreadNext P) (.begin q f s st)) :
    ∀ (j : Job β), j.Above (o.map (·.1)) → ∀ st : List (Frame β), (∀ r, Acc (ThreadNext P) (.resume r st)) → Acc (ThreadNext P) (.run o j st) := by
  intro j
  induction j with
  | done r =>
    intro _ st h
    refine .intro _ ?_
    rintro t' ⟨i, g, g', hs⟩
    rcases o with _ | ⟨p, s⟩
    · simp only [Parsers.step] at hs
      cases hs
      exact h r
    · simp only [Parsers.step] at hs
      cases hs
      split
      · exact acc_store (h r)
      · exact h r
  | char k ihk =>
    intro hj st h
    refine .intro _ ?_
    rintro t' ⟨i, g, g', hs⟩
    rcases o with _ | ⟨p, s⟩ <;> simp only [Parsers.step] at hs <;> cases hs <;> exact ihk _ (hj _) st h
  | flag k ihk =>
    intro hj st h
    refine .intro _ ?_
    rintro t' ⟨i, g, g', hs⟩
    rcases o with _ | ⟨p, s⟩ <;> simp only [Parsers.step] at hs <;> cases hs <;> exact ihk _ (hj _) st h
  | call q f s k ihk =>
    intro hj st h
    refine .intro _ ?_
    rintro t' ⟨i, g, g', hs⟩
    simp only [Parsers.step] at hs
    cases hs
    exact ih q hj.1 f s _ fun r => ihk r (hj.2 r) st h

theorem acc_begin {P : Parsers β} (hP : P.Ordered) : ∀ (n : Nat) (p : PKind), 3 - p.rank = n → ∀ f s (st : List (Frame β)),
    (∀ r, Acc (ThreadNext P) (.resume r st)) → Acc (ThreadNext P) (.begin p f s st) := by
  intro n
  induction n using Nat.strongRecOn with
  | _ n ih =>
    intro p hn f s st h
    have hin : ∀ f, Acc (ThreadNext P) (.input p f s st) := by
      intro f
      refine .intro _ ?_
      rintro t' ⟨i, g, g', hs⟩
      simp only [Parsers.step] at hs
      cases hs
      refine acc_run (o := some (p, s)) (fun q hq f' s' st' h' => ?_) _ (hP p s) st h
      have h1 := hq p rfl
      have h2 := rank_lt q
      exact ih (3 - q.rank) (by omega) q rfl f' s' st' h'
    have hw : ∀ f, Acc (ThreadNext P) (.wait p f s st) := by
      intro f
      refine .intro _ ?_
      rintro t' ⟨i, g, g', hs⟩
      simp only [Parsers.step] at hs
      split at hs
      · cases hs
      · cases hs
        exact hin f
    unfold Thread.begin
    split
    · rename_i hp
      subst hp
      refine .intro _ ?_
      rintro t' ⟨i, g, g', hs⟩
      simp only [Parsers.step] at hs
      split at hs
      · cases hs
        exact h _
      · cases hs
        exact hw false
    · exact hw f

theorem acc_main {P : Parsers β} (hP : P.Ordered) (j : Job β) (hj : j.Above none) : Acc (ThreadNext P) (.run none j []) := by
  refine acc_run (o := none) (fun q _ f s st h => acc_begin hP _ q rfl f s st h) j hj [] fun r => .intro _ ?_
  rintro t' ⟨i, g, g', hs⟩
  cases hs

/-- One of the elements becomes smaller. -/
inductive OneLess {α : Type} (r : α → α → Prop) : List α → List α → Prop where
  | mk {a b : List α} {t t' : α} : r t' t → OneLess r (a ++ t' :: b) (a ++ t :: b)

theorem acc_cons {α : Type} {r : α → α → Prop} {t : α} (ht : Acc r t) : ∀ {l : List α}, Acc (OneLess r) l → Acc (OneLess r) (t :: l) := by
  induction ht with
  | intro t _ iht =>
    intro l hl
    induction hl with
    | intro l hl ihl =>
      refine .intro _ fun y hy => ?_
      generalize hz : t :: l = z at hy
      cases hy with
      | @mk a b u u' hu =>
        cases a with
        | nil =>
          cases hz
          exact iht u' hu (.intro l hl)
        | cons x a =>
          cases hz
          exact ihl _ ⟨hu⟩

theorem acc_list {α : Type} {r : α → α → Prop} (l : List α) (h : ∀ t ∈ l, Acc r t) : Acc (OneLess r) l := by
  induction l with
  | nil =>
    refine .intro _ fun y hy => ?_
    generalize hz : ([] : List α) = z at hy
    cases hy with
    | mk _ => simp at hz
  | cons t l ih => exact acc_cons (h t List.mem_cons_self) (ih fun t ht => h t (List.mem_cons_of_mem _ ht))

theorem acc_pool {P : Parsers β} {l : List (Thread β)} (h : Acc (OneLess (ThreadNext P)) l) : ∀ g, Acc (fun y x => P.Step x y) ⟨g, l⟩ := by
  induction h with
  | intro l _ ih =>
    intro g
    refine .intro _ fun y hy => ?_
    generalize hz : (⟨g, l⟩ : Pool β) = z at hy
    cases hy with
    | @mk g g' a b t t' hs =>
      cases hz
      exact ih _ ⟨⟨_, _, _, hs⟩⟩ g'

theorem acc_initial {P : Parsers β} (hP : P.Ordered) (lex : PKind → LexState) (js : List (Job β)) (hj : ∀ j ∈ js, j.Above none) :
    Acc (fun y x => P.Step x y) (Pool.initial lex js) := by
  refine acc_pool (acc_list _ fun t ht => ?_) _
  simp only [List.mem_map] at ht
  obtain ⟨j, hj', rfl⟩ := ht
  exact acc_main hP j (hj j hj')

/-- A program calls only parsers, so that any of them may be the program of a thread. -/
theorem above_none (j : Job β) : j.Above none := by
  induction j with
  | done r => trivial
  | char k ih => exact ih
  | flag k ih => exact ih
  | call p f s k ih => exact ⟨by rintro q ⟨⟩, ih⟩

theorem steps_append {P : Parsers β} {x y z : Pool β} (h1 : P.Steps x y) (h2 : P.Steps y z) : P.Steps x z := by
  induction h2 with
  | refl => exact h1
  | tail _ hs ih => exact .tail ih hs

end Verif
