import Verif.Lemmas.Threads
import Verif.Props.Decoration
import Verif.Model.Parser

/-
C98: the parsers used by several threads.
-/

namespace Verif
variable {β : Type}

theorem inside_held {p : PKind} {t : Thread β} : t.Inside p ↔ p ∈ t.held := by
  have key : ∀ st : List (Frame β), (∃ e ∈ st, ∃ s, e.1 = some (p, s)) ↔ p ∈ kindsOf (st.map (·.1)) := by
    intro st
    simp only [kindsOf, List.mem_filterMap, List.mem_map]
    constructor
    · rintro ⟨e, he, s, h⟩
      exact ⟨some (p, s), ⟨e, he, h⟩, rfl⟩
    · rintro ⟨o, ⟨e, he, rfl⟩, h⟩
      obtain ⟨x, hx, rfl⟩ := Option.map_eq_some_iff.1 h
      exact ⟨e, he, x.2, hx⟩
  cases t with
  | fin r => simp [Thread.Inside, Thread.held]
  | look s st => exact key st
  | wait q f s st => exact key st
  | store s r st => exact key st
  | input q f s st =>
    simp only [Thread.Inside, Thread.held, List.mem_cons, key st]
    exact or_congr ⟨Eq.symm, Eq.symm⟩ Iff.rfl
  | run o j st =>
    simp only [Thread.Inside, key st]
    rcases o with _ | ⟨q, s⟩
    · simp [Thread.held, kindsOf]
    · simp only [Thread.held, kindsOf, List.filterMap_cons, Option.map_some, List.mem_cons]
      refine or_congr ⟨?_, ?_⟩ Iff.rfl
      · rintro ⟨s', h⟩
        cases h
        rfl
      · rintro rfl
        exact ⟨s, rfl⟩

/-- **C98**: whatever the threads do and in whatever order their instructions are done, a thread that is finished has the result that its program gives
alone, without memo and with lexers of its own. -/
theorem C98_result {P : Parsers β} (hP : P.Ordered) (lex : PKind → LexState) (js : List (Job β)) {y : Pool β} (hy : P.Steps (.initial lex js) y)
    {i : Nat} {j : Job β} {v : β} (hj : js[i]? = some j) (hv : y.threads[i]? = some (.fin v)) : Eval P none j v := by
  have h := steps_poolOk hP (initial_ok P lex js fun j _ => above_none j) hy
  exact h.gives i (.fin v) (Eval P none j) hv (by simp [hj])

/-- Never are two threads inside the same parser. -/
theorem C98_exclusion {P : Parsers β} (hP : P.Ordered) (lex : PKind → LexState) (js : List (Job β)) {y : Pool β} (hy : P.Steps (.initial lex js) y)
    {i i' : Nat} {t t' : Thread β} (ht : y.threads[i]? = some t) (ht' : y.threads[i']? = some t') {p : PKind} (h : t.Inside p) (h' : t'.Inside p) :
    i = i' := by
  have ho := steps_poolOk hP (initial_ok P lex js fun j _ => above_none j) hy
  have h1 := (ho.holder i p).2 ⟨t, ht, inside_held.1 h⟩
  have h2 := (ho.holder i' p).2 ⟨t', ht', inside_held.1 h'⟩
  rw [h1] at h2
  exact Option.some.inj h2

/-- A lock is held exactly by the thread that is inside its parser; so all the locks are free when all the threads are finished. -/
theorem C98_holder {P : Parsers β} (hP : P.Ordered) (lex : PKind → LexState) (js : List (Job β)) {y : Pool β} (hy : P.Steps (.initial lex js) y)
    (i : Nat) (p : PKind) : y.shared.lock p = some i ↔ ∃ t, y.threads[i]? = some t ∧ t.Inside p := by
  rw [(steps_poolOk hP (initial_ok P lex js fun j _ => above_none j) hy).holder]
  simp only [inside_held]

/-- The threads never block each other: as long as one is not finished, one can go on. -/
theorem C98_progress {P : Parsers β} (hP : P.Ordered) (lex : PKind → LexState) (js : List (Job β)) {y : Pool β} (hy : P.Steps (.initial lex js) y)
    (hn : ∃ t ∈ y.threads, ∀ r, t ≠ .fin r) : ∃ z, P.Step y z :=
  poolOk_progress (steps_poolOk hP (initial_ok P lex js fun j _ => above_none j) hy) hn

/-- There is no infinite execution. -/
theorem C98_terminates {P : Parsers β} (hP : P.Ordered) (lex : PKind → LexState) (js : List (Job β)) :
    ¬ ∃ f : Nat → Pool β, f 0 = .initial lex js ∧ ∀ n, P.Step (f n) (f (n + 1)) := by
  rintro ⟨f, h0, hf⟩
  have key : ∀ x, Acc (fun y x => P.Step x y) x → ∀ n, f n ≠ x := by
    intro x hx
    induction hx with
    | intro x _ ih =>
      rintro n rfl
      exact ih _ (hf n) (n + 1) rfl
  exact key _ (acc_initial hP lex js fun j _ => above_none j) 0 h0

theorem steps_acc {P : Parsers β} {x y : Pool β} (h : Acc (fun y x => P.Step x y) x) (hs : P.Steps x y) : Acc (fun y x => P.Step x y) y := by
  induction hs with
  | refl => exact h
  | tail _ hs ih => exact ih.inv hs

/-- Where no thread can go on, all are finished, each with the result its program gives alone. -/
theorem C98_complete {P : Parsers β} (hP : P.Ordered) (lex : PKind → LexState) (js : List (Job β)) {y : Pool β} (hy : P.Steps (.initial lex js) y)
    (hn : ¬ ∃ z, P.Step y z) : ∃ rs : List β, y.threads = rs.map .fin ∧ List.Forall₂ (Eval P none) js rs := by
  have ho := steps_poolOk hP (initial_ok P lex js fun j _ => above_none j) hy
  have hall : ∀ t ∈ y.threads, ∃ r, t = .fin r := by
    intro t ht
    refine Classical.byContradiction fun hc => hn (C98_progress hP lex js hy ⟨t, ht, fun r e => hc ⟨r, e⟩⟩)
  have hex : ∀ ts : List (Thread β), (∀ t ∈ ts, ∃ r, t = .fin r) → ∃ rs : List β, ts = rs.map .fin := by
    intro ts
    induction ts with
    | nil => exact fun _ => ⟨[], rfl⟩
    | cons t ts ih =>
      intro h
      obtain ⟨r, rfl⟩ := h t List.mem_cons_self
      obtain ⟨rs, rfl⟩ := ih fun t ht => h t (List.mem_cons_of_mem _ ht)
      exact ⟨r :: rs, rfl⟩
  obtain ⟨rs, hrs⟩ := hex _ hall
  have hlen : js.length = rs.length := by
    have := ho.length
    rw [hrs] at this
    simpa using this.symm
  refine ⟨rs, hrs, List.forall₂_iff_get.2 ⟨hlen, fun i h1 h2 => ?_⟩⟩
  refine C98_result hP lex js hy (List.getElem?_eq_getElem h1) ?_
  rw [hrs, List.getElem?_map, List.getElem?_eq_getElem h2]
  rfl

/-- From every state that can be reached all the threads can be finished. -/
theorem C98_finishes {P : Parsers β} (hP : P.Ordered) (lex : PKind → LexState) (js : List (Job β)) {y : Pool β} (hy : P.Steps (.initial lex js) y) :
    ∃ z, P.Steps y z ∧ ∀ t ∈ z.threads, ∃ r, t = .fin r := by
  have ha := steps_acc (acc_initial hP lex js fun j _ => above_none j) hy
  induction ha with
  | intro y _ ih =>
    by_cases hn : ∃ t ∈ y.threads, ∀ r, t ≠ .fin r
    · obtain ⟨z, hz⟩ := C98_progress hP lex js hy hn
      obtain ⟨u, hu, hf⟩ := ih z hz (.tail hy hz)
      exact ⟨u, steps_append (.tail (.refl _) hz) hu, hf⟩
    · refine ⟨y, .refl _, fun t ht => ?_⟩
      exact Classical.byContradiction fun hc => hn ⟨t, ht, fun r e => hc ⟨r, e⟩⟩

/-- Every program gives exactly one result alone; so the results of the threads do not depend on the order of the instructions. -/
theorem C98_alone {P : Parsers β} (hP : P.Ordered) (j : Job β) : ∃ r, Eval P none j r ∧ ∀ r', Eval P none j r' → r' = r := by
  let lex : PKind → LexState := fun p => .start p false []
  obtain ⟨z, hz, hf⟩ := C98_finishes hP lex [j] (.refl _)
  have hlen := (steps_poolOk hP (initial_ok P lex [j] fun j _ => above_none j) hz).length
  cases hts : z.threads with
  | nil => rw [hts] at hlen; simp at hlen
  | cons t ts =>
    obtain ⟨r, rfl⟩ := hf t (by rw [hts]; exact List.mem_cons_self)
    have h := C98_result hP lex [j] (i := 0) hz rfl (by rw [hts]; rfl)
    exact ⟨r, h, fun r' h' => eval_unique h' h⟩

/-- Two executions that came to their end, with whatever lexers before, have the same results. -/
theorem C98_schedules {P : Parsers β} (hP : P.Ordered) (lex lex' : PKind → LexState) (js : List (Job β)) {y y' : Pool β}
    (hy : P.Steps (.initial lex js) y) (hy' : P.Steps (.initial lex' js) y') (hn : ¬ ∃ z, P.Step y z) (hn' : ¬ ∃ z, P.Step y' z) :
    y.threads = y'.threads := by
  obtain ⟨rs, h1, h2⟩ := C98_complete hP lex js hy hn
  obtain ⟨rs', h1', h2'⟩ := C98_complete hP lex' js hy' hn'
  rw [h1, h1']
  congr 1
  clear h1 h1' hy hy' hn hn'
  induction h2 generalizing rs' with
  | nil => cases h2'; rfl
  | cons h _ ih =>
    cases h2' with
    | cons h' t' => rw [eval_unique h h', ih _ t']

/-! ### The memo -/

/-- The memo is as `lru_cache` has it: every text once, and what its parser gives for it; no exceptions; not more than `size`. -/
def MemoGood (P : Parsers β) (memo : List (Str × β)) : Prop :=
  (memo.map (·.1)).Nodup ∧ (∀ e ∈ memo, P.keeps e.2 = true) ∧ (0 < P.size → memo.length ≤ P.size)

theorem remember_good {P : Parsers β} {memo : List (Str × β)} (h : MemoGood P memo) (s : Str) (r : β) : MemoGood P (P.remember memo s r) := by
  refine ⟨?_, ?_, ?_⟩
  · unfold Parsers.remember
    split
    · exact h.1
    · split
      · exact h.1
      · rename_i hf
        have hns : ∀ e ∈ memo, e.1 ≠ s := by
          intro e he hes
          apply hf
          rw [List.find?_isSome]
          exact ⟨e, he, by simpa using hes⟩
        have hsub : ∀ l : List (Str × β), l.Sublist memo → ((l ++ [(s, r)]).map (·.1)).Nodup := by
          intro l hl
          rw [List.map_append, List.nodup_append]
          refine ⟨(hl.map _).nodup h.1, by simp, ?_⟩
          intro a ha b hb
          simp only [List.map_cons, List.map_nil, List.mem_singleton] at hb
          obtain ⟨e, he, rfl⟩ := List.mem_map.1 ha
          rw [hb]
          exact hns e (hl.mem he)
        split
        · exact hsub _ (List.Sublist.refl _)
        · exact hsub _ (List.drop_sublist _ _)
  · intro e he
    rcases remember_mem he with he | ⟨rfl, hk⟩
    · exact h.2.1 e he
    · exact hk
  · intro hsz
    have hl := h.2.2 hsz
    unfold Parsers.remember
    split
    · exact hl
    · split
      · exact hl
      · split
        · simp only [List.length_append, List.length_cons, List.length_nil]; omega
        · simp only [List.length_append, List.length_drop, List.length_cons, List.length_nil]; omega

theorem touch_good {P : Parsers β} {memo : List (Str × β)} (h : MemoGood P memo) {s : Str} {e : Str × β}
    (he : memo.find? (fun e => e.1 = s) = some e) : MemoGood P ((memo.filter fun x => x.1 ≠ s) ++ [e]) := by
  have hm := List.mem_of_find?_eq_some he
  have hs : e.1 = s := by simpa using List.find?_some he
  refine ⟨?_, ?_, ?_⟩
  · rw [List.map_append, List.nodup_append]
    refine ⟨(List.filter_sublist.map _).nodup h.1, by simp, ?_⟩
    intro a ha b hb
    simp only [List.map_cons, List.map_nil, List.mem_singleton] at hb
    obtain ⟨x, hx, rfl⟩ := List.mem_map.1 ha
    rw [hb, hs]
    simpa using (List.mem_filter.1 hx).2
  · intro x hx
    rcases List.mem_append.1 hx with hx | hx
    · exact h.2.1 x (List.mem_filter.1 hx).1
    · rw [List.mem_singleton.1 hx]; exact h.2.1 e hm
  · intro hsz
    refine Nat.le_trans ?_ (h.2.2 hsz)
    simp only [List.length_append, List.length_cons, List.length_nil]
    exact List.length_filter_lt_length_iff_exists.2 ⟨e, hm, by simp [hs]⟩

theorem step_memoGood {P : Parsers β} {i : Nat} {g g' : Shared β} {t t' : Thread β} (hs : P.step i g t = some (g', t')) (h : MemoGood P g.memo) :
    MemoGood P g'.memo := by
  cases t with
  | fin r => cases hs
  | look s st =>
    simp only [Parsers.step] at hs
    split at hs
    · rename_i e he
      cases hs
      exact touch_good h he
    · cases hs
      exact h
  | wait p f s st => simp only [Parsers.step] at hs; split at hs <;> cases hs; exact h
  | input p f s st => simp only [Parsers.step] at hs; cases hs; exact h
  | store s r st => simp only [Parsers.step] at hs; cases hs; exact remember_good h s r
  | run o j st =>
    cases j <;> rcases o with _ | ⟨p, s⟩ <;> simp only [Parsers.step] at hs <;> cases hs <;> exact h

/-- At every moment the memo contains only what the script parser gives alone, every text once, no exception and not more than its size. -/
theorem C98_memo {P : Parsers β} (hP : P.Ordered) (lex : PKind → LexState) (js : List (Job β)) {y : Pool β} (hy : P.Steps (.initial lex js) y) :
    (∀ e ∈ y.shared.memo, CallGives P .script false e.1 e.2 ∧ P.keeps e.2 = true) ∧ (y.shared.memo.map (·.1)).Nodup ∧
      (0 < P.size → y.shared.memo.length ≤ P.size) := by
  have ho := steps_poolOk hP (initial_ok P lex js fun j _ => above_none j) hy
  have hg : MemoGood P y.shared.memo := by
    clear ho
    generalize hx : Pool.initial lex js = x at hy
    induction hy with
    | refl => subst hx; exact ⟨by simp [Pool.initial], by simp [Pool.initial], by simp [Pool.initial]⟩
    | tail _ hs ih =>
      have := ih
      cases hs with
      | mk hs => exact step_memoGood hs this
  exact ⟨fun e he => ⟨ho.memo e he, hg.2.1 e he⟩, hg.1, hg.2.2⟩

/-! ### Reading a text -/

theorem eval_readAll {P : Parsers β} (k : Str → Job β) (text : Str) (f : Bool) : ∀ (n pos : Nat), pos + n = text.length → ∀ r : β,
    Eval P (some ⟨text, pos, f⟩) (readAll k (n + 1) (text.take pos).reverse) r ↔ Eval P (some ⟨text, text.length + 1, f⟩) (k text) r := by
  intro n
  induction n with
  | zero =>
    intro pos hn r
    have hp : text[pos]? = none := List.getElem?_eq_none (by omega)
    have ht : text.take pos = text := List.take_of_length_le (by omega)
    have hl : pos = text.length := by omega
    subst hl
    constructor
    · intro h
      cases h with
      | char h =>
        simp only [LexState.next, hp, ht, List.reverse_reverse] at h
        exact h
    · intro h
      refine .char ?_
      simp only [LexState.next, hp, ht, List.reverse_reverse]
      exact h
  | succ n ih =>
    intro pos hn r
    have hlt : pos < text.length := by omega
    have hp : text[pos]? = some text[pos] := List.getElem?_eq_getElem hlt
    have ht : (text.take (pos + 1)).reverse = text[pos] :: (text.take pos).reverse := by
      rw [List.take_add_one, hp]
      simp
    rw [← ih (pos + 1) (by omega) r, ht]
    constructor
    · intro h
      cases h with
      | char h =>
        simp only [LexState.next, hp] at h
        exact h
    · intro h
      refine .char ?_
      simp only [LexState.next, hp]
      exact h

/-- A parser that reads its text to the end has read the text it was called with, whatever the other threads parse meanwhile. -/
theorem C98_text (P : Parsers β) (p : PKind) (f : Bool) (s : Str) (k : Str → β) (hb : P.body p s = readAll (fun t => .done (k t)) (s.length + 1) [])
    (v : β) : CallGives P p f s v ↔ v = k s := by
  unfold CallGives
  rw [hb]
  have h := eval_readAll (P := P) (fun t => .done (k t)) s (LexState.start p f s).factorize s.length 0 (by omega) v
  simp only [List.take_zero, List.reverse_nil] at h
  refine Iff.trans h ⟨?_, ?_⟩
  · intro h; cases h; rfl
  · rintro rfl; exact .done _ _

/-- The script parser: it reads the text and gives the script or the exception. -/
def scriptParsers : Parsers (Except Err Script) where
  body p s := match p with
    | .script => readAll (fun t => .done (parseScript t)) (s.length + 1) []
    | _ => .done (.error .notImplemented)
  keeps r := match r with
    | .ok _ => true
    | .error _ => false
  size := 10000

theorem readAll_above {o : Option PKind} {k : Str → Job β} (hk : ∀ t, (k t).Above o) : ∀ (n : Nat) (acc : Str), (readAll k n acc).Above o := by
  intro n
  induction n with
  | zero => exact fun acc => hk _
  | succ n ih =>
    intro acc c
    cases c with
    | none => exact hk _
    | some c => exact ih _

theorem scriptParsers_ordered : scriptParsers.Ordered := by
  intro p s
  cases p
  · trivial
  · trivial
  · exact readAll_above (k := fun t => .done _) (fun t => trivial) _ _

/-- Any number of threads that each read a script with `ScriptParser`, in any order of their instructions, come to an end, each with the script of its own text. -/
theorem C98_scripts (lex : PKind → LexState) (texts : List Str) {y : Pool (Except Err Script)}
    (hy : scriptParsers.Steps (.initial lex (texts.map fun s => .call .script false s .done)) y) (hn : ¬ ∃ z, scriptParsers.Step y z) :
    y.threads = texts.map fun s => .fin (parseScript s) := by
  obtain ⟨rs, h1, h2⟩ := C98_complete scriptParsers_ordered lex _ hy hn
  rw [h1]
  clear hy hn h1
  induction texts generalizing rs with
  | nil => cases h2; rfl
  | cons s texts ih =>
    cases h2 with
    | cons h t =>
      rw [List.map_cons, List.map_cons, ih _ t]
      cases h with
      | call hv hr =>
        have := (C98_text scriptParsers .script false s parseScript rfl _).1 hv
        cases hr
        rw [this]

theorem finished_stops {P : Parsers β} {y : Pool β} (h : ∀ t ∈ y.threads, ∃ r, t = .fin r) : ¬ ∃ z, P.Step y z := by
  rintro ⟨z, hz⟩
  cases hz with
  | @mk g g' a b t t' hs =>
    obtain ⟨r, rfl⟩ := h t (by simp)
    cases hs

/-- Such executions exist. -/
example : ∃ y, scriptParsers.Steps (.initial (fun p => .start p false []) ([c!"wa.", c!"S:", c!"?", c!"wa."].map fun s => .call .script false s .done)) y ∧
    y.threads = [c!"wa.", c!"S:", c!"?", c!"wa."].map fun s => .fin (parseScript s) := by
  obtain ⟨z, hz, hf⟩ := C98_finishes scriptParsers_ordered (fun p => .start p false [])
    ([c!"wa.", c!"S:", c!"?", c!"wa."].map fun s => .call .script false s .done) (.refl _)
  exact ⟨z, hz, C98_scripts _ _ hz (finished_stops hf)⟩

/-! A case: a USL parser that calls the parser of paths, which calls the script parser. -/

section Example

/-- The results are texts that tell which parsers read them. -/
def demoParsers : Parsers Str where
  body p s := match p with
    | .script => readAll (fun t => .done ('s' :: t)) (s.length + 1) []
    | .path => readAll (fun t => .call .script false t fun r => .done ('p' :: r)) (s.length + 1) []
    | .usl => readAll (fun t => .call .path false t fun r => .flag fun b => .done ((if b then 'F' else 'u') :: r)) (s.length + 1) []
  keeps _ := true
  size := 1

theorem demoParsers_ordered : demoParsers.Ordered := by
  intro p s
  cases p
  · refine readAll_above (k := fun t => .call .path false t fun r => .flag fun b => .done _) (fun t => ⟨?_, fun r b => trivial⟩) _ _
    rintro q ⟨⟩
    decide
  · refine readAll_above (k := fun t => .call .script false t fun r => .done _) (fun t => ⟨?_, fun r => trivial⟩) _ _
    rintro q ⟨⟩
    decide
  · exact readAll_above (k := fun t => .done _) (fun t => trivial) _ _

example : ∃ z, demoParsers.Steps (.initial (fun p => .start p false []) [.call .usl true (c!"ab") .done, .call .path false (c!"cd") .done]) z ∧
    ∀ t ∈ z.threads, ∃ r, t = .fin r := C98_finishes demoParsers_ordered _ _ (.refl _)

example : Eval demoParsers none (.call .usl true (c!"ab") .done) (c!"Fpsab") := by
  refine .call ?_ (.done _ _)
  refine .char (.char (.char (.call ?_ (.flag (.done _ _)))))
  refine .char (.char (.char (.call ?_ (.done _ _))))
  exact .char (.char (.char (.done _ _)))

end Example

/-! ### Constructions of `InstancedUSL` that overlap -/

variable {ρ : Type} [DecidableEq ρ]

/-- What a construction gives from some point on, when it is alone. -/
def Making.rest (ord : List (Path × Str) → List (Path × Str)) (w : World ρ) : Making ρ → Except Err (List (Path × Str)) × World ρ
  | .enter o ds => instanced ord o ds w
  | .apply o ds f => match applyAll o ds f w with
    | (.error e, w) => (.error e, w.exit)
    | (.ok flexion, w) => (listDecorations ord o flexion w, w.exit)
  | .exit r => (r, w.exit)
  | .made r => (r, w)

theorem making_step_rest {ord : List (Path × Str) → List (Path × Str)} {w w' : World ρ} {m m' : Making ρ} (h : m.step ord w = some (w', m')) :
    m'.rest ord w' = m.rest ord w := by
  cases m with
  | made r => cases h
  | exit r => cases h; rfl
  | enter o ds => cases h; rfl
  | apply o ds f =>
    rcases ds with _ | ⟨_ | d, ds⟩
    · cases h; rfl
    · cases h; rfl
    · simp only [Making.step] at h
      split at h
      · rename_i e w1 he
        cases h
        simp only [Making.rest, applyAll, he]
      · rename_i w1 he
        cases h
        simp only [Making.rest, applyAll, he]

/-- A construction that is alone gives what `InstancedUSL(..)` gives (`instanced`), with the same literals after it. -/
theorem C98_literals_alone (ord : List (Path × Str) → List (Path × Str)) (o : Objects ρ) (ds : List DecArg) (w w' : World ρ)
    (r : Except Err (List (Path × Str))) (h : Making.Steps ord (w, [.enter o ds]) (w', [.made r])) : (r, w') = instanced ord o ds w := by
  have key : ∀ x : World ρ × List (Making ρ), Making.Steps ord (w, [.enter o ds]) x → ∃ m, x.2 = [m] ∧ m.rest ord x.1 = instanced ord o ds w := by
    intro x hx
    generalize hz : ((w, [.enter o ds]) : World ρ × List (Making ρ)) = z at hx
    induction hx with
    | refl => subst hz; exact ⟨_, rfl, rfl⟩
    | tail _ hs ih =>
      obtain ⟨m, hm, hr⟩ := ih
      cases hs with
      | @mk w1 w2 a b t t' hs =>
        cases a with
        | nil =>
          simp only [List.nil_append, List.cons.injEq] at hm
          obtain ⟨rfl, rfl⟩ := hm
          exact ⟨t', rfl, (making_step_rest hs).trans hr⟩
        | cons x a => simp at hm
  obtain ⟨m, hm, hr⟩ := key _ h
  cases hm
  exact hr

/-- The constructions of a `Makings`, with what they give alone. -/
structure MakingsOk (ord : List (Path × Str) → List (Path × Str)) (w0 : World ρ) (cs : List (Objects ρ × List DecArg)) (y : Makings ρ) : Prop where
  length : y.threads.length = cs.length
  free : y.lock = none → ∀ r, y.world.lit r = none
  each : ∀ (i : Nat) (t : LockedMaking ρ) (c : Objects ρ × List DecArg), y.threads[i]? = some t → cs[i]? = some c →
    t = .before (.enter c.1 c.2) ∨ t = .after (instanced ord c.1 c.2 w0).1 ∨
    ∃ m, t = .held m ∧ y.lock = some i ∧ (m.rest ord y.world).1 = (instanced ord c.1 c.2 w0).1 ∧ ∀ r, (m.rest ord y.world).2.lit r = none
  locked : ∀ i, y.lock = some i → ∃ m, y.threads[i]? = some (.held m)

theorem instanced_clean (ord : List (Path × Str) → List (Path × Str)) (o : Objects ρ) (ds : List DecArg) {w w0 : World ρ} (h : ∀ r, w.lit r = none)
    (h0 : ∀ r, w0.lit r = none) : instanced ord o ds w = instanced ord o ds w0 := by
  have : w.enter = w0.enter := by
    have : w.lit = w0.lit := funext fun r => by rw [h, h0]
    simp [World.enter, this]
  unfold instanced
  rw [this]

theorem makings_step_ok {ord : List (Path × Str) → List (Path × Str)} {w0 : World ρ} (h0 : ∀ r, w0.lit r = none) {cs : List (Objects ρ × List DecArg)}
    {x y : Makings ρ} (h : MakingsOk ord w0 cs x) (hs : Makings.Step ord x y) : MakingsOk ord w0 cs y := by
  obtain ⟨hlen, hfree, heach, hlock⟩ := h
  have hci : ∀ (a b : List (LockedMaking ρ)) (t : LockedMaking ρ), (a ++ t :: b).length = cs.length → ∃ c, cs[a.length]? = some c := by
    intro a b t h
    have : a.length < cs.length := by rw [← h]; simp
    exact ⟨_, List.getElem?_eq_getElem this⟩
  cases hs with
  | @acquire w a b m =>
    obtain ⟨c, hc⟩ := hci a b _ hlen
    have hw := hfree rfl
    have hm : m = .enter c.1 c.2 := by
      rcases heach a.length (.before m) c (by simp) hc with h | h | ⟨m', h, _⟩
      · cases h; rfl
      · cases h
      · cases h
    subst hm
    refine ⟨by simpa using hlen, by rintro ⟨⟩, ?_, ?_⟩
    · intro i t c' ht hc'
      rw [getElem?_swap a b (.before (.enter c.1 c.2))] at ht
      split at ht
      · rename_i hi
        subst hi
        rw [hc] at hc'
        cases hc'
        cases ht
        refine .inr (.inr ⟨_, rfl, rfl, ?_, ?_⟩)
        · exact congrArg Prod.fst (instanced_clean ord c.1 c.2 hw h0)
        · exact C54_clean ord c.1 c.2 hw
      · rcases heach i t c' ht hc' with h | h | ⟨m', _, h, _⟩
        · exact .inl h
        · exact .inr (.inl h)
        · cases h
    · intro i hi
      cases hi
      exact ⟨.enter c.1 c.2, by simp⟩
  | @work l w w' a b m m' hs =>
    obtain ⟨c, hc⟩ := hci a b _ hlen
    obtain ⟨hl, h1, h2⟩ : l = some a.length ∧ (m.rest ord w).1 = (instanced ord c.1 c.2 w0).1 ∧ ∀ r, (m.rest ord w).2.lit r = none := by
      rcases heach a.length (.held m) c (by simp) hc with h | h | ⟨m', h, h'⟩
      · cases h
      · cases h
      · cases h; exact h'
    subst hl
    refine ⟨by simpa using hlen, by rintro ⟨⟩, ?_, ?_⟩
    · intro i t c' ht hc'
      rw [getElem?_swap a b (.held m)] at ht
      split at ht
      · rename_i hi
        subst hi
        rw [hc] at hc'
        cases hc'
        cases ht
        refine .inr (.inr ⟨_, rfl, rfl, ?_, ?_⟩)
        · rw [making_step_rest hs]; exact h1
        · rw [making_step_rest hs]; exact h2
      · rename_i hi
        rcases heach i t c' ht hc' with h | h | ⟨m', _, h, _⟩
        · exact .inl h
        · exact .inr (.inl h)
        · exact absurd (Option.some.inj h).symm hi
    · intro i hi
      cases hi
      exact ⟨m', by simp⟩
  | @release l w a b r =>
    obtain ⟨c, hc⟩ := hci a b _ hlen
    obtain ⟨hl, h1, h2⟩ : l = some a.length ∧ r = (instanced ord c.1 c.2 w0).1 ∧ ∀ r, w.lit r = none := by
      rcases heach a.length (.held (.made r)) c (by simp) hc with h | h | ⟨m', h, h'⟩
      · cases h
      · cases h
      · cases h; exact h'
    subst hl
    refine ⟨by simpa using hlen, fun _ => h2, ?_, by rintro i ⟨⟩⟩
    intro i t c' ht hc'
    rw [getElem?_swap a b (.held (.made r))] at ht
    split at ht
    · rename_i hi
      subst hi
      rw [hc] at hc'
      cases hc'
      cases ht
      exact .inr (.inl (by rw [h1]))
    · rename_i hi
      rcases heach i t c' ht hc' with h | h | ⟨m', _, h, _⟩
      · exact .inl h
      · exact .inr (.inl h)
      · exact absurd (Option.some.inj h).symm hi

/-- Constructions made by the parser, under its lock, from a world without literals: each gives the decorations it gives alone, and the world is without
literals whenever the lock is free. -/
theorem C98_literals_locked (ord : List (Path × Str) → List (Path × Str)) {w0 : World ρ} (h0 : ∀ r, w0.lit r = none)
    (cs : List (Objects ρ × List DecArg)) {y : Makings ρ}
    (hy : Makings.Steps ord ⟨none, w0, cs.map fun c => .before (.enter c.1 c.2)⟩ y) :
    (∀ (i : Nat) (c : Objects ρ × List DecArg) (r : Except Err (List (Path × Str))), cs[i]? = some c → y.threads[i]? = some (.after r) →
      r = (instanced ord c.1 c.2 w0).1) ∧ (y.lock = none → ∀ r, y.world.lit r = none) := by
  have h : MakingsOk ord w0 cs y := by
    generalize hz : (⟨none, w0, cs.map fun c => .before (.enter c.1 c.2)⟩ : Makings ρ) = z at hy
    induction hy with
    | refl =>
      subst hz
      refine ⟨by simp, fun _ => h0, ?_, by rintro i ⟨⟩⟩
      intro i t c ht hc
      simp only [List.getElem?_map, hc, Option.map_some, Option.some.injEq] at ht
      exact .inl ht.symm
    | tail _ hs ih => exact makings_step_ok h0 ih hs
  refine ⟨fun i c r hc hr => ?_, h.free⟩
  rcases h.each i _ c hr hc with h | h | ⟨m, h, _⟩
  · cases h
  · cases h; rfl
  · cases h

/-- Under the lock too all the constructions can be finished: as long as one is not, one can go on. -/
theorem C98_literals_progress (ord : List (Path × Str) → List (Path × Str)) {w0 : World ρ} (h0 : ∀ r, w0.lit r = none)
    (cs : List (Objects ρ × List DecArg)) {y : Makings ρ}
    (hy : Makings.Steps ord ⟨none, w0, cs.map fun c => .before (.enter c.1 c.2)⟩ y) (hn : ∃ t ∈ y.threads, ∀ r, t ≠ .after r) :
    ∃ z, Makings.Step ord y z := by
  have h : MakingsOk ord w0 cs y := by
    clear hn
    generalize hz : (⟨none, w0, cs.map fun c => .before (.enter c.1 c.2)⟩ : Makings ρ) = z at hy
    induction hy with
    | refl =>
      subst hz
      refine ⟨by simp, fun _ => h0, ?_, by rintro i ⟨⟩⟩
      intro i t c ht hc
      simp only [List.getElem?_map, hc, Option.map_some, Option.some.injEq] at ht
      exact .inl ht.symm
    | tail _ hs ih => exact makings_step_ok h0 ih hs
  obtain ⟨l, w, ts⟩ := y
  cases l with
  | none =>
    obtain ⟨t, ht, hf⟩ := hn
    cases t with
    | before m =>
      obtain ⟨a, b, rfl⟩ := List.append_of_mem ht
      exact ⟨_, .acquire⟩
    | held m =>
      obtain ⟨i, hi⟩ := List.mem_iff_getElem?.1 ht
      have hi' : i < cs.length := by rw [← h.length]; exact (List.getElem?_eq_some_iff.1 hi).1
      rcases h.each i _ _ hi (List.getElem?_eq_getElem hi') with h' | h' | ⟨m', _, h', _⟩ <;> cases h'
    | after r => exact absurd rfl (hf r)
  | some i =>
    obtain ⟨m, hm⟩ := h.locked i rfl
    obtain ⟨a, b, hts⟩ := List.append_of_mem (List.mem_of_getElem? hm)
    simp only at hts
    subst hts
    cases hs : m.step ord w with
    | some x => exact ⟨_, .work hs⟩
    | none =>
      cases m with
      | made r => exact ⟨_, .release⟩
      | enter o ds => cases hs
      | exit r => cases hs
      | apply o ds f =>
        rcases ds with _ | ⟨_ | d, ds⟩
        · cases hs
        · cases hs
        · simp only [Making.step] at hs
          split at hs <;> cases hs

/-- An execution under the lock: the second construction comes first. -/
example : ∃ y : Makings Nat, Makings.Steps id ⟨none, ⟨fun _ => none, []⟩, [.before (.enter ⟨fun _ => .ok (some 0), fun _ => .ok [([], 0)]⟩ [some ([], c!"x")]),
    .before (.enter ⟨fun _ => .ok (some 0), fun _ => .ok [([], 0)]⟩ [])]⟩ y ∧ y.lock = some 1 := by
  refine ⟨_, .tail (.refl _) (@Makings.Step.acquire Nat _ id _ [_] [] _), rfl⟩

/-- An object, reached by every path and listed under the empty path. -/
def demoObject : Objects Nat := ⟨fun _ => .ok (some 0), fun _ => .ok [([], 0)]⟩

/-- **C98 is violated without the lock**: of two constructions `InstancedUSL(..)` for the same object that overlap, from a world without literals, the one without
decorations may get the decoration of the other one, and the literal stays on the object after both. -/
theorem C98_violated_literals : ∃ (w0 w : World Nat) (v : Str), (∀ r, w0.lit r = none) ∧
    Making.Steps id (w0, [.enter demoObject [some ([], v)], .enter demoObject []]) (w, [.made (.ok [([], v)]), .made (.ok [([], v)])]) ∧
    (instanced id demoObject [] w0).1 = .ok [] ∧ w.lit 0 = some v := by
  let w0 : World Nat := ⟨fun _ => none, []⟩
  let v : Str := c!"x"
  let w2 : World Nat := w0.enter.set 0 v
  let B : Making Nat := .enter demoObject []
  let r : Except Err (List (Path × Str)) := .ok [([], v)]
  have s1 : Making.Steps id (w0, [.enter demoObject [some ([], v)], B]) (w0.enter, [.apply demoObject [some ([], v)] false, B]) :=
    .tail (.refl _) (@Making.Step.mk Nat _ id _ _ [] [B] _ _ rfl)
  have s2 := s1.tail (@Making.Step.mk Nat _ id w0.enter w2 [] [B] _ (.apply demoObject [] false) rfl)
  have s3 := s2.tail (@Making.Step.mk Nat _ id w2 w2.enter [.apply demoObject [] false] [] B (.apply demoObject [] false) rfl)
  have s4 := s3.tail (@Making.Step.mk Nat _ id w2.enter w2.enter [] [.apply demoObject [] false] _ (.exit r) rfl)
  have s5 := s4.tail (@Making.Step.mk Nat _ id w2.enter w2.enter.exit [] [.apply demoObject [] false] _ (.made r) rfl)
  have s6 := s5.tail (@Making.Step.mk Nat _ id w2.enter.exit w2.enter.exit [.made r] [] _ (.exit r) rfl)
  have s7 := s6.tail (@Making.Step.mk Nat _ id w2.enter.exit w2.enter.exit.exit [.made r] [] _ (.made r) rfl)
  exact ⟨w0, _, v, fun _ => rfl, s7, rfl, rfl⟩

end Verif
