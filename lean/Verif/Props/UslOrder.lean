import Verif.Lemmas.WordOrder

/-
C75: the order of USLs.
-/

namespace Verif
open Script

/-- The USLs of the claim: polymorphemes of orderly morphemes (`OkPM`), lexemes of such polymorphemes (`OkLex`), and words of such
lexemes read from a list of roles, without junctions and with a lexeme at each role; the role of the word is one of the function's. -/
inductive Comparable : Expr → Prop
  | pm {p : PM} : OkPM p → Comparable (.pm p)
  | lexeme {x : Lexeme} : OkLex x → Comparable (.lexeme x)
  | word {l : List (RoleEntry Lexeme)} {t : SType} {f : SFun Lexeme} {r : Addr} {w : WordUsl} : fromList l = .ok (t, f) →
      mkWord f (t.pre ++ r) t = .ok w → (∀ e ∈ f.nodes, e.2.isJunction = false) → (∀ e ∈ f.asList t, ∃ x, e.2 = some x ∧ OkLex x) →
      Comparable (.word w)

theorem Comparable.okPM {p : PM} (h : Comparable (.pm p)) : OkPM p := by
  cases h with
  | pm h => exact h

theorem Comparable.okLex {x : Lexeme} (h : Comparable (.lexeme x)) : OkLex x := by
  cases h with
  | lexeme h => exact h

theorem Comparable.okWord {w : WordUsl} (h : Comparable (.word w)) : OkWord w := by
  cases h with
  | @word l t f r _ h1 h2 h3 h4 =>
    refine ⟨t, f, r, fromList_shape h1, h2, h3, fun e he => ?_⟩
    exact h4 (pushAddr t.pre e) (by rw [asList_items]; exact List.mem_map_of_mem he)

/-- Code of a USL. -/
def codeExpr : Expr → List Nat
  | .script _ => []
  | .pm p => 1 :: codePM p
  | .lexeme x => 2 :: codeLex x
  | .word w => 3 :: codeWord w

theorem head_pm {p : PM} (h : OkPM p) : (∀ r, p.text ≠ '(' :: r) ∧ ∀ r, p.text ≠ '[' :: r := by
  have key : ∀ c, c = '(' ∨ c = '[' → ∀ r, p.text ≠ c :: r := by
    intro c hc r hr
    rw [h.text] at hr
    obtain ⟨g1, g2⟩ := h.good
    generalize p.constant.filter (fun m => decide (m.empty = false)) = C at g1 hr
    cases C with
    | cons x C =>
      rw [List.map_cons, List.cons_append, joinSpace_cons] at hr
      have hm : c ∈ x.str := by
        have hne := str_ne_nil (g1 x (by simp)).wf
        cases hs : x.str with
        | nil => exact absurd hs hne
        | cons d ds =>
          rw [hs] at hr
          split at hr <;> simp at hr <;> simp [hr.1]
      have := str_termChar (g1 x (by simp)).wf c hm
      rcases hc with rfl | rfl <;> revert this <;> decide
    | nil =>
      cases hg : p.groups with
      | nil => rw [hg] at hr; simp [joinSpace] at hr
      | cons g gs =>
        rw [hg, List.map_nil, List.nil_append, List.map_cons, joinSpace_cons, groupText_mark] at hr
        have : c = 'm' := by split at hr <;> simp at hr <;> exact hr.1.symm
        rcases hc with rfl | rfl <;> revert this <;> decide
  exact ⟨key _ (.inl rfl), key _ (.inr rfl)⟩

theorem head_lexeme {x : Lexeme} (h : OkLex x) : ∃ r, x.text = '(' :: r := by
  obtain ⟨f, c, rfl, hf, _⟩ := h
  exact ⟨_, lexeme_shape hf⟩

theorem head_word {w : WordUsl} (h : OkWord w) : ∃ r, w.text = '[' :: r := by
  obtain ⟨t, f, r, h⟩ := h
  exact ⟨_, h.attrs.2.2⟩

/-- `<` is the order of the codes. -/
theorem lt_code {a b : Expr} (ha : Comparable a) (hb : Comparable b) : a.lt b = .ok (ltBytes (codeExpr a) (codeExpr b)) := by
  have ha' := ha
  have hb' := hb
  cases ha <;> cases hb
  · have := codePM_lt ha'.okPM hb'.okPM [] []
    rw [List.append_nil, List.append_nil] at this
    rw [codeExpr, codeExpr, ltBytes, if_pos rfl, this, Expr.lt]
    split
    · next h => rw [ltPM_same ha'.okPM hb'.okPM h]; rfl
    · rfl
  · rfl
  · rfl
  · rfl
  · have := codeLex_lt' ha'.okLex hb'.okLex [] []
    rw [List.append_nil, List.append_nil] at this
    rw [codeExpr, codeExpr, ltBytes, if_pos rfl, this, Expr.lt]
    split
    · next h =>
      have h := (textLex_iff ha'.okLex hb'.okLex).1 h
      obtain ⟨f, c, e, hf, hc⟩ := ha'.okLex
      obtain ⟨f', c', e', hf', hc'⟩ := hb'.okLex
      rw [e, e'] at h ⊢
      have h1 := ltPM_same hf hf' h.1
      have h2 := ltPM_same hc hc' h.2
      have : (mkLexeme f c).lt (mkLexeme f' c') = (f.lt f' || (f.eq f' && c.lt c')) := rfl
      rw [this, h1, h2, Bool.and_false]
      rfl
    · rfl
  · rfl
  · rfl
  · rfl
  · rw [codeExpr, codeExpr, ltBytes, if_pos rfl]
    exact codeWord_lt ha'.okWord hb'.okWord

/-- The codes of two USLs are equal when the texts are. -/
theorem code_iff {a b : Expr} (ha : Comparable a) (hb : Comparable b) : codeExpr a = codeExpr b ↔ a.text = b.text := by
  have ha' := ha
  have hb' := hb
  have ne : ∀ {s t : Str} {n m : Nat} {u v : List Nat}, n ≠ m → s ≠ t → (n :: u = m :: v ↔ s = t) := by
    intro s t n m u v h1 h2
    simp [h1, h2]
  cases ha <;> cases hb
  · have := codePM_pf ha'.okPM hb'.okPM (u := []) (v := [])
    rw [List.append_nil, List.append_nil, and_iff_left rfl] at this
    rw [codeExpr, codeExpr, List.cons.injEq, this, ← textPM_iff ha'.okPM hb'.okPM]
    simp [Expr.text]
  · obtain ⟨r, hr⟩ := head_lexeme hb'.okLex
    exact ne (by decide) (by rw [Expr.text, Expr.text, hr]; exact (head_pm ha'.okPM).1 r)
  · obtain ⟨r, hr⟩ := head_word hb'.okWord
    exact ne (by decide) (by rw [Expr.text, Expr.text, hr]; exact (head_pm ha'.okPM).2 r)
  · obtain ⟨r, hr⟩ := head_lexeme ha'.okLex
    exact ne (by decide) (by rw [Expr.text, Expr.text, hr]; exact ((head_pm hb'.okPM).1 r).symm)
  · have := codeLex_pf' ha'.okLex hb'.okLex (u := []) (v := [])
    rw [List.append_nil, List.append_nil, and_iff_left rfl] at this
    rw [codeExpr, codeExpr, List.cons.injEq, this]
    simp [Expr.text]
  · obtain ⟨r, hr⟩ := head_word hb'.okWord
    obtain ⟨r', hr'⟩ := head_lexeme ha'.okLex
    exact ne (by decide) (by rw [Expr.text, Expr.text, hr, hr']; simp)
  · obtain ⟨r, hr⟩ := head_word ha'.okWord
    exact ne (by decide) (by rw [Expr.text, Expr.text, hr]; exact ((head_pm hb'.okPM).2 r).symm)
  · obtain ⟨r, hr⟩ := head_word ha'.okWord
    obtain ⟨r', hr'⟩ := head_lexeme hb'.okLex
    exact ne (by decide) (by rw [Expr.text, Expr.text, hr, hr']; simp)
  · rw [codeExpr, codeExpr, List.cons.injEq, codeWord_iff ha'.okWord hb'.okWord]
    simp [Expr.text]

/-- **C75, what holds: equality and totality.** No comparison of such USLs fails.  Of two USLs with the same text, that is equal USLs,
none is smaller; of two different ones exactly one is.  Missing: words with junctions or without a lexeme at some role, words with a role
of another context, comparisons with scripts, and instances; for them the claim is false (`C75_violated_…`). -/
theorem C75_total_partial {a b : Expr} (ha : Comparable a) (hb : Comparable b) :
    (a.text = b.text → a.lt b = .ok false ∧ b.lt a = .ok false) ∧
    (a.text ≠ b.text → (a.lt b = .ok true ∧ b.lt a = .ok false) ∨ (a.lt b = .ok false ∧ b.lt a = .ok true)) := by
  rw [lt_code ha hb, lt_code hb ha]
  constructor
  · intro h
    rw [(code_iff ha hb).2 h, ltBytes_irrefl]
    exact ⟨rfl, rfl⟩
  · intro h
    have hc : codeExpr a ≠ codeExpr b := fun e => h ((code_iff ha hb).1 e)
    have key : ∀ x y : List Nat, ltBytes x y = true → ltBytes y x = false := by
      intro x y hxy
      cases h' : ltBytes y x
      · rfl
      · have := ltBytes_trans hxy h'
        rw [ltBytes_irrefl] at this
        cases this
    rcases ltBytes_total hc with h1 | h1
    · rw [h1, key _ _ h1]
      exact .inl ⟨rfl, rfl⟩
    · rw [h1, key _ _ h1]
      exact .inr ⟨rfl, rfl⟩

/-- **C75, what holds: transitivity.** -/
theorem C75_trans_partial {a b c : Expr} (ha : Comparable a) (hb : Comparable b) (hc : Comparable c) (h1 : a.lt b = .ok true) (h2 : b.lt c = .ok true) :
    a.lt c = .ok true := by
  rw [lt_code ha hb] at h1
  rw [lt_code hb hc] at h2
  rw [lt_code ha hc, ltBytes_trans (Except.ok.inj h1) (Except.ok.inj h2)]

/-- **C75, what holds: texts decide.** Replacing USLs by equal ones changes no comparison. -/
theorem C75_congr_partial {a a' b b' : Expr} (ha : Comparable a) (ha' : Comparable a') (hb : Comparable b) (hb' : Comparable b')
    (e1 : a.text = a'.text) (e2 : b.text = b'.text) : a.lt b = a'.lt b' := by
  rw [lt_code ha hb, lt_code ha' hb', (code_iff ha ha').2 e1, (code_iff hb hb').2 e2]

/-- **C75, what holds: sorting.** Sorting a collection of such USLs gives the same texts whatever the order it comes in; no two
neighbours of the result are in the wrong order. -/
theorem C75_sort_partial {l l' : List Expr} (hl : ∀ a ∈ l, Comparable a) (hp : l.Perm l') :
    let lt (a b : Expr) : Bool := a.lt b matches .ok true
    (pySort lt l).map Expr.text = (pySort lt l').map Expr.text ∧ (pySort lt l).Pairwise fun a b => b.lt a = .ok false := by
  intro lt
  have hl' : ∀ a ∈ l', Comparable a := fun a ha => hl a (hp.mem_iff.2 ha)
  have hm : ∀ a ∈ l ++ l', Comparable a := by
    intro a ha
    rcases List.mem_append.1 ha with h | h
    · exact hl a h
    · exact hl' a h
  have hk : ∀ a b, Comparable a → Comparable b → lt a b = ltBytes (codeExpr a) (codeExpr b) := by
    intro a b ha hb
    show (match a.lt b with | .ok true => true | _ => false) = _
    rw [lt_code ha hb]
    cases ltBytes (codeExpr a) (codeExpr b) <;> rfl
  refine ⟨pySort_ext (k := codeExpr) (fun a ha b hb => hk a b (hm a ha) (hm b hb)) (fun a ha b hb => code_iff (hm a ha) (hm b hb)) (hp.map _), ?_⟩
  have := pySort_sorted lt (k := codeExpr) (l := l) fun a ha b hb => hk a b (hl a ha) (hl b hb)
  refine this.imp_of_mem fun {a b} ha hb h => ?_
  rw [mem_pySort] at ha hb
  rw [lt_code (hl b hb) (hl a ha), h]

/-! ### Examples -/

theorem okPM_prims (ps : List Prim) (gs : List (List Prim × Nat)) :
    OkPM (mkPM (ps.map .prim) (gs.map fun g => (g.1.map .prim, g.2))) := by
  refine ⟨_, _, rfl, ?_, ?_⟩
  · intro x hx
    obtain ⟨p, _, rfl⟩ := List.mem_map.1 hx
    exact orderly_prim p
  · intro g hg x hx
    obtain ⟨g', _, rfl⟩ := List.mem_map.1 hg
    obtain ⟨p, _, rfl⟩ := List.mem_map.1 hx
    exact orderly_prim p

theorem okLex_demo : OkLex demoLex2 ∧ OkLex demoLex3 :=
  ⟨⟨_, _, rfl, okPM_prims [] [], okPM_prims [.A] [([.S], 1)]⟩, ⟨_, _, rfl, okPM_prims [.U] [], okPM_prims [.A] [([.S, .T], 1)]⟩⟩

/-- A process with two lexemes. -/
def demoPlain : List (RoleEntry Lexeme) := [([c!"E:T:."], some demoLex2), ([c!"E:.n.-"], some demoLex3)]

theorem demoPlain_comparable {r : Addr} {w : WordUsl}
    (h : mkWord (.process (some demoLex2) (c!"E:T:.") [(c!"E:.n.-", .dep (some demoLex3) none none)]) r .process = .ok w) : Comparable (.word w) := by
  refine .word (l := demoPlain) (t := .process) (r := r) rfl h ?_ ?_
  · intro e he
    rcases List.mem_cons.1 he with rfl | he
    · rfl
    · cases he
  · intro e he
    rcases List.mem_cons.1 he with rfl | he
    · exact ⟨_, rfl, okLex_demo.1⟩
    rcases List.mem_cons.1 he with rfl | he
    · exact ⟨_, rfl, okLex_demo.2⟩
    · cases he

-- The same function with two roles, a lexeme and two polymorphemes, in increasing order; the constants decide before the groups.
example : ∃ v w, Comparable (.word v) ∧ Comparable (.word w) ∧ Comparable (.lexeme demoLex2) ∧ Comparable (.pm demoLex3.flexion) ∧
    Comparable (.pm demoLex2.content) ∧ v.text ≠ w.text ∧ Expr.lt (.word v) (.word w) = .ok true ∧ Expr.lt (.lexeme demoLex2) (.word v) = .ok true ∧
    Expr.lt (.pm demoLex2.content) (.lexeme demoLex2) = .ok true ∧ Expr.lt (.pm demoLex2.content) (.pm demoLex3.flexion) = .ok false ∧
    Expr.lt (.pm demoLex3.flexion) (.pm demoLex2.content) = .ok true := by
  refine ⟨_, _, demoPlain_comparable (r := [c!"E:T:."]) rfl, demoPlain_comparable (r := [c!"E:.n.-"]) rfl, .lexeme okLex_demo.1,
    .pm (okPM_prims [.U] []), .pm (okPM_prims [.A] [([.S], 1)]), ?_⟩
  decide +kernel

/-! ### Violations -/

/-- The comparisons of the words read from two lists, with roles. -/
def compareWords (l l' : List (RoleEntry Lexeme)) (r r' : Addr) : Except Err (Except Err Bool × Except Err Bool × Bool) := do
  let f ← fromList l
  let w ← mkWord f.2 r f.1
  let f' ← fromList l'
  let w' ← mkWord f'.2 r' f'.1
  return (w.lt w', w'.lt w, decide (w.text = w'.text))

/-- **C75** is violated by words with junctions: where one word has a junction and the other a lexeme, both comparisons raise, with
different classes of errors. -/
theorem C75_violated_junction : compareWords demoJunction demoPlain [c!"E:T:."] [c!"E:T:."] = .ok (.error .typeError, .error .attributeError, false) := by
  decide +kernel

/-- **C75** is violated by words with a missing lexeme. -/
theorem C75_violated_missing : compareWords [([dependantQuality, dependantQuality], some demoLex2)]
    [([dependantQuality], some demoLex3), ([dependantQuality, dependantQuality], some demoLex2)]
    [dependantQuality, dependantQuality] [dependantQuality, dependantQuality] = .ok (.error .typeError, .error .attributeError, false) := by
  decide +kernel

/-- **C75** is violated by a junction of one lexeme: the words with the role of the junction and with the role of the lexeme have the
same text, so they are equal, and one is smaller than the other. -/
theorem C75_violated_equal : compareWords [([c!"E:T:."], some demoLex2), ([c!"E:.n.-", demoLink, demoFirst], some demoLex3)]
    [([c!"E:T:."], some demoLex2), ([c!"E:.n.-", demoLink, demoFirst], some demoLex3)] [c!"E:.n.-"] [c!"E:.n.-", demoLink, demoFirst] =
    .ok (.ok true, .ok false, true) := by
  decide +kernel

/-- **C75** is violated by a role of another context, which the constructor accepts: equal words, one smaller than the other. -/
theorem C75_violated_context : compareWords [([dependantQuality], some demoLex2)] [([dependantQuality], some demoLex2)]
    [dependantQuality] [independantQuality] = .ok (.ok true, .ok false, true) := by
  decide +kernel

/-- **C75** is violated by scripts: no USL is smaller than a script, and a script compared with a USL raises `TypeError`, so a list of
both is sorted or not according to its order. -/
theorem C75_violated_script (s : Script) (p : PM) (x : Lexeme) (w : WordUsl) :
    (Expr.lt (.script s) (.pm p) = .error .typeError ∧ Expr.lt (.pm p) (.script s) = .ok false) ∧
    (Expr.lt (.script s) (.lexeme x) = .error .typeError ∧ Expr.lt (.lexeme x) (.script s) = .ok false) ∧
    (Expr.lt (.script s) (.word w) = .error .typeError ∧ Expr.lt (.word w) (.script s) = .ok false) :=
  ⟨⟨rfl, rfl⟩, ⟨rfl, rfl⟩, ⟨rfl, rfl⟩⟩

/-- **C75** is violated by instances: no instance is smaller than anything, in particular of two instances with different texts none is
smaller than the other. -/
theorem C75_violated_instance (a b : Expr) (s : Str) (x : Item) :
    Item.lt (.instanced a s) x = .ok false ∧ Item.lt (.plain b) (.instanced a s) = b.lt a :=
  ⟨by cases x <;> rfl, rfl⟩

/-- **C75** is violated by polymorphemes with a sum of one term of several words: `p < q` and `q < p'` although `p' == p`. -/
theorem C75_violated_sum : ∃ p q p' : PM, (∃ a b c, Built a ∧ Built b ∧ Built c ∧ p = mkPM [a] [] ∧ q = mkPM [b] [] ∧ p' = mkPM [c] []) ∧
    Expr.lt (.pm p) (.pm q) = .ok true ∧ Expr.lt (.pm q) (.pm p') = .ok true ∧ p'.text = p.text ∧ p.text ≠ q.text :=
  ⟨_, _, _, ⟨wM, wM', .add [wM], built_of (by decide +kernel), built_of (by decide +kernel), built_of (by decide +kernel), rfl, rfl, rfl⟩,
    by decide +kernel⟩

end Verif
