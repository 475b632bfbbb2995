import Verif.Props.WordCheck
import Verif.Props.Examples

/-
C76, C117: a word accepted by the check is accepted again when its text is read.
-/

namespace Verif
open Script

/-- The morphemes do not start like an old grammatical class, and no group is empty. -/
def TidyPM (p : PM) : Prop := p.Each NotOldClass ∧ ∀ g ∈ p.groups, g.1 ≠ []

/-- A lexeme of such polymorphemes. -/
def TidyLexeme (x : Lexeme) : Prop := TidyPM x.flexion ∧ TidyPM x.content

/-- A word of such lexemes. -/
def TidyWord (w : WordUsl) : Prop := ∀ e ∈ w.sfun.asList w.context, ∀ x, e.2 = some x → TidyLexeme x

/-- The check demands a single word of every morpheme. -/
theorem check_singular {p : PM} (hm : MadePM p) (h : p.check = true) : p.Each Singular := by
  have hp := hm.parts
  unfold PM.check at h
  simp only [Bool.and_eq_true, List.all_eq_true, beq_iff_eq] at h
  have key : ∀ x ∈ (p.constant :: p.groups.map (·.1)).flatten, WF x → Singular x := by
    intro x hx hw
    obtain ⟨y, hy, e⟩ := dedupBy_complete str hx
    have hy' : WF y := by
      have := mem_dedupBy str hy
      obtain ⟨l, hl, hyl⟩ := List.mem_flatten.1 this
      rcases List.mem_cons.1 hl with rfl | hl
      · exact hp.1 y hyl
      · obtain ⟨g, hg, rfl⟩ := List.mem_map.1 hl
        exact hp.2 g hg y hyl
    exact singular_of_str hy' hw e ((singular_iff hy').2 (h.2 y hy))
  constructor
  · intro x hx
    exact key x (by simp [hx]) (hp.1 x hx)
  · intro g hg x hx
    exact key x (by simp only [List.flatten_cons, List.mem_append, List.mem_flatten, List.mem_map]; exact .inr ⟨g.1, ⟨g, hg, rfl⟩, hx⟩) (hp.2 g hg x hx)

theorem key_of_check {p : PM} (hm : MadePM p) (ht : TidyPM p) (h : p.check = true) : KeyPM p := by
  have hs := check_singular hm h
  exact ⟨⟨fun x hx => ⟨ht.1.1 x hx, .inr (hs.1 x hx)⟩, fun g hg => ⟨ht.2 g hg, fun x hx => ⟨ht.1.2 g hg x hx, .inr (hs.2 g hg x hx)⟩⟩⟩, hs⟩

/-- The same polymorpheme is accepted too. -/
theorem check_same {p q : PM} (hp : MadePM p) (hq : MadePM q) (ht : TidyPM q) (h : SamePM p q) (hc : q.check = true) : p.check = true := by
  have kq := key_of_check hq ht hc
  have kp := keyPM_same hp hq h kq
  obtain ⟨cs, gs, rfl, l1⟩ := made_legible hp kp.1
  obtain ⟨cs', gs', rfl, l2⟩ := made_legible hq kq.1
  rw [check_core (fun x hx => (l2.constant x hx).1) (fun g hg x hx => (l2.groups g hg x hx).1)] at hc
  rw [check_core (fun x hx => (l1.constant x hx).1) (fun g hg x hx => (l1.groups g hg x hx).1)]
  obtain ⟨c1, c2, -⟩ := hc
  have hg : (shownG gs).map (fun g => (g.1.map str, g.2)) = (shownG gs').map (fun g => (g.1.map str, g.2)) := h.groups
  refine ⟨?_, ?_, ?_⟩
  · intro g hgm hne
    obtain ⟨k, hk, e1, e2⟩ := (samePM_mem h).2 g hgm
    have hl : g.1.length = k.1.length := by simpa using congrArg List.length e1
    rw [e2, hl]
    exact c1 k hk fun e => hne (List.length_eq_zero_iff.1 (by rw [hl, e]; rfl))
  · have e : ∀ l : List Group, (l.flatMap fun g => g.1).map str = (l.map fun g => (g.1.map str, g.2)).flatMap (·.1) := by
      intro l
      induction l with
      | nil => rfl
      | cons a l ih => simp [ih]
    rw [List.map_append, e, hg, ← e, h.constant, ← List.map_append]
    exact c2
  · intro x hx
    rcases List.mem_append.1 hx with hx | hx
    · exact (singular_iff (hp.parts.1 x hx)).1 (kp.2.1 x hx)
    · obtain ⟨g, hgm, hx⟩ := List.mem_flatMap.1 hx
      exact (singular_iff (hp.parts.2 g hgm x hx)).1 (kp.2.2 g hgm x hx)

/-- What the check of a word that was read says. -/
theorem check_filled {w : WordUsl} (h : MadeExpr (.word w)) :
    w.check = true ↔ ∀ e ∈ w.sfun.asList w.context, ∃ x, e.2 = some x ∧ x.check = true := by
  obtain ⟨⟨l, t, f, role, hf, hw, -⟩, rx, hr⟩ := h
  have ok := fromList_shape hf
  obtain ⟨e1, e2, e3, hm⟩ := mkWord_parts hw
  rw [e1, e3, e2, asList_items] at hr
  obtain ⟨y, -, hy⟩ := List.mem_map.1 hr
  have : role = t.pre ++ y.1 := (congrArg Prod.fst hy).symm
  rw [this, List.drop_left] at hm
  unfold WordUsl.check
  rw [e1, e2, e3, this, okFun_role ok hm, Bool.true_and, okFun_check ok, asList_items]
  exact filled_push.symm

/-- **C76** (part) The text of a tidy word that was read and is accepted by the check is read as the same word, and this one is
accepted by the check too. -/
theorem C76_again_partial {s : Str} {w : WordUsl} {ds : List (Str × Str)} (h : uslRead s = .ok (.word w, ds)) (ht : TidyWord w)
    (hc : w.check = true) : ∃ w', uslRead w.text = .ok (.word w', []) ∧ SameWord w' w ∧ w'.check = true := by
  have hm := read_made h
  have hf := (check_filled hm).1 hc
  have ha := MadeWord.actors hm.1
  have hcl : (Expr.word w).Clean := by
    intro e he
    obtain ⟨x, hx, hk⟩ := hf e he
    obtain ⟨p, q, rfl, hp, hq⟩ := ha e he x hx
    have t := ht e he _ hx
    simp only [Lexeme.check, Bool.and_eq_true] at hk
    exact ⟨_, hx, (key_of_check hp t.1 hk.1).1, (key_of_check hq t.2 hk.2).1⟩
  obtain ⟨u', h1, h2⟩ := C84_stable_partial h hcl
  rcases h2 with h2 | ⟨p, m, s, h2, -⟩
  swap
  · cases h2
  cases u' with
  | script _ | pm _ | lexeme _ => exact h2.elim
  | word w' =>
    have hm' := read_made h1
    refine ⟨w', h1, h2, (check_filled hm').2 fun e' he' => ?_⟩
    have ha' := MadeWord.actors hm'.1
    obtain ⟨l, hp, hl⟩ := h2.lexemes
    obtain ⟨e, he, -, hs⟩ : ∃ e ∈ w.sfun.asList w.context, e'.1 = e.1 ∧ SameActor e'.2 e.2 := by
      have := hp.mem_iff.2 he'
      clear hp
      generalize w.sfun.asList w.context = m at hl
      clear hf ha
      induction hl with
      | nil => cases this
      | cons h _ ih =>
        rcases List.mem_cons.1 this with rfl | this
        · exact ⟨_, by simp, h⟩
        · obtain ⟨e, k1, k2⟩ := ih this
          exact ⟨e, by simp [k1], k2⟩
    obtain ⟨x, hx, hk⟩ := hf e he
    rw [hx] at hs
    cases hx' : e'.2 with
    | none => rw [hx'] at hs; exact hs.elim
    | some x' =>
      rw [hx'] at hs
      have hs : SameLexeme x' x := hs
      refine ⟨x', rfl, ?_⟩
      have t := ht e he x hx
      obtain ⟨p, q, rfl, kp, kq⟩ := ha e he x hx
      obtain ⟨p', q', rfl, kp', kq'⟩ := ha' e' he' x' hx'
      simp only [Lexeme.check, Bool.and_eq_true] at hk ⊢
      exact ⟨check_same kp' kp t.1 hs.flexion hk.1, check_same kq' kq t.2 hs.content hk.2⟩

/-- What the program of the examples accepts. -/
theorem acceptText_iff {s u : Str} : acceptText s = .ok u ↔ ∃ w, uslRead s = .ok (.word w, []) ∧ w.check = true ∧ w.text = u := by
  unfold acceptText
  cases hr : uslRead s with
  | error e => simp [bind, Except.bind]
  | ok r =>
    obtain ⟨x, ds⟩ := r
    by_cases hd : ds = []
    · subst hd
      cases x with
      | word w => by_cases hc : w.check = true <;> simp [bind, Except.bind, hc, pure, Except.pure, throw, throwThe, MonadExceptOf.throw, Expr.text]
      | script _ | pm _ | lexeme _ => simp [bind, Except.bind, throw, throwThe, MonadExceptOf.throw]
    · simp [bind, Except.bind, hd, throw, throwThe, MonadExceptOf.throw]

/-- What it refuses among the texts that are read without decorations: the words refused by the check, with `ValueError`, and what is
no word, with `AttributeError`. -/
theorem C117_accept_refused {s : Str} {x : Expr} (h : uslRead s = .ok (x, [])) :
    (∀ w, x = .word w → w.check = false → acceptText s = .error .valueError) ∧
    ((∀ w, x ≠ .word w) → acceptText s = .error .attributeError) := by
  unfold acceptText
  rw [h]
  refine ⟨?_, fun hn => ?_⟩
  · rintro w rfl hc
    simp [bind, Except.bind, hc, throw, throwThe, MonadExceptOf.throw]
  · cases x with
    | word w => exact absurd rfl (hn w)
    | script _ | pm _ | lexeme _ => rfl

example : acceptText (c!"[! E:A:. (O:)]") = .error .valueError ∧ acceptText (c!"wa.") = .error .attributeError := by
  constructor <;> decide +kernel

/-- **C117** (part) The program leaves what it has written as it is when the words that it reads are tidy: their morphemes do not start
like an old grammatical class and they have no empty group.  Missing: the other words, and lines with decorations. -/
theorem C117_tidy_partial {ls : List Str} (hl : ∀ l ∈ ls, IsLine l)
    (ht : ∀ l ∈ ls, ∀ i t w, splitExample l = some (i, t) → uslRead (replaceX i) = .ok (.word w, []) → TidyWord w) :
    splitLines (writeExamples acceptText ls).1.flatten = (writeExamples acceptText ls).1 ∧
    writeExamples acceptText (writeExamples acceptText ls).1 = ((writeExamples acceptText ls).1, none) := by
  refine C117_words_partial hl fun l h p hp => ?_
  obtain ⟨i, h1, h2⟩ := processLine_ok hp
  obtain ⟨w, h3, h4, h5⟩ := acceptText_iff.1 h2
  obtain ⟨w', h6, h7, h8⟩ := C76_again_partial h3 (ht l h i _ w h1 h3) h4
  rw [h5] at h6
  exact acceptText_iff.2 ⟨w', h6, h8, h7.text.trans h5⟩

/-- A sufficient test of `TidyPM`. -/
def tidyTest (p : PM) : Bool :=
  (p.constant ++ p.groups.flatMap (·.1)).all (fun x => !startsWith x.str (c!"E:.b.")) && p.groups.all fun g => !g.1.isEmpty

theorem tidy_of_test {p : PM} (h : tidyTest p = true) : TidyPM p := by
  simp only [tidyTest, Bool.and_eq_true, List.all_eq_true, List.mem_append, List.mem_flatMap, Bool.not_eq_true'] at h
  have key : ∀ x : Script, startsWith x.str (c!"E:.b.") = false → NotOldClass x := by
    intro x hx c r e
    rw [e] at hx
    revert hx
    simp [startsWith]
  refine ⟨⟨fun x hx => key x (h.1 x (.inl hx)), fun g hg x hx => key x (h.1 x (.inr ⟨g, hg, hx⟩))⟩, fun g hg e => ?_⟩
  have := h.2 g hg
  rw [e] at this
  cases this

-- A word with a group, given in disorder, that meets the hypotheses of `C76_again_partial`.
example : ∃ w, uslRead (c!"[! E:A:. ()(S: A: m1(B: T:))]") = .ok (.word w, []) ∧ TidyWord w ∧ w.check = true ∧
    w.text = c!"[! E:A:.  ()(A: S: m1(B: T:))]" := by
  have key : (match uslRead (c!"[! E:A:. ()(S: A: m1(B: T:))]") with
    | .ok (.word w, []) => w.check && (w.text == c!"[! E:A:.  ()(A: S: m1(B: T:))]") && (w.sfun.asList w.context).all fun e =>
        match e.2 with
        | some x => tidyTest x.flexion && tidyTest x.content
        | none => true
    | _ => false) = true := by decide +kernel
  split at key
  · next w hw =>
    simp only [Bool.and_eq_true, List.all_eq_true, beq_iff_eq] at key
    refine ⟨w, hw, fun e he x hx => ?_, key.1.1, key.1.2⟩
    have := key.2 e he
    rw [hx] at this
    simp only [Bool.and_eq_true] at this
    exact ⟨tidy_of_test this.1, tidy_of_test this.2⟩
  · cases key

/-- **C117** is violated by a word with a group of empty morphemes, that the check accepts: what the program writes is refused when it is
run again. -/
theorem C117_violated_again : writeExamples acceptText [c!"[! E:A:. ()(A: m1(E:))] # vu\n"] = ([c!"[! E:A:.  ()(A: m1())] # vu\n"], none) ∧
    writeExamples acceptText [c!"[! E:A:.  ()(A: m1())] # vu\n"] = ([], some .cannotParse) := by
  constructor <;> decide +kernel

end Verif
