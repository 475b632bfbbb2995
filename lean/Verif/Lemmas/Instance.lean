import Verif.Model.Instance
import Verif.Lemmas.UslLex
import Verif.Props.PathParser

/-
Lemmas for C88: the tokens of the texts of decorations.
-/

namespace Verif
open Script

/-! ### The lexer after a bracket -/

/-- The text of a path, after its first character, when the lexer finds its end. -/
def PathEnds (w : Str) : Prop := ∀ r, afterPath (w ++ ' ' :: '"' :: r) = ' ' :: '"' :: r

/-- Skipping characters, the last of which is not a bracket. -/
theorem lexFrom_skip_last : ∀ (w : Str) (c : Char) (p : Option Char) (r : Str), c ≠ '[' →
    uslLexFrom (w.length + 1) p (w ++ c :: r) = uslLex r
  | [], c, p, r, h => by
    show uslLexFrom 1 p (c :: r) = _
    rw [uslLexFrom]
    exact lexFrom_prev (by simpa using h) r
  | d :: w, c, p, r, h => by
    show uslLexFrom (w.length + 1 + 1) p (d :: (w ++ c :: r)) = _
    rw [uslLexFrom]
    exact lexFrom_skip_last w c (some d) r h

/-- A bracket followed by a path. -/
theorem lex_bracket_path (w r : Str) : uslLex ('[' :: '>' :: w ++ r) =
    .lbracket :: uslLexFrom 0 (some '[') ('>' :: (w ++ r)) := by
  have e1 : oldPrefix ('[' :: '>' :: w ++ r) = false := by unfold oldPrefix; split <;> simp_all
  have e2 : matchTerm ('[' :: '>' :: w ++ r) = none := by
    unfold matchTerm
    rw [if_neg (by rw [e1]; simp)]
    simp [show termFirst '[' = false from by decide]
  have e3 : tokenAt none ('[' :: ('>' :: (w ++ r))) = some (.lbracket, 1) := by
    rw [List.cons_append, List.cons_append] at e1 e2
    simp [tokenAt, e2, matchOld, e1]
  rw [List.cons_append, List.cons_append, uslLex, uslLexFrom, if_neg (by decide), e3]

/-- The token of the path: all that the lexer takes for it. -/
theorem lex_path {w r : Str} (h : afterPath (w ++ r) = r) (hw : '[' ∉ w) :
    uslLexFrom 0 (some '[') ('>' :: (w ++ r)) = .path ('>' :: w) :: uslLex r := by
  have ht : tokenAt (some '[') ('>' :: (w ++ r)) = some (.path ('>' :: w), w.length + 1) := by
    have hl : ('>' :: (w ++ r)).length - r.length = w.length + 1 := by simp; omega
    have htake : ('>' :: (w ++ r)).take (w.length + 1) = '>' :: w := by simp
    unfold tokenAt
    simp only [and_self, if_true, h]
    rw [hl, htake]
    rfl
  rw [uslLexFrom, if_neg (by decide), ht]
  show _ :: uslLexFrom w.length (some '>') (w ++ r) = _
  rw [lexFrom_skip w (some '>') r (by simp) hw]

/-! ### Values -/

/-- The text of a value between its quotes. -/
def escaped (v : Str) : Str := v.flatMap fun c => if c = '"' then c!"\\\"" else [c]

theorem escaped_cons (c : Char) (v : Str) : escaped (c :: v) = (if c = '"' then ['\\', '"'] else [c]) ++ escaped v := rfl

theorem escaped_plain {v : Str} (h : '"' ∉ v) : escaped v = v := by
  induction v with
  | nil => rfl
  | cons c v ih =>
    rw [escaped_cons, if_neg (fun e => h (by simp [e])), ih (fun hm => h (List.mem_cons_of_mem _ hm))]
    rfl

theorem escaped_ne {v : Str} (h : '"' ∈ v) : escaped v ≠ v := by
  have hle : ∀ v : Str, v.length ≤ (escaped v).length := by
    intro v
    induction v with
    | nil => simp [escaped]
    | cons c v ih =>
      rw [escaped_cons]
      split <;> simp <;> omega
  suffices v.length < (escaped v).length from fun e => by rw [e] at this; omega
  induction v with
  | nil => cases h
  | cons c v ih =>
    rw [escaped_cons]
    by_cases hc : c = '"'
    · rw [if_pos hc]
      have := hle v
      simp; omega
    · rw [if_neg hc]
      have := ih (by simpa [Ne.symm hc] using h)
      simp; omega

/-- The quote that closes a value is the first one that is not escaped. -/
theorem closeAt_escaped : ∀ {v : Str}, v.getLast? ≠ some '\\' → ∀ r, closeAt '"' (escaped v ++ '"' :: r) = some (escaped v ++ ['"'])
  | [], _, r => by simp [escaped, closeAt]
  | c :: v, h, r => by
    have hv : v.getLast? ≠ some '\\' := by
      cases v with
      | nil => simp
      | cons d v => simpa [List.getLast?_cons_cons] using h
    have ih := closeAt_escaped hv r
    rw [escaped_cons]
    by_cases hc : c = '"'
    · rw [if_pos hc]
      show closeAt '"' ('\\' :: '"' :: (escaped v ++ '"' :: r)) = _
      rw [closeAt, if_pos rfl, ih]
      rfl
    · rw [if_neg hc]
      show closeAt '"' (c :: (escaped v ++ '"' :: r)) = some (c :: (escaped v ++ ['"']))
      by_cases hb : c = '\\'
      · subst hb
        -- what follows is not a quote
        cases v with
        | nil => simp at h
        | cons d v =>
          by_cases hd : d = '"'
          · subst hd
            show closeAt '"' ('\\' :: '\\' :: ('"' :: (escaped v ++ '"' :: r))) = _
            rw [closeAt, if_neg (by decide)]
            have ih' : closeAt '"' ('\\' :: '"' :: (escaped v ++ '"' :: r)) = some ('\\' :: '"' :: (escaped v ++ ['"'])) := ih
            rw [ih']
            rfl
          · have e : escaped (d :: v) = d :: escaped v := by rw [escaped_cons, if_neg hd]; rfl
            rw [e] at ih ⊢
            show closeAt '"' ('\\' :: d :: (escaped v ++ '"' :: r)) = _
            rw [closeAt, if_neg hd]
            rw [List.cons_append] at ih
            rw [ih]
            rfl
      · rw [closeAt]
        · rw [if_neg hc, ih]
          rfl
        · intro x s e
          exact absurd e hb

theorem lex_value {v : Str} (h : v.getLast? ≠ some '\\') (r : Str) :
    uslLex ('"' :: (escaped v ++ '"' :: r)) = .value ('"' :: (escaped v ++ ['"'])) :: uslLex r := by
  have e1 : oldPrefix ('"' :: (escaped v ++ '"' :: r)) = false := by unfold oldPrefix; split <;> simp_all
  have e2 : matchTerm ('"' :: (escaped v ++ '"' :: r)) = none := by
    unfold matchTerm
    rw [if_neg (by simp [e1])]
    cases escaped v <;> simp [show termFirst '"' = false from by decide]
  have e3 : tokenAt none ('"' :: (escaped v ++ '"' :: r)) = some (.value ('"' :: (escaped v ++ ['"'])), (escaped v).length + 1 + 1) := by
    simp [tokenAt, e2, matchOld, e1, closeAt_escaped h]
  rw [uslLex, uslLexFrom, if_neg (by decide), e3]
  show _ :: uslLexFrom ((escaped v).length + 1) (some '"') (escaped v ++ '"' :: r) = _
  rw [lexFrom_skip_last _ _ _ _ (by decide)]

theorem unquote_value (e : Str) : unquote ('"' :: (e ++ ['"'])) = e := by simp [unquote]

/-- The tokens of a decoration. -/
theorem lex_decoration {p : Path} {w v : Str} (hp : pathText p = '>' :: w) (he : PathEnds w) (hw : '[' ∉ w) (hv : v.getLast? ≠ some '\\') (r : Str) :
    uslLex (decorationText (p, v) ++ r) =
      .lbracket :: .path (pathText p) :: .value ('"' :: (escaped v ++ ['"'])) :: .rbracket :: uslLex r := by
  have e : decorationText (p, v) ++ r = '[' :: '>' :: w ++ (' ' :: '"' :: (escaped v ++ '"' :: (']' :: r))) := by
    simp [decorationText, escaped, hp]
  rw [e, lex_bracket_path, lex_path (he _) hw, lex_space, lex_value hv, lex_rbracket, hp]

/-! ### Where a path ends -/

def roleStage (s : Str) : Str := ((afterPrefix (c!"role>") s).bind fun r => afterRoles (r.length + 1) r).getD s
def halfStage (s : Str) : Str := ((afterPrefix (c!"flexion>") s).orElse fun _ => afterPrefix (c!"content>") s).getD s
def termStage (s : Str) : Str :=
  match (afterGroup s).bind fun r => (matchTerm r).map fun t => r.drop t.length with
  | some r => r
  | none => s.drop ((matchTerm s).getD []).length

theorem afterPath_stages (s : Str) : afterPath s = termStage (halfStage (roleStage s)) := rfl

/-- A text of the marks of scripts followed by a blank does not start with a text that has another character and no blank. -/
theorem no_prefix {p m r : Str} (hm : ∀ c ∈ m, termRest c = true) {x : Char} (hx : x ∈ p) (hx' : termRest x = false) (hp : ' ' ∉ p) :
    afterPrefix p (m ++ ' ' :: r) = none := by
  unfold afterPrefix
  rw [if_neg]
  rw [List.isPrefixOf_iff_prefix]
  rintro ⟨t, ht⟩
  rcases List.append_eq_append_iff.1 ht with ⟨a, rfl, _⟩ | ⟨a, rfl, ha⟩
  · rw [hm x (by simp [hx])] at hx'
    cases hx'
  · cases a with
    | nil =>
      rw [List.append_nil] at hx
      rw [hm x hx] at hx'
      cases hx'
    | cons c a =>
      injection ha with h1 _
      subst h1
      exact hp (by simp)

theorem term_script {m : Script} (h : WF m) (hr : Readable m) (r : Str) : termStage (m.str ++ ' ' :: r) = ' ' :: r ∧
    termStage (c!"constant>" ++ m.str ++ ' ' :: r) = ' ' :: r ∧ halfStage (m.str ++ ' ' :: r) = m.str ++ ' ' :: r ∧
    roleStage (m.str ++ ' ' :: r) = m.str ++ ' ' :: r := by
  have hall : ∀ c ∈ m.str, termRest c = true := fun c hc => termRest_of (str_termChar h c hc)
  have ht := matchTerm_script h hr (cut_space r)
  refine ⟨?_, ?_, ?_, ?_⟩
  · have h1 : afterGroup (m.str ++ ' ' :: r) = none := by
      unfold afterGroup
      rw [no_prefix hall (x := 'r') (by decide) (by decide) (by decide)]
      exact no_prefix hall (x := '>') (by decide) (by decide) (by decide)
    unfold termStage
    rw [h1, ht]
    simp
  · have h1 : afterGroup (c!"constant>" ++ m.str ++ ' ' :: r) = some (m.str ++ ' ' :: r) := by
      simp [afterGroup, afterPrefix, List.isPrefixOf]
    unfold termStage
    rw [h1]
    show (match (matchTerm (m.str ++ ' ' :: r)).map fun t => (m.str ++ ' ' :: r).drop t.length with
      | some r => r
      | none => _) = _
    rw [ht]
    simp
  · unfold halfStage
    rw [no_prefix hall (x := '>') (by decide) (by decide) (by decide), no_prefix hall (x := '>') (by decide) (by decide) (by decide)]
    rfl
  · unfold roleStage
    rw [no_prefix hall (x := '>') (by decide) (by decide) (by decide)]
    rfl

/-- The texts after the roles of a path. -/
inductive HalfText : Str → Prop
  | half (c : Bool) : HalfText (if c then c!"content" else c!"flexion")
  | constant : HalfText (c!"content>constant")
  | content {m : Script} : WF m → Readable m → HalfText (c!"content>constant>" ++ m.str)
  | flexion {m : Script} : WF m → Readable m → HalfText (c!"flexion>" ++ m.str)

theorem halfText_ends {w : Str} (h : HalfText w) (r : Str) : termStage (halfStage (w ++ ' ' :: r)) = ' ' :: r ∧ roleStage (w ++ ' ' :: r) = w ++ ' ' :: r := by
  cases h with
  | half c =>
    cases c
    · exact ⟨rfl, rfl⟩
    · exact ⟨rfl, rfl⟩
  | constant => exact ⟨rfl, rfl⟩
  | content hm hr =>
    rename_i m
    have e : halfStage (c!"content>constant>" ++ m.str ++ ' ' :: r) = c!"constant>" ++ m.str ++ ' ' :: r := by
      simp [halfStage, afterPrefix, List.isPrefixOf]
    rw [e]
    exact ⟨(term_script hm hr r).2.1, by simp [roleStage, afterPrefix, List.isPrefixOf]⟩
  | flexion hm hr =>
    rename_i m
    have e : halfStage (c!"flexion>" ++ m.str ++ ' ' :: r) = m.str ++ ' ' :: r := by
      simp [halfStage, afterPrefix, List.isPrefixOf]
    rw [e]
    exact ⟨(term_script hm hr r).1, by simp [roleStage, afterPrefix, List.isPrefixOf]⟩

theorem address_chars : ∀ a ∈ addressScripts, ∀ c ∈ a, (!isBlank c && c != '>') = true ∧ c ≠ '[' := by decide +kernel

/-- The roles of a path are read up to the separator. -/
theorem afterRoles_address : ∀ {l : Addr} {n : Nat} {s : Str}, l ≠ [] → (∀ a ∈ l, a ∈ addressScripts) → l.length ≤ n →
    afterRoles n (roleText l ++ '>' :: s) = some s
  | [], _, _, h, _, _ => absurd rfl h
  | [a], n, s, _, ha, hn => by
    obtain ⟨n, rfl⟩ : ∃ m, n = m + 1 := ⟨n - 1, by simp at hn; omega⟩
    have hc := fun c hc => (address_chars a (ha a (by simp)) c hc).1
    have h1 := takeWhile_cut (w := a) (r := '>' :: s) (p := fun c => !isBlank c && c != '>') hc (by rintro c _ ⟨⟩; decide)
    have h2 : (a ++ '>' :: s).dropWhile (fun c => !isBlank c && c != '>') = '>' :: s := by
      rw [List.dropWhile_append_of_pos hc, List.dropWhile_cons_of_neg (by decide)]
    show afterRoles (n + 1) (a ++ '>' :: s) = some s
    rw [afterRoles, h1, if_pos (ha a (by simp)), h2]
    rfl
  | a :: b :: l, n, s, _, ha, hn => by
    obtain ⟨n, rfl⟩ : ∃ m, n = m + 1 := ⟨n - 1, by simp at hn; omega⟩
    have hc := fun c hc => (address_chars a (ha a (by simp)) c hc).1
    have ih := afterRoles_address (l := b :: l) (n := n) (s := s) (by simp) (fun x hx => ha x (List.mem_cons_of_mem _ hx)) (by simpa using hn)
    have e : roleText (a :: b :: l) ++ '>' :: s = a ++ ' ' :: (roleText (b :: l) ++ '>' :: s) := by simp [roleText, joinSpace]
    have h1 := takeWhile_cut (w := a) (r := ' ' :: (roleText (b :: l) ++ '>' :: s)) (p := fun c => !isBlank c && c != '>') hc (by rintro c _ ⟨⟩; decide)
    have h2 : (a ++ ' ' :: (roleText (b :: l) ++ '>' :: s)).dropWhile (fun c => !isBlank c && c != '>') = ' ' :: (roleText (b :: l) ++ '>' :: s) := by
      rw [List.dropWhile_append_of_pos hc, List.dropWhile_cons_of_neg (by decide)]
    rw [e, afterRoles, h1, if_pos (ha a (by simp)), h2]
    show (if ' ' = '>' then some (roleText (b :: l) ++ '>' :: s) else afterRoles n (roleText (b :: l) ++ '>' :: s)) = some s
    rw [if_neg (by decide), ih]

/-- The roles of a path that ends with them: what follows is a blank and a quote. -/
theorem afterRoles_alone : ∀ {l : Addr} (n : Nat) (s : Str), (∀ a ∈ l, a ∈ addressScripts) → afterRoles n (roleText l ++ ' ' :: '"' :: s) = none
  | _, 0, _, _ => rfl
  | [], n + 1, s, _ => by
    show afterRoles (n + 1) (' ' :: '"' :: s) = none
    rw [afterRoles, List.takeWhile_cons_of_neg (by decide), if_neg (by decide +kernel)]
  | [a], n + 1, s, ha => by
    have hc := fun c hc => (address_chars a (ha a (by simp)) c hc).1
    have h1 := takeWhile_cut (w := a) (r := ' ' :: '"' :: s) (p := fun c => !isBlank c && c != '>') hc (by rintro c _ ⟨⟩; decide)
    have h2 : (a ++ ' ' :: '"' :: s).dropWhile (fun c => !isBlank c && c != '>') = ' ' :: '"' :: s := by
      rw [List.dropWhile_append_of_pos hc, List.dropWhile_cons_of_neg (by decide)]
    show afterRoles (n + 1) (a ++ ' ' :: '"' :: s) = none
    rw [afterRoles, h1, if_pos (ha a (by simp)), h2]
    show (if ' ' = '>' then some ('"' :: s) else afterRoles n ('"' :: s)) = none
    rw [if_neg (by decide)]
    cases n with
    | zero => rfl
    | succ n =>
      rw [afterRoles, List.takeWhile_cons_of_pos (by decide), if_neg]
      have : ∀ a ∈ addressScripts, a.head? ≠ some '"' := by decide +kernel
      intro hm
      exact this _ hm rfl
  | a :: b :: l, n + 1, s, ha => by
    have hc := fun c hc => (address_chars a (ha a (by simp)) c hc).1
    have ih := afterRoles_alone (l := b :: l) n s (fun x hx => ha x (List.mem_cons_of_mem _ hx))
    have e : roleText (a :: b :: l) ++ ' ' :: '"' :: s = a ++ ' ' :: (roleText (b :: l) ++ ' ' :: '"' :: s) := by simp [roleText, joinSpace]
    have h1 := takeWhile_cut (w := a) (r := ' ' :: (roleText (b :: l) ++ ' ' :: '"' :: s)) (p := fun c => !isBlank c && c != '>') hc (by rintro c _ ⟨⟩; decide)
    have h2 : (a ++ ' ' :: (roleText (b :: l) ++ ' ' :: '"' :: s)).dropWhile (fun c => !isBlank c && c != '>') = ' ' :: (roleText (b :: l) ++ ' ' :: '"' :: s) := by
      rw [List.dropWhile_append_of_pos hc, List.dropWhile_cons_of_neg (by decide)]
    rw [e, afterRoles, h1, if_pos (ha a (by simp)), h2]
    show (if ' ' = '>' then some (roleText (b :: l) ++ ' ' :: '"' :: s) else afterRoles n (roleText (b :: l) ++ ' ' :: '"' :: s)) = none
    rw [if_neg (by decide), ih]

theorem roleStage_roles {l : Addr} (h : l ≠ []) (ha : ∀ a ∈ l, a ∈ addressScripts) (s : Str) :
    roleStage (c!"role>" ++ roleText l ++ '>' :: s) = s := by
  have e : afterPrefix (c!"role>") (c!"role>" ++ roleText l ++ '>' :: s) = some (roleText l ++ '>' :: s) := by
    simp [afterPrefix, List.isPrefixOf]
  have hlen : l.length ≤ (roleText l ++ '>' :: s).length + 1 := by
    have : ∀ l : Addr, l.length ≤ (roleText l).length + 1 := by
      intro l
      induction l with
      | nil => simp
      | cons a l ih =>
        cases l with
        | nil => simp
        | cons b l =>
          simp only [roleText, joinSpace, List.length_append, List.length_cons] at ih ⊢
          omega
    have := this l
    simp
    omega
  unfold roleStage
  rw [e]
  show (afterRoles ((roleText l ++ '>' :: s).length + 1) (roleText l ++ '>' :: s)).getD _ = s
  rw [afterRoles_address h ha hlen]
  rfl

/-! ### What the lexer does with the rest of a path that it does not know -/

/-- The first token is not a value. -/
def Stuck (s : Str) : Prop := ∀ x T, uslLex s ≠ .value x :: T

/-- A character that starts no token. -/
theorem lex_none {c : Char} {r : Str} (h1 : (c!"{} \t\n").contains c = false) (h2 : tokenAt none (c :: r) = none) (h3 : c ≠ '[') :
    uslLex (c :: r) = uslLex r := by
  rw [uslLex, uslLexFrom, if_neg (by rw [h1]; simp), h2]
  exact lexFrom_prev (by simpa using h3) r

theorem lex_morpheme {c : Char} {r t : Str} (h1 : (c!"{} \t\n").contains c = false) (h2 : matchTerm (c :: r) = some t) : Stuck (c :: r) := by
  intro x T h
  rw [uslLex, uslLexFrom, if_neg (by rw [h1]; simp)] at h
  have : tokenAt none (c :: r) = some (.morpheme t, t.length) := by simp [tokenAt, h2]
  rw [this] at h
  cases h

/-- The letters of no script. -/
theorem lex_r (r : Str) : uslLex ('r' :: r) = uslLex r := by
  refine lex_none (by decide) ?_ (by decide)
  have e1 : oldPrefix ('r' :: r) = false := by unfold oldPrefix; split <;> simp_all
  have e2 : matchTerm ('r' :: r) = none := by
    unfold matchTerm
    rw [if_neg (by simp [e1])]
    cases r <;> simp [show termFirst 'r' = false from by decide]
  simp [tokenAt, e2, matchOld, e1]

theorem matchTerm_role (r : Str) : matchTerm (c!"role>" ++ r) = none := rfl

theorem stuck_role (r : Str) : Stuck (c!"role>" ++ r) := by
  have h : uslLex (c!"role>" ++ r) = uslLex (c!"ole>" ++ r) := lex_r _
  have h2 : Stuck (c!"ole>" ++ r) := lex_morpheme (t := c!"ole") (by decide) rfl
  intro x T
  rw [h]
  exact h2 x T

theorem stuck_group (r : Str) : Stuck (c!"group_" ++ r) := by
  have h1 : uslLex (c!"group_" ++ r) = uslLex (c!"roup_" ++ r) := by
    refine lex_none (by decide) ?_ (by decide)
    rfl
  have h2 : uslLex (c!"roup_" ++ r) = uslLex (c!"oup_" ++ r) := lex_r _
  have h3 : Stuck (c!"oup_" ++ r) := lex_morpheme (t := c!"oup_" ++ r.takeWhile termRest) (by decide) rfl
  intro x T
  rw [h1, h2]
  exact h3 x T

theorem stuck_chevron (r : Str) : Stuck ('>' :: r) := by
  intro x T h
  rw [lex_rchevron] at h
  cases h

/-- A morpheme that starts like an old grammatical class. -/
theorem stuck_old {m : Script} (ho : oldPrefix m.str = true) (r : Str) : oldPrefix (m.str ++ r) = true ∧ Stuck (m.str ++ r) := by
  generalize m.str = s at ho
  unfold oldPrefix at ho
  split at ho
  · rename_i c t
    have h0 : oldPrefix (c!"E:.b.E:" ++ c :: (c!":.-" ++ (t ++ r))) = true := ho
    have e : 'E' :: ':' :: '.' :: 'b' :: '.' :: 'E' :: ':' :: c :: ':' :: '.' :: '-' :: t ++ r = c!"E:.b.E:" ++ c :: (c!":.-" ++ (t ++ r)) := by simp
    rw [e]
    refine ⟨h0, ?_⟩
    have h1 : matchTerm (c!"E:.b.E:" ++ c :: (c!":.-" ++ (t ++ r))) = none := by
      unfold matchTerm
      rw [if_pos h0]
    intro x T h
    cases hm : matchOld (c!"E:.b.E:" ++ c :: (c!":.-" ++ (t ++ r))) with
    | some y =>
      have h2 : tokenAt none ('E' :: (c!":.b.E:" ++ c :: (c!":.-" ++ (t ++ r)))) = some (.oldClass y, y.length) := by
        have h1' : matchTerm ('E' :: (c!":.b.E:" ++ c :: (c!":.-" ++ (t ++ r)))) = none := h1
        have hm' : matchOld ('E' :: (c!":.b.E:" ++ c :: (c!":.-" ++ (t ++ r)))) = some y := hm
        rw [tokenAt]
        simp only [reduceCtorEq, false_and, if_false]
        rw [h1']
        simp only [hm']
      have h3 : uslLexFrom 0 none ('E' :: (c!":.b.E:" ++ c :: (c!":.-" ++ (t ++ r)))) = .value x :: T := h
      rw [uslLexFrom, if_neg (by decide), h2] at h3
      cases h3
    | none =>
      have h2 : tokenAt none ('E' :: (c!":.b.E:" ++ c :: (c!":.-" ++ (t ++ r)))) = none := by
        rw [tokenAt]
        simp only [reduceCtorEq, false_and, if_false]
        have h1' : matchTerm ('E' :: (c!":.b.E:" ++ c :: (c!":.-" ++ (t ++ r)))) = none := h1
        have hm' : matchOld ('E' :: (c!":.b.E:" ++ c :: (c!":.-" ++ (t ++ r)))) = none := hm
        rw [h1']
        simp only [hm']
        rfl
      have h4 : uslLex ('E' :: (c!":.b.E:" ++ c :: (c!":.-" ++ (t ++ r)))) = .value x :: T := h
      rw [lex_none (by decide) h2 (by decide)] at h4
      have h5 : uslLex (':' :: (c!".b.E:" ++ c :: (c!":.-" ++ (t ++ r)))) = .value x :: T := h4
      rw [lex_none (by decide) rfl (by decide)] at h5
      have h6 : uslLex ('.' :: (c!"b.E:" ++ c :: (c!":.-" ++ (t ++ r)))) = .value x :: T := h5
      rw [lex_none (by decide) rfl (by decide)] at h6
      exact lex_morpheme (c := 'b') (r := c!".E:" ++ c :: (c!":.-" ++ (t ++ r))) (t := c!"b." ++ (c!"E:" ++ c :: (c!":.-" ++ (t ++ r))).takeWhile termRest) (by decide) rfl x T h6
  · cases ho

end Verif
