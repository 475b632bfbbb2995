import Verif.Props.UslParser
import Verif.Props.SyntagmaticFunction
import Verif.Props.RoleOrder
import Verif.Props.Word
import Verif.Lemmas.Reading

/-
C62: the texts of words read back.
-/

namespace Verif
open Script

/-! ### Lexemes inside other texts -/

/-- A lexeme made of legible polymorphemes, possibly empty. -/
def LegibleLexeme (x : Lexeme) : Prop :=
  ∃ fc fg cc cg, Legible fc fg ∧ Legible cc cg ∧ x = mkLexeme (mkPM fc fg) (mkPM cc cg)

/-- Tokens that do not continue a lexeme. -/
def NoParen (ts : List UTok) : Prop := ∀ r, ts ≠ .lparen :: r

/-- The lexeme `x'` is read from the text of `x`, inside any text. -/
def LexemeReads (x x' : Lexeme) : Prop :=
  ∃ T, Lexes x.text (.lparen :: T) ∧ SameLexeme x' x ∧ ∀ ts, NoParen ts → takeLexeme (T ++ ts) = .ok (x', ts)

theorem takeLexeme_one {ts us : List UTok} {a : Option PM} (h : takeParen ts = .ok (a, us)) (hu : NoParen us) :
    takeLexeme ts = .ok (mkLexeme (a.getD (mkPM [] [])) (mkPM [] []), us) := by
  unfold takeLexeme
  rw [h]
  show (match us with | .lparen :: ts => _ | ts => _) = _
  split
  · exact absurd rfl (hu _)
  · rfl

theorem takeLexeme_two {ts us vs : List UTok} {a : Option PM} {q : PM} (h : takeParen ts = .ok (a, .lparen :: us)) (h' : takeParen us = .ok (some q, vs))
    (hv : NoParen vs) : takeLexeme ts = .ok (mkLexeme (a.getD (mkPM [] [])) q, vs) := by
  unfold takeLexeme
  rw [h]
  show (takeParen us >>= _) = _
  rw [h']
  cases a <;> cases vs with
  | nil => rfl
  | cons k vs => cases k <;> first | rfl | exact absurd rfl (hv _)

theorem lexeme_read {x : Lexeme} (h : LegibleLexeme x) : ∃ x', LexemeReads x x' := by
  obtain ⟨fc, fg, cc, cg, hf, hc, rfl⟩ := h
  obtain ⟨T, p, hT, hsp, hep, htp, hbp⟩ := paren_read hf
  obtain ⟨U, q, hU, hsq, heq, htq, hbq⟩ := paren_read hc
  have hs : SameLexeme (mkLexeme p q) (mkLexeme (mkPM fc fg) (mkPM cc cg)) := ⟨lexemeText_same hsp hsq hep heq, hsp, hsq⟩
  have ht : (mkLexeme (mkPM fc fg) (mkPM cc cg)).text = lexemeText (mkPM fc fg) (mkPM cc cg) := rfl
  simp only [lexemeText] at ht
  refine ⟨mkLexeme p q, ?_⟩
  by_cases h2 : (mkPM cc cg).empty = true
  · rw [if_pos h2] at ht
    by_cases h1 : (mkPM fc fg).empty = true
    · rw [if_pos h1] at ht
      refine ⟨[.rparen], ?_, hs, ?_⟩
      · intro r _
        rw [ht]
        show uslLex ('(' :: ')' :: r) = _
        rw [lex_lparen, lex_rparen]
        rfl
      · intro ts hts
        rw [hbp h1, hbq h2]
        exact takeLexeme_one (ts := .rparen :: ts) (a := none) rfl hts
    · rw [if_neg h1] at ht
      refine ⟨T ++ [.rparen], ?_, hs, ?_⟩
      · intro r _
        have hw : (c!"(" ++ (mkPM fc fg).text ++ c!")" : Str) ++ r = '(' :: ((mkPM fc fg).text ++ ')' :: r) := by simp
        rw [ht, hw, hT]
        simp
      · intro ts hts
        rw [List.append_assoc, hbq h2]
        refine takeLexeme_one (a := some p) ?_ hts
        have := htp ts
        rwa [if_neg h1] at this
  · rw [if_neg h2] at ht
    refine ⟨T ++ .rparen :: .lparen :: (U ++ [.rparen]), ?_, hs, ?_⟩
    · intro r _
      have hw : (c!"(" ++ (mkPM fc fg).text ++ c!")" ++ (c!"(" ++ (mkPM cc cg).text ++ c!")") : Str) ++ r =
          '(' :: ((mkPM fc fg).text ++ ')' :: ('(' :: ((mkPM cc cg).text ++ ')' :: r))) := by simp
      rw [ht, hw, hT, hU]
      simp
    · intro ts hts
      have e : T ++ .rparen :: .lparen :: (U ++ [.rparen]) ++ ts = T ++ .rparen :: .lparen :: (U ++ .rparen :: ts) := by simp
      have h3 := htq ts
      rw [if_neg h2] at h3
      rw [e, takeLexeme_two (htp _) h3 hts]
      by_cases h1 : (mkPM fc fg).empty = true
      · rw [if_pos h1, hbp h1]
        rfl
      · rw [if_neg h1]
        rfl

/-! ### Addresses -/

theorem address_readable : ∀ a ∈ addressScripts, oldPrefix a = false := by decide +kernel

theorem address_script {a : Str} (h : a ∈ addressScripts) : ∃ s, WF s ∧ Readable s ∧ s.str = a := by
  have h1 := C49_addresses.2 a h
  cases hp : parseScript a with
  | error e => rw [hp] at h1; cases h1
  | ok s =>
    rw [hp] at h1
    have h2 : s.str = a := Except.ok.inj h1
    exact ⟨s, parse_wf hp, by rw [Readable, h2]; exact address_readable a h, h2⟩

theorem address_scripts {a : Addr} (h : ∀ x ∈ a, x ∈ addressScripts) : ∃ ss : List Script, (∀ s ∈ ss, WF s ∧ Readable s) ∧ ss.map str = a := by
  induction a with
  | nil => exact ⟨[], by simp, rfl⟩
  | cons x a ih =>
    obtain ⟨ss, h1, h2⟩ := ih fun y hy => h y (List.mem_cons_of_mem _ hy)
    obtain ⟨s, h3, h4, h5⟩ := address_script (h x (by simp))
    refine ⟨s :: ss, ?_, by simp [h2, h5]⟩
    intro y hy
    rcases List.mem_cons.1 hy with rfl | hy
    · exact ⟨h3, h4⟩
    · exact h1 y hy

/-- The tokens of an address. -/
def addrToks (a : Addr) : List UTok := a.map .morpheme

theorem lexes_address {a : Addr} (h : ∀ x ∈ a, x ∈ addressScripts) : Lexes (roleText a) (addrToks a) := by
  obtain ⟨ss, h1, rfl⟩ := address_scripts h
  have : addrToks (ss.map str) = sumToks ss := by simp [addrToks, sumToks]
  rw [this]
  exact lexes_sum h1

theorem takeMorphemes_address {a : Addr} (h : ∀ x ∈ a, x ∈ addressScripts) {ts : List UTok} (hts : NoMorpheme ts) :
    ∃ ss, takeMorphemes (addrToks a ++ ts) = .ok (ss, ts) ∧ ss.map str = a := by
  obtain ⟨ss, h1, rfl⟩ := address_scripts h
  have : addrToks (ss.map str) = sumToks ss := by simp [addrToks, sumToks]
  rw [this]
  obtain ⟨ss', hr⟩ := readAs_exists fun s hs => (h1 s hs).1
  exact ⟨ss', takeMorphemes_sum hr hts, hr.strs fun s hs => (h1 s hs).1⟩

/-! ### Elements of the list of lexemes -/

theorem Lexes.space {a b : Str} {A B : List UTok} (ha : Lexes a A) (hb : Lexes b B) : Lexes (a ++ c!" " ++ b) (A ++ B) := by
  intro r hr
  have e : a ++ c!" " ++ b ++ r = a ++ ' ' :: (b ++ r) := by simp
  rw [e, ha _ (cut_space _), lex_space, hb r hr, List.append_assoc]

/-- An element read from the text of another, inside any text. -/
def ItemReads (w : Str) (e : Bool × RoleEntry Lexeme) : Prop :=
  ∃ k I, Lexes w (k :: I) ∧ (∀ s, k ≠ .oldClass s) ∧ k ≠ .rchevron ∧ ∀ ts, NoParen ts → takeMarked (k :: I ++ ts) = .ok (e, ts)

theorem lexes_item {main : List Addr} {t : SType} {a : Addr} {x : Lexeme} {T : List UTok} (ha : ∀ y ∈ a, y ∈ addressScripts) (hx : Lexes x.text T) :
    Lexes (itemText Lexeme.text main t.pre (a, some x)) ((if a ∈ main then [.exclamation] else []) ++ (addrToks (t.pre ++ a) ++ T)) := by
  have h1 : Lexes (roleText a ++ c!" " ++ x.text) (addrToks a ++ T) := (lexes_address ha).space hx
  have h2 : Lexes (itemText Lexeme.text [] t.pre (a, some x)) (addrToks (t.pre ++ a) ++ T) := by
    have hp := pre_address t
    have hl : t.pre.length ≤ 1 := by cases t <;> decide
    generalize t.pre = pre at hp hl
    rcases pre with _ | ⟨p, _ | ⟨q, l⟩⟩
    · exact h1
    · have h3 : Lexes p [.morpheme p] := lexes_address (a := [p]) fun y hy => hp y hy
      have := h3.space h1
      have e : p ++ c!" " ++ (roleText a ++ c!" " ++ x.text) = itemText Lexeme.text [] [p] (a, some x) := by simp [itemText, actorText]
      rw [e] at this
      exact this
    · simp at hl
  by_cases hm : a ∈ main
  · have e : itemText Lexeme.text main t.pre (a, some x) = '!' :: ' ' :: itemText Lexeme.text [] t.pre (a, some x) := by
      simp [itemText, hm]
    intro r hr
    rw [if_pos hm, e]
    show uslLex ('!' :: ' ' :: (itemText Lexeme.text [] t.pre (a, some x) ++ r)) = _
    rw [lex_exclamation, lex_space, h2 r hr]
    simp
  · have e : itemText Lexeme.text main t.pre (a, some x) = itemText Lexeme.text [] t.pre (a, some x) := by
      simp [itemText, hm]
    rw [if_neg hm, e]
    exact h2

theorem item_reads {main : List Addr} {t : SType} {a : Addr} {x x' : Lexeme} (ha : ∀ y ∈ a, y ∈ addressScripts) (hx : LexemeReads x x') :
    ItemReads (itemText Lexeme.text main t.pre (a, some x)) (decide (a ∈ main), (t.pre ++ a, some x')) := by
  obtain ⟨T, h1, _, h3⟩ := hx
  have hl := lexes_item (main := main) (t := t) ha h1
  have hall : ∀ y ∈ t.pre ++ a, y ∈ addressScripts := by
    intro y hy
    rcases List.mem_append.1 hy with hy | hy
    · exact pre_address t y hy
    · exact ha y hy
  have hpos : ∀ ts, NoParen ts → takePositioned (addrToks (t.pre ++ a) ++ .lparen :: T ++ ts) = .ok ((t.pre ++ a, some x'), ts) := by
    intro ts hts
    obtain ⟨ss, h4, h5⟩ := takeMorphemes_address hall (ts := .lparen :: (T ++ ts)) (by intro s r h; cases h)
    unfold takePositioned
    rw [List.append_assoc, List.cons_append, h4]
    show (takeLexeme (T ++ ts) >>= _) = _
    rw [h3 ts hts]
    show Except.ok ((ss.map str, some x'), ts) = _
    rw [h5]
  by_cases hm : a ∈ main
  · rw [if_pos hm] at hl
    refine ⟨_, _, hl, by simp, by simp, ?_⟩
    intro ts hts
    show takeMarked (.exclamation :: (addrToks (t.pre ++ a) ++ .lparen :: T ++ ts)) = _
    show (takePositioned _ >>= _) = _
    rw [hpos ts hts]
    simp [hm]
  · rw [if_neg hm] at hl
    have hhead : ∃ k I, addrToks (t.pre ++ a) ++ .lparen :: T = k :: I ∧ (∀ s, k ≠ .oldClass s) ∧ k ≠ .rchevron ∧ k ≠ .exclamation := by
      cases hh : t.pre ++ a with
      | nil => exact ⟨.lparen, T, rfl, by simp, by simp, by simp⟩
      | cons y l => exact ⟨.morpheme y, _, rfl, by simp, by simp, by simp⟩
    obtain ⟨k, I, e, k1, k2, k3⟩ := hhead
    rw [List.nil_append, e] at hl
    refine ⟨k, I, hl, k1, k2, ?_⟩
    intro ts hts
    have := hpos ts hts
    rw [e] at this
    unfold takeMarked
    split
    · rename_i he
      injection he with he
      exact absurd he k3
    · rw [this]
      simp [hm]

/-! ### Lists of elements -/

/-- The tokens after the first element. -/
def moreToks (Is : List (List UTok)) : List UTok := Is.flatMap (.rchevron :: ·)

theorem joinChevron_cons (s : Str) (ss : List Str) : joinChevron (s :: ss) = s ++ ss.flatMap (c!" > " ++ ·) := by
  induction ss generalizing s with
  | nil => simp [joinChevron]
  | cons u us ih => rw [joinChevron, ih u]; simp

theorem cut_more (ss : List Str) {r : Str} (hr : Cut r) : Cut (ss.flatMap (c!" > " ++ ·) ++ r) := by
  cases ss with
  | nil => exact hr
  | cons s ss => exact cut_space _

theorem noParen_more (Is : List (List UTok)) {ts : List UTok} (h : NoParen ts) : NoParen (moreToks Is ++ ts) := by
  cases Is with
  | nil => exact h
  | cons I Is => intro r h; cases h

theorem more_reads {ws : List Str} {es : List (Bool × RoleEntry Lexeme)} (h : List.Forall₂ ItemReads ws es) :
    ∃ Is, Is.length = ws.length ∧ (∀ r, Cut r → uslLex (ws.flatMap (c!" > " ++ ·) ++ r) = moreToks Is ++ uslLex r) ∧
      ∀ n ts, ws.length ≤ n → NoParen ts → (∀ r, ts ≠ .rchevron :: r) → takeMore n (moreToks Is ++ ts) = .ok (es, ts) := by
  induction h with
  | nil =>
    refine ⟨[], rfl, fun _ _ => rfl, ?_⟩
    intro n ts _ _ h
    show takeMore n ts = _
    unfold takeMore
    split
    · exact absurd rfl (h _)
    · rfl
  | @cons w e ws es h1 _ ih =>
    obtain ⟨Is, i1, i2, i3⟩ := ih
    obtain ⟨k, I, j1, _, _, j4⟩ := h1
    refine ⟨(k :: I) :: Is, by simp [i1], ?_, ?_⟩
    · intro r hr
      have e : (w :: ws).flatMap (c!" > " ++ ·) ++ r = ' ' :: '>' :: ' ' :: (w ++ (ws.flatMap (c!" > " ++ ·) ++ r)) := by simp
      rw [e, lex_space, lex_rchevron, lex_space, j1 _ (cut_more ws hr), i2 r hr]
      simp [moreToks]
    · intro n ts hn h1 h2
      obtain ⟨n, rfl⟩ : ∃ m, n = m + 1 := ⟨n - 1, by simp at hn; omega⟩
      have e : moreToks ((k :: I) :: Is) ++ ts = .rchevron :: (k :: I ++ (moreToks Is ++ ts)) := by simp [moreToks]
      rw [e, takeMore, j4 _ (noParen_more Is h1)]
      show (takeMore n (moreToks Is ++ ts) >>= _) = _
      rw [i3 n ts (by simpa using hn) h1 h2]
      rfl

theorem length_moreToks (Is : List (List UTok)) : Is.length ≤ (moreToks Is).length := by
  induction Is with
  | nil => simp [moreToks]
  | cons I Is ih => simp [moreToks] at *; omega

/-- A word in brackets, when its elements are read, inside any text. -/
theorem word_takes {ws : List Str} {es : List (Bool × RoleEntry Lexeme)} (h : List.Forall₂ ItemReads ws es) (hne : ws ≠ []) {w : WordUsl}
    (hw : wordOf es = .ok w) : ∃ T, Lexes (c!"[" ++ joinChevron ws ++ c!"]") (.lbracket :: T) ∧ ∀ ts, takeWord (T ++ ts) = .ok (w, ts) := by
  cases h with
  | nil => exact absurd rfl hne
  | @cons v e ws es h1 h2 =>
    obtain ⟨k, I, j1, j2, j3, j4⟩ := h1
    obtain ⟨Is, i1, i2, i3⟩ := more_reads h2
    refine ⟨k :: I ++ (moreToks Is ++ [.rbracket]), ?_, ?_⟩
    · intro r hr
      have hcut : Cut (']' :: r) := cut_cons (by decide) _
      have e1 : c!"[" ++ joinChevron (v :: ws) ++ c!"]" ++ r = '[' :: (v ++ (ws.flatMap (c!" > " ++ ·) ++ ']' :: r)) := by
        rw [joinChevron_cons]; simp
      have hlex : uslLex (v ++ (ws.flatMap (c!" > " ++ ·) ++ ']' :: r)) = k :: I ++ (moreToks Is ++ .rbracket :: uslLex r) := by
        rw [j1 _ (cut_more ws hcut), i2 _ hcut, lex_rbracket]
      have hnr : ∀ s, v ++ (ws.flatMap (c!" > " ++ ·) ++ ']' :: r) ≠ '>' :: s := by
        intro s hs
        rw [hs, lex_rchevron] at hlex
        exact j3 (by injection hlex with h; exact h.symm)
      rw [e1, lex_lbracket hnr, hlex]
      simp
    · intro ts
      have hp : NoParen (UTok.rbracket :: ts) := by intro r h; cases h
      have e2 : k :: I ++ (moreToks Is ++ [.rbracket]) ++ ts = k :: I ++ (moreToks Is ++ .rbracket :: ts) := by simp
      have hm : takeWord (k :: I ++ (moreToks Is ++ .rbracket :: ts)) = (do
          let a ← takeMarked (k :: I ++ (moreToks Is ++ .rbracket :: ts))
          let r ← takeMore a.2.length a.2
          match r.2 with
          | UTok.rbracket :: ts => do
            let w ← wordOf (a.1 :: r.1)
            return (w, ts)
          | _ => throw .cannotParse) := by
        cases k <;> first | rfl | exact absurd rfl (j2 _)
      rw [e2, hm, j4 _ (noParen_more Is hp)]
      show (takeMore (moreToks Is ++ UTok.rbracket :: ts).length (moreToks Is ++ .rbracket :: ts) >>= _) = _
      rw [i3 _ _ (by rw [List.length_append]; have := length_moreToks Is; omega) hp (by intro r h; cases h)]
      show (wordOf (e :: es) >>= _) = _
      rw [hw]
      rfl

/-- What is read from the text of a word that starts with a bracket. -/
theorem uslRead_word {t : Str} {T : List UTok} {w : WordUsl} (h1 : Lexes t (.lbracket :: T)) (h2 : ∀ ts, takeWord (T ++ ts) = .ok (w, ts)) :
    uslRead t = .ok (.word w, []) := by
  have hl := lexes_all h1
  refine uslRead_of ?_ hl ?_
  · cases t with
    | nil => cases hl
    | cons _ _ => rfl
  · show (takeWord T >>= _) = _
    have := h2 []
    rw [List.append_nil] at this
    rw [this]
    rfl

theorem marked_fold {role : Addr} {es : List (Bool × RoleEntry Lexeme)} (h : ∀ e ∈ es, e.1 = true → e.2.1 = role) :
    ∀ acc : Option Addr, (acc = some role ∨ ∃ e ∈ es, e.1 = true) → es.foldl (fun r e => if e.1 then some e.2.1 else r) acc = some role := by
  induction es with
  | nil =>
    rintro acc (h | ⟨e, he, _⟩)
    · exact h
    · cases he
  | cons e es ih =>
    intro acc hacc
    rw [List.foldl_cons]
    apply ih fun x hx => h x (List.mem_cons_of_mem _ hx)
    by_cases he : e.1 = true
    · left
      rw [if_pos he, h e (by simp) he]
    · rw [if_neg he]
      rcases hacc with hacc | ⟨x, hx, hx'⟩
      · exact Or.inl hacc
      · rcases List.mem_cons.1 hx with rfl | hx
        · exact absurd hx' he
        · exact Or.inr ⟨x, hx, hx'⟩

/-! ### The word read -/

/-- An actor read from the text of another: the same lexeme. -/
def SameActor : Option Lexeme → Option Lexeme → Prop
  | some x, some y => SameLexeme x y
  | none, none => True
  | _, _ => False

/-- The same word: same text, role, function type and grammatical class; the lexemes are the same, at the same addresses. -/
structure SameWord (w' w : WordUsl) : Prop where
  text : w'.text = w.text
  role : w'.role = w.role
  context : w'.context = w.context
  gramClass : w'.gramClass = w.gramClass
  lexemes : ∃ l, l.Perm (w'.sfun.asList w'.context) ∧
    List.Forall₂ (fun e' e => e'.1 = e.1 ∧ SameActor e'.2 e.2) l (w.sfun.asList w.context)

/-- The text of a word is read as the same word, inside any text. -/
theorem word_text_reads {l : List (RoleEntry Lexeme)} {t : SType} {f : SFun Lexeme} {role : Addr} {w : WordUsl} (hf : fromList l = .ok (t, f))
    (hw : mkWord f role t = .ok w) (hrole : ∃ x, (role, x) ∈ f.asList t) (hx : ∀ e ∈ f.asList t, ∃ x, e.2 = some x ∧ LegibleLexeme x) :
    ∃ w', (∃ T, Lexes w.text (.lbracket :: T) ∧ ∀ ts, takeWord (T ++ ts) = .ok (w', ts)) ∧ SameWord w' w := by
  have hok := fromList_shape hf
  -- the lexemes read
  obtain ⟨R, hR⟩ : ∃ R : Lexeme → Lexeme, ∀ x, LegibleLexeme x → LexemeReads x (R x) := by
    classical
    refine ⟨fun x => if h : LegibleLexeme x then (lexeme_read h).choose else x, fun x h => ?_⟩
    simp only [dif_pos h]
    exact (lexeme_read h).choose_spec
  have hxi : ∀ e ∈ f.items, ∃ x, e.2 = some x ∧ LegibleLexeme x := by
    intro e he
    have := hx (pushAddr t.pre e) (by rw [asList_items]; exact List.mem_map_of_mem he)
    exact this
  obtain ⟨x0, hrole⟩ := hrole
  rw [asList_items] at hrole
  obtain ⟨⟨r, x1⟩, hr, he⟩ := List.mem_map.1 hrole
  simp only [pushAddr, Prod.mk.injEq] at he
  obtain ⟨rfl, rfl⟩ := he
  have hdrop : (t.pre ++ r).drop t.pre.length = r := by simp
  have hexp := expansion_leaf hok hr
  -- the word
  obtain ⟨text, h1, h2⟩ := bind_ok.1 hw
  obtain ⟨cl, h3, h4⟩ := bind_ok.1 h2
  rw [pure_ok] at h4
  subst h4
  have h1 : f.render Lexeme.text (t.pre ++ r) t = .ok text := h1
  unfold SFun.render at h1
  rw [hdrop, hexp] at h1
  have h1 := (Except.ok.inj h1).symm
  have h1 : text = c!"[" ++ joinChevron ((pySort (fun a b => addrLt a.1 b.1) f.items).map (itemText Lexeme.text [r] t.pre)) ++ c!"]" := h1
  -- what is read
  let rd : RoleEntry Lexeme → RoleEntry Lexeme := fun e => (t.pre ++ e.1, e.2.map R)
  let S := pySort (fun a b : RoleEntry Lexeme => addrLt a.1 b.1) f.items
  let es : List (Bool × RoleEntry Lexeme) := S.map fun e => (decide (e.1 ∈ [r]), rd e)
  have hS : ∀ e, e ∈ S ↔ e ∈ f.items := fun e => mem_pySort _
  have hreads : List.Forall₂ ItemReads (S.map (itemText Lexeme.text [r] t.pre)) es := by
    rw [List.forall₂_map_left_iff, List.forall₂_map_right_iff, List.forall₂_same]
    rintro ⟨a, o⟩ he
    obtain ⟨x, ho, hlx⟩ := hxi _ ((hS _).1 he)
    simp only at ho
    subst ho
    exact item_reads (items_address hok _ ((hS _).1 he)) (hR x hlx)
  -- the function read
  have hlist : relab (f.asList t) ((f.asList t).map fun e => e.2.map R) = f.items.map rd := by
    rw [asList_items, relab, List.map_map]
    rw [List.zipWith_map_right, List.zipWith_map_left, List.zipWith_self]
    rfl
  obtain ⟨f2, g1, g2, _⟩ := relabel (β := Lexeme) hok (xs := (f.asList t).map fun e => e.2.map R) (by simp)
  rw [hlist] at g1 g2
  have hok2 := fromList_shape g1
  have hperm : (es.map (·.2)).Perm (f2.asList t) := by
    rw [g2, List.map_map]
    exact (pySort_perm _ _).map rd
  obtain ⟨f3, k1, k2⟩ := fromList_perm hok2 hperm
  have hok3 := fromList_shape k1
  have hitems : f2.items = f.items.map fun e => (e.1, e.2.map R) := by
    have : f2.items.map (pushAddr t.pre) = (f.items.map fun e => (e.1, e.2.map R)).map (pushAddr t.pre) := by
      rw [← asList_items, g2, List.map_map]
      rfl
    refine List.map_injective_iff.2 ?_ this
    rintro ⟨a, x⟩ ⟨b, y⟩ h
    simpa [pushAddr] using h
  have hp3 : f3.items.Perm (f.items.map fun e => (e.1, e.2.map R)) := hitems ▸ items_same k2
  have hr3 : (r, x1.map R) ∈ f3.items := hp3.mem_iff.2 (List.mem_map.2 ⟨_, hr, rfl⟩)
  have htexts : (f3.items.map fun e => (e.1, actorText Lexeme.text e.2)).Perm (f.items.map fun e => (e.1, actorText Lexeme.text e.2)) := by
    refine (hp3.map _).trans ?_
    rw [List.map_map]
    refine List.Perm.of_eq (List.map_congr_left ?_)
    rintro ⟨a, o⟩ he
    obtain ⟨x, ho, hlx⟩ := hxi _ he
    simp only at ho
    subst ho
    obtain ⟨_, _, hs, _⟩ := hR x hlx
    show (a, (R x).text) = (a, x.text)
    rw [hs.text]
  have hsort := sort_items (text := Lexeme.text) (l := f3.items) (l' := f.items) (by
    intro e he
    rcases List.mem_append.1 he with he | he
    · exact items_address hok3 e he
    · exact items_address hok e he) (items_nodup hok) htexts
  have hjoin : (pySort (fun a b => addrLt a.1 b.1) f3.items).map (itemText Lexeme.text [r] t.pre) = S.map (itemText Lexeme.text [r] t.pre) := by
    have hfac : itemText Lexeme.text [r] t.pre = (fun p : Addr × Str => (if p.1 ∈ [r] then c!"! " else []) ++
        (match t.pre with | [] => [] | p :: _ => p ++ c!" ") ++ roleText p.1 ++ c!" " ++ p.2) ∘ fun e => (e.1, actorText Lexeme.text e.2) := rfl
    rw [hfac, ← List.map_map, hsort, ← List.map_map]
  have hmk : mkWord f3 (t.pre ++ r) t = .ok ⟨f3, t.pre ++ r, t, text, cl⟩ := by
    have hren : f3.render Lexeme.text (t.pre ++ r) t = .ok text := by
      unfold SFun.render
      rw [hdrop, expansion_leaf hok3 hr3, h1, ← hjoin]
      rfl
    unfold mkWord
    rw [hren, h3]
    rfl
  have hrole : markedRole es = some (t.pre ++ r) := by
    refine marked_fold ?_ none (Or.inr ⟨_, List.mem_map.2 ⟨_, (hS _).2 hr, rfl⟩, by simp⟩)
    intro e he hm
    obtain ⟨e0, _, rfl⟩ := List.mem_map.1 he
    simp only [List.mem_singleton, decide_eq_true_eq] at hm
    simp [rd, hm]
  have hword : wordOf es = .ok ⟨f3, t.pre ++ r, t, text, cl⟩ := by
    have hne := full_address hok _ hr
    have hall : ((t.pre ++ r).any fun a => decide (a ∉ addressScripts)) = false := by
      rw [List.any_eq_false]
      intro a ha
      simp only [decide_eq_true_eq, not_not]
      rcases List.mem_append.1 ha with ha | ha
      · exact pre_address t a ha
      · exact items_address hok _ hr a ha
    unfold wordOf
    rw [hrole]
    cases hh : t.pre ++ r with
    | nil => exact absurd hh hne
    | cons a as =>
      show (fromList (es.map (·.2)) >>= _) = _
      rw [k1]
      show (if (a :: as).any (fun a => decide (a ∉ addressScripts)) then _ else mkWord f3 (a :: as) t) = _
      rw [← hh, hall, hmk]
      rfl
  refine ⟨⟨f3, t.pre ++ r, t, text, cl⟩, ?_, ?_⟩
  · have hh := word_takes hreads (by
      intro h
      rw [List.map_eq_nil_iff] at h
      have := (hS _).2 hr
      rw [h] at this
      cases this) hword
    have h1' : text = c!"[" ++ joinChevron (S.map (itemText Lexeme.text [r] t.pre)) ++ c!"]" := h1
    rw [← h1'] at hh
    exact hh
  · refine ⟨rfl, rfl, rfl, rfl, f2.asList t, ?_, ?_⟩
    · show (f2.asList t).Perm (f3.asList t)
      rw [asList_items, asList_items]
      exact ((items_same k2).map _).symm
    · show List.Forall₂ _ (f2.asList t) (f.asList t)
      rw [g2, asList_items, List.forall₂_map_left_iff, List.forall₂_map_right_iff, List.forall₂_same]
      rintro ⟨a, o⟩ he
      obtain ⟨x, ho, hlx⟩ := hxi _ he
      simp only at ho
      subst ho
      obtain ⟨_, _, hs, _⟩ := hR x hlx
      exact ⟨rfl, hs⟩

/-- **C62, what holds.** The text of a word reads back as the same word, when all its actors are lexemes with legible polymorphemes and its
role is the address of one of them.  Missing: the words whose role is a junction and the words with missing actors or illegible
morphemes, for which the claim is false (`C62_violated_junction`, `C62_violated_single_junction`, `C62_violated_missing`,
`C62_violated_old_class`), and the roles that are no address of the function (`C62_violated_wrong_role`). -/
theorem C62_word_partial {l : List (RoleEntry Lexeme)} {t : SType} {f : SFun Lexeme} {role : Addr} {w : WordUsl} (hf : fromList l = .ok (t, f))
    (hw : mkWord f role t = .ok w) (hrole : ∃ x, (role, x) ∈ f.asList t) (hx : ∀ e ∈ f.asList t, ∃ x, e.2 = some x ∧ LegibleLexeme x) :
    ∃ w', uslRead w.text = .ok (.word w', []) ∧ SameWord w' w := by
  obtain ⟨w', ⟨T, h1, h2⟩, h3⟩ := word_text_reads hf hw hrole hx
  exact ⟨w', uslRead_word h1 h2, h3⟩

/-! ### Examples and violations -/

theorem legible_demo : LegibleLexeme demoLex2 ∧ LegibleLexeme demoLex3 := by
  have hp : ∀ p, Orderly (.prim p) ∧ ((Script.prim p).empty = false → NotOldClass (.prim p)) := fun p => ⟨orderly_prim p, fun _ => notOld_prim p⟩
  have h0 : Legible [] [] := ⟨by simp, by simp, by simp⟩
  refine ⟨⟨_, _, _, _, h0, ?_, rfl⟩, ⟨_, _, _, _, ?_, ?_, rfl⟩⟩
  all_goals refine ⟨?_, ?_, ?_⟩
  all_goals simp [Script.empty, (hp _).1, fun p => (hp p).2 rfl]

/-- A process with a lexeme and a junction of two lexemes. -/
def demoJunction : List (RoleEntry Lexeme) :=
  [([c!"E:T:."], some demoLex2), ([c!"E:.n.-", demoLink, demoFirst], some demoLex3), ([c!"E:.n.-", demoLink, demoSecond], some demoLex2)]

-- A word meeting the hypotheses.
example : ∃ t f w, fromList demoJunction = .ok (t, f) ∧ mkWord f [c!"E:T:."] t = .ok w ∧ (∃ x, ([c!"E:T:."], x) ∈ f.asList t) ∧
    (∀ e ∈ f.asList t, ∃ x, e.2 = some x ∧ LegibleLexeme x) ∧
    w.text = c!"[! E:T:. ()(A: m1(S:)) > E:.n.- E:S:.-k.u.-' j.-U:.-'d.o.-l.o.-', (U:)(A: m1(S: T:)) > E:.n.- E:S:.-k.u.-' j.-A:.-'d.o.-l.o.-', ()(A: m1(S:))]" := by
  refine ⟨_, _, _, rfl, rfl, ⟨_, List.mem_cons_self⟩, ?_, by decide +kernel⟩
  intro e he
  rcases List.mem_cons.1 he with rfl | he
  · exact ⟨_, rfl, legible_demo.1⟩
  rcases List.mem_cons.1 he with rfl | he
  · exact ⟨_, rfl, legible_demo.2⟩
  rcases List.mem_cons.1 he with rfl | he
  · exact ⟨_, rfl, legible_demo.1⟩
  · cases he

/-- The text of the word built from a list and a role, and what this text reads as: a text, and the role if it is a word. -/
def wordTrip (l : List (RoleEntry Lexeme)) (role : Addr) : Except Err (Str × Except Err (Str × Option Addr)) := do
  let r ← fromList l
  let w ← mkWord r.2 role r.1
  return (w.text, match uslRead w.text with
    | .ok (.word v, _) => .ok (v.text, some v.role)
    | .ok (x, _) => .ok (x.text, none)
    | .error e => .error e)

/-- **C62** is violated by a word whose role is a junction: all the lexemes of the junction are marked in the text, and the reader
keeps the last of them. -/
theorem C62_violated_junction : (wordTrip demoJunction [c!"E:.n.-"]).map (·.1) =
      .ok (c!"[E:T:. ()(A: m1(S:)) > ! E:.n.- E:S:.-k.u.-' j.-U:.-'d.o.-l.o.-', (U:)(A: m1(S: T:)) > ! E:.n.- E:S:.-k.u.-' j.-A:.-'d.o.-l.o.-', ()(A: m1(S:))]") ∧
    (wordTrip demoJunction [c!"E:.n.-"]).map (·.2) =
      .ok (.ok (c!"[E:T:. ()(A: m1(S:)) > E:.n.- E:S:.-k.u.-' j.-U:.-'d.o.-l.o.-', (U:)(A: m1(S: T:)) > ! E:.n.- E:S:.-k.u.-' j.-A:.-'d.o.-l.o.-', ()(A: m1(S:))]",
        some [c!"E:.n.-", demoLink, demoSecond])) := by
  constructor <;> decide +kernel

/-- **C62** is violated by a word whose role is a junction of one lexeme: its text is the one of another word, with another role, and
texts decide the equality of words. -/
theorem C62_violated_single_junction :
    (wordTrip [([c!"E:T:."], some demoLex2), ([c!"E:.n.-", demoLink, demoFirst], some demoLex3)] [c!"E:.n.-"]) =
      .ok (c!"[E:T:. ()(A: m1(S:)) > ! E:.n.- E:S:.-k.u.-' j.-U:.-'d.o.-l.o.-', (U:)(A: m1(S: T:))]",
        .ok (c!"[E:T:. ()(A: m1(S:)) > ! E:.n.- E:S:.-k.u.-' j.-U:.-'d.o.-l.o.-', (U:)(A: m1(S: T:))]", some [c!"E:.n.-", demoLink, demoFirst])) := by
  decide +kernel

/-- **C62** is violated by a word whose role is not under the script of its function: the constructor ignores this script, the text is
the one of another word. -/
theorem C62_violated_wrong_role : wordTrip [([dependantQuality], some demoLex2)] [independantQuality] =
      .ok (c!"[! E:A:.  ()(A: m1(S:))]", .ok (c!"[! E:A:.  ()(A: m1(S:))]", some [dependantQuality])) := by
  decide +kernel

/-- **C62** is violated by a word with a missing lexeme: `None` is written, and the text is refused. -/
theorem C62_violated_missing : wordTrip [([dependantQuality, dependantQuality], some demoLex2)] [dependantQuality, dependantQuality] =
      .ok (c!"[E:A:.  None > ! E:A:. E:A:. ()(A: m1(S:))]", .error .cannotParse) := by
  decide +kernel

/-- **C62** is violated by the morphemes that start like an old grammatical class, as `C47`. -/
theorem C62_violated_old_class :
    wordTrip [([dependantQuality], some (mkLexeme (mkPM [] []) (mkPM [oldMorpheme .S] [])))] [dependantQuality] =
      .ok (c!"[! E:A:.  ()(E:.b.E:S:.-)]", .error .cannotParse) ∧
    wordTrip [([dependantQuality], some (mkLexeme (mkPM [] []) (mkPM [oldMorpheme .U] [])))] [dependantQuality] =
      .ok (c!"[! E:A:.  ()(E:.b.E:U:.-)]", .ok (c!"[! E:A:.  ()(b.E:U:.-)]", some [dependantQuality])) := by
  constructor <;> decide +kernel

end Verif
