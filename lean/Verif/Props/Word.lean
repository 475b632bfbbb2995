import Verif.Lemmas.Usl
import Verif.Lemmas.Product
import Verif.Lemmas.PolyMorpheme
import Verif.Props.PolyMorpheme

/-
Property C48: the singular sequences of lexemes and words.
-/

namespace Verif

/-! ### Lexemes -/

/-- The lexeme is returned as its own sequence only when it is one: its flexion and content have no groups, or one of them has
several sequences (or none). -/
def OwnSequence (x : Lexeme) (a b : List PM) : Prop :=
  (x.flexion.groups = [] ∧ x.content.groups = []) ∨ a.length ≠ 1 ∨ b.length ≠ 1

/-- **C48** for lexemes: their number is the product of those of the flexion and of the content; and they are the pairs of a
sequence of the flexion and one of the content, in the order of the product.  Missing: the pairs, for lexemes whose flexion and
content have a single sequence but a group (`C48_violated_lexeme`). -/
theorem C48_lexeme_partial {f c : PM} {a b : List PM} (ha : f.singularSequences = .ok a) (hb : c.singularSequences = .ok b) :
    ∃ L, (mkLexeme f c).singularSequences = .ok L ∧ L.length = a.length * b.length ∧
      (OwnSequence (mkLexeme f c) a b → L.map (fun x => (x.flexion, x.content)) = a.product b ∧ ∀ x ∈ L, x = mkLexeme x.flexion x.content) := by
  have hprod : (a.flatMap fun f => b.map fun c => mkLexeme f c).map (fun x => (x.flexion, x.content)) = a.product b := by
    rw [List.map_flatMap]
    show _ = a.flatMap fun x => b.map (Prod.mk x)
    congr 1
    funext x
    rw [List.map_map]
    rfl
  have hlen : (a.flatMap fun f => b.map fun c => mkLexeme f c).length = a.length * b.length := by
    rw [List.length_flatMap]
    simp
  have hmk : ∀ x ∈ a.flatMap fun f => b.map fun c => mkLexeme f c, x = mkLexeme x.flexion x.content := by
    intro x hx
    obtain ⟨y, _, hx⟩ := List.mem_flatMap.1 hx
    obtain ⟨z, _, rfl⟩ := List.mem_map.1 hx
    rfl
  unfold Lexeme.singularSequences
  by_cases h1 : a.length = 1
  · by_cases h2 : b.length = 1
    · refine ⟨[mkLexeme f c], ?_, by rw [h1, h2]; rfl, ?_⟩
      · show (f.singularSequences >>= _) = _
        rw [ha]
        show (if a.length = 1 then c.singularSequences >>= _ else _) = _
        rw [if_pos h1, hb]
        show (if b.length = 1 then _ else _) = _
        rw [if_pos h2]
        rfl
      · rintro (⟨g1, g2⟩ | h | h)
        · have e1 : a = [f] := by
            have : f.singularSequences = .ok [f] := by simp [PM.singularSequences, show f.groups = [] from g1]
            rw [ha] at this
            exact Except.ok.inj this
          have e2 : b = [c] := by
            have : c.singularSequences = .ok [c] := by simp [PM.singularSequences, show c.groups = [] from g2]
            rw [hb] at this
            exact Except.ok.inj this
          subst e1 e2
          exact ⟨rfl, fun x hx => by rw [List.mem_singleton] at hx; subst hx; rfl⟩
        · exact absurd h1 h
        · exact absurd h2 h
    · refine ⟨_, ?_, hlen, fun _ => ⟨hprod, hmk⟩⟩
      show (f.singularSequences >>= _) = _
      rw [ha]
      show (if a.length = 1 then c.singularSequences >>= _ else _) = _
      rw [if_pos h1, hb]
      show (if b.length = 1 then _ else _) = _
      rw [if_neg h2]
      rfl
  · refine ⟨_, ?_, hlen, fun _ => ⟨hprod, hmk⟩⟩
    show (f.singularSequences >>= _) = _
    rw [ha]
    show (if a.length = 1 then _ else c.singularSequences >>= _) = _
    rw [if_neg h1, hb]
    rfl

/-- The sequences of a lexeme are computed without error. -/
theorem C48_lexeme_total (cs cs' : List Script) (gs gs' : List Group) :
    ∃ L, (mkLexeme (mkPM cs gs) (mkPM cs' gs')).singularSequences = .ok L := by
  have tot : ∀ (cs : List Script) (gs : List Group), ∃ L, (mkPM cs gs).singularSequences = .ok L := by
    intro cs gs
    obtain ⟨n, hn, _⟩ := C44_nonempty_iff_partial (cs := cs) (gs := gs)
    unfold PM.cardinal at hn
    cases h : (mkPM cs gs).singularSequences with
    | ok L => exact ⟨L, rfl⟩
    | error e => rw [h] at hn; cases hn
  obtain ⟨a, ha⟩ := tot cs gs
  obtain ⟨b, hb⟩ := tot cs' gs'
  obtain ⟨L, h, _⟩ := C48_lexeme_partial ha hb
  exact ⟨L, h⟩

/-- A content with five constants and a group, whose only sequence is without the group. -/
def wFive : PM := mkPM [.prim .U, .prim .A, .prim .S, .prim .B, .prim .T] [([.mult (.prim .U) (.null 0) (.null 0)], 1)]

/-- **C48** is violated for lexemes: this one is its own singular sequence, although the only sequence of its content is another
polymorpheme. -/
theorem C48_violated_lexeme :
    wFive.check = true ∧ wFive.singularSequences.map (·.map (·.text)) = .ok [c!"U: A: S: B: T:"] ∧
    (mkLexeme (mkPM [] []) wFive).singularSequences.map (·.map (·.text)) = .ok [c!"()(U: A: S: B: T: m1(U:.))"] := by
  decide +kernel

example : (mkLexeme (mkPM [] [([.prim .U], 1)]) (mkPM [.prim .A] [([.prim .S, .prim .T], 1)])).singularSequences.map (·.map (·.text)) =
    .ok [c!"()(A:)", c!"()(A: S:)", c!"()(A: T:)", c!"(U:)(A:)", c!"(U:)(A: S:)", c!"(U:)(A: T:)"] := by
  decide +kernel

/-! ### Words -/

theorem length_prodL {α : Type} : ∀ ls : List (List α), (prodL ls).length = (ls.map List.length).prod
  | [] => rfl
  | l :: ls => by
    rw [prodL, List.map_cons, List.prod_cons, ← length_prodL ls, List.length_flatMap]
    simp

/-- The entries of a list of roles with other lexemes. -/
def withActors {α : Type} (l : List (RoleEntry α)) (xs : List α) : List (RoleEntry α) := (l.zip xs).map fun e => (e.1.1, some e.2)

/-- The sequences of a word; a single sequence is the word itself. -/
theorem word_sequences {l : List (RoleEntry Lexeme)} {t : SType} {f : SFun Lexeme} {role : Addr} {w : WordUsl} (hf : fromList l = .ok (t, f))
    (hw : mkWord f role t = .ok w) {xss : List (List Lexeme)}
    (hx : List.Forall₂ (fun e xs => ∃ x : Lexeme, e.2 = some x ∧ x.singularSequences = .ok xs) (f.asList t) xss) :
    ∃ L, w.singularSequences = .ok L ∧ L.length = (xss.map List.length).prod ∧
      ((xss.map List.length).prod ≠ 1 ∨ List.Forall₂ (fun e xs => ∃ x : Lexeme, e.2 = some x ∧ xs = [x]) (f.asList t) xss →
        L.map (fun w => w.sfun.asList t) = (prodL xss).map (withActors (f.asList t)) ∧
        ∀ w' ∈ L, w'.role = role ∧ w'.context = t ∧ w'.gramClass = w.gramClass) := by
  have hok := fromList_shape hf
  obtain ⟨text, h1, h2⟩ := bind_ok.1 hw
  obtain ⟨cl, h3, h4⟩ := bind_ok.1 h2
  rw [pure_ok] at h4
  subst h4
  have hne : f.asList t ≠ [] := by
    intro h
    have := fromList_back hok
    rw [h] at this
    cases this
  have hmap : (f.asList t).mapM (actorSequences Lexeme.singularSequences) = .ok xss := by
    refine mapM_of_forall₂ (hx.imp ?_)
    rintro ⟨a, o⟩ xs ⟨x, rfl, h⟩
    exact h
  have hlen : ∀ xs ∈ prodL xss, xs.length = (f.asList t).length := fun xs hxs =>
    ((mem_prodL.1 hxs).length_eq).trans hx.length_eq.symm
  have hrelab : ∀ xs : List Lexeme, withActors (f.asList t) xs = relab (f.asList t) (xs.map some) := by
    intro xs
    rw [withActors, relab, List.zipWith_map_right, List.zip, List.map_zipWith]
  have hfs : ∃ fs : List (SFun Lexeme), (prodL xss).mapM (fun xs => do
      let r ← fromList (withActors (f.asList t) xs)
      return r.2) = .ok fs ∧ List.Forall₂ (fun xs g => g.asList t = withActors (f.asList t) xs ∧ g.void = f.void) (prodL xss) fs := by
    have : ∀ ls : List (List Lexeme), (∀ xs ∈ ls, xs.length = (f.asList t).length) → ∃ fs : List (SFun Lexeme), ls.mapM (fun xs => do
        let r ← fromList (withActors (f.asList t) xs)
        return r.2) = .ok fs ∧ List.Forall₂ (fun xs g => g.asList t = withActors (f.asList t) xs ∧ g.void = f.void) ls fs := by
      intro ls
      induction ls with
      | nil => exact fun _ => ⟨[], rfl, .nil⟩
      | cons xs ls ih =>
        intro h
        obtain ⟨fs, e1, e2⟩ := ih fun ys hy => h ys (by simp [hy])
        obtain ⟨g, g1, g2, g3⟩ := relabel (β := Lexeme) hok (xs := xs.map some) (by rw [List.length_map]; exact h xs (by simp))
        refine ⟨g :: fs, ?_, .cons ⟨by rw [hrelab]; exact g2, g3⟩ e2⟩
        rw [List.mapM_cons, e1, hrelab, g1]
        rfl
    exact this _ hlen
  obtain ⟨fs, hfs, hall⟩ := hfs
  have hseq : f.sequences Lexeme.singularSequences t = .ok fs := by
    unfold SFun.sequences
    have : (f.asList t).isEmpty = false := by simpa using hne
    simp only [this, Bool.false_eq_true, if_false]
    show ((f.asList t).mapM _ >>= _) = _
    rw [hmap]
    exact hfs
  have hl : fs.length = (xss.map List.length).prod := by rw [← hall.length_eq, length_prodL]
  by_cases hone : fs.length = 1
  · refine ⟨[⟨f, role, t, text, cl⟩], ?_, by rw [← hl, hone]; rfl, ?_⟩
    · show (f.sequences Lexeme.singularSequences t >>= _) = _
      rw [hseq]
      show (if fs.length = 1 then _ else _) = _
      rw [if_pos hone]
      rfl
    · rintro (h | h)
      · exact absurd (hl.symm.trans hone) h
      · have hp : ∀ {es : List (RoleEntry Lexeme)} {xss : List (List Lexeme)},
            List.Forall₂ (fun e xs => ∃ x : Lexeme, e.2 = some x ∧ xs = [x]) es xss →
            ∃ xs, prodL xss = [xs] ∧ withActors es xs = es := by
          intro es xss h
          induction h with
          | nil => exact ⟨[], rfl, rfl⟩
          | cons h _ ih =>
            obtain ⟨x, e1, rfl⟩ := h
            obtain ⟨xs, e2, e3⟩ := ih
            refine ⟨x :: xs, by simp [prodL, e2], ?_⟩
            rw [withActors, List.zip_cons_cons, List.map_cons]
            exact congrArg₂ List.cons (Prod.ext rfl e1.symm) e3
        obtain ⟨xs, e1, e2⟩ := hp h
        rw [e1]
        refine ⟨by simp [e2], fun w' hw' => ?_⟩
        rw [List.mem_singleton] at hw'
        subst hw'
        exact ⟨rfl, rfl, rfl⟩
  · have hws : ∃ L, fs.mapM (fun g => mkWord g role t) = .ok L ∧ List.Forall₂ (fun g (w : WordUsl) => w.sfun = g ∧ w.role = role ∧ w.context = t ∧ w.gramClass = cl) fs L := by
      have hv : ∀ g ∈ fs, g.void = f.void := fun g hg => by
        obtain ⟨_, _, _, h⟩ := forall₂_mem_right hall hg
        exact h
      clear hall hfs hseq hl hone
      induction fs with
      | nil => exact ⟨[], rfl, .nil⟩
      | cons g fs ih =>
        obtain ⟨L, e1, e2⟩ := ih fun g' hg => hv g' (by simp [hg])
        obtain ⟨main, m1, _⟩ := bind_ok.1 h1
        have m2 : g.expansion (role.drop t.pre.length) = .ok main := by
          rw [← expansion_void, hv g (by simp), expansion_void, m1]
        have m3 : ∃ w : WordUsl, mkWord g role t = .ok w ∧ w.sfun = g ∧ w.role = role ∧ w.context = t ∧ w.gramClass = cl := by
          unfold mkWord SFun.render
          rw [m2, h3]
          exact ⟨_, rfl, rfl, rfl, rfl, rfl⟩
        obtain ⟨w, w1, w2⟩ := m3
        exact ⟨w :: L, by rw [List.mapM_cons, w1, e1]; rfl, .cons w2 e2⟩
    obtain ⟨L, hL, hLf⟩ := hws
    refine ⟨L, ?_, by rw [← hl, hLf.length_eq], fun _ => ⟨?_, fun w' hw' => ?_⟩⟩
    · show (f.sequences Lexeme.singularSequences t >>= _) = _
      rw [hseq]
      show (if fs.length = 1 then _ else _) = _
      rw [if_neg hone]
      exact hL
    · have a1 : L.map (fun w => w.sfun.asList t) = fs.map fun g => g.asList t := by
        clear hL hall hfs hseq hl hone
        induction hLf with
        | nil => rfl
        | cons h _ ih => rw [List.map_cons, List.map_cons, ih, h.1]
      rw [a1]
      clear a1 hL hLf hfs hseq hl hone hlen
      generalize prodL xss = ls at hall
      induction hall with
      | nil => rfl
      | cons h _ ih => rw [List.map_cons, List.map_cons, ih, h.1]
    · obtain ⟨_, _, h⟩ := forall₂_mem_right hLf hw'
      exact ⟨h.2.1, h.2.2.1, h.2.2.2⟩

theorem mul_one_inv {a b : Nat} (h : a * b = 1) : a = 1 ∧ b = 1 :=
  ⟨Nat.eq_one_of_mul_eq_one_right h, Nat.eq_one_of_mul_eq_one_left h⟩

/-- A lexeme with one sequence is returned as it is. -/
theorem lexeme_single {x y : Lexeme} (h : x.singularSequences = .ok [y]) : y = x := by
  unfold Lexeme.singularSequences at h
  obtain ⟨a, ha, h⟩ := bind_ok.1 h
  have key : ∀ b : List PM, ¬ (a.length = 1 ∧ b.length = 1) → (a.flatMap fun f => b.map fun c => mkLexeme f c) ≠ [y] := by
    intro b hb he
    have := congrArg List.length he
    rw [List.length_flatMap] at this
    simp at this
    exact hb (mul_one_inv this)
  split at h
  · rename_i h1
    obtain ⟨b, hb, h⟩ := bind_ok.1 h
    split at h
    · rw [pure_ok] at h
      exact ((List.cons.inj h).1).symm
    · rename_i h2
      rw [pure_ok] at h
      exact absurd h (key b fun hh => h2 hh.2)
  · rename_i h1
    obtain ⟨b, hb, h⟩ := bind_ok.1 h
    rw [pure_ok] at h
    exact absurd h (key b fun hh => h1 hh.1)

/-- **C48** for words.  The word is made of a function read from a list; every role has a lexeme, `xss` are the sequences of
these lexemes.  The words listed are those with one sequence at each role, in the order of the product, with the same
role; they are as many as the combinations of sequences.  Missing: words with a role without lexeme (`C48_violated_word`). -/
theorem C48_word_partial {l : List (RoleEntry Lexeme)} {t : SType} {f : SFun Lexeme} {role : Addr} {w : WordUsl} (hf : fromList l = .ok (t, f))
    (hw : mkWord f role t = .ok w) {xss : List (List Lexeme)}
    (hx : List.Forall₂ (fun e xs => ∃ x : Lexeme, e.2 = some x ∧ x.singularSequences = .ok xs) (f.asList t) xss) :
    ∃ L, w.singularSequences = .ok L ∧ L.length = (xss.map List.length).prod ∧
      L.map (fun w => w.sfun.asList t) = (prodL xss).map (withActors (f.asList t)) ∧
      ∀ w' ∈ L, w'.role = role ∧ w'.context = t ∧ w'.gramClass = w.gramClass := by
  obtain ⟨L, h1, h2, h3⟩ := word_sequences hf hw hx
  refine ⟨L, h1, h2, h3 ?_⟩
  by_cases hp : (xss.map List.length).prod = 1
  · right
    have key : ∀ {es : List (RoleEntry Lexeme)} {xss : List (List Lexeme)}, (xss.map List.length).prod = 1 →
        List.Forall₂ (fun e xs => ∃ x : Lexeme, e.2 = some x ∧ x.singularSequences = .ok xs) es xss →
        List.Forall₂ (fun e xs => ∃ x : Lexeme, e.2 = some x ∧ xs = [x]) es xss := by
      intro es xss hp h
      induction h with
      | nil => exact .nil
      | cons h _ ih =>
        rename_i e xs es xss _
        rw [List.map_cons, List.prod_cons, show xs.length * (xss.map List.length).prod = 1 ↔ _ from ⟨mul_one_inv, fun h => by rw [h.1, h.2]⟩] at hp
        obtain ⟨x, e1, e2⟩ := h
        obtain ⟨y, rfl⟩ := List.length_eq_one_iff.1 hp.1
        exact .cons ⟨x, e1, by rw [lexeme_single e2]⟩ (ih hp.2)
    exact key hp hx
  · exact .inl hp

/-- A lexeme with two sequences and one with three. -/
def demoLex2 : Lexeme := mkLexeme (mkPM [] []) (mkPM [.prim .A] [([.prim .S], 1)])
@[inherit_doc demoLex2] def demoLex3 : Lexeme := mkLexeme (mkPM [.prim .U] []) (mkPM [.prim .A] [([.prim .S, .prim .T], 1)])

/-- The texts of the sequences of the word read from a list, with a role. -/
def demoSequences (l : List (RoleEntry Lexeme)) (role : Addr) : Except Err (List Str) := do
  let r ← fromList l
  let w ← mkWord r.2 role r.1
  let L ← w.singularSequences
  return L.map (·.text)

example : demoSequences [([c!"E:T:."], some demoLex2), ([c!"E:.n.-"], some demoLex3)] [c!"E:.n.-"] =
    .ok [c!"[E:T:. ()(A:) > ! E:.n.- (U:)(A:)]", c!"[E:T:. ()(A:) > ! E:.n.- (U:)(A: S:)]", c!"[E:T:. ()(A:) > ! E:.n.- (U:)(A: T:)]",
      c!"[E:T:. ()(A: S:) > ! E:.n.- (U:)(A:)]", c!"[E:T:. ()(A: S:) > ! E:.n.- (U:)(A: S:)]",
      c!"[E:T:. ()(A: S:) > ! E:.n.- (U:)(A: T:)]"] := by
  decide +kernel

/-- **C48** is violated for words with a role whose lexeme is missing: the word is built, its sequences raise
`AttributeError`. -/
theorem C48_violated_word : ∃ l t f w, fromList l = .ok (t, f) ∧ mkWord f [dependantQuality, dependantQuality] t = .ok w ∧
    w.text = c!"[E:A:.  None > ! E:A:. E:A:. ()(A: m1(S:))]" ∧ w.singularSequences.toBool = false ∧
    demoSequences l [dependantQuality, dependantQuality] = .error .attributeError := by
  refine ⟨[([dependantQuality, dependantQuality], some demoLex2)], .dependant,
    .quality (.dep none (some (.dep (some demoLex2) none none)) none), _, rfl, rfl, ?_, ?_, ?_⟩ <;> decide +kernel

end Verif
