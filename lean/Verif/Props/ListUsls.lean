import Verif.Lemmas.ListUsls
import Verif.Lemmas.ReadMade
import Verif.Props.DictTransaction

/-
**C95**: `get_list` gives every expression that has descriptors once, with its descriptors, and its type, its class and its index tell
what it is.  Parts of it are proved; it is violated for words and lexemes.
-/

namespace Verif
open Script

/-! ### What is known of the morphemes read -/

theorem takeMorphemes_from : ∀ {ts : List UTok} {r : List Script × List UTok}, takeMorphemes ts = .ok r →
    ∀ m ∈ r.1, ∃ t, .morpheme t ∈ ts ∧ parseScript t = .ok m
  | [], r, h => by
    injection h with h; subst h; simp
  | t :: ts, r, h => by
    cases t
    case morpheme s =>
      obtain ⟨m, h1, h⟩ := bind_ok.1 h
      obtain ⟨r', h2, h⟩ := bind_ok.1 h
      rw [pure_ok] at h
      subst h
      intro x hx
      rcases List.mem_cons.1 hx with rfl | hx
      · exact ⟨s, by simp, h1⟩
      · obtain ⟨t, ht, hp⟩ := takeMorphemes_from h2 x hx
        exact ⟨t, by simp [ht], hp⟩
    all_goals
      injection h with h
      subst h
      simp

theorem readIn_ok {scripts : List Script} {k : Str} {r : Expr × List (Str × Str)} : readIn scripts k = .ok r ↔
    uslRead k = .ok r ∧ (morphemeTexts k).all (knownMorpheme scripts) = true := by
  unfold readIn
  split
  · rename_i h; rw [h]; simp
  · rename_i e _ h; rw [h]; split <;> simp
  · rename_i h
    rw [h]
    split
    · rename_i h1; simp [h1]
    · rename_i h1; simp [h1]

theorem known_of_token {scripts : List Script} {k t : Str} {m : Script} (h : (morphemeTexts k).all (knownMorpheme scripts) = true)
    (ht : .morpheme t ∈ uslLex k) (hm : parseScript t = .ok m) : m.str ∈ scripts.map str := by
  have h1 : t ∈ morphemeTexts k := List.mem_filterMap.2 ⟨_, ht, rfl⟩
  have := List.all_eq_true.1 h t h1
  unfold knownMorpheme at this
  rw [hm] at this
  exact of_decide_eq_true this

/-- The morphemes of the scripts and polymorphemes that are read are in the dictionary; a polymorpheme without constants has the empty
script as constant. -/
theorem readIn_known {scripts : List Script} {k : Str} {u : Expr} (h : readIn scripts k = .ok (u, [])) :
    (∀ s, u = .script s → k ≠ [] → s.str ∈ scripts.map str) ∧
    ∀ p, u = .pm p → ∃ cs gs, p = mkPM cs gs ∧ (∀ c ∈ cs, c.str ∈ scripts.map str) ∧ k ≠ [] := by
  obtain ⟨hr, hk⟩ := readIn_ok.1 h
  unfold uslRead at hr
  split at hr
  · rename_i he
    injection hr with hr
    injection hr with hr _
    subst hr
    exact ⟨fun s _ hn => absurd (List.isEmpty_iff.1 he) hn, fun p hp => by cases hp⟩
  · rename_i he
    have hne : k ≠ [] := fun hc => he (by rw [hc]; rfl)
    split at hr
    · rename_i r hr'
      injection hr with hr
      subst hr
      obtain ⟨a, h1, h2⟩ := bind_ok.1 hr'
      obtain ⟨ds, _, h3⟩ := bind_ok.1 h2
      rw [pure_ok] at h3
      injection h3 with h3 _
      subst h3
      unfold takeUsl at h1
      split at h1
      · obtain ⟨x, _, h1⟩ := bind_ok.1 h1
        rw [pure_ok] at h1
        rw [← h1]
        exact ⟨fun s hs => (by cases hs), fun p hp => (by cases hp)⟩
      · obtain ⟨x, _, h1⟩ := bind_ok.1 h1
        rw [pure_ok] at h1
        rw [← h1]
        exact ⟨fun s hs => (by cases hs), fun p hp => (by cases hp)⟩
      · obtain ⟨x, h4, h1⟩ := bind_ok.1 h1
        have hparts : ∀ m ∈ x.1.1, m.str ∈ scripts.map str := by
          obtain ⟨b, h5, h6⟩ := bind_ok.1 h4
          obtain ⟨c, _, h6⟩ := bind_ok.1 h6
          split at h6
          · cases h6
          · rw [pure_ok] at h6
            subst h6
            intro m hm
            obtain ⟨t, ht, hp⟩ := takeMorphemes_from h5 m hm
            exact known_of_token hk ht hp
        split at h1
        · rw [pure_ok] at h1
          rw [← h1]
          refine ⟨fun s hs _ => ?_, fun p hp => by cases hp⟩
          cases hs
          exact hparts _ (by simp)
        · rw [pure_ok] at h1
          rw [← h1]
          refine ⟨fun s hs => (by cases hs), fun p hp => ?_⟩
          cases hp
          exact ⟨_, _, rfl, hparts, hne⟩
    · split at hr <;> cases hr

/-! ### The parts of an element -/

theorem scriptClass_le : ∀ s : Script, s.scriptClass ≤ 2 := by
  intro s
  apply Script.rec (motive_1 := fun s => s.scriptClass ≤ 2) (motive_2 := fun cs => scriptClassL cs ≤ 2)
  · intro _; simp [scriptClass, auxiliaryClass]
  · intro p; rw [scriptClass]; split <;> simp [verbClass, nounClass]
  · intro s _ _ h _ _; rw [scriptClass]; exact h
  · intro cs h; rw [scriptClass]; exact h
  · simp [scriptClassL]
  · intro c cs h1 h2; rw [scriptClassL]; omega

theorem gramClass_le (p : PM) : p.gramClass ≤ 2 := by
  unfold PM.gramClass
  suffices h : ∀ (cs : List Script) (m : Nat), m ≤ 2 → cs.foldl (fun m s => max m s.scriptClass) m ≤ 2 from h _ _ (by decide)
  intro cs
  induction cs with
  | nil => intro m h; exact h
  | cons c cs ih => intro m h; exact ih _ (Nat.max_le.2 ⟨h, scriptClass_le c⟩)

/-- The number of the grammatical class of a script, polymorpheme or lexeme. -/
def classNumber : Expr → Nat
  | .script s => s.scriptClass
  | .pm p => p.gramClass
  | .lexeme x => x.content.gramClass
  | .word _ => 0

/-- The names of the classes. -/
def className (n : Nat) : Str := if n = 0 then c!"Auxiliary" else if n = 1 then c!"Verb" else c!"Noun"

theorem classLabel_le {n : Nat} (h : n ≤ 2) : classLabel n = .ok (className n) := by
  match n, h with
  | 0, _ => rfl
  | 1, _ => rfl
  | 2, _ => rfl

theorem label_ok {u : Expr} (h : ∀ w, u ≠ .word w) : u.classLabel = .ok (className (classNumber u)) := by
  cases u with
  | script s => exact classLabel_le (scriptClass_le s)
  | pm p => exact classLabel_le (gramClass_le p)
  | lexeme x => exact classLabel_le (gramClass_le x.content)
  | word w => exact absurd rfl (h w)

/-- What is shown of an expression: the morpheme for a polymorpheme of one morpheme without groups. -/
def shownAs : Expr → Expr
  | .pm p => match p.constant, p.groups with
    | [c], [] => .script c
    | _, _ => .pm p
  | u => u

theorem shown_pm (p : PM) : (∃ c, p.constant = [c] ∧ p.groups = [] ∧ shownAs (.pm p) = .script c) ∨
    shownAs (.pm p) = .pm p ∧ ∀ c, p.constant = [c] → p.groups ≠ [] := by
  unfold shownAs
  dsimp only
  split
  · rename_i c hc hg; exact .inl ⟨c, hc, hg, rfl⟩
  · rename_i hn; exact .inr ⟨rfl, fun c hc hg => hn c hc hg⟩

/-- The type given to an expression. -/
def typeGiven (u : Expr) : Str := match shownAs u with
  | .script _ => c!"morpheme"
  | .pm _ => c!"polymorpheme"
  | .lexeme _ => c!"word"
  | .word _ => c!"lexeme"

theorem polymorphIdx_only {scripts : List Script} : ∀ {k i : Nat} {cs : List Script}, polymorphIdx scripts k cs = .ok i →
    ∀ c ∈ cs, c.str ∈ scripts.map str
  | _, _, [], _ => by simp
  | k, i, c :: cs, h => by
    rw [polymorphIdx] at h
    obtain ⟨j, h1, h⟩ := bind_ok.1 h
    obtain ⟨l, h2, _⟩ := bind_ok.1 h
    intro x hx
    rcases List.mem_cons.1 hx with rfl | hx
    · exact List.mem_of_getElem? (dicIndex_ok h1).2
    · exact polymorphIdx_only h2 x hx

theorem int2base_ok (i : Nat) : ∃ t, int2base (i : Int) = .ok t := by
  unfold int2base
  rw [if_neg (by omega)]
  exact ⟨_, rfl⟩

/-- What `get_index` needs: the scripts and the constants of the polymorphemes are in the dictionary. -/
def IndexKnown (scripts : List Script) : Expr → Prop
  | .script s => s.str ∈ scripts.map str
  | .pm p => ∀ c ∈ p.constant, c.str ∈ scripts.map str
  | _ => True

/-- The number of the type returned by `get_index`. -/
def typeNumber (u : Expr) : Nat := match shownAs u with
  | .script _ => 0
  | .pm _ => 1
  | .word _ => 2
  | .lexeme _ => 3

theorem getIndex_ok {scripts : List Script} {u : Expr} : (∃ r, getIndex scripts u = .ok r) ↔ IndexKnown scripts u := by
  cases u with
  | script s =>
    constructor
    · rintro ⟨r, h⟩
      obtain ⟨t, h1, _⟩ := bind_ok.1 h
      obtain ⟨i, h2, _⟩ := bind_ok.1 h
      exact List.mem_of_getElem? (dicIndex_ok h2).2
    · intro h
      obtain ⟨i, hi⟩ := dicIndex_exists h
      obtain ⟨t, ht⟩ := int2base_ok i
      exact ⟨(0, '0' :: t), bind_ok.2 ⟨i, hi, bind_ok.2 ⟨t, ht, rfl⟩⟩⟩
  | pm p =>
    show (∃ r, getIndexPM scripts p = .ok r) ↔ ∀ c ∈ p.constant, c.str ∈ scripts.map str
    unfold getIndexPM
    split
    · rename_i c hc hg
      constructor
      · rintro ⟨r, h⟩
        obtain ⟨i, h2, _⟩ := bind_ok.1 h
        intro x hx
        rw [hc, List.mem_singleton] at hx
        subst hx
        exact List.mem_of_getElem? (dicIndex_ok h2).2
      · intro h
        obtain ⟨i, hi⟩ := dicIndex_exists (h c (by rw [hc]; simp))
        obtain ⟨t, ht⟩ := int2base_ok i
        exact ⟨(0, '0' :: t), bind_ok.2 ⟨i, hi, bind_ok.2 ⟨t, ht, rfl⟩⟩⟩
    · constructor
      · rintro ⟨r, h⟩
        obtain ⟨i, h2, _⟩ := bind_ok.1 h
        exact polymorphIdx_only h2
      · intro h
        obtain ⟨i, hi⟩ := polymorphIdx_ok (k := 0) h
        obtain ⟨t, ht⟩ := int2base_ok i
        exact ⟨(1, '1' :: t), bind_ok.2 ⟨i, hi, bind_ok.2 ⟨t, ht, rfl⟩⟩⟩
  | lexeme x => exact ⟨fun _ => trivial, fun _ => ⟨_, rfl⟩⟩
  | word w => exact ⟨fun _ => trivial, fun _ => ⟨_, rfl⟩⟩

theorem getIndex_number {scripts : List Script} {u : Expr} {i : Nat} {r : Str} (h : getIndex scripts u = .ok (i, r)) : i = typeNumber u := by
  cases u with
  | script s =>
    obtain ⟨j, _, h⟩ := bind_ok.1 h
    obtain ⟨t, _, h⟩ := bind_ok.1 h
    rw [pure_ok] at h
    injection h with h _
    exact h.symm
  | pm p =>
    have h : getIndexPM scripts p = .ok (i, r) := h
    unfold getIndexPM at h
    split at h
    · rename_i c hc hg
      obtain ⟨j, _, h⟩ := bind_ok.1 h
      obtain ⟨t, _, h⟩ := bind_ok.1 h
      rw [pure_ok] at h
      injection h with h _
      rcases shown_pm p with ⟨c', _, _, h3⟩ | ⟨_, h3⟩
      · unfold typeNumber; rw [h3]; exact h.symm
      · exact absurd hg (h3 c hc)
    · rename_i hn
      obtain ⟨j, _, h⟩ := bind_ok.1 h
      obtain ⟨t, _, h⟩ := bind_ok.1 h
      rw [pure_ok] at h
      injection h with h _
      rcases shown_pm p with ⟨c', h1, h2, _⟩ | ⟨h3, _⟩
      · exact (hn c' h1 h2).elim
      · unfold typeNumber; rw [h3]; exact h.symm
  | lexeme x =>
    obtain ⟨t, _, h⟩ := bind_ok.1 h
    rw [pure_ok] at h
    injection h with h _
    exact h.symm
  | word w =>
    obtain ⟨t, _, h⟩ := bind_ok.1 h
    rw [pure_ok] at h
    injection h with h _
    exact h.symm

theorem unwrap_shown (u : Expr) : unwrapPM (typeNumber u) u = .ok (shownAs u) := by
  cases u with
  | pm p =>
    rcases shown_pm p with ⟨c, h1, _, h3⟩ | ⟨h3, _⟩
    · unfold typeNumber
      rw [h3]
      unfold unwrapPM
      simp [h1]
    · unfold typeNumber
      rw [h3]
      rfl
  | script s => rfl
  | lexeme x => rfl
  | word w => rfl

theorem shown_word {u : Expr} {w : WordUsl} (h : shownAs u = .word w) : u = .word w := by
  cases u with
  | pm p => rcases shown_pm p with ⟨c, _, _, h3⟩ | ⟨h3, _⟩ <;> rw [h3] at h <;> cases h
  | script s => cases h
  | lexeme x => cases h
  | word w' => exact h

/-- What the element of an expression holds. -/
structure ListedAs (d : DictBase) (u : Expr) (e : Listed) : Prop where
  ieml : e.ieml = (shownAs u).text
  type : e.type = typeGiven u
  cls : e.cls = className (classNumber (shownAs u))
  index : ∃ i, getIndex d.scripts u = .ok (i, e.index)
  count : ∃ n, (shownAs u).len = .ok n ∧ (e.paradigm = true ↔ n ≠ 1) ∧
    (n = 1 → e.cardinality = c!"singular_sequence") ∧
    (n ≠ 1 → (∃ s, shownAs u = .script s ∧ ∃ r ∈ d.tables.roots, r.1.str = s.str) → e.cardinality = c!"root_paradigm") ∧
    (n ≠ 1 → ¬ (∃ s, shownAs u = .script s ∧ ∃ r ∈ d.tables.roots, r.1.str = s.str) → e.cardinality = c!"paradigm")

theorem listedOf_inv {d : DictBase} {k : Str} {u : Expr} {e : Listed} (h : listedOf d k u = .ok e) :
    u.text = k ∧ (∀ w, u ≠ .word w) ∧ IndexKnown d.scripts u ∧ ListedAs d u e := by
  unfold listedOf at h
  by_cases hk : u.text = k
  · rw [if_neg (by simpa using hk)] at h
    obtain ⟨ir, hi, h⟩ := bind_ok.1 h
    obtain ⟨v, hv, h⟩ := bind_ok.1 h
    obtain ⟨n, hn, h⟩ := bind_ok.1 h
    obtain ⟨c, hc, h⟩ := bind_ok.1 h
    rw [pure_ok] at h
    have hnum := getIndex_number (i := ir.1) (r := ir.2) hi
    rw [hnum, unwrap_shown] at hv
    injection hv with hv
    have hw : ∀ w, u ≠ .word w := by
      rintro w rfl
      rw [← hv] at hc
      cases hc
    have hwv : ∀ w, shownAs u ≠ .word w := fun w hc => hw w (shown_word hc)
    rw [← hv, label_ok hwv] at hc
    injection hc with hc
    subst hc hv
    refine ⟨hk, hw, getIndex_ok.1 ⟨ir, hi⟩, ?_⟩
    rw [← h]
    refine ⟨rfl, ?_, rfl, ⟨ir.1, hi⟩, n, hn, by simp, ?_, ?_, ?_⟩
    · show uslTypes.getD ir.1 [] = _
      rw [hnum]
      unfold typeNumber typeGiven
      cases shownAs u <;> rfl
    · intro h1
      show cardinality d n _ = _
      unfold cardinality
      split <;> simp [h1]
    · rintro h1 ⟨s, hs, r, hr, hrs⟩
      show cardinality d n _ = _
      rw [hs]
      show (if n = 1 then _ else if (d.tables.roots.any fun r => r.1.pyEq s) = true then _ else _) = _
      rw [if_neg h1, if_pos]
      rw [List.any_eq_true]
      exact ⟨r, hr, by unfold Script.pyEq; rw [hrs]; simp⟩
    · intro h1 h2
      show cardinality d n _ = _
      unfold cardinality
      split
      · rename_i s hs
        rw [if_neg h1, if_neg]
        intro hc
        obtain ⟨r, hr, hrs⟩ := List.any_eq_true.1 hc
        unfold Script.pyEq at hrs
        exact h2 ⟨s, hs, r, hr, by simpa using hrs⟩
      · rw [if_neg h1]
  · rw [if_pos (by simpa using hk)] at h
    cases h

theorem shown_len {u : Expr} : (∃ n, u.len = .ok n) ↔ ∃ m, (shownAs u).len = .ok m := by
  cases u with
  | pm p =>
    rcases shown_pm p with ⟨c, h1, h2, h3⟩ | ⟨h3, _⟩
    · rw [h3]
      refine ⟨fun _ => ⟨_, rfl⟩, fun _ => ⟨1, ?_⟩⟩
      unfold Expr.len Expr.length Expr.sequences PM.singularSequences
      simp only [h2]
      rfl
    · rw [h3]
  | script s => exact Iff.rfl
  | lexeme x => exact Iff.rfl
  | word w => exact Iff.rfl

theorem listedOf_ok {d : DictBase} {k : Str} {u : Expr} (hk : u.text = k) (hw : ∀ w, u ≠ .word w) (hi : IndexKnown d.scripts u) {n : Nat}
    (hn : u.len = .ok n) : ∃ e, listedOf d k u = .ok e := by
  obtain ⟨ir, hir⟩ := getIndex_ok.2 hi
  obtain ⟨m, hm⟩ := shown_len.1 ⟨n, hn⟩
  have hwv : ∀ w, shownAs u ≠ .word w := fun w hc => hw w (shown_word hc)
  unfold listedOf
  rw [if_neg (by simpa using hk)]
  show ∃ e, (getIndex d.scripts u >>= _) = _
  rw [hir]
  show ∃ e, (unwrapPM ir.1 u >>= _) = _
  rw [getIndex_number (i := ir.1) (r := ir.2) hir, unwrap_shown]
  show ∃ e, ((shownAs u).len >>= _) = _
  rw [hm]
  show ∃ e, ((shownAs u).classLabel >>= _) = _
  rw [label_ok hwv]
  exact ⟨_, rfl⟩

theorem joinSpace_one (t : Str) : joinSpace [t] = t := by simp [joinSpace]

/-- What is shown of an expression that has been read has its text. -/
theorem shown_text {scripts : List Script} {k : Str} {u : Expr} (h : readIn scripts k = .ok (u, [])) (hk : u.text = k) : (shownAs u).text = k := by
  cases u with
  | pm p =>
    rcases shown_pm p with ⟨c, h1, h2, h3⟩ | ⟨h3, _⟩
    · obtain ⟨cs, gs, rfl, _, hne⟩ := (readIn_known h).2 p rfl
      rw [h3]
      have h1 : (if (shownC cs).isEmpty then [.null 0] else shownC cs) = [c] := h1
      have h2 : shownG gs = [] := h2
      have hk : joinSpace ((shownC cs).map str ++ (shownG gs).map groupText) = k := hk
      rw [h2] at hk
      split at h1
      · rename_i he
        rw [List.isEmpty_iff.1 he] at hk
        exact absurd hk.symm hne
      · rw [h1] at hk
        rw [← hk]
        exact (joinSpace_one _).symm
    · rw [h3]; exact hk
  | script s => exact hk
  | lexeme x => exact hk
  | word w => exact hk

/-! ### C95: the list -/

/-- The lists that the loop and the sort give. -/
theorem listOf_inv {d : DictBase} {rows : List (Str × Str × Str × Str)} {L : List Listed} (h : listOf d rows = .ok L) :
    ∃ res, ListInv d (pySort ltRecord rows) res ∧ L = pySort (fun a b => ltStr a.index b.index) (res.map (·.2)) := by
  obtain ⟨res, h1, h2⟩ := bind_ok.1 h
  rw [pure_ok] at h2
  exact ⟨res, by simpa using loop_inv (ListInv.nil d) h1, h2.symm⟩

theorem ListInv.element {d : DictBase} {rows : List (Str × Str × Str × Str)} {res : List (Str × Listed)} (h : ListInv d rows res) {x : Str × Listed}
    (hx : x ∈ res) : x.2.ieml = x.1 ∧ ∃ u, readIn d.scripts x.1 = .ok (u, []) ∧ u.text = x.1 ∧ (∀ w, u ≠ .word w) ∧ ListedAs d u x.2 := by
  obtain ⟨u, e, hu, he, hxe⟩ := h.read x hx
  obtain ⟨h1, h2, _, h3⟩ := listedOf_inv he
  have h4 : ListedAs d u x.2 := by
    rw [hxe]
    exact ⟨h3.ieml, h3.type, h3.cls, h3.index, h3.count⟩
  exact ⟨by rw [h4.ieml, shown_text hu h1], u, hu, h1, h2, h4⟩

theorem valuesOf_sorted {rows : List (Str × Str × Str × Str)} {k : Str} {vals : List (Str × List (Str × List Str))}
    (h : ValuesOf (pySort ltRecord rows) k vals) : ValuesOf rows k vals := by
  refine ⟨h.1, fun f => ?_⟩
  rw [h.2 f]
  simp only [stored_sorted, mem_pySort]

/-- The order of the list: by index, then by text. -/
def ListOrder (a b : Listed) : Prop := ltStr a.index b.index = true ∨ a.index = b.index ∧ ltStr a.ieml b.ieml = true

theorem listOf_order {d : DictBase} {rows : List (Str × Str × Str × Str)} {L : List Listed} (h : listOf d rows = .ok L) : L.Pairwise ListOrder := by
  obtain ⟨res, hi, rfl⟩ := listOf_inv h
  have hkeys : (res.map (·.1)).Pairwise fun a b => ltStr a b = true := by
    have h1 : ((pySort ltRecord rows).map (·.1)).Pairwise fun a b => ltStr b a = false := List.pairwise_map.2 (records_sorted rows)
    refine ((h1.sublist hi.keys).and hi.keyed).imp fun {a b} hab => ?_
    rcases ltStr_total hab.2 with h | h
    · exact h
    · rw [hab.1] at h; cases h
  have htext : (res.map (·.2)).Pairwise fun a b => ltStr a.ieml b.ieml = true := by
    rw [List.pairwise_map] at hkeys ⊢
    refine hkeys.imp_of_mem fun {a b} ha hb hab => ?_
    rw [(hi.element ha).1, (hi.element hb).1]
    exact hab
  have hcode : ∀ a ∈ res.map (·.2), ∀ b ∈ res.map (·.2), ltStr a.index b.index = ltBytes (a.index.map Char.toNat) (b.index.map Char.toNat) :=
    fun _ _ _ _ => rfl
  have h1 := pySort_sorted (lt := fun a b : Listed => ltStr a.index b.index) (k := fun a => a.index.map Char.toNat) hcode
  have h2 := pairwise_within (l := pySort (fun a b : Listed => ltStr a.index b.index) (res.map (·.2)))
    (R := fun a b => ltStr a.ieml b.ieml = true) (k := fun a => a.index.map Char.toNat) fun c => by
      rw [pySort_filter c hcode]
      exact htext.sublist List.filter_sublist
  refine (h1.and h2).imp fun {a b} hab => ?_
  by_cases he : a.index = b.index
  · exact .inr ⟨he, hab.2 (by rw [he])⟩
  · rcases ltStr_total he with h | h
    · exact .inl h
    · have h3 : ltStr b.index a.index = false := hab.1
      rw [h] at h3
      cases h3

/-- **C95** (part) If `get_list` returns: it lists exactly the texts that have a descriptor and that the parser reads with the dictionary, each
of them once (the order is strict), by index and then by text; every element is that of the expression read, its text is the
key, and it holds for each descriptor of the key and each language the values of the records, in their order. -/
theorem C95_listed_partial {o : SetOrder} {fs : FS} {L : List Listed} (h : getList o fs = .ok L) :
    ∃ d rows, getDictionary o fs = .ok d ∧ getDescriptors fs = .ok rows ∧
      (∀ k, (∃ e ∈ L, e.ieml = k) ↔ (∃ r ∈ rows, r.1 = k) ∧ ∃ u, readIn d.base.scripts k = .ok (u, [])) ∧
      L.Pairwise ListOrder ∧
      ∀ e ∈ L, (∃ u, readIn d.base.scripts e.ieml = .ok (u, []) ∧ u.text = e.ieml ∧ ListedAs d.base u e) ∧ ValuesOf rows e.ieml e.values := by
  obtain ⟨d, hd, h⟩ := bind_ok.1 h
  obtain ⟨rows, hr, h⟩ := bind_ok.1 h
  refine ⟨d, rows, hd, hr, ?_, listOf_order h, ?_⟩
  · obtain ⟨res, hi, rfl⟩ := listOf_inv h
    intro k
    constructor
    · rintro ⟨e, he, rfl⟩
      rw [mem_pySort] at he
      obtain ⟨x, hx, rfl⟩ := List.mem_map.1 he
      obtain ⟨h1, u, h2, _⟩ := hi.element hx
      rw [h1]
      have := hi.keys.subset (List.mem_map_of_mem (f := (·.1)) hx)
      obtain ⟨r, hr, hrx⟩ := List.mem_map.1 this
      exact ⟨⟨r, (mem_pySort _).1 hr, hrx⟩, u, h2⟩
    · rintro ⟨⟨r, hr, rfl⟩, u, hu⟩
      rcases (hi.rows r ((mem_pySort _).2 hr)).2 with h1 | h1
      · rw [hu] at h1; cases h1
      · obtain ⟨x, hx, hxr⟩ := List.mem_map.1 h1
        exact ⟨x.2, (mem_pySort _).2 (List.mem_map_of_mem hx), by rw [(hi.element hx).1, hxr]⟩
  · obtain ⟨res, hi, rfl⟩ := listOf_inv h
    intro e he
    rw [mem_pySort] at he
    obtain ⟨x, hx, rfl⟩ := List.mem_map.1 he
    obtain ⟨h1, u, h2, h3, _, h4⟩ := hi.element hx
    rw [h1]
    exact ⟨⟨u, h2, h3, h4⟩, valuesOf_sorted (hi.values x hx)⟩

/-- **C95** (part) The values of an element are those that `get_values` returns for its text. -/
theorem C95_values {o : SetOrder} {fs : FS} {L : List Listed} (h : getList o fs = .ok L) {e : Listed} (he : e ∈ L) {f : Str × List (Str × List Str)}
    (hf : f ∈ e.values) (hc : f.1 ∈ descriptorClasses) :
    f.2.map (·.1) = languages ∧ ∀ x ∈ f.2, getValues fs e.ieml x.1 f.1 = .ok x.2 := by
  obtain ⟨d, rows, _, hr, _, _, h⟩ := C95_listed_partial h
  obtain ⟨_, h2⟩ := ((h e he).2.2 f).1 hf
  rw [h2]
  constructor
  · rw [List.map_map]; exact List.map_id _
  · intro x hx
    obtain ⟨l, hl, rfl⟩ := List.mem_map.1 hx
    unfold getValues
    rw [hr]
    show (if _ then _ else _) = _
    rw [if_neg (by simp [hl, hc])]
    rfl

/-- A record that `get_list` accepts: its text does not parse with the dictionary, or it is the text of a script, polymorpheme or lexeme, whose
sequences can be counted, and, for a polymorpheme without constants, `E:` is in the dictionary; its language is a language and
its descriptor is not the name of a field. -/
def ListableRecord (d : DictBase) (r : Str × Str × Str × Str) : Prop :=
  readIn d.scripts r.1 = .error .cannotParse ∨
  ∃ u n, readIn d.scripts r.1 = .ok (u, []) ∧ u.text = r.1 ∧ (∀ w, u ≠ .word w) ∧ u.len = .ok n ∧
    (∀ p, u = .pm p → p.constant.map str = [c!"E:"] → c!"E:" ∈ d.scripts.map str) ∧ r.2.2.1 ∉ listedFields ∧ r.2.1 ∈ languages

theorem listable_iff {d : DictBase} {r : Str × Str × Str × Str} : TakesRecord d r ↔ ListableRecord d r := by
  constructor
  · rintro (h | ⟨u, e, hu, he, hf, hl⟩)
    · exact .inl h
    · obtain ⟨h1, h2, h3, h4⟩ := listedOf_inv he
      obtain ⟨m, hm, _⟩ := h4.count
      obtain ⟨n, hn⟩ := shown_len.2 ⟨m, hm⟩
      refine .inr ⟨u, n, hu, h1, h2, hn, ?_, hf, hl⟩
      rintro p rfl hp
      obtain ⟨c, hc, hce⟩ := List.mem_map.1 (show c!"E:" ∈ p.constant.map str by rw [hp]; simp)
      rw [← hce]
      exact h3 c hc
  · rintro (h | ⟨u, n, hu, h1, h2, hn, hp, hf, hl⟩)
    · exact .inl h
    · have hi : IndexKnown d.scripts u := by
        obtain ⟨k1, k2⟩ := readIn_known hu
        cases u with
        | script s =>
          refine k1 s rfl fun hc => ?_
          rw [hc] at hu
          obtain ⟨hu, _⟩ := readIn_ok.1 hu
          cases hu
          rw [hc] at h1
          cases h1
        | pm p =>
          obtain ⟨cs, gs, rfl, hcs, _⟩ := k2 p rfl
          intro c hc
          have hc' : c ∈ (if (shownC cs).isEmpty then [.null 0] else shownC cs) := hc
          split at hc'
          · rename_i he
            rw [List.mem_singleton] at hc'
            subst hc'
            refine hp _ rfl ?_
            show ((if (shownC cs).isEmpty then [.null 0] else shownC cs) : List Script).map str = _
            rw [if_pos he]
            rfl
          · exact hcs c (mem_shownC.1 hc').1
        | lexeme x => trivial
        | word w => trivial
      obtain ⟨e, he⟩ := listedOf_ok h1 h2 hi hn
      exact .inr ⟨u, e, hu, he, hf, hl⟩

/-- **C95** (part) `get_list` returns exactly if the dictionary and the descriptors are read and every record is accepted. -/
theorem C95_returns_partial {o : SetOrder} {fs : FS} : (∃ L, getList o fs = .ok L) ↔
    ∃ d rows, getDictionary o fs = .ok d ∧ getDescriptors fs = .ok rows ∧ ∀ r ∈ rows, ListableRecord d.base r := by
  constructor
  · rintro ⟨L, h⟩
    obtain ⟨d, hd, h⟩ := bind_ok.1 h
    obtain ⟨rows, hr, h⟩ := bind_ok.1 h
    obtain ⟨res, hi, _⟩ := listOf_inv h
    exact ⟨d, rows, hd, hr, fun r hr => listable_iff.1 (hi.rows r ((mem_pySort _).2 hr)).1⟩
  · rintro ⟨d, rows, hd, hr, h⟩
    obtain ⟨res, hres⟩ := loop_goes (ListInv.nil d.base) (rows := pySort ltRecord rows) fun r hr =>
      listable_iff.2 (h r ((mem_pySort _).1 hr))
    refine ⟨pySort (fun a b => ltStr a.index b.index) (res.map (·.2)), ?_⟩
    unfold getList
    rw [hd]
    show (getDescriptors fs >>= _) = _
    rw [hr]
    show listOf d.base rows = _
    unfold listOf
    rw [hres]
    rfl

/-- **C95** is violated by words: one word with a descriptor, whose morphemes are in the dictionary, and `get_list` does not return. -/
theorem C95_word {o : SetOrder} {fs : FS} {d : Dictionary} {rows : List (Str × Str × Str × Str)} (hd : getDictionary o fs = .ok d)
    (hr : getDescriptors fs = .ok rows) {r : Str × Str × Str × Str} (hm : r ∈ rows) {w : WordUsl} (hw : readIn d.base.scripts r.1 = .ok (.word w, [])) (L : List Listed) :
    getList o fs ≠ .ok L := by
  intro h
  obtain ⟨d', rows', hd', hr', h⟩ := C95_returns_partial.1 ⟨L, h⟩
  rw [hd] at hd'; injection hd' with hd'; subst hd'
  rw [hr] at hr'; injection hr' with hr'; subst hr'
  rcases h r hm with h | ⟨u, n, h1, _, h2, _⟩
  · rw [hw] at h; cases h
  · rw [hw] at h1; cases h1; exact h2 w rfl

/-- **C95** is violated by texts that are not in normal form: a key that reads as an expression with another text, and `get_list` does not return. -/
theorem C95_normal {o : SetOrder} {fs : FS} {d : Dictionary} {rows : List (Str × Str × Str × Str)} (hd : getDictionary o fs = .ok d)
    (hr : getDescriptors fs = .ok rows) {r : Str × Str × Str × Str} (hm : r ∈ rows) {u : Expr} (hu : readIn d.base.scripts r.1 = .ok (u, [])) (hk : u.text ≠ r.1)
    (L : List Listed) : getList o fs ≠ .ok L := by
  intro h
  obtain ⟨d', rows', hd', hr', h⟩ := C95_returns_partial.1 ⟨L, h⟩
  rw [hd] at hd'; injection hd' with hd'; subst hd'
  rw [hr] at hr'; injection hr' with hr'; subst hr'
  rcases h r hm with h | ⟨u', n, h1, h2, _⟩
  · rw [hu] at h; cases h
  · rw [hu] at h1; cases h1; exact hk h2

/-- **C95** is violated by every lexeme that is listed: its type is `word`, and all the lexemes have the same index. -/
theorem C95_lexeme {o : SetOrder} {fs : FS} {L : List Listed} (h : getList o fs = .ok L) {d : Dictionary} (hd : getDictionary o fs = .ok d) {e : Listed} (he : e ∈ L)
    {x : Lexeme} (hx : readIn d.base.scripts e.ieml = .ok (.lexeme x, [])) :
    e.type = c!"word" ∧ e.index = c!"3000000000000000000000000000000" := by
  obtain ⟨d', rows, hd', _, _, _, h⟩ := C95_listed_partial h
  rw [hd] at hd'; injection hd' with hd'; subst hd'
  obtain ⟨⟨u, h1, _, h2⟩, _⟩ := h e he
  rw [hx] at h1
  cases h1
  refine ⟨h2.type, ?_⟩
  obtain ⟨i, hi⟩ := h2.index
  have hj : getIndex d.base.scripts (.lexeme x) = .ok (3, c!"3000000000000000000000000000000") := by
    show (do return (3, '3' :: (← int2base 0))) = _
    decide +kernel
  rw [hj] at hi
  injection hi with hi
  injection hi with _ hi
  exact hi.symm

/-! ### C95: the order -/

/-- The first character of an index. -/
def firstDigit (i : Nat) : Char := if i = 0 then '0' else if i = 1 then '1' else if i = 2 then '2' else '3'

theorem index_first {scripts : List Script} {u : Expr} {i : Nat} {r : Str} (h : getIndex scripts u = .ok (i, r)) :
    ∃ t, r = firstDigit i :: t ∧ i ≤ 3 := by
  cases u with
  | script s =>
    obtain ⟨j, _, h⟩ := bind_ok.1 h
    obtain ⟨t, _, h⟩ := bind_ok.1 h
    rw [pure_ok] at h
    cases h
    exact ⟨t, rfl, by decide⟩
  | pm p =>
    have h : getIndexPM scripts p = .ok (i, r) := h
    unfold getIndexPM at h
    split at h
    all_goals
      obtain ⟨j, _, h⟩ := bind_ok.1 h
      obtain ⟨t, _, h⟩ := bind_ok.1 h
      rw [pure_ok] at h
      cases h
      exact ⟨t, rfl, by decide⟩
  | lexeme x =>
    obtain ⟨t, _, h⟩ := bind_ok.1 h
    rw [pure_ok] at h
    cases h
    exact ⟨t, rfl, by decide⟩
  | word w =>
    obtain ⟨t, _, h⟩ := bind_ok.1 h
    rw [pure_ok] at h
    cases h
    exact ⟨t, rfl, by decide⟩

theorem ltStr_cons {a b : Char} {s t : Str} : ltStr (a :: s) (b :: t) = (decide (a.toNat < b.toNat) || (decide (a.toNat = b.toNat) && ltStr s t)) := by
  unfold ltStr
  rw [List.map_cons, List.map_cons, ltBytes]
  by_cases h : a.toNat = b.toNat <;> simp [h]

/-- **C95** (part) The morphemes come first, then the polymorphemes, then the lexemes. -/
theorem C95_kinds {o : SetOrder} {fs : FS} {L : List Listed} (h : getList o fs = .ok L) {d : Dictionary} (hd : getDictionary o fs = .ok d) :
    L.Pairwise fun a b => ∀ u v, readIn d.base.scripts a.ieml = .ok (u, []) → readIn d.base.scripts b.ieml = .ok (v, []) → typeNumber u ≤ typeNumber v := by
  obtain ⟨d', rows, hd', _, _, hord, h⟩ := C95_listed_partial h
  rw [hd] at hd'; injection hd' with hd'; subst hd'
  refine hord.imp_of_mem fun {a b} ha hb hab u v hu hv => ?_
  obtain ⟨⟨u', h1, _, h2⟩, _⟩ := h a ha
  obtain ⟨⟨v', h3, _, h4⟩, _⟩ := h b hb
  rw [hu] at h1; cases h1
  rw [hv] at h3; cases h3
  obtain ⟨i, hi⟩ := h2.index
  obtain ⟨j, hj⟩ := h4.index
  rw [← getIndex_number hi, ← getIndex_number hj]
  obtain ⟨s, hs, hi3⟩ := index_first hi
  obtain ⟨t, ht, hj3⟩ := index_first hj
  have hle : ∀ {x y : Char} {s t : Str}, (ltStr (x :: s) (y :: t) = true ∨ x :: s = y :: t) → x.toNat ≤ y.toNat := by
    rintro x y s t (h | h)
    · rw [ltStr_cons] at h
      simp only [Bool.or_eq_true, Bool.and_eq_true, decide_eq_true_eq] at h
      omega
    · injection h with h _; rw [h]
  have := hle (hs ▸ ht ▸ hab.imp_right And.left)
  have hi4 : i = 0 ∨ i = 1 ∨ i = 2 ∨ i = 3 := by omega
  have hj4 : j = 0 ∨ j = 1 ∨ j = 2 ∨ j = 3 := by omega
  rcases hi4 with rfl | rfl | rfl | rfl <;> rcases hj4 with rfl | rfl | rfl | rfl <;> first | omega | (exact absurd this (by decide))

/-- **C95** (part) The morphemes come in the order of the dictionary, if it has at most `62 ^ 30` scripts. -/
theorem C95_morphemes {o : SetOrder} {fs : FS} {L : List Listed} (h : getList o fs = .ok L) {d : Dictionary} (hd : getDictionary o fs = .ok d)
    (hn : d.base.scripts.length ≤ 62 ^ 30) :
    L.Pairwise fun a b => ∀ s t, readIn d.base.scripts a.ieml = .ok (.script s, []) → readIn d.base.scripts b.ieml = .ok (.script t, []) →
      ∃ i j, dicIndex d.base.scripts s = .ok i ∧ dicIndex d.base.scripts t = .ok j ∧ i < j := by
  obtain ⟨d', rows, hd', _, _, hord, h⟩ := C95_listed_partial h
  rw [hd] at hd'; injection hd' with hd'; subst hd'
  refine hord.imp_of_mem fun {a b} ha hb hab s t hs ht => ?_
  obtain ⟨⟨u', h1, ha', h2⟩, _⟩ := h a ha
  obtain ⟨⟨v', h3, hb', h4⟩, _⟩ := h b hb
  rw [hs] at h1; cases h1
  rw [ht] at h3; cases h3
  obtain ⟨_, hi⟩ := h2.index
  obtain ⟨_, hj⟩ := h4.index
  obtain ⟨i, hi1, hi⟩ := bind_ok.1 hi
  obtain ⟨x, hi2, hi⟩ := bind_ok.1 hi
  obtain ⟨j, hj1, hj⟩ := bind_ok.1 hj
  obtain ⟨y, hj2, hj⟩ := bind_ok.1 hj
  rw [pure_ok] at hi hj
  injection hi with _ hi
  injection hj with _ hj
  refine ⟨i, j, hi1, hj1, ?_⟩
  obtain ⟨li, ei⟩ := dicIndex_ok hi1
  obtain ⟨lj, ej⟩ := dicIndex_ok hj1
  obtain ⟨x', y', ex, ey, _, _, hlt, heq⟩ := C45_order_preserved (Nat.lt_of_lt_of_le li hn) (Nat.lt_of_lt_of_le lj hn)
  rw [hi2] at ex; injection ex with ex; subst ex
  rw [hj2] at ey; injection ey with ey; subst ey
  rcases hab with hab | ⟨hab, htx⟩
  · rw [← hi, ← hj, ltStr_cons] at hab
    simp only [Nat.lt_irrefl, decide_false, Bool.false_or, decide_true, Bool.true_and] at hab
    exact hlt.1 hab
  · rw [← hi, ← hj] at hab
    injection hab with _ hab
    have := heq.1 hab
    subst this
    rw [ei] at ej
    injection ej with ej
    have ha' : s.str = a.ieml := ha'
    have hb' : t.str = b.ieml := hb'
    rw [← ha', ← hb', ej, ltStr_irrefl] at htx
    cases htx

/-! ### Examples and violations -/

/-- A root paradigm of the layer 1, and other expressions with their descriptors. -/
def listUslsFs (rows : Str) : FS :=
  [(c!"morpheme/paradigm/E:O:..desc", c!"\"E:O:.\" fr translations \"x\"\n"),
   (c!"morpheme/paradigm/E:O:..ieml", c!"\"E:O:.\" is_root \"True\"\n"),
   (c!"usls.desc", rows)]

/-- A morpheme, two polymorphemes, a lexeme and a morpheme that is not in the dictionary. -/
def listRows : Str :=
  c!"\"(E:A:.)(E:U:.)\" fr comments \"z\"\n\"E:U:.\" fr translations \"u\"\n\"E:U:.\" fr translations \"t\"\n\"b.\" fr translations \"v\"\n\"E:U:. E:A:.\" fr translations \"w\"\n\"E:A:. m1(E:U:.)\" en tags \"p\"\n\"E:O:.\" en translations \"y\"\n"

/-- Their list. -/
def listResult : List Listed :=
  [⟨c!"E:U:.", c!"morpheme", false, c!"Auxiliary", c!"0000000000000000000000000000000", c!"singular_sequence", [(c!"translations", [(c!"fr", [c!"u", c!"t"]), (c!"en", [])])]⟩,
   ⟨c!"E:O:.", c!"morpheme", true, c!"Auxiliary", c!"0000000000000000000000000000002", c!"root_paradigm", [(c!"translations", [(c!"fr", [c!"x"]), (c!"en", [c!"y"])])]⟩,
   ⟨c!"E:A:. m1(E:U:.)", c!"polymorpheme", true, c!"Auxiliary", c!"1000000000000000000000000000001", c!"paradigm", [(c!"tags", [(c!"fr", []), (c!"en", [c!"p"])])]⟩,
   ⟨c!"E:U:. E:A:.", c!"polymorpheme", false, c!"Auxiliary", c!"1000000000000000000000000000003", c!"singular_sequence", [(c!"translations", [(c!"fr", [c!"w"]), (c!"en", [])])]⟩,
   ⟨c!"(E:A:.)(E:U:.)", c!"word", false, c!"Auxiliary", c!"3000000000000000000000000000000", c!"singular_sequence", [(c!"comments", [(c!"fr", [c!"z"]), (c!"en", [])])]⟩]

/-- `get_list` returns for these data (`C95_listed_partial`, `C95_values`, `C95_returns_partial`, `C95_kinds`, `C95_morphemes`). -/
theorem listUslsFs_list : getList plainOrder (listUslsFs listRows) = .ok listResult := by
  have h : (match getList plainOrder (listUslsFs listRows) with | .ok L => decide (L = listResult) | .error _ => false) = true := by decide +kernel
  split at h
  · rename_i L hL
    rw [hL, of_decide_eq_true h]
  · cases h

/-- The text of a word of these morphemes. -/
def listWord : Str := c!"[! E:U:.  (E:A:.)(E:U:.)]"

/-- The claim for words: `get_list` returns if the dictionary and the descriptors are read, and every key is in normal form and has a known
language and descriptor. -/
def ListsWords : Prop := ∀ (o : SetOrder) (fs : FS) (d : Dictionary) (rows : List (Str × Str × Str × Str)), o.Valid → getDictionary o fs = .ok d →
  getDescriptors fs = .ok rows →
  (∀ r ∈ rows, (∃ u n, readIn d.base.scripts r.1 = .ok (u, []) ∧ u.text = r.1 ∧ u.len = .ok n) ∧ r.2.1 ∈ languages ∧ r.2.2.1 ∈ descriptorClasses) →
  ∃ L, getList o fs = .ok L

/-- The hypotheses of `ListsWords` on a list of records, as a computation. -/
def readsAll (o : SetOrder) (fs : FS) : Bool :=
  match getDictionary o fs, getDescriptors fs with
  | .ok d, .ok rows => rows.all fun r =>
    (match readIn d.base.scripts r.1 with
      | .ok (u, []) => decide (u.text = r.1) && u.len.isOk
      | _ => false) && decide (r.2.1 ∈ languages) && decide (r.2.2.1 ∈ descriptorClasses)
  | _, _ => false

theorem readsAll_spec {o : SetOrder} {fs : FS} (h : readsAll o fs = true) : ∃ d rows, getDictionary o fs = .ok d ∧ getDescriptors fs = .ok rows ∧
    ∀ r ∈ rows, (∃ u n, readIn d.base.scripts r.1 = .ok (u, []) ∧ u.text = r.1 ∧ u.len = .ok n) ∧ r.2.1 ∈ languages ∧ r.2.2.1 ∈ descriptorClasses := by
  unfold readsAll at h
  split at h
  · rename_i d rows hd hr
    refine ⟨d, rows, hd, hr, fun r hm => ?_⟩
    have := List.all_eq_true.1 h r hm
    simp only [Bool.and_eq_true, decide_eq_true_eq] at this
    refine ⟨?_, this.1.2, this.2⟩
    have h1 := this.1.1
    split at h1
    · rename_i u hu
      rw [Bool.and_eq_true, decide_eq_true_eq] at h1
      cases hn : u.len with
      | ok n => exact ⟨u, n, hu, h1.1, hn⟩
      | error e => rw [hn] at h1; cases h1.2
    · cases h1
  · cases h

/-- **C95** is violated by words: `KeyError`. -/
theorem C95_violated_word : ¬ ListsWords ∧ readsAll plainOrder (listUslsFs (c!"\"" ++ listWord ++ c!"\" fr translations \"y\"\n")) = true ∧
    (getList plainOrder (listUslsFs (c!"\"" ++ listWord ++ c!"\" fr translations \"y\"\n"))).map (·.length) = .error .keyError := by
  have h1 : readsAll plainOrder (listUslsFs (c!"\"" ++ listWord ++ c!"\" fr translations \"y\"\n")) = true := by decide +kernel
  have h2 : (getList plainOrder (listUslsFs (c!"\"" ++ listWord ++ c!"\" fr translations \"y\"\n"))).map (·.length) = .error .keyError := by decide +kernel
  refine ⟨fun h => ?_, h1, h2⟩
  obtain ⟨d, rows, hd, hr, hrows⟩ := readsAll_spec h1
  obtain ⟨L, hL⟩ := h _ _ d rows plainOrder_valid hd hr hrows
  rw [hL] at h2
  cases h2

/-- **C95** is violated by polymorphemes that have groups only, if `E:` is not in the dictionary: `KeyError`. -/
theorem C95_violated_groups : readsAll plainOrder (listUslsFs (c!"\"m1(E:U:.)\" fr translations \"y\"\n")) = true ∧
    (getList plainOrder (listUslsFs (c!"\"m1(E:U:.)\" fr translations \"y\"\n"))).map (·.length) = .error .keyError :=
  ⟨by decide +kernel, by decide +kernel⟩

/-- The claim for the types: the type of an element is the class of its expression. -/
def TypesRight : Prop := ∀ (o : SetOrder) (fs : FS) (d : Dictionary) (L : List Listed), o.Valid → getDictionary o fs = .ok d → getList o fs = .ok L →
  ∀ e ∈ L, ∀ u, readIn d.base.scripts e.ieml = .ok (u, []) →
    e.type = match u with | .script _ => c!"morpheme" | .pm _ => c!"polymorpheme" | .lexeme _ => c!"lexeme" | .word _ => c!"word"

/-- **C95** is violated by lexemes: they are listed as words. -/
theorem C95_violated_type : ¬ TypesRight := by
  intro h
  obtain ⟨d, rows, hd, _, _, _, hel⟩ := C95_listed_partial listUslsFs_list
  have he : (⟨c!"(E:A:.)(E:U:.)", c!"word", false, c!"Auxiliary", c!"3000000000000000000000000000000", c!"singular_sequence",
      [(c!"comments", [(c!"fr", [c!"z"]), (c!"en", [])])]⟩ : Listed) ∈ listResult := by simp [listResult]
  obtain ⟨⟨u, hu, _⟩, _⟩ := hel _ he
  have h4 := h _ _ d _ plainOrder_valid hd listUslsFs_list _ he u hu
  have h5 : (uslRead (c!"(E:A:.)(E:U:.)")).map (fun r => r.1.kind) = .ok .lexeme := by decide +kernel
  have hu := (readIn_ok.1 hu).1
  dsimp only at hu
  rw [hu] at h5
  injection h5 with h5
  cases u with
  | lexeme x => cases h4
  | script s => cases h5
  | pm p => cases h5
  | word w => cases h5

/-- A key that is not in normal form (`C95_normal`): `AssertionError`. -/
example : (getList plainOrder (listUslsFs (c!"\"E:A:. E:U:.\" fr translations \"y\"\n"))).map (·.length) = .error .assertionError := by decide +kernel

end Verif
