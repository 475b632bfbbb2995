import Verif.Model.UslOrder
import Verif.Lemmas.OrderSingular
import Verif.Lemmas.UslLex
import Verif.Lemmas.WordText
import Verif.Props.PolyMorpheme
import Verif.Props.UslParser
import Verif.Lemmas.Families

/-
Codes of USLs: lists of numbers whose order is that of the USLs, and which are determined by the texts.
-/

namespace Verif
open Script

/-! ### Polymorphemes -/

/-- A polymorpheme made of scripts among which `<` is an order. -/
def OkPM (p : PM) : Prop := ∃ cs gs, p = mkPM cs gs ∧ (∀ x ∈ cs, Orderly x) ∧ ∀ g ∈ gs, ∀ x ∈ g.1, Orderly x

/-- Code of a list of groups. -/
def KGs : List Group → List Nat
  | [] => [0]
  | g :: gs => 1 :: (KG g ++ KGs gs)

theorem KG_pf {g h : Group} (hg : ∀ x ∈ g.1, Good x) (hh : ∀ x ∈ h.1, Good x) {u v : List Nat} :
    KG g ++ u = KG h ++ v ↔ (g.1.map str, g.2) = (h.1.map str, h.2) ∧ u = v := by
  rw [KG, KG, List.append_assoc, List.append_assoc, KT_iff hg hh]
  simp [and_assoc]

theorem KG_lt {g h : Group} (hg : ∀ x ∈ g.1, Good x) (hh : ∀ x ∈ h.1, Good x) (u v : List Nat) :
    ltBytes (KG g ++ u) (KG h ++ v) = if (g.1.map str, g.2) = (h.1.map str, h.2) then ltBytes u v else ltGroup g h := by
  rw [ltBytes_append u v fun u v h' => (KG_iff hg hh).2 ((KG_pf hg hh).1 h').1]
  simp only [KG_iff hg hh, ltGroup_KG hg hh]

/-- What the text of a group says. -/
def groupSays (g : Group) : List Str × Nat := (g.1.map str, g.2)

theorem eqGroup_iff {g h : Group} : eqGroup g h = true ↔ groupSays g = groupSays h := by
  simp [eqGroup, eqTuple, groupSays]

theorem KGs_pf : ∀ {gs hs : List Group} {u v : List Nat}, (∀ g ∈ gs, ∀ x ∈ g.1, Good x) → (∀ g ∈ hs, ∀ x ∈ g.1, Good x) →
    (KGs gs ++ u = KGs hs ++ v ↔ gs.map groupSays = hs.map groupSays ∧ u = v)
  | [], [], u, v, _, _ => by simp [KGs]
  | [], h :: hs, u, v, _, _ => by simp [KGs]
  | g :: gs, [], u, v, _, _ => by simp [KGs]
  | g :: gs, h :: hs, u, v, hg, hh => by
    have ih := KGs_pf (gs := gs) (hs := hs) (u := u) (v := v) (fun z hz => hg z (by simp [hz])) (fun z hz => hh z (by simp [hz]))
    simp only [KGs, List.cons_append, List.append_assoc, List.cons.injEq, true_and, List.map_cons,
      KG_pf (hg g (by simp)) (hh h (by simp)), ih, groupSays, and_assoc]

theorem KGs_lt : ∀ {gs hs : List Group} (u v : List Nat), (∀ g ∈ gs, ∀ x ∈ g.1, Good x) → (∀ g ∈ hs, ∀ x ∈ g.1, Good x) →
    ltBytes (KGs gs ++ u) (KGs hs ++ v) = if gs.map groupSays = hs.map groupSays then ltBytes u v else ltGroups gs hs
  | [], [], u, v, _, _ => by simp [KGs, ltBytes]
  | [], h :: hs, u, v, _, _ => by simp [KGs, ltBytes, ltGroups]
  | g :: gs, [], u, v, _, _ => by simp [KGs, ltBytes, ltGroups]
  | g :: gs, h :: hs, u, v, hg, hh => by
    have ih := KGs_lt (gs := gs) (hs := hs) u v (fun z hz => hg z (by simp [hz])) (fun z hz => hh z (by simp [hz]))
    simp only [KGs, List.cons_append, ltBytes, if_true, List.append_assoc, KG_lt (hg g (by simp)) (hh h (by simp)), ih,
      List.map_cons, List.cons.injEq, ltGroups]
    by_cases e : groupSays g = groupSays h
    · have e' := eqGroup_iff.2 e
      simp only [groupSays] at e
      simp [e, e', groupSays]
    · have e' : eqGroup g h = false := by
        cases hb : eqGroup g h
        · rfl
        · exact absurd (eqGroup_iff.1 hb) e
      have e2 := e
      simp only [groupSays] at e2
      simp [e, e2, e']

/-- What the text of a polymorpheme says. -/
def PM.says (p : PM) : List Str × List (List Str × Nat) :=
  ((p.constant.filter fun m => m.empty = false).map str, p.groups.map groupSays)

/-- Code of a polymorpheme. -/
def codePM (p : PM) : List Nat :=
  (p.constant.filter fun m => m.empty = false).length :: (KT (p.constant.filter fun m => m.empty = false) ++ KGs p.groups)

theorem OkPM.good {p : PM} (h : OkPM p) : (∀ x ∈ p.constant.filter (fun m => m.empty = false), Good x) ∧ ∀ g ∈ p.groups, ∀ x ∈ g.1, Good x := by
  obtain ⟨cs, gs, rfl, hc, hg⟩ := h
  constructor
  · rw [constant_shown]
    intro x hx
    rw [mem_shownC] at hx
    exact (hc x hx.1).good hx.2
  · intro g hg' x hx
    obtain ⟨g', h1, _, h2⟩ := mem_shownG hg'
    have := (h2 x).1 hx
    exact (hg g' h1 x this.1).good this.2

theorem ltTuple_same : ∀ {xs ys : List Script}, xs.map str = ys.map str → ltTuple xs ys = false
  | [], [], _ => rfl
  | [], _ :: _, h => by simp at h
  | _ :: _, [], h => by simp at h
  | x :: xs, y :: ys, h => by
    simp only [List.map_cons, List.cons.injEq] at h
    simp [ltTuple, pyEq, h.1, ltTuple_same h.2]

theorem null_str_ne {x : Script} (h : Good x) : (null 0).str ≠ x.str := by
  intro e
  have := empty_of_str (.null (Nat.zero_le _)) h.wf e
  rw [h.ne] at this
  cases this

theorem null_lt {x : Script} (h : Good x) : lt (null 0) x = true := by
  rw [lt_eq]
  have := null_str_ne h
  by_cases hl : x.layer = 0
  · simp [ltStages, pyEq, this, layer, hl, isNull]
  · have h0 : 0 < x.layer := Nat.pos_of_ne_zero hl
    unfold ltStages
    rw [if_neg (by simpa [pyEq] using this), if_pos (by simpa [layer] using Ne.symm hl)]
    exact decide_eq_true h0

theorem lt_null {x : Script} (h : Good x) : lt x (null 0) = false := by
  rw [lt_eq]
  have := (null_str_ne h).symm
  by_cases hl : x.layer = 0
  · have h1 := isNull_of_ne h.ne
    have h2 : (null 0).isNull = true := rfl
    simp [ltStages, pyEq, this, layer, hl, h1, h2]
  · simp [ltStages, pyEq, this, layer, hl]

/-- The constants of a made polymorpheme: those that are not empty, or the empty script alone. -/
theorem OkPM.constant {p : PM} (h : OkPM p) : p.constant = p.constant.filter (fun m => m.empty = false) ∧ p.constant ≠ [] ∨
    p.constant = [null 0] ∧ p.constant.filter (fun m => m.empty = false) = [] := by
  obtain ⟨cs, gs, rfl, hc, hg⟩ := h
  rw [constant_shown]
  rcases constant_cases cs gs with h | h
  · refine .inl ⟨h.1, ?_⟩
    have e2 : (mkPM cs gs).constant = if (shownC cs).isEmpty then [.null 0] else shownC cs := rfl
    rw [e2]
    split
    · simp
    · next h => simpa using h
  · exact .inr h

theorem lt_shown {p q : PM} (hp : OkPM p) (hq : OkPM q) : p.lt q =
    (let C := p.constant.filter fun m => m.empty = false
     let D := q.constant.filter fun m => m.empty = false
     if C.length < D.length then true else if D.length < C.length then false
     else if C.map str = D.map str then ltGroups p.groups q.groups else ltTuple C D) := by
  have gp := hp.good.1
  have gq := hq.good.1
  dsimp only
  rcases hp.constant with ⟨h1, h1'⟩ | ⟨h1, h1'⟩ <;> rcases hq.constant with ⟨h2, h2'⟩ | ⟨h2, h2'⟩
  · rw [← h1, ← h2]
    unfold PM.lt eqTuple
    by_cases e : p.constant.map str = q.constant.map str
    · have el : p.constant.length = q.constant.length := by simpa using congrArg List.length e
      simp [e, el, ltTuple_same e]
    · rcases Nat.lt_trichotomy p.constant.length q.constant.length with hl | hl | hl
      · simp [hl]
      · simp [hl, e]
      · have : ¬ p.constant.length < q.constant.length := by omega
        have h3 : ¬ p.constant.length = q.constant.length := by omega
        simp [hl, this, h3, e]
  · rw [← h1, h2', PM.lt, h2]
    rw [← h1] at gp
    cases hc : p.constant with
    | nil => exact absurd hc h1'
    | cons x xs =>
      have gx := gp x (by rw [hc]; simp)
      have := (null_str_ne gx).symm
      simp [ltTuple, pyEq, this, lt_null gx, eqTuple]
  · rw [← h2, h1', PM.lt, h1]
    rw [← h2] at gq
    cases hc : q.constant with
    | nil => exact absurd hc h2'
    | cons x xs =>
      have gx := gq x (by rw [hc]; simp)
      have := null_str_ne gx
      cases xs <;> simp [ltTuple, pyEq, this, null_lt gx]
  · rw [h1', h2', PM.lt, h1, h2]
    simp [ltTuple, pyEq, eqTuple]

theorem codePM_pf {p q : PM} (hp : OkPM p) (hq : OkPM q) {u v : List Nat} : codePM p ++ u = codePM q ++ v ↔ p.says = q.says ∧ u = v := by
  unfold codePM PM.says
  rw [List.cons_append, List.cons_append, List.cons.injEq, List.append_assoc, List.append_assoc, KT_iff hp.good.1 hq.good.1,
    KGs_pf hp.good.2 hq.good.2, Prod.mk.injEq, and_assoc]
  constructor
  · rintro ⟨_, h⟩
    exact h
  · intro h
    exact ⟨by simpa using congrArg List.length h.1, h⟩

theorem codePM_lt {p q : PM} (hp : OkPM p) (hq : OkPM q) (u v : List Nat) :
    ltBytes (codePM p ++ u) (codePM q ++ v) = if p.says = q.says then ltBytes u v else p.lt q := by
  rw [lt_shown hp hq]
  have g1 := hp.good.1
  have g2 := hq.good.1
  unfold codePM PM.says
  generalize p.constant.filter (fun m => decide (m.empty = false)) = C at g1 ⊢
  generalize q.constant.filter (fun m => decide (m.empty = false)) = D at g2 ⊢
  dsimp only
  rw [List.cons_append, List.cons_append, List.append_assoc, List.append_assoc, ltBytes, KT_lt _ _ g1 g2,
    KGs_lt _ _ hp.good.2 hq.good.2]
  by_cases e : C.map str = D.map str
  · have el : C.length = D.length := by simpa using congrArg List.length e
    simp [e, el]
  · rcases Nat.lt_trichotomy C.length D.length with hl | hl | hl
    · simp [hl, e, Nat.ne_of_lt hl]
    · simp [hl, e]
    · simp [hl, e, Nat.ne_of_gt hl, Nat.lt_asymm hl]

/-! ### Texts of polymorphemes -/

/-- Texts are split at the first mark. -/
theorem split_marks {P : Char → Prop} : ∀ {b b' x y : Str} {c d : Char}, (∀ a ∈ b, ¬ P a) → (∀ a ∈ b', ¬ P a) → P c → P d →
    b ++ c :: x = b' ++ d :: y → b = b' ∧ c = d ∧ x = y
  | [], [], x, y, c, d, _, _, _, _, h => by simp at h; exact ⟨rfl, h⟩
  | [], e :: b', x, y, c, d, _, h2, hc, _, h => by
    simp at h
    exact absurd hc (h.1 ▸ h2 e (by simp))
  | e :: b, [], x, y, c, d, h1, _, _, hd, h => by
    simp at h
    exact absurd hd (h.1 ▸ h1 e (by simp))
  | e :: b, e' :: b', x, y, c, d, h1, h2, hc, hd, h => by
    simp only [List.cons_append, List.cons.injEq] at h
    obtain ⟨e1, e2⟩ := split_marks (P := P) (fun a ha => h1 a (by simp [ha])) (fun a ha => h2 a (by simp [ha])) hc hd h.2
    exact ⟨by rw [h.1, e1], e2⟩

/-- A word of a text: no space, no parenthesis. -/
def PlainWord (s : Str) : Prop := s ≠ [] ∧ ' ' ∉ s ∧ '(' ∉ s ∧ ')' ∉ s

theorem plainWord_str {x : Script} (h : WF x) : PlainWord x.str := by
  have := str_termChar h
  refine ⟨str_ne_nil h, fun hc => ?_, fun hc => ?_, fun hc => ?_⟩
  all_goals
    have := this _ hc
    revert this
    decide

theorem plainWord_mult (n : Nat) : PlainWord ('m' :: decimal n) := by
  have h := decimal_digits n
  refine ⟨by simp, fun hc => ?_, fun hc => ?_, fun hc => ?_⟩
  all_goals
    rcases List.mem_cons.1 hc with hc | hc
    · exact absurd hc (by decide)
    · have := h _ hc
      revert this
      decide

theorem joinSpace_noparen {l : List Str} (h : ∀ s ∈ l, PlainWord s) : ∀ a ∈ joinSpace l, ¬ (a = '(' ∨ a = ')') := by
  induction l with
  | nil => simp [joinSpace]
  | cons s l ih =>
    intro a ha
    rw [joinSpace_cons] at ha
    have hs := h s (by simp)
    have : a ∈ s ∨ a = ' ' ∨ a ∈ joinSpace l := by
      split at ha
      · exact .inl ha
      · simpa using ha
    rcases this with hm | rfl | hm
    · rintro (rfl | rfl)
      · exact hs.2.2.1 hm
      · exact hs.2.2.2 hm
    · decide
    · exact ih (fun s hs => h s (by simp [hs])) a hm

theorem joinSpace_append_cons (l : List Str) (s t : Str) (m : List Str) :
    joinSpace (l ++ (s ++ t) :: m) = joinSpace (l ++ [s]) ++ (t ++ if m = [] then [] else ' ' :: joinSpace m) := by
  induction l with
  | nil =>
    simp only [List.nil_append, joinSpace_cons]
    by_cases h : m = [] <;> simp [h]
  | cons a l ih =>
    rw [List.cons_append, List.cons_append, joinSpace_cons, joinSpace_cons, ih]
    simp

theorem words_inj {a b : List Str} (ha : ∀ s ∈ a, PlainWord s) (hb : ∀ s ∈ b, PlainWord s) (h : joinSpace a = joinSpace b) : a = b :=
  joinSpace_inj (fun s hs => ⟨(ha s hs).1, (ha s hs).2.1⟩) (fun s hs => ⟨(hb s hs).1, (hb s hs).2.1⟩) h

theorem groupText_mark (g : Group) : groupText g = ('m' :: decimal g.2) ++ ('(' :: (joinSpace (g.1.map str) ++ [')'])) := by
  simp [groupText]

theorem decimal_inj {n m : Nat} (h : decimal n = decimal m) : n = m := by
  rw [← natOf_decimal n, h, natOf_decimal]

/-- The words and groups of a polymorpheme can be read off its text, which is followed by `)`. -/
theorem pmText_inj : ∀ {gs hs : List Group} {C D : List Str} {u v : Str}, (∀ s ∈ C, PlainWord s) → (∀ s ∈ D, PlainWord s) →
    (∀ g ∈ gs, ∀ x ∈ g.1, WF x) → (∀ g ∈ hs, ∀ x ∈ g.1, WF x) →
    joinSpace (C ++ gs.map groupText) ++ ')' :: u = joinSpace (D ++ hs.map groupText) ++ ')' :: v →
    C = D ∧ gs.map groupSays = hs.map groupSays ∧ u = v
  | [], [], C, D, u, v, hC, hD, _, _, h => by
    simp only [List.map_nil, List.append_nil] at h
    obtain ⟨h1, _, h2⟩ := split_marks (P := fun a => a = '(' ∨ a = ')') (joinSpace_noparen hC) (joinSpace_noparen hD) (.inr rfl) (.inr rfl) h
    exact ⟨words_inj hC hD h1, rfl, h2⟩
  | [], g :: hs, C, D, u, v, hC, hD, _, _, h => by
    exfalso
    have hD' : ∀ s ∈ D ++ ['m' :: decimal g.2], PlainWord s := by
      intro s hs
      rcases List.mem_append.1 hs with hs | hs
      · exact hD s hs
      · rw [List.mem_singleton.1 hs]
        exact plainWord_mult _
    rw [List.map_cons, groupText_mark, joinSpace_append_cons, List.append_assoc, List.append_assoc, List.cons_append] at h
    simp only [List.map_nil, List.append_nil] at h
    have := (split_marks (P := fun a => a = '(' ∨ a = ')') (joinSpace_noparen hC) (joinSpace_noparen hD') (.inr rfl) (.inl rfl) h).2.1
    exact absurd this (by decide)
  | g :: gs, [], C, D, u, v, hC, hD, _, _, h => by
    exfalso
    have hC' : ∀ s ∈ C ++ ['m' :: decimal g.2], PlainWord s := by
      intro s hs
      rcases List.mem_append.1 hs with hs | hs
      · exact hC s hs
      · rw [List.mem_singleton.1 hs]
        exact plainWord_mult _
    rw [List.map_cons, groupText_mark, joinSpace_append_cons, List.append_assoc, List.append_assoc, List.cons_append] at h
    simp only [List.map_nil, List.append_nil] at h
    have := (split_marks (P := fun a => a = '(' ∨ a = ')') (joinSpace_noparen hC') (joinSpace_noparen hD) (.inl rfl) (.inr rfl) h).2.1
    exact absurd this (by decide)
  | g :: gs, g' :: hs, C, D, u, v, hC, hD, hg, hh, h => by
    have hx : ∀ (E : List Str) (k : Group), (∀ s ∈ E, PlainWord s) → ∀ s ∈ E ++ ['m' :: decimal k.2], PlainWord s := by
      intro E k hE s hs
      rcases List.mem_append.1 hs with hs | hs
      · exact hE s hs
      · rw [List.mem_singleton.1 hs]
        exact plainWord_mult _
    rw [List.map_cons, List.map_cons, groupText_mark, groupText_mark, joinSpace_append_cons, joinSpace_append_cons, List.append_assoc, List.append_assoc,
      List.append_assoc, List.append_assoc, List.cons_append, List.cons_append] at h
    obtain ⟨h1, _, h2⟩ := split_marks (P := fun a => a = '(' ∨ a = ')') (joinSpace_noparen (hx C g hC)) (joinSpace_noparen (hx D g' hD)) (.inl rfl) (.inl rfl) h
    have h3 := words_inj (hx C g hC) (hx D g' hD) h1
    obtain ⟨h4, h5⟩ := List.append_inj' h3 rfl
    simp only [List.cons.injEq, true_and, and_true] at h5
    have hw : ∀ k : Group, (∀ x ∈ k.1, WF x) → ∀ s ∈ k.1.map str, PlainWord s := by
      intro k hk s hs
      obtain ⟨x, hx, rfl⟩ := List.mem_map.1 hs
      exact plainWord_str (hk x hx)
    have w1 := hw g (hg g (by simp))
    have w2 := hw g' (hh g' (by simp))
    rw [List.append_assoc, List.append_assoc, List.singleton_append, List.singleton_append] at h2
    obtain ⟨h6, _, h7⟩ := split_marks (P := fun a => a = '(' ∨ a = ')') (joinSpace_noparen w1) (joinSpace_noparen w2) (.inr rfl) (.inr rfl) h2
    have h8 := words_inj w1 w2 h6
    have h9 : gs.map groupSays = hs.map groupSays ∧ u = v := by
      by_cases e1 : gs.map groupText = []
      · by_cases e2 : hs.map groupText = []
        · rw [if_pos e1, if_pos e2] at h7
          simp only [List.map_eq_nil_iff] at e1 e2
          simp only [List.nil_append, List.cons.injEq, true_and] at h7
          exact ⟨by rw [e1, e2], h7⟩
        · rw [if_pos e1, if_neg e2] at h7
          simp at h7
      · by_cases e2 : hs.map groupText = []
        · rw [if_neg e1, if_pos e2] at h7
          simp at h7
        · rw [if_neg e1, if_neg e2] at h7
          simp only [List.cons_append, List.cons.injEq, true_and] at h7
          have := pmText_inj (gs := gs) (hs := hs) (C := []) (D := []) (u := u) (v := v) (by simp) (by simp)
            (fun k hk => hg k (by simp [hk])) (fun k hk => hh k (by simp [hk])) h7
          exact this.2
    refine ⟨h4, ?_, h9.2⟩
    rw [List.map_cons, List.map_cons, h9.1, groupSays, groupSays, h8, decimal_inj h5]

theorem OkPM.text {p : PM} (h : OkPM p) :
    p.text = joinSpace ((p.constant.filter fun m => m.empty = false).map str ++ p.groups.map groupText) := by
  obtain ⟨cs, gs, rfl, _, _⟩ := h
  rw [constant_shown]
  rfl

theorem groupText_of_says {gs hs : List Group} (h : gs.map groupSays = hs.map groupSays) : gs.map groupText = hs.map groupText := by
  have e : ∀ l : List Group, l.map groupText = (l.map groupSays).map fun g => c!"m" ++ decimal g.2 ++ c!"(" ++ joinSpace g.1 ++ c!")" := by
    intro l
    rw [List.map_map]
    rfl
  rw [e, e, h]

/-- The text of a polymorpheme followed by `)` determines it. -/
theorem textPM_pf {p q : PM} (hp : OkPM p) (hq : OkPM q) {u v : Str} : p.text ++ ')' :: u = q.text ++ ')' :: v ↔ p.says = q.says ∧ u = v := by
  have gp := hp.good
  have gq := hq.good
  rw [hp.text, hq.text]
  have hw : ∀ l : List Script, (∀ x ∈ l, Good x) → ∀ s ∈ l.map str, PlainWord s := by
    intro l hl s hs
    obtain ⟨x, hx, rfl⟩ := List.mem_map.1 hs
    exact plainWord_str (hl x hx).wf
  constructor
  · intro h
    obtain ⟨h1, h2, h3⟩ := pmText_inj (hw _ gp.1) (hw _ gq.1) (fun g hg x hx => (gp.2 g hg x hx).wf) (fun g hg x hx => (gq.2 g hg x hx).wf) h
    exact ⟨by rw [PM.says, PM.says, h1, h2], h3⟩
  · rintro ⟨h, rfl⟩
    rw [PM.says, PM.says, Prod.mk.injEq] at h
    rw [h.1, groupText_of_says h.2]

theorem textPM_iff {p q : PM} (hp : OkPM p) (hq : OkPM q) : p.text = q.text ↔ p.says = q.says := by
  have h := textPM_pf hp hq (u := []) (v := [])
  rw [and_iff_left rfl] at h
  rw [← h]
  simp

/-! ### Lexemes -/

/-- A lexeme made of such polymorphemes. -/
def OkLex (x : Lexeme) : Prop := ∃ f c, x = mkLexeme f c ∧ OkPM f ∧ OkPM c

/-- Code of a lexeme. -/
def codeLex (x : Lexeme) : List Nat := codePM x.flexion ++ codePM x.content

theorem ltGroups_same : ∀ {gs hs : List Group}, gs.map groupSays = hs.map groupSays → ltGroups gs hs = false
  | [], [], _ => rfl
  | [], _ :: _, h => by simp at h
  | _ :: _, [], h => by simp at h
  | g :: gs, k :: hs, h => by
    simp only [List.map_cons, List.cons.injEq] at h
    rw [ltGroups, eqGroup_iff.2 h.1, if_pos rfl, ltGroups_same h.2]

theorem ltPM_same {p q : PM} (hp : OkPM p) (hq : OkPM q) (h : p.says = q.says) : p.lt q = false := by
  rw [lt_shown hp hq]
  rw [PM.says, PM.says, Prod.mk.injEq] at h
  have el := congrArg List.length h.1
  rw [List.length_map, List.length_map] at el
  dsimp only
  rw [if_neg (by omega), if_neg (by omega), if_pos h.1, ltGroups_same h.2]

theorem codeLex_pf {x y : Lexeme} (hx : OkLex x) (hy : OkLex y) {u v : List Nat} :
    codeLex x ++ u = codeLex y ++ v ↔ (x.flexion.says = y.flexion.says ∧ x.content.says = y.content.says) ∧ u = v := by
  obtain ⟨f, c, rfl, hf, hc⟩ := hx
  obtain ⟨f', c', rfl, hf', hc'⟩ := hy
  change (codePM f ++ codePM c) ++ u = (codePM f' ++ codePM c') ++ v ↔ (f.says = f'.says ∧ c.says = c'.says) ∧ u = v
  rw [List.append_assoc, List.append_assoc, codePM_pf hf hf', codePM_pf hc hc', and_assoc]

theorem codeLex_lt {x y : Lexeme} (hx : OkLex x) (hy : OkLex y) (u v : List Nat) :
    ltBytes (codeLex x ++ u) (codeLex y ++ v) =
      if x.flexion.says = y.flexion.says ∧ x.content.says = y.content.says then ltBytes u v else x.lt y := by
  obtain ⟨f, c, rfl, hf, hc⟩ := hx
  obtain ⟨f', c', rfl, hf', hc'⟩ := hy
  change ltBytes ((codePM f ++ codePM c) ++ u) ((codePM f' ++ codePM c') ++ v) = _
  rw [List.append_assoc, List.append_assoc, codePM_lt hf hf', codePM_lt hc hc']
  change (if f.says = f'.says then if c.says = c'.says then _ else c.lt c' else f.lt f') =
    if f.says = f'.says ∧ c.says = c'.says then _ else f.lt f' || f.text == f'.text && c.lt c'
  by_cases e1 : f.says = f'.says
  · by_cases e2 : c.says = c'.says
    · simp [e1, e2]
    · simp [e1, e2, ltPM_same hf hf' e1, (textPM_iff hf hf').2 e1]
  · have : f.text ≠ f'.text := fun h => e1 ((textPM_iff hf hf').1 h)
    simp [e1, this]

theorem emptyPM_iff {p : PM} (h : OkPM p) : p.empty = true ↔ p.says = ([], []) := by
  rw [PM.says, Prod.mk.injEq, List.map_eq_nil_iff, List.map_eq_nil_iff, PM.empty]
  rcases h.constant with ⟨h1, h2⟩ | ⟨h1, h2⟩
  · rw [← h1]
    constructor
    · intro hh
      cases hc : p.constant with
      | nil => exact absurd hc h2
      | cons x xs =>
        rw [hc] at hh
        have : x ∈ p.constant := by rw [hc]; simp
        rw [h1] at this
        have := (List.mem_filter.1 this).2
        simp only [decide_eq_true_eq] at this
        simp [this] at hh
    · rintro ⟨hh, _⟩
      exact absurd hh h2
  · rw [h2, h1]
    simp [empty]

theorem emptyPM_text {p : PM} (h : OkPM p) (he : p.empty = true) : p.text = [] := by
  have h1 := (emptyPM_iff h).1 he
  rw [PM.says, Prod.mk.injEq, List.map_eq_nil_iff, List.map_eq_nil_iff] at h1
  rw [h.text, h1.1, h1.2]
  rfl

theorem lexeme_shape {f c : PM} (hf : OkPM f) : lexemeText f c =
    '(' :: (f.text ++ ')' :: if c.empty then [] else '(' :: (c.text ++ [')'])) := by
  unfold lexemeText
  dsimp only
  split
  · split
    · next h => rw [emptyPM_text hf h]; rfl
    · simp
  · simp

/-- A text that does not begin with an opening parenthesis. -/
def NoOpen (u : Str) : Prop := ∀ r, u ≠ '(' :: r

/-- The text of a lexeme determines it. -/
theorem textLex_pf {x y : Lexeme} (hx : OkLex x) (hy : OkLex y) {u v : Str} (hu : NoOpen u) (hv : NoOpen v) :
    x.text ++ u = y.text ++ v ↔ (x.flexion.says = y.flexion.says ∧ x.content.says = y.content.says) ∧ u = v := by
  obtain ⟨f, c, rfl, hf, hc⟩ := hx
  obtain ⟨f', c', rfl, hf', hc'⟩ := hy
  change lexemeText f c ++ u = lexemeText f' c' ++ v ↔ (f.says = f'.says ∧ c.says = c'.says) ∧ u = v
  rw [lexeme_shape hf, lexeme_shape hf']
  simp only [List.cons_append, List.append_assoc, List.cons.injEq, true_and]
  rw [textPM_pf hf hf', and_assoc]
  refine and_congr_right fun _ => ?_
  by_cases e1 : c.empty = true <;> by_cases e2 : c'.empty = true
  · rw [if_pos e1, if_pos e2, (emptyPM_iff hc).1 e1, (emptyPM_iff hc').1 e2]
    simp
  · rw [if_pos e1, if_neg e2]
    constructor
    · intro h
      exact absurd h (hu _)
    · rintro ⟨h, _⟩
      rw [(emptyPM_iff hc).1 e1] at h
      exact absurd ((emptyPM_iff hc').2 h.symm) e2
  · rw [if_neg e1, if_pos e2]
    constructor
    · intro h
      exact absurd h.symm (hv _)
    · rintro ⟨h, _⟩
      rw [(emptyPM_iff hc').1 e2] at h
      exact absurd ((emptyPM_iff hc).2 h) e1
  · rw [if_neg e1, if_neg e2]
    simp only [List.cons_append, List.append_assoc, List.cons.injEq, true_and]
    exact textPM_pf hc hc'

theorem textLex_iff {x y : Lexeme} (hx : OkLex x) (hy : OkLex y) :
    x.text = y.text ↔ x.flexion.says = y.flexion.says ∧ x.content.says = y.content.says := by
  have h := textLex_pf hx hy (u := []) (v := []) (by intro r; simp) (by intro r; simp)
  simpa using h

theorem codeLex_lt' {x y : Lexeme} (hx : OkLex x) (hy : OkLex y) (u v : List Nat) :
    ltBytes (codeLex x ++ u) (codeLex y ++ v) = if x.text = y.text then ltBytes u v else x.lt y := by
  rw [codeLex_lt hx hy]
  simp only [textLex_iff hx hy]

theorem codeLex_pf' {x y : Lexeme} (hx : OkLex x) (hy : OkLex y) {u v : List Nat} :
    codeLex x ++ u = codeLex y ++ v ↔ x.text = y.text ∧ u = v := by
  rw [codeLex_pf hx hy, textLex_iff hx hy]

/-! ### Roles -/

/-- Code of a role. -/
def codeAddr : Addr → List Nat
  | [] => [0]
  | a :: as => (addressScripts.idxOf a + 1) :: codeAddr as

theorem codeAddr_pf : ∀ {a b : Addr} {u v : List Nat}, (∀ x ∈ a, x ∈ addressScripts) → (∀ x ∈ b, x ∈ addressScripts) →
    (codeAddr a ++ u = codeAddr b ++ v ↔ a = b ∧ u = v)
  | [], [], u, v, _, _ => by simp [codeAddr]
  | [], y :: b, u, v, _, _ => by simp [codeAddr]
  | x :: a, [], u, v, _, _ => by simp [codeAddr]
  | x :: a, y :: b, u, v, ha, hb => by
    have ih := codeAddr_pf (a := a) (b := b) (u := u) (v := v) (fun z hz => ha z (by simp [hz])) (fun z hz => hb z (by simp [hz]))
    rw [codeAddr, codeAddr, List.cons_append, List.cons_append, List.cons.injEq, ih, List.cons.injEq, Nat.add_right_cancel_iff,
      List.idxOf_inj (ha x (by simp)), and_assoc]

theorem codeAddr_lt : ∀ {a b : Addr} (u v : List Nat), (∀ x ∈ a, x ∈ addressScripts) → (∀ x ∈ b, x ∈ addressScripts) →
    ltBytes (codeAddr a ++ u) (codeAddr b ++ v) = if a = b then ltBytes u v else addrLt a b
  | [], [], u, v, _, _ => by simp [codeAddr, ltBytes]
  | [], y :: b, u, v, _, _ => by simp [codeAddr, ltBytes, addrLt, ltNats]
  | x :: a, [], u, v, _, _ => by simp [codeAddr, ltBytes, addrLt, ltNats]
  | x :: a, y :: b, u, v, ha, hb => by
    have ih := codeAddr_lt (a := a) (b := b) u v (fun z hz => ha z (by simp [hz])) (fun z hz => hb z (by simp [hz]))
    rw [codeAddr, codeAddr, List.cons_append, List.cons_append, ltBytes, ih]
    simp only [Nat.add_right_cancel_iff, List.idxOf_inj (ha x (by simp)), List.cons.injEq, addrLt, List.map_cons, ltNats]
    by_cases e : x = y
    · simp [e]
    · simp [e]

theorem roleText_same {a b : Addr} (ha : ∀ x ∈ a, x ∈ addressScripts) (hb : ∀ x ∈ b, x ∈ addressScripts) : roleText a = roleText b ↔ a = b := by
  constructor
  · intro h
    have : ∀ x ∈ addressScripts, x ≠ [] ∧ ' ' ∉ x := by decide +kernel
    exact joinSpace_inj (fun x hx => this x (ha x hx)) (fun x hx => this x (hb x hx)) h
  · rintro rfl
    rfl

/-! ### Lists of roles and lexemes -/

/-- An entry with an address and a lexeme. -/
def OkEntry (e : RoleEntry Lexeme) : Prop := (∀ x ∈ e.1, x ∈ addressScripts) ∧ ∃ x, e.2 = some x ∧ OkLex x

/-- What the text of an entry says. -/
def entrySays (e : RoleEntry Lexeme) : Addr × Option Str := (e.1, e.2.map Lexeme.text)

/-- Code of a list of entries. -/
def codeEs : List (RoleEntry Lexeme) → List Nat
  | [] => [0]
  | (a, none) :: es => 1 :: (codeAddr a ++ codeEs es)
  | (a, some x) :: es => 1 :: (codeAddr a ++ (codeLex x ++ codeEs es))

theorem eqEntry_iff {e f : RoleEntry Lexeme} (he : OkEntry e) (hf : OkEntry f) : eqEntry e f = true ↔ entrySays e = entrySays f := by
  obtain ⟨a, o⟩ := e
  obtain ⟨b, o'⟩ := f
  obtain ⟨ha, x, rfl, hx⟩ := he
  obtain ⟨hb, y, rfl, hy⟩ := hf
  simp [eqEntry, entrySays, eqActor, roleText_same ha hb]

theorem codeEs_pf : ∀ {l m : List (RoleEntry Lexeme)} {u v : List Nat}, (∀ e ∈ l, OkEntry e) → (∀ e ∈ m, OkEntry e) →
    (codeEs l ++ u = codeEs m ++ v ↔ l.map entrySays = m.map entrySays ∧ u = v)
  | [], [], u, v, _, _ => by simp [codeEs]
  | [], (a, o) :: m, u, v, _, _ => by cases o <;> simp [codeEs]
  | (a, o) :: l, [], u, v, _, _ => by cases o <;> simp [codeEs]
  | (a, o) :: l, (b, o') :: m, u, v, hl, hm => by
    have ih := codeEs_pf (l := l) (m := m) (u := u) (v := v) (fun z hz => hl z (by simp [hz])) (fun z hz => hm z (by simp [hz]))
    obtain ⟨ha, x, rfl, hx⟩ := hl (a, o) (by simp)
    obtain ⟨hb, y, h, hy⟩ := hm (b, o') (by simp)
    cases h
    simp only [codeEs, List.cons_append, List.append_assoc, List.cons.injEq, true_and, codeAddr_pf ha hb, codeLex_pf' hx hy, ih,
      List.map_cons, entrySays, Prod.mk.injEq, Option.map_some, Option.some.injEq, and_assoc]

theorem codeEs_lt : ∀ {l m : List (RoleEntry Lexeme)} (u v : List Nat), (∀ e ∈ l, OkEntry e) → (∀ e ∈ m, OkEntry e) →
    (if l.map entrySays = m.map entrySays then Except.ok (ltBytes u v) else ltEntries l m) = (.ok (ltBytes (codeEs l ++ u) (codeEs m ++ v)) : Except Err Bool)
  | [], [], u, v, _, _ => by simp [codeEs, ltBytes]
  | [], (a, o) :: m, u, v, _, _ => by cases o <;> simp [codeEs, ltBytes, ltEntries]
  | (a, o) :: l, [], u, v, _, _ => by cases o <;> simp [codeEs, ltBytes, ltEntries]
  | (a, o) :: l, (b, o') :: m, u, v, hl, hm => by
    have ih := codeEs_lt (l := l) (m := m) u v (fun z hz => hl z (by simp [hz])) (fun z hz => hm z (by simp [hz]))
    have he := hl (a, o) (by simp)
    have hf := hm (b, o') (by simp)
    have hi := eqEntry_iff he hf
    obtain ⟨ha, x, rfl, hx⟩ := he
    obtain ⟨hb, y, h, hy⟩ := hf
    cases h
    simp only [codeEs, List.cons_append, ltBytes, if_true, List.append_assoc, codeAddr_lt _ _ ha hb, codeLex_lt' hx hy]
    simp only [List.map_cons, ltEntries, List.cons.injEq]
    by_cases e : entrySays (a, some x) = entrySays (b, some y)
    · rw [hi.2 e]
      simp only [e, true_and, if_true]
      rw [ih]
      simp only [entrySays, Prod.mk.injEq, Option.map_some, Option.some.injEq] at e
      simp [e.1, e.2]
    · have : eqEntry (a, some x) (b, some y) = false := by
        cases hb : eqEntry (a, some x) (b, some y)
        · rfl
        · exact absurd (hi.1 hb) e
      rw [this]
      simp only [e, false_and, if_false, Bool.false_eq_true, ltEntry]
      simp only [entrySays, Prod.mk.injEq, Option.map_some, Option.some.injEq, not_and] at e
      by_cases e1 : a = b
      · subst e1
        simp [e rfl, ltActor]
      · have : roleText a ≠ roleText b := fun h => e1 ((roleText_same ha hb).1 h)
        simp [e1, this]

theorem ltEntries_same : ∀ {l m : List (RoleEntry Lexeme)}, (∀ e ∈ l, OkEntry e) → (∀ e ∈ m, OkEntry e) → l.map entrySays = m.map entrySays →
    ltEntries l m = .ok false ∧ eqEntries l m = true
  | [], [], _, _, _ => ⟨rfl, rfl⟩
  | [], _ :: _, _, _, h => by simp at h
  | _ :: _, [], _, _, h => by simp at h
  | e :: l, f :: m, hl, hm, h => by
    simp only [List.map_cons, List.cons.injEq] at h
    have := ltEntries_same (l := l) (m := m) (fun z hz => hl z (by simp [hz])) (fun z hz => hm z (by simp [hz])) h.2
    rw [ltEntries, eqEntries, (eqEntry_iff (hl e (by simp)) (hm f (by simp))).2 h.1]
    simpa using this

theorem eqEntries_same : ∀ {l m : List (RoleEntry Lexeme)}, (∀ e ∈ l, OkEntry e) → (∀ e ∈ m, OkEntry e) → eqEntries l m = true →
    l.map entrySays = m.map entrySays
  | [], [], _, _, _ => rfl
  | [], _ :: _, _, _, h => by cases h
  | _ :: _, [], _, _, h => by cases h
  | e :: l, f :: m, hl, hm, h => by
    rw [eqEntries, Bool.and_eq_true] at h
    rw [List.map_cons, List.map_cons, (eqEntry_iff (hl e (by simp)) (hm f (by simp))).1 h.1,
      eqEntries_same (l := l) (m := m) (fun z hz => hl z (by simp [hz])) (fun z hz => hm z (by simp [hz])) h.2]

/-- `<` of words whose roles all hold lexemes. -/
theorem ltWord {w v : WordUsl} (hw : ∀ e ∈ w.sfun.sorted, OkEntry e) (hv : ∀ e ∈ v.sfun.sorted, OkEntry e)
    (rw' : ∀ x ∈ w.role, x ∈ addressScripts) (rv : ∀ x ∈ v.role, x ∈ addressScripts) :
    w.lt v = .ok (ltBytes (codeEs w.sfun.sorted ++ codeAddr w.role) (codeEs v.sfun.sorted ++ codeAddr v.role)) := by
  rw [← codeEs_lt _ _ hw hv, WordUsl.lt]
  have ha : ltBytes (codeAddr w.role) (codeAddr v.role) = addrLt w.role v.role := by
    have := codeAddr_lt [] [] rw' rv
    rw [List.append_nil, List.append_nil] at this
    rw [this]
    split
    · next h =>
      rw [h, addrLt, ltNats_eq, ltBytes_irrefl, ltBytes_irrefl]
    · rfl
  by_cases h : w.sfun.sorted.map entrySays = v.sfun.sorted.map entrySays
  · obtain ⟨h1, h2⟩ := ltEntries_same hw hv h
    rw [if_pos h, h1, h2, ha]
    simp [bind, Except.bind, pure, Except.pure]
  · have h2 : eqEntries w.sfun.sorted v.sfun.sorted = false := by
      cases hb : eqEntries w.sfun.sorted v.sfun.sorted
      · rfl
      · exact absurd (eqEntries_same hw hv hb) h
    rw [if_neg h, h2]
    have := codeEs_lt [] [] hw hv
    rw [if_neg h] at this
    rw [this]
    simp only [bind, Except.bind, pure, Except.pure, Bool.false_and]
    cases ltBytes (codeEs w.sfun.sorted ++ []) (codeEs v.sfun.sorted ++ []) <;> rfl

end Verif
