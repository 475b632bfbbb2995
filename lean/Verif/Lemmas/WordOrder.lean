import Verif.Lemmas.UslOrder
import Verif.Props.WordParser

/-
The text of a word without junctions determines its roles, its lexemes and its role.
-/

namespace Verif
open Script

/-- Texts without spaces can be read off their joined text, if there is one at least. -/
theorem joinSpace_inj_ne : ∀ {a b : List Str}, a ≠ [] → b ≠ [] → (∀ s ∈ a, ' ' ∉ s) → (∀ s ∈ b, ' ' ∉ s) → joinSpace a = joinSpace b → a = b
  | [], _, h, _, _, _, _ => absurd rfl h
  | _ :: _, [], _, h, _, _, _ => absurd rfl h
  | s :: l, s' :: l', _, _, ha, hb, h => by
    rw [joinSpace_cons, joinSpace_cons] at h
    have h1 := ha s (by simp)
    have h2 := hb s' (by simp)
    split at h <;> split at h
    · rename_i e1 e2; rw [h, e1, e2]
    · exact absurd (by rw [h]; simp) h1
    · exact absurd (by rw [← h]; simp) h2
    · rename_i n1 n2
      obtain ⟨e1, e2⟩ := split_at_mark h1 h2 h
      rw [e1, joinSpace_inj_ne n1 n2 (fun t ht => ha t (by simp [ht])) (fun t ht => hb t (by simp [ht])) e2]

/-- The texts of an item before the lexeme, each followed by a space. -/
def padded (t : SType) (a : Addr) : List Str :=
  match t.pre with
  | [] => a
  | p :: _ => p :: (if a = [] then [[]] else a)

/-- The addresses of the items of a function. -/
def Addressed (t : SType) (a : Addr) : Prop :=
  (∀ x ∈ a, x ∈ addressScripts) ∧ (t = .process → ∃ h r, a = h :: r ∧ h ∈ valenceScripts ++ actantScripts)

theorem address_word : ∀ x ∈ addressScripts, x ≠ [] ∧ ' ' ∉ x ∧ '(' ∉ x ∧ '!' ∉ x := by decide +kernel

theorem padded_ne {t : SType} {a : Addr} (h : Addressed t a) : padded t a ≠ [] := by
  cases t with
  | process =>
    obtain ⟨x, r, rfl, _⟩ := h.2 rfl
    simp [padded, SType.pre]
  | dependant => simp [padded, SType.pre]
  | independant => simp [padded, SType.pre]

theorem padded_char {t : SType} {a : Addr} (h : Addressed t a) : ∀ s ∈ padded t a, ' ' ∉ s ∧ '(' ∉ s ∧ '!' ∉ s := by
  have key : ∀ p ∈ addressScripts, ∀ s ∈ p :: (if a = [] then [[]] else a), ' ' ∉ s ∧ '(' ∉ s ∧ '!' ∉ s := by
    intro p hp s hs
    rcases List.mem_cons.1 hs with rfl | hs
    · exact (address_word s hp).2
    · split at hs
      · rw [List.mem_singleton.1 hs]
        simp
      · exact (address_word s (h.1 s hs)).2
  cases t with
  | process => exact fun s hs => (address_word s (h.1 s hs)).2
  | dependant => exact key _ (pre_address .dependant _ (by simp [SType.pre]))
  | independant => exact key _ (pre_address .independant _ (by simp [SType.pre]))

theorem joinSpace_snoc {l : List Str} (h : l ≠ []) (s : Str) : joinSpace (l ++ [s]) = joinSpace l ++ ' ' :: s := by
  induction l with
  | nil => exact absurd rfl h
  | cons a l ih =>
    rw [List.cons_append, joinSpace_cons, joinSpace_cons, if_neg (by simp)]
    by_cases hl : l = []
    · subst hl
      simp [joinSpace]
    · rw [if_neg hl, ih hl]
      simp

/-- The text of an item before the lexeme. -/
theorem item_shape {text : Lexeme → Str} {main : List Addr} {t : SType} {a : Addr} {x : Lexeme} (h : Addressed t a) :
    itemText text main t.pre (a, some x) = (if a ∈ main then c!"! " else []) ++ (joinSpace (padded t a ++ [[]]) ++ text x) := by
  rw [joinSpace_snoc (padded_ne h)]
  unfold itemText
  cases t with
  | process =>
    simp [SType.pre, padded, roleText, actorText]
  | dependant =>
    by_cases ha : a = []
    · subst ha; simp [SType.pre, padded, roleText, actorText, joinSpace]
    · simp [SType.pre, padded, roleText, actorText, joinSpace_cons, ha]
  | independant =>
    by_cases ha : a = []
    · subst ha; simp [SType.pre, padded, roleText, actorText, joinSpace]
    · simp [SType.pre, padded, roleText, actorText, joinSpace_cons, ha]

theorem joinSpace_char {c : Char} (hc : c ≠ ' ') {l : List Str} (h : ∀ s ∈ l, c ∉ s) : c ∉ joinSpace l := by
  induction l with
  | nil => simp [joinSpace]
  | cons s l ih =>
    rw [joinSpace_cons]
    have h1 := h s (by simp)
    have h2 := ih fun s hs => h s (by simp [hs])
    split
    · exact h1
    · simp [h1, h2, hc]

theorem padded_inj {t t' : SType} {a a' : Addr} (h : Addressed t a) (h' : Addressed t' a') (e : padded t a = padded t' a') : t = t' ∧ a = a' := by
  have inner : ∀ {p p' : Str}, p :: (if a = [] then [[]] else a) = p' :: (if a' = [] then [[]] else a') → p = p' ∧ a = a' := by
    intro p p' e
    simp only [List.cons.injEq] at e
    refine ⟨e.1, ?_⟩
    by_cases h1 : a = [] <;> by_cases h2 : a' = []
    · rw [h1, h2]
    · rw [if_pos h1, if_neg h2] at e
      exact absurd rfl (address_word [] (h'.1 [] (by rw [← e.2]; simp))).1
    · rw [if_neg h1, if_pos h2] at e
      exact absurd rfl (address_word [] (h.1 [] (by rw [e.2]; simp))).1
    · rw [if_neg h1, if_neg h2] at e
      exact e.2
  have n1 : dependantQuality ∉ valenceScripts ++ actantScripts := by decide +kernel
  have n2 : independantQuality ∉ valenceScripts ++ actantScripts := by decide +kernel
  cases t <;> cases t'
  · exact ⟨rfl, e⟩
  · obtain ⟨x, r, rfl, hx⟩ := h.2 rfl
    simp only [padded, SType.pre, List.cons.injEq] at e
    exact absurd (e.1 ▸ hx) n1
  · obtain ⟨x, r, rfl, hx⟩ := h.2 rfl
    simp only [padded, SType.pre, List.cons.injEq] at e
    exact absurd (e.1 ▸ hx) n2
  · obtain ⟨x, r, rfl, hx⟩ := h'.2 rfl
    simp only [padded, SType.pre, List.cons.injEq] at e
    exact absurd (e.1 ▸ hx) n1
  · exact ⟨rfl, (inner e).2⟩
  · exact absurd (inner e).1 dep_ne_indep
  · obtain ⟨x, r, rfl, hx⟩ := h'.2 rfl
    simp only [padded, SType.pre, List.cons.injEq] at e
    exact absurd (e.1 ▸ hx) n2
  · exact absurd (inner e).1.symm dep_ne_indep
  · exact ⟨rfl, (inner e).2⟩

/-- An item of a function that holds a lexeme. -/
def OkItem (t : SType) (e : RoleEntry Lexeme) : Prop := Addressed t e.1 ∧ ∃ x, e.2 = some x ∧ OkLex x

theorem OkItem.entry {t : SType} {e : RoleEntry Lexeme} (h : OkItem t e) : OkEntry e := ⟨h.1.1, h.2⟩

theorem item_pf {t t' : SType} {e e' : RoleEntry Lexeme} (h : OkItem t e) (h' : OkItem t' e') {m m' : List Addr} {u v : Str} (hu : NoOpen u) (hv : NoOpen v)
    (hh : itemText Lexeme.text m t.pre e ++ u = itemText Lexeme.text m' t'.pre e' ++ v) :
    t = t' ∧ entrySays e = entrySays e' ∧ (e.1 ∈ m ↔ e'.1 ∈ m') ∧ u = v := by
  obtain ⟨a, o⟩ := e
  obtain ⟨b, o'⟩ := e'
  obtain ⟨ha, x, rfl, hx⟩ := h
  obtain ⟨hb, y, hy', hy⟩ := h'
  cases hy'
  rw [item_shape ha, item_shape hb] at hh
  have c1 : '(' ∉ (if a ∈ m then c!"! " else []) ++ joinSpace (padded t a ++ [[]]) := by
    rw [List.mem_append]
    rintro (hc | hc)
    · split at hc
      · revert hc; decide
      · cases hc
    · refine joinSpace_char (by decide) ?_ hc
      intro s hs
      rcases List.mem_append.1 hs with hs | hs
      · exact (padded_char ha s hs).2.1
      · rw [List.mem_singleton.1 hs]; simp
  have c2 : '(' ∉ (if b ∈ m' then c!"! " else []) ++ joinSpace (padded t' b ++ [[]]) := by
    rw [List.mem_append]
    rintro (hc | hc)
    · split at hc
      · revert hc; decide
      · cases hc
    · refine joinSpace_char (by decide) ?_ hc
      intro s hs
      rcases List.mem_append.1 hs with hs | hs
      · exact (padded_char hb s hs).2.1
      · rw [List.mem_singleton.1 hs]; simp
  have sh : ∀ {z : Lexeme}, OkLex z → ∃ r, z.text = '(' :: r := by
    rintro z ⟨f, c, rfl, hf, _⟩
    exact ⟨_, lexeme_shape hf⟩
  obtain ⟨r1, e1⟩ := sh hx
  obtain ⟨r2, e2⟩ := sh hy
  have hh' : ((if a ∈ m then c!"! " else []) ++ joinSpace (padded t a ++ [[]])) ++ '(' :: (r1 ++ u) =
      ((if b ∈ m' then c!"! " else []) ++ joinSpace (padded t' b ++ [[]])) ++ '(' :: (r2 ++ v) := by
    rw [e1, e2] at hh
    simpa only [List.append_assoc, List.cons_append] using hh
  obtain ⟨hH, hR⟩ := split_at_mark c1 c2 hh'
  have hT : x.text ++ u = y.text ++ v := by rw [e1, e2, List.cons_append, List.cons_append, hR]
  obtain ⟨hs, huv⟩ := (textLex_pf hx hy hu hv).1 hT
  have hxy := (textLex_iff hx hy).2 hs
  have b1 : '!' ∉ joinSpace (padded t a ++ [[]]) := joinSpace_char (by decide) (by
    intro s hs
    rcases List.mem_append.1 hs with hs | hs
    · exact (padded_char ha s hs).2.2
    · rw [List.mem_singleton.1 hs]; simp)
  have b2 : '!' ∉ joinSpace (padded t' b ++ [[]]) := joinSpace_char (by decide) (by
    intro s hs
    rcases List.mem_append.1 hs with hs | hs
    · exact (padded_char hb s hs).2.2
    · rw [List.mem_singleton.1 hs]; simp)
  have hm : (a ∈ m ↔ b ∈ m') ∧ joinSpace (padded t a ++ [[]]) = joinSpace (padded t' b ++ [[]]) := by
    by_cases m1 : a ∈ m <;> by_cases m2 : b ∈ m'
    · rw [if_pos m1, if_pos m2] at hH
      exact ⟨by simp [m1, m2], List.append_cancel_left hH⟩
    · rw [if_pos m1, if_neg m2] at hH
      exact absurd (by rw [List.nil_append] at hH; rw [← hH]; simp) b2
    · rw [if_neg m1, if_pos m2] at hH
      exact absurd (by rw [List.nil_append] at hH; rw [hH]; simp) b1
    · rw [if_neg m1, if_neg m2] at hH
      exact ⟨by simp [m1, m2], hH⟩
  have sp : ∀ {t : SType} {a : Addr}, Addressed t a → ∀ s ∈ padded t a ++ [[]], ' ' ∉ s := by
    intro t a h s hs
    rcases List.mem_append.1 hs with hs | hs
    · exact (padded_char h s hs).1
    · rw [List.mem_singleton.1 hs]; simp
  have hp := joinSpace_inj_ne (by simp) (by simp) (sp ha) (sp hb) hm.2
  obtain ⟨ht, hab⟩ := padded_inj ha hb (List.append_inj_left' hp rfl)
  have hab : a = b := hab
  exact ⟨ht, by simp [entrySays, hab, hxy], hm.1, huv⟩

/-- The rest of the text of a word after an item. -/
def restText (ss : List Str) : Str := ss.flatMap (c!" > " ++ ·) ++ c!"]"

theorem restText_open (ss : List Str) : NoOpen (restText ss) := by
  intro r h
  cases ss with
  | nil => simp [restText] at h
  | cons s ss => simp [restText] at h

/-- What the text of a word says about an item. -/
def itemSays (m : List Addr) (e : RoleEntry Lexeme) : (Addr × Option Str) × Bool := (entrySays e, decide (e.1 ∈ m))

theorem rest_pf : ∀ {l l' : List (RoleEntry Lexeme)} {t t' : SType} {m m' : List Addr}, (∀ e ∈ l, OkItem t e) → (∀ e ∈ l', OkItem t' e) →
    restText (l.map (itemText Lexeme.text m t.pre)) = restText (l'.map (itemText Lexeme.text m' t'.pre)) →
    l.map (itemSays m) = l'.map (itemSays m')
  | [], [], _, _, _, _, _, _, _ => rfl
  | [], _ :: _, _, _, _, _, _, _, h => by simp [restText] at h
  | _ :: _, [], _, _, _, _, _, _, h => by simp [restText] at h
  | e :: l, e' :: l', t, t', m, m', hl, hl', h => by
    have h1 : itemText Lexeme.text m t.pre e ++ restText (l.map (itemText Lexeme.text m t.pre)) =
        itemText Lexeme.text m' t'.pre e' ++ restText (l'.map (itemText Lexeme.text m' t'.pre)) := by
      simp only [restText, List.map_cons, List.flatMap_cons, List.append_assoc] at h
      exact List.append_cancel_left h
    obtain ⟨_, h2, h3, h4⟩ := item_pf (hl e (by simp)) (hl' e' (by simp)) (restText_open _) (restText_open _) h1
    rw [List.map_cons, List.map_cons, itemSays, itemSays, h2, decide_eq_decide.2 h3,
      rest_pf (fun e he => hl e (by simp [he])) (fun e he => hl' e (by simp [he])) h4]

theorem chevron_pf {l l' : List (RoleEntry Lexeme)} {t t' : SType} {m m' : List Addr} (hne : l ≠ []) (hne' : l' ≠ []) (hl : ∀ e ∈ l, OkItem t e)
    (hl' : ∀ e ∈ l', OkItem t' e) (h : c!"[" ++ joinChevron (l.map (itemText Lexeme.text m t.pre)) ++ c!"]" =
      c!"[" ++ joinChevron (l'.map (itemText Lexeme.text m' t'.pre)) ++ c!"]") : t = t' ∧ l.map (itemSays m) = l'.map (itemSays m') := by
  cases l with
  | nil => exact absurd rfl hne
  | cons e l =>
    cases l' with
    | nil => exact absurd rfl hne'
    | cons e' l' =>
      rw [List.append_assoc, List.append_assoc, List.map_cons, List.map_cons, joinChevron_cons, joinChevron_cons, List.append_assoc, List.append_assoc] at h
      have h := List.append_cancel_left h
      obtain ⟨h1, h2, h3, h4⟩ := item_pf (hl e (by simp)) (hl' e' (by simp)) (restText_open _) (restText_open _) h
      refine ⟨h1, ?_⟩
      rw [List.map_cons, List.map_cons, itemSays, itemSays, h2, decide_eq_decide.2 h3,
        rest_pf (fun e he => hl e (by simp [he])) (fun e he => hl' e (by simp [he])) h4]

/-! ### Words -/

/-- A word without junctions whose roles all hold lexemes. -/
structure WordData (w : WordUsl) (t : SType) (f : SFun Lexeme) (r : Addr) : Prop where
  fn : OkFun t f
  made : mkWord f (t.pre ++ r) t = .ok w
  plain : ∀ e ∈ f.nodes, e.2.isJunction = false
  full : ∀ e ∈ f.items, ∃ x, e.2 = some x ∧ OkLex x

def OkWord (w : WordUsl) : Prop := ∃ t f r, WordData w t f r

theorem items_addressed {t : SType} {f : SFun Lexeme} (h : OkFun t f) : ∀ e ∈ f.items, Addressed t e.1 := by
  intro e he
  refine ⟨items_address h e he, ?_⟩
  rintro rfl
  cases f with
  | quality f => cases h
  | process b v acts =>
    obtain ⟨hv, n, _, h⟩ := h
    rw [SFun.items, List.mem_cons] at he
    rcases he with rfl | he
    · exact ⟨v, [], rfl, by simp [hv]⟩
    · rw [listed_process] at he
      obtain ⟨g, hg, x, hx, rfl⟩ := mem_actLeaves he
      exact ⟨g.1, x.1, rfl, by simp [(h g hg).1]⟩

theorem listed_plain {l : List (Addr × SF Lexeme)} (h : ∀ e ∈ l, e.2.isJunction = false) : listed [] l = l.map fun e => (e.1, e.2.actor) := by
  rw [listed, List.filter_eq_self.2 fun e he => by simp [h e he]]
  rfl

namespace WordData
variable {w : WordUsl} {t : SType} {f : SFun Lexeme} {r : Addr}

theorem entries (h : WordData w t f r) : f.entries = f.items := by
  have := h.plain
  cases f with
  | quality f => exact (listed_plain this).symm
  | process a v acts =>
    rw [SFun.entries, SFun.items, listed_plain (l := processActors acts) this]

theorem sorted_mem (h : WordData w t f r) : ∀ e, e ∈ f.sorted ↔ e ∈ f.items := by
  intro e
  rw [SFun.sorted, mem_pySort, h.entries]

theorem okItem (h : WordData w t f r) : ∀ e ∈ f.sorted, OkItem t e := fun e he => by
  rw [h.sorted_mem] at he
  exact ⟨items_addressed h.fn e he, h.full e he⟩

/-- The role of the word is that of one of its lexemes. -/
theorem role_mem (h : WordData w t f r) : ∃ x, (r, x) ∈ f.items := by
  have hm := h.made
  unfold mkWord SFun.render at hm
  obtain ⟨text, h1, _⟩ := bind_ok.1 hm
  obtain ⟨main, h2, _⟩ := bind_ok.1 h1
  rw [List.drop_left] at h2
  have key : ∀ {l : List (Addr × SF Lexeme)}, (∀ e ∈ l, e.2.isJunction = false) → expandAt l r = .ok main → ∃ x, (r, x) ∈ listed [] l := by
    intro l hl he
    unfold expandAt at he
    split at he
    · cases he
    · next e hf =>
      have e1 : e.1 = r := by simpa using List.find?_some hf
      rw [listed_plain hl]
      exact ⟨e.2.actor, List.mem_map.2 ⟨e, List.mem_of_find?_eq_some hf, by rw [e1]⟩⟩
  have hp := h.plain
  cases f with
  | quality f => exact key hp h2
  | process a v acts =>
    rw [SFun.expansion] at h2
    split at h2
    · next hv => exact ⟨a, by rw [hv, SFun.items]; exact List.mem_cons_self⟩
    · obtain ⟨x, hx⟩ := key hp h2
      exact ⟨x, by rw [SFun.items]; exact List.mem_cons_of_mem _ hx⟩

theorem attrs (h : WordData w t f r) : w.sfun = f ∧ w.role = t.pre ++ r ∧
    w.text = c!"[" ++ joinChevron (f.sorted.map (itemText Lexeme.text [r] t.pre)) ++ c!"]" := by
  have hm := h.made
  obtain ⟨x, hx⟩ := h.role_mem
  unfold mkWord SFun.render at hm
  rw [List.drop_left, expansion_leaf h.fn hx] at hm
  obtain ⟨text, h1, h2⟩ := bind_ok.1 hm
  obtain ⟨c, _, h3⟩ := bind_ok.1 h2
  rw [SFun.sorted, h.entries]
  cases h1
  cases h3
  exact ⟨rfl, rfl, rfl⟩

end WordData

/-- Code of a word. -/
def codeWord (w : WordUsl) : List Nat := codeEs w.sfun.sorted ++ codeAddr w.role

theorem pre_inj {t t' : SType} {a b : Addr} (ha : Addressed t a) (hb : Addressed t' b) (h : t.pre ++ a = t'.pre ++ b) : t = t' ∧ a = b := by
  have n1 : dependantQuality ∉ valenceScripts ++ actantScripts := by decide +kernel
  have n2 : independantQuality ∉ valenceScripts ++ actantScripts := by decide +kernel
  cases t <;> cases t' <;> simp only [SType.pre, List.cons_append, List.nil_append, List.cons.injEq] at h
  · exact ⟨rfl, h⟩
  · obtain ⟨x, r, rfl, hx⟩ := ha.2 rfl
    simp only [List.cons.injEq] at h
    exact absurd (h.1 ▸ hx) n1
  · obtain ⟨x, r, rfl, hx⟩ := ha.2 rfl
    simp only [List.cons.injEq] at h
    exact absurd (h.1 ▸ hx) n2
  · obtain ⟨x, r, rfl, hx⟩ := hb.2 rfl
    simp only [List.cons.injEq] at h
    exact absurd (h.1 ▸ hx) n1
  · exact ⟨rfl, h.2⟩
  · exact absurd h.1 dep_ne_indep
  · obtain ⟨x, r, rfl, hx⟩ := hb.2 rfl
    simp only [List.cons.injEq] at h
    exact absurd (h.1 ▸ hx) n2
  · exact absurd h.1.symm dep_ne_indep
  · exact ⟨rfl, h.2⟩

theorem itemText_says {m : List Addr} {p : Addr} : ∀ {l l' : List (RoleEntry Lexeme)}, l.map entrySays = l'.map entrySays →
    l.map (itemText Lexeme.text m p) = l'.map (itemText Lexeme.text m p) := by
  have e : ∀ l : List (RoleEntry Lexeme), l.map (itemText Lexeme.text m p) = (l.map entrySays).map (itemText id m p) := by
    intro l
    rw [List.map_map]
    refine List.map_congr_left fun x _ => ?_
    obtain ⟨a, o⟩ := x
    cases o <;> rfl
  intro l l' h
  rw [e, e, h]

theorem OkWord.role {w : WordUsl} (h : OkWord w) : ∀ x ∈ w.role, x ∈ addressScripts := by
  obtain ⟨t, f, r, h⟩ := h
  obtain ⟨o, ho⟩ := h.role_mem
  rw [h.attrs.2.1]
  intro x hx
  rcases List.mem_append.1 hx with hx | hx
  · exact pre_address t x hx
  · exact items_address h.fn _ ho x hx

theorem OkWord.entry {w : WordUsl} (h : OkWord w) : ∀ e ∈ w.sfun.sorted, OkEntry e := by
  obtain ⟨t, f, r, h⟩ := h
  rw [h.attrs.1]
  exact fun e he => (h.okItem e he).entry

theorem codeWord_iff {w v : WordUsl} (hw : OkWord w) (hv : OkWord v) : codeWord w = codeWord v ↔ w.text = v.text := by
  have k := codeEs_pf (u := codeAddr w.role) (v := codeAddr v.role) hw.entry hv.entry
  have k2 := codeAddr_pf (u := []) (v := []) hw.role hv.role
  rw [List.append_nil, List.append_nil, and_iff_left rfl] at k2
  rw [codeWord, codeWord, k, k2]
  obtain ⟨t, f, r, hw⟩ := hw
  obtain ⟨t', f', r', hv⟩ := hv
  obtain ⟨e1, e2, e3⟩ := hw.attrs
  obtain ⟨e1', e2', e3'⟩ := hv.attrs
  rw [e1, e2, e3, e1', e2', e3']
  obtain ⟨o, ho⟩ := hw.role_mem
  obtain ⟨o', ho'⟩ := hv.role_mem
  constructor
  · rintro ⟨h1, h2⟩
    obtain ⟨rfl, rfl⟩ := pre_inj (items_addressed hw.fn _ ho) (items_addressed hv.fn _ ho') h2
    rw [itemText_says h1]
  · intro h
    have n1 : f.sorted ≠ [] := by
      intro hn
      have := (hw.sorted_mem _).2 ho
      rw [hn] at this
      cases this
    have n2 : f'.sorted ≠ [] := by
      intro hn
      have := (hv.sorted_mem _).2 ho'
      rw [hn] at this
      cases this
    obtain ⟨rfl, h2⟩ := chevron_pf n1 n2 hw.okItem hv.okItem h
    have h3 : f.sorted.map entrySays = f'.sorted.map entrySays := by
      have := congrArg (List.map Prod.fst) h2
      rw [List.map_map, List.map_map] at this
      exact this
    refine ⟨h3, ?_⟩
    have h4 : itemSays [r] (r, o) ∈ f'.sorted.map (itemSays [r']) := by
      rw [← h2]
      exact List.mem_map_of_mem ((hw.sorted_mem _).2 ho)
    obtain ⟨e, _, he⟩ := List.mem_map.1 h4
    simp only [itemSays, entrySays, Prod.mk.injEq, List.mem_singleton, decide_true, decide_eq_true_eq] at he
    rw [← he.1.1, he.2]

theorem codeWord_lt {w v : WordUsl} (hw : OkWord w) (hv : OkWord v) : w.lt v = .ok (ltBytes (codeWord w) (codeWord v)) :=
  ltWord hw.entry hv.entry hw.role hv.role

end Verif
