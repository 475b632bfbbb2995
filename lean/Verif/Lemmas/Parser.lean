import Verif.Model.Parser
import Verif.Lemmas.Sum
import Verif.Lemmas.Product
import Verif.Lemmas.ScriptDec

/-
Lemmas on the lexer and the parser of scripts.
-/

namespace Verif
open Script

/-! ### The lexer -/

theorem lex_append {c : Char} (hc : c ≠ 'w') : ∀ (x y : Str), lex (x ++ c :: y) = lex (x ++ [c]) ++ lex y
  | [], y => by
    cases y with
    | nil => simp [lex]
    | cons d y => simp [lex, hc]
  | [a], y => by
    have e : lex (c :: y) = lex [c] ++ lex y := lex_append hc [] y
    simp only [List.cons_append, List.nil_append, lex]
    split
    · simp
    · rw [e]; simp [lex]
  | a :: b :: x, y => by
    simp only [List.cons_append, lex]
    split
    · rw [lex_append hc x y]; simp
    · have := lex_append hc (b :: x) y
      simp only [List.cons_append] at this
      rw [this]; simp

theorem mk_ne_w {k : Nat} (hk : k ≤ 6) : mk k ≠ 'w' := by
  have h1 : ∀ k : Fin 7, mk k ≠ 'w' := by decide
  exact h1 ⟨k, by omega⟩

theorem lex_mk {k : Nat} (hk : k ≤ 6) : lex [mk k] = [.mark k] := by
  have h1 : ∀ k : Fin 7, lex [mk k] = [.mark k] := by decide
  exact h1 ⟨k, by omega⟩

theorem lex_str_append {s : Script} (h : WF s) (y : Str) : lex (s.str ++ y) = lex s.str ++ lex y := by
  obtain ⟨b, hb⟩ := str_last h
  rw [hb, List.append_assoc, List.singleton_append, lex_append (mk_ne_w (wf_layer h))]

theorem lex_plus (y : Str) : lex ('+' :: y) = .plus :: lex y := by
  have := lex_append (c := '+') (by decide) [] y
  simpa [lex, tok1] using this

theorem lex_prim (p : Prim) : lex (prim p).str = [.prim (some p), .mark 0] := by
  cases p <;> decide

theorem lex_null0 : lex (null 0).str = [.prim none, .mark 0] := by decide

theorem lex_radd (k : RemAdd) : lex ([k.char] ++ markStr 0) = [.radd k, .mark 0] := by
  cases k <;> decide

theorem lex_rmul (p q : Prim) : lex (remMulName p q ++ [mk 1]) = [.rmul (remMulName p q), .mark 1] := by
  cases p <;> cases q <;> decide

theorem lex_valid (x : Str) : ∀ k, .mark k ∈ lex x → k ≤ 6 := by
  have h1 : ∀ c k, tok1 c = some (.mark k) → k ≤ 6 := by
    intro c k h
    unfold tok1 at h
    split at h
    · simp at h
    · split at h
      · simp at h; omega
      · split at h
        · rename_i i hi
          have := (List.findIdx?_eq_some_iff_getElem.1 (by simpa [List.idxOf?] using hi)).1
          simp at h; subst h
          change i < 7 at this; omega
        · split at h
          · simp at h
          · split at h
            · simp at h
            · split at h
              · simp at h
              · split at h <;> simp at h
  intro k
  induction x using lex.induct with
  | case1 => simp [lex]
  | case2 c => intro h; simp [lex] at h; exact h1 c k h
  | case3 c d cs h ih => intro h'; simp only [lex, h] at h'; simp at h'; exact ih h'
  | case4 c d cs h ih =>
    intro h'
    rw [lex, if_neg h, List.mem_append] at h'
    rcases h' with h' | h'
    · exact h1 c k (by simpa using h')
    · exact ih h'

/-! ### The machine -/

namespace PState

theorem run_append (xs ys : List Tok) (st : PState) : run (xs ++ ys) st = run xs st >>= run ys := by
  induction xs generalizing st with
  | nil => simp [run]; rfl
  | cons x xs ih =>
    simp only [List.cons_append, run]
    cases step st x with
    | error e => rfl
    | ok st' => exact ih st'

/-- The text of a script of layer `l` may be read here. -/
def CanStart (l : Nat) : List PItem → Prop
  | [] => True
  | i :: st => l ≤ i.level ∧ (i.pending = false → i.level ≤ 5 ∧ topCount i.level (i :: st) < 3)

theorem CanStart.mayStart {l k : Nat} {st : List PItem} (h : CanStart l st) (hk : k ≤ l) : mayStart k st = true := by
  cases st with
  | nil => rfl
  | cons i st =>
    obtain ⟨h1, h2⟩ := h
    cases hp : i.pending
    · have := h2 hp
      simp [PState.mayStart, hp]; omega
    · simp [PState.mayStart, hp]; omega

theorem topCount_push {l : Nat} {ts : List Script} {st : List PItem} :
    topCount l (⟨l, ts, false⟩ :: st) = topCount l st + 1 := by
  simp [topCount]

theorem topCount_above {l : Nat} {st : List PItem} (h : CanStart (l + 1) st) : topCount l st = 0 := by
  cases st with
  | nil => rfl
  | cons i st =>
    have h1 := h.1
    rw [topCount, List.takeWhile_cons_of_neg] <;> simp
    omega

end PState

/-- What the parser may have read instead of the script `s`: a script with the same text. -/
structure ReadAs (s t : Script) : Prop where
  wf : WF t
  plain : Plain t
  layer : t.layer = s.layer
  str : t.str = s.str

theorem str_role {s : Script} (h : WF s) : (role s).str = s.str := by
  have h1 := role_wf h
  have := norm_unwrap s
  rw [← str_norm h1.1, ← str_norm h]
  congr 1
  have h2 := unwrap_wf h
  rw [← norm_unwrap s, role]
  unfold fixEmpty
  split
  · rename_i he
    have := norm_isNull h2.1
    rw [he] at this
    have h3 := layer_norm h2.1
    cases h4 : (unwrap s).norm with
    | null l => rw [h4] at h3; simp [layer] at h3; simp [norm, h3]
    | _ => rw [h4] at this; simp [isNull] at this
  · rfl

theorem empty_role {s : Script} (h : WF s) : (role s).empty = s.empty :=
  empty_of_str (role_wf h).1 h (str_role h)

/-- The texts of the terms are determined by the text. -/
theorem terms_of_str {s t : Script} (hs : WF s) (ht : WF t) (ps : Plain s) (pt : Plain t) (h : s.str = t.str) :
    s.terms.map str = t.terms.map str := by
  cases h1 : s.isAdd <;> cases h2 : t.isAdd
  · have e1 : s.terms = [s] := by cases s <;> simp_all [terms, isAdd]
    have e2 : t.terms = [t] := by cases t <;> simp_all [terms, isAdd]
    simp [e1, e2, h]
  · exact absurd h.symm (str_add_ne ht pt h2 hs h1)
  · exact absurd h (str_add_ne hs ps h1 ht h2)
  · have hn := norm_eq_of_str hs ht h
    cases s with
    | add cs =>
      cases t with
      | add ds =>
        have e1 : (add cs).norm = add (cs.map norm) := by
          rw [norm_add]; apply packN_ne; intro c hc
          match cs, hc with
          | [d], _ => exact ps d rfl
        have e2 : (add ds).norm = add (ds.map norm) := by
          rw [norm_add]; apply packN_ne; intro c hc
          match ds, hc with
          | [d], _ => exact pt d rfl
        rw [e1, e2] at hn
        simp only [add.injEq] at hn
        have f1 : ∀ x ∈ cs, x.norm.str = x.str := fun x hx => str_norm (terms_wf hs x hx).1
        have f2 : ∀ x ∈ ds, x.norm.str = x.str := fun x hx => str_norm (terms_wf ht x hx).1
        have := congrArg (List.map str) hn
        simp only [List.map_map] at this
        simp only [terms]
        rw [← List.map_congr_left (f := str ∘ norm) f1, ← List.map_congr_left (f := str ∘ norm) f2]
        exact this
      | _ => simp [isAdd] at h2
    | _ => simp [isAdd] at h1

theorem item_plain {s : Script} (h : Item s) : Plain s := by
  intro c hc
  subst hc
  simp [Item, remAdd?_single] at h

/-- Summing what has been read gives the script again, up to its text. -/
theorem mkAdd_read {s : Script} (hs : WF s) {ts : List Script} (h : List.Forall₂ ReadAs (items s) ts) :
    ∃ u, mkAdd ts.reverse = .ok u ∧ WF u ∧ u.layer = s.layer ∧ u.str = s.str := by
  have hi := items_item hs
  have hw : ∀ c ∈ ts, WF c ∧ Plain c ∧ c.layer = s.layer := by
    intro c hc
    obtain ⟨d, hd, hr⟩ : ∃ d ∈ items s, ReadAs d c := by
      obtain ⟨hl, hg⟩ := List.forall₂_iff_get.1 h
      obtain ⟨n, hn, rfl⟩ := List.mem_iff_getElem.1 hc
      exact ⟨(items s)[n]'(by omega), List.getElem_mem _, hg n (by omega) hn⟩
    exact ⟨hr.wf, hr.plain, hr.layer.trans (hi d hd).2.2⟩
  have hne : ts ≠ [] := by
    intro h0; subst h0
    cases hh : items s with
    | nil => exact items_ne_nil hs hh
    | cons => rw [hh] at h; cases h
  -- the reference sum
  have href : ∃ u, mkAdd s.terms = .ok u ∧ u.str = s.str := by
    cases ha : s.isAdd
    · have e1 : s.terms = [s] := by cases s <;> simp_all [terms, isAdd]
      rw [e1]
      have hst : sumTerms [s] = [s] := sumTerms_plain (by simpa using ha) (by simp)
      have := mkAdd_eval (cs := [s]) (by simp) (by simpa using hs) (l := s.layer) (by simp)
      rw [hst] at this
      have hc := wf_cardinal hs
      rw [this, if_neg (by simp), if_neg (by simp; omega)]
      exact ⟨_, rfl, by simp [pySort, insertBy, str_add, remAdd?_single, joinPlus]⟩
    · cases s with
      | add cs => exact ⟨_, mkAdd_self hs, rfl⟩
      | _ => simp [isAdd] at ha
  obtain ⟨u, hu, hus⟩ := href
  have htw := terms_wf hs
  have hplain : ∀ c ∈ s.terms, Plain c := fun c hc d hd => by
    have := (htw c hc).2.1; rw [hd] at this; simp [isAdd] at this
  have key : ∀ t, SumTexts ts.reverse t ↔ SumTexts s.terms t := by
    intro t
    rw [sumTexts_plain (by simpa using fun c hc => (hw c hc).1) (by simpa using fun c hc => (hw c hc).2.1),
      sumTexts_plain (fun c hc => (htw c hc).1) hplain]
    have e : (∃ c ∈ ts, ∃ d ∈ c.terms, d.str = t) ↔ ∃ c ∈ items s, ∃ d ∈ c.terms, d.str = t := by
      have : ∀ {xs ys : List Script}, List.Forall₂ ReadAs xs ys → (∀ c ∈ xs, WF c ∧ Item c) →
          ((∃ c ∈ ys, ∃ d ∈ c.terms, d.str = t) ↔ ∃ c ∈ xs, ∃ d ∈ c.terms, d.str = t) := by
        intro xs ys h hx
        induction h with
        | nil => simp
        | @cons a b xs ys hr h ih =>
          have e1 := terms_of_str (hx a (by simp)).1 hr.wf (item_plain (hx a (by simp)).2) hr.plain hr.str.symm
          have e2 : (∃ d ∈ b.terms, d.str = t) ↔ ∃ d ∈ a.terms, d.str = t := by
            have f : ∀ l : List Script, (∃ d ∈ l, d.str = t) ↔ t ∈ l.map str := by intro l; simp
            rw [f, f, e1]
          simp only [List.mem_cons, exists_eq_or_imp]
          rw [e2, ih fun c hc => hx c (by simp [hc])]
      exact this h fun c hc => ⟨(hi c hc).1, (hi c hc).2.1⟩
    have e3 : (∃ c ∈ items s, ∃ d ∈ c.terms, d.str = t) ↔ ∃ c ∈ s.terms, ∃ d ∈ c.terms, d.str = t := by
      have tt : ∀ c ∈ s.terms, c.terms = [c] := fun c hc => by
        have := (htw c hc).2.1; cases c <;> simp_all [terms, isAdd]
      have r : (∃ c ∈ s.terms, ∃ d ∈ c.terms, d.str = t) ↔ ∃ c ∈ s.terms, c.str = t := by
        constructor
        · rintro ⟨c, hc, d, hd, h⟩; rw [tt c hc] at hd; simp at hd; subst hd; exact ⟨_, hc, h⟩
        · rintro ⟨c, hc, h⟩; exact ⟨c, hc, c, by rw [tt c hc]; simp, h⟩
      cases s with
      | add cs =>
        by_cases hk : (remAdd? cs).isSome
        · simp only [items, hk, if_true, List.mem_singleton, exists_eq_left]
          exact r.symm
        · simp only [items, hk, terms]
          simp
      | _ => simp [items, terms]
    simp only [List.mem_reverse]
    rw [e, e3]
  have hsame := mkAdd_congr (cs := ts.reverse) (ds := s.terms) (by simpa using hne) (terms_ne_nil hs)
    (by simpa using fun c hc => (hw c hc).1) (fun c hc => (htw c hc).1) (l := s.layer)
    (by simpa using fun c hc => (hw c hc).2.2) (fun c hc => (htw c hc).2.2) key
  rw [hu] at hsame
  cases hm : mkAdd ts.reverse with
  | error e => rw [hm] at hsame; exact hsame.elim
  | ok v =>
    rw [hm] at hsame
    have hv : WF v := mkAdd_wf (by simpa using fun c hc => (hw c hc).1) hm
    exact ⟨v, rfl, hv, layer_of_str hv hs (hsame.trans hus), hsame.trans hus⟩


/-! ### Reading the text of a script -/

open PState hiding mk

/-- A script of layer `l` starts a new sum on this stack. -/
def NotJoin (l : Nat) : List PItem → Prop
  | [] => True
  | i :: _ => ¬ (i.pending = true ∧ i.level = l)

theorem push_new {l : Nat} {st : List PItem} (h : NotJoin l st) (t : Script) : push l t st = ⟨l, [t], false⟩ :: st := by
  cases st with
  | nil => rfl
  | cons i st =>
    simp only [NotJoin] at h
    rw [push, if_neg]
    simpa using h

theorem push_join (l : Nat) (ts : List Script) (st : List PItem) (t : Script) :
    push l t (⟨l, ts, true⟩ :: st) = ⟨l, t :: ts, false⟩ :: st := by
  simp [push]

theorem notJoin_above {l : Nat} {st : List PItem} (h : CanStart (l + 1) st) : NotJoin l st := by
  cases st with
  | nil => trivial
  | cons i st => have := h.1; simp only [NotJoin]; omega

theorem canStart_le {l k : Nat} {st : List PItem} (h : CanStart l st) (hk : k ≤ l) : CanStart k st := by
  cases st with
  | nil => trivial
  | cons i st => exact ⟨le_trans hk h.1, h.2⟩

theorem canStart_pending (l : Nat) (ts : List Script) (st : List PItem) : CanStart l (⟨l, ts, true⟩ :: st) :=
  ⟨le_refl _, by simp⟩

/-- Reading the terms of layer `l`. -/
def ItemRead (l : Nat) : Prop := ∀ s, WF s → Item s → s.layer = l → ∀ st, CanStart l st →
  ∃ t, ReadAs s t ∧ run (lex s.str) ⟨st, none⟩ = .ok ⟨push l t st, none⟩

theorem rest_read {l : Nat} (H : ItemRead l) : ∀ (xs : List Script), (∀ c ∈ xs, WF c ∧ Item c ∧ c.layer = l) →
    ∀ (acc : List Script) (st : List PItem),
    ∃ ts, List.Forall₂ ReadAs xs ts ∧
      run (lex (xs.flatMap fun c => '+' :: c.str)) ⟨⟨l, acc, false⟩ :: st, none⟩ =
        .ok ⟨⟨l, ts.reverse ++ acc, false⟩ :: st, none⟩
  | [], _, acc, st => ⟨[], .nil, by simp [lex, run]⟩
  | x :: xs, hx, acc, st => by
    have h1 := hx x (by simp)
    obtain ⟨t, ht, hr⟩ := H x h1.1 h1.2.1 h1.2.2 (⟨l, acc, true⟩ :: st) (canStart_pending l acc st)
    obtain ⟨ts, hts, hrs⟩ := rest_read H xs (fun c hc => hx c (by simp [hc])) (t :: acc) st
    refine ⟨t :: ts, .cons ht hts, ?_⟩
    simp only [List.flatMap_cons, List.cons_append, lex_plus, lex_str_append h1.1]
    have hstep : step ⟨⟨l, acc, false⟩ :: st, none⟩ .plus = .ok ⟨⟨l, acc, true⟩ :: st, none⟩ := by simp [step]
    rw [run, hstep]
    simp only [bind, Except.bind]
    rw [run_append, hr, push_join]
    simp only [bind, Except.bind]
    rw [hrs]
    simp

theorem joinPlus_flat (x : Str) (xs : List Str) : joinPlus (x :: xs) = x ++ xs.flatMap fun c => '+' :: c := by
  induction xs generalizing x with
  | nil => simp [joinPlus]
  | cons y ys ih => rw [joinPlus, ih y]; simp

theorem role_read {l : Nat} (H : ItemRead l) {s : Script} (hs : WF s) (hl : s.layer = l) {st : List PItem}
    (hc : CanStart l st) (hn : NotJoin l st) :
    ∃ ts u, run (lex s.str) ⟨st, none⟩ = .ok ⟨⟨l, ts, false⟩ :: st, none⟩ ∧ mkAdd ts = .ok u ∧ WF u ∧ u.layer = l ∧
      u.str = s.str ∧ (∀ t, ts = [t] → WF t ∧ t.str = s.str ∧ Plain t) ∧ ts.length = (items s).length := by
  have hi := items_item hs
  have hne := items_ne_nil hs
  have hstr := str_items s
  cases hxs : items s with
  | nil => exact absurd hxs hne
  | cons x xs =>
    rw [hxs] at hi hstr
    have h1 := hi x (by simp)
    obtain ⟨t, ht, hr⟩ := H x h1.1 h1.2.1 (h1.2.2.trans hl) st hc
    obtain ⟨ts, hts, hrs⟩ := rest_read H xs (fun c hc => by have := hi c (by simp [hc]); rwa [hl] at this) [t] st
    have hall : List.Forall₂ ReadAs (items s) (t :: ts) := by rw [hxs]; exact .cons ht hts
    obtain ⟨u, hu, h2, h3, h4⟩ := mkAdd_read hs hall
    refine ⟨(t :: ts).reverse, u, ?_, hu, h2, h3.trans hl, h4, ?_, ?_⟩
    rotate_left
    · intro t' ht'
      have : ts = [] ∧ t = t' := by
        have := congrArg List.reverse ht'
        simpa [and_comm] using this
      obtain ⟨rfl, rfl⟩ := this
      cases hts
      exact ⟨ht.wf, by rw [ht.str, hstr]; simp [joinPlus], ht.plain⟩
    · rw [List.length_reverse, ← hall.length_eq, hxs]
    rw [hstr, List.map_cons, joinPlus_flat, lex_str_append h1.1, run_append, hr, push_new hn]
    simp only [bind, Except.bind]
    rw [List.flatMap_map]
    rw [hrs]
    simp

theorem canStart_second {l : Nat} (hl : l ≤ 5) {st : List PItem} (h : CanStart (l + 1) st) (ts : List Script) :
    CanStart l (⟨l, ts, false⟩ :: st) ∧ NotJoin l (⟨l, ts, false⟩ :: st) := by
  refine ⟨⟨le_refl _, fun _ => ⟨hl, ?_⟩⟩, by simp [NotJoin]⟩
  rw [topCount_push, topCount_above h]; omega

theorem canStart_third {l : Nat} (hl : l ≤ 5) {st : List PItem} (h : CanStart (l + 1) st) (ts ts' : List Script) :
    CanStart l (⟨l, ts', false⟩ :: ⟨l, ts, false⟩ :: st) ∧ NotJoin l (⟨l, ts', false⟩ :: ⟨l, ts, false⟩ :: st) := by
  refine ⟨⟨le_refl _, fun _ => ⟨hl, ?_⟩⟩, by simp [NotJoin]⟩
  rw [topCount_push, topCount_push, topCount_above h]; omega

theorem run_mark (k : Nat) (st : List PItem) : run [.mark (k + 1)] ⟨st, none⟩ =
    (if topCount k st = 0 then .error .invalidScript
    else (reduceProduct (st.take (topCount k st)).reverse) >>= fun s =>
      .ok ⟨push (k + 1) s (st.drop (topCount k st)), none⟩) := by
  simp only [run, step]
  split
  · rfl
  · cases reduceProduct (st.take (topCount k st)).reverse <;> rfl

/-- The product of scripts read instead of the roles. -/
theorem product_read {l : Nat} {x y z u v w : Script} (hx : WF x) (hy : WF y) (hz : WF z) (lx : x.layer = l)
    (ly : y.layer = l) (lz : z.layer = l) (hc : (x.cardinal * y.cardinal * z.cardinal) ≤ 360) (hl : l ≤ 5)
    (hu : WF u) (hv : WF v) (hw : WF w) (lu : u.layer = l) (lv : v.layer = l) (lw : w.layer = l)
    (su : u.str = x.str) (sv : v.str = y.str) (sw : w.str = z.str) :
    ∃ t, mkMult [some u, some v, some w] = .ok t ∧ WF t ∧ Plain t ∧ t.layer = l + 1 ∧
      t.str = bodyMult x y z ++ [mk (l + 1)] := by
  have h := mkMult_eval hu hv hw (lv.trans lu.symm) (lw.trans lu.symm)
  rw [cardinal_of_str hu hx su, cardinal_of_str hv hy sv, cardinal_of_str hw hz sw, if_neg (by omega),
    if_pos (by omega)] at h
  refine ⟨_, h, ?_, by simp [Plain], by simp [layer, (role_wf hu).2.2, lu], ?_⟩
  · refine mkMult_wf ?_ h
    intro c hc; simp at hc; rcases hc with rfl | rfl | rfl <;> assumption
  · rw [str_mult', bodyMult, bodyMult]
    have : rawMult (role u) (role v) (role w) = rawMult x y z := by
      simp only [rawMult, str_role hu, str_role hv, str_role hw, empty_role hu, empty_role hv, empty_role hw, su, sv, sw,
        empty_of_str hu hx su, empty_of_str hv hy sv, empty_of_str hw hz sw]
    rw [this, (role_wf hu).2.2, lu, markStr_eq (by omega)]


/-- Roles of a script that is not a sum. -/
theorem item_roles' {s : Script} (hs : WF s) (is : Item s) {l : Nat} (hl : s.layer = l + 1) :
    ∃ x y z, WF x ∧ WF y ∧ WF z ∧ x.layer = l ∧ y.layer = l ∧ z.layer = l ∧ Role x ∧ Role y ∧ Role z ∧ l ≤ 5 ∧
      s.str = bodyMult x y z ++ [mk (l + 1)] ∧ x.cardinal * y.cardinal * z.cardinal ≤ 360 := by
  cases hs with
  | @null k h =>
    simp only [layer] at hl; subst hl
    refine ⟨null l, null l, null l, .null (by omega), .null (by omega), .null (by omega), rfl, rfl, rfl, role_null l,
      role_null l, role_null l, by omega, ?_, by simp [cardinal]⟩
    rw [bodyMult, rawMult_empty (by simp [empty]) (by simp [empty])]
    simp only [str]
    rw [remMulLookup_nullStr]
    exact nullStr_succ h
  | prim => simp [layer] at hl
  | @mult x y z h1 h2 h3 h4 h5 h6 h7 h8 h9 h10 =>
    simp only [layer, Nat.add_right_cancel_iff] at hl
    have hw := WF.mult h1 h2 h3 h4 h5 h6 h7 h8 h9 h10
    refine ⟨x, y, z, h1, h2, h3, hl, by omega, by omega, h7, h8, h9, by omega, ?_, ?_⟩
    · rw [str_mult', markStr_eq (by omega), hl]
    · rw [← cardinal_mult hw]; exact h10
  | @add cs h1 h2 h3 h4 h5 h6 h7 =>
    simp only [Item] at is
    rw [remAdd?_of_layer (by omega)] at is
    cases is

theorem item_read_zero : ItemRead 0 := by
  intro s hs hi hl st hc
  have hm := hc.mayStart (le_refl 0)
  cases hs with
  | @null k h =>
    simp only [layer] at hl; subst hl
    refine ⟨null 0, ⟨.null h, by simp [Plain], rfl, rfl⟩, ?_⟩
    rw [lex_null0]
    simp [run, step, hm, letterScript, bind, Except.bind]
  | @prim q =>
    refine ⟨prim q, ⟨.prim, by simp [Plain], rfl, rfl⟩, ?_⟩
    rw [lex_prim]
    simp [run, step, hm, letterScript, bind, Except.bind, mkMultChar_prim]
  | mult => simp [layer] at hl
  | @add cs h1 h2 h3 h4 h5 h6 h7 =>
    have hw := WF.add h1 h2 h3 h4 h5 h6 h7
    refine ⟨add cs, ⟨hw, item_plain hi, rfl, rfl⟩, ?_⟩
    simp only [Item] at hi
    obtain ⟨k, hk⟩ := Option.isSome_iff_exists.1 hi
    have hcs := remAdd?_children hw hk
    have hmk : letterScript (.radd k) = .ok (add cs) := by
      rw [hcs]
      cases k <;> decide
    rw [str_add, hk]
    simp only
    rw [lex_radd]
    simp [run, step, hm, hmk, bind, Except.bind]

theorem mkMult_two (u v : Script) : mkMult [some u, some v] = mkMult [some u, some v, some (null u.layer)] :=
  mkMult_pad (x := u) (xs := [v]) (tail := []) (.inl rfl) (by simp)

theorem mkMult_one (u : Script) :
    mkMult [some u] = mkMult [some u, some (null u.layer), some (null u.layer)] :=
  mkMult_pad (x := u) (xs := []) (tail := []) (.inl rfl) (by simp)

theorem item_read_succ {l : Nat} (H : ItemRead l) : ItemRead (l + 1) := by
  intro s hs hi hl st hc
  obtain ⟨x, y, z, hx, hy, hz, lx, ly, lz, rx, ry, rz, h5, hstr, hcard⟩ := item_roles' hs hi hl
  have hnull : WF (null l) := .null (by omega)
  suffices h : ∃ t, WF t ∧ Plain t ∧ t.layer = l + 1 ∧ t.str = bodyMult x y z ++ [mk (l + 1)] ∧
      run (lex s.str) ⟨st, none⟩ = .ok ⟨push (l + 1) t st, none⟩ by
    obtain ⟨t, h1, h2, h3, h4, h6⟩ := h
    exact ⟨t, ⟨h1, h2, h3.trans hl.symm, h4.trans hstr.symm⟩, h6⟩
  cases hch : remMulLookup (rawMult x y z) with
  | some ch =>
    have hl0 : x.layer = 0 := multChar_layer (ch := ch) hx hch
    obtain ⟨p, q, _, rfl⟩ := remMulLookup_some hch
    have hl00 : l = 0 := by omega
    subst hl00
    have hw := wf_remMul p q
    refine ⟨.mult (.prim p) (.prim q) (.null 0), hw, by simp [Plain], by simp [layer], ?_, ?_⟩
    · rw [str_mult', bodyMult, rawMult_prims, remMulLookup_pair, bodyMult, hch]
      rfl
    · rw [hstr, bodyMult, hch, lex_rmul]
      have hm := hc.mayStart (le_refl 1)
      have : mkMultChar (remMulName p q) = .ok (.mult (.prim p) (.prim q) (.null 0)) := by
        cases p <;> cases q <;> decide
      simp [run, step, hm, this, bind, Except.bind]
  | none =>
    have hbody : bodyMult x y z = rawMult x y z := by rw [bodyMult, hch]
    have hmk : ∀ w, lex (w ++ [mk (l + 1)]) = lex (w ++ [mk (l + 1)]) := fun _ => rfl
    have hlex : ∀ {w : Script}, WF w → ∀ r, lex (w.str ++ r) = lex w.str ++ lex r := fun h r => lex_str_append h r
    obtain ⟨ts, u, hr1, hm1, hu, lu, su, -⟩ := role_read H hx lx (canStart_le hc (by omega)) (notJoin_above hc)
    have hdrop := topCount_above hc
    rw [hstr]
    rw [rawMult_eq, tailRoles] at hbody
    by_cases hze : z.empty = false
    · rw [if_pos hze] at hbody
      have s2 := canStart_second h5 hc ts
      obtain ⟨ts', v, hr2, hm2, hv, lv, sv, -⟩ := role_read H hy ly s2.1 s2.2
      have s3 := canStart_third h5 hc ts ts'
      obtain ⟨ts'', w, hr3, hm3, hw, lw, sw, -⟩ := role_read H hz lz s3.1 s3.2
      obtain ⟨t, h1, h2, h3, h4, h6⟩ := product_read hx hy hz lx ly lz hcard h5 hu hv hw lu lv lw su sv sw
      refine ⟨t, h2, h3, h4, h6, ?_⟩
      rw [hbody, List.append_assoc, hlex hx, List.append_assoc, hlex hy, hlex hz, lex_mk (by omega)]
      simp only [run_append, hr1, hr2, hr3, bind, Except.bind]
      rw [run_mark, topCount_push, topCount_push, topCount_push, hdrop]
      simp [reduceProduct, List.mapM_cons, hm1, hm2, hm3, bind, Except.bind, pure, Except.pure, h1]
    · have hze : z.empty = true := by simpa using hze
      have ez : z = null l := lz ▸ role_empty rz hze
      subst ez
      rw [if_neg (by simp [hze])] at hbody
      by_cases hye : y.empty = false
      · rw [if_pos hye] at hbody
        have s2 := canStart_second h5 hc ts
        obtain ⟨ts', v, hr2, hm2, hv, lv, sv, -⟩ := role_read H hy ly s2.1 s2.2
        obtain ⟨t, h1, h2, h3, h4, h6⟩ := product_read hx hy hz lx ly lz hcard h5 hu hv hnull lu lv rfl su sv rfl
        refine ⟨t, h2, h3, h4, h6, ?_⟩
        rw [hbody, List.append_assoc, hlex hx, hlex hy, lex_mk (by omega)]
        simp only [run_append, hr1, hr2, bind, Except.bind]
        rw [run_mark, topCount_push, topCount_push, hdrop]
        simp [reduceProduct, List.mapM_cons, hm1, hm2, bind, Except.bind, pure, Except.pure, mkMult_two, lu, h1]
      · have hye : y.empty = true := by simpa using hye
        have ey : y = null l := ly ▸ role_empty ry hye
        subst ey
        rw [if_neg (by simp [hye])] at hbody
        obtain ⟨t, h1, h2, h3, h4, h6⟩ := product_read hx hy hz lx ly lz hcard h5 hu hnull hnull lu rfl rfl su rfl rfl
        refine ⟨t, h2, h3, h4, h6, ?_⟩
        rw [hbody, List.append_nil, hlex hx, lex_mk (by omega)]
        simp only [run_append, hr1, bind, Except.bind]
        rw [run_mark, topCount_push, hdrop]
        simp [reduceProduct, List.mapM_cons, hm1, bind, Except.bind, pure, Except.pure, mkMult_one, lu, h1]

theorem item_read (l : Nat) : ItemRead l := by
  induction l with
  | zero => exact item_read_zero
  | succ l ih => exact item_read_succ ih

/-- Reading the text of a script gives a script with the same text. -/
theorem parse_str_plain {s : Script} (hs : WF s) : ∃ t, parseScript s.str = .ok t ∧ WF t ∧ t.str = s.str ∧ Plain t := by
  obtain ⟨ts, u, hr, hu, h1, h2, h3, h4, h5⟩ := role_read (item_read s.layer) hs rfl (st := []) trivial trivial
  unfold parseScript
  rw [hr]
  simp only [bind, Except.bind]
  match ts with
  | [] => simp [mkAdd] at hu
  | [t] =>
    exact ⟨t, rfl, h4 t rfl⟩
  | t :: t' :: ts =>
    simp only [finish, hu]
    refine ⟨u, rfl, h1, h3, fun c hc => ?_⟩
    subst hc
    -- the text is that of a sum of several items
    have hs' : s.isAdd = true ∧ Plain s := by
      cases s with
      | add cs =>
        refine ⟨rfl, fun c hc => ?_⟩
        rw [hc] at h5
        simp [items, remAdd?_single] at h5
      | _ => simp [items] at h5
    have hc := terms_wf h1 c (by simp [terms])
    exact str_add_ne hs hs'.2 hs'.1 hc.1 hc.2.1 (by
      rw [← h3]; simp [str_add, remAdd?_single, joinPlus])

theorem parse_str {s : Script} (hs : WF s) : ∃ t, parseScript s.str = .ok t ∧ WF t ∧ t.str = s.str := by
  obtain ⟨t, h1, h2, h3, _⟩ := parse_str_plain hs
  exact ⟨t, h1, h2, h3⟩

end Verif
