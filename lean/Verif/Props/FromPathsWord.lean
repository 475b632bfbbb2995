import Verif.Props.FromPathsLexeme

/-
C51: a word is assembled again from its paths and morphemes.
-/

namespace Verif
open Script

/-! ### Words with other lexemes of the same texts -/

theorem word_relabel {t : SType} {f : SFun Lexeme} {role : Addr} {w : WordUsl} (hok : OkFun t f) (hw : mkWord f role t = .ok w) (hrole : ∃ x, (role, x) ∈ f.asList t)
    {P : List (Addr × Lexeme)} (hP : f.asList t = P.map fun e => (e.1, some e.2)) {y : Addr × Lexeme → Lexeme} (hy : ∀ e ∈ P, SameLexeme (y e) e.2) :
    ∃ f2 w', fromList (P.map fun e => (e.1, some (y e))) = .ok (t, f2) ∧ mkWord f2 role t = .ok w' ∧ SameWord w' w ∧
      f2.asList t = P.map fun e => (e.1, some (y e)) := by
  obtain ⟨x0, hrole⟩ := hrole
  rw [asList_items] at hrole
  obtain ⟨⟨r, x1⟩, hr, he⟩ := List.mem_map.1 hrole
  simp only [pushAddr, Prod.mk.injEq] at he
  obtain ⟨rfl, rfl⟩ := he
  have hdrop : (t.pre ++ r).drop t.pre.length = r := by simp
  obtain ⟨text, h1, h2⟩ := bind_ok.1 hw
  obtain ⟨cl, h3, h4⟩ := bind_ok.1 h2
  rw [pure_ok] at h4
  subst h4
  have h1 : f.render Lexeme.text (t.pre ++ r) t = .ok text := h1
  unfold SFun.render at h1
  rw [hdrop, expansion_leaf hok hr] at h1
  have h1 := (Except.ok.inj h1).symm
  have h1 : text = c!"[" ++ joinChevron ((pySort (fun a b => addrLt a.1 b.1) f.items).map (itemText Lexeme.text [r] t.pre)) ++ c!"]" := h1
  have hlist : relab (f.asList t) (P.map fun e => some (y e)) = P.map fun e => (e.1, some (y e)) := by
    rw [hP, relab, List.zipWith_map_right, List.zipWith_map_left, List.zipWith_self]
  obtain ⟨f2, g1, g2, _⟩ := relabel (β := Lexeme) hok (xs := P.map fun e => some (y e)) (by rw [hP]; simp)
  rw [hlist] at g1 g2
  have hok2 := fromList_shape g1
  have htexts : (f2.items.map fun e => (e.1, actorText Lexeme.text e.2)) = f.items.map fun e => (e.1, actorText Lexeme.text e.2) := by
    have h5 : ((f2.items.map fun e => (e.1, actorText Lexeme.text e.2)).map fun e => (t.pre ++ e.1, e.2)) =
        (f.items.map fun e => (e.1, actorText Lexeme.text e.2)).map fun e => (t.pre ++ e.1, e.2) := by
      have h6 : ∀ g : SFun Lexeme, ((g.items.map fun e => (e.1, actorText Lexeme.text e.2)).map fun e => (t.pre ++ e.1, e.2)) =
          (g.asList t).map fun e => (e.1, actorText Lexeme.text e.2) := by
        intro g
        rw [asList_items, List.map_map, List.map_map]
        rfl
      rw [h6, h6, g2, hP, List.map_map, List.map_map]
      refine List.map_congr_left fun e he => ?_
      show (e.1, (y e).text) = (e.1, e.2.text)
      rw [(hy e he).text]
    refine List.map_injective_iff.2 ?_ h5
    rintro ⟨a, x⟩ ⟨b, y⟩ h
    simpa using h
  obtain ⟨x2, hr2⟩ : ∃ x2, (r, x2) ∈ f2.items := by
    have : (r, actorText Lexeme.text x1) ∈ f2.items.map fun e => (e.1, actorText Lexeme.text e.2) := by
      rw [htexts]
      exact List.mem_map.2 ⟨_, hr, rfl⟩
    obtain ⟨⟨a, x⟩, h6, h7⟩ := List.mem_map.1 this
    simp only [Prod.mk.injEq] at h7
    obtain ⟨rfl, _⟩ := h7
    exact ⟨x, h6⟩
  have hsort := sort_items (text := Lexeme.text) (l := f2.items) (l' := f.items) (by
    intro e he
    rcases List.mem_append.1 he with he | he
    · exact items_address hok2 e he
    · exact items_address hok e he) (items_nodup hok) (.of_eq htexts)
  have hjoin : (pySort (fun a b => addrLt a.1 b.1) f2.items).map (itemText Lexeme.text [r] t.pre) =
      (pySort (fun a b => addrLt a.1 b.1) f.items).map (itemText Lexeme.text [r] t.pre) := by
    have hfac : itemText Lexeme.text [r] t.pre = (fun p : Addr × Str => (if p.1 ∈ [r] then c!"! " else []) ++
        (match t.pre with | [] => [] | p :: _ => p ++ c!" ") ++ roleText p.1 ++ c!" " ++ p.2) ∘ fun e => (e.1, actorText Lexeme.text e.2) := rfl
    rw [hfac, ← List.map_map, hsort, ← List.map_map]
  have hmk : mkWord f2 (t.pre ++ r) t = .ok ⟨f2, t.pre ++ r, t, text, cl⟩ := by
    have hren : f2.render Lexeme.text (t.pre ++ r) t = .ok text := by
      unfold SFun.render
      rw [hdrop, expansion_leaf hok2 hr2, h1, ← hjoin]
      rfl
    unfold mkWord
    rw [hren, h3]
    rfl
  refine ⟨f2, _, g1, hmk, ⟨rfl, rfl, rfl, rfl, f2.asList t, .refl _, ?_⟩, g2⟩
  show List.Forall₂ _ (f2.asList t) (f.asList t)
  rw [g2, hP, List.forall₂_map_left_iff, List.forall₂_map_right_iff, List.forall₂_same]
  exact fun e he => ⟨rfl, hy e he⟩

/-! ### The items of a word -/

theorem roleText_inj {a b : Addr} (ha : ∀ x ∈ a, x ∈ addressScripts) (hb : ∀ x ∈ b, x ∈ addressScripts) (h : roleText a = roleText b) : a = b := by
  have hs : ∀ x ∈ addressScripts, x ≠ [] ∧ ' ' ∉ x := by decide +kernel
  exact joinSpace_inj (fun s hm => hs s (ha s hm)) (fun s hm => hs s (hb s hm)) h

/-- Whether a role is the focus. -/
def isFocus (role a : Addr) : Bool := decide (roleText a = roleText role)

/-- The listed morphemes of the actors, with their paths. -/
def wordItems (role : Addr) (P : List (Addr × Lexeme)) : List (Path × Script) :=
  P.flatMap fun e => (lexItems e.2).map fun i => (.role e.1 (isFocus role e.1) :: i.1, i.2)

theorem lexeme_paths_ne {x : Lexeme} {e : Path × Node} (h : e ∈ x.paths) : e.1 ≠ [] := by
  unfold Lexeme.paths at h
  rw [List.mem_append, List.mem_cons, List.mem_cons] at h
  rcases h with (rfl | h) | rfl | h
  · simp
  · obtain ⟨y, _, rfl⟩ := List.mem_map.1 h
    simp
  · simp
  · obtain ⟨y, _, rfl⟩ := List.mem_map.1 h
    simp

theorem endsInMorpheme_cons (s : Step) {p : Path} (h : p ≠ []) : endsInMorpheme (s :: p) = endsInMorpheme p := by
  unfold endsInMorpheme pathTail
  rw [List.getLast?_cons_of_ne_nil h]

theorem scriptPaths_flatMap {α : Type} (l : List α) (f : α → List (Path × Node)) : scriptPaths (l.flatMap f) = l.flatMap fun a => scriptPaths (f a) := by
  induction l with
  | nil => rfl
  | cons a l ih => rw [List.flatMap_cons, List.flatMap_cons, scriptPaths_append, ih]

theorem takeApart_word {w : WordUsl} {P : List (Addr × Lexeme)} (hP : w.sfun.asList w.context = P.map fun e => (e.1, some e.2)) :
    takeApart (.word w) = .ok ((wordItems w.role P).map fun e => (pathText e.1, e.2.str)) := by
  have hm : (w.sfun.asList w.context).mapM (rolePaths w.role) =
      .ok (P.map fun e => ([.role e.1 (isFocus w.role e.1)], .expr (.lexeme e.2)) :: e.2.paths.map fun y => (.role e.1 (isFocus w.role e.1) :: y.1, y.2)) := by
    refine mapM_of_forall₂ ?_
    rw [hP, List.forall₂_map_left_iff, List.forall₂_map_right_iff, List.forall₂_same]
    exact fun e _ => rfl
  unfold takeApart Expr.paths WordUsl.paths
  simp only
  rw [hm]
  show Except.ok _ = _
  congr 1
  rw [show ∀ (a : Path × Node) l, a :: l = [a] ++ l from fun _ _ => rfl, scriptPaths_append, ← List.flatMap_def, scriptPaths_flatMap, show scriptPaths [([Step.usl], Node.expr (.word w))] = [] from rfl,
    List.nil_append, wordItems, List.map_flatMap, List.map_flatMap]
  refine List.flatMap_congr fun e _ => ?_
  rw [show ∀ (a : Path × Node) l, a :: l = [a] ++ l from fun _ _ => rfl, scriptPaths_append, scriptPaths_map, scriptPaths_lexeme]
  · show List.map _ ([] ++ _) = _
    rw [List.nil_append, List.map_map, List.map_map, List.map_map]
    rfl
  · exact fun y hy => endsInMorpheme_cons _ (lexeme_paths_ne hy)

/-- The addresses that can be written. -/
def WrittenAddr (a : Addr) : Prop := a ≠ [] ∧ ∀ x ∈ a, x ∈ addressScripts

theorem role_text_inj {a b : Addr} {f g : Bool} (ha : WrittenAddr a) (hb : WrittenAddr b) (h : (Step.role a f).text = (Step.role b g).text) : a = b := by
  obtain ⟨p, h1, h2, _⟩ := C66_read (.role f ha.1 ha.2 (.inl rfl))
  obtain ⟨q, h3, h4, _⟩ := C66_read (.role g hb.1 hb.2 (.inl rfl))
  have : pathText [.role a f] = pathText [.role b g] := by simp only [pathText, List.flatMap_cons, List.flatMap_nil, h]
  rw [this, h3] at h1
  cases h1
  cases h2 with
  | @cons _ u _ _ h2 _ =>
    cases h4 with
    | cons h4 _ =>
      cases u with
      | role c d => exact h2.1.trans h4.1.symm
      | _ => exact h2.elim

theorem wordItems_ok {role : Addr} {P : List (Addr × Lexeme)} (ha : ∀ e ∈ P, WrittenAddr e.1) (hx : ∀ e ∈ P, LexemeForm e.2) {i : Path × Script} (hi : i ∈ wordItems role P) :
    Written i.1 ∧ WF i.2 ∧ Readable i.2 := by
  obtain ⟨e, he, hi⟩ := List.mem_flatMap.1 hi
  obtain ⟨j, hj, rfl⟩ := List.mem_map.1 hi
  have := lexItems_ok (hx e he) hj
  exact ⟨.role _ (ha e he).1 (ha e he).2 (.inr this.1), this.2⟩

theorem role_texts {role : Addr} {P : List (Addr × Lexeme)} (ha : ∀ e ∈ P, WrittenAddr e.1) (hn : (P.map Prod.fst).Nodup) :
    (P.map fun e => (Step.role e.1 (isFocus role e.1)).text).Nodup :=
  nodup_map_of (fun a h b h' e => role_text_inj (ha a h) (ha b h') e) hn

theorem wordItems_texts {role : Addr} {P : List (Addr × Lexeme)} (ha : ∀ e ∈ P, WrittenAddr e.1) (hn : (P.map Prod.fst).Nodup) (hx : ∀ e ∈ P, LexemeForm e.2) :
    ((wordItems role P).map fun e => pathText e.1).Nodup := by
  refine nodup_map_of (f := fun e => e.1.map Step.text) (fun a h b h' e => steps_of_text (wordItems_ok ha hx h).1 (wordItems_ok ha hx h').1 e) ?_
  rw [wordItems, List.map_flatMap, List.nodup_flatMap]
  constructor
  · intro e he
    rw [List.map_map]
    refine nodup_map_of ?_ (lexItems_steps (hx e he))
    intro a _ b _ h
    have : (_ :: _ : List Str) = _ :: _ := h
    exact (List.cons.inj this).2
  · have := role_texts (role := role) ha hn
    rw [List.Nodup, List.pairwise_map] at this
    refine this.imp fun {a b} h => ?_
    intro z hz hz'
    obtain ⟨i, hi, rfl⟩ := List.mem_map.1 hz
    obtain ⟨j, hj, rfl⟩ := List.mem_map.1 hi
    obtain ⟨i', hi', e⟩ := List.mem_map.1 hz'
    obtain ⟨j', hj', rfl⟩ := List.mem_map.1 hi'
    have e : (_ :: _ : List Str) = _ :: _ := e
    exact h (List.cons.inj e).1.symm

/-! ### Assembling -/

/-- The focus is found. -/
theorem focus_fold {role : Addr} {y : Addr × Lexeme → Lexeme} : ∀ {P : List (Addr × Lexeme)}, (P.map Prod.fst).Nodup → (∀ e ∈ P, isFocus role e.1 = decide (e.1 = role)) →
    ∀ (a : Option Addr), (a = none ∧ role ∈ P.map Prod.fst) ∨ (a = some role ∧ role ∉ P.map Prod.fst) →
    (P.map fun e => (Step.role e.1 (isFocus role e.1), Built'.usl (.lexeme (y e)))).foldlM focusStep a = .ok (some role)
  | [], _, _, a, h => by
    rcases h with ⟨_, h⟩ | ⟨rfl, _⟩
    · cases h
    · rfl
  | e :: P, hn, hf, a, h => by
    rw [List.map_cons, List.nodup_cons] at hn
    rw [List.map_cons, List.foldlM_cons]
    have he := hf e (by simp)
    by_cases hr : e.1 = role
    · have hs : focusStep a (.role e.1 (isFocus role e.1), .usl (.lexeme (y e))) = .ok (some role) := by
        rcases h with ⟨rfl, _⟩ | ⟨_, h⟩
        · rw [he, hr]
          simp [focusStep]
        · simp [hr] at h
      rw [hs]
      exact focus_fold hn.2 (fun x hx => hf x (List.mem_cons_of_mem _ hx)) _ (.inr ⟨rfl, hr ▸ hn.1⟩)
    · have hs : focusStep a (.role e.1 (isFocus role e.1), .usl (.lexeme (y e))) = .ok a := by
        rw [he]
        simp [focusStep, hr]
      rw [hs]
      refine focus_fold hn.2 (fun x hx => hf x (List.mem_cons_of_mem _ hx)) a ?_
      rcases h with ⟨h1, h⟩ | ⟨h1, h⟩
      · rw [List.map_cons, List.mem_cons] at h
        exact .inl ⟨h1, h.resolve_left fun h => hr h.symm⟩
      · rw [List.map_cons, List.mem_cons, not_or] at h
        exact .inr ⟨h1, h.2⟩

/-- Every role has its own entry. -/
theorem role_fold {role : Addr} {y : Addr × Lexeme → Lexeme} : ∀ {P Q : List (Addr × Lexeme)}, ((Q ++ P).map fun e => (Step.role e.1 (isFocus role e.1)).text).Nodup →
    (P.map fun e => (Step.role e.1 (isFocus role e.1), Built'.usl (.lexeme (y e)))).foldl (roleGroup role) (Q.map fun e => ((e.1, isFocus role e.1), [Built'.usl (.lexeme (y e))])) =
      (Q ++ P).map fun e => ((e.1, isFocus role e.1), [Built'.usl (.lexeme (y e))])
  | [], Q, _ => by simp
  | e :: P, Q, hn => by
    have hf : ∀ k ∈ Q.map (fun e => ((e.1, isFocus role e.1), [Built'.usl (.lexeme (y e))])),
        (Step.role k.1.1 k.1.2).text ≠ (Step.role e.1 (isFocus role e.1)).text := by
      intro k hk
      obtain ⟨x, hx, rfl⟩ := List.mem_map.1 hk
      rw [List.map_append, List.nodup_append] at hn
      exact hn.2.2 _ (List.mem_map_of_mem (f := fun e : Addr × Lexeme => (Step.role e.1 (isFocus role e.1)).text) hx) _ (by simp)
    have hs : roleGroup role (Q.map fun e => ((e.1, isFocus role e.1), [Built'.usl (.lexeme (y e))])) (.role e.1 (isFocus role e.1), .usl (.lexeme (y e))) =
        (Q ++ [e]).map fun e => ((e.1, isFocus role e.1), [Built'.usl (.lexeme (y e))]) := by
      have hk : (decide (roleText role = roleText e.1) && !isFocus role e.1) = false := by
        unfold isFocus
        by_cases h : roleText e.1 = roleText role
        · simp [h]
        · simp [Ne.symm h]
      unfold roleGroup
      simp only [hk]
      rw [if_neg (by simp), dictGet_fresh (key := fun k : Addr × Bool => (Step.role k.1 k.2).text) (k := (e.1, isFocus role e.1)) hf,
        dictSet_fresh (key := fun k : Addr × Bool => (Step.role k.1 k.2).text) (k := (e.1, isFocus role e.1)) hf]
      simp
    rw [List.map_cons, List.foldl_cons, hs, role_fold (P := P) (Q := Q ++ [e]) (by simpa using hn)]
    simp

/-- The actors of a word. -/
theorem word_actors {t : SType} {f : SFun Lexeme} {role : Addr} (hok : OkFun t f) (hrole : ∃ x, (role, x) ∈ f.asList t) (hx : ∀ e ∈ f.asList t, ∃ x, e.2 = some x ∧ LexemeForm x) :
    ∃ P : List (Addr × Lexeme), f.asList t = P.map (fun e => (e.1, some e.2)) ∧ (∀ e ∈ P, LexemeForm e.2) ∧ (∀ e ∈ P, WrittenAddr e.1) ∧ (P.map Prod.fst).Nodup ∧
      role ∈ P.map Prod.fst ∧ ∀ e ∈ P, isFocus role e.1 = decide (e.1 = role) := by
  obtain ⟨P, hP, hPx⟩ : ∃ P : List (Addr × Lexeme), f.asList t = P.map (fun e => (e.1, some e.2)) ∧ ∀ e ∈ P, LexemeForm e.2 := by
    generalize f.asList t = A at hx
    clear hrole hok
    induction A with
    | nil => exact ⟨[], rfl, by simp⟩
    | cons e A ih =>
      obtain ⟨x, h1, h2⟩ := hx e (by simp)
      obtain ⟨P, h3, h4⟩ := ih fun e he => hx e (List.mem_cons_of_mem _ he)
      refine ⟨(e.1, x) :: P, ?_, ?_⟩
      · rw [List.map_cons, ← h3, ← h1]
      · intro e he
        rcases List.mem_cons.1 he with rfl | he
        · exact h2
        · exact h4 e he
  have haddr : ∀ e ∈ P, WrittenAddr e.1 := by
    intro e he
    have : (e.1, some e.2) ∈ f.asList t := by rw [hP]; exact List.mem_map.2 ⟨e, he, rfl⟩
    rw [asList_items] at this
    obtain ⟨i, hi, h⟩ := List.mem_map.1 this
    have h : t.pre ++ i.1 = e.1 := (Prod.mk.inj h).1
    rw [← h]
    refine ⟨full_address hok i hi, fun x hx => ?_⟩
    rcases List.mem_append.1 hx with hx | hx
    · exact pre_address t x hx
    · exact items_address hok i hi x hx
  have hnod : (P.map Prod.fst).Nodup := by
    have h1 : P.map Prod.fst = (f.items.map (·.1)).map (t.pre ++ ·) := by
      have : P.map Prod.fst = (f.asList t).map (·.1) := by rw [hP, List.map_map]; rfl
      rw [this, asList_items, List.map_map, List.map_map]
      rfl
    rw [h1]
    exact (items_nodup hok).map (fun a b h => List.append_cancel_left h)
  have hrP : role ∈ P.map Prod.fst := by
    obtain ⟨x, h⟩ := hrole
    rw [hP] at h
    obtain ⟨e, he, h⟩ := List.mem_map.1 h
    exact List.mem_map.2 ⟨e, he, (Prod.mk.inj h).1⟩
  have hra : WrittenAddr role := by
    obtain ⟨e, he, h⟩ := List.mem_map.1 hrP
    exact h ▸ haddr e he
  have hfo : ∀ e ∈ P, isFocus role e.1 = decide (e.1 = role) := by
    intro e he
    unfold isFocus
    exact decide_eq_decide.2 ⟨fun h => roleText_inj (haddr e he).2 hra.2 h, fun h => by rw [h]⟩
  exact ⟨P, hP, hPx, haddr, hnod, hrP, hfo⟩

/-- **C51, words, what holds.** A word whose actors are lexemes that can be taken apart and whose role is the address of one of them is assembled
again from its paths and morphemes.  Missing: the words whose role is a junction (`C51_violated_focus`), and those of other lexemes. -/
theorem C51_word_partial {ord : List Expr → List Expr} (ho : Rearranges ord) {l : List (RoleEntry Lexeme)} {t : SType} {f : SFun Lexeme} {role : Addr} {w : WordUsl}
    (hf : fromList l = .ok (t, f)) (hw : mkWord f role t = .ok w) (hrole : ∃ x, (role, x) ∈ f.asList t) (hx : ∀ e ∈ f.asList t, ∃ x, e.2 = some x ∧ LexemeForm x) :
    ∃ w', reassemble ord (.word w) = .ok (.word w') ∧ SameWord w' w := by
  have hok := fromList_shape hf
  obtain ⟨P, hP, hPx, haddr, hnod, hrP, hfo⟩ := word_actors hok hrole hx
  -- what is read
  obtain ⟨T, M, hT, hM, hr⟩ := read_all (L := wordItems role P) (fun e he => wordItems_ok haddr hPx he) (wordItems_texts haddr hnod hPx)
  have hT' : ∀ e ∈ P, ∀ i ∈ lexItems e.2, T (.role e.1 (isFocus role e.1) :: i.1) = .role e.1 (isFocus role e.1) :: (T (.role e.1 (isFocus role e.1) :: i.1)).tail ∧
      Alike i.1 (T (.role e.1 (isFocus role e.1) :: i.1)).tail := by
    intro e he i hi
    have h := hT (.role e.1 (isFocus role e.1) :: i.1, i.2) (List.mem_flatMap.2 ⟨e, he, List.mem_map.2 ⟨i, hi, rfl⟩⟩)
    have h : Alike (.role e.1 (isFocus role e.1) :: i.1) (T (.role e.1 (isFocus role e.1) :: i.1)) := h
    generalize T (.role e.1 (isFocus role e.1) :: i.1) = s at h
    cases h with
    | @cons _ u _ _ h1 h2 =>
      cases u with
      | role a b => obtain ⟨rfl, rfl⟩ := h1; exact ⟨rfl, h2⟩
      | _ => exact h1.elim
  have hall : ∀ e, ∃ b y, e ∈ P → groupAll Bin.empty ((lexItems e.2).map fun i => ((T (.role e.1 (isFocus role e.1) :: i.1)).tail, [.script (M i.2)])) = .ok b ∧
      b.build ord = .ok (.usl (.lexeme y)) ∧ SameLexeme y e.2 := by
    intro e
    by_cases he : e ∈ P
    · obtain ⟨b, y, h⟩ := lexeme_assembled ho (hPx e he) (T := fun p => (T (.role e.1 (isFocus role e.1) :: p)).tail) (fun i hi => (hT' e he i hi).2) hM
      exact ⟨b, y, fun _ => h⟩
    · exact ⟨.empty, e.2, fun h => absurd h he⟩
  choose b y hby using hall
  have hPne : P ≠ [] := by
    rintro rfl
    cases hrP
  have hblocks := groupAll_blocks (c := .role) (n := none) (t := none) (kids := [])
    (B := P.map fun e => (.role e.1 (isFocus role e.1), (lexItems e.2).map fun i => ((T (.role e.1 (isFocus role e.1) :: i.1)).tail, [.script (M i.2)])))
    (bs := P.map b) (.inl rfl) (by simpa using hPne) (by
      intro x hx
      obtain ⟨e, he, rfl⟩ := List.mem_map.1 hx
      refine ⟨rfl, ?_, fun x hx => ?_⟩
      · obtain ⟨fc, fg, cc, cg, _, _, h, _⟩ := hPx e he
        simpa using lexItems_ne e.2 (fc := fc) (fg := fg) (by rw [h]; rfl)
      · obtain ⟨i, hi, rfl⟩ := List.mem_map.1 hx
        have h1 := (hT' e he i hi).2
        have h2 : i.1 ≠ [] := by
          rcases List.mem_append.1 hi with hi | hi <;> obtain ⟨z, _, rfl⟩ := List.mem_map.1 hi <;> simp
        intro h3
        have h3 : (T (.role e.1 (isFocus role e.1) :: i.1)).tail = [] := h3
        rw [h3] at h1
        cases h4 : i.1 with
        | nil => exact h2 h4
        | cons a p => rw [h4] at h1; cases h1) (by
      rw [List.forall₂_map_left_iff, List.forall₂_map_right_iff, List.forall₂_same]
      exact fun e he => (hby e he).1) (by
      rw [List.map_nil, List.nil_append, List.map_map]
      exact role_texts haddr hnod)
  have hlist : (wordItems role P).map (fun e => (T e.1, [Expr.script (M e.2)])) =
      (P.map fun e => (Step.role e.1 (isFocus role e.1), (lexItems e.2).map fun i => ((T (.role e.1 (isFocus role e.1) :: i.1)).tail, [Expr.script (M i.2)]))).flatMap
        fun e => e.2.map fun x => (e.1 :: x.1, x.2) := by
    rw [wordItems, List.map_flatMap, List.flatMap_map]
    refine List.flatMap_congr fun e he => ?_
    rw [List.map_map, List.map_map]
    refine List.map_congr_left fun i hi => ?_
    simp only [Function.comp_def]
    rw [← (hT' e he i hi).1]
  rw [← hlist, List.nil_append, List.map_map, List.zip_map'] at hblocks
  obtain ⟨f2, w', k1, k2, k3, _⟩ := word_relabel hok hw hrole hP (y := y) fun e he => (hby e he).2.2
  refine ⟨w', ?_, k3⟩
  have hw' : w.sfun = f ∧ w.role = role ∧ w.context = t := by
    obtain ⟨text, _, h2⟩ := bind_ok.1 hw
    obtain ⟨cl, _, h4⟩ := bind_ok.1 h2
    rw [pure_ok] at h4
    subst h4
    exact ⟨rfl, rfl, rfl⟩
  have hta := takeApart_word (w := w) (P := P) (by rw [hw'.1, hw'.2.2, hP])
  rw [hw'.2.1] at hta
  unfold reassemble
  rw [hta]
  refine fromPaths_of ho hr ?_ hblocks ?_
  · intro e he
    obtain ⟨x, _, rfl⟩ := List.mem_map.1 he
    exact ⟨_, rfl⟩
  · rw [Bin.build, buildKids_of (vs := P.map fun e => .usl (.lexeme (y e))) (by
      rw [List.forall₂_map_left_iff, List.forall₂_map_right_iff, List.forall₂_same]
      exact fun e he => (hby e he).2.1), List.map_map, List.zip_map']
    show (buildUsl ord (some .role) (P.map fun e => (Step.role e.1 (isFocus role e.1), Built'.usl (.lexeme (y e)))) >>= _) = _
    unfold buildUsl
    simp only
    unfold buildWord
    rw [focus_fold hnod hfo none (.inl ⟨rfl, hrP⟩)]
    show (((((P.map fun e => (Step.role e.1 (isFocus role e.1), Built'.usl (.lexeme (y e)))).foldl (roleGroup role) []).mapM roleLexeme >>= _) >>= _) >>= _) = _
    have := role_fold (role := role) (y := y) (P := P) (Q := []) (role_texts haddr hnod)
    rw [List.map_nil, List.nil_append] at this
    rw [this, mapM_of_forall₂ (ys := P.map fun e => (e.1, some (y e))) (by
      rw [List.forall₂_map_left_iff, List.forall₂_map_right_iff, List.forall₂_same]
      exact fun e _ => rfl)]
    show (((fromList _ >>= _) >>= _) >>= _) = _
    rw [k1]
    show (((mkWord f2 role t) >>= _) >>= _) = _
    rw [k2]
    rfl

/-- A process with a lexeme and a junction of two lexemes. -/
def demoActors : List (RoleEntry Lexeme) :=
  [([c!"E:T:."], some demoLexeme), ([c!"E:.n.-", demoLink, demoFirst], some demoLexeme), ([c!"E:.n.-", demoLink, demoSecond], some demoLexeme)]

-- A word meeting the hypotheses.
example : ∃ t f w, fromList demoActors = .ok (t, f) ∧ mkWord f [c!"E:T:."] t = .ok w ∧ (∃ x, ([c!"E:T:."], x) ∈ f.asList t) ∧
    (∀ e ∈ f.asList t, ∃ x, e.2 = some x ∧ LexemeForm x) := by
  refine ⟨_, _, _, rfl, rfl, ⟨_, List.mem_cons_self⟩, ?_⟩
  intro e he
  have he : e ∈ demoActors := he
  unfold demoActors at he
  simp only [List.mem_cons, List.not_mem_nil, or_false] at he
  rcases he with rfl | rfl | rfl <;> exact ⟨_, rfl, demoLexeme_form⟩

/-- The text after taking apart and assembling a word. -/
def tripWord (l : List (RoleEntry Lexeme)) (role : Addr) : Except Err (Bool × Str) := do
  let r ← fromList l
  let w ← mkWord r.2 role r.1
  let s ← tripText (.word w)
  return (decide (s = w.text), s)

/-- **C51 is violated by words whose role is a junction**: none of the paths has the focus. -/
theorem C51_violated_focus : (∃ t f w, fromList demoActors = .ok (t, f) ∧ mkWord f [c!"E:.n.-"] t = .ok w) ∧ tripWord demoActors [c!"E:.n.-"] = .error .valueError ∧
    tripWord demoActors [c!"E:T:."] = .ok (true,
      c!"[! E:T:. (E:S:U:. m1(E:U:U:. E:U:A:.))(A: m2(B: T:)) > E:.n.- E:S:.-k.u.-' j.-U:.-'d.o.-l.o.-', (E:S:U:. m1(E:U:U:. E:U:A:.))(A: m2(B: T:)) > E:.n.- E:S:.-k.u.-' j.-A:.-'d.o.-l.o.-', (E:S:U:. m1(E:U:U:. E:U:A:.))(A: m2(B: T:))]") :=
  ⟨⟨_, _, _, rfl, rfl⟩, by decide +kernel, by decide +kernel⟩

end Verif
