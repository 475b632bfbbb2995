import Verif.Props.Instance
import Verif.Props.DecorationList

/-
C88, continued: the objects that the text of a decorated expression leads to, and the instance that is read.
-/

namespace Verif
open Script

/-! ### The objects of the same expression -/

/-- The same object, listed with the same path. -/
def SameEntry (e' e : Path × Ref) : Prop := Alike e'.1 e.1 ∧ e'.2 = e.2

theorem forall₂_strs {α : Type} {f : Script → α} {R : α → α → Prop} (hf : ∀ a b : Script, a.str = b.str → R (f a) (f b)) :
    ∀ {l' l : List Script}, l'.map str = l.map str → List.Forall₂ R (l'.map f) (l.map f)
  | [], [], _ => .nil
  | [], _ :: _, h => by simp at h
  | _ :: _, [], h => by simp at h
  | a :: l', b :: l, h => by
    simp only [List.map_cons, List.cons.injEq] at h
    exact .cons (hf a b h.1) (forall₂_strs hf h.2)

theorem alike_one {s t : Step} (h : AlikeStep s t) : Alike [s] [t] := .cons h .nil

theorem same_group (uk : Str → Str) (i : GIdx) {g' g : Group} (h : (g'.1.map str, g'.2) = (g.1.map str, g.2)) :
    List.Forall₂ SameEntry (groupObjs uk i g') (groupObjs uk i g) := by
  simp only [Prod.mk.injEq] at h
  unfold groupObjs
  rw [h.2]
  refine .cons ⟨alike_one ⟨rfl, rfl, .inl rfl⟩, rfl⟩ (forall₂_strs (fun a b hab => ⟨alike_one ⟨rfl, by simp [hab], .inl rfl⟩, ?_⟩) h.1)
  simp [hab]

theorem same_pm_objs (uk : Str → Str) {p' p : PM} (h : SamePM p' p) : List.Forall₂ SameEntry (p'.objs uk) (p.objs uk) := by
  unfold PM.objs
  refine List.rel_append (.cons ⟨alike_one ⟨rfl, rfl, .inl rfl⟩, rfl⟩ (forall₂_strs (fun a b hab => ⟨alike_one ⟨rfl, by simp [hab], .inl rfl⟩, by simp [hab]⟩) h.constant)) ?_
  have hg := h.groups
  rcases h1 : p'.groups with _ | ⟨a, _ | ⟨b, _ | ⟨c, t⟩⟩⟩ <;> rcases h2 : p.groups with _ | ⟨a', _ | ⟨b', _ | ⟨c', t'⟩⟩⟩ <;> rw [h1, h2] at hg <;>
    simp only [List.map_cons, List.map_nil, List.cons.injEq, reduceCtorEq, and_false, and_true] at hg
  · exact .nil
  · exact same_group uk _ hg
  · exact List.rel_append (same_group uk _ hg.1) (same_group uk _ hg.2)
  · exact List.rel_append (List.rel_append (same_group uk _ hg.1) (same_group uk _ hg.2.1)) (same_group uk _ hg.2.2.1)

theorem alike_flexionChild {p q : Path} (h : Alike p q) : Alike (flexionChild p) (flexionChild q) := by
  cases h with
  | nil => exact .nil
  | @cons s t p q hst _ =>
    cases s <;> cases t <;> simp only [AlikeStep] at hst
    · exact .nil
    · rename_i g m k g' m' k'
      cases m <;> cases m' <;> simp at hst
      · exact .nil
      · exact alike_one hst.2.1
    · exact .nil
    · exact .nil
    · exact .nil

theorem same_lexeme_objs (uk : Str → Str) (r : Ref) {x' x : Lexeme} (h : SameLexeme x' x) : List.Forall₂ SameEntry (x'.objs uk r) (x.objs uk r) := by
  unfold Lexeme.objs
  refine List.rel_append (.cons ⟨alike_one rfl, rfl⟩ ?_) (.cons ⟨alike_one rfl, rfl⟩ ?_)
  · rw [List.forall₂_map_left_iff, List.forall₂_map_right_iff]
    exact (same_pm_objs uk h.flexion).imp fun a b hab => ⟨.cons rfl (alike_flexionChild hab.1), hab.2⟩
  · rw [List.forall₂_map_left_iff, List.forall₂_map_right_iff]
    exact (same_pm_objs uk h.content).imp fun a b hab => ⟨.cons rfl hab.1, hab.2⟩

theorem same_role_objs (uk : Str → Str) (pre focus : Addr) {e' e : RoleEntry Lexeme} (h : e'.1 = e.1 ∧ SameActor e'.2 e.2) {l : List (Path × Ref)}
    (hl : roleObjs uk pre focus e = .ok l) : ∃ l', roleObjs uk pre focus e' = .ok l' ∧ List.Forall₂ SameEntry l' l := by
  obtain ⟨r', x'⟩ := e'
  obtain ⟨r, x⟩ := e
  obtain ⟨h1, h2⟩ := h
  simp only at h1 h2
  subst h1
  cases x with
  | none => simp [roleObjs] at hl
  | some x =>
    cases x' with
    | none => exact h2.elim
    | some x' =>
      simp only [roleObjs, Except.ok.injEq] at hl
      subst hl
      refine ⟨_, rfl, .cons ⟨alike_one ⟨rfl, rfl⟩, rfl⟩ ?_⟩
      rw [List.forall₂_map_left_iff, List.forall₂_map_right_iff]
      exact (same_lexeme_objs uk _ h2).imp fun a b hab => ⟨.cons ⟨rfl, rfl⟩ hab.1, hab.2⟩

/-- The same expression has the same objects at the same paths. -/
theorem same_objs (uk : Str → Str) {u' u : Expr} (h : SameExpr u' u) {L : List (Path × Ref)} (hL : objsOf uk u false = .ok L) :
    ∃ L' M, objsOf uk u' false = .ok L' ∧ M.Perm L' ∧ List.Forall₂ SameEntry M L := by
  cases u with
  | script s => cases hL
  | pm p =>
    cases u' <;> simp only [SameExpr] at h
    cases hL
    exact ⟨_, _, rfl, .refl _, same_pm_objs uk h⟩
  | lexeme x =>
    cases u' <;> simp only [SameExpr] at h
    cases hL
    exact ⟨_, _, rfl, .refl _, same_lexeme_objs uk .root h⟩
  | word w =>
    cases u' <;> simp only [SameExpr] at h
    rename_i w'
    have hL : w.objs uk = .ok L := hL
    show ∃ L' M, w'.objs uk = .ok L' ∧ _
    unfold WordUsl.objs at hL ⊢
    obtain ⟨ls, h1, h2⟩ := bind_ok.1 hL
    cases h2
    obtain ⟨l, hp, hF⟩ := h.lexemes
    rw [h.role, show w'.context.pre = w.context.pre by rw [h.context]]
    have hex : ∀ {l m : List (RoleEntry Lexeme)} {ls : List (List (Path × Ref))}, List.Forall₂ (fun e' e => e'.1 = e.1 ∧ SameActor e'.2 e.2) l m →
        m.mapM (roleObjs uk w.context.pre w.role) = .ok ls →
        ∃ ls', l.mapM (roleObjs uk w.context.pre w.role) = .ok ls' ∧ List.Forall₂ SameEntry ls'.flatten ls.flatten := by
      intro l m ls hF
      induction hF generalizing ls with
      | nil => intro h; cases h; exact ⟨[], rfl, .nil⟩
      | cons hab _ ih =>
        intro h
        rw [List.mapM_cons] at h
        obtain ⟨a, h1, h⟩ := bind_ok.1 h
        obtain ⟨b, h2, h⟩ := bind_ok.1 h
        cases h
        obtain ⟨b', h3, h4⟩ := ih h2
        obtain ⟨a', h5, h6⟩ := same_role_objs uk _ _ hab h1
        exact ⟨a' :: b', by rw [List.mapM_cons, h5, h3]; rfl, List.rel_append h6 h4⟩
    obtain ⟨ls', h3, h4⟩ := hex hF h1
    obtain ⟨ls'', h5, h6⟩ := mapM_perm hp h3
    refine ⟨_, ([.usl], .root) :: ls'.flatten, by rw [h5]; rfl, (h6.flatten).cons _, .cons ⟨alike_one trivial, rfl⟩ h4⟩

/-! ### What is made by reading -/

theorem made_full {p : PM} (h : MadePM p) : FullGroups p := by
  obtain ⟨cs, gs, rfl, _⟩ := h
  exact fullGroups_mkPM cs gs

theorem made_fromRoles {u : Expr} (h : MadeExpr u) : FromRoles u := by
  cases u with
  | word w =>
    obtain ⟨⟨l, t, f, role, hf, hw, _⟩, _⟩ := h
    refine ⟨l, t, f, hf, ?_⟩
    have : w.role = role := by
      obtain ⟨text, h1, h2⟩ := bind_ok.1 hw
      obtain ⟨cl, h3, h4⟩ := bind_ok.1 h2
      rw [pure_ok] at h4
      subst h4
      rfl
    rw [this]
    exact hw
  | _ => trivial

theorem made_items {w : WordUsl} (h : MadeWord w) : ∀ e ∈ w.sfun.items, ∀ x, e.2 = some x → MadeLexeme x := by
  intro e he x hx
  refine h.actors (pushAddr w.context.pre e) ?_ x hx
  rw [asList_items]
  exact List.mem_map.2 ⟨e, he, rfl⟩

theorem made_fullFlexions {u : Expr} (h : MadeExpr u) : FullFlexions u := by
  cases u with
  | word w =>
    intro e he x hx
    obtain ⟨p, q, rfl, hp, _⟩ := made_items h.1 e he x hx
    exact made_full hp
  | lexeme x =>
    obtain ⟨p, q, rfl, hp, _⟩ := h
    exact made_full hp
  | _ => trivial

theorem same_oneDigit {p' p : PM} (hm : MadePM p') (hs : SamePM p' p) (h : OneDigit p) : OneDigit p' := by
  refine ⟨fun m hm' => wf_built (hm.parts.1 m hm'), fun g hg => ⟨?_, fun m hm' => wf_built (hm.parts.2 g hg m hm')⟩⟩
  have : (g.1.map str, g.2) ∈ p.groups.map fun g => (g.1.map str, g.2) := by
    rw [← hs.groups]
    exact List.mem_map.2 ⟨g, hg, rfl⟩
  obtain ⟨g', hg', e⟩ := List.mem_map.1 this
  simp only [Prod.mk.injEq] at e
  rw [← e.2]
  exact (h.2 g' hg').1

theorem same_oneDigitUsl {u' u : Expr} (hm : MadeExpr u') (hs : SameExpr u' u) (h : OneDigitUsl u) : OneDigitUsl u' := by
  have lex : ∀ {x' x : Lexeme}, MadeLexeme x' → SameLexeme x' x → OneDigit x.flexion ∧ OneDigit x.content → OneDigit x'.flexion ∧ OneDigit x'.content := by
    rintro x' x ⟨p, q, rfl, hp, hq⟩ hs h
    exact ⟨same_oneDigit hp hs.flexion h.1, same_oneDigit hq hs.content h.2⟩
  cases u <;> cases u' <;> simp only [SameExpr] at hs
  · trivial
  · exact same_oneDigit hm hs h
  · exact lex hm hs h
  · rename_i w w'
    intro e he x hx
    have hin : pushAddr w'.context.pre e ∈ w'.sfun.asList w'.context := by
      rw [asList_items]
      exact List.mem_map.2 ⟨e, he, rfl⟩
    obtain ⟨l, hp, hF⟩ := hs.lexemes
    obtain ⟨b, hb, h1, h2⟩ := forall₂_mem_left hF (hp.mem_iff.2 hin)
    rw [show (pushAddr w'.context.pre e).2 = some x from hx] at h2
    obtain ⟨r, y⟩ := b
    cases y with
    | none => exact h2.elim
    | some y =>
      rw [asList_items] at hb
      obtain ⟨c, hc, e2⟩ := List.mem_map.1 hb
      have h3 := h c hc y (by simpa [pushAddr] using congrArg Prod.snd e2)
      exact lex (made_items hm.1 e he x hx) h2 h3

/-! ### C88 -/

theorem agree_alike {pk uk : Str → Str} {p q : Path} (h : Alike p q) (ha : Agree pk uk p) : Agree pk uk q := by
  constructor
  · intro g m k hm
    obtain ⟨s, hs, hst⟩ := forall₂_mem_right h hm
    cases s <;> simp only [AlikeStep] at hst
    rename_i g' m' k'
    cases m' <;> simp at hst
    rename_i m'
    rw [← hst.2.1]
    exact ha.1 g' m' k' hs
  · intro m hm
    obtain ⟨s, hs, hst⟩ := forall₂_mem_right h hm
    cases s <;> simp only [AlikeStep] at hst
    rw [← hst]
    exact ha.2 _ hs

/-- **C88**, the values: a value is read as it was if and only if it has no quotation mark; each mark makes it longer. -/
theorem C88_value (v : Str) : (escaped v = v ↔ '"' ∉ v) ∧ (escaped v).length = v.length + v.count '"' := by
  have hl : (escaped v).length = v.length + v.count '"' := by
    induction v with
    | nil => rfl
    | cons c v ih =>
      by_cases hc : c = '"'
      · subst hc
        rw [escaped_cons]
        simp [ih]
        omega
      · rw [escaped_cons, if_neg hc, List.length_append, ih, List.count_cons_of_ne hc]
        simp
        omega
  refine ⟨⟨fun h hv => ?_, escaped_plain⟩, hl⟩
  rw [h] at hl
  have := List.count_pos_iff.2 hv
  omega

/-- **C88** (part) The text of a clean expression with decorations of objects that occur once in it, whose paths can be written and whose
values have no quotation mark and do not end with a backslash, is read as an instance of the same expression, with the same
decorations.  Missing: as in `C88_reads_partial` and in C55. -/
theorem C88_instance_partial {t : Str} {u : Expr} {ds0 : List (Str × Str)} (h : uslRead t = .ok (u, ds0)) (hc : u.Clean) (hs : ∀ s, u ≠ .script s)
    (h1 : OneDigitUsl u) {ord : List (Path × Str) → List (Path × Str)} (ho : ∀ l, (ord l).Perm l) {pk uk : Str → Str} {L : List (Path × Ref)}
    (hL : objsOf uk u false = .ok L) {w : World Ref} (hw : ∀ e ∈ L, w.lit e.2 = none) {ds : List (Path × Str)} (hne : ds ≠ [])
    (hn : (ds.map fun d => pathText d.1).Nodup)
    (hd : ∀ d ∈ ds, Agree pk uk d.1 ∧ ∃ e ∈ L, Names d.1 e.1 ∧ Kept e.2 ∧ (L.map (·.2)).count e.2 = 1)
    (hv : ∀ d ∈ ds, Writable d.1 ∧ '"' ∉ d.2 ∧ d.2.getLast? ≠ some '\\') :
    ∃ u' D, (instRead ord pk uk (instText u ds) w).1 = .ok (u', some D) ∧ SameExpr u' u ∧ (D.map decKey).Perm (ds.map decKey) := by
  have hm := read_made h
  have hwr : ∀ d ∈ ds, Written d.1 := by
    intro d hdd
    obtain ⟨_, e, he, hN, _⟩ := hd d hdd
    rcases hN with hN | hN
    · rw [hN]
      exact objs_written h1 (made_fromRoles hm) hL he
    · exact C66_written hN
  obtain ⟨u', ds', h2, h3, h4⟩ := C88_reads_partial h hc hs hne fun d hdd => ⟨hwr d hdd, (hv d hdd).1, (hv d hdd).2.2⟩
  have hm' : MadeExpr u' := by
    unfold takeInst at h2
    obtain ⟨⟨v, ts⟩, h5, h6⟩ := bind_ok.1 h2
    obtain ⟨es, _, h7⟩ := bind_ok.1 h6
    cases h7
    exact gives_usl _ _ h5
  obtain ⟨L', M, h5, h6, h7⟩ := same_objs uk h3 hL
  have hkeys : ∀ {ds' ds : List (Path × Str)}, List.Forall₂ DecRead ds' ds → (∀ d ∈ ds, '"' ∉ d.2) → ds'.map decKey = ds.map decKey := by
    intro ds' ds h
    induction h with
    | nil => intro _; rfl
    | @cons d' d _ _ hab _ ih =>
      intro hq
      rw [List.map_cons, List.map_cons, ih fun x hx => hq x (List.mem_cons_of_mem _ hx)]
      congr 1
      unfold decKey
      rw [hab.2.2.1, hab.2.2.2, escaped_plain (hq d (by simp))]
  have hk := hkeys h4 fun d hdd => (hv d hdd).2.1
  have hnd : (ds'.map fun d => pathText d.1).Nodup := by
    have e : ∀ l : List (Path × Str), (l.map fun d => pathText d.1) = (l.map decKey).map Prod.fst := by
      intro l
      simp [decKey, Function.comp_def]
    rw [e, hk, ← e]
    exact hn
  have href : ∀ {M L : List (Path × Ref)}, List.Forall₂ SameEntry M L → M.map (·.2) = L.map (·.2) := by
    intro M L h
    induction h with
    | nil => rfl
    | cons hab _ ih => rw [List.map_cons, List.map_cons, ih, hab.2]
  have hlit : ∀ e ∈ L', w.lit e.2 = none := by
    intro e he
    obtain ⟨b, hb, hab⟩ := forall₂_mem_left h7 (h6.mem_iff.2 he)
    rw [hab.2]
    exact hw b hb
  obtain ⟨D, h8, h9⟩ := C55_partial ho (u := u') (same_oneDigitUsl hm' h3 h1) (made_fromRoles hm') (made_fullFlexions hm') h5 hlit hnd (pk := pk) (by
    intro d' hd'
    obtain ⟨d, hdd, hr, ha, _⟩ := forall₂_mem_left h4 hd'
    obtain ⟨hA, e, he, hN, hK, hcnt⟩ := hd d hdd
    obtain ⟨e', he', hee⟩ := forall₂_mem_right h7 he
    have htxt : pathText e'.1 = pathText d.1 := by
      rw [alike_text hee.1]
      rcases hN with hN | hN
      · rw [hN]
      · obtain ⟨q, h3, _, h5⟩ := C66_read (objs_written h1 (made_fromRoles hm) hL he)
        rw [h3] at hN
        cases hN
        exact h5.symm
    refine ⟨agree_alike ha hA, e', h6.mem_iff.1 he', .inr (by rw [htxt]; exact hr), by rw [hee.2]; exact hK, ?_⟩
    rw [hee.2, ← hcnt, ← href h7]
    exact ((h6.map _).count_eq _).symm)
  refine ⟨u', D, ?_, h3, ?_⟩
  · have hcs : ∃ d' l, ds' = d' :: l := by
      cases h4 with
      | nil => exact absurd rfl hne
      | cons => exact ⟨_, _, rfl⟩
    obtain ⟨d', l, rfl⟩ := hcs
    unfold instRead
    rw [(lex_instText (C84_alphabet h).1 hne).2, h2]
    simp only [Bool.false_eq_true, if_false]
    rcases hi : instanced ord (uslObjects pk uk u') ((d' :: l).map some) w with ⟨r, w'⟩
    rw [hi] at h8
    simp only at h8
    subst h8
    rfl
  · rw [← hk]
    exact h9

/-- Reading leaves no literal where there was none, whatever the text. -/
theorem C88_clean (ord : List (Path × Str) → List (Path × Str)) (pk uk : Str → Str) (s : Str) {w : World Ref} (hw : ∀ r, w.lit r = none) (r : Ref) :
    (instRead ord pk uk s w).2.lit r = none := by
  unfold instRead
  split
  · exact hw r
  · split
    · exact hw r
    · exact hw r
    · rename_i u d ds _
      have := C54_clean ord (uslObjects pk uk u) ((d :: ds).map some) hw r
      split <;> rename_i hi <;> rw [hi] at this <;> exact this

/-! ### Cases -/

/-- What is read from a text, no object having a literal before. -/
def readDecorated (t : Str) : Except Err (Str × Option (List (Str × Str))) :=
  (instRead id id sharedKey t ⟨fun _ => none, []⟩).1.map fun i => (i.1.text, i.2.map fun D => D.map decKey)

/-- The text and the decorations of a decorated expression. -/
def printDecorated (u : Expr) (ds : List (Str × Str)) : Except Err (Str × List (Str × Str)) := do
  let ds ← ds.mapM fun d => return (← pathRead d.1, d.2)
  let D ← (instanced id (uslObjects id sharedKey u) (ds.map some) ⟨fun _ => none, []⟩).1
  return (instText u D, D.map decKey)

/-- A word for the cases. -/
def printWord (ds : List (Str × Str)) : Except Err (Str × List (Str × Str)) := do
  let r ← fromList [([c!"E:T:."], some (mkLexeme (mkPM [] []) (mkPM [.prim .A] []))), ([c!"E:.n.-"], some (mkLexeme (mkPM [] []) (mkPM [.prim .S] [])))]
  let w ← mkWord r.2 [c!"E:T:."] r.1
  printDecorated (.word w) ds

/-- **C88 is violated** for the actor in focus, which every word has. -/
theorem C88_violated_focus : printWord [(c!">role>! E:T:.>content", c!"x")] =
      .ok (c!"[! E:T:. ()(A:) > E:.n.- ()(S:)] [>role>! E:T:.>content \"x\"]", [(c!">role>! E:T:.>content", c!"x")]) ∧
    readDecorated (c!"[! E:T:. ()(A:) > E:.n.- ()(S:)] [>role>! E:T:.>content \"x\"]") = .error .cannotParse := by decide +kernel

/-- **C88 is violated** for the actors themselves. -/
theorem C88_violated_actor : printWord [(c!">role>E:.n.-", c!"x")] =
      .ok (c!"[! E:T:. ()(A:) > E:.n.- ()(S:)] [>role>E:.n.- \"x\"]", [(c!">role>E:.n.-", c!"x")]) ∧
    readDecorated (c!"[! E:T:. ()(A:) > E:.n.- ()(S:)] [>role>E:.n.- \"x\"]") = .error .cannotParse := by decide +kernel

/-- **C88 is violated** for the morphemes of groups. -/
theorem C88_violated_group : printDecorated (.pm (mkPM [.prim .A] [([.prim .S, .prim .B], 1)])) [(c!">group_0 1>S:", c!"x")] =
      .ok (c!"A: m1(S: B:) [>group_0 1>S: \"x\"]", [(c!">group_0 1>S:", c!"x")]) ∧
    readDecorated (c!"A: m1(S: B:) [>group_0 1>S: \"x\"]") = .error .cannotParse := by decide +kernel

/-- **C88 is violated** for values with quotation marks: they stay escaped, and are escaped once more at the next reading. -/
theorem C88_violated_quote : printDecorated (.pm (mkPM [.prim .A, .prim .S] [])) [(c!">constant>A:", c!"a\"b")] =
      .ok (c!"A: S: [>constant>A: \"a\\\"b\"]", [(c!">constant>A:", c!"a\"b")]) ∧
    readDecorated (c!"A: S: [>constant>A: \"a\\\"b\"]") = .ok (c!"A: S:", some [(c!">constant>A:", c!"a\\\"b")]) ∧
    printDecorated (.pm (mkPM [.prim .A, .prim .S] [])) [(c!">constant>A:", c!"a\\\"b")] =
      .ok (c!"A: S: [>constant>A: \"a\\\\\"b\"]", [(c!">constant>A:", c!"a\\\"b")]) ∧
    readDecorated (c!"A: S: [>constant>A: \"a\\\\\"b\"]") = .ok (c!"A: S:", some [(c!">constant>A:", c!"a\\\\\"b")]) := by
  refine ⟨?_, ?_, ?_, ?_⟩ <;> decide +kernel

/-- **C88 is violated** for values that end with a backslash: the next decoration becomes a part of the value, without an error. -/
theorem C88_violated_backslash : printDecorated (.pm (mkPM [.prim .A, .prim .S] [])) [(c!">constant>A:", c!"a\\"), (c!">constant>S:", c!"s")] =
      .ok (c!"A: S: [>constant>A: \"a\\\"] [>constant>S: \"s\"]", [(c!">constant>A:", c!"a\\"), (c!">constant>S:", c!"s")]) ∧
    readDecorated (c!"A: S: [>constant>A: \"a\\\"] [>constant>S: \"s\"]") = .ok (c!"A: S:", some [(c!">constant>A:", c!"a\\\"] [>constant>S: ")]) := by
  decide +kernel

/-- **C88 is violated** for an instance without decorations: the expression is read, not an instance of it. -/
theorem C88_violated_empty : printDecorated (.pm (mkPM [.prim .A, .prim .S] [])) [] = .ok (c!"A: S:", []) ∧
    readDecorated (c!"A: S:") = .ok (c!"A: S:", none) := by decide +kernel

/-- A path that the expression does not have is a `KeyError` (`DeferenceError`), not `CannotParse`; the path of a flexion is an
`AssertionError`. -/
theorem C88_violated_error : readDecorated (c!"A: S: [>constant>B: \"x\"]") = .error .keyError ∧
    readDecorated (c!"A: S: [>A: \"x\"]") = .error .assertionError ∧
    readDecorated (c!"A: S: [>constant \"x\"") = .error .cannotParse := by
  refine ⟨?_, ?_, ?_⟩ <;> decide +kernel

-- A word, one of its polymorphemes and a morpheme.
example : printWord [(c!">role>E:.n.->content>constant>S:", c!"s [x]"), (c!">", c!"w"), (c!">role>E:.n.->flexion", c!"")] =
      .ok (c!"[! E:T:. ()(A:) > E:.n.- ()(S:)] [> \"w\"] [>role>E:.n.->flexion \"\"] [>role>E:.n.->content>constant>S: \"s [x]\"]",
        [(c!">", c!"w"), (c!">role>E:.n.->flexion", c!""), (c!">role>E:.n.->content>constant>S:", c!"s [x]")]) ∧
    readDecorated (c!"[! E:T:. ()(A:) > E:.n.- ()(S:)] [> \"w\"] [>role>E:.n.->flexion \"\"] [>role>E:.n.->content>constant>S: \"s [x]\"]") =
      .ok (c!"[! E:T:. ()(A:) > E:.n.- ()(S:)]", some [(c!">", c!"w"), (c!">role>E:.n.->flexion", c!""), (c!">role>E:.n.->content>constant>S:", c!"s [x]")]) := by
  decide +kernel

-- A lexeme; a polymorpheme of one morpheme, whose text without decorations is read as the morpheme.
example : readDecorated (c!"(S:)(A:) [>content>constant>A: \"x\"] [>flexion>S: \"x y\"]") =
      .ok (c!"(S:)(A:)", some [(c!">flexion>S:", c!"x y"), (c!">content>constant>A:", c!"x")]) ∧
    readDecorated (c!"A: [>constant>A: \"x\"]") = .ok (c!"A:", some [(c!">constant>A:", c!"x")]) := by
  refine ⟨?_, ?_⟩ <;> decide +kernel

theorem demoKey_clean : (Expr.pm demoKey).Clean :=
  ⟨(keyPM_prims (cs := [.U, .S]) (gs := [([.A], 1), ([.B, .T], 2)]) (by decide +kernel) (by decide +kernel) (by simp) : KeyPM demoKey).1, by decide +kernel⟩

theorem demo_writable : Writable [.pm .constant (some (.prim .S)) none] := by
  refine ⟨?_, ?_, ?_, ?_⟩
  · intro a f h; simp at h
  · intro a f h; simp at h
  · intro g m k h; simp at h; exact h.1
  · rintro m (⟨g, k, h⟩ | h)
    · simp at h
      rw [h.2.1]
      exact (keyPM_prims (cs := [.S]) (gs := []) (by decide +kernel) (by decide +kernel) (by simp) : KeyPM (mkPM [.prim .S] [])).1.constant _ (by decide +kernel) |>.1
    · simp at h

-- The hypotheses of `C88_instance_partial` (and of `C88_reads_partial`) for the polymorpheme with groups and a decoration of `S:`.
example : ∃ u' D, (instRead id id sharedKey (instText (.pm demoKey) [([.pm .constant (some (.prim .S)) none], c!"x")]) ⟨fun _ => none, []⟩).1 = .ok (u', some D) ∧
    SameExpr u' (.pm demoKey) ∧ (D.map decKey).Perm [(c!">constant>S:", c!"x")] := by
  refine C88_instance_partial (t := c!"S: U: m2(T: B:) m1(A:)") (u := .pm demoKey) (ds0 := []) (L := demoKey.objs sharedKey) (by rfl) demoKey_clean (by simp) ?_
    (fun l => .refl _) rfl (fun _ _ => rfl) (by simp) (by simp) ?_ ?_
  · have hb : ∀ p, Built (.prim p) := fun p => wf_built .prim
    constructor
    · rw [show demoKey.constant = [.prim .U, .prim .S] from rfl]
      intro m hm
      simp only [List.mem_cons, List.not_mem_nil, or_false] at hm
      rcases hm with rfl | rfl <;> exact hb _
    · rw [show demoKey.groups = [([.prim .A], 1), ([.prim .B, .prim .T], 2)] from rfl]
      intro g hg
      simp only [List.mem_cons, List.not_mem_nil, or_false] at hg
      rcases hg with rfl | rfl <;> refine ⟨by decide, ?_⟩ <;> intro m hm <;> simp only [List.mem_cons, List.not_mem_nil, or_false] at hm
      · rw [hm]; exact hb _
      · rcases hm with rfl | rfl <;> exact hb _
  · intro d hd
    simp only [List.mem_cons, List.not_mem_nil, or_false] at hd
    subst hd
    refine ⟨⟨?_, by simp⟩, ([.pm .constant (some (.prim .S)) none], .script (c!"S:")), ?_, .inl rfl, trivial, by decide +kernel⟩
    · intro g m k h
      simp only [List.mem_cons, List.not_mem_nil, or_false, Step.pm.injEq, Option.some.injEq] at h
      rw [h.2.1]
      decide +kernel
    · exact List.mem_append_left _ (List.mem_cons_of_mem _ (List.mem_cons_of_mem _ (List.mem_cons_self ..)))
  · intro d hd
    simp only [List.mem_cons, List.not_mem_nil, or_false] at hd
    subst hd
    exact ⟨demo_writable, by simp, by simp⟩

-- The hypotheses of `C88_unreadable`: a decoration that can be read, one of a group, and anything.
example : instRead id id sharedKey (instText (.pm demoKey) ([([.pm .constant (some (.prim .S)) none], c!"x")] ++
    ([.pm .g0 (some (.prim .A)) (some 1)], c!"\\") :: [([], c!"\"")])) ⟨fun _ => none, []⟩ = (.error .cannotParse, ⟨fun _ => none, []⟩) := by
  refine C88_unreadable (t := c!"S: U: m2(T: B:) m1(A:)") (u := .pm demoKey) (ds0 := []) (by rfl) demoKey_clean (by simp) ?_ ?_ ?_ _ _ _ _
  · intro d hd
    simp only [List.mem_cons, List.not_mem_nil, or_false] at hd
    subst hd
    exact ⟨.pm (.constant (by rintro x ⟨⟩; exact .prim)), demo_writable, by simp⟩
  · exact .pm (.group (by rintro x ⟨⟩; exact .prim) (by decide))
  · intro h
    cases h.group .g0 (some (.prim .A)) (some 1) (by simp)

end Verif
