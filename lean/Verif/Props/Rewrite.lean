import Verif.Model.Rewrite
import Verif.Model.UslParser
import Verif.Lemmas.ScriptDec
import Verif.Props.Simplify
import Verif.Lemmas.Usl

/-
C90: what `rewrite_word` changes.
-/

namespace Verif
open Script

/-- The flexions that the lexeme at an address has by default: those of a verb, of a noun (an actant or what depends on another function),
none for the others. -/
def defaultFlexions (a : Addr) : List Str :=
  if a ∈ valenceScripts.map fun v => [v] then [c!"E:.-'we.-S:.-'t.o.-',", c!"E:.-'wu.-S:.-'t.o.-',", c!"E:.-wa.-t.o.-'"]
  else if a.getLast? = some independantQuality then []
  else [c!"E:.wo.-", c!"E:S:.-d.u.-'"]

/-- The lexeme without these flexions, and without the groups of its flexion. -/
def bare (a : Addr) (x : Lexeme) : Lexeme :=
  mkLexeme (mkPM (x.flexion.constant.filter fun s => !decide (str s ∈ defaultFlexions a)) []) x.content

/-- The entry with its lexeme bare. -/
def bareEntry (e : RoleEntry Lexeme) : RoleEntry Lexeme := (e.1, e.2.map (bare e.1))

/-- The class of the function at an address. -/
def classAt (a : Addr) : FunClass :=
  if a ∈ valenceScripts.map fun v => [v] then .process else if a.getLast? = some independantQuality then .independant else .dependant

theorem bare_eq (a : Addr) (x : Lexeme) : bare a x = rewriteLexeme (classAt a) x := by
  have : defaultFlexions a = flexionsToRemove (classAt a) := by
    unfold defaultFlexions classAt
    split
    · rfl
    · split <;> rfl
  rw [bare, rewriteLexeme, this]

theorem classes : ∀ {n : Nat} {f : SF Lexeme}, OkD n f → NoJunction f → ∀ e ∈ f.actors,
    e.2.cls = if e.1.getLast? = some independantQuality then .independant else .dependant := by
  intro n
  induction n with
  | zero => intro f h; cases h
  | succ n ih =>
    intro f h hj e he
    obtain ⟨m, x, d, i, hn, rfl, hd, hi⟩ := okD_dep h hj
    cases hn
    rw [SF.actors, List.mem_cons, List.mem_append] at he
    rcases he with rfl | he | he
    · rfl
    · cases i with
      | none => cases he
      | some g =>
        obtain ⟨b, rfl⟩ := hi g rfl
        simp only [actorsO, SF.actors, List.map_cons, List.map_nil, List.mem_singleton] at he
        subst he
        rfl
    · cases d with
      | none => cases he
      | some g =>
        obtain ⟨y, hy, rfl⟩ := List.mem_map.1 he
        rw [ih (hd g rfl).1 (hd g rfl).2 y hy]
        cases hy1 : y.1 with
        | nil => simp [show ¬ dependantQuality = independantQuality by decide +kernel]
        | cons a l => simp [List.getLast?_cons_cons]

theorem classAt_cons {r : Str} {a : Addr} (hr : r ∉ valenceScripts) (hi : r ≠ independantQuality) :
    classAt (r :: a) = if a.getLast? = some independantQuality then .independant else .dependant := by
  unfold classAt
  rw [if_neg]
  · cases a with
    | nil => simp [hi]
    | cons b l => rw [List.getLast?_cons_cons]
  · intro h
    obtain ⟨v, hv, h⟩ := List.mem_map.1 h
    cases h
    exact hr hv

theorem kept_classes {t : SType} {f : SFun Lexeme} (ok : OkFun t f) (hj : ∀ e ∈ f.items, ∀ s ∈ e.1, s ∉ junctionScripts) (role : Addr) :
    keptFuns role f = (keptEntries role f).map fun e => (classAt (t.pre ++ e.1), e) := by
  rcases okFun_plain ok hj with ⟨rfl, a, rfl⟩ | ⟨rfl, n, a, d, i, rfl, od, nj⟩ | ⟨rfl, n, a, v, acts, rfl, hval, hn, hh⟩
  · have hc : classAt [independantQuality] = .independant := by decide +kernel
    rw [keptFuns, keptEntries, List.map_map]
    refine List.map_congr_left fun e he => ?_
    have := (List.mem_filter.1 he).1
    rw [SF.actors, List.mem_singleton] at this
    subst this
    show _ = (classAt [independantQuality], _)
    rw [hc]
    rfl
  · rw [keptFuns, keptEntries, List.map_map]
    refine List.map_congr_left fun e he => ?_
    show _ = (classAt (dependantQuality :: e.1), _)
    rw [classAt_cons dep_not_valence dep_ne_indep, classes od nj e (List.mem_filter.1 he).1]
  · rw [keptFuns, keptEntries, List.map_append, List.map_map]
    congr 1
    · have hc : classAt [v] = .process := by
        unfold classAt
        rw [if_pos (List.mem_map_of_mem hval)]
      split
      · rfl
      · rw [List.map_singleton]
        show _ = [(classAt [v], _)]
        rw [hc]
    · refine List.map_congr_left fun e he => ?_
      obtain ⟨g, hg, x, hx, rfl⟩ := mem_processActors (List.mem_filter.1 he).1
      have h1 := actant_not_valence _ (hh g hg).1
      have h2 : g.1 ≠ independantQuality := by
        intro h
        have := (hh g hg).1
        rw [h] at this
        revert this
        decide +kernel
      show (x.2.cls, _) = (classAt (g.1 :: x.1), _)
      rw [classAt_cons h1 h2, classes (hh g hg).2.1 (hh g hg).2.2 x hx]

/-- What is put in the list, or the error of a missing lexeme. -/
theorem rewrite_entries {t : SType} {l : List (RoleEntry Lexeme)} :
    (l.map fun e => (classAt (t.pre ++ e.1), e)).mapM rewriteEntry =
      if l.any (fun e => e.2.isNone) then .error .attributeError
      else .ok (l.map fun e => (e.1, e.2.map (bare (t.pre ++ e.1)))) := by
  induction l with
  | nil => rfl
  | cons e l ih =>
    rw [List.map_cons, List.mapM_cons, ih]
    obtain ⟨a, o⟩ := e
    cases o with
    | none => rfl
    | some x =>
      simp only [rewriteEntry, List.any_cons, Option.isNone_some, Bool.false_or, ← bare_eq]
      by_cases h : l.any (fun e => e.2.isNone) = true
      · rw [if_pos h, if_pos h]; rfl
      · rw [if_neg h, if_neg h]; rfl

theorem wordRole_eq {t : SType} {f : SFun Lexeme} {role : Addr} {w : WordUsl} (ok : OkFun t f) (hj : ∀ e ∈ f.items, ∀ s ∈ e.1, s ∉ junctionScripts)
    (hw : mkWord f role t = .ok w) : wordRole w = role.drop t.pre.length := by
  obtain ⟨e1, e2, e3, _⟩ := mkWord_parts hw
  unfold wordRole
  rw [e1, e2]
  rcases okFun_plain ok hj with ⟨rfl, a, rfl⟩ | ⟨rfl, n, a, d, i, rfl, od, nj⟩ | ⟨rfl, n, a, v, acts, rfl, hval, hn, hh⟩ <;> rfl

/-- A list with the same addresses is read as a function of the same form. -/
theorem rewrite_read {t : SType} {f f' : SFun Lexeme} {role : Addr} {w : WordUsl} (ok : OkFun t f) (ok' : OkFun t f')
    (hj : ∀ e ∈ f.items, ∀ s ∈ e.1, s ∉ junctionScripts)  (hw : mkWord f role t = .ok w)
    (hk : (keptFuns (wordRole w) w.sfun).mapM rewriteEntry = .ok f'.items) (hv : ∀ a v acts, f = .process a v acts → ∃ e ∈ f'.items, e.1 = [v]) :
    rewriteWord w = mkWord f' role t := by
  obtain ⟨e1, e2, e3, _⟩ := mkWord_parts hw
  have hs : Short (depthOf f'.items) f'.items := depth_short (p := []) fun e he => by simpa [pushAddr] using he
  unfold rewriteWord
  rw [hk, e1, e2]
  rcases okFun_plain ok hj with ⟨rfl, a, rfl⟩ | ⟨rfl, n, a, d, i, rfl, od, nj⟩ | ⟨rfl, n, a, v, acts, rfl, hval, hn, hh⟩
  · cases f' with
    | process => cases ok'
    | quality g =>
      obtain ⟨n, og⟩ := ok'
      simp only [bind, Except.bind, items_quality] at hs ⊢
      rw [fromI_leaves og hs]
  · cases f' with
    | process => cases ok'
    | quality g =>
      obtain ⟨n, og⟩ := ok'
      simp only [bind, Except.bind, items_quality] at hs ⊢
      rw [fromD_leaves og hs]
  · cases f' with
    | quality => cases ok'
    | process a' v' acts' =>
      obtain ⟨x, hx, hxv⟩ := hv _ _ _ rfl
      have hp : processFrom (depthOf (SFun.process a' v' acts').items) (SFun.process a' v' acts').items = .ok (.process a' v' acts') := by
        have hit : (SFun.process a' v' acts').items = (SFun.process a' v' acts').asList .process := by rw [asList_process, items_process]
        rw [hit]
        obtain ⟨_, ⟨_, h, _⟩ | ⟨h, _⟩ | ⟨h, _⟩⟩ := fromList_ok (fromList_back ok')
        · exact h
        · cases h
        · cases h
      have : (SFun.process a' v' acts').items.any (fun e => decide (e.1 = [v])) = true := by
        rw [List.any_eq_true]
        exact ⟨x, hx, by simpa using hxv⟩
      simp only [bind, Except.bind, hp, this]
      rfl

theorem items_of_asList {t : SType} {f g : SFun Lexeme} {h : Addr → Option Lexeme → Option Lexeme}
    (he : g.asList t = (f.asList t).map fun e => (e.1, h e.1 e.2)) : g.items = f.items.map fun e => (e.1, h (t.pre ++ e.1) e.2) := by
  rw [asList_items, asList_items, List.map_map] at he
  have inj : Function.Injective (pushAddr (α := Lexeme) t.pre) := by
    rintro ⟨a, x⟩ ⟨b, y⟩ h
    simp only [pushAddr, Prod.mk.injEq, List.append_cancel_left_eq] at h
    rw [h.1, h.2]
  apply inj.list_map
  rw [he, List.map_map]
  rfl

/-- `rewrite_word` and `simplify_word` on the same word. -/
theorem rewrite_core {t : SType} {f : SFun Lexeme} {role : Addr} {w : WordUsl} (ok : OkFun t f)
    (hj : ∀ e ∈ f.items, ∀ s ∈ e.1, s ∉ junctionScripts) (hw : mkWord f role t = .ok w)
    (hv : t = .process → (∃ e ∈ f.items, HasText e) ∨ ∃ v ∈ valenceScripts, role = [v]) :
    ∃ s, simplifyWord w = .ok s ∧ OkFun t s.sfun ∧ mkWord s.sfun role t = .ok s ∧
      (s.sfun.items.Sublist f.items ∧ ∀ e, e ∈ s.sfun.items ↔ e ∈ f.items ∧ Useful f.items (role.drop t.pre.length) e) ∧
      ((∃ e ∈ s.sfun.asList t, e.2 = none) → rewriteWord w = .error .attributeError) ∧
      ((∀ e ∈ s.sfun.asList t, ∃ x, e.2 = some x) → ∃ w', rewriteWord w = .ok w' ∧ OkFun t w'.sfun ∧ mkWord w'.sfun role t = .ok w' ∧
        w'.sfun.asList t = (s.sfun.asList t).map bareEntry) := by
  obtain ⟨f1, s, ⟨h1, h2, ok1, h3, h4⟩, h5⟩ := simplify_core ok hj hw hv
  obtain ⟨e1, e2, e3, hm⟩ := mkWord_parts hw
  obtain ⟨p1, p2, p3, hm1⟩ := mkWord_parts h2
  subst p1
  have hk : (keptFuns (wordRole w) w.sfun).mapM rewriteEntry = if s.sfun.items.any (fun e => e.2.isNone) then .error .attributeError
      else .ok (s.sfun.items.map fun e => (e.1, e.2.map (bare (t.pre ++ e.1)))) := by
    rw [e1, kept_classes ok hj, rewrite_entries, wordRole_eq ok hj hw, h5]
  have hverb : ∀ a v acts, f = .process a v acts → ∃ e ∈ s.sfun.items, e.1 = [v] := by
    rintro a v acts rfl
    cases t with
    | dependant => cases ok
    | independant => cases ok
    | process =>
      refine ⟨([v], a), (h4 _).2 ⟨by rw [items_process]; simp, .inr (.inr ⟨v, ok.1, rfl⟩)⟩, rfl⟩
  refine ⟨s, h1, ok1, h2, ⟨h3, h4⟩, ?_, ?_⟩
  · rintro ⟨e, he, hn⟩
    rw [asList_items] at he
    obtain ⟨y, hy, rfl⟩ := List.mem_map.1 he
    unfold rewriteWord
    rw [hk, if_pos]
    · rfl
    · rw [List.any_eq_true]
      exact ⟨y, hy, by simpa [pushAddr] using hn⟩
  · intro hx
    obtain ⟨f2, g1, g2, _⟩ := relabel (β := Lexeme) ok1 (xs := (s.sfun.asList t).map fun e => e.2.map (bare e.1)) (by rw [List.length_map])
    have hrel : relab (s.sfun.asList t) ((s.sfun.asList t).map fun e => e.2.map (bare e.1)) = (s.sfun.asList t).map bareEntry := by
      rw [relab, List.zipWith_map_right, List.zipWith_self]
      rfl
    rw [hrel] at g1 g2
    have ok2 := fromList_shape g1
    have hi : f2.items = s.sfun.items.map fun e => (e.1, e.2.map (bare (t.pre ++ e.1))) := items_of_asList (h := fun a o => o.map (bare a)) g2
    have hk2 : (keptFuns (wordRole w) w.sfun).mapM rewriteEntry = .ok f2.items := by
      rw [hk, if_neg, hi]
      rw [List.any_eq_true]
      rintro ⟨e, he, hn⟩
      obtain ⟨x, hx⟩ := hx (pushAddr t.pre e) (by rw [asList_items]; exact List.mem_map_of_mem he)
      have hx : e.2 = some x := hx
      rw [hx] at hn
      cases hn
    have hr := rewrite_read ok ok2 hj hw hk2 fun a v acts h => by
      obtain ⟨e, he, hev⟩ := hverb a v acts h
      refine ⟨(e.1, e.2.map (bare (t.pre ++ e.1))), by rw [hi]; exact List.mem_map.2 ⟨e, he, rfl⟩, hev⟩
    obtain ⟨er, her, hre⟩ := addrs_items ok1 (fun e he => hj e (h3.subset he)) hm1
    obtain ⟨w', hw'⟩ := mkWord_of (f' := f2) hw (by
      rw [← hre]
      exact items_addrs (f := f2) (e := (er.1, er.2.map (bare (t.pre ++ er.1)))) (by rw [hi]; exact List.mem_map.2 ⟨er, her, rfl⟩))
    obtain ⟨q1, _⟩ := mkWord_parts hw'
    subst q1
    exact ⟨w', hr.trans hw', ok2, hw', g2⟩

theorem sort_twice {l : List Script} (h : ∀ x ∈ l, Good x) : pySort lt (pySort lt l) = pySort lt l := by
  refine pySort_of_sorted lt ((pySort_sorted lt (k := KK) fun a ha b hb => lt_KK (h a ha) (h b hb)).imp_of_mem ?_)
  intro a b ha hb hab
  rw [lt_KK (h b ((mem_pySort lt).1 hb)) (h a ((mem_pySort lt).1 ha))]
  exact hab

theorem null_kept (a : Addr) : str (.null 0) ∉ defaultFlexions a := by
  unfold defaultFlexions
  split
  · decide +kernel
  · split <;> decide +kernel

theorem bare_again {a : Addr} {x : Lexeme} (h : ∀ s ∈ x.flexion.constant, Orderly s) : bare a (bare a x) = bare a x := by
  show mkLexeme (mkPM ((mkPM (x.flexion.constant.filter fun s => !decide (str s ∈ defaultFlexions a)) []).constant.filter _) []) x.content = _
  unfold bare
  congr 1
  generalize hcs : (x.flexion.constant.filter fun s => !decide (str s ∈ defaultFlexions a)) = cs
  have hmem : ∀ s ∈ cs, Orderly s ∧ str s ∉ defaultFlexions a := by
    intro s hs
    rw [← hcs, List.mem_filter] at hs
    exact ⟨h s hs.1, by simpa using hs.2⟩
  have hgood : ∀ s ∈ filterEmpty cs, Good s := fun s hs => (hmem s (mem_filterEmpty.1 hs).1).1.good (mem_filterEmpty.1 hs).2
  have hfe : filterEmpty (pySort lt (filterEmpty cs)) = pySort lt (filterEmpty cs) := by
    refine List.filter_eq_self.2 fun s hs => ?_
    have := (mem_filterEmpty.1 ((mem_pySort lt).1 hs)).2
    simp [this]
  rcases mkPM_constant cs with ⟨e, h0⟩ | ⟨e, h0⟩
  · rw [e]
    rw [List.filter_eq_self.2 (by
      intro s hs
      rw [List.mem_singleton] at hs
      subst hs
      simpa using null_kept a)]
    rw [mkPM_blank (cs := [.null 0]) ⟨rfl, by simp [Script.empty]⟩, mkPM_blank (cs := cs)]
    refine ⟨rfl, fun s hs => ?_⟩
    by_contra hne
    have : s ∈ filterEmpty cs := mem_filterEmpty.2 ⟨hs, by simpa using hne⟩
    rw [h0] at this
    cases this
  · rw [e]
    rw [List.filter_eq_self.2 (by
      intro s hs
      have := (hmem s (mem_filterEmpty.1 ((mem_pySort lt).1 hs)).1).2
      simpa using this)]
    unfold mkPM
    rw [hfe, sort_twice hgood]

theorem items_plain {t : SType} {f : SFun Lexeme} (hj : ∀ e ∈ f.asList t, ∀ s ∈ e.1, s ∉ junctionScripts) : ∀ e ∈ f.items, ∀ s ∈ e.1, s ∉ junctionScripts := by
  intro e he s hs
  refine hj (pushAddr t.pre e) ?_ s (by simp [pushAddr, hs])
  rw [asList_items]
  exact List.mem_map_of_mem he

theorem verb_items {t : SType} {f : SFun Lexeme} {P : Prop} (hv : t = .process → (∃ e ∈ f.asList t, HasText e) ∨ P) :
    t = .process → (∃ e ∈ f.items, HasText e) ∨ P := by
  intro h
  refine (hv h).imp ?_ id
  rintro ⟨e, he, hx⟩
  rw [asList_items] at he
  obtain ⟨y, hy, rfl⟩ := List.mem_map.1 he
  exact ⟨y, hy, hx⟩

/-- **C90: what `rewrite_word` does.** On a word without junction, read from a list, with a role among those of its context, in which every
entry of use has a lexeme: the result is a word with the same role and context whose entries, in the same order, are those that are of use,
each with the same content and with the constants of its flexion that are not taken by default.  Missing: the groups of the flexions are lost
(`C90_violated_groups`); words with junctions (`C90_junction_root`), with missing lexemes (`C90_missing`), and processes in which nothing is
written. -/
theorem C90_rewrite_partial {l : List (RoleEntry Lexeme)} {t : SType} {f : SFun Lexeme} {role : Addr} {w : WordUsl} (hf : fromList l = .ok (t, f))
    (hw : mkWord f role t = .ok w) (hr : t.pre <+: role) (hj : ∀ e ∈ f.asList t, ∀ s ∈ e.1, s ∉ junctionScripts)
    (hv : t = .process → (∃ e ∈ f.asList t, HasText e) ∨ ∃ v ∈ valenceScripts, role = [v])
    (hx : ∀ e ∈ f.asList t, Useful (f.asList t) role e → ∃ x, e.2 = some x) :
    ∃ (w' : WordUsl) (L : List (RoleEntry Lexeme)), rewriteWord w = .ok w' ∧ w'.role = role ∧ w'.context = t ∧ L.Sublist (f.asList t) ∧
      (∀ e, e ∈ L ↔ e ∈ f.asList t ∧ Useful (f.asList t) role e) ∧ w'.sfun.asList t = L.map bareEntry := by
  obtain ⟨s, hs, _, _, h3, h4, _⟩ := C77_simplify_partial hf hw hr hj hv
  have hj' := items_plain hj
  obtain ⟨s', hs', _, _, _, _, h⟩ := rewrite_core (fromList_shape hf) hj' hw (verb_items hv)
  rw [hs, Except.ok.injEq] at hs'
  subst hs'
  obtain ⟨w', q1, _, q2, q3⟩ := h fun e he => hx e ((h4 e).1 he).1 ((h4 e).1 he).2
  obtain ⟨_, p2, p3, _⟩ := mkWord_parts q2
  exact ⟨w', _, q1, p2, p3, h3, h4, q3⟩

/-- **C90: an entry of use without lexeme makes `rewrite_word` raise**: `AttributeError`. -/
theorem C90_missing {l : List (RoleEntry Lexeme)} {t : SType} {f : SFun Lexeme} {role : Addr} {w : WordUsl} (hf : fromList l = .ok (t, f))
    (hw : mkWord f role t = .ok w) (hr : t.pre <+: role) (hj : ∀ e ∈ f.asList t, ∀ s ∈ e.1, s ∉ junctionScripts)
    (hv : t = .process → (∃ e ∈ f.asList t, HasText e) ∨ ∃ v ∈ valenceScripts, role = [v])
    (hx : ∃ e ∈ f.asList t, Useful (f.asList t) role e ∧ e.2 = none) : rewriteWord w = .error .attributeError := by
  obtain ⟨s, hs, _, _, h3, h4, _⟩ := C77_simplify_partial hf hw hr hj hv
  obtain ⟨s', hs', _, _, _, h, _⟩ := rewrite_core (fromList_shape hf) (items_plain hj) hw (verb_items hv)
  rw [hs, Except.ok.injEq] at hs'
  subst hs'
  obtain ⟨e, he, hu, hn⟩ := hx
  exact h ⟨e, (h4 e).2 ⟨he, hu⟩, hn⟩

/-- **C90: a word whose function is a junction is never rewritten**: `AttributeError`. -/
theorem C90_junction_root {w : WordUsl} (h : w.sfun.cls = .junction) : rewriteWord w = .error .attributeError := by
  have key : ∀ r link cs, ∃ L, keptFuns r (.quality (.junction link cs)) = (.junction, [], none) :: L := by
    intro r link cs
    have : onRole r [] = true := by rw [onRole_iff]; exact List.nil_prefix
    refine ⟨((actorsL link 0 cs).filter fun e => !(blank (e.2.actors.map fun x => x.2.actor) && !onRole r e.1)).map fun e => (e.2.cls, e.1, e.2.actor), ?_⟩
    rw [keptFuns, SF.actors, List.filter_cons_of_pos (by simp [this])]
    rfl
  unfold rewriteWord
  cases hf : w.sfun with
  | process a v acts => rw [hf] at h; cases h
  | quality g =>
    cases g with
    | indep a => rw [hf] at h; cases h
    | dep a d i => rw [hf] at h; cases h
    | junction link cs =>
      obtain ⟨L, hL⟩ := key (wordRole w) link cs
      rw [hL, List.mapM_cons]
      rfl

/-- The lexeme has something that is not removed: its content, or a flexion that is not taken by default. -/
def Lasting (a : Addr) (x : Lexeme) : Prop :=
  x.content.empty = false ∨ ∃ s ∈ x.flexion.constant, s.empty = false ∧ str s ∉ defaultFlexions a

theorem lasting_iff {a : Addr} {x : Lexeme} : Lasting a x ↔ (bare a x).empty = false := by
  show _ ↔ (x.content.empty && (mkPM (x.flexion.constant.filter fun s => !decide (str s ∈ defaultFlexions a)) []).empty) = false
  rw [Bool.and_eq_false_iff, Bool.eq_false_iff (b := PM.empty (mkPM _ _)), ne_eq, mkPM_empty_iff]
  unfold Lasting Blank
  refine or_congr_right ?_
  simp only [true_and, List.mem_filter, Bool.not_eq_true', decide_eq_false_iff_not]
  push Not
  constructor
  · rintro ⟨s, h1, h2, h3⟩; exact ⟨s, ⟨h1, h3⟩, by simp [h2]⟩
  · rintro ⟨s, ⟨h1, h3⟩, h2⟩; exact ⟨s, h1, by simpa using h2, h3⟩

theorem word_unique {t : SType} {role : Addr} {w w' : WordUsl} (o : OkFun t w.sfun) (o' : OkFun t w'.sfun) (h : mkWord w.sfun role t = .ok w)
    (h' : mkWord w'.sfun role t = .ok w') (he : w.sfun.asList t = w'.sfun.asList t) : w = w' := by
  have e := fromList_back o
  rw [he, fromList_back o', Except.ok.injEq, Prod.mk.injEq] at e
  rw [← e.2, h', Except.ok.injEq] at h
  exact h.symm

/-- **C90: rewriting twice.** If the flexions have an order and each lexeme has something that is not removed, `rewrite_word` changes nothing in
a word that it has returned.  Missing: words with a lexeme of which nothing is left, see `C90_violated_again`. -/
theorem C90_again_partial {l : List (RoleEntry Lexeme)} {t : SType} {f : SFun Lexeme} {role : Addr} {w w' : WordUsl} (hf : fromList l = .ok (t, f))
    (hw : mkWord f role t = .ok w) (hr : t.pre <+: role) (hj : ∀ e ∈ f.asList t, ∀ s ∈ e.1, s ∉ junctionScripts)
    (hv : t = .process → (∃ e ∈ f.asList t, HasText e) ∨ ∃ v ∈ valenceScripts, role = [v])
    (ho : ∀ e ∈ f.asList t, ∀ x, e.2 = some x → ∀ s ∈ x.flexion.constant, Orderly s)
    (hl : ∀ e ∈ f.asList t, ∀ x, e.2 = some x → x.empty = false → Lasting e.1 x) (h : rewriteWord w = .ok w') : rewriteWord w' = .ok w' := by
  have hj' := items_plain hj
  obtain ⟨s, hs, oks, hms, ⟨hsub, hmem⟩, hn, hy⟩ := rewrite_core (fromList_shape hf) hj' hw (verb_items hv)
  have hall : ∀ e ∈ s.sfun.asList t, ∃ x, e.2 = some x := by
    intro e he
    cases hx : e.2 with
    | some x => exact ⟨x, rfl⟩
    | none =>
      rw [hn ⟨e, he, hx⟩] at h
      cases h
  obtain ⟨w2, q1, ok', hm', q3⟩ := hy hall
  rw [q1, Except.ok.injEq] at h
  subst h
  have hi : w2.sfun.items = s.sfun.items.map fun e => (e.1, e.2.map (bare (t.pre ++ e.1))) := items_of_asList (h := fun a o => o.map (bare a)) q3
  have push : ∀ e ∈ f.items, pushAddr t.pre e ∈ f.asList t := fun e he => by rw [asList_items]; exact List.mem_map_of_mem he
  -- what is written stays written
  have keep : ∀ e ∈ f.items, HasText e → (e.1, e.2.map (bare (t.pre ++ e.1))) ∈ w2.sfun.items ∧ HasText (e.1, e.2.map (bare (t.pre ++ e.1))) := by
    intro e he ht
    refine ⟨by rw [hi]; exact List.mem_map.2 ⟨e, (hmem e).2 ⟨he, .inr (.inl ⟨e, he, List.prefix_rfl, ht⟩)⟩, rfl⟩, ?_⟩
    obtain ⟨x, hx, hb⟩ := ht
    refine ⟨bare (t.pre ++ e.1) x, by simp [hx], lasting_iff.1 (hl _ (push e he) x hx hb)⟩
  obtain ⟨s2, hs2, oks2, hms2, ⟨hsub2, hmem2⟩, _, hy2⟩ := rewrite_core ok' (fun e he => by
      rw [hi] at he
      obtain ⟨y, hy, rfl⟩ := List.mem_map.1 he
      exact hj' y (hsub.subset hy)) hm' (by
    intro ht
    refine (verb_items hv ht).imp ?_ id
    rintro ⟨e, he, hx⟩
    exact ⟨_, keep e he hx⟩)
  -- nothing is left out
  have hsame : s2.sfun.items = w2.sfun.items := by
    refine hsub2.eq_of_length_le ((List.subperm_of_subset (items_nodup ok').of_map ?_).length_le)
    intro e he
    refine (hmem2 e).2 ⟨he, ?_⟩
    rw [hi] at he
    obtain ⟨y, hy, rfl⟩ := List.mem_map.1 he
    rcases ((hmem y).1 hy).2 with h | ⟨e', he', h, ht⟩ | h
    · exact .inl h
    · exact .inr (.inl ⟨_, (keep e' he' ht).1, h, (keep e' he' ht).2⟩)
    · exact .inr (.inr h)
  have hl2 : s2.sfun.asList t = w2.sfun.asList t := by rw [asList_items, hsame, ← asList_items]
  obtain ⟨w3, k1, ok3, hm3, k3⟩ := hy2 (by
    intro e he
    rw [hl2, q3] at he
    obtain ⟨y, hy, rfl⟩ := List.mem_map.1 he
    obtain ⟨x, hx⟩ := hall y hy
    exact ⟨_, by simp only [bareEntry, hx, Option.map_some]; rfl⟩)
  have : w3 = w2 := by
    refine word_unique ok3 ok' hm3 hm' ?_
    rw [k3, hl2, q3, List.map_map]
    refine List.map_congr_left fun e he => ?_
    obtain ⟨x, hx⟩ := hall e he
    rw [asList_items] at he
    obtain ⟨y, hy, rfl⟩ := List.mem_map.1 he
    simp only [Function.comp, bareEntry, hx, Option.map_some]
    rw [bare_again (ho _ (push y (hsub.subset hy)) x hx)]
  rw [k1, this]

/-! ### Cases -/

/-- The flexion `E:.wo.-`. -/
def demoSingular : Script := match parseScript (c!"E:.wo.-") with
  | .ok s => s
  | .error _ => .null 0

theorem demoSingular_orderly : Orderly demoSingular := by
  refine ⟨built_of (by decide +kernel), .inl fun c h => ?_⟩
  have : (match demoSingular with | .add _ => true | _ => false) = false := by decide +kernel
  rw [h] at this
  cases this

/-- A process with an actant which has a default flexion, and an actant in which nothing is written. -/
def demoDefault : List (RoleEntry Lexeme) :=
  [([c!"E:T:."], some demoLex2), ([c!"E:.n.-"], some (mkLexeme (mkPM [demoSingular, .prim .U] []) (mkPM [.prim .A] []))), ([c!"E:.d.-"], some emptyLex)]

-- The hypotheses of `C90_rewrite_partial` and `C90_again_partial`.
example : ∃ t f w w', fromList demoDefault = .ok (t, f) ∧ mkWord f [c!"E:.n.-"] t = .ok w ∧ t.pre <+: [c!"E:.n.-"] ∧
    (∀ e ∈ f.asList t, ∀ s ∈ e.1, s ∉ junctionScripts) ∧ (∃ e ∈ f.asList t, HasText e) ∧ (∀ e ∈ f.asList t, ∃ x, e.2 = some x) ∧
    (∀ e ∈ f.asList t, ∀ x, e.2 = some x → ∀ s ∈ x.flexion.constant, Orderly s) ∧
    (∀ e ∈ f.asList t, ∀ x, e.2 = some x → x.empty = false → Lasting e.1 x) ∧
    rewriteWord w = .ok w' ∧ w.text = c!"[E:T:. ()(A: m1(S:)) > ! E:.n.- (U: E:.wo.-)(A:) > E:.d.- ()]" ∧
    w'.text = c!"[E:T:. ()(A: m1(S:)) > ! E:.n.- (U:)(A:)]" := by
  refine ⟨_, _, _, _, rfl, rfl, List.nil_prefix, by decide +kernel, ⟨([c!"E:T:."], some demoLex2), ?_, demoLex2, rfl, by decide +kernel⟩, ?_, ?_, ?_, rfl, by decide +kernel, by decide +kernel⟩
  · exact List.mem_cons_self
  · intro e he
    have he : e ∈ demoDefault := he
    simp only [demoDefault, List.mem_cons, List.not_mem_nil, or_false] at he
    rcases he with rfl | rfl | rfl <;> exact ⟨_, rfl⟩
  · intro e he x hx s hs
    have he : e ∈ demoDefault := he
    have hnull : Orderly (.null 0) := ⟨built_of (by decide +kernel), .inl (by intro c; simp)⟩
    simp only [demoDefault, List.mem_cons, List.not_mem_nil, or_false] at he
    rcases he with rfl | rfl | rfl <;> cases hx
    · rw [show demoLex2.flexion.constant = [.null 0] from rfl, List.mem_singleton] at hs
      rw [hs]; exact hnull
    · have : s ∈ [demoSingular, .prim .U] := by
        rcases mkPM_constant [demoSingular, .prim .U] with ⟨_, h⟩ | ⟨h, _⟩
        · exact absurd h (by decide +kernel)
        · have hs : s ∈ (mkPM [demoSingular, .prim .U] []).constant := hs
          rw [h, mem_pySort, mem_filterEmpty] at hs
          exact hs.1
      simp only [List.mem_cons, List.not_mem_nil, or_false] at this
      rcases this with rfl | rfl
      · exact demoSingular_orderly
      · exact ⟨built_of (by decide +kernel), .inl (by intro c; simp)⟩
    · rw [show emptyLex.flexion.constant = [.null 0] from rfl, List.mem_singleton] at hs
      rw [hs]; exact hnull
  · intro e he x hx hb
    have he : e ∈ demoDefault := he
    simp only [demoDefault, List.mem_cons, List.not_mem_nil, or_false] at he
    rcases he with rfl | rfl | rfl <;> cases hx
    · exact .inl (by decide +kernel)
    · exact .inl (by decide +kernel)
    · exact absurd hb (by decide +kernel)

-- The hypotheses of `C90_missing`: the actant `E:.d.-` has a quality and no lexeme.
example : ∃ t f w, fromList [([c!"E:T:."], some demoLex2), ([c!"E:.d.-", independantQuality], some demoLex3)] = .ok (t, f) ∧
    mkWord f [c!"E:T:."] t = .ok w ∧ t.pre <+: [c!"E:T:."] ∧ (∀ e ∈ f.asList t, ∀ s ∈ e.1, s ∉ junctionScripts) ∧
    (∃ e ∈ f.asList t, Useful (f.asList t) [c!"E:T:."] e ∧ e.2 = none) ∧ rewriteWord w = .error .attributeError := by
  refine ⟨_, _, _, rfl, rfl, List.nil_prefix, by decide +kernel, ⟨([c!"E:.d.-"], none), ?_, .inr (.inl ⟨([c!"E:.d.-", independantQuality], some demoLex3), ?_, ⟨[independantQuality], rfl⟩, demoLex3, rfl, by decide +kernel⟩), rfl⟩, rfl⟩
  · exact List.mem_cons_of_mem _ List.mem_cons_self
  · exact List.mem_cons_of_mem _ (List.mem_cons_of_mem _ List.mem_cons_self)

-- The hypothesis of `C90_junction_root`.
example : ∃ f w, fromList [([dependantQuality, demoLink, demoFirst], some demoLex3), ([dependantQuality, demoLink, demoSecond], some demoLex2)] = .ok (.dependant, f) ∧
    mkWord f [dependantQuality] .dependant = .ok w ∧ w.sfun.cls = .junction := ⟨_, _, rfl, rfl, rfl⟩

/-- **C90 is violated: the groups of a flexion are lost**, so that a paradigm becomes a single word. -/
theorem C90_violated_groups : ∃ t f w w', fromList [([c!"E:T:."], some (mkLexeme (mkPM [] [([.prim .U, .prim .A], 1)]) (mkPM [.prim .S] [])))] = .ok (t, f) ∧
    mkWord f [c!"E:T:."] t = .ok w ∧ rewriteWord w = .ok w' ∧ w.text = c!"[! E:T:. (m1(U: A:))(S:)]" ∧ w'.text = c!"[! E:T:. ()(S:)]" ∧
    w.singularSequences.map (·.length) = .ok 3 ∧ w'.singularSequences.map (·.length) = .ok 1 := by
  refine ⟨_, _, _, _, rfl, rfl, rfl, ?_, ?_, ?_, ?_⟩ <;> decide +kernel

/-- **C90 is violated: the result may be rewritten again**: a lexeme of which only default flexions are written is kept without them, and the
next time it is left out. -/
theorem C90_violated_again : ∃ t f w w' w'', fromList [([c!"E:T:."], some demoLex2), ([c!"E:.d.-"], some (mkLexeme (mkPM [demoSingular] []) (mkPM [] [])))] = .ok (t, f) ∧
    mkWord f [c!"E:T:."] t = .ok w ∧ rewriteWord w = .ok w' ∧ rewriteWord w' = .ok w'' ∧ w.text = c!"[! E:T:. ()(A: m1(S:)) > E:.d.- (E:.wo.-)]" ∧
    w'.text = c!"[! E:T:. ()(A: m1(S:)) > E:.d.- ()]" ∧ w''.text = c!"[! E:T:. ()(A: m1(S:))]" := by
  refine ⟨_, _, _, _, _, rfl, rfl, rfl, rfl, ?_, ?_, ?_⟩ <;> decide +kernel

end Verif
