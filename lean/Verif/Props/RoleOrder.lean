import Verif.Lemmas.WordText
import Verif.Props.SyntagmaticFunction
import Verif.Props.Word

/-
C63: the order of the roles given to the reader of syntagmatic functions.
-/

namespace Verif
variable {α : Type}

theorem processActors_perm {acts acts' : List (Str × SF α)} (h : acts.Perm acts') : (processActors acts).Perm (processActors acts') :=
  h.flatMap_right _

theorem items_same {f f' : SFun α} (h : SameFun f f') : f'.items.Perm f.items := by
  cases f with
  | quality g =>
    cases f' with
    | quality g' => have h : g = g' := h; subst h; exact .refl _
    | process => cases h
  | process a v acts =>
    cases f' with
    | quality => cases h
    | process a' v' acts' =>
      obtain ⟨rfl, rfl, hp⟩ := h
      refine .cons _ ?_
      unfold listed
      refine (List.Perm.filter _ ?_).map _
      exact hp.symm.flatMap_right _

theorem find_perm {l l' : List (Addr × SF α)} (hp : l.Perm l') (hn : (l.map (·.1)).Nodup) (r : Addr) :
    (l.find? fun e => e.1 = r) = l'.find? fun e => e.1 = r := by
  have key : ∀ {l l' : List (Addr × SF α)}, l.Perm l' → (l.map (·.1)).Nodup → ∀ e, (l.find? fun e => e.1 = r) = some e → (l'.find? fun e => e.1 = r) = some e := by
    intro l l' hp hn e he
    have h1 : e.1 = r := by simpa using List.find?_some he
    have h2 := hp.mem_iff.1 (List.mem_of_find?_eq_some he)
    cases hf : l'.find? fun e => e.1 = r with
    | none =>
      have := List.find?_eq_none.1 hf e h2
      simp [h1] at this
    | some e' =>
      have h3 : e'.1 = r := by simpa using List.find?_some hf
      have h4 := List.mem_of_find?_eq_some hf
      rw [List.inj_on_of_nodup_map ((hp.map _).nodup_iff.1 hn) h4 h2 (h3.trans h1.symm)]
  cases h : l.find? fun e => e.1 = r with
  | some e => rw [key hp hn e h]
  | none =>
    cases h' : l'.find? fun e => e.1 = r with
    | none => rfl
    | some e =>
      rw [key hp.symm ((hp.map _).nodup_iff.1 hn) e h'] at h
      cases h

theorem expansion_same {t : SType} {f f' : SFun α} (hok : OkFun t f) (h : SameFun f f') (r : Addr) : f.expansion r = f'.expansion r := by
  have hn := nodes_nodup hok
  cases f with
  | quality g =>
    cases f' with
    | quality g' => have h : g = g' := h; subst h; rfl
    | process => cases h
  | process a v acts =>
    cases f' with
    | quality => cases h
    | process a' v' acts' =>
      obtain ⟨rfl, rfl, hp⟩ := h
      rw [SFun.expansion, SFun.expansion]
      split
      · rfl
      · unfold expandAt
        rw [find_perm (processActors_perm hp) hn r]

theorem render_same {text : α → Str} {t : SType} {f f' : SFun α} (hok : OkFun t f) (hok' : OkFun t f') (h : SameFun f f') (role : Addr) :
    f.render text role t = f'.render text role t := by
  have hp := items_same h
  have hs := sort_items (text := text) (l := f.items) (l' := f'.items) (by
    intro e he
    rcases List.mem_append.1 he with he | he
    · exact items_address hok e he
    · exact items_address hok' e he) (items_nodup hok') (hp.symm.map _)
  have hj : ∀ main, (pySort (fun a b => addrLt a.1 b.1) f.items).map (itemText text main t.pre) =
      (pySort (fun a b => addrLt a.1 b.1) f'.items).map (itemText text main t.pre) := by
    intro main
    have hfac : itemText text main t.pre = (fun p : Addr × Str => (if p.1 ∈ main then c!"! " else []) ++
        (match t.pre with | [] => [] | p :: _ => p ++ c!" ") ++ roleText p.1 ++ c!" " ++ p.2) ∘ fun e => (e.1, actorText text e.2) := rfl
    rw [hfac, ← List.map_map, hs, ← List.map_map]
  unfold SFun.render
  rw [expansion_same hok h]
  simp only [hj]

/-- **C63, what holds.** If a list is, up to the order, the list form of the function read from it, then a rearranged list gives the
same function, except for the order of the actants of a process, and every word made of it has the same text.  Missing: the lists that
are no list forms, for which the claim is false (`C63_violated`). -/
theorem C63_partial {l l' : List (RoleEntry Lexeme)} {t : SType} {f : SFun Lexeme} (hf : fromList l = .ok (t, f)) (hl : l.Perm (f.asList t))
    (hp : l'.Perm l) : ∃ f', fromList l' = .ok (t, f') ∧ SameFun f f' ∧
      ∀ role, (mkWord f' role t).map (·.text) = (mkWord f role t).map (·.text) := by
  obtain ⟨f', h1, h2⟩ := fromList_perm (fromList_shape hf) (hp.trans hl)
  refine ⟨f', h1, h2, fun role => ?_⟩
  unfold mkWord
  rw [render_same (fromList_shape hf) (fromList_shape h1) h2 role]
  cases f'.render Lexeme.text role t with
  | error e => rfl
  | ok s => cases classFromAddress role <;> rfl

-- A process with two actants, given in both orders.
example : ∃ f f' : SFun Lexeme,
    fromList [([c!"E:.n.-"], some demoLex3), ([c!"E:T:."], some demoLex2), ([c!"E:.d.-"], some demoLex2)] = .ok (.process, f) ∧
    fromList [([c!"E:.d.-"], some demoLex2), ([c!"E:.n.-"], some demoLex3), ([c!"E:T:."], some demoLex2)] = .ok (.process, f') ∧
    f.asList .process = [([c!"E:T:."], some demoLex2), ([c!"E:.n.-"], some demoLex3), ([c!"E:.d.-"], some demoLex2)] ∧
    f'.asList .process = [([c!"E:T:."], some demoLex2), ([c!"E:.d.-"], some demoLex2), ([c!"E:.n.-"], some demoLex3)] :=
  ⟨_, _, rfl, rfl, rfl, rfl⟩

/-- **C63** is violated: a list with a quality before a junction is read, the reversed list is refused. -/
theorem C63_violated :
    fromList [([dependantQuality, dependantQuality, demoSecond], some 0), ([dependantQuality, demoLink, demoFirst], some 1)] =
      .ok (.dependant, .quality (.junction demoLink [.dep (some 1) none none, .dep (some 0) none none])) ∧
    fromList [([dependantQuality, demoLink, demoFirst], some 1), ([dependantQuality, dependantQuality, demoSecond], some 0)] = .error .valueError :=
  ⟨rfl, rfl⟩

/-- **C63** is violated: of two lexemes at the same role the first may be `None`; it is replaced then, and refused otherwise. -/
theorem C63_violated_none :
    fromList [([dependantQuality], none), ([dependantQuality], some 0)] = .ok (.dependant, .quality (.dep (some 0) none none)) ∧
    fromList [([dependantQuality], some 0), ([dependantQuality], none)] = .error .valueError :=
  ⟨rfl, rfl⟩

end Verif
