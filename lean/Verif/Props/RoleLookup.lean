import Verif.Lemmas.RoleLookup
import Verif.Props.Membership

/-
C106: the lookups of roles.
-/

namespace Verif

variable {α : Type}

/-- **C106: the lexeme of each role is found, and nothing else.**  In a function read from a list of roles, `get` finds the lexeme of a
listed role: with `ignore_prefix` under the role as it is listed, without it under the role without the prefix.  Whatever is found without
options is listed. -/
theorem C106_get {l : List (RoleEntry α)} {t : SType} {f : SFun α} (h : fromList l = .ok (t, f)) :
    (∀ r x, (t.pre ++ r, x) ∈ f.asList t → ∀ b, f.getWith true b (t.pre ++ r) = .ok x ∧ f.getWith false b r = .ok x) ∧
    ∀ r x, f.getWith false false r = .ok (some x) ↔ (t.pre ++ r, some x) ∈ f.asList t := by
  have hf := fromList_shape h
  have hmem : ∀ r x, (t.pre ++ r, x) ∈ f.asList t ↔ (r, x) ∈ f.items := by
    intro r x
    rw [asList_items, List.mem_map]
    constructor
    · rintro ⟨e, he, hh⟩
      simp only [pushAddr, Prod.mk.injEq, List.append_cancel_left_eq] at hh
      rw [← hh.1, ← hh.2]
      exact he
    · intro h
      exact ⟨_, h, rfl⟩
  have plain : ∀ r x, f.getWith false false r = .ok x ↔ f.at r = some x := by
    intro r x
    rw [← node_at]
    unfold SFun.getWith
    cases hn : f.node r with
    | none => simp [bind, Except.bind, pure, Except.pure, throw, throwThe, MonadExceptOf.throw, hn]
    | some g => simp [bind, Except.bind, pure, Except.pure, hn]
  have full : ∀ r, f.getWith true true r = f.get r := by
    intro r
    have hs : ∀ v : Str, (f.at [v]).isSome = (f.node [v]).isSome := by intro v; rw [← node_at]; simp
    have ha : ∀ s, f.at s = (f.node s).map SFun.actor := fun s => (node_at f s).symm
    unfold SFun.getWith SFun.get
    simp only [hs]
    cases r with
    | nil => rfl
    | cons q r =>
      simp only [if_true, bind, Except.bind, pure, Except.pure]
      generalize (if q ∈ rolesInProcess then q :: r else r) = s
      have fin : ∀ s, (match f.node s with
          | some g => (.ok g.actor : Except Err (Option α))
          | none => throw Err.keyError) = match f.at s with
          | some a => .ok a
          | none => throw Err.keyError := by
        intro s
        rw [ha]
        cases f.node s <;> rfl
      cases s with
      | nil => exact fin _
      | cons w s =>
        by_cases hw : w ∈ valenceScripts
        · simp only [hw, if_true]
          cases valenceScripts.find? fun v => (f.node [v]).isSome with
          | none => rfl
          | some v => exact fin _
        · simp only [hw, if_false]
          exact fin _
  have skip : ∀ q r, (q ∈ rolesInProcess → ∀ b, f.getWith true b (q :: r) = f.getWith false b (q :: r)) ∧
      (q ∉ rolesInProcess → ∀ b, f.getWith true b (q :: r) = f.getWith false b r) := by
    intro q r
    constructor <;> intro hq b <;> unfold SFun.getWith <;> simp [hq, bind, Except.bind, pure, Except.pure]
  refine ⟨fun r x hr => ?_, fun r x => ?_⟩
  · have hi := (hmem r x).1 hr
    have h1 := get_items hf hi
    have h2 := at_items hf hi
    rw [← full] at h1
    have h3 := (plain r x).2 h2
    cases t with
    | dependant =>
      have hs := (skip dependantQuality r).2 (by decide +kernel)
      intro b
      change f.getWith true true (dependantQuality :: r) = _ at h1
      change f.getWith true b (dependantQuality :: r) = _ ∧ _
      rw [hs] at h1 ⊢
      cases b
      · exact ⟨h3, h3⟩
      · exact ⟨h1, h1⟩
    | independant =>
      have hs := (skip independantQuality r).2 (by decide +kernel)
      intro b
      change f.getWith true true (independantQuality :: r) = _ at h1
      change f.getWith true b (independantQuality :: r) = _ ∧ _
      rw [hs] at h1 ⊢
      cases b
      · exact ⟨h3, h3⟩
      · exact ⟨h1, h1⟩
    | process =>
      intro b
      have hp : ∃ q s, r = q :: s ∧ q ∈ rolesInProcess := by
        cases f with
        | quality f => cases hf
        | process a v acts =>
          obtain ⟨hv, n, _, hacts⟩ := hf
          rw [SFun.items, List.mem_cons, listed_process] at hi
          rcases hi with hi | hi
          · simp only [Prod.mk.injEq] at hi
            exact ⟨v, [], hi.1, by simp [rolesInProcess, hv]⟩
          · obtain ⟨g, hg, y, _, he⟩ := mem_actLeaves hi
            simp only [pushAddr, List.cons_append, List.nil_append, Prod.mk.injEq] at he
            exact ⟨g.1, y.1, he.1, by simp [rolesInProcess, (hacts g hg).1]⟩
      obtain ⟨q, s, rfl, hq⟩ := hp
      have hs := (skip q s).1 hq
      change f.getWith true true (q :: s) = _ at h1
      change f.getWith true b (q :: s) = _ ∧ _
      rw [hs] at h1 ⊢
      cases b
      · exact ⟨h3, h3⟩
      · exact ⟨h1, h1⟩
  · rw [plain, hmem, ← node_at, Option.map_eq_some_iff, items_all]
    constructor
    · rintro ⟨g, hg, hx⟩
      exact ⟨g, (node_iff hf).1 hg, hx⟩
    · rintro ⟨g, hg, hx⟩
      exact ⟨g, (node_iff hf).2 hg, hx⟩

/-- A process read from a list, with a verb and two actants. -/
example : ∃ f, fromList demoProcess = .ok (.process, f) ∧ f.getWith true true [c!"E:T:."] = .ok (some 0) ∧ 1 < (f.asList .process).length := by
  refine ⟨_, rfl, ?_, ?_⟩ <;> decide +kernel

/-- **C106: the errors of `get`.**  `IndexError` is raised only for an empty role with `ignore_prefix`; a role that is no item gives `KeyError`. -/
theorem C106_get_errors (f : SFun α) (p v : Bool) (r : Addr) :
    (f.getWith p v r = .error .indexError ↔ p = true ∧ r = []) ∧
    (∀ e, f.getWith p v r = .error e → e = .indexError ∨ e = .keyError) ∧
    (f.getWith false false r = .error .keyError ↔ ∀ g, (r, g) ∉ f.all) := by
  have last : ∀ s, (∃ x, f.getWith false false s = .ok x) ∨ f.getWith false false s = .error .keyError := by
    intro s
    unfold SFun.getWith
    cases hn : f.node s with
    | none => exact .inr (by simp [bind, Except.bind, pure, Except.pure, throw, throwThe, MonadExceptOf.throw, hn])
    | some g => exact .inl ⟨g.actor, by simp [bind, Except.bind, pure, Except.pure, hn]⟩
  have tail : ∀ s, (∃ x, f.getWith false v s = .ok x) ∨ f.getWith false v s = .error .keyError := by
    intro s
    cases v with
    | false => exact last s
    | true =>
      cases s with
      | nil => exact last []
      | cons w s =>
        by_cases hw : w ∈ valenceScripts
        · cases hv : valenceScripts.find? fun v => (f.node [v]).isSome with
          | none =>
            refine .inr ?_
            unfold SFun.getWith
            simp [bind, Except.bind, pure, Except.pure, throw, throwThe, MonadExceptOf.throw, hw, hv]
          | some u =>
            have : f.getWith false true (w :: s) = f.getWith false false (u :: s) := by
              unfold SFun.getWith
              simp [bind, Except.bind, pure, Except.pure, hw, hv]
            rw [this]
            exact last _
        · have : f.getWith false true (w :: s) = f.getWith false false (w :: s) := by
            unfold SFun.getWith
            simp [bind, Except.bind, pure, Except.pure, hw]
          rw [this]
          exact last _
  have main : (f.getWith p v r = .error .indexError ∧ p = true ∧ r = []) ∨
      (¬ (p = true ∧ r = []) ∧ ((∃ x, f.getWith p v r = .ok x) ∨ f.getWith p v r = .error .keyError)) := by
    cases p with
    | false => exact .inr ⟨by simp, tail r⟩
    | true =>
      cases r with
      | nil => exact .inl ⟨rfl, rfl, rfl⟩
      | cons q r =>
        refine .inr ⟨by simp, ?_⟩
        by_cases hq : q ∈ rolesInProcess
        · have : f.getWith true v (q :: r) = f.getWith false v (q :: r) := by
            unfold SFun.getWith
            simp [hq, bind, Except.bind, pure, Except.pure]
          rw [this]
          exact tail _
        · have : f.getWith true v (q :: r) = f.getWith false v r := by
            unfold SFun.getWith
            simp [hq, bind, Except.bind, pure, Except.pure]
          rw [this]
          exact tail _
  refine ⟨?_, ?_, ?_⟩
  · rcases main with ⟨h1, h2⟩ | ⟨h1, ⟨x, h2⟩ | h2⟩
    · exact ⟨fun _ => h2, fun _ => h1⟩
    · exact ⟨fun h => (by rw [h2] at h; cases h), fun h => absurd h h1⟩
    · exact ⟨fun h => (by rw [h2] at h; cases h), fun h => absurd h h1⟩
  · intro e he
    rcases main with ⟨h1, _⟩ | ⟨_, ⟨x, h1⟩ | h1⟩ <;> rw [h1] at he <;> cases he <;> simp
  · rw [← node_none]
    unfold SFun.getWith
    cases hn : f.node r with
    | none => simp [bind, Except.bind, pure, Except.pure, throw, throwThe, MonadExceptOf.throw, hn]
    | some g => simp [bind, Except.bind, pure, Except.pure, hn]

example : (SFun.quality (.indep (some 0))).getWith true false [] = .error .indexError ∧
    (SFun.quality (.indep (some 0))).getWith false false [dependantQuality] = .error .keyError := ⟨rfl, by decide +kernel⟩

/-- **C106: `ignore_process_valence`.**  Any of the three valences finds the verb of a process, and a valence finds nothing in another function. -/
theorem C106_valence {l : List (RoleEntry α)} {t : SType} {f : SFun α} (h : fromList l = .ok (t, f)) {w : Str} (hw : w ∈ valenceScripts) (p : Bool) :
    (∀ a v acts, f = .process a v acts → f.getWith p true [w] = .ok a) ∧
    (t ≠ .process → ∀ r, f.getWith false true (w :: r) = .error .keyError ∧ f.getWith true true (w :: r) = .error .keyError) := by
  have hf := fromList_shape h
  have hrole : w ∈ rolesInProcess := by simp [rolesInProcess, hw]
  constructor
  · rintro a v acts rfl
    cases t with
    | dependant => cases hf
    | independant => cases hf
    | process =>
      have hn : (SFun.process a v acts).node [v] = some (.process a v acts) := (node_iff hf).2 (by rw [SFun.all]; simp)
      obtain ⟨hv, n, _, hacts⟩ := id hf
      have hat : ∀ u ∈ valenceScripts, ((SFun.process a v acts).node [u]).isSome = true → u = v := by
        intro u hu hs
        obtain ⟨g, hg⟩ := Option.isSome_iff_exists.1 hs
        have : (([u] : Addr), g) ∈ (SFun.process a v acts).all := (node_iff hf).1 hg
        rw [SFun.all] at this
        rcases List.mem_cons.1 this with this | this
        · simp only [Prod.mk.injEq, List.cons.injEq, and_true] at this
          exact this.1
        · obtain ⟨x, hx, he⟩ := List.mem_map.1 this
          simp only [Prod.mk.injEq] at he
          exact absurd he.1 (processActors_ne hacts hu hx)
      have hfind : (valenceScripts.find? fun u => ((SFun.process a v acts).node [u]).isSome) = some v := by
        cases hh : valenceScripts.find? fun u => ((SFun.process a v acts).node [u]).isSome with
        | none =>
          have := List.find?_eq_none.1 hh v hv
          rw [hn] at this
          simp at this
        | some u => rw [hat u (List.mem_of_find?_eq_some hh) (by have := List.find?_some hh; exact this)]
      unfold SFun.getWith
      cases p <;> simp [bind, Except.bind, pure, Except.pure, hrole, hw, hfind, hn, SFun.actor]
  · intro ht r
    have hq : ∃ g, f = .quality g ∧ ∃ n, OkN n g := by
      cases t with
      | process => exact absurd rfl ht
      | dependant => cases f with
        | process => cases hf
        | quality g => exact ⟨g, rfl, hf.imp fun _ h => .inl h⟩
      | independant => cases f with
        | process => cases hf
        | quality g => exact ⟨g, rfl, hf.imp fun _ h => .inr h⟩
    obtain ⟨g, rfl, n, hg⟩ := hq
    have hno : ∀ u ∈ valenceScripts, ((SFun.quality g).node [u]).isSome = false := by
      intro u hu
      rw [Option.isSome_eq_false_iff, Option.isNone_iff_eq_none, node_none]
      intro k hk
      obtain ⟨⟨s, m⟩, hs, he⟩ := List.mem_map.1 hk
      simp only [Prod.mk.injEq] at he
      obtain ⟨rfl, _⟩ := he
      have hin : ∀ e ∈ leaves g, ∀ a ∈ e.1, Inner a := hg.elim okD_inner okI_inner
      have : Inner u := by
        cases hm : m with
        | junction link cs =>
          rw [hm] at hs
          obtain ⟨_, rest, x, hx⟩ := junction_below hg hs
          exact hin _ hx u (by simp)
        | indep a => exact hin _ (mem_leaves.2 ⟨m, hs, by rw [hm]; rfl, rfl⟩) u (by simp)
        | dep a d i => exact hin _ (mem_leaves.2 ⟨m, hs, by rw [hm]; rfl, rfl⟩) u (by simp)
      exact inner_not_valence this hu
    have hfind : (valenceScripts.find? fun u => ((SFun.quality g).node [u]).isSome) = none :=
      List.find?_eq_none.2 fun u hu => by rw [hno u hu]; simp
    unfold SFun.getWith
    constructor <;> simp [bind, Except.bind, pure, Except.pure, throw, throwThe, MonadExceptOf.throw, hrole, hw, hfind]

example : ∃ f, fromList demoProcess = .ok (.process, f) ∧ f.getWith true true [c!"E:B:."] = .ok (some 0) ∧
    f.getWith true false [c!"E:B:."] = .error .keyError := by
  refine ⟨_, rfl, ?_, ?_⟩ <;> decide +kernel

/-- **C106 is violated: a wrong prefix is accepted.**  With `ignore_prefix` the first script of the role is dropped when it is no role of a
process, whatever it is: the role of an independant quality finds the lexeme of a dependant one. -/
theorem C106_violated_prefix : ∃ f : SFun Nat, fromList [([dependantQuality], some 0)] = .ok (.dependant, f) ∧
    ([independantQuality], some 0) ∉ f.asList .dependant ∧ f.getWith true true [independantQuality] = .ok (some 0) ∧
    f.getWith true true [c!"not a role"] = .ok (some 0) := by
  refine ⟨_, rfl, ?_, ?_, ?_⟩ <;> decide +kernel

/-- What a function holds: the roles and lexemes of its items, as texts. -/
def holds (f : SFun Lexeme) : List (Str × Option Str) := f.entries.map fun e => (roleText e.1, e.2.map Lexeme.text)

/-- **C106: `role_in`.**  The role returned is a role of the function, whose item holds the same roles and lexemes as the target; every item
of the function is found, under its own role if no other item holds the same; `KeyError` is raised exactly when no item compares equal. -/
theorem C106_role_in {l : List (RoleEntry Lexeme)} {t : SType} {f : SFun Lexeme} (h : fromList l = .ok (t, f)) (tgt : SFun Lexeme) :
    (∀ r, f.roleIn tgt = .ok r → ∃ g, f.node r = some g ∧ (holds g).Perm (holds tgt)) ∧
    (∀ e, f.roleIn tgt = .error e → e = .keyError ∧ ∀ x ∈ f.all, x.2 ≠ tgt) ∧
    (∀ r, (r, tgt) ∈ f.all → (∀ x ∈ f.all, (holds x.2).Perm (holds tgt) → x.1 = r) → f.roleIn tgt = .ok r) := by
  have hf := fromList_shape h
  have hsame : ∀ g : SFun Lexeme, g.same tgt = true → (holds g).Perm (holds tgt) := by
    intro g hg
    have := eqEntries_iff.1 hg
    have p1 : (holds g).Perm (g.sorted.map fun e => (roleText e.1, e.2.map Lexeme.text)) := (pySort_perm _ _).symm.map _
    have p2 : (holds tgt).Perm (tgt.sorted.map fun e => (roleText e.1, e.2.map Lexeme.text)) := (pySort_perm _ _).symm.map _
    rw [this] at p1
    exact p1.trans p2.symm
  have hrefl : ∀ g : SFun Lexeme, g.same g = true := fun g => eqEntries_iff.2 rfl
  have hok : ∀ r, f.roleIn tgt = .ok r → ∃ g, (r, g) ∈ f.all ∧ g.same tgt = true := by
    intro r hr
    unfold SFun.roleIn at hr
    split at hr
    · rename_i e he
      cases hr
      exact ⟨e.2, List.mem_of_find?_eq_some he, by have := List.find?_some he; exact this⟩
    · cases hr
  have herr : ∀ e, f.roleIn tgt = .error e → e = .keyError ∧ ∀ x ∈ f.all, x.2 ≠ tgt := by
    intro e he
    unfold SFun.roleIn at he
    split at he
    · cases he
    · rename_i hn
      cases he
      refine ⟨rfl, fun x hx hxt => ?_⟩
      have := List.find?_eq_none.1 hn x hx
      rw [hxt, hrefl] at this
      simp at this
  refine ⟨fun r hr => ?_, herr, fun r hr hu => ?_⟩
  · obtain ⟨g, hg, hs⟩ := hok r hr
    exact ⟨g, (node_iff hf).2 hg, hsame g hs⟩
  · cases hh : f.roleIn tgt with
    | error e => exact absurd rfl ((herr e hh).2 _ hr)
    | ok s =>
      obtain ⟨g, hg, hs⟩ := hok s hh
      have : s = r := hu _ hg (hsame g hs)
      rw [this]

/-- A process whose two items differ. -/
example : ∃ t f g, fromList [([c!"E:T:."], some demoLex2), ([c!"E:.n.-"], some demoLex4)] = .ok (t, f) ∧ f.node [c!"E:.n.-"] = some g ∧
    f.roleIn g = .ok [c!"E:.n.-"] ∧ (∀ x ∈ f.all, (holds x.2).Perm (holds g) → x.1 = [c!"E:.n.-"]) := by
  refine ⟨_, _, _, rfl, rfl, ?_, ?_⟩ <;> decide +kernel

/-- **C106 is violated: an item that is the same as an earlier one is found at the role of that one.** -/
theorem C106_violated_role_in : ∃ t f g, fromList [([c!"E:T:."], some demoLex2), ([c!"E:.n.-"], some demoLex4), ([c!"E:.d.-"], some demoLex4)] = .ok (t, f) ∧
    f.node [c!"E:.d.-"] = some g ∧ f.roleIn g = .ok [c!"E:.n.-"] := by
  refine ⟨_, _, _, rfl, rfl, ?_⟩
  decide +kernel

/-- **C106: `role_is_junction` says whether a role is a junction**: the scripts of the role are followed, in some listed role, by the script of
a junction. -/
theorem C106_role_is_junction {l : List (RoleEntry α)} {t : SType} {f : SFun α} (h : fromList l = .ok (t, f)) (r : Addr) :
    f.roleIsJunction r = true ↔ ∃ link ∈ junctionScripts, ∃ rest x, (t.pre ++ r ++ link :: rest, x) ∈ f.asList t := by
  have hf := fromList_shape h
  have hmem : ∀ s x, (t.pre ++ s, x) ∈ f.asList t ↔ (s, x) ∈ f.items := by
    intro r x
    rw [asList_items, List.mem_map]
    constructor
    · rintro ⟨e, he, hh⟩
      simp only [pushAddr, Prod.mk.injEq, List.append_cancel_left_eq] at hh
      rw [← hh.1, ← hh.2]
      exact he
    · intro h
      exact ⟨_, h, rfl⟩
  simp only [List.append_assoc, hmem]
  have hjun : f.roleIsJunction r = true ↔ ∃ link cs, (r, SFun.quality (.junction link cs)) ∈ f.all := by
    unfold SFun.roleIsJunction
    constructor
    · intro hh
      split at hh
      · rename_i g hg
        cases g with
        | junction link cs => exact ⟨link, cs, (node_iff hf).1 hg⟩
        | indep a => cases hh
        | dep a d i => cases hh
      · cases hh
    · rintro ⟨link, cs, hm⟩
      rw [(node_iff hf).2 hm]
      rfl
  rw [hjun]
  have quality : ∀ {n : Nat} {g : SF α}, OkN n g → ((∃ link cs, (r, SF.junction link cs) ∈ g.actors) ↔
      ∃ link ∈ junctionScripts, ∃ rest x, (r ++ link :: rest, x) ∈ leaves g) := by
    intro n g hg
    constructor
    · rintro ⟨link, cs, hm⟩
      obtain ⟨h1, rest, x, h2⟩ := junction_below hg hm
      exact ⟨link, h1, rest, x, h2⟩
    · rintro ⟨link, h1, rest, x, h2⟩
      obtain ⟨cs, hm⟩ := junction_above hg h1 h2
      exact ⟨link, cs, hm⟩
  have hq : ∀ {n : Nat} {g : SF α}, OkN n g → ((∃ link cs, (r, SFun.quality (.junction link cs)) ∈ (SFun.quality g).all) ↔
      ∃ link ∈ junctionScripts, ∃ rest x, (r ++ link :: rest, x) ∈ (SFun.quality g).items) := by
    intro n g hg
    have e : (SFun.quality g).items = leaves g := rfl
    rw [e, ← quality hg]
    simp [SFun.all]
  cases t with
  | dependant => cases f with
    | process => cases hf
    | quality g => obtain ⟨n, hn⟩ := hf; exact hq (.inl hn)
  | independant => cases f with
    | process => cases hf
    | quality g => obtain ⟨n, hn⟩ := hf; exact hq (.inr hn)
  | process => cases f with
    | quality g => cases hf
    | process a v acts =>
      obtain ⟨hv, n, _, hacts⟩ := hf
      have hjv : ∀ link ∈ junctionScripts, link ∉ rolesInProcess := by decide +kernel
      constructor
      · rintro ⟨link, cs, hm⟩
        rw [SFun.all] at hm
        rcases List.mem_cons.1 hm with hm | hm
        · simp at hm
        · obtain ⟨⟨s, m⟩, hs, he⟩ := List.mem_map.1 hm
          simp only [Prod.mk.injEq, SFun.quality.injEq] at he
          obtain ⟨rfl, rfl⟩ := he
          obtain ⟨g, hg, hs⟩ := List.mem_flatMap.1 hs
          obtain ⟨⟨u, m⟩, hu, he⟩ := List.mem_map.1 hs
          simp only [Prod.mk.injEq] at he
          obtain ⟨rfl, rfl⟩ := he
          obtain ⟨h1, rest, x, h2⟩ := junction_below (.inl (hacts g hg).2) hu
          refine ⟨link, h1, rest, x, ?_⟩
          rw [SFun.items, listed_process]
          refine List.mem_cons_of_mem _ (List.mem_flatMap.2 ⟨g, hg, List.mem_map.2 ⟨_, h2, ?_⟩⟩)
          simp [pushAddr]
      · rintro ⟨link, h1, rest, x, hm⟩
        rw [SFun.items, listed_process] at hm
        rcases List.mem_cons.1 hm with hm | hm
        · simp only [Prod.mk.injEq] at hm
          have : link ∈ ([v] : Addr) := by rw [← hm.1]; simp
          simp only [List.mem_singleton] at this
          exact absurd (by simp [rolesInProcess, this, hv]) (hjv link h1)
        · obtain ⟨g, hg, y, hy, he⟩ := mem_actLeaves hm
          simp only [pushAddr, List.cons_append, List.nil_append, Prod.mk.injEq] at he
          cases r with
          | nil =>
            simp only [List.nil_append, List.cons.injEq] at he
            exact absurd (by simp [rolesInProcess, he.1.1, (hacts g hg).1]) (hjv link h1)
          | cons q r =>
            simp only [List.cons_append, List.cons.injEq] at he
            obtain ⟨⟨rfl, h2⟩, rfl⟩ := he
            obtain ⟨cs, hcs⟩ := junction_above (r := r) (rest := rest) (.inl (hacts g hg).2) h1 (by rw [h2]; exact hy)
            refine ⟨link, cs, List.mem_cons_of_mem _ (List.mem_map.2 ⟨(g.1 :: r, _), List.mem_flatMap.2 ⟨g, hg, List.mem_map.2 ⟨_, hcs, rfl⟩⟩, rfl⟩)⟩

example : ∃ f : SFun Nat, fromList [([dependantQuality, demoLink, demoFirst], some 0), ([dependantQuality, demoLink, demoSecond], some 1)] = .ok (.dependant, f) ∧
    f.roleIsJunction [] = true ∧ f.roleIsJunction [demoLink, demoFirst] = false := by
  refine ⟨_, rfl, ?_, ?_⟩ <;> decide +kernel

/-- **C106: `is_junction_prefix` for the roles of at most one script.**  It says whether the other role is the role followed by two scripts. -/
theorem C106_junction_prefix_partial {p : Addr} (hp : p.length ≤ 1) (r : Addr) : isJunctionPrefix p r = true ↔ ∃ a b, r = p ++ [a, b] := by
  unfold isJunctionPrefix
  match p, hp with
  | [], _ =>
    match r with
    | [] => simp [sliceTo]
    | [_] => simp [sliceTo]
    | [a, b] => simp [sliceTo]
    | _ :: _ :: _ :: _ => simp
  | [q], _ =>
    match r with
    | [] => simp [sliceTo]
    | [_] => simp [sliceTo]
    | [_, _] => simp [sliceTo]
    | [a, b, c] =>
      have : sliceTo [a, b, c] ((([q] : Addr).length : Int) - 3) = [a] := rfl
      rw [this]
      constructor
      · intro h
        simp at h
        exact ⟨b, c, by rw [h]; rfl⟩
      · rintro ⟨x, y, h⟩
        simp at h
        simp [h.1]
    | _ :: _ :: _ :: _ :: _ => simp

example : isJunctionPrefix [dependantQuality] [dependantQuality, demoLink, demoFirst] = true := by decide +kernel

/-- **C106 is violated: no role of two or more scripts is a junction prefix**, also of the roles that are the role followed by a junction. -/
theorem C106_violated_junction_prefix : (∀ p r : Addr, 2 ≤ p.length → isJunctionPrefix p r = false) ∧
    isJunctionPrefix [c!"E:.n.-", independantQuality] ([c!"E:.n.-", independantQuality] ++ [demoLink, demoFirst]) = false := by
  have key : ∀ p r : Addr, 2 ≤ p.length → isJunctionPrefix p r = false := by
    intro p r hp
    unfold isJunctionPrefix
    rw [Bool.and_eq_false_iff]
    by_cases hl : r.length = p.length + 2
    · refine .inl ?_
      rw [beq_eq_false_iff_ne]
      intro e
      have e2 := congrArg List.length e
      unfold sliceTo at e2
      split at e2
      · rw [List.length_take] at e2
        omega
      · rw [List.length_take] at e2
        omega
    · exact .inr (by simpa using hl)
  exact ⟨key, key _ _ (by decide)⟩

/-- **C106: `get_paradigm` returns the items of the scripts of the role**, each taken as a role of one script, in their order. -/
theorem C106_paradigm {l : List (RoleEntry α)} {t : SType} {f : SFun α} (h : fromList l = .ok (t, f)) (r : Addr) :
    (∀ g, g ∈ f.getParadigm r ↔ ∃ s ∈ r, ([s], g) ∈ f.all) ∧ (f.getParadigm r).length ≤ r.length ∧
    ∀ r' s, f.getParadigm (r ++ s :: r') = f.getParadigm r ++ (f.node [s]).toList ++ f.getParadigm r' := by
  have hf := fromList_shape h
  refine ⟨fun g => ?_, List.length_filterMap_le _ _, fun r' s => ?_⟩
  · unfold SFun.getParadigm
    rw [List.mem_filterMap]
    exact exists_congr fun s => and_congr Iff.rfl (node_iff hf)
  · unfold SFun.getParadigm
    rw [List.filterMap_append, List.filterMap_cons, List.append_assoc]
    cases f.node [s] <;> rfl

example : ∃ f, fromList demoProcess = .ok (.process, f) ∧ (f.getParadigm [c!"E:T:.", c!"E:.n.-", c!"E:B:."]).map SFun.actor = [some 0, some 1] := by
  refine ⟨_, rfl, ?_⟩
  decide +kernel

end Verif
