import Verif.Lemmas.SFun5
import Verif.Model.Parser

/-
Properties C49, C50 and C61: the lists of roles of the syntagmatic functions.
-/

namespace Verif
variable {α : Type}

/-! ### C49 -/

/-- **C49**: every function accepted by `from_list` is given back, with its type, from its own list. -/
theorem C49_round_trip {l : List (RoleEntry α)} {t : SType} {f : SFun α} (h : fromList l = .ok (t, f)) : fromList (f.asList t) = .ok (t, f) :=
  fromList_back (fromList_shape h)

/-- Hence the list of a function determines the function. -/
theorem C49_injective {l l' : List (RoleEntry α)} {t t' : SType} {f f' : SFun α} (h : fromList l = .ok (t, f)) (h' : fromList l' = .ok (t', f'))
    (he : f.asList t = f'.asList t') : t = t' ∧ f = f' := by
  have h1 := C49_round_trip h
  rw [he, C49_round_trip h', Except.ok.injEq, Prod.mk.injEq] at h1
  exact ⟨h1.1.symm, h1.2.symm⟩

/-- The scripts of the addresses are different and are the texts the parser of scripts gives them, so that comparing texts here
is comparing scripts in the code. -/
theorem C49_addresses : addressScripts.Nodup ∧ ∀ a ∈ addressScripts, (parseScript a).map (·.str) = .ok a := by
  decide +kernel

/-- A junction script and the first two indices. -/
def demoLink : Str := c!"E:S:.-k.u.-'"
@[inherit_doc demoLink] def demoFirst : Str := c!"j.-U:.-'d.o.-l.o.-',"
@[inherit_doc demoLink] def demoSecond : Str := c!"j.-A:.-'d.o.-l.o.-',"

/-- A process with a qualified actant, a junction of two actants, of which the first is a junction of two lexemes. -/
def demoProcess : List (RoleEntry Nat) :=
  [([c!"E:T:."], some 0), ([c!"E:.n.-"], some 1), ([c!"E:.n.-", independantQuality], some 2),
   ([c!"E:.d.-", demoLink, demoSecond, dependantQuality], some 3),
   ([c!"E:.d.-", demoLink, demoFirst, demoLink, demoFirst], some 4),
   ([c!"E:.d.-", demoLink, demoFirst, demoLink, demoSecond], some 5)]

example : fromList demoProcess = .ok (.process, .process (some 0) (c!"E:T:.")
    [(c!"E:.n.-", .dep (some 1) none (some (.indep (some 2)))),
     (c!"E:.d.-", .junction demoLink [.junction demoLink [.dep (some 4) none none, .dep (some 5) none none],
       .dep none (some (.dep (some 3) none none)) none])]) := by
  rfl

/-! ### C50 -/

/-- **C50** for the parts of the code that are proved to follow it: the only other exception is `IndexError`, and the recursion
ends.  Missing: the absence of `IndexError`, which is false (`C50_violated`). -/
theorem C50_errors_partial {l : List (RoleEntry α)} {e : Err} (h : fromList l = .error e) : e = .valueError ∨ e = .indexError :=
  fromList_reported h

/-- **C50** for the lists in which no address is empty, no junction script occurs, and no address ending with the independant
quality is a prefix of another. -/
theorem C50_plain_partial {l : List (RoleEntry α)} (hne : ∀ e ∈ l, e.1 ≠ []) (hj : ∀ e ∈ l, ∀ a ∈ e.1, a ∉ junctionScripts)
    (hs : Separate l) {e : Err} (h : fromList l = .error e) : e = .valueError := by
  rcases fromList_reported h with h' | rfl
  · exact h'
  · exact absurd h (fromList_plain hne hj hs)

/-- A list meeting the hypotheses of `C50_plain_partial` and refused. -/
example : ∃ l : List (RoleEntry Nat), (∀ e ∈ l, e.1 ≠ []) ∧ (∀ e ∈ l, ∀ a ∈ e.1, a ∉ junctionScripts) ∧ Separate l ∧
    fromList l = .error .valueError := by
  refine ⟨[([dependantQuality, independantQuality], some 0), ([dependantQuality, c!"E:.n.-"], some 1)], by decide, by decide +kernel, ?_, rfl⟩
  refine List.pairwise_pair.2 ⟨fun p _ => by decide +kernel, fun p hp => ?_⟩
  have := congrArg List.getLast? hp
  rw [List.getLast?_concat] at this
  exact absurd this (by decide +kernel)

/-- **C50** is violated: `IndexError` for an empty address, for two lexemes at the same independant role, for a junction
whose first child is missing, for an address that stops after the junction script, and for a lexeme at the address of a junction. -/
theorem C50_violated :
    (fromList [([], some 0)] = .error .indexError) ∧
    (fromList [([independantQuality], some 0), ([independantQuality], some 1)] = .error .indexError) ∧
    (fromList [([dependantQuality, demoLink, demoSecond], some 0)] = .error .indexError) ∧
    (fromList [([dependantQuality, demoLink], some 0)] = .error .indexError) ∧
    (fromList [([dependantQuality], some 0), ([dependantQuality, demoLink, demoFirst], some 1)] = .error .indexError) :=
  ⟨rfl, rfl, rfl, rfl, rfl⟩

/-- With a gap after the first missing index the error is the documented one. -/
example : fromList [([dependantQuality, demoLink, c!"g.-U:.-'d.o.-l.o.-',"], some 0)] = .error .valueError := rfl

/-! ### C61 -/

/-- **C61** without the addresses: the lexemes of the function read are those of the list, each once, at addresses that differ at
most by scripts followed by an index of junction, replaced by a junction script.  Missing: the addresses are the same, which is
false (`C61_violated`). -/
theorem C61_partial {l : List (RoleEntry α)} {t : SType} {f : SFun α} (h : fromList l = .ok (t, f)) :
    ∃ m, List.Forall₂ Moved (solid l) m ∧ m.Perm (solid (f.asList t)) :=
  fromList_conserved h

/-- **C61** for the lists in which every index of junction follows a junction script. -/
theorem C61_indexed_partial {l : List (RoleEntry α)} {t : SType} {f : SFun α} (h : fromList l = .ok (t, f)) (hi : ∀ e ∈ l, Indexed e.1) :
    (solid l).Perm (solid (f.asList t)) :=
  conserved_indexed (fromList_conserved h) hi

/-- **C61** for one lexeme, whatever the other addresses of the list: it stays at its address if every index there follows a junction
script. -/
theorem C61_kept {l : List (RoleEntry α)} {t : SType} {f : SFun α} (h : fromList l = .ok (t, f)) {a : Addr} {x : α} (he : (a, some x) ∈ l)
    (hi : Indexed a) : (a, some x) ∈ f.asList t := by
  obtain ⟨m, h1, h2⟩ := C61_partial h
  obtain ⟨e', he', hm⟩ := forall₂_mem_left h1 (List.mem_filter.2 ⟨he, rfl⟩)
  have hq : e' = (a, some x) := Prod.ext (hm.2.eq_of_indexed hi) hm.1
  rw [hq] at he'
  exact List.mem_of_mem_filter (h2.mem_iff.1 he')

instance : ∀ p : Addr, Decidable (Indexed p)
  | [] => .isTrue trivial
  | [_] => .isTrue trivial
  | a :: i :: rest =>
    let : Decidable (Indexed (i :: rest)) := instDecidableIndexed (i :: rest)
    inferInstanceAs (Decidable ((i ∈ junctionIndex → a ∈ junctionScripts) ∧ Indexed (i :: rest)))

example : (∀ e ∈ demoProcess, Indexed e.1) ∧ (fromList demoProcess).toBool = true := by decide +kernel

/-- **C61** is violated: a lexeme given as a dependant quality becomes the second child of a junction given after it. -/
theorem C61_violated : ∃ (l : List (RoleEntry Nat)) (t : SType) (f : SFun Nat), fromList l = .ok (t, f) ∧
    ([dependantQuality, dependantQuality, demoSecond], some 0) ∈ l ∧
    ([dependantQuality, dependantQuality, demoSecond], some 0) ∉ f.asList t ∧
    ([dependantQuality, demoLink, demoSecond], some 0) ∈ f.asList t :=
  ⟨[([dependantQuality, dependantQuality, demoSecond], some 0), ([dependantQuality, demoLink, demoFirst], some 1)], .dependant,
    .quality (.junction demoLink [.dep (some 1) none none, .dep (some 0) none none]), rfl, by decide +kernel, by decide +kernel,
    by decide +kernel⟩

/-- In the same list the lexeme at an address with its index stays. -/
example : Indexed [dependantQuality, demoLink, demoFirst] ∧ (fromList [([dependantQuality, dependantQuality, demoSecond], some 0),
    ([dependantQuality, demoLink, demoFirst], some 1)]).map (fun r => (r.2.asList r.1).contains ([dependantQuality, demoLink, demoFirst], some 1)) = .ok true := by
  decide +kernel

end Verif
