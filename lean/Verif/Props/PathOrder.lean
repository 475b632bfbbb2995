import Verif.Lemmas.PathOrder

/-
C89: the order of paths and of decorations, and the text of an `InstancedUSL`.
-/

namespace Verif
open Script

/-! ### The order of paths -/

/-- A morpheme among which `<` is an order, or the empty one. -/
def Usual (m : Script) : Prop := (Orderly m ∧ m.empty = false) ∨ m = .null 0

/-- A node with a usual morpheme, or with a role made of addresses. -/
def UsualStep : Step → Prop
  | .pm _ m _ => ∃ x, m = some x ∧ Usual x
  | .flexion m => Usual m
  | .role r _ => ∀ a ∈ r, a ∈ addressScripts
  | _ => True

/-- Paths that begin with such nodes; there are not both paths that begin inside a polymorpheme and inside a flexion. -/
structure Sortable (S : List Path) : Prop where
  nodes : ∀ p ∈ S, ∃ s q, p = s :: q ∧ UsualStep s
  kinds : (∀ p ∈ S, headCls p ≠ some .flexion) ∨ ∀ p ∈ S, headCls p ≠ some .pm

/-- The paths begin with the same node, up to the multiplicity and the focus. -/
def SameStart (p q : Path) : Prop := ∃ s p' t q', p = s :: p' ∧ q = t :: q' ∧ Tied s t

theorem usual_ok {s : Step} (h : UsualStep s) : OkStep s := by
  have hm : ∀ {m : Script}, Usual m → Good0 m := fun h => h.elim (fun h => .inl (h.1.good h.2)) .inr
  rcases s with _ | ⟨g, m, k⟩ | m | c | ⟨r, f⟩
  · trivial
  · obtain ⟨x, rfl, hx⟩ := h
    exact hm hx
  · exact hm h
  · trivial
  · exact h

theorem ltNats_irrefl : ∀ l : List Nat, ltNats l l = false
  | [] => rfl
  | x :: xs => by rw [ltNats, if_pos rfl]; exact ltNats_irrefl xs

/-- **C89** No path is smaller than itself, and this raises nothing, also without a morpheme. -/
theorem C89_irreflexive (s : Step) (p : Path) : pathLt (s :: p) (s :: p) = .ok false := by
  show s.lt s = _
  rcases s with _ | ⟨g, m, k⟩ | m | c | ⟨r, f⟩
  · rfl
  · rw [Step.lt, if_pos rfl]
    cases m with
    | none => rfl
    | some x => rw [ltMorpheme, if_pos rfl]
  · rw [Step.lt, lt_irrefl]
  · simp [Step.lt]
  · rw [Step.lt, addrLt, ltNats_irrefl]

/-- **C89** The places of the same kind in the documented order: the content of a lexeme comes before its flexion, the constant of a polymorpheme before
its groups, and these by their numbers. -/
theorem C89_places : (∀ c c' p q, pathLt (.lexeme c :: p) (.lexeme c' :: q) = .ok true ↔ c = true ∧ c' = false) ∧
    ∀ g g' m m' k k' p q, g ≠ g' → (pathLt (.pm g m k :: p) (.pm g' m' k' :: q) = .ok true ↔
      [GIdx.constant, .g0, .g1, .g2].idxOf g < [GIdx.constant, .g0, .g1, .g2].idxOf g') := by
  constructor
  · intro c c' p q
    cases c <;> cases c' <;> simp [pathLt, Step.lt, halfRank]
  · intro g g' m m' k k' p q h
    show (Step.pm g m k).lt (.pm g' m' k') = .ok true ↔ _
    rw [Step.lt, if_neg h]
    cases g <;> cases g' <;> simp [GIdx.rank] at h ⊢ <;> decide +kernel

/-- **C89** (part) Among paths that begin with usual nodes, not both in polymorphemes and in flexions: `<` raises no exception, no path
is smaller than itself, `<` is transitive, and neither of two paths is smaller exactly if they begin with the same node.  Missing: the
order of the paths that begin with the same node, which `<` does not see (`C89_violated_children`), paths in polymorphemes and in
flexions (`C89_violated_kinds`), and paths without morpheme (`C89_violated_none`). -/
theorem C89_order_partial {S : List Path} (h : Sortable S) :
    (∀ p ∈ S, ∀ q ∈ S, ∃ b, pathLt p q = .ok b) ∧ (∀ p ∈ S, pathLt p p = .ok false) ∧
    (∀ p ∈ S, ∀ q ∈ S, ∀ r ∈ S, pathLt p q = .ok true → pathLt q r = .ok true → pathLt p r = .ok true) ∧
    ∀ p ∈ S, ∀ q ∈ S, pathLt p q = .ok false ∧ pathLt q p = .ok false ↔ SameStart p q := by
  have hk : ∀ p ∈ S, ∀ q ∈ S, pathLt p q = .ok (ltBytes (headKey p) (headKey q)) ∧ (headKey p = headKey q ↔ SameStart p q) := by
    intro p hp q hq
    obtain ⟨s, p', rfl, hs⟩ := h.nodes p hp
    obtain ⟨t, q', rfl, ht⟩ := h.nodes q hq
    have h1 : ¬ (s.cls = .pm ∧ t.cls = .flexion) := fun ⟨e1, e2⟩ => h.kinds.elim (fun k => k _ hq (by simp [headCls, e2])) fun k => k _ hp (by simp [headCls, e1])
    have h2 : ¬ (s.cls = .flexion ∧ t.cls = .pm) := fun ⟨e1, e2⟩ => h.kinds.elim (fun k => k _ hp (by simp [headCls, e1])) fun k => k _ hq (by simp [headCls, e2])
    refine ⟨step_lt (usual_ok hs) (usual_ok ht) h1 h2, ?_⟩
    show stepKey s = stepKey t ↔ _
    rw [stepKey_iff (usual_ok hs) (usual_ok ht) h1 h2]
    constructor
    · exact fun h => ⟨s, p', t, q', rfl, rfl, h⟩
    · rintro ⟨_, _, _, _, e1, e2, h⟩
      cases e1
      cases e2
      exact h
  refine ⟨fun p hp q hq => ⟨_, (hk p hp q hq).1⟩, fun p hp => by rw [(hk p hp p hp).1, ltBytes_irrefl], fun p hp q hq r hr h1 h2 => ?_, fun p hp q hq => ?_⟩
  · rw [(hk _ hp _ hq).1, Except.ok.injEq] at h1
    rw [(hk _ hq _ hr).1, Except.ok.injEq] at h2
    rw [(hk _ hp _ hr).1, ltBytes_trans h1 h2]
  · rw [← (hk _ hp _ hq).2, (hk _ hp _ hq).1, (hk _ hq _ hp).1, Except.ok.injEq, Except.ok.injEq]
    constructor
    · rintro ⟨h1, h2⟩
      by_contra hne
      rcases ltBytes_total hne with h | h
      · rw [h1] at h; cases h
      · rw [h2] at h; cases h
    · intro e
      rw [e]
      exact ⟨ltBytes_irrefl _, ltBytes_irrefl _⟩

/-- Paths of different kinds of USL, and two of a word. -/
example : Sortable [[.usl], [.pm .g1 (some (.prim .A)) (some 1)], [.lexeme true, .pm .constant none none],
    [.role [c!"E:.n.-"] true, .lexeme false], [.role [c!"E:.n.-"] true, .lexeme true]] := by
  refine ⟨fun p hp => ?_, .inl fun p hp => ?_⟩
  · simp only [List.mem_cons, List.not_mem_nil, or_false] at hp
    rcases hp with rfl | rfl | rfl | rfl | rfl
    · exact ⟨_, _, rfl, trivial⟩
    · exact ⟨_, _, rfl, _, rfl, .inl ⟨⟨built_of (by decide +kernel), .inl (by simp [NotOneTermSum])⟩, rfl⟩⟩
    · exact ⟨_, _, rfl, trivial⟩
    · exact ⟨_, _, rfl, by simp only [UsualStep]; decide +kernel⟩
    · exact ⟨_, _, rfl, by simp only [UsualStep]; decide +kernel⟩
  · simp only [List.mem_cons, List.not_mem_nil, or_false] at hp
    rcases hp with rfl | rfl | rfl | rfl | rfl <;> simp [headCls, Step.cls]

/-- **C89** is violated: paths that differ only after their first node are different, and neither is smaller. -/
theorem C89_violated_children : ¬ ∀ p q : Path, Written p → Written q → pathText p ≠ pathText q → pathLt p q = .ok true ∨ pathLt q p = .ok true := by
  intro h
  have h1 : ∀ c, Written [.lexeme false, .flexion (.prim c)] := fun c => .lexeme (.flexion .prim)
  rcases h _ _ (h1 .A) (h1 .S) (by decide +kernel) with h | h <;> revert h <;> decide +kernel

/-- **C89** is violated: among paths in polymorphemes and in flexions `<` is no order: a path neither smaller nor greater than two others,
one of which is smaller than the other.  What `sorted` gives is not sorted. -/
theorem C89_violated_kinds :
    (pathLt [.flexion (.prim .U)] [.pm .constant (some (.prim .U)) none] = .ok false ∧ pathLt [.pm .constant (some (.prim .U)) none] [.flexion (.prim .U)] = .ok false) ∧
    (pathLt [.flexion (.prim .S)] [.pm .constant (some (.prim .U)) none] = .ok false ∧ pathLt [.pm .constant (some (.prim .U)) none] [.flexion (.prim .S)] = .ok false) ∧
    pathLt [.flexion (.prim .U)] [.flexion (.prim .S)] = .ok true ∧
    (decSorted [([.flexion (.prim .S)], c!"a"), ([.pm .constant (some (.prim .U)) none], c!"b"), ([.flexion (.prim .U)], c!"c")]).map decKey =
      [(c!">S:", c!"a"), (c!">constant>U:", c!"b"), (c!">U:", c!"c")] := by
  refine ⟨⟨?_, ?_⟩, ⟨?_, ?_⟩, ?_, ?_⟩ <;> decide +kernel

/-- **C89** is violated: the comparison of a path with and one without morpheme raises a `TypeError`. -/
theorem C89_violated_none (m : Script) (k k' : Option Nat) : pathLt [.pm .constant none k] [.pm .constant (some m) k'] = .error .typeError ∧
    pathLt [.pm .constant (some m) k'] [.pm .constant none k] = .error .typeError := by
  constructor <;> simp [pathLt, Step.lt, ltMorpheme]

end Verif
