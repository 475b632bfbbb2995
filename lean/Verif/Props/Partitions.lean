import Verif.Lemmas.Partitions
import Verif.Props.PathParser

/-
C57: the combinations of variations listed by `enumerate_partitions`.
-/

namespace Verif
open Script

/-! ### Specification -/

/-- A listed path whose value has not exactly one singular sequence. -/
def VariablePath (u : Expr) (p : Path) : Prop :=
  ∃ L, u.paths = .ok L ∧ (∃ y, (p, y) ∈ L) ∧ ∃ x n, deference p (.expr u) = .ok x ∧ x.cardinal = .ok n ∧ n ≠ 1

/-- Where a USL varies: the names of the first nodes of a variable path. -/
def Variation (u : Expr) (q : List Str) : Prop := q ≠ [] ∧ ∃ p, VariablePath u p ∧ q <+: names p

/-- None continues the other. -/
def Unrelated (p q : List Str) : Prop := ¬ p <+: q ∧ ¬ q <+: p

/-- The morphemes of the flexions are built. -/
def BuiltFlexions : Expr → Prop
  | .lexeme x => (∀ m ∈ x.flexion.constant, Built m) ∧ ∀ g ∈ x.flexion.groups, ∀ m ∈ g.1, Built m
  | .word w => ∀ e ∈ w.sfun.items, ∀ x, e.2 = some x → (∀ m ∈ x.flexion.constant, Built m) ∧ ∀ g ∈ x.flexion.groups, ∀ m ∈ g.1, Built m
  | _ => True

/-- The morphemes of the polymorphemes, other than flexions, are singular. -/
def SingularMorphemes : Expr → Prop
  | .script _ => True
  | .pm p => (∀ m ∈ p.constant, m.cardinal = 1) ∧ ∀ g ∈ p.groups, ∀ m ∈ g.1, m.cardinal = 1
  | .lexeme x => (∀ m ∈ x.content.constant, m.cardinal = 1) ∧ ∀ g ∈ x.content.groups, ∀ m ∈ g.1, m.cardinal = 1
  | .word w => ∀ e ∈ w.sfun.items, ∀ x, e.2 = some x →
    (∀ m ∈ x.content.constant, m.cardinal = 1) ∧ ∀ g ∈ x.content.groups, ∀ m ∈ g.1, m.cardinal = 1

/-! ### The listed paths -/

/-- The forms of the paths of a USL. -/
theorem path_forms {u : Expr} (hu : BuiltFlexions u) {L : List (Path × Node)} (hL : u.paths = .ok L) {e : Path × Node} (he : e ∈ L) :
    e.1 ≠ [] ∧ e.1.IsChain Link ∧ (∀ s ∈ e.1, Plainly s) ∧ ((∃ p, u = .pm p) ∧ (∀ s ∈ e.1, s.cls = .pm) ∨ headCls e.1 = some .usl ∨ headCls e.1 = some .lexeme ∨ headCls e.1 = some .role) ∧
    (SingularMorphemes u → ∀ g m k, .pm g (some m) k ∈ e.1 → m.cardinal = 1) := by
  have hpm : ∀ (p : PM) (y : Path × Node), y ∈ p.paths → ∃ g m k, y.1 = [.pm g m k] ∧ ∀ x, m = some x → x ∈ p.constant ∨ ∃ gr ∈ p.groups, x ∈ gr.1 := by
    intro p y hy
    rcases pm_entry hy with ⟨g, k, e⟩ | ⟨g, m, k, e, hm⟩
    · exact ⟨g, none, k, e, by simp⟩
    · refine ⟨g, some m, k, by rw [e], ?_⟩
      rintro x ⟨⟩
      exact hm
  have hlex : ∀ (x : Lexeme), ((∀ m ∈ x.flexion.constant, Built m) ∧ ∀ g ∈ x.flexion.groups, ∀ m ∈ g.1, Built m) → ∀ y ∈ x.paths,
      (∃ c, y.1 = [.lexeme c]) ∨ (∃ m, WF m ∧ y.1 = [.lexeme false, .flexion m]) ∨
      ∃ g m k, y.1 = [.lexeme true, .pm g m k] ∧ ∀ z, m = some z → z ∈ x.content.constant ∨ ∃ gr ∈ x.content.groups, z ∈ gr.1 := by
    intro x hx y hy
    unfold Lexeme.paths at hy
    rw [List.mem_append, List.mem_cons, List.mem_cons] at hy
    rcases hy with (rfl | hy) | rfl | hy
    · exact .inl ⟨_, rfl⟩
    · obtain ⟨z, hz, rfl⟩ := List.mem_map.1 hy
      obtain ⟨g, m, k, e, hm⟩ := hpm _ z hz
      show (∃ c, Step.lexeme false :: flexionChild z.1 = _) ∨ _
      rw [e]
      cases m with
      | none => exact .inl ⟨_, rfl⟩
      | some m =>
        refine .inr (.inl ⟨m, ?_, rfl⟩)
        rcases hm m rfl with h | ⟨gr, hg, h⟩
        · exact built_wf (hx.1 m h)
        · exact built_wf (hx.2 gr hg m h)
    · exact .inl ⟨_, rfl⟩
    · obtain ⟨z, hz, rfl⟩ := List.mem_map.1 hy
      obtain ⟨g, m, k, e, hm⟩ := hpm _ z hz
      exact .inr (.inr ⟨g, m, k, by rw [e], hm⟩)
  have hpl : ∀ {s : Step}, (∀ m, s ≠ .flexion m) → Plainly s := fun h m e => absurd e (h m)
  cases u with
  | script _ => cases hL
  | pm p =>
    cases hL
    obtain ⟨g, m, k, e, hm⟩ := hpm p _ he
    rw [e]
    refine ⟨by simp, .singleton _, by simpa using hpl (by simp), by simp [headCls, Step.cls], ?_⟩
    intro h g' m' k' hin
    simp only [List.mem_singleton, Step.pm.injEq] at hin
    rcases hm m' hin.2.1.symm with hm | ⟨gr, hg, hm⟩
    · exact h.1 m' hm
    · exact h.2 gr hg m' hm
  | lexeme x =>
    cases hL
    rcases hlex x hu _ he with ⟨c, e⟩ | ⟨m, hw, e⟩ | ⟨g, m, k, e, hm⟩ <;> rw [e]
    · exact ⟨by simp, .singleton _, by simpa using hpl (by simp), by simp [headCls, Step.cls], by simp⟩
    · refine ⟨by simp, by simp [Link], ?_, by simp [headCls, Step.cls], by simp⟩
      intro s hs
      simp only [List.mem_cons, List.not_mem_nil, or_false] at hs
      rcases hs with rfl | rfl
      · exact hpl (by simp)
      · rintro _ ⟨⟩
        exact hw
    · refine ⟨by simp, by simp [Link], ?_, by simp [headCls, Step.cls], ?_⟩
      · intro s hs
        simp only [List.mem_cons, List.not_mem_nil, or_false] at hs
        rcases hs with rfl | rfl <;> exact hpl (by simp)
      · intro h g' m' k' hin
        simp only [List.mem_cons, List.not_mem_nil, or_false, Step.pm.injEq, reduceCtorEq, false_or] at hin
        rcases hm m' hin.2.1.symm with hm | ⟨gr, hg, hm⟩
        · exact h.1 m' hm
        · exact h.2 gr hg m' hm
  | word w =>
    rcases (word_entry hL e).1 he with rfl | ⟨r, x, b, hi, _, e | ⟨y, hy, e⟩⟩
    · exact ⟨by simp, .singleton _, by simpa using hpl (by simp), by simp [headCls, Step.cls], by simp⟩
    · rw [e]
      exact ⟨by simp, .singleton _, by simpa using hpl (by simp), by simp [headCls, Step.cls], by simp⟩
    · rw [e]
      rcases hlex x (hu _ hi x rfl) y hy with ⟨c, e'⟩ | ⟨m, hw, e'⟩ | ⟨g, m, k, e', hm⟩ <;> rw [e']
      · refine ⟨by simp, by simp [Link], ?_, by simp [headCls, Step.cls], by simp⟩
        intro s hs
        simp only [List.mem_cons, List.not_mem_nil, or_false] at hs
        rcases hs with rfl | rfl <;> exact hpl (by simp)
      · refine ⟨by simp, by simp [Link], ?_, by simp [headCls, Step.cls], by simp⟩
        intro s hs
        simp only [List.mem_cons, List.not_mem_nil, or_false] at hs
        rcases hs with rfl | rfl | rfl
        · exact hpl (by simp)
        · exact hpl (by simp)
        · rintro _ ⟨⟩
          exact hw
      · refine ⟨by simp, by simp [Link], ?_, by simp [headCls, Step.cls], ?_⟩
        · intro s hs
          simp only [List.mem_cons, List.not_mem_nil, or_false] at hs
          rcases hs with rfl | rfl | rfl <;> exact hpl (by simp)
        · intro h g' m' k' hin
          simp only [List.mem_cons, List.not_mem_nil, or_false, Step.pm.injEq, reduceCtorEq, false_or] at hin
          have h := h _ hi x rfl
          rcases hm m' hin.2.1.symm with hm | ⟨gr, hg, hm⟩
          · exact h.1 m' hm
          · exact h.2 gr hg m' hm

/-! ### The tree -/

theorem fold_variable {u : Expr} (L : List (Path × Node)) : ∀ (t t' : PTree),
    L.foldlM (fun t e => do return if ← isVariable u e.1 then t.insert e.1 else t) t = Except.ok t' →
    ∃ V : List Path, t' = V.foldl PTree.insert t ∧ ∀ p, p ∈ V ↔ (∃ y, (p, y) ∈ L) ∧ isVariable u p = .ok true := by
  induction L with
  | nil =>
    intro t t' h
    cases h
    exact ⟨[], rfl, by simp⟩
  | cons e L ih =>
    intro t t' h
    rw [List.foldlM_cons, bind_ok] at h
    obtain ⟨t1, h1, h⟩ := h
    rw [bind_ok] at h1
    obtain ⟨b, hb, h1⟩ := h1
    obtain ⟨V, hV, hm⟩ := ih t1 t' h
    have h1 := Except.ok.inj h1
    cases b with
    | false =>
      refine ⟨V, by rw [hV, ← h1]; rfl, fun p => ?_⟩
      rw [hm]
      constructor
      · rintro ⟨⟨y, hy⟩, h⟩
        exact ⟨⟨y, List.mem_cons_of_mem _ hy⟩, h⟩
      · rintro ⟨⟨y, hy⟩, h⟩
        rcases List.mem_cons.1 hy with rfl | hy
        · rw [hb] at h
          cases h
        · exact ⟨⟨y, hy⟩, h⟩
    | true =>
      refine ⟨e.1 :: V, by rw [hV, ← h1]; rfl, fun p => ?_⟩
      rw [List.mem_cons, hm]
      constructor
      · rintro (rfl | ⟨⟨y, hy⟩, h⟩)
        · exact ⟨⟨e.2, by simp⟩, hb⟩
        · exact ⟨⟨y, List.mem_cons_of_mem _ hy⟩, h⟩
      · rintro ⟨⟨y, hy⟩, h⟩
        rcases List.mem_cons.1 hy with rfl | hy
        · exact .inl rfl
        · exact .inr ⟨⟨y, hy⟩, h⟩

theorem isVariable_iff {u : Expr} {p : Path} : isVariable u p = .ok true ↔ ∃ x n, deference p (.expr u) = .ok x ∧ x.cardinal = .ok n ∧ n ≠ 1 := by
  unfold isVariable
  rw [bind_ok]
  constructor
  · rintro ⟨x, hx, h⟩
    rw [bind_ok] at h
    obtain ⟨n, hn, h⟩ := h
    exact ⟨x, n, hx, hn, by simpa using Except.ok.inj h⟩
  · rintro ⟨x, n, hx, hn, h⟩
    refine ⟨x, hx, ?_⟩
    rw [bind_ok]
    exact ⟨n, hn, congrArg Except.ok (by simpa using h)⟩

/-- What the tree of a USL is. -/
theorem prefixTree_spec {u : Expr} (hu : BuiltFlexions u) {t : PTree} (h : prefixTree u = .ok t) :
    t.Distinct ∧ (∀ q, q ∈ t.names ↔ Variation u q) ∧ (∀ q ∈ t.nodes, q.IsChain Link ∧ ∀ s ∈ q, Plainly s) ∧
    ∃ V : List Path, t = V.foldl PTree.insert .nil ∧ ∀ p, p ∈ V ↔ VariablePath u p := by
  unfold prefixTree at h
  rw [bind_ok] at h
  obtain ⟨L, hL, h⟩ := h
  obtain ⟨V, rfl, hV⟩ := fold_variable L _ _ h
  have hV' : ∀ p, p ∈ V ↔ VariablePath u p := by
    intro p
    rw [hV, isVariable_iff]
    constructor
    · rintro ⟨h1, h2⟩
      exact ⟨L, hL, h1, h2⟩
    · rintro ⟨L', hL', h1, h2⟩
      rw [hL] at hL'
      cases hL'
      exact ⟨h1, h2⟩
  obtain ⟨h1, h2⟩ := insertAll_names V .nil trivial
  refine ⟨h1, ?_, ?_, V, rfl, hV'⟩
  · intro q
    rw [h2]
    simp only [PTree.names, PTree.nodes, List.map_nil, List.not_mem_nil, false_or, Variation]
    exact and_congr_right fun _ => ⟨fun ⟨p, hp, h⟩ => ⟨p, (hV' p).1 hp, h⟩, fun ⟨p, hp, h⟩ => ⟨p, (hV' p).2 hp, h⟩⟩
  · refine insertAll_chain V .nil (by simp [PTree.nodes]) ?_
    intro p hp
    obtain ⟨⟨y, hy⟩, _⟩ := (hV p).1 hp
    have := path_forms hu hL hy
    exact ⟨this.2.1, this.2.2.1⟩

/-! ### C57 -/

/-- Parts of a list without repetitions, in its order, with the same elements. -/
theorem sublist_perm_eq {α : Type} {l a b : List α} (hl : l.Nodup) (ha : a.Sublist l) (hb : b.Sublist l) (h : ∀ x, x ∈ a ↔ x ∈ b) : a = b := by
  classical
  have : ∀ {a : List α}, a.Sublist l → a = l.filter fun x => decide (x ∈ a) := by
    intro a ha
    refine List.Sublist.eq_of_length_le ?_ ?_
    · have := ha.filter fun x => decide (x ∈ a)
      rwa [List.filter_eq_self.2 (by simp)] at this
    · apply List.Subperm.length_le
      apply List.subperm_of_subset (hl.filter _)
      intro x hx
      simpa using (List.mem_filter.1 hx).2
  rw [this ha, this hb]
  exact List.filter_congr fun x _ => by simp [h]

theorem choice_unique {t : PTree} (h : t.Distinct) {a b : List Path} (ha : Choice t a) (hb : Choice t b)
    (hab : ∀ q, q ∈ a.map names ↔ q ∈ b.map names) : a = b := by
  have hn := ptree_nodup h
  refine sublist_perm_eq (List.Nodup.of_map _ hn) ha.1 hb.1 fun p => ?_
  have hinj : ∀ p ∈ t.nodes, ∀ q ∈ t.nodes, names p = names q → p = q := List.inj_on_of_nodup_map hn
  constructor
  · intro hp
    obtain ⟨q, hq, e⟩ := List.mem_map.1 ((hab _).1 (List.mem_map.2 ⟨p, hp, rfl⟩))
    rw [← hinj q (hb.1.subset hq) p (ha.1.subset hp) e]
    exact hq
  · intro hp
    obtain ⟨q, hq, e⟩ := List.mem_map.1 ((hab _).2 (List.mem_map.2 ⟨p, hp, rfl⟩))
    rw [← hinj q (ha.1.subset hq) p (hb.1.subset hp) e]
    exact hq

/-- `enumerate_partitions` returns whenever the numbers of singular sequences can be computed. -/
theorem C57_returns {u : Expr} (hu : BuiltFlexions u) {L : List (Path × Node)} (hL : u.paths = .ok L)
    (h : ∀ e ∈ L, ∃ x n, deference e.1 (.expr u) = .ok x ∧ x.cardinal = .ok n) : ∃ n R, enumeratePartitions u = .ok (n, R) := by
  have hfold : ∀ (L : List (Path × Node)) (t : PTree), (∀ e ∈ L, ∃ x n, deference e.1 (.expr u) = .ok x ∧ x.cardinal = .ok n) →
      ∃ t', L.foldlM (fun t e => do return if ← isVariable u e.1 then t.insert e.1 else t) t = Except.ok t' := by
    intro L
    induction L with
    | nil => exact fun t _ => ⟨t, rfl⟩
    | cons e L ih =>
      intro t h
      obtain ⟨x, n, h1, h2⟩ := h e (by simp)
      have hv : isVariable u e.1 = .ok (n != 1) := by
        simp only [isVariable, h1, bind, Except.bind, h2]
        rfl
      obtain ⟨t', ht'⟩ := ih (if n != 1 then t.insert e.1 else t) fun e he => h e (by simp [he])
      refine ⟨t', ?_⟩
      rw [List.foldlM_cons, hv]
      exact ht'
  obtain ⟨t, ht⟩ := hfold L .nil h
  have ht : prefixTree u = .ok t := by
    simp only [prefixTree, hL]
    exact ht
  obtain ⟨h1, _, h3, _⟩ := prefixTree_spec hu ht
  obtain ⟨R, hR, _⟩ := iter_choices h1 (linked_of_chain fun p hp => (h3 p hp).1)
  refine ⟨countLeaves t, R, ?_⟩
  simp only [enumeratePartitions, ht]
  simp only [bind, Except.bind, hR]
  rfl

/-- **C57, on the names of the nodes**: the combinations listed consist of places where the USL varies, none of which continues another;
each such combination is listed exactly once; the number is that of the variable places that no other one continues. -/
theorem C57_exact {u : Expr} (hu : BuiltFlexions u) {n : Nat} {R : List (List Path)} (h : enumeratePartitions u = .ok (n, R)) :
    (∀ l ∈ R, (∀ p ∈ l, Variation u (names p)) ∧ (l.map names).Pairwise Unrelated) ∧
    R.Nodup ∧
    (∀ S : List (List Str), (∀ q ∈ S, Variation u q) → S.Pairwise Unrelated → ∃! l, l ∈ R ∧ (l.map names).Perm S) ∧
    ∃ D : List (List Str), D.Nodup ∧ D.length = n ∧ ∀ q, q ∈ D ↔ Variation u q ∧ ∀ q', Variation u q' → q <+: q' → q' = q := by
  classical
  unfold enumeratePartitions at h
  rw [bind_ok] at h
  obtain ⟨t, ht, h⟩ := h
  rw [bind_ok] at h
  obtain ⟨R', hR', h⟩ := h
  obtain ⟨rfl, rfl⟩ := Prod.mk.inj (Except.ok.inj h)
  obtain ⟨h1, h2, h3, _⟩ := prefixTree_spec hu ht
  obtain ⟨R, hR, hn, hm⟩ := iter_choices h1 (linked_of_chain fun p hp => (h3 p hp).1)
  rw [hR] at hR'
  cases hR'
  have hN := ptree_nodup h1
  refine ⟨?_, hn, ?_, ?_⟩
  · intro l hl
    have hc := (hm l).1 hl
    refine ⟨fun p hp => (h2 _).1 (List.mem_map.2 ⟨p, hc.1.subset hp, rfl⟩), ?_⟩
    rw [List.pairwise_map]
    exact hc.2
  · intro S hS hp
    have hsym : ∀ {a b : List Str}, Unrelated a b → Unrelated b a := fun h => ⟨h.2, h.1⟩
    have hSn : S.Nodup := hp.imp fun {a b} h (e : a = b) => h.1 (by rw [e])
    let l := t.nodes.filter fun p => decide (names p ∈ S)
    have hlN : (l.map names).Nodup := hN.sublist (List.filter_sublist.map _)
    have hlm : ∀ q, q ∈ l.map names ↔ q ∈ S := by
      intro q
      rw [List.mem_map]
      constructor
      · rintro ⟨p, hp, rfl⟩
        simpa using (List.mem_filter.1 hp).2
      · intro hq
        obtain ⟨p, hp, rfl⟩ := List.mem_map.1 ((h2 q).2 (hS q hq))
        exact ⟨p, List.mem_filter.2 ⟨hp, by simpa using hq⟩, rfl⟩
    have hperm : (l.map names).Perm S := (List.perm_ext_iff_of_nodup hlN hSn).2 hlm
    refine ⟨l, ⟨(hm l).2 ⟨List.filter_sublist, ?_⟩, hperm⟩, ?_⟩
    · have := hperm.symm.pairwise hp hsym
      rw [List.pairwise_map] at this
      exact this
    · rintro l' ⟨hl', hp'⟩
      refine choice_unique h1 ((hm l').1 hl') ⟨List.filter_sublist, ?_⟩ fun q => by rw [hlm, hp'.mem_iff]
      have := hperm.symm.pairwise hp hsym
      rw [List.pairwise_map] at this
      exact this
  · refine ⟨t.names.filter fun p => decide (∀ q ∈ t.names, p <+: q → q = p), hN.filter _, ?_, fun q => ?_⟩
    · rw [countLeaves_names h1, List.countP_eq_length_filter]
    · rw [List.mem_filter, h2, decide_eq_true_eq]
      exact and_congr_right fun _ => ⟨fun h q' hq' => h q' ((h2 _).2 hq'), fun h q' hq' => h q' ((h2 _).1 hq')⟩

/-! ### Incomparable paths -/

theorem doEq_text {s t : Step} (h : s.doEq t = true) : s.text = t.text := by
  rw [doEq_iff] at h
  cases s with
  | pm g m k =>
    cases t with
    | pm g' m' k' =>
      obtain ⟨rfl, h, rfl⟩ := h
      cases m <;> cases m' <;> simp at h <;> simp [Step.text, h]
    | _ => exact h.elim
  | usl => cases t <;> first | exact h.elim | rfl
  | flexion m => cases t <;> first | exact h.elim | exact h
  | lexeme c => cases t <;> first | exact h.elim | (cases h; rfl)
  | role r f =>
    cases t with
    | role r' f' =>
      obtain ⟨h, rfl⟩ := h
      simp [Step.text, h]
    | _ => exact h.elim

/-- Paths of the same kind without morphemes in the nodes of polymorphemes. -/
theorem hasPrefix_beside : ∀ {p q : Path}, p ≠ [] → q ≠ [] → p.IsChain Link → q.IsChain Link → (headCls p = some .pm ↔ headCls q = some .pm) →
    (∀ g m k, Step.pm g (some m) k ∉ p) → (∀ g m k, Step.pm g (some m) k ∉ q) → Beside p q → hasPrefix p q = .ok false := by
  intro p
  induction p with
  | nil => intro q h; exact absurd rfl h
  | cons s p ih =>
    intro q _ hq hc1 hc2 hk hp1 hp2 hb
    cases q with
    | nil => exact absurd rfl hq
    | cons t q =>
      cases hd : s.doEq t with
      | false =>
        rw [hasPrefix_other hd]
        cases s with
        | pm g m k =>
          cases t with
          | pm g' m' k' =>
            cases m with
            | some m => exact absurd (List.mem_cons_self ..) (hp1 g m k)
            | none =>
              cases m' with
              | some m => exact absurd (List.mem_cons_self ..) (hp2 g' m k')
              | none =>
                simp only [Step.basePrefix]
                simpa [Step.doEq] using hd
          | _ => simp [headCls, Step.cls] at hk
        | _ => rfl
      | true =>
        rw [hasPrefix_same hd]
        have ht := doEq_text hd
        have hb' : Beside p q := by simpa [Beside, names, List.cons_prefix_cons, ht] using hb
        have hpn : p ≠ [] := by
          rintro rfl
          exact hb'.1 List.nil_prefix
        have hqn : q ≠ [] := by
          rintro rfl
          exact hb'.2 List.nil_prefix
        rw [if_neg hpn]
        refine ih hpn hqn hc1.tail hc2.tail ?_ (fun g m k h => hp1 g m k (by simp [h])) (fun g m k h => hp2 g m k (by simp [h])) hb'
        obtain ⟨x, p, rfl⟩ := List.exists_cons_of_ne_nil hpn
        obtain ⟨y, q, rfl⟩ := List.exists_cons_of_ne_nil hqn
        have l1 := (List.isChain_cons_cons.1 hc1).1
        have l2 := (List.isChain_cons_cons.1 hc2).1
        cases s with
        | lexeme c =>
          cases t with
          | lexeme c' =>
            have hd : c = c' := by simpa [Step.doEq] using hd
            subst hd
            cases c <;> cases x <;> first | exact l1.elim | (cases y <;> first | exact l2.elim | simp [headCls, Step.cls])
          | _ => simp [Step.doEq] at hd
        | role r f =>
          cases t with
          | role r' f' => cases x <;> first | exact l1.elim | (cases y <;> first | exact l2.elim | simp [headCls, Step.cls])
          | _ => simp [Step.doEq] at hd
        | _ => cases x <;> exact l1.elim

theorem variable_nodes {P : Step → Prop} (V : List Path) : ∀ t : PTree, (∀ q ∈ t.nodes, ∀ s ∈ q, P s) → (∀ p ∈ V, ∀ s ∈ p, P s) →
    ∀ q ∈ (V.foldl PTree.insert t).nodes, ∀ s ∈ q, P s := by
  have hbranch : ∀ p : Path, (∀ s ∈ p, P s) → ∀ q ∈ (branch p).nodes, ∀ s ∈ q, P s := by
    intro p
    induction p with
    | nil => simp [branch, PTree.nodes]
    | cons s p ih =>
      intro hp q hq
      simp only [branch, PTree.nodes, List.append_nil, List.mem_cons, List.mem_map] at hq
      rcases hq with rfl | ⟨q, hq, rfl⟩
      · simpa using hp s (by simp)
      · intro x hx
        rcases List.mem_cons.1 hx with rfl | hx
        · exact hp _ (by simp)
        · exact ih (fun x hx => hp x (by simp [hx])) q hq x hx
  have hins : ∀ (t : PTree) (p : Path), (∀ q ∈ t.nodes, ∀ s ∈ q, P s) → (∀ s ∈ p, P s) → ∀ q ∈ (t.insert p).nodes, ∀ s ∈ q, P s := by
    intro t
    induction t with
    | nil =>
      intro p _ hp
      cases p with
      | nil => simp [PTree.insert, PTree.nodes]
      | cons s p => exact hbranch _ hp
    | cons k c r ihc ihr =>
      intro p ht hp
      cases p with
      | nil => simpa [PTree.insert] using ht
      | cons s p =>
        have hk := ht [k] (by simp [PTree.nodes]) k (by simp)
        have hc : ∀ q ∈ c.nodes, ∀ s ∈ q, P s := fun q hq x hx => ht (k :: q) (by
          rw [PTree.nodes]
          exact List.mem_cons_of_mem _ (List.mem_append_left _ (List.mem_map.2 ⟨q, hq, rfl⟩))) x (by simp [hx])
        have hr : ∀ q ∈ r.nodes, ∀ s ∈ q, P s := fun q hq => ht _ (by
          rw [PTree.nodes]
          exact List.mem_cons_of_mem _ (List.mem_append_right _ hq))
        have hcons : ∀ {c : PTree}, (∀ q ∈ c.nodes, ∀ s ∈ q, P s) → ∀ {r : PTree}, (∀ q ∈ r.nodes, ∀ s ∈ q, P s) →
            ∀ q ∈ (PTree.cons k c r).nodes, ∀ s ∈ q, P s := by
          intro c hc r hr q hq
          simp only [PTree.nodes, List.mem_cons, List.mem_append, List.mem_map] at hq
          rcases hq with rfl | ⟨q, hq, rfl⟩ | hq
          · simpa using hk
          · intro x hx
            rcases List.mem_cons.1 hx with rfl | hx
            · exact hk
            · exact hc q hq x hx
          · exact hr q hq
        unfold PTree.insert
        split
        · exact hcons (ihc p hc fun x hx => hp x (by simp [hx])) hr
        · exact hcons hc (ihr (s :: p) hr hp)
  induction V with
  | nil => exact fun t h _ => h
  | cons p V ih => exact fun t ht hV => ih _ (hins t p ht (hV p (by simp))) fun p hp => hV p (by simp [hp])

theorem deference_morpheme : ∀ {p : Path} {x y : Node} {g : GIdx} {m : Script} {k : Option Nat}, p.IsChain Link → Step.pm g (some m) k ∈ p →
    deference p x = .ok y → y = .expr (.script m) := by
  intro p
  induction p with
  | nil => intro x y g m k _ h; cases h
  | cons s p ih =>
    intro x y g m k hc hin h
    unfold deference at h
    rw [bind_ok] at h
    obtain ⟨z, hz, h⟩ := h
    rcases List.mem_cons.1 hin with rfl | hin
    · cases p with
      | cons t p => exact ((List.isChain_cons_cons.1 hc).1).elim
      | nil =>
        cases h
        cases x with
        | none => cases hz
        | expr e =>
          cases e with
          | pm p =>
            simp only [Step.reach] at hz
            split at hz
            · split at hz
              · cases hz
              · cases hz; rfl
            · split at hz
              · cases hz
              · split at hz
                · cases hz
                · cases hz; rfl
          | _ => cases hz
    · exact ih hc.tail hin h

/-- **C57 for singular morphemes**: the paths listed together are incomparable with `has_prefix`, which does not raise.  In general they
are not: see `C57_violated_morphemes`. -/
theorem C57_incomparable_partial {u : Expr} (hu : BuiltFlexions u) (hs : SingularMorphemes u) {n : Nat} {R : List (List Path)}
    (h : enumeratePartitions u = .ok (n, R)) : ∀ l ∈ R, l.Pairwise fun p q => hasPrefix p q = .ok false ∧ hasPrefix q p = .ok false := by
  unfold enumeratePartitions at h
  rw [bind_ok] at h
  obtain ⟨t, ht, h⟩ := h
  rw [bind_ok] at h
  obtain ⟨R', hR', h⟩ := h
  obtain ⟨rfl, rfl⟩ := Prod.mk.inj (Except.ok.inj h)
  obtain ⟨h1, h2, h3, V, rfl, hV⟩ := prefixTree_spec hu ht
  obtain ⟨R, hR, hn, hm⟩ := iter_choices h1 (linked_of_chain fun p hp => (h3 p hp).1)
  rw [hR] at hR'
  cases hR'
  have hnone : ∀ q ∈ (V.foldl PTree.insert .nil).nodes, ∀ g m k, Step.pm g (some m) k ∉ q := by
    have := variable_nodes (P := fun s => ∀ g m k, s ≠ .pm g (some m) k) V .nil (by simp [PTree.nodes]) (by
      rintro p hp s hs' g m k rfl
      obtain ⟨L, hL, ⟨y, hy⟩, x, n, h4, h5, h6⟩ := (hV p).1 hp
      obtain ⟨_, h7, _, _, h8⟩ := path_forms hu hL hy
      rw [deference_morpheme h7 hs' h4] at h5
      have := Except.ok.inj h5
      exact h6 (this ▸ h8 hs g m k hs'))
    exact fun q hq g m k hin => this q hq _ hin g m k rfl
  have hhead : ∀ q ∈ (V.foldl PTree.insert .nil).nodes, (headCls q = some .pm ↔ ∃ p, u = .pm p) := by
    intro q hq
    by_cases hpm : ∃ p, u = .pm p
    · refine ⟨fun _ => hpm, fun _ => ?_⟩
      have := variable_nodes (P := fun s => s.cls = .pm) V .nil (by simp [PTree.nodes]) (by
        intro p hp
        obtain ⟨L, hL, ⟨y, hy⟩, _⟩ := (hV p).1 hp
        obtain ⟨_, _, _, h9, _⟩ := path_forms hu hL hy
        rcases h9 with h9 | h9
        · exact h9.2
        · obtain ⟨p', rfl⟩ := hpm
          cases hL
          rcases pm_entry hy with ⟨g, k, e⟩ | ⟨g, m, k, e, _⟩
          · have e : p = _ := e
            rw [e] at h9
            simp [headCls, Step.cls] at h9
          · have e : p = _ := congrArg Prod.fst e
            rw [e] at h9
            simp [headCls, Step.cls] at h9) q hq
      obtain ⟨s, q', rfl⟩ := List.exists_cons_of_ne_nil (ptree_ne hq)
      exact congrArg some (this s (by simp))
    · refine ⟨fun hq' => ?_, fun h => absurd h hpm⟩
      obtain ⟨s, q', rfl⟩ := List.exists_cons_of_ne_nil (ptree_ne hq)
      obtain ⟨_, p, ⟨L, hL, ⟨y, hy⟩, _⟩, hpre⟩ := (h2 _).1 (List.mem_map.2 ⟨_, hq, rfl⟩)
      obtain ⟨h4, _, _, h9, _⟩ := path_forms hu hL hy
      have h9 := h9.resolve_left fun h => hpm h.1
      obtain ⟨s', p', rfl⟩ := List.exists_cons_of_ne_nil h4
      have he : s.text = s'.text := (List.cons_prefix_cons.1 hpre).1
      cases s with
      | pm g m k =>
        cases s' with
        | usl => cases g <;> simp [Step.text, GIdx.index, groupName] at he
        | lexeme c => cases g <;> cases c <;> simp [Step.text, GIdx.index, groupName] at he
        | role r f => cases g <;> simp [Step.text, GIdx.index, groupName] at he
        | _ => simp [headCls, Step.cls] at h9
      | _ => simp [headCls, Step.cls] at hq'
  intro l hl
  have hc := (hm l).1 hl
  refine hc.2.imp_of_mem ?_
  intro p q hp hq hb
  have hp := hc.1.subset hp
  have hq := hc.1.subset hq
  have hk := (hhead p hp).trans (hhead q hq).symm
  exact ⟨hasPrefix_beside (ptree_ne hp) (ptree_ne hq) (h3 p hp).1 (h3 q hq).1 hk (hnone p hp) (hnone q hq) hb,
    hasPrefix_beside (ptree_ne hq) (ptree_ne hp) (h3 q hq).1 (h3 p hp).1 hk.symm (hnone q hq) (hnone p hp) ⟨hb.2, hb.1⟩⟩

/-! ### Examples and violations -/

/-- The number and the texts of the paths. -/
def partTexts (u : Expr) : Except Err (Nat × List (List Str)) := do
  let r ← enumeratePartitions u
  return (r.1, r.2.map fun l => l.map pathText)

/-- A polymorpheme that varies in two groups. -/
def demoVarying : PM := mkPM [.prim .T] [([.prim .S, .prim .B], 1), ([.prim .U, .prim .A], 1)]

example : partTexts (.lexeme (mkLexeme (mkPM [] []) demoVarying)) = .ok (2,
    [[c!">content"], [c!">content>group_0 1", c!">content>group_1 1"], [c!">content>group_1 1"], [c!">content>group_0 1"], []]) := by decide +kernel

/-- The hypotheses are met by this lexeme. -/
theorem demo_varying : BuiltFlexions (.lexeme (mkLexeme (mkPM [] []) demoVarying)) ∧ SingularMorphemes (.lexeme (mkLexeme (mkPM [] []) demoVarying)) ∧
    (∃ n R, enumeratePartitions (.lexeme (mkLexeme (mkPM [] []) demoVarying)) = .ok (n, R)) := by
  refine ⟨⟨?_, ?_⟩, ⟨?_, ?_⟩, ?_⟩
  · intro m hm
    have hm : m = .null 0 := List.mem_singleton.1 hm
    rw [hm]
    exact wf_built (.null (by decide))
  · intro m hm; cases hm
  · show ∀ m ∈ demoVarying.constant, m.cardinal = 1
    decide +kernel
  · show ∀ g ∈ demoVarying.groups, ∀ m ∈ g.1, m.cardinal = 1
    decide +kernel
  · have h : (partTexts (.lexeme (mkLexeme (mkPM [] []) demoVarying))).toBool = true := by decide +kernel
    unfold partTexts at h
    cases he : enumeratePartitions (.lexeme (mkLexeme (mkPM [] []) demoVarying)) with
    | error e => rw [he] at h; cases h
    | ok r => exact ⟨r.1, r.2, rfl⟩

example : ∃ n R, enumeratePartitions (.lexeme (mkLexeme (mkPM [] []) demoVarying)) = .ok (n, R) ∧ R.Nodup ∧
    ∀ l ∈ R, l.Pairwise fun p q => hasPrefix p q = .ok false ∧ hasPrefix q p = .ok false := by
  obtain ⟨h1, h2, n, R, h⟩ := demo_varying
  exact ⟨n, R, h, (C57_exact h1 h).2.1, C57_incomparable_partial h1 h2 h⟩

/-- Two morphemes of a group with several sequences each are listed together although each of their paths is a prefix of the other. -/
theorem C57_violated_morphemes : ∃ p : PM, ∃ a b : Path, partTexts (.pm p) = .ok (2, [[pathText a, pathText b], [pathText b], [pathText a], []]) ∧
    hasPrefix a b = .ok true ∧ hasPrefix b a = .ok true :=
  ⟨mkPM [.add [.prim .U, .prim .A], .add [.prim .S, .prim .B, .prim .T]] [],
    [.pm .constant (some (.add [.prim .U, .prim .A])) none], [.pm .constant (some (.add [.prim .S, .prim .B, .prim .T])) none],
    by decide +kernel, rfl, rfl⟩

/-- A group is listed with one of its own morphemes. -/
theorem C57_violated_group : ∃ p : PM, ∃ a b : Path, (∃ n l, partTexts (.pm p) = .ok (n, [pathText a, pathText b] :: l)) ∧
    hasPrefix b a = .ok true ∧ (∃ g k, a = [.pm g none k] ∧ ∃ m, b = [.pm g (some m) k]) :=
  ⟨mkPM [] [([.prim .S, .add [.prim .U, .prim .A]], 1)],
    [.pm .g0 none (some 1)], [.pm .g0 (some (.add [.prim .U, .prim .A])) (some 1)],
    ⟨2, [[c!">group_0 1>O:"], [c!">group_0 1"], []], by decide +kernel⟩, rfl, ⟨_, _, rfl, _, rfl⟩⟩

/-- A word with one variable role. -/
def varyingWord : Except Err WordUsl := do
  let r ← fromList [([c!"E:A:."], some (mkLexeme (mkPM [] []) (mkPM [] [([.prim .S, .prim .B], 1)])))]
  mkWord r.2 [c!"E:A:."] r.1

/-- The path `>` of a word, which reaches the whole word, is counted as one more dimension and is listed together with the paths of the
parts of the word. -/
theorem C57_violated_word : ∃ w, varyingWord = .ok w ∧ deference [.usl] (.expr (.word w)) = .ok (.expr (.word w)) ∧
    partTexts (.word w) = .ok (2, [[c!">", c!">role>! E:A:."], [c!">role>! E:A:."], [c!">", c!">role>! E:A:.>content"],
      [c!">", c!">role>! E:A:.>content>group_0 1"], [c!">"], [c!">role>! E:A:.>content"], [c!">role>! E:A:.>content>group_0 1"], []]) := by
  cases h : varyingWord with
  | error e => exact absurd h (by
      have : varyingWord.toBool = true := by decide +kernel
      intro h; rw [h] at this; cases this)
  | ok w =>
    refine ⟨w, rfl, rfl, ?_⟩
    have : (varyingWord >>= fun w => partTexts (.word w)) = .ok (2, [[c!">", c!">role>! E:A:."], [c!">role>! E:A:."], [c!">", c!">role>! E:A:.>content"],
      [c!">", c!">role>! E:A:.>content>group_0 1"], [c!">"], [c!">role>! E:A:.>content"], [c!">role>! E:A:.>content>group_0 1"], []]) := by decide +kernel
    rw [h] at this
    exact this

end Verif
