import Verif.Model.Partitions
import Verif.Lemmas.Except
import Verif.Lemmas.ScriptChars
import Verif.Lemmas.ScriptStr
import Mathlib.Data.List.Chain
import Mathlib.Data.List.Infix
import Mathlib.Data.List.Nodup

/-
Lemmas on the prefix trees of `enumerate_partitions`.
-/

namespace Verif
open Script

/-- The nodes of a tree, each before those below it. -/
def PTree.nodes : PTree → List Path
  | .nil => []
  | .cons s c rest => [s] :: (c.nodes.map (s :: ·) ++ rest.nodes)

/-- The texts of the keys of the items. -/
def PTree.keys : PTree → List Str
  | .nil => []
  | .cons s _ rest => s.text :: rest.keys

/-- The texts of the nodes of a path. -/
def names (p : Path) : List Str := p.map Step.text

/-- The keys are different. -/
def PTree.Distinct : PTree → Prop
  | .nil => True
  | .cons s c rest => s.text ∉ rest.keys ∧ c.Distinct ∧ rest.Distinct

/-- None of the paths continues the other. -/
def Beside (p q : Path) : Prop := ¬ names p <+: names q ∧ ¬ names q <+: names p

/-- A choice of nodes none of which is above another, in the order of the tree. -/
def Choice (t : PTree) (a : List Path) : Prop := a.Sublist t.nodes ∧ a.Pairwise Beside

theorem ptree_head {t : PTree} {p : Path} (h : p ∈ t.nodes) : ∃ s q, p = s :: q ∧ s.text ∈ t.keys := by
  induction t with
  | nil => cases h
  | cons s c rest _ ih =>
    rw [PTree.nodes, List.mem_cons, List.mem_append] at h
    rcases h with rfl | h | h
    · exact ⟨s, [], rfl, by simp [PTree.keys]⟩
    · obtain ⟨q, _, rfl⟩ := List.mem_map.1 h
      exact ⟨s, q, rfl, by simp [PTree.keys]⟩
    · obtain ⟨s', q, rfl, hs⟩ := ih h
      exact ⟨s', q, rfl, by simp [PTree.keys, hs]⟩

theorem ptree_ne {t : PTree} {p : Path} (h : p ∈ t.nodes) : p ≠ [] := by
  obtain ⟨s, q, rfl, _⟩ := ptree_head h
  simp

theorem ptree_nodup {t : PTree} (h : t.Distinct) : (t.nodes.map names).Nodup := by
  induction t with
  | nil => exact List.nodup_nil
  | cons s c rest ihc ihr =>
    obtain ⟨h1, h2, h3⟩ := h
    have hr : ∀ {q}, s.text :: q ∉ rest.nodes.map names := by
      intro q hq
      obtain ⟨p, hp, e⟩ := List.mem_map.1 hq
      obtain ⟨s', q', rfl, hs⟩ := ptree_head hp
      rw [show s'.text = s.text from (List.cons.inj e).1] at hs
      exact h1 hs
    have e : (c.nodes.map (s :: ·)).map names = (c.nodes.map names).map (s.text :: ·) := by
      rw [List.map_map, List.map_map]
      rfl
    rw [PTree.nodes, List.map_cons, List.map_append, e, List.nodup_cons, List.nodup_append]
    refine ⟨?_, ?_, ihr h3, ?_⟩
    · rw [List.mem_append]
      rintro (h | h)
      · obtain ⟨q, hq, e⟩ := List.mem_map.1 h
        cases e
        obtain ⟨p, hp, e⟩ := List.mem_map.1 hq
        exact ptree_ne hp (List.map_eq_nil_iff.1 e)
      · exact hr h
    · exact (ihc h2).map fun a b e => by cases e; rfl
    · intro a ha b hb e
      subst e
      obtain ⟨q, _, rfl⟩ := List.mem_map.1 ha
      exact hr hb

theorem beside_cons {s : Step} {p q : Path} : Beside (s :: p) (s :: q) ↔ Beside p q := by
  simp [Beside, names, List.cons_prefix_cons]

theorem beside_ne {s t : Step} (h : s.text ≠ t.text) (p q : Path) : Beside (s :: p) (t :: q) := by
  simp [Beside, names, List.cons_prefix_cons, h, Ne.symm h]

/-- The choices of a tree: the first item, or a choice below it, then a choice of the others. -/
theorem choice_cons {s : Step} {c rest : PTree} (h : s.text ∉ rest.keys) (a : List Path) : Choice (.cons s c rest) a ↔
    (∃ a', Choice rest a' ∧ a = [s] :: a') ∨ ∃ b a', Choice c b ∧ Choice rest a' ∧ a = b.map (s :: ·) ++ a' := by
  have hr : ∀ {a'}, Choice rest a' → ∀ q, ∀ p ∈ a', Beside (s :: q) p := by
    intro a' ha' q p hp
    obtain ⟨s', q', rfl, hs⟩ := ptree_head (ha'.1.subset hp)
    refine beside_ne (fun e => h ?_) _ _
    rw [e]
    exact hs
  constructor
  · rintro ⟨h1, h2⟩
    rw [PTree.nodes] at h1
    rcases List.sublist_cons_iff.1 h1 with h1 | ⟨r, rfl, h5⟩
    · obtain ⟨l1, a', rfl, h3, h4⟩ := List.sublist_append_iff.1 h1
      obtain ⟨b, hb, rfl⟩ := List.sublist_map_iff.1 h3
      rw [List.pairwise_append, List.pairwise_map] at h2
      exact .inr ⟨b, a', ⟨hb, h2.1.imp fun h => beside_cons.1 h⟩, ⟨h4, h2.2.1⟩, rfl⟩
    · obtain ⟨l1, a', rfl, h3, h4⟩ := List.sublist_append_iff.1 h5
      obtain ⟨b, hb, rfl⟩ := List.sublist_map_iff.1 h3
      rw [List.pairwise_cons, List.pairwise_append] at h2
      cases b with
      | nil => exact .inl ⟨a', ⟨h4, h2.2.2.1⟩, rfl⟩
      | cons p b =>
        exact absurd (by simp [names, List.cons_prefix_cons]) (h2.1 (s :: p) (by simp)).1
  · rintro (⟨a', ha', rfl⟩ | ⟨b, a', hb, ha', rfl⟩)
    · refine ⟨?_, List.pairwise_cons.2 ⟨fun p hp => hr ha' [] p hp, ha'.2⟩⟩
      rw [PTree.nodes]
      exact (ha'.1.trans (List.sublist_append_right _ _)).cons_cons _
    · refine ⟨?_, ?_⟩
      · rw [PTree.nodes]
        exact ((hb.1.map _).append ha'.1).cons _
      · rw [List.pairwise_append, List.pairwise_map]
        refine ⟨hb.2.imp fun h => beside_cons.2 h, ha'.2, ?_⟩
        intro p hp q hq
        obtain ⟨p', _, rfl⟩ := List.mem_map.1 hp
        exact hr ha' p' q hq

theorem choice_nil (a : List Path) : Choice .nil a ↔ a = [] := by
  constructor
  · exact fun h => List.sublist_nil.1 h.1
  · rintro rfl
    exact ⟨.refl _, .nil⟩

/-- Composition works in the tree. -/
def PTree.Linked : PTree → Prop
  | .nil => True
  | .cons s c rest => (∀ p ∈ c.nodes, concat false [s] p = .ok (s :: p)) ∧ c.Linked ∧ rest.Linked

theorem mapM_concat {s : Step} {l : List Path} (h : ∀ p ∈ l, concat false [s] p = .ok (s :: p)) :
    (l.mapM fun pp => concat false [s] pp) = .ok (l.map (s :: ·)) := by
  induction l with
  | nil => rfl
  | cons p l ih =>
    rw [List.mapM_cons, h p (by simp), ih fun q hq => h q (by simp [hq])]
    rfl

theorem iterFrom_choices {t : PTree} : t.Distinct → t.Linked → ∀ res : List (List Path), ∃ X, iterFrom t res = .ok X ∧
    (∀ l, l ∈ X ↔ ∃ r ∈ res, ∃ a, Choice t a ∧ l = r ++ a) ∧
    (res.Nodup → (∀ r ∈ res, ∀ p ∈ r, p ∉ t.nodes) → X.Nodup) := by
  induction t with
  | nil =>
    intro _ _ res
    refine ⟨res, rfl, fun l => ?_, fun h _ => h⟩
    simp only [choice_nil]
    constructor
    · exact fun h => ⟨l, h, [], rfl, by simp⟩
    · rintro ⟨r, hr, a, rfl, rfl⟩
      simpa using hr
  | cons s c rest ihc ihr =>
    rintro ⟨d1, d2, d3⟩ ⟨k1, k2, k3⟩ res
    obtain ⟨C, hC, hCm, hCn⟩ := ihc d2 k2 [[]]
    have hCm : ∀ l, l ∈ C ↔ Choice c l := by
      intro l
      rw [hCm]
      simp
    have hCn : C.Nodup := hCn (by simp) (by simp)
    have hsub : (C.mapM fun items => items.mapM fun pp => concat false [s] pp) = .ok (C.map fun items => items.map (s :: ·)) := by
      have : ∀ l ∈ C, (l.mapM fun pp => concat false [s] pp) = .ok (l.map (s :: ·)) := fun l hl =>
        mapM_concat fun p hp => k1 p (((hCm l).1 hl).1.subset hp)
      clear hC hCm hCn
      clear * - this
      induction C with
      | nil => rfl
      | cons l C ih =>
        rw [List.mapM_cons, this l (by simp), ih fun l hl => this l (by simp [hl])]
        rfl
    obtain ⟨X, hX, hXm, hXn⟩ := ihr d3 k3 (res.map (· ++ [[s]]) ++ res.flatMap fun r => (C.map fun items => items.map (s :: ·)).map (r ++ ·))
    refine ⟨X, ?_, ?_, ?_⟩
    · rw [iterFrom, hC]
      simp only [bind, Except.bind, hsub]
      exact hX
    · intro l
      rw [hXm]
      constructor
      · rintro ⟨r', hr', a, ha, rfl⟩
        rcases List.mem_append.1 hr' with h | h
        · obtain ⟨r, hr, rfl⟩ := List.mem_map.1 h
          exact ⟨r, hr, [s] :: a, (choice_cons d1 _).2 (.inl ⟨a, ha, rfl⟩), by simp⟩
        · obtain ⟨r, hr, h⟩ := List.mem_flatMap.1 h
          obtain ⟨b', hb', rfl⟩ := List.mem_map.1 h
          obtain ⟨b, hb, rfl⟩ := List.mem_map.1 hb'
          exact ⟨r, hr, b.map (s :: ·) ++ a, (choice_cons d1 _).2 (.inr ⟨b, a, (hCm b).1 hb, ha, rfl⟩), by simp⟩
      · rintro ⟨r, hr, a, ha, rfl⟩
        rcases (choice_cons d1 _).1 ha with ⟨a', ha', rfl⟩ | ⟨b, a', hb, ha', rfl⟩
        · exact ⟨r ++ [[s]], List.mem_append_left _ (List.mem_map.2 ⟨r, hr, rfl⟩), a', ha', by simp⟩
        · refine ⟨r ++ b.map (s :: ·), List.mem_append_right _ (List.mem_flatMap.2 ⟨r, hr, List.mem_map.2 ⟨_, List.mem_map.2 ⟨b, (hCm b).2 hb, rfl⟩, rfl⟩⟩), a', ha', by simp⟩
    · intro hres hnot
      have hn : ∀ r ∈ res, ∀ p ∈ r, p ≠ [s] ∧ (∀ q ∈ c.nodes, p ≠ s :: q) ∧ p ∉ rest.nodes := by
        intro r hr p hp
        have := hnot r hr p hp
        rw [PTree.nodes, List.mem_cons, List.mem_append, not_or, not_or] at this
        exact ⟨this.1, fun q hq e => this.2.1 (List.mem_map.2 ⟨q, hq, e.symm⟩), this.2.2⟩
      have hhead : ∀ q, s :: q ∉ rest.nodes := by
        intro q hq
        obtain ⟨s', q', e, hs⟩ := ptree_head hq
        cases e
        exact d1 hs
      -- the parts before and after are determined
      have hsplit : ∀ r ∈ res, ∀ r' ∈ res, ∀ x x' : List Path, (∀ p ∈ x, ∃ q, p = s :: q ∧ (q = [] ∨ q ∈ c.nodes)) →
          (∀ p ∈ x', ∃ q, p = s :: q ∧ (q = [] ∨ q ∈ c.nodes)) → r ++ x = r' ++ x' → r = r' ∧ x = x' := by
        have hno : ∀ r ∈ res, ∀ p ∈ r, ¬ ∃ q, p = s :: q ∧ (q = [] ∨ q ∈ c.nodes) := by
          rintro r hr p hp ⟨q, rfl, rfl | hq⟩
          · exact (hn r hr _ hp).1 rfl
          · exact (hn r hr _ hp).2.1 q hq rfl
        intro r hr r' hr' x x' hx hx' e
        rcases List.append_eq_append_iff.1 e with ⟨m, h1, h2⟩ | ⟨m, h1, h2⟩
        · cases m with
          | nil => exact ⟨by simpa using h1.symm, by simpa using h2⟩
          | cons p m => exact absurd (hx p (by simp [h2])) (hno r' hr' p (by simp [h1]))
        · cases m with
          | nil => exact ⟨by simpa using h1, by simpa using h2.symm⟩
          | cons p m => exact absurd (hx' p (by simp [h2])) (hno r hr p (by simp [h1]))
      have hbx : ∀ b ∈ C, ∀ p ∈ b.map (s :: ·), ∃ q, p = s :: q ∧ (q = [] ∨ q ∈ c.nodes) := by
        intro b hb p hp
        obtain ⟨q, hq, rfl⟩ := List.mem_map.1 hp
        exact ⟨q, rfl, .inr (((hCm b).1 hb).1.subset hq)⟩
      have hsx : ∀ p ∈ [[s]], ∃ q, p = s :: q ∧ (q = [] ∨ q ∈ c.nodes) := by simp
      apply hXn
      · rw [List.nodup_append]
        refine ⟨?_, ?_, ?_⟩
        · exact hres.map fun a b e => List.append_cancel_right e
        · rw [List.nodup_flatMap]
          refine ⟨?_, ?_⟩
          · intro r hr
            refine (hCn.map ?_).map ?_
            · exact fun a b e => List.map_injective_iff.2 (fun x y h => by cases h; rfl) e
            · exact fun a b e => List.append_cancel_left e
          · refine hres.imp_of_mem ?_
            intro r r' hr hr' hne l hl hl'
            obtain ⟨x, hx, rfl⟩ := List.mem_map.1 hl
            obtain ⟨b, hb, rfl⟩ := List.mem_map.1 hx
            obtain ⟨x', hx', e⟩ := List.mem_map.1 hl'
            obtain ⟨b', hb', rfl⟩ := List.mem_map.1 hx'
            exact hne (hsplit r hr r' hr' _ _ (hbx b hb) (hbx b' hb') e.symm).1
        · intro l hl l' hl' e
          subst e
          obtain ⟨r, hr, rfl⟩ := List.mem_map.1 hl
          obtain ⟨r', hr', h⟩ := List.mem_flatMap.1 hl'
          obtain ⟨x', hx', e⟩ := List.mem_map.1 h
          obtain ⟨b', hb', rfl⟩ := List.mem_map.1 hx'
          have := (hsplit r' hr' r hr _ _ (hbx b' hb') hsx e).2
          cases b' with
          | nil => cases this
          | cons q b' =>
            simp only [List.map_cons, List.cons.injEq, true_and] at this
            exact ptree_ne (((hCm _).1 hb').1.subset (List.mem_cons_self ..)) this.1
      · intro r' hr' p hp hpr
        rcases List.mem_append.1 hr' with h | h
        · obtain ⟨r, hr, rfl⟩ := List.mem_map.1 h
          rcases List.mem_append.1 hp with hp | hp
          · exact (hn r hr p hp).2.2 hpr
          · rw [List.mem_singleton] at hp
            subst hp
            exact hhead _ hpr
        · obtain ⟨r, hr, h⟩ := List.mem_flatMap.1 h
          obtain ⟨b', hb', rfl⟩ := List.mem_map.1 h
          obtain ⟨b, hb, rfl⟩ := List.mem_map.1 hb'
          rcases List.mem_append.1 hp with hp | hp
          · exact (hn r hr p hp).2.2 hpr
          · obtain ⟨q, _, rfl⟩ := List.mem_map.1 hp
            exact hhead _ hpr

/-- `iter_prefix_tree` lists the choices, each once. -/
theorem iter_choices {t : PTree} (h : t.Distinct) (hl : t.Linked) : ∃ X, iterFrom t [[]] = .ok X ∧ X.Nodup ∧ ∀ l, l ∈ X ↔ Choice t l := by
  obtain ⟨X, h1, h2, h3⟩ := iterFrom_choices h hl [[]]
  refine ⟨X, h1, h3 (by simp) (by simp), fun l => ?_⟩
  rw [h2]
  simp

/-! ### Building the tree -/

/-- The names of the nodes. -/
def PTree.names (t : PTree) : List (List Str) := t.nodes.map Verif.names

theorem names_cons (s : Step) (c r : PTree) (q : List Str) : q ∈ (PTree.cons s c r).names ↔
    q = [s.text] ∨ (∃ q' ∈ c.names, s.text :: q' = q) ∨ q ∈ r.names := by
  simp only [PTree.names, PTree.nodes, List.map_cons, List.map_append, List.map_map, List.mem_cons, List.mem_append, List.mem_map,
    Function.comp, Verif.names, exists_exists_and_eq_and, List.map_nil]

theorem branch_names (p : Path) (q : List Str) : q ∈ (branch p).names ↔ q ≠ [] ∧ q <+: names p := by
  induction p generalizing q with
  | nil =>
    simp only [branch, PTree.names, PTree.nodes, List.map_nil, List.not_mem_nil, names, List.prefix_nil, false_iff]
    exact fun h => h.1 h.2
  | cons s p ih =>
    rw [branch, names_cons]
    constructor
    · rintro (rfl | ⟨q', hq', rfl⟩ | h)
      · exact ⟨by simp, by simp [names, List.cons_prefix_cons]⟩
      · exact ⟨by simp, List.cons_prefix_cons.2 ⟨rfl, ((ih q').1 hq').2⟩⟩
      · cases h
    · rintro ⟨h1, h2⟩
      cases q with
      | nil => exact absurd rfl h1
      | cons t q =>
        obtain ⟨rfl, h5⟩ := List.cons_prefix_cons.1 h2
        cases q with
        | nil => exact .inl rfl
        | cons u q => exact .inr (.inl ⟨u :: q, (ih _).2 ⟨by simp, h5⟩, rfl⟩)

theorem branch_distinct (p : Path) : (branch p).Distinct := by
  induction p with
  | nil => trivial
  | cons s p ih => exact ⟨by simp [PTree.keys], ih, trivial⟩

theorem ptree_keys (t : PTree) (s : Step) (p : Path) : ∀ k, k ∈ (t.insert (s :: p)).keys → k ∈ t.keys ∨ k = s.text := by
  induction t with
  | nil => simp [PTree.insert, branch, PTree.keys]
  | cons k c r _ ih =>
    intro x hx
    unfold PTree.insert at hx
    split at hx
    · exact .inl (by simpa [PTree.keys] using hx)
    · simp only [PTree.keys, List.mem_cons] at hx ⊢
      rcases hx with rfl | hx
      · exact .inl (.inl rfl)
      · rcases ih x hx with h | h
        · exact .inl (.inr h)
        · exact .inr h

/-- Inserting a path adds the names of its prefixes. -/
theorem ptree_insert {t : PTree} : t.Distinct → ∀ p : Path,
    (t.insert p).Distinct ∧ ∀ q, q ∈ (t.insert p).names ↔ q ∈ t.names ∨ q ≠ [] ∧ q <+: names p := by
  induction t with
  | nil =>
    intro _ p
    cases p with
    | nil =>
      refine ⟨by simp [PTree.insert, PTree.Distinct], fun q => ?_⟩
      simp only [PTree.insert, PTree.names, PTree.nodes, List.map_nil, List.not_mem_nil, names, false_or, List.prefix_nil, false_iff]
      exact fun h => h.1 h.2
    | cons s p =>
      refine ⟨branch_distinct (s :: p), fun q => ?_⟩
      rw [PTree.insert, branch_names]
      simp [PTree.names, PTree.nodes]
  | cons k c r ihc ihr =>
    rintro ⟨d1, d2, d3⟩ p
    cases p with
    | nil =>
      refine ⟨by rw [PTree.insert]; exact ⟨d1, d2, d3⟩, fun q => ?_⟩
      simp only [PTree.insert, names, List.map_nil, List.prefix_nil]
      exact ⟨.inl, fun h => h.elim id fun h => absurd h.2 h.1⟩
    | cons s p =>
      unfold PTree.insert
      split
      · rename_i e
        obtain ⟨h1, h2⟩ := ihc d2 p
        refine ⟨⟨d1, h1, d3⟩, fun q => ?_⟩
        rw [names_cons, names_cons]
        constructor
        · rintro (rfl | ⟨q', hq', rfl⟩ | hq)
          · exact .inl (.inl rfl)
          · rcases (h2 q').1 hq' with h | ⟨_, h⟩
            · exact .inl (.inr (.inl ⟨q', h, rfl⟩))
            · exact .inr ⟨by simp, List.cons_prefix_cons.2 ⟨e, h⟩⟩
          · exact .inl (.inr (.inr hq))
        · rintro ((rfl | ⟨q', hq', rfl⟩ | hq) | ⟨h3, h4⟩)
          · exact .inl rfl
          · exact .inr (.inl ⟨q', (h2 q').2 (.inl hq'), rfl⟩)
          · exact .inr (.inr hq)
          · cases q with
            | nil => exact absurd rfl h3
            | cons x q =>
              obtain ⟨rfl, h5⟩ := List.cons_prefix_cons.1 h4
              rw [← e]
              cases q with
              | nil => exact .inl rfl
              | cons y q => exact .inr (.inl ⟨y :: q, (h2 _).2 (.inr ⟨by simp, h5⟩), rfl⟩)
      · rename_i e
        obtain ⟨h1, h2⟩ := ihr d3 (s :: p)
        refine ⟨⟨?_, d2, h1⟩, fun q => ?_⟩
        · intro h
          rcases ptree_keys r s p _ h with h | h
          · exact d1 h
          · exact e h
        · rw [names_cons, names_cons, h2, or_assoc, or_assoc]

/-- The tree of a list of paths. -/
theorem insertAll_names (V : List Path) : ∀ t : PTree, t.Distinct →
    (V.foldl PTree.insert t).Distinct ∧ ∀ q, q ∈ (V.foldl PTree.insert t).names ↔ q ∈ t.names ∨ q ≠ [] ∧ ∃ p ∈ V, q <+: names p := by
  induction V with
  | nil => exact fun t h => ⟨h, by simp⟩
  | cons p V ih =>
    intro t hd
    obtain ⟨h1, h2⟩ := ptree_insert hd p
    obtain ⟨h3, h4⟩ := ih (t.insert p) h1
    refine ⟨h3, fun q => ?_⟩
    rw [List.foldl_cons, h4, h2]
    simp only [List.mem_cons, exists_eq_or_imp]
    tauto

/-! ### Composition -/

/-- Nodes that follow each other in a path. -/
def Link : Step → Step → Prop
  | .role _ _, .lexeme _ => True
  | .lexeme true, .pm _ _ _ => True
  | .lexeme false, .flexion _ => True
  | _, _ => False

theorem concat_link {s : Step} {p : Path} (hp : p ≠ []) (h : (s :: p).IsChain Link) : concat false [s] p = .ok (s :: p) := by
  cases p with
  | nil => exact absurd rfl hp
  | cons t q =>
    have h := (List.isChain_cons_cons.1 h).1
    cases s with
    | usl => cases t <;> exact h.elim
    | pm g m k => cases t <;> exact h.elim
    | flexion f => cases t <;> exact h.elim
    | lexeme c =>
      cases c with
      | false => cases t <;> first | exact h.elim | rfl
      | true => cases t <;> first | exact h.elim | rfl
    | role r f => cases t <;> first | exact h.elim | rfl

theorem linked_of_chain {t : PTree} (h : ∀ p ∈ t.nodes, p.IsChain Link) : t.Linked := by
  induction t with
  | nil => trivial
  | cons s c rest ihc ihr =>
    have hc : ∀ p ∈ c.nodes, (s :: p).IsChain Link := fun p hp => h _ (by
      rw [PTree.nodes]
      exact List.mem_cons_of_mem _ (List.mem_append_left _ (List.mem_map.2 ⟨p, hp, rfl⟩)))
    refine ⟨fun p hp => concat_link (ptree_ne hp) (hc p hp), ihc fun p hp => (hc p hp).tail, ihr fun p hp => h p (by
      rw [PTree.nodes]
      exact List.mem_cons_of_mem _ (List.mem_append_right _ hp))⟩

/-- Nodes whose texts are not those of nodes of other classes. -/
def Plainly (s : Step) : Prop := ∀ m, s = .flexion m → WF m

theorem link_text {s s' t : Step} (hs : Plainly s') (h : s'.text = s.text) (hl : Link s t) : Link s' t := by
  have hterm : ∀ {m : Script}, WF m → ∀ {c : Char}, termChar c = false → c ∉ m.str := by
    intro m hm c hc hin
    rw [str_termChar hm c hin] at hc
    cases hc
  have hlast : ∀ {m : Script}, WF m → m.str ≠ c!"content" ∧ m.str ≠ c!"flexion" := by
    intro m hm
    obtain ⟨b, hb⟩ := str_last hm
    have hmk : ∀ n, mk n ≠ 't' ∧ mk n ≠ 'n' := by
      intro n
      rcases Nat.lt_or_ge n 7 with h | h
      · have : ∀ n : Fin 7, mk n ≠ 't' ∧ mk n ≠ 'n' := by decide
        exact this ⟨n, h⟩
      · have : mk n = '?' := by
          unfold mk
          rw [List.getD_eq_getElem?_getD, List.getElem?_eq_none h]
          rfl
        rw [this]
        decide
    constructor
    · intro e
      rw [hb] at e
      have := congrArg List.getLast? e
      simp at this
      exact (hmk _).1 this
    · intro e
      rw [hb] at e
      have := congrArg List.getLast? e
      simp at this
      exact (hmk _).2 this
  cases s with
  | usl => cases t <;> exact hl.elim
  | pm g m k => cases t <;> exact hl.elim
  | flexion f => cases t <;> exact hl.elim
  | lexeme c =>
    cases s' with
    | usl => cases c <;> cases h
    | pm g m k => cases c <;> cases g <;> simp [Step.text, GIdx.index, groupName] at h
    | flexion m =>
      have := hlast (hs m rfl)
      cases c
      · exact absurd h this.2
      · exact absurd h this.1
    | lexeme c' =>
      have : c' = c := by cases c <;> cases c' <;> first | rfl | cases h
      rw [this]
      exact hl
    | role r f => cases c <;> simp [Step.text] at h
  | role r f =>
    cases s' with
    | usl => simp [Step.text] at h
    | pm g m k => cases g <;> simp [Step.text, GIdx.index, groupName] at h
    | flexion m =>
      refine absurd ?_ (hterm (hs m rfl) (c := '>') (by decide))
      have h : m.str = (Step.role r f).text := h
      rw [h]
      simp [Step.text]
    | lexeme c' => cases c' <;> simp [Step.text] at h
    | role r' f' => cases t <;> first | exact hl.elim | trivial

theorem ptree_chain {t : PTree} : ∀ (a : Path) {p : Path}, (∀ q ∈ t.nodes, (a ++ q).IsChain Link ∧ ∀ s ∈ q, Plainly s) →
    (a ++ p).IsChain Link → (∀ s ∈ p, Plainly s) → ∀ q ∈ (t.insert p).nodes, (a ++ q).IsChain Link ∧ ∀ s ∈ q, Plainly s := by
  have hbranch : ∀ (p a : Path), (a ++ p).IsChain Link → (∀ s ∈ p, Plainly s) → ∀ q ∈ (branch p).nodes, (a ++ q).IsChain Link ∧ ∀ s ∈ q, Plainly s := by
    intro p
    induction p with
    | nil => intro a _ _ q hq; cases hq
    | cons s p ih =>
      intro a ha hp q hq
      simp only [branch, PTree.nodes, List.append_nil, List.mem_cons, List.mem_map] at hq
      rcases hq with rfl | ⟨q, hq, rfl⟩
      · exact ⟨(List.isChain_split.1 ha).1, by simpa using hp s (by simp)⟩
      · obtain ⟨h1, h2⟩ := ih (a ++ [s]) (by simpa using ha) (fun x hx => hp x (by simp [hx])) q hq
        refine ⟨by simpa using h1, fun x hx => ?_⟩
        rcases List.mem_cons.1 hx with rfl | hx
        · exact hp _ (by simp)
        · exact h2 x hx
  induction t with
  | nil =>
    intro a p _ hp hs
    cases p with
    | nil => simp [PTree.insert, PTree.nodes]
    | cons s p => exact hbranch (s :: p) a hp hs
  | cons k c r ihc ihr =>
    intro a p ht hp hs
    cases p with
    | nil => simpa [PTree.insert] using ht
    | cons s p =>
      have hk := ht [k] (by simp [PTree.nodes])
      have hc : ∀ q ∈ c.nodes, (a ++ k :: q).IsChain Link ∧ ∀ s ∈ k :: q, Plainly s := fun q hq => ht _ (by
        rw [PTree.nodes]
        exact List.mem_cons_of_mem _ (List.mem_append_left _ (List.mem_map.2 ⟨q, hq, rfl⟩)))
      have hr : ∀ q ∈ r.nodes, (a ++ q).IsChain Link ∧ ∀ s ∈ q, Plainly s := fun q hq => ht _ (by
        rw [PTree.nodes]
        exact List.mem_cons_of_mem _ (List.mem_append_right _ hq))
      unfold PTree.insert
      split
      · rename_i e
        intro q hq
        simp only [PTree.nodes, List.mem_cons, List.mem_append, List.mem_map] at hq
        rcases hq with rfl | ⟨q, hq, rfl⟩ | hq
        · exact hk
        · have hkp : (k :: p).IsChain Link := by
            have := (List.isChain_split.1 hp).2
            cases p with
            | nil => exact .singleton _
            | cons t p =>
              rw [List.isChain_cons_cons] at this ⊢
              exact ⟨link_text (hk.2 k (by simp)) e this.1, this.2⟩
          obtain ⟨h1, h2⟩ := ihc (a ++ [k]) (p := p) (fun q hq => ⟨by simpa using (hc q hq).1, fun x hx => (hc q hq).2 x (by simp [hx])⟩)
            (by simpa using List.isChain_split.2 ⟨hk.1, hkp⟩) (fun x hx => hs x (by simp [hx])) q hq
          refine ⟨by simpa using h1, fun x hx => ?_⟩
          rcases List.mem_cons.1 hx with rfl | hx
          · exact hk.2 _ (by simp)
          · exact h2 x hx
        · exact hr q hq
      · intro q hq
        simp only [PTree.nodes, List.mem_cons, List.mem_append, List.mem_map] at hq
        rcases hq with rfl | ⟨q, hq, rfl⟩ | hq
        · exact hk
        · exact hc q hq
        · exact ihr a hr hp hs q hq

theorem insertAll_chain (V : List Path) : ∀ t : PTree, (∀ q ∈ t.nodes, q.IsChain Link ∧ ∀ s ∈ q, Plainly s) →
    (∀ p ∈ V, p.IsChain Link ∧ ∀ s ∈ p, Plainly s) → ∀ q ∈ (V.foldl PTree.insert t).nodes, q.IsChain Link ∧ ∀ s ∈ q, Plainly s := by
  induction V with
  | nil => exact fun t h _ => h
  | cons p V ih =>
    intro t ht hV
    exact ih _ (ptree_chain [] ht (hV p (by simp)).1 (hV p (by simp)).2) fun p hp => hV p (by simp [hp])

/-! ### Leaves -/

open Classical in
/-- The number of leaves is the number of nodes that no other node continues. -/
theorem countLeaves_names {t : PTree} (h : t.Distinct) :
    countLeaves t = t.names.countP fun p => decide (∀ q ∈ t.names, p <+: q → q = p) := by
  induction t with
  | nil => rfl
  | cons s c rest ihc ihr =>
    obtain ⟨d1, d2, d3⟩ := h
    have hne : ∀ {t : PTree}, [] ∉ t.names := by
      intro t h
      obtain ⟨p, hp, e⟩ := List.mem_map.1 h
      exact ptree_ne hp (List.map_eq_nil_iff.1 e)
    have hhead : ∀ q, s.text :: q ∉ rest.names := by
      intro q hq
      obtain ⟨p, hp, e⟩ := List.mem_map.1 hq
      obtain ⟨s', q', rfl, hs⟩ := ptree_head hp
      rw [show s'.text = s.text from (List.cons.inj e).1] at hs
      exact d1 hs
    have hin := names_cons s c rest
    have h1 : (∀ q ∈ (PTree.cons s c rest).names, [s.text] <+: q → q = [s.text]) ↔ c.names = [] := by
      constructor
      · intro h
        rw [List.eq_nil_iff_forall_not_mem]
        intro q hq
        have := h (s.text :: q) ((hin _).2 (.inr (.inl ⟨q, hq, rfl⟩))) (List.cons_prefix_cons.2 ⟨rfl, List.nil_prefix⟩)
        cases this
        exact hne hq
      · intro h q hq hp
        rcases (hin q).1 hq with rfl | ⟨q', hq', _⟩ | hq
        · rfl
        · rw [h] at hq'
          cases hq'
        · cases q with
          | nil => exact absurd hq hne
          | cons s' q' =>
            obtain ⟨rfl, _⟩ := List.cons_prefix_cons.1 hp
            exact absurd hq (hhead _)
    have h2 : ∀ p ∈ c.names, (∀ q ∈ (PTree.cons s c rest).names, s.text :: p <+: q → q = s.text :: p) ↔ ∀ q ∈ c.names, p <+: q → q = p := by
      intro p hp
      constructor
      · intro h q hq hpq
        have := h (s.text :: q) ((hin _).2 (.inr (.inl ⟨q, hq, rfl⟩))) (List.cons_prefix_cons.2 ⟨rfl, hpq⟩)
        simpa using this
      · intro h q hq hpq
        rcases (hin q).1 hq with rfl | ⟨q', hq', rfl⟩ | hq
        · have := List.prefix_nil.1 (List.cons_prefix_cons.1 hpq).2
          subst this
          exact absurd hp hne
        · rw [h q' hq' (List.cons_prefix_cons.1 hpq).2]
        · cases q with
          | nil => exact absurd hq hne
          | cons s' q' =>
            obtain ⟨rfl, _⟩ := List.cons_prefix_cons.1 hpq
            exact absurd hq (hhead _)
    have h3 : ∀ p ∈ rest.names, (∀ q ∈ (PTree.cons s c rest).names, p <+: q → q = p) ↔ ∀ q ∈ rest.names, p <+: q → q = p := by
      intro p hp
      constructor
      · exact fun h q hq => h q ((hin q).2 (.inr (.inr hq)))
      · intro h q hq hpq
        have hno : ∀ q', q ≠ s.text :: q' := by
          rintro q' rfl
          cases p with
          | nil => exact hne hp
          | cons s' p' =>
            obtain ⟨rfl, _⟩ := List.cons_prefix_cons.1 hpq
            exact hhead _ hp
        rcases (hin q).1 hq with rfl | ⟨q', _, rfl⟩ | hq
        · exact absurd rfl (hno [])
        · exact absurd rfl (hno q')
        · exact h q hq hpq
    have hcount : ∀ P : List Str → Bool, (PTree.cons s c rest).names.countP P =
        (if P [s.text] then 1 else 0) + c.names.countP (fun p => P (s.text :: p)) + rest.names.countP P := by
      intro P
      have : (PTree.cons s c rest).names = [s.text] :: (c.names.map (s.text :: ·) ++ rest.names) := by
        simp only [PTree.names, PTree.nodes, List.map_cons, List.map_append, List.map_map]
        rfl
      rw [this, List.countP_cons, List.countP_append, List.countP_map]
      simp only [Function.comp_def]
      omega
    rw [hcount]
    have e2 : (c.names.countP fun p => decide (∀ q ∈ (PTree.cons s c rest).names, s.text :: p <+: q → q = s.text :: p)) =
        c.names.countP fun p => decide (∀ q ∈ c.names, p <+: q → q = p) :=
      List.countP_congr fun p hp => by simpa using h2 p hp
    have e3 : (rest.names.countP fun p => decide (∀ q ∈ (PTree.cons s c rest).names, p <+: q → q = p)) =
        rest.names.countP fun p => decide (∀ q ∈ rest.names, p <+: q → q = p) :=
      List.countP_congr fun p hp => by simpa using h3 p hp
    rw [e2, e3, ← ihc d2, ← ihr d3]
    cases c with
    | nil =>
      rw [if_pos (by simpa using h1.2 rfl)]
      simp [countLeaves]
    | cons a b d =>
      rw [if_neg (by
        rw [decide_eq_true_eq, h1]
        simp [PTree.names, PTree.nodes])]
      simp [countLeaves]

end Verif
