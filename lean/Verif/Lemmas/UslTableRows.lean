import Verif.Lemmas.UslTable
import Verif.Spec.UslTable

/-
Lemmas on the tables of polymorphemes by the paths of their groups: the parts of `UslTable2D`.
-/

namespace Verif
open Script

/-! ### Morphemes with their groups -/

/-- The multiplicity of the group of index `i`. -/
def multAt (p : PM) (i : GIdx) : Nat :=
  match partAt p i with
  | some g => g.2
  | none => 1

/-- The morphemes of a polymorpheme with their places. -/
def pmPairs (p : PM) : List (GIdx × Script) :=
  p.constant.map (fun m => (.constant, m)) ++ ([GIdx.g0, .g1, .g2].zip p.groups).flatMap fun e => e.2.1.map fun m => (e.1, m)

/-- The path of a morpheme, with the morpheme itself in the groups where `st`. -/
def pairPath (K : GIdx → Nat) (st : GIdx → Bool) (e : GIdx × Script) : Path × Script :=
  ([.pm e.1 (if st e.1 then some e.2 else none) (if e.1 = .constant then none else some (K e.1))], e.2)

theorem zip_partAt {p : PM} {i : GIdx} {g : Group} : (i, g) ∈ [GIdx.g0, .g1, .g2].zip p.groups ↔ partAt p i = some g := by
  unfold partAt
  rcases p.groups with _ | ⟨a, _ | ⟨b, _ | ⟨c, l⟩⟩⟩ <;> cases i <;> simp [GIdx.index, eq_comm]

theorem mem_pmPairs {p : PM} {e : GIdx × Script} : e ∈ pmPairs p ↔ (e.1 = .constant ∧ e.2 ∈ p.constant) ∨ ∃ g, partAt p e.1 = some g ∧ e.2 ∈ g.1 := by
  obtain ⟨i, m⟩ := e
  unfold pmPairs
  rw [List.mem_append, List.mem_map, List.mem_flatMap]
  constructor
  · rintro (⟨x, hx, h⟩ | ⟨⟨j, g⟩, hg, h⟩)
    · cases h
      exact .inl ⟨rfl, hx⟩
    · obtain ⟨x, hx, h⟩ := List.mem_map.1 h
      cases h
      exact .inr ⟨g, zip_partAt.1 hg, hx⟩
  · rintro (⟨rfl, h⟩ | ⟨g, hg, h⟩)
    · exact .inl ⟨m, h, rfl⟩
    · exact .inr ⟨(i, g), zip_partAt.2 hg, List.mem_map.2 ⟨m, h, rfl⟩⟩

theorem partAt_constant (p : PM) : partAt p .constant = none := rfl

theorem partAt_mem {p : PM} {i : GIdx} {g : Group} (h : partAt p i = some g) : g ∈ p.groups := (List.of_mem_zip (zip_partAt.2 h)).2

theorem multAt_of {p : PM} {i : GIdx} {g : Group} (h : partAt p i = some g) : multAt p i = g.2 := by simp [multAt, h]

theorem pmItems_pairs (p : PM) : ((pmItems p).map fun e => (([e.1] : Path), e.2)) = (pmPairs p).map (pairPath (multAt p) fun _ => true) := by
  unfold pmItems pmPairs
  rw [List.map_append, List.map_append, List.map_map, List.map_map, List.map_flatMap, List.map_flatMap]
  refine congrArg₂ _ rfl (List.flatMap_congr fun e he => ?_)
  obtain ⟨i, g⟩ := e
  have h := zip_partAt.1 he
  rw [List.map_map, List.map_map]
  refine List.map_congr_left fun m _ => ?_
  have hi : i ≠ .constant := by
    rintro rfl
    cases h
  simp [pairPath, multAt_of h, hi]

/-- The listed morphemes of a polymorpheme. -/
theorem scripts_pm (p : PM) : (Node.expr (.pm p)).scripts = .ok ((pmPairs p).map (pairPath (multAt p) fun _ => true)) := by
  unfold Node.scripts
  show ((scriptPaths p.paths).mapM _ : Except Err _) = _
  rw [scriptPaths_pm, ← pmItems_pairs]
  generalize pmItems p = l
  induction l with
  | nil => rfl
  | cons e l ih =>
    rw [List.map_cons, List.mapM_cons, ih]
    rfl

/-- The listed morphemes of a polymorpheme without groups, whatever the multiplicities. -/
theorem scripts_single {p : PM} (h : p.groups = []) (K : GIdx → Nat) :
    (Node.expr (.pm p)).scripts = .ok ((p.constant.map fun m => (GIdx.constant, m)).map (pairPath K fun _ => true)) := by
  rw [scripts_pm]
  unfold pmPairs
  rw [h]
  simp [pairPath]

/-! ### Assembly of morphemes with their groups -/

/-- The morphemes listed in `C` are those of the place `g`. -/
structure PlaceNames (l : List (GIdx × Script)) (g : GIdx) (C : List Script) : Prop where
  orderly : ∀ x ∈ C, Orderly x
  nodup : ((C.filter fun x => x.empty = false).map str).Nodup
  mem : ∀ t, (∃ x, Meant C x ∧ x.str = t) ↔ ∃ e ∈ l, e.1 = g ∧ e.2.empty = false ∧ e.2.str = t

theorem assemble_pairs {ord : List Expr → List Expr} (ho : Rearranges ord) {K : GIdx → Nat} (hK : ∀ g, 0 < K g ∧ K g ≤ 9) (st : GIdx → Bool)
    {l : List (GIdx × Script)} (hw : ∀ e ∈ l, WF e.2 ∧ Readable e.2) (hne : l ≠ []) {C : List Script} {G : GIdx → List Script}
    (hC : PlaceNames l .constant C) (hG : ∀ g, g ≠ .constant → PlaceNames l g (G g)) (hG0 : ∀ g, g ≠ .constant → (G g = [] ↔ ∀ e ∈ l, e.1 ≠ g)) :
    ∃ q, uslOf ord (l.map (pairPath K st)) = .ok (.pm q) ∧ SamePM q (mkPM C (groupsOf K G)) ∧ OkPM q := by
  let L : List (Step × Script) := l.map fun e => (.pm e.1 (if st e.1 then some e.2 else none) (if e.1 = .constant then none else some (K e.1)), e.2)
  have hfit : Fit K L := by
    refine ⟨?_, ?_, ?_, hK⟩
    · intro x hx
      obtain ⟨e, he, rfl⟩ := List.mem_map.1 hx
      refine ⟨_, _, rfl, fun y hy => ?_⟩
      split at hy
      · cases hy
        exact (hw e he).1
      · cases hy
    · intro x hx
      obtain ⟨e, he, rfl⟩ := List.mem_map.1 hx
      exact hw e he
    · intro x hx y hy
      obtain ⟨e, he, rfl⟩ := List.mem_map.1 hx
      obtain ⟨f, hf, rfl⟩ := List.mem_map.1 hy
      simp only [stepIdx]
      intro h1 h2
      rw [pm_text, pm_text, h1]
      congr 1
      split
      · simp [morphText, h2]
      · rfl
  have hnames : ∀ {g : GIdx} {C : List Script}, PlaceNames l g C → Lists L g C := by
    intro g C h
    refine ⟨h.orderly, h.nodup, fun t => ?_⟩
    have := h.mem t
    simp only [Meant, and_assoc] at this
    rw [this]
    constructor
    · rintro ⟨e, he, h1, h2⟩
      exact ⟨_, List.mem_map_of_mem he, h1, h2⟩
    · rintro ⟨x, hx, h1, h2⟩
      obtain ⟨e, he, rfl⟩ := List.mem_map.1 hx
      exact ⟨e, he, h1, h2⟩
  obtain ⟨q, h1, h2, C', G', h3, h4, h5⟩ := assemble ho hfit (by simpa [L] using hne) (hnames hC) (fun g hg => hnames (hG g hg)) (by
    intro g hg
    rw [hG0 g hg]
    simp only [L, List.forall_mem_map]
    exact Iff.rfl)
  refine ⟨q, ?_, h2, C', G', h3, h4, h5⟩
  rw [← h1]
  simp only [L, List.map_map]
  rfl

/-! ### Small parts -/

theorem hasPrefix_none (g i : GIdx) (k k' : Option Nat) : hasPrefix [.pm g none k'] [.pm i none k] = .ok (decide (g = i) && decide (k' = k)) := by
  by_cases h1 : g = i <;> by_cases h2 : k' = k <;> simp [hasPrefix, Step.cls, Step.doEq, Step.basePrefix, h1, h2]

theorem hasPrefix_some (g i : GIdx) (m : Script) (k k' : Option Nat) : hasPrefix [.pm g (some m) k'] [.pm i none k] = .ok (decide (g = i) && decide (k' = k)) := by
  simp [hasPrefix, Step.cls, Step.doEq, Step.basePrefix]

theorem concat_none (g i : GIdx) (k k' : Option Nat) : concat false [.pm i none k] [.pm g none k'] = .ok [.pm i none k] := by
  have h := hasPrefix_none g i k k'
  unfold concat
  simp only [Step.cls, reduceCtorEq, if_false, ne_eq, not_true_eq_false]
  rw [h]
  by_cases h1 : g = i <;> by_cases h2 : k' = k <;> simp [h1, h2, bind, Except.bind, pure, Except.pure]

theorem lastPath_get {l : List (Path × Script)} {m : Script} : (∃ e ∈ l, e.2.str = m.str) →
    ∃ e ∈ l, e.2.str = m.str ∧ Table2D.pathOf (Table2D.lastPath l) m = .ok e.1 := by
  have setGet : ∀ (d : List (Script × Path)) (k : Script) (v : Path), dictGet str m (dictSet str k v d) = if k.str = m.str then some v else dictGet str m d := by
    intro d k v
    induction d with
    | nil => simp [dictSet, dictGet]
    | cons e d ih =>
      unfold dictSet
      split
      · next h =>
        unfold dictGet
        rw [h]
        split <;> rfl
      · next h =>
        unfold dictGet
        rw [ih]
        split
        · next h' =>
          rw [if_neg]
          intro h''
          exact h (h'.trans h''.symm)
        · rfl
  have key : ∀ (l : List (Path × Script)) (d : List (Script × Path)), (∃ e ∈ l, e.2.str = m.str ∧ dictGet str m (l.foldl (fun d e => dictSet str e.2 e.1 d) d) = some e.1) ∨
      (∀ e ∈ l, e.2.str ≠ m.str) ∧ dictGet str m (l.foldl (fun d e => dictSet str e.2 e.1 d) d) = dictGet str m d := by
    intro l
    induction l with
    | nil => intro d; exact .inr ⟨by simp, rfl⟩
    | cons e l ih =>
      intro d
      rw [List.foldl_cons]
      rcases ih (dictSet str e.2 e.1 d) with ⟨f, hf, h⟩ | ⟨h1, h2⟩
      · exact .inl ⟨f, List.mem_cons_of_mem _ hf, h⟩
      · rw [setGet] at h2
        by_cases h : e.2.str = m.str
        · rw [if_pos h] at h2
          exact .inl ⟨e, by simp, h, h2⟩
        · rw [if_neg h] at h2
          refine .inr ⟨?_, h2⟩
          intro f hf
          rcases List.mem_cons.1 hf with rfl | hf
          · exact h
          · exact h1 f hf
  rintro ⟨e, he, hem⟩
  rcases key l [] with ⟨f, hf, h1, h2⟩ | ⟨h1, _⟩
  · exact ⟨f, hf, h1, by unfold Table2D.pathOf Table2D.lastPath; rw [h2]⟩
  · exact absurd hem (h1 e he)

theorem sortKeyed_pm {α : Type} {key : α → Except Err Expr} {Q : α → PM} {l : List α} (h : ∀ x ∈ l, key x = .ok (.pm (Q x))) :
    sortKeyed key l = .ok (pySort (fun a b => (Q a).lt (Q b)) l) := by
  have hk : l.mapM key = .ok (l.map fun x => Expr.pm (Q x)) := by
    refine mapM_of_forall₂ ?_
    induction l with
    | nil => exact .nil
    | cons x l ih => exact .cons (h x (by simp)) (ih fun y hy => h y (List.mem_cons_of_mem _ hy))
  unfold sortKeyed
  rw [hk]
  show (if ((l.map fun x => Expr.pm (Q x)).any _) = true then _ else _) = _
  rw [if_neg]
  · show Except.ok _ = _
    have hz : (l.map fun x => Expr.pm (Q x)).zip l = l.map fun x => (Expr.pm (Q x), x) := by
      clear h hk
      induction l with
      | nil => rfl
      | cons x l ih => simp [ih]
    rw [hz, pySort_map (g := fun x => (Expr.pm (Q x), x)) (lt := fun a b => (Q a).lt (Q b)) (fun a b => rfl), List.map_map]
    simp [Function.comp_def]
  · rw [Bool.not_eq_true, List.any_eq_false]
    intro a ha
    obtain ⟨x, _, rfl⟩ := List.mem_map.1 ha
    rw [Bool.not_eq_true, List.any_eq_false]
    intro b hb
    obtain ⟨y, _, rfl⟩ := List.mem_map.1 hb
    simp [Expr.lt]

theorem pySort_map' {α β : Type} {lt : α → α → Bool} {lt' : β → β → Bool} {g : α → β} : ∀ {l : List α}, (∀ a ∈ l, ∀ b ∈ l, lt' (g a) (g b) = lt a b) →
    pySort lt' (l.map g) = (pySort lt l).map g
  | [], _ => rfl
  | x :: l, h => by
    have ins : ∀ k : List α, (∀ a ∈ k, a ∈ x :: l) → insertBy lt' (g x) (k.map g) = (insertBy lt x k).map g := by
      intro k
      induction k with
      | nil => intro _; rfl
      | cons y k ih =>
        intro hk
        rw [List.map_cons, insertBy, insertBy, h _ (hk y (by simp)) _ (by simp), ih fun a ha => hk a (List.mem_cons_of_mem _ ha)]
        split <;> rfl
    rw [List.map_cons, pySort, pySort, pySort_map' fun a ha b hb => h a (List.mem_cons_of_mem _ ha) b (List.mem_cons_of_mem _ hb),
      ins _ fun a ha => List.mem_cons_of_mem _ ((mem_pySort lt).1 ha)]

theorem mapM_map {α β γ : Type} {f : β → Except Err γ} {g : α → γ} {h : α → β} {l : List α} (hf : ∀ x ∈ l, f (h x) = .ok (g x)) :
    (l.map h).mapM f = .ok (l.map g) := by
  induction l with
  | nil => rfl
  | cons x l ih =>
    rw [List.map_cons, List.mapM_cons, hf x (by simp), ih fun y hy => hf y (List.mem_cons_of_mem _ hy)]
    rfl

theorem filterM_ok {α : Type} {f : α → Except Err Bool} {g : α → Bool} {l : List α} (h : ∀ x ∈ l, f x = .ok (g x)) : l.filterM f = .ok (l.filter g) := by
  have aux : ∀ (l acc : List α), (∀ x ∈ l, f x = .ok (g x)) → l.filterAuxM f acc = .ok ((l.filter g).reverse ++ acc) := by
    intro l
    induction l with
    | nil => intro acc _; rfl
    | cons x l ih =>
      intro acc h
      rw [List.filterAuxM, h x (by simp)]
      show List.filterAuxM f l _ = _
      rw [ih _ fun y hy => h y (List.mem_cons_of_mem _ hy), List.filter_cons]
      cases g x <;> simp
  unfold List.filterM
  rw [aux l [] h]
  show Except.ok _ = _
  simp

end Verif
