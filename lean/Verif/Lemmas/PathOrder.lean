import Verif.Model.PathOrder
import Verif.Props.Morphemes
import Verif.Props.InstanceObjects

/-
The order of paths: the codes of their first nodes, stable sorting by a code.
-/

namespace Verif
open Script

/-! ### Stable sorting -/

section
variable {α : Type} {lt : α → α → Bool} {k : α → List Nat}

theorem insertBy_filter (c : List Nat) {x : α} : ∀ {l : List α}, (∀ a ∈ l, lt a x = ltBytes (k a) (k x)) →
    (insertBy lt x l).filter (fun a => k a = c) = (x :: l).filter (fun a => k a = c)
  | [], _ => rfl
  | y :: l, h => by
    rw [insertBy]
    split
    · rename_i hy
      rw [List.filter_cons, insertBy_filter c (fun a ha => h a (by simp [ha]))]
      rw [h y (by simp)] at hy
      by_cases h1 : k y = c <;> by_cases h2 : k x = c
      · rw [h1, h2, ltBytes_irrefl] at hy
        cases hy
      all_goals simp [List.filter_cons, h1, h2]
    · rfl

/-- A stable sort does not rearrange what has the same code. -/
theorem pySort_filter (c : List Nat) : ∀ {l : List α}, (∀ a ∈ l, ∀ b ∈ l, lt a b = ltBytes (k a) (k b)) →
    (pySort lt l).filter (fun a => k a = c) = l.filter (fun a => k a = c)
  | [], _ => rfl
  | x :: l, h => by
    rw [pySort, insertBy_filter c fun a ha => h a (by rw [mem_pySort] at ha; simp [ha]) x (by simp), List.filter_cons, List.filter_cons,
      pySort_filter c fun a ha b hb => h a (by simp [ha]) b (by simp [hb])]

/-- Two lists sorted by a code, in which what has the same code comes in the same order, are the same. -/
theorem sorted_unique {β : Type} : ∀ {l m : List (List Nat × β)}, l.Pairwise (fun a b => ltBytes b.1 a.1 = false) →
    m.Pairwise (fun a b => ltBytes b.1 a.1 = false) → (∀ c, l.filter (fun a => a.1 = c) = m.filter (fun a => a.1 = c)) → l = m
  | [], [], _, _, _ => rfl
  | [], y :: m, _, _, h => by
    have := h y.1
    simp at this
  | x :: l, [], _, _, h => by
    have := h x.1
    simp at this
  | x :: l, y :: m, hl, hm, h => by
    have e : x.1 = y.1 := by
      by_contra hne
      have hx : x ∈ (y :: m).filter fun a => a.1 = x.1 := by rw [← h x.1]; simp
      have hy : y ∈ (x :: l).filter fun a => a.1 = y.1 := by rw [h y.1]; simp
      simp only [List.mem_filter, List.mem_cons] at hx hy
      rcases hx.1 with rfl | hx
      · exact hne rfl
      rcases hy.1 with rfl | hy
      · exact hne rfl
      have h1 := (List.pairwise_cons.1 hl).1 y hy
      have h2 := (List.pairwise_cons.1 hm).1 x hx
      rcases ltBytes_total hne with h3 | h3
      · rw [h2] at h3; cases h3
      · rw [h1] at h3; cases h3
    have h0 := h x.1
    rw [List.filter_cons, List.filter_cons, if_pos (by simp), if_pos (by simp [e]), List.cons.injEq] at h0
    obtain ⟨rfl, _⟩ := h0
    rw [sorted_unique (List.pairwise_cons.1 hl).2 (List.pairwise_cons.1 hm).2 fun c => ?_]
    have := h c
    rw [List.filter_cons, List.filter_cons] at this
    split at this
    · exact (List.cons.inj this).2
    · exact this

/-- Stable sorting of two lists that differ by the order of blocks of different codes. -/
theorem pySort_blocks {β : Type} {f : α → β} {l m : List α} (hl : ∀ a ∈ l, ∀ b ∈ l, lt a b = ltBytes (k a) (k b))
    (hm : ∀ a ∈ m, ∀ b ∈ m, lt a b = ltBytes (k a) (k b))
    (h : ∀ c, (l.filter fun a => k a = c).map f = (m.filter fun a => k a = c).map f) : (pySort lt l).map f = (pySort lt m).map f := by
  have key : ∀ {l : List α}, (∀ a ∈ l, ∀ b ∈ l, lt a b = ltBytes (k a) (k b)) →
      ((pySort lt l).map fun a => (k a, f a)).Pairwise (fun a b => ltBytes b.1 a.1 = false) ∧
      ∀ c, ((pySort lt l).map fun a => (k a, f a)).filter (fun a => a.1 = c) = ((l.filter fun a => k a = c).map f).map fun b => (c, b) := by
    intro l h
    refine ⟨by rw [List.pairwise_map]; exact pySort_sorted lt h, fun c => ?_⟩
    rw [List.filter_map, show ((fun a : List Nat × β => decide (a.1 = c)) ∘ fun a => (k a, f a)) = fun a => decide (k a = c) from rfl,
      pySort_filter c h, List.map_map]
    refine List.map_congr_left fun a ha => ?_
    have := (List.mem_filter.1 ha).2
    simp only [decide_eq_true_eq] at this
    simp [this]
  obtain ⟨h1, h2⟩ := key hl
  obtain ⟨h3, h4⟩ := key hm
  have := sorted_unique h1 h3 fun c => by rw [h2, h4, h c]
  have h5 := congrArg (List.map Prod.snd) this
  simpa [List.map_map, Function.comp_def] using h5

end

/-! ### Codes of nodes -/

/-- Code of a node, without its child and what the order does not see. -/
def stepKey : Step → List Nat
  | .usl => [0]
  | .pm g (some m) _ => 1 :: g.rank :: KK m
  | .pm g none _ => [1, g.rank]
  | .flexion m => 1 :: KK m
  | .lexeme c => [2, halfRank c]
  | .role r _ => 3 :: codeAddr r

/-- Code of the first node of a path. -/
def headKey : Path → List Nat
  | [] => []
  | s :: _ => stepKey s

/-- The nodes that are ordered. -/
def OkStep : Step → Prop
  | .pm _ (some m) _ => Good0 m
  | .pm _ none _ => False
  | .flexion m => Good0 m
  | .role r _ => ∀ a ∈ r, a ∈ addressScripts
  | _ => True

theorem rank_inj {g g' : GIdx} : g.rank = g'.rank ↔ g = g' := by
  cases g <;> cases g' <;> simp [GIdx.rank]

theorem step_lt {s t : Step} (hs : OkStep s) (ht : OkStep t) (h1 : ¬ (s.cls = .pm ∧ t.cls = .flexion)) (h2 : ¬ (s.cls = .flexion ∧ t.cls = .pm)) :
    s.lt t = .ok (ltBytes (stepKey s) (stepKey t)) := by
  have hpm : ∀ {g g' : GIdx} {m m' : Script} {k k'}, Good0 m → Good0 m' →
      Step.lt (.pm g (some m) k) (.pm g' (some m') k') = .ok (ltBytes (1 :: g.rank :: KK m) (1 :: g'.rank :: KK m')) := by
    intro g g' m m' k k' h h'
    simp only [Step.lt, ltBytes, if_true, rank_inj, ltMorpheme]
    split
    · split
      · rename_i e
        rw [(KK0_iff h h').2 e, ltBytes_irrefl]
      · rw [lt_KK0 h h']
    · rfl
  have hrole : ∀ {r r' : Addr}, (∀ a ∈ r, a ∈ addressScripts) → (∀ a ∈ r', a ∈ addressScripts) → addrLt r r' = ltBytes (codeAddr r) (codeAddr r') := by
    intro r r' h h'
    have := codeAddr_lt [] [] h h'
    rw [List.append_nil, List.append_nil] at this
    rw [this]
    split
    · rename_i e
      subst e
      have := codeAddr_lt [0] [0] h h
      have hh : ∀ l : List Nat, ltNats l l = false := by
        intro l
        induction l with
        | nil => rfl
        | cons x l ih => simp [ltNats, ih]
      simp [addrLt, hh, ltBytes]
    · rfl
  rcases s with _ | ⟨g, _ | m, k⟩ | m | c | ⟨r, f⟩ <;> rcases t with _ | ⟨g', _ | m', k'⟩ | m' | c' | ⟨r', f'⟩
  all_goals try exact hs.elim
  all_goals try exact ht.elim
  all_goals try exact absurd ⟨rfl, rfl⟩ h1
  all_goals try exact absurd ⟨rfl, rfl⟩ h2
  all_goals try exact hpm hs ht
  all_goals try rfl
  · simp only [Step.lt, stepKey, ltBytes, if_true]
    rw [lt_KK0 hs ht]
  · cases c <;> cases c' <;> rfl
  · simp only [Step.lt, stepKey, ltBytes, if_true]
    rw [hrole hs ht]

/-- What the order sees of a node. -/
def Tied : Step → Step → Prop
  | .usl, .usl => True
  | .pm g m _, .pm g' m' _ => g = g' ∧ m.map str = m'.map str
  | .flexion m, .flexion m' => m.str = m'.str
  | .lexeme c, .lexeme c' => c = c'
  | .role r _, .role r' _ => r = r'
  | _, _ => False

theorem stepKey_iff {s t : Step} (hs : OkStep s) (ht : OkStep t) (h1 : ¬ (s.cls = .pm ∧ t.cls = .flexion)) (h2 : ¬ (s.cls = .flexion ∧ t.cls = .pm)) :
    stepKey s = stepKey t ↔ Tied s t := by
  rcases s with _ | ⟨g, _ | m, k⟩ | m | c | ⟨r, f⟩ <;> rcases t with _ | ⟨g', _ | m', k'⟩ | m' | c' | ⟨r', f'⟩
  all_goals try exact hs.elim
  all_goals try exact ht.elim
  all_goals try exact absurd ⟨rfl, rfl⟩ h1
  all_goals try exact absurd ⟨rfl, rfl⟩ h2
  all_goals try (simp [stepKey, Tied]; done)
  · simp [stepKey, Tied, rank_inj, KK0_iff hs ht]
  · simp [stepKey, Tied, KK0_iff hs ht]
  · cases c <;> cases c' <;> simp [stepKey, Tied, halfRank]
  · have := codeAddr_pf (u := []) (v := []) hs ht
    simp only [List.append_nil, and_true] at this
    simp [stepKey, Tied, this]

end Verif
