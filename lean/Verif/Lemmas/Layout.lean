import Verif.Model.Rules
import Verif.Spec.Layout
import Verif.Lemmas.Product
import Verif.Lemmas.ScriptDec
import Mathlib.Data.List.Perm.Subperm
import Mathlib.Algebra.BigOperators.Group.List.Basic

/-
Layouts of words and scripts, and the scripts that the rules of `dictionary_tools.py` make.
-/

namespace Verif
open Script

namespace Layout

theorem spells_congr : ∀ {p : Layout} {l : Nat} {ρ ρ' : Nat → Word} {w : Word}, (∀ i ∈ p.parts, ρ i = ρ' i) →
    (p.Spells l ρ w ↔ p.Spells l ρ' w)
  | part i, l, ρ, ρ', w, h => by simp [Spells, h i (by simp [parts])]
  | blank, l, ρ, ρ', w, h => by simp [Spells]
  | fixed c, l, ρ, ρ', w, h => by simp [Spells]
  | node p q r, 0, ρ, ρ', w, h => by simp [Spells]
  | node p q r, l + 1, ρ, ρ', w, h => by
    have h1 : ∀ u, p.Spells l ρ u ↔ p.Spells l ρ' u := fun u => spells_congr fun i hi => h i (by simp [parts, hi])
    have h2 : ∀ u, q.Spells l ρ u ↔ q.Spells l ρ' u := fun u => spells_congr fun i hi => h i (by simp [parts, hi])
    have h3 : ∀ u, r.Spells l ρ u ↔ r.Spells l ρ' u := fun u => spells_congr fun i hi => h i (by simp [parts, hi])
    simp [Spells, h1, h2, h3]

/-- The fixed scripts of a layout can be built and have one word. -/
def Sound : Layout → Prop
  | part _ => True
  | blank => True
  | fixed c => WF c ∧ c.cardinal = 1
  | node p q r => p.Sound ∧ q.Sound ∧ r.Sound

theorem spells_length : ∀ {p : Layout} {l : Nat} {ρ : Nat → Word} {w : Word}, p.Sound → p.Spells l ρ w → w.length = 3 ^ l
  | part i, l, ρ, w, _, h => h.2
  | blank, l, ρ, w, _, h => by rw [Spells] at h; simp [h]
  | fixed c, l, ρ, w, hs, h => by rw [← h.1]; exact den_length hs.1 h.2
  | node p q r, 0, ρ, w, _, h => by simp [Spells] at h
  | node p q r, l + 1, ρ, w, hs, h => by
    obtain ⟨u, v, x, h1, h2, h3, rfl⟩ := h
    rw [List.length_append, List.length_append, spells_length hs.1 h1, spells_length hs.2.1 h2, spells_length hs.2.2 h3]
    rw [pow_succ]; omega

/-- A word is laid out in one way. -/
theorem spells_parts : ∀ {p : Layout} {l : Nat} {ρ ρ' : Nat → Word} {w : Word}, p.Sound → p.Spells l ρ w → p.Spells l ρ' w →
    ∀ i ∈ p.parts, ρ i = ρ' i
  | part i, l, ρ, ρ', w, _, h, h' => by
    intro j hj
    simp only [parts, List.mem_singleton] at hj
    rw [hj, ← h.1, h'.1]
  | blank, l, ρ, ρ', w, _, _, _ => by simp [parts]
  | fixed c, l, ρ, ρ', w, _, _, _ => by simp [parts]
  | node p q r, 0, ρ, ρ', w, _, h, _ => by simp [Spells] at h
  | node p q r, l + 1, ρ, ρ', w, hs, h, h' => by
    obtain ⟨u, v, x, h1, h2, h3, rfl⟩ := h
    obtain ⟨u', v', x', h1', h2', h3', he⟩ := h'
    obtain ⟨rfl, rfl, rfl⟩ := append3_inj he (by rw [spells_length hs.1 h1, spells_length hs.1 h1'])
      (by rw [spells_length hs.2.1 h2, spells_length hs.2.1 h2'])
    intro i hi
    simp only [parts, List.mem_append] at hi
    rcases hi with (hi | hi) | hi
    · exact spells_parts hs.1 h1 h1' i hi
    · exact spells_parts hs.2.1 h2 h2' i hi
    · exact spells_parts hs.2.2 h3 h3' i hi

theorem spells_replace : ∀ {p : Layout} {l : Nat} {ρ ρ' : Nat → Word} {w : Word}, p.Spells l ρ w →
    (∀ i ∈ p.parts, (ρ' i).length = (ρ i).length) → ∃ w', p.Spells l ρ' w'
  | part i, l, ρ, ρ', w, h, he => ⟨ρ' i, rfl, by rw [he i (by simp [parts]), ← h.1, h.2]⟩
  | blank, l, ρ, ρ', w, h, _ => ⟨w, h⟩
  | fixed c, l, ρ, ρ', w, h, _ => ⟨w, h⟩
  | node p q r, 0, ρ, ρ', w, h, _ => by simp [Spells] at h
  | node p q r, l + 1, ρ, ρ', w, h, he => by
    obtain ⟨u, v, x, h1, h2, h3, rfl⟩ := h
    obtain ⟨u', h1'⟩ := spells_replace h1 fun i hi => he i (by simp [parts, hi])
    obtain ⟨v', h2'⟩ := spells_replace h2 fun i hi => he i (by simp [parts, hi])
    obtain ⟨x', h3'⟩ := spells_replace h3 fun i hi => he i (by simp [parts, hi])
    exact ⟨_, u', v', x', h1', h2', h3', rfl⟩

/-- The parts determine the word. -/
theorem spells_word : ∀ {p : Layout} {l : Nat} {ρ : Nat → Word} {w w' : Word}, p.Sound → p.Spells l ρ w → p.Spells l ρ w' → w = w'
  | part i, l, ρ, w, w', _, h, h' => by rw [h.1, h'.1]
  | blank, l, ρ, w, w', _, h, h' => by rw [Spells] at h h'; rw [h, h']
  | fixed c, l, ρ, w, w', hs, h, h' => den_unique hs.1 hs.2 h.2 h'.2
  | node p q r, 0, ρ, w, w', _, h, _ => by simp [Spells] at h
  | node p q r, l + 1, ρ, w, w', hs, h, h' => by
    obtain ⟨u, v, x, h1, h2, h3, rfl⟩ := h
    obtain ⟨u', v', x', h1', h2', h3', rfl⟩ := h'
    rw [spells_word hs.1 h1 h1', spells_word hs.2.1 h2 h2', spells_word hs.2.2 h3 h3']

end Layout

/-- The script `t` of layer `l` is made of the words of the parts `σ`, laid out as `p`. -/
structure Made (p : Layout) (σ : Nat → Script) (l : Nat) (t : Script) : Prop where
  wf : WF t
  layer : t.layer = l
  card : t.cardinal = (p.parts.map fun i => (σ i).cardinal).prod
  den : ∀ w, Den t w ↔ ∃ ρ, (∀ i ∈ p.parts, Den (σ i) (ρ i)) ∧ p.Spells l ρ w

/-- Parts that can be built and do not have too many words together. -/
structure Parts (P : List Nat) (σ : Nat → Script) : Prop where
  nodup : P.Nodup
  wf : ∀ i ∈ P, WF (σ i)
  card : (P.map fun i => (σ i).cardinal).prod ≤ 360

theorem prod_le_of_subperm {P Q : List Nat} {f : Nat → Nat} (h : Q.Subperm P) (hf : ∀ i ∈ P, 1 ≤ f i) :
    (Q.map f).prod ≤ (P.map f).prod := by
  obtain ⟨Q', hp, hs⟩ := h
  rw [← (hp.map f).prod_eq]
  have key : ∀ {Q P : List Nat}, List.Sublist Q P → (∀ i ∈ P, 1 ≤ f i) → (Q.map f).prod ≤ (P.map f).prod := by
    intro Q P hs
    induction hs with
    | slnil => intro _; simp
    | cons a h ih =>
      intro hf
      rw [List.map_cons, List.prod_cons]
      exact le_trans (ih fun i hi => hf i (by simp [hi])) (Nat.le_mul_of_pos_left _ (hf a (by simp)))
    | cons_cons a h ih =>
      intro hf
      simp only [List.map_cons, List.prod_cons]
      exact Nat.mul_le_mul_left _ (ih fun i hi => hf i (by simp [hi]))
  exact key hs hf

theorem Parts.le {P Q : List Nat} {σ : Nat → Script} (h : Parts P σ) (hs : Q.Subperm P) :
    (Q.map fun i => (σ i).cardinal).prod ≤ 360 :=
  le_trans (prod_le_of_subperm hs fun i hi => cardinal_pos (h.wf i hi)) h.card

theorem made_part {σ : Nat → Script} {i l : Nat} (h : WF (σ i)) (hl : (σ i).layer = l) : Made (.part i) σ l (σ i) where
  wf := h
  layer := hl
  card := by simp [Layout.parts]
  den := by
    intro w
    simp only [Layout.parts, List.mem_singleton, forall_eq, Layout.Spells]
    constructor
    · intro hd
      exact ⟨fun _ => w, hd, rfl, by rw [← hl]; exact den_length h hd⟩
    · rintro ⟨ρ, h1, rfl, _⟩
      exact h1

theorem made_blank {σ : Nat → Script} {l : Nat} (hl : l ≤ 6) : Made .blank σ l (null l) where
  wf := .null hl
  layer := rfl
  card := by simp [Layout.parts, cardinal]
  den := by
    intro w
    simp only [Layout.parts, List.not_mem_nil, false_imp_iff, forall_const, true_and, Layout.Spells, den_null]
    exact ⟨fun h => ⟨fun _ => [], h⟩, fun ⟨_, h⟩ => h⟩

theorem made_fixed {σ : Nat → Script} {c s : Script} (hc : WF c) (h1 : c.cardinal = 1) (hs : WF s) (he : s.str = c.str) :
    Made (.fixed c) σ s.layer s where
  wf := hs
  layer := rfl
  card := by rw [cardinal_of_str hs hc he, h1]; rfl
  den := by
    intro w
    simp only [Layout.parts, List.not_mem_nil, false_imp_iff, forall_const, true_and, Layout.Spells]
    rw [den_of_str hs hc he]
    exact ⟨fun h => ⟨fun _ => [], (layer_of_str hs hc he).symm, h⟩, fun ⟨_, _, h⟩ => h⟩

/-- The words of three parts in a row. -/
theorem made_words {p q r : Layout} {σ : Nat → Script} {l : Nat} {x y z : Script} (hp : Made p σ l x) (hq : Made q σ l y)
    (hr : Made r σ l z) (hn : (p.parts ++ q.parts ++ r.parts).Nodup) (w : Word) :
    (∃ u v k, Den x u ∧ Den y v ∧ Den z k ∧ w = u ++ v ++ k) ↔
      ∃ ρ, (∀ i ∈ (Layout.node p q r).parts, Den (σ i) (ρ i)) ∧ (Layout.node p q r).Spells (l + 1) ρ w := by
  constructor
  · rintro ⟨u, v, k, h1, h2, h3, rfl⟩
    obtain ⟨ρ1, a1, b1⟩ := (hp.den u).1 h1
    obtain ⟨ρ2, a2, b2⟩ := (hq.den v).1 h2
    obtain ⟨ρ3, a3, b3⟩ := (hr.den k).1 h3
    rw [List.nodup_append, List.nodup_append] at hn
    obtain ⟨⟨_, _, d1⟩, _, d2⟩ := hn
    let ρ : Nat → Word := fun i => if i ∈ p.parts then ρ1 i else if i ∈ q.parts then ρ2 i else ρ3 i
    have e1 : ∀ i ∈ p.parts, ρ i = ρ1 i := fun i hi => by simp [ρ, hi]
    have e2 : ∀ i ∈ q.parts, ρ i = ρ2 i := fun i hi => by
      have : i ∉ p.parts := fun h => d1 i h i hi rfl
      simp [ρ, hi, this]
    have e3 : ∀ i ∈ r.parts, ρ i = ρ3 i := fun i hi => by
      have h1 : i ∉ p.parts := fun h => d2 i (by simp [h]) i hi rfl
      have h2 : i ∉ q.parts := fun h => d2 i (by simp [h]) i hi rfl
      simp [ρ, h1, h2]
    refine ⟨ρ, ?_, u, v, k, (Layout.spells_congr e1).2 b1, (Layout.spells_congr e2).2 b2, (Layout.spells_congr e3).2 b3, rfl⟩
    intro i hi
    simp only [Layout.parts, List.mem_append] at hi
    rcases hi with (hi | hi) | hi
    · rw [e1 i hi]; exact a1 i hi
    · rw [e2 i hi]; exact a2 i hi
    · rw [e3 i hi]; exact a3 i hi
  · rintro ⟨ρ, hd, u, v, k, h1, h2, h3, rfl⟩
    exact ⟨u, v, k, (hp.den u).2 ⟨ρ, fun i hi => hd i (by simp [Layout.parts, hi]), h1⟩,
      (hq.den v).2 ⟨ρ, fun i hi => hd i (by simp [Layout.parts, hi]), h2⟩,
      (hr.den k).2 ⟨ρ, fun i hi => hd i (by simp [Layout.parts, hi]), h3⟩, rfl⟩

/-- `m` of three scripts. -/
theorem made_three {P : List Nat} {p q r : Layout} {σ : Nat → Script} {l : Nat} {x y z : Script} (hP : Parts P σ)
    (hl : l ≤ 5) (hp : Made p σ l x) (hq : Made q σ l y) (hr : Made r σ l z)
    (hs : (p.parts ++ q.parts ++ r.parts).Subperm P) :
    ∃ t, mOp (some x) (some y) (some z) = .ok t ∧ Made (.node p q r) σ (l + 1) t := by
  have hn : (p.parts ++ q.parts ++ r.parts).Nodup := by
    obtain ⟨Q, h1, h2⟩ := hs
    exact h1.nodup_iff.1 (hP.nodup.sublist h2)
  have hc := hP.le hs
  have hcard : x.cardinal * y.cardinal * z.cardinal =
      ((p.parts ++ q.parts ++ r.parts).map fun i => (σ i).cardinal).prod := by
    rw [hp.card, hq.card, hr.card]; simp [Nat.mul_assoc]
  have h4 : y.layer = x.layer := by rw [hp.layer, hq.layer]
  have h5 : z.layer = x.layer := by rw [hp.layer, hr.layer]
  have hev := mkMult_eval hp.wf hq.wf hr.wf h4 h5
  rw [hcard, if_neg (by omega), if_pos (by rw [hp.layer]; exact hl)] at hev
  refine ⟨_, hev, ?_, ?_, ?_, ?_⟩
  · exact mkMult_wf (by
      intro c hc
      simp only [List.mem_cons, Option.some.injEq, List.not_mem_nil, or_false] at hc
      rcases hc with rfl | rfl | rfl
      · exact hp.wf
      · exact hq.wf
      · exact hr.wf) hev
  · rw [Script.layer, (role_wf hp.wf).2.2, hp.layer]
  · rw [cardinal_mult_role hp.wf hq.wf hr.wf h4 h5, hcard]; rfl
  · intro w
    rw [den_mult]
    simp only [den_role hp.wf, den_role hq.wf, den_role hr.wf]
    exact made_words hp hq hr hn w

/-- `m` of two scripts. -/
theorem made_two {P : List Nat} {p q : Layout} {σ : Nat → Script} {l : Nat} {x y : Script} (hP : Parts P σ)
    (hl : l ≤ 5) (hp : Made p σ l x) (hq : Made q σ l y) (hs : (p.parts ++ q.parts).Subperm P) :
    ∃ t, mOp (some x) (some y) = .ok t ∧ Made (.node p q .blank) σ (l + 1) t := by
  obtain ⟨t, h1, h2⟩ := made_three hP hl hp hq (made_blank (by omega)) (by simpa [Layout.parts] using hs)
  refine ⟨t, ?_, h2⟩
  rw [← h1, ← hp.layer]
  exact mkMult_pad (x := x) (xs := [y]) (tail := [none]) (.inr ⟨_, rfl⟩) (by simp)

/-- `m` of one script. -/
theorem made_one {P : List Nat} {p : Layout} {σ : Nat → Script} {l : Nat} {x : Script} (hP : Parts P σ)
    (hl : l ≤ 5) (hp : Made p σ l x) (hs : p.parts.Subperm P) :
    ∃ t, mOp (some x) = .ok t ∧ Made (.node p .blank .blank) σ (l + 1) t := by
  obtain ⟨t, h1, h2⟩ := made_three hP hl hp (made_blank (by omega)) (made_blank (by omega)) (by simpa [Layout.parts] using hs)
  refine ⟨t, ?_, h2⟩
  rw [← h1, ← hp.layer]
  exact mkMult_pad (x := x) (xs := []) (tail := [none, none]) (.inr ⟨_, rfl⟩) (by simp)

/-- A script laid out by products is made of its parts. -/
theorem made_of_matches : ∀ {p : Layout} {σ : Nat → Script} {s : Script}, p.Sound → p.parts.Nodup → WF s → p.Matches σ s →
    Made p σ s.layer s ∧ ∀ i ∈ p.parts, WF (σ i)
  | .part i, σ, s, _, _, hw, h => by
    have h : s = σ i := h
    subst h
    refine ⟨made_part hw rfl, ?_⟩
    intro j hj
    simp only [Layout.parts, List.mem_singleton] at hj
    rw [hj]; exact hw
  | .blank, σ, s, _, _, hw, h => by
    obtain ⟨l, rfl⟩ := h
    exact ⟨made_blank (wf_layer hw), by simp [Layout.parts]⟩
  | .fixed c, σ, s, hs, _, hw, h => ⟨made_fixed hs.1 hs.2 hw h, by simp [Layout.parts]⟩
  | .node p q r, σ, s, hs, hn, hw, h => by
    obtain ⟨x, y, z, rfl, h1, h2, h3⟩ := h
    have hn' := hn
    simp only [Layout.parts] at hn
    rw [List.nodup_append, List.nodup_append] at hn
    cases hw with
    | mult w1 w2 w3 l1 l2 l3 r1 r2 r3 hc =>
      have hw' := WF.mult w1 w2 w3 l1 l2 l3 r1 r2 r3 hc
      obtain ⟨m1, g1⟩ := made_of_matches hs.1 hn.1.1 w1 h1
      obtain ⟨m2, g2⟩ := made_of_matches hs.2.1 hn.1.2.1 w2 h2
      obtain ⟨m3, g3⟩ := made_of_matches hs.2.2 hn.2.1 w3 h3
      rw [l1] at m2
      rw [l2] at m3
      refine ⟨⟨hw', rfl, ?_, ?_⟩, ?_⟩
      · rw [cardinal_mult hw', m1.card, m2.card, m3.card]; simp [Layout.parts, Nat.mul_assoc]
      · intro w
        rw [den_mult]
        exact made_words m1 m2 m3 hn' w
      · intro i hi
        simp only [Layout.parts, List.mem_append] at hi
        rcases hi with (hi | hi) | hi
        · exact g1 i hi
        · exact g2 i hi
        · exact g3 i hi

/-- The parts of a script laid out by products. -/
theorem parts_of_matches {p : Layout} {σ : Nat → Script} {s : Script} (hs : p.Sound) (hn : p.parts.Nodup) (hw : WF s)
    (h : p.Matches σ s) : Made p σ s.layer s ∧ Parts p.parts σ := by
  obtain ⟨h1, h2⟩ := made_of_matches hs hn hw h
  exact ⟨h1, hn, h2, by rw [← h1.card]; exact wf_cardinal hw⟩

/-- From one layout to another one. -/
theorem made_moves {r : Move} {σ : Nat → Script} {l l' : Nat} {s t : Script} (h1 : r.src.Sound) (hp : r.src.parts.Perm r.dst.parts)
    (hw : ∀ i ∈ r.src.parts, WF (σ i)) (hs : Made r.src σ l s) (ht : Made r.dst σ l' t) :
    t.cardinal = s.cardinal ∧ ∀ w', Den t w' ↔ ∃ w, Den s w ∧ r.Moves l l' w w' := by
  refine ⟨by rw [hs.card, ht.card, (hp.map _).prod_eq], fun w' => ?_⟩
  rw [ht.den]
  constructor
  · rintro ⟨ρ, a, b⟩
    obtain ⟨w0, hw0⟩ := den_exists hs.wf
    obtain ⟨ρ0, a0, b0⟩ := (hs.den w0).1 hw0
    obtain ⟨w, hsp⟩ := Layout.spells_replace b0 (ρ' := ρ) fun i hi => by
      rw [den_length (hw i hi) (a i (hp.mem_iff.1 hi)), den_length (hw i hi) (a0 i hi)]
    exact ⟨w, (hs.den w).2 ⟨ρ, fun i hi => a i (hp.mem_iff.1 hi), hsp⟩, ρ, hsp, b⟩
  · rintro ⟨w, hd, ρ, a, b⟩
    obtain ⟨ρ', a', b'⟩ := (hs.den w).1 hd
    have := Layout.spells_parts h1 a b'
    exact ⟨ρ, fun i hi => by rw [this i (hp.mem_iff.2 hi)]; exact a' i (hp.mem_iff.2 hi), b⟩

/-- A rule whose layouts have the same parts is one-to-one on words. -/
theorem moves_one_to_one {r : Move} {l l' : Nat} (h1 : r.src.Sound) (h2 : r.dst.Sound) (hp : r.src.parts.Perm r.dst.parts)
    {u v u' v' : Word} (hu : r.Moves l l' u u') (hv : r.Moves l l' v v') : u = v ↔ u' = v' := by
  obtain ⟨ρ, a, b⟩ := hu
  obtain ⟨τ, c, d⟩ := hv
  constructor
  · rintro rfl
    have := Layout.spells_parts h1 a c
    exact Layout.spells_word h2 b ((Layout.spells_congr fun i hi => this i (hp.mem_iff.2 hi)).2 d)
  · rintro rfl
    have := Layout.spells_parts h2 b d
    exact Layout.spells_word h1 a ((Layout.spells_congr fun i hi => this i (hp.mem_iff.1 hi)).2 c)

end Verif
