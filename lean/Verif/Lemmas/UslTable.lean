import Verif.Lemmas.Assemble
import Verif.Lemmas.Membership

/-
Lemmas on the tables of polymorphemes by the paths of their groups.
-/

namespace Verif
open Script

/-! ### Sequences -/

/-- Polymorphemes without groups that gather morphemes with the same texts have the same text. -/
theorem gathers_same {l l' : List Script} {m m' : PM} (hm : OkPM m) (hm' : OkPM m') (h : Gathers l m) (h' : Gathers l' m')
    (hl : ∀ t, (∃ x, Meant l x ∧ x.str = t) ↔ ∃ x, Meant l' x ∧ x.str = t) : SamePM m m' := by
  have nodups : ∀ {m : PM}, OkPM m → (m.constant.Pairwise (fun x y => x.str ≠ y.str) ↔ ((m.constant.filter fun x => x.empty = false).map str).Nodup) := by
    intro m hm
    rw [List.Nodup, List.pairwise_map]
    rcases hm.constant with ⟨k, _⟩ | ⟨k, _⟩
    · rw [← k]
    · rw [k]; simp [Script.empty]
  have meant : ∀ {m : PM} (t), (∃ x, Meant m.constant x ∧ x.str = t) ↔ t ∈ (m.constant.filter fun x => x.empty = false).map str := by
    intro m t
    simp [Meant]
  have shown : ∀ d : List Script, ((mkPM d []).constant.filter fun x => x.empty = false).Perm (d.filter fun x => x.empty = false) := by
    intro d
    rcases (C41_contents d []).1 with hp | ⟨hp, he⟩
    · have := hp.filter fun x => decide (x.empty = false)
      rwa [List.filter_filter, show (fun a : Script => decide (a.empty = false) && decide (a.empty = false)) = fun a => decide (a.empty = false) by
        funext a; simp] at this
    · rw [hp, show (d.filter fun x => decide (x.empty = false)) = [] by
        rw [List.filter_eq_nil_iff]; intro x hx; simp [he x hx]]
      simp [Script.empty]
  have single : ∀ {c : List Script} {g : List Group}, (mkPM c g).groups = [] → g = [] := by
    intro c g h
    simp only [mkPM] at h
    have := congrArg List.length h
    rw [length_pySort, List.length_map] at this
    exact List.length_eq_zero_iff.1 this
  have n1 := (nodups hm).1 h.nodup
  have n2 := (nodups hm').1 h'.nodup
  have e1 := h.mem
  have e2 := h'.mem
  have g1 := h.groups
  have g2 := h'.groups
  obtain ⟨c, g, rfl, hcm, _⟩ := hm
  obtain ⟨c', g', rfl, hcm', _⟩ := hm'
  obtain rfl := single g1
  obtain rfl := single g2
  refine C41_normal_form_partial (fun x hx => ?_) (by simp) ?_ ⟨[], .nil, .nil⟩
  · rcases List.mem_append.1 hx with hx | hx
    · exact hcm x hx
    · exact hcm' x hx
  · refine ((shown c).symm.map str).trans (List.Perm.trans ?_ ((shown c').map str))
    rw [List.perm_ext_iff_of_nodup n1 n2]
    intro t
    rw [← meant, ← meant, e1, e2, hl]

/-- The texts of the non-empty morphemes of a list. -/
theorem meant_texts {l l' : List Script} (hw : ∀ x ∈ l, WF x) (hw' : ∀ x ∈ l', WF x) (h : l.map str = l'.map str) (t : Str) :
    (∃ x, Meant l x ∧ x.str = t) ↔ ∃ x, Meant l' x ∧ x.str = t := by
  have one : ∀ {l l' : List Script}, (∀ x ∈ l, WF x) → (∀ x ∈ l', WF x) → l.map str = l'.map str → (∃ x, Meant l x ∧ x.str = t) → ∃ x, Meant l' x ∧ x.str = t := by
    rintro l l' hw hw' h ⟨x, ⟨hx, he⟩, rfl⟩
    have : x.str ∈ l'.map str := h ▸ List.mem_map_of_mem hx
    obtain ⟨y, hy, e⟩ := List.mem_map.1 this
    exact ⟨y, ⟨hy, (empty_of_str (hw' y hy) (hw x hx) e).trans he⟩, e⟩
  exact ⟨one hw hw' h, one hw' hw h.symm⟩

theorem okPM_wf {p : PM} (h : OkPM p) : (∀ x ∈ p.constant, WF x) ∧ ∀ g ∈ p.groups, ∀ x ∈ g.1, WF x :=
  ⟨fun x hx => built_wf ((okPM_orderly h).1 x hx).1, fun g hg x hx => built_wf ((okPM_orderly h).2 g hg x hx).1⟩

/-- Lists that are the same up to order and `f`. -/
theorem perm_lift {α β : Type} {f : α → β} : ∀ {l : List β} {k : List α}, l.Perm (k.map f) → ∃ k' : List α, k'.Perm k ∧ k'.map f = l
  | [], k, h => by
    have := List.map_eq_nil_iff.1 h.symm.eq_nil
    subst this
    exact ⟨[], .nil, rfl⟩
  | a :: l, k, h => by
    obtain ⟨x, hx, rfl⟩ := List.mem_map.1 (h.mem_iff.1 (List.mem_cons_self (a := a)))
    obtain ⟨s, t, rfl⟩ := List.append_of_mem hx
    have h1 : (s ++ x :: t).Perm (x :: (s ++ t)) := List.perm_middle
    have h2 := (h.trans (h1.map f)).cons_inv
    obtain ⟨k', hk, e⟩ := perm_lift h2
    exact ⟨x :: k', (hk.cons x).trans h1.symm, by rw [List.map_cons, e]⟩

theorem forall₂_of_map {α β : Type} {f : α → β} : ∀ {l k : List α}, l.map f = k.map f → List.Forall₂ (fun a b => f a = f b) l k
  | [], [], _ => .nil
  | [], _ :: _, h => by cases h
  | _ :: _, [], h => by cases h
  | a :: l, b :: k, h => by
    rw [List.map_cons, List.map_cons, List.cons.injEq] at h
    exact .cons h.1 (forall₂_of_map h.2)

/-- The same polymorpheme has the same sequences, in another order. -/
theorem same_sequences {p q : PM} (hp : OkPM p) (hq : OkPM q) (h : SamePM p q) {L : List PM} (hL : p.singularSequences = .ok L) :
    ∃ M, q.singularSequences = .ok M ∧ ∃ M', M'.Perm M ∧ List.Forall₂ SamePM L M' := by
  obtain ⟨M, hM⟩ := pm_total q
  refine ⟨M, hM, ?_⟩
  -- one inclusion
  have one : ∀ {p q : PM}, OkPM p → OkPM q → SamePM p q → ∀ {L M}, p.singularSequences = .ok L → q.singularSequences = .ok M →
      (L.map PM.text).Nodup ∧ ∀ m ∈ L, ∃ m' ∈ M, SamePM m m' := by
    intro p q hp hq h L M hL hM
    by_cases hg : p.groups = []
    · have hg' : q.groups = [] := by
        have := congrArg List.length h.groups
        rw [hg] at this
        simp only [List.map_nil, List.length_nil, List.length_map] at this
        exact List.length_eq_zero_iff.1 this.symm
      rw [pm_single hg, Except.ok.injEq] at hL
      rw [pm_single hg', Except.ok.injEq] at hM
      subst hL hM
      exact ⟨by simp, by simpa using h⟩
    · have hml := minLen_spec hg
      obtain ⟨c, g, rfl, hc, hg'⟩ := id hp
      obtain ⟨c', g', rfl, hc', hg''⟩ := id hq
      obtain ⟨L', l1, l2, l3, _⟩ := (C43_sequences_partial (fun x hx => (hc x hx).1) fun g h x hx => (hg' g h x hx).1).2 _ hml
      rw [hL, Except.ok.injEq] at l1
      subst l1
      have hlen : ∀ {a b : List Group} {n : Nat}, a.map (fun g => (g.1.map str, g.2)) = b.map (fun g => (g.1.map str, g.2)) → SmallestSize a n → SmallestSize b n := by
        intro a b n hab hs
        have key : ∀ (x : List Group), SmallestSize x n ↔ (∃ y ∈ x.map (fun g => (g.1.map str, g.2)), y.1.length = n) ∧ ∀ y ∈ x.map (fun g => (g.1.map str, g.2)), n ≤ y.1.length := by
          intro x
          simp only [SmallestSize, List.mem_map, exists_exists_and_eq_and, forall_exists_index, and_imp, forall_apply_eq_imp_iff₂, List.length_map]
        rw [key] at hs ⊢
        rwa [← hab]
      obtain ⟨M', m1, _, _, m4⟩ := (C43_sequences_partial (fun x hx => (hc' x hx).1) fun g h x hx => (hg'' g h x hx).1).2 _ (hlen h.groups hml)
      rw [hM, Except.ok.injEq] at m1
      subst m1
      refine ⟨by rw [List.Nodup, List.pairwise_map]; exact l2, fun m hm => ?_⟩
      obtain ⟨n, sels, hs, hd, hga⟩ := l3 m hm
      -- the same selection in the other polymorpheme
      have htake : ∀ {a b : List Group} {sels : List (List Script)} {ml : Nat}, a.map (fun g => (g.1.map str, g.2)) = b.map (fun g => (g.1.map str, g.2)) →
          List.Forall₂ (Takes ml n) sels a → ∃ sels', List.Forall₂ (Takes ml n) sels' b ∧ sels'.flatten.map str = sels.flatten.map str := by
        intro a b sels ml hab ht
        induction ht generalizing b with
        | nil =>
          cases b with
          | nil => exact ⟨[], .nil, rfl⟩
          | cons _ _ => cases hab
        | @cons sel g sels a ht _ ih =>
          cases b with
          | nil => cases hab
          | cons g' b =>
            simp only [List.map_cons, List.cons.injEq, Prod.mk.injEq] at hab
            obtain ⟨⟨e1, e2⟩, e3⟩ := hab
            obtain ⟨sels', k1, k2⟩ := ih e3
            obtain ⟨sel', k3, k4⟩ := List.sublist_map_iff.1 (e1 ▸ ht.sub.map str)
            have hl : sel'.length = sel.length := by
              have := congrArg List.length k4
              simpa using this.symm
            refine ⟨sel' :: sels', .cons ⟨k3, by rw [hl, ← e2]; exact ht.size⟩ k1, ?_⟩
            rw [List.flatten_cons, List.flatten_cons, List.map_append, List.map_append, k2, k4]
      obtain ⟨sels', k1, k2⟩ := htake h.groups hs.takes
      have etx : (sels'.flatten ++ (mkPM c' g').constant).map str = (sels.flatten ++ (mkPM c g).constant).map str := by
        rw [List.map_append, List.map_append, k2, h.constant]
      have hs' : Selection (mkPM c' g').groups (minLen (mkPM c g).groups) n sels' := by
        refine ⟨hs.small, fun y hy => ?_, k1⟩
        have : (y.1.map str, y.2) ∈ (mkPM c g).groups.map (fun g => (g.1.map str, g.2)) := by
          rw [h.groups]
          exact List.mem_map_of_mem (f := fun g : Group => (g.1.map str, g.2)) hy
        obtain ⟨z, hz, e⟩ := List.mem_map.1 this
        rw [← (Prod.mk.inj e).2]
        exact hs.mult z hz
      obtain ⟨m', hm', hga'⟩ := m4 n sels' hs' (by unfold distinct at hd ⊢; rw [etx]; exact hd)
      refine ⟨m', hm', gathers_same ((pm_sequence hL hm).2 hp) ((pm_sequence hM hm').2 hq) hga hga' (meant_texts ?_ ?_ etx.symm)⟩
      · intro x hx
        rcases List.mem_append.1 hx with hx | hx
        · obtain ⟨l, hl, hx⟩ := List.mem_flatten.1 hx
          obtain ⟨y, hy, ht⟩ := forall₂_mem_left hs.takes hl
          exact (okPM_wf hp).2 y hy x (ht.sub.subset hx)
        · exact (okPM_wf hp).1 x hx
      · intro x hx
        rcases List.mem_append.1 hx with hx | hx
        · obtain ⟨l, hl, hx⟩ := List.mem_flatten.1 hx
          obtain ⟨y, hy, ht⟩ := forall₂_mem_left hs'.takes hl
          exact (okPM_wf hq).2 y hy x (ht.sub.subset hx)
        · exact (okPM_wf hq).1 x hx
  obtain ⟨n1, s1⟩ := one hp hq h hL hM
  obtain ⟨n2, s2⟩ := one hq hp ⟨h.text.symm, h.constant.symm, h.groups.symm⟩ hM hL
  have hperm : (L.map PM.text).Perm (M.map PM.text) := by
    rw [List.perm_ext_iff_of_nodup n1 n2]
    intro t
    simp only [List.mem_map]
    constructor
    · rintro ⟨m, hm, rfl⟩
      obtain ⟨m', hm', e⟩ := s1 m hm
      exact ⟨m', hm', e.text.symm⟩
    · rintro ⟨m, hm, rfl⟩
      obtain ⟨m', hm', e⟩ := s2 m hm
      exact ⟨m', hm', e.text.symm⟩
  obtain ⟨M', hM', e⟩ := perm_lift hperm
  refine ⟨M', hM', ?_⟩
  have hf : List.Forall₂ (fun a b : PM => a.text = b.text) L M' := by
    exact forall₂_of_map e.symm
  have hM'' : ∀ m ∈ M', m ∈ M := fun m hm => hM'.mem_iff.1 hm
  have hl : ∀ m ∈ L, m ∈ L := fun _ h => h
  clear hperm e hM'
  suffices ∀ (L0 : List PM), (∀ m ∈ L0, m ∈ L) → ∀ M', (∀ m ∈ M', m ∈ M) → List.Forall₂ (fun a b : PM => a.text = b.text) L0 M' → List.Forall₂ SamePM L0 M' from
    this L hl M' hM'' hf
  intro L0 h0 M0 h1 hf
  induction hf with
  | nil => exact .nil
  | @cons a b L0 M0 hab _ ih =>
    refine .cons ?_ (ih (fun m hm => h0 m (List.mem_cons_of_mem _ hm)) fun m hm => h1 m (List.mem_cons_of_mem _ hm))
    obtain ⟨m', hm', e⟩ := s1 a (h0 a (by simp))
    have hb := h1 b (by simp)
    have : m' = b := by
      have hnd := n2
      exact List.inj_on_of_nodup_map hnd hm' hb (e.text.symm.trans hab)
    exact this ▸ e

/-- The morphemes of a sequence. -/
theorem seq_constant {p : PM} {L : List PM} (h : p.singularSequences = .ok L) {m : PM} (hm : m ∈ L) {x : Script} (hx : x ∈ m.constant) :
    x = .null 0 ∨ x ∈ p.constant ∨ ∃ g ∈ p.groups, x ∈ g.1 := by
  by_cases hg : p.groups = []
  · rw [pm_single hg, Except.ok.injEq] at h
    subst h
    rw [List.mem_singleton] at hm
    subst hm
    exact .inr (.inl hx)
  · rw [PM.singularSequences, if_neg (by simpa using hg)] at h
    obtain ⟨L', h', _, h3, _⟩ := pmSequences_spec p.constant p.groups
    rw [h', Except.ok.injEq] at h
    subst h
    obtain ⟨sel, hs, _, rfl⟩ := h3 m hm
    rw [seqOf] at hx
    rcases mkPM_constant (dedupBy str (sel.flatten ++ p.constant)) with ⟨k, _⟩ | ⟨k, _⟩
    · rw [k] at hx
      exact .inl (by simpa using hx)
    · rw [k, mem_pySort, mem_filterEmpty] at hx
      rcases List.mem_append.1 (mem_dedupBy (key := str) hx.1) with hx | hx
      · obtain ⟨l, hl, hx⟩ := List.mem_flatten.1 hx
        obtain ⟨q, sels, hsel, hp⟩ := (mem_groupCombinations hg (minLen_spec hg)).1 sel hs
        obtain ⟨g, hg', ht⟩ := forall₂_mem_left hsel.takes (hp.mem_iff.1 hl)
        exact .inr (.inr ⟨g, hg', ht.sub.subset hx⟩)
      · exact .inr (.inl hx)

end Verif
