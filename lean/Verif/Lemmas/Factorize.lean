import Verif.Lemmas.FactorTotal
import Verif.Lemmas.Promote
import Verif.Lemmas.ParserErr

/-
`factorize` on scripts and on lists of scripts.
-/

namespace Verif
open Script

theorem sing_of_plain {x : Script} {l : Nat} (hw : WF x) (hc : x.cardinal = 1) (hl : x.layer = l) (hp : Plain x) : Sing l x := by
  refine ⟨hw, hc, hl, ?_⟩
  cases x with
  | add cs =>
    obtain ⟨c, rfl, _⟩ := cardinal_one_add hw hc
    exact absurd rfl (hp c)
  | _ => rfl

/-- The singular sequences of a script are the script itself, or singular scripts without sum. -/
theorem enum_sing {s : Script} {L : List Script} (e : Enum s L) (hw : WF s) : L = [s] ∧ s.cardinal = 1 ∨ ∀ x ∈ L, Sing s.layer x := by
  by_cases hp : Plain s
  · right
    exact fun x hx => sing_of_plain (e.wf x hx) (e.one x hx) (e.layer x hx) (e.plain hp x hx)
  · obtain ⟨c, rfl⟩ : ∃ c, s = add [c] := by
      by_contra h
      exact hp fun c hc => h ⟨c, hc⟩
    cases hpar : (add [c]).paradigm with
    | false =>
      left
      have := e.run
      rw [singularSequences, hpar] at this
      simp only [Bool.not_false, if_true, Except.ok.injEq] at this
      exact ⟨this.symm, (paradigm_false_iff hw).1 hpar⟩
    | true =>
      right
      cases hw with
      | add h1 h2 h3 h4 h5 h6 h7 =>
        have hc : WF c := h2 c (by simp)
        obtain ⟨M, f⟩ := enum_exists hc
        have hpc : Plain c := by
          intro d hd
          have := h4 c (by simp)
          rw [hd] at this
          cases this
        have := e.run
        rw [singularSequences, hpar, singularSequencesL, singularSequencesL, f.run] at this
        simp only [Bool.not_true, Bool.false_eq_true, if_false, bind, Except.bind, pure, Except.pure, Except.ok.injEq,
          List.append_nil] at this
        intro x hx
        rw [← this, mem_pySort] at hx
        refine sing_of_plain (f.wf x hx) (f.one x hx) ?_ (f.plain hpc x hx)
        rw [f.layer x hx]
        exact h3 c (by simp)

theorem enum_words {s : Script} {L : List Script} (e : Enum s L) (h : ∀ x ∈ L, Sing s.layer x) (w : Word) : Den s w ↔ w ∈ wordSet L := by
  rw [e.den, mem_wordSet]
  constructor
  · rintro ⟨x, hx, hw⟩
    exact ⟨x, hx, ((den_sing (h x hx) w).1 hw).symm⟩
  · rintro ⟨x, hx, rfl⟩
    exact ⟨x, hx, den_lettersOf (h x hx)⟩

theorem wordSet_le (L : List Script) : (wordSet L).card ≤ L.length := by
  rw [wordSet]
  exact Nat.le_trans (List.toFinset_card_le _) (by rw [List.length_map])

/-- The words of layer 0 are six. -/
theorem layer0_few {S : List Script} (h : ∀ x ∈ S, Sing 0 x) : ((dedupBy str S).map cardinal).sum ≤ 360 := by
  have h1 : (dedupBy str S).map cardinal = List.replicate (dedupBy str S).length 1 := by
    rw [List.eq_replicate_iff]
    refine ⟨by simp, ?_⟩
    intro b hb
    obtain ⟨x, hx, rfl⟩ := List.mem_map.1 hb
    exact (h x (mem_dedupBy str hx)).2.1
  rw [h1]
  have hsum : (List.replicate (dedupBy str S).length 1).sum = (dedupBy str S).length := by simp
  rw [hsum]
  have h2 : ((dedupBy str S).map str).Nodup := by
    rw [List.Nodup, List.pairwise_map]
    exact dedupBy_pairwise str S
  have h3 : ((dedupBy str S).map str) ⊆ (null 0).str :: Prim.all.map fun p => (prim p).str := by
    intro t ht
    obtain ⟨x, hx, rfl⟩ := List.mem_map.1 ht
    have hs := h x (mem_dedupBy str hx)
    rcases layer0_cases hs.2.2.1 hs.2.2.2 with rfl | ⟨p, rfl⟩
    · simp
    · refine List.mem_cons_of_mem _ (List.mem_map_of_mem ?_)
      cases p <;> decide
  have := (h2.subperm h3).length_le
  rw [List.length_map] at this
  have h6 : ((null 0).str :: Prim.all.map fun p => (prim p).str).length = 6 := by decide
  omega

theorem factor_packed_all {S : List Script} : packAll (S.map .script) = .ok S := by
  induction S with
  | nil => rfl
  | cons x S ih => rw [List.map_cons, packAll, ih]; rfl

/-- `pack_factorisation(factor(seqs))` on singular sequences of one layer: it returns a script with exactly their words, or
raises `KeyError`. -/
theorem factorSequences_spec {ord : List Script → List Script} (ho : FactorOrder ord) {l : Nat} {S : List Script} (hne : S ≠ [])
    (hS : ∀ x ∈ S, Sing l x) (hc : (wordSet S).card ≤ 360) :
    (∀ t, factorSequences ord S = .ok t → WF t ∧ t.layer = l ∧ (∀ w, Den t w ↔ w ∈ wordSet S) ∧ t.cardinal = (wordSet S).card ∧
      (l ≠ 0 ∨ S.Pairwise (fun a b => a.str ≠ b.str) → Plain t)) ∧
    ((∃ t, factorSequences ord S = .ok t) ∨ factorSequences ord S = .error .keyError) ∧
    (Factorable l (InWords S) → ∃ t, factorSequences ord S = .ok t) := by
  have hE : factorSequences ord S = factor ord l S >>= packFactorisation := by
    cases S with
    | nil => exact absurd rfl hne
    | cons x S => rw [factorSequences, (hS x (by simp)).2.2.1]
  have key : ∀ fs, factor ord l S = .ok fs → ∃ t, packFactorisation fs = .ok t ∧ WF t ∧ t.layer = l ∧
      (∀ w, Den t w ↔ w ∈ wordSet S) ∧ t.cardinal = (wordSet S).card ∧ (l ≠ 0 ∨ S.Pairwise (fun a b => a.str ≠ b.str) → Plain t) := by
    intro fs hfs
    cases l with
    | succ l =>
      obtain ⟨ts, h1, h2⟩ := factor_packed ho (l + 1) S fs hne hS (fun h => by omega) hc hfs
      obtain ⟨t, h3, h4, h5, h6, h7, h8⟩ := h2.sum hc
      exact ⟨t, by rw [packFactorisation, h1]; exact h3, h4, h6, h7, h8, fun _ => h5⟩
    | zero =>
      rw [factor_zero hne fun x hx => (hS x hx).2.2.1, Except.ok.injEq] at hfs
      subst hfs
      obtain ⟨t, h3, h4, h5, h6, h7, h8⟩ := packSum_flat hne (fun x hx => ⟨(hS x hx).1, (hS x hx).2.2.2, (hS x hx).2.2.1⟩) (layer0_few hS)
      have hd : wordSet (dedupBy str S) = wordSet S := by
        ext w
        rw [mem_wordSet, mem_wordSet]
        constructor
        · rintro ⟨x, hx, rfl⟩; exact ⟨x, mem_dedupBy str hx, rfl⟩
        · rintro ⟨x, hx, rfl⟩
          obtain ⟨y, hy, he⟩ := dedupBy_complete str hx
          exact ⟨y, hy, (str_sing (hS y (mem_dedupBy str hy)) (hS x hx)).1 he⟩
      have hcard : ((dedupBy str S).map cardinal).sum = (wordSet S).card := by
        obtain ⟨ts, g1, g2⟩ := factor_packed ho 0 (dedupBy str S) _ (dedupBy_ne_nil str hne)
          (fun x hx => hS x (mem_dedupBy str hx)) (fun _ => dedupBy_pairwise str S) (by rw [hd]; exact hc)
          (factor_zero (dedupBy_ne_nil str hne) fun x hx => (hS x (mem_dedupBy str hx)).2.2.1)
        rw [factor_packed_all, Except.ok.injEq] at g1
        rw [← hd, ← g2.card, ← g1]
      refine ⟨t, by rw [packFactorisation, factor_packed_all]; exact h3, h4, h5, ?_, by rw [h7, hcard], ?_⟩
      · intro w
        rw [h6, mem_wordSet]
        constructor
        · rintro ⟨x, hx, hw⟩; exact ⟨x, hx, ((den_sing (hS x hx) w).1 hw).symm⟩
        · rintro ⟨x, hx, rfl⟩; exact ⟨x, hx, den_lettersOf (hS x hx)⟩
      · rintro (h | h)
        · exact absurd rfl h
        · exact h8 h
  refine ⟨?_, ?_, ?_⟩
  · intro t ht
    rw [hE, bind_ok] at ht
    obtain ⟨fs, h1, h2⟩ := ht
    obtain ⟨t', h3, h4⟩ := key fs h1
    rw [h2, Except.ok.injEq] at h3
    rw [h3]
    exact h4
  · rw [hE]
    rcases factor_only ho l S hne hS with ⟨fs, h⟩ | h
    · obtain ⟨t, h1, _⟩ := key fs h
      left
      exact ⟨t, by rw [h]; exact h1⟩
    · right
      rw [h]; rfl
  · intro hf
    obtain ⟨fs, h⟩ := factor_factorable ho l S hne hS hf
    obtain ⟨t, h1, _⟩ := key fs h
    rw [hE, h]
    exact ⟨t, h1⟩

/-- A list of one script is factorised to this script. -/
theorem factorSequences_one (ord : List Script → List Script) (x : Script) : factorSequences ord [x] = .ok x := by
  rw [factorSequences]
  cases hl : x.layer with
  | zero =>
    rw [factor_zero (by simp) (by simpa using hl)]
    rfl
  | succ l =>
    rw [factor, factorLoop_one hl]
    rfl

theorem factorize_eq {ord : List Script → List Script} {s : Script} {L : List Script} (e : Enum s L) :
    factorize ord s = factorSequences ord L := by
  rw [factorize, e.run]; rfl

/-- Everything about `factorize` on a script. -/
theorem factorize_spec {ord : List Script → List Script} (ho : FactorOrder ord) {s : Script} (h : WF s) :
    (∀ t, factorize ord s = .ok t → WF t ∧ t.layer = s.layer ∧ (∀ w, Den t w ↔ Den s w) ∧
      ∃ W : Finset Word, (∀ w, w ∈ W ↔ Den s w) ∧ t.cardinal = W.card) ∧
    ((∃ t, factorize ord s = .ok t) ∨ factorize ord s = .error .keyError) ∧
    (Factorable s.layer (Den s) → ∃ t, factorize ord s = .ok t) := by
  obtain ⟨L, e⟩ := enum_exists h
  rw [factorize_eq e]
  rcases enum_sing e h with ⟨rfl, h1⟩ | hS
  · rw [factorSequences_one]
    refine ⟨?_, .inl ⟨s, rfl⟩, fun _ => ⟨s, rfl⟩⟩
    intro t ht
    cases ht
    obtain ⟨w, hw⟩ := den_exists h
    refine ⟨h, rfl, fun _ => .rfl, {w}, ?_, by simp [h1]⟩
    intro v
    rw [Finset.mem_singleton]
    exact ⟨fun hv => hv ▸ hw, fun hv => den_unique h h1 hv hw⟩
  · have hc : (wordSet L).card ≤ 360 := Nat.le_trans (wordSet_le L) (by rw [e.length]; exact wf_cardinal h)
    obtain ⟨a, b, c⟩ := factorSequences_spec ho (enum_ne_nil h e) hS hc
    have hD : InWords L = Den s := by
      funext w
      exact propext (enum_words e hS w).symm
    refine ⟨?_, b, fun hf => c (by rw [hD]; exact hf)⟩
    intro t ht
    obtain ⟨h1, h2, h3, h4, _⟩ := a t ht
    exact ⟨h1, h2, fun w => by rw [h3, enum_words e hS], wordSet L, fun w => (enum_words e hS w).symm, h4⟩

/-- A script whose cardinal is the number of its words lists every word once. -/
theorem enum_nodup_of_card {t : Script} (h : WF t) {M : List Script} (e : Enum t M) {W : Finset Word} (hW : ∀ w, w ∈ W ↔ Den t w)
    (hc : t.cardinal = W.card) : (M.map str).Nodup := by
  rcases enum_sing e h with ⟨rfl, _⟩ | hS
  · simp
  · have hWM : W = wordSet M := by
      ext w
      rw [hW, enum_words e hS]
    have hn : (M.map lettersOf).Nodup := by
      have h1 : (M.map lettersOf).toFinset.card = (M.map lettersOf).length := by
        rw [List.length_map, e.length, hc, hWM]; rfl
      exact Multiset.toFinset_card_eq_card_iff_nodup.1 h1
    rw [List.Nodup, List.pairwise_map] at hn ⊢
    exact hn.imp_of_mem fun {a b} ha hb hab he => hab ((str_sing (hS a ha) (hS b hb)).1 he)

/-- The singular sequences of a list of scripts that are not one-term sums. -/
theorem enum_list : ∀ {ss : List Script}, (∀ s ∈ ss, WF s ∧ Plain s) → ∃ L, singularSequencesL ss = .ok L ∧
    L.length = (ss.map cardinal).sum ∧ (∀ x ∈ L, ∃ s ∈ ss, Sing s.layer x ∧ Den s (lettersOf x)) ∧
    ∀ s ∈ ss, ∀ w, Den s w → ∃ x ∈ L, x.layer = s.layer ∧ lettersOf x = w
  | [], _ => ⟨[], rfl, rfl, by simp, by simp⟩
  | s :: ss, h => by
    obtain ⟨hw, hp⟩ := h s (by simp)
    obtain ⟨A, e⟩ := enum_exists hw
    obtain ⟨B, h1, h2, h3, h4⟩ := enum_list fun t ht => h t (List.mem_cons_of_mem _ ht)
    have hA : ∀ x ∈ A, Sing s.layer x := fun x hx => sing_of_plain (e.wf x hx) (e.one x hx) (e.layer x hx) (e.plain hp x hx)
    refine ⟨A ++ B, by rw [singularSequencesL, e.run, h1]; rfl, by simp [h2, e.length], ?_, ?_⟩
    · intro x hx
      rcases List.mem_append.1 hx with hx | hx
      · exact ⟨s, by simp, hA x hx, (e.den _).2 ⟨x, hx, den_lettersOf (hA x hx)⟩⟩
      · obtain ⟨t, ht, h5⟩ := h3 x hx
        exact ⟨t, List.mem_cons_of_mem _ ht, h5⟩
    · intro t ht w hd
      rcases List.mem_cons.1 ht with rfl | ht
      · obtain ⟨x, hx, hxw⟩ := (e.den w).1 hd
        exact ⟨x, List.mem_append_left _ hx, e.layer x hx, ((den_sing (hA x hx) w).1 hxw).symm⟩
      · obtain ⟨x, hx, h5⟩ := h4 t ht w hd
        exact ⟨x, List.mem_append_right _ hx, h5⟩

/-- Promotion of a singular sequence. -/
theorem promote_sing {x : Script} {k l : Nat} (h : Sing k x) (hk : k ≤ l) (hl : l ≤ 6) :
    ∃ t, promote x l = .ok t ∧ Sing l t ∧ lettersOf t = lettersOf x ++ List.replicate (3 ^ l - 3 ^ k) none := by
  obtain ⟨h1, h2, h3, h4⟩ := h
  obtain ⟨t, a1, a2, a3, a4, a5, a6, a7⟩ := (promoteBy_spec (l - x.layer) h1).1 (by omega)
  have he : x.layer + (l - x.layer) = l := by omega
  have hs : Sing l t := by
    refine ⟨a2, by rw [a4, h2], by rw [a3, he], ?_⟩
    by_cases hn : l - x.layer = 0
    · rw [a5 hn, h4]
    · exact a6 hn
  refine ⟨t, a1, hs, ?_⟩
  rw [he, h3] at a7
  exact ((den_sing hs _).1 ((a7 _).2 ⟨_, den_lettersOf (l := k) ⟨h1, h2, h3, h4⟩, rfl⟩)).symm

/-- Everything about `factorize` on a list of scripts. -/
theorem factorizeList_spec {ord : List Script → List Script} (ho : FactorOrder ord) {ss : List Script} (hne : ss ≠ [])
    (h : ∀ s ∈ ss, WF s ∧ Plain s) (hc : (ss.map cardinal).sum ≤ 360) :
    ((∃ t, factorizeList ord ss = .ok t) ∨ factorizeList ord ss = .error .keyError) ∧
    ∀ t, factorizeList ord ss = .ok t → WF t ∧ (∃ s ∈ ss, s.layer = t.layer) ∧ (∀ s ∈ ss, s.layer ≤ t.layer) ∧
      ∀ w, Den t w ↔ ∃ s ∈ ss, ∃ u, Den s u ∧ w = u ++ List.replicate (3 ^ t.layer - 3 ^ s.layer) none := by
  obtain ⟨L, hL, hlen, hin, hout⟩ := enum_list h
  have hlay : ∀ s ∈ ss, ∃ x ∈ L, x.layer = s.layer := by
    intro s hs
    obtain ⟨w, hw⟩ := den_exists (h s hs).1
    obtain ⟨x, hx, he, _⟩ := hout s hs w hw
    exact ⟨x, hx, he⟩
  cases L with
  | nil =>
    cases ss with
    | nil => exact absurd rfl hne
    | cons s ss =>
      obtain ⟨x, hx, _⟩ := hlay s (by simp)
      cases hx
  | cons y L =>
    obtain ⟨_, hmax⟩ := foldl_max_le ((y :: L).map layer) 0
    generalize hl : ((y :: L).map layer).foldl max 0 = l at hmax
    have hle : ∀ x ∈ y :: L, x.layer ≤ l := fun x hx => hmax _ (List.mem_map.2 ⟨x, hx, rfl⟩)
    have hmem : ∃ x ∈ y :: L, x.layer = l := by
      rcases foldl_max_mem ((y :: L).map layer) 0 with h | h
      · exact ⟨y, by simp, by have := hle y (by simp); omega⟩
      · obtain ⟨x, hx, he⟩ := List.mem_map.1 h
        exact ⟨x, hx, by rw [he, hl]⟩
    have hmem' : ∃ s ∈ ss, s.layer = l := by
      obtain ⟨x, hx, he⟩ := hmem
      obtain ⟨s, hs, h5, _⟩ := hin x hx
      exact ⟨s, hs, by rw [← he, h5.2.2.1]⟩
    have hl6 : l ≤ 6 := by
      obtain ⟨s, hs, rfl⟩ := hmem'
      exact wf_layer (h s hs).1
    have hle' : ∀ s ∈ ss, s.layer ≤ l := by
      intro s hs
      obtain ⟨x, hx, he⟩ := hlay s hs
      rw [← he]; exact hle x hx
    have hpr : ∀ x ∈ y :: L, ∃ t, promote x l = .ok t ∧ Sing l t ∧ ∃ s ∈ ss, x.layer = s.layer ∧ Den s (lettersOf x) ∧
        lettersOf t = lettersOf x ++ List.replicate (3 ^ l - 3 ^ s.layer) none := by
      intro x hx
      obtain ⟨s, hs, h5, h6⟩ := hin x hx
      obtain ⟨t, h7, h8, h9⟩ := promote_sing h5 (hle' s hs) hl6
      exact ⟨t, h7, h8, s, hs, h5.2.2.1, h6, h9⟩
    obtain ⟨P, hP⟩ := mapM_total (f := fun s => promote s l) (l := y :: L) fun x hx => (hpr x hx).imp fun t h => h.1
    have hE : factorizeList ord ss = factorSequences ord P := by
      rw [factorizeList, hL]
      show (do let ps ← (y :: L).mapM (fun s => promote s (((y :: L).map layer).foldl max 0)); factorSequences ord ps) = _
      rw [hl, hP]; rfl
    have hPin : ∀ t ∈ P, Sing l t ∧ ∃ x ∈ y :: L, promote x l = .ok t := by
      intro t ht
      obtain ⟨x, hx, he⟩ := (mapM_mem hP).1 ht
      obtain ⟨t', h1, h2, _⟩ := hpr x hx
      rw [he, Except.ok.injEq] at h1
      exact ⟨h1 ▸ h2, x, hx, he⟩
    have hPlen : P.length = (y :: L).length := (mapM_inv hP).length_eq.symm
    have hPne : P ≠ [] := by
      intro h0
      rw [h0] at hPlen
      simp at hPlen
    have hcard : (wordSet P).card ≤ 360 := Nat.le_trans (wordSet_le P) (by rw [hPlen, hlen]; exact hc)
    obtain ⟨a, b, _⟩ := factorSequences_spec ho hPne (fun t ht => (hPin t ht).1) hcard
    rw [hE]
    refine ⟨b, ?_⟩
    intro t ht
    obtain ⟨h1, h2, h3, _⟩ := a t ht
    refine ⟨h1, by rw [h2]; exact hmem', by rw [h2]; exact hle', ?_⟩
    intro w
    rw [h3, mem_wordSet, h2]
    constructor
    · rintro ⟨p, hp, rfl⟩
      obtain ⟨_, x, hx, he⟩ := hPin p hp
      obtain ⟨p', h5, _, s, hs, _, h6, h7⟩ := hpr x hx
      rw [he, Except.ok.injEq] at h5
      subst h5
      exact ⟨s, hs, _, h6, h7⟩
    · rintro ⟨s, hs, u, hu, rfl⟩
      obtain ⟨x, hx, hxl, rfl⟩ := hout s hs u hu
      obtain ⟨p, h5, _, s', _, hxl', _, h7⟩ := hpr x hx
      exact ⟨p, (mapM_mem hP).2 ⟨x, hx, h5⟩, by rw [h7, ← hxl', hxl]⟩

end Verif
