import Verif.Model.ImportSeries
import Verif.Lemmas.CleanUp
import Verif.Props.UslParser

/-
C118: the import of series (`scripts/migrate_versions/migrate_v02Tov03.py`) adds the series whose morphemes are all defined, with the
translations of their sequences.  Violated: after a sequence with an undefined morpheme, the translations of the next ones are lost;
values keep the spaces after commas.
-/

namespace Verif
open Script

/-- The script of a document. -/
def OldFound (usls : Nat → Option OldUsl) (i : Nat) (x : Script) : Prop := ∃ w, usls i = some w ∧ parseScript (migrateMorpheme w.script) = .ok x

/-- The constants and the groups of a series: the scripts of its documents; a group without multiplicity has multiplicity 1. -/
structure SeriesRead (usls : Nat → Option OldUsl) (ms : OldSeries) (cs : List Script) (gs : List Group) : Prop where
  constants : List.Forall₂ (OldFound usls) (ms.constants.getD []) cs
  groups : List.Forall₂ (fun g k => List.Forall₂ (OldFound usls) g.1 k.1 ∧ (g.2 = some k.2 ∨ g.2 = none ∧ k.2 = 1)) ms.groups gs

/-- All the scripts are defined. -/
def AllKnown (known : Str → Bool) (cs : List Script) (gs : List Group) : Prop :=
  (∀ x ∈ cs, known x.str = true) ∧ ∀ g ∈ gs, ∀ x ∈ g.1, known x.str = true

/-- The morphemes of a sequence. -/
def SequenceRead (q : OldSequence) (cs : List Script) : Prop := List.Forall₂ (fun w x => parseScript (migrateMorpheme w) = .ok x) q.words cs

/-- A sequence of one word, or of defined morphemes, `E:` when there is no other. -/
def SequenceFine (known : Str → Bool) (q : OldSequence) : Prop := ∃ cs, SequenceRead q cs ∧
  (cs.length = 1 ∨ (∀ x ∈ cs, x.empty = false → known x.str = true) ∧ ((∀ x ∈ cs, x.empty = true) → known (c!"E:") = true))

/-- The values of a sequence of other than one word in a language: the parts between commas of its descriptors. -/
def SequenceTold (usls : Nat → Option OldUsl) (q : OldSequence) (t l : Str) (vs : List Str) : Prop :=
  ∃ cs i w ds, SequenceRead q cs ∧ cs.length ≠ 1 ∧ q.id = some i ∧ usls i = some w ∧ (l = c!"fr" ∧ w.fr = some ds ∨ l = c!"en" ∧ w.en = some ds) ∧
    t = (mkPM cs []).text ∧ vs = ds.flatMap (segments fun c => decide (c = ','))

/-- A prefix of fine sequences ends with `q`. -/
def SequenceReached (known : Str → Bool) (qs : List OldSequence) (q : OldSequence) : Prop :=
  ∃ a b, qs = a ++ q :: b ∧ ∀ k ∈ a, SequenceFine known k

theorem oldScript_ok {usls : Nat → Option OldUsl} {i : Nat} {x : Script} : oldScript usls i = .ok x ↔ OldFound usls i x := by
  unfold oldScript OldFound
  cases h : usls i with
  | none => simp
  | some w => simp

theorem mapM_iff {α β : Type} {f : α → Except Err β} {R : α → β → Prop} (h : ∀ x y, f x = .ok y ↔ R x y) {l : List α} {ys : List β} :
    l.mapM f = .ok ys ↔ List.Forall₂ R l ys :=
  ⟨fun k => (mapM_inv k).imp fun _ _ => (h _ _).1, fun k => mapM_of_forall₂ (k.imp fun _ _ => (h _ _).2)⟩

theorem seriesParts_ok {usls : Nat → Option OldUsl} {ms : OldSeries} {cs : List Script} {gs : List Group} :
    seriesParts usls ms = .ok (cs, gs) ↔ SeriesRead usls ms cs gs := by
  have hg : ∀ (g : List Nat × Option Nat) (k : Group), ((do
      let ws ← g.1.mapM (oldScript usls)
      return (ws, g.2.getD 1) : Except Err Group) = .ok k ↔ List.Forall₂ (OldFound usls) g.1 k.1 ∧ (g.2 = some k.2 ∨ g.2 = none ∧ k.2 = 1)) := by
    rintro ⟨g, n⟩ ⟨k, m⟩
    rw [bind_ok]
    constructor
    · rintro ⟨ws, h1, h2⟩
      rw [pure_ok] at h2
      injection h2 with h2 h3
      subst h2 h3
      refine ⟨(mapM_iff fun _ _ => oldScript_ok).1 h1, ?_⟩
      cases n <;> simp
    · rintro ⟨h1, h2⟩
      refine ⟨k, (mapM_iff fun _ _ => oldScript_ok).2 h1, ?_⟩
      rcases h2 with h2 | ⟨h2, h3⟩
      · simp only at h2
        rw [h2]; rfl
      · simp only at h2 h3
        rw [h2, h3]; rfl
  have hc : seriesParts usls ms = (do
      let cs ← (ms.constants.getD []).mapM (oldScript usls)
      let gs ← ms.groups.mapM fun g => do
        let ws ← g.1.mapM (oldScript usls)
        return (ws, g.2.getD 1)
      return (cs, gs)) := by
    unfold seriesParts
    cases ms.constants <;> rfl
  rw [hc, bind_ok]
  constructor
  · rintro ⟨a, h1, h2⟩
    rw [bind_ok] at h2
    obtain ⟨b, h2, h3⟩ := h2
    rw [pure_ok] at h3
    injection h3 with h3 h4
    subst h3 h4
    exact ⟨(mapM_iff fun _ _ => oldScript_ok).1 h1, (mapM_iff hg).1 h2⟩
  · rintro ⟨h1, h2⟩
    refine ⟨cs, (mapM_iff fun _ _ => oldScript_ok).2 h1, ?_⟩
    rw [bind_ok]
    exact ⟨gs, (mapM_iff hg).2 h2, rfl⟩

theorem allKnown_iff {known : Str → Bool} {cs : List Script} {gs : List Group} :
    (cs ++ gs.flatMap (·.1)).any (fun x => !known x.str) = false ↔ AllKnown known cs gs := by
  simp only [List.any_eq_false, List.mem_append, List.mem_flatMap, Bool.not_eq_true', Bool.not_eq_false, AllKnown]
  constructor
  · intro h
    exact ⟨fun x hx => h x (.inl hx), fun g hg x hx => h x (.inr ⟨g, hg, hx⟩)⟩
  · rintro ⟨h1, h2⟩ x (hx | ⟨g, hg, hx⟩)
    · exact h1 x hx
    · exact h2 g hg x hx

/-- The check of the morphemes of a sequence. -/
theorem sequenceKnown_iff {known : Str → Bool} {cs : List Script} :
    ((mkPM cs []).constant ++ (mkPM cs []).groups.flatMap (·.1)).any (fun x => !known x.str) = false ↔
      (∀ x ∈ cs, x.empty = false → known x.str = true) ∧ ((∀ x ∈ cs, x.empty = true) → known (c!"E:") = true) := by
  have hg : (mkPM cs []).groups = [] := rfl
  have hc : (mkPM cs []).constant = if (shownC cs).isEmpty then [.null 0] else shownC cs := rfl
  rw [hg, hc]
  simp only [List.flatMap_nil, List.append_nil, List.any_eq_false, Bool.not_eq_true', Bool.not_eq_false]
  by_cases h : (shownC cs).isEmpty = true
  · rw [if_pos h]
    have he : ∀ x ∈ cs, x.empty = true := by
      intro x hx
      cases hxe : x.empty with
      | true => rfl
      | false =>
        have := mem_shownC.2 ⟨hx, hxe⟩
        rw [List.isEmpty_iff.1 h] at this
        cases this
    constructor
    · intro k
      exact ⟨fun x hx hn => (by rw [he x hx] at hn; cases hn), fun _ => k (.null 0) (by simp)⟩
    · rintro ⟨-, k⟩ x hx
      rw [List.mem_singleton] at hx
      subst hx
      exact k he
  · rw [if_neg h]
    constructor
    · intro k
      refine ⟨fun x hx hn => k x (mem_shownC.2 ⟨hx, hn⟩), fun ha => ?_⟩
      exfalso
      apply h
      rw [List.isEmpty_iff, List.eq_nil_iff_forall_not_mem]
      intro x hx
      have := mem_shownC.1 hx
      rw [ha x this.1] at this
      cases this.2
    · rintro ⟨k, -⟩ x hx
      exact k x (mem_shownC.1 hx).1 (mem_shownC.1 hx).2

/-- What one sequence gives. -/
theorem importSequence_ok {usls : Nat → Option OldUsl} {known : Str → Bool} {q : OldSequence} {r : Option (List SeriesCall)}
    (h : importSequence usls known q = .ok r) : (∃ cs, SequenceRead q cs) ∧
      ((r = none ∧ ¬ SequenceFine known q) ∨
       ∃ calls, r = some calls ∧ SequenceFine known q ∧ ∀ c, c ∈ calls ↔ ∃ t l vs, c = .value t l vs ∧ SequenceTold usls q t l vs) := by
  unfold importSequence at h
  rw [bind_ok] at h
  obtain ⟨cs, h1, h⟩ := h
  have h1 : SequenceRead q cs := mapM_inv h1
  have uniq : ∀ cs', SequenceRead q cs' → cs' = cs := by
    intro cs' h'
    have e1 := mapM_of_forall₂ h1
    have e2 := mapM_of_forall₂ h'
    rw [e1] at e2
    exact (Except.ok.inj e2).symm
  refine ⟨⟨cs, h1⟩, ?_⟩
  by_cases hl : cs.length = 1
  · rw [if_pos hl, pure_ok] at h
    subst h
    refine .inr ⟨[], rfl, ⟨cs, h1, .inl hl⟩, fun c => ?_⟩
    simp only [List.not_mem_nil, false_iff]
    rintro ⟨t, l, vs, -, cs', i, w, ds, k1, k2, -⟩
    rw [uniq _ k1] at k2
    exact k2 hl
  · rw [if_neg hl] at h
    by_cases hk : ((mkPM cs []).constant ++ (mkPM cs []).groups.flatMap (·.1)).any (fun x => !known x.str) = false
    · have hf : SequenceFine known q := ⟨cs, h1, .inr (sequenceKnown_iff.1 hk)⟩
      simp only [hk, Bool.false_eq_true, if_false] at h
      right
      cases hi : q.id with
      | none =>
        rw [hi] at h
        simp only [pure_ok] at h
        refine ⟨[], h.symm, hf, fun c => ?_⟩
        simp only [List.not_mem_nil, false_iff]
        rintro ⟨t, l, vs, -, cs', i, w, ds, -, -, k, -⟩
        rw [hi] at k
        cases k
      | some i =>
        rw [hi] at h
        cases hw : usls i with
        | none =>
          simp only [hw, pure_ok] at h
          refine ⟨[], h.symm, hf, fun c => ?_⟩
          simp only [List.not_mem_nil, false_iff]
          rintro ⟨t, l, vs, -, cs', i', w, ds, -, -, k, k', -⟩
          rw [hi] at k
          cases k
          rw [hw] at k'
          cases k'
        | some w =>
          simp only [hw, pure_ok] at h
          have ov : ∀ ds, commaValues ds = ds.flatMap (segments fun c => decide (c = ',')) := by
            intro ds
            unfold commaValues
            congr 1
            funext d
            exact split_eq _ _
          refine ⟨_, h.symm, hf, fun c => ?_⟩
          constructor
          · intro hc
            rcases List.mem_append.1 hc with hc | hc
            · cases hd : w.fr with
              | none => rw [hd] at hc; cases hc
              | some ds =>
                rw [hd] at hc
                exact ⟨_, _, _, List.mem_singleton.1 hc, cs, i, w, ds, h1, hl, hi, hw, .inl ⟨rfl, hd⟩, rfl, ov ds⟩
            · cases hd : w.en with
              | none => rw [hd] at hc; cases hc
              | some ds =>
                rw [hd] at hc
                exact ⟨_, _, _, List.mem_singleton.1 hc, cs, i, w, ds, h1, hl, hi, hw, .inr ⟨rfl, hd⟩, rfl, ov ds⟩
          · rintro ⟨t, l, vs, rfl, cs', i', w', ds, k1, k2, k3, k4, k5, rfl, rfl⟩
            obtain rfl := uniq _ k1
            rw [hi] at k3
            cases k3
            rw [hw] at k4
            cases k4
            rw [← ov]
            rcases k5 with ⟨rfl, k5⟩ | ⟨rfl, k5⟩
            · rw [k5]; simp
            · rw [k5]; simp
    · rw [Bool.not_eq_false] at hk
      simp only [hk, if_true, pure_ok] at h
      refine .inl ⟨h.symm, ?_⟩
      rintro ⟨cs', k1, k2⟩
      obtain rfl := uniq _ k1
      rcases k2 with k2 | k2
      · exact hl k2
      · rw [sequenceKnown_iff.2 k2] at hk
        cases hk

/-- One sequence is treated as soon as its words are read. -/
theorem importSequence_returns {usls : Nat → Option OldUsl} {known : Str → Bool} {q : OldSequence} {cs : List Script} (h : SequenceRead q cs) :
    ∃ r, importSequence usls known q = .ok r := by
  unfold importSequence
  rw [show (q.words.mapM fun w => parseScript (migrateMorpheme w)) = .ok cs from mapM_of_forall₂ h]
  simp only [bind, Except.bind]
  split
  · exact ⟨_, rfl⟩
  · split
    · exact ⟨_, rfl⟩
    · split
      · exact ⟨_, rfl⟩
      · split <;> exact ⟨_, rfl⟩

theorem reached_cons {known : Str → Bool} {q k : OldSequence} {qs : List OldSequence} (hq : SequenceFine known q) :
    SequenceReached known (q :: qs) k ↔ k = q ∨ SequenceReached known qs k := by
  constructor
  · rintro ⟨a, b, h1, h2⟩
    cases a with
    | nil => cases h1; exact .inl rfl
    | cons x a => cases h1; exact .inr ⟨a, b, rfl, fun y hy => h2 y (by simp [hy])⟩
  · rintro (rfl | ⟨a, b, rfl, h2⟩)
    · exact ⟨[], qs, rfl, by simp⟩
    · refine ⟨q :: a, b, rfl, ?_⟩
      intro y hy
      rcases List.mem_cons.1 hy with rfl | hy
      · exact hq
      · exact h2 y hy

theorem reached_stop {known : Str → Bool} {q k : OldSequence} {qs : List OldSequence} (hq : ¬ SequenceFine known q) :
    SequenceReached known (q :: qs) k ↔ k = q := by
  constructor
  · rintro ⟨a, b, h1, h2⟩
    cases a with
    | nil => cases h1; rfl
    | cons x a => cases h1; exact absurd (h2 _ (by simp)) hq
  · rintro rfl
    exact ⟨[], qs, rfl, by simp⟩

theorem importSequences_ok {usls : Nat → Option OldUsl} {known : Str → Bool} : ∀ {qs : List OldSequence} {calls : List SeriesCall},
    importSequences usls known qs = .ok calls → (∀ q, SequenceReached known qs q → ∃ cs, SequenceRead q cs) ∧
      ∀ c, c ∈ calls ↔ ∃ q t l vs, SequenceReached known qs q ∧ SequenceFine known q ∧ c = .value t l vs ∧ SequenceTold usls q t l vs
  | [], calls, h => by
    cases h
    refine ⟨?_, fun c => ?_⟩
    · rintro q ⟨a, b, h, -⟩
      simp at h
    · simp only [List.not_mem_nil, false_iff]
      rintro ⟨q, t, l, vs, ⟨a, b, h, -⟩, -⟩
      simp at h
  | q :: qs, calls, h => by
    unfold importSequences at h
    rw [bind_ok] at h
    obtain ⟨r, h1, h⟩ := h
    obtain ⟨h2, ⟨rfl, h3⟩ | ⟨cq, rfl, h3, h4⟩⟩ := importSequence_ok h1
    · simp only [pure_ok] at h
      subst h
      refine ⟨fun k hk => ?_, fun c => ?_⟩
      · rw [reached_stop h3] at hk
        exact hk ▸ h2
      · simp only [List.not_mem_nil, false_iff]
        rintro ⟨k, t, l, vs, hk, hf, -⟩
        rw [reached_stop h3] at hk
        exact h3 (hk ▸ hf)
    · simp only [bind_ok, pure_ok] at h
      obtain ⟨cs, h5, rfl⟩ := h
      obtain ⟨h6, h7⟩ := importSequences_ok h5
      refine ⟨fun k hk => ?_, fun c => ?_⟩
      · rcases (reached_cons h3).1 hk with rfl | hk
        · exact h2
        · exact h6 k hk
      · rw [List.mem_append, h4, h7]
        constructor
        · rintro (⟨t, l, vs, k1, k2⟩ | ⟨k, t, l, vs, k1, k2⟩)
          · exact ⟨q, t, l, vs, (reached_cons h3).2 (.inl rfl), h3, k1, k2⟩
          · exact ⟨k, t, l, vs, (reached_cons h3).2 (.inr k1), k2⟩
        · rintro ⟨k, t, l, vs, k1, k2, k3, k4⟩
          rcases (reached_cons h3).1 k1 with rfl | k1
          · exact .inl ⟨t, l, vs, k3, k4⟩
          · exact .inr ⟨k, t, l, vs, k1, k2, k3, k4⟩

theorem importSequences_returns {usls : Nat → Option OldUsl} {known : Str → Bool} : ∀ {qs : List OldSequence},
    (∀ q, SequenceReached known qs q → ∃ cs, SequenceRead q cs) → ∃ calls, importSequences usls known qs = .ok calls
  | [], _ => ⟨_, rfl⟩
  | q :: qs, h => by
    obtain ⟨cs, hcs⟩ := h q ⟨[], qs, rfl, by simp⟩
    obtain ⟨r, hr⟩ := importSequence_returns (usls := usls) (known := known) hcs
    unfold importSequences
    rw [hr]
    obtain ⟨-, ⟨rfl, -⟩ | ⟨cq, rfl, h3, -⟩⟩ := importSequence_ok hr
    · exact ⟨_, rfl⟩
    · obtain ⟨c, hc⟩ := importSequences_returns (usls := usls) fun k hk => h k ((reached_cons h3).2 (.inr hk))
      refine ⟨cq ++ c, ?_⟩
      simp only [bind, Except.bind, hc]
      rfl

/-- The name of a series: the name of a domain, a colon and a translation. -/
def SeriesName (n d t : Str) : Prop := ∃ a r, n = a ++ ':' :: r ∧ ':' ∉ a ∧ seriesDomain a = .ok d ∧ t = strip r

theorem splitColon_some : ∀ {n a r : Str}, splitColon n = (a, some r) ↔ n = a ++ ':' :: r ∧ ':' ∉ a
  | [], a, r => by simp [splitColon]
  | c :: n, a, r => by
    unfold splitColon
    by_cases hc : c = ':'
    · subst hc
      simp only [if_true, Prod.mk.injEq, Option.some.injEq]
      constructor
      · rintro ⟨rfl, rfl⟩; simp
      · rintro ⟨h1, h2⟩
        cases a with
        | nil => cases h1; exact ⟨rfl, rfl⟩
        | cons x a => cases h1; simp at h2
    · rw [if_neg hc]
      cases a with
      | nil =>
        simp only [Prod.mk.injEq, reduceCtorEq, false_and, List.nil_append, List.cons.injEq, false_iff]
        rintro ⟨⟨h, -⟩, -⟩
        exact hc h
      | cons x a =>
        have := splitColon_some (n := n) (a := a) (r := r)
        rw [Prod.ext_iff] at this
        simp only [Prod.mk.injEq, List.cons.injEq, List.cons_append, List.mem_cons, not_or]
        constructor
        · rintro ⟨⟨rfl, h1⟩, h2⟩
          have := this.1 ⟨h1, h2⟩
          exact ⟨⟨rfl, this.1⟩, fun e => hc e.symm, this.2⟩
        · rintro ⟨⟨rfl, h1⟩, -, h2⟩
          have := this.2 ⟨h1, h2⟩
          exact ⟨⟨rfl, this.1⟩, this.2⟩

/-- What one series gives, and when it raises nothing. -/
theorem importOne_ok {usls : Nat → Option OldUsl} {known : Str → Bool} {ms : OldSeries} {calls : List SeriesCall} :
    importOne usls known ms = .ok calls ↔ ∃ cs gs, SeriesRead usls ms cs gs ∧
      ((¬ AllKnown known cs gs ∧ calls = []) ∨
       (AllKnown known cs gs ∧ ∃ d t r, SeriesName ms.name d t ∧ importSequences usls known ms.sequences = .ok r ∧
          calls = .paradigm (mkPM cs gs).text d :: .value (mkPM cs gs).text (c!"fr") [t] :: r)) := by
  unfold importOne
  rw [bind_ok]
  constructor
  · rintro ⟨⟨cs, gs⟩, h1, h⟩
    refine ⟨cs, gs, seriesParts_ok.1 h1, ?_⟩
    by_cases hk : (cs ++ gs.flatMap (·.1)).any (fun x => !known x.str) = false
    · right
      simp only [hk, Bool.false_eq_true, if_false] at h
      rw [bind_ok] at h
      obtain ⟨d, h2, h⟩ := h
      refine ⟨allKnown_iff.1 hk, ?_⟩
      cases hs : (splitColon ms.name).2 with
      | none => rw [hs] at h; cases h
      | some r =>
        rw [hs] at h
        simp only [bind_ok, pure_ok] at h
        obtain ⟨c, h3, rfl⟩ := h
        obtain ⟨k1, k2⟩ := splitColon_some.1 (Prod.ext rfl hs : splitColon ms.name = ((splitColon ms.name).1, some r))
        exact ⟨d, _, c, ⟨_, r, k1, k2, h2, rfl⟩, h3, rfl⟩
    · left
      refine ⟨fun k => hk (allKnown_iff.2 k), ?_⟩
      rw [Bool.not_eq_false] at hk
      simp only [hk, if_true, pure_ok] at h
      exact h.symm
  · rintro ⟨cs, gs, h1, h⟩
    refine ⟨(cs, gs), seriesParts_ok.2 h1, ?_⟩
    rcases h with ⟨h2, rfl⟩ | ⟨h2, d, t, r, ⟨a, s, k1, k2, k3, rfl⟩, h4, rfl⟩
    · have hk : (cs ++ gs.flatMap (·.1)).any (fun x => !known x.str) = true := by
        rw [← Bool.not_eq_false]
        exact fun k => h2 (allKnown_iff.1 k)
      simp only [hk, if_true]
      rfl
    · have e := splitColon_some.2 ⟨k1, k2⟩
      simp only [allKnown_iff.2 h2, e, k3, h4, Bool.false_eq_true, if_false, bind, Except.bind]
      rfl

/-- **C118**, when the import raises nothing: every series has its documents and their scripts can be read, and, unless one of its morphemes is
not defined, its name is that of a domain, a colon and a translation, and the words of its sequences can be read, up to the first one
with a morpheme that is not defined. -/
theorem C118_returns {usls : Nat → Option OldUsl} {known : Str → Bool} {l : List OldSeries} :
    (∃ calls, importSeries usls known l = .ok calls) ↔ ∀ ms ∈ l, ∃ cs gs, SeriesRead usls ms cs gs ∧
      (AllKnown known cs gs → (∃ d t, SeriesName ms.name d t) ∧ ∀ q, SequenceReached known ms.sequences q → ∃ cs, SequenceRead q cs) := by
  have one : ∀ ms, (∃ c, importOne usls known ms = .ok c) ↔ ∃ cs gs, SeriesRead usls ms cs gs ∧
      (AllKnown known cs gs → (∃ d t, SeriesName ms.name d t) ∧ ∀ q, SequenceReached known ms.sequences q → ∃ cs, SequenceRead q cs) := by
    intro ms
    constructor
    · rintro ⟨c, hc⟩
      obtain ⟨cs, gs, h1, h2⟩ := importOne_ok.1 hc
      refine ⟨cs, gs, h1, fun hk => ?_⟩
      rcases h2 with ⟨h2, -⟩ | ⟨-, d, t, r, h3, h4, -⟩
      · exact absurd hk h2
      · exact ⟨⟨d, t, h3⟩, (importSequences_ok h4).1⟩
    · rintro ⟨cs, gs, h1, h2⟩
      by_cases hk : AllKnown known cs gs
      · obtain ⟨⟨d, t, h3⟩, h4⟩ := h2 hk
        obtain ⟨r, hr⟩ := importSequences_returns (usls := usls) h4
        exact ⟨_, importOne_ok.2 ⟨cs, gs, h1, .inr ⟨hk, d, t, r, h3, hr, rfl⟩⟩⟩
      · exact ⟨[], importOne_ok.2 ⟨cs, gs, h1, .inl ⟨hk, rfl⟩⟩⟩
  unfold importSeries
  constructor
  · rintro ⟨calls, h⟩ ms hms
    rw [bind_ok] at h
    obtain ⟨cs, h1, -⟩ := h
    obtain ⟨c, -, hc⟩ := forall₂_mem_left (mapM_inv h1) hms
    exact (one ms).1 ⟨c, hc⟩
  · intro h
    obtain ⟨ys, hy⟩ : ∃ ys, l.mapM (importOne usls known) = .ok ys := by
      induction l with
      | nil => exact ⟨[], rfl⟩
      | cons ms l ih =>
        obtain ⟨c, hc⟩ := (one ms).2 (h ms (by simp))
        obtain ⟨ys, hy⟩ := ih fun m hm => h m (by simp [hm])
        exact ⟨c :: ys, by rw [List.mapM_cons, hc, hy]; rfl⟩
    exact ⟨ys.flatten, by rw [hy]; rfl⟩

theorem importSeries_mem {usls : Nat → Option OldUsl} {known : Str → Bool} {l : List OldSeries} {calls : List SeriesCall}
    (h : importSeries usls known l = .ok calls) (c : SeriesCall) : c ∈ calls ↔ ∃ ms ∈ l, ∃ r, importOne usls known ms = .ok r ∧ c ∈ r := by
  unfold importSeries at h
  rw [bind_ok] at h
  obtain ⟨ys, h1, h⟩ := h
  rw [pure_ok] at h
  subst h
  rw [List.mem_flatten]
  constructor
  · rintro ⟨r, hr, hc⟩
    obtain ⟨ms, hm, e⟩ := (mapM_mem h1).1 hr
    exact ⟨ms, hm, r, e, hc⟩
  · rintro ⟨ms, hm, r, e, hc⟩
    exact ⟨r, (mapM_mem h1).2 ⟨ms, hm, e⟩, hc⟩

/-- **C118**, the paradigms added: the series whose morphemes are all defined, each with the domain of its name. -/
theorem C118_added {usls : Nat → Option OldUsl} {known : Str → Bool} {l : List OldSeries} {calls : List SeriesCall}
    (h : importSeries usls known l = .ok calls) (p d : Str) : .paradigm p d ∈ calls ↔
      ∃ ms ∈ l, ∃ cs gs t, SeriesRead usls ms cs gs ∧ AllKnown known cs gs ∧ SeriesName ms.name d t ∧ p = (mkPM cs gs).text := by
  rw [importSeries_mem h]
  constructor
  · rintro ⟨ms, hm, r, hr, hc⟩
    obtain ⟨cs, gs, h1, ⟨-, rfl⟩ | ⟨h2, d', t, r', h3, h4, rfl⟩⟩ := importOne_ok.1 hr
    · cases hc
    · simp only [List.mem_cons, SeriesCall.paradigm.injEq, reduceCtorEq, false_or] at hc
      rcases hc with ⟨rfl, rfl⟩ | hc
      · exact ⟨ms, hm, cs, gs, t, h1, h2, h3, rfl⟩
      · obtain ⟨q, t, l, vs, -, -, e, -⟩ := ((importSequences_ok h4).2 _).1 hc
        cases e
  · rintro ⟨ms, hm, cs, gs, t, h1, h2, h3, rfl⟩
    unfold importSeries at h
    rw [bind_ok] at h
    obtain ⟨ys, h5, -⟩ := h
    obtain ⟨r, -, hr⟩ := forall₂_mem_left (mapM_inv h5) hm
    refine ⟨ms, hm, r, hr, ?_⟩
    obtain ⟨cs', gs', k1, k2⟩ := importOne_ok.1 hr
    have e := (seriesParts_ok.2 k1).symm.trans (seriesParts_ok.2 h1)
    cases e
    rcases k2 with ⟨k2, -⟩ | ⟨-, d', t', r', ⟨a', s', m1, m2, m3, -⟩, -, rfl⟩
    · exact absurd h2 k2
    · obtain ⟨a, s, n1, n2, n3, -⟩ := h3
      have e2 := (splitColon_some.2 ⟨m1, m2⟩).symm.trans (splitColon_some.2 ⟨n1, n2⟩)
      cases e2
      rw [m3] at n3
      cases n3
      simp

/-- **C118**, the translations set: those of the series added, and those of their sequences, up to the first sequence with a morpheme
that is not defined. -/
theorem C118_values {usls : Nat → Option OldUsl} {known : Str → Bool} {l : List OldSeries} {calls : List SeriesCall}
    (h : importSeries usls known l = .ok calls) (p lang : Str) (vs : List Str) : .value p lang vs ∈ calls ↔
      ∃ ms ∈ l, ∃ cs gs, SeriesRead usls ms cs gs ∧ AllKnown known cs gs ∧
        ((∃ d t, SeriesName ms.name d t ∧ p = (mkPM cs gs).text ∧ lang = c!"fr" ∧ vs = [t]) ∨
         ∃ q, SequenceReached known ms.sequences q ∧ SequenceFine known q ∧ SequenceTold usls q p lang vs) := by
  rw [importSeries_mem h]
  constructor
  · rintro ⟨ms, hm, r, hr, hc⟩
    obtain ⟨cs, gs, h1, ⟨-, rfl⟩ | ⟨h2, d', t, r', h3, h4, rfl⟩⟩ := importOne_ok.1 hr
    · cases hc
    · simp only [List.mem_cons, SeriesCall.value.injEq, reduceCtorEq, false_or] at hc
      rcases hc with ⟨rfl, rfl, rfl⟩ | hc
      · exact ⟨ms, hm, cs, gs, h1, h2, .inl ⟨d', t, h3, rfl, rfl, rfl⟩⟩
      · obtain ⟨q, t, l, vs, k1, k2, e, k3⟩ := ((importSequences_ok h4).2 _).1 hc
        cases e
        exact ⟨ms, hm, cs, gs, h1, h2, .inr ⟨q, k1, k2, k3⟩⟩
  · rintro ⟨ms, hm, cs, gs, h1, h2, h3⟩
    unfold importSeries at h
    rw [bind_ok] at h
    obtain ⟨ys, h5, -⟩ := h
    obtain ⟨r, -, hr⟩ := forall₂_mem_left (mapM_inv h5) hm
    refine ⟨ms, hm, r, hr, ?_⟩
    obtain ⟨cs', gs', k1, k2⟩ := importOne_ok.1 hr
    have e := (seriesParts_ok.2 k1).symm.trans (seriesParts_ok.2 h1)
    cases e
    rcases k2 with ⟨k2, -⟩ | ⟨-, d', t', r', ⟨a', s', m1, m2, m3, m4⟩, m5, rfl⟩
    · exact absurd h2 k2
    · rcases h3 with ⟨d, t, ⟨a, s, n1, n2, n3, rfl⟩, rfl, rfl, rfl⟩ | ⟨q, n1, n2, n3⟩
      · have e2 := (splitColon_some.2 ⟨m1, m2⟩).symm.trans (splitColon_some.2 ⟨n1, n2⟩)
        cases e2
        rw [m4]
        simp
      · refine List.mem_cons_of_mem _ (List.mem_cons_of_mem _ ?_)
        exact ((importSequences_ok m5).2 _).2 ⟨q, p, lang, vs, n1, n2, rfl, n3⟩

/-- When all the morphemes of the sequences of a series are defined, the translations of all its sequences are set. -/
theorem C118_all_partial {usls : Nat → Option OldUsl} {known : Str → Bool} {l : List OldSeries} {calls : List SeriesCall}
    (h : importSeries usls known l = .ok calls) {ms : OldSeries} (hm : ms ∈ l) {cs : List Script} {gs : List Group} (h1 : SeriesRead usls ms cs gs)
    (h2 : AllKnown known cs gs) (hf : ∀ q ∈ ms.sequences, SequenceFine known q) {q : OldSequence} (hq : q ∈ ms.sequences) {p lang : Str} {vs : List Str}
    (ht : SequenceTold usls q p lang vs) : .value p lang vs ∈ calls := by
  obtain ⟨a, b, e⟩ := List.append_of_mem hq
  exact (C118_values h p lang vs).2 ⟨ms, hm, cs, gs, h1, h2, .inr ⟨q, ⟨a, b, e, fun k hk => hf k (by rw [e]; simp [hk])⟩, hf q hq, ht⟩⟩

/-- The errors of the first series: a missing document, a name with an unknown domain, and a name without colon. -/
theorem C118_refused {usls : Nat → Option OldUsl} {known : Str → Bool} {ms : OldSeries} {l : List OldSeries} :
    (∀ i r, ms.constants = some (i :: r) → usls i = none → importSeries usls known (ms :: l) = .error .assertionError) ∧
    ∀ cs gs, SeriesRead usls ms cs gs → AllKnown known cs gs →
      (seriesDomain (ms.name.takeWhile (· != ':')) = .error .keyError → importSeries usls known (ms :: l) = .error .keyError) ∧
      (∀ d, ':' ∉ ms.name → seriesDomain ms.name = .ok d → importSeries usls known (ms :: l) = .error .indexError) := by
  have take : ∀ n : Str, (splitColon n).1 = n.takeWhile (· != ':') ∧ (':' ∉ n → splitColon n = (n, none)) := by
    intro n
    induction n with
    | nil => exact ⟨rfl, fun _ => rfl⟩
    | cons c n ih =>
      unfold splitColon
      by_cases hc : c = ':'
      · subst hc; simp
      · rw [if_neg hc, List.takeWhile_cons]
        refine ⟨by simp [hc, ih.1], fun hn => ?_⟩
        rw [ih.2 fun h => hn (by simp [h])]
  have head : ∀ e, importOne usls known ms = .error e → importSeries usls known (ms :: l) = .error e := by
    intro e he
    unfold importSeries
    rw [List.mapM_cons, he]
    rfl
  refine ⟨fun i r hc hi => head _ ?_, fun cs gs h1 h2 => ⟨fun hd => head _ ?_, fun d hn hd => head _ ?_⟩⟩
  · unfold importOne seriesParts
    rw [hc]
    simp only [List.mapM_cons, oldScript, hi, bind, Except.bind]
  · unfold importOne
    rw [seriesParts_ok.2 h1, (take _).1]
    simp only [allKnown_iff.2 h2, hd, Bool.false_eq_true, if_false, bind, Except.bind]
  · unfold importOne
    rw [seriesParts_ok.2 h1, (take _).2 hn]
    simp only [allKnown_iff.2 h2, hd, Bool.false_eq_true, if_false, bind, Except.bind]
    rfl

/-- The scripts that are replaced. -/
def replacedScripts : List (Str × Str) := [(c!"E:.T:.c.-", c!"E:T:.c.-"), (c!"E:.T:.h.-", c!"E:T:.h.-"), (c!"E:.S:.x.-", c!"E:S:.x.-")]

/-- The names of the domains. -/
def domainNames : List (Str × Str) := [(c!"Météorologie", c!"meteorology"), (c!"Temporalité", c!"temporality"),
  (c!"Géographie humaine", c!"human_geography"), (c!"Géographie", c!"geography"), (c!"Eau", c!"water")]

/-- Three scripts are replaced; the others are left, and the replacement is done once. -/
theorem C118_morpheme (s : Str) : migrateMorpheme (migrateMorpheme s) = migrateMorpheme s ∧
    (∀ t, (s, t) ∈ replacedScripts → migrateMorpheme s = t) ∧ ((∀ t, (s, t) ∉ replacedScripts) → migrateMorpheme s = s) := by
  unfold migrateMorpheme replacedScripts
  refine ⟨by split_ifs <;> simp_all, ?_, ?_⟩
  · intro t h
    simp only [List.mem_cons, Prod.mk.injEq, List.not_mem_nil, or_false] at h
    rcases h with ⟨rfl, rfl⟩ | ⟨rfl, rfl⟩ | ⟨rfl, rfl⟩ <;> rfl
  · intro h
    simp only [List.mem_cons, Prod.mk.injEq, List.not_mem_nil, or_false, not_or, not_and] at h
    rw [if_neg fun e => (h _).1 e rfl, if_neg fun e => (h _).2.1 e rfl, if_neg fun e => (h _).2.2 e rfl]

/-- The domain of a name; other names raise `KeyError`. -/
theorem C118_domain (n : Str) : (∀ d, seriesDomain n = .ok d ↔ (n, d) ∈ domainNames) ∧
    ((∀ d, (n, d) ∉ domainNames) → seriesDomain n = .error .keyError) := by
  unfold seriesDomain domainNames
  simp only [List.mem_cons, Prod.mk.injEq, List.not_mem_nil, or_false, not_or, not_and]
  constructor
  · intro d
    constructor
    · intro h
      split_ifs at h <;> (cases h; simp [*])
    · rintro (⟨rfl, rfl⟩ | ⟨rfl, rfl⟩ | ⟨rfl, rfl⟩ | ⟨rfl, rfl⟩ | ⟨rfl, rfl⟩) <;> rfl
  · intro h
    rw [if_neg fun e => (h _).1 e rfl, if_neg fun e => (h _).2.1 e rfl, if_neg fun e => (h _).2.2.1 e rfl, if_neg fun e => (h _).2.2.2.1 e rfl,
      if_neg fun e => (h _).2.2.2.2 e rfl]

/-- Documents of the old database. -/
def demoUsls : Nat → Option OldUsl
  | 0 => some ⟨c!"E:.T:.c.-", none, none⟩
  | 1 => some ⟨c!"wa.", none, none⟩
  | 2 => some ⟨c!"we.", none, none⟩
  | 3 => some ⟨c!"", some [c!"pluie, averse", c!"eau"], some [c!"rain"]⟩
  | _ => none

/-- A series with its sequences. -/
def demoSeries (w : Str) : OldSeries :=
  ⟨c!"Eau: pluies ", some [0], [([1, 2], none)], [⟨[w, c!"wa."], none⟩, ⟨[c!"E:.T:.c.-", c!"we."], some 3⟩, ⟨[c!"wa."], some 3⟩]⟩

/-- The scripts of a dictionary. -/
def demoKnown (s : Str) : Bool := s ∈ [c!"E:T:.c.-", c!"wa.", c!"we."]

-- The whole import, with its three calls of `set_value`.
example : importSeries demoUsls demoKnown [demoSeries (c!"E:T:.c.-")] = .ok [.paradigm (c!"E:T:.c.- m1(wa. we.)") (c!"water"),
    .value (c!"E:T:.c.- m1(wa. we.)") (c!"fr") [c!"pluies"], .value (c!"we. E:T:.c.-") (c!"fr") [c!"pluie", c!" averse", c!"eau"],
    .value (c!"we. E:T:.c.-") (c!"en") [c!"rain"]] := by decide +kernel

/-- **C118** is violated: when a morpheme of one sequence is not defined, the translations of the following sequences are lost (`break`
for `continue`), although all their morphemes are defined. -/
theorem C118_violated : importSeries demoUsls demoKnown [demoSeries (c!"wo.")] = .ok [.paradigm (c!"E:T:.c.- m1(wa. we.)") (c!"water"),
      .value (c!"E:T:.c.- m1(wa. we.)") (c!"fr") [c!"pluies"]] ∧
    SequenceFine demoKnown ⟨[c!"E:.T:.c.-", c!"we."], some 3⟩ := by
  refine ⟨by decide +kernel, ?_⟩
  have key : (match [c!"E:.T:.c.-", c!"we."].mapM fun w => parseScript (migrateMorpheme w) with
    | .ok cs => cs.all (fun x => demoKnown x.str) && cs.any (fun x => !x.empty)
    | _ => false) = true := by decide +kernel
  split at key
  · next cs h =>
    simp only [Bool.and_eq_true, List.all_eq_true, List.any_eq_true, Bool.not_eq_true'] at key
    refine ⟨cs, mapM_inv h, .inr ⟨fun x hx _ => key.1 x hx, fun ha => ?_⟩⟩
    obtain ⟨x, hx, hn⟩ := key.2
    rw [ha x hx] at hn
    cases hn
  · cases key

/-- **C118** is violated: the values keep the spaces around commas, unlike those cleaned by the previous migration (**C116**). -/
theorem C118_violated_space : commaValues [c!"pluie, averse"] = [c!"pluie", c!" averse"] ∧ cleanValues [c!"pluie, averse"] = [c!"pluie", c!"averse"] := by
  constructor <;> decide +kernel

end Verif
