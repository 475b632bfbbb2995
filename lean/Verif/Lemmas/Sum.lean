import Verif.Lemmas.SSNodup
import Verif.Lemmas.ScriptDec
import Verif.Spec.Word

/-
The sum constructor, as a function of the texts of the terms.
-/

namespace Verif
namespace Script

/-- The terms of a script seen as a sum. -/
def terms : Script → List Script
  | add cs => cs
  | s => [s]

theorem den_terms (s : Script) (w : Word) : Den s w ↔ ∃ d ∈ s.terms, Den d w := by
  cases s with
  | add cs => simp [terms, den_add]
  | _ => simp [terms]

theorem terms_wf {s : Script} (h : WF s) : ∀ d ∈ s.terms, WF d ∧ d.isAdd = false ∧ d.layer = s.layer := by
  cases s with
  | add cs =>
    cases h with
    | add h1 h2 h3 h4 h5 h6 h7 => exact fun d hd => ⟨h2 d hd, h4 d hd, h3 d hd⟩
  | null l => simpa [terms, isAdd] using h
  | prim p => simpa [terms, isAdd] using h
  | mult s a m => simpa [terms, isAdd] using h

/-- The texts of the terms kept by the sum constructor. -/
def SumTexts (cs : List Script) (t : Str) : Prop :=
  (∃ c ∈ cs, ∃ d ∈ c.terms, d.str = t) ∧ ∀ r ∈ cs, r.isAdd = true → r.str ≠ t

theorem mem_sumTerms_str {cs : List Script} {t : Str} : t ∈ (sumTerms cs).map str ↔ SumTexts cs t := by
  constructor
  · intro h
    obtain ⟨d, hd, rfl⟩ := List.mem_map.1 h
    have hd := mem_dedupBy str hd
    simp only [List.mem_filter, List.mem_append, List.mem_flatMap, Bool.not_eq_true', List.any_eq_false, pyEq, beq_iff_eq] at hd
    obtain ⟨h1, h2⟩ := hd
    have h2' : ∀ r ∈ cs, r.isAdd = true → r.str ≠ d.str := fun r hr ha => h2 r ⟨hr, ha⟩
    refine ⟨?_, h2'⟩
    rcases h1 with h1 | ⟨c, ⟨hc, ha⟩, h1⟩
    · refine ⟨d, h1, d, ?_, rfl⟩
      cases d with
      | add cs => exact absurd rfl (h2' _ h1 rfl)
      | _ => simp [terms]
    · cases c with
      | add ds => exact ⟨_, hc, d, h1, rfl⟩
      | _ => cases ha
  · rintro ⟨⟨c, hc, d, hd, rfl⟩, h2⟩
    have : d ∈ (cs ++ (cs.filter isAdd).flatMap children).filter (fun c => !((cs.filter isAdd).any fun r => r.pyEq c)) := by
      simp only [List.mem_filter, List.mem_append, List.mem_flatMap, Bool.not_eq_true', List.any_eq_false, pyEq, beq_iff_eq]
      refine ⟨?_, fun r hr => h2 r hr.1 hr.2⟩
      cases c with
      | add ds => exact .inr ⟨_, ⟨hc, rfl⟩, hd⟩
      | null l => simp only [terms, List.mem_singleton] at hd; subst hd; exact .inl hc
      | prim p => simp only [terms, List.mem_singleton] at hd; subst hd; exact .inl hc
      | mult s a m => simp only [terms, List.mem_singleton] at hd; subst hd; exact .inl hc
    obtain ⟨y, hy, hk⟩ := dedupBy_complete str this
    exact List.mem_map.2 ⟨y, hy, hk⟩

/-- The text of a sum of at least two terms is not the text of a term. -/
theorem str_add_ne {s d : Script} (hs : WF s) (ps : Plain s) (ha : s.isAdd = true) (hd : WF d) (hda : d.isAdd = false) :
    s.str ≠ d.str := by
  intro h
  have hn := norm_eq_of_str hs hd h
  have h1 := isAdd_norm hs ps
  have h2 := isAdd_norm hd (plain_of_not_isAdd hda)
  rw [hn, h2, ha, hda] at h1
  cases h1

theorem sumTexts_plain {cs : List Script} (hw : ∀ c ∈ cs, WF c) (hp : ∀ c ∈ cs, Plain c) (t : Str) :
    SumTexts cs t ↔ ∃ c ∈ cs, ∃ d ∈ c.terms, d.str = t := by
  refine ⟨fun h => h.1, fun h => ⟨h, fun r hr ha => ?_⟩⟩
  obtain ⟨c, hc, d, hd, rfl⟩ := h
  obtain ⟨d1, d2, _⟩ := terms_wf (hw c hc) d hd
  exact str_add_ne (hw r hr) (hp r hr) ha d1 d2

theorem terms_ne_nil {s : Script} (h : WF s) : s.terms ≠ [] := by
  cases s with
  | add cs => cases h with | add h1 _ _ _ _ _ _ => exact h1
  | _ => simp [terms]

/-- Cardinal of a sum of distinct terms. -/
theorem cardinal_terms {ts : List Script} (h : ts ≠ []) {l : Nat} (ht : ∀ c ∈ ts, WF c ∧ c.isAdd = false ∧ c.layer = l)
    (hd : ts.Pairwise (fun a b => a.str ≠ b.str)) : (add ts).cardinal = (ts.map cardinal).sum := by
  cases hk : remAdd? ts with
  | none => rw [cardinal, hk]; exact cardinalL_eq ts
  | some k =>
    have hc : (add ts).cardinal ≤ 360 := by
      rw [cardinal, hk]; cases k <;> simp [RemAdd.letters]
    have hw := add_wf_of_terms h ht hd hc
    have hp := pySort_perm lt ts
    rw [← cardinal_perm hp (fun c hc => (ht c (hp.mem_iff.1 hc)).2.2), cardinal_add hw, sum_perm (hp.map cardinal)]

theorem sum_sublist {a b : List Nat} (h : a.Sublist b) : a.sum ≤ b.sum := by
  induction h with
  | slnil => simp
  | cons x _ ih => simp; omega
  | cons_cons x _ ih => simp; omega

theorem dedupBy_sublist {α κ : Type} [DecidableEq κ] (key : α → κ) : ∀ l : List α, (dedupBy key l).Sublist l
  | [] => by simp [dedupBy]
  | x :: xs => by
    rw [dedupBy]
    exact (List.filter_sublist.trans (dedupBy_sublist key xs)).cons_cons x

theorem card_sumTerms_le {cs : List Script} (hw : ∀ c ∈ cs, WF c) :
    ((sumTerms cs).map cardinal).sum ≤ (cs.map cardinal).sum := by
  let p : Script → Bool := fun c => !((cs.filter isAdd).any fun r => r.pyEq c)
  have hpa : ∀ c ∈ cs, p c = true → c.isAdd = false := by
    intro c hc hp
    cases ha : c.isAdd with
    | false => rfl
    | true =>
      simp only [p, Bool.not_eq_true', List.any_eq_false] at hp
      exact absurd (by simp [pyEq]) (hp c (List.mem_filter.2 ⟨hc, ha⟩))
  have h1 : ((sumTerms cs).map cardinal).sum ≤ (((cs ++ (cs.filter isAdd).flatMap children).filter p).map cardinal).sum :=
    sum_sublist ((dedupBy_sublist str _).map _)
  have h2 : ∀ ds : List Script, (∀ d ∈ ds, d ∈ cs) →
      ((ds.filter p).map cardinal).sum + (((ds.filter isAdd).flatMap children).map cardinal).sum ≤ (ds.map cardinal).sum := by
    intro ds
    induction ds with
    | nil => simp
    | cons d ds ih =>
      intro hm
      have ih := ih fun e he => hm e (List.mem_cons_of_mem _ he)
      have hd := hm d (by simp)
      cases ha : d.isAdd with
      | true =>
        have hpd : p d = false := by
          cases hpd : p d with
          | false => rfl
          | true => rw [hpa d hd hpd] at ha; cases ha
        have hc : (d.children.map cardinal).sum = d.cardinal := by
          cases d with
          | add es => rw [cardinal_add (hw _ hd)]; rfl
          | _ => cases ha
        simp only [List.filter_cons, hpd, ha, if_true, List.flatMap_cons, List.map_append, List.sum_append, List.map_cons,
          List.sum_cons, hc, Bool.false_eq_true, if_false]
        omega
      | false =>
        simp only [List.filter_cons, ha, Bool.false_eq_true, if_false, List.map_cons, List.sum_cons]
        split
        · simp only [List.map_cons, List.sum_cons]; omega
        · omega
  have h3 := h2 cs (fun _ h => h)
  rw [List.filter_append, List.map_append, List.sum_append] at h1
  have h4 : ((((cs.filter isAdd).flatMap children).filter p).map cardinal).sum ≤ (((cs.filter isAdd).flatMap children).map cardinal).sum :=
    sum_sublist (List.filter_sublist.map _)
  omega

/-- Evaluation of the sum constructor on well-formed scripts of one layer. -/
theorem mkAdd_eval {cs : List Script} (h : cs ≠ []) (hw : ∀ c ∈ cs, WF c) {l : Nat} (hl : ∀ c ∈ cs, c.layer = l) :
    mkAdd cs = if sumTerms cs = [] then .error .indexError
      else if ((sumTerms cs).map cardinal).sum > 360 then .error .tooMany
      else .ok (add (pySort lt (sumTerms cs))) := by
  cases cs with
  | nil => exact absurd rfl h
  | cons c cs =>
    rw [mkAdd, if_neg]
    · cases ht : sumTerms (c :: cs) with
      | nil => simp
      | cons t ts =>
        have hc : (add (t :: ts)).cardinal = ((t :: ts).map cardinal).sum := by
          rw [← ht]
          exact cardinal_terms (by rw [ht]; simp) (sumTerms_wf hw hl) (dedupBy_pairwise str _)
        rw [if_neg (by simp)]
        show (if (add (t :: ts)).cardinal > maxSingularSequences then _ else _) = _
        rw [hc, maxSS_eq]
    · simp only [Bool.not_eq_true, List.any_eq_false, decide_eq_true_eq, not_not]
      intro d hd
      rw [hl d hd, hl c (by simp)]

theorem mkAdd_mixed {cs : List Script} {c d : Script} (hc : c ∈ cs) (hd : d ∈ cs) (h : c.layer ≠ d.layer) :
    mkAdd cs = .error .incompatibleLayers := by
  cases cs with
  | nil => cases hc
  | cons e cs =>
    rw [mkAdd, if_pos]
    simp only [List.any_eq_true, decide_eq_true_eq]
    by_cases h1 : c.layer = e.layer
    · exact ⟨d, hd, by rw [← h1]; exact Ne.symm h⟩
    · exact ⟨c, hc, h1⟩

/-- Same error, or two scripts with the same text. -/
def SameResult : Except Err Script → Except Err Script → Prop
  | .ok s, .ok t => s.str = t.str
  | .error e, .error f => e = f
  | _, _ => False

theorem sameResult_refl (r : Except Err Script) : SameResult r r := by cases r <;> simp [SameResult]

theorem perm_of_mem {α : Type} [DecidableEq α] {a b : List α} (ha : a.Nodup) (hb : b.Nodup) (h : ∀ x, x ∈ a ↔ x ∈ b) : a.Perm b :=
  (List.perm_ext_iff_of_nodup ha hb).2 h

theorem remAdd?_of_str {ts us : List Script} (ht : ts ≠ []) (hu : us ≠ []) {l : Nat} (h1 : ∀ c ∈ ts, WF c ∧ c.isAdd = false ∧ c.layer = l)
    (h2 : ∀ c ∈ us, WF c ∧ c.isAdd = false ∧ c.layer = l) (h : ts.map str = us.map str) : (add ts).str = (add us).str := by
  have hn : ts.map norm = us.map norm := by
    have : ∀ {ts us : List Script}, (∀ c ∈ ts, WF c) → (∀ c ∈ us, WF c) → ts.map str = us.map str → ts.map norm = us.map norm := by
      intro ts
      induction ts with
      | nil => intro us _ _ h; simp only [List.map_nil] at h; rw [List.map_eq_nil_iff.1 h.symm]
      | cons t ts ih =>
        intro us a b h
        cases us with
        | nil => simp at h
        | cons u us =>
          simp only [List.map_cons, List.cons.injEq] at h ⊢
          exact ⟨norm_eq_of_str (a t (by simp)) (b u (by simp)) h.1,
            ih (fun c hc => a c (List.mem_cons_of_mem _ hc)) (fun c hc => b c (List.mem_cons_of_mem _ hc)) h.2⟩
    exact this (fun c hc => (h1 c hc).1) (fun c hc => (h2 c hc).1) h
  have hl : remAdd? ts = remAdd? us := by
    rw [remAdd?, remAdd?, layer_add_of ht fun c hc => (h1 c hc).2.2, layer_add_of hu fun c hc => (h2 c hc).2.2]
    split
    · rename_i h0
      have e : ∀ {ts : List Script}, (∀ c ∈ ts, WF c ∧ c.isAdd = false ∧ c.layer = l) → ts.map norm = ts := by
        intro ts h
        conv_rhs => rw [← List.map_id ts]
        refine List.map_congr_left fun c hc => ?_
        obtain ⟨a, b, d⟩ := h c hc
        rcases layer0_cases (by rw [d, h0]) b with rfl | ⟨p, rfl⟩
        · simp [norm]
        · simp [norm]
      rw [← e h1, ← e h2, hn]
    · rfl
  rw [str_add, str_add, hl, h]

theorem mkAdd_congr {cs ds : List Script} (hc : cs ≠ []) (hd : ds ≠ []) (hw : ∀ c ∈ cs, WF c) (hw' : ∀ c ∈ ds, WF c) {l : Nat}
    (hl : ∀ c ∈ cs, c.layer = l) (hl' : ∀ c ∈ ds, c.layer = l) (h : ∀ t, SumTexts cs t ↔ SumTexts ds t) :
    SameResult (mkAdd cs) (mkAdd ds) := by
  have w1 := sumTerms_wf hw hl
  have w2 := sumTerms_wf hw' hl'
  have hp : ((sumTerms cs).map str).Perm ((sumTerms ds).map str) := by
    refine perm_of_mem ?_ ?_ fun t => by rw [mem_sumTerms_str, mem_sumTerms_str, h]
    · rw [List.Nodup, List.pairwise_map]; exact dedupBy_pairwise str _
    · rw [List.Nodup, List.pairwise_map]; exact dedupBy_pairwise str _
  have hnil : sumTerms cs = [] ↔ sumTerms ds = [] := by
    rw [← List.length_eq_zero_iff, ← List.length_eq_zero_iff, ← List.length_map (f := str), hp.length_eq, List.length_map]
  have hcard : ((sumTerms cs).map cardinal).sum = ((sumTerms ds).map cardinal).sum := by
    have hf : ∀ t, ∃ n, ∀ s, WF s → s.str = t → s.cardinal = n := by
      intro t
      by_cases he : ∃ s, WF s ∧ s.str = t
      · obtain ⟨s, hs, rfl⟩ := he
        exact ⟨s.cardinal, fun s' hs' h => cardinal_of_str hs' hs h⟩
      · exact ⟨0, fun s hs h => absurd ⟨s, hs, h⟩ he⟩
    obtain ⟨f, hf⟩ := Classical.axiomOfChoice hf
    have e : ∀ {ts : List Script}, (∀ c ∈ ts, WF c ∧ c.isAdd = false ∧ c.layer = l) → ts.map cardinal = (ts.map str).map f := by
      intro ts h
      rw [List.map_map]
      exact List.map_congr_left fun c hc => hf _ c (h c hc).1 rfl
    rw [e w1, e w2, sum_perm (hp.map f)]
  rw [mkAdd_eval hc hw hl, mkAdd_eval hd hw' hl', hcard]
  by_cases hn : sumTerms cs = []
  · rw [if_pos hn, if_pos (hnil.1 hn)]; rfl
  · rw [if_neg hn, if_neg fun h => hn (hnil.2 h)]
    split
    · rfl
    · have hq : ∀ {ts : List Script}, ts ≠ [] → pySort lt ts ≠ [] := by
        intro ts ht h
        have := length_pySort lt ts
        rw [h] at this
        exact ht (List.length_eq_zero_iff.1 (by simpa using this.symm))
      refine remAdd?_of_str (hq hn) (hq fun h => hn (hnil.2 h)) (fun c hc => w1 c ((mem_pySort lt).1 hc))
        (fun c hc => w2 c ((mem_pySort lt).1 hc)) ?_
      exact sortScripts_ext (fun c hc => ⟨(w1 c hc).1, plain_of_not_isAdd (w1 c hc).2.1⟩)
        (fun c hc => ⟨(w2 c hc).1, plain_of_not_isAdd (w2 c hc).2.1⟩) hp

/-- The words of a sum come from its terms. -/
theorem den_mkAdd_sub {cs : List Script} {t : Script} (h : mkAdd cs = .ok t) (hw : ∀ c ∈ cs, WF c) {w : Word} (hd : Den t w) :
    ∃ c ∈ cs, Den c w := by
  obtain ⟨l, h1, h2, h3, h4, rfl⟩ := mkAdd_ok h
  obtain ⟨c, hc, hcw⟩ := den_add.1 hd
  rw [mem_pySort] at hc
  obtain ⟨_, h5 | ⟨ds, h5, h6⟩⟩ := mem_sumTerms hw hc
  · exact ⟨c, h5, hcw⟩
  · exact ⟨_, h5, .add h6 hcw⟩

theorem den_mkAdd {cs : List Script} {t : Script} (h : mkAdd cs = .ok t) (hw : ∀ c ∈ cs, WF c) (hp : ∀ c ∈ cs, Plain c)
    (w : Word) : Den t w ↔ ∃ c ∈ cs, Den c w := by
  refine ⟨den_mkAdd_sub h hw, ?_⟩
  rintro ⟨c, hc, hcw⟩
  obtain ⟨l, h1, h2, h3, h4, rfl⟩ := mkAdd_ok h
  obtain ⟨d, hd, hdw⟩ := (den_terms c w).1 hcw
  have : d.str ∈ (sumTerms cs).map str := mem_sumTerms_str.2 ((sumTexts_plain hw hp _).2 ⟨c, hc, d, hd, rfl⟩)
  obtain ⟨e, he, hes⟩ := List.mem_map.1 this
  refine .add ((mem_pySort lt).2 he) ?_
  exact (den_of_str (sumTerms_wf hw h2 e he).1 (terms_wf (hw c hc) d hd).1 hes w).2 hdw

theorem sumTerms_ne_nil {cs : List Script} (hw : ∀ c ∈ cs, WF c) (hp : ∀ c ∈ cs, Plain c) (h : cs ≠ []) : sumTerms cs ≠ [] := by
  obtain ⟨c, hc⟩ := List.exists_mem_of_ne_nil _ h
  obtain ⟨d, hd⟩ := List.exists_mem_of_ne_nil _ (terms_ne_nil (hw c hc))
  have : d.str ∈ (sumTerms cs).map str := mem_sumTerms_str.2 ((sumTexts_plain hw hp _).2 ⟨c, hc, d, hd, rfl⟩)
  intro he
  rw [he] at this
  cases this

end Script
end Verif
