import Verif.Lemmas.Factorize
import Verif.Lemmas.FactorUnique
import Verif.Lemmas.FactorRepeat
import Verif.Props.Parser
import Verif.Props.Constructors

/-
C14 and C15: factorisation of scripts.
-/

namespace Verif
open Script

/-- The order of insertion is a possible order of iteration. -/
theorem factorOrder_insertion : FactorOrder (dedupBy str) := fun _ => .refl _

/-- **C14** Whatever the order of iteration over the sets of scripts, a script returned by `factorize` can be built by the
constructors and has the layer and the words of the given one. -/
theorem C14_factorize {ord : List Script → List Script} (ho : FactorOrder ord) {s t : Script} (hs : Built s)
    (h : factorize ord s = .ok t) : Built t ∧ SameMeaning s t := by
  obtain ⟨h1, h2, h3, _⟩ := (factorize_spec ho (built_wf hs)).1 t h
  exact ⟨built_iff_wf.2 h1, h2.symm, fun w => (h3 w).symm⟩

/-- **C14** The singular sequences of the script that is returned are those of the given one, and the script lists each of them
once, even if the given script repeats some of them. -/
theorem C14_sequences {ord : List Script → List Script} (ho : FactorOrder ord) {s t : Script} (hs : Built s)
    (h : factorize ord s = .ok t) :
    ∃ L M, s.singularSequences = .ok L ∧ t.singularSequences = .ok M ∧ (∀ x, x ∈ L.map str ↔ x ∈ M.map str) ∧
      (M.map str).Nodup := by
  have hw := built_wf hs
  obtain ⟨h1, h2, h3, W, hW, hc⟩ := (factorize_spec ho hw).1 t h
  obtain ⟨L, e⟩ := enum_exists hw
  obtain ⟨M, f⟩ := enum_exists h1
  refine ⟨L, M, e.run, f.run, ?_, enum_nodup_of_card h1 f (fun w => (hW w).trans (h3 w).symm) hc⟩
  have key : ∀ {a b : Script} {A B : List Script}, Enum a A → Enum b B → a.layer = b.layer → (∀ w, Den a w → Den b w) →
      ∀ x, x ∈ A.map str → x ∈ B.map str := by
    intro a b A B eA eB hl hd x hx
    obtain ⟨y, hy, rfl⟩ := List.mem_map.1 hx
    obtain ⟨w, hw⟩ := den_exists (eA.wf y hy)
    obtain ⟨z, hz, hzs⟩ := (mem_enum_iff eB (eA.wf y hy) (eA.one y hy) ((eA.layer y hy).trans hl)).2
      ⟨w, hw, hd w ((eA.den w).2 ⟨y, hy, hw⟩)⟩
    exact List.mem_map.2 ⟨z, hz, hzs⟩
  exact fun x => ⟨key e f h2.symm (fun w => (h3 w).2) x, key f e h2 (fun w => (h3 w).1) x⟩

/-- **C14** `script(text, factorize=True)` returns a script with the layer and the words of `script(text)`. -/
theorem C14_text {ord : List Script → List Script} (ho : FactorOrder ord) {text : Str} {t : Script}
    (h : scriptFactorized ord text = .ok t) : ∃ s, parseScript text = .ok s ∧ Built t ∧ SameMeaning s t := by
  rw [scriptFactorized] at h
  obtain ⟨s, hs, h⟩ := bind_ok.1 h
  rcases C18_outcomes_partial text with ⟨s', h1, h2⟩ | h1 | h1
  · rw [hs, Except.ok.injEq] at h1
    subst h1
    exact ⟨s, hs, C14_factorize ho h2 h⟩
  · rw [hs] at h1; cases h1
  · rw [hs] at h1; cases h1

/-- **C14** `factorize` of a list of scripts of at most 360 sequences in all, none of which is a one-term sum: a script returned
has the highest layer and exactly the words of the scripts, padded on the right to this layer; otherwise `KeyError` is
raised, and `ValueError` for the empty list. -/
theorem C14_list {ord : List Script → List Script} (ho : FactorOrder ord) {ss : List Script} (hb : ∀ s ∈ ss, Built s)
    (hp : ∀ s ∈ ss, NotOneTermSum s) (hc : (ss.map cardinal).sum ≤ 360) :
    ss = [] ∧ factorizeList ord ss = .error .valueError ∨ ss ≠ [] ∧ factorizeList ord ss = .error .keyError ∨
    ∃ t, factorizeList ord ss = .ok t ∧ Built t ∧ (∃ s ∈ ss, s.layer = t.layer) ∧ (∀ s ∈ ss, s.layer ≤ t.layer) ∧
      ∀ w, Den t w ↔ ∃ s ∈ ss, ∃ u, Den s u ∧ w = u ++ List.replicate (3 ^ t.layer - 3 ^ s.layer) none := by
  by_cases hne : ss = []
  · subst hne
    exact .inl ⟨rfl, rfl⟩
  · right
    obtain ⟨h1, h2⟩ := factorizeList_spec ho hne (fun s hs => ⟨built_wf (hb s hs), hp s hs⟩) hc
    rcases h1 with ⟨t, ht⟩ | h1
    · obtain ⟨h3, h4⟩ := h2 t ht
      exact .inr ⟨t, ht, built_iff_wf.2 h3, h4⟩
    · exact .inl ⟨hne, h1⟩

/-- Scripts of layers 0 and 1. -/
example : (factorizeList (dedupBy str) [.prim .U, .mult (.prim .A) (.null 0) (.null 0), .mult (.prim .A) (.prim .S) (.null 0)]).map str =
    .ok (c!"u.+O:.") := by decide +kernel
/-- Three sequences: two of them are put together and the third one is left apart. -/
example : (scriptFactorized (dedupBy str) (c!"U:U:U:.+U:A:U:.+A:U:U:.")).map str = .ok (c!"A:U:U:.+U:O:U:.") := by
  decide +kernel
/-- Repeated sequences are listed once. -/
example : (scriptFactorized (dedupBy str) (c!"O:U:U:.+U:U:U:.")).map str = .ok (c!"O:U:U:.") := by decide +kernel
/-- The result depends on the order of iteration only through the order in which a sum is given. -/
example : (scriptFactorized (fun l => (dedupBy str l).reverse) (c!"U:U:U:.+U:A:U:.+A:U:U:.")).map str = .ok (c!"A:U:U:.+U:O:U:.") := by
  decide +kernel
/-- The hypotheses hold for them. -/
example : FactorOrder (fun l => (dedupBy str l).reverse) := fun _ => List.reverse_perm _
example : Built (.add [.mult (.prim .U) (.prim .U) (.prim .U), .mult (.prim .U) (.prim .A) (.prim .U)]) :=
  built_of (by decide +kernel)

/-- C15, as it is stated: factorisation returns for every script. -/
def C15_claim : Prop := ∀ ord : List Script → List Script, FactorOrder ord → ∀ s, Built s → ∃ t, factorize ord s = .ok t

/-- A corner of a cube, the opposite corner, and its three neighbours. -/
def cornerSeqs : List Script :=
  [.mult (.prim .U) (.prim .U) (.prim .U), .mult (.prim .U) (.prim .A) (.prim .A), .mult (.prim .A) (.prim .U) (.prim .A),
    .mult (.prim .A) (.prim .A) (.prim .U), .mult (.prim .A) (.prim .A) (.prim .A)]

theorem cornerSum_error (ord : List Script → List Script) : factorize ord (.add cornerSeqs) = .error .keyError := by
  have h1 : (Script.add cornerSeqs).singularSequences = .ok cornerSeqs := by decide +kernel
  have h2 : splitSequences cornerSeqs = .error .keyError := by decide +kernel
  have hl : (Script.mult (.prim .U) (.prim .U) (.prim .U)).layer = 0 + 1 := by decide +kernel
  have h3 : factorLoop ord 0 (factor ord 0) cornerSeqs.length cornerSeqs = .error .keyError := by
    rw [factorLoop.eq_def, show cornerSeqs = _ :: _ :: _ from rfl]
    simp only [hl]
    rw [show (_ :: _ :: _ : List Script) = cornerSeqs from rfl, h2]
    rfl
  rw [factorize, h1]
  show factorSequences ord cornerSeqs = _
  rw [factorSequences.eq_def, show cornerSeqs = _ :: _ from rfl]
  simp only [hl]
  rw [factor, show (_ :: _ : List Script) = cornerSeqs from rfl, h3]
  rfl

/-- **C15** is false: the factorisation of `U:U:U:.+U:A:A:.+A:U:A:.+A:A:U:.+A:A:A:.` raises `KeyError`, in every process. -/
theorem C15_violated : ¬ C15_claim ∧ ∀ ord : List Script → List Script,
    scriptFactorized ord (c!"U:U:U:.+U:A:A:.+A:U:A:.+A:A:U:.+A:A:A:.") = .error .keyError := by
  refine ⟨fun h => ?_, fun ord => ?_⟩
  · obtain ⟨t, ht⟩ := h _ factorOrder_insertion (.add cornerSeqs) (built_of (by decide +kernel))
    rw [cornerSum_error] at ht
    cases ht
  · have hp : parseScript (c!"U:U:U:.+U:A:A:.+A:U:A:.+A:A:U:.+A:A:A:.") = .ok (.add cornerSeqs) := by decide +kernel
    rw [scriptFactorized, hp]
    exact cornerSum_error ord

/-- **C15** (part) Factorisation returns or raises `KeyError`: no other exception, and it terminates.  The full claim excludes
`KeyError`. -/
theorem C15_only_partial {ord : List Script → List Script} (ho : FactorOrder ord) {s : Script} (hs : Built s) :
    (∃ t, factorize ord s = .ok t) ∨ factorize ord s = .error .keyError := (factorize_spec ho (built_wf hs)).2.1

/-- **C15** (part) Factorisation returns for the scripts whose words, at every layer, are all the combinations of their thirds,
down to layers from which they vary in at most two roles. -/
theorem C15_factorable_partial {ord : List Script → List Script} (ho : FactorOrder ord) {s : Script} (hs : Built s)
    (hf : Factorable s.layer (Den s)) : ∃ t, factorize ord s = .ok t := (factorize_spec ho (built_wf hs)).2.2 hf

/-- **C15** (part) Factorisation returns for the scripts without sums above layer 0. -/
theorem C15_products_partial {ord : List Script → List Script} (ho : FactorOrder ord) {s : Script} (hs : Built s)
    (hp : PrimitiveSums s) : ∃ t, factorize ord s = .ok t :=
  C15_factorable_partial ho hs (factorable_primitiveSums (built_wf hs) hp)

/-- All the combinations of three sums of primitives. -/
example : PrimitiveSums (.mult (.add [.prim .U, .prim .A]) (.add [.prim .S, .prim .B]) (.add [.prim .U, .prim .A])) :=
  .mult (.add (by decide +kernel)) (.add (by decide +kernel)) (.add (by decide +kernel))
example : Built (.mult (.add [.prim .U, .prim .A]) (.add [.prim .S, .prim .B]) (.add [.prim .U, .prim .A])) :=
  built_of (by decide +kernel)

/-- **C74** (part) The factored form depends only on the words: two scripts of a layer that have the same words, none of them empty,
are factored alike (both fail, or both give the same script), even if one of them lists a sequence several times. -/
theorem C74_canonical_partial {ord : List Script → List Script} (ho : FactorOrder ord) {s t : Script} (hs : Built s) (ps : NotOneTermSum s)
    (ht : Built t) (pt : NotOneTermSum t) (hm : SameMeaning s t) (hne : ∀ w, Den s w → w ≠ List.replicate (3 ^ s.layer) none) :
    factorize ord s = factorize ord t :=
  factorize_same ho (built_wf hs) ps (built_wf ht) pt hm.1 hm.2 hne

/-- **C74** (part) Factorisation is idempotent, on the scripts without the empty word. -/
theorem C74_idempotent_partial {ord : List Script → List Script} (ho : FactorOrder ord) {s t : Script} (hs : Built s)
    (ps : NotOneTermSum s) (hne : ∀ w, Den s w → w ≠ List.replicate (3 ^ s.layer) none) (h : factorize ord s = .ok t) :
    factorize ord t = .ok t := by
  obtain ⟨hb, hm⟩ := C14_factorize ho hs h
  rw [← C74_canonical_partial ho hs ps hb (factorize_plain_of ho (built_wf hs) ps hne h) hm hne, h]

/-- **C74** (part) The factored form of a set of words is unique: two scripts that factorisation leaves unchanged, with the same words,
none of them empty, have the same text.  The full claim (C74) includes scripts with the empty word. -/
theorem C74_unique_partial {ord : List Script → List Script} (ho : FactorOrder ord) {s t s' t' : Script} (hs : Built s) (ps : NotOneTermSum s)
    (ht : Built t) (pt : NotOneTermSum t) (hm : SameMeaning s t) (hne : ∀ w, Den s w → w ≠ List.replicate (3 ^ s.layer) none)
    (f : factorize ord s = .ok s') (es : s'.str = s.str) (g : factorize ord t = .ok t') (et : t'.str = t.str) : s.str = t.str :=
  factored_unique ho (built_wf hs) ps (built_wf ht) pt hm.1 hm.2 hne f es g et

/-- A product of two sums and the sum of its four sequences. -/
def sumOfProducts : Script := .add [.mult (.prim .U) (.prim .S) (.null 0), .mult (.prim .U) (.prim .B) (.null 0),
  .mult (.prim .A) (.prim .S) (.null 0), .mult (.prim .A) (.prim .B) (.null 0)]
def productOfSums : Script := .mult (.add [.prim .U, .prim .A]) (.add [.prim .S, .prim .B]) (.null 0)

/-- `O:M:.` and `O:M:.+U:M:.`. -/
def plainProduct : Script := .mult (.add [.prim .U, .prim .A]) (.add [.prim .S, .prim .B, .prim .T]) (.null 0)
def repeatedSum : Script := .add [.mult (.prim .U) (.add [.prim .S, .prim .B, .prim .T]) (.null 0), plainProduct]

theorem sumOfProducts_same : SameMeaning sumOfProducts productOfSums := by
  have h : Built sumOfProducts := built_of (by decide +kernel)
  have hf : (match factorize (dedupBy str) sumOfProducts with | .ok t => t.str == productOfSums.str | _ => false) = true := by
    decide +kernel
  split at hf
  · rename_i t ht
    obtain ⟨h1, h2⟩ := C14_factorize factorOrder_insertion h ht
    have e : t.str = productOfSums.str := by simpa using hf
    have hw : WF productOfSums := built_wf (built_of (by decide +kernel))
    exact ⟨h2.1.trans (layer_of_str (built_wf h1) hw e), fun w => (h2.2 w).trans (den_of_str (built_wf h1) hw e w)⟩
  · cases hf

theorem nonempty_words {s : Script} {L : List Script} (hs : WF s) (h : s.singularSequences = .ok L)
    (hL : L.all (fun x => !x.empty) = true) : ∀ w, Den s w → w ≠ List.replicate (3 ^ s.layer) none := by
  have e := enum_of_run hs h
  rintro w hw rfl
  obtain ⟨x, hx, hxw⟩ := (e.den _).1 hw
  have := List.all_eq_true.1 hL x hx
  rw [← e.layer x hx, ← empty_iff_word (e.wf x hx) (e.one x hx)] at hxw
  rw [hxw] at this
  cases this

theorem enum_example {s : Script}
    (h : (match s.singularSequences with | .ok L => decide (L.map str).Nodup && L.all (fun x => !x.empty) | _ => false) = true) :
    ∃ L, s.singularSequences = .ok L ∧ (L.map str).Nodup ∧ L.all (fun x => !x.empty) = true := by
  split at h
  · rename_i L hL
    rw [Bool.and_eq_true, decide_eq_true_eq] at h
    exact ⟨L, hL, h⟩
  · cases h

/-- A sum of products and its product form are factored alike in every process. -/
example {ord : List Script → List Script} (ho : FactorOrder ord) : factorize ord sumOfProducts = factorize ord productOfSums := by
  have h1 : ∃ L, sumOfProducts.singularSequences = .ok L ∧ (L.map str).Nodup ∧ L.all (fun x => !x.empty) = true :=
    enum_example (by decide +kernel)
  obtain ⟨L, h1, n1, p⟩ := h1
  exact C74_canonical_partial ho (built_of (by decide +kernel)) (by simp [NotOneTermSum, sumOfProducts]) (built_of (by decide +kernel))
    (by simp [NotOneTermSum, productOfSums]) sumOfProducts_same (nonempty_words (built_wf (built_of (by decide +kernel))) h1 p)

/-- `O:M:.+U:M:.` lists the sequences of `U:M:.` twice; it is factored like `O:M:.`, in every process. -/
example {ord : List Script → List Script} (ho : FactorOrder ord) (h : SameMeaning repeatedSum plainProduct) :
    factorize ord repeatedSum = factorize ord plainProduct := by
  obtain ⟨L, h1, p⟩ : ∃ L, repeatedSum.singularSequences = .ok L ∧ L.all (fun x => !x.empty) = true := by
    have : (match repeatedSum.singularSequences with | .ok L => L.all (fun x => !x.empty) | _ => false) = true := by decide +kernel
    split at this
    · rename_i L hL
      exact ⟨L, hL, this⟩
    · cases this
  have hb : Built repeatedSum := built_of (by decide +kernel)
  exact C74_canonical_partial ho hb (by simp [NotOneTermSum, repeatedSum]) (built_of (by decide +kernel))
    (by simp [NotOneTermSum, plainProduct]) h (nonempty_words (built_wf hb) h1 p)

/-- The two scripts have the same words, and the first one repeats three of its nine sequences. -/
example : SameMeaning repeatedSum plainProduct ∧ repeatedSum.singularSequences.map (fun L => (L.length, (L.map str).dedup.length)) = .ok (9, 6) := by
  refine ⟨⟨rfl, fun w => ⟨fun h => ?_, fun h => .add (by simp) h⟩⟩, by decide +kernel⟩
  cases h with
  | add hm h =>
    rcases List.mem_cons.1 hm with rfl | hm
    · cases h with
      | mult h1 h2 h3 => exact .mult (.add (by simp) h1) h2 h3
    · rw [List.mem_singleton] at hm
      exact hm ▸ h

/-- What the factorisation of the sum gives is factored, and no other factored script has its words. -/
example {t : Script} (h : factorize (dedupBy str) sumOfProducts = .ok t) : factorize (dedupBy str) t = .ok t ∧
    ∀ u, Built u → NotOneTermSum u → SameMeaning productOfSums u → factorize (dedupBy str) u = .ok u → u.str = productOfSums.str := by
  obtain ⟨L, h1, n1, p⟩ := enum_example (s := sumOfProducts) (by decide +kernel)
  have hb : Built sumOfProducts := built_of (by decide +kernel)
  refine ⟨C74_idempotent_partial factorOrder_insertion hb (by simp [NotOneTermSum, sumOfProducts]) (nonempty_words (built_wf hb) h1 p) h,
    fun u hu pu hm hf => ?_⟩
  obtain ⟨M, h2, _, q⟩ := enum_example (s := productOfSums) (by decide +kernel)
  have hc : Built productOfSums := built_of (by decide +kernel)
  have hp : (match factorize (dedupBy str) productOfSums with | .ok t => t.str == productOfSums.str | _ => false) = true := by
    decide +kernel
  split at hp
  · rename_i t' ht'
    exact (C74_unique_partial factorOrder_insertion hc (by simp [NotOneTermSum, productOfSums]) hu pu hm (nonempty_words (built_wf hc) h2 q)
      ht' (by simpa using hp) hf rfl).symm
  · cases hp

end Verif
