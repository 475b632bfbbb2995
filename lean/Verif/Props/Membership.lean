import Verif.Lemmas.Membership
import Verif.Props.UslOrder

/-
Property C79: what `in` and `len` say of USLs.
-/

namespace Verif
open Script

theorem contains_usl {u v : Expr} (hu : ∀ s, u ≠ .script s) {a b : List Str} (ha : v.sequences = .ok a) (hb : u.sequences = .ok b) :
    u.contains v = .ok (a.all fun t => decide (t ∈ b)) := by
  cases u with
  | script s => exact absurd rfl (hu s)
  | pm p => simp [Expr.contains, ha, hb, bind, Except.bind, pure, Except.pure]
  | lexeme x => simp [Expr.contains, ha, hb, bind, Except.bind, pure, Except.pure]
  | word w => simp [Expr.contains, ha, hb, bind, Except.bind, pure, Except.pure]

theorem contains_sub {u v : Expr} (h : u.contains v = .ok true) :
    ∃ a b, v.sequences = .ok a ∧ u.sequences = .ok b ∧ ∀ t ∈ a, t ∈ b := by
  have key : (∀ s, u ≠ .script s) → ∃ a b, v.sequences = .ok a ∧ u.sequences = .ok b ∧ ∀ t ∈ a, t ∈ b := by
    intro hu
    cases ha : v.sequences with
    | error e =>
      cases u with
      | script s => exact absurd rfl (hu s)
      | pm p => simp [Expr.contains, ha, bind, Except.bind] at h
      | lexeme x => simp [Expr.contains, ha, bind, Except.bind] at h
      | word w => simp [Expr.contains, ha, bind, Except.bind] at h
    | ok a =>
      cases hb : u.sequences with
      | error e =>
        cases u with
        | script s => exact absurd rfl (hu s)
        | pm p => simp [Expr.contains, ha, hb, bind, Except.bind] at h
        | lexeme x => simp [Expr.contains, ha, hb, bind, Except.bind] at h
        | word w => simp [Expr.contains, ha, hb, bind, Except.bind] at h
      | ok b =>
        rw [contains_usl hu ha hb, Except.ok.injEq] at h
        exact ⟨a, b, rfl, rfl, by simpa using h⟩
  cases u with
  | script s =>
    cases v with
    | script t =>
      change s.contains t = .ok true at h
      unfold Script.contains at h
      split at h
      · cases h
      · obtain ⟨xs, h1, h⟩ := bind_ok.1 h
        obtain ⟨ys, h2, h⟩ := bind_ok.1 h
        rw [pure_ok] at h
        refine ⟨xs.map str, ys.map str, by simp [Expr.sequences, h1, Except.map], by simp [Expr.sequences, h2, Except.map], ?_⟩
        intro t ht
        obtain ⟨x, hx, rfl⟩ := List.mem_map.1 ht
        rw [List.all_eq_true] at h
        obtain ⟨y, hy, e⟩ := List.any_eq_true.1 (h x hx)
        exact List.mem_map.2 ⟨y, hy, by simpa [pyEq] using e⟩
    | pm p => cases h
    | lexeme x => cases h
    | word w => cases h
  | pm p => exact key fun s => by simp
  | lexeme x => exact key fun s => by simp
  | word w => exact key fun s => by simp

/-! ### A preorder -/

/-- A polymorpheme, a lexeme and a script that can be built are in themselves; so is every word whose sequences can be computed. -/
theorem C79_self : (∀ p, Expr.contains (.pm p) (.pm p) = .ok true) ∧ (∀ x, Expr.contains (.lexeme x) (.lexeme x) = .ok true) ∧
    (∀ w L, WordUsl.singularSequences w = .ok L → Expr.contains (.word w) (.word w) = .ok true) ∧
    ∀ s, Built s → Expr.contains (.script s) (.script s) = .ok true := by
  refine ⟨fun p => ?_, fun x => ?_, fun w L h => ?_, fun s h => ?_⟩
  · obtain ⟨L, h⟩ := pm_total p
    have : (Expr.pm p).sequences = .ok (L.map PM.text) := by simp [Expr.sequences, h, Except.map]
    rw [contains_usl (fun s => by simp) this this, Except.ok.injEq, List.all_eq_true]
    exact fun t ht => by simpa using ht
  · obtain ⟨L, h⟩ := lexeme_total x
    have : (Expr.lexeme x).sequences = .ok (L.map Lexeme.text) := by simp [Expr.sequences, h, Except.map]
    rw [contains_usl (fun s => by simp) this this, Except.ok.injEq, List.all_eq_true]
    exact fun t ht => by simpa using ht
  · have : (Expr.word w).sequences = .ok (L.map WordUsl.text) := by simp [Expr.sequences, h, Except.map]
    rw [contains_usl (fun s => by simp) this this, Except.ok.injEq, List.all_eq_true]
    exact fun t ht => by simpa using ht
  · exact (contains_iff (built_wf h) (built_wf h)).2 (Within.refl s)

/-- Membership is transitive, also between scripts, polymorphemes, lexemes and words. -/
theorem C79_trans {a b c : Expr} (h1 : b.contains a = .ok true) (h2 : c.contains b = .ok true) : c.contains a = .ok true := by
  obtain ⟨ta, tb, ha, hb, hab⟩ := contains_sub h1
  obtain ⟨tb', tc, hb', hc, hbc⟩ := contains_sub h2
  rw [hb, Except.ok.injEq] at hb'
  subst hb'
  have key : (∀ s, c ≠ .script s) → c.contains a = .ok true := by
    intro hn
    rw [contains_usl hn ha hc, Except.ok.injEq, List.all_eq_true]
    exact fun t ht => by simpa using hbc t (hab t ht)
  cases c with
  | script s =>
    cases b with
    | pm p => cases h2
    | lexeme x => cases h2
    | word w => cases h2
    | script t =>
      cases a with
      | pm p => cases h1
      | lexeme x => cases h1
      | word w => cases h1
      | script r =>
        have layers : ∀ {x y : Script}, x.contains y = .ok true → y.layer = x.layer := by
          intro x y h
          unfold Script.contains at h
          split at h
          · cases h
          · rename_i hl; simpa using hl
        have l1 := layers (x := t) (y := r) h1
        have l2 := layers (x := s) (y := t) h2
        change s.contains r = .ok true
        simp only [Expr.sequences] at ha hc
        cases hr : r.singularSequences with
        | error e => rw [hr] at ha; cases ha
        | ok xs =>
          cases hs : s.singularSequences with
          | error e => rw [hs] at hc; cases hc
          | ok ys =>
            rw [hr] at ha
            rw [hs] at hc
            have ea : ta = xs.map str := (Except.ok.inj ha).symm
            have ec : tc = ys.map str := (Except.ok.inj hc).symm
            subst ea ec
            unfold Script.contains
            rw [if_neg (by rw [l1, l2]; simp), hr, hs]
            simp only [bind, Except.bind, pure, Except.pure, Except.ok.injEq, List.all_eq_true]
            intro x hx
            obtain ⟨y, hy, e⟩ := List.mem_map.1 (hbc _ (hab _ (List.mem_map_of_mem hx)))
            exact List.any_eq_true.2 ⟨y, hy, by simp [pyEq, e]⟩
  | pm p => exact key fun s => by simp
  | lexeme x => exact key fun s => by simp
  | word w => exact key fun s => by simp

/-! ### Sequences are members and singular -/

/-- Every sequence of a polymorpheme is in it and has length 1. -/
theorem C79_polymorpheme_sequences {p m : PM} {L : List PM} (h : p.singularSequences = .ok L) (hm : m ∈ L) :
    Expr.contains (.pm p) (.pm m) = .ok true ∧ (Expr.pm m).length = .ok 1 ∧ (Expr.pm m).isSingular = .ok true := by
  have e1 : (Expr.pm m).sequences = .ok [m.text] := by simp [Expr.sequences, pm_sequence_single h hm, Except.map]
  have e2 : (Expr.pm p).sequences = .ok (L.map PM.text) := by simp [Expr.sequences, h, Except.map]
  refine ⟨?_, by simp [Expr.length, e1, Except.map], by simp [Expr.isSingular, Expr.length, e1, Except.map]⟩
  rw [contains_usl (fun s => by simp) e1 e2]
  simpa using ⟨m, hm, rfl⟩

/-- Every sequence of a lexeme is in it and has length 1. -/
theorem C79_lexeme_sequences {x y : Lexeme} {L : List Lexeme} (h : x.singularSequences = .ok L) (hy : y ∈ L) :
    Expr.contains (.lexeme x) (.lexeme y) = .ok true ∧ (Expr.lexeme y).length = .ok 1 ∧ (Expr.lexeme y).isSingular = .ok true := by
  have e1 : (Expr.lexeme y).sequences = .ok [y.text] := by simp [Expr.sequences, lexeme_sequence_single h hy, Except.map]
  have e2 : (Expr.lexeme x).sequences = .ok (L.map Lexeme.text) := by simp [Expr.sequences, h, Except.map]
  refine ⟨?_, by simp [Expr.length, e1, Except.map], by simp [Expr.isSingular, Expr.length, e1, Except.map]⟩
  rw [contains_usl (fun s => by simp) e1 e2]
  simpa using ⟨y, hy, rfl⟩

/-- Every sequence of a word read from a list of roles is in it and has length 1; the sequences exist when every role has a lexeme. -/
theorem C79_word_sequences {l : List (RoleEntry Lexeme)} {t : SType} {f : SFun Lexeme} {role : Addr} {w : WordUsl} (hf : fromList l = .ok (t, f))
    (hw : mkWord f role t = .ok w) (hx : ∀ e ∈ f.asList t, ∃ x, e.2 = some x) :
    ∃ L, w.singularSequences = .ok L ∧ ∀ w' ∈ L, Expr.contains (.word w) (.word w') = .ok true ∧ (Expr.word w').length = .ok 1 ∧
      (Expr.word w').isSingular = .ok true := by
  have hxss : ∀ es : List (RoleEntry Lexeme), (∀ e ∈ es, ∃ x, e.2 = some x) →
      ∃ xss : List (List Lexeme), List.Forall₂ (fun e xs => ∃ x : Lexeme, e.2 = some x ∧ x.singularSequences = .ok xs) es xss := by
    intro es hf
    induction es with
    | nil => exact ⟨[], .nil⟩
    | cons e l ih =>
      obtain ⟨xss, h⟩ := ih fun e he => hf e (by simp [he])
      obtain ⟨x, h1⟩ := hf e (by simp)
      obtain ⟨xs, h3⟩ := lexeme_total x
      exact ⟨xs :: xss, .cons ⟨x, h1, h3⟩ h⟩
  obtain ⟨xss, hxss⟩ := hxss _ hx
  obtain ⟨L, h1, _, h3, _⟩ := C48_word_partial hf hw hxss
  refine ⟨L, h1, fun w' hw' => ?_⟩
  obtain ⟨k1, _, k3⟩ := word_sequence_made (fromList_shape hf) hw h1 hw'
  have : w'.sfun.asList t ∈ (prodL xss).map (withActors (f.asList t)) := by
    rw [← h3]
    exact List.mem_map_of_mem (f := fun w : WordUsl => w.sfun.asList t) hw'
  obtain ⟨xs, hxs, e⟩ := List.mem_map.1 this
  have hsing : ∀ x ∈ xs, x.singularSequences = .ok [x] := by
    intro x hx
    obtain ⟨ys, hy1, hy2⟩ := forall₂_mem_left (mem_prodL.1 hxs) hx
    obtain ⟨_, _, y, _, hs⟩ := forall₂_mem_right hxss hy1
    exact lexeme_sequence_single hs hy2
  have hone : List.Forall₂ (fun e xs => ∃ x : Lexeme, e.2 = some x ∧ x.singularSequences = .ok xs) (w'.sfun.asList t) (xs.map fun x => [x]) := by
    rw [← e]
    have hlen : xs.length = (f.asList t).length := ((mem_prodL.1 hxs).length_eq).trans hxss.length_eq.symm
    clear e this hxs
    generalize f.asList t = es at hlen
    induction xs generalizing es with
    | nil => simp [withActors]
    | cons x xs ih =>
      cases es with
      | nil => cases hlen
      | cons e es =>
        exact .cons ⟨x, rfl, hsing x (by simp)⟩ (ih (fun y hy => hsing y (by simp [hy])) es (by simpa using hlen))
  obtain ⟨M, m1, m2, _⟩ := C48_word_partial (fromList_back k1) k3 hone
  have m3 : M.length = 1 := by
    rw [m2, List.map_map]
    have : ((List.length ∘ fun x : Lexeme => [x]) : Lexeme → Nat) = fun _ => 1 := rfl
    rw [this]
    simp
  obtain ⟨w'', rfl⟩ := List.length_eq_one_iff.1 m3
  have hself : w'' = w' := by
    unfold WordUsl.singularSequences at m1
    obtain ⟨ss, _, m1⟩ := bind_ok.1 m1
    split at m1
    · rw [pure_ok] at m1
      exact (List.cons.inj m1).1.symm
    · rename_i hn
      exact absurd (by rw [(mapM_inv m1).length_eq]; rfl) hn
  subst hself
  have e1 : (Expr.word w'').sequences = .ok [w''.text] := by simp [Expr.sequences, m1, Except.map]
  have e2 : (Expr.word w).sequences = .ok (L.map WordUsl.text) := by simp [Expr.sequences, h1, Except.map]
  refine ⟨?_, by simp [Expr.length, e1, Except.map], by simp [Expr.isSingular, Expr.length, e1, Except.map]⟩
  rw [contains_usl (fun s => by simp) e1 e2]
  simpa using ⟨w'', hw', rfl⟩

/-- **C79**: an element is singular exactly when it has one sequence. -/
theorem C79_singular (u : Expr) : (u.isSingular = .ok true ↔ ∃ s, u.sequences = .ok [s]) ∧
    (u.isSingular = .ok false ↔ ∃ l, u.sequences = .ok l ∧ l.length ≠ 1) := by
  unfold Expr.isSingular Expr.length
  cases u.sequences with
  | error e => simp [Except.map]
  | ok l => simp [Except.map, List.length_eq_one_iff]

/-! ### Polymorphemes -/

/-- A polymorpheme without groups is in a polymorpheme with groups exactly when its morphemes, each given once, are those of
the constants and of a balanced selection, at most five with the mark of missing constants.  Missing: the items with groups, for
which every sequence of the item has to be of that form (`C79_members`), and those polymorphemes built with one-term sums. -/
theorem C79_polymorpheme_partial {cs cs' : List Script} {gs : List Group} {ml : Nat} (hc : ∀ x ∈ cs, Orderly x) (hg : ∀ g ∈ gs, ∀ x ∈ g.1, Orderly x)
    (hc' : ∀ x ∈ cs', Orderly x) (hml : SmallestSize (mkPM cs gs).groups ml) :
    Expr.contains (.pm (mkPM cs gs)) (.pm (mkPM cs' [])) = .ok true ↔
      ∃ q sels, Selection (mkPM cs gs).groups ml q sels ∧ distinct (sels.flatten ++ (mkPM cs gs).constant) ≤ 5 ∧
        Gathers (sels.flatten ++ (mkPM cs gs).constant) (mkPM cs' []) := by
  obtain ⟨L, h1, _, h3, h4⟩ := (C43_sequences_partial (cs := cs) (gs := gs) (fun x hx => (hc x hx).1) fun g hg' x hx => (hg g hg' x hx).1).2 ml hml
  have hok : OkPM (mkPM cs gs) := ⟨cs, gs, rfl, hc, hg⟩
  have hok' : OkPM (mkPM cs' []) := ⟨cs', [], rfl, hc', by simp⟩
  have e1 : (Expr.pm (mkPM cs' [])).sequences = .ok [(mkPM cs' []).text] := by
    simp [Expr.sequences, pm_single (p := mkPM cs' []) rfl, Except.map]
  have e2 : (Expr.pm (mkPM cs gs)).sequences = .ok (L.map PM.text) := by simp [Expr.sequences, h1, Except.map]
  rw [contains_usl (fun s => by simp) e1 e2]
  have hmem : (Except.ok ([(mkPM cs' []).text].all fun t => decide (t ∈ L.map PM.text)) : Except Err Bool) = .ok true ↔
      ∃ m ∈ L, m.text = (mkPM cs' []).text := by simp
  rw [hmem]
  have meant : ∀ {m : PM}, OkPM m → (∀ t, (∃ x, Meant m.constant x ∧ x.str = t) ↔ t ∈ (m.constant.filter fun x => x.empty = false).map str) := by
    intro m _ t
    simp [Meant]
  have nodups : ∀ {m : PM}, OkPM m → (m.constant.Pairwise (fun x y => x.str ≠ y.str) ↔ ((m.constant.filter fun x => x.empty = false).map str).Nodup) := by
    intro m hm
    rw [List.Nodup, List.pairwise_map]
    rcases hm.constant with ⟨k, _⟩ | ⟨k, _⟩
    · rw [← k]
    · rw [k]; simp [Script.empty]
  constructor
  · rintro ⟨m, hm, ht⟩
    have hom := (pm_sequence h1 hm).2 hok
    obtain ⟨q, sels, hs, hd, hgm⟩ := h3 m hm
    have hsays := congrArg Prod.fst ((textPM_iff hom hok').1 ht)
    change List.map _ _ = List.map _ _ at hsays
    refine ⟨q, sels, hs, hd, rfl, ?_, fun t => ?_⟩
    · rw [nodups hok', ← hsays, ← nodups hom]
      exact hgm.nodup
    · rw [meant hok', ← hsays, ← meant hom]
      exact hgm.mem t
  · rintro ⟨q, sels, hs, hd, hga⟩
    obtain ⟨m, hm, hgm⟩ := h4 q sels hs hd
    have hom := (pm_sequence h1 hm).2 hok
    refine ⟨m, hm, ?_⟩
    obtain ⟨c, g, rfl, hcm, hgm'⟩ := hom
    have hom : OkPM (mkPM c g) := ⟨c, g, rfl, hcm, hgm'⟩
    have hg0 : g = [] := by
      have := hgm.groups
      simp only [mkPM] at this
      have := congrArg List.length this
      rw [length_pySort, List.length_map] at this
      exact List.length_eq_zero_iff.1 this
    subst hg0
    refine (C41_normal_form_partial (fun x hx => ?_) (by simp) ?_ ⟨[], .nil, .nil⟩).text
    · rcases List.mem_append.1 hx with hx | hx
      · exact hcm x hx
      · exact hc' x hx
    · have shown : ∀ d : List Script, ((mkPM d []).constant.filter fun x => x.empty = false).Perm (d.filter fun x => x.empty = false) := by
        intro d
        rcases (C41_contents d []).1 with hp | ⟨hp, he⟩
        · have := hp.filter fun x => decide (x.empty = false)
          rwa [List.filter_filter, show (fun a : Script => decide (a.empty = false) && decide (a.empty = false)) = fun a => decide (a.empty = false) by
            funext a; simp] at this
        · rw [hp, show (d.filter fun x => decide (x.empty = false)) = [] by
            rw [List.filter_eq_nil_iff]; intro x hx; simp [he x hx]]
          simp [Script.empty]
      refine ((shown c).symm.map str).trans (List.Perm.trans ?_ ((shown cs').map str))
      rw [List.perm_ext_iff_of_nodup ((nodups hom).1 hgm.nodup) ((nodups hok').1 hga.nodup)]
      intro t
      rw [← meant hom, ← meant hok', hgm.mem, hga.mem]

/-- Whatever the two elements, neither being a script: an element is in another exactly when every one of its sequences is. -/
theorem C79_members {u : Expr} {p : PM} {L : List PM} (hu : ∀ s, u ≠ .script s) {b : List Str} (hb : u.sequences = .ok b)
    (h : p.singularSequences = .ok L) : Expr.contains u (.pm p) = .ok true ↔ ∀ m ∈ L, Expr.contains u (.pm m) = .ok true := by
  have e2 : (Expr.pm p).sequences = .ok (L.map PM.text) := by simp [Expr.sequences, h, Except.map]
  rw [contains_usl hu e2 hb, Except.ok.injEq, List.all_eq_true]
  constructor
  · intro k m hm
    have e1 : (Expr.pm m).sequences = .ok [m.text] := by simp [Expr.sequences, pm_sequence_single h hm, Except.map]
    rw [contains_usl hu e1 hb]
    simpa using k _ (List.mem_map_of_mem hm)
  · intro k t ht
    obtain ⟨m, hm, rfl⟩ := List.mem_map.1 ht
    have e1 : (Expr.pm m).sequences = .ok [m.text] := by simp [Expr.sequences, pm_sequence_single h hm, Except.map]
    have := k m hm
    rw [contains_usl hu e1 hb] at this
    simpa using this

/-! ### Lexemes -/

/-- A lexeme is in another exactly when its flexion and its content are in those of the other.  Missing: lexemes that are their own
sequence although their flexion or content has a group (`C79_violated_lexeme`), and items without sequence (`C79_violated_empty`). -/
theorem C79_lexeme_partial {x y : Lexeme} {a b a' b' : List PM} (hx : OkLex x) (hy : OkLex y)
    (ha : x.flexion.singularSequences = .ok a) (hb : x.content.singularSequences = .ok b)
    (ha' : y.flexion.singularSequences = .ok a') (hb' : y.content.singularSequences = .ok b')
    (hox : OwnSequence x a b) (hoy : OwnSequence y a' b') (hna : a ≠ []) (hnb : b ≠ []) :
    Expr.contains (.lexeme y) (.lexeme x) = .ok true ↔
      Expr.contains (.pm y.flexion) (.pm x.flexion) = .ok true ∧ Expr.contains (.pm y.content) (.pm x.content) = .ok true := by
  have pairs : ∀ {x : Lexeme} {a b : List PM}, OkLex x → x.flexion.singularSequences = .ok a → x.content.singularSequences = .ok b → OwnSequence x a b →
      ∃ L, x.singularSequences = .ok L ∧ (∀ z ∈ L, OkLex z) ∧ (∀ z ∈ L, z.flexion ∈ a ∧ z.content ∈ b) ∧ ∀ f ∈ a, ∀ c ∈ b, ∃ z ∈ L, z.flexion = f ∧ z.content = c := by
    intro x a b hx ha hb ho
    obtain ⟨f, c, rfl, hf, hc⟩ := hx
    have ha0 : f.singularSequences = .ok a := ha
    have hb0 : c.singularSequences = .ok b := hb
    obtain ⟨L, h1, _, h3⟩ := C48_lexeme_partial ha0 hb0
    obtain ⟨h3, _⟩ := h3 ho
    refine ⟨L, h1, fun z hz => lexeme_sequence_ok ⟨f, c, rfl, hf, hc⟩ h1 hz, fun z hz => ?_, fun f' hf' c' hc' => ?_⟩
    · have : (z.flexion, z.content) ∈ a.product b := by
        rw [← h3]
        exact List.mem_map_of_mem (f := fun x : Lexeme => (x.flexion, x.content)) hz
      simpa [List.product] using this
    · have : (f', c') ∈ a.product b := by simpa [List.product] using ⟨hf', hc'⟩
      rw [← h3] at this
      obtain ⟨z, hz, e⟩ := List.mem_map.1 this
      exact ⟨z, hz, congrArg Prod.fst e, congrArg Prod.snd e⟩
  obtain ⟨L, h1, hok, h2, h3⟩ := pairs hx ha hb hox
  obtain ⟨L', h1', hok', h2', h3'⟩ := pairs hy ha' hb' hoy
  have sl : ∀ {x : Lexeme} {L : List Lexeme}, x.singularSequences = .ok L → (Expr.lexeme x).sequences = .ok (L.map Lexeme.text) := by
    intro x L h
    simp [Expr.sequences, h, Except.map]
  have sp : ∀ {x : PM} {L : List PM}, x.singularSequences = .ok L → (Expr.pm x).sequences = .ok (L.map PM.text) := by
    intro x L h
    simp [Expr.sequences, h, Except.map]
  have okx : OkPM x.flexion ∧ OkPM x.content := by obtain ⟨f, c, rfl, hf, hc⟩ := hx; exact ⟨hf, hc⟩
  have oky : OkPM y.flexion ∧ OkPM y.content := by obtain ⟨f, c, rfl, hf, hc⟩ := hy; exact ⟨hf, hc⟩
  have texts : ∀ {z z' : Lexeme}, z ∈ L → z' ∈ L' → (z.text = z'.text ↔ z.flexion.text = z'.flexion.text ∧ z.content.text = z'.content.text) := by
    intro z z' hz hz'
    rw [textLex_iff (hok z hz) (hok' z' hz'),
      textPM_iff ((pm_sequence ha (h2 z hz).1).2 okx.1) ((pm_sequence ha' (h2' z' hz').1).2 oky.1),
      textPM_iff ((pm_sequence hb (h2 z hz).2).2 okx.2) ((pm_sequence hb' (h2' z' hz').2).2 oky.2)]
  rw [contains_usl (fun s => by simp) (sl h1) (sl h1'), contains_usl (fun s => by simp) (sp ha) (sp ha'),
    contains_usl (fun s => by simp) (sp hb) (sp hb')]
  simp only [Except.ok.injEq, List.all_eq_true, decide_eq_true_eq]
  rw [List.forall_mem_map, List.forall_mem_map, List.forall_mem_map]
  simp only [List.mem_map]
  obtain ⟨f0, hf0⟩ := List.exists_mem_of_ne_nil _ hna
  obtain ⟨c0, hc0⟩ := List.exists_mem_of_ne_nil _ hnb
  constructor
  · intro h
    constructor
    · intro f hf
      obtain ⟨z, hz, rfl, _⟩ := h3 f hf c0 hc0
      obtain ⟨z', hz', e⟩ := h z hz
      exact ⟨z'.flexion, (h2' z' hz').1, (((texts hz hz').1 e.symm).1).symm⟩
    · intro c hc
      obtain ⟨z, hz, _, rfl⟩ := h3 f0 hf0 c hc
      obtain ⟨z', hz', e⟩ := h z hz
      exact ⟨z'.content, (h2' z' hz').2, (((texts hz hz').1 e.symm).2).symm⟩
  · rintro ⟨k1, k2⟩ z hz
    obtain ⟨f, hf, ef⟩ := k1 _ (h2 z hz).1
    obtain ⟨c, hc, ec⟩ := k2 _ (h2 z hz).2
    obtain ⟨z', hz', rfl, rfl⟩ := h3' f hf c hc
    exact ⟨z', hz', ((texts hz hz').2 ⟨ef.symm, ec.symm⟩).symm⟩

/-! ### Words -/

theorem word_contains {w v : WordUsl} {t : SType} {f g : SFun Lexeme} {r : Addr} (hw : WordData w t f r) (hv : WordData v t g r)
    (ha : f.items.map (·.1) = g.items.map (·.1)) (hn : ∀ e ∈ f.items, ∀ x, e.2 = some x → x.singularSequences ≠ .ok []) :
    Expr.contains (.word v) (.word w) = .ok true ↔
      List.Forall₂ (fun e e' : RoleEntry Lexeme => ∃ x y, e.2 = some x ∧ e'.2 = some y ∧ Expr.contains (.lexeme y) (.lexeme x) = .ok true) f.items g.items := by
  obtain ⟨xss, hx⟩ := item_sequences hw.full
  obtain ⟨yss, hy⟩ := item_sequences hv.full
  obtain ⟨L, l1, l2, l3⟩ := word_items hw hx
  obtain ⟨M, m1, m2, m3⟩ := word_items hv hy
  have e1 : (Expr.word w).sequences = .ok (L.map WordUsl.text) := by simp [Expr.sequences, l1, Except.map]
  have e2 : (Expr.word v).sequences = .ok (M.map WordUsl.text) := by simp [Expr.sequences, m1, Except.map]
  have hlen : f.items.length = g.items.length := by simpa using congrArg List.length ha
  have lenx : ∀ {xs}, xs ∈ prodL xss → xs.length = f.items.length := fun h => ((mem_prodL.1 h).length_eq).trans hx.length_eq.symm
  have leny : ∀ {ys}, ys ∈ prodL yss → ys.length = g.items.length := fun h => ((mem_prodL.1 h).length_eq).trans hy.length_eq.symm
  have key : (∀ w' ∈ L, ∃ v' ∈ M, v'.text = w'.text) ↔ ∀ t ∈ prodL (xss.map (·.map Lexeme.text)), t ∈ prodL (yss.map (·.map Lexeme.text)) := by
    rw [prodL_map, prodL_map, List.forall_mem_map]
    constructor
    · intro h xs hxs
      have : relab f.items (xs.map some) ∈ L.map (fun w => w.sfun.items) := by
        rw [l2]; exact List.mem_map_of_mem (f := fun xs => relab f.items (xs.map some)) hxs
      obtain ⟨w', hw', e⟩ := List.mem_map.1 this
      obtain ⟨v', hv', et⟩ := h w' hw'
      have : v'.sfun.items ∈ (prodL yss).map (fun ys => relab g.items (ys.map some)) := by
        rw [← m2]; exact List.mem_map_of_mem (f := fun w : WordUsl => w.sfun.items) hv'
      obtain ⟨ys, hys, e'⟩ := List.mem_map.1 this
      refine List.mem_map.2 ⟨ys, hys, ?_⟩
      have := (word_text_iff (m3 v' hv').1 (l3 w' hw').1 (by rw [(m3 v' hv').2, (l3 w' hw').2, ha])).1 et
      rw [← e', e, says_relab (leny hys), says_relab (lenx hxs), ha] at this
      have := congrArg (List.map Prod.snd) this
      rw [List.map_snd_zip (by simp [leny hys]), List.map_snd_zip (by simp [lenx hxs, hlen])] at this
      have hinj : Function.Injective (fun x : Str => some x) := fun _ _ h => Option.some.inj h
      rw [show (fun x : Lexeme => some x.text) = (fun t => some t) ∘ Lexeme.text from rfl, ← List.map_map, ← List.map_map] at this
      exact List.map_injective_iff.2 hinj this
    · intro h w' hw'
      have : w'.sfun.items ∈ (prodL xss).map (fun xs => relab f.items (xs.map some)) := by
        rw [← l2]; exact List.mem_map_of_mem (f := fun w : WordUsl => w.sfun.items) hw'
      obtain ⟨xs, hxs, e⟩ := List.mem_map.1 this
      obtain ⟨ys, hys, et⟩ := List.mem_map.1 (h xs hxs)
      have : relab g.items (ys.map some) ∈ M.map (fun w => w.sfun.items) := by
        rw [m2]; exact List.mem_map_of_mem (f := fun xs => relab g.items (xs.map some)) hys
      obtain ⟨v', hv', e'⟩ := List.mem_map.1 this
      refine ⟨v', hv', (word_text_iff (m3 v' hv').1 (l3 w' hw').1 (by rw [(m3 v' hv').2, (l3 w' hw').2, ha])).2 ?_⟩
      rw [e', ← e, says_relab (leny hys), says_relab (lenx hxs), ha]
      congr 1
      rw [show (fun x : Lexeme => some x.text) = (fun t => some t) ∘ Lexeme.text from rfl, ← List.map_map, ← List.map_map, et]
  rw [contains_usl (fun s => by simp) e1 e2]
  simp only [Except.ok.injEq, List.all_eq_true, List.forall_mem_map, decide_eq_true_eq]
  simp only [List.mem_map]
  rw [key, prodL_sub ?_, List.forall₂_map_left_iff, List.forall₂_map_right_iff]
  · clear key l2 l3 m2 m3 e1 e2 l1 m1 lenx leny hw hv ha
    generalize f.items = es at *
    generalize g.items = es' at *
    induction hx generalizing es' yss with
    | nil =>
      cases es' with
      | cons _ _ => cases hlen
      | nil => cases hy; simp
    | @cons e xs l ls he hx ih =>
      cases hy with
      | nil => cases hlen
      | @cons e' ys l' ls' he' hy =>
        have ih := ih _ (fun e he => hn e (by simp [he])) _ hy (by simpa using hlen)
        rw [List.forall₂_cons, List.forall₂_cons]
        refine and_congr ?_ ih
        obtain ⟨x, k1, _, k3⟩ := he
        obtain ⟨y, k1', _, k3'⟩ := he'
        have s1 : (Expr.lexeme x).sequences = .ok (xs.map Lexeme.text) := by simp [Expr.sequences, k3, Except.map]
        have s2 : (Expr.lexeme y).sequences = .ok (ys.map Lexeme.text) := by simp [Expr.sequences, k3', Except.map]
        have : Expr.contains (.lexeme y) (.lexeme x) = .ok true ↔ ∀ a ∈ xs.map Lexeme.text, a ∈ ys.map Lexeme.text := by
          rw [contains_usl (fun s => by simp) s1 s2, Except.ok.injEq, List.all_eq_true]
          simp only [decide_eq_true_eq]
        rw [← this]
        constructor
        · exact fun h => ⟨x, y, k1, k1', h⟩
        · rintro ⟨x', y', q1, q2, h⟩
          rw [k1, Option.some.injEq] at q1
          rw [k1', Option.some.injEq] at q2
          rwa [q1, q2]
  · intro l hl
    obtain ⟨xs, hxs, rfl⟩ := List.mem_map.1 hl
    obtain ⟨e, he, x, k1, _, k3⟩ := forall₂_mem_right hx hxs
    intro h
    rw [List.map_eq_nil_iff] at h
    exact hn e he x k1 (by rw [k3, h])

/-- A word is in another with the same addresses, the same kind and the same role exactly when at every address its lexeme is in that
of the other.  Missing: words with junctions, words with different addresses, items without sequence. -/
theorem C79_word_partial {l l' : List (RoleEntry Lexeme)} {t : SType} {f g : SFun Lexeme} {r : Addr} {w v : WordUsl}
    (hf : fromList l = .ok (t, f)) (hg : fromList l' = .ok (t, g)) (hw : mkWord f (t.pre ++ r) t = .ok w) (hv : mkWord g (t.pre ++ r) t = .ok v)
    (jf : ∀ e ∈ f.nodes, e.2.isJunction = false) (jg : ∀ e ∈ g.nodes, e.2.isJunction = false)
    (xf : ∀ e ∈ f.asList t, ∃ x, e.2 = some x ∧ OkLex x ∧ x.singularSequences ≠ .ok []) (xg : ∀ e ∈ g.asList t, ∃ x, e.2 = some x ∧ OkLex x)
    (ha : (f.asList t).map (·.1) = (g.asList t).map (·.1)) :
    Expr.contains (.word v) (.word w) = .ok true ↔
      List.Forall₂ (fun e e' : RoleEntry Lexeme => ∃ x y, e.2 = some x ∧ e'.2 = some y ∧ Expr.contains (.lexeme y) (.lexeme x) = .ok true)
        (f.asList t) (g.asList t) := by
  have push : ∀ {h : SFun Lexeme} {e}, e ∈ h.items → pushAddr t.pre e ∈ h.asList t := fun he => by
    rw [asList_items]; exact List.mem_map_of_mem he
  have dw : WordData w t f r := ⟨fromList_shape hf, hw, jf, fun e he => by
    obtain ⟨x, h1, h2, _⟩ := xf _ (push he); exact ⟨x, h1, h2⟩⟩
  have dv : WordData v t g r := ⟨fromList_shape hg, hv, jg, fun e he => xg (pushAddr t.pre e) (push he)⟩
  rw [word_contains dw dv ?_ ?_, asList_items, asList_items, List.forall₂_map_left_iff, List.forall₂_map_right_iff]
  · rfl
  · rw [asList_items, asList_items, List.map_map, List.map_map] at ha
    have e : ((·.1) ∘ pushAddr t.pre : RoleEntry Lexeme → Addr) = (t.pre ++ ·) ∘ (·.1) := rfl
    rw [e, ← List.map_map, ← List.map_map] at ha
    exact List.map_injective_iff.2 (fun _ _ h => List.append_cancel_left h) ha
  · intro e he x hx hn
    obtain ⟨y, h1, _, h3⟩ := xf _ (push he)
    have : e.2 = some y := h1
    rw [hx, Option.some.injEq] at this
    exact h3 (this ▸ hn)

/-! ### What fails -/

/-- `U:.`. -/
def demoUU : Script := .mult (.prim .U) (.null 0) (.null 0)

/-- **Membership of lexemes does not follow their parts**: the content of the first is in that of the second and so is its flexion, but
the first is not in the second, which is its own sequence. -/
theorem C79_violated_lexeme : Expr.contains (.pm wFive) (.pm (mkPM [.prim .U, .prim .A, .prim .S, .prim .B, .prim .T] [])) = .ok true ∧
    Expr.contains (.lexeme (mkLexeme (mkPM [] []) wFive)) (.lexeme (mkLexeme (mkPM [] []) (mkPM [.prim .U, .prim .A, .prim .S, .prim .B, .prim .T] []))) =
      .ok false := by
  decide +kernel

/-- **Membership is not an order**: two different polymorphemes, each in the other. -/
theorem C79_violated_order : (mkPM [.prim .B] [([.prim .U], 1)]).text ≠ (mkPM [.prim .B] [([.prim .U], 2)]).text ∧
    Expr.contains (.pm (mkPM [.prim .B] [([.prim .U], 1)])) (.pm (mkPM [.prim .B] [([.prim .U], 2)])) = .ok true ∧
    Expr.contains (.pm (mkPM [.prim .B] [([.prim .U], 2)])) (.pm (mkPM [.prim .B] [([.prim .U], 1)])) = .ok true := by
  decide +kernel

/-- **A polymorpheme without sequence is in every polymorpheme, lexeme and word whose sequences can be computed**; such a
polymorpheme, accepted by `check`, exists. -/
theorem C79_violated_empty : wBig.check = true ∧
    ∀ (u : Expr) (b : List Str), (∀ s, u ≠ .script s) → u.sequences = .ok b → Expr.contains u (.pm wBig) = .ok true := by
  refine ⟨C44_violated.1, fun u b hu hb => ?_⟩
  have : (Expr.pm wBig).sequences = .ok [] := by decide +kernel
  rw [contains_usl hu this hb]
  rfl

/-- **Scripts and USLs do not mix evenly**: the script `U:` is in the polymorpheme `U:`, which is not in the script. -/
theorem C79_violated_script : Expr.contains (.pm (mkPM [.prim .U] [])) (.script (.prim .U)) = .ok true ∧
    Expr.contains (.script (.prim .U)) (.pm (mkPM [.prim .U] [])) = .ok false := by
  decide +kernel

/-! ### Concrete cases -/

-- A polymorpheme, some members and a stranger.
example : Expr.contains (.pm (mkPM [.prim .A] [([.prim .S, .prim .T], 1)])) (.pm (mkPM [.prim .A, .prim .S] [])) = .ok true ∧
    Expr.contains (.pm (mkPM [.prim .A] [([.prim .S, .prim .T], 1)])) (.pm (mkPM [.prim .A] [])) = .ok true ∧
    Expr.contains (.pm (mkPM [.prim .A] [([.prim .S, .prim .T], 1)])) (.pm (mkPM [.prim .A] [([.prim .T], 1)])) = .ok true ∧
    Expr.contains (.pm (mkPM [.prim .A] [([.prim .S, .prim .T], 1)])) (.pm (mkPM [.prim .A, .prim .S, .prim .T] [])) = .ok false ∧
    (Expr.pm (mkPM [.prim .A] [([.prim .S, .prim .T], 1)])).length = .ok 3 ∧
    SmallestSize (mkPM [.prim .A] [([.prim .S, .prim .T], 1)]).groups 2 := by
  refine ⟨by decide +kernel, by decide +kernel, by decide +kernel, by decide +kernel, by decide +kernel, ?_⟩
  have : (mkPM [.prim .A] [([.prim .S, .prim .T], 1)]).groups = [([.prim .S, .prim .T], 1)] := rfl
  rw [this]
  exact ⟨⟨_, List.mem_singleton.2 rfl, rfl⟩, by simp⟩

-- Transitivity meets its hypotheses.
example : Expr.contains (.pm (mkPM [.prim .A] [([.prim .T], 1)])) (.pm (mkPM [.prim .A, .prim .T] [])) = .ok true ∧
    Expr.contains (.pm (mkPM [.prim .A] [([.prim .S, .prim .T], 1)])) (.pm (mkPM [.prim .A] [([.prim .T], 1)])) = .ok true := by
  decide +kernel

-- Lexemes: `demoLex3` and one of its sequences, with all hypotheses of `C79_lexeme_partial`.
example : Expr.contains (.lexeme demoLex3) (.lexeme (mkLexeme (mkPM [.prim .U] []) (mkPM [.prim .A] [([.prim .S], 1)]))) = .ok true ∧
    Expr.contains (.lexeme demoLex3) (.lexeme demoLex2) = .ok false ∧ (Expr.lexeme demoLex3).length = .ok 3 ∧
    demoLex3.flexion.singularSequences.map List.length = .ok 1 ∧ demoLex3.content.singularSequences.map List.length = .ok 3 ∧
    demoLex2.content.singularSequences.map List.length = .ok 2 := by
  decide +kernel

/-- A narrower lexeme than `demoLex3`. -/
def demoLex4 : Lexeme := mkLexeme (mkPM [.prim .U] []) (mkPM [.prim .A] [([.prim .T], 1)])

-- Words: the second lexeme narrowed, then the first widened.
example : ∃ t f g v w, fromList [([c!"E:T:."], some demoLex2), ([c!"E:.n.-"], some demoLex4)] = .ok (t, f) ∧
    fromList demoPlain = .ok (t, g) ∧ mkWord f (t.pre ++ [c!"E:T:."]) t = .ok w ∧ mkWord g (t.pre ++ [c!"E:T:."]) t = .ok v ∧
    (∀ e ∈ f.nodes, e.2.isJunction = false) ∧ (∀ e ∈ g.nodes, e.2.isJunction = false) ∧
    (f.asList t).map (·.1) = (g.asList t).map (·.1) ∧ (Expr.word w).length = .ok 4 ∧ (Expr.word v).length = .ok 6 ∧
    Expr.contains (.word v) (.word w) = .ok true ∧ Expr.contains (.word w) (.word v) = .ok false := by
  refine ⟨.process, .process (some demoLex2) (c!"E:T:.") [(c!"E:.n.-", .dep (some demoLex4) none none)],
    .process (some demoLex2) (c!"E:T:.") [(c!"E:.n.-", .dep (some demoLex3) none none)], _, _, rfl, rfl, rfl, rfl, ?_, ?_, ?_⟩
  · intro e he
    rcases List.mem_cons.1 he with rfl | he
    · rfl
    · cases he
  · intro e he
    rcases List.mem_cons.1 he with rfl | he
    · rfl
    · cases he
  · decide +kernel

end Verif
