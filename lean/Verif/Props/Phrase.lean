import Verif.Model.Phrase
import Verif.Props.Membership
import Verif.Props.Morphemes
import Verif.Props.Stability

/-
C93: phrases, and the sequences of the words they are made of.
-/

namespace Verif
open Script

/-! ### The sequences of lexemes and words are different -/

theorem nodup_prodL {α : Type} {R : α → α → Prop} : ∀ {ls : List (List α)}, (∀ l ∈ ls, l.Pairwise fun a b => ¬ R a b) →
    (prodL ls).Pairwise fun a b => ¬ List.Forall₂ R a b
  | [], _ => by simp [prodL]
  | l :: ls, h => by
    have ih := nodup_prodL (R := R) (ls := ls) fun m hm => h m (by simp [hm])
    rw [prodL, List.pairwise_flatMap]
    refine ⟨fun x _ => ?_, (h l (by simp)).imp ?_⟩
    · rw [List.pairwise_map]
      refine ih.imp ?_
      intro a b hab hh
      cases hh with | cons _ h2 => exact hab h2
    · intro x y hxy a ha b hb hh
      obtain ⟨a', _, rfl⟩ := List.mem_map.1 ha
      obtain ⟨b', _, rfl⟩ := List.mem_map.1 hb
      cases hh with | cons h1 _ => exact hxy h1

theorem pm_different {p : PM} {L : List PM} (h : p.singularSequences = .ok L) : L.Pairwise fun a b => a.text ≠ b.text := by
  unfold PM.singularSequences at h
  split at h
  · rw [Except.ok.injEq] at h; subst h; simp
  · obtain ⟨L', h1, h2, _⟩ := pmSequences_spec p.constant p.groups
    rw [h1, Except.ok.injEq] at h
    exact h ▸ h2

/-- The sequences of a lexeme of orderly morphemes have different texts. -/
theorem C93_lexeme_partial {x : Lexeme} (hx : OkLex x) {L : List Lexeme} (h : x.singularSequences = .ok L) :
    L.Pairwise fun a b => a.text ≠ b.text := by
  obtain ⟨a, ha⟩ := pm_total x.flexion
  obtain ⟨b, hb⟩ := pm_total x.content
  have da := pm_different ha
  have db := pm_different hb
  obtain ⟨f0, c0, rfl, h1, h2⟩ := hx
  have oa : ∀ f ∈ a, OkPM f := fun f hf => (pm_sequence ha hf).2 h1
  have ob : ∀ c ∈ b, OkPM c := fun c hc => (pm_sequence hb hc).2 h2
  rcases lexeme_sequence ha hb h with ⟨_, _, rfl⟩ | ⟨_, rfl⟩
  · simp
  · have key : ∀ f ∈ a, ∀ c ∈ b, ∀ f' ∈ a, ∀ c' ∈ b, (mkLexeme f c).text = (mkLexeme f' c').text → f.text = f'.text ∧ c.text = c'.text := by
      intro f hf c hc f' hf' c' hc' e
      have := (textLex_iff ⟨f, c, rfl, oa f hf, ob c hc⟩ ⟨f', c', rfl, oa f' hf', ob c' hc'⟩).1 e
      exact ⟨(textPM_iff (oa f hf) (oa f' hf')).2 this.1, (textPM_iff (ob c hc) (ob c' hc')).2 this.2⟩
    rw [List.pairwise_flatMap]
    refine ⟨fun f hf => ?_, da.imp_of_mem ?_⟩
    · rw [List.pairwise_map]
      refine db.imp_of_mem ?_
      intro c c' hc hc' hcc e
      exact hcc (key f hf c hc f hf c' hc' e).2
    · intro f f' hf hf' hff y hy y' hy' e
      obtain ⟨c, hc, rfl⟩ := List.mem_map.1 hy
      obtain ⟨c', hc', rfl⟩ := List.mem_map.1 hy'
      exact hff (key f hf c hc f' hf' c' hc' e).1

/-- The sequences of a word without junction of lexemes of orderly morphemes have different texts. -/
theorem C93_word_partial {w : WordUsl} (hw : OkWord w) {L : List WordUsl} (h : w.singularSequences = .ok L) :
    L.Pairwise fun a b => a.text ≠ b.text := by
  obtain ⟨t, f, r, hw⟩ := hw
  obtain ⟨xss, hx⟩ := item_sequences hw.full
  obtain ⟨L', h1, h2, h3⟩ := word_items hw hx
  have : L = L' := by rw [h] at h1; injection h1
  subst this
  have hlen : ∀ xs ∈ prodL xss, xs.length = f.items.length := fun xs h => ((mem_prodL.1 h).length_eq).trans hx.length_eq.symm
  have hd : (prodL xss).Pairwise fun a b => ¬ List.Forall₂ (fun x y : Lexeme => x.text = y.text) a b := by
    refine nodup_prodL fun l hl => ?_
    obtain ⟨e, _, x, _, ho, hs⟩ := forall₂_mem_right hx hl
    exact C93_lexeme_partial ho hs
  have hsays : ((prodL xss).map fun xs => (relab f.items (xs.map some)).map entrySays).Pairwise (· ≠ ·) := by
    rw [List.pairwise_map]
    refine hd.imp_of_mem ?_
    intro a b ha hb hab e
    rw [says_relab (hlen a ha), says_relab (hlen b hb)] at e
    apply hab
    have e2 := congrArg (List.map Prod.snd) e
    rw [List.map_snd_zip (by simp [hlen a ha]), List.map_snd_zip (by simp [hlen b hb])] at e2
    have e3 : a.map Lexeme.text = b.map Lexeme.text := by
      have := congrArg (List.map fun o : Option Str => o.getD []) e2
      simpa [Function.comp_def] using this
    rw [← List.forall₂_eq_eq_eq, List.forall₂_map_left_iff, List.forall₂_map_right_iff] at e3
    exact e3
  have e : (prodL xss).map (fun xs => (relab f.items (xs.map some)).map entrySays) = L.map fun w => w.sfun.items.map entrySays := by
    have := congrArg (List.map (List.map entrySays)) h2
    rw [List.map_map, List.map_map] at this
    exact this.symm
  rw [e, List.pairwise_map] at hsays
  refine hsays.imp_of_mem ?_
  intro a b ha hb hab hh
  obtain ⟨ka, ka'⟩ := h3 a ha
  obtain ⟨kb, kb'⟩ := h3 b hb
  exact hab ((word_text_iff ka kb (ka'.trans kb'.symm)).1 hh)

/-! ### What words are made of -/

theorem okPM_made {p : PM} (h : OkPM p) : MadePM p := by
  obtain ⟨cs, gs, rfl, h1, h2⟩ := h
  exact ⟨cs, gs, rfl, fun x hx => built_wf (h1 x hx).1, fun g hg x hx => built_wf (h2 g hg x hx).1⟩

theorem okLex_made {x : Lexeme} (h : OkLex x) : MadeLexeme x := by
  obtain ⟨f, c, rfl, h1, h2⟩ := h
  exact ⟨f, c, rfl, okPM_made h1, okPM_made h2⟩

theorem address_made : ∀ a ∈ addressScripts, ∃ s, WF s ∧ a = s.str := by
  intro a ha
  have h := C49_addresses.2 a ha
  cases hp : parseScript a with
  | error e => rw [hp] at h; cases h
  | ok s => rw [hp] at h; exact ⟨s, gives_parse a s hp, by injection h with h; exact h.symm⟩

theorem okWord_made {w : WordUsl} (h : OkWord w) : MadeWord w := by
  obtain ⟨t, f, r, h⟩ := h
  have hi : ∀ e ∈ f.asList t, ∃ e' ∈ f.items, e.2 = e'.2 ∧ e.1 = t.pre ++ e'.1 := by
    intro e he
    rw [asList_items] at he
    obtain ⟨e', he', rfl⟩ := List.mem_map.1 he
    exact ⟨e', he', rfl, rfl⟩
  refine ⟨f.asList t, t, f, t.pre ++ r, fromList_back h.fn, h.made, ?_, ?_⟩
  · intro e he x hx
    obtain ⟨e', he', h2, _⟩ := hi e he
    obtain ⟨y, hy, ho⟩ := h.full e' he'
    rw [h2, hy, Option.some.injEq] at hx
    exact okLex_made (hx ▸ ho)
  · intro e he a ha
    obtain ⟨e', he', _, h2⟩ := hi e he
    rw [h2, List.mem_append] at ha
    rcases ha with ha | ha
    · exact address_made a (pre_address t a ha)
    · exact address_made a (items_address h.fn e' he' a ha)

/-! ### The text of a phrase -/

theorem star_word {w : WordUsl} (h : MadeWord w) : '*' ∉ w.text := fun hc => absurd (alphabet_word h _ hc) (by decide)

theorem star_split : ∀ {a b u v : Str}, '*' ∉ a → '*' ∉ b → a ++ '*' :: u = b ++ '*' :: v → a = b ∧ u = v
  | [], [], u, v, _, _, h => by simpa using h
  | [], c :: b, u, v, _, hb, h => by
    rw [List.nil_append, List.cons_append, List.cons.injEq] at h
    exact absurd (by rw [h.1]; simp) hb
  | c :: a, [], u, v, ha, _, h => by
    rw [List.nil_append, List.cons_append, List.cons.injEq] at h
    exact absurd (by rw [h.1]; simp) ha
  | c :: a, d :: b, u, v, ha, hb, h => by
    rw [List.cons_append, List.cons_append, List.cons.injEq] at h
    obtain ⟨e1, e2⟩ := star_split (fun hh => ha (by simp [hh])) (fun hh => hb (by simp [hh])) h.2
    exact ⟨by rw [h.1, e1], e2⟩

/-- **C93, text.** Two phrases of made words are equal exactly when their three words are. -/
theorem C93_text_partial {s a m s' a' m' : WordUsl} (hs : MadeWord s) (ha : MadeWord a) (hs' : MadeWord s') (ha' : MadeWord a') :
    (mkPhrase s a m).text = (mkPhrase s' a' m').text ↔ s.text = s'.text ∧ a.text = a'.text ∧ m.text = m'.text := by
  constructor
  · intro h
    have h : c!"(" ++ (s.text ++ c!"*" ++ (a.text ++ c!"*" ++ m.text)) ++ c!")" =
        c!"(" ++ (s'.text ++ c!"*" ++ (a'.text ++ c!"*" ++ m'.text)) ++ c!")" := h
    rw [List.append_cancel_right_eq, List.append_cancel_left_eq] at h
    simp only [List.append_assoc, List.singleton_append] at h
    obtain ⟨e1, h⟩ := star_split (star_word hs) (star_word hs') h
    obtain ⟨e2, h⟩ := star_split (star_word ha) (star_word ha') h
    exact ⟨e1, e2, h⟩
  · rintro ⟨h1, h2, h3⟩
    simp only [mkPhrase, h1, h2, h3]

/-! ### The sequences of a phrase -/

theorem phraseStep_eq (d : OD Str Phrase) (e : WordUsl × WordUsl × WordUsl) :
    phraseStep d e = .ok ((d.filter fun p => p.1 ≠ (mkPhrase e.1 e.2.1 e.2.2).text) ++ [((mkPhrase e.1 e.2.1 e.2.2).text, mkPhrase e.1 e.2.1 e.2.2)]) :=
  OD.set_eq _ _ _

/-- The phrase of three words. -/
def phraseOf (e : WordUsl × WordUsl × WordUsl) : Phrase := mkPhrase e.1 e.2.1 e.2.2

theorem phrases_loop : ∀ (L : List (WordUsl × WordUsl × WordUsl)) (d : OD Str Phrase),
    (∀ e ∈ d, e.1 = e.2.text) → d.Pairwise (fun a b => a.1 ≠ b.1) →
    ∃ d', L.foldlM phraseStep d = .ok d' ∧ (∀ e ∈ d', e.1 = e.2.text) ∧ d'.Pairwise (fun a b => a.1 ≠ b.1) ∧
      (∀ e ∈ d', e ∈ d ∨ ∃ x ∈ L, e.2 = phraseOf x) ∧ (∀ e ∈ d, ∃ e' ∈ d', e'.1 = e.1) ∧ (∀ x ∈ L, ∃ e ∈ d', e.1 = (phraseOf x).text) ∧
      ((L.map fun x => (phraseOf x).text).Nodup → (∀ e ∈ d, ∀ x ∈ L, e.1 ≠ (phraseOf x).text) → d' = d ++ L.map fun x => ((phraseOf x).text, phraseOf x))
  | [], d, h1, h2 => ⟨d, rfl, h1, h2, fun e he => .inl he, fun e he => ⟨e, he, rfl⟩, by simp, by simp⟩
  | x :: L, d, h1, h2 => by
    rw [List.foldlM_cons, phraseStep_eq]
    obtain ⟨d', e1, e2, e3, e4, e5, e6, e7⟩ := phrases_loop L ((d.filter fun p => p.1 ≠ (phraseOf x).text) ++ [((phraseOf x).text, phraseOf x)])
      (by
        intro e he
        rcases List.mem_append.1 he with he | he
        · exact h1 e (List.mem_filter.1 he).1
        · simp only [List.mem_singleton] at he; subst he; rfl)
      (by
        rw [List.pairwise_append]
        refine ⟨h2.filter _, by simp, ?_⟩
        intro a ha b hb
        simp only [List.mem_singleton] at hb
        subst hb
        simpa using (List.mem_filter.1 ha).2)
    refine ⟨d', e1, e2, e3, ?_, ?_, ?_, ?_⟩
    · intro e he
      rcases e4 e he with he | ⟨y, hy, hh⟩
      · rcases List.mem_append.1 he with he | he
        · exact .inl (List.mem_filter.1 he).1
        · simp only [List.mem_singleton] at he; subst he
          exact .inr ⟨x, by simp, rfl⟩
      · exact .inr ⟨y, by simp [hy], hh⟩
    · intro e he
      by_cases hk : e.1 = (phraseOf x).text
      · obtain ⟨e', he', hk'⟩ := e5 ((phraseOf x).text, phraseOf x) (by simp)
        exact ⟨e', he', hk'.trans hk.symm⟩
      · exact e5 e (List.mem_append_left _ (List.mem_filter.2 ⟨he, by simpa using hk⟩))
    · intro y hy
      rcases List.mem_cons.1 hy with rfl | hy
      · exact e5 ((phraseOf y).text, phraseOf y) (by simp)
      · exact e6 y hy
    · intro hn hd
      rw [List.map_cons, List.nodup_cons] at hn
      have hf : (d.filter fun p => p.1 ≠ (phraseOf x).text) = d := by
        rw [List.filter_eq_self]
        intro e he
        simpa using hd e he x (by simp)
      rw [hf] at e7
      rw [e7 hn.2 ?_]
      · simp
      · intro e he y hy
        rcases List.mem_append.1 he with he | he
        · exact hd e he y (by simp [hy])
        · simp only [List.mem_singleton] at he
          subst he
          exact fun h => hn.1 (List.mem_map.2 ⟨y, hy, h.symm⟩)

/-- The combinations of the sequences of three words. -/
def triples (ss as ms : List WordUsl) : List (WordUsl × WordUsl × WordUsl) :=
  ss.flatMap fun s => as.flatMap fun a => ms.map fun m => (s, a, m)

theorem mem_triples {ss as ms : List WordUsl} {e : WordUsl × WordUsl × WordUsl} : e ∈ triples ss as ms ↔ e.1 ∈ ss ∧ e.2.1 ∈ as ∧ e.2.2 ∈ ms := by
  obtain ⟨s, a, m⟩ := e
  simp only [triples, List.mem_flatMap, List.mem_map, Prod.mk.injEq]
  constructor
  · rintro ⟨_, h1, _, h2, _, h3, rfl, rfl, rfl⟩; exact ⟨h1, h2, h3⟩
  · rintro ⟨h1, h2, h3⟩; exact ⟨s, h1, a, h2, m, h3, rfl, rfl, rfl⟩

theorem phrase_sequences {s a m : WordUsl} {ss as ms : List WordUsl} (hs : s.singularSequences = .ok ss) (ha : a.singularSequences = .ok as)
    (hm : m.singularSequences = .ok ms) : (ss.length = 1 ∧ as.length = 1 ∧ ms.length = 1 → (mkPhrase s a m).singularSequences = .ok [mkPhrase s a m]) ∧
    (¬ (ss.length = 1 ∧ as.length = 1 ∧ ms.length = 1) → (mkPhrase s a m).singularSequences = ((triples ss as ms).foldlM phraseStep []).map (·.map (·.2))) := by
  have e : (mkPhrase s a m).singularSequences = if ss.length = 1 ∧ as.length = 1 ∧ ms.length = 1 then .ok [mkPhrase s a m] else
      ((triples ss as ms).foldlM phraseStep []).map (·.map (·.2)) := by
    unfold Phrase.singularSequences
    show (s.singularSequences >>= fun ss => a.singularSequences >>= fun as => m.singularSequences >>= fun ms => _) = _
    rw [hs, ha, hm]
    show (if ss.length = 1 ∧ as.length = 1 ∧ ms.length = 1 then _ else _) = _
    split
    · rfl
    · show ((triples ss as ms).foldlM phraseStep [] >>= _) = _
      cases (triples ss as ms).foldlM phraseStep [] <;> rfl
  constructor
  · intro h; rw [e, if_pos h]
  · intro h; rw [e, if_neg h]

/-- **C93, sequences.** The sequences of a phrase have different texts; they are phrases of one sequence of each word, or the
phrase itself when each of its words has a single one; every combination is listed, up to its text. -/
theorem C93_sequences {s a m : WordUsl} {ss as ms : List WordUsl} (hs : s.singularSequences = .ok ss) (ha : a.singularSequences = .ok as)
    (hm : m.singularSequences = .ok ms) : ∃ L, (mkPhrase s a m).singularSequences = .ok L ∧ L.Pairwise (fun p q => p.text ≠ q.text) ∧
      (L = [mkPhrase s a m] ∧ ss.length = 1 ∧ as.length = 1 ∧ ms.length = 1 ∨
        (∀ p ∈ L, ∃ s' ∈ ss, ∃ a' ∈ as, ∃ m' ∈ ms, p = mkPhrase s' a' m') ∧
        ∀ s' ∈ ss, ∀ a' ∈ as, ∀ m' ∈ ms, ∃ p ∈ L, p.text = (mkPhrase s' a' m').text) := by
  obtain ⟨h1, h2⟩ := phrase_sequences hs ha hm
  by_cases hone : ss.length = 1 ∧ as.length = 1 ∧ ms.length = 1
  · exact ⟨_, h1 hone, by simp, .inl ⟨rfl, hone⟩⟩
  · obtain ⟨d, e1, e2, e3, e4, _, e6, _⟩ := phrases_loop (triples ss as ms) [] (by simp) (by simp)
    refine ⟨d.map (·.2), by rw [h2 hone, e1]; rfl, ?_, .inr ⟨?_, ?_⟩⟩
    · rw [List.pairwise_map]
      exact e3.imp_of_mem fun {a b} ha hb hab => by rw [← e2 a ha, ← e2 b hb]; exact hab
    · intro p hp
      obtain ⟨e, he, rfl⟩ := List.mem_map.1 hp
      rcases e4 e he with h | ⟨x, hx, h⟩
      · cases h
      · obtain ⟨k1, k2, k3⟩ := mem_triples.1 hx
        exact ⟨_, k1, _, k2, _, k3, h⟩
    · intro s' k1 a' k2 m' k3
      obtain ⟨e, he, h⟩ := e6 (s', a', m') (mem_triples.2 ⟨k1, k2, k3⟩)
      exact ⟨e.2, List.mem_map.2 ⟨e, he, rfl⟩, by rw [← e2 e he, h]; rfl⟩

/-- A sequence of an ordinary word is an ordinary word. -/
theorem okWord_sequence {w : WordUsl} (hw : OkWord w) {L : List WordUsl} (h : w.singularSequences = .ok L) {v : WordUsl} (hv : v ∈ L) : OkWord v := by
  obtain ⟨t, f, r, hw⟩ := hw
  obtain ⟨xss, hx⟩ := item_sequences hw.full
  obtain ⟨L', h1, _, h3⟩ := word_items hw hx
  have : L = L' := by rw [h] at h1; injection h1
  subst this
  exact ⟨t, v.sfun, r, (h3 v hv).1⟩

/-- The sequences of a phrase of words whose sequences have different texts. -/
theorem phrase_cardinal {s a m : WordUsl} {ss as ms : List WordUsl} (ds : ss.Pairwise fun a b => a.text ≠ b.text)
    (da : as.Pairwise fun a b => a.text ≠ b.text) (dm : ms.Pairwise fun a b => a.text ≠ b.text) (ks : ∀ v ∈ ss, MadeWord v) (ka : ∀ v ∈ as, MadeWord v)
    (hs : s.singularSequences = .ok ss) (ha : a.singularSequences = .ok as) (hm : m.singularSequences = .ok ms) :
    (mkPhrase s a m).cardinal = .ok (ss.length * (as.length * ms.length)) ∧
    (ss.length * (as.length * ms.length) ≠ 1 → (mkPhrase s a m).singularSequences =
      .ok (ss.flatMap fun s' => as.flatMap fun a' => ms.map fun m' => mkPhrase s' a' m')) := by
  obtain ⟨h1, h2⟩ := phrase_sequences hs ha hm
  have hl : (triples ss as ms).length = ss.length * (as.length * ms.length) := by
    simp [triples, List.length_flatMap]
  by_cases hone : ss.length = 1 ∧ as.length = 1 ∧ ms.length = 1
  · constructor
    · rw [Phrase.cardinal, h1 hone, hone.1, hone.2.1, hone.2.2]; rfl
    · intro h; simp [hone] at h
  · have hn : ((triples ss as ms).map fun x => (phraseOf x).text).Nodup := by
      have key : ∀ x ∈ triples ss as ms, ∀ y ∈ triples ss as ms, (phraseOf x).text = (phraseOf y).text →
          x.1.text = y.1.text ∧ x.2.1.text = y.2.1.text ∧ x.2.2.text = y.2.2.text := by
        intro x hx y hy e
        obtain ⟨k1, k2, k3⟩ := mem_triples.1 hx
        obtain ⟨l1, l2, l3⟩ := mem_triples.1 hy
        exact (C93_text_partial (ks _ k1) (ka _ k2) (ks _ l1) (ka _ l2)).1 e
      have hp : (triples ss as ms).Pairwise fun x y => ¬ (x.1.text = y.1.text ∧ x.2.1.text = y.2.1.text ∧ x.2.2.text = y.2.2.text) := by
        rw [triples, List.pairwise_flatMap]
        refine ⟨fun s' _ => ?_, ds.imp ?_⟩
        · rw [List.pairwise_flatMap]
          refine ⟨fun a' _ => ?_, da.imp ?_⟩
          · rw [List.pairwise_map]
            exact dm.imp fun h hh => h hh.2.2
          · intro a' a'' h x hx y hy hh
            obtain ⟨_, _, rfl⟩ := List.mem_map.1 hx
            obtain ⟨_, _, rfl⟩ := List.mem_map.1 hy
            exact h hh.2.1
        · intro s' s'' h x hx y hy hh
          obtain ⟨_, _, hx⟩ := List.mem_flatMap.1 hx
          obtain ⟨_, _, hy⟩ := List.mem_flatMap.1 hy
          obtain ⟨_, _, rfl⟩ := List.mem_map.1 hx
          obtain ⟨_, _, rfl⟩ := List.mem_map.1 hy
          exact h hh.1
      rw [List.Nodup, List.pairwise_map]
      exact hp.imp_of_mem fun {x y} hx hy h e => h (key x hx y hy e)
    obtain ⟨d, e1, _, _, _, _, _, e7⟩ := phrases_loop (triples ss as ms) [] (by simp) (by simp)
    have e8 := e7 hn (by simp)
    have hL : (mkPhrase s a m).singularSequences = .ok ((triples ss as ms).map phraseOf) := by
      rw [h2 hone, e1, e8]
      simp only [Except.map, List.nil_append, List.map_map]
      rfl
    constructor
    · rw [Phrase.cardinal, hL]
      show Except.ok ((triples ss as ms).map phraseOf).length = _
      rw [List.length_map, hl]
    · intro _
      rw [hL, triples]
      simp only [List.map_flatMap, List.map_map]
      rfl

/-- **C93, number.** A phrase of words without junctions, of lexemes of orderly morphemes, has as many sequences as there are
combinations of sequences of its words, in the order of the product. -/
theorem C93_cardinal_partial {s a m : WordUsl} (os : OkWord s) (oa : OkWord a) (om : OkWord m) {ss as ms : List WordUsl}
    (hs : s.singularSequences = .ok ss) (ha : a.singularSequences = .ok as) (hm : m.singularSequences = .ok ms) :
    (mkPhrase s a m).cardinal = .ok (ss.length * (as.length * ms.length)) ∧
    (ss.length * (as.length * ms.length) ≠ 1 → (mkPhrase s a m).singularSequences =
      .ok (ss.flatMap fun s' => as.flatMap fun a' => ms.map fun m' => mkPhrase s' a' m')) :=
  phrase_cardinal (C93_word_partial os hs) (C93_word_partial oa ha) (C93_word_partial om hm) (fun _ h => okWord_made (okWord_sequence os hs h))
    (fun _ h => okWord_made (okWord_sequence oa ha h)) hs ha hm

/-! ### Phrases are never empty, and are not read -/

/-- **C93, violated.** No phrase is empty: its first word never is, so that either the answer is no or the first word has no
lexeme at all. -/
theorem C93_violated_empty (p : Phrase) : p.empty = .ok false ∨ p.empty = .error .attributeError := by
  have h := C78_never_empty p.substance
  unfold Phrase.empty
  cases he : p.substance.empty with
  | ok b =>
    cases b with
    | true => exact absurd he h
    | false => exact .inl rfl
  | error e =>
    right
    unfold WordUsl.empty at he
    split at he
    · cases he; rfl
    · cases he

theorem takePMParts_bracket (ts : List UTok) : takePMParts (.lbracket :: ts) = .error .cannotParse := rfl

/-- The first character of a word is a bracket, and no path follows. -/
theorem word_head {w : WordUsl} (h : MadeWord w) : ∃ r, w.text = '[' :: r ∧ (∀ s, r ≠ '>' :: s) ∧ r ≠ [] := by
  obtain ⟨l, t, f, role, hf, hw, _⟩ := h
  have hok := fromList_shape hf
  obtain ⟨text, h1, h2⟩ := bind_ok.1 hw
  obtain ⟨cl, h3, h4⟩ := bind_ok.1 h2
  rw [pure_ok] at h4
  subst h4
  obtain ⟨main, _, h6⟩ := bind_ok.1 h1
  rw [pure_ok] at h6
  subst h6
  have hadd : ∀ a ∈ addressScripts, a ≠ [] ∧ '>' ∉ a := by decide +kernel
  have hitem : ∀ e ∈ f.items, ∀ u s : Str, itemText Lexeme.text main t.pre e ++ u ≠ '>' :: s := by
    intro e he u s h
    have ha : ∀ (a : Str), a ∈ addressScripts → ∀ u : Str, a ++ u ≠ '>' :: s := by
      intro a ha u h
      obtain ⟨h1, h2⟩ := hadd a ha
      cases a with
      | nil => exact h1 rfl
      | cons c cs =>
        rw [List.cons_append, List.cons.injEq] at h
        exact h2 (by rw [h.1]; simp)
    unfold itemText at h
    split at h
    · simp at h
    · rw [List.nil_append] at h
      have hp := pre_address t
      cases hpre : t.pre with
      | cons a as =>
        rw [hpre] at h
        simp only [List.append_assoc] at h
        exact ha a (hp a (by rw [hpre]; simp)) _ h
      | nil =>
        rw [hpre] at h
        simp only [List.nil_append, List.append_assoc] at h
        cases he1 : e.1 with
        | nil => rw [he1] at h; simp [roleText, joinSpace] at h
        | cons a as =>
          have := items_address hok e he a (by rw [he1]; simp)
          rw [he1, roleText, joinSpace_cons] at h
          split at h
          · exact ha a this _ h
          · rw [List.append_assoc] at h; exact ha a this _ h
  refine ⟨joinChevron ((pySort (fun a b => addrLt a.1 b.1) f.items).map (itemText Lexeme.text main t.pre)) ++ c!"]", by simp, ?_, by simp⟩
  intro s h
  cases hi : pySort (fun a b => addrLt a.1 b.1) f.items with
  | nil => rw [hi] at h; simp [joinChevron] at h
  | cons e es =>
    have he : e ∈ f.items := (mem_pySort fun a b : RoleEntry Lexeme => addrLt a.1 b.1).1 (by rw [hi]; simp)
    rw [hi, List.map_cons] at h
    cases es with
    | nil => rw [List.map_nil, joinChevron] at h; exact hitem e he _ s h
    | cons e' es =>
      rw [List.map_cons, joinChevron, List.append_assoc, List.append_assoc] at h
      exact hitem e he _ s h

/-- **C93, violated.** The text of no phrase is read back: it is refused. -/
theorem C93_violated_read {s a m : WordUsl} (hs : MadeWord s) : uslRead (mkPhrase s a m).text = .error .cannotParse := by
  obtain ⟨r, h1, h2, h3⟩ := word_head hs
  obtain ⟨c, cs, rfl⟩ : ∃ c cs, r = c :: cs := by cases r with | nil => exact absurd rfl h3 | cons c cs => exact ⟨c, cs, rfl⟩
  have e : (mkPhrase s a m).text = '(' :: '[' :: c :: (cs ++ (c!"*" ++ (a.text ++ c!"*" ++ m.text)) ++ c!")") := by
    simp [mkPhrase, h1]
  have hc : ∀ u s, c :: u ≠ '>' :: s := by
    intro u s h
    rw [List.cons.injEq] at h
    exact h2 cs (by rw [h.1])
  rw [uslRead, e, lex_lparen, lex_lbracket (hc _)]
  rfl

/-! ### Examples -/

-- Two words with six sequences each.
example : ∃ v w, OkWord v ∧ OkWord w ∧ v.text = c!"[! E:T:. ()(A: m1(S:)) > E:.n.- (U:)(A: m1(S: T:))]" ∧
    (mkPhrase v w v).text = c!"([! E:T:. ()(A: m1(S:)) > E:.n.- (U:)(A: m1(S: T:))]*[E:T:. ()(A: m1(S:)) > ! E:.n.- (U:)(A: m1(S: T:))]*[! E:T:. ()(A: m1(S:)) > E:.n.- (U:)(A: m1(S: T:))])" ∧
    v.singularSequences.map List.length = .ok 6 ∧ w.singularSequences.map List.length = .ok 6 ∧ (mkPhrase v w v).empty = .ok false := by
  refine ⟨_, _, (demoPlain_comparable (r := [c!"E:T:."]) rfl).okWord, (demoPlain_comparable (r := [c!"E:.n.-"]) rfl).okWord, ?_, ?_, ?_, ?_, ?_⟩ <;>
    decide +kernel

/-- The text and the sequences of the phrase made three times of the word read from a list, with a role. -/
def demoPhrase (l : List (RoleEntry Lexeme)) (role : Addr) : Except Err (Str × Nat) := do
  let r ← fromList l
  let w ← mkWord r.2 role r.1
  let n ← (mkPhrase w w w).cardinal
  return ((mkPhrase w w w).text, n)

example : demoPhrase [([c!"E:T:."], some demoLex2)] [c!"E:T:."] =
    .ok (c!"([! E:T:. ()(A: m1(S:))]*[! E:T:. ()(A: m1(S:))]*[! E:T:. ()(A: m1(S:))])", 8) := by
  decide +kernel

/-- **C93, violated.** A word with a role without lexeme has no sequences, nor has a phrase with it. -/
theorem C93_violated_missing : demoPhrase [([dependantQuality, dependantQuality], some demoLex2)] [dependantQuality, dependantQuality] =
    .error .attributeError := by
  decide +kernel

/-- **C93, violated.** No two phrases can be compared, not even one with itself. -/
theorem C93_violated_order (p q : Phrase) : p.lt q = .error .notImplemented := rfl

end Verif
