import Verif.Props.CheckedOrder
import Verif.Props.Membership
import Verif.Props.PhraseJunctions

/-
C93 for phrases of words that were read: what the check accepts, for all morphemes and with junctions.
-/

namespace Verif
open Script

/-- **C93, check.** `check_phrase` accepts a phrase of three words that were read from texts exactly when every role of each of the three
holds a lexeme that is acceptable; nothing is asked of the morphemes or of the junctions. -/
theorem C93_check {r1 r2 r3 : Str} {s a m : WordUsl} {d1 d2 d3 : List (Str × Str)} (h1 : uslRead r1 = .ok (.word s, d1))
    (h2 : uslRead r2 = .ok (.word a, d2)) (h3 : uslRead r3 = .ok (.word m, d3)) :
    (mkPhrase s a m).check = true ↔ ∀ w ∈ [s, a, m], ∀ e ∈ w.sfun.asList w.context, ∃ x, e.2 = some x ∧ AcceptableLexeme x := by
  show (s.check && a.check && m.check) = true ↔ _
  rw [Bool.and_eq_true, Bool.and_eq_true, C76_read h1, C76_read h2, C76_read h3]
  simp [and_assoc]

/-- A word that was read and is accepted has sequences. -/
theorem checked_sequences {r : Str} {w : WordUsl} {ds : List (Str × Str)} (h : uslRead r = .ok (.word w, ds)) (hc : w.check = true) :
    ∃ L, w.singularSequences = .ok L := by
  have hm := read_made h
  have hf := (check_filled hm).1 hc
  obtain ⟨⟨l, t, f, role, hl, hw, -⟩, -⟩ := hm
  obtain ⟨e1, -, e3, -⟩ := mkWord_parts hw
  rw [e1, e3] at hf
  obtain ⟨L, h1, -⟩ := C79_word_sequences hl hw fun e he => (hf e he).imp fun x hx => hx.1
  exact ⟨L, h1⟩

/-- A word that was read, is accepted and is tidy can be read back. -/
theorem checked_clean {r : Str} {w : WordUsl} {ds : List (Str × Str)} (h : uslRead r = .ok (.word w, ds)) (ht : TidyWord w) (hc : w.check = true) :
    (Expr.word w).Clean := by
  have hm := read_made h
  have hf := (check_filled hm).1 hc
  have ha := MadeWord.actors hm.1
  intro e he
  obtain ⟨x, hx, hk⟩ := hf e he
  obtain ⟨p, q, rfl, hp, hq⟩ := ha e he x hx
  have t := ht e he _ hx
  simp only [Lexeme.check, Bool.and_eq_true] at hk
  exact ⟨_, hx, (key_of_check hp t.1 hk.1).1, (key_of_check hq t.2 hk.2).1⟩

/-- A word that was read and is accepted, and that moreover has no junctions or is tidy. -/
def PhraseWord (w : WordUsl) : Prop := ∃ r ds, uslRead r = .ok (.word w, ds) ∧ w.check = true ∧
  ((∀ e ∈ w.sfun.nodes, e.2.isJunction = false) ∨ TidyWord w)

theorem PhraseWord.different {w : WordUsl} (h : PhraseWord w) {L : List WordUsl} (hL : w.singularSequences = .ok L) :
    L.Pairwise fun a b => a.text ≠ b.text := by
  obtain ⟨r, ds, h1, h2, h3 | h3⟩ := h
  · exact C93_word_partial (ReadChecked.word h1 h2 h3).comparable.okWord hL
  · obtain ⟨l, t, f, role, hf, hw, hrole, hx⟩ := read_readWord h1 (checked_clean h1 h3 h2)
    exact C93_junctions_partial hf hw hrole hx hL

theorem PhraseWord.made {w : WordUsl} (h : PhraseWord w) {L : List WordUsl} (hL : w.singularSequences = .ok L) {v : WordUsl} (hv : v ∈ L) :
    MadeWord v := by
  obtain ⟨r, ds, h1, h2, h3 | h3⟩ := h
  · exact okWord_made (okWord_sequence (ReadChecked.word h1 h2 h3).comparable.okWord hL hv)
  · exact readWord_made (readWord_sequence (read_readWord h1 (checked_clean h1 h3 h2)) hL hv)

theorem PhraseWord.sequences {w : WordUsl} (h : PhraseWord w) : ∃ L, w.singularSequences = .ok L := by
  obtain ⟨r, ds, h1, h2, -⟩ := h
  exact checked_sequences h1 h2

/-- **C93, number** for the words that were read and are accepted: such a phrase always has sequences, as many as there are combinations of
those of its words, and those of each word have different texts.  Missing: words with junctions that are not tidy. -/
theorem C93_accepted_partial {s a m : WordUsl} (os : PhraseWord s) (oa : PhraseWord a) (om : PhraseWord m) :
    ∃ ss as ms, s.singularSequences = .ok ss ∧ a.singularSequences = .ok as ∧ m.singularSequences = .ok ms ∧
      (∀ L ∈ [ss, as, ms], L.Pairwise fun a b => a.text ≠ b.text) ∧
      (mkPhrase s a m).cardinal = .ok (ss.length * (as.length * ms.length)) ∧
      (ss.length * (as.length * ms.length) ≠ 1 → (mkPhrase s a m).singularSequences =
        .ok (ss.flatMap fun s' => as.flatMap fun a' => ms.map fun m' => mkPhrase s' a' m')) := by
  obtain ⟨ss, hs⟩ := os.sequences
  obtain ⟨as, ha⟩ := oa.sequences
  obtain ⟨ms, hm⟩ := om.sequences
  refine ⟨ss, as, ms, hs, ha, hm, ?_, phrase_cardinal (os.different hs) (oa.different ha) (om.different hm) (fun _ h => os.made hs h)
    (fun _ h => oa.made ha h) hs ha hm⟩
  intro L hL
  simp only [List.mem_cons, List.not_mem_nil, or_false] at hL
  rcases hL with rfl | rfl | rfl
  · exact os.different hs
  · exact oa.different ha
  · exact om.different hm

-- Three words, one with a group; the phrase is accepted. With a morpheme of several words in the third it is refused.
example : ∃ s a m n, uslRead (c!"[! E:A:. ()(S: A: m1(B: T:))]") = .ok (.word s, []) ∧ uslRead (c!"[! E:A:. ()(B: T:)]") = .ok (.word a, []) ∧
    uslRead (c!"[! E:A:. ()(S:)]") = .ok (.word m, []) ∧ uslRead (c!"[! E:A:. ()(O:)]") = .ok (.word n, []) ∧
    (mkPhrase s a m).check = true ∧ (mkPhrase s a n).check = false ∧ PhraseWord s ∧ PhraseWord a ∧ PhraseWord m ∧ (mkPhrase s a m).cardinal = .ok 3 := by
  have key : (match uslRead (c!"[! E:A:. ()(S: A: m1(B: T:))]"), uslRead (c!"[! E:A:. ()(B: T:)]"), uslRead (c!"[! E:A:. ()(S:)]"),
      uslRead (c!"[! E:A:. ()(O:)]") with
    | .ok (.word s, []), .ok (.word a, []), .ok (.word m, []), .ok (.word n, []) => (mkPhrase s a m).check && !(mkPhrase s a n).check &&
        ([s, a, m].all fun w => w.check && w.sfun.nodes.all fun e => !e.2.isJunction) && ((mkPhrase s a m).cardinal matches .ok 3)
    | _, _, _, _ => false) = true := by decide +kernel
  split at key
  · rename_i s a m n h1 h2 h3 h4
    simp only [Bool.and_eq_true, Bool.not_eq_true', List.all_eq_true] at key
    obtain ⟨⟨⟨k1, k2⟩, k3⟩, k4⟩ := key
    refine ⟨s, a, m, n, h1, h2, h3, h4, k1, k2, ⟨_, _, h1, (k3 s (by simp)).1, .inl (k3 s (by simp)).2⟩,
      ⟨_, _, h2, (k3 a (by simp)).1, .inl (k3 a (by simp)).2⟩, ⟨_, _, h3, (k3 m (by simp)).1, .inl (k3 m (by simp)).2⟩, ?_⟩
    split at k4
    · assumption
    · cases k4
  · cases key

end Verif
