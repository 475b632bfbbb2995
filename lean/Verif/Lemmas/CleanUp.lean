import Verif.Spec.CleanUp
import Mathlib.Data.List.Induction

/-
Lemmas on the clean-up of translations.
-/

namespace Verif

theorem segments_ne (p : Char → Bool) : ∀ s, segments p s ≠ []
  | [] => by simp [segments]
  | c :: cs => by
    rw [segments]
    split
    · simp
    · split <;> simp

theorem segments_cons {p : Char → Bool} {c : Char} {cs : Str} (h : p c = false) :
    ∃ a t, segments p cs = a :: t ∧ segments p (c :: cs) = (c :: a) :: t := by
  cases hs : segments p cs with
  | nil => exact absurd hs (segments_ne p cs)
  | cons a t => exact ⟨a, t, rfl, by rw [segments, h, hs]; rfl⟩

theorem segments_free {p : Char → Bool} : ∀ {s : Str} {w : Str}, w ∈ segments p s → ∀ c ∈ w, p c = false ∧ c ∈ s
  | [], w, h, c, hc => by
    rw [List.mem_singleton.1 h] at hc
    cases hc
  | a :: s, w, h, c, hc => by
    by_cases ha : p a = true
    · rw [segments, if_pos ha] at h
      rcases List.mem_cons.1 h with rfl | h
      · cases hc
      · have := segments_free h c hc
        exact ⟨this.1, by simp [this.2]⟩
    · have ha : p a = false := by simpa using ha
      obtain ⟨b, t, e1, e2⟩ := segments_cons (cs := s) ha
      rw [e2] at h
      rcases List.mem_cons.1 h with rfl | h
      · rcases List.mem_cons.1 hc with rfl | hc
        · exact ⟨ha, by simp⟩
        · have := segments_free (p := p) (s := s) (w := b) (by rw [e1]; simp) c hc
          exact ⟨this.1, by simp [this.2]⟩
      · have := segments_free (p := p) (s := s) (w := w) (by rw [e1]; simp [h]) c hc
        exact ⟨this.1, by simp [this.2]⟩

theorem segments_none {p : Char → Bool} : ∀ {s : Str}, (∀ c ∈ s, p c = false) → segments p s = [s]
  | [], _ => rfl
  | c :: s, h => by
    obtain ⟨a, t, e1, e2⟩ := segments_cons (cs := s) (h c (by simp))
    rw [segments_none fun d hd => h d (by simp [hd])] at e1
    injection e1 with e1 e3
    rw [e2, ← e1, ← e3]

theorem segments_append {p : Char → Bool} {w : Str} (hw : ∀ c ∈ w, p c = false) {d : Char} (hd : p d = true) (s : Str) :
    segments p (w ++ d :: s) = w :: segments p s := by
  induction w with
  | nil => rw [List.nil_append, segments, if_pos hd]
  | cons c w ih =>
    obtain ⟨a, t, e1, e2⟩ := segments_cons (cs := w ++ d :: s) (hw c (by simp))
    rw [ih fun e he => hw e (by simp [he])] at e1
    injection e1 with e1 e3
    rw [List.cons_append, e2, ← e1, ← e3]

theorem splitOnChar_eq (sep : Char) : ∀ (s cur : Str), ∃ h t, segments (fun c => decide (c = sep)) s = h :: t ∧ splitOnChar sep s cur = (cur.reverse ++ h) :: t
  | [], cur => ⟨[], [], rfl, by simp [splitOnChar]⟩
  | c :: s, cur => by
    by_cases hc : c = sep
    · obtain ⟨h, t, e1, e2⟩ := splitOnChar_eq sep s []
      exact ⟨[], segments _ s, by rw [segments, if_pos (by simp [hc])], by
        rw [splitOnChar, if_pos hc, e2, e1]; simp⟩
    · obtain ⟨h, t, e1, e2⟩ := splitOnChar_eq sep s (c :: cur)
      obtain ⟨a, t', e3, e4⟩ := segments_cons (p := fun c => decide (c = sep)) (c := c) (cs := s) (by simp [hc])
      rw [e1] at e3
      injection e3 with e5 e6
      subst e5 e6
      exact ⟨c :: h, t, e4, by rw [splitOnChar, if_neg hc, e2]; simp⟩

theorem split_eq (sep : Char) (s : Str) : splitOnChar sep s [] = segments (fun c => decide (c = sep)) s := by
  obtain ⟨h, t, e1, e2⟩ := splitOnChar_eq sep s []
  rw [e1, e2]
  rfl

theorem segments_bars : ∀ s, segments (fun c => decide (c = ',')) (barsToCommas s) = segments pieceSep s
  | [] => rfl
  | c :: s => by
    have ih := segments_bars s
    unfold barsToCommas at ih ⊢
    rw [List.map_cons, segments, segments, ih]
    by_cases h1 : c = '|'
    · simp [h1, pieceSep]
    · by_cases h2 : c = ','
      · simp [h2, pieceSep]
      · simp [h1, h2, pieceSep]

/-! ### White space -/

/-- The parts after a white space, with runs of white spaces collapsed. -/
def glue : List Str → Str
  | [] => []
  | [h] => h
  | h :: t => if h = [] then glue t else h ++ ' ' :: glue t

theorem glue_two (h b : Str) (t : List Str) : glue (h :: b :: t) = if h = [] then glue (b :: t) else h ++ ' ' :: glue (b :: t) := rfl

theorem collapse_eq : ∀ s : Str, collapseSpaces true s = glue (segments pySpace s) ∧
    ∀ h t, segments pySpace s = h :: t → collapseSpaces false s = h ++ if t = [] then [] else ' ' :: glue t
  | [] => ⟨rfl, fun h t e => by
      injection e with e1 e2
      subst e1 e2
      rfl⟩
  | c :: s => by
    obtain ⟨i1, i2⟩ := collapse_eq s
    by_cases hc : pySpace c = true
    · have hseg : segments pySpace (c :: s) = [] :: segments pySpace s := by rw [segments, if_pos hc]
      have hne := segments_ne pySpace s
      constructor
      · rw [collapseSpaces, if_pos hc, if_pos rfl, i1, hseg]
        cases hs : segments pySpace s with
        | nil => exact absurd hs hne
        | cons a t => rfl
      · intro h t e
        rw [hseg] at e
        injection e with e1 e2
        subst e1 e2
        rw [collapseSpaces, if_pos hc, if_neg (by decide), i1, if_neg hne]
        rfl
    · have hc' : pySpace c = false := by simpa using hc
      obtain ⟨a, t, e1, e2⟩ := segments_cons (cs := s) hc'
      have hf := i2 a t e1
      have hcol : ∀ b, collapseSpaces b (c :: s) = c :: (a ++ if t = [] then [] else ' ' :: glue t) := by
        intro b
        rw [collapseSpaces, if_neg hc, hf]
      constructor
      · rw [hcol, e2]
        cases t with
        | nil => simp [glue]
        | cons b t => simp [glue]
      · intro h t' e
        rw [e2] at e
        injection e with e3 e4
        subst e3 e4
        rw [hcol]
        rfl

/-- `s.rstrip()`. -/
def trimEnd (s : Str) : Str := (s.reverse.dropWhile pySpace).reverse

theorem trimEnd_append (a b : Str) : trimEnd (a ++ b) = if trimEnd b = [] then trimEnd a else a ++ trimEnd b := by
  unfold trimEnd
  rw [List.reverse_append, List.dropWhile_append]
  by_cases h : (b.reverse.dropWhile pySpace).isEmpty = true
  · have : b.reverse.dropWhile pySpace = [] := List.isEmpty_iff.1 h
    simp [this]
  · have : b.reverse.dropWhile pySpace ≠ [] := fun e => h (List.isEmpty_iff.2 e)
    simp [this]

theorem trimEnd_word {w : Str} (h : ∀ c ∈ w, pySpace c = false) : trimEnd w = w := by
  unfold trimEnd
  have h' : ∀ c ∈ w.reverse, pySpace c = false := fun c hc => h c (List.mem_reverse.1 hc)
  have : w.reverse.dropWhile pySpace = w.reverse := by
    cases hr : w.reverse with
    | nil => rfl
    | cons c cs => rw [List.dropWhile_cons, if_neg (by rw [h' c (by rw [hr]; simp)]; decide)]
  rw [this, List.reverse_reverse]

theorem unwords_ne {ws : List Str} (h : ∀ w ∈ ws, w ≠ []) (hn : ws ≠ []) : unwords ws ≠ [] := by
  cases ws with
  | nil => exact absurd rfl hn
  | cons w ws =>
    cases ws with
    | nil => exact h w (by simp)
    | cons v ws => simp [unwords]

theorem unwords_cons (w : Str) (ws : List Str) : unwords (w :: ws) = if ws = [] then w else w ++ ' ' :: unwords ws := by
  cases ws with
  | nil => rfl
  | cons v ws => rfl

theorem trimEnd_glue : ∀ {l : List Str}, (∀ w ∈ l, ∀ c ∈ w, pySpace c = false) → trimEnd (glue l) = unwords (l.filter fun w => w ≠ [])
  | [], _ => rfl
  | [h], hw => by
    rw [glue, trimEnd_word (hw h (by simp))]
    by_cases e : h = []
    · subst e; rfl
    · simp [e, unwords]
  | h :: b :: t, hw => by
    have ih := trimEnd_glue (l := b :: t) fun w hm => hw w (by simp only [List.mem_cons] at hm ⊢; exact .inr hm)
    rw [glue_two]
    by_cases e : h = []
    · rw [if_pos e, ih, e]
      rfl
    · rw [if_neg e, List.filter_cons, if_pos (by simp [e]), unwords_cons, show h ++ ' ' :: glue (b :: t) = (h ++ [' ']) ++ glue (b :: t) by simp,
        trimEnd_append, ih]
      have hne : ∀ w ∈ (b :: t).filter (fun w => decide (w ≠ [])), w ≠ [] := fun w hm => by simpa using (List.mem_filter.1 hm).2
      by_cases hf : (b :: t).filter (fun w => decide (w ≠ [])) = []
      · rw [hf, if_pos (by rfl), if_pos rfl, trimEnd_append, if_pos (by decide), trimEnd_word (hw h (by simp))]
      · rw [if_neg (unwords_ne hne hf), if_neg hf]
        simp

theorem glue_start {l : List Str} (hw : ∀ w ∈ l, ∀ c ∈ w, pySpace c = false) : (glue l).dropWhile pySpace = glue l := by
  induction l with
  | nil => rfl
  | cons h t ih =>
    have hh : ∀ {h : Str} (s : Str), h ≠ [] → (∀ c ∈ h, pySpace c = false) → (h ++ s).dropWhile pySpace = h ++ s := by
      intro h s hne hc
      cases h with
      | nil => exact absurd rfl hne
      | cons c cs =>
        rw [List.cons_append, List.dropWhile_cons, if_neg (by rw [hc c (by simp)]; decide)]
    cases t with
    | nil =>
      rw [glue]
      by_cases e : h = []
      · subst e; rfl
      · have := hh [] e (hw h (by simp))
        rwa [List.append_nil] at this
    | cons b t =>
      rw [glue_two]
      split
      · exact ih fun w hm => hw w (by simp only [List.mem_cons] at hm ⊢; exact .inr hm)
      · rename_i e
        exact hh _ e (hw h (by simp))

theorem strip_eq (s : Str) : strip s = trimEnd (s.dropWhile pySpace) := rfl

/-- A piece is reduced to its words separated by one space. -/
theorem tidy_eq (s : Str) : strip (collapseSpaces false s) = unwords (spacedWords s) := by
  have hfree : ∀ w ∈ segments pySpace s, ∀ c ∈ w, pySpace c = false := fun w hw c hc => (segments_free hw c hc).1
  cases hs : segments pySpace s with
  | nil => exact absurd hs (segments_ne _ _)
  | cons h t =>
    rw [(collapse_eq s).2 h t hs, strip_eq]
    rw [hs] at hfree
    have hglue : (h ++ if t = [] then [] else ' ' :: glue t).dropWhile pySpace = glue (h :: t) := by
      cases t with
      | nil =>
        rw [if_pos rfl, List.append_nil]
        exact glue_start (l := [h]) hfree
      | cons b t =>
        rw [if_neg (by simp)]
        by_cases e : h = []
        · subst e
          rw [List.nil_append, List.dropWhile_cons, if_pos (by decide), glue_two, if_pos rfl]
          exact glue_start fun w hm => hfree w (by simp only [List.mem_cons] at hm ⊢; exact .inr hm)
        · have := glue_start hfree
          rw [glue_two, if_neg e] at this
          rw [glue_two, if_neg e]
          exact this
    rw [hglue, trimEnd_glue hfree, spacedWords, hs]

/-! ### The values -/

/-- Appending what is not there yet. -/
def addNew (res : List Str) (p : Str) : List Str := if p ∈ res then res else res ++ [p]

theorem cleanValues_eq (vs : List Str) : cleanValues vs = (tidyPieces vs).foldl addNew [] := by
  unfold cleanValues tidyPieces
  rw [List.foldl_flatMap]
  congr 1
  funext res v
  rw [List.foldl_map, split_eq, segments_bars]
  congr 1
  funext res p
  simp only [tidy_eq]
  rfl

theorem addNew_run (ps : List Str) : (ps.foldl addNew []).Nodup ∧ (∀ p, p ∈ ps.foldl addNew [] ↔ p ∈ ps) ∧
    (ps.foldl addNew []).Pairwise fun a b => ps.idxOf a < ps.idxOf b := by
  induction ps using List.reverseRecOn with
  | nil => exact ⟨List.nodup_nil, fun p => by simp, List.Pairwise.nil⟩
  | append_singleton ps q ih =>
    obtain ⟨h1, h2, h3⟩ := ih
    rw [List.foldl_append]
    show (addNew _ q).Nodup ∧ (∀ p, p ∈ addNew _ q ↔ _) ∧ (addNew _ q).Pairwise _
    have hidx : ∀ a ∈ ps, (ps ++ [q]).idxOf a = ps.idxOf a := fun a ha => by rw [List.idxOf_append, if_pos ha]
    have hlift : (ps.foldl addNew []).Pairwise fun a b => (ps ++ [q]).idxOf a < (ps ++ [q]).idxOf b := by
      refine List.Pairwise.imp_of_mem ?_ h3
      intro a b ha hb h
      rw [hidx a ((h2 a).1 ha), hidx b ((h2 b).1 hb)]
      exact h
    generalize ps.foldl addNew [] = res at h1 h2 h3 hlift
    unfold addNew
    split
    · rename_i hm
      refine ⟨h1, fun p => ?_, hlift⟩
      rw [h2 p, List.mem_append]
      constructor
      · exact .inl
      · rintro (h | h)
        · exact h
        · rw [List.mem_singleton.1 h]; exact (h2 q).1 hm
    · rename_i hm
      have hq : q ∉ ps := fun h => hm ((h2 q).2 h)
      refine ⟨?_, fun p => ?_, ?_⟩
      · rw [List.nodup_append]
        refine ⟨h1, by simp, fun a ha b hb => ?_⟩
        rw [List.mem_singleton.1 hb]
        exact fun e => hm (e ▸ ha)
      · rw [List.mem_append, List.mem_append, h2 p]
      · rw [List.pairwise_append]
        refine ⟨hlift, by simp, fun a ha b hb => ?_⟩
        rw [List.mem_singleton.1 hb, hidx a ((h2 a).1 ha), List.idxOf_append, if_neg hq]
        have := List.idxOf_lt_length_iff.2 ((h2 a).1 ha)
        omega

theorem addNew_nodup : ∀ {ps res : List Str}, (res ++ ps).Nodup → ps.foldl addNew res = res ++ ps
  | [], res, _ => by simp
  | p :: ps, res, h => by
    have hp : p ∉ res := by
      rw [List.nodup_append] at h
      exact fun hm => h.2.2 p hm p (by simp) rfl
    rw [List.foldl_cons, addNew, if_neg hp, addNew_nodup (by simpa using h)]
    simp

/-! ### The shape of the pieces -/

theorem unwords_mem : ∀ {ws : List Str} {c : Char}, c ∈ unwords ws → c = ' ' ∨ ∃ w ∈ ws, c ∈ w
  | [], c, h => by cases h
  | w :: ws, c, h => by
    rw [unwords_cons] at h
    split at h
    · exact .inr ⟨w, by simp, h⟩
    · rcases List.mem_append.1 h with h | h
      · exact .inr ⟨w, by simp, h⟩
      · rcases List.mem_cons.1 h with h | h
        · exact .inl h
        · rcases unwords_mem h with h | ⟨v, hv, h⟩
          · exact .inl h
          · exact .inr ⟨v, by simp [hv], h⟩

theorem words_unwords : ∀ {ws : List Str}, (∀ w ∈ ws, w ≠ [] ∧ ∀ c ∈ w, pySpace c = false) → spacedWords (unwords ws) = ws
  | [], _ => rfl
  | w :: ws, h => by
    obtain ⟨h1, h2⟩ := h w (by simp)
    have ih := words_unwords (ws := ws) fun v hv => h v (by simp [hv])
    rw [unwords_cons]
    split
    · rename_i e
      subst e
      rw [spacedWords, segments_none h2]
      simp [h1]
    · unfold spacedWords at ih ⊢
      rw [segments_append h2 (by decide), List.filter_cons, if_pos (by simp [h1]), ih]

theorem spacedWords_ok {s : Str} {w : Str} (h : w ∈ spacedWords s) : w ≠ [] ∧ (∀ c ∈ w, pySpace c = false) ∧ ∀ c ∈ w, c ∈ s := by
  obtain ⟨h1, h2⟩ := List.mem_filter.1 h
  exact ⟨by simpa using h2, fun c hc => (segments_free h1 c hc).1, fun c hc => (segments_free h1 c hc).2⟩

theorem tidyPieces_shape {vs : List Str} {r : Str} (h : r ∈ tidyPieces vs) : (∀ c ∈ r, pieceSep c = false) ∧ unwords (spacedWords r) = r := by
  obtain ⟨v, hv, h⟩ := List.mem_flatMap.1 h
  obtain ⟨p, hp, rfl⟩ := List.mem_map.1 h
  constructor
  · intro c hc
    rcases unwords_mem hc with rfl | ⟨w, hw, hc⟩
    · decide
    · exact (segments_free hp c ((spacedWords_ok hw).2.2 c hc)).1
  · rw [words_unwords fun w hw => ⟨(spacedWords_ok hw).1, (spacedWords_ok hw).2.1⟩]

end Verif
