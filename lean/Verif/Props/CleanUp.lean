import Verif.Lemmas.CleanUp

/-
C116: the clean-up of translations keeps each piece of each value once, with single spaces, in the order of the values; cleaning
again changes nothing; the other descriptors are left.  Violated: an empty piece becomes an empty translation.
-/

namespace Verif

/-- The values after the clean-up: the pieces of the values, each once, in the order of their first occurrence. -/
theorem C116_pieces (vs : List Str) : (cleanValues vs).Nodup ∧
    (∀ r, r ∈ cleanValues vs ↔ ∃ v ∈ vs, ∃ p ∈ segments pieceSep v, r = unwords (spacedWords p)) ∧
    (cleanValues vs).Pairwise fun a b => (tidyPieces vs).idxOf a < (tidyPieces vs).idxOf b := by
  rw [cleanValues_eq]
  obtain ⟨h1, h2, h3⟩ := addNew_run (tidyPieces vs)
  refine ⟨h1, fun r => ?_, h3⟩
  rw [h2]
  unfold tidyPieces
  rw [List.mem_flatMap]
  constructor
  · rintro ⟨v, hv, h⟩
    obtain ⟨p, hp, rfl⟩ := List.mem_map.1 h
    exact ⟨v, hv, p, hp, rfl⟩
  · rintro ⟨v, hv, p, hp, rfl⟩
    exact ⟨v, hv, List.mem_map.2 ⟨p, hp, rfl⟩⟩

/-- No value has a comma, a bar, or white spaces other than single spaces between words. -/
theorem C116_shape {vs : List Str} {r : Str} (h : r ∈ cleanValues vs) : ',' ∉ r ∧ '|' ∉ r ∧ r = unwords (spacedWords r) ∧
    ∀ c ∈ r, pySpace c = true → c = ' ' := by
  rw [cleanValues_eq, (addNew_run _).2.1] at h
  obtain ⟨h1, h2⟩ := tidyPieces_shape h
  refine ⟨fun hc => absurd (h1 _ hc) (by decide), fun hc => absurd (h1 _ hc) (by decide), h2.symm, fun c hc hs => ?_⟩
  rw [← h2] at hc
  rcases unwords_mem hc with e | ⟨w, hw, hc⟩
  · exact e
  · rw [(spacedWords_ok hw).2.1 c hc] at hs
    cases hs

/-- Cleaning again changes nothing. -/
theorem C116_again (vs : List Str) : cleanValues (cleanValues vs) = cleanValues vs := by
  have hsame : tidyPieces (cleanValues vs) = cleanValues vs := by
    have : ∀ l : List Str, (∀ r ∈ l, r ∈ tidyPieces vs) → tidyPieces l = l := by
      intro l
      induction l with
      | nil => exact fun _ => rfl
      | cons r l ih =>
        intro h
        obtain ⟨h1, h2⟩ := tidyPieces_shape (h r (by simp))
        have ih := ih fun q hq => h q (by simp [hq])
        unfold tidyPieces at ih ⊢
        rw [List.flatMap_cons, ih, segments_none h1, List.map_singleton, h2]
        rfl
    exact this _ fun r hr => by rw [cleanValues_eq] at hr; exact ((addNew_run _).2.1 r).1 hr
  rw [cleanValues_eq, hsame]
  have := addNew_nodup (res := []) (ps := cleanValues vs) (by simpa using (C116_pieces vs).1)
  rw [this]
  rfl

/-- An empty translation is there exactly when a piece has no words. -/
theorem C116_empty (vs : List Str) : [] ∈ cleanValues vs ↔ ∃ v ∈ vs, ∃ p ∈ segments pieceSep v, ∀ c ∈ p, pySpace c = true := by
  rw [(C116_pieces vs).2.1]
  have key : ∀ p : Str, [] = unwords (spacedWords p) ↔ ∀ c ∈ p, pySpace c = true := by
    intro p
    have hw : [] = unwords (spacedWords p) ↔ spacedWords p = [] := by
      constructor
      · intro h
        by_contra hn
        exact unwords_ne (fun w hw => (spacedWords_ok hw).1) hn h.symm
      · intro h; rw [h]; rfl
    rw [hw]
    clear hw
    induction p with
    | nil => simp [spacedWords, segments]
    | cons c p ih =>
      by_cases hc : pySpace c = true
      · have : spacedWords (c :: p) = spacedWords p := by
          unfold spacedWords
          rw [segments, if_pos hc, List.filter_cons, if_neg (by simp)]
        rw [this]
        refine Iff.trans ih ?_
        simp [hc]
      · have hc' : pySpace c = false := by simpa using hc
        obtain ⟨a, t, e1, e2⟩ := segments_cons (cs := p) hc'
        unfold spacedWords
        rw [e2, List.filter_cons, if_pos (by simp)]
        simp [hc']
  constructor
  · rintro ⟨v, hv, p, hp, h⟩
    exact ⟨v, hv, p, hp, (key p).1 h⟩
  · rintro ⟨v, hv, p, hp, h⟩
    exact ⟨v, hv, p, hp, (key p).2 h⟩

/-- The claim that the translations are texts is false. -/
theorem C116_empty_violated : ∃ vs : List Str, (∀ v ∈ vs, spacedWords v ≠ []) ∧ [] ∈ cleanValues vs :=
  ⟨[c!"ami, "], by decide +kernel, by decide +kernel⟩

/-- The table keeps its rows; only the values of the translations change. -/
theorem C116_rows (rows : List OldRow) :
    (cleanUpTranslations rows).map (fun r => (r.ieml, r.lang, r.desc)) = rows.map (fun r => (r.ieml, r.lang, r.desc)) ∧
    ∀ (n : Nat) (r : OldRow), rows[n]? = some r → ∃ r' : OldRow, (cleanUpTranslations rows)[n]? = some r' ∧
      r'.values = if r.desc = c!"translations" then cleanValues r.values else r.values := by
  constructor
  · unfold cleanUpTranslations
    rw [List.map_map]
    apply List.map_congr_left
    intro r _
    simp only [Function.comp_apply]
    split <;> rfl
  · intro n r h
    refine ⟨_, by unfold cleanUpTranslations; rw [List.getElem?_map, h]; rfl, ?_⟩
    simp only
    split <;> rfl

/-! ### Examples -/

/-- Tabs, newlines, bars, commas; a piece twice. -/
example : cleanValues [c!"  mon\t\nami | frère", c!"ami,mon ami"] = [c!"mon ami", c!"frère", c!"ami"] := by decide +kernel

example : ',' ∉ c!"mon ami" ∧ '|' ∉ c!"mon ami" := by
  have := C116_shape (vs := [c!"  mon\t\nami | frère"]) (r := c!"mon ami") (by decide +kernel)
  exact ⟨this.1, this.2.1⟩

example : c!"mon ami" ∈ cleanValues [c!"x", c!"  mon\t\nami | frère"] :=
  ((C116_pieces _).2.1 _).2 ⟨c!"  mon\t\nami | frère", by simp, c!"  mon\t\nami ", by decide +kernel, by decide +kernel⟩

example : [] ∈ cleanValues [c!"a,\t|b"] := (C116_empty _).2 ⟨c!"a,\t|b", by simp, c!"\t", by decide +kernel, by decide +kernel⟩

example : cleanUpTranslations [⟨c!"M:", c!"fr", c!"translations", [c!"a|b"]⟩, ⟨c!"M:", c!"fr", c!"comments", [c!"a|b"]⟩] =
    [⟨c!"M:", c!"fr", c!"translations", [c!"a", c!"b"]⟩, ⟨c!"M:", c!"fr", c!"comments", [c!"a|b"]⟩] := by decide +kernel

end Verif
