import Verif.Model.Arguments
import Verif.Props.Database
import Verif.Lemmas.UslOrder

/-
**C94**: the checks of the arguments of the transactions accept the dictionaries of lists of strings, complete them and keep what
they hold.
-/

namespace Verif
open Script

/-! ### Dictionaries -/

theorem argAny_iff {β : Type} {d : List (Str × β)} {k : Str} : (d.any fun e => decide (e.1 = k)) = true ↔ k ∈ d.map (·.1) := by
  simp only [List.any_eq_true, decide_eq_true_eq, List.mem_map]

theorem dictGet_given {β : Type} {k : Str} {v : β} : ∀ {d : List (Str × β)}, (d.map (·.1)).Nodup →
    (dictGet id k d = some v ↔ (k, v) ∈ d)
  | [], _ => by simp [dictGet]
  | e :: d, h => by
    rw [List.map_cons, List.nodup_cons] at h
    rw [dictGet]
    by_cases hk : e.1 = k
    · rw [if_pos (by exact hk)]
      constructor
      · intro hv
        injection hv with hv
        exact List.mem_cons.2 (.inl (by rw [← hk, ← hv]))
      · intro hm
        rcases List.mem_cons.1 hm with rfl | hm
        · rfl
        · exact absurd (List.mem_map_of_mem (f := (·.1)) hm) (by rw [← hk]; exact h.1)
    · rw [if_neg (by exact hk), dictGet_given h.2, List.mem_cons]
      constructor
      · exact .inr
      · rintro (rfl | hm)
        · exact absurd rfl hk
        · exact hm

theorem dictGet_absent {β : Type} {k : Str} : ∀ {d : List (Str × β)}, dictGet id k d = none ↔ k ∉ d.map (·.1)
  | [] => by simp [dictGet]
  | e :: d => by
    rw [dictGet]
    by_cases hk : e.1 = k
    · rw [if_pos (by exact hk)]
      simp [hk]
    · rw [if_neg (by exact hk), dictGet_absent, List.map_cons, List.mem_cons]
      exact ⟨fun h => fun h' => h'.elim (fun e => hk e.symm) h, fun h => fun h' => h (.inr h')⟩

theorem fill_eq {β : Type} (v : β) : ∀ {ks : List Str} (d : List (Str × β)), ks.Nodup →
    ks.foldl (argDefault v) d = d ++ (ks.filter fun k => decide (k ∉ d.map (·.1))).map fun k => (k, v)
  | [], d, _ => by simp
  | k :: ks, d, h => by
    rw [List.nodup_cons] at h
    rw [List.foldl_cons, fill_eq v _ h.2]
    by_cases hk : k ∈ d.map (·.1)
    · rw [argDefault, if_pos (argAny_iff.2 hk), List.filter_cons, if_neg (by simpa using hk)]
    · rw [argDefault, if_neg (fun hc => hk (argAny_iff.1 hc)), List.filter_cons, if_pos (by simpa using hk), List.map_cons,
        List.append_assoc, List.singleton_append]
      congr 3
      apply List.filter_congr
      intro a ha
      have : a ≠ k := fun e => h.1 (e ▸ ha)
      simp [this]

theorem fill_keys {β : Type} (v : β) {ks : List Str} (d : List (Str × β)) (h : ks.Nodup) (hd : (d.map (·.1)).Nodup) :
    ((ks.foldl (argDefault v) d).map (·.1)).Nodup := by
  rw [fill_eq v d h, List.map_append, List.map_map]
  refine List.nodup_append.2 ⟨hd, ?_, ?_⟩
  · have : ((fun e : Str × β => e.1) ∘ fun k => (k, v)) = id := rfl
    rw [this, List.map_id]
    exact h.filter _
  · intro a ha b hb he
    simp only [List.mem_map, List.mem_filter, Function.comp, decide_eq_true_eq] at hb
    obtain ⟨k, ⟨_, hk⟩, rfl⟩ := hb
    subst he
    exact hk (List.mem_map.1 ha)

theorem fill_mem {β : Type} (v : β) {ks : List Str} (d : List (Str × β)) (h : ks.Nodup) {k : Str} (hk : k ∈ ks) :
    ∃ w, (k, w) ∈ ks.foldl (argDefault v) d ∧ ((k, w) ∈ d ∨ k ∉ d.map (·.1) ∧ w = v) := by
  rw [fill_eq v d h]
  by_cases hm : k ∈ d.map (·.1)
  · obtain ⟨e, he, rfl⟩ := List.mem_map.1 hm
    exact ⟨e.2, List.mem_append.2 (.inl he), .inl he⟩
  · refine ⟨v, List.mem_append.2 (.inr (List.mem_map.2 ⟨k, List.mem_filter.2 ⟨hk, by simpa using hm⟩, rfl⟩)), .inr ⟨hm, rfl⟩⟩

theorem languages_nodup : languages.Nodup := by decide
theorem classes_nodup : descriptorClasses.Nodup := by decide

/-! ### The specification -/

/-- A string, or a list or tuple of strings. -/
def OfTexts (v : ArgVal) : Prop := (∃ s, v = .text s) ∨ ∃ (b : Bool) (ts : List Str), v = .items b (ts.map .str)

/-- The strings found when going through a value. -/
def Through (v : ArgVal) (ts : List Str) : Prop := (∃ s, v = .text s ∧ ts = s.map fun c => [c]) ∨ ∃ b, v = .items b (ts.map .str)

/-- A dictionary of Python: a key occurs once. -/
def Keyed {β : Type} (d : List (Str × β)) : Prop := (d.map (·.1)).Nodup

theorem all_isStr {l : List ArgItem} : l.all ArgItem.isStr = true ↔ ∃ ts : List Str, l = ts.map .str := by
  constructor
  · intro h
    refine ⟨itemTexts l, ?_⟩
    induction l with
    | nil => rfl
    | cons i l ih =>
      rw [List.all_cons, Bool.and_eq_true] at h
      cases i with
      | str s => simp only [itemTexts, List.filterMap_cons, List.map_cons] at ih ⊢; rw [← ih h.2]
      | other => cases h.1
  · rintro ⟨ts, rfl⟩
    simp [ArgItem.isStr]

theorem through_iter {v : ArgVal} {ts : List Str} : Through v ts ↔ v.iter = .ok (ts.map .str) := by
  constructor
  · rintro (⟨s, rfl, rfl⟩ | ⟨b, rfl⟩)
    · simp [ArgVal.iter, Function.comp_def]
    · rfl
  · intro h
    cases v with
    | text s =>
      injection h with h
      refine .inl ⟨s, rfl, ?_⟩
      have := congrArg itemTexts h
      simpa [itemTexts, List.filterMap_map, Function.comp_def] using this.symm
    | items b l => injection h with h; exact .inr ⟨b, by rw [h]⟩
    | atom => cases h

theorem ofTexts_through {v : ArgVal} : OfTexts v ↔ ∃ ts, Through v ts := by
  constructor
  · rintro (⟨s, rfl⟩ | ⟨b, ts, rfl⟩)
    · exact ⟨_, .inl ⟨s, rfl, rfl⟩⟩
    · exact ⟨ts, .inr ⟨b, rfl⟩⟩
  · rintro ⟨ts, ⟨s, rfl, _⟩ | ⟨b, rfl⟩⟩
    · exact .inl ⟨s, rfl⟩
    · exact .inr ⟨b, ts, rfl⟩

theorem itemTexts_str (ts : List Str) : itemTexts (ts.map .str) = ts := by
  simp [itemTexts, List.filterMap_map, Function.comp_def]

/-- What the generator answers, when every language has a value. -/
theorem allStrings_true {d : ArgDict} (hd : Keyed d) : ∀ {ks : List Str}, (∀ k ∈ ks, ∃ v, (k, v) ∈ d) →
    (allStrings d ks = .ok true ↔ ∀ k ∈ ks, ∀ v, (k, v) ∈ d → OfTexts v)
  | [], _ => by simp [allStrings]
  | k :: ks, h => by
    obtain ⟨v, hv⟩ := h k (by simp)
    have hg : argGet d k = .ok v := by rw [argGet, (dictGet_given hd).2 hv]
    have huniq : ∀ w, (k, w) ∈ d → w = v := fun w hw => by
      have := (dictGet_given hd).2 hw
      rw [(dictGet_given hd).2 hv] at this
      injection this with this
      exact this.symm
    have ih := allStrings_true hd (ks := ks) fun k' hk' => h k' (List.mem_cons_of_mem _ hk')
    rw [allStrings, hg]
    simp only [List.forall_mem_cons]
    rw [← ih]
    have step : (∀ w, (k, w) ∈ d → OfTexts w) ↔ OfTexts v := ⟨fun hh => hh v hv, fun hh w hw => huniq w hw ▸ hh⟩
    rw [step, ofTexts_through]
    cases hi : v.iter with
    | error e =>
      constructor
      · intro hc; simp [bind, Except.bind, hi] at hc
      · rintro ⟨⟨ts, hts⟩, _⟩; rw [through_iter, hi] at hts; cases hts
    | ok l =>
      by_cases hl : l.all ArgItem.isStr = true
      · simp only [bind, Except.bind, hi, hl, if_true]
        obtain ⟨ts, rfl⟩ := all_isStr.1 hl
        exact ⟨fun hc => ⟨⟨ts, through_iter.2 hi⟩, hc⟩, fun hc => hc.2⟩
      · constructor
        · intro hc; simp [bind, Except.bind, hi, hl, pure, Except.pure] at hc
        · rintro ⟨⟨ts, hts⟩, _⟩
          rw [through_iter, hi] at hts
          injection hts with hts
          exact absurd (all_isStr.2 ⟨ts, hts⟩) hl

/-- **C94**: a dictionary of descriptors is accepted exactly when the values given to the known languages are strings, or lists or
tuples of strings; the absence of a dictionary is accepted. -/
theorem C94_accepted {d : ArgDict} (hd : Keyed d) :
    ((checkDescriptors (some d)).1 = .ok () ↔ ∀ l ∈ languages, ∀ v, (l, v) ∈ d → OfTexts v) ∧
    (checkDescriptors none).1 = .ok () := by
  refine ⟨?_, by decide⟩
  have h1 := allStrings_true (fill_keys (ArgVal.items true []) d languages_nodup hd) (ks := languages)
    fun k hk => by obtain ⟨w, hw, _⟩ := fill_mem (ArgVal.items true []) d languages_nodup hk; exact ⟨w, hw⟩
  have h2 : (checkDescriptors (some d)).1 = .ok () ↔
      allStrings (languages.foldl (argDefault (.items true [])) d) languages = .ok true := by
    rw [checkDescriptors]
    simp only [Option.getD_some]
    cases h : allStrings (languages.foldl (argDefault (.items true [])) d) languages with
    | error e => simp [bind, Except.bind]
    | ok b => cases b <;> simp [bind, Except.bind, throw, throwThe, MonadExceptOf.throw, pure, Except.pure]
  rw [h2, h1, fill_eq _ d languages_nodup]
  refine forall₂_congr fun l hl => ⟨fun h v hv => h v (List.mem_append.2 (.inl hv)), fun h v hv => ?_⟩
  rcases List.mem_append.1 hv with hv | hv
  · exact h v hv
  · obtain ⟨k, _, hk⟩ := List.mem_map.1 hv
    injection hk with _ hk
    exact .inr ⟨true, [], hk ▸ rfl⟩

/-- **C94**: the exceptions: `TypeError` when a value that cannot be gone through comes before any element that is not a string,
`AssertionError` otherwise. -/
theorem C94_refused {d : ArgDict} (hd : Keyed d) {e : Err} (h : (checkDescriptors (some d)).1 = .error e) :
    ∃ pre l post v, languages = pre ++ l :: post ∧ (∀ k ∈ pre, ∀ w, (k, w) ∈ d → OfTexts w) ∧ (l, v) ∈ d ∧ ¬OfTexts v ∧
      (e = .typeError ∧ v = .atom ∨ e = .assertionError ∧ v ≠ .atom) := by
  have key : ∀ (D : ArgDict), Keyed D → ∀ ks : List Str, (∀ k ∈ ks, ∃ v, (k, v) ∈ D) → ∀ r, allStrings D ks = r → r ≠ .ok true →
      ∃ pre l post v, ks = pre ++ l :: post ∧ (∀ k ∈ pre, ∀ w, (k, w) ∈ D → OfTexts w) ∧ (l, v) ∈ D ∧ ¬OfTexts v ∧
        (r = .error .typeError ∧ v = .atom ∨ r = .ok false ∧ v ≠ .atom) := by
    intro D hD ks
    induction ks with
    | nil => intro _ r hr hne; exact absurd hr.symm hne
    | cons k ks ih =>
      intro hk r hr hne
      obtain ⟨v, hv⟩ := hk k (by simp)
      have hg : argGet D k = .ok v := by rw [argGet, (dictGet_given hD).2 hv]
      have huniq : ∀ w, (k, w) ∈ D → w = v := fun w hw => by
        have := (dictGet_given hD).2 hw
        rw [(dictGet_given hD).2 hv] at this
        injection this with this
        exact this.symm
      rw [allStrings, hg] at hr
      cases v with
      | atom =>
        refine ⟨[], k, ks, .atom, rfl, by simp, hv, ?_, .inl ⟨hr.symm, rfl⟩⟩
        rintro (⟨s, hs⟩ | ⟨b, ts, hs⟩) <;> cases hs
      | text s =>
        have hl : (s.map fun c => ArgItem.str [c]).all ArgItem.isStr = true := by simp [ArgItem.isStr]
        simp only [bind, Except.bind, ArgVal.iter, hl, if_true] at hr
        obtain ⟨pre, l, post, w, rfl, h1, h2⟩ := ih (fun k' hk' => hk k' (List.mem_cons_of_mem _ hk')) r hr hne
        refine ⟨k :: pre, l, post, w, rfl, ?_, h2⟩
        rw [List.forall_mem_cons]
        exact ⟨fun w hw => .inl ⟨s, huniq w hw⟩, h1⟩
      | items b its =>
        by_cases hl : its.all ArgItem.isStr = true
        · simp only [bind, Except.bind, ArgVal.iter, hl, if_true] at hr
          obtain ⟨pre, l, post, w, rfl, h1, h2⟩ := ih (fun k' hk' => hk k' (List.mem_cons_of_mem _ hk')) r hr hne
          refine ⟨k :: pre, l, post, w, rfl, ?_, h2⟩
          rw [List.forall_mem_cons]
          obtain ⟨ts, rfl⟩ := all_isStr.1 hl
          exact ⟨fun w hw => .inr ⟨b, ts, huniq w hw⟩, h1⟩
        · simp only [bind, Except.bind, ArgVal.iter, hl] at hr
          refine ⟨[], k, ks, _, rfl, by simp, hv, ?_, .inr ⟨hr.symm, by simp⟩⟩
          rintro (⟨s, hs⟩ | ⟨b', ts, hs⟩)
          · cases hs
          · injection hs with _ hs
            exact hl (all_isStr.2 ⟨ts, hs⟩)
  have hne : allStrings (languages.foldl (argDefault (.items true [])) d) languages ≠ .ok true := by
    intro hc
    rw [checkDescriptors] at h
    simp only [Option.getD_some, hc] at h
    cases h
  obtain ⟨pre, l, post, v, h1, h2, h3, h4, h5⟩ := key _ (fill_keys (ArgVal.items true []) d languages_nodup hd) languages
    (fun k hk => by obtain ⟨w, hw, _⟩ := fill_mem (ArgVal.items true []) d languages_nodup hk; exact ⟨w, hw⟩) _ rfl hne
  rw [fill_eq _ d languages_nodup] at h2 h3
  refine ⟨pre, l, post, v, h1, fun k hk w hw => h2 k hk w (List.mem_append.2 (.inl hw)), ?_, h4, ?_⟩
  · rcases List.mem_append.1 h3 with h3 | h3
    · exact h3
    · obtain ⟨k, _, hk⟩ := List.mem_map.1 h3
      injection hk with _ hk
      exact absurd (.inr ⟨true, [], hk ▸ rfl⟩) h4
  · rw [checkDescriptors] at h
    simp only [Option.getD_some] at h
    rcases h5 with ⟨h5, h6⟩ | ⟨h5, h6⟩ <;> rw [h5] at h
    · left; refine ⟨?_, h6⟩; injection h with h; exact h.symm
    · right; refine ⟨?_, h6⟩; injection h with h; exact h.symm

/-- **C94**: the dictionary after the check: the entries given, in their order, then an empty list for each language that had none;
an entry for a language that is not known is kept. -/
theorem C94_completed (d : ArgDict) :
    (checkDescriptors (some d)).2 = d ++ (languages.filter fun l => decide (l ∉ d.map (·.1))).map (fun l => (l, .items true [])) ∧
    (checkDescriptors none).2 = languages.map (fun l => (l, .items true [])) :=
  ⟨fill_eq _ d languages_nodup, by decide⟩

/-- **C94**: the strings that the transactions find for a language in the dictionary after the check: those given, and none for a
language without value. -/
theorem C94_values {d : ArgDict} (hd : Keyed d) {l : Str} (hl : l ∈ languages) {v : ArgVal} {ts : List Str} :
    ((l, v) ∈ d → Through v ts → valuesOf (checkDescriptors (some d)).2 l = ts) ∧
    (l ∉ d.map (·.1) → valuesOf (checkDescriptors (some d)).2 l = []) := by
  have hk : Keyed (checkDescriptors (some d)).2 := fill_keys (ArgVal.items true []) d languages_nodup hd
  constructor
  · intro hv ht
    have : argGet (checkDescriptors (some d)).2 l = .ok v := by
      rw [argGet, (dictGet_given hk).2]
      rw [(C94_completed d).1]
      exact List.mem_append.2 (.inl hv)
    rw [valuesOf, this]
    simp only [bind, Except.bind, through_iter.1 ht, itemTexts_str]
  · intro hn
    have : argGet (checkDescriptors (some d)).2 l = .ok (.items true []) := by
      rw [argGet, (dictGet_given hk).2]
      rw [(C94_completed d).1]
      exact List.mem_append.2 (.inr (List.mem_map.2 ⟨l, List.mem_filter.2 ⟨hl, by simpa using hn⟩, rfl⟩))
    rw [valuesOf, this]
    rfl

/-- **C94**: checking again changes nothing: same answer, same dictionary. -/
theorem C94_again {d : ArgDict} (hd : Keyed d) :
    checkDescriptors (some (checkDescriptors (some d)).2) = checkDescriptors (some d) := by
  have : languages.foldl (argDefault (.items true [])) (languages.foldl (argDefault (ArgVal.items true [])) d) =
      languages.foldl (argDefault (.items true [])) d := by
    rw [fill_eq _ _ languages_nodup]
    rw [List.filter_eq_nil_iff.2, List.map_nil, List.append_nil]
    intro l hl
    obtain ⟨w, hw, _⟩ := fill_mem (ArgVal.items true []) d languages_nodup hl
    simpa using ⟨w, hw⟩
  unfold checkDescriptors
  simp only [Option.getD_some, this]

/-- The hypotheses are met by a dictionary with one of the two languages, in a tuple. -/
example : Keyed [(c!"en", ArgVal.items false [.str (c!"cat")])] ∧
    checkDescriptors (some [(c!"en", .items false [.str (c!"cat")])]) =
      (.ok (), [(c!"en", .items false [.str (c!"cat")]), (c!"fr", .items true [])]) := by
  unfold Keyed
  refine ⟨?_, ?_⟩ <;> decide +kernel

example : checkDescriptors (some [(c!"en", .atom), (c!"fr", .items true [.other])]) =
    (.error .assertionError, [(c!"en", .atom), (c!"fr", .items true [.other])]) := by decide +kernel

/-! ### Setting descriptors -/

/-- **C94**: a call that changes or keeps the database was given a script equal to its factorisation or a USL, and values accepted by the
check; it does what the update does with the strings of the values. -/
theorem C94_call {ord : List Script → List Script} {x : Ext} {fs : FS} {a : IemlArg} {desc : Str} {d : ArgDict} (hd : Keyed d)
    {r : FS × Bool} : setDescriptorsCall ord x fs a desc (some d) = .ok r ↔
    ∃ e, a = .expr e ∧ (∀ s, e = .script s → ∃ t, factorize ord s = .ok t ∧ t.str = s.str) ∧
      (∀ l ∈ languages, ∀ v, (l, v) ∈ d → OfTexts v) ∧
      setDescriptors x fs e.text desc (valuesOf (checkDescriptors (some d)).2) = .ok r := by
  have hs : ∀ s : Script, checkScript ord s = .ok () ↔ ∃ t, factorize ord s = .ok t ∧ t.str = s.str := by
    intro s
    unfold checkScript
    cases factorize ord s with
    | error e => simp [bind, Except.bind]
    | ok t =>
      by_cases ht : t.str = s.str
      · have : t.pyEq s = true := by simpa [Script.pyEq] using ht
        simp [bind, Except.bind, this, ht, pure, Except.pure]
      · have : t.pyEq s = false := by simpa [Script.pyEq] using ht
        simp [bind, Except.bind, this, ht, throw, throwThe, MonadExceptOf.throw]
  have hi : ∀ a e, checkIeml ord a = .ok e ↔ a = .expr e ∧ ∀ s, e = .script s → ∃ t, factorize ord s = .ok t ∧ t.str = s.str := by
    intro a e
    cases a with
    | other => simp [checkIeml]
    | expr e' =>
      cases e' with
      | script s =>
        rw [checkIeml]
        cases hc : checkScript ord s with
        | error er =>
          simp only [bind, Except.bind]
          constructor
          · intro h; cases h
          · rintro ⟨he, h⟩
            injection he with he
            have := (hs s).2 (h s he.symm)
            rw [hc] at this
            cases this
        | ok u =>
          simp only [bind, Except.bind, pure, Except.pure]
          constructor
          · intro h
            injection h with h
            subst h
            exact ⟨rfl, fun s' h' => by injection h' with h'; subst h'; exact (hs s).1 hc⟩
          · rintro ⟨he, _⟩
            injection he with he
            rw [he]
      | pm p =>
        rw [checkIeml]
        · constructor
          · intro h; injection h with h; subst h; exact ⟨rfl, fun s h => by cases h⟩
          · rintro ⟨he, _⟩; injection he with he; rw [he]
        · intro s h; cases h
      | lexeme p =>
        rw [checkIeml]
        · constructor
          · intro h; injection h with h; subst h; exact ⟨rfl, fun s h => by cases h⟩
          · rintro ⟨he, _⟩; injection he with he; rw [he]
        · intro s h; cases h
      | word p =>
        rw [checkIeml]
        · constructor
          · intro h; injection h with h; subst h; exact ⟨rfl, fun s h => by cases h⟩
          · rintro ⟨he, _⟩; injection he with he; rw [he]
        · intro s h; cases h
  unfold setDescriptorsCall
  constructor
  · intro h
    obtain ⟨e, he, h⟩ := bind_ok.1 h
    obtain ⟨_, hc, h⟩ := bind_ok.1 h
    obtain ⟨h1, h2⟩ := (hi a e).1 he
    exact ⟨e, h1, h2, (C94_accepted hd).1.1 hc, h⟩
  · rintro ⟨e, h1, h2, h3, h4⟩
    rw [(hi a e).2 ⟨h1, h2⟩]
    have hc := (C94_accepted hd).1.2 h3
    simp only [bind, Except.bind, hc]
    exact h4

/-- **C94**: with the hypotheses of `C32_set_partial`, the values stored after the call are the strings given, stripped and without the
blank ones.  Missing, as there: values with line breaks and keys with quotation marks. -/
theorem C94_stored_partial {ord : List Script → List Script} {x : Ext} {fs : FS} (hx : x.Stable) {e : Expr} {p desc : Str} {d : ArgDict}
    (hd : Keyed d) (he : ∀ s, e = .script s → ∃ t, factorize ord s = .ok t ∧ t.str = s.str)
    (texts : Str → List Str) (hg : ∀ l ∈ languages, (∃ v, (l, v) ∈ d ∧ Through v (texts l)) ∨ l ∉ d.map (·.1) ∧ texts l = [])
    (hc : Consistent x fs) (hkt : keyText x e.text = .ok e.text) (hp : pathOf x e.text true true = .ok p) (hk : OneLine e.text)
    (hkq : NoQuote e.text) (hdc : desc ∈ descriptorClasses) (hv : ∀ l ∈ languages, ∀ v ∈ texts l, OneLine (strip v))
    (ht : Trimmed fs e.text desc) (alone : Alone x fs e.text p) :
    ∃ fs' b, setDescriptorsCall ord x fs (.expr e) desc (some d) = .ok (fs', b) ∧
      ∀ l ∈ languages, ∃ new, getValues fs' e.text l desc = .ok new ∧ new.Perm (cleaned (texts l)) := by
  have hval : ∀ l ∈ languages, valuesOf (checkDescriptors (some d)).2 l = texts l := by
    intro l hl
    rcases hg l hl with ⟨v, hm, ht⟩ | ⟨hn, ht⟩
    · exact (C94_values hd hl).1 hm ht
    · rw [(C94_values (v := .atom) (ts := []) hd hl).2 hn, ht]
  have hv' : ∀ l ∈ languages, ∀ v ∈ valuesOf (checkDescriptors (some d)).2 l, OneLine (strip v) := by
    intro l hl v hm
    rw [hval l hl] at hm
    exact hv l hl v hm
  obtain ⟨fs', b, h1, _, h2, _⟩ := C32_set_partial hx hc hkt hp hk hkq hdc hv' ht alone
  refine ⟨fs', b, (C94_call hd).2 ⟨e, rfl, he, ?_, h1⟩, fun l hl => ?_⟩
  · intro l hl v hm
    rcases hg l hl with ⟨v', hm', ht'⟩ | ⟨hn, _⟩
    · have h3 := (dictGet_given hd).2 hm
      rw [(dictGet_given hd).2 hm'] at h3
      injection h3 with h3
      exact h3 ▸ ofTexts_through.2 ⟨_, ht'⟩
    · exact absurd (List.mem_map_of_mem (f := (·.1)) hm) hn
  · obtain ⟨new, h3, h4, _⟩ := h2 l hl
    exact ⟨new, h3, hval l hl ▸ h4⟩

/-- **C94** does not hold of strings: the text `"cat"` is accepted where a list is expected, and its letters are stored. -/
theorem C94_violated_string :
    (setDescriptorsCall id demo [] (.expr (.pm (mkPM [.prim .U] []))) (c!"tags") (some [(c!"en", .text (c!"cat"))])).bind
      (fun r => getValues r.1 (mkPM [.prim .U] []).text (c!"en") (c!"tags")) = .ok [c!"c", c!"a", c!"t"] := by
  decide +kernel

/-- **C94** does not hold of other languages: their values are accepted, whatever they are, and nothing is stored. -/
theorem C94_violated_language :
    checkDescriptors (some [(c!"de", .items true [.str (c!"Katze")]), (c!"es", .atom)]) =
      (.ok (), [(c!"de", .items true [.str (c!"Katze")]), (c!"es", .atom), (c!"fr", .items true []), (c!"en", .items true [])]) ∧
    setDescriptorsCall id demo [] (.expr (.pm (mkPM [] []))) (c!"tags") (some [(c!"de", .items true [.str (c!"Katze")])]) =
      .ok ([], false) := by
  refine ⟨?_, ?_⟩ <;> decide +kernel

/-- **C94** does not hold of refused dictionaries: they are completed all the same. -/
theorem C94_violated_refused :
    checkDescriptors (some [(c!"en", .atom)]) = (.error .typeError, [(c!"en", .atom), (c!"fr", .items true [])]) := by
  decide +kernel

/-- **C94**: inhibitions are accepted exactly when going through them gives known relations. -/
theorem C94_inhibitions {v : ArgVal} {ts : List Str} :
    checkInhibitions v = .ok ts ↔ Through v ts ∧ ∀ t ∈ ts, t ∈ inhibitableRelations := by
  have key : ∀ (l : List ArgItem) (ts : List Str),
      l.mapM (fun i => match i with
        | .str s => if inhibitableRelations.contains s then Except.ok s else .error Err.assertionError
        | .other => .error Err.assertionError) = Except.ok ts ↔ l = ts.map .str ∧ ∀ t ∈ ts, t ∈ inhibitableRelations := by
    intro l
    induction l with
    | nil =>
      intro ts
      rw [List.mapM_nil]
      constructor
      · intro h; injection h with h; subst h; simp
      · rintro ⟨h, _⟩; rw [eq_comm, List.map_eq_nil_iff] at h; rw [h]; rfl
    | cons i l ih =>
      intro ts
      rw [List.mapM_cons]
      constructor
      · intro h
        obtain ⟨s, hs, h⟩ := bind_ok.1 h
        obtain ⟨r, hr, h⟩ := bind_ok.1 h
        injection h with h
        subst h
        obtain ⟨rfl, h2⟩ := (ih r).1 hr
        cases i with
        | other => cases hs
        | str t =>
          simp only at hs
          split at hs
          · next hc =>
            injection hs with hs
            subst hs
            exact ⟨rfl, by rw [List.forall_mem_cons]; exact ⟨by simpa using hc, h2⟩⟩
          · cases hs
      · rintro ⟨h, h2⟩
        cases ts with
        | nil => cases h
        | cons t ts =>
          rw [List.map_cons] at h
          injection h with h3 h4
          rw [List.forall_mem_cons] at h2
          rw [(ih ts).2 ⟨h4, h2.2⟩, h3]
          have : inhibitableRelations.contains t = true := by simpa using h2.1
          simp only [this]
          rfl
  unfold checkInhibitions
  rw [through_iter]
  constructor
  · intro h
    obtain ⟨l, hl, h⟩ := bind_ok.1 h
    obtain ⟨rfl, h2⟩ := (key l ts).1 h
    exact ⟨hl, h2⟩
  · rintro ⟨h1, h2⟩
    rw [h1]
    exact (key _ ts).2 ⟨rfl, h2⟩

example : checkInhibitions (.items false [.str (c!"twin"), .str (c!"crossed")]) = .ok [c!"twin", c!"crossed"] ∧
    checkInhibitions (.text []) = .ok [] ∧ checkInhibitions (.text (c!"twin")) = .error .assertionError ∧
    checkInhibitions (.items true [.str (c!"contains")]) = .error .assertionError := by
  refine ⟨?_, ?_, ?_, ?_⟩ <;> decide +kernel

/-! ### Descriptors of all classes -/

/-- Lists of strings by class and language. -/
def WellFormed (d : List (Str × ArgInner)) : Prop :=
  ∀ e ∈ d, e.1 ∈ languages ∧ ∃ m, e.2 = .dict m ∧ ∀ f ∈ m, f.1 ∈ descriptorClasses ∧ ∃ ts : List Str, f.2 = .items true (ts.map .str)

theorem classOk_iff {e : Str × ArgVal} : classOk e = true ↔ e.1 ∈ descriptorClasses ∧ ∃ ts : List Str, e.2 = .items true (ts.map .str) := by
  obtain ⟨k, v⟩ := e
  unfold classOk
  rw [Bool.and_eq_true, List.contains_iff_mem]
  refine and_congr_right fun _ => ?_
  cases v with
  | text s => simp
  | atom => simp
  | items b l =>
    cases b
    · simp
    · simp only [all_isStr, ArgVal.items.injEq, true_and]

/-- The value of a language that the loop of the classes accepts: a dictionary, completed, or something that has elements. -/
theorem fillClasses_ok {i j : ArgInner} (h : fillClasses i = .ok j) :
    (∃ m, i = .dict m ∧ j = .dict (descriptorClasses.foldl (argDefault (.items true [])) m)) ∨
    ∃ v, i = .val v ∧ j = .val v ∧ innerOk j ≠ .ok true := by
  cases i with
  | dict m => injection h with h; exact .inl ⟨m, rfl, h.symm⟩
  | val v =>
    refine .inr ⟨v, rfl, ?_⟩
    unfold fillClasses at h
    obtain ⟨bs, hb, h⟩ := bind_ok.1 h
    split at h
    · next hall =>
      injection h with h
      subst h
      refine ⟨rfl, ?_⟩
      have hne : v.iter ≠ .ok [] := by
        intro hi
        cases v with
        | atom => cases hi
        | text s =>
          injection hi with hi
          rw [List.map_eq_nil_iff] at hi
          subst hi
          have : descriptorClasses.mapM (fun c => (ArgVal.text []).contains c) = .ok [false, false, false, false] := by decide
          rw [this] at hb
          injection hb with hb
          subst hb
          cases hall
        | items b l =>
          injection hi with hi
          subst hi
          have : descriptorClasses.mapM (fun c => (ArgVal.items b []).contains c) = .ok [false, false, false, false] := by
            cases b <;> decide
          rw [this] at hb
          injection hb with hb
          subst hb
          cases hall
      unfold innerOk
      intro hc
      obtain ⟨l, hl, hc⟩ := bind_ok.1 hc
      match l, hl, hc with
      | [], hl, _ => exact hne hl
      | .other :: _, _, hc => cases hc
      | .str s :: _, _, hc =>
        simp only at hc
        split at hc <;> cases hc
    · cases h

theorem innerOk_true {i : ArgInner} : (∃ j, fillClasses i = .ok j ∧ innerOk j = .ok true) ↔
    ∃ m, i = .dict m ∧ ∀ f ∈ m, f.1 ∈ descriptorClasses ∧ ∃ ts : List Str, f.2 = .items true (ts.map .str) := by
  constructor
  · rintro ⟨j, h1, h2⟩
    rcases fillClasses_ok h1 with ⟨m, rfl, rfl⟩ | ⟨v, rfl, rfl, h3⟩
    · refine ⟨m, rfl, fun f hf => ?_⟩
      unfold innerOk at h2
      injection h2 with h2
      rw [List.all_eq_true] at h2
      refine classOk_iff.1 (h2 f ?_)
      rw [fill_eq _ m classes_nodup]
      exact List.mem_append.2 (.inl hf)
    · exact absurd h2 h3
  · rintro ⟨m, rfl, h⟩
    refine ⟨_, rfl, ?_⟩
    show Except.ok _ = Except.ok true
    congr 1
    rw [List.all_eq_true, fill_eq _ m classes_nodup]
    intro f hf
    rcases List.mem_append.1 hf with hf | hf
    · exact classOk_iff.2 (h f hf)
    · obtain ⟨k, hk, rfl⟩ := List.mem_map.1 hf
      exact classOk_iff.2 ⟨(List.mem_filter.1 hk).1, [], rfl⟩

theorem allInner_true : ∀ {d : List (Str × ArgInner)}, allInner d = .ok true ↔ ∀ e ∈ d, innerOk e.2 = .ok true
  | [] => by simp [allInner]
  | e :: d => by
    rw [allInner, List.forall_mem_cons, ← allInner_true]
    cases h : innerOk e.2 with
    | error er => simp [bind, Except.bind]
    | ok b => cases b <;> simp [bind, Except.bind, pure, Except.pure]

theorem dictSet_keyed {β : Type} {k : Str} {v : β} : ∀ {d : List (Str × β)}, k ∈ d.map (·.1) →
    (dictSet id k v d).map (·.1) = d.map (·.1)
  | [], h => by cases h
  | e :: d, h => by
    rw [dictSet]
    by_cases hk : e.1 = k
    · rw [if_pos (by exact hk)]; rfl
    · rw [if_neg (by exact hk), List.map_cons, dictSet_keyed]
      · rfl
      · rcases List.mem_cons.1 h with h | h
        · exact absurd h.symm hk
        · exact h

theorem argSet_entries {β : Type} {k : Str} {v : β} {f : Str × β} : ∀ {d : List (Str × β)}, Keyed d → k ∈ d.map (·.1) →
    (f ∈ dictSet id k v d ↔ f = (k, v) ∨ f ∈ d ∧ f.1 ≠ k)
  | [], _, h => by cases h
  | e :: d, hd, h => by
    unfold Keyed at hd
    rw [List.map_cons, List.nodup_cons] at hd
    rw [dictSet]
    by_cases hk : e.1 = k
    · rw [if_pos (by exact hk), List.mem_cons, List.mem_cons, hk]
      constructor
      · rintro (rfl | hf)
        · exact .inl rfl
        · refine .inr ⟨.inr hf, fun hc => hd.1 ?_⟩
          rw [hk, ← hc]
          exact List.mem_map_of_mem hf
      · rintro (rfl | ⟨rfl | hf, hne⟩)
        · exact .inl rfl
        · exact absurd hk hne
        · exact .inr hf
    · have hm : k ∈ d.map (·.1) := by
        rcases List.mem_cons.1 h with h | h
        · exact absurd h.symm hk
        · exact h
      rw [if_neg (by exact hk), List.mem_cons, List.mem_cons, argSet_entries (by exact hd.2) hm]
      constructor
      · rintro (rfl | rfl | ⟨hf, hne⟩)
        · exact .inr ⟨.inl rfl, hk⟩
        · exact .inl rfl
        · exact .inr ⟨.inr hf, hne⟩
      · rintro (rfl | ⟨rfl | hf, hne⟩)
        · exact .inr (.inl rfl)
        · exact .inl rfl
        · exact .inr (.inr ⟨hf, hne⟩)

/-- The value of a key after `if k not in d: d[k] = v`. -/
def ArgFilled {β : Type} (d : List (Str × β)) (v : β) (k : Str) (i : β) : Prop := (k, i) ∈ d ∨ k ∉ d.map (·.1) ∧ i = v

theorem argDefault_keyed {β : Type} {d : List (Str × β)} {v : β} {k : Str} (hd : Keyed d) : Keyed (argDefault v d k) := by
  have := fill_keys v (ks := [k]) d (by simp) hd
  exact this

theorem argDefault_mem {β : Type} {d : List (Str × β)} {v : β} {k : Str} {e : Str × β} :
    e ∈ argDefault v d k ↔ e ∈ d ∨ k ∉ d.map (·.1) ∧ e = (k, v) := by
  rw [argDefault]
  by_cases hk : k ∈ d.map (·.1)
  · rw [if_pos (argAny_iff.2 hk)]
    simp [hk]
  · rw [if_neg (fun hc => hk (argAny_iff.1 hc)), List.mem_append, List.mem_singleton]
    simp [hk]

theorem filled_default {β : Type} {d : List (Str × β)} {v : β} {k k' : Str} {i : β} (hne : k' ≠ k) :
    ArgFilled (argDefault v d k) v k' i ↔ ArgFilled d v k' i := by
  unfold ArgFilled
  have h1 : (k', i) ∈ argDefault v d k ↔ (k', i) ∈ d := by
    rw [argDefault_mem]
    simp [hne]
  have h2 : k' ∈ (argDefault v d k).map (·.1) ↔ k' ∈ d.map (·.1) := by
    rw [List.mem_map, List.mem_map]
    constructor
    · rintro ⟨e, he, rfl⟩
      rcases argDefault_mem.1 he with he | ⟨_, rfl⟩
      · exact ⟨e, he, rfl⟩
      · exact absurd rfl hne
    · rintro ⟨e, he, rfl⟩
      exact ⟨e, argDefault_mem.2 (.inl he), rfl⟩
  rw [h1, h2]

theorem default_filled {β : Type} {d : List (Str × β)} {v : β} {k : Str} {i : β} (hd : Keyed d) :
    argGet (argDefault v d k) k = .ok i ↔ ArgFilled d v k i := by
  have h : (k, i) ∈ argDefault v d k ↔ ArgFilled d v k i := by
    rw [argDefault_mem, ArgFilled]
    simp
  rw [← h, ← dictGet_given (argDefault_keyed hd), argGet]
  cases dictGet id k (argDefault v d k) <;> simp

theorem default_present {β : Type} {d : List (Str × β)} {v : β} {k : Str} : k ∈ (argDefault v d k).map (·.1) := by
  by_cases hk : k ∈ d.map (·.1)
  · rw [argDefault, if_pos (argAny_iff.2 hk)]; exact hk
  · exact List.mem_map.2 ⟨(k, v), argDefault_mem.2 (.inr ⟨hk, rfl⟩), rfl⟩

theorem filled_set {β : Type} {d : List (Str × β)} {v w i : β} {k k' : Str} (hd : Keyed d) (hk : k ∈ d.map (·.1)) (hne : k' ≠ k) :
    ArgFilled (dictSet id k w d) v k' i ↔ ArgFilled d v k' i := by
  unfold ArgFilled
  rw [argSet_entries hd hk, dictSet_keyed hk]
  simp [hne]

/-- The entries after the loop over the languages. -/
theorem fillMulti_spec : ∀ {ks : List Str} {d D : List (Str × ArgInner)}, ks.Nodup → Keyed d → fillMulti ks d = (.ok (), D) →
    (∀ k ∈ ks, ∃ j, (k, j) ∈ D) ∧
      ∀ e, e ∈ D ↔ e ∈ d ∧ e.1 ∉ ks ∨ e.1 ∈ ks ∧ ∃ i, ArgFilled d (.dict []) e.1 i ∧ fillClasses i = .ok e.2
  | [], d, D, _, hd, h => by
    injection h with _ h
    subst h
    exact ⟨by simp, by simp⟩
  | k :: ks, d, D, hn, hd, h => by
    rw [List.nodup_cons] at hn
    rw [fillMulti] at h
    split at h
    · cases h
    · next v hv =>
      obtain ⟨i, hi, hv⟩ := bind_ok.1 hv
      have hd' : Keyed (argDefault (.dict []) d k) := argDefault_keyed hd
      have hk' := default_present (d := d) (v := ArgInner.dict []) (k := k)
      have hd'' : Keyed (dictSet id k v (argDefault (.dict []) d k)) := by
        unfold Keyed
        rw [dictSet_keyed hk']
        exact hd'
      obtain ⟨h1, h2⟩ := fillMulti_spec hn.2 hd'' h
      refine ⟨List.forall_mem_cons.2 ⟨⟨v, (h2 (k, v)).2 (.inl ⟨(argSet_entries hd' hk').2 (.inl rfl), hn.1⟩)⟩, h1⟩, fun e => ?_⟩
      rw [h2 e, argSet_entries hd' hk', argDefault_mem, List.mem_cons]
      have hi' := (default_filled hd).1 hi
      by_cases he : e.1 = k
      · have hks : e.1 ∉ ks := by rw [he]; exact hn.1
        constructor
        · rintro (⟨rfl | ⟨_, hne⟩, _⟩ | ⟨hc, _⟩)
          · exact .inr ⟨.inl rfl, i, hi', hv⟩
          · exact absurd he hne
          · exact absurd hc hks
        · rintro (⟨_, hc⟩ | ⟨_, j, hj, hj'⟩)
          · exact absurd (.inl he) hc
          · refine .inl ⟨.inl ?_, hks⟩
            rw [he] at hj
            have := (default_filled hd).2 hj
            rw [hi] at this
            injection this with this
            subst this
            rw [hv] at hj'
            injection hj' with hj'
            exact Prod.ext he hj'.symm
      · have h3 : ∀ i, ArgFilled (dictSet id k v (argDefault (.dict []) d k)) (.dict []) e.1 i ↔ ArgFilled d (.dict []) e.1 i := fun i => by
          rw [filled_set hd' hk' he, filled_default he]
        have h4 : e ≠ (k, v) := fun hc => he (by rw [hc])
        have h5 : e ≠ (k, ArgInner.dict []) := fun hc => he (by rw [hc])
        simp only [h3, h4, h5, he, and_false, or_false, false_or, ne_eq, not_false_eq_true, and_true]

theorem fillMulti_ok : ∀ {ks : List Str} {d : List (Str × ArgInner)}, ks.Nodup → Keyed d →
    (∀ k ∈ ks, ∀ i, (k, i) ∈ d → ∃ j, fillClasses i = .ok j) → ∃ D, fillMulti ks d = (.ok (), D)
  | [], d, _, _, _ => ⟨d, rfl⟩
  | k :: ks, d, hn, hd, h => by
    rw [List.nodup_cons] at hn
    have hd' : Keyed (argDefault (.dict []) d k) := argDefault_keyed hd
    have hk' := default_present (d := d) (v := ArgInner.dict []) (k := k)
    obtain ⟨i, hi, j, hj⟩ : ∃ i, argGet (argDefault (.dict []) d k) k = .ok i ∧ ∃ j, fillClasses i = .ok j := by
      obtain ⟨e, he, hek⟩ := List.mem_map.1 hk'
      refine ⟨e.2, by rw [argGet, (dictGet_given hd' (v := e.2)).2 (by rw [show (k, e.2) = e from Prod.ext hek.symm rfl]; exact he)], ?_⟩
      rcases argDefault_mem.1 he with he | ⟨_, rfl⟩
      · exact h k (by simp) e.2 (by rw [← hek]; exact he)
      · exact ⟨_, rfl⟩
    rw [fillMulti]
    simp only [hi, bind, Except.bind, hj]
    refine fillMulti_ok hn.2 ?_ ?_
    · unfold Keyed; rw [dictSet_keyed hk']; exact hd'
    · intro k' hk i' hm
      have hne : k' ≠ k := fun e => hn.1 (e ▸ hk)
      rcases (argSet_entries hd' hk').1 hm with hm | ⟨hm, _⟩
      · injection hm with hm _; exact absurd hm hne
      · rcases argDefault_mem.1 hm with hm | ⟨_, hm⟩
        · exact h k' (List.mem_cons_of_mem _ hk) i' hm
        · injection hm with hm _; exact absurd hm hne

/-- **C94**: a dictionary of the descriptors of all classes is accepted exactly when all that it holds is lists of strings by known
languages and classes; then it has an entry for each language, with all that was given to it and an empty list for each class
that had none, and no other entry. -/
theorem C94_multi {d : List (Str × ArgInner)} (hd : Keyed d) :
    ((checkMulti (some d)).1 = .ok () ↔ WellFormed d) ∧
    (WellFormed d → ∀ l i, (l, i) ∈ (checkMulti (some d)).2 ↔ l ∈ languages ∧ ∃ m, ArgFilled d (.dict []) l (.dict m) ∧
      i = .dict (m ++ (descriptorClasses.filter fun c => decide (c ∉ m.map (·.1))).map fun c => (c, .items true []))) := by
  have hfill : WellFormed d → ∃ D, fillMulti languages d = (.ok (), D) := fun hw => by
    refine fillMulti_ok languages_nodup hd fun k _ i hi => ?_
    obtain ⟨_, m, rfl, _⟩ := hw _ hi
    exact ⟨_, rfl⟩
  constructor
  · unfold checkMulti
    simp only [Option.getD_some]
    constructor
    · intro h
      split at h
      · cases h
      · next D hD =>
        obtain ⟨hkeys, hspec⟩ := fillMulti_spec languages_nodup hd hD
        simp only at h
        split at h
        · cases h
        · next hlang =>
          rw [Bool.not_eq_true, Bool.not_eq_false', List.all_eq_true] at hlang
          obtain ⟨b, hb, h⟩ := bind_ok.1 h
          cases b with
          | false => cases h
          | true =>
            rw [allInner_true] at hb
            intro e he
            have hl : e.1 ∈ languages := by
              by_contra hc
              have := hlang e ((hspec e).2 (.inl ⟨he, hc⟩))
              exact hc (List.contains_iff_mem.1 this)
            refine ⟨hl, ?_⟩
            obtain ⟨j, hj⟩ := hkeys e.1 hl
            rcases (hspec (e.1, j)).1 hj with ⟨_, hc⟩ | ⟨_, i, hi, hij⟩
            · exact absurd hl hc
            · have hie : i = e.2 := by
                have h1 := (default_filled hd).2 hi
                have h2 := (default_filled (v := ArgInner.dict []) hd).2 (.inl he : ArgFilled d (.dict []) e.1 e.2)
                rw [h1] at h2
                injection h2
              subst hie
              exact innerOk_true.1 ⟨j, hij, hb _ hj⟩
    · intro hw
      obtain ⟨D, hD⟩ := hfill hw
      obtain ⟨_, hspec⟩ := fillMulti_spec languages_nodup hd hD
      rw [hD]
      simp only
      have h1 : D.all (fun e => languages.contains e.1) = true := by
        rw [List.all_eq_true]
        intro e he
        rcases (hspec e).1 he with ⟨he, _⟩ | ⟨he, _⟩
        · exact List.contains_iff_mem.2 (hw e he).1
        · exact List.contains_iff_mem.2 he
      have h2 : allInner D = .ok true := by
        rw [allInner_true]
        intro e he
        rcases (hspec e).1 he with ⟨he, hn⟩ | ⟨_, i, hi, hie⟩
        · exact absurd (hw e he).1 hn
        · have : ∃ m, i = .dict m ∧ ∀ f ∈ m, f.1 ∈ descriptorClasses ∧ ∃ ts : List Str, f.2 = .items true (ts.map .str) := by
            rcases hi with hi | ⟨_, rfl⟩
            · exact (hw _ hi).2
            · exact ⟨[], rfl, by simp⟩
          obtain ⟨j, hj, hj'⟩ := innerOk_true.2 this
          rw [hie] at hj
          injection hj with hj
          rw [hj]
          exact hj'
      rw [h1, h2]
      rfl
  · intro hw l i
    obtain ⟨D, hD⟩ := hfill hw
    obtain ⟨_, hspec⟩ := fillMulti_spec languages_nodup hd hD
    have : (checkMulti (some d)).2 = D := by
      unfold checkMulti
      simp only [Option.getD_some, hD]
    rw [this, hspec]
    constructor
    · rintro (⟨he, hn⟩ | ⟨hl, i', hi, hii⟩)
      · exact absurd (hw _ he).1 hn
      · refine ⟨hl, ?_⟩
        have : ∃ m, i' = .dict m := by
          rcases hi with hi | ⟨_, rfl⟩
          · obtain ⟨_, m, hm, _⟩ := hw _ hi
            exact ⟨m, hm⟩
          · exact ⟨[], rfl⟩
        obtain ⟨m, rfl⟩ := this
        refine ⟨m, hi, ?_⟩
        injection hii with hii
        exact hii.symm.trans (by rw [fill_eq _ m classes_nodup])
    · rintro ⟨hl, m, hm, rfl⟩
      refine .inr ⟨hl, .dict m, hm, ?_⟩
      rw [fillClasses, fill_eq _ m classes_nodup]

example : (checkMulti (some [(c!"fr", .dict [(c!"tags", .items true [.str (c!"chat")])])])).1 = .ok () := by decide +kernel

/-- **C94**: what is not well formed, refused for the reasons of the code: another language, another class, a tuple, a string, a list
that names all the classes, an object that is not iterable. -/
theorem C94_multi_refused :
    (checkMulti (some [(c!"de", .dict [])])).1 = .error .assertionError ∧
    (checkMulti (some [(c!"fr", .dict [(c!"notes", .items true [])])])).1 = .error .assertionError ∧
    (checkMulti (some [(c!"fr", .dict [(c!"tags", .items false [])])])).1 = .error .assertionError ∧
    (checkMulti (some [(c!"fr", .val (.text (c!"translations tags comments rdf_repositories")))])).1 = .error .assertionError ∧
    (checkMulti (some [(c!"fr", .val (.items true (descriptorClasses.map .str)))])).1 = .error .typeError ∧
    (checkMulti (some [(c!"fr", .val .atom)])).1 = .error .typeError := by
  refine ⟨?_, ?_, ?_, ?_, ?_, ?_⟩ <;> decide +kernel

/-! ### The names of the tables of a root -/

/-- **C94**: the descriptors of the tables of a root: to the strings of each language the number of the table is appended. -/
theorem C94_append {d : ArgDict} {n : Nat} {D : ArgDict} : appendIdx d n = .ok D ↔
    List.Forall₂ (fun e f => f.1 = e.1 ∧ ∃ ts : List Str, Through e.2 ts ∧ f.2 = .items true (ts.map fun t => .str (t ++ decimal n))) d D := by
  have inner : ∀ (l r : List ArgItem),
      l.mapM (appendItem n) = .ok r ↔ ∃ ts : List Str, l = ts.map .str ∧ r = ts.map fun t => .str (t ++ decimal n) := by
    intro l
    induction l with
    | nil =>
      intro r
      rw [List.mapM_nil]
      constructor
      · intro h; injection h with h; exact ⟨[], rfl, h.symm⟩
      · rintro ⟨ts, h, rfl⟩; rw [eq_comm, List.map_eq_nil_iff] at h; rw [h]; rfl
    | cons i l ih =>
      intro r
      rw [List.mapM_cons]
      constructor
      · intro h
        obtain ⟨s, hs, h⟩ := bind_ok.1 h
        obtain ⟨q, hq, h⟩ := bind_ok.1 h
        injection h with h
        subst h
        obtain ⟨ts, rfl, rfl⟩ := (ih q).1 hq
        cases i with
        | other => cases hs
        | str t => injection hs with hs; exact ⟨t :: ts, rfl, by rw [← hs]; rfl⟩
      · rintro ⟨ts, h, rfl⟩
        cases ts with
        | nil => cases h
        | cons t ts =>
          injection h with h3 h4
          rw [(ih _).2 ⟨ts, h4, rfl⟩, h3]
          rfl
  unfold appendIdx
  induction d generalizing D with
  | nil =>
    rw [List.mapM_nil, List.forall₂_nil_left_iff]
    exact ⟨fun h => by injection h with h; exact h.symm, fun h => by rw [h]; rfl⟩
  | cons e d ih =>
    rw [List.mapM_cons, List.forall₂_cons_left_iff]
    constructor
    · intro h
      obtain ⟨f, hf, h⟩ := bind_ok.1 h
      obtain ⟨q, hq, h⟩ := bind_ok.1 h
      injection h with h
      obtain ⟨l, hl, hf⟩ := bind_ok.1 hf
      obtain ⟨r, hr, hf⟩ := bind_ok.1 hf
      injection hf with hf
      obtain ⟨ts, rfl, rfl⟩ := (inner l r).1 hr
      exact ⟨f, q, ⟨by rw [← hf], ts, through_iter.2 hl, by rw [← hf]⟩, ih.1 hq, h.symm⟩
    · rintro ⟨f, q, ⟨h1, ts, h2, h3⟩, hq, rfl⟩
      rw [through_iter.1 h2]
      simp only [bind, Except.bind]
      rw [(inner _ _).2 ⟨ts, rfl, rfl⟩]
      have := ih.2 hq
      simp only [bind, Except.bind] at this
      simp only [this]
      have hf : f = (e.1, .items true (ts.map fun t => .str (t ++ decimal n))) := Prod.ext h1 h3
      rw [hf]
      rfl

/-- **C94**: different numbers give different descriptors to the same string. -/
theorem C94_numbers {t : Str} {n m : Nat} (h : t ++ decimal n = t ++ decimal m) : n = m := decimal_inj (List.append_cancel_left h)

example : appendIdx [(c!"fr", .items true [.str (c!"chat")])] 12 = .ok [(c!"fr", .items true [.str (c!"chat12")])] ∧
    appendIdx [(c!"fr", .items true [.other])] 1 = .error .typeError := by
  refine ⟨?_, ?_⟩ <;> decide +kernel

/-- **C94** does not hold of different strings: two tables may have a descriptor in common. -/
theorem C94_violated_numbers :
    appendIdx [(c!"fr", .items true [.str (c!"a1"), .str (c!"a")])] 1 = .ok [(c!"fr", .items true [.str (c!"a11"), .str (c!"a1")])] ∧
    appendIdx [(c!"fr", .items true [.str (c!"a1"), .str (c!"a")])] 11 = .ok [(c!"fr", .items true [.str (c!"a111"), .str (c!"a11")])] := by
  refine ⟨?_, ?_⟩ <;> decide +kernel

end Verif
