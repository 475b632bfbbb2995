import Verif.Lemmas.Listing
import Verif.Lemmas.Except
import Verif.Props.Transaction
import Verif.Props.Database
import Verif.Spec.Listing

/-
Properties of the lists of expressions, of the descriptors of one expression and of the migration of all (C81 to C83).
-/

namespace Verif
variable {x : Ext} {fs fs' : FS} {db : List (Str × List Entry)}

/-! ### Folders -/

theorem pathOf_folder {κ p : Str} {a n : Bool} (h : pathOf x κ a n = .ok p) : ∃ u rest, x.parse κ = .ok u ∧
    p = u.kind.folder.1 ++ c!"/" ++ (if u.singular then c!"singular" else c!"paradigm") ++ c!"/" ++ rest := by
  unfold pathOf at h
  obtain ⟨u, hu, h⟩ := bind_ok.1 h
  have h := pure_ok.1 h
  refine ⟨u, ?_⟩
  have key : ∀ (pre q : Str), ∃ rest, joinPath (joinPath (joinPath u.kind.folder.1 (if u.singular then c!"singular" else c!"paradigm")) pre) q =
      u.kind.folder.1 ++ c!"/" ++ (if u.singular then c!"singular" else c!"paradigm") ++ c!"/" ++ rest := by
    intro pre q
    have e : joinPath (joinPath u.kind.folder.1 (if u.singular then c!"singular" else c!"paradigm")) pre =
        u.kind.folder.1 ++ c!"/" ++ (if u.singular then c!"singular" else c!"paradigm") ++ c!"/" ++ pre := by
      cases u.kind <;> cases u.singular <;> rfl
    rw [e]
    generalize u.kind.folder.1 ++ c!"/" ++ (if u.singular then c!"singular" else c!"paradigm") ++ c!"/" = A
    unfold joinPath
    split
    · exact ⟨pre ++ q, by simp only [List.append_assoc]⟩
    · exact ⟨pre ++ '/' :: q, by simp only [List.append_assoc]⟩
  obtain ⟨rest, hr⟩ := key _ _
  exact ⟨rest, hu, by rw [← h, hr]⟩

/-- The files of a class, singular or not, lie in its folder and in no other. -/
theorem folder_asked {κ p : Str} {u : Parsed} (h : pathOf x κ true true = .ok p) (hu : x.parse κ = .ok u) (K : Kind) (b : Option Bool) :
    startsWith p (listFolder (some K.arg) b) = true ↔ Asked (some K) b u := by
  obtain ⟨u', rest, hu', rfl⟩ := pathOf_folder h
  rw [hu, Except.ok.injEq] at hu'
  subst hu'
  unfold Asked
  simp only [Option.mem_def, Option.some.injEq, forall_eq']
  rcases u with ⟨t, k, s⟩
  cases b with
  | none => cases K <;> cases k <;> cases s <;> simp [listFolder, Kind.arg, TypeArg.given, TypeArg.folder, Kind.folder, startsWith, List.isPrefixOf]
  | some b => cases K <;> cases k <;> cases s <;> cases b <;> simp [listFolder, Kind.arg, TypeArg.given, TypeArg.folder, Kind.folder, startsWith, List.isPrefixOf]

theorem Holds.described (h : Holds x fs db) {κ : Str} : Described fs κ ↔ ∃ f ∈ db, ∃ e ∈ f.2, e.key = κ := by
  constructor
  · rintro ⟨l, hl, d, hd, v, vs, hg⟩
    rw [h.getValues hl hd, Except.ok.injEq] at hg
    have hm : v ∈ storedValues (allEntries db) κ l d := by rw [hg]; simp
    unfold storedValues at hm
    obtain ⟨e, he, _⟩ := List.mem_map.1 hm
    obtain ⟨he, hk⟩ := List.mem_filter.1 he
    obtain ⟨f, hf, he⟩ := List.mem_flatMap.1 he
    exact ⟨f, hf, e, he, (of_decide_eq_true hk).1⟩
  · rintro ⟨f, hf, e, he, rfl⟩
    refine ⟨e.lang, (h.fits f hf e he).lang, e.desc, (h.fits f hf e he).desc, ?_⟩
    have hm : e.value ∈ storedValues (allEntries db) e.key e.lang e.desc := by
      unfold storedValues
      exact List.mem_map.2 ⟨e, List.mem_filter.2 ⟨List.mem_flatMap.2 ⟨f, hf, he⟩, by simp⟩, rfl⟩
    cases hs : storedValues (allEntries db) e.key e.lang e.desc with
    | nil => rw [hs] at hm; cases hm
    | cons v vs => exact ⟨v, vs, by rw [h.getValues (h.fits f hf e he).lang (h.fits f hf e he).desc, hs]⟩

theorem take_noQuote : ∀ {t : Str}, NoQuote t → t.takeWhile (fun c => decide (c ≠ '"')) = t
  | [], _ => rfl
  | c :: t, h => by
    rw [List.takeWhile_cons, if_pos (by simpa using fun e : c = '"' => h (by simp [e])), take_noQuote fun hm => h (List.mem_cons_of_mem _ hm)]

theorem listedKey_tidy {κ : Str} (h : Tidy κ) : listedKey κ = κ := by
  unfold listedKey
  rw [take_noQuote h.noQuote]
  exact h.ends

/-- The entries of the files whose paths begin with `p`. -/
def entriesUnder (db : List (Str × List Entry)) (p : Str) : List Entry := (db.filter fun f => startsWith f.1 p).flatMap (·.2)

theorem listKeys_eq (h : Holds x fs db) {ex : Str → Bool} {type : Option TypeArg} {b : Option Bool}
    (he : listFolder type b = [] ∨ ex (listFolder type b) = true) : listKeys ex fs type b =
      .ok (((uniqLines ((entriesUnder db (listFolder type b)).map fun e => e.key.takeWhile fun c => c ≠ '"')).map stripBytes).filter fun k => k ≠ []) := by
  unfold listKeys
  dsimp only
  rw [if_neg (by rcases he with he | he <;> simp [he])]
  generalize listFolder type b = p
  have e1 : (fs.filter fun f => startsWith f.1 p && endsWith f.1 (c!".desc")).flatMap (·.2) = render (entriesUnder db p) := by
    rw [← List.filter_filter, h.files, List.filter_map, List.flatMap_map]
    unfold render entriesUnder
    rw [List.flatMap_assoc]
    rfl
  rw [e1, nlLines_render, List.map_map]
  · simp only [Function.comp_def, cutKey_line]
  · intro e he
    obtain ⟨f, hf, he⟩ := List.mem_flatMap.1 he
    exact h.fits f (List.mem_filter.1 hf).1 e he

/-! ### C81: lists -/

/-- **C81**, errors: the only one is that the folder of the type does not exist. -/
theorem C81_error (ex : Str → Bool) (fs : FS) (type : Option TypeArg) (b : Option Bool) :
    (∃ L, listKeys ex fs type b = .ok L) ∨ (listKeys ex fs type b = .error .osError ∧ type ≠ none ∧ ex (listFolder type b) = false) := by
  unfold listKeys
  dsimp only
  split
  · next h =>
    refine .inr ⟨rfl, ?_, h.2⟩
    rintro rfl
    exact h.1 rfl
  · exact .inl ⟨_, rfl⟩

/-- **C81** (part), what is listed: in a database written by this program whose keys have no quotation mark and no white space at
their ends, the list for a class, and possibly singular expressions or paradigms, holds exactly the keys that have a
descriptor and are asked for; without class, all of them. -/
theorem C81_listed_partial {ex : Str → Bool} (hc : Consistent x fs) (ht : ∀ κ, Described fs κ → Tidy κ) {K : Option Kind} {b : Option Bool}
    (hK : K = none → b = none) (he : listFolder (K.map Kind.arg) b = [] ∨ ex (listFolder (K.map Kind.arg) b) = true) :
    ∃ L, listKeys ex fs (K.map Kind.arg) b = .ok L ∧ ∀ k, k ∈ L ↔ Described fs k ∧ ∃ u, x.parse k = .ok u ∧ Asked K b u := by
  obtain ⟨db, h⟩ := hc
  refine ⟨_, listKeys_eq h he, fun k => ?_⟩
  have hpre : ∀ κ p, pathOf x κ true true = .ok p → (startsWith p (listFolder (K.map Kind.arg) b) = true ↔ ∃ u, x.parse κ = .ok u ∧ Asked K b u) := by
    intro κ p hp
    obtain ⟨u, _, hu, _⟩ := pathOf_folder hp
    have : (∃ v, x.parse κ = .ok v ∧ Asked K b v) ↔ Asked K b u := by
      rw [hu]
      simp
    rw [this]
    cases K with
    | none =>
      rw [hK rfl]
      simp [listFolder, startsWith, Asked]
    | some K => exact folder_asked hp hu K b
  rw [List.mem_filter, List.mem_map]
  simp only [ne_eq, decide_not, Bool.not_eq_true', decide_eq_false_iff_not, mem_uniqLines, List.mem_map, entriesUnder,
    List.mem_flatMap, List.mem_filter]
  constructor
  · rintro ⟨⟨_, ⟨e, ⟨f, ⟨hf, hp⟩, hm⟩, rfl⟩, hk⟩, _⟩
    have hd : Described fs e.key := h.described.2 ⟨f, hf, e, hm, rfl⟩
    have hl := listedKey_tidy (ht _ hd)
    unfold listedKey at hl
    simp only [ne_eq, decide_not] at hl
    rw [hl] at hk
    subst hk
    exact ⟨hd, (hpre _ _ (h.place f hf e hm)).1 hp⟩
  · rintro ⟨hd, hu⟩
    obtain ⟨f, hf, e, hm, rfl⟩ := h.described.1 hd
    have hl := listedKey_tidy (ht _ hd)
    unfold listedKey at hl
    simp only [ne_eq, decide_not] at hl
    exact ⟨⟨_, ⟨e, ⟨f, ⟨hf, (hpre _ _ (h.place f hf e hm)).2 hu⟩, hm⟩, rfl⟩, hl⟩, (ht _ hd).ne⟩

theorem uniqLines_block {c : Str} {r : List Str} (hc : c ∉ r) : ∀ {b : List Str}, (∀ a ∈ b, a = c) →
    uniqLines (b ++ r) = (if b = [] then [] else [c]) ++ uniqLines r
  | [], _ => by simp
  | a :: b, h => by
    have ha := h a (by simp)
    subst ha
    rw [List.cons_append, uniqLines, uniqLines_block hc fun a' h' => h a' (by simp [h'])]
    have hn : a ∉ uniqLines r := fun hm => hc (mem_uniqLines.1 hm)
    cases b with
    | nil =>
      simp only [if_true, List.nil_append, reduceCtorEq, if_false, List.cons_append]
      split
      · next e => rw [e]
      · next d s e =>
        rw [e] at hn ⊢
        rw [if_neg fun e' => hn (by simp [e'])]
    | cons b bs => simp

/-- **C81** (part), once: if moreover no two keys share a file, nothing is listed twice. -/
theorem C81_once_partial {ex : Str → Bool} (hc : Consistent x fs) (ht : ∀ κ, Described fs κ → Tidy κ)
    (hf : ∀ κ κ', Described fs κ → Described fs κ' → pathOf x κ true true = pathOf x κ' true true → κ = κ') {type : Option TypeArg} {b : Option Bool}
    {L : List Str} (hL : listKeys ex fs type b = .ok L) : L.Nodup := by
  obtain ⟨db, h⟩ := hc
  have he : listFolder type b = [] ∨ ex (listFolder type b) = true := by
    by_contra hn
    rw [not_or, Bool.not_eq_true] at hn
    rw [listKeys] at hL
    dsimp only at hL
    rw [if_pos hn] at hL
    cases hL
  rw [listKeys_eq h he, Except.ok.injEq] at hL
  subst hL
  apply List.Nodup.filter
  have hkey : ∀ f ∈ db, ∀ e ∈ f.2, (e.key.takeWhile fun c => decide (c ≠ '"')) = e.key ∧ stripBytes e.key = e.key := by
    intro f hf' e he
    have hd : Described fs e.key := h.described.2 ⟨f, hf', e, he, rfl⟩
    exact ⟨take_noQuote (ht _ hd).noQuote, (ht _ hd).ends⟩
  have hE : (entriesUnder db (listFolder type b)).map (fun e => e.key.takeWhile fun c => decide (c ≠ '"')) =
      (entriesUnder db (listFolder type b)).map (·.key) := by
    apply List.map_congr_left
    intro e he
    obtain ⟨f, hf', he⟩ := List.mem_flatMap.1 he
    exact (hkey f (List.mem_filter.1 hf').1 e he).1
  rw [hE]
  have hid : (uniqLines ((entriesUnder db (listFolder type b)).map (·.key))).map stripBytes = uniqLines ((entriesUnder db (listFolder type b)).map (·.key)) := by
    conv_rhs => rw [← List.map_id (uniqLines _)]
    apply List.map_congr_left
    intro k hk
    obtain ⟨e, he, rfl⟩ := List.mem_map.1 (mem_uniqLines.1 hk)
    obtain ⟨f, hf', he⟩ := List.mem_flatMap.1 he
    exact (hkey f (List.mem_filter.1 hf').1 e he).2
  rw [hid]
  have hone : ∀ f ∈ db, ∀ g ∈ db, ∀ e ∈ f.2, ∀ e' ∈ g.2, (e.key = e'.key ↔ f.1 = g.1) := by
    intro f hf1 g hg e he e' he'
    have p1 := h.place f hf1 e he
    have p2 := h.place g hg e' he'
    constructor
    · intro hk
      rw [hk, p2, Except.ok.injEq] at p1
      exact p1.symm
    · intro hp
      exact hf _ _ (h.described.2 ⟨f, hf1, e, he, rfl⟩) (h.described.2 ⟨g, hg, e', he', rfl⟩) (by rw [p1, p2, hp])
  unfold entriesUnder
  have hsub : ∀ f ∈ db.filter fun f => startsWith f.1 (listFolder type b), f ∈ db := fun f hf' => (List.mem_filter.1 hf').1
  have hnd : ((db.filter fun f => startsWith f.1 (listFolder type b)).map (·.1)).Nodup :=
    h.nodup.sublist (List.Sublist.map _ List.filter_sublist)
  generalize db.filter (fun f => startsWith f.1 (listFolder type b)) = D at hsub hnd
  induction D with
  | nil => exact List.nodup_nil
  | cons f D ih =>
    rw [List.map_cons, List.nodup_cons] at hnd
    have ih := ih (fun g hg => hsub g (by simp [hg])) hnd.2
    rw [List.flatMap_cons, List.map_append]
    cases hf2 : f.2 with
    | nil => simpa using ih
    | cons e es =>
      have hr : e.key ∉ (D.flatMap (·.2)).map (·.key) := by
        intro hm
        obtain ⟨e', he', hk⟩ := List.mem_map.1 hm
        obtain ⟨g, hg, he'⟩ := List.mem_flatMap.1 he'
        exact hnd.1 (List.mem_map.2 ⟨g, hg, ((hone f (hsub f (by simp)) g (hsub g (by simp [hg])) e (by rw [hf2]; simp) e' he').1 hk.symm).symm⟩)
      rw [uniqLines_block hr]
      · rw [if_neg (by simp), List.singleton_append, List.nodup_cons]
        exact ⟨fun hm => hr (mem_uniqLines.1 hm), ih⟩
      · intro k hk
        obtain ⟨e', he', rfl⟩ := List.mem_map.1 hk
        exact (hone f (hsub f (by simp)) f (hsub f (by simp)) e' (by rw [hf2]; exact he') e (by rw [hf2]; simp)).2 rfl

/-- The paradigms of which the dictionary is made are those listed for morphemes. -/
theorem C81_dictionary {ex : Str → Bool} (he : ex (c!"morpheme/paradigm/") = true) (fs : FS) :
    listKeys ex fs (some Kind.morpheme.arg) (some true) = .ok (listParadigms fs) := by
  have hf : listFolder (some Kind.morpheme.arg) (some true) = c!"morpheme/paradigm/" := by decide
  unfold listKeys listParadigms
  rw [hf]
  dsimp only
  rw [if_neg (by simp [he])]

theorem parseListed_eq (x : Ext) : ∀ (l : List Str) {us : List Parsed}, List.Forall₂ (fun k u => x.parse k = .ok u) l us → parseListed x l = .ok us
  | [], us, h => by cases h; rfl
  | k :: l, us, h => by
    cases h with
    | cons h1 h2 => rw [parseListed, h1, parseListed_eq x l h2]; rfl

/-- **C81** (part), with parsing: under the same hypotheses the list of objects is that of the objects of the keys, one for
each key, in the same order. -/
theorem C81_parsed_partial {ex : Str → Bool} (hc : Consistent x fs) (ht : ∀ κ, Described fs κ → Tidy κ) {K : Option Kind} {b : Option Bool}
    (hK : K = none → b = none) {L : List Str} (hL : listKeys ex fs (K.map Kind.arg) b = .ok L) :
    ∃ us, listParsed x (.ok ()) ex fs (K.map Kind.arg) b = .ok us ∧ List.Forall₂ (fun k u => x.parse k = .ok u ∧ Asked K b u) L us := by
  have he : listFolder (K.map Kind.arg) b = [] ∨ ex (listFolder (K.map Kind.arg) b) = true := by
    by_contra hn
    rw [not_or, Bool.not_eq_true] at hn
    rw [listKeys] at hL
    dsimp only at hL
    rw [if_pos hn] at hL
    cases hL
  obtain ⟨L', h1, h2⟩ := C81_listed_partial (ex := ex) hc ht hK he
  rw [hL, Except.ok.injEq] at h1
  subst h1
  have : ∀ M : List Str, (∀ k ∈ M, k ∈ L) → ∃ us, List.Forall₂ (fun k u => x.parse k = .ok u ∧ Asked K b u) M us := by
    intro M
    induction M with
    | nil => exact fun _ => ⟨[], .nil⟩
    | cons k M ih =>
      intro hM
      obtain ⟨us, hus⟩ := ih fun k hk => hM k (by simp [hk])
      obtain ⟨_, u, hu⟩ := (h2 k).1 (hM k (by simp))
      exact ⟨u :: us, .cons hu hus⟩
  obtain ⟨us, hus⟩ := this L fun _ h => h
  refine ⟨us, ?_, hus⟩
  unfold listParsed
  rw [hL]
  show (do (Except.ok () : Except Err Unit); parseListed x L) = _
  exact parseListed_eq x L (hus.imp fun _ _ h => h.1)

/-- **C81** (part), with parsing: the errors of the dictionary escape. -/
theorem C81_parsed_dictionary {ex : Str → Bool} {e : Err} {type : Option TypeArg} {b : Option Bool} {L : List Str} (hL : listKeys ex fs type b = .ok L) :
    listParsed x (.error e) ex fs type b = .error e := by
  unfold listParsed
  rw [hL]
  rfl

/-- The statement of the claim for all filters. -/
def ListsAsked : Prop := ∀ (x : Ext) (ex : Str → Bool) (fs : FS), x.Stable → Consistent x fs → ∀ (K : Option Kind) (b : Option Bool),
  (∀ p, ex p = true) → ∃ L, listKeys ex fs (K.map Kind.arg) b = .ok L ∧ ∀ k, k ∈ L ↔ Described fs k ∧ ∃ u, x.parse k = .ok u ∧ Asked K b u

/-- A parser that accepts every text that is not blank: texts with a parenthesis are polymorphemes, texts with `+` paradigms. -/
def listExt : Ext where
  parse t := if strip t = [] then .error .cannotParse
    else .ok ⟨strip t, if (strip t).contains '(' then .polymorpheme else .morpheme, !(strip t).contains '+'⟩
  digest t := (t.reverse.take 10)

theorem listExt_stable : listExt.Stable := by
  intro t u h
  simp only [listExt] at h ⊢
  split at h
  · cases h
  · rename_i hs
    injection h with h
    subst h
    simp only [strip_strip, if_neg hs]

/-- A paradigm, a morpheme with two descriptors and a polymorpheme. -/
def listFs : FS :=
  [(c!"morpheme/paradigm/a+b.desc", descriptorLine (c!"a+b") (c!"fr") (c!"translations") (c!"v")),
   (c!"morpheme/singular/k.desc", descriptorLine (c!"k") (c!"fr") (c!"translations") (c!"v") ++ descriptorLine (c!"k") (c!"en") (c!"tags") (c!"w")),
   (c!"polymorpheme/singular/(k)/(k).desc", descriptorLine (c!"(k)") (c!"fr") (c!"translations") (c!"v"))]

def listDb : List (Str × List Entry) :=
  [(c!"morpheme/paradigm/a+b.desc", [⟨c!"a+b", c!"fr", c!"translations", c!"v"⟩]),
   (c!"morpheme/singular/k.desc", [⟨c!"k", c!"fr", c!"translations", c!"v"⟩, ⟨c!"k", c!"en", c!"tags", c!"w"⟩]),
   (c!"polymorpheme/singular/(k)/(k).desc", [⟨c!"(k)", c!"fr", c!"translations", c!"v"⟩])]

theorem listFs_holds : Holds listExt listFs listDb := by
  refine ⟨?_, ?_, ?_, ?_⟩
  · decide +kernel
  · decide +kernel
  · intro f hf e he
    simp only [listDb, List.mem_cons, List.not_mem_nil, or_false] at hf
    rcases hf with rfl | rfl | rfl <;> simp only [List.mem_cons, List.not_mem_nil, or_false] at he
    · subst he; constructor <;> decide
    · rcases he with rfl | rfl <;> constructor <;> decide
    · subst he; constructor <;> decide
  · intro f hf e he
    simp only [listDb, List.mem_cons, List.not_mem_nil, or_false] at hf
    rcases hf with rfl | rfl | rfl <;> simp only [List.mem_cons, List.not_mem_nil, or_false] at he
    · subst he; decide +kernel
    · rcases he with rfl | rfl <;> decide +kernel
    · subst he; decide +kernel

theorem listFs_described {k : Str} (h : Described listFs k) : k = c!"a+b" ∨ k = c!"k" ∨ k = c!"(k)" := by
  obtain ⟨f, hf, e, he, rfl⟩ := listFs_holds.described.1 h
  simp only [listDb, List.mem_cons, List.not_mem_nil, or_false] at hf
  rcases hf with rfl | rfl | rfl <;> simp only [List.mem_cons, List.not_mem_nil, or_false] at he
  · subst he; exact .inl rfl
  · rcases he with rfl | rfl <;> exact .inr (.inl rfl)
  · subst he; exact .inr (.inr rfl)

theorem listFs_tidy (κ : Str) (h : Described listFs κ) : Tidy κ := by
  rcases listFs_described h with rfl | rfl | rfl <;> constructor <;> decide +kernel

/-- The hypotheses of the theorems hold: the singular morphemes, the paradigms and everything. -/
example : (∃ L, listKeys (fun _ => true) listFs (some Kind.morpheme.arg) (some false) = .ok L ∧ L.Nodup ∧
      ∀ k, k ∈ L ↔ Described listFs k ∧ ∃ u, listExt.parse k = .ok u ∧ Asked (some .morpheme) (some false) u) ∧
    listKeys (fun _ => true) listFs (some Kind.morpheme.arg) (some false) = .ok [c!"k"] ∧
    listKeys (fun _ => true) listFs none none = .ok [c!"a+b", c!"k", c!"(k)"] := by
  refine ⟨?_, by decide +kernel, by decide +kernel⟩
  obtain ⟨L, h1, h2⟩ := C81_listed_partial (ex := fun _ => true) (K := some .morpheme) (b := some false) ⟨_, listFs_holds⟩ listFs_tidy (by simp) (.inr rfl)
  refine ⟨L, h1, ?_, h2⟩
  refine C81_once_partial ⟨_, listFs_holds⟩ listFs_tidy (fun κ κ' h h' e => ?_) h1
  rcases listFs_described h with rfl | rfl | rfl <;> rcases listFs_described h' with rfl | rfl | rfl <;>
    first | rfl | exact absurd e (by decide +kernel)

/-- **C81** is violated: `list(paradigm=True)` without a class also lists what is not a paradigm. -/
theorem C81_violated_paradigm : ¬ ListsAsked := by
  intro h
  obtain ⟨L, h1, h2⟩ := h listExt (fun _ => true) listFs listExt_stable ⟨_, listFs_holds⟩ none (some true) fun _ => rfl
  have e : listKeys (fun _ => true) listFs none (some true) = .ok [c!"a+b", c!"k", c!"(k)"] := by decide +kernel
  rw [Option.map_none, e, Except.ok.injEq] at h1
  subst h1
  obtain ⟨_, u, hu, ha⟩ := (h2 (c!"k")).1 (by simp)
  have hu' : listExt.parse (c!"k") = .ok ⟨c!"k", .morpheme, true⟩ := by decide +kernel
  rw [hu', Except.ok.injEq] at hu
  subst hu
  have := (ha.2 true rfl).1 rfl
  cases this

/-- **C81**: without a class the argument `paradigm` is never taken into account. -/
theorem C81_paradigm_ignored (ex : Str → Bool) (fs : FS) (b : Option Bool) : listKeys ex fs none b = listKeys ex fs none none := rfl

/-- **C81**: an empty text given for the class is as no class. -/
theorem C81_empty_type (ex : Str → Bool) (fs : FS) (b : Option Bool) : listKeys ex fs (some (.text [])) b = listKeys ex fs none none := rfl

/-- **C81**, the classes of USLs given as classes: the same list as with the names of their folders. -/
theorem C81_class_names (ex : Str → Bool) (fs : FS) (b : Option Bool) :
    listKeys ex fs (some (.cls (c!"PolyMorpheme"))) b = listKeys ex fs (some (.text Kind.polymorpheme.folder.1)) b ∧
    listKeys ex fs (some (.cls (c!"Lexeme"))) b = listKeys ex fs (some (.text Kind.lexeme.folder.1)) b ∧
    listKeys ex fs (some (.cls (c!"Word"))) b = listKeys ex fs (some (.text Kind.word.folder.1)) b := by
  refine ⟨?_, ?_, ?_⟩ <;> cases b <;> rfl

/-- **C81**, the texts that cannot be read, whatever the files: they are left out of the list of the parsed expressions, in which
the others are in order; any other exception of the parser is raised, by the first text that raises one. -/
theorem C81_parsed_errors {ex : Str → Bool} {type : Option TypeArg} {b : Option Bool} {L : List Str} (hL : listKeys ex fs type b = .ok L) :
    ((∀ k ∈ L, ∀ e, x.parse k = .error e → e = .cannotParse) →
      ∃ us, listParsed x (.ok ()) ex fs type b = .ok us ∧
        List.Forall₂ (fun k u => x.parse k = .ok u) (L.filter fun k => (x.parse k).isOk) us) ∧
    (∀ k₁ k k₂ e, L = k₁ ++ k :: k₂ → (∀ k' ∈ k₁, ∀ e', x.parse k' = .error e' → e' = .cannotParse) → x.parse k = .error e →
      e ≠ .cannotParse → listParsed x (.ok ()) ex fs type b = .error e) := by
  have hl : listParsed x (.ok ()) ex fs type b = parseListed x L := by
    unfold listParsed
    rw [hL]
    rfl
  rw [hl]
  clear hl hL
  constructor
  · intro h
    induction L with
    | nil => exact ⟨[], rfl, .nil⟩
    | cons k L ih =>
      obtain ⟨us, h1, h2⟩ := ih fun k' hk' => h k' (List.mem_cons_of_mem _ hk')
      cases hk : x.parse k with
      | ok u =>
        refine ⟨u :: us, by rw [parseListed, hk, h1]; rfl, ?_⟩
        rw [List.filter_cons, if_pos (by rw [hk]; rfl)]
        exact .cons hk h2
      | error e =>
        have he := h k (by simp) e hk
        subst he
        refine ⟨us, by rw [parseListed, hk]; simpa using h1, ?_⟩
        rw [List.filter_cons, if_neg (by rw [hk]; simp [Except.isOk, Except.toBool])]
        exact h2
  · rintro k₁ k k₂ e rfl h hk he
    induction k₁ with
    | nil => rw [List.nil_append, parseListed, hk]; simp [he]
    | cons k' k₁ ih =>
      have ih := ih fun k'' hk'' => h k'' (List.mem_cons_of_mem _ hk'')
      rw [List.cons_append, parseListed]
      cases hk' : x.parse k' with
      | ok u => simp only; rw [ih]; rfl
      | error e' =>
        have := h k' (by simp) e' hk'
        subst this
        simpa using ih

/-- A parser that refuses a text in each of the two ways. -/
def twoErrorsExt : Ext where
  parse t := if t = c!"k" then Except.error .cannotParse else if t = c!"(k)" then Except.error .tooMany else listExt.parse t
  digest := listExt.digest

example : listKeys (fun _ => true) listFs (some (.text (c!"morpheme"))) none = .ok [c!"a+b", c!"k"] ∧
    (listParsed twoErrorsExt (.ok ()) (fun _ => true) listFs (some (.text (c!"morpheme"))) none).map (·.map Parsed.text) = .ok [c!"a+b"] ∧
    listParsed twoErrorsExt (.ok ()) (fun _ => true) listFs none none = .error .tooMany := by decide +kernel

/-- **C81** is violated for keys with quotation marks, the texts of decorated expressions: the key is listed up to its first
quotation mark, which is another expression. -/
theorem C81_violated_quote : ∃ fs, addDescriptor listExt [] (some (c!"k \"x\"")) (some (c!"fr")) (some (c!"tags")) (c!"a") = .ok fs ∧
    getValues fs (c!"k \"x\"") (c!"fr") (c!"tags") = .ok [c!"a"] ∧ getValues fs (c!"k") (c!"fr") (c!"tags") = .ok [] ∧
    listKeys (fun _ => true) fs (some Kind.morpheme.arg) none = .ok [c!"k"] := by
  refine ⟨[(c!"morpheme/singular/k \"x\".desc", c!"\"k \"\"x\"\"\" fr tags \"a\"\n")], ?_⟩
  decide +kernel

/-- **C81** is violated for the classes of scripts given as classes: the morphemes are in the folder `morpheme`, and none of these
classes has this name, so that nothing is listed whatever the database. -/
theorem C81_violated_class {ex : Str → Bool} (hc : Consistent x fs) {name : Str}
    (hn : name ∈ [c!"Script", c!"NullScript", c!"AdditiveScript", c!"MultiplicativeScript"]) (b : Option Bool) :
    listKeys ex fs (some (.cls name)) b = .error .osError ∨ listKeys ex fs (some (.cls name)) b = .ok [] := by
  rcases C81_error ex fs (some (.cls name)) b with ⟨L, h⟩ | h
  · right
    obtain ⟨db, hd⟩ := hc
    have he : ex (listFolder (some (.cls name)) b) = true ∨ listFolder (some (.cls name)) b = [] := by
      by_contra hne
      rw [not_or, Bool.not_eq_true] at hne
      unfold listKeys at h
      dsimp only at h
      rw [if_pos ⟨hne.2, hne.1⟩] at h
      cases h
    rw [listKeys_eq hd he.symm]
    have : entriesUnder db (listFolder (some (.cls name)) b) = [] := by
      unfold entriesUnder
      rw [List.flatMap_eq_nil_iff]
      intro f hf
      obtain ⟨hf, hp⟩ := List.mem_filter.1 hf
      cases hf2 : f.2 with
      | nil => rfl
      | cons e es =>
        exfalso
        obtain ⟨u, rest, _, hpath⟩ := pathOf_folder (hd.place f hf e (by rw [hf2]; simp))
        rw [hpath] at hp
        simp only [List.mem_cons, List.not_mem_nil, or_false] at hn
        rcases u with ⟨t, k, s⟩
        rcases hn with rfl | rfl | rfl | rfl <;> cases b <;> cases k <;> revert hp <;>
          simp [listFolder, TypeArg.given, TypeArg.folder, Kind.folder, startsWith, List.isPrefixOf, lowerAscii]
    rw [this]
    rfl
  · exact .inl h.1

example : listKeys (fun p => p = c!"morpheme/") listFs (some (.cls (c!"Script"))) none = .error .osError ∧
    listKeys (fun p => p = c!"morpheme/") listFs (some (.text (c!"morpheme"))) none = .ok [c!"a+b", c!"k"] ∧
    listKeys (fun _ => true) listFs (some (.cls (c!"PolyMorpheme"))) none = .ok [c!"(k)"] := by decide +kernel

/-! ### C82: the descriptors of an expression -/

/-- A table with a row for each descriptor and a place for each language. -/
def DescriptorTable.Full (t : DescriptorTable) : Prop := t.map (·.1) = descriptorClasses ∧ ∀ row ∈ t, row.2.map (·.1) = languages

theorem fsGet_isSome {α : Type} {l : List (Str × α)} {p : Str} : (fsGet l p).isSome = true ↔ p ∈ l.map (·.1) := by
  unfold fsGet
  rw [Option.isSome_map, List.find?_isSome]
  simp [eq_comm]

theorem DescriptorTable.put_eq {t : DescriptorTable} {d l : Str} {v : List Str} (ht : t.Full) (hd : d ∈ descriptorClasses) (hl : l ∈ languages) :
    ∃ t', t.put d l v = .ok t' ∧ (∀ d' l', t'.at_ d' l' = if d' = d ∧ l' = l then some v else t.at_ d' l') ∧ t'.Full := by
  obtain ⟨row, hr⟩ := Option.isSome_iff_exists.1 (fsGet_isSome.2 (by rw [ht.1]; exact hd) : (fsGet t d).isSome = true)
  refine ⟨fsSet t d (fsSet row l v), by unfold DescriptorTable.put; rw [hr], fun d' l' => ?_, ?_, ?_⟩
  · unfold DescriptorTable.at_
    rw [fsGet_fsSet]
    by_cases h : d' = d
    · subst h
      rw [if_pos rfl, hr]
      simp only [Option.bind_some, true_and]
      rw [fsGet_fsSet]
    · rw [if_neg h, if_neg fun h' => h h'.1]
  · rw [fsSet_keys, if_pos (by rw [ht.1]; exact hd)]
    exact ht.1
  · intro row' hrow
    have hm := ht.2 _ (fsGet_mem hr)
    have hnew : (fsSet row l v).map (·.1) = languages := by
      rw [fsSet_keys, hm, if_pos hl]
    unfold fsSet at hrow
    split at hrow
    · obtain ⟨g, hg, rfl⟩ := List.mem_map.1 hrow
      split
      · exact hnew
      · exact ht.2 g hg
    · rcases List.mem_append.1 hrow with hrow | hrow
      · exact ht.2 _ hrow
      · rw [List.mem_singleton] at hrow
        rw [hrow]
        exact hnew

theorem fill_table {k : Str} : ∀ {E : List (ValueKey × List Str)} {t : DescriptorTable}, t.Full → (E.map (·.1)).Nodup →
    (∀ e ∈ E, e.1.1 = k ∧ e.1.2.1 ∈ languages ∧ e.1.2.2 ∈ descriptorClasses) →
    ∃ t', E.foldlM (fun t e => if some k = some e.1.1 then DescriptorTable.put t e.1.2.2 e.1.2.1 e.2 else .error .assertionError) t = .ok t' ∧ t'.Full ∧
      ∀ d l, (∀ vs, ((k, l, d), vs) ∈ E → t'.at_ d l = some vs) ∧ ((∀ vs, ((k, l, d), vs) ∉ E) → t'.at_ d l = t.at_ d l)
  | [], t, ht, _, _ => ⟨t, rfl, ht, fun d l => ⟨fun vs h => (by cases h), fun _ => rfl⟩⟩
  | e :: E, t, ht, hn, hE => by
    rw [List.map_cons, List.nodup_cons] at hn
    obtain ⟨h1, h2, h3⟩ := hE e (by simp)
    obtain ⟨t1, ht1, hat, hf⟩ := DescriptorTable.put_eq (v := e.2) ht h3 h2
    obtain ⟨t2, ht2, hf2, hat2⟩ := fill_table hf hn.2 fun e' h' => hE e' (by simp [h'])
    refine ⟨t2, ?_, hf2, fun d l => ⟨fun vs hm => ?_, fun hm => ?_⟩⟩
    · rw [List.foldlM_cons, if_pos (by rw [h1]), ht1]
      exact ht2
    · rcases List.mem_cons.1 hm with hm | hm
      · have he : e.1 = (k, l, d) := by rw [← hm]
        rw [(hat2 d l).2 fun vs' hm' => hn.1 (List.mem_map.2 ⟨_, hm', he.symm⟩), hat, he, if_pos ⟨rfl, rfl⟩, ← hm]
      · exact (hat2 d l).1 vs hm
    · rw [(hat2 d l).2 fun vs' hm' => hm vs' (by simp [hm']), hat, if_neg]
      rintro ⟨rfl, rfl⟩
      exact hm e.2 (by
        rw [show ((k, e.1.2.1, e.1.2.2), e.2) = e by rw [← h1]]
        simp)

theorem normalizeDescriptor_none : normalizeDescriptor none none = .ok (none, none) := rfl

theorem valuesPartial_key {k : Str} {rows : List (Str × Str × Str × Str)} (h : getDescriptors fs = .ok rows) :
    ∃ E, valuesPartial fs (some k) none none = .ok E ∧ (E.map (·.1)).Nodup ∧ ∀ key vs, (key, vs) ∈ E ↔
      key.1 = k ∧ vs = (rows.filter fun r => (r.1, r.2.1, r.2.2.1) = key).map (·.2.2.2) ∧ vs ≠ [] := by
  unfold valuesPartial
  rw [h]
  simp only [bind, Except.bind, normalizeDescriptor_none, pure, Except.pure]
  refine ⟨_, rfl, ?_, fun key vs => ?_⟩
  · rw [List.map_map]
    have : ((fun x : ValueKey × List Str => x.1) ∘ fun k' : ValueKey => (k', List.map (fun x : Str × Str × Str × Str => x.2.2.2) (List.filter (fun r => decide ((r.1, r.2.1, r.2.2.1) = k'))
        (rows.filter fun r => Option.all (fun x => decide (x = r.1)) (some k) && Option.all (fun x => decide (x = r.2.1)) none &&
          Option.all (fun x => decide (x = r.2.2.1)) none)))) = id := rfl
    rw [this, List.map_id, (pySort_perm _ _).nodup_iff]
    exact (dedupBy_pairwise (key := id) _).imp fun h => h
  · simp only [List.mem_map, mem_pySort, Prod.mk.injEq]
    simp only [Option.all_some, Option.all_none, Bool.and_true]
    have hfil : ∀ key : ValueKey, key.1 = k → (rows.filter fun r => decide (k = r.1)).filter (fun r => decide ((r.1, r.2.1, r.2.2.1) = key)) =
        rows.filter fun r => decide ((r.1, r.2.1, r.2.2.1) = key) := by
      intro key hk
      rw [List.filter_filter]
      apply List.filter_congr
      intro r _
      simp only [Bool.and_eq_left_iff_imp, decide_eq_true_eq]
      rintro rfl
      exact hk.symm
    constructor
    · rintro ⟨key', hk', rfl, rfl⟩
      obtain ⟨r, hr, hkr⟩ := List.mem_map.1 (mem_dedupBy id hk')
      obtain ⟨hr, hrk⟩ := List.mem_filter.1 hr
      have hkk : key'.1 = k := by
        rw [← hkr]
        exact (of_decide_eq_true hrk).symm
      refine ⟨hkk, by rw [hfil key' hkk], ?_⟩
      rw [hfil key' hkk]
      intro hn
      rw [List.map_eq_nil_iff, List.filter_eq_nil_iff] at hn
      exact hn r hr (by simpa using hkr)
    · rintro ⟨hk, rfl, hne⟩
      refine ⟨key, ?_, rfl, by rw [hfil key hk]⟩
      rw [ne_eq, List.map_eq_nil_iff] at hne
      obtain ⟨r, hr⟩ := List.exists_mem_of_ne_nil _ hne
      obtain ⟨hr, hkr⟩ := List.mem_filter.1 hr
      have hkr := of_decide_eq_true hkr
      have hin : key ∈ (rows.filter fun r => decide (k = r.1)).map fun r => (r.1, r.2.1, r.2.2.1) :=
        List.mem_map.2 ⟨r, List.mem_filter.2 ⟨hr, by rw [← hk, ← hkr]; simp⟩, hkr⟩
      obtain ⟨y, hy, he⟩ := dedupBy_complete id hin
      rw [id, id] at he
      exact he ▸ hy

/-- **C82**: whenever the descriptors can be read and those of the key have known languages and descriptors, `get_descriptor` gives
for every descriptor and language, and for nothing else, the values of `get_values`. -/
theorem C82_table {k : Str} {rows : List (Str × Str × Str × Str)} (h : getDescriptors fs = .ok rows)
    (hk : ∀ r ∈ rows, r.1 = k → r.2.1 ∈ languages ∧ r.2.2.1 ∈ descriptorClasses) :
    ∃ t, getDescriptor fs (some k) = .ok t ∧ t.map (·.1) = descriptorClasses ∧ (∀ row ∈ t, row.2.map (·.1) = languages) ∧
      ∀ l ∈ languages, ∀ d ∈ descriptorClasses, ∃ vs, getValues fs k l d = .ok vs ∧ t.at_ d l = some vs := by
  obtain ⟨E, hE, hn, hm⟩ := valuesPartial_key (k := k) h
  have hstart : DescriptorTable.Full (descriptorClasses.map fun d => (d, languages.map fun l => (l, ([] : List Str)))) := by
    refine ⟨by rw [List.map_map]; exact List.map_id _, fun row hrow => ?_⟩
    obtain ⟨d, _, rfl⟩ := List.mem_map.1 hrow
    simp only [List.map_map]
    exact List.map_id _
  obtain ⟨t, ht, hf, hat⟩ := fill_table (k := k) hstart hn (by
    rintro ⟨key, vs⟩ he
    obtain ⟨h1, h2, h3⟩ := (hm key vs).1 he
    subst h2
    rw [ne_eq, List.map_eq_nil_iff] at h3
    obtain ⟨r, hr⟩ := List.exists_mem_of_ne_nil _ h3
    obtain ⟨hr, hkr⟩ := List.mem_filter.1 hr
    have hkr := of_decide_eq_true hkr
    obtain ⟨h4, h5⟩ := hk r hr (by rw [← h1, ← hkr])
    rw [← hkr] at h1 ⊢
    exact ⟨h1, h4, h5⟩)
  refine ⟨t, ?_, hf.1, hf.2, fun l hl d hd => ⟨(rows.filter fun r => decide ((r.1, r.2.1, r.2.2.1) = (k, l, d))).map (·.2.2.2), ?_, ?_⟩⟩
  · unfold getDescriptor
    rw [hE]
    exact ht
  · unfold getValues
    rw [h]
    have h1 : (!languages.contains l || !descriptorClasses.contains d) = false := by simp [hl, hd]
    simp only [bind, Except.bind, h1, Bool.false_eq_true, if_false, pure, Except.pure]
    congr 2
    apply List.filter_congr
    intro r _
    simp
  · by_cases hne : (rows.filter fun r => decide ((r.1, r.2.1, r.2.2.1) = (k, l, d))).map (·.2.2.2) = []
    · rw [hne, (hat d l).2 fun vs hvs => ?_]
      · unfold DescriptorTable.at_
        have e1 : fsGet (descriptorClasses.map fun d => (d, languages.map fun l => (l, ([] : List Str)))) d = some (languages.map fun l => (l, [])) := by
          revert d
          intro d hd _
          simp only [descriptorClasses, List.mem_cons, List.not_mem_nil, or_false] at hd
          rcases hd with rfl | rfl | rfl | rfl <;> decide
        rw [e1]
        simp only [languages, List.mem_cons, List.not_mem_nil, or_false] at hl
        rcases hl with rfl | rfl <;> decide
      · obtain ⟨_, h2, h3⟩ := (hm _ _).1 hvs
        exact h3 (h2.trans hne)
    · exact (hat d l).1 _ ((hm _ _).2 ⟨rfl, rfl, hne⟩)

/-- **C82** for the databases written by this program. -/
theorem C82_consistent (hc : Consistent x fs) (k : Str) :
    ∃ t, getDescriptor fs (some k) = .ok t ∧ t.map (·.1) = descriptorClasses ∧ (∀ row ∈ t, row.2.map (·.1) = languages) ∧
      ∀ l ∈ languages, ∀ d ∈ descriptorClasses, ∃ vs, getValues fs k l d = .ok vs ∧ t.at_ d l = some vs := by
  obtain ⟨db, h⟩ := hc
  refine C82_table h.getDescriptors ?_
  intro r hr _
  obtain ⟨e, he, rfl⟩ := List.mem_map.1 hr
  obtain ⟨f, hf, he⟩ := List.mem_flatMap.1 he
  exact ⟨(h.fits f hf e he).lang, (h.fits f hf e he).desc⟩

theorem put_unknown {k : Str} : ∀ {E : List (ValueKey × List Str)} {t : DescriptorTable}, t.map (·.1) = descriptorClasses → (∀ e ∈ E, e.1.1 = k) →
    (∃ e ∈ E, e.1.2.2 ∉ descriptorClasses) →
    E.foldlM (fun t e => if some k = some e.1.1 then DescriptorTable.put t e.1.2.2 e.1.2.1 e.2 else .error .assertionError) t = .error .keyError
  | [], _, _, _, h => by obtain ⟨e, he, _⟩ := h; cases he
  | e :: E, t, ht, hE, h => by
    rw [List.foldlM_cons, if_pos (by rw [hE e (by simp)])]
    unfold DescriptorTable.put
    cases hg : fsGet t e.1.2.2 with
    | none => rfl
    | some row =>
      have hin : e.1.2.2 ∈ t.map (·.1) := fsGet_isSome.1 (by rw [hg]; rfl)
      refine put_unknown (t := fsSet t e.1.2.2 (fsSet row e.1.2.1 e.2)) (by rw [fsSet_keys, if_pos hin, ht]) (fun e' h' => hE e' (by simp [h'])) ?_
      obtain ⟨e', he', hn⟩ := h
      rcases List.mem_cons.1 he' with rfl | he'
      · rw [ht] at hin
        exact absurd hin hn
      · exact ⟨e', he', hn⟩

/-- **C82**, errors: a descriptor that is not known raises `KeyError`. -/
theorem C82_unknown {k : Str} {rows : List (Str × Str × Str × Str)} (h : getDescriptors fs = .ok rows)
    {r : Str × Str × Str × Str} (hr : r ∈ rows) (hk : r.1 = k) (hd : r.2.2.1 ∉ descriptorClasses) : getDescriptor fs (some k) = .error .keyError := by
  obtain ⟨E, hE, _, hm⟩ := valuesPartial_key (k := k) h
  unfold getDescriptor
  rw [hE]
  refine put_unknown (by rw [List.map_map]; exact List.map_id _) (fun e he => ((hm e.1 e.2).1 he).1) ⟨_, (hm (r.1, r.2.1, r.2.2.1) _).2 ⟨hk, rfl, ?_⟩, hd⟩
  rw [ne_eq, List.map_eq_nil_iff, List.filter_eq_nil_iff]
  intro hn
  exact hn r hr (by simp)

/-- **C82**, errors: with `None` it raises `AssertionError` as soon as a descriptor is stored. -/
theorem C82_none {rows : List (Str × Str × Str × Str)} (h : getDescriptors fs = .ok rows) (hne : rows ≠ []) :
    getDescriptor fs none = .error .assertionError := by
  unfold getDescriptor valuesPartial
  rw [h]
  simp only [bind, Except.bind, normalizeDescriptor_none, pure, Except.pure, Option.all_none, Bool.and_self, List.filter_true, reduceCtorEq, if_false]
  generalize hK : pySort _ (dedupBy id (rows.map fun r => (r.1, r.2.1, r.2.2.1))) = K
  cases K with
  | nil =>
    exfalso
    obtain ⟨r, hr⟩ := List.exists_mem_of_ne_nil _ hne
    have hin : (r.1, r.2.1, r.2.2.1) ∈ rows.map fun r => (r.1, r.2.1, r.2.2.1) := List.mem_map.2 ⟨r, hr, rfl⟩
    obtain ⟨y, hy, _⟩ := dedupBy_complete id hin
    rw [← mem_pySort, hK] at hy
    cases hy
  | cons key K => rfl

/-- **C82**, errors: unreadable files raise. -/
theorem C82_unread {k : Option Str} {e : Err} (h : getDescriptors fs = .error e) : getDescriptor fs k = .error e := by
  unfold getDescriptor valuesPartial
  rw [h]
  rfl

example : (∃ t, getDescriptor listFs (some (c!"k")) = .ok t ∧ t.at_ (c!"tags") (c!"en") = some [c!"w"] ∧ t.at_ (c!"tags") (c!"fr") = some []) ∧
    getDescriptor listFs none = .error .assertionError := by
  obtain ⟨t, h1, _, _, h2⟩ := C82_consistent ⟨_, listFs_holds⟩ (c!"k")
  obtain ⟨v, h3, h4⟩ := h2 (c!"en") (by decide) (c!"tags") (by decide)
  obtain ⟨w, h5, h6⟩ := h2 (c!"fr") (by decide) (c!"tags") (by decide)
  have e3 : getValues listFs (c!"k") (c!"en") (c!"tags") = .ok [c!"w"] := by decide +kernel
  have e5 : getValues listFs (c!"k") (c!"fr") (c!"tags") = .ok [] := by decide +kernel
  rw [h3, Except.ok.injEq] at e3
  rw [h5, Except.ok.injEq] at e5
  exact ⟨⟨t, h1, by rw [h4, e3], by rw [h6, e5]⟩, C82_none listFs_holds.getDescriptors (by decide)⟩

example : getDescriptor [(c!"a.desc", c!"\"k\" fr nothing \"v\"\n")] (some (c!"k")) = .error .keyError := by decide +kernel

/-! ### C83: migrating all the expressions -/

theorem copyValues_fails (l : List (ValueKey × List Str)) : copyValues (l.map fun e => (.triple e.1, e.2)) = .error .keyError := by
  have : ∀ t : Str, (l.map fun e : ValueKey × List Str => (AnyKey.triple e.1, e.2)).find? (fun e => decide (e.1 = .text t)) = none := by
    intro t
    rw [List.find?_eq_none]
    intro e he
    obtain ⟨e', _, rfl⟩ := List.mem_map.1 he
    simp
  unfold copyValues languages
  simp only [List.forM, this]
  rfl

theorem migrateLoop_cons {all : FS} {f : Parsed → Except Err Parsed} {u : Parsed} {us : List Parsed} : ∃ e, (migrateLoop x all f (u :: us) fs).2 = some e := by
  rw [migrateLoop]
  split
  · exact ⟨_, rfl⟩
  · split
    · exact ⟨_, rfl⟩
    · split
      · exact ⟨_, rfl⟩
      · rw [copyValues_fails]
        exact ⟨_, rfl⟩

/-- **C83**: `update_all_ieml` returns only when there is nothing to migrate, and then it changes nothing and makes no commit. -/
theorem C83_never {dict : FS → Except Err Unit} {ex : Str → Bool} {r r' : Repo} {f : Parsed → Except Err Parsed} {fault : Option Fault}
    (h : updateAll x dict ex r f fault = (r', none)) : listParsed x (dict r.work) ex r.work none none = .ok [] ∧ r' = r := by
  unfold updateAll at h
  split at h
  · cases h
  · by_cases hc : r.Clean
    · have hb : (migrateBody x dict ex f r.work).2 = none ∧ (migrateBody x dict ex f r.work).1 = r.work ∧
          listParsed x (dict r.work) ex r.work none none = .ok [] := by
        cases hl : listParsed x (dict r.work) ex r.work none none with
        | error e =>
          exfalso
          rw [Repo.transaction_clean _ _ hc] at h
          unfold migrateBody at h
          rw [hl] at h
          cases h
        | ok us =>
          cases us with
          | nil =>
            unfold migrateBody
            rw [hl]
            exact ⟨rfl, rfl, rfl⟩
          | cons u us =>
            exfalso
            obtain ⟨e, he⟩ := migrateLoop_cons (x := x) (fs := r.work) (all := r.work) (f := f) (u := u) (us := us)
            rw [Repo.transaction_clean _ _ hc] at h
            unfold migrateBody at h
            rw [hl] at h
            dsimp only at h
            rw [he] at h
            cases h
      rw [C36_nothing hc hb.1 (fun p _ => by rw [hb.2.1]), hb.2.1] at h
      exact ⟨hb.2.2, (Prod.mk.inj h).1.symm⟩
    · rw [C36_refused _ _ hc] at h
      cases h

/-- **C83** (part): in a database written by this program with something to migrate, it raises `KeyError` and all visible files, the
branch and its tree are as before. -/
theorem C83_raises_partial (hx : x.Stable) {dict : FS → Except Err Unit} {ex : Str → Bool} {r : Repo} {f : Parsed → Except Err Parsed}
    {fault : Option Fault} (hv : r.Valid) (hc : r.Clean) (hd : Consistent x r.work) {u : Parsed} {us : List Parsed}
    (hl : listParsed x (dict r.work) ex r.work none none = .ok (u :: us)) (hu : ∃ s, x.parse s = .ok u) {u' : Parsed} (hf : f u = .ok u') :
    ∃ r', updateAll x dict ex r f fault = (r', some .keyError) ∧ r'.head = r.head ∧ r'.headTree = r.headTree ∧
      ∀ p, Visible p → fsGet r'.index p = fsGet r.index p ∧ fsGet r'.work p = fsGet r.work p := by
  obtain ⟨db, h⟩ := hd
  obtain ⟨s, hs⟩ := hu
  have hpu := hx s u hs
  have hkt : keyText x u.text = .ok u.text := by
    unfold keyText
    split
    · next e => rw [e]
    · simp [hpu, Except.map]
  obtain ⟨p, hp⟩ : ∃ p, pathOf x u.text true true = .ok p := by
    unfold pathOf
    rw [hpu]
    exact ⟨_, rfl⟩
  obtain ⟨fs', db', hrem, _⟩ := h.removeDescriptor_all hkt hp
  obtain ⟨E, hE, _⟩ := valuesPartial_key (k := u.text) h.getDescriptors
  have hb : (migrateBody x dict ex f r.work).2 = some .keyError := by
    unfold migrateBody
    rw [hl]
    dsimp only
    rw [migrateLoop, hf]
    dsimp only
    rw [hE]
    dsimp only
    rw [hrem]
    dsimp only
    rw [copyValues_fails]
  obtain ⟨r', e, h1, h2, h3, _, h4, h5⟩ := C36_rollback_partial (fault := fault) hv hc (.inl ⟨_, hb⟩)
  have := h2 _ hb
  subst this
  refine ⟨r', ?_, h3, h4, h5⟩
  unfold updateAll
  rw [h.getDescriptors]
  exact h1

/-- The claim: migrating all the expressions succeeds. -/
def Migrates : Prop := ∀ (x : Ext) (dict : FS → Except Err Unit) (ex : Str → Bool) (r : Repo) (f : Parsed → Except Err Parsed), x.Stable → r.Valid → r.Clean →
  Consistent x r.work → (∀ fs, dict fs = .ok ()) → (∀ u, f u = .ok u) → (updateAll x dict ex r f none).2 = none

/-- The files of `listFs` in a repository. -/
def listRepo : Repo := { commits := [⟨listFs, []⟩], head := 0, index := listFs, work := listFs }

theorem listRepo_valid : listRepo.Valid := by unfold Repo.Valid; decide

theorem listRepo_clean : listRepo.Clean := Repo.clean_of (by decide +kernel)

/-- **C83** is violated, even by the migration that changes nothing. -/
theorem C83_violated : ¬ Migrates := by
  intro h
  have h1 := h listExt (fun _ => .ok ()) (fun _ => true) listRepo .ok listExt_stable listRepo_valid listRepo_clean ⟨_, listFs_holds⟩ (fun _ => rfl) fun _ => rfl
  have h2 : (updateAll listExt (fun _ => .ok ()) (fun _ => true) listRepo .ok none).2 = some .keyError := by decide +kernel
  rw [h2] at h1
  cases h1

/-- The hypotheses of `C83_raises_partial` hold, and those of `C83_never` for an empty database. -/
example : (∃ r', updateAll listExt (fun _ => .ok ()) (fun _ => true) listRepo .ok none = (r', some .keyError) ∧ ∀ p, Visible p → fsGet r'.work p = fsGet listRepo.work p) ∧
    updateAll listExt (fun _ => .ok ()) (fun _ => true) { commits := [⟨[], []⟩], head := 0, index := [], work := [] } .ok none =
      ({ commits := [⟨[], []⟩], head := 0, index := [], work := [] }, none) := by
  refine ⟨?_, by decide +kernel⟩
  have hl : listParsed listExt (.ok ()) (fun _ => true) listFs none none =
      .ok (⟨c!"a+b", .morpheme, false⟩ :: [⟨c!"k", .morpheme, true⟩, ⟨c!"(k)", .polymorpheme, true⟩]) := by decide +kernel
  obtain ⟨r', h1, _, _, h2⟩ := C83_raises_partial listExt_stable (dict := fun _ => .ok ()) (fault := none) (f := .ok) listRepo_valid listRepo_clean ⟨_, listFs_holds⟩ hl
    ⟨c!"a+b", by decide +kernel⟩ rfl
  exact ⟨r', h1, fun p hp => (h2 p hp).2⟩

end Verif
