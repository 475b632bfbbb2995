import Verif.Lemmas.DictTransaction
import Verif.Lemmas.ReadTotal
import Verif.Lemmas.ScriptChars

/-
What is listed in the database, and when changes of the files keep the data of the dictionary consistent.
-/

namespace Verif
open Script
variable {x : Ext} {fs fs' : FS} {db db' : List (Str × List Entry)} {sdb sdb' : List (Str × List Setting)}

/-! ### Listing -/

theorem nlLines_line : ∀ {l : Str} (r : Str), '\n' ∉ l → nlLines (l ++ '\n' :: r) = l :: nlLines r
  | [], r, _ => by simp [nlLines]
  | c :: l, r, h => by
    have h1 : c ≠ '\n' := fun e => h (by simp [e])
    have h2 : '\n' ∉ l := fun e => h (by simp [e])
    rw [List.cons_append, nlLines, if_neg h1, nlLines_line r h2]

theorem nlLines_render : ∀ {es : List Entry}, (∀ e ∈ es, e.Fits) → nlLines (render es) = es.map fun e => lineBody e.key e.lang e.desc e.value
  | [], _ => rfl
  | e :: es, h => by
    have he := h e (by simp)
    have : render (e :: es) = lineBody e.key e.lang e.desc e.value ++ '\n' :: render es := by
      rw [render, List.flatMap_cons, he.line_eq]
      simp [render]
    rw [this, nlLines_line _ (lineBody_clean he (.inl rfl)), nlLines_render fun e' h' => h e' (by simp [h'])]
    rfl

theorem takeWhile_doubleQuotes (t : Str) : ∀ k : Str,
    (doubleQuotes k ++ '"' :: t).takeWhile (fun c => c ≠ '"') = k.takeWhile fun c => c ≠ '"'
  | [] => by simp [doubleQuotes]
  | c :: k => by
    rw [doubleQuotes]
    split
    · rename_i h; subst h; simp
    · rename_i h
      have := takeWhile_doubleQuotes t k
      simp only [List.cons_append, List.takeWhile_cons, ne_eq, h, not_false_eq_true, decide_true, if_true]
      simpa using this

theorem cutKey_line (k l d v : Str) : cutKey (lineBody k l d v) = k.takeWhile fun c => c ≠ '"' := by
  unfold cutKey lineBody
  simp only [List.dropWhile_cons, ne_eq, not_true_eq_false, decide_false, Bool.false_eq_true, if_false]
  exact takeWhile_doubleQuotes _ k

theorem mem_uniqLines {a : Str} : ∀ {l : List Str}, a ∈ uniqLines l ↔ a ∈ l
  | [] => Iff.rfl
  | b :: l => by
    have ih := mem_uniqLines (a := a) (l := l)
    rw [uniqLines, List.mem_cons, ← ih]
    split
    · rename_i h; rw [h]; simp
    · rename_i c r h
      rw [h]
      split
      · rename_i e; subst e; simp
      · simp

/-- How a key is listed: up to its first quotation mark, stripped. -/
def listedKey (k : Str) : Str := stripBytes (k.takeWhile fun c => c ≠ '"')

theorem mem_listParadigms (h : Holds x fs db) {k : Str} : k ∈ listParadigms fs ↔
    k ≠ [] ∧ ∃ f ∈ db, startsWith f.1 (c!"morpheme/paradigm/") = true ∧ ∃ e ∈ f.2, listedKey e.key = k := by
  have e1 : (fs.filter fun f => startsWith f.1 (c!"morpheme/paradigm/") && endsWith f.1 (c!".desc")).flatMap (·.2) =
      render ((db.filter fun f => startsWith f.1 (c!"morpheme/paradigm/")).flatMap (·.2)) := by
    rw [← List.filter_filter, h.files, List.filter_map, List.flatMap_map]
    unfold render
    rw [List.flatMap_assoc]
    rfl
  unfold listParadigms
  dsimp only
  rw [e1, nlLines_render, List.map_map]
  · rw [List.mem_filter, List.mem_map]
    simp only [ne_eq, decide_not, Bool.not_eq_true', decide_eq_false_iff_not, mem_uniqLines, List.mem_map, Function.comp,
      List.mem_flatMap, List.mem_filter]
    rw [and_comm]
    refine and_congr_right fun _ => ?_
    constructor
    · rintro ⟨_, ⟨e, ⟨f, ⟨hf, hp⟩, he⟩, rfl⟩, rfl⟩
      exact ⟨f, hf, hp, e, he, by rw [cutKey_line]; rfl⟩
    · rintro ⟨f, hf, hp, e, he, rfl⟩
      exact ⟨_, ⟨e, ⟨f, ⟨hf, hp⟩, he⟩, rfl⟩, by rw [cutKey_line]; rfl⟩
  · intro e he
    obtain ⟨f, hf, he⟩ := List.mem_flatMap.1 he
    exact h.fits f (List.mem_filter.1 hf).1 e he

/-- A key is listed when it has a descriptor and is the key of a paradigm. -/
theorem mem_listParadigms' (h : Holds x fs db) {k : Str} : k ∈ listParadigms fs ↔
    k ≠ [] ∧ ∃ κ p l a, l ∈ languages ∧ a ∈ descriptorClasses ∧ pathOf x κ true true = .ok p ∧
      startsWith p (c!"morpheme/paradigm/") = true ∧ storedValues (allEntries db) κ l a ≠ [] ∧ listedKey κ = k := by
  rw [mem_listParadigms h]
  refine and_congr_right fun _ => ?_
  constructor
  · rintro ⟨f, hf, hp, e, he, rfl⟩
    refine ⟨e.key, f.1, e.lang, e.desc, (h.fits f hf e he).lang, (h.fits f hf e he).desc, h.place f hf e he, hp, ?_, rfl⟩
    unfold storedValues
    rw [ne_eq, List.map_eq_nil_iff, List.filter_eq_nil_iff]
    intro hc
    exact hc e (List.mem_flatMap.2 ⟨f, hf, he⟩) (by simp)
  · rintro ⟨κ, p, l, a, hl, ha, hpath, hp, hv, rfl⟩
    unfold storedValues at hv
    rw [ne_eq, List.map_eq_nil_iff] at hv
    obtain ⟨e, he⟩ := List.exists_mem_of_ne_nil _ hv
    rw [List.mem_filter] at he
    obtain ⟨he, hk⟩ := he
    obtain ⟨f, hf, he⟩ := List.mem_flatMap.1 he
    obtain ⟨hk, _⟩ := of_decide_eq_true hk
    subst hk
    have := h.place f hf e he
    rw [hpath, Except.ok.injEq] at this
    exact ⟨f, hf, this ▸ hp, e, he, rfl⟩

theorem stripBytes_id {s : Str} (h : ∀ c ∈ s, byteSpace c = false) : stripBytes s = s := by
  have drop : ∀ {t : Str}, (∀ c ∈ t, byteSpace c = false) → t.dropWhile byteSpace = t := by
    intro t ht
    cases t with
    | nil => rfl
    | cons c t => rw [List.dropWhile_cons, ht c (by simp)]; rfl
  unfold stripBytes
  rw [drop h, drop fun c hc => h c (List.mem_reverse.1 hc), List.reverse_reverse]

theorem termChar_plain {c : Char} (h : termChar c = true) : byteSpace c = false ∧ c ≠ '"' := by
  have hb : ∀ c ∈ termLetters ++ termMarks, byteSpace c = false ∧ c ≠ '"' := by decide
  apply hb
  simp only [termChar, Bool.or_eq_true, List.contains_iff_mem] at h
  exact List.mem_append.2 h

theorem listedKey_str {s : Script} (h : WF s) : listedKey s.str = s.str := by
  unfold listedKey
  have e : s.str.takeWhile (fun c => decide (c ≠ '"')) = s.str := by
    have take : ∀ t : Str, (∀ c ∈ t, c ≠ '"') → t.takeWhile (fun c => decide (c ≠ '"')) = t := by
      intro t
      induction t with
      | nil => intro _; rfl
      | cons c t ih =>
        intro ht
        rw [List.takeWhile_cons, if_pos (by simpa using ht c (by simp)), ih fun c hc => ht c (by simp [hc])]
    exact take _ fun c hc => (termChar_plain (str_termChar h c hc)).2
  rw [e]
  exact stripBytes_id fun c hc => (termChar_plain (str_termChar h c hc)).1

/-! ### The rows -/

/-- The value says true. -/
def saysTrue : Str → Bool
  | [] => false
  | c :: _ => c = 't' || c = 'T'

/-- The rows of the settings. -/
def settingRows (sdb : List (Str × List Setting)) : List (Str × Str × Str) := (allSettings sdb).map fun e => (e.key, e.attr, e.value)

theorem mem_settingRows {k a v : Str} : (k, a, v) ∈ settingRows sdb ↔ v ∈ settingValues (allSettings sdb) k a := by
  unfold settingRows settingValues
  simp only [List.mem_map, List.mem_filter, decide_eq_true_eq, Prod.mk.injEq]
  constructor
  · rintro ⟨e, he, h1, h2, h3⟩; exact ⟨e, ⟨he, h1, h2⟩, h3⟩
  · rintro ⟨e, ⟨he, h1, h2⟩, h3⟩; exact ⟨e, he, h1, h2, h3⟩

theorem marks_iff {attr : Str} {row : Str × Str × Str} : marks attr row = true ↔ row.2.1 = attr ∧ saysTrue row.2.2 = true := by
  unfold marks saysTrue
  rw [Bool.and_eq_true, decide_eq_true_eq]
  constructor
  · rintro ⟨h, h'⟩
    refine ⟨h, ?_⟩
    split at h' <;> simp_all
  · rintro ⟨h, h'⟩
    refine ⟨h, ?_⟩
    split at h' <;> simp_all

theorem count_marks {attr k : Str} {rows : List (Str × Str × Str)} (hp : rows.Perm (settingRows sdb)) :
    ((rows.filter (marks attr)).map (·.1)).count k = ((settingValues (allSettings sdb) k attr).filter saysTrue).length := by
  rw [List.Perm.count_eq ((hp.filter _).map _)]
  unfold settingRows settingValues
  rw [List.count, List.countP_map, List.countP_filter, List.countP_map, ← List.countP_eq_length_filter, List.countP_map, List.countP_filter]
  apply List.countP_congr
  intro e _
  simp only [Function.comp, Bool.and_eq_true, beq_iff_eq, marks_iff, decide_eq_true_eq]
  tauto

theorem marked_rows {attr k : Str} {rows : List (Str × Str × Str)} (hp : rows.Perm (settingRows sdb)) :
    Marked rows attr k ↔ (settingValues (allSettings sdb) k attr).filter saysTrue ≠ [] := by
  constructor
  · rintro ⟨c, v, h, hc⟩ he
    rw [hp.mem_iff, mem_settingRows] at h
    rw [List.filter_eq_nil_iff] at he
    exact he _ h (by simpa [saysTrue] using hc)
  · intro h
    obtain ⟨v, hv⟩ := List.exists_mem_of_ne_nil _ h
    rw [List.mem_filter] at hv
    obtain ⟨hv, ht⟩ := hv
    cases v with
    | nil => cases ht
    | cons c v => exact ⟨c, v, hp.mem_iff.2 (mem_settingRows.2 hv), by simpa [saysTrue] using ht⟩

/-! ### Changes -/

/-- Changes that keep the data of the dictionary consistent: outside the keys `S`, which are texts of scripts and not roots, the
descriptors are the same; the settings have the same roots and no new ignored key. -/
structure SameRoots (db db' : List (Str × List Entry)) (sdb sdb' : List (Str × List Setting)) (S : Str → Prop) : Prop where
  descs : ∀ k, ¬ S k → ∀ l ∈ languages, ∀ a ∈ descriptorClasses, storedValues (allEntries db') k l a = storedValues (allEntries db) k l a
  texts : ∀ k, S k → ∃ s, WF s ∧ s.str = k
  values : ∀ k v, v ∈ settingValues (allSettings sdb') k (c!"is_root") ∨ v ∈ settingValues (allSettings sdb') k (c!"is_ignored") → v ≠ []
  roots : ∀ k, (settingValues (allSettings sdb') k (c!"is_root")).filter saysTrue =
    (settingValues (allSettings sdb) k (c!"is_root")).filter saysTrue
  ignored : ∀ k, ((settingValues (allSettings sdb') k (c!"is_ignored")).filter saysTrue).length ≤
    ((settingValues (allSettings sdb) k (c!"is_ignored")).filter saysTrue).length
  free : ∀ k, S k → (settingValues (allSettings sdb) k (c!"is_root")).filter saysTrue = []

theorem SameRoots.consistent {S : Str → Prop} (h : Holds x fs db) (h' : Holds x fs' db') (hs : SameRoots db db' sdb sdb' S)
    {rows rows' : List (Str × Str × Str)} (hp : rows.Perm (settingRows sdb)) (hp' : rows'.Perm (settingRows sdb'))
    (hc : ConsistentData (listParadigms fs) rows) : ConsistentData (listParadigms fs') rows' := by
  have hroot : ∀ k, Marked rows' (c!"is_root") k ↔ Marked rows (c!"is_root") k := by
    intro k
    rw [marked_rows hp, marked_rows hp', hs.roots]
  have hign : ∀ k, Marked rows' (c!"is_ignored") k → Marked rows (c!"is_ignored") k := by
    intro k hk
    rw [marked_rows hp'] at hk
    rw [marked_rows hp]
    intro h0
    have := hs.ignored k
    rw [h0] at this
    exact hk (List.length_eq_zero_iff.1 (Nat.le_zero.1 this))
  refine ⟨fun k hk => ?_, fun row hrow ha => ?_, fun k hk => ?_, ?_, ?_, fun k s hk hps => ?_⟩
  · obtain ⟨hne, κ, p, l, a, hl, ha, h1, h2, h3, h4⟩ := (mem_listParadigms' h').1 hk
    by_cases hS : S κ
    · obtain ⟨s, ws, rfl⟩ := hs.texts κ hS
      rw [listedKey_str ws] at h4
      subst h4
      obtain ⟨t, p1, p2, p3, _⟩ := parse_str_plain ws
      exact ⟨t, p1, p3⟩
    · rw [hs.descs κ hS l hl a ha] at h3
      exact hc.keys k ((mem_listParadigms' h).2 ⟨hne, κ, p, l, a, hl, ha, h1, h2, h3, h4⟩)
  · obtain ⟨k, a, v⟩ := row
    rw [hp'.mem_iff, mem_settingRows] at hrow
    simp only at ha
    rcases ha with rfl | rfl
    · exact hs.values k v (.inl hrow)
    · exact hs.values k v (.inr hrow)
  · have hk' := (hroot k).1 hk
    obtain ⟨hne, κ, p, l, a, hl, ha, h1, h2, h3, h4⟩ := (mem_listParadigms' h).1 (hc.rootKeys k hk')
    have hS : ¬ S κ := by
      intro hS
      obtain ⟨s, ws, rfl⟩ := hs.texts κ hS
      rw [listedKey_str ws] at h4
      subst h4
      exact (marked_rows hp).1 hk' (hs.free _ hS)
    rw [← hs.descs κ hS l hl a ha] at h3
    exact (mem_listParadigms' h').2 ⟨hne, κ, p, l, a, hl, ha, h1, h2, h3, h4⟩
  · have hperm : ((rows'.filter (marks (c!"is_root"))).map (·.1)).Perm ((rows.filter (marks (c!"is_root"))).map (·.1)) := by
      rw [List.perm_iff_count]
      intro k
      rw [count_marks hp, count_marks hp', hs.roots]
    refine (hperm.pairwise_iff ?_).2 hc.apart
    intro a b hab s t h1 h2 w hw
    exact hab t s h2 h1 w ⟨hw.2, hw.1⟩
  · rw [List.nodup_iff_count_le_one]
    intro k
    have := List.nodup_iff_count_le_one.1 hc.once k
    rw [count_marks hp] at this
    rw [count_marks hp']
    exact (hs.ignored k).trans this
  · obtain ⟨h1, h2, h3⟩ := hc.ignored k s (hign k hk) hps
    refine ⟨h1, fun hm => h2 ((hroot k).1 hm), fun w hw => ?_⟩
    obtain ⟨k', r, g1, g2, g3⟩ := h3 w hw
    exact ⟨k', r, (hroot k').2 g1, g2, g3⟩

/-! ### The roots of the dictionary -/

/-- The roots of the dictionary are the keys marked as roots. -/
theorem mkDictionary_roots {o : SetOrder} (ho : o.Valid) {ks : List Str} {rows : List (Str × Str × Str)} {d : Dictionary}
    (hc : ConsistentData ks rows) (h : mkDictionary o ks rows = .ok d) {k : Str} :
    (∃ r ∈ d.roots, r.str = k) ↔ Marked rows (c!"is_root") k := by
  obtain ⟨st', h1, _, hroots, _⟩ := mkDictionary_inv ho h
  obtain ⟨st, fs, hok, _, h2, h3, hn, out, hout, k1, k2, k3, k4, _⟩ := readDictionary_inv h1
  have hn := hn (.of_consistent hc)
  rw [hroots]
  constructor
  · rintro ⟨r, hr, rfl⟩
    exact (hn.roots r ((k4 r).1 hr).1).2.1
  · intro hm
    obtain ⟨q1, q2, q3⟩ := readKeys h3
    have hok0 : ReadOk ⟨fs, [], [], []⟩ := ⟨q1, fun e he => parse_wf (q2 e he).2, by simp, by simp⟩
    have hn0 : ReadNormal ks rows ⟨fs, [], [], []⟩ := by
      refine ⟨fun e he => ?_, q3, by simp, by simp⟩
      have := q2 e he
      have hstr := NormalKeys.of_consistent hc e.1 this.1 e.2 this.2
      exact ⟨hstr, parse_normal this.2 hstr, .inl this.1⟩
    obtain ⟨r, hr, rfl⟩ := readRows_root hok0 hn0 h2 (hc.rootKeys k hm) hm
    refine ⟨r, (k4 r).2 ⟨hr, fun s hs hsr => ?_⟩, rfl⟩
    rcases List.mem_append.1 hs with hs | hs
    · exact NoIgnoredRoot.of_consistent hc r.str ⟨hm, hsr ▸ (hn.ignored s hs).1⟩
    · obtain ⟨⟨k, hks⟩, u, hu, hall⟩ := (hout s).1 hs
      exact hall r hr ((den_of_str (hok.wf _ hks) (hok.roots r hr) hsr u).1 hu)

end Verif
