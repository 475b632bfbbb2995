import Verif.Spec.MigrateVersion
import Verif.Lemmas.Maintenance

/-
Lemmas on the migration of the files to version 0.4.
-/

namespace Verif
variable {x : Ext} {fs fs' : FS} {db : List (Str × List Entry)}

/-! ### The dictionary of the rows -/

theorem gatherRows_snoc (rows : List OldRow) (r : OldRow) : gatherRows (rows ++ [r]) =
    fsSet (gatherRows rows) r.ieml (dictPut ((fsGet (gatherRows rows) r.ieml).getD []) (r.lang, r.desc) r.values) := by
  unfold gatherRows
  rw [List.foldl_append]
  rfl

theorem gatherRows_keys (rows : List OldRow) : ((gatherRows rows).map (·.1)).Nodup ∧
    (∀ i, i ∈ (gatherRows rows).map (·.1) ↔ i ∈ rows.map (·.ieml)) ∧
    ((gatherRows rows).map (·.1)).Pairwise fun i j => MetBefore rows i j := by
  induction rows using List.reverseRecOn with
  | nil => exact ⟨List.nodup_nil, fun i => by simp [gatherRows], List.Pairwise.nil⟩
  | append_singleton rows r ih =>
    obtain ⟨h1, h2, h3⟩ := ih
    have hidx : ∀ i ∈ rows.map (·.ieml), ((rows ++ [r]).map (·.ieml)).idxOf i = (rows.map (·.ieml)).idxOf i := by
      intro i hi
      rw [List.map_append, List.idxOf_append, if_pos hi]
    have hlift : ((gatherRows rows).map (·.1)).Pairwise fun i j => MetBefore (rows ++ [r]) i j := by
      refine List.Pairwise.imp_of_mem ?_ h3
      intro i j hi hj h
      unfold MetBefore at h ⊢
      rw [hidx i ((h2 i).1 hi), hidx j ((h2 j).1 hj)]
      exact h
    rw [gatherRows_snoc]
    refine ⟨fsSet_nodup h1, ?_, ?_⟩
    · intro i
      rw [fsSet_keys]
      split
      · rename_i hm
        rw [h2, List.map_append, List.mem_append]
        constructor
        · exact .inl
        · rintro (h | h)
          · exact h
          · have : i = r.ieml := by simpa using h
            rw [this]; exact (h2 _).1 hm
      · rw [List.mem_append, h2, List.map_append, List.mem_append]
        simp
    · rw [fsSet_keys]
      split
      · exact hlift
      · rename_i hm
        rw [List.pairwise_append]
        refine ⟨hlift, by simp, ?_⟩
        intro i hi j hj
        rw [List.mem_singleton.1 hj]
        unfold MetBefore
        have hn : r.ieml ∉ rows.map (·.ieml) := fun h => hm ((h2 _).2 h)
        rw [hidx i ((h2 i).1 hi), List.map_append, List.idxOf_append, if_neg hn]
        have := List.idxOf_lt_length_iff.2 ((h2 i).1 hi)
        omega

/-- The rows of a key, as a dictionary. -/
def rowsOf (rows : List OldRow) (i : Str) : List ((Str × Str) × List Str) :=
  (rows.filter fun r => decide (r.ieml = i)).map fun r => ((r.lang, r.desc), r.values)

theorem gatherRows_get {rows : List OldRow} (h : RowsIndexed rows) (i : Str) : (fsGet (gatherRows rows) i).getD [] = rowsOf rows i := by
  induction rows using List.reverseRecOn with
  | nil => rfl
  | append_singleton rows r ih =>
    rw [RowsIndexed, List.pairwise_append] at h
    obtain ⟨h1, _, h3⟩ := h
    have ih := ih h1
    rw [gatherRows_snoc, fsGet_fsSet]
    by_cases hi : i = r.ieml
    · subst hi
      rw [if_pos rfl, Option.getD_some, ih]
      have hnew : (rowsOf rows r.ieml).any (fun e => decide (e.1 = (r.lang, r.desc))) = false := by
        rw [List.any_eq_false]
        intro e he
        obtain ⟨r', hr', rfl⟩ := List.mem_map.1 he
        obtain ⟨hm, hk⟩ := List.mem_filter.1 hr'
        simp only [decide_eq_true_eq, Prod.mk.injEq] at hk ⊢
        exact fun hc => h3 r' hm r (by simp) ⟨hk, hc.1, hc.2⟩
      unfold dictPut
      rw [hnew]
      simp [rowsOf, List.filter_append]
    · rw [if_neg hi, ih]
      have : decide (r.ieml = i) = false := by simp; exact fun h => hi h.symm
      simp [rowsOf, List.filter_append, this]

/-! ### The files -/

/-- The entries written for a key. -/
def entriesOf (t : Str) (dd : List ((Str × Str) × List Str)) : List Entry :=
  dd.flatMap fun g => g.2.map fun v => ⟨t, g.1.1, g.1.2, escapeNewlines v⟩

theorem migratedLine_eq {t l d v : Str} (ht : OneLine t) (hq : NoQuote t) : migratedLine t l d v = descriptorLine t l d (escapeNewlines v) := by
  have h1 : escapeValue t = t := by
    rw [escapeValue_eq ht.1]
    clear ht
    induction t with
    | nil => rfl
    | cons c cs ih =>
      rw [NoQuote, List.mem_cons, not_or] at hq
      rw [doubleQuotes, if_neg (fun h => hq.1 h.symm), ih hq.2]
  rw [descriptorLine_escaped, migratedLine, descriptorLine, h1]

theorem render_entriesOf {t : Str} (ht : OneLine t) (hq : NoQuote t) (dd : List ((Str × Str) × List Str)) :
    (dd.flatMap fun g => g.2.flatMap fun v => migratedLine t g.1.1 g.1.2 v) = render (entriesOf t dd) := by
  unfold render entriesOf
  rw [List.flatMap_assoc]
  congr 1
  funext g
  rw [List.flatMap_map]
  congr 1
  funext v
  exact migratedLine_eq ht hq

theorem stored_entriesOf (rows : List OldRow) (t i l d : Str) :
    storedValues (entriesOf t (rowsOf rows i)) t l d = (oldValues rows i l d).map escapeNewlines := by
  unfold storedValues entriesOf rowsOf oldValues
  induction rows with
  | nil => rfl
  | cons r rows ih =>
    by_cases hi : r.ieml = i
    · by_cases hld : r.lang = l ∧ r.desc = d
      · obtain ⟨rfl, rfl⟩ := hld
        simp only [List.filter_cons, hi, decide_true, if_true, List.map_cons, List.flatMap_cons, List.filter_append, List.map_append,
          and_self] at ih ⊢
        rw [ih]
        congr 1
        rw [List.filter_eq_self.2]
        · simp
        · intro e he
          obtain ⟨v, _, rfl⟩ := List.mem_map.1 he
          simp
      · have hn : decide (r.ieml = i ∧ r.lang = l ∧ r.desc = d) = false := by simp [hi]; exact fun a b => hld ⟨a, b⟩
        rw [List.filter_cons, if_pos (by simp [hi]), List.map_cons, List.flatMap_cons, List.filter_append, List.map_append, ih]
        rw [List.filter_cons, if_neg (by rw [hn]; simp), List.filter_eq_nil_iff.2]
        · simp
        · intro e he
          obtain ⟨v, _, rfl⟩ := List.mem_map.1 he
          simp only [decide_eq_true_eq, true_and]
          exact hld
    · rw [List.filter_cons, if_neg (by simp [hi]), ih]
      rw [List.filter_cons, if_neg (by simp [hi])]

theorem stored_entriesOf_other {t k : Str} (dd : List ((Str × Str) × List Str)) (l d : Str) (h : k ≠ t) :
    storedValues (entriesOf t dd) k l d = [] := by
  unfold storedValues entriesOf
  rw [List.map_eq_nil_iff, List.filter_eq_nil_iff]
  intro e he
  obtain ⟨g, _, he⟩ := List.mem_flatMap.1 he
  obtain ⟨v, _, rfl⟩ := List.mem_map.1 he
  simp only [decide_eq_true_eq]
  exact fun hc => h hc.1.symm

/-- A group of values that can be stored. -/
def GroupStores (dd : List ((Str × Str) × List Str)) : Prop :=
  ∀ g ∈ dd, g.1.1 ∈ languages ∧ g.1.2 ∈ descriptorClasses ∧ ∀ v ∈ g.2, '\r' ∉ v

/-- The files written for a list of keys. -/
theorem migrateKeys_run {factored : Str → Except Err Str} {t : Str → Str} :
    ∀ (gs : List (Str × List ((Str × Str) × List Str))) {fs : FS} {db : List (Str × List Entry)}, Holds x fs db →
    (∀ g ∈ gs, factored g.1 = .ok (t g.1) ∧ x.Keeps (t g.1) ∧ GroupStores g.2) →
    ∃ fs' db', gs.foldlM (migrateKey x factored) fs = .ok fs' ∧ Holds x fs' db' ∧ Keeps (c!".ieml") fs fs' ∧
      (∀ k l d, (∀ g ∈ gs, pathOf x (t g.1) true true ≠ pathOf x k true true) →
        storedValues (allEntries db') k l d = storedValues (allEntries db) k l d) ∧
      ∀ pre g post, gs = pre ++ g :: post → (∀ h ∈ post, pathOf x (t h.1) true true ≠ pathOf x (t g.1) true true) →
        ∀ k l d, pathOf x k true true = pathOf x (t g.1) true true →
          storedValues (allEntries db') k l d = storedValues (entriesOf (t g.1) g.2) k l d
  | [], fs, db, h, _ => ⟨fs, db, rfl, h, .refl _ _, fun _ _ _ _ => rfl, fun pre g post e => by simp at e⟩
  | g :: gs, fs, db, h, hg => by
    obtain ⟨e1, nt, st⟩ := hg g (by simp)
    obtain ⟨p, hp⟩ := nt.path true
    have hset : Holds x (fsSet fs p (render (entriesOf (t g.1) g.2))) (fsSet db p (entriesOf (t g.1) g.2)) := by
      refine h.set (pathOf_desc hp) ?_ ?_
      · intro e he
        obtain ⟨a, ha, he⟩ := List.mem_flatMap.1 he
        obtain ⟨v, hv, rfl⟩ := List.mem_map.1 he
        obtain ⟨s1, s2, s3⟩ := st a ha
        exact ⟨nt.line.1, ⟨newline_not_mem_escapeNewlines _, not_mem_escapeNewlines (s3 v hv) (by decide) (by decide)⟩, s1, s2⟩
      · intro e he
        obtain ⟨a, ha, he⟩ := List.mem_flatMap.1 he
        obtain ⟨v, hv, rfl⟩ := List.mem_map.1 he
        exact hp
    have hstep : migrateKey x factored fs g = .ok (fsSet fs p (render (entriesOf (t g.1) g.2))) := by
      unfold migrateKey
      rw [e1]
      simp only [bind, Except.bind, hp, pure, Except.pure]
      rw [render_entriesOf nt.line.1 nt.line.2]
    obtain ⟨fs', db', r1, r2, r3, r4, r5⟩ := migrateKeys_run gs hset fun a ha => hg a (by simp [ha])
    have hkeep : Keeps (c!".ieml") fs (fsSet fs p (render (entriesOf (t g.1) g.2))) := Keeps.set _ (by
      have hd := pathOf_desc hp
      unfold endsWith at hd ⊢
      rw [List.isSuffixOf_iff_suffix] at hd
      rw [Bool.eq_false_iff, ne_eq, List.isSuffixOf_iff_suffix]
      intro hc
      have := List.suffix_of_suffix_length_le hc hd (by decide)
      revert this
      decide)
    refine ⟨fs', db', by rw [List.foldlM_cons, hstep]; exact r1, r2, hkeep.trans r3, ?_, ?_⟩
    · intro k l d hk
      rw [r4 k l d fun a ha => hk a (by simp [ha]), h.values_set hset, if_neg]
      intro hc
      exact hk g (by simp) (by rw [hp, hc])
    · intro pre g' post e hpost k l d hk
      cases pre with
      | nil =>
        injection e with e1 e2
        subst e1 e2
        rw [r4 k l d fun a ha => by rw [hk]; exact hpost a ha, h.values_set hset, if_pos (by rw [hk, hp])]
      | cons a pre =>
        injection e with _ e2
        exact r5 pre g' post e2 hpost k l d hk

/-! ### The structure -/

theorem migrateRoot_run {factored : Str → Except Err Str} {r : OldRoot} {t : Str} {sdb : List (Str × List Setting)}
    (hf : factored r.ieml = .ok t) (hk : x.Keeps t) (hi : ∀ i ∈ r.inhibitions, i ∈ inhibitableRelations) (h : SHolds x fs sdb) :
    ∃ fs' sdb', migrateRoot x factored fs r = .ok fs' ∧ SHolds x fs' sdb' ∧ Keeps (c!".desc") fs fs' ∧
      ∀ k a, settingValues (allSettings sdb') k a = settingValues (allSettings sdb) k a ++ if k = t then r.settings a else [] := by
  obtain ⟨p, hp⟩ := hk.path false
  obtain ⟨f1, s1, e1, h1, k1, w1⟩ := SHolds.addValues (a := c!"is_root") hk.text hp [c!"True"] h (by
    intro v hv
    rw [List.mem_singleton.1 hv]
    exact ⟨⟨hk.line, (by decide : c!"is_root" ∈ structureKeys), (by decide : OneLine (c!"True") ∧ NoQuote (c!"True")),
      fun e => absurd e (by decide : c!"is_root" ≠ c!"inhibition")⟩, fun _ => .inl rfl⟩)
  obtain ⟨f2, s2, e2, h2, k2, w2⟩ := SHolds.addValues (a := c!"inhibition") hk.text hp r.inhibitions h1 (by
    intro v hv
    exact ⟨⟨hk.line, (by decide : c!"inhibition" ∈ structureKeys), ⟨(inhibition_word (hi v hv)).1, (inhibition_word (hi v hv)).2.1⟩, fun _ => hi v hv⟩, fun e => absurd rfl e⟩)
  refine ⟨f2, s2, ?_, h2, k1.trans k2, fun k a => ?_⟩
  · unfold migrateRoot
    rw [hf]
    rw [List.foldlM_cons] at e1
    obtain ⟨f, e3, e4⟩ := bind_ok.1 e1
    injection e4 with e4
    subst e4
    simp only [bind, Except.bind, e3]
    exact e2
  · rw [w2, w1, w1]
    unfold OldRoot.settings
    by_cases hkt : k = t
    · subst hkt
      by_cases ha : a = c!"is_root"
      · subst ha; simp
      · by_cases hb : a = c!"inhibition"
        · subst hb; simp
        · simp [ha, hb]
    · simp [hkt]

theorem migrateRoots_run {factored : Str → Except Err Str} : ∀ {roots : List OldRoot} {fs : FS} {sdb : List (Str × List Setting)},
    (∀ r ∈ roots, r.Stores x factored) → SHolds x fs sdb →
    ∃ fs' sdb', roots.foldlM (migrateRoot x factored) fs = .ok fs' ∧ SHolds x fs' sdb' ∧ Keeps (c!".desc") fs fs' ∧
      ∀ k a, settingValues (allSettings sdb') k a = settingValues (allSettings sdb) k a ++ rootSettings factored roots k a
  | [], fs, sdb, _, h => ⟨fs, sdb, rfl, h, .refl _ _, fun k a => by simp [rootSettings]⟩
  | r :: roots, fs, sdb, hr, h => by
    obtain ⟨⟨t, hf, hk⟩, hi⟩ := hr r (by simp)
    obtain ⟨f1, s1, e1, h1, k1, w1⟩ := migrateRoot_run hf hk hi h
    obtain ⟨f2, s2, e2, h2, k2, w2⟩ := migrateRoots_run (roots := roots) (fun a ha => hr a (by simp [ha])) h1
    refine ⟨f2, s2, by rw [List.foldlM_cons, e1]; exact e2, h2, k1.trans k2, fun k a => ?_⟩
    rw [w2, w1, List.append_assoc]
    congr 1
    unfold rootSettings
    rw [List.filter_cons, hf]
    by_cases hkt : k = t
    · subst hkt; rw [if_pos rfl, if_pos (by simp)]; rfl
    · rw [if_neg hkt, if_neg (by simp; exact fun e => hkt e.symm)]; rfl

/-- Adding an inhibition to a key in normal form. -/
theorem addInhibition {t : Str} (hk : x.Keeps t) (fs : FS) (v : Str) :
    ((v = [] ∨ v ∈ inhibitableRelations) → ∃ fs', addStructure x fs (some t) (some (c!"inhibition")) (some v) = .ok fs') ∧
    (v ≠ [] → v ∉ inhibitableRelations → addStructure x fs (some t) (some (c!"inhibition")) (some v) = .error .valueError) := by
  obtain ⟨p, hp⟩ := hk.path false
  have hn : normalizeIeml x (some t) true = .ok (some t) := normalizeIeml_some.2 hk.text
  constructor
  · rintro (rfl | hv)
    · refine ⟨fsSet fs p ((fsGet fs p).getD [] ++ (c!"\"" ++ t ++ c!"\" " ++ c!"inhibition" ++ c!" \"" ++ [] ++ c!"\"\n")), ?_⟩
      unfold addStructure normalizeKey
      rw [hn]
      have : normalizeStructure (some (c!"inhibition")) (some []) = .ok (some (c!"inhibition"), some []) := by decide +kernel
      have ht : truthy (some (c!"inhibition")) = true := rfl
      simp [this, ht, bind, Except.bind, hp, pure, Except.pure]
    · have hf : (Setting.mk t (c!"inhibition") v).Fits := ⟨hk.line, (by decide : c!"inhibition" ∈ structureKeys), ⟨(inhibition_word hv).1, (inhibition_word hv).2.1⟩, fun _ => hv⟩
      refine ⟨fsSet fs p ((fsGet fs p).getD [] ++ (c!"\"" ++ t ++ c!"\" " ++ c!"inhibition" ++ c!" \"" ++ v ++ c!"\"\n")), ?_⟩
      unfold addStructure
      rw [addSetting_args hk.text hf fun e => absurd rfl e]
      simp [bind, Except.bind, hp, pure, Except.pure]
  · intro hv hni
    unfold addStructure normalizeKey
    rw [hn]
    have ht : truthy (some (c!"inhibition")) = true := rfl
    have hs : normalizeStructure (some (c!"inhibition")) (some v) = .error .valueError := by
      unfold normalizeStructure
      have h1 : truthy (some v) = true := by cases v with
        | nil => exact absurd rfl hv
        | cons c cs => rfl
      have h3 : c!"inhibition" ∈ structureKeys := by decide
      simp [bind, Except.bind, ht, h1, hni, h3, pure, Except.pure]
    simp [bind, Except.bind, ht, hs, pure, Except.pure]

/-- A run where each step succeeds or stops with this error, and where one step cannot succeed. -/
theorem foldlM_stops {σ α : Type} {f : σ → α → Except Err σ} {err : Err} : ∀ {l : List α} (s : σ),
    (∀ a ∈ l, ∀ s, (∃ s', f s a = .ok s') ∨ f s a = .error err) → (∃ a ∈ l, ∀ s, f s a = .error err) →
    l.foldlM f s = .error err
  | [], _, _, h => by obtain ⟨a, ha, _⟩ := h; cases ha
  | a :: l, s, h1, h2 => by
    rw [List.foldlM_cons]
    rcases h1 a (by simp) s with ⟨s', e⟩ | e
    · obtain ⟨b, hb, hs⟩ := h2
      rw [e]
      rcases List.mem_cons.1 hb with rfl | hb
      · rw [hs] at e; cases e
      · exact foldlM_stops s' (fun c hc => h1 c (by simp [hc])) ⟨b, hb, hs⟩
    · rw [e]; rfl

/-- A run that cannot stop otherwise. -/
theorem foldlM_either {σ α : Type} {f : σ → α → Except Err σ} {err : Err} : ∀ {l : List α} (s : σ),
    (∀ a ∈ l, ∀ s, (∃ s', f s a = .ok s') ∨ f s a = .error err) → (∃ s', l.foldlM f s = .ok s') ∨ l.foldlM f s = .error err
  | [], s, _ => .inl ⟨s, rfl⟩
  | a :: l, s, h1 => by
    rw [List.foldlM_cons]
    rcases h1 a (by simp) s with ⟨s', e⟩ | e
    · rw [e]; exact foldlM_either s' fun c hc => h1 c (by simp [hc])
    · rw [e]; exact .inr rfl

theorem addRoot_ok {t : Str} (hk : x.Keeps t) (fs : FS) : ∃ fs', addStructure x fs (some t) (some (c!"is_root")) (some (c!"True")) = .ok fs' := by
  obtain ⟨p, hp⟩ := hk.path false
  have hf : (Setting.mk t (c!"is_root") (c!"True")).Fits :=
    ⟨hk.line, (by decide : c!"is_root" ∈ structureKeys), (by decide : OneLine (c!"True") ∧ NoQuote (c!"True")),
      fun e => absurd e (by decide : c!"is_root" ≠ c!"inhibition")⟩
  unfold addStructure
  rw [addSetting_args hk.text hf fun _ => .inl rfl]
  simp [bind, Except.bind, hp, pure, Except.pure]

theorem migrateRoot_refused {factored : Str → Except Err Str} {r : OldRoot} {t : Str} (hf : factored r.ieml = .ok t) (hk : x.Keeps t) (fs : FS) :
    ((∃ fs', migrateRoot x factored fs r = .ok fs') ∨ migrateRoot x factored fs r = .error .valueError) ∧
    ((∃ i ∈ r.inhibitions, i ≠ [] ∧ i ∉ inhibitableRelations) → migrateRoot x factored fs r = .error .valueError) := by
  obtain ⟨f1, e1⟩ := addRoot_ok hk fs
  have hstep : ∀ i ∈ r.inhibitions, ∀ s, (∃ s', addStructure x s (some t) (some (c!"inhibition")) (some i) = .ok s') ∨
      addStructure x s (some t) (some (c!"inhibition")) (some i) = .error .valueError := by
    intro i _ s
    by_cases h : i = [] ∨ i ∈ inhibitableRelations
    · exact .inl ((addInhibition hk s i).1 h)
    · rw [not_or] at h
      exact .inr ((addInhibition hk s i).2 h.1 h.2)
  have e : migrateRoot x factored fs r =
      r.inhibitions.foldlM (fun fs i => addStructure x fs (some t) (some (c!"inhibition")) (some i)) f1 := by
    unfold migrateRoot
    rw [hf]
    simp only [bind, Except.bind, e1]
  rw [e]
  refine ⟨foldlM_either f1 hstep, ?_⟩
  rintro ⟨i, hi, h1, h2⟩
  exact foldlM_stops f1 hstep ⟨i, hi, fun s => (addInhibition hk s i).2 h1 h2⟩

/-! ### The paradigms -/

theorem addNotRoots_run : ∀ (ts : List Str) {fs : FS} {sdb : List (Str × List Setting)}, (∀ t ∈ ts, x.Keeps t) → SHolds x fs sdb →
    ∃ fs' sdb', ts.foldlM (fun fs t => addStructure x fs (some t) (some (c!"is_root")) (some (c!"False"))) fs = .ok fs' ∧
      SHolds x fs' sdb' ∧ Keeps (c!".desc") fs fs' ∧
      ∀ k a, settingValues (allSettings sdb') k a = settingValues (allSettings sdb) k a ++
        if a = c!"is_root" then (ts.filter (decide <| · = k)).map fun _ => c!"False" else []
  | [], fs, sdb, _, h => ⟨fs, sdb, rfl, h, .refl _ _, fun k a => by simp⟩
  | t :: ts, fs, sdb, hk, h => by
    have ht := hk t (by simp)
    obtain ⟨p, hp⟩ := ht.path false
    obtain ⟨f1, s1, e1, h1, w1⟩ := h.addNotRoot ht.text hp ht.line
    obtain ⟨f2, s2, e2, h2, k2, w2⟩ := addNotRoots_run ts (fun a ha => hk a (by simp [ha])) h1
    refine ⟨f2, s2, by rw [List.foldlM_cons, e1]; exact e2, h2, (addStructure_keeps e1).trans k2, fun k a => ?_⟩
    rw [w2, w1]
    by_cases ha : a = c!"is_root"
    · subst ha
      by_cases hkt : k = t
      · subst hkt; simp
      · have : ¬ t = k := fun e => hkt e.symm
        simp [hkt, List.filter_cons, this]
    · simp [ha]

theorem Emptied.holds (h : Emptied fs) : Holds x fs [] := by
  refine ⟨?_, h.once, by simp, by simp⟩
  rw [List.filter_eq_nil_iff.2]
  · rfl
  · intro f hf; simp [(h.none f hf).1]

theorem Emptied.sholds (h : Emptied fs) : SHolds x fs [] := by
  refine ⟨?_, h.once, by simp, by simp⟩
  rw [List.filter_eq_nil_iff.2]
  · rfl
  · intro f hf; simp [(h.none f hf).2]

end Verif
