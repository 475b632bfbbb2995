import Verif.Model.Maintenance
import Verif.Props.DictTransaction

/-
Lemmas about the maintenance programs.
-/

namespace Verif
variable {x : Ext} {fs fs' fs'' : FS}

/-! ### Sequences of changes -/

theorem runSteps_append {ss ts : List (FS → Except Err FS)} : ∀ {fs : FS},
    runSteps (ss ++ ts) fs = (fs'', none) ↔ ∃ fs', runSteps ss fs = (fs', none) ∧ runSteps ts fs' = (fs'', none) := by
  induction ss with
  | nil =>
    intro fs
    constructor
    · exact fun h => ⟨fs, rfl, h⟩
    · rintro ⟨fs', h, h'⟩
      simp only [runSteps, Prod.mk.injEq, and_true] at h
      subst h
      exact h'
  | cons s ss ih =>
    intro fs
    simp only [List.cons_append, runSteps]
    cases s fs with
    | error e => simp
    | ok f => exact ih

theorem runSteps_cons {s : FS → Except Err FS} {ss : List (FS → Except Err FS)} :
    runSteps (s :: ss) fs = (fs'', none) ↔ ∃ fs', s fs = .ok fs' ∧ runSteps ss fs' = (fs'', none) := by
  simp only [runSteps]
  cases s fs with
  | error e => simp
  | ok f => simp

/-- An invariant of all the changes. -/
theorem runSteps_inv {P : FS → Prop} {ss : List (FS → Except Err FS)} (hs : ∀ s ∈ ss, ∀ f f', s f = .ok f' → P f → P f') :
    ∀ {fs : FS}, runSteps ss fs = (fs', none) → P fs → P fs' := by
  induction ss with
  | nil =>
    intro fs h hp
    simp only [runSteps, Prod.mk.injEq, and_true] at h
    exact h ▸ hp
  | cons s ss ih =>
    intro fs h hp
    obtain ⟨f, h1, h2⟩ := runSteps_cons.1 h
    exact ih (fun t ht => hs t (by simp [ht])) h2 (hs s (by simp) _ _ h1 hp)

/-- Running the changes as a fold. -/
theorem runSteps_map {α : Type} (g : α → FS → Except Err FS) : ∀ {l : List α} {fs : FS},
    runSteps (l.map g) fs = (fs', none) ↔ l.foldlM (fun f a => g a f) fs = .ok fs' := by
  intro l
  induction l with
  | nil => intro fs; simp [runSteps, pure, Except.pure]
  | cons a l ih =>
    intro fs
    rw [List.map_cons, runSteps_cons, List.foldlM_cons]
    constructor
    · rintro ⟨f, h1, h2⟩
      rw [h1]
      exact ih.1 h2
    · intro h
      cases ha : g a fs with
      | error e => rw [ha] at h; cases h
      | ok f => rw [ha] at h; exact ⟨f, rfl, ih.2 h⟩

theorem runSteps_flatMap {α β : Type} (g : α → List β) (t : α → β → FS → Except Err FS) : ∀ {l : List α} {fs : FS},
    runSteps (l.flatMap fun a => (g a).map (t a)) fs = (fs', none) ↔
      l.foldlM (fun f a => (g a).foldlM (fun f b => t a b f) f) fs = .ok fs' := by
  intro l
  induction l with
  | nil => intro fs; simp [runSteps, pure, Except.pure]
  | cons a l ih =>
    intro fs
    rw [List.flatMap_cons, runSteps_append, List.foldlM_cons]
    constructor
    · rintro ⟨f, h1, h2⟩
      rw [(runSteps_map _).1 h1]
      exact ih.1 h2
    · intro h
      cases ha : (g a).foldlM (fun f b => t a b f) fs with
      | error e => rw [ha] at h; cases h
      | ok f => rw [ha] at h; exact ⟨f, (runSteps_map _).2 ha, ih.2 h⟩

/-! ### What one change does to the files -/

theorem addDescriptor_file {t l d : Option Str} {v q : Str} (h : addDescriptor x fs t l d v = .ok fs')
    (hq : ∀ s k, t = some s → keyText x s = .ok k → pathOf x k true true ≠ .ok q) : fsGet fs' q = fsGet fs q := by
  unfold addDescriptor at h
  obtain ⟨⟨a, b, c⟩, h1, h⟩ := bind_ok.1 h
  dsimp only at h
  split at h
  · exact (pure_ok.1 h) ▸ rfl
  · split at h
    · rename_i ieml lang desc _ _ _
      obtain ⟨p, hp, h⟩ := bind_ok.1 h
      rw [← pure_ok.1 h, fsGet_fsSet, if_neg]
      rintro rfl
      cases t with
      | none =>
        unfold normalizeKey at h1
        simp [normalizeIeml] at h1
        cases h1
      | some s =>
        obtain ⟨k, hk, e⟩ := normalizeKey_keyText h1
        simp only [Prod.mk.injEq, Option.some.injEq] at e
        obtain ⟨rfl, -, -⟩ := e
        exact hq s _ rfl hk hp
    · cases h

theorem normalizeKey_sText {t : Str} {a b : Option Str} {part : Bool} {r : Option Str × Option Str × Option Str}
    (h : normalizeKey x (some t) a b true part true = .ok r) : ∃ k, keyText x t = .ok k ∧ r.1 = some k := by
  have hk := (normalizeKey_struct_iff.1 h).2.1
  unfold normalizeIeml at hk
  unfold keyText
  cases t with
  | nil => exact ⟨[], rfl, by injection hk with hk; exact hk.symm⟩
  | cons c cs =>
    simp only at hk
    rw [if_neg (by simp)]
    cases hp : x.parse (c :: cs) with
    | error e => rw [hp] at hk; cases hk
    | ok u =>
      rw [hp] at hk
      injection hk with hk
      exact ⟨u.text, rfl, hk.symm⟩

theorem addStructure_file {t a v : Option Str} {q : Str} (h : addStructure x fs t a v = .ok fs')
    (hq : ∀ s k, t = some s → keyText x s = .ok k → pathOf x k false true ≠ .ok q) : fsGet fs' q = fsGet fs q := by
  unfold addStructure at h
  obtain ⟨⟨i, b, c⟩, h1, h⟩ := bind_ok.1 h
  dsimp only at h
  split at h
  · rename_i ieml key _ _
    obtain ⟨p, hp, h⟩ := bind_ok.1 h
    rw [← pure_ok.1 h, fsGet_fsSet, if_neg]
    rintro rfl
    cases t with
    | none =>
      unfold normalizeKey at h1
      simp [normalizeIeml] at h1
      cases h1
    | some s =>
      obtain ⟨k, hk, e⟩ := normalizeKey_sText h1
      simp only [Option.some.injEq] at e
      subst e
      exact hq s _ rfl hk hp
  · cases h

theorem dropDescriptor_file {t : Str} {b : Bool} (h : removeDescriptor x fs (some t) none none none b = .ok fs') :
    ∃ k p, keyText x t = .ok k ∧ pathOf x k true b = .ok p ∧ ∀ q, fsGet fs' q = if q = p then none else fsGet fs q := by
  unfold removeDescriptor at h
  simp only at h
  obtain ⟨⟨i, a, c⟩, h1, h⟩ := bind_ok.1 h
  obtain ⟨k, hk, e⟩ := normalizeKey_keyText h1
  simp only [Prod.mk.injEq] at e
  obtain ⟨rfl, -, -⟩ := e
  simp only at h
  obtain ⟨p, hp, h⟩ := bind_ok.1 h
  refine ⟨k, p, hk, hp, fun q => ?_⟩
  cases hg : fsGet fs p with
  | none =>
    rw [hg] at h
    rw [← pure_ok.1 h]
    split
    · rename_i e; rw [e, hg]
    · rfl
  | some c =>
    rw [hg] at h
    simp only [Option.isNone_none, Bool.and_self, if_true] at h
    rw [← pure_ok.1 h, fsGet_fsRemove]

theorem dropStructure_file {t : Str} {b : Bool} (h : removeStructure x fs (some t) none none b = .ok fs') :
    ∃ k p, keyText x t = .ok k ∧ pathOf x k false b = .ok p ∧ ∀ q, fsGet fs' q = if q = p then none else fsGet fs q := by
  unfold removeStructure at h
  obtain ⟨⟨i, a, c⟩, h1, h⟩ := bind_ok.1 h
  obtain ⟨k, hk, e⟩ := normalizeKey_sText h1
  simp only at e
  subst e
  have ha : a = none := by
    have h2 := (normalizeKey_struct_iff.1 h1).2.2
    exact (normalizeStructure_iff.1 h2).2.1
  subst ha
  simp only at h
  obtain ⟨p, hp, h⟩ := bind_ok.1 h
  refine ⟨k, p, hk, hp, fun q => ?_⟩
  cases hg : fsGet fs p with
  | none =>
    rw [hg] at h
    rw [← pure_ok.1 h]
    split
    · rename_i e; rw [e, hg]
    · rfl
  | some c =>
    rw [hg] at h
    rw [← pure_ok.1 h, fsGet_fsRemove]

/-- Removing several expressions. -/
theorem dropAll_file {b : Bool} : ∀ {l : List Str} {fs : FS}, runSteps (l.flatMap (dropSteps x b)) fs = (fs', none) →
    (∀ o ∈ l, ∃ k p q, keyText x o = .ok k ∧ pathOf x k true b = .ok p ∧ pathOf x k false b = .ok q ∧ fsGet fs' p = none ∧ fsGet fs' q = none) ∧
      (∀ q, fsGet fs q = none → fsGet fs' q = none) ∧
      ∀ q, (∀ o ∈ l, ∀ k d, keyText x o = .ok k → pathOf x k d b ≠ .ok q) → fsGet fs' q = fsGet fs q
  | [], fs, h => by
    simp only [List.flatMap_nil, runSteps, Prod.mk.injEq, and_true] at h
    subst h
    exact ⟨by simp, fun _ h => h, fun _ _ => rfl⟩
  | o :: l, fs, h => by
    simp only [List.flatMap_cons, dropSteps, List.cons_append, List.nil_append] at h
    obtain ⟨f1, e1, h⟩ := runSteps_cons.1 h
    obtain ⟨f2, e2, h⟩ := runSteps_cons.1 h
    obtain ⟨k, q, hk, hq, g1⟩ := dropStructure_file e1
    obtain ⟨k', p, hk', hp, g2⟩ := dropDescriptor_file e2
    rw [hk] at hk'
    injection hk' with hk'
    subst hk'
    obtain ⟨i1, i2, i3⟩ := dropAll_file h
    refine ⟨?_, fun r hr => i2 r ?_, fun r hr => ?_⟩
    · intro o' ho
      rcases List.mem_cons.1 ho with rfl | ho
      · refine ⟨k, p, q, hk, hp, hq, i2 p ?_, i2 q ?_⟩
        · rw [g2, if_pos rfl]
        · rw [g2]
          split
          · rfl
          · rw [g1, if_pos rfl]
      · exact i1 o' ho
    · rw [g2]
      split
      · rfl
      · rw [g1]
        split
        · rfl
        · exact hr
    · rw [i3 r fun o' ho => hr o' (by simp [ho]), g2, if_neg, g1, if_neg]
      · rintro rfl; exact hr o (by simp) k false hk hq
      · rintro rfl; exact hr o (by simp) k true hk hp

theorem copySteps_file {all : FS} {old new q : Str} {ss : List (FS → Except Err FS)} (hs : copySteps x all old new = .ok ss)
    (hq : ∀ k d, keyText x new = .ok k → pathOf x k d true ≠ .ok q) :
    ∀ s ∈ ss, ∀ f f', s f = .ok f' → fsGet f' q = fsGet f q := by
  unfold copySteps at hs
  obtain ⟨sg, _, hs⟩ := bind_ok.1 hs
  obtain ⟨dg, _, hs⟩ := bind_ok.1 hs
  rw [← pure_ok.1 hs]
  intro s hm f f' h
  rcases List.mem_append.1 hm with hm | hm
  · obtain ⟨g, _, hm⟩ := List.mem_flatMap.1 hm
    obtain ⟨v, _, rfl⟩ := List.mem_map.1 hm
    refine addStructure_file h ?_
    rintro s k e hk
    injection e with e
    subst e
    exact hq k false hk
  · obtain ⟨g, _, hm⟩ := List.mem_flatMap.1 hm
    obtain ⟨v, _, rfl⟩ := List.mem_map.1 hm
    refine addDescriptor_file h ?_
    rintro s k e hk
    injection e with e
    subst e
    exact hq k true hk

/-! ### Stable keys -/

theorem pathOf_stable {k : Str} {u : Parsed} (h : x.parse k = .ok u) (e : u.text = k) (d b : Bool) : pathOf x k d b = pathOf x k d true := by
  unfold pathOf
  rw [h]
  simp only [bind, Except.bind, e, ite_self]

theorem keyText_pathOf {k : Str} (hk : k ≠ []) (h : keyText x k = .ok k) (d b : Bool) : pathOf x k d b = pathOf x k d true := by
  unfold keyText at h
  rw [if_neg hk] at h
  cases hp : x.parse k with
  | error e => rw [hp] at h; cases h
  | ok u =>
    rw [hp] at h
    injection h with h
    exact pathOf_stable hp h d b

theorem removeDescriptor_stable {k : Str} (hk : k ≠ []) (h : keyText x k = .ok k) (b : Bool) :
    removeDescriptor x fs (some k) none none none b = removeDescriptor x fs (some k) none none none true := by
  unfold removeDescriptor
  simp only [normalizeKey_part h (lang := none) (desc := none) (by simp) (by simp), bind, Except.bind, keyText_pathOf hk h true b]

theorem removeStructure_stable {k : Str} (hk : k ≠ []) (h : keyText x k = .ok k) (b : Bool) :
    removeStructure x fs (some k) none none b = removeStructure x fs (some k) none none true := by
  unfold removeStructure
  have e1 : normalizeKey x (some k) none none true true true = .ok (some k, none, none) := by
    rw [normalizeKey_struct_iff, normalizeStructure_iff]
    refine ⟨.inl rfl, normalizeIeml_some.2 h, ?_, rfl, .inl ⟨.inr (.inl rfl), rfl⟩⟩
    intro s hs
    cases hs
  rw [e1]
  simp only [bind, Except.bind, keyText_pathOf hk h false b]

/-! ### The settings of an expression -/

variable {sdb : List (Str × List Setting)} {db : List (Str × List Entry)}

theorem settingValues_ne {es : List Setting} {k a : Str} (h : settingValues es k a ≠ []) : ∃ e ∈ es, e.key = k ∧ e.attr = a := by
  by_contra hc
  apply h
  unfold settingValues
  rw [List.map_eq_nil_iff, List.filter_eq_nil_iff]
  intro e he hp
  exact hc ⟨e, he, by simpa using hp⟩

theorem SHolds.groups (h : SHolds x fs sdb) (hne : allSettings sdb ≠ []) (k : Str) : ∃ ks : List Str,
    structureGroups fs k = .ok (ks.map fun a => (a, settingValues (allSettings sdb) k a)) ∧ ks.Nodup ∧
      ∀ a, a ∈ ks ↔ settingValues (allSettings sdb) k a ≠ [] := by
  unfold structureGroups
  rw [h.getStructure hne]
  simp only [bind, Except.bind, pure, Except.pure]
  generalize hks : pySort _ _ = ks
  refine ⟨ks, ?_, ?_, fun a => ?_⟩ <;> subst hks
  · refine congrArg _ (List.map_congr_left fun g _ => ?_)
    congr 1
    unfold settingValues
    simp only [List.filter_map, List.map_map, List.filter_filter]
    congr 1
    apply List.filter_congr
    intro e _
    simpa using Bool.and_comm _ _
  · refine ((pySort_perm _ _).nodup_iff).2 ?_
    exact (dedupBy_pairwise (key := id) _).imp fun h => h
  · rw [mem_pySort, mem_dedup_id]
    simp only [List.mem_map, List.mem_filter, decide_eq_true_eq]
    constructor
    · rintro ⟨r, ⟨⟨f, hf, rfl⟩, hk⟩, rfl⟩ hn
      unfold settingValues at hn
      rw [List.map_eq_nil_iff, List.filter_eq_nil_iff] at hn
      exact hn f hf (by simpa using hk)
    · intro hn
      obtain ⟨f, hf, rfl, rfl⟩ := settingValues_ne hn
      exact ⟨(f.key, f.attr, f.value), ⟨⟨f, hf, rfl⟩, rfl⟩, rfl⟩

/-- The values of the flags are written as this program writes them. -/
def FlagsPlain (es : List Setting) : Prop := ∀ e ∈ es, e.attr ≠ c!"inhibition" → e.value = c!"True" ∨ e.value = c!"False"

theorem addSetting_args {k a v : Str} (hkt : keyText x k = .ok k) (hf : (Setting.mk k a v).Fits)
    (hv : a ≠ c!"inhibition" → v = c!"True" ∨ v = c!"False") :
    normalizeKey x (some k) (some a) (some v) true false true = .ok (some k, some a, some v) := by
  unfold normalizeKey
  rw [normalizeIeml_some.2 hkt]
  have ha := hf.attr
  have hn : normalizeStructure (some a) (some v) = .ok (some a, some v) := by
    simp only [structureKeys, List.mem_cons, List.not_mem_nil, or_false] at ha
    rcases ha with rfl | rfl | rfl
    · have hi := hf.inhibition rfl
      rw [normalizeStructure_iff]
      have hg : Given (some v) := ⟨v, rfl, (inhibition_word hi).2.2⟩
      exact ⟨fun s e _ => by injection e with e; subst e; decide, rfl, .inr (.inl ⟨hg, rfl, hi, rfl⟩)⟩
    · rcases hv (by decide) with rfl | rfl <;> decide +kernel
    · rcases hv (by decide) with rfl | rfl <;> decide +kernel
  have ht : truthy (some a) = true := by
    simp only [structureKeys, List.mem_cons, List.not_mem_nil, or_false] at ha
    rcases ha with rfl | rfl | rfl <;> rfl
  simp only [if_true, hn, ht]
  rfl

theorem SHolds.addValues {k p a : Str} (hkt : keyText x k = .ok k) (hp : pathOf x k false true = .ok p) :
    ∀ (vs : List Str) {fs : FS} {sdb : List (Str × List Setting)}, SHolds x fs sdb →
    (∀ v ∈ vs, (Setting.mk k a v).Fits ∧ (a ≠ c!"inhibition" → v = c!"True" ∨ v = c!"False")) →
    ∃ fs' sdb', vs.foldlM (fun fs v => addStructure x fs (some k) (some a) (some v)) fs = .ok fs' ∧ SHolds x fs' sdb' ∧
      Keeps (c!".desc") fs fs' ∧ ∀ k' a', settingValues (allSettings sdb') k' a' =
        if k' = k ∧ a' = a then settingValues (allSettings sdb) k a ++ vs else settingValues (allSettings sdb) k' a'
  | [], fs, sdb, h, _ => ⟨fs, sdb, rfl, h, .refl _ _, fun k' a' => by
      split
      · rename_i hm; obtain ⟨rfl, rfl⟩ := hm; simp
      · rfl⟩
  | v :: vs, fs, sdb, h, hv => by
    obtain ⟨hf, hb⟩ := hv v (by simp)
    obtain ⟨f1, s1, e1, h1, w1⟩ := h.addSetting hp (addSetting_args hkt hf hb) hf
    obtain ⟨f2, s2, e2, h2, k2, w2⟩ := SHolds.addValues hkt hp vs h1 fun w hw => hv w (by simp [hw])
    refine ⟨f2, s2, ?_, h2, (addStructure_keeps e1).trans k2, fun k' a' => ?_⟩
    · rw [List.foldlM_cons, e1]; exact e2
    · rw [w2, w1, w1]
      by_cases hm : k' = k ∧ a' = a
      · simp [hm]
      · simp [hm]

theorem SHolds.addGroups {k p : Str} (vals : Str → List Str) (hkt : keyText x k = .ok k) (hp : pathOf x k false true = .ok p) :
    ∀ (ks : List Str) {fs : FS} {sdb : List (Str × List Setting)}, SHolds x fs sdb → ks.Nodup →
    (∀ a ∈ ks, ∀ v ∈ vals a, (Setting.mk k a v).Fits ∧ (a ≠ c!"inhibition" → v = c!"True" ∨ v = c!"False")) →
    ∃ fs' sdb', ks.foldlM (fun fs a => (vals a).foldlM (fun fs v => addStructure x fs (some k) (some a) (some v)) fs) fs = .ok fs' ∧
      SHolds x fs' sdb' ∧ Keeps (c!".desc") fs fs' ∧ ∀ k' a', settingValues (allSettings sdb') k' a' =
        if k' = k ∧ a' ∈ ks then settingValues (allSettings sdb) k a' ++ vals a' else settingValues (allSettings sdb) k' a'
  | [], fs, sdb, h, _, _ => ⟨fs, sdb, rfl, h, .refl _ _, fun k' a' => by simp⟩
  | a :: ks, fs, sdb, h, hn, hv => by
    rw [List.nodup_cons] at hn
    obtain ⟨f1, s1, e1, h1, k1, w1⟩ := SHolds.addValues (a := a) hkt hp (vals a) h (hv a (by simp))
    obtain ⟨f2, s2, e2, h2, k2, w2⟩ := SHolds.addGroups vals hkt hp ks h1 hn.2 fun b hb => hv b (by simp [hb])
    refine ⟨f2, s2, ?_, h2, k1.trans k2, fun k' a' => ?_⟩
    · rw [List.foldlM_cons, e1]; exact e2
    · rw [w2, w1, w1]
      by_cases hk' : k' = k
      · subst hk'
        by_cases hm : a' ∈ ks
        · have : a' ≠ a := fun e => hn.1 (e ▸ hm)
          simp [hm, this]
        · by_cases ha : a' = a
          · subst ha; simp [hm]
          · simp [hm, ha]
      · simp [hk']

/-! ### Moving -/

/-- A text that the parser returns as it is, and that fits between quotation marks. -/
structure Ext.Keeps (x : Ext) (k : Str) : Prop where
  ne : k ≠ []
  text : keyText x k = .ok k
  line : OneLine k ∧ NoQuote k

theorem Ext.Keeps.path {k : Str} (h : x.Keeps k) (d : Bool) : ∃ p, pathOf x k d true = .ok p := by
  have ht := h.text
  unfold keyText at ht
  rw [if_neg h.ne] at ht
  unfold pathOf
  cases hp : x.parse k with
  | error e => rw [hp] at ht; cases ht
  | ok u => exact ⟨_, rfl⟩

theorem storedValues_fits (h : Holds x fs db) {k l d v : Str} (hv : v ∈ storedValues (allEntries db) k l d) :
    OneLine v ∧ l ∈ languages ∧ d ∈ descriptorClasses := by
  unfold storedValues at hv
  obtain ⟨e, he, rfl⟩ := List.mem_map.1 hv
  obtain ⟨hm, hp⟩ := List.mem_filter.1 he
  have hp : e.key = k ∧ e.lang = l ∧ e.desc = d := by simpa using hp
  obtain ⟨-, rfl, rfl⟩ := hp
  obtain ⟨F, hF, he⟩ := List.mem_flatMap.1 (show e ∈ db.flatMap (·.2) from hm)
  have := h.fits F hF e he
  exact ⟨this.value, this.lang, this.desc⟩

theorem settingValues_fits (h : SHolds x fs sdb) {k a v : Str} (hv : v ∈ settingValues (allSettings sdb) k a) :
    Setting.mk k a v ∈ allSettings sdb ∧ (Setting.mk k a v).Fits := by
  unfold settingValues at hv
  obtain ⟨e, he, rfl⟩ := List.mem_map.1 hv
  obtain ⟨hm, hp⟩ := List.mem_filter.1 he
  have hp : e.key = k ∧ e.attr = a := by simpa using hp
  obtain ⟨rfl, rfl⟩ := hp
  obtain ⟨F, hF, he'⟩ := List.mem_flatMap.1 (show e ∈ sdb.flatMap (·.2) from hm)
  exact ⟨hm, h.fits F hF e he'⟩

theorem oneLine_strip {v : Str} (h : OneLine v) : OneLine (strip v) := ⟨fun hm => h.1 (strip_mem hm), fun hm => h.2 (strip_mem hm)⟩

/-- Copying one expression. -/
theorem copy_run {all : FS} {db₀ : List (Str × List Entry)} {sdb₀ : List (Str × List Setting)} (h₀ : Holds x all db₀) (g₀ : SHolds x all sdb₀)
    (hne : allSettings sdb₀ ≠ []) (hfl : FlagsPlain (allSettings sdb₀)) {old new : Str} (hnew : x.Keeps new)
    (h : Holds x fs db) (g : SHolds x fs sdb) :
    ∃ ss fs' db' sdb', copySteps x all old new = .ok ss ∧ runSteps ss fs = (fs', none) ∧ Holds x fs' db' ∧ SHolds x fs' sdb' ∧
      (∀ k l d, storedValues (allEntries db') k l d = storedValues (allEntries db) k l d ++
        if k = new then cleaned (storedValues (allEntries db₀) old l d) else []) ∧
      ∀ k a, settingValues (allSettings sdb') k a = settingValues (allSettings sdb) k a ++
        if k = new then settingValues (allSettings sdb₀) old a else [] := by
  obtain ⟨p, hp⟩ := hnew.path true
  obtain ⟨q, hq⟩ := hnew.path false
  obtain ⟨ks, hks, nks, mks⟩ := h₀.groups old
  obtain ⟨as, has, nas, mas⟩ := g₀.groups hne old
  obtain ⟨f1, s1, e1, g1, k1, w1⟩ := SHolds.addGroups (fun a => settingValues (allSettings sdb₀) old a) hnew.text hq as g nas (by
    intro a _ v hv
    obtain ⟨i1, i2⟩ := settingValues_fits g₀ hv
    exact ⟨⟨hnew.line, i2.attr, i2.value, i2.inhibition⟩, hfl _ i1⟩)
  obtain ⟨f2, d2, e2, h2, k2, w2⟩ := Holds.addGroups (fun l d => storedValues (allEntries db₀) old l d) hnew.text hp hnew.line.1 ks
    (h.keep k1) nks (by
      rintro ⟨l, d⟩ hg
      obtain ⟨v, hv⟩ := List.exists_mem_of_ne_nil _ ((mks l d).1 hg)
      obtain ⟨_, i1, i2⟩ := storedValues_fits h₀ hv
      exact ⟨i1, i2, fun v hv => oneLine_strip (storedValues_fits h₀ hv).1⟩)
  refine ⟨_, f2, d2, s1, by unfold copySteps; rw [has, hks]; rfl, ?_, h2, g1.keep k2, fun k l d => ?_, fun k a => ?_⟩
  · refine runSteps_append.2 ⟨f1, ?_, ?_⟩
    · rw [List.flatMap_map]
      exact (runSteps_flatMap (fun a => settingValues (allSettings sdb₀) old a)
        (fun a v fs => addStructure x fs (some new) (some a) (some v))).2 e1
    · rw [List.flatMap_map]
      exact (runSteps_flatMap (fun g : Str × Str => storedValues (allEntries db₀) old g.1 g.2)
        (fun g v fs => addDescriptor x fs (some new) (some g.1) (some g.2) v)).2 e2
  · rw [w2]
    by_cases hk : k = new
    · subst hk
      by_cases hm : (l, d) ∈ ks
      · simp [hm]
      · have : storedValues (allEntries db₀) old l d = [] := by
          by_contra hc
          exact hm ((mks l d).2 hc)
        simp [hm, this, cleaned]
    · simp [hk]
  · rw [w1]
    by_cases hk : k = new
    · subst hk
      by_cases hm : a ∈ as
      · simp [hm]
      · have : settingValues (allSettings sdb₀) old a = [] := by
          by_contra hc
          exact hm ((mas a).2 hc)
        simp [hm, this]
    · simp [hk]

/-- Copying several expressions. -/
theorem copies_run {all : FS} {db₀ : List (Str × List Entry)} {sdb₀ : List (Str × List Setting)} (h₀ : Holds x all db₀) (g₀ : SHolds x all sdb₀)
    (hne : allSettings sdb₀ ≠ []) (hfl : FlagsPlain (allSettings sdb₀)) : ∀ (m : List (Str × Str)), (∀ e ∈ m, x.Keeps e.2) →
    ∀ {fs : FS} {db : List (Str × List Entry)} {sdb : List (Str × List Setting)}, Holds x fs db → SHolds x fs sdb →
    ∃ ss fs' db' sdb', m.mapM (fun e => copySteps x all e.1 e.2) = .ok ss ∧ runSteps ss.flatten fs = (fs', none) ∧ Holds x fs' db' ∧
      SHolds x fs' sdb' ∧
      (∀ k l d, storedValues (allEntries db') k l d = storedValues (allEntries db) k l d ++
        m.flatMap fun e => if k = e.2 then cleaned (storedValues (allEntries db₀) e.1 l d) else []) ∧
      ∀ k a, settingValues (allSettings sdb') k a = settingValues (allSettings sdb) k a ++
        m.flatMap fun e => if k = e.2 then settingValues (allSettings sdb₀) e.1 a else []
  | [], _, fs, db, sdb, h, g => ⟨[], fs, db, sdb, rfl, rfl, h, g, by simp, by simp⟩
  | e :: m, hm, fs, db, sdb, h, g => by
    obtain ⟨s1, f1, d1, t1, e1, r1, h1, g1, v1, w1⟩ := copy_run h₀ g₀ hne hfl (old := e.1) (hm e (by simp)) h g
    obtain ⟨s2, f2, d2, t2, e2, r2, h2, g2, v2, w2⟩ := copies_run h₀ g₀ hne hfl m (fun e he => hm e (by simp [he])) h1 g1
    refine ⟨s1 :: s2, f2, d2, t2, ?_, ?_, h2, g2, fun k l d => ?_, fun k a => ?_⟩
    · rw [List.mapM_cons, e1, e2]; rfl
    · rw [List.flatten_cons]
      exact runSteps_append.2 ⟨f1, r1, r2⟩
    · rw [v2, v1, List.flatMap_cons, List.append_assoc]
    · rw [w2, w1, List.flatMap_cons, List.append_assoc]

/-- Removing one expression. -/
theorem drop_run {b : Bool} {old : Str} (hold : x.Keeps old) (h : Holds x fs db) (g : SHolds x fs sdb) :
    ∃ fs' db' sdb', runSteps (dropSteps x b old) fs = (fs', none) ∧ Holds x fs' db' ∧ SHolds x fs' sdb' ∧
      (∀ k l d, (pathOf x k true true = pathOf x old true true → storedValues (allEntries db') k l d = []) ∧
        (pathOf x k true true ≠ pathOf x old true true → storedValues (allEntries db') k l d = storedValues (allEntries db) k l d)) ∧
      ∀ k a, (pathOf x k false true = pathOf x old false true → settingValues (allSettings sdb') k a = []) ∧
        (pathOf x k false true ≠ pathOf x old false true → settingValues (allSettings sdb') k a = settingValues (allSettings sdb) k a) := by
  obtain ⟨p, hp⟩ := hold.path true
  obtain ⟨q, hq⟩ := hold.path false
  obtain ⟨f1, s1, e1, g1, w1⟩ := g.removeAll hold.text hq
  obtain ⟨f2, d2, e2, h2, -, -, v2⟩ := (h.keep (removeStructure_keeps e1)).removeDescriptor_all hold.text hp
  refine ⟨f2, d2, s1, ?_, h2, g1.keep (removeDescriptor_keeps e2), fun k l d => ?_, fun k a => ?_⟩
  · unfold dropSteps
    refine runSteps_cons.2 ⟨f1, ?_, runSteps_cons.2 ⟨f2, ?_, rfl⟩⟩
    · show removeStructure x fs (some old) none none b = .ok f1
      rw [removeStructure_stable hold.ne hold.text]; exact e1
    · show removeDescriptor x f1 (some old) none none none b = .ok f2
      rw [removeDescriptor_stable hold.ne hold.text]; exact e2
  · rw [hp, v2]
    exact ⟨fun e => if_pos e, fun e => if_neg e⟩
  · rw [hq, w1]
    exact ⟨fun e => if_pos e, fun e => if_neg e⟩

/-- Removing several expressions. -/
theorem drops_run {b : Bool} : ∀ (os : List Str), (∀ o ∈ os, x.Keeps o) →
    ∀ {fs : FS} {db : List (Str × List Entry)} {sdb : List (Str × List Setting)}, Holds x fs db → SHolds x fs sdb →
    ∃ fs' db' sdb', runSteps (os.flatMap (dropSteps x b)) fs = (fs', none) ∧ Holds x fs' db' ∧ SHolds x fs' sdb' ∧
      (∀ k l d, ((∃ o ∈ os, pathOf x k true true = pathOf x o true true) → storedValues (allEntries db') k l d = []) ∧
        ((∀ o ∈ os, pathOf x k true true ≠ pathOf x o true true) → storedValues (allEntries db') k l d = storedValues (allEntries db) k l d)) ∧
      ∀ k a, ((∃ o ∈ os, pathOf x k false true = pathOf x o false true) → settingValues (allSettings sdb') k a = []) ∧
        ((∀ o ∈ os, pathOf x k false true ≠ pathOf x o false true) →
          settingValues (allSettings sdb') k a = settingValues (allSettings sdb) k a)
  | [], _, fs, db, sdb, h, g => ⟨fs, db, sdb, rfl, h, g, by simp, by simp⟩
  | o :: os, ho, fs, db, sdb, h, g => by
    obtain ⟨f1, d1, t1, r1, h1, g1, v1, w1⟩ := drop_run (b := b) (ho o (by simp)) h g
    obtain ⟨f2, d2, t2, r2, h2, g2, v2, w2⟩ := drops_run (b := b) os (fun o h => ho o (by simp [h])) h1 g1
    refine ⟨f2, d2, t2, ?_, h2, g2, fun k l d => ⟨?_, ?_⟩, fun k a => ⟨?_, ?_⟩⟩
    · rw [List.flatMap_cons]
      exact runSteps_append.2 ⟨f1, r1, r2⟩
    · rintro ⟨o', ho', e⟩
      by_cases hin : ∃ o ∈ os, pathOf x k true true = pathOf x o true true
      · exact (v2 k l d).1 hin
      · rcases List.mem_cons.1 ho' with rfl | ho'
        · rw [(v2 k l d).2 fun o ho e => hin ⟨o, ho, e⟩, (v1 k l d).1 e]
        · exact absurd ⟨o', ho', e⟩ hin
    · intro hn
      rw [(v2 k l d).2 fun o ho => hn o (by simp [ho]), (v1 k l d).2 (hn o (by simp))]
    · rintro ⟨o', ho', e⟩
      by_cases hin : ∃ o ∈ os, pathOf x k false true = pathOf x o false true
      · exact (w2 k a).1 hin
      · rcases List.mem_cons.1 ho' with rfl | ho'
        · rw [(w2 k a).2 fun o ho e => hin ⟨o, ho, e⟩, (w1 k a).1 e]
        · exact absurd ⟨o', ho', e⟩ hin
    · intro hn
      rw [(w2 k a).2 fun o ho => hn o (by simp [ho]), (w1 k a).2 (hn o (by simp))]

/-- Removing and copying expressions in turn, when no new expression has the file of an old one. -/
theorem moves_run {all : FS} {db₀ : List (Str × List Entry)} {sdb₀ : List (Str × List Setting)} (h₀ : Holds x all db₀) (g₀ : SHolds x all sdb₀)
    (hne : allSettings sdb₀ ≠ []) (hfl : FlagsPlain (allSettings sdb₀)) : ∀ (m : List (Str × Str)), (∀ e ∈ m, x.Keeps e.1 ∧ x.Keeps e.2) →
    (∀ e ∈ m, ∀ e' ∈ m, ∀ d, pathOf x e.2 d true ≠ pathOf x e'.1 d true) →
    ∀ {fs : FS} {db : List (Str × List Entry)} {sdb : List (Str × List Setting)}, Holds x fs db → SHolds x fs sdb →
    ∃ ss fs' db' sdb', m.mapM (fun e => do return dropSteps x true e.1 ++ (← copySteps x all e.1 e.2)) = .ok ss ∧
      runSteps ss.flatten fs = (fs', none) ∧ Holds x fs' db' ∧ SHolds x fs' sdb' ∧
      (∀ k l d, ((∃ o ∈ m.map (·.1), pathOf x k true true = pathOf x o true true) → storedValues (allEntries db') k l d = []) ∧
        ((∀ o ∈ m.map (·.1), pathOf x k true true ≠ pathOf x o true true) → storedValues (allEntries db') k l d =
          storedValues (allEntries db) k l d ++ m.flatMap fun e => if k = e.2 then cleaned (storedValues (allEntries db₀) e.1 l d) else [])) ∧
      ∀ k a, ((∃ o ∈ m.map (·.1), pathOf x k false true = pathOf x o false true) → settingValues (allSettings sdb') k a = []) ∧
        ((∀ o ∈ m.map (·.1), pathOf x k false true ≠ pathOf x o false true) → settingValues (allSettings sdb') k a =
          settingValues (allSettings sdb) k a ++ m.flatMap fun e => if k = e.2 then settingValues (allSettings sdb₀) e.1 a else [])
  | [], _, _, fs, db, sdb, h, g => ⟨[], fs, db, sdb, rfl, rfl, h, g, by simp, by simp⟩
  | e :: m, hm, hd, fs, db, sdb, h, g => by
    obtain ⟨f1, d1, t1, r1, h1, g1, v1, w1⟩ := drop_run (b := true) (hm e (by simp)).1 h g
    obtain ⟨s2, f2, d2, t2, e2, r2, h2, g2, v2, w2⟩ := copy_run h₀ g₀ hne hfl (old := e.1) (hm e (by simp)).2 h1 g1
    obtain ⟨s3, f3, d3, t3, e3, r3, h3, g3, v3, w3⟩ := moves_run h₀ g₀ hne hfl m (fun e he => hm e (by simp [he]))
      (fun e he e' he' => hd e (by simp [he]) e' (by simp [he'])) h2 g2
    have other : ∀ {γ : Type} {k : Str} {d : Bool} (F : Str × Str → List γ), pathOf x k d true = pathOf x e.1 d true →
        (if k = e.2 then F e else []) = [] ∧ (m.flatMap fun e => if k = e.2 then F e else []) = [] := by
      intro γ k d F hk
      refine ⟨if_neg ?_, List.flatMap_eq_nil_iff.2 fun e' he' => if_neg ?_⟩
      · rintro rfl; exact hd e (by simp) e (by simp) d hk
      · rintro rfl; exact hd e' (by simp [he']) e (by simp) d hk
    refine ⟨(dropSteps x true e.1 ++ s2) :: s3, f3, d3, t3, ?_, ?_, h3, g3, fun k l d => ⟨?_, ?_⟩, fun k a => ⟨?_, ?_⟩⟩
    · rw [List.mapM_cons, e2, e3]; rfl
    · rw [List.flatten_cons]
      exact runSteps_append.2 ⟨f2, runSteps_append.2 ⟨f1, r1, r2⟩, r3⟩
    · rintro ⟨o', ho', hk⟩
      by_cases hin : ∃ o ∈ m.map (·.1), pathOf x k true true = pathOf x o true true
      · exact (v3 k l d).1 hin
      · rw [List.map_cons] at ho'
        rcases List.mem_cons.1 ho' with rfl | ho'
        · obtain ⟨o1, o2⟩ := other (fun e => cleaned (storedValues (allEntries db₀) e.1 l d)) hk
          rw [(v3 k l d).2 fun o ho e => hin ⟨o, ho, e⟩, v2, (v1 k l d).1 hk, o2, o1]
          rfl
        · exact absurd ⟨o', ho', hk⟩ hin
    · intro hn
      rw [(v3 k l d).2 fun o ho => hn o (by rw [List.map_cons]; exact List.mem_cons_of_mem _ ho), v2,
        (v1 k l d).2 (hn e.1 (by simp)), List.flatMap_cons, List.append_assoc]
    · rintro ⟨o', ho', hk⟩
      by_cases hin : ∃ o ∈ m.map (·.1), pathOf x k false true = pathOf x o false true
      · exact (w3 k a).1 hin
      · rw [List.map_cons] at ho'
        rcases List.mem_cons.1 ho' with rfl | ho'
        · obtain ⟨o1, o2⟩ := other (fun e => settingValues (allSettings sdb₀) e.1 a) hk
          rw [(w3 k a).2 fun o ho e => hin ⟨o, ho, e⟩, w2, (w1 k a).1 hk, o2, o1]
          rfl
        · exact absurd ⟨o', ho', hk⟩ hin
    · intro hn
      rw [(w3 k a).2 fun o ho => hn o (by rw [List.map_cons]; exact List.mem_cons_of_mem _ ho), w2,
        (w1 k a).2 (hn e.1 (by simp)), List.flatMap_cons, List.append_assoc]

end Verif
