import Verif.Lemmas.DatabaseOps

/-
Properties of key normalisation and of file names (C34, C35).
-/

namespace Verif
variable {x : Ext}

/-! ### C35: key normalisation -/

/-- An argument that is given and not empty satisfies `P`. -/
def IfGiven (a : Option Str) (P : Str → Prop) : Prop := ∀ s, a = some s → s ≠ [] → P s

/-- An argument that is given and not empty. -/
def Given (a : Option Str) : Prop := ∃ s, a = some s ∧ s ≠ []

theorem truthy_iff {a : Option Str} : truthy a = true ↔ Given a := by
  unfold Given
  match a with
  | none => simp [truthy]
  | some [] => simp [truthy]
  | some (c :: cs) => simp [truthy]

theorem ifGiven_iff {a : Option Str} {P : Str → Prop} : IfGiven a P ↔ (truthy a = true → P (a.getD [])) := by
  unfold IfGiven
  match a with
  | none => simp [truthy]
  | some [] => simp [truthy]
  | some (c :: cs) => simp [truthy]

theorem normalizeIeml_ok {ieml r : Option Str} : normalizeIeml x ieml true = .ok r ↔
    (∃ t u, ieml = some t ∧ t ≠ [] ∧ x.parse t = .ok u ∧ r = some u.text) ∨ (¬Given ieml ∧ r = ieml) := by
  unfold Given
  match ieml with
  | none => simp [normalizeIeml, eq_comm]
  | some [] => simp [normalizeIeml, eq_comm]
  | some (c :: cs) =>
    simp only [normalizeIeml, if_true]
    cases hp : x.parse (c :: cs) with
    | error e => simp [Except.map, hp]
    | ok u => simp [Except.map, hp, eq_comm]

theorem normalizeDescriptor_iff {lang desc : Option Str} {r : Option Str × Option Str} :
    normalizeDescriptor lang desc = .ok r ↔
      IfGiven lang (· ∈ languages) ∧ IfGiven desc (· ∈ descriptorClasses) ∧ r = (lang, desc) := by
  unfold normalizeDescriptor
  rw [ifGiven_iff, ifGiven_iff]
  simp only [bind, Except.bind, pure, Except.pure]
  by_cases ha : truthy lang = true <;> by_cases hb : lang.getD [] ∈ languages <;>
  by_cases hc : truthy desc = true <;> by_cases hd : desc.getD [] ∈ descriptorClasses <;>
    simp [ha, hb, hc, hd, throw, throwThe, MonadExceptOf.throw, eq_comm]

theorem guard_iff {ieml key value : Option Str} {part st : Bool} :
    (part || (ieml.isSome && truthy key && (st || truthy value))) = true ↔
      part = true ∨ (ieml ≠ none ∧ Given key ∧ (st = true ∨ Given value)) := by
  rw [← truthy_iff, ← truthy_iff]
  simp [Option.isSome_iff_ne_none, and_assoc]

/-- The result of `normalize_key` on descriptor keys. -/
theorem normalizeKey_desc_iff {ieml lang desc : Option Str} {part : Bool} {r : Option Str × Option Str × Option Str} :
    normalizeKey x ieml lang desc true part false = .ok r ↔
      (part = true ∨ (ieml ≠ none ∧ Given lang ∧ Given desc)) ∧ normalizeIeml x ieml true = .ok r.1 ∧
      IfGiven lang (· ∈ languages) ∧ IfGiven desc (· ∈ descriptorClasses) ∧ r.2 = (lang, desc) := by
  unfold normalizeKey
  have g := guard_iff (ieml := ieml) (key := lang) (value := desc) (part := part) (st := false)
  simp only [Bool.false_eq_true, false_or] at g
  rw [← g]
  cases hg : (part || (ieml.isSome && truthy lang && (false || truthy desc))) with
  | false => simp [bind, Except.bind, throw, throwThe, MonadExceptOf.throw]
  | true =>
    simp only [Bool.not_true, Bool.false_eq_true, if_false, true_and]
    cases hi : normalizeIeml x ieml true with
    | error e => simp [bind, Except.bind]
    | ok i =>
      have := normalizeDescriptor_iff (lang := lang) (desc := desc) (r := r.2)
      simp only [bind, Except.bind, pure, Except.pure]
      cases hd : normalizeDescriptor lang desc with
      | error e =>
        rw [hd] at this
        simp only [reduceCtorEq, false_iff] at this
        simp only [reduceCtorEq, false_iff]
        intro h; exact this h.2
      | ok kv =>
        rw [hd] at this
        rw [← this]
        obtain ⟨r1, r2⟩ := r
        obtain ⟨a, b⟩ := kv
        simp

/-- **C35**, descriptor keys: the arguments are accepted exactly when they are all given (or partial keys are allowed), the key
parses if it is given and not empty, and the language and the descriptor are declared ones if they are given. -/
theorem C35_descriptor_keys (ieml lang desc : Option Str) (part : Bool) :
    (∃ r, normalizeKey x ieml lang desc true part false = .ok r) ↔
      (part = true ∨ (ieml ≠ none ∧ Given lang ∧ Given desc)) ∧
      IfGiven ieml (fun t => ∃ u, x.parse t = .ok u) ∧ IfGiven lang (· ∈ languages) ∧ IfGiven desc (· ∈ descriptorClasses) := by
  simp only [normalizeKey_desc_iff, normalizeIeml_ok]
  constructor
  · rintro ⟨r, h1, h2, h3, h4, _⟩
    refine ⟨h1, ?_, h3, h4⟩
    rintro s rfl hs
    rcases h2 with ⟨t, u, e, ht, hp, _⟩ | ⟨h, _⟩
    · injection e with e; subst e; exact ⟨u, hp⟩
    · exact absurd ⟨s, rfl, hs⟩ h
  · rintro ⟨h1, h2, h3, h4⟩
    by_cases hg : Given ieml
    · obtain ⟨s, rfl, hs⟩ := hg
      obtain ⟨u, hu⟩ := h2 s rfl hs
      exact ⟨(some u.text, lang, desc), h1, .inl ⟨s, u, rfl, hs, hu, rfl⟩, h3, h4, rfl⟩
    · exact ⟨(ieml, lang, desc), h1, .inr ⟨hg, rfl⟩, h3, h4, rfl⟩

/-- **C35**: an accepted key is unchanged by a second normalisation; its expression is replaced by the text of the parsed one,
the two other components are kept. -/
theorem C35_descriptor_idempotent (hx : x.Stable) {ieml lang desc : Option Str} {part : Bool}
    {r : Option Str × Option Str × Option Str} (h : normalizeKey x ieml lang desc true part false = .ok r) :
    normalizeKey x r.1 r.2.1 r.2.2 true part false = .ok r ∧ r.2 = (lang, desc) := by
  rw [normalizeKey_desc_iff] at h
  obtain ⟨h1, h2, h3, h4, h5⟩ := h
  refine ⟨?_, h5⟩
  obtain ⟨r1, r2⟩ := r
  simp only at h2 h5
  subst h5
  rw [normalizeKey_desc_iff]
  rw [normalizeIeml_ok] at h2 ⊢
  rcases h2 with ⟨t, u, rfl, ht, hp, rfl⟩ | ⟨hg, rfl⟩
  · refine ⟨?_, ?_, h3, h4, rfl⟩
    · rcases h1 with h1 | ⟨_, h1⟩
      · exact .inl h1
      · exact .inr ⟨by simp, h1⟩
    · by_cases hu : u.text = []
      · right
        refine ⟨?_, rfl⟩
        rintro ⟨s, hs, hn⟩
        simp only [Option.some.injEq] at hs
        exact hn (hs ▸ hu)
      · exact .inl ⟨u.text, u, rfl, hu, hx t u hp, rfl⟩
  · exact ⟨h1, .inr ⟨hg, rfl⟩, h3, h4, rfl⟩

/-- The texts read as booleans. -/
def ReadsBool (v : Str) (b : Bool) : Prop := boolText v = .ok (if b then c!"True" else c!"False")

theorem boolText_iff {v r : Str} : boolText v = .ok r ↔ ∃ b, ReadsBool v b ∧ r = if b then c!"True" else c!"False" := by
  unfold ReadsBool
  constructor
  · intro h
    by_cases h1 : boolText v = .ok (c!"True")
    · refine ⟨true, h1, ?_⟩
      rw [h] at h1; injection h1
    · have : boolText v = .ok (c!"False") := by
        unfold boolText at h h1 ⊢
        simp only at h h1 ⊢
        split at h
        · rename_i hc; rw [if_pos hc] at h1; exact absurd rfl h1
        · split at h
          · rename_i hc hd; rw [if_neg hc, if_pos hd]
          · cases h
      refine ⟨false, this, ?_⟩
      rw [h] at this; injection this
  · rintro ⟨b, h, rfl⟩; exact h

theorem normalizeStructure_iff {key value : Option Str} {r : Option Str × Option Str} :
    normalizeStructure key value = .ok r ↔
      IfGiven key (· ∈ structureKeys) ∧ r.1 = key ∧
      ((¬Given value ∨ key = none ∨ key = some []) ∧ r.2 = value ∨
        Given value ∧ key = some (c!"inhibition") ∧ value.getD [] ∈ inhibitableRelations ∧ r.2 = value ∨
        Given value ∧ (key = some (c!"is_root") ∨ key = some (c!"is_ignored")) ∧
          ∃ b, ReadsBool (value.getD []) b ∧ r.2 = some (if b then c!"True" else c!"False")) := by
  unfold normalizeStructure
  rw [ifGiven_iff]
  obtain ⟨r1, r2⟩ := r
  simp only [bind, Except.bind, pure, Except.pure]
  by_cases hk : truthy key = true
  · by_cases hm : key.getD [] ∈ structureKeys
    · have hk' : key = some (c!"inhibition") ∨ key = some (c!"is_root") ∨ key = some (c!"is_ignored") := by
        cases key with
        | none => simp [truthy] at hk
        | some s =>
          simp only [Option.getD_some, structureKeys, List.mem_cons, List.not_mem_nil, or_false] at hm
          rcases hm with rfl | rfl | rfl <;> simp
      have hkn : ¬(key = none ∨ key = some []) := by rcases hk' with rfl | rfl | rfl <;> simp
      rw [← truthy_iff]
      by_cases hv : truthy value = true
      · simp only [hk, hv, hm, List.contains_eq_mem, decide_true, Bool.not_true, Bool.and_false, Bool.false_eq_true, if_false,
          Bool.true_and, forall_true_left, true_and, not_true, false_or, hkn, false_and]
        rcases hk' with rfl | hk'
        · have c1 : ((some (c!"inhibition") : Option Str) == some (c!"inhibition")) = true := by decide
          have c2 : ((some (c!"inhibition") : Option Str) == some (c!"is_root") || (some (c!"inhibition") : Option Str) == some (c!"is_ignored")) = false := by decide
          simp only [c1, c2, if_true, decide_eq_true_eq]
          by_cases hi : value.getD [] ∈ inhibitableRelations
          · simp only [hi, if_true]
            have e1 : (some (c!"inhibition") : Option Str) ≠ some (c!"is_root") := by decide
            have e2 : (some (c!"inhibition") : Option Str) ≠ some (c!"is_ignored") := by decide
            simp only [e1, e2, Bool.and_false, Bool.false_eq_true, or_self, if_false, false_and, or_false, true_and,
              Except.ok.injEq, Prod.mk.injEq]
            exact and_congr eq_comm eq_comm
          · simp [hi]
        · have c1 : (key == some (c!"inhibition")) = false := by rcases hk' with rfl | rfl <;> decide
          have c1' : ¬ key = some (c!"inhibition") := by rcases hk' with rfl | rfl <;> decide
          have c2 : (key == some (c!"is_root") || key == some (c!"is_ignored")) = true := by rcases hk' with rfl | rfl <;> decide
          simp only [c1, c1', c2, Bool.false_eq_true, if_false, false_and, false_or, hk', true_and]
          have hb := fun r => boolText_iff (v := value.getD []) (r := r)
          cases ht : boolText (value.getD []) with
          | error e =>
            simp only [hv, Bool.and_true, if_true, Except.map, reduceCtorEq, false_iff, not_and]
            rintro _ ⟨b, h, _⟩
            have := (hb _).2 ⟨b, h, rfl⟩
            rw [ht] at this; cases this
          | ok u =>
            obtain ⟨b, h, rfl⟩ := (hb _).1 ht
            simp only [hv, Bool.and_true, if_true, Except.map, Except.ok.injEq, Prod.mk.injEq]
            constructor
            · rintro ⟨h1, rfl⟩; exact ⟨h1.symm, b, h, rfl⟩
            · rintro ⟨h1, b', h', rfl⟩
              refine ⟨h1.symm, ?_⟩
              unfold ReadsBool at h h'
              rw [h] at h'; injection h' with h'; rw [h']
      · simp [hk, hv, hm, eq_comm]
    · simp [hk, hm, throw, throwThe, MonadExceptOf.throw]
  · have hk' : key = none ∨ key = some [] := by
      match key with
      | none => exact .inl rfl
      | some [] => exact .inr rfl
      | some (c :: cs) => exact absurd rfl hk
    have c1 : ¬(key = some (c!"inhibition")) := by rcases hk' with rfl | rfl <;> decide
    have c2 : ¬(key = some (c!"is_root") ∨ key = some (c!"is_ignored")) := by rcases hk' with rfl | rfl <;> decide
    have c1' : (key == some (c!"inhibition")) = false := by rcases hk' with rfl | rfl <;> decide
    have c2' : (key == some (c!"is_root") || key == some (c!"is_ignored")) = false := by rcases hk' with rfl | rfl <;> decide
    simp [hk, hk', c1, c2, c1', c2', eq_comm]

/-! Boolean words -/

/-- `true` or `false` in any case, with JSON white space around. -/
def BoolWord (v : Str) (b : Bool) : Prop :=
  ∃ pre w post, v = pre ++ w ++ post ∧ (∀ c ∈ pre ++ post, jsonSpace c = true) ∧
    w.map lowerAscii = if b then c!"true" else c!"false"

theorem dropWhile_all {P : Char → Bool} : ∀ {s t : Str}, (∀ c ∈ s, P c = true) → (s ++ t).dropWhile P = t.dropWhile P
  | [], _, _ => rfl
  | c :: s, t, h => by
    rw [List.cons_append, List.dropWhile_cons, h c (by simp), if_pos rfl, dropWhile_all fun d hd => h d (by simp [hd])]

theorem dropWhile_keep {P : Char → Bool} {c : Char} {s : Str} (h : P c = false) : (c :: s).dropWhile P = c :: s := by
  rw [List.dropWhile_cons, h]; rfl

theorem takeWhile_all {P : Char → Bool} : ∀ s : Str, ∀ c ∈ s.takeWhile P, P c = true
  | [], c, h => by cases h
  | d :: s, c, h => by
    rw [List.takeWhile_cons] at h
    split at h
    · rename_i hd
      rcases List.mem_cons.1 h with rfl | h
      · exact hd
      · exact takeWhile_all s c h
    · cases h

/-- Trimming to a word. -/
theorem trim_eq {P : Char → Bool} {s : Str} {a b : Char} {m : Str} (ha : P a = false) (hb : P b = false) :
    ((s.dropWhile P).reverse.dropWhile P).reverse = a :: (m ++ [b]) ↔
      ∃ pre post, s = pre ++ (a :: (m ++ [b])) ++ post ∧ ∀ c ∈ pre ++ post, P c = true := by
  constructor
  · intro h
    have h1 : (s.dropWhile P).reverse.dropWhile P = (a :: (m ++ [b])).reverse := by rw [← h, List.reverse_reverse]
    have h2 := List.takeWhile_append_dropWhile (p := P) (l := (s.dropWhile P).reverse)
    rw [h1] at h2
    have h3 : s.dropWhile P = (a :: (m ++ [b])) ++ ((s.dropWhile P).reverse.takeWhile P).reverse := by
      have h2' := congrArg List.reverse h2
      rw [List.reverse_append, List.reverse_reverse, List.reverse_reverse] at h2'
      exact h2'.symm
    refine ⟨s.takeWhile P, ((s.dropWhile P).reverse.takeWhile P).reverse, ?_, ?_⟩
    · rw [List.append_assoc, ← h3, List.takeWhile_append_dropWhile]
    · intro c hc
      rcases List.mem_append.1 hc with hc | hc
      · exact takeWhile_all _ c hc
      · exact takeWhile_all _ c (List.mem_reverse.1 hc)
  · rintro ⟨pre, post, rfl, h⟩
    rw [List.append_assoc, dropWhile_all fun c hc => h c (by simp [hc]), List.cons_append, dropWhile_keep ha]
    have : (a :: (m ++ [b] ++ post)).reverse = post.reverse ++ b :: (m.reverse ++ [a]) := by simp
    rw [this, dropWhile_all fun c hc => h c (by simp [List.mem_reverse.1 hc]), dropWhile_keep hb]
    simp

theorem jsonSpace_lower (c : Char) : jsonSpace (lowerAscii c) = jsonSpace c := by
  unfold lowerAscii
  split
  · rename_i h
    have h1 : c.toNat < 91 := Nat.lt_succ_of_le (Char.le_def.1 h.2)
    have h2 : 65 ≤ c.toNat := Char.le_def.1 h.1
    have e1 : jsonSpace c = false := by
      unfold jsonSpace
      have : c ≠ ' ' ∧ c ≠ '\t' ∧ c ≠ '\n' ∧ c ≠ '\r' := by
        refine ⟨?_, ?_, ?_, ?_⟩ <;> (rintro rfl; revert h2; decide)
      simp [this]
    rw [e1]
    have h3 : ∀ n, n < 26 → jsonSpace (Char.ofNat (n + 65 + 32)) = false := by decide
    have h4 := h3 (c.toNat - 65) (by omega)
    rw [Nat.sub_add_cancel h2] at h4
    exact h4
  · rfl

theorem trim_word {v : Str} {a b : Char} {m : Str} (ha : jsonSpace a = false) (hb : jsonSpace b = false) :
    (((v.map lowerAscii).dropWhile jsonSpace).reverse.dropWhile jsonSpace).reverse = a :: (m ++ [b]) ↔
      ∃ pre w post, v = pre ++ w ++ post ∧ (∀ c ∈ pre ++ post, jsonSpace c = true) ∧ w.map lowerAscii = a :: (m ++ [b]) := by
  rw [trim_eq ha hb]
  constructor
  · rintro ⟨pre, post, e, h⟩
    obtain ⟨l1, l2, rfl, e1, rfl⟩ := List.map_eq_append_iff.1 e
    obtain ⟨l3, l4, rfl, rfl, e2⟩ := List.map_eq_append_iff.1 e1
    refine ⟨l3, l4, l2, rfl, fun c hc => ?_, e2⟩
    rw [← jsonSpace_lower]
    apply h
    rw [← List.map_append]
    exact List.mem_map_of_mem hc
  · rintro ⟨pre, w, post, rfl, h, e⟩
    refine ⟨pre.map lowerAscii, post.map lowerAscii, by simp [e], fun c hc => ?_⟩
    rw [← List.map_append] at hc
    obtain ⟨d, hd, rfl⟩ := List.mem_map.1 hc
    rw [jsonSpace_lower]; exact h d hd

/-- The boolean texts. -/
theorem readsBool_iff {v : Str} {b : Bool} : ReadsBool v b ↔ BoolWord v b := by
  have ht := trim_word (v := v) (a := 't') (b := 'e') (m := c!"ru") (by decide) (by decide)
  have hf := trim_word (v := v) (a := 'f') (b := 'e') (m := c!"als") (by decide) (by decide)
  unfold ReadsBool BoolWord boolText
  cases b with
  | true =>
    simp only [if_true]
    have ht' : _ ↔ ∃ pre w post, v = pre ++ w ++ post ∧ (∀ c ∈ pre ++ post, jsonSpace c = true) ∧
      w.map lowerAscii = c!"true" := ht
    rw [← ht']
    split
    · rename_i h; exact ⟨fun _ => h, fun _ => rfl⟩
    · rename_i h
      constructor
      · intro h'
        split at h'
        · exact absurd h' (by decide)
        · cases h'
      · intro h'; exact absurd h' h
  | false =>
    simp only [Bool.false_eq_true, if_false]
    have hf' : _ ↔ ∃ pre w post, v = pre ++ w ++ post ∧ (∀ c ∈ pre ++ post, jsonSpace c = true) ∧
      w.map lowerAscii = c!"false" := hf
    rw [← hf']
    split
    · rename_i h
      constructor
      · intro h'; exact absurd h' (by decide)
      · intro h'; rw [h] at h'; exact absurd h' (by decide)
    · split
      · rename_i h; exact ⟨fun _ => h, fun _ => rfl⟩
      · rename_i h
        constructor
        · intro h'; cases h'
        · intro h'; exact absurd h' h

/-- The result of `normalize_key` on structure keys. -/
theorem normalizeKey_struct_iff {ieml key value : Option Str} {part : Bool} {r : Option Str × Option Str × Option Str} :
    normalizeKey x ieml key value true part true = .ok r ↔
      (part = true ∨ (ieml ≠ none ∧ Given key)) ∧ normalizeIeml x ieml true = .ok r.1 ∧
      normalizeStructure key value = .ok r.2 := by
  unfold normalizeKey
  have g := guard_iff (ieml := ieml) (key := key) (value := value) (part := part) (st := true)
  simp only [true_or, and_true] at g
  rw [← g]
  cases hg : (part || (ieml.isSome && truthy key && (true || truthy value))) with
  | false => simp [bind, Except.bind, throw, throwThe, MonadExceptOf.throw]
  | true =>
    simp only [Bool.not_true, Bool.false_eq_true, if_false, true_and, if_true]
    obtain ⟨r1, r2, r3⟩ := r
    cases hi : normalizeIeml x ieml true with
    | error e => simp [bind, Except.bind]
    | ok i =>
      simp only [bind, Except.bind, pure, Except.pure]
      cases hd : normalizeStructure key value with
      | error e => simp
      | ok kv => obtain ⟨a, b⟩ := kv; simp

/-- **C35**, structure keys: the arguments are accepted exactly when key and expression are given (or partial keys are
allowed), the expression parses if it is given and not empty, the structure key is a declared one if it is given, and a given
value is an inhibitable relation for `inhibition`, a boolean for `is_root` and `is_ignored`. -/
theorem C35_structure_keys (ieml key value : Option Str) (part : Bool) :
    (∃ r, normalizeKey x ieml key value true part true = .ok r) ↔
      (part = true ∨ (ieml ≠ none ∧ Given key)) ∧ IfGiven ieml (fun t => ∃ u, x.parse t = .ok u) ∧
      IfGiven key (· ∈ structureKeys) ∧
      (key = some (c!"inhibition") → IfGiven value (· ∈ inhibitableRelations)) ∧
      (key = some (c!"is_root") ∨ key = some (c!"is_ignored") → IfGiven value fun v => ∃ b, BoolWord v b) := by
  simp only [normalizeKey_struct_iff, normalizeIeml_ok, normalizeStructure_iff, readsBool_iff]
  constructor
  · rintro ⟨r, h1, h2, h3, _, h4⟩
    refine ⟨h1, ?_, h3, ?_, ?_⟩
    · rintro s rfl hs
      rcases h2 with ⟨t, u, e, ht, hp, _⟩ | ⟨h, _⟩
      · injection e with e; subst e; exact ⟨u, hp⟩
      · exact absurd ⟨s, rfl, hs⟩ h
    · rintro rfl s rfl hs
      rcases h4 with ⟨h4, _⟩ | ⟨_, _, h4, _⟩ | ⟨_, h4, _⟩
      · rcases h4 with h4 | h4 | h4
        · exact absurd ⟨s, rfl, hs⟩ h4
        · cases h4
        · exact absurd h4 (by decide)
      · exact h4
      · exact absurd h4 (by decide)
    · rintro hk s rfl hs
      rcases h4 with ⟨h4, _⟩ | ⟨_, h4, _⟩ | ⟨_, _, b, h4, _⟩
      · rcases h4 with h4 | h4 | h4
        · exact absurd ⟨s, rfl, hs⟩ h4
        · rcases hk with rfl | rfl <;> cases h4
        · rcases hk with rfl | rfl <;> exact absurd h4 (by decide)
      · rcases hk with rfl | rfl <;> exact absurd h4 (by decide)
      · exact ⟨b, h4⟩
  · rintro ⟨h1, h2, h3, h4, h5⟩
    have hi : ∃ i, (∃ t u, ieml = some t ∧ t ≠ [] ∧ x.parse t = .ok u ∧ i = some u.text) ∨ ¬Given ieml ∧ i = ieml := by
      by_cases hg : Given ieml
      · obtain ⟨s, rfl, hs⟩ := hg
        obtain ⟨u, hu⟩ := h2 s rfl hs
        exact ⟨some u.text, .inl ⟨s, u, rfl, hs, hu, rfl⟩⟩
      · exact ⟨ieml, .inr ⟨hg, rfl⟩⟩
    obtain ⟨i, hi⟩ := hi
    by_cases hv : Given value
    · by_cases hk : Given key
      · obtain ⟨s, rfl, hs⟩ := hk
        obtain ⟨v, rfl, hv⟩ := hv
        have hm := h3 s rfl hs
        simp only [structureKeys, List.mem_cons, List.not_mem_nil, or_false] at hm
        by_cases hin : s = c!"inhibition"
        · subst hin
          exact ⟨(i, _, some v), h1, hi, h3, rfl, .inr (.inl ⟨⟨v, rfl, hv⟩, rfl, h4 rfl v rfl hv, rfl⟩)⟩
        · have hm' : some s = some (c!"is_root") ∨ some s = some (c!"is_ignored") := by
            rcases hm with rfl | rfl | rfl
            · exact absurd rfl hin
            · exact .inl rfl
            · exact .inr rfl
          obtain ⟨b, hb⟩ := h5 hm' v rfl hv
          exact ⟨(i, _, _), h1, hi, h3, rfl, .inr (.inr ⟨⟨v, rfl, hv⟩, hm', b, hb, rfl⟩)⟩
      · refine ⟨(i, key, value), h1, hi, h3, rfl, .inl ⟨.inr ?_, rfl⟩⟩
        match key with
        | none => exact .inl rfl
        | some [] => exact .inr rfl
        | some (c :: cs) => exact absurd ⟨_, rfl, by simp⟩ hk
    · exact ⟨(i, key, value), h1, hi, h3, rfl, .inl ⟨.inl hv, rfl⟩⟩

theorem boolWord_str (b : Bool) : BoolWord (if b then c!"True" else c!"False") b := by
  cases b
  · exact ⟨[], c!"False", [], by simp, by simp, by decide⟩
  · exact ⟨[], c!"True", [], by simp, by simp, by decide⟩

/-- **C35**, structure keys: an accepted key is unchanged by a second normalisation. -/
theorem C35_structure_idempotent (hx : x.Stable) {ieml key value : Option Str} {part : Bool}
    {r : Option Str × Option Str × Option Str} (h : normalizeKey x ieml key value true part true = .ok r) :
    normalizeKey x r.1 r.2.1 r.2.2 true part true = .ok r := by
  rw [normalizeKey_struct_iff] at h ⊢
  obtain ⟨h1, h2, h3⟩ := h
  obtain ⟨r1, r2, r3⟩ := r
  simp only at h2 h3 ⊢
  rw [normalizeStructure_iff] at h3 ⊢
  obtain ⟨h3, h4, h5⟩ := h3
  simp only at h4 h5 ⊢
  subst h4
  rw [normalizeIeml_ok] at h2 ⊢
  refine ⟨?_, ?_, h3, trivial, ?_⟩
  · rcases h1 with h1 | ⟨h0, h1⟩
    · exact .inl h1
    · refine .inr ⟨?_, h1⟩
      rcases h2 with ⟨t, u, rfl, ht, hp, rfl⟩ | ⟨hg, rfl⟩
      · simp
      · exact h0
  · rcases h2 with ⟨t, u, rfl, ht, hp, rfl⟩ | ⟨hg, rfl⟩
    · by_cases hu : u.text = []
      · right
        refine ⟨?_, rfl⟩
        rintro ⟨s, hs, hn⟩
        simp only [Option.some.injEq] at hs
        exact hn (hs ▸ hu)
      · exact .inl ⟨u.text, u, rfl, hu, hx t u hp, rfl⟩
    · exact .inr ⟨hg, rfl⟩
  · rcases h5 with ⟨h5, rfl⟩ | ⟨h5, h6, h7, rfl⟩ | ⟨h5, h6, b, h7, rfl⟩
    · exact .inl ⟨h5, trivial⟩
    · exact .inr (.inl ⟨h5, h6, h7, trivial⟩)
    · refine .inr (.inr ⟨⟨_, rfl, by cases b <;> decide⟩, h6, b, ?_, rfl⟩)
      exact readsBool_iff.2 (boolWord_str b)

/-! ### C34: file names -/

/-- The last component of a path. -/
def baseName (p : Str) : Str := (p.reverse.takeWhile (· != '/')).reverse

/-- The folder part of a path, with its final separator. -/
def dirName (p : Str) : Str := (p.reverse.dropWhile (· != '/')).reverse

theorem base_join {p q : Str} (h : '/' ∉ q) : baseName (p ++ '/' :: q) = q ∧ dirName (p ++ '/' :: q) = p ++ ['/'] := by
  have h1 : ∀ c ∈ q.reverse, (c != '/') = true := by
    intro c hc
    simp only [bne_iff_ne, ne_eq]
    rintro rfl; exact h (List.mem_reverse.1 hc)
  have e : (p ++ '/' :: q).reverse = q.reverse ++ '/' :: p.reverse := by simp
  unfold baseName dirName
  rw [e]
  constructor
  · rw [List.takeWhile_append_of_pos h1]
    simp
  · rw [dropWhile_all h1, dropWhile_keep (by simp)]
    simp

theorem joinPath_base {p q : Str} (h : '/' ∉ q) : baseName (joinPath p q) = q ∧
    dirName (joinPath p q) = joinPath p [] := by
  unfold joinPath
  split
  · rename_i hs
    unfold endsWith at hs
    rw [List.isSuffixOf_iff_suffix] at hs
    obtain ⟨p', rfl⟩ := hs
    have := base_join (p := p') h
    simpa using this
  · exact base_join h

/-- The name of the file of a parsed expression, and its folder. -/
theorem pathOf_parts {t : Str} {u : Parsed} {desc : Bool} {p : Str} (hu : x.parse t = .ok u) (hs : '/' ∉ filenameOf x u.text)
    (h : pathOf x t desc true = .ok p) :
    baseName p = filenameOf x u.text ++ (if desc then c!".desc" else c!".ieml") ∧
    dirName p = joinPath (joinPath (joinPath u.kind.folder.1 (if u.singular then c!"singular" else c!"paradigm"))
      ((filenameOf x u.text).take u.kind.folder.2)) [] := by
  unfold pathOf at h
  rw [hu] at h
  simp only [bind, Except.bind, pure, Except.pure, if_true] at h
  injection h with h
  subst h
  apply joinPath_base
  simp only [List.mem_append, not_or]
  exact ⟨hs, by split <;> decide⟩

/-- What the file names assume of the expressions and of the digests: no separator and no `|` in a text, digests of ten
characters without separator. -/
structure Ext.Names (x : Ext) : Prop where
  text : ∀ t u, x.parse t = .ok u → '/' ∉ u.text ∧ '|' ∉ u.text
  digest : ∀ t, (x.digest t).length = 10 ∧ '/' ∉ x.digest t

theorem filenameOf_slash (hx : x.Names) {t : Str} {u : Parsed} (hu : x.parse t = .ok u) : '/' ∉ filenameOf x u.text := by
  unfold filenameOf
  split
  · simp only [List.mem_append, List.mem_cons, not_or]
    exact ⟨fun h => (hx.text t u hu).1 (List.mem_of_mem_take h), by decide, (hx.digest _).2⟩
  · exact (hx.text t u hu).1

theorem filenameOf_inj {a b : Str} (ha : '|' ∉ a) (hb : '|' ∉ b)
    (h : filenameOf x a = filenameOf x b) :
    a = b ∨ (100 < a.length ∧ 100 < b.length ∧ a.take 89 = b.take 89 ∧ x.digest a = x.digest b) := by
  unfold filenameOf at h
  have key : ∀ a : Str, '|' ∈ a.take (100 - 10 - 1) ++ '|' :: x.digest a := fun a => by simp
  split at h <;> split at h
  · rename_i h1 h2
    right
    have hl : (a.take (100 - 10 - 1)).length = (b.take (100 - 10 - 1)).length := by
      simp only [List.length_take]; omega
    have := List.append_inj h hl
    refine ⟨h1, h2, this.1, ?_⟩
    have := this.2
    injection this
  · exact absurd (h ▸ key a) hb
  · exact absurd (h.symm ▸ key b) ha
  · exact .inl h

/-- **C34**: two expressions with different texts have different files, unless both texts are longer than a hundred characters,
start with the same 89 characters and have the same ten first characters of their digests. -/
theorem C34_separate (hx : x.Names) {t s : Str} {u v : Parsed} {d d' : Bool} {p : Str} (hu : x.parse t = .ok u)
    (hv : x.parse s = .ok v) (h1 : pathOf x t d true = .ok p) (h2 : pathOf x s d' true = .ok p) :
    d = d' ∧ (u.text = v.text ∨
      (100 < u.text.length ∧ 100 < v.text.length ∧ u.text.take 89 = v.text.take 89 ∧ x.digest u.text = x.digest v.text)) := by
  have a := (pathOf_parts hu (filenameOf_slash hx hu) h1).1
  have b := (pathOf_parts hv (filenameOf_slash hx hv) h2).1
  rw [a] at b
  have hdd : d = d' := by
    have hb := congrArg (fun l : Str => l.reverse.head?) b
    cases d <;> cases d' <;> simp at hb ⊢
  subst hdd
  exact ⟨rfl, filenameOf_inj (hx.text t u hu).2 (hx.text s v hv).2 (List.append_cancel_right b)⟩

/-- **C34**: file names have at most 105 characters. -/
theorem C34_length (hx : x.Names) {t : Str} {u : Parsed} {d : Bool} {p : Str} (hu : x.parse t = .ok u)
    (h : pathOf x t d true = .ok p) : (baseName p).length ≤ 105 := by
  rw [(pathOf_parts hu (filenameOf_slash hx hu) h).1, List.length_append]
  have h1 : (filenameOf x u.text).length ≤ 100 := by
    unfold filenameOf
    split
    · have := (hx.digest u.text).1
      simp only [List.length_append, List.length_take, List.length_cons]; omega
    · omega
  have h2 : (if d then (c!".desc" : Str) else c!".ieml").length = 5 := by cases d <;> rfl
  omega

theorem filenameOf_take (x : Ext) (t : Str) {n : Nat} (h : n ≤ 89) : (filenameOf x t).take n = t.take n := by
  unfold filenameOf
  split
  · rename_i hl
    rw [List.take_append_of_le_length (by simp only [List.length_take]; omega), List.take_take]
    congr 1; omega
  · rfl

/-- **C34**: the folder is the one of the kind (morpheme, polymorpheme, lexeme, word), of the singular or plural expressions,
and of the leading characters of the text: none for morphemes, five, eight and ten for the others. -/
theorem C34_folder (hx : x.Names) {t s : Str} {u v : Parsed} {d d' : Bool} {p q : Str} (hu : x.parse t = .ok u)
    (hv : x.parse s = .ok v) (h1 : pathOf x t d true = .ok p) (h2 : pathOf x s d' true = .ok q)
    (hk : u.kind = v.kind) (hs : u.singular = v.singular) (hl : u.kind = .morpheme ∨ u.text.take 10 = v.text.take 10) :
    dirName p = dirName q := by
  rw [(pathOf_parts hu (filenameOf_slash hx hu) h1).2, (pathOf_parts hv (filenameOf_slash hx hv) h2).2, hs, hk]
  have hn : v.kind.folder.2 ≤ 10 := by cases v.kind <;> decide
  rw [filenameOf_take x u.text (by omega), filenameOf_take x v.text (by omega)]
  congr 2
  rcases hl with hl | hl
  · rw [← hk, hl]; rfl
  · have := congrArg (List.take v.kind.folder.2) hl
    rw [List.take_take, List.take_take, Nat.min_eq_left hn] at this
    exact this

/-! ### A demonstration -/

/-- A parser that accepts the texts without `/` and `|`, and a digest that counts. -/
def namesDemo : Ext where
  parse t := if t = [] ∨ '/' ∈ t ∨ '|' ∈ t then .error .cannotParse else .ok ⟨t, if 150 < t.length then .word else .morpheme, false⟩
  digest t := List.replicate 9 '0' ++ [if t.length % 2 = 0 then 'a' else 'b']

theorem namesDemo_names : namesDemo.Names := by
  constructor
  · intro t u h
    simp only [namesDemo] at h
    split at h
    · cases h
    · rename_i hn
      injection h with h
      subst h
      exact ⟨fun h => hn (.inr (.inl h)), fun h => hn (.inr (.inr h))⟩
  · intro t
    simp only [namesDemo]
    split <;> exact ⟨by simp, by decide⟩

theorem namesDemo_stable : namesDemo.Stable := by
  intro t u h
  simp only [namesDemo] at h ⊢
  split at h
  · cases h
  · rename_i hn
    injection h with h
    subst h
    rw [if_neg hn]

/-- Two long texts with the same 89 first characters and different digests: different files in the same folder, both names of
a hundred and five characters. -/
example : ∃ p q, pathOf namesDemo (List.replicate 200 'a') true true = .ok p ∧
    pathOf namesDemo (List.replicate 201 'a') true true = .ok q ∧ p ≠ q ∧ dirName p = dirName q ∧
    (baseName p).length ≤ 105 := by
  have a : namesDemo.parse (List.replicate 200 'a') = .ok ⟨List.replicate 200 'a', .word, false⟩ := by decide +kernel
  have b : namesDemo.parse (List.replicate 201 'a') = .ok ⟨List.replicate 201 'a', .word, false⟩ := by decide +kernel
  obtain ⟨p, hp⟩ : ∃ p, pathOf namesDemo (List.replicate 200 'a') true true = .ok p := by
    unfold pathOf; rw [a]; exact ⟨_, rfl⟩
  obtain ⟨q, hq⟩ : ∃ q, pathOf namesDemo (List.replicate 201 'a') true true = .ok q := by
    unfold pathOf; rw [b]; exact ⟨_, rfl⟩
  refine ⟨p, q, hp, hq, ?_, C34_folder namesDemo_names a b hp hq rfl rfl (.inr (by decide +kernel)),
    C34_length namesDemo_names a hp⟩
  rintro rfl
  rcases (C34_separate namesDemo_names a b hp hq).2 with h | h
  · exact absurd (congrArg List.length h) (by decide +kernel)
  · exact absurd h.2.2.2 (by decide +kernel)

/-- The keys accepted and refused. -/
example : normalizeKey namesDemo (some (c!"U:")) (some (c!"is_root")) (some (c!" TRUE")) true false true =
    .ok (some (c!"U:"), some (c!"is_root"), some (c!"True")) := by decide +kernel

example : normalizeKey namesDemo (some (c!"U:")) (some (c!"is_root")) (some (c!"1")) true false true = .error .valueError := by
  decide +kernel

example : ∃ r, normalizeKey namesDemo (some (c!"U:")) (some (c!"fr")) (some (c!"tags")) true false false = .ok r :=
  (C35_descriptor_keys _ _ _ _).2 ⟨.inr ⟨by simp, ⟨_, rfl, by decide⟩, ⟨_, rfl, by decide⟩⟩,
    fun s hs _ => by injection hs with hs; subst hs; exact ⟨_, rfl⟩,
    fun s hs _ => by injection hs with hs; subst hs; decide, fun s hs _ => by injection hs with hs; subst hs; decide⟩

example : ¬∃ r, normalizeKey namesDemo (some (c!"U:")) (some (c!"de")) (some (c!"tags")) true false false = .ok r := by
  rw [C35_descriptor_keys]
  exact fun h => absurd (h.2.2.1 _ rfl (by decide)) (by decide)

end Verif
