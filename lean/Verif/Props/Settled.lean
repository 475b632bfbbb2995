import Verif.Props.Maintenance
import Verif.Props.Simplify
import Verif.Props.PhraseJunctions

/-
C87: which expressions `normalize_database.py` moves and where; a second run moves nothing more.
-/

namespace Verif
open Script

/-- The new text of an expression that is read without decorations: for a word, the text of its simplification if there is one; otherwise
the text of the expression. -/
def NewText (s t : Str) : Prop :=
  (∃ w w', uslRead s = .ok (.word w, []) ∧ simplifyWord w = .ok w' ∧ t = w'.text) ∨
  (∃ w e, uslRead s = .ok (.word w, []) ∧ simplifyWord w = .error e ∧ t = w.text) ∨
  ∃ u, uslRead s = .ok (u, []) ∧ (∀ w, u ≠ .word w) ∧ t = u.text

theorem normalText_new {inst : Expr → List (Str × Str) → Str} {s t : Str} :
    normalText inst s = .ok (some t) ↔ NewText s t ∨ ∃ u d ds, uslRead s = .ok (u, d :: ds) ∧ t = inst u (d :: ds) := by
  unfold normalText NewText
  cases h : uslRead s with
  | error e =>
    by_cases he : e = .cannotParse <;> simp [he]
  | ok p =>
    obtain ⟨u, ds⟩ := p
    cases ds with
    | cons d ds =>
      constructor
      · intro h'
        cases u <;> cases h' <;> exact .inr ⟨_, _, _, rfl, rfl⟩
      · rintro ((⟨w, w', h', _⟩ | ⟨w, e, h', _⟩ | ⟨u', h', _⟩) | ⟨u', d', ds', h', rfl⟩)
        · cases h'
        · cases h'
        · cases h'
        · cases h'
          cases u <;> rfl
    | nil =>
      cases u with
      | word w =>
        cases hw : simplifyWord w <;> simp [hw, eq_comm]
      | _ => simp [eq_comm]

/-- **C87** The expressions that `normalize_database.py` moves are the listed ones whose new text is another one, each once, in their order. -/
theorem C87_targets {inst : Expr → List (Str × Str) → Str} : ∀ {keys : List Str} {m : List (Str × Str)}, toMigrate inst keys = .ok m →
    (m.map (·.1)).Sublist keys ∧
    ∀ s t, (s, t) ∈ m ↔ s ∈ keys ∧ t ≠ s ∧ (NewText s t ∨ ∃ u d ds, uslRead s = .ok (u, d :: ds) ∧ t = inst u (d :: ds))
  | [], m, h => by
    cases h
    exact ⟨List.Sublist.refl _, by simp⟩
  | k :: keys, m, h => by
    unfold toMigrate at h
    obtain ⟨o, h1, h2⟩ := bind_ok.1 h
    obtain ⟨r, h3, h4⟩ := bind_ok.1 h2
    rw [pure_ok] at h4
    obtain ⟨i1, i2⟩ := C87_targets h3
    simp only [← normalText_new] at i2 ⊢
    cases o with
    | none =>
      simp only at h4
      subst h4
      refine ⟨i1.cons _, fun s t => ?_⟩
      rw [i2, List.mem_cons]
      constructor
      · rintro ⟨a, b⟩
        exact ⟨.inr a, b⟩
      · rintro ⟨rfl | a, b, c⟩
        · rw [h1] at c
          cases c
        · exact ⟨a, b, c⟩
    | some x =>
      simp only at h4
      by_cases hx : x = k
      · rw [if_pos hx] at h4
        subst h4
        refine ⟨i1.cons _, fun s t => ?_⟩
        rw [i2, List.mem_cons]
        constructor
        · rintro ⟨a, b⟩
          exact ⟨.inr a, b⟩
        · rintro ⟨rfl | a, b, c⟩
          · rw [h1, Except.ok.injEq, Option.some.injEq] at c
            exact absurd (c.symm.trans hx) b
          · exact ⟨a, b, c⟩
      · rw [if_neg hx] at h4
        subst h4
        refine ⟨i1.cons₂ _, fun s t => ?_⟩
        rw [List.mem_cons, i2, List.mem_cons, Prod.mk.injEq]
        constructor
        · rintro (⟨rfl, rfl⟩ | ⟨a, b⟩)
          · exact ⟨.inl rfl, hx, h1⟩
          · exact ⟨.inr a, b⟩
        · rintro ⟨rfl | a, b, c⟩
          · rw [h1, Except.ok.injEq, Option.some.injEq] at c
            exact .inl ⟨rfl, c.symm⟩
          · exact .inr ⟨a, b, c⟩

/-- A word with a lexeme that says nothing moves to the word without it; a word already simple and a text that cannot be read stay. -/
example : toMigrate (fun _ _ => []) [c!"[! E:T:. ()(b.-) > E:.n.- ()]", c!"[! E:T:. ()(b.-)]", c!"b"] = .ok [(c!"[! E:T:. ()(b.-) > E:.n.- ()]", c!"[! E:T:. ()(b.-)]")] := by
  decide +kernel

/-! ### A second run -/

theorem sameActor_text {a b : Option Lexeme} (ha : ∀ x, a = some x → MadeLexeme x) (hb : ∀ x, b = some x → MadeLexeme x) (h : SameActor a b) :
    (∃ x, a = some x ∧ x.empty = false) ↔ ∃ x, b = some x ∧ x.empty = false := by
  cases a with
  | none => cases b with
    | none => simp
    | some y => cases h
  | some x => cases b with
    | none => cases h
    | some y =>
      have h : SameLexeme x y := h
      obtain ⟨p, q, rfl, hp, hq⟩ := ha x rfl
      obtain ⟨p', q', rfl, hp', hq'⟩ := hb y rfl
      have : (mkLexeme p q).empty = (mkLexeme p' q').empty := by
        unfold Lexeme.empty
        rw [samePM_empty (p := (mkLexeme p q).content) (q := (mkLexeme p' q').content) hq hq' h.content,
          samePM_empty (p := (mkLexeme p q).flexion) (q := (mkLexeme p' q').flexion) hp hp' h.flexion]
      simp [this]

/-- A word in which every entry is of use is its own simplification. -/
theorem simplify_settled {t : SType} {f : SFun Lexeme} {role : Addr} {w : WordUsl} (ok : OkFun t f) (hj : ∀ e ∈ f.items, ∀ s ∈ e.1, s ∉ junctionScripts)
    (hw : mkWord f role t = .ok w) (hv : t = .process → (∃ e ∈ f.items, HasText e) ∨ ∃ v ∈ valenceScripts, role = [v])
    (hu : ∀ e ∈ f.items, Useful f.items (role.drop t.pre.length) e) : simplifyWord w = .ok w := by
  obtain ⟨f2, w2, ⟨k1, k2, ok2, k3, k4⟩, _⟩ := simplify_core ok hj hw hv
  have hsub : ∀ e ∈ f.items, e ∈ f2.items := fun e he => (k4 e).2 ⟨he, hu e he⟩
  have hlen : f.items.length ≤ f2.items.length := ((List.subperm_of_subset (items_nodup ok).of_map hsub)).length_le
  have he : f2.items = f.items := k3.eq_of_length_le hlen
  have hff : f2 = f := by
    have e2 := fromList_back ok2
    rw [asList_items, he, ← asList_items, fromList_back ok, Except.ok.injEq, Prod.mk.injEq] at e2
    exact e2.2.symm
  subst hff
  rw [hw, Except.ok.injEq] at k2
  rw [k1, k2]

/-- The entries of the same word correspond. -/
theorem sameWord_entries {w' w : WordUsl} (h : SameWord w' w) (m' : MadeWord w') (m : MadeWord w) :
    (∀ e' ∈ w'.sfun.items, ∃ e ∈ w.sfun.items, e'.1 = e.1 ∧ (HasText e' ↔ HasText e)) ∧
    ∀ e ∈ w.sfun.items, ∃ e' ∈ w'.sfun.items, e'.1 = e.1 ∧ (HasText e' ↔ HasText e) := by
  obtain ⟨l, hp, hf⟩ := h.lexemes
  have a' := m'.actors
  have a := m.actors
  have key : ∀ e' ∈ l, ∀ e ∈ w.sfun.asList w.context, e'.1 = e.1 ∧ SameActor e'.2 e.2 → e'.1 = e.1 ∧ (HasText e' ↔ HasText e) :=
    fun e' he' e he h => ⟨h.1, sameActor_text (a' e' (hp.mem_iff.1 he')) (a e he) h.2⟩
  have cut : ∀ {e' e : RoleEntry Lexeme}, (pushAddr w'.context.pre e').1 = (pushAddr w.context.pre e).1 → e'.1 = e.1 := by
    intro e' e he
    rw [h.context] at he
    exact List.append_cancel_left he
  constructor
  · intro e' he'
    have h1 : pushAddr w'.context.pre e' ∈ l := hp.mem_iff.2 (by rw [asList_items]; exact List.mem_map_of_mem he')
    obtain ⟨e, he, hr⟩ := forall₂_mem_left hf h1
    obtain ⟨r1, r2⟩ := key _ h1 _ he hr
    rw [asList_items] at he
    obtain ⟨y, hy, rfl⟩ := List.mem_map.1 he
    exact ⟨y, hy, cut r1, r2⟩
  · intro e he
    have h1 : pushAddr w.context.pre e ∈ w.sfun.asList w.context := by rw [asList_items]; exact List.mem_map_of_mem he
    obtain ⟨e', he', hr⟩ := forall₂_mem_right hf h1
    obtain ⟨r1, r2⟩ := key _ he' _ h1 hr
    have he' := hp.mem_iff.1 he'
    rw [asList_items] at he'
    obtain ⟨y, hy, rfl⟩ := List.mem_map.1 he'
    exact ⟨y, hy, cut r1, r2⟩

/-- **C87** (part) The new text of an expression is its own new text: an expression moved by `normalize_database.py` is not moved again.  Missing: words with junctions,
decorated expressions, and the expressions whose text is not read back (`C84_violated_old_class` and the others). -/
theorem C87_settled_partial {inst : Expr → List (Str × Str) → Str} {s t : Str} {u : Expr} (h : uslRead s = .ok (u, [])) (hc : u.Clean)
    (hj : ∀ w, u = .word w → ∀ e ∈ w.sfun.asList w.context, ∀ a ∈ e.1, a ∉ junctionScripts) (ht : normalText inst s = .ok (some t)) :
    normalText inst t = .ok (some t) := by
  by_cases hw : ∃ w, u = .word w
  · obtain ⟨w, rfl⟩ := hw
    have hj := hj w rfl
    obtain ⟨l, ty, f, role, hf, hmk, ⟨x0, hrole⟩, hleg⟩ := read_readWord h hc
    have ok := fromList_shape hf
    obtain ⟨e1, e2, e3, _⟩ := mkWord_parts hmk
    rw [e1, e3] at hj
    have hji : ∀ e ∈ f.items, ∀ a ∈ e.1, a ∉ junctionScripts := by
      intro e he a ha
      refine hj (pushAddr ty.pre e) ?_ a (by simp [pushAddr, ha])
      rw [asList_items]
      exact List.mem_map_of_mem he
    -- a word read again
    have again : ∀ {f' : SFun Lexeme} {w' : WordUsl}, OkFun ty f' → mkWord f' role ty = .ok w' → (∃ x, (role, x) ∈ f'.asList ty) →
        (∀ e ∈ f'.asList ty, e ∈ f.asList ty) → ∃ w2 f2, uslRead w'.text = .ok (.word w2, []) ∧ w2.text = w'.text ∧ OkFun ty f2 ∧ mkWord f2 role ty = .ok w2 ∧
          (∀ e2 ∈ f2.items, ∃ e ∈ f'.items, e2.1 = e.1 ∧ (HasText e2 ↔ HasText e)) ∧ ∀ e ∈ f'.items, ∃ e2 ∈ f2.items, e2.1 = e.1 ∧ (HasText e2 ↔ HasText e) := by
      intro f' w' ok' hm' hr' hsub
      have hleg' : ∀ e ∈ f'.asList ty, ∃ x, e.2 = some x ∧ LegibleLexeme x := fun e he => hleg e (hsub e he)
      obtain ⟨w2, h2, hs⟩ := C62_word_partial (fromList_back ok') hm' hr' hleg'
      have made' : MadeWord w' := readWord_made ⟨_, ty, f', role, fromList_back ok', hm', hr', hleg'⟩
      have made2 : MadeWord w2 := (read_made h2).1
      have ent := sameWord_entries hs made2 made'
      obtain ⟨l2, t2, f2, role2, hf2, hm2, _⟩ := made2
      obtain ⟨p1, p2, p3, _⟩ := mkWord_parts hm2
      obtain ⟨q1, q2, q3, _⟩ := mkWord_parts hm'
      have ht2 : t2 = ty := by rw [← p3, hs.context, q3]
      have hr2 : role2 = role := by rw [← p2, hs.role, q2]
      subst ht2 hr2
      rw [p1, q1] at ent
      exact ⟨w2, f2, h2, hs.text, fromList_shape hf2, hm2, ent.1, ent.2⟩
    have fin : ∀ {w2 : WordUsl}, uslRead t = .ok (.word w2, []) → w2.text = t → (simplifyWord w2 = .ok w2 ∨ ∃ e, simplifyWord w2 = .error e) → normalText inst t = .ok (some t) := by
      intro w2 h2 ht2 hcase
      rw [normalText_new]
      rcases hcase with hc | ⟨e, hc⟩
      · exact .inl (.inl ⟨w2, w2, h2, hc, ht2.symm⟩)
      · exact .inl (.inr (.inl ⟨w2, e, h2, hc, ht2.symm⟩))
    by_cases hv : ty = .process → (∃ e ∈ f.items, HasText e) ∨ ∃ v ∈ valenceScripts, role = [v]
    · obtain ⟨f', w', ⟨h1, h2, ok', h3, h4⟩, _⟩ := simplify_core ok hji hmk hv
      have htt : t = w'.text := by
        rw [normalText_new] at ht
        rcases ht with (⟨v, v', k1, k2, rfl⟩ | ⟨v, e, k1, k2, _⟩ | ⟨u', k1, k2, _⟩) | ⟨u', d, ds, k1, _⟩ <;> rw [h] at k1
        · cases k1
          rw [h1] at k2
          cases k2
          rfl
        · cases k1
          rw [h1] at k2
          cases k2
        · cases k1
          exact absurd rfl (k2 w)
        · cases k1
      rw [asList_items] at hrole
      obtain ⟨er, her, hre⟩ := List.mem_map.1 hrole
      have hpre : role.drop ty.pre.length = er.1 := by
        have := congrArg Prod.fst hre
        simp only [pushAddr] at this
        rw [← this, List.drop_left]
      have her' : er ∈ f'.items := (h4 er).2 ⟨her, .inl (by rw [hpre])⟩
      have hsub : ∀ e ∈ f'.asList ty, e ∈ f.asList ty := by
        intro e he
        rw [asList_items] at he ⊢
        obtain ⟨y, hy, rfl⟩ := List.mem_map.1 he
        exact List.mem_map_of_mem (h3.subset hy)
      obtain ⟨w2, f2, r1, r2, ok2, hm2, c1, c2⟩ := again ok' h2 ⟨x0, by
        rw [asList_items, ← hre]
        exact List.mem_map_of_mem her'⟩ hsub
      rw [← htt] at r1 r2
      have keep : ∀ e ∈ f.items, HasText e → e ∈ f'.items := fun e he ht => (h4 e).2 ⟨he, .inr (.inl ⟨e, he, List.prefix_rfl, ht⟩)⟩
      refine fin r1 r2 (.inl (simplify_settled ok2 ?_ hm2 ?_ ?_))
      · intro e he
        obtain ⟨y, hy, q1, _⟩ := c1 e he
        rw [q1]
        exact hji y (h3.subset hy)
      · intro hty
        refine (hv hty).imp ?_ id
        rintro ⟨e, he, hx⟩
        obtain ⟨e2, he2, _, q2⟩ := c2 e (keep e he hx)
        exact ⟨e2, he2, q2.2 hx⟩
      · intro e he
        obtain ⟨y, hy, q1, q2⟩ := c1 e he
        rcases ((h4 y).1 hy).2 with k | ⟨e', he', k, kt⟩ | ⟨v, hv1, hv2⟩
        · exact .inl (by rw [q1]; exact k)
        · obtain ⟨z, hz, z1, z2⟩ := c2 e' (keep e' he' kt)
          exact .inr (.inl ⟨z, hz, by rw [q1, z1]; exact k, z2.2 kt⟩)
        · exact .inr (.inr ⟨v, hv1, by rw [q1]; exact hv2⟩)
    · have hty : ty = .process := by
        by_contra hty
        exact hv fun h => absurd h hty
      subst hty
      have hv : (∀ e ∈ f.items, ¬ HasText e) ∧ ∀ v ∈ valenceScripts, role ≠ [v] := by
        constructor
        · intro e he hx
          exact hv fun _ => .inl ⟨e, he, hx⟩
        · intro v hv1 hv2
          exact hv fun _ => .inr ⟨v, hv1, hv2⟩
      have hasp : ∀ g : SFun Lexeme, g.asList .process = g.items := by
        intro g
        rw [asList_items]
        exact (List.map_congr_left fun e _ => by simp [pushAddr, SType.pre]).trans (List.map_id _)
      have h1 := C77_blank_process hf hmk (by rw [hasp]; exact hji) (by rw [hasp]; exact hv)
      have htt : t = w.text := by
        rw [normalText_new] at ht
        rcases ht with (⟨v, v', k1, k2, rfl⟩ | ⟨v, e, k1, k2, rfl⟩ | ⟨u', k1, k2, _⟩) | ⟨u', d, ds, k1, _⟩ <;> rw [h] at k1
        · cases k1
          rw [h1] at k2
          cases k2
        · cases k1
          rfl
        · cases k1
          exact absurd rfl (k2 w)
        · cases k1
      obtain ⟨w2, f2, r1, r2, ok2, hm2, c1, c2⟩ := again ok hmk ⟨x0, hrole⟩ fun e he => he
      rw [← htt] at r1 r2
      refine fin r1 r2 (.inr ⟨_, C77_blank_process (fromList_back ok2) hm2 (by
        rw [hasp]
        intro e he
        obtain ⟨y, hy, q1, _⟩ := c1 e he
        rw [q1]
        exact hji y hy) (by
        rw [hasp]
        refine ⟨fun e he hx => ?_, hv.2⟩
        obtain ⟨y, hy, _, q2⟩ := c1 e he
        exact hv.1 y hy (q2.1 hx))⟩)
  · have hw : ∀ w, u ≠ .word w := fun w e => hw ⟨w, e⟩
    have htt : t = u.text := by
      rw [normalText_new] at ht
      rcases ht with (⟨v, v', k1, k2, rfl⟩ | ⟨v, e, k1, k2, rfl⟩ | ⟨u', k1, k2, rfl⟩) | ⟨u', d, ds, k1, _⟩ <;> rw [h] at k1 <;> cases k1
      · exact absurd rfl (hw v)
      · exact absurd rfl (hw v)
      · rfl
    obtain ⟨u', h1, h2⟩ := C84_stable_partial h hc
    rw [htt, normalText_new]
    refine .inl (.inr (.inr ⟨u', h1, ?_, ?_⟩))
    · rintro w rfl
      rcases h2 with h2 | ⟨p, m, s', _, _, _, h2, _⟩
      · cases u <;> first | exact hw _ rfl | cases h2
      · cases h2
    · rcases h2 with h2 | ⟨p, m, s', rfl, _, _, rfl, h3, _, h4⟩
      · cases u <;> cases u' <;> first | exact h2.1.symm | exact h2.text.symm | cases h2
      · rw [h4, ← h3]
        rfl

/-- **C87** (part) A second run on the new expressions finds nothing to move. -/
theorem C87_again_partial {inst : Expr → List (Str × Str) → Str} {keys : List Str} {m : List (Str × Str)} (h : toMigrate inst keys = .ok m)
    (hk : ∀ s ∈ keys, ∀ u ds, uslRead s = .ok (u, ds) → ds = [] ∧ u.Clean ∧ ∀ w, u = .word w → ∀ e ∈ w.sfun.asList w.context, ∀ a ∈ e.1, a ∉ junctionScripts) :
    toMigrate inst (m.map (·.2)) = .ok [] := by
  have hs := (C87_targets h).2
  have all : ∀ e ∈ m, normalText inst e.2 = .ok (some e.2) := by
    rintro ⟨s, t⟩ he
    obtain ⟨h1, _, h3⟩ := (hs s t).1 he
    have ht := normalText_new.2 h3
    have hr : ∃ u ds, uslRead s = .ok (u, ds) := by
      rcases h3 with (⟨v, v', k1, _⟩ | ⟨v, e, k1, _⟩ | ⟨u', k1, _⟩) | ⟨u', d, ds, k1, _⟩ <;> exact ⟨_, _, k1⟩
    obtain ⟨u, ds, hr⟩ := hr
    obtain ⟨rfl, hc, hj⟩ := hk s h1 u ds hr
    exact C87_settled_partial hr hc hj ht
  clear hs h
  induction m with
  | nil => rfl
  | cons e m ih =>
    rw [List.map_cons]
    unfold toMigrate
    rw [all e (by simp), ih fun e he => all e (by simp [he])]
    change Except.ok (if e.2 = e.2 then _ else _) = _
    rw [if_pos rfl]

/-- The word of the example above moves, and no further. -/
example : normalText (fun _ _ => []) (c!"[! E:T:. ()(b.-) > E:.n.- ()]") = .ok (some (c!"[! E:T:. ()(b.-)]")) ∧
    normalText (fun _ _ => []) (c!"[! E:T:. ()(b.-)]") = .ok (some (c!"[! E:T:. ()(b.-)]")) := by decide +kernel

end Verif
