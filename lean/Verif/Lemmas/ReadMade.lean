import Verif.Props.UslErrors
import Verif.Lemmas.ReadRole

/-
What the reader of USLs returns: polymorphemes, lexemes and words made by the constructors from readable scripts.
-/

namespace Verif
open Script

/-- The result, if there is one, satisfies `P`. -/
def Gives {β : Type} (P : β → Prop) (x : Except Err β) : Prop := ∀ b, x = .ok b → P b

namespace Gives
variable {β γ : Type} {P : β → Prop} {Q : γ → Prop}

theorem ok {b : β} (h : P b) : Gives P (.ok b) := by rintro _ ⟨⟩; exact h

theorem err (e : Err) : Gives P (.error e : Except Err β) := by rintro _ ⟨⟩

theorem bind {x : Except Err β} {f : β → Except Err γ} (hx : Gives P x) (hf : ∀ b, P b → Gives Q (f b)) : Gives Q (x >>= f) := by
  intro c h
  obtain ⟨b, h1, h2⟩ := bind_ok.1 h
  exact hf b (hx b h1) c h2

end Gives

/-- A polymorpheme made by the constructor from buildable scripts. -/
def MadePM (p : PM) : Prop := ∃ cs gs, p = mkPM cs gs ∧ (∀ x ∈ cs, WF x) ∧ ∀ g ∈ gs, ∀ x ∈ g.1, WF x

/-- A lexeme made by the constructor from such polymorphemes. -/
def MadeLexeme (x : Lexeme) : Prop := ∃ p q, x = mkLexeme p q ∧ MadePM p ∧ MadePM q

/-- A word made by the constructor from such lexemes. -/
def MadeWord (w : WordUsl) : Prop := ∃ l t f role, fromList l = .ok (t, f) ∧ mkWord f role t = .ok w ∧
  (∀ e ∈ l, ∀ x, e.2 = some x → MadeLexeme x) ∧ ∀ e ∈ l, ∀ a ∈ e.1, ∃ s, WF s ∧ a = s.str

/-- The role of a word is the address of one of its lexemes. -/
def RoleFilled (w : WordUsl) : Prop := ∃ x, (w.role, some x) ∈ w.sfun.asList w.context

/-- What is read. -/
def MadeExpr : Expr → Prop
  | .script s => WF s
  | .pm p => MadePM p
  | .lexeme x => MadeLexeme x
  | .word w => MadeWord w ∧ RoleFilled w

theorem madePM_nil : MadePM (mkPM [] []) := ⟨[], [], rfl, by simp, by simp⟩

theorem MadePM.parts {p : PM} (h : MadePM p) : (∀ x ∈ p.constant, WF x) ∧ ∀ g ∈ p.groups, ∀ x ∈ g.1, WF x := by
  obtain ⟨cs, gs, rfl, h1, h2⟩ := h
  constructor
  · intro x hx
    have hx : x ∈ (if (shownC cs).isEmpty then [.null 0] else shownC cs) := hx
    split at hx
    · rw [List.mem_singleton] at hx
      subst hx
      exact .null (Nat.zero_le _)
    · exact h1 x (mem_shownC.1 hx).1
  · intro g hg x hx
    obtain ⟨g', hg', _, he⟩ := mem_shownG (gs := gs) hg
    exact h2 g' hg' x ((he x).1 hx).1

theorem gives_parse (s : Str) : Gives WF (parseScript s) := by
  intro x h
  rcases parse_outcome s with ⟨y, h1, h2⟩ | h1 | h1 <;> rw [h] at h1 <;> cases h1
  exact h2

theorem gives_morphemes (ts : List UTok) : Gives (fun r => ∀ x ∈ r.1, WF x) (takeMorphemes ts) := by
  induction ts with
  | nil => exact .ok (by simp)
  | cons t ts ih =>
    cases t
    case morpheme s =>
      refine .bind (gives_parse s) fun m hm => .bind ih fun r hr => .ok ?_
      simpa using ⟨hm, hr⟩
    all_goals exact .ok (by simp)

theorem gives_group (ds : Str) (ts : List UTok) : Gives (fun r => ∀ x ∈ r.1.1, WF x) (takeGroup ds ts) := by
  unfold takeGroup
  split
  · refine .bind (gives_morphemes _) fun r hr => ?_
    split
    · exact .ok hr
    · exact .err _
  · exact .err _

theorem gives_groups (n : Nat) (ts : List UTok) : Gives (fun r => ∀ g ∈ r.1, ∀ x ∈ g.1, WF x) (takeGroups n ts) := by
  induction n generalizing ts with
  | zero => exact .ok (by simp)
  | succ n ih =>
    unfold takeGroups
    split
    · rename_i h
      cases h
      refine .bind (gives_group _ _) fun g hg => .bind (ih _) fun r hr => .ok ?_
      intro g' hg'
      rcases List.mem_cons.1 hg' with rfl | hg'
      · exact hg
      · exact hr g' hg'
    · exact .ok (by simp)

theorem gives_parts (ts : List UTok) : Gives (fun r => (∀ x ∈ r.1.1, WF x) ∧ ∀ g ∈ r.1.2, ∀ x ∈ g.1, WF x) (takePMParts ts) := by
  refine .bind (gives_morphemes ts) fun a ha => .bind (gives_groups _ _) fun b hb => ?_
  split
  · exact .err _
  · exact .ok ⟨ha, hb⟩

theorem gives_paren (ts : List UTok) : Gives (fun r => ∀ p, r.1 = some p → MadePM p) (takeParen ts) := by
  unfold takeParen
  split
  · exact .ok (by simp)
  · refine .bind (gives_parts _) fun r hr => ?_
    split
    · refine .ok ?_
      rintro p ⟨⟩
      exact ⟨_, _, rfl, hr⟩
    · exact .err _

theorem gives_last (ts : List UTok) : Gives (fun r => MadePM r.1) (takeLast ts) := by
  refine .bind (gives_paren ts) fun r hr => ?_
  split
  · rename_i p hp
    exact .ok (hr p hp)
  · exact .err _

theorem gives_lexeme (ts : List UTok) : Gives (fun r => MadeLexeme r.1) (takeLexeme ts) := by
  refine .bind (gives_paren ts) fun a ha => ?_
  split
  · refine .bind (gives_paren _) fun b hb => ?_
    split
    · rename_i h1 h2 _
      refine .bind (gives_last _) fun r hr => .ok ⟨_, _, rfl, ⟨_, _, rfl, ?_, ?_⟩, hb _ h2⟩
      · intro x hx
        rcases List.mem_append.1 hx with hx | hx
        · exact (ha _ h1).parts.1 x hx
        · exact hr.parts.1 x hx
      · intro g hg
        rcases List.mem_append.1 hg with hg | hg
        · exact (ha _ h1).parts.2 g hg
        · exact hr.parts.2 g hg
    · rename_i h2 _
      exact .bind (gives_last _) fun r hr => .ok ⟨_, _, rfl, hr, hb _ h2⟩
    · exact .bind (gives_last _) fun r hr => .ok ⟨_, _, rfl, hr, madePM_nil⟩
    · rename_i h1 h2 _
      exact .ok ⟨_, _, rfl, ha _ h1, hb _ h2⟩
    · rename_i h2 _
      exact .ok ⟨_, _, rfl, madePM_nil, hb _ h2⟩
    · exact .err _
  · refine .ok ⟨_, _, rfl, ?_, madePM_nil⟩
    cases ha' : a.1 with
    | none => exact madePM_nil
    | some p => exact ha p ha'

/-- What is read for an element of a word. -/
def MadeEntry (e : RoleEntry Lexeme) : Prop := (∃ x, e.2 = some x ∧ MadeLexeme x) ∧ ∀ a ∈ e.1, ∃ s, WF s ∧ a = s.str

theorem gives_positioned (ts : List UTok) : Gives (fun r => MadeEntry r.1) (takePositioned ts) := by
  refine .bind (gives_morphemes ts) fun a ha => ?_
  split
  · refine .bind (gives_lexeme _) fun x hx => .ok ⟨?_, ?_⟩
    · exact ⟨_, rfl, hx⟩
    · intro b hb
      obtain ⟨s, hs, rfl⟩ := List.mem_map.1 hb
      exact ⟨s, ha s hs, rfl⟩
  · exact .err _

theorem gives_marked (ts : List UTok) : Gives (fun r => MadeEntry r.1.2) (takeMarked ts) := by
  unfold takeMarked
  split <;> exact .bind (gives_positioned _) fun e he => .ok he

theorem gives_more (n : Nat) (ts : List UTok) : Gives (fun r => ∀ e ∈ r.1, MadeEntry e.2) (takeMore n ts) := by
  induction n generalizing ts with
  | zero => exact .ok (by simp)
  | succ n ih =>
    unfold takeMore
    split
    · rename_i h
      cases h
      refine .bind (gives_marked _) fun e he => .bind (ih _) fun r hr => .ok ?_
      intro e' he'
      rcases List.mem_cons.1 he' with rfl | he'
      · exact he
      · exact hr e' he'
    · exact .ok (by simp)

theorem marked_mem : ∀ (l : List (Bool × RoleEntry Lexeme)) (r : Option Addr) {a : Addr},
    l.foldl (fun r e => if e.1 then some e.2.1 else r) r = some a → r = some a ∨ ∃ e ∈ l, e.2.1 = a
  | [], r, a, h => .inl h
  | e :: l, r, a, h => by
    rw [List.foldl_cons] at h
    rcases marked_mem l _ h with h | ⟨e', he', h⟩
    · split at h
      · injection h with h
        exact .inr ⟨e, by simp, h⟩
      · exact .inl h
    · exact .inr ⟨e', by simp [he'], h⟩

theorem gives_wordOf {l : List (Bool × RoleEntry Lexeme)} (h : ∀ e ∈ l, MadeEntry e.2) : Gives (fun w => MadeWord w ∧ RoleFilled w) (wordOf l) := by
  unfold wordOf
  split
  · exact .err _
  · exact .err _
  · rename_i role hr
    intro w hw
    obtain ⟨f, h1, h2⟩ := bind_ok.1 hw
    dsimp only at h2
    split at h2
    · cases h2
    · refine ⟨⟨_, f.1, f.2, _, h1, h2, ?_, ?_⟩, ?_⟩
      · intro e he x hx
        obtain ⟨e', he', rfl⟩ := List.mem_map.1 he
        obtain ⟨y, hy, hm⟩ := (h e' he').1
        rw [hy, Option.some.injEq] at hx
        exact hx ▸ hm
      · intro e he a ha
        obtain ⟨e', he', rfl⟩ := List.mem_map.1 he
        exact (h e' he').2 a ha
      · rcases marked_mem l none hr with h0 | ⟨e, he, h0⟩
        · cases h0
        · obtain ⟨x, hx, _⟩ := (h e he).1
          refine ⟨x, mkWord_role h1 (List.mem_map.2 ⟨e, he, ?_⟩) h2⟩
          exact Prod.ext h0 hx

theorem gives_word (ts : List UTok) : Gives (fun r => MadeWord r.1 ∧ RoleFilled r.1) (takeWord ts) := by
  unfold takeWord
  refine .bind (gives_marked _) fun a ha => .bind (gives_more _ _) fun r hr => ?_
  split
  · refine .bind (gives_wordOf ?_) fun w hw => .ok hw
    intro e he
    rcases List.mem_cons.1 he with rfl | he
    · exact ha
    · exact hr e he
  · exact .err _

theorem gives_usl (ts : List UTok) : Gives (fun r => MadeExpr r.1) (takeUsl ts) := by
  unfold takeUsl
  split
  · exact .bind (gives_lexeme _) fun x hx => .ok hx
  · exact .bind (gives_word _) fun x hx => .ok hx
  · refine .bind (gives_parts _) fun r hr => ?_
    split
    · exact .ok (hr.1 _ (by simp))
    · exact .ok ⟨_, _, rfl, hr⟩

/-- Everything that is read is made by the constructors from buildable scripts. -/
theorem read_made {s : Str} {u : Expr} {ds : List (Str × Str)} (h : uslRead s = .ok (u, ds)) : MadeExpr u := by
  unfold uslRead at h
  split at h
  · injection h with h
    injection h with h _
    subst h
    exact .null (Nat.zero_le _)
  · split at h
    · rename_i r hr
      injection h with h
      subst h
      obtain ⟨v, h1, h2⟩ := bind_ok.1 hr
      obtain ⟨ds', _, h4⟩ := bind_ok.1 h2
      rw [pure_ok, Prod.mk.injEq] at h4
      exact h4.1 ▸ gives_usl _ v h1
    · split at h <;> cases h

/-- The lexemes of a word made from lexemes. -/
theorem MadeWord.actors {w : WordUsl} (h : MadeWord w) : ∀ e ∈ w.sfun.asList w.context, ∀ x, e.2 = some x → MadeLexeme x := by
  obtain ⟨l, t, f, role, hf, hw, hl, _⟩ := h
  obtain ⟨text, h1, h2⟩ := bind_ok.1 hw
  obtain ⟨cl, h3, h4⟩ := bind_ok.1 h2
  rw [pure_ok] at h4
  subst h4
  intro e he x hx
  obtain ⟨m, h5, h6⟩ := C61_partial hf
  have : e ∈ m := h6.mem_iff.2 (List.mem_filter.2 ⟨he, by rw [hx]; rfl⟩)
  obtain ⟨e', he', hm⟩ := forall₂_mem_right h5 this
  exact hl e' (List.mem_filter.1 he').1 x (hm.1 ▸ hx)

end Verif
