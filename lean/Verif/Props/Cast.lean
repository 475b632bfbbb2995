import Verif.Model.Cast
import Verif.Props.FromPathsOrder

/-
C91: what `usl(arg)` gives.

Specification: the morphemes of an expression (`Made`), and when an item is a pair of a path and an expression (`PathPair`).
-/

namespace Verif
open Script

/-! ### The morphemes of an expression -/

/-- All morphemes of a polymorpheme satisfy `P`. -/
def PM.Made (P : Script → Prop) (p : PM) : Prop := (∀ m ∈ p.constant, P m) ∧ ∀ g ∈ p.groups, ∀ m ∈ g.1, P m

/-- All morphemes of a lexeme satisfy `P`. -/
def Lexeme.Made (P : Script → Prop) (x : Lexeme) : Prop := x.flexion.Made P ∧ x.content.Made P

/-- All morphemes of an expression satisfy `P`. -/
def Expr.Made (P : Script → Prop) : Expr → Prop
  | .script s => P s
  | .pm p => p.Made P
  | .lexeme x => x.Made P
  | .word w => ∀ e ∈ w.sfun.asList w.context, ∀ x, e.2 = some x → x.Made P

/-- All morphemes of what a bin is built into satisfy `P`. -/
def Built'.Made (P : Script → Prop) : Built' → Prop
  | .values l => ∀ e ∈ l, e.Made P
  | .usl e => e.Made P

/-- All morphemes of the values in a bin satisfy `P`. -/
inductive Bin.Made (P : Script → Prop) : Bin → Prop
  | mk {t n kids} : (∀ v, n = some v → ∀ e ∈ v, e.Made P) → (∀ k ∈ kids, Bin.Made P k.2) → Bin.Made P (.mk t n kids)

section
variable {P : Script → Prop}

theorem mkPM_made (h0 : P (.null 0)) {cs : List Script} {gs : List Group} (hc : ∀ m ∈ cs, P m) (hg : ∀ g ∈ gs, ∀ m ∈ g.1, P m) : (mkPM cs gs).Made P := by
  constructor
  · intro m hm
    have e2 : (mkPM cs gs).constant = if (shownC cs).isEmpty then [.null 0] else shownC cs := rfl
    rw [e2] at hm
    split at hm
    · rw [List.mem_singleton.1 hm]
      exact h0
    · exact hc m (List.mem_filter.1 ((mem_pySort _).1 hm)).1
  · intro g hg' m hm
    have hg' := (mem_pySort _).1 hg'
    obtain ⟨g0, h1, rfl⟩ := List.mem_map.1 hg'
    exact hg g0 h1 m (List.mem_filter.1 ((mem_pySort _).1 hm)).1

theorem dictSet_mem {α β κ : Type} [DecidableEq κ] {key : α → κ} {k : α} {v : β} : ∀ {l : List (α × β)} {e}, e ∈ dictSet key k v l → e.2 = v ∨ ∃ e' ∈ l, e'.2 = e.2
  | [], e, h => by
    rw [dictSet, List.mem_singleton] at h
    exact .inl (by rw [h])
  | a :: l, e, h => by
    rw [dictSet] at h
    split at h
    · rcases List.mem_cons.1 h with rfl | h
      · exact .inl rfl
      · exact .inr ⟨e, List.mem_cons_of_mem _ h, rfl⟩
    · rcases List.mem_cons.1 h with rfl | h
      · exact .inr ⟨e, List.mem_cons_self, rfl⟩
      · rcases dictSet_mem h with h | ⟨e', h1, h2⟩
        · exact .inl h
        · exact .inr ⟨e', List.mem_cons_of_mem _ h1, h2⟩

theorem dictGet_mem {α β κ : Type} [DecidableEq κ] {key : α → κ} {k : α} {v : β} : ∀ {l : List (α × β)}, dictGet key k l = some v → ∃ e ∈ l, e.2 = v
  | a :: l, h => by
    rw [dictGet] at h
    split at h
    · exact ⟨a, List.mem_cons_self, Option.some.inj h⟩
    · obtain ⟨e, h1, h2⟩ := dictGet_mem h
      exact ⟨e, List.mem_cons_of_mem _ h1, h2⟩

theorem setAdd_mem {α κ : Type} [DecidableEq κ] {key : α → κ} {x y : α} {s : List α} (h : y ∈ setAdd key x s) : y = x ∨ y ∈ s := by
  unfold setAdd at h
  split at h
  · exact .inr h
  · rcases List.mem_append.1 h with h | h
    · exact .inr h
    · exact .inl (List.mem_singleton.1 h)

theorem foldlM_keeps {α β : Type} {f : α → β → Except Err α} {I : α → Prop} : ∀ {l : List β} {a b : α}, I a → (∀ a x b, x ∈ l → I a → f a x = .ok b → I b) →
    l.foldlM f a = .ok b → I b
  | [], a, b, ha, _, h => by
    rw [List.foldlM_nil, pure_ok] at h
    exact h ▸ ha
  | x :: l, a, b, ha, hf, h => by
    rw [List.foldlM_cons] at h
    obtain ⟨c, h1, h2⟩ := bind_ok.1 h
    exact foldlM_keeps (hf a x c List.mem_cons_self ha h1) (fun a y b hy => hf a y b (List.mem_cons_of_mem _ hy)) h2

theorem foldl_keeps {α β : Type} {f : α → β → α} {I : α → Prop} : ∀ {l : List β} {a : α}, I a → (∀ a x, x ∈ l → I a → I (f a x)) → I (l.foldl f a)
  | [], _, ha, _ => ha
  | x :: l, a, ha, hf => foldl_keeps (l := l) (hf a x List.mem_cons_self ha) fun a y hy => hf a y (List.mem_cons_of_mem _ hy)

/-- The bin a path is put in, under its first part. -/
def innerBin (s : Step) (p : Path) (kids : List (Step × Bin)) (v : List Expr) : Except Err Bin :=
  match p with
  | [] => pure (((dictGet Step.text s kids).getD Bin.empty).setNode v)
  | _ :: _ => ((dictGet Step.text s kids).getD Bin.empty).group p v

theorem group_inv {s : Step} {p : Path} {t : Option PClass} {n : Option (List Expr)} {kids : List (Step × Bin)} {v : List Expr} {b' : Bin}
    (h : (Bin.mk t n kids).group (s :: p) v = .ok b') : ∃ t' c, innerBin s p kids v = .ok c ∧ b' = .mk (some t') n (dictSet Step.text s c kids) := by
  have key : ∀ t', (innerBin s p kids v >>= fun c => pure (.mk (some t') n (dictSet Step.text s c kids))) = .ok b' →
      ∃ t' c, innerBin s p kids v = .ok c ∧ b' = .mk (some t') n (dictSet Step.text s c kids) := by
    intro t' h
    obtain ⟨c, h1, h⟩ := bind_ok.1 h
    exact ⟨t', c, h1, (pure_ok.1 h).symm⟩
  rw [Bin.group.eq_def] at h
  cases t with
  | none => refine key s.cls ?_; rw [← h]; cases p <;> rfl
  | some c =>
    by_cases hs : s.isInstance c = true
    · refine key c ?_
      rw [← h]
      simp only [hs, if_true]
      cases p <;> rfl
    · simp only [hs] at h
      cases h

/-- Only given values are in the bins. -/
theorem group_made : ∀ {p : Path} {b b' : Bin} {v : List Expr}, b.Made P → (∀ e ∈ v, e.Made P) → b.group p v = .ok b' → b'.Made P
  | [], .mk _ _ _, _, _, _, _, h => by
    rw [Bin.group.eq_def] at h
    cases h
  | s :: p, .mk t n kids, b', v, hb, hv, h => by
    obtain ⟨t', c, h1, rfl⟩ := group_inv h
    cases hb with
    | mk hn hk =>
    have hchild : ((dictGet Step.text s kids).getD Bin.empty).Made P := by
      cases hd : dictGet Step.text s kids with
      | none => exact .mk (by intro v hv; cases hv) (by intro k hk; cases hk)
      | some b =>
        obtain ⟨e, he, rfl⟩ := dictGet_mem hd
        exact hk e he
    have hc : c.Made P := by
      cases p with
      | nil =>
        obtain rfl := pure_ok.1 h1
        generalize (dictGet Step.text s kids).getD Bin.empty = d at hchild
        cases hchild with
        | mk h1 h2 => exact .mk (fun w hw => by cases hw; exact hv) h2
      | cons y q => exact group_made hchild hv h1
    refine .mk hn fun k hk' => ?_
    rcases dictSet_mem hk' with h | ⟨k', h1, h2⟩
    · rw [h]; exact hc
    · rw [← h2]; exact hk k' h1

theorem expand_made {e : Expr} (he : e.Made P) {l : List Script} (h : expandValue e = .ok l) : ∀ m ∈ l, P m := by
  cases e with
  | script s =>
    cases h
    intro m hm
    rw [List.mem_singleton.1 hm]
    exact he
  | pm p => cases h; exact he.1
  | lexeme _ => cases h
  | word _ => cases h

/-- The parts of a polymorpheme that is assembled. -/
def PMParts.Made (P : Script → Prop) (a : PMParts) : Prop := (∀ m ∈ a.constant, P m) ∧ (∀ m ∈ a.g0.1, P m) ∧ (∀ m ∈ a.g1.1, P m) ∧ ∀ m ∈ a.g2.1, P m

theorem groupStep_made {g g' : List Script × Option Nat} {xs : List Script} {k : Option Nat} (hg : ∀ m ∈ g.1, P m) (hx : ∀ m ∈ xs, P m) (h : groupStep g xs k = .ok g') :
    ∀ m ∈ g'.1, P m := by
  have : g'.1 = g.1 ++ xs := by
    unfold groupStep at h
    split at h
    · split at h
      · cases h
      · cases h; rfl
    · cases h; rfl
  intro m hm
  rw [this] at hm
  rcases List.mem_append.1 hm with hm | hm
  · exact hg m hm
  · exact hx m hm

theorem pmStep_made {a a' : PMParts} {s : Step} {v : Built'} (ha : a.Made P) (hv : v.Made P) (h : pmStep a s v = .ok a') : a'.Made P := by
  unfold pmStep at h
  split at h
  · next g _ k l =>
    obtain ⟨xs, h1, h⟩ := bind_ok.1 h
    have hx : ∀ m ∈ xs.flatten, P m := by
      intro m hm
      obtain ⟨y, hy, hm⟩ := List.mem_flatten.1 hm
      obtain ⟨e, he, h2⟩ := (mapM_mem h1).1 hy
      exact expand_made (hv e he) h2 m hm
    obtain ⟨hc, h0, h1', h2⟩ := ha
    cases g with
    | constant =>
      cases h
      refine ⟨fun m hm => ?_, h0, h1', h2⟩
      rcases List.mem_append.1 hm with hm | hm
      · exact hc m hm
      · exact hx m hm
    | g0 =>
      obtain ⟨g, h3, h⟩ := bind_ok.1 h
      cases h
      exact ⟨hc, groupStep_made h0 hx h3, h1', h2⟩
    | g1 =>
      obtain ⟨g, h3, h⟩ := bind_ok.1 h
      cases h
      exact ⟨hc, h0, groupStep_made h1' hx h3, h2⟩
    | g2 =>
      obtain ⟨g, h3, h⟩ := bind_ok.1 h
      cases h
      exact ⟨hc, h0, h1', groupStep_made h2 hx h3⟩
  · cases h
  · cases h

theorem buildPM_made (h0 : P (.null 0)) {items : List (Step × Built')} {p : PM} (hi : ∀ i ∈ items, i.2.Made P) (h : buildPM items = .ok p) : p.Made P := by
  obtain ⟨a, h1, h⟩ := bind_ok.1 h
  rw [pure_ok] at h
  subst h
  have ha : a.Made P := foldlM_keeps (I := PMParts.Made P) (by simp [PMParts.Made]) (fun a x b hx ha h => pmStep_made ha (hi x hx) h) h1
  refine mkPM_made h0 ha.1 fun g hg m hm => ?_
  obtain ⟨g0, hg0, rfl⟩ := List.mem_map.1 hg
  have hg0 := (List.mem_filter.1 hg0).1
  simp only [List.mem_cons, List.not_mem_nil, or_false] at hg0
  rcases hg0 with rfl | rfl | rfl
  · exact ha.2.1 m hm
  · exact ha.2.2.1 m hm
  · exact ha.2.2.2 m hm

theorem asScript_made {e : Expr} (he : e.Made P) {s : Script} (h : asScript e = .ok s) : P s := by
  cases e with
  | script s => cases h; exact he
  | pm _ => cases h
  | lexeme _ => cases h
  | word _ => cases h

attribute [local irreducible] flexionFamilies inFamily

theorem flexionGroups_made {ms : List Expr} (h : ∀ e ∈ ms, e.Made P) : ∀ d ∈ flexionGroups ms, ∀ e ∈ d.2, e.Made P := by
  unfold flexionGroups
  refine foldl_keeps (I := fun d : List (Str × List Expr) => ∀ x ∈ d, ∀ e ∈ x.2, e.Made P) (by simp) fun d m hm hd => ?_
  refine foldl_keeps (I := fun d : List (Str × List Expr) => ∀ x ∈ d, ∀ e ∈ x.2, e.Made P) hd fun d r _ hd => ?_
  intro x hx e he
  unfold familyStep at hx
  split at hx
  · rcases dictSet_mem hx with h1 | ⟨x', h1, h2⟩
    · rw [h1] at he
      rcases setAdd_mem he with rfl | he
      · exact h e hm
      · cases hg : dictGet id r d with
        | none => rw [hg] at he; cases he
        | some v =>
          rw [hg] at he
          obtain ⟨y, hy, rfl⟩ := dictGet_mem hg
          exact hd y hy e he
    · exact hd x' h1 e (h2 ▸ he)
  · exact hd x hx e he

theorem flexionOf_made {ord : List Expr → List Expr} (ho : Rearranges ord) (h0 : P (.null 0)) {ms : List Expr} (hm : ∀ e ∈ ms, e.Made P) {p : PM} (h : flexionOf ord ms = .ok p) :
    p.Made P := by
  obtain ⟨a, h1, h⟩ := bind_ok.1 h
  rw [pure_ok] at h
  subst h
  have ha : (∀ m ∈ a.1, P m) ∧ ∀ g ∈ a.2, ∀ m ∈ g.1, P m := by
    refine foldlM_keeps (I := fun a : List Script × List Group => (∀ m ∈ a.1, P m) ∧ ∀ g ∈ a.2, ∀ m ∈ g.1, P m) (by simp) (fun a x b hx ha h => ?_) h1
    obtain ⟨ss, h2, h⟩ := bind_ok.1 h
    have hs : ∀ s ∈ ss, P s := by
      intro s hs
      obtain ⟨e, he, h3⟩ := (mapM_mem h2).1 hs
      exact asScript_made (flexionGroups_made hm x hx e ((ho _).mem_iff.1 he)) h3
    match ss, h, hs with
    | [], h, _ => cases h; exact ha
    | [s], h, hs =>
      cases h
      refine ⟨fun m hm => ?_, ha.2⟩
      rcases List.mem_append.1 hm with hm | hm
      · exact ha.1 m hm
      · exact hs m hm
    | s :: s' :: ss, h, hs =>
      cases h
      refine ⟨ha.1, fun g hg m hm => ?_⟩
      rcases List.mem_append.1 hg with hg | hg
      · exact ha.2 g hg m hm
      · rw [List.mem_singleton.1 hg] at hm
        exact hs m hm
  exact mkPM_made h0 ha.1 ha.2

theorem buildFlexion_made {ord : List Expr → List Expr} (ho : Rearranges ord) (h0 : P (.null 0)) {items : List (Step × Built')} {p : PM} (hi : ∀ i ∈ items, i.2.Made P)
    (h : buildFlexion ord items = .ok p) : p.Made P := by
  obtain ⟨ms, h1, h⟩ := bind_ok.1 h
  refine flexionOf_made ho h0 (fun e he => ?_) h
  obtain ⟨l, hl, he⟩ := List.mem_flatten.1 he
  obtain ⟨⟨s, v⟩, hx, h2⟩ := (mapM_mem h1).1 hl
  have hv := hi _ hx
  unfold flexionValues at h2
  split at h2
  · next heq =>
    cases heq
    cases h2
    exact hv e he
  · cases h2
  · cases h2

theorem buildLexeme_made {ord : List Expr → List Expr} (ho : Rearranges ord) (h0 : P (.null 0)) {items : List (Step × Built')} {x : Lexeme} (hi : ∀ i ∈ items, i.2.Made P)
    (h : buildLexeme ord items = .ok x) : x.Made P := by
  obtain ⟨a, h1, h⟩ := bind_ok.1 h
  rw [pure_ok] at h
  subst h
  have hempty : (mkPM [] []).Made P := mkPM_made h0 (by simp) (by simp)
  have ha : (∀ p, a.1 = some p → p.Made P) ∧ ∀ p, a.2 = some p → p.Made P := by
    refine foldlM_keeps (I := fun a : Option PM × Option PM => (∀ p, a.1 = some p → p.Made P) ∧ ∀ p, a.2 = some p → p.Made P) ⟨by simp, by simp⟩ (fun a x b hx ha h => ?_) h1
    have hv := hi x hx
    unfold lexemeStep at h
    split at h
    · split at h
      · cases h
      · obtain ⟨p, h2, h⟩ := bind_ok.1 h
        cases h
        refine ⟨fun q hq => ?_, ha.2⟩
        cases hq
        generalize x.2 = v at hv h2
        cases v with
        | usl e =>
          cases e with
          | pm q => cases h2; exact hv
          | _ => cases h2
        | values l =>
          obtain ⟨ss, h3, h2⟩ := bind_ok.1 h2
          cases h2
          refine mkPM_made h0 (fun m hm => ?_) (by simp)
          obtain ⟨e, he, h4⟩ := (mapM_mem h3).1 hm
          exact asScript_made (hv e he) h4
    · split at h
      · cases h
      · obtain ⟨p, h2, h⟩ := bind_ok.1 h
        cases h
        refine ⟨ha.1, fun q hq => ?_⟩
        cases hq
        generalize x.2 = v at hv h2
        cases v with
        | usl e =>
          cases e with
          | pm q => cases h2; exact hv
          | _ => cases h2
        | values l =>
          obtain ⟨ss, h3, h2⟩ := bind_ok.1 h2
          exact flexionOf_made ho h0 hv h2
    · cases h
  constructor
  · cases h : a.2 with
    | none => exact hempty
    | some p => exact ha.2 p h
  · cases h : a.1 with
    | none => exact hempty
    | some p => exact ha.1 p h

theorem buildWord_made {items : List (Step × Built')} {w : WordUsl} (hi : ∀ i ∈ items, i.2.Made P) (h : buildWord items = .ok w) : (Expr.word w).Made P := by
  obtain ⟨a, _, h⟩ := bind_ok.1 h
  cases a with
  | none => cases h
  | some focus =>
    obtain ⟨l, h1, h⟩ := bind_ok.1 h
    obtain ⟨⟨t, f⟩, h2, h⟩ := bind_ok.1 h
    obtain ⟨text, _, h⟩ := bind_ok.1 h
    obtain ⟨cl, _, h⟩ := bind_ok.1 h
    rw [pure_ok] at h
    subst h
    show ∀ e ∈ f.asList t, ∀ x, e.2 = some x → x.Made P
    intro e he x hx
    obtain ⟨m, h3, h4⟩ := fromList_conserved h2
    have he : e ∈ m := h4.mem_iff.2 (List.mem_filter.2 ⟨he, by rw [hx]; rfl⟩)
    obtain ⟨e', he', h5, _⟩ := forall₂_mem_right h3 he
    have he' := (List.mem_filter.1 he').1
    obtain ⟨k, hk, h6⟩ := (mapM_mem h1).1 he'
    have hd : ∀ k ∈ items.foldl (roleGroup focus) [], ∀ v ∈ k.2, v.Made P := by
      refine foldl_keeps (I := fun d : List ((Addr × Bool) × List Built') => ∀ k ∈ d, ∀ v ∈ k.2, v.Made P) (by simp) fun d i hii hd => ?_
      unfold roleGroup
      split
      · intro k hk v hv
        rcases dictSet_mem hk with h | ⟨k', h, h'⟩
        · rw [h] at hv
          rcases List.mem_append.1 hv with hv | hv
          · revert hv
            split
            all_goals
              intro hv
              cases hg : dictGet (fun k : Addr × Bool => (Step.role k.1 k.2).text) _ d with
              | none => rw [hg] at hv; cases hv
              | some u =>
                rw [hg] at hv
                obtain ⟨y, hy, rfl⟩ := dictGet_mem hg
                exact hd y hy v hv
          · rw [List.mem_singleton.1 hv]
            exact hi i hii
        · exact hd k' h v (h' ▸ hv)
      · exact hd
    have hv := hd k hk
    unfold roleLexeme at h6
    split at h6
    · next y heq =>
      cases h6
      rw [hx] at h5
      cases h5
      exact hv _ (by rw [heq]; exact List.mem_singleton.2 rfl)
    · cases h6
    · cases h6

theorem buildUsl_made {ord : List Expr → List Expr} (ho : Rearranges ord) (h0 : P (.null 0)) {t : Option PClass} {items : List (Step × Built')} (hi : ∀ i ∈ items, i.2.Made P) {e : Expr}
    (h : buildUsl ord t items = .ok e) : e.Made P ∧ ∀ s, e ≠ .script s := by
  unfold buildUsl at h
  split at h
  · cases h
  · cases h
  · obtain ⟨p, h1, h⟩ := bind_ok.1 h
    cases h
    exact ⟨buildPM_made h0 hi h1, by simp⟩
  · obtain ⟨p, h1, h⟩ := bind_ok.1 h
    cases h
    exact ⟨buildFlexion_made ho h0 hi h1, by simp⟩
  · obtain ⟨p, h1, h⟩ := bind_ok.1 h
    cases h
    exact ⟨buildLexeme_made ho h0 hi h1, by simp⟩
  · obtain ⟨p, h1, h⟩ := bind_ok.1 h
    cases h
    exact ⟨buildWord_made hi h1, by simp⟩

mutual

theorem build_made {ord : List Expr → List Expr} (ho : Rearranges ord) (h0 : P (.null 0)) : ∀ (b : Bin), b.Made P → ∀ v, b.build ord = .ok v → v.Made P ∧ ∀ s, v ≠ .usl (.script s)
  | .mk _ (some values) _, hb, v, h => by
    rw [Bin.build] at h
    cases h
    cases hb with
    | mk h1 _ => exact ⟨h1 _ rfl, by simp⟩
  | .mk t none kids, hb, v, h => by
    rw [Bin.build] at h
    obtain ⟨items, h1, h⟩ := bind_ok.1 h
    obtain ⟨e, h2, h⟩ := bind_ok.1 h
    cases h
    cases hb with
    | mk _ hk =>
      have := buildUsl_made ho h0 (buildKids_made ho h0 kids hk items h1) h2
      exact ⟨this.1, fun s h => this.2 s (by cases h; rfl)⟩

theorem buildKids_made {ord : List Expr → List Expr} (ho : Rearranges ord) (h0 : P (.null 0)) : ∀ (kids : List (Step × Bin)), (∀ k ∈ kids, k.2.Made P) →
    ∀ items, buildKids ord kids = .ok items → ∀ i ∈ items, i.2.Made P
  | [], _, items, h => by
    rw [buildKids] at h
    cases h
    intro i hi
    cases hi
  | (s, b) :: kids, hk, items, h => by
    rw [buildKids] at h
    obtain ⟨v, h1, h⟩ := bind_ok.1 h
    obtain ⟨r, h2, h⟩ := bind_ok.1 h
    cases h
    intro i hi
    rcases List.mem_cons.1 hi with rfl | hi
    · exact (build_made ho h0 b (hk (s, b) List.mem_cons_self) v h1).1
    · exact buildKids_made ho h0 kids (fun k h => hk k (List.mem_cons_of_mem _ h)) r h2 i hi

end

theorem pathToValue_made {l : List (Str × Str)} {d : List (Path × List Expr)} (h : pathToValue l = .ok d) (hl : ∀ e ∈ l, ∀ u, readValue e.2 = .ok u → u.Made P) :
    ∀ x ∈ d, ∀ e ∈ x.2, e.Made P := by
  obtain ⟨ps, _, h⟩ := bind_ok.1 h
  obtain ⟨vs, h2, h⟩ := bind_ok.1 h
  cases h
  have hd0 : ∀ x ∈ ps.foldl (fun d p => dictSet pathText p ([] : List Expr) d) [], ∀ e ∈ x.2, e.Made P := by
    refine foldl_keeps (I := fun d : List (Path × List Expr) => ∀ x ∈ d, ∀ e ∈ x.2, e.Made P) (by simp) fun d p _ hd x hx e he => ?_
    rcases dictSet_mem hx with h | ⟨x', h, h'⟩
    · rw [h] at he
      cases he
    · exact hd x' h e (h' ▸ he)
  refine foldl_keeps (I := fun d : List (Path × List Expr) => ∀ x ∈ d, ∀ e ∈ x.2, e.Made P) hd0 fun d p hp hd x hx e he => ?_
  rcases dictSet_mem hx with h | ⟨x', h, h'⟩
  · rw [h] at he
    rcases setAdd_mem he with rfl | he
    · obtain ⟨y, hy, h3⟩ := (mapM_mem h2).1 (List.of_mem_zip hp).2
      exact hl y hy _ h3
    · cases hg : dictGet pathText p.1 d with
      | none => rw [hg] at he; cases he
      | some v =>
        rw [hg] at he
        obtain ⟨y, hy, rfl⟩ := dictGet_mem hg
        exact hd y hy e he
  · exact hd x' h e (h' ▸ he)

theorem fromPaths_made {ord : List Expr → List Expr} (ho : Rearranges ord) (h0 : P (.null 0)) {l : List (Str × Str)} {e : Expr} (h : fromPaths ord l = .ok e)
    (hl : ∀ e ∈ l, ∀ u, readValue e.2 = .ok u → u.Made P) : e.Made P ∧ ∀ s, e ≠ .script s := by
  obtain ⟨d, h1, h⟩ := bind_ok.1 h
  obtain ⟨b, h2, h⟩ := bind_ok.1 h
  obtain ⟨v, h3, h⟩ := bind_ok.1 h
  have hd := pathToValue_made h1 hl
  have hb : b.Made P := foldlM_keeps (I := Bin.Made P) (.mk (by intro v hv; cases hv) (by intro k hk; cases hk))
    (fun a x b hx ha h => group_made ha (fun e he => hd x hx e ((ho _).mem_iff.1 he)) h) h2
  have := build_made ho h0 b hb v h3
  cases v with
  | values _ => cases h
  | usl e' =>
    cases h
    exact ⟨this.1, fun s h => this.2 s (by rw [h])⟩

end

/-! ### The items -/

/-- The pair of a path and an expression. -/
def PathPair (i : CastItem) : Prop := ∃ p u, i = .pair (some p) (some u)

/-- What an item that is not a pair of a path and an expression raises. -/
def itemError : CastItem → Err
  | .notIterable => .typeError
  | _ => .valueError

theorem allPairs_good : ∀ {l : List CastItem}, (∀ i ∈ l, PathPair i) → allPairs l = .ok true
  | [], _ => rfl
  | i :: l, h => by
    obtain ⟨p, u, rfl⟩ := h i List.mem_cons_self
    exact allPairs_good (l := l) fun i hi => h i (List.mem_cons_of_mem _ hi)

theorem allPairs_bad {i : CastItem} {r : List CastItem} (hi : ¬ PathPair i) : ∀ {l : List CastItem}, (∀ i ∈ l, PathPair i) →
    allPairs (l ++ i :: r) = .ok false ∧ itemError i = .valueError ∨ allPairs (l ++ i :: r) = .error (itemError i)
  | [], _ => by
    cases i with
    | pair p u =>
      cases p with
      | none => exact .inl ⟨rfl, rfl⟩
      | some p =>
        cases u with
        | none => exact .inl ⟨rfl, rfl⟩
        | some u => exact absurd ⟨p, u, rfl⟩ hi
    | badLength => exact .inr rfl
    | notIterable => exact .inr rfl
  | j :: l, h => by
    obtain ⟨p, u, rfl⟩ := h j List.mem_cons_self
    exact allPairs_bad (l := l) hi fun i hi => h i (List.mem_cons_of_mem _ hi)

theorem first_bad {l : List CastItem} (h : ¬ ∀ i ∈ l, PathPair i) : ∃ a i r, l = a ++ i :: r ∧ (∀ j ∈ a, PathPair j) ∧ ¬ PathPair i := by
  induction l with
  | nil => exact absurd (by simp) h
  | cons j l ih =>
    by_cases hj : PathPair j
    · have h2 : ¬ ∀ i ∈ l, PathPair i := by
        intro h3
        refine h fun i hi => ?_
        rcases List.mem_cons.1 hi with rfl | hi
        · exact hj
        · exact h3 i hi
      obtain ⟨a, i, r, rfl, h4, h5⟩ := ih h2
      refine ⟨j :: a, i, r, rfl, fun k hk => ?_, h5⟩
      rcases List.mem_cons.1 hk with rfl | hk
      · exact hj
      · exact h4 k hk
    · exact ⟨[], j, l, rfl, by simp, hj⟩

theorem castUsl_items {ord : List Expr → List Expr} {l : List CastItem} (hne : l ≠ []) :
    castUsl ord (.items l) = (allPairs l >>= fun b => if b then fromPaths ord (pairTexts l) else throw .valueError) := by
  cases l with
  | nil => exact absurd rfl hne
  | cons i l => rfl

/-! ### The theorems -/

/-- **C91, the first wrong item.** With an item that is not a pair of a path and an expression nothing is assembled: the first such item decides
which exception is raised. -/
theorem C91_bad_item (ord : List Expr → List Expr) {a r : List CastItem} {i : CastItem} (ha : ∀ j ∈ a, PathPair j) (hi : ¬ PathPair i) :
    castUsl ord (.items (a ++ i :: r)) = .error (itemError i) := by
  rw [castUsl_items (by simp)]
  rcases allPairs_bad (r := r) hi ha with ⟨h, h'⟩ | h
  · rw [h, h']
    rfl
  · rw [h]
    rfl

/-- **C91, what is accepted.** Whatever is assembled has been assembled from pairs of a path and an expression only. -/
theorem C91_accepted {ord : List Expr → List Expr} {l : List CastItem} {e : Expr} (h : castUsl ord (.items l) = .ok e) : ∀ i ∈ l, PathPair i := by
  by_contra hb
  obtain ⟨a, i, r, rfl, h1, h2⟩ := first_bad hb
  rw [C91_bad_item ord h1 h2] at h
  cases h

/-- **C91, the kind of the result.** Except from a text, `usl` never gives a script. -/
theorem C91_kind_partial {ord : List Expr → List Expr} (ho : Rearranges ord) {a : CastArg} (ha : ∀ s, a ≠ .text s) {e : Expr} (h : castUsl ord a = .ok e) :
    ∀ s, e ≠ .script s := by
  cases a with
  | text s => exact absurd rfl (ha s)
  | other => cases h
  | expr x =>
    cases x <;> cases h <;> simp
  | items l =>
    cases l with
    | nil => cases h; simp
    | cons i l =>
      rw [castUsl_items (by simp)] at h
      obtain ⟨b, h1, h⟩ := bind_ok.1 h
      cases b with
      | false => cases h
      | true => exact (fromPaths_made (P := fun _ => True) ho trivial h fun e _ u _ => by
          cases u with
          | script _ => trivial
          | pm p => exact ⟨fun _ _ => trivial, fun _ _ _ _ => trivial⟩
          | lexeme x => exact ⟨⟨fun _ _ => trivial, fun _ _ _ _ => trivial⟩, ⟨fun _ _ => trivial, fun _ _ _ _ => trivial⟩⟩
          | word w => exact fun _ _ _ _ => ⟨⟨fun _ _ => trivial, fun _ _ _ _ => trivial⟩, ⟨fun _ _ => trivial, fun _ _ _ _ => trivial⟩⟩).2

/-- **C91, once is enough.** What `usl` gives, except from a text, is left as it is by `usl`. -/
theorem C91_idempotent_partial {ord : List Expr → List Expr} (ho : Rearranges ord) {a : CastArg} (ha : ∀ s, a ≠ .text s) {e : Expr} (h : castUsl ord a = .ok e) :
    castUsl ord (.expr e) = .ok e := by
  cases e with
  | script s => exact absurd rfl (C91_kind_partial ho ha h s)
  | _ => rfl

/-- **C91, nothing is invented.** Every morpheme of what is assembled comes from one of the values, or is the empty morpheme. -/
theorem C91_nothing_invented {ord : List Expr → List Expr} (ho : Rearranges ord) {l : List CastItem} {e : Expr} (h : castUsl ord (.items l) = .ok e) {P : Script → Prop}
    (h0 : P (.null 0)) (hl : ∀ p u, CastItem.pair p (some u) ∈ l → ∀ u', readValue u.text = .ok u' → u'.Made P) : e.Made P := by
  cases l with
  | nil =>
    cases h
    exact mkPM_made h0 (by simp) (by simp)
  | cons i l =>
    rw [castUsl_items (by simp)] at h
    obtain ⟨b, h1, h⟩ := bind_ok.1 h
    cases b with
    | false => cases h
    | true =>
      refine (fromPaths_made ho h0 h fun x hx u hu => ?_).1
      obtain ⟨j, hj, h2⟩ := List.mem_filterMap.1 hx
      cases j with
      | pair p u' =>
        cases p with
        | none => cases h2
        | some p =>
          cases u' with
          | none => cases h2
          | some u' =>
            cases h2
            exact hl _ _ hj u hu
      | badLength => cases h2
      | notIterable => cases h2

/-- The pairs of paths and expressions as an argument. -/
def pairsArg (l : List (Path × Expr)) : CastArg := .items (l.map fun e => .pair (some e.1) (some e.2))

theorem cast_pairs {ord : List Expr → List Expr} {l : List (Path × Expr)} {e : Expr} (h : fromPaths ord (l.map fun e => (pathText e.1, e.2.text)) = .ok e) :
    castUsl ord (pairsArg l) = .ok e := by
  cases l with
  | nil =>
    have : fromPaths ord [] = .error .assertionError := rfl
    rw [List.map_nil, this] at h
    cases h
  | cons i l =>
    show castUsl ord (.items ((i :: l).map _)) = _
    rw [castUsl_items (by simp), allPairs_good (by
      intro j hj
      obtain ⟨x, _, rfl⟩ := List.mem_map.1 hj
      exact ⟨_, _, rfl⟩)]
    have : pairTexts ((i :: l).map fun e => CastItem.pair (some e.1) (some e.2)) = (i :: l).map fun e => (pathText e.1, e.2.text) := by
      unfold pairTexts
      rw [List.filterMap_map, ← List.filterMap_eq_map]
      rfl
    show fromPaths ord (pairTexts _) = _
    rw [this]
    exact h

/-- **C91, from the parts in any order.** The pairs of a path and a morpheme of a polymorpheme, in any order, give a polymorpheme with the same text. -/
theorem C91_polymorpheme_partial {ord : List Expr → List Expr} (ho : Rearranges ord) {cs : List Script} {gs : List Group} (h : Legible cs gs) (hs : Separable (mkPM cs gs))
    {l0 : List (Str × Str)} (h0 : takeApart (.pm (mkPM cs gs)) = .ok l0) {l : List (Path × Expr)} (hl : (l.map fun e => (pathText e.1, e.2.text)).Perm l0) :
    ∃ q, castUsl ord (pairsArg l) = .ok (.pm q) ∧ SamePM q (mkPM cs gs) := by
  obtain ⟨q, h1, h2⟩ := C91_polymorpheme_any_order_partial ho h hs h0 hl
  exact ⟨q, cast_pairs h1, h2⟩

/-- **C91, from the parts in any order**, lexemes. -/
theorem C91_lexeme_partial {ord : List Expr → List Expr} (ho : Rearranges ord) {x : Lexeme} (h : LexemeForm x) {l0 : List (Str × Str)} (h0 : takeApart (.lexeme x) = .ok l0)
    {l : List (Path × Expr)} (hl : (l.map fun e => (pathText e.1, e.2.text)).Perm l0) : ∃ y, castUsl ord (pairsArg l) = .ok (.lexeme y) ∧ SameLexeme y x := by
  obtain ⟨q, h1, h2⟩ := C91_lexeme_any_order_partial ho h h0 hl
  exact ⟨q, cast_pairs h1, h2⟩

/-- **C91, from the parts in any order**, words. -/
theorem C91_word_partial {ord : List Expr → List Expr} (ho : Rearranges ord) {l' : List (RoleEntry Lexeme)} {t : SType} {f : SFun Lexeme} {role : Addr} {w : WordUsl}
    (hf : fromList l' = .ok (t, f)) (hw : mkWord f role t = .ok w) (hrole : ∃ x, (role, x) ∈ f.asList t) (hx : ∀ e ∈ f.asList t, ∃ x, e.2 = some x ∧ LexemeForm x)
    {l0 : List (Str × Str)} (h0 : takeApart (.word w) = .ok l0) {l : List (Path × Expr)} (hl : (l.map fun e => (pathText e.1, e.2.text)).Perm l0) :
    ∃ w', castUsl ord (pairsArg l) = .ok (.word w') ∧ SameWord w' w := by
  obtain ⟨q, h1, h2⟩ := C91_word_any_order_partial ho hf hw hrole hx h0 hl
  exact ⟨q, cast_pairs h1, h2⟩

/-! ### Examples and violations -/

/-- The text of what `usl` gives. -/
def castText (a : CastArg) : Except Err Str := do return (← castUsl id a).text

/-- Whether `usl` gives a script. -/
def castScript (a : CastArg) : Except Err Bool := do return match ← castUsl id a with | .script _ => true | _ => false

-- Parts in another order.
example : castText (pairsArg [([.pm .g0 (some (.prim .T)) (some 2)], .script (.prim .T)), ([.pm .constant (some (.prim .S)) none], .script (.prim .S)),
    ([.pm .g0 (some (.prim .B)) (some 2)], .script (.prim .B)), ([.pm .constant (some (.prim .A)) none], .script (.prim .A))]) = .ok (c!"A: S: m2(B: T:)") ∧
    (match takeApart (.pm (mkPM [.prim .A, .prim .S] [([.prim .B, .prim .T], 2)])) with | .ok l => l.length | .error _ => 0) = 4 := by
  refine ⟨?_, ?_⟩ <;> decide +kernel

-- Wrong items.
example : castText (.items [.pair (some [.pm .constant none none]) (some (.script (.prim .A))), .pair none (some (.script (.prim .A))), .notIterable]) = .error .valueError ∧
    castText (.items [.notIterable, .pair none none]) = .error .typeError ∧ castText .other = .error .notImplemented ∧ castText (.items []) = .ok [] := by
  refine ⟨?_, ?_, ?_, ?_⟩ <;> decide +kernel

/-- **C91 is violated by texts**: `usl` of a text with one morpheme, or of the empty text, is a script, and `usl` of this script is not. -/
theorem C91_violated_text : castScript (.text (c!"A:")) = .ok true ∧ castScript (.text []) = .ok true ∧ castScript (.expr (.script (.prim .A))) = .ok false := by
  refine ⟨?_, ?_, ?_⟩ <;> decide +kernel

/-- **C91 is violated by nested paths**: a value given for the content hides the morphemes given inside it, in any order. -/
theorem C91_violated_hidden :
    castText (pairsArg [([.lexeme true, .pm .constant (some (.prim .A)) none], .script (.prim .A)), ([.lexeme true], .script (.prim .B))]) = .ok (c!"()(B:)") ∧
    castText (pairsArg [([.lexeme true], .script (.prim .B)), ([.lexeme true, .pm .constant (some (.prim .A)) none], .script (.prim .A))]) = .ok (c!"()(B:)") := by
  refine ⟨?_, ?_⟩ <;> decide +kernel

end Verif
