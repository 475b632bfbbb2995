import Verif.Model.Membership
import Verif.Lemmas.WordOrder
import Verif.Props.Word

/-
Lemmas on the sequences of the sequences of USLs, and on products of lists of sequences.
-/

namespace Verif
open Script

/-! ### Products -/

theorem prodL_map {α β : Type} (g : α → β) : ∀ ls : List (List α), prodL (ls.map (·.map g)) = (prodL ls).map (·.map g)
  | [] => rfl
  | l :: ls => by
    rw [List.map_cons, prodL, prodL, prodL_map g ls, List.map_flatMap, List.flatMap_map]
    simp only [List.map_map]
    rfl

/-- A product of non-empty lists lies in another one exactly when each list lies in the list at the same place. -/
theorem prodL_sub {α : Type} : ∀ {xs ys : List (List α)}, (∀ x ∈ xs, x ≠ []) →
    ((∀ t ∈ prodL xs, t ∈ prodL ys) ↔ List.Forall₂ (fun x y => ∀ a ∈ x, a ∈ y) xs ys)
  | [], [], _ => by simp [prodL]
  | [], y :: ys, _ => by
    simp only [prodL, List.mem_singleton, forall_eq, List.mem_flatMap, List.mem_map]
    constructor
    · rintro ⟨_, _, _, _, h⟩
      cases h
    · intro h
      cases h
  | x :: xs, [], hx => by
    have : ∃ t, t ∈ prodL (x :: xs) := by
      have : ∀ l : List (List α), (∀ x ∈ l, x ≠ []) → ∃ t, t ∈ prodL l := by
        intro l
        induction l with
        | nil => exact fun _ => ⟨[], by simp [prodL]⟩
        | cons z l ih =>
          intro h
          obtain ⟨t, ht⟩ := ih fun y hy => h y (by simp [hy])
          obtain ⟨a, ha⟩ := List.exists_mem_of_ne_nil z (h z (by simp))
          exact ⟨a :: t, mem_prodL.2 (.cons ha (mem_prodL.1 ht))⟩
      exact this _ hx
    obtain ⟨t, ht⟩ := this
    constructor
    · intro h
      have h1 := (mem_prodL.1 ht).length_eq
      rw [(mem_prodL.1 (h t ht)).length_eq] at h1
      cases h1
    · intro h
      cases h
  | x :: xs, y :: ys, hx => by
    have hne : ∃ t, t ∈ prodL xs := by
      have : ∀ l : List (List α), (∀ x ∈ l, x ≠ []) → ∃ t, t ∈ prodL l := by
        intro l
        induction l with
        | nil => exact fun _ => ⟨[], by simp [prodL]⟩
        | cons z l ih =>
          intro h
          obtain ⟨t, ht⟩ := ih fun y hy => h y (by simp [hy])
          obtain ⟨a, ha⟩ := List.exists_mem_of_ne_nil z (h z (by simp))
          exact ⟨a :: t, mem_prodL.2 (.cons ha (mem_prodL.1 ht))⟩
      exact this _ fun y hy => hx y (by simp [hy])
    obtain ⟨t, ht⟩ := hne
    obtain ⟨b, hb⟩ := List.exists_mem_of_ne_nil x (hx x (by simp))
    have ih := prodL_sub (xs := xs) (ys := ys) fun y hy => hx y (by simp [hy])
    rw [List.forall₂_cons, ← ih]
    simp only [mem_prodL]
    constructor
    · intro h
      refine ⟨fun a ha => ?_, fun t' ht' => ?_⟩
      · have := h (a :: t) (.cons ha (mem_prodL.1 ht))
        cases this
        assumption
      · have := h (b :: t') (.cons hb ht')
        cases this
        assumption
    · rintro ⟨h1, h2⟩ t' ht'
      cases ht' with
      | cons h h' => exact .cons (h1 _ h) (h2 _ h')

/-! ### Polymorphemes and lexemes -/

theorem pm_single {p : PM} (h : p.groups = []) : p.singularSequences = .ok [p] := by simp [PM.singularSequences, h]

theorem pm_total (p : PM) : ∃ L, p.singularSequences = .ok L := by
  by_cases hg : p.groups = []
  · exact ⟨_, pm_single hg⟩
  · obtain ⟨L, h, _⟩ := pmSequences_spec p.constant p.groups
    refine ⟨L, ?_⟩
    rw [PM.singularSequences, if_neg (by simpa using hg)]
    exact h

theorem good_orderly {x : Script} (h : Good x) : Orderly x :=
  ⟨wf_built h.wf, h.plain.imp id (singular_iff h.wf).2⟩

theorem okPM_orderly {p : PM} (h : OkPM p) : (∀ x ∈ p.constant, Orderly x) ∧ ∀ g ∈ p.groups, ∀ x ∈ g.1, Orderly x := by
  refine ⟨fun x hx => ?_, fun g hg x hx => good_orderly (h.good.2 g hg x hx)⟩
  rcases h.constant with ⟨h1, _⟩ | ⟨h1, _⟩
  · rw [h1] at hx
    exact good_orderly (h.good.1 x hx)
  · rw [h1, List.mem_singleton] at hx
    subst hx
    exact ⟨wf_built (.null (Nat.zero_le _)), .inl (by simp [NotOneTermSum])⟩

/-- The sequences of a polymorpheme are polymorphemes without groups, of its morphemes. -/
theorem pm_sequence {p : PM} {L : List PM} (h : p.singularSequences = .ok L) {m : PM} (hm : m ∈ L) :
    m.groups = [] ∧ (OkPM p → OkPM m) := by
  by_cases hg : p.groups = []
  · rw [pm_single hg, Except.ok.injEq] at h
    subst h
    rw [List.mem_singleton] at hm
    subst hm
    exact ⟨hg, id⟩
  · rw [PM.singularSequences, if_neg (by simpa using hg)] at h
    obtain ⟨L', h', _, h3, _⟩ := pmSequences_spec p.constant p.groups
    rw [h', Except.ok.injEq] at h
    subst h
    obtain ⟨sel, hs, _, rfl⟩ := h3 m hm
    refine ⟨rfl, fun ho => ⟨_, [], rfl, fun x hx => ?_, by simp⟩⟩
    have hx := mem_dedupBy (key := str) hx
    rcases List.mem_append.1 hx with hx | hx
    · obtain ⟨l, hl, hx⟩ := List.mem_flatten.1 hx
      obtain ⟨q, sels, hsel, hp⟩ := (mem_groupCombinations hg (minLen_spec hg)).1 sel hs
      obtain ⟨g, hg', ht⟩ := forall₂_mem_left hsel.takes (hp.mem_iff.1 hl)
      exact (okPM_orderly ho).2 g hg' x (ht.sub.subset hx)
    · exact (okPM_orderly ho).1 x hx

/-- A sequence of a polymorpheme is its only sequence. -/
theorem pm_sequence_single {p : PM} {L : List PM} (h : p.singularSequences = .ok L) {m : PM} (hm : m ∈ L) : m.singularSequences = .ok [m] :=
  pm_single (pm_sequence h hm).1

theorem lexeme_total (x : Lexeme) : ∃ L, x.singularSequences = .ok L := by
  obtain ⟨a, ha⟩ := pm_total x.flexion
  obtain ⟨b, hb⟩ := pm_total x.content
  unfold Lexeme.singularSequences
  rw [ha, hb]
  by_cases h1 : a.length = 1
  · by_cases h2 : b.length = 1
    · exact ⟨_, by simp [h1, h2, bind, Except.bind]; rfl⟩
    · exact ⟨_, by simp [h1, h2, bind, Except.bind]; rfl⟩
  · exact ⟨_, by simp [h1, bind, Except.bind]; rfl⟩

/-- The sequences of a lexeme: itself, or the pairs of sequences of its flexion and content. -/
theorem lexeme_sequence {x : Lexeme} {a b : List PM} (ha : x.flexion.singularSequences = .ok a) (hb : x.content.singularSequences = .ok b)
    {L : List Lexeme} (h : x.singularSequences = .ok L) :
    (a.length = 1 ∧ b.length = 1 ∧ L = [x]) ∨ (¬ (a.length = 1 ∧ b.length = 1) ∧ L = a.flatMap fun f => b.map fun c => mkLexeme f c) := by
  unfold Lexeme.singularSequences at h
  rw [ha, hb] at h
  by_cases h1 : a.length = 1
  · by_cases h2 : b.length = 1
    · simp [h1, h2, bind, Except.bind, pure, Except.pure] at h
      exact .inl ⟨h1, h2, h.symm⟩
    · simp [h1, h2, bind, Except.bind, pure, Except.pure] at h
      exact .inr ⟨fun hh => h2 hh.2, h.symm⟩
  · simp [h1, bind, Except.bind, pure, Except.pure] at h
    exact .inr ⟨fun hh => h1 hh.1, h.symm⟩

/-- A sequence of a lexeme is its only sequence. -/
theorem lexeme_sequence_single {x : Lexeme} {L : List Lexeme} (h : x.singularSequences = .ok L) {y : Lexeme} (hy : y ∈ L) :
    y.singularSequences = .ok [y] := by
  obtain ⟨a, ha⟩ := pm_total x.flexion
  obtain ⟨b, hb⟩ := pm_total x.content
  rcases lexeme_sequence ha hb h with ⟨_, _, rfl⟩ | ⟨_, rfl⟩
  · rw [List.mem_singleton] at hy
    rw [hy, h]
  · obtain ⟨f, hf, hy⟩ := List.mem_flatMap.1 hy
    obtain ⟨c, hc, rfl⟩ := List.mem_map.1 hy
    have e1 : (mkLexeme f c).flexion.singularSequences = .ok [f] := pm_sequence_single ha hf
    have e2 : (mkLexeme f c).content.singularSequences = .ok [c] := pm_sequence_single hb hc
    obtain ⟨M, hM⟩ := lexeme_total (mkLexeme f c)
    rcases lexeme_sequence e1 e2 hM with ⟨_, _, rfl⟩ | ⟨hn, _⟩
    · exact hM
    · exact absurd ⟨rfl, rfl⟩ hn

theorem lexeme_sequence_ok {x : Lexeme} (hx : OkLex x) {L : List Lexeme} (h : x.singularSequences = .ok L) {y : Lexeme} (hy : y ∈ L) : OkLex y := by
  obtain ⟨a, ha⟩ := pm_total x.flexion
  obtain ⟨b, hb⟩ := pm_total x.content
  rcases lexeme_sequence ha hb h with ⟨_, _, rfl⟩ | ⟨_, rfl⟩
  · rw [List.mem_singleton] at hy
    exact hy ▸ hx
  · obtain ⟨f, hf, hy⟩ := List.mem_flatMap.1 hy
    obtain ⟨c, hc, rfl⟩ := List.mem_map.1 hy
    obtain ⟨f0, c0, rfl, h1, h2⟩ := hx
    exact ⟨f, c, rfl, (pm_sequence ha hf).2 h1, (pm_sequence hb hc).2 h2⟩

/-! ### Words -/

/-- The sequences of a word are words of functions of the same shape. -/
theorem word_sequence_made {t : SType} {f : SFun Lexeme} (hok : OkFun t f) {role : Addr} {w : WordUsl} (hw : mkWord f role t = .ok w)
    {L : List WordUsl} (hL : w.singularSequences = .ok L) {w' : WordUsl} (hm : w' ∈ L) :
    OkFun t w'.sfun ∧ w'.sfun.void = f.void ∧ mkWord w'.sfun role t = .ok w' := by
  have hw' : mkWord w.sfun w.role w.context = .ok w ∧ w.sfun = f ∧ w.role = role ∧ w.context = t := by
    have hw0 := hw
    obtain ⟨text, h1, h2⟩ := bind_ok.1 hw
    obtain ⟨cl, h3, h4⟩ := bind_ok.1 h2
    rw [pure_ok] at h4
    subst h4
    exact ⟨hw0, rfl, rfl, rfl⟩
  obtain ⟨_, e1, e2, e3⟩ := hw'
  unfold WordUsl.singularSequences at hL
  obtain ⟨ss, hss, hL⟩ := bind_ok.1 hL
  split at hL
  · rw [pure_ok] at hL
    subst hL
    rw [List.mem_singleton] at hm
    subst hm
    rw [e1]
    exact ⟨hok, rfl, hw⟩
  · obtain ⟨g, hg, hgm⟩ := forall₂_mem_right (mapM_inv hL) hm
    have hgm' : mkWord g role t = .ok w' := by rw [← e2, ← e3]; exact hgm
    have hsf : w'.sfun = g := by
      obtain ⟨text, h1, h2⟩ := bind_ok.1 hgm'
      obtain ⟨cl, h3, h4⟩ := bind_ok.1 h2
      rw [pure_ok] at h4
      rw [← h4]
    rw [hsf]
    rw [e1, e3] at hss
    unfold SFun.sequences at hss
    dsimp only at hss
    split at hss
    · cases hss
    · obtain ⟨xss, hx, hss⟩ := bind_ok.1 hss
      obtain ⟨xs, hxs, hg'⟩ := forall₂_mem_right (mapM_inv hss) hg
      obtain ⟨r, hr, hr'⟩ := bind_ok.1 hg'
      rw [pure_ok] at hr'
      have hlen : (xs.map some).length = (f.asList t).length := by
        rw [List.length_map, (mem_prodL.1 hxs).length_eq, (mapM_inv hx).length_eq]
      obtain ⟨f', k1, k2, k3⟩ := relabel (β := Lexeme) hok hlen
      have : ((f.asList t).zip xs).map (fun e => (e.1.1, some e.2)) = relab (f.asList t) (xs.map some) := by
        rw [relab, List.zipWith_map_right, List.zip, List.map_zipWith]
      rw [← this, hr, Except.ok.injEq] at k1
      subst k1
      subst hr'
      exact ⟨fromList_shape hr, k3, hgm'⟩

theorem nodes_void (f : SFun α) : f.void.nodes = f.nodes.map voidItem := by
  cases f with
  | quality f => exact actors_void f
  | process a v acts =>
    rw [SFun.void, SFun.nodes, SFun.nodes]
    unfold processActors
    rw [List.flatMap_map, List.map_flatMap]
    congr 1
    funext g
    simp only [actors_void, List.map_map]
    rfl

theorem isJunction_void (f : SF α) : f.void.isJunction = f.isJunction := by cases f <;> rfl

/-- Having junctions depends on the shape. -/
theorem plain_void {f g : SFun α} (h : f.void = g.void) (hg : ∀ e ∈ g.nodes, e.2.isJunction = false) : ∀ e ∈ f.nodes, e.2.isJunction = false := by
  intro e he
  have : voidItem e ∈ g.nodes.map voidItem := by
    rw [← nodes_void, ← h, nodes_void]
    exact List.mem_map_of_mem he
  obtain ⟨e', h1, h2⟩ := List.mem_map.1 this
  have := hg e' h1
  have h3 : e'.2.void = e.2.void := congrArg Prod.snd h2
  rw [← isJunction_void, ← h3, isJunction_void]
  exact this

theorem insertBy_map {α β : Type} {lt : α → α → Bool} {lt' : β → β → Bool} {g : α → β} (h : ∀ a b, lt' (g a) (g b) = lt a b) (x : α) :
    ∀ l : List α, insertBy lt' (g x) (l.map g) = (insertBy lt x l).map g
  | [] => rfl
  | y :: l => by
    rw [List.map_cons, insertBy, insertBy, h, insertBy_map h x l]
    split <;> rfl

theorem pySort_map {α β : Type} {lt : α → α → Bool} {lt' : β → β → Bool} {g : α → β} (h : ∀ a b, lt' (g a) (g b) = lt a b) :
    ∀ l : List α, pySort lt' (l.map g) = (pySort lt l).map g
  | [] => rfl
  | x :: l => by rw [List.map_cons, pySort, pySort, pySort_map h l, insertBy_map h]

/-- Two lists of pairs with the same keys in the same order, each once, and the same pairs, are equal. -/
theorem pairs_eq {α β : Type} {l m : List (α × β)} (hp : l.Perm m) (hk : l.map (·.1) = m.map (·.1)) (hn : (l.map (·.1)).Nodup) : l = m := by
  refine List.ext_getElem hp.length_eq fun i h1 h2 => ?_
  have hm : l[i] ∈ m := hp.mem_iff.1 (List.getElem_mem h1)
  obtain ⟨j, h3, h4⟩ := List.getElem_of_mem hm
  have k1 : (l.map (·.1))[i]'(by simpa using h1) = (l.map (·.1))[j]'(by rw [hk]; simpa using h3) := by
    rw [List.getElem_map]
    simp only [hk, List.getElem_map, h4]
  have := (List.Nodup.getElem_inj_iff hn).1 k1
  subst this
  exact h4.symm

/-- Words with the same roles are equal exactly when they have equal lexemes at the same roles. -/
theorem word_text_iff {w v : WordUsl} {t : SType} {f g : SFun Lexeme} {r : Addr} (hw : WordData w t f r) (hv : WordData v t g r)
    (ha : f.items.map (·.1) = g.items.map (·.1)) : w.text = v.text ↔ f.items.map entrySays = g.items.map entrySays := by
  have okw : OkWord w := ⟨t, f, r, hw⟩
  have okv : OkWord v := ⟨t, g, r, hv⟩
  have k := codeEs_pf (u := codeAddr w.role) (v := codeAddr v.role) okw.entry okv.entry
  rw [← codeWord_iff okw okv, codeWord, codeWord, k, hw.attrs.1, hv.attrs.1, hw.attrs.2.1, hv.attrs.2.1, and_iff_left rfl,
    SFun.sorted, SFun.sorted, hw.entries, hv.entries]
  have hs : ∀ l : List (RoleEntry Lexeme), pySort (fun a b : Addr × Option Str => addrLt a.1 b.1) (l.map entrySays) =
      (pySort (fun a b => addrLt a.1 b.1) l).map entrySays := pySort_map fun a b => rfl
  rw [← hs, ← hs]
  constructor
  · intro h
    have hp : (f.items.map entrySays).Perm (g.items.map entrySays) := by
      have := pySort_perm (fun a b : Addr × Option Str => addrLt a.1 b.1) (f.items.map entrySays)
      rw [h] at this
      exact this.symm.trans (pySort_perm _ _)
    refine pairs_eq hp ?_ ?_
    · rw [List.map_map, List.map_map]
      exact ha
    · rw [List.map_map]
      exact items_nodup hw.fn
  · intro h
    rw [h]

/-- The lexemes at the items of a word have sequences. -/
theorem item_sequences {f : SFun Lexeme} (hf : ∀ e ∈ f.items, ∃ x, e.2 = some x ∧ OkLex x) :
    ∃ xss : List (List Lexeme), List.Forall₂ (fun e xs => ∃ x : Lexeme, e.2 = some x ∧ OkLex x ∧ x.singularSequences = .ok xs) f.items xss := by
  generalize f.items = l at hf
  induction l with
  | nil => exact ⟨[], .nil⟩
  | cons e l ih =>
    obtain ⟨xss, h⟩ := ih fun e he => hf e (by simp [he])
    obtain ⟨x, h1, h2⟩ := hf e (by simp)
    obtain ⟨xs, h3⟩ := lexeme_total x
    exact ⟨xs :: xss, .cons ⟨x, h1, h2, h3⟩ h⟩

theorem says_relab : ∀ {l : List (RoleEntry Lexeme)} {xs : List Lexeme}, xs.length = l.length →
    (relab l (xs.map some)).map entrySays = (l.map (·.1)).zip (xs.map fun x => some x.text)
  | [], [], _ => rfl
  | [], _ :: _, h => by cases h
  | _ :: _, [], h => by cases h
  | e :: l, x :: xs, h => by
    have ih := says_relab (l := l) (xs := xs) (by simpa using h)
    simp only [relab, List.map_cons, List.zipWith_cons_cons, List.zip_cons_cons] at ih ⊢
    rw [ih]
    rfl

theorem relab_addr : ∀ {l : List (RoleEntry Lexeme)} {xs : List Lexeme}, xs.length = l.length →
    (relab l (xs.map some)).map (·.1) = l.map (·.1)
  | [], [], _ => rfl
  | [], _ :: _, h => by cases h
  | _ :: _, [], h => by cases h
  | e :: l, x :: xs, h => by
    have ih := relab_addr (l := l) (xs := xs) (by simpa using h)
    simp only [relab, List.map_cons, List.zipWith_cons_cons] at ih ⊢
    rw [ih]

theorem mem_relab : ∀ {l : List (RoleEntry Lexeme)} {xs : List Lexeme} {e : RoleEntry Lexeme}, e ∈ relab l (xs.map some) → ∃ x ∈ xs, e.2 = some x
  | [], _, e, h => by simp [relab] at h
  | _ :: _, [], e, h => by simp [relab] at h
  | a :: l, x :: xs, e, h => by
    simp only [relab, List.map_cons, List.zipWith_cons_cons, List.mem_cons] at h
    rcases h with rfl | h
    · exact ⟨x, by simp, rfl⟩
    · obtain ⟨y, h1, h2⟩ := mem_relab (l := l) (xs := xs) h
      exact ⟨y, by simp [h1], h2⟩

/-- The sequences of a word, by its items. -/
theorem word_items {w : WordUsl} {t : SType} {f : SFun Lexeme} {r : Addr} (hw : WordData w t f r) {xss : List (List Lexeme)}
    (hx : List.Forall₂ (fun e xs => ∃ x : Lexeme, e.2 = some x ∧ OkLex x ∧ x.singularSequences = .ok xs) f.items xss) :
    ∃ L, w.singularSequences = .ok L ∧ L.map (fun w => w.sfun.items) = (prodL xss).map (fun xs => relab f.items (xs.map some)) ∧
      ∀ w' ∈ L, WordData w' t w'.sfun r ∧ w'.sfun.items.map (·.1) = f.items.map (·.1) := by
  have hf := fromList_back hw.fn
  have hx' : List.Forall₂ (fun e xs => ∃ x : Lexeme, e.2 = some x ∧ x.singularSequences = .ok xs) (f.asList t) xss := by
    rw [asList_items, List.forall₂_map_left_iff]
    refine hx.imp ?_
    rintro e xs ⟨x, h1, _, h2⟩
    exact ⟨x, h1, h2⟩
  obtain ⟨L, h1, _, h3, _⟩ := C48_word_partial hf hw.made hx'
  have hlen : ∀ xs ∈ prodL xss, xs.length = f.items.length := fun xs h => ((mem_prodL.1 h).length_eq).trans hx.length_eq.symm
  have hrelab : ∀ xs : List Lexeme, withActors (f.asList t) xs = (relab f.items (xs.map some)).map (pushAddr t.pre) := by
    intro xs
    rw [← relab_push, ← asList_items, withActors, relab, List.zipWith_map_right, List.zip, List.map_zipWith]
  have hinj : Function.Injective (List.map (pushAddr (α := Lexeme) t.pre)) := by
    refine List.map_injective_iff.2 ?_
    rintro ⟨a, o⟩ ⟨b, o'⟩ h
    simp only [pushAddr, Prod.mk.injEq, List.append_cancel_left_eq] at h
    rw [h.1, h.2]
  have hitems : L.map (fun w => w.sfun.items) = (prodL xss).map (fun xs => relab f.items (xs.map some)) := by
    refine List.map_injective_iff.2 hinj ?_
    rw [List.map_map, List.map_map]
    refine Eq.trans ?_ (h3.trans ?_)
    · exact List.map_congr_left fun w _ => (asList_items t w.sfun).symm
    · exact List.map_congr_left fun xs _ => hrelab xs
  refine ⟨L, h1, hitems, fun w' hw' => ?_⟩
  obtain ⟨k1, k2, k3⟩ := word_sequence_made hw.fn hw.made h1 hw'
  have : w'.sfun.items ∈ (prodL xss).map (fun xs => relab f.items (xs.map some)) := by
    rw [← hitems]
    exact List.mem_map_of_mem hw'
  obtain ⟨xs, hxs, e⟩ := List.mem_map.1 this
  refine ⟨⟨k1, k3, plain_void k2 hw.plain, fun e' he => ?_⟩, by rw [← e, relab_addr (hlen xs hxs)]⟩
  rw [← e] at he
  obtain ⟨x, hx1, hx2⟩ := mem_relab he
  refine ⟨x, hx2, ?_⟩
  obtain ⟨ys, hy1, hy2⟩ := forall₂_mem_left (mem_prodL.1 hxs) hx1
  obtain ⟨e'', _, y, _, ho, hs⟩ := forall₂_mem_right hx hy1
  exact lexeme_sequence_ok ho hs hy2

end Verif
