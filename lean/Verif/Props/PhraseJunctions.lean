import Verif.Props.Phrase

/-
C93 for words with junctions: the sequences of a word whose text can be read back have different texts.
-/

namespace Verif
open Script

/-- A sequence of a polymorpheme of legible morphemes is one. -/
theorem legible_pm {cs : List Script} {gs : List Group} (h : Legible cs gs) {L : List PM} (hL : (mkPM cs gs).singularSequences = .ok L) {m : PM}
    (hm : m ∈ L) : ∃ cs' gs', Legible cs' gs' ∧ m = mkPM cs' gs' := by
  by_cases hg : (mkPM cs gs).groups = []
  · rw [pm_single hg, Except.ok.injEq] at hL
    subst hL
    rw [List.mem_singleton] at hm
    exact ⟨cs, gs, h, hm⟩
  · rw [PM.singularSequences, if_neg (by simpa using hg)] at hL
    obtain ⟨L', h', _, h3, _⟩ := pmSequences_spec (mkPM cs gs).constant (mkPM cs gs).groups
    rw [h', Except.ok.injEq] at hL
    subst hL
    obtain ⟨sel, hs, _, rfl⟩ := h3 m hm
    refine ⟨_, [], ⟨fun x hx => ?_, by simp, by simp⟩, rfl⟩
    have hx := mem_dedupBy (key := str) hx
    rcases List.mem_append.1 hx with hx | hx
    · obtain ⟨l, hl, hx⟩ := List.mem_flatten.1 hx
      obtain ⟨q, sels, hsel, hp⟩ := (mem_groupCombinations hg (minLen_spec hg)).1 sel hs
      obtain ⟨g, hg', ht⟩ := forall₂_mem_left hsel.takes (hp.mem_iff.1 hl)
      have hg' : g ∈ pySort ltGroup (gs.map fun g => (pySort lt (filterEmpty g.1), g.2)) := hg'
      rw [mem_pySort, List.mem_map] at hg'
      obtain ⟨g0, hg0, rfl⟩ := hg'
      have hx : x ∈ pySort lt (filterEmpty g0.1) := ht.sub.subset hx
      rw [mem_pySort] at hx
      exact h.groups g0 hg0 x (List.mem_filter.1 hx).1
    · have hx : x ∈ (if (pySort lt (filterEmpty cs)).isEmpty then [.null 0] else pySort lt (filterEmpty cs)) := hx
      split at hx
      · rw [List.mem_singleton] at hx
        subst hx
        exact ⟨⟨wf_built (.null (Nat.zero_le _)), .inl (by simp [NotOneTermSum])⟩, fun h => absurd h (by decide)⟩
      · rw [mem_pySort] at hx
        exact h.constant x (List.mem_filter.1 hx).1

/-- A sequence of a legible lexeme is legible. -/
theorem legible_sequence {x : Lexeme} (h : LegibleLexeme x) {L : List Lexeme} (hL : x.singularSequences = .ok L) {y : Lexeme} (hy : y ∈ L) :
    LegibleLexeme y := by
  obtain ⟨a, ha⟩ := pm_total x.flexion
  obtain ⟨b, hb⟩ := pm_total x.content
  rcases lexeme_sequence ha hb hL with ⟨_, _, rfl⟩ | ⟨_, rfl⟩
  · rw [List.mem_singleton] at hy
    exact hy ▸ h
  · obtain ⟨f, hf, hy⟩ := List.mem_flatMap.1 hy
    obtain ⟨c, hc, rfl⟩ := List.mem_map.1 hy
    obtain ⟨fc, fg, cc, cg, h1, h2, rfl⟩ := h
    obtain ⟨fc', fg', k1, rfl⟩ := legible_pm h1 ha hf
    obtain ⟨cc', cg', k2, rfl⟩ := legible_pm h2 hb hc
    exact ⟨_, _, _, _, k1, k2, rfl⟩

theorem legible_ok {x : Lexeme} (h : LegibleLexeme x) : OkLex x := by
  obtain ⟨fc, fg, cc, cg, h1, h2, rfl⟩ := h
  have key : ∀ {cs gs}, Legible cs gs → OkPM (mkPM cs gs) := fun {cs gs} h =>
    ⟨cs, gs, rfl, fun x hx => (h.constant x hx).1, fun g hg x hx => (h.groups g hg x hx).1⟩
  exact ⟨_, _, rfl, key h1, key h2⟩

/-- The sequences of a word are words made from a list. -/
theorem word_sequence_list {l : List (RoleEntry Lexeme)} {t : SType} {f : SFun Lexeme} {role : Addr} {w : WordUsl} (hf : fromList l = .ok (t, f))
    (hw : mkWord f role t = .ok w) {xss : List (List Lexeme)}
    (hx : List.Forall₂ (fun e xs => ∃ x : Lexeme, e.2 = some x ∧ x.singularSequences = .ok xs) (f.asList t) xss) {L : List WordUsl}
    (hL : w.singularSequences = .ok L) {v : WordUsl} (hv : v ∈ L) : ∃ l', fromList l' = .ok (t, v.sfun) ∧ mkWord v.sfun role t = .ok v := by
  have hok := fromList_shape hf
  obtain ⟨text, h1, h2⟩ := bind_ok.1 hw
  obtain ⟨cl, h3, h4⟩ := bind_ok.1 h2
  rw [pure_ok] at h4
  subst h4
  obtain ⟨fs, h5, h6⟩ := bind_ok.1 hL
  split at h6
  · rw [pure_ok] at h6
    subst h6
    rw [List.mem_singleton] at hv
    subst hv
    exact ⟨l, hf, hw⟩
  · obtain ⟨g, hg, hgv⟩ := (mapM_mem h6).1 hv
    have hvg : v.sfun = g := by
      obtain ⟨_, _, k⟩ := bind_ok.1 hgv
      obtain ⟨_, _, k⟩ := bind_ok.1 k
      rw [pure_ok] at k
      rw [← k]
    have hgv : mkWord g role t = .ok v := hgv
    subst hvg
    have h5 : f.sequences Lexeme.singularSequences t = .ok fs := h5
    unfold SFun.sequences at h5
    simp only at h5
    by_cases hem : (f.asList t).isEmpty = true
    · rw [if_pos hem] at h5; cases h5
    · rw [if_neg hem] at h5
      obtain ⟨xss', h7, h8⟩ := bind_ok.1 h5
      have hmap : (f.asList t).mapM (actorSequences Lexeme.singularSequences) = .ok xss := by
        refine mapM_of_forall₂ (hx.imp ?_)
        rintro ⟨a, o⟩ xs ⟨x, rfl, h⟩
        exact h
      have : xss' = xss := by rw [hmap] at h7; injection h7 with h7; exact h7.symm
      subst this
      obtain ⟨xs, hxs, hg'⟩ := (mapM_mem h8).1 hg
      obtain ⟨r, h9, h10⟩ := bind_ok.1 hg'
      rw [pure_ok] at h10
      have hlen : xs.length = (f.asList t).length := ((mem_prodL.1 hxs).length_eq).trans hx.length_eq.symm
      obtain ⟨g, g1, _, _⟩ := relabel (β := Lexeme) hok (xs := xs.map some) (by rw [List.length_map]; exact hlen)
      have hrelab : withActors (f.asList t) xs = relab (f.asList t) (xs.map some) := by
        rw [withActors, relab, List.zipWith_map_right, List.zip, List.map_zipWith]
      have h9 : fromList (withActors (f.asList t) xs) = .ok r := h9
      rw [← hrelab, h9, Except.ok.injEq] at g1
      exact ⟨withActors (f.asList t) xs, by rw [h9, ← h10, g1], hgv⟩

theorem legible_lists {A : List (RoleEntry Lexeme)} (hx : ∀ e ∈ A, ∃ x, e.2 = some x ∧ LegibleLexeme x) :
    ∃ xss, List.Forall₂ (fun e xs => ∃ x : Lexeme, e.2 = some x ∧ LegibleLexeme x ∧ x.singularSequences = .ok xs) A xss := by
  induction A with
  | nil => exact ⟨[], .nil⟩
  | cons e A ih =>
    obtain ⟨xss, h⟩ := ih fun e he => hx e (by simp [he])
    obtain ⟨x, h1, h2⟩ := hx e (by simp)
    obtain ⟨xs, h3⟩ := lexeme_total x
    exact ⟨xs :: xss, .cons ⟨x, h1, h2, h3⟩ h⟩

/-- The addresses of a list with other lexemes. -/
theorem withActors_roles {A : List (RoleEntry Lexeme)} {xs : List Lexeme} (h : xs.length = A.length) : (withActors A xs).map (·.1) = A.map (·.1) := by
  rw [withActors, List.map_map, show ((fun e : RoleEntry Lexeme => e.1) ∘ fun e : RoleEntry Lexeme × Lexeme => ((e.1.1, some e.2) : RoleEntry Lexeme)) =
    (fun e => e.1) ∘ Prod.fst from rfl, ← List.map_map, List.map_fst_zip (by omega)]

/-- The sequences of a word of legible lexemes, whose role is the address of one of them, are such words. -/
theorem word_sequence_legible {l : List (RoleEntry Lexeme)} {t : SType} {f : SFun Lexeme} {role : Addr} {w : WordUsl} (hf : fromList l = .ok (t, f))
    (hw : mkWord f role t = .ok w) (hrole : ∃ x, (role, x) ∈ f.asList t) (hx : ∀ e ∈ f.asList t, ∃ x, e.2 = some x ∧ LegibleLexeme x)
    {L : List WordUsl} (hL : w.singularSequences = .ok L) {v : WordUsl} (hv : v ∈ L) :
    ∃ l', fromList l' = .ok (t, v.sfun) ∧ mkWord v.sfun role t = .ok v ∧ (∃ x, (role, x) ∈ v.sfun.asList t) ∧
      ∀ e ∈ v.sfun.asList t, ∃ x, e.2 = some x ∧ LegibleLexeme x := by
  obtain ⟨xss, hxs⟩ := legible_lists hx
  have hxs' : List.Forall₂ (fun e xs => ∃ x : Lexeme, e.2 = some x ∧ x.singularSequences = .ok xs) (f.asList t) xss :=
    hxs.imp fun e xs ⟨x, h1, _, h2⟩ => ⟨x, h1, h2⟩
  obtain ⟨L', h1, h2, h3, h4⟩ := C48_word_partial hf hw hxs'
  rw [hL, Except.ok.injEq] at h1
  subst h1
  have hvA : v.sfun.asList t ∈ (prodL xss).map (withActors (f.asList t)) := by
    rw [← h3]; exact List.mem_map_of_mem (f := fun w : WordUsl => w.sfun.asList t) hv
  obtain ⟨xs, hxm, hxe⟩ := List.mem_map.1 hvA
  obtain ⟨l', k1, k2⟩ := word_sequence_list hf hw hxs' hL hv
  have hr := withActors_roles (A := f.asList t) (((mem_prodL.1 hxm).length_eq).trans hxs.length_eq.symm)
  rw [hxe] at hr
  refine ⟨l', k1, k2, ?_, ?_⟩
  · obtain ⟨x, hx⟩ := hrole
    have : role ∈ (v.sfun.asList t).map (·.1) := by rw [hr]; exact List.mem_map.2 ⟨_, hx, rfl⟩
    obtain ⟨e, he, rfl⟩ := List.mem_map.1 this
    exact ⟨e.2, he⟩
  · intro e he
    rw [← hxe, withActors, List.mem_map] at he
    obtain ⟨p, hp, rfl⟩ := he
    refine ⟨p.2, rfl, ?_⟩
    obtain ⟨ys, hys, hpy⟩ := forall₂_mem_left (mem_prodL.1 hxm) (List.of_mem_zip hp).2
    obtain ⟨_, _, x, _, k3, k4⟩ := forall₂_mem_right hxs hys
    exact legible_sequence k3 k4 hpy

/-- Lists of the same entries with the same keys, which are different, are equal. -/
theorem keys_eq {α β : Type} : ∀ {l m : List (α × β)}, l.Perm m → (l.map (·.1)).Nodup → l.map (·.1) = m.map (·.1) → l = m
  | [], m, h, _, _ => h.nil_eq
  | x :: l, [], h, _, _ => by simpa using h.symm.nil_eq
  | x :: l, y :: m, h, hn, he => by
    rw [List.map_cons, List.map_cons, List.cons.injEq] at he
    rw [List.map_cons, List.nodup_cons] at hn
    have hxy : x = y := by
      rcases List.mem_cons.1 (h.mem_iff.1 (List.mem_cons_self ..)) with e | e
      · exact e
      · exact absurd (by rw [he.2]; exact List.mem_map_of_mem (f := fun e : α × β => e.1) e) hn.1
    subst hxy
    rw [keys_eq h.cons_inv hn.2 he.2]

/-- **C93**, words with junctions: the sequences of a word whose lexemes are legible and whose role is the address of one of them have different texts. -/
theorem C93_junctions_partial {l : List (RoleEntry Lexeme)} {t : SType} {f : SFun Lexeme} {role : Addr} {w : WordUsl} (hf : fromList l = .ok (t, f))
    (hw : mkWord f role t = .ok w) (hrole : ∃ x, (role, x) ∈ f.asList t) (hx : ∀ e ∈ f.asList t, ∃ x, e.2 = some x ∧ LegibleLexeme x)
    {L : List WordUsl} (hL : w.singularSequences = .ok L) : L.Pairwise fun a b => a.text ≠ b.text := by
  have hok := fromList_shape hf
  obtain ⟨xss, hxs⟩ := legible_lists hx
  have hxs' : List.Forall₂ (fun e xs => ∃ x : Lexeme, e.2 = some x ∧ x.singularSequences = .ok xs) (f.asList t) xss :=
    hxs.imp fun e xs ⟨x, h1, _, h2⟩ => ⟨x, h1, h2⟩
  obtain ⟨L', h1, h2, h3, h4⟩ := C48_word_partial hf hw hxs'
  rw [hL, Except.ok.injEq] at h1
  subst h1
  have hlen : ∀ xs ∈ prodL xss, xs.length = (f.asList t).length := fun xs h => ((mem_prodL.1 h).length_eq).trans hxs.length_eq.symm
  have hroles : ∀ xs : List Lexeme, xs.length = (f.asList t).length → (withActors (f.asList t) xs).map (·.1) = (f.asList t).map (·.1) :=
    fun _ h => withActors_roles h
  have hactors : ∀ xs : List Lexeme, xs.length = (f.asList t).length → (withActors (f.asList t) xs).map (·.2) = xs.map some := by
    intro xs h
    rw [withActors, List.map_map, show ((fun e : RoleEntry Lexeme => e.2) ∘ fun e : RoleEntry Lexeme × Lexeme => ((e.1.1, some e.2) : RoleEntry Lexeme)) = some ∘ Prod.snd from rfl,
      ← List.map_map, List.map_snd_zip (by omega)]
  have hnod : ((f.asList t).map (·.1)).Nodup := by
    rw [asList_items, List.map_map]
    have : ((fun e : RoleEntry Lexeme => e.1) ∘ pushAddr t.pre) = (t.pre ++ ·) ∘ fun e => e.1 := rfl
    rw [this, ← List.map_map]
    exact (items_nodup hok).map (fun a b h => List.append_cancel_left h)
  -- the lists of lexemes are different
  have hd : (prodL xss).Pairwise fun a b => ¬ List.Forall₂ (fun x y : Lexeme => x.text = y.text) a b := by
    refine nodup_prodL fun l hl => ?_
    obtain ⟨e, _, x, _, ho, hs⟩ := forall₂_mem_right hxs hl
    exact C93_lexeme_partial (legible_ok ho) hs
  have hdA : ((prodL xss).map (withActors (f.asList t))).Pairwise fun A B => A.map (fun e => e.2.map Lexeme.text) ≠ B.map fun e => e.2.map Lexeme.text := by
    rw [List.pairwise_map]
    refine hd.imp_of_mem ?_
    intro a b ha hb hab e
    apply hab
    have ea : (withActors (f.asList t) a).map (fun e => e.2.map Lexeme.text) = a.map fun x => some x.text := by
      have := congrArg (List.map (Option.map Lexeme.text)) (hactors a (hlen a ha))
      simpa [List.map_map, Function.comp_def] using this
    have eb : (withActors (f.asList t) b).map (fun e => e.2.map Lexeme.text) = b.map fun x => some x.text := by
      have := congrArg (List.map (Option.map Lexeme.text)) (hactors b (hlen b hb))
      simpa [List.map_map, Function.comp_def] using this
    rw [ea, eb] at e
    have e3 : a.map Lexeme.text = b.map Lexeme.text := by
      have := congrArg (List.map fun o : Option Str => o.getD []) e
      simpa [Function.comp_def] using this
    rw [← List.forall₂_eq_eq_eq, List.forall₂_map_left_iff, List.forall₂_map_right_iff] at e3
    exact e3
  rw [← h3, List.pairwise_map] at hdA
  refine hdA.imp_of_mem ?_
  intro a b ha hb hab hh
  apply hab
  have reads : ∀ v ∈ L, ∃ w', uslRead v.text = .ok (.word w', []) ∧ SameWord w' v ∧ (v.sfun.asList t).map (·.1) = (f.asList t).map (·.1) := by
    intro v hv
    have hvA : v.sfun.asList t ∈ (prodL xss).map (withActors (f.asList t)) := by
      rw [← h3]; exact List.mem_map_of_mem (f := fun w : WordUsl => w.sfun.asList t) hv
    obtain ⟨xs, hxm, hxe⟩ := List.mem_map.1 hvA
    have hr := hroles xs (hlen xs hxm)
    rw [hxe] at hr
    obtain ⟨l', k1, k2, k3, k4⟩ := word_sequence_legible hf hw hrole hx hL hv
    obtain ⟨w', r1, r2⟩ := C62_word_partial k1 k2 k3 k4
    exact ⟨w', r1, r2, hr⟩
  obtain ⟨wa, ra, sa, ea⟩ := reads a ha
  obtain ⟨wb, rb, sb, eb⟩ := reads b hb
  rw [hh, rb] at ra
  injection ra with ra
  injection ra with ra _
  injection ra with ra
  subst ra
  obtain ⟨la, pa, fa⟩ := sa.lexemes
  obtain ⟨lb, pb, fb⟩ := sb.lexemes
  have ca : a.context = t := (h4 a ha).2.1
  have cb : b.context = t := (h4 b hb).2.1
  rw [ca] at fa
  rw [cb] at fb
  have first : ∀ {la A : List (RoleEntry Lexeme)}, List.Forall₂ (fun e' e => e'.1 = e.1 ∧ SameActor e'.2 e.2) la A →
      la.map (·.1) = A.map (·.1) ∧ la.map (fun e => e.2.map Lexeme.text) = A.map fun e => e.2.map Lexeme.text := by
    intro la A h
    induction h with
    | nil => exact ⟨rfl, rfl⟩
    | @cons e' e _ _ h _ ih =>
      refine ⟨by rw [List.map_cons, List.map_cons, ih.1, h.1], ?_⟩
      rw [List.map_cons, List.map_cons, ih.2]
      congr 1
      have h := h.2
      cases h1 : e'.2 <;> cases h2 : e.2 <;> rw [h1, h2] at h <;> first | rfl | exact congrArg some h.1 | exact h.elim
  obtain ⟨a1, a2⟩ := first fa
  obtain ⟨b1, b2⟩ := first fb
  have e : la = lb := keys_eq (pa.trans pb.symm) (by rw [a1, ea]; exact hnod) (by rw [a1, b1, ea, eb])
  rw [← a2, ← b2, e]

/-- A word made from a list, with or without junctions, whose lexemes are legible and whose role is the address of one of them. -/
def ReadWord (w : WordUsl) : Prop := ∃ l t f role, fromList l = .ok (t, f) ∧ mkWord f role t = .ok w ∧ (∃ x, (role, x) ∈ f.asList t) ∧
  ∀ e ∈ f.asList t, ∃ x, e.2 = some x ∧ LegibleLexeme x

theorem readWord_made {w : WordUsl} (h : ReadWord w) : MadeWord w := by
  obtain ⟨l, t, f, role, hf, hw, _, hx⟩ := h
  have hok := fromList_shape hf
  refine ⟨f.asList t, t, f, role, fromList_back hok, hw, ?_, ?_⟩
  · intro e he x hx'
    obtain ⟨y, hy, ho⟩ := hx e he
    rw [hy, Option.some.injEq] at hx'
    exact okLex_made (hx' ▸ legible_ok ho)
  · intro e he a ha
    rw [asList_items] at he
    obtain ⟨e', he', rfl⟩ := List.mem_map.1 he
    rcases List.mem_append.1 ha with ha | ha
    · exact address_made a (pre_address t a ha)
    · exact address_made a (items_address hok e' he' a ha)

/-- A sequence of such a word is such a word. -/
theorem readWord_sequence {w : WordUsl} (h : ReadWord w) {L : List WordUsl} (hL : w.singularSequences = .ok L) {v : WordUsl} (hv : v ∈ L) :
    ReadWord v := by
  obtain ⟨l, t, f, role, hf, hw, hrole, hx⟩ := h
  obtain ⟨l', k1, k2, k3, k4⟩ := word_sequence_legible hf hw hrole hx hL hv
  exact ⟨l', t, v.sfun, role, k1, k2, k3, k4⟩

/-- A word with a junction of two lexemes. -/
theorem junction_read : ∃ w, ReadWord w ∧ (w.singularSequences.map List.length) = .ok 12 := by
  refine ⟨_, ⟨demoJunction, _, _, [c!"E:T:."], rfl, rfl, ⟨_, List.mem_cons_self⟩, ?_⟩, by decide +kernel⟩
  intro e he
  rcases List.mem_cons.1 he with rfl | he
  · exact ⟨_, rfl, legible_demo.1⟩
  rcases List.mem_cons.1 he with rfl | he
  · exact ⟨_, rfl, legible_demo.2⟩
  rcases List.mem_cons.1 he with rfl | he
  · exact ⟨_, rfl, legible_demo.1⟩
  · cases he

/-- **C93**, number, with junctions: a phrase of words whose text can be read back has as many sequences as there are combinations of sequences of its
words, in the order of the product. -/
theorem C93_cardinal_junctions_partial {s a m : WordUsl} (os : ReadWord s) (oa : ReadWord a) (om : ReadWord m) {ss as ms : List WordUsl}
    (hs : s.singularSequences = .ok ss) (ha : a.singularSequences = .ok as) (hm : m.singularSequences = .ok ms) :
    (mkPhrase s a m).cardinal = .ok (ss.length * (as.length * ms.length)) ∧
    (ss.length * (as.length * ms.length) ≠ 1 → (mkPhrase s a m).singularSequences =
      .ok (ss.flatMap fun s' => as.flatMap fun a' => ms.map fun m' => mkPhrase s' a' m')) := by
  have d : ∀ {w : WordUsl}, ReadWord w → ∀ {L}, w.singularSequences = .ok L → L.Pairwise fun a b => a.text ≠ b.text := by
    rintro w ⟨l, t, f, role, hf, hw, hrole, hx⟩ L hL
    exact C93_junctions_partial hf hw hrole hx hL
  exact phrase_cardinal (d os hs) (d oa ha) (d om hm) (fun _ h => readWord_made (readWord_sequence os hs h))
    (fun _ h => readWord_made (readWord_sequence oa ha h)) hs ha hm

/-- A word that was read, clean, is such a word. -/
theorem read_readWord {t : Str} {w : WordUsl} {ds : List (Str × Str)} (h : uslRead t = .ok (.word w, ds)) (hc : (Expr.word w).Clean) : ReadWord w := by
  have hm := read_made h
  have ha := MadeWord.actors hm.1
  obtain ⟨⟨l, t', f, role, hf, hw, _⟩, x, hx⟩ := hm
  obtain ⟨e1, e2, e3, _⟩ := mkWord_parts hw
  rw [e1, e3] at ha hx
  have hc : ∀ e ∈ w.sfun.asList w.context, ∃ x, e.2 = some x ∧ CleanLexeme x := hc
  rw [e1, e3] at hc
  rw [e2] at hx
  refine ⟨l, t', f, role, hf, hw, ⟨_, hx⟩, fun e he => ?_⟩
  obtain ⟨y, hy, hcy⟩ := hc e he
  exact ⟨y, hy, made_legibleLexeme (ha e he y hy) hcy⟩

/-- **C93**, for words that were read, with or without junctions, and are clean: the sequences of each have different texts, and the phrase has as many
sequences as there are combinations of them. -/
theorem C93_read_partial {ts ta tm : Str} {s a m : WordUsl} {d1 d2 d3 : List (Str × Str)} (h1 : uslRead ts = .ok (.word s, d1)) (c1 : (Expr.word s).Clean)
    (h2 : uslRead ta = .ok (.word a, d2)) (c2 : (Expr.word a).Clean) (h3 : uslRead tm = .ok (.word m, d3)) (c3 : (Expr.word m).Clean)
    {ss as ms : List WordUsl} (hs : s.singularSequences = .ok ss) (ha : a.singularSequences = .ok as) (hm : m.singularSequences = .ok ms) :
    (∀ L ∈ [ss, as, ms], L.Pairwise fun a b => a.text ≠ b.text) ∧ (mkPhrase s a m).cardinal = .ok (ss.length * (as.length * ms.length)) := by
  have o1 := read_readWord h1 c1
  have o2 := read_readWord h2 c2
  have o3 := read_readWord h3 c3
  have d : ∀ {w : WordUsl}, ReadWord w → ∀ {L}, w.singularSequences = .ok L → L.Pairwise fun a b => a.text ≠ b.text := by
    rintro w ⟨l, t, f, role, hf, hw, hrole, hx⟩ L hL
    exact C93_junctions_partial hf hw hrole hx hL
  refine ⟨?_, (C93_cardinal_junctions_partial o1 o2 o3 hs ha hm).1⟩
  intro L hL
  simp only [List.mem_cons, List.not_mem_nil, or_false] at hL
  rcases hL with rfl | rfl | rfl
  · exact d o1 hs
  · exact d o2 ha
  · exact d o3 hm

/-- The check of such a word. -/
theorem readWord_check {w : WordUsl} (h : ReadWord w) : w.check = true ↔ ∀ e ∈ w.sfun.asList w.context, ∃ x, e.2 = some x ∧ SoundLexeme x := by
  obtain ⟨l, t, f, role, hf, hw, ⟨x, hr⟩, hx⟩ := h
  obtain ⟨e1, _, e3, _⟩ := mkWord_parts hw
  rw [e1, e3]
  refine C76_word_partial hf hw ?_ fun e he y hy => ?_
  · rw [asList_items] at hr
    obtain ⟨e', _, h⟩ := List.mem_map.1 hr
    have h := congrArg Prod.fst h
    exact ⟨e'.1, h⟩
  · obtain ⟨z, hz, hl⟩ := hx e he
    rw [hz, Option.some.injEq] at hy
    exact hy ▸ legible_ok hl

/-- **C93**, check: `check_phrase` accepts a phrase of such words exactly when every lexeme of each of the three is acceptable. -/
theorem C93_check_partial {s a m : WordUsl} (os : ReadWord s) (oa : ReadWord a) (om : ReadWord m) :
    (mkPhrase s a m).check = true ↔ ∀ w ∈ [s, a, m], ∀ e ∈ w.sfun.asList w.context, ∃ x, e.2 = some x ∧ SoundLexeme x := by
  show (s.check && a.check && m.check) = true ↔ _
  rw [Bool.and_eq_true, Bool.and_eq_true, readWord_check os, readWord_check oa, readWord_check om]
  simp [and_assoc]

end Verif
