import Verif.Props.Simplify

/-
C78: the morphemes of lexemes and words, and which of them are called empty.
-/

namespace Verif
open Script

/-! ### The order, with the empty morpheme -/

/-- The morphemes of a polymorpheme: those among which `<` is an order, and the empty one. -/
def Good0 (x : Script) : Prop := Good x ∨ x = null 0

theorem good0_unwrap {x : Script} (h : Good0 x) : WF x ∧ (unwrap x).isNull = x.isNull := by
  rcases h with h | rfl
  · obtain ⟨wx, _, _⟩ := unwrap_wf h.wf
    have ex : (unwrap x).empty = false := by rw [empty_of_str wx h.wf (str_unwrap x), h.ne]
    exact ⟨h.wf, by rw [isNull_of_ne ex, isNull_of_ne h.ne]⟩
  · exact ⟨.null (by omega), rfl⟩

theorem lt_KK0 {x y : Script} (hx : Good0 x) (hy : Good0 y) : lt x y = ltBytes (KK x) (KK y) := by
  by_cases h : Good x ∧ Good y
  · exact lt_KK h.1 h.2
  · have hn : x.isNull = true ∨ y.isNull = true := by
      rcases hx with hx | rfl
      · rcases hy with hy | rfl
        · exact absurd ⟨hx, hy⟩ h
        · exact .inr rfl
      · exact .inl rfl
    obtain ⟨ex, nx⟩ := good0_unwrap hx
    obtain ⟨ey, ny⟩ := good0_unwrap hy
    obtain ⟨wx, px, lx⟩ := unwrap_wf ex
    obtain ⟨wy, py, ly⟩ := unwrap_wf ey
    rw [KK, KK, ← lt_K wx px wy py, lt_eq, lt_eq]
    simp only [ltStages, pyEq, str_unwrap, lx, ly, nx, ny]
    rcases hn with hn | hn
    · simp [hn]
    · cases x.isNull <;> simp [hn]

theorem KK0_iff {x y : Script} (hx : Good0 x) (hy : Good0 y) : KK x = KK y ↔ x.str = y.str := by
  obtain ⟨wx, px, lx⟩ := unwrap_wf (good0_unwrap hx).1
  obtain ⟨wy, py, ly⟩ := unwrap_wf (good0_unwrap hy).1
  rw [KK, KK, K_iff wx px wy py, str_unwrap, str_unwrap]

/-- A list that names each of the scripts of `l` once, the smaller ones first. -/
structure SortedSet (l : List Script) (r : List Script) : Prop where
  sorted : r.Pairwise fun a b => lt a b = true
  once : (r.map str).Nodup
  mem : ∀ s, s ∈ r.map str ↔ s ∈ l.map str

theorem sortedSet_of {l : List Script} (h : ∀ x ∈ l, Good0 x) : SortedSet l (pySort lt (dedupBy str l)) := by
  have hd : ∀ x ∈ dedupBy str l, Good0 x := fun x hx => h x (mem_dedupBy (key := str) hx)
  have hp := pySort_perm lt (dedupBy str l)
  have once : ((pySort lt (dedupBy str l)).map str).Nodup := by
    rw [(hp.map str).nodup_iff, List.Nodup, List.pairwise_map]
    exact dedupBy_pairwise (key := str) l
  refine ⟨?_, once, fun s => ?_⟩
  · have h1 := pySort_sorted (lt := lt) (k := KK) (l := dedupBy str l) fun a ha b hb => lt_KK0 (hd a ha) (hd b hb)
    rw [List.Nodup, List.pairwise_map] at once
    refine (h1.and once).imp_of_mem fun {a b} ha hb hh => ?_
    rw [mem_pySort] at ha hb
    rw [lt_KK0 (hd a ha) (hd b hb)]
    refine (ltBytes_total fun h2 => hh.2 ((KK0_iff (hd a ha) (hd b hb)).1 h2)).resolve_right ?_
    rw [hh.1]
    simp
  · rw [(hp.map str).mem_iff]
    constructor
    · intro hs
      obtain ⟨x, hx, rfl⟩ := List.mem_map.1 hs
      exact List.mem_map_of_mem (mem_dedupBy (key := str) hx)
    · intro hs
      obtain ⟨x, hx, rfl⟩ := List.mem_map.1 hs
      obtain ⟨y, hy, e⟩ := dedupBy_complete (key := str) hx
      exact List.mem_map.2 ⟨y, hy, e⟩

theorem sorted_good {l : List Script} (h : ∀ x ∈ l, Good0 x) : ∀ x ∈ pySort lt (dedupBy str l), Good0 x := fun x hx =>
  h x (mem_dedupBy (key := str) ((mem_pySort _).1 hx))

/-! ### Lexemes -/

/-- The morphemes written in a polymorpheme. -/
def PM.bears (p : PM) : List Script := p.constant ++ p.groups.flatMap fun g => g.1

/-- The morphemes written in a lexeme. -/
def Lexeme.bears (x : Lexeme) : List Script := x.flexion.bears ++ x.content.bears

theorem bears_good {p : PM} (h : OkPM p) : ∀ x ∈ p.bears, Good0 x := by
  obtain ⟨cs, gs, rfl, hc, hg⟩ := h
  have ok : OkPM (mkPM cs gs) := ⟨cs, gs, rfl, hc, hg⟩
  intro x hx
  rcases List.mem_append.1 hx with hx | hx
  · rcases constant_cases cs gs with h | h
    · rw [h.1] at hx
      have := mem_shownC.1 hx
      exact .inl ((hc x this.1).good this.2)
    · rw [h.1] at hx
      exact .inr (List.mem_singleton.1 hx)
  · obtain ⟨g, hg', hx⟩ := List.mem_flatMap.1 hx
    exact .inl (ok.good.2 g hg' x hx)

theorem lexeme_bears_good {x : Lexeme} (h : OkLex x) : ∀ m ∈ x.bears, Good0 m := by
  obtain ⟨f, c, rfl, hf, hc⟩ := h
  intro m hm
  exact (List.mem_append.1 hm).elim (bears_good hf m) (bears_good hc m)

theorem pm_morphemes {p : PM} (h : OkPM p) : SortedSet p.bears p.morphemes := sortedSet_of (bears_good h)

theorem morphemes_mem {p : PM} {x : Script} (h : x ∈ p.morphemes) : x ∈ p.bears := mem_dedupBy (key := str) ((mem_pySort _).1 h)

theorem lexeme_morphemes_mem {x : Lexeme} {m : Script} (h : m ∈ x.morphemes) : m ∈ x.bears := by
  have := mem_dedupBy (key := str) ((mem_pySort _).1 h)
  exact List.mem_append.2 ((List.mem_append.1 this).imp morphemes_mem morphemes_mem)

/-- **C78, lexemes.** The morphemes of a lexeme are those written in its two polymorphemes, each one once and in order.  Missing: sums of
one term standing for several sequences, among which `<` is not an order. -/
theorem C78_lexeme_partial {x : Lexeme} (h : OkLex x) : SortedSet x.bears x.morphemes := by
  obtain ⟨f, c, rfl, hf, hc⟩ := h
  have hb := lexeme_bears_good ⟨f, c, rfl, hf, hc⟩
  have hs : SortedSet (f.morphemes ++ c.morphemes) (mkLexeme f c).morphemes := by
    refine sortedSet_of fun x hx => hb x ?_
    exact List.mem_append.2 ((List.mem_append.1 hx).imp morphemes_mem morphemes_mem)
  refine ⟨hs.sorted, hs.once, fun s => ?_⟩
  rw [hs.mem, List.map_append, List.mem_append, (pm_morphemes hf).mem, (pm_morphemes hc).mem, ← List.mem_append, ← List.map_append]
  rfl

/-- **C78: the empty morpheme.** It is among the morphemes of a lexeme exactly when one of the polymorphemes has no constant, even if there are
groups in it; otherwise they are the morphemes given, those that are not empty. -/
theorem C78_given {cs cs' : List Script} {gs gs' : List Group} (hc : ∀ m ∈ cs ++ cs', Orderly m) (hg : ∀ g ∈ gs ++ gs', ∀ m ∈ g.1, Orderly m) (s : Str) :
    s ∈ (mkLexeme (mkPM cs gs) (mkPM cs' gs')).morphemes.map str ↔
      (∃ m, m.str = s ∧ (Meant cs m ∨ Meant cs' m ∨ ∃ g ∈ gs ++ gs', Meant g.1 m)) ∨
      s = c!"E:" ∧ ((∀ m, ¬ Meant cs m) ∨ ∀ m, ¬ Meant cs' m) := by
  have hpm : ∀ (cs : List Script) (gs : List Group) (s : Str), s ∈ (mkPM cs gs).bears.map str ↔
      (∃ m, m.str = s ∧ (Meant cs m ∨ ∃ g ∈ gs, Meant g.1 m)) ∨ s = c!"E:" ∧ ∀ m, ¬ Meant cs m := by
    intro cs gs s
    have h1 : ∀ m, m ∈ (shownG gs).flatMap (fun g => g.1) ↔ ∃ g ∈ gs, Meant g.1 m := by
      intro m
      rw [(shown_flat gs).mem_iff, List.mem_flatMap]
      simp [Meant, meantOf]
    have h2 : ∀ m, m ∈ shownC cs ↔ Meant cs m := fun m => mem_shownC
    have hs : s ∈ (mkPM cs gs).bears.map str ↔ (∃ m ∈ (mkPM cs gs).constant, m.str = s) ∨ ∃ m, (∃ g ∈ gs, Meant g.1 m) ∧ m.str = s := by
      rw [PM.bears, List.map_append, List.mem_append, List.mem_map, List.mem_map]
      refine or_congr_right (exists_congr fun m => and_congr_left fun _ => h1 m)
    rw [hs]
    rcases constant_cases cs gs with h | h
    · rw [h.1]
      have hne : shownC cs ≠ [] ∨ (mkPM cs gs).constant ≠ [] := .inr (by
        show (if (shownC cs).isEmpty then [null 0] else shownC cs) ≠ []
        split
        · simp
        · next h => simpa using h)
      rw [h.1, or_self] at hne
      have hex : ¬ ∀ m, ¬ Meant cs m := by
        intro hh
        obtain ⟨m, hm⟩ := List.exists_mem_of_ne_nil _ hne
        exact hh m ((h2 m).1 hm)
      simp only [h2, hex, and_false, or_false]
      constructor
      · rintro (⟨m, hm, e⟩ | ⟨m, hm, e⟩)
        · exact ⟨m, e, .inl hm⟩
        · exact ⟨m, e, .inr hm⟩
      · rintro ⟨m, e, hm | hm⟩
        · exact .inl ⟨m, hm, e⟩
        · exact .inr ⟨m, hm, e⟩
    · have hno : ∀ m, ¬ Meant cs m := fun m hm => by
        have := (h2 m).2 hm
        rw [h.2] at this
        cases this
      rw [h.1]
      simp only [List.mem_singleton, exists_eq_left, hno, false_or, not_false_eq_true, implies_true, and_true]
      rw [or_comm]
      refine or_congr (exists_congr fun m => and_comm) ⟨fun e => e.symm, fun e => e.symm⟩
  have okf : OkPM (mkPM cs gs) := ⟨cs, gs, rfl, fun m hm => hc m (by simp [hm]), fun g hg' => hg g (by simp [hg'])⟩
  have okc : OkPM (mkPM cs' gs') := ⟨cs', gs', rfl, fun m hm => hc m (by simp [hm]), fun g hg' => hg g (by simp [hg'])⟩
  rw [(C78_lexeme_partial ⟨_, _, rfl, okf, okc⟩).mem]
  show s ∈ ((mkPM cs gs).bears ++ (mkPM cs' gs').bears).map str ↔ _
  rw [List.map_append, List.mem_append, hpm, hpm]
  constructor
  · rintro ((⟨m, e, hm | ⟨g, hg', hm⟩⟩ | ⟨e, hm⟩) | (⟨m, e, hm | ⟨g, hg', hm⟩⟩ | ⟨e, hm⟩))
    · exact .inl ⟨m, e, .inl hm⟩
    · exact .inl ⟨m, e, .inr (.inr ⟨g, by simp [hg'], hm⟩)⟩
    · exact .inr ⟨e, .inl hm⟩
    · exact .inl ⟨m, e, .inr (.inl hm)⟩
    · exact .inl ⟨m, e, .inr (.inr ⟨g, by simp [hg'], hm⟩)⟩
    · exact .inr ⟨e, .inr hm⟩
  · rintro (⟨m, e, hm | hm | ⟨g, hg', hm⟩⟩ | ⟨e, hm | hm⟩)
    · exact .inl (.inl ⟨m, e, .inl hm⟩)
    · exact .inr (.inl ⟨m, e, .inl hm⟩)
    · rcases List.mem_append.1 hg' with hg' | hg'
      · exact .inl (.inl ⟨m, e, .inr ⟨g, hg', hm⟩⟩)
      · exact .inr (.inl ⟨m, e, .inr ⟨g, hg', hm⟩⟩)
    · exact .inl (.inr ⟨e, hm⟩)
    · exact .inr (.inr ⟨e, hm⟩)

-- The morphemes of `(U:)(A: m1(S: T:))` and of `()(A: m1(S:))`; the empty one is among the latter.
example : demoLex3.morphemes.map str = [c!"U:", c!"A:", c!"S:", c!"T:"] ∧ demoLex2.morphemes.map str = [c!"E:", c!"A:", c!"S:"] := by decide +kernel

/-! ### Words -/

theorem actorMorphemes_ok {a : Option Lexeme} {ms : List Script} : actorMorphemes a = .ok ms ↔ ∃ x, a = some x ∧ ms = x.morphemes := by
  cases a with
  | none => simp [actorMorphemes]
  | some x => simp [actorMorphemes, eq_comm]

theorem actorMorphemes_none : ∀ {l : List (Option Lexeme)}, none ∈ l → l.mapM actorMorphemes = .error .attributeError
  | a :: l, h => by
    rw [List.mapM_cons]
    cases a with
    | none => rfl
    | some x =>
      rw [actorMorphemes_none (l := l) (by simpa using h)]
      rfl

theorem actorMorphemes_all : ∀ {l : List (Option Lexeme)}, none ∉ l → l.mapM actorMorphemes = .ok (l.map fun a => (a.map Lexeme.morphemes).getD [])
  | [], _ => rfl
  | a :: l, h => by
    rw [List.mapM_cons]
    cases a with
    | none => simp at h
    | some x =>
      rw [actorMorphemes_all (l := l) (by simpa using h)]
      rfl

theorem junction_not_quality' {v : Str} (h : v ∈ valenceScripts) : v ∉ junctionScripts := by
  revert v
  decide +kernel

theorem actant_not_junction {v : Str} (h : v ∈ actantScripts) : v ∉ junctionScripts := by
  revert v
  decide +kernel

theorem junction_actor {g : SF Lexeme} (h : g.isJunction = true) : g.actor = none := by cases g <;> first | rfl | cases h

theorem noJunction_addr : ∀ {n : Nat} {f : SF Lexeme}, OkD n f → NoJunction f → ∀ e ∈ leaves f, ∀ s ∈ e.1, s ∉ junctionScripts := by
  intro n
  induction n with
  | zero => intro f h; cases h
  | succ n ih =>
    intro f h hj
    obtain ⟨m, x, d, i, hn, rfl, hd, hi⟩ := okD_dep h hj
    obtain rfl : n = m := by omega
    intro e he s hs
    rw [leaves_dep, List.mem_cons, List.mem_append] at he
    rcases he with rfl | he | he
    · cases hs
    · cases i with
      | none => cases he
      | some g =>
        obtain ⟨b, rfl⟩ := hi g rfl
        rw [leavesO, leaves_indep] at he
        simp only [List.map_cons, List.map_nil, List.mem_singleton] at he
        subst he
        simp only [pushAddr, List.append_nil, List.mem_singleton] at hs
        subst hs
        decide +kernel
    · cases d with
      | none => cases he
      | some g =>
        rw [leavesO] at he
        obtain ⟨y, hy, rfl⟩ := List.mem_map.1 he
        simp only [pushAddr, List.singleton_append, List.mem_cons] at hs
        rcases hs with rfl | hs
        · decide +kernel
        · exact ih (hd g rfl).1 (hd g rfl).2 y hy s hs

/-- A function in which a junction or a role without lexeme is found has `None` among its actors. -/
theorem none_actor {t : SType} {f : SFun Lexeme} (ok : OkFun t f) (h : ∃ e ∈ f.items, (∃ s ∈ e.1, s ∈ junctionScripts) ∨ e.2 = none) :
    none ∈ f.actorList := by
  by_contra hn
  obtain ⟨e, he, h⟩ := h
  have node : ∀ {g : SF Lexeme}, none ∉ g.actors.map (fun e => e.2.actor) → NoJunction g := by
    intro g hg x hx
    cases hb : x.2.isJunction with
    | false => rfl
    | true => exact absurd (List.mem_map.2 ⟨x, hx, junction_actor hb⟩) hg
  have dep : ∀ {n : Nat} {g : SF Lexeme} {e : RoleEntry Lexeme}, OkD n g → none ∉ g.actors.map (fun e => e.2.actor) → e ∈ leaves g →
      (∀ s ∈ e.1, s ∉ junctionScripts) ∧ e.2 ≠ none := by
    intro n g e og hg he
    refine ⟨noJunction_addr og (node hg) e he, fun hx => hg ?_⟩
    rw [leaves_noJunction (node hg)] at he
    obtain ⟨x, hx', rfl⟩ := List.mem_map.1 he
    exact List.mem_map.2 ⟨x, hx', hx⟩
  have fin : (∀ s ∈ e.1, s ∉ junctionScripts) ∧ e.2 ≠ none → False := by
    rintro ⟨h1, h2⟩
    rcases h with ⟨s, hs, hj⟩ | h
    · exact h1 s hs hj
    · exact h2 h
  cases t with
  | dependant =>
    cases f with
    | process => cases ok
    | quality f =>
      obtain ⟨n, ok⟩ := ok
      exact fin (dep ok hn he)
  | independant =>
    cases f with
    | process => cases ok
    | quality f =>
      obtain ⟨n, ok⟩ := ok
      obtain ⟨b, rfl⟩ := okI_below ok (node hn)
      rw [items_quality, leaves_indep, List.mem_singleton] at he
      subst he
      refine fin ⟨by simp, fun hx => hn ?_⟩
      have hx : b = none := hx
      simp [SFun.actorList, SF.actors, SF.actor, hx]
  | process =>
    cases f with
    | quality f => cases ok
    | process a v acts =>
      obtain ⟨hv, n, hnd, ok⟩ := ok
      rw [items_process, List.mem_cons] at he
      rcases he with rfl | he
      · refine fin ⟨?_, fun hx => hn ?_⟩
        · intro s hs hj
          simp only [List.mem_singleton] at hs
          subst hs
          exact junction_not_quality' hv hj
        · have hx : a = none := hx
          rw [SFun.actorList, hx]
          exact List.mem_cons_self
      · obtain ⟨g, hg, y, hy, rfl⟩ := mem_actLeaves he
        have := dep (ok g hg).2 (fun hh => hn (by
          obtain ⟨x, hx, e⟩ := List.mem_map.1 hh
          exact List.mem_cons_of_mem _ (List.mem_map.2 ⟨(g.1 :: x.1, x.2), List.mem_flatMap.2 ⟨g, hg, List.mem_map.2 ⟨x, hx, rfl⟩⟩, e⟩))) hy
        refine fin ⟨?_, this.2⟩
        intro s hs hj
        simp only [pushAddr, List.singleton_append, List.mem_cons] at hs
        rcases hs with rfl | hs
        · exact actant_not_junction (ok g hg).1 hj
        · exact this.1 s hs hj

theorem actorList_items {t : SType} {f : SFun Lexeme} (ok : OkFun t f) (hj : ∀ e ∈ f.items, ∀ s ∈ e.1, s ∉ junctionScripts) :
    f.actorList = f.items.map fun e => e.2 := by
  rcases okFun_plain ok hj with ⟨_, b, rfl⟩ | ⟨_, n, b, d, i, rfl, _, nj⟩ | ⟨_, n, b, v, acts, rfl, _, _, hh⟩
  · rw [items_quality, leaves_indep]
    rfl
  · rw [items_quality, leaves_noJunction nj, List.map_map]
    rfl
  · rw [items_process, SFun.actorList, List.map_cons]
    congr 1
    unfold processActors actLeaves
    rw [List.map_flatMap, List.map_flatMap, List.flatMap_def, List.flatMap_def]
    congr 1
    refine List.map_congr_left fun g hg => ?_
    rw [leaves_noJunction (hh g hg).2.2, List.map_map, List.map_map, List.map_map]
    rfl

/-- **C78, words.** The morphemes of a word are those of the lexemes at its roles, each one once and in order, when there are no junctions and a
lexeme at every role; otherwise `AttributeError` is raised. -/
theorem C78_word_partial {l : List (RoleEntry Lexeme)} {t : SType} {f : SFun Lexeme} {role : Addr} {w : WordUsl} (hf : fromList l = .ok (t, f))
    (hw : mkWord f role t = .ok w) (hl : ∀ e ∈ f.asList t, ∀ x, e.2 = some x → OkLex x) :
    ((∃ r, w.morphemes = .ok r ∧ SortedSet ((f.asList t).flatMap fun e => (e.2.map Lexeme.bears).getD []) r) ∧
      (∀ e ∈ f.asList t, (∀ s ∈ e.1, s ∉ junctionScripts) ∧ e.2 ≠ none)) ∨
    (w.morphemes = .error .attributeError ∧ ∃ e ∈ f.asList t, (∃ s ∈ e.1, s ∈ junctionScripts) ∨ e.2 = none) := by
  have ok := fromList_shape hf
  obtain ⟨e1, _, _, _⟩ := mkWord_parts hw
  have hi := asList_items t f
  have up : ∀ {P : RoleEntry Lexeme → Prop}, (∀ e : RoleEntry Lexeme, P (pushAddr t.pre e) ↔ P e) → ((∃ e ∈ f.asList t, P e) ↔ ∃ e ∈ f.items, P e) := by
    intro P hP
    rw [hi]
    constructor
    · rintro ⟨e, he, h⟩
      obtain ⟨y, hy, rfl⟩ := List.mem_map.1 he
      exact ⟨y, hy, (hP y).1 h⟩
    · rintro ⟨e, he, h⟩
      exact ⟨_, List.mem_map_of_mem he, (hP e).2 h⟩
  have bad := up (P := fun e => (∃ s ∈ e.1, s ∈ junctionScripts) ∨ e.2 = none) fun e => by
    simp only [pushAddr, List.mem_append]
    have : ∀ s ∈ t.pre, s ∉ junctionScripts := by cases t <;> decide +kernel
    constructor
    · rintro (⟨s, hs | hs, h⟩ | h)
      · exact absurd h (this s hs)
      · exact .inl ⟨s, hs, h⟩
      · exact .inr h
    · rintro (⟨s, hs, h⟩ | h)
      · exact .inl ⟨s, .inr hs, h⟩
      · exact .inr h
  by_cases h : ∃ e ∈ f.asList t, (∃ s ∈ e.1, s ∈ junctionScripts) ∨ e.2 = none
  · refine .inr ⟨?_, h⟩
    unfold WordUsl.morphemes
    rw [e1, actorMorphemes_none (none_actor ok (bad.1 h))]
    rfl
  · refine .inl ⟨?_, fun e he => ⟨fun s hs hj => h ⟨e, he, .inl ⟨s, hs, hj⟩⟩, fun hx => h ⟨e, he, .inr hx⟩⟩⟩
    have h' := fun hh => h (bad.2 hh)
    have hal := actorList_items ok fun e he s hs hj => h' ⟨e, he, .inl ⟨s, hs, hj⟩⟩
    have hnone : none ∉ f.actorList := by
      rw [hal]
      intro hm
      obtain ⟨e, he, hx⟩ := List.mem_map.1 hm
      exact h' ⟨e, he, .inr hx⟩
    unfold WordUsl.morphemes
    rw [e1, actorMorphemes_all hnone]
    refine ⟨_, rfl, ?_⟩
    have hal2 : f.actorList = (f.asList t).map fun e => e.2 := by
      rw [hal, hi, List.map_map]
      rfl
    rw [hal2, List.map_map, ← List.flatMap_def]
    have lex : ∀ e ∈ f.asList t, ∃ x, e.2 = some x ∧ OkLex x := by
      intro e he
      cases hx : e.2 with
      | none => exact absurd ⟨e, he, .inr hx⟩ h
      | some x => exact ⟨x, rfl, hl e he x hx⟩
    have hs : SortedSet ((f.asList t).flatMap fun e => (e.2.map Lexeme.morphemes).getD []) _ := sortedSet_of (by
      intro m hm
      obtain ⟨e, he, hm⟩ := List.mem_flatMap.1 hm
      obtain ⟨x, hx, okx⟩ := lex e he
      rw [hx] at hm
      exact lexeme_bears_good okx m (lexeme_morphemes_mem hm))
    refine ⟨hs.sorted, hs.once, fun s => (hs.mem s).trans ?_⟩
    simp only [List.mem_map, List.mem_flatMap]
    constructor
    · rintro ⟨m, ⟨e, he, hm⟩, rfl⟩
      obtain ⟨x, hx, okx⟩ := lex e he
      rw [hx] at hm
      exact ⟨m, ⟨e, he, by rw [hx]; exact lexeme_morphemes_mem hm⟩, rfl⟩
    · rintro ⟨m, ⟨e, he, hm⟩, rfl⟩
      obtain ⟨x, hx, okx⟩ := lex e he
      rw [hx] at hm
      have : m.str ∈ x.morphemes.map str := ((C78_lexeme_partial okx).mem _).2 (List.mem_map_of_mem hm)
      obtain ⟨m', hm', e'⟩ := List.mem_map.1 this
      exact ⟨m', ⟨e, he, by rw [hx]; exact hm'⟩, e'⟩

-- Two lexemes; a junction.
example : ((readWord demoPlain [c!"E:.n.-"]).bind WordUsl.morphemes).map (·.map str) = .ok [c!"E:", c!"U:", c!"A:", c!"S:", c!"T:"] ∧
    ((readWord demoJunction [c!"E:T:."]).bind WordUsl.morphemes).map (·.map str) = .error .attributeError := by decide +kernel

/-- **C78: no word is empty.** Not even one in which nothing is written: `empty` compares the number of actors, among which is always the function
itself, with 0. -/
theorem C78_never_empty (w : WordUsl) : w.empty ≠ .ok true := by
  have : w.sfun.actorList.length ≠ 0 := by
    cases w.sfun with
    | quality f => cases f <;> simp [SFun.actorList, SF.actors]
    | process a v acts => simp [SFun.actorList]
  unfold WordUsl.empty
  split
  · simp
  · simp [this]

/-- **C78: the claim that a word without any written lexeme is empty is false.** -/
theorem C78_violated : ∃ w, readWord [([c!"E:T:."], some emptyLex)] [c!"E:T:."] = .ok w ∧ emptyLex.empty = true ∧ w.empty = .ok false := by
  refine ⟨_, rfl, by decide +kernel, by decide +kernel⟩

end Verif
