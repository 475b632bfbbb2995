import Verif.Lemmas.Simplify
import Verif.Props.WordCheck

/-
C77: what `simplify_word` removes.
-/

namespace Verif
open Script

/-- The entry of the verb of a process. -/
def IsVerb (e : RoleEntry Lexeme) : Prop := ∃ v ∈ valenceScripts, e.1 = [v]

/-- The entry is of use in a word with the given role: it is the verb, it leads to the role, or a lexeme is written at it or below it. -/
def Useful (l : List (RoleEntry Lexeme)) (role : Addr) (e : RoleEntry Lexeme) : Prop :=
  e.1 <+: role ∨ (∃ e' ∈ l, e.1 <+: e'.1 ∧ HasText e') ∨ IsVerb e

theorem items_quality (f : SF Lexeme) : (SFun.quality f).items = leaves f := rfl

theorem items_process (a : Option Lexeme) (v : Str) (acts : List (Str × SF Lexeme)) :
    (SFun.process a v acts).items = ([v], a) :: actLeaves acts := by rw [SFun.items, listed_process]

theorem mkWord_of {f f' : SFun Lexeme} {role : Addr} {t : SType} {w : WordUsl} (hw : mkWord f role t = .ok w)
    (h : role.drop t.pre.length ∈ f'.addrs) : ∃ w', mkWord f' role t = .ok w' := by
  unfold mkWord at hw
  rw [bind_ok] at hw
  obtain ⟨text, _, hw⟩ := hw
  rw [bind_ok] at hw
  obtain ⟨c, hc, _⟩ := hw
  have key : ∀ {l : List (Addr × SF Lexeme)} {a : Addr}, a ∈ l.map (·.1) → ∃ m, expandAt l a = .ok m := by
    intro l a ha
    obtain ⟨e, he, rfl⟩ := List.mem_map.1 ha
    unfold expandAt
    split
    · next hn => exact absurd (List.find?_eq_none.1 hn e he) (by simp)
    · exact ⟨_, rfl⟩
  obtain ⟨m, hm⟩ : ∃ m, f'.expansion (role.drop t.pre.length) = .ok m := by
    cases f' with
    | quality g => exact key h
    | process x v acts =>
      rw [SFun.expansion]
      split
      · exact ⟨_, rfl⟩
      · next hne =>
        rw [SFun.addrs, List.mem_cons] at h
        exact key (h.resolve_left hne)
  unfold mkWord SFun.render
  rw [hm, hc]
  exact ⟨_, rfl⟩

theorem items_addrs {f : SFun Lexeme} {e : RoleEntry Lexeme} (h : e ∈ f.items) : e.1 ∈ f.addrs := by
  cases f with
  | quality f =>
    obtain ⟨x, hx, rfl⟩ := List.mem_map.1 h
    exact List.mem_map_of_mem (List.mem_filter.1 hx).1
  | process a v acts =>
    rw [SFun.items, List.mem_cons] at h
    rcases h with rfl | h
    · simp [SFun.addrs]
    · obtain ⟨x, hx, rfl⟩ := List.mem_map.1 h
      exact List.mem_cons_of_mem _ (List.mem_map_of_mem (f := fun e : Addr × SF Lexeme => e.1) (List.mem_filter.1 hx).1)

/-- What a function read from a list is when it has no junction. -/
theorem okFun_plain {t : SType} {f : SFun Lexeme} (ok : OkFun t f) (hj : ∀ e ∈ f.items, ∀ s ∈ e.1, s ∉ junctionScripts) :
    (t = .independant ∧ ∃ a, f = .quality (.indep a)) ∨
    (t = .dependant ∧ ∃ n a d i, f = .quality (.dep a d i) ∧ OkD n (.dep a d i) ∧ NoJunction (.dep a d i)) ∨
    (t = .process ∧ ∃ n a v acts, f = .process a v acts ∧ v ∈ valenceScripts ∧ (acts.map (·.1)).Nodup ∧
      ∀ g ∈ acts, g.1 ∈ actantScripts ∧ OkD n g.2 ∧ NoJunction g.2) := by
  cases t with
  | dependant =>
    cases f with
    | process => cases ok
    | quality f =>
      obtain ⟨n, ok⟩ := ok
      have nj := noJunction_of_leaves ok hj
      obtain ⟨m, a, d, i, _, rfl, _⟩ := okD_dep ok nj
      exact .inr (.inl ⟨rfl, n, a, d, i, rfl, ok, nj⟩)
  | independant =>
    cases f with
    | process => cases ok
    | quality f =>
      obtain ⟨n, ok⟩ := ok
      obtain ⟨a, rfl⟩ := noJunction_of_leavesI ok hj
      exact .inl ⟨rfl, a, rfl⟩
  | process =>
    cases f with
    | quality f => cases ok
    | process a v acts =>
      obtain ⟨hv, n, hn, ok⟩ := ok
      refine .inr (.inr ⟨rfl, n, a, v, acts, rfl, hv, hn, fun g hg => ⟨(ok g hg).1, (ok g hg).2, noJunction_of_leaves (ok g hg).2 ?_⟩⟩)
      intro e he s hs
      rw [items_process] at hj
      exact hj (pushAddr [g.1] e) (List.mem_cons_of_mem _ (List.mem_flatMap.2 ⟨g, hg, List.mem_map_of_mem he⟩)) s (by simp [pushAddr, hs])

theorem addrs_items {t : SType} {f : SFun Lexeme} (ok : OkFun t f) (hj : ∀ e ∈ f.items, ∀ s ∈ e.1, s ∉ junctionScripts) {a : Addr} (h : a ∈ f.addrs) :
    ∃ e ∈ f.items, e.1 = a := by
  rcases okFun_plain ok hj with ⟨_, b, rfl⟩ | ⟨_, n, b, d, i, rfl, _, nj⟩ | ⟨_, n, b, v, acts, rfl, _, _, hh⟩
  · simp only [SFun.addrs, SF.actors, List.map_cons, List.map_nil, List.mem_singleton] at h
    exact ⟨([], b), by rw [items_quality, leaves_indep]; simp, h.symm⟩
  · obtain ⟨e, he, rfl⟩ := List.mem_map.1 h
    exact ⟨(e.1, e.2.actor), by rw [items_quality, leaves_noJunction nj]; exact List.mem_map.2 ⟨e, he, rfl⟩, rfl⟩
  · rw [SFun.addrs, List.mem_cons] at h
    rw [items_process]
    rcases h with rfl | h
    · exact ⟨([v], b), by simp, rfl⟩
    · obtain ⟨e, he, rfl⟩ := List.mem_map.1 h
      obtain ⟨g, hg, x, hx, rfl⟩ := mem_processActors he
      refine ⟨pushAddr [g.1] (x.1, x.2.actor), List.mem_cons_of_mem _ (List.mem_flatMap.2 ⟨g, hg, List.mem_map_of_mem ?_⟩), rfl⟩
      rw [leaves_noJunction (hh g hg).2.2]
      exact List.mem_map.2 ⟨x, hx, rfl⟩

theorem onRole_down (role : Addr) : ∀ r s, onRole role (r ++ s) = true → onRole role r = true := by
  intro r s h
  rw [onRole_iff] at h ⊢
  exact (List.prefix_append r s).trans h

theorem blank_items {a : Option Lexeme} {v : Str} {n : Nat} {acts : List (Str × SF Lexeme)} (hh : ∀ g ∈ acts, g.1 ∈ actantScripts ∧ OkD n g.2 ∧ NoJunction g.2) :
    blank (SFun.process a v acts).actorList = false ↔ ∃ e ∈ (SFun.process a v acts).items, HasText e := by
  rw [items_process]
  unfold blank
  rw [List.all_eq_false]
  have hl : ∀ x, x ∈ (SFun.process a v acts).actorList ↔ ∃ e ∈ ((([v], a) : RoleEntry Lexeme) :: actLeaves acts), e.2 = x := by
    intro x
    rw [SFun.actorList, List.mem_cons]
    simp only [List.mem_cons, exists_eq_or_imp]
    refine or_congr eq_comm ?_
    constructor
    · intro hx
      obtain ⟨e, he, rfl⟩ := List.mem_map.1 hx
      obtain ⟨g, hg, y, hy, rfl⟩ := mem_processActors he
      refine ⟨pushAddr [g.1] (y.1, y.2.actor), List.mem_flatMap.2 ⟨g, hg, List.mem_map_of_mem ?_⟩, rfl⟩
      rw [leaves_noJunction (hh g hg).2.2]
      exact List.mem_map.2 ⟨y, hy, rfl⟩
    · rintro ⟨e, he, rfl⟩
      obtain ⟨g, hg, y, hy, rfl⟩ := mem_actLeaves he
      rw [leaves_noJunction (hh g hg).2.2] at hy
      obtain ⟨z, hz, rfl⟩ := List.mem_map.1 hy
      exact List.mem_map.2 ⟨(g.1 :: z.1, z.2), List.mem_flatMap.2 ⟨g, hg, List.mem_map.2 ⟨z, hz, rfl⟩⟩, rfl⟩
  constructor
  · rintro ⟨x, hx, hb⟩
    obtain ⟨e, he, rfl⟩ := (hl x).1 hx
    refine ⟨e, he, ?_⟩
    cases hx : e.2 with
    | none => rw [hx] at hb; simp at hb
    | some x => rw [hx] at hb; exact ⟨x, hx, by simpa using hb⟩
  · rintro ⟨e, he, x, hx, hb⟩
    exact ⟨e.2, (hl _).2 ⟨e, he, rfl⟩, by rw [hx]; simp [hb]⟩

theorem simplify_core {t : SType} {f : SFun Lexeme} {role : Addr} {w : WordUsl} (ok : OkFun t f)
    (hj : ∀ e ∈ f.items, ∀ s ∈ e.1, s ∉ junctionScripts) (hw : mkWord f role t = .ok w)
    (hv : t = .process → (∃ e ∈ f.items, HasText e) ∨ ∃ v ∈ valenceScripts, role = [v]) :
    ∃ f' w', (simplifyWord w = .ok w' ∧ mkWord f' role t = .ok w' ∧ OkFun t f' ∧ f'.items.Sublist f.items ∧
      ∀ e, e ∈ f'.items ↔ e ∈ f.items ∧ Useful f.items (role.drop t.pre.length) e) ∧ keptEntries (role.drop t.pre.length) f = f'.items := by
  obtain ⟨e1, e2, e3, hm⟩ := mkWord_parts hw
  obtain ⟨er, her, hre⟩ := addrs_items ok hj hm
  -- a function with these items is enough
  have fin : ∀ f', (∀ e, e ∈ f'.items ↔ e ∈ f.items ∧ Useful f.items (role.drop t.pre.length) e) → ∃ w', mkWord f' role t = .ok w' := by
    intro f' h
    refine mkWord_of hw ?_
    rw [← hre]
    exact items_addrs ((h er).2 ⟨her, .inl (by rw [hre])⟩)
  have nv : ∀ {n : Nat} {g : SF Lexeme}, OkD n g → ∀ e ∈ leaves g, ¬ IsVerb e := by
    rintro n g og e he ⟨v, hv, hx⟩
    obtain ⟨x, hx', rfl⟩ := List.mem_map.1 he
    have := (okD_addr og x (List.mem_filter.1 hx').1).1
    simp only [List.nil_append] at hx
    exact inner_not_process (this v (by rw [hx]; simp)) (by simp [hv])
  rcases okFun_plain ok hj with ⟨rfl, a, rfl⟩ | ⟨rfl, n, a, d, i, rfl, od, nj⟩ | ⟨rfl, n, a, v, acts, rfl, hval, hn, hh⟩
  · have hi : (SFun.quality (.indep a)).items = [([], a)] := by rw [items_quality, leaves_indep]
    have hk : keptEntries (w.role.drop 1) (.quality (.indep a)) = leaves (.indep a) := by
      generalize w.role.drop 1 = r
      have : onRole r [] = true := by rw [onRole_iff]; exact List.nil_prefix
      rw [leaves_indep]
      simp [keptEntries, SF.actors, this, SF.actor]
    have hs : simplifyWord w = mkWord (.quality (.indep a)) role .independant := by
      unfold simplifyWord
      rw [e1]
      simp only [hk]
      rw [fromI_leaves (n := 1) (f := .indep a) (by simp [OkI]) (depth_short (p := []) fun e he => by simpa [pushAddr] using he), e2]
      rfl
    refine ⟨_, w, ⟨hs.trans hw, hw, ok, List.Sublist.refl _, fun e => ?_⟩, by rw [← e2]; exact hk⟩
    rw [hi, List.mem_singleton]
    constructor
    · rintro rfl; exact ⟨rfl, .inl List.nil_prefix⟩
    · exact fun h => h.1
  · have hk : keptEntries (w.role.drop 1) (.quality (.dep a d i)) = keptOf (onRole (w.role.drop 1)) (.dep a d i) := rfl
    obtain ⟨f', o', j', ⟨a', d', i', rfl⟩, e'⟩ := keptOf_some (onRole_down (w.role.drop 1)) od nj (by
      rintro ⟨_, h⟩
      have : onRole (w.role.drop 1) [] = true := by rw [onRole_iff]; exact List.nil_prefix
      rw [this] at h
      cases h)
    have hs : simplifyWord w = mkWord (.quality (.dep a' d' i')) role .dependant := by
      unfold simplifyWord
      rw [e1]
      simp only [hk, e']
      rw [fromD_leaves o' (depth_short (p := []) fun e he => by simpa [pushAddr] using he), e2]
      rfl
    have hmem : ∀ e, e ∈ (SFun.quality (.dep a' d' i')).items ↔
        e ∈ (SFun.quality (.dep a d i)).items ∧ Useful (SFun.quality (.dep a d i)).items (role.drop SType.dependant.pre.length) e := by
      intro e
      rw [items_quality, items_quality, ← e', mem_keptOf od nj, onRole_iff, e2]
      refine and_congr_right fun he => ?_
      unfold Useful
      rw [or_iff_left (nv od e he)]
      rfl
    obtain ⟨w', hw'⟩ := fin _ hmem
    refine ⟨_, w', ⟨hs.trans hw', hw', ⟨n, o'⟩, ?_, hmem⟩, by rw [← e2]; exact hk.trans e'⟩
    rw [items_quality, items_quality, ← e']
    exact keptOf_sublist nj _
  · have hdrop : role.drop SType.process.pre.length = role := rfl
    have hverb : (if blank (SFun.process a v acts).actorList && !onRole w.role [v] then ([] : List (RoleEntry Lexeme)) else [([v], a)]) = [([v], a)] := by
      rw [if_neg]
      simp only [Bool.and_eq_true, Bool.not_eq_true', not_and, Bool.not_eq_false]
      intro hb
      rcases hv rfl with h | ⟨v', hv', h⟩
      · rw [← blank_items hh] at h
        rw [h] at hb
        cases hb
      · rw [onRole_iff, e2, h]
        rw [hdrop, h] at hre
        rw [items_process, List.mem_cons] at her
        rcases her with rfl | her
        · simp only [List.cons.injEq, and_true] at hre
          rw [hre]
        · obtain ⟨g, hg, y, hy, rfl⟩ := mem_actLeaves her
          simp only [pushAddr, List.singleton_append, List.cons.injEq] at hre
          exact absurd (hre.1 ▸ hv') (actant_not_valence _ (hh g hg).1)
    obtain ⟨acts', s1, s2, s3⟩ := keptActs_some (onRole_down w.role) hh
    have hk : keptEntries w.role (.process a v acts) = (SFun.process a v acts').asList .process := by
      rw [asList_process, ← s3, keptEntries, hverb]
      rfl
    have o' : OkFun .process (.process a v acts') := ⟨hval, n, s1.nodup hn, fun g hg => ⟨(s2 g hg).1, (s2 g hg).2.1⟩⟩
    have hp : processFrom (depthOf ((SFun.process a v acts').asList .process)) ((SFun.process a v acts').asList .process) = .ok (.process a v acts') := by
      obtain ⟨_, ⟨_, h, _⟩ | ⟨h, _⟩ | ⟨h, _⟩⟩ := fromList_ok (fromList_back o')
      · exact h
      · cases h
      · cases h
    have hs : simplifyWord w = mkWord (.process a v acts') role .process := by
      unfold simplifyWord
      rw [e1]
      simp only [hk]
      rw [hp, e2]
      have : ((SFun.process a v acts').asList .process).any (fun e => decide (e.1 = [v])) = true := by
        rw [asList_process]
        simp
      simp only [bind, Except.bind, this]
      rfl
    have hmem : ∀ e, e ∈ (SFun.process a v acts').items ↔
        e ∈ (SFun.process a v acts).items ∧ Useful (SFun.process a v acts).items (role.drop SType.process.pre.length) e := by
      intro e
      rw [items_process, items_process, ← s3, hdrop, List.mem_cons, List.mem_cons, mem_keptActs' hn (fun g hg => (hh g hg).2), onRole_iff, e2]
      constructor
      · rintro (rfl | ⟨h1, h2⟩)
        · exact ⟨.inl rfl, .inr (.inr ⟨v, hval, rfl⟩)⟩
        · refine ⟨.inr h1, h2.imp id ?_⟩
          rintro ⟨e', he', h3⟩
          exact .inl ⟨e', List.mem_cons_of_mem _ he', h3⟩
      · rintro ⟨rfl | h1, h2⟩
        · exact .inl rfl
        · refine .inr ⟨h1, ?_⟩
          obtain ⟨g, hg, y, hy, rfl⟩ := mem_actLeaves h1
          have hgv := actant_not_valence _ (hh g hg).1
          rcases h2 with h2 | ⟨e', he', h3⟩ | ⟨v', hv', h3⟩
          · exact .inl h2
          · rcases List.mem_cons.1 he' with rfl | he'
            · exfalso
              have := h3.1
              simp only [pushAddr, List.singleton_append, List.cons_prefix_cons] at this
              exact hgv (this.1 ▸ hval)
            · exact .inr ⟨e', he', h3⟩
          · exfalso
            simp only [pushAddr, List.singleton_append, List.cons.injEq] at h3
            exact hgv (h3.1 ▸ hv')
    obtain ⟨w', hw'⟩ := fin _ hmem
    refine ⟨_, w', ⟨hs.trans hw', hw', o', ?_, hmem⟩, by rw [hdrop, ← e2, hk, asList_process, items_process]⟩
    rw [items_process, items_process, ← s3]
    exact (keptActs_sublist fun g hg => (hh g hg).2.2).cons_cons _

theorem not_verb {t : SType} {f : SFun Lexeme} (ok : OkFun t f) (hp : t ≠ .process) : ∀ e ∈ f.items, ¬ IsVerb e := by
  rintro e he ⟨v, hv, hx⟩
  have key : ∀ s ∈ e.1, Inner s := by
    cases t with
    | process => simp at hp
    | dependant =>
      cases f with
      | process => cases ok
      | quality f =>
        obtain ⟨n, ok⟩ := ok
        obtain ⟨x, hx', rfl⟩ := List.mem_map.1 he
        exact (okD_addr ok x (List.mem_filter.1 hx').1).1
    | independant =>
      cases f with
      | process => cases ok
      | quality f =>
        obtain ⟨n, ok⟩ := ok
        obtain ⟨x, hx', rfl⟩ := List.mem_map.1 he
        intro s hs
        exact .inr (.inr (okI_addr ok x (List.mem_filter.1 hx').1 s hs))
  exact inner_not_process (key v (by rw [hx]; simp)) (by simp [hv])

/-- **C77: what `simplify_word` removes.** On a word without junction, read from a list, with a role among those of its context: the
result is a word with the same role and context whose entries, in the same order, are those that are of use; the other ones hold no
lexeme nor does anything below them.  Simplifying it again changes nothing.  For a process, some lexeme must be written or the role be
the verb, see `C77_blank_process`.  Missing: junctions, on which the function fails or loses the links, see below. -/
theorem C77_simplify_partial {l : List (RoleEntry Lexeme)} {t : SType} {f : SFun Lexeme} {role : Addr} {w : WordUsl} (hf : fromList l = .ok (t, f))
    (hw : mkWord f role t = .ok w) (hr : t.pre <+: role) (hj : ∀ e ∈ f.asList t, ∀ s ∈ e.1, s ∉ junctionScripts)
    (hv : t = .process → (∃ e ∈ f.asList t, HasText e) ∨ ∃ v ∈ valenceScripts, role = [v]) :
    ∃ w', simplifyWord w = .ok w' ∧ w'.role = role ∧ w'.context = t ∧ (w'.sfun.asList t).Sublist (f.asList t) ∧
      (∀ e, e ∈ w'.sfun.asList t ↔ e ∈ f.asList t ∧ Useful (f.asList t) role e) ∧
      (∀ e ∈ f.asList t, e ∉ w'.sfun.asList t → ∀ e' ∈ f.asList t, e.1 <+: e'.1 → ¬ HasText e') ∧
      simplifyWord w' = .ok w' := by
  have ok := fromList_shape hf
  obtain ⟨b, rfl⟩ := hr
  have hj' : ∀ e ∈ f.items, ∀ s ∈ e.1, s ∉ junctionScripts := by
    intro e he s hs
    refine hj (pushAddr t.pre e) ?_ s (by simp [pushAddr, hs])
    rw [asList_items]
    exact List.mem_map_of_mem he
  have hv' : t = .process → (∃ e ∈ f.items, HasText e) ∨ ∃ v ∈ valenceScripts, t.pre ++ b = [v] := by
    intro h
    refine (hv h).imp ?_ id
    rintro ⟨e, he, hx⟩
    rw [asList_items] at he
    obtain ⟨y, hy, rfl⟩ := List.mem_map.1 he
    exact ⟨y, hy, hx⟩
  obtain ⟨f', w', ⟨h1, h2, ok', h3, h4⟩, _⟩ := simplify_core ok hj' hw hv'
  obtain ⟨p1, p2, p3, _⟩ := mkWord_parts h2
  have keep : ∀ e ∈ f.items, HasText e → e ∈ f'.items := fun e he ht => (h4 e).2 ⟨he, .inr (.inl ⟨e, he, List.prefix_rfl, ht⟩)⟩
  have again : simplifyWord w' = .ok w' := by
    obtain ⟨f2, w2, ⟨k1, k2, ok2, k3, k4⟩, _⟩ := simplify_core ok' (fun e he => hj' e (h3.subset he)) h2 (by
      intro h
      refine (hv' h).imp ?_ id
      rintro ⟨e, he, hx⟩
      exact ⟨e, keep e he hx, hx⟩)
    have hsub : ∀ e ∈ f'.items, e ∈ f2.items := by
      intro e he
      refine (k4 e).2 ⟨he, ?_⟩
      rcases ((h4 e).1 he).2 with h | ⟨e', he', h, ht⟩ | h
      · exact .inl h
      · exact .inr (.inl ⟨e', keep e' he' ht, h, ht⟩)
      · exact .inr (.inr h)
    have hlen : f'.items.length ≤ f2.items.length :=
      ((List.subperm_of_subset (items_nodup ok').of_map hsub)).length_le
    have he : f2.items = f'.items := k3.eq_of_length_le hlen
    have hff : f2 = f' := by
      have e2 := fromList_back ok2
      rw [asList_items, he, ← asList_items, fromList_back ok', Except.ok.injEq, Prod.mk.injEq] at e2
      exact e2.2.symm
    subst hff
    rw [h2, Except.ok.injEq] at k2
    rw [k1, k2]
  have hmem : ∀ e, e ∈ w'.sfun.asList t ↔ e ∈ f.asList t ∧ Useful (f.asList t) (t.pre ++ b) e := by
    intro e
    rw [p1, asList_items, asList_items, List.mem_map]
    constructor
    · rintro ⟨y, hy, rfl⟩
      obtain ⟨q1, q2⟩ := (h4 y).1 hy
      refine ⟨List.mem_map_of_mem q1, ?_⟩
      rw [List.drop_left] at q2
      rcases q2 with q2 | ⟨e', he', q2, ht⟩ | q2
      · exact .inl (by simpa [pushAddr] using q2)
      · exact .inr (.inl ⟨pushAddr t.pre e', List.mem_map_of_mem he', by simpa [pushAddr] using q2, ht⟩)
      · refine .inr (.inr ?_)
        cases t with
        | process => exact q2
        | dependant => exact absurd q2 (not_verb ok (by decide) y q1)
        | independant => exact absurd q2 (not_verb ok (by decide) y q1)
    · rintro ⟨he, q2⟩
      obtain ⟨y, hy, rfl⟩ := List.mem_map.1 he
      refine ⟨y, (h4 y).2 ⟨hy, ?_⟩, rfl⟩
      rw [List.drop_left]
      rcases q2 with q2 | ⟨e', he', q2, ht⟩ | q2
      · exact .inl (by simpa [pushAddr] using q2)
      · obtain ⟨z, hz, rfl⟩ := List.mem_map.1 he'
        exact .inr (.inl ⟨z, hz, by simpa [pushAddr] using q2, ht⟩)
      · refine .inr (.inr ?_)
        cases t with
        | process => exact q2
        | dependant =>
          obtain ⟨v, hv, h⟩ := q2
          simp only [pushAddr, SType.pre, List.singleton_append, List.cons.injEq] at h
          exact absurd hv (h.1 ▸ dep_not_valence)
        | independant =>
          obtain ⟨v, hv, h⟩ := q2
          simp only [pushAddr, SType.pre, List.singleton_append, List.cons.injEq] at h
          exact absurd hv (h.1 ▸ indep_not_valence)
  refine ⟨w', h1, p2, p3, ?_, hmem, ?_, again⟩
  · rw [p1, asList_items, asList_items]
    exact h3.map _
  · intro e he hne e' he' hp ht
    exact hne ((hmem e).2 ⟨he, .inr (.inl ⟨e', he', hp, ht⟩)⟩)

/-- The lexeme in which nothing is written. -/
def emptyLex : Lexeme := mkLexeme (mkPM [] []) (mkPM [] [])

/-- A process with a written actant, an actant with nothing in it and one whose only lexeme is below. -/
def demoBlank : List (RoleEntry Lexeme) :=
  [([c!"E:T:."], some emptyLex), ([c!"E:.n.-"], some demoLex2), ([c!"E:.d.-"], some emptyLex), ([c!"E:.d.-", dependantQuality], some emptyLex),
    ([c!"E:.k.-"], some emptyLex), ([c!"E:.k.-", independantQuality], some demoLex3), ([c!"E:.k.-", dependantQuality], none)]

-- The actant `E:.d.-` disappears and so does the qualifier of `E:.k.-` without lexeme.
example : ∃ t f w, fromList demoBlank = .ok (t, f) ∧ mkWord f [c!"E:.n.-"] t = .ok w ∧ t.pre <+: [c!"E:.n.-"] ∧
    (∀ e ∈ f.asList t, ∀ s ∈ e.1, s ∉ junctionScripts) ∧ (∃ e ∈ f.asList t, HasText e) ∧
    (simplifyWord w).map (·.text) = .ok (c!"[E:T:. () > ! E:.n.- ()(A: m1(S:)) > E:.k.- () > E:.k.- E:U:. (U:)(A: m1(S: T:))]") := by
  refine ⟨_, _, _, rfl, rfl, List.nil_prefix, by decide +kernel, ⟨([c!"E:.n.-"], some demoLex2), ?_, demoLex2, rfl, by decide +kernel⟩, by decide +kernel⟩
  exact List.mem_cons_of_mem _ List.mem_cons_self

theorem processFrom_bare {n m : Nat} {acts : List (Str × SF Lexeme)} (hn : (acts.map (·.1)).Nodup) (h : ∀ g ∈ acts, g.1 ∈ actantScripts ∧ OkD n g.2)
    (hm : ∀ g ∈ acts, Short m (leaves g.2)) : processFrom m (actLeaves acts) = .ok (.process none [] acts) := by
  rw [processFrom, bind_ok]
  refine ⟨⟨none, [], acts.map fun g => (g.1, leaves g.2)⟩, (procFold_acts acts _ h (by simpa using hn)).trans (by simp), ?_⟩
  rw [bind_ok]
  refine ⟨acts, ?_, rfl⟩
  apply mapM_of_forall₂
  rw [List.forall₂_map_left_iff, List.forall₂_same]
  intro g hg
  rw [fromD_leaves (h g hg).2 (hm g hg)]
  rfl

/-- **C77: a process in which nothing is written and whose role is not the verb cannot be simplified**: the verb itself is removed, and
`ValueError` is raised. -/
theorem C77_blank_process {l : List (RoleEntry Lexeme)} {f : SFun Lexeme} {role : Addr} {w : WordUsl} (hf : fromList l = .ok (.process, f))
    (hw : mkWord f role .process = .ok w) (hj : ∀ e ∈ f.asList .process, ∀ s ∈ e.1, s ∉ junctionScripts)
    (hv : (∀ e ∈ f.asList .process, ¬ HasText e) ∧ ∀ v ∈ valenceScripts, role ≠ [v]) : simplifyWord w = .error .valueError := by
  have ok := fromList_shape hf
  have hit : f.asList .process = f.items := by
    rw [asList_items]
    exact List.map_id _
  rw [hit] at hj hv
  obtain ⟨e1, e2, _, hm⟩ := mkWord_parts hw
  obtain ⟨er, her, hre⟩ := addrs_items ok hj hm
  have hre : er.1 = role := hre
  rcases okFun_plain ok hj with ⟨h, _⟩ | ⟨h, _⟩ | ⟨_, n, a, v, acts, rfl, hval, hn, hh⟩
  · cases h
  · cases h
  · have hb : blank (SFun.process a v acts).actorList = true := by
      cases hb : blank (SFun.process a v acts).actorList with
      | true => rfl
      | false =>
        obtain ⟨e, he, ht⟩ := (blank_items hh).1 hb
        exact absurd ht (hv.1 e he)
    have hr : onRole w.role [v] = false := by
      cases hr : onRole w.role [v] with
      | false => rfl
      | true =>
        exfalso
        rw [onRole_iff, e2, ← hre] at hr
        rw [items_process, List.mem_cons] at her
        rcases her with rfl | her
        · exact hv.2 v hval hre.symm
        · obtain ⟨g, hg, y, hy, rfl⟩ := mem_actLeaves her
          simp only [pushAddr, List.singleton_append, List.cons_prefix_cons] at hr
          exact actant_not_valence _ (hh g hg).1 (hr.1 ▸ hval)
    obtain ⟨acts', s1, s2, s3⟩ := keptActs_some (onRole_down w.role) hh
    have hk : keptEntries w.role (.process a v acts) = actLeaves acts' := by
      rw [← s3, keptEntries, hb, hr]
      rfl
    have hp : processFrom (depthOf (actLeaves acts')) (actLeaves acts') = .ok (.process none [] acts') :=
      processFrom_bare (s1.nodup hn) (fun g hg => ⟨(s2 g hg).1, (s2 g hg).2.1⟩) fun g hg =>
        depth_short (p := [g.1]) fun e he => List.mem_flatMap.2 ⟨g, hg, List.mem_map_of_mem he⟩
    unfold simplifyWord
    rw [e1]
    simp only [hk]
    rw [hp]
    have : (actLeaves acts').any (fun e => decide (e.1 = [v])) = false := by
      rw [List.any_eq_false]
      intro e he
      obtain ⟨g, hg, y, hy, rfl⟩ := mem_actLeaves he
      simp only [pushAddr, List.singleton_append, List.cons.injEq, decide_eq_true_eq]
      intro h
      exact actant_not_valence _ (s2 g hg).1 (h.1 ▸ hval)
    simp only [bind, Except.bind, this]
    rfl

-- Such a word is read.
example : ∃ f w, fromList [([c!"E:T:."], some emptyLex), ([c!"E:.n.-"], some emptyLex)] = .ok (.process, f) ∧ mkWord f [c!"E:.n.-"] .process = .ok w ∧
    (∀ e ∈ f.asList .process, ¬ HasText e) ∧ (∀ v ∈ valenceScripts, [c!"E:.n.-"] ≠ [v]) := by
  refine ⟨_, _, rfl, rfl, ?_, by decide +kernel⟩
  rintro e he ⟨x, hx, hb⟩
  have : e = ([c!"E:T:."], some emptyLex) ∨ e = ([c!"E:.n.-"], some emptyLex) := by
    rcases List.mem_cons.1 he with rfl | he
    · exact .inl rfl
    · exact .inr (List.mem_singleton.1 he)
  rcases this with rfl | rfl <;>
  · simp only [Option.some.injEq] at hx
    subst hx
    revert hb
    decide +kernel

/-- **C77: a word whose function is a junction is never simplified**: `TypeError`. -/
theorem C77_junction_root {w : WordUsl} (h : w.sfun.cls = .junction) : simplifyWord w = .error .typeError := by
  unfold simplifyWord
  split
  · next e => rw [e] at h; cases h
  · next e => rw [e] at h; cases h
  · next e => rw [e] at h; cases h
  · rfl

/-- **C77: junctions inside a word are not simplified either**: with lexemes below the junction `IndexError` is raised, as the junction is
itself put in the list; when nothing is written below and the role is the junction, the result is a word in which `None` is written
in the place of the junction. -/
theorem C77_violated_junction :
    ((readWord demoJunction [c!"E:T:."]).bind simplifyWord).map (·.text) = .error .indexError ∧
    ((readWord [([c!"E:T:."], some demoLex2), ([c!"E:.n.-", demoLink, demoFirst], some emptyLex), ([c!"E:.n.-", demoLink, demoSecond], some emptyLex)]
      [c!"E:.n.-"]).bind simplifyWord).map (·.text) = .ok (c!"[E:T:. ()(A: m1(S:)) > ! E:.n.- None]") := by
  decide +kernel

end Verif
