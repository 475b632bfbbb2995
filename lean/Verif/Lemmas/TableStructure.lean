import Verif.Model.Table
import Verif.Spec.Dictionary
import Verif.Lemmas.Cells3
import Verif.Lemmas.Except
import Verif.Props.ScriptOrder

/-
Lemmas on the tables of the paradigms of a dictionary.
-/

namespace Verif
open Script

theorem Within.refl (a : Script) : Within a a := ⟨rfl, fun _ h => h⟩

theorem Within.trans {a b c : Script} (h : Within c b) (h' : Within b a) : Within c a :=
  ⟨h.1.trans h'.1, fun w hw => h'.2 w (h.2 w hw)⟩

theorem within_of_str {a b : Script} (ha : WF a) (hb : WF b) (h : a.str = b.str) : Within a b :=
  ⟨layer_of_str ha hb h, fun w => (den_of_str ha hb h w).1⟩

theorem contains_ok {s t : Script} (hs : WF s) (ht : WF t) : ∃ b, contains s t = .ok b ∧ (b = true ↔ Within t s) :=
  C11_inclusion (built_iff_wf.2 hs) (built_iff_wf.2 ht)

theorem contains_iff {s t : Script} (hs : WF s) (ht : WF t) : contains s t = .ok true ↔ Within t s := by
  obtain ⟨b, h1, h2⟩ := contains_ok hs ht
  rw [h1, ← h2, Except.ok.injEq]

/-! ### The scripts of the tables lie within their script -/

theorem withRole_sub {s a m c x y : Script} {v : Nat} (h : WF (mult s a m)) (hc : (c, v) ∈ [(s, 0), (a, 1), (m, 2)])
    (hx : GoodOf c x) (hd : ∀ w, Den x w → Den c w) (hy : withRole s a m v x = .ok y) :
    GoodOf (mult s a m) y ∧ ∀ w, Den y w → Den (mult s a m) w := by
  have hw := h
  cases h with
  | mult h1 h2 h3 h4 h5 h6 h7 h8 h9 h10 =>
    obtain ⟨k1, k2, k3⟩ := withRole_ok hw
    simp only [List.mem_cons, Prod.mk.injEq, List.not_mem_nil, or_false] at hc
    rcases hc with ⟨rfl, rfl⟩ | ⟨rfl, rfl⟩ | ⟨rfl, rfl⟩
    · rw [k1 x hx, Except.ok.injEq] at hy
      subst hy
      obtain ⟨_, g, _, d⟩ := mkMult_sub hw hx (GoodOf.refl h2) (GoodOf.refl h3)
      refine ⟨g, fun w hw => ?_⟩
      obtain ⟨u, v, r, d1, d2, d3, rfl⟩ := (d w).1 hw
      exact .mult (hd _ d1) d2 d3
    · rw [k2 x hx, Except.ok.injEq] at hy
      subst hy
      obtain ⟨_, g, _, d⟩ := mkMult_sub hw (GoodOf.refl h1) hx (GoodOf.refl h3)
      refine ⟨g, fun w hw => ?_⟩
      obtain ⟨u, v, r, d1, d2, d3, rfl⟩ := (d w).1 hw
      exact .mult d1 (hd _ d2) d3
    · rw [k3 x hx, Except.ok.injEq] at hy
      subst hy
      obtain ⟨_, g, _, d⟩ := mkMult_sub hw (GoodOf.refl h1) (GoodOf.refl h2) hx
      refine ⟨g, fun w hw => ?_⟩
      obtain ⟨u, v, r, d1, d2, d3, rfl⟩ := (d w).1 hw
      exact .mult d1 d2 (hd _ d3)

theorem tablesL_inv : ∀ {cs : List Script} {ts : List Tables}, tablesL cs = .ok ts →
    List.Forall₂ (fun c t => tables c = .ok t) cs ts
  | [], ts, h => by
    rw [tablesL, Except.ok.injEq] at h
    subst h
    exact .nil
  | c :: cs, ts, h => by
    rw [tablesL, bind_ok] at h
    obtain ⟨t, h1, h⟩ := h
    rw [bind_ok] at h
    obtain ⟨ts', h2, h⟩ := h
    rw [pure_ok] at h
    subst h
    exact .cons h1 (tablesL_inv h2)

theorem productTables_sub {s a m : Script} (h : WF (mult s a m)) {t : Tables} (ht : productTables s a m = .ok t) :
    ∀ x ∈ t.scripts, GoodOf (mult s a m) x ∧ ∀ w, Den x w → Den (mult s a m) w := by
  unfold productTables at ht
  simp only [] at ht
  split at ht
  · cases ht
  rw [bind_ok] at ht
  obtain ⟨dims, h1, ht⟩ := ht
  rw [bind_ok] at ht
  obtain ⟨ss, h2, ht⟩ := ht
  rw [bind_ok] at ht
  obtain ⟨R, h3, ht⟩ := ht
  split at ht
  · rw [bind_ok] at ht
    obtain ⟨sss, h4, ht⟩ := ht
    rw [bind_ok] at ht
    obtain ⟨ass, h5, ht⟩ := ht
    rw [bind_ok] at ht
    obtain ⟨mss, h6, ht⟩ := ht
    rw [bind_ok] at ht
    obtain ⟨scripts, h7, ht⟩ := ht
    rw [bind_ok] at ht
    obtain ⟨headers, h8, ht⟩ := ht
    rw [pure_ok] at ht
    subst ht
    intro x hx
    obtain ⟨z, hz, hx⟩ := (mapM_mem h7).1 hx
    have hw := h
    cases h with
    | mult g1 g2 g3 =>
      have e := enum_of_run g3 h6
      have hx' : withRole s a m 2 z = .ok x := by rw [← hx]; simp [withRole]
      exact withRole_sub hw (c := m) (v := 2) (by simp) (e.good g3 z hz) (fun w hw => (e.den w).2 ⟨z, hz, hw⟩) hx'
  · rw [bind_ok] at ht
    obtain ⟨header, h4, ht⟩ := ht
    rw [pure_ok] at ht
    subst ht
    intro x hx
    simp only [List.mem_singleton] at hx
    subst hx
    exact ⟨GoodOf.refl h, fun w hw => hw⟩

theorem oneRoleTables_scripts {s a m : Script} {v : Nat} {t t' : Tables} (h : oneRoleTables s a m v t = .ok t') :
    t.scripts.mapM (withRole s a m v) = .ok t'.scripts := by
  unfold oneRoleTables at h
  rw [bind_ok] at h
  obtain ⟨ss, _, h⟩ := h
  rw [bind_ok] at h
  obtain ⟨_, _, h⟩ := h
  rw [bind_ok] at h
  obtain ⟨cells, _, h⟩ := h
  rw [bind_ok] at h
  obtain ⟨scripts, h1, h⟩ := h
  rw [bind_ok] at h
  obtain ⟨headers, _, h⟩ := h
  rw [pure_ok] at h
  subst h
  exact h1

/-- The scripts of the tables have only words of the script. -/
theorem tables_sub {s : Script} (h : WF s) : ∀ {t : Tables}, tables s = .ok t →
    ∀ x ∈ t.scripts, GoodOf s x ∧ ∀ w, Den x w → Den s w := by
  induction h with
  | @null l h =>
    intro t ht x hx
    rw [tables, Except.ok.injEq] at ht
    subst ht
    simp only [List.mem_singleton] at hx
    subst hx
    exact ⟨GoodOf.refl (.null h), fun _ h => h⟩
  | @prim p =>
    intro t ht x hx
    rw [tables, Except.ok.injEq] at ht
    subst ht
    simp only [List.mem_singleton] at hx
    subst hx
    exact ⟨GoodOf.refl .prim, fun _ h => h⟩
  | @mult s a m h1 h2 h3 h4 h5 h6 h7 h8 h9 h10 ih1 ih2 ih3 =>
    have hw : WF (mult s a m) := .mult h1 h2 h3 h4 h5 h6 h7 h8 h9 h10
    intro t ht
    rw [tables] at ht
    split at ht
    · rw [Except.ok.injEq] at ht
      subst ht
      intro x hx
      simp only [List.mem_singleton] at hx
      subst hx
      exact ⟨GoodOf.refl hw, fun _ h => h⟩
    split at ht
    · rename_i c hp
      rw [bind_ok] at ht
      obtain ⟨t0, h0, ht⟩ := ht
      have hs := oneRoleTables_scripts ht
      have hc : c ∈ [(s, 0), (a, 1), (m, 2)] := by
        have : c ∈ pluralRoles s a m := by rw [hp]; simp
        exact (List.mem_filter.1 this).1
      have key : ∀ x ∈ t0.scripts, GoodOf c.1 x ∧ ∀ w, Den x w → Den c.1 w := by
        simp only [List.mem_cons, List.not_mem_nil, or_false] at hc
        rcases hc with rfl | rfl | rfl
        · exact ih1 h0
        · exact ih2 h0
        · exact ih3 h0
      intro x hx
      obtain ⟨y, hy, hx⟩ := (mapM_mem hs).1 hx
      obtain ⟨g, d⟩ := key y hy
      exact withRole_sub hw hc g d hx
    · exact productTables_sub hw ht
  | @add cs h1 h2 h3 h4 h5 h6 h7 ih =>
    have hw : WF (add cs) := .add h1 h2 h3 h4 h5 h6 h7
    intro t ht
    rw [tables] at ht
    split at ht
    · rw [Except.ok.injEq] at ht
      subst ht
      intro x hx
      simp only [List.mem_singleton] at hx
      subst hx
      exact ⟨GoodOf.refl hw, fun _ h => h⟩
    split at ht
    · rw [bind_ok] at ht
      obtain ⟨ss, _, ht⟩ := ht
      rw [pure_ok] at ht
      subst ht
      intro x hx
      simp only [List.mem_singleton] at hx
      subst hx
      exact ⟨GoodOf.refl hw, fun _ h => h⟩
    · rw [bind_ok] at ht
      obtain ⟨ts, h0, ht⟩ := ht
      rw [pure_ok] at ht
      subst ht
      intro x hx
      simp only [List.mem_flatMap] at hx
      obtain ⟨t, ht, hx⟩ := hx
      obtain ⟨c, hc, htc⟩ := forall₂_mem_right (tablesL_inv h0) ht
      obtain ⟨g, d⟩ := ih c hc htc x hx
      refine ⟨⟨g.wf, g.layer.trans (h3 c hc), g.card.trans ?_⟩, fun w hw => .add hc (d w hw)⟩
      rw [cardinal_add hw]
      exact le_sum_card hc

theorem tables_within {s : Script} (h : WF s) {t : Tables} (ht : tables s = .ok t) {x : Script} (hx : x ∈ t.scripts) :
    WF x ∧ Within x s := by
  obtain ⟨g, d⟩ := tables_sub h ht x hx
  exact ⟨g.wf, g.layer, d⟩

/-! ### Tables and their parents -/

/-- A script accepted by a table lies within the script of the table. -/
theorem accept_within {t : Table} {s : Script} (ht : WF t.script) (hs : WF s) {b : Bool} (h : t.accept s = .ok (true, b)) :
    Within s t.script := by
  have key2 : t.accept2 s = .ok (true, b) → Within s t.script := by
    intro h
    unfold Table.accept2 at h
    rw [bind_ok] at h
    obtain ⟨c, hc, h⟩ := h
    cases c with
    | true => exact (contains_iff ht hs).1 hc
    | false =>
      simp only [Bool.not_false, if_true] at h
      cases h
  have key1 : t.accept1 s = .ok (true, b) → Within s t.script := by
    intro h
    unfold Table.accept1 at h
    rw [bind_ok] at h
    obtain ⟨c, hc, h⟩ := h
    cases c with
    | true => exact (contains_iff ht hs).1 hc
    | false =>
      simp only [Bool.not_false, if_true] at h
      cases h
  have keyS : t.acceptSet s = .ok (true, b) → Within s t.script := by
    intro h
    unfold Table.acceptSet at h
    split at h
    · cases h
    rw [bind_ok] at h
    obtain ⟨tb, h1, h⟩ := h
    rw [bind_ok] at h
    obtain ⟨ts, h2, h⟩ := h
    rw [bind_ok] at h
    obtain ⟨ss, h3, h⟩ := h
    rw [bind_ok] at h
    obtain ⟨us, h4, h⟩ := h
    have es := enum_of_run hs h3
    split at h
    · rename_i hc
      obtain ⟨hlen, -, hall⟩ := hc
      have hts := (filterM_inv h2).2
      have hsub : ∀ x ∈ ss, ∃ u ∈ ts, Within x u ∧ WF u := by
        intro x hx
        have := List.all_eq_true.1 hall x hx
        obtain ⟨y, hy, hyx⟩ := List.any_eq_true.1 this
        obtain ⟨L, hL, hy⟩ := List.mem_flatten.1 hy
        obtain ⟨u, hu, hLu⟩ := (mapM_mem h4).1 hL
        have wu := (tables_within ht h1 ((hts u).1 hu).1).1
        have eu := enum_of_run wu hLu
        refine ⟨u, hu, ?_, wu⟩
        have hw := within_of_str (es.wf x hx) (eu.wf y hy) (by simpa [pyEq] using (beq_iff_eq.1 hyx).symm)
        exact hw.trans ⟨eu.layer y hy, fun w hw => (eu.den w).2 ⟨y, hy, hw⟩⟩
      have hwt : ∀ u ∈ ts, Within u t.script := fun u hu => (tables_within ht h1 ((hts u).1 hu).1).2
      constructor
      · obtain ⟨x, hx⟩ := List.exists_mem_of_ne_nil _ (enum_ne_nil hs es)
        obtain ⟨u, hu, hxu, _⟩ := hsub x hx
        rw [← es.layer x hx, hxu.1, (hwt u hu).1]
      · intro w hw
        obtain ⟨x, hx, hxw⟩ := (es.den w).1 hw
        obtain ⟨u, hu, hxu, _⟩ := hsub x hx
        exact (hwt u hu).2 w (hxu.2 w hxw)
    · cases h
  unfold Table.accept at h
  split at h
  · exact key2 h
  · exact key1 h
  · exact key1 h
  · exact keyS h
  · exact keyS h

theorem tableClass_cell {s : Script} {k : TableKind} (h : tableClass s = .ok k) : k = .cell ↔ s.cardinal = 1 := by
  unfold tableClass at h
  split at h
  · rename_i hc
    rw [Except.ok.injEq] at h
    exact ⟨fun _ => hc, fun _ => h.symm⟩
  · rename_i hc
    rw [bind_ok] at h
    obtain ⟨t, _, h⟩ := h
    refine ⟨fun hk => ?_, fun h' => absurd h' hc⟩
    subst hk
    split at h
    · rw [bind_ok] at h
      obtain ⟨c, _, h⟩ := h
      split at h <;> cases h
    · split at h <;> cases h

theorem mkRoot_inv {s : Script} {t : Table} (h : mkRoot s = .ok t) : ∃ k, t = .root s k ∧ tableClass s = .ok k := by
  unfold mkRoot at h
  rw [bind_ok] at h
  obtain ⟨k, h1, h⟩ := h
  rw [bind_ok] at h
  obtain ⟨_, _, h⟩ := h
  rw [pure_ok] at h
  exact ⟨k, h.symm, h1⟩

theorem mkSub_inv {s : Script} {r : Bool} {p t : Table} (h : mkSub s r p = .ok t) : ∃ k, t = .sub s k r p ∧ tableClass s = .ok k := by
  unfold mkSub at h
  rw [bind_ok] at h
  obtain ⟨k, h1, h⟩ := h
  rw [bind_ok] at h
  obtain ⟨_, _, h⟩ := h
  rw [pure_ok] at h
  exact ⟨k, h.symm, h1⟩

theorem minCandidate_mem (c : Table × Bool) (cs : List (Table × Bool)) : minCandidate c cs ∈ c :: cs := by
  unfold minCandidate
  induction cs generalizing c with
  | nil => simp
  | cons d cs ih =>
    rw [List.foldl_cons]
    split
    · have := ih d; simp only [List.mem_cons] at this ⊢; tauto
    · have := ih c; simp only [List.mem_cons] at this ⊢; tauto

theorem parentCandidates_mem {ds : List Table} {s : Script} {cs : List (Table × Bool)} (h : parentCandidates ds s = .ok cs)
    {p : Table × Bool} (hp : p ∈ cs) : p.1 ∈ ds ∧ p.1.accept s = .ok (true, p.2) := by
  unfold parentCandidates at h
  rw [bind_ok] at h
  obtain ⟨r, h1, h⟩ := h
  rw [pure_ok] at h
  subst h
  simp only [List.mem_map, List.mem_filter] at hp
  obtain ⟨e, ⟨he, hb⟩, rfl⟩ := hp
  obtain ⟨t, ht, hte⟩ := (mapM_mem h1).1 he
  rw [bind_ok] at hte
  obtain ⟨a, ha, hte⟩ := hte
  rw [pure_ok] at hte
  subst hte
  exact ⟨ht, by rw [ha]; rcases a with ⟨a1, a2⟩; simp at hb; simp [hb]⟩

/-- What one round adds: nothing, or one table for the script with a parent among the tables. -/
theorem defineOne_inv {o : SetOrder} (ho : o.Valid) {ds ts : List Table} {s : Script} (h : defineOne o ds s = .ok ts) :
    ts = ds ∨ ∃ p k r, p ∈ ds ∧ ts = ds ++ [.sub s k r p] ∧ tableClass s = .ok k ∧ p.accept s = .ok (true, r) := by
  unfold defineOne at h
  rw [bind_ok] at h
  obtain ⟨cs, h1, h⟩ := h
  have hperm := ho.2.1 cs
  cases hc : o.candidates cs with
  | nil => rw [hc] at h; simp only [] at h; rw [pure_ok] at h; exact .inl h.symm
  | cons c cs' =>
    rw [hc] at h
    simp only [] at h
    rw [bind_ok] at h
    obtain ⟨t, h2, h⟩ := h
    rw [pure_ok] at h
    obtain ⟨k, rfl, hk⟩ := mkSub_inv h2
    have hm := minCandidate_mem c cs'
    rw [← hc] at hm
    have := parentCandidates_mem h1 (hperm.mem_iff.1 hm)
    exact .inr ⟨_, k, _, this.1, h.symm, hk, this.2⟩

/-- The table has no parent, or one of the list, which accepts its script. -/
def HasParent (ts : List Table) (t : Table) : Prop :=
  ∀ s k r p, t = .sub s k r p → k ≠ .cell → p ∈ ts ∧ p.accept s = .ok (true, r)

theorem HasParent.mono {ts us : List Table} {t : Table} (h : HasParent ts t) (hs : ts ⊆ us) : HasParent us t :=
  fun s k r p e hk => ⟨hs (h s k r p e hk).1, (h s k r p e hk).2⟩

/-- The tables and the cells of a root. -/
theorem defineRoot_inv {o : SetOrder} (ho : o.Valid) {root : Script} {ps : List Script} {ts cells : List Table} (hr : WF root)
    (hp : ∀ s ∈ ps, WF s ∧ s.cardinal ≠ 1) (h : defineRoot o root ps = .ok (ts, cells)) :
    ∃ L k, Enum root L ∧ (cells = L.map fun q => Table.sub q .cell false (.root root k)) ∧
      (∃ us, ts = .root root k :: us) ∧
      (∀ t ∈ ts, (t.script = root ∨ t.script ∈ ps) ∧ Within t.script root ∧ (t.kind = .cell ↔ t.script.cardinal = 1)) ∧
      (∀ t ∈ ts, HasParent ts t) ∧
      ts.Pairwise fun a b => a.script.str ≠ b.script.str := by
  unfold defineRoot at h
  rw [bind_ok] at h
  obtain ⟨rt, h1, h⟩ := h
  rw [bind_ok] at h
  obtain ⟨L, h2, h⟩ := h
  rw [bind_ok] at h
  obtain ⟨ts', h3, h⟩ := h
  rw [pure_ok, Prod.mk.injEq] at h
  obtain ⟨rfl, rfl⟩ := h
  obtain ⟨k, rfl, hk⟩ := mkRoot_inv h1
  refine ⟨L, k, enum_of_run hr h2, rfl, ?_⟩
  generalize hq : pySort (fun a b => decide (b.cardinal < a.cardinal))
      (o.scripts ((dedupBy str ps).filter fun s => !s.pyEq root)) = qs at h3
  have hperm : qs.Perm ((dedupBy str ps).filter fun s => !s.pyEq root) := by
    rw [← hq]; exact (pySort_perm _ _).trans (ho.1 _)
  have hqs : ∀ s ∈ qs, s ∈ ps ∧ s.str ≠ root.str := by
    intro s hs
    have := List.mem_filter.1 (hperm.mem_iff.1 hs)
    exact ⟨mem_dedupBy _ this.1, by simpa [pyEq] using this.2⟩
  have hnd : qs.Pairwise fun a b => a.str ≠ b.str :=
    ((dedupBy_pairwise str ps).filter _).perm hperm.symm (fun h => h.symm)
  clear hq hperm
  -- the loop
  have loop : ∀ (qs : List Script) (ds ts : List Table), qs.foldlM (defineOne o) ds = .ok ts →
      (∀ s ∈ qs, s ∈ ps ∧ s.str ≠ root.str) → (qs.Pairwise fun a b => a.str ≠ b.str) →
      (∀ t ∈ ds, ∀ s ∈ qs, t.script.str ≠ s.str) →
      (∃ us, ds = .root root k :: us) →
      (∀ t ∈ ds, (t.script = root ∨ t.script ∈ ps) ∧ Within t.script root ∧ (t.kind = .cell ↔ t.script.cardinal = 1)) →
      (∀ t ∈ ds, HasParent ds t) →
      (ds.Pairwise fun a b => a.script.str ≠ b.script.str) →
      (∃ us, ts = .root root k :: us) ∧
      (∀ t ∈ ts, (t.script = root ∨ t.script ∈ ps) ∧ Within t.script root ∧ (t.kind = .cell ↔ t.script.cardinal = 1)) ∧
      (∀ t ∈ ts, HasParent ts t) ∧
      ts.Pairwise fun a b => a.script.str ≠ b.script.str := by
    intro qs
    induction qs with
    | nil =>
      intro ds ts h _ _ _ h4 h5 h7 h6
      rw [List.foldlM_nil, pure_ok] at h
      subst h
      exact ⟨h4, h5, h7, h6⟩
    | cons s qs ih =>
      intro ds ts h hq hnd hfresh h4 h5 h7 h6
      rw [List.foldlM_cons, bind_ok] at h
      obtain ⟨ds', hd, h⟩ := h
      rw [List.pairwise_cons] at hnd
      rcases defineOne_inv ho hd with rfl | ⟨p, k', r, hp', rfl, hk', hacc⟩
      · exact ih ds' ts h (fun x hx => hq x (by simp [hx])) hnd.2 (fun t ht x hx => hfresh t ht x (by simp [hx])) h4 h5 h7 h6
      · have hs := hq s (by simp)
        have hws := hp s hs.1
        have hpw : WF p.script := by
          rcases (h5 p hp').1 with e | e
          · rw [e]; exact hr
          · exact (hp _ e).1
        have hwi := (accept_within hpw hws.1 hacc).trans (h5 p hp').2.1
        refine ih _ ts h (fun x hx => hq x (by simp [hx])) hnd.2 ?_ ?_ ?_ ?_ ?_
        · intro t ht x hx
          rcases List.mem_append.1 ht with ht | ht
          · exact hfresh t ht x (by simp [hx])
          · simp only [List.mem_singleton] at ht
            subst ht
            exact hnd.1 x hx
        · obtain ⟨us, rfl⟩ := h4
          exact ⟨us ++ [.sub s k' r p], rfl⟩
        · intro t ht
          rcases List.mem_append.1 ht with ht | ht
          · exact h5 t ht
          · simp only [List.mem_singleton] at ht
            subst ht
            exact ⟨.inr hs.1, hwi, tableClass_cell hk'⟩
        · intro t ht
          rcases List.mem_append.1 ht with ht | ht
          · exact (h7 t ht).mono (List.subset_append_left _ _)
          · simp only [List.mem_singleton] at ht
            subst ht
            rintro s' k'' r' p' e hk''
            injection e with e1 e2 e3 e4
            subst e1 e3 e4
            exact ⟨by simp [hp'], hacc⟩
        · rw [List.pairwise_append]
          refine ⟨h6, by simp, fun t ht x hx => ?_⟩
          simp only [List.mem_singleton] at hx
          subst hx
          exact hfresh t ht s (by simp)
  refine loop qs _ _ h3 hqs hnd ?_ ⟨[], rfl⟩ ?_ ?_ (by simp)
  · intro t ht s hs
    simp only [List.mem_singleton] at ht
    subst ht
    exact fun e => (hqs s hs).2 e.symm
  · intro t ht
    simp only [List.mem_singleton] at ht
    subst ht
    exact ⟨.inl rfl, Within.refl _, tableClass_cell hk⟩
  · intro t ht
    simp only [List.mem_singleton] at ht
    subst ht
    intro s k r p e
    cases e

theorem assignRoot_inv {rs : List (Script × List Script)} {s : Script} {e : Script × Script} (h : assignRoot rs s = .ok (some e)) :
    e.2 = s ∧ s.cardinal ≠ 1 := by
  unfold assignRoot at h
  split at h
  · cases h
  · rename_i hc
    rw [bind_ok] at h
    obtain ⟨ss, _, h⟩ := h
    rw [bind_ok] at h
    obtain ⟨q, _, h⟩ := h
    split at h
    · cases h
    · rw [pure_ok, Option.some.injEq] at h
      subst h
      exact ⟨rfl, hc⟩

/-- What the tables of a root satisfy. -/
structure TabsOf (scripts : List Script) (r : Script) (ts : List Table) : Prop where
  wf : ∀ t ∈ ts, WF t.script
  within : ∀ t ∈ ts, Within t.script r
  from_ : ∀ t ∈ ts, t.script = r ∨ t.script ∈ scripts ∨ t.script.cardinal = 1
  cell : ∀ t ∈ ts, t.kind = .cell ↔ t.script.cardinal = 1
  root : ∃ k us, ts.Perm (.root r k :: us) ∧ us ≠ []
  seqs : ∀ L, Enum r L → ∀ q ∈ L, ∃ t ∈ ts, t.script = q
  parent : ∀ t ∈ ts, HasParent ts t
  cellParent : ∀ s b p, Table.sub s .cell b p ∈ ts → p ∈ ts ∧ ∃ k, p = .root r k
  distinct : ts.Pairwise fun a b => a.script.cardinal ≠ 1 → b.script.cardinal ≠ 1 → a.script.str ≠ b.script.str

theorem buildTables_inv {o : SetOrder} (ho : o.Valid) {roots scripts : List Script} {x : TableStructure}
    (hr : ∀ r ∈ roots, WF r) (hs : ∀ s ∈ scripts, WF s) (h : buildTables o roots scripts = .ok x) :
    List.Forall₂ (fun r e => e.1 = r ∧ TabsOf scripts r e.2) roots x.roots := by
  unfold buildTables at h
  rw [bind_ok] at h
  obtain ⟨rs, h1, h⟩ := h
  rw [bind_ok] at h
  obtain ⟨assigned, h2, h⟩ := h
  rw [bind_ok] at h
  obtain ⟨tabs, h3, h⟩ := h
  rw [pure_ok] at h
  subst h
  replace h3 := mapM_inv h3
  have hps : ∀ r, ∀ s ∈ (assigned.filterMap id).filterMap fun e => if e.1.pyEq r then some e.2 else none,
      s ∈ scripts ∧ s.cardinal ≠ 1 := by
    intro r s hs
    simp only [List.mem_filterMap, id] at hs
    obtain ⟨e, ⟨e', he', rfl⟩, hse⟩ := hs
    obtain ⟨u, hu, hau⟩ := (mapM_mem h2).1 he'
    obtain ⟨e1, e2⟩ := assignRoot_inv hau
    split at hse
    · rw [Option.some.injEq] at hse
      rw [← hse, e1]
      exact ⟨hu, e2⟩
    · cases hse
  clear h1 h2
  induction h3 with
  | nil => exact .nil
  | @cons r e roots tabs h4 _ ih =>
    refine .cons ?_ (ih fun r hr' => hr r (by simp [hr']))
    rw [bind_ok] at h4
    obtain ⟨⟨ts, cells⟩, h5, h4⟩ := h4
    rw [pure_ok] at h4
    subst h4
    refine ⟨rfl, ?_⟩
    have hwr := hr r (by simp)
    obtain ⟨L, k, eL, hcells, ⟨us, hts⟩, h6, h8, h7⟩ := defineRoot_inv ho hwr
      (fun s hs' => ⟨hs s (hps r s hs').1, (hps r s hs').2⟩) h5
    have hperm := ho.2.2 (ts ++ cells)
    have hcell : ∀ t ∈ cells, ∃ q ∈ L, t.script = q ∧ t.kind = .cell := by
      intro t ht
      rw [hcells, List.mem_map] at ht
      obtain ⟨q, hq, rfl⟩ := ht
      exact ⟨q, hq, rfl, rfl⟩
    refine ⟨?_, ?_, ?_, ?_, ?_, ?_, ?_, ?_, ?_⟩
    · intro t ht
      rcases List.mem_append.1 (hperm.mem_iff.1 ht) with ht | ht
      · rcases (h6 t ht).1 with e | e
        · rw [e]; exact hwr
        · exact hs _ (hps r _ e).1
      · obtain ⟨q, hq, e, _⟩ := hcell t ht
        rw [e]; exact eL.wf q hq
    · intro t ht
      rcases List.mem_append.1 (hperm.mem_iff.1 ht) with ht | ht
      · exact (h6 t ht).2.1
      · obtain ⟨q, hq, e, _⟩ := hcell t ht
        rw [e]; exact ⟨eL.layer q hq, fun w hw => (eL.den w).2 ⟨q, hq, hw⟩⟩
    · intro t ht
      rcases List.mem_append.1 (hperm.mem_iff.1 ht) with ht | ht
      · rcases (h6 t ht).1 with e | e
        · exact .inl e
        · exact .inr (.inl (hps r _ e).1)
      · obtain ⟨q, hq, e, _⟩ := hcell t ht
        rw [e]; exact .inr (.inr (eL.one q hq))
    · intro t ht
      rcases List.mem_append.1 (hperm.mem_iff.1 ht) with ht | ht
      · exact (h6 t ht).2.2
      · obtain ⟨q, hq, e, e'⟩ := hcell t ht
        rw [e, e']; simp [eL.one q hq]
    · refine ⟨k, us ++ cells, hperm.trans (by rw [hts]; simp), ?_⟩
      rw [hcells]
      have := enum_ne_nil hwr eL
      simp [this]
    · intro L' e' q hq
      rw [enum_unique e' eL] at hq
      refine ⟨.sub q .cell false (.root r k), hperm.mem_iff.2 ?_, rfl⟩
      rw [hcells]
      simp only [List.mem_append, List.mem_map]
      exact .inr ⟨q, hq, rfl⟩
    · intro t ht
      rcases List.mem_append.1 (hperm.mem_iff.1 ht) with ht | ht
      · exact (h8 t ht).mono fun x hx => hperm.mem_iff.2 (by simp [hx])
      · obtain ⟨q, hq, e, e'⟩ := hcell t ht
        intro s k r p he hk
        rw [he] at e'
        exact absurd e' hk
    · intro s b p ht
      rcases List.mem_append.1 (hperm.mem_iff.1 ht) with ht | ht
      · have hc := (h6 _ ht).2.2.1 rfl
        rcases (h6 _ ht).1 with e | e
        · rw [hts] at ht h7
          rcases List.mem_cons.1 ht with ht | ht
          · cases ht
          · exact absurd (congrArg str e.symm) ((List.pairwise_cons.1 h7).1 _ ht)
        · exact absurd hc (hps r _ e).2
      · rw [hcells, List.mem_map] at ht
        obtain ⟨q, _, e⟩ := ht
        injection e with e1 e2 e3 e4
        exact ⟨hperm.mem_iff.2 (by rw [hts, ← e4]; simp), k, e4.symm⟩
    · refine List.Pairwise.perm ?_ hperm.symm (fun h h1 h2 e => h h2 h1 e.symm)
      rw [List.pairwise_append]
      refine ⟨h7.imp fun h _ _ => h, ?_, ?_⟩
      · rw [hcells, List.pairwise_map]
        exact List.pairwise_of_forall_mem_list fun a ha b hb h1 => absurd (eL.one a ha) h1
      · intro a _ b hb _ h2
        obtain ⟨q, hq, e, _⟩ := hcell b hb
        rw [e] at h2
        exact absurd (eL.one q hq) h2

end Verif
