import Verif.Props.Tiling
import Verif.Lemmas.ReadTotal

/-
The tables of a dictionary can be built: the classes of tables, the parents and the ranks.
-/

namespace Verif
open Script

/-- The tables of a script that has only one: a page, with the text of the script. -/
structure OneTable (s : Script) (t : Tables) : Prop where
  pos : 1 ≤ t.scripts.length
  flat : t.scripts.length = 1 → ∀ c ∈ t.cells, c.n2 = 1
  self : ∀ x, t.scripts = [x] → GoodOf s x ∧ x.str = s.str

theorem productTables_one {s a m : Script} (h : WF (mult s a m)) {t : Tables} (ht : productTables s a m = .ok t) :
    OneTable (mult s a m) t := by
  unfold productTables at ht
  simp only [] at ht
  split at ht
  · cases ht
  obtain ⟨dims, h1, ht⟩ := bind_ok.1 ht
  obtain ⟨ss, h2, ht⟩ := bind_ok.1 ht
  obtain ⟨R, h3, ht⟩ := bind_ok.1 ht
  split at ht
  · rename_i hl
    obtain ⟨sss, h4, ht⟩ := bind_ok.1 ht
    obtain ⟨ass, h5, ht⟩ := bind_ok.1 ht
    obtain ⟨mss, h6, ht⟩ := bind_ok.1 ht
    obtain ⟨scripts, h7, ht⟩ := bind_ok.1 ht
    obtain ⟨headers, h8, ht⟩ := bind_ok.1 ht
    rw [pure_ok] at ht
    subst ht
    have hm : m.cardinal ≠ 1 := by
      intro hm
      have : (pluralRoles s a m).length ≤ 2 := by
        unfold pluralRoles
        by_cases c1 : s.cardinal = 1 <;> by_cases c2 : a.cardinal = 1 <;> simp [c1, c2, hm]
      omega
    have hlen : 2 ≤ scripts.length := by
      cases h with
      | mult g1 g2 g3 =>
        have e3 := enum_of_run g3 h6
        have := List.length_pos_iff.2 (enum_ne_nil g3 e3)
        have h7' := (mapM_inv h7).length_eq
        have := e3.length
        omega
    refine ⟨by show 1 ≤ scripts.length; omega, fun he => ?_, fun x hx => ?_⟩
    · have : scripts.length = 1 := he
      omega
    · have : scripts = [x] := hx
      rw [this] at hlen
      simp at hlen
  · rename_i hl
    obtain ⟨header, h4, ht⟩ := bind_ok.1 ht
    rw [pure_ok] at ht
    subst ht
    refine ⟨Nat.le_refl _, fun _ c hc => ?_, fun x hx => ?_⟩
    · have : c = R := by simpa using hc
      subst this
      unfold cellArray at h3
      obtain ⟨_, _, e2⟩ := fold_shape h3
      rw [e2]
      show ((pluralRoles s a m).map fun c => c.1.cardinal).getD 2 1 = 1
      have : (pluralRoles s a m).length ≤ 3 := List.length_filter_le _ [(s, 0), (a, 1), (m, 2)]
      rw [List.getD_eq_getElem?_getD, List.getElem?_eq_none (by rw [List.length_map]; omega)]
      rfl
    · have : mult s a m = x := by simpa using hx
      subst this
      exact ⟨.refl h, rfl⟩

theorem str_roles3_eq {s a m x y z : Script} (h : WF (mult s a m)) (hx : GoodOf s x) (hy : GoodOf a y) (hz : GoodOf m z)
    (e1 : x.str = s.str) (e2 : y.str = a.str) (e3 : z.str = m.str) : (roles3 (x, y, z)).str = (mult s a m).str := by
  obtain ⟨_, g, _⟩ := mkMult_sub h hx hy hz
  refine (norm_eq_iff g.wf h).1 ?_
  have hh := h
  cases h with
  | mult h1 h2 h3 h4 h5 h6 h7 h8 h9 h10 =>
    have n1 : (role x).norm = s.norm := by rw [norm_role hx.wf]; exact norm_eq_of_str hx.wf h1 e1
    have n2 : (role y).norm = a.norm := by rw [norm_role hy.wf]; exact norm_eq_of_str hy.wf h2 e2
    have n3 : (role z).norm = m.norm := by rw [norm_role hz.wf]; exact norm_eq_of_str hz.wf h3 e3
    have em : ∀ {u v : Script}, WF u → WF v → u.norm = v.norm → u.empty = v.empty := by
      intro u v hu hv e
      rw [← empty_norm hu, ← empty_norm hv, e]
    have m1 := em (role_wf hx.wf).1 h1 n1
    have m2 := em (role_wf hy.wf).1 h2 n2
    have m3 := em (role_wf hz.wf).1 h3 n3
    have hl : (role x).layer = s.layer := by rw [(role_wf hx.wf).2.2, hx.layer]
    unfold roles3
    rw [norm, norm, n1, n2, n3, hl]
    have : (mult (role x) (role y) (role z)).empty = (mult s a m).empty := by
      rw [empty_mult_wf hh, empty_mult_wf g.wf, m1, m2, m3]
    rw [this]

theorem oneRoleTables_one {s a m c : Script} {v : Nat} (h : WF (mult s a m)) (hc : (c, v) ∈ [(s, 0), (a, 1), (m, 2)]) {t t' : Tables}
    (h0 : OneTable c t) (ht : oneRoleTables s a m v t = .ok t') : OneTable (mult s a m) t' := by
  unfold oneRoleTables at ht
  obtain ⟨ss, _, ht⟩ := bind_ok.1 ht
  obtain ⟨_, _, ht⟩ := bind_ok.1 ht
  obtain ⟨cells, h1, ht⟩ := bind_ok.1 ht
  obtain ⟨scripts, h2, ht⟩ := bind_ok.1 ht
  obtain ⟨headers, _, ht⟩ := bind_ok.1 ht
  rw [pure_ok] at ht
  subst ht
  have hl := (mapM_inv h2).length_eq
  refine ⟨by show 1 ≤ scripts.length; rw [← hl]; exact h0.pos, fun he d hd => ?_, fun x hx => ?_⟩
  · have he : scripts.length = 1 := he
    obtain ⟨r, hr, hrc⟩ := (mapM_mem h1).1 hd
    obtain ⟨_, _, e2⟩ := vectorize_shape hrc
    rw [e2]
    exact h0.flat (by omega) r hr
  · have hx : scripts = [x] := hx
    rw [hx] at hl h2
    obtain ⟨y, hy⟩ := List.length_eq_one_iff.1 hl
    obtain ⟨gy, ey⟩ := h0.self y hy
    rw [hy] at h2
    have hw : withRole s a m v y = .ok x := by
      cases mapM_inv h2 with
      | cons h _ => exact h
    have hh := h
    cases h with
    | mult g1 g2 g3 =>
      simp only [List.mem_cons, Prod.mk.injEq, List.not_mem_nil, or_false] at hc
      rcases hc with ⟨rfl, rfl⟩ | ⟨rfl, rfl⟩ | ⟨rfl, rfl⟩
      · have k := mkMult_sub hh gy (.refl g2) (.refl g3)
        have : withRole c a m 0 y = .ok (roles3 (y, a, m)) := k.1
        rw [this, Except.ok.injEq] at hw
        subst hw
        exact ⟨k.2.1, str_roles3_eq hh gy (.refl g2) (.refl g3) ey rfl rfl⟩
      · have k := mkMult_sub hh (.refl g1) gy (.refl g3)
        have : withRole s c m 1 y = .ok (roles3 (s, y, m)) := k.1
        rw [this, Except.ok.injEq] at hw
        subst hw
        exact ⟨k.2.1, str_roles3_eq hh (.refl g1) gy (.refl g3) rfl ey rfl⟩
      · have k := mkMult_sub hh (.refl g1) (.refl g2) gy
        have : withRole s a c 2 y = .ok (roles3 (s, a, y)) := k.1
        rw [this, Except.ok.injEq] at hw
        subst hw
        exact ⟨k.2.1, str_roles3_eq hh (.refl g1) (.refl g2) gy rfl rfl ey⟩

theorem tables_oneTable {s : Script} (h : WF s) : ∀ {t : Tables}, tables s = .ok t → OneTable s t := by
  have col : ∀ {s : Script} {l : List Script} {hd : List (List (List Script))} {t : Tables}, WF s → (⟨[Arr.column l], [s], hd⟩ : Tables) = t → OneTable s t := by
    rintro s l hd t hw rfl
    refine ⟨Nat.le_refl _, fun _ c hc => ?_, fun x hx => ?_⟩
    · have : c = Arr.column l := by simpa using hc
      rw [this]; rfl
    · have : s = x := by simpa using hx
      subst this
      exact ⟨.refl hw, rfl⟩
  induction h with
  | @null l h =>
    intro t ht
    rw [tables, Except.ok.injEq] at ht
    exact col (.null h) ht
  | @prim p =>
    intro t ht
    rw [tables, Except.ok.injEq] at ht
    exact col .prim ht
  | @mult s a m h1 h2 h3 h4 h5 h6 h7 h8 h9 h10 ih1 ih2 ih3 =>
    have hw : WF (mult s a m) := .mult h1 h2 h3 h4 h5 h6 h7 h8 h9 h10
    intro t ht
    rw [tables] at ht
    split at ht
    · rw [Except.ok.injEq] at ht
      exact col hw ht
    split at ht
    · rename_i c hp
      obtain ⟨t0, h0, ht⟩ := bind_ok.1 ht
      have hc : c ∈ [(s, 0), (a, 1), (m, 2)] := by
        have : c ∈ pluralRoles s a m := by rw [hp]; simp
        exact (List.mem_filter.1 this).1
      refine oneRoleTables_one (c := c.1) (v := c.2) hw hc ?_ ht
      simp only [List.mem_cons, List.not_mem_nil, or_false] at hc
      rcases hc with rfl | rfl | rfl
      · exact ih1 h0
      · exact ih2 h0
      · exact ih3 h0
    · exact productTables_one hw ht
  | @add cs h1 h2 h3 h4 h5 h6 h7 ih =>
    have hw : WF (add cs) := .add h1 h2 h3 h4 h5 h6 h7
    intro t ht
    rw [tables] at ht
    split at ht
    · rw [Except.ok.injEq] at ht
      exact col hw ht
    split at ht
    · obtain ⟨ss, _, ht⟩ := bind_ok.1 ht
      rw [pure_ok] at ht
      exact col hw ht
    · obtain ⟨ts, h0, ht⟩ := bind_ok.1 ht
      rw [pure_ok] at ht
      subst ht
      have hf := tablesL_inv h0
      match cs, ts, hf, h1 with
      | [], _, _, h1 => exact absurd rfl h1
      | [c], [t], .cons hc .nil, _ =>
        have := ih c (by simp) hc
        have e : (add [c]).str = c.str := (norm_eq_iff hw (h2 c (by simp))).1 (by simp [norm_add, packN])
        refine ⟨by simpa using this.pos, fun he d hd => this.flat (by simpa using he) d (by simpa using hd), fun x hx => ?_⟩
        obtain ⟨g, hs⟩ := this.self x (by simpa using hx)
        have hl := h3 c (by simp)
        exact ⟨⟨g.wf, by rw [g.layer, hl], by rw [cardinal_add hw]; simpa using g.card⟩, by rw [hs, e]⟩
      | c :: c' :: cs, t :: t' :: ts, .cons hc (.cons hc' _), _ =>
        have p := (ih c (by simp) hc).pos
        have p' := (ih c' (by simp) hc').pos
        have hlen : 2 ≤ ((t :: t' :: ts).flatMap Tables.scripts).length := by
          simp only [List.flatMap_cons, List.length_append]
          omega
        refine ⟨by show 1 ≤ ((t :: t' :: ts).flatMap Tables.scripts).length; omega, fun he => ?_, fun x hx => ?_⟩
        · have : ((t :: t' :: ts).flatMap Tables.scripts).length = 1 := he
          omega
        · have : (t :: t' :: ts).flatMap Tables.scripts = [x] := hx
          rw [this] at hlen
          simp at hlen

/-- A script that lists each word once and whose headers are short enough can be made a table. -/
theorem class_total {s : Script} (h : WF s) (hd : DisjointSums s) (hw : ¬ TooWide s) : ∃ k, tableClass s = .ok k ∧ checkTable s k = .ok () ∧ (k = .cell ↔ s.cardinal = 1) := by
  by_cases hc : s.cardinal = 1
  · exact ⟨.cell, by rw [tableClass, if_pos hc], rfl, by simp [hc]⟩
  obtain ⟨L, e⟩ := enum_exists h
  rcases tab_outcome h with ⟨h1, _⟩ | ⟨_, h2⟩
  · exact absurd h1 hw
  obtain ⟨t, ht, tok⟩ := h2 hd L e
  have one := tables_oneTable h ht
  obtain ⟨hsh, hle⟩ := tables_shape h ht
  by_cases hl : t.scripts.length = 1
  · obtain ⟨x, hx⟩ := List.length_eq_one_iff.1 hl
    obtain ⟨gx, ex⟩ := one.self x hx
    have hcells : ∃ c, t.cells = [c] := by
      rw [hl] at hle
      match hq : t.cells, hle with
      | [], _ =>
        have := tok.cells
        rw [hq] at this
        have hL : L.map some = [] := List.nil_perm.1 this
        exact absurd (List.map_eq_nil_iff.1 hL) (enum_ne_nil h e)
      | [c], _ => exact ⟨c, rfl⟩
      | _ :: _ :: _, hle => simp at hle
    obtain ⟨c, hcc⟩ := hcells
    have n2 := one.flat hl c (by rw [hcc]; simp)
    have hsc := hsh c (by rw [hcc]; simp)
    have hne : ¬ (c.n0 = 1 ∧ c.n1 = 1) := by
      rintro ⟨z0, z1⟩
      have := tok.cells.length_eq
      rw [hcc] at this
      simp only [List.flatMap_cons, List.flatMap_nil, List.append_nil, List.length_map, e.length] at this
      apply hc
      rw [← this]
      simp [Arr.flat, z0, z1, n2]
    have hclass : tableClass s = (match ([c.n0, c.n1, c.n2].filter fun n => n ≠ 1).length with
      | 1 => .ok .t1d
      | 2 => .ok .t2d
      | _ => .error .valueError) := by
      unfold tableClass
      rw [if_neg hc, ht]
      simp only [bind, Except.bind, if_pos hl, hcc, first]
      split <;> simp_all <;> rfl
    rcases hsc with ⟨z1, z2⟩ | ⟨z0, z1⟩
    · have z0 : c.n0 ≠ 1 := fun z0 => hne ⟨z0, z1⟩
      refine ⟨.t1d, ?_, rfl, by simp [hc]⟩
      rw [hclass]
      simp [z0, z1, z2]
    · refine ⟨.t2d, ?_, ?_, by simp [hc]⟩
      · rw [hclass]
        simp [z0, z1, n2]
      · rw [checkTable, ht]
        simp only [bind, Except.bind, hx, hcc, first]
        rw [if_neg]
        · rfl
        · simp [pyEq, ex, n2, z1]
  · have hclass : tableClass s = if t.cells.length = 1 then .ok .t3d else .ok .set := by
      unfold tableClass
      rw [if_neg hc, ht]
      simp only [bind, Except.bind, if_neg hl]
      split <;> rfl
    have hchk : ∀ k, k = .t3d ∨ k = .set → checkTable s k = .ok () := by
      rintro k (rfl | rfl) <;> rw [checkTable, ht] <;> simp only [bind, Except.bind, if_neg hl] <;> rfl
    by_cases h1 : t.cells.length = 1
    · exact ⟨.t3d, by rw [hclass, if_pos h1], hchk _ (.inl rfl), by simp [hc]⟩
    · exact ⟨.set, by rw [hclass, if_neg h1], hchk _ (.inr rfl), by simp [hc]⟩

/-- A script fit for a table: it can be built, lists each word once and its headers are short enough. -/
def FitScript (s : Script) : Prop := WF s ∧ DisjointSums s ∧ ¬ TooWide s

theorem mkSub_total {s : Script} (h : FitScript s) (r : Bool) (p : Table) : ∃ t, mkSub s r p = .ok t ∧ t.script = s ∧ TableMade t := by
  obtain ⟨k, h1, h2, _⟩ := class_total h.1 h.2.1 h.2.2
  have e : mkSub s r p = .ok (.sub s k r p) := by
    unfold mkSub
    rw [h1]
    simp only [bind, Except.bind]
    rw [h2]
    rfl
  exact ⟨_, e, rfl, .inr ⟨r, p, e⟩⟩

theorem mkRoot_total {s : Script} (h : FitScript s) : ∃ t, mkRoot s = .ok t ∧ t.script = s ∧ TableMade t := by
  obtain ⟨k, h1, h2, _⟩ := class_total h.1 h.2.1 h.2.2
  have e : mkRoot s = .ok (.root s k) := by
    unfold mkRoot
    rw [h1]
    simp only [bind, Except.bind]
    rw [h2]
    rfl
  exact ⟨_, e, rfl, .inl e⟩

/-- The question whether a table accepts a script never raises. -/
theorem accept_total {t : Table} {s : Script} (h : TableMade t) (ht : FitScript t.script) (hs : FitScript s) : ∃ r, t.accept s = .ok r := by
  have bt := wf_built ht.1
  have bs := wf_built hs.1
  cases hk : t.kind with
  | cell =>
    obtain ⟨_, _, _, _, _, h1, h2⟩ := C86_one h (.inr hk) bt ht.2.1 bs hs.2.1
    by_cases hw : Within s t.script
    · obtain ⟨r, hr, _⟩ := h2 hw; exact ⟨_, hr⟩
    · exact ⟨_, h1 hw⟩
  | t1d =>
    obtain ⟨_, _, _, _, _, h1, h2⟩ := C86_one h (.inl hk) bt ht.2.1 bs hs.2.1
    by_cases hw : Within s t.script
    · obtain ⟨r, hr, _⟩ := h2 hw; exact ⟨_, hr⟩
    · exact ⟨_, h1 hw⟩
  | t2d =>
    obtain ⟨_, _, _, _, h1, h2⟩ := C86_two h hk bt ht.2.1 bs hs.2.1
    by_cases hw : Within s t.script
    · by_cases hr : t.rank ≠ 0 ∧ t.rank % 2 = 0
      · exact ⟨_, h1 (.inr hr)⟩
      · obtain ⟨r, hr, _⟩ := h2 hw hr; exact ⟨_, hr⟩
    · exact ⟨_, h1 (.inl hw)⟩
  | t3d =>
    obtain ⟨_, _, h1, h2⟩ := C86_set h (.inl hk) bt bs
    cases hp : t.parentIsSet with
    | true => exact ⟨_, h1 hp⟩
    | false => obtain ⟨r, hr, _⟩ := h2 hp; exact ⟨_, hr⟩
  | set =>
    obtain ⟨_, _, h1, h2⟩ := C86_set h (.inr hk) bt bs
    cases hp : t.parentIsSet with
    | true => exact ⟨_, h1 hp⟩
    | false => obtain ⟨r, hr, _⟩ := h2 hp; exact ⟨_, hr⟩

theorem parentCandidates_total {ds : List Table} {s : Script} (hd : ∀ t ∈ ds, TableMade t ∧ FitScript t.script) (hs : FitScript s) :
    ∃ cs, parentCandidates ds s = .ok cs := by
  unfold parentCandidates
  refine bind_total (mapM_total fun t ht => bind_total (accept_total (hd t ht).1 (hd t ht).2 hs) fun a _ => ⟨_, rfl⟩) fun r _ => ⟨_, rfl⟩

theorem defineOne_total {o : SetOrder} {ds : List Table} {s : Script} (hd : ∀ t ∈ ds, TableMade t ∧ FitScript t.script) (hs : FitScript s) :
    ∃ ts, defineOne o ds s = .ok ts ∧ ∀ t ∈ ts, TableMade t ∧ FitScript t.script := by
  obtain ⟨cs, hcs⟩ := parentCandidates_total hd hs
  unfold defineOne
  rw [hcs]
  simp only [bind, Except.bind]
  cases o.candidates cs with
  | nil => exact ⟨ds, rfl, hd⟩
  | cons c cs =>
    obtain ⟨t, h1, h2, h3⟩ := mkSub_total hs (minCandidate c cs).2 (minCandidate c cs).1
    refine ⟨ds ++ [t], ?_, fun u hu => ?_⟩
    · show (mkSub s (minCandidate c cs).2 (minCandidate c cs).1).bind (fun t => Except.ok (ds ++ [t])) = _
      rw [h1]
      rfl
    · rcases List.mem_append.1 hu with hu | hu
      · exact hd u hu
      · rw [List.mem_singleton.1 hu]
        exact ⟨h3, by rw [h2]; exact hs⟩

theorem defineRoot_total {o : SetOrder} (ho : o.Valid) {root : Script} {ps : List Script} (hr : FitScript root) (hp : ∀ s ∈ ps, FitScript s) :
    ∃ r, defineRoot o root ps = .ok r := by
  obtain ⟨t, h1, h2, h3⟩ := mkRoot_total hr
  obtain ⟨L, e⟩ := enum_exists hr.1
  unfold defineRoot
  rw [h1]
  simp only [bind, Except.bind]
  rw [e.run]
  simp only []
  have mem : ∀ s ∈ pySort (fun a b => decide (b.cardinal < a.cardinal)) (o.scripts ((dedupBy str ps).filter fun s => !s.pyEq root)), FitScript s := by
    intro s hs
    rw [mem_pySort, (ho.1 _).mem_iff, List.mem_filter] at hs
    exact hp s (mem_dedupBy str hs.1)
  obtain ⟨ts, h4, _⟩ := foldlM_total (f := defineOne o) (b := [t]) (P := fun ts => ∀ t ∈ ts, TableMade t ∧ FitScript t.script)
    (l := pySort (fun a b => decide (b.cardinal < a.cardinal)) (o.scripts ((dedupBy str ps).filter fun s => !s.pyEq root)))
    (by intro u hu; rw [List.mem_singleton.1 hu]; exact ⟨h3, by rw [h2]; exact hr⟩)
    (fun s hs b hb => defineOne_total hb (mem s hs))
  rw [h4]
  exact ⟨_, rfl⟩

theorem assignRoot_total {roots : List Script} {rs : List (Script × List Script)} (hr : ∀ r ∈ roots, WF r)
    (h : roots.mapM (fun r => do return (r, ← singularSequences r)) = .ok rs) {s : Script} (hs : WF s)
    (hw : ∀ w, Den s w → ∃ r ∈ roots, Den r w) : ∃ e, assignRoot rs s = .ok e := by
  unfold assignRoot
  split
  · exact ⟨_, rfl⟩
  obtain ⟨L, e⟩ := enum_exists hs
  rw [e.run]
  simp only [bind, Except.bind]
  cases L with
  | nil => exact absurd rfl (enum_ne_nil hs e)
  | cons q L =>
    simp only [first]
    have wq := e.wf q (by simp)
    obtain ⟨w, hqw⟩ := den_exists wq
    obtain ⟨r, hrm, hrw⟩ := hw w ((e.den w).2 ⟨q, by simp, hqw⟩)
    have hsome : (rootOfSeq rs q).isSome = true := by
      unfold rootOfSeq
      rw [Option.isSome_map, List.find?_isSome]
      obtain ⟨x, hx, hf⟩ := forall₂_mem_left (mapM_inv h) hrm
      obtain ⟨M, hM, hx'⟩ := bind_ok.1 hf
      rw [pure_ok] at hx'
      subst hx'
      have eM := enum_of_run (hr r hrm) hM
      obtain ⟨q', hq', hq'w⟩ := (eM.den w).1 hrw
      refine ⟨(r, M), List.mem_reverse.2 hx, List.any_eq_true.2 ⟨q', hq', ?_⟩⟩
      simpa [pyEq] using str_of_word' (eM.wf q' hq') wq (eM.one q' hq') (e.one q (by simp)) hq'w hqw
    obtain ⟨r', hr'⟩ := Option.isSome_iff_exists.1 hsome
    rw [hr']
    exact ⟨_, rfl⟩

/-- The tables can be built when the roots and the scripts are fit for tables and every word of a script is in a root. -/
theorem buildTables_total {o : SetOrder} (ho : o.Valid) {roots scripts : List Script} (hr : ∀ r ∈ roots, FitScript r)
    (hs : ∀ s ∈ scripts, WF s ∧ (s.cardinal ≠ 1 → FitScript s)) (hw : ∀ s ∈ scripts, ∀ w, Den s w → ∃ r ∈ roots, Den r w) :
    ∃ x, buildTables o roots scripts = .ok x := by
  have wr : ∀ r ∈ roots, WF r := fun r h => (hr r h).1
  unfold buildTables
  refine bind_total (mapM_total fun r h => ?_) fun rs h1 => ?_
  · obtain ⟨L, e⟩ := enum_exists (wr r h)
    exact ⟨(r, L), by rw [e.run]; rfl⟩
  refine bind_total (mapM_total fun s h => assignRoot_total wr h1 (hs s h).1 (hw s h)) fun assigned h2 => ?_
  refine bind_total (mapM_total fun r h => ?_) fun tabs _ => ⟨_, rfl⟩
  refine bind_total (defineRoot_total ho (hr r h) fun s hs' => ?_) fun _ _ => ⟨_, rfl⟩
  simp only [List.mem_filterMap, id] at hs'
  obtain ⟨e, ⟨e', he', rfl⟩, hse⟩ := hs'
  obtain ⟨u, hu, hau⟩ := (mapM_mem h2).1 he'
  obtain ⟨e1, e2⟩ := assignRoot_inv hau
  split at hse
  · rw [Option.some.injEq] at hse
    rw [← hse, e1]
    exact (hs u hu).2 e2
  · cases hse

/-- No two tables of a root have the same script, when the root has several words and lists each once. -/
theorem buildTables_distinct {o : SetOrder} (ho : o.Valid) {roots scripts : List Script} {x : TableStructure}
    (hr : ∀ r ∈ roots, WF r ∧ DisjointSums r ∧ r.cardinal ≠ 1) (hs : ∀ s ∈ scripts, WF s) (h : buildTables o roots scripts = .ok x) :
    ∀ e ∈ x.roots, e.2.Pairwise fun a b => a.script.str ≠ b.script.str := by
  unfold buildTables at h
  obtain ⟨rs, h1, h⟩ := bind_ok.1 h
  obtain ⟨assigned, h2, h⟩ := bind_ok.1 h
  obtain ⟨tabs, h3, h⟩ := bind_ok.1 h
  rw [pure_ok] at h
  subst h
  have hps : ∀ r, ∀ s ∈ (assigned.filterMap id).filterMap fun e => if e.1.pyEq r then some e.2 else none,
      s ∈ scripts ∧ s.cardinal ≠ 1 := by
    intro r s hs
    simp only [List.mem_filterMap, id] at hs
    obtain ⟨e, ⟨e', he', rfl⟩, hse⟩ := hs
    obtain ⟨u, hu, hau⟩ := (mapM_mem h2).1 he'
    obtain ⟨e1, e2⟩ := assignRoot_inv hau
    split at hse
    · rw [Option.some.injEq] at hse
      rw [← hse, e1]
      exact ⟨hu, e2⟩
    · cases hse
  intro e he
  obtain ⟨r, hrm, h4⟩ := (mapM_mem h3).1 he
  obtain ⟨⟨ts, cells⟩, h5, h4⟩ := bind_ok.1 h4
  rw [pure_ok] at h4
  subst h4
  obtain ⟨wr, dr, cr⟩ := hr r hrm
  obtain ⟨L, k, eL, hcells, _, h6, _, h7⟩ := defineRoot_inv ho wr (fun s hs' => ⟨hs s (hps r s hs').1, (hps r s hs').2⟩) h5
  refine List.Pairwise.perm ?_ (ho.2.2 (ts ++ cells)).symm (fun h e => h e.symm)
  rw [List.pairwise_append]
  refine ⟨h7, ?_, fun a ha b hb he => ?_⟩
  · rw [hcells, List.pairwise_map]
    exact (norep_iff wr eL).2 dr
  · rw [hcells, List.mem_map] at hb
    obtain ⟨q, hq, rfl⟩ := hb
    have wa : WF a.script ∧ a.script.cardinal ≠ 1 := by
      rcases (h6 a ha).1 with e | e
      · rw [e]; exact ⟨wr, cr⟩
      · exact ⟨hs _ (hps r _ e).1, (hps r _ e).2⟩
    exact wa.2 (by rw [cardinal_of_str wa.1 (eL.wf q hq) he]; exact eL.one q hq)

/-- A rank above 5 needs four nested tables. -/
theorem rank_chain {scripts : List Script} {r : Script} {ts : List Table} (h : TabsOf scripts r ts)
    (hd : ts.Pairwise fun a b => a.script.str ≠ b.script.str) (hs : ∀ t ∈ ts, DisjointSums t.script) {t : Table} (ht : t ∈ ts)
    (hc : t.script.cardinal ≠ 1) (hr : 6 ≤ t.rank) :
    ∃ p ∈ ts, ∃ q ∈ ts, ∃ u ∈ ts, Within t.script p.script ∧ Within p.script q.script ∧ Within q.script u.script ∧
      p.script.cardinal ≠ 1 ∧ q.script.cardinal ≠ 1 ∧ u.script.cardinal ≠ 1 ∧
      [t.script.str, p.script.str, q.script.str, u.script.str].Nodup := by
  have notCell : ∀ {t : Table}, t ∈ ts → t.script.cardinal ≠ 1 → t.kind ≠ .cell := fun ht hc hk => hc ((h.cell _ ht).1 hk)
  -- one step towards the root
  have step : ∀ {t : Table}, t ∈ ts → t.script.cardinal ≠ 1 → 1 ≤ t.rank → ∃ p ∈ ts, Within t.script p.script ∧ p.script.cardinal ≠ 1 ∧
      t.rank ≤ max p.rank 1 + 2 ∧ sizeOf p < sizeOf t := by
    intro t ht hc hr
    cases t with
    | root s k =>
      exfalso
      have : k ≠ .cell := notCell ht hc
      simp [Table.rank, this] at hr
    | sub s k b p =>
      have hk : k ≠ .cell := notCell ht hc
      obtain ⟨hp, hacc⟩ := h.parent _ ht s k b p rfl hk
      have hw : Within s p.script := accept_within (h.wf p hp) (h.wf _ ht) hacc
      refine ⟨p, hp, hw, fun hc1 => hc ?_, ?_, ?_⟩
      · obtain ⟨L, e⟩ := enum_exists (h.wf _ ht)
        have hn := (norep_iff (h.wf _ ht) e).2 (hs _ ht)
        have hl := e.length
        match L, e, hn, hl with
        | [], e, _, _ => exact absurd rfl (enum_ne_nil (h.wf _ ht) e)
        | [q], _, _, hl => exact hl.symm
        | a :: b :: L, e, hn, _ =>
          exfalso
          obtain ⟨w, hwa⟩ := den_exists (e.wf a (by simp))
          obtain ⟨v, hvb⟩ := den_exists (e.wf b (by simp))
          have h1 := hw.2 w ((e.den w).2 ⟨a, by simp, hwa⟩)
          have h2 := hw.2 v ((e.den v).2 ⟨b, by simp, hvb⟩)
          rw [den_unique (h.wf p hp) hc1 h1 h2] at hwa
          exact (List.pairwise_cons.1 hn).1 b (by simp)
            (str_of_word' (e.wf a (by simp)) (e.wf b (by simp)) (e.one a (by simp)) (e.one b (by simp)) hwa hvb)
      · have e : (Table.sub s k b p).rank = if k = .cell then 6 else if p.isSet = true then max p.rank 1
            else if b = true then max p.rank 1 + 2 else max p.rank 1 + 1 := rfl
        rw [e, if_neg hk]
        split
        · omega
        · split <;> omega
      · simp
  obtain ⟨p, hp, w1, c1, r1, s1⟩ := step ht hc (by omega)
  obtain ⟨q, hq, w2, c2, r2, s2⟩ := step hp c1 (by omega)
  obtain ⟨u, hu, w3, c3, r3, s3⟩ := step hq c2 (by omega)
  have ne : ∀ {a b : Table}, a ∈ ts → b ∈ ts → sizeOf a < sizeOf b → b.script.str ≠ a.script.str := by
    intro a b ha hb hlt he
    have hn : (ts.map fun t => t.script.str).Nodup := List.pairwise_map.2 hd
    have := List.inj_on_of_nodup_map hn hb ha he
    subst this
    omega
  exact ⟨p, hp, q, hq, u, hu, w1, w2, w3, c1, c2, c3, by
    simp only [List.nodup_cons, List.mem_cons, List.not_mem_nil, or_false, not_or, not_false_eq_true, List.nodup_nil, and_true]
    exact ⟨⟨ne hp ht s1, ne hq ht (by omega), ne hu ht (by omega)⟩, ⟨ne hq hp s2, ne hu hp (by omega)⟩, ne hu hq s3⟩⟩

end Verif
