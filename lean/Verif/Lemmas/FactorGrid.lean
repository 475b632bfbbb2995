import Verif.Model.Factor
import Verif.Lemmas.PySort
import Verif.Lemmas.Except

/-
The greedy search of `factor` on coordinates: what it finds is always a full box of coordinates.
-/

namespace Verif

/-- A set of coordinates that is a product of three sets. -/
def Box (F : List Coord) : Prop := ∀ a ∈ F, ∀ b ∈ F, ∀ c ∈ F, (a.1, b.2.1, c.2.2) ∈ F

/-- One of the three coordinates is constant. -/
def FlatCoords (K : List Coord) : Prop :=
  (∀ a ∈ K, ∀ b ∈ K, a.1 = b.1) ∨ (∀ a ∈ K, ∀ b ∈ K, a.2.1 = b.2.1) ∨ ∀ a ∈ K, ∀ b ∈ K, a.2.2 = b.2.2

theorem box_singleton (e : Coord) : Box [e] := by
  intro a ha b hb c hc
  simp only [List.mem_singleton] at ha hb hc
  subst ha hb hc
  simp

theorem mem_neighbours {t r c : Coord} : c ∈ neighbours t r ↔
    (c.1 = t.1 ∨ c.1 = r.1) ∧ (c.2.1 = t.2.1 ∨ c.2.1 = r.2.1) ∧ (c.2.2 = t.2.2 ∨ c.2.2 = r.2.2) := by
  obtain ⟨x, y, z⟩ := c
  simp only [neighbours, List.mem_cons, List.not_mem_nil, or_false, Prod.mk.injEq]
  constructor
  · rintro (⟨rfl, rfl, rfl⟩ | ⟨rfl, rfl, rfl⟩ | ⟨rfl, rfl, rfl⟩ | ⟨rfl, rfl, rfl⟩ | ⟨rfl, rfl, rfl⟩ | ⟨rfl, rfl, rfl⟩ |
      ⟨rfl, rfl, rfl⟩ | ⟨rfl, rfl, rfl⟩) <;> simp
  · rintro ⟨rfl | rfl, rfl | rfl, rfl | rfl⟩ <;> simp

/-- The coordinates of the enlarged factorisation. -/
def enlarge (F : List Coord) (r : Coord) : List Coord := pySort ltCoord (dedupBy id (F.flatMap fun t => neighbours t r))

theorem mem_enlarge {F : List Coord} {r c : Coord} : c ∈ enlarge F r ↔ ∃ t ∈ F, c ∈ neighbours t r := by
  rw [enlarge, mem_pySort]
  constructor
  · intro h
    exact List.mem_flatMap.1 (mem_dedupBy id h)
  · intro h
    obtain ⟨y, hy, he⟩ := dedupBy_complete id (List.mem_flatMap.2 h)
    exact (show y = c from he) ▸ hy

theorem enlarge_box {F : List Coord} (h : Box F) (r : Coord) : Box (enlarge F r) := by
  intro a ha b hb c hc
  rw [mem_enlarge] at ha hb hc ⊢
  obtain ⟨ta, h1, ha⟩ := ha
  obtain ⟨tb, h2, hb⟩ := hb
  obtain ⟨tc, h3, hc⟩ := hc
  refine ⟨(ta.1, tb.2.1, tc.2.2), h ta h1 tb h2 tc h3, ?_⟩
  rw [mem_neighbours] at ha hb hc ⊢
  exact ⟨ha.1, hb.2.1, hc.2.2⟩

theorem mem_enlarge_new {F : List Coord} (h : F ≠ []) (r : Coord) : r ∈ enlarge F r := by
  obtain ⟨t, ht⟩ := List.exists_mem_of_ne_nil _ h
  exact mem_enlarge.2 ⟨t, ht, by rw [mem_neighbours]; simp⟩

theorem mem_enlarge_old {F : List Coord} {r t : Coord} (h : t ∈ F) : t ∈ enlarge F r :=
  mem_enlarge.2 ⟨t, h, by rw [mem_neighbours]; simp⟩

/-! ### The relations -/

theorem dictGet_id_mem {β : Type} {c : Coord} {v : β} : ∀ {d : List (Coord × β)}, dictGet id c d = some v → (c, v) ∈ d
  | [], h => by cases h
  | e :: d, h => by
    rw [dictGet] at h
    split at h
    · rename_i he
      cases h
      rw [show c = e.1 from (show e.1 = c from he).symm]
      simp
    · exact List.mem_cons_of_mem _ (dictGet_id_mem h)

theorem dictGet_id_some {β : Type} {c : Coord} : ∀ {d : List (Coord × β)}, c ∈ d.map (·.1) → ∃ v, dictGet id c d = some v
  | [], h => by cases h
  | e :: d, h => by
    rw [dictGet]
    split
    · exact ⟨_, rfl⟩
    · rename_i he
      rw [List.map_cons, List.mem_cons] at h
      rcases h with rfl | h
      · exact absurd rfl he
      · exact dictGet_id_some h

theorem relStep_keys (K : List Coord) (rel : List (Coord × List Coord)) (s : Coord) :
    (relStep K rel s).map (·.1) = rel.map (·.1) ++ [s] := by
  rw [relStep]
  simp only [List.map_append, List.map_map, List.map_cons, List.map_nil, List.append_cancel_right_eq]
  refine List.map_congr_left fun p _ => ?_
  simp only [Function.comp]
  split <;> rfl

/-- What the relations of the coordinates met so far are. -/
def GridRelOk (K P : List Coord) (rel : List (Coord × List Coord)) : Prop :=
  rel.map (·.1) = P ∧ ∀ c L, (c, L) ∈ rel →
    (∀ e ∈ L, e ∈ P ∧ e ≠ c ∧ (cubeWith K c e = true ∨ cubeWith K e c = true)) ∧
    ∀ e ∈ P, e ≠ c → cubeWith K c e = true → cubeWith K e c = true → e ∈ L

theorem relStep_ok {K P : List Coord} {rel : List (Coord × List Coord)} {s : Coord} (h : GridRelOk K P rel) (hs : s ∉ P) :
    GridRelOk K (P ++ [s]) (relStep K rel s) := by
  obtain ⟨h1, h2⟩ := h
  refine ⟨by rw [relStep_keys, h1], ?_⟩
  intro c L hc
  rw [relStep, h1] at hc
  simp only [List.mem_append, List.mem_map, List.mem_singleton, Prod.mk.injEq, List.contains_eq_mem, List.mem_filter,
    decide_eq_true_eq] at hc
  rcases hc with ⟨p, hp, he⟩ | ⟨rfl, rfl⟩
  · have hpP : p.1 ∈ P := h1 ▸ List.mem_map_of_mem hp
    obtain ⟨g1, g2⟩ := h2 p.1 p.2 hp
    split at he
    · rename_i hcube
      cases he
      refine ⟨?_, ?_⟩
      · intro e he
        rcases List.mem_append.1 he with he | he
        · obtain ⟨a, b, c⟩ := g1 e he
          exact ⟨List.mem_append_left _ a, b, c⟩
        · rw [List.mem_singleton] at he
          subst he
          exact ⟨by simp, fun h => hs (h ▸ hpP), .inr hcube.2⟩
      · intro e he hne h3 h4
        rcases List.mem_append.1 he with he | he
        · exact List.mem_append_left _ (g2 e he hne h3 h4)
        · exact List.mem_append_right _ he
    · rename_i hcube
      subst he
      refine ⟨?_, ?_⟩
      · intro e he
        obtain ⟨a, b, c⟩ := g1 e he
        exact ⟨List.mem_append_left _ a, b, c⟩
      · intro e he hne h3 h4
        rcases List.mem_append.1 he with he | he
        · exact g2 e he hne h3 h4
        · rw [List.mem_singleton] at he
          subst he
          exact absurd ⟨hpP, h4⟩ hcube
  · refine ⟨?_, ?_⟩
    · intro e he
      obtain ⟨a, b⟩ := List.mem_filter.1 he
      exact ⟨List.mem_append_left _ a, fun h => hs (h ▸ a), .inl b⟩
    · intro e he hne h3 _
      rcases List.mem_append.1 he with he | he
      · exact List.mem_filter.2 ⟨he, h3⟩
      · exact absurd (List.mem_singleton.1 he) hne

theorem relFold_ok {K : List Coord} : ∀ {Q P : List Coord} {rel : List (Coord × List Coord)}, GridRelOk K P rel → (P ++ Q).Nodup →
    GridRelOk K (P ++ Q) (Q.foldl (relStep K) rel)
  | [], P, rel, h, _ => by simpa using h
  | s :: Q, P, rel, h, hn => by
    have hs : s ∉ P := by
      intro hs
      rw [List.nodup_append] at hn
      exact hn.2.2 s hs s (by simp) rfl
    have := relFold_ok (Q := Q) (relStep_ok h hs) (by simpa using hn)
    simpa using this

theorem relationsOf_ok {K : List Coord} (hn : K.Nodup) : GridRelOk K K (relationsOf K) := by
  have h : GridRelOk K K (K.foldl (relStep K) []) := by
    have := relFold_ok (K := K) (Q := K) (P := []) (rel := []) ⟨rfl, by simp⟩ (by simpa using hn)
    simpa using this
  obtain ⟨h1, h2⟩ := h
  refine ⟨by rw [relationsOf, List.map_map]; exact h1, ?_⟩
  intro c L hc
  rw [relationsOf] at hc
  obtain ⟨p, hp, he⟩ := List.mem_map.1 hc
  cases he
  obtain ⟨g1, g2⟩ := h2 p.1 p.2 hp
  exact ⟨fun e he => g1 e ((mem_pySort _).1 he), fun e he a b c => (mem_pySort _).2 (g2 e he a b c)⟩

theorem related_ok {K : List Coord} (hn : K.Nodup) {c : Coord} : (∃ L, related (relationsOf K) c = .ok L) ↔ c ∈ K := by
  have h1 := (relationsOf_ok hn).1
  constructor
  · rintro ⟨L, h⟩
    rw [related] at h
    split at h
    · rename_i l hl
      rw [← h1]
      exact List.mem_map_of_mem (f := (·.1)) (dictGet_id_mem hl)
    · cases h
  · intro h
    rw [← h1] at h
    obtain ⟨v, hv⟩ := dictGet_id_some h
    exact ⟨v, by rw [related, hv]⟩

theorem related_mem {K : List Coord} (hn : K.Nodup) {c : Coord} {L : List Coord} (h : related (relationsOf K) c = .ok L) :
    (∀ e ∈ L, e ∈ K ∧ e ≠ c ∧ (cubeWith K c e = true ∨ cubeWith K e c = true)) ∧
    ∀ e ∈ K, e ≠ c → cubeWith K c e = true → cubeWith K e c = true → e ∈ L := by
  refine (relationsOf_ok hn).2 c L ?_
  rw [related] at h
  split at h
  · rename_i l hl
    cases h
    exact dictGet_id_mem hl
  · cases h

theorem related_error (rel : List (Coord × List Coord)) (c : Coord) :
    (∃ L, related rel c = .ok L) ∨ related rel c = .error .keyError := by
  rw [related]
  split
  · exact .inl ⟨_, rfl⟩
  · exact .inr rfl

theorem mapM_only {α β : Type} {f : α → Except Err β} {e : Err} : ∀ {l : List α}, (∀ x ∈ l, (∃ y, f x = .ok y) ∨ f x = .error e) →
    (∃ ys, l.mapM f = .ok ys) ∨ l.mapM f = .error e
  | [], _ => .inl ⟨[], rfl⟩
  | x :: l, h => by
    rw [List.mapM_cons]
    rcases h x (by simp) with ⟨y, hy⟩ | hy
    · rcases mapM_only (l := l) fun x hx => h x (by simp [hx]) with ⟨ys, h2⟩ | h2
      · exact .inl ⟨y :: ys, by rw [hy, h2]; rfl⟩
      · exact .inr (by rw [hy, h2]; rfl)
    · exact .inr (by rw [hy]; rfl)

/-! ### The search -/

/-- The candidates that are kept. -/
def keptBy (near : List (List Coord)) (cand : List Coord) : List Coord := cand.filter fun c => near.all fun l => l.contains c

theorem mem_keptBy {near : List (List Coord)} {cand : List Coord} {c : Coord} : c ∈ keptBy near cand ↔ c ∈ cand ∧ ∀ l ∈ near, c ∈ l := by
  simp [keptBy]

/-- One step of the search, the candidate `r` being tried. -/
theorem firstFactors_step (rel : List (Coord × List Coord)) (n : Nat) (cand F : List Coord) :
    (cand = [] ∧ firstFactors rel n cand F = .ok F) ∨
    ∃ r ∈ cand, firstFactors rel n cand F = ((enlarge F r).mapM (related rel) >>= fun near =>
      match keptBy near cand, n with
      | [], _ => .ok (enlarge F r)
      | _ :: _, 0 => .error .unmodelled
      | c :: cs, n + 1 => firstFactors rel n (pySort ltCoord (c :: cs)) (enlarge F r)) := by
  rw [firstFactors.eq_def]
  cases hs : pySort (fun a b => decide (degree rel b < degree rel a)) cand with
  | nil =>
    left
    have := length_pySort (fun a b => decide (degree rel b < degree rel a)) cand
    rw [hs] at this
    exact ⟨List.eq_nil_of_length_eq_zero this.symm, by simp only [hs]⟩
  | cons r rs =>
    right
    refine ⟨r, (mem_pySort _).1 (hs ▸ List.mem_cons_self), ?_⟩
    simp only [hs, enlarge, keptBy]
    refine bind_congr fun near => ?_
    cases List.filter (fun c => near.all fun l => l.contains c) cand with
    | nil => cases n <;> rfl
    | cons c cs => cases n <;> rfl

theorem firstFactors_box {K : List Coord} (hn : K.Nodup) : ∀ {n : Nat} {cand F G : List Coord}, (∀ c ∈ F, c ∈ K) → Box F → F ≠ [] →
    firstFactors (relationsOf K) n cand F = .ok G → (∀ c ∈ G, c ∈ K) ∧ Box G ∧ G ≠ [] := by
  intro n
  induction n with
  | zero =>
    intro cand F G hK hB hne h
    rcases firstFactors_step (relationsOf K) 0 cand F with ⟨_, h1⟩ | ⟨r, hr, h1⟩
    · rw [h1] at h; cases h; exact ⟨hK, hB, hne⟩
    · rw [h1, bind_ok] at h
      obtain ⟨near, h2, h⟩ := h
      have hsub : ∀ c ∈ enlarge F r, c ∈ K := fun c hc => (related_ok hn).1 ⟨_, (mapM_each h2 hc).choose_spec.2⟩
      split at h
      · cases h; exact ⟨hsub, enlarge_box hB r, List.ne_nil_of_mem (mem_enlarge_new hne r)⟩
      · cases h
      · rename_i he; cases he
  | succ n ih =>
    intro cand F G hK hB hne h
    rcases firstFactors_step (relationsOf K) (n + 1) cand F with ⟨_, h1⟩ | ⟨r, hr, h1⟩
    · rw [h1] at h; cases h; exact ⟨hK, hB, hne⟩
    · rw [h1, bind_ok] at h
      obtain ⟨near, h2, h⟩ := h
      have hsub : ∀ c ∈ enlarge F r, c ∈ K := fun c hc => (related_ok hn).1 ⟨_, (mapM_each h2 hc).choose_spec.2⟩
      split at h
      · cases h; exact ⟨hsub, enlarge_box hB r, List.ne_nil_of_mem (mem_enlarge_new hne r)⟩
      · cases h
      · rename_i he
        cases he
        exact ih hsub (enlarge_box hB r) (List.ne_nil_of_mem (mem_enlarge_new hne r)) h

/-- The candidate that was tried is not kept. -/
theorem keptBy_lt {K : List Coord} (hn : K.Nodup) {cand F : List Coord} {r : Coord} (hr : r ∈ cand) (hne : F ≠ [])
    {near : List (List Coord)} (h : (enlarge F r).mapM (related (relationsOf K)) = .ok near) :
    (keptBy near cand).length < cand.length := by
  obtain ⟨L, hL, h1⟩ := mapM_each h (mem_enlarge_new hne r)
  have hnot : r ∉ keptBy near cand := fun hk => (((related_mem hn h1).1 r ((mem_keptBy.1 hk).2 L hL)).2.1) rfl
  by_contra hge
  have : keptBy near cand = cand := by
    have hs : (keptBy near cand).Sublist cand := List.filter_sublist
    exact hs.eq_of_length_le (by omega)
  rw [this] at hnot
  exact hnot hr

theorem firstFactors_only {K : List Coord} (hn : K.Nodup) : ∀ {n : Nat} {cand F : List Coord}, F ≠ [] → cand.length ≤ n →
    (∃ G, firstFactors (relationsOf K) n cand F = .ok G) ∨ firstFactors (relationsOf K) n cand F = .error .keyError := by
  intro n
  induction n with
  | zero =>
    intro cand F hne hl
    rcases firstFactors_step (relationsOf K) 0 cand F with ⟨_, h1⟩ | ⟨r, hr, h1⟩
    · exact .inl ⟨_, h1⟩
    · rw [List.eq_nil_of_length_eq_zero (Nat.le_zero.1 hl)] at hr; cases hr
  | succ n ih =>
    intro cand F hne hl
    rcases firstFactors_step (relationsOf K) (n + 1) cand F with ⟨_, h1⟩ | ⟨r, hr, h1⟩
    · exact .inl ⟨_, h1⟩
    · rw [h1]
      rcases mapM_only (l := enlarge F r) (f := related (relationsOf K)) (fun x _ => related_error _ x) with ⟨near, h2⟩ | h2
      · have hlt := keptBy_lt hn hr hne h2
        rw [h2]
        simp only [bind, Except.bind]
        split
        · exact .inl ⟨_, rfl⟩
        · rename_i he; cases he
        · rename_i c cs m hc he
          cases he
          refine ih (List.ne_nil_of_mem (mem_enlarge_new hne r)) ?_
          rw [length_pySort, ← hc]
          omega
      · rw [h2]
        exact .inr rfl

/-- The search does not fail when one coordinate is constant. -/
theorem flat_neighbours {K : List Coord} (hf : FlatCoords K) {t r c : Coord} (ht : t ∈ K) (hr : r ∈ K)
    (hcube : cubeWith K t r = true ∨ cubeWith K r t = true) (hc : c ∈ neighbours t r) : c ∈ K := by
  obtain ⟨x, y, z⟩ := c
  obtain ⟨a, b, d⟩ := t
  obtain ⟨a', b', d'⟩ := r
  rw [mem_neighbours] at hc
  simp only [cubeWith, Bool.and_eq_true, List.contains_eq_mem, decide_eq_true_eq] at hcube hc
  rcases hf with hf | hf | hf <;>
  · have := hf _ ht _ hr
    simp only at this
    subst this
    rcases hcube with ⟨⟨h1, h2⟩, h3⟩ | ⟨⟨h1, h2⟩, h3⟩ <;>
    · obtain ⟨rfl | rfl, rfl | rfl, rfl | rfl⟩ := hc <;> assumption

theorem firstFactors_flat {K : List Coord} (hn : K.Nodup) (hf : FlatCoords K) : ∀ {n : Nat} {cand F : List Coord}, F ≠ [] →
    cand.length ≤ n → (∀ c ∈ F, c ∈ K) → (∀ c ∈ cand, ∀ t ∈ F, ∀ L, related (relationsOf K) t = .ok L → c ∈ L) →
    ∃ G, firstFactors (relationsOf K) n cand F = .ok G := by
  intro n
  induction n with
  | zero =>
    intro cand F hne hl hK hc
    rcases firstFactors_step (relationsOf K) 0 cand F with ⟨_, h1⟩ | ⟨r, hr, h1⟩
    · exact ⟨_, h1⟩
    · rw [List.eq_nil_of_length_eq_zero (Nat.le_zero.1 hl)] at hr; cases hr
  | succ n ih =>
    intro cand F hne hl hK hc
    rcases firstFactors_step (relationsOf K) (n + 1) cand F with ⟨_, h1⟩ | ⟨r, hr, h1⟩
    · exact ⟨_, h1⟩
    · rw [h1]
      have hsub : ∀ c ∈ enlarge F r, c ∈ K := by
        intro c hcm
        obtain ⟨t, ht, hcn⟩ := mem_enlarge.1 hcm
        obtain ⟨L, hL⟩ := (related_ok hn).2 (hK t ht)
        obtain ⟨h2, _, h3⟩ := (related_mem hn hL).1 r (hc r hr t ht L hL)
        exact flat_neighbours hf (hK t ht) h2 h3 hcn
      obtain ⟨near, h2⟩ := mapM_total (f := related (relationsOf K)) (l := enlarge F r) fun x hx => (related_ok hn).2 (hsub x hx)
      have hlt := keptBy_lt hn hr hne h2
      rw [h2]
      simp only [bind, Except.bind]
      split
      · exact ⟨_, rfl⟩
      · rename_i he; cases he
      · rename_i c cs m hk he
        cases he
        refine ih (List.ne_nil_of_mem (mem_enlarge_new hne r)) ?_ hsub ?_
        · rw [length_pySort, ← hk]; omega
        · intro c' hc' t ht L hL
          rw [mem_pySort, ← hk] at hc'
          obtain ⟨L', hL', h5⟩ := mapM_each h2 ht
          rw [hL] at h5
          cases h5
          exact (mem_keptBy.1 hc').2 L hL'

theorem box_cube {K : List Coord} (hb : Box K) {c e : Coord} (hc : c ∈ K) (he : e ∈ K) : cubeWith K c e = true := by
  simp only [cubeWith, Bool.and_eq_true, List.contains_eq_mem, decide_eq_true_eq]
  exact ⟨⟨hb e he c hc c hc, hb c hc e he c hc⟩, hb c hc c hc e he⟩

theorem box_enlarge {K F : List Coord} (hb : Box K) (hK : ∀ c ∈ F, c ∈ K) {r : Coord} (hr : r ∈ K) : ∀ c ∈ enlarge F r, c ∈ K := by
  intro c hc
  obtain ⟨t, ht, hc⟩ := mem_enlarge.1 hc
  have ht := hK t ht
  rw [mem_neighbours] at hc
  obtain ⟨x, y, z⟩ := c
  simp only at hc
  obtain ⟨rfl | rfl, rfl | rfl, rfl | rfl⟩ := hc <;> exact hb _ (by assumption) _ (by assumption) _ (by assumption)

/-- The search takes the whole of a box. -/
theorem firstFactors_full {K : List Coord} (hn : K.Nodup) (hb : Box K) : ∀ {n : Nat} {cand F : List Coord}, F ≠ [] →
    cand.length ≤ n → (∀ c ∈ F, c ∈ K) → (∀ c, c ∈ cand ↔ c ∈ K ∧ c ∉ F) →
    ∃ G, firstFactors (relationsOf K) n cand F = .ok G ∧ ∀ c ∈ K, c ∈ G := by
  have hrel : ∀ {t : Coord} {L : List Coord}, t ∈ K → related (relationsOf K) t = .ok L → ∀ e, e ∈ L ↔ e ∈ K ∧ e ≠ t := by
    intro t L ht hL e
    obtain ⟨g1, g2⟩ := related_mem hn hL
    exact ⟨fun he => ⟨(g1 e he).1, (g1 e he).2.1⟩, fun he => g2 e he.1 he.2 (box_cube hb ht he.1) (box_cube hb he.1 ht)⟩
  intro n
  induction n with
  | zero =>
    intro cand F hne hl hK hc
    rcases firstFactors_step (relationsOf K) 0 cand F with ⟨h0, h1⟩ | ⟨r, hr, h1⟩
    · refine ⟨_, h1, fun c hcK => ?_⟩
      by_contra hcF
      have := (hc c).2 ⟨hcK, hcF⟩
      rw [h0] at this
      cases this
    · rw [List.eq_nil_of_length_eq_zero (Nat.le_zero.1 hl)] at hr; cases hr
  | succ n ih =>
    intro cand F hne hl hK hc
    rcases firstFactors_step (relationsOf K) (n + 1) cand F with ⟨h0, h1⟩ | ⟨r, hr, h1⟩
    · refine ⟨_, h1, fun c hcK => ?_⟩
      by_contra hcF
      have := (hc c).2 ⟨hcK, hcF⟩
      rw [h0] at this
      cases this
    · rw [h1]
      have hsub := box_enlarge hb hK ((hc r).1 hr).1
      obtain ⟨near, h2⟩ := mapM_total (f := related (relationsOf K)) (l := enlarge F r) fun x hx => (related_ok hn).2 (hsub x hx)
      have hlt := keptBy_lt hn hr hne h2
      have hkept : ∀ c, c ∈ keptBy near cand ↔ c ∈ K ∧ c ∉ enlarge F r := by
        intro c
        rw [mem_keptBy, hc]
        constructor
        · rintro ⟨⟨g1, g2⟩, g3⟩
          refine ⟨g1, fun hce => ?_⟩
          obtain ⟨L, hL, h5⟩ := mapM_each h2 hce
          exact ((hrel g1 h5 c).1 (g3 L hL)).2 rfl
        · rintro ⟨g1, g2⟩
          refine ⟨⟨g1, fun hcF => g2 (mem_enlarge_old hcF)⟩, fun L hL => ?_⟩
          obtain ⟨t, ht, h5⟩ := (mapM_mem h2).1 hL
          exact (hrel (hsub t ht) h5 c).2 ⟨g1, fun h => g2 (h ▸ ht)⟩
      rw [h2]
      simp only [bind, Except.bind]
      split
      · rename_i hk
        refine ⟨_, rfl, fun c hcK => ?_⟩
        by_contra hcF
        have := (hkept c).2 ⟨hcK, hcF⟩
        rw [hk] at this
        cases this
      · rename_i he; cases he
      · rename_i c cs m hk he
        cases he
        refine ih (List.ne_nil_of_mem (mem_enlarge_new hne r)) ?_ hsub ?_
        · rw [length_pySort, ← hk]; omega
        · intro c'
          rw [mem_pySort, ← hk, hkept]

/-! ### The best factorisation -/

theorem bestFactors_start {K : List Coord} (hn : K.Nodup) (hne : K ≠ []) :
    ∃ e ∈ K, ∃ L, related (relationsOf K) e = .ok L ∧ bestFactors K = firstFactors (relationsOf K) L.length L [e] := by
  rw [bestFactors]
  simp only [(relationsOf_ok hn).1]
  cases h : (pySort (fun a b => decide (degree (relationsOf K) a < degree (relationsOf K) b)) K).getLast? with
  | none =>
    rw [List.getLast?_eq_none_iff] at h
    have := length_pySort (fun a b => decide (degree (relationsOf K) a < degree (relationsOf K) b)) K
    rw [h] at this
    exact absurd (List.eq_nil_of_length_eq_zero this.symm) hne
  | some e =>
    have he : e ∈ K := (mem_pySort _).1 (List.mem_of_getLast? h)
    obtain ⟨L, hL⟩ := (related_ok hn).2 he
    exact ⟨e, he, L, hL, by simp only [hL, bind, Except.bind]⟩

theorem bestFactors_box {K G : List Coord} (hn : K.Nodup) (hne : K ≠ []) (h : bestFactors K = .ok G) :
    (∀ c ∈ G, c ∈ K) ∧ Box G ∧ G ≠ [] := by
  obtain ⟨e, he, L, hL, h1⟩ := bestFactors_start hn hne
  rw [h1] at h
  exact firstFactors_box hn (by simpa using he) (box_singleton e) (by simp) h

theorem bestFactors_only {K : List Coord} (hn : K.Nodup) (hne : K ≠ []) :
    (∃ G, bestFactors K = .ok G) ∨ bestFactors K = .error .keyError := by
  obtain ⟨e, he, L, hL, h1⟩ := bestFactors_start hn hne
  rw [h1]
  exact firstFactors_only hn (by simp) (Nat.le_refl _)

theorem bestFactors_flat {K : List Coord} (hn : K.Nodup) (hne : K ≠ []) (hf : FlatCoords K) : ∃ G, bestFactors K = .ok G := by
  obtain ⟨e, he, L, hL, h1⟩ := bestFactors_start hn hne
  rw [h1]
  refine firstFactors_flat hn hf (by simp) (Nat.le_refl _) (by simpa using he) ?_
  intro c hc t ht L' hL'
  rw [List.mem_singleton] at ht
  subst ht
  rw [hL] at hL'
  cases hL'
  exact hc

theorem bestFactors_full {K : List Coord} (hn : K.Nodup) (hne : K ≠ []) (hb : Box K) :
    ∃ G, bestFactors K = .ok G ∧ ∀ c ∈ K, c ∈ G := by
  obtain ⟨e, he, L, hL, h1⟩ := bestFactors_start hn hne
  rw [h1]
  refine firstFactors_full hn hb (by simp) (Nat.le_refl _) (by simpa using he) ?_
  intro c
  obtain ⟨g1, g2⟩ := related_mem hn hL
  rw [List.mem_singleton]
  exact ⟨fun hc => ⟨(g1 c hc).1, (g1 c hc).2.1⟩, fun hc => g2 c hc.1 hc.2 (box_cube hb he hc.1) (box_cube hb hc.1 he)⟩

end Verif
