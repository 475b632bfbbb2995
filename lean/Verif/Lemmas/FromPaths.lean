import Verif.Model.FromPaths
import Verif.Props.PathParser

/-
Lemmas on the assembly of USLs from paths: dictionaries, grouping of paths, building of nodes.
-/

namespace Verif
open Script

section Dict
variable {α β κ : Type} [DecidableEq κ] {key : α → κ}

theorem dictSet_fresh {k : α} {v : β} {l : List (α × β)} (h : ∀ e ∈ l, key e.1 ≠ key k) : dictSet key k v l = l ++ [(k, v)] := by
  induction l with
  | nil => rfl
  | cons e l ih =>
    unfold dictSet
    rw [if_neg (h e (by simp)), ih fun x hx => h x (List.mem_cons_of_mem _ hx)]
    rfl

theorem dictSet_mid {k k' : α} {v v' : β} {l r : List (α × β)} (h : ∀ e ∈ l, key e.1 ≠ key k) (hk : key k' = key k) :
    dictSet key k v (l ++ (k', v') :: r) = l ++ (k', v) :: r := by
  induction l with
  | nil => simp [dictSet, hk]
  | cons e l ih =>
    rw [List.cons_append]
    unfold dictSet
    rw [if_neg (h e (by simp)), ih fun x hx => h x (List.mem_cons_of_mem _ hx)]
    rfl

theorem dictGet_fresh {k : α} {l : List (α × β)} (h : ∀ e ∈ l, key e.1 ≠ key k) : dictGet key k l = none := by
  induction l with
  | nil => rfl
  | cons e l ih =>
    unfold dictGet
    rw [if_neg (h e (by simp)), ih fun x hx => h x (List.mem_cons_of_mem _ hx)]

theorem dictGet_mid {k k' : α} {v' : β} {l r : List (α × β)} (h : ∀ e ∈ l, key e.1 ≠ key k) (hk : key k' = key k) :
    dictGet key k (l ++ (k', v') :: r) = some v' := by
  induction l with
  | nil => simp [dictGet, hk]
  | cons e l ih =>
    rw [List.cons_append]
    unfold dictGet
    rw [if_neg (h e (by simp)), ih fun x hx => h x (List.mem_cons_of_mem _ hx)]

theorem setAdd_nil {key : α → κ} (x : α) : setAdd key x [] = [x] := rfl

theorem setAdd_fresh {x : α} {l : List α} (h : ∀ y ∈ l, key y ≠ key x) : setAdd key x l = l ++ [x] := by
  unfold setAdd
  rw [if_neg]
  rw [Bool.not_eq_true, List.any_eq_false]
  intro y hy
  simpa using h y hy

end Dict

/-! ### Reading the paths and the values -/

theorem pathToValue_reads {l : List (Str × Str)} {ps : List Path} {vs : List Expr} (hp : List.Forall₂ (fun e p => pathRead e.1 = .ok p) l ps)
    (hv : List.Forall₂ (fun e v => readValue e.2 = .ok v) l vs) (hd : (ps.map pathText).Nodup) :
    pathToValue l = .ok ((ps.zip vs).map fun e => (e.1, [e.2])) := by
  unfold pathToValue
  rw [mapM_of_forall₂ hp, mapM_of_forall₂ hv]
  show Except.ok _ = _
  congr 1
  have h1 : ∀ (ps qs : List Path), ((qs ++ ps).map pathText).Nodup →
      ps.foldl (fun d p => dictSet pathText p ([] : List Expr) d) (qs.map fun q => (q, [])) = (qs ++ ps).map fun q => (q, []) := by
    intro ps
    induction ps with
    | nil => intro qs _; simp
    | cons p ps ih =>
      intro qs h
      rw [List.foldl_cons, dictSet_fresh]
      · have := ih (qs ++ [p]) (by simpa using h)
        simpa using this
      · intro e he
        obtain ⟨q, hq, rfl⟩ := List.mem_map.1 he
        rw [List.map_append, List.nodup_append] at h
        exact h.2.2 _ (List.mem_map_of_mem hq) _ (by simp)
  have h2 := h1 ps [] (by simpa using hd)
  simp only [List.map_nil, List.nil_append] at h2
  rw [h2]
  have hlen : ps.length = vs.length := hp.length_eq.symm.trans hv.length_eq
  clear hp hv h1 h2
  have h3 : ∀ (ps : List Path) (vs : List Expr) (done : List (Path × List Expr)), ps.length = vs.length →
      (done.map (fun e => pathText e.1) ++ ps.map pathText).Nodup →
      (ps.zip vs).foldl (fun d e => dictSet pathText e.1 (setAdd Expr.text e.2 ((dictGet pathText e.1 d).getD [])) d)
        (done ++ ps.map fun p => (p, [])) = done ++ (ps.zip vs).map fun e => (e.1, [e.2]) := by
    intro ps
    induction ps with
    | nil => intro vs done _ _; simp
    | cons p ps ih =>
      intro vs done hl hd
      cases vs with
      | nil => cases hl
      | cons v vs =>
        have hf : ∀ e ∈ done, pathText e.1 ≠ pathText p := by
          intro e he
          rw [List.nodup_append] at hd
          exact hd.2.2 _ (List.mem_map_of_mem he) _ (by simp)
        rw [List.zip_cons_cons, List.foldl_cons, List.map_cons]
        simp only
        rw [dictGet_mid hf rfl, dictSet_mid hf rfl]
        have := ih vs (done ++ [(p, [v])]) (by simpa using hl) (by simpa using hd)
        simpa [setAdd_nil] using this
  simpa using h3 ps vs [] hlen (by simpa using hd)

/-! ### Grouping -/

/-- Grouping many paths. -/
def groupAll (b : Bin) (l : List (Path × List Expr)) : Except Err Bin := l.foldlM (fun b e => b.group e.1 e.2) b

theorem groupAll_append (b : Bin) (l m : List (Path × List Expr)) : groupAll b (l ++ m) = groupAll b l >>= fun b => groupAll b m := by
  unfold groupAll
  rw [List.foldlM_append]

/-- The bin of a value. -/
def leaf (v : List Expr) : Bin := .mk none (some v) []

theorem isInstance_self (s : Step) : s.isInstance s.cls = true := by simp [Step.isInstance]

/-- A bin that has only seen paths of this class. -/
def OfClass (t : Option PClass) (c : PClass) : Prop := t = none ∨ t = some c

theorem group_eq {t : Option PClass} {n : Option (List Expr)} {kids : List (Step × Bin)} {s : Step} {p : Path} {v : List Expr} (ht : OfClass t s.cls) :
    Bin.group (.mk t n kids) (s :: p) v = (do
      let child ← (match p with
        | [] => pure (((dictGet Step.text s kids).getD Bin.empty).setNode v)
        | _ :: _ => ((dictGet Step.text s kids).getD Bin.empty).group p v : Except Err Bin)
      return .mk (some s.cls) n (dictSet Step.text s child kids)) := by
  rw [Bin.group.eq_def]
  rcases ht with rfl | rfl
  · cases p <;> rfl
  · simp only [isInstance_self, if_true]
    cases p <;> rfl

/-- Values at the ends of paths of one node. -/
theorem groupAll_leaves {c : PClass} {n : Option (List Expr)} : ∀ {l : List (Step × List Expr)} {t : Option PClass} {kids : List (Step × Bin)}, OfClass t c → l ≠ [] →
    (∀ e ∈ l, e.1.cls = c) → (kids.map (fun k => k.1.text) ++ l.map fun e => e.1.text).Nodup →
    groupAll (.mk t n kids) (l.map fun e => ([e.1], e.2)) = .ok (.mk (some c) n (kids ++ l.map fun e => (e.1, leaf e.2)))
  | [], _, _, _, h, _, _ => absurd rfl h
  | e :: l, t, kids, ht, _, hc, hd => by
    have hf : ∀ k ∈ kids, k.1.text ≠ e.1.text := by
      intro k hk
      rw [List.nodup_append] at hd
      exact hd.2.2 _ (List.mem_map_of_mem (f := fun k : Step × Bin => k.1.text) hk) _ (by simp)
    have he := hc e (by simp)
    have h1 : Bin.group (.mk t n kids) [e.1] e.2 = .ok (.mk (some c) n (kids ++ [(e.1, leaf e.2)])) := by
      rw [group_eq (he ▸ ht)]
      simp only
      rw [dictGet_fresh hf, he]
      show Except.ok _ = _
      rw [dictSet_fresh hf]
      rfl
    unfold groupAll
    rw [List.map_cons, List.foldlM_cons]
    simp only
    rw [h1]
    show groupAll (.mk (some c) n (kids ++ [(e.1, leaf e.2)])) (l.map fun e => ([e.1], e.2)) = _
    cases l with
    | nil => rfl
    | cons x l =>
      rw [groupAll_leaves (.inr rfl) (by simp) (fun y hy => hc y (List.mem_cons_of_mem _ hy)) (by simpa using hd)]
      simp

/-- Paths that begin with the same node. -/
theorem groupAll_block {s : Step} {n : Option (List Expr)} {kids : List (Step × Bin)} (hf : ∀ k ∈ kids, k.1.text ≠ s.text) :
    ∀ {l : List (Path × List Expr)} {b b' : Bin}, (∀ e ∈ l, e.1 ≠ []) → groupAll b l = .ok b' →
    groupAll (.mk (some s.cls) n (kids ++ [(s, b)])) (l.map fun e => (s :: e.1, e.2)) = .ok (.mk (some s.cls) n (kids ++ [(s, b')]))
  | [], b, b', _, h => by
    cases h
    rfl
  | e :: l, b, b', hne, h => by
    unfold groupAll at h
    rw [List.foldlM_cons, bind_ok] at h
    obtain ⟨b1, h1, h2⟩ := h
    have h1 : b.group e.1 e.2 = .ok b1 := h1
    have hg : Bin.group (.mk (some s.cls) n (kids ++ [(s, b)])) (s :: e.1) e.2 = .ok (.mk (some s.cls) n (kids ++ [(s, b1)])) := by
      rw [group_eq (.inr rfl)]
      have : dictGet Step.text s (kids ++ [(s, b)]) = some b := dictGet_mid hf rfl
      rw [this]
      cases hp : e.1 with
      | nil => exact absurd hp (hne e (by simp))
      | cons x p =>
        rw [hp] at h1
        simp only [Option.getD_some]
        rw [h1]
        have : dictSet Step.text s b1 (kids ++ [(s, b)]) = kids ++ [(s, b1)] := dictSet_mid hf rfl
        show Except.ok _ = _
        rw [this]
    unfold groupAll
    rw [List.map_cons, List.foldlM_cons]
    simp only
    rw [hg]
    exact groupAll_block hf (fun x hx => hne x (List.mem_cons_of_mem _ hx)) h2

/-- The same for a new node. -/
theorem groupAll_new {s : Step} {t : Option PClass} {n : Option (List Expr)} {kids : List (Step × Bin)} (ht : OfClass t s.cls) (hf : ∀ k ∈ kids, k.1.text ≠ s.text)
    {l : List (Path × List Expr)} {b : Bin} (hl : l ≠ []) (hne : ∀ e ∈ l, e.1 ≠ []) (h : groupAll Bin.empty l = .ok b) :
    groupAll (.mk t n kids) (l.map fun e => (s :: e.1, e.2)) = .ok (.mk (some s.cls) n (kids ++ [(s, b)])) := by
  cases l with
  | nil => exact absurd rfl hl
  | cons e l =>
    unfold groupAll at h
    rw [List.foldlM_cons, bind_ok] at h
    obtain ⟨b1, h1, h2⟩ := h
    have h1 : Bin.empty.group e.1 e.2 = .ok b1 := h1
    have hg : Bin.group (.mk t n kids) (s :: e.1) e.2 = .ok (.mk (some s.cls) n (kids ++ [(s, b1)])) := by
      rw [group_eq ht, dictGet_fresh hf]
      cases hp : e.1 with
      | nil => exact absurd hp (hne e (by simp))
      | cons x p =>
        rw [hp] at h1
        simp only [Option.getD_none]
        rw [h1]
        show Except.ok _ = _
        rw [dictSet_fresh hf]
    unfold groupAll
    rw [List.map_cons, List.foldlM_cons]
    simp only
    rw [hg]
    exact groupAll_block hf (fun x hx => hne x (List.mem_cons_of_mem _ hx)) h2

/-- Several blocks. -/
theorem groupAll_blocks {c : PClass} {n : Option (List Expr)} : ∀ {B : List (Step × List (Path × List Expr))} {bs : List Bin} {t : Option PClass} {kids : List (Step × Bin)},
    OfClass t c → B ≠ [] → (∀ e ∈ B, e.1.cls = c ∧ e.2 ≠ [] ∧ ∀ x ∈ e.2, x.1 ≠ []) →
    List.Forall₂ (fun e b => groupAll Bin.empty e.2 = .ok b) B bs → (kids.map (fun k => k.1.text) ++ B.map fun e => e.1.text).Nodup →
    groupAll (.mk t n kids) (B.flatMap fun e => e.2.map fun x => (e.1 :: x.1, x.2)) = .ok (.mk (some c) n (kids ++ (B.map Prod.fst).zip bs))
  | [], _, _, _, _, h, _, _, _ => absurd rfl h
  | e :: B, _, t, kids, ht, _, hB, hF, hd => by
    cases hF with
    | @cons _ b _ bs h1 h2 =>
      obtain ⟨he, hl, hne⟩ := hB e (by simp)
      have hf : ∀ k ∈ kids, k.1.text ≠ e.1.text := by
        intro k hk
        rw [List.nodup_append] at hd
        exact hd.2.2 _ (List.mem_map_of_mem (f := fun k : Step × Bin => k.1.text) hk) _ (by simp)
      rw [List.flatMap_cons, groupAll_append, groupAll_new (he ▸ ht) hf hl hne h1, he]
      show groupAll (.mk (some c) n (kids ++ [(e.1, b)])) _ = _
      cases B with
      | nil =>
        cases h2
        rfl
      | cons x B =>
        rw [groupAll_blocks (.inr rfl) (by simp) (fun y hy => hB y (List.mem_cons_of_mem _ hy)) h2 (by simpa using hd)]
        simp

/-! ### Building -/

theorem buildKids_of {ord : List Expr → List Expr} {kids : List (Step × Bin)} {vs : List Built'} (h : List.Forall₂ (fun k v => k.2.build ord = .ok v) kids vs) :
    buildKids ord kids = .ok ((kids.map Prod.fst).zip vs) := by
  induction h with
  | nil => rfl
  | @cons k v kids vs h1 _ ih =>
    obtain ⟨s, b⟩ := k
    have h1 : b.build ord = .ok v := h1
    rw [buildKids, h1, ih]
    rfl

theorem leaf_build (ord : List Expr → List Expr) (v : List Expr) : (leaf v).build ord = .ok (.values v) := by
  rw [leaf, Bin.build]

theorem build_leaves (ord : List Expr → List Expr) (l : List (Step × List Expr)) :
    buildKids ord (l.map fun e => (e.1, leaf e.2)) = .ok (l.map fun e => (e.1, .values e.2)) := by
  induction l with
  | nil => rw [List.map_nil, buildKids]; rfl
  | cons e l ih =>
    rw [List.map_cons, buildKids, leaf_build, ih]
    rfl

end Verif
