import Verif.Spec.Tools
import Verif.Lemmas.Distance
import Verif.Lemmas.ScriptOrder
import Verif.Lemmas.Except
import Verif.Lemmas.Database

/-
C115: the tools that generate objects.  The decorator returns the first result that is not refused; the graph built is a tree;
versions are listed from the last one to the first one.  Violated: an element can be a node and the mode of its own edge; a pool
with too few elements makes the loop run for ever; `from_type` never gives a word.
-/

namespace Verif
variable {α : Type}

/-! ### The decorator -/

theorem loopResult_ok {call : Nat → Except GenErr α} {v : α} : ∀ (n i : Nat) (ex : Str),
    loopResult call n i ex = .ok v ↔ ∃ j < n, call (i + j) = .ok v ∧ ∀ l < j, ∃ m, call (i + l) = .error (.invalid m)
  | 0, i, ex => by simp [loopResult]
  | n + 1, i, ex => by
    have step : (∃ j < n + 1, call (i + j) = .ok v ∧ ∀ l < j, ∃ m, call (i + l) = .error (.invalid m)) ↔
        call i = .ok v ∨ ((∃ m, call i = .error (.invalid m)) ∧
          ∃ j < n, call (i + 1 + j) = .ok v ∧ ∀ l < j, ∃ m, call (i + 1 + l) = .error (.invalid m)) := by
      constructor
      · rintro ⟨j, hj, h1, h2⟩
        cases j with
        | zero => exact .inl h1
        | succ j =>
          refine .inr ⟨h2 0 (by omega), j, by omega, by rw [Nat.add_right_comm] at *; exact h1, fun l hl => ?_⟩
          have := h2 (l + 1) (by omega)
          rwa [← Nat.add_assoc, Nat.add_right_comm] at this
      · rintro (h | ⟨h0, j, hj, h1, h2⟩)
        · exact ⟨0, by omega, h, fun l hl => absurd hl (by omega)⟩
        · refine ⟨j + 1, by omega, by rw [← Nat.add_assoc, Nat.add_right_comm]; exact h1, fun l hl => ?_⟩
          cases l with
          | zero => exact h0
          | succ l =>
            have := h2 l (by omega)
            rwa [Nat.add_right_comm, Nat.add_assoc] at this
    rw [step, loopResult]
    cases hc : call i with
    | ok w => simp
    | error e =>
      cases e with
      | invalid m =>
        simp only [reduceCtorEq, false_or, Except.error.injEq, GenErr.invalid.injEq, exists_eq', true_and]
        exact loopResult_ok n (i + 1) m
      | cant m => simp
      | other e => simp

/-- The decorated function gives the first result that is not refused, if it is among the first `maxTry` calls. -/
theorem C115_retries {maxTry : Nat} {call : Nat → Except GenErr α} {v : α} :
    withRetries maxTry call = .ok v ↔ ∃ i < maxTry, call i = .ok v ∧ ∀ j < i, ∃ m, call j = .error (.invalid m) := by
  rw [withRetries, loopResult_ok]
  simp

theorem loopResult_refused {call : Nat → Except GenErr α} : ∀ (n i : Nat) (ex : Str),
    (∀ j < n, ∃ m, call (i + j) = .error (.invalid m)) → ∃ m, loopResult call n i ex = .error (.cant m) ∧
      if n = 0 then m = ex else call (i + (n - 1)) = .error (.invalid m)
  | 0, i, ex, _ => ⟨ex, rfl, rfl⟩
  | n + 1, i, ex, h => by
    obtain ⟨m, hm⟩ := h 0 (by omega)
    obtain ⟨m', e, h'⟩ := loopResult_refused n (i + 1) m fun j hj => by
      have := h (j + 1) (by omega)
      rwa [← Nat.add_assoc, Nat.add_right_comm] at this
    refine ⟨m', ?_, ?_⟩
    · rw [loopResult, show call i = _ from hm]; exact e
    · rw [if_neg (by omega)]
      split at h'
      · rename_i hn
        subst hn; rw [h']; exact hm
      · rename_i hn
        rw [show i + (n + 1 - 1) = i + 1 + (n - 1) by omega]
        exact h'

/-- When all the calls are refused the exception has the text of the last refusal. -/
theorem C115_retries_refused {maxTry : Nat} {call : Nat → Except GenErr α} (h : ∀ i < maxTry, ∃ m, call i = .error (.invalid m)) :
    ∃ m, withRetries maxTry call = .error (.cant m) ∧ if maxTry = 0 then m = c!"None" else call (maxTry - 1) = .error (.invalid m) := by
  have := loopResult_refused maxTry 0 (c!"None") (call := call) (by simpa using h)
  simpa [withRetries] using this

/-- Any other exception goes through at once, and the refusals never do. -/
theorem C115_retries_error {maxTry i : Nat} {call : Nat → Except GenErr α} {e : GenErr} (hi : i < maxTry) (hc : call i = .error e)
    (he : ∀ m, e ≠ .invalid m) (h : ∀ j < i, ∃ m, call j = .error (.invalid m)) : withRetries maxTry call = .error e := by
  have key : ∀ (n k : Nat) (ex : Str), i - k < n → k ≤ i → loopResult call n k ex = .error e := by
    intro n
    induction n with
    | zero => intro k ex h1; omega
    | succ n ih =>
      intro k ex h1 hk
      rw [loopResult]
      by_cases hki : k = i
      · rw [hki, hc]
        cases e with
        | invalid m => exact absurd rfl (he m)
        | cant m => rfl
        | other e => rfl
      · obtain ⟨m, hm⟩ := h k (by omega)
        rw [hm]
        exact ih (k + 1) m (by omega) (by omega)
  exact key maxTry 0 _ (by omega) (by omega)

/-- The decorated function never raises the exception it catches. -/
theorem C115_retries_caught {maxTry : Nat} {call : Nat → Except GenErr α} {m : Str} : withRetries maxTry call ≠ .error (.invalid m) := by
  have key : ∀ (n k : Nat) (ex : Str), loopResult call n k ex ≠ .error (.invalid m) := by
    intro n
    induction n with
    | zero => intro k ex h; simp [loopResult] at h
    | succ n ih =>
      intro k ex h
      rw [loopResult] at h
      cases hc : call k with
      | ok v => rw [hc] at h; cases h
      | error e =>
        rw [hc] at h
        cases e with
        | invalid m' => exact ih _ _ h
        | cant m' => injection h with h; cases h
        | other e => injection h with h; cases h
  exact key _ _ _

/-! ### The graph -/

theorem ReachedFrom.mono {root : α} {es es' : List (α × α × α)} (h : ∀ e ∈ es, e ∈ es') {a : α} (hr : ReachedFrom root es a) :
    ReachedFrom root es' a := by
  induction hr with
  | root => exact .root
  | step _ hm ih => exact .step ih (h _ hm)

/-- The invariant of the loop. -/
structure GraphInv (first : α) (draws : List (Nat × α × α)) (st : GraphState α) : Prop where
  nodes : st.nodes = first :: dests st.result
  modes : st.modes = st.result.map (·.2.2)
  tree : IsTree first st.result
  apart : ∀ e ∈ st.result, e.2.2 ≠ first ∧ ∀ e' ∈ st.result, e.2.2 = e'.2.1 → e = e'
  drawn : ∀ e ∈ st.result, ∃ i, (i, e.2.1, e.2.2) ∈ draws

variable [DecidableEq α]

theorem tryDraw_inv {first : α} {draws : List (Nat × α × α)} {st st' : GraphState α} {d : Nat × α × α} (h : GraphInv first draws st)
    (hd : d ∈ draws) (e : tryDraw st d = some st') : GraphInv first draws st' ∧ st'.result.length = st.result.length + 1 := by
  unfold tryDraw at e
  split at e
  · cases e
  · rename_i s hs
    split at e
    · cases e
    · rename_i hn
      rw [not_or, not_or] at hn
      obtain ⟨n1, n2, n3⟩ := hn
      injection e with e
      subst e
      have hsm : s ∈ st.nodes := List.mem_of_getElem? hs
      have hdest : dests (st.result ++ [(s, d.2.1, d.2.2)]) = dests st.result ++ [d.2.1] := by simp [dests]
      rw [h.nodes] at n1 n2 hsm
      rw [h.modes] at n3
      simp only [List.mem_cons, not_or] at n1 n2
      have hsub : ∀ e ∈ st.result, e ∈ st.result ++ [(s, d.2.1, d.2.2)] := fun e he => by simp [he]
      have hreach : ∀ b ∈ first :: dests st.result, ReachedFrom first (st.result ++ [(s, d.2.1, d.2.2)]) b := by
        intro b hb
        rcases List.mem_cons.1 hb with rfl | hb
        · exact .root
        · obtain ⟨e, he, rfl⟩ := List.mem_map.1 hb
          exact .step ((h.tree.reached e he).mono hsub) (show (e.1, e.2.1, e.2.2) ∈ _ from hsub e he)
      refine ⟨⟨?_, ?_, ⟨?_, ?_, ?_⟩, ?_, ?_⟩, by simp⟩
      · show st.nodes ++ [d.2.1] = first :: dests (st.result ++ [(s, d.2.1, d.2.2)])
        rw [h.nodes, hdest]; rfl
      · show st.modes ++ [d.2.2] = _
        rw [h.modes]; simp
      · show (dests (st.result ++ [(s, d.2.1, d.2.2)])).Nodup
        rw [hdest, List.nodup_append]
        refine ⟨h.tree.one, by simp, fun a ha b hb => ?_⟩
        rw [List.mem_singleton.1 hb]
        exact fun e => n1.2 (e ▸ ha)
      · show first ∉ dests (st.result ++ [(s, d.2.1, d.2.2)])
        rw [hdest, List.mem_append, not_or]
        exact ⟨h.tree.noEdge, fun hc => n1.1 (List.mem_singleton.1 hc).symm⟩
      · intro e he
        rcases List.mem_append.1 he with he | he
        · exact (h.tree.reached e he).mono hsub
        · rw [List.mem_singleton.1 he]
          exact hreach s hsm
      · intro e he
        rcases List.mem_append.1 he with he | he
        · refine ⟨(h.apart e he).1, fun e' he' hm => ?_⟩
          rcases List.mem_append.1 he' with he' | he'
          · exact (h.apart e he).2 e' he' hm
          · rw [List.mem_singleton.1 he'] at hm
            exact absurd (List.mem_map.2 ⟨e, he, hm⟩) n3
        · rw [List.mem_singleton.1 he]
          refine ⟨n2.1, fun e' he' hm => ?_⟩
          rcases List.mem_append.1 he' with he' | he'
          · exact absurd (List.mem_map.2 ⟨e', he', hm.symm⟩) n2.2
          · exact (List.mem_singleton.1 he').symm
      · intro e he
        rcases List.mem_append.1 he with he | he
        · exact h.drawn e he
        · rw [List.mem_singleton.1 he]
          exact ⟨d.1, hd⟩

theorem oneRound_iff {st st' : GraphState α} {rest : List (Nat × α × α)} : ∀ {ds : List (Nat × α × α)},
    oneRound st ds = some (st', rest) ↔ ∃ pre d, ds = pre ++ d :: rest ∧ tryDraw st d = some st' ∧ ∀ p ∈ pre, tryDraw st p = none
  | [] => by simp [oneRound]
  | d :: ds => by
    rw [oneRound]
    cases hd : tryDraw st d with
    | some st1 =>
      constructor
      · intro h
        injection h with h
        injection h with h1 h2
        subst h1 h2
        exact ⟨[], d, rfl, hd, by simp⟩
      · rintro ⟨pre, d', e, h1, h2⟩
        cases pre with
        | nil =>
          injection e with e1 e2
          subst e1 e2
          rw [hd] at h1
          injection h1 with h1
          subst h1
          rfl
        | cons p pre =>
          injection e with e1 e2
          subst e1
          rw [h2 _ (by simp)] at hd
          cases hd
    | none =>
      rw [oneRound_iff]
      constructor
      · rintro ⟨pre, d', e, h1, h2⟩
        exact ⟨d :: pre, d', by rw [e]; rfl, h1, fun p hp => by
          rcases List.mem_cons.1 hp with rfl | hp
          · exact hd
          · exact h2 p hp⟩
      · rintro ⟨pre, d', e, h1, h2⟩
        cases pre with
        | nil =>
          injection e with e1 e2
          subst e1
          rw [hd] at h1
          cases h1
        | cons p pre =>
          injection e with e1 e2
          exact ⟨pre, d', e2, h1, fun q hq => h2 q (by simp [hq])⟩

theorem roundsOf_inv {first : α} {draws : List (Nat × α × α)} : ∀ (n : Nat) {st st' : GraphState α} {ds : List (Nat × α × α)},
    GraphInv first draws st → (∀ d ∈ ds, d ∈ draws) → roundsOf n st ds = some st' →
    GraphInv first draws st' ∧ st'.result.length = st.result.length + n
  | 0, st, st', ds, h, _, e => by
    injection e with e
    subst e
    exact ⟨h, rfl⟩
  | n + 1, st, st', ds, h, hd, e => by
    rw [roundsOf] at e
    split at e
    · cases e
    · rename_i st1 ds1 h1
      obtain ⟨pre, d, e1, h2, _⟩ := oneRound_iff.1 h1
      obtain ⟨h3, h4⟩ := tryDraw_inv h (hd d (by rw [e1]; simp)) h2
      obtain ⟨h5, h6⟩ := roundsOf_inv n h3 (fun q hq => hd q (by rw [e1]; simp [hq])) e
      exact ⟨h5, by omega⟩

theorem buildGraph_inv {first : α} {maxNodes n : Nat} {draws : List (Nat × α × α)} {es : List (α × α × α)}
    (h : buildGraph first maxNodes n draws = .ok (some es)) : ∃ st, GraphInv first draws st ∧ st.result = es ∧ es.length = n := by
  unfold buildGraph at h
  split at h
  · cases h
  · injection h with h
    cases hr : roundsOf n ⟨[first], [], []⟩ draws with
    | none => rw [hr] at h; cases h
    | some st =>
      rw [hr] at h
      injection h with h
      obtain ⟨h1, h2⟩ := roundsOf_inv (first := first) (draws := draws) n
        ⟨rfl, rfl, ⟨by simp [dests], by simp [dests], by simp⟩, by simp, by simp⟩ (fun d hd => hd) hr
      exact ⟨st, h1, h, by rw [← h, h2]; simp⟩

/-- The result is a tree from the first element, with as many edges as drawn, made of elements drawn. -/
theorem C115_tree {first : α} {maxNodes n : Nat} {draws : List (Nat × α × α)} {es : List (α × α × α)}
    (h : buildGraph first maxNodes n draws = .ok (some es)) :
    IsTree first es ∧ es.length = n ∧ ∀ e ∈ es, ∃ i, (i, e.2.1, e.2.2) ∈ draws := by
  obtain ⟨st, h1, rfl, h2⟩ := buildGraph_inv h
  exact ⟨h1.tree, h2, h1.drawn⟩

/-- The mode of an edge is not the first element, and no node other than the destination of the edge itself. -/
theorem C115_modes_partial {first : α} {maxNodes n : Nat} {draws : List (Nat × α × α)} {es : List (α × α × α)}
    (h : buildGraph first maxNodes n draws = .ok (some es)) :
    ∀ e ∈ es, e.2.2 ≠ first ∧ ∀ e' ∈ es, e.2.2 = e'.2.1 → e = e' := by
  obtain ⟨st, h1, rfl, h2⟩ := buildGraph_inv h
  exact h1.apart

/-- Without draws of twice the same element, the modes are no nodes. -/
theorem C115_modes {first : α} {maxNodes n : Nat} {draws : List (Nat × α × α)} {es : List (α × α × α)}
    (h : buildGraph first maxNodes n draws = .ok (some es)) (hd : ∀ d ∈ draws, d.2.1 ≠ d.2.2) :
    ∀ e ∈ es, e.2.2 ∉ first :: dests es := by
  intro e he hc
  obtain ⟨h1, h2⟩ := C115_modes_partial h e he
  rcases List.mem_cons.1 hc with hc | hc
  · exact h1 hc
  · obtain ⟨e', he', hm⟩ := List.mem_map.1 hc
    have := h2 e' he' hm.symm
    subst this
    obtain ⟨i, hi⟩ := (C115_tree h).2.2 e he
    exact hd _ hi hm

/-- The claim for all draws is false: `1` is a node and the mode of the edge to it. -/
theorem C115_modes_violated : ∃ (draws : List (Nat × Nat × Nat)) (es : List (Nat × Nat × Nat)),
    buildGraph 0 6 2 draws = .ok (some es) ∧ ∃ e ∈ es, e.2.2 ∈ 0 :: dests es :=
  ⟨[(0, 1, 1), (0, 2, 3)], [(0, 1, 1), (0, 2, 3)], by decide, (0, 1, 1), by decide, by decide⟩

/-- Fewer than two nodes are refused. -/
theorem C115_refused (first : α) (maxNodes n : Nat) (draws : List (Nat × α × α)) :
    buildGraph first maxNodes n draws = .error .valueError ↔ maxNodes < 2 := by
  unfold buildGraph
  split
  · simp [*]
  · simp [*]

/-- A pool with no more elements than edges: the loop never ends. -/
theorem C115_stuck {first : α} {maxNodes n : Nat} {pool : List α} (hm : 2 ≤ maxNodes) (hf : first ∈ pool) (hp : pool.length ≤ n)
    (draws : List (Nat × α × α)) (hd : ∀ d ∈ draws, d.2.1 ∈ pool) : buildGraph first maxNodes n draws = .ok none := by
  cases h : buildGraph first maxNodes n draws with
  | error e =>
    unfold buildGraph at h
    rw [if_neg (by omega)] at h
    cases h
  | ok r =>
    cases r with
    | none => rfl
    | some es =>
      obtain ⟨ht, hl, hs⟩ := C115_tree h
      have hn : (first :: dests es).Nodup := List.nodup_cons.2 ⟨ht.noEdge, ht.one⟩
      have hsub : (first :: dests es) ⊆ pool := by
        intro a ha
        rcases List.mem_cons.1 ha with rfl | ha
        · exact hf
        · obtain ⟨e, he, rfl⟩ := List.mem_map.1 ha
          obtain ⟨i, hi⟩ := hs e he
          exact hd _ hi
      have := (List.subperm_of_subset hn hsub).length_le
      simp [dests] at this
      omega

theorem tryDraw_fresh {st : GraphState α} (hn : st.nodes ≠ []) {d : Nat × α × α} (h1 : d.2.1 ∉ st.nodes ++ st.modes)
    (h2 : d.2.2 ∉ st.nodes ++ st.modes) : ∃ st', tryDraw st d = some st' ∧ st'.nodes ≠ [] ∧
      st'.nodes.length = st.nodes.length + 1 ∧ st'.modes.length = st.modes.length + 1 := by
  rw [List.mem_append, not_or] at h1 h2
  unfold tryDraw
  have hlen : 0 < st.nodes.length := List.length_pos_of_ne_nil hn
  have hlt : d.1 % st.nodes.length < st.nodes.length := Nat.mod_lt _ hlen
  rw [List.getElem?_eq_getElem hlt]
  simp only
  rw [if_neg (by rw [not_or, not_or]; exact ⟨h1.1, h2.1, h1.2⟩)]
  exact ⟨_, rfl, by simp, by simp, by simp⟩

theorem tryDraw_sizes {st st' : GraphState α} {d : Nat × α × α} (h : tryDraw st d = some st') :
    st'.nodes ≠ [] ∧ st'.nodes.length = st.nodes.length + 1 ∧ st'.modes.length = st.modes.length + 1 := by
  unfold tryDraw at h
  split at h
  · cases h
  · split at h
    · cases h
    · injection h with h
      subst h
      simp

theorem oneRound_finds {st : GraphState α} : ∀ {ds : List (Nat × α × α)}, (∃ d ∈ ds, ∃ st', tryDraw st d = some st') →
    ∃ pre d rest st', ds = pre ++ d :: rest ∧ tryDraw st d = some st' ∧ oneRound st ds = some (st', rest)
  | [], h => by obtain ⟨d, hd, _⟩ := h; cases hd
  | a :: ds, h => by
    rw [oneRound]
    cases ha : tryDraw st a with
    | some st' => exact ⟨[], a, ds, st', rfl, ha, rfl⟩
    | none =>
      obtain ⟨d, hd, st', hs⟩ := h
      rcases List.mem_cons.1 hd with rfl | hd
      · rw [ha] at hs; cases hs
      · obtain ⟨pre, d', rest, st1, e, h1, h2⟩ := oneRound_finds ⟨d, hd, st', hs⟩
        exact ⟨a :: pre, d', rest, st1, by rw [e]; rfl, h1, h2⟩

/-- The loop ends when new elements keep being drawn: whatever at most `2 n + 1` elements are excluded, a later draw avoids
them. -/
theorem C115_ends {first : α} {maxNodes n : Nat} {draw : Nat → Nat × α × α} (hm : 2 ≤ maxNodes)
    (h : ∀ l : List α, l.length ≤ 2 * n + 1 → ∀ k, ∃ j ≥ k, (draw j).2.1 ∉ l ∧ (draw j).2.2 ∉ l) :
    ∃ N es, buildGraph first maxNodes n ((List.range N).map draw) = .ok (some es) := by
  have key : ∀ (r : Nat) (st : GraphState α) (k : Nat), st.nodes ≠ [] → st.nodes.length + st.modes.length + 2 * r ≤ 2 * n + 1 →
      ∃ N, ∃ st', roundsOf r st ((List.range' k N).map draw) = some st' := by
    intro r
    induction r with
    | zero => exact fun st k _ _ => ⟨0, st, rfl⟩
    | succ r ih =>
      intro st k hn hl
      obtain ⟨j, hj, f1, f2⟩ := h (st.nodes ++ st.modes) (by rw [List.length_append]; omega) k
      obtain ⟨st1, e1, _⟩ := tryDraw_fresh hn f1 f2
      have hmem : draw j ∈ (List.range' k (j + 1 - k)).map draw :=
        List.mem_map.2 ⟨j, by rw [List.mem_range'_1]; omega, rfl⟩
      obtain ⟨pre, d, rest, st2, e2, e3, e4⟩ := oneRound_finds ⟨_, hmem, st1, e1⟩
      obtain ⟨g1, g2, g3⟩ := tryDraw_sizes e3
      obtain ⟨N, st3, e5⟩ := ih st2 (k + (pre.length + 1)) g1 (by omega)
      refine ⟨pre.length + 1 + N, st3, ?_⟩
      have hlen : pre.length + 1 ≤ j + 1 - k := by
        have := congrArg List.length e2
        simp at this
        omega
      have hpre : (List.range' k (pre.length + 1)).map draw = pre ++ [d] := by
        have h1 : (List.range' k (pre.length + 1)).map draw ++ (List.range' (k + (pre.length + 1)) (j + 1 - k - (pre.length + 1))).map draw =
            (pre ++ [d]) ++ rest := by
          rw [← List.map_append, List.range'_append_1, Nat.add_sub_cancel' hlen, e2]
          simp
        exact List.append_inj_left h1 (by simp)
      have hsplit : (List.range' k (pre.length + 1 + N)).map draw = pre ++ d :: (List.range' (k + (pre.length + 1)) N).map draw := by
        rw [← List.range'_append_1, List.map_append, hpre]
        simp
      have hskip : ∀ p ∈ pre, tryDraw st p = none := by
        obtain ⟨pre', d', e6, e7, e8⟩ := oneRound_iff.1 e4
        have hle : pre'.length = pre.length := by
          have h1 := congrArg List.length e6
          rw [e2] at h1
          simp at h1
          omega
        have : pre' = pre := by
          rw [e2] at e6
          exact (List.append_inj_left e6 hle.symm).symm
        rw [← this]
        exact e8
      rw [roundsOf, oneRound_iff.2 ⟨pre, d, hsplit, e3, hskip⟩]
      exact e5
  obtain ⟨N, st', e⟩ := key n ⟨[first], [], []⟩ 0 (by simp) (by simp; omega)
  refine ⟨N, st'.result, ?_⟩
  unfold buildGraph
  rw [if_neg (by omega), List.range_eq_range', e]
  rfl

/-! ### The classes -/

/-- What `from_type` calls; a word is never generated. -/
theorem C115_from_type {β : Type} (call : GenMethod → Except Err β) :
    fromType call .unknown = .error .valueError ∧
    (∀ k m, (k, m) ∈ [(GenKind.word, GenMethod.topic), (.fact, .fact), (.theory, .theory), (.text, .text)] →
      (call m = .error .keyError → fromType call k = .error .valueError) ∧ (call m ≠ .error .keyError → fromType call k = call m)) := by
  refine ⟨rfl, ?_⟩
  intro k m hk
  have hf : (typeToMethod.reverse.find? fun p => decide (p.1 = k)) = some (k, m) := by
    simp only [List.mem_cons, List.not_mem_nil, or_false, Prod.mk.injEq] at hk
    rcases hk with ⟨rfl, rfl⟩ | ⟨rfl, rfl⟩ | ⟨rfl, rfl⟩ | ⟨rfl, rfl⟩ <;> rfl
  unfold fromType
  rw [hf]
  simp only
  constructor
  · intro h; rw [h]
  · intro h
    split
    · rename_i h'; exact absurd h' h
    · rfl

/-- So the method for words is not the one of its class. -/
theorem C115_from_type_violated : ∃ call : GenMethod → Except Err Nat, fromType call .word ≠ call .word :=
  ⟨fun m => if m = .word then .ok 0 else .ok 1, by decide⟩

/-! ### The list of versions -/

theorem ltStr_asymm {a b : Str} (h : ltStr a b = true) : ltStr b a = false := by
  unfold ltStr at *
  cases hb : ltBytes (b.map Char.toNat) (a.map Char.toNat) with
  | false => rfl
  | true =>
    have := ltBytes_trans h hb
    rw [ltBytes_irrefl] at this
    cases this

theorem ltStr_negtrans {a b c : Str} (h1 : ltStr b a = false) (h2 : ltStr c b = false) : ltStr c a = false := by
  unfold ltStr at *
  cases h : ltBytes (c.map Char.toNat) (a.map Char.toNat) with
  | false => rfl
  | true =>
    by_cases e : b.map Char.toNat = a.map Char.toNat
    · rw [e, h] at h2; cases h2
    · rcases ltBytes_total e with h3 | h3
      · rw [h1] at h3; cases h3
      · have := ltBytes_trans h h3
        rw [h2] at this; cases this

/-- The keys of all the objects, from the last date to the first one, those of the same date in the order of the answer. -/
theorem C115_bucket {nodes : List BucketNode} {date key : BucketNode → Str}
    (h : ∀ b ∈ bucketObjects nodes, bucketField b (s3 (c!"LastModified")) = .ok (date b) ∧ bucketField b (s3 (c!"Key")) = .ok (key b)) :
    ∃ bs : List BucketNode, listBucket nodes = .ok (bs.map key) ∧ bs.Perm (bucketObjects nodes) ∧ bs.Pairwise (fun a b => ltStr (date a) (date b) = false) ∧
      ∀ d, bs.filter (fun b => decide (date b = d)) = (bucketObjects nodes).filter fun b => decide (date b = d) := by
  have e1 : (bucketObjects nodes).mapM (fun b => do return (← bucketField b (s3 (c!"LastModified")), b)) =
      .ok ((bucketObjects nodes).map fun b => (date b, b)) := by
    apply mapM_ok_map
    intro b hb
    rw [(h b hb).1]
    rfl
  let lt : Str × BucketNode → Str × BucketNode → Bool := fun a b => ltStr b.1 a.1
  let ps := pySort lt ((bucketObjects nodes).map fun b => (date b, b))
  have hperm : ps.Perm ((bucketObjects nodes).map fun b => (date b, b)) := pySort_perm _ _
  have hfst : ∀ p ∈ ps, p.1 = date p.2 ∧ p.2 ∈ bucketObjects nodes := by
    intro p hp
    obtain ⟨b, hb, rfl⟩ := List.mem_map.1 (hperm.mem_iff.1 hp)
    exact ⟨rfl, hb⟩
  refine ⟨ps.map (·.2), ?_, ?_, ?_, ?_⟩
  · unfold listBucket
    have e1' := e1
    unfold bucketObjects at e1'
    rw [e1']
    simp only [bind, Except.bind]
    rw [List.map_map]
    exact mapM_ok_map fun p hp => (h p.2 (hfst p hp).2).2
  · have := hperm.map (·.2)
    rw [List.map_map] at this
    simpa [Function.comp_def] using this
  · have hw : ps.Pairwise fun a b => lt b a = false := pySort_weak (lt := lt) (fun a b hab => ltStr_asymm hab)
      (fun a b c h1 h2 => ltStr_negtrans h2 h1) _
    rw [List.pairwise_map]
    refine List.Pairwise.imp_of_mem ?_ hw
    intro a b ha hb hab
    rw [← (hfst a ha).1, ← (hfst b hb).1]
    exact hab
  · intro d
    have hc := pySort_class (lt := lt) (p := fun p => decide (p.1 = d)) (by
      intro a b ha hb
      simp only [decide_eq_true_eq] at ha hb
      show ltStr b.1 a.1 = false
      rw [ha, hb]
      unfold ltStr
      exact ltBytes_irrefl _) ((bucketObjects nodes).map fun b => (date b, b))
    have hc := congrArg (List.map (·.2)) hc
    rw [List.filter_map, List.map_map] at hc
    rw [List.filter_map]
    have h1 : ps.filter ((fun b => decide (date b = d)) ∘ (·.2)) = ps.filter fun p => decide (p.1 = d) := by
      apply List.filter_congr
      intro p hp
      simp only [Function.comp_apply, (hfst p hp).1]
    rw [h1, hc]
    simp [Function.comp_def]

/-- An object without a date or a key: `KeyError`. -/
theorem C115_bucket_refused {nodes : List BucketNode} {b : BucketNode} (hb : b ∈ bucketObjects nodes)
    (h : bucketField b (s3 (c!"LastModified")) = .error .keyError) : listBucket nodes = .error .keyError := by
  have e : (bucketObjects nodes).mapM (fun b => do return (← bucketField b (s3 (c!"LastModified")), b)) = .error .keyError := by
    generalize bucketObjects nodes = l at hb
    induction l with
    | nil => cases hb
    | cons a l ih =>
      rw [List.mapM_cons]
      by_cases ha : bucketField a (s3 (c!"LastModified")) = .error .keyError
      · rw [ha]; rfl
      · have hok : ∃ v, bucketField a (s3 (c!"LastModified")) = .ok v := by
          unfold bucketField at ha ⊢
          split at ha
          · exact absurd rfl ha
          · exact ⟨_, rfl⟩
        obtain ⟨v, hv⟩ := hok
        rcases List.mem_cons.1 hb with rfl | hb
        · exact absurd h ha
        · rw [hv]
          simp only [bind, Except.bind, pure, Except.pure] at ih ⊢
          rw [ih hb]
  unfold listBucket
  unfold bucketObjects at e
  rw [e]
  rfl

/-! ### Examples -/

/-- The third call is the first one that is not refused. -/
def demoCalls (i : Nat) : Except GenErr Nat := if i < 2 then .error (.invalid (c!"bad")) else .ok i

example : withRetries 10 demoCalls = .ok 2 := C115_retries.2 ⟨2, by omega, rfl, fun j hj => ⟨c!"bad", by simp [demoCalls, hj]⟩⟩

example : ∃ m, withRetries 2 demoCalls = .error (.cant m) ∧ demoCalls 1 = .error (.invalid m) :=
  C115_retries_refused (maxTry := 2) fun i hi => ⟨c!"bad", by simp [demoCalls, hi]⟩

example : withRetries 10 (fun i => if i = 0 then demoCalls 0 else .error (.other .typeError)) = .error (.other .typeError) :=
  C115_retries_error (i := 1) (by omega) rfl (by intro m h; cases h) fun j hj => ⟨c!"bad", by
    have : j = 0 := by omega
    subst this
    rfl⟩

/-- A tree with three edges; the draw of a node that exists is dropped. -/
example : buildGraph 0 6 3 [(0, 1, 7), (1, 1, 8), (5, 2, 8), (2, 3, 7)] = .ok (some [(0, 1, 7), (1, 2, 8), (2, 3, 7)]) := by decide

example : IsTree 0 [(0, 1, 7), (1, 2, 8), (2, 3, 7)] :=
  (C115_tree (maxNodes := 6) (n := 3) (draws := [(0, 1, 7), (1, 1, 8), (5, 2, 8), (2, 3, 7)]) (by decide)).1

/-- Three topics are not enough for three edges, however often one draws. -/
example (draws : List (Nat × Nat × Nat)) (h : ∀ d ∈ draws, d.2.1 ∈ [0, 1, 2]) : buildGraph 0 6 3 draws = .ok none :=
  C115_stuck (pool := [0, 1, 2]) (by omega) (by decide) (by decide) draws h

theorem le_sum_of_mem : ∀ {l : List Nat} {a : Nat}, a ∈ l → a ≤ l.sum
  | b :: l, a, h => by
    rw [List.sum_cons]
    rcases List.mem_cons.1 h with rfl | h
    · omega
    · have := le_sum_of_mem h
      omega

/-- Elements that are always new. -/
example : ∃ N es, buildGraph 0 6 5 ((List.range N).map fun j => (j, 2 * j, 2 * j + 1)) = .ok (some es) := by
  refine C115_ends (by omega) fun l _ k => ?_
  refine ⟨k + l.sum + 1, by omega, ?_, ?_⟩
  · intro hc
    have := le_sum_of_mem hc
    simp only at this
    omega
  · intro hc
    have := le_sum_of_mem hc
    simp only at this
    omega

def demoBucket : List BucketNode :=
  [⟨s3 (c!"Name"), []⟩, ⟨s3 (c!"Contents"), [(s3 (c!"Key"), c!"a"), (s3 (c!"LastModified"), c!"2017")]⟩,
   ⟨s3 (c!"Contents"), [(s3 (c!"Key"), c!"b"), (s3 (c!"LastModified"), c!"2018")]⟩,
   ⟨s3 (c!"Contents"), [(s3 (c!"Key"), c!"c"), (s3 (c!"LastModified"), c!"2017")]⟩]

/-- The last version first. -/
example : listBucket demoBucket = .ok [c!"b", c!"a", c!"c"] := by decide +kernel

example : listBucket [⟨s3 (c!"Contents"), [(s3 (c!"Key"), c!"a")]⟩] = .error .keyError :=
  C115_bucket_refused (b := ⟨s3 (c!"Contents"), [(s3 (c!"Key"), c!"a")]⟩) (by decide +kernel) (by decide +kernel)

end Verif
