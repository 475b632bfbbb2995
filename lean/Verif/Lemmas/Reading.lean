import Verif.Model.Relations
import Verif.Lemmas.TableStructure
import Verif.Lemmas.Files
import Verif.Lemmas.Git
import Verif.Lemmas.ParserErr

/-
Lemmas on the reading of the scripts and of the structure of a dictionary.
-/

namespace Verif
open Script

theorem memText_iff {s : Script} {l : List Script} : memText s l = true ↔ ∃ x ∈ l, x.str = s.str := by
  simp [memText, List.any_eq_true, pyEq]

theorem layer_of_word {s t : Script} (hs : WF s) (ht : WF t) {w : Word} (ds : Den s w) (dt : Den t w) : s.layer = t.layer := by
  have := (den_length hs ds).symm.trans (den_length ht dt)
  exact Nat.pow_right_injective (le_refl 3 |>.trans' (by omega)) this

theorem str_of_word' {s t : Script} (hs : WF s) (ht : WF t) (cs : s.cardinal = 1) (ct : t.cardinal = 1)
    {w : Word} (ds : Den s w) (dt : Den t w) : s.str = t.str :=
  str_of_word hs ht cs ct (layer_of_word hs ht ds dt) ds dt

theorem mem_fsSet {α : Type} {fs : List (Str × α)} {p : Str} {c : α} {e : Str × α} (h : e ∈ fsSet fs p c) : e = (p, c) ∨ e ∈ fs := by
  unfold fsSet at h
  split at h
  · rw [List.mem_map] at h
    obtain ⟨f, hf, rfl⟩ := h
    split
    · exact .inl rfl
    · exact .inr hf
  · rcases List.mem_append.1 h with h | h
    · exact .inr h
    · exact .inl (by simpa using h)

theorem foldlM_split {α β : Type} {f : β → α → Except Err β} {x : α} : ∀ {l : List α} {b c : β}, x ∈ l → l.foldlM f b = .ok c →
    ∃ l1 l2 b1 b2, l = l1 ++ x :: l2 ∧ l1.foldlM f b = .ok b1 ∧ f b1 x = .ok b2 ∧ l2.foldlM f b2 = .ok c
  | y :: l, b, c, hx, h => by
    rw [List.foldlM_cons, bind_ok] at h
    obtain ⟨b', h1, h2⟩ := h
    rcases List.mem_cons.1 hx with rfl | hx
    · exact ⟨[], l, b, b', rfl, rfl, h1, h2⟩
    · obtain ⟨l1, l2, b1, b2, rfl, h3, h4, h5⟩ := foldlM_split hx h2
      exact ⟨y :: l1, l2, b1, b2, rfl, by rw [List.foldlM_cons, h1]; exact h3, h4, h5⟩

/-! ### Adding sequences -/

/-- The sequences added to the scripts. -/
def addSeqs (fs : List (Str × Script)) (ss : List Script) : List (Str × Script) := ss.foldl (fun d q => fsSet d q.str q) fs

theorem addSeqs_mem {e : Str × Script} : ∀ {ss : List Script} {fs : List (Str × Script)}, e ∈ addSeqs fs ss →
    e ∈ fs ∨ ∃ q ∈ ss, e = (q.str, q)
  | [], _, h => .inl h
  | q :: ss, fs, h => by
    rcases addSeqs_mem (ss := ss) (fs := fsSet fs q.str q) h with h | ⟨q', hq, h⟩
    · rcases mem_fsSet h with h | h
      · exact .inr ⟨q, by simp, h⟩
      · exact .inl h
    · exact .inr ⟨q', by simp [hq], h⟩

theorem addSeqs_get {k : Str} : ∀ {ss : List Script} {fs : List (Str × Script)},
    (fsGet (addSeqs fs ss) k).isSome ↔ (fsGet fs k).isSome ∨ ∃ q ∈ ss, q.str = k
  | [], fs => by simp [addSeqs]
  | q :: ss, fs => by
    have := addSeqs_get (k := k) (ss := ss) (fs := fsSet fs q.str q)
    rw [show addSeqs fs (q :: ss) = addSeqs (fsSet fs q.str q) ss from rfl, this, fsGet_fsSet]
    by_cases h : k = q.str
    · simp [h]
    · have h' : ¬ q.str = k := fun e => h e.symm
      simp [h, h']

theorem addSeqs_nodup : ∀ {ss : List Script} {fs : List (Str × Script)}, (fs.map (·.1)).Nodup → ((addSeqs fs ss).map (·.1)).Nodup
  | [], _, h => h
  | q :: ss, fs, h => addSeqs_nodup (ss := ss) (fs := fsSet fs q.str q) (fsSet_nodup h)

/-! ### Reading the rows -/

/-- What holds during the reading. -/
structure ReadOk (st : Reading) : Prop where
  nodup : (st.scripts.map (·.1)).Nodup
  wf : ∀ e ∈ st.scripts, WF e.2
  roots : ∀ r ∈ st.roots, WF r
  ignored : ∀ r ∈ st.ignored, WF r

/-- What one row does. -/
theorem readRow_inv {st st' : Reading} {row : Str × Str × Str} (h : readRow st row = .ok st') :
    (fsGet st.scripts row.1 = none ∧ st' = st) ∨
    ∃ p ss, fsGet st.scripts row.1 = some p ∧ singularSequences p = .ok ss ∧ st'.scripts = addSeqs st.scripts ss ∧
      ((row.2.1 = c!"inhibition" ∧ st'.roots = st.roots ∧ st'.ignored = st.ignored ∧
          st'.inhibitions = fsSet st.inhibitions p.str ((fsGet st.inhibitions p.str).getD [] ++ [row.2.2])) ∨
       (row.2.1 = c!"is_root" ∧ (∃ c v, row.2.2 = c :: v ∧ (c = 't' ∨ c = 'T')) ∧ st'.roots = st.roots ++ [p] ∧
          st'.ignored = st.ignored ∧ st'.inhibitions = st.inhibitions) ∨
       (row.2.1 = c!"is_ignored" ∧ (∃ c v, row.2.2 = c :: v ∧ (c = 't' ∨ c = 'T')) ∧ st'.roots = st.roots ∧
          st'.ignored = st.ignored ++ [p] ∧ st'.inhibitions = st.inhibitions) ∨
       (row.2.1 ≠ c!"inhibition" ∧ st'.roots = st.roots ∧ st'.ignored = st.ignored ∧ st'.inhibitions = st.inhibitions)) := by
  unfold readRow at h
  split at h
  · rename_i hg
    rw [Except.ok.injEq] at h
    exact .inl ⟨hg, h.symm⟩
  · rename_i p hg
    rw [bind_ok] at h
    obtain ⟨ss, h1, h⟩ := h
    refine .inr ⟨p, ss, hg, h1, ?_⟩
    have tv : ∀ {v : Str} {b : Bool}, isTrueValue v = .ok b → (b = true → ∃ c w, v = c :: w ∧ (c = 't' ∨ c = 'T')) := by
      intro v b hv hb
      unfold isTrueValue at hv
      split at hv
      · cases hv
      · rename_i c w
        subst hb
        rw [Except.ok.injEq] at hv
        exact ⟨c, w, rfl, by simpa using hv⟩
    simp only [] at h
    split at h
    · rename_i hk
      rw [pure_ok] at h
      subst h
      exact ⟨rfl, .inl ⟨hk, rfl, rfl, rfl⟩⟩
    · rename_i hk
      split at h
      · rename_i hk'
        rw [bind_ok] at h
        obtain ⟨b, hb, h⟩ := h
        cases b with
        | true =>
          simp only [if_true] at h
          rw [pure_ok] at h
          subst h
          exact ⟨rfl, .inr (.inl ⟨hk', tv hb rfl, rfl, rfl, rfl⟩)⟩
        | false =>
          simp only [Bool.false_eq_true, if_false] at h
          rw [pure_ok] at h
          subst h
          exact ⟨rfl, .inr (.inr (.inr ⟨hk, rfl, rfl, rfl⟩))⟩
      · split at h
        · rename_i hk'
          rw [bind_ok] at h
          obtain ⟨b, hb, h⟩ := h
          cases b with
          | true =>
            simp only [if_true] at h
            rw [pure_ok] at h
            subst h
            exact ⟨rfl, .inr (.inr (.inl ⟨hk', tv hb rfl, rfl, rfl, rfl⟩))⟩
          | false =>
            simp only [Bool.false_eq_true, if_false] at h
            rw [pure_ok] at h
            subst h
            exact ⟨rfl, .inr (.inr (.inr ⟨hk, rfl, rfl, rfl⟩))⟩
        · rw [pure_ok] at h
          subst h
          exact ⟨rfl, .inr (.inr (.inr ⟨hk, rfl, rfl, rfl⟩))⟩

theorem readRow_ok {st st' : Reading} {row : Str × Str × Str} (hst : ReadOk st) (h : readRow st row = .ok st') : ReadOk st' := by
  rcases readRow_inv h with ⟨_, rfl⟩ | ⟨p, ss, hg, hss, hs, h⟩
  · exact hst
  have wp : WF p := hst.wf _ (fsGet_mem hg)
  have e := enum_of_run wp hss
  have h1 : (st'.scripts.map (·.1)).Nodup := by rw [hs]; exact addSeqs_nodup hst.nodup
  have h2 : ∀ e ∈ st'.scripts, WF e.2 := by
    intro x hx
    rw [hs] at hx
    rcases addSeqs_mem hx with hx | ⟨q, hq, rfl⟩
    · exact hst.wf x hx
    · exact e.wf q hq
  have app : ∀ {l : List Script}, (∀ r ∈ l, WF r) → ∀ r ∈ l ++ [p], WF r := by
    intro l hl r hr
    rcases List.mem_append.1 hr with hr | hr
    · exact hl r hr
    · rw [List.mem_singleton] at hr; rw [hr]; exact wp
  rcases h with ⟨_, e1, e2, _⟩ | ⟨_, _, e1, e2, _⟩ | ⟨_, _, e1, e2, _⟩ | ⟨_, e1, e2, _⟩
  · exact ⟨h1, h2, by rw [e1]; exact hst.roots, by rw [e2]; exact hst.ignored⟩
  · exact ⟨h1, h2, by rw [e1]; exact app hst.roots, by rw [e2]; exact hst.ignored⟩
  · exact ⟨h1, h2, by rw [e1]; exact hst.roots, by rw [e2]; exact app hst.ignored⟩
  · exact ⟨h1, h2, by rw [e1]; exact hst.roots, by rw [e2]; exact hst.ignored⟩

/-- What holds during the reading when the keys are normal. -/
structure ReadNormal (ks : List Str) (rows : List (Str × Str × Str)) (st : Reading) : Prop where
  keys : ∀ e ∈ st.scripts, e.2.str = e.1 ∧ Plain e.2 ∧ (e.1 ∈ ks ∨ e.2.cardinal = 1)
  present : ∀ k ∈ ks, (fsGet st.scripts k).isSome
  roots : ∀ r ∈ st.roots, Plain r ∧ Marked rows (c!"is_root") r.str ∧ (fsGet st.scripts r.str).isSome ∧
    ∀ L, Enum r L → ∀ q ∈ L, (fsGet st.scripts q.str).isSome
  ignored : ∀ r ∈ st.ignored, Marked rows (c!"is_ignored") r.str ∧ (fsGet st.scripts r.str).isSome

theorem readRow_normal {ks : List Str} {rows : List (Str × Str × Str)} {st st' : Reading} {row : Str × Str × Str}
    (hrow : row ∈ rows) (hst : ReadOk st) (hn : ReadNormal ks rows st) (h : readRow st row = .ok st') : ReadNormal ks rows st' := by
  rcases readRow_inv h with ⟨_, rfl⟩ | ⟨p, ss, hg, hss, hs, h⟩
  · exact hn
  have hm := fsGet_mem hg
  have wp : WF p := hst.wf _ hm
  have e := enum_of_run wp hss
  have kp := hn.keys _ hm
  simp only at kp
  have hsub : ∀ k, (fsGet st.scripts k).isSome → (fsGet st'.scripts k).isSome := by
    intro k hk; rw [hs]; exact addSeqs_get.2 (.inl hk)
  have h1 : ∀ e ∈ st'.scripts, e.2.str = e.1 ∧ Plain e.2 ∧ (e.1 ∈ ks ∨ e.2.cardinal = 1) := by
    intro x hx
    rw [hs] at hx
    rcases addSeqs_mem hx with hx | ⟨q, hq, rfl⟩
    · exact hn.keys x hx
    · exact ⟨rfl, e.plain kp.2.1 q hq, .inr (e.one q hq)⟩
  have h2 : ∀ k ∈ ks, (fsGet st'.scripts k).isSome := fun k hk => hsub k (hn.present k hk)
  have h3 : ∀ r ∈ st.roots, Plain r ∧ Marked rows (c!"is_root") r.str ∧ (fsGet st'.scripts r.str).isSome ∧
      ∀ L, Enum r L → ∀ q ∈ L, (fsGet st'.scripts q.str).isSome := fun r hr =>
    have := hn.roots r hr
    ⟨this.1, this.2.1, hsub _ this.2.2.1, fun L e q hq => hsub _ (this.2.2.2 L e q hq)⟩
  have h4 : ∀ r ∈ st.ignored, Marked rows (c!"is_ignored") r.str ∧ (fsGet st'.scripts r.str).isSome := fun r hr =>
    ⟨(hn.ignored r hr).1, hsub _ (hn.ignored r hr).2⟩
  have hpg : (fsGet st'.scripts p.str).isSome := hsub _ (by rw [kp.1, hg]; rfl)
  rcases h with ⟨_, e1, e2, _⟩ | ⟨k1, ⟨c, v, k2, k3⟩, e1, e2, _⟩ | ⟨k1, ⟨c, v, k2, k3⟩, e1, e2, _⟩ | ⟨_, e1, e2, _⟩
  · exact ⟨h1, h2, by rw [e1]; exact h3, by rw [e2]; exact h4⟩
  · refine ⟨h1, h2, ?_, by rw [e2]; exact h4⟩
    rw [e1]
    intro r hr
    rcases List.mem_append.1 hr with hr | hr
    · exact h3 r hr
    · rw [List.mem_singleton] at hr
      subst hr
      refine ⟨kp.2.1, ⟨c, v, ?_, k3⟩, hpg, fun L e' q hq => ?_⟩
      · rw [kp.1, ← k1, ← k2]; exact hrow
      · rw [hs]
        rw [enum_unique e' e] at hq
        exact addSeqs_get.2 (.inr ⟨q, hq, rfl⟩)
  · refine ⟨h1, h2, by rw [e1]; exact h3, ?_⟩
    rw [e2]
    intro r hr
    rcases List.mem_append.1 hr with hr | hr
    · exact h4 r hr
    · rw [List.mem_singleton] at hr
      subst hr
      exact ⟨⟨c, v, by rw [kp.1, ← k1, ← k2]; exact hrow, k3⟩, hpg⟩
  · exact ⟨h1, h2, by rw [e1]; exact h3, by rw [e2]; exact h4⟩

/-- The first scripts, one for each key. -/
theorem parse_wf {k : Str} {s : Script} (h : parseScript k = .ok s) : WF s := by
  rcases parse_outcome k with ⟨s', h1, h2⟩ | h1 | h1
  · rw [h] at h1; cases h1; exact h2
  · rw [h] at h1; cases h1
  · rw [h] at h1; cases h1

theorem parse_normal {k : Str} {s : Script} (h : parseScript k = .ok s) (hk : s.str = k) : Plain s := by
  obtain ⟨t, h1, _, _, h2⟩ := parse_str_plain (parse_wf h)
  rw [hk, h, Except.ok.injEq] at h1
  exact h1 ▸ h2

theorem readKeys {ks : List Str} {fs : List (Str × Script)}
    (h : ks.foldlM (fun d k => do return fsSet d k (← parseScript k)) [] = .ok fs) :
    (fs.map (·.1)).Nodup ∧ (∀ e ∈ fs, e.1 ∈ ks ∧ parseScript e.1 = .ok e.2) ∧ ∀ k ∈ ks, (fsGet fs k).isSome := by
  refine ⟨?_, ?_, ?_⟩
  · refine foldlM_inv (P := fun fs : List (Str × Script) => (fs.map (·.1)).Nodup) (by simp) ?_ h
    intro k _ d d' hd h
    rw [bind_ok] at h
    obtain ⟨s, _, h⟩ := h
    rw [pure_ok] at h
    subst h
    exact fsSet_nodup hd
  · refine foldlM_inv (P := fun fs : List (Str × Script) => ∀ e ∈ fs, e.1 ∈ ks ∧ parseScript e.1 = .ok e.2) (by simp) ?_ h
    intro k hk d d' hd h e he
    rw [bind_ok] at h
    obtain ⟨s, hs, h⟩ := h
    rw [pure_ok] at h
    subst h
    rcases mem_fsSet he with rfl | he
    · exact ⟨hk, hs⟩
    · exact hd e he
  · intro k hk
    obtain ⟨l1, l2, b1, b2, rfl, h1, h2, h3⟩ := foldlM_split hk h
    refine foldlM_inv (P := fun fs : List (Str × Script) => (fsGet fs k).isSome) ?_ ?_ h3
    · rw [bind_ok] at h2
      obtain ⟨s, _, h2⟩ := h2
      rw [pure_ok] at h2
      subst h2
      simp [fsGet_fsSet]
    · intro k' _ d d' hd h
      rw [bind_ok] at h
      obtain ⟨s, _, h⟩ := h
      rw [pure_ok] at h
      subst h
      rw [fsGet_fsSet]
      split
      · rfl
      · exact hd

/-! ### The roots -/

theorem checkRoots_inv : ∀ {roots acc seqs : List Script}, (∀ r ∈ roots, WF r) → (∀ q ∈ acc, WF q ∧ q.cardinal = 1) →
    roots.foldlM addRoot acc = .ok seqs →
    (∀ q, q ∈ seqs ↔ q ∈ acc ∨ ∃ r ∈ roots, ∃ L, Enum r L ∧ q ∈ L) ∧ (∀ r ∈ roots, ∀ q ∈ acc, Apart q r) ∧ roots.Pairwise Apart
  | [], acc, seqs, _, _, h => by
    rw [List.foldlM_nil, pure_ok] at h
    subst h
    simp
  | r :: roots, acc, seqs, hr, ha, h => by
    rw [List.foldlM_cons, bind_ok] at h
    obtain ⟨acc', h1, h⟩ := h
    rw [addRoot, bind_ok] at h1
    obtain ⟨ss, hss, h1⟩ := h1
    have wr := hr r (by simp)
    have e := enum_of_run wr hss
    by_cases hany : ss.any fun q => memText q acc
    · rw [if_pos hany] at h1; cases h1
    · rw [if_neg hany] at h1
      rw [pure_ok] at h1
      subst h1
      obtain ⟨i1, i2, i3⟩ := checkRoots_inv (fun r hr' => hr r (by simp [hr'])) (by
        intro q hq
        rcases List.mem_append.1 hq with hq | hq
        · exact ha q hq
        · exact ⟨e.wf q hq, e.one q hq⟩) h
      refine ⟨fun q => ?_, ?_, ?_⟩
      · rw [i1, List.mem_append]
        simp only [List.mem_cons, exists_eq_or_imp]
        have : (∃ L, Enum r L ∧ q ∈ L) ↔ q ∈ ss := by
          constructor
          · rintro ⟨L, e', hq⟩; rw [enum_unique e' e] at hq; exact hq
          · exact fun hq => ⟨ss, e, hq⟩
        rw [this, or_assoc]
      · intro r' hr' q hq
        rcases List.mem_cons.1 hr' with rfl | hr'
        · intro w ⟨h1, h2⟩
          obtain ⟨x, hx, hxw⟩ := (e.den w).1 h2
          apply hany
          rw [List.any_eq_true]
          exact ⟨x, hx, memText_iff.2 ⟨q, hq, str_of_word' (ha q hq).1 (e.wf x hx) (ha q hq).2 (e.one x hx) h1 hxw⟩⟩
        · exact i2 r' hr' q (by simp [hq])
      · rw [List.pairwise_cons]
        refine ⟨fun r' hr' w ⟨h1, h2⟩ => ?_, i3⟩
        obtain ⟨x, hx, hxw⟩ := (e.den w).1 h1
        exact i2 r' hr' x (by simp [hx]) w ⟨hxw, h2⟩

theorem outsideRoots_inv {scripts : List (Str × Script)} {roots seqs out : List Script} (hw : ∀ e ∈ scripts, WF e.2)
    (hr : ∀ r ∈ roots, WF r) (hseq : ∀ q, q ∈ seqs ↔ ∃ r ∈ roots, ∃ L, Enum r L ∧ q ∈ L) (h : outsideRoots scripts seqs = .ok out) :
    ∀ s, s ∈ out ↔ (∃ k, (k, s) ∈ scripts) ∧ ∃ w, Den s w ∧ ∀ r ∈ roots, ¬ Den r w := by
  unfold outsideRoots at h
  rw [bind_ok] at h
  obtain ⟨l, h1, h⟩ := h
  rw [pure_ok] at h
  subst h
  have key : ∀ s ss, WF s → Enum s ss → ((ss.all fun q => memText q seqs) = true ↔ ∀ w, Den s w → ∃ r ∈ roots, Den r w) := by
    intro s ss ws es
    rw [List.all_eq_true]
    constructor
    · intro h w hw
      obtain ⟨x, hx, hxw⟩ := (es.den w).1 hw
      obtain ⟨y, hy, hyx⟩ := memText_iff.1 (h x hx)
      obtain ⟨r, hr', L, e, hyL⟩ := (hseq y).1 hy
      exact ⟨r, hr', (e.den w).2 ⟨y, hyL, (den_of_str (e.wf y hyL) (es.wf x hx) hyx w).2 hxw⟩⟩
    · intro h x hx
      obtain ⟨w, hxw⟩ := den_exists (es.wf x hx)
      obtain ⟨r, hr', hrw⟩ := h w ((es.den w).2 ⟨x, hx, hxw⟩)
      obtain ⟨L, e⟩ := enum_exists (hr r hr')
      obtain ⟨y, hy, hyw⟩ := (e.den w).1 hrw
      exact memText_iff.2 ⟨y, (hseq y).2 ⟨r, hr', L, e, hy⟩,
        str_of_word' (e.wf y hy) (es.wf x hx) (e.one y hy) (es.one x hx) hyw hxw⟩
  intro s
  rw [List.mem_map]
  constructor
  · rintro ⟨p, hp, rfl⟩
    rw [List.mem_filter] at hp
    obtain ⟨e, he, h2⟩ := (mapM_mem h1).1 hp.1
    rw [bind_ok] at h2
    obtain ⟨ss, hss, h2⟩ := h2
    rw [pure_ok] at h2
    subst h2
    refine ⟨⟨e.1, he⟩, ?_⟩
    have := (key e.2 ss (hw e he) (enum_of_run (hw e he) hss)).not.1 (by simpa using hp.2)
    push Not at this
    exact this
  · rintro ⟨⟨k, hk⟩, w, hw1, hw2⟩
    obtain ⟨p, hp, h2⟩ := mapM_each h1 hk
    rw [bind_ok] at h2
    obtain ⟨ss, hss, h2⟩ := h2
    rw [pure_ok] at h2
    refine ⟨p, ?_, by rw [← h2]⟩
    rw [List.mem_filter]
    refine ⟨hp, ?_⟩
    rw [← h2]
    have := (key s ss (hw _ hk) (enum_of_run (hw _ hk) hss)).not.2 (by
      intro h; obtain ⟨r, hr', hrw⟩ := h w hw1; exact hw2 r hr' hrw)
    simpa using this

/-! ### The removal of the ignored scripts -/

theorem removeAll_inv : ∀ {l : List Script} {st st' : Reading}, (st.scripts.map (·.1)).Nodup →
    (st.roots.Pairwise fun a b => a.str ≠ b.str) → l.foldlM removeIgnored st = .ok st' →
    (∀ e, e ∈ st'.scripts ↔ e ∈ st.scripts ∧ ∀ s ∈ l, s.str ≠ e.1) ∧ (st'.scripts.map (·.1)).Nodup ∧
    st'.roots.Sublist st.roots ∧ (∀ r, r ∈ st'.roots ↔ r ∈ st.roots ∧ ∀ s ∈ l, s.str ≠ r.str) ∧
    (∀ k, (∀ s ∈ l, s.str ≠ k) → fsGet st'.inhibitions k = fsGet st.inhibitions k)
  | [], st, st', hn, hr, h => by
    rw [List.foldlM_nil, pure_ok] at h
    subst h
    exact ⟨by simp, hn, List.Sublist.refl _, by simp, by simp⟩
  | s :: l, st, st', hn, hr, h => by
    rw [List.foldlM_cons, bind_ok] at h
    obtain ⟨st1, h1, h⟩ := h
    unfold removeIgnored at h1
    split at h1
    · cases h1
    rw [Except.ok.injEq] at h1
    have hsub : st1.roots.Sublist st.roots := by rw [← h1]; exact List.eraseP_sublist
    have hr1 : st1.roots.Pairwise fun a b => a.str ≠ b.str := hr.sublist hsub
    have hmem : ∀ r, r ∈ st1.roots ↔ r ∈ st.roots ∧ s.str ≠ r.str := by
      intro r
      have : st1.roots = st.roots.eraseP fun r => r.pyEq s := by rw [← h1]
      rw [this]
      have : ∀ (l : List Script), (l.Pairwise fun a b => a.str ≠ b.str) →
          (r ∈ l.eraseP (fun r => r.pyEq s) ↔ r ∈ l ∧ s.str ≠ r.str) := by
        intro l hl
        induction l with
        | nil => simp
        | cons x l ih =>
          rw [List.pairwise_cons] at hl
          rw [List.eraseP_cons]
          by_cases hx : x.str = s.str
          · simp only [pyEq, hx, beq_self_eq_true, cond_true, List.mem_cons]
            constructor
            · intro h
              exact ⟨.inr h, fun e => hl.1 r h (hx.trans e)⟩
            · rintro ⟨rfl | h, h'⟩
              · exact absurd hx.symm h'
              · exact h
          · have : x.pyEq s = false := by simp [pyEq, hx]
            simp only [this, cond_false, List.mem_cons]
            rw [ih hl.2]
            constructor
            · rintro (rfl | ⟨h, h'⟩)
              · exact ⟨.inl rfl, fun e => hx e.symm⟩
              · exact ⟨.inr h, h'⟩
            · rintro ⟨rfl | h, h'⟩
              · exact .inl rfl
              · exact .inr ⟨h, h'⟩
      exact this _ hr
    obtain ⟨i1, i2, i3, i4, i5⟩ := removeAll_inv (l := l) (st := st1) (by rw [← h1]; exact fsRemove_nodup hn) hr1 h
    refine ⟨fun e => ?_, i2, i3.trans hsub, fun r => ?_, fun k hk => ?_⟩
    · rw [i1]
      have : e ∈ st1.scripts ↔ e ∈ st.scripts ∧ s.str ≠ e.1 := by
        rw [← h1]
        simp only [fsRemove, List.mem_filter]
        constructor
        · rintro ⟨h, h'⟩; exact ⟨h, fun e => by simp [e] at h'⟩
        · rintro ⟨h, h'⟩; exact ⟨h, by simpa using fun e => h' e.symm⟩
      rw [this]
      simp only [List.mem_cons, forall_eq_or_imp, and_assoc]
    · rw [i4, hmem]
      simp only [List.mem_cons, forall_eq_or_imp, and_assoc]
    · rw [i5 k fun x hx => hk x (by simp [hx]), ← h1]
      rw [fsGet_fsRemove, if_neg fun e => hk s (by simp) e.symm]

theorem apart_str {a b : Script} (ha : WF a) (hb : WF b) (h : Apart a b) : a.str ≠ b.str := by
  intro e
  obtain ⟨w, hw⟩ := den_exists ha
  exact h w ⟨hw, (den_of_str ha hb e w).1 hw⟩

/-- The whole reading: the reading of the rows, and what is removed. -/
theorem readDictionary_inv {ks : List Str} {rows : List (Str × Str × Str)} {st' : Reading} (h : readDictionary ks rows = .ok st') :
    ∃ st fs, ReadOk st ∧ st.roots.Pairwise Apart ∧ rows.foldlM readRow ⟨fs, [], [], []⟩ = .ok st ∧
      ks.foldlM (fun d k => do return fsSet d k (← parseScript k)) [] = .ok fs ∧
      (NormalKeys ks → ReadNormal ks rows st) ∧
      (∃ out, (∀ s, s ∈ out ↔ (∃ k, (k, s) ∈ st.scripts) ∧ ∃ w, Den s w ∧ ∀ r ∈ st.roots, ¬ Den r w) ∧
        (∀ e, e ∈ st'.scripts ↔ e ∈ st.scripts ∧ ∀ s ∈ st.ignored ++ out, s.str ≠ e.1) ∧ (st'.scripts.map (·.1)).Nodup ∧
        st'.roots.Sublist st.roots ∧ (∀ r, r ∈ st'.roots ↔ r ∈ st.roots ∧ ∀ s ∈ st.ignored ++ out, s.str ≠ r.str) ∧
        (∀ k, (∀ s ∈ st.ignored ++ out, s.str ≠ k) → fsGet st'.inhibitions k = fsGet st.inhibitions k)) := by
  unfold readDictionary at h
  rw [bind_ok] at h
  obtain ⟨fs, h1, h⟩ := h
  rw [bind_ok] at h
  obtain ⟨st, h2, h⟩ := h
  rw [bind_ok] at h
  obtain ⟨seqs, h3, h⟩ := h
  rw [bind_ok] at h
  obtain ⟨out, h4, h⟩ := h
  obtain ⟨k1, k2, k3⟩ := readKeys h1
  have hok0 : ReadOk ⟨fs, [], [], []⟩ := ⟨k1, fun e he => parse_wf (k2 e he).2, by simp, by simp⟩
  have hok : ReadOk st := foldlM_inv (P := ReadOk) hok0 (fun row _ b c hb h => readRow_ok hb h) h2
  obtain ⟨c1, _, c3⟩ := checkRoots_inv hok.roots (acc := []) (by simp) h3
  have c1' : ∀ q, q ∈ seqs ↔ ∃ r ∈ st.roots, ∃ L, Enum r L ∧ q ∈ L := by intro q; rw [c1]; simp
  have hout := outsideRoots_inv hok.wf hok.roots c1' h4
  have hd : st.roots.Pairwise fun a b => a.str ≠ b.str := by
    refine List.Pairwise.imp_of_mem ?_ c3
    intro a b ha hb h
    exact apart_str (hok.roots a ha) (hok.roots b hb) h
  refine ⟨st, fs, hok, c3, h2, h1, fun hnk => ?_, out, hout, removeAll_inv hok.nodup hd h⟩
  have hn0 : ReadNormal ks rows ⟨fs, [], [], []⟩ := by
    refine ⟨fun e he => ?_, k3, by simp, by simp⟩
    have := k2 e he
    have hstr := hnk e.1 this.1 e.2 this.2
    exact ⟨hstr, parse_normal this.2 hstr, .inl this.1⟩
  exact (foldlM_inv (P := fun st => ReadOk st ∧ ReadNormal ks rows st) ⟨hok0, hn0⟩
    (fun row hrow b c hb h => ⟨readRow_ok hb.1 h, readRow_normal hrow hb.1 hb.2 h⟩) h2).2

end Verif
