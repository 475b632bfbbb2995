import Verif.Lemmas.Siblings

/-
The inhibitions read from the structure.
-/

namespace Verif
open Script DictOk

/-- The script read for a key keeps its text. -/
theorem readRow_key {k : Str} {s : Script} (hs : parseScript k = .ok s) {st st' : Reading} {row : Str × Str × Str} (hok : ReadOk st)
    (hk : ∃ p, fsGet st.scripts k = some p ∧ p.str = s.str) (h : readRow st row = .ok st') :
    ∃ p, fsGet st'.scripts k = some p ∧ p.str = s.str := by
  rcases readRow_inv h with ⟨_, rfl⟩ | ⟨p, ss, hg, hss, he, _⟩
  · exact hk
  · have eL := enum_of_run (hok.wf _ (fsGet_mem hg)) hss
    obtain ⟨p0, hp0, hps⟩ := hk
    have hsome : (fsGet st'.scripts k).isSome := by rw [he]; exact addSeqs_get.2 (.inl (by rw [hp0]; rfl))
    obtain ⟨x, hx⟩ := Option.isSome_iff_exists.1 hsome
    refine ⟨x, hx, ?_⟩
    have hm := fsGet_mem hx
    rw [he] at hm
    rcases addSeqs_mem hm with hm | ⟨q, hq, hkq⟩
    · rw [mem_fsGet hok.nodup hm, Option.some.injEq] at hp0
      rw [hp0]; exact hps
    · rw [Prod.mk.injEq] at hkq
      obtain ⟨q', h1, _, h3, _⟩ := parse_str_plain (eL.wf q hq)
      rw [← hkq.1, hs, Except.ok.injEq] at h1
      rw [hkq.2, h1, h3]

/-- An inhibition is kept by the next rows. -/
theorem readRow_inhibition {key name : Str} {st st' : Reading} {row : Str × Str × Str}
    (hn : name ∈ (fsGet st.inhibitions key).getD []) (h : readRow st row = .ok st') : name ∈ (fsGet st'.inhibitions key).getD [] := by
  rcases readRow_inv h with ⟨_, rfl⟩ | ⟨p, ss, _, _, _, h⟩
  · exact hn
  · rcases h with ⟨_, _, _, h⟩ | ⟨_, _, _, _, h⟩ | ⟨_, _, _, _, h⟩ | ⟨_, _, _, h⟩
    · rw [h, fsGet_fsSet]
      split
      · rename_i e
        rw [Option.getD_some, ← e]
        exact List.mem_append_left _ hn
      · exact hn
    all_goals rw [h]; exact hn

/-- A row with an inhibition for the key of a root is found at the root. -/
theorem inhibited_of_row {o : SetOrder} (ho : o.Valid) {ks : List Str} {rows : List (Str × Str × Str)} {d : Dictionary}
    (h : mkDictionary o ks rows = .ok d) {k name : Str} (hk : k ∈ ks) (hrow : (k, c!"inhibition", name) ∈ rows) {s r : Script}
    (hs : parseScript k = .ok s) (hr : r ∈ d.roots) (hsr : s.str = r.str) : d.base.inhibited r name = true := by
  obtain ⟨st', h1, hd, hroots, hinh, _⟩ := mkDictionary_inv ho h
  obtain ⟨st, fs, hok, _, hrows, hkeys, _, out, _, _, _, _, k4, k5⟩ := readDictionary_inv h1
  obtain ⟨k1, k2, k3⟩ := readKeys hkeys
  have hok0 : ReadOk ⟨fs, [], [], []⟩ := ⟨k1, fun e he => parse_wf (k2 e he).2, by simp, by simp⟩
  have hp0 : ∃ p, fsGet fs k = some p ∧ p.str = s.str := by
    obtain ⟨p, hp⟩ := Option.isSome_iff_exists.1 (k3 k hk)
    have := (k2 _ (fsGet_mem hp)).2
    rw [hs, Except.ok.injEq] at this
    exact ⟨p, hp, by rw [this]⟩
  obtain ⟨l1, l2, st1, st2, e, g1, g2, g3⟩ := foldlM_split hrow hrows
  have inv := foldlM_inv (P := fun st => ReadOk st ∧ ∃ p, fsGet st.scripts k = some p ∧ p.str = s.str) ⟨hok0, hp0⟩
    (fun row _ b c hb h => ⟨readRow_ok hb.1 h, readRow_key hs hb.1 hb.2 h⟩) g1
  have h2 : name ∈ (fsGet st2.inhibitions s.str).getD [] := by
    obtain ⟨_, p, hp, hps⟩ := inv
    rcases readRow_inv g2 with ⟨hg, _⟩ | ⟨p', ss, hg, _, _, h⟩
    · simp only at hg
      rw [hp] at hg
      cases hg
    · simp only at hg
      rw [hp, Option.some.injEq] at hg
      subst hg
      rcases h with ⟨_, _, _, h⟩ | ⟨ha, _⟩ | ⟨ha, _⟩ | ⟨ha, _⟩
      · rw [h, fsGet_fsSet, if_pos hps.symm, Option.getD_some]
        simp
      · simp only at ha; exact absurd ha (by decide)
      · simp only at ha; exact absurd ha (by decide)
      · exact absurd rfl ha
  have h3 := foldlM_inv (P := fun st : Reading => name ∈ (fsGet st.inhibitions s.str).getD []) h2
    (fun row _ b c hb h => readRow_inhibition hb h) g3
  rw [hroots, k4] at hr
  unfold DictBase.inhibited
  rw [hinh, k5 r.str hr.2, ← hsr]
  simpa using h3

end Verif
