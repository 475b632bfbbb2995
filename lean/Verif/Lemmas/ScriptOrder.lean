import Verif.Lemmas.ScriptAttr

/-
`__lt__` is a strict total order on the well-formed scripts that are not one-term sums: it is the lexicographic order
of a self-delimiting code `K`.
-/

namespace Verif

/-! ### Lexicographic order -/

theorem ltBytes_irrefl : ∀ a, ltBytes a a = false
  | [] => rfl
  | a :: as => by simp [ltBytes, ltBytes_irrefl as]

theorem ltBytes_trans : ∀ {a b c}, ltBytes a b = true → ltBytes b c = true → ltBytes a c = true
  | _, [], _, h, _ => by simp [ltBytes] at h
  | _, _ :: _, [], _, h => by simp [ltBytes] at h
  | [], _ :: _, _ :: _, _, _ => by simp [ltBytes]
  | a :: as, b :: bs, c :: cs, h1, h2 => by
    simp only [ltBytes] at *
    split at h1 <;> split at h2 <;> split <;> simp_all
    · exact ltBytes_trans h1 h2
    · omega
    · omega

theorem ltBytes_total : ∀ {a b}, a ≠ b → ltBytes a b = true ∨ ltBytes b a = true
  | [], [], h => absurd rfl h
  | [], _ :: _, _ => by simp [ltBytes]
  | _ :: _, [], _ => by simp [ltBytes]
  | a :: as, b :: bs, h => by
    simp only [ltBytes]
    by_cases hab : a = b
    · subst hab
      have : as ≠ bs := fun h' => h (by rw [h'])
      simpa using ltBytes_total this
    · simp only [hab, Ne.symm hab, if_false, decide_eq_true_eq]; omega

theorem ltBytes_append : ∀ {a b : List Nat} (u v : List Nat), (∀ u v, a ++ u = b ++ v → a = b) →
    ltBytes (a ++ u) (b ++ v) = if a = b then ltBytes u v else ltBytes a b
  | [], b, u, v, h => by
    have := h b [] (by simp); subst this; simp
  | a :: as, [], u, v, h => by
    have := h [] (a :: as) (by simp); simp at this
  | a :: as, b :: bs, u, v, h => by
    simp only [List.cons_append, ltBytes]
    by_cases hab : a = b
    · subst hab
      have := ltBytes_append (a := as) (b := bs) u v (fun u v h' => by
        have := h u v (by simp [h']); simpa using this)
      simp [this]
    · simp [hab]

theorem mapSucc_zero : ∀ {x y u v : List Nat}, x.map (· + 1) ++ 0 :: u = y.map (· + 1) ++ 0 :: v → x = y ∧ u = v
  | [], [], _, _, h => by simpa using h
  | [], _ :: _, _, _, h => by simp at h
  | _ :: _, [], _, _, h => by simp at h
  | a :: as, b :: bs, u, v, h => by
    simp only [List.map_cons, List.cons_append, List.cons.injEq, Nat.add_right_cancel_iff] at h
    obtain ⟨h1, h2⟩ := mapSucc_zero h.2
    exact ⟨by rw [h.1, h1], h2⟩

theorem ltBytes_mapSucc_zero : ∀ (x y u v : List Nat), ltBytes (x.map (· + 1) ++ 0 :: u) (y.map (· + 1) ++ 0 :: v) =
    if x = y then ltBytes u v else ltBytes x y
  | [], [], u, v => by simp [ltBytes]
  | [], b :: bs, u, v => by simp [ltBytes]
  | a :: as, [], u, v => by simp [ltBytes]
  | a :: as, b :: bs, u, v => by
    simp only [List.map_cons, List.cons_append, ltBytes, Nat.add_right_cancel_iff]
    by_cases hab : a = b
    · subst hab; simp [ltBytes_mapSucc_zero as bs u v]
    · simp [hab]

theorem ltBytes_replicate_one : ∀ {n : Nat} {y : List Nat}, y.length = n → (∀ b ∈ y, 1 ≤ b) →
    y ≠ List.replicate n 1 → ltBytes (List.replicate n 1) y = true
  | 0, y, hl, _, hn => by simp at hl; simp [hl] at hn
  | n + 1, [], hl, _, _ => by simp at hl
  | n + 1, b :: y, hl, h1, hn => by
    simp only [List.replicate_succ, ltBytes]
    by_cases hb : 1 = b
    · subst hb
      simp only [if_true]
      refine ltBytes_replicate_one (by simpa using hl) (fun b hb => h1 b (by simp [hb])) ?_
      intro h; exact hn (by rw [h, List.replicate_succ])
    · have := h1 b (by simp)
      simp only [hb, if_false, decide_eq_true_eq]; omega

namespace Script

/-- Induction on scripts. -/
theorem ind {P : Script → Prop} (hn : ∀ l, P (null l)) (hp : ∀ p, P (prim p))
    (hm : ∀ s a m, P s → P a → P m → P (mult s a m)) (ha : ∀ cs, (∀ c ∈ cs, P c) → P (add cs)) (s : Script) : P s :=
  Script.rec (motive_1 := P) (motive_2 := fun cs => ∀ c ∈ cs, P c) hn hp hm ha
    (fun _ h => by cases h) (fun c cs h1 h2 d hd => by
      rcases List.mem_cons.1 hd with rfl | hd
      · exact h1
      · exact h2 d hd) s

/-! ### The code -/

/-- Scalar attributes compared first. -/
def head (x : Script) (rest : List Nat) : List Nat :=
  (x.layer + 1) :: (if x.empty then 0 else 1) :: x.cardinal ::
    (x.canonical.map (· + 1) ++ 0 :: (if x.isAdd then 1 else 0) :: rest)

mutual
/-- Self-delimiting code of a script, whose lexicographic order is `<`. -/
def K : Script → List Nat
  | null l => head (null l) [0]
  | prim p => head (prim p) [0]
  | mult s a m => head (mult s a m) (if (mult s a m).empty then [0] else K s ++ (K a ++ (K m ++ [0])))
  | add cs => head (add cs) (if (add cs).layer = 0 then [0] else KL cs)
def KL : List Script → List Nat
  | [] => [0]
  | c :: cs => K c ++ KL cs
end

/-- The scripts compared when all scalar attributes agree. -/
def kids : Script → List Script
  | null _ | prim _ => []
  | mult s a m => if (mult s a m).empty then [] else [s, a, m]
  | add cs => if (add cs).layer = 0 then [] else cs

theorem K_eq (x : Script) : K x = head x (KL x.kids) := by
  cases x with
  | null l => simp [K, kids, KL]
  | prim p => simp [K, kids, KL]
  | mult s a m =>
    simp only [K, kids]
    split <;> simp [KL]
  | add cs =>
    simp only [K, kids]
    split <;> simp [KL]

/-- Prefix-freeness. -/
def PF (x : Script) : Prop := ∀ y u v, K x ++ u = K y ++ v → K x = K y ∧ u = v

theorem KL_pf : ∀ {xs : List Script}, (∀ x ∈ xs, PF x) → ∀ ys u v, KL xs ++ u = KL ys ++ v → KL xs = KL ys ∧ u = v
  | [], _, [], u, v, h => by simpa [KL] using h
  | [], _, y :: ys, u, v, h => by simp [KL, K_eq, head] at h
  | x :: xs, _, [], u, v, h => by simp [KL, K_eq, head] at h
  | x :: xs, hx, y :: ys, u, v, h => by
    simp only [KL, List.append_assoc] at h
    obtain ⟨h1, h2⟩ := hx x (by simp) y _ _ h
    obtain ⟨h3, h4⟩ := KL_pf (fun z hz => hx z (List.mem_cons_of_mem _ hz)) ys u v h2
    exact ⟨by simp only [KL, h1, h3], h4⟩

theorem head_inj {x y : Script} {r r' : List Nat} (h : head x r = head y r') :
    x.layer = y.layer ∧ x.empty = y.empty ∧ x.cardinal = y.cardinal ∧ x.canonical = y.canonical ∧ x.isAdd = y.isAdd ∧
      r = r' := by
  simp only [head, List.cons.injEq, Nat.add_right_cancel_iff] at h
  obtain ⟨h1, h2, h3, h4⟩ := h
  obtain ⟨h5, h6⟩ := mapSucc_zero h4
  simp only [List.cons.injEq] at h6
  refine ⟨h1, ?_, h3, h5, ?_, h6.2⟩
  · cases hx : x.empty <;> cases hy : y.empty <;> simp [hx, hy] at h2 ⊢
  · have := h6.1
    cases hx : x.isAdd <;> cases hy : y.isAdd <;> simp [hx, hy] at this ⊢

theorem pf_of_kids {x : Script} (h : ∀ c ∈ x.kids, PF c) : PF x := by
  intro y u v he
  rw [K_eq, K_eq] at he ⊢
  have hap : ∀ (x : Script) r u, head x r ++ u = head x (r ++ u) := by intro x r u; simp [head]
  rw [hap, hap] at he
  obtain ⟨h1, h2, h3, h4, h5, h6⟩ := head_inj he
  obtain ⟨h7, h8⟩ := KL_pf h _ _ _ h6
  refine ⟨?_, h8⟩
  simp only [head, h1, h2, h3, h4, h5, h7]

theorem pf (x : Script) : PF x := by
  induction x using ind with
  | hn l => exact pf_of_kids (by simp [kids])
  | hp p => exact pf_of_kids (by simp [kids])
  | hm s a m h1 h2 h3 =>
    refine pf_of_kids ?_
    simp only [kids]
    split
    · simp
    · intro c hc
      simp only [List.mem_cons, List.not_mem_nil, or_false] at hc
      rcases hc with rfl | rfl | rfl <;> assumption
  | ha cs ih =>
    refine pf_of_kids ?_
    simp only [kids]
    split
    · simp
    · exact ih

/-! ### Equal codes, equal texts -/

theorem kids_wf {x : Script} (h : WF x) : ∀ c ∈ x.kids, WF c ∧ Plain c := by
  cases h with
  | null => simp [kids]
  | prim => simp [kids]
  | mult h1 h2 h3 h4 h5 h6 h7 h8 h9 h10 =>
    simp only [kids]
    split
    · simp
    · intro c hc
      simp only [List.mem_cons, List.not_mem_nil, or_false] at hc
      rcases hc with rfl | rfl | rfl
      · exact ⟨h1, h7.1⟩
      · exact ⟨h2, h8.1⟩
      · exact ⟨h3, h9.1⟩
  | add h1 h2 h3 h4 h5 h6 h7 =>
    simp only [kids]
    split
    · simp
    · intro c hc
      refine ⟨h2 c hc, fun d hd => ?_⟩
      have := h4 c hc
      rw [hd] at this; simp [isAdd] at this

theorem isAdd_norm {s : Script} (hw : WF s) (hp : Plain s) : s.norm.isAdd = s.isAdd := by
  cases s with
  | null => simp [norm]
  | prim => simp [norm]
  | mult => rw [norm]; split <;> rfl
  | add cs =>
    rcases norm_add_cases hw with ⟨c, rfl, hn⟩ | ⟨hn, _, _⟩
    · exact absurd rfl (hp c)
    · rw [hn]; rfl

theorem head_norm {s : Script} (hw : WF s) (hp : Plain s) (r : List Nat) : head s.norm r = head s r := by
  simp only [head, layer_norm hw, empty_norm hw, cardinal_norm hw, canonical_norm hw, isAdd_norm hw hp]

theorem KL_map_norm : ∀ {cs : List Script}, (∀ c ∈ cs, K c.norm = K c) → KL (cs.map norm) = KL cs
  | [], _ => by simp [KL]
  | c :: cs, h => by
    simp only [List.map_cons, KL, h c (by simp), KL_map_norm fun d hd => h d (List.mem_cons_of_mem _ hd)]

theorem plain_of_not_isAdd {s : Script} (h : s.isAdd = false) : Plain s := by
  intro c hc; rw [hc] at h; simp [isAdd] at h

theorem K_norm {s : Script} (hw : WF s) (hp : Plain s) : K s.norm = K s := by
  induction hw with
  | null => simp [norm]
  | prim => simp [norm]
  | @mult s a m h1 h2 h3 h4 h5 h6 h7 h8 h9 h10 ih1 ih2 ih3 =>
    have hw : WF (mult s a m) := .mult h1 h2 h3 h4 h5 h6 h7 h8 h9 h10
    rw [K_eq, head_norm hw hp, K_eq (mult s a m)]
    congr 1
    rw [norm, kids]
    split
    · simp [kids]
    · rename_i he
      have : (mult s.norm a.norm m.norm).empty = false := by
        have := empty_norm hw
        rw [norm, if_neg he] at this
        rw [this]; simpa using he
      rw [kids, this]
      simp only [Bool.false_eq_true, if_false, KL, ih1 h7.1, ih2 h8.1, ih3 h9.1]
  | @add cs h1 h2 h3 h4 h5 h6 h7 ih =>
    have hw : WF (add cs) := .add h1 h2 h3 h4 h5 h6 h7
    rw [K_eq, head_norm hw hp, K_eq (add cs)]
    congr 1
    rcases norm_add_cases hw with ⟨c, rfl, hn⟩ | ⟨hn, _, _⟩
    · exact absurd rfl (hp c)
    · have hl := layer_norm hw
      rw [hn] at hl
      rw [hn, kids, kids, hl]
      split
      · rfl
      · exact KL_map_norm fun c hc => ih c hc (plain_of_not_isAdd (h4 c hc))

theorem K_of_str {x y : Script} (hx : WF x) (px : Plain x) (hy : WF y) (py : Plain y) (h : x.str = y.str) : K x = K y := by
  rw [← K_norm hx px, ← K_norm hy py, norm_eq_of_str hx hy h]

theorem foldl_or_testBit (i : Nat) : ∀ (cs : List Script) (v : Nat),
    (cs.foldl (fun v c => v ||| c.charValue) v).testBit i = (v.testBit i || cs.any fun c => c.charValue.testBit i)
  | [], v => by simp
  | c :: cs, v => by simp [foldl_or_testBit i cs, Bool.or_assoc]

theorem charValue_testBit {s t : Script} (h0 : s.layer = 0) (ha : s.isAdd = false) (h0' : t.layer = 0)
    (ha' : t.isAdd = false) : t.charValue.testBit s.charValue.log2 = true ↔ t = s := by
  rcases layer0_cases h0 ha with rfl | ⟨p, rfl⟩ <;> rcases layer0_cases h0' ha' with rfl | ⟨q, rfl⟩
  · simp [charValue]; decide
  · have : ∀ q ∈ Prim.all, (prim q).charValue.testBit (null 0).charValue.log2 = false := by decide
    rw [this q (by cases q <;> decide)]; simp
  · have : ∀ q ∈ Prim.all, (null 0).charValue.testBit (prim q).charValue.log2 = false := by decide
    rw [this p (by cases p <;> decide)]; simp
  · have : ∀ q ∈ Prim.all, ∀ p ∈ Prim.all, (prim q).charValue.testBit (prim p).charValue.log2 = decide (q = p) := by decide
    rw [this q (by cases q <;> decide) p (by cases p <;> decide)]; simp

/-- Terms of a layer 0 script. -/
def terms0 : Script → List Script
  | add cs => cs
  | s => [s]

theorem canonical_layer0 {s : Script} (h0 : s.layer = 0) :
    s.canonical = [s.terms0.foldl (fun v c => v ||| c.charValue) 0] := by
  cases s with
  | null l => simp [layer] at h0; subst h0; simp [canonical, terms0, charValue]
  | prim p => simp [canonical, terms0, charValue]
  | mult => simp [layer] at h0
  | add cs => rw [canonical_add, if_pos h0]; rfl

theorem terms0_wf {s : Script} (h : WF s) (h0 : s.layer = 0) :
    (∀ c ∈ s.terms0, c.layer = 0 ∧ c.isAdd = false) ∧ s.terms0.Pairwise (fun a b => lt a b = true) := by
  cases h with
  | null => simpa [terms0, isAdd] using h0
  | prim => simp [terms0, isAdd, layer]
  | mult => simp [layer] at h0
  | add h1 h2 h3 h4 h5 h6 h7 => exact ⟨fun c hc => ⟨by rw [h3 c hc, h0], h4 c hc⟩, h6⟩

theorem str_terms0 {s : Script} : s.str = (add s.terms0).str := by
  have single : ∀ s : Script, s.str = (add [s]).str := by
    intro s; rw [str_add, remAdd?_single]; simp [joinPlus]
  cases s with
  | add cs => rfl
  | null => exact single _
  | prim => exact single _
  | mult => exact single _

theorem canonical0_inj {s t : Script} (hs : WF s) (ht : WF t) (h0 : s.layer = 0) (h0' : t.layer = 0)
    (h : s.canonical = t.canonical) : s.str = t.str := by
  rw [canonical_layer0 h0, canonical_layer0 h0', List.cons.injEq] at h
  replace h := h.1
  obtain ⟨a1, a2⟩ := terms0_wf hs h0
  obtain ⟨b1, b2⟩ := terms0_wf ht h0'
  have key : ∀ {cs ds : List Script}, (∀ c ∈ cs, c.layer = 0 ∧ c.isAdd = false) → (∀ c ∈ ds, c.layer = 0 ∧ c.isAdd = false) →
      cs.foldl (fun v c => v ||| c.charValue) 0 = ds.foldl (fun v c => v ||| c.charValue) 0 → ∀ x ∈ cs, x ∈ ds := by
    intro cs ds h1 h2 h x hx
    have e := congrArg (fun v => v.testBit x.charValue.log2) h
    simp only [foldl_or_testBit, Nat.zero_testBit, Bool.false_or] at e
    have : (cs.any fun c => c.charValue.testBit x.charValue.log2) = true :=
      List.any_eq_true.2 ⟨x, hx, (charValue_testBit (h1 x hx).1 (h1 x hx).2 (h1 x hx).1 (h1 x hx).2).2 rfl⟩
    rw [this] at e
    obtain ⟨y, hy, hy'⟩ := List.any_eq_true.1 e.symm
    rw [(charValue_testBit (h1 x hx).1 (h1 x hx).2 (h2 y hy).1 (h2 y hy).2).1 hy'] at hy
    exact hy
  have k1 := key a1 b1 h
  have k2 := key b1 a1 h.symm
  have : s.terms0 = t.terms0 := by
    refine layer0_list_ext (fun c hc => (a1 c hc).1) (fun c hc => (a1 c hc).2) (fun c hc => (b1 c hc).1)
      (fun c hc => (b1 c hc).2) a2 b2 ?_
    intro c
    simp only [List.mem_filterMap]
    exact ⟨fun ⟨x, hx, hc⟩ => ⟨x, k1 x hx, hc⟩, fun ⟨x, hx, hc⟩ => ⟨x, k2 x hx, hc⟩⟩
  rw [str_terms0, str_terms0 (s := t), this]

theorem empty_plain {s : Script} (h : WF s) (hp : Plain s) (he : s.empty = true) : s.isAdd = false := by
  cases s with
  | add cs =>
    obtain ⟨c, rfl, _⟩ := (empty_add_wf h).1 he
    exact absurd rfl (hp c)
  | _ => rfl

theorem KL_inj : ∀ {xs ys : List Script}, (∀ x ∈ xs, ∀ y ∈ ys, K x = K y → x.str = y.str) → KL xs = KL ys →
    xs.map str = ys.map str
  | [], [], _, _ => rfl
  | [], y :: ys, _, h => by simp [KL, K_eq, head] at h
  | x :: xs, [], _, h => by simp [KL, K_eq, head] at h
  | x :: xs, y :: ys, hx, h => by
    simp only [KL] at h
    obtain ⟨h1, h2⟩ := pf x y _ _ h
    simp only [List.map_cons, List.cons.injEq]
    exact ⟨hx x (by simp) y (by simp) h1,
      KL_inj (fun a ha b hb => hx a (List.mem_cons_of_mem _ ha) b (List.mem_cons_of_mem _ hb)) h2⟩

/-- Same scalar attributes and same texts of the children: same text. -/
theorem str_of_kids {x y : Script} (hx : WF x) (px : Plain x) (hy : WF y) (py : Plain y)
    (hl : x.layer = y.layer) (he : x.empty = y.empty) (hc : x.canonical = y.canonical) (ha : x.isAdd = y.isAdd)
    (hk : (x.kids.map str) = y.kids.map str) : x.str = y.str := by
  by_cases hee : x.empty = true
  · rw [empty_str hx (empty_plain hx px hee) hee, empty_str hy (empty_plain hy py (by rw [← he, hee])) (by rw [← he, hee]), hl]
  · have hee : x.empty = false := by simpa using hee
    have hee' : y.empty = false := by rw [← he, hee]
    by_cases h0 : x.layer = 0
    · exact canonical0_inj hx hy h0 (by omega) hc
    · cases x with
      | null => simp [empty] at hee
      | prim => simp [layer] at h0
      | mult s a m =>
        cases y with
        | null => simp [empty] at hee'
        | prim => simp [layer] at hl
        | add => simp [isAdd] at ha
        | mult s' a' m' =>
          rw [kids, kids, hee, hee'] at hk
          simp only [Bool.false_eq_true, if_false, List.map_cons, List.map_nil, List.cons.injEq, and_true] at hk
          cases hx with
          | mult h1 h2 h3 h4 h5 h6 h7 h8 h9 h10 =>
            cases hy with
            | mult g1 g2 g3 g4 g5 g6 g7 g8 g9 g10 =>
              have hl' : s.layer = s'.layer := by simpa [layer] using hl
              rw [str_mult, str_mult, rawMult, rawMult, hk.1, hk.2.1, hk.2.2, empty_of_str h1 g1 hk.1,
                empty_of_str h2 g2 hk.2.1, empty_of_str h3 g3 hk.2.2, hl']
      | add cs =>
        cases y with
        | null => simp [empty] at hee'
        | prim => simp [isAdd] at ha
        | mult => simp [isAdd] at ha
        | add cs' =>
          have h0' : (add cs').layer ≠ 0 := by omega
          rw [kids, kids, if_neg h0, if_neg h0'] at hk
          rw [str_add, str_add, remAdd?_of_layer h0, remAdd?_of_layer h0', hk]

theorem str_of_K {x : Script} : ∀ {y : Script}, WF x → Plain x → WF y → Plain y → K x = K y → x.str = y.str := by
  have main : ∀ {x : Script}, (∀ c ∈ x.kids, ∀ {y : Script}, WF c → Plain c → WF y → Plain y → K c = K y → c.str = y.str) →
      ∀ {y : Script}, WF x → Plain x → WF y → Plain y → K x = K y → x.str = y.str := by
    intro x ih y hx px hy py h
    rw [K_eq, K_eq] at h
    obtain ⟨h1, h2, h3, h4, h5, h6⟩ := head_inj h
    refine str_of_kids hx px hy py h1 h2 h4 h5 (KL_inj (fun c hc d hd hcd => ?_) h6)
    exact ih c hc (kids_wf hx c hc).1 (kids_wf hx c hc).2 (kids_wf hy d hd).1 (kids_wf hy d hd).2 hcd
  induction x using ind with
  | hn l => exact main (by simp [kids])
  | hp p => exact main (by simp [kids])
  | hm s a m h1 h2 h3 =>
    refine fun {_} => main ?_
    simp only [kids]
    split
    · simp
    · intro c hc
      simp only [List.mem_cons, List.not_mem_nil, or_false] at hc
      rcases hc with rfl | rfl | rfl <;> assumption
  | ha cs ih =>
    refine fun {_} => main ?_
    simp only [kids]
    split
    · simp
    · exact fun c hc => ih c hc

theorem K_iff {x y : Script} (hx : WF x) (px : Plain x) (hy : WF y) (py : Plain y) : K x = K y ↔ x.str = y.str :=
  ⟨str_of_K hx px hy py, K_of_str hx px hy py⟩

/-! ### Canonical form of singular scripts -/

theorem mult_eq_one {a b c : Nat} (h : a * b * c = 1) : a = 1 ∧ b = 1 ∧ c = 1 := by
  have h1 := Nat.eq_one_of_mul_eq_one_left h
  have h2 := Nat.eq_one_of_mul_eq_one_right h
  have h3 := Nat.eq_one_of_mul_eq_one_left h2
  have h4 := Nat.eq_one_of_mul_eq_one_right h2
  exact ⟨h4, h3, h1⟩

theorem two_le_cardinal_add {cs : List Script} (h : WF (add cs)) (hp : Plain (add cs)) : 2 ≤ (add cs).cardinal := by
  have : (add cs).paradigm = true := by
    rw [paradigm_add h]
    rcases cs with _ | ⟨c, _ | ⟨d, ds⟩⟩
    · cases h; contradiction
    · exact absurd rfl (hp c)
    · simp
  have := (paradigm_iff h).1 this
  omega

theorem canonical_singular {s : Script} (h : WF s) (hp : Plain s) (hc : s.cardinal = 1) :
    s.canonical.length = 3 ^ s.layer ∧ (∀ b ∈ s.canonical, 1 ≤ b) ∧
      (s.empty = false → ∃ b ∈ s.canonical, b ≠ 1) := by
  induction h with
  | null => simp [canonical, layer, empty]
  | @prim p => cases p <;> simp [canonical, layer, Prim.value]
  | @mult s a m h1 h2 h3 h4 h5 h6 h7 h8 h9 h10 ih1 ih2 ih3 =>
    have hw : WF (mult s a m) := .mult h1 h2 h3 h4 h5 h6 h7 h8 h9 h10
    rw [cardinal_mult hw] at hc
    obtain ⟨c1, c2, c3⟩ := mult_eq_one hc
    obtain ⟨a1, a2, a3⟩ := ih1 h7.1 c1
    obtain ⟨b1, b2, b3⟩ := ih2 h8.1 c2
    obtain ⟨d1, d2, d3⟩ := ih3 h9.1 c3
    rw [canonical]
    refine ⟨?_, ?_, ?_⟩
    · simp only [List.length_append, a1, b1, d1, h4, h5, layer]; rw [Nat.pow_succ]; omega
    · intro b hb
      simp only [List.mem_append] at hb
      rcases hb with (hb | hb) | hb
      · exact a2 b hb
      · exact b2 b hb
      · exact d2 b hb
    · intro he
      rw [empty_mult_wf hw] at he
      simp only [List.mem_append]
      cases e1 : s.empty
      · obtain ⟨b, hb, hb'⟩ := a3 e1; exact ⟨b, .inl (.inl hb), hb'⟩
      · cases e2 : a.empty
        · obtain ⟨b, hb, hb'⟩ := b3 e2; exact ⟨b, .inl (.inr hb), hb'⟩
        · cases e3 : m.empty
          · obtain ⟨b, hb, hb'⟩ := d3 e3; exact ⟨b, .inr hb, hb'⟩
          · simp [e1, e2, e3] at he
  | @add cs h1 h2 h3 h4 h5 h6 h7 ih =>
    have := two_le_cardinal_add (.add h1 h2 h3 h4 h5 h6 h7) hp
    omega

theorem canonical_gt {s : Script} (h : WF s) (hp : Plain s) (hc : s.cardinal = 1) (he : s.empty = false) :
    ltBytes (List.replicate (3 ^ s.layer) 1) s.canonical = true := by
  obtain ⟨h1, h2, h3⟩ := canonical_singular h hp hc
  refine ltBytes_replicate_one h1 h2 ?_
  intro he'
  obtain ⟨b, hb, hb'⟩ := h3 he
  rw [he'] at hb
  exact hb' (List.eq_of_mem_replicate hb)

/-! ### `<` is the order of the codes -/

/-- What `<` compares when the scalar attributes agree. -/
def tie : Script → Script → Bool
  | mult s a m, mult s' a' m' =>
    if !(s'.pyEq s) then lt s s' else if !(a'.pyEq a) then lt a a' else if !(m'.pyEq m) then lt m m' else true
  | mult .., _ => true
  | add cs, add cs' => ltL cs cs'
  | add _, _ => false
  | x, _ => x.isMult

theorem lt_eq (x y : Script) : lt x y = ltStages x y (tie x y) := by
  cases x <;> cases y <;> simp [lt, tie]

theorem head_lt {x y : Script} {r r' : List Nat} : ltBytes (head x r) (head y r') =
    if x.layer ≠ y.layer then decide (x.layer < y.layer)
    else if x.empty ≠ y.empty then x.empty
    else if x.cardinal ≠ y.cardinal then decide (x.cardinal < y.cardinal)
    else if x.canonical ≠ y.canonical then ltBytes x.canonical y.canonical
    else if x.isAdd ≠ y.isAdd then y.isAdd
    else ltBytes r r' := by
  simp only [head, ltBytes, Nat.add_right_cancel_iff, ltBytes_mapSucc_zero]
  by_cases h1 : x.layer = y.layer
  · simp only [h1, if_true, ne_eq, not_true, if_false]
    cases hx : x.empty <;> cases hy : y.empty <;> simp
    all_goals
      by_cases h2 : x.cardinal = y.cardinal <;> simp [h2]
      by_cases h3 : x.canonical = y.canonical <;> simp [h3]
      cases ax : x.isAdd <;> cases ay : y.isAdd <;> simp
  · simp [h1]

theorem ltL_KL : ∀ {xs ys : List Script},
    (∀ x ∈ xs, ∀ y ∈ ys, (K x = K y ↔ x.str = y.str) ∧ (lt x y = ltBytes (K x) (K y))) →
    xs.map str ≠ ys.map str → ltL xs ys = ltBytes (KL xs) (KL ys)
  | [], [], _, h => absurd rfl h
  | [], y :: ys, _, _ => by simp [ltL, KL, K_eq, head, ltBytes]
  | x :: xs, [], _, _ => by simp [ltL, KL, K_eq, head, ltBytes]
  | x :: xs, y :: ys, hx, h => by
    obtain ⟨h1, h2⟩ := hx x (by simp) y (by simp)
    simp only [ltL, KL]
    rw [ltBytes_append _ _ (fun u v h' => (pf x y u v h').1), pyEq]
    by_cases hs : x.str = y.str
    · have hs' : (y.str == x.str) = true := by rw [hs]; simp
      rw [if_pos (h1.2 hs), hs']
      simp only [Bool.not_true, Bool.false_eq_true, if_false]
      refine ltL_KL (fun a ha b hb => hx a (List.mem_cons_of_mem _ ha) b (List.mem_cons_of_mem _ hb)) ?_
      intro h'; exact h (by simp [hs, h'])
    · have hs' : (y.str == x.str) = false := by simpa using Ne.symm hs
      rw [if_neg (fun hk => hs (h1.1 hk)), hs', h2]
      simp

theorem tie_K {x y : Script} (hx : WF x) (px : Plain x) (hy : WF y) (py : Plain y)
    (ih : ∀ c ∈ x.kids, ∀ d, WF d → Plain d → lt c d = ltBytes (K c) (K d))
    (hs : x.str ≠ y.str) (ha : x.isAdd = y.isAdd) (he : x.empty = false) (he' : y.empty = false)
    (hl : x.layer = y.layer) (h0 : x.layer ≠ 0) (hc : x.canonical = y.canonical) :
    tie x y = ltBytes (KL x.kids) (KL y.kids) := by
  have hkk : x.kids.map str ≠ y.kids.map str := fun h => hs (str_of_kids hx px hy py hl (by rw [he, he']) hc ha h)
  have hh : ∀ c ∈ x.kids, ∀ d ∈ y.kids, (K c = K d ↔ c.str = d.str) ∧ (lt c d = ltBytes (K c) (K d)) := by
    intro c hc d hd
    have w1 := kids_wf hx c hc
    have w2 := kids_wf hy d hd
    exact ⟨K_iff w1.1 w1.2 w2.1 w2.2, ih c hc d w2.1 w2.2⟩
  rw [← ltL_KL hh hkk]
  cases x with
  | null => simp [empty] at he
  | prim => simp [layer] at h0
  | mult s a m =>
    cases y with
    | null => simp [empty] at he'
    | prim => simp [layer] at hl
    | add => simp [isAdd] at ha
    | mult s' a' m' =>
      rw [kids, kids, he, he']
      simp [tie, ltL]
  | add cs =>
    cases y with
    | null => simp [empty] at he'
    | prim => simp [isAdd] at ha
    | mult => simp [isAdd] at ha
    | add cs' =>
      have h0' : (add cs').layer ≠ 0 := by omega
      rw [kids, kids, if_neg h0, if_neg h0']
      simp [tie]

theorem tie_tag {x y : Script} (ha : x.isAdd ≠ y.isAdd) (hn : x.isNull = false) : tie x y = y.isAdd := by
  cases x <;> cases y <;> simp_all [isAdd, tie, isNull, isMult]

theorem lt_K_step {x y : Script} (hx : WF x) (px : Plain x) (hy : WF y) (py : Plain y)
    (ih : ∀ c ∈ x.kids, ∀ d, WF d → Plain d → lt c d = ltBytes (K c) (K d)) :
    lt x y = ltBytes (K x) (K y) := by
  by_cases hs : x.str = y.str
  · rw [lt_eq, ltStages, pyEq, K_of_str hx px hy py hs, ltBytes_irrefl]
    simp [hs]
  · rw [lt_eq, ltStages, pyEq, K_eq x, K_eq y, head_lt]
    have hs' : (x.str == y.str) = false := by simpa using hs
    rw [hs']
    simp only [Bool.false_eq_true, if_false]
    by_cases hl : x.layer = y.layer
    · simp only [hl, ne_eq, not_true, if_false]
      -- both empty is impossible
      have hne : ¬ (x.empty = true ∧ y.empty = true) := by
        rintro ⟨h1, h2⟩
        exact hs (by rw [empty_str hx (empty_plain hx px h1) h1, empty_str hy (empty_plain hy py h2) h2, hl])
      by_cases nx : x.isNull = true
      · have ex : x.empty = true := by cases x <;> simp [isNull] at nx; simp [empty]
        have ey : y.empty = false := by cases h : y.empty <;> simp_all
        simp [nx, ex, ey]
      · have nx : x.isNull = false := by simpa using nx
        by_cases ny : y.isNull = true
        · have ey : y.empty = true := by cases y <;> simp [isNull] at ny; simp [empty]
          have ex : x.empty = false := by cases h : x.empty <;> simp_all
          simp [nx, ny, ex, ey]
        · have ny : y.isNull = false := by simpa using ny
          simp only [nx, ny, Bool.false_eq_true, if_false]
          have card1 : ∀ {z : Script}, WF z → Plain z → z.empty = true → z.cardinal = 1 := by
            intro z hz pz ez
            have hn := norm_isNull hz
            rw [ez] at hn
            rw [← cardinal_norm hz]
            cases hzn : z.norm <;> simp [hzn, isNull] at hn
            simp [cardinal]
          cases ex : x.empty
          · cases ey : y.empty
            · -- both non-empty
              simp only [not_true, if_false]
              by_cases hc : x.cardinal = y.cardinal
              · simp only [hc, not_true, if_false]
                by_cases hk : x.canonical = y.canonical
                · simp only [hk, not_true, if_false]
                  by_cases h0 : x.layer = 0
                  · exact absurd (canonical0_inj hx hy h0 (by omega) hk) hs
                  · have h0' : y.layer ≠ 0 := by omega
                    simp only [h0', not_false_eq_true, if_true]
                    by_cases ha : x.isAdd = y.isAdd
                    · simp only [ha, not_true, if_false]
                      exact tie_K hx px hy py ih hs ha ex ey hl h0 hk
                    · simp only [ha, not_false_eq_true, if_true]
                      exact tie_tag ha nx
                · simp [hk]
              · simp [hc]
            · -- x non-empty, y empty
              simp only [Bool.false_eq_true, not_false_eq_true, if_true]
              have cy := card1 hy py ey
              have cx := cardinal_pos hx
              rw [cy]
              by_cases hc : x.cardinal = 1
              · have hgt := canonical_gt hx px hc ex
                rw [hl, ← canonical_empty hy (empty_plain hy py ey) ey] at hgt
                have hk : x.canonical ≠ y.canonical := by
                  intro h; rw [h, ltBytes_irrefl] at hgt; cases hgt
                simp only [hc, not_true, if_false, hk, not_false_eq_true, if_true]
                cases hb : ltBytes x.canonical y.canonical
                · rfl
                · have := ltBytes_trans hb hgt
                  rw [ltBytes_irrefl] at this; cases this
              · simp only [hc, not_false_eq_true, if_true]
                simp; omega
          · have ey : y.empty = false := by cases h : y.empty <;> simp_all
            simp only [ey, Bool.true_eq_false, not_false_eq_true, if_true]
            have cx := card1 hx px ex
            have cy := cardinal_pos hy
            rw [cx]
            by_cases hc : 1 = y.cardinal
            · have hgt := canonical_gt hy py hc.symm ey
              rw [← hl, ← canonical_empty hx (empty_plain hx px ex) ex] at hgt
              have hk : x.canonical ≠ y.canonical := by
                intro h; rw [h, ltBytes_irrefl] at hgt; cases hgt
              simp only [← hc, not_true, if_false, hk, not_false_eq_true, if_true, hgt]
            · simp only [hc, not_false_eq_true, if_true]
              simp; omega
    · simp [hl]

theorem lt_K {x : Script} : ∀ {y : Script}, WF x → Plain x → WF y → Plain y → lt x y = ltBytes (K x) (K y) := by
  have main : ∀ {x : Script}, (∀ c ∈ x.kids, ∀ {y : Script}, WF c → Plain c → WF y → Plain y → lt c y = ltBytes (K c) (K y)) →
      ∀ {y : Script}, WF x → Plain x → WF y → Plain y → lt x y = ltBytes (K x) (K y) := by
    intro x ih y hx px hy py
    exact lt_K_step hx px hy py fun c hc d hd pd => ih c hc (kids_wf hx c hc).1 (kids_wf hx c hc).2 hd pd
  induction x using ind with
  | hn l => exact main (by simp [kids])
  | hp p => exact main (by simp [kids])
  | hm s a m h1 h2 h3 =>
    refine fun {_} => main ?_
    simp only [kids]
    split
    · simp
    · intro c hc
      simp only [List.mem_cons, List.not_mem_nil, or_false] at hc
      rcases hc with rfl | rfl | rfl <;> assumption
  | ha cs ih =>
    refine fun {_} => main ?_
    simp only [kids]
    split
    · simp
    · exact fun c hc => ih c hc

theorem lt_irrefl (x : Script) : lt x x = false := by
  rw [lt_eq, ltStages, pyEq]; simp

theorem lt_of_str {x y : Script} (h : x.str = y.str) : lt x y = false := by
  rw [lt_eq, ltStages, pyEq]; simp [h]

theorem lt_trans {x y z : Script} (hx : WF x) (px : Plain x) (hy : WF y) (py : Plain y) (hz : WF z) (pz : Plain z)
    (h1 : lt x y = true) (h2 : lt y z = true) : lt x z = true := by
  rw [lt_K hx px hy py] at h1
  rw [lt_K hy py hz pz] at h2
  rw [lt_K hx px hz pz]
  exact ltBytes_trans h1 h2

theorem lt_total {x y : Script} (hx : WF x) (px : Plain x) (hy : WF y) (py : Plain y) (h : x.str ≠ y.str) :
    lt x y = true ∨ lt y x = true := by
  rw [lt_K hx px hy py, lt_K hy py hx px]
  exact ltBytes_total fun hk => h (str_of_K hx px hy py hk)

theorem lt_asymm {x y : Script} (hx : WF x) (px : Plain x) (hy : WF y) (py : Plain y) (h : lt x y = true) :
    lt y x = false := by
  cases h' : lt y x
  · rfl
  · have := lt_trans hx px hy py hx px h h'
    rw [lt_irrefl] at this; cases this

theorem lt_congr {x x' y y' : Script} (hx : WF x) (px : Plain x) (hx' : WF x') (px' : Plain x') (hy : WF y) (py : Plain y)
    (hy' : WF y') (py' : Plain y') (h1 : x.str = x'.str) (h2 : y.str = y'.str) : lt x y = lt x' y' := by
  rw [lt_K hx px hy py, lt_K hx' px' hy' py', K_of_str hx px hx' px' h1, K_of_str hy py hy' py' h2]

end Script
end Verif
