import Verif.Props.WordCheck
import Verif.Props.SyntagmaticFunction

/-
The role of a word made from one of the entries of a list is the address of one of its lexemes.
-/

namespace Verif
variable {α : Type}

/-- An address where indexes of junctions stand after junctions, also when a script is put before it. -/
def IndexedBelow (p : Addr) : Prop := Indexed p ∧ ∀ h, p.head? = some h → h ∉ junctionIndex

theorem IndexedBelow.nil : IndexedBelow [] := ⟨trivial, by simp⟩

theorem IndexedBelow.cons {a : Str} {p : Addr} (h : IndexedBelow p) (ha : a ∉ junctionIndex) : IndexedBelow (a :: p) := by
  refine ⟨?_, by simpa using ha⟩
  cases p with
  | nil => trivial
  | cons i p => exact ⟨fun hi => absurd hi (h.2 i rfl), h.1⟩

theorem IndexedBelow.child {link : Str} {i : Nat} {p : Addr} (h : IndexedBelow p) (hl : link ∈ junctionScripts) (hi : i < 12) :
    IndexedBelow (childPrefix link i ++ p) := by
  have hl' : ∀ a ∈ junctionScripts, a ∉ junctionIndex := by decide +kernel
  refine ⟨⟨fun _ => hl, ?_⟩, by simpa [childPrefix] using hl' link hl⟩
  show Indexed (_ :: p)
  cases p with
  | nil => trivial
  | cons j p => exact ⟨fun hj => absurd hj (h.2 j rfl), h.1⟩

theorem okI_indexed : ∀ {n : Nat} {f : SF α}, OkI n f → ∀ e ∈ f.actors, IndexedBelow e.1
  | n + 1, .indep x, _ => by
    intro e he
    rw [SF.actors, List.mem_singleton] at he
    subst he
    exact .nil
  | n + 1, .junction link cs, h => by
    intro e he
    rw [SF.actors, List.mem_cons] at he
    rcases he with rfl | he
    · exact .nil
    · obtain ⟨i, _, h2, c, hc, x, hx, rfl⟩ := mem_actorsL he
      exact (okI_indexed (h.2.2.2 c hc) x hx).child h.1 (by have := h.2.2.1; omega)

theorem okD_indexed : ∀ {n : Nat} {f : SF α}, OkD n f → ∀ e ∈ f.actors, IndexedBelow e.1
  | n + 1, .dep x d i, h => by
    intro e he
    rw [SF.actors, List.mem_cons, List.mem_append] at he
    rcases he with rfl | he | he
    · exact .nil
    · cases i with
      | none => simp [actorsO] at he
      | some g =>
        obtain ⟨y, hy, rfl⟩ := List.mem_map.1 he
        exact (okI_indexed (h.2 g rfl) y hy).cons (by decide +kernel)
    · cases d with
      | none => simp [actorsO] at he
      | some g =>
        obtain ⟨y, hy, rfl⟩ := List.mem_map.1 he
        exact (okD_indexed (h.1 g rfl) y hy).cons (by decide +kernel)
  | n + 1, .junction link cs, h => by
    intro e he
    rw [SF.actors, List.mem_cons] at he
    rcases he with rfl | he
    · exact .nil
    · obtain ⟨i, _, h2, c, hc, x, hx, rfl⟩ := mem_actorsL he
      exact (okD_indexed (h.2.2.2 c hc) x hx).child h.1 (by have := h.2.2.1; omega)

/-- In the addresses of a function read from a list the indexes stand after junctions. -/
theorem okFun_indexed {t : SType} {f : SFun α} (h : OkFun t f) {a : Addr} (ha : a ∈ f.addrs) : IndexedBelow (t.pre ++ a) := by
  cases t with
  | dependant =>
    cases f with
    | process => cases h
    | quality f =>
      obtain ⟨n, h⟩ := h
      obtain ⟨e, he, rfl⟩ := List.mem_map.1 ha
      exact (okD_indexed h e he).cons (by decide +kernel)
  | independant =>
    cases f with
    | process => cases h
    | quality f =>
      obtain ⟨n, h⟩ := h
      obtain ⟨e, he, rfl⟩ := List.mem_map.1 ha
      exact (okI_indexed h e he).cons (by decide +kernel)
  | process =>
    cases f with
    | quality f => cases h
    | process a' v acts =>
      obtain ⟨hv, n, _, h⟩ := h
      have h1 : ∀ a ∈ valenceScripts, a ∉ junctionIndex := by decide +kernel
      have h2 : ∀ a ∈ actantScripts, a ∉ junctionIndex := by decide +kernel
      rw [SFun.addrs, List.mem_cons] at ha
      rcases ha with rfl | ha
      · exact IndexedBelow.nil.cons (h1 v hv)
      · obtain ⟨e, he, rfl⟩ := List.mem_map.1 ha
        obtain ⟨g, hg, x, hx, rfl⟩ := mem_processActors he
        exact (okD_indexed (h g hg).2 x hx).cons (h2 _ (h g hg).1)

/-- The first scripts of the entries of a list that is accepted. -/
theorem fromList_prefixed {l : List (RoleEntry α)} {t : SType} {f : SFun α} (h : fromList l = .ok (t, f)) {e : RoleEntry α} (he : e ∈ l) :
    e.1 = t.pre ++ e.1.drop t.pre.length := by
  obtain ⟨_, ⟨rfl, _, _⟩ | ⟨rfl, m, g, rfl, _⟩ | ⟨rfl, m, g, rfl, _⟩⟩ := fromList_ok h
  · rfl
  · obtain ⟨x, _, rfl⟩ := List.mem_map.1 he
    rfl
  · obtain ⟨x, _, rfl⟩ := List.mem_map.1 he
    rfl

/-- The role of a word made from an entry of the list. -/
theorem mkWord_role {l : List (RoleEntry Lexeme)} {t : SType} {f : SFun Lexeme} {w : WordUsl} (h : fromList l = .ok (t, f)) {a : Addr} {x : Lexeme}
    (he : (a, some x) ∈ l) (hw : mkWord f a t = .ok w) : (w.role, some x) ∈ w.sfun.asList w.context := by
  obtain ⟨e1, e2, e3, h1⟩ := mkWord_parts hw
  have h2 := okFun_indexed (fromList_shape h) h1
  rw [← fromList_prefixed h he] at h2
  rw [e1, e2, e3]
  exact C61_kept h he h2.1

end Verif
