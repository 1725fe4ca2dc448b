import Verif.Spec.Encoding
import Verif.Lemmas.Sums
import Verif.Lemmas.Objective2
/-
Composition lemmas for encodings.
-/
namespace RustSat

theorem ClauseSet.sat_congr_vars {a b : Asg} {f : ClauseSet} (h : ∀ c ∈ f, ∀ l ∈ c, a l.var = b l.var) :
    ClauseSet.sat a f ↔ ClauseSet.sat b f := by
  constructor
  · intro hs c hc; exact (Objective.clause_sat_congr (h c hc)).1 (hs c hc)
  · intro hs c hc; exact (Objective.clause_sat_congr (h c hc)).2 (hs c hc)

theorem countTrue_congr_vars {a b : Asg} {ls : List Lit} (h : ∀ l ∈ ls, a l.var = b l.var) :
    countTrue a ls = countTrue b ls :=
  countTrue_eq_of_holds fun l hl => Lit.holds_congr (h l hl)

namespace Encodes

/-- Clauses without auxiliary variables. -/
theorem static {V : Nat → Prop} {n : Nat} {cls : ClauseSet} (h : ∀ c ∈ cls, ∀ l ∈ c, V l.var) :
    Encodes V n n cls (fun a => ClauseSet.sat a cls) where
  le := Nat.le_refl _
  vars c hc l hl := .inl (h c hc l hl)
  sound _ h := h
  complete a h := ⟨a, fun _ _ => rfl, h⟩

/-- Two encodings one after the other. -/
theorem append {V : Nat → Prop} {n n1 n2 : Nat} {c1 c2 : ClauseSet} {P1 P2 : Asg → Prop}
    (h1 : Encodes V n n1 c1 P1) (h2 : Encodes V n1 n2 c2 P2) (hV : ∀ v, V v → v < n)
    (hP : ∀ a b : Asg, (∀ v, V v → a v = b v) → P2 a → P2 b) :
    Encodes V n n2 (c1 ++ c2) (fun a => P1 a ∧ P2 a) where
  le := Nat.le_trans h1.le h2.le
  vars c hc l hl := by
    have := h1.le
    have := h2.le
    rcases List.mem_append.1 hc with hc | hc
    · rcases h1.vars c hc l hl with h | h
      · exact .inl h
      · exact .inr (by omega)
    · rcases h2.vars c hc l hl with h | h
      · exact .inl h
      · exact .inr (by omega)
  sound b hb := by
    rw [ClauseSet.sat_append] at hb
    exact ⟨h1.sound b hb.1, h2.sound b hb.2⟩
  complete a ha := by
    have e1 := h1.le
    have e2 := h2.le
    obtain ⟨b1, g1, g2⟩ := h1.complete a ha.1
    obtain ⟨b2, g3, g4⟩ := h2.complete b1 (hP a b1 (fun v hv => (g1 v (.inl (hV v hv))).symm) ha.2)
    refine ⟨b2, fun v hv => ?_, ?_⟩
    · rw [g3 v (by omega), g1 v (by omega)]
    · rw [ClauseSet.sat_append]
      refine ⟨?_, g4⟩
      rw [ClauseSet.sat_congr_vars (b := b1)]
      · exact g2
      · intro c hc l hl
        rcases h1.vars c hc l hl with h | h
        · exact g3 _ (.inl (by have := hV _ h; omega))
        · exact g3 _ (.inl h.2)

/-- The first variables are auxiliary variables as well. -/
theorem aux {V V' : Nat → Prop} {n n1 n2 : Nat} {cls : ClauseSet} {P P' : Asg → Prop}
    (h : Encodes V' n1 n2 cls P') (hle : n ≤ n1) (hV : ∀ v, V' v → V v ∨ (n ≤ v ∧ v < n1))
    (hs : ∀ b, P' b → P b)
    (hc : ∀ a, P a → ∃ b, (∀ v, v < n ∨ n1 ≤ v → b v = a v) ∧ P' b) : Encodes V n n2 cls P where
  le := Nat.le_trans hle h.le
  vars c hc l hl := by
    have := h.le
    rcases h.vars c hc l hl with h | h
    · rcases hV _ h with h | h
      · exact .inl h
      · exact .inr (by omega)
    · exact .inr (by omega)
  sound b hb := hs b (h.sound b hb)
  complete a ha := by
    have := h.le
    obtain ⟨b, h1, h2⟩ := hc a ha
    obtain ⟨b', h3, h4⟩ := h.complete b h2
    exact ⟨b', fun v hv => by rw [h3 v (by omega), h1 v (by omega)], h4⟩

theorem congr {V : Nat → Prop} {n n' : Nat} {cls : ClauseSet} {P P' : Asg → Prop} (h : Encodes V n n' cls P)
    (hP : ∀ a, P a ↔ P' a) : Encodes V n n' cls P' where
  le := h.le
  vars := h.vars
  sound b hb := (hP b).1 (h.sound b hb)
  complete a ha := h.complete a ((hP a).2 ha)

theorem weaken {V V' : Nat → Prop} {n n' : Nat} {cls : ClauseSet} {P : Asg → Prop} (h : Encodes V n n' cls P)
    (hV : ∀ v, V v → V' v) : Encodes V' n n' cls P where
  le := h.le
  vars c hc l hl := (h.vars c hc l hl).imp (hV _) id
  sound := h.sound
  complete := h.complete

end Encodes
end RustSat
