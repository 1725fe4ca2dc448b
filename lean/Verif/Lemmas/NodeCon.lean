import Verif.Model.NodeDb
import Mathlib.Tactic.Ring
import Mathlib.Tactic.Linarith
/-
Arithmetic of node connections.
-/
namespace RustSat
namespace TotDb

/-- What the non-zero types in `NodeCon` guarantee. -/
structure NodeCon.WF (c : NodeCon) : Prop where
  div : 0 < c.divisor
  mult : 0 < c.multiplier
  limit : ∀ k, c.lenLimit = some k → 0 < k

namespace NodeCon

/-- The number of steps of a value, limited. -/
def steps (c : NodeCon) (v : Nat) : Nat :=
  match c.lenLimit with
  | some k => min ((v - c.offset) / c.divisor) k
  | none => (v - c.offset) / c.divisor

theorem map_eq (c : NodeCon) (v : Nat) : c.map v = c.steps v * c.multiplier := by
  unfold map steps
  by_cases h : v ≤ c.offset
  · have : v - c.offset = 0 := by omega
    rw [if_pos h, this]
    cases c.lenLimit <;> simp
  · rw [if_neg h]
    cases c.lenLimit <;> rfl

theorem steps_mono (c : NodeCon) {v w : Nat} (h : v ≤ w) : c.steps v ≤ c.steps w := by
  unfold steps
  have : (v - c.offset) / c.divisor ≤ (w - c.offset) / c.divisor := Nat.div_le_div_right (by omega)
  cases c.lenLimit with
  | none => exact this
  | some k => simp only; omega

theorem map_mono (c : NodeCon) {v w : Nat} (h : v ≤ w) : c.map v ≤ c.map w := by
  rw [map_eq, map_eq]; exact Nat.mul_le_mul_right _ (c.steps_mono h)

theorem steps_zero (c : NodeCon) : c.steps 0 = 0 := by
  unfold steps; cases c.lenLimit <;> simp

theorem map_zero (c : NodeCon) : c.map 0 = 0 := by rw [map_eq, steps_zero]; simp

/-- The rounded up quotient. -/
theorem div_up {k m : Nat} (hm : 0 < m) :
    (if k % m ≠ 0 then k + m else k) / m = (k + m - 1) / m := by
  have hd := Nat.div_add_mod k m
  have hlt := Nat.mod_lt k hm
  by_cases h : k % m = 0
  · rw [if_neg (by simpa using h)]
    have : k + m - 1 = (m - 1) + m * (k / m) := by omega
    have h0 : (m - 1) / m = 0 := Nat.div_eq_of_lt (by omega)
    rw [this, Nat.add_mul_div_left _ _ hm, h0]
    omega
  · rw [if_pos h]
    have : k + m - 1 = (k % m - 1) + m * (k / m + 1) := by
      rw [Nat.mul_add]; omega
    have h0 : (k % m - 1) / m = 0 := Nat.div_eq_of_lt (by omega)
    rw [this, Nat.add_mul_div_left _ _ hm, h0, Nat.add_div_right _ hm]
    omega

theorem up_le_iff {k m s : Nat} (hm : 0 < m) : (k + m - 1) / m ≤ s ↔ k ≤ s * m := by
  rw [← Nat.lt_succ_iff, Nat.div_lt_iff_lt_mul hm, Nat.succ_mul]
  omega

theorem up_pos {k m : Nat} (hm : 0 < m) (hk : 0 < k) : 0 < (k + m - 1) / m := by
  apply Nat.div_pos (by omega) hm

theorem up_of_dvd {k m : Nat} (hm : 0 < m) (h : k % m = 0) : (k + m - 1) / m = k / m := by
  rw [← div_up hm, if_neg (by simpa using h)]

/-- `revMap` for a positive number of steps within the limit. -/
theorem revMap_eq {c : NodeCon} (hc : c.WF) {k : Nat} (hk : 0 < k / c.multiplier)
    (hlim : ∀ l, c.lenLimit = some l → k / c.multiplier ≤ l) :
    c.revMap k = k / c.multiplier * c.divisor + c.offset := by
  unfold revMap
  cases h : c.lenLimit with
  | none => rfl
  | some l =>
    simp only
    have := hlim l h
    rw [Nat.min_eq_left this]
    have hp : 0 < k / c.multiplier * c.divisor := Nat.mul_pos hk hc.div
    match hx : k / c.multiplier * c.divisor with
    | 0 => omega
    | x + 1 => rfl

theorem revMapRoundUp_eq {c : NodeCon} (hc : c.WF) {k : Nat} (hk : 0 < k)
    (hlim : ∀ l, c.lenLimit = some l → k ≤ l * c.multiplier) :
    c.revMapRoundUp k = (k + c.multiplier - 1) / c.multiplier * c.divisor + c.offset := by
  have hm := hc.mult
  have hr : c.revMap (if k % c.multiplier ≠ 0 then k + c.multiplier else k) =
      (k + c.multiplier - 1) / c.multiplier * c.divisor + c.offset := by
    rw [revMap_eq hc, div_up hm]
    · rw [div_up hm]; exact up_pos hm hk
    · intro l hl; rw [div_up hm]; exact (up_le_iff hm).2 (hlim l hl)
  unfold revMapRoundUp
  simp only [hr]
  cases h : c.lenLimit with
  | none => rfl
  | some l =>
    have := hlim l h
    simp only
    rw [if_neg]
    rw [Nat.not_le, Nat.div_lt_iff_lt_mul hm]
    omega

theorem le_steps_iff {c : NodeCon} (hc : c.WF) {s v : Nat} (hs : 0 < s)
    (hlim : ∀ l, c.lenLimit = some l → s ≤ l) : s ≤ c.steps v ↔ s * c.divisor + c.offset ≤ v := by
  have key : s ≤ (v - c.offset) / c.divisor ↔ s * c.divisor + c.offset ≤ v := by
    rw [Nat.le_div_iff_mul_le hc.div]
    have : 0 < s * c.divisor := Nat.mul_pos hs hc.div
    omega
  unfold steps
  cases h : c.lenLimit with
  | none => exact key
  | some l =>
    simp only
    rw [← key]
    have := hlim l h
    omega

theorem steps_le_limit {c : NodeCon} {l : Nat} (h : c.lenLimit = some l) (v : Nat) : c.steps v ≤ l := by
  unfold steps; rw [h]; simp only; omega

end NodeCon
end TotDb
end RustSat
