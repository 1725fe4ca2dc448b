import Verif.Spec.Sem

namespace RustSat

theorem and_one_eq_mod (n : Nat) : n &&& 1 = n % 2 := Nat.and_one_is_mod n

set_option linter.unusedSimpArgs false in
theorem xor_one (n : Nat) : n ^^^ 1 = if n % 2 = 0 then n + 1 else n - 1 := by
  apply Nat.eq_of_testBit_eq
  intro i
  split
  case isTrue h =>
    obtain ⟨k, rfl⟩ : ∃ k, n = 2 * k := ⟨n / 2, by omega⟩
    cases i with
    | zero => rw [Nat.testBit_xor]; simp [Nat.testBit_zero]
    | succ i =>
      rw [Nat.testBit_xor]; simp only [Nat.testBit_succ]
      have h1 : (2 * k + 1) / 2 = k := by omega
      simp [h1]
  case isFalse h =>
    obtain ⟨k, rfl⟩ : ∃ k, n = 2 * k + 1 := ⟨n / 2, by omega⟩
    cases i with
    | zero => rw [Nat.testBit_xor]; simp [Nat.testBit_zero]
    | succ i =>
      rw [Nat.testBit_xor]; simp only [Nat.testBit_succ]
      have h1 : (2 * k + 1) / 2 = k := by omega
      simp [h1]

namespace Lit

theorem ext_iff' (a b : Lit) : a = b ↔ a.lidx = b.lidx := by
  cases a; cases b; simp

@[simp] theorem lidx_mk' (i : Nat) (b : Bool) : (mk' i b).lidx = 2 * i + (if b then 1 else 0) := by
  simp [mk', represent, Nat.shiftLeft_eq]; omega

theorem var_eq (l : Lit) : l.var = l.lidx / 2 := by simp [var, Nat.shiftRight_eq_div_pow]

theorem isNeg_eq (l : Lit) : l.isNeg = decide (l.lidx % 2 = 1) := by
  simp only [isNeg, and_one_eq_mod]; rfl

theorem isPos_eq (l : Lit) : l.isPos = !l.isNeg := by
  simp only [isPos, isNeg, and_one_eq_mod]
  have : l.lidx % 2 = 0 ∨ l.lidx % 2 = 1 := by omega
  rcases this with h | h <;> simp [h]

@[simp] theorem var_mk' (i : Nat) (b : Bool) : (mk' i b).var = i := by
  rw [var_eq, lidx_mk']; cases b <;> simp <;> omega

@[simp] theorem isNeg_mk' (i : Nat) (b : Bool) : (mk' i b).isNeg = b := by
  rw [isNeg_eq, lidx_mk']; cases b <;> simp

@[simp] theorem mk'_var_isNeg (l : Lit) : mk' l.var l.isNeg = l := by
  rw [ext_iff', lidx_mk', var_eq, isNeg_eq]
  by_cases h : l.lidx % 2 = 1 <;> simp [h] <;> omega

theorem ext_var {a b : Lit} (h1 : a.var = b.var) (h2 : a.isNeg = b.isNeg) : a = b := by
  rw [← mk'_var_isNeg a, ← mk'_var_isNeg b, h1, h2]

@[simp] theorem var_pos (v : Nat) : (pos v).var = v := by simp [pos]
@[simp] theorem isNeg_pos (v : Nat) : (pos v).isNeg = false := by simp [pos]
@[simp] theorem var_negOf (v : Nat) : (negOf v).var = v := by simp [negOf]
@[simp] theorem isNeg_negOf (v : Nat) : (negOf v).isNeg = true := by simp [negOf]

theorem lidx_neg (l : Lit) : l.neg.lidx = if l.lidx % 2 = 0 then l.lidx + 1 else l.lidx - 1 := by
  simp [neg, xor_one]

@[simp] theorem var_neg (l : Lit) : l.neg.var = l.var := by
  rw [var_eq, var_eq, lidx_neg]; split <;> omega

@[simp] theorem isNeg_neg (l : Lit) : l.neg.isNeg = !l.isNeg := by
  rw [isNeg_eq, isNeg_eq, lidx_neg]
  by_cases h : l.lidx % 2 = 0
  · rw [if_pos h]
    have h1 : (l.lidx + 1) % 2 = 1 := by omega
    have h2 : ¬ l.lidx % 2 = 1 := by omega
    rw [decide_eq_true h1, decide_eq_false h2]; rfl
  · rw [if_neg h]
    have h1 : ¬ (l.lidx - 1) % 2 = 1 := by omega
    have h2 : l.lidx % 2 = 1 := by omega
    rw [decide_eq_false h1, decide_eq_true h2]; rfl

@[simp] theorem neg_neg (l : Lit) : l.neg.neg = l := by
  apply ext_var <;> simp

theorem neg_ne (l : Lit) : l.neg ≠ l := by
  intro h
  have := congrArg isNeg h
  simp at this

theorem neg_inj {a b : Lit} (h : a.neg = b.neg) : a = b := by
  rw [← neg_neg a, ← neg_neg b, h]

@[simp] theorem neg_pos (v : Nat) : (pos v).neg = negOf v := by
  apply ext_var <;> simp

@[simp] theorem neg_negOf (v : Nat) : (negOf v).neg = pos v := by
  apply ext_var <;> simp

theorem eq_or_eq_neg_of_var {a b : Lit} (h : a.var = b.var) : a = b ∨ a = b.neg := by
  by_cases hs : a.isNeg = b.isNeg
  · exact Or.inl (ext_var h hs)
  · right; apply ext_var <;> simp [h]
    revert hs; cases a.isNeg <;> cases b.isNeg <;> simp

@[simp] theorem holds_neg (a : Asg) (l : Lit) : l.neg.holds a = !(l.holds a) := by
  simp [holds]; cases l.isNeg <;> simp

@[simp] theorem holds_pos (a : Asg) (v : Nat) : (pos v).holds a = a v := by simp [holds]
@[simp] theorem holds_negOf (a : Asg) (v : Nat) : (negOf v).holds a = !(a v) := by simp [holds]

theorem holds_congr {a b : Asg} {l : Lit} (h : a l.var = b l.var) : l.holds a = l.holds b := by
  simp [holds, h]

end Lit
end RustSat
