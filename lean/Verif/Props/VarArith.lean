import Verif.Model.VarArith
import Verif.Lemmas.Lit
/-
C106: arithmetic on variables and literals.
-/
namespace RustSat

/-- **C106.** In a build with checks, adding to a variable or a literal gives the variable with the index
increased, with the sign of the literal kept, if there is such a variable, and panics otherwise. -/
theorem C106_add (v n : Nat) (neg : Bool) (hv : v ≤ maxVarIdx) :
    (v + n ≤ maxVarIdx → Var.plus .debug v n = .ok (v + n) ∧ (Lit.mk' v neg).plus .debug n = .ok (Lit.mk' (v + n) neg)) ∧
    (maxVarIdx < v + n → Var.plus .debug v n = .panic ∧ (Lit.mk' v neg).plus .debug n = .panic) := by
  have hU : u32Max = 4294967295 := rfl
  have hM : maxVarIdx = 2147483647 := rfl
  have e : ∀ v, (Lit.mk' v neg).lidx = 2 * v + (if neg then 1 else 0) := fun v => by
    simp [Lit.mk', Lit.represent, Nat.shiftLeft_eq]; omega
  have hb : (if neg then 1 else 0) ≤ 1 := by split <;> omega
  constructor
  · intro h
    constructor
    · simp only [Var.plus, Build.add]
      rw [if_pos (by omega)]; simp; omega
    · simp only [Lit.plus, Build.add, Build.twice]
      rw [if_pos (by omega)]
      simp only [e]
      rw [if_pos (by omega)]
      simp only [Res.ok.injEq]
      rw [Lit.mk.injEq, show (Lit.mk' (v + n) neg).lidx = _ from e _]; omega
  · intro h
    constructor
    · simp only [Var.plus, Build.add]
      by_cases h2 : v + n ≤ u32Max
      · rw [if_pos h2]; simp; omega
      · rw [if_neg h2]
    · simp only [Lit.plus, Build.add, Build.twice]
      by_cases h2 : 2 * n ≤ u32Max
      · rw [if_pos h2]
        simp only [e]
        rw [if_neg (by omega)]
      · rw [if_neg h2]

/-- **C106.** In a build with checks, subtracting gives the variable with the index decreased, with the sign of
the literal kept, and panics if there is none. -/
theorem C106_sub (v n : Nat) (neg : Bool) (hv : v ≤ maxVarIdx) :
    (n ≤ v → Var.minus .debug v n = .ok (v - n) ∧ (Lit.mk' v neg).minus .debug n = .ok (Lit.mk' (v - n) neg)) ∧
    (v < n → Var.minus .debug v n = .panic ∧ (Lit.mk' v neg).minus .debug n = .panic) := by
  have hU : u32Max = 4294967295 := rfl
  have hM : maxVarIdx = 2147483647 := rfl
  have e : ∀ v, (Lit.mk' v neg).lidx = 2 * v + (if neg then 1 else 0) := fun v => by
    simp [Lit.mk', Lit.represent, Nat.shiftLeft_eq]; omega
  have hb : (if neg then 1 else 0) ≤ 1 := by split <;> omega
  constructor
  · intro h
    constructor
    · simp only [Var.minus, Build.sub]; rw [if_pos h]
    · simp only [Lit.minus, Build.sub, Build.twice]
      rw [if_pos (by omega)]
      simp only [e]
      rw [if_pos (by omega)]
      simp only [Res.ok.injEq]
      rw [Lit.mk.injEq, show (Lit.mk' (v - n) neg).lidx = _ from e _]; omega
  · intro h
    constructor
    · simp only [Var.minus, Build.sub]; rw [if_neg (by omega)]
    · simp only [Lit.minus, Build.sub, Build.twice]
      by_cases h2 : 2 * n ≤ u32Max
      · rw [if_pos h2]
        simp only [e]
        rw [if_neg (by omega)]
      · rw [if_neg h2]

/-- **C106**, for results that exist: a release build gives the same results as a build with checks. For others
it does not panic and the result is wrong, see `C106_violated_release`. -/
theorem C106_release_partial (v n : Nat) (l : Lit) :
    (∀ w, Var.plus .debug v n = .ok w → Var.plus .release v n = .ok w) ∧
    (∀ w, Var.minus .debug v n = .ok w → Var.minus .release v n = .ok w) ∧
    (∀ m, l.plus .debug n = .ok m → l.plus .release n = .ok m) ∧
    (∀ m, l.minus .debug n = .ok m → l.minus .release n = .ok m) := by
  refine ⟨fun w h => ?_, fun w h => ?_, fun m h => ?_, fun m h => ?_⟩
  · simp only [Var.plus, Build.add] at h ⊢
    by_cases h1 : v + n ≤ u32Max
    · rw [if_pos h1] at h ⊢
      simp only at h ⊢
      split at h
      · cases h
      · simpa using h
    · rw [if_neg h1] at h; cases h
  · simp only [Var.minus, Build.sub] at h ⊢
    by_cases h1 : n ≤ v
    · rw [if_pos h1] at h ⊢; exact h
    · rw [if_neg h1] at h; cases h
  · simp only [Lit.plus, Build.add, Build.twice] at h ⊢
    by_cases h1 : 2 * n ≤ u32Max
    · rw [if_pos h1] at h ⊢
      simp only at h ⊢
      by_cases h2 : l.lidx + 2 * n ≤ u32Max
      · rw [if_pos h2] at h ⊢; exact h
      · rw [if_neg h2] at h; cases h
    · rw [if_neg h1] at h; cases h
  · simp only [Lit.minus, Build.sub, Build.twice] at h ⊢
    by_cases h1 : 2 * n ≤ u32Max
    · rw [if_pos h1] at h ⊢
      simp only at h ⊢
      by_cases h2 : 2 * n ≤ l.lidx
      · rw [if_pos h2] at h ⊢; exact h
      · rw [if_neg h2] at h; cases h
    · rw [if_neg h1] at h; cases h

/-- **C106.** Adding to a literal keeps its sign and stays a literal in every build, and subtracting the same
number gives the literal back. -/
theorem C106_inverse (b : Build) (l m : Lit) (n : Nat) (hl : l.Valid) (hn : n ≤ u32Max) (h : l.plus b n = .ok m) :
    m.Valid ∧ m.isNeg = l.isNeg ∧ m.minus b n = .ok l := by
  obtain ⟨i⟩ := l
  obtain ⟨j⟩ := m
  have hU : u32Max = 4294967295 := rfl
  simp only [Lit.Valid, Lit.plus, Lit.minus, Build.add, Build.sub, Build.twice, Lit.isNeg,
    Nat.and_one_is_mod] at hl hn h ⊢
  by_cases h1 : 2 * n ≤ u32Max
  · rw [if_pos h1] at h ⊢
    simp only at h ⊢
    by_cases h2 : i + 2 * n ≤ u32Max
    · rw [if_pos h2] at h
      simp only [Res.ok.injEq, Lit.mk.injEq] at h
      subst h
      rw [if_pos (by omega)]
      refine ⟨h2, ?_, ?_⟩
      · rw [show (i + 2 * n) % 2 = i % 2 by omega]
      · rw [show i + 2 * n - 2 * n = i by omega]
    · rw [if_neg h2] at h
      cases b with
      | debug => cases h
      | release =>
        simp only [Res.ok.injEq, Lit.mk.injEq] at h
        subst h
        rw [if_neg (by simp only [hU] at h1 h2 hl ⊢; omega)]
        refine ⟨by simp only [hU]; omega, ?_, ?_⟩
        · rw [show (i + 2 * n) % (u32Max + 1) % 2 = i % 2 by simp only [hU]; omega]
        · simp only [Res.ok.injEq, Lit.mk.injEq, hU] at h1 h2 hl ⊢; omega
  · rw [if_neg h1] at h ⊢
    cases b with
    | debug => cases h
    | release =>
      simp only at h ⊢
      by_cases h2 : i + 2 * n % (u32Max + 1) ≤ u32Max
      · rw [if_pos h2] at h
        simp only [Res.ok.injEq, Lit.mk.injEq] at h
        subst h
        rw [if_pos (by simp only [hU]; omega)]
        refine ⟨h2, ?_, ?_⟩
        · rw [show (i + 2 * n % (u32Max + 1)) % 2 = i % 2 by simp only [hU]; omega]
        · simp only [Res.ok.injEq, Lit.mk.injEq, hU] at h1 h2 hl ⊢; omega
      · rw [if_neg h2] at h
        simp only [Res.ok.injEq, Lit.mk.injEq] at h
        subst h
        rw [if_neg (by simp only [hU] at h1 h2 hl ⊢; omega)]
        refine ⟨by simp only [hU]; omega, ?_, ?_⟩
        · rw [show (i + 2 * n % (u32Max + 1)) % (u32Max + 1) % 2 = i % 2 by simp only [hU]; omega]
        · simp only [Res.ok.injEq, Lit.mk.injEq, hU] at h1 h2 hl ⊢; omega

/-- Non-vacuity: at, below and beyond the largest variable. -/
example : Var.plus .debug 5 3 = .ok 8 ∧ (Lit.mk' 5 true).plus .debug 3 = .ok (Lit.mk' 8 true) ∧
    Var.plus .debug maxVarIdx 0 = .ok maxVarIdx ∧ Var.plus .debug maxVarIdx 1 = .panic ∧
    (Lit.mk' maxVarIdx true).plus .debug 1 = .panic ∧ (Lit.mk' 5 true).minus .debug 5 = .ok (Lit.mk' 0 true) ∧
    (Lit.mk' 5 true).minus .debug 6 = .panic := by decide
/-- Non-vacuity: wrapping in a release build. -/
example : (Lit.mk' 5 true).plus .release u32Max = .ok (Lit.mk' 4 true) ∧ (Lit.mk' 5 true).Valid := by decide

/-- C106 is violated in release builds: adding one to the largest variable gives an index that no variable has,
whose literal is the one of variable 0, while adding one to its literal gives a literal of variable 0. -/
theorem C106_violated_release :
    Var.plus .release maxVarIdx 1 = .ok (maxVarIdx + 1) ∧ Var.new (maxVarIdx + 1) = .panic ∧
    Var.posLit32 (maxVarIdx + 1) = Lit.pos 0 ∧ (Lit.pos maxVarIdx).plus .release 1 = .ok (Lit.pos 0) ∧
    Var.minus .release 0 1 = .ok u32Max ∧ Var.new u32Max = .panic := by decide

end RustSat
