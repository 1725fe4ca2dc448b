import Verif.Lemmas.AdderShape
/-
The comparators of the binary adder.
-/
namespace RustSat
namespace Adder

/-- The truth value of an optional bit. -/
def obit (m : Asg) : Option Lit → Nat
  | none => 0
  | some l => if l.holds m then 1 else 0

/-- The number with the given bits, least significant bit first. -/
def cval (m : Asg) : List (Option Lit) → Nat
  | [] => 0
  | x :: xs => obit m x + 2 * cval m xs

theorem obit_le (m : Asg) (x : Option Lit) : obit m x ≤ 1 := by
  cases x with
  | none => simp [obit]
  | some l => cases h : l.holds m <;> simp [obit, h]

theorem testBit_eq (rhs i : Nat) : rhs.testBit i = decide (rhs / 2 ^ i % 2 = 1) := Nat.testBit_eq_decide_div_mod_eq

theorem div_pow_succ (rhs i : Nat) : rhs / 2 ^ (i + 1) = rhs / 2 ^ i / 2 := by
  rw [Nat.pow_succ, Nat.div_div_eq_div_mul]

theorem compRest_spec (m : Asg) (rhs : Nat) : ∀ (xs : List (Option Lit)) (j : Nat), rhs / 2 ^ j < 2 ^ xs.length →
    match compRest rhs j xs with
    | none => cval m xs ≠ rhs / 2 ^ j
    | some cl => Clause.sat m cl ↔ cval m xs ≠ rhs / 2 ^ j := by
  intro xs
  induction xs with
  | nil =>
    intro j h
    rw [List.length_nil, Nat.pow_zero] at h
    have : rhs / 2 ^ j = 0 := Nat.lt_one_iff.1 h
    simp [compRest, cval, this]
  | cons x xs ih =>
    intro j h
    rw [List.length_cons, Nat.pow_succ] at h
    have h1 := ih (j + 1) (by rw [div_pow_succ]; omega)
    rw [div_pow_succ] at h1
    simp only [compRest, cval, testBit_eq, decide_eq_true_eq]
    have hx := obit_le m x
    cases hc : compRest rhs (j + 1) xs with
    | none => rw [hc] at h1; simp only at h1 ⊢; omega
    | some cl =>
      rw [hc] at h1
      simp only at h1 ⊢
      by_cases hr : rhs / 2 ^ j % 2 = 1
      · simp only [if_pos hr]
        cases x with
        | none => simp only [obit] at hx ⊢; omega
        | some l =>
          simp only [Clause.sat_cons, h1, Lit.holds_neg, obit]
          cases hl : l.holds m <;> simp <;> omega
      · simp only [if_neg hr]
        cases x with
        | none => simp only [obit, h1] at hx ⊢; omega
        | some l =>
          simp only [Clause.sat_cons, h1, obit]
          cases hl : l.holds m <;> simp <;> omega

theorem compIfFrom_spec (m : Asg) (rhs : Nat) (out : Lit) : ∀ (xs : List (Option Lit)) (i : Nat), rhs / 2 ^ i < 2 ^ xs.length →
    (ClauseSet.sat m (compIfFrom rhs out i xs) ↔ (rhs / 2 ^ i < cval m xs → out.holds m = true)) := by
  intro xs
  induction xs with
  | nil =>
    intro i h
    simp [compIfFrom, cval, ClauseSet.sat_nil]
  | cons x xs ih =>
    intro i h
    rw [List.length_cons, Nat.pow_succ] at h
    have h1 := ih (i + 1) (by rw [div_pow_succ]; omega)
    have h2 := compRest_spec m rhs xs (i + 1) (by rw [div_pow_succ]; omega)
    rw [div_pow_succ] at h1 h2
    simp only [compIfFrom, cval, testBit_eq, decide_eq_true_eq]
    have hx := obit_le m x
    by_cases hr : rhs / 2 ^ i % 2 = 1
    · simp only [if_pos hr, h1]
      constructor
      · intro h3 h4; exact h3 (by omega)
      · intro h3 h4; exact h3 (by omega)
    · simp only [if_neg hr]
      cases x with
      | none =>
        simp only [h1, obit]
        constructor
        · intro h3 h4; exact h3 (by omega)
        · intro h3 h4; exact h3 (by omega)
      | some l =>
        cases hc : compRest rhs (i + 1) xs with
        | none =>
          rw [hc] at h2
          simp only [h1] at h2 ⊢
          constructor
          · intro h3 h4; exact h3 (by omega)
          · intro h3 h4; exact h3 (by omega)
        | some cl =>
          rw [hc] at h2
          simp only [ClauseSet.sat_cons, h1, Clause.sat_cons, Clause.sat_append, h2, Lit.holds_neg, obit, Clause.sat_nil,
            List.cons_append] at h2 ⊢
          cases hl : l.holds m with
          | false =>
            simp
            constructor
            · intro h3 h4; exact h3 (by omega)
            · intro h3 h4; exact h3 (by omega)
          | true =>
            simp
            constructor
            · rintro ⟨h5, h3⟩ h4
              rcases h5 with h5 | h5
              · exact h3 (by omega)
              · exact h5
            · intro h3
              refine ⟨?_, fun h4 => h3 (by omega)⟩
              by_cases h5 : cval m xs = rhs / 2 ^ i / 2
              · right; exact h3 (by omega)
              · left; exact h5

theorem compOnlyIfFrom_spec (m : Asg) (rhs : Nat) (out : Lit) : ∀ (xs : List (Option Lit)) (i : Nat),
    rhs / 2 ^ i < 2 ^ xs.length →
    (ClauseSet.sat m (compOnlyIfFrom rhs out i xs) ↔ (cval m xs < rhs / 2 ^ i → out.holds m = false)) := by
  intro xs
  induction xs with
  | nil =>
    intro i h
    simp at h
    simp [compOnlyIfFrom, cval, ClauseSet.sat_nil, h]
  | cons x xs ih =>
    intro i h
    rw [List.length_cons, Nat.pow_succ] at h
    have h1 := ih (i + 1) (by rw [div_pow_succ]; omega)
    have h2 := compRest_spec m rhs xs (i + 1) (by rw [div_pow_succ]; omega)
    rw [div_pow_succ] at h1 h2
    simp only [compOnlyIfFrom, cval, testBit_eq, decide_eq_true_eq]
    have hx := obit_le m x
    by_cases hr : rhs / 2 ^ i % 2 = 1
    · simp only [if_pos hr]
      cases hc : compRest rhs (i + 1) xs with
      | none =>
        rw [hc] at h2
        simp only [h1] at h2 ⊢
        constructor
        · intro h3 h4; exact h3 (by omega)
        · intro h3 h4; exact h3 (by omega)
      | some cl =>
        rw [hc] at h2
        have hxs : Clause.sat m x.toList ↔ obit m x = 1 := by
          cases x with
          | none => simp [obit, Clause.sat_nil]
          | some l => simp [obit, Clause.sat_cons, Clause.sat_nil]
        simp only [ClauseSet.sat_cons, h1, Clause.sat_cons, Clause.sat_append, h2, Lit.holds_neg, Clause.sat_nil, hxs] at h2 ⊢
        constructor
        · rintro ⟨h5, h3⟩ h4
          cases ho : out.holds m with
          | false => rfl
          | true =>
            rw [ho] at h5 h3
            simp at h5 h3
            omega
        · intro h3
          refine ⟨?_, fun h4 => h3 (by omega)⟩
          by_cases h4 : obit m x + 2 * cval m xs < rhs / 2 ^ i
          · right; left; simp [h3 h4]
          · left; omega
    · simp only [if_neg hr, h1]
      constructor
      · intro h3 h4; exact h3 (by omega)
      · intro h3 h4; exact h3 (by omega)

theorem comparatorIf_spec (m : Asg) {rhs : Nat} (out : Lit) {xs : List (Option Lit)} (h : rhs < 2 ^ xs.length) :
    ClauseSet.sat m (comparatorIf rhs out xs) ↔ (rhs < cval m xs → out.holds m = true) := by
  have := compIfFrom_spec m rhs out xs 0 (by simpa using h)
  simpa [comparatorIf] using this

theorem cval_lt (m : Asg) (xs : List (Option Lit)) : cval m xs < 2 ^ xs.length := by
  induction xs with
  | nil => simp [cval]
  | cons x xs ih =>
    have := obit_le m x
    rw [List.length_cons, Nat.pow_succ]; simp only [cval]; omega

theorem comparatorOnlyIf_spec (m : Asg) {rhs : Nat} (out : Lit) {xs : List (Option Lit)} (h : rhs < 2 ^ xs.length) :
    ClauseSet.sat m (comparatorOnlyIf rhs out xs) ↔ (cval m xs ≤ rhs → out.holds m = false) := by
  unfold comparatorOnlyIf
  by_cases h2 : rhs = 2 ^ xs.length - 1
  · have := cval_lt m xs
    rw [if_pos h2]
    simp only [ClauseSet.sat_cons, ClauseSet.sat_nil, Clause.sat_cons, Clause.sat_nil, Lit.holds_neg]
    constructor
    · intro h3 _; simpa using h3
    · intro h3; simpa using h3 (by omega)
  · rw [if_neg h2]
    have := compOnlyIfFrom_spec m (rhs + 1) out xs 0 (by simp; omega)
    simpa [Nat.lt_succ_iff] using this

/-! ### Variables -/

theorem compRest_vars {rhs : Nat} : ∀ {xs : List (Option Lit)} {j : Nat} {cl : Clause}, compRest rhs j xs = some cl →
    ∀ l ∈ cl, ∃ x, some x ∈ xs ∧ x.var = l.var := by
  intro xs
  induction xs with
  | nil => intro j cl h l hl; simp [compRest] at h; subst h; cases hl
  | cons x xs ih =>
    intro j cl h l hl
    simp only [compRest] at h
    cases hc : compRest rhs (j + 1) xs with
    | none => rw [hc] at h; cases h
    | some c2 =>
      rw [hc] at h
      simp only at h
      have key : ∀ y : Lit, y.var = l.var → some y ∈ x :: xs → ∃ y, some y ∈ x :: xs ∧ y.var = l.var := fun y h1 h2 => ⟨y, h2, h1⟩
      have key2 : l ∈ c2 → ∃ y, some y ∈ x :: xs ∧ y.var = l.var := fun h => by
        obtain ⟨y, h1, h2⟩ := ih hc l h
        exact ⟨y, by simp [h1], h2⟩
      by_cases hr : rhs.testBit j = true
      · rw [if_pos hr] at h
        cases x with
        | none => cases h
        | some y =>
          cases h
          rcases List.mem_cons.1 hl with rfl | hl
          · exact key y (by simp [Lit.var_neg]) (by simp)
          · exact key2 hl
      · rw [if_neg hr] at h
        cases x with
        | none => cases h; exact key2 hl
        | some y =>
          cases h
          rcases List.mem_cons.1 hl with rfl | hl
          · exact key l rfl (by simp)
          · exact key2 hl

theorem compIfFrom_vars {rhs : Nat} {out : Lit} : ∀ {xs : List (Option Lit)} {i : Nat}, ∀ c ∈ compIfFrom rhs out i xs, ∀ l ∈ c,
    l.var = out.var ∨ ∃ x, some x ∈ xs ∧ x.var = l.var := by
  intro xs
  induction xs with
  | nil => intro i c h; simp [compIfFrom] at h
  | cons x xs ih =>
    intro i c h l hl
    have up : (l.var = out.var ∨ ∃ y, some y ∈ xs ∧ y.var = l.var) → l.var = out.var ∨ ∃ y, some y ∈ x :: xs ∧ y.var = l.var := by
      rintro (h | ⟨y, h1, h2⟩)
      · exact Or.inl h
      · exact Or.inr ⟨y, by simp [h1], h2⟩
    simp only [compIfFrom] at h
    by_cases hr : rhs.testBit i = true
    · simp only [if_pos hr] at h; exact up (ih c h l hl)
    · simp only [if_neg hr] at h
      cases x with
      | none => simp only at h; exact up (ih c h l hl)
      | some y =>
        cases hc : compRest rhs (i + 1) xs with
        | none => simp only [hc] at h; exact up (ih c h l hl)
        | some cl =>
          simp only [hc] at h
          rcases List.mem_cons.1 h with rfl | h
          · simp only [List.cons_append, List.mem_cons, List.mem_append, List.not_mem_nil, or_false] at hl
            rcases hl with rfl | hl | rfl
            · exact Or.inr ⟨y, by simp, by simp [Lit.var_neg]⟩
            · exact up (Or.inr (compRest_vars hc l hl))
            · exact Or.inl rfl
          · exact up (ih c h l hl)

theorem compOnlyIfFrom_vars {rhs : Nat} {out : Lit} : ∀ {xs : List (Option Lit)} {i : Nat}, ∀ c ∈ compOnlyIfFrom rhs out i xs,
    ∀ l ∈ c, l.var = out.var ∨ ∃ x, some x ∈ xs ∧ x.var = l.var := by
  intro xs
  induction xs with
  | nil => intro i c h; simp [compOnlyIfFrom] at h
  | cons x xs ih =>
    intro i c h l hl
    have up : (l.var = out.var ∨ ∃ y, some y ∈ xs ∧ y.var = l.var) → l.var = out.var ∨ ∃ y, some y ∈ x :: xs ∧ y.var = l.var := by
      rintro (h | ⟨y, h1, h2⟩)
      · exact Or.inl h
      · exact Or.inr ⟨y, by simp [h1], h2⟩
    simp only [compOnlyIfFrom] at h
    by_cases hr : rhs.testBit i = true
    · simp only [if_pos hr] at h
      cases hc : compRest rhs (i + 1) xs with
      | none => simp only [hc] at h; exact up (ih c h l hl)
      | some cl =>
        simp only [hc] at h
        rcases List.mem_cons.1 h with rfl | h
        · simp only [List.mem_cons, List.mem_append, List.not_mem_nil, or_false, Option.mem_toList] at hl
          rcases hl with (hl | hl) | rfl
          · exact Or.inr ⟨l, by simp [hl], rfl⟩
          · exact up (Or.inr (compRest_vars hc l hl))
          · exact Or.inl (by simp [Lit.var_neg])
        · exact up (ih c h l hl)
    · simp only [if_neg hr] at h; exact up (ih c h l hl)

theorem comparatorIf_vars {rhs : Nat} {out : Lit} {xs : List (Option Lit)} : ∀ c ∈ comparatorIf rhs out xs, ∀ l ∈ c,
    l.var = out.var ∨ ∃ x, some x ∈ xs ∧ x.var = l.var := compIfFrom_vars

theorem comparatorOnlyIf_vars {rhs : Nat} {out : Lit} {xs : List (Option Lit)} : ∀ c ∈ comparatorOnlyIf rhs out xs, ∀ l ∈ c,
    l.var = out.var ∨ ∃ x, some x ∈ xs ∧ x.var = l.var := by
  unfold comparatorOnlyIf
  split
  · intro c hc l hl
    simp at hc; subst hc; simp at hl; subst hl
    exact Or.inl (by simp [Lit.var_neg])
  · exact compOnlyIfFrom_vars

end Adder
end RustSat
