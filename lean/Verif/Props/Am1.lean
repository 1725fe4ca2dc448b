import Verif.Lemmas.Am1Sub
/-
C26, C27 for the at-most-one encodings, C50 (number of digits).
-/
namespace RustSat
open Am1
variable {VM : Type} [ManageVars VM] [LawfulVM VM]

/-- **C26.** Every at-most-one encoding — with every positive group size and every choice of sub-encodings —
encodes "at most one of the input literals is true" (counted with multiplicity): models satisfy the constraint,
and assignments satisfying the constraint become models by changing newly created variables only. -/
theorem C26_at_most_one (k : Kind) (hk : k.WF) (lits : List Lit) (vm : VM)
    (hl : ∀ l ∈ lits, l.var < ManageVars.nUsed vm) :
    Encodes (varsOf lits) (ManageVars.nUsed vm) (ManageVars.nUsed (k.encode lits vm).2) (k.encode lits vm).1
      (fun a => countTrue a lits ≤ 1) :=
  Kind.encode_spec k hk lits vm hl

/-- Non-vacuity: nested encodings over five literals. -/
example : (Kind.commander 4 (.bimander 2 (.twoProduct .ladder))).WF := ⟨by omega, by omega, trivial⟩
example : ((Kind.commander 2 .bitwise).encode ((List.range 5).map Lit.pos) (⟨5⟩ : BasicVM)).1.length = 15 := by
  decide
example : ClauseSet.sat (fun v => v = 3 || v = 6 || v = 10)
    ((Kind.commander 2 .pairwise).encode ((List.range 5).map Lit.pos) (⟨5⟩ : BasicVM)).1 := by
  unfold ClauseSet.sat Clause.sat; decide

/-- **C26.** The row index computed by the two-product encoding is in range, so that indexing does not panic:
`p` is the integer square root of the number of literals, `q` the quotient rounded up. -/
theorem C26_product_in_range (len i : Nat) (hi : i < len) :
    let p := sqrtLoop len len 0
    let q := divCeil len p
    p * p ≤ len ∧ len < (p + 1) * (p + 1) ∧ 0 < p ∧ 0 < q ∧ i / q < p ∧ i % q < q := by
  simp only
  have hp0 : 0 < sqrtLoop len len 0 := sqrtLoop_pos (by omega)
  have hq0 : 0 < divCeil len (sqrtLoop len len 0) := divCeil_pos (by omega) hp0
  refine ⟨(sqrtLoop_len len).1, (sqrtLoop_len len).2, hp0, hq0, ?_, Nat.mod_lt _ hq0⟩
  rw [Nat.div_lt_iff_lt_mul hq0, Nat.mul_comm]
  have := divCeil_mul (len := len) hp0
  omega

example : sqrtLoop 11 11 0 = 3 ∧ divCeil 11 3 = 4 := by decide

/-- **C26.** The chunks of bimander and commander cover every literal exactly once. -/
theorem C26_chunks (lits : List Lit) (n : Nat) (hn : 0 < n) :
    (List.range (divCeil lits.length n)).flatMap (chunk lits n) = lits := by
  have key : ∀ m, (List.range m).flatMap (chunk lits n) = lits.take (m * n) := by
    intro m
    induction m with
    | zero => simp
    | succ m ih =>
      rw [List.range_succ, List.flatMap_append, ih]
      simp only [List.flatMap_cons, List.flatMap_nil, List.append_nil, chunk]
      rw [Nat.add_mul, Nat.one_mul, List.take_add]
  rw [key, List.take_of_length_le (divCeil_mul hn)]

example : (List.range (divCeil 5 2)).map (chunk ((List.range 5).map Lit.pos) 2) =
    [[Lit.pos 0, Lit.pos 1], [Lit.pos 2, Lit.pos 3], [Lit.pos 4]] := by decide

/-- **C27** (at-most-one encodings). All variables in the produced clauses are input variables or fresh, and
the statistics of a new encoder that is encoded once are the exact numbers of clauses and variables created. -/
theorem C27_am1_partial (k : Kind) (hk : k.WF) (lits : List Lit) (vm : VM)
    (hl : ∀ l ∈ lits, l.var < ManageVars.nUsed vm) :
    (∀ c ∈ (k.encode lits vm).1, ∀ l ∈ c, varsOf lits l.var ∨
      (ManageVars.nUsed vm ≤ l.var ∧ l.var < ManageVars.nUsed (k.encode lits vm).2)) ∧
    ManageVars.nUsed (k.encode lits vm).2 = ManageVars.nUsed vm + (k.stats ⟨0, 0⟩ lits vm).nVars ∧
    (k.encode lits vm).1.length = (k.stats ⟨0, 0⟩ lits vm).nClauses := by
  have hs := Kind.encode_spec k hk lits vm hl
  have hle := hs.le
  refine ⟨hs.vars, ?_⟩
  cases k with
  | pairwise => exact ⟨rfl, rfl⟩
  | ladder =>
    simp only [Kind.encode, Kind.stats, ladder]
    by_cases h : lits.length ≤ 1
    · simp [h]
    · simp only [if_neg h]; rw [(newLits_spec _ _).2]; exact ⟨by simp, trivial⟩
  | bitwise =>
    simp only [Kind.encode, Kind.stats, bitwise]
    by_cases h : lits.length ≤ 1
    · simp [h]
    · simp only [if_neg h]; rw [(newVars_spec _ _).2]; exact ⟨by simp, trivial⟩
  | bimander n sub =>
    by_cases h : lits.length ≤ 1
    · simp [Kind.encode, Kind.stats, bimander, h]
    · simp only [Kind.stats, if_neg h]; exact ⟨by omega, trivial⟩
  | commander n sub =>
    by_cases h : lits.length ≤ 1
    · simp [Kind.encode, Kind.stats, commander, h]
    · simp only [Kind.stats, if_neg h]; exact ⟨by omega, trivial⟩
  | twoProduct sub =>
    by_cases h : lits.length ≤ 1
    · simp [Kind.encode, Kind.stats, twoProduct, h]
    · simp only [Kind.stats, if_neg h]; exact ⟨by omega, trivial⟩

example : (Kind.bimander 2 .ladder).stats ⟨0, 0⟩ ((List.range 5).map Lit.pos) (⟨5⟩ : BasicVM) = ⟨14, 4⟩ := by
  decide

/-- The statistics are wrong for an encoder that is encoded twice (`encode` takes `&mut self` and may be called
again): 4 clauses with 2 variables were created in total, but the encoder reports 2 clauses and 2 variables. -/
theorem C27_violated_repeat :
    let lits := [Lit.pos 0, Lit.pos 1]
    let vm : BasicVM := ⟨2⟩
    let r1 := Kind.bitwise.encode lits vm
    let s1 := Kind.bitwise.stats ⟨0, 0⟩ lits vm
    let r2 := Kind.bitwise.encode lits r1.2
    let s2 := Kind.bitwise.stats s1 lits r1.2
    s2 = ⟨2, 2⟩ ∧ r1.1.length + r2.1.length = 4 ∧ ManageVars.nUsed r2.2 = ManageVars.nUsed vm + 2 := by decide

/-- **C50.** `digits(number, basis)` for a basis of at least two is the number of digits of `number`: the
smallest positive `d` with `number < basis ^ d`. -/
theorem C50_digits (number basis : Nat) (hb : 1 < basis) :
    0 < digits number basis ∧ number < basis ^ digits number basis ∧
    ∀ d, 0 < d → number < basis ^ d → digits number basis ≤ d := by
  refine ⟨digits_pos _ _ hb, digits_lt _ _ hb, fun d hd h => ?_⟩
  by_cases h0 : number = 0
  · subst h0; simp [digits]; omega
  · have h1 := digits_le number basis hb (by omega)
    apply Classical.byContradiction
    intro hlt
    have : basis ^ d ≤ basis ^ (digits number basis - 1) := Nat.pow_le_pow_right (by omega) (by omega)
    omega

/-- **C50.** In basis one, the number of digits is the number (at least one). -/
theorem C50_digits_unary (number : Nat) : digits number 1 = max number 1 := by
  unfold digits; split <;> simp [*]

example : digits 16 2 = 5 ∧ digits 999 10 = 3 ∧ digits 4096 16 = 4 := by decide

end RustSat
