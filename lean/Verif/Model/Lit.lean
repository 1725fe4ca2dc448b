/-
Model of `src/types/mod.rs` (variables and literals) and the negation operator of
`src/types/operators.rs`.
-/

namespace RustSat

/-- Result of a Rust function that can return a value, return an error, or panic.
`panic` models `assert!`, `expect`, `unreachable!`, out-of-bounds indexing and arithmetic overflow
in a checked build. -/
inductive Res (ε α : Type) where
  | ok (a : α)
  | err (e : ε)
  | panic
deriving DecidableEq, Repr

/-- `TypeError` (src/types/mod.rs l.1212-1220). -/
inductive TypeError where
  | idxTooHigh (idx max : Nat)
  | ipasirZero
deriving DecidableEq, Repr

/-- `u32::MAX`. -/
def u32Max : Nat := 4294967295
/-- `c_int::MAX` (`c_int` is `i32` on every supported platform). -/
def i32Max : Int := 2147483647
/-- `c_int::MIN`. -/
def i32Min : Int := -2147483648

/-- `MAX_VAR_IDX` (src/types/mod.rs l.70): `(u32::MAX - 1) / 2`. -/
def maxVarIdx : Nat := (u32Max - 1) / 2

/-- `Lit` (src/types/mod.rs l.351-353): the packed index `2 * idx + negated`.
A `Var` (src/types/mod.rs l.83) is modelled as its plain index, a `Nat`; the `LimitedU32` bound is the
explicit predicate `idx ≤ maxVarIdx` where it matters. -/
structure Lit where
  lidx : Nat
deriving DecidableEq, Repr

/-- `Var::new` (src/types/mod.rs l.98-103). -/
def Var.new (idx : Nat) : Res Empty Nat :=
  if idx ≤ maxVarIdx then .ok idx else .panic

/-- `Var::new_with_error` (src/types/mod.rs l.111-117). -/
def Var.newWithError (idx : Nat) : Res TypeError Nat :=
  if idx ≤ maxVarIdx then .ok idx else .err (.idxTooHigh idx maxVarIdx)

namespace Lit

/-- `Lit::represent` (src/types/mod.rs l.358-360): `(idx << 1) + (if negated {1} else {0})`. -/
def represent (idx : Nat) (negated : Bool) : Nat :=
  (idx <<< 1) + (if negated then 1 else 0)

/-- `Lit::new_unchecked`/`Var::lit` (src/types/mod.rs l.397-402, l.142): no range check. -/
def mk' (idx : Nat) (negated : Bool) : Lit := ⟨represent idx negated⟩

/-- `Var::pos_lit` (src/types/mod.rs l.158-160). -/
def pos (v : Nat) : Lit := mk' v false

/-- `Var::neg_lit` (src/types/mod.rs l.174-176). -/
def negOf (v : Nat) : Lit := mk' v true

/-- `Lit::new` (src/types/mod.rs l.368-373). The assertion is `idx < MAX_IDX`, as in the source. -/
def new (idx : Nat) (negated : Bool) : Res Empty Lit :=
  if idx < maxVarIdx then .ok (mk' idx negated) else .panic

/-- `Lit::new_with_error` (src/types/mod.rs l.380-387). -/
def newWithError (idx : Nat) (negated : Bool) : Res TypeError Lit :=
  if idx > maxVarIdx then .err (.idxTooHigh idx maxVarIdx) else .ok (mk' idx negated)

/-- `Lit::from_ipasir` (src/types/mod.rs l.484-491). The argument is any integer; the Rust type
restricts it to `i32Min ≤ val ≤ i32Max`. -/
def fromIpasir (val : Int) : Res TypeError Lit :=
  if val = 0 then .err .ipasirZero
  else newWithError (val.natAbs - 1) (decide (val < 0))

/-- `Lit::vidx`, `Lit::var` (src/types/mod.rs l.496-505, l.534). -/
def var (l : Lit) : Nat := l.lidx >>> 1

/-- `Lit::is_pos` (src/types/mod.rs l.541-543). -/
def isPos (l : Lit) : Bool := (l.lidx &&& 1) == 0

/-- `Lit::is_neg` (src/types/mod.rs l.548-550). -/
def isNeg (l : Lit) : Bool := (l.lidx &&& 1) == 1

/-- `Not for Lit` / `Neg for Lit` (src/types/operators.rs l.35-55): `lidx ^ 1`. -/
def neg (l : Lit) : Lit := ⟨l.lidx ^^^ 1⟩

/-- `Lit::to_ipasir` (src/types/mod.rs l.564-574): panics if `vidx + 1` does not fit `c_int`. -/
def toIpasir (l : Lit) : Res Empty Int :=
  if (l.var : Int) + 1 ≤ i32Max then
    .ok (if l.isNeg then -((l.var : Int) + 1) else (l.var : Int) + 1)
  else .panic

/-- `Lit::to_ipasir_with_error` (src/types/mod.rs l.586-593). -/
def toIpasirWithError (l : Lit) : Res TypeError Int :=
  if (l.var : Int) + 1 ≤ i32Max then
    .ok (if l.isNeg then -((l.var : Int) + 1) else (l.var : Int) + 1)
  else .err (.idxTooHigh (l.var + 1) i32Max.toNat)

/-- The invariant of the `u32` representation: every `u32` is a literal. -/
def Valid (l : Lit) : Prop := l.lidx ≤ u32Max

instance (l : Lit) : Decidable l.Valid := inferInstanceAs (Decidable (_ ≤ _))

/-- Derived `Ord for Lit` (src/types/mod.rs l.343): comparison of packed indices. -/
def le (a b : Lit) : Bool := decide (a.lidx ≤ b.lidx)

/-- `Add<u32> for Lit` (src/types/mod.rs l.597-605). -/
def add (l : Lit) (rhs : Nat) : Lit := ⟨l.lidx + 2 * rhs⟩

/-- `Sub<u32> for Lit` (src/types/mod.rs l.614-622): checked subtraction, `none` is the overflow panic. -/
def sub (l : Lit) (rhs : Nat) : Option Lit :=
  if 2 * rhs ≤ l.lidx then some ⟨l.lidx - 2 * rhs⟩ else none

end Lit
end RustSat
