import Verif.Model.Lit
/-
Model of adding numbers to and subtracting them from variables and literals (src/types/mod.rs l.255-290,
l.596-628), in builds with overflow checks and debug assertions and in release builds with neither, where `u32`
arithmetic wraps. Right-hand sides are numbers up to `u32::MAX`. The assigning operators have the same results.
-/
namespace RustSat

/-- Debug builds check overflows and debug assertions, release builds do not. -/
inductive Build where
  | debug
  | release
deriving DecidableEq, Repr

namespace Build
/-- `u32` addition. -/
def add (b : Build) (x y : Nat) : Res Empty Nat :=
  if x + y ≤ u32Max then .ok (x + y) else match b with
    | .debug => .panic
    | .release => .ok ((x + y) % (u32Max + 1))
/-- `u32` subtraction. -/
def sub (b : Build) (x y : Nat) : Res Empty Nat :=
  if y ≤ x then .ok (x - y) else match b with
    | .debug => .panic
    | .release => .ok (x + (u32Max + 1) - y)
/-- `2 * y` on `u32`. -/
def twice (b : Build) (y : Nat) : Res Empty Nat :=
  if 2 * y ≤ u32Max then .ok (2 * y) else match b with
    | .debug => .panic
    | .release => .ok (2 * y % (u32Max + 1))
end Build

/-- `Add<u32> for Var` and `AddAssign<u32> for Var` (src/types/mod.rs l.256-273). -/
def Var.plus (b : Build) (v n : Nat) : Res Empty Nat :=
  match b.add v n with
  | .ok idx => if b = .debug ∧ ¬ idx ≤ maxVarIdx then .panic else .ok idx
  | r => r
/-- `Sub<u32> for Var` and `SubAssign<u32> for Var` (l.276-290). -/
def Var.minus (b : Build) (v n : Nat) : Res Empty Nat := b.sub v n
/-- `Add<u32> for Lit` and `AddAssign<u32> for Lit` (l.597-611). -/
def Lit.plus (b : Build) (l : Lit) (n : Nat) : Res Empty Lit :=
  match b.twice n with
  | .ok m => match b.add l.lidx m with
    | .ok i => .ok ⟨i⟩
    | _ => .panic
  | _ => .panic
/-- `Sub<u32> for Lit` and `SubAssign<u32> for Lit` (l.614-628). -/
def Lit.minus (b : Build) (l : Lit) (n : Nat) : Res Empty Lit :=
  match b.twice n with
  | .ok m => match b.sub l.lidx m with
    | .ok i => .ok ⟨i⟩
    | _ => .panic
  | _ => .panic
/-- `Var::pos_lit` (l.167-169) and `Lit::represent` (l.358-360) on the 32 bits of an index that need not be in
range: the shift drops the highest bit in every build. -/
def Var.posLit32 (v : Nat) : Lit := ⟨(v <<< 1) % (u32Max + 1)⟩

end RustSat
