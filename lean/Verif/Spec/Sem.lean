import Verif.Model.Lit
/-
The specification: two-valued semantics of literals, clauses, CNFs, sums.
-/
namespace RustSat

/-- A total two-valued assignment of all variables. -/
abbrev Asg := Nat → Bool

/-- A clause is a list of literals (`Vec<Lit>` inside `Clause`, src/types/constraints.rs). -/
abbrev Clause := List Lit

/-- A CNF is a list of clauses. -/
abbrev ClauseSet := List Clause

/-- Truth of a literal under an assignment: variable value, flipped for a negative literal. -/
def Lit.holds (a : Asg) (l : Lit) : Bool := if l.isNeg then !(a l.var) else a l.var

/-- A clause is satisfied iff some literal is true. -/
def Clause.sat (a : Asg) (c : Clause) : Prop := ∃ l ∈ c, l.holds a = true

/-- A set of clauses is satisfied iff all its clauses are. -/
def ClauseSet.sat (a : Asg) (f : ClauseSet) : Prop := ∀ c ∈ f, Clause.sat a c

/-- All literals of a cube (assumptions) are true. -/
def cubeSat (a : Asg) (c : List Lit) : Prop := ∀ l ∈ c, l.holds a = true

/-- Number of true literals in a list, counting repetitions. -/
def countTrue (a : Asg) : List Lit → Nat
  | [] => 0
  | l :: ls => (if l.holds a then 1 else 0) + countTrue a ls

/-- Weighted sum of the true literals (natural weights). -/
def wsum (a : Asg) : List (Lit × Nat) → Nat
  | [] => 0
  | (l, w) :: ls => (if l.holds a then w else 0) + wsum a ls

/-- Weighted sum of the true literals (integer weights). -/
def isum (a : Asg) : List (Lit × Int) → Int
  | [] => 0
  | (l, w) :: ls => (if l.holds a then w else 0) + isum a ls

/-- Sum of all weights. -/
def wtotal : List (Lit × Nat) → Nat
  | [] => 0
  | (_, w) :: ls => w + wtotal ls

/-- Two assignments agree on all variables below `n`. -/
def agreeBelow (n : Nat) (a b : Asg) : Prop := ∀ v, v < n → a v = b v

end RustSat
