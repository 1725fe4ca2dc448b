import Verif.Model.Batsat
import Verif.Spec.Bindings
/-
What a correct BatSat does, and the histories of calls of the wrapper.
-/
namespace RustSat

/-- The literal of BatSat holds: the variable has the value of the sign. -/
def BatLit.holds (l : BatLit) (m : Asg) : Bool := m l.var == l.sign

/-- The assignment satisfies clauses of BatSat. -/
def batSat (m : Asg) (F : List (List BatLit)) : Prop := ∀ c ∈ F, ∃ l ∈ c, l.holds m = true

/-- A correct BatSat. Variables must have been created before they are used in clauses and assumptions. `modelVars` is the
number of variables for which there are values after a satisfiable query; these are all that exist at this time. -/
class LawfulBat (H : Type) [BatLib H] where
  clauses : H → List (List BatLit)
  modelVars : H → Nat
  init : clauses (BatLib.init : H) = []
  newVar : ∀ h : H, clauses (BatLib.newVar h) = clauses h ∧ BatLib.numVars (BatLib.newVar h) = BatLib.numVars h + 1 ∧
    modelVars (BatLib.newVar h) = modelVars h ∧
    (∀ l, l.var < modelVars h → BatLib.value (BatLib.newVar h) l = BatLib.value h l) ∧
    BatLib.core (BatLib.newVar h) = BatLib.core h
  varOfInt : ∀ (h : H) v, (BatLib.varOfInt h v).1 = v ∧ clauses (BatLib.varOfInt h v).2 = clauses h ∧
    v < BatLib.numVars (BatLib.varOfInt h v).2 ∧ BatLib.numVars h ≤ BatLib.numVars (BatLib.varOfInt h v).2
  addClause : ∀ (h : H) c, (∀ l ∈ c, l.var < BatLib.numVars h) →
    clauses (BatLib.addClause h c) = clauses h ++ [c] ∧ BatLib.numVars (BatLib.addClause h c) = BatLib.numVars h
  solve : ∀ (h : H) A, (∀ l ∈ A, l.var < BatLib.numVars h) →
    clauses (BatLib.solve h A).2 = clauses h ∧ BatLib.numVars (BatLib.solve h A).2 = BatLib.numVars h
  solveSat : ∀ (h : H) A, (∀ l ∈ A, l.var < BatLib.numVars h) → (BatLib.solve h A).1 = some true →
    modelVars (BatLib.solve h A).2 = BatLib.numVars h ∧ ∃ p : Nat → Option Bool,
      (∀ l, l.var < BatLib.numVars h → BatLib.value (BatLib.solve h A).2 l = some ((p l.var).map (· == l.sign))) ∧
      ∀ m, Extends p m → batSat m (clauses h) ∧ ∀ l ∈ A, l.holds m = true
  solveUnsat : ∀ (h : H) A, (∀ l ∈ A, l.var < BatLib.numVars h) → (BatLib.solve h A).1 = some false →
    (∀ m, batSat m (clauses h) → ∃ l ∈ A, l.holds m = false) ∧
    (∀ l ∈ BatLib.core (BatLib.solve h A).2, ⟨l.var, !l.sign⟩ ∈ A) ∧
    ∀ m, batSat m (clauses h) → ∃ l ∈ BatLib.core (BatLib.solve h A).2, l.holds m = true

/-- The wrapper of BatSat after any history of operations in which the clauses `F` were added and the variables below `k`
were reserved. -/
inductive BatReach {H : Type} [BatLib H] : Batsat H → ClauseSet → Nat → Prop where
  | new : BatReach Batsat.new [] 0
  | add {n F k} (c : Clause) : BatReach n F k → BatReach (n.addClause c) (F ++ [c]) k
  | reserve {n F k} (v : Nat) : BatReach n F k → BatReach (n.reserve v) F (max k (v + 1))
  | solve {n F k} : BatReach n F k → BatReach n.solve.2 F k
  | assumps {n F k} (A : List Lit) : BatReach n F k → BatReach (n.solveAssumps A).2 F k

end RustSat
