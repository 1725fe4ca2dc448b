import Verif.Spec.Bindings
import Verif.Model.Simp
/-
Specification of the solver with preprocessing: what the parameters have to satisfy, and the histories of calls.
-/
namespace RustSat

/-- Every clause has a literal that is true under a partial assignment. -/
def MakesTrue (p : Nat → Option Bool) (F : ClauseSet) : Prop :=
  ∀ c ∈ F, ∃ l ∈ c, p l.var = some (!l.isNeg)

/-- A correct search: the values it finds make all clauses and assumptions true and it gives values to all variables that
are not eliminated; a conflict consists of negated assumptions and follows from the clauses; contradictions are found
only if there are any. Nothing is demanded of the choice of variables. -/
class LawfulSimpCore (S : Type) [SimpCore S] where
  refutes : ∀ (s : S) G, SimpCore.refutes s G = true → Unsatisfiable G
  sat : ∀ (s : S) G E A p, (SimpCore.search s G E A).1 = .sat p →
    MakesTrue p (G ++ units A) ∧ ∀ v, E[v]? = some false → p v ≠ none
  unsat : ∀ (s : S) G E A c, (SimpCore.search s G E A).1 = .unsat c →
    (∀ l ∈ c, l.neg ∈ A) ∧ ∀ m, ClauseSet.sat m G → Clause.sat m c

/-- The wrapper after any history of calls in which the clauses `F` were added and the variables in `Z` were frozen and not
melted since; no clause has a variable that was eliminated before. -/
inductive SimpReach {S : Type} [SimpCore S] : Mini (SimpState S) → ClauseSet → (Nat → Prop) → Prop where
  | new : SimpReach Mini.new [] fun _ => False
  | add {n F Z} (c : Clause) : SimpReach n F Z → (∀ l ∈ c, n.varEliminated l.var ≠ some true) →
      SimpReach (n.addClause c) (F ++ [c]) Z
  | reserve {n F Z} (v : Nat) : SimpReach n F Z → SimpReach (n.reserve v) F Z
  | freeze {n F Z} (v : Nat) : SimpReach n F Z → SimpReach (n.freezeVar v) F fun w => w = v ∨ Z w
  | melt {n F Z} (v : Nat) : SimpReach n F Z → SimpReach (n.meltVar v) F fun w => w ≠ v ∧ Z w
  | solve {n F Z r n'} : SimpReach n F Z → n.solve = (.ok r, n') → SimpReach n' F Z
  | assumps {n F Z A r n'} : SimpReach n F Z → n.solveAssumpsSimp A = (.ok r, n') → SimpReach n' F Z

end RustSat
