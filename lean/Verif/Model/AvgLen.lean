import Verif.Spec.Sem
/-
Model of the average clause length in the statistics of the solver wrappers. Simplification: rational numbers instead
of `f32`, i.e. rounding is not modelled.
-/
namespace RustSat
namespace AvgLen

/-- The part of `SolverStats` that is used (src/solvers/mod.rs l.490-510). -/
structure Stats where
  nClauses : Nat
  avg : Rat
deriving DecidableEq

/-- `SolverStats::default`. -/
def Stats.default : Stats := ⟨0, 0⟩

/-- `update_avg_clause_len` (minisat/src/{core,simp}.rs l.43-47, and the same in glucose, cadical l.256-260, kissat
l.148-152, ipasir l.158-162, src/solvers/simulators.rs l.68-72). `n_clauses - 1` is a `usize`; it is called after counting
the clause, so that it does not underflow. -/
def Stats.updateAvg (s : Stats) (c : Clause) : Stats :=
  { s with avg := (s.avg * ((s.nClauses - 1 : Nat) : Rat) + (c.length : Rat)) / (s.nClauses : Rat) }

/-- The statistics in `add_clause_ref` (minisat/src/core.rs l.173-174, simp.rs l.181-182, and the same in glucose,
cadical l.781-782, kissat l.379-380, ipasir l.239-248, simulators.rs l.139-140, l.156-157) and in `add_tmp_clause` of
CaDiCaL (cadical/src/lib.rs l.278-279). -/
def Stats.addClause (s : Stats) (c : Clause) : Stats := ({ s with nClauses := s.nClauses + 1 } : Stats).updateAvg c

/-- The wrapper of BatSat has no counter and asks the solver (batsat/src/lib.rs l.99-105, l.198-213, l.277-279): `count` is
the number of clauses the solver reports after some clauses were added. The state is the clauses and the average. -/
def batsatAdd (count : List Clause → Nat) (s : List Clause × Rat) (c : Clause) : List Clause × Rat :=
  (s.1 ++ [c], (s.2 * (count s.1 : Rat) + (c.length : Rat)) / ((count s.1 + 1 : Nat) : Rat))

end AvgLen
end RustSat
