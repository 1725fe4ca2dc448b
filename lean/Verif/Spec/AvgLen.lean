import Verif.Spec.Sem
/-
Specification of the mean clause length.
-/
namespace RustSat
namespace AvgLen

/-- The number of literals of the clauses, counted with repetitions. -/
def totalLits : List Clause → Nat
  | [] => 0
  | c :: cs => c.length + totalLits cs

end AvgLen
end RustSat
