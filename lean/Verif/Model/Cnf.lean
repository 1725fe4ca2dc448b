import Verif.Model.Atomics
/-
Model of `Cnf` (src/instances/sat.rs l.29-290). A CNF is the list of its clauses.
-/
namespace RustSat
namespace Cnf

/-- `Vec::dedup` for clauses. -/
def dedup : List Clause → List Clause
  | [] => []
  | [x] => [x]
  | x :: y :: rest => if x = y then dedup (y :: rest) else x :: dedup (y :: rest)

/-- Derived `Ord for Clause` (src/types/constraints.rs l.37): lexicographic order of the literal vectors. -/
def clauseLe : Clause → Clause → Bool
  | [], _ => true
  | _ :: _, [] => false
  | x :: xs, y :: ys => if x.lidx < y.lidx then true else if y.lidx < x.lidx then false else clauseLe xs ys

/-- `Cnf::normalize` (sat.rs l.172-182). -/
def normalize (f : ClauseSet) : ClauseSet := dedup ((f.filterMap Clause.normalize).mergeSort clauseLe)
/-- `Cnf::sanitize` (sat.rs l.187-191). -/
def sanitize (f : ClauseSet) : ClauseSet := f.filterMap Clause.sanitize
/-- `Cnf::add_clause` (sat.rs l.207-209) and `cnf &= clause` (operators.rs). -/
def addClause (f : ClauseSet) (c : Clause) : ClauseSet := f ++ [c]
/-- `Cnf::add_unit`, `add_binary`, `add_ternary` (sat.rs l.214-230). -/
def addUnit (f : ClauseSet) (l : Lit) : ClauseSet := addClause f [l]
/-- See `addUnit`. -/
def addBinary (f : ClauseSet) (l m : Lit) : ClauseSet := addClause f [l, m]
/-- See `addUnit`. -/
def addTernary (f : ClauseSet) (l m n : Lit) : ClauseSet := addClause f [l, m, n]
/-- `Cnf::join` (sat.rs l.153-156), `Extend<Clause>` and `cnf & cnf` (operators.rs). -/
def join (f g : ClauseSet) : ClauseSet := f ++ g
/-- `Cnf::add_lit_impl_lit` (sat.rs l.107-109). -/
def addLitImplLit (f : ClauseSet) (a b : Lit) : ClauseSet := addClause f (Atomics.litImplLit a b)
/-- `Cnf::add_lit_impl_clause` (sat.rs l.112-114). -/
def addLitImplClause (f : ClauseSet) (a : Lit) (b : List Lit) : ClauseSet :=
  addClause f (Atomics.litImplClause a b)
/-- `Cnf::add_lit_impl_cube` (sat.rs l.117-119). -/
def addLitImplCube (f : ClauseSet) (a : Lit) (b : List Lit) : ClauseSet := join f (Atomics.litImplCube a b)
/-- `Cnf::add_cube_impl_lit` (sat.rs l.122-124). -/
def addCubeImplLit (f : ClauseSet) (a : List Lit) (b : Lit) : ClauseSet :=
  addClause f (Atomics.cubeImplLit a b)
/-- `Cnf::add_clause_impl_lit` (sat.rs l.127-129). -/
def addClauseImplLit (f : ClauseSet) (a : List Lit) (b : Lit) : ClauseSet :=
  join f (Atomics.clauseImplLit a b)
/-- `Cnf::add_cube_impl_clause` (sat.rs l.132-134). -/
def addCubeImplClause (f : ClauseSet) (a b : List Lit) : ClauseSet :=
  addClause f (Atomics.cubeImplClause a b)
/-- `Cnf::add_clause_impl_clause` (sat.rs l.137-139). -/
def addClauseImplClause (f : ClauseSet) (a b : List Lit) : ClauseSet := join f (Atomics.clauseImplClause a b)
/-- `Cnf::add_clause_impl_cube` (sat.rs l.142-144). -/
def addClauseImplCube (f : ClauseSet) (a b : List Lit) : ClauseSet := join f (Atomics.clauseImplCube a b)
/-- `Cnf::add_cube_impl_cube` (sat.rs l.147-149). -/
def addCubeImplCube (f : ClauseSet) (a b : List Lit) : ClauseSet := join f (Atomics.cubeImplCube a b)

/-- `Lit | Lit`, `Lit | Clause`, `Clause | Lit`, `Clause | Clause` (operators.rs l.97-160), a literal being
written as the one-element list. -/
def orOp (c d : Clause) : Clause := c ++ d
/-- `x & y` on clauses (operators.rs l.166-275), a literal being written as the one-element clause. -/
def andOp (c d : Clause) : ClauseSet := [c, d]
/-- `clause & cnf` (operators.rs l.265-274). -/
def andCnf (c : Clause) (f : ClauseSet) : ClauseSet := [c] ++ f

/-- The loop of `Cnf::evaluate` and `Instance::evaluate` over the values of the constraints
(sat.rs l.265-275, l.950-972): `val` is the value so far. -/
def evalLoop : TernaryVal → List TernaryVal → TernaryVal
  | val, [] => val
  | val, .true :: ts => evalLoop val ts
  | _, .false :: _ => .false
  | _, .dontCare :: ts => evalLoop .dontCare ts
/-- `Cnf::evaluate` (sat.rs l.265-275). -/
def evaluate (f : ClauseSet) (a : Assignment) : TernaryVal :=
  evalLoop .true (f.map fun c => Clause.evaluate c a)

end Cnf
end RustSat
