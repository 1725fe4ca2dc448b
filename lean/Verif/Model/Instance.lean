import Verif.Model.Cnf
import Verif.Model.VarManager
/-
Model of the satisfaction instance `Instance<VM>` (src/instances/sat.rs l.376-1170).
-/
namespace RustSat

/-- `Instance<VM>` (sat.rs l.376-381). -/
structure SatInstance (VM : Type) where
  cnf : ClauseSet
  cards : List CardConstraint
  pbs : List PbConstraint
  vm : VM

/-- `ConstraintRef` (sat.rs l.17-26). -/
inductive ConstraintRef where
  | clause (c : Clause)
  | card (c : CardConstraint)
  | pb (c : PbConstraint)

namespace SatInstance
variable {VM : Type} [ManageVars VM]

/-- `Instance::add_clause` (sat.rs l.424-429) and `inst &= clause` (operators.rs). -/
def addClause (s : SatInstance VM) (c : Clause) : SatInstance VM :=
  { s with vm := ManageVars.markLits s.vm c, cnf := Cnf.addClause s.cnf c }
/-- `Instance::add_card_constr` (sat.rs l.543-548). -/
def addCard (s : SatInstance VM) (c : CardConstraint) : SatInstance VM :=
  { s with vm := ManageVars.markLits s.vm c.lits, cards := s.cards ++ [c] }
/-- `Instance::add_pb_constr` (sat.rs l.551-556). -/
def addPb (s : SatInstance VM) (c : PbConstraint) : SatInstance VM :=
  { s with vm := ManageVars.markLits s.vm (c.lits.map (·.1)), pbs := s.pbs ++ [c] }
/-- `Instance::add_lit_impl_lit` (sat.rs l.456-460). -/
def addLitImplLit (s : SatInstance VM) (a b : Lit) : SatInstance VM :=
  { s with vm := ManageVars.markLits (ManageVars.markLits s.vm [a]) [b], cnf := Cnf.addLitImplLit s.cnf a b }
/-- `Instance::add_lit_impl_clause` (sat.rs l.463-469). -/
def addLitImplClause (s : SatInstance VM) (a : Lit) (b : List Lit) : SatInstance VM :=
  { s with vm := ManageVars.markLits (ManageVars.markLits s.vm [a]) b, cnf := Cnf.addLitImplClause s.cnf a b }
/-- `Instance::add_lit_impl_cube` (sat.rs l.472-478). -/
def addLitImplCube (s : SatInstance VM) (a : Lit) (b : List Lit) : SatInstance VM :=
  { s with vm := ManageVars.markLits (ManageVars.markLits s.vm [a]) b, cnf := Cnf.addLitImplCube s.cnf a b }
/-- `Instance::add_cube_impl_lit` (sat.rs l.481-487). -/
def addCubeImplLit (s : SatInstance VM) (a : List Lit) (b : Lit) : SatInstance VM :=
  { s with vm := ManageVars.markLits (ManageVars.markLits s.vm a) [b], cnf := Cnf.addCubeImplLit s.cnf a b }
/-- `Instance::add_clause_impl_lit` (sat.rs l.490-496). -/
def addClauseImplLit (s : SatInstance VM) (a : List Lit) (b : Lit) : SatInstance VM :=
  { s with vm := ManageVars.markLits (ManageVars.markLits s.vm a) [b], cnf := Cnf.addClauseImplLit s.cnf a b }
/-- `Instance::add_cube_impl_clause` (sat.rs l.502-510). -/
def addCubeImplClause (s : SatInstance VM) (a b : List Lit) : SatInstance VM :=
  { s with vm := ManageVars.markLits (ManageVars.markLits s.vm a) b, cnf := Cnf.addCubeImplClause s.cnf a b }
/-- `Instance::add_clause_impl_clause` (sat.rs l.513-521). -/
def addClauseImplClause (s : SatInstance VM) (a b : List Lit) : SatInstance VM :=
  { s with vm := ManageVars.markLits (ManageVars.markLits s.vm a) b, cnf := Cnf.addClauseImplClause s.cnf a b }
/-- `Instance::add_clause_impl_cube` (sat.rs l.524-532). -/
def addClauseImplCube (s : SatInstance VM) (a b : List Lit) : SatInstance VM :=
  { s with vm := ManageVars.markLits (ManageVars.markLits s.vm a) b, cnf := Cnf.addClauseImplCube s.cnf a b }
/-- `Instance::add_cube_impl_cube` (sat.rs l.535-543). -/
def addCubeImplCube (s : SatInstance VM) (a b : List Lit) : SatInstance VM :=
  { s with vm := ManageVars.markLits (ManageVars.markLits s.vm a) b, cnf := Cnf.addCubeImplCube s.cnf a b }
/-- `Extend<Clause> for Instance` (sat.rs l.1158-1162), `CollectClauses for Instance` (l.1164-1176) and
`inst &= cnf` (operators.rs): the variable manager is not touched. -/
def extendClauses (s : SatInstance VM) (cs : List Clause) : SatInstance VM :=
  { s with cnf := Cnf.join s.cnf cs }
/-- `Instance::extend` (sat.rs l.710-713) and `inst & inst` (operators.rs): only the clauses and the
variable manager of the other instance are used. -/
def extend (s o : SatInstance VM) : SatInstance VM :=
  { s with cnf := Cnf.join s.cnf o.cnf, vm := ManageVars.combine s.vm o.vm }
/-- `Instance::into_pbs` (sat.rs l.701-707). -/
def intoPbs (s : SatInstance VM) : List PbConstraint × VM :=
  (s.pbs ++ s.cards.map PbConstraint.ofCard ++ s.cnf.map PbConstraint.ofClause, s.vm)
/-- `From<Cnf> for Instance` (sat.rs l.1143-1156). -/
def ofCnf (dflt : VM) (f : ClauseSet) : SatInstance VM :=
  { cnf := f, cards := [], pbs := [],
    vm := f.foldl (fun vm c => c.foldl (fun vm l => (ManageVars.increaseNextFree vm (l.var + 1)).2) vm) dflt }

/-- `cnf.add_unit(l)` for each literal of the list (sat.rs l.881-884 etc.). -/
def addUnits (f : ClauseSet) (ls : List Lit) : ClauseSet := ls.foldl Cnf.addUnit f

/-- Loop state of `sanitize`: the local variables `cnf`, `cards`, `pbs`, `unsat`. -/
structure SanState where
  cnf : ClauseSet
  cards : List CardConstraint
  pbs : List PbConstraint
  unsat : Bool

/-- The closure of the first `filter_map` of `sanitize` (sat.rs l.870-907); `none` is a panic of
`unreachable_err!`. -/
def sanitizePb (s : SanState) (pb : PbConstraint) : Option SanState :=
  if pb.isTautology then some s
  else if pb.isUnsat then some { s with unsat := true }
  else if pb.isPositiveAssignment then some { s with cnf := addUnits s.cnf (pb.lits.map (·.1)) }
  else if pb.isNegativeAssignment then some { s with cnf := addUnits s.cnf (pb.lits.map fun p => p.1.neg) }
  else if pb.isClause then
    match pb.intoClause with
    | .ok c => some { s with cnf := Cnf.addClause s.cnf c }
    | _ => none
  else if pb.isCard then
    match pb.intoCardConstr with
    | .ok c => some { s with cards := s.cards ++ [c] }
    | _ => none
  else some { s with pbs := s.pbs ++ [pb] }

/-- The closure of the second `filter_map` of `sanitize` (sat.rs l.909-937). -/
def sanitizeCard (s : SanState) (c : CardConstraint) : Option SanState :=
  if c.isTautology then some s
  else if c.isUnsat then some { s with unsat := true }
  else if c.isPositiveAssignment then some { s with cnf := addUnits s.cnf c.lits }
  else if c.isNegativeAssignment then some { s with cnf := addUnits s.cnf (c.lits.map Lit.neg) }
  else if c.isClause then
    match c.intoClause with
    | .ok cl => some { s with cnf := Cnf.addClause s.cnf cl }
    | _ => none
  else some { s with cards := s.cards ++ [c] }

/-- Runs a fallible loop body over a list. -/
def forLoop {σ α : Type} (f : σ → α → Option σ) : σ → List α → Option σ
  | s, [] => some s
  | s, x :: xs => match f s x with | none => none | some s' => forLoop f s' xs

/-- `Instance::sanitize` (sat.rs l.862-946). -/
def sanitize (s : SatInstance VM) : Option (SatInstance VM) :=
  match forLoop sanitizePb ⟨s.cnf, s.cards, [], false⟩ s.pbs with
  | none => none
  | some t =>
    match forLoop sanitizeCard { t with cards := [] } t.cards with
    | none => none
    | some u =>
      if u.unsat then
        some { cnf := [[Lit.mk' 0 false], [Lit.mk' 0 true]], cards := [], pbs := [], vm := s.vm }
      else some { cnf := u.cnf.filterMap Clause.sanitize, cards := u.cards, pbs := u.pbs, vm := s.vm }

/-- `Instance::evaluate` (sat.rs l.950-972); `none` is the `unreachable!` of `PbConstraint::evaluate`. -/
def evaluate (s : SatInstance VM) (a : Assignment) : Option TernaryVal :=
  match (s.pbs.map fun p => p.evaluate a).mapM id with
  | none => none
  | some ts => some (Cnf.evalLoop .true
      (Cnf.evaluate s.cnf a :: (s.cards.map fun c => c.evaluate a) ++ ts))

/-- `Instance::unsat_constraint` (sat.rs l.975-992). A panicking PB evaluation (impossible, see C14) counts
as different from `True`. -/
def unsatConstraint (s : SatInstance VM) (a : Assignment) : Option ConstraintRef :=
  match s.cnf.find? (fun c => decide (Clause.evaluate c a ≠ .true)) with
  | some c => some (.clause c)
  | none =>
    match s.cards.find? (fun c => decide (c.evaluate a ≠ .true)) with
    | some c => some (.card c)
    | none =>
      match s.pbs.find? (fun c => decide (c.evaluate a ≠ some .true)) with
      | some c => some (.pb c)
      | none => none

/-- Re-indexing the literals of a cardinality constraint in place (sat.rs l.722-724). -/
def reindexCard (m : ReindexVM) : CardConstraint → CardConstraint × ReindexVM
  | .ub l b => let (l', m') := m.reindexLits l; (.ub l' b, m')
  | .lb l b => let (l', m') := m.reindexLits l; (.lb l' b, m')
  | .eq l b => let (l', m') := m.reindexLits l; (.eq l' b, m')
/-- Re-indexing the literals of weighted literals in place (sat.rs l.725-728). -/
def reindexWLits (m : ReindexVM) (ls : List (Lit × Nat)) : List (Lit × Nat) × ReindexVM :=
  let (ls', m') := m.reindexLits (ls.map (·.1)); (ls'.zip (ls.map (·.2)), m')
/-- See `reindexWLits`. -/
def reindexPb (m : ReindexVM) : PbConstraint → PbConstraint × ReindexVM
  | .ub l w b => let (l', m') := reindexWLits m l; (.ub l' w b, m')
  | .lb l w b => let (l', m') := reindexWLits m l; (.lb l' w b, m')
  | .eq l w b => let (l', m') := reindexWLits m l; (.eq l' w b, m')
/-- Stateful `for_each` over a list of constraints. -/
def reindexList {α : Type} (f : ReindexVM → α → α × ReindexVM) (m : ReindexVM) : List α → List α × ReindexVM
  | [] => ([], m)
  | x :: xs => let (x', m') := f m x; let (xs', m'') := reindexList f m' xs; (x' :: xs', m'')
/-- `Instance::reindex` with a `ReindexingVarManager` (sat.rs l.717-735). -/
def reindex (s : SatInstance VM) (m : ReindexVM) : SatInstance ReindexVM :=
  let (cnf, m) := reindexList ReindexVM.reindexLits m s.cnf
  let (cards, m) := reindexList reindexCard m s.cards
  let (pbs, m) := reindexList reindexPb m s.pbs
  { cnf := cnf, cards := cards, pbs := pbs, vm := m }
/-- `Instance::var_set` (sat.rs l.751-755): the variables in increasing order without repetition. -/
def varSet (s : SatInstance VM) : List Nat :=
  (((s.cnf.flatten.map Lit.var) ++ (s.cards.flatMap fun c => c.lits.map Lit.var) ++
    (s.pbs.flatMap fun p => p.lits.map fun q => q.1.var)).eraseDups).mergeSort
/-- `Instance::reindex_ordered` (sat.rs l.762-771). -/
def reindexOrdered (s : SatInstance VM) (m : ReindexVM) : SatInstance ReindexVM :=
  s.reindex (s.varSet.foldl (fun m v => (m.reindex v).2) m)

end SatInstance
end RustSat
