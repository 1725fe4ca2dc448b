import Verif.Model.Dpw
import Verif.Model.EncodeConstr
import Verif.Model.ProblemEnc
import Verif.Model.Clustering
/-
Model of the CNF encoding of knapsacks (tools/src/encodings/cnf/knapsack.rs) as it is used by the tool `encodings`, that is, with the
dynamic polynomial watchdog.
-/
namespace RustSat
open Dimacs

/-- `encode_ub_constr` (src/encodings/pb/mod.rs l.121-143) for the dynamic polynomial watchdog. -/
def Dpw.encodeUbConstr {VM : Type} [ManageVars VM] (lits : List (Lit × Nat)) (b : Int) (vm : VM) (cls : ClauseSet) :
    Res Unit (VM × ClauseSet) :=
  if b < 0 then .err ()
  else match Dpw.new lits with
    | none => .panic
    | some e =>
      match e.encodeUb ⟨.incl b.natAbs, .incl b.natAbs⟩ vm cls with
      | none => .panic
      | some (e, vm, cls) =>
        match e.enforceUb b.natAbs with
        | .ok units => .ok (vm, cls ++ unitClauses units)
        | _ => .panic

namespace Problems

/-- `Clause` (cnf/knapsack.rs l.11-16). -/
inductive KnapsackClause where
  | capacity (rest : ClauseSet)
  | soft (item obj : Nat)

/-- The clauses for the capacity, and the variable manager (cnf/knapsack.rs l.24-44); `none`: panic. -/
def KnapsackData.capacityCnf (d : KnapsackData) : Option (BasicVM × ClauseSet) :=
  let r := Am1.newVars d.items.length (⟨0⟩ : BasicVM)
  match PbConstraint.newUb ((r.1.zip d.items).map fun p => (Lit.pos p.1, castIsize p.2.weight)) (castIsize d.capacity) with
  | .ub lits _ b =>
    match Dpw.encodeUbConstr lits b r.2 [] with
    | .ok x => some x
    | _ => none
  | _ => none

/-- A line in front of the remaining ones. -/
def consLine (l : McnfLine) : SearchResult (List McnfLine) → SearchResult (List McnfLine)
  | .done ls => .done (l :: ls)
  | .panic => .panic
  | .running => .running

/-- Calling `next` (cnf/knapsack.rs l.50-79) until it returns `None`. -/
def KnapsackData.cnfRun (d : KnapsackData) : Nat → KnapsackClause → SearchResult (List McnfLine)
  | 0, _ => .running
  | fuel + 1, .capacity (c :: rest) => consLine (.hard c) (d.cnfRun fuel (.capacity rest))
  | fuel + 1, .capacity [] => d.cnfRun fuel (.soft 0 0)
  | fuel + 1, .soft i o =>
    match d.items[i]? with
    | none => .done []
    | some it =>
      match it.values[o]? with
      | none => d.cnfRun fuel (.soft (i + 1) 0)
      | some v =>
        match castLit i false with
        | none => .panic
        | some l => consLine (.soft [l] v o) (d.cnfRun fuel (.soft i (o + 1)))

/-- All lines of the encoding. -/
def KnapsackData.cnfLines (d : KnapsackData) (fuel : Nat) : SearchResult (List McnfLine) :=
  match d.capacityCnf with
  | none => .panic
  | some x => d.cnfRun fuel (.capacity x.2)

end Problems
end RustSat
