import Verif.Model.Gte
import Verif.Model.Dpw
/-
Encodings that do not own their database but reference it (/repo/src/encodings/card/totalizer/referenced.rs, /repo/src/encodings/pb/gte/referenced.rs,
/repo/src/encodings/pb/dpw/referenced.rs), so that several encodings can share nodes. `Tot` and `TotCell`, `Gte` and `GteCell`,
`DynamicPolyWatchdog` and `DynamicPolyWatchdogCell` have the same code up to the way of borrowing the database and are one model each. The
state is the database, the variable manager and the collector (`TotDb.St`); `none` is a panic.
-/
namespace RustSat
open TotDb Card

/-- The body of the loop of `Db::reset_vars` (totdb/mod.rs l.610-620). -/
def TotDb.Node.resetVars : Node → Node
  | .leaf l => .leaf l
  | .dummy => .dummy
  | .unit lits d n l r => .unit (lits.map fun _ => .none) d n l r
  | .general lits d n m l r => .general (lits.map fun x => (x.1, .none)) d n m l r

/-- `Db::reset_vars` (totdb/mod.rs l.605-622). -/
def TotDb.Db.resetVars (db : Db) : Db := { db with nodes := db.nodes.map Node.resetVars }

/-! ### The totalizer -/

namespace RefTot
variable {VM : Type} [ManageVars VM]

/-- `Encode::n_lits` (totalizer/referenced.rs l.75-85). -/
def nLits (db : Db) (root : Nat) : Nat := (db.node root).len

/-- `EncodeIncremental::reserve` (totalizer/referenced.rs l.87-99). -/
def reserve (root : Nat) (st : St VM) : Option (St VM) := reserveVars (root + 1) st (NodeCon.full root)

/-- `encode_ub_change` (totalizer/referenced.rs l.265-319). -/
def encodeUbChange (root : Nat) (r : URange) (st : St VM) : Option (St VM) :=
  let range := prepareUbRange (nLits st.db root) r
  defineAll st root .if_ (List.range' range.1 (range.2 - range.1))

/-- `encode_ub` (totalizer/referenced.rs l.102-114, l.142-154). -/
def encodeUb (root : Nat) (r : URange) (st : St VM) : Option (St VM) :=
  encodeUbChange root r { st with db := st.db.resetEncoded .if_ }

/-- `enforce_ub` (totalizer/referenced.rs l.116-138, l.156-178). -/
def enforceUb (db : Db) (root : Nat) (ub : Nat) : Res EnforceError (List Lit) :=
  if ub ≥ nLits db root then .ok []
  else
    match db.node root with
    | .leaf l => .ok [l.neg]
    | .unit lits .. =>
      match lits[ub]? with
      | none => .panic
      | some (.lit l (some s)) => if s.hasIf then .ok [l.neg] else .err .notEncoded
      | some _ => .err .notEncoded
    | _ => .panic

/-- `encode_lb_change` (totalizer/referenced.rs l.321-375). -/
def encodeLbChange (root : Nat) (r : URange) (st : St VM) : Option (St VM) :=
  let range := prepareLbRange (nLits st.db root) r
  defineAll st root .onlyIf ((List.range' range.1 (range.2 - range.1)).map (· - 1))

/-- `encode_lb` (totalizer/referenced.rs l.182-194, l.222-238): the semantics that are reset are those of upper bounds. -/
def encodeLb (root : Nat) (r : URange) (st : St VM) : Option (St VM) :=
  encodeLbChange root r { st with db := st.db.resetEncoded .if_ }

/-- `enforce_lb` (totalizer/referenced.rs l.196-219, l.240-262): for the bound zero, `lb - 1` is an overflow or an index out of bounds. -/
def enforceLb (db : Db) (root : Nat) (lb : Nat) : Res EnforceError (List Lit) :=
  if lb > nLits db root then .err .unsat
  else
    match db.node root with
    | .leaf l => .ok [l]
    | .unit lits .. =>
      if lb = 0 then .panic
      else
        match lits[lb - 1]? with
        | none => .panic
        | some (.lit l (some s)) => if s.hasOnlyIf then .ok [l] else .err .notEncoded
        | some _ => .err .notEncoded
    | _ => .panic

/-- `encode_both` (totalizer/referenced.rs l.377-409) and `encode_both_change` (card/mod.rs l.324-336). -/
def encodeBoth (root : Nat) (r : URange) (st : St VM) : Option (St VM) :=
  match encodeUbChange root r st with
  | none => none
  | some st => encodeLbChange root r st

end RefTot

/-! ### The generalized totalizer -/

namespace RefGte
variable {VM : Type} [ManageVars VM]

/-- `Encode::weight_sum` (gte/referenced.rs l.85-88, l.106-109). -/
def weightSum (db : Db) (con : NodeCon) : Nat := con.map (db.node con.id).maxVal

/-- `next_higher` (gte/referenced.rs l.90-95, l.111-116). -/
def nextHigher (db : Db) (con : NodeCon) (val : Nat) : Nat :=
  match ((db.node con.id).valsFrom (con.revMapRoundUp (val + 1))).head? with
  | some v => con.map v
  | none => val + 1

/-- `next_lower` (gte/referenced.rs l.97-102, l.118-123): `none` is the overflow of `val - 1`, a panic in debug mode. -/
def nextLower (db : Db) (con : NodeCon) (val : Nat) : Option Nat :=
  match ((db.node con.id).valsRange con.offset (con.revMapRoundUp val)).getLast? with
  | some v => some (con.map v)
  | none => if val = 0 then none else some (val - 1)

/-- `EncodeIncremental::reserve` (gte/referenced.rs l.126-136). -/
def reserve (con : NodeCon) (st : St VM) : Option (St VM) := reserveVars (con.id + 1) st con

/-- `encode_ub_change` (gte/referenced.rs l.257-320). -/
def encodeUbChange (con : NodeCon) (maxLeafWeight : Nat) (r : URange) (st : St VM) : Option (St VM) :=
  let range := Pb.prepareUbRange (weightSum st.db con) r
  if range.2 ≤ range.1 then some st
  else defineVals st con.id ((st.db.node con.id).valsRange (con.revMapRoundUp (range.1 + 1)) (con.revMap (range.2 + maxLeafWeight) + 1))

/-- `encode_ub` (gte/referenced.rs l.139-151, l.200-212). -/
def encodeUb (con : NodeCon) (maxLeafWeight : Nat) (r : URange) (st : St VM) : Option (St VM) :=
  encodeUbChange con maxLeafWeight r { st with db := st.db.resetEncoded .if_ }

/-- `enforce_ub` (gte/referenced.rs l.153-196, l.214-255). -/
def enforceUb (db : Db) (con : NodeCon) (maxLeafWeight : Nat) (ub : Nat) : Res EnforceError (List Lit) :=
  if ub ≥ weightSum db con then .ok []
  else Gte.enforceVals (db.node con.id)
    ((db.node con.id).valsRange (con.revMapRoundUp (ub + 1)) (con.revMap (ub + maxLeafWeight) + 1))

end RefGte

/-! ### The dynamic polynomial watchdog -/

namespace RefDpw
variable {VM : Type} [ManageVars VM]

/-- `con_weight_queue` (dpw/mod.rs l.472-491). -/
def conWeightQueue : List NodeCon → WeightQ → WeightQ
  | [], q => q
  | c :: cons, q => conWeightQueue cons (WeightQ.push q c.multiplier { c with multiplier := 1 })

/-- The user builds a structure for weighted literals in a database: `lit_weight_queue` (dpw/mod.rs l.454-463), where a weight of zero panics
(`NodeCon::weighted`), and then `build_structure` (l.500-615) as the topmost structure. What is left of the queue, if not all of the precision is
built, is dropped. -/
def ofLits (lits : List (Lit × Nat)) (precDiv : Nat) (st : St VM) : Option (Dpw.Structure × St VM) :=
  if lits.any fun x => x.2 == 0 then none
  else
    let (q, db) := Dpw.litWeightQueue lits st.db []
    (Dpw.buildStructure true q precDiv db st.vm).map fun (s, _, db, vm) => (s, ⟨db, vm, st.cls⟩)

/-- The user builds a structure for weighted trees in a database: `NodeCon::weighted` for each of their roots, `con_weight_queue` (dpw/mod.rs
l.472-491), and then `build_structure` as above. -/
def ofTrees (trees : List (Nat × Nat)) (precDiv : Nat) (st : St VM) : Option (Dpw.Structure × St VM) :=
  if trees.any fun x => x.2 == 0 then none
  else
    (Dpw.buildStructure true (conWeightQueue (trees.map fun x => NodeCon.weighted x.1 x.2) []) precDiv st.db st.vm).map
      fun (s, _, db, vm) => (s, ⟨db, vm, st.cls⟩)

/-- `Encode::weight_sum` (dpw/referenced.rs l.71-83). -/
def weightSum (db : Db) (s : Dpw.Structure) : Nat := (db.node s.root).len * 2 ^ s.outputPower

/-- `EncodeIncremental::reserve` (dpw/referenced.rs l.85-98). -/
def reserve (s : Dpw.Structure) (st : St VM) : Option (St VM) := reserveVars (s.root + 1) st (NodeCon.full s.root)

/-- `encode_ub_change` (dpw/referenced.rs l.156-203). -/
def encodeUbChange (s : Dpw.Structure) (r : URange) (st : St VM) : Option (St VM) :=
  let range := Pb.prepareUbRange (weightSum st.db s) r
  if range.2 ≤ range.1 then some st
  else
    let ow := 2 ^ s.outputPower
    Dpw.encodeOutputs s.root (rangeIncl (range.1 / ow) ((range.2 - 1) / ow)) st

/-- `encode_ub` (dpw/referenced.rs l.101-113, l.130-142). -/
def encodeUb (s : Dpw.Structure) (r : URange) (st : St VM) : Option (St VM) :=
  encodeUbChange s r { st with db := st.db.resetEncoded .if_ }

/-- `enforce_ub` (dpw/referenced.rs l.115-117, l.144-146). -/
def enforceUb (db : Db) (s : Dpw.Structure) (ub : Nat) : Res EnforceError (List Lit) := Dpw.enforceStructure s ub db

/-- `coarse_ub` (dpw/referenced.rs l.119-122, l.148-151). -/
def coarseUb (s : Dpw.Structure) (ub : Nat) : Nat := ub / 2 ^ s.outputPower * 2 ^ s.outputPower

end RefDpw
end RustSat
