import Verif.Model.Totalizer
/-
Model of removing nodes from a totalizer database: `NodeById::drain` for `Db` (src/encodings/totdb/mod.rs). The data for
proof logging is not modelled here.
-/
namespace RustSat
namespace TotDb

/-- `Range::contains`. -/
def inRange (a b i : Nat) : Bool := decide (a ≤ i) && decide (i < b)

/-- The adjustment of one id (totdb/mod.rs l.112-116, l.1073-1078). -/
def shiftId (a b i : Nat) : Nat := if b ≤ i then i - (b - a) else i

/-- The adjustment of the two connections in `Node::drain` (totdb/mod.rs l.1067-1079). An error is the id that is
referenced; the node is not changed then. -/
def drainCons (a b : Nat) (l r : NodeCon) : Except Nat (NodeCon × NodeCon) :=
  if inRange a b l.id then .error l.id
  else if inRange a b r.id then .error r.id
  else .ok ({ l with id := shiftId a b l.id }, { r with id := shiftId a b r.id })

/-- `Node::drain` (totdb/mod.rs l.1062-1082). -/
def Node.drain (a b : Nat) : Node → Except Nat Node
  | .leaf l => .ok (.leaf l)
  | .dummy => .ok .dummy
  | .unit lits d n l r => (drainCons a b l r).map fun c => .unit lits d n c.1 c.2
  | .general lits d n m l r => (drainCons a b l r).map fun c => .general lits d n m c.1 c.2

/-- The loop over the nodes after the range (totdb/mod.rs l.105-112), from the node `idx` on. Nodes before a failing one
have been changed. -/
def drainFrom (a b : Nat) : Nat → List Node → List Node × Option (Nat × Nat)
  | _, [] => ([], none)
  | idx, n :: ns =>
    match n.drain a b with
    | .error c => (n :: ns, some (idx, c))
    | .ok n' => (n' :: (drainFrom a b (idx + 1) ns).1, (drainFrom a b (idx + 1) ns).2)

/-- The result of `drain`: the removed nodes, `DrainError`, or a panic. -/
inductive Drained where
  | removed (nodes : List Node)
  | err (referencing referenced : Nat)
  | panic
deriving DecidableEq, Repr

/-- The first id of the range (totdb/mod.rs l.93-97). -/
def drainStart : Bound → Nat
  | .incl i => i
  | .excl i => i + 1
  | .unbounded => 0

/-- The id after the range (totdb/mod.rs l.97-101). -/
def drainEnd (len : Nat) : Bound → Nat
  | .incl i => i + 1
  | .excl i => i
  | .unbounded => len

/-- `lookup_leaf.retain` and the loop after it (totdb/mod.rs l.113-118). Entries of the list that are hidden by earlier ones
are no entries of the hash map, so that the current id of the literal decides. -/
def drainLookup (a b : Nat) (m : List (Lit × Nat)) : List (Lit × Nat) :=
  (m.filter fun x => (m.lookup x.1).any fun id => !inRange a b id).map fun x => (x.1, shiftId a b x.2)

/-- `Db::drain` (totdb/mod.rs l.89-120), with the iterator over the removed nodes dropped afterwards. `Vec::drain` panics if
the range ends after the last node. -/
def Db.drain (db : Db) (lo hi : Bound) : Drained × Db :=
  let a := drainStart lo
  let b := drainEnd db.nodes.length hi
  if b ≤ a then (.removed [], db)
  else
    let (after, e) := drainFrom a b b (db.nodes.drop b)
    let nodes := db.nodes.take b ++ after
    match e with
    | some (i, c) => (.err i c, { db with nodes := nodes })
    | none =>
      let lookup := drainLookup a b db.lookupLeaf
      if b ≤ db.nodes.length then
        (.removed ((nodes.take b).drop a), { db with nodes := nodes.take a ++ nodes.drop b, lookupLeaf := lookup })
      else (.panic, { db with nodes := nodes, lookupLeaf := lookup })

end TotDb
end RustSat
