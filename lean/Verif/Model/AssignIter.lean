import Verif.Model.Gte
import Verif.Model.Assignment
/-
Model of extending an assignment of input literals to the variables of a totalizer (src/encodings/totdb/mod.rs).

`none` is a panic. The last element of the vector `trace` is the head of the list here. Values are unbounded numbers;
the mark `usize::MAX` of values that were not computed is `none`. `debug_assert!`s are not modelled.
-/
namespace RustSat
namespace TotDb

/-- `ValueIter` (totdb/mod.rs l.1369-1384); the database and the assignment are arguments of the functions. -/
structure ValueIter where
  trace : List (NodeCon × Option Nat)
  cache : List (Option Nat)

/-- The value of a leaf (totdb/mod.rs l.1404-1415, l.1488-1500). Panics if the literal is not assigned or if the node is
no leaf. -/
def leafVal (db : Db) (as : Assignment) (id : Nat) : Option Nat :=
  match db.node id with
  | .leaf l =>
    match as.litValue l with
    | .true => some 1
    | .false => some 0
    | .dontCare => none
  | _ => none

/-- Storing the value of the leaf that is last in the trace (totdb/mod.rs l.1402-1415, l.1486-1500). -/
def storeLeaf (db : Db) (as : Assignment) (trace : List (NodeCon × Option Nat)) : Option (List (NodeCon × Option Nat)) :=
  match trace with
  | [] => none
  | (c, _) :: rest => (leafVal db as c.id).map fun v => (c, some v) :: rest

/-- The loop of `ValueIter::new` (totdb/mod.rs l.1396-1401): following left connections. The number of iterations is
bounded by `fuel`; every iteration goes to a node with a smaller index. -/
def goLeft (db : Db) : Nat → List (NodeCon × Option Nat) → Option (List (NodeCon × Option Nat))
  | 0, _ => none
  | fuel + 1, trace =>
    match trace with
    | [] => none
    | (c, v) :: rest =>
      match (db.node c.id).left with
      | none => some ((c, v) :: rest)
      | some con => goLeft db fuel ((con, none) :: (c, v) :: rest)

/-- `ValueIter::new` (totdb/mod.rs l.1386-1424). -/
def ValueIter.new (db : Db) (as : Assignment) (root : Nat) : Option ValueIter :=
  (goLeft db (root + 1) [(NodeCon.full root, none)]).bind fun trace =>
    (storeLeaf db as trace).map fun trace => ⟨trace, List.replicate (root + 1) none⟩

/-- The loop of `ValueIter::next` and storing the value of a leaf after it (totdb/mod.rs l.1463-1500). The node
`current` of the code is the last one of the trace. -/
def goDown (db : Db) (as : Assignment) : Nat → List (NodeCon × Option Nat) → List (Option Nat) → Option ValueIter
  | 0, _, _ => none
  | fuel + 1, trace, cache =>
    match trace with
    | [] => none
    | (c, v) :: rest =>
      match (db.node c.id).left with
      | none => (storeLeaf db as ((c, v) :: rest)).map fun trace => ⟨trace, cache⟩
      | some con =>
        match cache[con.id]? with
        | none => none
        | some (some lv) =>
          match (db.node c.id).right with
          | none => none
          | some right =>
            match cache[right.id]? with
            | none => none
            | some (some rv) =>
              let val := con.map lv + right.map rv
              if c.id < cache.length then some ⟨(c, some val) :: rest, cache.set c.id (some val)⟩ else none
            | some none => goDown db as fuel ((right, none) :: (c, some (con.map lv)) :: rest) cache
        | some none => goDown db as fuel ((con, none) :: (c, v) :: rest) cache

/-- `Iterator::next for ValueIter` (totdb/mod.rs l.1427-1503). The outer option is a panic, the inner one the end of the
iteration. -/
def ValueIter.next (db : Db) (as : Assignment) (it : ValueIter) : Option (Option ((Nat × Nat) × ValueIter)) :=
  match it.trace with
  | [] => some none
  | (_, none) :: _ => none
  | (p, some pv) :: rest =>
    match rest with
    | [] => some (some ((p.id, pv), ⟨[], it.cache⟩))
    | (c, some lv) :: rest =>
      let val := lv + p.map pv
      if c.id < it.cache.length then
        some (some ((p.id, pv), ⟨(c, some val) :: rest, it.cache.set c.id (some val)⟩))
      else none
    | (c, none) :: rest =>
      match (db.node c.id).right with
      | none => some (some ((p.id, pv), ⟨(c, some (p.map pv)) :: rest, it.cache⟩))
      | some right =>
        match it.cache[right.id]? with
        | none => none
        | some (some rv) =>
          let val := p.map pv + right.map rv
          if c.id < it.cache.length then
            some (some ((p.id, pv), ⟨(c, some val) :: rest, it.cache.set c.id (some val)⟩))
          else none
        | some none =>
          (goDown db as (right.id + 1) ((right, none) :: (c, some (p.map pv)) :: rest) it.cache).map fun it =>
            some ((p.id, pv), it)

/-- Everything that a `ValueIter` yields, by at most `fuel` calls; `none` if it panics or if there is more. -/
def ValueIter.collect (db : Db) (as : Assignment) : Nat → ValueIter → Option (List (Nat × Nat))
  | 0, _ => none
  | fuel + 1, it =>
    match it.next db as with
    | none => none
    | some none => some []
    | some (some (y, it)) => (ValueIter.collect db as fuel it).map fun ys => y :: ys

/-- `Db::value` (totdb/mod.rs l.635-645): the last value that is yielded. -/
def Db.nodeValue (db : Db) (as : Assignment) (fuel root : Nat) : Option Nat :=
  ((ValueIter.new db as root).bind (ValueIter.collect db as fuel)).bind fun ys => ys.getLast?.map (·.2)

/-- What an `OLitIter` yields (totdb/mod.rs l.1506-1543): the reserved or encoded outputs of a node with their values. -/
def Node.olits : Node → List (Lit × Nat)
  | .unit lits .. => lits.zipIdx.filterMap fun x => x.1.lit?.map fun l => (l, x.2 + 1)
  | .general lits .. => lits.filterMap fun x => x.2.lit?.map fun l => (l, x.1)
  | .leaf _ | .dummy => []

/-- The literals that `AssignIter` yields for one node (totdb/mod.rs l.1573-1575). -/
def assignNode (db : Db) (y : Nat × Nat) : List Lit :=
  (db.node y.1).olits.map fun o => if y.2 ≥ o.2 then o.1 else o.1.neg

/-- Everything that the iterator returned by `Db::strictly_extend_assignment` yields (totdb/mod.rs l.624-633,
`AssignIter` l.1545-1583): the outputs of one node after the other. -/
def Db.strictlyExtend (db : Db) (as : Assignment) (fuel root : Nat) : Option (List Lit) :=
  ((ValueIter.new db as root).bind (ValueIter.collect db as fuel)).map fun ys => ys.flatMap (assignNode db)

end TotDb

open TotDb

/-- `Totalizer::strictly_extend_assignment` (card/totalizer/mod.rs l.146-160). `none` is a panic, or more than `fuel`
steps. -/
def Totalizer.strictlyExtend (t : Totalizer) (as : Assignment) (fuel : Nat) : Option (List Lit) :=
  match t.root with
  | none => some []
  | some root => t.db.strictlyExtend as fuel root

/-- `GeneralizedTotalizer::strictly_extend_assignment` (pb/gte/mod.rs l.178-192). -/
def Gte.strictlyExtend (t : Gte) (as : Assignment) (fuel : Nat) : Option (List Lit) :=
  match t.root with
  | none => some []
  | some con => t.db.strictlyExtend as fuel con.id

end RustSat
