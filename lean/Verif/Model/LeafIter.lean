import Verif.Model.NodeDb
/-
Model of the iterators over the leaves of a totalizer (`src/encodings/nodedb.rs`).

`none` is a panic. The last element of the vector `trace` is the head of the list here. Integers are unbounded.
`debug_assert!`s are not modelled.
-/
namespace RustSat
namespace TotDb

/-- `Node::lit` (totdb/mod.rs l.934-946, `UnitNode::lit` l.1130-1132, `GeneralNode::lit`
l.1260-1262). `UnitNode::lit` panics for values without an output; `none` here, as the caller panics. -/
def Node.litAt : Node → Nat → Option Lit
  | .leaf l, v => if v = 1 then some l else none
  | .unit lits .., v => if v = 0 then none else (lits[v - 1]?).bind LitData.lit?
  | .general lits .., v => (lits.lookup v).bind LitData.lit?
  | .dummy, _ => none

/-- `LeafInfo` (nodedb.rs l.821-828); the range of values is from `lo` to before `hi`. -/
structure LeafInfo where
  id : Nat
  weight : Nat
  lo : Nat
  hi : Nat

/-- `LeafIter` (nodedb.rs l.727-739); an element of the trace is a node, whether we moved right to it, and the multiplier. -/
structure LeafIter where
  trace : List (Nat × Bool × Nat)
  lo : Nat
  hi : Nat

/-- The range of values of a pseudo leaf (nodedb.rs l.755-761, l.788-795, l.801-807); `none` if the connection transmits
everything. -/
def conRange (db : Db) (con : NodeCon) : Option (Nat × Nat) :=
  if con.offset > 0 || con.lenLimit.isSome then
    some (con.offset + 1, match con.lenLimit with
      | some lim => lim + con.offset + 1
      | none => (db.node con.id).maxVal + 1)
  else none

/-- The loops following left connections (nodedb.rs l.751-764, l.797-810), from the last node of the trace. -/
def leafDown (db : Db) : Nat → List (Nat × Bool × Nat) → Option LeafIter
  | 0, _ => none
  | _ + 1, [] => none
  | fuel + 1, (id, right, mult) :: rest =>
    match (db.node id).left with
    | none => some ⟨(id, right, mult) :: rest, 1, 2⟩
    | some con =>
      let trace := (con.id, false, mult * con.multiplier) :: (id, right, mult) :: rest
      match conRange db con with
      | some r => some ⟨trace, r.1, r.2⟩
      | none => leafDown db fuel trace

/-- `LeafIter::new` (nodedb.rs l.746-769). -/
def LeafIter.new (db : Db) (root : Nat) : Option LeafIter := leafDown db (root + 1) [(root, false, 1)]

/-- `LeafIter::find_next_leaf_node` (nodedb.rs l.771-811). -/
def LeafIter.findNext (db : Db) (it : LeafIter) : Option LeafIter :=
  match it.trace.dropWhile (·.2.1) with
  | [] => none
  | [_] => some { it with trace := [] }
  | _ :: (p, right, mult) :: rest =>
    match (db.node p).right with
    | none => none
    | some con =>
      let trace := (con.id, true, mult * con.multiplier) :: (p, right, mult) :: rest
      match conRange db con with
      | some r => some ⟨trace, r.1, r.2⟩
      | none => leafDown db (con.id + 1) trace

/-- `Iterator::next for LeafIter` (nodedb.rs l.831-851). -/
def LeafIter.next (db : Db) (it : LeafIter) : Option (Option (LeafInfo × LeafIter)) :=
  match it.trace with
  | [] => some none
  | (id, _, mult) :: _ => (it.findNext db).map fun it' => some (⟨id, mult, it.lo, it.hi⟩, it')

/-- `LeafLitIter` (nodedb.rs l.853-860). -/
structure LeafLitIter where
  leaves : LeafIter
  current : LeafInfo
  lastVal : Nat

/-- The loop in `LeafLitIter::next` (nodedb.rs l.893-904): the next value. -/
def LeafLitIter.findVal (db : Db) : Nat → LeafLitIter → Option (Option (Nat × LeafLitIter))
  | 0, _ => none
  | fuel + 1, it =>
    match ((db.node it.current.id).valsRange it.current.lo it.current.hi).head? with
    | some v => some (some (v, it))
    | none =>
      match it.leaves.next db with
      | none => none
      | some none => some none
      | some (some (info, leaves)) => LeafLitIter.findVal db fuel ⟨leaves, info, info.lo - 1⟩

/-- The start of `LeafLitIter::next` (nodedb.rs l.888-892). -/
def LeafLitIter.refill (db : Db) (it : LeafLitIter) : Option (Option LeafLitIter) :=
  if it.current.hi ≤ it.current.lo then
    match it.leaves.next db with
    | none => none
    | some none => some none
    | some (some (info, leaves)) => some (some ⟨leaves, info, info.lo - 1⟩)
  else some (some it)

/-- `Iterator::next for LeafLitIter` (nodedb.rs l.881-911). -/
def LeafLitIter.next (db : Db) (fuel : Nat) (it : LeafLitIter) : Option (Option ((Lit × Nat) × LeafLitIter)) :=
  match it.refill db with
  | none => none
  | some none => some none
  | some (some it) =>
    match LeafLitIter.findVal db fuel it with
    | none => none
    | some none => some none
    | some (some (v, it)) =>
      ((db.node it.current.id).litAt v).map fun l =>
        some ((l, it.current.weight * (v - it.lastVal)), ⟨it.leaves, { it.current with lo := v + 1 }, v⟩)

/-- Everything that the iterator yields; `none` if it panics or if there is more. -/
def LeafLitIter.collect (db : Db) : Nat → LeafLitIter → Option (List (Lit × Nat))
  | 0, _ => none
  | fuel + 1, it =>
    match it.next db (fuel + 1) with
    | none => none
    | some none => some []
    | some (some (x, it)) => (LeafLitIter.collect db fuel it).map fun xs => x :: xs

/-- Everything that `db.leaf_iter(root).lits()` yields (nodedb.rs l.672-677, l.813-817, l.867-877). -/
def leafIterLits (db : Db) (root fuel : Nat) : Option (List (Lit × Nat)) :=
  (LeafIter.new db root).bind fun leaves => LeafLitIter.collect db fuel ⟨leaves, ⟨0, 0, 0, 0⟩, 0⟩

end TotDb
end RustSat
