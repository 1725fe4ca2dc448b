import Verif.Model.VarManager
import Verif.Model.Am1
/-
Model of `src/encodings/nodedb.rs` and of the node types of `src/encodings/totdb/mod.rs`.

`NodeId` is `Nat`. Non-zero integer types are `Nat`; that they are positive is part of `NodeCon.WF`. Integers are
unbounded. Indexing `db[id]` out of range (a panic in Rust) yields a dummy node; that this does not happen is
part of the invariant `Db.WF`.
-/
namespace RustSat
namespace TotDb

/-- `Semantics` (totdb/mod.rs l.651-658). -/
inductive Semantics where
  | if_ | onlyIf | iff_
deriving DecidableEq, Repr

namespace Semantics
/-- `Semantics::has_if` (l.664-666). -/
def hasIf : Semantics → Bool
  | .if_ | .iff_ => true
  | _ => false
/-- `Semantics::has_only_if` (l.671-673). -/
def hasOnlyIf : Semantics → Bool
  | .onlyIf | .iff_ => true
  | _ => false
/-- `Semantics::add` (l.677-686). -/
def add : Semantics → Semantics → Semantics
  | .if_, .onlyIf => .iff_
  | .onlyIf, .if_ => .iff_
  | _, .iff_ => .iff_
  | s, _ => s
/-- `Semantics::remove` (l.691-697). -/
def remove : Semantics → Semantics → Option Semantics
  | .iff_, .if_ => some .onlyIf
  | .onlyIf, .if_ => some .onlyIf
  | .iff_, .onlyIf => some .if_
  | .if_, .onlyIf => some .if_
  | _, _ => none
/-- `Semantics::missing` (l.702-708). -/
def missing : Semantics → Semantics → Option Semantics
  | .if_, .iff_ => some .onlyIf
  | .if_, .onlyIf => some .onlyIf
  | .onlyIf, .iff_ => some .if_
  | .onlyIf, .if_ => some .if_
  | _, _ => none
end Semantics

/-- `LitData` (totdb/mod.rs l.1284-1292). -/
inductive LitData where
  | none
  | lit (l : Lit) (sem : Option Semantics)
deriving DecidableEq, Repr

namespace LitData
/-- `LitData::new_lit` (l.1295-1300). -/
def newLit (l : Lit) : LitData := .lit l Option.none
/-- `LitData::lit` (l.1303-1308). -/
def lit? : LitData → Option Lit
  | .none => Option.none
  | .lit l _ => some l
/-- `LitData::add_semantics` (l.1331-1340); panics on `None`, which is unchanged here. -/
def addSemantics : LitData → Semantics → LitData
  | .none, _ => .none
  | .lit l (some s), new => .lit l (some (s.add new))
  | .lit l Option.none, new => .lit l (some new)
/-- `LitData::remove_semantics` (l.1343-1352). -/
def removeSemantics : LitData → Semantics → LitData
  | .none, _ => .none
  | .lit l (some s), r => .lit l (s.remove r)
  | .lit l Option.none, _ => .lit l Option.none
/-- `LitData::missing_semantics` (l.1356-1364). -/
def missingSemantics : LitData → Semantics → Option Semantics
  | .lit _ (some s), req => s.missing req
  | _, req => some req
/-- `semantics.has_if()` of an output, `false` if there is none. -/
def hasIf : LitData → Bool
  | .lit _ (some s) => s.hasIf
  | _ => false
/-- `semantics.has_only_if()` of an output, `false` if there is none. -/
def hasOnlyIf : LitData → Bool
  | .lit _ (some s) => s.hasOnlyIf
  | _ => false
end LitData

/-- `NodeCon` (nodedb.rs l.155-171). -/
structure NodeCon where
  id : Nat
  offset : Nat
  divisor : Nat
  multiplier : Nat
  lenLimit : Option Nat
deriving DecidableEq, Repr

namespace NodeCon
/-- `NodeCon::full` (l.176-184). -/
def full (id : Nat) : NodeCon := ⟨id, 0, 1, 1, none⟩
/-- `NodeCon::weighted` (l.192-200) for a positive weight. -/
def weighted (id w : Nat) : NodeCon := ⟨id, 0, 1, w, none⟩
/-- `NodeCon::offset_weighted` (l.209-217) for a positive weight. -/
def offsetWeighted (id offset w : Nat) : NodeCon := ⟨id, offset, 1, w, none⟩
/-- `NodeCon::single` (l.226-234) for a positive weight and `output > 0`. -/
def single (id output w : Nat) : NodeCon := ⟨id, output - 1, 1, w, some 1⟩
/-- `NodeCon::limited` (l.244-253) for a positive weight and number of literals. -/
def limited (id offset nLits w : Nat) : NodeCon := ⟨id, offset, 1, w, some nLits⟩
/-- `NodeCon::reweight` (l.263-268) for a positive weight. -/
def reweight (c : NodeCon) (w : Nat) : NodeCon := { c with multiplier := w }

/-- `NodeCon::map` (l.295-304). -/
def map (c : NodeCon) (val : Nat) : Nat :=
  if val ≤ c.offset then 0
  else match c.lenLimit with
    | some limit => min ((val - c.offset) / c.divisor) limit * c.multiplier
    | none => (val - c.offset) / c.divisor * c.multiplier
/-- `NodeCon::rev_map` (l.309-319). -/
def revMap (c : NodeCon) (val : Nat) : Nat :=
  match c.lenLimit with
  | some limit =>
    match min (val / c.multiplier) limit * c.divisor with
    | 0 => 0
    | x => x + c.offset
  | none => val / c.multiplier * c.divisor + c.offset
/-- `NodeCon::rev_map_no_limit` (l.326-328). -/
def revMapNoLimit (c : NodeCon) (val : Nat) : Nat := val / c.multiplier * c.divisor + c.offset
/-- `NodeCon::rev_map_round_up` (l.333-343). `val - 1` underflows (panics) for `val = 0` with a limit. -/
def revMapRoundUp (c : NodeCon) (val : Nat) : Nat :=
  let rounded := c.revMap (if val % c.multiplier ≠ 0 then val + c.multiplier else val)
  match c.lenLimit with
  | some limit => if (val - 1) / c.multiplier ≥ limit then (limit + 1) * c.divisor + c.offset else rounded
  | none => rounded
/-- `NodeCon::is_possible` (l.348-354). -/
def isPossible (c : NodeCon) (val : Nat) : Bool :=
  match c.lenLimit with
  | some limit => val % c.multiplier == 0 && decide (val / c.multiplier ≤ limit)
  | none => val % c.multiplier == 0
end NodeCon

/-- `Node` with `UnitNode` and `GeneralNode` (totdb/mod.rs l.731-740, l.1104-1110, l.1162-1169). -/
inductive Node where
  | leaf (l : Lit)
  | unit (lits : List LitData) (depth nLeaves : Nat) (left right : NodeCon)
  | general (lits : List (Nat × LitData)) (depth nLeaves maxVal : Nat) (left right : NodeCon)
  | dummy
deriving DecidableEq, Repr

namespace Node
/-- `Node::max_val` (l.749-756). -/
def maxVal : Node → Nat
  | .leaf _ => 1
  | .unit lits .. => lits.length
  | .general _ _ _ m _ _ => m
  | .dummy => 0
/-- `Node::len` (l.758-765). -/
def len : Node → Nat
  | .leaf _ => 1
  | .unit lits .. => lits.length
  | .general lits .. => lits.length
  | .dummy => 0
/-- `Node::depth` (l.830-835). -/
def depth : Node → Nat
  | .leaf _ | .dummy => 1
  | .unit _ d .. => d
  | .general _ d .. => d
/-- `Node::n_leaves` (l.837-845). -/
def nLeaves : Node → Nat
  | .leaf _ => 1
  | .dummy => 0
  | .unit _ _ n .. => n
  | .general _ _ n .. => n
/-- `Node::left` (l.822-828). -/
def left : Node → Option NodeCon
  | .leaf _ | .dummy => none
  | .unit _ _ _ l _ => some l
  | .general _ _ _ _ l _ => some l
/-- `Node::right` (l.814-820). -/
def right : Node → Option NodeCon
  | .leaf _ | .dummy => none
  | .unit _ _ _ _ r => some r
  | .general _ _ _ _ _ r => some r
/-- `Node::vals(from..until)` for a half-open range (l.767-812). The binary search in the sorted values of a
general node is a filter. -/
def valsRange (n : Node) (lo hi : Nat) : List Nat :=
  match n with
  | .leaf _ => if lo ≤ 1 ∧ 1 < hi then [1] else []
  | .unit lits .. => List.range' (max lo 1) (min hi (lits.length + 1) - max lo 1)
  | .general lits .. => (lits.map (·.1)).filter fun v => decide (lo ≤ v) && decide (v < hi)
  | .dummy => []
/-- `Node::vals(from..)` (l.767-812). -/
def valsFrom (n : Node) (lo : Nat) : List Nat :=
  match n with
  | .leaf _ => if lo ≤ 1 then [1] else []
  | .unit lits .. => List.range' (max lo 1) (lits.length + 1 - max lo 1)
  | .general lits .. => (lits.map (·.1)).filter fun v => decide (lo ≤ v)
  | .dummy => []
/-- `matches!(node, Node::General(_))`. -/
def isGeneral : Node → Bool
  | .general .. => true
  | _ => false
end Node

/-- `Db` (totdb/mod.rs l.43-53), without the data for proof logging. The hash map from literals to leaves is an
association list; only look-ups matter. -/
structure Db where
  nodes : List Node
  lookupLeaf : List (Lit × Nat)
  dummyId : Option Nat
deriving DecidableEq, Repr

namespace Db
/-- `Db::default`. -/
def empty : Db := ⟨[], [], none⟩
/-- `db[id]` (totdb/mod.rs l.129-135). -/
def node (db : Db) (id : Nat) : Node := db.nodes.getD id .dummy

/-- `Db::insert` (totdb/mod.rs l.57-75). -/
def insert (db : Db) (n : Node) : Nat × Db :=
  match n with
  | .leaf l =>
    match db.lookupLeaf.lookup l with
    | some id => (id, db)
    | none => (db.nodes.length,
        { db with nodes := db.nodes ++ [n], lookupLeaf := (l, db.nodes.length) :: db.lookupLeaf })
  | .dummy =>
    match db.dummyId with
    | some id => (id, db)
    | none => (db.nodes.length, { db with nodes := db.nodes ++ [n], dummyId := some db.nodes.length })
  | _ => (db.nodes.length, { db with nodes := db.nodes ++ [n] })

/-- `NodeById::con_len` (nodedb.rs l.397-404). -/
def conLen (db : Db) (c : NodeCon) : Nat :=
  let len := ((db.node c.id).len - c.offset) / c.divisor
  match c.lenLimit with
  | some limit => min len limit
  | none => len
end Db

/-- One step of the loops of `GeneralNode::new` (totdb/mod.rs l.1185-1191, l.1200-1206): from index `idx`, skip
the values smaller than `val`, insert `val` if it is not there. Returns the values and the next index. -/
def insertVal (lits : List Nat) (idx val : Nat) : List Nat × Nat :=
  let skip := ((lits.drop idx).takeWhile fun v => decide (v < val)).length
  let idx := idx + skip
  let lits := if idx ≥ lits.length ∨ lits.getD idx 0 > val then lits.take idx ++ val :: lits.drop idx else lits
  (lits, idx + 1)

/-- The loop inserting the values of the right child (totdb/mod.rs l.1183-1192). -/
def insertRight (lits : List Nat) (idx : Nat) : List Nat → List Nat
  | [] => lits
  | r :: rs => let (lits, idx) := insertVal lits idx r; insertRight lits idx rs

/-- The inner loop inserting the sums for one left value (totdb/mod.rs l.1195-1207). -/
def insertSums (l : Nat) (lits : List Nat) (idx ridx : Nat) : List Nat → List Nat
  | [] => lits
  | r :: rs =>
    let (lits, idx) := insertVal lits (max idx ridx) (l + r)
    insertSums l lits idx (ridx + 1) rs

/-- The outer loop inserting sums (totdb/mod.rs l.1193-1208). -/
def insertAllSums (rvals : List Nat) (lits : List Nat) (lidx : Nat) : List Nat → List Nat
  | [] => lits
  | l :: ls => insertAllSums rvals (insertSums l lits lidx 0 rvals) (lidx + 1) ls

/-- The values of `GeneralNode::new` (totdb/mod.rs l.1172-1229). -/
def generalVals (lvals rvals : List Nat) : List Nat :=
  insertAllSums rvals (insertRight lvals 0 rvals) 0 lvals

/-- `lits.last().unwrap().0`. -/
def lastVal (vals : List Nat) : Nat := vals.getLast?.getD 0

/-- The values transmitted by a connection when building a general node (totdb/mod.rs l.870-881, l.891-902). -/
def conVals (db : Db) (c : NodeCon) : List Nat :=
  let vals := (db.node c.id).valsFrom (c.offset + 1)
  match c.lenLimit with
  | some limit => (vals.take limit).map c.map
  | none => vals.map c.map

/-- The number of leaves contributed by a connection (totdb/mod.rs l.855-869). -/
def conLeaves (db : Db) (c : NodeCon) : Nat :=
  match c.lenLimit with
  | some limit => limit
  | none => if c.offset = 0 then (db.node c.id).nLeaves else ((db.node c.id).valsFrom (c.offset + 1)).length

/-- `Node::internal` (totdb/mod.rs l.847-924). -/
def Node.internal (left right : NodeCon) (db : Db) : Node :=
  let depth := max (db.node left.id).depth (db.node right.id).depth + 1
  let nLeaves := conLeaves db left + conLeaves db right
  if left.multiplier ≠ right.multiplier ∨ (db.node left.id).isGeneral ∨ (db.node right.id).isGeneral then
    let vals := generalVals (conVals db left) (conVals db right)
    .general (vals.map fun v => (v, LitData.none)) depth nLeaves (lastVal vals) left right
  else
    .unit (List.replicate (db.conLen left + db.conLen right) LitData.none) depth nLeaves left right

/-- The creation of one internal node by the merging functions: connections of the same weight are merged
unweighted and the result is weighted (nodedb.rs l.526-543, l.552-569, l.711-724). -/
def mergeCons (db : Db) (lcon rcon : NodeCon) : NodeCon × Db :=
  if lcon.multiplier > 1 ∧ lcon.multiplier = rcon.multiplier then
    let w := lcon.multiplier
    let lcon := { lcon with multiplier := 1 }
    let rcon := { rcon with multiplier := 1 }
    let (id, db) := db.insert (Node.internal lcon rcon db)
    (NodeCon.weighted id w, db)
  else
    let (id, db) := db.insert (Node.internal lcon rcon db)
    (NodeCon.full id, db)

/-- The lowest set bit of a positive number, `k & -k` in two's complement (nodedb.rs l.516). -/
def lowBit (k : Nat) : Nat := k ^^^ (k &&& (k - 1))

/-- The first loop of `merge` (nodedb.rs l.500-505): reverses the binary digits of the width. -/
def reverseWidth : Nat → Nat → Nat → Nat × Nat
  | 0, width, rw => (width, rw)
  | fuel + 1, width, rw =>
    if width > 1 then reverseWidth fuel (width / 2) ((rw <<< 1) ||| (width &&& 1)) else (width, rw)

/-- The inner loop of `merge` (nodedb.rs l.513-574). -/
def mergeLevel (width rw lastRw : Nat) : Nat → Db → List NodeCon → Nat → Nat → Db × List NodeCon
  | 0, db, cons, _, _ => (db, cons)
  | fuel + 1, db, cons, start, splitIdx =>
    if start < cons.length then
      let extend := (lowBit splitIdx &&& rw) ≠ 0
      let trueWidth := width + (if extend then 1 else 0)
      if trueWidth = 1 then mergeLevel width rw lastRw fuel db cons (start + 1) (splitIdx + 1)
      else
        let roff :=
          if trueWidth % 2 = 0 then trueWidth / 2
          else
            let leftSplitIdx := (splitIdx - 1) * 2 + 1
            trueWidth / 2 + (if (lowBit leftSplitIdx &&& lastRw) ≠ 0 then 1 else 0)
        let lcon := cons.getD start (NodeCon.full 0)
        let rcon := cons.getD (start + roff) (NodeCon.full 0)
        let (con, db) := mergeCons db lcon rcon
        mergeLevel width rw lastRw fuel db (cons.set start con) (start + trueWidth) (splitIdx + 1)
    else (db, cons)

/-- The outer loop of `merge` (nodedb.rs l.512-581). -/
def mergeLoop : Nat → Db → List NodeCon → Nat → Nat → Nat → Db × List NodeCon
  | 0, db, cons, _, _, _ => (db, cons)
  | fuel + 1, db, cons, width, rw, lastRw =>
    if width ≤ cons.length then
      let (db, cons) := mergeLevel width rw lastRw cons.length db cons 0 1
      mergeLoop fuel db cons ((width <<< 1) ||| (rw &&& 1)) (rw >>> 1) (lastRw >>> 1)
    else (db, cons)

/-- `NodeById::merge` (nodedb.rs l.485-586). The limit of `isize::MAX` connections is not modelled. -/
def merge (db : Db) (cons : List NodeCon) : Option NodeCon × Db :=
  if cons.isEmpty then (none, db)
  else
    let (width, rw) := reverseWidth cons.length cons.length 0
    let (db, cons) := mergeLoop (cons.length + 1) db cons width rw (rw <<< 1)
    (some (cons.getD 0 (NodeCon.full 0)), db)

/-- Inserting leaves for literals (nodedb.rs l.435-438). -/
def insertLeaves (db : Db) : List Lit → List NodeCon × Db
  | [] => ([], db)
  | l :: ls =>
    let (id, db) := db.insert (.leaf l)
    let (cons, db) := insertLeaves db ls
    (NodeCon.full id :: cons, db)

/-- `NodeById::lit_tree` (nodedb.rs l.427-447). -/
def litTree (db : Db) (lits : List Lit) : Option Nat × Db :=
  let (cons, db) := insertLeaves db lits
  let (con, db) := merge db cons
  (con.map NodeCon.id, db)

/-- The cumulated lengths of the connections (nodedb.rs l.600-605). -/
def cumWeight (db : Db) (acc : Nat) : List NodeCon → List Nat
  | [] => []
  | c :: cs => (acc + db.conLen c) :: cumWeight db (acc + db.conLen c) cs

/-- `merge_balanced_recursive` (nodedb.rs l.680-725). `fuel` bounds the recursion depth; every call is on fewer
connections. If no split is found the code panics; the split is the last index here. -/
def mergeBalancedRec : Nat → Db → List NodeCon → List Nat → Nat → NodeCon × Db
  | 0, db, _, _, _ => (NodeCon.full 0, db)
  | fuel + 1, db, cons, cum, offset =>
    match cons with
    | [] => (NodeCon.full 0, db)
    | [c] => (c, db)
    | _ =>
      let threshold := (cum.getD (cum.length - 1) 0 - offset) / 2 + offset
      let split := 1 + ((cum.drop 1).takeWhile fun v => decide (v < threshold)).length
      let (lcon, db) := mergeBalancedRec fuel db (cons.take split) (cum.take split) offset
      let (rcon, db) := mergeBalancedRec fuel db (cons.drop split) (cum.drop split) (cum.getD (split - 1) 0)
      mergeCons db lcon rcon

/-- `NodeById::merge_balanced` (nodedb.rs l.592-607). -/
def mergeBalanced (db : Db) (cons : List NodeCon) : Option NodeCon × Db :=
  if cons.isEmpty then (none, db)
  else
    let (con, db) := mergeBalancedRec cons.length db cons (cumWeight db 0 cons) 0
    (some con, db)

/-- Splitting a list into maximal segments with equal keys (the loops of nodedb.rs l.460-474, l.624-658). -/
def segments {α : Type} (key : α → Nat) : List α → List (List α)
  | [] => []
  | x :: xs =>
    match segments key xs with
    | [] => [[x]]
    | [] :: segs => [x] :: segs
    | (y :: ys) :: segs => if key x = key y then (x :: y :: ys) :: segs else [x] :: (y :: ys) :: segs

/-- Building one subtree per segment (nodedb.rs l.466-474); `None` is the panic of `NodeCon::weighted` for a
weight of zero. -/
def segTrees (db : Db) : List (List (Lit × Nat)) → Option (List NodeCon × Db)
  | [] => some ([], db)
  | seg :: segs =>
    let w := (seg.headD (Lit.pos 0, 0)).2
    let (id, db) := litTree db (seg.map (·.1))
    match id with
    | none => none
    | some id =>
      if w = 0 then none
      else
        match segTrees db segs with
        | none => none
        | some (cons, db) => some (NodeCon.weighted id w :: cons, db)

/-- `NodeById::weighted_lit_tree` (nodedb.rs l.453-477); the outer `None` is a panic. -/
def weightedLitTree (db : Db) (lits : List (Lit × Nat)) : Option (Option NodeCon × Db) :=
  match segTrees db (segments (·.2) lits) with
  | none => none
  | some (cons, db) => some (mergeBalanced db cons)

/-- Insertion into a sorted list. -/
def insertBy {α : Type} (key : α → Nat) (x : α) : List α → List α
  | [] => [x]
  | y :: ys => if key x ≤ key y then x :: y :: ys else y :: insertBy key x ys

/-- `sort_unstable_by_key`; the order of elements with equal keys is unspecified in Rust, this is a stable sort. -/
def sortBy {α : Type} (key : α → Nat) : List α → List α
  | [] => []
  | x :: xs => insertBy key x (sortBy key xs)

/-- Merging each segment of connections of equal weight (nodedb.rs l.624-658). -/
def thoroughSegs (db : Db) : List (List NodeCon) → List NodeCon × Db
  | [] => ([], db)
  | seg :: segs =>
    if seg.length > 1 then
      let w := (seg.headD (NodeCon.full 0)).multiplier
      let seg := sortBy db.conLen (seg.map fun c => c.reweight 1)
      let (con, db) := mergeBalanced db seg
      let (cons, db) := thoroughSegs db segs
      ((con.getD (NodeCon.full 0)).reweight w :: cons, db)
    else
      let (cons, db) := thoroughSegs db segs
      (seg.headD (NodeCon.full 0) :: cons, db)

/-- `NodeById::merge_thorough` (nodedb.rs l.614-662). -/
def mergeThorough (db : Db) (cons : List NodeCon) : Option NodeCon × Db :=
  if cons.isEmpty then (none, db)
  else
    let (merged, db) := thoroughSegs db (segments NodeCon.multiplier (sortBy NodeCon.multiplier cons))
    mergeBalanced db (sortBy db.conLen merged)

end TotDb
end RustSat
