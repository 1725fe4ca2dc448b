import Verif.Model.Gte
/-
Model of the dynamic polynomial watchdog encoding (src/encodings/pb/dpw/mod.rs).

Weights are unbounded; overflows of `usize` are not modelled. `none` models a panic. Out-of-memory errors of the collector
are not modelled.

Extending an existing encoding to a higher precision (`merge_structures`, l.631-794) changes the bottom buckets of the
existing structure in place: their right connection is redirected to a node that is newer. In the model, each such bucket
is copied to a new node with the new connection and the literals of the old node are dropped; nothing refers to the old
node any more. Apart from the identifiers of nodes this is the same.
-/
namespace RustSat
open TotDb Card

/-- `PrecisionError` (l.39-46). -/
inductive PrecisionError where
  | notPow2
  | precisionDecreased
deriving DecidableEq, Repr

/-- `WeightQ` (l.35), a `BTreeMap<usize, Vec<NodeCon>>`: the entries sorted by decreasing weight. -/
abbrev WeightQ := List (Nat × List NodeCon)

namespace WeightQ

/-- `get_mut` and `push`, or `insert` (l.475-488, l.535-539). -/
def push : WeightQ → Nat → NodeCon → WeightQ
  | [], w, c => [(w, [c])]
  | (v, cs) :: q, w, c =>
    if w = v then (v, cs ++ [c]) :: q
    else if v < w then (w, [c]) :: (v, cs) :: q
    else (v, cs) :: push q w c

/-- `iter().next_back().unwrap().0`; zero if the queue is empty. -/
def maxWeight (q : WeightQ) : Nat := (q.headD (0, [])).1

end WeightQ

namespace Dpw

/-- `Structure` (l.228-238). -/
structure Structure where
  bottomBuckets : List Nat
  tares : List Lit
  precDiv : Nat
deriving DecidableEq, Repr

/-- `Structure::root` (l.243-245); panics if there are no buckets, which does not happen. -/
def Structure.root (s : Structure) : Nat := s.bottomBuckets.headD 0

/-- `Structure::output_power` (l.249-251). -/
def Structure.outputPower (s : Structure) : Nat := s.tares.length

/-- `lit_weight_queue` (l.454-463) and `con_weight_queue` (l.472-491), which resets the multipliers to 1. -/
def litWeightQueue : List (Lit × Nat) → Db → WeightQ → WeightQ × Db
  | [], db, q => (q, db)
  | x :: lits, db, q =>
    let (id, db) := db.insert (.leaf x.1)
    litWeightQueue lits db (WeightQ.push q x.2 (NodeCon.full id))

/-- The loop distributing the weights to the top buckets (l.526-541). Clearing the highest bit of the weight is a
subtraction. The number of iterations is bounded by `fuel`. -/
def distribute (precDiv skipped : Nat) : (fuel : Nat) → WeightQ → List (List NodeCon) → Db →
    Option (WeightQ × List (List NodeCon) × Db)
  | fuel + 1, (weight, cons) :: q, tops, db =>
    if precDiv ≤ weight then
      match mergeBalanced db cons with
      | (none, _) => none
      | (some merged, db) =>
        let d := digits weight 2
        let current := 2 ^ (d - 1)
        let tops := tops.modify (d - 1 - skipped) (· ++ [merged])
        let remaining := weight - current
        distribute precDiv skipped fuel (if 0 < remaining then WeightQ.push q remaining merged else q) tops db
    else some ((weight, cons) :: q, tops, db)
  | _, q, tops, db => some (q, tops, db)

/-- Adding the tare to a top bucket (l.566-573). -/
def addTare (cons : List NodeCon) (tares : List Lit) (db : Db) : List NodeCon × Db :=
  match tares with
  | t :: _ => let (id, db) := db.insert (.leaf t); (cons ++ [NodeCon.full id], db)
  | [] => (cons, db)

/-- Merging the top buckets and merging with bottom buckets (l.565-609). For each bucket there is a tare except for the
last one. `sort_unstable_by_key` is a stable sort here, no theorem depends on this. `last` is the last bottom bucket and its offset; `queueEmpty` tells that the encoding has full precision. -/
def bottoms (queueEmpty : Bool) : List (List NodeCon) → List Lit → (last : Option (Nat × Nat)) → Db → Option (List Nat × Db)
  | [], _, _, db => some ([], db)
  | cons :: tops, tares, last, db =>
    let (cons, db) := addTare cons tares db
    match mergeBalanced db (sortBy db.conLen cons) with
    | (none, _) => none
    | (some top, db) =>
      match last with
      | none =>
        if !tares.isEmpty && db.conLen top == 1 then bottoms queueEmpty tops (tares.drop 1) none db
        else
          let (id, offset, db) :=
            if queueEmpty then (top.id, top.offset, db)
            else
              let (dummy, db) := db.insert .dummy
              let (id, db) := db.insert (Node.internal top (NodeCon.full dummy) db)
              (id, 0, db)
          match bottoms queueEmpty tops (tares.drop 1) (some (id, offset)) db with
          | none => none
          | some (ids, db) => some (id :: ids, db)
      | some (lastId, offset) =>
        let (id, db) := db.insert (Node.internal top ⟨lastId, offset, 2, 1, none⟩ db)
        match bottoms queueEmpty tops (tares.drop 1) (some (id, 0)) db with
        | none => none
        | some (ids, db) => some (id :: ids, db)

section
variable {VM : Type} [ManageVars VM]

/-- `build_structure` (l.500-615). If the precision divisor is larger than all weights the number of tares underflows
(l.558). -/
def buildStructure (topmost : Bool) (q : WeightQ) (precDiv : Nat) (db : Db) (vm : VM) : Option (Structure × WeightQ × Db × VM) :=
  let skipped := digits precDiv 2 - 1
  let basisLen := digits q.maxWeight 2
  if q.isEmpty ∨ basisLen ≤ skipped then none
  else
    match distribute precDiv skipped (q.maxWeight + 1) q (List.replicate (basisLen - skipped) []) db with
    | none => none
    | some (q, tops, db) =>
      if basisLen = 1 ∧ topmost = true then
        match tops with
        | (c :: _) :: _ => some (⟨[c.id], [], precDiv⟩, q, db, vm)
        | _ => none
      else
        let (tareVars, vm) := Am1.newVars (basisLen - skipped - (if topmost then 1 else 0)) vm
        let tares := tareVars.map Lit.pos
        match bottoms q.isEmpty tops tares none db with
        | none => none
        | some (ids, db) => some (⟨ids.reverse, tares, precDiv⟩, q, db, vm)

/-- `encode_output` for several outputs (l.803-824, l.397-400). -/
def encodeOutputs (root : Nat) : List Nat → St VM → Option (St VM)
  | [], st => some st
  | oidx :: rest, st =>
    if oidx ≥ (st.db.node root).maxVal then encodeOutputs root rest st
    else
      match define st root oidx .if_ with
      | none => none
      | some (_, st) => encodeOutputs root rest st

/-- Pushing a node to the database (totdb/mod.rs l.139-143). -/
def pushNode (db : Db) (n : Node) : Nat × Db := (db.nodes.length, { db with nodes := db.nodes ++ [n] })

/-- The buckets for tares without a bucket between the structures (l.660-679), from the lowest weight to the highest;
`next` is the root of the structure below. The connections to the next lower bucket (l.688-699) and the resized list of
literals (l.701-708) are set immediately. Returns the new buckets, and the highest bucket. -/
def extraBuckets : List Lit → Nat → Db → List Nat × Nat × Db
  | [], next, db => ([], next, db)
  | t :: ts, next, db =>
    let (leaf, db) := db.insert (.leaf t)
    let right : NodeCon := ⟨next, 0, 2, 1, none⟩
    let (id, db) := pushNode db (.unit (List.replicate (1 + db.conLen right) .none) 2 1 (NodeCon.full leaf) right)
    let (ids, next, db) := extraBuckets ts id db
    (id :: ids, next, db)

/-- Redirecting the right connections of the existing buckets to the next lower bucket (l.681-699) and resizing the
lists of literals (l.701-708), from the lowest weight to the highest. See the head of this file for copying buckets.
Returns the new nodes with the old number of literals. -/
def moveBuckets : List Nat → Nat → Db → Option (List (Nat × Nat) × Db)
  | [], _, db => some ([], db)
  | b :: bs, next, db =>
    match db.node b with
    | .unit lits dp nl left right =>
      let right' : NodeCon := ⟨next, 0, 2, 1, none⟩
      let db := { db with nodes := db.nodes.set b (.unit (List.replicate lits.length .none) dp nl left right) }
      let (id, db) := pushNode db (.unit (lits ++ List.replicate (db.conLen left + db.conLen right' - lits.length) .none) dp nl left right')
      match moveBuckets bs id db with
      | none => none
      | some (ids, db) => some ((id, lits.length) :: ids, db)
    | _ => none

/-- Extending one output for the new values of the right connection (l.751-777). -/
def extendVals (left right : NodeCon) (olit : Lit) (val : Nat) : List Nat → St VM → Option (St VM)
  | [], st => some st
  | rval :: rest, st =>
    let lval := val - right.map rval
    if left.isPossible lval then
      match define st right.id (rval - 1) .if_ with
      | none => none
      | some (rlit, st) =>
        if lval = 0 then extendVals left right olit val rest (addClause st (Atomics.litImplLit rlit olit))
        else
          match define st left.id (lval - 1) .if_ with
          | none => none
          | some (llit, st) => extendVals left right olit val rest (addClause st (Atomics.cubeImplLit [rlit, llit] olit))
    else extendVals left right olit val rest st

/-- Extending the outputs of one bucket (l.737-780). -/
def extendOlits (left right : NodeCon) (orm : Nat) : List (Lit × Nat) → St VM → Option (St VM)
  | [], st => some st
  | (olit, val) :: rest, st =>
    match extendVals left right olit val ((st.db.node right.id).valsRange (right.revMap (orm + 1)) (right.revMap (min (st.db.conLen right + 1) val) + 1)) st with
    | none => none
    | some st => extendOlits left right orm rest st

/-- The outputs of a bucket that are encoded and that have new inputs (l.719-736): the literals and the values. -/
def toExtend (orm : Nat) : Nat → List LitData → List (Lit × Nat)
  | _, [] => []
  | idx, d :: ds =>
    match d with
    | .lit l (some s) => if s.hasIf && decide (orm ≤ idx + 1) then (l, idx + 1) :: toExtend orm (idx + 1) ds else toExtend orm (idx + 1) ds
    | _ => toExtend orm (idx + 1) ds

/-- Extending the encoded outputs of all buckets (l.710-783), from the lowest weight to the highest; `orm` is the maximal
value of the right connection before extending. -/
def extendBuckets : Nat → List (Nat × Nat) → St VM → Option (St VM)
  | _, [], st => some st
  | orm, (id, oldLen) :: rest, st =>
    match st.db.node id with
    | .unit lits _ _ left right =>
      match extendOlits left right orm (toExtend orm 0 lits) st with
      | none => none
      | some st => extendBuckets (oldLen / 2) rest st
    | _ => none

/-- `merge_structures` (l.631-794). -/
def mergeStructures (bot top : Structure) (db : Db) (vm : VM) (cls : ClauseSet) : Option (Structure × St VM) :=
  if top.precDiv * 2 ^ top.tares.length = 0 then none
  else
    let between := digits (bot.precDiv / (top.precDiv * 2 ^ top.tares.length)) 2 - 1
    let (vars, vm) := Am1.newVars between vm
    let tares := top.tares ++ vars.map Lit.pos ++ bot.tares
    let extra := (tares.take (tares.length - (bot.bottomBuckets.length - 1))).drop top.tares.length
    let (extraIds, next, db) := extraBuckets extra top.root db
    match moveBuckets bot.bottomBuckets.reverse next db with
    | none => none
    | some (ids, db) =>
      match extendBuckets 0 (extraIds.map (·, 1) ++ ids) (⟨db, vm, cls⟩ : St VM) with
      | none => none
      | some st => some (⟨(ids.map (·.1)).reverse ++ extraIds.reverse ++ top.bottomBuckets, tares, top.precDiv⟩, st)

end

/-- `Node::lit` (totdb/mod.rs l.934-946, l.1130-1132); `none` is a panic. -/
def nodeLit (n : Node) (val : Nat) : Option (Option Lit) :=
  match n with
  | .leaf l => some (if val ≠ 1 then none else some l)
  | .unit lits .. =>
    match lits[val - 1]? with
    | none => none
    | some d => some d.lit?
  | .general lits .. =>
    match valIdx lits val with
    | none => some none
    | some k => some ((lits[k]?).bind fun x => x.2.lit?)
  | .dummy => some none

/-- The loop over the tares in `enforce_ub` (l.847-856), from `power` downwards. -/
def tareLoop (tares : List Lit) (ub : Nat) : (power : Nat) → (enforced : Nat) → List Lit
  | 0, _ => []
  | p + 1, enforced =>
    if ub + 2 ^ p ≤ enforced then
      (tares[p]?).toList ++ (if ub = enforced - 2 ^ p then [] else tareLoop tares ub p (enforced - 2 ^ p))
    else if ub = enforced then [] else tareLoop tares ub p enforced

/-- The function `enforce_ub` (l.833-860). -/
def enforceStructure (s : Structure) (ub : Nat) (db : Db) : Res EnforceError (List Lit) :=
  let ow := 2 ^ s.outputPower
  let oidx := ub / ow
  if oidx ≥ (db.node s.root).maxVal then .ok []
  else
    match nodeLit (db.node s.root) (oidx + 1) with
    | none => .panic
    | some none => .err .notEncoded
    | some (some olit) => .ok (olit.neg :: tareLoop s.tares ub s.outputPower ((oidx + 1) * ow - 1))

end Dpw

/-- `DynamicPolyWatchdog` (l.62-79). -/
structure Dpw where
  inLits : List (Lit × Nat)
  structure_ : Option Dpw.Structure
  weightQueue : WeightQ
  precDiv : Nat
  weightSum : Nat
  nVars : Nat
  nClauses : Nat
  db : Db

namespace Dpw

/-- `From` (l.418-434); a weight of zero panics (`NodeCon::weighted`). -/
def ofMap (lits : LitMap) : Option Dpw :=
  if lits.any fun x => x.2 == 0 then none
  else
    let (q, db) := litWeightQueue lits Db.empty []
    some ⟨lits, none, q, 1, lits.total, 0, 0, db⟩

/-- `FromIterator` (l.436-441). -/
def new (lits : List (Lit × Nat)) : Option Dpw := ofMap (LitMap.ofList lits)

/-- `Default` (derived, l.60): the precision divisor is 0, in contrast to `From`. -/
def default : Dpw := ⟨[], none, [], 0, 0, 0, 0, Db.empty⟩

/-- `add_input` (l.97-117), used by the C-API; `none` is the error `NotAllowed`. -/
def addInput (e : Dpw) (lit : Lit) (weight : Nat) : Option Dpw :=
  if e.structure_.isSome then none
  else
    let (node, db) := e.db.insert (.leaf lit)
    some { e with inLits := LitMap.addLit e.inLits (lit, weight), weightSum := e.weightSum + weight, db := db,
                  weightQueue := WeightQ.push e.weightQueue weight (NodeCon.full node) }

/-- `set_precision` (l.128-137). -/
def setPrecision (e : Dpw) (divisor : Nat) : Res PrecisionError Dpw :=
  if ¬ (divisor ≤ 1 ∨ isPow2 divisor) then .err .notPow2
  else if e.structure_.isSome ∧ divisor > e.precDiv then .err .precisionDecreased
  else .ok { e with precDiv := divisor }

/-- `next_precision` (l.146-153). -/
def nextPrecision (e : Dpw) : Nat :=
  if e.weightQueue.isEmpty then 1 else 2 ^ (digits e.weightQueue.maxWeight 2 - 1)

/-- `is_max_precision` (l.157-159). -/
def isMaxPrecision (e : Dpw) : Bool := e.weightQueue.isEmpty

section
variable {VM : Type} [ManageVars VM]

/-- Building the structure if there is none (l.274-282, l.370-379). -/
def build (e : Dpw) (vm : VM) : Option (Dpw × Structure × VM) :=
  match e.structure_ with
  | some s => some (e, s, vm)
  | none =>
    match buildStructure true e.weightQueue e.precDiv e.db vm with
    | none => none
    | some (s, q, db, vm) => some ({ e with structure_ := some s, weightQueue := q, db := db }, s, vm)

/-- `EncodeIncremental::reserve` (l.269-287). -/
def reserve (e : Dpw) (vm : VM) : Option (Dpw × VM) :=
  if e.inLits.length ≤ 1 then some (e, vm)
  else
    match e.build vm with
    | none => none
    | some (e, s, vm) =>
      match reserveVars (s.root + 1) (⟨e.db, vm, []⟩ : St VM) (NodeCon.full s.root) with
      | none => none
      | some st => some ({ e with db := st.db }, st.vm)

/-- Building the structure if there is none (l.370-379), or extending it if the precision was increased (l.382-395). -/
def buildOrExtend (e : Dpw) (vm : VM) (cls : ClauseSet) : Option (Dpw × Structure × VM × ClauseSet) :=
  match e.structure_ with
  | none => (e.build vm).map fun (e, s, vm) => (e, s, vm, cls)
  | some s =>
    if ¬ e.weightQueue.isEmpty ∧ e.precDiv ≤ e.weightQueue.maxWeight then
      match buildStructure false e.weightQueue e.precDiv e.db vm with
      | none => none
      | some (top, q, db, vm) =>
        match mergeStructures s top db vm cls with
        | none => none
        | some (s, st) => some ({ e with structure_ := some s, weightQueue := q, db := st.db }, s, st.vm, st.cls)
    else some (e, s, vm, cls)

/-- `encode_ub_change` (l.354-405). -/
def encodeUbChange (e : Dpw) (r : URange) (vm : VM) (cls : ClauseSet) : Option (Dpw × VM × ClauseSet) :=
  let range := Pb.prepareUbRange e.weightSum r
  if range.2 ≤ range.1 ∨ e.inLits.length ≤ 1 then some (e, vm, cls)
  else
    match e.buildOrExtend vm cls with
    | none => none
    | some (e, s, vm', cls') =>
      let ow := 2 ^ s.outputPower
      match encodeOutputs s.root (rangeIncl (range.1 / ow) ((range.2 - 1) / ow)) (⟨e.db, vm', cls'⟩ : St VM) with
      | none => none
      | some st =>
        some ({ e with db := st.db, nClauses := e.nClauses + (st.cls.length - cls.length),
                       nVars := e.nVars + (ManageVars.nUsed st.vm - ManageVars.nUsed vm) }, st.vm, st.cls)

/-- `encode_ub` (l.291-303). -/
def encodeUb (e : Dpw) (r : URange) (vm : VM) (cls : ClauseSet) : Option (Dpw × VM × ClauseSet) :=
  encodeUbChange { e with db := e.db.resetEncoded .if_ } r vm cls

end

/-- `enforce_ub` (l.305-334). -/
def enforceUb (e : Dpw) (ub : Nat) : Res EnforceError (List Lit) :=
  if e.weightSum ≤ ub ∧ e.precDiv ≤ 1 then .ok []
  else
    match e.structure_ with
    | some s =>
      if ¬ e.weightQueue.isEmpty ∧ e.precDiv ≤ e.weightQueue.maxWeight then .err .notEncoded
      else enforceStructure s (ub / 2 ^ (digits s.precDiv 2 - digits e.precDiv 2)) e.db
    | none =>
      match e.inLits with
      | [] => .panic
      | (l, w) :: rest =>
        if 0 < rest.length then .err .notEncoded
        else .ok (if w ≤ ub * min e.precDiv 1 then [] else [l.neg])

/-- `coarse_ub` (l.336-350). -/
def coarseUb (e : Dpw) (ub : Nat) : Nat :=
  match e.structure_ with
  | some s =>
    let ow := 2 ^ s.outputPower
    if ow = 1 then ub
    else if ub < ow then ub
    else (ub + 1) / ow * ow - 1
  | none => ub

/-- The unit clauses of the outputs of a node that have a literal (l.189-197); `none` is a panic. -/
def harden (n : Node) (pol : Lit → Lit) : List Nat → Option ClauseSet
  | [] => some []
  | v :: vs =>
    match nodeLit n v, harden n pol vs with
    | some (some l), some cls => some ([pol l] :: cls)
    | some none, some cls => some cls
    | _, _ => none

/-- Rounding up division, `div_ceil`. -/
def divCeil (a b : Nat) : Nat := (a + b - 1) / b

/-- The loop over the bottom buckets of `limit_range` (l.200-217), from the lowest one on. -/
def limitBuckets (db : Db) (idxOffset : Nat) (range : Nat × Nat) : (idx : Nat) → List Nat → Option ClauseSet
  | _, [] => some []
  | idx, bottom :: rest =>
    match (db.node bottom).left with
    | none => none
    | some topCon =>
      let div := 2 ^ (idx + idxOffset)
      let top := db.node topCon.id
      match harden top id (top.valsRange 0 (topCon.revMap (range.1 / div) + 1)),
          harden top Lit.neg (top.valsFrom (topCon.revMapRoundUp (divCeil range.2 div))),
          limitBuckets db idxOffset range (idx + 1) rest with
      | some a, some b, some c => some (a ++ b ++ c)
      | _, _, _ => none

/-- `limit_range` (l.173-220): the clauses; `none` is a panic. -/
def limitRange (e : Dpw) (r : URange) : Option ClauseSet :=
  let range := Pb.prepareUbRange e.weightSum r
  match e.structure_ with
  | none => some []
  | some s =>
    if e.isMaxPrecision then
      let ow := 2 ^ s.outputPower
      let root := e.db.node s.root
      match harden root id (root.valsRange 0 (range.1 / ow + 1)), harden root Lit.neg (root.valsFrom (divCeil range.2 ow)) with
      | some a, some b => some (a ++ b)
      | _, _ => none
    else limitBuckets e.db (digits s.precDiv 2 - 1) range 0 s.bottomBuckets.reverse

end Dpw
end RustSat
