import Verif.Model.NodeDb
/-
Model of the encoding functions of the totalizer database (src/encodings/totdb/mod.rs).

The database, the variable manager and the collected clauses form the state. `none` models a panic (including
`unreachable_none!`). Recursion goes from a node to its children, whose ids are smaller; `fuel` bounds it.
`debug_assert!`s are not modelled. Out-of-memory errors of the collector are not modelled.
-/
namespace RustSat
namespace TotDb

/-- `con_idx` (totdb/mod.rs l.22-24). -/
def conIdx (idx : Nat) (c : NodeCon) : Nat := c.revMap (idx + 1) - 1

/-- The database with the variable manager and the clause collector. -/
structure St (VM : Type) where
  db : Db
  vm : VM
  cls : ClauseSet

/-- The data of output `idx` of a unit node; `none` for other nodes or if out of range. -/
def Db.unitData (db : Db) (id idx : Nat) : Option LitData :=
  match db.node id with
  | .unit lits .. => lits[idx]?
  | _ => none

/-- Replacing the data of output `idx` of a unit node. -/
def Db.setUnit (db : Db) (id idx : Nat) (d : LitData) : Db :=
  match db.node id with
  | .unit lits depth nl l r => { db with nodes := db.nodes.set id (.unit (lits.set idx d) depth nl l r) }
  | _ => db

/-- `UnweightedPrecondResult` (totdb/mod.rs l.719-727); the ranges are lists of their values. -/
structure Pre where
  lcon : NodeCon
  rcon : NodeCon
  leftIf : List Nat
  rightIf : List Nat
  leftOnlyIf : List Nat
  rightOnlyIf : List Nat

/-- `PrecondOutcome` (totdb/mod.rs l.712-716), with the panics. -/
inductive Outcome where
  | ret (l : Lit)
  | cont (p : Pre)
  | pass (c : NodeCon)
  | panic

/-- `a..=b`. -/
def rangeIncl (a b : Nat) : List Nat := List.range' a (b + 1 - a)

/-- The last part of `precond_unweighted`: the ranges (totdb/mod.rs l.318-352). -/
def preRanges (db : Db) (lcon rcon : NodeCon) (idx : Nat) (new : Semantics) : Pre :=
  let lmax := min (db.conLen lcon) (idx + 1)
  let rmax := min (db.conLen rcon) (idx + 1)
  let lmaxO := min (db.conLen lcon) idx
  let rmaxO := min (db.conLen rcon) idx
  { lcon := lcon, rcon := rcon,
    leftIf := if new.hasIf then rangeIncl (idx + 1 - rmax) lmax else [],
    rightIf := if new.hasIf then rangeIncl (idx + 1 - lmax) rmax else [],
    leftOnlyIf := if new.hasOnlyIf then rangeIncl (idx - rmaxO) lmaxO else [],
    rightOnlyIf := if new.hasOnlyIf then rangeIncl (idx - lmaxO) rmaxO else [] }

/-- `Db::precond_unweighted` (totdb/mod.rs l.269-353). -/
def precond (db : Db) (id idx : Nat) (req : Semantics) : Outcome :=
  match db.node id with
  | .leaf l => .ret l
  | .unit lits _ _ lcon rcon =>
    match lits[idx]? with
    | none => .panic
    | some d =>
      let new : Option Semantics :=
        match d with
        | .lit _ (some s) => s.missing req
        | _ => some req
      match new with
      | none =>
        match d with
        | .lit l _ => .ret l
        | .none => .panic
      | some new =>
        if db.node lcon.id = .dummy ∨ db.node rcon.id = .dummy then
          .pass (if db.node lcon.id = .dummy then rcon else lcon)
        else .cont (preRanges db lcon rcon idx new)
  | _ => .panic

/-- The recursive calls made by `Db::recurse_unweighted` (totdb/mod.rs l.356-414). -/
def requests (db : Db) (p : Pre) : List (Nat × Nat × Semantics) :=
  ((p.leftIf.filter (· ≠ 0)).map fun lval => (p.lcon.id, conIdx (lval - 1) p.lcon, Semantics.if_)) ++
  ((p.rightIf.filter (· ≠ 0)).map fun rval => (p.rcon.id, conIdx (rval - 1) p.rcon, Semantics.if_)) ++
  ((p.leftOnlyIf.filter (· ≠ db.conLen p.lcon)).map fun lval => (p.lcon.id, conIdx lval p.lcon, Semantics.onlyIf)) ++
  ((p.rightOnlyIf.filter (· ≠ db.conLen p.rcon)).map fun rval => (p.rcon.id, conIdx rval p.rcon, Semantics.onlyIf))

/-- The macro `get_lit_slice` (totdb/mod.rs l.27-38). -/
def litSlice (db : Db) (id : Nat) : Option (List LitData) :=
  match db.node id with
  | .leaf l => some [LitData.newLit l]
  | .unit lits .. => some lits
  | _ => none

/-- `*unreachable_none!(lits[i].lit())`. -/
def sliceLit (lits : List LitData) (i : Nat) : Option Lit := (lits[i]?).bind LitData.lit?

/-- The closure `if_clause` (totdb/mod.rs l.463-478). -/
def ifClause (p : Pre) (llits rlits : List LitData) (idx : Nat) (olit : Lit) (lval : Nat) : Option Clause :=
  let rval := idx + 1 - lval
  match if lval > 0 then (sliceLit llits (conIdx (lval - 1) p.lcon)).map fun l => [l] else some [],
      if rval > 0 then (sliceLit rlits (conIdx (rval - 1) p.rcon)).map fun l => [l] else some [] with
  | some l, some r => some (Atomics.cubeImplLit (l ++ r) olit)
  | _, _ => none

/-- The closure `only_if_clause` (totdb/mod.rs l.481-496). -/
def onlyIfClause (db : Db) (p : Pre) (llits rlits : List LitData) (idx : Nat) (olit : Lit) (lval : Nat) :
    Option Clause :=
  let rval := idx - lval
  match if lval < db.conLen p.lcon then (sliceLit llits (conIdx lval p.lcon)).map fun l => [l.neg] else some [],
      if rval < db.conLen p.rcon then (sliceLit rlits (conIdx rval p.rcon)).map fun l => [l.neg] else some [] with
  | some l, some r => some (Atomics.cubeImplLit (l ++ r) olit.neg)
  | _, _ => none

/-- Collecting optional values, failing if one is missing. -/
def collect {α β : Type} (f : α → Option β) : List α → Option (List β)
  | [] => some []
  | a :: as =>
    match f a with
    | none => none
    | some b =>
      match collect f as with
      | none => none
      | some bs => some (b :: bs)

variable {VM : Type} [ManageVars VM]

/-- `Db::get_olit` (totdb/mod.rs l.417-425). -/
def getOlit (st : St VM) (id idx : Nat) : Option (Lit × St VM) :=
  match st.db.unitData id idx with
  | some (.lit l _) => some (l, st)
  | some .none =>
    let (v, vm) := ManageVars.newVar st.vm
    some (Lit.pos v, { st with db := st.db.setUnit id idx (LitData.newLit (Lit.pos v)), vm := vm })
  | none => none

/-- `Db::encode_unweighted` (totdb/mod.rs l.432-501). The missing semantics are only asserted to exist; what to
encode is determined by the ranges. -/
def encodeUnweighted (st : St VM) (id idx : Nat) (olit : Lit) (req : Semantics) (p : Pre) : Option (St VM) :=
  match st.db.unitData id idx with
  | none => none
  | some d =>
    match d.missingSemantics req with
    | none => none
    | some _ =>
      let db := st.db.setUnit id idx (d.addSemantics req)
      match litSlice db p.lcon.id, litSlice db p.rcon.id with
      | some llits, some rlits =>
        match collect (ifClause p llits rlits idx olit) p.leftIf,
            collect (onlyIfClause db p llits rlits idx olit) p.leftOnlyIf with
        | some c1, some c2 => some { st with db := db, cls := st.cls ++ c1 ++ c2 }
        | _, _ => none
      | _, _ => none

/-- Performing a list of recursive calls in order. -/
def runRequests (f : St VM → Nat → Nat → Semantics → Option (Lit × St VM)) :
    List (Nat × Nat × Semantics) → St VM → Option (St VM)
  | [], st => some st
  | (id, idx, sem) :: rest, st =>
    match f st id idx sem with
    | none => none
    | some (_, st) => runRequests f rest st

/-- `Db::define_unweighted` (totdb/mod.rs l.507-547). -/
def defineUnweighted : Nat → St VM → Nat → Nat → Semantics → Option (Lit × St VM)
  | 0, _, _, _, _ => none
  | fuel + 1, st, id, idx, sem =>
    match precond st.db id idx sem with
    | .panic => none
    | .ret l => some (l, st)
    | .pass con =>
      match defineUnweighted fuel st con.id (conIdx idx con) sem with
      | none => none
      | some (ilit, st) =>
        match getOlit st id idx with
        | none => none
        | some (olit, st) =>
          match st.db.unitData id idx with
          | none => none
          | some d =>
            some (olit, { st with db := st.db.setUnit id idx (d.addSemantics sem),
                                  cls := st.cls ++ [Atomics.litImplLit ilit olit] })
    | .cont p =>
      match runRequests (fun st id idx sem => defineUnweighted fuel st id idx sem) (requests st.db p) st with
      | none => none
      | some st =>
        match getOlit st id idx with
        | none => none
        | some (olit, st) =>
          match encodeUnweighted st id idx olit sem p with
          | none => none
          | some st => some (olit, st)

/-- `db.define_unweighted(id, idx, sem, ..)`: the ids on a path to a leaf decrease, `id + 1` calls suffice. -/
def define (st : St VM) (id idx : Nat) (sem : Semantics) : Option (Lit × St VM) :=
  defineUnweighted (id + 1) st id idx sem

/-- `define_unweighted` for a list of output indices (card/totalizer/mod.rs l.251-259, l.331-339). -/
def defineAll (st : St VM) (id : Nat) (sem : Semantics) : List Nat → Option (St VM)
  | [] => some st
  | idx :: rest =>
    match define st id idx sem with
    | none => none
    | some (_, st) => defineAll st id sem rest

/-- `Db::reset_encoded` (totdb/mod.rs l.587-603). -/
def Db.resetEncoded (db : Db) (sem : Semantics) : Db :=
  { db with nodes := db.nodes.map fun n =>
      match n with
      | .unit lits d nl l r => .unit (lits.map fun x => x.removeSemantics sem) d nl l r
      | .general lits d nl m l r => .general (lits.map fun x => (x.1, x.2.removeSemantics sem)) d nl m l r
      | n => n }

/-- The data of an output of a unit or general node, by position. -/
def Db.outLit (db : Db) (id k : Nat) : Option LitData :=
  match db.node id with
  | .unit lits .. => lits[k]?
  | .general lits .. => (lits[k]?).map (·.2)
  | _ => none

/-- Replacing the data of an output of a unit or general node, by position. -/
def Db.setOut (db : Db) (id k : Nat) (d : LitData) : Db :=
  match db.node id with
  | .unit lits depth nl l r => { db with nodes := db.nodes.set id (.unit (lits.set k d) depth nl l r) }
  | .general lits depth nl m l r =>
    { db with nodes := db.nodes.set id (.general (lits.modify k fun x => (x.1, d)) depth nl m l r) }
  | _ => db

/-- One step of the loops of `Node::reserve_vars` (totdb/mod.rs l.1028-1032, l.1051-1055). -/
def reserveOut (st : St VM) (id k : Nat) : St VM :=
  match st.db.outLit id k with
  | some .none =>
    let (v, vm) := ManageVars.newVar st.vm
    { st with db := st.db.setOut id k (LitData.newLit (Lit.pos v)), vm := vm }
  | _ => st

/-- The loops of `Node::reserve_vars` over a list of positions. -/
def reserveOuts (st : St VM) (id : Nat) (ks : List Nat) : St VM := ks.foldl (fun st k => reserveOut st id k) st

/-- The positions of the outputs of a node with values in `val..=val` (totdb/mod.rs l.1012-1055). -/
def Node.valIdxs (n : Node) (val : Nat) : List Nat :=
  match n with
  | .unit _ .. => if val = 0 then [] else [val - 1]
  | .general lits .. => (List.range lits.length).filter fun k => ((lits.map (·.1)).getD k 0) == val
  | _ => []

/-- The positions of the outputs of a node reserved for values `from..` (totdb/mod.rs l.1012-1055). For a unit
node the slice starts at `from - 1`; `none` models the panic if this is out of range. -/
def Node.fromIdxs (n : Node) (lo : Nat) : Option (List Nat) :=
  match n with
  | .unit lits .. => if lo - 1 ≤ lits.length then some (List.range' (lo - 1) (lits.length - (lo - 1))) else none
  | .general lits .. => some ((List.range lits.length).filter fun k => decide (lo ≤ (lits.map (·.1)).getD k 0))
  | _ => some []

/-- The values `offset, offset + divisor, ...` up to a maximum (totdb/mod.rs l.577-582). -/
def stepVals (offset divisor max : Nat) : List Nat :=
  (List.range (max + 1)).filter fun v => decide (offset ≤ v) && (v - offset) % divisor == 0

/-- The positions reserved in the node of a connection (totdb/mod.rs l.566-583). -/
def conIdxs (db : Db) (c : NodeCon) : Option (List Nat) :=
  let n := db.node c.id
  if c.divisor = 1 then
    match c.lenLimit with
    | some limit => some (((n.valsFrom c.offset).take limit).flatMap n.valIdxs)
    | none => n.fromIdxs c.offset
  else some ((stepVals c.offset c.divisor n.maxVal).flatMap n.valIdxs)

/-- `Db::reserve_vars` (totdb/mod.rs l.549-584); `none` is a panic. -/
def reserveVars : Nat → St VM → NodeCon → Option (St VM)
  | 0, _, _ => none
  | fuel + 1, st, con =>
    match st.db.node con.id with
    | .leaf _ => some st
    | .dummy => some st
    | .unit _ _ _ l r | .general _ _ _ _ l r =>
      match reserveVars fuel st l with
      | none => none
      | some st =>
        match reserveVars fuel st r with
        | none => none
        | some st =>
          match conIdxs st.db con with
          | none => none
          | some ks => some (reserveOuts st con.id ks)

/-- The position of a value among the outputs of a general node (`GeneralNode::lit_data`, totdb/mod.rs l.1231-1237);
the binary search in the sorted values is a linear search. -/
def valIdx (lits : List (Nat × LitData)) (val : Nat) : Option Nat := lits.findIdx? fun x => x.1 == val

/-- Reading or allocating the output literal of a general node at a position (totdb/mod.rs l.202-210). -/
def weightedOlit (st : St VM) (id k : Nat) : Option (Lit × St VM) :=
  match st.db.outLit id k with
  | some (.lit l _) => some (l, st)
  | some .none =>
    let (v, vm) := ManageVars.newVar st.vm
    some (Lit.pos v, { st with db := st.db.setOut id k (LitData.newLit (Lit.pos v)), vm := vm })
  | none => none

/-- Collecting one clause. -/
def addClause (st : St VM) (c : Clause) : St VM := { st with cls := st.cls ++ [c] }

/-- The loop over the values of the left child (totdb/mod.rs l.216-240); `f` is the recursive call. -/
def sumLoop (f : St VM → Nat → Nat → Option (Option Lit × St VM)) (lcon rcon : NodeCon) (rmax val : Nat) (olit : Lit) :
    List Nat → St VM → Option (St VM)
  | [], st => some st
  | lval :: rest, st =>
    let rval := val - lcon.map lval
    if rcon.isPossible rval && decide (rcon.revMap rval ≤ rmax) then
      match f st rcon.id (rcon.revMap rval) with
      | none => none
      | some (none, st) => sumLoop f lcon rcon rmax val olit rest st
      | some (some rlit, st) =>
        match f st lcon.id lval with
        | some (some llit, st) =>
          sumLoop f lcon rcon rmax val olit rest (addClause st (Atomics.cubeImplLit [llit, rlit] olit))
        | _ => none
    else sumLoop f lcon rcon rmax val olit rest st

/-- Propagating the value of one child (totdb/mod.rs l.243-256). -/
def propagateVal (f : St VM → Nat → Nat → Option (Option Lit × St VM)) (con : NodeCon) (val : Nat) (olit : Lit)
    (st : St VM) : Option (St VM) :=
  if con.isPossible val && decide (con.revMap val ≤ (st.db.node con.id).maxVal) then
    match f st con.id (con.revMap val) with
    | none => none
    | some (none, st) => some st
    | some (some l, st) => some (addClause st (Atomics.litImplLit l olit))
  else some st

/-- The values of the left child for which sums are propagated (totdb/mod.rs l.213-214). -/
def sumVals (db : Db) (lcon : NodeCon) (val : Nat) : List Nat :=
  if lcon.map (lcon.offset + 1) < val then (db.node lcon.id).valsRange (lcon.offset + 1) (lcon.revMapRoundUp val) else []

/-- `Db::define_weighted` (totdb/mod.rs l.146-266); the outer `none` is a panic. -/
def defineWeighted : Nat → St VM → Nat → Nat → Option (Option Lit × St VM)
  | 0, _, _, _ => none
  | fuel + 1, st, id, val =>
    match st.db.node id with
    | .leaf l => some (if val ≠ 1 then none else some l, st)
    | .dummy => some (none, st)
    | .unit lits .. =>
      if val > lits.length ∨ val = 0 then some (none, st)
      else
        match define st id (val - 1) .if_ with
        | none => none
        | some (l, st) => some (some l, st)
    | .general lits _ _ _ lcon rcon =>
      match valIdx lits val with
      | none => some (none, st)
      | some k =>
        match st.db.outLit id k with
        | none => none
        | some d =>
          match d.hasIf, d.lit? with
          | true, some l => some (some l, st)
          | _, _ =>
            match weightedOlit st id k with
            | none => none
            | some (olit, st) =>
              match sumLoop (defineWeighted fuel) lcon rcon (st.db.node rcon.id).maxVal val olit
                  (sumVals st.db lcon val) st with
              | none => none
              | some st =>
                match propagateVal (defineWeighted fuel) lcon val olit st with
                | none => none
                | some st =>
                  match propagateVal (defineWeighted fuel) rcon val olit st with
                  | none => none
                  | some st =>
                    match st.db.outLit id k with
                    | none => none
                    | some d => some (some olit, { st with db := st.db.setOut id k (d.addSemantics .if_) })

/-- `db.define_weighted(id, val, ..).unwrap()` for a list of values (pb/gte/mod.rs l.325-336). -/
def defineVals (st : St VM) (id : Nat) : List Nat → Option (St VM)
  | [] => some st
  | val :: rest =>
    match defineWeighted (id + 1) st id val with
    | some (some _, st) => defineVals st id rest
    | _ => none

end TotDb
end RustSat
