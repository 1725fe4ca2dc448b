import Verif.Model.TotDb
import Verif.Model.Atomics
import Verif.Model.Pigeons
/-
Model of the certified encoding functions of the totalizer database (src/encodings/totdb/cert.rs).

The database with the semantic definitions, the variable manager, the collected clauses with the ids of their
constraints in the proof, and the proof form the state. `none` models a panic. Recursion goes from a node to its
children, whose ids are smaller; `fuel` bounds it. `debug_assert!`s, I/O and out-of-memory errors are not modelled.

Only connections without offset and length limit are modelled: no encoder with certified functions creates others.
(The model yields `none` for them.) The definitions that are rewritten for such connections
(`define_pseudo_semantics`, cert.rs l.160-330) are not modelled.
-/
namespace RustSat
namespace TotDb
open Pigeons

/-- `SemDefs` (cert.rs l.1204-1213). -/
structure SemDefs where
  ifDef : Option Nat
  onlyIfDef : Option Nat
deriving DecidableEq, Repr

/-- `SemDefType` (cert.rs l.1330-1334). -/
inductive SemDefType where
  | if_ | onlyIf
deriving DecidableEq, Repr

/-- `SemDefs::get` (cert.rs l.1226-1231). -/
def SemDefs.get (d : SemDefs) : SemDefType → Option Nat
  | .if_ => d.ifDef
  | .onlyIf => d.onlyIfDef

/-- `SemDefs::iter` (cert.rs l.1233-1235). -/
def SemDefs.ids (d : SemDefs) : List Nat := d.ifDef.toList ++ d.onlyIfDef.toList

/-- `SemDefinition` (cert.rs l.1252-1257). -/
inductive SemDef where
  | none
  | id (n : Nat)
  | ax (l : Lit)
deriving DecidableEq, Repr

/-- A definition as a sequence of operations. The additions of definitions (cert.rs l.1271-1316) are additions of
these sequences, and likewise for multiplications (l.1318-1328). -/
def SemDef.ops : SemDef → Ops
  | .none => []
  | .id n => [.id n]
  | .ax l => [.ax l]

/-- The definitions stored in the database, by node and value (`SemDefId`, cert.rs l.1238-1250, with offset 0 and no
length limit). The hash map is an association list. -/
abbrev Defs := List ((Nat × Nat) × SemDefs)

/-- The database with its definitions, the variable manager, the collected clauses with their ids, the proof. -/
structure CSt (VM : Type) where
  db : Db
  defs : Defs
  vm : VM
  cls : List (Clause × Nat)
  proof : Proof

/-- The state without everything related to the proof. -/
def CSt.proj {VM : Type} (st : CSt VM) : St VM := ⟨st.db, st.vm, st.cls.map (·.1)⟩

/-- `db[id][val]` (totdb/mod.rs l.934-945, l.1091-1101, l.1130-1132, l.1258-1262). -/
def Db.litAt (db : Db) (id val : Nat) : Option Lit :=
  match db.node id with
  | .leaf l => if val = 1 then some l else none
  | .unit lits .. => if val = 0 then none else (lits[val - 1]?).bind LitData.lit?
  | .general lits .. => (valIdx lits val).bind fun k => (lits[k]?).bind fun x => x.2.lit?
  | .dummy => none

/-- `NodeLike::is_leaf` (totdb/mod.rs). -/
def Node.isLeafNode : Node → Bool
  | .leaf _ => true
  | _ => false

/-- A connection without offset and length limit. -/
def NodeCon.plain (c : NodeCon) : Bool := c.offset == 0 && c.lenLimit.isNone

/-- `leaf_iter(id).lits()` (nodedb.rs l.727-920): the literals at the leaves below a node, from left to right, with the
products of the multipliers on the path. The iterator with an explicit trace is a recursion here; that it
yields the same is C103. -/
def leafLitsF (db : Db) : Nat → Nat → List (Lit × Nat)
  | 0, _ => []
  | fuel + 1, id =>
    match db.node id with
    | .leaf l => [(l, 1)]
    | .dummy => []
    | .unit _ _ _ l r | .general _ _ _ _ l r =>
      ((leafLitsF db fuel l.id).map fun x => (x.1, x.2 * l.multiplier)) ++
      ((leafLitsF db fuel r.id).map fun x => (x.1, x.2 * r.multiplier))

/-- The ids on a path to a leaf decrease. -/
def leafLits (db : Db) (id : Nat) : List (Lit × Nat) := leafLitsF db (id + 1) id

variable {VM : Type} [ManageVars VM]

/-- `proof.redundant(..)` for the constraint of an atomic encoding. -/
def redundantPb (p : Proof) (c : Res Empty PbConstraint) (subst : List (Nat × Bool)) : Option (Nat × Proof) :=
  match c with
  | .ok c => (c.constr).map fun c => p.redundant c subst
  | _ => none

/-- `define_real_semantics` (cert.rs l.105-158). -/
def defineRealSemantics (st : CSt VM) (id value : Nat) (leaves : List (Lit × Nat)) : Option (SemDefs × CSt VM) :=
  if value ≤ isizeMax then
    let sum := PbConstraint.newLbUnsigned leaves value
    let store (defs : SemDefs) (proof : Proof) : SemDefs × CSt VM :=
      (defs, { st with defs := ((id, value), defs) :: st.defs, proof := proof })
    if value = 0 then
      match redundantPb st.proof (.ok sum) [] with
      | none => none
      | some (n, p) => some (store ⟨none, some n⟩ p)
    else if value > (st.db.node id).maxVal then
      match redundantPb st.proof (.ok (PbConstraint.newLbUnsigned (leaves.map fun x => (x.1.neg, x.2)) 0)) [] with
      | none => none
      | some (n, p) => some (store ⟨some n, none⟩ p)
    else
      match st.db.litAt id value with
      | none => none
      | some olit =>
        match redundantPb st.proof (Atomics.pbImplLit sum olit) [(olit.var, true)] with
        | none => none
        | some (n, p) =>
          match redundantPb p (Atomics.litImplPb olit sum) [(olit.var, false)] with
          | none => none
          | some (m, p) => some (store ⟨some n, some m⟩ p)
  else none

/-- `define_semantics` (cert.rs l.38-103) with offset 0 and no length limit. -/
def defineSemantics (st : CSt VM) (id value : Nat) (ty : SemDefType) (leaves : List (Lit × Nat)) :
    Option (SemDef × CSt VM) :=
  match st.defs.lookup (id, value) with
  | some defs => (defs.get ty).map fun n => (.id n, st)
  | none =>
    if (st.db.node id).isLeafNode || decide (1 ≥ (st.db.node id).maxVal) then
      if value = 0 ∧ ty = .onlyIf then (st.db.litAt id 1).map fun l => (.ax l, st)
      else if value = 2 ∧ ty = .if_ then (st.db.litAt id 1).map fun l => (.ax l.neg, st)
      else some (.none, st)
    else
      match defineRealSemantics st id value leaves with
      | none => none
      | some (defs, st) => (defs.get ty).map fun n => (.id n, st)

/-- `delete_semantics` (cert.rs l.385-405): the definitions are deleted from the proof and forgotten. The order of the
ids, that of a hash map, is arbitrary. -/
def deleteSemantics (st : CSt VM) : CSt VM :=
  { st with proof := st.proof.deleteIds (st.defs.flatMap fun d => d.2.ids), defs := [] }

/-- The macro `get_olit` (cert.rs l.24-35). -/
def certOlit (db : Db) (id idx : Nat) : Option Lit :=
  match db.node id with
  | .leaf l => some l
  | .unit lits .. => (lits[idx]?).bind LitData.lit?
  | _ => none

/-- The literals of the left and right child in an "if" clause (cert.rs l.1034-1044). -/
def lhsIf (db : Db) (p : Pre) (idx lval : Nat) : Option (List Lit) :=
  let rval := idx + 1 - lval
  match if lval > 0 then (certOlit db p.lcon.id (conIdx (lval - 1) p.lcon)).map fun l => [l] else some [],
      if rval > 0 then (certOlit db p.rcon.id (conIdx (rval - 1) p.rcon)).map fun l => [l] else some [] with
  | some l, some r => some (l ++ r)
  | _, _ => none

/-- The literals of the left and right child in an "only if" clause (cert.rs l.1083-1092). -/
def lhsOnlyIf (db : Db) (p : Pre) (idx lval : Nat) : Option (List Lit) :=
  let rval := idx - lval
  match if lval < db.conLen p.lcon then (certOlit db p.lcon.id (conIdx lval p.lcon)).map fun l => [l.neg] else some [],
      if rval < db.conLen p.rcon then (certOlit db p.rcon.id (conIdx rval p.rcon)).map fun l => [l.neg] else some [] with
  | some l, some r => some (l ++ r)
  | _, _ => none

/-- Unit weights. -/
def ones (lits : List Lit) : List (Lit × Nat) := lits.map fun l => (l, 1)

/-- Deriving a clause from three definitions and collecting it (cert.rs l.1069-1074, l.1116-1121). -/
def deriveClause (st : CSt VM) (ops : Ops) (c : Clause) : Option (CSt VM) :=
  match st.proof.operations ops.saturate with
  | none => none
  | some (n, p) => some { st with proof := p, cls := st.cls ++ [(c, n)] }

/-- The body of the loops of `encode_unweighted_cert` (cert.rs l.1045-1074, l.1093-1121): the definitions of the left
and right child and of this node, with their leaves, and the derivation of the clause. -/
def certClause (st : CSt VM) (left right this : Nat × Nat) (tyChild tyThis : SemDefType) (ll rl : List Lit)
    (c : Clause) : Option (CSt VM) :=
  match defineSemantics st left.1 left.2 tyChild (ones ll) with
  | none => none
  | some (ld, st) =>
    match defineSemantics st right.1 right.2 tyChild (ones rl) with
    | none => none
    | some (rd, st) =>
      match defineSemantics st this.1 this.2 tyThis (ones (ll ++ rl)) with
      | none => none
      | some (td, st) => deriveClause st ((td.ops.add ld.ops).add rd.ops) c

/-- The loop for the "if" semantics (cert.rs l.1028-1075). -/
def certIfs (id idx : Nat) (olit : Lit) (p : Pre) (ll rl : List Lit) : List Nat → CSt VM → Option (CSt VM)
  | [], st => some st
  | lval :: rest, st =>
    match lhsIf st.db p idx lval with
    | none => none
    | some lhs =>
      match certClause st (p.lcon.id, p.lcon.revMapNoLimit lval) (p.rcon.id, p.rcon.revMapNoLimit (idx + 1 - lval))
          (id, idx + 1) .onlyIf .if_ ll rl (Atomics.cubeImplLit lhs olit) with
      | none => none
      | some st => certIfs id idx olit p ll rl rest st

/-- The loop for the "only if" semantics (cert.rs l.1077-1122). -/
def certOnlyIfs (id idx : Nat) (olit : Lit) (p : Pre) (ll rl : List Lit) : List Nat → CSt VM → Option (CSt VM)
  | [], st => some st
  | lval :: rest, st =>
    match lhsOnlyIf st.db p idx lval with
    | none => none
    | some lhs =>
      match certClause st (p.lcon.id, p.lcon.revMapNoLimit (lval + 1))
          (p.rcon.id, p.rcon.revMapNoLimit (idx - lval + 1)) (id, idx + 1) .if_ .onlyIf ll rl
          (Atomics.cubeImplLit lhs olit.neg) with
      | none => none
      | some st => certOnlyIfs id idx olit p ll rl rest st

/-- `slice::split_at`, which panics if the position is out of range. -/
def splitAt? (n : Nat) (l : List Lit) : Option (List Lit × List Lit) :=
  if n ≤ l.length then some (l.take n, l.drop n) else none

/-- `encode_unweighted_cert` (cert.rs l.993-1125). -/
def encodeUnweightedCert (st : CSt VM) (id idx : Nat) (olit : Lit) (req : Semantics) (p : Pre) (leaves : List Lit) :
    Option (CSt VM) :=
  match st.db.unitData id idx with
  | none => none
  | some d =>
    match d.missingSemantics req with
    | none => none
    | some _ =>
      let st := { st with db := st.db.setUnit id idx (d.addSemantics req) }
      match splitAt? (st.db.node p.lcon.id).nLeaves leaves with
      | none => none
      | some (ll, rl) =>
        match certIfs id idx olit p ll rl p.leftIf st with
        | none => none
        | some st => certOnlyIfs id idx olit p ll rl p.leftOnlyIf st

/-- The type of `define_unweighted_cert`: the node, the output index, the semantics, the buffer for leaves, whether
the buffer is initialized and whether it has to be. Returns the output literal, whether the buffer is initialized,
and the buffer. -/
abbrev DefineCert (VM : Type) :=
  CSt VM → Nat → Nat → Semantics → List Lit → Bool → Bool → Option (Lit × CSt VM × List Lit × Bool)

/-- `recurse_unweighted_single_node` (cert.rs l.907-985): the calls for the outputs with the given indices. -/
def singleNode (f : DefineCert VM) (id : Nat) (sem : Semantics) :
    List Nat → CSt VM → List Lit → Bool → Option (CSt VM × List Lit × Bool)
  | [], st, leaves, init => some (st, leaves, init)
  | idx :: rest, st, leaves, init =>
    match f st id idx sem leaves init true with
    | none => none
    | some (_, st, leaves, _) => singleNode f id sem rest st leaves true

/-- The output indices needed for a range of values, "if" direction (cert.rs l.923-937). -/
def ifIdxs (c : NodeCon) (vals : List Nat) : List Nat := (vals.filter (· ≠ 0)).map fun v => conIdx (v - 1) c

/-- The output indices needed for a range of values, "only if" direction (cert.rs l.923-937). The length of a
connection does not change, it is computed once. -/
def onlyIfIdxs (db : Db) (c : NodeCon) (vals : List Nat) : List Nat :=
  (vals.filter (· ≠ db.conLen c)).map fun v => conIdx v c

/-- `recurse_unweighted_cert` (cert.rs l.836-905). Returns the buffer and whether it is initialized. -/
def recurseCert (f : DefineCert VM) (p : Pre) (st : CSt VM) (leaves : List Lit) (init : Bool) :
    Option (CSt VM × List Lit × Bool) :=
  let db := st.db
  if p.lcon.plain && p.rcon.plain then
    match splitAt? (db.node p.lcon.id).nLeaves leaves with
    | none => none
    | some (ll, rl) =>
      match singleNode f p.lcon.id .if_ (ifIdxs p.lcon p.leftIf) st ll init with
      | none => none
      | some (st, ll, linit) =>
        match singleNode f p.rcon.id .if_ (ifIdxs p.rcon p.rightIf) st rl init with
        | none => none
        | some (st, rl, rinit) =>
          match singleNode f p.lcon.id .onlyIf (onlyIfIdxs db p.lcon p.leftOnlyIf) st ll linit with
          | none => none
          | some (st, ll, linit) =>
            match singleNode f p.rcon.id .onlyIf (onlyIfIdxs db p.rcon p.rightOnlyIf) st rl rinit with
            | none => none
            | some (st, rl, rinit) => some (st, ll ++ rl, linit && rinit)
  else none

/-- The part of `get_olit` in the certified functions: the same as `Db::get_olit` (totdb/mod.rs l.417-425). -/
def getOlitCert (st : CSt VM) (id idx : Nat) : Option (Lit × CSt VM) :=
  (getOlit (⟨st.db, st.vm, []⟩ : St VM) id idx).map fun r => (r.1, { st with db := r.2.db, vm := r.2.vm })

/-- `define_unweighted_cert` (cert.rs l.1140-1195). -/
def defineUnweightedCert : Nat → DefineCert VM
  | 0, _, _, _, _, _, _, _ => none
  | fuel + 1, st, id, idx, sem, leaves, init, needed =>
    match precond st.db id idx sem with
    | .panic => none
    | .pass _ => none
    | .ret l =>
      if needed && !init then
        let new := (leafLits st.db id).map (·.1)
        if new.length = leaves.length then some (l, st, new, true) else none
      else some (l, st, leaves, init)
    | .cont p =>
      match recurseCert (defineUnweightedCert fuel) p st leaves init with
      | none => none
      | some (st, leaves, init) =>
        match getOlitCert st id idx with
        | none => none
        | some (olit, st) =>
          match encodeUnweightedCert st id idx olit sem p leaves with
          | none => none
          | some st => some (olit, st, leaves, init)

/-- The loops of the certified encoding functions (card/totalizer/mod.rs l.502-514, l.600-612). -/
def defineAllCert (id : Nat) (sem : Semantics) : List Nat → CSt VM → List Lit → Bool → Option (CSt VM)
  | [], st, _, _ => some st
  | idx :: rest, st, leaves, init =>
    match defineUnweightedCert (id + 1) st id idx sem leaves init false with
    | none => none
    | some (_, st, leaves, init) => defineAllCert id sem rest st leaves init

end TotDb
end RustSat
