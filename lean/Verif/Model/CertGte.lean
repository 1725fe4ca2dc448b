import Verif.Model.CertDb
import Verif.Model.CertTotalizer
import Verif.Model.Gte
/-
Model of the certified generalized totalizer: `define_weighted_cert` of the database (src/encodings/totdb/cert.rs
l.408-834) and the certified functions of the encoding (src/encodings/pb/gte/mod.rs l.134-158, l.387-531).

As in `Model/CertDb.lean`, only connections without offset and length limit are modelled, and `none` models a panic.
I/O and out-of-memory errors are not modelled; weights are unbounded except where they are converted to the signed
coefficients of a constraint.
-/
namespace RustSat
namespace TotDb
open Pigeons
variable {VM : Type} [ManageVars VM]

/-- Multiplying the weights of leaves (cert.rs l.748-757). -/
def scale (k : Nat) (leaves : List (Lit × Nat)) : List (Lit × Nat) := leaves.map fun x => (x.1, x.2 * k)

/-- Dividing the weights of leaves (cert.rs l.509-520). -/
def unscale (k : Nat) (leaves : List (Lit × Nat)) : List (Lit × Nat) := leaves.map fun x => (x.1, x.2 / k)

/-- The buffers for the leaves of the left and the right child, and whether they are populated. -/
structure Bufs where
  left : List (Lit × Nat)
  right : List (Lit × Nat)
  leftInit : Bool
  rightInit : Bool

/-- Splitting the buffer of a node (cert.rs l.496-521), which panics if it is too short. -/
def splitBufs (n lmul rmul : Nat) (leaves : List (Lit × Nat)) (init : Bool) : Option Bufs :=
  if n ≤ leaves.length then
    some (if init then ⟨unscale lmul (leaves.take n), unscale rmul (leaves.drop n), init, init⟩
      else ⟨leaves.take n, leaves.drop n, init, init⟩)
  else none

/-- `populate_weighted_leaves` (cert.rs l.817-833) for a connection without offset and limit. -/
def populate (db : Db) (id : Nat) (leaves : List (Lit × Nat)) : Option (List (Lit × Nat)) :=
  let new := leafLits db id
  if new.length = leaves.length then some new else none

/-- The type of `define_weighted_cert`: the node, the value, the buffer for leaves, whether the buffer is initialized and
whether it has to be. Returns the output literal, if there is one, the buffer, and whether it is initialized. -/
abbrev DefineWCert (VM : Type) :=
  CSt VM → Nat → Nat → List (Lit × Nat) → Bool → Bool → Option (Option Lit × CSt VM × List (Lit × Nat) × Bool)

/-- The derivation of a clause (cert.rs l.558-609, l.635-687, l.703-746): the definitions of both children and of this
node, with their leaves, added with the multipliers of the connections. -/
def certClauseW (st : CSt VM) (left right this : Nat × Nat) (lmul rmul : Nat) (ll rl : List (Lit × Nat)) (c : Clause) :
    Option (CSt VM) :=
  match defineSemantics st left.1 left.2 .onlyIf ll with
  | none => none
  | some (ld, st) =>
    match defineSemantics st right.1 right.2 .onlyIf rl with
    | none => none
    | some (rd, st) =>
      match defineSemantics st this.1 this.2 .if_ (scale lmul ll ++ scale rmul rl) with
      | none => none
      | some (td, st) => deriveClause st ((td.ops.add (ld.ops.mul lmul)).add (rd.ops.mul rmul)) c

/-- The loop over the values of the left child (cert.rs l.528-612); `f` is the recursive call. -/
def sumLoopCert (f : DefineWCert VM) (id : Nat) (lcon rcon : NodeCon) (rmax val : Nat) (olit : Lit) :
    List Nat → CSt VM → Bufs → Option (CSt VM × Bufs)
  | [], st, b => some (st, b)
  | lval :: rest, st, b =>
    let rval := val - lcon.map lval
    if rcon.isPossible rval && decide (rcon.revMap rval ≤ rmax) then
      match f st rcon.id (rcon.revMap rval) b.right b.rightInit true with
      | none => none
      | some (none, st, rl, _) => sumLoopCert f id lcon rcon rmax val olit rest st { b with right := rl }
      | some (some rlit, st, rl, _) =>
        match f st lcon.id lval b.left b.leftInit true with
        | some (some llit, st, ll, _) =>
          match certClauseW st (lcon.id, lval) (rcon.id, rcon.revMapNoLimit rval) (id, val) lcon.multiplier
              rcon.multiplier ll rl (Atomics.cubeImplLit [llit, rlit] olit) with
          | none => none
          | some st => sumLoopCert f id lcon rcon rmax val olit rest st ⟨ll, rl, true, true⟩
        | _ => none
    else sumLoopCert f id lcon rcon rmax val olit rest st b

/-- Propagating the value of the left child (cert.rs l.614-689). -/
def propLeftCert (f : DefineWCert VM) (id : Nat) (lcon rcon : NodeCon) (val : Nat) (olit : Lit) (st : CSt VM) (b : Bufs) :
    Option (CSt VM × Bufs) :=
  if lcon.isPossible val && decide (lcon.revMap val ≤ (st.db.node lcon.id).maxVal) then
    match f st lcon.id (lcon.revMap val) b.left b.leftInit true with
    | none => none
    | some (none, st, ll, _) => some (st, { b with left := ll })
    | some (some llit, st, ll, _) =>
      match if b.rightInit then some b.right else populate st.db rcon.id b.right with
      | none => none
      | some rl =>
        match certClauseW st (lcon.id, lcon.revMapNoLimit val) (rcon.id, 0) (id, val) lcon.multiplier rcon.multiplier
            ll rl (Atomics.litImplLit llit olit) with
        | none => none
        | some st => some (st, ⟨ll, rl, true, true⟩)
  else some (st, b)

/-- Propagating the value of the right child (cert.rs l.690-746). -/
def propRightCert (f : DefineWCert VM) (id : Nat) (lcon rcon : NodeCon) (val : Nat) (olit : Lit) (st : CSt VM) (b : Bufs) :
    Option (CSt VM × Bufs) :=
  if rcon.isPossible val && decide (rcon.revMap val ≤ (st.db.node rcon.id).maxVal) then
    match f st rcon.id (rcon.revMap val) b.right b.rightInit true with
    | none => none
    | some (none, st, rl, _) => some (st, { b with right := rl })
    | some (some rlit, st, rl, _) =>
      match if b.leftInit then some b.left else populate st.db lcon.id b.left with
      | none => none
      | some ll =>
        match certClauseW st (lcon.id, 0) (rcon.id, rcon.revMapNoLimit val) (id, val) lcon.multiplier rcon.multiplier
            ll rl (Atomics.litImplLit rlit olit) with
        | none => none
        | some st => some (st, ⟨ll, rl, true, true⟩)
  else some (st, b)

/-- Reading or allocating the output literal of a general node (cert.rs l.481-492). -/
def weightedOlitCert (st : CSt VM) (id k : Nat) : Option (Lit × CSt VM) :=
  (weightedOlit (⟨st.db, st.vm, []⟩ : St VM) id k).map fun r => (r.1, { st with db := r.2.db, vm := r.2.vm })

/-- `define_weighted_cert` (cert.rs l.408-770); the inner connections are without offset and limit, so that
`define_weighted_treat_pseudo_leaves` (l.772-815) is a recursive call that needs the leaves. -/
def defineWeightedCert : Nat → DefineWCert VM
  | 0, _, _, _, _, _, _ => none
  | fuel + 1, st, id, val, leaves, init, needed =>
    match st.db.node id with
    | .leaf l =>
      let leaves := if init then leaves else leaves.set 0 (l, 1)
      some (if val ≠ 1 then none else some l, st, leaves, true)
    | .dummy => some (none, st, leaves, init)
    | .unit lits .. =>
      if val > lits.length ∨ val = 0 then some (none, st, leaves, init)
      else
        match defineUnweightedCert (id + 1) st id (val - 1) .if_ (leaves.map (·.1)) init needed with
        | none => none
        | some (l, st, new, _) =>
          if needed && !init then some (some l, st, ones new, true) else some (some l, st, leaves, init)
    | .general lits _ _ _ lcon rcon =>
      match valIdx lits val with
      | none => some (none, st, leaves, init)
      | some k =>
        match st.db.outLit id k with
        | none => none
        | some d =>
          match d.hasIf, d.lit? with
          | true, some l =>
            if needed && !init then (populate st.db id leaves).map fun leaves => (some l, st, leaves, true)
            else some (some l, st, leaves, init)
          | _, _ =>
            match weightedOlitCert st id k with
            | none => none
            | some (olit, st) =>
              if lcon.plain && rcon.plain then
                match splitBufs (st.db.node lcon.id).nLeaves lcon.multiplier rcon.multiplier leaves init with
                | none => none
                | some b =>
                  match sumLoopCert (defineWeightedCert fuel) id lcon rcon (st.db.node rcon.id).maxVal val olit
                      (sumVals st.db lcon val) st b with
                  | none => none
                  | some (st, b) =>
                    match propLeftCert (defineWeightedCert fuel) id lcon rcon val olit st b with
                    | none => none
                    | some (st, b) =>
                      match propRightCert (defineWeightedCert fuel) id lcon rcon val olit st b with
                      | none => none
                      | some (st, b) =>
                        match st.db.outLit id k with
                        | none => none
                        | some d =>
                          some (some olit, { st with db := st.db.setOut id k (d.addSemantics .if_) },
                            scale lcon.multiplier b.left ++ scale rcon.multiplier b.right, b.leftInit && b.rightInit)
              else none

/-- `db.define_weighted_cert(id, val, ..).unwrap()` for a list of values (pb/gte/mod.rs l.508-526). -/
def defineValsCert (id : Nat) : List Nat → CSt VM → List (Lit × Nat) → Bool → Option (CSt VM)
  | [], st, _, _ => some st
  | val :: rest, st, leaves, init =>
    match defineWeightedCert (id + 1) st id val leaves init false with
    | some (some _, st, leaves, init) => defineValsCert id rest st leaves init
    | _ => none

end TotDb

open TotDb Pigeons Card

/-- The encoder, the definitions in its database, the variable manager, the collector and the proof. -/
structure CertGte (VM : Type) where
  gte : Gte
  defs : Defs
  vm : VM
  cls : List (Clause × Nat)
  proof : Proof

namespace CertGte
variable {VM : Type} [ManageVars VM]

/-- The state of the certified functions of the database. -/
def st (e : CertGte VM) : CSt VM := ⟨e.gte.db, e.defs, e.vm, e.cls, e.proof⟩

/-- `encode_ub_change_cert` (gte/mod.rs l.486-531). -/
def encodeUbChange (e : CertGte VM) (r : URange) : Option (CertGte VM) :=
  let range := Pb.prepareUbRange e.gte.weightSum r
  if range.2 ≤ range.1 then some e
  else
    match e.gte.extendTree (some (range.2 - 1)) with
    | none => none
    | some t =>
      match t.root with
      | none => some { e with gte := t }
      | some con =>
        let vals := (t.db.node con.id).valsRange (con.revMapRoundUp (range.1 + 1))
          (con.revMap (range.2 + t.maxLeafWeight) + 1)
        match defineValsCert con.id vals ({ e with gte := t } : CertGte VM).st
            (List.replicate (t.db.node con.id).nLeaves (Lit.pos 0, 0)) false with
        | none => none
        | some st =>
          some { gte := { t with db := st.db, nClauses := t.nClauses + (st.cls.length - e.cls.length),
                                 nVars := t.nVars + (ManageVars.nUsed st.vm - ManageVars.nUsed e.vm) },
                 defs := st.defs, vm := st.vm, cls := st.cls, proof := st.proof }

/-- `encode_ub_cert` (gte/mod.rs l.392-407). -/
def encodeUb (e : CertGte VM) (r : URange) : Option (CertGte VM) :=
  encodeUbChange { e with gte := { e.gte with db := e.gte.db.resetEncoded .if_ } } r

/-- `output_proof_details` (gte/mod.rs l.139-158). The stored definitions all have offset 0. -/
def outputProofDetails (e : CertGte VM) (value : Nat) : Res EnforceError (Lit × SemDefs) :=
  match e.gte.root with
  | none => .err .notEncoded
  | some root =>
    if root.isPossible value then
      match if root.offset = 0 then e.defs.lookup (root.id, root.revMap value) else none with
      | none => .err .notEncoded
      | some defs =>
        match e.gte.db.litAt root.id (root.revMap value) with
        | none => .panic
        | some l => .ok (l, defs)
    else .err .notEncoded

/-- The loop over the unit clauses (gte/mod.rs l.440-479): `id` is the rewritten constraint, `val` the value of the next
output. -/
def deriveUnits (e : CertGte VM) : List Lit → Nat → Nat → Option (CertGte VM)
  | [], _, _ => some e
  | unit :: rest, id, val =>
    match e.outputProofDetails val with
    | .ok (olit, defs) =>
      if unit.var < olit.var then
        match e.gte.litBuffer.get unit.neg with
        | none => none
        | some weight =>
          let r := e.proof.reverseUnitProp (Clause.constr [unit]) [id]
          match r.2.operations (Ops.add (Ops.mul [.ax unit.neg] weight) [.id id]) with
          | none => none
          | some (id, p) => deriveUnits { e with proof := p, cls := e.cls ++ [([unit], r.1)] } rest id val
      else
        match defs.onlyIfDef with
        | none => none
        | some n =>
          match e.proof.operations ((Ops.add [.id id] [.id n]).div val) with
          | none => none
          | some (k, p) =>
            deriveUnits { e with proof := p, cls := e.cls ++ [([unit], k)] } rest id (e.gte.nextHigher val)
    | _ => none

/-- The end of deriving: `delete_semantics`. The encoder is dropped; the manager, the collector and the proof remain. -/
def finish (e : CertGte VM) : VM × List (Clause × Nat) × Proof :=
  (e.vm, e.cls, (deleteSemantics e.st).proof)

/-- A new encoder for literals. -/
def new (lits : List (Lit × Nat)) (vm : VM) (cls : List (Clause × Nat)) (p : Proof) : CertGte VM :=
  ⟨Gte.new lits, [], vm, cls, p⟩

/-- What follows creating the encoder in `encode_ub_constr_cert` (gte/mod.rs l.436-481). -/
def encodeDerive (e : CertGte VM) (ub id : Nat) : Option (VM × List (Clause × Nat) × Proof) :=
  match e.encodeUb ⟨.incl ub, .incl ub⟩ with
  | none => none
  | some e =>
    match e.gte.enforceUb ub with
    | .ok units => (e.deriveUnits units id (e.gte.nextHigher ub)).map finish
    | _ => none

/-- `encode_ub_constr_cert` (gte/mod.rs l.409-482). The literals are collected to a hash map: `perm` stands for its order of
iteration. -/
def encodeUbConstr (perm : LitMap → LitMap) (lits : List (Lit × Nat)) (ub : Int) (id : Nat) (vm : VM)
    (cls : List (Clause × Nat)) (p : Proof) : Res EnforceError (VM × List (Clause × Nat) × Proof) :=
  if ub < 0 then .err .unsat
  else if ub.natAbs > (lits.map (·.2)).sum then .ok (vm, cls, p)
  else
    let e := new lits vm cls p
    CertTot.ofOption (encodeDerive { e with gte := { e.gte with litBuffer := perm e.gte.litBuffer } } ub.natAbs id)

end CertGte
end RustSat
