import Verif.Model.CertDb
import Verif.Model.Totalizer
/-
Model of the certified functions of the totalizer encoding (src/encodings/card/totalizer/mod.rs l.114-130,
l.415-700).

The encoder with the definitions stored in its database, the variable manager, the collected clauses with their ids
and the proof form the state. `none` models a panic. I/O and out-of-memory errors are not modelled.
-/
namespace RustSat
open TotDb Pigeons Card

/-- The encoder, the definitions in its database, the variable manager, the collector and the proof. -/
structure CertTot (VM : Type) where
  tot : Totalizer
  defs : Defs
  vm : VM
  cls : List (Clause × Nat)
  proof : Proof

namespace CertTot
variable {VM : Type} [ManageVars VM]

/-- The state of the certified functions of the database. -/
def st (e : CertTot VM) : CSt VM := ⟨e.tot.db, e.defs, e.vm, e.cls, e.proof⟩

/-- The common part of `encode_ub_change_cert` and `encode_lb_change_cert` after preparing the range
(l.494-518, l.594-618). -/
def defineOutputs (e : CertTot VM) (sem : Semantics) (idxs : List Nat) : Option (CertTot VM) :=
  if idxs.isEmpty then some e
  else
    match e.tot.extendTree with
    | none => none
    | some t =>
      match t.root with
      | none => some { e with tot := t }
      | some id =>
        match defineAllCert id sem (idxs.map fun i => i + t.offset) ({ e with tot := t } : CertTot VM).st
            (List.replicate (t.db.node id).nLeaves (Lit.pos 0)) false with
        | none => none
        | some st =>
          some { tot := { t with db := st.db, nClauses := t.nClauses + (st.cls.length - e.cls.length),
                                 nVars := t.nVars + (ManageVars.nUsed st.vm - ManageVars.nUsed e.vm) },
                 defs := st.defs, vm := st.vm, cls := st.cls, proof := st.proof }

/-- `encode_ub_change_cert` (l.476-520). -/
def encodeUbChange (e : CertTot VM) (r : URange) : Option (CertTot VM) :=
  let range := prepareUbRange e.tot.nLits r
  let hi := min range.2 (e.tot.nLits - e.tot.offset)
  e.defineOutputs .if_ (List.range' range.1 (hi - range.1))

/-- `encode_ub_cert` (l.417-433). -/
def encodeUb (e : CertTot VM) (r : URange) : Option (CertTot VM) :=
  encodeUbChange { e with tot := { e.tot with db := e.tot.db.resetEncoded .if_ } } r

/-- `encode_lb_change_cert` (l.576-620). -/
def encodeLbChange (e : CertTot VM) (r : URange) : Option (CertTot VM) :=
  let range := prepareLbRange e.tot.nLits r
  let hi := min range.2 (e.tot.nLits - e.tot.offset + 1)
  e.defineOutputs .onlyIf ((List.range' range.1 (hi - range.1)).map (· - 1))

/-- `encode_lb_cert` (l.524-540). -/
def encodeLb (e : CertTot VM) (r : URange) : Option (CertTot VM) :=
  encodeLbChange { e with tot := { e.tot with db := e.tot.db.resetEncoded .onlyIf } } r

/-- `encode_both_cert` (l.624-642). -/
def encodeBoth (e : CertTot VM) (r : URange) : Option (CertTot VM) :=
  match e.encodeUbChange r with
  | none => none
  | some e => e.encodeLbChange r

/-- `output_proof_details` (l.114-129). The stored definitions all have offset 0. -/
def outputProofDetails (e : CertTot VM) (value : Nat) : Res EnforceError (Lit × SemDefs) :=
  match e.tot.root with
  | none => .err .notEncoded
  | some root =>
    match if e.tot.offset = 0 then e.defs.lookup (root, value) else none with
    | none => .err .notEncoded
    | some defs =>
      match e.tot.db.litAt root value with
      | none => .panic
      | some l => .ok (l, defs)

/-- Deriving a unit clause from a constraint and a definition of an output (l.455-464, l.560-569, l.667-687). -/
def deriveUnit (e : CertTot VM) (id : Nat) (defn : Option Nat) (l : Lit) : Option (CertTot VM) :=
  match defn with
  | none => none
  | some n =>
    match e.proof.operations (Ops.add [.id id] [.id n]).saturate with
    | none => none
    | some (k, p) => some { e with proof := p, cls := e.cls ++ [([l], k)] }

/-- The end of deriving: `delete_semantics`. The encoder is dropped; the manager, the collector and the proof remain. -/
def finish (e : CertTot VM) : VM × List (Clause × Nat) × Proof :=
  (e.vm, e.cls, (deleteSemantics e.st).proof)

/-- The derivation of the upper bound (l.449-464, l.661-674). -/
def deriveUb (e : CertTot VM) (ub id : Nat) : Option (CertTot VM) :=
  match e.outputProofDetails (ub + 1) with
  | .ok (olit, defs) => e.deriveUnit id defs.onlyIfDef olit.neg
  | _ => none

/-- The derivation of the lower bound (l.557-569, l.676-687). -/
def deriveLb (e : CertTot VM) (lb id : Nat) : Option (CertTot VM) :=
  match e.outputProofDetails lb with
  | .ok (olit, defs) => e.deriveUnit id defs.ifDef olit
  | _ => none

/-- A new encoder for literals. -/
def new (lits : List Lit) (vm : VM) (cls : List (Clause × Nat)) (p : Proof) : CertTot VM :=
  ⟨Totalizer.new lits, [], vm, cls, p⟩

/-- The range `b..=b`. -/
def just (b : Nat) : URange := ⟨.incl b, .incl b⟩

/-- A panic or a result without error. -/
def ofOption {α : Type} : Option α → Res EnforceError α
  | none => .panic
  | some a => .ok a

/-- `encode_ub_constr_cert` (l.435-473). -/
def encodeUbConstr (lits : List Lit) (ub id : Nat) (vm : VM) (cls : List (Clause × Nat)) (p : Proof) :
    Res EnforceError (VM × List (Clause × Nat) × Proof) :=
  if ub > lits.length then .ok (vm, cls, p)
  else ofOption <|
    match (new lits vm cls p).encodeUb (just ub) with
    | none => none
    | some e => (e.deriveUb ub id).map finish

/-- `encode_lb_constr_cert` (l.542-573). -/
def encodeLbConstr (lits : List Lit) (lb id : Nat) (vm : VM) (cls : List (Clause × Nat)) (p : Proof) :
    Res EnforceError (VM × List (Clause × Nat) × Proof) :=
  if lb > lits.length then .err .unsat
  else ofOption <|
    match (new lits vm cls p).encodeLb (just lb) with
    | none => none
    | some e => (e.deriveLb lb id).map finish

/-- `encode_eq_constr_cert` (l.644-692). -/
def encodeEqConstr (lits : List Lit) (b id : Nat) (vm : VM) (cls : List (Clause × Nat)) (p : Proof) :
    Res EnforceError (VM × List (Clause × Nat) × Proof) :=
  if b > lits.length then .err .unsat
  else ofOption <|
    match (new lits vm cls p).encodeBoth (just b) with
    | none => none
    | some e =>
      match e.deriveUb b (id + 1) with
      | none => none
      | some e => (e.deriveLb b id).map finish

end CertTot
end RustSat
