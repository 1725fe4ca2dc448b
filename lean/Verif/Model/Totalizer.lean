import Verif.Model.TotDb
/-
Model of the totalizer encoding (src/encodings/card/totalizer/mod.rs).

The encoder is a value; operations that take a collector and a variable manager return the new encoder, manager and
all clauses collected so far. `none` models a panic. Out-of-memory errors of the collector are not modelled. The
field `proof`-related features are not modelled.
-/
namespace RustSat

/-- `std::ops::Bound<usize>`. -/
inductive Bound where
  | incl (n : Nat) | excl (n : Nat) | unbounded
deriving DecidableEq, Repr

/-- A value implementing `RangeBounds<usize>`. -/
structure URange where
  lo : Bound
  hi : Bound
deriving DecidableEq, Repr

namespace Card

/-- `prepare_ub_range` (encodings/card/mod.rs l.451-466). -/
def prepareUbRange (nLits : Nat) (r : URange) : Nat × Nat :=
  (match r.lo with | .incl b => b | .excl b => b + 1 | .unbounded => 0,
   match r.hi with | .incl b => min (b + 1) nLits | .excl b => min b nLits | .unbounded => nLits)

/-- `prepare_lb_range` (encodings/card/mod.rs l.468-483). -/
def prepareLbRange (nLits : Nat) (r : URange) : Nat × Nat :=
  (match r.lo with | .incl b => max b 1 | .excl b => max (b + 1) 1 | .unbounded => 1,
   match r.hi with | .incl b => min (b + 1) (nLits + 1) | .excl b => min b (nLits + 1) | .unbounded => nLits + 1)

/-- `EnforceError` (encodings/mod.rs l.44-53). -/
inductive EnforceError where
  | notEncoded | unsat
deriving DecidableEq, Repr

end Card

open TotDb Card

/-- `Totalizer` (card/totalizer/mod.rs l.45-60). -/
structure Totalizer where
  litBuffer : List Lit
  root : Option Nat
  nVars : Nat
  nClauses : Nat
  db : Db
  offset : Nat
  nAddInput : Nat

namespace Totalizer
variable {VM : Type} [ManageVars VM]

/-- `From<Vec<Lit>>`, `FromIterator<Lit>` (l.373-399). -/
def new (lits : List Lit) : Totalizer := ⟨lits, none, 0, 0, Db.empty, 0, 0⟩

/-- `Extend<Lit>` (l.401-405). -/
def extend (t : Totalizer) (lits : List Lit) : Totalizer := { t with litBuffer := t.litBuffer ++ lits }

/-- `extend_tree` (l.86-105). `none`: `merge` returned `None` and `unwrap` panicked. -/
def extendTree (t : Totalizer) : Option Totalizer :=
  match litTree t.db t.litBuffer with
  | (none, db) => some { t with litBuffer := [], db := db }
  | (some newTree, db) =>
    match t.root with
    | none => some { t with litBuffer := [], db := db, root := some newTree, nAddInput := t.nAddInput + t.offset, offset := 0 }
    | some oldRoot =>
      match merge db [NodeCon.offsetWeighted oldRoot t.offset 1, NodeCon.full newTree] with
      | (none, _) => none
      | (some con, db) =>
        some { t with litBuffer := [], db := db, root := some con.id, nAddInput := t.nAddInput + t.offset, offset := 0 }

/-- `n_lits` (l.158-165). -/
def nLits (t : Totalizer) : Nat :=
  t.litBuffer.length + t.nAddInput + (match t.root with | some id => (t.db.node id).len | none => 0)

/-- `n_output_lits` (l.132-137). -/
def nOutputLits (t : Totalizer) : Nat :=
  match t.root with
  | some root => (t.db.node root).len - t.offset
  | none => 0

/-- `reserve` (l.169-174). -/
def reserve (t : Totalizer) (vm : VM) : Option (Totalizer × VM) :=
  match t.extendTree with
  | none => none
  | some t =>
    match t.root with
    | none => some (t, vm)
    | some root =>
      match reserveVars (root + 1) (⟨t.db, vm, []⟩ : St VM) (NodeCon.full root) with
      | none => none
      | some st => some ({ t with db := st.db }, st.vm)

/-- The common part of `encode_ub_change` and `encode_lb_change` after preparing the range: extending the tree and
defining outputs (l.248-270, l.329-351). -/
def defineOutputs (t : Totalizer) (sem : Semantics) (idxs : List Nat) (vm : VM) (cls : ClauseSet) :
    Option (Totalizer × VM × ClauseSet) :=
  if idxs.isEmpty then some (t, vm, cls)
  else
    match t.extendTree with
    | none => none
    | some t =>
      match t.root with
      | none => some (t, vm, cls)
      | some id =>
        match defineAll (⟨t.db, vm, cls⟩ : St VM) id sem (idxs.map fun i => i + t.offset) with
        | none => none
        | some st =>
          some ({ t with db := st.db, nClauses := t.nClauses + (st.cls.length - cls.length),
                         nVars := t.nVars + (ManageVars.nUsed st.vm - ManageVars.nUsed vm) }, st.vm, st.cls)

/-- `encode_ub_change` (l.235-271). -/
def encodeUbChange (t : Totalizer) (r : URange) (vm : VM) (cls : ClauseSet) : Option (Totalizer × VM × ClauseSet) :=
  let range := prepareUbRange t.nLits r
  let hi := min range.2 (t.nLits - t.offset)
  t.defineOutputs .if_ (List.range' range.1 (hi - range.1)) vm cls

/-- `encode_ub` (l.178-190). -/
def encodeUb (t : Totalizer) (r : URange) (vm : VM) (cls : ClauseSet) : Option (Totalizer × VM × ClauseSet) :=
  encodeUbChange { t with db := t.db.resetEncoded .if_ } r vm cls

/-- `enforce_ub` (l.192-221). -/
def enforceUb (t : Totalizer) (ub : Nat) : Res EnforceError (List Lit) :=
  if ub ≥ t.nLits - t.offset then .ok []
  else if t.litBuffer ≠ [] then .err .notEncoded
  else
    match t.root with
    | none => .err .notEncoded
    | some id =>
      match t.db.node id with
      | .leaf l => .ok [l.neg]
      | .unit lits .. =>
        match lits[ub + t.offset]? with
        | none => .panic
        | some (.lit l (some s)) => if s.hasIf then .ok [l.neg] else .err .notEncoded
        | some _ => .err .notEncoded
      | _ => .panic

/-- `encode_lb_change` (l.313-352). -/
def encodeLbChange (t : Totalizer) (r : URange) (vm : VM) (cls : ClauseSet) : Option (Totalizer × VM × ClauseSet) :=
  let range := prepareLbRange t.nLits r
  let hi := min range.2 (t.nLits - t.offset + 1)
  t.defineOutputs .onlyIf ((List.range' range.1 (hi - range.1)).map (· - 1)) vm cls

/-- `encode_lb` (l.275-287). -/
def encodeLb (t : Totalizer) (r : URange) (vm : VM) (cls : ClauseSet) : Option (Totalizer × VM × ClauseSet) :=
  encodeLbChange { t with db := t.db.resetEncoded .onlyIf } r vm cls

/-- `enforce_lb` (l.289-310). -/
def enforceLb (t : Totalizer) (lb : Nat) : Res EnforceError (List Lit) :=
  if lb ≤ t.offset then .ok []
  else if lb > t.nLits + t.offset then .err .unsat
  else if t.litBuffer ≠ [] then .err .notEncoded
  else
    match t.root with
    | none => .err .notEncoded
    | some id =>
      match t.db.node id with
      | .leaf l => .ok [l]
      | .unit lits .. =>
        match lits[lb - 1 + t.offset]? with
        | none => .panic
        | some (.lit l (some s)) => if s.hasOnlyIf then .ok [l] else .err .notEncoded
        | some _ => .err .notEncoded
      | _ => .panic

/-- `encode_both` (l.354-370). -/
def encodeBoth (t : Totalizer) (r : URange) (vm : VM) (cls : ClauseSet) : Option (Totalizer × VM × ClauseSet) :=
  match t.encodeUbChange r vm cls with
  | none => none
  | some (t, vm, cls) => t.encodeLbChange r vm cls

/-- `enforce_eq` of `BoundBoth`/default (encodings/card/mod.rs l.205-213). -/
def enforceEq (t : Totalizer) (b : Nat) : Res EnforceError (List Lit) :=
  match t.enforceUb b with
  | .ok a =>
    match t.enforceLb b with
    | .ok a' => .ok (a ++ a')
    | e => e
  | e => e

end Totalizer
end RustSat
