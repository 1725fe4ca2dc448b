import Verif.Model.Gte
import Verif.Model.Totalizer
/-
Encoding into a clause collector that can run out of memory: `CollectClauses::{add_clause, extend_clauses}`
(src/encodings/mod.rs l.18-40) return `Result<(), OutOfMemory>`, and the functions of the totalizer database and the
encodings built on it pass the error on with `?`. What has been changed before stays changed.
-/
namespace RustSat
namespace TotDb

/-- The state of a database, a variable manager and a collector, and how the next calls to the collector end: `none`
stands for enough memory, `some k` for memory for `k` clauses only; after the end of the list there is always enough
memory. A collector that reserves memory for all clauses of a call first (`Cnf`, src/instances/sat.rs l.303-325) always
fails with `k = 0`, one that adds clauses one by one (solvers, src/solvers/mod.rs l.656-676) with any `k`. -/
structure MemSt (VM : Type) where
  st : St VM
  mem : List (Option Nat)

/-- The result of a function that can run out of memory. Besides the state left behind, there is a ghost flag that is
not in the code: whether the memory ran out between marking an output as encoded and collecting its clauses. -/
inductive Mem (VM α : Type) where
  | ok (a : α) (s : MemSt VM)
  | oom (lost : Bool) (s : MemSt VM)
  | panic

/-- `Result::?` -/
def Mem.bind {VM α β : Type} (x : Mem VM α) (f : α → MemSt VM → Mem VM β) : Mem VM β :=
  match x with
  | .ok a s => f a s
  | .oom lost s => .oom lost s
  | .panic => .panic

variable {VM : Type} [ManageVars VM]

/-- `collector.extend_clauses(cls)?` (src/encodings/mod.rs l.18-40); a failing call adds at most a proper prefix. -/
def collectAll (s : MemSt VM) (cls : ClauseSet) (lost : Bool) : Mem VM Unit :=
  match s.mem with
  | some k :: mem =>
    if k < cls.length then .oom lost ⟨{ s.st with cls := s.st.cls ++ cls.take k }, mem⟩
    else .ok () ⟨{ s.st with cls := s.st.cls ++ cls }, mem⟩
  | _ :: mem => .ok () ⟨{ s.st with cls := s.st.cls ++ cls }, mem⟩
  | [] => .ok () ⟨{ s.st with cls := s.st.cls ++ cls }, []⟩

/-- `collector.add_clause(c)?`. -/
def collectOne (s : MemSt VM) (c : Clause) : Mem VM Unit := collectAll s [c] false

/-- `Db::encode_unweighted` (totdb/mod.rs l.432-501): the output is marked first, then the clauses are collected in two
calls. -/
def memEncodeUnweighted (s : MemSt VM) (id idx : Nat) (olit : Lit) (req : Semantics) (p : Pre) : Mem VM Unit :=
  match s.st.db.unitData id idx with
  | none => .panic
  | some d =>
    match d.missingSemantics req with
    | none => .panic
    | some _ =>
      let db := s.st.db.setUnit id idx (d.addSemantics req)
      match litSlice db p.lcon.id, litSlice db p.rcon.id with
      | some llits, some rlits =>
        match collect (ifClause p llits rlits idx olit) p.leftIf,
            collect (onlyIfClause db p llits rlits idx olit) p.leftOnlyIf with
        | some c1, some c2 =>
          (collectAll { s with st := { s.st with db := db } } c1 true).bind fun _ s => collectAll s c2 true
        | _, _ => .panic
      | _, _ => .panic

/-- Performing a list of recursive calls in order (`recurse_unweighted`, totdb/mod.rs l.356-414). -/
def memRunRequests (f : MemSt VM → Nat → Nat → Semantics → Mem VM Lit) :
    List (Nat × Nat × Semantics) → MemSt VM → Mem VM Unit
  | [], s => .ok () s
  | (id, idx, sem) :: rest, s => (f s id idx sem).bind fun _ s => memRunRequests f rest s

/-- `Db::define_unweighted` (totdb/mod.rs l.507-547). -/
def memDefineUnweighted : Nat → MemSt VM → Nat → Nat → Semantics → Mem VM Lit
  | 0, _, _, _, _ => .panic
  | fuel + 1, s, id, idx, sem =>
    match precond s.st.db id idx sem with
    | .panic => .panic
    | .ret l => .ok l s
    | .pass con =>
      (memDefineUnweighted fuel s con.id (conIdx idx con) sem).bind fun ilit s =>
        match getOlit s.st id idx with
        | none => .panic
        | some (olit, st) =>
          (collectOne ⟨st, s.mem⟩ (Atomics.litImplLit ilit olit)).bind fun _ s =>
            match s.st.db.unitData id idx with
            | none => .panic
            | some d => .ok olit { s with st := { s.st with db := s.st.db.setUnit id idx (d.addSemantics sem) } }
    | .cont p =>
      (memRunRequests (fun s id idx sem => memDefineUnweighted fuel s id idx sem) (requests s.st.db p) s).bind fun _ s =>
        match getOlit s.st id idx with
        | none => .panic
        | some (olit, st) => (memEncodeUnweighted ⟨st, s.mem⟩ id idx olit sem p).bind fun _ s => .ok olit s

/-- `define_unweighted` for a list of output indices (card/totalizer/mod.rs l.251-259). -/
def memDefineAll (s : MemSt VM) (id : Nat) (sem : Semantics) : List Nat → Mem VM Unit
  | [] => .ok () s
  | idx :: rest => (memDefineUnweighted (id + 1) s id idx sem).bind fun _ s => memDefineAll s id sem rest

/-- The loop over the values of the left child (totdb/mod.rs l.216-240). -/
def memSumLoop (f : MemSt VM → Nat → Nat → Mem VM (Option Lit)) (lcon rcon : NodeCon) (rmax val : Nat) (olit : Lit) :
    List Nat → MemSt VM → Mem VM Unit
  | [], s => .ok () s
  | lval :: rest, s =>
    let rval := val - lcon.map lval
    if rcon.isPossible rval && decide (rcon.revMap rval ≤ rmax) then
      (f s rcon.id (rcon.revMap rval)).bind fun rlit s =>
        match rlit with
        | none => memSumLoop f lcon rcon rmax val olit rest s
        | some rlit =>
          (f s lcon.id lval).bind fun llit s =>
            match llit with
            | none => .panic
            | some llit =>
              (collectOne s (Atomics.cubeImplLit [llit, rlit] olit)).bind fun _ s =>
                memSumLoop f lcon rcon rmax val olit rest s
    else memSumLoop f lcon rcon rmax val olit rest s

/-- Propagating the value of one child (totdb/mod.rs l.243-256). -/
def memPropagateVal (f : MemSt VM → Nat → Nat → Mem VM (Option Lit)) (con : NodeCon) (val : Nat) (olit : Lit)
    (s : MemSt VM) : Mem VM Unit :=
  if con.isPossible val && decide (con.revMap val ≤ (s.st.db.node con.id).maxVal) then
    (f s con.id (con.revMap val)).bind fun l s =>
      match l with
      | none => .ok () s
      | some l => collectOne s (Atomics.litImplLit l olit)
  else .ok () s

/-- `Db::define_weighted` (totdb/mod.rs l.146-266): the output is marked last. -/
def memDefineWeighted : Nat → MemSt VM → Nat → Nat → Mem VM (Option Lit)
  | 0, _, _, _ => .panic
  | fuel + 1, s, id, val =>
    match s.st.db.node id with
    | .leaf l => .ok (if val ≠ 1 then none else some l) s
    | .dummy => .ok none s
    | .unit lits .. =>
      if val > lits.length ∨ val = 0 then .ok none s
      else (memDefineUnweighted (id + 1) s id (val - 1) .if_).bind fun l s => .ok (some l) s
    | .general lits _ _ _ lcon rcon =>
      match valIdx lits val with
      | none => .ok none s
      | some k =>
        match s.st.db.outLit id k with
        | none => .panic
        | some d =>
          match d.hasIf, d.lit? with
          | true, some l => .ok (some l) s
          | _, _ =>
            match weightedOlit s.st id k with
            | none => .panic
            | some (olit, st) =>
              (memSumLoop (memDefineWeighted fuel) lcon rcon (st.db.node rcon.id).maxVal val olit
                  (sumVals st.db lcon val) ⟨st, s.mem⟩).bind fun _ s =>
                (memPropagateVal (memDefineWeighted fuel) lcon val olit s).bind fun _ s =>
                  (memPropagateVal (memDefineWeighted fuel) rcon val olit s).bind fun _ s =>
                    match s.st.db.outLit id k with
                    | none => .panic
                    | some d =>
                      .ok (some olit) { s with st := { s.st with db := s.st.db.setOut id k (d.addSemantics .if_) } }

/-- `db.define_weighted(id, val, ..)?.unwrap()` for a list of values (pb/gte/mod.rs l.325-336). -/
def memDefineVals (s : MemSt VM) (id : Nat) : List Nat → Mem VM Unit
  | [] => .ok () s
  | val :: rest =>
    (memDefineWeighted (id + 1) s id val).bind fun l s =>
      match l with
      | none => .panic
      | some _ => memDefineVals s id rest

end TotDb
open TotDb

/-- How an encoding call ends: the encoder, the variable manager and the clauses afterwards, and whether the memory ran
out, with the ghost flag of `Mem`. -/
inductive EncodeEnd (E VM : Type) where
  | ok (enc : E) (vm : VM) (cls : ClauseSet)
  | oom (lost : Bool) (enc : E) (vm : VM) (cls : ClauseSet)
  | panic

variable {VM : Type} [ManageVars VM]

namespace Gte

/-- `encode_ub_change` (pb/gte/mod.rs l.312-345): if the memory runs out, the tree stays extended, what was defined stays
defined, and the statistics are not updated. -/
def memEncodeUbChange (t : Gte) (r : URange) (vm : VM) (cls : ClauseSet) (mem : List (Option Nat)) : EncodeEnd Gte VM :=
  let range := Pb.prepareUbRange t.weightSum r
  if range.2 ≤ range.1 then .ok t vm cls
  else
    match t.extendTree (some (range.2 - 1)) with
    | none => .panic
    | some t =>
      match t.root with
      | none => .ok t vm cls
      | some con =>
        let vals := (t.db.node con.id).valsRange (con.revMapRoundUp (range.1 + 1))
          (con.revMap (range.2 + t.maxLeafWeight) + 1)
        match memDefineVals (⟨⟨t.db, vm, cls⟩, mem⟩ : MemSt VM) con.id vals with
        | .panic => .panic
        | .oom lost s => .oom lost { t with db := s.st.db } s.st.vm s.st.cls
        | .ok _ s =>
          .ok { t with db := s.st.db, nClauses := t.nClauses + (s.st.cls.length - cls.length),
                       nVars := t.nVars + (ManageVars.nUsed s.st.vm - ManageVars.nUsed vm) } s.st.vm s.st.cls

/-- `encode_ub` (pb/gte/mod.rs l.235-247). -/
def memEncodeUb (t : Gte) (r : URange) (vm : VM) (cls : ClauseSet) (mem : List (Option Nat)) : EncodeEnd Gte VM :=
  memEncodeUbChange { t with db := t.db.resetEncoded .if_ } r vm cls mem

end Gte

namespace Totalizer

/-- `encode_ub_change` (card/totalizer/mod.rs l.235-271): if the memory runs out, the statistics are not updated. -/
def memEncodeUbChange (t : Totalizer) (r : URange) (vm : VM) (cls : ClauseSet) (mem : List (Option Nat)) :
    EncodeEnd Totalizer VM :=
  let range := Card.prepareUbRange t.nLits r
  let idxs := List.range' range.1 (min range.2 (t.nLits - t.offset) - range.1)
  if idxs.isEmpty then .ok t vm cls
  else
    match t.extendTree with
    | none => .panic
    | some t =>
      match t.root with
      | none => .ok t vm cls
      | some id =>
        match memDefineAll (⟨⟨t.db, vm, cls⟩, mem⟩ : MemSt VM) id .if_ (idxs.map fun i => i + t.offset) with
        | .panic => .panic
        | .oom lost s => .oom lost { t with db := s.st.db } s.st.vm s.st.cls
        | .ok _ s =>
          .ok { t with db := s.st.db, nClauses := t.nClauses + (s.st.cls.length - cls.length),
                       nVars := t.nVars + (ManageVars.nUsed s.st.vm - ManageVars.nUsed vm) } s.st.vm s.st.cls

/-- `encode_ub` (card/totalizer/mod.rs l.178-190). -/
def memEncodeUb (t : Totalizer) (r : URange) (vm : VM) (cls : ClauseSet) (mem : List (Option Nat)) :
    EncodeEnd Totalizer VM :=
  memEncodeUbChange { t with db := t.db.resetEncoded .if_ } r vm cls mem

end Totalizer
end RustSat
