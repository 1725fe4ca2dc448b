import Verif.Spec.Gte
import Verif.Model.OutOfMem
/-
Histories of operations on a generalized totalizer in which encoding calls can run out of memory.
-/
namespace RustSat

/-- The operations in a history: those of a history with enough memory, and encoding calls for which it is given how the
calls to the collector end. -/
inductive MemGteOp (VM : Type) where
  | plain (op : GteOp VM)
  | encodeUb (r : URange) (mem : List (Option Nat))
  | encodeUbChange (r : URange) (mem : List (Option Nat))

/-- What the user is told by an operation, with the ghost flag of `TotDb.Mem`. -/
inductive MemAnswer where
  | ok
  | outOfMemory (lost : Bool)

namespace GteWorld
variable {VM : Type} [ManageVars VM]

/-- The state after an encoding call that can run out of memory. -/
def memEncoded (w : GteWorld VM) (e : EncodeEnd Gte VM) (ub ubFail : Nat → Prop) : Option (MemAnswer × GteWorld VM) :=
  match e with
  | .ok t vm cls => some (.ok, ⟨t, vm, cls, w.ins, w.own ++ CardWorld.handedOut w.vm vm, ub⟩)
  | .oom lost t vm cls =>
    some (.outOfMemory lost, ⟨t, vm, cls, w.ins, w.own ++ CardWorld.handedOut w.vm vm, ubFail⟩)
  | .panic => none

/-- Performing an operation; `none` if it panics. A failing `encode_ub` makes all bounds unavailable, a failing
`encode_ub_change` only if it has to include further literals. -/
def memStep (w : GteWorld VM) : MemGteOp VM → Option (MemAnswer × GteWorld VM)
  | .plain op => (w.step op).map fun w' => (.ok, w')
  | .encodeUb r mem => w.memEncoded (w.gte.memEncodeUb r w.vm w.cls mem) r.contains fun _ => False
  | .encodeUbChange r mem =>
    w.memEncoded (w.gte.memEncodeUbChange r w.vm w.cls mem)
      (fun b => r.contains b ∨ (w.ub b ∧ ∀ x ∈ w.gte.litBuffer, ∀ b', r.contains b' → b' < x.2))
      (fun b => w.ub b ∧ ∀ x ∈ w.gte.litBuffer, ∀ b', r.contains b' → b' < x.2)

/-- What a user has to respect. -/
def memAllowed (w : GteWorld VM) : MemGteOp VM → Prop
  | .plain op => w.allowed op
  | _ => True

/-- The states reachable by a history in which encoding calls run out of memory any number of times, but never while the
clauses of an output already marked as encoded are collected. -/
inductive MemReach : GteWorld VM → Prop
  | start (lits : List (Lit × Nat)) (vm : VM) (hn : (lits.map (·.1)).Nodup)
      (h : ∀ x ∈ lits, 0 < x.2 ∧ x.1.var < ManageVars.nUsed vm) : MemReach (start lits vm)
  | step (w w' : GteWorld VM) (op : MemGteOp VM) (a : MemAnswer) (h : MemReach w) (ha : w.memAllowed op)
      (hs : w.memStep op = some (a, w')) (hl : a ≠ .outOfMemory true) : MemReach w'

/-- The states reachable by a history in which encoding calls run out of memory at any moment. -/
inductive AnyReach : GteWorld VM → Prop
  | start (lits : List (Lit × Nat)) (vm : VM) (hn : (lits.map (·.1)).Nodup)
      (h : ∀ x ∈ lits, 0 < x.2 ∧ x.1.var < ManageVars.nUsed vm) : AnyReach (start lits vm)
  | step (w w' : GteWorld VM) (op : MemGteOp VM) (a : MemAnswer) (h : AnyReach w) (ha : w.memAllowed op)
      (hs : w.memStep op = some (a, w')) : AnyReach w'

end GteWorld
end RustSat
