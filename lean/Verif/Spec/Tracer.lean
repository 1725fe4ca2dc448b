import Verif.Model.Tracer
import Verif.Spec.Bindings
/-
Specification of proof tracers: what an event of the solver says, and what tracers that are connected to solvers do.
-/
namespace RustSat

/-- What happens in a proof. -/
inductive ProofStep where
  | addOriginalClause (id : Int) (redundant : Bool) (clause : Clause) (restored : Bool)
  | addDerivedClause (id : Int) (redundant : Bool) (clause : Clause) (antecedents : List Int)
  | deleteClause (id : Int) (redundant : Bool) (clause : Clause)
  | weakenMinus (id : Int) (clause : Clause)
  | strengthen (id : Int)
  | reportStatus (status : SolverResult) (id : Int)
  | finalizeClause (id : Int) (clause : Clause)
  | beginProof (id : Int)
  | solveQuery
  | addAssumption (assumption : Lit)
  | addConstraint (constraint : Clause)
  | resetAssumptions
  | addAssumptionClause (id : Int) (clause : Clause) (antecedents : List Int)
  | concludeUnsat (conclusion : Conclusion) (failing : List Int)
  | concludeSat (model : List Lit)
  | concludeUnknown (trail : List Lit)
  | notifyEquivalence (first second : Lit)
deriving DecidableEq, Repr

/-- The number of a literal in the solver: variables are counted from one, negation is the sign. -/
def solverInt (l : Lit) : Int := if l.isNeg then -((l.var : Int) + 1) else (l.var : Int) + 1

/-- The number of a result in the solver. -/
def solverStatus : SolverResult → Int
  | .interrupted => 0
  | .sat => 10
  | .unsat => 20

namespace ProofStep

/-- The call by which the solver notifies of the step. -/
def call : ProofStep → SEvent
  | .addOriginalClause id r c b => .addOriginalClause id r (c.map solverInt) b
  | .addDerivedClause id r c an => .addDerivedClause id r (c.map solverInt) an
  | .deleteClause id r c => .deleteClause id r (c.map solverInt)
  | .weakenMinus id c => .weakenMinus id (c.map solverInt)
  | .strengthen id => .strengthen id
  | .reportStatus st id => .reportStatus (solverStatus st) id
  | .finalizeClause id c => .finalizeClause id (c.map solverInt)
  | .beginProof id => .beginProof id
  | .solveQuery => .solveQuery
  | .addAssumption l => .addAssumption (solverInt l)
  | .addConstraint c => .addConstraint (c.map solverInt)
  | .resetAssumptions => .resetAssumptions
  | .addAssumptionClause id c an => .addAssumptionClause id (c.map solverInt) an
  | .concludeUnsat t ids => .concludeUnsat t ids
  | .concludeSat m => .concludeSat (m.map solverInt)
  | .concludeUnknown m => .concludeUnknown (m.map solverInt)
  | .notifyEquivalence a b => .notifyEquivalence (solverInt a) (solverInt b)

/-- The call of a method of a tracer that notifies of the step. -/
def view : ProofStep → TEvent
  | .addOriginalClause id r c b => .addOriginalClause id r (c.map solverInt) b
  | .addDerivedClause id r c an => .addDerivedClause id r (c.map solverInt) an
  | .deleteClause id r c => .deleteClause id r (c.map solverInt)
  | .weakenMinus id c => .weakenMinus id (c.map solverInt)
  | .strengthen id => .strengthen id
  | .reportStatus st id => .reportStatus st id
  | .finalizeClause id c => .finalizeClause id (c.map solverInt)
  | .beginProof id => .beginProof id
  | .solveQuery => .solveQuery
  | .addAssumption l => .addAssumption l
  | .addConstraint c => .addConstraint (c.map solverInt)
  | .resetAssumptions => .resetAssumptions
  | .addAssumptionClause id c an => .addAssumptionClause id (c.map solverInt) an
  | .concludeUnsat t ids => .concludeUnsat t ids
  | .concludeSat m => .concludeSat (m.map solverInt)
  | .concludeUnknown m => .concludeUnknown (m.map solverInt)
  | .notifyEquivalence a b => .notifyEquivalence a b

/-- The literals of the step. -/
def lits : ProofStep → List Lit
  | .addOriginalClause _ _ c _ | .addDerivedClause _ _ c _ | .deleteClause _ _ c | .weakenMinus _ c | .finalizeClause _ c
  | .addConstraint c | .addAssumptionClause _ c _ | .concludeSat c | .concludeUnknown c => c
  | .addAssumption l => [l]
  | .notifyEquivalence a b => [a, b]
  | _ => []

/-- All variables fit the integers of the solver. -/
def InRange (p : ProofStep) : Prop := ∀ l ∈ p.lits, l.InRange

end ProofStep

/-- What a tracer learns from a call of one of its methods, if it converts the clauses and assignments that it is given. -/
def TEvent.read : TEvent → Option ProofStep
  | .addOriginalClause id r c b => (Tracer.clause c).map fun c => .addOriginalClause id r c b
  | .addDerivedClause id r c an => (Tracer.clause c).map fun c => .addDerivedClause id r c an
  | .deleteClause id r c => (Tracer.clause c).map fun c => .deleteClause id r c
  | .weakenMinus id c => (Tracer.clause c).map fun c => .weakenMinus id c
  | .strengthen id => some (.strengthen id)
  | .reportStatus st id => some (.reportStatus st id)
  | .finalizeClause id c => (Tracer.clause c).map fun c => .finalizeClause id c
  | .beginProof id => some (.beginProof id)
  | .solveQuery => some .solveQuery
  | .addAssumption l => some (.addAssumption l)
  | .addConstraint c => (Tracer.clause c).map fun c => .addConstraint c
  | .resetAssumptions => some .resetAssumptions
  | .addAssumptionClause id c an => (Tracer.clause c).map fun c => .addAssumptionClause id c an
  | .concludeUnsat t ids => some (.concludeUnsat t ids)
  | .concludeSat m => (Tracer.iter m).map fun m => .concludeSat m
  | .concludeUnknown m => (Tracer.iter m).map fun m => .concludeUnknown m
  | .notifyEquivalence a b => some (.notifyEquivalence a b)

/-- What a program does with solvers and tracers. -/
inductive TraceOp (T : Type) where
  /-- make a solver -/
  | newSolver (s : Nat)
  /-- e.g. add a clause -/
  | leaveConfiguring (s : Nat)
  /-- connect a tracer to a solver, and keep the handle under a name -/
  | connect (s k : Nat) (t : T)
  /-- disconnect a tracer from a solver -/
  | disconnect (s k : Nat)
  | dropHandle (k : Nat)
  | dropSolver (s : Nat)
  /-- a step in the proof of a solver -/
  | event (s : Nat) (p : ProofStep)
  /-- get a reference to a tracer, through a solver -/
  | tracerMut (s k : Nat)
  /-- use this reference -/
  | useRef (s : Nat) (f : T → T)

/-- What a program sees: the result of disconnecting a tracer, or the tracer that a reference refers to. -/
inductive Seen (T : Type) where
  | nothing
  | disconnected (t : Option T)
  | tracer (t : Option T)
deriving DecidableEq, Repr

namespace TraceWorld
variable {T : Type} [TraceProof T]

/-- One operation. -/
def step (w : TraceWorld T) : TraceOp T → Run (Seen T × TraceWorld T)
  | .newSolver s => .ok (.nothing, w.newSolver s)
  | .leaveConfiguring s => .ok (.nothing, w.leaveConfiguring s)
  | .connect s k t => (w.connect s k t).bind fun w => .ok (.nothing, w)
  | .disconnect s k => (w.disconnect s k).bind fun r => .ok (.disconnected r.1, r.2)
  | .dropHandle k => (w.dropHandle k).bind fun w => .ok (.nothing, w)
  | .dropSolver s => (w.dropSolver s).bind fun w => .ok (.nothing, w)
  | .event s p => (w.event s p.call).bind fun w => .ok (.nothing, w)
  | .tracerMut s k => .ok (.nothing, w.tracerMut s k)
  | .useRef s f => (w.useRef s f).bind fun r => .ok (.tracer r.1, r.2)

/-- A program: what it sees, in order. -/
def run (w : TraceWorld T) : List (TraceOp T) → Run (List (Seen T))
  | [] => .ok []
  | op :: ops => (w.step op).bind fun r => (r.2.run ops).bind fun l => .ok (r.1 :: l)

/-- The memory after a program. -/
def final (w : TraceWorld T) : List (TraceOp T) → Run (TraceWorld T)
  | [] => .ok w
  | op :: ops => (w.step op).bind fun r => r.2.final ops

end TraceWorld

/-- A tracer as the documentation describes it: its value, and the solver it is connected to. -/
structure Traced (T : Type) where
  value : T
  solver : Option Nat

/-- Solvers (with the information whether they are still in their first state), tracers by the names of their handles, and
for each solver the handle whose tracer is borrowed. There are no addresses here, and nothing is freed. -/
structure TraceSpec (T : Type) where
  solvers : Nat → Option Bool := fun _ => none
  tracers : Nat → Option (Traced T) := fun _ => none
  refs : Nat → Option Nat := fun _ => none

namespace TraceSpec
variable {T : Type}

/-- References to this tracer are gone. -/
def forget (refs : Nat → Option Nat) (k : Nat) : Nat → Option Nat := fun s => if refs s = some k then none else refs s

/-- What the operations do according to the documentation. -/
def step [TraceProof T] (a : TraceSpec T) : TraceOp T → Seen T × TraceSpec T
  | .newSolver s => (.nothing, { a with solvers := update a.solvers s (some true), refs := update a.refs s none })
  | .leaveConfiguring s => (.nothing, { a with solvers := update a.solvers s (some false), refs := update a.refs s none })
  | .connect s k t => (.nothing, { a with tracers := update a.tracers k (some ⟨t, some s⟩), refs := update a.refs s none })
  | .disconnect s k =>
    (.disconnected ((a.tracers k).map (·.value)),
      { a with tracers := update a.tracers k none, refs := forget (update a.refs s none) k })
  | .dropHandle k => (.nothing, { a with tracers := update a.tracers k none, refs := forget a.refs k })
  | .dropSolver s =>
    (.nothing, { solvers := update a.solvers s none, refs := update a.refs s none,
                 tracers := fun k => (a.tracers k).map fun t => if t.solver = some s then { t with solver := none } else t })
  | .event s p =>
    (.nothing, { a with
      tracers := fun k => (a.tracers k).map fun t => if t.solver = some s then { t with value := TraceProof.react t.value p.view } else t
      refs := update a.refs s none })
  | .tracerMut s k => (.nothing, { a with refs := update a.refs s (some k) })
  | .useRef s f =>
    match a.refs s with
    | none => (.tracer none, a)
    | some k => (.tracer ((a.tracers k).map (·.value)),
        { a with tracers := fun j => (a.tracers j).map fun t => if j = k then { t with value := f t.value } else t })

/-- The rules for programs: names are used once at a time; tracers are connected before the solver is used for anything else; a
tracer is disconnected from the solver it is connected to; a handle is dropped after the solver it was connected to; references
to tracers are used while their handle is there. -/
def Allowed (a : TraceSpec T) : TraceOp T → Prop
  | .newSolver s => a.solvers s = none
  | .leaveConfiguring s => a.solvers s ≠ none
  | .connect s k _ => a.solvers s = some true ∧ (a.tracers k).isNone
  | .disconnect s k => a.solvers s ≠ none ∧ ∃ t, a.tracers k = some t ∧ t.solver = some s
  | .dropHandle k => ∃ t, a.tracers k = some t ∧ t.solver = none
  | .dropSolver s => a.solvers s ≠ none
  | .event s p => a.solvers s ≠ none ∧ p.InRange
  | .tracerMut s k => a.solvers s ≠ none ∧ (a.tracers k).isSome
  | .useRef s _ => (a.refs s).isSome

/-- A program that keeps the rules. -/
def Proper [TraceProof T] (a : TraceSpec T) : List (TraceOp T) → Prop
  | [] => True
  | op :: ops => a.Allowed op ∧ (a.step op).2.Proper ops

/-- What a program sees. -/
def run [TraceProof T] (a : TraceSpec T) : List (TraceOp T) → List (Seen T)
  | [] => []
  | op :: ops => (a.step op).1 :: (a.step op).2.run ops

/-- The solvers and tracers after a program. -/
def final [TraceProof T] (a : TraceSpec T) : List (TraceOp T) → TraceSpec T
  | [] => a
  | op :: ops => (a.step op).2.final ops

end TraceSpec
end RustSat
