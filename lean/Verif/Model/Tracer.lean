import Verif.Model.Assignment
import Verif.Model.Cnf
import Verif.Model.Solvers
/-
Model of the proof tracers of the CaDiCaL wrapper (cadical/src/prooftracer.rs, cadical/src/ffi/prooftracer.rs,
cadical/cpp-extension/ctracer.cpp): which memory belongs to a tracer, who frees it, and how an event of the solver reaches
the tracer.

Memory is modelled by addresses that are never used twice: access to an address that has been freed is undefined behaviour,
whatever the allocator would have placed there.
-/
namespace RustSat

/-- The end of a run: a value, undefined behaviour (memory that has been freed is used), or the process aborts (a panic in a
function that C++ called, or a violated requirement of the library). -/
inductive Run (α : Type) where
  | ok (a : α)
  | ub
  | abort
deriving DecidableEq, Repr

/-- One step after the other. -/
def Run.bind {α β : Type} : Run α → (α → Run β) → Run β
  | .ok a, f => f a
  | .ub, _ => .ub
  | .abort, _ => .abort

/-- `Conclusion` (cadical/src/prooftracer.rs l.12-22). -/
inductive Conclusion where
  | conflict
  | assumptions
  | constraint
deriving DecidableEq, Repr

/-- A `std::vector` as the C interface passes it: the length and the pointer `data()` (cadical/cpp-extension/ctracer.cpp
l.41-130). The pointer of an empty vector is null (`none`); the C++ standard leaves this open. -/
structure CVec where
  len : Nat
  data : Option (List Int)
deriving DecidableEq, Repr

/-- `size()` and `data()` of a vector. -/
def CVec.ofList (l : List Int) : CVec := ⟨l.length, if l.isEmpty then none else some l⟩

/-- `utils::from_raw_parts_maybe_null` (src/utils.rs l.48-54). Reading from the null pointer, or past the end of the memory,
is undefined behaviour. -/
def CVec.slice (v : CVec) : Run (List Int) :=
  if v.len = 0 then .ok []
  else match v.data with
    | none => .ub
    | some d => if v.len ≤ d.length then .ok (d.take v.len) else .ub

/-- The callbacks of `CCaDiCaLTraceCallbacks` with the arguments that C++ passes (cadical/cpp-extension/ctracer.h l.21-131).
Identifiers are integers (the cast from `uint64_t` to `int64_t` of older versions of the library is not modelled). -/
inductive CEvent where
  | addOriginalClause (id : Int) (redundant : Bool) (cl : CVec) (restored : Bool)
  | addDerivedClause (id : Int) (redundant : Bool) (cl an : CVec)
  | deleteClause (id : Int) (redundant : Bool) (cl : CVec)
  | weakenMinus (id : Int) (cl : CVec)
  | strengthen (id : Int)
  | reportStatus (status id : Int)
  | finalizeClause (id : Int) (cl : CVec)
  | beginProof (id : Int)
  | solveQuery
  | addAssumption (lit : Int)
  | addConstraint (cl : CVec)
  | resetAssumptions
  | addAssumptionClause (id : Int) (cl an : CVec)
  | concludeUnsat (concl : Int) (failing : CVec)
  | concludeSat (sol : CVec)
  | concludeUnknown (trail : CVec)
  | notifyEquivalence (first second : Int)
deriving DecidableEq, Repr

/-- The calls of the methods of `TraceProof` (cadical/src/prooftracer.rs l.31-124). Clauses and assignments are passed as
`CaDiCaLClause` and `CaDiCaLAssignment`, which hold the integers (l.224-226, l.288-290). -/
inductive TEvent where
  | addOriginalClause (id : Int) (redundant : Bool) (clause : List Int) (restored : Bool)
  | addDerivedClause (id : Int) (redundant : Bool) (clause antecedents : List Int)
  | deleteClause (id : Int) (redundant : Bool) (clause : List Int)
  | weakenMinus (id : Int) (clause : List Int)
  | strengthen (id : Int)
  | reportStatus (status : SolverResult) (id : Int)
  | finalizeClause (id : Int) (clause : List Int)
  | beginProof (id : Int)
  | solveQuery
  | addAssumption (assumption : Lit)
  | addConstraint (constraint : List Int)
  | resetAssumptions
  | addAssumptionClause (id : Int) (clause antecedents : List Int)
  | concludeUnsat (conclusion : Conclusion) (failing : List Int)
  | concludeSat (solution : List Int)
  | concludeUnknown (solution : List Int)
  | notifyEquivalence (first second : Lit)
deriving DecidableEq, Repr

/-- The calls of the methods of the C++ class `Tracer` by the solver (cadical/cpp-extension/ctracer.cpp l.41-130). The value
of the enumeration `ConclusionType` is its number. The `witness` that newer versions pass with derived clauses is dropped by
`CTracer` and not modelled; `demote_clause` of newer versions is not overridden by `CTracer`, there is no such event. -/
inductive SEvent where
  | addOriginalClause (id : Int) (redundant : Bool) (clause : List Int) (restored : Bool)
  | addDerivedClause (id : Int) (redundant : Bool) (clause antecedents : List Int)
  | deleteClause (id : Int) (redundant : Bool) (clause : List Int)
  | weakenMinus (id : Int) (clause : List Int)
  | strengthen (id : Int)
  | reportStatus (status id : Int)
  | finalizeClause (id : Int) (clause : List Int)
  | beginProof (id : Int)
  | solveQuery
  | addAssumption (lit : Int)
  | addConstraint (clause : List Int)
  | resetAssumptions
  | addAssumptionClause (id : Int) (clause antecedents : List Int)
  | concludeUnsat (conclusion : Conclusion) (ids : List Int)
  | concludeSat (model : List Int)
  | concludeUnknown (trail : List Int)
  | notifyEquivalence (first second : Int)
deriving DecidableEq, Repr

namespace Tracer

/-- `CCaDiCaLConclusionType` (cadical/cpp-extension/ctracer.h l.12-16) of a `ConclusionType`, by the `switch` of
`CTracer::conclude_unsat` (cadical/cpp-extension/ctracer.cpp l.103-117). -/
def conclusionInt : Conclusion → Int
  | .conflict => 1
  | .assumptions => 2
  | .constraint => 4

/-- The methods of `CTracer` (cadical/cpp-extension/ctracer.cpp l.41-130): the callback that is called, and its arguments. -/
def callback : SEvent → CEvent
  | .addOriginalClause id red cl res => .addOriginalClause id red (CVec.ofList cl) res
  | .addDerivedClause id red cl an => .addDerivedClause id red (CVec.ofList cl) (CVec.ofList an)
  | .deleteClause id red cl => .deleteClause id red (CVec.ofList cl)
  | .weakenMinus id cl => .weakenMinus id (CVec.ofList cl)
  | .strengthen id => .strengthen id
  | .reportStatus st id => .reportStatus st id
  | .finalizeClause id cl => .finalizeClause id (CVec.ofList cl)
  | .beginProof id => .beginProof id
  | .solveQuery => .solveQuery
  | .addAssumption l => .addAssumption l
  | .addConstraint cl => .addConstraint (CVec.ofList cl)
  | .resetAssumptions => .resetAssumptions
  | .addAssumptionClause id cl an => .addAssumptionClause id (CVec.ofList cl) (CVec.ofList an)
  | .concludeUnsat c ids => .concludeUnsat (conclusionInt c) (CVec.ofList ids)
  | .concludeSat m => .concludeSat (CVec.ofList m)
  | .concludeUnknown m => .concludeUnknown (CVec.ofList m)
  | .notifyEquivalence a b => .notifyEquivalence a b

/-- `Lit::from_ipasir(..).expect(..)` in a callback (cadical/src/ffi/prooftracer.rs l.123-125, l.199-202): a panic in an
`extern "C"` function aborts the process. -/
def lit (z : Int) : Run Lit :=
  match Lit.fromIpasir z with
  | .ok l => .ok l
  | _ => .abort

/-- The conversion of the status (cadical/src/ffi/prooftracer.rs l.87-94). -/
def status (z : Int) : Run SolverResult :=
  if z = 0 then .ok .interrupted
  else if z = 10 then .ok .sat
  else if z = 20 then .ok .unsat
  else .abort

/-- The conversion of the type of the conclusion (cadical/src/ffi/prooftracer.rs l.166-171). -/
def conclusion (z : Int) : Run Conclusion :=
  if z = 1 then .ok .conflict
  else if z = 2 then .ok .assumptions
  else if z = 4 then .ok .constraint
  else .abort

/-- The callbacks `rustsat_ccadical_*` (cadical/src/ffi/prooftracer.rs l.10-206) after they have turned their pointer into the
tracer: the method that is called on the tracer. -/
def dispatch : CEvent → Run TEvent
  | .addOriginalClause id red cl res => cl.slice.bind fun c => .ok (.addOriginalClause id red c res)
  | .addDerivedClause id red cl an => cl.slice.bind fun c => an.slice.bind fun a => .ok (.addDerivedClause id red c a)
  | .deleteClause id red cl => cl.slice.bind fun c => .ok (.deleteClause id red c)
  | .weakenMinus id cl => cl.slice.bind fun c => .ok (.weakenMinus id c)
  | .strengthen id => .ok (.strengthen id)
  | .reportStatus st id => (status st).bind fun s => .ok (.reportStatus s id)
  | .finalizeClause id cl => cl.slice.bind fun c => .ok (.finalizeClause id c)
  | .beginProof id => .ok (.beginProof id)
  | .solveQuery => .ok .solveQuery
  | .addAssumption z => (lit z).bind fun l => .ok (.addAssumption l)
  | .addConstraint cl => cl.slice.bind fun c => .ok (.addConstraint c)
  | .resetAssumptions => .ok .resetAssumptions
  | .addAssumptionClause id cl an => cl.slice.bind fun c => an.slice.bind fun a => .ok (.addAssumptionClause id c a)
  | .concludeUnsat z f => f.slice.bind fun ids => (conclusion z).bind fun c => .ok (.concludeUnsat c ids)
  | .concludeSat m => m.slice.bind fun s => .ok (.concludeSat s)
  | .concludeUnknown m => m.slice.bind fun s => .ok (.concludeUnknown s)
  | .notifyEquivalence a b => (lit a).bind fun x => (lit b).bind fun y => .ok (.notifyEquivalence x y)

/-- `CaDiCaLClause::iter`, `CaDiCaLAssignment::iter` (cadical/src/prooftracer.rs l.240-244, l.304-308), collected; `none` is a
panic. -/
def iter : List Int → Option (List Lit)
  | [] => some []
  | z :: zs =>
    match Lit.fromIpasir z with
    | .ok l => (iter zs).map (l :: ·)
    | _ => none

/-- `CaDiCaLClause::to_owned` (cadical/src/prooftracer.rs l.263-265). -/
def clause (zs : List Int) : Option Clause := iter zs

/-- `CaDiCaLAssignment::to_owned` (cadical/src/prooftracer.rs l.327-329). -/
def assignment (zs : List Int) : Option Assignment := (iter zs).map Assignment.ofLits

end Tracer

/-- An implementation of `TraceProof` (cadical/src/prooftracer.rs l.31-124): how a tracer changes with an event. Tracers that
panic are not modelled. -/
class TraceProof (T : Type) where
  react : T → TEvent → T

/-- `ProofTracerHandle` (cadical/src/prooftracer.rs l.131-135). -/
structure TracerHandle where
  cClass : Nat
  tracer : Nat
  traitPtr : Nat
deriving DecidableEq, Repr

/-- What the solver of the library knows about tracers (cadical/vendor/src/internal.hpp, proof.cpp l.30-40): the list in the
`Internal`, from which tracers are found and deleted, and the list in the `Proof`, to which events are sent; and whether the
solver is still in the state `CONFIGURING`. -/
structure CSolver where
  configuring : Bool := true
  owned : List Nat := []
  notified : List Nat := []
deriving DecidableEq, Repr

/-- The memory and the values that a program holds: boxes with tracers, boxes with trait pointers, objects of class `CTracer`
(by their field `data`), solvers, handles, and for each solver the reference to a tracer that `proof_tracer_mut` has returned and
that borrows the solver. Solvers and handles have the names that the program gives them. -/
structure TraceWorld (T : Type) where
  next : Nat := 0
  boxes : Nat → Option T := fun _ => none
  traits : Nat → Option Nat := fun _ => none
  classes : Nat → Option Nat := fun _ => none
  solvers : Nat → Option CSolver := fun _ => none
  handles : Nat → Option TracerHandle := fun _ => none
  refs : Nat → Option Nat := fun _ => none

/-- A map with one value replaced. -/
def update {α : Type} (f : Nat → α) (k : Nat) (a : α) : Nat → α := fun x => if x = k then a else f x

namespace TraceWorld
variable {T : Type}

/-- `drop(Box::from_raw(..))` of the box with the trait pointer (cadical/src/prooftracer.rs l.139-140, l.204-205). -/
def freeTrait (w : TraceWorld T) (a : Nat) : Run (TraceWorld T) :=
  match w.traits a with
  | none => .ub
  | some _ => .ok { w with traits := update w.traits a none }

/-- `Box::from_raw(..)` of the box with the tracer, and taking its value (cadical/src/prooftracer.rs l.141-142, l.206-209). -/
def takeTracer (w : TraceWorld T) (a : Nat) : Run (T × TraceWorld T) :=
  match w.boxes a with
  | none => .ub
  | some t => .ok (t, { w with boxes := update w.boxes a none })

/-- `delete` of an object of class `CTracer` (cadical/cpp-extension/ctracer.cpp l.152). -/
def deleteClass (w : TraceWorld T) (c : Nat) : Run (TraceWorld T) :=
  match w.classes c with
  | none => .ub
  | some _ => .ok { w with classes := update w.classes c none }

/-- `Drop for ProofTracerHandle` (cadical/src/prooftracer.rs l.137-144). -/
def dropFields (w : TraceWorld T) (h : TracerHandle) : Run (TraceWorld T) :=
  (w.freeTrait h.traitPtr).bind fun w => (w.takeTracer h.tracer).bind fun r => .ok r.2

/-- `CaDiCaL::default`: a new solver. Nothing happens if the name is in use. -/
def newSolver (w : TraceWorld T) (s : Nat) : TraceWorld T :=
  match w.solvers s with
  | some _ => w
  | none => { w with solvers := update w.solvers s (some {}), refs := update w.refs s none }

/-- Any call on the solver after which it is not in the state `CONFIGURING` any more, e.g. `add_clause`. -/
def leaveConfiguring (w : TraceWorld T) (s : Nat) : TraceWorld T :=
  match w.solvers s with
  | none => w
  | some sv => { w with solvers := update w.solvers s (some { sv with configuring := false }), refs := update w.refs s none }

/-- `CaDiCaL::connect_proof_tracer` (cadical/src/prooftracer.rs l.159-185) with `ccadical_connect_proof_tracer`
(cadical/cpp-extension/ctracer.cpp l.139-146) and `Solver::connect_proof_tracer` (cadical/vendor/src/solver.cpp l.1246-1255,
proof.cpp l.30-40), which aborts the process unless the solver is in the state `CONFIGURING`. Whether antecedents are requested
has no influence on the tracers. Nothing happens if the solver does not exist or the name of the handle is in use: there is no
such program. -/
def connect (w : TraceWorld T) (s k : Nat) (t : T) : Run (TraceWorld T) :=
  match w.solvers s, w.handles k with
  | some sv, none =>
    if sv.configuring then
      .ok { w with
        next := w.next + 3
        boxes := update w.boxes w.next (some t)
        traits := update w.traits (w.next + 1) (some w.next)
        classes := update w.classes (w.next + 2) (some (w.next + 1))
        solvers := update w.solvers s
          (some { sv with owned := sv.owned ++ [w.next + 2], notified := sv.notified ++ [w.next + 2] })
        handles := update w.handles k (some ⟨w.next + 2, w.next, w.next + 1⟩)
        refs := update w.refs s none }
    else .abort
  | _, _ => .ok w

/-- `ccadical_disconnect_proof_tracer` (cadical/cpp-extension/ctracer.cpp l.148-154) with
`Internal::disconnect_proof_tracer` and `Proof::disconnect` (cadical/vendor/src/proof.cpp l.82-91, l.115-118). The object is
deleted whether it was found or not. -/
def ccadicalDisconnect (w : TraceWorld T) (s : Nat) (sv : CSolver) (c : Nat) : Run (Bool × TraceWorld T) :=
  let w : TraceWorld T := { w with refs := update w.refs s none }
  if sv.owned.contains c then
    let sv : CSolver := { sv with owned := sv.owned.erase c, notified := sv.notified.filter (· ≠ c) }
    let w : TraceWorld T := { w with solvers := update w.solvers s (some sv) }
    (w.deleteClass c).bind fun w => .ok (true, w)
  else (w.deleteClass c).bind fun w => .ok (false, w)

/-- `CaDiCaL::disconnect_proof_tracer` (cadical/src/prooftracer.rs l.194-211): the tracer, or `none` for
`ProofTracerNotConnected`, in which case the handle is dropped. -/
def disconnect (w : TraceWorld T) (s k : Nat) : Run (Option T × TraceWorld T) :=
  match w.solvers s, w.handles k with
  | some sv, some h =>
    let w : TraceWorld T := { w with handles := update w.handles k none }
    (w.ccadicalDisconnect s sv h.cClass).bind fun r =>
      if r.1 then
        (r.2.freeTrait h.traitPtr).bind fun w => (w.takeTracer h.tracer).bind fun p => .ok (some p.1, p.2)
      else (r.2.dropFields h).bind fun w => .ok (none, w)
  | _, _ => .ok (none, w)

/-- The program drops a handle. -/
def dropHandle (w : TraceWorld T) (k : Nat) : Run (TraceWorld T) :=
  match w.handles k with
  | none => .ok w
  | some h => { w with handles := update w.handles k none : TraceWorld T }.dropFields h

/-- The `Internal` deletes its tracers (cadical/vendor/src/internal.cpp l.71-72). -/
def deleteAll (w : TraceWorld T) : List Nat → Run (TraceWorld T)
  | [] => .ok w
  | c :: cs => (w.deleteClass c).bind fun w => w.deleteAll cs

/-- `Drop for CaDiCaL`: the solver of the library is deleted. -/
def dropSolver (w : TraceWorld T) (s : Nat) : Run (TraceWorld T) :=
  match w.solvers s with
  | none => .ok w
  | some sv => { w with solvers := update w.solvers s none, refs := update w.refs s none : TraceWorld T }.deleteAll sv.owned

/-- A method of `CTracer` is called: the callback turns the field `data` into the tracer (`&mut **tracer.cast::<..>()`,
cadical/src/ffi/prooftracer.rs l.38 and alike), and calls the method of the tracer. -/
def deliver [TraceProof T] (w : TraceWorld T) (e : SEvent) (c : Nat) : Run (TraceWorld T) :=
  match w.classes c with
  | none => .ub
  | some d =>
    match w.traits d with
    | none => .ub
    | some b =>
      match w.boxes b with
      | none => .ub
      | some t => (Tracer.dispatch (Tracer.callback e)).bind fun te =>
          .ok { w with boxes := update w.boxes b (some (TraceProof.react t te)) }

/-- The `Proof` sends an event to its tracers (cadical/vendor/src/proof.cpp l.545-691). -/
def deliverAll [TraceProof T] (w : TraceWorld T) (e : SEvent) : List Nat → Run (TraceWorld T)
  | [] => .ok w
  | c :: cs => (w.deliver e c).bind fun w => w.deliverAll e cs

/-- The solver has an event, during some call of the program on it. -/
def event [TraceProof T] (w : TraceWorld T) (s : Nat) (e : SEvent) : Run (TraceWorld T) :=
  match w.solvers s with
  | none => .ok w
  | some sv => { w with refs := update w.refs s none : TraceWorld T }.deliverAll e sv.notified

/-- `CaDiCaL::proof_tracer_mut` (cadical/src/prooftracer.rs l.218-223): a reference to the tracer of the handle, which borrows
the solver — not the handle. -/
def tracerMut (w : TraceWorld T) (s k : Nat) : TraceWorld T :=
  match w.solvers s, w.handles k with
  | some _, some h => { w with refs := update w.refs s (some h.tracer) }
  | _, _ => w

/-- The program uses the reference that borrows the solver: it sees the tracer, and changes it. -/
def useRef (w : TraceWorld T) (s : Nat) (f : T → T) : Run (Option T × TraceWorld T) :=
  match w.refs s with
  | none => .ok (none, w)
  | some b =>
    match w.boxes b with
    | none => .ub
    | some t => .ok (some t, { w with boxes := update w.boxes b (some (f t)) })

end TraceWorld
end RustSat
