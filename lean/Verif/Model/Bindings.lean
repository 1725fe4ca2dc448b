import Verif.Model.Solvers
/-
Model of the wrappers around solver libraries: IPASIR (ipasir/src/lib.rs), CaDiCaL (cadical/src/lib.rs), Kissat
(kissat/src/lib.rs), MiniSat and Glucose (minisat/src/core.rs, minisat/src/simp.rs, glucose/src/core.rs,
glucose/src/simp.rs, and the C functions around the C++ solvers in minisat/vendor/minisat/cminisat.cc and
glucose/vendor/cglucose4.cc).

A library is a type of handles with the functions of its C interface, each of which returns the new state of the handle.
An operation of a wrapper returns a result and the new wrapper. Running out of memory, CPU times, the average clause
length, options and limits, tracing and propagation are not modelled.
-/
namespace RustSat

/-- `InternalSolverState` (ipasir/src/lib.rs l.61-69, cadical/src/lib.rs l.152-159, kissat/src/lib.rs l.79-86). -/
inductive NState where
  | configuring
  | input
  | sat
  | unsat (core : List Lit)
deriving DecidableEq, Repr

/-- `InternalSolverState::to_external` (ipasir/src/lib.rs l.71-80). -/
def NState.toExternal : NState → SolverState
  | .configuring => .configuring
  | .input => .input
  | .sat => .sat
  | .unsat _ => .unsat

/-- Errors of the wrappers: `StateError` (src/solvers/mod.rs l.584-592), `InvalidApiReturn`, and the conversion of a
`u32` to `c_int`. -/
inductive BindErr where
  | state (required actual : SolverState)
  | api
  | convert
deriving DecidableEq, Repr

/-- The IPASIR interface of a library (ipasir/src/lib.rs, module `ffi`). -/
class Ipasir (H : Type) where
  init : H
  add : H → Int → H
  assume : H → Int → H
  solve : H → Int × H
  val : H → Int → Int
  failed : H → Int → Int

/-- `IpasirSolver` (ipasir/src/lib.rs l.84-94), `CaDiCaL` (cadical/src/lib.rs l.173-183), `Kissat`
(kissat/src/lib.rs l.101-110), without callbacks. -/
structure Native (H : Type) where
  handle : H
  state : NState
  stats : SolverStats

/-- The value if there is one. -/
def Res.toOption {ε α : Type} : Res ε α → Option α
  | .ok a => some a
  | _ => none

/-- The integer that `to_ipasir` (src/types/mod.rs l.564-574) returns; `none` if it panics. -/
def Lit.cInt (l : Lit) : Option Int := l.toIpasir.toOption

/-- Passing literals one by one to a function of the library; `none` if `to_ipasir` panics. -/
def passLits {H : Type} (f : H → Int → H) : H → List Lit → Option H
  | h, [] => some h
  | h, l :: ls => l.cInt.bind fun z => passLits f (f h z) ls

/-- The update of `max_var` by one literal (ipasir/src/lib.rs l.238-245). -/
def maxVarStep (mv : Option Nat) (l : Lit) : Option Nat :=
  match mv with
  | none => some l.var
  | some v => if v < l.var then some l.var else some v

namespace Native
variable {H : Type} [Ipasir H]

/-- `IpasirSolver::default` (ipasir/src/lib.rs l.125-135), `CaDiCaL::default` (cadical/src/lib.rs l.216-234). -/
def new : Native H := ⟨Ipasir.init, .configuring, {}⟩

/-- `add_clause_ref` (ipasir/src/lib.rs l.230-255); `none` if a literal does not fit a `c_int`. CaDiCaL's
(cadical/src/lib.rs l.775-790) does not keep the highest variable itself. -/
def addClause (n : Native H) (c : Clause) : Option (Native H) :=
  (passLits Ipasir.add n.handle c).map fun h =>
    { handle := Ipasir.add h 0, state := .input,
      stats := { n.stats with nClauses := n.stats.nClauses + 1, maxVar := c.foldl maxVarStep n.stats.maxVar } }

/-- One step of `get_core_assumps` (ipasir/src/lib.rs l.141-152), where `z` is the assumption as an integer and `rest` is
the result of the further steps. -/
def coreStep (h : H) (a : Lit) (z : Option Int) (rest : Res BindErr (List Lit)) : Res BindErr (List Lit) :=
  match z with
  | some z =>
    if Ipasir.failed h z = 0 then rest
    else if Ipasir.failed h z = 1 then
      match rest with
      | .ok core => .ok (a.neg :: core)
      | .err e => .err e
      | .panic => .panic
    else .err .api
  | none => .panic

/-- `get_core_assumps` (ipasir/src/lib.rs l.138-154, cadical/src/lib.rs l.237-252). -/
def coreAssumps (h : H) : List Lit → Res BindErr (List Lit)
  | [] => .ok []
  | a :: as => coreStep h a a.cInt (coreAssumps h as)

/-- The treatment of the result of the library in `solve` and `solve_assumps` (ipasir/src/lib.rs l.184-205,
l.270-291). -/
def record (n : Native H) (core : H → Res BindErr (List Lit)) (r : Int × H) : Res BindErr SolverResult × Native H :=
  if r.1 = 0 then
    (.ok .interrupted, ⟨r.2, .input, { n.stats with nTerminated := n.stats.nTerminated + 1 }⟩)
  else if r.1 = 10 then
    (.ok .sat, ⟨r.2, .sat, { n.stats with nSat := n.stats.nSat + 1 }⟩)
  else if r.1 = 20 then
    match core r.2 with
    | .ok core => (.ok .unsat, ⟨r.2, .unsat core, { n.stats with nUnsat := n.stats.nUnsat + 1 }⟩)
    | .err e => (.err e, ⟨r.2, n.state, { n.stats with nUnsat := n.stats.nUnsat + 1 }⟩)
    | .panic => (.panic, ⟨r.2, n.state, { n.stats with nUnsat := n.stats.nUnsat + 1 }⟩)
  else (.err .api, { n with handle := r.2 })

/-- `solve` (ipasir/src/lib.rs l.170-206, cadical/src/lib.rs l.714-750). -/
def solve (n : Native H) : Res BindErr SolverResult × Native H :=
  match n.state with
  | .sat => (.ok .sat, n)
  | .unsat [] => (.ok .unsat, n)
  | _ => n.record (fun _ => .ok []) (Ipasir.solve n.handle)

/-- `solve_assumps` (ipasir/src/lib.rs l.259-292, cadical/src/lib.rs l.794-824). -/
def solveAssumps (n : Native H) (A : List Lit) : Res BindErr SolverResult × Native H :=
  match passLits Ipasir.assume n.handle A with
  | none => (.panic, n)
  | some h => n.record (fun h => coreAssumps h A) (Ipasir.solve h)

/-- `lit_val` (ipasir/src/lib.rs l.208-228). -/
def litVal (n : Native H) (l : Lit) : Res BindErr TernaryVal :=
  if n.state = .sat then
    match l.cInt with
    | some z =>
      if Ipasir.val n.handle z = 0 then .ok .dontCare
      else if Ipasir.val n.handle z = z then .ok .true
      else if Ipasir.val n.handle z = -z then .ok .false
      else .err .api
    | none => .panic
  else .err (.state .sat n.state.toExternal)

/-- `core` (ipasir/src/lib.rs l.294-303, cadical/src/lib.rs l.826-835). -/
def core (n : Native H) : Res BindErr (List Lit) :=
  match n.state with
  | .unsat core => .ok core
  | s => .err (.state .unsat s.toExternal)

end Native

/-- `PropagateResult` (src/solvers/mod.rs l.469-477). -/
structure PropagateResult where
  propagated : List Lit
  conflict : Bool
deriving DecidableEq, Repr

/-- The further functions of CaDiCaL's C interface that the wrapper uses (cadical/src/lib.rs). -/
class Cadical (H : Type) extends Ipasir H where
  constrain : H → Int → H
  constraintFailed : H → Int
  simplify : H → Nat → Int × H
  resize : H → Int → H
  propagate : H → Int × H
  implied : H → List Int

namespace Native
variable {H : Type} [Cadical H]

/-- `lit_val` of `CaDiCaL` (cadical/src/lib.rs l.752-773). -/
def cadicalVal (n : Native H) (l : Lit) : Res BindErr TernaryVal :=
  if n.state = .sat then
    match l.cInt with
    | some z =>
      if Ipasir.val n.handle z = 0 then .ok .dontCare
      else if Ipasir.val n.handle z = z then .ok .true
      else if Ipasir.val n.handle z = -z then .ok .false
      else if Ipasir.val n.handle z = -1 then .ok .dontCare
      else .err .api
    | none => .panic
  else .err (.state .sat n.state.toExternal)

/-- `reserve` of `CaDiCaL` (cadical/src/lib.rs l.708-712); `none` if `to_ipasir` panics. -/
def reserve (n : Native H) (v : Nat) : Option (Native H) :=
  (Lit.pos v).cInt.map fun z => { n with handle := Cadical.resize n.handle z, state := .input }

/-- `add_tmp_clause` (cadical/src/lib.rs l.272-293); `none` if `to_ipasir` panics. -/
def addTmp (n : Native H) (c : Clause) : Option (Native H) :=
  (passLits Cadical.constrain n.handle c).map fun h =>
    { handle := Cadical.constrain h 0, state := .input, stats := { n.stats with nClauses := n.stats.nClauses + 1 } }

/-- `tmp_clause_in_core` (cadical/src/lib.rs l.302-313). -/
def tmpInCore (n : Native H) : Res BindErr Bool :=
  match n.state with
  | .unsat _ => .ok (decide (Cadical.constraintFailed n.handle ≠ 0))
  | s => .err (.state .unsat s.toExternal)

/-- The treatment of the result of the library in `simplify` and `simplify_assumps` (cadical/src/lib.rs l.482-501,
l.538-557). -/
def recordSimplify (n : Native H) (r : Int × H) : Res BindErr SolverResult × Native H :=
  if r.1 = 0 then (.ok .interrupted, ⟨r.2, .input, n.stats⟩)
  else if r.1 = 10 then (.ok .sat, ⟨r.2, .sat, n.stats⟩)
  else if r.1 = 20 then (.ok .unsat, ⟨r.2, .unsat [], n.stats⟩)
  else (.err .api, { n with handle := r.2 })

/-- `simplify` (cadical/src/lib.rs l.473-502). -/
def simplify (n : Native H) (rounds : Nat) : Res BindErr SolverResult × Native H :=
  match n.state with
  | .sat => (.ok .sat, n)
  | .unsat _ => (.ok .unsat, n)
  | _ => if (rounds : Int) ≤ i32Max then n.recordSimplify (Cadical.simplify n.handle rounds) else (.err .convert, n)

/-- `simplify_assumps` (cadical/src/lib.rs l.521-558). -/
def simplifyAssumps (n : Native H) (A : List Lit) (rounds : Nat) : Res BindErr SolverResult × Native H :=
  match n.state with
  | .sat => (.ok .sat, n)
  | .unsat _ => (.ok .unsat, n)
  | _ =>
    if (rounds : Int) ≤ i32Max then
      match passLits Ipasir.assume n.handle A with
      | none => (.panic, n)
      | some h => n.recordSimplify (Cadical.simplify h rounds)
    else (.err .convert, n)

/-- `rustsat_cadical_collect_lits` (cadical/src/ffi/mod.rs l.42-46) for all literals that are passed to it. A panic in this
function aborts the process: `none`. -/
def collectLits : List Int → Option (List Lit)
  | [] => some []
  | z :: zs =>
    match Lit.fromIpasir z with
    | .ok l => (collectLits zs).map (l :: ·)
    | _ => none

/-- The literals that the library reports, with the new state (cadical/src/lib.rs l.1093-1103, l.1104-1114). -/
def reportImplied (n : Native H) (s : NState) (h : H) : Res BindErr PropagateResult × Native H :=
  match collectLits (Cadical.implied h) with
  | some ls => (.ok ⟨ls, false⟩, ⟨h, s, n.stats⟩)
  | none => (.panic, ⟨h, s, n.stats⟩)

/-- `propagate` with CaDiCaL 2.1 or later (cadical/src/lib.rs l.1077-1128). Phase saving is ignored by this version. -/
def propagate (n : Native H) (A : List Lit) : Res BindErr PropagateResult × Native H :=
  match passLits Ipasir.assume n.handle A with
  | none => (.panic, { n with state := .input })
  | some h =>
    if (Cadical.propagate h).1 = 0 then n.reportImplied .input (Cadical.propagate h).2
    else if (Cadical.propagate h).1 = 10 then n.reportImplied .sat (Cadical.propagate h).2
    else if (Cadical.propagate h).1 = 20 then (.ok ⟨[], true⟩, ⟨(Cadical.propagate h).2, .input, n.stats⟩)
    else (.err .api, ⟨(Cadical.propagate h).2, .input, n.stats⟩)

end Native

/-! ### Kissat -/

/-- The C interface of Kissat (kissat/src/lib.rs, module `ffi`); `none`: the library writes an error message and aborts
the process. -/
class KissatLib (H : Type) where
  init : H
  add : H → Int → Option H
  solve : H → Option (Int × H)
  val : H → Int → Option Int
  reserve : H → Int → Option H

namespace Kissat
variable {H : Type} [KissatLib H]

/-- `Kissat::default` (kissat/src/lib.rs l.130-143). -/
def new : Native H := ⟨KissatLib.init, .configuring, {}⟩

/-- Passing the literals of a clause and the terminating zero to `kissat_add`; `none`: abort, or a panic in
`to_ipasir`. -/
def passClause : H → Clause → Option H
  | h, [] => KissatLib.add h 0
  | h, l :: ls => (l.cInt.bind (KissatLib.add h)).bind fun h => passClause h ls

/-- `add_clause_ref` (kissat/src/lib.rs l.364-400). -/
def addClause (n : Native H) (c : Clause) : Res BindErr Unit × Native H :=
  if n.state = .input ∨ n.state = .configuring then
    match passClause n.handle c with
    | some h =>
      (.ok (), ⟨h, .input,
        { n.stats with nClauses := n.stats.nClauses + 1, maxVar := c.foldl maxVarStep n.stats.maxVar }⟩)
    | none => (.panic, n)
  else (.err (.state .input n.state.toExternal), n)

/-- `reserve` (kissat/src/lib.rs l.299-303); `none`: abort, or a panic in `to_ipasir`. -/
def reserve (n : Native H) (v : Nat) : Option (Native H) :=
  ((Lit.pos v).cInt.bind (KissatLib.reserve n.handle)).map fun h => { n with handle := h, state := .input }

/-- The treatment of the result of the library in `solve` (kissat/src/lib.rs l.317-339). -/
def record (n : Native H) (r : Int × H) : Res BindErr SolverResult × Native H :=
  if r.1 = 0 then
    (.ok .interrupted, ⟨r.2, .input, { n.stats with nTerminated := n.stats.nTerminated + 1 }⟩)
  else if r.1 = 10 then
    (.ok .sat, ⟨r.2, .sat, { n.stats with nSat := n.stats.nSat + 1 }⟩)
  else if r.1 = 20 then
    (.ok .unsat, ⟨r.2, .unsat [], { n.stats with nUnsat := n.stats.nUnsat + 1 }⟩)
  else (.err .api, { n with handle := r.2 })

/-- `solve` (kissat/src/lib.rs l.305-340). -/
def solve (n : Native H) : Res BindErr SolverResult × Native H :=
  match n.state with
  | .sat => (.ok .sat, n)
  | .unsat _ => (.ok .unsat, n)
  | _ =>
    match KissatLib.solve n.handle with
    | none => (.panic, n)
    | some r => record n r

/-- `lit_val` (kissat/src/lib.rs l.342-362). An abort of the library is modelled as a panic. -/
def litVal (n : Native H) (l : Lit) : Res BindErr TernaryVal :=
  if n.state = .sat then
    match l.cInt with
    | some z =>
      match KissatLib.val n.handle z with
      | some w =>
        if w = 0 then .ok .dontCare
        else if w = z then .ok .true
        else if w = -z then .ok .false
        else .err .api
      | none => .panic
    | none => .panic
  else .err (.state .sat n.state.toExternal)

end Kissat

/-! ### MiniSat and Glucose -/

/-- The C++ solvers of MiniSat and Glucose as far as the C functions around them use them. `value h v` is
`modelValue(v)`, an access to the vector `model` without a check of the index: `none` if the vector has no such entry.
`propCheck` is `cminisat_propcheck` and `cglucose4_propcheck` (e.g. minisat/vendor/minisat/cminisat.cc l.283-295): the result
and the literals passed to the callback, `none` if a vector is accessed out of its bounds. -/
class MiniLib (H : Type) where
  init : H
  addClause : H → Clause → H
  solve : H → List Lit → Int × H
  value : H → Nat → Option TernaryVal
  conflict : H → List Lit
  reserve : H → Nat → H
  propCheck : H → List Lit → Bool → Option (Int × List Lit × H)

/-- `InternalSolverState` (minisat/src/lib.rs l.41-48, glucose/src/lib.rs l.41-48). -/
inductive MState where
  | configuring
  | input
  | sat
  | unsat (underAssumps : Bool)
deriving DecidableEq, Repr

/-- `InternalSolverState::to_external` (minisat/src/lib.rs l.51-60). -/
def MState.toExternal : MState → SolverState
  | .configuring => .configuring
  | .input => .input
  | .sat => .sat
  | .unsat _ => .unsat

/-- `Minisat` (minisat/src/core.rs l.17-21, simp.rs l.17-21), `Glucose` (glucose/src/core.rs, simp.rs). -/
structure Mini (H : Type) where
  handle : H
  state : MState
  stats : SolverStats

namespace Mini
variable {H : Type} [MiniLib H]

/-- `Minisat::default` (minisat/src/core.rs l.25-38). -/
def new : Mini H := ⟨MiniLib.init, .configuring, {}⟩

/-- `add_clause_ref` (minisat/src/core.rs l.161-178). -/
def addClause (n : Mini H) (c : Clause) : Mini H :=
  { handle := MiniLib.addClause n.handle c, state := .input, stats := { n.stats with nClauses := n.stats.nClauses + 1 } }

/-- `reserve` (minisat/src/core.rs l.180-186). -/
def reserve (n : Mini H) (v : Nat) : Mini H := { n with handle := MiniLib.reserve n.handle v }

/-- The treatment of the result of the library in `solve` and `solve_assumps` (minisat/src/core.rs l.121-141,
l.197-217). -/
def record (n : Mini H) (underAssumps : Bool) (r : Int × H) : Res BindErr SolverResult × Mini H :=
  if r.1 = 0 then
    (.ok .interrupted, ⟨r.2, .input, { n.stats with nTerminated := n.stats.nTerminated + 1 }⟩)
  else if r.1 = 10 then
    (.ok .sat, ⟨r.2, .sat, { n.stats with nSat := n.stats.nSat + 1 }⟩)
  else if r.1 = 20 then
    (.ok .unsat, ⟨r.2, .unsat underAssumps, { n.stats with nUnsat := n.stats.nUnsat + 1 }⟩)
  else (.err .api, { n with handle := r.2 })

/-- `solve` (minisat/src/core.rs l.107-141). -/
def solve (n : Mini H) : Res BindErr SolverResult × Mini H :=
  match n.state with
  | .sat => (.ok .sat, n)
  | .unsat false => (.ok .unsat, n)
  | _ => n.record false (MiniLib.solve n.handle [])

/-- `solve_assumps` (minisat/src/core.rs l.190-218). The variants with preprocessing first return an error if the
variable of an assumption has been eliminated (minisat/src/simp.rs l.207-211); this is not modelled. -/
def solveAssumps (n : Mini H) (A : List Lit) : Res BindErr SolverResult × Mini H :=
  n.record true (MiniLib.solve n.handle A)

/-- `cminisat_val`, `cminisatsimp_val` (minisat/vendor/minisat/cminisat.cc), `cglucose4_val`, `cglucose4simp_val`
(glucose/vendor/cglucose4.cc): `modelValue(var(lit))` as 1, -1 or 0; `none`: access out of bounds. -/
def cval (h : H) (l : Lit) : Option Int :=
  (MiniLib.value h l.var).map fun
    | .true => 1
    | .false => -1
    | .dontCare => 0

/-- `lit_val` (minisat/src/core.rs l.143-159); `panic` stands for undefined behaviour. -/
def litVal (n : Mini H) (l : Lit) : Res BindErr TernaryVal :=
  if n.state = .sat then
    match cval n.handle l with
    | some r => if r = 0 then .ok .dontCare else if r = 1 then .ok .true else if r = -1 then .ok .false else .err .api
    | none => .panic
  else .err (.state .sat n.state.toExternal)

/-- `core` (minisat/src/core.rs l.220-244). -/
def core (n : Mini H) : Res BindErr (List Lit) :=
  match n.state with
  | .unsat true => .ok (MiniLib.conflict n.handle)
  | .unsat false => .ok []
  | s => .err (.state .unsat s.toExternal)

/-- `propagate` (minisat/src/core.rs l.347-385, simp.rs l.402-440, glucose/src/core.rs l.347-385, simp.rs l.401-439). The
time is not modelled; an access out of bounds is a panic. -/
def propagate (n : Mini H) (A : List Lit) (phaseSaving : Bool) : Res BindErr PropagateResult × Mini H :=
  match MiniLib.propCheck n.handle A phaseSaving with
  | none => (.panic, { n with state := .input })
  | some (res, props, h) =>
    if res = 10 then (.ok ⟨props, false⟩, ⟨h, .input, n.stats⟩)
    else if res = 20 then (.ok ⟨props, true⟩, ⟨h, .input, n.stats⟩)
    else (.err .api, ⟨h, .input, n.stats⟩)

end Mini

/-! ### Callbacks -/

/-- Ownership of the callbacks of `IpasirSolver` and `CaDiCaL`: the fields `terminate_cb` and `learner_cb` own boxes, the
library has pointers to boxes. A box is represented by a number; `next` is a number that was not used yet. -/
structure Callbacks where
  terminateCb : Option Nat := none
  learnerCb : Option Nat := none
  terminatePtr : Option Nat := none
  learnPtr : Option Nat := none
  next : Nat := 0
deriving DecidableEq, Repr

namespace Callbacks

/-- `attach_terminator` (ipasir/src/lib.rs l.339-347, cadical/src/lib.rs l.871-885). -/
def attachTerminator (s : Callbacks) : Callbacks :=
  { s with terminateCb := some s.next, terminatePtr := some s.next, next := s.next + 1 }

/-- `detach_terminator` (ipasir/src/lib.rs l.349-352, cadical/src/lib.rs l.887-890). -/
def detachTerminator (s : Callbacks) : Callbacks := { s with terminateCb := none, terminatePtr := none }

/-- `attach_learner` (ipasir/src/lib.rs l.383-398, cadical/src/lib.rs l.921-936). The result says whether
`max_len.try_into().unwrap()` succeeds; the new callback is stored before. -/
def attachLearner (s : Callbacks) (maxLen : Nat) : Bool × Callbacks :=
  if (maxLen : Int) ≤ i32Max then (true, { s with learnerCb := some s.next, learnPtr := some s.next, next := s.next + 1 })
  else (false, { s with learnerCb := some s.next, next := s.next + 1 })

/-- `detach_learner` (ipasir/src/lib.rs l.400-403, cadical/src/lib.rs l.938-941). -/
def detachLearner (s : Callbacks) : Callbacks := { s with terminateCb := none, learnPtr := none }

end Callbacks
end RustSat
