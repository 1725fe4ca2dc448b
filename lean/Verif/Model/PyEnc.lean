import Verif.Model.PyApi
import Verif.Model.Capi
/-
The encodings of the Python interface, pyapi/src/encodings/. What PyO3 does (conversion of arguments, borrowing of objects) and
`MemoryError` are not modelled. Conversions between `Vec<crate::types::Lit>` and `Vec<rustsat::types::Lit>` by
`transmute` do not change values.
-/
namespace RustSat
open Card

/-- The objects of the classes `Totalizer`, `GeneralizedTotalizer`, `BinaryAdder` and `DynamicPolyWatchdog`
(pyapi/src/encodings/card.rs l.157-161, pb.rs l.188-246). -/
inductive PyEnc where
  | tot (t : Totalizer)
  | gte (g : Gte)
  | adder (a : BinaryAdder)
  | dpw (d : Dpw)

/-- The range `lo..=hi` as the encodings see it (`prepare_ub_range`, `prepare_lb_range` in src/encodings/card/mod.rs l.461,
l.477 and pb/mod.rs l.509, l.525 compute `hi + 1`): without overflow checks, as in released packages, the largest `usize` as end gives an
empty range. -/
def pyRange (lo hi : Nat) : URange := if hi < Capi.sizeMax then ⟨.incl lo, .incl hi⟩ else ⟨.incl lo, .excl 0⟩

namespace PyEnc

/-- `Totalizer.__new__` (card.rs l.31-34). -/
def newTot (lits : List Lit) : PyEnc := .tot (Totalizer.new lits)
/-- `GeneralizedTotalizer.__new__` (pb.rs l.41-44). -/
def newGte (lits : List (Lit × Nat)) : PyEnc := .gte (Gte.new lits)
/-- `BinaryAdder.__new__` (pb.rs l.41-44). -/
def newAdder (lits : List (Lit × Nat)) : PyEnc := .adder (BinaryAdder.new lits)
/-- `DynamicPolyWatchdog.__new__` (pb.rs l.41-44); `none` is a panic. -/
def newDpw (lits : List (Lit × Nat)) : Option PyEnc := (Dpw.new lits).map .dpw

/-- `extend` (card.rs l.37-40, pb.rs l.30-33), where the totalizer gets literals without weights. The watchdog does not
have this method (pb.rs l.168-172), for it nothing changes in the model. -/
def extend : PyEnc → List (Lit × Nat) → PyEnc
  | .tot t, xs => .tot (t.extend (xs.map (·.1)))
  | .gte g, xs => .gte (g.extend xs)
  | .adder a, xs => .adder (a.extend xs)
  | .dpw d, _ => .dpw d

/-- The result of an encoding method: a new `Cnf`, the changed object and the changed variable manager. -/
def encoded {E : Type} (f : E → PyEnc) (r : Option (E × BasicVM × ClauseSet)) : Option (PySeq Clause × PyEnc × PyVarManager) :=
  r.map fun x => (PySeq.new x.2.2, f x.1, ⟨x.2.1⟩)

/-- `encode_ub` (card.rs l.59-71, pb.rs l.68-80): `encode_ub_change` with an empty `Cnf` as collector. -/
def encodeUb (e : PyEnc) (lo hi : Nat) (vm : PyVarManager) : Option (PySeq Clause × PyEnc × PyVarManager) :=
  match e with
  | .tot t => encoded .tot (t.encodeUbChange (pyRange lo hi) vm.vm [])
  | .gte g => encoded .gte (g.encodeUbChange (pyRange lo hi) vm.vm [])
  | .adder a => encoded .adder (a.encodeUbChange (pyRange lo hi) vm.vm [])
  | .dpw d => encoded .dpw (d.encodeUbChange (pyRange lo hi) vm.vm [])

/-- `encode_lb` (card.rs l.86-98, pb.rs l.101-113), for the totalizer and the adder; `none` stands for panics and for the
missing method. -/
def encodeLb (e : PyEnc) (lo hi : Nat) (vm : PyVarManager) : Option (PySeq Clause × PyEnc × PyVarManager) :=
  match e with
  | .tot t => encoded .tot (t.encodeLbChange (pyRange lo hi) vm.vm [])
  | .adder a => encoded .adder (a.encodeLbChange (pyRange lo hi) vm.vm [])
  | _ => none

/-- `encode_both` (card.rs l.116-130, pb.rs l.135-149), for the totalizer and the adder: `encode_both_change` encodes the
upper bounds, then the lower bounds (src/encodings/card/mod.rs l.324-336, pb/mod.rs l.374-386). -/
def encodeBoth (e : PyEnc) (lo hi : Nat) (vm : PyVarManager) : Option (PySeq Clause × PyEnc × PyVarManager) :=
  match e with
  | .tot t => encoded .tot (t.encodeBoth (pyRange lo hi) vm.vm [])
  | .adder a => encoded .adder (a.encodeBoth (pyRange lo hi) vm.vm [])
  | _ => none

/-- `convert_enforce_error` (mod.rs l.9-18). -/
def convert : Res EnforceError (List Lit) → PyRes (List Lit)
  | .ok A => .ok A
  | .err .notEncoded => .runtimeError
  | .err .unsat => .valueError
  | .panic => .panic

/-- The closure in `Totalizer.enforce_ub` (card.rs l.77-79): every error is a `RuntimeError`. -/
def anyError : Res EnforceError (List Lit) → PyRes (List Lit)
  | .ok A => .ok A
  | .err _ => .runtimeError
  | .panic => .panic

/-- `enforce_ub` (card.rs l.75-82, pb.rs l.84-93). -/
def enforceUb : PyEnc → Nat → PyRes (List Lit)
  | .tot t, b => anyError (t.enforceUb b)
  | .gte g, b => convert (g.enforceUb b)
  | .adder a, b => convert (a.enforceUb b)
  | .dpw d, b => convert (d.enforceUb b)

/-- `enforce_lb` (card.rs l.102-111, pb.rs l.117-126); `typeError` stands for the missing method. -/
def enforceLb : PyEnc → Nat → PyRes (List Lit)
  | .tot t, b => convert (t.enforceLb b)
  | .adder a, b => convert (a.enforceLb b)
  | _, _ => .typeError

/-- `enforce_eq` (card.rs l.134-143, pb.rs l.153-162); `typeError` stands for the missing method. -/
def enforceEq : PyEnc → Nat → PyRes (List Lit)
  | .tot t, b => convert (t.enforceEq b)
  | .adder a, b => convert (a.enforceEq b)
  | _, _ => .typeError

/-- `n_lits` of the totalizer (card.rs l.43-45) and `weight_sum` of the others (pb.rs l.47-49). -/
def weightSum : PyEnc → Nat
  | .tot t => t.nLits
  | .gte g => g.weightSum
  | .adder a => a.weightSum
  | .dpw d => d.weightSum

/-- `n_clauses` (card.rs l.48-50, pb.rs l.52-54). -/
def nClauses : PyEnc → Nat
  | .tot t => t.nClauses
  | .gte g => g.nClauses
  | .adder a => a.nClauses
  | .dpw d => d.nClauses

/-- `n_vars` (card.rs l.53-55, pb.rs l.57-59). -/
def nVars : PyEnc → Nat
  | .tot t => t.nVars
  | .gte g => g.nVars
  | .adder a => a.nVars
  | .dpw d => d.nVars

end PyEnc

/-- An object of the classes `Bimander`, `Bitwise`, `Commander`, `Ladder` and `Pairwise` (am1.rs): its literals and the
statistics. -/
structure PyAm1 where
  lits : List Lit
  nClauses : Nat
  nVars : Nat

namespace PyAm1

/-- `__new__` (am1.rs l.25-28). -/
def new (lits : List Lit) : PyAm1 := ⟨lits, 0, 0⟩

/-- `encode` (am1.rs l.46-54) of an object of the class with this name. -/
def encode (k : Capi.Am1Name) (e : PyAm1) (vm : PyVarManager) : PySeq Clause × PyAm1 × PyVarManager :=
  (PySeq.new (k.kind.encode e.lits vm.vm).1,
   ⟨e.lits, (k.kind.stats ⟨e.nClauses, e.nVars⟩ e.lits vm.vm).nClauses, (k.kind.stats ⟨e.nClauses, e.nVars⟩ e.lits vm.vm).nVars⟩,
   ⟨(k.kind.encode e.lits vm.vm).2⟩)

end PyAm1
end RustSat
