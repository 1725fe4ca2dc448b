import Verif.Model.Totalizer
import Verif.Model.Gte
import Verif.Model.Adder
import Verif.Model.Dpw
import Verif.Model.Am1
/-
Model of the C-API for encodings (capi/src/encodings/*.rs; the files card.rs, pb.rs and am1.rs are generated from one
template per function).

A pointer to an encoder is the encoder. `&mut u32 n_vars_used` is a natural number that is returned; that variable
numbers do not exceed `u32` and `c_int` is not modelled (`C84_literals` tells which integers are passed). A collector is the list of the
clauses that it was given; `callbacks` is the sequence of integers that the C function behind it was called with. The
counter `n_clauses` of the collector, which stays 0, is only used for statistics that the C-API does not offer. `*_drop`
is not modelled. `none` models a panic, which aborts the calling program.
-/
namespace RustSat
namespace Capi
open Card

/-- `MaybeError` (mod.rs l.11-27). -/
inductive MaybeError where
  | ok
  | notEncoded
  | unsat
  | invalidState
  | invalidLiteral
  | precisionNotPow2
  | precisionDecreased
deriving DecidableEq, Repr

/-- `From<EnforceError>` (mod.rs l.35-42). -/
def MaybeError.ofEnforce : EnforceError → MaybeError
  | .notEncoded => .notEncoded
  | .unsat => .unsat

/-- `From<Result<(), PrecisionError>>` (mod.rs l.44-58), for errors. -/
def MaybeError.ofPrecision : PrecisionError → MaybeError
  | .notPow2 => .precisionNotPow2
  | .precisionDecreased => .precisionDecreased

/-- `VarManager` (mod.rs l.111-119). -/
structure VarManager where
  nVarsUsed : Nat
deriving DecidableEq, Repr

/-- `ManageVars for VarManager` (mod.rs l.121-162). `combine` panics, which is not modelled; no encoding uses it. -/
instance : ManageVars VarManager where
  newVar m := (m.nVarsUsed, ⟨m.nVarsUsed + 1⟩)
  maxVar m := if m.nVarsUsed = 0 then none else some (m.nVarsUsed - 1)
  increaseNextFree m v := if v > m.nVarsUsed then (true, ⟨v⟩) else (false, m)
  combine m o := ⟨max m.nVarsUsed o.nVarsUsed⟩
  nUsed m := m.nVarsUsed
  forgetFrom m v := ⟨min m.nVarsUsed v⟩

/-- `Lit::to_ipasir` (src/types/mod.rs l.564-574) for literals that fit `c_int`. -/
def ipasir (l : Lit) : Int := if l.isNeg then -((l.var : Int) + 1) else (l.var : Int) + 1

/-- `CollectClauses for ClauseCollector` (mod.rs l.80-102): the calls of the C function for a list of clauses. -/
def callbacks (cls : ClauseSet) : List Int := cls.flatMap fun c => c.map ipasir ++ [0]

/-- `SIZE_MAX`. -/
def sizeMax : Nat := 2 ^ 64 - 1

/-- Whether overflows are checked. -/
inductive Build where
  | debug
  | release
deriving DecidableEq, Repr

/-- The assertion and the range `min..=max` passed to an encoder (e.g. card.rs l.91-95). The upper end is incremented in
`prepare_ub_range` and `prepare_lb_range` (encodings/card/mod.rs l.461, l.477; encodings/pb/mod.rs l.509, l.525): for
`SIZE_MAX` this panics or wraps to 0, depending on the build. -/
def inclRange (bld : Build) (lo hi : Nat) : Option URange :=
  if ¬ lo ≤ hi then none
  else if hi < sizeMax then some ⟨.incl lo, .incl hi⟩
  else match bld with
    | .debug => none
    | .release => some ⟨.incl lo, .excl 0⟩

/-- The encoders behind `tot_*`, `gte_*`, `bin_adder_*` and `dpw_*`. -/
inductive Obj where
  | tot (t : Totalizer)
  | gte (g : Gte)
  | adder (a : BinaryAdder)
  | dpw (d : Dpw)

namespace Obj

/-- `tot_new` (card.rs l.14-18). -/
def totNew : Obj := .tot (Totalizer.new [])
/-- `gte_new` (pb.rs l.16-20). -/
def gteNew : Obj := .gte (Gte.new [])
/-- `bin_adder_new` (pb.rs l.135-139). -/
def adderNew : Obj := .adder (BinaryAdder.new [])
/-- `dpw_new` (pb.rs l.319-323). -/
def dpwNew : Obj := .dpw Dpw.default

/-- `tot_add` (card.rs l.54-60), which has no weight, `gte_add` (pb.rs l.56-66), `bin_adder_add` (pb.rs l.175-185),
`dpw_add` (pb.rs l.359-373). -/
def add (o : Obj) (lit : Int) (weight : Nat) : MaybeError × Obj :=
  match Lit.fromIpasir lit with
  | .ok l =>
    match o with
    | .tot t => (.ok, .tot (t.extend [l]))
    | .gte g => (.ok, .gte (g.extend [(l, weight)]))
    | .adder a => (.ok, .adder (a.extend [(l, weight)]))
    | .dpw d =>
      match d.addInput l weight with
      | some d => (.ok, .dpw d)
      | none => (.invalidState, .dpw d)
  | _ => (.invalidLiteral, o)

/-- `tot_reserve` (card.rs l.38-42), `gte_reserve` (pb.rs l.40-44), `bin_adder_reserve` (pb.rs l.159-163), `dpw_reserve`
(pb.rs l.343-347). -/
def reserve (o : Obj) (nVarsUsed : Nat) : Option (Obj × Nat) :=
  match o with
  | .tot t => (t.reserve (⟨nVarsUsed⟩ : VarManager)).map fun r => (.tot r.1, r.2.nVarsUsed)
  | .gte g => (g.reserve (⟨nVarsUsed⟩ : VarManager)).map fun r => (.gte r.1, r.2.nVarsUsed)
  | .adder a => (a.reserve (⟨nVarsUsed⟩ : VarManager)).map fun r => (.adder r.1, r.2.nVarsUsed)
  | .dpw d => (d.reserve (⟨nVarsUsed⟩ : VarManager)).map fun r => (.dpw r.1, r.2.nVarsUsed)

/-- Calling the encoder with a collector and a variable manager. -/
def encoded {E : Type} (obj : E → Obj) (r : Option (E × VarManager × ClauseSet)) : Option (Obj × Nat × ClauseSet) :=
  r.map fun x => (obj x.1, x.2.1.nVarsUsed, x.2.2)

/-- `tot_encode_ub` (card.rs l.82-97), `gte_encode_ub` (pb.rs l.89-104), `bin_adder_encode_ub` (pb.rs l.208-223),
`dpw_encode_ub` (pb.rs l.395-410). -/
def encodeUb (bld : Build) (o : Obj) (lo hi nVarsUsed : Nat) (cls : ClauseSet) : Option (Obj × Nat × ClauseSet) :=
  match inclRange bld lo hi with
  | none => none
  | some r =>
    match o with
    | .tot t => encoded .tot (t.encodeUbChange r ⟨nVarsUsed⟩ cls)
    | .gte g => encoded .gte (g.encodeUbChange r ⟨nVarsUsed⟩ cls)
    | .adder a => encoded .adder (a.encodeUbChange r ⟨nVarsUsed⟩ cls)
    | .dpw d => encoded .dpw (d.encodeUbChange r ⟨nVarsUsed⟩ cls)

/-- `tot_encode_lb` (card.rs l.141-156), `bin_adder_encode_lb` (pb.rs l.273-288). The other encodings have no such
function; `none`. -/
def encodeLb (bld : Build) (o : Obj) (lo hi nVarsUsed : Nat) (cls : ClauseSet) : Option (Obj × Nat × ClauseSet) :=
  match inclRange bld lo hi with
  | none => none
  | some r =>
    match o with
    | .tot t => encoded .tot (t.encodeLbChange r ⟨nVarsUsed⟩ cls)
    | .adder a => encoded .adder (a.encodeLbChange r ⟨nVarsUsed⟩ cls)
    | _ => none

/-- The assumption written by the functions of the totalizer (card.rs l.111-115): the first one, without which indexing
panics. -/
def first : Res EnforceError (List Lit) → Res MaybeError (List Int)
  | .ok [] => .panic
  | .ok (a :: _) => .ok [ipasir a]
  | .err e => .err (.ofEnforce e)
  | .panic => .panic

/-- The assumptions passed by the functions of pseudo-Boolean encodings (pb.rs l.123-131). -/
def all : Res EnforceError (List Lit) → Res MaybeError (List Int)
  | .ok assumps => .ok (assumps.map ipasir)
  | .err e => .err (.ofEnforce e)
  | .panic => .panic

/-- `tot_enforce_ub` (card.rs l.106-119), `gte_enforce_ub` (pb.rs l.116-132), `bin_adder_enforce_ub` (pb.rs l.235-251),
`dpw_enforce_ub` (pb.rs l.422-438). -/
def enforceUb (o : Obj) (ub : Nat) : Res MaybeError (List Int) :=
  match o with
  | .tot t => first (t.enforceUb ub)
  | .gte g => all (g.enforceUb ub)
  | .adder a => all (a.enforceUb ub)
  | .dpw d => all (d.enforceUb ub)

/-- `tot_enforce_lb` (card.rs l.165-178), `bin_adder_enforce_lb` (pb.rs l.300-316). The other encodings have no such
function. -/
def enforceLb (o : Obj) (lb : Nat) : Res MaybeError (List Int) :=
  match o with
  | .tot t => first (t.enforceLb lb)
  | .adder a => all (a.enforceLb lb)
  | _ => .panic

/-- `dpw_set_precision` (dpw.rs l.39-45). The other encodings have no such function; nothing happens. -/
def setPrecision (o : Obj) (divisor : Nat) : MaybeError × Obj :=
  match o with
  | .dpw d =>
    match d.setPrecision divisor with
    | .ok d => (.ok, .dpw d)
    | .err e => (.ofPrecision e, .dpw d)
    | .panic => (.ok, .dpw d)
  | o => (.ok, o)

/-- `dpw_limit_range` (dpw.rs l.97-111), with the clauses in the collector before and after. -/
def limitRange (bld : Build) (d : Dpw) (lo hi : Nat) (cls : ClauseSet) : Option ClauseSet :=
  match inclRange bld lo hi with
  | none => none
  | some r => (d.limitRange r).map fun new => cls ++ new

end Obj

/-- The at-most-one encodings of the C-API (mod.rs l.164-194, am1.rs): for commander and bimander the splits have 4
literals, and the sub encoding is always pairwise. -/
inductive Am1Name where
  | pairwise | ladder | bitwise | commander | bimander | twoproduct
deriving DecidableEq, Repr

/-- The encoding behind a name. -/
def Am1Name.kind : Am1Name → Am1.Kind
  | .pairwise => .pairwise
  | .ladder => .ladder
  | .bitwise => .bitwise
  | .commander => .commander 4 .pairwise
  | .bimander => .bimander 4 .pairwise
  | .twoproduct => .twoProduct .pairwise

/-- `*_add` of at-most-one encodings (e.g. am1.rs l.42-49). An encoder is the list of its literals. -/
def am1Add (lits : List Lit) (lit : Int) : MaybeError × List Lit :=
  match Lit.fromIpasir lit with
  | .ok l => (.ok, lits ++ [l])
  | _ => (.invalidLiteral, lits)

/-- `*_encode` of at-most-one encodings (e.g. am1.rs l.63-76). -/
def am1Encode (k : Am1Name) (lits : List Lit) (nVarsUsed : Nat) (cls : ClauseSet) : Nat × ClauseSet :=
  let r := k.kind.encode lits (⟨nVarsUsed⟩ : VarManager)
  (r.2.nVarsUsed, cls ++ r.1)

end Capi
end RustSat
