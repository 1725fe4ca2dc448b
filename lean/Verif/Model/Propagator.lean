import Verif.Model.Bindings
import Verif.Model.EncodeConstr
import Verif.Model.Opb
/-
Model of the tool that propagates assumptions (tools/src/bin/propagator.rs) after the instance has been parsed. The solver is
CaDiCaL 2.1 or later, the default.
-/
namespace RustSat
namespace Propagator

/-- `Display` for `Lit` (src/types/mod.rs l.293-301 and l.631-635), without the feature `ipasir-display`, which the tools do
not enable. -/
def showLit (l : Lit) : Text := (if l.isNeg then ['~'] else []) ++ 'x' :: Text.showNat l.var

/-- What comes of an argument of the tool. -/
inductive Arg where
  | lit (l : Lit)
  | error
  | panic
deriving DecidableEq, Repr

/-- `Parser::parse`: all of the text must be parsed. -/
def complete (p : P Lit) (s : Text) : Arg :=
  match p s with
  | .ok l [] => .lit l
  | .panic => .panic
  | _ => .error

/-- An argument of the tool (propagator.rs l.107-119). -/
def parseAssump (opts : Opb.Options) (s : Text) : Arg :=
  if "x".toList.isPrefixOf s || "~x".toList.isPrefixOf s || "-x".toList.isPrefixOf s then complete (Opb.literal opts) s
  else complete Dimacs.lit s

/-- What the tool does: it prints a line or ends with an error; `panic` for panics. -/
inductive Outcome where
  | printed (line : Text)
  | error
  | conflict
  | panic
deriving DecidableEq, Repr

/-- `parse_assumps` (propagator.rs l.106-120): the first failure ends the tool. -/
def parseAssumps (opts : Opb.Options) : List Text → Except Outcome (List Lit)
  | [] => .ok []
  | s :: ss =>
    match parseAssump opts s with
    | .lit l =>
      match parseAssumps opts ss with
      | .ok ls => .ok (l :: ls)
      | .error e => .error e
    | .error => .error .error
    | .panic => .error .panic

/-- The loop that prints the literals (propagator.rs l.151-157). -/
def line : List Lit → Text
  | [] => []
  | [l] => showLit l
  | l :: ls => showLit l ++ ',' :: line ls

section
variable {H : Type} [Cadical H]

/-- `add_cnf` (src/solvers/mod.rs l.279-281) with the wrapper of CaDiCaL. -/
def addCnf : Native H → ClauseSet → Option (Native H)
  | n, [] => some n
  | n, c :: cs => (n.addClause c).bind fun n => addCnf n cs

/-- A new solver with the clauses (propagator.rs l.135-139). -/
def load (H : Type) [Cadical H] (v : Nat) (cnf : ClauseSet) : Option (Native H) :=
  ((Native.new : Native H).reserve v).bind fun n => addCnf n cnf

/-- The result of the propagation (propagator.rs l.141-145). -/
def finish : Res BindErr PropagateResult → Except Outcome (List Lit)
  | .ok r => if r.conflict then .error .conflict else .ok r.propagated
  | .err _ => .error .error
  | .panic => .error .panic

/-- Propagation with a solver that has the clauses (propagator.rs l.141-145). -/
def withSolver (A : List Lit) : Option (Native H) → Except Outcome (List Lit)
  | none => .error .panic
  | some n => finish (n.propagate A).1

/-- Propagation with the highest variable (propagator.rs l.135-145). -/
def withMaxVar (H : Type) [Cadical H] (A : List Lit) (cnf : ClauseSet) : Option Nat → Except Outcome (List Lit)
  | none => .error .panic
  | some v => withSolver A (load H v cnf)

/-- Propagation with the CNF of the instance (propagator.rs l.135-145). -/
def withCnf (H : Type) [Cadical H] (A : List Lit) : Option (ClauseSet × BasicVM) → Except Outcome (List Lit)
  | none => .error .panic
  | some (cnf, vm) => withMaxVar H A cnf (ManageVars.maxVar vm)

/-- The literals that propagation yields (propagator.rs l.133-145). -/
def propagated (H : Type) [Cadical H] (inst : SatInstance BasicVM) (A : List Lit) : Except Outcome (List Lit) :=
  withCnf H A inst.intoCnf

/-- `main` (propagator.rs l.122-161) after the instance has been parsed. -/
def main (H : Type) [Cadical H] (opts : Opb.Options) (inst : SatInstance BasicVM) (args : List Text) : Outcome :=
  match parseAssumps opts args with
  | .error e => e
  | .ok A =>
    match propagated H inst A with
    | .error e => e
    | .ok ls => .printed (line ls)

end
end Propagator
end RustSat
