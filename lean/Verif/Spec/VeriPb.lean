import Verif.Spec.Sem
import Verif.Model.Pigeons
/-
A checker for the part of the VeriPB proof format that the library writes: cutting planes (`pol`), reverse unit
propagation (`rup`), redundance based strengthening (`red`) and deletion (`del`). Everything is computable.

A constraint is kept as a linear inequality over the variables, `sum of a_v * x_v >= deg` with 0-1 variables; a
negated literal is `1 - x`. VeriPB's normalized form, over literals with positive coefficients, has the degree
`deg + sum of |a_v| over negative a_v`. Saturation, division and weakening refer to the normalized form.
-/
namespace RustSat
namespace VeriPb
open Pigeons

/-- A linear inequality: variables with coefficients, in increasing order of the variables and without zero
coefficients, and the degree. -/
structure Ineq where
  terms : List (Nat × Int)
  deg : Int
deriving DecidableEq, Repr

/-- The value of a variable as a number. -/
def bit (b : Asg) (v : Nat) : Int := if b v then 1 else 0

/-- The value of a linear form. -/
def lin (b : Asg) : List (Nat × Int) → Int
  | [] => 0
  | (v, a) :: ts => a * bit b v + lin b ts

/-- By how much an inequality is exceeded. -/
def Ineq.slack (d : Ineq) (b : Asg) : Int := lin b d.terms - d.deg

/-- An inequality is satisfied. -/
def Ineq.sat (d : Ineq) (b : Asg) : Prop := 0 ≤ d.slack b

/-- Adding a term to a sorted list of terms. -/
def addTerm (v : Nat) (a : Int) : List (Nat × Int) → List (Nat × Int)
  | [] => if a = 0 then [] else [(v, a)]
  | (w, c) :: ts =>
    if v < w then (if a = 0 then (w, c) :: ts else (v, a) :: (w, c) :: ts)
    else if v = w then (if a + c = 0 then ts else (w, a + c) :: ts)
    else (w, c) :: addTerm v a ts

/-- Adding lists of terms. -/
def addTerms (ts : List (Nat × Int)) : List (Nat × Int) → List (Nat × Int)
  | [] => ts
  | (v, a) :: us => addTerm v a (addTerms ts us)

/-- The sum of the absolute values of the negative coefficients. -/
def negSum : List (Nat × Int) → Int
  | [] => 0
  | (_, a) :: ts => (if a < 0 then -a else 0) + negSum ts

/-- The degree of the normalized form. -/
def Ineq.norm (d : Ineq) : Int := d.deg + negSum d.terms

/-- `0 >= 0`. -/
def Ineq.trivial : Ineq := ⟨[], 0⟩
/-- The axiom `literal >= 0`. -/
def Ineq.axiom (l : Lit) : Ineq := if l.isNeg then ⟨[(l.var, -1)], -1⟩ else ⟨[(l.var, 1)], 0⟩
/-- Addition. -/
def Ineq.add (c d : Ineq) : Ineq := ⟨addTerms c.terms d.terms, c.deg + d.deg⟩
/-- Multiplication by a number. -/
def Ineq.mul (d : Ineq) (k : Int) : Ineq :=
  if k = 0 then .trivial else ⟨d.terms.map fun t => (t.1, k * t.2), k * d.deg⟩
/-- Division by a positive number, rounding up in the normalized form. -/
def Ineq.div (d : Ineq) (k : Nat) : Ineq :=
  let ts : List (Nat × Int) := d.terms.map fun t => (t.1, if t.2 < 0 then t.2 / (k : Int) else -((-t.2) / (k : Int)))
  ⟨ts, -((-d.norm) / (k : Int)) - negSum ts⟩
/-- Saturation: no coefficient of the normalized form exceeds the degree. -/
def Ineq.saturate (d : Ineq) : Ineq :=
  if d.norm ≤ 0 then ⟨[], d.norm⟩
  else
    let ts := d.terms.map fun t => (t.1, max (-d.norm) (min d.norm t.2))
    ⟨ts, d.norm - negSum ts⟩
/-- Weakening: removing a variable from the normalized form, reducing the degree by its coefficient. -/
def Ineq.weaken (d : Ineq) (v : Nat) : Ineq :=
  ⟨d.terms.filter fun t => t.1 ≠ v, d.deg - (((d.terms.filter fun t => t.1 = v).map fun t => max 0 t.2).sum)⟩
/-- The negation of an inequality over the integers. -/
def Ineq.neg (d : Ineq) : Ineq := ⟨d.terms.map fun t => (t.1, -t.2), -d.deg + 1⟩
/-- `sum of coefficients times literals >= rhs` as a linear inequality over the variables. -/
def ofConstr (c : Constr) : Ineq :=
  c.sum.foldr (fun t d =>
    if t.2.isNeg then ⟨addTerm t.2.var (-t.1) d.terms, d.deg - t.1⟩ else ⟨addTerm t.2.var t.1 d.terms, d.deg⟩)
    ⟨[], c.rhs⟩

/-- The constraint after replacing a variable by a value. -/
def Ineq.fix (d : Ineq) (v : Nat) (x : Bool) : Ineq :=
  ⟨d.terms.filter fun t => t.1 ≠ v,
    d.deg - (if x then ((d.terms.filter fun t => t.1 = v).map fun t => t.2).sum else 0)⟩

/-- The constraint under a substitution. -/
def Ineq.subst (d : Ineq) (w : List (Nat × Bool)) : Ineq := w.foldl (fun d s => d.fix s.1 s.2) d

/-- An inequality follows from another one by adding literal axioms. -/
def implies (c d : Ineq) : Bool := decide ((d.add (c.mul (-1))).norm ≤ 0)

/-- The state of the checker: the constraints by their ids, and the next id. -/
structure State where
  db : List (Nat × Ineq)
  next : Nat
deriving DecidableEq, Repr

/-- The constraint with an id. -/
def State.get (s : State) (id : Nat) : Option Ineq := s.db.lookup id

/-- All constraints. -/
def State.constrs (s : State) : List Ineq := s.db.map (·.2)

/-- A new constraint gets the next id. -/
def State.push (s : State) (d : Ineq) : State := ⟨(s.next, d) :: s.db, s.next + 1⟩

/-- All constraints of the checker are satisfied. -/
def State.sat (s : State) (b : Asg) : Prop := ∀ d ∈ s.constrs, d.sat b

/-- One operation of a `pol` line on the stack. -/
def evalOp (s : State) (stack : List Ineq) : Op → Option (List Ineq)
  | .id n => (s.get n).map (· :: stack)
  | .ax l => some (Ineq.axiom l :: stack)
  | .add => match stack with | d :: c :: rest => some (c.add d :: rest) | _ => none
  | .mult k => match stack with | d :: rest => if k = 0 then none else some (d.mul k :: rest) | _ => none
  | .div k => match stack with | d :: rest => if k = 0 then none else some (d.div k :: rest) | _ => none
  | .sat => match stack with | d :: rest => some (d.saturate :: rest) | _ => none
  | .weak =>
    match stack with
    | x :: d :: rest => match x.terms, x.deg with | [(v, 1)], 0 => some (d.weaken v :: rest) | _, _ => none
    | _ => none

/-- The operations of a `pol` line, in reverse polish notation. -/
def evalOps (s : State) : Ops → List Ineq → Option (List Ineq)
  | [], stack => some stack
  | op :: ops, stack => match evalOp s stack op with | none => none | some stack => evalOps s ops stack

/-- A partial assignment. -/
abbrev Partial := List (Nat × Bool)

/-- The largest possible value of a linear form. -/
def maxLin (p : Partial) : List (Nat × Int) → Int
  | [] => 0
  | (v, a) :: ts => (match p.lookup v with | some x => if x then a else 0 | none => max 0 a) + maxLin p ts

/-- By how much an inequality can be exceeded. -/
def Ineq.maxSlack (d : Ineq) (p : Partial) : Int := maxLin p d.terms - d.deg

/-- The literals propagated by an inequality: unassigned variables whose coefficient exceeds the slack. -/
def Ineq.units (d : Ineq) (p : Partial) : Partial :=
  (d.terms.filter fun t => (p.lookup t.1).isNone && decide (d.maxSlack p < t.2.natAbs)).map fun t => (t.1, decide (0 < t.2))

/-- Unit propagation leads to a conflict. -/
def conflict (cs : List Ineq) : Nat → Partial → Bool
  | 0, _ => false
  | fuel + 1, p =>
    if cs.any fun d => decide (d.maxSlack p < 0) then true
    else
      match cs.findSome? fun d => (d.units p).head? with
      | none => false
      | some u => conflict cs fuel (u :: p)

/-- The number of terms, an upper bound on the number of propagations. -/
def nTerms (cs : List Ineq) : Nat := (cs.map fun d => d.terms.length).sum

/-- Collecting the constraints with the given ids. -/
def State.getAll (s : State) : List Nat → Option (List Ineq)
  | [] => some []
  | id :: ids =>
    match s.get id, s.getAll ids with
    | some d, some ds => some (d :: ds)
    | _, _ => none

/-- The constraint follows by reverse unit propagation from the constraints given as hints, or from all if there are
none. -/
def rupOk (s : State) (d : Ineq) (hints : List Nat) : Bool :=
  match if hints = [] then some s.constrs else s.getAll hints with
  | none => false
  | some cs => conflict (d.neg :: cs) (nTerms (d.neg :: cs) + 1) []

/-- The proof obligations of a redundance step are obvious: every constraint under the substitution follows by adding
literal axioms to nothing, to the negated new constraint, or to a constraint. -/
def redOk (s : State) (d : Ineq) (w : List (Nat × Bool)) : Bool :=
  (d :: s.constrs).all fun e => (.trivial :: d.neg :: s.constrs).any fun c => implies c (e.subst w)

/-- Checking a line. -/
def step (s : State) : Line → Option State
  | .pol ops => match evalOps s ops [] with | some [d] => some (s.push d) | _ => none
  | .rup c hints => if rupOk s (ofConstr c) hints then some (s.push (ofConstr c)) else none
  | .red c w => if redOk s (ofConstr c) w then some (s.push (ofConstr c)) else none
  | .del ids =>
    if ids.all fun id => (s.get id).isSome then some { s with db := s.db.filter fun x => !ids.contains x.1 } else none

/-- Checking a proof. -/
def run (s : State) : List Line → Option State
  | [] => some s
  | l :: ls => match step s l with | none => none | some s => run s ls

/-- The start: the constraints of the input formula are numbered from one. -/
def start (cs : List Constr) : State :=
  ⟨(cs.zipIdx 1).map fun x => (x.2, ofConstr x.1), cs.length + 1⟩

end VeriPb
end RustSat
