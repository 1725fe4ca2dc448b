import Verif.Model.Capi
/-
What a C program sees of an encoder: the integers that were passed to its callback for clauses, its variable
`n_vars_used`, return codes and assumptions; and histories of calls.
-/
namespace RustSat
namespace Capi

/-- Truth of an integer literal, under an assignment to the variables 1, 2, … -/
def ctrue (m : Nat → Bool) (z : Int) : Bool := if 0 < z then m z.natAbs else !m z.natAbs

/-- Reading a sequence of integers as clauses that are terminated by zero; the second component is an unfinished
clause. -/
def readClauses : List Int → List (List Int) × List Int
  | [] => ([], [])
  | z :: zs =>
    let (cs, rest) := readClauses zs
    if z = 0 then ([] :: cs, rest)
    else match cs with
      | [] => ([], z :: rest)
      | c :: cs => ((z :: c) :: cs, rest)

/-- A sequence of integers is a list of complete clauses that are all true. -/
def logTrue (m : Nat → Bool) (log : List Int) : Prop :=
  (readClauses log).2 = [] ∧ ∀ c ∈ (readClauses log).1, ∃ z ∈ c, ctrue m z = true

/-- The weighted sum of true literals. -/
def csum (m : Nat → Bool) (ins : List (Int × Nat)) : Nat := (ins.map fun x => if ctrue m x.1 then x.2 else 0).sum

/-- The clauses in `log` and the assumptions `A` enforce a property of the weighted sum: it holds for every assignment
that makes all of them true, and every assignment with the property makes all of them true after changing variables in
`own` only. -/
def Enforces (log : List Int) (own : List Nat) (ins : List (Int × Nat)) (P : Nat → Prop) (A : List Int) : Prop :=
  (∀ m, logTrue m log → (∀ z ∈ A, ctrue m z = true) → P (csum m ins)) ∧
  (∀ a, P (csum a ins) → ∃ m, (∀ v, v ∉ own → m v = a v) ∧ logTrue m log ∧ ∀ z ∈ A, ctrue m z = true)

/-- The calls in a history. -/
inductive Call where
  | add (lit : Int) (weight : Nat)
  | reserve
  | encodeUb (lo hi : Nat)
  | encodeLb (lo hi : Nat)
  | setPrecision (divisor : Nat)
  /-- no call: the program sets its variable `n_vars_used` -/
  | useVars (n : Nat)
  /-- no call: the order of iteration of a hash map in the encoder changes -/
  | rehash (buffer : LitMap)

/-- The state of the system: the encoder, the variable `n_vars_used`, the clauses collected so far, and — as ghost state
— the input literals and weights accepted so far, the variables that encoding calls added, the bounds in the ranges of
calls since the last accepted literal, whether lower bounds were encoded, and the last accepted divisor. -/
structure World where
  obj : Obj
  nVars : Nat
  cls : ClauseSet
  ins : List (Int × Nat)
  own : List Nat
  ub : Nat → Prop
  lb : Nat → Prop
  lbUsed : Bool
  div : Nat

namespace World

/-- All integers that the callback was called with. -/
def log (w : World) : List Int := callbacks w.cls

/-- The input literals with the weights divided by the precision divisor (rounding down; 0 is the same as 1). -/
def weights (w : World) : List (Int × Nat) := w.ins.map fun x => (x.1, x.2 / max w.div 1)

/-- The sum of all weights. -/
def total (w : World) : Nat := (w.ins.map (·.2)).sum

/-- The state after an encoding call. -/
def encoded (w : World) (r : Option (Obj × Nat × ClauseSet)) (ub lb : Nat → Prop) (lbUsed : Bool) : Option World :=
  r.map fun x =>
    { w with obj := x.1, nVars := x.2.1, cls := x.2.2, own := w.own ++ List.range' (w.nVars + 1) (x.2.1 - w.nVars),
             ub := ub, lb := lb, lbUsed := lbUsed }

/-- The order of iteration of the hash map changes. -/
def rehashed : Obj → LitMap → Obj
  | .gte g, b => .gte { g with litBuffer := b }
  | .adder a, b => .adder { a with litBuffer := b }
  | o, _ => o

/-- Nothing was encoded yet by the dynamic polynomial watchdog. -/
def unbuilt (w : World) : Prop :=
  match w.obj with
  | .dpw e => e.structure_ = none
  | _ => True

/-- Performing a call; `none` if it panics. Changing the precision of an encoding makes the bounds that were encoded before
unavailable. -/
def step (bld : Build) (w : World) : Call → Option World
  | .add lit wt =>
    match w.obj.add lit wt with
    | (.ok, o) => some { w with obj := o, ins := w.ins ++ [(lit, wt)], ub := fun _ => False, lb := fun _ => False }
    | (_, o) => some { w with obj := o }
  | .reserve => w.encoded ((w.obj.reserve w.nVars).map fun x => (x.1, x.2, w.cls)) w.ub w.lb w.lbUsed
  | .encodeUb lo hi =>
    w.encoded (w.obj.encodeUb bld lo hi w.nVars w.cls) (fun b => w.ub b ∨ (lo ≤ b ∧ b ≤ hi)) w.lb w.lbUsed
  | .encodeLb lo hi =>
    w.encoded (w.obj.encodeLb bld lo hi w.nVars w.cls) w.ub (fun b => w.lb b ∨ (lo ≤ b ∧ b ≤ hi)) true
  | .setPrecision d =>
    match w.obj.setPrecision d with
    | (.ok, o) => some { w with obj := o, div := d, ub := fun b => w.ub b ∧ (w.unbuilt ∨ d = w.div) }
    | (_, o) => some { w with obj := o }
  | .useVars n => some { w with nVars := n }
  | .rehash b => some { w with obj := rehashed w.obj b }

/-- The input literals that a program may add: not on variables of the encoder, on used variables, with positive weights,
for the totalizer 1; for the dynamic polynomial watchdog only once. -/
def mayAdd (w : World) (lit : Int) (wt : Nat) : Prop :=
  lit.natAbs ≤ w.nVars ∧ lit.natAbs ∉ w.own ∧ 0 < wt ∧
  match w.obj with
  | .tot _ => wt = 1
  | .dpw _ => lit ∉ w.ins.map (·.1)
  | _ => True

/-- What a program has to respect. Zero may be added, which is an error. The precision can be chosen freely before anything
is encoded, up to the largest weight; later it can be increased by a factor of at least 2, `dpw_next_precision`. Calls of
`dpw_set_precision` that are refused are allowed. -/
def allowed (w : World) : Call → Prop
  | .add lit wt => lit = 0 ∨ w.mayAdd lit wt
  | .reserve => match w.obj with | .adder _ => False | _ => True
  | .encodeUb lo hi => lo ≤ hi ∧ hi < sizeMax ∧ (match w.obj with | .adder _ => w.lbUsed = false | _ => True)
  | .encodeLb lo hi => lo ≤ hi ∧ hi < sizeMax ∧ (match w.obj with | .tot _ => True | .adder _ => True | _ => False)
  | .setPrecision d =>
    match w.obj with
    | .dpw e => (e.structure_ = none ∧ (d ≤ 1 ∨ ∃ x ∈ w.ins, d ≤ x.2)) ∨ (w.obj.setPrecision d).1 ≠ .ok ∨ d = w.div ∨
        (e.isMaxPrecision = false ∧ 1 ≤ d ∧ d ≤ e.nextPrecision)
    | _ => False
  | .useVars n => w.nVars ≤ n
  | .rehash b =>
    match w.obj with
    | .gte g => b.Perm g.litBuffer
    | .adder a => b.Perm a.litBuffer
    | _ => False

/-- A new encoder. -/
def start (o : Obj) (n : Nat) : World := ⟨o, n, [], [], [], fun _ => False, fun _ => False, false, 0⟩

/-- The states reachable by a history of allowed calls. -/
inductive Reach (bld : Build) : World → Prop
  | start (o : Obj) (n : Nat) (h : o ∈ [Obj.totNew, Obj.gteNew, Obj.adderNew, Obj.dpwNew]) : Reach bld (start o n)
  | step (w w' : World) (c : Call) (h : Reach bld w) (ha : w.allowed c) (hs : w.step bld c = some w') : Reach bld w'

/-- The upper bounds for which the assumptions of an encoder can be relied on. -/
def ubSafe (w : World) (b : Nat) : Prop :=
  match w.obj with
  | .tot _ => True
  | .gte _ => True
  | .adder _ => w.ub b
  | .dpw _ => w.ub b ∧ (w.div ≤ 1 ∨ (2 ≤ w.ins.length ∧ b < w.total))

/-- The lower bounds for which the assumptions of an encoder can be relied on. -/
def lbSafe (w : World) (b : Nat) : Prop :=
  match w.obj with
  | .tot _ => True
  | _ => w.lb b ∧ ¬ w.ub (b - 1) ∧ b ≤ w.total

end World

/-- The literals of a history of `add` calls to an at-most-one encoder; integers that are refused are skipped. -/
def am1Adds (zs : List Int) : List Lit := zs.foldl (fun ls z => (am1Add ls z).2) []

end Capi
end RustSat
