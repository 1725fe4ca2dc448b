import Verif.Model.CadicalApi
/-
What the calls of the CaDiCaL wrapper are supposed to do, and which histories of calls are considered.
-/
namespace RustSat.CadicalApi

/-- What a correct search may answer for a problem. -/
def Answer.Right (a : Answer) (P : ClauseSet) : Prop :=
  match a with
  | .sat m => ClauseSet.sat m P
  | .unsat _ _ => ¬ ∃ m, ClauseSet.sat m P
  | .unknown | .oom => True

/-- A call of the wrapper. `k`, `mem` and `Answer.oom` say when memory runs out; the answers are those of the search. -/
inductive Op where
  | addClause (k : Option Nat) (c : Clause)
  | addTmp (k : Option Nat) (c : Clause)
  | reserve (mem : Bool) (v : Nat)
  | solve (a : Answer)
  | solveAssumps (k : Option Nat) (A : List Lit) (a : Answer)
  | simplify (rounds : Nat) (a : Answer)
  | simplifyAssumps (k : Option Nat) (A : List Lit) (rounds : Nat) (a : Answer)
  | propagate (k : Option Nat) (A : List Lit) (a : Answer)
  | litVal (x : Lit)
  | core
  | tmpInCore
  | flip (x : Lit) (m : Option Asg)
  | flippable (x : Lit) (r : Bool)
  | phase
  | quiet
  | setOption (output : Bool)
  | traceProof
  | freeze (v : Nat)
  | melt (v : Nat)
  | isFrozen (v : Nat)
  | setConfiguration
  | limit (n : Option Nat)
  | declareMore (n : Nat)

/-- What a call returns. -/
inductive Reply where
  | unit
  | result (r : SolverResult)
  | val (v : TernaryVal)
  | lits (c : List Lit)
  | bool (b : Bool)
  | num (n : Nat)
deriving DecidableEq, Repr

/-- The same outcome with another type of value. -/
def Out.map {α β : Type} (f : α → β) : Out α → Out β
  | .broken => .broken
  | .ret (.ok a) w => .ret (.ok (f a)) w
  | .ret (.error e) w => .ret (.error e) w

/-- The outcome of a call. -/
def Wrapper.call (w : Wrapper) : Op → Out Reply
  | .addClause k c => (w.addClause k c).map fun _ => .unit
  | .addTmp k c => (w.addTmp k c).map fun _ => .unit
  | .reserve mem v => (w.reserve mem v).map fun _ => .unit
  | .solve a => (w.solve a).map .result
  | .solveAssumps k A a => (w.solveAssumps k A a).map .result
  | .simplify n a => (w.simplify n a).map .result
  | .simplifyAssumps k A n a => (w.simplifyAssumps k A n a).map .result
  | .propagate k A a => (w.propagate k A a).map .bool
  | .litVal x => (w.litVal x).map .val
  | .core => w.core.map .lits
  | .tmpInCore => w.tmpInCore.map .bool
  | .flip _ m => (w.flip m).map .bool
  | .flippable _ r => (w.flippable r).map .bool
  | .phase => (w.plain Lib.phase).map fun _ => .unit
  | .quiet => (w.plain Lib.quiet).map fun _ => .unit
  | .setOption o => (w.plain (Lib.set · o)).map fun _ => .unit
  | .traceProof => (w.plain Lib.configure).map fun _ => .unit
  | .freeze v => (w.plain (Lib.freeze · v)).map fun _ => .unit
  | .melt v => (w.plain (Lib.melt · v)).map fun _ => .unit
  | .isFrozen v => (w.isFrozen v).map .bool
  | .setConfiguration => w.setConfiguration.map fun _ => .unit
  | .limit n => (w.limit n).map fun _ => .unit
  | .declareMore n => (w.declareMore n).map .num

/-- Calls that the wrapper lets through although the library forbids them, and losses of memory that leave the library and
the wrapper in different states, are left out: options and proofs are set in the state `Configuring`, variables are melted
if they are frozen, variables are declared in the state `Input`, memory does not run out within a clause or a search, and
while assumptions are passed only in the state `Input` (or in `propagate`). -/
def Allowed (w : Wrapper) : Op → Prop
  | .addClause k _ | .addTmp k _ => k = none ∨ k = some 0
  | .solve a | .simplify _ a => a matches .oom → False
  | .solveAssumps k _ a | .simplifyAssumps k _ _ a => (a matches .oom → False) ∧ (k = none ∨ w.state = .input)
  | .setOption o => o = true ∨ w.state = .configuring
  | .traceProof => w.state = .configuring
  | .melt v => v ∈ w.lib.frozen
  | .declareMore _ => w.state = .input
  | _ => True

/-- Histories of allowed calls; answers of searches are arbitrary. -/
inductive Reach : Wrapper → Prop
  | new : Reach {}
  | step {w w' : Wrapper} {r : Except ApiErr Reply} (op : Op) :
    Reach w → Allowed w op → w.call op = .ret r w' → Reach w'

/-- Memory does not run out in this call. -/
def Enough : Op → Prop
  | .addClause k _ | .addTmp k _ => k = none
  | .reserve mem _ => mem = true
  | .solve a | .simplify _ a => a matches .oom → False
  | .solveAssumps k _ a | .simplifyAssumps k _ _ a | .propagate k _ a => k = none ∧ (a matches .oom → False)
  | _ => True

/-- The problem that a query of the user is about, if `F` are the clauses added and `t` is the temporary clause. -/
def query (F : ClauseSet) (t : Option Clause) (A : List Lit) : ClauseSet := F ++ t.toList ++ A.map fun x => [x]

/-- The library is correct: its searches answer right for the problem that the library has, and flipping a literal gives
another model of the clauses in which the literal has the other value. -/
def RightCall (w : Wrapper) : Op → Prop
  | .solve a | .simplify _ a => a.Right w.lib.toSteady.problem
  | .solveAssumps _ A a | .simplifyAssumps _ A _ a | .propagate _ A a =>
    a.Right { w.lib.toSteady with assumps := w.lib.toSteady.assumps ++ A }.problem
  | .flip x (some m) => ClauseSet.sat m w.lib.clauses ∧ x.holds m = !x.holds w.lib.model
  | _ => True

/-- The clauses added so far, and the temporary clause that is in effect for the next query, after a call. -/
def told (F : ClauseSet) (t : Option Clause) (w : Wrapper) : Op → ClauseSet × Option Clause
  | .addClause _ c => (F ++ [c], t)
  | .addTmp _ c => (F, some c)
  | .solve _ => if w.state = .sat ∨ w.state = .unsat [] then (F, t) else (F, none)
  | .solveAssumps _ _ _ => (F, none)
  | .simplify n _ | .simplifyAssumps _ _ n _ =>
    if w.state = .configuring ∨ w.state = .input then (F, if (n : Int) ≤ i32Max then none else t) else (F, t)
  | .propagate _ _ _ => (F, none)
  | _ => (F, t)

/-- Histories of allowed calls with enough memory and a correct library; with the clauses added so far and the temporary
clause for the next query. -/
inductive Told : Wrapper → ClauseSet → Option Clause → Prop
  | new : Told {} [] none
  | step {w w' : Wrapper} {F : ClauseSet} {t : Option Clause} {r : Except ApiErr Reply} (op : Op) :
    Told w F t → Allowed w op → Enough op → RightCall w op → w.call op = .ret r w' →
    Told w' (told F t w op).1 (told F t w op).2

/-- What a sequence of calls returns; `none` if a contract of the library is broken. -/
def run (w : Wrapper) : List Op → Option (List (Except ApiErr Reply) × Wrapper)
  | [] => some ([], w)
  | op :: ops =>
    match w.call op with
    | .broken => none
    | .ret r w' => (run w' ops).map fun x => (r :: x.1, x.2)

/-- The library is correct throughout a sequence of calls. -/
def RightRun (w : Wrapper) : List Op → Prop
  | [] => True
  | op :: ops => RightCall w op ∧ ∀ r w', w.call op = .ret r w' → RightRun w' ops

end RustSat.CadicalApi
