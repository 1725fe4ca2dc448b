import Verif.Model.Bindings
import Verif.Spec.Solvers
/-
Specification of solver libraries, as their documentation describes them, and of the histories of calls of the wrappers.
-/
namespace RustSat

/-- The literal fits a `c_int`. -/
def Lit.InRange (l : Lit) : Prop := (l.var : Int) + 1 ≤ i32Max

instance (l : Lit) : Decidable l.InRange := inferInstanceAs (Decidable (_ ≤ _))

/-- Unit clauses. -/
def units (A : List Lit) : ClauseSet := A.map fun l => [l]

/-- What a library has been told: clauses, the literals of a clause that is not terminated yet, assumptions for the next
query, a clause for the next query only, and the literals of such a clause that is not terminated yet. -/
structure LibView where
  clauses : ClauseSet := []
  pending : Clause := []
  assumps : List Lit := []
  tmp : Option Clause := none
  tmpPending : Clause := []

/-- The formula of the next query. -/
def LibView.formula (w : LibView) : ClauseSet := w.clauses ++ w.tmp.toList ++ units w.assumps

/-- The assignment has the given values. -/
def Extends (p : Nat → Option Bool) (m : Asg) : Prop := ∀ v b, p v = some b → m v = b

/-- The values that a function `val` of a library returns for literals as integers are those of a partial assignment all
completions of which satisfy the formula. For a variable without value, 0 is returned, or -1 if `minusOne`. -/
def ReportsModel (val : Int → Int) (minusOne : Prop) (F : ClauseSet) : Prop :=
  ∃ p : Nat → Option Bool,
    (∀ v b, p v = some b → (Lit.pos v).InRange) ∧
    (∀ (l : Lit) z, l.cInt = some z →
      (∀ b, p l.var = some b → val z = if b = l.isNeg then -z else z) ∧
      (p l.var = none → val z = 0 ∨ (minusOne ∧ val z = -1))) ∧
    ∀ m, Extends p m → ClauseSet.sat m F

/-- A correct IPASIR library: `view` is what it has been told. The results of a query are right and the assumptions are
gone after it; if the formula is unsatisfiable then `failed` tells assumptions (`core`) that are sufficient for that
together with the clauses, and possibly with the temporary clause (`coreTmp`). -/
class LawfulIpasir (H : Type) [Ipasir H] where
  view : H → LibView
  minusOne : Prop
  core : H → List Lit
  coreTmp : H → Bool
  init : view (Ipasir.init : H) = {}
  addLit : ∀ (h : H) l z, Lit.cInt l = some z → view (Ipasir.add h z) = { view h with pending := (view h).pending ++ [l] }
  addEnd : ∀ h : H, view (Ipasir.add h 0) =
    { view h with clauses := (view h).clauses ++ [(view h).pending], pending := [] }
  assume : ∀ (h : H) l z, Lit.cInt l = some z → view (Ipasir.assume h z) = { view h with assumps := (view h).assumps ++ [l] }
  solveResult : ∀ h : H, (Ipasir.solve h).1 = 0 ∨ (Ipasir.solve h).1 = 10 ∨ (Ipasir.solve h).1 = 20
  solveView : ∀ h : H, view (Ipasir.solve h).2 = { view h with assumps := [], tmp := none }
  solveSat : ∀ h : H, (Ipasir.solve h).1 = 10 → ReportsModel (Ipasir.val (Ipasir.solve h).2) minusOne (view h).formula
  solveUnsat : ∀ h : H, (Ipasir.solve h).1 = 20 →
    (∀ a ∈ core (Ipasir.solve h).2, a ∈ (view h).assumps) ∧
    Unsatisfiable ((view h).clauses ++ (if coreTmp (Ipasir.solve h).2 then (view h).tmp.toList else []) ++
      units (core (Ipasir.solve h).2))
  failed : ∀ h : H, (Ipasir.solve h).1 = 20 → ∀ a ∈ (view h).assumps, ∀ z, Lit.cInt a = some z →
    Ipasir.failed (Ipasir.solve h).2 z = if a ∈ core (Ipasir.solve h).2 then 1 else 0

/-- The literal holds in all models of the formula. -/
def Implies (F : ClauseSet) (l : Lit) : Prop := ∀ m, ClauseSet.sat m F → l.holds m = true

/-- A correct library with the functions of CaDiCaL. If there is no temporary clause then propagation reports only literals
that follow from the clauses and the assumptions. (If there is one, CaDiCaL picks one of its literals and propagates this
literal as well: cadical/vendor/src/decide.cpp l.237-305.) -/
class LawfulCadical (H : Type) [Cadical H] extends LawfulIpasir H where
  constrainLit : ∀ (h : H) l z, Lit.cInt l = some z →
    view (Cadical.constrain h z) = { view h with tmpPending := (view h).tmpPending ++ [l] }
  constrainEnd : ∀ h : H, view (Cadical.constrain h 0) = { view h with tmp := some (view h).tmpPending, tmpPending := [] }
  constraintFailed : ∀ h : H, (Ipasir.solve h).1 = 20 →
    Cadical.constraintFailed (Ipasir.solve h).2 = if coreTmp (Ipasir.solve h).2 then 1 else 0
  resize : ∀ (h : H) z, view (Cadical.resize h z) = view h
  simplifyResult : ∀ (h : H) k, (Cadical.simplify h k).1 = 0 ∨ (Cadical.simplify h k).1 = 10 ∨ (Cadical.simplify h k).1 = 20
  simplifyView : ∀ (h : H) k, view (Cadical.simplify h k).2 = { view h with assumps := [], tmp := none }
  simplifySat : ∀ (h : H) k, (Cadical.simplify h k).1 = 10 →
    ReportsModel (Ipasir.val (Cadical.simplify h k).2) minusOne (view h).formula
  simplifyUnsat : ∀ (h : H) k, (Cadical.simplify h k).1 = 20 → Unsatisfiable (view h).formula
  propagateResult : ∀ h : H, (Cadical.propagate h).1 = 0 ∨ (Cadical.propagate h).1 = 10 ∨ (Cadical.propagate h).1 = 20
  propagateView : ∀ h : H, view (Cadical.propagate h).2 = { view h with assumps := [], tmp := none }
  propagateSat : ∀ h : H, (Cadical.propagate h).1 = 10 →
    ReportsModel (Ipasir.val (Cadical.propagate h).2) minusOne (view h).formula
  propagateUnsat : ∀ h : H, (Cadical.propagate h).1 = 20 → Unsatisfiable (view h).formula
  implied : ∀ h : H, (Cadical.propagate h).1 ≠ 20 → ∀ z ∈ Cadical.implied (Cadical.propagate h).2,
    ∃ l, Lit.cInt l = some z ∧ ((view h).tmp = none → Implies (view h).formula l)

/-- The state of the wrapper fits the result of the last query. -/
def StateAfter : SolverResult → NState → Prop
  | .sat, s => s = .sat
  | .unsat, s => ∃ core, s = .unsat core
  | .interrupted, s => s = .input

/-- The wrapper of an IPASIR library after any history of successful operations in which the clauses `F` were added. -/
inductive IpasirReach {H : Type} [Ipasir H] : Native H → ClauseSet → Prop where
  | new : IpasirReach Native.new []
  | add {n F c n'} : IpasirReach n F → n.addClause c = some n' → IpasirReach n' (F ++ [c])
  | solve {n F r n'} : IpasirReach n F → n.solve = (.ok r, n') → IpasirReach n' F
  | assumps {n F A r n'} : IpasirReach n F → n.solveAssumps A = (.ok r, n') → IpasirReach n' F

/-- The wrapper of CaDiCaL after a history of successful operations in which the clauses `F` were added; `tmp` is the
temporary clause for the next query, `used` the temporary clause of the last one. Some uses are excluded:
* `solve` or `simplify` after `Unsat` of a query with a temporary clause,
* `simplify` after `Unsat` with assumptions in the core,
* `simplify_assumps` after `Sat` or `Unsat`, and anything after `simplify_assumps` returned `Unsat`. -/
inductive CadicalReach {H : Type} [Cadical H] : Native H → ClauseSet → Option Clause → Option Clause → Prop where
  | new : CadicalReach Native.new [] none none
  | add {n F t u c n'} : CadicalReach n F t u → n.addClause c = some n' → CadicalReach n' (F ++ [c]) t u
  | reserve {n F t u v n'} : CadicalReach n F t u → n.reserve v = some n' → CadicalReach n' F t u
  | addTmp {n F t u c n'} : CadicalReach n F t u → n.addTmp c = some n' → CadicalReach n' F (some c) u
  | solve {n F t u r n'} : CadicalReach n F t u → (∀ core, n.state = .unsat core → u = none) →
      n.solve = (.ok r, n') → CadicalReach n' F none t
  | assumps {n F t u A r n'} : CadicalReach n F t u → n.solveAssumps A = (.ok r, n') → CadicalReach n' F none t
  | simplify {n F t u k r n'} : CadicalReach n F t u → (∀ core, n.state = .unsat core → core = [] ∧ u = none) →
      n.simplify k = (.ok r, n') → CadicalReach n' F none t
  | propagate {n F t u A r n'} : CadicalReach n F t u → n.propagate A = (.ok r, n') → CadicalReach n' F none t
  | simplifyAssumps {n F t u A k r n'} : CadicalReach n F t u → n.state ≠ .sat → (∀ core, n.state ≠ .unsat core) →
      r ≠ .unsat → n.simplifyAssumps A k = (.ok r, n') → CadicalReach n' F none t

/-! ### Kissat -/

/-- `EXTERNAL_MAX_VAR` (kissat/vendor/src/literal.h l.6-9): Kissat aborts for larger variables, wherever it reads a literal
(kissat/vendor/src/require.h l.19-28). -/
def kissatMaxVar : Nat := 1073741823

/-- A correct library with the interface of Kissat: it may be used for one query only. -/
class LawfulKissat (H : Type) [KissatLib H] where
  view : H → LibView
  searched : H → Bool
  init : view (KissatLib.init : H) = {} ∧ searched (KissatLib.init : H) = false
  addLit : ∀ (h : H) l z, Lit.cInt l = some z → z.natAbs ≤ kissatMaxVar → searched h = false →
    ∃ h', KissatLib.add h z = some h' ∧
    searched h' = false ∧ view h' = { view h with pending := (view h).pending ++ [l] }
  addEnd : ∀ h : H, searched h = false → ∃ h', KissatLib.add h 0 = some h' ∧ searched h' = false ∧
    view h' = { view h with clauses := (view h).clauses ++ [(view h).pending], pending := [] }
  addAborts : ∀ (h : H) z, searched h = true ∨ kissatMaxVar < z.natAbs → KissatLib.add h z = none
  reserve : ∀ (h : H) z, 0 ≤ z → z.natAbs ≤ kissatMaxVar →
    ∃ h', KissatLib.reserve h z = some h' ∧ view h' = view h ∧ searched h' = searched h
  reserveAborts : ∀ (h : H) z, kissatMaxVar < z.natAbs → KissatLib.reserve h z = none
  solve : ∀ h : H, searched h = false → ∃ r h', KissatLib.solve h = some (r, h') ∧ (r = 0 ∨ r = 10 ∨ r = 20) ∧
    searched h' = true ∧ view h' = view h
  solveAborts : ∀ h : H, searched h = true → KissatLib.solve h = none
  solveSat : ∀ h h' : H, KissatLib.solve h = some (10, h') →
    ReportsModel (fun z => (KissatLib.val h' z).getD 0) False (view h).clauses
  solveUnsat : ∀ h h' : H, KissatLib.solve h = some (20, h') → Unsatisfiable (view h).clauses
  val : ∀ (h : H) z, KissatLib.val h z = none ↔ kissatMaxVar < z.natAbs

/-- The wrapper of Kissat after a history in which the clauses `F` were added. `over`: a call of `solve` was interrupted,
and nothing is called after that. `reserve` is excluded after `Sat` and `Unsat`. -/
inductive KissatReach {H : Type} [KissatLib H] : Native H → ClauseSet → Bool → Prop where
  | new : KissatReach Kissat.new [] false
  | add {n F c n'} : KissatReach n F false → Kissat.addClause n c = (.ok (), n') → KissatReach n' (F ++ [c]) false
  | addErr {n F c e n'} : KissatReach n F false → Kissat.addClause n c = (.err e, n') → KissatReach n' F false
  | reserve {n F v n'} : KissatReach n F false → n.state ≠ .sat → (∀ core, n.state ≠ .unsat core) →
      Kissat.reserve n v = some n' → KissatReach n' F false
  | solve {n F r n'} : KissatReach n F false → Kissat.solve n = (.ok r, n') → KissatReach n' F (decide (r = .interrupted))

/-! ### MiniSat and Glucose -/

/-- The ternary value of an entry of a partial assignment. -/
def ternary : Option Bool → TernaryVal
  | some true => .true
  | some false => .false
  | none => .dontCare

/-- A correct solver of the kind of MiniSat. `vars h` is the number of variables of the last model, `known h` the
number of variables of the solver. Propagation reports only literals that follow from the clauses and the assumptions, if
the solver knows the variables of the assumptions. -/
class LawfulMini (H : Type) [MiniLib H] where
  clauses : H → ClauseSet
  vars : H → Nat
  known : H → Nat
  init : clauses (MiniLib.init : H) = []
  addClause : ∀ (h : H) c, clauses (MiniLib.addClause h c) = clauses h ++ [c]
  reserve : ∀ (h : H) v, clauses (MiniLib.reserve h v) = clauses h ∧ MiniLib.value (MiniLib.reserve h v) = MiniLib.value h ∧
    MiniLib.conflict (MiniLib.reserve h v) = MiniLib.conflict h
  solveClauses : ∀ (h : H) A, clauses (MiniLib.solve h A).2 = clauses h
  solveResult : ∀ (h : H) A, (MiniLib.solve h A).1 = 0 ∨ (MiniLib.solve h A).1 = 10 ∨ (MiniLib.solve h A).1 = 20
  solveSat : ∀ (h : H) A, (MiniLib.solve h A).1 = 10 → ∃ p : Nat → Option Bool,
    (∀ v, MiniLib.value (MiniLib.solve h A).2 v = if v < vars (MiniLib.solve h A).2 then some (ternary (p v)) else none) ∧
    (∀ c ∈ clauses h, ∀ l ∈ c, l.var < vars (MiniLib.solve h A).2) ∧
    (∀ l ∈ A, l.var < vars (MiniLib.solve h A).2) ∧
    ∀ m, Extends p m → ClauseSet.sat m (clauses h ++ units A)
  solveUnsat : ∀ (h : H) A, (MiniLib.solve h A).1 = 20 → Unsatisfiable (clauses h ++ units A) ∧
    (∀ l ∈ MiniLib.conflict (MiniLib.solve h A).2, l.neg ∈ A) ∧
    ∀ m, ClauseSet.sat m (clauses h) → Clause.sat m (MiniLib.conflict (MiniLib.solve h A).2)
  knownAdd : ∀ (h : H) c, known h ≤ known (MiniLib.addClause h c) ∧ ∀ l ∈ c, l.var < known (MiniLib.addClause h c)
  knownReserve : ∀ (h : H) v, known h ≤ known (MiniLib.reserve h v) ∧ v < known (MiniLib.reserve h v)
  knownSolve : ∀ (h : H) A, known h ≤ known (MiniLib.solve h A).2 ∧ ∀ l ∈ A, l.var < known (MiniLib.solve h A).2
  propTotal : ∀ (h : H) A s, (∀ l ∈ A, l.var < known h) → ∃ r, MiniLib.propCheck h A s = some r
  propResult : ∀ (h : H) A s r ls h', MiniLib.propCheck h A s = some (r, ls, h') →
    clauses h' = clauses h ∧ known h' = known h ∧ (r = 10 ∨ r = 20) ∧ (r = 20 → Unsatisfiable (clauses h ++ units A)) ∧
    ∀ l ∈ ls, Implies (clauses h ++ units A) l

/-- The wrapper of MiniSat or Glucose after any history of operations in which the clauses `F` were added. -/
inductive MiniReach {H : Type} [MiniLib H] : Mini H → ClauseSet → Prop where
  | new : MiniReach Mini.new []
  | add {n F} (c : Clause) : MiniReach n F → MiniReach (n.addClause c) (F ++ [c])
  | reserve {n F} (v : Nat) : MiniReach n F → MiniReach (n.reserve v) F
  | solve {n F r n'} : MiniReach n F → n.solve = (.ok r, n') → MiniReach n' F
  | assumps {n F A r n'} : MiniReach n F → n.solveAssumps A = (.ok r, n') → MiniReach n' F
  | propagate {n F A s r n'} : MiniReach n F → n.propagate A s = (.ok r, n') → MiniReach n' F

/-! ### Callbacks -/

/-- The calls that register and remove callbacks. -/
inductive CbOp where
  | attachTerminator
  | detachTerminator
  | attachLearner (maxLen : Nat)
  | detachLearner

/-- The effect of a call. -/
def CbOp.run : CbOp → Callbacks → Callbacks
  | .attachTerminator, s => s.attachTerminator
  | .detachTerminator, s => s.detachTerminator
  | .attachLearner k, s => (s.attachLearner k).2
  | .detachLearner, s => s.detachLearner

/-- All pointers of the library point to callbacks that are still owned by the solver. -/
def Callbacks.Sound (s : Callbacks) : Prop :=
  (∀ i, s.terminatePtr = some i → s.terminateCb = some i) ∧ (∀ i, s.learnPtr = some i → s.learnerCb = some i)

/-- The state after a history of calls, the last one first. -/
def cbState : List CbOp → Callbacks
  | [] => {}
  | op :: before => op.run (cbState before)

/-- The number of callbacks attached in a history. -/
def cbCount : List CbOp → Nat
  | [] => 0
  | .attachTerminator :: before | .attachLearner _ :: before => cbCount before + 1
  | _ :: before => cbCount before

/-- The terminator that should be in effect after a history of calls, the last one first: the last one attached, unless it
was detached. Callbacks are numbered in the order in which they are attached. -/
def terminatorAfter : List CbOp → Option Nat
  | [] => none
  | .attachTerminator :: before => some (cbCount before)
  | .detachTerminator :: _ => none
  | _ :: before => terminatorAfter before

@[inherit_doc terminatorAfter]
def learnerAfter : List CbOp → Option Nat
  | [] => none
  | .attachLearner _ :: before => some (cbCount before)
  | .detachLearner :: _ => none
  | _ :: before => learnerAfter before

/-- The lengths of the clauses that learners want to see fit a `c_int`. -/
def LengthsFit (ops : List CbOp) : Prop := ∀ k, CbOp.attachLearner k ∈ ops → (k : Int) ≤ i32Max

/-- There is no call of `detach_learner` while there is a terminator. -/
def NoMixedDetach : List CbOp → Prop
  | [] => True
  | .detachLearner :: before => terminatorAfter before = none ∧ NoMixedDetach before
  | _ :: before => NoMixedDetach before

end RustSat
