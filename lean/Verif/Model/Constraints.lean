import Verif.Model.Assignment
import Verif.Spec.Sem
/-
Model of `src/types/constraints.rs`: clauses, cardinality constraints, pseudo-Boolean constraints.
-/
namespace RustSat

/-- `usize::MAX` on a 64-bit platform. -/
def usizeMax : Nat := 18446744073709551615
/-- `isize::MAX` on a 64-bit platform. -/
def isizeMax : Nat := 9223372036854775807

/-! ### Clauses -/
namespace Clause

/-- `Vec::dedup`: removes consecutive repeated elements (keeps the first of each run). -/
def dedupAdj : List Lit → List Lit
  | [] => []
  | [x] => [x]
  | x :: y :: rest => if x = y then dedupAdj (y :: rest) else x :: dedupAdj (y :: rest)

/-- The `try_for_each` loop of `normalize_in_place` (constraints.rs l.150-161); `negLast` is the closure's
captured variable. Returns true iff the loop returned `Err(())`. -/
def tautScan : Option Lit → List Lit → Bool
  | _, [] => false
  | negLast, l :: ls =>
    if negLast = some l then true else tautScan (some l.neg) ls

/-- `Clause::normalize` / `normalize_in_place` (constraints.rs l.127-163). `sort_unstable` is modelled by a
merge sort for the literal order; elements that compare equal are identical. -/
def normalize (c : Clause) : Option Clause :=
  if c.length ≤ 1 then some c
  else
    let d := dedupAdj (c.mergeSort Lit.le)
    if tautScan none d then none else some d

/-- Loop of `Clause::sanitize` (constraints.rs l.173-188): `lset` is the hash set, `kept` are the literals at
positions below `idx` and the last argument the literals from `idx` on. -/
def sanitizeLoop : List Lit → List Lit → List Lit → Option Clause
  | _, kept, [] => some kept
  | lset, kept, l :: ls =>
    if l.neg ∈ lset then none
    else if l ∈ lset then sanitizeLoop lset kept ls
    else sanitizeLoop (l :: lset) (kept ++ [l]) ls

/-- `Clause::sanitize` (constraints.rs l.168-189). -/
def sanitize (c : Clause) : Option Clause :=
  if c.length ≤ 1 then some c else sanitizeLoop [] [] c

/-- `Clause::add` (constraints.rs l.194-196). -/
def add (c : Clause) (l : Lit) : Clause := c ++ [l]

/-- `Vec::swap_remove(i)`: the removed position is filled with the last element. -/
def swapRemove (c : List Lit) (i : Nat) : List Lit :=
  match c.getLast? with
  | none => c
  | some x => (c.set i x).dropLast

/-- `Clause::remove` (constraints.rs l.200-208): `swap_remove` of the first occurrence. -/
def remove (c : Clause) (l : Lit) : Clause × Bool :=
  match c.findIdx? (· == l) with
  | some i => (swapRemove c i, true)
  | none => (c, false)

/-- Positions collected by the first loop of `remove_thorough` (constraints.rs l.212-217). -/
def occIdxs (l : Lit) : Nat → List Lit → List Nat
  | _, [] => []
  | i, x :: xs => if x = l then i :: occIdxs l (i + 1) xs else occIdxs l (i + 1) xs

/-- `Clause::remove_thorough` (constraints.rs l.211-222): removes the collected positions from the back. -/
def removeThorough (c : Clause) (l : Lit) : Clause × Bool :=
  let idxs := occIdxs l 0 c
  (idxs.reverse.foldl (fun c i => c.eraseIdx i) c, !idxs.isEmpty)

/-- The closure of `Cl::evaluate` (constraints.rs l.471-481). -/
def evalStep (a : Assignment) (val : TernaryVal) (l : Lit) : TernaryVal :=
  match a.litValue l with
  | .true => .true
  | .dontCare => if val = .false then .dontCare else val
  | .false => val

/-- `Cl::evaluate` (constraints.rs l.469-482). -/
def evaluate (c : Clause) (a : Assignment) : TernaryVal := c.foldl (evalStep a) .false

/-- `Cl::is_tautology` (constraints.rs l.486-498): the nested loops over `idx < len-1` and `idx+1..`. For the
last `idx` the inner loop is empty, so including it changes nothing. -/
def isTautology : Clause → Bool
  | [] => false
  | l1 :: rest => rest.any (fun l2 => l1 == l2.neg) || isTautology rest

/-- `Cl::is_unit` (constraints.rs l.508). -/
def isUnit (c : Clause) : Bool := c.length == 1
/-- `Cl::is_binary` (constraints.rs l.515). -/
def isBinary (c : Clause) : Bool := c.length == 2

end Clause

/-! ### Cardinality constraints -/

/-- `CardConstraint` (constraints.rs l.642-649) with the fields of `CardUbConstr`, `CardLbConstr` and
`CardEqConstr` (l.990-993, l.1052-1055, l.1120-1123) inlined. -/
inductive CardConstraint where
  | ub (lits : List Lit) (b : Nat)
  | lb (lits : List Lit) (b : Nat)
  | eq (lits : List Lit) (b : Nat)
deriving DecidableEq, Repr

namespace CardConstraint

/-- `CardConstraint::new_unit` (l.676-681). -/
def newUnit (l : Lit) : CardConstraint := .lb [l] 1
/-- `CardConstraint::into_lits`/`iter` (l.836, l.862). -/
def lits : CardConstraint → List Lit
  | ub l _ => l | lb l _ => l | eq l _ => l
/-- `CardConstraint::bound` (l.718-724). -/
def bound : CardConstraint → Nat
  | ub _ b => b | lb _ b => b | eq _ b => b
/-- `CardConstraint::len` (l.728-734). -/
def len (c : CardConstraint) : Nat := c.lits.length
/-- `CardConstraint::add` (l.708-714). -/
def add : CardConstraint → List Lit → CardConstraint
  | ub l b, ls => ub (l ++ ls) b | lb l b, ls => lb (l ++ ls) b | eq l b, ls => eq (l ++ ls) b
/-- `CardConstraint::set_bound` (l.758-764). -/
def setBound : CardConstraint → Nat → CardConstraint
  | ub l _, b => ub l b | lb l _, b => lb l b | eq l _, b => eq l b
/-- `CardConstraint::is_tautology` (l.768-774, l.1029-1031, l.1091-1093). -/
def isTautology : CardConstraint → Bool
  | ub l b => decide (b ≥ l.length) | lb _ b => b == 0 | eq _ _ => false
/-- `CardConstraint::is_unsat` (l.778-784, l.1097-1099, l.1161-1163). -/
def isUnsat : CardConstraint → Bool
  | ub _ _ => false | lb l b => decide (b > l.length) | eq l b => decide (b > l.length)
/-- `CardConstraint::is_positive_assignment` (l.788-794, l.1103-1105, l.1167-1169). -/
def isPositiveAssignment : CardConstraint → Bool
  | ub _ _ => false | lb l b => b == l.length | eq l b => b == l.length
/-- `CardConstraint::is_negative_assignment` (l.798-804, l.1035-1037, l.1173-1175). -/
def isNegativeAssignment : CardConstraint → Bool
  | ub _ b => b == 0 | lb _ _ => false | eq _ b => b == 0
/-- `CardConstraint::is_clause` (l.808-814, l.1041-1043, l.1109-1111). -/
def isClause : CardConstraint → Bool
  | ub l b => b + 1 == l.length | lb _ b => b == 1 | eq _ _ => false
/-- The `norm` closure of `CardConstraint::normalize` (l.820-825). -/
def normLits (l : List Lit) : List Lit := if l.length ≤ 1 then l else l.mergeSort Lit.le
/-- `CardConstraint::normalize` (l.819-832). -/
def normalize : CardConstraint → CardConstraint
  | ub l b => ub (normLits l) b | lb l b => lb (normLits l) b | eq l b => eq (normLits l) b
/-- `CardConstraint::into_clause` (l.849-858); the error is `RequiresClausal`. -/
def intoClause (c : CardConstraint) : Res Unit Clause :=
  if !c.isClause then .err () else
  match c with
  | ub l _ => .ok (l.map Lit.neg)
  | lb l _ => .ok l
  | eq _ _ => .panic
/-- The closure of the fold of `CardConstraint::evaluate` (l.885-889). -/
def rangeStep (a : Assignment) (rng : Nat × Nat) (l : Lit) : Nat × Nat :=
  match a.litValue l with
  | .true => (rng.1 + 1, rng.2 + 1)
  | .false => rng
  | .dontCare => (rng.1, rng.2 + 1)
/-- The fold of `CardConstraint::evaluate` (l.883-889): `(start, end)`. -/
def range (a : Assignment) (ls : List Lit) : Nat × Nat := ls.foldl (rangeStep a) (0, 0)
/-- `CardConstraint::evaluate` (l.882-898). -/
def evaluate (c : CardConstraint) (a : Assignment) : TernaryVal :=
  let rng := range a c.lits
  if rng.1 ≤ c.bound ∧ c.bound < rng.2 then .dontCare else
  match c with
  | ub _ b => TernaryVal.ofBool (decide (rng.1 ≤ b))
  | lb _ b => TernaryVal.ofBool (decide (rng.1 ≥ b))
  | eq _ b => TernaryVal.ofBool (decide (rng.1 = b))
/-- `CardUbConstr::invert` (l.1016-1025): `none` is the subtraction underflow panic. The result is the
lower bound constraint. -/
def invertUb (l : List Lit) (b : Nat) : Option CardConstraint :=
  if b ≤ l.length then some (lb (l.map Lit.neg) (l.length - b)) else none
/-- `CardLbConstr::invert` (l.1078-1087); `none` is the subtraction underflow panic. -/
def invertLb (l : List Lit) (b : Nat) : Option CardConstraint :=
  if b ≤ l.length then some (ub (l.map Lit.neg) (l.length - b)) else none
/-- `CardEqConstr::split` (l.1146-1157). -/
def splitEq (l : List Lit) (b : Nat) : CardConstraint × CardConstraint := (lb l b, ub l b)
/-- `From<Clause> for CardConstraint` (l.921-925). -/
def ofClause (c : Clause) : CardConstraint := lb c 1

end CardConstraint

/-! ### Pseudo-Boolean constraints -/

/-- `PbConstraint` (l.1200-1207) with the fields `lits`, `weight_sum`, `b` of `PbUbConstr`, `PbLbConstr`,
`PbEqConstr` (l.1761-1765, l.1893-1897, l.2024-2028) inlined. Weights are unbounded naturals, the bound an
unbounded integer; arithmetic overflow of `usize`/`isize` is not modelled. -/
inductive PbConstraint where
  | ub (lits : List (Lit × Nat)) (ws : Nat) (b : Int)
  | lb (lits : List (Lit × Nat)) (ws : Nat) (b : Int)
  | eq (lits : List (Lit × Nat)) (ws : Nat) (b : Int)
deriving DecidableEq, Repr

/-- `PbToCardError` (l.1180-1190). -/
inductive PbToCardError where
  | notACard | unsat | tautology
deriving DecidableEq, Repr

namespace PbConstraint

/-- The closure of `convert_input_lits` (l.1248-1257) folded over the input: converted literals, weight sum,
bound increment. -/
def convertInputLits : List (Lit × Int) → List (Lit × Nat) × Nat × Int
  | [] => ([], 0, 0)
  | (l, w) :: rest =>
    let (ls, ws, badd) := convertInputLits rest
    if w ≥ 0 then ((l, w.natAbs) :: ls, w.natAbs + ws, badd)
    else ((l.neg, w.natAbs) :: ls, w.natAbs + ws, badd - w)

/-- `PbConstraint::new_unit` (l.1234-1240). -/
def newUnit (l : Lit) : PbConstraint := .lb [(l, 1)] 1 1
/-- `PbConstraint::new_ub` (l.1263-1270). -/
def newUb (ls : List (Lit × Int)) (b : Int) : PbConstraint :=
  let (l, ws, badd) := convertInputLits ls; .ub l ws (b + badd)
/-- `PbConstraint::new_lb` (l.1284-1291). -/
def newLb (ls : List (Lit × Int)) (b : Int) : PbConstraint :=
  let (l, ws, badd) := convertInputLits ls; .lb l ws (b + badd)
/-- `PbConstraint::new_eq` (l.1305-1312). -/
def newEq (ls : List (Lit × Int)) (b : Int) : PbConstraint :=
  let (l, ws, badd) := convertInputLits ls; .eq l ws (b + badd)
/-- `weight_sum` fold of the unsigned constructors (l.1275, l.1296, l.1317). -/
def sumWeights (ls : List (Lit × Nat)) : Nat := ls.foldl (fun s p => s + p.2) 0
/-- `PbConstraint::new_ub_unsigned` (l.1273-1281). -/
def newUbUnsigned (ls : List (Lit × Nat)) (b : Int) : PbConstraint := .ub ls (sumWeights ls) b
/-- `PbConstraint::new_lb_unsigned` (l.1294-1302). -/
def newLbUnsigned (ls : List (Lit × Nat)) (b : Int) : PbConstraint := .lb ls (sumWeights ls) b
/-- `PbConstraint::new_eq_unsigned` (l.1315-1323). -/
def newEqUnsigned (ls : List (Lit × Nat)) (b : Int) : PbConstraint := .eq ls (sumWeights ls) b

/-- `PbConstraint::into_lits`/`iter` (l.1587, l.1597). -/
def lits : PbConstraint → List (Lit × Nat)
  | ub l _ _ => l | lb l _ _ => l | eq l _ _ => l
/-- `PbConstraint::weight_sum` (l.1327-1333). -/
def weightSum : PbConstraint → Nat
  | ub _ ws _ => ws | lb _ ws _ => ws | eq _ ws _ => ws
/-- `PbConstraint::bound` (l.1364-1370). -/
def bound : PbConstraint → Int
  | ub _ _ b => b | lb _ _ b => b | eq _ _ b => b
/-- `PbConstraint::len` (l.1374-1380). -/
def len (c : PbConstraint) : Nat := c.lits.length
/-- `PbConstraint::set_bound` (l.1345-1351). -/
def setBound : PbConstraint → Int → PbConstraint
  | ub l w _, b => ub l w b | lb l w _, b => lb l w b | eq l w _, b => eq l w b
/-- `PbConstraint::add` (l.1354-1360). -/
def add (c : PbConstraint) (ls : List (Lit × Int)) : PbConstraint :=
  let (l', ws', badd) := convertInputLits ls
  match c with
  | ub l ws b => ub (l ++ l') (ws + ws') (b + badd)
  | lb l ws b => lb (l ++ l') (ws + ws') (b + badd)
  | eq l ws b => eq (l ++ l') (ws + ws') (b + badd)

/-- The fold `fold(usize::MAX, min)` over the coefficients (l.1844, l.1877, l.1976, l.2009). -/
def minCoeff (ls : List (Lit × Nat)) : Nat := ls.foldl (fun m p => min m p.2) usizeMax

/-- `PbConstraint::is_tautology` (l.1396-1402, l.1825-1830, l.1957-1959). -/
def isTautology : PbConstraint → Bool
  | ub _ ws b => if b < 0 then false else decide (b.natAbs ≥ ws)
  | lb _ _ b => decide (b ≤ 0)
  | eq _ _ _ => false
/-- `PbConstraint::is_unsat` (l.1406-1412, l.1834-1836, l.1963-1968, l.2089-2094). -/
def isUnsat : PbConstraint → Bool
  | ub _ _ b => decide (b < 0)
  | lb _ ws b => if b < 0 then false else decide (b.natAbs > ws)
  | eq _ ws b => if b < 0 then true else decide (b.natAbs > ws)
/-- `PbConstraint::is_positive_assignment` (l.1416-1422, l.1972-1982, l.2098-2103). -/
def isPositiveAssignment : PbConstraint → Bool
  | ub _ _ _ => false
  | lb l ws b => if b < 0 || isUnsat (lb l ws b) then false else decide (b.natAbs + minCoeff l > ws)
  | eq _ ws b => if b < 0 then false else b.natAbs == ws
/-- `PbConstraint::is_negative_assignment` (l.1426-1432, l.1840-1850, l.2107-2112). -/
def isNegativeAssignment : PbConstraint → Bool
  | ub l ws b => if isUnsat (ub l ws b) then false else decide (minCoeff l > b.natAbs)
  | lb _ _ _ => false
  | eq _ _ b => if b < 0 then false else b.natAbs == 0
/-- The loop of `find_unit_weight` (l.1854-1866, l.1986-1998, l.2116-2128); the first argument is the
variable `unit_weight`. -/
def findUnitWeightFrom : Option Nat → List (Lit × Nat) → Option Nat
  | uw, [] => uw
  | none, (_, w) :: rest => findUnitWeightFrom (some w) rest
  | some uw, (_, w) :: rest => if uw ≠ w then none else findUnitWeightFrom (some uw) rest
/-- `find_unit_weight` (l.1854, l.1986, l.2116). -/
def findUnitWeight (ls : List (Lit × Nat)) : Option Nat := findUnitWeightFrom none ls
/-- `PbConstraint::is_card` (l.1436-1442). -/
def isCard (c : PbConstraint) : Bool := (findUnitWeight c.lits).isSome
/-- `PbConstraint::is_clause` (l.1446-1452, l.1870-1884, l.2002-2015). -/
def isClause : PbConstraint → Bool
  | ub l ws b =>
    if isTautology (ub l ws b) then false
    else if isUnsat (ub l ws b) then false
    else decide (ws ≤ b.natAbs + minCoeff l) && decide (ws > b.natAbs)
  | lb l ws b =>
    if isTautology (lb l ws b) then false
    else if isUnsat (lb l ws b) then false
    else decide (b.natAbs ≤ minCoeff l)
  | eq _ _ _ => false

/-- Derived lexicographic order of `(Lit, usize)` pairs used by `sort_unstable` (l.1462). -/
def pairLe (p q : Lit × Nat) : Bool :=
  decide (p.1.lidx < q.1.lidx) || (p.1.lidx == q.1.lidx && decide (p.2 ≤ q.2))
/-- The merging loop of the `norm` closure (l.1463-1475); the first argument is the vector `merged`, whose
last element is compared. -/
def mergeLoop : List (Lit × Nat) → List (Lit × Nat) → List (Lit × Nat)
  | merged, [] => merged
  | merged, (l, w) :: rest =>
    match merged.getLast? with
    | some (l2, w2) =>
      if l = l2 then mergeLoop (merged.dropLast ++ [(l2, w2 + w)]) rest
      else mergeLoop (merged ++ [(l, w)]) rest
    | none => mergeLoop (merged ++ [(l, w)]) rest
/-- The `norm` closure of `PbConstraint::normalize` (l.1458-1477). -/
def normLits (ls : List (Lit × Nat)) : List (Lit × Nat) :=
  if ls.length ≤ 1 then ls else mergeLoop [] (ls.mergeSort pairLe)
/-- `PbConstraint::normalize` (l.1457-1492). -/
def normalize : PbConstraint → PbConstraint
  | ub l ws b => ub (normLits l) ws b
  | lb l ws b => lb (normLits l) ws b
  | eq l ws b => eq (normLits l) ws b

/-- `PbConstraint::into_card_constr` (l.1501-1552). Division and remainder by zero are panics. -/
def intoCardConstr (c : PbConstraint) : Res PbToCardError CardConstraint :=
  if c.isTautology then .err .tautology
  else if c.isUnsat then .err .unsat
  else match c with
  | ub l _ b =>
    match findUnitWeight l with
    | none => .err .notACard
    | some 0 => .panic
    | some uw => .ok (.ub (l.map (·.1)) (b.natAbs / uw))
  | lb l _ b =>
    match findUnitWeight l with
    | none => .err .notACard
    | some 0 => .panic
    | some uw => .ok (.lb (l.map (·.1)) (b.natAbs / uw + (if b.natAbs % uw ≠ 0 then 1 else 0)))
  | eq l _ b =>
    match findUnitWeight l with
    | none => .err .notACard
    | some 0 => .panic
    | some uw =>
      if b.natAbs % uw ≠ 0 then .err .unsat
      else .ok (.eq (l.map (·.1)) (b.natAbs / uw))

/-- `flat_map(|(l, w)| repeat_n(l, w))` (l.1814-1818, l.1946-1950, l.2075-2079). -/
def repeatLits (ls : List (Lit × Nat)) : List Lit := ls.flatMap fun p => List.replicate p.2 p.1
/-- `PbConstraint::extend_to_card_constr` (l.1561-1567, l.1812-1821, l.1944-1953, l.2073-2082). The
documentation announces a panic for unsatisfiable / tautological constraints, the code has none. -/
def extendToCardConstr : PbConstraint → CardConstraint
  | ub l _ b => .ub (repeatLits l) b.natAbs
  | lb l _ b => .lb (repeatLits l) b.natAbs
  | eq l _ b => .eq (repeatLits l) b.natAbs

/-- `PbConstraint::into_clause` (l.1574-1583). -/
def intoClause (c : PbConstraint) : Res Unit Clause :=
  if !c.isClause then .err () else
  match c with
  | ub l _ _ => .ok (l.map fun p => p.1.neg)
  | lb l _ _ => .ok (l.map (·.1))
  | eq _ _ _ => .panic

/-- The closure of the fold of `PbConstraint::evaluate` (l.1620-1624). -/
def rangeStep (a : Assignment) (rng : Nat × Nat) (p : Lit × Nat) : Nat × Nat :=
  match a.litValue p.1 with
  | .true => (rng.1 + p.2, rng.2 + p.2)
  | .false => rng
  | .dontCare => (rng.1, rng.2 + p.2)
/-- The fold of `PbConstraint::evaluate` (l.1618-1624): `(start, end)`. -/
def range (a : Assignment) (ls : List (Lit × Nat)) : Nat × Nat := ls.foldl (rangeStep a) (0, 0)

/-- `PbConstraint::evaluate` (l.1617-1653). `isize::try_from` succeeds up to `isizeMax`. The `unreachable!`
case `(Err, Ok)` yields `none`. -/
def evaluate (c : PbConstraint) (a : Assignment) : Option TernaryVal :=
  let rng := range a c.lits
  if rng.1 ≤ isizeMax then
    if rng.2 ≤ isizeMax then
      if (rng.1 : Int) ≤ c.bound ∧ c.bound < (rng.2 : Int) then some .dontCare else
      match c with
      | ub _ _ b => some (TernaryVal.ofBool (decide ((rng.1 : Int) ≤ b)))
      | lb _ _ b => some (TernaryVal.ofBool (decide ((rng.1 : Int) ≥ b)))
      | eq _ _ b => some (TernaryVal.ofBool (decide ((rng.1 : Int) = b)))
    else
      match c with
      | ub _ _ b => if (rng.1 : Int) ≤ b then some .dontCare else some .true
      | lb _ _ b => if (rng.1 : Int) ≤ b then some .dontCare else some .false
      | eq _ _ b => if (rng.1 : Int) ≤ b then some .dontCare else some .false
  else if rng.2 ≤ isizeMax then none
  else match c with
    | lb _ _ _ => some .true
    | _ => some .false

/-- `PbUbConstr::invert` (l.1792-1803). -/
def invertUb (l : List (Lit × Nat)) (ws : Nat) (b : Int) : PbConstraint :=
  lb (l.map fun p => (p.1.neg, p.2)) ws (-b + ws)
/-- `PbLbConstr::invert` (l.1924-1935). -/
def invertLb (l : List (Lit × Nat)) (ws : Nat) (b : Int) : PbConstraint :=
  ub (l.map fun p => (p.1.neg, p.2)) ws (-b + ws)
/-- `PbEqConstr::split` (l.2051-2064). -/
def splitEq (l : List (Lit × Nat)) (ws : Nat) (b : Int) : PbConstraint × PbConstraint :=
  (lb l ws b, ub l ws b)
/-- `From<Clause> for PbConstraint` (l.1730-1734). -/
def ofClause (c : Clause) : PbConstraint := newLb (c.map fun l => (l, 1)) 1
/-- `From<CardConstraint> for PbConstraint` (l.1736-1753). -/
def ofCard : CardConstraint → PbConstraint
  | .ub l b => newUb (l.map fun x => (x, 1)) b
  | .lb l b => newLb (l.map fun x => (x, 1)) b
  | .eq l b => newEq (l.map fun x => (x, 1)) b

end PbConstraint
end RustSat
