import Verif.Model.Instance
/-
Model of `Objective` (src/instances/opt.rs l.15-1090) and of the optimization instances
(src/instances/opt.rs l.1214-1720, src/instances/multiopt.rs).

Weights are natural numbers and offsets integers; the limits of `usize`/`isize` are not modelled.
-/
namespace RustSat

/-! ### `RsHashMap<K, usize>`: association lists with at most one entry per key. The iteration order of a hash
map is arbitrary; every theorem is about all lists, hence all orders. -/
namespace HMap
variable {α : Type} [DecidableEq α]

/-- `HashMap::get`. -/
def get : List (α × Nat) → α → Option Nat
  | [], _ => none
  | (k, w) :: m, x => if k = x then some w else get m x
/-- `HashMap::remove`. -/
def remove (m : List (α × Nat)) (k : α) : List (α × Nat) := m.filter fun p => decide (p.1 ≠ k)
/-- `HashMap::insert`. -/
def insert (m : List (α × Nat)) (k : α) (w : Nat) : List (α × Nat) := remove m k ++ [(k, w)]
/-- `*map.entry(k).or_default() += w`. -/
def addTo (m : List (α × Nat)) (k : α) (w : Nat) : List (α × Nat) := insert m k ((get m k).getD 0 + w)

end HMap

/-- `Vec::swap_remove(i)`. -/
def vecSwapRemove {α : Type} (c : List α) (i : Nat) : List α :=
  match c.getLast? with
  | none => c
  | some x => (c.set i x).dropLast

/-- `sort_unstable` for a total order in which equal elements are identical, as insertion sort. -/
def isort {α : Type} (le : α → α → Bool) : List α → List α
  | [] => []
  | x :: xs => ins x (isort le xs)
where
  ins (x : α) : List α → List α
    | [] => [x]
    | y :: ys => if le x y then x :: y :: ys else y :: ins x ys

/-- `IntObj` / `Objective` (opt.rs l.17-40). -/
inductive Objective where
  | weighted (offset : Int) (softLits : List (Lit × Nat)) (softClauses : List (Clause × Nat))
  | unweighted (offset : Int) (unitWeight : Option Nat) (softLits : List Lit) (softClauses : List Clause)
deriving DecidableEq, Repr

namespace Objective

/-- `Default for Objective` (opt.rs l.43-52). -/
def default : Objective := .unweighted 0 none [] []

/-- `Objective::offset` (opt.rs l.295-299). -/
def offset : Objective → Int
  | .weighted o _ _ => o
  | .unweighted o _ _ _ => o
/-- `Objective::n_lits` (opt.rs l.107-112). -/
def nLits : Objective → Nat
  | .weighted _ sl _ => sl.length
  | .unweighted _ _ sl _ => sl.length
/-- `Objective::n_clauses` (opt.rs l.116-121). -/
def nClauses : Objective → Nat
  | .weighted _ _ sc => sc.length
  | .unweighted _ _ _ sc => sc.length
/-- `Objective::lit_weight_sum` (opt.rs l.131-140). -/
def litWeightSum : Objective → Nat
  | .weighted _ sl _ => sl.foldl (fun s p => s + p.2) 0
  | .unweighted _ u sl _ => sl.length * u.getD 0
/-- `Objective::clause_weight_sum` (opt.rs l.144-153). -/
def clauseWeightSum : Objective → Nat
  | .weighted _ _ sc => sc.foldl (fun s p => s + p.2) 0
  | .unweighted _ u _ sc => sc.length * u.getD 0
/-- `Objective::weight_sum` (opt.rs l.157-159). -/
def weightSum (o : Objective) : Nat := o.litWeightSum + o.clauseWeightSum

/-- `Objective::evaluate_no_offset` (opt.rs l.233-283). The `debug_assert_eq!(cost, 0)` for a missing unit
weight is not modelled (it holds for well-formed objectives). -/
def evaluateNoOffset (o : Objective) (a : Assignment) : Nat :=
  match o with
  | .weighted _ sl sc =>
    sc.foldl (fun c p => if Clause.evaluate p.1 a = .false then c + p.2 else c)
      (sl.foldl (fun c p => if a.litValue p.1 = .true then c + p.2 else c) 0)
  | .unweighted _ u sl sc =>
    let cost := sc.foldl (fun c p => if Clause.evaluate p a = .false then c + 1 else c)
      (sl.foldl (fun c l => if a.litValue l = .true then c + 1 else c) 0)
    match u with
    | some u => cost * u
    | none => 0
/-- `Objective::evaluate` (opt.rs l.225-230). -/
def evaluate (o : Objective) (a : Assignment) : Int := (o.evaluateNoOffset a : Int) + o.offset

/-- `Objective::increase_offset` (opt.rs l.302-308). -/
def increaseOffset (o : Objective) (i : Int) : Objective :=
  match o with
  | .weighted off sl sc => .weighted (off + i) sl sc
  | .unweighted off u sl sc => .unweighted (off + i) u sl sc
/-- `Objective::set_offset` (opt.rs l.286-292). -/
def setOffset (o : Objective) (i : Int) : Objective :=
  match o with
  | .weighted _ sl sc => .weighted i sl sc
  | .unweighted _ u sl sc => .unweighted i u sl sc

/-- `Objective::unweighted_2_weighted` (opt.rs l.323-357). -/
def toWeighted : Objective → Objective
  | .weighted off sl sc => .weighted off sl sc
  | .unweighted off (some u) sl sc =>
    .weighted off (sl.foldl (fun m l => HMap.addTo m l u) []) (sc.foldl (fun m c => HMap.addTo m c u) [])
  | .unweighted off none _ _ => .weighted off [] []

/-- `Objective::weighted_2_unweighted` (opt.rs l.360-383): each element is repeated weight many times. -/
def toUnweighted : Objective → Objective
  | .unweighted off u sl sc => .unweighted off u sl sc
  | .weighted off sl sc =>
    .unweighted off (some 1) (sl.foldl (fun v p => v ++ List.replicate p.2 p.1) [])
      (sc.foldl (fun v p => v ++ List.replicate p.2 p.1) [])

/-- `Objective::add_soft_lit` (opt.rs l.389-428). The outer `none` is a panic of `unreachable_none!`. -/
def addSoftLit (o : Objective) (w : Nat) (l : Lit) : Option (Option Nat × Objective) :=
  match o with
  | .weighted off sl sc =>
    if w = 0 then some (HMap.get sl l, .weighted off (HMap.remove sl l) sc)
    else some (HMap.get sl l, .weighted off (HMap.insert sl l w) sc)
  | .unweighted off u sl sc =>
    if w = 0 then
      match sl.findIdx? (· == l) with
      | some i =>
        match u with
        | some u => some (some u, .unweighted off (some u) (vecSwapRemove sl i) sc)
        | none => none
      | none => some (none, .unweighted off u sl sc)
    else
      match u with
      | some u =>
        if w = u then
          if sl.any (· == l) then some (some u, .unweighted off (some u) sl sc)
          else some (none, .unweighted off (some u) (sl ++ [l]) sc)
        else
          match toWeighted (.unweighted off (some u) sl sc) with
          | .weighted off sl sc => some (HMap.get sl l, .weighted off (HMap.insert sl l w) sc)
          | .unweighted .. => none
      | none => some (none, .unweighted off (some w) (sl ++ [l]) sc)

/-- `Objective::increase_soft_lit` (opt.rs l.432-459). -/
def increaseSoftLit (o : Objective) (w : Nat) (l : Lit) : Objective :=
  if w = 0 then o else
  match o with
  | .weighted off sl sc => .weighted off (HMap.addTo sl l w) sc
  | .unweighted off (some u) sl sc =>
    if w = u then .unweighted off (some u) (sl ++ [l]) sc
    else
      match toWeighted (.unweighted off (some u) sl sc) with
      | .weighted off sl sc => .weighted off (HMap.addTo sl l w) sc
      | .unweighted off u sl sc => .unweighted off u sl sc
  | .unweighted off none sl sc => .unweighted off (some w) (sl ++ [l]) sc

/-- `Objective::increase_soft_lit_int` (opt.rs l.466-475). -/
def increaseSoftLitInt (o : Objective) (w : Int) (l : Lit) : Objective :=
  if w < 0 then (o.increaseOffset w).increaseSoftLit w.natAbs l.neg
  else o.increaseSoftLit w.natAbs l

/-- `Objective::add_soft_clause` (opt.rs l.482-526). -/
def addSoftClause (o : Objective) (w : Nat) (c : Clause) : Option (Option Nat × Objective) :=
  match c with
  | [] => some (none, o.increaseOffset w)
  | [l] => o.addSoftLit w l.neg
  | c =>
    match o with
    | .weighted off sl sc =>
      if w = 0 then some (HMap.get sc c, .weighted off sl (HMap.remove sc c))
      else some (HMap.get sc c, .weighted off sl (HMap.insert sc c w))
    | .unweighted off u sl sc =>
      if w = 0 then
        match sc.findIdx? (· == c) with
        | some i =>
          match u with
          | some u => some (some u, .unweighted off (some u) sl (vecSwapRemove sc i))
          | none => none
        | none => some (none, .unweighted off u sl sc)
      else
        match u with
        | some u =>
          if w = u then
            if sc.any (· == c) then some (some u, .unweighted off (some u) sl sc)
            else some (none, .unweighted off (some u) sl (sc ++ [c]))
          else
            match toWeighted (.unweighted off (some u) sl sc) with
            | .weighted off sl sc => some (HMap.get sc c, .weighted off sl (HMap.insert sc c w))
            | .unweighted .. => none
        | none => some (none, .unweighted off (some w) sl (sc ++ [c]))

/-- `Objective::increase_soft_clause` (opt.rs l.532-561). -/
def increaseSoftClause (o : Objective) (w : Nat) (c : Clause) : Objective :=
  if w = 0 then o else
  match c with
  | [l] => o.increaseSoftLit w l.neg
  | c =>
    match o with
    | .weighted off sl sc => .weighted off sl (HMap.addTo sc c w)
    | .unweighted off (some u) sl sc =>
      if w = u then .unweighted off (some u) sl (sc ++ [c])
      else
        match toWeighted (.unweighted off (some u) sl sc) with
        | .weighted off sl sc => .weighted off sl (HMap.addTo sc c w)
        | .unweighted off u sl sc => .unweighted off u sl sc
    | .unweighted off none sl sc => .unweighted off (some w) sl (sc ++ [c])

/-- `Objective::lit_weight` (opt.rs l.565-580); the outer `none` is a panic. -/
def litWeight (o : Objective) (l : Lit) : Option (Option Nat) :=
  match o with
  | .weighted _ sl _ => some (HMap.get sl l)
  | .unweighted _ u sl _ =>
    if sl.any (· == l) then (match u with | some u => some (some u) | none => none) else some none

/-- `FromIterator<(Lit, usize)>` (opt.rs l.1180-1188). -/
def ofLits (ls : List (Lit × Nat)) : Objective := ls.foldl (fun o p => o.increaseSoftLit p.2 p.1) default
/-- `FromIterator<(Lit, isize)>` (opt.rs l.1190-1198). -/
def ofIntLits (ls : List (Lit × Int)) : Objective := ls.foldl (fun o p => o.increaseSoftLitInt p.2 p.1) default
/-- `FromIterator<(Clause, usize)>` (opt.rs l.1200-1208). -/
def ofClauses (ls : List (Clause × Nat)) : Objective := ls.foldl (fun o p => o.increaseSoftClause p.2 p.1) default

/-- `Objective::into_soft_cls` (opt.rs l.603-633); `none` is a panic of `unreachable_none!`. -/
def intoSoftCls : Objective → Option (List (Clause × Nat) × Int)
  | .unweighted off u sl sc =>
    let sc := sc ++ sl.map fun l => [l.neg]
    match u with
    | some u => some (sc.map fun c => (c, u), off)
    | none => if sc.isEmpty then some ([], off) else none
  | .weighted off sl sc => some (sl.foldl (fun m p => HMap.insert m [p.1.neg] p.2) sc, off)

/-- `Objective::into_unweighted_soft_cls` (opt.rs l.640-662): clauses, unit weight, offset. -/
def intoUnweightedSoftCls (o : Objective) : Option (List Clause × Nat × Int) :=
  match o.toUnweighted with
  | .weighted .. => none
  | .unweighted off u sl sc =>
    match u with
    | some u => some (sc ++ sl.map (fun l => [l.neg]), u, off)
    | none => some ([], 1, off)

variable {VM : Type} [ManageVars VM]

/-- Loop of `convert_to_soft_lits` over the weighted soft clauses (opt.rs l.680-686). -/
def relaxW : VM → List (Lit × Nat) → ClauseSet → List (Clause × Nat) → List (Lit × Nat) × ClauseSet × VM
  | vm, sl, cnf, [] => (sl, cnf, vm)
  | vm, sl, cnf, (c, w) :: sc =>
    let (v, vm) := ManageVars.newVar vm
    relaxW vm (HMap.insert sl (Lit.pos v) w) (Cnf.addClause cnf (c ++ [Lit.pos v])) sc
/-- Loop of `convert_to_soft_lits` over the unweighted soft clauses (opt.rs l.695-701). -/
def relaxU : VM → List Lit → ClauseSet → List Clause → List Lit × ClauseSet × VM
  | vm, sl, cnf, [] => (sl, cnf, vm)
  | vm, sl, cnf, c :: sc =>
    let (v, vm) := ManageVars.newVar vm
    relaxU vm (sl ++ [Lit.pos v]) (Cnf.addClause cnf (c ++ [Lit.pos v])) sc

/-- `Objective::convert_to_soft_lits` (opt.rs l.667-705). -/
def convertToSoftLits (o : Objective) (vm : VM) : ClauseSet × Objective × VM :=
  match o with
  | .weighted off sl sc => let (sl, cnf, vm) := relaxW vm sl [] sc; (cnf, .weighted off sl [], vm)
  | .unweighted off u sl sc => let (sl, cnf, vm) := relaxU vm sl [] sc; (cnf, .unweighted off u sl [], vm)

/-- `Objective::into_soft_lits` (opt.rs l.708-729): hard clauses, weighted soft literals, offset, manager. -/
def intoSoftLits (o : Objective) (vm : VM) : ClauseSet × List (Lit × Nat) × Int × VM :=
  let (cnf, o, vm) := o.convertToSoftLits vm
  match o.toWeighted with
  | .weighted off sl _ => (cnf, sl, off, vm)
  | .unweighted off _ _ _ => (cnf, [], off, vm)

/-- `Objective::into_unweighted_soft_lits` (opt.rs l.733-768): clauses, literals, unit weight, offset. -/
def intoUnweightedSoftLits (o : Objective) (vm : VM) : ClauseSet × List Lit × Nat × Int × VM :=
  let (cnf, o, vm) := o.convertToSoftLits vm
  match o with
  | .weighted off sl _ => (cnf, sl.foldl (fun v p => v ++ List.replicate p.2 p.1) [], 1, off, vm)
  | .unweighted off (some u) sl _ => (cnf, sl, u, off, vm)
  | .unweighted off none _ _ => ([], [], 1, off, vm)

/-- The closure `find_max` of `max_var` (opt.rs l.773-783). -/
def findMax (mv : Option Nat) (v : Nat) : Option Nat :=
  match mv with
  | some mv => if mv < v then some v else some mv
  | none => some v
/-- `Objective::max_var` (opt.rs l.772-808). -/
def maxVar : Objective → Option Nat
  | .weighted _ sl sc =>
    sc.foldl (fun mv p => p.1.foldl (fun mv l => findMax mv l.var) mv) (sl.foldl (fun mv p => findMax mv p.1.var) none)
  | .unweighted _ _ sl sc =>
    sc.foldl (fun mv c => c.foldl (fun mv l => findMax mv l.var) mv) (sl.foldl (fun mv l => findMax mv l.var) none)

/-- Re-indexing a soft clause with its weight (opt.rs l.825-833). -/
def reindexWCl (m : ReindexVM) (p : Clause × Nat) : (Clause × Nat) × ReindexVM :=
  let (c, m) := m.reindexLits p.1; ((c, p.2), m)
/-- Re-indexing a soft literal with its weight (opt.rs l.820-823). -/
def reindexWLit (m : ReindexVM) (p : Lit × Nat) : (Lit × Nat) × ReindexVM :=
  let (l, m) := m.reindexLit p.1; ((l, p.2), m)
/-- `collect::<RsHashMap<_, _>>()`: later entries replace earlier ones. -/
def collectMap {α : Type} [DecidableEq α] (l : List (α × Nat)) : List (α × Nat) :=
  l.foldl (fun m p => HMap.insert m p.1 p.2) []
/-- `Objective::reindex` with a `ReindexingVarManager` (opt.rs l.812-860). -/
def reindex (o : Objective) (m : ReindexVM) : Objective × ReindexVM :=
  match o with
  | .weighted off sl sc =>
    let (sl, m) := SatInstance.reindexList reindexWLit m sl
    let (sc, m) := SatInstance.reindexList reindexWCl m sc
    (.weighted off (collectMap sl) (collectMap sc), m)
  | .unweighted off u sl sc =>
    let (sl, m) := m.reindexLits sl
    let (sc, m) := SatInstance.reindexList ReindexVM.reindexLits m sc
    (.unweighted off u sl sc, m)

/-! #### normalize (opt.rs l.897-1040) -/

/-- One iteration of the loop over the soft clauses of a weighted objective (opt.rs l.909-949). State: offset,
soft literals, soft clauses. -/
def normStep (st : Int × List (Lit × Nat) × List (Clause × Nat)) (p : Clause × Nat) :
    Int × List (Lit × Nat) × List (Clause × Nat) :=
  let (off, sl, sc) := st
  match Clause.normalize p.1 with
  | none => (off, sl, sc)
  | some [l] =>
    match HMap.get sl l with
    | some nw =>
      if nw < p.2 then (off + nw, HMap.addTo (HMap.remove sl l) l.neg (p.2 - nw), sc)
      else if nw = p.2 then (off + p.2, HMap.remove sl l, sc)
      else (off + p.2, HMap.insert sl l (nw - p.2), sc)
    | none => (off, HMap.addTo sl l.neg p.2, sc)
  | some c => (off, sl, HMap.addTo sc c p.2)

/-- The end of the weighted branch (opt.rs l.950-979). -/
def normFinish (off : Int) (sl : List (Lit × Nat)) (sc : List (Clause × Nat)) : Objective :=
  match (sl.map (·.2) ++ sc.map (·.2)).head? with
  | none => default
  | some u =>
    if sl.all (fun p => p.2 == u) && sc.all (fun p => p.2 == u) then
      .unweighted off (some u) (isort Lit.le (sl.map (·.1))) (isort Cnf.clauseLe (sc.map (·.1)))
    else .weighted off sl sc

/-- The weighted branch of `normalize` (opt.rs l.899-980). -/
def normalizeW (off : Int) (sl : List (Lit × Nat)) (sc : List (Clause × Nat)) : Objective :=
  let (off, sl, sc) := sc.foldl normStep (off, sl, [])
  normFinish off sl sc

/-- `v.windows(2)` contains a pair of equal elements (opt.rs l.1011-1017). -/
def hasAdjDup {α : Type} [DecidableEq α] : List α → Bool
  | x :: y :: rest => decide (x = y) || hasAdjDup (y :: rest)
  | _ => false

/-- `Vec::swap(i, j)` for indices in range. -/
def vecSwap (v : List Lit) (i j : Nat) : List Lit :=
  match v[i]?, v[j]? with
  | some x, some y => (v.set i y).set j x
  | _, _ => v

/-- Result of the loop over the sorted soft literals: a duplicate was found, or the loop ended. -/
inductive LitLoop where
  | dup (lits : List Lit) (offset : Int)
  | done (lits : List Lit) (offset : Int)

/-- The loop over the sorted soft literals and the `truncate` after it (opt.rs l.1020-1040). `fuel` bounds
the number of iterations; each iteration increases `next`, so the number of literals is enough. -/
def litLoop (u : Nat) : Nat → List Lit → Nat → Nat → Int → LitLoop
  | 0, v, _, _, off => .done v off
  | fuel + 1, v, next, fin, off =>
    if next < v.length - 1 then
      match v[next]?, v[next + 1]? with
      | some x, some y =>
        if x = y.neg then litLoop u fuel v (next + 2) fin (off + u)
        else if x = y then .dup v off
        else litLoop u fuel (vecSwap v fin next) (next + 1) (fin + 1) off
      | _, _ => .done v off
    else .done (v.take (fin + if next < v.length then 1 else 0)) off

/-- The clauses kept by the first loop of the unweighted branch (opt.rs l.990-1008): not tautological and not
unit after normalisation. The loop's swaps only permute them and they are sorted afterwards. -/
def keptClauses (sc : List Clause) : List Clause := (sc.filterMap Clause.normalize).filter fun c => c.length != 1
/-- The soft literals pushed by the first loop of the unweighted branch (opt.rs l.1000-1004). -/
def pushedLits (sc : List Clause) : List Lit :=
  (sc.filterMap Clause.normalize).flatMap fun c => match c with | [l] => [l.neg] | _ => []

/-- `Objective::normalize` (opt.rs l.897-1040). `none` is the panic caused by `soft_lits.len() - 1`
underflowing for an empty list. -/
def normalize : Objective → Option Objective
  | .weighted off sl sc => some (normalizeW off sl sc)
  | .unweighted off none sl sc => some (.unweighted off none sl sc)
  | .unweighted off (some u) sl sc =>
    let sl := sl ++ pushedLits sc
    let sc := isort Cnf.clauseLe (keptClauses sc)
    if hasAdjDup sc then
      match toWeighted (.unweighted off (some u) sl sc) with
      | .weighted off sl sc => some (normalizeW off sl sc)
      | .unweighted .. => none
    else
      let sl := isort Lit.le sl
      if sl.length = 0 then none
      else
        match litLoop u (sl.length + 1) sl 0 0 off with
        | .dup sl off =>
          match toWeighted (.unweighted off (some u) sl sc) with
          | .weighted off sl sc => some (normalizeW off sl sc)
          | .unweighted .. => none
        | .done sl off =>
          some (.unweighted off (if sl.isEmpty && sc.isEmpty then none else some u) sl sc)

end Objective

/-- `OptInstance` (opt.rs l.1214-1217). -/
structure OptInstance (VM : Type) where
  constrs : SatInstance VM
  obj : Objective

/-- `MultiOptInstance` (multiopt.rs l.25-28). -/
structure MultiOptInstance (VM : Type) where
  constrs : SatInstance VM
  objs : List Objective

namespace OptInstance
variable {VM : Type} [ManageVars VM]
/-- `if let Some(mv) = obj.max_var() { vm.increase_next_free(mv + 1) }` (opt.rs l.1233, l.1245, l.1294, l.1308). -/
def learnObj (vm : VM) (o : Objective) : VM :=
  match o.maxVar with
  | some mv => (ManageVars.increaseNextFree vm (mv + 1)).2
  | none => vm
/-- `OptInstance::compose` (opt.rs l.1231-1240). -/
def compose (s : SatInstance VM) (o : Objective) : OptInstance VM := ⟨{ s with vm := learnObj s.vm o }, o⟩
/-- `OptInstance::cost` (opt.rs l.1469-1474); the outer `none` is a panic of the PB evaluation. -/
def cost (i : OptInstance VM) (a : Assignment) : Option (Option Int) :=
  match i.constrs.evaluate a with
  | none => none
  | some t => if t ≠ .true then some none else some (some (i.obj.evaluate a))
/-- `OptInstance::reindex` with a `ReindexingVarManager` (opt.rs l.1335-1339). -/
def reindex (i : OptInstance VM) (m : ReindexVM) : OptInstance ReindexVM :=
  let (o, m) := i.obj.reindex m
  ⟨i.constrs.reindex m, o⟩
end OptInstance

namespace MultiOptInstance
variable {VM : Type} [ManageVars VM]
/-- `MultiOptInstance::compose` (multiopt.rs l.45-55). -/
def compose (s : SatInstance VM) (os : List Objective) : MultiOptInstance VM :=
  ⟨{ s with vm := os.foldl OptInstance.learnObj s.vm }, os⟩
/-- `MultiOptInstance::cost` (multiopt.rs l.347-352). -/
def cost (i : MultiOptInstance VM) (a : Assignment) : Option (Option (List Int)) :=
  match i.constrs.evaluate a with
  | none => none
  | some t => if t ≠ .true then some none else some (some (i.objs.map fun o => o.evaluate a))
end MultiOptInstance

end RustSat
