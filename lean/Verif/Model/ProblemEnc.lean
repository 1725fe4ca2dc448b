import Verif.Model.Tools
/-
Model of the problem encodings of the tool `encodings` (tools/src/bin/encodings.rs) that produce pseudo-Boolean files:
assignment problems (tools/src/encodings/pb/assignment.rs), facility location (tools/src/encodings/pb/facilitylocation.rs)
and knapsacks (tools/src/encodings/pb/knapsack.rs). An encoding is an iterator over the lines of the file; `next` is a
function from the kind of the next line to the line and the kind of the one after it, or a panic (`none`).
-/
namespace RustSat
open Opb

namespace Problems

/-- `Lit::new(idx as u32, negated)`: the index is cut off to 32 bits; `none` if `Lit::new` panics. -/
def castLit (idx : Nat) (negated : Bool) : Option Lit :=
  if idx % 4294967296 < maxVarIdx then some (Lit.mk' (idx % 4294967296) negated) else none

/-- Collecting all items if none of them panics. -/
def allSome {α : Type} : List (Option α) → Option (List α)
  | [] => some []
  | none :: _ => none
  | some a :: rest => (allSome rest).map (a :: ·)

/-- Two computations one after the other, either of which may panic. -/
def both {α β : Type} : Option α → Option β → Option (α × β)
  | some a, some b => some (a, b)
  | _, _ => none

/-- Calling `next` until it returns `None`; the state is `self.next_line`. -/
def collect {σ α : Type} (next : σ → Option (α × Option σ)) : Nat → Option σ → SearchResult (List α)
  | _, none => .done []
  | 0, some _ => .running
  | fuel + 1, some s =>
    match next s with
    | none => .panic
    | some (x, s') =>
      match collect next fuel s' with
      | .done xs => .done (x :: xs)
      | .panic => .panic
      | .running => .running

/-- `write_pb` (encodings.rs l.314-327). -/
def writePbTool (opts : Options) (lines : SearchResult (List FileLine)) : SearchResult Text :=
  match lines with
  | .done ls =>
    match writeLines opts ls with
    | some t => .done t
    | none => .panic
  | .panic => .panic
  | .running => .running

/-- The comment with the numbers of variables and constraints. -/
def hintText (vars constrs : Nat) : Text :=
  "#variable= ".toList ++ Text.showNat vars ++ " #constraint= ".toList ++ Text.showNat constrs

/-! ### Assignment problems -/

/-- `Assignment` (tools/src/encodings/assignment.rs l.8-12). -/
structure AssignmentData where
  nTasks : Nat
  nObjs : Nat
  costs : List Nat
deriving DecidableEq, Repr

/-- `Assignment::cost` with `idx` (assignment.rs l.27-36); `none`: index out of bounds. -/
def AssignmentData.cost (d : AssignmentData) (task agent obj : Nat) : Option Nat :=
  d.costs[obj * d.nTasks * d.nTasks + task * d.nTasks + agent]?

/-- `Line` (pb/assignment.rs l.10-22). -/
inductive AssignLine where
  | hint
  | description
  | objective (idx : Nat)
  | oneTask (agent : Nat)
  | oneAgent (task : Nat)
deriving DecidableEq, Repr

/-- The closure `selector` (pb/assignment.rs l.43-44). -/
def AssignmentData.selector (d : AssignmentData) (task agent : Nat) : Option Lit :=
  castLit (d.nTasks * task + agent) false

/-- `next` (pb/assignment.rs l.42-103). -/
def AssignmentData.next (d : AssignmentData) : AssignLine → Option (FileLine × Option AssignLine)
  | .hint => some (.comment (hintText (d.nTasks * d.nTasks) (2 * d.nTasks)), some .description)
  | .description => some (.comment "MO Assignment instance generated by RustSAT".toList, some (.objective 0))
  | .objective k =>
    (allSome ((List.range d.nTasks).flatMap fun task => (List.range d.nTasks).map fun agent =>
      both (d.selector task agent) (d.cost task agent k))).map fun obj =>
        (.objective obj, some (if k + 1 < d.nObjs then .objective (k + 1) else .oneTask 0))
  | .oneTask agent =>
    (allSome ((List.range d.nTasks).map fun task => d.selector task agent)).map fun lits =>
      (.card (.eq lits 1), some (if agent + 1 < d.nTasks then .oneTask (agent + 1) else .oneAgent 0))
  | .oneAgent task =>
    (allSome ((List.range d.nTasks).map fun agent => d.selector task agent)).map fun lits =>
      (.card (.eq lits 1), if task + 1 < d.nTasks then some (.oneAgent (task + 1)) else none)

/-- All lines of the encoding. -/
def AssignmentData.lines (d : AssignmentData) (fuel : Nat) : SearchResult (List FileLine) :=
  collect d.next fuel (some .hint)

/-! ### Facility location -/

/-- `FacilityLocation` (tools/src/encodings/facilitylocation.rs l.8-15). -/
structure FacilityData where
  nObjs : Nat
  nCustomers : Nat
  nFacilities : Nat
  supply : List Nat
  opening : List Nat
deriving DecidableEq, Repr

/-- `supply_cost` with `cidx` (facilitylocation.rs l.34-39, l.47-49); `none`: index out of bounds. -/
def FacilityData.supplyCost (d : FacilityData) (obj customer facility : Nat) : Option Nat :=
  d.supply[obj * d.nFacilities * d.nCustomers + customer * d.nFacilities + facility]?

/-- `opening_cost` with `ridx` (facilitylocation.rs l.41-45, l.51-53). -/
def FacilityData.openingCost (d : FacilityData) (obj facility : Nat) : Option Nat := d.opening[obj * d.nFacilities + facility]?

/-- `Line` (pb/facilitylocation.rs l.10-23). -/
inductive FacilityLine where
  | hint
  | description
  | objective (idx : Nat)
  | oneFacility (customer : Nat)
  | mustOpen (facility customer : Nat)
deriving DecidableEq, Repr

/-- The closure `selected` (pb/facilitylocation.rs l.43-48). -/
def FacilityData.selected (d : FacilityData) (customer facility : Nat) : Option Lit :=
  castLit (customer * d.nFacilities + facility) false

/-- The closure `opening` (pb/facilitylocation.rs l.49-54). -/
def FacilityData.openLit (d : FacilityData) (facility : Nat) : Option Lit :=
  castLit (d.nFacilities * d.nCustomers + facility) false

/-- `next` (pb/facilitylocation.rs l.42-123). -/
def FacilityData.next (d : FacilityData) : FacilityLine → Option (FileLine × Option FacilityLine)
  | .hint => some (.comment (hintText ((d.nCustomers + 1) * d.nFacilities) (d.nCustomers * (d.nFacilities + 1))),
      some .description)
  | .description => some (.comment "MO uncapacitated facility location instance generated by RustSAT".toList,
      some (.objective 0))
  | .objective k =>
    (allSome (((List.range d.nCustomers).flatMap fun customer => (List.range d.nFacilities).map fun fac =>
      both (d.selected customer fac) (d.supplyCost k customer fac)) ++
      (List.range d.nFacilities).map fun fac => both (d.openLit fac) (d.openingCost k fac))).map fun obj =>
        (.objective obj, some (if k + 1 < d.nObjs then .objective (k + 1) else .oneFacility 0))
  | .oneFacility customer =>
    (allSome ((List.range d.nFacilities).map fun fac => d.selected customer fac)).map fun lits =>
      (.card (.eq lits 1),
        some (if customer + 1 < d.nCustomers then .oneFacility (customer + 1) else .mustOpen 0 0))
  | .mustOpen fac customer =>
    (both (d.selected customer fac) (d.openLit fac)).map fun p =>
      (.clause (Atomics.litImplLit p.1 p.2),
        if customer + 1 < d.nCustomers then some (.mustOpen fac (customer + 1))
        else if fac + 1 < d.nFacilities then some (.mustOpen (fac + 1) 0)
        else none)

/-- All lines of the encoding. -/
def FacilityData.lines (d : FacilityData) (fuel : Nat) : SearchResult (List FileLine) := collect d.next fuel (some .hint)

/-! ### Knapsacks -/

/-- `ItemData` (tools/src/encodings/knapsack.rs l.16-19). -/
structure KnapsackItem where
  weight : Nat
  values : List Nat
deriving DecidableEq, Repr

/-- `Knapsack` (knapsack.rs l.9-12). -/
structure KnapsackData where
  items : List KnapsackItem
  capacity : Nat
deriving DecidableEq, Repr

/-- `x as isize`. -/
def castIsize (x : Nat) : Int := if x ≤ 9223372036854775807 then x else (x : Int) - 18446744073709551616

/-- `Line` (pb/knapsack.rs l.10-20). -/
inductive KnapsackLine where
  | hint
  | description
  | objective (idx : Nat)
  | capacity
deriving DecidableEq, Repr

/-- `next` (pb/knapsack.rs l.39-82). -/
def KnapsackData.next (d : KnapsackData) : KnapsackLine → Option (FileLine × Option KnapsackLine)
  | .hint => some (.comment ("#variable= ".toList ++ Text.showNat d.items.length ++ " #constraint= 1".toList),
      some .description)
  | .description => some (.comment "MO Knapsack instance generated by RustSAT".toList, some (.objective 0))
  | .objective k =>
    (both (allSome (d.items.zipIdx.map fun p => both (castLit p.2 true) p.1.values[k]?)) d.items.head?).map fun q =>
      (.objective q.1, some (if k + 1 < q.2.values.length then .objective (k + 1) else .capacity))
  | .capacity =>
    (allSome (d.items.zipIdx.map fun p => both (castLit p.2 false) (some (castIsize p.1.weight)))).map fun ls =>
      (.pb (PbConstraint.newUb ls (castIsize d.capacity)), none)

/-- All lines of the encoding. -/
def KnapsackData.lines (d : KnapsackData) (fuel : Nat) : SearchResult (List FileLine) := collect d.next fuel (some .hint)

end Problems
end RustSat
