import Verif.Model.ProblemEnc
import Verif.Spec.Opb
/-
What the problems are that the tool `encodings` writes files for.
-/
namespace RustSat
namespace Problems

/-- The sum of `f 0`, ..., `f (n - 1)`. -/
def sumTo (n : Nat) (f : Nat → Nat) : Nat := ((List.range n).map f).sum

/-- Every one of `n` tasks is given to one of `n` agents, and no two tasks to the same agent. -/
def IsMatching (n : Nat) (agent : Nat → Nat) : Prop :=
  (∀ t, t < n → agent t < n) ∧ ∀ t u, t < n → u < n → agent t = agent u → t = u

/-- The cost of giving a task to an agent: costs are listed by objective, then by task, then by agent. -/
def AssignmentData.costOf (d : AssignmentData) (k t g : Nat) : Nat :=
  d.costs.getD (k * d.nTasks * d.nTasks + t * d.nTasks + g) 0

/-- The cost of a matching. -/
def AssignmentData.matchingCost (d : AssignmentData) (k : Nat) (agent : Nat → Nat) : Nat :=
  sumTo d.nTasks fun t => d.costOf k t (agent t)

/-- An assignment to the variables stands for a matching: variable `n t + g` says that task `t` is given to agent `g`. -/
def AssignmentData.Means (d : AssignmentData) (agent : Nat → Nat) (a : Asg) : Prop :=
  ∀ t g, t < d.nTasks → g < d.nTasks → (a (d.nTasks * t + g) = true ↔ agent t = g)

/-- Each customer is served by a facility, and facilities that serve customers are open. -/
def FacilityData.IsSolution (d : FacilityData) (serves : Nat → Nat) (isOpen : Nat → Bool) : Prop :=
  ∀ c, c < d.nCustomers → serves c < d.nFacilities ∧ isOpen (serves c) = true

/-- The cost of supplying a customer from a facility: costs are listed by objective, then by customer, then by facility. -/
def FacilityData.supplyOf (d : FacilityData) (k c f : Nat) : Nat :=
  d.supply.getD (k * d.nFacilities * d.nCustomers + c * d.nFacilities + f) 0

/-- The cost of opening a facility: costs are listed by objective, then by facility. -/
def FacilityData.openingOf (d : FacilityData) (k f : Nat) : Nat := d.opening.getD (k * d.nFacilities + f) 0

/-- The cost of a solution: the costs of supplying the customers and of opening facilities. -/
def FacilityData.solutionCost (d : FacilityData) (k : Nat) (serves : Nat → Nat) (isOpen : Nat → Bool) : Nat :=
  sumTo d.nCustomers (fun c => d.supplyOf k c (serves c)) +
  sumTo d.nFacilities fun f => if isOpen f then d.openingOf k f else 0

/-- An assignment to the variables stands for a solution. -/
def FacilityData.Means (d : FacilityData) (serves : Nat → Nat) (isOpen : Nat → Bool) (a : Asg) : Prop :=
  (∀ c f, c < d.nCustomers → f < d.nFacilities → (a (c * d.nFacilities + f) = true ↔ serves c = f)) ∧
  ∀ f, f < d.nFacilities → a (d.nFacilities * d.nCustomers + f) = isOpen f

/-- The sum of a quantity over the items for which `p` holds; item `i` is the `i`-th of the list. -/
def itemSum (items : List KnapsackItem) (p : Nat → Bool) (f : KnapsackItem → Nat) : Nat :=
  sumTo items.length fun i => if p i then (items[i]?.map f).getD 0 else 0

/-- The items taken fit into the knapsack. -/
def KnapsackData.Fits (d : KnapsackData) (taken : Nat → Bool) : Prop :=
  itemSum d.items taken (·.weight) ≤ d.capacity

/-- The value of the items taken, for an objective. -/
def KnapsackData.value (d : KnapsackData) (k : Nat) (taken : Nat → Bool) : Nat :=
  itemSum d.items taken fun it => it.values.getD k 0

/-! ### Which data is covered -/

/-- The data of a problem: at least one task and one objective, a cost for every objective, task and agent, and
few enough variables. -/
structure AssignmentData.Good (d : AssignmentData) : Prop where
  tasks : 0 < d.nTasks
  objs : 0 < d.nObjs
  costs : d.costs.length = d.nObjs * (d.nTasks * d.nTasks)
  vars : d.nTasks * d.nTasks ≤ 2147483647

/-- The data of a problem: at least one customer, one facility and one objective, all costs, and few enough variables. -/
structure FacilityData.Good (d : FacilityData) : Prop where
  objs : 0 < d.nObjs
  customers : 0 < d.nCustomers
  facilities : 0 < d.nFacilities
  supply : d.supply.length = d.nObjs * (d.nFacilities * d.nCustomers)
  opening : d.opening.length = d.nObjs * d.nFacilities
  vars : d.nFacilities * d.nCustomers + d.nFacilities ≤ 2147483647

/-- The data of a problem: at least one item and one objective, a value for every item and objective. -/
structure KnapsackData.Good (d : KnapsackData) (nObjs : Nat) : Prop where
  items : d.items ≠ []
  objs : 0 < nObjs
  values : ∀ it ∈ d.items, it.values.length = nObjs
  vars : d.items.length ≤ 2147483647
  weights : (d.items.map (·.weight)).sum + d.capacity ≤ 9223372036854775807

end Problems
end RustSat
