import Verif.Lemmas.ProblemPb
/-
C74-C76: the pseudo-Boolean files that the tool `encodings` writes for assignment, facility location and knapsack problems
describe those problems: read by the parser of OPB files, their solutions are the solutions of the problem, and their
objectives are the costs of the solutions up to a constant.
-/
namespace RustSat
namespace Problems
open Opb OpbSpec

variable {VM : Type} [ManageVars VM] [LawfulVM VM]

/-! ### C74 -/

/-- C74: assignment problems with at least one task and one objective. -/
theorem C74_assignment_partial (dflt : VM) {opts opts' : Options} (hfirst : opts'.firstVarIdx = opts.firstVarIdx)
    (d : AssignmentData) (hd : d.Good) (hv : d.nTasks * d.nTasks + opts.firstVarIdx ≤ 4294967296)
    (hs : ∀ k, k < d.nObjs → sumTo d.nTasks (fun t => sumTo d.nTasks (d.costOf k t)) ≤ 9223372036854775807) :
    ∃ fuel t i, writePbTool opts (d.lines fuel) = .done t ∧ MultiOptInstance.fromOpb dflt opts' t = .ok i ∧
      (∀ a, i.constrs.sat a ↔ ∃ agent, IsMatching d.nTasks agent ∧ d.Means agent a) ∧
      i.objs.length = d.nObjs ∧
      ∀ k, k < d.nObjs → ∃ o c, i.objs[k]? = some o ∧
        ∀ agent a, IsMatching d.nTasks agent → d.Means agent a → (d.matchingCost k agent : Int) = o.value a + c := by
  obtain ⟨fuel, t, i, h1, h2, h3, h4, h5⟩ := tool_reads dflt hfirst hd.collects (d.fits_lineList hd hv hs)
  refine ⟨fuel, t, i, h1, h2, fun a => (h3 a).trans (d.sat_iff a), ?_, fun k hk => ?_⟩
  · rw [h4, d.lineObjs_lineList, List.length_map, List.length_range]
  · obtain ⟨o, c, g1, g2⟩ := h5 k (d.objList k) (by
      rw [d.lineObjs_lineList, List.getElem?_map, List.getElem?_range hk]; rfl)
    refine ⟨o, c, g1, fun agent a hm ha => ?_⟩
    rw [← d.wsum_objList hm ha k, g2 a]

/-- Every matching is a solution of the file, so that the statement above covers all of them. -/
theorem AssignmentData.exists_means (d : AssignmentData) (agent : Nat → Nat) : ∃ a, d.Means agent a := by
  refine ⟨fun v => decide (agent (v / d.nTasks) = v % d.nTasks), fun t g _ hg => ?_⟩
  have h1 : (d.nTasks * t + g) / d.nTasks = t := by
    rw [Nat.mul_add_div (by omega), Nat.div_eq_of_lt hg]; rfl
  have h2 : (d.nTasks * t + g) % d.nTasks = g := by
    rw [Nat.mul_add_mod, Nat.mod_eq_of_lt hg]
  simp only [h1, h2, decide_eq_true_eq]

/-- C74 is violated without tasks: nothing is to be done, but the file has no solution. -/
theorem C74_violated_no_tasks : ∃ d : AssignmentData, IsMatching d.nTasks (fun _ => 0) ∧
    ∃ ls, d.lines 10 = .done ls ∧ ∀ a, ¬ ∀ l ∈ ls, lineSat a l := by
  refine ⟨⟨0, 1, []⟩, ⟨fun t h => absurd h (by simp), fun t u h => absurd h (by simp)⟩, _, rfl, fun a h => ?_⟩
  have := h (.card (.eq [] 1)) (by decide)
  simp [lineSat, CardConstraint.sat] at this

/-- C74 is violated without objectives: the tool panics although every matching solves the problem. -/
theorem C74_violated_no_objectives : ∀ opts fuel, writePbTool opts (AssignmentData.lines ⟨1, 0, []⟩ (fuel + 3)) = .panic := by
  intro opts fuel
  rfl

/-- Three tasks and two objectives. -/
def assignDemo : AssignmentData := ⟨3, 2, [3, 6, 4, 5, 1, 9, 8, 2, 7, 1, 1, 2, 3, 5, 8, 0, 4, 4]⟩

example : assignDemo.Good := ⟨by decide, by decide, by decide, by decide⟩

example : ∀ k, k < assignDemo.nObjs →
    sumTo assignDemo.nTasks (fun t => sumTo assignDemo.nTasks (assignDemo.costOf k t)) ≤ 9223372036854775807 := by decide

example : IsMatching assignDemo.nTasks fun t => [2, 0, 1].getD t 0 :=
  ⟨by decide, fun t u ht hu => by
    have : ∀ t, t < 3 → ∀ u, u < 3 → [2, 0, 1].getD t 0 = [2, 0, 1].getD u 0 → t = u := by decide
    exact this t ht u hu⟩

example : assignDemo.matchingCost 0 (fun t => [2, 0, 1].getD t 0) = 11 := by decide

/-! ### C75 -/

/-- C75: facility location with at least one customer, one facility and one objective. -/
theorem C75_facility_location_partial (dflt : VM) {opts opts' : Options} (hfirst : opts'.firstVarIdx = opts.firstVarIdx)
    (d : FacilityData) (hd : d.Good) (hv : d.nFacilities * d.nCustomers + d.nFacilities + opts.firstVarIdx ≤ 4294967296)
    (hs : ∀ k, k < d.nObjs → sumTo d.nCustomers (fun c => sumTo d.nFacilities (d.supplyOf k c)) +
      sumTo d.nFacilities (d.openingOf k) ≤ 9223372036854775807) :
    ∃ fuel t i, writePbTool opts (d.lines fuel) = .done t ∧ MultiOptInstance.fromOpb dflt opts' t = .ok i ∧
      (∀ a, i.constrs.sat a ↔ ∃ serves isOpen, d.IsSolution serves isOpen ∧ d.Means serves isOpen a) ∧
      i.objs.length = d.nObjs ∧
      ∀ k, k < d.nObjs → ∃ o c, i.objs[k]? = some o ∧
        ∀ serves isOpen a, d.IsSolution serves isOpen → d.Means serves isOpen a →
          (d.solutionCost k serves isOpen : Int) = o.value a + c := by
  obtain ⟨fuel, t, i, h1, h2, h3, h4, h5⟩ := tool_reads dflt hfirst hd.collects (d.fits_lineList hd hv hs)
  refine ⟨fuel, t, i, h1, h2, fun a => (h3 a).trans (d.sat_iff a), ?_, fun k hk => ?_⟩
  · rw [h4, d.lineObjs_lineList, List.length_map, List.length_range]
  · obtain ⟨o, c, g1, g2⟩ := h5 k (d.objList k) (by
      rw [d.lineObjs_lineList, List.getElem?_map, List.getElem?_range hk]; rfl)
    refine ⟨o, c, g1, fun serves isOpen a hm ha => ?_⟩
    rw [← d.wsum_objList hm ha k, g2 a]

/-- Every solution of the problem is represented by an assignment. -/
theorem FacilityData.exists_means (d : FacilityData) (serves : Nat → Nat) (isOpen : Nat → Bool) :
    ∃ a, d.Means serves isOpen a := by
  refine ⟨fun v => if v < d.nFacilities * d.nCustomers then decide (serves (v / d.nFacilities) = v % d.nFacilities)
    else isOpen (v - d.nFacilities * d.nCustomers), fun c f hc hf => ?_, fun f hf => ?_⟩
  · have := index_lt hc hf
    rw [Nat.mul_comm d.nCustomers] at this
    have h1 : (c * d.nFacilities + f) / d.nFacilities = c := by
      rw [Nat.mul_comm, Nat.mul_add_div (by omega), Nat.div_eq_of_lt hf]; rfl
    have h2 : (c * d.nFacilities + f) % d.nFacilities = f := by
      rw [Nat.mul_comm, Nat.mul_add_mod, Nat.mod_eq_of_lt hf]
    simp only [if_pos this, h1, h2, decide_eq_true_eq]
  · simp

/-- C75 is violated without customers: no facility has to be opened, but the file demands that one is. -/
theorem C75_violated_no_customers : ∃ d : FacilityData, d.IsSolution (fun _ => 0) (fun _ => false) ∧
    d.solutionCost 0 (fun _ => 0) (fun _ => false) = 0 ∧
    ∃ ls, d.lines 10 = .done ls ∧ (∀ a, (∀ l ∈ ls, lineSat a l) → ¬ d.Means (fun _ => 0) (fun _ => false) a) ∧
      ∃ o, lineObjs ls = [o] ∧ ∀ a, (∀ l ∈ ls, lineSat a l) → wsum a o = 5 := by
  have key : ∀ a : Asg, CardConstraint.sat a (.eq [Lit.pos 0] 1) → a 0 = true := by
    intro a h
    simp only [CardConstraint.sat, countTrue_cons, countTrue_nil, Lit.holds_pos] at h
    cases h0 : a 0 with
    | true => rfl
    | false => rw [h0] at h; simp at h
  refine ⟨⟨1, 0, 1, [], [5]⟩, fun c h => absurd h (by simp), rfl, _, rfl, fun a h hm => ?_, _, rfl, fun a h => ?_⟩
  · have h1 := key a (h (.card (.eq [Lit.pos 0] 1)) (by decide))
    have := hm.2 0 (by decide)
    simp only [Nat.mul_zero, Nat.zero_add] at this
    rw [h1] at this
    cases this
  · have h1 := key a (h (.card (.eq [Lit.pos 0] 1)) (by decide))
    show wsum a [(Lit.pos 0, 5)] = 5
    simp [h1]

/-- Two customers, two facilities and one objective. -/
def facilityDemo : FacilityData := ⟨1, 2, 2, [1, 4, 3, 2], [10, 7]⟩

example : facilityDemo.Good := ⟨by decide, by decide, by decide, by decide, by decide, by decide⟩

example : facilityDemo.IsSolution (fun _ => 1) (fun f => f == 1) ∧
    facilityDemo.solutionCost 0 (fun _ => 1) (fun f => f == 1) = 13 := by
  refine ⟨fun c _ => ⟨?_, ?_⟩, ?_⟩
  · show 1 < facilityDemo.nFacilities; decide
  · show (1 == 1) = true; decide
  · decide

/-! ### C76 -/

/-- C76: knapsacks with at least one item and one objective: the solutions are the selections that fit, and minimising an objective
of the file is maximising the value of the items taken. -/
theorem C76_knapsack_partial (dflt : VM) {opts opts' : Options} (hfirst : opts'.firstVarIdx = opts.firstVarIdx)
    (d : KnapsackData) (nObjs : Nat) (hd : d.Good nObjs) (hv : d.items.length + opts.firstVarIdx ≤ 4294967296)
    (hs : ∀ k, k < nObjs → (d.items.map fun it => it.values.getD k 0).sum ≤ 9223372036854775807) :
    ∃ fuel t i, writePbTool opts (d.lines fuel) = .done t ∧ MultiOptInstance.fromOpb dflt opts' t = .ok i ∧
      (∀ taken : Asg, i.constrs.sat taken ↔ d.Fits taken) ∧
      i.objs.length = nObjs ∧
      ∀ k, k < nObjs → ∃ o c, i.objs[k]? = some o ∧ ∀ taken : Asg, o.value taken + (d.value k taken : Int) = c := by
  obtain ⟨fuel, t, i, h1, h2, h3, h4, h5⟩ := tool_reads dflt hfirst hd.collects (d.fits_lineList hd hv hs)
  refine ⟨fuel, t, i, h1, h2, fun a => (h3 a).trans (d.sat_iff nObjs a), ?_, fun k hk => ?_⟩
  · rw [h4, d.lineObjs_lineList, List.length_map, List.length_range]
  · obtain ⟨o, c, g1, g2⟩ := h5 k (d.objList k) (by
      rw [d.lineObjs_lineList, List.getElem?_map, List.getElem?_range hk]; rfl)
    refine ⟨o, ((itemSum d.items (fun _ => true) fun it => it.values.getD k 0 : Nat) : Int) - c, g1, fun a => ?_⟩
    have := g2 a
    rw [d.wsum_objList a k] at this
    have := d.lost_add_value k a
    omega

/-- C76 is violated without items: the tool panics, although leaving the knapsack empty is a solution. -/
theorem C76_violated_no_items (capacity : Nat) : KnapsackData.Fits ⟨[], capacity⟩ (fun _ => false) ∧
    ∀ opts fuel, writePbTool opts (KnapsackData.lines ⟨[], capacity⟩ (fuel + 3)) = .panic :=
  ⟨Nat.zero_le _, fun _ _ => rfl⟩

/-- C76 is violated without objectives: the tool panics. -/
theorem C76_violated_no_objectives : KnapsackData.Fits ⟨[⟨2, []⟩], 3⟩ (fun _ => true) ∧
    ∀ opts fuel, writePbTool opts (KnapsackData.lines ⟨[⟨2, []⟩], 3⟩ (fuel + 3)) = .panic :=
  ⟨by unfold KnapsackData.Fits; decide, fun _ _ => rfl⟩

/-- C76 is violated for capacities from 2^63 on: they become negative, and the file has no solution. -/
theorem C76_violated_large_capacity : ∃ d : KnapsackData, d.Fits (fun _ => false) ∧
    ∃ ls, d.lines 10 = .done ls ∧ ∀ a, ¬ ∀ l ∈ ls, lineSat a l := by
  refine ⟨⟨[⟨1, [1]⟩], 9223372036854775808⟩, by unfold KnapsackData.Fits; decide, _, rfl, fun a h => ?_⟩
  have := h (.pb (.ub [(Lit.pos 0, 1)] 1 (-9223372036854775808))) (by decide)
  simp only [lineSat, PbConstraint.sat] at this
  omega

/-- Three items with two values each. -/
def knapsackDemo : KnapsackData := ⟨[⟨3, [4, 1]⟩, ⟨2, [3, 5]⟩, ⟨4, [6, 0]⟩], 6⟩

example : knapsackDemo.Good 2 := ⟨by decide, by decide, by decide, by decide, by decide⟩

example : knapsackDemo.Fits (fun i => i != 0) ∧ ¬ knapsackDemo.Fits (fun _ => true) ∧
    knapsackDemo.value 0 (fun i => i != 0) = 9 := by
  unfold KnapsackData.Fits
  decide

end Problems
end RustSat
