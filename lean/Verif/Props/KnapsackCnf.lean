import Verif.Lemmas.KnapsackCnf
/-
C78: the CNF file that the tool `encodings` writes for a knapsack describes the sets of items that fit, and its objectives are the
values of the items left out. C37, continued: encoding an upper bound with the dynamic polynomial watchdog.
-/
namespace RustSat

/-- C37: `encode_ub_constr` of the dynamic polynomial watchdog, for distinct literals with positive weights, in an empty collector:
the clauses encode the constraint, over the literals of the constraint and new variables. -/
theorem C37_dpw_ub_partial {VM : Type} [ManageVars VM] [LawfulVM VM] (lits : List (Lit × Nat)) (hn : (lits.map (·.1)).Nodup) (vm : VM)
    (h : ∀ x ∈ lits, 0 < x.2 ∧ x.1.var < ManageVars.nUsed vm) (b : Nat) :
    ∃ vm' new, Dpw.encodeUbConstr lits b vm [] = .ok (vm', new) ∧
      Encodes (varsOf (lits.map (·.1))) (ManageVars.nUsed vm) (ManageVars.nUsed vm') new (fun a => wsum a lits ≤ b) :=
  Dpw.encodeUbConstr_spec hn vm h b

/-- C37 is violated by the dynamic polynomial watchdog for a weight 0: it panics, although the constraint is satisfiable. -/
theorem C37_violated_dpw_zero_weight (a : Asg) : wsum a [(Lit.pos 0, 0)] ≤ 1 ∧
    Dpw.encodeUbConstr [(Lit.pos 0, 0)] 1 (⟨1⟩ : BasicVM) [] = .panic :=
  ⟨by cases h : a 0 <;> simp [wsum, Lit.holds_pos, h], by rfl⟩

namespace Problems
open Dimacs DimacsSpec Clustering

variable {VM : Type} [ManageVars VM] [LawfulVM VM]

/-- `encodings cnf knapsack` (tools/src/bin/encodings.rs l.246-248, l.288-312, l.340-346), without reading the input. -/
def KnapsackData.cnfTool (d : KnapsackData) (single : Bool) (fuel : Nat) : SearchResult Text := writeCnfTool single (d.cnfLines fuel)

/-- The knapsack has items of positive weight, values that fit machine integers, and the encoding of its capacity needs few enough
variables. -/
structure KnapsackData.CnfGood (d : KnapsackData) (nObjs : Nat) : Prop where
  positive : ∀ it ∈ d.items, 0 < it.weight
  weights : (d.items.map (·.weight)).sum + d.capacity ≤ 9223372036854775807
  values : ∀ it ∈ d.items, it.values.length ≤ nObjs ∧ ∀ v ∈ it.values, v ≤ usizeMax
  objs : nObjs ≤ usizeMax
  vars : ∀ vm cls, d.capacityCnf = some (vm, cls) → ManageVars.nUsed vm ≤ 2147483647

/-- The lines of the encoding, and that they can be written. -/
private theorem lines_spec {d : KnapsackData} {nObjs : Nat} (hd : d.CnfGood nObjs) :
    ∃ fuel n cls, d.cnfLines fuel = .done (d.cnfLineList cls) ∧
      Encodes (fun v => v < d.items.length) d.items.length n cls d.Fits ∧
      (∀ c ∈ cls, Writable c) ∧
      (∀ c w o, McnfLine.soft c w o ∈ d.cnfLineList cls → Writable c ∧ w ≤ usizeMax ∧ o < nObjs) ∧
      ∀ l ∈ d.cnfLineList cls, (∃ c ∈ cls, l = .hard c) ∨ ∃ c w o, l = .soft c w o := by
  obtain ⟨vm, cls, h1, h2⟩ := d.capacityCnf_spec hd.weights hd.positive
  have hv := hd.vars vm cls h1
  have hle := h2.le
  obtain ⟨fuel, hf⟩ := d.run_all (by omega) cls
  have hsplit : ∀ l ∈ d.cnfLineList cls, (∃ c ∈ cls, l = .hard c) ∨
      ∃ p ∈ d.items.zipIdx, ∃ q ∈ p.1.values.zipIdx, l = .soft [Lit.pos p.2] q.1 q.2 := by
    intro l hl
    obtain h | h := List.mem_append.1 hl
    · obtain ⟨c, hc, rfl⟩ := List.mem_map.1 h
      exact .inl ⟨c, hc, rfl⟩
    · obtain ⟨p, hp, h⟩ := List.mem_flatMap.1 h
      obtain ⟨q, hq, rfl⟩ := List.mem_map.1 h
      exact .inr ⟨p, hp, q, hq, rfl⟩
  refine ⟨fuel, ManageVars.nUsed vm, cls, by rw [KnapsackData.cnfLines, h1]; exact hf, h2, fun c hc l hl => ?_, fun c w o hm => ?_,
    fun l hl => ?_⟩
  · obtain h | h := h2.vars c hc l hl
    · have : l.var < d.items.length := h
      omega
    · omega
  · obtain ⟨c', _, e⟩ | ⟨p, hp, q, hq, e⟩ := hsplit _ hm
    · cases e
    · cases e
      have hmp := List.mem_zipIdx hp
      have hmq := List.mem_zipIdx hq
      have hit : p.1 ∈ d.items := by rw [hmp.2.2]; exact List.getElem_mem _
      have hval : q.1 ∈ p.1.values := by rw [hmq.2.2]; exact List.getElem_mem _
      have hg := hd.values p.1 hit
      refine ⟨fun l hl => ?_, hg.2 _ hval, by omega⟩
      rw [List.mem_singleton.1 hl, Lit.var_pos]
      omega
  · obtain h | ⟨p, _, q, _, e⟩ := hsplit l hl
    · exact .inl h
    · exact .inr ⟨_, _, _, e⟩

/-- C78: the solutions of the hard clauses are the sets of items that fit, and every objective is, up to a constant, what the value
of the items falls short of. -/
theorem C78_knapsack_partial (dflt : VM) (d : KnapsackData) (nObjs : Nat) (hd : d.CnfGood nObjs) :
    ∃ fuel t i, d.cnfTool false fuel = .done t ∧ MultiOptInstance.fromDimacs dflt t = .ok i ∧
      (∀ a, i.constrs.sat a → d.Fits a) ∧
      (∀ taken, d.Fits taken → ∃ a, i.constrs.sat a ∧ ∀ j, j < d.items.length → a j = taken j) ∧
      ∀ k, ∃ c : Int, ∀ a, objValue i.objs k a + (d.value k a : Int) = c := by
  obtain ⟨fuel, n, cls, h1, h2, h3, h4, h5⟩ := lines_spec hd
  obtain ⟨t, ht, hr⟩ := C43_write_lines (d.cnfLineList cls) (by
    intro l hl
    obtain ⟨c, hc, rfl⟩ | ⟨c, w, o, rfl⟩ := h5 l hl
    · exact h3 c hc
    · have := h4 c w o hl
      have ho := hd.objs
      exact ⟨this.1, this.2.1, by omega⟩)
  obtain ⟨i, hi, hinst⟩ := from_mcnf dflt hr (by
    intro j w c hm
    obtain ⟨x, hx, e⟩ := List.mem_map.1 hm
    cases x with
    | soft c w k => cases e; omega
    | _ => cases e)
  have hsat : ∀ a, i.constrs.sat a ↔ ClauseSet.sat a cls := by
    intro a
    unfold SatInstance.sat
    rw [hinst.cnf, hinst.cards, hinst.pbs, d.hards_lines]
    simp only [List.not_mem_nil, false_imp_iff, implies_true, and_true]
  refine ⟨fuel, t, i, ?_, hi, fun a ha => h2.sound a ((hsat a).1 ha), fun taken htk => ?_, fun k => ?_⟩
  · simp only [KnapsackData.cnfTool, writeCnfTool, h1, Bool.false_eq_true, if_false, ht]
  · obtain ⟨a, g1, g2⟩ := h2.complete taken htk
    exact ⟨a, (hsat a).2 g2, fun j hj => g1 j (.inl hj)⟩
  · refine ⟨((itemSum d.items (fun _ => true) fun it => it.values.getD k 0 : Nat) : Int), fun a => ?_⟩
    rw [hinst.value, d.cost_lines, ← d.lost_add_value k a]
    exact (Int.natCast_add _ _).symm

private theorem sumTo_zero (n : Nat) : sumTo n (fun _ => 0) = 0 := by
  induction n with
  | zero => rfl
  | succ n ih => rw [sumTo_succ, ih]

private theorem sumTo_add (n : Nat) (f g : Nat → Nat) : sumTo n (fun i => f i + g i) = sumTo n f + sumTo n g := by
  induction n with
  | zero => rfl
  | succ n ih =>
    rw [sumTo_succ, sumTo_succ, sumTo_succ, ih]
    omega

/-- Written with a single objective, a file has the sum of the objectives. -/
private theorem single_cost (a : Asg) (n : Nat) : ∀ ls : List McnfLine, (∀ c w o, McnfLine.soft c w o ∈ ls → o < n) →
    clsCost a (softs ((ls.map mcnfToWcnf).map WcnfLine.datum)) =
      sumTo n fun k => clsCost a (moSofts (k + 1) (ls.map McnfLine.datum)) := by
  intro ls
  induction ls with
  | nil =>
    intro _
    exact (sumTo_zero n).symm
  | cons l ls ih =>
    intro h
    have ih := ih fun c w o hm => h c w o (List.mem_cons_of_mem _ hm)
    cases l with
    | comment t => exact ih
    | hard c => exact ih
    | soft c w o =>
      have ho := h c w o List.mem_cons_self
      have e : ∀ k, clsCost a (moSofts (k + 1) ((McnfLine.soft c w o :: ls).map McnfLine.datum)) =
          (if o = k then (if Clause.falsified a c then w else 0) else 0) + clsCost a (moSofts (k + 1) (ls.map McnfLine.datum)) := by
        intro k
        by_cases hk : o = k
        · subst hk
          simp [McnfLine.datum, moSofts, clsCost]
        · simp [McnfLine.datum, moSofts, hk]
      have e2 : clsCost a (softs (((McnfLine.soft c w o :: ls).map mcnfToWcnf).map WcnfLine.datum)) =
          (if Clause.falsified a c then w else 0) + clsCost a (softs ((ls.map mcnfToWcnf).map WcnfLine.datum)) := rfl
      rw [e2, ih, sumTo_congr fun k _ => e k, sumTo_add, sumTo_single n o fun _ => if Clause.falsified a c then w else 0, if_pos ho]

private theorem single_hards : ∀ ls : List McnfLine,
    hards ((ls.map mcnfToWcnf).map WcnfLine.datum) = moHards (ls.map McnfLine.datum) := by
  intro ls
  induction ls with
  | nil => rfl
  | cons l ls ih =>
    cases l with
    | hard c => exact congrArg (c :: ·) ih
    | _ => exact ih

/-- C78: with a single objective, it is, up to a constant, what the sum of the values falls short of. -/
theorem C78_knapsack_single_partial (dflt : VM) (d : KnapsackData) (nObjs : Nat) (hd : d.CnfGood nObjs) :
    ∃ fuel t i, d.cnfTool true fuel = .done t ∧ OptInstance.fromDimacs dflt t = .ok i ∧
      (∀ a, i.constrs.sat a → d.Fits a) ∧
      (∀ taken, d.Fits taken → ∃ a, i.constrs.sat a ∧ ∀ j, j < d.items.length → a j = taken j) ∧
      ∃ c : Int, ∀ a, i.obj.value a + ((sumTo nObjs fun k => d.value k a : Nat) : Int) = c := by
  obtain ⟨fuel, n, cls, h1, h2, h3, h4, h5⟩ := lines_spec hd
  obtain ⟨t, ht, hr⟩ := C42_write_lines_partial ((d.cnfLineList cls).map mcnfToWcnf) (by
    intro x hx
    obtain ⟨l, hl, rfl⟩ := List.mem_map.1 hx
    obtain ⟨c, hc, rfl⟩ | ⟨c, w, o, rfl⟩ := h5 l hl
    · exact h3 c hc
    · have := h4 c w o hl
      exact ⟨this.1, this.2.1⟩)
  obtain ⟨i, hi, hinst, _⟩ := from_post22 dflt hr
  have hsat : ∀ a, i.constrs.sat a ↔ ClauseSet.sat a cls := by
    intro a
    unfold SatInstance.sat
    rw [hinst.cnf, hinst.cards, hinst.pbs, single_hards, d.hards_lines]
    simp only [List.not_mem_nil, false_imp_iff, implies_true, and_true]
  refine ⟨fuel, t, i, ?_, hi, fun a ha => h2.sound a ((hsat a).1 ha), fun taken htk => ?_,
    ((sumTo nObjs fun k => itemSum d.items (fun _ => true) fun it => it.values.getD k 0 : Nat) : Int), fun a => ?_⟩
  · simp only [KnapsackData.cnfTool, writeCnfTool, h1, if_true, ht]
  · obtain ⟨a, g1, g2⟩ := h2.complete taken htk
    exact ⟨a, (hsat a).2 g2, fun j hj => g1 j (.inl hj)⟩
  · rw [hinst.value, single_cost a nObjs _ fun c w o hm => (h4 c w o hm).2.2, sumTo_congr fun k _ => d.cost_lines cls a k,
      sumTo_congr fun k _ => (d.lost_add_value k a).symm, sumTo_add]
    exact (Int.natCast_add _ _).symm

/-- C78 is violated by items without weight: the tool panics, although taking everything fits. -/
theorem C78_violated_weightless_item : ∃ d : KnapsackData, d.Fits (fun _ => true) ∧
    ∀ single fuel, d.cnfTool single fuel = .panic := by
  refine ⟨⟨[⟨2, [3]⟩, ⟨0, [1]⟩], 4⟩, by unfold KnapsackData.Fits; decide, fun single fuel => ?_⟩
  have : KnapsackData.capacityCnf ⟨[⟨2, [3]⟩, ⟨0, [1]⟩], 4⟩ = none := by rfl
  simp only [KnapsackData.cnfTool, KnapsackData.cnfLines, this, writeCnfTool]

/-- C78 is violated for capacities from 2^63 on: the tool panics, although everything fits. -/
theorem C78_violated_large_capacity : ∃ d : KnapsackData, d.Fits (fun _ => true) ∧
    ∀ single fuel, d.cnfTool single fuel = .panic := by
  refine ⟨⟨[⟨2, [3]⟩], 9223372036854775808⟩, by unfold KnapsackData.Fits; decide, fun single fuel => ?_⟩
  have : KnapsackData.capacityCnf ⟨[⟨2, [3]⟩], 9223372036854775808⟩ = none := by rfl
  simp only [KnapsackData.cnfTool, KnapsackData.cnfLines, this, writeCnfTool]

/-! ### A concrete case -/

/-- Three items with two values each. -/
def knapsackCnfDemo : KnapsackData := ⟨[⟨3, [4, 1]⟩, ⟨2, [3, 5]⟩, ⟨1, [6, 0]⟩], 4⟩

example : knapsackCnfDemo.CnfGood 2 := by
  refine ⟨by decide, by decide, by decide, by decide, fun vm cls h => ?_⟩
  have : (knapsackCnfDemo.capacityCnf.map fun x => x.1.nextVar) = some 9 := by decide
  rw [h] at this
  have : vm.nextVar = 9 := by simpa using this
  show vm.nextVar ≤ _
  omega

example : knapsackCnfDemo.Fits (fun i => i != 1) ∧ ¬ knapsackCnfDemo.Fits (fun i => i != 2) ∧
    knapsackCnfDemo.value 0 (fun i => i != 1) = 10 := by
  unfold KnapsackData.Fits
  decide

end Problems
end RustSat
