import Verif.Lemmas.ProblemEnc
import Verif.Lemmas.Constraints
import Verif.Props.Opb
import Mathlib.Data.Fintype.EquivFin
/-
The lines that the pseudo-Boolean problem encodings produce, and their meaning.
-/
namespace RustSat
namespace Problems
open Opb OpbSpec DimacsSpec

variable {VM : Type} [ManageVars VM] [LawfulVM VM]

theorem both_some {α β : Type} (a : α) (b : β) : both (some a) (some b) = some (a, b) := rfl

theorem castLit_pos {i : Nat} (h : i < 2147483647) : castLit i false = some (Lit.pos i) := castLit_eq false h

theorem castLit_negOf {i : Nat} (h : i < 2147483647) : castLit i true = some (Lit.negOf i) := castLit_eq true h

/-- Choosing a value for every index below a bound. -/
theorem choose_below {n : Nat} {P : Nat → Nat → Prop} (h : ∀ i, i < n → ∃ j, P i j) : ∃ f : Nat → Nat, ∀ i, i < n → P i (f i) := by
  classical
  refine ⟨fun i => if hi : i < n then (h i hi).choose else 0, fun i hi => ?_⟩
  simp only [dif_pos hi]
  exact (h i hi).choose_spec

/-- Matchings give a task to every agent. -/
theorem IsMatching.surjective {n : Nat} {f : Nat → Nat} (h : IsMatching n f) : ∀ g, g < n → ∃ t, t < n ∧ f t = g := by
  intro g hg
  let F : Fin n → Fin n := fun i => ⟨f i.1, h.1 i.1 i.2⟩
  have hF : Function.Injective F := by
    intro x y e
    have e : f x.1 = f y.1 := congrArg Fin.val e
    exact Fin.ext (h.2 x.1 y.1 x.2 y.2 e)
  obtain ⟨t, ht⟩ := Finite.injective_iff_surjective.1 hF ⟨g, hg⟩
  exact ⟨t.1, t.2, congrArg Fin.val ht⟩

theorem hint_fits (first vars constrs : Nat) : LineFits first (.comment (hintText vars constrs)) := by
  have e : ∀ t : Text, '\n' ∉ t → '\r' ∉ t → NoBreak t := fun t h h' => ⟨h, h'⟩
  exact (((e _ (by decide) (by decide)).append (noBreak_showNat vars)).append (e _ (by decide) (by decide))).append
    (noBreak_showNat constrs)

/-- Writing lines that fit and reading the file again. -/
theorem tool_reads (dflt : VM) {opts opts' : Options} (hfirst : opts'.firstVarIdx = opts.firstVarIdx)
    {lines : Nat → SearchResult (List FileLine)} {ls : List FileLine} (hl : ∃ fuel, lines fuel = .done ls)
    (h : ∀ l ∈ ls, LineFits opts.firstVarIdx l) :
    ∃ fuel t i, writePbTool opts (lines fuel) = .done t ∧ MultiOptInstance.fromOpb dflt opts' t = .ok i ∧
      (∀ a, i.constrs.sat a ↔ ∀ l ∈ ls, lineSat a l) ∧ i.objs.length = (lineObjs ls).length ∧
      ∀ (k : Nat) o, (lineObjs ls)[k]? = some o →
        ∃ o' c, i.objs[k]? = some o' ∧ ∀ a, (wsum a o : Int) = o'.value a + c := by
  obtain ⟨fuel, hl⟩ := hl
  obtain ⟨t, i, h1, h2, _, h4, h5, h6⟩ := C44_write_lines dflt ls hfirst h
  refine ⟨fuel, t, i, ?_, h2, h4, h5, fun k o ho => ?_⟩
  · simp only [writePbTool, hl, h1]
  · obtain ⟨o', c, g1, _, g3⟩ := h6 k o ho
    exact ⟨o', c, g1, g3⟩

/-! ### Assignment problems -/

def AssignmentData.objList (d : AssignmentData) (k : Nat) : List (Lit × Nat) :=
  (List.range d.nTasks).flatMap fun t => (List.range d.nTasks).map fun g => (Lit.pos (d.nTasks * t + g), d.costOf k t g)

def AssignmentData.taskLits (d : AssignmentData) (g : Nat) : List Lit :=
  (List.range d.nTasks).map fun t => Lit.pos (d.nTasks * t + g)

def AssignmentData.agentLits (d : AssignmentData) (t : Nat) : List Lit :=
  (List.range d.nTasks).map fun g => Lit.pos (d.nTasks * t + g)

def AssignmentData.lineList (d : AssignmentData) : List FileLine :=
  .comment (hintText (d.nTasks * d.nTasks) (2 * d.nTasks)) ::
  .comment "MO Assignment instance generated by RustSAT".toList ::
  ((List.range d.nObjs).map (fun k => .objective (d.objList k)) ++
    ((List.range d.nTasks).map (fun g => .card (.eq (d.taskLits g) 1)) ++
      ((List.range d.nTasks).map (fun t => .card (.eq (d.agentLits t) 1)) ++ [])))

theorem AssignmentData.Good.selector {d : AssignmentData} (h : d.Good) {t g : Nat} (ht : t < d.nTasks) (hg : g < d.nTasks) :
    d.selector t g = some (Lit.pos (d.nTasks * t + g)) := by
  have := index_lt ht hg
  have := h.vars
  rw [AssignmentData.selector, castLit_pos]
  rw [Nat.mul_comm]
  omega

theorem AssignmentData.Good.cost {d : AssignmentData} (h : d.Good) {k t g : Nat} (hk : k < d.nObjs) (ht : t < d.nTasks)
    (hg : g < d.nTasks) : d.cost t g k = some (d.costOf k t g) := by
  have h1 := index_lt ht hg
  have h2 := index_lt hk h1
  rw [← h.costs] at h2
  have e : k * d.nTasks * d.nTasks + t * d.nTasks + g = k * (d.nTasks * d.nTasks) + (t * d.nTasks + g) := by
    rw [Nat.mul_assoc]; omega
  rw [AssignmentData.cost, AssignmentData.costOf, e, List.getElem?_eq_getElem h2, List.getD_eq_getElem?_getD, List.getElem?_eq_getElem h2, Option.getD_some]

theorem AssignmentData.Good.collects {d : AssignmentData} (h : d.Good) : ∃ fuel, d.lines fuel = .done d.lineList := by
  refine collect_step rfl (collect_step rfl ?_)
  refine collect_all (mk := fun k => AssignLine.objective k) (after := some (.oneTask 0)) h.objs ?_
    (collect_all (mk := fun k => AssignLine.oneTask k) (after := some (.oneAgent 0)) h.tasks ?_
      (collect_all (mk := fun k => AssignLine.oneAgent k) (after := none) h.tasks ?_ ⟨0, rfl⟩))
  · intro k hk
    have : allSome ((List.range d.nTasks).flatMap fun task => (List.range d.nTasks).map fun agent =>
        both (d.selector task agent) (d.cost task agent k)) = some (d.objList k) := by
      refine allSome_flatMap fun t ht => allSome_map fun g hg => ?_
      rw [List.mem_range] at ht hg
      rw [h.selector ht hg, h.cost hk ht hg]
      rfl
    by_cases e : k + 1 < d.nObjs <;> simp only [AssignmentData.next, this, Option.map_some, e, if_true, if_false]
  · intro g hg
    have : allSome ((List.range d.nTasks).map fun task => d.selector task g) = some (d.taskLits g) :=
      allSome_map fun t ht => h.selector (List.mem_range.1 ht) hg
    by_cases e : g + 1 < d.nTasks <;> simp only [AssignmentData.next, this, Option.map_some, e, if_true, if_false]
  · intro t ht
    have : allSome ((List.range d.nTasks).map fun agent => d.selector t agent) = some (d.agentLits t) :=
      allSome_map fun g hg => h.selector ht (List.mem_range.1 hg)
    simp only [AssignmentData.next, this, Option.map_some]

theorem AssignmentData.lineObjs_lineList (d : AssignmentData) : lineObjs d.lineList = (List.range d.nObjs).map d.objList := by
  have : ∀ t ls, lineObjs (.comment t :: ls) = lineObjs ls := fun _ _ => rfl
  rw [AssignmentData.lineList, this, this, lineObjs_append', lineObjs_map_objective, lineObjs_none, List.append_nil]
  intro l hl o e
  subst e
  simp at hl

theorem AssignmentData.sat_lineList (d : AssignmentData) (a : Asg) : (∀ l ∈ d.lineList, lineSat a l) ↔
    (∀ g, g < d.nTasks → ∃ t, t < d.nTasks ∧ ∀ u, u < d.nTasks → (a (d.nTasks * u + g) = true ↔ u = t)) ∧
    (∀ t, t < d.nTasks → ∃ g, g < d.nTasks ∧ ∀ u, u < d.nTasks → (a (d.nTasks * t + u) = true ↔ u = g)) := by
  simp only [AssignmentData.lineList, List.mem_cons, List.mem_append, List.mem_map, List.mem_range, List.not_mem_nil, or_false]
  have e1 : ∀ g, lineSat a (.card (.eq (d.taskLits g) 1)) ↔
      ∃ t, t < d.nTasks ∧ ∀ u, u < d.nTasks → (a (d.nTasks * u + g) = true ↔ u = t) := by
    intro g
    have := countTrue_range_one a d.nTasks fun t => Lit.pos (d.nTasks * t + g)
    simp only [Lit.holds_pos] at this
    exact this
  have e2 : ∀ t, lineSat a (.card (.eq (d.agentLits t) 1)) ↔
      ∃ g, g < d.nTasks ∧ ∀ u, u < d.nTasks → (a (d.nTasks * t + u) = true ↔ u = g) := by
    intro t
    have := countTrue_range_one a d.nTasks fun g => Lit.pos (d.nTasks * t + g)
    simp only [Lit.holds_pos] at this
    exact this
  constructor
  · exact fun h => ⟨fun g hg => (e1 g).1 (h _ (.inr (.inr (.inr (.inl ⟨g, hg, rfl⟩))))),
      fun t ht => (e2 t).1 (h _ (.inr (.inr (.inr (.inr ⟨t, ht, rfl⟩)))))⟩
  · rintro ⟨h1, h2⟩ l (rfl | rfl | ⟨k, _, rfl⟩ | ⟨g, hg, rfl⟩ | ⟨t, ht, rfl⟩)
    · trivial
    · trivial
    · trivial
    · exact (e1 g).2 (h1 g hg)
    · exact (e2 t).2 (h2 t ht)

/-- The solutions of the constraints are the matchings. -/
theorem AssignmentData.sat_iff (d : AssignmentData) (a : Asg) : (∀ l ∈ d.lineList, lineSat a l) ↔
    ∃ agent, IsMatching d.nTasks agent ∧ d.Means agent a := by
  rw [d.sat_lineList a]
  constructor
  · rintro ⟨h1, h2⟩
    obtain ⟨f, hf⟩ := choose_below h2
    refine ⟨f, ⟨fun t ht => (hf t ht).1, fun t u ht hu e => ?_⟩, fun t g ht hg => ?_⟩
    · obtain ⟨s, _, hs⟩ := h1 (f t) (hf t ht).1
      have h3 := (hs t ht).1 (((hf t ht).2 _ (hf t ht).1).2 rfl)
      have h4 := (hs u hu).1 (((hf u hu).2 _ (hf t ht).1).2 e)
      omega
    · rw [(hf t ht).2 g hg]
      exact eq_comm
  · rintro ⟨f, hf, hm⟩
    refine ⟨fun g hg => ?_, fun t ht => ⟨f t, hf.1 t ht, fun u hu => (hm t u ht hu).trans eq_comm⟩⟩
    obtain ⟨t, ht, e⟩ := hf.surjective g hg
    refine ⟨t, ht, fun u hu => (hm u g hu hg).trans ⟨fun e' => hf.2 u t hu ht (e'.trans e.symm), fun e' => e' ▸ e⟩⟩

theorem AssignmentData.wsum_objList (d : AssignmentData) {a : Asg} {agent : Nat → Nat} (h : IsMatching d.nTasks agent)
    (hm : d.Means agent a) (k : Nat) : wsum a (d.objList k) = d.matchingCost k agent := by
  rw [AssignmentData.objList, wsum_nested, AssignmentData.matchingCost]
  refine sumTo_congr fun t ht => ?_
  have : sumTo d.nTasks (fun g => if (Lit.pos (d.nTasks * t + g)).holds a then d.costOf k t g else 0) =
      sumTo d.nTasks fun g => if agent t = g then d.costOf k t g else 0 := by
    refine sumTo_congr fun g hg => ?_
    rw [Lit.holds_pos]
    by_cases e : agent t = g
    · rw [if_pos e, if_pos ((hm t g ht hg).2 e)]
    · rw [if_neg e, if_neg fun h => e ((hm t g ht hg).1 h)]
  rw [this, sumTo_single, if_pos (h.1 t ht)]

theorem AssignmentData.fits_lineList (d : AssignmentData) {first : Nat} (hg : d.Good)
    (hv : d.nTasks * d.nTasks + first ≤ 4294967296)
    (hs : ∀ k, k < d.nObjs → sumTo d.nTasks (fun t => sumTo d.nTasks (d.costOf k t)) ≤ 9223372036854775807) :
    ∀ l ∈ d.lineList, LineFits first l := by
  have hvar : ∀ t g, t < d.nTasks → g < d.nTasks → VarFits first (Lit.pos (d.nTasks * t + g)) := by
    intro t g ht hg'
    have := index_lt ht hg'
    rw [Nat.mul_comm t] at this
    have := hg.vars
    exact ⟨by rw [Lit.var_pos]; omega, by rw [Lit.var_pos]; omega⟩
  have hlen : d.nTasks ≤ d.nTasks * d.nTasks := Nat.le_mul_of_pos_left _ hg.tasks
  simp only [AssignmentData.lineList, List.mem_cons, List.mem_append, List.mem_map, List.mem_range, List.not_mem_nil, or_false]
  rintro l (rfl | rfl | ⟨k, hk, rfl⟩ | ⟨g, hg', rfl⟩ | ⟨t, ht, rfl⟩)
  · exact hint_fits _ _ _
  · exact ⟨by decide, by decide⟩
  · refine ⟨fun p hp => ?_, ?_⟩
    · simp only [AssignmentData.objList, List.mem_flatMap, List.mem_map, List.mem_range] at hp
      obtain ⟨t, ht, g, hg', rfl⟩ := hp
      exact hvar t g ht hg'
    · rw [AssignmentData.objList, wtotal_nested]
      exact hs k hk
  · refine ⟨fun p hp => ?_, ?_⟩
    · simp only [CardConstraint.lits, AssignmentData.taskLits, List.mem_map, List.mem_range] at hp
      obtain ⟨t, ht, rfl⟩ := hp
      exact hvar t g ht hg'
    · have := hg.vars
      simp only [CardConstraint.lits, CardConstraint.bound, AssignmentData.taskLits, List.length_map, List.length_range]
      omega
  · refine ⟨fun p hp => ?_, ?_⟩
    · simp only [CardConstraint.lits, AssignmentData.agentLits, List.mem_map, List.mem_range] at hp
      obtain ⟨g, hg', rfl⟩ := hp
      exact hvar t g ht hg'
    · have := hg.vars
      simp only [CardConstraint.lits, CardConstraint.bound, AssignmentData.agentLits, List.length_map, List.length_range]
      omega

/-! ### Facility location -/

def FacilityData.objList (d : FacilityData) (k : Nat) : List (Lit × Nat) :=
  ((List.range d.nCustomers).flatMap fun c => (List.range d.nFacilities).map fun f =>
    (Lit.pos (c * d.nFacilities + f), d.supplyOf k c f)) ++
  (List.range d.nFacilities).map fun f => (Lit.pos (d.nFacilities * d.nCustomers + f), d.openingOf k f)

def FacilityData.oneLits (d : FacilityData) (c : Nat) : List Lit :=
  (List.range d.nFacilities).map fun f => Lit.pos (c * d.nFacilities + f)

def FacilityData.openClause (d : FacilityData) (f c : Nat) : Clause :=
  [Lit.neg (Lit.pos (c * d.nFacilities + f)), Lit.pos (d.nFacilities * d.nCustomers + f)]

def FacilityData.lineList (d : FacilityData) : List FileLine :=
  .comment (hintText ((d.nCustomers + 1) * d.nFacilities) (d.nCustomers * (d.nFacilities + 1))) ::
  .comment "MO uncapacitated facility location instance generated by RustSAT".toList ::
  ((List.range d.nObjs).map (fun k => .objective (d.objList k)) ++
    ((List.range d.nCustomers).map (fun c => .card (.eq (d.oneLits c) 1)) ++
      ((List.range d.nFacilities).flatMap (fun f => (List.range d.nCustomers).map fun c => .clause (d.openClause f c)) ++ [])))

theorem FacilityData.Good.selected {d : FacilityData} (h : d.Good) {c f : Nat} (hc : c < d.nCustomers) (hf : f < d.nFacilities) :
    d.selected c f = some (Lit.pos (c * d.nFacilities + f)) := by
  have := index_lt hc hf
  rw [Nat.mul_comm d.nCustomers] at this
  have := h.vars
  rw [FacilityData.selected, castLit_pos]
  omega

theorem FacilityData.Good.openLit {d : FacilityData} (h : d.Good) {f : Nat} (hf : f < d.nFacilities) :
    d.openLit f = some (Lit.pos (d.nFacilities * d.nCustomers + f)) := by
  have := h.vars
  rw [FacilityData.openLit, castLit_pos]
  omega

theorem FacilityData.Good.supplyCost {d : FacilityData} (h : d.Good) {k c f : Nat} (hk : k < d.nObjs) (hc : c < d.nCustomers)
    (hf : f < d.nFacilities) : d.supplyCost k c f = some (d.supplyOf k c f) := by
  have h1 := index_lt hc hf
  rw [Nat.mul_comm d.nCustomers] at h1
  have h2 := index_lt hk h1
  rw [← h.supply] at h2
  have e : k * d.nFacilities * d.nCustomers + c * d.nFacilities + f =
      k * (d.nFacilities * d.nCustomers) + (c * d.nFacilities + f) := by
    rw [Nat.mul_assoc]; omega
  rw [FacilityData.supplyCost, FacilityData.supplyOf, e, List.getElem?_eq_getElem h2, List.getD_eq_getElem?_getD, List.getElem?_eq_getElem h2, Option.getD_some]

theorem FacilityData.Good.openingCost {d : FacilityData} (h : d.Good) {k f : Nat} (hk : k < d.nObjs)
    (hf : f < d.nFacilities) : d.openingCost k f = some (d.openingOf k f) := by
  have h2 := index_lt hk hf
  rw [← h.opening] at h2
  rw [FacilityData.openingCost, FacilityData.openingOf, List.getElem?_eq_getElem h2, List.getD_eq_getElem?_getD, List.getElem?_eq_getElem h2, Option.getD_some]

theorem FacilityData.Good.collects {d : FacilityData} (h : d.Good) : ∃ fuel, d.lines fuel = .done d.lineList := by
  refine collect_step rfl (collect_step rfl ?_)
  refine collect_all (mk := fun k => FacilityLine.objective k) (after := some (.oneFacility 0)) h.objs ?_
    (collect_all (mk := fun k => FacilityLine.oneFacility k) (after := some (.mustOpen 0 0)) h.customers ?_
      (collect_nested (mk := fun f c => FacilityLine.mustOpen f c) (after := none)
        (line := fun f c => FileLine.clause (d.openClause f c)) h.facilities h.customers ?_ ⟨0, rfl⟩))
  · intro k hk
    have : allSome (((List.range d.nCustomers).flatMap fun customer => (List.range d.nFacilities).map fun fac =>
        both (d.selected customer fac) (d.supplyCost k customer fac)) ++
        (List.range d.nFacilities).map fun fac => both (d.openLit fac) (d.openingCost k fac)) = some (d.objList k) := by
      refine allSome_append (allSome_flatMap fun c hc => allSome_map fun f hf => ?_) (allSome_map fun f hf => ?_)
      · rw [List.mem_range] at hc hf
        rw [h.selected hc hf, h.supplyCost hk hc hf]
        rfl
      · rw [List.mem_range] at hf
        rw [h.openLit hf, h.openingCost hk hf]
        rfl
    by_cases e : k + 1 < d.nObjs <;> simp only [FacilityData.next, this, Option.map_some, e, if_true, if_false]
  · intro c hc
    have : allSome ((List.range d.nFacilities).map fun fac => d.selected c fac) = some (d.oneLits c) :=
      allSome_map fun f hf => h.selected hc (List.mem_range.1 hf)
    by_cases e : c + 1 < d.nCustomers <;> simp only [FacilityData.next, this, Option.map_some, e, if_true, if_false]
  · intro f c hf hc
    simp only [FacilityData.next, h.selected hc hf, h.openLit hf, both, Option.map_some, Atomics.litImplLit,
      FacilityData.openClause]

theorem FacilityData.lineObjs_lineList (d : FacilityData) : lineObjs d.lineList = (List.range d.nObjs).map d.objList := by
  have : ∀ t ls, lineObjs (.comment t :: ls) = lineObjs ls := fun _ _ => rfl
  rw [FacilityData.lineList, this, this, lineObjs_append', lineObjs_map_objective, lineObjs_none, List.append_nil]
  intro l hl o e
  subst e
  simp at hl

theorem FacilityData.sat_lineList (d : FacilityData) (a : Asg) : (∀ l ∈ d.lineList, lineSat a l) ↔
    (∀ c, c < d.nCustomers → ∃ f, f < d.nFacilities ∧ ∀ u, u < d.nFacilities → (a (c * d.nFacilities + u) = true ↔ u = f)) ∧
    (∀ f c, f < d.nFacilities → c < d.nCustomers → a (c * d.nFacilities + f) = true →
      a (d.nFacilities * d.nCustomers + f) = true) := by
  simp only [FacilityData.lineList, List.mem_cons, List.mem_append, List.mem_map, List.mem_flatMap, List.mem_range,
    List.not_mem_nil, or_false]
  have e1 : ∀ c, lineSat a (.card (.eq (d.oneLits c) 1)) ↔
      ∃ f, f < d.nFacilities ∧ ∀ u, u < d.nFacilities → (a (c * d.nFacilities + u) = true ↔ u = f) := by
    intro c
    have := countTrue_range_one a d.nFacilities fun f => Lit.pos (c * d.nFacilities + f)
    simp only [Lit.holds_pos] at this
    exact this
  have e2 : ∀ f c, lineSat a (.clause (d.openClause f c)) ↔
      (a (c * d.nFacilities + f) = true → a (d.nFacilities * d.nCustomers + f) = true) := by
    intro f c
    simp only [lineSat, Clause.sat, FacilityData.openClause, List.mem_cons, List.not_mem_nil, or_false, exists_eq_or_imp,
      exists_eq_left, Lit.holds_neg, Lit.holds_pos, Bool.not_eq_true']
    cases a (c * d.nFacilities + f) <;> simp
  constructor
  · exact fun h => ⟨fun c hc => (e1 c).1 (h _ (.inr (.inr (.inr (.inl ⟨c, hc, rfl⟩))))),
      fun f c hf hc => (e2 f c).1 (h _ (.inr (.inr (.inr (.inr ⟨f, hf, c, hc, rfl⟩)))))⟩
  · rintro ⟨h1, h2⟩ l (rfl | rfl | ⟨k, _, rfl⟩ | ⟨c, hc, rfl⟩ | ⟨f, hf, c, hc, rfl⟩)
    · trivial
    · trivial
    · trivial
    · exact (e1 c).2 (h1 c hc)
    · exact (e2 f c).2 (h2 f c hf hc)

/-- The solutions of the constraints are the solutions of the problem. -/
theorem FacilityData.sat_iff (d : FacilityData) (a : Asg) : (∀ l ∈ d.lineList, lineSat a l) ↔
    ∃ serves isOpen, d.IsSolution serves isOpen ∧ d.Means serves isOpen a := by
  rw [d.sat_lineList a]
  constructor
  · rintro ⟨h1, h2⟩
    obtain ⟨f, hf⟩ := choose_below h1
    refine ⟨f, fun f => a (d.nFacilities * d.nCustomers + f), fun c hc => ⟨(hf c hc).1, ?_⟩, fun c g hc hg => ?_, fun _ _ => rfl⟩
    · exact h2 _ c (hf c hc).1 hc (((hf c hc).2 _ (hf c hc).1).2 rfl)
    · rw [(hf c hc).2 g hg]
      exact eq_comm
  · rintro ⟨f, p, hf, hm, ho⟩
    refine ⟨fun c hc => ⟨f c, (hf c hc).1, fun u hu => (hm c u hc hu).trans eq_comm⟩, fun g c hg hc h => ?_⟩
    rw [ho g hg, ← (hm c g hc hg).1 h]
    exact (hf c hc).2

theorem FacilityData.wsum_objList (d : FacilityData) {a : Asg} {serves : Nat → Nat} {isOpen : Nat → Bool}
    (h : d.IsSolution serves isOpen) (hm : d.Means serves isOpen a) (k : Nat) :
    wsum a (d.objList k) = d.solutionCost k serves isOpen := by
  rw [FacilityData.objList, wsum_append, wsum_nested, wsum_range, FacilityData.solutionCost]
  congr 1
  · refine sumTo_congr fun c hc => ?_
    have : sumTo d.nFacilities (fun f => if (Lit.pos (c * d.nFacilities + f)).holds a then d.supplyOf k c f else 0) =
        sumTo d.nFacilities fun f => if serves c = f then d.supplyOf k c f else 0 := by
      refine sumTo_congr fun f hf => ?_
      rw [Lit.holds_pos]
      by_cases e : serves c = f
      · rw [if_pos e, if_pos ((hm.1 c f hc hf).2 e)]
      · rw [if_neg e, if_neg fun h => e ((hm.1 c f hc hf).1 h)]
    rw [this, sumTo_single, if_pos (h c hc).1]
  · refine sumTo_congr fun f hf => ?_
    rw [Lit.holds_pos, hm.2 f hf]

theorem FacilityData.fits_lineList (d : FacilityData) {first : Nat} (hg : d.Good)
    (hv : d.nFacilities * d.nCustomers + d.nFacilities + first ≤ 4294967296)
    (hs : ∀ k, k < d.nObjs → sumTo d.nCustomers (fun c => sumTo d.nFacilities (d.supplyOf k c)) +
      sumTo d.nFacilities (d.openingOf k) ≤ 9223372036854775807) :
    ∀ l ∈ d.lineList, LineFits first l := by
  have hvar : ∀ c f, c < d.nCustomers → f < d.nFacilities → VarFits first (Lit.pos (c * d.nFacilities + f)) := by
    intro c f hc hf
    have := index_lt hc hf
    rw [Nat.mul_comm d.nCustomers] at this
    have := hg.vars
    exact ⟨by rw [Lit.var_pos]; omega, by rw [Lit.var_pos]; omega⟩
  have hopen : ∀ f, f < d.nFacilities → VarFits first (Lit.pos (d.nFacilities * d.nCustomers + f)) := by
    intro f hf
    have := hg.vars
    exact ⟨by rw [Lit.var_pos]; omega, by rw [Lit.var_pos]; omega⟩
  simp only [FacilityData.lineList, List.mem_cons, List.mem_append, List.mem_map, List.mem_flatMap, List.mem_range,
    List.not_mem_nil, or_false]
  rintro l (rfl | rfl | ⟨k, hk, rfl⟩ | ⟨c, hc, rfl⟩ | ⟨f, hf, c, hc, rfl⟩)
  · exact hint_fits _ _ _
  · exact ⟨by decide, by decide⟩
  · refine ⟨fun p hp => ?_, ?_⟩
    · simp only [FacilityData.objList, List.mem_append, List.mem_flatMap, List.mem_map, List.mem_range] at hp
      obtain ⟨c, hc, f, hf, rfl⟩ | ⟨f, hf, rfl⟩ := hp
      · exact hvar c f hc hf
      · exact hopen f hf
    · rw [FacilityData.objList, wtotal_append', wtotal_nested, wtotal_range]
      exact hs k hk
  · refine ⟨fun p hp => ?_, ?_⟩
    · simp only [CardConstraint.lits, FacilityData.oneLits, List.mem_map, List.mem_range] at hp
      obtain ⟨f, hf, rfl⟩ := hp
      exact hvar c f hc hf
    · have := hg.vars
      simp only [CardConstraint.lits, CardConstraint.bound, FacilityData.oneLits, List.length_map, List.length_range]
      omega
  · refine ⟨fun p hp => ?_, by simp [FacilityData.openClause]⟩
    simp only [FacilityData.openClause, List.mem_cons, List.not_mem_nil, or_false] at hp
    obtain rfl | rfl := hp
    · have := hvar c f hc hf
      exact ⟨by rw [Lit.var_neg]; exact this.1, by rw [Lit.var_neg]; exact this.2⟩
    · exact hopen f hf

/-! ### Knapsacks -/

def KnapsackData.objList (d : KnapsackData) (k : Nat) : List (Lit × Nat) :=
  d.items.zipIdx.map fun p => (Lit.negOf p.2, p.1.values.getD k 0)

def KnapsackData.weightList (d : KnapsackData) : List (Lit × Nat) := d.items.zipIdx.map fun p => (Lit.pos p.2, p.1.weight)

def KnapsackData.lineList (d : KnapsackData) (nObjs : Nat) : List FileLine :=
  .comment ("#variable= ".toList ++ Text.showNat d.items.length ++ " #constraint= 1".toList) ::
  .comment "MO Knapsack instance generated by RustSAT".toList ::
  ((List.range nObjs).map (fun k => .objective (d.objList k)) ++
    [.pb (.ub d.weightList (wtotal d.weightList) d.capacity)])

theorem convert_nonneg (l : List (Lit × Nat)) : PbConstraint.convertInputLits (l.map fun p => (p.1, (p.2 : Int))) =
    (l, wtotal l, 0) := by
  induction l with
  | nil => rfl
  | cons p l ih =>
    simp only [List.map_cons, PbConstraint.convertInputLits, ih]
    rw [if_pos (by omega)]
    simp

theorem zipIdx_map_eq {α : Type} (l : List α) (f : α × Nat → Lit × Nat) (dflt : α) (s : Nat) :
    (l.zipIdx s).map f = (List.range l.length).map fun i => f (l.getD i dflt, s + i) := by
  induction l generalizing s with
  | nil => rfl
  | cons x l ih =>
    rw [List.zipIdx_cons, List.map_cons, ih, List.length_cons, List.range_succ_eq_map, List.map_cons, List.map_map]
    congr 1
    apply List.map_congr_left
    intro i _
    simp only [Function.comp, List.getD_cons_succ]
    rw [show s + 1 + i = s + (i + 1) by omega]

theorem KnapsackData.Good.weight_le {d : KnapsackData} {n : Nat} (h : d.Good n) {it : KnapsackItem} (hi : it ∈ d.items) :
    it.weight ≤ 9223372036854775807 := by
  have h1 := h.weights
  have : it.weight ≤ (d.items.map (·.weight)).sum := by
    generalize d.items = l at hi
    clear h1 h
    induction l with
    | nil => cases hi
    | cons x l ih =>
      simp only [List.map_cons, List.sum_cons]
      obtain rfl | hi := List.mem_cons.1 hi
      · omega
      · have := ih hi
        omega
  omega

theorem KnapsackData.Good.collects {d : KnapsackData} {n : Nat} (h : d.Good n) :
    ∃ fuel, d.lines fuel = .done (d.lineList n) := by
  have hidx : ∀ p ∈ d.items.zipIdx, p.2 < 2147483647 ∧ p.1 ∈ d.items := by
    intro p hp
    have := List.mem_zipIdx hp
    have hv := h.vars
    refine ⟨by omega, ?_⟩
    rw [this.2.2]
    exact List.getElem_mem _
  refine collect_step rfl (collect_step rfl ?_)
  refine collect_all (mk := fun k => KnapsackLine.objective k) (after := some .capacity) h.objs ?_
    (collect_step (s' := none) ?_ ⟨0, rfl⟩)
  · intro k hk
    have : allSome (d.items.zipIdx.map fun p => both (castLit p.2 true) p.1.values[k]?) = some (d.objList k) := by
      refine allSome_map fun p hp => ?_
      obtain ⟨h1, h2⟩ := hidx p hp
      have hl : k < p.1.values.length := by rw [h.values _ h2]; exact hk
      rw [castLit_negOf h1, List.getElem?_eq_getElem hl, List.getD_eq_getElem?_getD, List.getElem?_eq_getElem hl]
      rfl
    obtain ⟨it, l, e⟩ : ∃ it l, d.items = it :: l := by
      cases e : d.items with
      | nil => exact absurd e h.items
      | cons it l => exact ⟨it, l, rfl⟩
    have e2 : it.values.length = n := h.values it (by rw [e]; exact List.mem_cons_self)
    have e3 : d.items.head? = some it := by rw [e]; rfl
    by_cases e4 : k + 1 < n <;> simp only [KnapsackData.next, this, e3, both_some, Option.map_some, e2, e4, if_true, if_false]
  · have : allSome (d.items.zipIdx.map fun p => both (castLit p.2 false) (some (castIsize p.1.weight))) =
        some (d.weightList.map fun p => (p.1, (p.2 : Int))) := by
      rw [KnapsackData.weightList, List.map_map]
      refine allSome_map fun p hp => ?_
      obtain ⟨h1, h2⟩ := hidx p hp
      rw [castLit_pos h1, castIsize, if_pos (h.weight_le h2)]
      rfl
    have hc : castIsize d.capacity = d.capacity := by
      have := h.weights
      rw [castIsize, if_pos (by omega)]
    simp only [KnapsackData.next, this, Option.map_some, PbConstraint.newUb, convert_nonneg, hc, Int.add_zero]

theorem KnapsackData.lineObjs_lineList (d : KnapsackData) (n : Nat) : lineObjs (d.lineList n) = (List.range n).map d.objList := by
  have : ∀ t ls, lineObjs (.comment t :: ls) = lineObjs ls := fun _ _ => rfl
  rw [KnapsackData.lineList, this, this, lineObjs_append', lineObjs_map_objective]
  simp [lineObjs]

theorem KnapsackData.sum_range (d : KnapsackData) (p : Nat → Bool) (f : KnapsackItem → Nat) :
    itemSum d.items p f = sumTo d.items.length fun i => if p i then f (d.items.getD i ⟨0, []⟩) else 0 := by
  refine sumTo_congr fun i hi => ?_
  rw [List.getElem?_eq_getElem hi, List.getD_eq_getElem?_getD, List.getElem?_eq_getElem hi]
  rfl

theorem KnapsackData.wsum_weightList (d : KnapsackData) (a : Asg) : wsum a d.weightList = itemSum d.items a (·.weight) := by
  rw [KnapsackData.weightList, zipIdx_map_eq _ _ ⟨0, []⟩, wsum_range, d.sum_range]
  refine sumTo_congr fun i _ => ?_
  rw [Lit.holds_pos, Nat.zero_add]

/-- The value of the items that are left behind. -/
def KnapsackData.lost (d : KnapsackData) (k : Nat) (taken : Nat → Bool) : Nat :=
  itemSum d.items (fun i => !taken i) fun it => it.values.getD k 0

theorem KnapsackData.lost_add_value (d : KnapsackData) (k : Nat) (taken : Nat → Bool) :
    d.lost k taken + d.value k taken = itemSum d.items (fun _ => true) fun it => it.values.getD k 0 := by
  simp only [KnapsackData.lost, KnapsackData.value, itemSum]
  generalize d.items.length = n
  induction n with
  | zero => rfl
  | succ n ih =>
    simp only [sumTo_succ]
    rw [← ih]
    have e : ∀ x : Nat, (if (!taken n) = true then x else 0) + (if taken n = true then x else 0) = x := fun x => by
      cases taken n <;> simp
    have := e ((d.items[n]?.map fun it => it.values.getD k 0).getD 0)
    simp only [if_true]
    omega

theorem KnapsackData.wsum_objList (d : KnapsackData) (a : Asg) (k : Nat) : wsum a (d.objList k) = d.lost k a := by
  rw [KnapsackData.objList, zipIdx_map_eq _ _ ⟨0, []⟩, wsum_range, KnapsackData.lost, d.sum_range]
  refine sumTo_congr fun i _ => ?_
  rw [Lit.holds_negOf, Nat.zero_add]

theorem KnapsackData.sat_iff (d : KnapsackData) (n : Nat) (a : Asg) : (∀ l ∈ d.lineList n, lineSat a l) ↔ d.Fits a := by
  rw [KnapsackData.Fits, ← d.wsum_weightList a]
  simp only [KnapsackData.lineList, List.mem_cons, List.mem_append, List.mem_map, List.not_mem_nil, or_false]
  constructor
  · intro h
    have := h _ (.inr (.inr (.inr rfl)))
    simp only [lineSat, PbConstraint.sat] at this
    omega
  · rintro h l (rfl | rfl | ⟨k, _, rfl⟩ | rfl)
    · trivial
    · trivial
    · trivial
    · simp only [lineSat, PbConstraint.sat]
      omega

theorem wtotal_zipIdx (l : List KnapsackItem) (g : Nat → Lit) (f : KnapsackItem → Nat) (s : Nat) :
    wtotal ((l.zipIdx s).map fun p => (g p.2, f p.1)) = (l.map f).sum := by
  induction l generalizing s with
  | nil => rfl
  | cons x l ih => simp [ih]

theorem KnapsackData.fits_lineList (d : KnapsackData) {n first : Nat} (hg : d.Good n)
    (hv : d.items.length + first ≤ 4294967296)
    (hs : ∀ k, k < n → (d.items.map fun it => it.values.getD k 0).sum ≤ 9223372036854775807) :
    ∀ l ∈ d.lineList n, LineFits first l := by
  have hidx : ∀ p ∈ d.items.zipIdx, p.2 < 2147483647 ∧ p.2 + first < 4294967296 := by
    intro p hp
    have := List.mem_zipIdx hp
    have := hg.vars
    omega
  simp only [KnapsackData.lineList, List.mem_cons, List.mem_append, List.mem_map, List.mem_range, List.not_mem_nil, or_false]
  rintro l (rfl | rfl | ⟨k, hk, rfl⟩ | rfl)
  · have e : ∀ t : Text, '\n' ∉ t → '\r' ∉ t → NoBreak t := fun t h h' => ⟨h, h'⟩
    exact ((e _ (by decide) (by decide)).append (noBreak_showNat _)).append (e _ (by decide) (by decide))
  · exact ⟨by decide, by decide⟩
  · refine ⟨fun p hp => ?_, ?_⟩
    · simp only [KnapsackData.objList, List.mem_map] at hp
      obtain ⟨q, hq, rfl⟩ := hp
      have := hidx q hq
      exact ⟨by rw [Lit.var_negOf]; omega, by rw [Lit.var_negOf]; omega⟩
    · have := wtotal_zipIdx d.items Lit.negOf (fun it => it.values.getD k 0) 0
      rw [KnapsackData.objList, this]
      exact hs k hk
  · refine ⟨fun p hp => ?_, ?_⟩
    · simp only [PbConstraint.lits, KnapsackData.weightList, List.mem_map] at hp
      obtain ⟨q, hq, rfl⟩ := hp
      have := hidx q hq
      exact ⟨by rw [Lit.var_pos]; omega, by rw [Lit.var_pos]; omega⟩
    · have := wtotal_zipIdx d.items Lit.pos (·.weight) 0
      have hw := hg.weights
      simp only [PbConstraint.lits, PbConstraint.bound]
      rw [KnapsackData.weightList, this]
      omega

end Problems
end RustSat
