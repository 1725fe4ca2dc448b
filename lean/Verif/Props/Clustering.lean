import Verif.Lemmas.Clustering2
/-
C77: the file that the tool `encodings` writes for constrained correlation clustering describes the clusterings: read by the parsers
of DIMACS files, every solution of the hard clauses is a clustering that satisfies the hard links, every such clustering is given by a
solution, and the objectives are the costs of the clustering.
-/
namespace RustSat
namespace Clustering
open Dimacs DimacsSpec

variable {VM : Type} [ManageVars VM] [LawfulVM VM]
variable {I : Type} [DecidableEq I]

/-- The lines of the encoding, and what they say about clusterings. -/
private theorem lines_spec {input : List (I × I × Sim)} (h2 : 2 ≤ (identMap input).length) (hw : WeightsFit input)
    (hb : (identMap input).length * (identMap input).length * (digits (identMap input).length 2 + 1) +
      (identMap input).length * digits (identMap input).length 2 ≤ 2147483647) :
    ∃ (fuel : Nat) (ls : List SymLine) (m : List VarId),
      lines input fuel = .done (ls.map fun l => l.line m) ∧
      (∀ l ∈ ls, Writable (l.clause m) ∧ ∀ w k, l.soft = some (w, k) → w ≤ usizeMax ∧ (k = 0 ∨ k = 1)) ∧
      (∀ a, (∀ l ∈ ls.filter (fun l => l.soft.isNone), Clause.sat a (l.clause m)) →
        ∃ cluster, IsClustering input cluster ∧
          ∀ k, (ls.map (SymLine.cost (fun v => a (m.idxOf v)) k)).sum = clusterCost input (identMap input) k cluster) ∧
      ∀ cluster, IsClustering input cluster → ∃ a, (∀ l ∈ ls.filter (fun l => l.soft.isNone), Clause.sat a (l.clause m)) ∧
        ∀ k, (ls.map (SymLine.cost (fun v => a (m.idxOf v)) k)).sum = clusterCost input (identMap input) k cluster := by
  obtain ⟨hnd, hocc⟩ := identMap_spec input
  obtain ⟨d, hd, hn, ha, hsim⟩ := new_spec h2
  have hda : d.a = digits (identMap input).length 2 := by
    unfold Data.new at hd
    simp only [if_neg (show ¬ (identMap input).length < 2 by omega), Option.map_eq_some_iff] at hd
    obtain ⟨s, _, rfl⟩ := hd
    rfl
  let ident : Nat → I := fun i => (identMap input).getD i ((identMap input)[0]'(by omega))
  let S : Nat → Nat → Sim := fun i j => simOf input (ident i) (ident j)
  have hident : ∀ i (hi : i < (identMap input).length), ident i = (identMap input)[i] := by
    intro i hi
    show (identMap input).getD i _ = _
    rw [List.getD_eq_getElem?_getD, List.getElem?_eq_getElem hi, Option.getD_some]
  have hS : ∀ i j, i < j → j < d.n → d.sim i j = some (S i j) := by
    intro i j hij hj
    rw [hsim i j hij (by omega)]
    show _ = some (simOf input (ident i) (ident j))
    rw [hident i (by omega), hident j (by omega)]
  obtain ⟨s, he, hstop⟩ := emits_all (S := S) (by omega) hS
  obtain ⟨fuel, hrun⟩ := he.run hstop (fun l hl => (line_ids hl).1) []
  have hmap : identMap input = (List.range d.n).map ident := by
    apply List.ext_getElem
    · simp [hn]
    · intro i h1 h2'
      rw [List.getElem_map, List.getElem_range, hident i h1]
  have hcost : ∀ (k : Nat) (cluster : I → Nat), clusterCost input (identMap input) k cluster =
      ((pairsOf (List.range d.n)).map fun p =>
        pairCost k (S p.1 p.2) (decide (cluster (ident p.1) = cluster (ident p.2)))).sum := by
    intro k cluster
    unfold clusterCost
    rw [hmap, pairsOf_map, List.map_map]
    rfl
  have hidx : ∀ i, i < d.n → (identMap input).idxOf (ident i) = i := by
    intro i hi
    rw [hident i (by omega)]
    exact hnd.idxOf_getElem i _
  have hmemM : ∀ l ∈ allLines d S, ∀ p ∈ l.lits, p.1 ∈ finalVars [] (allLines d S) := fun l hl p hp =>
    (mem_finalVars _ _ _).2 (.inr ⟨l, hl, (line_ids hl).1 p hp⟩)
  refine ⟨fuel, allLines d S, finalVars [] (allLines d S), by rw [lines, hd]; exact hrun, ?_, ?_, ?_⟩
  · intro l hl
    constructor
    · intro x hx
      obtain ⟨p, hp, rfl⟩ := List.mem_map.1 hx
      rw [Lit.var_mk']
      have h1 := List.idxOf_lt_length_of_mem (hmemM l hl p hp)
      have h3 := finalVars_length d S
      rw [hda, hn] at h3
      have h4 : (identMap input).length * (identMap input).length * (digits (identMap input).length 2 + 1) =
          (identMap input).length * ((identMap input).length * digits (identMap input).length 2) +
          (identMap input).length * (identMap input).length := by
        rw [Nat.mul_add, Nat.mul_one, Nat.mul_assoc]
      omega
    · intro w k hs
      obtain ⟨p, _, h | h | h | h | h | h⟩ := mem_allLines.1 hl
      · rw [eqBlock_hard l h] at hs; cases hs
      · rw [sameBlock_hard l h] at hs; cases hs
      · rw [mustBlock_hard l h] at hs; cases hs
      · rw [cannotBlock_hard l h] at hs; cases hs
      · obtain ⟨w', hw', rfl⟩ := similarBlock_soft l h
        cases hs
        obtain ⟨e, he, hes⟩ := simOf_mem (input := input) (x := ident p.1) (y := ident p.2) (by
          show S p.1 p.2 ≠ _
          rw [hw']; exact fun h => nomatch h)
        exact ⟨hw e he w (.inl (hes.trans hw')), .inl rfl⟩
      · obtain ⟨w', hw', rfl⟩ := disSimilarBlock_soft l h
        cases hs
        obtain ⟨e, he, hes⟩ := simOf_mem (input := input) (x := ident p.1) (y := ident p.2) (by
          show S p.1 p.2 ≠ _
          rw [hw']; exact fun h => nomatch h)
        exact ⟨hw e he w (.inr (hes.trans hw')), .inr rfl⟩
  · intro a hsat
    have hok := (hard_sat d S fun v => a ((finalVars [] (allLines d S)).idxOf v)).1 fun l hl => (l.sat_clause _ a).1 (hsat l hl)
    generalize hν : (fun v => a ((finalVars [] (allLines d S)).idxOf v)) = ν at hok ⊢
    refine ⟨fun x => ofBits (fun k => ν (.binary ((identMap input).idxOf x) k)) d.a, ?_, fun k => ?_⟩
    · intro x y hxy
      have key : ∀ x y, x ≠ y → simOf input x y ≠ .dontCare → (identMap input).idxOf x < (identMap input).idxOf y →
          PairOk d.a ν (simOf input x y) ((identMap input).idxOf x) ((identMap input).idxOf y) := by
        intro x y hxy hs hlt
        obtain ⟨o1, o2⟩ := simOf_occurs hs
        have l1 := List.idxOf_lt_length_of_mem ((hocc x).2 o1)
        have l2 := List.idxOf_lt_length_of_mem ((hocc y).2 o2)
        have := hok ((identMap input).idxOf x, (identMap input).idxOf y) (mem_pairsOf_range.2 ⟨hlt, by omega⟩)
        have e : S ((identMap input).idxOf x) ((identMap input).idxOf y) = simOf input x y := by
          show simOf input (ident _) (ident _) = _
          rw [hident _ l1, hident _ l2, List.getElem_idxOf l1, List.getElem_idxOf l2]
        simpa only [e] using this
      have both : simOf input x y ≠ .dontCare →
          (simOf input x y = .mustLink → ofBits (fun k => ν (.binary ((identMap input).idxOf x) k)) d.a =
            ofBits (fun k => ν (.binary ((identMap input).idxOf y) k)) d.a) ∧
          (simOf input x y = .cannotLink → ofBits (fun k => ν (.binary ((identMap input).idxOf x) k)) d.a ≠
            ofBits (fun k => ν (.binary ((identMap input).idxOf y) k)) d.a) := by
        intro hs
        by_cases hlt : (identMap input).idxOf x < (identMap input).idxOf y
        · have := (key x y hxy hs hlt).same
          exact ⟨this.1, this.2.1⟩
        · have hs' : simOf input y x ≠ .dontCare := by rw [simOf_symm]; exact hs
          have hne : (identMap input).idxOf x ≠ (identMap input).idxOf y := by
            intro e
            obtain ⟨o1, o2⟩ := simOf_occurs hs
            have l1 := List.idxOf_lt_length_of_mem ((hocc x).2 o1)
            have l2 := List.idxOf_lt_length_of_mem ((hocc y).2 o2)
            apply hxy
            rw [← List.getElem_idxOf l1, ← List.getElem_idxOf l2]
            simp only [e]
          have := (key y x (Ne.symm hxy) hs' (by omega)).same
          rw [simOf_symm input y x] at this
          exact ⟨fun h => (this.1 h).symm, fun h => (this.2.1 h).symm⟩
      exact ⟨fun h => (both (by rw [h]; exact fun h => nomatch h)).1 h, fun h => (both (by rw [h]; exact fun h => nomatch h)).2 h⟩
    · rw [cost_all, hcost]
      congr 1
      apply List.map_congr_left
      intro p hp
      have hr := mem_pairsOf_range.1 hp
      rw [hidx p.1 (by omega), hidx p.2 hr.2]
      exact (hok p hp).same.2.2 k
  · intro cluster hcl
    let g : Nat → Nat := fun i => ((List.range d.n).map fun i => cluster (ident i)).idxOf (cluster (ident i))
    have hgmem : ∀ i, i < d.n → cluster (ident i) ∈ (List.range d.n).map fun i => cluster (ident i) := fun i hi =>
      List.mem_map.2 ⟨i, List.mem_range.2 hi, rfl⟩
    have hg : ∀ i, i < d.n → g i < 2 ^ d.a := by
      intro i hi
      have := List.idxOf_lt_length_of_mem (hgmem i hi)
      rw [List.length_map, List.length_range] at this
      exact Nat.lt_trans this ha
    have hgeq : ∀ i j, i < d.n → j < d.n → (g i = g j ↔ cluster (ident i) = cluster (ident j)) := by
      intro i j hi hj
      constructor
      · intro e
        have l1 := List.idxOf_lt_length_of_mem (hgmem i hi)
        have l2 := List.idxOf_lt_length_of_mem (hgmem j hj)
        rw [← List.getElem_idxOf l1, ← List.getElem_idxOf l2]
        have e' : List.idxOf (cluster (ident i)) ((List.range d.n).map fun i => cluster (ident i)) =
          List.idxOf (cluster (ident j)) ((List.range d.n).map fun i => cluster (ident i)) := e
        simp only [e']
      · intro e
        show List.idxOf _ _ = List.idxOf _ _
        rw [e]
    have hne : ∀ i j, i < j → j < d.n → ident i ≠ ident j := by
      intro i j hij hj e
      have := hidx i (by omega)
      rw [e, hidx j hj] at this
      omega
    obtain ⟨a, hasg⟩ := exists_asg (finalVars [] (allLines d S)) (labelVals g)
    have hcongr : ∀ l ∈ allLines d S, ∀ p ∈ l.lits, a ((finalVars [] (allLines d S)).idxOf p.1) = labelVals g p.1 :=
      fun l hl p hp => hasg p.1 (hmemM l hl p hp)
    refine ⟨a, ?_, fun k => ?_⟩
    · have := (hard_sat d S (labelVals g)).2 fun p hp => by
        obtain ⟨h1, h3⟩ := mem_pairsOf_range.1 hp
        have hc := hcl (ident p.1) (ident p.2) (hne _ _ h1 h3)
        exact labelVals_ok (hg _ (by omega)) (hg _ h3) (fun e => (hgeq _ _ (by omega) h3).2 (hc.1 e))
          fun e e' => hc.2 e ((hgeq _ _ (by omega) h3).1 e')
      intro l hl
      rw [l.sat_clause]
      exact (SymLine.sat_congr (hcongr l (List.mem_filter.1 hl).1)).2 (this l hl)
    · have e : (allLines d S).map (SymLine.cost (fun v => a ((finalVars [] (allLines d S)).idxOf v)) k) =
          (allLines d S).map (SymLine.cost (labelVals g) k) := by
        apply List.map_congr_left
        intro l hl
        exact SymLine.cost_congr (hcongr l hl) k
      rw [e, cost_all, hcost]
      congr 1
      apply List.map_congr_left
      intro p hp
      obtain ⟨h1, h3⟩ := mem_pairsOf_range.1 hp
      simp only [labelVals, hgeq p.1 p.2 (by omega) h3]

/-- The sum over all pairs does not depend on the order of the objects. -/
private theorem pairs_perm {f : I × I → Nat} (hf : ∀ x y, f (x, y) = f (y, x)) {l l' : List I} (h : l.Perm l') :
    ((pairsOf l).map f).sum = ((pairsOf l').map f).sum := by
  induction h with
  | nil => rfl
  | cons x h ih =>
    simp only [pairsOf, List.map_append, List.sum_append, ih]
    rw [((h.map _).map f).sum_nat]
  | swap x y l =>
    simp only [pairsOf, List.map_append, List.sum_append, List.map_cons, List.sum_cons, hf x y]
    omega
  | trans _ _ ih1 ih2 => exact ih1.trans ih2

private theorem cost_objects {input : List (I × I × Sim)} {objects : List I} (ho : objects.Nodup)
    (hocc : ∀ x, x ∈ objects ↔ Occurs input x) (k : Nat) (cluster : I → Nat) :
    (identMap input).length = objects.length ∧
      clusterCost input (identMap input) k cluster = clusterCost input objects k cluster := by
  obtain ⟨h1, h2⟩ := identMap_spec input
  have hp : (identMap input).Perm objects := (List.perm_ext_iff_of_nodup h1 ho).2 fun x => (h2 x).trans (hocc x).symm
  refine ⟨hp.length_eq, pairs_perm (fun x y => ?_) hp⟩
  simp only [simOf_symm input x y, eq_comm (a := cluster x)]

/-- The number of variables that the encoding of `n` objects may need fits the DIMACS format. -/
def SizeFits (n : Nat) : Prop := n * n * (digits n 2 + 1) + n * digits n 2 ≤ 2147483647

/-- C77: clustering of at least two objects with two objectives. -/
theorem C77_clustering_partial (dflt : VM) {input : List (I × I × Sim)} {objects : List I} (ho : objects.Nodup)
    (hocc : ∀ x, x ∈ objects ↔ Occurs input x) (h2 : 2 ≤ objects.length) (hw : WeightsFit input) (hb : SizeFits objects.length)
    (inner : Bool) :
    ∃ fuel t i, clusteringTool ⟨false, inner⟩ input fuel = .done t ∧ MultiOptInstance.fromDimacs dflt t = .ok i ∧
      (∀ a, i.constrs.sat a → ∃ cluster, IsClustering input cluster ∧
        ∀ k, objValue i.objs k a = clusterCost input objects k cluster) ∧
      ∀ cluster, IsClustering input cluster → ∃ a, i.constrs.sat a ∧
        ∀ k, objValue i.objs k a = clusterCost input objects k cluster := by
  have hlen := (cost_objects ho hocc 0 fun _ => 0).1
  obtain ⟨fuel, ls, m, h1, h3, h4, h5⟩ := lines_spec (input := input) (by omega) hw (by rw [hlen]; exact hb)
  obtain ⟨t, ht, hr⟩ := C43_write_lines (ls.map fun l => l.line m) (by
    intro x hx
    obtain ⟨l, hl, rfl⟩ := List.mem_map.1 hx
    obtain ⟨g1, g2⟩ := h3 l hl
    unfold SymLine.line
    cases hs : l.soft with
    | none => exact g1
    | some q =>
      obtain ⟨w, k⟩ := q
      have := g2 w k hs
      refine ⟨g1, this.1, ?_⟩
      show k + 1 ≤ usizeMax
      have : (2 : Nat) ≤ usizeMax := by decide
      omega)
  obtain ⟨i, hi, hinst⟩ := from_mcnf dflt hr (by
    intro j w c hm
    obtain ⟨x, hx, e⟩ := List.mem_map.1 hm
    cases x with
    | soft c w k => cases e; omega
    | _ => cases e)
  have hsat : ∀ a, i.constrs.sat a ↔ ∀ l ∈ ls.filter (fun l => l.soft.isNone), Clause.sat a (l.clause m) := by
    intro a
    unfold SatInstance.sat ClauseSet.sat
    rw [hinst.cnf, hinst.cards, hinst.pbs, hards_lines]
    simp only [List.not_mem_nil, false_imp_iff, implies_true, and_true, List.mem_map, forall_exists_index, and_imp,
      forall_apply_eq_imp_iff₂]
  refine ⟨fuel, t, i, ?_, hi, fun a ha => ?_, fun cluster hcl => ?_⟩
  · simp only [clusteringTool, writeCnfTool, h1, Bool.false_eq_true, if_false, ht]
  · obtain ⟨cluster, g1, g2⟩ := h4 a ((hsat a).1 ha)
    refine ⟨cluster, g1, fun k => ?_⟩
    rw [hinst.value, softs_lines, g2, (cost_objects ho hocc k cluster).2]
  · obtain ⟨a, g1, g2⟩ := h5 cluster hcl
    refine ⟨a, (hsat a).2 g1, fun k => ?_⟩
    rw [hinst.value, softs_lines, g2, (cost_objects ho hocc k cluster).2]

/-- C77: the same with a single objective, the sum of the two, if it is asked for before the name of the encoding. -/
theorem C77_clustering_single_partial (dflt : VM) {input : List (I × I × Sim)} {objects : List I} (ho : objects.Nodup)
    (hocc : ∀ x, x ∈ objects ↔ Occurs input x) (h2 : 2 ≤ objects.length) (hw : WeightsFit input) (hb : SizeFits objects.length)
    (inner : Bool) :
    ∃ fuel t i, clusteringTool ⟨true, inner⟩ input fuel = .done t ∧ OptInstance.fromDimacs dflt t = .ok i ∧
      (∀ a, i.constrs.sat a → ∃ cluster, IsClustering input cluster ∧
        i.obj.value a = clusterCost input objects 0 cluster + clusterCost input objects 1 cluster) ∧
      ∀ cluster, IsClustering input cluster → ∃ a, i.constrs.sat a ∧
        i.obj.value a = clusterCost input objects 0 cluster + clusterCost input objects 1 cluster := by
  have hlen := (cost_objects ho hocc 0 fun _ => 0).1
  obtain ⟨fuel, ls, m, h1, h3, h4, h5⟩ := lines_spec (input := input) (by omega) hw (by rw [hlen]; exact hb)
  obtain ⟨t, ht, hr⟩ := C42_write_lines_partial ((ls.map fun l => l.line m).map mcnfToWcnf) (by
    intro x hx
    obtain ⟨y, hy, rfl⟩ := List.mem_map.1 hx
    obtain ⟨l, hl, rfl⟩ := List.mem_map.1 hy
    obtain ⟨g1, g2⟩ := h3 l hl
    unfold SymLine.line
    cases hs : l.soft with
    | none => exact g1
    | some q =>
      obtain ⟨w, k⟩ := q
      exact ⟨g1, (g2 w k hs).1⟩)
  obtain ⟨i, hi, hinst, _⟩ := from_post22 dflt hr
  have hsat : ∀ a, i.constrs.sat a ↔ ∀ l ∈ ls.filter (fun l => l.soft.isNone), Clause.sat a (l.clause m) := by
    intro a
    unfold SatInstance.sat ClauseSet.sat
    rw [hinst.cnf, hinst.cards, hinst.pbs, hards_single]
    simp only [List.not_mem_nil, false_imp_iff, implies_true, and_true, List.mem_map, forall_exists_index, and_imp,
      forall_apply_eq_imp_iff₂]
  have h01 : ∀ l ∈ ls, ∀ w k, l.soft = some (w, k) → k = 0 ∨ k = 1 := fun l hl w k hs => ((h3 l hl).2 w k hs).2
  refine ⟨fuel, t, i, ?_, hi, fun a ha => ?_, fun cluster hcl => ?_⟩
  · simp only [clusteringTool, writeCnfTool, h1, if_true, ht]
  · obtain ⟨cluster, g1, g2⟩ := h4 a ((hsat a).1 ha)
    refine ⟨cluster, g1, ?_⟩
    rw [hinst.value, softs_single ls m a h01, g2, g2, (cost_objects ho hocc 0 cluster).2, (cost_objects ho hocc 1 cluster).2]
    exact Int.natCast_add _ _
  · obtain ⟨a, g1, g2⟩ := h5 cluster hcl
    refine ⟨a, (hsat a).2 g1, ?_⟩
    rw [hinst.value, softs_single ls m a h01, g2, g2, (cost_objects ho hocc 0 cluster).2, (cost_objects ho hocc 1 cluster).2]
    exact Int.natCast_add _ _

/-- C77: numbers that are small in absolute value are ignored, numbers beyond the threshold are hard, and the others are soft. -/
theorem C77_saturating_map (sim : Int) (dontCare hard : Nat) :
    (saturatingMap sim dontCare hard = .dontCare ↔ sim.natAbs < dontCare) ∧
    (saturatingMap sim dontCare hard = .mustLink ↔ dontCare ≤ sim.natAbs ∧ (hard : Int) < sim) ∧
    (saturatingMap sim dontCare hard = .cannotLink ↔ dontCare ≤ sim.natAbs ∧ sim < -(hard : Int)) ∧
    (∀ w, saturatingMap sim dontCare hard = .similar w ↔ dontCare ≤ sim.natAbs ∧ 0 < sim ∧ sim = w ∧ w ≤ hard) ∧
    ∀ w, saturatingMap sim dontCare hard = .disSimilar w ↔ dontCare ≤ sim.natAbs ∧ sim ≤ 0 ∧ sim = -(w : Int) ∧ w ≤ hard := by
  unfold saturatingMap
  by_cases h1 : sim.natAbs < dontCare
  · rw [if_pos h1]
    refine ⟨by simp [h1], ?_, ?_, ?_, ?_⟩ <;> simp <;> omega
  · rw [if_neg h1]
    by_cases h2 : sim.natAbs > hard
    · rw [if_pos h2]
      by_cases h3 : sim > 0
      · rw [if_pos h3]
        refine ⟨?_, ?_, ?_, ?_, ?_⟩ <;> simp <;> omega
      · rw [if_neg h3]
        refine ⟨?_, ?_, ?_, ?_, ?_⟩ <;> simp <;> omega
    · rw [if_neg h2]
      by_cases h3 : sim > 0
      · rw [if_pos h3]
        refine ⟨?_, ?_, ?_, ?_, ?_⟩ <;> simp <;> omega
      · rw [if_neg h3]
        refine ⟨?_, ?_, ?_, ?_, ?_⟩ <;> simp <;> omega

/-- C77 is violated without objects or with a single one: the tool panics, although everything in one cluster is a clustering. -/
theorem C77_violated_single_object (args : ClusteringArgs) (fuel : Nat) :
    clusteringTool args ([] : List (Nat × Nat × Sim)) fuel = .panic ∧
    clusteringTool args [(7, 7, Sim.similar 3)] fuel = .panic ∧
    IsClustering [(7, 7, Sim.similar 3)] (fun _ => 0) := by
  refine ⟨rfl, rfl, fun x y hxy => ?_⟩
  have : simOf [(7, 7, Sim.similar 3)] x y = .dontCare := by
    have h : About x y (7, 7, Sim.similar 3) = false := by
      simp only [About, decide_eq_false_iff_not]
      omega
    simp only [simOf, List.reverse_singleton, List.find?_singleton, h, Bool.false_eq_true, if_false, Option.map_none, Option.getD_none]
  rw [this]
  exact ⟨fun h => (nomatch h), fun h => (nomatch h)⟩

/-- C77 is violated if the single objective is asked for after the name of the encoding: the argument is ignored, for every input. -/
theorem C77_violated_inner_argument (input : List (I × I × Sim)) (outer : Bool) (fuel : Nat) :
    clusteringTool ⟨outer, true⟩ input fuel = clusteringTool ⟨outer, false⟩ input fuel := rfl

deriving instance DecidableEq for SearchResult

/-- … and the two formats are indeed different. -/
theorem C77_violated_inner_argument_witness :
    clusteringTool ⟨false, true⟩ [(1, 2, Sim.similar 3)] 100 ≠ clusteringTool ⟨true, false⟩ [(1, 2, Sim.similar 3)] 100 := by
  decide

/-! ### A concrete case -/

/-- Three objects. -/
def clusterDemo : List (Nat × Nat × Sim) :=
  [(10, 20, .similar 5), (20, 30, .disSimilar 2), (30, 10, .cannotLink), (20, 10, .similar 4)]

example : [30, 10, 20].Nodup ∧ (∀ x, x ∈ [30, 10, 20] ↔ Occurs clusterDemo x) ∧ WeightsFit clusterDemo ∧ SizeFits 3 := by
  refine ⟨by decide, fun x => ?_, ?_, by unfold SizeFits; decide⟩
  · simp [Occurs, clusterDemo]
    omega
  · intro e he w hw
    have : ∀ e ∈ clusterDemo, e.2.2 = .similar 5 ∨ e.2.2 = .disSimilar 2 ∨ e.2.2 = .cannotLink ∨ e.2.2 = .similar 4 := by decide
    obtain h | h | h | h := this e he <;> rw [h] at hw <;> simp at hw <;> subst hw <;> decide

example : clusterCost clusterDemo [30, 10, 20] 0 (fun x => if x = 30 then 1 else 0) = 0 ∧
    clusterCost clusterDemo [30, 10, 20] 0 (fun x => x) = 4 ∧
    clusterCost clusterDemo [30, 10, 20] 1 (fun x => if x = 10 then 1 else 0) = 2 := by decide

example : ¬ IsClustering clusterDemo fun _ => 0 := fun h => (h 30 10 (by decide)).2 (by decide) rfl

example : saturatingMap (-5) 2 7 = .disSimilar 5 ∧ saturatingMap 8 2 7 = .mustLink ∧ saturatingMap (-1) 2 7 = .dontCare := by decide

end Clustering
end RustSat
