import Verif.Model.KnapsackCnf
import Verif.Lemmas.DpwWorld
import Verif.Lemmas.EncodeConstr
import Verif.Lemmas.ProblemPb
import Verif.Lemmas.Clustering2
import Verif.Props.Dpw
/-
Lemmas for the CNF encoding of knapsacks.
-/
namespace RustSat
open TotDb Dpw

theorem Dpw.mem_tareLoop {tares : List Lit} {ub : Nat} : ∀ {p enf : Nat} {l : Lit}, l ∈ tareLoop tares ub p enf → l ∈ tares := by
  intro p
  induction p with
  | zero => intro enf l h; cases h
  | succ p ih =>
    intro enf l h
    unfold tareLoop at h
    by_cases h1 : ub + 2 ^ p ≤ enf
    · rw [if_pos h1, List.mem_append] at h
      obtain h | h := h
      · cases e : tares[p]? with
        | none => rw [e] at h; cases h
        | some t =>
          rw [e, Option.toList_some, List.mem_singleton] at h
          rw [h]
          exact List.mem_of_getElem? e
      · by_cases h2 : ub = enf - 2 ^ p
        · rw [if_pos h2] at h; cases h
        · rw [if_neg h2] at h; exact ih h
    · rw [if_neg h1] at h
      by_cases h2 : ub = enf
      · rw [if_pos h2] at h; cases h
      · rw [if_neg h2] at h; exact ih h

/-- Enforcing a bound only uses input variables and variables of the encoding. -/
theorem Dpw.Inv.enforceVars {e : Dpw} {n : Nat} {cls : ClauseSet} {ins : List (Lit × Nat)} {own : List Nat}
    (h : e.Inv n cls ins own) (hp : e.precDiv ≤ 1 ∨ 2 ≤ ins.length) {b : Nat} {A : List Lit} (hA : e.enforceUb b = .ok A) :
    ∀ l ∈ A, (∃ x ∈ ins, x.1.var = l.var) ∨ l.var ∈ own := by
  intro l hl
  obtain ⟨_, e1⟩ | ⟨e1, _⟩ | ⟨s, l0, hs, _, hr, _, e1⟩ | ⟨l0, w, hi, _, _, e1⟩ := h.enforceUb_cases hp b
  · rw [e1] at hA; cases hA; cases hl
  · rw [e1] at hA; cases hA
  · rw [e1] at hA
    cases hA
    obtain ⟨⟨out, c1, c2⟩, -, -, -⟩ := (h.after s hs).built
    obtain rfl | hl := List.mem_cons.1 hl
    · rw [Lit.var_neg]
      obtain ⟨hleaf, _⟩ | hout := hr
      · obtain h1 | h1 := List.mem_append.1 (c1.leafIn _ _ hleaf)
        · obtain ⟨x, hx, e⟩ := List.mem_map.1 h1
          exact .inl ⟨x, hx, by rw [e]⟩
        · exact .inr ((c2 _).2 (.inr (List.mem_map.2 ⟨l0, h1, rfl⟩)))
      · exact .inr ((c2 _).2 (.inl (c1.outOwn _ _ _ _ hout)))
    · exact .inr ((c2 _).2 (.inr (List.mem_map.2 ⟨l, mem_tareLoop hl, rfl⟩)))
  · rw [e1] at hA
    cases hA
    rw [List.mem_singleton.1 hl, Lit.var_neg, hi]
    exact .inl ⟨_, List.mem_singleton.2 rfl, rfl⟩

/-- Encoding and enforcing one upper bound with the watchdog. -/
theorem Dpw.encodeUbConstr_spec {VM : Type} [ManageVars VM] [LawfulVM VM] {lits : List (Lit × Nat)}
    (hn : (lits.map (·.1)).Nodup) (vm : VM) (h : ∀ x ∈ lits, 0 < x.2 ∧ x.1.var < ManageVars.nUsed vm) (b : Nat) :
    ∃ vm' new, Dpw.encodeUbConstr lits b vm [] = .ok (vm', new) ∧
      Encodes (varsOf (lits.map (·.1))) (ManageVars.nUsed vm) (ManageVars.nUsed vm') new fun a => wsum a lits ≤ b := by
  obtain ⟨e, he⟩ := C35_new_partial lits hn fun x hx => (h x hx).1
  have hp : e.precDiv = 1 := by
    unfold Dpw.new Dpw.ofMap at he
    by_cases hz : ((LitMap.ofList lits).any fun x => x.2 == 0) = true
    · rw [if_pos hz] at he; cases he
    · rw [if_neg hz] at he
      simp only [Option.some.injEq] at he
      rw [← he]
  obtain ⟨hinv, _⟩ := Dpw.Inv.new hn h he
  obtain ⟨e', vm', new, g1, g2, _, _, g3, g4, _⟩ := hinv.encodeUb ⟨.incl b, .incl b⟩
  rw [List.nil_append] at g1 g2
  rw [List.nil_append] at g2
  have hp' : e'.precDiv ≤ 1 := by omega
  have hr0 : DpwWorld.Reach anyDpwOp (⟨e, vm, [], lits, [], fun _ => False⟩ : DpwWorld VM) := .start lits vm e hn h he
  have hr : DpwWorld.Reach anyDpwOp (⟨e', vm', new, lits, [] ++ CardWorld.handedOut vm vm',
      fun c => False ∨ (⟨.incl b, .incl b⟩ : URange).contains c⟩ : DpwWorld VM) :=
    .step _ _ (.encodeUb ⟨.incl b, .incl b⟩) hr0 trivial trivial (by simp only [DpwWorld.step, DpwWorld.encoded, g1, Option.map_some])
  obtain ⟨A, hA, hs, hc⟩ := C35_upper_bound_full_precision _ hr hp' b (.inr (by simp [URange.contains]))
  simp only at hA hs hc
  refine ⟨vm', new ++ unitClauses A, ?_, ?_⟩
  · simp only [Dpw.encodeUbConstr, if_neg (show ¬ ((b : Int) < 0) by omega), Int.natAbs_natCast, he, g1, hA]
  · have hown : ∀ v, v ∈ CardWorld.handedOut vm vm' ↔ ManageVars.nUsed vm ≤ v ∧ v < ManageVars.nUsed vm' := by
      intro v
      rw [CardWorld.handedOut, List.mem_range'_1]
      omega
    refine ⟨g3, ?_, ?_, ?_⟩
    · intro c hcl l hl
      have key : (∃ x ∈ lits, x.1.var = l.var) ∨ l.var ∈ CardWorld.handedOut vm vm' := by
        obtain h1 | h1 := List.mem_append.1 hcl
        · exact g2.insOwn.2.2 c h1 l hl
        · exact g2.enforceVars (.inl hp') hA l (vars_unitClauses h1 hl)
      obtain ⟨x, hx, e⟩ | h1 := key
      · exact .inl ⟨x.1, List.mem_map.2 ⟨x, hx, rfl⟩, e⟩
      · exact .inr ((hown _).1 h1)
    · intro m hm
      obtain ⟨h1, h2⟩ := (ClauseSet.sat_append m new _).1 hm
      exact hs m h1 ((sat_unitClauses m A).1 h2)
    · intro a ha
      obtain ⟨m, h1, h2, h3⟩ := hc a ha
      refine ⟨m, fun v hv => h1 v ?_, (ClauseSet.sat_append m new _).2 ⟨h2, (sat_unitClauses m A).2 h3⟩⟩
      rw [List.nil_append, hown]
      omega

namespace Problems
open Dimacs DimacsSpec

/-- The soft clauses of an item from an objective on. -/
def softsOf (i : Nat) (vs : List Nat) (o : Nat) : List McnfLine := (vs.zipIdx o).map fun p => .soft [Lit.pos i] p.1 p.2

theorem KnapsackData.run_soft (d : KnapsackData) (hl : d.items.length ≤ 2147483647) : ∀ (rest : List KnapsackItem) (i : Nat),
    d.items.drop i = rest → ∃ fuel, d.cnfRun fuel (.soft i 0) =
      .done ((rest.zipIdx i).flatMap fun p => softsOf p.2 p.1.values 0) := by
  intro rest
  induction rest with
  | nil =>
    intro i hi
    refine ⟨1, ?_⟩
    have : d.items[i]? = none := by
      rw [List.getElem?_eq_none]
      exact List.drop_eq_nil_iff.1 hi
    simp only [KnapsackData.cnfRun, this]
    rfl
  | cons it rest ih =>
    intro i hi
    have hit : d.items[i]? = some it := by
      have := congrArg List.head? hi
      rwa [List.head?_drop] at this
    have hlt : i < d.items.length := by
      have := List.getElem?_eq_some_iff.1 hit
      exact this.1
    obtain ⟨fuel, hf⟩ := ih (i + 1) (by rw [← List.tail_drop, hi]; rfl)
    have inner : ∀ (vs : List Nat) (o : Nat), it.values.drop o = vs → ∃ fuel, d.cnfRun fuel (.soft i o) =
        .done (softsOf i vs o ++ (rest.zipIdx (i + 1)).flatMap fun p => softsOf p.2 p.1.values 0) := by
      intro vs
      induction vs with
      | nil =>
        intro o ho
        refine ⟨fuel + 1, ?_⟩
        have : it.values[o]? = none := by
          rw [List.getElem?_eq_none]
          exact List.drop_eq_nil_iff.1 ho
        simp only [KnapsackData.cnfRun, hit, this, hf]
        rfl
      | cons v vs ih2 =>
        intro o ho
        have hv : it.values[o]? = some v := by
          have := congrArg List.head? ho
          rwa [List.head?_drop] at this
        obtain ⟨f2, h2⟩ := ih2 (o + 1) (by rw [← List.tail_drop, ho]; rfl)
        refine ⟨f2 + 1, ?_⟩
        simp only [KnapsackData.cnfRun, hit, hv, castLit_pos (show i < 2147483647 by omega), h2, consLine]
        rfl
    obtain ⟨f2, h2⟩ := inner it.values 0 rfl
    exact ⟨f2, by rw [h2, List.zipIdx_cons, List.flatMap_cons]⟩

/-- All lines. -/
def KnapsackData.cnfLineList (d : KnapsackData) (cls : ClauseSet) : List McnfLine :=
  cls.map .hard ++ d.items.zipIdx.flatMap fun p => softsOf p.2 p.1.values 0

theorem KnapsackData.run_all (d : KnapsackData) (hl : d.items.length ≤ 2147483647) (cls : ClauseSet) :
    ∃ fuel, d.cnfRun fuel (.capacity cls) = .done (d.cnfLineList cls) := by
  induction cls with
  | nil =>
    obtain ⟨fuel, h⟩ := d.run_soft hl d.items 0 rfl
    exact ⟨fuel + 1, h⟩
  | cons c cls ih =>
    obtain ⟨fuel, h⟩ := ih
    exact ⟨fuel + 1, by simp only [KnapsackData.cnfRun, h, consLine]; rfl⟩

theorem KnapsackData.capacityCnf_eq (d : KnapsackData) (hw : (d.items.map (·.weight)).sum + d.capacity ≤ 9223372036854775807) :
    d.capacityCnf = (match Dpw.encodeUbConstr d.weightList d.capacity (Am1.newVars d.items.length (⟨0⟩ : BasicVM)).2 [] with
      | .ok x => some x
      | _ => none) := by
  have h0 := (Am1.newVars_spec d.items.length (⟨0⟩ : BasicVM)).1
  have e0 : (Am1.newVars d.items.length (⟨0⟩ : BasicVM)).1 = List.range d.items.length := by
    rw [h0]
    show (List.range _).map (fun i => 0 + i) = _
    simp
  have hle : ∀ it ∈ d.items, it.weight ≤ 9223372036854775807 := by
    intro it hit
    have : it.weight ≤ (d.items.map (·.weight)).sum := by
      generalize d.items = l at hit
      induction l with
      | nil => cases hit
      | cons x l ih =>
        rw [List.map_cons, List.sum_cons]
        obtain rfl | h := List.mem_cons.1 hit
        · omega
        · have := ih h
          omega
    omega
  have e1 : ((List.range d.items.length).zip d.items).map (fun p => (Lit.pos p.1, castIsize p.2.weight)) =
      d.weightList.map fun p => (p.1, (p.2 : Int)) := by
    rw [KnapsackData.weightList, List.map_map]
    apply List.ext_getElem
    · simp
    · intro i h1 h2
      simp only [List.getElem_map, List.getElem_zip, List.getElem_range, List.getElem_zipIdx, Function.comp_apply, Nat.zero_add]
      rw [castIsize, if_pos (hle _ (List.getElem_mem _))]
  have hc : castIsize d.capacity = d.capacity := by rw [castIsize, if_pos (by omega)]
  unfold KnapsackData.capacityCnf
  simp only [e0, e1, PbConstraint.newUb, convert_nonneg, hc, Int.add_zero]
  cases Dpw.encodeUbConstr d.weightList d.capacity (Am1.newVars d.items.length (⟨0⟩ : BasicVM)).2 [] <;> rfl

theorem KnapsackData.capacityCnf_spec (d : KnapsackData) (hw : (d.items.map (·.weight)).sum + d.capacity ≤ 9223372036854775807)
    (hpos : ∀ it ∈ d.items, 0 < it.weight) :
    ∃ vm cls, d.capacityCnf = some (vm, cls) ∧
      Encodes (fun v => v < d.items.length) d.items.length (ManageVars.nUsed vm) cls d.Fits := by
  have hn : (d.weightList.map (·.1)).Nodup := by
    rw [KnapsackData.weightList, List.map_map]
    have : (d.items.zipIdx.map ((fun x => x.1) ∘ fun p => (Lit.pos p.2, p.1.weight))) = (List.range d.items.length).map Lit.pos := by
      apply List.ext_getElem
      · simp
      · intro i h1 h2
        simp [List.getElem_zipIdx]
    rw [this]
    refine List.Nodup.map (fun a b h => ?_) List.nodup_range
    have := congrArg Lit.var h
    simpa using this
  have hnu : ManageVars.nUsed (Am1.newVars d.items.length (⟨0⟩ : BasicVM)).2 = d.items.length := by
    rw [(Am1.newVars_spec d.items.length (⟨0⟩ : BasicVM)).2]
    exact Nat.zero_add _
  have hvar : ∀ x ∈ d.weightList, 0 < x.2 ∧ x.1.var < d.items.length := by
    intro x hx
    obtain ⟨p, hp, rfl⟩ := List.mem_map.1 hx
    have hm := List.mem_zipIdx hp
    refine ⟨hpos p.1 (by rw [hm.2.2]; exact List.getElem_mem _), ?_⟩
    rw [Lit.var_pos]
    omega
  obtain ⟨vm, cls, h1, h2⟩ := Dpw.encodeUbConstr_spec hn (Am1.newVars d.items.length (⟨0⟩ : BasicVM)).2
    (by rw [hnu]; exact hvar) d.capacity
  rw [hnu] at h2
  refine ⟨vm, cls, by rw [d.capacityCnf_eq hw, h1], ⟨h2.le, fun c hc l hl => ?_, fun b hb => ?_, fun a ha => ?_⟩⟩
  · obtain ⟨x, hx, e⟩ | h := h2.vars c hc l hl
    · obtain ⟨y, hy, rfl⟩ := List.mem_map.1 hx
      left
      rw [← e]
      exact (hvar y hy).2
    · exact .inr h
  · have := h2.sound b hb
    rwa [d.wsum_weightList] at this
  · exact h2.complete a (by rw [d.wsum_weightList]; exact ha)

/-! ### What the lines say -/

theorem KnapsackData.hards_lines (d : KnapsackData) (cls : ClauseSet) :
    moHards ((d.cnfLineList cls).map McnfLine.datum) = cls := by
  have e : ∀ ls : List McnfLine, (∀ l ∈ ls, ∃ c w k, l = .soft c w k) → moHards (ls.map McnfLine.datum) = [] := by
    intro ls
    induction ls with
    | nil => intro _; rfl
    | cons l ls ih =>
      intro h
      obtain ⟨c, w, k, rfl⟩ := h l List.mem_cons_self
      exact ih fun l hl => h l (List.mem_cons_of_mem _ hl)
  unfold KnapsackData.cnfLineList
  induction cls with
  | nil =>
    refine e _ fun l hl => ?_
    simp only [List.map_nil, List.nil_append, List.mem_flatMap, softsOf, List.mem_map] at hl
    obtain ⟨p, _, q, _, rfl⟩ := hl
    exact ⟨_, _, _, rfl⟩
  | cons c cls ih => exact congrArg (c :: ·) ih

theorem clsCost_append (a : Asg) (x y : List (Clause × Nat)) : clsCost a (x ++ y) = clsCost a x + clsCost a y := by
  induction x with
  | nil => simp [clsCost]
  | cons p x ih =>
    obtain ⟨c, w⟩ := p
    simp only [List.cons_append, clsCost, ih]
    omega

theorem moSofts_append (k : Nat) (x y : List McnfData) : moSofts k (x ++ y) = moSofts k x ++ moSofts k y := by
  induction x with
  | nil => rfl
  | cons p x ih =>
    cases p with
    | soft i w c =>
      by_cases h : i = k <;> simp [moSofts, h, ih]
    | _ => simp [moSofts, ih]

theorem cost_softsOf (a : Asg) (i k : Nat) : ∀ (vs : List Nat) (o : Nat),
    clsCost a (moSofts (k + 1) ((softsOf i vs o).map McnfLine.datum)) =
      if a i then 0 else if o ≤ k then vs.getD (k - o) 0 else 0 := by
  intro vs
  induction vs with
  | nil => intro o; cases a i <;> simp [softsOf, moSofts, clsCost]
  | cons v vs ih =>
    intro o
    have e : (softsOf i (v :: vs) o).map McnfLine.datum = .soft (o + 1) v [Lit.pos i] :: (softsOf i vs (o + 1)).map McnfLine.datum := rfl
    have hf : Clause.falsified a [Lit.pos i] = !a i := by simp [Clause.falsified]
    rw [e, moSofts]
    by_cases h : o = k
    · subst h
      rw [if_pos rfl, clsCost, ih, hf]
      cases a i <;> simp
    · rw [if_neg (by omega), ih]
      cases a i with
      | true => rfl
      | false =>
        simp only [Bool.false_eq_true, if_false]
        by_cases h1 : o ≤ k
        · rw [if_pos (show o + 1 ≤ k by omega), if_pos h1, show k - o = (k - (o + 1)) + 1 by omega]
          rfl
        · rw [if_neg (by omega), if_neg h1]

theorem cost_items (a : Asg) (k : Nat) : ∀ (items : List KnapsackItem) (s : Nat),
    clsCost a (moSofts (k + 1) (((items.zipIdx s).flatMap fun p => softsOf p.2 p.1.values 0).map McnfLine.datum)) =
      sumTo items.length fun i => if !a (s + i) then (items.getD i ⟨0, []⟩).values.getD k 0 else 0 := by
  intro items
  induction items with
  | nil => intro s; rfl
  | cons it items ih =>
    intro s
    rw [List.zipIdx_cons, List.flatMap_cons, List.map_append, moSofts_append, clsCost_append, ih, cost_softsOf]
    simp only [List.length_cons, sumTo, List.range_succ_eq_map, List.map_cons, List.map_map, List.sum_cons, Function.comp_def,
      Nat.add_zero, List.getD_cons_zero, List.getD_cons_succ, Nat.zero_le, if_true, Nat.sub_zero]
    have e : ∀ x, s + 1 + x = s + Nat.succ x := by intro x; omega
    simp only [e]
    cases a s <;> simp

theorem KnapsackData.cost_lines (d : KnapsackData) (cls : ClauseSet) (a : Asg) (k : Nat) :
    clsCost a (moSofts (k + 1) ((d.cnfLineList cls).map McnfLine.datum)) = d.lost k a := by
  unfold KnapsackData.cnfLineList
  rw [List.map_append, moSofts_append, clsCost_append, cost_items, KnapsackData.lost, d.sum_range]
  have : moSofts (k + 1) ((cls.map McnfLine.hard).map McnfLine.datum) = [] := by
    induction cls with
    | nil => rfl
    | cons c cls ih => exact ih
  rw [this, clsCost, Nat.zero_add]
  simp only [Nat.zero_add]

end Problems
end RustSat
