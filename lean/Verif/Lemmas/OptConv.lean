import Verif.Lemmas.MaxSat
import Verif.Lemmas.Dimacs2
import Verif.Props.Objective
import Verif.Props.EncodeConstr
/-
Conversions of instances with objectives to hard clauses and soft literals or clauses.
-/
namespace RustSat
open Objective

theorem mem_relCls {n : Nat} {sc : List (Clause × Nat)} {c : Clause} (h : c ∈ relCls n sc) {l : Lit} (hl : l ∈ c) :
    (∃ p ∈ sc, l ∈ p.1) ∨ (n ≤ l.var ∧ l.var < n + sc.length) := by
  induction sc generalizing n with
  | nil => cases h
  | cons x sc ih =>
    obtain ⟨d, w⟩ := x
    rw [relCls] at h
    rcases List.mem_cons.1 h with rfl | h
    · rcases List.mem_append.1 hl with hl | hl
      · exact .inl ⟨(d, w), by simp, hl⟩
      · rw [List.mem_singleton.1 hl]; simp
    · rcases ih h with ⟨p, hp, h1⟩ | h1
      · exact .inl ⟨p, by simp [hp], h1⟩
      · simp only [List.length_cons]; exact .inr (by omega)

theorem mem_addTo_fold {α : Type} [DecidableEq α] (u : Nat) (sl : List α) (m : List (α × Nat)) {p : α × Nat}
    (h : p ∈ sl.foldl (fun m l => HMap.addTo m l u) m) : p.1 ∈ sl ∨ ∃ q ∈ m, q.1 = p.1 := by
  induction sl generalizing m with
  | nil => exact .inr ⟨p, h, rfl⟩
  | cons l sl ih =>
    rcases ih _ h with h1 | ⟨q, hq, e⟩
    · exact .inl (by simp [h1])
    · unfold HMap.addTo at hq
      rw [HMap.mem_insert] at hq
      rcases hq with ⟨hq, -⟩ | hq
      · exact .inr ⟨q, hq, e⟩
      · left; rw [← e, hq]; simp

section
variable {VM : Type} [ManageVars VM] [LawfulVM VM]

/-- The variables of the result of `into_soft_lits`. -/
theorem intoSoftLits_vars (o : Objective) (vm : VM) (hv : ∀ v, o.hasVar v → v < ManageVars.nUsed vm) :
    (∀ c ∈ (o.intoSoftLits vm).1, ∀ l ∈ c, l.var < ManageVars.nUsed (o.intoSoftLits vm).2.2.2) ∧
    ∀ p ∈ (o.intoSoftLits vm).2.1, p.1.var < ManageVars.nUsed (o.intoSoftLits vm).2.2.2 := by
  cases o with
  | weighted off sl sc =>
    obtain ⟨e1, e2, e3⟩ := relaxW_eq sc vm sl [] (fun p hp => hv _ (.inl ⟨p, hp, rfl⟩))
    simp only [intoSoftLits, convertToSoftLits, toWeighted, e1, e2, e3, List.nil_append]
    constructor
    · intro c hc l hl
      rcases mem_relCls hc hl with ⟨p, hp, h⟩ | h
      · have := hv _ (.inr ⟨p, hp, l, h, rfl⟩); omega
      · omega
    · intro p hp
      rcases List.mem_append.1 hp with hp | hp
      · have := hv _ (.inl ⟨p, hp, rfl⟩); omega
      · exact (mem_relLits hp).2
  | unweighted off u sl sc =>
    obtain ⟨e1, e2, e3⟩ := relaxU_eq sc vm sl [] (u.getD 0)
    simp only [intoSoftLits, convertToSoftLits]
    have hh : ∀ c ∈ (relaxU vm sl [] sc).2.1, ∀ l ∈ c, l.var < ManageVars.nUsed (relaxU vm sl [] sc).2.2 := by
      intro c hc l hl
      rw [e2, List.nil_append] at hc
      rw [e3]
      rcases mem_relCls hc hl with ⟨p, hp, h⟩ | h
      · obtain ⟨d, hd, rfl⟩ := List.mem_map.1 hp
        have := hv _ (.inr ⟨d, hd, l, h, rfl⟩); omega
      · rw [List.length_map] at h; omega
    cases u with
    | none => exact ⟨hh, fun p hp => by cases hp⟩
    | some u =>
      refine ⟨hh, fun p hp => ?_⟩
      simp only [toWeighted] at hp
      show p.1.var < ManageVars.nUsed (relaxU vm sl [] sc).2.2
      rcases mem_addTo_fold u _ _ hp with h | ⟨q, hq, -⟩
      · rw [e1] at h
        rw [e3]
        rcases List.mem_append.1 h with h | h
        · have := hv _ (.inl ⟨p.1, h, rfl⟩); omega
        · obtain ⟨q, hq, e⟩ := List.mem_map.1 h
          rw [← e]
          have := (mem_relLits hq).2
          rwa [List.length_map] at this
      · cases hq

/-- Relaxing all objectives, one after the other. -/
theorem allSoftLits_spec (objs : List Objective) (vm : VM) (cnf : ClauseSet)
    (hc : ∀ c ∈ cnf, ∀ l ∈ c, l.var < ManageVars.nUsed vm) (hw : ∀ o ∈ objs, o.WF)
    (hv : ∀ o ∈ objs, ∀ v, o.hasVar v → v < ManageVars.nUsed vm) :
    ∃ cnf' softs vm', MultiOptInstance.allSoftLits vm cnf objs = (cnf', softs, vm') ∧
      ManageVars.nUsed vm ≤ ManageVars.nUsed vm' ∧ softs.length = objs.length ∧
      (∀ b, ClauseSet.sat b cnf' → ClauseSet.sat b cnf ∧
        ∀ (j : Nat) o p, objs[j]? = some o → softs[j]? = some p → o.value b ≤ p.2 + wsum b p.1) ∧
      (∀ a, ClauseSet.sat a cnf → ∃ b, (∀ v, v < ManageVars.nUsed vm → b v = a v) ∧ ClauseSet.sat b cnf' ∧
        ∀ (j : Nat) o p, objs[j]? = some o → softs[j]? = some p → p.2 + wsum b p.1 = o.value a) ∧
      (∀ c ∈ cnf', ∀ l ∈ c, l.var < ManageVars.nUsed vm') ∧ ∀ p ∈ softs, ∀ x ∈ p.1, x.1.var < ManageVars.nUsed vm' := by
  induction objs generalizing vm cnf with
  | nil => exact ⟨cnf, [], vm, rfl, Nat.le_refl _, rfl, fun b hb => ⟨hb, by simp⟩, fun a ha => ⟨a, fun _ _ => rfl, ha, by simp⟩, hc, by simp⟩
  | cons o objs ih =>
    obtain ⟨n1, r1, r2⟩ := C22_into_soft_lits o (hw o (by simp)) vm (hv o (by simp))
    obtain ⟨v1, v2⟩ := intoSoftLits_vars o vm (hv o (by simp))
    have e : MultiOptInstance.allSoftLits vm cnf (o :: objs) =
      ((MultiOptInstance.allSoftLits (o.intoSoftLits vm).2.2.2 (cnf ++ (o.intoSoftLits vm).1) objs).1,
        ((o.intoSoftLits vm).2.1, (o.intoSoftLits vm).2.2.1) ::
          (MultiOptInstance.allSoftLits (o.intoSoftLits vm).2.2.2 (cnf ++ (o.intoSoftLits vm).1) objs).2.1,
        (MultiOptInstance.allSoftLits (o.intoSoftLits vm).2.2.2 (cnf ++ (o.intoSoftLits vm).1) objs).2.2) := rfl
    generalize o.intoSoftLits vm = r at n1 r1 r2 v1 v2 e
    obtain ⟨hards, soft, off, vm1⟩ := r
    simp only at n1 r1 r2 v1 v2 e
    have hle : ManageVars.nUsed vm ≤ ManageVars.nUsed vm1 := by omega
    obtain ⟨cnf', softs, vm', e1, h1, h2, h3, h4, h5, h6⟩ := ih vm1 (cnf ++ hards)
      (fun c hcc l hl => by
        rcases List.mem_append.1 hcc with hcc | hcc
        · exact Nat.lt_of_lt_of_le (hc c hcc l hl) hle
        · exact v1 c hcc l hl)
      (fun o ho => hw o (by simp [ho])) (fun o ho v h => Nat.lt_of_lt_of_le (hv o (by simp [ho]) v h) hle)
    rw [e1] at e
    refine ⟨cnf', (soft, off) :: softs, vm', e, Nat.le_trans hle h1, by simp [h2], fun b hb => ?_, fun a ha => ?_, h5, ?_⟩
    · obtain ⟨h7, h8⟩ := h3 b hb
      rw [ClauseSet.sat_append] at h7
      refine ⟨h7.1, fun j o' p ho hp => ?_⟩
      cases j with
      | zero => simp at ho hp; subst ho; subst hp; exact r1 b h7.2
      | succ j => exact h8 j o' p (by simpa using ho) (by simpa using hp)
    · obtain ⟨b1, g1, g2, g3⟩ := r2 a
      have hc1 : ClauseSet.sat b1 cnf := ClauseSet.sat_congr (a := a) (fun c hcc l hl => (g1 _ (.inl (hc c hcc l hl))).symm) ha
      obtain ⟨b, g4, g5, g6⟩ := h4 b1 ((ClauseSet.sat_append _ _ _).2 ⟨hc1, g2⟩)
      refine ⟨b, fun v hvv => by rw [g4 v (by omega), g1 v (.inl hvv)], g5, fun j o' p ho hp => ?_⟩
      cases j with
      | zero =>
        simp at ho hp; subst ho; subst hp
        rw [← g3]
        have : wsum b soft = wsum b1 soft := wsum_congr fun x hx => Lit.holds_congr (g4 _ (v2 x hx))
        simp only [this]
      | succ j =>
        have ho' : objs[j]? = some o' := by simpa using ho
        rw [g6 j o' p ho' (by simpa using hp)]
        exact objValue_congr o' fun v hvv => g1 v (.inl (hv o' (by simp [List.mem_of_getElem? ho']) v hvv))
    · intro p hp x hx
      rcases List.mem_cons.1 hp with rfl | hp
      · exact Nat.lt_of_lt_of_le (v2 x hx) h1
      · exact h6 p hp x hx

/-- Encoding the constraints keeps the variables outside those it hands out. -/
theorem intoCnf_spec (s : SatInstance VM) (hk : s.Known) (hr : ∀ c ∈ s.pbs, c.Regular) :
    ∃ cnf vm', s.intoCnf = some (cnf, vm') ∧ ManageVars.nUsed s.vm ≤ ManageVars.nUsed vm' ∧
      (s.cards = [] → s.pbs = [] → ManageVars.nUsed vm' = ManageVars.nUsed s.vm) ∧
      (∀ b, ClauseSet.sat b cnf → s.sat b) ∧
      (∀ a, s.sat a → ∃ b, (∀ v, v < ManageVars.nUsed s.vm ∨ ManageVars.nUsed vm' ≤ v → b v = a v) ∧ ClauseSet.sat b cnf) ∧
      (∀ c ∈ cnf, ∀ l ∈ c, l.var < ManageVars.nUsed vm') := by
  obtain ⟨new, vm', e, e', h1, hle, h2, h3⟩ := C38_partial s hk hr
  have hlt : ∀ c ∈ s.cnf ++ new, ∀ l ∈ c, l.var < ManageVars.nUsed vm' := by
    intro c hc l hl
    rcases h3 c hc l hl with h | h
    · exact Nat.lt_of_lt_of_le (hk _ h) hle
    · exact h.2
  refine ⟨_, vm', e, hle, fun hcd hpb => ?_, h1, h2, hlt⟩
  · have : s.intoCnf = some (s.cnf, s.vm) := by
      unfold SatInstance.intoCnf SatInstance.convertToCnf SatInstance.convertToCnfWith
      rw [hcd, hpb]
      rfl
    rw [this] at e
    injection e with e
    injection e with _ e
    rw [e]

/-- Encoding the constraints and then relaxing the objectives. -/
theorem convert_spec (s : SatInstance VM) (objs : List Objective) {cnf : ClauseSet} {vm1 vm2 : VM}
    (hn : ManageVars.nUsed s.vm ≤ ManageVars.nUsed vm1) (hle : ManageVars.nUsed vm1 ≤ ManageVars.nUsed vm2)
    (hk : s.Known) (hw : ∀ o ∈ objs, o.WF)
    (ho : ∀ o ∈ objs, ∀ v, o.hasVar v → v < ManageVars.nUsed s.vm ∨ ManageVars.nUsed vm1 ≤ v)
    (hv : ∀ o ∈ objs, ∀ v, o.hasVar v → v < ManageVars.nUsed vm2)
    (h1 : ∀ b, ClauseSet.sat b cnf → s.sat b)
    (h2 : ∀ a, s.sat a → ∃ b, (∀ v, v < ManageVars.nUsed s.vm ∨ ManageVars.nUsed vm1 ≤ v → b v = a v) ∧ ClauseSet.sat b cnf)
    (h3 : ∀ c ∈ cnf, ∀ l ∈ c, l.var < ManageVars.nUsed vm1) :
    ∃ cnf' softs vm', MultiOptInstance.allSoftLits vm2 cnf objs = (cnf', softs, vm') ∧ ConvertsTo s objs cnf' softs vm' := by
  obtain ⟨cnf', softs, vm', e, g1, g2, g3, g4, g5, g6⟩ := allSoftLits_spec objs vm2 cnf
    (fun c hc l hl => Nat.lt_of_lt_of_le (h3 c hc l hl) hle) hw hv
  refine ⟨cnf', softs, vm', e, g2, fun b hb => ⟨h1 b (g3 b hb).1, (g3 b hb).2⟩, fun a ha => ?_, g5, g6⟩
  obtain ⟨b1, k1, k2⟩ := h2 a ha
  obtain ⟨b, k3, k4, k5⟩ := g4 b1 k2
  refine ⟨b, ?_, k4, fun j o p hj hp => ?_⟩
  · rintro v (hv' | ⟨o, ho', hv'⟩)
    · have := hk v hv'
      rw [k3 v (by omega), k1 v (.inl this)]
    · rw [k3 v (hv o ho' v hv'), k1 v (ho o ho' v hv')]
  · rw [k5 j o p hj hp]
    exact objValue_congr o fun v hv' => k1 v (ho o (List.mem_of_getElem? hj) v hv')

end

/-! ### `solve_maxsat` -/

theorem insert_fold (sl : List (Lit × Nat)) (m : List (Clause × Nat)) (hn : (sl.map (·.1)).Nodup)
    (hm : ∀ p ∈ sl, ∀ q ∈ m, q.1 ≠ [p.1.neg]) :
    sl.foldl (fun m p => HMap.insert m [p.1.neg] p.2) m = m ++ sl.map fun p => ([p.1.neg], p.2) := by
  induction sl generalizing m with
  | nil => simp
  | cons x sl ih =>
    rw [List.map_cons, List.nodup_cons] at hn
    have e : HMap.insert m [x.1.neg] x.2 = m ++ [([x.1.neg], x.2)] := by
      rw [HMap.insert, HMap.remove_of_not_mem]
      intro h
      obtain ⟨q, hq, e⟩ := List.mem_map.1 h
      exact hm x (by simp) q hq e
    rw [List.foldl_cons, e, ih _ hn.2]
    · simp
    · intro p hp q hq
      rcases List.mem_append.1 hq with hq | hq
      · exact hm p (by simp [hp]) q hq
      · rw [List.mem_singleton.1 hq]
        intro h
        have h' : x.1.neg = p.1.neg := by simpa using h
        have h2 : x.1 = p.1 := by rw [← Lit.neg_neg x.1, h', Lit.neg_neg]
        exact hn.1 (h2 ▸ List.mem_map_of_mem hp)

theorem intoSoftCls_units (o : Objective) (hw : o.WF) (hc : o.nClauses = 0) :
    o.intoSoftCls = some (o.litList.map fun p => ([p.1.neg], p.2), o.offset) := by
  cases o with
  | weighted off sl sc =>
    have : sc = [] := List.length_eq_zero_iff.1 hc
    subst this
    show some (_, off) = _
    rw [insert_fold sl [] hw.1 (by simp)]
    simp [Objective.litList, Objective.offset]
  | unweighted off u sl sc =>
    have : sc = [] := List.length_eq_zero_iff.1 hc
    subst this
    cases u with
    | none =>
      obtain ⟨rfl, -⟩ := hw.1 rfl
      rfl
    | some u => simp [Objective.intoSoftCls, Objective.litList, Objective.offset]

theorem handleSoftCls_units (ls : List (Lit × Nat)) (vm : BasicVM) (cls : ClauseSet) :
    handleSoftCls vm cls (ls.map fun p => ([p.1.neg], p.2)) = (ls, cls, vm) := by
  induction ls with
  | nil => rfl
  | cons x ls ih =>
    rw [List.map_cons]
    unfold handleSoftCls
    simp only
    rw [ih]
    simp

theorem value_litList (o : Objective) (hw : o.WF) (hc : o.nClauses = 0) (a : Asg) : o.value a = o.offset + wsum a o.litList := by
  cases o with
  | weighted off sl sc =>
    have : sc = [] := List.length_eq_zero_iff.1 hc
    subst this
    simp [Objective.value, Objective.litList, Objective.offset, clsCost]
  | unweighted off u sl sc =>
    have : sc = [] := List.length_eq_zero_iff.1 hc
    subst this
    have key : ∀ sl : List Lit, wsum a (sl.map fun l => (l, u.getD 0)) = u.getD 0 * countTrue a sl := by
      intro sl
      induction sl with
      | nil => rfl
      | cons l sl ih =>
        simp only [List.map_cons, wsum, countTrue, ih]
        cases l.holds a <;> simp [Nat.mul_add]
    simp only [Objective.value, Objective.litList, Objective.offset, countFalsified, Nat.add_zero, key]
    simp

theorem litList_hasVar {o : Objective} {x : Lit × Nat} (h : x ∈ o.litList) : o.hasVar x.1.var := by
  cases o with
  | weighted off sl sc => exact .inl ⟨x, h, rfl⟩
  | unweighted off u sl sc =>
    obtain ⟨l, hl, rfl⟩ := List.mem_map.1 h
    exact .inl ⟨l, hl, rfl⟩

theorem clsMaxVar_spec {f : ClauseSet} {mv : Nat} (h : clsMaxVar f = some mv) : ∀ c ∈ f, ∀ l ∈ c, l.var ≤ mv := by
  intro c hc l hl
  obtain ⟨m, hm, hle⟩ := (DimacsSpec.foldMaxC (fun c : Clause => c) f none).2 c hc l hl
  have : some m = some mv := hm.symm.trans h
  injection this with this
  omega

section
variable {VM : Type} [ManageVars VM] [LawfulVM VM]
variable {E : Type} [Encoder E (Lit × Nat)] [BoundUpper E BasicVM] [EnforceUb E] [LawfulMono E (Lit × Nat) BasicVM]

theorem solveMaxsat_spec (i : OptInstance VM) (hk : i.constrs.Known) (hr : ∀ c ∈ i.constrs.pbs, c.Regular)
    (hw : i.obj.WF) (hc : i.obj.nClauses = 0) (hd : (i.obj.litList.map (·.1)).Nodup) (hp : ∀ x ∈ i.obj.litList, 0 < x.2)
    {cnf : ClauseSet} {vm1 : VM} {mv : Nat} (hcnf : i.constrs.intoCnf = some (cnf, vm1)) (hmv : clsMaxVar cnf = some mv)
    (ho : ∀ v, i.obj.hasVar v → v ≤ mv ∧ v < ManageVars.nUsed i.constrs.vm)
    (hov : i.obj.offset + (i.obj.litList.map (·.2)).sum ≤ isizeMax)
    {oracle : Nat → ClauseSet → SolverAnswer} {order : Nat → E → E}
    (horacle : CorrectSolver mv oracle) (hdc : OnePolarity i.obj.litList ∨ TotalSolver mv oracle)
    (horder : ∀ call e, LawfulMono.same BasicVM e (order call e)) (fuel : Nat) (hfuel : (i.obj.litList.map (·.2)).sum + 1 < fuel) :
    IsResult (fun b => i.constrs.sat b) (fun b => i.obj.value b) (i.solveMaxsat (solutionImproving E oracle order fuel)) := by
  obtain ⟨cnf', vm', e, hle, -, h1, h2, h3⟩ := intoCnf_spec i.constrs hk hr
  rw [hcnf] at e
  injection e with e
  injection e with e1 e2
  subst e1
  have hs := solutionImproving_spec (E := E) (F := cnf) (obj := i.obj.litList) (order := order) (clsMaxVar_spec hmv)
    (fun x hx => ⟨hp x hx, (ho _ (litList_hasVar hx)).1⟩) hd horacle hdc horder fuel hfuel
  unfold OptInstance.solveMaxsat
  rw [hcnf, intoSoftCls_units _ hw hc]
  simp only [handleSoftCls_units, hmv]
  have hlift : ∀ a, i.constrs.sat a → ∃ b, ClauseSet.sat b cnf ∧ wsum b i.obj.litList = wsum a i.obj.litList := by
    intro a ha
    obtain ⟨b, k1, k2⟩ := h2 a ha
    exact ⟨b, k2, wsum_congr fun x hx => Lit.holds_congr (k1 _ (.inl (ho _ (litList_hasVar hx)).2))⟩
  cases hres : solutionImproving E oracle order fuel (some mv) cnf i.obj.litList with
  | panic => rw [hres] at hs; exact hs.elim
  | running => rw [hres] at hs; exact hs.elim
  | done r =>
    rw [hres] at hs
    cases r with
    | none =>
      rintro ⟨a, ha⟩
      obtain ⟨b, hb, -⟩ := hlift a ha
      exact hs ⟨b, hb⟩
    | some x =>
      obtain ⟨sol, c⟩ := x
      obtain ⟨s1, ⟨b, s2, s3⟩, s4⟩ := (show IsOptimum _ _ sol (c : Int) from hs)
      have s3' : wsum b i.obj.litList = c := by simpa using s3
      have hb := Item.value_le b i.obj.litList
      rw [Item.value_weighted, s3'] at hb
      have hb' : c ≤ (i.obj.litList.map (·.2)).sum := hb
      have hno : ¬ i.obj.offset + (c : Int) > isizeMax := by omega
      simp only
      rw [if_neg hno]
      refine ⟨fun b hb => h1 b (s1 b hb), ⟨b, s2, by rw [value_litList _ hw hc, s3']⟩, fun a ha => ?_⟩
      obtain ⟨b', k1, k2⟩ := hlift a ha
      have := s4 b' k1
      simp only [value_litList _ hw hc]
      omega

end
end RustSat
