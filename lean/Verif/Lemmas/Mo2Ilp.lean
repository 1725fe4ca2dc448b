import Verif.Model.Mo2Ilp
import Verif.Spec.Mo2Ilp
import Verif.Lemmas.Converters
import Verif.Lemmas.ProblemPb
import Verif.Lemmas.Gte
/- Lemmas on the conversion to integer linear programs: the rows, the relaxation of soft clauses, the program. -/
namespace RustSat
namespace Mo2Ilp
open Ilp

theorem rowVal_zero : ∀ (n : Nat) (x : Asg), rowVal (List.replicate n 0) x = 0
  | 0, _ => rfl
  | n + 1, x => by rw [List.replicate_succ, rowVal, rowVal_zero n]; simp

theorem rowVal_modify (c : Int) : ∀ (l : List Int) (idx : Nat) (x : Asg), idx < l.length →
    rowVal (l.modify idx (· + c)) x = rowVal l x + if x idx then c else 0
  | [], _, _, h => by cases h
  | d :: l, 0, x, _ => by
    simp only [List.modify_zero_cons, rowVal]
    split <;> omega
  | d :: l, idx + 1, x, h => by
    simp only [List.modify_succ_cons, rowVal]
    rw [rowVal_modify c l idx _ (Nat.lt_of_succ_lt_succ h)]
    omega

theorem addCoef_spec {l : List Int} {idx : Nat} (h : idx < l.length) (c : Int) :
    ∃ r, addCoef l idx c = some r ∧ r.length = l.length ∧ ∀ x, rowVal r x = rowVal l x + if x idx then c else 0 :=
  ⟨_, if_pos h, by simp, fun x => rowVal_modify c l idx x h⟩

theorem objLoop_spec {M : Nat} : ∀ (ls : List (Lit × Nat)) (l : List Int), l.length = M + 1 →
    (∀ p ∈ ls, p.2 ≤ isizeMax ∧ p.1.var < M + 1) →
    ∃ r, objLoop l ls = some r ∧ r.length = M + 1 ∧ ∀ x : Asg, x M = true → rowVal r x = rowVal l x + wsum x ls
  | [], l, hl, _ => ⟨l, rfl, hl, fun x _ => by simp [wsum]⟩
  | (k, w) :: ls, l, hl, h => by
    obtain ⟨hw, hv⟩ := h (k, w) (by simp)
    rw [objLoop, if_neg (by simpa using hw)]
    cases hn : k.isNeg with
    | true =>
      obtain ⟨r1, e1, l1, v1⟩ := addCoef_spec (l := l) (idx := l.length - 1) (by omega) (w : Int)
      obtain ⟨r2, e2, l2, v2⟩ := addCoef_spec (l := r1) (idx := k.var) (by simp only at hv; omega) (-(w : Int))
      obtain ⟨r, e, l3, v3⟩ := objLoop_spec ls r2 (by omega) fun p hp => h p (by simp [hp])
      refine ⟨r, ?_, l3, fun x hx => ?_⟩
      · rw [if_pos rfl, addLast, e1]; simp only [e2, e]
      · rw [v3 x hx, v2, v1, wsum, hl, Nat.add_sub_cancel, hx, Lit.holds, hn]
        cases x k.var <;> simp <;> omega
    | false =>
      obtain ⟨r1, e1, l1, v1⟩ := addCoef_spec (l := l) (idx := k.var) (by simp only at hv; omega) (w : Int)
      obtain ⟨r, e, l3, v3⟩ := objLoop_spec ls r1 (by omega) fun p hp => h p (by simp [hp])
      refine ⟨r, ?_, l3, fun x hx => ?_⟩
      · rw [if_neg (by simp), e1]; simp only [e]
      · rw [v3 x hx, v1, wsum, Lit.holds, hn]
        cases x k.var <;> simp <;> omega

theorem objRow_spec {M : Nat} {o : Objective} {ls : List (Lit × Nat)} (h : o.iterSoftLits = some ls)
    (hls : ∀ p ∈ ls, p.2 ≤ isizeMax ∧ p.1.var < M + 1) :
    ∃ r, objRow o (M + 1) = some r ∧ r.length = M + 1 ∧ ∀ x : Asg, x M = true → rowVal r x = o.value x := by
  obtain ⟨r1, e1, l1, v1⟩ := objLoop_spec ls (List.replicate (M + 1) 0) (by simp) hls
  obtain ⟨r, e, l2, v2⟩ := addCoef_spec (l := r1) (idx := r1.length - 1) (by omega) o.offset
  refine ⟨r, ?_, by omega, fun x hx => ?_⟩
  · rw [objRow, h]; simp only [e1]; exact e
  · rw [v2, v1 x hx, rowVal_zero, l1, Nat.add_sub_cancel, hx, OpbSpec.iterSoftLits_value h]; simp

theorem constrLoop_spec {n : Nat} : ∀ (ls : List (Lit × Nat)) (l : List Int) (b : Int), l.length = n →
    (∀ p ∈ ls, p.2 ≤ isizeMax ∧ p.1.var < n) →
    ∃ r b', constrLoop l b ls = some (r, b') ∧ r.length = n ∧ ∀ x : Asg, rowVal r x - b' = rowVal l x + wsum x ls - b
  | [], l, b, hl, _ => ⟨l, b, rfl, hl, fun x => by simp [wsum]⟩
  | (k, w) :: ls, l, b, hl, h => by
    obtain ⟨hw, hv⟩ := h (k, w) (by simp)
    rw [constrLoop, if_neg (by simpa using hw)]
    obtain ⟨r1, e1, l1, v1⟩ := addCoef_spec (l := l) (idx := k.var) (by simp only at hv; omega) (if k.isNeg then -(w : Int) else w)
    obtain ⟨r, b', e, l3, v3⟩ := constrLoop_spec ls r1 (if k.isNeg then b - w else b) (by omega) fun p hp => h p (by simp [hp])
    refine ⟨r, b', by rw [e1]; exact e, l3, fun x => ?_⟩
    rw [v3 x, v1, wsum, Lit.holds]
    cases k.isNeg <;> cases x k.var <;> simp <;> omega

/-- The relation in the specification. -/
def Operator.rel : Operator → Rel
  | .gte => .ge
  | .lte => .le
  | .eq => .eq

/-- The row in the specification. -/
def toRow (c : List Int × Operator × Int) : List Int × Rel × Int := (c.1, c.2.1.rel, c.2.2)

theorem constrRow_spec {n : Nat} (c : PbConstraint) (h : ∀ p ∈ c.lits, p.2 ≤ isizeMax ∧ p.1.var < n) :
    ∃ r, constrRow c n = some r ∧ r.1.length = n ∧ ∀ x, holds x (toRow r) ↔ c.sat x := by
  obtain ⟨r, b', e, hl, hv⟩ := constrLoop_spec c.lits (List.replicate n 0) c.bound (by simp) h
  refine ⟨(r, opOf c, b'), by rw [constrRow, e], hl, fun x => ?_⟩
  have := hv x
  rw [rowVal_zero] at this
  cases c with
  | ub l w b => simp only [toRow, opOf, Operator.rel, holds, PbConstraint.sat, PbConstraint.lits, PbConstraint.bound] at *; omega
  | lb l w b => simp only [toRow, opOf, Operator.rel, holds, PbConstraint.sat, PbConstraint.lits, PbConstraint.bound] at *; omega
  | eq l w b => simp only [toRow, opOf, Operator.rel, holds, PbConstraint.sat, PbConstraint.lits, PbConstraint.bound] at *; omega

theorem mapM_spec {α β : Type} {f : α → Option β} {P : α → β → Prop} : ∀ (l : List α), (∀ a ∈ l, ∃ b, f a = some b ∧ P a b) →
    ∃ r, l.mapM f = some r ∧ r.length = l.length ∧ (∀ (j : Nat) a b, l[j]? = some a → r[j]? = some b → P a b) ∧
      (∀ b ∈ r, ∃ a ∈ l, P a b) ∧ ∀ a ∈ l, ∃ b ∈ r, P a b
  | [], _ => ⟨[], rfl, rfl, by simp, by simp, by simp⟩
  | a :: l, h => by
    obtain ⟨b, e, hp⟩ := h a (by simp)
    obtain ⟨r, e', hl, h1, h2, h3⟩ := mapM_spec l fun a ha => h a (by simp [ha])
    refine ⟨b :: r, by simp [List.mapM_cons, e, e'], by simp [hl], ?_, ?_, ?_⟩
    · intro j a' b' ha hb
      cases j with
      | zero => simp at ha hb; subst ha; subst hb; exact hp
      | succ j => exact h1 j a' b' (by simpa using ha) (by simpa using hb)
    · intro b' hb
      rcases List.mem_cons.1 hb with rfl | hb
      · exact ⟨a, by simp, hp⟩
      · obtain ⟨a', ha, h⟩ := h2 b' hb; exact ⟨a', by simp [ha], h⟩
    · intro a' ha
      rcases List.mem_cons.1 ha with rfl | ha
      · exact ⟨b, by simp, hp⟩
      · obtain ⟨b', hb, h⟩ := h3 a' ha; exact ⟨b', by simp [hb], h⟩

theorem hasVar_of_hasSoft {o : Objective} {d : Clause} (h : o.hasSoft d) {l : Lit} (hl : l ∈ d) : o.hasVar l.var := by
  cases o with
  | weighted off sl sc => obtain ⟨p, hp, rfl⟩ := h; exact .inr ⟨p, hp, l, hl, rfl⟩
  | unweighted off u sl sc => exact .inr ⟨d, h, l, hl, rfl⟩

theorem convertAll_spec : ∀ (objs : List Objective) (vm : BasicVM), (∀ o ∈ objs, o.WF) →
    (∀ o ∈ objs, ∀ v, o.hasVar v → v < ManageVars.nUsed vm) →
    let r := convertAll vm objs
    r.2.1.length = objs.length ∧ ManageVars.nUsed r.2.2 = ManageVars.nUsed vm + (objs.map Objective.nClauses).sum ∧
    (∀ c ∈ r.1, ∀ l ∈ c, l.var < ManageVars.nUsed r.2.2) ∧
    (∀ o' ∈ r.2.1, ∃ o ∈ objs, ∃ ls, o'.iterSoftLits = some ls ∧ wtotal ls = o.weightSum ∧
      ∀ p ∈ ls, p.1.var < ManageVars.nUsed r.2.2) ∧
    (∀ b, ClauseSet.sat b r.1 → ∀ (j : Nat) o o', objs[j]? = some o → r.2.1[j]? = some o' → o.value b ≤ o'.value b) ∧
    ∀ a, ∃ b, (∀ v, v < ManageVars.nUsed vm → b v = a v) ∧ ClauseSet.sat b r.1 ∧
      ∀ (j : Nat) o o', objs[j]? = some o → r.2.1[j]? = some o' → o'.value b = o.value a
  | [], vm, _, _ => ⟨rfl, rfl, by simp [convertAll], by simp [convertAll], by simp,
      fun a => ⟨a, fun _ _ => rfl, by simp [convertAll], by simp⟩⟩
  | o :: objs, vm, hw, hv => by
    obtain ⟨_, _, n1, rs⟩ := C22_convert_to_soft_lits o (hw o (by simp)) vm (hv o (by simp))
    obtain ⟨c1, _, ls, i1, t1, hv1, b1⟩ := convert_more o vm (hv o (by simp))
    obtain ⟨so, co⟩ := rs
    simp only [convertAll]
    generalize o.convertToSoftLits vm = q at *
    obtain ⟨cls, o1, vm1⟩ := q
    simp only at *
    obtain ⟨hl, n2, c2, g2, s2, k2⟩ := convertAll_spec objs vm1 (fun o ho => hw o (by simp [ho]))
      (fun o ho v h => by have := hv o (by simp [ho]) v h; omega)
    generalize convertAll vm1 objs = q at *
    obtain ⟨rest, os, vm2⟩ := q
    simp only at *
    have hcls : ∀ c ∈ cls, ∀ l ∈ c, l.var < ManageVars.nUsed vm1 := by
      intro c hc l hlc
      obtain ⟨d, v, hd, hvv, rfl⟩ := c1 c hc
      rcases List.mem_append.1 hlc with hlc | hlc
      · have := hv o (by simp) _ (hasVar_of_hasSoft hd hlc); omega
      · have : l = Lit.pos v := by simpa using hlc
        subst this
        have : (Lit.pos v).var = v := Lit.var_mk' v false
        omega
    refine ⟨by simp [hl], by simp; omega, ?_, ?_, ?_, ?_⟩
    · intro c hc l hlc
      rcases List.mem_append.1 hc with hc | hc
      · have := hcls c hc l hlc; omega
      · exact c2 c hc l hlc
    · intro o' ho'
      rcases List.mem_cons.1 ho' with rfl | ho'
      · exact ⟨o, by simp, ls, i1, t1, fun p hp => by have := b1 _ (hv1 p hp); omega⟩
      · obtain ⟨u, hu, h⟩ := g2 o' ho'
        exact ⟨u, by simp [hu], h⟩
    · intro b hb j p p' hp hp'
      rw [ClauseSet.sat_append] at hb
      cases j with
      | zero => simp at hp hp'; subst hp; subst hp'; exact so b hb.1
      | succ j => exact s2 b hb.2 j p p' (by simpa using hp) (by simpa using hp')
    · intro a
      obtain ⟨a1, g3, g4, g5⟩ := co a
      obtain ⟨b, g6, g7, g8⟩ := k2 a1
      refine ⟨b, fun v h => by rw [g6 v (by omega), g3 v (.inl h)], ?_, ?_⟩
      · rw [ClauseSet.sat_append]
        refine ⟨(ClauseSet.sat_congr_vars fun c hc l hlc => ?_).2 g4, g7⟩
        exact g6 _ (hcls c hc l hlc)
      · intro j p p' hp hp'
        cases j with
        | zero =>
          simp at hp hp'; subst hp; subst hp'
          rw [← g5]
          refine objValue_congr _ fun v hvv => ?_
          exact g6 v (by have := b1 v hvv; omega)
        | succ j =>
          have hp0 : objs[j]? = some p := by simpa using hp
          rw [g8 j p p' hp0 (by simpa using hp')]
          exact objValue_congr p fun v hvv => g3 v (.inl (hv p (by simp [List.mem_of_getElem? hp0]) v hvv))

/-- The program in the specification. -/
def Program.ilp (p : Program) : Ilp := ⟨p.nVars, p.objs, p.constrs.map toRow⟩

theorem lits_ofClause (c : Clause) : (PbConstraint.ofClause c).lits = c.map fun l => (l, 1) := by
  have := Problems.convert_nonneg (c.map fun l => (l, 1))
  simp only [List.map_map, Function.comp_def, Nat.cast_one] at this
  simp only [PbConstraint.ofClause, PbConstraint.newLb]
  rw [this]
  rfl

theorem lits_ofCard (c : CardConstraint) : (PbConstraint.ofCard c).lits = c.lits.map fun l => (l, 1) := by
  have := Problems.convert_nonneg (c.lits.map fun l => (l, 1))
  simp only [List.map_map, Function.comp_def, Nat.cast_one] at this
  cases c <;> (simp only [PbConstraint.ofCard, PbConstraint.newLb, PbConstraint.newUb, PbConstraint.newEq, CardConstraint.lits] at *; rw [this]; rfl)

/-- The program for an instance whose variables are known. -/
theorem program_spec (i : MultiOptInstance BasicVM) (hk : i.constrs.Known) (hw : ∀ o ∈ i.objs, o.WF) (hf : i.Fits) :
    ∃ p, program i = some p ∧ p.ilp.WF ∧
      p.nVars = ManageVars.nUsed i.decompose.1.vm + (i.objs.map Objective.nClauses).sum + 1 ∧
      p.objs.length = i.objs.length ∧
      (∀ x, p.ilp.sat x → i.constrs.sat x ∧ ∀ (j : Nat) o row, i.objs[j]? = some o → p.objs[j]? = some row → o.value x ≤ rowVal row x) ∧
      ∀ a, i.constrs.sat a → ∃ x : Asg, (∀ v, v < ManageVars.nUsed i.decompose.1.vm → x v = a v) ∧ p.ilp.sat x ∧
        ∀ (j : Nat) o row, i.objs[j]? = some o → p.objs[j]? = some row → rowVal row x = o.value a := by
  obtain ⟨d1, d2, d3, d4, _⟩ := multiDecompose_spec i hk
  have e2 : i.decompose.2 = i.objs := rfl
  simp only [program, e2]
  generalize hs : i.decompose = q at *
  obtain ⟨s, os⟩ := q
  simp only at *
  obtain ⟨_, pv, _⟩ := C18_into_pbs s (fun _ => false)
  have ps := fun a => (C18_into_pbs s a).1
  have hvm : ManageVars.nUsed (ManageVars.increaseNextFree s.vm (MultiOptInstance.objMaxVar i.objs + 1)).2 = ManageVars.nUsed s.vm := by
    rw [LawfulVM.increase]
    have : s.vm = i.decompose.1.vm := by rw [hs]
    rw [this]
    have : ManageVars.nUsed i.decompose.1.vm = max (ManageVars.nUsed i.constrs.vm) (MultiOptInstance.objMaxVar i.objs + 1) :=
      LawfulVM.increase _ _
    omega
  rw [pv]
  generalize (ManageVars.increaseNextFree s.vm (MultiOptInstance.objMaxVar i.objs + 1)).2 = vm at *
  obtain ⟨g1, g2, g3, g4, g5, g6⟩ := convertAll_spec i.objs vm hw (fun o ho v h => by rw [hvm]; exact d3 o ho v h)
  generalize convertAll vm i.objs = q at *
  obtain ⟨cls, objs', vm'⟩ := q
  simp only at *
  have hN : ManageVars.nUsed (ManageVars.newLit vm').2 = ManageVars.nUsed vm' + 1 := LawfulVM.newVar_snd vm'
  have hA : (ManageVars.newLit vm').1 = Lit.pos (ManageVars.nUsed vm') := by
    show Lit.pos (ManageVars.newVar vm').1 = _
    rw [LawfulVM.newVar_fst]
  rw [hN, hA]
  generalize hM : ManageVars.nUsed vm' = M at *
  have hpos : (Lit.pos M).var = M := Lit.var_mk' M false
  have haux : PbConstraint.newLb [(Lit.pos M, 1)] 1 = .lb [(Lit.pos M, 1)] 1 1 := rfl
  have hle : ManageVars.nUsed s.vm ≤ M := by omega
  obtain ⟨orows, oe, ol, oj, om, _⟩ := mapM_spec (f := fun o => objRow o (M + 1))
    (P := fun o r => r.length = M + 1 ∧ ∀ x : Asg, x M = true → rowVal r x = o.value x) objs' (by
      intro o' ho'
      obtain ⟨o, ho, ls, h1, h2, h3⟩ := g4 o' ho'
      refine objRow_spec h1 fun p hp => ⟨?_, ?_⟩
      · have h4 := OpbSpec.le_wtotal hp; have := hf.1 o ho; omega
      · have := h3 p hp; omega)
  obtain ⟨crows, ce, cl, _, cm, cm'⟩ := mapM_spec (f := fun c => constrRow c (M + 1))
    (P := fun c r => r.1.length = M + 1 ∧ ∀ x, holds x (toRow r) ↔ c.sat x)
    (s.intoPbs.1 ++ cls.map PbConstraint.ofClause ++ [PbConstraint.newLb [(Lit.pos M, 1)] 1]) (by
      intro c hc
      refine constrRow_spec c fun p hp => ?_
      have hone : (1 : Nat) ≤ isizeMax := by decide
      have hpbs : s.pbs = i.constrs.pbs := by
        have : s = i.decompose.1 := by rw [hs]
        rw [this]; rfl
      rcases List.mem_append.1 hc with hc | hc
      · rcases List.mem_append.1 hc with hc | hc
        · rcases List.mem_append.1 hc with hc | hc
          · rcases List.mem_append.1 hc with hc | hc
            · refine ⟨?_, ?_⟩
              · have h4 := OpbSpec.le_wtotal hp; have := hf.2 c (hpbs ▸ hc); omega
              · have := d1 p.1.var (.inr (.inr ⟨c, hc, p, hp, rfl⟩)); omega
            · obtain ⟨k, hk', rfl⟩ := List.mem_map.1 hc
              rw [lits_ofCard] at hp
              obtain ⟨l, hl, rfl⟩ := List.mem_map.1 hp
              refine ⟨hone, ?_⟩
              have := d1 l.var (.inr (.inl ⟨k, hk', l, hl, rfl⟩))
              show l.var < M + 1
              omega
          · obtain ⟨k, hk', rfl⟩ := List.mem_map.1 hc
            rw [lits_ofClause] at hp
            obtain ⟨l, hl, rfl⟩ := List.mem_map.1 hp
            refine ⟨hone, ?_⟩
            have := d1 l.var (.inl ⟨k, hk', l, hl, rfl⟩)
            show l.var < M + 1
            omega
        · obtain ⟨k, hk', rfl⟩ := List.mem_map.1 hc
          rw [lits_ofClause] at hp
          obtain ⟨l, hl, rfl⟩ := List.mem_map.1 hp
          refine ⟨hone, ?_⟩
          have := g3 k hk' l hl
          show l.var < M + 1
          omega
      · rw [List.mem_singleton.1 hc, haux] at hp
        have : p = (Lit.pos M, 1) := by simpa [PbConstraint.lits] using hp
        subst this
        exact ⟨hone, by show (Lit.pos M).var < M + 1; omega⟩)
  rw [oe]
  simp only
  rw [ce]
  have hsat : ∀ x, (∀ c ∈ crows.map toRow, holds x c) ↔ i.constrs.sat x ∧ ClauseSet.sat x cls ∧ x M = true := by
    intro x
    have : (∀ c ∈ crows.map toRow, holds x c) ↔
        ∀ c ∈ s.intoPbs.1 ++ cls.map PbConstraint.ofClause ++ [PbConstraint.newLb [(Lit.pos M, 1)] 1], c.sat x := by
      constructor
      · intro h c hc
        obtain ⟨r, hr, hp⟩ := cm' c hc
        exact (hp.2 x).1 (h _ (List.mem_map.2 ⟨r, hr, rfl⟩))
      · intro h c hc
        obtain ⟨r, hr, rfl⟩ := List.mem_map.1 hc
        obtain ⟨c, hc, hp⟩ := cm r hr
        exact (hp.2 x).2 (h c hc)
    rw [this, ← d2 x, ← ps x]
    have hcl : ∀ c, (PbConstraint.ofClause c).sat x ↔ Clause.sat x c := fun c => (C13_of_clause_of_card c (.ub [] 0) (Lit.pos 0) x).1
    have hax : (PbConstraint.newLb [(Lit.pos M, 1)] 1).sat x ↔ x M = true := by
      rw [haux]
      simp only [PbConstraint.sat, wsum, Lit.holds, hpos]
      have : (Lit.pos M).isNeg = false := Lit.isNeg_mk' M false
      rw [this]
      cases x M <;> simp
    constructor
    · intro h
      refine ⟨fun c hc => h c (by simp only [List.mem_append]; exact .inl (.inl hc)), fun c hc => ?_, ?_⟩
      · exact (hcl c).1 (h _ (by simp only [List.mem_append, List.mem_map]; exact .inl (.inr ⟨c, hc, rfl⟩)))
      · exact hax.1 (h _ (by simp))
    · rintro ⟨h1, h2, h3⟩ c hc
      rcases List.mem_append.1 hc with hc | hc
      · rcases List.mem_append.1 hc with hc | hc
        · exact h1 c hc
        · obtain ⟨k, hk', rfl⟩ := List.mem_map.1 hc
          exact (hcl k).2 (h2 k hk')
      · rw [List.mem_singleton.1 hc]; exact hax.2 h3
  have hidx : ∀ (j : Nat) o row, i.objs[j]? = some o → orows[j]? = some row → ∃ o', objs'[j]? = some o' := by
    intro j o row h1 h2
    have : j < objs'.length := by
      have := (List.getElem?_eq_some_iff.1 h1).1; omega
    exact ⟨_, List.getElem?_eq_getElem this⟩
  refine ⟨_, rfl, ⟨?_, ?_⟩, by simp only; omega, by rw [ol, g1], ?_, ?_⟩
  · intro row hr
    obtain ⟨o, _, h⟩ := om row hr
    exact h.1
  · intro c hc
    obtain ⟨r, hr, rfl⟩ := List.mem_map.1 hc
    obtain ⟨c, _, h⟩ := cm r hr
    exact h.1
  · intro x hx
    obtain ⟨h1, h2, h3⟩ := (hsat x).1 hx
    refine ⟨h1, fun j o row ho hr => ?_⟩
    obtain ⟨o', ho'⟩ := hidx j o row ho hr
    rw [(oj j o' row ho' hr).2 x h3]
    exact g5 x h2 j o o' ho ho'
  · intro a ha
    obtain ⟨b, f1, f2, f3⟩ := g6 a
    let x : Asg := fun v => if v = M then true else b v
    have hxM : x M = true := if_pos rfl
    have hx : ∀ v, v < M → x v = b v := fun v hv => if_neg (by omega)
    have hxb : ∀ v, v < ManageVars.nUsed s.vm → x v = a v := fun v hv => by rw [hx v (by omega), f1 v (by omega)]
    refine ⟨x, hxb, (hsat x).2 ⟨?_, ?_, hxM⟩, fun j o row ho hr => ?_⟩
    · exact sat_congr_known (fun v hv => hxb v (Nat.lt_of_lt_of_le (hk v hv) d4)) ha
    · exact (ClauseSet.sat_congr_vars fun c hc l hl => hx _ (g3 c hc l hl)).2 f2
    · obtain ⟨o', ho'⟩ := hidx j o row ho hr
      rw [(oj j o' row ho' hr).2 x hxM, ← f3 j o o' ho ho']
      obtain ⟨_, _, ls, h1, _, h3⟩ := g4 o' (List.mem_of_getElem? ho')
      rw [OpbSpec.iterSoftLits_value h1, OpbSpec.iterSoftLits_value h1]
      have : wsum x ls = wsum b ls := wsum_congr fun p hp => by
        simp only [Lit.holds, hx _ (h3 p hp)]
      rw [this]

end Mo2Ilp
end RustSat
