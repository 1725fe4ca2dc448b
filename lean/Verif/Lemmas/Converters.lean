import Verif.Spec.Tools
import Verif.Props.Opb
import Verif.Lemmas.OptConv
import Verif.Props.Tools
/-
Lemmas about the conversions between file formats.
-/
namespace RustSat
open Dimacs Opb DimacsSpec Objective

/-! ### Relaxing the soft clauses of all objectives -/

/-- The soft clauses of an objective. -/
def Objective.hasSoft (o : Objective) (c : Clause) : Prop :=
  match o with
  | .weighted _ _ sc => ∃ p ∈ sc, p.1 = c
  | .unweighted _ _ _ sc => c ∈ sc

theorem mem_relCls_shape {n : Nat} {sc : List (Clause × Nat)} {c : Clause} (h : c ∈ relCls n sc) :
    ∃ p ∈ sc, ∃ v, n ≤ v ∧ v < n + sc.length ∧ c = p.1 ++ [Lit.pos v] := by
  induction sc generalizing n with
  | nil => cases h
  | cons x sc ih =>
    obtain ⟨d, w⟩ := x
    rw [relCls] at h
    rcases List.mem_cons.1 h with rfl | h
    · exact ⟨(d, w), by simp, n, by simp, by simp, rfl⟩
    · obtain ⟨p, hp, v, h1, h2, h3⟩ := ih h
      exact ⟨p, by simp [hp], v, by omega, by simp only [List.length_cons]; omega, h3⟩

theorem wtotal_eq_foldl (l : List (Lit × Nat)) (k : Nat) : l.foldl (fun s p => s + p.2) k = k + wtotal l := by
  induction l generalizing k with
  | nil => rfl
  | cons x l ih => rw [List.foldl_cons, ih, wtotal]; omega

theorem wtotal_relLits (n : Nat) (sc : List (Clause × Nat)) : wtotal (relLits n sc) = (sc.map Prod.snd).sum := by
  induction sc generalizing n with
  | nil => rfl
  | cons x sc ih => obtain ⟨c, w⟩ := x; rw [relLits, wtotal, ih]; rfl

theorem wtotal_const (l : List Lit) (u : Nat) : wtotal (l.map fun x => (x, u)) = l.length * u := by
  induction l with
  | nil => simp [wtotal]
  | cons x l ih => rw [List.map_cons, wtotal, ih, List.length_cons, Nat.succ_mul]; omega

theorem sndSum_foldl (l : List (Clause × Nat)) (k : Nat) :
    l.foldl (fun s p => s + p.2) k = k + (l.map Prod.snd).sum := by
  induction l generalizing k with
  | nil => simp
  | cons x l ih => rw [List.foldl_cons, ih]; simp; omega

theorem relLits_length (n : Nat) (sc : List (Clause × Nat)) : (relLits n sc).length = sc.length := by
  induction sc generalizing n with
  | nil => rfl
  | cons x sc ih => obtain ⟨c, w⟩ := x; rw [relLits, List.length_cons, ih]; rfl

/-- What is needed beyond C22 about the result of the relaxation. -/
theorem convert_more (o : Objective) (vm : BasicVM) (hv : ∀ v, o.hasVar v → v < ManageVars.nUsed vm) :
    let r := o.convertToSoftLits vm
    (∀ c ∈ r.1, ∃ d v, o.hasSoft d ∧ v < ManageVars.nUsed vm + o.nClauses ∧ c = d ++ [Lit.pos v]) ∧
    r.2.1.offset = o.offset ∧ ∃ ls, r.2.1.iterSoftLits = some ls ∧ wtotal ls = o.weightSum ∧
      (∀ p ∈ ls, r.2.1.hasVar p.1.var) ∧
      ∀ v, r.2.1.hasVar v → v < ManageVars.nUsed vm + o.nClauses := by
  cases o with
  | weighted off sl sc =>
    obtain ⟨e1, e2, e3⟩ := relaxW_eq sc vm sl [] (fun p hp => hv _ (.inl ⟨p, hp, rfl⟩))
    simp only [convertToSoftLits, e1, e2, List.nil_append]
    refine ⟨fun c hc => ?_, rfl, _, rfl, ?_, fun p hp => .inl ⟨p, hp, rfl⟩, fun v hvv => ?_⟩
    · obtain ⟨p, hp, v, _, h2, h3⟩ := mem_relCls_shape hc
      exact ⟨p.1, v, ⟨p, hp, rfl⟩, h2, h3⟩
    · rw [wtotal_append, wtotal_relLits, weightSum, litWeightSum, clauseWeightSum, wtotal_eq_foldl, sndSum_foldl]
      omega
    · rcases hvv with ⟨p, hp, rfl⟩ | ⟨p, hp, _⟩
      · rcases List.mem_append.1 hp with hp | hp
        · have := hv _ (.inl ⟨p, hp, rfl⟩); simp only [nClauses]; omega
        · have := mem_relLits hp; simp only [nClauses]; omega
      · cases hp
  | unweighted off u sl sc =>
    obtain ⟨e1, e2, e3⟩ := relaxU_eq sc vm sl [] (u.getD 0)
    simp only [convertToSoftLits, e1, e2, List.nil_append]
    refine ⟨fun c hc => ?_, rfl, _, rfl, ?_, ?_, fun v hvv => ?_⟩
    · obtain ⟨p, hp, v, _, h2, h3⟩ := mem_relCls_shape hc
      obtain ⟨d, hd, rfl⟩ := List.mem_map.1 hp
      rw [List.length_map] at h2
      exact ⟨d, v, hd, h2, h3⟩
    · rw [wtotal_const, List.length_append, List.length_map, relLits_length, List.length_map, Nat.add_mul]
      rfl
    · intro p hp
      obtain ⟨l, hl, rfl⟩ := List.mem_map.1 hp
      exact .inl ⟨l, hl, rfl⟩
    · rcases hvv with ⟨p, hp, rfl⟩ | ⟨p, hp, _⟩
      · rcases List.mem_append.1 hp with hp | hp
        · have := hv _ (.inl ⟨p, hp, rfl⟩); simp only [nClauses]; omega
        · obtain ⟨q, hq, rfl⟩ := List.mem_map.1 hp
          have := mem_relLits hq; rw [List.length_map] at this; simp only [nClauses]; omega
      · cases hp

theorem foldl_markLits_le {N : Nat} (f : ClauseSet) (vm : BasicVM) (h : ∀ c ∈ f, ∀ l ∈ c, l.var < N)
    (hn : ManageVars.nUsed vm ≤ N) :
    ManageVars.nUsed (f.foldl (fun vm c => c.foldl (fun vm l => (ManageVars.increaseNextFree vm (l.var + 1)).2) vm) vm) ≤ N := by
  induction f generalizing vm with
  | nil => exact hn
  | cons c f ih =>
    rw [List.foldl_cons]
    refine ih _ (fun c hc => h c (by simp [hc])) ?_
    have hc := h c (by simp)
    clear ih h
    induction c generalizing vm with
    | nil => exact hn
    | cons l c ih =>
      rw [List.foldl_cons]
      refine ih _ ?_ fun l hl => hc l (by simp [hl])
      rw [LawfulVM.increase]
      have := hc l (by simp)
      omega

theorem sat_congr_known {VM : Type} {s : SatInstance VM} {a b : Asg} (h : ∀ v, s.hasVar v → b v = a v) (ha : s.sat a) :
    s.sat b := by
  refine ⟨ClauseSet.sat_congr (a := a) (fun c hc l hl => (h _ (.inl ⟨c, hc, l, hl, rfl⟩)).symm) ha.1, fun c hc => ?_,
    fun c hc => ?_⟩
  · exact CardConstraint.sat_congr_vars (fun v ⟨l, hl, hv⟩ => (h _ (.inr (.inl ⟨c, hc, l, hl, hv⟩))).symm) (ha.2.1 c hc)
  · refine PbConstraint.sat_congr_vars (fun v ⟨l, hl, hv⟩ => ?_) (ha.2.2 c hc)
    obtain ⟨p, hp, rfl⟩ := List.mem_map.1 hl
    exact (h _ (.inr (.inr ⟨c, hc, p, hp, hv⟩))).symm

/-- One objective. -/
theorem harden_spec (s : SatInstance BasicVM) (o : Objective) (hk : s.Known) (hw : o.WF)
    (hv : ∀ v, o.hasVar v → v < ManageVars.nUsed s.vm) :
    ∃ s' o', hardenSoftCls s o = (s', o') ∧ s'.Known ∧ ManageVars.nUsed s'.vm = ManageVars.nUsed s.vm + o.nClauses ∧
      s'.cards = s.cards ∧ s'.pbs = s.pbs ∧
      (∀ c ∈ s'.cnf, c ∈ s.cnf ∨ ∃ d v, o.hasSoft d ∧ v < ManageVars.nUsed s'.vm ∧ c = d ++ [Lit.pos v]) ∧
      o'.WF ∧ o'.offset = o.offset ∧
      (∃ ls, o'.iterSoftLits = some ls ∧ wtotal ls = o.weightSum ∧ ∀ p ∈ ls, o'.hasVar p.1.var) ∧
      (∀ v, o'.hasVar v → v < ManageVars.nUsed s'.vm) ∧
      (∀ b, s'.sat b → s.sat b ∧ o.value b ≤ o'.value b) ∧
      ∀ a, s.sat a → ∃ b, (∀ v, v < ManageVars.nUsed s.vm → b v = a v) ∧ s'.sat b ∧ o'.value b = o.value a := by
  obtain ⟨c1, c2, c3, c4⟩ := C22_convert_to_soft_lits o hw s.vm hv
  obtain ⟨m1, m2, ls, m3, m4, m5, m6⟩ := convert_more o s.vm hv
  have e : hardenSoftCls s o = (SatInstance.extend { s with vm := (o.convertToSoftLits s.vm).2.2 }
      (SatInstance.ofCnf ⟨0⟩ (o.convertToSoftLits s.vm).1), (o.convertToSoftLits s.vm).2.1) := rfl
  generalize o.convertToSoftLits s.vm = r at c1 c2 c3 c4 m1 m2 m3 m4 m5 m6 e
  obtain ⟨hd, o', vm'⟩ := r
  simp only at c1 c2 c3 c4 m1 m2 m3 m4 m5 m6 e
  have hdv : ∀ c ∈ hd, ∀ l ∈ c, l.var < ManageVars.nUsed vm' := by
    intro c hc l hl
    obtain ⟨d, v, h1, h2, rfl⟩ := m1 c hc
    rcases List.mem_append.1 hl with hl | hl
    · have : o.hasVar l.var := by
        cases o with
        | weighted off sl sc => obtain ⟨p, hp, rfl⟩ := h1; exact .inr ⟨p, hp, l, hl, rfl⟩
        | unweighted off u sl sc => exact .inr ⟨d, h1, l, hl, rfl⟩
      have := hv _ this
      omega
    · simp at hl; subst hl; simp; omega
  have hn : ManageVars.nUsed (SatInstance.extend { s with vm := vm' } (SatInstance.ofCnf ⟨0⟩ hd)).vm = ManageVars.nUsed vm' := by
    show ManageVars.nUsed (ManageVars.combine vm' (SatInstance.ofCnf ⟨0⟩ hd).vm) = _
    rw [LawfulVM.combine]
    have : ManageVars.nUsed (SatInstance.ofCnf (⟨0⟩ : BasicVM) hd).vm ≤ ManageVars.nUsed vm' :=
      foldl_markLits_le hd ⟨0⟩ hdv (Nat.zero_le _)
    omega
  refine ⟨_, _, e, ?_, by rw [hn, c3], rfl, rfl, ?_, c1, m2, ⟨ls, m3, m4, m5⟩, ?_, ?_, ?_⟩
  · intro v hvv
    rw [hn, c3]
    rcases hvv with ⟨c, hc, l, hl, rfl⟩ | h | h
    · rcases List.mem_append.1 (show c ∈ s.cnf ++ hd from hc) with hc | hc
      · have := hk _ (.inl ⟨c, hc, l, hl, rfl⟩); omega
      · have := hdv c hc l hl; omega
    · have := hk v (.inr (.inl h)); omega
    · have := hk v (.inr (.inr h)); omega
  · intro c hc
    rw [hn]
    rcases List.mem_append.1 (show c ∈ s.cnf ++ hd from hc) with hc | hc
    · exact .inl hc
    · obtain ⟨d, v, h1, h2, h3⟩ := m1 c hc
      exact .inr ⟨d, v, h1, by omega, h3⟩
  · intro v hvv
    rw [hn, c3]
    exact m6 v hvv
  · intro b hb
    rw [C17_extend_exact] at hb
    exact ⟨hb.1, c4.1 b hb.2⟩
  · intro a ha
    obtain ⟨b, h1, h2, h3⟩ := c4.2 a
    refine ⟨b, fun v hvv => h1 v (.inl hvv), ?_, h3⟩
    rw [C17_extend_exact]
    refine ⟨?_, h2⟩
    exact sat_congr_known (s := s) (a := a) (fun v hvv => h1 v (.inl (hk v hvv))) ha

/-- All objectives. -/
theorem hardenAll_spec (objs : List Objective) (s : SatInstance BasicVM) (hk : s.Known) (hw : ∀ o ∈ objs, o.WF)
    (hv : ∀ o ∈ objs, ∀ v, o.hasVar v → v < ManageVars.nUsed s.vm) :
    ∃ s' objs', hardenAll s objs = (s', objs') ∧ objs'.length = objs.length ∧ s'.Known ∧
      ManageVars.nUsed s'.vm = ManageVars.nUsed s.vm + (objs.map nClauses).sum ∧
      s'.cards = s.cards ∧ s'.pbs = s.pbs ∧
      (∀ c ∈ s'.cnf, c ∈ s.cnf ∨ ∃ o ∈ objs, ∃ d v, o.hasSoft d ∧ v < ManageVars.nUsed s'.vm ∧ c = d ++ [Lit.pos v]) ∧
      (∀ (j : Nat) o o', objs[j]? = some o → objs'[j]? = some o' → o'.WF ∧ o'.offset = o.offset ∧
        (∃ ls, o'.iterSoftLits = some ls ∧ wtotal ls = o.weightSum ∧ ∀ p ∈ ls, o'.hasVar p.1.var) ∧
        ∀ v, o'.hasVar v → v < ManageVars.nUsed s'.vm) ∧
      (∀ b, s'.sat b → s.sat b ∧ ∀ (j : Nat) o o', objs[j]? = some o → objs'[j]? = some o' → o.value b ≤ o'.value b) ∧
      ∀ a, s.sat a → ∃ b, (∀ v, v < ManageVars.nUsed s.vm → b v = a v) ∧ s'.sat b ∧
        ∀ (j : Nat) o o', objs[j]? = some o → objs'[j]? = some o' → o'.value b = o.value a := by
  induction objs generalizing s with
  | nil =>
    exact ⟨s, [], rfl, rfl, hk, by simp, rfl, rfl, fun c hc => .inl hc, by simp, fun b hb => ⟨hb, by simp⟩,
      fun a ha => ⟨a, fun _ _ => rfl, ha, by simp⟩⟩
  | cons o objs ih =>
    obtain ⟨s1, o1, e1, k1, n1, cd1, pb1, cl1, w1, of1, ls1, v1, so1, co1⟩ := harden_spec s o hk (hw o (by simp)) (hv o (by simp))
    have hle : ManageVars.nUsed s.vm ≤ ManageVars.nUsed s1.vm := by omega
    obtain ⟨s2, os2, e2, l2, k2, n2, cd2, pb2, cl2, ob2, so2, co2⟩ := ih s1 k1 (fun o ho => hw o (by simp [ho]))
      (fun o ho v h => Nat.lt_of_lt_of_le (hv o (by simp [ho]) v h) hle)
    have hle2 : ManageVars.nUsed s1.vm ≤ ManageVars.nUsed s2.vm := by omega
    refine ⟨s2, o1 :: os2, ?_, by simp [l2], k2, ?_, by rw [cd2, cd1], by rw [pb2, pb1], ?_, ?_, ?_, ?_⟩
    · rw [hardenAll, e1]
      simp only [e2]
    · rw [n2, n1]; simp; omega
    · intro c hc
      rcases cl2 c hc with hc | ⟨o', ho', d, v, h1, h2, h3⟩
      · rcases cl1 c hc with hc | ⟨d, v, h1, h2, h3⟩
        · exact .inl hc
        · exact .inr ⟨o, by simp, d, v, h1, by omega, h3⟩
      · exact .inr ⟨o', by simp [ho'], d, v, h1, h2, h3⟩
    · intro j p p' hp hp'
      cases j with
      | zero =>
        simp at hp hp'; subst hp; subst hp'
        exact ⟨w1, of1, ls1, fun v h => Nat.lt_of_lt_of_le (v1 v h) hle2⟩
      | succ j => exact ob2 j p p' (by simpa using hp) (by simpa using hp')
    · intro b hb
      obtain ⟨h1, h2⟩ := so2 b hb
      obtain ⟨h3, h4⟩ := so1 b h1
      refine ⟨h3, fun j p p' hp hp' => ?_⟩
      cases j with
      | zero => simp at hp hp'; subst hp; subst hp'; exact h4
      | succ j => exact h2 j p p' (by simpa using hp) (by simpa using hp')
    · intro a ha
      obtain ⟨b1, g1, g2, g3⟩ := co1 a ha
      obtain ⟨b, g4, g5, g6⟩ := co2 b1 g2
      refine ⟨b, fun v hvv => by rw [g4 v (by omega), g1 v hvv], g5, fun j p p' hp hp' => ?_⟩
      cases j with
      | zero =>
        simp at hp hp'; subst hp; subst hp'
        rw [← g3]
        exact objValue_congr _ fun v hvv => g4 v (v1 v hvv)
      | succ j =>
        have hp0 : objs[j]? = some p := by simpa using hp
        rw [g6 j p p' hp0 (by simpa using hp')]
        exact objValue_congr p fun v hvv => g1 v (hv p (by simp [List.mem_of_getElem? hp0]) v hvv)

/-! ### Decomposing and composing instances -/

theorem optDecompose_spec (i : OptInstance BasicVM) (hk : i.constrs.Known) :
    i.decompose.1.Known ∧ (∀ a, i.decompose.1.sat a ↔ i.constrs.sat a) ∧
    (∀ v, i.obj.hasVar v → v < ManageVars.nUsed i.decompose.1.vm) ∧
    ManageVars.nUsed i.constrs.vm ≤ ManageVars.nUsed i.decompose.1.vm ∧
    ∀ V, ManageVars.nUsed i.constrs.vm ≤ V → (∀ v, i.obj.hasVar v → v < V) → ManageVars.nUsed i.decompose.1.vm ≤ V := by
  obtain ⟨h1, h2⟩ := learnObj_spec i.constrs.vm i.obj
  refine ⟨fun v hv => Nat.lt_of_lt_of_le (hk v hv) h1, fun a => Iff.rfl, h2, h1, fun V h3 h4 => ?_⟩
  show ManageVars.nUsed (OptInstance.learnObj i.constrs.vm i.obj) ≤ V
  rw [OptInstance.learnObj]
  cases hm : i.obj.maxVar with
  | none => exact h3
  | some mv =>
    simp only
    rw [LawfulVM.increase]
    have := h4 mv (maxVar_hasVar hm)
    omega

theorem multiDecompose_spec (i : MultiOptInstance BasicVM) (hk : i.constrs.Known) :
    i.decompose.1.Known ∧ (∀ a, i.decompose.1.sat a ↔ i.constrs.sat a) ∧
    (∀ o ∈ i.objs, ∀ v, o.hasVar v → v < ManageVars.nUsed i.decompose.1.vm) ∧
    ManageVars.nUsed i.constrs.vm ≤ ManageVars.nUsed i.decompose.1.vm ∧
    ∀ V, ManageVars.nUsed i.constrs.vm ≤ V → (∀ o ∈ i.objs, ∀ v, o.hasVar v → v < V) →
      ManageVars.nUsed i.decompose.1.vm ≤ V + 1 := by
  obtain ⟨m1, m2⟩ := objMaxVar_spec i.objs
  have e : ManageVars.nUsed i.decompose.1.vm = max (ManageVars.nUsed i.constrs.vm) (MultiOptInstance.objMaxVar i.objs + 1) :=
    LawfulVM.increase _ _
  refine ⟨fun v hv => ?_, fun a => Iff.rfl, fun o ho v hv => ?_, by omega, fun V h3 h4 => ?_⟩
  · have := hk v hv; omega
  · obtain ⟨m, hm, h⟩ := maxVar_spec hv
    have := m1 o ho m hm
    omega
  · rcases m2 with m2 | ⟨o, ho, hm⟩
    · omega
    · have := h4 o ho _ (maxVar_hasVar hm)
      omega

/-! ### What is read from files -/

theorem known_empty {VM : Type} [ManageVars VM] (vm : VM) :
    SatInstance.Known ({ cnf := [], cards := [], pbs := [], vm := vm } : SatInstance VM) := by
  intro v hv
  rcases hv with ⟨c, hc, _⟩ | ⟨c, hc, _⟩ | ⟨c, hc, _⟩ <;> cases hc

theorem readCnf_known {t : Text} {s : SatInstance BasicVM} (h : SatInstance.fromDimacs ⟨0⟩ t = .ok s) :
    s.Known ∧ s.cards = [] ∧ s.pbs = [] := by
  have key : ∀ (ds : List CnfData) (s : SatInstance BasicVM), s.Known ∧ s.cards = [] ∧ s.pbs = [] →
      (ds.foldl SatInstance.addCnfData s).Known ∧ (ds.foldl SatInstance.addCnfData s).cards = [] ∧
        (ds.foldl SatInstance.addCnfData s).pbs = [] := by
    intro ds
    induction ds with
    | nil => exact fun s h => h
    | cons d ds ih =>
      intro s hs
      cases d with
      | clause c => exact ih (s.addClause c) ⟨((C17_add_constraints s c (.ub [] 0) (.ub [] 0 0)).2.2.2 hs.1).1, hs.2⟩
      | comment t => exact ih s hs
  rw [SatInstance.fromDimacs] at h
  split at h
  · cases h
  · split at h
    · split at h
      · cases h
      · injection h with h
        rw [← h]
        exact key _ _ ⟨known_empty _, rfl, rfl⟩
    · cases h

theorem readWcnf_known {t : Text} {i : OptInstance BasicVM} (h : OptInstance.fromDimacs ⟨0⟩ t = .ok i) :
    i.constrs.Known ∧ i.constrs.cards = [] ∧ i.constrs.pbs = [] ∧ i.obj.WF := by
  have key : ∀ (ds : List WcnfData) (vm : BasicVM),
      let i := OptInstance.compose (ds.foldl OptInstance.addWcnfData
        (({ cnf := [], cards := [], pbs := [], vm := vm } : SatInstance BasicVM), Objective.default)).1
        (ds.foldl OptInstance.addWcnfData
        (({ cnf := [], cards := [], pbs := [], vm := vm } : SatInstance BasicVM), Objective.default)).2
      i.constrs.Known ∧ i.constrs.cards = [] ∧ i.constrs.pbs = [] ∧ i.obj.WF := by
    intro ds vm
    obtain ⟨_, h2, h3, h4, h5, h6, _⟩ := addWcnfData_spec ds
      ({ cnf := [], cards := [], pbs := [], vm := vm } : SatInstance BasicVM) Objective.default
      (by simp [Objective.default, Objective.WF])
    exact ⟨fun v hv => Nat.lt_of_lt_of_le (h5 (known_empty vm) v hv) (learnObj_spec _ _).1, h2, h3, h6⟩
  rw [OptInstance.fromDimacs] at h
  simp only at h
  split at h
  · cases h
  · injection h with h
    rw [← h]
    exact key [] _
  · split at h
    · split at h
      · cases h
      · injection h with h
        rw [← h]
        exact key _ _
    · cases h
  · split at h
    · cases h
    · injection h with h
      rw [← h]
      exact key (_ :: _) _

theorem wf_modify {os : List Objective} (h : ∀ o ∈ os, o.WF) (n k w : Nat) (c : Clause) :
    ∀ o ∈ (growObjs os n).modify k (fun o => o.increaseSoftClause w c), o.WF := by
  have h1 : ∀ o ∈ growObjs os n, o.WF := by
    intro o ho
    unfold growObjs at ho
    split at ho
    · rcases List.mem_append.1 ho with ho | ho
      · exact h o ho
      · rw [List.eq_of_mem_replicate ho]; simp [Objective.default, Objective.WF]
    · exact h o ho
  generalize growObjs os n = os' at h1
  induction os' generalizing k with
  | nil => intro o ho; simp at ho
  | cons p os' ih =>
    intro o ho
    cases k with
    | zero =>
      simp only [List.modify_zero_cons] at ho
      rcases List.mem_cons.1 ho with rfl | ho
      · exact (increaseSoftClause_spec p (h1 p (by simp)) w c).1
      · exact h1 o (by simp [ho])
    | succ k =>
      simp only [List.modify_succ_cons] at ho
      rcases List.mem_cons.1 ho with rfl | ho
      · exact h1 o (by simp)
      · exact ih k (fun o ho => h1 o (by simp [ho])) o ho

theorem readMcnf_known {t : Text} {i : MultiOptInstance BasicVM} (h : MultiOptInstance.fromDimacs ⟨0⟩ t = .ok i) :
    i.constrs.Known ∧ i.constrs.cards = [] ∧ i.constrs.pbs = [] ∧ ∀ o ∈ i.objs, o.WF := by
  have key : ∀ (ds : List McnfData) (p q : SatInstance BasicVM × List Objective),
      (p.1.Known ∧ p.1.cards = [] ∧ p.1.pbs = [] ∧ ∀ o ∈ p.2, o.WF) →
      SatInstance.forLoop MultiOptInstance.addMcnfData p ds = some q →
      q.1.Known ∧ q.1.cards = [] ∧ q.1.pbs = [] ∧ ∀ o ∈ q.2, o.WF := by
    intro ds
    induction ds with
    | nil => intro p q hp h; cases h; exact hp
    | cons d ds ih =>
      intro p q hp h
      rw [SatInstance.forLoop] at h
      cases d with
      | hard c =>
        refine ih _ q ?_ h
        exact ⟨((C17_add_constraints p.1 c (.ub [] 0) (.ub [] 0 0)).2.2.2 hp.1).1, hp.2⟩
      | soft idx w c =>
        rw [MultiOptInstance.addMcnfData] at h
        by_cases h0 : idx = 0
        · rw [if_pos h0] at h; cases h
        · rw [if_neg h0] at h
          exact ih (p.1, (growObjs p.2 idx).modify (idx - 1) fun o => o.increaseSoftClause w c) q
            ⟨hp.1, hp.2.1, hp.2.2.1, wf_modify hp.2.2.2 _ _ _ _⟩ h
      | comment t => exact ih p q hp h
  rw [MultiOptInstance.fromDimacs] at h
  split at h
  · cases h
  · split at h
    · cases h
    · rename_i q hq
      injection h with h
      obtain ⟨h1, h2, h3, h4⟩ := key _ _ q ⟨known_empty _, rfl, rfl, by simp⟩ hq
      rw [← h]
      exact ⟨fun v hv => Nat.lt_of_lt_of_le (h1 v hv) (learnObjs_spec _ _).1, h2, h3, h4⟩

/-- The instances read from OPB files know their variables. -/
theorem readOpb_known {opts : Options} {t : Text} {s : SatInstance BasicVM} (h : SatInstance.fromOpb ⟨0⟩ opts t = .ok s) :
    s.Known := by
  have key : ∀ (rs : List (Res FioError Data)) (s s' : SatInstance BasicVM), s.Known → SatInstance.opbLoop s rs = .ok s' →
      s'.Known := by
    intro rs
    induction rs with
    | nil => intro s s' hs h; injection h with h; rw [← h]; exact hs
    | cons r rs ih =>
      intro s s' hs h
      cases r with
      | ok d =>
        cases d with
        | cmt _ => exact ih s s' hs h
        | constr c => exact ih _ s' ((C17_add_constraints s [] (.ub [] 0) c).2.2.2 hs).2.2 h
        | obj o => cases h
      | err e => cases h
      | panic => cases h
  exact key _ _ s (known_empty _) h

theorem readOpbOpt_known {opts : Options} {t : Text} {i : OptInstance BasicVM} (h : OptInstance.fromOpb ⟨0⟩ opts t = .ok i) :
    i.constrs.Known := by
  have key : ∀ (rs : List (Res FioError Data)) (s : SatInstance BasicVM) (o : Option Obj) (i : OptInstance BasicVM), s.Known →
      OptInstance.opbLoop s o rs = .ok i → i.constrs.Known := by
    intro rs
    induction rs with
    | nil =>
      intro s o i hs h
      cases o with
      | none => cases h
      | some o =>
        simp only [OptInstance.opbLoop] at h
        cases ho : o.toObjective with
        | ok ob =>
          rw [ho] at h
          injection h with h
          rw [← h]
          exact fun v hv => Nat.lt_of_lt_of_le (hs v hv) (learnObj_spec _ _).1
        | err e => rw [ho] at h; cases h
        | panic => rw [ho] at h; cases h
    | cons r rs ih =>
      intro s o i hs h
      cases r with
      | ok d =>
        cases d with
        | cmt _ => exact ih s o i hs h
        | constr c => exact ih _ o i ((C17_add_constraints s [] (.ub [] 0) c).2.2.2 hs).2.2 h
        | obj o' =>
          rw [OptInstance.opbLoop] at h
          by_cases ho : o.isSome
          · rw [if_pos ho] at h; cases h
          · rw [if_neg ho] at h; exact ih s _ i hs h
      | err e => cases h
      | panic => cases h
  exact key _ _ none i (known_empty _) h

theorem readOpbMulti_known {opts : Options} {t : Text} {i : MultiOptInstance BasicVM}
    (h : MultiOptInstance.fromOpb ⟨0⟩ opts t = .ok i) : i.constrs.Known := by
  have key : ∀ (rs : List (Res FioError Data)) (s : SatInstance BasicVM) (os : List Objective) (i : MultiOptInstance BasicVM),
      s.Known → MultiOptInstance.opbLoop s os rs = .ok i → i.constrs.Known := by
    intro rs
    induction rs with
    | nil => intro s os i hs h; injection h with h; rw [← h]; exact hs
    | cons r rs ih =>
      intro s os i hs h
      cases r with
      | ok d =>
        cases d with
        | cmt _ => exact ih s os i hs h
        | constr c => exact ih _ os i ((C17_add_constraints s [] (.ub [] 0) c).2.2.2 hs).2.2 h
        | obj o =>
          rw [MultiOptInstance.opbLoop] at h
          cases ho : o.toObjective with
          | ok ob =>
            rw [ho] at h
            exact ih { s with vm := ManageVars.markLits s.vm (o.terms.map Prod.snd) } _ i (fun v hv => Nat.lt_of_lt_of_le (hs v hv) (nUsed_markLits _ _).1) h
          | err e => rw [ho] at h; cases h
          | panic => rw [ho] at h; cases h
      | err e => cases h
      | panic => cases h
  exact key _ _ [] i (known_empty _) h

/-! ### Variables of a sanitised instance -/

theorem mem_addUnits {f : ClauseSet} {ls : List Lit} {c : Clause} (h : c ∈ SatInstance.addUnits f ls) :
    c ∈ f ∨ ∃ l ∈ ls, c = [l] := by
  unfold SatInstance.addUnits at h
  induction ls generalizing f with
  | nil => exact .inl h
  | cons x ls ih =>
    rw [List.foldl_cons] at h
    rcases ih h with h | ⟨l, hl, e⟩
    · rcases List.mem_append.1 (show c ∈ f ++ [[x]] from h) with h | h
      · exact .inl h
      · rw [List.mem_singleton] at h; exact .inr ⟨x, by simp, h⟩
    · exact .inr ⟨l, by simp [hl], e⟩

/-- All variables of the state satisfy `V`, and all PB constraints `P`. -/
structure SanInv (V : Nat → Prop) (P : PbConstraint → Prop) (s : SatInstance.SanState) : Prop where
  cnf : ∀ c ∈ s.cnf, ∀ l ∈ c, V l.var
  cards : ∀ c ∈ s.cards, ∀ l ∈ c.lits, V l.var
  pbs : ∀ c ∈ s.pbs, P c ∧ ∀ p ∈ c.lits, V p.1.var

theorem sanInv_units {V : Nat → Prop} {P : PbConstraint → Prop} {s : SatInstance.SanState} (h : SanInv V P s) {ls : List Lit}
    (hl : ∀ l ∈ ls, V l.var) : SanInv V P { s with cnf := SatInstance.addUnits s.cnf ls } := by
  refine ⟨fun c hc l hlc => ?_, h.cards, h.pbs⟩
  rcases mem_addUnits hc with hc | ⟨x, hx, rfl⟩
  · exact h.cnf c hc l hlc
  · rw [List.mem_singleton] at hlc; subst hlc; exact hl _ hx

theorem sanInv_clause {V : Nat → Prop} {P : PbConstraint → Prop} {s : SatInstance.SanState} (h : SanInv V P s) {c : Clause}
    (hl : ∀ l ∈ c, V l.var) : SanInv V P { s with cnf := Cnf.addClause s.cnf c } := by
  refine ⟨fun d hd l hld => ?_, h.cards, h.pbs⟩
  rcases List.mem_append.1 (show d ∈ s.cnf ++ [c] from hd) with hd | hd
  · exact h.cnf d hd l hld
  · rw [List.mem_singleton] at hd; subst hd; exact hl _ hld

theorem sanInv_card {V : Nat → Prop} {P : PbConstraint → Prop} {s : SatInstance.SanState} (h : SanInv V P s) {c : CardConstraint}
    (hl : ∀ l ∈ c.lits, V l.var) : SanInv V P { s with cards := s.cards ++ [c] } := by
  refine ⟨h.cnf, fun d hd l hld => ?_, h.pbs⟩
  rcases List.mem_append.1 hd with hd | hd
  · exact h.cards d hd l hld
  · rw [List.mem_singleton] at hd; subst hd; exact hl _ hld

theorem pbClause_vars {pb : PbConstraint} {c : Clause} (h : pb.intoClause = .ok c) :
    ∀ l ∈ c, ∃ p ∈ pb.lits, p.1.var = l.var := by
  unfold PbConstraint.intoClause at h
  split at h
  · cases h
  · cases pb with
    | ub l w b =>
      injection h with h; subst h
      intro x hx
      obtain ⟨p, hp, rfl⟩ := List.mem_map.1 hx
      exact ⟨p, hp, by simp⟩
    | lb l w b =>
      injection h with h; subst h
      intro x hx
      obtain ⟨p, hp, rfl⟩ := List.mem_map.1 hx
      exact ⟨p, hp, rfl⟩
    | eq l w b => cases h

theorem pbCard_vars {pb : PbConstraint} {c : CardConstraint} (h : pb.intoCardConstr = .ok c) :
    ∀ l ∈ c.lits, ∃ p ∈ pb.lits, p.1.var = l.var := by
  have key : ∀ (ls : List (Lit × Nat)), ∀ l ∈ ls.map (·.1), ∃ p ∈ ls, p.1.var = l.var := by
    intro ls l hl
    obtain ⟨p, hp, rfl⟩ := List.mem_map.1 hl
    exact ⟨p, hp, rfl⟩
  unfold PbConstraint.intoCardConstr at h
  split at h
  · cases h
  split at h
  · cases h
  cases pb with
  | ub l w b =>
    simp only at h
    split at h
    · cases h
    · cases h
    · injection h with h; subst h; exact key l
  | lb l w b =>
    simp only at h
    split at h
    · cases h
    · cases h
    · injection h with h; subst h; exact key l
  | eq l w b =>
    simp only at h
    split at h
    · cases h
    · cases h
    · split at h
      · cases h
      · injection h with h; subst h; exact key l

theorem cardClause_vars {k : CardConstraint} {c : Clause} (h : k.intoClause = .ok c) :
    ∀ l ∈ c, ∃ p ∈ k.lits, p.var = l.var := by
  unfold CardConstraint.intoClause at h
  split at h
  · cases h
  · cases k with
    | ub l b =>
      injection h with h; subst h
      intro x hx
      obtain ⟨p, hp, rfl⟩ := List.mem_map.1 hx
      exact ⟨p, hp, by simp⟩
    | lb l b => injection h with h; subst h; exact fun x hx => ⟨x, hx, rfl⟩
    | eq l b => cases h

theorem sanInv_pb {V : Nat → Prop} {P : PbConstraint → Prop} {s s' : SatInstance.SanState} {pb : PbConstraint}
    (h : SanInv V P s) (hp : P pb) (hv : ∀ p ∈ pb.lits, V p.1.var) (e : SatInstance.sanitizePb s pb = some s') :
    SanInv V P s' := by
  unfold SatInstance.sanitizePb at e
  split at e
  · injection e with e; rw [← e]; exact h
  split at e
  · injection e with e; rw [← e]; exact ⟨h.cnf, h.cards, h.pbs⟩
  split at e
  · injection e with e; rw [← e]
    refine sanInv_units h fun l hl => ?_
    obtain ⟨p, hp, rfl⟩ := List.mem_map.1 hl
    exact hv p hp
  split at e
  · injection e with e; rw [← e]
    refine sanInv_units h fun l hl => ?_
    obtain ⟨p, hp, rfl⟩ := List.mem_map.1 hl
    simpa using hv p hp
  split at e
  · split at e
    · rename_i c hc
      injection e with e; rw [← e]
      refine sanInv_clause h fun l hl => ?_
      obtain ⟨p, hp, h1⟩ := pbClause_vars hc l hl
      rw [← h1]; exact hv p hp
    · cases e
  split at e
  · split at e
    · rename_i c hc
      injection e with e; rw [← e]
      refine sanInv_card h fun l hl => ?_
      obtain ⟨p, hp, h1⟩ := pbCard_vars hc l hl
      rw [← h1]; exact hv p hp
    · cases e
  · injection e with e; rw [← e]
    refine ⟨h.cnf, h.cards, fun c hc => ?_⟩
    rcases List.mem_append.1 hc with hc | hc
    · exact h.pbs c hc
    · rw [List.mem_singleton] at hc; subst hc; exact ⟨hp, hv⟩

theorem sanInv_cardStep {V : Nat → Prop} {P : PbConstraint → Prop} {s s' : SatInstance.SanState} {k : CardConstraint}
    (h : SanInv V P s) (hv : ∀ l ∈ k.lits, V l.var) (e : SatInstance.sanitizeCard s k = some s') : SanInv V P s' := by
  unfold SatInstance.sanitizeCard at e
  split at e
  · injection e with e; rw [← e]; exact h
  split at e
  · injection e with e; rw [← e]; exact ⟨h.cnf, h.cards, h.pbs⟩
  split at e
  · injection e with e; rw [← e]; exact sanInv_units h hv
  split at e
  · injection e with e; rw [← e]
    refine sanInv_units h fun l hl => ?_
    obtain ⟨p, hp, rfl⟩ := List.mem_map.1 hl
    simpa using hv p hp
  split at e
  · split at e
    · rename_i c hc
      injection e with e; rw [← e]
      refine sanInv_clause h fun l hl => ?_
      obtain ⟨p, hp, h1⟩ := cardClause_vars hc l hl
      rw [← h1]; exact hv p hp
    · cases e
  · injection e with e; rw [← e]; exact sanInv_card h hv

theorem forLoop_inv {σ α : Type} {f : σ → α → Option σ} {I : σ → Prop} {xs : List α} {s s' : σ}
    (hf : ∀ x ∈ xs, ∀ s s', I s → f s x = some s' → I s') (hs : I s) (h : SatInstance.forLoop f s xs = some s') : I s' := by
  induction xs generalizing s with
  | nil => injection h with h; rw [← h]; exact hs
  | cons x xs ih =>
    rw [SatInstance.forLoop] at h
    cases e : f s x with
    | none => rw [e] at h; cases h
    | some s1 =>
      rw [e] at h
      exact ih (fun y hy => hf y (by simp [hy])) (hf x (by simp) s s1 hs e) h

theorem sanitizeLoop_mem {ls lset kept : List Lit} {d : Clause} (h : Clause.sanitizeLoop lset kept ls = some d) :
    ∀ l ∈ d, l ∈ kept ∨ l ∈ ls := by
  induction ls generalizing lset kept with
  | nil => rw [Clause.sanitizeLoop] at h; injection h with h; rw [← h]; exact fun l hl => .inl hl
  | cons x ls ih =>
    rw [Clause.sanitizeLoop] at h
    intro l hl
    split at h
    · cases h
    split at h
    · rcases ih h l hl with h | h
      · exact .inl h
      · exact .inr (by simp [h])
    · rcases ih h l hl with h | h
      · rcases List.mem_append.1 h with h | h
        · exact .inl h
        · exact .inr (by simp at h; simp [h])
      · exact .inr (by simp [h])

theorem clauseSanitize_mem {c d : Clause} (h : Clause.sanitize c = some d) : ∀ l ∈ d, l ∈ c := by
  unfold Clause.sanitize at h
  split at h
  · injection h with h; rw [← h]; exact fun l hl => hl
  · intro l hl
    rcases sanitizeLoop_mem h l hl with h | h
    · cases h
    · exact h

/-- The sanitised instance has only known variables and some of the PB constraints, or it consists of the two clauses that
stand for an unsatisfiable instance. -/
theorem sanitize_vars {s t : SatInstance BasicVM} (hk : s.Known) (h : s.sanitize = some t) :
    t.vm = s.vm ∧ ((t.cards = [] ∧ t.pbs = [] ∧ ∀ c ∈ t.cnf, ∀ l ∈ c, l.var = 0) ∨ t.Known ∧ ∀ c ∈ t.pbs, c ∈ s.pbs) := by
  unfold SatInstance.sanitize at h
  cases e1 : SatInstance.forLoop SatInstance.sanitizePb ⟨s.cnf, s.cards, [], false⟩ s.pbs with
  | none => rw [e1] at h; cases h
  | some t1 =>
    rw [e1] at h
    simp only at h
    have i1 : SanInv (fun v => v < ManageVars.nUsed s.vm) (fun c => c ∈ s.pbs) t1 := by
      refine forLoop_inv (I := SanInv (fun v => v < ManageVars.nUsed s.vm) (fun c => c ∈ s.pbs)) ?_ ?_ e1
      · intro pb hpb u u' hu he
        exact sanInv_pb hu hpb (fun p hp => hk _ (.inr (.inr ⟨pb, hpb, p, hp, rfl⟩))) he
      · exact ⟨fun c hc l hl => hk _ (.inl ⟨c, hc, l, hl, rfl⟩), fun c hc l hl => hk _ (.inr (.inl ⟨c, hc, l, hl, rfl⟩)),
          fun c hc => by cases hc⟩
    cases e2 : SatInstance.forLoop SatInstance.sanitizeCard { t1 with cards := [] } t1.cards with
    | none => rw [e2] at h; cases h
    | some u =>
      rw [e2] at h
      simp only at h
      have i2 : SanInv (fun v => v < ManageVars.nUsed s.vm) (fun c => c ∈ s.pbs) u := by
        refine forLoop_inv (I := SanInv (fun v => v < ManageVars.nUsed s.vm) (fun c => c ∈ s.pbs)) ?_ ?_ e2
        · intro k hk' w w' hw he
          exact sanInv_cardStep hw (i1.cards k hk') he
        · exact ⟨i1.cnf, (fun c hc => by cases hc), i1.pbs⟩
      by_cases hu : u.unsat = true
      · rw [if_pos hu] at h
        injection h with h; rw [← h]
        refine ⟨rfl, .inl ⟨rfl, rfl, fun c hc l hl => ?_⟩⟩
        simp at hc
        rcases hc with rfl | rfl <;> (rw [List.mem_singleton] at hl; subst hl; rfl)
      · rw [if_neg hu] at h
        injection h with h; rw [← h]
        refine ⟨rfl, .inr ⟨?_, fun c hc => (i2.pbs c hc).1⟩⟩
        rintro v (⟨c, hc, l, hl, rfl⟩ | ⟨c, hc, l, hl, rfl⟩ | ⟨c, hc, p, hp, rfl⟩)
        · obtain ⟨d, hd, hs⟩ := List.mem_filterMap.1 hc
          exact i2.cnf d hd l (clauseSanitize_mem hs l hl)
        · exact i2.cards c hc l hl
        · exact (i2.pbs c hc).2 p hp

/-- Encoding the constraints, also for instances without constraints to encode whose variables are not known. -/
theorem convert_any (s : SatInstance BasicVM)
    (h : (s.cards = [] ∧ s.pbs = [] ∧ ∀ c ∈ s.cnf, ∀ l ∈ c, l.var = 0) ∨ s.Known ∧ ∀ c ∈ s.pbs, c.Regular) :
    ∃ s', s.convertToCnf = some s' ∧ s'.cards = [] ∧ s'.pbs = [] ∧ ManageVars.nUsed s.vm ≤ ManageVars.nUsed s'.vm ∧
      (∀ c ∈ s'.cnf, ∀ l ∈ c, l.var = 0 ∨ l.var < ManageVars.nUsed s'.vm) ∧ (∀ b, s'.sat b → s.sat b) ∧
      ∀ a, s.sat a → ∃ b, (∀ v, v < ManageVars.nUsed s.vm → b v = a v) ∧ s'.sat b := by
  rcases h with ⟨h1, h2, h3⟩ | ⟨h1, h2⟩
  · have e : s.convertToCnf = some ⟨s.cnf, [], [], s.vm⟩ := by
      unfold SatInstance.convertToCnf SatInstance.convertToCnfWith
      rw [h1, h2]
      rfl
    refine ⟨_, e, rfl, rfl, Nat.le_refl _, fun c hc l hl => .inl (h3 c hc l hl), fun b hb => ?_, fun a ha => ?_⟩
    · exact ⟨hb.1, by rw [h1]; exact hb.2.1, by rw [h2]; exact hb.2.2⟩
    · exact ⟨a, fun _ _ => rfl, ha.1, (fun c hc => nomatch hc), fun c hc => nomatch hc⟩
  · obtain ⟨new, vm', _, e, g1, g2, g3, g4⟩ := C38_partial s h1 h2
    refine ⟨_, e, rfl, rfl, g2, fun c hc l hl => .inr ?_, fun b hb => g1 b hb.1, fun a ha => ?_⟩
    · rcases g4 c hc l hl with h | h
      · exact Nat.lt_of_lt_of_le (h1 _ h) g2
      · exact h.2
    · obtain ⟨b, k1, k2⟩ := g3 a ha
      exact ⟨b, fun v hv => k1 v (.inl hv), k2, fun c hc => (nomatch hc), fun c hc => (nomatch hc)⟩

theorem iterSoftCls_vars {o : Objective} : ∀ p ∈ o.iterSoftCls, ∀ l ∈ p.1, o.hasVar l.var := by
  intro p hp l hl
  cases o with
  | weighted off sl sc =>
    rcases List.mem_append.1 hp with hp | hp
    · obtain ⟨q, hq, rfl⟩ := List.mem_map.1 hp
      rw [List.mem_singleton] at hl; subst hl
      exact .inl ⟨q, hq, by simp⟩
    · exact .inr ⟨p, hp, l, hl, rfl⟩
  | unweighted off u sl sc =>
    rcases List.mem_append.1 hp with hp | hp
    · obtain ⟨q, hq, rfl⟩ := List.mem_map.1 hp
      rw [List.mem_singleton] at hl; subst hl
      exact .inl ⟨q, hq, by simp⟩
    · obtain ⟨q, hq, rfl⟩ := List.mem_map.1 hp
      exact .inr ⟨q, hq, l, hl, rfl⟩

theorem writable_of_lt {N : Nat} {c : Clause} (hN : N ≤ maxVarIdx) (h : ∀ l ∈ c, l.var = 0 ∨ l.var < N) : Writable c := by
  intro l hl
  have h1 : N ≤ 2147483647 := hN
  rcases h l hl with h | h <;> omega

theorem eqOk_of_regular {c : PbConstraint} (h : c.Regular) : EqOk c := by
  cases c with
  | ub l w b => trivial
  | lb l w b => trivial
  | eq l ws b =>
    refine ⟨fun p hp => h.pos p hp, fun w hw => ?_⟩
    exact Int.natCast_dvd.2 (h.divides l ws b w rfl hw)

end RustSat
