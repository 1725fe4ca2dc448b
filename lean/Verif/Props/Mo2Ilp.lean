import Verif.Lemmas.Mo2Ilp2
import Verif.Props.Gbmo
/-
C86: the tool that turns multi-objective instances into integer linear programs writes a program that represents the instance.
-/
namespace RustSat
open Mo2Ilp Ilp

/-- The words of the text are those of the program in the format. For one of the formats, the two numbers of non-zero
coefficients are left open. -/
def Mo2Ilp.Written (t : Text) (p : Ilp) : Format → Prop
  | .fgt => Text.splitWs t = p.fgt
  | .bauss => ∃ a b, Text.splitWs t = p.bauss a b

private theorem represents_id {i : MultiOptInstance BasicVM} (hk : i.constrs.Known) {p : Mo2Ilp.Program}
    (hn : p.nVars = ManageVars.nUsed i.decompose.1.vm + (i.objs.map Objective.nClauses).sum + 1)
    (hl : p.objs.length = i.objs.length)
    (hs : ∀ x, p.ilp.sat x → i.constrs.sat x ∧ ∀ (j : Nat) o row, i.objs[j]? = some o → p.objs[j]? = some row → o.value x ≤ rowVal row x)
    (hc : ∀ a, i.constrs.sat a → ∃ x : Asg, (∀ v, v < ManageVars.nUsed i.decompose.1.vm → x v = a v) ∧ p.ilp.sat x ∧
        ∀ (j : Nat) o row, i.objs[j]? = some o → p.objs[j]? = some row → rowVal row x = o.value a) : p.ilp.Represents i id := by
  obtain ⟨d1, _, d3, d4, _⟩ := multiDecompose_spec i hk
  have hv : ∀ v, i.hasVar v → v < ManageVars.nUsed i.decompose.1.vm := by
    rintro v (h | ⟨o, ho, h⟩)
    · exact Nat.lt_of_lt_of_le (hk v h) d4
    · exact d3 o ho v h
  refine ⟨hl, fun v h => ?_, fun _ _ _ _ h => h, fun x hx b hb => ?_, fun a ha => ?_⟩
  · have := hv v h
    show v < p.nVars
    omega
  · obtain ⟨h1, h2⟩ := hs x hx
    refine ⟨sat_congr_known (fun v h => hb v (.inl h)) h1, fun j o row ho hr => ?_⟩
    rw [objValue_congr o fun v h => hb v (.inr ⟨o, List.mem_of_getElem? ho, h⟩)]
    exact h2 j o row ho hr
  · obtain ⟨x, h1, h2, h3⟩ := hc a ha
    exact ⟨x, fun v h => h1 v (hv v h), h2, h3⟩

private theorem zero_spec (i : MultiOptInstance BasicVM) (hk : i.constrs.Known) :
    let t := prepare .assignZero i
    t.constrs.Known ∧ t.objs = i.objs ∧ t.constrs.pbs = i.constrs.pbs ∧ ManageVars.nUsed t.decompose.1.vm = ManageVars.nUsed i.decompose.1.vm ∧
    ∀ a, t.constrs.sat a ↔ i.constrs.sat a ∧ ∀ v, v < ManageVars.nUsed i.constrs.vm → ¬ i.hasVar v → a v = false := by
  obtain ⟨h1, h2, h3, h4⟩ := zeroUnused_spec i.varSet (List.range (ManageVars.nUsed i.constrs.vm)) i.constrs hk
    fun v h => List.mem_range.1 h
  refine ⟨h1, rfl, h3, ?_, fun a => ?_⟩
  · show ManageVars.nUsed (ManageVars.increaseNextFree _ _).2 = ManageVars.nUsed (ManageVars.increaseNextFree _ _).2
    rw [LawfulVM.increase, LawfulVM.increase]
    show max (ManageVars.nUsed (((List.range (ManageVars.nUsed i.constrs.vm)).foldl (zeroUnused i.varSet) i.constrs)).vm) _ = _
    rw [h2]
    rfl
  · refine (h4 a).trans (and_congr_right fun _ => ?_)
    constructor
    · intro h v hv hn
      exact h v (List.mem_range.2 hv) fun hm => hn (((multiVarSet_spec i).2 v).1 hm)
    · intro h v hv hn
      exact h v (List.mem_range.1 hv) fun hm => hn (((multiVarSet_spec i).2 v).2 hm)

/-- The program of the tool for each treatment of unused variables. -/
private theorem convert_core (u : Unused) (i : MultiOptInstance BasicVM) (hk : i.constrs.Known) (hw : ∀ o ∈ i.objs, o.WF) (hf : i.Fits) :
    ∃ (p : Mo2Ilp.Program) (name : Nat → Nat), program (prepare u i) = some p ∧ p.ilp.WF ∧ p.ilp.Represents i name ∧
      (u ≠ .remove → name = id ∧ p.ilp.vars = ManageVars.nUsed i.decompose.1.vm + (i.objs.map Objective.nClauses).sum + 1) ∧
      (u = .remove → ∀ w, w + (i.objs.map Objective.nClauses).sum + 1 < p.ilp.vars → (∃ v, i.hasVar v ∧ name v = w) ∨ ∀ v, ¬ i.hasVar v) ∧
      (u = .assignZero → ∀ x, p.ilp.sat x → ∀ v, v < ManageVars.nUsed i.constrs.vm → ¬ i.hasVar v → x v = false) := by
  cases u with
  | nothing =>
    obtain ⟨p, e, h1, h2, h3, h4, h5⟩ := program_spec i hk hw hf
    exact ⟨p, id, e, h1, represents_id hk h2 h3 h4 h5, fun _ => ⟨rfl, h2⟩, (by intro h; cases h), (by intro h; cases h)⟩
  | assignZero =>
    obtain ⟨z1, z2, z3, z4, z5⟩ := zero_spec i hk
    generalize prepare .assignZero i = t at *
    obtain ⟨p, e, h1, h2, h3, h4, h5⟩ := program_spec t z1 (by rw [z2]; exact hw) ⟨by rw [z2]; exact hf.1, by rw [z3]; exact hf.2⟩
    rw [z2] at h2 h3 h4 h5
    rw [z4] at h2 h5
    refine ⟨p, id, e, h1, ?_, fun _ => ⟨rfl, h2⟩, (by intro h; cases h), fun _ x hx => ((z5 x).1 (h4 x hx).1).2⟩
    obtain ⟨_, _, d3, d4, _⟩ := multiDecompose_spec i hk
    have hv : ∀ v, i.hasVar v → v < ManageVars.nUsed i.decompose.1.vm := by
      rintro v (h | ⟨o, ho, h⟩)
      · exact Nat.lt_of_lt_of_le (hk v h) d4
      · exact d3 o ho v h
    refine ⟨h3, fun v h => ?_, fun _ _ _ _ h => h, fun x hx b hb => ?_, fun a ha => ?_⟩
    · have := hv v h
      show v < p.nVars
      omega
    · obtain ⟨g1, g2⟩ := h4 x hx
      refine ⟨sat_congr_known (fun v h => hb v (.inl h)) ((z5 x).1 g1).1, fun j o row ho hr => ?_⟩
      rw [objValue_congr o fun v h => hb v (.inr ⟨o, List.mem_of_getElem? ho, h⟩)]
      exact g2 j o row ho hr
    · classical
      let a' : Asg := fun v => if i.hasVar v then a v else false
      have ha' : ∀ v, i.hasVar v → a' v = a v := fun v h => if_pos h
      obtain ⟨x, g1, g2, g3⟩ := h5 a' ((z5 a').2 ⟨sat_congr_known (fun v h => ha' v (.inl h)) ha, fun v _ h => if_neg h⟩)
      refine ⟨x, fun v h => by rw [id, g1 v (hv v h), ha' v h], g2, fun j o row ho hr => ?_⟩
      rw [g3 j o row ho hr]
      exact objValue_congr o fun v h => ha' v (.inr ⟨o, List.mem_of_getElem? ho, h⟩)
  | remove =>
    obtain ⟨f, K, r1, r2, r3, r4, r5, r6, r7, r8, r9⟩ := remove_spec i hw hf
    generalize prepare .remove i = t at *
    obtain ⟨p, e, h1, h2, h3, h4, h5⟩ := program_spec t r1 r2 r3
    have hcl : (t.objs.map Objective.nClauses).sum = (i.objs.map Objective.nClauses).sum := by
      rw [r4, List.map_map]
      congr 1
      exact List.map_congr_left fun o _ => nClauses_rename f o
    have hinj : ∀ u v, i.hasVar u → i.hasVar v → f u = f v → u = v := by
      intro u v hu hv huv
      rcases Nat.lt_trichotomy u v with h | h | h
      · have := r7 u v hu hv h; omega
      · exact h
      · have := r7 v u hv hu h; omega
    have hget : ∀ (j : Nat) o, i.objs[j]? = some o → t.objs[j]? = some (renameObj f o) := by
      intro j o ho; rw [r4, List.getElem?_map, ho]; rfl
    rw [r5, hcl] at h2
    refine ⟨p, f, e, h1, ⟨by show p.objs.length = _; rw [h3, r4, List.length_map], fun v h => ?_, r7, fun x hx b hb => ?_, fun a ha => ?_⟩,
      fun h => absurd rfl h, fun _ w hw' => ?_, (by intro h; cases h)⟩
    · have := r6 v h
      show f v < p.nVars
      omega
    · obtain ⟨g1, g2⟩ := h4 x hx
      refine ⟨sat_congr_known (fun v h => hb v (.inl h)) ((r9 x).1 g1), fun j o row ho hr => ?_⟩
      rw [objValue_congr o fun v h => hb v (.inr ⟨o, List.mem_of_getElem? ho, h⟩), ← value_rename]
      exact g2 j _ row (hget j o ho) hr
    · classical
      let a' : Asg := fun w => if h : ∃ v, i.hasVar v ∧ f v = w then a h.choose else false
      have ha' : ∀ v, i.hasVar v → a' (f v) = a v := by
        intro v h
        have hex : ∃ u, i.hasVar u ∧ f u = f v := ⟨v, h, rfl⟩
        show (if h : ∃ u, i.hasVar u ∧ f u = f v then a h.choose else false) = a v
        rw [dif_pos hex, hinj _ v hex.choose_spec.1 h hex.choose_spec.2]
      obtain ⟨x, g1, g2, g3⟩ := h5 a' ((r9 a').2 (sat_congr_known (fun v h => ha' v (.inl h)) ha))
      refine ⟨x, fun v h => ?_, g2, fun j o row ho hr => ?_⟩
      · rw [g1 (f v) (by rw [r5]; have := r6 v h; omega), ha' v h]
      · rw [g3 j _ row (hget j o ho) hr, value_rename]
        exact objValue_congr o fun v h => ha' v (.inr ⟨o, List.mem_of_getElem? ho, h⟩)
    · have hw'' : w + (i.objs.map Objective.nClauses).sum + 1 < p.nVars := hw'
      by_cases hK : w < K
      · exact .inl (r8 w hK)
      · refine .inr fun v h => ?_
        have := r6 v h
        omega

/-- C86 (partial: the announced numbers of non-zero coefficients are left open, see `C86_violated_nonzeros`): for each instance
whose coefficients fit, each format and each treatment of unused variables, the tool writes an integer linear program that
represents the instance. Without removal the variables keep their numbers; with removal the variables of the instance become
the first variables of the program without a gap; with the assignment of unused variables they are zero in all solutions. -/
theorem C86_convert_partial (fmt : Format) (u : Unused) (i : MultiOptInstance BasicVM) (hk : i.constrs.Known) (hw : ∀ o ∈ i.objs, o.WF)
    (hf : i.Fits) :
    ∃ t p name, convert fmt u i = .output t ∧ Written t p fmt ∧ p.WF ∧ p.Represents i name ∧
      (u ≠ .remove → name = id ∧ p.vars = ManageVars.nUsed i.decompose.1.vm + (i.objs.map Objective.nClauses).sum + 1) ∧
      (u = .remove → ∀ w, w + (i.objs.map Objective.nClauses).sum + 1 < p.vars → (∃ v, i.hasVar v ∧ name v = w) ∨ ∀ v, ¬ i.hasVar v) ∧
      (u = .assignZero → ∀ x, p.sat x → ∀ v, v < ManageVars.nUsed i.constrs.vm → ¬ i.hasVar v → x v = false) := by
  obtain ⟨p, name, e, h1, h2, h3, h4, h5⟩ := convert_core u i hk hw hf
  refine ⟨_, p.ilp, name, by rw [convert, writeInstance, e], ?_, h1, h2, h3, h4, h5⟩
  cases fmt with
  | fgt => exact fgt_words p
  | bauss => exact ⟨_, _, bauss_words p⟩

/-- C86: the words of the text determine the program. -/
theorem C86_text_unique (fmt : Format) (t : Text) (p q : Ilp) (hp : p.WF) (hq : q.WF) (h1 : Written t p fmt) (h2 : Written t q fmt) :
    p = q := by
  cases fmt with
  | fgt => exact fgt_inj hp hq (h1.symm.trans h2)
  | bauss =>
    obtain ⟨a, b, h1⟩ := h1
    obtain ⟨c, d, h2⟩ := h2
    exact (bauss_inj hp hq (h1.symm.trans h2)).1

/-- C86: a program that represents an instance has the same non-dominated costs, and each of its solutions with non-dominated
costs is a solution of the instance with these costs. -/
theorem C86_pareto {VM : Type} (p : Ilp) (i : MultiOptInstance VM) (name : Nat → Nat) (h : p.Represents i name) :
    (∀ d, NonDominated i.objs.length i.constrs.sat i.costs d ↔ NonDominated i.objs.length p.sat p.costs d) ∧
    ∀ x, p.sat x → NonDominated i.objs.length p.sat p.costs (p.costs x) →
      i.constrs.sat (fun v => x (name v)) ∧ ∀ j, j < i.objs.length → i.costs (fun v => x (name v)) j = p.costs x j := by
  have hle : ∀ x, p.sat x → i.constrs.sat (fun v => x (name v)) ∧ atMost i.objs.length (i.costs fun v => x (name v)) (p.costs x) := by
    intro x hx
    obtain ⟨h1, h2⟩ := h.sound x hx (fun v => x (name v)) fun _ _ => rfl
    refine ⟨h1, fun j hj => ?_⟩
    have e1 : i.objs[j]? = some i.objs[j] := List.getElem?_eq_getElem hj
    have hj' : j < p.objs.length := by rw [h.objectives]; exact hj
    have e2 : p.objs[j]? = some p.objs[j] := List.getElem?_eq_getElem hj'
    simp only [MultiOptInstance.costs, Ilp.costs, e1, e2, Option.map_some, Option.getD_some]
    exact h2 j _ _ e1 e2
  have heq : ∀ a, i.constrs.sat a → ∃ x, p.sat x ∧ ∀ j, j < i.objs.length → p.costs x j = i.costs a j := by
    intro a ha
    obtain ⟨x, _, h2, h3⟩ := h.complete a ha
    refine ⟨x, h2, fun j hj => ?_⟩
    have e1 : i.objs[j]? = some i.objs[j] := List.getElem?_eq_getElem hj
    have hj' : j < p.objs.length := by rw [h.objectives]; exact hj
    have e2 : p.objs[j]? = some p.objs[j] := List.getElem?_eq_getElem hj'
    simp only [MultiOptInstance.costs, Ilp.costs, e1, e2, Option.map_some, Option.getD_some]
    exact h3 j _ _ e1 e2
  have hback : ∀ x d, p.sat x → (∀ j, j < i.objs.length → p.costs x j = d j) →
      (∀ y, p.sat y → atMost i.objs.length (p.costs y) d → atMost i.objs.length d (p.costs y)) →
      ∀ j, j < i.objs.length → i.costs (fun v => x (name v)) j = d j := by
    intro x d hx hd hm j hj
    obtain ⟨h1, h2⟩ := hle x hx
    obtain ⟨y, h3, h4⟩ := heq _ h1
    have h5 := hm y h3 (fun k hk => by rw [h4 k hk, ← hd k hk]; exact h2 k hk) j hj
    rw [h4 j hj] at h5
    have h6 := h2 j hj
    rw [hd j hj] at h6
    omega
  refine ⟨fun d => ⟨?_, ?_⟩, fun x hx hn => ⟨(hle x hx).1, hback x _ hx (fun _ _ => rfl) hn.2⟩⟩
  · rintro ⟨⟨a, ha, hd⟩, hm⟩
    obtain ⟨x, h1, h2⟩ := heq a ha
    refine ⟨⟨x, h1, fun j hj => by rw [h2 j hj, hd j hj]⟩, fun y hy hyd j hj => ?_⟩
    obtain ⟨h3, h4⟩ := hle y hy
    exact Int.le_trans (hm _ h3 (fun k hk => Int.le_trans (h4 k hk) (hyd k hk)) j hj) (h4 j hj)
  · rintro ⟨⟨x, hx, hd⟩, hm⟩
    refine ⟨⟨_, (hle x hx).1, hback x d hx hd hm⟩, fun a ha had j hj => ?_⟩
    obtain ⟨y, h1, h2⟩ := heq a ha
    rw [← h2 j hj]
    exact hm y h1 (fun k hk => by rw [h2 k hk]; exact had k hk) j hj

private theorem readOpbMulti_wf {opts : Opb.Options} {t : Text} {i : MultiOptInstance BasicVM}
    (h : MultiOptInstance.fromOpb ⟨0⟩ opts t = .ok i) : ∀ o ∈ i.objs, o.WF := by
  have key : ∀ (rs : List (Res FioError Opb.Data)) (s : SatInstance BasicVM) (os : List Objective) (i : MultiOptInstance BasicVM),
      (∀ o ∈ os, o.WF) → MultiOptInstance.opbLoop s os rs = .ok i → ∀ o ∈ i.objs, o.WF := by
    intro rs
    induction rs with
    | nil => intro s os i hs h; injection h with h; rw [← h]; exact hs
    | cons r rs ih =>
      intro s os i hs h
      cases r with
      | ok d =>
        cases d with
        | cmt _ => exact ih s os i hs h
        | constr c => exact ih _ os i hs h
        | obj o =>
          rw [MultiOptInstance.opbLoop] at h
          cases ho : o.toObjective with
          | ok ob =>
            rw [ho] at h
            refine ih _ _ i ?_ h
            intro q hq
            rcases List.mem_append.1 hq with hq | hq
            · exact hs q hq
            · rw [List.mem_singleton.1 hq]; exact (toObjective_ok ho).1
          | err e => rw [ho] at h; cases h
          | panic => rw [ho] at h; cases h
      | err e => cases h
      | panic => cases h
  exact key _ _ [] i (by simp) h

/-- C86 (partial as `C86_convert_partial`): the tool, for files of both input formats. -/
theorem C86_mo2ilp_partial (fmt : Format) (u : Unused) (inp : Input) (i : MultiOptInstance BasicVM) (hr : inp.read = .ok i) (hf : i.Fits) :
    ∃ t p name, mo2ilp fmt u inp = .output t ∧ Written t p fmt ∧ p.WF ∧ p.Represents i name ∧
      (u ≠ .remove → name = id) ∧
      (u = .remove → ∀ w, w + (i.objs.map Objective.nClauses).sum + 1 < p.vars → (∃ v, i.hasVar v ∧ name v = w) ∨ ∀ v, ¬ i.hasVar v) ∧
      (u = .assignZero → ∀ x, p.sat x → ∀ v, v < ManageVars.nUsed i.constrs.vm → ¬ i.hasVar v → x v = false) ∧
      ∀ d, NonDominated i.objs.length i.constrs.sat i.costs d ↔ NonDominated i.objs.length p.sat p.costs d := by
  have hkw : i.constrs.Known ∧ ∀ o ∈ i.objs, o.WF := by
    cases inp with
    | mcnf t => obtain ⟨h1, _, _, h2⟩ := readMcnf_known hr; exact ⟨h1, h2⟩
    | opb first t => exact ⟨readOpbMulti_known hr, readOpbMulti_wf hr⟩
  obtain ⟨t, p, name, e, h1, h2, h3, h4, h5, h6⟩ := C86_convert_partial fmt u i hkw.1 hkw.2 hf
  exact ⟨t, p, name, by rw [mo2ilp, hr]; exact e, h1, h2, h3, fun h => (h4 h).1, h5, h6, (C86_pareto p i name h3).1⟩

namespace Mo2IlpDemo

/-- A hard clause over the first and third of four variables, and two objectives. -/
def inst : MultiOptInstance BasicVM :=
  ⟨⟨[[Lit.mk' 0 false, Lit.mk' 2 true]], [], [.ub [(Lit.mk' 0 false, 2), (Lit.mk' 2 false, 3)] 5 4], ⟨4⟩⟩,
    [.weighted 5 [(Lit.mk' 0 false, 2), (Lit.mk' 2 true, 3)] [], .unweighted 0 (some 1) [] [[Lit.mk' 0 false, Lit.mk' 2 false]]]⟩

theorem inst_known : inst.constrs.Known := by
  intro v hv
  show v < 4
  simp only [SatInstance.hasVar, inst] at hv
  rcases hv with ⟨c, hc, l, hl, rfl⟩ | ⟨c, hc, _⟩ | ⟨c, hc, p, hp, rfl⟩
  · simp at hc; subst hc; simp at hl; rcases hl with rfl | rfl <;> decide
  · simp at hc
  · simp at hc; subst hc; simp [PbConstraint.lits] at hp; rcases hp with rfl | rfl <;> decide

theorem inst_wf : ∀ o ∈ inst.objs, o.WF := by
  intro o ho
  simp only [inst, List.mem_cons, List.not_mem_nil, or_false] at ho
  rcases ho with rfl | rfl
  · simp only [Objective.WF]; decide
  · simp only [Objective.WF]; decide

theorem inst_fits : inst.Fits := by
  refine ⟨fun o ho => ?_, fun c hc => ?_⟩
  · simp only [inst, List.mem_cons, List.not_mem_nil, or_false] at ho
    rcases ho with rfl | rfl <;> decide
  · simp only [inst, List.mem_cons, List.not_mem_nil, or_false] at hc
    subst hc; decide

/-- Two of the four variables are not used. -/
example := C86_convert_partial .fgt .remove inst inst_known inst_wf inst_fits
example := C86_convert_partial .bauss .assignZero inst inst_known inst_wf inst_fits

set_option maxRecDepth 10000 in
example : convert .fgt .nothing inst = .output ("6 4 2\n\nminsum minsum\n\n2 0 -3 0 0 8\n0 0 0 0 1 0\n\n".toList ++
    "2 0 3 0 0 0\n1 0 -1 0 0 0\n1 0 1 0 1 0\n0 0 0 0 0 1\n\n1 4\n0 0\n0 1\n0 1\n\n0 0 0 0 0 0\n1 1 1 1 1 1\n".toList) := by rfl

/-- Files of both formats. -/
example : ∃ i, (Input.mcnf "h 1 -3 0\no1 2 -1 0\no2 3 1 0\n".toList).read = .ok i ∧ i.objs.length = 2 ∧ i.constrs.cnf = [[Lit.mk' 0 false, Lit.mk' 2 true]] := by
  refine ⟨_, by rfl, ?_, ?_⟩ <;> rfl

example : mo2ilp .fgt .nothing (.mcnf "h 1 -3 0\no1 2 -1 0\no2 3 1 0\n".toList) = .output "4 2 2\n\nminsum minsum\n\n2 0 0 0\n-3 0 0 3\n\n1 0 -1 0\n0 0 0 1\n\n0 0\n0 1\n\n0 0 0 0\n1 1 1 1\n".toList := by decide_cbv

example : mo2ilp .bauss .nothing (.opb 1 "min: 2 x1 -1 x3;\n1 x1 2 x2 >= 2;\n".toList) = .output "4 2 1 3 2\n\n2 0 -1 0\n\n1 2 0 0\n0 0 0 1\n\n0 2\n0 1\n".toList := by decide_cbv

/-- The solution in which the first variable is true and the third is false. -/
example : inst.constrs.sat (fun v => v == 0) := by
  refine ⟨?_, ?_, ?_⟩
  · unfold ClauseSet.sat Clause.sat; decide
  · simp [inst]
  · intro c hc; simp only [inst, List.mem_cons, List.not_mem_nil, or_false] at hc; subst hc; simp only [PbConstraint.sat]; decide

/-- A clause with a variable and its negation, and an objective with a negated literal. -/
def cancel : MultiOptInstance BasicVM :=
  ⟨⟨[[Lit.mk' 0 false, Lit.mk' 0 true]], [], [], ⟨1⟩⟩, [.weighted 0 [(Lit.mk' 0 true, 3)] []]⟩

/-- What the tool computes for it. -/
def cancelProgram : Mo2Ilp.Program := ⟨2, [[-3, 3]], [([0, 0], .gte, 0), ([0, 1], .gte, 1)], 3, 1⟩

end Mo2IlpDemo

/-- C86 is violated: the numbers of non-zero coefficients that are announced are those of the terms. They are too large if
terms over the same variable cancel (`non_zero_constrs`), and too small if an objective has a constant part
(`non_zero_objs`). -/
theorem C86_violated_nonzeros : ∃ (t : Text) (p : Ilp) (a b : Nat), convert .bauss .nothing Mo2IlpDemo.cancel = .output t ∧ p.WF ∧ Text.splitWs t = p.bauss a b ∧
    a = 3 ∧ nonZeros (p.constrs.map (·.1)) = 1 ∧ b = 1 ∧ nonZeros p.objs = 2 := by
  have e : program Mo2IlpDemo.cancel = some Mo2IlpDemo.cancelProgram := by rfl
  refine ⟨_, Mo2IlpDemo.cancelProgram.ilp, 3, 1, by rw [convert, writeInstance, prepare, e], ?_, bauss_words _, rfl, rfl, rfl, rfl⟩
  unfold Ilp.WF; decide

end RustSat
