import Verif.Lemmas.Converters
/-
Property theorems C59 (conversions between file formats).
-/
namespace RustSat
open Dimacs Opb DimacsSpec OpbSpec Objective

/-- C59: an optimal solution of a converted problem is an optimal solution of the original one. -/
theorem C59_optimum {VM VM' : Type} {s : SatInstance VM} {s' : SatInstance VM'} {o o' : Objective}
    (h : SameProblem s [o] s' [o']) {b : Asg} (hb : s'.sat b) (hopt : ∀ c, s'.sat c → o'.value b ≤ o'.value c) :
    s.sat b ∧ ∀ a, s.sat a → o.value b ≤ o.value a := by
  obtain ⟨k, h1, h2⟩ := h
  obtain ⟨h3, h4⟩ := h1 b hb
  refine ⟨h3, fun a ha => ?_⟩
  obtain ⟨c, _, h5, h6⟩ := h2 a ha
  have h7 : o.value b ≤ o'.value b + k 0 := h4 0 (by simp)
  have h8 : o'.value c + k 0 = o.value a := h6 0 (by simp)
  have := hopt c h5
  omega

/-! ### To OPB files -/

/-- C59: `cnf2opb` writes an OPB file with the same solutions. -/
theorem C59_cnf2opb {t : Text} {s : SatInstance BasicVM} {opts opts' : Options}
    (hr : SatInstance.fromDimacs ⟨0⟩ t = .ok s) (hfirst : opts'.firstVarIdx = opts.firstVarIdx)
    (hfit : InstanceFits opts.firstVarIdx s) :
    ∃ u s', cnf2opb opts t = .output u ∧ SatInstance.fromOpb (VM := BasicVM) ⟨0⟩ opts' u = .ok s' ∧
      ∀ a, s'.sat a ↔ s.sat a := by
  obtain ⟨u, s', h1, h2, _, h3⟩ := C44_sat_instance (VM := BasicVM) ⟨0⟩ s hfirst hfit
  refine ⟨u, s', ?_, h2, h3⟩
  rw [cnf2opb, hr]
  simp only [withRead, h1]

/-- Instances with soft clauses that can be written as OPB files: the `V` variables of the instance and one for each soft
clause can be named, and the lengths of clauses and the weights of objectives fit machine integers. -/
structure HardenFits (first V : Nat) (s : SatInstance BasicVM) (objs : List Objective) : Prop where
  vars : s.vm.nextVar ≤ V ∧ ∀ o ∈ objs, ∀ v, o.hasVar v → v < V
  names : V + (objs.map nClauses).sum ≤ 2147483647 ∧ V + (objs.map nClauses).sum + first ≤ 4294967295
  clauses : ∀ c ∈ s.cnf, c.length + 1 ≤ 9223372036854775807
  softs : ∀ o ∈ objs, ∀ c, o.hasSoft c → c.length + 2 ≤ 9223372036854775807
  weights : ∀ o ∈ objs, o.weightSum + o.offset.natAbs ≤ 9223372036854775807

private theorem hardened_fits {first V : Nat} {s d s' : SatInstance BasicVM} {objs : List Objective}
    (hf : HardenFits first V s objs) (hc : s.cards = []) (hp : s.pbs = [])
    (hd : d.cnf = s.cnf ∧ d.cards = s.cards ∧ d.pbs = s.pbs) (hn : ManageVars.nUsed d.vm ≤ V + 1)
    (hk : s'.Known) (n : ManageVars.nUsed s'.vm = ManageVars.nUsed d.vm + (objs.map nClauses).sum)
    (cd : s'.cards = d.cards) (pb : s'.pbs = d.pbs)
    (cl : ∀ c ∈ s'.cnf, c ∈ d.cnf ∨ ∃ o ∈ objs, ∃ d v, o.hasSoft d ∧ v < ManageVars.nUsed s'.vm ∧ c = d ++ [Lit.pos v]) :
    InstanceFits first s' ∧ ∀ l : Lit, l.var < ManageVars.nUsed s'.vm → VarFits first l := by
  have hv : ∀ l : Lit, l.var < ManageVars.nUsed s'.vm → VarFits first l := by
    intro l hl
    obtain ⟨h1, h2⟩ := hf.names
    exact ⟨by omega, by omega⟩
  refine ⟨⟨fun c hcc => ⟨fun l hl => hv l (hk _ (.inl ⟨c, hcc, l, hl, rfl⟩)), ?_⟩, ?_, ?_⟩, hv⟩
  · rcases cl c hcc with h | ⟨o, ho, e, v, h1, _, rfl⟩
    · exact hf.clauses c (hd.1 ▸ h)
    · have := hf.softs o ho e h1
      simp; omega
  · intro c hcc; rw [cd, hd.2.1, hc] at hcc; cases hcc
  · intro c hcc; rw [pb, hd.2.2, hp] at hcc; cases hcc

/-- C59: `wcnf2opb` writes an OPB file with the same optimisation problem. -/
theorem C59_wcnf2opb {t : Text} {i : OptInstance BasicVM} {opts opts' : Options} {V : Nat}
    (hr : OptInstance.fromDimacs ⟨0⟩ t = .ok i) (hfirst : opts'.firstVarIdx = opts.firstVarIdx)
    (hfit : HardenFits opts.firstVarIdx V i.constrs [i.obj]) :
    ∃ u i', wcnf2opb opts t = .output u ∧ OptInstance.fromOpb (VM := BasicVM) ⟨0⟩ opts' u = .ok i' ∧
      SameProblem i.constrs [i.obj] i'.constrs [i'.obj] := by
  obtain ⟨r1, r2, r3, r4⟩ := readWcnf_known hr
  obtain ⟨d1, d2, d3, d4, d5⟩ := optDecompose_spec i r1
  obtain ⟨s', objs', e, l, k, n, cd, pb, cl, ob, so, co⟩ := hardenAll_spec [i.obj] i.decompose.1 d1
    (fun o ho => by rw [List.mem_singleton] at ho; rw [ho]; exact r4)
    (fun o ho v hv => by rw [List.mem_singleton] at ho; rw [ho] at hv; exact d3 v hv)
  match objs', l with
  | [o'], _ =>
  obtain ⟨f1, f2⟩ := hardened_fits hfit r2 r3 (d := i.decompose.1) ⟨rfl, rfl, rfl⟩
    (Nat.le_succ_of_le (d5 V hfit.vars.1 (hfit.vars.2 i.obj (by simp)))) k n cd pb cl
  obtain ⟨ob1, ob2, ⟨ls, ob3, ob4, ob5⟩, ob6⟩ := ob 0 i.obj o' rfl rfl
  have hs : SoftFits opts.firstVarIdx ls (OptInstance.compose s' o').obj.offset := by
    refine ⟨fun p hp => f2 p.1 (ob6 _ (ob5 p hp)), ?_⟩
    have := hfit.weights i.obj (by simp)
    show wtotal ls + o'.offset.natAbs ≤ _
    rw [ob2, ob4]; exact this
  obtain ⟨u, i', kk, w1, w2, _, _, _, w3, _, w4⟩ := C44_opt_instance (VM := BasicVM) ⟨0⟩ (OptInstance.compose s' o')
    (opts := opts) (opts' := opts') (ls := ls) hfirst f1 ob3 hs
  have w3' : ∀ a, i'.constrs.sat a ↔ s'.sat a := w3
  have w4' : ∀ a, o'.value a = i'.obj.value a + kk := w4
  have eh : hardenSoftCls i.decompose.1 i.obj = (s', o') := by
    simp only [hardenAll, Prod.mk.injEq, List.cons.injEq, and_true] at e
    exact Prod.ext e.1 e.2
  refine ⟨u, i', ?_, w2, fun _ => kk, fun b hb => ?_, fun a ha => ?_⟩
  · rw [wcnf2opb, hr]
    simp only [withRead]
    have : hardenSoftCls i.decompose.1 i.decompose.2 = (s', o') := eh
    rw [this]
    simp only [w1, ToolResult.ofRes]
  · obtain ⟨h1, h2⟩ := so b ((w3' b).1 hb)
    refine ⟨(d2 b).1 h1, fun j hj => ?_⟩
    have hj0 : j = 0 := by simp at hj; omega
    subst hj0
    have := h2 0 i.obj o' rfl rfl
    rw [w4' b] at this
    exact this
  · obtain ⟨b, h1, h2, h3⟩ := co a ((d2 a).2 ha)
    refine ⟨b, ?_, (w3' b).2 h2, fun j hj => ?_⟩
    · rintro v (hv | ⟨o, ho, hv⟩)
      · exact h1 v (Nat.lt_of_lt_of_le (r1 v hv) d4)
      · rw [List.mem_singleton] at ho; subst ho; exact h1 v (d3 v hv)
    · have hj0 : j = 0 := by simp at hj; omega
      subst hj0
      have := h3 0 i.obj o' rfl rfl
      rw [w4' b] at this
      exact this

private theorem softLits_all {os : List Objective} (h : ∀ (j : Nat) o, os[j]? = some o → ∃ ls, o.iterSoftLits = some ls) :
    ∃ sl, MultiOptInstance.softLits os = some sl ∧
      ∀ p ∈ sl, ∃ (j : Nat) (o : Objective), os[j]? = some o ∧ o.iterSoftLits = some p.1 ∧ p.2 = o.offset := by
  induction os with
  | nil => exact ⟨[], rfl, fun p hp => by cases hp⟩
  | cons o os ih =>
    obtain ⟨sl, h1, h2⟩ := ih fun j p hp => h (j + 1) p hp
    obtain ⟨ls, h3⟩ := h 0 o rfl
    refine ⟨(ls, o.offset) :: sl, by rw [MultiOptInstance.softLits, h1, h3], fun p hp => ?_⟩
    rcases List.mem_cons.1 hp with rfl | hp
    · exact ⟨0, o, rfl, h3, rfl⟩
    · obtain ⟨j, o', h4, h5, h6⟩ := h2 p hp
      exact ⟨j + 1, o', h4, h5, h6⟩

private theorem objValue_some {os : List Objective} {j : Nat} {o : Objective} (h : os[j]? = some o) (a : Asg) :
    DimacsSpec.objValue os j a = o.value a := by
  rw [DimacsSpec.objValue, h]

/-- C59: `mcnf2opb` writes an OPB file with the same optimisation problem, with the same number of objectives. -/
theorem C59_mcnf2opb {t : Text} {i : MultiOptInstance BasicVM} {opts opts' : Options} {V : Nat}
    (hr : MultiOptInstance.fromDimacs ⟨0⟩ t = .ok i) (hfirst : opts'.firstVarIdx = opts.firstVarIdx)
    (hfit : HardenFits opts.firstVarIdx V i.constrs i.objs) :
    ∃ u i', mcnf2opb opts t = .output u ∧ MultiOptInstance.fromOpb (VM := BasicVM) ⟨0⟩ opts' u = .ok i' ∧
      i'.objs.length = i.objs.length ∧ SameProblem i.constrs i.objs i'.constrs i'.objs := by
  obtain ⟨r1, r2, r3, r4⟩ := readMcnf_known hr
  obtain ⟨d1, d2, d3, d4, d5⟩ := multiDecompose_spec i r1
  obtain ⟨s', objs', e, l, k, n, cd, pb, cl, ob, so, co⟩ := hardenAll_spec i.objs i.decompose.1 d1 r4 d3
  obtain ⟨f1, f2⟩ := hardened_fits hfit r2 r3 (d := i.decompose.1) ⟨rfl, rfl, rfl⟩ (d5 V hfit.vars.1 hfit.vars.2) k n cd pb cl
  have hget : ∀ (j : Nat) o', objs'[j]? = some o' → ∃ o, i.objs[j]? = some o := by
    intro j o' h
    have := (List.getElem?_eq_some_iff.1 h).1
    exact ⟨i.objs[j]'(by omega), List.getElem?_eq_getElem (by omega)⟩
  have hget' : ∀ (j : Nat) o, i.objs[j]? = some o → ∃ o', objs'[j]? = some o' := by
    intro j o h
    have := (List.getElem?_eq_some_iff.1 h).1
    exact ⟨objs'[j]'(by omega), List.getElem?_eq_getElem (by omega)⟩
  obtain ⟨sl, hsl, hsl'⟩ := softLits_all (os := objs') (fun j o' h => by
    obtain ⟨o, ho⟩ := hget j o' h
    obtain ⟨_, _, ⟨ls, h1, _⟩, _⟩ := ob j o o' ho h
    exact ⟨ls, h1⟩)
  have hs : ∀ p ∈ sl, SoftFits opts.firstVarIdx p.1 p.2 := by
    intro p hp
    obtain ⟨j, o', h1, h2, h3⟩ := hsl' p hp
    obtain ⟨o, ho⟩ := hget j o' h1
    obtain ⟨_, ob2, ⟨ls, ob3, ob4, ob5⟩, ob6⟩ := ob j o o' ho h1
    rw [h2] at ob3
    injection ob3 with ob3
    refine ⟨fun q hq => f2 q.1 (ob6 _ (ob5 q (ob3 ▸ hq))), ?_⟩
    have := hfit.weights o (List.mem_of_getElem? ho)
    rw [h3, ob2, ob3, ob4]; exact this
  obtain ⟨u, i', w1, w2, _, w3, w5, w4⟩ := C44_multi_instance (VM := BasicVM) ⟨0⟩ (MultiOptInstance.compose s' objs')
    (opts := opts) (opts' := opts') hfirst f1 hsl hs
  have w3' : ∀ a, i'.constrs.sat a ↔ s'.sat a := w3
  have w5' : i'.objs.length = objs'.length := w5
  have w4' : ∀ (k : Nat) o, objs'[k]? = some o → ∃ o' c, i'.objs[k]? = some o' ∧ o'.WF ∧ ∀ a, o.value a = o'.value a + c := w4
  let cst : Nat → Int := fun j => DimacsSpec.objValue objs' j (fun _ => false) - DimacsSpec.objValue i'.objs j (fun _ => false)
  have hcst : ∀ j, j < i.objs.length → ∃ o o', i.objs[j]? = some o ∧ objs'[j]? = some o' ∧
      ∀ a, o'.value a = DimacsSpec.objValue i'.objs j a + cst j := by
    intro j hj
    have ho : i.objs[j]? = some i.objs[j] := List.getElem?_eq_getElem hj
    obtain ⟨o', ho'⟩ := hget' j _ ho
    obtain ⟨o2, c, h1, _, h2⟩ := w4' j o' ho'
    refine ⟨_, o', ho, ho', fun a => ?_⟩
    show _ = _ + (DimacsSpec.objValue objs' j (fun _ => false) - DimacsSpec.objValue i'.objs j (fun _ => false))
    rw [objValue_some h1, objValue_some h1, objValue_some ho', h2 a, h2 fun _ => false]
    omega
  refine ⟨u, i', ?_, w2, by rw [w5', l], cst, fun b hb => ?_, fun a ha => ?_⟩
  · rw [mcnf2opb, hr]
    simp only [withRead]
    have : hardenAll i.decompose.1 i.decompose.2 = (s', objs') := e
    rw [this]
    simp only [w1, ToolResult.ofRes]
  · obtain ⟨h1, h2⟩ := so b ((w3' b).1 hb)
    refine ⟨(d2 b).1 h1, fun j hj => ?_⟩
    obtain ⟨o, o', ho, ho', hc⟩ := hcst j hj
    rw [objValue_some ho, ← hc b]
    exact h2 j o o' ho ho'
  · obtain ⟨b, h1, h2, h3⟩ := co a ((d2 a).2 ha)
    refine ⟨b, ?_, (w3' b).2 h2, fun j hj => ?_⟩
    · rintro v (hv | ⟨o, ho, hv⟩)
      · exact h1 v (Nat.lt_of_lt_of_le (r1 v hv) d4)
      · exact h1 v (d3 o ho v hv)
    · obtain ⟨o, o', ho, ho', hc⟩ := hcst j hj
      rw [objValue_some ho, ← hc b]
      exact h3 j o o' ho ho'

/-! ### From OPB files -/

/-- The encoded constraints can be written as a DIMACS file. -/
def EncodingFits (s : SatInstance BasicVM) : Prop :=
  ∀ s', s.convertToCnf = some s' → ManageVars.nUsed s'.vm ≤ maxVarIdx ∧ s'.cnf.length ≤ usizeMax

/-- C59: `opb2cnf` writes a CNF file whose solutions are those of the instance, with values for further variables.
`_partial`: only for `--first-var-idx 0` and if an output file is given; see the violations below. The constraints must be
such that the default encodings are correct (C37). -/
theorem C59_opb2cnf_partial {t : Text} {s : SatInstance BasicVM}
    (hr : SatInstance.fromOpb ⟨0⟩ { Options.dflt with firstVarIdx := 0 } t = .ok s) (hreg : ∀ c ∈ s.pbs, c.Regular)
    (hfit : EncodingFits s) :
    ∃ u s', opb2cnf 0 false t = .output u ∧ SatInstance.fromDimacs (VM := BasicVM) ⟨0⟩ u = .ok s' ∧ SameProblem s [] s' [] := by
  have hk := readOpb_known hr
  obtain ⟨e, h1, h2, h3, h4, h5, h6, h7⟩ := convert_any s (.inr ⟨hk, hreg⟩)
  obtain ⟨f1, f2⟩ := hfit e h1
  obtain ⟨u, s', w1, w2, _, w3, _, _⟩ := C41_instance (VM := BasicVM) ⟨0⟩ e h2 h3
    (fun c hc => writable_of_lt f1 (h5 c hc)) f1 f2
  refine ⟨u, s', ?_, w2, fun _ => 0, fun b hb => ⟨h6 b ((w3 b).1 hb), fun j hj => by simp at hj⟩, fun a ha => ?_⟩
  · rw [opb2cnf, show opbInOpts 0 = { Options.dflt with firstVarIdx := 0 } from rfl, hr]
    simp only [withRead, h1, w1]
    rfl
  · obtain ⟨b, k1, k2⟩ := h7 a ha
    refine ⟨b, ?_, (w3 b).2 k2, fun j hj => by simp at hj⟩
    rintro v (hv | ⟨o, ho, _⟩)
    · exact k1 v (hk v hv)
    · cases ho

/-- Sanitising, marking further variables as used, and encoding. -/
private theorem sanitized {s d : SatInstance BasicVM} (hk : d.Known) (hd : d.pbs = s.pbs) (hreg : ∀ c ∈ s.pbs, c.Regular) :
    ∃ t, d.sanitize = some t ∧ t.vm = d.vm ∧ ∀ vm : BasicVM, ManageVars.nUsed d.vm ≤ ManageVars.nUsed vm →
      ∃ e, SatInstance.convertToCnf { t with vm := vm } = some e ∧ e.cards = [] ∧ e.pbs = [] ∧
      ManageVars.nUsed d.vm ≤ ManageVars.nUsed e.vm ∧ (∀ c ∈ e.cnf, ∀ l ∈ c, l.var = 0 ∨ l.var < ManageVars.nUsed e.vm) ∧
      (∀ b, e.sat b → d.sat b) ∧ ∀ a, d.sat a → ∃ b, (∀ v, v < ManageVars.nUsed d.vm → b v = a v) ∧ e.sat b := by
  obtain ⟨t, h1, h2, h3⟩ := C16_sanitize_partial d (fun c hc => (hreg c (hd ▸ hc)).wf)
    (fun c hc => eqOk_of_regular (hreg c (hd ▸ hc)))
  obtain ⟨_, h4⟩ := sanitize_vars hk h1
  refine ⟨t, h1, h2, fun vm hvm => ?_⟩
  obtain ⟨e, g1, g2, g3, g4, g5, g6, g7⟩ := convert_any { t with vm := vm } (by
    rcases h4 with h4 | h4
    · exact .inl h4
    · refine .inr ⟨fun v hv => ?_, fun c hc => hreg c (hd ▸ h4.2 c hc)⟩
      have := h4.1 v hv
      rw [h2] at this
      exact Nat.lt_of_lt_of_le this hvm)
  refine ⟨e, g1, g2, g3, Nat.le_trans hvm g4, g5, fun b hb => (h3 b).1 (g6 b hb), fun a ha => ?_⟩
  obtain ⟨b, k1, k2⟩ := g7 a ((h3 a).2 ha)
  exact ⟨b, fun v hv => k1 v (Nat.lt_of_lt_of_le hv hvm), k2⟩

/-- C59: `opb2wcnf` writes a WCNF file with the same optimisation problem. `_partial` as above. -/
theorem C59_opb2wcnf_partial {t : Text} {i : OptInstance BasicVM}
    (hr : OptInstance.fromOpb ⟨0⟩ { Options.dflt with firstVarIdx := 0 } t = .ok i) (hreg : ∀ c ∈ i.constrs.pbs, c.Regular)
    (hfit : ∀ s, i.decompose.1.sanitize = some s → EncodingFits s) (hw : ∀ p ∈ i.obj.iterSoftCls, p.2 ≤ usizeMax) :
    ∃ u i', opb2wcnf 0 false t = .output u ∧ OptInstance.fromDimacs (VM := BasicVM) ⟨0⟩ u = .ok i' ∧
      SameProblem i.constrs [i.obj] i'.constrs [i'.obj] := by
  have hk := readOpbOpt_known hr
  obtain ⟨d1, d2, d3, d4, _⟩ := optDecompose_spec i hk
  obtain ⟨t', h0, hvm, hall⟩ := sanitized (s := i.constrs) d1 rfl hreg
  obtain ⟨e, h1, h2, h3, h4, h5, h6, h7⟩ := hall t'.vm (by rw [hvm])
  obtain ⟨f1, f2⟩ := hfit t' h0 e h1
  obtain ⟨u, i', w1, w2, _, w3, _, _, _, w4⟩ := C42_instance (VM := BasicVM) ⟨0⟩ (OptInstance.compose e i.obj) h2 h3
    (fun c hc => writable_of_lt f1 (h5 c hc))
    (fun p hp => ⟨writable_of_lt f1 fun l hl => .inr (Nat.lt_of_lt_of_le (d3 _ (iterSoftCls_vars p hp l hl)) h4), hw p hp⟩)
  have w3' : ∀ a, i'.constrs.sat a ↔ e.sat a := w3
  have w4' : ∀ a, i'.obj.value a = i.obj.value a - i.obj.offset := w4
  refine ⟨u, i', ?_, w2, fun _ => i.obj.offset, fun b hb => ⟨(d2 b).1 (h6 b ((w3' b).1 hb)), fun j hj => ?_⟩, fun a ha => ?_⟩
  · rw [opb2wcnf, show opbInOpts 0 = { Options.dflt with firstVarIdx := 0 } from rfl, hr]
    simp only [withRead]
    have h0' : (i.decompose).1.sanitize = some t' := h0
    have e2 : i.decompose.2 = i.obj := rfl
    rw [h0']
    have h1' : t'.convertToCnf = some e := h1
    simp only [h1', e2, w1]
    rfl
  · have hj0 : j = 0 := by simp at hj; omega
    subst hj0
    show i.obj.value b ≤ i'.obj.value b + i.obj.offset
    rw [w4' b]; omega
  · obtain ⟨b, k1, k2⟩ := h7 a ((d2 a).2 ha)
    refine ⟨b, ?_, (w3' b).2 k2, fun j hj => ?_⟩
    · rintro v (hv | ⟨o, ho, hv⟩)
      · exact k1 v (Nat.lt_of_lt_of_le (hk v hv) d4)
      · rw [List.mem_singleton] at ho; subst ho; exact k1 v (d3 v hv)
    · have hj0 : j = 0 := by simp at hj; omega
      subst hj0
      show i'.obj.value b + i.obj.offset = i.obj.value a
      rw [w4' b, objValue_congr i.obj fun v hv => k1 v (d3 v hv)]
      omega

/-- C59: `opb2mcnf` writes an MCNF file with the same optimisation problem; objectives at the end that are missing in the
file are constant. `_partial` as above. -/
theorem C59_opb2mcnf_partial {t : Text} {i : MultiOptInstance BasicVM}
    (hr : MultiOptInstance.fromOpb ⟨0⟩ { Options.dflt with firstVarIdx := 0 } t = .ok i)
    (hreg : ∀ c ∈ i.constrs.pbs, c.Regular)
    (hfit : ∀ s, i.decompose.1.sanitize = some s → EncodingFits (MultiOptInstance.compose s i.objs).constrs)
    (hw : ∀ o ∈ i.objs, ∀ p ∈ o.iterSoftCls, p.2 ≤ usizeMax) (hl : i.objs.length ≤ usizeMax) :
    ∃ u i', opb2mcnf 0 false t = .output u ∧ MultiOptInstance.fromDimacs (VM := BasicVM) ⟨0⟩ u = .ok i' ∧
      i'.objs.length ≤ i.objs.length ∧ SameProblem i.constrs i.objs i'.constrs i'.objs := by
  have hk := readOpbMulti_known hr
  obtain ⟨d1, d2, d3, d4, _⟩ := multiDecompose_spec i hk
  obtain ⟨t', h0, hvm, hall⟩ := sanitized (s := i.constrs) d1 rfl hreg
  obtain ⟨e, h1, h2, h3, h4, h5, h6, h7⟩ := hall (i.objs.foldl OptInstance.learnObj t'.vm) (by
    rw [← hvm]; exact (learnObjs_spec i.objs t'.vm).1)
  obtain ⟨f1, f2⟩ := hfit t' h0 e h1
  obtain ⟨u, i', w1, w2, _, w3, _, _, _, w5, _, w4⟩ := C43_instance_partial (VM := BasicVM) ⟨0⟩
    (⟨e, i.objs⟩ : MultiOptInstance BasicVM) h2 h3 (fun c hc => writable_of_lt f1 (h5 c hc))
    (fun o ho p hp => ⟨writable_of_lt f1 fun l hl => .inr (Nat.lt_of_lt_of_le (d3 o ho _ (iterSoftCls_vars p hp l hl)) h4),
      hw o ho p hp⟩) hl
  have w3' : ∀ a, i'.constrs.sat a ↔ e.sat a := w3
  have w4' : ∀ k o, i.objs[k]? = some o → ∀ a, DimacsSpec.objValue i'.objs k a = o.value a - o.offset := w4
  have hget : ∀ j, j < i.objs.length → ∃ o, i.objs[j]? = some o := fun j hj => ⟨_, List.getElem?_eq_getElem hj⟩
  refine ⟨u, i', ?_, w2, w5, fun j => (match i.objs[j]? with | some o => o.offset | none => 0),
    fun b hb => ⟨(d2 b).1 (h6 b ((w3' b).1 hb)), fun j hj => ?_⟩, fun a ha => ?_⟩
  · rw [opb2mcnf, show opbInOpts 0 = { Options.dflt with firstVarIdx := 0 } from rfl, hr]
    simp only [withRead]
    have h0' : (i.decompose).1.sanitize = some t' := h0
    have h1' : (MultiOptInstance.compose t' i.decompose.2).constrs.convertToCnf = some e := h1
    rw [h0']
    simp only [h1']
    have w1' : MultiOptInstance.writeDimacs { MultiOptInstance.compose t' i.decompose.2 with constrs := e } = .ok u := w1
    rw [w1']
    rfl
  · obtain ⟨o, ho⟩ := hget j hj
    rw [objValue_some ho, w4' j o ho b]
    simp only [ho]
    omega
  · obtain ⟨b, k1, k2⟩ := h7 a ((d2 a).2 ha)
    refine ⟨b, ?_, (w3' b).2 k2, fun j hj => ?_⟩
    · rintro v (hv | ⟨o, ho, hv⟩)
      · exact k1 v (Nat.lt_of_lt_of_le (hk v hv) d4)
      · exact k1 v (d3 o ho v hv)
    · obtain ⟨o, ho⟩ := hget j hj
      rw [objValue_some ho, w4' j o ho b]
      simp only [ho]
      rw [objValue_congr o fun v hv => k1 v (d3 o (List.mem_of_getElem? ho) v hv)]
      omega

/-! ### Printing -/

/-- Lines that are ignored by readers of DIMACS files. -/
def CommentLines (t : Text) : Prop := ∃ ls, t = unlines ls ∧ ∀ l ∈ ls, ∃ r, l = "c ".toList ++ r ∧ '\n' ∉ r

theorem showNat_line (n : Nat) (t : Text) (h : '\n' ∉ t) : '\n' ∉ Text.showNat n ++ t := by
  rw [List.mem_append, not_or]
  refine ⟨fun hc => ?_, h⟩
  have := Text.isDigit_showNat n _ hc
  revert this; decide

theorem countLines_comments (s : SatInstance BasicVM) : CommentLines (countLines "c ".toList s) := by
  refine ⟨_, rfl, ?_⟩
  intro l hl
  simp only [List.mem_cons, List.not_mem_nil, or_false] at hl
  rcases hl with rfl | rfl | rfl
  · exact ⟨_, List.append_assoc _ _ _, showNat_line _ _ (by decide)⟩
  · exact ⟨_, List.append_assoc _ _ _, showNat_line _ _ (by decide)⟩
  · exact ⟨_, List.append_assoc _ _ _, showNat_line _ _ (by decide)⟩

/-- What is done with the instance that was read yields an output only if the instance was read. -/
theorem withRead_output {ε α : Type} {x : Res ε α} {f : α → ToolResult} {u : Text} (h : withRead x f = .output u) :
    ∃ a, x = .ok a ∧ f a = .output u := by
  cases x with
  | ok a => exact ⟨a, rfl, h⟩
  | err _ => cases h
  | panic => cases h

/-- C59: without an output file, `opb2wcnf` prints what it would write to the file after comment lines. -/
theorem C59_opb2wcnf_printed {first : Nat} {t u : Text} (h : opb2wcnf first false t = .output u) :
    ∃ c, CommentLines c ∧ opb2wcnf first true t = .output (c ++ u) := by
  unfold opb2wcnf at h ⊢
  obtain ⟨inst, e, h⟩ := withRead_output h
  rw [e]
  simp only [withRead] at h ⊢
  cases h1 : inst.decompose.1.sanitize with
  | none => rw [h1] at h; cases h
  | some s =>
    rw [h1] at h
    simp only at h ⊢
    cases h2 : s.convertToCnf with
    | none => rw [h2] at h; cases h
    | some s' =>
      rw [h2] at h
      simp only at h ⊢
      generalize (OptInstance.compose s' inst.decompose.2).writeDimacs = r at h ⊢
      cases r with
      | ok out =>
        injection h with h
        have h' : out = u := h
        subst h'
        exact ⟨_, countLines_comments s, rfl⟩
      | err _ => cases h
      | panic => cases h

/-- C59: without an output file, `opb2mcnf` prints what it would write to the file after comment lines. -/
theorem C59_opb2mcnf_printed {first : Nat} {t u : Text} (h : opb2mcnf first false t = .output u) :
    ∃ c, CommentLines c ∧ opb2mcnf first true t = .output (c ++ u) := by
  unfold opb2mcnf at h ⊢
  obtain ⟨inst, e, h⟩ := withRead_output h
  rw [e]
  simp only [withRead] at h ⊢
  cases h1 : inst.decompose.1.sanitize with
  | none => rw [h1] at h; cases h
  | some s =>
    rw [h1] at h
    simp only at h ⊢
    cases h2 : (MultiOptInstance.compose s inst.decompose.2).constrs.convertToCnf with
    | none => rw [h2] at h; cases h
    | some s' =>
      rw [h2] at h
      simp only at h ⊢
      generalize ({ MultiOptInstance.compose s inst.decompose.2 with constrs := s' } : MultiOptInstance BasicVM).writeDimacs = r at h ⊢
      cases r with
      | ok out =>
        injection h with h
        have h' : out = u := h
        subst h'
        refine ⟨_, ?_, rfl⟩
        obtain ⟨ls, e1, e2⟩ := countLines_comments s
        refine ⟨ls ++ ["c ".toList ++ Text.showNat inst.decompose.2.length ++ " objectives".toList], ?_, ?_⟩
        · rw [unlines_append, e1]
        · intro l hl
          rcases List.mem_append.1 hl with hl | hl
          · exact e2 l hl
          · rw [List.mem_singleton] at hl
            rw [hl]
            exact ⟨_, List.append_assoc _ _ _, showNat_line _ _ (by decide)⟩
      | err _ => cases h
      | panic => cases h

/-! ### Examples -/

set_option maxRecDepth 4000 in
/-- `wcnf2opb` on a file with a hard and two soft clauses: a relaxation variable is added for the longer one. -/
example : wcnf2opb Options.dflt "h 1 2 0\n3 -1 -2 0\n1 -2 0\n".toList = .output
    ("* #variable = 3 #constraint= 2\n* OPB file written by RustSAT\n* maximum variable: x2\n".toList ++
    "* 2 original hard clauses\n* 0 cardinality constraints\n* 0 pseudo-boolean constraints\n".toList ++
    "min: 1 x2 3 x3;\n1 x1 1 x2 >= 1;\n-1 x1 -1 x2 1 x3 >= -1;\n".toList) := by rfl

/-- This file meets the hypotheses of `C59_wcnf2opb`. -/
example : ∃ i, OptInstance.fromDimacs (VM := BasicVM) ⟨0⟩ "h 1 2 0\n3 -1 -2 0\n1 -2 0\n".toList = .ok i ∧
    HardenFits 1 2 i.constrs [i.obj] := by
  refine ⟨⟨⟨[[Lit.pos 0, Lit.pos 1]], [], [], ⟨2⟩⟩, .weighted 0 [(Lit.pos 1, 1)] [([Lit.negOf 0, Lit.negOf 1], 3)]⟩, by rfl, ?_⟩
  refine ⟨⟨by decide, ?_⟩, by decide, ?_, ?_, ?_⟩
  · intro o ho v hv
    rw [List.mem_singleton] at ho; subst ho
    rcases hv with ⟨p, hp, rfl⟩ | ⟨p, hp, l, hl, rfl⟩
    · simp at hp; subst hp; simp
    · simp at hp; subst hp; simp at hl; rcases hl with rfl | rfl <;> simp
  · intro c hc; rw [List.mem_singleton] at hc; subst hc; decide
  · intro o ho c hc
    rw [List.mem_singleton] at ho; subst ho
    obtain ⟨p, hp, rfl⟩ := hc
    simp at hp; subst hp; decide
  · intro o ho; rw [List.mem_singleton] at ho; subst ho; decide

/-- `opb2wcnf` on a file with an equality that is not a clause or cardinality constraint. -/
example : ∃ u, opb2wcnf 0 false "min: 1 x0;\n2 x0 2 x1 1 x2 = 3;\n".toList = .output u := ⟨_, rfl⟩

/-! ### Violations -/

/-- C59 is violated: `--first-var-idx 1`, the default, is ignored by `opb2cnf`. The file asks for the first variable to be
true, the result for the second. -/
theorem C59_violated_first_var_idx : ∃ t s u s', SatInstance.fromOpb (VM := BasicVM) ⟨0⟩ { Options.dflt with firstVarIdx := 1 } t = .ok s ∧
    opb2cnf 1 false t = .output u ∧ SatInstance.fromDimacs (VM := BasicVM) ⟨0⟩ u = .ok s' ∧ ¬ SameProblem s [] s' [] := by
  refine ⟨"1 x1 >= 1;\n".toList, ⟨[], [], [.lb [(Lit.pos 0, 1)] 1 1], ⟨1⟩⟩, "c CNF file written by RustSAT\np cnf 2 1\n2 0\n".toList,
    ⟨[[Lit.pos 1]], [], [], ⟨2⟩⟩, by rfl, by rfl, by rfl, ?_⟩
  rintro ⟨k, h, _⟩
  have h1 := (h (fun v => v == 1) ⟨?_, ?_, ?_⟩).1
  · have := h1.2.2 _ (List.mem_singleton.2 rfl)
    revert this
    show ¬ ((1 : Int) ≤ 0)
    decide
  · intro c hc
    rw [List.mem_singleton] at hc; subst hc
    exact ⟨Lit.pos 1, by simp, by simp⟩
  · intro c hc; cases hc
  · intro c hc; cases hc

/-- C59 is violated: without an output file, `opb2cnf` prints lines that are not comments before the CNF file. -/
theorem C59_violated_stdout : ∃ t u, opb2cnf 0 true t = .output u ∧
    SatInstance.fromDimacs (VM := BasicVM) ⟨0⟩ u = .err .parsing :=
  ⟨"1 x0 >= 1;\n".toList, "0 clauses\n0 cards\n1 pbs\nc CNF file written by RustSAT\np cnf 1 1\n1 0\n".toList, by rfl, by rfl⟩

/-- C59 is violated: `opb2wcnf` panics on an equality whose weight does not divide the bound, which has no solution. -/
theorem C59_violated_panic : opb2wcnf 0 false "min: 1 x0;\n2 x0 2 x1 2 x2 = 3;\n".toList = .panic := by rfl

end RustSat
