import Verif.Lemmas.Opb3

/-
C44 and C45: OPB files.

The text-level specification (`Verif.Spec.Opb`) says what an OPB file looks like: statements `sum op b` and
`min: sum`/`max: sum` with arbitrary spaces, optional signs, several statements on a line, comments, blank lines and
both kinds of line breaks. `isum` is the value of a sum under an assignment.
-/

namespace RustSat
open Text P Opb OpbSpec DimacsSpec Dimacs

variable {VM : Type} [ManageVars VM] [LawfulVM VM]

/-! ### C45 -/

/-- C45: a file in which `<` does not occur is read, every constraint read has exactly the satisfying assignments of
the relation in the file, and every objective read has the value of the sum in the file. Missing: `<`, see
`C45_violated_lt`; numbers at the end of the machine range, see `C45_violated_panic`. -/
theorem C45_layout_partial {opts : Options} {sts : List Stmt} {t : Text} (h : FileText opts.firstVarIdx sts t)
    (hn : ∀ st ∈ sts, NoLt st) (hf : ∀ st ∈ sts, Fits st) :
    ∃ ds, items opts t = ds.map .ok ∧ AllMean sts ds := by
  obtain ⟨ds, hr, e⟩ := items_ok h fun st hst => (hf st hst).parsed
  exact ⟨ds, e, hr.means hn⟩

private theorem known_new (vm : VM) : SatInstance.Known { cnf := [], cards := [], pbs := [], vm := vm } := by
  intro v hv
  rcases hv with ⟨c, hc, _⟩ | ⟨c, hc, _⟩ | ⟨c, hc, _⟩ <;> cases hc

private theorem sat_new (vm : VM) (a : Asg) : SatInstance.sat a { cnf := [], cards := [], pbs := [], vm := vm } :=
  ⟨fun c hc => (nomatch hc), fun c hc => (nomatch hc), fun c hc => (nomatch hc)⟩

/-- C45: a file of constraints becomes an instance with exactly the satisfying assignments of the file. -/
theorem C45_sat_instance_partial (dflt : VM) {opts : Options} {sts : List Stmt} {t : Text}
    (h : FileText opts.firstVarIdx sts t) (hn : ∀ st ∈ sts, NoLt st) (hf : ∀ st ∈ sts, Fits st)
    (ho : objectives sts = []) :
    ∃ s, SatInstance.fromOpb dflt opts t = .ok s ∧ s.Known ∧ ∀ a, s.sat a ↔ stmtsSat a sts := by
  obtain ⟨ds, e, hm⟩ := C45_layout_partial h hn hf
  obtain ⟨s, h1, h2, h3⟩ := satLoop_ok hm (objectives_constr.mp ho) { cnf := [], cards := [], pbs := [], vm := dflt }
    (known_new dflt)
  refine ⟨s, by rw [SatInstance.fromOpb, e, h1], h2, fun a => ?_⟩
  rw [h3 a]
  exact ⟨fun h => h.2, fun h => ⟨sat_new dflt a, h⟩⟩

/-- C45: a file with an objective is not accepted as a decision instance. -/
theorem C45_sat_objective (dflt : VM) {opts : Options} {sts : List Stmt} {t : Text}
    (h : FileText opts.firstVarIdx sts t) (hn : ∀ st ∈ sts, NoLt st) (hf : ∀ st ∈ sts, Fits st)
    (ho : objectives sts ≠ []) : SatInstance.fromOpb dflt opts t = .err .objInSat := by
  obtain ⟨ds, e, hm⟩ := C45_layout_partial h hn hf
  rw [SatInstance.fromOpb, e]
  refine satLoop_obj hm ?_ _
  by_cases hc : ∃ st ∈ sts, isConstr st = false
  · exact hc
  · refine absurd (objectives_constr.mpr fun st hst => ?_) ho
    cases hb : isConstr st with
    | true => rfl
    | false => exact absurd ⟨st, hst, hb⟩ hc

/-- C45: a file with one objective becomes an optimisation instance with the same solutions and objective. -/
theorem C45_opt_instance_partial (dflt : VM) {opts : Options} {sts : List Stmt} {t : Text} {se : Sense}
    {sum : List (Lit × Int)} (h : FileText opts.firstVarIdx sts t) (hn : ∀ st ∈ sts, NoLt st) (hf : ∀ st ∈ sts, Fits st)
    (ho : objectives sts = [(se, sum)]) :
    ∃ i, OptInstance.fromOpb dflt opts t = .ok i ∧ i.constrs.Known ∧ i.obj.WF ∧
      (∀ v, i.obj.hasVar v → v < ManageVars.nUsed i.constrs.vm) ∧ (∀ a, i.constrs.sat a ↔ stmtsSat a sts) ∧
      ObjMeans se sum i.obj := by
  obtain ⟨ds, hr, e⟩ := items_ok h fun st hst => (hf st hst).parsed
  obtain ⟨s, r, h1, h2, h3, h4⟩ := optLoop_one hr hn ho { cnf := [], cards := [], pbs := [], vm := dflt } (known_new dflt)
  have hmem : Stmt.obj se sum ∈ sts := by
    clear h hn hf hr h4
    induction sts with
    | nil => cases ho
    | cons st sts ih =>
      cases st with
      | constr _ _ _ => exact List.mem_cons_of_mem _ (ih ho)
      | obj se' sum' =>
        simp only [objectives, List.cons.injEq, Prod.mk.injEq] at ho
        obtain ⟨⟨e1, e2⟩, _⟩ := ho
        subst e1; subst e2
        exact List.mem_cons_self
  obtain ⟨o, h5, h6, h7⟩ := toObjective_ok (hf _ hmem) h1
  have hl := learnObj_spec s.vm o
  refine ⟨OptInstance.compose s o, ?_, known_vm h3 hl.1, h6, hl.2, fun a => ?_, h7⟩
  · rw [OptInstance.fromOpb, e, h2, OptInstance.opbLoop, h5]
  · refine (h4 a).trans ?_
    exact ⟨fun h => h.2, fun h => ⟨sat_new dflt a, h⟩⟩

/-- C45: an optimisation instance is only built from exactly one objective. -/
theorem C45_opt_number (dflt : VM) {opts : Options} {sts : List Stmt} {t : Text}
    (h : FileText opts.firstVarIdx sts t) (hn : ∀ st ∈ sts, NoLt st) (hf : ∀ st ∈ sts, Fits st) :
    (objectives sts = [] → OptInstance.fromOpb dflt opts t = .err .noObjective) ∧
    (2 ≤ (objectives sts).length → OptInstance.fromOpb dflt opts t = .err .multipleObjectives) := by
  obtain ⟨ds, hr, e⟩ := items_ok h fun st hst => (hf st hst).parsed
  rw [OptInstance.fromOpb, e]
  exact ⟨fun ho => optLoop_none hr hn ho _, fun ho => optLoop_many hr hn none (by simpa using ho) (fun h => nomatch h) _⟩

/-- C45: a file with any number of objectives becomes a multi-objective instance with the same solutions and
objectives, in their order. -/
theorem C45_multi_instance_partial (dflt : VM) {opts : Options} {sts : List Stmt} {t : Text}
    (h : FileText opts.firstVarIdx sts t) (hn : ∀ st ∈ sts, NoLt st) (hf : ∀ st ∈ sts, Fits st) :
    ∃ i, MultiOptInstance.fromOpb dflt opts t = .ok i ∧ i.constrs.Known ∧ (∀ a, i.constrs.sat a ↔ stmtsSat a sts) ∧
      ObjsMean (objectives sts) i.objs := by
  obtain ⟨ds, hr, e⟩ := items_ok h fun st hst => (hf st hst).parsed
  obtain ⟨s, os, h1, h2, h3, h4⟩ := multiLoop_ok hr hn hf { cnf := [], cards := [], pbs := [], vm := dflt } []
    (known_new dflt)
  refine ⟨_, by rw [MultiOptInstance.fromOpb, e, h1], h2, fun a => ?_, h3⟩
  refine (h4 a).trans ?_
  exact ⟨fun h => h.2, fun h => ⟨sat_new dflt a, h⟩⟩

/-- C45: minimising the objective read is equivalent to what the file asks for: assignments are ordered by the
objective exactly as by the sum (minimisation) or in the opposite order (maximisation). -/
theorem C45_same_order {se : Sense} {sum : List (Lit × Int)} {o : Objective} (h : ObjMeans se sum o) (a b : Asg) :
    o.value a ≤ o.value b ↔
      match se with | .minimize => isum a sum ≤ isum b sum | .maximize => isum b sum ≤ isum a sum := by
  cases se with
  | minimize =>
    have h' : ∀ a, o.value a = isum a sum := h
    rw [h' a, h' b]
  | maximize =>
    have h' : ∀ a, o.value a = 2 * negSum sum - isum a sum := h
    rw [h' a, h' b]
    constructor <;> intro h <;> omega

/-! A file with a comment, a maximisation objective, two statements on a line, signs, both negations, odd spacing, a
blank line, a carriage return and a last line without an ending. -/

private def xs : Lit := Lit.pos 0
private def ys : Lit := Lit.pos 1

private def exText : Text := "* note\nmax: 2 x1  -1 ~x2;\n 1 x1 +1 x2>=1;-2 -x1 = 0 ;\r\n\t\n>= -1".toList

private def exStmts : List Stmt :=
  [.obj .maximize [(xs, 2), (ys.neg, -1)], .constr [(xs, 1), (ys, 1)] .ge 1, .constr [(xs.neg, -2)] .eq 0,
    .constr [] .ge (-1)]

set_option maxRecDepth 4000 in
private theorem exFile : FileText 1 exStmts exText := by
  have sep : Sep [' '] := ⟨by decide, by decide⟩
  have r1 : InRange 1 := by decide
  refine FileText.line (w := []) (t := "* note".toList) (sts := []) (by decide) (by decide)
    (.comment (t := " note".toList) (by decide) (by decide)) ?_
  refine FileText.line (w := []) (t := "max: 2 x1  -1 ~x2".toList ++ ([] ++ ';' :: [])) (sts := [_]) (by decide) (by decide)
    (.semi (.max (s := [' ']) (t := "2".toList ++ ([' '] ++ ("x1".toList ++ ([' ', ' '] ++ ("-1".toList ++ ([' '] ++ "~x2".toList))))))
      (by decide) (.cons (by decide) .plain sep (.pos (v := 0) (by decide) (by decide)) ⟨by decide, by decide⟩
        (.one (by decide) .plain sep (.tilde (v := 1) (by decide) (by decide))))) (by decide) (by decide)) ?_
  refine FileText.lineCr (w := [' ']) (t := "1 x1 +1 x2>=1".toList ++ ([] ++ ';' :: ([] ++ ("-2 -x1 = 0".toList ++ ([' '] ++ ';' :: [])))))
    (sts := [_, _]) (by decide) (by decide)
    (.cons (.constr (op := .ge) (s := []) (s' := [])
        (t := "1".toList ++ ([' '] ++ ("x1".toList ++ ([' '] ++ ("+1".toList ++ ([' '] ++ "x2".toList))))))
        (.cons r1 .plain sep (.pos (v := 0) (by decide) (by decide)) sep
          (.one r1 (.plus (by decide)) sep (.pos (v := 1) (by decide) (by decide)))) (by decide) (by decide) (by decide) r1 .plain)
      (by decide) (by decide)
      (.semi (.constr (op := .eq) (s := [' ']) (s' := [' ']) (t := "-2".toList ++ ([' '] ++ "-x1".toList))
        (.one (by decide) .plain sep (.minus (v := 0) (by decide) (by decide))) (by decide) (by decide) (by decide) (by decide)
        .plain) (by decide) (by decide))) ?_
  refine FileText.blank (w := ['\t']) (by decide) (by decide) ?_
  exact FileText.lastLine (w := []) (t := ">= -1".toList ++ []) (by decide) (by decide)
    (.last (.constr (op := .ge) (t := []) (s := []) (s' := [' ']) .nil (by decide) (by decide) (by decide) (by decide) .plain)
      (by decide))

private theorem exNoLt : ∀ st ∈ exStmts, NoLt st := by
  intro st hst
  simp only [exStmts, List.mem_cons, List.not_mem_nil, or_false] at hst
  rcases hst with e | e | e | e <;> subst e <;> simp [NoLt]

private theorem exFits : ∀ st ∈ exStmts, Fits st := by
  intro st hst
  simp only [exStmts, List.mem_cons, List.not_mem_nil, or_false] at hst
  rcases hst with e | e | e | e <;> subst e <;> simp [Fits]
  exact ⟨by decide, by decide⟩

example := C45_layout_partial (opts := Options.dflt) exFile exNoLt exFits
example := C45_sat_objective (VM := BasicVM) ⟨0⟩ (opts := Options.dflt) exFile exNoLt exFits (by decide)
example := C45_opt_instance_partial (VM := BasicVM) ⟨0⟩ (opts := Options.dflt) exFile exNoLt exFits rfl
example := C45_opt_number (VM := BasicVM) ⟨0⟩ (opts := Options.dflt) exFile exNoLt exFits
example := C45_multi_instance_partial (VM := BasicVM) ⟨0⟩ (opts := Options.dflt) exFile exNoLt exFits

/-- C45 is violated for `<`: `1 x1 < 1` is read as a constraint that `x1 = 1` satisfies (opb.rs l.376). -/
theorem C45_violated_lt :
    StmtText 1 (.constr [(Lit.pos 0, 1)] .lt 1) "1 x1 < 1".toList ∧
    ∃ c, items Options.dflt "1 x1 < 1;\n".toList = [.ok (.constr c)] ∧
      ¬ ∀ a, c.sat a ↔ rel .lt (isum a [(Lit.pos 0, 1)]) 1 := by
  refine ⟨.constr (op := .lt) (s := [' ']) (s' := [' ']) (t := "1".toList ++ ([' '] ++ "x1".toList))
        (.one (by decide) .plain ⟨by decide, by decide⟩ (.pos (v := 0) (by decide) (by decide))) (by decide) (by decide)
        (by decide) (by decide) .plain, ?_⟩
  refine ⟨.ub [(Lit.pos 0, 1)] 1 2, rfl, fun h => ?_⟩
  have := (h fun _ => true).mp (by show ((1 : Nat) : Int) ≤ 2; decide)
  revert this
  show ¬ ((1 : Int) < 1)
  decide

/-- C45 is violated for objectives to be maximised: the cost of a solution of `max: -1 x1` with `x1 = 1` should be 1,
the negated value of the sum, but is -1 (opt.rs l.1612). -/
theorem C45_violated_max_offset :
    ∃ i, OptInstance.fromOpb (VM := BasicVM) ⟨0⟩ Options.dflt "max: -1 x1;\n".toList = .ok i ∧
      i.obj.value (fun _ => true) = -1 ∧ isum (fun _ => true) [(Lit.pos 0, -1)] = -1 :=
  ⟨_, rfl, rfl, rfl⟩

set_option maxRecDepth 4000 in
/-- C45 is violated by numbers at the end of the machine range: the parser panics instead of reporting an error. -/
theorem C45_violated_panic :
    items Options.dflt "1 x4294967295 >= 1;\n".toList = [.panic] ∧
    items Options.dflt "1 x1 > 9223372036854775807;\n".toList = [.panic] :=
  ⟨rfl, rfl⟩

/-! ### C44 -/

/-- C44: an instance written as an OPB file is read back as an instance with the same satisfying assignments, with or
without negated literals and for every numbering of the variables. -/
theorem C44_sat_instance (dflt : VM) (s : SatInstance VM) {opts opts' : Options}
    (hfirst : opts'.firstVarIdx = opts.firstVarIdx) (h : InstanceFits opts.firstVarIdx s) :
    ∃ t s', s.writeOpb opts = some t ∧ SatInstance.fromOpb dflt opts' t = .ok s' ∧ s'.Known ∧ ∀ a, s'.sat a ↔ s.sat a := by
  obtain ⟨t, e, ht⟩ := writeSat_ok h
  obtain ⟨s', h1, h2, h3⟩ := C45_sat_instance_partial dflt (opts := opts') (hfirst ▸ ht) (fun st hst => (body_noLt st hst).1)
    (fun st hst => (body_noLt st hst).2.1) (objectives_constr.mpr fun st hst => (body_noLt st hst).2.2)
  exact ⟨t, s', e, h1, h2, fun a => (h3 a).trans (body_sat opts s a)⟩

/-- C44: an objective without soft clauses is written with its constraints and read back up to a constant, which is
written into the file as a comment. -/
theorem C44_opt_instance (dflt : VM) (i : OptInstance VM) {opts opts' : Options} {ls : List (Lit × Nat)}
    (hfirst : opts'.firstVarIdx = opts.firstVarIdx) (h : InstanceFits opts.firstVarIdx i.constrs)
    (hl : i.obj.iterSoftLits = some ls) (hs : SoftFits opts.firstVarIdx ls i.obj.offset) :
    ∃ t i' k, i.writeOpb opts = .ok t ∧ OptInstance.fromOpb dflt opts' t = .ok i' ∧ i'.constrs.Known ∧ i'.obj.WF ∧
      (∀ v, i'.obj.hasVar v → v < ManageVars.nUsed i'.constrs.vm) ∧ (∀ a, i'.constrs.sat a ↔ i.constrs.sat a) ∧
      (∃ p q, t = p ++ offsetComment k ++ q) ∧ ∀ a, i.obj.value a = i'.obj.value a + k := by
  obtain ⟨T, e, hT⟩ := body_ok h
  obtain ⟨u, hu, eo⟩ := writeObjective_ok hs
  have hO := (adds_stmt hu).append (adds_offset opts.firstVarIdx (i.obj.offset + (shift opts ls : Nat)))
  have hp := adds_unlines (first := opts.firstVarIdx)
    (preamble_ok i.constrs (w := " original hard clauses".toList) ⟨by decide, by decide⟩)
  have hfile := (hp.append (hO.append hT)).file
  have hst : [] ++ (([objStmt opts ls] ++ []) ++ bodyStmts opts i.constrs) = objStmt opts ls :: bodyStmts opts i.constrs := rfl
  rw [hst] at hfile
  have ho : objectives (objStmt opts ls :: bodyStmts opts i.constrs) = [(.minimize, ls.map (sgn opts))] := by
    rw [objStmt, objectives, objectives_constr.mpr fun st hst => (body_noLt st hst).2.2]
  have hn : ∀ st ∈ objStmt opts ls :: bodyStmts opts i.constrs, NoLt st ∧ Fits st := by
    intro st hst
    cases hst with
    | head => exact ⟨trivial, objStmt_fits hs⟩
    | tail _ hst => exact ⟨(body_noLt st hst).1, (body_noLt st hst).2.1⟩
  obtain ⟨i', h1, h2, h3, h4, h5, h6⟩ := C45_opt_instance_partial dflt (opts := opts') (hfirst ▸ hfile)
    (fun st hst => (hn st hst).1) (fun st hst => (hn st hst).2) ho
  refine ⟨_, i', i.obj.offset + (shift opts ls : Nat), ?_, h1, h2, h3, h4, fun a => ?_, ?_, fun a => ?_⟩
  · rw [OptInstance.writeOpb, hl]
    simp only [eo, e, andThen, prefixed, writtenOpb]
    simp
  · rw [h5 a, objStmt, stmtsSat_obj, body_sat]
  · exact ⟨unlines (i.constrs.opbPreamble " original hard clauses".toList) ++ (u ++ [';', '\n']), T, by simp⟩
  · have h6' : ∀ a, i'.obj.value a = isum a (ls.map (sgn opts)) := h6
    rw [iterSoftLits_value hl, h6' a, isum_sgn]
    omega

omit [LawfulVM VM] in
/-- C44: an objective with soft clauses is not written. -/
theorem C44_soft_clauses (i : OptInstance VM) (opts : Options) (h : 0 < i.obj.nClauses) :
    i.writeOpb opts = .err .requiresSoftLits := by
  have e : i.obj.iterSoftLits = none := by
    unfold Objective.iterSoftLits
    rw [if_pos h]
  rw [OptInstance.writeOpb, e]

private theorem softLits_spec {os : List Objective} {r : List (List (Lit × Nat) × Int)}
    (h : MultiOptInstance.softLits os = some r) :
    r.length = os.length ∧ ∀ (k : Nat) o, os[k]? = some o → ∃ ls, r[k]? = some (ls, o.offset) ∧ o.iterSoftLits = some ls := by
  induction os generalizing r with
  | nil => cases h; exact ⟨rfl, fun k o h => by simp at h⟩
  | cons o os ih =>
    rw [MultiOptInstance.softLits] at h
    cases h1 : o.iterSoftLits with
    | none => simp [h1] at h
    | some ls =>
      cases h2 : MultiOptInstance.softLits os with
      | none => simp [h1, h2] at h
      | some r' =>
        simp only [h1, h2, Option.some.injEq] at h
        subst h
        obtain ⟨h3, h4⟩ := ih h2
        refine ⟨by simp [h3], fun k o' hk => ?_⟩
        cases k with
        | zero => simp at hk; subst hk; exact ⟨ls, rfl, h1⟩
        | succ k => exact h4 k o' hk

/-- C44: the same for instances with several objectives; the constants are written as comments. -/
theorem C44_multi_instance (dflt : VM) (i : MultiOptInstance VM) {opts opts' : Options}
    {sl : List (List (Lit × Nat) × Int)} (hfirst : opts'.firstVarIdx = opts.firstVarIdx)
    (h : InstanceFits opts.firstVarIdx i.constrs) (hl : MultiOptInstance.softLits i.objs = some sl)
    (hs : ∀ p ∈ sl, SoftFits opts.firstVarIdx p.1 p.2) :
    ∃ t i', i.writeOpb opts = .ok t ∧ MultiOptInstance.fromOpb dflt opts' t = .ok i' ∧ i'.constrs.Known ∧
      (∀ a, i'.constrs.sat a ↔ i.constrs.sat a) ∧ i'.objs.length = i.objs.length ∧
      ∀ (k : Nat) o, i.objs[k]? = some o → ∃ o' c, i'.objs[k]? = some o' ∧ o'.WF ∧ ∀ a, o.value a = o'.value a + c := by
  obtain ⟨T, e, hT⟩ := body_ok h
  obtain ⟨T2, e2, hT2⟩ := adds_writeAll (fun p : List (Lit × Nat) × Int => [objStmt opts p.1]) fun p hp =>
    writeObjective_adds (hs p hp)
  have hp := adds_unlines (first := opts.firstVarIdx)
    (ls := i.constrs.opbPreamble " original hard clauses".toList ++ ["* ( ) relaxed and hardened soft clauses".toList]) (by
      intro l hl
      rcases List.mem_append.mp hl with hl | hl
      · exact preamble_ok i.constrs (w := " original hard clauses".toList) ⟨by decide, by decide⟩ l hl
      · rw [List.mem_singleton] at hl
        subst hl
        exact ⟨" ( ) relaxed and hardened soft clauses".toList, rfl, by decide, by decide⟩)
  have hfile := (hp.append (hT2.append hT)).file
  rw [List.nil_append] at hfile
  have hobj : ∀ l : List (List (Lit × Nat) × Int),
      objectives (l.flatMap fun p => [objStmt opts p.1]) = (l.map Prod.fst).map fun ls => (.minimize, ls.map (sgn opts)) := by
    intro l
    induction l with
    | nil => rfl
    | cons p l ih => rw [List.flatMap_cons, objectives_append, ih]; rfl
  have hsat : ∀ a, stmtsSat a (sl.flatMap fun p => [objStmt opts p.1]) := by
    intro a
    rw [stmtsSat_iff]
    intro st hst
    obtain ⟨p, _, hst⟩ := List.mem_flatMap.mp hst
    rw [List.mem_singleton] at hst
    subst hst
    trivial
  have hn : ∀ st ∈ (sl.flatMap fun p => [objStmt opts p.1]) ++ bodyStmts opts i.constrs, NoLt st ∧ Fits st := by
    intro st hst
    rcases List.mem_append.mp hst with hst | hst
    · obtain ⟨p, hp, hst⟩ := List.mem_flatMap.mp hst
      rw [List.mem_singleton] at hst
      subst hst
      exact ⟨trivial, objStmt_fits (hs p hp)⟩
    · exact ⟨(body_noLt st hst).1, (body_noLt st hst).2.1⟩
  obtain ⟨i', h1, h2, h3, h4⟩ := C45_multi_instance_partial dflt (opts := opts') (hfirst ▸ hfile)
    (fun st hst => (hn st hst).1) (fun st hst => (hn st hst).2)
  rw [objectives_append, hobj, objectives_constr.mpr fun st hst => (body_noLt (s := i.constrs) st hst).2.2,
    List.append_nil] at h4
  obtain ⟨h5, h6⟩ := objs_written h4
  obtain ⟨h7, h8⟩ := softLits_spec hl
  refine ⟨_, i', ?_, h1, h2, fun a => ?_, by rw [h5, List.length_map, h7], fun k o hk => ?_⟩
  · rw [MultiOptInstance.writeOpb, hl]
    simp only [e2, e, andThen, prefixed, writtenOpb]
  · rw [h3 a, stmtsSat_append, body_sat]
    exact ⟨fun h => h.2, fun h => ⟨hsat a, h⟩⟩
  · obtain ⟨ls, h9, h10⟩ := h8 k o hk
    obtain ⟨o', h11, h12, h13⟩ := h6 k ls (by rw [List.getElem?_map, h9]; rfl)
    refine ⟨o', o.offset + (shift opts ls : Nat), h11, h12, fun a => ?_⟩
    rw [iterSoftLits_value h10, h13 a]
    omega

/-- C44: files written line by line. -/
theorem C44_write_lines (dflt : VM) (ls : List FileLine) {opts opts' : Options}
    (hfirst : opts'.firstVarIdx = opts.firstVarIdx) (h : ∀ l ∈ ls, LineFits opts.firstVarIdx l) :
    ∃ t i, writeLines opts ls = some t ∧ MultiOptInstance.fromOpb dflt opts' t = .ok i ∧ i.constrs.Known ∧
      (∀ a, i.constrs.sat a ↔ ∀ l ∈ ls, lineSat a l) ∧ i.objs.length = (lineObjs ls).length ∧
      ∀ (k : Nat) o, (lineObjs ls)[k]? = some o →
        ∃ o' c, i.objs[k]? = some o' ∧ o'.WF ∧ ∀ a, (wsum a o : Int) = o'.value a + c := by
  let g : FileLine → List Stmt := fun l =>
    match l with
    | .comment _ => []
    | .clause c => [clauseStmt opts c]
    | .card c => [cardStmt opts c]
    | .pb c => [pbStmt opts c]
    | .objective o => [objStmt opts o]
  obtain ⟨T, e, hT⟩ := adds_writeAll (first := opts.firstVarIdx) (f := writeLine opts) g (xs := ls) (by
    intro l hl
    have hf := h l hl
    cases l with
    | comment t => exact ⟨_, rfl, adds_comment (noBreak_cons (by decide) hf)⟩
    | clause c => exact writeClause_ok hf
    | card c => exact writeCard_ok hf
    | pb c => exact writePb_ok hf
    | objective o => exact writeObjective_adds hf)
  have hobj : ∀ ls, objectives (ls.flatMap g) = (lineObjs ls).map fun l => (.minimize, l.map (sgn opts)) := by
    intro ls
    induction ls with
    | nil => rfl
    | cons l ls ih =>
      rw [List.flatMap_cons, objectives_append, ih]
      cases l with
      | comment t => rfl
      | clause c => rfl
      | card c => cases c <;> rfl
      | pb c => cases c <;> rfl
      | objective o => rfl
  have hn : ∀ st ∈ ls.flatMap g, NoLt st ∧ Fits st := by
    intro st hst
    obtain ⟨l, hl, hst⟩ := List.mem_flatMap.mp hst
    have hf := h l hl
    cases l with
    | comment t => cases hst
    | clause c => cases List.mem_singleton.mp hst; exact ⟨by simp [NoLt, clauseStmt, sumStmt], by simp [Fits, clauseStmt, sumStmt]⟩
    | card c =>
      cases List.mem_singleton.mp hst
      cases c <;> exact ⟨by simp [NoLt, cardStmt, sumStmt], by simp [Fits, cardStmt, sumStmt]⟩
    | pb c =>
      cases List.mem_singleton.mp hst
      cases c <;> exact ⟨by simp [NoLt, pbStmt, sumStmt], by simp [Fits, pbStmt, sumStmt]⟩
    | objective o => cases List.mem_singleton.mp hst; exact ⟨trivial, objStmt_fits hf⟩
  obtain ⟨i, h1, h2, h3, h4⟩ := C45_multi_instance_partial dflt (opts := opts') (hfirst ▸ hT.file)
    (fun st hst => (hn st hst).1) (fun st hst => (hn st hst).2)
  rw [hobj] at h4
  obtain ⟨h5, h6⟩ := objs_written h4
  refine ⟨T, i, e, h1, h2, fun a => ?_, h5, fun k o hk => ?_⟩
  · rw [h3 a, stmtsSat_iff]
    have hls : ∀ l, (∀ st ∈ g l, stmtSat a st) ↔ lineSat a l := by
      intro l
      cases l with
      | comment t => exact ⟨fun _ => trivial, fun _ st hst => nomatch hst⟩
      | clause c => simp only [g, List.mem_singleton, forall_eq]; exact clauseStmt_sat opts c a
      | card c => simp only [g, List.mem_singleton, forall_eq]; exact cardStmt_sat opts c a
      | pb c => simp only [g, List.mem_singleton, forall_eq]; exact pbStmt_sat opts c a
      | objective o => simp only [g, List.mem_singleton, forall_eq]; exact Iff.rfl
    constructor
    · intro hh l hl
      exact (hls l).mp fun st hst => hh st (List.mem_flatMap.mpr ⟨l, hl, hst⟩)
    · intro hh st hst
      obtain ⟨l, hl, hst⟩ := List.mem_flatMap.mp hst
      exact (hls l).mpr (hh l hl) st hst
  · obtain ⟨o', h7, h8, h9⟩ := h6 k o hk
    exact ⟨o', _, h7, h8, h9⟩

/-! An instance with a clause, all kinds of cardinality and PB constraints and negated literals. -/

private def exInst : SatInstance BasicVM :=
  ⟨[[xs, ys.neg]], [.ub [xs, ys.neg] 1, .lb [xs] 0, .eq [ys] 1],
    [.ub [(xs, 3), (ys.neg, 2)] 5 4, .lb [(xs.neg, 3)] 3 (-1), .eq [(ys.neg, 7)] 7 7], ⟨2⟩⟩

private theorem exInstFits (first : Nat) (hf : first ≤ 2147483647) : InstanceFits first exInst := by
  have hx : VarFits first xs := ⟨by decide, by show 0 + first ≤ _; omega⟩
  have hy : VarFits first ys := ⟨by decide, by show 1 + first ≤ _; omega⟩
  have hx' := hx.neg
  have hy' := hy.neg
  refine ⟨fun c hc => ?_, fun c hc => ?_, fun c hc => ?_⟩ <;>
    simp only [exInst, List.mem_cons, List.not_mem_nil, or_false] at hc
  · subst hc
    exact ⟨by simp [hx, hy'], by decide⟩
  · rcases hc with e | e | e <;> subst e
    · exact ⟨by simp [CardConstraint.lits, hx, hy'], by decide⟩
    · exact ⟨by simp [CardConstraint.lits, hx], by decide⟩
    · exact ⟨by simp [CardConstraint.lits, hy], by decide⟩
  · rcases hc with e | e | e <;> subst e
    · exact ⟨by simp [PbConstraint.lits, hx, hy'], by decide⟩
    · exact ⟨by simp [PbConstraint.lits, hx'], by decide⟩
    · exact ⟨by simp [PbConstraint.lits, hy'], by decide⟩

private theorem exSoftFits : SoftFits 1 [(xs.neg, 2), (ys, 5)] (-3) := by
  refine ⟨fun p hp => ?_, by decide⟩
  simp only [List.mem_cons, List.not_mem_nil, or_false] at hp
  rcases hp with e | e <;> subst e <;> decide

example := C44_sat_instance (VM := BasicVM) ⟨0⟩ exInst (opts := ⟨0, false⟩) (opts' := ⟨0, true⟩) rfl (exInstFits 0 (by decide))
example := C44_sat_instance (VM := BasicVM) ⟨0⟩ exInst (opts := Options.dflt) (opts' := Options.dflt) rfl
  (exInstFits 1 (by decide))
example := C44_opt_instance (VM := BasicVM) ⟨0⟩ ⟨exInst, .weighted (-3) [(xs.neg, 2), (ys, 5)] []⟩ (opts := Options.dflt)
  (opts' := Options.dflt) rfl (exInstFits 1 (by decide)) rfl exSoftFits
example := C44_soft_clauses (VM := BasicVM) ⟨exInst, .weighted (-3) [] [([xs, ys], 1)]⟩ Options.dflt (by decide)
example := C44_multi_instance (VM := BasicVM) ⟨0⟩ ⟨exInst, [.weighted (-3) [(xs.neg, 2), (ys, 5)] []]⟩ (opts := Options.dflt)
  (opts' := Options.dflt) rfl (exInstFits 1 (by decide)) (sl := [([(xs.neg, 2), (ys, 5)], -3)]) rfl
  (by intro p hp; rw [List.mem_singleton] at hp; subst hp; exact exSoftFits)
example := C44_write_lines (VM := BasicVM) ⟨0⟩ [.comment "hi".toList, .objective [(xs, 2)], .clause [xs.neg, ys]]
  (opts := Options.dflt) (opts' := Options.dflt) rfl (by
    intro l hl
    simp only [List.mem_cons, List.not_mem_nil, or_false] at hl
    rcases hl with e | e | e <;> subst e
    · exact ⟨by decide, by decide⟩
    · exact ⟨by intro p hp; simp only [List.mem_cons, List.not_mem_nil, or_false] at hp; subst hp; decide, by decide⟩
    · exact ⟨by intro p hp; simp only [List.mem_cons, List.not_mem_nil, or_false] at hp; rcases hp with e | e <;> subst e <;> decide,
        by decide⟩)

end RustSat
