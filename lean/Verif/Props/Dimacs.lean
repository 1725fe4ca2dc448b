import Verif.Lemmas.Dimacs2

/-
C41, C42, C43: DIMACS files are read as what they say, and what is written is read back.

Texts of files are described in `Spec.Dimacs` independently of the parsers: `ClauseText`, `CnfLineText`, … say what
clauses and lines look like with arbitrary space, `FileLines` allows blank lines and white space around lines.
-/

namespace RustSat
open Dimacs DimacsSpec Text P

variable {VM : Type} [ManageVars VM] [LawfulVM VM]

private def x0 : Lit := Lit.mk' 0 false
private def x1 : Lit := Lit.mk' 1 false
private def y1 : Lit := Lit.mk' 1 true

/-! ### CNF -/

/-- C41: whatever the layout, a CNF file is read as its header and clauses. -/
theorem C41_layout {pre : List Text} {h w w' : Text} {ls : List Text} {ds : List CnfData} {nv nc : Nat}
    (hpre : ∀ l ∈ pre, IgnoredLine l) (hh : CnfHeaderText nv nc h) (hw : White w) (hw' : White w')
    (hnl : '\n' ∉ w ++ h ++ w') (h1 : nv ≤ u32Max) (h2 : nc ≤ usizeMax) (hls : FileLines CnfLineText ls ds) :
    readCnf (unlines (pre ++ (w ++ h ++ w') :: ls)) = some (nv, nc, ds) :=
  (readCnf_ok hpre hh hw hw' hnl h1 h2 hls).2

/-- The hypotheses are met by a file with comments, tabs, a blank line and carriage returns. -/
example : readCnf "c hi\n \n p\tcnf  2 1 \r\n1\t -2 0\r\n\nc x\n".toList =
    some (2, 1, [.clause [x0, y1], .comment "c x".toList]) := by
  have hx : FileLines CnfLineText ["1\t -2 0\r".toList, [], "c x".toList] [.clause [x0, y1], .comment "c x".toList] := by
    refine .data (w := []) (t := "1\t -2 0".toList) (w' := ['\r']) (.clause ?_) (by decide) (by unfold White; decide)
      (by decide) (.blank (by decide) (by decide) (.data (w := []) (t := "c x".toList) (w' := []) (.comment ?_)
        (by decide) (by decide) (by decide) .nil))
    · exact .cons (l := x0) (s := ['\t', ' ']) (t := "-2 0".toList) (by decide) ⟨by decide, by decide⟩
        (.cons (l := y1) (s := [' ']) (t := ['0']) (by decide) ⟨by decide, by decide⟩ .zero)
    · refine ⟨by decide, by decide, ?_⟩
      intro c r e
      have := congrArg List.getLast? e
      simp at this
      subst this
      decide
  exact C41_layout (pre := ["c hi".toList, [' ']]) (h := "p\tcnf  2 1".toList) (w := [' ']) (w' := [' ', '\r'])
    (ls := ["1\t -2 0\r".toList, [], "c x".toList]) (by
      intro l hl
      simp only [List.mem_cons, List.not_mem_nil, or_false] at hl
      rcases hl with e | e <;> subst e
      · exact ⟨by decide, Or.inr ⟨[], " hi".toList, by unfold White; decide, rfl⟩⟩
      · exact ⟨by decide, Or.inl (by unfold White; decide)⟩)
    (.mk (s := ['\t']) (s' := [' ', ' ']) (s'' := [' ']) ⟨by decide, by decide⟩ ⟨by decide, by decide⟩
      ⟨by decide, by decide⟩)
    (by unfold White; decide) (by unfold White; decide) (by decide) (by decide) (by decide) hx

/-- C41: a written CNF is read back with the same header and the same clauses in the same order. -/
theorem C41_round_trip (f : ClauseSet) (n : Nat) (hf : ∀ c ∈ f, Writable c) (hn : n ≤ u32Max)
    (hl : f.length ≤ usizeMax) :
    ∃ t, writeCnfAnnotated f n = some t ∧ readCnf t = some (n, f.length, f.map .clause) := by
  obtain ⟨ls, h1, h2⟩ := writeAll_ok (R := CnfLineText) (f := writeClause) (g := CnfData.clause) (xs := f) (by
    intro c hc
    obtain ⟨t, h1, h2, h3⟩ := writeClause_ok (hf c hc)
    exact ⟨t, .clause h1, h2, h3⟩)
  refine ⟨_, by rw [writeCnfAnnotated, h1, prefixed], ?_⟩
  have := C41_layout (pre := ["c CNF file written by RustSAT".toList])
    (h := 'p' :: ([' '] ++ ('c' :: 'n' :: 'f' :: ([' '] ++ (showNat n ++ ([' '] ++ showNat f.length))))))
    (w := []) (w' := []) (by
      intro l hl
      rw [List.mem_singleton] at hl
      subst hl
      exact ignored_of (t := " CNF file written by RustSAT".toList) (by decide))
    (.mk Sep.single Sep.single Sep.single) (fun c hc => nomatch hc) (fun c hc => nomatch hc)
    (by simp [newline_showNat]) hn hl h2
  rw [← this]
  simp [unlines]

example : writeCnfAnnotated [[x0, y1], []] 2 = some "c CNF file written by RustSAT\np cnf 2 2\n1 -2 0\n0\n".toList := by
  decide

/-- C41: a file becomes an instance with exactly its clauses, which knows all variables. -/
theorem C41_read_instance (dflt : VM) {pre : List Text} {h w w' : Text} {ls : List Text} {ds : List CnfData} {nv nc : Nat}
    (hpre : ∀ l ∈ pre, IgnoredLine l) (hh : CnfHeaderText nv nc h) (hw : White w) (hw' : White w')
    (hnl : '\n' ∉ w ++ h ++ w') (h1 : nv ≤ maxVarIdx) (h2 : nc ≤ usizeMax) (hls : FileLines CnfLineText ls ds) :
    ∃ s, SatInstance.fromDimacs dflt (unlines (pre ++ (w ++ h ++ w') :: ls)) = .ok s ∧
      s.cnf = clauses ds ∧ s.cards = [] ∧ s.pbs = [] ∧ s.Known ∧ nv ≤ ManageVars.nUsed s.vm := by
  have h1' : nv ≤ u32Max := by
    have e1 : maxVarIdx = 2147483647 := by decide
    have e2 : u32Max = 4294967295 := by decide
    omega
  obtain ⟨e, _⟩ := readCnf_ok hpre hh hw hw' hnl h1' h2 hls
  rw [SatInstance.fromDimacs, e]
  simp only [body_ok cnf_lineParser hls, Var.new, if_pos h1]
  obtain ⟨g1, g2, g3, g4, g5⟩ := addCnfData_spec ds
    ({ cnf := [], cards := [], pbs := [], vm := (ManageVars.increaseNextFree dflt nv).2 } : SatInstance VM)
  refine ⟨_, rfl, by rw [g1]; rfl, g2, g3, g5 ?_, Nat.le_trans ?_ g4⟩
  · intro v hv
    rcases hv with ⟨c, hc, _⟩ | ⟨c, hc, _⟩ | ⟨c, hc, _⟩ <;> cases hc
  · show nv ≤ ManageVars.nUsed (ManageVars.increaseNextFree dflt nv).2
    rw [LawfulVM.increase]; omega

/-- C41: writing an instance and reading the file gives an instance with the same clauses. -/
theorem C41_instance (dflt : VM) (s : SatInstance VM) (hc : s.cards = []) (hp : s.pbs = [])
    (hf : ∀ c ∈ s.cnf, Writable c) (hn : ManageVars.nUsed s.vm ≤ maxVarIdx) (hl : s.cnf.length ≤ usizeMax) :
    ∃ t s', s.writeDimacs = .ok t ∧ SatInstance.fromDimacs dflt t = .ok s' ∧ s'.cnf = s.cnf ∧
      (∀ a, s'.sat a ↔ s.sat a) ∧ s'.Known ∧ ManageVars.nUsed s.vm ≤ ManageVars.nUsed s'.vm := by
  obtain ⟨ls, h1, h2⟩ := writeAll_ok (R := CnfLineText) (f := writeClause) (g := CnfData.clause) (xs := s.cnf) (by
    intro c hc
    obtain ⟨t, h1, h2, h3⟩ := writeClause_ok (hf c hc)
    exact ⟨t, .clause h1, h2, h3⟩)
  obtain ⟨s', e, g1, g2, g3, g4, g5⟩ := C41_read_instance dflt (pre := ["c CNF file written by RustSAT".toList])
    (h := 'p' :: ([' '] ++ ('c' :: 'n' :: 'f' :: ([' '] ++ (showNat (ManageVars.nUsed s.vm) ++
      ([' '] ++ showNat s.cnf.length))))))
    (w := []) (w' := []) (by
      intro l hl
      rw [List.mem_singleton] at hl
      subst hl
      exact ignored_of (t := " CNF file written by RustSAT".toList) (by decide))
    (.mk Sep.single Sep.single Sep.single) (fun c hc => nomatch hc) (fun c hc => nomatch hc)
    (by simp [newline_showNat]) hn hl h2
  rw [clauses_map] at g1
  refine ⟨_, s', ?_, e, g1, fun a => ?_, g4, g5⟩
  · rw [SatInstance.writeDimacs, if_neg (by simp [hc, hp]), writeCnfAnnotated, h1, prefixed, written]
    simp [unlines]
  · rw [SatInstance.sat, SatInstance.sat, g1, g2, g3, hc, hp]

example :=
  C41_instance (VM := BasicVM) ⟨0⟩ ⟨[[x0, y1]], [], [], ⟨2⟩⟩ rfl rfl
    (by intro c hc l hl; simp at hc; subst hc; simp at hl; rcases hl with e | e <;> subst e <;> decide)
    (by decide) (by decide)

/-- C41: instances with other constraints are refused. -/
theorem C41_requires_clausal (s : SatInstance VM) :
    s.writeDimacs = .err .requiresClausal ↔ s.cards ≠ [] ∨ s.pbs ≠ [] := by
  rw [SatInstance.writeDimacs]
  simp only [List.length_pos_iff]
  split
  · rename_i h; exact ⟨fun _ => h, fun _ => rfl⟩
  · rename_i h
    refine ⟨fun e => ?_, fun h' => absurd h' h⟩
    cases hw : writeCnfAnnotated s.cnf (ManageVars.nUsed s.vm) with
    | none => rw [hw] at e; cases e
    | some t => rw [hw] at e; cases e

/-- C41: clauses written line by line form the body of a CNF file. Missing: headers and comments, see
`C41_violated_header` and `C41_violated_comment`. -/
theorem C41_write_lines_partial (f : ClauseSet) (nv nc : Nat) (hf : ∀ c ∈ f, Writable c) (hn : nv ≤ u32Max)
    (hc : nc ≤ usizeMax) :
    ∃ t, writeCnf (f.map .clause) = some t ∧
      readCnf ("p cnf ".toList ++ showNat nv ++ [' '] ++ showNat nc ++ '\n' :: t) = some (nv, nc, f.map .clause) := by
  obtain ⟨ls, h1, h2⟩ := writeAll_ok (R := CnfLineText) (f := fun c => writeCnfLine (.clause c)) (g := CnfData.clause)
    (xs := f) (by
      intro c hc
      obtain ⟨t, h1, h2, h3⟩ := writeClause_ok (hf c hc)
      exact ⟨t, .clause h1, h2, h3⟩)
  refine ⟨unlines ls, ?_, ?_⟩
  · rw [writeCnf, ← h1]
    clear h1 h2 hf
    induction f with
    | nil => rfl
    | cons c f ih => rw [List.map_cons, writeAll, writeAll, ih]
  · have := C41_layout (pre := [])
      (h := 'p' :: ([' '] ++ ('c' :: 'n' :: 'f' :: ([' '] ++ (showNat nv ++ ([' '] ++ showNat nc))))))
      (w := []) (w' := []) (fun l hl => nomatch hl)
      (.mk Sep.single Sep.single Sep.single) (fun c hc => nomatch hc) (fun c hc => nomatch hc)
      (by simp [newline_showNat]) hn hc h2
    rw [← this]
    simp [unlines]

/-- C41 fails for `write_cnf`: the header line it writes lacks `cnf` and is not accepted by the parser. -/
theorem C41_violated_header :
    writeCnf [.header 1 1, .clause [x0]] = some "p 1 1\n1 0\n".toList ∧ readCnf "p 1 1\n1 0\n".toList = none := by
  decide

/-- C41 fails for `write_cnf`: comments are written without a line break, so that the next clause is lost. -/
theorem C41_violated_comment :
    ∃ t, writeCnf [.clause [x0], .comment "note ".toList, .clause [x1]] = some t ∧
      readCnf ("p cnf 2 2\n".toList ++ t) = some (2, 2, [.clause [x0], .comment "c note 2 0".toList]) :=
  ⟨"1 0\nc note 2 0\n".toList, by decide, by decide⟩

/-- C41 fails at the last variable: writing it panics. -/
theorem C41_violated_max_var : (Lit.mk' maxVarIdx false).Valid ∧
    writeCnfAnnotated [[Lit.mk' maxVarIdx false]] 0 = none := by
  decide

/-- The documentation of `SatInstance::from_dimacs` says that WCNF and MCNF files are accepted and their objectives
ignored. They are parsing errors. -/
theorem C41_violated_accepts_wcnf :
    (match SatInstance.fromDimacs (VM := BasicVM) ⟨0⟩ "h 1 0\n1 2 0\n".toList with | .err .parsing => true | _ => false) =
      true ∧
    (match SatInstance.fromDimacs (VM := BasicVM) ⟨0⟩ "p wcnf 2 2 5\n5 1 0\n1 2 0\n".toList with
      | .err .parsing => true | _ => false) = true := by
  decide

/-! ### WCNF -/

/-- C42: whatever the layout, a WCNF file is read as its hard and soft clauses in order (and the comments after the
first clause). -/
theorem C42_layout {ls : List Text} {ds : List WcnfData} (h : FileLines WcnfLineText ls ds) :
    readWcnf (unlines ls) = some (none, ds.dropWhile isComment) :=
  readWcnf_ok h

example : readWcnf "h  1\t-2 0\n\n3 2 0\n".toList = some (none, [.hard [x0, y1], .soft 3 [x1]]) := by
  have : FileLines WcnfLineText ["h  1\t-2 0".toList, [], "3 2 0".toList] [.hard [x0, y1], .soft 3 [x1]] := by
    refine .single (.hard (s := [' ', ' ']) (t := "1\t-2 0".toList) ⟨by decide, by decide⟩ ?_) (by decide)
      (.blank (by decide) (by decide) (.single (.soft (w := 3) (s := [' ']) (t := "2 0".toList) (by decide)
        ⟨by decide, by decide⟩ ?_) (by decide) .nil))
    · exact .cons (l := x0) (s := ['\t']) (t := "-2 0".toList) (by decide) ⟨by decide, by decide⟩
        (.cons (l := y1) (s := [' ']) (t := ['0']) (by decide) ⟨by decide, by decide⟩ .zero)
    · exact .cons (l := x1) (s := [' ']) (t := ['0']) (by decide) ⟨by decide, by decide⟩ .zero
  exact C42_layout this

/-- C42: in the format used before 2022 a clause is hard exactly if its weight is at least the top weight. -/
theorem C42_old_format {pre : List Text} {h w w' : Text} {ls : List Text} {ds : List WcnfData} {nv nc top : Nat}
    (hpre : ∀ l ∈ pre, IgnoredLine l) (hh : WcnfHeaderText nv nc top h) (hw : White w) (hw' : White w')
    (hnl : '\n' ∉ w ++ h ++ w') (h1 : nv ≤ u32Max) (h2 : nc ≤ usizeMax) (h3 : top ≤ usizeMax)
    (hls : FileLines (OldWcnfLineText top) ls ds) :
    readWcnf (unlines (pre ++ (w ++ h ++ w') :: ls)) = some (some nv, ds) :=
  (readOldWcnf_ok hpre hh hw hw' hnl h1 h2 h3 hls).2

example : readWcnf "p wcnf 2 2 5\n5 1 0\n4 -2 0\n".toList = some (some 2, [.hard [x0], .soft 4 [y1]]) := by
  refine C42_old_format (pre := []) (h := "p wcnf 2 2 5".toList) (w := []) (w' := [])
    (ls := ["5 1 0".toList, "4 -2 0".toList]) (nv := 2) (nc := 2) (top := 5) (fun l hl => nomatch hl)
    (.mk (s := [' ']) (s' := [' ']) (s'' := [' ']) (s''' := [' ']) ⟨by decide, by decide⟩ ⟨by decide, by decide⟩
      ⟨by decide, by decide⟩ ⟨by decide, by decide⟩) (by decide) (by decide) (by decide) (by decide) (by decide) (by decide)
    (.single (.hard (w := 5) (s := [' ']) (t := "1 0".toList) (by decide) (by decide) ⟨by decide, by decide⟩ ?_) (by decide)
      (.single (.soft (w := 4) (s := [' ']) (t := "-2 0".toList) (by decide) (by decide) ⟨by decide, by decide⟩ ?_)
        (by decide) .nil))
  · exact .cons (l := x0) (s := [' ']) (t := ['0']) (by decide) ⟨by decide, by decide⟩ .zero
  · exact .cons (l := y1) (s := [' ']) (t := ['0']) (by decide) ⟨by decide, by decide⟩ .zero

private theorem dropWhile_data (f : ClauseSet) (s : List (Clause × Nat)) :
    ((f.map WcnfData.hard ++ s.map fun p => WcnfData.soft p.2 p.1).dropWhile isComment) =
    f.map WcnfData.hard ++ s.map fun p => WcnfData.soft p.2 p.1 := by
  cases f with
  | cons c f => rfl
  | nil =>
    cases s with
    | nil => rfl
    | cons p s => rfl

private theorem wcnf_lines (f : ClauseSet) (s : List (Clause × Nat)) (hf : ∀ c ∈ f, Writable c)
    (hs : ∀ p ∈ s, Writable p.1 ∧ p.2 ≤ usizeMax) :
    ∃ ls, andThen (writeAll writeHard f) (writeAll writeSoft s) = some (unlines ls) ∧
      FileLines WcnfLineText ls (f.map WcnfData.hard ++ s.map fun p => WcnfData.soft p.2 p.1) := by
  obtain ⟨ls, h1, h2⟩ := writeAll_ok fun c hc => hard_writer (hf c hc)
  obtain ⟨ls', h3, h4⟩ := writeAll_ok fun p hp => soft_writer (hs p hp).1 (hs p hp).2
  exact ⟨ls ++ ls', by rw [h1, h3, andThen, unlines_append], h2.append h4⟩

private theorem readWcnf_pre {pre : List Text} (hpre : ∀ l ∈ pre, IgnoredLine l) {ls : List Text}
    (h : ∀ l ∈ ls, '\n' ∉ l) :
    wcnfHeader (readLines (unlines pre ++ unlines ls)) = wcnfHeader (readLines (unlines ls)) := by
  rw [← unlines_append, readLines_unlines, List.map_append, wcnfHeader_ignored hpre, ← readLines_unlines h]
  intro l hl
  rcases List.mem_append.1 hl with hl | hl
  · exact (hpre l hl).1
  · exact h l hl

/-- C42: written hard and soft clauses are read back, in the same order and with the same weights. -/
theorem C42_round_trip (f : ClauseSet) (s : List (Clause × Nat)) (offset : Int) (nv : Option Nat)
    (hf : ∀ c ∈ f, Writable c) (hs : ∀ p ∈ s, Writable p.1 ∧ p.2 ≤ usizeMax) :
    ∃ t, writeWcnfAnnotated f s offset nv = some t ∧
      readWcnf t = some (none, f.map .hard ++ s.map fun p => .soft p.2 p.1) := by
  obtain ⟨ls, h1, h2⟩ := wcnf_lines f s hf hs
  refine ⟨_, by rw [writeWcnfAnnotated, h1, prefixed], ?_⟩
  have := C42_layout h2
  rw [dropWhile_data] at this
  rw [← this, readWcnf, readWcnf, readWcnf_pre (wcnfPreamble_ignored _ _ _ _) h2.newline]

example : writeWcnfAnnotated [[x0, y1]] [([x1], 3)] (-2) (some 2) =
    some ("c WCNF file written by RustSAT\nc 2 variables\nc 1 hard clauses\nc 1 soft clauses\n".toList ++
      "c objective offset: -2\nh 1 -2 0\n3 2 0\n".toList) := by decide

/-- The instance a WCNF file should become. -/
structure WcnfInstance (ds : List WcnfData) (i : OptInstance VM) : Prop where
  cnf : i.constrs.cnf = hards ds
  cards : i.constrs.cards = []
  pbs : i.constrs.pbs = []
  known : i.constrs.Known
  wf : i.obj.WF
  objKnown : ∀ v, i.obj.hasVar v → v < ManageVars.nUsed i.constrs.vm
  value : ∀ a, i.obj.value a = clsCost a (softs ds)

private theorem wcnfInstance (ds : List WcnfData) (vm : VM) :
    let p := ds.foldl OptInstance.addWcnfData
      (({ cnf := [], cards := [], pbs := [], vm := vm } : SatInstance VM), Objective.default)
    WcnfInstance ds (OptInstance.compose p.1 p.2) ∧
      ManageVars.nUsed vm ≤ ManageVars.nUsed (OptInstance.compose p.1 p.2).constrs.vm := by
  obtain ⟨h1, h2, h3, h4, h5, h6, h7⟩ := addWcnfData_spec ds
    ({ cnf := [], cards := [], pbs := [], vm := vm } : SatInstance VM) Objective.default
    (by simp [Objective.default, Objective.WF])
  have hk := h5 (by
    intro v hv
    rcases hv with ⟨c, hc, _⟩ | ⟨c, hc, _⟩ | ⟨c, hc, _⟩ <;> cases hc)
  generalize ds.foldl OptInstance.addWcnfData
    (({ cnf := [], cards := [], pbs := [], vm := vm } : SatInstance VM), Objective.default) = p at h1 h2 h3 h4 h5 h6 h7 hk
  obtain ⟨g1, g2⟩ := learnObj_spec p.1.vm p.2
  refine ⟨⟨?_, h2, h3, ?_, h6, g2, fun a => ?_⟩, Nat.le_trans h4 g1⟩
  · show p.1.cnf = _
    rw [h1]; rfl
  · intro v hv
    exact Nat.lt_of_lt_of_le (hk v hv) g1
  · show p.2.value a = _
    rw [h7]; simp [Objective.default, Objective.value]

theorem from_post22 (dflt : VM) {t : Text} {ds : List WcnfData} (h : readWcnf t = some (none, ds)) :
    ∃ i, OptInstance.fromDimacs dflt t = .ok i ∧ WcnfInstance ds i ∧
      ManageVars.nUsed dflt ≤ ManageVars.nUsed i.constrs.vm := by
  rw [readWcnf] at h
  rw [OptInstance.fromDimacs]
  cases hh : wcnfHeader (readLines t) with
  | none => rw [hh] at h; cases h
  | some w =>
    rw [hh] at h
    cases w with
    | empty =>
      simp only [Option.some.injEq, Prod.mk.injEq, true_and] at h
      subst h
      exact ⟨_, rfl, wcnfInstance [] dflt⟩
    | pre22 nv nc top ls =>
      simp only at h
      cases hb : body (wcnfPre22Line top) ls with
      | none => rw [hb] at h; cases h
      | some ds' => rw [hb] at h; cases h
    | post22 d ls =>
      simp only at h ⊢
      cases hb : body wcnfPost22Line ls with
      | none => rw [hb] at h; cases h
      | some ds' =>
        rw [hb] at h
        simp only [Option.some.injEq, Prod.mk.injEq, true_and] at h
        subst h
        exact ⟨_, rfl, wcnfInstance (d :: ds') dflt⟩

/-- C42: a WCNF file becomes an instance with exactly its hard clauses and an objective that is the sum of the weights
of its falsified soft clauses (also if soft clauses are repeated). -/
theorem C42_read_instance (dflt : VM) {ls : List Text} {ds : List WcnfData} (h : FileLines WcnfLineText ls ds) :
    ∃ i, OptInstance.fromDimacs dflt (unlines ls) = .ok i ∧ WcnfInstance ds i := by
  obtain ⟨i, h1, h2, _⟩ := from_post22 dflt (C42_layout h)
  obtain ⟨e1, e2⟩ := softs_dropWhile ds
  exact ⟨i, h1, ⟨by rw [h2.cnf, e2], h2.cards, h2.pbs, h2.known, h2.wf, h2.objKnown, fun a => by rw [h2.value, e1]⟩⟩

/-- C42: the same for files in the old format. -/
theorem C42_read_old_instance (dflt : VM) {pre : List Text} {h w w' : Text} {ls : List Text} {ds : List WcnfData}
    {nv nc top : Nat}
    (hpre : ∀ l ∈ pre, IgnoredLine l) (hh : WcnfHeaderText nv nc top h) (hw : White w) (hw' : White w')
    (hnl : '\n' ∉ w ++ h ++ w') (h1 : nv ≤ maxVarIdx) (h2 : nc ≤ usizeMax) (h3 : top ≤ usizeMax)
    (hls : FileLines (OldWcnfLineText top) ls ds) :
    ∃ i, OptInstance.fromDimacs dflt (unlines (pre ++ (w ++ h ++ w') :: ls)) = .ok i ∧ WcnfInstance ds i ∧
      nv ≤ ManageVars.nUsed i.constrs.vm := by
  have h1' : nv ≤ u32Max := by
    have e1 : maxVarIdx = 2147483647 := by decide
    have e2 : u32Max = 4294967295 := by decide
    omega
  obtain ⟨e, _⟩ := readOldWcnf_ok hpre hh hw hw' hnl h1' h2 h3 hls
  rw [OptInstance.fromDimacs, e]
  simp only [body_ok (oldWcnf_lineParser top) hls, Var.new, if_pos h1]
  obtain ⟨g1, g2⟩ := wcnfInstance ds (ManageVars.increaseNextFree dflt nv).2
  refine ⟨_, rfl, g1, Nat.le_trans ?_ g2⟩
  rw [LawfulVM.increase]; omega

/-- C42: writing an optimisation instance and reading the file gives the same hard clauses and, up to the offset (which
is only written as a comment), the same objective. -/
theorem C42_instance (dflt : VM) (i : OptInstance VM) (hc : i.constrs.cards = []) (hp : i.constrs.pbs = [])
    (hf : ∀ c ∈ i.constrs.cnf, Writable c) (hs : ∀ p ∈ i.obj.iterSoftCls, Writable p.1 ∧ p.2 ≤ usizeMax) :
    ∃ t i', i.writeDimacs = .ok t ∧ OptInstance.fromDimacs dflt t = .ok i' ∧ i'.constrs.cnf = i.constrs.cnf ∧
      (∀ a, i'.constrs.sat a ↔ i.constrs.sat a) ∧ i'.obj.WF ∧ i'.constrs.Known ∧
      (∀ v, i'.obj.hasVar v → v < ManageVars.nUsed i'.constrs.vm) ∧
      ∀ a, i'.obj.value a = i.obj.value a - i.obj.offset := by
  obtain ⟨t, h1, h2⟩ := C42_round_trip i.constrs.cnf i.obj.iterSoftCls i.obj.offset
    (some (ManageVars.nUsed i.constrs.vm)) hf hs
  obtain ⟨i', h3, h4, _⟩ := from_post22 dflt h2
  have e : i'.constrs.cnf = i.constrs.cnf := by
    rw [h4.cnf, hards_append, (hards_map _).1, (softs_map _).2, List.append_nil]
  refine ⟨t, i', ?_, h3, e, fun a => ?_, h4.wf, h4.known, h4.objKnown, fun a => ?_⟩
  · rw [OptInstance.writeDimacs, if_neg (by simp [hc, hp]), h1, written]
  · rw [SatInstance.sat, SatInstance.sat, e, h4.cards, h4.pbs, hc, hp]
  · rw [h4.value, softs_append, (hards_map _).2, (softs_map _).1, List.nil_append, iterSoftCls_cost]

example :=
  C42_instance (VM := BasicVM) ⟨0⟩ ⟨⟨[[x0, y1]], [], [], ⟨2⟩⟩, .weighted 4 [(x0, 3)] [([x0, x1], 2)]⟩ rfl rfl
    (by intro c hc l hl; simp at hc; subst hc; simp at hl; rcases hl with e | e <;> subst e <;> decide)
    (by
      intro p hp
      simp [Objective.iterSoftCls] at hp
      rcases hp with e | e <;> subst e
      · exact ⟨by intro l hl; simp at hl; subst hl; decide, by decide⟩
      · exact ⟨by intro l hl; simp at hl; rcases hl with e | e <;> subst e <;> decide, by decide⟩)

/-- The data a written line stands for. -/
def Dimacs.WcnfLine.datum : WcnfLine → WcnfData
  | .comment t => .comment ('c' :: ' ' :: t)
  | .hard c => .hard c
  | .soft c w => .soft w c

/-- Lines that can be written by `write_wcnf`: no comments, see `C42_violated_comment`. -/
def Dimacs.WcnfLine.Clausal : WcnfLine → Prop
  | .comment _ => False
  | .hard c => Writable c
  | .soft c w => Writable c ∧ w ≤ usizeMax

/-- C42: clauses written line by line are read back. Missing: comments, see `C42_violated_comment`. -/
theorem C42_write_lines_partial (ls : List WcnfLine) (h : ∀ l ∈ ls, l.Clausal) :
    ∃ t, writeWcnf ls = some t ∧ readWcnf t = some (none, ls.map WcnfLine.datum) := by
  obtain ⟨ts, h1, h2⟩ := writeAll_ok (R := WcnfLineText) (f := writeWcnfLine) (g := WcnfLine.datum) (xs := ls) (by
    intro l hl
    have := h l hl
    cases l with
    | comment t => cases this
    | hard c => exact hard_writer (c := c) this
    | soft c w => exact soft_writer (p := (c, w)) this.1 this.2)
  refine ⟨_, h1, ?_⟩
  rw [C42_layout h2]
  cases ls with
  | nil => rfl
  | cons l ls =>
    have := h l List.mem_cons_self
    cases l with
    | comment t => cases this
    | hard c => rfl
    | soft c w => rfl

example : ∃ t, writeWcnf [.soft [x0] 2, .hard [y1]] = some t ∧ readWcnf t = some (none, [.soft 2 [x0], .hard [y1]]) :=
  C42_write_lines_partial [.soft [x0] 2, .hard [y1]] (by
    intro l hl
    simp at hl
    rcases hl with e | e <;> subst e
    · exact ⟨by intro l hl; simp at hl; subst hl; decide, by decide⟩
    · intro l hl; simp at hl; subst hl; decide)

/-- C42 fails for `write_wcnf`: comments are written without a line break, so that the next clause is lost. -/
theorem C42_violated_comment :
    ∃ t, writeWcnf [.comment "note ".toList, .hard [x0], .soft [x1] 1] = some t ∧
      readWcnf t = some (none, [.soft 1 [x1]]) :=
  ⟨"c note h 1 0\n1 2 0\n".toList, by decide, by decide⟩

/-- C42 fails for collecting `WcnfLine`s: unlike reading a file with these lines, a repeated soft clause replaces the
earlier one instead of adding its weight. -/
theorem C42_violated_from_lines :
    ∃ i i', OptInstance.ofWcnfLines (VM := BasicVM) ⟨0⟩ [.soft [x0, x1] 1, .soft [x0, x1] 2] = some i ∧
      OptInstance.fromDimacs (VM := BasicVM) ⟨0⟩ "1 1 2 0\n2 1 2 0\n".toList = .ok i' ∧
      i.obj.value (fun _ => false) = 2 ∧ i'.obj.value (fun _ => false) = 3 :=
  ⟨_, _, rfl, rfl, by decide, by decide⟩

/-- The documentation of `OptInstance::from_dimacs` says that MCNF files are accepted. They are parsing errors. -/
theorem C42_violated_accepts_mcnf :
    (match OptInstance.fromDimacs (VM := BasicVM) ⟨0⟩ "h 1 0\no1 1 2 0\n".toList with | .err .parsing => true | _ => false) =
      true := by
  decide

/-! ### MCNF -/

/-- C43: whatever the layout, an MCNF file is read as its hard clauses and soft clauses with objective indices. -/
theorem C43_layout {ls : List Text} {ds : List McnfData} (h : FileLines McnfLineText ls ds) :
    readMcnf (unlines ls) = some ds :=
  readMcnf_ok h

private theorem mcnf_softs (os : List (List (Clause × Nat) × Int)) (j : Nat)
    (hs : ∀ o ∈ os, ∀ p ∈ o.1, Writable p.1 ∧ p.2 ≤ usizeMax) (hj : j + os.length ≤ usizeMax) :
    ∃ ls, writeMoSofts j os = some (unlines ls) ∧ FileLines McnfLineText ls (moData j (os.map (·.1))) := by
  induction os generalizing j with
  | nil => exact ⟨[], rfl, .nil⟩
  | cons o os ih =>
    rw [List.length_cons] at hj
    obtain ⟨ls, h1, h2⟩ := ih (j + 1) (fun o' ho' => hs o' (List.mem_cons_of_mem _ ho')) (by omega)
    obtain ⟨ls', h3, h4⟩ := writeAll_ok fun p hp => moSoft_writer (i := j) (hs o List.mem_cons_self p hp).1
      (hs o List.mem_cons_self p hp).2 (by omega)
    exact ⟨ls' ++ ls, by rw [writeMoSofts, h1, h3, andThen, unlines_append], h4.append h2⟩

/-- C43: written hard clauses and objectives are read back with the same indices and weights. -/
theorem C43_round_trip (f : ClauseSet) (os : List (List (Clause × Nat) × Int)) (nv : Option Nat)
    (hf : ∀ c ∈ f, Writable c) (hs : ∀ o ∈ os, ∀ p ∈ o.1, Writable p.1 ∧ p.2 ≤ usizeMax) (hl : os.length ≤ usizeMax) :
    ∃ t, writeMcnfAnnotated f os nv = some t ∧
      readMcnf t = some ((mcnfPreamble f.length os nv).map .comment ++ (f.map .hard ++ moData 0 (os.map (·.1)))) := by
  obtain ⟨ls, h1, h2⟩ := writeAll_ok fun c hc => moHard_writer (hf c hc)
  obtain ⟨ls', h3, h4⟩ := mcnf_softs os 0 hs (by omega)
  have h5 := fileLines_map (β := Unit) McnfData.comment (mcnfPreamble_comments f.length os nv)
  refine ⟨_, by rw [writeMcnfAnnotated, h1, h3, andThen, prefixed], ?_⟩
  rw [← unlines_append, ← unlines_append, C43_layout (h5.append (h2.append h4))]

set_option maxRecDepth 4000 in
example : writeMcnfAnnotated [[x0, y1]] [([([x1], 3)], 0), ([([x0], 1), ([], 2)], -1)] none =
    some ("c MCNF file written by RustSAT\nc 1 hard clauses\nc 2 objectives\nc ( 1 2 ) soft clauses\n".toList ++
      "c objective offsets: ( 0 -1 )\nh 1 -2 0\no 1 3 2 0\no 2 1 1 0\no 2 2 0\n".toList) := by decide

/-- The instance an MCNF file should become. -/
structure McnfInstance (ds : List McnfData) (i : MultiOptInstance VM) : Prop where
  cnf : i.constrs.cnf = moHards ds
  cards : i.constrs.cards = []
  pbs : i.constrs.pbs = []
  known : i.constrs.Known
  wf : ∀ o ∈ i.objs, o.WF
  objKnown : ∀ o ∈ i.objs, ∀ v, o.hasVar v → v < ManageVars.nUsed i.constrs.vm
  number : i.objs.length = moMax ds
  value : ∀ k a, objValue i.objs k a = clsCost a (moSofts (k + 1) ds)

theorem from_mcnf (dflt : VM) {t : Text} {ds : List McnfData} (h : readMcnf t = some ds)
    (hd : ∀ i w c, McnfData.soft i w c ∈ ds → 1 ≤ i) :
    ∃ i, MultiOptInstance.fromDimacs dflt t = .ok i ∧ McnfInstance ds i := by
  obtain ⟨p, h0, h1, h2, h3, h4, h5, h6, h7, h8⟩ := addMcnfData_spec ds hd
    ({ cnf := [], cards := [], pbs := [], vm := dflt } : SatInstance VM) [] (fun o ho => nomatch ho)
  have hk := h5 (by
    intro v hv
    rcases hv with ⟨c, hc, _⟩ | ⟨c, hc, _⟩ | ⟨c, hc, _⟩ <;> cases hc)
  refine ⟨MultiOptInstance.compose p.1 p.2, by rw [MultiOptInstance.fromDimacs, h]; simp only [h0], ?_⟩
  obtain ⟨g1, g2⟩ := learnObjs_spec p.2 p.1.vm
  refine ⟨?_, h2, h3, ?_, h6, g2, ?_, fun k a => ?_⟩
  · show p.1.cnf = _
    rw [h1]; rfl
  · intro v hv
    exact Nat.lt_of_lt_of_le (hk v hv) g1
  · show p.2.length = _
    rw [h7, List.length_nil]
    omega
  · show objValue p.2 k a = _
    rw [h8]; simp [objValue]

/-- C43: an MCNF file becomes an instance with exactly its hard clauses and, for every index up to the largest one, the
objective given by the soft clauses with this index. -/
theorem C43_read_instance (dflt : VM) {ls : List Text} {ds : List McnfData} (h : FileLines McnfLineText ls ds) :
    ∃ i, MultiOptInstance.fromDimacs dflt (unlines ls) = .ok i ∧ McnfInstance ds i :=
  from_mcnf dflt (C43_layout h) (moIdx_pos h)

example : ∃ i, MultiOptInstance.fromDimacs (VM := BasicVM) ⟨0⟩ "h 1 0\no 2 3 -2 0\no1 1 1 0\n".toList = .ok i ∧
    McnfInstance [.hard [x0], .soft 2 3 [y1], .soft 1 1 [x0]] i := by
  refine C43_read_instance (VM := BasicVM) ⟨0⟩ (ls := ["h 1 0".toList, "o 2 3 -2 0".toList, "o1 1 1 0".toList]) ?_
  have h0 : ClauseText [x0] "1 0".toList :=
    .cons (l := x0) (s := [' ']) (t := ['0']) (by decide) ⟨by decide, by decide⟩ .zero
  have h1 : ClauseText [y1] "-2 0".toList :=
    .cons (l := y1) (s := [' ']) (t := ['0']) (by decide) ⟨by decide, by decide⟩ .zero
  exact .single (.hard (s := [' ']) ⟨by decide, by decide⟩ h0) (by decide)
    (.single (.soft (i := 2) (w := 3) (s := [' ']) (s' := [' ']) (s'' := [' ']) (by decide) (by decide) (by decide)
      (by decide) ⟨by decide, by decide⟩ ⟨by decide, by decide⟩ h1) (by decide)
    (.single (.soft (i := 1) (w := 1) (s := []) (s' := [' ']) (s'' := [' ']) (by decide) (by decide) (by decide)
      (by decide) ⟨by decide, by decide⟩ ⟨by decide, by decide⟩ h0) (by decide) .nil))

/-- C43: writing a multi-objective instance and reading the file gives the same hard clauses and, up to the offsets
(only written as comments), the same objectives. Missing: empty objectives at the end, see
`C43_violated_empty_objective`. -/
theorem C43_instance_partial (dflt : VM) (i : MultiOptInstance VM) (hc : i.constrs.cards = []) (hp : i.constrs.pbs = [])
    (hf : ∀ c ∈ i.constrs.cnf, Writable c) (hs : ∀ o ∈ i.objs, ∀ p ∈ o.iterSoftCls, Writable p.1 ∧ p.2 ≤ usizeMax)
    (hl : i.objs.length ≤ usizeMax) :
    ∃ t i', i.writeDimacs = .ok t ∧ MultiOptInstance.fromDimacs dflt t = .ok i' ∧ i'.constrs.cnf = i.constrs.cnf ∧
      (∀ a, i'.constrs.sat a ↔ i.constrs.sat a) ∧ (∀ o ∈ i'.objs, o.WF) ∧ i'.constrs.Known ∧
      (∀ o ∈ i'.objs, ∀ v, o.hasVar v → v < ManageVars.nUsed i'.constrs.vm) ∧
      i'.objs.length ≤ i.objs.length ∧
      (∀ o, i.objs.getLast? = some o → o.iterSoftCls ≠ [] → i'.objs.length = i.objs.length) ∧
      ∀ k o, i.objs[k]? = some o → ∀ a, objValue i'.objs k a = o.value a - o.offset := by
  obtain ⟨t, h1, h2⟩ := C43_round_trip i.constrs.cnf (i.objs.map fun o => (o.iterSoftCls, o.offset))
    (some (ManageVars.nUsed i.constrs.vm)) hf (by
      intro o ho
      obtain ⟨o', ho', e⟩ := List.mem_map.1 ho
      subst e
      exact hs o' ho') (by rw [List.length_map]; exact hl)
  rw [List.map_map] at h2
  obtain ⟨g1, g2, g3, g4, g5⟩ := moData_spec (i.objs.map ((fun o => o.1) ∘ fun o => (o.iterSoftCls, o.offset))) 0
  obtain ⟨i', h3, h4⟩ := from_mcnf dflt h2 (by
    intro j w c hm
    rcases List.mem_append.1 hm with hm | hm
    · obtain ⟨x, _, e⟩ := List.mem_map.1 hm; cases e
    · rcases List.mem_append.1 hm with hm | hm
      · obtain ⟨x, _, e⟩ := List.mem_map.1 hm; cases e
      · exact g4 j w c hm)
  have e : i'.constrs.cnf = i.constrs.cnf := by
    rw [h4.cnf, moHards_append, moHards_append, (mo_comments _ 0).1, (moHards_map _ 0).1, g1]
    simp
  have hn : i'.objs.length = moMax (moData 0 (i.objs.map ((fun o => o.1) ∘ fun o => (o.iterSoftCls, o.offset)))) := by
    rw [h4.number, moMax_append, moMax_append, (mo_comments _ 0).2.2, (moHards_map _ 0).2.2]
    omega
  refine ⟨t, i', ?_, h3, e, fun a => ?_, h4.wf, h4.known, h4.objKnown, ?_, ?_, ?_⟩
  · rw [MultiOptInstance.writeDimacs, if_neg (by simp [hc, hp]), h1, written]
  · rw [SatInstance.sat, SatInstance.sat, e, h4.cards, h4.pbs, hc, hp]
  · rw [hn]; simpa using g3
  · intro o ho hne
    rw [List.getLast?_eq_getElem?] at ho
    have hlt : i.objs.length - 1 < i.objs.length := by
      have := (List.getElem?_eq_some_iff.1 ho).1
      omega
    have := g5 (i.objs.length - 1) o.iterSoftCls (by rw [List.getElem?_map, ho]; rfl) hne
    have g3' := g3
    rw [List.length_map] at g3'
    rw [hn]
    omega
  · intro k o ho a
    rw [h4.value, moSofts_append, moSofts_append, (mo_comments _ (k + 1)).2.1, (moHards_map _ (k + 1)).2.1, g2,
      if_pos (by omega), List.getElem?_map, Nat.sub_zero, ho]
    exact iterSoftCls_cost o a

example :=
  C43_instance_partial (VM := BasicVM) ⟨0⟩ ⟨⟨[[x0, y1]], [], [], ⟨2⟩⟩,
      [.weighted 4 [(x0, 3)] [], Objective.default, .unweighted 0 (some 2) [] [[x0, x1]]]⟩ rfl rfl
    (by intro c hc l hl; simp at hc; subst hc; simp at hl; rcases hl with e | e <;> subst e <;> decide)
    (by
      intro o ho p hp
      simp at ho
      rcases ho with e | e | e <;> subst e <;> simp [Objective.iterSoftCls, Objective.default] at hp <;> subst hp
      · exact ⟨by intro l hl; simp at hl; subst hl; decide, by decide⟩
      · exact ⟨by intro l hl; simp at hl; rcases hl with e | e <;> subst e <;> decide, by decide⟩)
    (by decide)

set_option maxRecDepth 4000 in
/-- C43 fails for empty objectives at the end: they are lost. -/
theorem C43_violated_empty_objective :
    writeMcnfAnnotated [[x0]] [([([x1], 1)], 0), ([], 0)] none = some ("c MCNF file written by RustSAT\n".toList ++
      "c 1 hard clauses\nc 2 objectives\nc ( 1 0 ) soft clauses\nc objective offsets: ( 0 0 )\nh 1 0\no 1 1 2 0\n".toList) ∧
    ∃ i, MultiOptInstance.fromDimacs (VM := BasicVM) ⟨0⟩ ("c MCNF file written by RustSAT\n".toList ++
      "c 1 hard clauses\nc 2 objectives\nc ( 1 0 ) soft clauses\nc objective offsets: ( 0 0 )\nh 1 0\no 1 1 2 0\n".toList) =
      .ok i ∧ i.objs.length = 1 :=
  ⟨by decide, ⟨⟨⟨[[x0]], [], [], ⟨2⟩⟩, [.unweighted 0 (some 1) [Lit.mk' 1 true] []]⟩, rfl, rfl⟩⟩

/-- The datum a written line stands for. -/
def Dimacs.McnfLine.datum : McnfLine → McnfData
  | .comment t => .comment ('c' :: ' ' :: t)
  | .hard c => .hard c
  | .soft c w i => .soft (i + 1) w c

/-- Lines that can be written: comments are a single line not ending in white space. -/
def Dimacs.McnfLine.Ok : McnfLine → Prop
  | .comment t => CommentText ('c' :: ' ' :: t)
  | .hard c => Writable c
  | .soft c w i => Writable c ∧ w ≤ usizeMax ∧ i + 1 ≤ usizeMax

/-- C43: what is written line by line is read back, including comments; indices of objectives start at 0 in lines and at
1 in files. -/
theorem C43_write_lines (ls : List McnfLine) (h : ∀ l ∈ ls, l.Ok) :
    ∃ t, writeMcnf ls = some t ∧ readMcnf t = some (ls.map McnfLine.datum) := by
  obtain ⟨ts, h1, h2⟩ := writeAll_ok (R := McnfLineText) (f := writeMcnfLine) (g := McnfLine.datum) (xs := ls) (by
    intro l hl
    have := h l hl
    cases l with
    | comment t => exact ⟨'c' :: ' ' :: t, .comment this, this.nl, by simp [writeMcnfLine]⟩
    | hard c => exact moHard_writer (c := c) this
    | soft c w i => exact moSoft_writer (p := (c, w)) this.1 this.2.1 this.2.2)
  exact ⟨_, h1, C43_layout h2⟩

example : ∃ t, writeMcnf [.comment "hi".toList, .soft [x0] 2 0, .hard [y1]] = some t ∧
    readMcnf t = some [.comment "c hi".toList, .soft 1 2 [x0], .hard [y1]] :=
  C43_write_lines [.comment "hi".toList, .soft [x0] 2 0, .hard [y1]] (by
    intro l hl
    simp only [List.mem_cons, List.not_mem_nil, or_false] at hl
    rcases hl with e | e | e <;> subst e
    · refine ⟨by decide, by decide, fun c r e => ?_⟩
      have := congrArg List.getLast? e
      simp at this
      subst this
      decide
    · exact ⟨by intro l hl; simp at hl; subst hl; decide, by decide, by decide⟩
    · intro l hl; simp at hl; subst hl; decide)

/-- C43 fails for collecting `McnfLine`s: a repeated soft clause replaces the earlier one. -/
theorem C43_violated_from_lines :
    ∃ i i', MultiOptInstance.ofMcnfLines (VM := BasicVM) ⟨0⟩ [.soft [x0, x1] 1 0, .soft [x0, x1] 2 0] = some i ∧
      MultiOptInstance.fromDimacs (VM := BasicVM) ⟨0⟩ "o1 1 1 2 0\no1 2 1 2 0\n".toList = .ok i' ∧
      objValue i.objs 0 (fun _ => false) = 2 ∧ objValue i'.objs 0 (fun _ => false) = 3 :=
  ⟨_, _, rfl, rfl, by decide, by decide⟩

end RustSat
