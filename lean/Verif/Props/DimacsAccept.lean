import Verif.Lemmas.DimacsAccept4
import Verif.Lemmas.Dimacs2
import Verif.Model.VarManager
/-
Property C94: a DIMACS file is accepted exactly if it has the described form, and then it is read as what it says.
-/
namespace RustSat
open DimacsSpec Dimacs
variable {VM : Type} [ManageVars VM] [LawfulVM VM]

/-- C94 (CNF): a text is read as a header and data exactly if it is a CNF file with this header and these data. -/
theorem C94_cnf {t : Text} {nv nc : Nat} {ds : List CnfData} :
    readCnf t = some (nv, nc, ds) ↔ ∃ body, CnfFile nv nc ds body t := readCnf_exact

/-- C94 (WCNF): the same for WCNF files in either of the two formats. -/
theorem C94_wcnf {t : Text} {nv : Option Nat} {ds : List WcnfData} : readWcnf t = some (nv, ds) ↔ WcnfFile nv ds t := readWcnf_exact

/-- C94 (MCNF): the same for MCNF files. -/
theorem C94_mcnf {t : Text} {ds : List McnfData} : readMcnf t = some ds ↔ McnfFile ds t := readMcnf_exact

/-- C94 (instances): an instance is read exactly if the text is a CNF file with a number of variables that can be represented,
and then its clauses are those of the file in their order. -/
theorem C94_instance (dflt : VM) (t : Text) :
    (∀ i, SatInstance.fromDimacs dflt t = .ok i →
      ∃ nv nc ds body, CnfFile nv nc ds body t ∧ i.cnf = clauses ds ∧ i.cards = [] ∧ i.pbs = []) ∧
    (∀ nv nc ds body, CnfFile nv nc ds body t → nv ≤ maxVarIdx →
      ∃ i, SatInstance.fromDimacs dflt t = .ok i ∧ i.cnf = clauses ds) := by
  constructor
  · intro i h
    unfold SatInstance.fromDimacs at h
    cases h1 : cnfHeader (Text.readLines t) with
    | none => rw [h1] at h; cases h
    | some d =>
      obtain ⟨⟨nv, nc⟩, ls⟩ := d
      rw [h1] at h
      simp only at h
      cases h2 : Var.new nv with
      | ok v =>
        rw [h2] at h
        simp only at h
        cases h3 : body cnfLine ls with
        | none => rw [h3] at h; cases h
        | some ds =>
          rw [h3] at h
          cases h
          have hr : readCnf t = some (nv, nc, ds) := by unfold readCnf; simp only [h1, h3]
          obtain ⟨bd, hb⟩ := C94_cnf.1 hr
          obtain ⟨e1, e2, e3, _⟩ := addCnfData_spec ds ({ cnf := [], cards := [], pbs := [], vm := (ManageVars.increaseNextFree dflt v).2 } : SatInstance VM)
          exact ⟨nv, nc, ds, bd, hb, by rw [e1]; rfl, e2, e3⟩
      | err e => rw [h2] at h; cases h
      | panic => rw [h2] at h; cases h
  · intro nv nc ds bd hf hnv
    have hr := C94_cnf.2 ⟨bd, hf⟩
    unfold readCnf at hr
    cases h1 : cnfHeader (Text.readLines t) with
    | none => rw [h1] at hr; cases hr
    | some d =>
      obtain ⟨⟨nv', nc'⟩, ls⟩ := d
      rw [h1] at hr
      simp only at hr
      cases h3 : body cnfLine ls with
      | none => rw [h3] at hr; cases hr
      | some ds' =>
        rw [h3] at hr
        cases hr
        unfold SatInstance.fromDimacs
        have hv : ∃ v, Var.new nv = .ok v := by
          unfold Var.new
          rw [if_pos hnv]
          exact ⟨_, rfl⟩
        obtain ⟨v, hv⟩ := hv
        simp only [h1, h3, hv]
        obtain ⟨e1, _⟩ := addCnfData_spec ds ({ cnf := [], cards := [], pbs := [], vm := (ManageVars.increaseNextFree dflt v).2 } : SatInstance VM)
        exact ⟨_, rfl, by rw [e1]; rfl⟩

/-- C94 (standard): if each line with a clause ends in a zero, the clauses are those the DIMACS standard gives. Missing: see the
violations below. -/
theorem C94_standard_partial {t : Text} {nv nc : Nat} {ds : List CnfData} {body : List Text} (h : CnfFile nv nc ds body t)
    (hz : ∀ l ∈ body, White l ∨ commentLine l = true ∨ EndsInZero l) :
    standardClauses body = some ((clauses ds).map (·.map number)) := by
  obtain ⟨_, _, _, _, _, hb⟩ := h
  obtain ⟨ns, h1, h2⟩ := standard_body hb hz
  unfold standardClauses
  rw [h1]
  exact h2

/-! ### What holds for concrete files -/

/-- A file with a comment, a header with white space around it, and clauses with signs. -/
def demoAcceptCnf : Text := "c hi\n p  cnf 3 2 \n1 -2 0\nc x\n\n\t+3 0".toList

/-- The data in it. -/
def demoAcceptData : List CnfData := [.clause [⟨0⟩, ⟨3⟩], .comment "c x".toList, .clause [⟨4⟩]]

set_option maxRecDepth 10000 in
theorem demoAccept_read : readCnf demoAcceptCnf = some (3, 2, demoAcceptData) := by rfl

/-- The hypotheses of the standard reading hold for it. -/
example : ∃ body, CnfFile 3 2 demoAcceptData body demoAcceptCnf := C94_cnf.1 demoAccept_read

/-- The lines after its header. -/
def demoAcceptBody : List Text := ["1 -2 0".toList, "c x".toList, [], "\t+3 0".toList]

example : ∀ l ∈ demoAcceptBody, White l ∨ commentLine l = true ∨ EndsInZero l := by
  unfold White EndsInZero demoAcceptBody
  decide
example : standardClauses demoAcceptBody = some [[1, -2], [3]] := by decide

set_option maxRecDepth 10000 in
example : readWcnf "p wcnf 2 2 10\n10 1 0\n3 -2 0\n".toList = some (some 2, [.hard [⟨0⟩], .soft 3 [⟨3⟩]]) := by rfl
set_option maxRecDepth 10000 in
example : readWcnf "h 1 0\n3 -2 0\n".toList = some (none, [.hard [⟨0⟩], .soft 3 [⟨3⟩]]) := by rfl
set_option maxRecDepth 10000 in
example : readMcnf "h 1 0\no2 3 -2 0\n".toList = some [.hard [⟨0⟩], .soft 2 3 [⟨3⟩]] := by rfl

/-- The lines of a clause that spans two lines. -/
def demoMultiline : Text := "p cnf 3 1\n1 2\n3 0\n".toList

set_option maxRecDepth 10000 in
/-- C94 is violated: the standard allows a clause to span lines, `1 2` and `3 0` are the clause `1 2 3`; it is read as two
clauses without an error. -/
theorem C94_violated_multiline :
    readCnf demoMultiline = some (3, 1, [.clause [⟨0⟩, ⟨2⟩], .clause [⟨4⟩]]) ∧
    standardClauses ["1 2".toList, "3 0".toList] = some [[1, 2, 3]] := by
  constructor
  · rfl
  · decide

set_option maxRecDepth 10000 in
/-- C94 is violated: the numbers in the header are not compared with the clauses: one clause with variable 7 is accepted in a
file that announces five clauses and one variable. -/
theorem C94_violated_header : readCnf "p cnf 1 5\n7 0\n".toList = some (1, 5, [.clause [⟨12⟩]]) := by rfl

set_option maxRecDepth 10000 in
/-- C94 is violated: two clauses in one line are rejected, although the standard allows them. -/
theorem C94_violated_two_clauses :
    readCnf "p cnf 2 2\n1 0 2 0\n".toList = none ∧ standardClauses ["1 0 2 0".toList] = some [[1], [2]] := by
  constructor
  · rfl
  · decide

set_option maxRecDepth 10000 in
/-- C94 is violated: a file whose header gives a number of variables of more than 31 bits makes the call panic. -/
theorem C94_violated_panic (dflt : VM) : SatInstance.fromDimacs dflt "p cnf 4294967295 0\n".toList = .panic := by rfl

end RustSat
