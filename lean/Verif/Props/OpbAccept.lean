import Verif.Lemmas.OpbAccept2
import Verif.Props.Opb
/-
Property C95: an OPB file is accepted exactly if it consists of statements, and the result is what these say.
-/
namespace RustSat
open Opb OpbSpec
variable {VM : Type} [ManageVars VM] [LawfulVM VM]

/-- C95: a text is read without an error exactly if it is a file of statements with numbers in range. -/
theorem C95_accept (opts : Options) (t : Text) :
    (∃ ds : List Data, items opts t = ds.map .ok) ↔ ∃ sts, FileText opts.firstVarIdx sts t ∧ ∀ st ∈ sts, Readable st := by
  constructor
  · rintro ⟨ds, h⟩
    obtain ⟨sts, h1, h2⟩ := items_inv h
    exact ⟨sts, h1, h2.readable⟩
  · rintro ⟨sts, h1, h2⟩
    obtain ⟨ds, _, h3⟩ := items_ok h1 fun st hst => (readable_iff st).2 (h2 st hst)
    exact ⟨ds, h3⟩

/-- C95: what was read from an accepted text means the same as the statements of the text. Missing: `<`, see
`C45_violated_lt`. -/
theorem C95_meaning_partial {opts : Options} {t : Text} {ds : List Data} (h : items opts t = ds.map .ok) :
    ∃ sts, FileText opts.firstVarIdx sts t ∧ ((∀ st ∈ sts, NoLt st) → AllMean sts ds) := by
  obtain ⟨sts, h1, h2⟩ := items_inv h
  exact ⟨sts, h1, h2.means⟩

/-- C95: a decision instance is read only from a file of constraints, and has its solutions. Missing: `<`. -/
theorem C95_sat_instance_partial {dflt : VM} {opts : Options} {t : Text} {i : SatInstance VM}
    (h : SatInstance.fromOpb dflt opts t = .ok i) :
    ∃ sts, FileText opts.firstVarIdx sts t ∧ objectives sts = [] ∧
      ((∀ st ∈ sts, NoLt st) → ∀ a, i.sat a ↔ stmtsSat a sts) := by
  obtain ⟨ds, e, ho⟩ := satLoop_inv _ _ _ h
  obtain ⟨sts, h1, h2⟩ := items_inv e
  have h3 := h2.objectives_nil ho
  refine ⟨sts, h1, h3, fun hn => ?_⟩
  obtain ⟨s, g1, _, g3⟩ := C45_sat_instance_partial dflt h1 hn (h2.fits fun o hm => absurd hm (ho o)) h3
  rw [h] at g1
  cases g1
  exact g3

/-- C95: an optimisation instance is read only from a file with one objective, and has its solutions and its objective.
Missing: `<`. -/
theorem C95_opt_instance_partial {dflt : VM} {opts : Options} {t : Text} {i : OptInstance VM}
    (h : OptInstance.fromOpb dflt opts t = .ok i) :
    ∃ sts, FileText opts.firstVarIdx sts t ∧ ((∀ st ∈ sts, NoLt st) →
      ∃ se sum, objectives sts = [(se, sum)] ∧ (∀ a, i.constrs.sat a ↔ stmtsSat a sts) ∧ ObjMeans se sum i.obj) := by
  obtain ⟨ds, e, ho⟩ := optLoop_inv _ _ _ _ h
  obtain ⟨sts, h1, h2⟩ := items_inv e
  have hf := h2.fits fun o hm => ho o (Or.inr hm)
  refine ⟨sts, h1, fun hn => ?_⟩
  obtain ⟨n1, n2⟩ := C45_opt_number dflt h1 hn hf
  cases hs : objectives sts with
  | nil => rw [n1 hs] at h; cases h
  | cons p ps =>
    cases ps with
    | cons q ps => rw [n2 (by rw [hs]; simp)] at h; cases h
    | nil =>
      obtain ⟨se, sum⟩ := p
      obtain ⟨i', g1, _, _, _, g2, g3⟩ := C45_opt_instance_partial dflt h1 hn hf hs
      rw [h] at g1
      cases g1
      exact ⟨se, sum, rfl, g2, g3⟩

/-- C95: the same for multi-objective instances. Missing: `<`. -/
theorem C95_multi_instance_partial {dflt : VM} {opts : Options} {t : Text} {i : MultiOptInstance VM}
    (h : MultiOptInstance.fromOpb dflt opts t = .ok i) :
    ∃ sts, FileText opts.firstVarIdx sts t ∧ ((∀ st ∈ sts, NoLt st) →
      (∀ a, i.constrs.sat a ↔ stmtsSat a sts) ∧ ObjsMean (objectives sts) i.objs) := by
  obtain ⟨ds, e, ho⟩ := multiLoop_inv _ _ _ _ h
  obtain ⟨sts, h1, h2⟩ := items_inv e
  refine ⟨sts, h1, fun hn => ?_⟩
  obtain ⟨i', g1, _, g2, g3⟩ := C45_multi_instance_partial dflt h1 hn (h2.fits ho)
  rw [h] at g1
  cases g1
  exact ⟨g2, g3⟩

/-! ### Concrete files -/

/-- A file with an objective, two constraints in a line, and a comment after them. -/
def demoAcceptOpb : Text := "min: 1 x1 -2 ~x2;\n 1 x1 +1 x2 >= 1; 1 x2 = 0 ;* end\r\n".toList

set_option maxRecDepth 10000 in
example : ∃ i, MultiOptInstance.fromOpb (VM := BasicVM) ⟨0⟩ Options.dflt demoAcceptOpb = .ok i := ⟨_, rfl⟩
set_option maxRecDepth 10000 in
example : ∃ i, OptInstance.fromOpb (VM := BasicVM) ⟨0⟩ Options.dflt demoAcceptOpb = .ok i := ⟨_, rfl⟩
set_option maxRecDepth 10000 in
example : ∃ i, SatInstance.fromOpb (VM := BasicVM) ⟨0⟩ Options.dflt "1 x1 +1 x2 >= 1;\n".toList = .ok i := ⟨_, rfl⟩

set_option maxRecDepth 10000 in
/-- Texts that are no OPB files are rejected: no space after a coefficient, no bound, two operators, a product of variables, a
variable with number zero. -/
example : ∀ t ∈ ["1x1 >= 1;", "1 x1 >= ;", "1 x1 >= 1 >= 0;", "1 x1 x2 >= 1;", "1 x0 >= 1;", "1 x1 >= 1;;"],
    items Options.dflt t.toList ≠ [] ∧ (items Options.dflt t.toList).getLast? = some (.err .parsing) := by decide

end RustSat
