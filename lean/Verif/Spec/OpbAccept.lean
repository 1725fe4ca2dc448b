import Verif.Spec.Opb
/-
Which OPB statements can be read.
-/
namespace RustSat.OpbSpec
open Opb

/-- A statement whose numbers can be read: the bound of a strict inequality is not the greatest number, and the negative
coefficients of an objective can be added up. -/
def Readable : Stmt → Prop
  | .constr _ op b => op = .lt ∨ op = .gt → b < 9223372036854775807
  | .obj _ sum => -9223372036854775808 ≤ negSum sum

end RustSat.OpbSpec
