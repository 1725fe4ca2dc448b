import Verif.Model.EncodeConstr
import Verif.Spec.Bound
import Verif.Spec.Instance
import Verif.Spec.Encoding
/-
Specification of the functions that encode whole constraints.
-/
namespace RustSat

/-- The call `f` never panics, keeps the clauses collected before, and the clauses it adds encode `P` over the variables
`V`; all other variables are obtained from the variable manager. -/
def AddsEncoding {VM : Type} [ManageVars VM] (f : VM → ClauseSet → Option (VM × ClauseSet)) (vm : VM) (V : Nat → Prop)
    (P : Asg → Prop) : Prop :=
  ∀ cls, ∃ vm' new, f vm cls = some (vm', cls ++ new) ∧ Encodes V (ManageVars.nUsed vm) (ManageVars.nUsed vm') new P

/-- The encoder accepts all ranges of a single bound that is neither trivial nor impossible. -/
structure AcceptsSingle (E ι VM : Type) [ManageVars VM] [Item ι] [LawfulItem ι] [Encoder E ι] [EncodeInc E VM]
    [LawfulEnc E ι VM] [BoundUpper E VM] [EnforceUb E] [LawfulUb E ι VM] [BoundLower E VM] [EnforceLb E] [LawfulLb E ι VM]
    [BoundBoth E VM] [EnforceEq E] [LawfulBoth E ι VM] : Prop where
  ub : ∀ (lits : List ι) b, LawfulItem.distinct lits → b < Item.total lits →
    LawfulUb.ubOk VM (Encoder.new lits : E) ⟨.incl b, .incl b⟩
  lb : ∀ (lits : List ι) b, LawfulItem.distinct lits → b ≤ Item.total lits →
    LawfulLb.lbOk VM (Encoder.new lits : E) ⟨.incl b, .incl b⟩
  both : ∀ (lits : List ι) b, LawfulItem.distinct lits → b ≤ Item.total lits →
    LawfulBoth.bothOk VM (Encoder.new lits : E) ⟨.incl b, .incl b⟩

/-- The constraints for which `encode_pb_constraint` is correct: all weights are positive; no literal is repeated, unless
all weights are the same; and in an equality whose weights are all the same, the weight divides the bound. -/
structure PbConstraint.Regular (c : PbConstraint) : Prop where
  wf : c.WF
  pos : c.PosWeights
  nodup : (∃ w, ∀ p ∈ c.lits, p.2 = w) ∨ (c.lits.map (·.1)).Nodup
  divides : ∀ l ws b w, c = .eq l ws b → (∀ p ∈ l, p.2 = w) → w ∣ b.natAbs

end RustSat
