import Verif.Spec.Bound
/-
What it means that an encoding of upper bounds is monotone: bounds may be enforced permanently, by adding the literals
that `enforce_ub` returns as unit clauses, and this does not get in the way of tighter bounds later on.
-/
namespace RustSat
open Card

/-- The states reachable by histories of adding literals, encoding upper bounds and permanently enforcing them.
`same` relates states that differ in the iteration order of hash maps only. `H` are the bounds that were enforced
permanently, with the literals `enforce_ub` returned for them when they were. -/
inductive MonoReach {E ι VM : Type} [ManageVars VM] [Item ι] [LawfulItem ι] [Encoder E ι] [BoundUpper E VM] [EnforceUb E]
    (same : E → E → Prop) : EncWorld E ι VM → List (Nat × List Lit) → Prop
  | start (lits : List ι) (vm : VM) (hd : LawfulItem.distinct lits)
      (h : ∀ x ∈ lits, 0 < Item.weight x ∧ (Item.lit x).var < ManageVars.nUsed vm) :
      MonoReach same ⟨Encoder.new lits, vm, [], lits, []⟩ []
  | add (w : EncWorld E ι VM) (H : List (Nat × List Lit)) (lits : List ι) (hw : MonoReach same w H)
      (hd : LawfulItem.distinct lits)
      (h : ∀ x ∈ lits, 0 < Item.weight x ∧ (Item.lit x).var < ManageVars.nUsed w.vm ∧ (Item.lit x).var ∉ w.own) :
      MonoReach same { w with enc := Encoder.extend w.enc lits, ins := w.ins ++ lits } H
  | encodeUb (w : EncWorld E ι VM) (H : List (Nat × List Lit)) (r : URange) (e' : E) (vm' : VM) (cls' : ClauseSet)
      (hw : MonoReach same w H) (hs : BoundUpper.encodeUb w.enc r w.vm w.cls = some (e', vm', cls')) :
      MonoReach same ⟨e', vm', cls', w.ins, w.own ++ CardWorld.handedOut w.vm vm'⟩ H
  | encodeUbChange (w : EncWorld E ι VM) (H : List (Nat × List Lit)) (r : URange) (e' : E) (vm' : VM) (cls' : ClauseSet)
      (hw : MonoReach same w H) (hs : BoundUpper.encodeUbChange w.enc r w.vm w.cls = some (e', vm', cls')) :
      MonoReach same ⟨e', vm', cls', w.ins, w.own ++ CardWorld.handedOut w.vm vm'⟩ H
  | harden (w : EncWorld E ι VM) (H : List (Nat × List Lit)) (b : Nat) (A : List Lit) (hw : MonoReach same w H)
      (hA : EnforceUb.enforceUb w.enc b = .ok A) : MonoReach same w ((b, A) :: H)
  | rehash (w : EncWorld E ι VM) (H : List (Nat × List Lit)) (e' : E) (hw : MonoReach same w H) (hs : same w.enc e') :
      MonoReach same { w with enc := e' } H
  | useVars (w : EncWorld E ι VM) (H : List (Nat × List Lit)) (vm' : VM) (hw : MonoReach same w H)
      (hs : ManageVars.nUsed w.vm ≤ ManageVars.nUsed vm') : MonoReach same { w with vm := vm' } H

/-- The bounds `H` that were enforced permanently do not conflict with any assignment to the inputs that respects all
of them: it extends to a model of the clauses and of everything that was enforced. -/
def NoConflict {E ι VM : Type} [Item ι] (w : EncWorld E ι VM) (H : List (Nat × List Lit)) : Prop :=
  ∀ a : Asg, (∀ h ∈ H, Item.value a w.ins ≤ h.1) →
    ∃ m : Asg, (∀ v, v ∉ w.own → m v = a v) ∧ ClauseSet.sat m w.cls ∧ ∀ h ∈ H, cubeSat m h.2

/-- The laws of monotone encodings of upper bounds. There is a set of canonical assignments, which only gets smaller in
a history, that contains an extension of every assignment to the inputs, satisfies all clauses, and the enforced bounds
whenever the inputs respect them. -/
class LawfulMono (E : Type) (ι : outParam Type) (VM : Type) [ManageVars VM] [Item ι] [LawfulItem ι] [Encoder E ι]
    [BoundUpper E VM] [EnforceUb E] where
  Inv : E → Nat → ClauseSet → List ι → List Nat → (Asg → Prop) → Prop
  same : E → E → Prop
  new : ∀ (ins : List ι) n, LawfulItem.distinct ins → (∀ x ∈ ins, 0 < Item.weight x ∧ (Item.lit x).var < n) →
    ∃ C, Inv (Encoder.new ins) n [] ins [] C
  extend : ∀ e n cls ins own C (lits : List ι), Inv e n cls ins own C → LawfulItem.distinct lits →
    (∀ x ∈ lits, 0 < Item.weight x ∧ (Item.lit x).var < n ∧ (Item.lit x).var ∉ own) →
    Inv (Encoder.extend e lits) n cls (ins ++ lits) own C
  same_inv : ∀ e e' n cls ins own C, Inv e n cls ins own C → same e e' → Inv e' n cls ins own C
  more : ∀ e n n' cls ins own C, Inv e n cls ins own C → n ≤ n' → ∃ C', Inv e n' cls ins own C' ∧ ∀ m, C' m → C m
  encodeUb : ∀ e (vm : VM) cls ins own C r col, Inv e (ManageVars.nUsed vm) cls ins own C →
    ∃ e' vm' new C', BoundUpper.encodeUb e r vm col = some (e', vm', col ++ new) ∧
      ManageVars.nUsed vm ≤ ManageVars.nUsed vm' ∧
      Inv e' (ManageVars.nUsed vm') (cls ++ new) ins (own ++ CardWorld.handedOut vm vm') C' ∧ (∀ m, C' m → C m) ∧
      ∀ b, r.contains b → ∃ A, EnforceUb.enforceUb e' b = .ok A ∧
        ∀ m, ClauseSet.sat m (cls ++ new) → cubeSat m A → Item.value m ins ≤ b
  encodeUbChange : ∀ e (vm : VM) cls ins own C r col, Inv e (ManageVars.nUsed vm) cls ins own C →
    ∃ e' vm' new C', BoundUpper.encodeUbChange e r vm col = some (e', vm', col ++ new) ∧
      ManageVars.nUsed vm ≤ ManageVars.nUsed vm' ∧
      Inv e' (ManageVars.nUsed vm') (cls ++ new) ins (own ++ CardWorld.handedOut vm vm') C' ∧ (∀ m, C' m → C m) ∧
      ∀ b, r.contains b → ∃ A, EnforceUb.enforceUb e' b = .ok A ∧
        ∀ m, ClauseSet.sat m (cls ++ new) → cubeSat m A → Item.value m ins ≤ b
  canon_ext : ∀ e n cls ins own C, Inv e n cls ins own C → ∀ a : Asg, ∃ m : Asg, (∀ v, v ∉ own → m v = a v) ∧ C m
  canon_sat : ∀ e n cls ins own C, Inv e n cls ins own C → ∀ m, C m → ClauseSet.sat m cls
  canon_enforce : ∀ e n cls ins own C, Inv e n cls ins own C → ∀ b A, EnforceUb.enforceUb e b = .ok A →
    ∀ m, C m → Item.value m ins ≤ b → cubeSat m A
  ownLt : ∀ e n cls ins own C, Inv e n cls ins own C → ∀ v ∈ own, v < n
  disj : ∀ e n cls ins own C, Inv e n cls ins own C → ∀ v ∈ own, ¬ Item.vars ins v

end RustSat
