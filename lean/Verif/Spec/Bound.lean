import Verif.Spec.Gte
import Verif.Model.Bound
/-
What correct encodings are: the laws of the encoding traits, and histories of operations on any encoder.
-/
namespace RustSat
open Card

namespace Item
variable {ι : Type} [Item ι]

/-- The number (weighted sum) of true inputs. -/
def value (a : Asg) (ins : List ι) : Nat := (ins.map fun x => if (lit x).holds a then weight x else 0).sum

/-- The variables of the inputs. -/
def vars (ins : List ι) (v : Nat) : Prop := ∃ x ∈ ins, (lit x).var = v

end Item

/-- The laws of inputs. `distinct`: collecting does not drop repeated literals. -/
class LawfulItem (ι : Type) [Item ι] where
  distinct : List ι → Prop
  lit_neg : ∀ x : ι, Item.lit (Item.neg x) = (Item.lit x).neg
  weight_neg : ∀ x : ι, Item.weight (Item.neg x) = Item.weight x
  collect : ∀ l : List ι, distinct l → Item.collect l = l
  distinct_neg : ∀ l : List ι, distinct l → distinct (l.map Item.neg)

/-- Under the assumptions `A`, the clauses express `P` over the input variables `V`; `own` are auxiliary variables. -/
structure Enforces (cls : ClauseSet) (own : List Nat) (V : Nat → Prop) (A : List Lit) (P : Asg → Prop) : Prop where
  sound : ∀ m, ClauseSet.sat m cls → cubeSat m A → P m
  complete : ∀ a, P a → ∃ m, (∀ v, v ∉ own → m v = a v) ∧ ClauseSet.sat m cls ∧ cubeSat m A
  vars : ∀ l ∈ A, V l.var ∨ l.var ∈ own

/-- The laws of encoders: there is a relation `Inv` between the state of the encoder, the number of variables used, the
clauses it produced so far, all inputs added so far, and the variables it obtained from variable managers, that holds
initially, is preserved by all operations, and implies that clauses only use these variables and do not restrict the
inputs. `same` relates states that differ in the iteration order of hash maps only. -/
class LawfulEnc (E : Type) (ι : outParam Type) (VM : Type) [ManageVars VM] [Item ι] [LawfulItem ι] [Encoder E ι]
    [EncodeInc E VM] where
  Inv : E → Nat → ClauseSet → List ι → List Nat → Prop
  same : E → E → Prop
  new : ∀ (ins : List ι) n, LawfulItem.distinct ins → (∀ x ∈ ins, 0 < Item.weight x ∧ (Item.lit x).var < n) →
    Inv (Encoder.new ins) n [] ins []
  extend : ∀ e n cls ins own (lits : List ι), Inv e n cls ins own → LawfulItem.distinct lits →
    (∀ x ∈ lits, 0 < Item.weight x ∧ (Item.lit x).var < n ∧ (Item.lit x).var ∉ own) →
    Inv (Encoder.extend e lits) n cls (ins ++ lits) own
  reserve : ∀ e (vm : VM) cls ins own, Inv e (ManageVars.nUsed vm) cls ins own →
    ∃ e' vm', EncodeInc.reserve e vm = some (e', vm') ∧ ManageVars.nUsed vm ≤ ManageVars.nUsed vm' ∧
      Inv e' (ManageVars.nUsed vm') cls ins (own ++ CardWorld.handedOut vm vm')
  same_inv : ∀ e e' n cls ins own, Inv e n cls ins own → same e e' → Inv e' n cls ins own
  more : ∀ e n n' cls ins own, Inv e n cls ins own → n ≤ n' → Inv e n' cls ins own
  weightSum : ∀ e n cls ins own, Inv e n cls ins own → Encoder.weightSum e = Item.total ins
  ownLt : ∀ e n cls ins own, Inv e n cls ins own → ∀ v ∈ own, v < n
  disj : ∀ e n cls ins own, Inv e n cls ins own → ∀ v ∈ own, ¬ Item.vars ins v
  vars : ∀ e n cls ins own, Inv e n cls ins own → ∀ c ∈ cls, ∀ l ∈ c, Item.vars ins l.var ∨ l.var ∈ own
  free : ∀ e n cls ins own, Inv e n cls ins own → ∀ a : Asg, ∃ m : Asg, (∀ v, v ∉ own → m v = a v) ∧ ClauseSet.sat m cls

/-- What an encoding call guarantees: no panic, new clauses are added, the invariant is preserved, and `avail` holds. -/
def EncodeOk {E ι VM : Type} [ManageVars VM] (Inv : E → Nat → ClauseSet → List ι → List Nat → Prop)
    (f : VM → ClauseSet → Option (E × VM × ClauseSet)) (vm : VM) (cls : ClauseSet) (ins : List ι) (own : List Nat)
    (avail : E → Prop) : Prop :=
  ∀ col, ∃ e' vm' new, f vm col = some (e', vm', col ++ new) ∧ ManageVars.nUsed vm ≤ ManageVars.nUsed vm' ∧
    Inv e' (ManageVars.nUsed vm') (cls ++ new) ins (own ++ CardWorld.handedOut vm vm') ∧ avail e'

section
variable (E : Type) (ι : outParam Type) (VM : Type) [ManageVars VM] [Item ι] [LawfulItem ι] [Encoder E ι]
    [EncodeInc E VM]

/-- The laws of upper bound encodings. `ubOk`: the encoder accepts the range. -/
class LawfulUb [BoundUpper E VM] [EnforceUb E] [LawfulEnc E ι VM] where
  ubOk : E → URange → Prop
  encodeUb : ∀ (e : E) r (vm : VM) cls ins own, LawfulEnc.Inv VM e (ManageVars.nUsed vm) cls ins own → ubOk e r →
    EncodeOk (LawfulEnc.Inv VM) (BoundUpper.encodeUb e r) vm cls ins own fun e' =>
      ∀ b, r.contains b → ∃ A, EnforceUb.enforceUb e' b = .ok A
  encodeUbChange : ∀ (e : E) r (vm : VM) cls ins own, LawfulEnc.Inv VM e (ManageVars.nUsed vm) cls ins own → ubOk e r →
    EncodeOk (LawfulEnc.Inv VM) (BoundUpper.encodeUbChange e r) vm cls ins own fun e' =>
      ∀ b, r.contains b → ∃ A, EnforceUb.enforceUb e' b = .ok A
  ub_total : ∀ (e : E) n cls ins own b, LawfulEnc.Inv VM e n cls ins own →
    (∃ A, EnforceUb.enforceUb e b = .ok A) ∨ EnforceUb.enforceUb e b = .err .notEncoded
  ub_max : ∀ (e : E) n cls ins own b, LawfulEnc.Inv VM e n cls ins own → Item.total ins ≤ b →
    ∃ A, EnforceUb.enforceUb e b = .ok A
  enforceUb : ∀ (e : E) n cls ins own b A, LawfulEnc.Inv VM e n cls ins own → EnforceUb.enforceUb e b = .ok A →
    Enforces cls own (Item.vars ins) A fun a => Item.value a ins ≤ b

/-- The laws of lower bound encodings. -/
class LawfulLb [BoundLower E VM] [EnforceLb E] [LawfulEnc E ι VM] where
  lbOk : E → URange → Prop
  encodeLb : ∀ (e : E) r (vm : VM) cls ins own, LawfulEnc.Inv VM e (ManageVars.nUsed vm) cls ins own → lbOk e r →
    EncodeOk (LawfulEnc.Inv VM) (BoundLower.encodeLb e r) vm cls ins own fun e' =>
      ∀ b, r.contains b → b ≤ Item.total ins → ∃ A, EnforceLb.enforceLb e' b = .ok A
  encodeLbChange : ∀ (e : E) r (vm : VM) cls ins own, LawfulEnc.Inv VM e (ManageVars.nUsed vm) cls ins own → lbOk e r →
    EncodeOk (LawfulEnc.Inv VM) (BoundLower.encodeLbChange e r) vm cls ins own fun e' =>
      ∀ b, r.contains b → b ≤ Item.total ins → ∃ A, EnforceLb.enforceLb e' b = .ok A
  lb_total : ∀ (e : E) n cls ins own b, LawfulEnc.Inv VM e n cls ins own →
    (Item.total ins < b ∧ EnforceLb.enforceLb e b = .err .unsat) ∨
    (b ≤ Item.total ins ∧ ((∃ A, EnforceLb.enforceLb e b = .ok A) ∨ EnforceLb.enforceLb e b = .err .notEncoded))
  enforceLb : ∀ (e : E) n cls ins own b A, LawfulEnc.Inv VM e n cls ins own → EnforceLb.enforceLb e b = .ok A →
    Enforces cls own (Item.vars ins) A fun a => b ≤ Item.value a ins

/-- The laws of encodings of both bounds. -/
class LawfulBoth [BoundBoth E VM] [EnforceEq E] [LawfulEnc E ι VM] where
  bothOk : E → URange → Prop
  encodeBoth : ∀ (e : E) r (vm : VM) cls ins own, LawfulEnc.Inv VM e (ManageVars.nUsed vm) cls ins own → bothOk e r →
    EncodeOk (LawfulEnc.Inv VM) (BoundBoth.encodeBoth e r) vm cls ins own fun e' =>
      ∀ b, r.contains b → b ≤ Item.total ins → ∃ A, EnforceEq.enforceEq e' b = .ok A
  encodeBothChange : ∀ (e : E) r (vm : VM) cls ins own, LawfulEnc.Inv VM e (ManageVars.nUsed vm) cls ins own →
    bothOk e r → EncodeOk (LawfulEnc.Inv VM) (BoundBoth.encodeBothChange e r) vm cls ins own fun e' =>
      ∀ b, r.contains b → b ≤ Item.total ins → ∃ A, EnforceEq.enforceEq e' b = .ok A
  eq_total : ∀ (e : E) n cls ins own b, LawfulEnc.Inv VM e n cls ins own →
    (Item.total ins < b ∧ EnforceEq.enforceEq e b = .err .unsat) ∨
    (b ≤ Item.total ins ∧ ((∃ A, EnforceEq.enforceEq e b = .ok A) ∨ EnforceEq.enforceEq e b = .err .notEncoded))
  enforceEq : ∀ (e : E) n cls ins own b A, LawfulEnc.Inv VM e n cls ins own → EnforceEq.enforceEq e b = .ok A →
    Enforces cls own (Item.vars ins) A fun a => Item.value a ins = b

end

/-! ### Histories -/

/-- The state of the system: the encoder, the variable manager, all clauses collected so far, and — as ghost state —
all inputs added so far and the variables that the manager handed out to the encoder. -/
structure EncWorld (E ι VM : Type) where
  enc : E
  vm : VM
  cls : ClauseSet
  ins : List ι
  own : List Nat

/-- The states reachable by histories of operations. `calls e f`: in the state `e` the user may make the call `f`.
Literals are added with positive weight; their variables are known to the variable manager and were not handed out to
the encoder itself; the variable manager never forgets variables. -/
inductive EncReach {E ι VM : Type} [ManageVars VM] [Item ι] [LawfulItem ι] [Encoder E ι] [EncodeInc E VM]
    (same : E → E → Prop) (calls : E → (VM → ClauseSet → Option (E × VM × ClauseSet)) → Prop) : EncWorld E ι VM → Prop
  | start (lits : List ι) (vm : VM) (hd : LawfulItem.distinct lits)
      (h : ∀ x ∈ lits, 0 < Item.weight x ∧ (Item.lit x).var < ManageVars.nUsed vm) :
      EncReach same calls ⟨Encoder.new lits, vm, [], lits, []⟩
  | add (w : EncWorld E ι VM) (lits : List ι) (hw : EncReach same calls w) (hd : LawfulItem.distinct lits)
      (h : ∀ x ∈ lits, 0 < Item.weight x ∧ (Item.lit x).var < ManageVars.nUsed w.vm ∧ (Item.lit x).var ∉ w.own) :
      EncReach same calls { w with enc := Encoder.extend w.enc lits, ins := w.ins ++ lits }
  | call (w : EncWorld E ι VM) (f : VM → ClauseSet → Option (E × VM × ClauseSet)) (e' : E) (vm' : VM) (cls' : ClauseSet)
      (hw : EncReach same calls w) (hf : calls w.enc f) (hs : f w.vm w.cls = some (e', vm', cls')) :
      EncReach same calls ⟨e', vm', cls', w.ins, w.own ++ CardWorld.handedOut w.vm vm'⟩
  | reserve (w : EncWorld E ι VM) (e' : E) (vm' : VM) (hw : EncReach same calls w)
      (hs : EncodeInc.reserve w.enc w.vm = some (e', vm')) :
      EncReach same calls ⟨e', vm', w.cls, w.ins, w.own ++ CardWorld.handedOut w.vm vm'⟩
  | rehash (w : EncWorld E ι VM) (e' : E) (hw : EncReach same calls w) (hs : same w.enc e') :
      EncReach same calls { w with enc := e' }
  | useVars (w : EncWorld E ι VM) (vm' : VM) (hw : EncReach same calls w)
      (hs : ManageVars.nUsed w.vm ≤ ManageVars.nUsed vm') : EncReach same calls { w with vm := vm' }

/-- The calls encoding upper bounds. -/
def ubCalls {E ι VM : Type} [ManageVars VM] [Item ι] [LawfulItem ι] [Encoder E ι] [EncodeInc E VM] [BoundUpper E VM]
    [EnforceUb E] [LawfulEnc E ι VM] [LawfulUb E ι VM] (e : E) (f : VM → ClauseSet → Option (E × VM × ClauseSet)) : Prop :=
  ∃ r, LawfulUb.ubOk VM e r ∧ (f = BoundUpper.encodeUb e r ∨ f = BoundUpper.encodeUbChange e r)

/-- The calls encoding lower bounds. -/
def lbCalls {E ι VM : Type} [ManageVars VM] [Item ι] [LawfulItem ι] [Encoder E ι] [EncodeInc E VM] [BoundLower E VM]
    [EnforceLb E] [LawfulEnc E ι VM] [LawfulLb E ι VM] (e : E) (f : VM → ClauseSet → Option (E × VM × ClauseSet)) : Prop :=
  ∃ r, LawfulLb.lbOk VM e r ∧ (f = BoundLower.encodeLb e r ∨ f = BoundLower.encodeLbChange e r)

/-- The calls encoding both bounds. -/
def bothCalls {E ι VM : Type} [ManageVars VM] [Item ι] [LawfulItem ι] [Encoder E ι] [EncodeInc E VM] [BoundBoth E VM]
    [EnforceEq E] [LawfulEnc E ι VM] [LawfulBoth E ι VM] (e : E) (f : VM → ClauseSet → Option (E × VM × ClauseSet)) : Prop :=
  ∃ r, LawfulBoth.bothOk VM e r ∧ (f = BoundBoth.encodeBoth e r ∨ f = BoundBoth.encodeBothChange e r)

end RustSat
