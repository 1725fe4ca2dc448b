import Verif.Model.PyEnc
import Verif.Spec.Bound
import Verif.Spec.Totalizer
/-
Python programs that use one of the encodings.
-/
namespace RustSat

/-- A formula (all clauses together) and assumptions enforce a condition on the weighted sum of the input literals: the
condition holds in all models of the formula and the assumptions, and every assignment with this condition can be extended to
a model by values for the variables in `own`. -/
def PyEnforces (cls : ClauseSet) (own : List Nat) (ins : List (Lit × Nat)) (P : Nat → Prop) (A : List Lit) : Prop :=
  (∀ m, ClauseSet.sat m cls → cubeSat m A → P (wsum m ins)) ∧
  (∀ a, P (wsum a ins) → ∃ m, (∀ v, v ∉ own → m v = a v) ∧ ClauseSet.sat m cls ∧ cubeSat m A)

/-- The calls of a Python program to an encoding and to its variable manager. -/
inductive PyCall where
  | extend (xs : List (Lit × Nat))
  | encodeUb (lo hi : Nat)
  | encodeLb (lo hi : Nat)
  | encodeBoth (lo hi : Nat)
  | newVar
  | increaseUsed (n : Nat)
  /-- the order of iteration of the hash map in the encoder changes -/
  | rehash (buffer : LitMap)

/-- The state of a Python program: the encoding, the variable manager and all CNFs returned by encoding methods, and — to
state what is expected — all inputs, the variables handed out to the encoding, the bounds in the ranges of calls since the
last literal was added, and whether lower bounds were encoded. -/
structure PyEncWorld where
  enc : PyEnc
  vm : PyVarManager
  cnfs : List (PySeq Clause)
  ins : List (Lit × Nat)
  own : List Nat
  ub : Nat → Prop
  lb : Nat → Prop
  lbUsed : Bool

namespace PyEncWorld

/-- All clauses of all CNFs. -/
def formula (w : PyEncWorld) : ClauseSet := w.cnfs.flatMap (·.items)

/-- The sum of all weights. -/
def total (w : PyEncWorld) : Nat := (w.ins.map (·.2)).sum

/-- The state after an encoding method. -/
def encoded (w : PyEncWorld) (r : Option (PySeq Clause × PyEnc × PyVarManager)) (ub lb : Nat → Prop) (lbUsed : Bool) :
    Option PyEncWorld :=
  r.map fun x => { enc := x.2.1, vm := x.2.2, cnfs := w.cnfs ++ [x.1], ins := w.ins,
                   own := w.own ++ List.range' w.vm.nUsed (x.2.2.nUsed - w.vm.nUsed), ub := ub, lb := lb, lbUsed := lbUsed }

/-- The encoder with another order of its hash map. -/
def rehashed : PyEnc → LitMap → PyEnc
  | .gte g, b => .gte { g with litBuffer := b }
  | .adder a, b => .adder { a with litBuffer := b }
  | e, _ => e

/-- Performing a call; `none` if it panics. -/
def step (w : PyEncWorld) : PyCall → Option PyEncWorld
  | .extend xs => some { w with enc := w.enc.extend xs, ins := w.ins ++ xs, ub := fun b => w.ub b ∧ xs = [], lb := fun b => w.lb b ∧ xs = [] }
  | .encodeUb lo hi => w.encoded (w.enc.encodeUb lo hi w.vm) (fun b => w.ub b ∨ (lo ≤ b ∧ b ≤ hi)) w.lb w.lbUsed
  | .encodeLb lo hi => w.encoded (w.enc.encodeLb lo hi w.vm) w.ub (fun b => w.lb b ∨ (lo ≤ b ∧ b ≤ hi)) true
  | .encodeBoth lo hi =>
    w.encoded (w.enc.encodeBoth lo hi w.vm) (fun b => w.ub b ∨ (lo ≤ b ∧ b ≤ hi)) (fun b => w.lb b ∨ (lo ≤ b ∧ b ≤ hi)) true
  | .newVar => some { w with vm := w.vm.newVar.2 }
  | .increaseUsed n => some { w with vm := (w.vm.increaseUsed n).2 }
  | .rehash b => some { w with enc := rehashed w.enc b }

/-- What a user has to respect: weights are positive (and 1 for the totalizer), variables of inputs are known to the
variable manager and were not handed out to the encoding; the largest `usize` is not used as a bound
(`C92_violated_largest_bound`); methods exist; the adder does not encode upper bounds after lower bounds
(`C92_violated_adder_repeat`). -/
def allowed (w : PyEncWorld) : PyCall → Prop
  | .extend xs =>
    (∀ x ∈ xs, 0 < x.2 ∧ x.1.var < w.vm.nUsed ∧ x.1.var ∉ w.own) ∧
    match w.enc with
    | .tot _ => ∀ x ∈ xs, x.2 = 1
    | .dpw _ => False
    | _ => True
  | .encodeUb _ hi => hi < Capi.sizeMax ∧ match w.enc with | .adder _ => w.lbUsed = false | _ => True
  | .encodeLb _ hi => hi < Capi.sizeMax ∧ match w.enc with | .tot _ => True | .adder _ => True | _ => False
  | .encodeBoth _ hi => hi < Capi.sizeMax ∧ match w.enc with | .tot _ => True | .adder _ => w.lbUsed = false | _ => False
  | .newVar => True
  | .increaseUsed _ => True
  | .rehash b => match w.enc with | .gte g => b.Perm g.litBuffer | .adder a => b.Perm a.litBuffer | _ => False

/-- A new object. -/
def start (e : PyEnc) (n : Nat) (ins : List (Lit × Nat)) : PyEncWorld :=
  ⟨e, PyVarManager.new n, [], ins, [], fun _ => False, fun _ => False, false⟩

/-- The states of programs of allowed calls, from an object created with literals that have positive weights, are known to the variable
manager and (except for the totalizer) are distinct. -/
inductive Reach : PyEncWorld → Prop
  | tot (lits : List Lit) (n : Nat) (h : ∀ l ∈ lits, l.var < n) : Reach (start (.newTot lits) n (lits.map fun l => (l, 1)))
  | gte (lits : List (Lit × Nat)) (n : Nat) (hn : (lits.map (·.1)).Nodup) (h : ∀ x ∈ lits, 0 < x.2 ∧ x.1.var < n) :
      Reach (start (.newGte lits) n lits)
  | adder (lits : List (Lit × Nat)) (n : Nat) (hn : (lits.map (·.1)).Nodup) (h : ∀ x ∈ lits, 0 < x.2 ∧ x.1.var < n) :
      Reach (start (.newAdder lits) n lits)
  | dpw (lits : List (Lit × Nat)) (n : Nat) (e : PyEnc) (hn : (lits.map (·.1)).Nodup) (h : ∀ x ∈ lits, 0 < x.2 ∧ x.1.var < n)
      (he : PyEnc.newDpw lits = some e) : Reach (start e n lits)
  | step (w w' : PyEncWorld) (call : PyCall) (h : Reach w) (ha : w.allowed call) (hs : w.step call = some w') : Reach w'

/-- The upper bounds that are enforced: all for the totalizers and the watchdog, for the adder those in the ranges of
calls since the last literal was added (`C92_violated_adder_waiting`). -/
def ubSafe (w : PyEncWorld) (b : Nat) : Prop := match w.enc with | .adder _ => w.ub b | _ => True

/-- The lower bounds that are enforced: all for the totalizer; for the adder those in the ranges of calls since the last
literal was added, unless the upper bound below was encoded. -/
def lbSafe (w : PyEncWorld) (b : Nat) : Prop := match w.enc with | .adder _ => w.lb b ∧ ¬ w.ub (b - 1) ∧ b ≤ w.total | _ => True

end PyEncWorld
end RustSat
