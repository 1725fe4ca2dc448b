import Verif.Spec.Totalizer
import Verif.Spec.Gte
import Verif.Spec.Dpw
import Verif.Model.Referenced
/-
Histories of operations on a database of totalizers that is shared by several encodings.
-/
namespace RustSat
open TotDb Card

/-- The operations on a shared database: building trees in it, and the calls on encodings that reference it. -/
inductive SharedOp (VM : Type) where
  /-- a tree that counts literals -/
  | litTree (lits : List Lit)
  /-- a tree that adds up the weights of literals -/
  | weightedLitTree (lits : List (Lit × Nat))
  /-- a tree that counts the literals of several trees -/
  | join (trees : List (Nat × List Lit))
  | totUb (root : Nat) (r : URange)
  | totUbChange (root : Nat) (r : URange)
  | totLb (root : Nat) (r : URange)
  | totLbChange (root : Nat) (r : URange)
  | totBoth (root : Nat) (r : URange)
  | totReserve (root : Nat)
  | gteUb (root : NodeCon) (maxLeafWeight : Nat) (r : URange)
  | gteUbChange (root : NodeCon) (maxLeafWeight : Nat) (r : URange)
  | gteReserve (root : NodeCon)
  /-- a watchdog for weighted literals -/
  | watchdog (lits : List (Lit × Nat)) (precDiv : Nat)
  /-- a watchdog for the literals of several trees, each with a weight -/
  | watchdogOf (trees : List ((Nat × List Lit) × Nat)) (precDiv : Nat)
  | dogUb (s : Dpw.Structure) (r : URange)
  | dogUbChange (s : Dpw.Structure) (r : URange)
  | dogReserve (s : Dpw.Structure)
  /-- the user uses the variable manager for other purposes -/
  | useVars (vm : VM)
  /-- all outputs lose their variables, and the user starts again with another variable manager and no clauses -/
  | resetVars (vm : VM)

/-- Operations that do not build anything. -/
def SharedOp.isCall {VM : Type} : SharedOp VM → Bool
  | .litTree _ | .weightedLitTree _ | .join _ | .watchdog _ _ | .watchdogOf _ _ => false
  | _ => true

/-- The state: the database, the variable manager, all clauses collected so far, and — as ghost state — the literals in trees, the variables
handed out to the encodings, the trees and watchdogs with the literals they were built for, and the bounds covered by calls to encode functions. -/
structure SharedWorld (VM : Type) where
  db : Db
  vm : VM
  cls : ClauseSet
  ins : List Lit
  own : List Nat
  cards : List (Nat × List Lit)
  sums : List (NodeCon × List (Lit × Nat))
  ub : Nat → Nat → Prop
  lb : Nat → Nat → Prop
  wub : NodeCon → Nat → Nat → Prop
  dogs : List (Dpw.Structure × List (Lit × Nat))
  dub : Dpw.Structure → Nat → Prop

namespace SharedWorld
variable {VM : Type} [ManageVars VM]

/-- An empty database. -/
def start (vm : VM) : SharedWorld VM :=
  ⟨Db.empty, vm, [], [], [], [], [], fun _ _ => False, fun _ _ => False, fun _ _ _ => False, [], fun _ _ => False⟩

/-- The state of the database, the variable manager and the collector. -/
def st (w : SharedWorld VM) : St VM := ⟨w.db, w.vm, w.cls⟩

/-- The state after a call on an encoding. -/
def called (w : SharedWorld VM) (r : Option (St VM)) (ub lb : Nat → Nat → Prop) (wub : NodeCon → Nat → Nat → Prop) : Option (SharedWorld VM) :=
  r.map fun st => { w with db := st.db, vm := st.vm, cls := st.cls, own := w.own ++ CardWorld.handedOut w.vm st.vm, ub := ub, lb := lb, wub := wub }

/-- Covering more bounds of one encoding. -/
def also (p : Nat → Nat → Prop) (root : Nat) (r : URange) : Nat → Nat → Prop := fun id b => p id b ∨ (id = root ∧ r.contains b)

/-- Covering more bounds of one weighted encoding. -/
def alsoW (p : NodeCon → Nat → Nat → Prop) (root : NodeCon) (M : Nat) (r : URange) : NodeCon → Nat → Nat → Prop :=
  fun con M' b => p con M' b ∨ (con = root ∧ M' = M ∧ r.contains b)

/-- Covering more bounds of one watchdog. -/
def alsoD (p : Dpw.Structure → Nat → Prop) (s : Dpw.Structure) (r : URange) : Dpw.Structure → Nat → Prop := fun s' b => p s' b ∨ (s' = s ∧ r.contains b)

/-- The literals of weighted trees. -/
def treeLits (trees : List ((Nat × List Lit) × Nat)) : List (Lit × Nat) := trees.flatMap fun t => t.1.2.map (·, t.2)

/-- The state after building a watchdog. -/
def built (w : SharedWorld VM) (r : Option (Dpw.Structure × St VM)) (lits : List (Lit × Nat)) : Option (SharedWorld VM) :=
  r.map fun (s, st) => { w with db := st.db, vm := st.vm, cls := st.cls, ins := w.ins ++ lits.map (·.1),
                                own := w.own ++ CardWorld.handedOut w.vm st.vm, dogs := w.dogs ++ [(s, lits)] }

/-- No bound is covered. -/
def nothing : Nat → Nat → Prop := fun _ _ => False

/-- No bound is covered. -/
def nothingW : NodeCon → Nat → Nat → Prop := fun _ _ _ => False

/-- The variables that watchdogs got when they were built. They are inputs of trees and are kept when outputs lose their variables. -/
def tareVars (w : SharedWorld VM) : List Nat := w.dogs.flatMap fun x => x.1.tares.map Lit.var

/-- Performing an operation; `none` if it panics. `encode_ub` forgets about all earlier upper bounds in the database, `encode_lb` about
all earlier lower bounds, the other calls add to what is available. Bounds of watchdogs are not forgotten as long as all clauses are kept. -/
def step (w : SharedWorld VM) : SharedOp VM → Option (SharedWorld VM)
  | .litTree lits =>
    match TotDb.litTree w.db lits with
    | (none, db) => some { w with db := db }
    | (some id, db) => some { w with db := db, ins := w.ins ++ lits, cards := w.cards ++ [(id, lits)] }
  | .weightedLitTree lits =>
    match TotDb.weightedLitTree w.db lits with
    | none => none
    | some (none, db) => some { w with db := db }
    | some (some con, db) => some { w with db := db, ins := w.ins ++ lits.map (·.1), sums := w.sums ++ [(con, lits)] }
  | .join trees =>
    match TotDb.merge w.db (trees.map fun t => NodeCon.full t.1) with
    | (none, db) => some { w with db := db }
    | (some con, db) => some { w with db := db, cards := w.cards ++ [(con.id, trees.flatMap (·.2))] }
  | .totUb root r => w.called (RefTot.encodeUb root r w.st) (also nothing root r) w.lb nothingW
  | .totUbChange root r => w.called (RefTot.encodeUbChange root r w.st) (also w.ub root r) w.lb w.wub
  | .totLb root r => w.called (RefTot.encodeLb root r w.st) w.ub (also nothing root r) w.wub
  | .totLbChange root r => w.called (RefTot.encodeLbChange root r w.st) w.ub (also w.lb root r) w.wub
  | .totBoth root r => w.called (RefTot.encodeBoth root r w.st) (also w.ub root r) (also w.lb root r) w.wub
  | .totReserve root => w.called (RefTot.reserve root w.st) w.ub w.lb w.wub
  | .gteUb con M r => w.called (RefGte.encodeUb con M r w.st) nothing w.lb (alsoW nothingW con M r)
  | .gteUbChange con M r => w.called (RefGte.encodeUbChange con M r w.st) w.ub w.lb (alsoW w.wub con M r)
  | .gteReserve con => w.called (RefGte.reserve con w.st) w.ub w.lb w.wub
  | .watchdog lits d => w.built (RefDpw.ofLits lits d w.st) lits
  | .watchdogOf trees d => w.built (RefDpw.ofTrees (trees.map fun t => (t.1.1, t.2)) d w.st) (treeLits trees)
  | .dogUb s r => ({ w with dub := alsoD w.dub s r } : SharedWorld VM).called (RefDpw.encodeUb s r w.st) nothing w.lb nothingW
  | .dogUbChange s r => ({ w with dub := alsoD w.dub s r } : SharedWorld VM).called (RefDpw.encodeUbChange s r w.st) w.ub w.lb w.wub
  | .dogReserve s => w.called (RefDpw.reserve s w.st) w.ub w.lb w.wub
  | .useVars vm => some { w with vm := vm }
  | .resetVars vm => some { w with db := w.db.resetVars, vm := vm, cls := [], own := w.tareVars, ub := nothing, lb := nothing, wub := nothingW, dub := fun _ _ => False }

/-- The root of a tree that counts literals. -/
def isCard (w : SharedWorld VM) (root : Nat) : Prop := ∃ lits, (root, lits) ∈ w.cards

/-- The root of a tree that adds up weights, none of which is above the maximum. -/
def isSum (w : SharedWorld VM) (root : NodeCon) (M : Nat) : Prop := ∃ lits, (root, lits) ∈ w.sums ∧ ∀ x ∈ lits, x.2 ≤ M

/-- A watchdog that was built. -/
def isDog (w : SharedWorld VM) (s : Dpw.Structure) : Prop := ∃ lits, (s, lits) ∈ w.dogs

/-- What a user has to respect: the variables of literals are known to the variable manager and were not handed out to the encodings; weights
are positive; encodings reference roots of trees, or watchdogs that were built; the precision divisor of a watchdog is a power of two and not above
all weights; the variable manager never forgets variables, and one that replaces it knows the variables of inputs and of watchdogs. -/
def allowed (w : SharedWorld VM) : SharedOp VM → Prop
  | .litTree lits => ∀ l ∈ lits, l.var < ManageVars.nUsed w.vm ∧ l.var ∉ w.own
  | .weightedLitTree lits => ∀ x ∈ lits, 0 < x.2 ∧ x.1.var < ManageVars.nUsed w.vm ∧ x.1.var ∉ w.own
  | .join trees => ∀ t ∈ trees, t ∈ w.cards
  | .totUb root _ | .totUbChange root _ | .totLb root _ | .totLbChange root _ | .totBoth root _ | .totReserve root => w.isCard root
  | .gteUb con M _ | .gteUbChange con M _ => w.isSum con M
  | .gteReserve con => ∃ lits, (con, lits) ∈ w.sums
  | .watchdog lits d => (∀ x ∈ lits, 0 < x.2 ∧ x.1.var < ManageVars.nUsed w.vm ∧ x.1.var ∉ w.own) ∧ (d ≤ 1 ∨ isPow2 d = true) ∧ ∃ x ∈ lits, d ≤ x.2
  | .watchdogOf trees d => (∀ t ∈ trees, 0 < t.2 ∧ t.1 ∈ w.cards) ∧ (d ≤ 1 ∨ isPow2 d = true) ∧ ∃ t ∈ trees, d ≤ t.2
  | .dogUb s _ | .dogUbChange s _ | .dogReserve s => w.isDog s
  | .useVars vm => ManageVars.nUsed w.vm ≤ ManageVars.nUsed vm
  | .resetVars vm => (∀ l ∈ w.ins, l.var < ManageVars.nUsed vm) ∧ ∀ v ∈ w.tareVars, v < ManageVars.nUsed vm

/-- The states reachable by a history of allowed operations that satisfy `R`. -/
inductive Reach (R : SharedOp VM → Prop) : SharedWorld VM → Prop
  | start (vm : VM) : Reach R (start vm)
  | step (w w' : SharedWorld VM) (op : SharedOp VM) (h : Reach R w) (hr : R op) (ha : w.allowed op) (hs : w.step op = some w') : Reach R w'

/-- Bounds that can be enforced. -/
inductive Bound where
  | ub (root : Nat) (b : Nat)
  | lb (root : Nat) (b : Nat)
  | sum (root : NodeCon) (maxLeafWeight : Nat) (b : Nat)
  | dog (s : Dpw.Structure) (b : Nat)

/-- The assumptions for a bound. -/
def assumptions (w : SharedWorld VM) : Bound → Res EnforceError (List Lit)
  | .ub root b => RefTot.enforceUb w.db root b
  | .lb root b => RefTot.enforceLb w.db root b
  | .sum con M b => RefGte.enforceUb w.db con M b
  | .dog s b => RefDpw.enforceUb w.db s b

/-- The meaning of a bound. For watchdogs with reduced precision, weights are divided by the precision divisor. -/
def meets (w : SharedWorld VM) (a : Asg) : Bound → Prop
  | .ub root b => ∀ lits, (root, lits) ∈ w.cards → countTrue a lits ≤ b
  | .lb root b => ∀ lits, (root, lits) ∈ w.cards → b ≤ countTrue a lits
  | .sum con _ b => ∀ lits, (con, lits) ∈ w.sums → wsum a lits ≤ b
  | .dog s b => ∀ lits, (s, lits) ∈ w.dogs → wsum a (divided s.precDiv lits) ≤ b

/-- Bounds reference roots of trees, or watchdogs. -/
def proper (w : SharedWorld VM) : Bound → Prop
  | .ub root _ => w.isCard root
  | .lb root _ => w.isCard root
  | .sum con M _ => w.isSum con M
  | .dog s _ => w.isDog s

/-- Bounds that were covered by the calls to encode functions. -/
def covered (w : SharedWorld VM) : Bound → Prop
  | .ub root b => w.ub root b
  | .lb root b => w.lb root b
  | .sum con M b => w.wub con M b
  | .dog s b => w.dub s b

end SharedWorld
end RustSat
