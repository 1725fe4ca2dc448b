import Verif.Model.Atomics
import Verif.Model.VarManager
/-
Model of the at-most-one encodings (src/encodings/am1/*.rs) and of `utils::digits` (src/utils.rs).

An encoder is a function from the input literals and the variable manager to the clauses handed to the
collector (in order) and the new manager. Out-of-memory errors of the collector are not modelled. Indices are
in range wherever the code indexes (`C26_product_in_range` for the only non-obvious case), so `List.getD` is
used for indexing.
-/
namespace RustSat

/-- The loop `while number > 0 { digits += 1; number = f(number) }` of `digits` (utils.rs l.30-38). `fuel`
bounds the number of iterations; each iteration decreases the number. -/
def digitsLoop (f : Nat → Nat) : Nat → Nat → Nat
  | 0, _ => 0
  | fuel + 1, n => if n > 0 then 1 + digitsLoop f fuel (f n) else 0
/-- The loop computing the exponent of a power-of-two basis (utils.rs l.24-29): `pow` is the number of
iterations of `while basis > 0 { pow += 1; basis >>= 1 }` after one initial shift. -/
def powLoop : Nat → Nat → Nat
  | 0, _ => 0
  | fuel + 1, b => if b > 0 then 1 + powLoop fuel (b >>> 1) else 0
/-- `u8::is_power_of_two` for a positive number. -/
def isPow2 (b : Nat) : Bool := (b &&& (b - 1)) == 0
/-- `digits(number, basis)` (utils.rs l.11-40) for `basis > 0`. -/
def digits (number basis : Nat) : Nat :=
  if number = 0 then 1
  else if basis = 1 then max number 1
  else if isPow2 basis then
    let pow := powLoop basis (basis >>> 1)
    digitsLoop (fun n => n >>> pow) number number
  else digitsLoop (fun n => n / basis) number number

namespace Am1
variable {VM : Type} [ManageVars VM]

/-- `(0..k).map(|_| var_manager.new_var()).collect()`. -/
def newVars : Nat → VM → List Nat × VM
  | 0, vm => ([], vm)
  | k + 1, vm =>
    let (v, vm) := ManageVars.newVar vm
    let (vs, vm) := newVars k vm
    (v :: vs, vm)
/-- `(0..k).map(|_| var_manager.new_lit()).collect()`. -/
def newLits : Nat → VM → List Lit × VM
  | 0, vm => ([], vm)
  | k + 1, vm =>
    let (l, vm) := ManageVars.newLit vm
    let (ls, vm) := newLits k vm
    (l :: ls, vm)

/-- An encoder seen from the outside: build it from literals, then `encode`. -/
abbrev SubEnc (VM : Type) := List Lit → VM → ClauseSet × VM

/-- `Pairwise::encode` (pairwise.rs l.34-50). The two nested index loops are a recursion over suffixes. -/
def pairwiseCls : List Lit → ClauseSet
  | [] => []
  | l :: ls => (ls.map fun k => [l.neg, k.neg]) ++ pairwiseCls ls
/-- `Pairwise::encode` (pairwise.rs l.34-50). -/
def pairwise : SubEnc VM := fun lits vm => (pairwiseCls lits, vm)

/-- The clauses of `Ladder::encode` (ladder.rs l.51-71). -/
def ladderCls (lits aux : List Lit) : ClauseSet :=
  ((List.range (lits.length - 2)).map fun i =>
    Atomics.litImplLit (aux.getD (i + 1) (Lit.pos 0)) (aux.getD i (Lit.pos 0))) ++
  (List.range lits.length).flatMap fun i =>
    Atomics.litImplCube (lits.getD i (Lit.pos 0))
      ((if i > 0 then [aux.getD (i - 1) (Lit.pos 0)] else []) ++
       (if i < aux.length then [(aux.getD i (Lit.pos 0)).neg] else []))
/-- `Ladder::encode` (ladder.rs l.36-79). -/
def ladder : SubEnc VM := fun lits vm =>
  if lits.length ≤ 1 then ([], vm)
  else
    let (aux, vm) := newLits (lits.length - 1) vm
    (ladderCls lits aux, vm)

/-- The literal `aux_vars[k].lit(idx & (1 << k) == 0)` (bitwise.rs l.57, bimander.rs l.69). -/
def bitLit (aux : List Nat) (idx k : Nat) : Lit := Lit.mk' (aux.getD k 0) ((idx &&& (1 <<< k)) == 0)

/-- The clauses of `Bitwise::encode` (bitwise.rs l.56-62). -/
def bitwiseCls (lits : List Lit) (aux : List Nat) (p : Nat) : ClauseSet :=
  (List.range lits.length).flatMap fun i =>
    (List.range p).map fun k => Atomics.litImplLit (lits.getD i (Lit.pos 0)) (bitLit aux i k)
/-- `Bitwise::encode` (bitwise.rs l.40-67). -/
def bitwise : SubEnc VM := fun lits vm =>
  if lits.length ≤ 1 then ([], vm)
  else
    let p := digits (lits.length - 1) 2
    let (aux, vm) := newVars p vm
    (bitwiseCls lits aux p, vm)

/-- `usize::div_ceil`. -/
def divCeil (a b : Nat) : Nat := (a + b - 1) / b

/-- The slice `in_lits[split * N..min(len, (split + 1) * N)]` (bimander.rs l.67, commander.rs l.66). -/
def chunk (lits : List Lit) (n split : Nat) : List Lit := (lits.drop (split * n)).take n

/-- The loop over the splits (bimander.rs l.66-74, commander.rs l.65-71): first the clauses `pre split`, then
the sub-encoding of the split. -/
def splitLoop (sub : SubEnc VM) (pre : Nat → ClauseSet) (part : Nat → List Lit) : List Nat → VM → ClauseSet × VM
  | [], vm => ([], vm)
  | s :: rest, vm =>
    let (c1, vm) := sub (part s) vm
    let (c2, vm) := splitLoop sub pre part rest vm
    (pre s ++ c1 ++ c2, vm)

/-- `Bimander::encode` (bimander.rs l.47-79). -/
def bimander (n : Nat) (sub : SubEnc VM) : SubEnc VM := fun lits vm =>
  if lits.length ≤ 1 then ([], vm)
  else
    let nSplits := divCeil lits.length n
    let p := digits (nSplits - 1) 2
    let (aux, vm) := newVars p vm
    splitLoop sub
      (fun s => (List.range p).flatMap fun k => Atomics.clauseImplLit (chunk lits n s) (bitLit aux s k))
      (chunk lits n) (List.range nSplits) vm

/-- `Commander::encode` (commander.rs l.47-79). -/
def commander (n : Nat) (sub : SubEnc VM) : SubEnc VM := fun lits vm =>
  if lits.length ≤ 1 then ([], vm)
  else
    let nSplits := divCeil lits.length n
    let (cmd, vm) := newLits nSplits vm
    let (c1, vm) := splitLoop sub (fun s => Atomics.clauseImplLit (chunk lits n s) (cmd.getD s (Lit.pos 0)))
      (chunk lits n) (List.range nSplits) vm
    let (c2, vm) := sub cmd vm
    (c1 ++ c2, vm)

/-- The loop `while (p + 1) * (p + 1) <= len { p += 1 }` (twoproduct.rs l.55-60); `fuel` bounds the number of
iterations. -/
def sqrtLoop (len : Nat) : Nat → Nat → Nat
  | 0, p => p
  | fuel + 1, p => if (p + 1) * (p + 1) ≤ len then sqrtLoop len fuel (p + 1) else p

/-- `TwoProduct::encode` (twoproduct.rs l.40-87). The row literals are created inside of the loop computing
`p`; here all `p` of them after the loop, which is the same sequence of calls. -/
def twoProduct (sub : SubEnc VM) : SubEnc VM := fun lits vm =>
  if lits.length ≤ 1 then ([], vm)
  else
    let p := sqrtLoop lits.length lits.length 0
    let (rows, vm) := newLits p vm
    let q := divCeil lits.length p
    let (cols, vm) := newLits q vm
    let c0 := (List.range lits.length).flatMap fun i =>
      [Atomics.litImplLit (lits.getD i (Lit.pos 0)) (rows.getD (i / q) (Lit.pos 0)),
       Atomics.litImplLit (lits.getD i (Lit.pos 0)) (cols.getD (i % q) (Lit.pos 0))]
    let (c1, vm) := sub rows vm
    let (c2, vm) := sub cols vm
    (c0 ++ c1 ++ c2, vm)

/-- The at-most-one encodings with their group sizes and sub-encodings. -/
inductive Kind where
  | pairwise
  | ladder
  | bitwise
  | bimander (n : Nat) (sub : Kind)
  | commander (n : Nat) (sub : Kind)
  | twoProduct (sub : Kind)
deriving DecidableEq, Repr

/-- The encoder of a kind. -/
def Kind.encode : Kind → SubEnc VM
  | .pairwise => Am1.pairwise
  | .ladder => Am1.ladder
  | .bitwise => Am1.bitwise
  | .bimander n sub => Am1.bimander n sub.encode
  | .commander n sub => Am1.commander n sub.encode
  | .twoProduct sub => Am1.twoProduct sub.encode

/-- `n_clauses` and `n_vars` (fields of all encoders). -/
structure Stats where
  nClauses : Nat
  nVars : Nat
deriving DecidableEq, Repr

/-- The update of the statistics by `encode`: pairwise.rs l.48, ladder.rs l.73-76, bitwise.rs l.64-65,
bimander.rs l.76-77, commander.rs l.76-77, twoproduct.rs l.84-85. `n_clauses` is the difference of the
collector's clause counts; `n_vars` is computed differently by each encoder. -/
def Kind.stats (k : Kind) (s : Stats) (lits : List Lit) (vm : VM) : Stats :=
  let r := k.encode lits vm
  match k with
  | .pairwise => ⟨r.1.length, 0⟩
  | .ladder => if lits.length ≤ 1 then s else ⟨r.1.length, s.nVars + (lits.length - 1)⟩
  | .bitwise => if lits.length ≤ 1 then s else ⟨r.1.length, s.nVars + digits (lits.length - 1) 2⟩
  | _ => if lits.length ≤ 1 then s else ⟨r.1.length, s.nVars + (ManageVars.nUsed r.2 - ManageVars.nUsed vm)⟩

end Am1
end RustSat
