import Verif.Model.EncodeConstr
/-
Model of the binary adder encoding, `src/encodings/pb/adder.rs`. Weights are natural numbers without overflow.
A result `none` is a panic; running out of memory is not modelled.
-/
namespace RustSat
open Card

namespace Adder

/-- `Connection` (l.529-533). -/
inductive Con where
  | input (l : Lit)
  | sum (i : Nat)
  | carry (i : Nat)
deriving DecidableEq, Repr

/-- `Output` (l.537-541). -/
structure Out where
  bit : Lit
  encIf : Bool
  encOnlyIf : Bool
deriving DecidableEq, Repr

/-- `Node` (l.469-483): `Node::Full` has three, `Node::Half` two inputs. -/
structure Node where
  ins : List Con
  sum : Option Out
  carry : Option Out
deriving DecidableEq, Repr

/-- The two directions of the encoding. -/
inductive Mode where
  | if_
  | onlyIf
deriving DecidableEq, Repr

namespace Out

/-- The flag of the direction is set. -/
def has : Mode → Out → Bool
  | .if_, o => o.encIf
  | .onlyIf, o => o.encOnlyIf

/-- Set the flag of the direction. -/
def mark : Mode → Out → Out
  | .if_, o => { o with encIf := true }
  | .onlyIf, o => { o with encOnlyIf := true }

end Out

/-- What the encoding functions modify: the nodes, the variable manager, the collected clauses. -/
structure St (VM : Type) where
  nodes : List Node
  vm : VM
  cls : ClauseSet

section
variable {VM : Type} [ManageVars VM]

/-- The first part of `sum_if` etc. (l.603-619 and corresponding lines): the flag `chk` tells that there is nothing to
do (result `true`), otherwise the flag `mk` is set, and a variable created if there is none yet. -/
def claim (chk mk : Mode) (o : Option Out) (vm : VM) : Bool × Out × VM :=
  match o with
  | some o => if o.has chk then (true, o, vm) else (false, o.mark mk, vm)
  | none => (false, (Out.mk (ManageVars.newLit vm).1 false false).mark mk, (ManageVars.newLit vm).2)

/-- The clauses of `sum_if` (l.625-628, l.651-652) and `sum_only_if` (l.694-697, l.720-721). -/
def sumClauses (m : Mode) (ins : List Lit) (s : Lit) : ClauseSet :=
  match m, ins with
  | .if_, [a, b, c] => [[a.neg, b.neg, c.neg, s], [a.neg, b, c, s], [a, b.neg, c, s], [a, b, c.neg, s]]
  | .if_, [a, b] => [[a.neg, b, s], [a, b.neg, s]]
  | .onlyIf, [a, b, c] => [[a, b, c, s.neg], [a, b.neg, c.neg, s.neg], [a.neg, b, c.neg, s.neg], [a.neg, b.neg, c, s.neg]]
  | .onlyIf, [a, b] => [[a, b, s.neg], [a.neg, b.neg, s.neg]]
  | _, _ => []

/-- The clauses of `carry_if` (l.763-765, l.788) and `carry_only_if` (l.830-832, l.855-856). -/
def carryClauses (m : Mode) (ins : List Lit) (s : Lit) : ClauseSet :=
  match m, ins with
  | .if_, [a, b, c] => [[b.neg, c.neg, s], [a.neg, c.neg, s], [a.neg, b.neg, s]]
  | .if_, [a, b] => [[a.neg, b.neg, s]]
  | .onlyIf, [a, b, c] => [[b, c, s.neg], [a, c, s.neg], [a, b, s.neg]]
  | .onlyIf, [a, b] => [[a, s.neg], [b, s.neg]]
  | _, _ => []

/-- The flag set by `carry_if` and `carry_only_if`: for half adders, `carry_only_if` sets `enc_if` (l.839-849). -/
def carryMark (m : Mode) (ins : List Con) : Mode := if ins.length = 2 then .if_ else m

/-- The bits of several connections, one after the other. -/
def mapBits (f : Con → St VM → Option (Lit × St VM)) : List Con → St VM → Option (List Lit × St VM)
  | [], s => some ([], s)
  | c :: cs, s =>
    match f c s with
    | none => none
    | some (l, s) =>
      match mapBits f cs s with
      | none => none
      | some (ls, s) => some (l :: ls, s)

/-- `get_bit_if` (l.544-564), `get_bit_only_if` (l.567-587), with `sum_if` (l.590-656), `sum_only_if` (l.659-725),
`carry_if` (l.728-792), `carry_only_if` (l.795-860). The slice of nodes has the length `len`; a connection to a node
outside of the slice panics. Note that `carry_only_if` calls `get_bit_if` (l.826-828, l.852-853). The recursion depth is
bounded by `fuel`. -/
def getBit : (fuel : Nat) → (len : Nat) → Mode → Con → St VM → Option (Lit × St VM)
  | _, _, _, .input l, s => some (l, s)
  | 0, _, _, _, _ => none
  | fuel + 1, len, m, .sum i, s =>
    if len ≤ i then none else
    match s.nodes[i]? with
    | none => none
    | some nd =>
      match claim m m nd.sum s.vm with
      | (true, o, _) => some (o.bit, s)
      | (false, o, vm) =>
        match mapBits (getBit fuel i m) nd.ins ⟨s.nodes.set i { nd with sum := some o }, vm, s.cls⟩ with
        | none => none
        | some (ls, s) => some (o.bit, { s with cls := s.cls ++ sumClauses m ls o.bit })
  | fuel + 1, len, m, .carry i, s =>
    if len ≤ i then none else
    match s.nodes[i]? with
    | none => none
    | some nd =>
      match claim m (carryMark m nd.ins) nd.carry s.vm with
      | (true, o, _) => some (o.bit, s)
      | (false, o, vm) =>
        match mapBits (getBit fuel i .if_) nd.ins ⟨s.nodes.set i { nd with carry := some o }, vm, s.cls⟩ with
        | none => none
        | some (ls, s) => some (o.bit, { s with cls := s.cls ++ carryClauses m ls o.bit })

/-! ### Comparators -/

/-- The literals comparing the bits above position `i` (l.912-919, l.957-964); `none`: the clause is dropped. The list are
the bits of the left-hand side from position `j` on. -/
def compRest (rhs : Nat) : (j : Nat) → List (Option Lit) → Option Clause
  | _, [] => some []
  | j, x :: xs =>
    match compRest rhs (j + 1) xs with
    | none => none
    | some cl =>
      if rhs.testBit j then
        match x with
        | none => none
        | some l => some (l.neg :: cl)
      else
        match x with
        | none => some cl
        | some l => some (l :: cl)

/-- The clauses of `comparator_if` (l.889-927) for the positions from `i` on. -/
def compIfFrom (rhs : Nat) (out : Lit) : (i : Nat) → List (Option Lit) → ClauseSet
  | _, [] => []
  | i, x :: xs =>
    match (if rhs.testBit i then none else
      match x with
      | none => none
      | some l =>
        match compRest rhs (i + 1) xs with
        | none => none
        | some cl => some (l.neg :: cl ++ [out])) with
    | none => compIfFrom rhs out (i + 1) xs
    | some cl => cl :: compIfFrom rhs out (i + 1) xs

/-- `comparator_if` (l.889-927). -/
def comparatorIf (rhs : Nat) (out : Lit) (lhs : List (Option Lit)) : ClauseSet := compIfFrom rhs out 0 lhs

/-- The clauses of `comparator_only_if` (l.930-975) for the positions from `i` on; `rhs` is the right-hand side plus 1. -/
def compOnlyIfFrom (rhs : Nat) (out : Lit) : (i : Nat) → List (Option Lit) → ClauseSet
  | _, [] => []
  | i, x :: xs =>
    match (if rhs.testBit i then
        match compRest rhs (i + 1) xs with
        | none => none
        | some cl => some (x.toList ++ cl ++ [out.neg])
      else none) with
    | none => compOnlyIfFrom rhs out (i + 1) xs
    | some cl => cl :: compOnlyIfFrom rhs out (i + 1) xs

/-- `comparator_only_if` (l.930-975). -/
def comparatorOnlyIf (rhs : Nat) (out : Lit) (lhs : List (Option Lit)) : ClauseSet :=
  if rhs = 2 ^ lhs.length - 1 then [[out.neg]] else compOnlyIfFrom (rhs + 1) out 0 lhs

end

/-! ### The structure -/

/-- Number of bits of a weight, `usize::BITS - weight.leading_zeros()` (l.79). -/
def bitLen (w : Nat) : Nat := if w = 0 then 0 else Nat.log2 w + 1

/-- `resize_with` to at least `n` buckets. -/
def pad (bs : List (List Con)) (n : Nat) : List (List Con) := bs ++ List.replicate (n - bs.length) []

/-- Adding an input literal to the buckets from position `i` on (l.85-91). -/
def pushLit (x : Lit × Nat) : (i : Nat) → List (List Con) → List (List Con)
  | _, [] => []
  | i, b :: bs => (if x.2.testBit i then b ++ [.input x.1] else b) :: pushLit x (i + 1) bs

/-- Adding an input literal to the buckets (l.76-92). -/
def addInput (bs : List (List Con)) (x : Lit × Nat) : List (List Con) := pushLit x 0 (pad bs (bitLen x.2 + 1))

/-- Adding the outputs of the existing structure (l.95-107); there are at least as many buckets as outputs. -/
def addOutputs : List (List Con) → List (Option Con) → List (List Con)
  | b :: bs, o :: os => (b ++ o.toList) :: addOutputs bs os
  | bs, _ => bs

/-- Reducing a bucket to at most one connection (l.117-136). Returns the bucket, the carries for the next bucket, and the
nodes. The number of iterations is bounded by `fuel`. -/
def reduce : (fuel : Nat) → List Con → List Con → List Node → List Con × List Con × List Node
  | fuel + 1, a :: b :: c :: rest, carries, nodes =>
    reduce fuel (rest ++ [.sum nodes.length]) (carries ++ [.carry nodes.length]) (nodes ++ [⟨[a, b, c], none, none⟩])
  | _ + 1, [a, b], carries, nodes =>
    ([.sum nodes.length], carries ++ [.carry nodes.length], nodes ++ [⟨[a, b], none, none⟩])
  | _, bucket, carries, nodes => (bucket, carries, nodes)

/-- Building the encoding from the buckets from some position on (l.110-138), and the outputs (l.141-150). All carries
of a bucket are added to the next bucket while the bucket is processed. -/
def build : (fuel : Nat) → List (List Con) → List Node → List (Option Con) × List Node
  | fuel + 1, b :: bs, nodes =>
    let (b', carries, nodes) := reduce b.length b [] nodes
    let next := match bs with
      | [] => if 2 ≤ b.length then [carries] else []
      | b2 :: bs => (b2 ++ carries) :: bs
    let (os, nodes) := build fuel next nodes
    (b'.head? :: os, nodes)
  | _, _, nodes => ([], nodes)

/-- A bound on the number of buckets needed. -/
def size (bs : List (List Con)) : Nat := (bs.map fun b => b.length + 1).sum

/-- `Structure` (l.60-65). -/
structure Structure where
  outputs : List (Option Con)
  comparator : List (Option Out)

end Adder

/-- `BinaryAdder` (l.40-53). -/
structure BinaryAdder where
  litBuffer : LitMap
  structure_ : Option Adder.Structure
  weightSum_ : Nat
  nVars : Nat
  nClauses : Nat
  nodes : List Adder.Node

namespace BinaryAdder
open Adder
section
variable {VM : Type} [ManageVars VM]

/-- `From`, `FromIterator` (l.437-450). -/
def new (lits : List (Lit × Nat)) : BinaryAdder := ⟨LitMap.ofList lits, none, 0, 0, 0, []⟩

/-- `Extend` (l.453-466). -/
def extend (e : BinaryAdder) (lits : List (Lit × Nat)) : BinaryAdder :=
  { e with litBuffer := lits.foldl LitMap.addLit e.litBuffer }

/-- `weight_sum` (l.154-158). -/
def weightSum (e : BinaryAdder) : Nat := e.weightSum_ + e.litBuffer.total

/-- `extend_structure` (l.68-150). -/
def extendStructure (e : BinaryAdder) : BinaryAdder :=
  if e.litBuffer.isEmpty then e
  else
    let bs := e.litBuffer.foldl addInput []
    let bs := match e.structure_ with
      | none => bs
      | some s => addOutputs (pad bs s.outputs.length) s.outputs
    let (outputs, nodes) := build (size bs) bs e.nodes
    { e with litBuffer := [], structure_ := some ⟨outputs, []⟩, weightSum_ := e.weightSum_ + e.litBuffer.total,
             nodes := nodes }

/-- The loop over the outputs (l.228-240, l.345-357). -/
def outputBits (m : Mode) : List (Option Con) → St VM → Option (List (Option Lit) × St VM)
  | [], s => some ([], s)
  | none :: os, s =>
    match outputBits m os s with
    | none => none
    | some (ls, s) => some (none :: ls, s)
  | some c :: os, s =>
    match getBit s.nodes.length s.nodes.length m c s with
    | none => none
    | some (l, s) =>
      match outputBits m os s with
      | none => none
      | some (ls, s) => some (some l :: ls, s)

/-- The loop over the values of `encode_ub_change` (l.244-262). -/
def ubLoop (outputs : List (Option Lit)) : List Nat → List (Option Out) → VM → ClauseSet → List (Option Out) × VM × ClauseSet
  | [], comp, vm, cls => (comp, vm, cls)
  | val :: vals, comp, vm, cls =>
    match claim .if_ .if_ (comp[val]?.getD none) vm with
    | (true, _, _) => ubLoop outputs vals comp vm cls
    | (false, o, vm) => ubLoop outputs vals (comp.set val (some o)) vm (cls ++ comparatorIf val o.bit outputs)

/-- The loop over the values of `encode_lb_change` (l.361-379); note that `enc_if` is tested (l.363). -/
def lbLoop (outputs : List (Option Lit)) : List Nat → List (Option Out) → VM → ClauseSet → List (Option Out) × VM × ClauseSet
  | [], comp, vm, cls => (comp, vm, cls)
  | val :: vals, comp, vm, cls =>
    match claim .if_ .onlyIf (comp[val - 1]?.getD none) vm with
    | (true, _, _) => lbLoop outputs vals comp vm cls
    | (false, o, vm) => lbLoop outputs vals (comp.set (val - 1) (some o)) vm (cls ++ comparatorOnlyIf (val - 1) o.bit outputs)

/-- `comparator.resize(range.end, None)` if it is shorter (l.241-243, l.358-360). -/
def resize (comp : List (Option Out)) (n : Nat) : List (Option Out) := comp ++ List.replicate (n - comp.length) none

/-- The common part of `encode_ub_change` (l.210-272) and `encode_lb_change` (l.328-390). The variables
`n_vars`, `n_clauses` are `u32`, `usize`. -/
def encodeChange (m : Mode) (e : BinaryAdder) (range : Nat × Nat) (vm : VM) (cls : ClauseSet) :
    Option (BinaryAdder × VM × ClauseSet) :=
  if range.2 ≤ range.1 then some (e, vm, cls)
  else
    let e := e.extendStructure
    match e.structure_ with
    | none => some (e, vm, cls)
    | some str =>
      match outputBits m str.outputs ⟨e.nodes, vm, cls⟩ with
      | none => none
      | some (outputs, s) =>
        let vals := List.range' range.1 (range.2 - range.1)
        let comp := resize str.comparator range.2
        let (comp, vm', cls') := match m with
          | .if_ => ubLoop outputs vals comp s.vm s.cls
          | .onlyIf => lbLoop outputs vals comp s.vm s.cls
        some ({ e with structure_ := some ⟨str.outputs, comp⟩, nodes := s.nodes,
                       nClauses := e.nClauses + (cls'.length - cls.length),
                       nVars := e.nVars + (ManageVars.nUsed vm' - ManageVars.nUsed vm) }, vm', cls')

/-- `encode_ub_change` (l.210-272). -/
def encodeUbChange (e : BinaryAdder) (r : URange) (vm : VM) (cls : ClauseSet) : Option (BinaryAdder × VM × ClauseSet) :=
  encodeChange .if_ e (Pb.prepareUbRange e.weightSum r) vm cls

/-- `encode_lb_change` (l.328-390). -/
def encodeLbChange (e : BinaryAdder) (r : URange) (vm : VM) (cls : ClauseSet) : Option (BinaryAdder × VM × ClauseSet) :=
  encodeChange .onlyIf e (Pb.prepareLbRange e.weightSum r) vm cls

/-- Resetting the flags of all nodes (l.172-188, l.285-301). -/
def reset (e : BinaryAdder) : BinaryAdder :=
  { e with nodes := e.nodes.map fun nd =>
      { nd with sum := nd.sum.map fun o => ⟨o.bit, false, false⟩, carry := nd.carry.map fun o => ⟨o.bit, false, false⟩ } }

/-- `encode_ub` (l.162-190). -/
def encodeUb (e : BinaryAdder) (r : URange) (vm : VM) (cls : ClauseSet) : Option (BinaryAdder × VM × ClauseSet) :=
  e.reset.encodeUbChange r vm cls

/-- `encode_lb` (l.275-303). -/
def encodeLb (e : BinaryAdder) (r : URange) (vm : VM) (cls : ClauseSet) : Option (BinaryAdder × VM × ClauseSet) :=
  e.reset.encodeLbChange r vm cls

/-- `encode_both` (l.393-406); `encode_both_change` is the default, the same two calls. -/
def encodeBoth (e : BinaryAdder) (r : URange) (vm : VM) (cls : ClauseSet) : Option (BinaryAdder × VM × ClauseSet) :=
  match e.encodeUbChange r vm cls with
  | none => none
  | some (e, vm, cls) => e.encodeLbChange r vm cls

/-- `enforce_ub` (l.192-206). -/
def enforceUb (e : BinaryAdder) (ub : Nat) : Res EnforceError (List Lit) :=
  if ub ≥ e.weightSum then .ok []
  else
    match e.structure_ with
    | none => .err .notEncoded
    | some str =>
      match str.comparator[ub]?.getD none with
      | none => .err .notEncoded
      | some o => if o.encIf then .ok [o.bit.neg] else .err .notEncoded

/-- `enforce_lb` (l.305-324). -/
def enforceLb (e : BinaryAdder) (lb : Nat) : Res EnforceError (List Lit) :=
  if lb > e.weightSum then .err .unsat
  else if lb = 0 then .ok []
  else
    match e.structure_ with
    | none => .err .notEncoded
    | some str =>
      match str.comparator[lb - 1]?.getD none with
      | none => .err .notEncoded
      | some o => if o.encOnlyIf then .ok [o.bit] else .err .notEncoded

/-- The default `enforce_eq` (pb/mod.rs l.254-258). -/
def enforceEq (e : BinaryAdder) (b : Nat) : Res EnforceError (List Lit) := enforceBoth (e.enforceUb b) (e.enforceLb b)

/-- `EncodeIncremental::reserve` (l.412-422): the function `reserve` (l.863-886) splits the slice at its length and
takes the first node of the empty second part, so that every call of it panics. -/
def reserve (e : BinaryAdder) (vm : VM) : Option (BinaryAdder × VM) :=
  let e := e.extendStructure
  match e.structure_ with
  | none => some (e, vm)
  | some str =>
    if str.outputs.all fun o => match o with | some (.sum _) => false | some (.carry _) => false | _ => true then some (e, vm)
    else none

end

instance : Encoder BinaryAdder (Lit × Nat) := ⟨new, extend, weightSum⟩
section
variable {VM : Type} [ManageVars VM]
instance : EncodeInc BinaryAdder VM := ⟨reserve⟩
instance : BoundUpper BinaryAdder VM := ⟨encodeUb, encodeUbChange⟩
instance : EnforceUb BinaryAdder := ⟨enforceUb⟩
instance : BoundLower BinaryAdder VM := ⟨encodeLb, encodeLbChange⟩
instance : EnforceLb BinaryAdder := ⟨enforceLb⟩
instance : BoundBoth BinaryAdder VM := ⟨encodeBoth, encodeBoth⟩
instance : EnforceEq BinaryAdder := ⟨enforceEq⟩
end

end BinaryAdder
end RustSat
