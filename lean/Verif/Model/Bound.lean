import Verif.Model.Gte
/-
The encoding traits as type classes, and the simulators that build encodings from other encodings.
The traits for cardinality encodings (`card::…`) and for pseudo-boolean encodings (`pb::…`) have the same functions;
they differ in the type of the inputs, literals or weighted literals, which is the parameter `ι` here.
A result `none` of an encoding function is a panic; running out of memory is not modelled.
-/
namespace RustSat
open Card

/-- The inputs of an encoding. -/
class Item (ι : Type) where
  lit : ι → Lit
  weight : ι → Nat
  /-- `Lit::not`, `negate_weighted` (pb/simulators.rs l.503-505) -/
  neg : ι → ι
  /-- collecting into the container used by the traits: `Vec<Lit>`, `RsHashMap<Lit, usize>` -/
  collect : List ι → List ι

instance : Item Lit := ⟨fun l => l, fun _ => 1, Lit.neg, fun l => l⟩
instance : Item (Lit × Nat) := ⟨(·.1), (·.2), fun x => (x.1.neg, x.2), LitMap.ofList⟩

/-- The sum of all weights. -/
def Item.total {ι : Type} [Item ι] (lits : List ι) : Nat := (lits.map Item.weight).sum

/-- `Encode` (card/mod.rs l.52-57, pb/mod.rs l.72-92) with `FromIterator` and `Extend`. -/
class Encoder (E : Type) (ι : outParam Type) where
  new : List ι → E
  extend : E → List ι → E
  /-- `n_lits`, `weight_sum` -/
  weightSum : E → Nat

/-- `EncodeIncremental` (card/mod.rs l.263-267). -/
class EncodeInc (E VM : Type) where
  reserve : E → VM → Option (E × VM)

/-- `BoundUpper::enforce_ub`, `BoundLower::enforce_lb`, `BoundBoth::enforce_eq`. -/
class EnforceUb (E : Type) where
  enforceUb : E → Nat → Res EnforceError (List Lit)
@[inherit_doc EnforceUb] class EnforceLb (E : Type) where
  enforceLb : E → Nat → Res EnforceError (List Lit)
@[inherit_doc EnforceUb] class EnforceEq (E : Type) where
  enforceEq : E → Nat → Res EnforceError (List Lit)

/-- The other functions of `BoundUpper`, `BoundUpperIncremental` (card/mod.rs l.60-111, l.270-292; pb/mod.rs l.94-151). -/
class BoundUpper (E VM : Type) where
  encodeUb : E → URange → VM → ClauseSet → Option (E × VM × ClauseSet)
  encodeUbChange : E → URange → VM → ClauseSet → Option (E × VM × ClauseSet)

/-- `BoundLower`, `BoundLowerIncremental`. -/
class BoundLower (E VM : Type) where
  encodeLb : E → URange → VM → ClauseSet → Option (E × VM × ClauseSet)
  encodeLbChange : E → URange → VM → ClauseSet → Option (E × VM × ClauseSet)

/-- `BoundBoth`, `BoundBothIncremental`. -/
class BoundBoth (E VM : Type) where
  encodeBoth : E → URange → VM → ClauseSet → Option (E × VM × ClauseSet)
  encodeBothChange : E → URange → VM → ClauseSet → Option (E × VM × ClauseSet)

/-- The default `enforce_eq` (card/mod.rs l.205-209, pb/mod.rs l.254-258). -/
def enforceBoth (ub lb : Res EnforceError (List Lit)) : Res EnforceError (List Lit) :=
  match ub with
  | .ok a =>
    match lb with
    | .ok a' => .ok (a ++ a')
    | e => e
  | e => e

section
variable {VM : Type} [ManageVars VM]

instance : Encoder Totalizer Lit := ⟨Totalizer.new, Totalizer.extend, Totalizer.nLits⟩
instance : EncodeInc Totalizer VM := ⟨Totalizer.reserve⟩
instance : BoundUpper Totalizer VM := ⟨Totalizer.encodeUb, Totalizer.encodeUbChange⟩
instance : EnforceUb Totalizer := ⟨Totalizer.enforceUb⟩
instance : BoundLower Totalizer VM := ⟨Totalizer.encodeLb, Totalizer.encodeLbChange⟩
instance : EnforceLb Totalizer := ⟨Totalizer.enforceLb⟩
/-- `BoundBoth`: card/totalizer/mod.rs l.354-370; `encode_both_change` is the default, the same two calls. -/
instance : BoundBoth Totalizer VM := ⟨Totalizer.encodeBoth, Totalizer.encodeBoth⟩
instance : EnforceEq Totalizer := ⟨Totalizer.enforceEq⟩

instance : Encoder Gte (Lit × Nat) := ⟨Gte.new, Gte.extend, Gte.weightSum⟩
instance : EncodeInc Gte VM := ⟨Gte.reserve⟩
instance : BoundUpper Gte VM := ⟨Gte.encodeUb, Gte.encodeUbChange⟩
instance : EnforceUb Gte := ⟨Gte.enforceUb⟩
end

/-! ### Inverted -/

/-- `Inverted` (card/simulators.rs l.28-37, pb/simulators.rs l.25-34). -/
structure Inverted (E : Type) where
  enc : E
  sum : Nat

namespace Inverted
variable {E ι VM : Type} [Item ι] [Encoder E ι]

/-- `convert_encoding_range` (card/simulators.rs l.55-63, pb/simulators.rs l.55-63); `none`: underflow, which panics in
debug builds. -/
def convert (e : Inverted E) (range : Nat × Nat) : Option URange :=
  if range.2 = 0 ∨ e.sum < range.2 - 1 then none
  else some ⟨.incl (e.sum - (range.2 - 1)), .excl (if e.sum ≥ range.1 then e.sum - range.1 + 1 else 0)⟩

/-- `prepare_both_range` (card/mod.rs l.485-500, pb/mod.rs l.531-545). -/
def prepareBothRange (n : Nat) (r : URange) : Nat × Nat :=
  (match r.lo with | .incl b => b | .excl b => b + 1 | .unbounded => 1,
   match r.hi with | .incl b => min (b + 1) (n + 1) | .excl b => min b (n + 1) | .unbounded => n + 1)

/-- `From`, `FromIterator` (card/simulators.rs l.66-88, pb/simulators.rs l.66-88), `Extend` (l.90-100), `Encode`
(l.102-109). -/
instance : Encoder (Inverted E) ι where
  new lits := ⟨Encoder.new (Item.collect ((Item.collect lits).map Item.neg)), Item.total (Item.collect lits)⟩
  extend e lits :=
    ⟨Encoder.extend e.enc (Item.collect (lits.map Item.neg)), e.sum + Item.total (Item.collect (lits.map Item.neg))⟩
  weightSum := Inverted.sum

/-- The result of a call to the inner encoder. -/
def wrap (e : Inverted E) (r : Option (E × VM × ClauseSet)) : Option (Inverted E × VM × ClauseSet) :=
  r.map fun (enc, vm, cls) => (⟨enc, e.sum⟩, vm, cls)

/-- `EncodeIncremental` (card/simulators.rs l.117-124, pb/simulators.rs l.130-137). -/
instance [EncodeInc E VM] : EncodeInc (Inverted E) VM where
  reserve e vm := (EncodeInc.reserve e.enc vm).map fun (enc, vm) => (⟨enc, e.sum⟩, vm)

/-- `BoundUpper` (card/simulators.rs l.126-156, pb/simulators.rs l.139-168), `BoundUpperIncremental` (l.346-366).
In the cardinality case, a result `Unsat` of the inner encoder is unreachable. -/
instance [BoundLower E VM] : BoundUpper (Inverted E) VM where
  encodeUb e r vm cls :=
    match e.convert (prepareUbRange e.sum r) with
    | none => none
    | some r => e.wrap (BoundLower.encodeLb e.enc r vm cls)
  encodeUbChange e r vm cls :=
    match e.convert (prepareUbRange e.sum r) with
    | none => none
    | some r => e.wrap (BoundLower.encodeLbChange e.enc r vm cls)
instance [EnforceLb E] : EnforceUb (Inverted E) where
  enforceUb e ub := if e.sum > ub then EnforceLb.enforceLb e.enc (e.sum - ub) else .ok []

/-- `BoundLower` (card/simulators.rs l.210-238, pb/simulators.rs l.214-243), `BoundLowerIncremental` (l.394-414). -/
instance [BoundUpper E VM] : BoundLower (Inverted E) VM where
  encodeLb e r vm cls :=
    match e.convert (prepareLbRange e.sum r) with
    | none => none
    | some r => e.wrap (BoundUpper.encodeUb e.enc r vm cls)
  encodeLbChange e r vm cls :=
    match e.convert (prepareLbRange e.sum r) with
    | none => none
    | some r => e.wrap (BoundUpper.encodeUbChange e.enc r vm cls)
instance [EnforceUb E] : EnforceLb (Inverted E) where
  enforceLb e lb := if e.sum ≥ lb then EnforceUb.enforceUb e.enc (e.sum - lb) else .err .unsat

/-- `BoundBoth` (card/simulators.rs l.289-320, pb/simulators.rs l.289-318), `BoundBothIncremental` (l.442-462). -/
instance [BoundBoth E VM] : BoundBoth (Inverted E) VM where
  encodeBoth e r vm cls :=
    match e.convert (prepareBothRange e.sum r) with
    | none => none
    | some r => e.wrap (BoundBoth.encodeBoth e.enc r vm cls)
  encodeBothChange e r vm cls :=
    match e.convert (prepareBothRange e.sum r) with
    | none => none
    | some r => e.wrap (BoundBoth.encodeBothChange e.enc r vm cls)
instance [EnforceEq E] : EnforceEq (Inverted E) where
  enforceEq e b := if e.sum ≥ b then EnforceEq.enforceEq e.enc (e.sum - b) else .err .unsat

end Inverted

/-! ### Double -/

/-- `Double` (card/simulators.rs l.478-490, pb/simulators.rs l.513-520). -/
structure Double (U L : Type) where
  ubEnc : U
  lbEnc : L

namespace Double
variable {U L ι VM : Type} [Item ι] [Encoder U ι] [Encoder L ι]

/-- `From`, `FromIterator`, `Extend`, `Encode` (pb/simulators.rs l.535-587). -/
instance : Encoder (Double U L) ι where
  new lits := ⟨Encoder.new (Item.collect lits), Encoder.new (Item.collect lits)⟩
  extend e lits := ⟨Encoder.extend e.ubEnc (Item.collect lits), Encoder.extend e.lbEnc (Item.collect lits)⟩
  weightSum e := Encoder.weightSum e.ubEnc

/-- `EncodeIncremental` (pb/simulators.rs l.601-610). -/
instance [EncodeInc U VM] [EncodeInc L VM] : EncodeInc (Double U L) VM where
  reserve e vm :=
    match EncodeInc.reserve e.ubEnc vm with
    | none => none
    | some (u, vm) =>
      match EncodeInc.reserve e.lbEnc vm with
      | none => none
      | some (l, vm) => some (⟨u, l⟩, vm)

/-- `BoundUpper` (pb/simulators.rs l.612-633), `BoundUpperIncremental` (l.753-770). -/
instance [BoundUpper U VM] : BoundUpper (Double U L) VM where
  encodeUb e r vm cls := (BoundUpper.encodeUb e.ubEnc r vm cls).map fun (u, vm, cls) => (⟨u, e.lbEnc⟩, vm, cls)
  encodeUbChange e r vm cls :=
    (BoundUpper.encodeUbChange e.ubEnc r vm cls).map fun (u, vm, cls) => (⟨u, e.lbEnc⟩, vm, cls)
instance [EnforceUb U] : EnforceUb (Double U L) := ⟨fun e ub => EnforceUb.enforceUb e.ubEnc ub⟩

/-- `BoundLower` (pb/simulators.rs l.675-696), `BoundLowerIncremental` (l.795-812). -/
instance [BoundLower L VM] : BoundLower (Double U L) VM where
  encodeLb e r vm cls := (BoundLower.encodeLb e.lbEnc r vm cls).map fun (l, vm, cls) => (⟨e.ubEnc, l⟩, vm, cls)
  encodeLbChange e r vm cls :=
    (BoundLower.encodeLbChange e.lbEnc r vm cls).map fun (l, vm, cls) => (⟨e.ubEnc, l⟩, vm, cls)
instance [EnforceLb L] : EnforceLb (Double U L) := ⟨fun e lb => EnforceLb.enforceLb e.lbEnc lb⟩

/-- `BoundBoth`, `BoundBothIncremental`: the default implementations (card/mod.rs l.183-209, pb/mod.rs l.232-258). -/
instance [BoundUpper U VM] [BoundLower L VM] : BoundBoth (Double U L) VM where
  encodeBoth e r vm cls :=
    match BoundUpper.encodeUb e r vm cls with
    | none => none
    | some (e, vm, cls) => BoundLower.encodeLb e r vm cls
  encodeBothChange e r vm cls :=
    match BoundUpper.encodeUbChange e r vm cls with
    | none => none
    | some (e, vm, cls) => BoundLower.encodeLbChange e r vm cls
instance [EnforceUb U] [EnforceLb L] : EnforceEq (Double U L) :=
  ⟨fun e b => enforceBoth (EnforceUb.enforceUb e b) (EnforceLb.enforceLb e b)⟩

end Double

/-! ### Card -/

/-- `Card` (pb/simulators.rs l.870-875). -/
structure CardSim (E : Type) where
  enc : E

namespace CardSim
variable {E VM : Type} [Encoder E Lit]

/-- Every literal as often as its weight (pb/simulators.rs l.902-905). -/
def multiply (lits : List (Lit × Nat)) : List Lit := lits.flatMap fun x => List.replicate x.2 x.1

/-- `From`, `FromIterator`, `Extend`, `Encode` (pb/simulators.rs l.888-943). -/
instance : Encoder (CardSim E) (Lit × Nat) where
  new lits := ⟨Encoder.new (multiply lits)⟩
  extend e lits := ⟨Encoder.extend e.enc (multiply lits)⟩
  weightSum e := Encoder.weightSum e.enc

/-- The result of a call to the inner encoder. -/
def wrap (r : Option (E × VM × ClauseSet)) : Option (CardSim E × VM × ClauseSet) :=
  r.map fun (enc, vm, cls) => (⟨enc⟩, vm, cls)

/-- `EncodeIncremental` (l.956-963). -/
instance [EncodeInc E VM] : EncodeInc (CardSim E) VM where
  reserve e vm := (EncodeInc.reserve e.enc vm).map fun (enc, vm) => (⟨enc⟩, vm)
/-- `BoundUpper` (l.965-985), `BoundUpperIncremental` (l.1137-1154). -/
instance [BoundUpper E VM] : BoundUpper (CardSim E) VM where
  encodeUb e r vm cls := wrap (BoundUpper.encodeUb e.enc r vm cls)
  encodeUbChange e r vm cls := wrap (BoundUpper.encodeUbChange e.enc r vm cls)
instance [EnforceUb E] : EnforceUb (CardSim E) := ⟨fun e ub => EnforceUb.enforceUb e.enc ub⟩
/-- `BoundLower` (l.1029-1049), `BoundLowerIncremental` (l.1178-1195). -/
instance [BoundLower E VM] : BoundLower (CardSim E) VM where
  encodeLb e r vm cls := wrap (BoundLower.encodeLb e.enc r vm cls)
  encodeLbChange e r vm cls := wrap (BoundLower.encodeLbChange e.enc r vm cls)
instance [EnforceLb E] : EnforceLb (CardSim E) := ⟨fun e lb => EnforceLb.enforceLb e.enc lb⟩
/-- `BoundBoth` (l.1092-1113), `BoundBothIncremental` (l.1219-1236). -/
instance [BoundBoth E VM] : BoundBoth (CardSim E) VM where
  encodeBoth e r vm cls := wrap (BoundBoth.encodeBoth e.enc r vm cls)
  encodeBothChange e r vm cls := wrap (BoundBoth.encodeBothChange e.enc r vm cls)
instance [EnforceEq E] : EnforceEq (CardSim E) := ⟨fun e b => EnforceEq.enforceEq e.enc b⟩

end CardSim

/-- `DoubleGeneralizedTotalizer` (pb/mod.rs l.62-63) = `Double<GeneralizedTotalizer, InvertedGeneralizedTotalizer>`. -/
abbrev DoubleGte := Double Gte (Inverted Gte)

end RustSat
