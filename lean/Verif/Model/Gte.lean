import Verif.Model.Totalizer
/-
Model of the generalized totalizer encoding (src/encodings/pb/gte/mod.rs).

The buffer, a hash map from literals to weights in the code, is an association list with distinct literals. The order
in which a hash map is iterated is unspecified; the histories of the specification allow to permute the list at any
time. Weights are unbounded; overflows of `usize` are not modelled. `none` models a panic. Out-of-memory errors of the
collector and proof logging are not modelled.
-/
namespace RustSat

/-- A map from literals to weights, in some order of iteration. -/
abbrev LitMap := List (Lit × Nat)

namespace LitMap

/-- `HashMap::get`. -/
def get (m : LitMap) (l : Lit) : Option Nat := (m.find? fun x => x.1 == l).map (·.2)

/-- `HashMap::insert`: an entry of the same literal is overwritten. -/
def insert : LitMap → Lit → Nat → LitMap
  | [], l, w => [(l, w)]
  | x :: xs, l, w => if x.1 = l then (l, w) :: xs else x :: insert xs l w

/-- `FromIterator for HashMap`: inserting one after the other. -/
def ofList (lits : List (Lit × Nat)) : LitMap := lits.foldl (fun m x => insert m x.1 x.2) []

/-- Adding weights: the loop in `Extend` of the encodings (gte/mod.rs l.382-394). -/
def addLit (m : LitMap) (x : Lit × Nat) : LitMap :=
  match get m x.1 with
  | some w => insert m x.1 (w + x.2)
  | none => insert m x.1 x.2

/-- The sum of all weights. -/
def total (m : LitMap) : Nat := (m.map (·.2)).sum

/-- The largest weight and a given number. -/
def maxWeight (m : LitMap) (init : Nat) : Nat := m.foldl (fun a x => if x.2 > a then x.2 else a) init

end LitMap

namespace Pb

/-- `prepare_ub_range` (encodings/pb/mod.rs l.499-513). -/
def prepareUbRange (weightSum : Nat) (r : URange) : Nat × Nat :=
  (match r.lo with | .incl b => b | .excl b => b + 1 | .unbounded => 0,
   match r.hi with | .incl b => min (b + 1) weightSum | .excl b => min b weightSum | .unbounded => weightSum)

/-- `prepare_lb_range` (encodings/pb/mod.rs l.515-529). -/
def prepareLbRange (weightSum : Nat) (r : URange) : Nat × Nat :=
  (match r.lo with | .incl b => max b 1 | .excl b => max (b + 1) 1 | .unbounded => 1,
   match r.hi with
   | .incl b => min (b + 1) (weightSum + 1)
   | .excl b => min b (weightSum + 1)
   | .unbounded => weightSum + 1)

end Pb

open TotDb Card

/-- `GeneralizedTotalizer` (gte/mod.rs l.42-57). -/
structure Gte where
  litBuffer : LitMap
  root : Option NodeCon
  maxLeafWeight : Nat
  nVars : Nat
  nClauses : Nat
  db : Db

namespace Gte
variable {VM : Type} [ManageVars VM]

/-- `From<RsHashMap<Lit, usize>>`, `FromIterator<(Lit, usize)>` (l.356-370). -/
def new (lits : List (Lit × Nat)) : Gte := ⟨LitMap.ofList lits, none, 0, 0, 0, Db.empty⟩

/-- `Extend<(Lit, usize)>` (l.372-384). -/
def extend (t : Gte) (lits : List (Lit × Nat)) : Gte := { t with litBuffer := lits.foldl LitMap.addLit t.litBuffer }

/-- Which buffered literals `extend_tree` includes (l.86-94). -/
def fits (maxWeight : Option Nat) (x : Lit × Nat) : Bool :=
  match maxWeight with
  | some m => decide (x.2 ≤ m)
  | none => true

/-- `extend_tree` (l.85-126); `maxWeight = none` is `usize::MAX`. `none`: a segment of weight zero
(`NodeCon::weighted` panics), or `unwrap` of `None`. -/
def extendTree (t : Gte) (maxWeight : Option Nat) : Option Gte :=
  let newLits := t.litBuffer.filter (fits maxWeight)
  if newLits.isEmpty then some t
  else
    match segTrees t.db (segments (·.2) (sortBy (·.2) newLits)) with
    | none => none
    | some (cons, db) =>
      match mergeBalanced db (cons ++ t.root.toList) with
      | (none, _) => none
      | (some con, db) =>
        some { t with litBuffer := t.litBuffer.filter (fun x => !fits maxWeight x), root := some con,
                      maxLeafWeight := LitMap.maxWeight newLits t.maxLeafWeight, db := db }

/-- `weight_sum` (l.191-198). -/
def weightSum (t : Gte) : Nat :=
  t.litBuffer.total + match t.root with | some con => con.map (t.db.node con.id).maxVal | none => 0

/-- `next_higher` (l.200-209). -/
def nextHigher (t : Gte) (val : Nat) : Nat :=
  match t.root with
  | some con =>
    match ((t.db.node con.id).valsFrom (con.revMapRoundUp (val + 1))).head? with
    | some v => con.map v
    | none => val + 1
  | none => val + 1

/-- `next_lower` (l.211-222). -/
def nextLower (t : Gte) (val : Nat) : Nat :=
  if val = 0 then 0
  else
    match t.root with
    | some con =>
      match ((t.db.node con.id).valsRange con.offset (con.revMapRoundUp val)).getLast? with
      | some v => con.map v
      | none => 0
    | none => val - 1

/-- `reserve` (l.226-231). -/
def reserve (t : Gte) (vm : VM) : Option (Gte × VM) :=
  match t.extendTree none with
  | none => none
  | some t =>
    match t.root with
    | none => some (t, vm)
    | some con =>
      match reserveVars (con.id + 1) (⟨t.db, vm, []⟩ : St VM) con with
      | none => none
      | some st => some ({ t with db := st.db }, st.vm)

/-- `encode_ub_change` (l.308-340). -/
def encodeUbChange (t : Gte) (r : URange) (vm : VM) (cls : ClauseSet) : Option (Gte × VM × ClauseSet) :=
  let range := Pb.prepareUbRange t.weightSum r
  if range.2 ≤ range.1 then some (t, vm, cls)
  else
    match t.extendTree (some (range.2 - 1)) with
    | none => none
    | some t =>
      match t.root with
      | none => some (t, vm, cls)
      | some con =>
        let vals := (t.db.node con.id).valsRange (con.revMapRoundUp (range.1 + 1))
          (con.revMap (range.2 + t.maxLeafWeight) + 1)
        match defineVals (⟨t.db, vm, cls⟩ : St VM) con.id vals with
        | none => none
        | some st =>
          some ({ t with db := st.db, nClauses := t.nClauses + (st.cls.length - cls.length),
                         nVars := t.nVars + (ManageVars.nUsed st.vm - ManageVars.nUsed vm) }, st.vm, st.cls)

/-- `encode_ub` (l.235-247). -/
def encodeUb (t : Gte) (r : URange) (vm : VM) (cls : ClauseSet) : Option (Gte × VM × ClauseSet) :=
  encodeUbChange { t with db := t.db.resetEncoded .if_ } r vm cls

/-- The assumption for one value of the root (l.268-303). -/
def enforceVal (n : Node) (val : Nat) : Res EnforceError Lit :=
  match n with
  | .leaf l => .ok l.neg
  | .unit lits .. =>
    match lits[val - 1]? with
    | none => .panic
    | some (.lit l (some s)) => if s.hasIf then .ok l.neg else .err .notEncoded
    | some _ => .err .notEncoded
  | .general lits .. =>
    match valIdx lits val with
    | none => .err .notEncoded
    | some k =>
      match lits[k]? with
      | some (_, .lit l (some s)) => if s.hasIf then .ok l.neg else .err .notEncoded
      | _ => .err .notEncoded
  | .dummy => .panic

/-- The loop over the values of the root (l.264-304). -/
def enforceVals (n : Node) : List Nat → Res EnforceError (List Lit)
  | [] => .ok []
  | v :: vs =>
    match enforceVal n v with
    | .ok l =>
      match enforceVals n vs with
      | .ok ls => .ok (l :: ls)
      | e => e
    | .err e => .err e
    | .panic => .panic

/-- `enforce_ub` (l.249-305). -/
def enforceUb (t : Gte) (ub : Nat) : Res EnforceError (List Lit) :=
  if ub ≥ t.weightSum then .ok []
  else if t.litBuffer.any fun x => decide (x.2 ≤ ub) then .err .notEncoded
  else
    let buf := t.litBuffer.map fun x => x.1.neg
    match t.root with
    | none => .ok buf
    | some con =>
      match enforceVals (t.db.node con.id)
          ((t.db.node con.id).valsRange (con.revMapRoundUp (ub + 1)) (con.revMap (ub + t.maxLeafWeight) + 1)) with
      | .ok ls => .ok (buf ++ ls)
      | e => e

end Gte
end RustSat
