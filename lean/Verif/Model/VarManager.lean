import Verif.Model.Lit
import Verif.Spec.Sem
/-
Model of the variable managers of `src/instances/mod.rs`. A `Var` is its index. The upper limit on
variable indices (`Var + u32` panics beyond `MAX_IDX`) is not modelled here.
-/
namespace RustSat

/-- Trait `ManageVars` (src/instances/mod.rs l.31-59). `&mut self` methods return the new state. -/
class ManageVars (M : Type) where
  newVar : M → Nat × M
  maxVar : M → Option Nat
  increaseNextFree : M → Nat → Bool × M
  combine : M → M → M
  nUsed : M → Nat
  forgetFrom : M → Nat → M

namespace ManageVars
variable {M : Type} [ManageVars M]

/-- `ManageVars::new_lit` (src/instances/mod.rs l.35-37). -/
def newLit (m : M) : Lit × M := let (v, m') := newVar m; (Lit.pos v, m')
/-- `ManageVars::mark_used` (src/instances/mod.rs l.46-48). -/
def markUsed (m : M) (v : Nat) : Bool × M := increaseNextFree m (v + 1)
/-- `for l in lits { vm.mark_used(l.var()); }`, the loop used throughout src/instances/sat.rs. -/
def markLits (m : M) (ls : List Lit) : M := ls.foldl (fun m l => (markUsed m l.var).2) m

end ManageVars

/-- `BasicVarManager` (src/instances/mod.rs l.94-96). -/
structure BasicVM where
  nextVar : Nat
deriving DecidableEq, Repr

/-- `BasicVarManager::from_next_free` (l.101-103) and `Default` (l.144-150, `nextVar = 0`). -/
def BasicVM.fromNextFree (n : Nat) : BasicVM := ⟨n⟩

/-- `impl ManageVars for BasicVarManager` (l.106-142). -/
instance : ManageVars BasicVM where
  newVar m := (m.nextVar, ⟨m.nextVar + 1⟩)
  maxVar m := if m.nextVar = 0 then none else some (m.nextVar - 1)
  increaseNextFree m v := if v > m.nextVar then (true, ⟨v⟩) else (false, m)
  combine m o := if o.nextVar > m.nextVar then ⟨o.nextVar⟩ else m
  nUsed m := m.nextVar
  forgetFrom m v := ⟨min m.nextVar v⟩

/-- `ReindexingVarManager` (l.155-159). The hash map `in_map` is an association list whose first entry for
a key is the current one; only `get`, `insert`, `extend` and `retain` are used. -/
structure ReindexVM where
  nextVar : Nat
  inMap : List (Nat × Nat)
  outMap : List Nat
deriving DecidableEq, Repr

namespace ReindexVM
/-- `Default for ReindexingVarManager` (l.195-203). -/
def default : ReindexVM := ⟨0, [], []⟩
/-- `ReindexingVarManager::from_next_free` (l.166-172). -/
def fromNextFree (n : Nat) : ReindexVM := ⟨n, [], List.range n⟩
end ReindexVM

/-- `impl ManageVars for ReindexingVarManager` (l.205-244). -/
instance : ManageVars ReindexVM where
  newVar m := (m.nextVar, { m with nextVar := m.nextVar + 1 })
  maxVar m := if m.nextVar = 0 then none else some (m.nextVar - 1)
  increaseNextFree m v := if v > m.nextVar then (true, { m with nextVar := v }) else (false, m)
  combine m o := { nextVar := if o.nextVar > m.nextVar then o.nextVar else m.nextVar,
                   inMap := o.inMap ++ m.inMap, outMap := m.outMap }
  nUsed m := m.nextVar
  forgetFrom m v := { nextVar := min m.nextVar v,
                      inMap := m.inMap.filter (fun p => decide (p.2 < v)),
                      outMap := m.outMap.take (v + 1) }

namespace ReindexVM
/-- `ReindexVars::reindex` for `ReindexingVarManager` (l.176-185). -/
def reindex (m : ReindexVM) (v : Nat) : Nat × ReindexVM :=
  match m.inMap.lookup v with
  | some w => (w, m)
  | none =>
    let (w, m') := ManageVars.newVar m
    (w, { m' with inMap := (v, w) :: m'.inMap, outMap := m'.outMap ++ [v] })
/-- `ReindexVars::reverse` for `ReindexingVarManager` (l.187-192). -/
def reverse (m : ReindexVM) (v : Nat) : Option Nat := m.outMap[v]?
/-- `ReindexVars::reindex_lit` (l.66-73). -/
def reindexLit (m : ReindexVM) (l : Lit) : Lit × ReindexVM :=
  let (v, m') := m.reindex l.var
  (if l.isPos then Lit.pos v else Lit.negOf v, m')
/-- `ReindexVars::reverse_lit` (l.77-85). -/
def reverseLit (m : ReindexVM) (l : Lit) : Option Lit :=
  (m.reverse l.var).map fun v => if l.isPos then Lit.pos v else Lit.negOf v
/-- `iter_mut().for_each(|l| *l = reindexer.reindex_lit(*l))` over a list of literals. -/
def reindexLits (m : ReindexVM) : List Lit → List Lit × ReindexVM
  | [] => ([], m)
  | l :: ls =>
    let (l', m') := m.reindexLit l
    let (ls', m'') := m'.reindexLits ls
    (l' :: ls', m'')
end ReindexVM

/-- `ObjectVarManager` (l.249-252). Keys are of an arbitrary type with decidable equality (the
`Box<dyn VarKey>` type erasure is not modelled). -/
structure ObjectVM (κ : Type) where
  nextVar : Nat
  objMap : List (κ × Nat)

/-- `ObjectVarManager::from_next_free` (l.257-262). -/
def ObjectVM.fromNextFree {κ : Type} (n : Nat) : ObjectVM κ := ⟨n, []⟩

/-- `impl ManageVars for ObjectVarManager` (l.290-328). -/
instance {κ : Type} : ManageVars (ObjectVM κ) where
  newVar m := (m.nextVar, { m with nextVar := m.nextVar + 1 })
  maxVar m := if m.nextVar = 0 then none else some (m.nextVar - 1)
  increaseNextFree m v := if v > m.nextVar then (true, { m with nextVar := v }) else (false, m)
  combine m o := { nextVar := if o.nextVar > m.nextVar then o.nextVar else m.nextVar,
                   objMap := o.objMap ++ m.objMap }
  nUsed m := m.nextVar
  forgetFrom m v := { nextVar := min m.nextVar v,
                      objMap := m.objMap.filter (fun p => decide (p.2 < v)) }

/-- `ObjectVarManager::object_var` (l.266-278). -/
def ObjectVM.objectVar {κ : Type} [BEq κ] (m : ObjectVM κ) (k : κ) : Nat × ObjectVM κ :=
  match m.objMap.lookup k with
  | some v => (v, m)
  | none =>
    let (v, m') := ManageVars.newVar m
    (v, { m' with objMap := (k, v) :: m'.objMap })

/-- `RandReindVarManager` (l.334-338). -/
structure RandReindVM where
  nextVar : Nat
  inMap : List Nat
  outMap : List Nat
deriving DecidableEq, Repr

namespace RandReindVM
/-- `RandReindVarManager::init` (l.343-359): `perm` is the result of the random shuffle of `0..n`. -/
def init (perm : List Nat) : RandReindVM :=
  { nextVar := perm.length, inMap := perm,
    outMap := perm.zipIdx.foldl (fun out p => out.set p.1 p.2) (List.replicate perm.length 0) }
/-- `reindex` for `RandReindVarManager` (l.364-372). -/
def reindex (m : RandReindVM) (v : Nat) : Nat := (m.inMap[v]?).getD v
/-- `reverse` for `RandReindVarManager` (l.374-382). -/
def reverse (m : RandReindVM) (v : Nat) : Option Nat :=
  match m.outMap[v]? with | some w => some w | none => some v
end RandReindVM

end RustSat
