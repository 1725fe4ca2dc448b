import Verif.Model.Lit
/-
Model of `TernaryVal` and `Assignment` (src/types/mod.rs l.694-1194).
-/
namespace RustSat

/-- `TernaryVal` (src/types/mod.rs l.697-705). -/
inductive TernaryVal where
  | true
  | false
  | dontCare
deriving DecidableEq, Repr

namespace TernaryVal

/-- `TernaryVal::to_bool_with_def` (src/types/mod.rs l.710-716). -/
def toBoolWithDef (t : TernaryVal) (d : Bool) : Bool :=
  match t with
  | .true => Bool.true
  | .false => Bool.false
  | .dontCare => d

/-- `From<bool> for TernaryVal` (src/types/mod.rs l.741-748). -/
def ofBool (b : Bool) : TernaryVal := if b then .true else .false

/-- `Not`/`Neg for TernaryVal` (src/types/mod.rs l.750-772). -/
def not : TernaryVal → TernaryVal
  | .true => .false
  | .false => .true
  | .dontCare => .dontCare

end TernaryVal

/-- `Assignment` (src/types/mod.rs l.848-850): a vector of ternary values indexed by variable. -/
structure Assignment where
  vals : List TernaryVal
deriving DecidableEq, Repr

/-- `InvalidVLine` (src/types/mod.rs l.790-812), restricted to the errors the modelled functions produce. -/
inductive InvalidVLine where
  | conflictingAssignment (v : Nat)
  | invalidLit (e : TypeError)
  | invalidCharacter (c : Char)
  | invalidTag (c : Char)
  | invalidInt
  | emptyLine
  | parsing
deriving DecidableEq, Repr

namespace Assignment

/-- `Assignment::default` (derived). -/
def empty : Assignment := ⟨[]⟩

/-- `Assignment::len` (src/types/mod.rs l.855-857). -/
def len (a : Assignment) : Nat := a.vals.length

/-- `Assignment::var_value` (src/types/mod.rs l.868-874). The index is guarded by the length check. -/
def varValue (a : Assignment) (v : Nat) : TernaryVal :=
  if h : v ≥ a.vals.length then .dontCare else a.vals[v]

/-- `Assignment::lit_value` (src/types/mod.rs l.878-888). -/
def litValue (a : Assignment) (l : Lit) : TernaryVal :=
  if l.isNeg then
    match a.varValue l.var with
    | .dontCare => .dontCare
    | .true => .false
    | .false => .true
  else a.varValue l.var

/-- `Assignment::replace_dont_care` (src/types/mod.rs l.891-901). -/
def replaceDontCare (a : Assignment) (d : Bool) : Assignment :=
  ⟨a.vals.map fun tv => if tv = .dontCare then (if d then .true else .false) else tv⟩

/-- `Assignment::assign_var` (src/types/mod.rs l.904-910): resize with `DontCare`, then write. -/
def assignVar (a : Assignment) (v : Nat) (t : TernaryVal) : Assignment :=
  let vals := if a.vals.length < v + 1 then
      a.vals ++ List.replicate (v + 1 - a.vals.length) .dontCare else a.vals
  ⟨vals.set v t⟩

/-- `Assignment::assign_lit` (src/types/mod.rs l.913-920). -/
def assignLit (a : Assignment) (l : Lit) : Assignment :=
  a.assignVar l.var (if l.isPos then .true else .false)

/-- `Assignment::truncate` (src/types/mod.rs l.924-927). -/
def truncate (a : Assignment) (maxVar : Nat) : Assignment := ⟨a.vals.take (maxVar + 1)⟩

/-- `Assignment::max_var` (src/types/mod.rs l.935-945); the `u32` conversion panic is not modelled. -/
def maxVar (a : Assignment) : Option Nat := if a.vals.isEmpty then none else some (a.vals.length - 1)

/-- Enumerated `filter_map` shared by the iterators, starting at index `i`.
`mkLit` is the literal constructor used. -/
def iterFrom (mkLit : Nat → Bool → Option Lit) : Nat → List TernaryVal → Option (List Lit)
  | _, [] => some []
  | i, .true :: ts => do
      let l ← mkLit i false; let r ← iterFrom mkLit (i + 1) ts; return l :: r
  | i, .false :: ts => do
      let l ← mkLit i true; let r ← iterFrom mkLit (i + 1) ts; return l :: r
  | i, .dontCare :: ts => iterFrom mkLit (i + 1) ts

/-- `Assignment::iter` (src/types/mod.rs l.1096-1105), which uses `Lit::new`; `none` is a panic. -/
def iter (a : Assignment) : Option (List Lit) :=
  iterFrom (fun i b => match Lit.new i b with | .ok l => some l | _ => none) 0 a.vals

/-- `IntoIterator for Assignment`/`&Assignment` (src/types/mod.rs l.1129-1168), which uses
`Var::new(..).pos_lit()`/`neg_lit()`; `none` is a panic. -/
def intoIter (a : Assignment) : Option (List Lit) :=
  iterFrom (fun i b => match Var.new i with | .ok v => some (Lit.mk' v b) | _ => none) 0 a.vals

/-- `FromIterator<Lit> for Assignment` (src/types/mod.rs l.1170-1176). -/
def ofLits (ls : List Lit) : Assignment := ls.foldl assignLit empty

/-- The number loop of `Assignment::extend_sat_comp_vline` (src/types/mod.rs l.1033-1054), after
splitting at white space and parsing the numbers. -/
def extendSatComp : Assignment → List Int → Res InvalidVLine Assignment
  | a, [] => .ok a
  | a, number :: rest =>
    if number = 0 then extendSatComp a rest
    else match Lit.fromIpasir number with
      | .err e => .err (.invalidLit e)
      | .panic => .panic
      | .ok l =>
        let val := a.litValue l
        if val = .true ∧ l.isNeg ∨ val = .false ∧ l.isPos then
          .err (.conflictingAssignment l.var)
        else extendSatComp (a.assignLit l) rest

end Assignment
end RustSat
