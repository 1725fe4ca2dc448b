import Verif.Model.Constraints
/-
Model of `src/encodings/atomics.rs`. The `|` and `&` operators of `src/types/operators.rs` are list
concatenation of literals and of clauses.
-/
namespace RustSat
namespace Atomics

/-- `lit_impl_lit` (atomics.rs l.10-12). -/
def litImplLit (a b : Lit) : Clause := [a.neg, b]
/-- `lit_impl_clause` (l.16-20). -/
def litImplClause (a : Lit) (b : List Lit) : Clause := b ++ [a.neg]
/-- `cube_impl_lit` (l.24-28). -/
def cubeImplLit (a : List Lit) (b : Lit) : Clause := a.map Lit.neg ++ [b]
/-- `cube_impl_clause` (l.32-36). -/
def cubeImplClause (a b : List Lit) : Clause := b ++ a.map Lit.neg
/-- `lit_impl_cube` (l.39-41). -/
def litImplCube (a : Lit) (b : List Lit) : List Clause := b.map fun bi => [a.neg, bi]
/-- `clause_impl_lit` (l.44-46). -/
def clauseImplLit (a : List Lit) (b : Lit) : List Clause := a.map fun ai => [ai.neg, b]
/-- `clause_impl_clause` (l.49-58). -/
def clauseImplClause (a b : List Lit) : List Clause := a.map fun ai => b ++ [ai.neg]
/-- `clause_impl_cube` (l.61-66). -/
def clauseImplCube (a b : List Lit) : List Clause :=
  a.flatMap fun ai => b.map fun bi => [ai.neg, bi]
/-- `cube_impl_cube` (l.69-75). -/
def cubeImplCube (a b : List Lit) : List Clause := b.map fun bi => a.map Lit.neg ++ [bi]

/-- `isize::try_from(n).expect(..)` followed by a continuation. -/
def toIsize {α : Type} (n : Nat) (k : Int → Res Empty α) : Res Empty α :=
  if n ≤ isizeMax then k n else .panic

/-- `lit_impl_card` (l.86-115). -/
def litImplCard (lit : Lit) (card : CardConstraint) : Res Empty PbConstraint :=
  if card.isUnsat then .panic else
  match card with
  | .ub lits b =>
    toIsize (lits.length + b) fun bound =>
      .ok (PbConstraint.newUbUnsigned (lits.map (fun l => (l, 1)) ++ [(lit, lits.length)]) bound)
  | .lb lits b =>
    toIsize b fun bound =>
      .ok (PbConstraint.newLbUnsigned (lits.map (fun l => (l, 1)) ++ [(lit.neg, b)]) bound)
  | .eq _ _ => .panic

/-- `card_impl_lit` (l.127-157). Subtraction underflow panics. -/
def cardImplLit (card : CardConstraint) (lit : Lit) : Res Empty PbConstraint :=
  if card.isUnsat then .panic else
  match card with
  | .ub lits b =>
    if 2 * lits.length < b + 1 then .panic else
    toIsize (2 * lits.length - b - 1) fun bound =>
      .ok (PbConstraint.newUbUnsigned (lits.map (fun l => (l.neg, 1)) ++ [(lit.neg, lits.length)]) bound)
  | .lb lits b =>
    if lits.length < b then .panic else
    toIsize (lits.length - b + 1) fun bound =>
      .ok (PbConstraint.newLbUnsigned
        (lits.map (fun l => (l.neg, 1)) ++ [(lit, lits.length - b + 1)]) bound)
  | .eq _ _ => .panic

/-- `lit_impl_pb` (l.169-190). -/
def litImplPb (lit : Lit) (pb : PbConstraint) : Res Empty PbConstraint :=
  if pb.isUnsat then .panic else
  match pb with
  | .ub _ _ _ =>
    toIsize pb.weightSum fun ws =>
      let pb' := pb.add [(lit, ws)]
      .ok (pb'.setBound (pb'.bound + ws))
  | .lb _ _ _ => .ok (pb.add [(lit.neg, pb.bound)])
  | .eq _ _ _ => .panic

/-- `pb_impl_lit` (l.202-233). The `isize::try_from(*w).unwrap()` of the single weights cannot fail once the
weight sum fits. -/
def pbImplLit (pb : PbConstraint) (lit : Lit) : Res Empty PbConstraint :=
  if pb.isUnsat then .panic else
  match pb with
  | .ub lits _ b =>
    toIsize pb.weightSum fun ws =>
      .ok (PbConstraint.newUbUnsigned
        (lits.map (fun p => (p.1.neg, p.2)) ++ [(lit.neg, pb.weightSum)]) (2 * ws - b - 1))
  | .lb lits _ b =>
    toIsize pb.weightSum fun ws =>
      let bound := ws - b + 1
      .ok (PbConstraint.newLb
        (lits.map (fun p => (p.1.neg, (p.2 : Int))) ++ [(lit, bound)]) bound)
  | .eq _ _ _ => .panic

end Atomics
end RustSat
