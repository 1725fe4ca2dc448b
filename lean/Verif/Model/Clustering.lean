import Verif.Model.Tools
import Verif.Model.Am1
/-
Model of the CNF encoding of constrained correlation clustering (tools/src/encodings/cnf/clustering.rs) and of `write_cnf` of the
tool `encodings` (tools/src/bin/encodings.rs). The text of the input is not modelled (it contains floating point numbers): the
input is the list of pairs of identifiers with the similarity that the number is mapped to. Numbers are unbounded.
-/
namespace RustSat
open Dimacs

namespace Clustering

/-- `Similarity` (cnf/clustering.rs l.98-105). -/
inductive Sim where
  | similar (w : Nat)
  | disSimilar (w : Nat)
  | dontCare
  | mustLink
  | cannotLink
deriving DecidableEq, Repr

/-- `saturating_map` (l.413-433). -/
def saturatingMap (sim : Int) (dontCare hardThreshold : Nat) : Sim :=
  if sim.natAbs < dontCare then .dontCare
  else if sim.natAbs > hardThreshold then (if sim > 0 then .mustLink else .cannotLink)
  else if sim > 0 then .similar sim.natAbs
  else .disSimilar sim.natAbs

/-- `VarId` (l.24-32). -/
inductive VarId where
  | binary (i k : Nat)
  | eq (i j k : Nat)
  | same (i j : Nat)
deriving DecidableEq, Repr

/-- `VarManager::id` (l.41-48). The manager is the list of the identifiers in the order in which they were given variables; the
variable of an identifier is its position. -/
def allocId (m : List VarId) (v : VarId) : List VarId := if v ∈ m then m else m ++ [v]

/-- `Clause` (l.107-120). -/
inductive Pos where
  | eq (i j k c : Nat)
  | same (i j c : Nat)
  | mustLink (i j c : Nat)
  | cannotLink (i j : Nat)
  | similar (i j : Nat)
  | disSimilar (i j : Nat)
deriving DecidableEq, Repr

/-- A clause over identifiers: hard, or soft with a weight and the index of an objective. The identifiers are listed in the order
of the calls of `VarManager::id`. -/
structure SymLine where
  ids : List VarId
  lits : List (VarId × Bool)
  soft : Option (Nat × Nat)
deriving DecidableEq, Repr

/-- What one turn of the loop in `next` does. -/
inductive Step where
  | goto (s : Pos)
  | emit (l : SymLine) (s : Pos)
  | stop
  | panic
deriving DecidableEq, Repr

/-- `Encoding` (l.122-128) without the variable manager and the position. -/
structure Data where
  sims : List Sim
  n : Nat
  a : Nat
deriving DecidableEq, Repr

/-- `sim_idx` (l.208-217). -/
def simIdx (i j n : Nat) : Nat := n * (n - 1) / 2 - (n - i) * ((n - i) - 1) / 2 + j - i - 1

/-- `self.similarities[Self::sim_idx(idx1, idx2, self.n)]`; `none`: index out of bounds. -/
def Data.sim (d : Data) (i j : Nat) : Option Sim := d.sims[simIdx i j d.n]?

/-- The four clauses of `Clause::Eq` (l.254-260). -/
def eqLits (i j k : Nat) : Nat → Option (List (VarId × Bool))
  | 0 => some [(.eq i j k, true), (.binary i k, true), (.binary j k, true)]
  | 1 => some [(.eq i j k, true), (.binary i k, false), (.binary j k, false)]
  | 2 => some [(.eq i j k, false), (.binary i k, false), (.binary j k, true)]
  | 3 => some [(.eq i j k, false), (.binary i k, true), (.binary j k, false)]
  | _ => none

/-- The arm `Clause::Eq` of `next` (l.226-261). -/
def Data.stepEq (d : Data) (i j k c : Nat) : Step :=
  if i ≥ d.n - 1 then .goto (.same 0 1 0)
  else if j ≥ d.n then .goto (.eq (i + 1) (i + 2) 0 0)
  else if k ≥ d.a then .goto (.eq i (j + 1) 0 0)
  else if c ≥ 4 then .goto (.eq i j (k + 1) 0)
  else match d.sim i j with
    | none => .panic
    | some .dontCare => .goto (.eq i (j + 1) 0 0)
    | some .mustLink => .goto (.eq i (j + 1) 0 0)
    | some _ =>
      match eqLits i j k c with
      | none => .panic
      | some ls => .emit ⟨[.binary i k, .binary j k, .eq i j k], ls, none⟩ (.eq i j k (c + 1))

/-- The clause of `Clause::Same` (l.284-298). -/
def Data.sameLine (d : Data) (i j c : Nat) : SymLine :=
  if c < d.a then ⟨[.same i j, .eq i j c], [(.same i j, false), (.eq i j c, true)], none⟩
  else ⟨.same i j :: (List.range d.a).map (.eq i j), (List.range d.a).map (fun k => (.eq i j k, false)) ++ [(.same i j, true)], none⟩

/-- The arm `Clause::Same` of `next` (l.262-299). -/
def Data.stepSame (d : Data) (i j c : Nat) : Step :=
  if i ≥ d.n - 1 then .goto (.mustLink 0 1 0)
  else if j ≥ d.n then .goto (.same (i + 1) (i + 2) 0)
  else if c > d.a then .goto (.same i (j + 1) 0)
  else match d.sim i j with
    | none => .panic
    | some .dontCare => .goto (.same i (j + 1) 0)
    | some .mustLink => .goto (.same i (j + 1) 0)
    | some .cannotLink => .goto (.same i (j + 1) 0)
    | some _ => .emit (d.sameLine i j c) (.same i j (c + 1))

/-- The clause of `Clause::MustLink` (l.322-329). -/
def mustLine (i j c : Nat) : SymLine :=
  ⟨[.binary i (c / 2), .binary j (c / 2)],
    if c % 2 = 0 then [(.binary i (c / 2), false), (.binary j (c / 2), true)]
    else [(.binary i (c / 2), true), (.binary j (c / 2), false)], none⟩

/-- The arm `Clause::MustLink` of `next` (l.300-330). -/
def Data.stepMust (d : Data) (i j c : Nat) : Step :=
  if i ≥ d.n - 1 then .goto (.cannotLink 0 1)
  else if j ≥ d.n then .goto (.mustLink (i + 1) (i + 2) 0)
  else if c ≥ 2 * d.a then .goto (.mustLink i (j + 1) 0)
  else match d.sim i j with
    | none => .panic
    | some .mustLink => .emit (mustLine i j c) (.mustLink i j (c + 1))
    | some _ => .goto (.mustLink i (j + 1) 0)

/-- The clause of `Clause::CannotLink` (l.349-353). -/
def Data.cannotLine (d : Data) (i j : Nat) : SymLine :=
  ⟨(List.range d.a).map (.eq i j), (List.range d.a).map fun k => (.eq i j k, false), none⟩

/-- The arm `Clause::CannotLink` of `next` (l.331-354). -/
def Data.stepCannot (d : Data) (i j : Nat) : Step :=
  if i ≥ d.n - 1 then .goto (.similar 0 1)
  else if j ≥ d.n then .goto (.cannotLink (i + 1) (i + 2))
  else match d.sim i j with
    | none => .panic
    | some .cannotLink => .emit (d.cannotLine i j) (.cannotLink i (j + 1))
    | some _ => .goto (.cannotLink i (j + 1))

/-- The arm `Clause::Similar` of `next` (l.355-377). -/
def Data.stepSimilar (d : Data) (i j : Nat) : Step :=
  if i ≥ d.n - 1 then .goto (.disSimilar 0 1)
  else if j ≥ d.n then .goto (.similar (i + 1) (i + 2))
  else match d.sim i j with
    | none => .panic
    | some (.similar w) => .emit ⟨[.same i j], [(.same i j, true)], some (w, 0)⟩ (.similar i (j + 1))
    | some _ => .goto (.similar i (j + 1))

/-- The arm `Clause::DisSimilar` of `next` (l.378-399). -/
def Data.stepDisSimilar (d : Data) (i j : Nat) : Step :=
  if i ≥ d.n - 1 then .stop
  else if j ≥ d.n then .goto (.disSimilar (i + 1) (i + 2))
  else match d.sim i j with
    | none => .panic
    | some (.disSimilar w) => .emit ⟨[.same i j], [(.same i j, false)], some (w, 1)⟩ (.disSimilar i (j + 1))
    | some _ => .goto (.disSimilar i (j + 1))

/-- One turn of the loop in `next` (l.223-401). -/
def Data.step (d : Data) : Pos → Step
  | .eq i j k c => d.stepEq i j k c
  | .same i j c => d.stepSame i j c
  | .mustLink i j c => d.stepMust i j c
  | .cannotLink i j => d.stepCannot i j
  | .similar i j => d.stepSimilar i j
  | .disSimilar i j => d.stepDisSimilar i j

/-- A clause with the variables of its identifiers, and the manager afterwards. -/
def resolve (m : List VarId) (l : SymLine) : McnfLine × List VarId :=
  let m' := l.ids.foldl allocId m
  let c : Clause := l.lits.map fun p => Lit.mk' (m'.idxOf p.1) (!p.2)
  (match l.soft with
    | none => .hard c
    | some (w, k) => .soft c w k, m')

/-- Calling `next` until it returns `None` (l.219-403). -/
def Data.run (d : Data) : Nat → List VarId → Pos → SearchResult (List McnfLine)
  | 0, _, _ => .running
  | fuel + 1, m, s =>
    match d.step s with
    | .stop => .done []
    | .panic => .panic
    | .goto s' => d.run fuel m s'
    | .emit l s' =>
      match d.run fuel (resolve m l).2 s' with
      | .done ls => .done ((resolve m l).1 :: ls)
      | .panic => .panic
      | .running => .running

section
variable {I : Type} [DecidableEq I]

/-- The entries of the identifier map in the order of insertion (l.159-166); the index of an identifier is its position. -/
def learnIdent (m : List I) (x : I) : List I := if x ∈ m then m else m ++ [x]

/-- The identifier map after the input. -/
def identMap (input : List (I × I × Sim)) : List I := input.foldl (fun m e => learnIdent (learnIdent m e.1) e.2.1) []

/-- Setting one similarity (l.180-197); `none`: index out of bounds. -/
def setSim (ids : List I) (sims : List Sim) (e : I × I × Sim) : Option (List Sim) :=
  let i := ids.idxOf e.1
  let j := ids.idxOf e.2.1
  if i = j then some sims
  else
    let p := if j < i then (j, i) else (i, j)
    let idx := simIdx p.1 p.2 ids.length
    if idx < sims.length then some (sims.set idx e.2.2) else none

/-- The loop over the pairs. -/
def setSims (ids : List I) : List (I × I × Sim) → List Sim → Option (List Sim)
  | [], sims => some sims
  | e :: rest, sims => (setSim ids sims e).bind (setSims ids rest)

/-- `Encoding::new` (l.130-206). With less than two identifiers `n - 2` underflows (`none`). -/
def Data.new (input : List (I × I × Sim)) : Option Data :=
  let ids := identMap input
  let n := ids.length
  if n < 2 then none
  else (setSims ids input (List.replicate (simIdx (n - 2) (n - 1) n + 1) .dontCare)).map fun sims => ⟨sims, n, digits n 2⟩

/-- All lines of the encoding. -/
def lines (input : List (I × I × Sim)) (fuel : Nat) : SearchResult (List McnfLine) :=
  match Data.new input with
  | none => .panic
  | some d => d.run fuel [] (.eq 0 1 0 0)

end

/-- The closure `mcnf_to_wcnf` (encodings.rs l.293-297). -/
def mcnfToWcnf : McnfLine → WcnfLine
  | .comment c => .comment c
  | .hard c => .hard c
  | .soft c w _ => .soft c w

/-- `write_cnf` (encodings.rs l.288-312). -/
def writeCnfTool (single : Bool) (ls : SearchResult (List McnfLine)) : SearchResult Text :=
  match ls with
  | .done ls =>
    match (if single then writeWcnf (ls.map mcnfToWcnf) else writeMcnf ls) with
    | some t => .done t
    | none => .panic
  | .panic => .panic
  | .running => .running

/-- The arguments of `encodings cnf clustering` that select the format of the output (encodings.rs l.47-53, l.85-94). -/
structure ClusteringArgs where
  /-- `--single-objective` before the name of the encoding -/
  outerSingle : Bool
  /-- `--single-objective` after the name of the encoding -/
  innerSingle : Bool

/-- `main` for clustering (encodings.rs l.338-350): only the outer argument is looked at. -/
def clusteringTool {I : Type} [DecidableEq I] (args : ClusteringArgs) (input : List (I × I × Sim)) (fuel : Nat) : SearchResult Text :=
  writeCnfTool args.outerSingle (lines input fuel)

end Clustering
end RustSat
