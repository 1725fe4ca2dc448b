import Verif.Model.Bindings
/-
Model of the clause collectors: `CollectClauses for Cnf` (src/instances/sat.rs l.298-325), `LimitedIter`
(src/utils.rs l.70-100), `CollectClauses for S` for solvers (src/solvers/mod.rs l.643-676).
-/
namespace RustSat
namespace Collect

/-- How a call ends: with success, with the error `OutOfMemory`, with the process aborted since memory that the program
relies on cannot be allocated, or with a panic. -/
inductive End (α : Type) where
  | ok (a : α)
  | oom (a : α)
  | abort
  | panic

/-- The vector in a `Cnf`: its elements and its capacity. -/
structure Buf where
  clauses : ClauseSet
  cap : Nat

/-- An iterator over clauses: what it yields, and the two parts of `size_hint` when the given clauses remain.
Simplification: iterators are finite. -/
structure ClauseIter where
  items : ClauseSet
  lower : ClauseSet → Nat
  upper : ClauseSet → Option Nat

/-- `Vec::try_reserve` of the standard library if the capacity does not suffice: the capacity is at least doubled and at
least 4. `alloc n` tells whether memory for `n` elements can be allocated. -/
def grow (alloc : Nat → Bool) (b : Buf) (additional : Nat) : Option Buf :=
  let cap := max 4 (max (2 * b.cap) (b.clauses.length + additional))
  if alloc cap then some { b with cap := cap } else none

/-- `Cnf::try_reserve` (sat.rs l.59-64); `none`: error. -/
def tryReserve (alloc : Nat → Bool) (b : Buf) (additional : Nat) : Option Buf :=
  if additional ≤ b.cap - b.clauses.length then some b else grow alloc b additional

/-- One step of `Vec::extend` of the standard library: if the vector is full, memory is allocated for the element and for
as many as the iterator promises; if that fails, the process is aborted. -/
def push (alloc : Nat → Bool) (b : Buf) (lower : Nat) (c : Clause) : End Buf :=
  if b.clauses.length < b.cap then .ok { b with clauses := b.clauses ++ [c] }
  else
    match grow alloc b (lower + 1) with
    | some b => .ok { b with clauses := b.clauses ++ [c] }
    | none => .abort

/-- `Extend<Clause> for Cnf` (sat.rs l.355-359). -/
def extend (alloc : Nat → Bool) (lower : ClauseSet → Nat) : Buf → ClauseSet → End Buf
  | b, [] => .ok b
  | b, c :: cs =>
    match push alloc b (lower cs) c with
    | .ok b => extend alloc lower b cs
    | e => e

/-- `Extend<Clause> for Cnf` with a `LimitedIter` (utils.rs l.86-99) that has `remaining` elements left; its `size_hint` is
the default. Also returns what the iterator behind it still yields. -/
def extendLimited (alloc : Nat → Bool) : (remaining : Nat) → Buf → ClauseSet → End (Buf × ClauseSet)
  | 0, b, cs => .ok (b, cs)
  | _ + 1, b, [] => .ok (b, [])
  | n + 1, b, c :: cs =>
    match push alloc b 0 c with
    | .ok b => extendLimited alloc n b cs
    | .oom b => .oom (b, cs)
    | .abort => .abort
    | .panic => .panic

/-- `usize::next_power_of_two` without overflow. -/
def nextPow2 (n : Nat) : Nat := if n ≤ 1 then 1 else 2 ^ (Nat.log2 (n - 1) + 1)

/-- The loop of `extend_clauses` for an iterator without an upper bound (sat.rs l.312-321); `Peekable` adds the clause it
has taken to the lower bound. Overflow is a panic (it is in builds that check for overflow). The first argument bounds the
number of rounds. -/
def chunks (alloc : Nat → Bool) (lower : ClauseSet → Nat) : Nat → Buf → ClauseSet → End Buf
  | _, b, [] => .ok b
  | 0, _, _ :: _ => .panic
  | fuel + 1, b, c :: cs =>
    let total := b.clauses.length + max (lower cs + 1) 1
    if 2 ^ 64 ≤ total ∨ 2 ^ 64 ≤ nextPow2 total then .panic
    else
      let additional := nextPow2 total - b.clauses.length
      match tryReserve alloc b additional with
      | none => .oom b
      | some b =>
        match extendLimited alloc additional b (c :: cs) with
        | .ok (b, rest) => chunks alloc lower fuel b rest
        | .oom (b, _) => .oom b
        | .abort => .abort
        | .panic => .panic

/-- `extend_clauses` for `Cnf` (sat.rs l.303-325). -/
def extendClauses (alloc : Nat → Bool) (b : Buf) (it : ClauseIter) : End Buf :=
  match it.upper it.items with
  | some ub =>
    match tryReserve alloc b ub with
    | none => .oom b
    | some b => extend alloc it.lower b it.items
  | none => chunks alloc it.lower it.items.length b it.items

/-- `add_clause` of the trait (encodings/mod.rs l.34-36): an array of one clause knows its length. -/
def addClause (alloc : Nat → Bool) (b : Buf) (c : Clause) : End Buf :=
  extendClauses alloc b ⟨[c], List.length, fun l => some l.length⟩

/-- The errors of `Solve::add_clause` as far as collectors tell them apart. -/
inductive AddErr where
  | outOfMemory
  | other

/-- `extend_clauses` for solvers (solvers/mod.rs l.661-669), with the macro `pass_oom_or_panic!` (l.643-654). -/
def solverExtend {S : Type} (add : S → Clause → Res AddErr Unit × S) : S → ClauseSet → End S
  | s, [] => .ok s
  | s, c :: cs =>
    match add s c with
    | (.ok _, s) => solverExtend add s cs
    | (.err .outOfMemory, s) => .oom s
    | (.err .other, _) => .panic
    | (.panic, _) => .panic

/-- `add_clause` of the Kissat wrapper (model of C69) as seen by the collector: it has no error for running out of
memory. -/
def kissatAdd {H : Type} [KissatLib H] (n : Native H) (c : Clause) : Res AddErr Unit × Native H :=
  match Kissat.addClause n c with
  | (.ok u, n) => (.ok u, n)
  | (.err _, n) => (.err .other, n)
  | (.panic, n) => (.panic, n)

end Collect
end RustSat
