import Verif.Model.SolverOptions
/-
What the options of a solver are supposed to do.
-/
namespace RustSat.SolverOptions

/-- The names of a table increase. -/
def Sorted (t : List Opt) : Prop := t.Pairwise fun a b => strcmp a.name b.name = .lt

/-- A table as the libraries have it: the names increase, the defaults are in range, options that are switched off by a
configuration may be 0, and there is an option. -/
structure Table (t : List Opt) : Prop where
  nonempty : t ≠ []
  sorted : Sorted t
  defaults : ∀ o ∈ t, o.low ≤ o.default ∧ o.default ≤ o.high
  off : ∀ o ∈ t, o.preprocessing = true → o.low ≤ 0 ∧ 0 ≤ o.high

/-- There is an option of this name. -/
def Known (t : List Opt) (name : List Nat) : Prop := ∃ o ∈ t, o.name = name

/-- The values fit the table. -/
def InRange (t : List Opt) (vals : List Int) : Prop :=
  vals.length = t.length ∧ ∀ x ∈ t.zip vals, x.1.low ≤ x.2 ∧ x.2 ≤ x.1.high

/-- The values that Kissat's options can have: after any sequence of settings and configurations, whatever they return. -/
inductive KissatVals (t : List Opt) : List Int → Prop
  | new : KissatVals t (initial t)
  | set {vals : List Int} (name : List Nat) (v : Int) : KissatVals t vals → KissatVals t (kissatSetOption t vals name v).2
  | configure {vals : List Int} (s : NState) (c : KissatConfig) : KissatVals t vals →
    KissatVals t (kissatSetConfiguration t s vals c).2

/-- The values that CaDiCaL's options can have. The environment may give other values in range at the start. -/
inductive CadicalVals (t : List Opt) : List Int → Prop
  | new {vals : List Int} : InRange t vals → CadicalVals t vals
  | set {vals : List Int} (name : List Nat) (v : Int) : CadicalVals t vals → CadicalVals t (cadicalSetOption t vals name v).2
  | configure {vals : List Int} (s : NState) (c : CadicalConfig) : CadicalVals t vals →
    CadicalVals t (cadicalSetConfiguration t s vals c).2

end RustSat.SolverOptions
