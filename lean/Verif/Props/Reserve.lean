import Verif.Lemmas.ReserveDpw
import Verif.Props.Dpw
import Verif.Props.Gte
/-
C85 in full: `reserve` (`EncodeIncremental`) reserves all variables that the encoding of the literals added so far can
need: after it, no call to an encode function takes variables from the variable manager until literals are added.
This does not hold for a dynamic polynomial watchdog after its precision was increased (`C85_violated_precision`), and for
connections with a limit in the database of the totalizers (`C85_violated_limited`); `reserve` of the binary adder panics,
see C34.
-/
namespace RustSat
open TotDb Card
variable {VM : Type} [ManageVars VM] [LawfulVM VM]

/-- **C85.** After `reserve` of a totalizer in any state, and any further operations except adding literals, encoding does
not use the variable manager. -/
theorem C85_totalizer (w w1 w2 w3 : CardWorld VM) (h : CardWorld.Reach (fun _ => True) w) (hr : w.step .reserve = some w1)
    (h2 : CardWorld.Since w1 w2) (op : CardOp VM) (hop : CardWorld.isEncode op) (hs : w2.step op = some w3) : w3.vm = w2.vm :=
  (CardWorld.ready_encode (CardWorld.Since.ready h hr h2).2 hop hs).2

/-- **C85.** After `reserve` of a generalized totalizer in any state, and any further operations except adding literals,
encoding does not use the variable manager. -/
theorem C85_gte (w w1 w2 w3 : GteWorld VM) (h : GteWorld.Reach (fun _ => True) w) (hr : w.step .reserve = some w1)
    (h2 : GteWorld.Since w1 w2) (op : GteOp VM) (hop : GteWorld.isEncode op) (hs : w2.step op = some w3) : w3.vm = w2.vm :=
  (GteWorld.ready_encode (GteWorld.Since.ready h hr h2).2 hop hs).2

/-- **C85** (part: the precision was not changed after the encoding was built or last extended). After `reserve` of a
dynamic polynomial watchdog, and any further operations except adding literals and setting the precision, encoding does
not use the variable manager. -/
theorem C85_dpw_partial (w w1 w2 w3 : DpwWorld VM) (h : DpwWorld.Reach (fun _ _ => True) w) (hp : w.precise) (hr : w.step .reserve = some w1)
    (h2 : DpwWorld.Since w1 w2) (op : DpwOp VM) (hop : DpwWorld.isEncode op) (hs : w2.step op = some w3) : w3.vm = w2.vm :=
  (DpwWorld.ready_encode (DpwWorld.Since.ready h hp hr h2).2.2 hop hs).2

namespace ReserveDemo

/-- The numbers of used variables after each of a list of operations. -/
def card (w : CardWorld BasicVM) : List (CardOp BasicVM) → List Nat
  | [] => []
  | op :: ops => match w.step op with | none => [] | some w => ManageVars.nUsed w.vm :: card w ops

/-- The numbers of used variables after each of a list of operations. -/
def gte (w : GteWorld BasicVM) : List (GteOp BasicVM) → List Nat
  | [] => []
  | op :: ops => match w.step op with | none => [] | some w => ManageVars.nUsed w.vm :: gte w ops

/-- The numbers of used variables after each of a list of operations. -/
def dpw (w : DpwWorld BasicVM) : List (DpwOp BasicVM) → List Nat
  | [] => []
  | op :: ops => match w.step op with | none => [] | some w => ManageVars.nUsed w.vm :: dpw w ops

end ReserveDemo

/-- Non-vacuity: encoding without and with reserving; after adding a literal variables are used again. -/
example : ReserveDemo.card (CardWorld.start [Lit.pos 0, Lit.pos 1, Lit.pos 2] ⟨3⟩)
    [.encodeUb ⟨.incl 1, .incl 1⟩, .encodeLb ⟨.incl 1, .incl 1⟩, .add [Lit.pos 0], .encodeUb ⟨.incl 2, .incl 2⟩] = [6, 7, 7, 9] := by decide

example : ReserveDemo.card (CardWorld.start [Lit.pos 0, Lit.pos 1, Lit.pos 2] ⟨3⟩)
    [.reserve, .encodeUb ⟨.incl 1, .incl 1⟩, .useVars ⟨20⟩, .encodeLb ⟨.incl 1, .incl 1⟩, .encodeBoth ⟨.unbounded, .unbounded⟩, .add [Lit.pos 0],
      .encodeUb ⟨.incl 2, .incl 2⟩] = [8, 8, 20, 20, 20, 20, 21] := by decide

/-- Non-vacuity: the generalized totalizer. -/
example : ReserveDemo.gte GteDemo.start [.encodeUb ⟨.incl 1, .incl 1⟩, .encodeUb ⟨.incl 5, .incl 7⟩, .reserve, .encodeUbChange ⟨.unbounded, .unbounded⟩] =
    [4, 8, 10, 10] := by decide

example : ReserveDemo.gte GteDemo.start [.reserve, .encodeUb ⟨.incl 5, .incl 7⟩, .encodeUbChange ⟨.unbounded, .unbounded⟩] = [10, 10, 10] := by decide

/-- Non-vacuity: the dynamic polynomial watchdog, also after the precision was increased and the encoding was extended. -/
example : (DpwDemo.start DpwDemo.lits ⟨4⟩).map (fun w => ReserveDemo.dpw w [.encodeUb ⟨.incl 1, .incl 1⟩, .encodeUb ⟨.incl 5, .incl 7⟩, .reserve,
    .encodeUbChange ⟨.unbounded, .unbounded⟩]) = some [15, 18, 19, 19] := by decide_cbv

example : (DpwDemo.start DpwDemo.lits ⟨4⟩).map (fun w => ReserveDemo.dpw w [.setPrecision 2, .encodeUb ⟨.incl 1, .incl 1⟩, .setPrecision 1,
    .encodeUb ⟨.incl 5, .incl 7⟩, .reserve, .encodeUbChange ⟨.unbounded, .unbounded⟩]) = some [4, 10, 10, 18, 19, 19] := by decide_cbv

/-- A concrete history in which the precision is increased before reserving. -/
def ReserveDemo.finer : Option (DpwWorld BasicVM) :=
  DpwDemo.run (fun _ _ => true) [.setPrecision 2, .encodeUb ⟨.incl 1, .incl 1⟩, .setPrecision 1] (DpwDemo.start DpwDemo.lits ⟨4⟩)

/-- The history leads to a reachable state. -/
theorem ReserveDemo.finer_reach (w : DpwWorld BasicVM) (h : ReserveDemo.finer = some w) : DpwWorld.Reach (fun _ _ => True) w := by
  unfold ReserveDemo.finer at h
  cases hs : DpwDemo.start DpwDemo.lits (⟨4⟩ : BasicVM) with
  | none => rw [hs, DpwDemo.run_none] at h; cases h
  | some w0 =>
    rw [hs] at h
    exact DpwDemo.run_reach (fun _ _ _ => trivial) _ _ _ (DpwDemo.start_reach (by decide) (by decide) hs) h

/-- **C85** (violation): if the precision is increased after the first encoding, `reserve` does not extend the encoding,
and variables are used by the next encode call: after reserving 13 variables are in use, after encoding 18. -/
theorem C85_violated_precision : (ReserveDemo.finer.map fun w => ReserveDemo.dpw w [.reserve, .encodeUb ⟨.incl 5, .incl 7⟩]) = some [13, 18] := by
  decide_cbv

/-- **C85** (violation): reserving for a connection that transmits only the second output of a node with three inputs
does not reserve the variable of that output: encoding it needs a new variable (the seventh). -/
theorem C85_violated_limited :
    (reserveVars 5 (⟨(litTree Db.empty [Lit.pos 0, Lit.pos 1, Lit.pos 2]).2, ⟨3⟩, []⟩ : St BasicVM) ⟨4, 1, 1, 1, some 1⟩).map (fun st =>
      (ManageVars.nUsed st.vm, (NodeCon.mk 4 1 1 1 (some 1)).revMap 1, (define st 4 1 .if_).map fun x => ManageVars.nUsed x.2.vm)) =
    some (6, 2, some 7) := by decide

end RustSat
