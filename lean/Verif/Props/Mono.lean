import Verif.Lemmas.Mono
import Verif.Props.Dpw
/-
C55: encodings marked as `Monotone` (generalized totalizer, binary adder, totalizer) may have bounds enforced as hard
clauses without getting in the way of tighter bounds later, over all histories of calls.
-/
namespace RustSat
open Card
variable {VM : Type} [ManageVars VM] [LawfulVM VM]

namespace MonoDemo

/-- Operations of concrete histories. -/
inductive Op where
  | encodeUb (r : URange)
  | encodeUbChange (r : URange)
  | harden (b : Nat)

section
variable {E ι : Type} [Item ι] [LawfulItem ι] [Encoder E ι] [BoundUpper E VM] [EnforceUb E]

/-- Running a history; `none` if an operation fails. -/
def run : List Op → EncWorld E ι VM → List (Nat × List Lit) → Option (EncWorld E ι VM × List (Nat × List Lit))
  | [], w, H => some (w, H)
  | .encodeUb r :: ops, w, H =>
    match BoundUpper.encodeUb w.enc r w.vm w.cls with
    | none => none
    | some (e', vm', cls') => run ops ⟨e', vm', cls', w.ins, w.own ++ CardWorld.handedOut w.vm vm'⟩ H
  | .encodeUbChange r :: ops, w, H =>
    match BoundUpper.encodeUbChange w.enc r w.vm w.cls with
    | none => none
    | some (e', vm', cls') => run ops ⟨e', vm', cls', w.ins, w.own ++ CardWorld.handedOut w.vm vm'⟩ H
  | .harden b :: ops, w, H =>
    match EnforceUb.enforceUb w.enc b with
    | .ok A => run ops w ((b, A) :: H)
    | _ => none

omit [LawfulVM VM] in
/-- The concrete histories used in examples lead to reachable states. -/
theorem run_reach {same : E → E → Prop} : ∀ (ops : List Op) (w w' : EncWorld E ι VM) (H H' : List (Nat × List Lit)),
    MonoReach same w H → run ops w H = some (w', H') → MonoReach same w' H' := by
  intro ops
  induction ops with
  | nil => intro w w' H H' h e; cases e; exact h
  | cons op ops ih =>
    intro w w' H H' h e
    cases op with
    | encodeUb r =>
      unfold run at e
      cases hs : BoundUpper.encodeUb w.enc r w.vm w.cls with
      | none => rw [hs] at e; cases e
      | some x => rw [hs] at e; exact ih _ _ _ _ (.encodeUb w H r _ _ _ h hs) e
    | encodeUbChange r =>
      unfold run at e
      cases hs : BoundUpper.encodeUbChange w.enc r w.vm w.cls with
      | none => rw [hs] at e; cases e
      | some x => rw [hs] at e; exact ih _ _ _ _ (.encodeUbChange w H r _ _ _ h hs) e
    | harden b =>
      unfold run at e
      cases hs : EnforceUb.enforceUb w.enc b with
      | ok A => rw [hs] at e; exact ih _ _ _ _ (.harden w H b A h hs) e
      | err x => rw [hs] at e; cases e
      | panic => rw [hs] at e; cases e

end

/-- Inputs of the examples. -/
def lits : List (Lit × Nat) := [(Lit.pos 0, 3), (Lit.pos 1, 2), (Lit.negOf 2, 2)]

/-- The operations of the examples: the bounds 4 and 2 are enforced permanently, one after the other. -/
def ops : List Op := [.encodeUb ⟨.incl 4, .incl 4⟩, .harden 4, .encodeUb ⟨.incl 2, .incl 2⟩, .harden 2,
  .encodeUbChange ⟨.incl 3, .incl 3⟩, .harden 3]

end MonoDemo

/-- **C55** (generalized totalizer). After any history of adding literals, encoding upper bounds and permanently
enforcing them, every assignment to the inputs that respects all permanently enforced bounds extends to a model of the
clauses in which everything enforced holds. -/
theorem C55_gte (w : EncWorld Gte (Lit × Nat) VM) (H : List (Nat × List Lit))
    (h : MonoReach (fun e e' => ∃ buffer, buffer.Perm e.litBuffer ∧ e' = { e with litBuffer := buffer }) w H) :
    NoConflict w H :=
  MonoReach.noConflict (VM := VM) h

example : ((MonoDemo.run MonoDemo.ops (⟨Encoder.new MonoDemo.lits, ⟨3⟩, [], MonoDemo.lits, []⟩ :
    EncWorld Gte (Lit × Nat) BasicVM) []).map fun x => (x.1.cls.length, x.2)) =
  some (12, [(3, [Lit.negOf 8, Lit.negOf 3]), (2, [Lit.negOf 7, Lit.negOf 8, Lit.negOf 3]), (4, [Lit.negOf 3, Lit.negOf 5])]) := by decide

example (w : EncWorld Gte (Lit × Nat) BasicVM) (H : List (Nat × List Lit))
    (e : MonoDemo.run MonoDemo.ops ⟨Encoder.new MonoDemo.lits, ⟨3⟩, [], MonoDemo.lits, []⟩ [] = some (w, H)) : NoConflict w H :=
  C55_gte w H (MonoDemo.run_reach _ _ _ _ _ (.start MonoDemo.lits ⟨3⟩
    (by show (MonoDemo.lits.map (·.1)).Nodup; decide) (by decide)) e)

/-- **C55** (binary adder). -/
theorem C55_adder (w : EncWorld BinaryAdder (Lit × Nat) VM) (H : List (Nat × List Lit))
    (h : MonoReach (fun e e' => ∃ buffer, buffer.Perm e.litBuffer ∧ e' = { e with litBuffer := buffer }) w H) :
    NoConflict w H :=
  MonoReach.noConflict (VM := VM) h

example : ((MonoDemo.run MonoDemo.ops (⟨Encoder.new MonoDemo.lits, ⟨3⟩, [], MonoDemo.lits, []⟩ :
    EncWorld BinaryAdder (Lit × Nat) BasicVM) []).map fun x => (x.1.cls.length, x.2)) =
  some (19, [(3, [Lit.negOf 7]), (2, [Lit.negOf 6]), (4, [Lit.negOf 5])]) := by decide

example (w : EncWorld BinaryAdder (Lit × Nat) BasicVM) (H : List (Nat × List Lit))
    (e : MonoDemo.run MonoDemo.ops ⟨Encoder.new MonoDemo.lits, ⟨3⟩, [], MonoDemo.lits, []⟩ [] = some (w, H)) : NoConflict w H :=
  C55_adder w H (MonoDemo.run_reach _ _ _ _ _ (.start MonoDemo.lits ⟨3⟩
    (by show (MonoDemo.lits.map (·.1)).Nodup; decide) (by decide)) e)

/-- **C55** (totalizer). -/
theorem C55_totalizer (w : EncWorld Totalizer Lit VM) (H : List (Nat × List Lit)) (h : MonoReach Eq w H) :
    NoConflict w H :=
  MonoReach.noConflict (VM := VM) h

example : ((MonoDemo.run MonoDemo.ops (⟨Encoder.new [Lit.pos 0, Lit.pos 1, Lit.pos 2, Lit.pos 3, Lit.negOf 0], ⟨4⟩, [],
    [Lit.pos 0, Lit.pos 1, Lit.pos 2, Lit.pos 3, Lit.negOf 0], []⟩ :
    EncWorld Totalizer Lit BasicVM) []).map fun x => (x.1.cls.length, x.2)) =
  some (20, [(3, [Lit.negOf 13]), (2, [Lit.negOf 12]), (4, [Lit.negOf 7])]) := by decide

example (w : EncWorld Totalizer Lit BasicVM) (H : List (Nat × List Lit))
    (e : MonoDemo.run MonoDemo.ops ⟨Encoder.new [Lit.pos 0, Lit.pos 1, Lit.pos 2, Lit.pos 3, Lit.negOf 0], ⟨4⟩, [],
      [Lit.pos 0, Lit.pos 1, Lit.pos 2, Lit.pos 3, Lit.negOf 0], []⟩ [] = some (w, H)) : NoConflict w H :=
  C55_totalizer w H (MonoDemo.run_reach _ _ _ _ _ (.start _ ⟨4⟩ trivial (by decide)) e)

/-- **C55.** The dynamic polynomial watchdog is rightly not marked as monotone: with weights 1 and 2, enforcing 2
permanently and then 1 excludes the assignment with sum 1. -/
theorem C55_dpw_not_monotone : ∃ w A2 A1, DpwDemo.run (fun _ _ => true) [.encodeUb ⟨.unbounded, .unbounded⟩]
      (DpwDemo.start [(Lit.pos 0, 1), (Lit.pos 1, 2)] (⟨2⟩ : BasicVM)) = some w ∧
    w.dpw.enforceUb 2 = .ok A2 ∧ w.dpw.enforceUb 1 = .ok A1 ∧
    ∀ m : Asg, m 0 = true → m 1 = false → ¬ (ClauseSet.sat m w.cls ∧ cubeSat m A2 ∧ cubeSat m A1) := by
  refine ⟨_, _, _, rfl, (by decide : _ = Res.ok [Lit.negOf 5, Lit.pos 2]), (by decide : _ = Res.ok [Lit.negOf 4]), ?_⟩
  rintro m h0 h1 ⟨hs, h2, h3⟩
  have c1 := hs [Lit.negOf 0, Lit.negOf 2, Lit.pos 3] (by decide)
  have c2 := hs [Lit.negOf 3, Lit.pos 4] (by decide)
  have h4 : m 2 = true := by have := h2 (Lit.pos 2) (by decide); simpa [Lit.holds] using this
  have h5 : m 4 = false := by have := h3 (Lit.negOf 4) (by decide); simpa [Lit.holds] using this
  simp [Clause.sat, h0, h4] at c1
  simp [Clause.sat, h5] at c2
  rw [c1] at c2
  cases c2

end RustSat
