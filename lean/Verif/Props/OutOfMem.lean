import Verif.Lemmas.OutOfMemAny
import Verif.Lemmas.NoUnitGte
import Verif.Props.Gte
/-
C97: encoding calls that run out of memory.
-/
namespace RustSat
open TotDb Card
variable {VM : Type} [ManageVars VM] [LawfulVM VM]

namespace MemDemo

/-- Running a history; also lists the answers, where "out of memory" is `some lost`. -/
def run (w : GteWorld VM) : List (MemGteOp VM) → Option (List (Option Bool) × GteWorld VM)
  | [] => some ([], w)
  | op :: ops =>
    (w.memStep op).bind fun (a, w) =>
      (run w ops).map fun (as, w) => ((match a with | .ok => none | .outOfMemory lost => some lost) :: as, w)

/-- Inputs are variables 0, 1, 2 with weights 1, 2, 4; three variables are in use. -/
def start : GteWorld BasicVM := GteWorld.start [(Lit.pos 0, 1), (Lit.pos 1, 2), (Lit.pos 2, 4)] ⟨3⟩

theorem start_reach : GteWorld.MemReach start := .start _ _ (by decide) (by decide)

/-- The first call runs out of memory after two clauses, the second one at once, the third one has enough memory. -/
def ops : List (MemGteOp BasicVM) :=
  [.encodeUb ⟨.unbounded, .incl 5⟩ [none, none, some 0], .encodeUbChange ⟨.unbounded, .incl 5⟩ [some 0],
    .encodeUbChange ⟨.unbounded, .incl 5⟩ []]

end MemDemo

/-- **C97 (partial).** After any history of operations in which encoding calls ran out of memory any number of times, if
`enforce_ub(b)` returns assumptions, every model of all clauses collected so far and these assumptions has a weighted sum
of at most `b`, and every assignment with a weighted sum of at most `b` becomes such a model by changing only variables
that were handed out to the encoder. Missing: calls that run out of memory while the clauses of an output already marked
as encoded are collected, see `C97_violated_enforce`. -/
theorem C97_upper_bound_partial (w : GteWorld VM) (h : GteWorld.MemReach w) (b : Nat) (A : List Lit)
    (hA : w.gte.enforceUb b = .ok A) :
    (∀ m, ClauseSet.sat m w.cls → cubeSat m A → wsum m w.ins ≤ b) ∧
    (∀ a, wsum a w.ins ≤ b → ∃ m, (∀ v, v ∉ w.own → m v = a v) ∧ ClauseSet.sat m w.cls ∧ cubeSat m A) := by
  obtain ⟨ht, -⟩ := h.inv
  exact ⟨fun m hm hc => ht.sound hA ht.core.soundIf hm hc, fun a ha => ht.complete hA ha⟩

/-- Non-vacuity: in the concrete history two calls run out of memory, each without marking an output; the bound 5 cannot
be enforced after them but after the third call. -/
example :
    ((MemDemo.run MemDemo.start (MemDemo.ops.take 2)).map fun (as, w) => (as, w.cls.length, w.gte.enforceUb 5)) =
      some ([some false, some false], 2, .err .notEncoded) ∧
    ((MemDemo.run MemDemo.start MemDemo.ops).map fun (as, w) => (as, w.cls.length, w.gte.enforceUb 5)) =
      some ([some false, some false, none], 10, .ok [Lit.negOf 10, Lit.negOf 12]) := by decide

/-- **C97.** Whatever ran out of memory before, at whatever moment, an enforced bound never excludes too much: if
`enforce_ub(b)` returns assumptions, every assignment with a weighted sum of at most `b` becomes a model of the clauses
collected so far and the assumptions by changing only variables that were handed out to the encoder. -/
theorem C97_never_too_strong (w : GteWorld VM) (h : GteWorld.AnyReach w) (b : Nat) (A : List Lit)
    (hA : w.gte.enforceUb b = .ok A) (a : Asg) (ha : wsum a w.ins ≤ b) :
    ∃ m, (∀ v, v ∉ w.own → m v = a v) ∧ ClauseSet.sat m w.cls ∧ cubeSat m A := by
  obtain ⟨all, hi⟩ := h.inv
  obtain ⟨m, h1, h2, h3⟩ := hi.gte.complete hA ha
  exact ⟨m, h1, fun c hc => h2 c (hi.sub c hc), h3⟩

/-- **C97.** An encoding call that does not run out of memory does exactly what it does with unlimited memory, whatever
calls ran out of memory before. -/
theorem C97_same (w w' : GteWorld VM) (h : GteWorld.AnyReach w) (r : URange) (mem : List (Option Nat)) :
    (w.memStep (.encodeUb r mem) = some (.ok, w') → w.step (.encodeUb r) = some w') ∧
    (w.memStep (.encodeUbChange r mem) = some (.ok, w') → w.step (.encodeUbChange r) = some w') := by
  obtain ⟨all, hi⟩ := h.inv
  refine ⟨fun hs => ?_, fun hs => ?_⟩
  · obtain ⟨a, w2, all', e, -, -, q⟩ := GteWorld.any_spec w hi (.encodeUb r mem) trivial
    rw [hs] at e
    cases e
    exact (q rfl r mem).1 rfl
  · obtain ⟨a, w2, all', e, -, -, q⟩ := GteWorld.any_spec w hi (.encodeUbChange r mem) trivial
    rw [hs] at e
    cases e
    exact (q rfl r mem).2 rfl

/-- **C97.** Repeating `encode_ub` repairs everything: after any history of calls that ran out of memory at any moment,
once `encode_ub` succeeds, every bound of its range can be enforced, and whatever bound is enforced then, it holds in
every model of the assumptions and the clauses of this last call alone. -/
theorem C97_repair (w w' : GteWorld VM) (h : GteWorld.AnyReach w) (r : URange) (mem : List (Option Nat))
    (hs : w.memStep (.encodeUb r mem) = some (.ok, w')) :
    (∀ b, r.contains b → ∃ A, w'.gte.enforceUb b = .ok A) ∧
    (∀ b A, w'.gte.enforceUb b = .ok A → ∀ m, ClauseSet.sat m (w'.cls.drop w.cls.length) → cubeSat m A →
      wsum m w'.ins ≤ b) := by
  have e := (C97_same w w' h r mem).1 hs
  obtain ⟨all, hi⟩ := h.inv
  obtain ⟨t', vm', new, e1, h1, h4, h5⟩ := hi.gte.encodeUb w.cls r
  simp only [GteWorld.step, e1, GteWorld.encoded, Option.map_some, Option.some.injEq] at e
  subst e
  refine ⟨fun b hb => ?_, fun b A hA m hm hc => ?_⟩
  · rcases h1.inv.enforceUb_cases b with ⟨-, e⟩ | ⟨hlt, -, hn⟩ | ⟨-, -, A, e, -⟩
    · exact ⟨_, e⟩
    · exact absurd (h4 b hb hlt) hn
    · exact ⟨A, e⟩
  · simp only [List.drop_left] at hm hA ⊢
    exact h1.inv.sound hA h5 hm hc

/-- **C97.** Encoding calls can be repeated: after any history of calls that ran out of memory, once a call for a range
succeeds, every bound of the range can be enforced. -/
theorem C97_retry (w w' : GteWorld VM) (h : GteWorld.AnyReach w) (r : URange) (mem : List (Option Nat))
    (hs : w.memStep (.encodeUb r mem) = some (.ok, w') ∨ w.memStep (.encodeUbChange r mem) = some (.ok, w'))
    (b : Nat) (hb : r.contains b) : ∃ A, w'.gte.enforceUb b = .ok A := by
  rcases hs with hs | hs
  · exact (C97_repair w w' h r mem hs).1 b hb
  · obtain ⟨all, hi⟩ := (GteWorld.AnyReach.step w w' (.encodeUbChange r mem) _ h trivial hs).inv
    have hu : w'.ub b := by
      have e := (C97_same w w' h r mem).2 hs
      simp only [GteWorld.step, GteWorld.encoded, Option.map_eq_some_iff] at e
      obtain ⟨x, -, rfl⟩ := e
      exact Or.inl hb
    rcases hi.gte.enforceUb_cases b with ⟨-, e⟩ | ⟨hlt, -, hn⟩ | ⟨-, -, A, e, -⟩
    · exact ⟨_, e⟩
    · exact absurd (hi.ubEnc b hlt hu) hn
    · exact ⟨A, e⟩

/-- Non-vacuity: in the concrete history the third call succeeds after two that failed. -/
example : ((MemDemo.run MemDemo.start MemDemo.ops).map fun (as, w) => (as, w.gte.enforceUb 3)) =
    some ([some false, some false, none], .ok [Lit.negOf 7, Lit.negOf 9, Lit.negOf 10, Lit.negOf 12]) := by decide

/-- **C97.** A call of `encode_ub_change` that runs out of memory and has no further literals to include leaves all bounds
enforceable that were covered by earlier calls. -/
theorem C97_keeps (w w' : GteWorld VM) (h : GteWorld.AnyReach w) (r : URange) (mem : List (Option Nat)) (lost : Bool)
    (hs : w.memStep (.encodeUbChange r mem) = some (.outOfMemory lost, w'))
    (hr : ∀ x ∈ w.gte.litBuffer, ∀ b, r.contains b → b < x.2) (b : Nat) (hb : w.ub b) : ∃ A, w'.gte.enforceUb b = .ok A := by
  obtain ⟨all, hi⟩ := (GteWorld.AnyReach.step w w' (.encodeUbChange r mem) _ h trivial hs).inv
  have hu : w'.ub b := by
    simp only [GteWorld.memStep, GteWorld.memEncoded] at hs
    cases hx : w.gte.memEncodeUbChange r w.vm w.cls mem with
    | panic => rw [hx] at hs; cases hs
    | ok => rw [hx] at hs; cases hs
    | oom lost t' vm' cls' =>
      rw [hx] at hs
      simp only [Option.some.injEq, Prod.mk.injEq] at hs
      obtain ⟨-, rfl⟩ := hs
      exact ⟨hb, hr⟩
  rcases hi.gte.enforceUb_cases b with ⟨-, e⟩ | ⟨hlt, -, hn⟩ | ⟨-, -, A, e, -⟩
  · exact ⟨_, e⟩
  · exact absurd (hi.ubEnc b hlt hu) hn
  · exact ⟨A, e⟩

/-- Non-vacuity: the bound 5 is encoded, then encoding the bounds 0 and 1 runs out of memory, and 5 can still be
enforced. -/
example :
    ((MemDemo.run MemDemo.start [.encodeUb ⟨.incl 5, .incl 5⟩ [], .encodeUbChange ⟨.unbounded, .incl 1⟩ [some 0]]).map
      fun (as, w) => (as, w.gte.enforceUb 5, w.gte.enforceUb 1)) =
      some ([none, some false], .ok [Lit.negOf 3, Lit.negOf 5], .err .notEncoded) := by decide

/-- **C97.** Whether it runs out of memory or not, no call panics, and the clauses collected before stay where they are. -/
theorem C97_no_panic (w : GteWorld VM) (h : GteWorld.AnyReach w) (op : MemGteOp VM) (ha : w.memAllowed op) :
    ∃ a w', w.memStep op = some (a, w') ∧ w.cls <+: w'.cls := by
  obtain ⟨all, hi⟩ := h.inv
  obtain ⟨a, w', all', e, -, hp, -⟩ := GteWorld.any_spec w hi op ha
  exact ⟨a, w', e, hp⟩

example : ((MemDemo.run MemDemo.start (MemDemo.ops.take 1)).map fun (as, w) => (as, w.cls)) =
    some ([some false], [[Lit.negOf 0, Lit.pos 3], [Lit.negOf 1, Lit.pos 5]]) := by decide

/-- **C97 (partial).** The number of clauses that the encoder reports is at most the number of collected clauses.
Missing: they are equal, see `C97_violated_stats`. -/
theorem C97_stats_partial (w : GteWorld VM) (h : GteWorld.MemReach w) : w.gte.nClauses ≤ w.cls.length := h.inv.nClauses

/-- **C97, violated.** Clauses and variables of a call that runs out of memory are not counted: in the end 10 clauses
are collected and 10 variables were handed out, but the encoder reports 8 and 7. -/
theorem C97_violated_stats :
    ((MemDemo.run MemDemo.start MemDemo.ops).map fun (_, w) => (w.cls.length, w.gte.nClauses, w.own.length, w.gte.nVars)) =
      some (10, 8, 10, 7) := by decide

/-- **C97.** If all inputs have different literals and different weights, no call runs out of memory at a bad moment, so
that the theorems above hold for every history. -/
theorem C97_distinct_weights (w w' : GteWorld VM) (h : GteWorld.MemReach w) (h1 : (w.ins.map (·.1)).Nodup)
    (h2 : (w.ins.map (·.2)).Nodup) (op : MemGteOp VM) (a : MemAnswer) (hs : w.memStep op = some (a, w')) :
    a ≠ .outOfMemory true := h.notLost h1 h2 op a hs

example : (MemDemo.start.ins.map (·.1)).Nodup ∧ (MemDemo.start.ins.map (·.2)).Nodup := by decide

namespace MemDemo

/-- Two inputs of weight 3. -/
def equal : GteWorld BasicVM := GteWorld.start [(Lit.pos 0, 3), (Lit.pos 1, 3)] ⟨2⟩

theorem equal_reach : GteWorld.MemReach equal := .start _ _ (by decide) (by decide)

/-- The same call for a totalizer with two inputs: what happened (`some lost` for out of memory), the encoder and the
clauses. -/
def result : EncodeEnd Totalizer BasicVM → Option (Option Bool × Totalizer × BasicVM × ClauseSet)
  | .ok t vm cls => some (none, t, vm, cls)
  | .oom lost t vm cls => some (some lost, t, vm, cls)
  | .panic => none

end MemDemo

/-- **C97, violated.** A call runs out of memory before any clause is collected, and is repeated successfully without
adding any clause. The bound 3 is then enforced, but the clauses and the assumptions have a model with a sum of 6. -/
theorem C97_violated_enforce :
    ∃ w, MemDemo.run MemDemo.equal [.encodeUb ⟨.incl 3, .incl 3⟩ [some 0], .encodeUbChange ⟨.incl 3, .incl 3⟩ []] =
        some ([some true, none], w) ∧
      ∃ A m, w.gte.enforceUb 3 = .ok A ∧ ClauseSet.sat m w.cls ∧ cubeSat m A ∧ wsum m w.ins = 6 := by
  refine ⟨_, rfl, [Lit.negOf 2], fun v => decide (v ≠ 2), by decide, ?_, ?_, by decide⟩
  · intro c hc
    have hc : c ∈ ([] : ClauseSet) := hc
    cases hc
  · intro l hl
    rw [List.mem_singleton.1 hl]
    rfl

/-- **C97, violated.** The same for a totalizer: after a call that ran out of memory the bound 1 is enforced, but nothing
forbids that both inputs are true. -/
theorem C97_violated_totalizer :
    ∃ t vm cls, MemDemo.result ((Totalizer.new [Lit.pos 0, Lit.pos 1]).memEncodeUb ⟨.incl 1, .incl 1⟩ (⟨2⟩ : BasicVM) [] [some 0]) =
        some (some true, t, vm, cls) ∧
      (∃ t', MemDemo.result (t.memEncodeUbChange ⟨.incl 1, .incl 1⟩ vm cls []) = some (none, t', vm, cls)) ∧
      ∃ A m, t.enforceUb 1 = .ok A ∧ ClauseSet.sat m cls ∧ cubeSat m A ∧ m 0 = true ∧ m 1 = true := by
  refine ⟨_, _, _, rfl, ⟨_, rfl⟩, [Lit.negOf 2], fun v => decide (v ≠ 2), by decide, ?_, ?_, rfl, rfl⟩
  · intro c hc
    have hc : c ∈ ([] : ClauseSet) := hc
    cases hc
  · intro l hl
    rw [List.mem_singleton.1 hl]
    rfl

/-- Beside it: repeating the whole `encode_ub` call adds the missing clause. -/
example :
    (((MemDemo.result ((Totalizer.new [Lit.pos 0, Lit.pos 1]).memEncodeUb ⟨.incl 1, .incl 1⟩ (⟨2⟩ : BasicVM) [] [some 0])).bind
      fun (_, t, vm, cls) => MemDemo.result (t.memEncodeUb ⟨.incl 1, .incl 1⟩ vm cls [])).map fun (a, t, _, cls) =>
        (a, t.enforceUb 1, cls)) =
      some (none, .ok [Lit.negOf 2], [[Lit.negOf 0, Lit.negOf 1, Lit.pos 2]]) := by decide

/-- Non-vacuity of `C97_repair`: after the call that lost its clause, repeating `encode_ub` adds it. -/
example :
    ((MemDemo.run MemDemo.equal [.encodeUb ⟨.incl 3, .incl 3⟩ [some 0], .encodeUb ⟨.incl 3, .incl 3⟩ []]).map
      fun (as, w) => (as, w.cls, w.gte.enforceUb 3)) =
      some ([some true, none], [[Lit.negOf 0, Lit.negOf 1, Lit.pos 2]], .ok [Lit.negOf 2]) := by decide

end RustSat
