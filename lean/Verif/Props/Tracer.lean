import Verif.Lemmas.Tracer
/-
C87: proof tracers that are connected to CaDiCaL.
-/
namespace RustSat

/-! ### Events -/

/-- C87 (events): every step of a proof, over variables that fit the solver, reaches the tracer as the call of the method
for this kind of step; and the tracer can read the step from it: the same identifiers, flags, literals in the same order,
status and conclusion. -/
theorem C87_events (p : ProofStep) (h : p.InRange) :
    Tracer.dispatch (Tracer.callback p.call) = .ok p.view ∧ p.view.read = some p :=
  ⟨Tracer.dispatch_call p h, Tracer.read_view p h⟩

example : Tracer.dispatch (Tracer.callback (.addDerivedClause 7 true [-3, 1] [2, 5])) = .ok (.addDerivedClause 7 true [-3, 1] [2, 5]) ∧
    (TEvent.addDerivedClause 7 true [-3, 1] [2, 5]).read = some (.addDerivedClause 7 true [Lit.negOf 2, Lit.pos 0] [2, 5]) := by
  decide

/-- C87 (malformed events): a status or a type of conclusion that is not documented, or a number that is not a literal, is
never passed on to the tracer as something else: the process aborts. -/
theorem C87_malformed :
    (∀ st id, st ≠ 0 → st ≠ 10 → st ≠ 20 → Tracer.dispatch (.reportStatus st id) = .abort) ∧
    (∀ t l, t ≠ 1 → t ≠ 2 → t ≠ 4 → Tracer.dispatch (.concludeUnsat t (CVec.ofList l)) = .abort) ∧
    Tracer.dispatch (.addAssumption 0) = .abort ∧
    (∀ z, Tracer.dispatch (.notifyEquivalence z 0) = .abort ∧ Tracer.dispatch (.notifyEquivalence 0 z) = .abort) := by
  refine ⟨fun st id h0 h1 h2 => ?_, fun t l h1 h2 h4 => ?_, rfl, fun z => ⟨?_, rfl⟩⟩
  · simp [Tracer.dispatch, Tracer.status, h0, h1, h2, Run.bind]
  · simp [Tracer.dispatch, Tracer.slice_ofList, Tracer.conclusion, h1, h2, h4, Run.bind]
  · have h0 : Tracer.lit 0 = .abort := rfl
    show (Tracer.lit z).bind (fun x => (Tracer.lit 0).bind fun y => .ok (.notifyEquivalence x y)) = _
    unfold Tracer.lit at *
    cases h : Lit.fromIpasir z <;> rfl

/-- C87 (assignments): converting the assignment of a step gives an assignment in which every literal of the step is true, as
long as it does not contain a literal and its negation. -/
theorem C87_assignment (m : List Lit) (hr : ∀ l ∈ m, l.InRange) (hc : ∀ l ∈ m, l.neg ∉ m) :
    ∃ a, Tracer.assignment (m.map solverInt) = some a ∧ (∀ l ∈ m, a.litValue l = .true) ∧
      ∀ v, (∀ l ∈ m, l.var ≠ v) → a.varValue v = .dontCare := by
  refine ⟨Assignment.ofLits m, ?_, Tracer.foldl_assign_mem m _ hc, fun v hv => (Tracer.foldl_assign_other v m _ hv).trans rfl⟩
  unfold Tracer.assignment
  rw [Tracer.iter_solverInt hr]
  rfl

example : Tracer.assignment ([Lit.negOf 2, Lit.pos 0].map solverInt) = some ⟨[.true, .dontCare, .false]⟩ := by decide

/-! ### Life time of tracers -/

/-- C87 (life time): for every program that keeps the rules of `TraceSpec.Allowed` — any number of solvers and tracers, in any
order, with any steps in the proofs — no memory is used that has been freed, the process does not abort, and the program sees what
the specification says: every tracer gets exactly the steps of the solver it is connected to, in order, from the moment it is
connected until it is disconnected; disconnecting it returns it; references show it.

Rules that go beyond the documentation: see the theorems `C87_violated_*`. -/
theorem C87_lifetime_partial {T : Type} [TraceProof T] (ops : List (TraceOp T)) (h : ({} : TraceSpec T).Proper ops) :
    ({} : TraceWorld T).run ops = .ok (({} : TraceSpec T).run ops) :=
  TraceWorld.Rel.init.run ops h

/-- C87 (no leaks): at the end of such a program, memory is in use only for the tracers whose handles are still there and the
objects of solvers that are still there: if all handles are gone, all boxes have been freed, and if all solvers are gone, all
objects have been deleted. -/
theorem C87_no_leak {T : Type} [TraceProof T] (ops : List (TraceOp T)) (h : ({} : TraceSpec T).Proper ops) :
    ∃ w, ({} : TraceWorld T).final ops = .ok w ∧
      ((∀ k, (({} : TraceSpec T).final ops).tracers k = none) → ∀ x, w.boxes x = none ∧ w.traits x = none) ∧
      ((∀ s, (({} : TraceSpec T).final ops).solvers s = none) → ∀ x, w.classes x = none) := by
  obtain ⟨w, h1, r⟩ := TraceWorld.Rel.init.final ops h
  refine ⟨w, h1, fun hk x => ⟨?_, ?_⟩, fun hs x => ?_⟩
  · cases hb : w.boxes x with
    | none => rfl
    | some t =>
      obtain ⟨k, g, g1, _⟩ := r.liveB x t hb
      rw [r.hnone k (hk k)] at g1; cases g1
  · cases hb : w.traits x with
    | none => rfl
    | some t =>
      obtain ⟨k, g, g1, _⟩ := r.liveT x t hb
      rw [r.hnone k (hk k)] at g1; cases g1
  · cases hb : w.classes x with
    | none => rfl
    | some t =>
      obtain ⟨s, sv, g1, _⟩ := r.liveC x t hb
      have := r.sol s
      rw [g1, hs s] at this; cases this

/-- A tracer that records its calls. -/
instance tracerRecord : TraceProof (List TEvent) := ⟨fun l e => l ++ [e]⟩

/-- Two solvers, three tracers: one is disconnected before the end, the other ones are dropped after their solvers. -/
def tracerDemo : List (TraceOp (List TEvent)) :=
  [.newSolver 0, .newSolver 1, .connect 0 0 [], .connect 0 1 [.solveQuery], .connect 1 2 [], .leaveConfiguring 0,
   .event 0 (.beginProof 3), .event 1 (.strengthen 4), .disconnect 0 0, .event 0 (.addAssumption (Lit.negOf 2)), .tracerMut 1 1,
   .useRef 1 (fun l => l.drop 1), .tracerMut 0 1, .useRef 0 id, .dropSolver 0, .event 1 .solveQuery, .dropHandle 1, .disconnect 1 2, .dropSolver 1]

example : ({} : TraceSpec (List TEvent)).Proper tracerDemo := by
  have hn : ∀ {p : ProofStep}, p.lits = [] → p.InRange := fun h l hl => absurd (h ▸ hl) List.not_mem_nil
  refine ⟨rfl, rfl, ⟨rfl, rfl⟩, ⟨rfl, rfl⟩, ⟨rfl, rfl⟩, ?_, ⟨?_, hn rfl⟩, ⟨?_, hn rfl⟩, ⟨?_, ⟨_, rfl, rfl⟩⟩, ⟨?_, ?_⟩, ⟨?_, rfl⟩, rfl,
    ⟨?_, rfl⟩, rfl, ?_, ⟨?_, hn rfl⟩, ⟨_, rfl, rfl⟩, ⟨?_, ⟨_, rfl, rfl⟩⟩, ?_, trivial⟩
  all_goals first
    | exact Option.some_ne_none _
    | (intro l hl
       obtain rfl := List.mem_singleton.1 hl
       decide)

example : (∀ k, (({} : TraceSpec (List TEvent)).final tracerDemo).tracers k = none) ∧
    ∀ s, (({} : TraceSpec (List TEvent)).final tracerDemo).solvers s = none := by
  refine ⟨fun k => ?_, fun s => ?_⟩
  · rcases k with _ | _ | _ | k <;> rfl
  · rcases s with _ | _ | s <;> rfl

example : ({} : TraceSpec (List TEvent)).run tracerDemo =
    [.nothing, .nothing, .nothing, .nothing, .nothing, .nothing, .nothing, .nothing, .disconnected (some [.beginProof 3]), .nothing, .nothing,
     .tracer (some [.solveQuery, .beginProof 3, .addAssumption (Lit.negOf 2)]), .nothing,
     .tracer (some [.beginProof 3, .addAssumption (Lit.negOf 2)]), .nothing, .nothing, .nothing,
     .disconnected (some [.strengthen 4, .solveQuery]), .nothing] := by rfl

/-! ### Violations -/

/-- C87 is violated: disconnecting a tracer from a solver that it is not connected to reports the error that is documented, but
it has deleted the tracer, while the other solver still has it. The next step in the proof of that solver uses freed memory, -/
theorem C87_violated_wrong_solver :
    let w : TraceWorld (List TEvent) := {}
    w.run [.newSolver 0, .newSolver 1, .connect 0 0 [], .disconnect 1 0] = .ok [.nothing, .nothing, .nothing, .disconnected none] ∧
    w.run [.newSolver 0, .newSolver 1, .connect 0 0 [], .disconnect 1 0, .event 0 .solveQuery] = .ub ∧
    -- and so does dropping that solver
    w.run [.newSolver 0, .newSolver 1, .connect 0 0 [], .disconnect 1 0, .dropSolver 0] = .ub := ⟨rfl, rfl, rfl⟩

/-- C87 is violated: after the solver has been dropped, disconnecting the tracer from another solver frees memory twice, instead
of reporting the error. -/
theorem C87_violated_dropped_solver :
    ({} : TraceWorld (List TEvent)).run [.newSolver 0, .newSolver 1, .connect 0 0 [], .dropSolver 0, .disconnect 1 0] = .ub := rfl

/-- C87 is violated: a reference to a tracer can be used after the tracer has been dropped, by a program that drops the handle
after the solver, as documented: the reference borrows a solver, any solver, and not the handle. -/
theorem C87_violated_reference :
    ({} : TraceWorld (List TEvent)).run
      [.newSolver 0, .newSolver 1, .connect 0 0 [], .dropSolver 0, .tracerMut 1 0, .dropHandle 0, .useRef 1 id] = .ub := rfl

/-- C87 is violated: there can be two mutable references to the same tracer, through two solvers. -/
theorem C87_violated_two_references :
    ∃ w : TraceWorld (List TEvent), ((({} : TraceWorld (List TEvent)).newSolver 0).newSolver 1).connect 0 0 [] = .ok w ∧
      ((w.tracerMut 0 0).tracerMut 1 0).refs 0 = some 0 ∧ ((w.tracerMut 0 0).tracerMut 1 0).refs 1 = some 0 := ⟨_, rfl, rfl, rfl⟩

/-- C87 is violated: connecting a tracer to a solver that has been given a clause aborts the process; the documentation does not
say so. -/
theorem C87_violated_late_connect :
    ({} : TraceWorld (List TEvent)).run [.newSolver 0, .leaveConfiguring 0, .connect 0 0 []] = .abort := rfl

/-- C87 (documented): dropping the handle while the solver has the tracer makes the next step use freed memory, although no
part of the program is marked unsafe. -/
theorem C87_violated_early_drop :
    ({} : TraceWorld (List TEvent)).run [.newSolver 0, .connect 0 0 [], .dropHandle 0, .event 0 .solveQuery] = .ub := rfl

end RustSat
