import Verif.Lemmas.AdderWorld
/-
C34 for the binary adder, over all histories of operations; C27 and C30 for the binary adder.

C34 in full: for every history of encode calls, if `enforce_ub(b)` (`enforce_lb(b)`) returns assumptions, the clauses
and the assumptions imply that the weighted sum is at most (at least) `b`, every assignment satisfying the bound can be
extended to a model, and all bounds in the ranges of the calls are available. This does not hold:
* an incremental encoding of upper bounds after lower bounds misses clauses (`C34_violated_lb_then_ub`),
* after adding literals, `enforce_ub` and `enforce_lb` return the assumptions of the old encoding
  (`C34_violated_waiting`, `C34_violated_waiting_lb`),
* lower bounds are skipped if the upper bound one below was encoded before (`C34_violated_skipped`),
* a second `encode_ub` call does not produce all clauses again (`C34_violated_reencode`),
* `reserve` panics (`C34_violated_reserve_panics`).
Proved is everything else: the theorems with suffix `_partial` exclude exactly these cases.
-/
namespace RustSat
open TotDb (wsumT trueLits)
open Card
variable {VM : Type} [ManageVars VM] [LawfulVM VM]

/-- All operations. -/
abbrev anyAdderOp : AdderWorld VM → AdderOp VM → Prop := fun _ _ => True

namespace AdderDemo

/-- Deciding whether an operation is allowed. -/
def allowedB (w : AdderWorld VM) : AdderOp VM → Bool
  | .add lits => lits.all fun x => decide (0 < x.2 ∧ x.1.var < ManageVars.nUsed w.vm ∧ x.1.var ∉ w.own)
  | .useVars vm => decide (ManageVars.nUsed w.vm ≤ ManageVars.nUsed vm)
  | .rehash _ => false
  | _ => true

/-- Deciding whether upper bounds are not encoded incrementally after lower bounds. -/
def safeB (w : AdderWorld VM) : AdderOp VM → Bool
  | .encodeUbChange _ => !w.lbSince
  | .encodeBoth _ => !w.lbSince
  | _ => true

/-- Running a history; `none` if an operation panics or is not allowed. -/
def run (p : AdderWorld VM → AdderOp VM → Bool) (w : AdderWorld VM) : List (AdderOp VM) → Option (AdderWorld VM)
  | [] => some w
  | op :: ops => if allowedB w op && p w op then (w.step op).bind fun w => run p w ops else none

omit [LawfulVM VM] in
/-- The concrete histories used in examples lead to reachable states. -/
theorem run_reach {p : AdderWorld VM → AdderOp VM → Bool} {R : AdderWorld VM → AdderOp VM → Prop}
    (hp : ∀ w op, p w op = true → R w op) : ∀ (ops : List (AdderOp VM)) (w w' : AdderWorld VM), AdderWorld.Reach R w →
    run p w ops = some w' → AdderWorld.Reach R w' := by
  intro ops
  induction ops with
  | nil => intro w w' h e; cases e; exact h
  | cons op ops ih =>
    intro w w' h e
    unfold run at e
    by_cases ha : (allowedB w op && p w op) = true
    · rw [if_pos ha] at e
      rw [Bool.and_eq_true] at ha
      cases hs : w.step op with
      | none => rw [hs] at e; cases e
      | some w1 =>
        rw [hs] at e
        refine ih w1 w' (.step w w1 op h (hp _ _ ha.2) ?_ hs) e
        cases op with
        | add lits => exact fun x hx => by simpa using List.all_eq_true.1 ha.1 x hx
        | _ => simp_all [allowedB, AdderWorld.allowed]
    · rw [if_neg ha] at e; cases e

omit [ManageVars VM] [LawfulVM VM] in
theorem safeB_sound (w : AdderWorld VM) (op : AdderOp VM) (h : safeB w op = true) : w.ubSafe op := by
  cases op <;> simp_all [safeB, AdderWorld.ubSafe]

/-- The start of the concrete histories: inputs are variables 0, 1, 2 with weights 3, 1, 2; four variables are in use. -/
def start : AdderWorld BasicVM := AdderWorld.start [(Lit.pos 0, 3), (Lit.pos 1, 1), (Lit.pos 2, 2)] ⟨4⟩

theorem start_reach {R : AdderWorld BasicVM → AdderOp BasicVM → Prop} : AdderWorld.Reach R start :=
  .start _ _ (by decide) (by decide)

/-- A concrete history without incremental encoding of upper bounds after lower bounds. -/
def ops : List (AdderOp BasicVM) :=
  [.encodeUb ⟨.unbounded, .excl 3⟩, .add [(Lit.pos 3, 2), (Lit.negOf 0, 1)], .encodeUbChange ⟨.incl 4, .incl 5⟩,
   .encodeLbChange ⟨.incl 2, .incl 3⟩]

/-- The concrete history of two inputs with weight 1 in which lower bounds are encoded before upper bounds. -/
def two : AdderWorld BasicVM := AdderWorld.start [(Lit.pos 0, 1), (Lit.pos 1, 1)] ⟨3⟩

theorem two_reach {R : AdderWorld BasicVM → AdderOp BasicVM → Prop} : AdderWorld.Reach R two :=
  .start _ _ (by decide) (by decide)

end AdderDemo

omit [ManageVars VM] [LawfulVM VM] in
private theorem wsum_def (a : Asg) (ins : List (Lit × Nat)) : wsum a ins = wsumT (trueLits a) ins := wsum_eq_wsumT a ins

/-- **C34** (part: `reserve` is not among the operations). Encoding never panics. -/
theorem C34_no_panic_partial (w : AdderWorld VM) (h : AdderWorld.Reach anyAdderOp w) (op : AdderOp VM) (ha : w.allowed op) :
    ∃ w', w.step op = some w' := by
  obtain ⟨w', e, -⟩ := AdderWorld.step_spec (t := False) w (h.inv fun ht => ht.elim) op ha fun ht => ht.elim
  exact ⟨w', e⟩

/-- Non-vacuity: the concrete history does not panic, and is safe. -/
example : ((AdderDemo.run AdderDemo.safeB AdderDemo.start AdderDemo.ops).map fun w => (w.cls.length, w.own.length)) =
  some (64, 17) := by decide

/-- **C34** (part: `reserve` panics). -/
theorem C34_violated_reserve_panics : AdderDemo.two.enc.reserve AdderDemo.two.vm = none := by decide

/-- **C34** (part: upper bounds must not be encoded incrementally after lower bounds, and no literals may be waiting to be
included). If `enforce_ub(b)` returns assumptions, every model of all clauses produced so far and these assumptions has a
weighted sum of at most `b`, and every assignment with a weighted sum of at most `b` becomes such a model by changing
only variables that were handed out to the encoder. -/
theorem C34_upper_bound_partial (w : AdderWorld VM) (h : AdderWorld.Reach AdderWorld.ubSafe w) (hb : w.enc.litBuffer = [])
    (b : Nat) (A : List Lit) (hA : w.enc.enforceUb b = .ok A) :
    (∀ m, ClauseSet.sat m w.cls → cubeSat m A → wsum m w.ins ≤ b) ∧
    (∀ a, wsum a w.ins ≤ b → ∃ m, (∀ v, v ∉ w.own → m v = a v) ∧ ClauseSet.sat m w.cls ∧ cubeSat m A) := by
  have hi : w.Inv True := h.inv fun _ _ _ hr => hr
  have he := hi.inv.enforceUb trivial hb hA
  simp only [wsum_def]
  exact ⟨he.sound, he.complete⟩

/-- **C34** (part: upper bounds must not be encoded incrementally after lower bounds). All bounds in the ranges of calls
since literals were last added are available and correct. -/
theorem C34_upper_bound_available_partial (w : AdderWorld VM) (h : AdderWorld.Reach AdderWorld.ubSafe w) (b : Nat)
    (hb : w.ub b) : ∃ A, w.enc.enforceUb b = .ok A ∧
      (∀ m, ClauseSet.sat m w.cls → cubeSat m A → wsum m w.ins ≤ b) ∧
      (∀ a, wsum a w.ins ≤ b → ∃ m, (∀ v, v ∉ w.own → m v = a v) ∧ ClauseSet.sat m w.cls ∧ cubeSat m A) := by
  have hi : w.Inv True := h.inv fun _ _ _ hr => hr
  have hws := hi.inv.weightSum
  rcases BinaryAdder.enforceUb_cases w.enc b with ⟨h1, h2⟩ | ⟨h1, h2⟩
  · refine ⟨[], h2, fun m _ _ => ?_, fun a ha => hi.inv.ub_complete h2 (by rw [← wsum_def]; exact ha)⟩
    rw [wsum_def]
    exact Nat.le_trans (wsumT_le _ _) (by omega)
  · obtain ⟨h3, h4⟩ := hi.ubHas b hb (by omega)
    rcases h2 with ⟨h2, -⟩ | ⟨st, o, -, -, -, h5⟩
    · exact absurd h4 h2
    · exact ⟨_, h5, C34_upper_bound_partial w h h3 b _ h5⟩

/-- Non-vacuity: in the concrete history the bounds 4 and 5 are enforced by an assumption each, 2 not any more. -/
example : ((AdderDemo.run AdderDemo.safeB AdderDemo.start AdderDemo.ops).map fun w =>
    (w.enc.litBuffer.length, w.enc.enforceUb 4, w.enc.enforceUb 5, w.enc.enforceUb 2)) =
  some (0, .ok [Lit.negOf 17], .ok [Lit.negOf 18], .err .notEncoded) := by decide

/-- **C34**: in every history, even if literals are waiting to be included or lower bounds have been encoded before, the
upper bound never excludes an assignment that satisfies it. -/
theorem C34_upper_bound_complete (w : AdderWorld VM) (h : AdderWorld.Reach anyAdderOp w) (b : Nat) (A : List Lit)
    (hA : w.enc.enforceUb b = .ok A) (a : Asg) (ha : wsum a w.ins ≤ b) :
    ∃ m, (∀ v, v ∉ w.own → m v = a v) ∧ ClauseSet.sat m w.cls ∧ cubeSat m A := by
  have hi : w.Inv False := h.inv fun ht => ht.elim
  exact hi.inv.ub_complete hA (by rw [← wsum_def]; exact ha)

/-- **C34**: in every history, even if literals are waiting to be included, the lower bound is implied. -/
theorem C34_lower_bound_sound (w : AdderWorld VM) (h : AdderWorld.Reach anyAdderOp w) (b : Nat) (A : List Lit)
    (hA : w.enc.enforceLb b = .ok A) (m : Asg) (hm : ClauseSet.sat m w.cls) (hc : cubeSat m A) : b ≤ wsum m w.ins := by
  have hi : w.Inv False := h.inv fun ht => ht.elim
  rw [wsum_def]
  exact hi.inv.lb_sound hA hm hc

/-- **C34** (part: no literals may be waiting to be included). In every history, the lower bound does not exclude
assignments that satisfy it. -/
theorem C34_lower_bound_complete_partial (w : AdderWorld VM) (h : AdderWorld.Reach anyAdderOp w) (hb : w.enc.litBuffer = [])
    (b : Nat) (A : List Lit) (hA : w.enc.enforceLb b = .ok A) (a : Asg) (ha : b ≤ wsum a w.ins) :
    ∃ m, (∀ v, v ∉ w.own → m v = a v) ∧ ClauseSet.sat m w.cls ∧ cubeSat m A := by
  have hi : w.Inv False := h.inv fun ht => ht.elim
  exact (hi.inv.enforceLb hb hA).complete a (by rw [← wsum_def]; exact ha)

/-- **C34** (part: lower bounds that were not skipped). All lower bounds in the ranges of calls since literals were last
added, for which the upper bound one below was not encoded before, are available and correct. -/
theorem C34_lower_bound_available_partial (w : AdderWorld VM) (h : AdderWorld.Reach anyAdderOp w) (b : Nat)
    (hb : w.lb b) (hle : b ≤ (w.ins.map (·.2)).sum) : ∃ A, w.enc.enforceLb b = .ok A ∧
      (∀ m, ClauseSet.sat m w.cls → cubeSat m A → b ≤ wsum m w.ins) ∧
      (∀ a, b ≤ wsum a w.ins → ∃ m, (∀ v, v ∉ w.own → m v = a v) ∧ ClauseSet.sat m w.cls ∧ cubeSat m A) := by
  have hi : w.Inv False := h.inv fun ht => ht.elim
  have hws := hi.inv.weightSum
  have ht : wsumT (fun _ => true) w.ins = (w.ins.map (·.2)).sum := by unfold wsumT; simp
  rcases BinaryAdder.enforceLb_cases w.enc b with ⟨h1, -⟩ | ⟨h1, h2⟩ | ⟨h1, h2, h3⟩
  · omega
  · subst h1
    refine ⟨[], h2, fun m _ _ => Nat.zero_le _, fun a _ => ?_⟩
    obtain ⟨sins, cols, D, hw⟩ := hi.inv
    exact ⟨D a, (hw.free a).1, (hw.free a).2, by simp [cubeSat]⟩
  · obtain ⟨h4, h5⟩ := hi.lbHas b hb h1 (by omega)
    rcases h3 with ⟨h6, -⟩ | ⟨st, o, -, -, -, h6⟩
    · exact absurd h5 h6
    · exact ⟨_, h6, fun m hm hc => C34_lower_bound_sound w h b _ h6 m hm hc,
        fun a ha => C34_lower_bound_complete_partial w h h4 b _ h6 a ha⟩

/-- Non-vacuity: in the concrete history the lower bounds 2 and 3 are enforced by an assumption each. -/
example : ((AdderDemo.run AdderDemo.safeB AdderDemo.start AdderDemo.ops).map fun w =>
    (w.enc.enforceLb 2, w.enc.enforceLb 3, w.enc.enforceLb 5)) =
  some (.ok [Lit.pos 19], .ok [Lit.pos 20], .err .notEncoded) := by decide

/-- **C34** (part: upper bounds must not be encoded incrementally after lower bounds, and no literals may be waiting). The
assumptions of `enforce_eq` enforce that the sum is the bound, and exclude no assignment with this sum. -/
theorem C34_equality_partial (w : AdderWorld VM) (h : AdderWorld.Reach AdderWorld.ubSafe w) (hb : w.enc.litBuffer = [])
    (b : Nat) (A : List Lit) (hA : w.enc.enforceEq b = .ok A) :
    (∀ m, ClauseSet.sat m w.cls → cubeSat m A → wsum m w.ins = b) ∧
    (∀ a, wsum a w.ins = b → ∃ m, (∀ v, v ∉ w.own → m v = a v) ∧ ClauseSet.sat m w.cls ∧ cubeSat m A) := by
  obtain ⟨A1, A2, h1, h2, rfl⟩ := enforceBoth_ok hA
  have happ : ∀ m, cubeSat m (A1 ++ A2) ↔ cubeSat m A1 ∧ cubeSat m A2 := by
    intro m
    unfold cubeSat
    refine ⟨fun hc => ⟨fun l hl => hc l (by simp [hl]), fun l hl => hc l (by simp [hl])⟩, fun hc l hl => ?_⟩
    exact (List.mem_append.1 hl).elim (hc.1 l) (hc.2 l)
  have hi : w.Inv True := h.inv fun _ _ _ hr => hr
  refine ⟨fun m hm hc => ?_, fun a ha => ?_⟩
  · rw [happ] at hc
    have h3 := (C34_upper_bound_partial w h hb b A1 h1).1 m hm hc.1
    have h4 := (hi.inv.enforceLb hb h2).sound m hm hc.2
    rw [← wsum_def] at h4
    omega
  · rw [wsum_def] at ha
    obtain ⟨m, m1, m2, m3⟩ := hi.inv.eq_complete hb h1 h2 ha
    exact ⟨m, m1, m2, (happ m).2 m3⟩

/-- Non-vacuity: equality with two, over three literals of weight one, as two assumptions. -/
example : ((AdderWorld.start [(Lit.pos 0, 1), (Lit.pos 1, 1), (Lit.pos 2, 1)] (⟨3⟩ : BasicVM)).step (.encodeBoth ⟨.incl 2, .incl 2⟩)).map
    (fun w => (w.enc.litBuffer, w.enc.enforceEq 2)) = some ([], .ok [Lit.negOf 5, Lit.pos 6]) := by decide

/-- **C34** (violation): lower bounds encoded before make the upper bound 1 over two literals ineffective: there is a
model of all clauses and the assumption with both literals true. -/
theorem C34_violated_lb_then_ub :
    ∃ w A m, AdderDemo.run (fun _ _ => true) AdderDemo.two [.encodeLbChange ⟨.incl 2, .incl 2⟩, .encodeUbChange ⟨.incl 1, .incl 1⟩] = some w ∧
      w.enc.litBuffer = [] ∧ w.enc.enforceUb 1 = .ok A ∧ ClauseSet.sat m w.cls ∧ cubeSat m A ∧ wsum m w.ins = 2 := by
  refine ⟨_, [Lit.negOf 5], fun v => v < 2, rfl, by decide, by decide, ?_, by unfold cubeSat; decide, by decide⟩
  unfold ClauseSet.sat Clause.sat
  decide

/-- **C34** (violation): after adding a literal, the upper bound 0 is still enforced with respect to the old literals only. -/
theorem C34_violated_waiting :
    ∃ w A m, AdderDemo.run AdderDemo.safeB AdderDemo.two [.encodeUb ⟨.incl 0, .incl 0⟩, .add [(Lit.pos 2, 1)]] = some w ∧
      w.enc.enforceUb 0 = .ok A ∧ ClauseSet.sat m w.cls ∧ cubeSat m A ∧ wsum m w.ins = 1 := by
  refine ⟨_, [Lit.negOf 5], fun v => v = 2, rfl, by decide, ?_, by unfold cubeSat; decide, by decide⟩
  unfold ClauseSet.sat Clause.sat
  decide

/-- **C34** (violation): after adding a literal, the lower bound 1 still demands that one of the old literals is true, so
that no model has only the new literal true. -/
theorem C34_violated_waiting_lb :
    ∃ w A, AdderDemo.run AdderDemo.safeB AdderDemo.two [.encodeLb ⟨.incl 1, .incl 1⟩, .add [(Lit.pos 2, 1)]] = some w ∧
      w.enc.enforceLb 1 = .ok A ∧ wsum (fun v => v = 2) w.ins = 1 ∧
      ∀ m : Asg, ClauseSet.sat m w.cls → cubeSat m A → m 0 = true ∨ m 1 = true := by
  refine ⟨_, [Lit.pos 5], rfl, by decide, by decide, fun m hm hc => ?_⟩
  have hr : AdderWorld.Reach (VM := BasicVM) anyAdderOp (AdderWorld.start [(Lit.pos 0, 1), (Lit.pos 1, 1)] ⟨3⟩) :=
    .start _ _ (by decide) (by decide)
  have hr2 : AdderWorld.Reach (VM := BasicVM) anyAdderOp _ :=
    .step _ _ (.encodeLb ⟨.incl 1, .incl 1⟩) hr trivial trivial rfl
  have := C34_lower_bound_sound _ hr2 1 [Lit.pos 5] (by decide) m hm hc
  cases h0 : m 0 with
  | true => exact Or.inl rfl
  | false =>
    cases h1 : m 1 with
    | true => exact Or.inr rfl
    | false =>
      exfalso
      have e : wsum m ([(Lit.pos 0, 1), (Lit.pos 1, 1)] : List (Lit × Nat)) = 0 := by
        simp [wsum, Lit.holds_pos, h0, h1]
      have this : 1 ≤ wsum m ([(Lit.pos 0, 1), (Lit.pos 1, 1)] : List (Lit × Nat)) := this
      omega

/-- **C34** (violation): `encode_both(2..=3)` does not make the lower bound 3 available. -/
theorem C34_violated_skipped :
    ((AdderWorld.start [(Lit.pos 0, 1), (Lit.pos 1, 1), (Lit.pos 2, 1)] (⟨3⟩ : BasicVM)).step (.encodeBoth ⟨.incl 2, .incl 3⟩)).map
      (fun w => (w.enc.enforceLb 2, w.enc.enforceLb 3, w.enc.enforceEq 3)) =
    some (.ok [Lit.pos 6], .err .notEncoded, .err .notEncoded) := by decide

/-- **C34** (violation): the clauses produced by a second call to `encode_ub` do not suffice to enforce the upper bound 0:
they are satisfied together with the assumption if both literals are true. -/
theorem C34_violated_reencode :
    ∃ w w' A m, AdderDemo.two.step (.encodeUb ⟨.incl 0, .incl 0⟩) = some w ∧ w.step (.encodeUb ⟨.incl 0, .incl 0⟩) = some w' ∧
      w'.enc.enforceUb 0 = .ok A ∧ ClauseSet.sat m (w'.cls.drop w.cls.length) ∧ cubeSat m A ∧ wsum m w'.ins = 2 := by
  refine ⟨_, _, [Lit.negOf 5], fun v => v < 2 || v == 4, rfl, rfl, by decide, ?_, by unfold cubeSat; decide, by decide⟩
  unfold ClauseSet.sat Clause.sat
  decide

/-- **C27** for the binary adder: the statistics are exact, in every history. -/
theorem C27_adder_stats (w : AdderWorld VM) (h : AdderWorld.Reach anyAdderOp w) :
    w.enc.nVars = w.own.length ∧ w.enc.nClauses = w.cls.length :=
  (h.inv fun (ht : False) => ht.elim).stats

/-- **C27** for the binary adder: all variables are fresh, and clauses use input variables and fresh variables only. -/
theorem C27_adder_vars (w : AdderWorld VM) (h : AdderWorld.Reach anyAdderOp w) :
    (∀ v ∈ w.own, v < ManageVars.nUsed w.vm ∧ ∀ x ∈ w.ins, x.1.var ≠ v) ∧
    ∀ c ∈ w.cls, ∀ l ∈ c, (∃ x ∈ w.ins, x.1.var = l.var) ∨ l.var ∈ w.own := by
  obtain ⟨sins, cols, D, hi⟩ := (h.inv fun (ht : False) => ht.elim).inv
  refine ⟨fun v hv => ⟨hi.s.ownLt v hv, fun x hx e => (hi.s.inLt x.1 ⟨x, hx, rfl⟩).2 (by rw [e]; exact hv)⟩, fun c hc l hl => ?_⟩
  rcases hi.s.vars c hc l hl with ⟨y, ⟨x, hx, rfl⟩, e⟩ | h1 | h1
  · exact Or.inl ⟨x, hx, e⟩
  · exact Or.inr h1
  · omega

/-- Non-vacuity: the concrete history consists of safe operations, so all theorems above apply to it. -/
example (w : AdderWorld BasicVM) (h : AdderDemo.run AdderDemo.safeB AdderDemo.start AdderDemo.ops = some w) :
    AdderWorld.Reach AdderWorld.ubSafe w := AdderDemo.run_reach AdderDemo.safeB_sound _ _ _ AdderDemo.start_reach h

/-- **C30** for the binary adder (part: no literals may be waiting): bounds that are not implied by the inputs and were
not encoded since literals were last added are refused with `NotEncoded`. -/
theorem C30_adder_refused_partial (w : AdderWorld VM) (h : AdderWorld.Reach anyAdderOp w) (hb : w.enc.litBuffer = []) (b : Nat) :
    (b < (w.ins.map (·.2)).sum → ¬ w.ub b → w.enc.enforceUb b = .err .notEncoded) ∧
    (1 ≤ b → b ≤ (w.ins.map (·.2)).sum → ¬ w.lb b → w.enc.enforceLb b = .err .notEncoded) ∧
    ((w.ins.map (·.2)).sum < b → w.enc.enforceLb b = .err .unsat) := by
  have hi : w.Inv False := h.inv fun ht => ht.elim
  have hws := hi.inv.weightSum
  have ht : wsumT (fun _ => true) w.ins = (w.ins.map (·.2)).sum := by unfold wsumT; simp
  refine ⟨fun h1 h2 => ?_, fun h1 h2 h3 => ?_, fun h1 => ?_⟩
  · rcases BinaryAdder.enforceUb_cases w.enc b with ⟨h3, -⟩ | ⟨-, ⟨-, h3⟩ | ⟨st, o, h3, h4, h5, -⟩⟩
    · omega
    · exact h3
    · exact absurd (hi.ubFrom hb b ⟨st, o, h3, h4, h5⟩) h2
  · rcases BinaryAdder.enforceLb_cases w.enc b with ⟨h4, -⟩ | ⟨h4, -⟩ | ⟨-, -, ⟨-, h4⟩ | ⟨st, o, h4, h5, h6, -⟩⟩
    · omega
    · omega
    · exact h4
    · exact absurd (hi.lbFrom hb b h1 ⟨st, o, h4, h5, h6⟩) h3
  · rcases BinaryAdder.enforceLb_cases w.enc b with ⟨-, h4⟩ | ⟨h4, -⟩ | ⟨-, h4, -⟩
    · exact h4
    · omega
    · omega

/-- **C30** (violation): after adding a literal, without any further encoding call, the upper bound is not refused. -/
theorem C30_violated_adder_waiting :
    ((AdderDemo.run AdderDemo.safeB AdderDemo.two [.encodeUb ⟨.incl 0, .incl 0⟩, .add [(Lit.pos 2, 1)]]).map fun w =>
      w.enc.enforceUb 0) = some (.ok [Lit.negOf 5]) := by decide

end RustSat
