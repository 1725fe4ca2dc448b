import Verif.Lemmas.Pigeons
import Verif.Lemmas.CertTotalizer
import Verif.Props.Totalizer
/-
C61, C62: writing proofs. C63: the certified totalizer, over all histories of operations.
-/
namespace RustSat
open VeriPb Pigeons TotDb Card

/-! ### C61: sequences of operations -/

/-- **C61.** A non-empty sequence of operations, however it was built, is accepted by the checker and yields the
constraint that results from the operations. Missing: weakening. -/
theorem C61_operations_partial (f : List Constr) (ls : List Line) (s : State) (hs : run (start f) ls = some s) (e : Expr)
    (d : Ineq) (hd : e.value s = some d) (hne : e.ops ≠ []) : step s (.pol e.ops) = some (s.push d) := by
  rcases (expr_eval (run_canon ls (start_canon f) hs) e hd).2 with ⟨h, -⟩ | ⟨-, h⟩
  · exact absurd h hne
  · simp only [step, h]

/-- **C61.** Only the trivial constraint is represented by the empty sequence, whose writing panics. -/
theorem C61_empty_partial (f : List Constr) (ls : List Line) (s : State) (hs : run (start f) ls = some s) (e : Expr)
    (d : Ineq) (hd : e.value s = some d) : (e.ops = [] → d = .trivial) ∧ ∀ p : Proof, (p.operations e.ops).isNone = (e.ops = []) := by
  refine ⟨fun h => ?_, fun p => ?_⟩
  · rcases (expr_eval (run_canon ls (start_canon f) hs) e hd).2 with ⟨-, h'⟩ | ⟨h', -⟩
    · exact h'
    · exact absurd h h'
  · unfold Proof.operations
    by_cases h : e.ops = []
    · simp [h]
    · simp [h]

/-- `x0 + x1 + x2 >= 2` and `x0 + x1 + ~x2 >= 2`. -/
def demoFormula : List Constr :=
  [⟨[(1, Lit.pos 0), (1, Lit.pos 1), (1, Lit.pos 2)], 2⟩, ⟨[(1, Lit.pos 0), (1, Lit.pos 1), (1, Lit.negOf 2)], 2⟩]

/-- Non-vacuity: the sum of both constraints, and of an axiom times zero, divided by two and saturated, is `x0 + x1 >= 2`. -/
example :
    let e : Expr := .saturate (.div (.add (.add (.con 1) (.mul (.ax (Lit.pos 7)) 0)) (.mul (.con 2) 1)) 2)
    e.ops = [.id 1, .id 2, .add, .div 2, .sat] ∧ e.value (start demoFormula) = some ⟨[(0, 1), (1, 1)], 2⟩ ∧
      step (start demoFormula) (.pol e.ops) = some ((start demoFormula).push ⟨[(0, 1), (1, 1)], 2⟩) := by decide

/-- **C61 is violated** by `weaken`: it has no operand for the variable, and the resulting line is rejected. -/
theorem C61_violated_weaken :
    (Expr.con 1).ops.weaken = [.id 1, .weak] ∧ step (start demoFormula) (.pol (Expr.con 1).ops.weaken) = none := by decide

/-- **C61 is violated** by `weaken` in general: weakening a sequence, whatever it is, gives a line that is rejected. -/
theorem C61_violated_weaken_always (f : List Constr) (ls : List Line) (s : State) (hs : run (start f) ls = some s) (e : Expr)
    (d : Ineq) (hd : e.value s = some d) : step s (.pol e.ops.weaken) = none := by
  rcases (expr_eval (run_canon ls (start_canon f) hs) e hd).2 with ⟨h, -⟩ | ⟨h1, h⟩
  · rw [h]; rfl
  · simp only [Ops.weaken, if_pos h1, step]
    rw [evalOps_append, h]
    rfl

/-! ### C62: ids and soundness -/

/-- **C62.** The id returned when writing a line is the id under which the checker stores the constraint: what was
given for reverse unit propagation and redundance, and the result of the operations. Earlier constraints keep their
ids. -/
theorem C62_ids (f : List Constr) (ls : List Line) (s s' : State) (p : Proof)
    (hp : p = ls.foldl Proof.write (Proof.new f.length)) (hs : run (start f) p.lines = some s) :
    s.next = p.nextId ∧
    (∀ c hints, run (start f) (p.reverseUnitProp c hints).2.lines = some s' →
      s'.get (p.reverseUnitProp c hints).1 = some (ofConstr c) ∧ ∀ id, id < p.nextId → s'.get id = s.get id) ∧
    (∀ c w, run (start f) (p.redundant c w).2.lines = some s' →
      s'.get (p.redundant c w).1 = some (ofConstr c) ∧ ∀ id, id < p.nextId → s'.get id = s.get id) ∧
    (∀ (e : Expr) d id p', e.value s = some d → p.operations e.ops = some (id, p') →
      run (start f) p'.lines = some (s.push d) ∧ (s.push d).get id = some d ∧ ∀ id, id < p.nextId → (s.push d).get id = s.get id) := by
  have hn : ∀ (ls : List Line) (q : Proof) (t u : State), t.next = q.nextId → run t ls = some u →
      u.next = (ls.foldl Proof.write q).nextId := by
    intro ls
    induction ls with
    | nil => intro q t u h hr; injection hr with hr; rw [← hr]; exact h
    | cons l ls ih =>
      intro q t u h hr
      rw [run] at hr
      cases hl : step t l with
      | none => rw [hl] at hr; cases hr
      | some t' =>
        rw [hl] at hr
        exact ih _ t' u ((step_effect hl).2.1 q h) hr
  have hl : p.lines = ls := by rw [hp, foldl_write]; rfl
  have hnext : s.next = p.nextId := by
    rw [hl] at hs
    rw [hp]
    exact hn ls (Proof.new f.length) (start f) s rfl hs
  have push : ∀ l, run (start f) (p.push l).2.lines = (step s l).bind fun t => some t := by
    intro l
    show run (start f) (p.lines ++ [l]) = _
    rw [run_append, hs]
    simp only [Option.bind_some, run]
    cases step s l <;> rfl
  refine ⟨hnext, fun c hints h => ?_, fun c w h => ?_, fun e d id p' hd ho => ?_⟩
  · have h' := (push (.rup c hints)).symm.trans h
    simp only [step] at h'
    by_cases hr : rupOk s (ofConstr c) hints = true
    · rw [if_pos hr] at h'
      injection h' with h'
      subst h'
      exact ⟨by show _ = _; rw [show (p.reverseUnitProp c hints).1 = s.next from hnext.symm]; exact get_push _ _,
        fun id hid => get_push_ne _ _ (by omega)⟩
    · rw [if_neg hr] at h'; cases h'
  · have h' := (push (.red c w)).symm.trans h
    simp only [step] at h'
    by_cases hr : redOk s (ofConstr c) w = true
    · rw [if_pos hr] at h'
      injection h' with h'
      subst h'
      exact ⟨by rw [show (p.redundant c w).1 = s.next from hnext.symm]; exact get_push _ _,
        fun id hid => get_push_ne _ _ (by omega)⟩
    · rw [if_neg hr] at h'; cases h'
  · unfold Proof.operations at ho
    by_cases he : e.ops = []
    · rw [if_pos he] at ho; cases ho
    · rw [if_neg he] at ho
      injection ho with ho
      have h1 : id = p.nextId := by rw [show id = (p.push (.pol e.ops)).1 by rw [ho]]; rfl
      have h2 : p' = (p.push (.pol e.ops)).2 := by rw [ho]
      rw [hl] at hs
      have h3 := C61_operations_partial f ls s hs e d hd he
      refine ⟨?_, by rw [h1, ← hnext]; exact get_push _ _, fun id hid => get_push_ne _ _ (by omega)⟩
      rw [h2, push, h3]
      rfl

/-- Non-vacuity: the concrete sequence of operations, a unit derived from it by unit propagation, a new variable, and a
deletion are accepted. -/
example : (run (start demoFormula)
      [.pol [.id 1, .id 2, .add, .div 2, .sat], .rup ⟨[(1, Lit.pos 0)], 1⟩ [3], .red ⟨[(1, Lit.pos 5), (1, Lit.negOf 0)], 1⟩ [(5, true)],
        .del [1, 3]]).map (fun s => (s.next, s.get 1, s.get 4, s.get 5)) =
    some (6, none, some ⟨[(0, 1)], 1⟩, some ⟨[(0, -1), (5, 1)], 0⟩) := by decide

/-- **C62.** If the checker accepts a proof for a formula, then every model of the formula becomes a model of all
constraints in the database of the checker by changing only substituted variables. -/
theorem C62_models (f : List Constr) (ls : List Line) (s : State) (hs : run (start f) ls = some s) (b : Asg)
    (hb : ∀ c ∈ f, c.sat b) :
    ∃ b', (∀ d ∈ s.constrs, d.sat b') ∧ ∀ v, v ∉ ls.flatMap Line.substituted → b' v = b v := by
  obtain ⟨b', h1, h2⟩ := (run_sound ls (start_ok f) hs).2 b (start_sat hb)
  exact ⟨b', h1, fun v hv => h2 v (by rw [witnessVars_eq]; exact hv)⟩

/-- **C62.** If a constraint without literals and with a positive right-hand side is derived, the formula has no model. -/
theorem C62_contradiction (f : List Constr) (ls : List Line) (s : State) (hs : run (start f) ls = some s) (id : Nat)
    (r : Int) (hr : 0 < r) (hid : s.get id = some (ofConstr ⟨[], r⟩)) (b : Asg) : ¬ ∀ c ∈ f, c.sat b := by
  intro hb
  obtain ⟨b', h1, -⟩ := C62_models f ls s hs b hb
  have := (sat_ofConstr _ _).1 (h1 _ (State.get_mem hid))
  have h' : r ≤ 0 := this
  omega

example : (run (start (⟨[(1, Lit.negOf 0)], 1⟩ :: demoFormula)) [.rup ⟨[], 1⟩ []]).bind (fun s => s.get 4) =
    some (ofConstr ⟨[], 1⟩) := by decide

/-! ### C63: the certified totalizer -/

variable {VM : Type} [ManageVars VM] [LawfulVM VM]

/-- **C63.** Allowed operations never panic. -/
theorem C63_no_panic (w : CertWorld VM) (h : w.Reach) (op : CertOp VM) (ha : w.allowed op) :
    ∃ w', w.step op = some w' ∧ w'.Reach := by
  obtain ⟨s, hi⟩ := h.inv
  obtain ⟨w', -, e, -⟩ := CertWorld.step_spec w hi op ha
  exact ⟨w', e, .step w w' op h ha e⟩

/-- **C63.** After any history the checker accepts everything that was written to the proof, its next id is the one of
the proof, and every collected clause comes with the id of a constraint that says the same. -/
theorem C63_accepted (w : CertWorld VM) (h : w.Reach) :
    ∃ s, w.checked = some s ∧ s.next = w.enc.proof.nextId ∧
      ∀ x ∈ w.enc.cls, ∃ d, s.get x.2 = some d ∧ ∀ b, d.sat b ↔ Clause.sat b x.1 := by
  obtain ⟨s, hi⟩ := h.inv
  exact ⟨s, hi.run, hi.enc.next, fun x hx => (hi.cls x hx).2.2.2⟩

/-- **C63.** With proof logging the encoder does the same as without: the same variables, clauses and state, so that C28
to C30 hold. -/
theorem C63_same (w : CertWorld VM) (h : w.Reach) :
    CardWorld.Reach anyOp w.card ∧
    ∀ op w', w.allowed (.card op) → w.step (.card op) = some w' → w.card.step op = some w'.card := by
  refine ⟨h.card, fun op w' ha hs => ?_⟩
  obtain ⟨s, hi⟩ := h.inv
  obtain ⟨w2, -, e, -, k⟩ := CertWorld.step_spec w hi _ ha
  rw [e] at hs
  injection hs with hs
  rw [← hs]
  exact k

/-- **C63.** Every model of the formula becomes a model of everything in the proof, and of all collected clauses, by
changing only variables that were handed out to the encoder or that the user substituted. -/
theorem C63_models (w : CertWorld VM) (h : w.Reach) (b : Asg) (hb : ∀ c ∈ w.formula, c.sat b) :
    ∃ s b', w.checked = some s ∧ (∀ d ∈ s.constrs, d.sat b') ∧ ClauseSet.sat b' (w.enc.cls.map (·.1)) ∧
      ∀ v, v ∉ w.own → v ∉ w.subst → b' v = b v := by
  obtain ⟨s, hi⟩ := h.inv
  obtain ⟨b', h1, h2⟩ := (run_sound _ (start_ok w.formula) hi.run).2 b (start_sat hb)
  refine ⟨s, b', hi.run, h1, fun c hc => ?_, fun v hv1 hv2 => h2 v fun hw => (hi.wit v hw).elim hv1 hv2⟩
  obtain ⟨x, hx, rfl⟩ := List.mem_map.1 hc
  obtain ⟨-, -, -, D, hD, hd⟩ := hi.cls x hx
  exact (hd b').1 (h1 D (State.get_mem hD))

/-- Deciding whether an operation is allowed. -/
def certAllowedB (w : CertWorld VM) : CertOp VM → Bool
  | .card op => allowedB w.card op && (match op with | .add lits => decide (w.ins.length + lits.length < isizeMax) | _ => true)
  | .line l =>
    match w.checked with
    | none => false
    | some s =>
      (VeriPb.step s l).isSome && (l.deleted.all fun id => w.userIds.contains id) &&
        l.vars.all fun v => decide (v < ManageVars.nUsed w.enc.vm) &&
          (!w.own.contains v || s.constrs.any fun d => d.terms.any fun t => t.1 == v)

/-- Running a history; `none` if an operation panics or is not allowed. -/
def runCert (w : CertWorld VM) : List (CertOp VM) → Option (CertWorld VM)
  | [] => some w
  | op :: ops => if certAllowedB w op then (w.step op).bind fun w => runCert w ops else none

omit [LawfulVM VM] in
theorem certAllowedB_sound (w : CertWorld VM) (op : CertOp VM) (h : certAllowedB w op = true) : w.allowed op := by
  cases op with
  | card op =>
    simp only [certAllowedB, Bool.and_eq_true] at h
    refine ⟨?_, ?_⟩
    · have h1 := h.1
      cases op <;> simp_all [allowedB, CardWorld.allowed]
    · have h2 := h.2
      cases op <;> simp_all
  | line l =>
    simp only [certAllowedB] at h
    cases hc : w.checked with
    | none => rw [hc] at h; cases h
    | some s =>
      rw [hc] at h
      simp only [Bool.and_eq_true, List.all_eq_true, decide_eq_true_eq, Bool.or_eq_true, Bool.not_eq_true',
        List.any_eq_true, beq_iff_eq] at h
      obtain ⟨⟨h1, h2⟩, h3⟩ := h
      obtain ⟨s', hs'⟩ := Option.isSome_iff_exists.1 h1
      refine ⟨s, s', hc, hs', fun id hid => by simpa using h2 id hid, fun v hv => ?_⟩
      obtain ⟨a1, a2⟩ := h3 v hv
      refine ⟨a1, a2.imp (fun h => by simpa using h) fun h => ?_⟩
      obtain ⟨d, hd, t, ht, e⟩ := h
      exact ⟨d, hd, t, ht, e⟩

omit [LawfulVM VM] in
/-- The concrete histories used in examples lead to reachable states. -/
theorem runCert_reach : ∀ (ops : List (CertOp VM)) (w w' : CertWorld VM), w.Reach → runCert w ops = some w' → w'.Reach := by
  intro ops
  induction ops with
  | nil => intro w w' h e; cases e; exact h
  | cons op ops ih =>
    intro w w' h e
    unfold runCert at e
    by_cases ha : certAllowedB w op = true
    · rw [if_pos ha] at e
      cases hs : w.step op with
      | none => rw [hs] at e; cases e
      | some w1 =>
        rw [hs] at e
        exact ih w1 w' (.step w w1 op h (certAllowedB_sound w op ha) hs) e
    · rw [if_neg ha] at e; cases e

/-- The start of a concrete history: the inputs are variables 0, 1, 2; four variables are in use; the formula consists of
two constraints. -/
def demoCertStart : CertWorld BasicVM := CertWorld.start [Lit.pos 0, Lit.pos 1, Lit.pos 2] ⟨4⟩ demoFormula

theorem demoCertStart_reach : demoCertStart.Reach := .start _ _ _ (by decide) (by decide) (by decide)

/-- A concrete history: the one for C28 with lines of the user in between: a cutting planes derivation, its deletion
together with a constraint of the formula. -/
def demoCertOps : List (CertOp BasicVM) :=
  [.line (.pol [.id 1, .id 2, .add, .div 2]), .card (.encodeUb ⟨.unbounded, .excl 2⟩), .line (.del [3, 1]),
   .card (.add [Lit.pos 3, Lit.negOf 0]), .card (.encodeUbChange ⟨.incl 1, .incl 2⟩), .card (.encodeLb ⟨.incl 2, .excl 3⟩)]

set_option maxRecDepth 20000 in
/-- Non-vacuity: the history is allowed, collects clauses and writes lines that are accepted. -/
example : ((runCert demoCertStart demoCertOps).map fun w =>
    (w.enc.cls.length, w.enc.proof.lines.length, w.enc.proof.nextId, w.own.length, w.checked.isSome)) =
  some (28, 51, 53, 9, true) := by decide

end RustSat
