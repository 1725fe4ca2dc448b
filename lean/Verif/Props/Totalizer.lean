import Verif.Lemmas.Totalizer2
/-
C28, C29, C30 for the totalizer, over all histories of operations; C27 for the totalizer.
-/
namespace RustSat
open TotDb Card
variable {VM : Type} [ManageVars VM] [LawfulVM VM]

/-- All operations. -/
abbrev anyOp : CardOp VM → Prop := fun _ => True

/-- A concrete history: three literals, encode upper bounds up to one, add two literals, encode upper and lower
bounds. -/
def demoOps : List (CardOp BasicVM) :=
  [.encodeUb ⟨.unbounded, .excl 2⟩, .add [Lit.pos 3, Lit.negOf 0], .encodeUbChange ⟨.incl 1, .incl 2⟩,
   .encodeLb ⟨.incl 2, .excl 3⟩]

/-- Deciding whether an operation is allowed. -/
def allowedB (w : CardWorld VM) : CardOp VM → Bool
  | .add lits => lits.all fun l => decide (l.var < ManageVars.nUsed w.vm ∧ l.var ∉ w.own)
  | .useVars vm => decide (ManageVars.nUsed w.vm ≤ ManageVars.nUsed vm)
  | _ => true

/-- Running a history; `none` if an operation panics or is not allowed. -/
def runOps (w : CardWorld VM) : List (CardOp VM) → Option (CardWorld VM)
  | [] => some w
  | op :: ops => if allowedB w op then (w.step op).bind fun w => runOps w ops else none

omit [LawfulVM VM] in
/-- The concrete histories used in examples lead to reachable states. -/
theorem runOps_reach : ∀ (ops : List (CardOp VM)) (w w' : CardWorld VM), CardWorld.Reach anyOp w → runOps w ops = some w' →
    CardWorld.Reach anyOp w' := by
  intro ops
  induction ops with
  | nil => intro w w' h e; cases e; exact h
  | cons op ops ih =>
    intro w w' h e
    unfold runOps at e
    by_cases ha : allowedB w op = true
    · rw [if_pos ha] at e
      cases hs : w.step op with
      | none => rw [hs] at e; cases e
      | some w1 =>
        rw [hs] at e
        refine ih w1 w' (.step w w1 op h trivial ?_ hs) e
        cases op <;> simp_all [allowedB, CardWorld.allowed]
    · rw [if_neg ha] at e; cases e

/-- The start of the concrete history: inputs are variables 0, 1, 2; four variables are in use. -/
def demoStart : CardWorld BasicVM := CardWorld.start [Lit.pos 0, Lit.pos 1, Lit.pos 2] ⟨4⟩

theorem demoStart_reach : CardWorld.Reach anyOp demoStart := .start _ _ (by decide)

/-- **C28.** After any history of operations, if `enforce_ub(b)` returns assumptions, every model of all clauses
produced so far and these assumptions has at most `b` true input literals, and every assignment with at most `b` true
input literals becomes such a model by changing only variables that were handed out to the encoder. -/
theorem C28_upper_bound (w : CardWorld VM) (h : CardWorld.Reach anyOp w) (b : Nat) (A : List Lit)
    (hA : w.tot.enforceUb b = .ok A) :
    (∀ m, ClauseSet.sat m w.cls → cubeSat m A → countTrue m w.ins ≤ b) ∧
    (∀ a, countTrue a w.ins ≤ b → ∃ m, (∀ v, v ∉ w.own → m v = a v) ∧ ClauseSet.sat m w.cls ∧ cubeSat m A) := by
  obtain ⟨ht, -⟩ := h.inv
  rcases ht.enforceUb_cases b with ⟨hb, e⟩ | ⟨_, e, -⟩ | ⟨hb, hbuf, id, l, hr, hl, e⟩
  · rw [e] at hA; cases hA
    refine ⟨fun m _ _ => Nat.le_trans (countTrue_le_length _ _) hb, fun a _ => ?_⟩
    obtain ⟨m, h1, -, h3, -⟩ := ht.core.complete a
    exact ⟨m, h1, h3, by simp [cubeSat]⟩
  · rw [e] at hA; cases hA
  · rw [e] at hA; cases hA
    have hw := ht.core.wf
    refine ⟨fun m hm hc => ?_, fun a ha => ?_⟩
    · rcases Nat.lt_or_ge b (countTrue m w.ins) with hlt | hge
      · exfalso
        rw [countTrue_eq_cnt, ← ht.rootValue hbuf hr] at hlt
        have := hl.if_ hw rfl ht.core.soundIf hm (T := trueLits m) (fun x hx => hx) hlt
        have hc' : l.neg.holds m = true := hc _ (by simp)
        rw [Lit.holds_neg, this] at hc'
        cases hc'
      · exact hge
    · obtain ⟨m, h1, h2, h3, h4⟩ := ht.core.complete a
      refine ⟨m, h1, h3, fun x hx => ?_⟩
      simp only [List.mem_cons, List.not_mem_nil, or_false] at hx
      subst hx
      rw [Lit.holds_neg]
      cases hm : l.holds m with
      | false => rfl
      | true =>
        have := (hl.strict hw h2).1 hm
        rw [ht.rootValue hbuf hr, ← countTrue_eq_cnt, countTrue_eq_of_holds h4] at this
        omega

/-- Non-vacuity: in the concrete history upper bounds 1 and 2 can be enforced by one assumption each. -/
example : ((runOps demoStart demoOps).map fun w =>
    (w.tot.enforceUb 1, w.tot.enforceUb 2, w.tot.enforceUb 5)) =
  some (.ok [Lit.negOf 10], .ok [Lit.negOf 12], .ok []) := by decide

/-- **C28.** Directly after `encode_ub`, the clauses produced by this call alone suffice: they can be given to a new
solver. -/
theorem C28_clauses_of_call (w w' : CardWorld VM) (h : CardWorld.Reach anyOp w) (r : URange)
    (hs : w.step (.encodeUb r) = some w') (b : Nat) (A : List Lit) (hA : w'.tot.enforceUb b = .ok A)
    (m : Asg) (hm : ClauseSet.sat m (w'.cls.drop w.cls.length)) (hc : cubeSat m A) : countTrue m w'.ins ≤ b := by
  obtain ⟨ht, -⟩ := h.inv
  obtain ⟨t', vm', new, e, h1, -, -, -, -, h5⟩ := ht.encodeUb w.cls r
  simp only [CardWorld.step, e, CardWorld.encoded, Option.map_some, Option.some.injEq] at hs
  subst hs
  simp only [List.drop_left] at hm hA ⊢
  have ht' := h1.inv
  rcases ht'.enforceUb_cases b with ⟨hb, e⟩ | ⟨_, e, -⟩ | ⟨hb, hbuf, id, l, hr, hl, e⟩
  · exact Nat.le_trans (countTrue_le_length _ _) hb
  · rw [e] at hA; cases hA
  · rw [e] at hA; cases hA
    rcases Nat.lt_or_ge b (countTrue m w.ins) with hlt | hge
    · exfalso
      rw [countTrue_eq_cnt, ← ht'.rootValue hbuf hr] at hlt
      have := hl.if_ ht'.core.wf rfl h5 hm (T := trueLits m) (fun x hx => hx) hlt
      have hc' : l.neg.holds m = true := hc _ (by simp)
      rw [Lit.holds_neg, this] at hc'
      cases hc'
    · exact hge

/-- **C28, C29, C30.** No operation of a history panics: an allowed operation leads to a next state. -/
theorem C28_no_panic (w : CardWorld VM) (h : CardWorld.Reach anyOp w) (op : CardOp VM) (ha : w.allowed op) :
    ∃ w', w.step op = some w' ∧ CardWorld.Reach anyOp w' := by
  obtain ⟨w', e, -⟩ := CardWorld.step_spec w h.inv op ha
  exact ⟨w', e, .step w w' op h trivial ha e⟩

example : (runOps demoStart demoOps).isSome = true := by decide

/-- **C28.** Enforcing a bound does not panic either, and never reports unsatisfiability. -/
theorem C28_enforce_total (w : CardWorld VM) (h : CardWorld.Reach anyOp w) (b : Nat) :
    (∃ A, w.tot.enforceUb b = .ok A) ∨ w.tot.enforceUb b = .err .notEncoded := by
  rcases h.inv.tot.enforceUb_cases b with ⟨hb, e⟩ | ⟨_, e, -⟩ | ⟨hb, hbuf, id, l, hr, hl, e⟩
  · exact Or.inl ⟨_, e⟩
  · exact Or.inr e
  · exact Or.inl ⟨_, e⟩

/-- **C29.** After any history of operations, if `enforce_lb(b)` returns assumptions, every model of all clauses
produced so far and these assumptions has at least `b` true input literals, and every assignment with at least `b`
true input literals becomes such a model by changing only variables that were handed out to the encoder. -/
theorem C29_lower_bound (w : CardWorld VM) (h : CardWorld.Reach anyOp w) (b : Nat) (A : List Lit)
    (hA : w.tot.enforceLb b = .ok A) :
    (∀ m, ClauseSet.sat m w.cls → cubeSat m A → b ≤ countTrue m w.ins) ∧
    (∀ a, b ≤ countTrue a w.ins → ∃ m, (∀ v, v ∉ w.own → m v = a v) ∧ ClauseSet.sat m w.cls ∧ cubeSat m A) := by
  obtain ⟨ht, -⟩ := h.inv
  rcases ht.enforceLb_cases b with ⟨hb, e⟩ | ⟨_, e⟩ | ⟨_, _, e, -⟩ | ⟨hb, hle, hbuf, id, l, hr, hl, e⟩
  · rw [e] at hA; cases hA
    subst hb
    refine ⟨fun m _ _ => Nat.zero_le _, fun a _ => ?_⟩
    obtain ⟨m, h1, -, h3, -⟩ := ht.core.complete a
    exact ⟨m, h1, h3, by simp [cubeSat]⟩
  · rw [e] at hA; cases hA
  · rw [e] at hA; cases hA
  · rw [e] at hA; cases hA
    have hw := ht.core.wf
    refine ⟨fun m hm hc => ?_, fun a ha => ?_⟩
    · have := hl.onlyIf hw rfl (ht.core.soundOnly (ht.real.noDummy hw)) hm (hc l (by simp))
      rw [ht.rootValue hbuf hr, ← countTrue_eq_cnt] at this
      omega
    · obtain ⟨m, h1, h2, h3, h4⟩ := ht.core.complete a
      refine ⟨m, h1, h3, fun x hx => ?_⟩
      simp only [List.mem_cons, List.not_mem_nil, or_false] at hx
      subst hx
      refine (hl.strict hw h2).2 ?_
      rw [ht.rootValue hbuf hr, ← countTrue_eq_cnt, countTrue_eq_of_holds h4]
      omega

example : ((runOps demoStart demoOps).map fun w => (w.tot.enforceLb 0, w.tot.enforceLb 2, w.tot.enforceLb 3)) =
  some (.ok [], .ok [Lit.pos 10], .err .notEncoded) := by decide

/-- **C29.** Directly after `encode_lb`, the clauses produced by this call alone suffice. -/
theorem C29_clauses_of_call (w w' : CardWorld VM) (h : CardWorld.Reach anyOp w) (r : URange)
    (hs : w.step (.encodeLb r) = some w') (b : Nat) (A : List Lit) (hA : w'.tot.enforceLb b = .ok A)
    (m : Asg) (hm : ClauseSet.sat m (w'.cls.drop w.cls.length)) (hc : cubeSat m A) : b ≤ countTrue m w'.ins := by
  obtain ⟨ht, -⟩ := h.inv
  obtain ⟨t', vm', new, e, h1, -, -, -, -, h5⟩ := ht.encodeLb w.cls r
  simp only [CardWorld.step, e, CardWorld.encoded, Option.map_some, Option.some.injEq] at hs
  subst hs
  simp only [List.drop_left] at hm hA ⊢
  have ht' := h1.inv
  rcases ht'.enforceLb_cases b with ⟨hb, e⟩ | ⟨_, e⟩ | ⟨_, _, e, -⟩ | ⟨hb, hle, hbuf, id, l, hr, hl, e⟩
  · rw [hb]; exact Nat.zero_le _
  · rw [e] at hA; cases hA
  · rw [e] at hA; cases hA
  · rw [e] at hA; cases hA
    have := hl.onlyIf ht'.core.wf rfl h5 hm (hc l (by simp))
    rw [ht'.rootValue hbuf hr, ← countTrue_eq_cnt] at this
    omega

/-- **C29.** `Unsat` is returned exactly if the bound exceeds the number of input literals (so that no assignment
satisfies it). -/
theorem C29_unsat (w : CardWorld VM) (h : CardWorld.Reach anyOp w) (b : Nat) :
    w.tot.enforceLb b = .err .unsat ↔ w.ins.length < b := by
  rcases h.inv.tot.enforceLb_cases b with ⟨hb, e⟩ | ⟨hb, e⟩ | ⟨h0, hb, e, -⟩ | ⟨h0, hb, hbuf, id, l, hr, hl, e⟩
  · rw [e]; exact ⟨(fun h => by cases h), fun h => by omega⟩
  · rw [e]; exact ⟨fun _ => hb, fun _ => rfl⟩
  · rw [e]; exact ⟨(fun h => by cases h), fun h => by omega⟩
  · rw [e]; exact ⟨(fun h => by cases h), fun h => by omega⟩

example : ((runOps demoStart demoOps).map fun w => w.tot.enforceLb 6) = some (.err .unsat) := by decide

/-- **C28, C29.** Enforcing equality: models have exactly `b` true input literals, and every assignment with exactly
`b` extends to a model. -/
theorem C29_equality (w : CardWorld VM) (h : CardWorld.Reach anyOp w) (b : Nat) (A : List Lit)
    (hA : w.tot.enforceEq b = .ok A) :
    (∀ m, ClauseSet.sat m w.cls → cubeSat m A → countTrue m w.ins = b) ∧
    (∀ a, countTrue a w.ins = b → ∃ m, (∀ v, v ∉ w.own → m v = a v) ∧ ClauseSet.sat m w.cls ∧ cubeSat m A) := by
  unfold Totalizer.enforceEq at hA
  cases hu : w.tot.enforceUb b with
  | err e => rw [hu] at hA; cases hA
  | panic => rw [hu] at hA; cases hA
  | ok A1 =>
    rw [hu] at hA
    simp only at hA
    cases hl : w.tot.enforceLb b with
    | err e => rw [hl] at hA; cases hA
    | panic => rw [hl] at hA; cases hA
    | ok A2 =>
      rw [hl] at hA
      cases hA
      obtain ⟨u1, -⟩ := C28_upper_bound w h b A1 hu
      obtain ⟨l1, -⟩ := C29_lower_bound w h b A2 hl
      refine ⟨fun m hm hc => ?_, fun a ha => ?_⟩
      · have h1 := u1 m hm fun x hx => hc x (List.mem_append_left _ hx)
        have h2 := l1 m hm fun x hx => hc x (List.mem_append_right _ hx)
        omega
      · -- one strict model satisfies both cubes
        obtain ⟨ht, -⟩ := h.inv
        obtain ⟨m, h1, h2, h3, h4⟩ := ht.core.complete a
        have hcount : countTrue m w.ins = b := by rw [countTrue_eq_of_holds h4, ha]
        refine ⟨m, h1, h3, fun x hx => ?_⟩
        rcases List.mem_append.1 hx with hx | hx
        · rcases ht.enforceUb_cases b with ⟨hb, e⟩ | ⟨_, e, -⟩ | ⟨hb, hbuf, id, l, hr, hl', e⟩
          · rw [e] at hu; cases hu; cases hx
          · rw [e] at hu; cases hu
          · rw [e] at hu; cases hu
            simp only [List.mem_cons, List.not_mem_nil, or_false] at hx
            subst hx
            rw [Lit.holds_neg]
            cases hm : l.holds m with
            | false => rfl
            | true =>
              have := (hl'.strict ht.core.wf h2).1 hm
              rw [ht.rootValue hbuf hr, ← countTrue_eq_cnt] at this
              omega
        · rcases ht.enforceLb_cases b with ⟨hb, e⟩ | ⟨_, e⟩ | ⟨_, _, e, -⟩ | ⟨hb, hle, hbuf, id, l, hr, hl', e⟩
          · rw [e] at hl; cases hl; cases hx
          · rw [e] at hl; cases hl
          · rw [e] at hl; cases hl
          · rw [e] at hl; cases hl
            simp only [List.mem_cons, List.not_mem_nil, or_false] at hx
            subst hx
            refine (hl'.strict ht.core.wf h2).2 ?_
            rw [ht.rootValue hbuf hr, ← countTrue_eq_cnt]
            omega

example : ((runOps demoStart demoOps).map fun w => w.tot.enforceEq 2) = some (.ok [Lit.negOf 12, Lit.pos 10]) := by decide

/-- **C30** (totalizer, upper bounds). After any history, a bound below the number of literals that was covered by an
encode call since literals were last added is accepted; with at least two literals, a bound that was not covered is
refused with `NotEncoded`. -/
theorem C30_upper_totalizer_partial (w : CardWorld VM) (h : CardWorld.Reach anyOp w) (b : Nat) (hb : b < w.ins.length) :
    (w.ub b → ∃ A, w.tot.enforceUb b = .ok A) ∧
    (2 ≤ w.ins.length → ¬ w.ub b → w.tot.enforceUb b = .err .notEncoded) := by
  have hi := h.inv
  rcases hi.tot.enforceUb_cases b with ⟨hb', e⟩ | ⟨_, e, hn⟩ | ⟨_, hbuf, id, l, hr, hl, e⟩
  · omega
  · exact ⟨fun hu => absurd (hi.ubEnc b hb hu) hn, fun _ _ => e⟩
  · refine ⟨fun _ => ⟨_, e⟩, fun h2 hu => ?_⟩
    exfalso
    rcases hl.markedIf with hleaf | hm
    · have := hi.tot.rootLen hbuf hr
      rw [hleaf] at this
      simp only [Node.len] at this
      omega
    · exact hu (hi.encUb b ⟨hbuf, id, hr, hm⟩)

/-- **C30** (totalizer, lower bounds). -/
theorem C30_lower_totalizer_partial (w : CardWorld VM) (h : CardWorld.Reach anyOp w) (b : Nat) (h0 : 0 < b)
    (hb : b ≤ w.ins.length) :
    (w.lb b → ∃ A, w.tot.enforceLb b = .ok A) ∧
    (2 ≤ w.ins.length → ¬ w.lb b → w.tot.enforceLb b = .err .notEncoded) := by
  have hi := h.inv
  have hbb : b - 1 + 1 = b := by omega
  rcases hi.tot.enforceLb_cases b with ⟨hb', e⟩ | ⟨hb', e⟩ | ⟨_, _, e, hn⟩ | ⟨_, _, hbuf, id, l, hr, hl, e⟩
  · omega
  · omega
  · refine ⟨fun hu => absurd (hi.lbEnc (b - 1) (by omega) (by rw [hbb]; exact hu)) hn, fun _ _ => e⟩
  · refine ⟨fun _ => ⟨_, e⟩, fun h2 hu => ?_⟩
    exfalso
    rcases hl.markedOnly with hleaf | hm
    · have := hi.tot.rootLen hbuf hr
      rw [hleaf] at this
      simp only [Node.len] at this
      omega
    · have := hi.encLb (b - 1) ⟨hbuf, id, hr, hm⟩
      rw [hbb] at this
      exact hu this

example : ((runOps demoStart demoOps).map fun w =>
    (w.tot.enforceUb 0, w.tot.enforceUb 3, w.tot.enforceLb 1)) =
  some (.err .notEncoded, .err .notEncoded, .err .notEncoded) := by decide

/-- **C30** (totalizer). Directly after adding literals every bound that can be violated is refused, also with a single
literal. -/
theorem C30_after_add_totalizer_partial (w w' : CardWorld VM) (h : CardWorld.Reach anyOp w) (lits : List Lit)
    (hne : lits ≠ []) (ha : w.allowed (.add lits)) (hs : w.step (.add lits) = some w') (b : Nat) :
    (b < w'.ins.length → w'.tot.enforceUb b = .err .notEncoded) ∧
    (0 < b → b ≤ w'.ins.length → w'.tot.enforceLb b = .err .notEncoded) := by
  have h' : CardWorld.Reach anyOp w' := .step w w' _ h trivial ha hs
  have hbuf : w'.tot.litBuffer ≠ [] := by
    simp only [CardWorld.step, Option.some.injEq] at hs
    subst hs
    simp [Totalizer.extend, hne]
  refine ⟨fun hb => ?_, fun h0 hb => ?_⟩
  · rcases h'.inv.tot.enforceUb_cases b with ⟨hb', e⟩ | ⟨_, e, hn⟩ | ⟨_, hbuf', _⟩
    · omega
    · exact e
    · exact absurd hbuf' hbuf
  · rcases h'.inv.tot.enforceLb_cases b with ⟨hb', e⟩ | ⟨hb', e⟩ | ⟨_, _, e, hn⟩ | ⟨_, _, hbuf', _⟩
    · omega
    · omega
    · exact e
    · exact absurd hbuf' hbuf

example : ((runOps demoStart (demoOps.take 2)).map fun w => (w.tot.enforceUb 1, w.ins.length)) =
  some (.err .notEncoded, 5) := by decide

/-- **C27** (totalizer). After any history, the variables of all clauses are variables of input literals or variables
that the manager handed out to the encoder; input and handed out variables are disjoint; the number of clauses is
reported exactly; and without calls of `reserve` also the number of variables. -/
theorem C27_totalizer_partial (w : CardWorld VM) :
    (CardWorld.Reach anyOp w → (∀ c ∈ w.cls, ∀ l ∈ c, varsOf w.ins l.var ∨ l.var ∈ w.own) ∧
      (∀ l ∈ w.ins, l.var ∉ w.own) ∧ w.tot.nClauses = w.cls.length) ∧
    (CardWorld.Reach (fun op => op ≠ .reserve) w → w.tot.nVars = w.own.length) := by
  constructor
  · intro h
    obtain ⟨ht, hc, -⟩ := h.inv
    refine ⟨fun c hcl l hl => ?_, ht.core.disj, hc⟩
    rcases ht.core.vars c hcl l hl with ⟨j, x, h1, h2⟩ | ⟨i, k, v, x, h1, h2⟩
    · exact Or.inl ⟨x, ht.core.leafIn j x h1, h2⟩
    · exact Or.inr (by rw [← h2]; exact ht.core.outOwn i k v x h1)
  · intro h
    induction h with
    | start lits vm h => rfl
    | step w w' op h hr ha hs ih =>
      obtain ⟨w2, e, n⟩ := CardWorld.step_spec w h.inv op ha
      rw [e] at hs
      cases hs
      exact n.nVars hr ih

example : ((runOps demoStart demoOps).map fun w => (w.tot.nVars, w.own.length, w.tot.nClauses, w.cls.length)) =
  some (9, 9, 28, 28) := by decide

/-- **C27 is violated** by `reserve`: the variables it allocates are not counted. With three literals, five variables
are allocated and zero are reported, also after encoding. -/
theorem C27_violated_reserve :
    ((runOps demoStart [.reserve, .encodeUb ⟨.unbounded, .unbounded⟩]).map fun w => (w.tot.nVars, w.own.length)) =
      some (0, 5) := by decide

end RustSat
