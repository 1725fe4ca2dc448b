import Verif.Lemmas.ResetVars
import Verif.Props.Referenced
/-
C104: resetting the variables of a database of totalizers.
-/
namespace RustSat
open TotDb Card
variable {VM : Type} [ManageVars VM] [LawfulVM VM]

/-- **C104.** Resetting the variables keeps all nodes and their values. -/
theorem C104_values (w : SharedWorld VM) (h : SharedWorld.Reach anyShared w) :
    w.db.resetVars.nodes.length = w.db.nodes.length ∧ ∀ T id, value w.db.resetVars T id = value w.db T id :=
  ⟨(resetVars_rel w.db).len, (resetVars_rel w.db).value h.inv.core.wf⟩

/-- Non-vacuity: the database of the demonstration after its calls. -/
example : ∃ w : SharedWorld BasicVM, SharedWorld.Reach anyShared w ∧ w.db.nodes.length = 12 ∧ w.db.resetVars ≠ w.db := by
  obtain ⟨w, e, hf⟩ := SharedDemo.run_some (w := SharedDemo.start) (ops := SharedDemo.trees ++ SharedDemo.bounds) (f := fun w =>
    decide (w.db.nodes.length = 12) && decide (w.db.resetVars.nodes ≠ w.db.nodes)) (x := true) (by decide_cbv)
  simp only [Bool.and_eq_true, decide_eq_true_eq] at hf
  exact ⟨w, SharedDemo.run_reach _ _ _ _ (fun _ _ => trivial) (.start _) e, hf.1, fun h => hf.2 (by rw [h])⟩

/-- **C104.** What is left after resetting the variables does not depend on the calls made before: a call of any encoding that references the database
does not change it. -/
theorem C104_as_before (w w' : SharedWorld VM) (h : SharedWorld.Reach anyShared w) (op : SharedOp VM) (hop : op.isCall = true) (ha : w.allowed op)
    (hs : w.step op = some w') : w'.db.resetVars = w.db.resetVars := SharedWorld.call_resetVars h.inv ha hs hop

/-- Non-vacuity: all calls of the demonstration, after which the database differs from the one that was built, but not after resetting it. -/
example : (SharedDemo.run SharedDemo.start SharedDemo.trees).map (fun w => (w.db.resetVars.nodes, decide (w.db.resetVars.nodes = w.db.nodes))) =
    (SharedDemo.run SharedDemo.start (SharedDemo.trees ++ SharedDemo.bounds)).map fun w =>
      (w.db.resetVars.nodes, !decide (w.db.resetVars.nodes = w.db.nodes)) := by decide_cbv

/-- **C104.** Resetting the variables also resets what has been encoded: no bound can be enforced that needs clauses. -/
theorem C104_forgets (w : SharedWorld VM) (h : SharedWorld.Reach anyShared w) :
    (∀ root lits b, (root, lits) ∈ w.cards → 2 ≤ lits.length →
      (b < lits.length → RefTot.enforceUb w.db.resetVars root b = .err .notEncoded) ∧
      (0 < b → b ≤ lits.length → RefTot.enforceLb w.db.resetVars root b = .err .notEncoded)) ∧
    (∀ con lits M b, (con, lits) ∈ w.sums → (∀ x ∈ lits, x.2 ≤ M) → (∃ x ∈ lits, ∃ y ∈ lits, x.1 ≠ y.1 ∧ 0 < x.2 ∧ 0 < y.2) →
      b < (lits.map (·.2)).sum → RefGte.enforceUb w.db.resetVars con M b = .err .notEncoded) := by
  have hi := h.inv
  have hw := hi.core.wf
  have hr := resetVars_rel w.db
  have hw' : w.db.resetVars.WF := hr.wf hw
  refine ⟨fun root lits b hc hlen => ?_, fun con lits M b hc hM hd hb => ?_⟩
  · have hok : SharedWorld.CardOK w.db w.ins root lits := hi.cards _ hc
    have hno : ∀ l, w.db.node root ≠ .leaf l := by
      intro l e
      have := hok.len hw
      rw [e] at this
      simp only [Node.len] at this
      omega
    refine ⟨fun hb => ?_, fun h0 hb => ?_⟩
    · rcases SharedWorld.enforceUb_cases hw' (hok.rel hr hw) b with ⟨h1, -⟩ | ⟨-, e, -⟩ | ⟨-, l, hl, -⟩
      · omega
      · exact e
      · exact (hno l hl.resetVars_leaf).elim
    · obtain ⟨b, rfl⟩ : ∃ k, b = k + 1 := ⟨b - 1, by omega⟩
      rcases SharedWorld.enforceLb_cases hw' (hok.rel hr hw) b with ⟨h1, -⟩ | ⟨-, e, -⟩ | ⟨-, l, hl, -⟩
      · omega
      · exact e
      · exact (hno l hl.resetVars_leaf).elim
  · have hok : SharedWorld.SumOK w.db w.ins con lits := hi.sums _ hc
    have hall : ∀ L : List (Lit × Nat), wsumT (fun _ => true) L = (L.map (·.2)).sum := by
      intro L
      induction L with
      | nil => rfl
      | cons x L ih => simp [wsumT]
    have hno : ∀ l, w.db.node con.id ≠ .leaf l := by
      intro l e
      have hT : ∀ T : Lit → Bool, T l = false → wsumT T lits = 0 := by
        intro T hT
        have h1 := hok.val T
        have h2 := hok.val fun _ => false
        have hz : ∀ L : List (Lit × Nat), wsumT (fun _ => false) L = 0 := by
          intro L
          induction L with
          | nil => rfl
          | cons x L ih => simp [wsumT]
        rw [hz] at h2
        rw [← h1, ← h2]
        simp only [conVal, value, valueF, e, hT]
      have hpos : ∀ (T : Lit → Bool) (x : Lit × Nat) (L : List (Lit × Nat)), x ∈ L → T x.1 = true → x.2 ≤ wsumT T L := by
        intro T x L hx hTx
        induction L with
        | nil => cases hx
        | cons y L ih =>
          rcases List.mem_cons.1 hx with rfl | hx
          · simp [wsumT, hTx]
          · have := ih hx
            simp only [wsumT, List.map_cons, List.sum_cons] at this ⊢
            omega
      obtain ⟨x, hx, y, hy, hne, h1, h2⟩ := hd
      have key : ∀ z ∈ lits, 0 < z.2 → z.1 = l := by
        intro z hz h0
        by_cases hzl : z.1 = l
        · exact hzl
        · have e1 := hT (fun k => decide (k = z.1)) (by simpa using fun h => hzl h.symm)
          have e2 := hpos (fun k => decide (k = z.1)) z lits hz (by simp)
          omega
      exact hne ((key x hx h1).trans (key y hy h2).symm)
    rw [← hall] at hb
    have hok' := hok.rel hr hw
    rcases SharedWorld.gteEnforce_cases hw' hok' M b with ⟨h1, -⟩ | ⟨-, e, -⟩ | ⟨-, A, e, hv, hA⟩
    · omega
    · exact e
    · exfalso
      have hnil : A = [] := by
        cases A with
        | nil => rfl
        | cons x A =>
          obtain ⟨v, l, -, hl, -⟩ := hA x List.mem_cons_self
          exact (hno l hl.resetVars_leaf).elim
      subst hnil
      obtain ⟨v, ⟨u, hu, rfl⟩, h3, h4⟩ := (hok'.gap M hM).2 (fun _ => true) b (by rw [hok'.val]; exact hb)
      rcases hu.mem_vals hw' with h0 | hmem
      · rw [h0, NodeCon.map_zero] at h3; omega
      · obtain ⟨l, -, hlA⟩ := hv u hmem h3 h4
        cases hlA

/-- Non-vacuity: bounds of the demonstration that could be enforced before. -/
example : (SharedDemo.run SharedDemo.start (SharedDemo.trees ++ SharedDemo.bounds ++ [.resetVars ⟨6⟩])).map (fun w =>
    [w.assumptions (.ub 8 2), w.assumptions (.lb 4 1), w.assumptions (.sum SharedDemo.con 3 4)]) =
    some [.err .notEncoded, .err .notEncoded, .err .notEncoded] := by decide_cbv

/-- **C104.** Full statement: after resetting the variables, the user may go on with any variable manager that knows the variables of the inputs and with
no clauses: bounds that are covered by a call can be enforced, the clauses of that call and the assumptions admit exactly the assignments that respect the
bound, up to variables that the new manager handed out, and no clause has a variable that the old manager handed out. Proved for upper bounds (for lower
bounds see `C81_bounds_partial`, whose histories may contain resets) if the manager also knows the variables that watchdogs got when they were built
(see `C104_violated_tares`); these are kept. -/
theorem C104_again_partial (w w1 w2 : SharedWorld VM) (h : SharedWorld.Reach (fun op => ∀ root r, op ≠ .totLb root r) w) (vm : VM)
    (ha : w.allowed (.resetVars vm)) (hs : w.step (.resetVars vm) = some w1) (op : SharedOp VM) (hop : ∀ root r, op ≠ .totLb root r) (ha1 : w1.allowed op)
    (hs1 : w1.step op = some w2) (B : SharedWorld.Bound) (hB : ∀ root b, B ≠ .lb root b) (hp : w2.proper B) (hc : w2.covered B) :
    ∃ A, w2.assumptions B = .ok A ∧ (∀ m, ClauseSet.sat m w2.cls → cubeSat m A → w2.meets m B) ∧
      (∀ a, w2.meets a B → ∃ m, (∀ v, v ∉ w2.own → m v = a v) ∧ ClauseSet.sat m w2.cls ∧ cubeSat m A) ∧
      ∀ c ∈ w2.cls, ∀ l ∈ c, varsOf w2.ins l.var ∨ l.var ∈ w2.own := by
  have hr1 : SharedWorld.Reach (fun op => ∀ root r, op ≠ .totLb root r) w1 := .step w w1 _ h (fun _ _ e => by cases e) ha hs
  have hr2 : SharedWorld.Reach (fun op => ∀ root r, op ≠ .totLb root r) w2 := .step w1 w2 op hr1 hop ha1 hs1
  have weak : ∀ {R : SharedOp VM → Prop} {w : SharedWorld VM}, SharedWorld.Reach R w → SharedWorld.Reach anyShared w := by
    intro R w h
    induction h with
    | start vm => exact .start vm
    | step w w' op _ _ ha hs ih => exact .step w w' op ih trivial ha hs
  obtain ⟨A, hA⟩ := (C81_available_partial w2 B hp hc).2.2 hB hr2
  obtain ⟨b1, b2⟩ := C81_bounds_partial w2 (weak hr2) [B] (fun B' hB' => by rw [List.mem_singleton] at hB'; exact hB' ▸ hp)
    (fun root b hb => by rw [List.mem_singleton] at hb; exact (hB root b hb.symm).elim)
    (fun s b hb => by
      rw [List.mem_singleton] at hb
      refine ⟨hb ▸ hc, fun b' hb' => ?_⟩
      rw [List.mem_singleton, ← hb] at hb'
      cases hb'
      rfl)
    (fun B' hB' => by rw [List.mem_singleton] at hB'; exact hB' ▸ ⟨A, hA⟩)
  refine ⟨A, hA, fun m hm hcube => ?_, fun a hmeet => ?_, (C81_vars w2 (weak hr2)).1⟩
  · refine b1 m hm (fun B' hB' A' hA' => ?_) B (List.mem_singleton.2 rfl)
    rw [List.mem_singleton] at hB'
    subst hB'
    rw [hA] at hA'
    cases hA'
    exact hcube
  · obtain ⟨m, m1, m2, m3⟩ := b2 a fun B' hB' => by rw [List.mem_singleton] at hB'; exact hB' ▸ hmeet
    exact ⟨m, m1, m2, m3 B (List.mem_singleton.2 rfl) A hA⟩

/-- **C104.** After resetting the variables there are no clauses, and what counts as handed out are the variables that watchdogs got when they were built;
a call adds what the new manager hands out. -/
theorem C104_handed_out (w w1 w2 : SharedWorld VM) (vm : VM) (hs : w.step (.resetVars vm) = some w1) (root : Nat) (r : URange)
    (hs1 : w1.step (.totUb root r) = some w2) :
    w1.cls = [] ∧ (∀ v, v ∈ w1.own ↔ ∃ x ∈ w.dogs, ∃ t ∈ x.1.tares, t.var = v) ∧
      ∀ v, v ∈ w2.own ↔ v ∈ w1.own ∨ (ManageVars.nUsed vm ≤ v ∧ v < ManageVars.nUsed w2.vm) := by
  cases hs
  refine ⟨rfl, fun v => ?_, fun v => ?_⟩
  · simp only [SharedWorld.tareVars, List.mem_flatMap, List.mem_map]
  · simp only [SharedWorld.step, SharedWorld.called, Option.map_eq_some_iff] at hs1
    obtain ⟨st, -, e⟩ := hs1
    cases e
    simp only [List.mem_append, CardWorld.handedOut, List.mem_range'_1]
    exact or_congr Iff.rfl (by omega)

/-- Non-vacuity: after resetting, with a manager that knows the six variables of the literals, the first call gets the variables from 6 on again. -/
example : (SharedDemo.run SharedDemo.start (SharedDemo.trees ++ SharedDemo.bounds ++ [.resetVars ⟨6⟩, .totUb 4 ⟨.incl 1, .incl 1⟩])).map (fun w =>
    (w.assumptions (.ub 4 1), w.own, w.cls)) =
    some (.ok [Lit.negOf 8], [6, 7, 8], [[⟨3⟩, ⟨12⟩], [⟨1⟩, ⟨12⟩], [⟨1⟩, ⟨3⟩, ⟨14⟩], [⟨13⟩, ⟨4⟩, ⟨16⟩], [⟨15⟩, ⟨16⟩]]) := by decide_cbv

/-- Non-vacuity: that history is allowed, and the bound is covered. -/
example : ∃ w w1 w2 : SharedWorld BasicVM, SharedWorld.Reach (fun op => ∀ root r, op ≠ .totLb root r) w ∧ w.allowed (.resetVars ⟨6⟩) ∧
    w.step (.resetVars ⟨6⟩) = some w1 ∧ w1.allowed (.totUb 4 ⟨.incl 1, .incl 1⟩) ∧ w1.step (.totUb 4 ⟨.incl 1, .incl 1⟩) = some w2 ∧
    w2.proper (.ub 4 1) ∧ w2.covered (.ub 4 1) := by
  obtain ⟨w2, e, hf⟩ := SharedDemo.run_some (w := SharedDemo.start)
    (ops := SharedDemo.trees ++ SharedDemo.bounds ++ [.resetVars ⟨6⟩, .totUb 4 ⟨.incl 1, .incl 1⟩]) (f := fun w =>
      decide ((4, [Lit.pos 0, Lit.pos 1, Lit.negOf 2]) ∈ w.cards)) (x := true) (by decide_cbv)
  obtain ⟨w, e0, e⟩ := SharedDemo.run_append e
  obtain ⟨w1, a1, s1, e⟩ := SharedDemo.run_cons e
  obtain ⟨w2', a2, s2, e⟩ := SharedDemo.run_cons e
  cases e
  refine ⟨w, w1, w2, SharedDemo.run_reach _ _ _ _ SharedDemo.bounds_noLb (.start _) e0, a1, s1, a2, s2, ⟨_, by simpa using hf⟩, ?_⟩
  simp only [SharedWorld.covered]
  rw [(SharedDemo.called_ghost s2).1]
  exact Or.inr ⟨rfl, by simp [URange.contains]⟩

/-- **C104, violated.** The variables that a watchdog got when it was built are not reset. With a new manager that knows the variables of all inputs,
outputs get these variables once more, and the clauses and the assumptions for a bound exclude all assignments. -/
theorem C104_violated_tares : ∃ (w : SharedWorld BasicVM) (vm : BasicVM) (st : St BasicVM) (A : List Lit) (a : Asg), SharedWorld.Reach anyShared w ∧
    w.isDog SharedDemo.dog ∧ (∀ l ∈ w.ins, l.var < ManageVars.nUsed vm) ∧
    RefDpw.encodeUb SharedDemo.dog ⟨.incl 0, .incl 0⟩ (⟨w.db.resetVars, vm, []⟩ : St BasicVM) = some st ∧
    RefDpw.enforceUb st.db SharedDemo.dog 0 = .ok A ∧ w.meets a (.dog SharedDemo.dog 0) ∧ ¬ ∃ m, ClauseSet.sat m st.cls ∧ cubeSat m A := by
  obtain ⟨w, e, hf⟩ := SharedDemo.run_some (w := SharedDemo.start) (ops := SharedDemo.two) (f := fun w =>
    (decide (w.dogs = [(SharedDemo.dog, [(Lit.pos 0, 1), (Lit.pos 1, 2)])]) && decide (w.ins = [Lit.pos 0, Lit.pos 1])) &&
    decide ((RefDpw.encodeUb SharedDemo.dog ⟨.incl 0, .incl 0⟩ (⟨w.db.resetVars, ⟨6⟩, []⟩ : St BasicVM)).map (fun st =>
      (st.cls, RefDpw.enforceUb st.db SharedDemo.dog 0)) = some ([[⟨1⟩, ⟨13⟩, ⟨12⟩], [⟨13⟩, ⟨14⟩], [⟨3⟩, ⟨14⟩]], .ok [⟨15⟩, ⟨12⟩]))) (x := true)
    (by decide_cbv)
  simp only [Bool.and_eq_true, decide_eq_true_eq, Option.map_eq_some_iff, Prod.mk.injEq] at hf
  obtain ⟨⟨h1, h2⟩, st, h3, h4, h5⟩ := hf
  refine ⟨w, ⟨6⟩, st, _, fun _ => false, SharedDemo.run_reach _ _ _ _ (fun _ _ => trivial) (.start _) e, ⟨_, by rw [h1]; exact List.mem_singleton.2 rfl⟩, ?_,
    h3, h5, ?_, ?_⟩
  · rw [h2]; decide
  · intro lits hl
    rw [h1, List.mem_singleton] at hl
    cases hl
    decide
  · rintro ⟨m, hm, hc⟩
    rw [h4] at hm
    obtain ⟨l, hl, hl'⟩ := hm [⟨13⟩, ⟨14⟩] (by simp)
    have c1 := hc ⟨15⟩ (by simp)
    have c2 := hc ⟨12⟩ (by simp)
    have k1 : (⟨15⟩ : Lit).holds m = !(⟨14⟩ : Lit).holds m := by rw [← Lit.holds_neg]; rfl
    have k2 : (⟨13⟩ : Lit).holds m = !(⟨12⟩ : Lit).holds m := by rw [← Lit.holds_neg]; rfl
    simp only [List.mem_cons, List.not_mem_nil, or_false] at hl
    rcases hl with rfl | rfl
    · rw [k2, c2] at hl'; cases hl'
    · rw [k1, hl'] at c1; cases c1

end RustSat
