import Verif.Lemmas.StrictExt
import Verif.Props.Totalizer
import Verif.Props.Gte
/-
C101: `strictly_extend_assignment` of totalizers and generalized totalizers, in every state of a history: from an
assignment of the input literals it computes the values of all variables of the encoding, such that all clauses are
satisfied, and the assumptions of `enforce_ub` and `enforce_lb` are satisfied if and only if the bounds hold.
-/
namespace RustSat
open TotDb Card
variable {VM : Type} [ManageVars VM] [LawfulVM VM]

/-- **C101.** For a totalizer in any state, and an assignment of all input literals: the iterator ends without a panic.
It yields literals of variables of the encoding (`own`), and of all such variables in clauses. They do not contradict each
other. If they are true, in addition to the assignment of the inputs, then all clauses are satisfied and the assumptions
returned by `enforce_ub` (`enforce_lb`) are satisfied if and only if at most (at least) `b` input literals are true. -/
theorem C101_totalizer (w : CardWorld VM) (h : CardWorld.Reach anyOp w) (as : Assignment) (ha : ∀ l ∈ w.ins, as.litValue l ≠ .dontCare) :
    ∃ out, Yields (w.tot.strictlyExtend as) out ∧ (∀ l ∈ out, l.var ∈ w.own) ∧
      (∀ c ∈ w.cls, ∀ l ∈ c, varsOf w.ins l.var ∨ varsOf out l.var) ∧
      (∃ a, Agrees as a w.ins ∧ cubeSat a out) ∧
      ∀ a, Agrees as a w.ins → cubeSat a out → ClauseSet.sat a w.cls ∧
        (∀ b A, w.tot.enforceUb b = .ok A → (cubeSat a A ↔ countTrue a w.ins ≤ b)) ∧
        (∀ b A, w.tot.enforceLb b = .ok A → (cubeSat a A ↔ b ≤ countTrue a w.ins)) := by
  have ht := h.inv.tot
  have htree := h.tree
  have hw := ht.core.wf
  have key : ∃ out, Yields (w.tot.strictlyExtend as) out ∧ StrictOut w.tot.db w.cls w.ins w.own as out := by
    cases hr : w.tot.root with
    | none =>
      refine ⟨[], ⟨0, fun m _ => by simp only [Totalizer.strictlyExtend, hr]⟩, strictOut ht.core ha fun l => ?_⟩
      constructor
      · intro hl; cases hl
      · rintro ⟨i, k, v, o, ho, -⟩
        have := ho.inner.lt
        rw [ht.empty hr] at this
        simp at this
    | some root =>
      rw [hr] at htree
      obtain ⟨out, h1, h2, -⟩ := strictlyExtend_spec hw htree (ht.root root hr).1 (as := as) fun j l hj => ha l (ht.core.leafIn j l hj)
      refine ⟨out, ?_, strictOut ht.core ha h2⟩
      obtain ⟨n, hn⟩ := h1
      exact ⟨n, fun m hm => by simp only [Totalizer.strictlyExtend, hr]; exact hn m hm⟩
  obtain ⟨out, k1, k2⟩ := key
  refine ⟨out, k1, k2.own, fun c hc l hl => k2.vars c hc l hl, k2.ex, fun a hag hc => ?_⟩
  have hs := k2.strict a hag hc
  have hsat := ht.core.strict a hs
  refine ⟨hsat, fun b A hA => ⟨fun hcA => (C28_upper_bound w h b A hA).1 a hsat hcA, fun hle => ?_⟩,
    fun b A hA => ⟨fun hcA => (C29_lower_bound w h b A hA).1 a hsat hcA, fun hle => ?_⟩⟩
  · rcases ht.enforceUb_cases b with ⟨hb, e⟩ | ⟨_, e, -⟩ | ⟨hb, hbuf, id, l, hr, hl, e⟩
    · rw [e] at hA; cases hA; simp [cubeSat]
    · rw [e] at hA; cases hA
    · rw [e] at hA; cases hA
      intro x hx
      simp only [List.mem_cons, List.not_mem_nil, or_false] at hx
      subst hx
      rw [Lit.holds_neg]
      cases hm : l.holds a with
      | false => rfl
      | true =>
        have := (hl.strict hw hs).1 hm
        rw [ht.rootValue hbuf hr, ← countTrue_eq_cnt] at this
        omega
  · rcases ht.enforceLb_cases b with ⟨hb, e⟩ | ⟨_, e⟩ | ⟨_, _, e, -⟩ | ⟨hb, _, hbuf, id, l, hr, hl, e⟩
    · rw [e] at hA; cases hA; simp [cubeSat]
    · rw [e] at hA; cases hA
    · rw [e] at hA; cases hA
    · rw [e] at hA; cases hA
      intro x hx
      simp only [List.mem_cons, List.not_mem_nil, or_false] at hx
      subst hx
      refine (hl.strict hw hs).2 ?_
      rw [ht.rootValue hbuf hr, ← countTrue_eq_cnt]
      omega

/-- **C101.** The value of the root computed by the database (`Db::value`) is the number of true input literals, if no
literals are waiting to be encoded. -/
theorem C101_value (w : CardWorld VM) (h : CardWorld.Reach anyOp w) (as : Assignment) (a : Asg) (ha : Agrees as a w.ins) (root : Nat)
    (hr : w.tot.root = some root) (hb : w.tot.litBuffer = []) : Yields (fun m => w.tot.db.nodeValue as m root) (countTrue a w.ins) := by
  have ht := h.inv.tot
  have htree := h.tree
  rw [hr] at htree
  have hd : ∀ l ∈ w.ins, as.litValue l ≠ .dontCare := fun l hl => by
    rw [ha l hl]; cases l.holds a <;> simp [TernaryVal.ofBool]
  obtain ⟨_, -, -, h3⟩ := strictlyExtend_spec ht.core.wf htree (ht.root root hr).1 (as := as) fun j l hj => hd l (ht.core.leafIn j l hj)
  rw [agrees_value ht.core.wf ht.core.leafIn ha, ht.rootValue hb hr, ← countTrue_eq_cnt] at h3
  exact h3

/-- The iterator panics if an input literal is not assigned: here the second one. -/
example : ((runOps (CardWorld.start [Lit.pos 0, Lit.pos 1] (⟨2⟩ : BasicVM)) [.encodeUb ⟨.incl 0, .incl 1⟩]).map fun w =>
    (w.tot.strictlyExtend ⟨[.true]⟩ 50, w.tot.strictlyExtend ⟨[.true, .false]⟩ 50)) =
  some (none, some [Lit.pos 2, Lit.negOf 3]) := by decide

/-- Non-vacuity: the history of C28, with a repeated variable; literals 3 and not 0 are added later. -/
example : ((runOps demoStart demoOps).map fun w => (w.ins, w.own.length, w.tot.strictlyExtend ⟨[.true, .false, .true, .true]⟩ 50)) =
  some ([Lit.pos 0, Lit.pos 1, Lit.pos 2, Lit.pos 3, Lit.negOf 0], 9,
    some [.pos 4, .negOf 6, .pos 5, .pos 7, .negOf 11, .pos 8, .negOf 9, .pos 10, .pos 12]) := by decide

/-- **C101.** For a generalized totalizer in any state, and an assignment of all input literals: the iterator ends without a
panic. It yields literals of variables of the encoding (`own`), and of all such variables in clauses. They do not contradict
each other. If they are true, in addition to the assignment of the inputs, then all clauses are satisfied and the assumptions
returned by `enforce_ub` are satisfied if and only if the sum of the weights of true literals is at most `b`. -/
theorem C101_gte (w : GteWorld VM) (h : GteWorld.Reach anyGteOp w) (as : Assignment) (ha : ∀ x ∈ w.ins, as.litValue x.1 ≠ .dontCare) :
    ∃ out, Yields (w.gte.strictlyExtend as) out ∧ (∀ l ∈ out, l.var ∈ w.own) ∧
      (∀ c ∈ w.cls, ∀ l ∈ c, varsOf (w.ins.map (·.1)) l.var ∨ varsOf out l.var) ∧
      (∃ a, Agrees as a (w.ins.map (·.1)) ∧ cubeSat a out) ∧
      ∀ a, Agrees as a (w.ins.map (·.1)) → cubeSat a out → ClauseSet.sat a w.cls ∧
        ∀ b A, w.gte.enforceUb b = .ok A → (cubeSat a A ↔ wsum a w.ins ≤ b) := by
  have ht := h.inv.gte
  have htree : Tree _ _ := h.tree
  have hw := ht.core.wf
  have ha' : ∀ l ∈ w.ins.map (·.1), as.litValue l ≠ .dontCare := fun l hl => by
    obtain ⟨x, hx, rfl⟩ := List.mem_map.1 hl
    exact ha x hx
  have key : ∃ out, Yields (w.gte.strictlyExtend as) out ∧ StrictOut w.gte.db w.cls (w.ins.map (·.1)) w.own as out := by
    cases hr : w.gte.root with
    | none =>
      refine ⟨[], ⟨0, fun m _ => by simp only [Gte.strictlyExtend, hr]⟩, strictOut ht.core ha' fun l => ?_⟩
      rw [hr] at htree
      constructor
      · intro hl; cases hl
      · rintro ⟨i, k, v, o, ho, -⟩
        exact absurd ho.inner (Tree.noRoot hw htree i)
    | some con =>
      rw [hr] at htree
      obtain ⟨out, h1, h2, -⟩ := strictlyExtend_spec hw htree (ht.root con hr).1.id (as := as) fun j l hj => ha' l (ht.core.leafIn j l hj)
      refine ⟨out, ?_, strictOut ht.core ha' h2⟩
      obtain ⟨n, hn⟩ := h1
      exact ⟨n, fun m hm => by simp only [Gte.strictlyExtend, hr]; exact hn m hm⟩
  obtain ⟨out, k1, k2⟩ := key
  refine ⟨out, k1, k2.own, fun c hc l hl => k2.vars c hc l hl, k2.ex, fun a hag hc => ?_⟩
  have hs := k2.strict a hag hc
  have hsat := ht.core.strict a hs
  exact ⟨hsat, fun b A hA => ⟨fun hcA => (C33_upper_bound w h b A hA).1 a hsat hcA, fun hle => ht.enforced hA hs hle⟩⟩

example : ((GteDemo.run GteDemo.start GteDemo.ops).map fun w =>
    (w.own.length, (w.gte.strictlyExtend ⟨[.true, .false, .true, .true]⟩ 50).map fun out => (out.length, out.take 6))) =
  some (18, some (18, [.pos 4, .negOf 5, .pos 10, .pos 8, .pos 13, .negOf 18])) := by decide

end RustSat
