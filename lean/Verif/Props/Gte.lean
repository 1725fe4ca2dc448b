import Verif.Lemmas.Gte
/-
C33 for the generalized totalizer, over all histories of operations; C27 and C30 for the generalized totalizer; C51.
-/
namespace RustSat
open TotDb Card
variable {VM : Type} [ManageVars VM] [LawfulVM VM]

/-- All operations. -/
abbrev anyGteOp : GteOp VM → Prop := fun _ => True

namespace GteDemo

/-- Deciding whether an operation is allowed. -/
def allowedB (w : GteWorld VM) : GteOp VM → Bool
  | .add lits => lits.all fun x => decide (0 < x.2 ∧ x.1.var < ManageVars.nUsed w.vm ∧ x.1.var ∉ w.own)
  | .useVars vm => decide (ManageVars.nUsed w.vm ≤ ManageVars.nUsed vm)
  | .rehash _ => false
  | _ => true

/-- Running a history; `none` if an operation panics or is not allowed. -/
def run (w : GteWorld VM) : List (GteOp VM) → Option (GteWorld VM)
  | [] => some w
  | op :: ops => if allowedB w op then (w.step op).bind fun w => run w ops else none

omit [LawfulVM VM] in
/-- The concrete histories used in examples lead to reachable states. -/
theorem run_reach : ∀ (ops : List (GteOp VM)) (w w' : GteWorld VM), GteWorld.Reach anyGteOp w → run w ops = some w' →
    GteWorld.Reach anyGteOp w' := by
  intro ops
  induction ops with
  | nil => intro w w' h e; cases e; exact h
  | cons op ops ih =>
    intro w w' h e
    unfold run at e
    by_cases ha : allowedB w op = true
    · rw [if_pos ha] at e
      cases hs : w.step op with
      | none => rw [hs] at e; cases e
      | some w1 =>
        rw [hs] at e
        refine ih w1 w' (.step w w1 op h trivial ?_ hs) e
        cases op with
        | add lits => exact fun x hx => by simpa using List.all_eq_true.1 ha x hx
        | _ => simp_all [allowedB, GteWorld.allowed]
    · rw [if_neg ha] at e; cases e

/-- The start of the concrete histories: inputs are variables 0, 1, 2 with weights 4, 2, 2; four variables are in use. -/
def start : GteWorld BasicVM := GteWorld.start [(Lit.pos 0, 4), (Lit.pos 1, 2), (Lit.pos 2, 2)] ⟨4⟩

theorem start_reach : GteWorld.Reach anyGteOp start := .start _ _ (by decide) (by decide)

/-- A concrete history. -/
def ops : List (GteOp BasicVM) :=
  [.encodeUb ⟨.unbounded, .excl 3⟩, .add [(Lit.pos 3, 3), (Lit.negOf 0, 1)], .encodeUbChange ⟨.incl 4, .incl 5⟩]

end GteDemo

/-- **C33.** After any history of operations, if `enforce_ub(b)` returns assumptions, every model of all clauses
produced so far and these assumptions has a weighted sum of at most `b`, and every assignment with a weighted sum of at
most `b` becomes such a model by changing only variables that were handed out to the encoder. -/
theorem C33_upper_bound (w : GteWorld VM) (h : GteWorld.Reach anyGteOp w) (b : Nat) (A : List Lit)
    (hA : w.gte.enforceUb b = .ok A) :
    (∀ m, ClauseSet.sat m w.cls → cubeSat m A → wsum m w.ins ≤ b) ∧
    (∀ a, wsum a w.ins ≤ b → ∃ m, (∀ v, v ∉ w.own → m v = a v) ∧ ClauseSet.sat m w.cls ∧ cubeSat m A) := by
  obtain ⟨ht, -⟩ := h.inv
  exact ⟨fun m hm hc => ht.sound hA ht.core.soundIf hm hc, fun a ha => ht.complete hA ha⟩

/-- Non-vacuity: in the concrete history the bound 5 is enforced by four assumptions. -/
example : ((GteDemo.run GteDemo.start GteDemo.ops).map fun w =>
    (w.gte.enforceUb 5, w.gte.enforceUb 2, w.gte.enforceUb 12)) =
  some (.ok [Lit.negOf 11, Lit.negOf 14, Lit.negOf 16, Lit.negOf 19], .err .notEncoded, .ok []) := by decide

/-- Non-vacuity: before, with a literal not included in the tree since its weight is larger than all bounds. -/
example : ((GteDemo.run GteDemo.start (GteDemo.ops.take 1)).map fun w => (w.gte.enforceUb 2, w.gte.enforceUb 4)) =
  some (.ok [Lit.negOf 0, Lit.negOf 5], .err .notEncoded) := by decide

/-- **C33.** The bounds of the range of an `encode_ub` call can be enforced directly after it. -/
theorem C33_available (w w' : GteWorld VM) (h : GteWorld.Reach anyGteOp w) (r : URange)
    (hs : w.step (.encodeUb r) = some w' ∨ w.step (.encodeUbChange r) = some w') (b : Nat) (hb : r.contains b) :
    ∃ A, w'.gte.enforceUb b = .ok A := by
  have key : w'.Inv ∧ w'.ub b := by
    rcases hs with hs | hs
    · obtain ⟨w2, e, n⟩ := GteWorld.step_spec w h.inv (.encodeUb r) trivial
      rw [hs] at e; cases e
      refine ⟨n.inv, ?_⟩
      simp only [GteWorld.step, GteWorld.encoded, Option.map_eq_some_iff] at hs
      obtain ⟨x, -, rfl⟩ := hs
      exact hb
    · obtain ⟨w2, e, n⟩ := GteWorld.step_spec w h.inv (.encodeUbChange r) trivial
      rw [hs] at e; cases e
      refine ⟨n.inv, ?_⟩
      simp only [GteWorld.step, GteWorld.encoded, Option.map_eq_some_iff] at hs
      obtain ⟨x, -, rfl⟩ := hs
      exact Or.inl hb
  obtain ⟨hi, hu⟩ := key
  rcases hi.gte.enforceUb_cases b with ⟨-, e⟩ | ⟨hlt, -, hn⟩ | ⟨-, -, A, e, -⟩
  · exact ⟨_, e⟩
  · exact absurd (hi.ubEnc b hlt hu) hn
  · exact ⟨A, e⟩

/-- **C33.** Directly after `encode_ub`, the clauses produced by this call alone suffice: they can be given to a new
solver. -/
theorem C33_clauses_of_call (w w' : GteWorld VM) (h : GteWorld.Reach anyGteOp w) (r : URange)
    (hs : w.step (.encodeUb r) = some w') (b : Nat) (A : List Lit) (hA : w'.gte.enforceUb b = .ok A)
    (m : Asg) (hm : ClauseSet.sat m (w'.cls.drop w.cls.length)) (hc : cubeSat m A) : wsum m w'.ins ≤ b := by
  obtain ⟨ht, -⟩ := h.inv
  obtain ⟨t', vm', new, e, h1, -, h5⟩ := ht.encodeUb w.cls r
  simp only [GteWorld.step, e, GteWorld.encoded, Option.map_some, Option.some.injEq] at hs
  subst hs
  simp only [List.drop_left] at hm hA ⊢
  exact h1.inv.sound hA h5 hm hc

example : ((GteDemo.run GteDemo.start [.encodeUb ⟨.unbounded, .excl 3⟩, .encodeUb ⟨.incl 5, .incl 5⟩]).map fun w =>
    w.gte.enforceUb 5) = some (.ok [Lit.negOf 6, Lit.negOf 7]) := by decide

/-- **C33.** No operation of a history panics: an allowed operation leads to a next state. -/
theorem C33_no_panic (w : GteWorld VM) (h : GteWorld.Reach anyGteOp w) (op : GteOp VM) (ha : w.allowed op) :
    ∃ w', w.step op = some w' ∧ GteWorld.Reach anyGteOp w' := by
  obtain ⟨w', e, -⟩ := GteWorld.step_spec w h.inv op ha
  exact ⟨w', e, .step w w' op h trivial ha e⟩

example : (GteDemo.run GteDemo.start GteDemo.ops).isSome = true := by decide

/-- **C33.** Enforcing a bound does not panic either, and never reports unsatisfiability. -/
theorem C33_enforce_total (w : GteWorld VM) (h : GteWorld.Reach anyGteOp w) (b : Nat) :
    (∃ A, w.gte.enforceUb b = .ok A) ∨ w.gte.enforceUb b = .err .notEncoded := by
  rcases h.inv.gte.enforceUb_cases b with ⟨-, e⟩ | ⟨-, e, -⟩ | ⟨-, -, A, e, -⟩
  · exact Or.inl ⟨_, e⟩
  · exact Or.inr e
  · exact Or.inl ⟨A, e⟩

/-- **C33.** The reported sum of weights is the sum over all added literals: the weighted sum of the assignment that
makes all of them true, if they are on different variables, and an upper bound on the weighted sum always. -/
theorem C33_weight_sum (w : GteWorld VM) (h : GteWorld.Reach anyGteOp w) : w.gte.weightSum = (w.ins.map (·.2)).sum := by
  rw [h.inv.gte.weightSum, wsumT_true]

example : ((GteDemo.run GteDemo.start GteDemo.ops).map fun w => w.gte.weightSum) = some 12 := by decide

/-- **C30** (generalized totalizer). After any history, a bound covered by an encode call since literals were last
added can be enforced; and it is refused if a literal with a weight of at most the bound is not included yet, in
particular directly after adding it. -/
theorem C30_gte_partial (w : GteWorld VM) (h : GteWorld.Reach anyGteOp w) (b : Nat) :
    (w.ub b → ∃ A, w.gte.enforceUb b = .ok A) ∧
    (b < (w.ins.map (·.2)).sum → (∃ x ∈ w.gte.litBuffer, x.2 ≤ b) → w.gte.enforceUb b = .err .notEncoded) := by
  have hi := h.inv
  rw [← wsumT_true]
  rcases hi.gte.enforceUb_cases b with ⟨hb', e⟩ | ⟨hb', e, hn⟩ | ⟨_, henc, A, e, -⟩
  · exact ⟨fun _ => ⟨_, e⟩, fun h0 => absurd h0 (by omega)⟩
  · exact ⟨fun hu => absurd (hi.ubEnc b hb' hu) hn, fun _ _ => e⟩
  · refine ⟨fun _ => ⟨_, e⟩, fun _ ⟨x, hx, hxb⟩ => ?_⟩
    have := henc.1 x hx
    omega

example : ((GteDemo.run GteDemo.start (GteDemo.ops.take 2)).map fun w => (w.gte.enforceUb 1, w.gte.litBuffer)) =
  some (.err .notEncoded, [(Lit.pos 0, 4), (Lit.pos 3, 3), (Lit.negOf 0, 1)]) := by decide

/-- **C30 is violated**: after adding a literal of weight 10, the bound 2 is not refused. The result is sound by C33:
the literal is part of the assumptions. -/
theorem C30_violated_gte_added :
    ((GteDemo.run GteDemo.start [.encodeUb ⟨.incl 2, .incl 2⟩, .add [(Lit.pos 3, 10)]]).map fun w => w.gte.enforceUb 2) =
      some (.ok [Lit.negOf 0, Lit.negOf 3, Lit.negOf 4]) := by decide

/-- **C30 is violated**: a bound that was encoded becomes unavailable, without literals being added, when a call of
`encode_ub_change` for a larger bound moves literals into the tree. -/
theorem C30_violated_gte_forgotten :
    ((GteDemo.run GteDemo.start [.encodeUb ⟨.incl 2, .incl 2⟩, .encodeUbChange ⟨.incl 5, .incl 5⟩]).map fun w =>
      w.gte.enforceUb 2) = some (.err .notEncoded) := by decide

/-- **C27** (generalized totalizer). After any history, the variables of all clauses are variables of input literals or
variables that the manager handed out to the encoder; input and handed out variables are disjoint; the number of
clauses is reported exactly; and without calls of `reserve` also the number of variables. -/
theorem C27_gte_partial (w : GteWorld VM) :
    (GteWorld.Reach anyGteOp w → (∀ c ∈ w.cls, ∀ l ∈ c, varsOf (w.ins.map (·.1)) l.var ∨ l.var ∈ w.own) ∧
      (∀ x ∈ w.ins, x.1.var ∉ w.own) ∧ w.gte.nClauses = w.cls.length) ∧
    (GteWorld.Reach (fun op => op ≠ .reserve) w → w.gte.nVars = w.own.length) := by
  constructor
  · intro h
    obtain ⟨ht, hc, -⟩ := h.inv
    refine ⟨fun c hcl l hl => ?_, fun x hx => ht.core.disj x.1 (List.mem_map.2 ⟨x, hx, rfl⟩), hc⟩
    rcases ht.core.vars c hcl l hl with ⟨j, x, h1, h2⟩ | ⟨i, k, v, x, h1, h2⟩
    · exact Or.inl ⟨x, ht.core.leafIn j x h1, h2⟩
    · exact Or.inr (by rw [← h2]; exact ht.core.outOwn i k v x h1)
  · intro h
    induction h with
    | start lits vm hn h => rfl
    | step w w' op h hr ha hs ih =>
      obtain ⟨w2, e, n⟩ := GteWorld.step_spec w h.inv op ha
      rw [e] at hs
      cases hs
      exact n.nVars hr ih

example : ((GteDemo.run GteDemo.start GteDemo.ops).map fun w => (w.gte.nVars, w.own.length, w.gte.nClauses, w.cls.length)) =
  some (18, 18, 25, 25) := by decide

/-- **C27 is violated** by `reserve` of the generalized totalizer: six variables are allocated, none reported. -/
theorem C27_violated_gte_reserve :
    ((GteDemo.run GteDemo.start [.reserve]).map fun w => (w.gte.nVars, w.own.length)) = some (0, 6) := by decide

/-- **C52 is violated**: in an encoder created from an iterator with a repeated literal only the last weight is kept,
so that the weighted sum 5 of the assignment making variable 0 true is not recognized as violating the bound 3. -/
theorem C52_violated_from_iter :
    (Gte.new [(Lit.pos 0, 3), (Lit.pos 0, 2)]).enforceUb 3 = .ok [] ∧
    wsum (fun _ => true) [(Lit.pos 0, 3), (Lit.pos 0, 2)] = 5 := by decide

/-- **C52** (adding). Literals added to an existing encoder count with the sum of all weights they were added with: the
state after adding a list of literals transmits their weighted sum, with repetitions. -/
theorem C52_add_partial (w w' : GteWorld VM) (h : GteWorld.Reach anyGteOp w) (lits : List (Lit × Nat))
    (hs : w.step (.add lits) = some w') (ha : w.allowed (.add lits)) :
    w'.gte.weightSum = w.gte.weightSum + (lits.map (·.2)).sum := by
  have h' : GteWorld.Reach anyGteOp w' := .step w w' _ h trivial ha hs
  rw [C33_weight_sum w' h', C33_weight_sum w h]
  simp only [GteWorld.step, Option.some.injEq] at hs
  subst hs
  simp

example : ((GteDemo.run GteDemo.start [.add [(Lit.pos 0, 3), (Lit.pos 0, 2)]]).map fun w => w.gte.litBuffer) =
  some [(Lit.pos 0, 9), (Lit.pos 1, 2), (Lit.pos 2, 2)] := by decide

/-- **C33 does not extend** to literals of weight zero: encoding panics. -/
theorem C33_zero_weight_panics :
    ((Gte.new [(Lit.pos 0, 0), (Lit.pos 1, 2)]).encodeUb ⟨.incl 0, .incl 0⟩ (⟨2⟩ : BasicVM) []).isNone = true := by decide

/-! ### C51 -/

namespace TotDb

theorem valsFrom_shift {db : Db} {id k v : Nat} (hk : 1 ≤ k) :
    v ∈ (db.node id).valsFrom k ↔ v ∈ (db.node id).valsFrom 1 ∧ k ≤ v := by
  cases db.node id with
  | leaf l => simp only [Node.valsFrom]; by_cases h : k ≤ 1 <;> simp [h] <;> omega
  | dummy => simp [Node.valsFrom]
  | unit lits d nl l r => simp only [Node.valsFrom, List.mem_range'_1]; omega
  | general lits d nl m l r =>
    simp only [Node.valsFrom, List.mem_filter, decide_eq_true_eq]
    exact ⟨fun ⟨h1, h2⟩ => ⟨⟨h1, by omega⟩, h2⟩, fun ⟨⟨h1, _⟩, h2⟩ => ⟨h1, h2⟩⟩

theorem mem_valsBelow {db : Db} (hw : db.WF) {id hi v : Nat} :
    v ∈ (db.node id).valsRange 0 hi ↔ v ∈ (db.node id).valsFrom 1 ∧ v < hi := by
  cases hn : db.node id with
  | leaf l => simp only [Node.valsFrom, Node.valsRange]; by_cases h : 1 < hi <;> simp [h] <;> omega
  | dummy => simp [Node.valsFrom, Node.valsRange]
  | unit lits d nl l r => simp only [Node.valsFrom, Node.valsRange, List.mem_range'_1]; omega
  | general lits d nl m l r =>
    rw [← hn, general_vals hw hn, hn]
    simp [Node.valsRange]

theorem valsBelow_sorted {db : Db} (hw : db.WF) (id hi : Nat) : ((db.node id).valsRange 0 hi).Pairwise (· < ·) := by
  cases hn : db.node id with
  | leaf l => simp only [Node.valsRange]; split <;> simp
  | dummy => simp [Node.valsRange]
  | unit lits d nl l r => exact List.pairwise_lt_range'
  | general lits d nl m l r =>
    have hok := hw.nodes id _ (Db.getElem?_node (Db.node_lt (by rw [hn]; intro h; cases h)))
    rw [hn] at hok
    obtain ⟨-, -, -, -, h5, -⟩ := hok
    exact h5.filter _

theorem getLast_max {l : List Nat} (h : l.Pairwise (· < ·)) {x : Nat} (hx : l.getLast? = some x) : x ∈ l ∧ ∀ y ∈ l, y ≤ x := by
  rcases List.eq_nil_or_concat l with rfl | ⟨l', y, rfl⟩
  · cases hx
  · rw [List.concat_eq_append] at *
    simp only [List.getLast?_append, List.getLast?_singleton, Option.some_or, Option.some.injEq] at hx
    subst hx
    refine ⟨by simp, fun z hz => ?_⟩
    rcases List.mem_append.1 hz with hz | hz
    · exact Nat.le_of_lt ((List.pairwise_append.1 h).2.2 z hz y (by simp))
    · simp at hz; omega

end TotDb

/-- The attained value of the root. -/
theorem root_attained {w : GteWorld VM} (h : GteWorld.Reach anyGteOp w) (hb : w.gte.litBuffer = []) {con : NodeCon}
    (hr : w.gte.root = some con) (a : Asg) : PlainCon w.gte.db con ∧ w.gte.db.WF ∧ ∃ u, wsum a w.ins = con.map u ∧
      (u = 0 ∨ u ∈ (w.gte.db.node con.id).valsFrom 1) := by
  have hi := h.inv.gte
  have hv := hi.val (trueLits a)
  rw [hb] at hv
  unfold Gte.rootVal at hv
  rw [hr, ← wsum_eq_wsumT a w.ins] at hv
  refine ⟨(hi.root con hr).1, hi.core.wf, value w.gte.db (trueLits a) con.id, ?_,
    (att_value hi.core.wf (trueLits a) con.id).mem_vals hi.core.wf⟩
  rw [← hv]
  rfl

/-- **C51.** If all literals are included, no weighted sum lies strictly between `b` and `next_higher(b)`. -/
theorem C51_next_higher (w : GteWorld VM) (h : GteWorld.Reach anyGteOp w) (hb : w.gte.litBuffer = []) (b : Nat) :
    b < w.gte.nextHigher b ∧ ∀ a, b < wsum a w.ins → w.gte.nextHigher b ≤ wsum a w.ins := by
  unfold Gte.nextHigher
  cases hr : w.gte.root with
  | none => exact ⟨by simp, fun a ha => ha⟩
  | some con =>
    have hall := root_attained h hb hr
    obtain ⟨hpc, hw, -⟩ := hall fun _ => true
    have hru := hpc.roundUp (b + 1)
    have h1 : 1 ≤ con.revMapRoundUp (b + 1) := by
      have := (hru 0).2 (by rw [NodeCon.map_zero]; omega)
      omega
    have hs := valsFrom_sorted hw con.id (con.revMapRoundUp (b + 1))
    have hm := fun v => valsFrom_shift (db := w.gte.db) (id := con.id) (v := v) h1
    simp only
    cases he : (w.gte.db.node con.id).valsFrom (con.revMapRoundUp (b + 1)) with
    | nil =>
      simp only [List.head?_nil]
      exact ⟨by omega, fun a ha => ha⟩
    | cons v vs =>
      simp only [List.head?_cons]
      rw [he] at hs hm
      refine ⟨?_, fun a ha => ?_⟩
      · have h2 := ((hm v).1 (by simp)).2
        rcases Nat.lt_or_ge b (con.map v) with h' | h'
        · exact h'
        · have := (hru v).2 (by omega); omega
      · obtain ⟨-, -, u, e, h0⟩ := hall a
        rw [e] at ha ⊢
        rcases h0 with rfl | h0
        · rw [NodeCon.map_zero] at ha; omega
        · have hge : con.revMapRoundUp (b + 1) ≤ u := by
            rcases Nat.lt_or_ge u (con.revMapRoundUp (b + 1)) with h' | h'
            · have := (hru u).1 h'; omega
            · exact h'
          apply con.map_mono
          rcases List.mem_cons.1 ((hm u).2 ⟨h0, hge⟩) with rfl | hmem
          · exact Nat.le_refl _
          · exact Nat.le_of_lt (List.rel_of_pairwise_cons hs hmem)

example : ((GteDemo.run GteDemo.start [.reserve]).map fun w => (w.gte.nextHigher 2, w.gte.nextHigher 3, w.gte.nextHigher 8)) =
  some (4, 4, 9) := by decide

/-- **C51.** If all literals are included, no weighted sum lies strictly between `next_lower(b)` and `b`. -/
theorem C51_next_lower (w : GteWorld VM) (h : GteWorld.Reach anyGteOp w) (hb : w.gte.litBuffer = []) (b : Nat) :
    w.gte.nextLower b ≤ b ∧ ∀ a, wsum a w.ins < b → wsum a w.ins ≤ w.gte.nextLower b := by
  unfold Gte.nextLower
  by_cases h0 : b = 0
  · rw [if_pos h0]
    exact ⟨Nat.zero_le _, fun a ha => by omega⟩
  rw [if_neg h0]
  cases hr : w.gte.root with
  | none => exact ⟨by simp, fun a ha => Nat.le_sub_one_of_lt ha⟩
  | some con =>
    have hall := root_attained h hb hr
    obtain ⟨hpc, hw, -⟩ := hall fun _ => true
    have hru := hpc.roundUp b
    simp only
    rw [hpc.offset]
    have hs := valsBelow_sorted hw con.id (con.revMapRoundUp b)
    have hm := fun v => mem_valsBelow hw (id := con.id) (hi := con.revMapRoundUp b) (v := v)
    cases he : ((w.gte.db.node con.id).valsRange 0 (con.revMapRoundUp b)).getLast? with
    | none =>
      refine ⟨Nat.zero_le _, fun a ha => ?_⟩
      obtain ⟨-, -, u, e, hu⟩ := hall a
      rw [e] at ha ⊢
      rcases hu with rfl | hu
      · rw [NodeCon.map_zero]
      · have := (hm u).2 ⟨hu, (hru u).2 ha⟩
        rw [List.getLast?_eq_none_iff] at he
        rw [he] at this
        cases this
    | some v =>
      obtain ⟨h1, h2⟩ := getLast_max hs he
      refine ⟨Nat.le_of_lt ((hru v).1 ((hm v).1 h1).2), fun a ha => ?_⟩
      obtain ⟨-, -, u, e, hu⟩ := hall a
      rw [e] at ha ⊢
      rcases hu with rfl | hu
      · rw [NodeCon.map_zero]; exact Nat.zero_le _
      · exact con.map_mono (h2 u ((hm u).2 ⟨hu, (hru u).2 ha⟩))

example : ((GteDemo.run GteDemo.start [.reserve]).map fun w => (w.gte.nextLower 2, w.gte.nextLower 6, w.gte.nextLower 20)) =
  some (0, 4, 8) := by decide

/-- Without the hypothesis that all literals are included, values are skipped: with literals of weights 2, 2 in the
encoding and 4 not yet, the weighted sum 6 is between 5 and `next_higher(4)` … `next_lower(8)` is 4. -/
theorem C51_needs_all_included :
    ((GteDemo.run GteDemo.start [.encodeUb ⟨.incl 2, .incl 2⟩]).map fun w => (w.gte.nextLower 8, w.gte.weightSum)) =
      some (4, 8) ∧
    wsum (fun v => v == 0 || v == 1) GteDemo.start.ins = 6 := by decide

end RustSat
