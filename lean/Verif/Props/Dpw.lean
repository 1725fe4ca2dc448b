import Verif.Lemmas.DpwWorld
/-
C35 for the dynamic polynomial watchdog, over all histories of operations; C27 and C30 for the dynamic polynomial
watchdog; C53 for `limit_range`.

C35 in full: for every history of encode calls, if `enforce_ub(b)` returns assumptions, the clauses and the assumptions
imply that the weighted sum (of the weights divided by the precision divisor, as documented for `set_precision`) is at
most `b`, and every assignment satisfying the bound can be extended to a model. This does not hold:
* after `reserve`, `enforce_ub` returns assumptions although nothing was encoded (`C35_violated_reserve`),
* with a single literal and a precision divisor the bound is compared wrongly (`C35_violated_single`),
* with a precision divisor above all weights encoding panics (`C35_violated_coarse_panics`),
* without literals and with a precision divisor `enforce_ub` panics (`C35_violated_empty_panics`),
* with a literal of weight zero creating the encoder panics (`C35_violated_zero_weight`).
* with a precision divisor, bounds of at least the sum of weights are not available (`C35_violated_large_bound`),
* if the precision is increased after the first encoding, setting the divisor to zero makes encoding panic
  (`C35_violated_extend_panics`), `encode_ub_change` does not extend the outputs that the new bounds need
  (`C35_violated_extend_missing`), and `encode_ub` makes bounds outside its range available that are not enforced
  (`C35_violated_extend_unsound`).
Everything is proved for histories that increase the precision after encoding, too, with the restrictions in
`DpwWorld.allowed`; correctness of bounds that are not in the range of an encode call is proved for histories without it
(`DpwWorld.noReserve`), because of `C35_violated_extend_unsound`.
-/
namespace RustSat
open TotDb (wsumT trueLits)
open Card
variable {VM : Type} [ManageVars VM] [LawfulVM VM]

/-- All operations. -/
abbrev anyDpwOp : DpwWorld VM → DpwOp VM → Prop := fun _ _ => True

namespace DpwDemo

/-- Deciding whether an operation is allowed. -/
def allowedB (w : DpwWorld VM) : DpwOp VM → Bool
  | .add l wt => decide (0 < wt) && decide (l.var < ManageVars.nUsed w.vm) && !w.own.contains l.var && !(w.ins.map (·.1)).contains l
  | .setPrecision d => (w.dpw.structure_.isNone && (decide (d ≤ 1) || w.ins.any fun x => decide (d ≤ x.2))) ||
      (match w.dpw.setPrecision d with | .err _ => true | _ => false) || decide (d = w.dpw.precDiv) ||
      (!w.dpw.isMaxPrecision && decide (1 ≤ d) && decide (d ≤ w.dpw.nextPrecision))
  | .useVars vm => decide (ManageVars.nUsed w.vm ≤ ManageVars.nUsed vm)
  | _ => true

/-- Deciding whether an operation neither is `reserve` nor increases the precision after the first encoding. -/
def noReserveB (w : DpwWorld VM) : DpwOp VM → Bool
  | .reserve => false
  | .setPrecision d => w.dpw.structure_.isNone || decide (d = w.dpw.precDiv)
  | _ => true

/-- The start of a history. -/
def start (lits : List (Lit × Nat)) (vm : VM) : Option (DpwWorld VM) :=
  (Dpw.new lits).map fun e => ⟨e, vm, [], lits, [], fun _ => False⟩

/-- Running a history; `none` if an operation panics or is not allowed. -/
def run (p : DpwWorld VM → DpwOp VM → Bool) : List (DpwOp VM) → Option (DpwWorld VM) → Option (DpwWorld VM)
  | [], w => w
  | op :: ops, w => run p ops (w.bind fun w => if allowedB w op && p w op then w.step op else none)

omit [LawfulVM VM] in
theorem run_none (p : DpwWorld VM → DpwOp VM → Bool) : ∀ ops, run (VM := VM) p ops none = none := by
  intro ops
  induction ops with
  | nil => rfl
  | cons op ops ih => exact ih

omit [LawfulVM VM] in
theorem allowed_of {w : DpwWorld VM} {op : DpwOp VM} (h : allowedB w op = true) : w.allowed op := by
  cases op with
  | setPrecision d =>
    unfold allowedB at h
    simp only [Bool.or_eq_true, Bool.and_eq_true, decide_eq_true_eq, List.any_eq_true, Option.isNone_iff_eq_none, Bool.not_eq_true'] at h
    unfold DpwWorld.allowed
    rcases h with ((h | h) | h) | h
    · exact Or.inl h
    · cases hx : w.dpw.setPrecision d with
      | err x => exact Or.inr (Or.inl ⟨x, hx⟩)
      | ok _ => rw [hx] at h; cases h
      | panic => rw [hx] at h; cases h
    · exact Or.inr (Or.inr (Or.inl h))
    · exact Or.inr (Or.inr (Or.inr ⟨h.1.1, h.1.2, h.2⟩))
  | _ => simp_all [allowedB, DpwWorld.allowed]

omit [LawfulVM VM] in
/-- The concrete histories used in examples lead to reachable states. -/
theorem run_reach {p : DpwWorld VM → DpwOp VM → Bool} {R : DpwWorld VM → DpwOp VM → Prop} (hp : ∀ w op, p w op = true → R w op) :
    ∀ (ops : List (DpwOp VM)) (w w' : DpwWorld VM), DpwWorld.Reach R w → run p ops (some w) = some w' → DpwWorld.Reach R w' := by
  intro ops
  induction ops with
  | nil => intro w w' h e; cases e; exact h
  | cons op ops ih =>
    intro w w' h e
    unfold run at e
    simp only [Option.bind_some] at e
    by_cases ha : (allowedB w op && p w op) = true
    · rw [if_pos ha] at e
      rw [Bool.and_eq_true] at ha
      cases hs : w.step op with
      | none => rw [hs, run_none] at e; cases e
      | some w1 =>
        rw [hs] at e
        refine ih w1 w' (.step w w1 op h (hp _ _ ha.2) (allowed_of ha.1) hs) e
    · rw [if_neg ha, run_none] at e; cases e

omit [LawfulVM VM] in
theorem start_reach {R : DpwWorld VM → DpwOp VM → Prop} {lits : List (Lit × Nat)} {vm : VM} (hn : (lits.map (·.1)).Nodup)
    (h : ∀ x ∈ lits, 0 < x.2 ∧ x.1.var < ManageVars.nUsed vm) {w : DpwWorld VM} (e : start lits vm = some w) : DpwWorld.Reach R w := by
  unfold start at e
  cases he : Dpw.new lits with
  | none => rw [he] at e; cases e
  | some d => rw [he] at e; cases e; exact .start lits vm d hn h he

/-- Inputs are the variables 0, 1, 2, 3 with weights 4, 2, 3, 1; four variables are in use. -/
def lits : List (Lit × Nat) := [(Lit.pos 0, 4), (Lit.pos 1, 2), (Lit.pos 2, 3), (Lit.pos 3, 1)]

/-- A concrete history at full precision. -/
def full : Option (DpwWorld BasicVM) := run noReserveB [.encodeUb ⟨.incl 3, .incl 4⟩, .useVars ⟨20⟩, .encodeUbChange ⟨.unbounded, .excl 6⟩]
  (start lits ⟨4⟩)

/-- A concrete history at precision 2. -/
def half : Option (DpwWorld BasicVM) := run noReserveB [.setPrecision 2, .encodeUb ⟨.incl 0, .incl 1⟩, .useVars ⟨20⟩, .encodeUbChange ⟨.unbounded, .incl 2⟩]
  (start lits ⟨4⟩)

/-- A concrete history in which variables are only reserved. -/
def reserved : Option (DpwWorld BasicVM) := run (fun _ _ => true) [.reserve] (start [(Lit.pos 0, 1), (Lit.pos 1, 1)] ⟨2⟩)

end DpwDemo

omit [ManageVars VM] [LawfulVM VM] in
private theorem wsum_def (a : Asg) (ins : List (Lit × Nat)) : wsum a ins = wsumT (trueLits a) ins := wsum_eq_wsumT a ins

/-- **C35** (part: the precision divisor must not be above all weights, see `DpwWorld.allowed`). Encoding and reserving
never panic. -/
theorem C35_no_panic_partial (w : DpwWorld VM) (h : DpwWorld.Reach anyDpwOp w) (op : DpwOp VM) (ha : w.allowed op) :
    ∃ w', w.step op = some w' := by
  obtain ⟨w', e, -⟩ := DpwWorld.step_spec (t := False) w (h.inv fun ht => ht.elim) op ha fun ht => ht.elim
  exact ⟨w', e⟩

/-- Creating an encoder from literals of positive weights does not panic. -/
theorem C35_new_partial (lits : List (Lit × Nat)) (hn : (lits.map (·.1)).Nodup) (h : ∀ x ∈ lits, 0 < x.2) :
    ∃ e, Dpw.new lits = some e := by
  unfold Dpw.new Dpw.ofMap
  rw [LitMap.ofList_nodup lits hn, if_neg (by
    intro h1
    obtain ⟨x, hx, h2⟩ := List.any_eq_true.1 h1
    have := h x hx
    simp at h2; omega)]
  exact ⟨_, rfl⟩

/-- Non-vacuity: the concrete histories do not panic. -/
example : DpwDemo.full.map (fun w => (w.cls.length, w.own.length)) = some (20, 14) := by decide
example : DpwDemo.half.map (fun w => (w.cls.length, w.own.length)) = some (9, 7) := by decide

/-- **C35** (part: with a precision divisor there must be at least two literals, and the bound must be below the sum of
weights). All bounds in the ranges of encode calls
are available: `enforce_ub(b)` returns assumptions such that every model of all clauses produced so far and these
assumptions has a weighted sum of at most `b`, and every assignment with a weighted sum of at most `b` becomes such a
model by changing only variables that were handed out to the encoder. This also holds if variables were reserved. -/
theorem C35_upper_bound_partial (w : DpwWorld VM) (h : DpwWorld.Reach anyDpwOp w) (hp : w.dpw.precDiv ≤ 1 ∨ 2 ≤ w.ins.length)
    (b : Nat) (hb : w.ub b) (hlt : w.dpw.precDiv ≤ 1 ∨ b < (w.ins.map (·.2)).sum) : ∃ A, w.dpw.enforceUb b = .ok A ∧
      (∀ m, ClauseSet.sat m w.cls → cubeSat m A → wsum m (divided w.dpw.precDiv w.ins) ≤ b) ∧
      (∀ a, wsum a (divided w.dpw.precDiv w.ins) ≤ b → ∃ m, (∀ v, v ∉ w.own → m v = a v) ∧ ClauseSet.sat m w.cls ∧ cubeSat m A) := by
  have hi : w.Inv False := h.inv fun ht => ht.elim
  simp only [wsum_def]
  rcases Nat.lt_or_ge b (wsumT (fun _ => true) w.ins) with hlt | hge
  · rcases Nat.lt_or_ge w.ins.length 2 with h1 | h2
    · -- a single literal at full precision
      rcases hi.inv.enforceUb_cases hp b with ⟨h3, h4⟩ | ⟨h4, h5, h6⟩ | ⟨s, l, h3, -, h4, hlt', h5⟩ | ⟨l, x, h3, h4, h5, h6⟩
      · exact ⟨_, h4, fun m _ _ => Nat.le_trans (wsumT_le _ _) h3, fun a ha => hi.inv.complete hp h4 ha⟩
      · cases hs : w.dpw.structure_ with
        | none => have := (h5 hs).1; omega
        | some s => exact absurd (hi.inv.two s hs) (by omega)
      · exact absurd (hi.inv.two s h3) (by omega)
      · exact ⟨_, h6, fun m hm hc => hi.inv.sound hp h6 (fun s _ hs => absurd (hi.inv.two s hs) (by omega)) hm hc,
          fun a ha => hi.inv.complete hp h6 ha⟩
    · have hH := hi.ub b hb hlt h2
      obtain ⟨A, hA⟩ := hi.inv.available hp hH
      exact ⟨A, hA, fun m hm hc => hi.inv.sound hp hA (hH.good hi.inv) hm hc, fun a ha => hi.inv.complete hp hA ha⟩
  · -- the bound is implied by the inputs
    have hp1 : w.dpw.precDiv ≤ 1 := by
      have ht : wsumT (fun _ => true) w.ins = (w.ins.map (·.2)).sum := by unfold wsumT; simp
      omega
    have hA : w.dpw.enforceUb b = .ok [] := by
      unfold Dpw.enforceUb
      rw [if_pos ⟨by rw [hi.inv.total]; exact hge, hp1⟩]
    refine ⟨[], hA, fun m _ _ => ?_, fun a ha => hi.inv.complete hp hA ha⟩
    exact Nat.le_trans (wsumT_le _ _) (Nat.le_trans (Dpw.divided_le _ _ _) hge)

/-- **C35** at full precision, for bounds in the ranges of encode calls. -/
theorem C35_upper_bound_full_precision (w : DpwWorld VM) (h : DpwWorld.Reach anyDpwOp w) (hp : w.dpw.precDiv ≤ 1)
    (b : Nat) (hb : w.ub b) : ∃ A, w.dpw.enforceUb b = .ok A ∧
      (∀ m, ClauseSet.sat m w.cls → cubeSat m A → wsum m w.ins ≤ b) ∧
      (∀ a, wsum a w.ins ≤ b → ∃ m, (∀ v, v ∉ w.own → m v = a v) ∧ ClauseSet.sat m w.cls ∧ cubeSat m A) := by
  have := C35_upper_bound_partial w h (Or.inl hp) b hb (Or.inl hp)
  rwa [Dpw.divided_one hp] at this

/-- Non-vacuity: the concrete histories are reachable, the bounds 0 to 5 (0 to 2) are covered and enforced by an output
and tares. -/
example (w : DpwWorld BasicVM) (e : DpwDemo.full = some w) : DpwWorld.Reach anyDpwOp w := by
  cases hs : DpwDemo.start DpwDemo.lits (⟨4⟩ : BasicVM) with
  | none => cases hs
  | some w0 =>
    unfold DpwDemo.full at e
    rw [hs] at e
    exact DpwDemo.run_reach (fun _ _ _ => trivial) _ w0 w (DpwDemo.start_reach (by decide) (by decide) hs) e

example : DpwDemo.full.map (fun w => (w.dpw.precDiv, w.dpw.enforceUb 3, w.dpw.enforceUb 4)) =
  some (1, .ok [Lit.negOf 14], .ok [Lit.negOf 17, Lit.pos 5, Lit.pos 4]) := by decide

example : DpwDemo.half.map (fun w => (w.dpw.precDiv, w.ins.length, w.dpw.enforceUb 1, w.dpw.enforceUb 2)) =
  some (2, 4, .ok [Lit.negOf 9], .ok [Lit.negOf 20, Lit.pos 4]) := by decide

/-- **C35** (part: no reservation of variables; with a precision divisor there must be at least two literals). Whenever
`enforce_ub(b)` returns assumptions, be the bound in the range of an encode call or not, it is correct. -/
theorem C35_any_bound_partial (w : DpwWorld VM) (h : DpwWorld.Reach DpwWorld.noReserve w) (hp : w.dpw.precDiv ≤ 1 ∨ 2 ≤ w.ins.length)
    (b : Nat) (A : List Lit) (hA : w.dpw.enforceUb b = .ok A) :
      (∀ m, ClauseSet.sat m w.cls → cubeSat m A → wsum m (divided w.dpw.precDiv w.ins) ≤ b) ∧
      (∀ a, wsum a (divided w.dpw.precDiv w.ins) ≤ b → ∃ m, (∀ v, v ∉ w.own → m v = a v) ∧ ClauseSet.sat m w.cls ∧ cubeSat m A) := by
  have hi : w.Inv True := h.inv fun _ _ _ hr => hr
  simp only [wsum_def]
  exact ⟨fun m hm hc => hi.inv.sound hp hA (fun s l hs hl _ => hi.good trivial s hs _ l hl) hm hc,
    fun a ha => hi.inv.complete hp hA ha⟩

/-- Non-vacuity: the bound 7 is not in the range of an encode call, but available; 8 is not. -/
example : DpwDemo.full.map (fun w => (w.dpw.enforceUb 7, w.dpw.enforceUb 8)) = some (.ok [Lit.negOf 17], .err .notEncoded) := by
  decide

/-- **C35** (part: with a precision divisor there must be at least two literals). In every history, even if variables were
reserved, the upper bound never excludes an assignment that satisfies it, and enforcing never panics. -/
theorem C35_complete_partial (w : DpwWorld VM) (h : DpwWorld.Reach anyDpwOp w) (hp : w.dpw.precDiv ≤ 1 ∨ 2 ≤ w.ins.length) (b : Nat) :
    w.dpw.enforceUb b ≠ .panic ∧ ∀ A, w.dpw.enforceUb b = .ok A → ∀ a, wsum a (divided w.dpw.precDiv w.ins) ≤ b →
      ∃ m, (∀ v, v ∉ w.own → m v = a v) ∧ ClauseSet.sat m w.cls ∧ cubeSat m A := by
  have hi : w.Inv False := h.inv fun ht => ht.elim
  simp only [wsum_def]
  refine ⟨fun hA => ?_, fun A hA a ha => hi.inv.complete hp hA ha⟩
  rcases hi.inv.enforceUb_cases hp b with ⟨-, h2⟩ | ⟨h2, -⟩ | ⟨_, _, -, -, -, -, h2⟩ | ⟨_, _, -, -, -, h2⟩ <;> rw [h2] at hA <;> cases hA

/-- **C35** (violation): after reserving variables, without any clauses, `enforce_ub(0)` returns an assumption; the
assignment making all inputs (variables 0 and 1) true satisfies everything. -/
theorem C35_violated_reserve : ∃ w, DpwDemo.reserved = some w ∧ w.cls = [] ∧ w.dpw.enforceUb 0 = .ok [Lit.negOf 2] ∧
    cubeSat (fun v => decide (v < 2)) [Lit.negOf 2] ∧ wsum (fun v => decide (v < 2)) w.ins = 2 := by
  refine ⟨_, rfl, rfl, by decide, by unfold cubeSat; decide, by decide⟩

/-- **C35** (violation): with a single literal of weight 10 and precision divisor 8, all bounds up to 9 exclude the
literal, although its divided weight is 1. -/
theorem C35_violated_single : ((DpwDemo.run (fun _ _ => true) [.setPrecision 8, .encodeUb ⟨.unbounded, .unbounded⟩]
    (DpwDemo.start [(Lit.pos 0, 10)] (⟨1⟩ : BasicVM))).map fun w => (w.dpw.enforceUb 1, divided w.dpw.precDiv w.ins)) =
  some (.ok [Lit.negOf 0], [(Lit.pos 0, 1)]) := by decide

/-- **C35** (violation): a precision divisor above all weights is accepted, and then encoding panics. -/
theorem C35_violated_coarse_panics : ((DpwDemo.start [(Lit.pos 0, 5), (Lit.pos 1, 3)] (⟨2⟩ : BasicVM)).map fun w =>
    (w.step (.setPrecision 16)).map fun w => (w.step (.encodeUb ⟨.unbounded, .unbounded⟩)).isSome) = some (some false) := by decide

/-- **C35** (violation): without literals and with a precision divisor enforcing panics. -/
theorem C35_violated_empty_panics : ((DpwDemo.start [] (⟨0⟩ : BasicVM)).bind fun w =>
    (w.step (.setPrecision 2)).map fun w => w.dpw.enforceUb 1) = some .panic := by decide

/-- **C35** (violation): a bound of at least the sum of weights in the range of an encode call is not available with a
precision divisor. -/
theorem C35_violated_large_bound : ((DpwDemo.run (fun _ _ => true) [.setPrecision 2, .encodeUb ⟨.incl 20, .incl 20⟩]
    (DpwDemo.start DpwDemo.lits (⟨4⟩ : BasicVM))).map fun w => w.dpw.enforceUb 20) = some (.err .notEncoded) := by decide

/-- **C35** (violation): if the precision is increased after the first encoding by setting the divisor to zero, encoding
panics. -/
theorem C35_violated_extend_panics : ((DpwDemo.run (fun _ _ => true) [.setPrecision 2, .encodeUb ⟨.unbounded, .unbounded⟩]
    (DpwDemo.start DpwDemo.lits (⟨4⟩ : BasicVM))).bind fun w => (w.step (.setPrecision 0)).map fun w =>
      (w.step (.encodeUbChange ⟨.unbounded, .unbounded⟩)).isSome) = some false := by decide

/-- **C35** (violation): after increasing the precision, a bound in the range of `encode_ub_change` is not available. -/
theorem C35_violated_extend_missing : ((DpwDemo.run (fun _ _ => true) [.setPrecision 4, .encodeUb ⟨.incl 0, .incl 0⟩]
    (DpwDemo.start [(Lit.pos 0, 8), (Lit.pos 1, 4)] (⟨2⟩ : BasicVM))).bind fun w => (w.step (.setPrecision 1)).bind fun w =>
      (w.step (.encodeUbChange ⟨.incl 8, .incl 8⟩)).map fun w => w.dpw.enforceUb 8) = some (.err .notEncoded) := by decide

/-- A concrete history in which the precision is increased after the first encoding. -/
def DpwDemo.extended : Option (DpwWorld BasicVM) :=
  DpwDemo.run (fun _ _ => true) [.setPrecision 2, .encodeUb ⟨.unbounded, .unbounded⟩, .setPrecision 1, .encodeUb ⟨.incl 2, .incl 2⟩]
    (DpwDemo.start DpwDemo.lits ⟨4⟩)

/-- A concrete history in which the precision is increased twice. -/
def DpwDemo.twice : Option (DpwWorld BasicVM) :=
  DpwDemo.run (fun _ _ => true) [.setPrecision 8, .encodeUb ⟨.incl 0, .incl 1⟩, .setPrecision 2, .setPrecision 6, .encodeUbChange ⟨.incl 5, .incl 6⟩,
      .setPrecision 1, .reserve, .useVars ⟨60⟩, .encodeUb ⟨.incl 12, .incl 13⟩]
    (DpwDemo.start [(Lit.pos 0, 9), (Lit.pos 1, 6), (Lit.pos 2, 5), (Lit.pos 3, 3)] ⟨4⟩)

/-- Non-vacuity: bounds are covered and available after increasing the precision. -/
example (w : DpwWorld BasicVM) (e : DpwDemo.twice = some w) : DpwWorld.Reach anyDpwOp w := by
  cases hs : DpwDemo.start [(Lit.pos 0, 9), (Lit.pos 1, 6), (Lit.pos 2, 5), (Lit.pos 3, 3)] (⟨4⟩ : BasicVM) with
  | none => cases hs
  | some w0 =>
    unfold DpwDemo.twice at e
    rw [hs] at e
    exact DpwDemo.run_reach (fun _ _ _ => trivial) _ w0 w (DpwDemo.start_reach (by decide) (by decide) hs) e

example : DpwDemo.twice.map (fun w => (w.dpw.precDiv, w.dpw.enforceUb 12, w.dpw.enforceUb 13)) =
  some (1, .ok [Lit.negOf 18, Lit.pos 5, Lit.pos 60], .ok [Lit.negOf 18, Lit.pos 5]) := by decide_cbv

example : DpwDemo.twice.map (fun w => (w.cls.length, w.own.length, w.dpw.nClauses, w.dpw.isMaxPrecision)) = some (60, 27, 60, true) := by decide_cbv

/-- **C35** (violation): after increasing the precision, `enforce_ub(4)` returns assumptions although 4 is not in the
range of `encode_ub`; the assignment making the inputs of weights 2 and 3 true satisfies everything. -/
theorem C35_violated_extend_unsound : ∃ w, DpwDemo.extended = some w ∧
    w.dpw.enforceUb 4 = .ok [Lit.negOf 10, Lit.pos 4, Lit.pos 11] ∧
    ClauseSet.sat (fun v => !([0, 3, 10].contains v)) w.cls ∧
    cubeSat (fun v => !([0, 3, 10].contains v)) [Lit.negOf 10, Lit.pos 4, Lit.pos 11] ∧
    wsum (fun v => !([0, 3, 10].contains v)) (divided w.dpw.precDiv w.ins) = 5 := by
  refine ⟨_, rfl, by decide, ?_, by unfold cubeSat; decide, by decide⟩
  unfold ClauseSet.sat Clause.sat
  decide

/-- **C30** for the dynamic polynomial watchdog (part): after increasing the precision, all bounds that are not implied by
the inputs are refused until the next encoding. -/
theorem C30_dpw_precision_refused_partial (w w' : DpwWorld VM) (h : DpwWorld.Reach anyDpwOp w) (d : Nat) (hs : w.dpw.structure_ ≠ none)
    (hm : w.dpw.isMaxPrecision = false) (hd : 1 ≤ d ∧ d ≤ w.dpw.nextPrecision) (he : w.dpw.setPrecision d = .ok w'.dpw)
    (b : Nat) (hb : b < (w.ins.map (·.2)).sum) : w'.dpw.enforceUb b = .err .notEncoded := by
  have hi : w.Inv False := h.inv fun ht => ht.elim
  have ht : wsumT (fun _ => true) w.ins = (w.ins.map (·.2)).sum := by unfold wsumT; simp
  obtain ⟨y, qt, hwq⟩ := List.exists_cons_of_ne_nil (l := w.dpw.weightQueue) (by simpa [Dpw.isMaxPrecision] using hm)
  obtain ⟨s, hs⟩ := Option.ne_none_iff_exists'.1 hs
  have h4 := Dpw.nextPrecision_le (e := w.dpw) hwq ((hi.inv.after s hs).queue y (by rw [hwq]; simp)).1
  unfold Dpw.setPrecision at he
  split at he
  · cases he
  · split at he
    · cases he
    · have he := (Res.ok.inj he).symm
      rw [he]
      unfold Dpw.enforceUb
      simp only
      rw [if_neg (by rw [hi.inv.total]; omega), hs]
      simp only
      rw [if_pos ⟨by rw [hwq]; simp, by rw [hwq]; show d ≤ y.1; omega⟩]

/-- **C35** (increasing the precision). As soon as a bound is encoded, `next_precision` is a power of two that `set_precision` accepts and that is
finer than the current precision, until the precision is maximal; and then no weight is rounded. -/
theorem C35_next_precision (w : DpwWorld VM) (h : DpwWorld.Reach anyDpwOp w) (b : Nat) (hb : w.ub b) (hlt : b < (w.ins.map (·.2)).sum)
    (h2 : 2 ≤ w.ins.length) :
    (∃ k, w.dpw.nextPrecision = 2 ^ k) ∧
    (w.dpw.isMaxPrecision = false → w.dpw.nextPrecision < w.dpw.precDiv ∧ ∃ e, w.dpw.setPrecision w.dpw.nextPrecision = .ok e) ∧
    (w.dpw.isMaxPrecision = true → w.dpw.nextPrecision = 1 ∧ ∀ a, wsum a w.ins = max w.dpw.precDiv 1 * wsum a (divided w.dpw.precDiv w.ins)) := by
  have hi : w.Inv False := h.inv fun ht => ht.elim
  have ht : wsumT (fun _ => true) w.ins = (w.ins.map (·.2)).sum := by unfold wsumT; simp
  obtain ⟨s, hs, hp, -⟩ := hi.ub b hb (by omega) h2
  have ha := hi.inv.after s hs
  obtain ⟨k, hk⟩ := Dpw.nextPrecision_pow w.dpw
  refine ⟨⟨k, hk⟩, fun hm => ?_, fun hm => ⟨?_, fun a => ?_⟩⟩
  · obtain ⟨y, qt, hwq⟩ := List.exists_cons_of_ne_nil (l := w.dpw.weightQueue) (by simpa [Dpw.isMaxPrecision] using hm)
    obtain ⟨h3, h5⟩ := ha.queue y (by rw [hwq]; simp)
    have h4 := Dpw.nextPrecision_le (e := w.dpw) hwq h3
    rw [hp] at h5
    have h0 : 0 < w.dpw.precDiv := Nat.pos_of_ne_zero fun h0 => by
      rw [h0] at h5
      simp [digits] at h5
      omega
    rw [← Dpw.prec_eq hi.inv.pow h0] at h5
    have hlt' : w.dpw.nextPrecision < w.dpw.precDiv := by omega
    refine ⟨hlt', ?_⟩
    unfold Dpw.setPrecision
    rw [if_neg (by
      rw [hk]
      simp only [not_not]
      right
      unfold isPow2
      rw [Nat.and_two_pow_sub_one_eq_mod, Nat.mod_self]
      rfl), if_neg (by omega)]
    exact ⟨_, rfl⟩
  · unfold Dpw.nextPrecision
    rw [if_pos (by simpa [Dpw.isMaxPrecision] using hm)]
  · have hfull := ha.full (by simpa [Dpw.isMaxPrecision] using hm)
    rw [hp] at hfull
    have hmax : max w.dpw.precDiv 1 = 2 ^ (digits w.dpw.precDiv 2 - 1) := by
      by_cases h1 : w.dpw.precDiv ≤ 1
      · rcases (by omega : w.dpw.precDiv = 0 ∨ w.dpw.precDiv = 1) with h0 | h0 <;> rw [h0] <;> decide
      · rw [← Dpw.prec_eq hi.inv.pow (by omega)]
        omega
    rw [Dpw.divided_eq hi.inv.pow, hmax]
    generalize 2 ^ (digits w.dpw.precDiv 2 - 1) = d at hfull
    generalize w.ins = ins at hfull
    rw [wsum_eq_wsumT, wsum_eq_wsumT]
    unfold wsumT
    induction ins with
    | nil => simp
    | cons x l ih =>
      have h6 := Nat.div_add_mod x.2 d
      rw [hfull x List.mem_cons_self] at h6
      simp only [List.map_cons, List.sum_cons, Nat.mul_add]
      rw [← ih fun y hy => hfull y (List.mem_cons_of_mem _ hy)]
      congr 1
      split
      · omega
      · rfl

/-- Non-vacuity: increasing the precision in the concrete history. -/
example : DpwDemo.half.map (fun w => (w.dpw.structure_.isSome, w.dpw.isMaxPrecision, w.dpw.nextPrecision)) = some (true, false, 1) := by decide

example : ∃ w, DpwDemo.half = some w ∧ w.ub 1 ∧ 2 ≤ w.ins.length ∧ 1 < (w.ins.map (·.2)).sum ∧ w.dpw.isMaxPrecision = false :=
  ⟨_, rfl, Or.inl (Or.inr (by simp [URange.contains])), by decide, by decide, by decide⟩

example : DpwDemo.half.map (fun w => (w.dpw.enforceUb 1, (w.step (.setPrecision 1)).map fun w => w.dpw.enforceUb 1)) =
  some (.ok [Lit.negOf 9], some (.err .notEncoded)) := by decide

/-- **C35** (violation): creating an encoder with a literal of weight zero panics. -/
theorem C35_violated_zero_weight : (Dpw.new [(Lit.pos 0, 0), (Lit.pos 1, 1)]).isNone = true := by decide

/-- **C27** for the dynamic polynomial watchdog (part: reserved variables are not counted). -/
theorem C27_dpw_stats_partial (w : DpwWorld VM) :
    (DpwWorld.Reach anyDpwOp w → w.dpw.nClauses = w.cls.length) ∧
    (DpwWorld.Reach DpwWorld.notReserve w → w.dpw.nVars = w.own.length) :=
  ⟨fun h => (h.inv fun (ht : False) => ht.elim).clauses, fun h => h.vars⟩

/-- Non-vacuity: the concrete history. -/
example : DpwDemo.full.map (fun w => (w.dpw.nVars, w.own.length, w.dpw.nClauses, w.cls.length)) = some (14, 14, 20, 20) := by decide
example : (DpwDemo.run (fun _ op => match op with | .reserve => false | _ => true)
      [.setPrecision 2, .encodeUb ⟨.incl 0, .incl 1⟩, .setPrecision 1, .encodeUb ⟨.incl 3, .incl 4⟩] (DpwDemo.start DpwDemo.lits ⟨4⟩)).map
    (fun w : DpwWorld BasicVM => (w.dpw.nVars, w.own.length)) = some (14, 14) := by decide_cbv

/-- **C27** (violation): reserved variables are not counted. -/
theorem C27_violated_dpw_reserve : DpwDemo.reserved.map (fun w => (w.dpw.nVars, w.own.length)) = some (0, 2) := by decide

/-- **C27** for the dynamic polynomial watchdog: all variables are fresh, and clauses use input variables and fresh
variables only. -/
theorem C27_dpw_vars (w : DpwWorld VM) (h : DpwWorld.Reach anyDpwOp w) :
    (∀ v ∈ w.own, v < ManageVars.nUsed w.vm ∧ ∀ x ∈ w.ins, x.1.var ≠ v) ∧
    ∀ c ∈ w.cls, ∀ l ∈ c, (∃ x ∈ w.ins, x.1.var = l.var) ∨ l.var ∈ w.own := by
  obtain ⟨h1, h2, h3⟩ := (h.inv fun (ht : False) => ht.elim).inv.insOwn
  exact ⟨fun v hv => ⟨h1 v hv, fun x hx e => (h2 x hx).2 (by rw [e]; exact hv)⟩, h3⟩

/-- **C30** for the dynamic polynomial watchdog (part): before the first encoding or reservation, bounds that are not
implied by the inputs are refused. Bounds in the range of encode calls are available (`C35_upper_bound_partial`), and
other bounds that are accepted are correct (`C35_any_bound_partial`). -/
theorem C30_dpw_refused_partial (w : DpwWorld VM) (h : DpwWorld.Reach anyDpwOp w) (hs : w.dpw.structure_ = none)
    (h2 : 2 ≤ w.ins.length) (b : Nat) (hb : b < (w.ins.map (·.2)).sum) : w.dpw.enforceUb b = .err .notEncoded := by
  have hi : w.Inv False := h.inv fun ht => ht.elim
  have ht : wsumT (fun _ => true) w.ins = (w.ins.map (·.2)).sum := by unfold wsumT; simp
  unfold Dpw.enforceUb
  rw [if_neg (by rw [hi.inv.total]; omega), hs, hi.inv.lits]
  match hl : w.ins, h2 with
  | x :: y :: rest, _ => simp

/-- Non-vacuity: a new encoder refuses the bound 9. -/
example : (DpwDemo.start DpwDemo.lits (⟨4⟩ : BasicVM)).map (fun w => (w.dpw.structure_.isNone, w.ins.length, w.dpw.enforceUb 9, w.dpw.enforceUb 10)) =
  some (true, 4, .err .notEncoded, .ok []) := by decide

/-- **C30** (violation): after reserving variables, bounds are not refused although nothing is encoded. -/
theorem C30_violated_dpw_reserve : DpwDemo.reserved.map (fun w => (w.cls, w.dpw.enforceUb 0)) = some ([], .ok [Lit.negOf 2]) := by decide

/-- **C54** for the dynamic polynomial watchdog: `coarse_ub(b)` is at most `b`, in every history. -/
theorem C54_coarse_ub_le (w : DpwWorld VM) (b : Nat) : w.dpw.coarseUb b ≤ b := by
  unfold Dpw.coarseUb
  cases hs : w.dpw.structure_ with
  | none => exact Nat.le_refl _
  | some s =>
    simp only
    split
    · exact Nat.le_refl _
    · split
      · exact Nat.le_refl _
      · have := Nat.div_mul_le_self (b + 1) (2 ^ s.outputPower)
        omega

/-- **C54**: unless it is `b` itself, `coarse_ub(b)` needs at most one assumption, and applying `coarse_ub` again changes
nothing. -/
theorem C54_coarse_ub_easy (w : DpwWorld VM) (h : DpwWorld.Reach anyDpwOp w) (hp : w.dpw.precDiv ≤ 1 ∨ 2 ≤ w.ins.length) (b : Nat) :
    w.dpw.coarseUb (w.dpw.coarseUb b) = w.dpw.coarseUb b ∧
    (w.dpw.coarseUb b = b ∨ ∀ A, w.dpw.enforceUb (w.dpw.coarseUb b) = .ok A → A.length ≤ 1) := by
  have hi : w.Inv False := h.inv fun ht => ht.elim
  cases hs : w.dpw.structure_ with
  | none => simp [Dpw.coarseUb, hs]
  | some s =>
    have hN := Nat.two_pow_pos s.tares.length
    have hout : s.outputPower = s.tares.length := rfl
    by_cases h1 : 2 ^ s.tares.length = 1
    · simp [Dpw.coarseUb, hs, hout, h1]
    · by_cases h2 : b < 2 ^ s.tares.length
      · have : w.dpw.coarseUb b = b := by
          unfold Dpw.coarseUb; rw [hs]; simp only; rw [hout, if_neg h1, if_pos h2]
        rw [this]; exact ⟨this, Or.inl rfl⟩
      · have hc : ∀ c, ¬ c < 2 ^ s.tares.length → w.dpw.coarseUb c = (c + 1) / 2 ^ s.tares.length * 2 ^ s.tares.length - 1 := by
          intro c hc
          unfold Dpw.coarseUb; rw [hs]; simp only; rw [hout, if_neg h1, if_neg hc]
        rw [hc b h2]
        have hk : 1 ≤ (b + 1) / 2 ^ s.tares.length := (Nat.le_div_iff_mul_le hN).2 (by omega)
        generalize hkk : (b + 1) / 2 ^ s.tares.length = k at hk
        obtain ⟨k, rfl⟩ : ∃ j, k = j + 1 := ⟨k - 1, by omega⟩
        have hmul : (k + 1) * 2 ^ s.tares.length = 2 ^ s.tares.length * k + 2 ^ s.tares.length := by
          rw [Nat.add_mul, Nat.one_mul, Nat.mul_comm]
        constructor
        · by_cases h3 : (k + 1) * 2 ^ s.tares.length - 1 < 2 ^ s.tares.length
          · unfold Dpw.coarseUb; rw [hs]; simp only; rw [hout, if_neg h1, if_pos h3]
          · rw [hc _ h3, Nat.sub_add_cancel (by omega), Nat.mul_div_cancel _ hN]
        · right
          intro A hA
          rcases hi.inv.enforceUb_cases hp ((k + 1) * 2 ^ s.tares.length - 1) with ⟨-, h3⟩ | ⟨h3, -⟩ | ⟨s', l, h3, -, h4, hlt, h5⟩ | ⟨l, x, h3, h4, h5, h6⟩
          · rw [h3] at hA; cases hA; simp
          · rw [h3] at hA; cases hA
          · rw [hs] at h3; cases h3
            rw [h5] at hA; cases hA
            have hd : ((k + 1) * 2 ^ s.tares.length - 1) / 2 ^ s.tares.length = k := by
              apply Nat.div_eq_of_lt_le
              · rw [Nat.mul_comm]; omega
              · show _ < (k + 1) * 2 ^ s.tares.length; omega
            rw [hd]
            simp [Dpw.tareLoop_self]
          · rw [h6] at hA; cases hA; simp

/-- Non-vacuity: in the concrete history, 6 is made coarser to 3, which is enforced by one assumption. -/
example : DpwDemo.full.map (fun w => (w.dpw.coarseUb 6, w.dpw.enforceUb 3, w.dpw.enforceUb 6)) =
  some (3, .ok [Lit.negOf 14], .ok [Lit.negOf 17, Lit.pos 4]) := by decide

/-- **C53** (part: full precision, and bounds below the sum of weights). The clauses of `limit_range` exclude no assignment
whose weighted sum is in the range, even together with the assumptions of an upper bound in the range. -/
theorem C53_limit_range_partial (w : DpwWorld VM) (h : DpwWorld.Reach anyDpwOp w) (hp : w.dpw.precDiv ≤ 1)
    (hm : w.dpw.isMaxPrecision = true) (r : URange) :
    ∃ lim, w.dpw.limitRange r = some lim ∧ ∀ (b : Nat) (a : Asg), r.contains b → b < (w.ins.map (·.2)).sum →
      r.contains (wsum a w.ins) → wsum a w.ins ≤ b →
      ∃ m, (∀ v, v ∉ w.own → m v = a v) ∧ ClauseSet.sat m w.cls ∧ ClauseSet.sat m lim ∧
        ∀ A, w.dpw.enforceUb b = .ok A → cubeSat m A := by
  have hi : w.Inv False := h.inv fun ht => ht.elim
  have ht : wsumT (fun _ => true) w.ins = (w.ins.map (·.2)).sum := by unfold wsumT; simp
  obtain ⟨lim, h1, h2⟩ := hi.inv.limitRange hm r
  rw [Dpw.divided_one hp] at h2
  refine ⟨lim, h1, fun b a hb hlt ha hab => ?_⟩
  rw [wsum_def] at ha hab
  exact h2 b a hb (by rw [hi.inv.total]; omega) ha hab (Or.inl hp)

/-- Non-vacuity: the concrete history is at full precision, and limiting the range to 2..=4 yields a clause. -/
example : DpwDemo.full.map (fun w => (w.dpw.isMaxPrecision, w.dpw.limitRange ⟨.incl 2, .incl 4⟩)) =
  some (true, some [[Lit.negOf 17]]) := by decide

/-- **C53** (violation): the unlimited range excludes the assignment making all inputs true. -/
theorem C53_violated_all_true : ∃ w, DpwDemo.run (fun _ _ => true) [.encodeUb ⟨.unbounded, .unbounded⟩]
      (DpwDemo.start [(Lit.pos 0, 1), (Lit.pos 1, 1)] (⟨2⟩ : BasicVM)) = some w ∧
    ∃ lim, w.dpw.limitRange ⟨.unbounded, .unbounded⟩ = some lim ∧
    ∀ m : Asg, ClauseSet.sat m w.cls → ClauseSet.sat m lim → ¬ (m 0 = true ∧ m 1 = true) := by
  refine ⟨_, rfl, _, rfl, fun m h1 h2 h3 => ?_⟩
  obtain ⟨l, hl, h5⟩ := h1 [Lit.negOf 0, Lit.negOf 1, Lit.pos 3] (by decide)
  obtain ⟨l', hl', h6⟩ := h2 [Lit.negOf 3] (by decide)
  simp only [List.mem_cons, List.not_mem_nil, or_false] at hl hl'
  subst hl'
  rw [Lit.holds_negOf] at h6
  rcases hl with rfl | rfl | rfl
  · rw [Lit.holds_negOf, h3.1] at h5; cases h5
  · rw [Lit.holds_negOf, h3.2] at h5; cases h5
  · rw [Lit.holds_pos] at h5; rw [h5] at h6; cases h6

/-- **C53** (violation): below full precision, the range 4..=6 for the weights 4, 2, 2, 1 and precision divisor 2 forces
the literal of weight 4, although the two literals of weight 2 have the sum 4, too. -/
theorem C53_violated_precision : ((DpwDemo.run (fun _ _ => true) [.setPrecision 2, .encodeUb ⟨.unbounded, .unbounded⟩]
      (DpwDemo.start [(Lit.pos 0, 4), (Lit.pos 1, 2), (Lit.pos 2, 2), (Lit.pos 3, 1)] (⟨4⟩ : BasicVM))).map fun w =>
    (w.dpw.limitRange ⟨.incl 4, .incl 6⟩, wsum (fun v => v == 1 || v == 2) w.ins)) = some (some [[Lit.pos 7], [Lit.pos 0]], 4) := by
  decide

end RustSat
