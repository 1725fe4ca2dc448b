import Verif.Lemmas.Capi
import Verif.Props.Am1
/-
C84: the C-API of the encodings.
-/
namespace RustSat
namespace Capi
open Card
open TotDb (wsumT)

/-! ### Concrete programs -/

namespace CapiDemo

/-- `allowed`, decidably. -/
def allowedB (w : World) : Call → Bool
  | .add lit wt => decide (lit = 0) || (decide (lit.natAbs ≤ w.nVars) && !w.own.contains lit.natAbs && decide (0 < wt) &&
      match w.obj with
      | .tot _ => decide (wt = 1)
      | .dpw _ => !(w.ins.map (·.1)).contains lit
      | _ => true)
  | .reserve => match w.obj with | .adder _ => false | _ => true
  | .encodeUb lo hi => decide (lo ≤ hi) && decide (hi < sizeMax) && (match w.obj with | .adder _ => !w.lbUsed | _ => true)
  | .encodeLb lo hi => decide (lo ≤ hi) && decide (hi < sizeMax) && (match w.obj with | .tot _ => true | .adder _ => true | _ => false)
  | .setPrecision d =>
    match w.obj with
    | .dpw e => (e.structure_.isNone && (decide (d ≤ 1) || w.ins.any fun x => decide (d ≤ x.2))) || decide ((w.obj.setPrecision d).1 ≠ .ok) ||
        decide (d = w.div) || (!e.isMaxPrecision && decide (1 ≤ d) && decide (d ≤ e.nextPrecision))
    | _ => false
  | .useVars n => decide (w.nVars ≤ n)
  | .rehash _ => false

theorem allowedB_sound {w : World} {c : Call} (h : allowedB w c = true) : w.allowed c := by
  cases c with
  | add lit wt =>
    simp only [allowedB, Bool.or_eq_true, Bool.and_eq_true, decide_eq_true_eq] at h
    refine h.imp id fun h => ⟨h.1.1.1, fun hm => ?_, h.1.2, ?_⟩
    · have := h.1.1.2
      rw [List.contains_iff_mem.2 hm] at this
      cases this
    have h2 := h.2
    cases ho : w.obj with
    | tot t => rw [ho] at h2; exact of_decide_eq_true h2
    | dpw d => rw [ho] at h2; simpa using h2
    | gte g => trivial
    | adder a => trivial
  | reserve => unfold World.allowed; cases ho : w.obj <;> simp [allowedB, ho] at h ⊢
  | encodeUb lo hi =>
    unfold World.allowed
    cases ho : w.obj <;> simp [allowedB, ho] at h ⊢ <;> first | exact h | exact ⟨h.1.1, h.1.2, h.2⟩
  | encodeLb lo hi =>
    unfold World.allowed
    cases ho : w.obj <;> simp [allowedB, ho] at h ⊢ <;> exact h
  | setPrecision d =>
    unfold World.allowed
    cases ho : w.obj <;> simp [allowedB, ho] at h ⊢
    rcases h with ((h | h) | h) | h
    · exact .inl h
    · exact .inr (.inl h)
    · exact .inr (.inr (.inl h))
    · exact .inr (.inr (.inr ⟨h.1.1, h.1.2, h.2⟩))
  | useVars n => exact (of_decide_eq_true h : w.nVars ≤ n)
  | rehash b => cases h

def run (bld : Build) (w : World) : List Call → Option World
  | [] => some w
  | c :: cs => if allowedB w c then (w.step bld c).bind fun w => run bld w cs else none

theorem run_reach {bld : Build} : ∀ (cs : List Call) (w w' : World), World.Reach bld w → run bld w cs = some w' → World.Reach bld w' := by
  intro cs
  induction cs with
  | nil => intro w w' h e; cases e; exact h
  | cons c cs ih =>
    intro w w' h e
    unfold run at e
    by_cases ha : allowedB w c = true
    · rw [if_pos ha] at e
      cases hs : w.step bld c with
      | none => rw [hs] at e; cases e
      | some w1 => rw [hs] at e; exact ih w1 w' (.step w w1 c h (allowedB_sound ha) hs) e
    · rw [if_neg ha] at e; cases e

/-- Adds of three literals, the last of them on a new variable. -/
def adds (a b c : Nat) : List Call := [.add 1 a, .add (-2) b, .add 0 5, .useVars 3, .add 3 c]

def tot : Option World := run .debug (World.start .totNew 2) (adds 1 1 1 ++ [.encodeUb 0 1, .encodeLb 2 3, .useVars 20, .encodeUb 1 2])
def gte : Option World := run .debug (World.start .gteNew 2) (adds 4 2 3 ++ [.reserve, .encodeUb 2 4])
def adder : Option World := run .debug (World.start .adderNew 2) (adds 4 2 3 ++ [.encodeUb 2 4, .encodeLb 6 6])
def dpw : Option World := run .debug (World.start .dpwNew 2) (adds 4 2 3 ++ [.setPrecision 2, .encodeUb 0 2])
/-- The precision is increased after encoding. -/
def dpwFiner : Option World :=
  run .debug (World.start .dpwNew 2) (adds 4 2 3 ++ [.setPrecision 2, .encodeUb 0 2, .setPrecision 1, .encodeUb 4 5])

end CapiDemo

/-! ### Histories -/

/-- **C84.** Allowed calls never panic, i.e., never abort the program. -/
theorem C84_no_abort {bld : Build} (w : World) (h : World.Reach bld w) (c : Call) (ha : w.allowed c) :
    ∃ w', w.step bld c = some w' ∧ World.Reach bld w' := by
  obtain ⟨w', e, -⟩ := World.step_sim (bld := bld) h.sim c ha
  exact ⟨w', e, .step w w' c h ha e⟩

/-- Non-vacuity: all concrete programs consist of allowed calls. -/
example : (CapiDemo.tot.isSome && CapiDemo.gte.isSome && CapiDemo.adder.isSome && CapiDemo.dpw.isSome && CapiDemo.dpwFiner.isSome) = true := by decide

/-- **C84.** `*_add` refuses zero (and integers that no `c_int` has) with `InvalidLiteral`, without changing the encoder,
and accepts all other literals; only the dynamic polynomial watchdog reports `InvalidState`, without changing the
encoder. -/
theorem C84_add (o : Obj) (lit : Int) (wt : Nat) (hlit : lit.natAbs ≤ 2 ^ 31) :
    ((o.add lit wt).1 = .invalidLiteral ↔ lit = 0) ∧
    ((o.add lit wt).1 ≠ .ok → (o.add lit wt).2 = o) ∧
    ((o.add lit wt).1 = .ok ∨ (o.add lit wt).1 = .invalidLiteral ∨
      ((o.add lit wt).1 = .invalidState ∧ ∃ d, o = .dpw d ∧ d.structure_.isSome = true)) := by
  by_cases h0 : lit = 0
  · subst h0
    have : o.add 0 wt = (.invalidLiteral, o) := rfl
    rw [this]
    simp
  · have hf : Lit.fromIpasir lit = .ok (Lit.mk' (lit.natAbs - 1) (decide (lit < 0))) := by
      unfold Lit.fromIpasir Lit.newWithError
      rw [if_neg h0, if_neg (by unfold maxVarIdx u32Max; omega)]
    unfold Obj.add
    rw [hf]
    cases o with
    | tot t => simp [h0]
    | gte t => simp [h0]
    | adder t => simp [h0]
    | dpw d =>
      simp only
      cases hx : d.addInput (Lit.mk' (lit.natAbs - 1) (decide (lit < 0))) wt with
      | some d' => simp [h0]
      | none =>
        refine ⟨by simp [h0], fun _ => rfl, Or.inr (Or.inr ⟨rfl, d, rfl, ?_⟩)⟩
        unfold Dpw.addInput at hx
        split at hx
        · assumption
        · cases hx

/-- Non-vacuity: the three return codes. -/
example : ((Obj.totNew.add 0 1).1, (Obj.gteNew.add (-3) 1).1, CapiDemo.dpw.map fun w => (w.obj.add 4 1).1) =
    (.invalidLiteral, .ok, some .invalidState) := by decide

theorem weights_eq {w : World} (h : w.div ≤ 1) : w.weights = w.ins := by
  unfold World.weights
  rw [show max w.div 1 = 1 by omega]
  simp

theorem weights_divided {w : World} {ins : List (Lit × Nat)} (h : w.ins = ins.map fun x => (ipasir x.1, x.2)) :
    w.weights = (divided w.div ins).map fun x => (ipasir x.1, x.2) := by
  unfold World.weights divided
  rw [h, List.map_map, List.map_map]
  rfl

theorem wsum_ones (a : Asg) (ins : List Lit) : wsum a (ins.map fun l => (l, 1)) = countTrue a ins := by
  induction ins with
  | nil => rfl
  | cons l ins ih => simp only [List.map_cons, wsum_cons, countTrue_cons, ih]

theorem sum_ones (ins : List Lit) : (ins.map fun _ => 1).sum = ins.length := by
  induction ins with
  | nil => rfl
  | cons l ins ih => rw [List.map_cons, List.sum_cons, ih, List.length_cons, Nat.add_comm]

theorem adder_any {c : AdderWorld VarManager} (h : AdderWorld.Reach AdderWorld.ubSafe c) : AdderWorld.Reach anyAdderOp c := by
  induction h with
  | start lits vm hn h => exact .start lits vm hn h
  | step w w' op _ _ ha hs ih => exact .step w w' op ih trivial ha hs

theorem first_ok {r : Res EnforceError (List Lit)} {A : List Int} (h : Obj.first r = .ok A) :
    ∃ l B, r = .ok (l :: B) ∧ A = [ipasir l] := by
  cases r with
  | ok B =>
    cases B with
    | nil => cases h
    | cons l B => cases h; exact ⟨l, B, rfl, rfl⟩
  | err e => cases h
  | panic => cases h

theorem all_ok {r : Res EnforceError (List Lit)} {A : List Int} (h : Obj.all r = .ok A) : ∃ B, r = .ok B ∧ A = B.map ipasir := by
  cases r with
  | ok B => cases h; exact ⟨B, rfl, rfl⟩
  | err e => cases h
  | panic => cases h

/-- The totalizer gives one assumption. -/
theorem tot_single {c : CardWorld VarManager} (h : CardWorld.Reach anyOp c) {b : Nat} {l : Lit} {B : List Lit}
    (e : c.tot.enforceUb b = .ok (l :: B)) : B = [] := by
  rcases h.inv.tot.enforceUb_cases b with ⟨-, e'⟩ | ⟨-, e', -⟩ | ⟨-, -, id, x, -, -, e'⟩ <;> rw [e'] at e <;> cases e
  rfl

theorem tot_single_lb {c : CardWorld VarManager} (h : CardWorld.Reach anyOp c) {b : Nat} {l : Lit} {B : List Lit}
    (e : c.tot.enforceLb b = .ok (l :: B)) : B = [] := by
  rcases h.inv.tot.enforceLb_cases b with ⟨-, e'⟩ | ⟨-, e'⟩ | ⟨-, -, e', -⟩ | ⟨-, -, -, id, x, -, -, e'⟩ <;> rw [e'] at e <;> cases e
  rfl

/-- **C84** (part: the bounds `ubSafe`; all for the totalizers, those in the ranges of calls since the last literal was
added for the other encodings, see `C84_violated_*` and C34, C35). If `*_enforce_ub(b)` returns assumptions then these
and all clauses passed to the callback so far enforce that the weighted sum of the input literals is at most `b`. -/
theorem C84_upper_partial {bld : Build} (w : World) (h : World.Reach bld w) (b : Nat) (hb : w.ubSafe b) (A : List Int)
    (hA : w.obj.enforceUb b = .ok A) : Enforces w.log w.own w.weights (· ≤ b) A := by
  have hs := h.sim
  unfold World.Sim at hs
  unfold World.log
  cases ho : w.obj with
  | tot t =>
    rw [ho] at hs hA
    obtain ⟨c, hr, rfl, hv, -, -, hd⟩ := hs
    obtain ⟨l, B, e, rfl⟩ := first_ok hA
    have hB := tot_single hr e
    subst hB
    obtain ⟨h1, h2⟩ := C28_upper_bound c hr b _ e
    rw [weights_eq (by omega), hv.cls, hv.own, hv.ins]
    exact enforces_of (A := [l]) (by simpa only [wsum_ones] using h1) (by simpa only [wsum_ones] using h2)
  | gte t =>
    rw [ho] at hs hA
    obtain ⟨c, hr, rfl, hv, hd⟩ := hs
    obtain ⟨B, e, rfl⟩ := all_ok hA
    obtain ⟨h1, h2⟩ := C33_upper_bound c hr b _ e
    rw [weights_eq (by omega), hv.cls, hv.own, hv.ins]
    exact enforces_of h1 h2
  | adder t =>
    rw [ho] at hs hA
    unfold World.ubSafe at hb
    rw [ho] at hb
    obtain ⟨c, hr, rfl, hv, hu, -, -, hd⟩ := hs
    obtain ⟨B, e, rfl⟩ := all_ok hA
    obtain ⟨B', e', h1, h2⟩ := C34_upper_bound_available_partial c hr b ((hu b).1 hb)
    rw [e'] at e
    cases e
    rw [weights_eq (by omega), hv.cls, hv.own, hv.ins]
    exact enforces_of h1 h2
  | dpw t =>
    rw [ho] at hs hA
    unfold World.ubSafe at hb
    rw [ho] at hb
    obtain ⟨c, hr, rfl, hv, hu, hd⟩ := hs
    obtain ⟨B, e, rfl⟩ := all_ok hA
    have hlen : w.ins.length = c.ins.length := by rw [hv.ins, List.length_map]
    have htot : w.total = (c.ins.map (·.2)).sum := by unfold World.total; rw [hv.ins, List.map_map]; rfl
    obtain ⟨hb1, hb2⟩ := hb
    rw [hlen, htot, ← hd] at hb2
    obtain ⟨B', e', h1, h2⟩ := C35_upper_bound_partial c hr (hb2.imp id (·.1)) b (hu b hb1) (hb2.imp id (·.2))
    rw [e'] at e
    cases e
    rw [weights_divided hv.ins, hv.cls, hv.own, ← hd]
    exact enforces_of h1 h2

/-- **C84** (part: not for bounds that the totalizer has no assumption for, and not for the exceptional bounds of the
dynamic polynomial watchdog at reduced precision). After `*_encode_ub(min_bound, max_bound)`, all bounds in the inclusive
range can be enforced. -/
theorem C84_upper_available_partial {bld : Build} (w w' : World) (h : World.Reach bld w) (lo hi : Nat) (ha : w.allowed (.encodeUb lo hi))
    (hs : w.step bld (.encodeUb lo hi) = some w') (b : Nat) (h1 : lo ≤ b) (h2 : b ≤ hi)
    (ht : ∀ t, w.obj = .tot t → b < w.ins.length) (hd : ∀ d, w.obj = .dpw d → w.div ≤ 1 ∨ (2 ≤ w.ins.length ∧ b < w.total)) :
    ∃ A, w'.obj.enforceUb b = .ok A ∧ Enforces w'.log w'.own w'.weights (· ≤ b) A := by
  have h' : World.Reach bld w' := .step w w' _ h ha hs
  obtain ⟨a1, a2, a3⟩ := ha
  have hr := inclRange_ok bld a1 a2
  have hsim := h.sim
  have hsim' := h'.sim
  unfold World.Sim at hsim hsim'
  simp only [World.step, Obj.encodeUb, hr] at hs
  cases ho : w.obj with
  | tot t =>
    simp only [ho] at hs
    cases hx : t.encodeUbChange ⟨.incl lo, .incl hi⟩ (⟨w.nVars⟩ : VarManager) w.cls with
    | none => rw [hx] at hs; cases hs
    | some x =>
      rw [hx] at hs
      have hob : w'.obj = .tot x.1 := by cases hs; rfl
      have hins : w'.ins = w.ins := by cases hs; rfl
      have hub : w'.ub b := by cases hs; exact Or.inr ⟨h1, h2⟩
      rw [hob] at hsim' ⊢
      obtain ⟨c, hr', e, hv, hu, -, -⟩ := hsim'
      have hlen : w'.ins.length = c.ins.length := by rw [hv.ins, List.length_map, List.length_map]
      obtain ⟨B, eB⟩ := (C30_upper_totalizer_partial c hr' b (by rw [← hlen, hins]; exact ht t ho)).1 (hu b hub)
      have : ∃ A, Obj.enforceUb (.tot x.1) b = .ok A := by
        unfold Obj.enforceUb
        simp only
        rw [← e, eB]
        cases B with
        | cons l B => exact ⟨_, rfl⟩
        | nil =>
          exfalso
          have hlt := ht t ho
          rw [← hins, hlen] at hlt
          rcases hr'.inv.tot.enforceUb_cases b with ⟨h3, -⟩ | ⟨-, e', -⟩ | ⟨-, -, id, l, -, -, e'⟩
          · omega
          · rw [e'] at eB; cases eB
          · rw [e'] at eB; cases eB
      obtain ⟨A, eA⟩ := this
      exact ⟨A, eA, C84_upper_partial w' h' b (by unfold World.ubSafe; rw [hob]; trivial) A (by rw [hob]; exact eA)⟩
  | gte t =>
    rw [ho] at hsim
    obtain ⟨c, hr1, rfl, hv, -⟩ := hsim
    simp only [ho] at hs
    rw [← hv.vm, hv.cls] at hs
    cases hx : c.gte.encodeUbChange ⟨.incl lo, .incl hi⟩ c.vm c.cls with
    | none => rw [hx] at hs; cases hs
    | some x =>
      rw [hx] at hs
      have hob : w'.obj = .gte x.1 := by cases hs; rfl
      obtain ⟨A, eA⟩ := C33_available c _ hr1 ⟨.incl lo, .incl hi⟩ (Or.inr (by unfold GteWorld.step GteWorld.encoded; simp only; rw [hx]; rfl)) b ⟨h1, h2⟩
      rw [hob]
      refine ⟨A.map ipasir, ?_, ?_⟩
      · unfold Obj.enforceUb; simp only; simp only at eA; rw [eA]; rfl
      · refine C84_upper_partial w' h' b (by unfold World.ubSafe; rw [hob]; trivial) _ ?_
        rw [hob]; unfold Obj.enforceUb; simp only; simp only at eA; rw [eA]; rfl
  | adder t =>
    simp only [ho] at hs
    cases hx : t.encodeUbChange ⟨.incl lo, .incl hi⟩ (⟨w.nVars⟩ : VarManager) w.cls with
    | none => rw [hx] at hs; cases hs
    | some x =>
      rw [hx] at hs
      have hob : w'.obj = .adder x.1 := by cases hs; rfl
      have hub : w'.ub b := by cases hs; exact Or.inr ⟨h1, h2⟩
      rw [hob] at hsim' ⊢
      obtain ⟨c, hr', e, hv, hu, -, -, -⟩ := hsim'
      obtain ⟨B, eB, -⟩ := C34_upper_bound_available_partial c hr' b ((hu b).1 hub)
      have eA : Obj.enforceUb (.adder x.1) b = .ok (B.map ipasir) := by unfold Obj.enforceUb; simp only; rw [← e, eB]; rfl
      exact ⟨_, eA, C84_upper_partial w' h' b (by unfold World.ubSafe; rw [hob]; exact hub) _ (by rw [hob]; exact eA)⟩
  | dpw t =>
    simp only [ho] at hs
    cases hx : t.encodeUbChange ⟨.incl lo, .incl hi⟩ (⟨w.nVars⟩ : VarManager) w.cls with
    | none => rw [hx] at hs; cases hs
    | some x =>
      rw [hx] at hs
      have hob : w'.obj = .dpw x.1 := by cases hs; rfl
      have hub : w'.ub b := by cases hs; exact Or.inr ⟨h1, h2⟩
      have hp : w'.div ≤ 1 ∨ (2 ≤ w'.ins.length ∧ b < w'.total) := by cases hs; exact hd t ho
      rw [hob] at hsim' ⊢
      obtain ⟨c, hr', e, hv, hu, hd'⟩ := hsim'
      have hlen : w'.ins.length = c.ins.length := by rw [hv.ins, List.length_map]
      have htot : w'.total = (c.ins.map (·.2)).sum := by unfold World.total; rw [hv.ins, List.map_map]; rfl
      have hp' := hp
      rw [hlen, htot, ← hd', ← e] at hp'
      obtain ⟨B, eB, -⟩ := C35_upper_bound_partial c hr' (hp'.imp id (·.1)) b (hu b hub) (hp'.imp id (·.2))
      have eA : Obj.enforceUb (.dpw x.1) b = .ok (B.map ipasir) := by unfold Obj.enforceUb; simp only; rw [← e, eB]; rfl
      exact ⟨_, eA, C84_upper_partial w' h' b (by unfold World.ubSafe; rw [hob]; exact ⟨hub, hp⟩) _ (by rw [hob]; exact eA)⟩

/-- Non-vacuity: bounds and assumptions after the concrete programs. -/
example : (CapiDemo.tot.map fun w => (w.obj.enforceUb 1, w.obj.enforceUb 2, w.obj.enforceLb 2, w.obj.enforceLb 1)) =
    some (.ok [-7], .ok [-8], .ok [7], .err .notEncoded) := by decide
example : (CapiDemo.gte.map fun w => (w.obj.enforceUb 4, w.log.length)) = some (.ok [-10, -11, -12], 31) := by decide
example : (CapiDemo.adder.map fun w => (w.obj.enforceUb 3, w.obj.enforceLb 6, w.obj.enforceUb 5)) =
    some (.ok [-9], .ok [11], .err .notEncoded) := by decide
example : (CapiDemo.dpw.map fun w => (w.obj.enforceUb 2, w.weights, w.own)) =
    some (.ok [-10, 4], [(1, 2), (-2, 1), (3, 1)], [4, 5, 6, 7, 8, 9, 10]) := by decide
example : (CapiDemo.dpwFiner.map fun w => (w.obj.enforceUb 4, w.obj.enforceUb 5)) = some (.ok [-10, 4, 11], .ok [-10, 4]) := by decide
example : (CapiDemo.dpwFiner.map fun w => (w.weights, w.own.length)) = some ([(1, 4), (-2, 2), (3, 3)], 12) := by decide

/-- **C84** (part: the bounds `lbSafe`). If `*_enforce_lb(b)` returns assumptions then these and all clauses passed to the
callback so far enforce that the weighted sum of the input literals is at least `b`. -/
theorem C84_lower_partial {bld : Build} (w : World) (h : World.Reach bld w) (b : Nat) (hb : w.lbSafe b) (A : List Int)
    (hA : w.obj.enforceLb b = .ok A) : Enforces w.log w.own w.weights (b ≤ ·) A := by
  have hs := h.sim
  unfold World.Sim at hs
  unfold World.log
  cases ho : w.obj with
  | tot t =>
    rw [ho] at hs hA
    obtain ⟨c, hr, rfl, hv, -, -, hd⟩ := hs
    obtain ⟨l, B, e, rfl⟩ := first_ok hA
    have hB := tot_single_lb hr e
    subst hB
    obtain ⟨h1, h2⟩ := C29_lower_bound c hr b _ e
    rw [weights_eq (by omega), hv.cls, hv.own, hv.ins]
    exact enforces_of (A := [l]) (by simpa only [wsum_ones] using h1) (by simpa only [wsum_ones] using h2)
  | gte t => rw [ho] at hA; cases hA
  | adder t =>
    rw [ho] at hs hA
    unfold World.lbSafe at hb
    rw [ho] at hb
    obtain ⟨c, hr, rfl, hv, -, hl, -, hd⟩ := hs
    obtain ⟨B, e, rfl⟩ := all_ok hA
    have htot : w.total = (c.ins.map (·.2)).sum := by unfold World.total; rw [hv.ins, List.map_map]; rfl
    obtain ⟨hb1, hb2, hb3⟩ := hb
    rw [htot] at hb3
    obtain ⟨B', e', h1, h2⟩ := C34_lower_bound_available_partial c (adder_any hr) b (hl b hb1 hb2) hb3
    rw [e'] at e
    cases e
    rw [weights_eq (by omega), hv.cls, hv.own, hv.ins]
    exact enforces_of h1 h2
  | dpw t => rw [ho] at hA; cases hA

/-- **C84** (part: not the bound 0, and for the binary adder not the bounds that are skipped, see C34). After
`*_encode_lb(min_bound, max_bound)`, all bounds in the inclusive range that the inputs can reach can be enforced. -/
theorem C84_lower_available_partial {bld : Build} (w w' : World) (h : World.Reach bld w) (lo hi : Nat) (ha : w.allowed (.encodeLb lo hi))
    (hs : w.step bld (.encodeLb lo hi) = some w') (b : Nat) (h1 : lo ≤ b) (h2 : b ≤ hi) (h0 : 0 < b) (hb : b ≤ w.total)
    (hu : ∀ a, w.obj = .adder a → ¬ w.ub (b - 1)) :
    ∃ A, w'.obj.enforceLb b = .ok A ∧ Enforces w'.log w'.own w'.weights (b ≤ ·) A := by
  have h' : World.Reach bld w' := .step w w' _ h ha hs
  obtain ⟨a1, a2, a3⟩ := ha
  have hr := inclRange_ok bld a1 a2
  have hsim' := h'.sim
  unfold World.Sim at hsim'
  simp only [World.step, Obj.encodeLb, hr] at hs
  cases ho : w.obj with
  | tot t =>
    simp only [ho] at hs
    cases hx : t.encodeLbChange ⟨.incl lo, .incl hi⟩ (⟨w.nVars⟩ : VarManager) w.cls with
    | none => rw [hx] at hs; cases hs
    | some x =>
      rw [hx] at hs
      have hob : w'.obj = .tot x.1 := by cases hs; rfl
      have htw : w'.total = w.total := by cases hs; rfl
      have hlb : w'.lb b := by cases hs; exact Or.inr ⟨h1, h2⟩
      rw [hob] at hsim' ⊢
      obtain ⟨c, hr', e, hv, -, hl, -⟩ := hsim'
      have hlen : w'.total = c.ins.length := by
        unfold World.total
        rw [hv.ins, List.map_map, List.map_map]
        exact sum_ones c.ins
      rw [← htw, hlen] at hb
      obtain ⟨B, eB⟩ := (C30_lower_totalizer_partial c hr' b h0 hb).1 (hl b hlb)
      have : ∃ A, Obj.enforceLb (.tot x.1) b = .ok A := by
        unfold Obj.enforceLb
        simp only
        rw [← e, eB]
        cases B with
        | cons l B => exact ⟨_, rfl⟩
        | nil =>
          exfalso
          rcases hr'.inv.tot.enforceLb_cases b with ⟨h3, -⟩ | ⟨h3, -⟩ | ⟨-, -, e', -⟩ | ⟨-, -, -, id, l, -, -, e'⟩
          · omega
          · omega
          · rw [e'] at eB; cases eB
          · rw [e'] at eB; cases eB
      obtain ⟨A, eA⟩ := this
      exact ⟨A, eA, C84_lower_partial w' h' b (by unfold World.lbSafe; rw [hob]; trivial) A (by rw [hob]; exact eA)⟩
  | gte t => rw [ho] at a3; exact a3.elim
  | adder t =>
    simp only [ho] at hs
    cases hx : t.encodeLbChange ⟨.incl lo, .incl hi⟩ (⟨w.nVars⟩ : VarManager) w.cls with
    | none => rw [hx] at hs; cases hs
    | some x =>
      rw [hx] at hs
      have hob : w'.obj = .adder x.1 := by cases hs; rfl
      have htw : w'.total = w.total := by cases hs; rfl
      have hlb : w'.lb b := by cases hs; exact Or.inr ⟨h1, h2⟩
      have hnu : ¬ w'.ub (b - 1) := by cases hs; exact hu t ho
      rw [hob] at hsim' ⊢
      obtain ⟨c, hr', e, hv, -, hl, -, -⟩ := hsim'
      have htot : w'.total = (c.ins.map (·.2)).sum := by unfold World.total; rw [hv.ins, List.map_map]; rfl
      obtain ⟨B, eB, -⟩ := C34_lower_bound_available_partial c (adder_any hr') b (hl b hlb hnu) (by rw [← htot, htw]; exact hb)
      have eA : Obj.enforceLb (.adder x.1) b = .ok (B.map ipasir) := by unfold Obj.enforceLb; simp only; rw [← e, eB]; rfl
      exact ⟨_, eA, C84_lower_partial w' h' b (by unfold World.lbSafe; rw [hob]; exact ⟨hlb, hnu, by rw [htw]; exact hb⟩) _ (by rw [hob]; exact eA)⟩
  | dpw t => rw [ho] at a3; exact a3.elim

/-- **C84** (part: not for bounds that the totalizer has no assumption for, and not for a single literal at reduced
precision of the dynamic polynomial watchdog). `*_enforce_ub` does not panic, and the only error is `NotEncoded`. -/
theorem C84_enforce_ub_total_partial {bld : Build} (w : World) (h : World.Reach bld w) (b : Nat)
    (ht : ∀ t, w.obj = .tot t → b < w.ins.length) (hd : ∀ d, w.obj = .dpw d → w.div ≤ 1 ∨ 2 ≤ w.ins.length) :
    (∃ A, w.obj.enforceUb b = .ok A) ∨ w.obj.enforceUb b = .err .notEncoded := by
  have hs := h.sim
  unfold World.Sim at hs
  cases ho : w.obj with
  | tot t =>
    rw [ho] at hs
    obtain ⟨c, hr, rfl, hv, -, -, -⟩ := hs
    have hlen : w.ins.length = c.ins.length := by rw [hv.ins, List.length_map, List.length_map]
    have hlt := ht _ ho
    unfold Obj.enforceUb
    simp only
    rcases hr.inv.tot.enforceUb_cases b with ⟨h3, -⟩ | ⟨-, e', -⟩ | ⟨-, -, id, l, -, -, e'⟩
    · omega
    · rw [e']; exact Or.inr rfl
    · rw [e']; exact Or.inl ⟨_, rfl⟩
  | gte t =>
    rw [ho] at hs
    obtain ⟨c, hr, rfl, -, -⟩ := hs
    unfold Obj.enforceUb
    simp only
    rcases C33_enforce_total c hr b with ⟨A, e⟩ | e
    · rw [e]; exact Or.inl ⟨_, rfl⟩
    · rw [e]; exact Or.inr rfl
  | adder t =>
    unfold Obj.enforceUb
    simp only
    rcases BinaryAdder.enforceUb_cases t b with ⟨-, e⟩ | ⟨-, ⟨-, e⟩ | ⟨_, _, -, -, -, e⟩⟩
    · rw [e]; exact Or.inl ⟨_, rfl⟩
    · rw [e]; exact Or.inr rfl
    · rw [e]; exact Or.inl ⟨_, rfl⟩
  | dpw t =>
    rw [ho] at hs
    obtain ⟨c, hr, rfl, hv, -, hd'⟩ := hs
    have hlen : w.ins.length = c.ins.length := by rw [hv.ins, List.length_map]
    have hp := hd _ ho
    rw [← hd', hlen] at hp
    unfold Obj.enforceUb
    simp only
    have hi : c.Inv False := hr.inv fun ht => ht.elim
    rcases hi.inv.enforceUb_cases hp b with ⟨-, e⟩ | ⟨e, -⟩ | ⟨_, _, -, -, -, -, e⟩ | ⟨_, _, -, -, -, e⟩
    · rw [e]; exact Or.inl ⟨_, rfl⟩
    · rw [e]; exact Or.inr rfl
    · rw [e]; exact Or.inl ⟨_, rfl⟩
    · rw [e]; exact Or.inl ⟨_, rfl⟩

/-- **C84.** `*_enforce_lb` (which only the totalizer and the adder have) reports `Unsat` exactly if the inputs cannot
reach the bound, for the adder and for the totalizer. -/
theorem C84_enforce_lb_unsat {bld : Build} (w : World) (h : World.Reach bld w) (b : Nat) :
    w.obj.enforceLb b = .err .unsat ↔ w.total < b ∧ ((∃ t, w.obj = .tot t) ∨ ∃ a, w.obj = .adder a) := by
  have hs := h.sim
  unfold World.Sim at hs
  cases ho : w.obj with
  | tot t =>
    rw [ho] at hs
    obtain ⟨c, hr, rfl, hv, -, -, -⟩ := hs
    have hlen : w.total = c.ins.length := by
      unfold World.total
      rw [hv.ins, List.map_map, List.map_map]
      exact sum_ones c.ins
    rw [hlen, ← C29_unsat c hr b]
    unfold Obj.enforceLb
    simp only
    cases hx : c.tot.enforceLb b with
    | ok A => cases A <;> simp [Obj.first]
    | err e => cases e <;> simp [Obj.first, MaybeError.ofEnforce]
    | panic => simp [Obj.first]
  | gte t => simp [Obj.enforceLb]
  | adder t =>
    rw [ho] at hs
    obtain ⟨c, hr, rfl, hv, -, -, -, -⟩ := hs
    have hi : c.Inv False := hr.inv fun ht => ht.elim
    have hws := hi.inv.weightSum
    have htr : wsumT (fun _ => true) c.ins = (c.ins.map (·.2)).sum := by unfold wsumT; simp
    have htot : w.total = (c.ins.map (·.2)).sum := by unfold World.total; rw [hv.ins, List.map_map]; rfl
    unfold Obj.enforceLb
    simp only
    rcases BinaryAdder.enforceLb_cases c.enc b with ⟨h1, e⟩ | ⟨h1, e⟩ | ⟨h1, h2, ⟨-, e⟩ | ⟨_, _, -, -, -, e⟩⟩ <;> rw [e]
    · simp only [Obj.all, MaybeError.ofEnforce, true_iff]; exact ⟨by omega, Or.inr ⟨_, rfl⟩⟩
    · simp only [Obj.all, reduceCtorEq, false_iff]; omega
    · simp only [Obj.all, MaybeError.ofEnforce, Res.err.injEq, reduceCtorEq, false_iff]; omega
    · simp only [Obj.all, reduceCtorEq, false_iff]; omega
  | dpw t => simp [Obj.enforceLb]

/-- Non-vacuity: three inputs cannot reach four, and weights of 9 cannot reach 10. -/
example : (CapiDemo.tot.map fun w => w.obj.enforceLb 4) = some (.err .unsat) ∧
    (CapiDemo.adder.map fun w => (w.total, w.obj.enforceLb 10)) = some (9, .err .unsat) := by decide

theorem log_mem {cls : ClauseSet} {z : Int} (hz : z ∈ callbacks cls) (h0 : z ≠ 0) : ∃ c ∈ cls, ∃ l ∈ c, z = ipasir l := by
  unfold callbacks at hz
  obtain ⟨c, hc, hz⟩ := List.mem_flatMap.1 hz
  rcases List.mem_append.1 hz with hz | hz
  · obtain ⟨l, hl, rfl⟩ := List.mem_map.1 hz; exact ⟨c, hc, l, hl, rfl⟩
  · exact absurd (by simpa using hz) h0

/-- **C84.** The callback receives literals of input variables and of variables that the encoding calls added, and all
variables are at most `n_vars_used`; the added variables are not variables of inputs. The sequence is a list of clauses
terminated by zeros. -/
theorem C84_literals {bld : Build} (w : World) (h : World.Reach bld w) :
    (readClauses w.log).2 = [] ∧
    (∀ z ∈ w.log, z ≠ 0 → z.natAbs ≤ w.nVars ∧ (z.natAbs ∈ w.own ∨ ∃ x ∈ w.ins, x.1.natAbs = z.natAbs)) ∧
    (∀ v ∈ w.own, 1 ≤ v ∧ v ≤ w.nVars ∧ ∀ x ∈ w.ins, x.1.natAbs ≠ v) := by
  have key : ∀ (vm : VarManager) (cls : ClauseSet) (ins : List (Lit × Nat)) (own : List Nat), w.View vm cls ins own →
      (∀ v ∈ own, v < vm.nVarsUsed) → (∀ x ∈ ins, x.1.var < vm.nVarsUsed) → (∀ x ∈ ins, x.1.var ∉ own) →
      (∀ c ∈ cls, ∀ l ∈ c, (∃ x ∈ ins, x.1.var = l.var) ∨ l.var ∈ own) →
      (readClauses w.log).2 = [] ∧
      (∀ z ∈ w.log, z ≠ 0 → z.natAbs ≤ w.nVars ∧ (z.natAbs ∈ w.own ∨ ∃ x ∈ w.ins, x.1.natAbs = z.natAbs)) ∧
      (∀ v ∈ w.own, 1 ≤ v ∧ v ≤ w.nVars ∧ ∀ x ∈ w.ins, x.1.natAbs ≠ v) := by
    intro vm cls ins own hv h1 h1' h2 h3
    have hn : vm.nVarsUsed = w.nVars := by rw [hv.vm]
    rw [hn] at h1 h1'
    unfold World.log
    rw [hv.cls]
    refine ⟨by rw [readClauses_callbacks], fun z hz h0 => ?_, fun v hvo => ?_⟩
    · obtain ⟨c, hc, l, hl, rfl⟩ := log_mem hz h0
      rw [natAbs_ipasir]
      rcases h3 c hc l hl with ⟨x, hx, hxl⟩ | hl'
      · refine ⟨by rw [← hxl]; exact h1' x hx, Or.inr ⟨(ipasir x.1, x.2), ?_, by rw [natAbs_ipasir, hxl]⟩⟩
        rw [hv.ins]; exact List.mem_map.2 ⟨x, hx, rfl⟩
      · exact ⟨h1 _ hl', Or.inl (hv.own_iff.2 hl')⟩
    · rw [hv.own] at hvo
      obtain ⟨u, hu, rfl⟩ := List.mem_map.1 hvo
      refine ⟨by omega, h1 u hu, fun x hx e => ?_⟩
      rw [hv.ins] at hx
      obtain ⟨y, hy, rfl⟩ := List.mem_map.1 hx
      simp only [natAbs_ipasir] at e
      exact h2 y hy (by rw [show y.1.var = u by omega]; exact hu)
  have hs := h.sim
  unfold World.Sim at hs
  cases ho : w.obj with
  | tot t =>
    rw [ho] at hs
    obtain ⟨c, hr, rfl, hv, -, -, -⟩ := hs
    have hi := hr.inv.tot.core
    obtain ⟨h1, h2, -⟩ := (C27_totalizer_partial c).1 hr
    refine key _ _ _ _ hv hi.ownLt ?_ ?_ ?_
    · intro x hx; obtain ⟨l, hl, rfl⟩ := List.mem_map.1 hx; exact hi.insLt l hl
    · intro x hx; obtain ⟨l, hl, rfl⟩ := List.mem_map.1 hx; exact h2 l hl
    · intro c' hc l hl
      rcases h1 c' hc l hl with ⟨x, hx, e⟩ | hx
      · exact Or.inl ⟨(x, 1), List.mem_map.2 ⟨x, hx, rfl⟩, e⟩
      · exact Or.inr hx
  | gte t =>
    rw [ho] at hs
    obtain ⟨c, hr, rfl, hv, -⟩ := hs
    have hi := hr.inv.gte.core
    obtain ⟨h1, h2, -⟩ := (C27_gte_partial c).1 hr
    refine key _ _ _ _ hv hi.ownLt ?_ h2 ?_
    · intro x hx; exact hi.insLt x.1 (List.mem_map.2 ⟨x, hx, rfl⟩)
    · intro c' hc l hl
      rcases h1 c' hc l hl with ⟨x, hx, e⟩ | hx
      · obtain ⟨y, hy, rfl⟩ := List.mem_map.1 hx; exact Or.inl ⟨y, hy, e⟩
      · exact Or.inr hx
  | adder t =>
    rw [ho] at hs
    obtain ⟨c, hr, rfl, hv, -, -, -, -⟩ := hs
    have hi : c.Inv False := hr.inv fun ht => ht.elim
    obtain ⟨_, _, _, hi⟩ := hi.inv
    obtain ⟨h1, h2⟩ := C27_adder_vars c (adder_any hr)
    exact key _ _ _ _ hv (fun v hv => (h1 v hv).1) (fun x hx => (hi.s.inLt x.1 ⟨x, hx, rfl⟩).1) (fun x hx hx' => (h1 _ hx').2 x hx rfl) h2
  | dpw t =>
    rw [ho] at hs
    obtain ⟨c, hr, rfl, hv, -, -⟩ := hs
    have hi : c.Inv False := hr.inv fun ht => ht.elim
    obtain ⟨h1, h2, h3⟩ := hi.inv.insOwn
    exact key _ _ _ _ hv h1 (fun x hx => (h2 x hx).1) (fun x hx => (h2 x hx).2) h3

/-- The integers are those of `to_ipasir`, which does not panic, as long as `n_vars_used` fits `c_int`. -/
theorem C84_fits {bld : Build} (w : World) (h : World.Reach bld w) (hn : (w.nVars : Int) ≤ i32Max) :
    ∀ c ∈ w.cls, ∀ l ∈ c, l.toIpasir = .ok (ipasir l) := by
  intro c hc l hl
  have hz : ipasir l ∈ w.log := by
    unfold World.log callbacks
    exact List.mem_flatMap.2 ⟨c, hc, List.mem_append.2 (Or.inl (List.mem_map.2 ⟨l, hl, rfl⟩))⟩
  have := ((C84_literals w h).2.1 _ hz (ipasir_ne_zero l)).1
  rw [natAbs_ipasir] at this
  unfold Lit.toIpasir
  rw [if_pos (by omega)]
  rfl

/-- Non-vacuity: all integers passed by the concrete program with a totalizer. -/
example : (CapiDemo.tot.map fun w => (w.log, w.own, w.nVars)) =
    some ([2, 4, 0, -1, 4, 0, -3, 5, 0, -4, 5, 0, -1, 2, 6, 0, -4, -3, 7, 0, -6, 7, 0, 1, -2, -4, 0, 1, -6, 0, -2, -6, 0, 4,
      -7, 0, 6, 3, -7, 0, 6, -8, 0, 3, -8, 0, -6, -3, 8, 0], [4, 5, 6, 7, 8], 20) := by decide

/-! ### Precision and hardening of the dynamic polynomial watchdog -/

/-- **C84.** `dpw_set_precision` reports `PrecisionNotPow2` exactly for divisors that are not 0 or a power of two,
`PrecisionDecreased` exactly for larger powers of two than the current divisor after building the encoding; errors change
nothing, and otherwise the divisor is as given. -/
theorem C84_set_precision (d : Dpw) (p : Nat) :
    ((Obj.setPrecision (.dpw d) p).1 = .precisionNotPow2 ↔ p ≠ 0 ∧ ¬ ∃ k, p = 2 ^ k) ∧
    ((Obj.setPrecision (.dpw d) p).1 = .precisionDecreased ↔ (∃ k, p = 2 ^ k) ∧ d.structure_.isSome = true ∧ d.precDiv < p) ∧
    ((Obj.setPrecision (.dpw d) p).1 ≠ .ok → (Obj.setPrecision (.dpw d) p).2 = .dpw d) ∧
    ((Obj.setPrecision (.dpw d) p).1 = .ok → (Obj.setPrecision (.dpw d) p).2 = .dpw { d with precDiv := p }) := by
  have hp : (p ≤ 1 ∨ isPow2 p = true) ↔ (p = 0 ∨ ∃ k, p = 2 ^ k) := by
    constructor
    · rintro (h | h)
      · rcases (show p = 0 ∨ p = 1 by omega) with h | h
        · exact Or.inl h
        · exact Or.inr ⟨0, h⟩
      · rcases Nat.eq_zero_or_pos p with h0 | h0
        · exact Or.inl h0
        · exact Or.inr ⟨_, Dpw.pow2_of_isPow2 h h0⟩
    · rintro (h | ⟨k, rfl⟩)
      · exact Or.inl (by omega)
      · right; unfold isPow2; rw [Nat.and_two_pow_sub_one_eq_mod]; simp
  unfold Obj.setPrecision
  simp only
  unfold Dpw.setPrecision
  by_cases h1 : p ≤ 1 ∨ isPow2 p = true
  · rw [if_neg (not_not_intro h1)]
    have h1' := hp.1 h1
    by_cases h2 : d.structure_.isSome = true ∧ p > d.precDiv
    · rw [if_pos h2]
      simp only [MaybeError.ofPrecision, reduceCtorEq, false_iff, true_iff, ne_eq, not_false_eq_true, forall_const, false_imp_iff, and_true]
      have h0 : p ≠ 0 := by omega
      have h3 : ∃ k, p = 2 ^ k := h1'.resolve_left h0
      exact ⟨fun h => h.2 h3, h3, h2⟩
    · rw [if_neg h2]
      simp only [reduceCtorEq, false_iff, ne_eq, not_true_eq_false, false_imp_iff, forall_const, and_true]
      refine ⟨fun h => h1'.elim h.1 h.2, fun h => h2 h.2⟩
  · rw [if_pos h1]
    have h1' := fun h => h1 (hp.2 h)
    simp only [MaybeError.ofPrecision, reduceCtorEq, false_iff, true_iff, ne_eq, not_false_eq_true, forall_const, false_imp_iff, and_true]
    exact ⟨⟨fun h => h1' (Or.inl h), fun h => h1' (Or.inr h)⟩, fun h => h1' (Or.inr h.1)⟩

/-- Non-vacuity: all return codes. -/
example : ((Obj.dpwNew.setPrecision 6).1, (Obj.dpwNew.setPrecision 8).1, CapiDemo.dpw.map fun w => ((w.obj.setPrecision 4).1, (w.obj.setPrecision 1).1)) =
    (.precisionNotPow2, .ok, some (.precisionDecreased, .ok)) := by decide

/-- **C84** (part: full precision, and bounds below the sum of all weights, see C53). After
`dpw_limit_range(min_value, max_value)`, the encoding is valid for the range: assignments with a sum in the range that
satisfies a bound in the range remain possible. -/
theorem C84_limit_range_partial {bld : Build} (w : World) (h : World.Reach bld w) (d : Dpw) (ho : w.obj = .dpw d) (hdiv : w.div ≤ 1)
    (hm : d.isMaxPrecision = true) (lo hi : Nat) (h1 : lo ≤ hi) (h2 : hi < sizeMax) :
    ∃ cls, Obj.limitRange bld d lo hi w.cls = some cls ∧ ∀ (b : Nat) (a : Nat → Bool), lo ≤ b → b ≤ hi → b < w.total →
      lo ≤ csum a w.ins → csum a w.ins ≤ b →
      ∃ m, (∀ v, v ∉ w.own → m v = a v) ∧ logTrue m (callbacks cls) ∧
        ∀ A, w.obj.enforceUb b = .ok A → ∀ z ∈ A, ctrue m z = true := by
  have hs := h.sim
  unfold World.Sim at hs
  rw [ho] at hs ⊢
  obtain ⟨c, hr, rfl, hv, -, hd⟩ := hs
  have htot : w.total = (c.ins.map (·.2)).sum := by unfold World.total; rw [hv.ins, List.map_map]; rfl
  obtain ⟨lim, e, hlim⟩ := C53_limit_range_partial c hr (by omega) hm ⟨.incl lo, .incl hi⟩
  refine ⟨c.cls ++ lim, by unfold Obj.limitRange; rw [inclRange_ok bld h1 h2]; simp only; rw [e, hv.cls]; rfl, ?_⟩
  intro b a b1 b2 b3 b4 b5
  rw [hv.ins, csum_ipasir] at b4 b5
  obtain ⟨m, m1, m2, m3, m4⟩ := hlim b (down a) ⟨b1, b2⟩ (by omega) ⟨b4, by omega⟩ b5
  refine ⟨up (a 0) m, fun v hvo => ?_, ?_, fun A hA => ?_⟩
  · cases v with
    | zero => rfl
    | succ v => exact m1 v fun hx => hvo (hv.own_iff.2 hx)
  · rw [logTrue_callbacks, down_up]
    intro k hk
    rcases List.mem_append.1 hk with hk | hk
    · exact m2 k hk
    · exact m3 k hk
  · obtain ⟨B, eB, rfl⟩ := all_ok hA
    rw [cube_ipasir, down_up]
    exact m4 B eB

/-- Non-vacuity: hardening the range from 1 to 1 of two literals. -/
example : ((CapiDemo.run .debug (World.start .dpwNew 2) [.add 1 1, .add 2 1, .encodeUb 0 2]).map fun w =>
    match w.obj with
    | .dpw d => (d.isMaxPrecision, (Obj.limitRange .debug d 1 1 w.cls).map callbacks)
    | _ => (false, none)) = some (true, some [-2, 3, 0, -1, 3, 0, -1, -2, 4, 0, 3, 0, -4, 0]) := by decide

/-! ### At-most-one encodings -/

theorem am1_lits (zs : List Int) (hz : ∀ z ∈ zs, z.natAbs ≤ 2 ^ 31) :
    (am1Adds zs).map ipasir = zs.filter (· ≠ 0) := by
  have key : ∀ (zs : List Int) (ls : List Lit), (∀ z ∈ zs, z.natAbs ≤ 2 ^ 31) →
      (zs.foldl (fun ls z => (am1Add ls z).2) ls).map ipasir = ls.map ipasir ++ zs.filter (· ≠ 0) := by
    intro zs
    induction zs with
    | nil => intro ls _; simp
    | cons z zs ih =>
      intro ls h
      rw [List.foldl_cons, ih _ fun x hx => h x (List.mem_cons_of_mem _ hx)]
      by_cases h0 : z = 0
      · subst h0; simp [am1Add, Lit.fromIpasir]
      · have hf : Lit.fromIpasir z = .ok (Lit.mk' (z.natAbs - 1) (decide (z < 0))) := by
          have := h z List.mem_cons_self
          unfold Lit.fromIpasir Lit.newWithError
          rw [if_neg h0, if_neg (by unfold maxVarIdx u32Max; omega)]
        have he := (fromIpasir_ok hf).1
        unfold am1Add
        rw [hf, List.filter_cons_of_pos (by simpa using h0)]
        simp [he]
  have := key zs [] hz
  simpa [am1Adds] using this

/-- **C84.** After adding any integers to an at-most-one encoder (zeros are refused), the clauses of `*_encode` enforce
that at most one of the literals is true; new variables are numbered from `n_vars_used + 1` up to the new value of
`n_vars_used`, and all others are variables of the literals. -/
theorem C84_am1 (k : Am1Name) (zs : List Int) (hz : ∀ z ∈ zs, z.natAbs ≤ 2 ^ 31) (n : Nat) (hn : ∀ z ∈ zs, z.natAbs ≤ n) (cls : ClauseSet) :
    ∃ new, (am1Encode k (am1Adds zs) n cls).2 = cls ++ new ∧ n ≤ (am1Encode k (am1Adds zs) n cls).1 ∧
      Enforces (callbacks new) (List.range' (n + 1) ((am1Encode k (am1Adds zs) n cls).1 - n))
        ((zs.filter (· ≠ 0)).map fun z => (z, 1)) (· ≤ 1) [] ∧
      ∀ z ∈ callbacks new, z ≠ 0 → (∃ x ∈ zs, x.natAbs = z.natAbs) ∨ (n < z.natAbs ∧ z.natAbs ≤ (am1Encode k (am1Adds zs) n cls).1) := by
  have hl := am1_lits zs hz
  have hwf : k.kind.WF := by cases k <;> simp [Am1Name.kind, Am1.Kind.WF]
  have hlt : ∀ l ∈ am1Adds zs, l.var < ManageVars.nUsed (⟨n⟩ : VarManager) := by
    intro l hl'
    have : ipasir l ∈ zs.filter (· ≠ 0) := by rw [← hl]; exact List.mem_map.2 ⟨l, hl', rfl⟩
    have := hn _ (List.mem_filter.1 this).1
    rw [natAbs_ipasir] at this
    exact this
  obtain ⟨e1, e2, e3, e4⟩ := C26_at_most_one k.kind hwf (am1Adds zs) (⟨n⟩ : VarManager) hlt
  refine ⟨(k.kind.encode (am1Adds zs) (⟨n⟩ : VarManager)).1, rfl, e1, ?_, ?_⟩
  · have := enforces_of (own := List.range' n ((am1Encode k (am1Adds zs) n cls).1 - n)) (ins := (am1Adds zs).map fun l => (l, 1))
      (cls := (k.kind.encode (am1Adds zs) (⟨n⟩ : VarManager)).1) (P := (· ≤ 1)) (A := [])
      (fun m hm _ => by rw [wsum_ones]; exact e3 m hm)
      (fun a ha => by
        rw [wsum_ones] at ha
        obtain ⟨m, m1, m2⟩ := e4 a ha
        refine ⟨m, fun v hv => m1 v ?_, m2, fun x hx => (by cases hx)⟩
        rw [List.mem_range'_1] at hv
        have : n ≤ (am1Encode k (am1Adds zs) n cls).1 := e1
        show v < n ∨ (am1Encode k (am1Adds zs) n cls).1 ≤ v
        omega)
    rw [List.map_map] at this
    have h2 : (am1Adds zs).map ((fun x : Lit × Nat => (ipasir x.1, x.2)) ∘ fun l => (l, 1)) = (zs.filter (· ≠ 0)).map fun z => (z, 1) := by
      rw [← hl, List.map_map]; rfl
    rw [h2, show (fun x : Nat => x + 1) = (fun x => 1 + x) from funext fun x => Nat.add_comm x 1, List.map_add_range', Nat.add_comm 1 n] at this
    exact this
  · intro z hz' h0
    obtain ⟨c, hc, l, hl', rfl⟩ := log_mem hz' h0
    rw [natAbs_ipasir]
    rcases e2 c hc l hl' with ⟨x, hx, e⟩ | ⟨h3, h4⟩
    · left
      have : ipasir x ∈ zs.filter (· ≠ 0) := by rw [← hl]; exact List.mem_map.2 ⟨x, hx, rfl⟩
      exact ⟨ipasir x, (List.mem_filter.1 this).1, by rw [natAbs_ipasir, e]⟩
    · right; exact ⟨Nat.lt_succ_of_le h3, h4⟩

/-- Non-vacuity: the callbacks of the bimander encoding of six literals. -/
example : (am1Encode .bimander (am1Adds [1, -2, 0, 3, 4, 5, 6]) 6 []).1 = 7 ∧
    (callbacks (am1Encode .bimander (am1Adds [1, -2, 0, 3, 4, 5, 6]) 6 []).2) =
      [-1, -7, 0, 2, -7, 0, -3, -7, 0, -4, -7, 0, -1, 2, 0, -1, -3, 0, -1, -4, 0, 2, -3, 0, 2, -4, 0, -3, -4, 0, -5, 7, 0,
       -6, 7, 0, -5, -6, 0] := by decide

/-! ### Violations -/

/-- **C84** (violation): `tot_enforce_ub` panics for a bound that was encoded, if no assumption is necessary for it. -/
theorem C84_violated_tot_enforce_ub : (CapiDemo.run .debug (World.start .totNew 2) [.add 1 1, .add 2 1, .encodeUb 0 2]).map
    (fun w => (w.obj.enforceUb 1, w.obj.enforceUb 2)) = some (.ok [-4], .panic) := by decide

/-- **C84** (violation): `tot_enforce_lb` panics for the bound 0. -/
theorem C84_violated_tot_enforce_lb : (CapiDemo.run .debug (World.start .totNew 2) [.add 1 1, .add 2 1, .encodeLb 0 2]).map
    (fun w => (w.obj.enforceLb 1, w.obj.enforceLb 0)) = some (.ok [3], .panic) := by decide

/-- **C84** (violation): `dpw_limit_range(0, SIZE_MAX)`, which according to the documentation does not specify any bound,
panics if overflows are checked and otherwise passes clauses that exclude that literals are true. -/
theorem C84_violated_limit_range : ∃ w d, CapiDemo.run .release (World.start .dpwNew 2) [.add 1 1, .add 2 1, .encodeUb 0 2] = some w ∧
    w.obj = .dpw d ∧ Obj.limitRange .debug d 0 sizeMax w.cls = none ∧ ∃ cls, Obj.limitRange .release d 0 sizeMax w.cls = some cls ∧
    ∀ m, logTrue m (callbacks cls) → m 1 = false ∧ m 2 = false := by
  refine ⟨_, _, rfl, rfl, by decide, _, rfl, fun m hm => ?_⟩
  rw [logTrue_callbacks] at hm
  have h1 := hm [Lit.negOf 1, Lit.pos 2] (by decide)
  have h2 := hm [Lit.negOf 0, Lit.pos 2] (by decide)
  have h3 := hm [Lit.negOf 2] (by decide)
  simp only [Clause.sat, List.mem_cons, List.not_mem_nil, or_false, exists_eq_or_imp, exists_eq_left, Lit.holds_negOf, Lit.holds_pos, down] at h1 h2 h3
  cases e1 : m 1 <;> cases e2 : m 2 <;> simp_all

/-- **C84** (violation): `*_encode_ub(0, SIZE_MAX)` encodes nothing if overflows are not checked. -/
theorem C84_violated_encode_ub_max : ((Obj.gteNew.add 1 2).2.encodeUb .debug 0 sizeMax 1 []).isNone = true ∧
    ((((Obj.gteNew.add 1 2).2.add 2 2).2.encodeUb .release 0 sizeMax 2 []).map fun x => (x.2, x.1.enforceUb 2)) =
      some ((2, []), .err .notEncoded) := by decide

/-- **C84** (violation): a literal of weight 0 is treated like one of weight 1 by the dynamic polynomial watchdog: the
bound 0 of the literals 1 (weight 2) and 2 (weight 0) excludes that literal 2 is true. -/
theorem C84_violated_dpw_weight_zero : ∃ o n cls A, (((Obj.dpwNew.add 1 2).2.add 2 0).2.encodeUb .debug 0 1 2 []) = some (o, n, cls) ∧
    o.enforceUb 0 = .ok A ∧ csum (fun v => v == 2) [(1, 2), (2, 0)] = 0 ∧
    ∀ m, logTrue m (callbacks cls) → (∀ z ∈ A, ctrue m z = true) → m 2 = false := by
  refine ⟨_, _, _, [-5, 3], rfl, by decide, by decide, fun m hm hA => ?_⟩
  rw [logTrue_callbacks] at hm
  have h1 := hm [Lit.negOf 1, Lit.negOf 2, Lit.pos 3] (by decide)
  have h2 := hm [Lit.negOf 3, Lit.pos 4] (by decide)
  have h3 := hA (-5) (by decide)
  have h4 := hA 3 (by decide)
  simp only [Clause.sat, List.mem_cons, List.not_mem_nil, or_false, exists_eq_or_imp, exists_eq_left, Lit.holds_negOf, Lit.holds_pos, down] at h1 h2
  simp [ctrue] at h3 h4
  cases e2 : m 2 <;> simp_all

/-- **C84** (violation): encoding panics for a literal of weight 0 in the generalized totalizer. -/
theorem C84_violated_gte_weight_zero : (((Obj.gteNew.add 1 2).2.add 2 0).2.encodeUb .debug 0 0 2 []).isNone = true := by decide

/-- **C84** (violation): `bin_adder_reserve` panics. -/
theorem C84_violated_adder_reserve : (((Obj.adderNew.add 1 1).2.add 2 1).2.reserve 2).isNone = true := by decide

end Capi
end RustSat
