import Verif.Lemmas.PyEnc
import Verif.Lemmas.Bound
import Verif.Props.Am1
/-
C92: the encodings of the Python interface.
-/
namespace RustSat
open Card
open TotDb (wsumT)
open PyEncWorld

/-! ### Concrete programs -/

namespace PyEncDemo

/-- `allowed`, decidably. -/
def allowedB (w : PyEncWorld) : PyCall → Bool
  | .extend xs => (xs.all fun x => decide (0 < x.2 ∧ x.1.var < w.vm.nUsed ∧ x.1.var ∉ w.own)) &&
    match w.enc with
    | .tot _ => xs.all fun x => decide (x.2 = 1)
    | .dpw _ => false
    | _ => true
  | .encodeUb _ hi => decide (hi < Capi.sizeMax) && match w.enc with | .adder _ => !w.lbUsed | _ => true
  | .encodeLb _ hi => decide (hi < Capi.sizeMax) && match w.enc with | .tot _ => true | .adder _ => true | _ => false
  | .encodeBoth _ hi => decide (hi < Capi.sizeMax) && match w.enc with | .tot _ => true | .adder _ => !w.lbUsed | _ => false
  | .rehash _ => false
  | _ => true

theorem allowedB_sound {w : PyEncWorld} {c : PyCall} (h : allowedB w c = true) : w.allowed c := by
  cases c with
  | extend xs => unfold allowed; cases ho : w.enc <;> simp [allowedB, ho] at h ⊢ <;> first | exact h | exact ⟨h.1, h.2⟩
  | encodeUb lo hi => unfold allowed; cases ho : w.enc <;> simp [allowedB, ho] at h ⊢ <;> exact h
  | encodeLb lo hi => unfold allowed; cases ho : w.enc <;> simp [allowedB, ho] at h ⊢ <;> exact h
  | encodeBoth lo hi => unfold allowed; cases ho : w.enc <;> simp [allowedB, ho] at h ⊢ <;> exact h
  | newVar => trivial
  | increaseUsed n => trivial
  | rehash b => cases h

def run (w : PyEncWorld) : List PyCall → Option PyEncWorld
  | [] => some w
  | c :: cs => if allowedB w c then (w.step c).bind fun w => run w cs else none

theorem run_reach : ∀ (cs : List PyCall) (w w' : PyEncWorld), Reach w → run w cs = some w' → Reach w' := by
  intro cs
  induction cs with
  | nil => intro w w' h e; cases e; exact h
  | cons c cs ih =>
    intro w w' h e
    unfold run at e
    by_cases ha : allowedB w c = true
    · rw [if_pos ha] at e
      cases hs : w.step c with
      | none => rw [hs] at e; cases e
      | some w1 => rw [hs] at e; exact ih w1 w' (.step w w1 c h (allowedB_sound ha) hs) e
    · rw [if_neg ha] at e; cases e

def two : List (Lit × Nat) := [(Lit.pos 0, 4), (Lit.negOf 1, 2)]

def tot : Option PyEncWorld := run (start (.newTot [Lit.pos 0, Lit.negOf 1]) 2 [(Lit.pos 0, 1), (Lit.negOf 1, 1)])
  [.encodeUb 0 1, .newVar, .extend [(Lit.pos 4, 1)], .encodeBoth 2 2, .encodeLb 3 3]
def gte : Option PyEncWorld := run (start (.newGte two) 2 two) [.encodeUb 2 3, .increaseUsed 12, .extend [(Lit.pos 11, 3)], .encodeUb 2 4]
def adder : Option PyEncWorld := run (start (.newAdder two) 2 two) [.newVar, .extend [(Lit.pos 2, 3)], .encodeUb 2 4, .encodeLb 6 6]
def dpw : Option PyEncWorld := (PyEnc.newDpw (two ++ [(Lit.pos 2, 3)])).bind fun e => run (start e 3 (two ++ [(Lit.pos 2, 3)])) [.encodeUb 2 4, .newVar, .encodeUb 5 5]

end PyEncDemo

/-! ### Histories -/

/-- **C92.** Allowed calls never panic. -/
theorem C92_no_panic (w : PyEncWorld) (h : Reach w) (c : PyCall) (ha : w.allowed c) : ∃ w', w.step c = some w' ∧ Reach w' := by
  obtain ⟨w', e, -⟩ := step_sim h.sim c ha
  exact ⟨w', e, .step w w' c h ha e⟩

/-- Non-vacuity: all concrete programs consist of allowed calls; the numbers of CNFs and of clauses in them. -/
example : (PyEncDemo.tot.map fun w => w.cnfs.map (·.len)) = some [3, 6, 2] ∧ (PyEncDemo.gte.map fun w => w.cnfs.map (·.len)) = some [0, 9] ∧
    (PyEncDemo.adder.map fun w => w.cnfs.map (·.len)) = some [14, 10] ∧ (PyEncDemo.dpw.map fun w => w.cnfs.map (·.len)) = some [16, 0] := by decide

/-- **C92.** The `Cnf` returned by an encoding method contains exactly the clauses that the encoder would add to any collector
of clauses, and is not marked as modified. -/
theorem C92_cnf (e e' : PyEnc) (lo hi : Nat) (vm vm' : PyVarManager) (cnf : PySeq Clause) (h : e.encodeUb lo hi vm = some (cnf, e', vm'))
    (cls : ClauseSet) :
    cnf.modified = false ∧
    match e with
    | .tot t => ∃ t', e' = .tot t' ∧ t.encodeUbChange (pyRange lo hi) vm.vm cls = some (t', vm'.vm, cls ++ cnf.items)
    | .gte t => ∃ t', e' = .gte t' ∧ t.encodeUbChange (pyRange lo hi) vm.vm cls = some (t', vm'.vm, cls ++ cnf.items)
    | .adder t => ∃ t', e' = .adder t' ∧ t.encodeUbChange (pyRange lo hi) vm.vm cls = some (t', vm'.vm, cls ++ cnf.items)
    | .dpw t => ∃ t', e' = .dpw t' ∧ t.encodeUbChange (pyRange lo hi) vm.vm cls = some (t', vm'.vm, cls ++ cnf.items) := by
  cases e with
  | tot t =>
    have hp := Totalizer.encodeUbChange_pre t (pyRange lo hi) vm.vm cls []
    rw [List.append_nil] at hp
    simp only [PyEnc.encodeUb, PyEnc.encoded] at h
    simp only
    rw [hp]
    cases hx : t.encodeUbChange (pyRange lo hi) vm.vm [] with
    | none => rw [hx] at h; cases h
    | some x => rw [hx] at h; cases h; exact ⟨rfl, _, rfl, rfl⟩
  | gte t =>
    have hp := Gte.encodeUbChange_pre t (pyRange lo hi) vm.vm cls []
    rw [List.append_nil] at hp
    simp only [PyEnc.encodeUb, PyEnc.encoded] at h
    simp only
    rw [hp]
    cases hx : t.encodeUbChange (pyRange lo hi) vm.vm [] with
    | none => rw [hx] at h; cases h
    | some x => rw [hx] at h; cases h; exact ⟨rfl, _, rfl, rfl⟩
  | adder t =>
    have hp := BinaryAdder.encodeUbChange_pre t (pyRange lo hi) vm.vm cls []
    rw [List.append_nil] at hp
    simp only [PyEnc.encodeUb, PyEnc.encoded] at h
    simp only
    rw [hp]
    cases hx : t.encodeUbChange (pyRange lo hi) vm.vm [] with
    | none => rw [hx] at h; cases h
    | some x => rw [hx] at h; cases h; exact ⟨rfl, _, rfl, rfl⟩
  | dpw t =>
    have hp := Dpw.encodeUbChange_pre t (pyRange lo hi) vm.vm cls []
    rw [List.append_nil] at hp
    simp only [PyEnc.encodeUb, PyEnc.encoded] at h
    simp only
    rw [hp]
    cases hx : t.encodeUbChange (pyRange lo hi) vm.vm [] with
    | none => rw [hx] at h; cases h
    | some x => rw [hx] at h; cases h; exact ⟨rfl, _, rfl, rfl⟩

theorem convert_ok {r : Res EnforceError (List Lit)} {A : List Lit} (h : PyEnc.convert r = .ok A) : r = .ok A := by
  cases r with
  | ok B => cases h; rfl
  | err e => cases e <;> cases h
  | panic => cases h

theorem anyError_ok {r : Res EnforceError (List Lit)} {A : List Lit} (h : PyEnc.anyError r = .ok A) : r = .ok A := by
  cases r with
  | ok B => cases h; rfl
  | err e => cases h
  | panic => cases h

theorem wsum_units (a : Asg) (ins : List Lit) : wsum a (ins.map fun l => (l, 1)) = countTrue a ins := by
  induction ins with
  | nil => rfl
  | cons l ins ih => simp only [List.map_cons, wsum_cons, countTrue_cons, ih]

theorem sum_units (ins : List Lit) : ((ins.map fun l => (l, 1)).map (·.2)).sum = ins.length := by
  induction ins with
  | nil => rfl
  | cons l ins ih => simp only [List.map_cons, List.sum_cons, ih, List.length_cons]; omega

theorem divided_one (ins : List (Lit × Nat)) : divided 1 ins = ins := by unfold divided; simp

/-- **C92** (part: for the adder, the bounds in the ranges of calls since the last literal was added, see
`C92_violated_adder_*`). If `enforce_ub(b)` returns assumptions then these and all returned CNFs together enforce that the
weighted sum of the input literals is at most `b`. -/
theorem C92_upper_partial (w : PyEncWorld) (h : Reach w) (b : Nat) (hb : w.ubSafe b) (A : List Lit) (hA : w.enc.enforceUb b = .ok A) :
    PyEnforces w.formula w.own w.ins (· ≤ b) A := by
  have hs := h.sim
  unfold Sim at hs
  cases ho : w.enc with
  | tot t =>
    rw [ho] at hs hA
    obtain ⟨c, hr, rfl, hv, -, -⟩ := hs
    have := C28_upper_bound c (tot_any hr) b _ (anyError_ok hA)
    rw [hv.cls, hv.own, hv.ins]
    exact ⟨fun m => by simpa only [wsum_units] using this.1 m, fun a => by simpa only [wsum_units] using this.2 a⟩
  | gte t =>
    rw [ho] at hs hA
    obtain ⟨c, hr, rfl, hv⟩ := hs
    rw [hv.cls, hv.own, hv.ins]
    exact C33_upper_bound c (gte_any hr) b _ (convert_ok hA)
  | adder t =>
    rw [ho] at hs hA
    unfold ubSafe at hb
    rw [ho] at hb
    obtain ⟨c, hr, rfl, hv, hu, -, -⟩ := hs
    obtain ⟨B', e', h1⟩ := C34_upper_bound_available_partial c hr b ((hu b).1 hb)
    rw [convert_ok hA] at e'
    cases e'
    rw [hv.cls, hv.own, hv.ins]
    exact h1
  | dpw t =>
    rw [ho] at hs hA
    obtain ⟨c, hr, rfl, hv, -, hd⟩ := hs
    have := C35_any_bound_partial c hr (Or.inl (by omega)) b _ (convert_ok hA)
    rw [hd, divided_one] at this
    rw [hv.cls, hv.own, hv.ins]
    exact this

theorem encoded_some {w w' : PyEncWorld} {r : Option (PySeq Clause × PyEnc × PyVarManager)} {ub lb : Nat → Prop} {lu : Bool}
    (h : w.encoded r ub lb lu = some w') : ∃ x, r = some x ∧ w'.enc = x.2.1 ∧ w'.ub = ub ∧ w'.lb = lb ∧ w'.ins = w.ins := by
  unfold PyEncWorld.encoded at h
  cases r with
  | none => cases h
  | some x => cases h; exact ⟨x, rfl, rfl, rfl, rfl, rfl⟩

/-- Which upper bounds can be enforced. -/
theorem ub_ok {w : PyEncWorld} (h : Reach w) {b : Nat} (hb : w.ub b) (hg : ∀ g, w.enc ≠ .gte g) : ∃ A, w.enc.enforceUb b = .ok A := by
  have hs := h.sim
  unfold Sim at hs
  cases ho : w.enc with
  | tot t =>
    rw [ho] at hs
    obtain ⟨c, hr, rfl, hv, hu, -⟩ := hs
    unfold PyEnc.enforceUb
    simp only
    by_cases hlt : b < c.ins.length
    · obtain ⟨A, e⟩ := (C30_upper_totalizer_partial c (tot_any hr) b hlt).1 ((hu b).1 hb)
      exact ⟨A, by rw [e]; rfl⟩
    · rcases (tot_any hr).inv.tot.enforceUb_cases b with ⟨-, e⟩ | ⟨h3, -⟩ | ⟨h3, -⟩
      · exact ⟨[], by rw [e]; rfl⟩
      · omega
      · omega
  | gte g => exact absurd ho (hg g)
  | adder t =>
    rw [ho] at hs
    obtain ⟨c, hr, rfl, hv, hu, -, -⟩ := hs
    obtain ⟨A, e, -⟩ := C34_upper_bound_available_partial c hr b ((hu b).1 hb)
    exact ⟨A, by unfold PyEnc.enforceUb; simp only; rw [e]; rfl⟩
  | dpw t =>
    rw [ho] at hs
    obtain ⟨c, hr, rfl, hv, hu, hd⟩ := hs
    obtain ⟨A, e, -⟩ := C35_upper_bound_full_precision c (dpw_any hr) (by omega) b (hu b hb)
    exact ⟨A, by unfold PyEnc.enforceUb; simp only; rw [e]; rfl⟩

/-- **C92.** After `encode_ub(min_ub, max_ub)` or `encode_both(min_bound, max_bound)`, all upper bounds in the inclusive
range can be enforced. -/
theorem C92_upper_available (w w' : PyEncWorld) (h : Reach w) (c : PyCall) (lo hi : Nat) (hc : c = .encodeUb lo hi ∨ c = .encodeBoth lo hi)
    (ha : w.allowed c) (hs : w.step c = some w') (b : Nat) (h1 : lo ≤ b) (h2 : b ≤ hi) :
    ∃ A, w'.enc.enforceUb b = .ok A ∧ PyEnforces w'.formula w'.own w'.ins (· ≤ b) A := by
  have h' : Reach w' := .step w w' _ h ha hs
  have hub : w'.ub b := by
    rcases hc with rfl | rfl
    · obtain ⟨x, -, -, e, -⟩ := encoded_some hs; rw [e]; exact Or.inr ⟨h1, h2⟩
    · obtain ⟨x, -, -, e, -⟩ := encoded_some hs; rw [e]; exact Or.inr ⟨h1, h2⟩
  have key : ∃ A, w'.enc.enforceUb b = .ok A := by
    cases ho : w.enc with
    | gte g =>
      have hsim := h.sim
      unfold Sim at hsim
      rw [ho] at hsim
      obtain ⟨c, hr, rfl, hv⟩ := hsim
      rcases hc with rfl | rfl
      · obtain ⟨x, hx, e1, -⟩ := encoded_some hs
        have hp := Gte.encodeUbChange_pre c.gte ⟨.incl lo, .incl hi⟩ c.vm c.cls []
        rw [List.append_nil] at hp
        simp only [PyEnc.encodeUb, ho, pyRange_ok ha.1, PyEnc.encoded] at hx
        rw [hv.vm] at hx
        cases hy : c.gte.encodeUbChange ⟨.incl lo, .incl hi⟩ c.vm [] with
        | none => rw [hy] at hx; cases hx
        | some y =>
          rw [hy] at hx hp
          obtain ⟨A, eA⟩ := C33_available c _ (gte_any hr) ⟨.incl lo, .incl hi⟩ (Or.inr (by unfold GteWorld.step GteWorld.encoded; simp only; rw [hp]; rfl)) b ⟨h1, h2⟩
          refine ⟨A, ?_⟩
          rw [e1]
          cases hx
          unfold PyEnc.enforceUb
          simp only
          simp only at eA
          rw [eA]
          rfl
      · have := ha.2; rw [ho] at this; exact this.elim
    | tot t =>
      refine ub_ok h' hub fun g hg => ?_
      rcases hc with rfl | rfl
      all_goals
        obtain ⟨x, hx, e1, -⟩ := encoded_some hs
        simp only [PyEnc.encodeUb, PyEnc.encodeBoth, ho, PyEnc.encoded] at hx
        obtain ⟨y, -, hy⟩ := Option.map_eq_some_iff.1 hx
        rw [e1, ← hy] at hg
        cases hg
    | adder t =>
      refine ub_ok h' hub fun g hg => ?_
      rcases hc with rfl | rfl
      all_goals
        obtain ⟨x, hx, e1, -⟩ := encoded_some hs
        simp only [PyEnc.encodeUb, PyEnc.encodeBoth, ho, PyEnc.encoded] at hx
        obtain ⟨y, -, hy⟩ := Option.map_eq_some_iff.1 hx
        rw [e1, ← hy] at hg
        cases hg
    | dpw t =>
      refine ub_ok h' hub fun g hg => ?_
      rcases hc with rfl | rfl
      · obtain ⟨x, hx, e1, -⟩ := encoded_some hs
        simp only [PyEnc.encodeUb, ho, PyEnc.encoded] at hx
        obtain ⟨y, -, hy⟩ := Option.map_eq_some_iff.1 hx
        rw [e1, ← hy] at hg
        cases hg
      · have := ha.2; rw [ho] at this; exact this.elim
  obtain ⟨A, eA⟩ := key
  exact ⟨A, eA, C92_upper_partial w' h' b (by unfold ubSafe; split <;> first | exact hub | trivial) A eA⟩

/-- **C92** (part: for the adder, the bounds `lbSafe`). If `enforce_lb(b)` returns assumptions then these and all returned
CNFs together enforce that the weighted sum of the input literals is at least `b`. -/
theorem C92_lower_partial (w : PyEncWorld) (h : Reach w) (b : Nat) (hb : w.lbSafe b) (A : List Lit) (hA : w.enc.enforceLb b = .ok A) :
    PyEnforces w.formula w.own w.ins (b ≤ ·) A := by
  have hs := h.sim
  unfold Sim at hs
  cases ho : w.enc with
  | tot t =>
    rw [ho] at hs hA
    obtain ⟨c, hr, rfl, hv, -, -⟩ := hs
    have := C29_lower_bound c (tot_any hr) b _ (convert_ok hA)
    rw [hv.cls, hv.own, hv.ins]
    exact ⟨fun m => by simpa only [wsum_units] using this.1 m, fun a => by simpa only [wsum_units] using this.2 a⟩
  | gte t => rw [ho] at hA; cases hA
  | adder t =>
    rw [ho] at hs hA
    unfold lbSafe at hb
    rw [ho] at hb
    obtain ⟨c, hr, rfl, hv, -, hl, -⟩ := hs
    obtain ⟨hb1, hb2, hb3⟩ := hb
    unfold total at hb3
    rw [hv.ins] at hb3
    obtain ⟨B', e', h1⟩ := C34_lower_bound_available_partial c (adder_any hr) b (hl b hb1 hb2) hb3
    rw [convert_ok hA] at e'
    cases e'
    rw [hv.cls, hv.own, hv.ins]
    exact h1
  | dpw t => rw [ho] at hA; cases hA

/-- **C92** (part: for the adder not the bounds that are skipped because the upper bound below was encoded, see
`C92_violated_adder_skipped`). After `encode_lb(min_lb, max_lb)` or `encode_both(min_bound, max_bound)`, all lower bounds in the
inclusive range that the inputs can reach can be enforced. -/
theorem C92_lower_available_partial (w w' : PyEncWorld) (h : Reach w) (c : PyCall) (lo hi : Nat)
    (hc : c = .encodeLb lo hi ∨ c = .encodeBoth lo hi) (ha : w.allowed c) (hs : w.step c = some w') (b : Nat) (h1 : lo ≤ b) (h2 : b ≤ hi)
    (hb : b ≤ w.total) (hu : ∀ a, w.enc = .adder a → ¬ w'.ub (b - 1)) :
    ∃ A, w'.enc.enforceLb b = .ok A ∧ PyEnforces w'.formula w'.own w'.ins (b ≤ ·) A := by
  have h' : Reach w' := .step w w' _ h ha hs
  have hlb : w'.lb b ∧ w'.ins = w.ins ∧ ((∃ t, w'.enc = .tot t) ∨ ((∃ a, w'.enc = .adder a) ∧ ∃ a, w.enc = .adder a)) := by
    rcases hc with rfl | rfl
    all_goals
      obtain ⟨x, hx, e0, -, e, e2⟩ := encoded_some hs
      refine ⟨by rw [e]; exact Or.inr ⟨h1, h2⟩, e2, ?_⟩
      cases ho : w.enc with
      | tot t =>
        simp only [PyEnc.encodeLb, PyEnc.encodeBoth, ho, PyEnc.encoded] at hx
        obtain ⟨y, -, hy⟩ := Option.map_eq_some_iff.1 hx
        exact Or.inl ⟨y.1, by rw [e0, ← hy]⟩
      | adder t =>
        simp only [PyEnc.encodeLb, PyEnc.encodeBoth, ho, PyEnc.encoded] at hx
        obtain ⟨y, -, hy⟩ := Option.map_eq_some_iff.1 hx
        exact Or.inr ⟨⟨y.1, by rw [e0, ← hy]⟩, _, rfl⟩
      | gte g => have := ha.2; rw [ho] at this; exact this.elim
      | dpw g => have := ha.2; rw [ho] at this; exact this.elim
  obtain ⟨hl, hins, hk⟩ := hlb
  have hb' : b ≤ w'.total := by unfold total at hb ⊢; rw [hins]; exact hb
  have key : w'.lbSafe b ∧ ∃ A, w'.enc.enforceLb b = .ok A := by
    have hs' := h'.sim
    unfold Sim at hs'
    unfold lbSafe
    rcases hk with ⟨t, ho⟩ | ⟨⟨a, ho⟩, a0, ho0⟩
    · rw [ho] at hs' ⊢
      obtain ⟨c, hr, rfl, hv, -, hl'⟩ := hs'
      refine ⟨trivial, ?_⟩
      unfold total at hb'
      rw [hv.ins, sum_units] at hb'
      unfold PyEnc.enforceLb
      simp only
      rcases Nat.eq_zero_or_pos b with h0 | h0
      · rcases (tot_any hr).inv.tot.enforceLb_cases b with ⟨-, e⟩ | ⟨h3, -⟩ | ⟨h3, -⟩ | ⟨h3, -⟩
        · exact ⟨[], by rw [e]; rfl⟩
        · omega
        · omega
        · omega
      · obtain ⟨A, e⟩ := (C30_lower_totalizer_partial c (tot_any hr) b h0 hb').1 ((hl' b).1 hl)
        exact ⟨A, by rw [e]; rfl⟩
    · have hnu := hu a0 ho0
      rw [ho] at hs' ⊢
      obtain ⟨c, hr, rfl, hv, -, hl', -⟩ := hs'
      refine ⟨⟨hl, hnu, hb'⟩, ?_⟩
      unfold total at hb'
      rw [hv.ins] at hb'
      obtain ⟨A, e, -⟩ := C34_lower_bound_available_partial c (adder_any hr) b (hl' b hl hnu) hb'
      exact ⟨A, by unfold PyEnc.enforceLb; simp only; rw [e]; rfl⟩
  obtain ⟨hsafe, A, eA⟩ := key
  exact ⟨A, eA, C92_lower_partial w' h' b hsafe A eA⟩

/-- **C92** (part: for the adder, bounds that are safe as upper and as lower bounds). If `enforce_eq(b)` returns assumptions
then these and all returned CNFs together enforce that the weighted sum of the input literals is `b`. -/
theorem C92_equal_partial (w : PyEncWorld) (h : Reach w) (b : Nat) (hu : w.ubSafe b) (hl : w.lbSafe b)
    (A : List Lit) (hA : w.enc.enforceEq b = .ok A) :
    PyEnforces w.formula w.own w.ins (· = b) A := by
  have hs := h.sim
  unfold Sim at hs
  cases ho : w.enc with
  | tot t =>
    rw [ho] at hs hA
    obtain ⟨c, hr, rfl, hv, -, -⟩ := hs
    have := C29_equality c (tot_any hr) b _ (convert_ok hA)
    rw [hv.cls, hv.own, hv.ins]
    exact ⟨fun m => by simpa only [wsum_units] using this.1 m, fun a => by simpa only [wsum_units] using this.2 a⟩
  | gte t => rw [ho] at hA; cases hA
  | adder t =>
    unfold ubSafe at hu
    unfold lbSafe at hl
    rw [ho] at hs hA hu hl
    obtain ⟨c, hr, rfl, hv, hu', hl', -⟩ := hs
    obtain ⟨hb1, hb2, hb3⟩ := hl
    unfold total at hb3
    rw [hv.ins] at hb3
    rw [hv.cls, hv.own, hv.ins]
    have hA := convert_ok hA
    rcases Nat.eq_zero_or_pos b with h0 | h0
    · obtain ⟨A1, A2, e1, e2, rfl⟩ := enforceBoth_ok hA
      obtain ⟨B, e, p1, p2⟩ := C34_upper_bound_available_partial c hr b ((hu' b).1 hu)
      rw [e1] at e
      cases e
      have : A2 = [] := by
        rcases BinaryAdder.enforceLb_cases c.enc b with ⟨-, e'⟩ | ⟨-, e'⟩ | ⟨h1, -⟩
        · rw [e2] at e'; cases e'
        · rw [e2] at e'; cases e'; rfl
        · omega
      subst this
      rw [List.append_nil]
      exact ⟨fun m hm hc => by have := p1 m hm hc; omega, fun a ha => p2 a (by omega)⟩
    · have hi : c.Inv False := (adder_any hr).inv fun ht => ht.elim
      have hws := hi.inv.weightSum
      have ht : wsumT (fun _ => true) c.ins = (c.ins.map (·.2)).sum := by unfold wsumT; simp
      exact C34_equality_partial c hr (hi.lbHas b (hl' b hb1 hb2) h0 (by omega)).1 b _ hA
  | dpw t => rw [ho] at hA; cases hA

/-- Non-vacuity: the assumptions after the concrete programs. -/
example : (PyEncDemo.tot.map fun w => (w.enc.enforceUb 2, w.enc.enforceLb 2, w.enc.enforceEq 2)) =
    some (.ok [Lit.negOf 5], .ok [Lit.pos 6], .ok [Lit.negOf 5, Lit.pos 6]) := by decide
example : (PyEncDemo.tot.map fun w => (w.own, w.ins)) = some ([2, 3, 5, 6], [(Lit.pos 0, 1), (Lit.negOf 1, 1), (Lit.pos 4, 1)]) := by decide
example : (PyEncDemo.gte.map fun w => w.enc.enforceUb 2) = some (.ok [Lit.negOf 12, Lit.negOf 13, Lit.negOf 15, Lit.negOf 17]) := by decide
example : (PyEncDemo.adder.map fun w => (w.enc.enforceUb 2, w.enc.enforceLb 6)) = some (.ok [Lit.negOf 7], .ok [Lit.pos 10]) := by decide
example : (PyEncDemo.dpw.map fun w => (w.enc.enforceUb 2, w.enc.enforceUb 5, w.enc.enforceUb 9)) =
    some (.ok [Lit.negOf 11, Lit.pos 3], .ok [Lit.negOf 14, Lit.pos 4], .ok []) := by decide

/-- Non-vacuity of the equality for the adder: both bounds are safe, and there are assumptions. -/
example : ∃ w, PyEncDemo.run (start (.newAdder PyEncDemo.two) 2 PyEncDemo.two) [.newVar, .extend [(Lit.pos 2, 3)], .encodeBoth 6 6] = some w ∧
    w.enc.enforceEq 6 = .ok [Lit.negOf 7, Lit.pos 8] := by
  refine ⟨_, rfl, by decide⟩

/-! ### Exceptions -/

/-- **C92.** `enforce_ub` gives assumptions or raises `RuntimeError`. -/
theorem C92_enforce_ub (w : PyEncWorld) (h : Reach w) (b : Nat) : (∃ A, w.enc.enforceUb b = .ok A) ∨ w.enc.enforceUb b = .runtimeError := by
  have hs := h.sim
  unfold Sim at hs
  cases ho : w.enc with
  | tot t =>
    rw [ho] at hs
    obtain ⟨c, hr, rfl, -, -, -⟩ := hs
    unfold PyEnc.enforceUb
    simp only
    rcases C28_enforce_total c (tot_any hr) b with ⟨A, e⟩ | e
    · rw [e]; exact Or.inl ⟨A, rfl⟩
    · rw [e]; exact Or.inr rfl
  | gte t =>
    rw [ho] at hs
    obtain ⟨c, hr, rfl, -⟩ := hs
    unfold PyEnc.enforceUb
    simp only
    rcases C33_enforce_total c (gte_any hr) b with ⟨A, e⟩ | e
    · rw [e]; exact Or.inl ⟨A, rfl⟩
    · rw [e]; exact Or.inr rfl
  | adder t =>
    unfold PyEnc.enforceUb
    simp only
    rcases BinaryAdder.enforceUb_cases t b with ⟨-, e⟩ | ⟨-, ⟨-, e⟩ | ⟨_, _, -, -, -, e⟩⟩
    · rw [e]; exact Or.inl ⟨_, rfl⟩
    · rw [e]; exact Or.inr rfl
    · rw [e]; exact Or.inl ⟨_, rfl⟩
  | dpw t =>
    rw [ho] at hs
    obtain ⟨c, hr, rfl, -, -, hd⟩ := hs
    unfold PyEnc.enforceUb
    simp only
    have hi : c.Inv False := (dpw_any hr).inv fun ht => ht.elim
    rcases hi.inv.enforceUb_cases (Or.inl (by omega)) b with ⟨-, e⟩ | ⟨e, -⟩ | ⟨_, _, -, -, -, -, e⟩ | ⟨_, _, -, -, -, e⟩
    · rw [e]; exact Or.inl ⟨_, rfl⟩
    · rw [e]; exact Or.inr rfl
    · rw [e]; exact Or.inl ⟨_, rfl⟩
    · rw [e]; exact Or.inl ⟨_, rfl⟩

/-- **C92.** `enforce_lb` of the totalizer and the adder gives assumptions or raises `RuntimeError` or `ValueError`, the
latter exactly if the inputs cannot reach the bound. `enforce_eq` never panics, and raises `ValueError` only in this case. -/
theorem C92_enforce_lb (w : PyEncWorld) (h : Reach w) (hk : (∃ t, w.enc = .tot t) ∨ ∃ a, w.enc = .adder a) (b : Nat) :
    ((∃ A, w.enc.enforceLb b = .ok A) ∨ w.enc.enforceLb b = .runtimeError ∨ w.enc.enforceLb b = .valueError) ∧
    (w.enc.enforceLb b = .valueError ↔ w.total < b) ∧
    ((∃ A, w.enc.enforceEq b = .ok A) ∨ w.enc.enforceEq b = .runtimeError ∨ (w.enc.enforceEq b = .valueError ∧ w.total < b)) := by
  have hs := h.sim
  unfold Sim at hs
  rcases hk with ⟨t, ho⟩ | ⟨a, ho⟩
  · rw [ho] at hs ⊢
    obtain ⟨c, hr, rfl, hv, -, -⟩ := hs
    have htot : w.total = c.ins.length := by unfold total; rw [hv.ins, sum_units]
    have hi := (tot_any hr).inv.tot
    rw [htot]
    unfold PyEnc.enforceLb PyEnc.enforceEq Totalizer.enforceEq
    simp only
    rcases hi.enforceLb_cases b with ⟨h1, e⟩ | ⟨h1, e⟩ | ⟨h1, h2, e, -⟩ | ⟨h1, h2, -, _, _, -, -, e⟩ <;>
      rcases hi.enforceUb_cases b with ⟨h3, e'⟩ | ⟨h3, e', -⟩ | ⟨h3, -, _, _, -, -, e'⟩ <;> rw [e, e'] <;>
      simp [PyEnc.convert, enforceBoth] <;> omega
  · rw [ho] at hs ⊢
    obtain ⟨c, hr, rfl, hv, -, -, -⟩ := hs
    have hi : c.Inv False := (adder_any hr).inv fun ht => ht.elim
    have hws := hi.inv.weightSum
    have ht : wsumT (fun _ => true) c.ins = (c.ins.map (·.2)).sum := by unfold wsumT; simp
    have htot : w.total = c.enc.weightSum := by unfold total; rw [hv.ins, hws, ht]
    rw [htot]
    unfold PyEnc.enforceLb PyEnc.enforceEq BinaryAdder.enforceEq
    simp only
    rcases BinaryAdder.enforceLb_cases c.enc b with ⟨h1, e⟩ | ⟨h1, e⟩ | ⟨h1, h2, ⟨-, e⟩ | ⟨_, _, -, -, -, e⟩⟩ <;>
      rcases BinaryAdder.enforceUb_cases c.enc b with ⟨h3, e'⟩ | ⟨h3, ⟨-, e'⟩ | ⟨_, _, -, -, -, e'⟩⟩ <;> rw [e, e'] <;>
      simp [PyEnc.convert, enforceBoth] <;> omega

/-- Non-vacuity: the three outcomes. -/
example : (PyEncDemo.tot.map fun w => (w.enc.enforceUb 1, w.enc.enforceLb 1, w.enc.enforceLb 4, w.enc.enforceEq 4)) =
    some (.runtimeError, .runtimeError, .valueError, .valueError) := by decide
example : (PyEncDemo.adder.map fun w => (w.total, w.enc.enforceLb 10, w.enc.enforceLb 7, w.enc.enforceEq 7)) =
    some (9, .valueError, .runtimeError, .runtimeError) := by decide

/-- **C92** (part: at least two literals, and only for the totalizer; see C30 for the other encodings). Bounds that were not
encoded since the last literal was added are refused. -/
theorem C92_refused_partial (w : PyEncWorld) (h : Reach w) (t : Totalizer) (ho : w.enc = .tot t) (h2 : 2 ≤ w.total) (b : Nat) :
    (b < w.total → ¬ w.ub b → w.enc.enforceUb b = .runtimeError) ∧
    (0 < b → b ≤ w.total → ¬ w.lb b → w.enc.enforceLb b = .runtimeError) := by
  have hs := h.sim
  unfold Sim at hs
  rw [ho] at hs ⊢
  obtain ⟨c, hr, rfl, hv, hu, hl⟩ := hs
  have htot : w.total = c.ins.length := by unfold total; rw [hv.ins, sum_units]
  rw [htot] at h2 ⊢
  unfold PyEnc.enforceUb PyEnc.enforceLb
  simp only
  refine ⟨fun h3 h4 => ?_, fun h3 h4 h5 => ?_⟩
  · rw [(C30_upper_totalizer_partial c (tot_any hr) b h3).2 h2 fun h => h4 ((hu b).2 h)]; rfl
  · rw [(C30_lower_totalizer_partial c (tot_any hr) b h3 h4).2 h2 fun h => h5 ((hl b).2 h)]; rfl

/-! ### Statistics and variables -/

theorem dpw_notReserve {c : DpwWorld BasicVM} (h : DpwWorld.Reach DpwWorld.noReserve c) : DpwWorld.Reach DpwWorld.notReserve c := by
  induction h with
  | start lits vm e hn h he => exact .start lits vm e hn h he
  | default vm => exact .default vm
  | step w w' op _ hr ha hs ih => exact .step w w' op ih (by rintro rfl; exact hr) ha hs

/-- **C92.** `n_clauses` is the number of clauses in all returned CNFs, `n_vars` the number of variables taken from the variable
manager, and `weight_sum` (`n_lits` for the totalizer) the sum of all weights. -/
theorem C92_stats (w : PyEncWorld) (h : Reach w) :
    w.enc.nClauses = w.formula.length ∧ w.enc.nVars = w.own.length ∧ w.enc.weightSum = w.total := by
  have hs := h.sim
  unfold Sim at hs
  unfold total
  cases ho : w.enc with
  | tot t =>
    rw [ho] at hs
    obtain ⟨c, hr, rfl, hv, -, -⟩ := hs
    rw [hv.cls, hv.own, hv.ins, sum_units]
    exact ⟨((C27_totalizer_partial c).1 (tot_any hr)).2.2, (C27_totalizer_partial c).2 hr, (tot_any hr).inv.tot.nLits⟩
  | gte t =>
    rw [ho] at hs
    obtain ⟨c, hr, rfl, hv⟩ := hs
    rw [hv.cls, hv.own, hv.ins]
    exact ⟨((C27_gte_partial c).1 (gte_any hr)).2.2, (C27_gte_partial c).2 hr, C33_weight_sum c (gte_any hr)⟩
  | adder t =>
    rw [ho] at hs
    obtain ⟨c, hr, rfl, hv, -, -, -⟩ := hs
    have hi : c.Inv False := (adder_any hr).inv fun ht => ht.elim
    have hws := hi.inv.weightSum
    have ht : wsumT (fun _ => true) c.ins = (c.ins.map (·.2)).sum := by unfold wsumT; simp
    rw [hv.cls, hv.own, hv.ins]
    exact ⟨(C27_adder_stats c (adder_any hr)).2, (C27_adder_stats c (adder_any hr)).1, hws.trans ht⟩
  | dpw t =>
    rw [ho] at hs
    obtain ⟨c, hr, rfl, hv, -, -⟩ := hs
    have hi : c.Inv False := (dpw_any hr).inv fun ht => ht.elim
    have ht : wsumT (fun _ => true) c.ins = (c.ins.map (·.2)).sum := by unfold wsumT; simp
    rw [hv.cls, hv.own, hv.ins]
    exact ⟨(C27_dpw_stats_partial c).1 (dpw_any hr), (C27_dpw_stats_partial c).2 (dpw_notReserve hr), hi.inv.total.trans ht⟩

/-- **C92.** All variables in returned CNFs are variables of inputs or were taken from the variable manager by this encoding;
the latter are marked as used and are not variables of inputs. -/
theorem C92_vars (w : PyEncWorld) (h : Reach w) :
    (∀ c ∈ w.formula, ∀ l ∈ c, (∃ x ∈ w.ins, x.1.var = l.var) ∨ l.var ∈ w.own) ∧
    (∀ v ∈ w.own, v < w.vm.nUsed ∧ ∀ x ∈ w.ins, x.1.var ≠ v) := by
  have hs := h.sim
  unfold Sim at hs
  unfold PyVarManager.nUsed
  cases ho : w.enc with
  | tot t =>
    rw [ho] at hs
    obtain ⟨c, hr, rfl, hv, -, -⟩ := hs
    have hi := (tot_any hr).inv.tot.core
    obtain ⟨h1, h2, -⟩ := (C27_totalizer_partial c).1 (tot_any hr)
    rw [hv.cls, hv.own, hv.ins, hv.vm]
    refine ⟨fun c' hc l hl => ?_, fun v hv => ⟨hi.ownLt v hv, fun x hx e => ?_⟩⟩
    · rcases h1 c' hc l hl with ⟨x, hx, e⟩ | hx
      · exact Or.inl ⟨(x, 1), List.mem_map.2 ⟨x, hx, rfl⟩, e⟩
      · exact Or.inr hx
    · obtain ⟨l, hl, rfl⟩ := List.mem_map.1 hx
      exact h2 l hl (e ▸ hv)
  | gte t =>
    rw [ho] at hs
    obtain ⟨c, hr, rfl, hv⟩ := hs
    have hi := (gte_any hr).inv.gte.core
    obtain ⟨h1, h2, -⟩ := (C27_gte_partial c).1 (gte_any hr)
    rw [hv.cls, hv.own, hv.ins, hv.vm]
    refine ⟨fun c' hc l hl => ?_, fun v hv => ⟨hi.ownLt v hv, fun x hx e => h2 x hx (e ▸ hv)⟩⟩
    rcases h1 c' hc l hl with ⟨x, hx, e⟩ | hx
    · obtain ⟨y, hy, rfl⟩ := List.mem_map.1 hx; exact Or.inl ⟨y, hy, e⟩
    · exact Or.inr hx
  | adder t =>
    rw [ho] at hs
    obtain ⟨c, hr, rfl, hv, -, -, -⟩ := hs
    rw [hv.cls, hv.own, hv.ins, hv.vm]
    exact ⟨(C27_adder_vars c (adder_any hr)).2, (C27_adder_vars c (adder_any hr)).1⟩
  | dpw t =>
    rw [ho] at hs
    obtain ⟨c, hr, rfl, hv, -, -⟩ := hs
    rw [hv.cls, hv.own, hv.ins, hv.vm]
    exact ⟨(C27_dpw_vars c (dpw_any hr)).2, (C27_dpw_vars c (dpw_any hr)).1⟩

/-- Non-vacuity: statistics of the concrete programs. -/
example : (PyEncDemo.gte.map fun w => (w.enc.nClauses, w.enc.nVars, w.enc.weightSum)) = some (9, 9, 9) ∧
    (PyEncDemo.dpw.map fun w => (w.enc.nClauses, w.enc.nVars, w.enc.weightSum)) = some (16, 12, 9) := by decide

/-! ### At-most-one encodings -/

/-- **C92.** The CNF of `encode` of an at-most-one encoding enforces that at most one of the literals is true; the new
variables are taken from the variable manager, all others are variables of the literals, and after the first call
`n_clauses` and `n_vars` are right. -/
theorem C92_am1 (k : Capi.Am1Name) (lits : List Lit) (vm : PyVarManager) (hl : ∀ l ∈ lits, l.var < vm.nUsed) (cnf : PySeq Clause)
    (e' : PyAm1) (vm' : PyVarManager) (h : (PyAm1.new lits).encode k vm = (cnf, e', vm')) :
    vm.nUsed ≤ vm'.nUsed ∧ cnf.modified = false ∧
    PyEnforces cnf.items (List.range' vm.nUsed (vm'.nUsed - vm.nUsed)) (lits.map fun l => (l, 1)) (· ≤ 1) [] ∧
    (∀ c ∈ cnf.items, ∀ l ∈ c, (∃ x ∈ lits, x.var = l.var) ∨ (vm.nUsed ≤ l.var ∧ l.var < vm'.nUsed)) ∧
    e'.lits = lits ∧ e'.nClauses = cnf.len ∧ vm'.nUsed = vm.nUsed + e'.nVars := by
  have hwf : k.kind.WF := by cases k <;> simp [Capi.Am1Name.kind, Am1.Kind.WF]
  obtain ⟨e1, e2, e3, e4⟩ := C26_at_most_one k.kind hwf lits vm.vm hl
  obtain ⟨-, s1, s2⟩ := C27_am1_partial k.kind hwf lits vm.vm hl
  unfold PyAm1.encode PyAm1.new at h
  cases h
  refine ⟨e1, rfl, ⟨fun m hm _ => ?_, fun a ha => ?_⟩, e2, rfl, s2.symm, s1⟩
  · rw [wsum_units]; exact e3 m hm
  · rw [wsum_units] at ha
    obtain ⟨m, m1, m2⟩ := e4 a ha
    refine ⟨m, fun v hv => m1 v ?_, m2, fun x hx => (by cases hx)⟩
    rw [List.mem_range'_1] at hv
    show v < ManageVars.nUsed vm.vm ∨ ManageVars.nUsed (k.kind.encode lits vm.vm).2 ≤ v
    have e1' : ManageVars.nUsed vm.vm ≤ ManageVars.nUsed (k.kind.encode lits vm.vm).2 := e1
    unfold PyVarManager.nUsed at hv
    simp only at hv
    omega

/-- Non-vacuity: the bimander encoding of six literals. -/
example : let r := (PyAm1.new [Lit.pos 0, Lit.negOf 1, Lit.pos 2, Lit.pos 3, Lit.pos 4, Lit.pos 5]).encode .bimander (PyVarManager.new 6)
    (r.1.len, r.2.1.nClauses, r.2.1.nVars, r.2.2.nUsed) = (13, 13, 1, 7) := by decide

/-! ### Violations -/

/-- **C92** (violation): with the largest `usize` as `max_ub`, which is in the documented range, nothing is encoded. -/
theorem C92_violated_largest_bound : ((start (.newTot [Lit.pos 0, Lit.pos 1]) 2 [(Lit.pos 0, 1), (Lit.pos 1, 1)]).step (.encodeUb 0 Capi.sizeMax)).map
    (fun w => (w.formula, w.enc.enforceUb 0, w.enc.enforceUb 1)) = some ([], .runtimeError, .runtimeError) := by decide

/-- The steps of a program that does not respect `allowed`. -/
def PyEncDemo.steps (w : PyEncWorld) : List PyCall → Option PyEncWorld
  | [] => some w
  | c :: cs => (w.step c).bind fun w => steps w cs

/-- **C92** (violation): a second call of `encode_both` of the adder, for a smaller bound: there is a model of all returned CNFs
and the assumptions for the upper bound 1 with both literals true. -/
theorem C92_violated_adder_repeat : ∃ w A m, PyEncDemo.steps (start (.newAdder [(Lit.pos 0, 1), (Lit.pos 1, 1)]) 2 [(Lit.pos 0, 1), (Lit.pos 1, 1)])
      [.encodeBoth 2 2, .encodeBoth 1 1] = some w ∧
    w.enc.enforceUb 1 = .ok A ∧ ClauseSet.sat m w.formula ∧ cubeSat m A ∧ wsum m w.ins = 2 := by
  refine ⟨_, [Lit.negOf 4], fun v => v < 2, rfl, by decide, ?_, by unfold cubeSat; decide, by decide⟩
  unfold ClauseSet.sat Clause.sat
  decide

/-- **C92** (violation): after `extend`, the adder gives assumptions for a bound that was encoded before, which ignore the new
literal. -/
theorem C92_violated_adder_waiting : ∃ w A m, PyEncDemo.run (start (.newAdder [(Lit.pos 0, 1), (Lit.pos 1, 1)]) 3 [(Lit.pos 0, 1), (Lit.pos 1, 1)])
      [.encodeUb 0 0, .extend [(Lit.pos 2, 1)]] = some w ∧
    w.enc.enforceUb 0 = .ok A ∧ ClauseSet.sat m w.formula ∧ cubeSat m A ∧ wsum m w.ins = 1 := by
  refine ⟨_, [Lit.negOf 5], fun v => v = 2, rfl, by decide, ?_, by unfold cubeSat; decide, by decide⟩
  unfold ClauseSet.sat Clause.sat
  decide

/-- **C92** (violation): after `encode_both(2, 3)` of the adder, neither the lower bound 3 nor equality with 3 can be
enforced. -/
theorem C92_violated_adder_skipped : (PyEncDemo.run (start (.newAdder [(Lit.pos 0, 1), (Lit.pos 1, 1), (Lit.pos 2, 1)]) 3
      [(Lit.pos 0, 1), (Lit.pos 1, 1), (Lit.pos 2, 1)]) [.encodeBoth 2 3]).map (fun w => (w.enc.enforceLb 3, w.enc.enforceEq 3)) =
    some (.runtimeError, .runtimeError) := by decide

/-- **C92** (violation): weights of a literal that occurs twice are added by `extend`, but only the last one counts in
`__new__`. -/
theorem C92_violated_repeated_literal :
    (PyEnc.newGte [(Lit.pos 0, 3), (Lit.pos 0, 2)]).weightSum = 2 ∧ ((PyEnc.newGte []).extend [(Lit.pos 0, 3), (Lit.pos 0, 2)]).weightSum = 5 := by decide

/-- **C92** (violation): a weight of zero is accepted by `GeneralizedTotalizer`, and then `encode_ub` panics;
`DynamicPolyWatchdog` panics when it is created. -/
theorem C92_violated_zero_weight :
    ((PyEnc.newGte [(Lit.pos 0, 0), (Lit.pos 1, 2)]).encodeUb 0 0 (PyVarManager.new 2)).isNone = true ∧
    (PyEnc.newDpw [(Lit.pos 0, 0), (Lit.pos 1, 1)]).isNone = true := by decide

end RustSat
