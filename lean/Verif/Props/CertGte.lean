import Verif.Lemmas.CertGte
import Verif.Props.Gte
import Verif.Props.Cert
/-
C66: the certified generalized totalizer, over all histories of operations.
-/
namespace RustSat
open VeriPb Pigeons TotDb Card
variable {VM : Type} [ManageVars VM] [LawfulVM VM]

/-- **C66.** Allowed operations never panic. -/
theorem C66_no_panic (w : CertGteWorld VM) (h : w.Reach) (op : CertGteOp VM) (ha : w.allowed op) :
    ∃ w', w.step op = some w' ∧ w'.Reach := by
  obtain ⟨s, hi⟩ := h.inv
  obtain ⟨w', -, e, -⟩ := CertGteWorld.step_spec w hi op ha
  exact ⟨w', e, .step w w' op h ha e⟩

/-- **C66.** After any history the checker accepts everything that was written to the proof, its next id is the one of
the proof, and every collected clause comes with the id of a constraint that says the same. -/
theorem C66_accepted (w : CertGteWorld VM) (h : w.Reach) :
    ∃ s, w.checked = some s ∧ s.next = w.enc.proof.nextId ∧
      ∀ x ∈ w.enc.cls, ∃ d, s.get x.2 = some d ∧ ∀ b, d.sat b ↔ Clause.sat b x.1 := by
  obtain ⟨s, hi⟩ := h.inv
  exact ⟨s, hi.run, hi.enc.next, fun x hx => (hi.cls x hx).2.2.2⟩

/-- **C66.** With proof logging the encoder does the same as without: the same variables, clauses and state, so that C33
holds. -/
theorem C66_same (w : CertGteWorld VM) (h : w.Reach) :
    GteWorld.Reach anyGteOp w.pb ∧
    ∀ op w', w.allowed (.pb op) → w.step (.pb op) = some w' → w.pb.step op = some w'.pb := by
  refine ⟨h.pb, fun op w' ha hs => ?_⟩
  obtain ⟨s, hi⟩ := h.inv
  obtain ⟨w2, -, e, -, k⟩ := CertGteWorld.step_spec w hi _ ha
  rw [e] at hs
  injection hs with hs
  rw [← hs]
  exact k

/-- **C66.** Every model of the formula becomes a model of everything in the proof, and of all collected clauses, by
changing only variables that were handed out to the encoder or that the user substituted. -/
theorem C66_models (w : CertGteWorld VM) (h : w.Reach) (b : Asg) (hb : ∀ c ∈ w.formula, c.sat b) :
    ∃ s b', w.checked = some s ∧ (∀ d ∈ s.constrs, d.sat b') ∧ ClauseSet.sat b' (w.enc.cls.map (·.1)) ∧
      ∀ v, v ∉ w.own → v ∉ w.subst → b' v = b v := by
  obtain ⟨s, hi⟩ := h.inv
  obtain ⟨b', h1, h2⟩ := (run_sound _ (start_ok w.formula) hi.run).2 b (start_sat hb)
  refine ⟨s, b', hi.run, h1, fun c hc => ?_, fun v hv1 hv2 => h2 v fun hw => (hi.wit v hw).elim hv1 hv2⟩
  obtain ⟨x, hx, rfl⟩ := List.mem_map.1 hc
  obtain ⟨-, -, -, D, hD, hd⟩ := hi.cls x hx
  exact (hd b').1 (h1 D (State.get_mem hD))

namespace CertGteDemo

/-- Deciding whether an operation is allowed. -/
def allowedB (w : CertGteWorld VM) : CertGteOp VM → Bool
  | .pb op =>
    GteDemo.allowedB w.pb op &&
      (match op with | .add lits => decide ((w.ins.map (·.2)).sum + (lits.map (·.2)).sum < isizeMax) | _ => true)
  | .line l =>
    match w.checked with
    | none => false
    | some s =>
      (VeriPb.step s l).isSome && (l.deleted.all fun id => w.userIds.contains id) &&
        l.vars.all fun v => decide (v < ManageVars.nUsed w.enc.vm) &&
          (!w.own.contains v || s.constrs.any fun d => d.terms.any fun t => t.1 == v)

/-- Running a history; `none` if an operation panics or is not allowed. -/
def run (w : CertGteWorld VM) : List (CertGteOp VM) → Option (CertGteWorld VM)
  | [] => some w
  | op :: ops => if allowedB w op then (w.step op).bind fun w => run w ops else none

omit [LawfulVM VM] in
theorem allowedB_sound (w : CertGteWorld VM) (op : CertGteOp VM) (h : allowedB w op = true) : w.allowed op := by
  cases op with
  | pb op =>
    simp only [allowedB, Bool.and_eq_true] at h
    refine ⟨?_, ?_⟩
    · have h1 := h.1
      cases op with
      | add lits => exact fun x hx => by simpa using List.all_eq_true.1 h1 x hx
      | _ => simp_all [GteDemo.allowedB, GteWorld.allowed]
    · have h2 := h.2
      cases op <;> simp_all
  | line l =>
    simp only [allowedB] at h
    cases hc : w.checked with
    | none => rw [hc] at h; cases h
    | some s =>
      rw [hc] at h
      simp only [Bool.and_eq_true, List.all_eq_true, decide_eq_true_eq, Bool.or_eq_true, Bool.not_eq_true',
        List.any_eq_true, beq_iff_eq] at h
      obtain ⟨⟨h1, h2⟩, h3⟩ := h
      obtain ⟨s', hs'⟩ := Option.isSome_iff_exists.1 h1
      refine ⟨s, s', hc, hs', fun id hid => by simpa using h2 id hid, fun v hv => ?_⟩
      obtain ⟨a1, a2⟩ := h3 v hv
      refine ⟨a1, a2.imp (fun h => by simpa using h) fun h => ?_⟩
      obtain ⟨d, hd, t, ht, e⟩ := h
      exact ⟨d, hd, t, ht, e⟩

omit [LawfulVM VM] in
/-- The concrete histories used in examples lead to reachable states. -/
theorem run_reach : ∀ (ops : List (CertGteOp VM)) (w w' : CertGteWorld VM), w.Reach → run w ops = some w' → w'.Reach := by
  intro ops
  induction ops with
  | nil => intro w w' h e; cases e; exact h
  | cons op ops ih =>
    intro w w' h e
    unfold run at e
    by_cases ha : allowedB w op = true
    · rw [if_pos ha] at e
      cases hs : w.step op with
      | none => rw [hs] at e; cases e
      | some w1 =>
        rw [hs] at e
        exact ih w1 w' (.step w w1 op h (allowedB_sound w op ha) hs) e
    · rw [if_neg ha] at e; cases e

/-- The start of a concrete history: weights 1, 2 and 3 for variables 0, 1, 2; four variables are in use; the formula
consists of two constraints. -/
def start : CertGteWorld BasicVM :=
  CertGteWorld.start [(Lit.pos 0, 1), (Lit.pos 1, 2), (Lit.pos 2, 3)] ⟨4⟩ demoFormula

theorem start_reach : start.Reach := .start _ _ _ (by decide) (by decide) (by decide) (by decide)

/-- A concrete history: encoding with the heavy literal left out, a cutting planes derivation of the user and deleting
it again, and including the heavy literal and another one. -/
def ops : List (CertGteOp BasicVM) :=
  [.line (.pol [.id 1, .id 2, .add, .div 2]), .pb (.encodeUb ⟨.unbounded, .excl 2⟩), .line (.del [3, 1]),
   .pb (.add [(Lit.pos 3, 2)]), .pb (.encodeUbChange ⟨.incl 3, .incl 3⟩)]

end CertGteDemo

set_option maxRecDepth 20000 in
/-- Non-vacuity: the history is allowed, collects clauses and writes lines that are accepted. -/
example : ((CertGteDemo.run CertGteDemo.start CertGteDemo.ops).map fun w =>
    (w.enc.cls.length, w.enc.proof.lines.length, w.enc.proof.nextId, w.own.length, w.checked.isSome)) =
  some (12, 34, 36, 9, true) := by decide

end RustSat
