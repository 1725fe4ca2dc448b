import Verif.Lemmas.CertEncodePb3
import Verif.Props.CertEncode
/-
C67: encoding a pseudo-Boolean constraint with proof logging.
-/
namespace RustSat
open VeriPb Pigeons TotDb Card CertTot

variable {VM : Type} [ManageVars VM] [LawfulVM VM]

omit [LawfulVM VM] in
/-- From the internal description of what happened to the one of the specification. -/
theorem ppost_checked {f : List Constr} {V : Nat → Prop} {P : Asg → Prop} {vm : VM} {cls : List (Clause × Nat)} {p : Proof} {s : State}
    {r : VM × List (Clause × Nat) × Proof} (h : CheckedProof f vm p s) (hp : PbPost V P vm cls p s r) :
    ∃ new s', r.2.1 = cls ++ new ∧ CheckedProof f r.1 r.2.2 s' ∧ (∀ i, i < p.nextId → s'.get i = s.get i) ∧ ClausesHaveIds s' new ∧
      Encodes V (ManageVars.nUsed vm) (ManageVars.nUsed r.1) (new.map (·.1)) P ∧
      ∀ b, s.sat b → ∃ b', s'.sat b' ∧ ∀ v, v < ManageVars.nUsed vm ∨ ManageVars.nUsed r.1 ≤ v → b' v = b v := by
  obtain ⟨new, s', h1, h2, h3⟩ := hp
  obtain ⟨ls, l1, l2, l3⟩ := h2.lines
  refine ⟨new, s', h1, ⟨?_, h2.inn.next, ?_⟩, fun i hi => h2.grow.keep i (by rw [h.next]; exact hi),
    fun x hx => (h2.new x hx).2.2, h3, fun b hb => ?_⟩
  · rw [l1, run_append, h.run]; exact l2
  · rintro v ⟨d, hd, hv⟩
    exact h2.inn.vars d hd v hv
  · obtain ⟨b', g1, g2⟩ := (run_sound ls h.inn.ok l2).2 b hb
    refine ⟨b', g1, fun v hv => g2 v fun hw => ?_⟩
    have := l3 v hw
    omega

/-- **C67.** Encoding a pseudo-Boolean constraint whose id in the proof is given never panics. The clauses are appended to
the ones collected before; the checker accepts the extended proof; constraints keep their ids; every new clause comes with
the id of a constraint that says the same; and the new clauses encode the constraint.

Missing: constraints that are not `Certifiable`; see the theorems on violations. -/
theorem C67_encode_partial (Du Dl : List (Lit × Nat) → Nat → Prop) (ub lb : PbFn VM) (hu : PbFn.OfferedUb Du ub)
    (hl : PbFn.OfferedLb Dl lb) (f : List Constr) (c : PbConstraint) (hc : c.Certifiable Du Dl) (id : Nat) (vm : VM)
    (cls : List (Clause × Nat)) (p : Proof) (s : State) (h : CheckedProof f vm p s) (hid : c.hasId s id)
    (hv : ∀ x ∈ c.lits, x.1.var < ManageVars.nUsed vm) :
    ∃ vm' new p' s', encodePbCert ub lb c id vm cls p = some (vm', cls ++ new, p') ∧ CheckedProof f vm' p' s' ∧
      (∀ i, i < p.nextId → s'.get i = s.get i) ∧ ClausesHaveIds s' new ∧
      Encodes (varsOf (c.lits.map (·.1))) (ManageVars.nUsed vm) (ManageVars.nUsed vm') (new.map (·.1)) c.sat := by
  obtain ⟨⟨vm', cls', p'⟩, e, hp⟩ := encodePbCert_spec (law_offeredUb hu) (law_offeredLb hl) hc cls h hid hv
  obtain ⟨new, s', h1, h2, h3, h4, h5, -⟩ := ppost_checked h hp
  have h1 : cls' = cls ++ new := h1
  subst h1
  exact ⟨vm', new, p', s', e, h2, h3, h4, h5⟩

/-- **C67** for the default encoding, whatever the order in which hash maps are iterated. -/
theorem C67_default_partial (perm : LitMap → LitMap) (hperm : ∀ m, (perm m).Perm m) (f : List Constr) (c : PbConstraint)
    (hc : c.Certifiable GteDerivable fun lits b => GteDerivable (negWeighted lits) ((lits.map (·.2)).sum - b)) (id : Nat) (vm : VM)
    (cls : List (Clause × Nat)) (p : Proof) (s : State) (h : CheckedProof f vm p s) (hid : c.hasId s id)
    (hv : ∀ x ∈ c.lits, x.1.var < ManageVars.nUsed vm) :
    ∃ vm' new p' s', defaultEncodePbCert perm c id vm cls p = some (vm', cls ++ new, p') ∧ CheckedProof f vm' p' s' ∧
      (∀ i, i < p.nextId → s'.get i = s.get i) ∧ ClausesHaveIds s' new ∧
      Encodes (varsOf (c.lits.map (·.1))) (ManageVars.nUsed vm) (ManageVars.nUsed vm') (new.map (·.1)) c.sat :=
  C67_encode_partial _ _ _ _ (.gte perm hperm) (.inverted _ _ (.gte perm hperm)) f c hc id vm cls p s h hid hv

/-- **C67** for encodings that treat the constraint as a cardinality constraint with repeated literals: no condition on the
bound. -/
theorem C67_card_partial (ce ce' : CardCert VM) (hce : ce.Offered) (hce' : ce'.Offered) (f : List Constr) (c : PbConstraint)
    (hr : c.Regular) (hnn : ∀ l ws b, c = .eq l ws b → 0 ≤ b) (hcard : c.Direct ∨ ∀ w, (∀ x ∈ c.lits, x.2 = w) → w = 1)
    (hsm : c.weightSum < isizeMax) (id : Nat) (vm : VM) (cls : List (Clause × Nat)) (p : Proof) (s : State)
    (h : CheckedProof f vm p s) (hid : c.hasId s id) (hv : ∀ x ∈ c.lits, x.1.var < ManageVars.nUsed vm) :
    ∃ vm' new p' s', encodePbCert (PbFn.cardUb ce) (PbFn.cardLb ce') c id vm cls p = some (vm', cls ++ new, p') ∧
      CheckedProof f vm' p' s' ∧ (∀ i, i < p.nextId → s'.get i = s.get i) ∧ ClausesHaveIds s' new ∧
      Encodes (varsOf (c.lits.map (·.1))) (ManageVars.nUsed vm) (ManageVars.nUsed vm') (new.map (·.1)) c.sat := by
  refine C67_encode_partial _ _ _ _ (.card ce hce) (.card ce' hce') f c ⟨hr, hnn, hcard, Or.inr (Or.inr ?_), hsm⟩ id vm cls p s h hid hv
  cases c <;> simp [PbConstraint.Within]

/-- **C67.** An assignment that satisfies everything in the database of the checker becomes one that satisfies also
everything that was derived, and the new clauses, by changing only variables that were handed out by the variable
manager. -/
theorem C67_models_partial (Du Dl : List (Lit × Nat) → Nat → Prop) (ub lb : PbFn VM) (hu : PbFn.OfferedUb Du ub)
    (hl : PbFn.OfferedLb Dl lb) (f : List Constr) (c : PbConstraint) (hc : c.Certifiable Du Dl) (id : Nat) (vm vm' : VM)
    (cls new : List (Clause × Nat)) (p p' : Proof) (s s' : State) (h : CheckedProof f vm p s) (hid : c.hasId s id)
    (hv : ∀ x ∈ c.lits, x.1.var < ManageVars.nUsed vm) (he : encodePbCert ub lb c id vm cls p = some (vm', cls ++ new, p'))
    (hs : run (start f) p'.lines = some s') (b : Asg) (hb : ∀ d ∈ s.constrs, d.sat b) :
    ∃ b', (∀ d ∈ s'.constrs, d.sat b') ∧ ClauseSet.sat b' (new.map (·.1)) ∧
      ∀ v, v < ManageVars.nUsed vm ∨ ManageVars.nUsed vm' ≤ v → b' v = b v := by
  obtain ⟨r, e, hp⟩ := encodePbCert_spec (law_offeredUb hu) (law_offeredLb hl) hc cls h hid hv
  obtain ⟨new', s2, h1, h2, -, h4, -, h6⟩ := ppost_checked h hp
  rw [he] at e
  injection e with e
  subst e
  have h1 := List.append_cancel_left (show cls ++ new = cls ++ new' from h1)
  subst h1
  have : s' = s2 := by
    have e' := h2.run
    rw [hs] at e'
    injection e'
  subst this
  obtain ⟨b', g1, g2⟩ := h6 b hb
  refine ⟨b', g1, fun cl hcl => ?_, g2⟩
  obtain ⟨x, hx, rfl⟩ := List.mem_map.1 hcl
  obtain ⟨d, hd, hd'⟩ := h4 x hx
  exact (hd' b').1 (g1 d (State.get_mem hd))

/-! ### A concrete case -/

/-- `x0 + 2 x1 + 3 x2`. -/
def demoCertPb : List (Lit × Nat) := [(Lit.pos 0, 1), (Lit.pos 1, 2), (Lit.pos 2, 3)]

/-- The formula `x0 + 2 x1 + 3 x2 >= 3`, `x0 + 2 x1 + 3 x2 <= 3`. -/
def demoCertPbFormula : List Constr :=
  [⟨[(1, Lit.pos 0), (2, Lit.pos 1), (3, Lit.pos 2)], 3⟩, ⟨[(1, Lit.negOf 0), (2, Lit.negOf 1), (3, Lit.negOf 2)], 3⟩]

/-- Non-vacuity: the hypotheses of the theorem hold. -/
theorem demoCertPb_checked : CheckedProof (VM := BasicVM) demoCertPbFormula ⟨4⟩ (Proof.new 2) (start demoCertPbFormula) := by
  refine ⟨rfl, rfl, ?_⟩
  rintro v ⟨d, hd, t, ht, rfl⟩
  have : ∀ d ∈ (start demoCertPbFormula).constrs, ∀ t ∈ d.terms, t.1 < 4 := by decide
  exact this d hd t ht

example : (PbConstraint.eq demoCertPb 6 3).hasId (start demoCertPbFormula) 1 ∧ (PbConstraint.ub demoCertPb 6 3).hasId (start demoCertPbFormula) 2 ∧
    (PbConstraint.lb demoCertPb 6 3).hasId (start demoCertPbFormula) 1 := ⟨⟨rfl, rfl⟩, rfl, rfl⟩

theorem demoCertPb_certifiable : (PbConstraint.eq demoCertPb 6 3).Certifiable GteDerivable
    fun lits b => GteDerivable (negWeighted lits) ((lits.map (·.2)).sum - b) := by
  have hne : ∀ w, ¬ ∀ x ∈ demoCertPb, x.2 = w := fun w h => by
    have h1 := h (Lit.pos 0, 1) (by decide)
    have h2 := h (Lit.pos 1, 2) (by decide)
    simp only at h1 h2
    omega
  exact ⟨⟨rfl, (show ∀ x ∈ demoCertPb, 0 < x.2 by decide), Or.inr (by decide), fun l ws b w e h => by cases e; exact absurd h (hne w)⟩,
    fun l ws b e => by cases e; decide, Or.inr fun w h => absurd h (hne w), Or.inr (Or.inr ⟨by decide, by decide⟩), by decide⟩

set_option maxRecDepth 20000 in
/-- Non-vacuity: variables, clauses and lines are added. -/
example : (defaultEncodePbCert (fun m => m) (.ub demoCertPb 6 3) 2 (⟨4⟩ : BasicVM) [] (Proof.new 2)).map
      (fun r => (ManageVars.nUsed r.1, r.2.1.length, r.2.2.lines.length)) = some (9, 8, 19) := by decide

/-! ### Violations -/

/-- **C67 is violated** by `5 x0 + x1 <= 2`, by `3 x0 + x1 >= 2` and by `x0 + 2 x1 = 2`: literals whose weight exceeds the
bound are left out of the structure, the others alone cannot exceed the bound, and there is no output to derive the units
from: encoding panics. -/
theorem C67_violated_no_output :
    (defaultEncodePbCert (fun m => m) (.ub [(Lit.pos 0, 5), (Lit.pos 1, 1)] 6 2) 1 (⟨2⟩ : BasicVM) [] (Proof.new 1)).isNone = true ∧
    (defaultEncodePbCert (fun m => m) (.lb [(Lit.pos 0, 3), (Lit.pos 1, 1)] 4 2) 1 (⟨2⟩ : BasicVM) [] (Proof.new 1)).isNone = true ∧
    (defaultEncodePbCert (fun m => m) (.eq [(Lit.pos 0, 1), (Lit.pos 1, 2)] 3 2) 1 (⟨2⟩ : BasicVM) [] (Proof.new 2)).isNone = true := by
  decide

/-- What the proof says about the last clause of the encoding of an upper bound, whose id is 1. -/
def lastClause (lits : List (Lit × Nat)) (ws : Nat) (b : Int) : Option (Option (Clause × Nat) × Option Ineq) :=
  (defaultEncodePbCert (fun m => m) (.ub lits ws b) 1 (⟨4⟩ : BasicVM) [] (Proof.new 1)).map fun r =>
    (r.2.1.getLast?, (run (start [⟨lits.map fun x => (x.2, x.1.neg), ws - b⟩]) r.2.2.lines).bind fun s =>
      r.2.1.getLast?.bind fun x => s.get x.2)

set_option maxRecDepth 20000 in
/-- **C67 is violated** by `3 x0 + 3 x1 + 7 x2 <= 4`: the literals in the structure have the same weight, which becomes a
multiplier, but the derivation of the units ignores it. The checker accepts, but the clause `~o` gets the id of
`~x0 + ~x1 + ~o >= 1`, which does not say the same. -/
theorem C67_violated_multiplier :
    lastClause [(Lit.pos 0, 3), (Lit.pos 1, 3), (Lit.pos 2, 7)] 13 4 =
      some (some ([Lit.negOf 4], 7), some ⟨[(0, -1), (1, -1), (4, -1)], -2⟩) ∧
    (⟨[(0, -1), (1, -1), (4, -1)], -2⟩ : Ineq).sat (fun v => v == 4) ∧ ¬ Clause.sat (fun v => v == 4) [Lit.negOf 4] := by
  refine ⟨by decide, ?_, ?_⟩
  · unfold Ineq.sat; decide
  · unfold Clause.sat; decide

set_option maxRecDepth 20000 in
/-- **C67 is violated** by `3 x0 + 3 x1 + 3 x2 <= 4`: the constraint is turned into a cardinality constraint, which is then
encoded with the id of the original constraint. The checker accepts, but the clause `~o` gets the id of a constraint that
does not say the same. -/
theorem C67_violated_cardinality :
    lastClause [(Lit.pos 0, 3), (Lit.pos 1, 3), (Lit.pos 2, 3)] 9 4 =
      some (some ([Lit.negOf 6], 13), some ⟨[(0, -2), (1, -2), (2, -2), (6, -2)], -4⟩) ∧
    (⟨[(0, -2), (1, -2), (2, -2), (6, -2)], -4⟩ : Ineq).sat (fun v => v == 6) ∧ ¬ Clause.sat (fun v => v == 6) [Lit.negOf 6] := by
  refine ⟨by decide, ?_, ?_⟩
  · unfold Ineq.sat; decide
  · unfold Clause.sat; decide

/-- **C67 is violated** by an equality with a negative bound, as `x0 = -1`: the empty clause is derived from the lower bound,
although the upper bound is the one that cannot be satisfied. The checker rejects. -/
theorem C67_violated_negative :
    (defaultEncodePbCert (fun m => m) (.eq [(Lit.pos 0, 1)] 1 (-1)) 1 (⟨1⟩ : BasicVM) [] (Proof.new 2)).map
      (fun r => (r.2.1, run (start [⟨[(1, Lit.pos 0)], -1⟩, ⟨[(1, Lit.negOf 0)], 2⟩]) r.2.2.lines)) =
      some ([([], 3)], none) := by decide

end RustSat
