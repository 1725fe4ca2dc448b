import Verif.Lemmas.CertEncode2
import Verif.Props.Cert
/-
C64: encoding a cardinality constraint with proof logging. C65: calling an encoding directly.
-/
namespace RustSat
open VeriPb Pigeons TotDb Card CertTot

variable {VM : Type} [ManageVars VM] [LawfulVM VM]

omit [LawfulVM VM] in
/-- From the internal description of what happened to the one of the specification. -/
theorem post_checked {S : ClsRel VM} {f : List Constr} {c : CardConstraint} {vm : VM} {cls : List (Clause × Nat)} {p : Proof} {s : State}
    {r : VM × List (Clause × Nat) × Proof} (h : CheckedProof f vm p s) (hp : Post S c vm cls p s r) :
    ∃ new s', r.2.1 = cls ++ new ∧ CheckedProof f r.1 r.2.2 s' ∧ (∀ i, i < p.nextId → s'.get i = s.get i) ∧ ClausesHaveIds s' new ∧
      Encodes (varsOf c.lits) (ManageVars.nUsed vm) (ManageVars.nUsed r.1) (new.map (·.1)) c.sat ∧
      (∀ b, s.sat b → ∃ b', s'.sat b' ∧ ∀ v, v < ManageVars.nUsed vm ∨ ManageVars.nUsed r.1 ≤ v → b' v = b v) ∧
      S c vm (cls.map (·.1)) r.1 (new.map (·.1)) := by
  obtain ⟨new, s', h1, h2, h3, h4⟩ := hp
  obtain ⟨ls, l1, l2, l3⟩ := h2.lines
  refine ⟨new, s', h1, ⟨?_, h2.inn.next, ?_⟩, fun i hi => h2.grow.keep i (by rw [h.next]; exact hi),
    fun x hx => (h2.new x hx).2.2, h3, fun b hb => ?_, h4⟩
  · rw [l1, run_append, h.run]; exact l2
  · rintro v ⟨d, hd, hv⟩
    exact h2.inn.vars d hd v hv
  · obtain ⟨b', g1, g2⟩ := (run_sound ls h.inn.ok l2).2 b hb
    refine ⟨b', g1, fun v hv => g2 v fun hw => ?_⟩
    have := l3 v hw
    omega

/-! ### C64 -/

/-- **C64.** Encoding a cardinality constraint whose id in the proof is given never panics. The clauses are appended to the
ones collected before; the checker accepts the extended proof; constraints keep their ids; every new clause comes with the
id of a constraint that says the same; and the new clauses encode the constraint. -/
theorem C64_encode (ce : CardCert VM) (hce : ce.Offered) (f : List Constr) (c : CardConstraint) (id : Nat) (vm : VM)
    (cls : List (Clause × Nat)) (p : Proof) (s : State) (h : CheckedProof f vm p s) (hid : c.hasId s id)
    (hv : ∀ l ∈ c.lits, l.var < ManageVars.nUsed vm) (hn : c.lits.length < isizeMax) :
    ∃ vm' new p' s', encodeCardCert ce c id vm cls p = some (vm', cls ++ new, p') ∧ CheckedProof f vm' p' s' ∧
      (∀ i, i < p.nextId → s'.get i = s.get i) ∧ ClausesHaveIds s' new ∧
      Encodes (varsOf c.lits) (ManageVars.nUsed vm) (ManageVars.nUsed vm') (new.map (·.1)) c.sat := by
  obtain ⟨⟨vm', cls', p'⟩, e, hp⟩ := encodeCardCert_spec (lawful_offered hce) cls h hid hv hn
  obtain ⟨new, s', h1, h2, h3, h4, h5, -⟩ := post_checked h hp
  have h1 : cls' = cls ++ new := h1
  subst h1
  exact ⟨vm', new, p', s', e, h2, h3, h4, h5⟩

/-- **C64.** An assignment that satisfies everything in the database of the checker becomes one that satisfies also
everything that was derived, and the new clauses, by changing only variables that were handed out by the variable
manager. -/
theorem C64_models (ce : CardCert VM) (hce : ce.Offered) (f : List Constr) (c : CardConstraint) (id : Nat) (vm vm' : VM)
    (cls new : List (Clause × Nat)) (p p' : Proof) (s s' : State) (h : CheckedProof f vm p s) (hid : c.hasId s id)
    (hv : ∀ l ∈ c.lits, l.var < ManageVars.nUsed vm) (hn : c.lits.length < isizeMax)
    (he : encodeCardCert ce c id vm cls p = some (vm', cls ++ new, p')) (hs : run (start f) p'.lines = some s') (b : Asg)
    (hb : ∀ d ∈ s.constrs, d.sat b) :
    ∃ b', (∀ d ∈ s'.constrs, d.sat b') ∧ ClauseSet.sat b' (new.map (·.1)) ∧
      ∀ v, v < ManageVars.nUsed vm ∨ ManageVars.nUsed vm' ≤ v → b' v = b v := by
  obtain ⟨r, e, hp⟩ := encodeCardCert_spec (lawful_offered hce) cls h hid hv hn
  obtain ⟨new', s2, h1, h2, -, h4, -, h6, -⟩ := post_checked h hp
  rw [he] at e
  injection e with e
  subst e
  have h1 := List.append_cancel_left (show cls ++ new = cls ++ new' from h1)
  subst h1
  have : s' = s2 := by
    have := hs.symm.trans h2.run
    injection this
  subst this
  obtain ⟨b', g1, g2⟩ := h6 b hb
  refine ⟨b', g1, fun cl hcl => ?_, g2⟩
  obtain ⟨x, hx, rfl⟩ := List.mem_map.1 hcl
  obtain ⟨d, hd, hd'⟩ := h4 x hx
  exact (hd' b').1 (g1 d (State.get_mem hd))

/-- **C64.** With the default encoding, the variables and the clauses are the ones that result without proof logging. -/
theorem C64_same (f : List Constr) (c : CardConstraint) (id : Nat) (vm vm' : VM)
    (cls cls' : List (Clause × Nat)) (p p' : Proof) (s : State) (h : CheckedProof f vm p s) (hid : c.hasId s id)
    (hv : ∀ l ∈ c.lits, l.var < ManageVars.nUsed vm) (hn : c.lits.length < isizeMax)
    (he : defaultEncodeCardCert c id vm cls p = some (vm', cls', p')) :
    defaultEncodeCard c vm (cls.map (·.1)) = some (vm', cls'.map (·.1)) := by
  obtain ⟨r, e, hp⟩ := encodeCardCert_spec (lawful_totalizer (VM := VM)) cls h hid hv hn
  obtain ⟨new, s', h1, -, -, -, -, -, h7⟩ := post_checked h hp
  have e' := e.symm.trans he
  injection e' with e'
  subst e'
  have h1 : cls' = cls ++ new := h1
  subst h1
  rw [List.map_append]
  rcases h7 with h7 | ⟨h7, t1, t2, t3, t4, t5⟩
  · exact h7
  · show encodeCardinalityConstraint Totalizer c vm _ = _
    unfold encodeCardinalityConstraint
    have h7 : c.encodeConstr Totalizer vm (cls.map (·.1)) = .ok (vm', cls.map (·.1) ++ new.map (·.1)) := h7
    simp only [t1, t2, t3, t4, t5, h7]
    rfl

/-- A formula: `x0 + x1 + x2 + x3 >= 2` and `x0 + x1 + x2 + x3 <= 2`, that is `= 2`. -/
def demoCardFormula : List Constr :=
  [⟨[(1, Lit.pos 0), (1, Lit.pos 1), (1, Lit.pos 2), (1, Lit.pos 3)], 2⟩,
   ⟨[(1, Lit.negOf 0), (1, Lit.negOf 1), (1, Lit.negOf 2), (1, Lit.negOf 3)], 2⟩]

def demoLits4 : List Lit := [Lit.pos 0, Lit.pos 1, Lit.pos 2, Lit.pos 3]

theorem demoCard_checked : CheckedProof (VM := BasicVM) demoCardFormula ⟨4⟩ (Proof.new 2) (start demoCardFormula) := by
  refine ⟨rfl, rfl, ?_⟩
  rintro v ⟨d, hd, t, ht, rfl⟩
  have : ∀ d ∈ (start demoCardFormula).constrs, ∀ t ∈ d.terms, t.1 < 4 := by decide
  exact this d hd t ht

/-- Non-vacuity: the constraints have ids, and encodings that build structure add clauses, variables and lines. -/
example : (CardConstraint.eq demoLits4 2).hasId (start demoCardFormula) 1 ∧
    (CardConstraint.lb demoLits4 2).hasId (start demoCardFormula) 1 ∧
    (CardConstraint.ub demoLits4 2).hasId (start demoCardFormula) 2 := ⟨⟨rfl, rfl⟩, rfl, rfl⟩

set_option maxRecDepth 20000 in
example :
    (defaultEncodeCardCert (.eq demoLits4 2) 1 (⟨4⟩ : BasicVM) [] (Proof.new 2)).map
      (fun r => (ManageVars.nUsed r.1, r.2.1.length, r.2.2.lines.length)) = some (10, 18, 31) ∧
    (encodeCardCert (.inverted .totalizer) (.ub demoLits4 2) 2 (⟨4⟩ : BasicVM) [] (Proof.new 2)).map
      (fun r => (ManageVars.nUsed r.1, r.2.1.length, r.2.2.lines.length)) = some (9, 9, 20) := by decide

/-! ### C65 -/

/-- **C65.** Calling an encoding directly. Missing: bounds for which no structure is built; see the theorems on violations. -/
theorem C65_direct_partial (ce : CardCert VM) (hce : ce.Offered) (f : List Constr) (c : CardConstraint) (id : Nat) (vm : VM)
    (cls : List (Clause × Nat)) (p : Proof) (s : State) (h : CheckedProof f vm p s) (hid : c.hasId s id)
    (hv : ∀ l ∈ c.lits, l.var < ManageVars.nUsed vm) (hn : c.lits.length < isizeMax) (h2 : 2 ≤ c.lits.length)
    (hb : match c with
      | .ub lits b => b < lits.length
      | .lb lits b => 0 < b ∧ b ≤ lits.length
      | .eq lits b => 0 < b ∧ b < lits.length) :
    ∃ vm' new p' s', ce.constr c id vm cls p = .ok (vm', cls ++ new, p') ∧ CheckedProof f vm' p' s' ∧
      (∀ i, i < p.nextId → s'.get i = s.get i) ∧ ClausesHaveIds s' new ∧
      Encodes (varsOf c.lits) (ManageVars.nUsed vm) (ManageVars.nUsed vm') (new.map (·.1)) c.sat := by
  have key : ∃ r, ce.constr c id vm cls p = .ok r ∧ Post AnyCls c vm cls p s r := by
    cases c with
    | ub l b => exact (lawful_offered hce).ub l b id vm cls p s h.inn hv hn h2 hb (h.ub hid)
    | lb l b => exact (lawful_offered hce).lb l b id vm cls p s h.inn hv hn h2 hb.1 hb.2 (h.lb hid)
    | eq l b => exact (lawful_offered hce).eq l b id vm cls p s h.inn hv hn hb.1 hb.2 (h.lb hid.1) (h.ub hid.2)
  obtain ⟨⟨vm', cls', p'⟩, e, hp⟩ := key
  obtain ⟨new, s', h1, h2, h3, h4, h5, -⟩ := post_checked h hp
  have h1 : cls' = cls ++ new := h1
  subst h1
  exact ⟨vm', new, p', s', e, h2, h3, h4, h5⟩

/-- Non-vacuity: bounds within these limits that the function choosing what to do would handle otherwise. -/
example : (match CardCert.totalizer.constr (.ub demoLits4 0) 2 (⟨4⟩ : BasicVM) [] (Proof.new 2) with
    | .ok r => some (ManageVars.nUsed r.1, r.2.1.length, r.2.2.lines.length) | _ => none) = some (7, 7, 16) ∧
    (match CardCert.totalizer.constr (.lb demoLits4 4) 2 (⟨4⟩ : BasicVM) [] (Proof.new 2) with
    | .ok r => some (ManageVars.nUsed r.1, r.2.1.length, r.2.2.lines.length) | _ => none) = some (7, 7, 16) := by decide

omit [LawfulVM VM] in
/-- **C65** holds for upper bounds above the number of literals and lower bounds and equalities that cannot hold: the
totalizer adds nothing, respectively reports that. -/
theorem C65_trivial_partial (lits : List Lit) (b id : Nat) (vm : VM) (cls : List (Clause × Nat)) (p : Proof) (hb : lits.length < b) :
    CardCert.totalizer.ub lits b id vm cls p = .ok (vm, cls, p) ∧
    CardCert.totalizer.lb lits b id vm cls p = .err .unsat ∧
    CardCert.totalizer.eq lits b id vm cls p = .err .unsat := by
  refine ⟨?_, ?_, ?_⟩
  · show CertTot.encodeUbConstr lits b id vm cls p = _
    unfold CertTot.encodeUbConstr; rw [if_pos hb]
  · show CertTot.encodeLbConstr lits b id vm cls p = _
    unfold CertTot.encodeLbConstr; rw [if_pos hb]
  · show CertTot.encodeEqConstr lits b id vm cls p = _
    unfold CertTot.encodeEqConstr; rw [if_pos hb]

/-- Whether a call panics. -/
def panics {ε α : Type} : Res ε α → Bool
  | .panic => true
  | _ => false

/-- `x0 + x1 + x2 + x3 <= 4` and so on hold trivially and `x0 <= 0` is a unit: the totalizer builds no structure, and
**C65 is violated**, since deriving the unit panics. -/
theorem C65_violated_no_structure :
    panics (CardCert.totalizer.ub demoLits4 4 2 (⟨4⟩ : BasicVM) [] (Proof.new 2)) = true ∧
    panics (CardCert.totalizer.lb demoLits4 0 1 (⟨4⟩ : BasicVM) [] (Proof.new 2)) = true ∧
    panics (CardCert.totalizer.eq demoLits4 0 1 (⟨4⟩ : BasicVM) [] (Proof.new 2)) = true ∧
    panics (CardCert.totalizer.eq demoLits4 4 1 (⟨4⟩ : BasicVM) [] (Proof.new 2)) = true ∧
    panics (CardCert.totalizer.ub [Lit.pos 0] 0 1 (⟨4⟩ : BasicVM) [] (Proof.new 2)) = true ∧
    panics (CardCert.totalizer.lb [Lit.pos 0] 1 1 (⟨4⟩ : BasicVM) [] (Proof.new 2)) = true := by decide

/-- **C65 is violated** by the inverting simulator: bounds above the number of literals panic because of an underflow,
whatever the encoding inside. -/
theorem C65_violated_inverted (ce : CardCert BasicVM) :
    panics ((CardCert.inverted ce).ub demoLits4 5 1 ⟨4⟩ [] (Proof.new 2)) = true ∧
    panics ((CardCert.inverted ce).lb demoLits4 5 1 ⟨4⟩ [] (Proof.new 2)) = true := ⟨rfl, rfl⟩

end RustSat
