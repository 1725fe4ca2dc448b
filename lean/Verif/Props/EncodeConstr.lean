import Verif.Lemmas.EncodeConstr
/-
C37, C38: encoding whole constraints and instances.
-/
namespace RustSat
open Card

section
variable {VM : Type} [ManageVars VM]

/-- **C37** (cardinality constraints, any encoding). For every lawful encoding that accepts single bounds, every
cardinality constraint over known variables — also with repeated literals —: `encode_cardinality_constraint` does not
panic, and adds clauses over the variables of the constraint and new variables, whose models restricted to the old
variables are exactly the assignments satisfying the constraint. -/
theorem C37_card (E : Type) [Encoder E Lit] [EncodeInc E VM] [LawfulEnc E Lit VM] [BoundUpper E VM] [EnforceUb E]
    [LawfulUb E Lit VM] [BoundLower E VM] [EnforceLb E] [LawfulLb E Lit VM] [BoundBoth E VM] [EnforceEq E]
    [LawfulBoth E Lit VM] (acc : AcceptsSingle E Lit VM) (c : CardConstraint) (vm : VM)
    (hv : ∀ l ∈ c.lits, l.var < ManageVars.nUsed vm) (cls : ClauseSet) :
    ∃ vm' new, encodeCardinalityConstraint E c vm cls = some (vm', cls ++ new) ∧
      Encodes (varsOf c.lits) (ManageVars.nUsed vm) (ManageVars.nUsed vm') new c.sat :=
  addsCard E acc c vm hv cls

/-- **C37** (`default_encode_cardinality_constraint`), unfolded. -/
theorem C37_card_default [LawfulVM VM] (c : CardConstraint) (vm : VM) (hv : ∀ l ∈ c.lits, l.var < ManageVars.nUsed vm)
    (cls : ClauseSet) :
    ∃ vm' new, defaultEncodeCard c vm cls = some (vm', cls ++ new) ∧
      (∀ b, ClauseSet.sat b new → c.sat b) ∧
      (∀ a, c.sat a → ∃ b, (∀ v, v < ManageVars.nUsed vm ∨ ManageVars.nUsed vm' ≤ v → b v = a v) ∧ ClauseSet.sat b new) ∧
      (∀ cl ∈ new, ∀ l ∈ cl, (∃ x ∈ c.lits, x.var = l.var) ∨ (ManageVars.nUsed vm ≤ l.var ∧ l.var < ManageVars.nUsed vm')) := by
  obtain ⟨vm', new, h1, h2⟩ := C37_card Totalizer acceptsTotalizer c vm hv cls
  exact ⟨vm', new, h1, h2.sound, h2.complete, h2.vars⟩

/-- **C37** for the inverted totalizer. -/
theorem C37_card_inverted [LawfulVM VM] (c : CardConstraint) (vm : VM) (hv : ∀ l ∈ c.lits, l.var < ManageVars.nUsed vm)
    (cls : ClauseSet) :
    ∃ vm' new, encodeCardinalityConstraint (Inverted Totalizer) c vm cls = some (vm', cls ++ new) ∧
      Encodes (varsOf c.lits) (ManageVars.nUsed vm) (ManageVars.nUsed vm') new c.sat :=
  C37_card _ acceptsInverted c vm hv cls

/-- Non-vacuity: a constraint that is really encoded, with a repeated literal. -/
example : (∀ l ∈ (CardConstraint.eq [Lit.pos 0, Lit.pos 0, Lit.negOf 1, Lit.pos 2] 2).lits, l.var < ManageVars.nUsed (⟨3⟩ : BasicVM)) ∧
    ((defaultEncodeCard (.eq [Lit.pos 0, Lit.pos 0, Lit.negOf 1, Lit.pos 2] 2) (⟨3⟩ : BasicVM) []).map fun r => r.2.length) = some 18 := by
  decide

/-- **C37** (PB constraints, any encoding), for regular constraints: weights are positive, no literal is repeated unless
all weights are equal, and the common weight divides the bound of an equality. Without these conditions the property is
violated, see below. -/
theorem C37_pb_partial [LawfulVM VM] (E : Type) [Encoder E (Lit × Nat)] [EncodeInc E VM] [LawfulEnc E (Lit × Nat) VM]
    [BoundUpper E VM] [EnforceUb E] [LawfulUb E (Lit × Nat) VM] [BoundLower E VM] [EnforceLb E] [LawfulLb E (Lit × Nat) VM]
    [BoundBoth E VM] [EnforceEq E] [LawfulBoth E (Lit × Nat) VM] (acc : AcceptsSingle E (Lit × Nat) VM) (c : PbConstraint)
    (hr : c.Regular) (vm : VM) (hv : ∀ p ∈ c.lits, p.1.var < ManageVars.nUsed vm) (cls : ClauseSet) :
    ∃ vm' new, encodePbConstraint E c vm cls = some (vm', cls ++ new) ∧
      Encodes (varsOf (c.lits.map (·.1))) (ManageVars.nUsed vm) (ManageVars.nUsed vm') new c.sat :=
  addsPb E acc c hr vm hv cls

/-- **C37** (`default_encode_pb_constraint`), unfolded. -/
theorem C37_pb_default_partial [LawfulVM VM] (c : PbConstraint) (hr : c.Regular) (vm : VM)
    (hv : ∀ p ∈ c.lits, p.1.var < ManageVars.nUsed vm) (cls : ClauseSet) :
    ∃ vm' new, defaultEncodePb c vm cls = some (vm', cls ++ new) ∧
      (∀ b, ClauseSet.sat b new → c.sat b) ∧
      (∀ a, c.sat a → ∃ b, (∀ v, v < ManageVars.nUsed vm ∨ ManageVars.nUsed vm' ≤ v → b v = a v) ∧ ClauseSet.sat b new) ∧
      (∀ cl ∈ new, ∀ l ∈ cl, (∃ x ∈ c.lits.map (·.1), x.var = l.var) ∨
        (ManageVars.nUsed vm ≤ l.var ∧ l.var < ManageVars.nUsed vm')) := by
  obtain ⟨vm', new, h1, h2⟩ := C37_pb_partial DoubleGte acceptsDoubleGte c hr vm hv cls
  exact ⟨vm', new, h1, h2.sound, h2.complete, h2.vars⟩

/-- **C37** for a cardinality encoding simulating a PB encoding. -/
theorem C37_pb_card_partial [LawfulVM VM] (c : PbConstraint) (hr : c.Regular) (vm : VM)
    (hv : ∀ p ∈ c.lits, p.1.var < ManageVars.nUsed vm) (cls : ClauseSet) :
    ∃ vm' new, encodePbConstraint (CardSim Totalizer) c vm cls = some (vm', cls ++ new) ∧
      Encodes (varsOf (c.lits.map (·.1))) (ManageVars.nUsed vm) (ManageVars.nUsed vm') new c.sat :=
  C37_pb_partial _ (acceptsCardSim acceptsTotalizer) c hr vm hv cls

/-- 2 x0 + 3 x1 + 5 ¬x2 = 5. -/
def demoPb : PbConstraint := .eq [(Lit.pos 0, 2), (Lit.pos 1, 3), (Lit.negOf 2, 5)] 10 5

theorem demoPb_regular : demoPb.Regular where
  wf := by unfold PbConstraint.WF; decide
  pos := by unfold PbConstraint.PosWeights; decide
  nodup := .inr (by decide)
  divides l ws b w h hw := by
    cases h
    have h1 := hw (Lit.pos 0, 2) (by simp)
    have h2 := hw (Lit.pos 1, 3) (by simp)
    simp only at h1 h2
    omega

/-- Non-vacuity: a regular constraint that is really encoded. -/
example : demoPb.Regular ∧ (∀ p ∈ demoPb.lits, p.1.var < ManageVars.nUsed (⟨3⟩ : BasicVM)) ∧
    ((defaultEncodePb demoPb (⟨3⟩ : BasicVM) []).map fun r => r.2.length) = some 16 :=
  ⟨demoPb_regular, by decide, by decide⟩

/-- **C37** violated: with a repeated literal, `2 x0 + 3 x0 + x1 ≤ 3` is encoded as `3 x0 + x1 ≤ 3`, which allows `x0`. -/
theorem C37_violated_repeated :
    ∃ c vm' new, c = PbConstraint.ub [(Lit.pos 0, 2), (Lit.pos 0, 3), (Lit.pos 1, 1)] 6 3 ∧
      (defaultEncodePb c (⟨2⟩ : BasicVM) []) = some (vm', new) ∧ ∃ b, ClauseSet.sat b new ∧ ¬ c.sat b := by
  refine ⟨_, ⟨3⟩, [[Lit.negOf 1, Lit.negOf 0, Lit.pos 2], [Lit.negOf 2]], rfl, by decide, fun v => v == 0, ?_, ?_⟩
  · unfold ClauseSet.sat Clause.sat; decide
  · unfold PbConstraint.sat; decide

/-- **C37** violated: with a repeated literal, `2 x0 + 3 x0 + x1 ≥ 5` panics. -/
theorem C37_violated_repeated_panics :
    defaultEncodePb (.lb [(Lit.pos 0, 2), (Lit.pos 0, 3), (Lit.pos 1, 1)] 6 5) (⟨2⟩ : BasicVM) [] = none := by decide

/-- **C37** violated: an equality whose common weight does not divide the bound, `2 x0 + 2 x2 = 1`, panics. -/
theorem C37_violated_indivisible :
    defaultEncodePb (.eq [(Lit.pos 0, 2), (Lit.pos 2, 2)] 4 1) (⟨3⟩ : BasicVM) [] = none := by decide

/-- **C37** violated: a weight zero makes the encoding panic, `0 x0 + 3 x2 + 2 x1 ≥ 2`; and `0 x0 = 0` becomes `x0`. -/
theorem C37_violated_zero_weight :
    defaultEncodePb (.lb [(Lit.pos 0, 0), (Lit.pos 2, 3), (Lit.pos 1, 2)] 5 2) (⟨3⟩ : BasicVM) [] = none ∧
    defaultEncodePb (.eq [(Lit.pos 0, 0)] 0 0) (⟨1⟩ : BasicVM) [] = some (⟨1⟩, [[Lit.pos 0]]) := by decide

/-! ### C38 -/

/-- **C38**. For every instance whose variables are known to the variable manager and whose PB constraints are regular:
the conversion does not panic; the result consists of the clauses of the instance and further clauses; an assignment of
the original variables satisfies the instance iff it extends to a model of the CNF. -/
theorem C38_partial [LawfulVM VM] (s : SatInstance VM) (hk : s.Known) (hr : ∀ c ∈ s.pbs, c.Regular) :
    ∃ new vm', s.intoCnf = some (s.cnf ++ new, vm') ∧
      s.convertToCnf = some ⟨s.cnf ++ new, [], [], vm'⟩ ∧
      (∀ b, ClauseSet.sat b (s.cnf ++ new) → s.sat b) ∧
      ManageVars.nUsed s.vm ≤ ManageVars.nUsed vm' ∧
      (∀ a, s.sat a → ∃ b, (∀ v, v < ManageVars.nUsed s.vm ∨ ManageVars.nUsed vm' ≤ v → b v = a v) ∧
        ClauseSet.sat b (s.cnf ++ new)) ∧
      (∀ cl ∈ s.cnf ++ new, ∀ l ∈ cl, s.hasVar l.var ∨ (ManageVars.nUsed s.vm ≤ l.var ∧ l.var < ManageVars.nUsed vm')) := by
  obtain ⟨vm1, n1, e1, i1⟩ := addsAll defaultEncodeCard (fun c => varsOf c.lits) (fun c a => c.sat a)
    (fun c a b h => CardConstraint.sat_congr_vars h) s.cards s.vm
    (fun c hc vm' hvm => addsCard Totalizer acceptsTotalizer c vm' fun l hl =>
      Nat.lt_of_lt_of_le (hk _ (.inr (.inl ⟨c, hc, l, hl, rfl⟩))) hvm)
    (fun c hc v ⟨l, hl, hv⟩ => hk _ (.inr (.inl ⟨c, hc, l, hl, hv⟩))) s.cnf
  have hkp : ∀ c ∈ s.pbs, ∀ p ∈ c.lits, p.1.var < ManageVars.nUsed vm1 := fun c hc p hp =>
    Nat.lt_of_lt_of_le (hk _ (.inr (.inr ⟨c, hc, p, hp, rfl⟩))) i1.le
  obtain ⟨vm2, n2, e2, i2⟩ := addsAll defaultEncodePb (fun c : PbConstraint => varsOf (c.lits.map fun p : Lit × Nat => p.1)) (fun c a => c.sat a)
    (fun c a b h => PbConstraint.sat_congr_vars h) s.pbs vm1
    (fun c hc vm' hvm => addsPb DoubleGte acceptsDoubleGte c (hr c hc) vm' fun p hp =>
      Nat.lt_of_lt_of_le (hkp c hc p hp) hvm)
    (fun c hc v ⟨l, hl, hv⟩ => by
      obtain ⟨p, hp, rfl⟩ := List.mem_map.1 hl
      rw [← hv]; exact hkp c hc p hp) (s.cnf ++ n1)
  have e3 : s.convertToCnf = some ⟨s.cnf ++ (n1 ++ n2), [], [], vm2⟩ := by
    unfold SatInstance.convertToCnf SatInstance.convertToCnfWith
    rw [e1]
    simp only
    rw [e2, List.append_assoc]
  have j0 : Encodes s.hasVar (ManageVars.nUsed s.vm) (ManageVars.nUsed s.vm) s.cnf fun a => ClauseSet.sat a s.cnf :=
    Encodes.static fun c hc l hl => .inl ⟨c, hc, l, hl, rfl⟩
  have j1 := i1.weaken (V' := s.hasVar) fun v ⟨c, hc, l, hl, hv⟩ => .inr (.inl ⟨c, hc, l, hl, hv⟩)
  have j2 := i2.weaken (V' := s.hasVar) fun v ⟨c, hc, l, hl, hv⟩ => by
    obtain ⟨p, hp, rfl⟩ := List.mem_map.1 hl
    exact .inr (.inr ⟨c, hc, p, hp, hv⟩)
  have j3 := j0.append (j1.append j2 hk fun a b hab hp c hc => PbConstraint.sat_congr_vars (fun v ⟨l, hl, hv⟩ => by
      obtain ⟨p, hp, rfl⟩ := List.mem_map.1 hl
      exact hab v (.inr (.inr ⟨c, hc, p, hp, hv⟩))) (hp c hc)) hk (fun a b hab hp => ⟨fun c hc =>
        CardConstraint.sat_congr_vars (fun v ⟨l, hl, hv⟩ => hab v (.inr (.inl ⟨c, hc, l, hl, hv⟩))) (hp.1 c hc),
      fun c hc => PbConstraint.sat_congr_vars (fun v ⟨l, hl, hv⟩ => by
        obtain ⟨p, hp, rfl⟩ := List.mem_map.1 hl
        exact hab v (.inr (.inr ⟨c, hc, p, hp, hv⟩))) (hp.2 c hc)⟩)
  refine ⟨n1 ++ n2, vm2, ?_, e3, j3.sound, j3.le, j3.complete, j3.vars⟩
  unfold SatInstance.intoCnf; rw [e3]; rfl

/-- An instance with all kinds of constraints. -/
def demoInst : SatInstance BasicVM :=
  ⟨[[Lit.pos 0, Lit.negOf 3]], [.lb [Lit.pos 0, Lit.pos 1, Lit.negOf 2] 2], [demoPb], ⟨4⟩⟩

/-- Non-vacuity. -/
example : demoInst.Known ∧ (∀ c ∈ demoInst.pbs, c.Regular) ∧
    (demoInst.intoCnf.map fun r => (r.1.length, r.2.nextVar)) = some (23, 17) := by
  refine ⟨?_, ?_, by decide⟩
  · rintro v (⟨c, hc, l, hl, rfl⟩ | ⟨c, hc, l, hl, rfl⟩ | ⟨c, hc, l, hl, rfl⟩)
    · revert c l; decide
    · revert c l; decide
    · revert c l; decide
  · intro c hc
    rw [List.mem_singleton.1 hc]
    exact demoPb_regular

/-- **C38** violated without `Known`: instances extended by clauses (`C17_violated_extend_clauses`) are converted with
auxiliary variables that occur in the clauses: here a satisfiable instance becomes unsatisfiable. -/
theorem C38_violated_unknown :
    ∃ (s : SatInstance BasicVM) (f : ClauseSet) (vm' : BasicVM), s = SatInstance.extendClauses
        ⟨[], [.lb [Lit.pos 0, Lit.pos 1, Lit.negOf 2] 2], [], ⟨3⟩⟩ [[Lit.negOf 5]] ∧
      (∃ a, s.sat a) ∧ s.intoCnf = some (f, vm') ∧ ¬ ∃ b, ClauseSet.sat b f := by
  refine ⟨_, [[Lit.negOf 5], [Lit.pos 0, Lit.pos 1, Lit.negOf 3], [Lit.pos 0, Lit.negOf 4], [Lit.pos 1, Lit.negOf 4],
    [Lit.pos 3, Lit.negOf 5], [Lit.pos 4, Lit.negOf 2, Lit.negOf 5], [Lit.pos 5]], ⟨6⟩, rfl,
    ⟨fun v => v < 2, ?_⟩, by decide, ?_⟩
  · refine ⟨?_, ?_, fun c hc => by cases hc⟩
    · unfold ClauseSet.sat Clause.sat; decide
    · intro c hc
      rw [List.mem_singleton.1 hc]
      unfold CardConstraint.sat
      decide
  · rintro ⟨b, hb⟩
    obtain ⟨l, hl, h1⟩ := hb [Lit.negOf 5] (by simp)
    rw [List.mem_singleton.1 hl, Lit.holds_negOf] at h1
    obtain ⟨l, hl, h2⟩ := hb [Lit.pos 5] (by simp)
    rw [List.mem_singleton.1 hl, Lit.holds_pos] at h2
    rw [h2] at h1
    cases h1

end
end RustSat
