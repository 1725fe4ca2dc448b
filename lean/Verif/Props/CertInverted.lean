import Verif.Props.CertGte
import Verif.Lemmas.CertEncodePb3
import Verif.Spec.CertInverted
/-
C68: lower bounds with proof logging by the inverted generalized totalizer, over all histories of operations.
-/
namespace RustSat
open VeriPb Pigeons TotDb Card
variable {VM : Type} [ManageVars VM]

namespace CertInvWorld

/-- The history of the simulator is a history of the encoder inside. -/
structure Inner (w : CertInvWorld VM) (v : CertGteWorld VM) : Prop where
  reach : v.Reach
  enc : v.enc = w.enc.enc
  formula : v.formula = w.formula
  userIds : v.userIds = w.userIds
  ins : v.ins = negWeighted w.ins
  own : v.own = w.own
  sum : w.enc.sum = (w.ins.map (·.2)).sum
  pos : ∀ x ∈ w.ins, 0 < x.2

theorem Inner.checked {w : CertInvWorld VM} {v : CertGteWorld VM} (h : Inner w v) : v.checked = w.checked := by
  unfold CertGteWorld.checked CertInvWorld.checked
  rw [h.enc, h.formula]

theorem Inner.convert {w : CertInvWorld VM} {v : CertGteWorld VM} (h : Inner w v) (hpos : ∀ x ∈ w.ins, 0 < x.2) {r : URange}
    (h1 : r.hi ≠ .excl 0) (h2 : w.ins ≠ []) : ∃ r', w.enc.convert (Pb.prepareUbRange w.enc.sum r) = some r' ∧
      ∀ b, r.contains b → b < (w.ins.map (·.2)).sum → r'.contains (w.enc.sum - b) := by
  have hs : 0 < w.enc.sum := by
    rw [h.sum]
    obtain ⟨x, xs, e⟩ := List.exists_cons_of_ne_nil h2
    have := hpos x (by rw [e]; exact List.mem_cons_self ..)
    rw [e, List.map_cons, List.sum_cons]
    omega
  unfold Inverted.convert
  have hne : ¬ ((Pb.prepareUbRange w.enc.sum r).2 = 0 ∨ w.enc.sum < (Pb.prepareUbRange w.enc.sum r).2 - 1) := by
    unfold Pb.prepareUbRange
    simp only
    cases hh : r.hi with
    | incl b => simp only; omega
    | excl b =>
      have : b ≠ 0 := fun e => h1 (by rw [hh, e])
      simp only; omega
    | unbounded => simp only; omega
  rw [if_neg hne]
  refine ⟨_, rfl, fun b hb hlt => ?_⟩
  rw [← h.sum] at hlt
  obtain ⟨b1, b2⟩ := hb
  unfold URange.contains
  simp only
  unfold Pb.prepareUbRange at hne ⊢
  simp only at hne ⊢
  constructor
  · cases hh : r.hi with
    | incl c => rw [hh] at b2; simp only at b2 ⊢; omega
    | excl c => rw [hh] at b2; simp only at b2 ⊢; omega
    | unbounded => simp only; omega
  · cases hh : r.lo with
    | incl c => rw [hh] at b1; simp only at b1 ⊢; split <;> omega
    | excl c => rw [hh] at b1; simp only at b1 ⊢; split <;> omega
    | unbounded => simp only; split <;> omega

end CertInvWorld

variable [LawfulVM VM]
open CertInvWorld

theorem CertInvWorld.Inner.step {w : CertInvWorld VM} {v : CertGteWorld VM} (h : Inner w v) (op : CertInvOp VM) (ha : w.allowed op) :
    ∃ w' v', w.step op = some w' ∧ Inner w' v' ∧
      ∀ r, op = .encodeLb r ∨ op = .encodeLbChange r → w'.ins = w.ins ∧ ∀ b, r.contains b → b < (w.ins.map (·.2)).sum →
        ∃ A, CertInv.enforceLb w'.enc b = .ok A := by
  have enc : ∀ (r : URange) (f : CertGte VM → URange → Option (CertGte VM)) (gop : URange → GteOp VM)
      (ub : CertGteWorld VM → URange → Nat → Prop),
      (∀ (v : CertGteWorld VM) r, v.step (.pb (gop r)) = v.encoded (f v.enc r) (ub v r)) →
      (∀ (v : CertGteWorld VM) r, v.allowed (.pb (gop r))) →
      (∀ r, gop r = .encodeUb r ∨ gop r = .encodeUbChange r) → r.hi ≠ .excl 0 → w.ins ≠ [] →
      ∃ e', CertInv.encodeWith w.enc f r = some e' ∧ ∃ v',
        Inner { w with enc := e', own := w.own ++ CardWorld.handedOut w.enc.enc.vm e'.enc.vm } v' ∧
        ∀ b, r.contains b → b < (w.ins.map (·.2)).sum → ∃ A, CertInv.enforceLb e' b = .ok A := by
    intro r f gop ub hstep hall hop h1 h2
    obtain ⟨r', c1, c2⟩ := h.convert h.pos h1 h2
    obtain ⟨v', e1, e2⟩ := C66_no_panic v h.reach (.pb (gop r')) (hall v r')
    have e1' := e1
    rw [hstep] at e1
    unfold CertGteWorld.encoded at e1
    rw [h.enc] at e1
    cases hf : f w.enc.enc r' with
    | none => rw [hf] at e1; cases e1
    | some e' =>
      rw [hf] at e1
      injection e1 with e1
      refine ⟨⟨e', w.enc.sum⟩, by unfold CertInv.encodeWith; rw [c1]; simp only [hf]; rfl, v', ?_, fun b hb hlt => ?_⟩
      · subst e1
        exact ⟨e2, rfl, h.formula, h.userIds, h.ins, by show v.own ++ _ = w.own ++ _; rw [h.own], h.sum, h.pos⟩
      · have hsame := (C66_same v h.reach).2 _ v' (hall v r') e1'
        have hgte : v'.pb.gte = e'.gte := by subst e1; rfl
        have hav : ∃ A, v'.pb.gte.enforceUb (w.enc.sum - b) = .ok A := by
          rcases hop r' with e | e
          · rw [e] at hsame
            exact C33_available v.pb v'.pb h.reach.pb r' (Or.inl hsame) _ (c2 b hb hlt)
          · rw [e] at hsame
            exact C33_available v.pb v'.pb h.reach.pb r' (Or.inr hsame) _ (c2 b hb hlt)
        obtain ⟨A, hA⟩ := hav
        rw [hgte] at hA
        refine ⟨A, ?_⟩
        unfold CertInv.enforceLb
        rw [h.sum] at hA ⊢
        rw [if_pos (by omega)]
        exact hA
  cases op with
  | add lits =>
    obtain ⟨a1, a2, a3⟩ := ha
    have hneg : LitMap.ofList (lits.map fun x => (x.1.neg, x.2)) = negWeighted lits := LitMap.ofList_nodup _ (nodup_negWeighted a1)
    have hall : v.allowed (.pb (.add (negWeighted lits))) := by
      refine ⟨fun x hx => ?_, ?_⟩
      · obtain ⟨y, hy, rfl⟩ := List.mem_map.1 hx
        have := a2 y hy
        show 0 < y.2 ∧ y.1.neg.var < ManageVars.nUsed v.enc.vm ∧ y.1.neg.var ∉ v.own
        rw [Lit.var_neg, h.enc, h.own]
        exact this
      · show (v.ins.map (·.2)).sum + ((negWeighted lits).map (·.2)).sum < isizeMax
        rw [h.ins, sum_negWeighted, sum_negWeighted]; exact a3
    obtain ⟨v', e1, e2⟩ := C66_no_panic v h.reach _ hall
    refine ⟨_, v', rfl, ?_, fun r hr => by rcases hr with hr | hr <;> cases hr⟩
    have e1' : some { v with enc := { v.enc with gte := v.enc.gte.extend (negWeighted lits) }, ins := v.ins ++ negWeighted lits,
                             ub := fun b => v.ub b ∧ negWeighted lits = [] } = some v' := e1
    injection e1' with e1'
    subst e1'
    refine ⟨e2, ?_, h.formula, h.userIds, ?_, h.own, ?_, fun x hx => ?_⟩
    · show _ = (CertInv.extend w.enc lits).enc
      unfold CertInv.extend
      simp only
      rw [hneg, h.enc]
    · show v.ins ++ negWeighted lits = negWeighted (w.ins ++ lits)
      rw [h.ins]; simp [negWeighted]
    · show (CertInv.extend w.enc lits).sum = ((w.ins ++ lits).map (·.2)).sum
      unfold CertInv.extend
      simp only
      rw [hneg, sum_negWeighted, h.sum, List.map_append, List.sum_append]
    · rcases List.mem_append.1 hx with hx | hx
      · exact h.pos x hx
      · exact (a2 x hx).1
  | encodeLb r =>
    obtain ⟨e', a1, v', a2, a3⟩ := enc r CertGte.encodeUb .encodeUb (fun _ r => r.contains) (fun _ _ => rfl)
      (fun _ _ => ⟨trivial, trivial⟩) (fun _ => Or.inl rfl) ha.1 ha.2
    refine ⟨_, v', ?_, a2, fun r' hr => ?_⟩
    · show w.encoded (CertInv.encodeLb w.enc r) = _
      unfold CertInv.encodeLb CertInvWorld.encoded
      rw [a1]; rfl
    · rcases hr with hr | hr <;> cases hr
      exact ⟨rfl, a3⟩
  | encodeLbChange r =>
    obtain ⟨e', a1, v', a2, a3⟩ := enc r CertGte.encodeUbChange .encodeUbChange (fun v r b => r.contains b ∨
        (v.ub b ∧ ∀ x ∈ v.enc.gte.litBuffer, ∀ b', r.contains b' → b' < x.2)) (fun _ _ => rfl)
      (fun _ _ => ⟨trivial, trivial⟩) (fun _ => Or.inr rfl) ha.1 ha.2
    refine ⟨_, v', ?_, a2, fun r' hr => ?_⟩
    · show w.encoded (CertInv.encodeLbChange w.enc r) = _
      unfold CertInv.encodeLbChange CertInvWorld.encoded
      rw [a1]; rfl
    · rcases hr with hr | hr <;> cases hr
      exact ⟨rfl, a3⟩
  | useVars vm =>
    have hall : v.allowed (.pb (.useVars vm)) := ⟨by show ManageVars.nUsed v.enc.vm ≤ _; rw [h.enc]; exact ha, trivial⟩
    obtain ⟨v', e1, e2⟩ := C66_no_panic v h.reach _ hall
    refine ⟨_, v', rfl, ?_, fun r hr => by rcases hr with hr | hr <;> cases hr⟩
    have e1' : some { v with enc := { v.enc with vm := vm } } = some v' := e1
    injection e1' with e1'
    subst e1'
    exact ⟨e2, by show ({ v.enc with vm := vm } : CertGte VM) = _; rw [h.enc], h.formula, h.userIds, h.ins, h.own, h.sum, h.pos⟩
  | line l =>
    have hall : v.allowed (.line l) := by
      obtain ⟨s, s', a1, a2, a3, a4⟩ := ha
      exact ⟨s, s', by rw [h.checked]; exact a1, a2, fun id hid => by rw [h.userIds]; exact a3 id hid,
        fun x hx => by rw [h.enc, h.own]; exact a4 x hx⟩
    obtain ⟨v', e1, e2⟩ := C66_no_panic v h.reach _ hall
    refine ⟨_, v', rfl, ?_, fun r hr => by rcases hr with hr | hr <;> cases hr⟩
    have e1' : some { v with enc := { v.enc with proof := v.enc.proof.write l },
                             userIds := l.addId v.enc.proof.nextId v.userIds,
                             subst := v.subst ++ l.substituted } = some v' := e1
    injection e1' with e1'
    subst e1'
    refine ⟨e2, ?_, h.formula, ?_, h.ins, h.own, h.sum, h.pos⟩
    · show ({ v.enc with proof := v.enc.proof.write l } : CertGte VM) = { w.enc.enc with proof := w.enc.enc.proof.write l }
      rw [h.enc]
    · show l.addId v.enc.proof.nextId v.userIds = l.addId w.enc.enc.proof.nextId w.userIds
      rw [h.enc, h.userIds]

theorem CertInvWorld.Reach.inner {w : CertInvWorld VM} (h : w.Reach) : ∃ v, Inner w v := by
  induction h with
  | start lits vm formula hd hl hf hn =>
    have e1 : LitMap.ofList lits = lits := LitMap.ofList_nodup _ hd
    have e2 : LitMap.ofList (lits.map fun x => (x.1.neg, x.2)) = negWeighted lits := LitMap.ofList_nodup _ (nodup_negWeighted hd)
    refine ⟨CertGteWorld.start (negWeighted lits) vm formula, .start _ _ _ (nodup_negWeighted hd) (fun x hx => ?_) hf
      (by rw [sum_negWeighted]; exact hn), ?_, rfl, rfl, rfl, rfl, ?_, fun x hx => (hl x hx).1⟩
    · obtain ⟨y, hy, rfl⟩ := List.mem_map.1 hx
      show 0 < y.2 ∧ y.1.neg.var < _
      rw [Lit.var_neg]; exact hl y hy
    · show CertGte.new (negWeighted lits) vm [] _ = CertGte.new (LitMap.ofList ((LitMap.ofList lits).map fun x => (x.1.neg, x.2))) vm [] _
      rw [e1, e2]
    · show ((LitMap.ofList lits).map (·.2)).sum = _
      rw [e1]; rfl
  | step w w' op _ ha hs ih =>
    obtain ⟨v, hv⟩ := ih
    obtain ⟨w2, v', e, hv', -⟩ := hv.step op ha
    rw [hs] at e
    injection e with e
    subst e
    exact ⟨v', hv'⟩

/-- **C68.** Allowed operations never panic. -/
theorem C68_no_panic (w : CertInvWorld VM) (h : w.Reach) (op : CertInvOp VM) (ha : w.allowed op) :
    ∃ w', w.step op = some w' ∧ w'.Reach := by
  obtain ⟨v, hv⟩ := h.inner
  obtain ⟨w', -, e, -, -⟩ := hv.step op ha
  exact ⟨w', e, .step w w' op h ha e⟩

/-- **C68.** After any history the checker accepts everything that was written to the proof, its next id is the one of
the proof, and every collected clause comes with the id of a constraint that says the same. -/
theorem C68_accepted (w : CertInvWorld VM) (h : w.Reach) :
    ∃ s, w.checked = some s ∧ s.next = w.enc.enc.proof.nextId ∧
      ∀ x ∈ w.enc.enc.cls, ∃ d, s.get x.2 = some d ∧ ∀ b, d.sat b ↔ Clause.sat b x.1 := by
  obtain ⟨v, hv⟩ := h.inner
  obtain ⟨s, h1, h2, h3⟩ := C66_accepted v hv.reach
  rw [hv.checked] at h1
  rw [hv.enc] at h2 h3
  exact ⟨s, h1, h2, h3⟩

/-- **C68.** The assumptions returned for a lower bound enforce exactly that bound, and lower bounds above the sum of the
weights are reported as unsatisfiable. -/
theorem C68_lower_bound (w : CertInvWorld VM) (h : w.Reach) (b : Nat) :
    (∀ A, CertInv.enforceLb w.enc b = .ok A →
      (∀ m, ClauseSet.sat m (w.enc.enc.cls.map (·.1)) → cubeSat m A → b ≤ wsum m w.ins) ∧
      (∀ a, b ≤ wsum a w.ins → ∃ m, (∀ v, v ∉ w.own → m v = a v) ∧ ClauseSet.sat m (w.enc.enc.cls.map (·.1)) ∧ cubeSat m A)) ∧
    (CertInv.enforceLb w.enc b = .err .unsat ↔ (w.ins.map (·.2)).sum < b) := by
  obtain ⟨v, hv⟩ := h.inner
  have hr := hv.reach.pb
  have hneg : ∀ a, wsum a (negWeighted w.ins) + wsum a w.ins = w.enc.sum := fun a => by rw [hv.sum]; exact wsum_negWeighted a w.ins
  have htot := C33_enforce_total v.pb hr
  have hgte : v.pb.gte = w.enc.enc.gte := by show v.enc.gte = _; rw [hv.enc]
  have hins : v.pb.ins = negWeighted w.ins := hv.ins
  have hcls : v.pb.cls = w.enc.enc.cls.map (·.1) := by show v.enc.cls.map (·.1) = _; rw [hv.enc]
  have hown : v.pb.own = w.own := hv.own
  rw [hgte] at htot
  constructor
  · intro A hA
    unfold CertInv.enforceLb at hA
    by_cases hb : w.enc.sum ≥ b
    · rw [if_pos hb] at hA
      obtain ⟨h1, h2⟩ := C33_upper_bound v.pb hr (w.enc.sum - b) A (by rw [hgte]; exact hA)
      rw [hins, hcls] at h1 h2
      rw [hown] at h2
      constructor
      · intro m hm hc
        have := h1 m hm hc
        have := hneg m
        omega
      · intro a ha
        exact h2 a (by have := hneg a; omega)
    · rw [if_neg hb] at hA; cases hA
  · unfold CertInv.enforceLb
    rw [← hv.sum]
    by_cases hb : w.enc.sum ≥ b
    · rw [if_pos hb]
      refine ⟨fun e => ?_, fun e => by omega⟩
      rcases htot (w.enc.sum - b) with ⟨A, hA⟩ | hA
      · rw [hA] at e; cases e
      · rw [hA] at e; cases e
    · rw [if_neg hb]
      exact ⟨fun _ => by omega, fun _ => rfl⟩

/-- **C68.** After encoding a range, the bounds in that range are available. Missing: the bound that requires all literals
to be true; see the theorem on violations. -/
theorem C68_available_partial (w w' : CertInvWorld VM) (h : w.Reach) (r : URange) (op : CertInvOp VM)
    (hop : op = .encodeLb r ∨ op = .encodeLbChange r) (ha : w.allowed op) (hs : w.step op = some w') (b : Nat) (hb : r.contains b)
    (hlt : b < (w.ins.map (·.2)).sum) : ∃ A, CertInv.enforceLb w'.enc b = .ok A := by
  obtain ⟨v, hv⟩ := h.inner
  obtain ⟨w2, v', e, -, k⟩ := hv.step op ha
  rw [hs] at e
  injection e with e
  subst e
  exact (k r hop).2 b hb hlt

/-! ### A concrete case -/

namespace CertInvDemo

/-- The inverted encoder for `x0 + 2 x1 + 3 x2`. -/
def start : CertInvWorld BasicVM :=
  CertInvWorld.start [(Lit.pos 0, 1), (Lit.pos 1, 2), (Lit.pos 2, 3)] ⟨4⟩ demoFormula

theorem start_reach : start.Reach := .start _ _ _ (by decide) (by decide) (by decide) (by decide)

end CertInvDemo

example : CertInvDemo.start.allowed (.encodeLb ⟨.incl 3, .incl 3⟩) := ⟨by decide, by decide⟩

set_option maxRecDepth 20000 in
/-- Non-vacuity: bounds in the range become available, clauses are collected, and the checker accepts. -/
example : ((CertInvDemo.start.step (.encodeLb ⟨.incl 3, .incl 3⟩)).map fun w =>
      (CertInv.enforceLb w.enc 3, w.enc.enc.cls.length, w.checked.isSome)) =
      some (.ok [Lit.negOf 4, Lit.negOf 6, Lit.negOf 8], 5, true) := by decide

set_option maxRecDepth 20000 in
/-- **C68 is violated**: after encoding all lower bounds, or first the bound `3` and then the bound `6`, the bound `6`, which
requires all literals to be true, is not available. Without proof logging it is. -/
theorem C68_violated_all_true :
    ((CertInvDemo.start.step (.encodeLb ⟨.incl 0, .incl 6⟩)).map fun w => CertInv.enforceLb w.enc 6) = some (.err .notEncoded) ∧
    ((CertInvDemo.start.step (.encodeLbChange ⟨.incl 0, .incl 6⟩)).map fun w => CertInv.enforceLb w.enc 6) =
      some (.err .notEncoded) ∧
    (((CertInvDemo.start.step (.encodeLb ⟨.incl 3, .incl 3⟩)).bind fun w => w.step (.encodeLb ⟨.incl 6, .incl 6⟩)).map fun w =>
      CertInv.enforceLb w.enc 6) = some (.err .notEncoded) ∧
    ((BoundLower.encodeLb (Encoder.new [(Lit.pos 0, 1), (Lit.pos 1, 2), (Lit.pos 2, 3)] : Inverted Gte) ⟨.incl 0, .incl 6⟩
      (⟨4⟩ : BasicVM) []).map fun x => EnforceLb.enforceLb x.1 6) = some (.ok [Lit.negOf 4, Lit.negOf 5, Lit.negOf 7]) := by
  decide

end RustSat
