import Verif.Lemmas.CertEncodePb2
/-
Encoding whole pseudo-Boolean constraints with proof logging: the simulators and the choice of what to do.
-/
namespace RustSat
open TotDb Pigeons VeriPb Card CertTot

variable {VM : Type} [ManageVars VM]

theorem wsum_congr_vars {a b : Asg} : ∀ {lits : List (Lit × Nat)}, (∀ v, varsOf (lits.map (·.1)) v → a v = b v) → wsum a lits = wsum b lits := by
  intro lits
  induction lits with
  | nil => intro _; rfl
  | cons x xs ih =>
    intro h
    have h1 := h x.1.var ⟨x.1, by simp, rfl⟩
    have h2 := ih fun v ⟨l, hl, e⟩ => h v ⟨l, by rw [List.map_cons]; exact List.mem_cons_of_mem _ hl, e⟩
    have h3 : x.1.holds a = x.1.holds b := by simp only [Lit.holds, h1]
    rw [wsum_cons, wsum_cons, h2, h3]

theorem length_repeatLits (lits : List (Lit × Nat)) : (PbConstraint.repeatLits lits).length = (lits.map (·.2)).sum := by
  unfold PbConstraint.repeatLits
  rw [List.length_flatMap]
  simp

theorem mem_repeatLits {lits : List (Lit × Nat)} {l : Lit} (h : l ∈ PbConstraint.repeatLits lits) : ∃ x ∈ lits, x.1 = l := by
  unfold PbConstraint.repeatLits at h
  obtain ⟨x, hx, h⟩ := List.mem_flatMap.1 h
  exact ⟨x, hx, (List.eq_of_mem_replicate h).symm⟩

theorem vars_repeatLits {lits : List (Lit × Nat)} {v : Nat} (h : varsOf (PbConstraint.repeatLits lits) v) : varsOf (lits.map (·.1)) v := by
  obtain ⟨l, hl, rfl⟩ := h
  obtain ⟨x, hx, rfl⟩ := mem_repeatLits hl
  exact ⟨x.1, List.mem_map.2 ⟨x, hx, rfl⟩, rfl⟩

/-- What an encoding guarantees for upper bounds. -/
def LawUbP (D : List (Lit × Nat) → Nat → Prop) (f : PbFn VM) : Prop :=
  ∀ (lits : List (Lit × Nat)) (b id : Nat) (vm : VM) (cls : List (Clause × Nat)) (p : Proof) (s : State),
    In vm p s → (∀ x ∈ lits, 0 < x.2 ∧ x.1.var < ManageVars.nUsed vm) → (lits.map (·.1)).Nodup → (lits.map (·.2)).sum < isizeMax →
    0 < b → b < (lits.map (·.2)).sum → D lits b → HasDef s id (fun a => b - wsum a lits) →
    ∃ r, f lits (lits.map (·.2)).sum b id vm cls p = .ok r ∧
      PbPost (varsOf (lits.map (·.1))) (fun a => wsum a lits ≤ b) vm cls p s r

/-- What an encoding guarantees for lower bounds. -/
def LawLbP (D : List (Lit × Nat) → Nat → Prop) (f : PbFn VM) : Prop :=
  ∀ (lits : List (Lit × Nat)) (b id : Nat) (vm : VM) (cls : List (Clause × Nat)) (p : Proof) (s : State),
    In vm p s → (∀ x ∈ lits, 0 < x.2 ∧ x.1.var < ManageVars.nUsed vm) → (lits.map (·.1)).Nodup → (lits.map (·.2)).sum < isizeMax →
    0 < b → b < (lits.map (·.2)).sum → D lits b → HasDef s id (fun a => wsum a lits - b) →
    ∃ r, f lits (lits.map (·.2)).sum b id vm cls p = .ok r ∧
      PbPost (varsOf (lits.map (·.1))) (fun a => b ≤ wsum a lits) vm cls p s r

theorem PbPost.congr {V V' : Nat → Prop} {P P' : Asg → Prop} {vm : VM} {cls : List (Clause × Nat)} {p : Proof} {s : State}
    {r : VM × List (Clause × Nat) × Proof} (h : PbPost V P vm cls p s r) (hV : ∀ v, V v → V' v) (hP : ∀ a, P a ↔ P' a) :
    PbPost V' P' vm cls p s r := by
  obtain ⟨new, s', h1, h2, h3⟩ := h
  exact ⟨new, s', h1, h2, (h3.weaken hV).congr hP⟩

theorem law_gte [LawfulVM VM] {perm : LitMap → LitMap} (hperm : ∀ m, (perm m).Perm m) :
    LawUbP (VM := VM) GteDerivable (PbFn.gte perm) :=
  fun _ _ _ _ cls _ _ h hl hd hn _ _ hD hid => CertGte.ub_gte hperm cls h hd hl hn hD hid

theorem law_cardUb {ce : CardCert VM} (hce : LawUb AnyCls ce.ub) : LawUbP (fun _ _ => True) (PbFn.cardUb ce) := by
  intro lits b id vm cls p s h hl hd hn hb0 hb _ hid
  obtain ⟨r, a1, new, s', a2, a3, a4, -⟩ := hce (PbConstraint.repeatLits lits) b id vm cls p s h
    (fun l hl' => by obtain ⟨x, hx, rfl⟩ := mem_repeatLits hl'; exact (hl x hx).2)
    (by rw [length_repeatLits]; exact hn) (by rw [length_repeatLits]; omega) (by rw [length_repeatLits]; omega)
    (by
      obtain ⟨q1, D, q2, q3⟩ := hid
      refine ⟨q1, D, q2, fun a => ?_⟩
      show D.slack a = (b : Int) - countTrue a (PbConstraint.repeatLits lits)
      rw [PbConstraint.countTrue_repeatLits]; exact q3 a)
  refine ⟨r, ?_, new, s', a2, a3, (a4.weaken fun v hv => vars_repeatLits hv).congr fun a => ?_⟩
  · unfold PbFn.cardUb
    simp only [PbConstraint.extendToCardConstr, Int.natAbs_natCast]
    exact a1
  · show countTrue a (PbConstraint.repeatLits lits) ≤ b ↔ _
    rw [PbConstraint.countTrue_repeatLits]

theorem law_cardLb {ce : CardCert VM} (hce : LawLb AnyCls ce.lb) : LawLbP (fun _ _ => True) (PbFn.cardLb ce) := by
  intro lits b id vm cls p s h hl hd hn hb0 hb _ hid
  obtain ⟨r, a1, new, s', a2, a3, a4, -⟩ := hce (PbConstraint.repeatLits lits) b id vm cls p s h
    (fun l hl' => by obtain ⟨x, hx, rfl⟩ := mem_repeatLits hl'; exact (hl x hx).2)
    (by rw [length_repeatLits]; exact hn) (by rw [length_repeatLits]; omega) hb0 (by rw [length_repeatLits]; omega)
    (by
      obtain ⟨q1, D, q2, q3⟩ := hid
      refine ⟨q1, D, q2, fun a => ?_⟩
      show D.slack a = (countTrue a (PbConstraint.repeatLits lits) : Int) - b
      rw [PbConstraint.countTrue_repeatLits]; exact q3 a)
  refine ⟨r, ?_, new, s', a2, a3, (a4.weaken fun v hv => vars_repeatLits hv).congr fun a => ?_⟩
  · unfold PbFn.cardLb
    simp only [PbConstraint.extendToCardConstr, Int.natAbs_natCast]
    exact a1
  · show b ≤ countTrue a (PbConstraint.repeatLits lits) ↔ _
    rw [PbConstraint.countTrue_repeatLits]

theorem sum_negWeighted (lits : List (Lit × Nat)) : ((negWeighted lits).map (·.2)).sum = (lits.map (·.2)).sum := by
  unfold negWeighted
  rw [List.map_map]
  rfl

theorem vars_negWeighted (lits : List (Lit × Nat)) {v : Nat} (h : varsOf ((negWeighted lits).map (·.1)) v) : varsOf (lits.map (·.1)) v := by
  obtain ⟨l, hl, rfl⟩ := h
  obtain ⟨x, hx, rfl⟩ := List.mem_map.1 hl
  obtain ⟨y, hy, rfl⟩ := List.mem_map.1 hx
  exact ⟨y.1, List.mem_map.2 ⟨y, hy, rfl⟩, (Lit.var_neg y.1).symm⟩

theorem nodup_negWeighted {lits : List (Lit × Nat)} (h : (lits.map (·.1)).Nodup) : ((negWeighted lits).map (·.1)).Nodup := by
  have e : (negWeighted lits).map (·.1) = (lits.map (·.1)).map Lit.neg := by
    unfold negWeighted
    rw [List.map_map, List.map_map]
    rfl
  rw [e]
  refine List.Pairwise.map _ (fun a b hab hn => hab ?_) h
  have := congrArg Lit.neg hn
  rwa [Lit.neg_neg, Lit.neg_neg] at this

theorem wsum_negWeighted (a : Asg) (lits : List (Lit × Nat)) : wsum a (negWeighted lits) + wsum a lits = (lits.map (·.2)).sum := by
  rw [← wtotal_eq_sum]
  exact wsum_map_neg a lits

theorem law_invertedUb {D : List (Lit × Nat) → Nat → Prop} {f : PbFn VM} (hf : LawLbP D f) :
    LawUbP (fun lits b => D (negWeighted lits) ((lits.map (·.2)).sum - b)) (PbFn.invertedUb f) := by
  intro lits b id vm cls p s h hl hd hn hb0 hb hD hid
  obtain ⟨r, a1, a2⟩ := hf (negWeighted lits) ((lits.map (·.2)).sum - b) id vm cls p s h
    (fun x hx => by
      obtain ⟨y, hy, rfl⟩ := List.mem_map.1 hx
      refine ⟨(hl y hy).1, ?_⟩
      show y.1.neg.var < _
      rw [Lit.var_neg]; exact (hl y hy).2)
    (nodup_negWeighted hd) (by rw [sum_negWeighted]; exact hn) (by omega) (by rw [sum_negWeighted]; omega) hD
    (by
      obtain ⟨q1, E, q2, q3⟩ := hid
      refine ⟨q1, E, q2, fun a => ?_⟩
      have h1 : E.slack a = (b : Int) - wsum a lits := q3 a
      have h2 := wsum_negWeighted a lits
      show E.slack a = (wsum a (negWeighted lits) : Int) - ((lits.map (·.2)).sum - b : Nat)
      omega)
  rw [sum_negWeighted] at a1
  refine ⟨r, ?_, a2.congr (fun v hv => vars_negWeighted lits hv) fun a => ?_⟩
  · unfold PbFn.invertedUb
    simp only [PbConstraint.invertUb]
    have e : -(b : Int) + ((lits.map (·.2)).sum : Nat) = ((lits.map (·.2)).sum - b : Nat) := by omega
    rw [e]
    exact a1
  · have := wsum_negWeighted a lits
    omega

theorem law_invertedLb {D : List (Lit × Nat) → Nat → Prop} {f : PbFn VM} (hf : LawUbP D f) :
    LawLbP (fun lits b => D (negWeighted lits) ((lits.map (·.2)).sum - b)) (PbFn.invertedLb f) := by
  intro lits b id vm cls p s h hl hd hn hb0 hb hD hid
  obtain ⟨r, a1, a2⟩ := hf (negWeighted lits) ((lits.map (·.2)).sum - b) id vm cls p s h
    (fun x hx => by
      obtain ⟨y, hy, rfl⟩ := List.mem_map.1 hx
      refine ⟨(hl y hy).1, ?_⟩
      show y.1.neg.var < _
      rw [Lit.var_neg]; exact (hl y hy).2)
    (nodup_negWeighted hd) (by rw [sum_negWeighted]; exact hn) (by omega) (by rw [sum_negWeighted]; omega) hD
    (by
      obtain ⟨q1, E, q2, q3⟩ := hid
      refine ⟨q1, E, q2, fun a => ?_⟩
      have h1 : E.slack a = (wsum a lits : Int) - b := q3 a
      have h2 := wsum_negWeighted a lits
      show E.slack a = ((lits.map (·.2)).sum - b : Nat) - (wsum a (negWeighted lits) : Int)
      omega)
  rw [sum_negWeighted] at a1
  refine ⟨r, ?_, a2.congr (fun v hv => vars_negWeighted lits hv) fun a => ?_⟩
  · unfold PbFn.invertedLb
    simp only [PbConstraint.invertLb]
    have e : -(b : Int) + ((lits.map (·.2)).sum : Nat) = ((lits.map (·.2)).sum - b : Nat) := by omega
    rw [e]
    exact a1
  · have := wsum_negWeighted a lits
    omega

mutual
theorem law_offeredUb [LawfulVM VM] : ∀ {D : List (Lit × Nat) → Nat → Prop} {f : PbFn VM}, PbFn.OfferedUb D f → LawUbP D f
  | _, _, .gte _ h => law_gte h
  | _, _, .card _ h => law_cardUb (lawful_offered h).ub
  | _, _, .inverted _ _ h => law_invertedUb (law_offeredLb h)
theorem law_offeredLb [LawfulVM VM] : ∀ {D : List (Lit × Nat) → Nat → Prop} {f : PbFn VM}, PbFn.OfferedLb D f → LawLbP D f
  | _, _, .card _ h => law_cardLb (lawful_offered h).lb
  | _, _, .inverted _ _ h => law_invertedLb (law_offeredUb h)
end

/-- An equality: both bounds one after the other. -/
theorem law_both {Du Dl : List (Lit × Nat) → Nat → Prop} {u l : PbFn VM} (hu : LawUbP Du u) (hl : LawLbP Dl l)
    {lits : List (Lit × Nat)} {b id : Nat} {vm : VM} {cls : List (Clause × Nat)} {p : Proof} {s : State} (h : In vm p s)
    (hv : ∀ x ∈ lits, 0 < x.2 ∧ x.1.var < ManageVars.nUsed vm) (hd : (lits.map (·.1)).Nodup) (hn : (lits.map (·.2)).sum < isizeMax)
    (hb0 : 0 < b) (hb : b < (lits.map (·.2)).sum) (hDl : Dl lits b) (hDu : Du lits b) (hid : HasDef s id fun a => wsum a lits - b)
    (hid' : HasDef s (id + 1) fun a => b - wsum a lits) :
    ∃ r, PbFn.both u l lits (lits.map (·.2)).sum b id vm cls p = .ok r ∧
      PbPost (varsOf (lits.map (·.1))) (fun a => wsum a lits = b) vm cls p s r := by
  obtain ⟨⟨vm1, cls1, p1⟩, a1, new1, s1, a2, a3, a4⟩ := hl lits b id vm cls p s h hv hd hn hb0 hb hDl hid
  obtain ⟨⟨vm2, cls2, p2⟩, b1, new2, s2, b2, b3, b4⟩ := hu lits b (id + 1) vm1 cls1 p1 s1 a3.inn
    (fun x hx => ⟨(hv x hx).1, Nat.lt_of_lt_of_le (hv x hx).2 a3.used⟩) hd hn hb0 hb hDu (hid'.grow a3.grow)
  refine ⟨(vm2, cls2, p2), ?_, new1 ++ new2, s2, ?_, a3.trans b3, ?_⟩
  · unfold PbFn.both
    rw [a1]; exact b1
  · show cls2 = _
    rw [show cls2 = cls1 ++ new2 from b2, show cls1 = cls ++ new1 from a2, List.append_assoc]
  · rw [List.map_append]
    refine (Encodes.and a4 b4 ?_ ?_).congr ?_
    · rintro v ⟨l, hl, rfl⟩
      obtain ⟨x, hx, rfl⟩ := List.mem_map.1 hl
      exact (hv x hx).2
    · intro a a' haa h
      show wsum a' lits ≤ b
      rw [← wsum_congr_vars haa]; exact h
    · intro a
      show b ≤ wsum a lits ∧ wsum a lits ≤ b ↔ wsum a lits = b
      omega

/-! ### The constraint in the proof -/

theorem csum_weighted (b : Asg) (lits : List (Lit × Nat)) : csum b (lits.map fun x => ((x.2 : Int), x.1)) = wsum b lits := by
  induction lits with
  | nil => rfl
  | cons x xs ih =>
    rw [List.map_cons, wsum_cons]
    simp only [csum, ih, lbit]
    by_cases h : x.1.holds b = true <;> simp [h]

theorem slack_plb (b : Asg) (lits : List (Lit × Nat)) (k : Int) :
    (ofConstr ⟨lits.map fun x => (x.2, x.1), k⟩).slack b = wsum b lits - k := by
  rw [slack_ofConstr]
  show csum b (lits.map fun x => ((x.2 : Int), x.1)) - k = _
  rw [csum_weighted]

theorem slack_pub (b : Asg) (lits : List (Lit × Nat)) (k : Int) :
    (ofConstr ⟨lits.map fun x => (x.2, x.1.neg), wtotal lits - k⟩).slack b = k - wsum b lits := by
  rw [slack_ofConstr]
  show csum b (lits.map fun x => ((x.2 : Int), x.1.neg)) - ((wtotal lits : Int) - k) = _
  have e : lits.map (fun x => ((x.2 : Int), x.1.neg)) = (lits.map fun x => (x.1.neg, x.2)).map fun x => ((x.2 : Int), x.1) := by
    rw [List.map_map]; rfl
  rw [e, csum_weighted]
  have := wsum_map_neg b lits
  omega

theorem CheckedProof.plb {f : List Constr} {vm : VM} {p : Proof} {s : State} (h : CheckedProof f vm p s) {id : Nat} {lits : List (Lit × Nat)}
    {ws : Nat} {k : Int} (hg : s.get id = (PbConstraint.lb lits ws k).constr.map ofConstr) :
    HasDef s id fun a => wsum a lits - k :=
  ⟨h.lt hg, _, hg, fun b => slack_plb b lits k⟩

theorem CheckedProof.pub {f : List Constr} {vm : VM} {p : Proof} {s : State} (h : CheckedProof f vm p s) {id : Nat} {lits : List (Lit × Nat)}
    {ws : Nat} {k : Int} (hg : s.get id = (PbConstraint.ub lits ws k).constr.map ofConstr) (hw : ws = wtotal lits) :
    HasDef s id fun a => k - wsum a lits :=
  ⟨h.lt hg, _, hg, fun b => by subst hw; exact slack_pub b lits k⟩

theorem ppost_rup {f : List Constr} {c : PbConstraint} {id : Nat} {vm : VM} (cls : List (Clause × Nat)) {p : Proof} {s : State}
    (h : CheckedProof f vm p s) {D : Ineq} (hg : s.get id = some D) (cs : List Clause)
    (hv : ∀ cl ∈ cs, ∀ l ∈ cl, varsOf (c.lits.map (·.1)) l.var) (hvm : ∀ x ∈ c.lits, x.1.var < ManageVars.nUsed vm)
    (hD : ∀ b, D.sat b → ClauseSet.sat b cs) (hc : ∀ b, ClauseSet.sat b cs ↔ c.sat b) :
    PbPost (varsOf (c.lits.map (·.1))) c.sat vm cls p s (vm, rupClauses id cs cls p) := by
  obtain ⟨new, p', s', e1, e2, e3⟩ := rupClauses_spec cs cls p s D h.inn (h.lt hg) hg (fun cl hcl b hb => hD b hb cl hcl)
    (fun cl hcl l hl => by
      obtain ⟨x, hx, e⟩ := hv cl hcl l hl
      rw [← e]
      obtain ⟨y, hy, rfl⟩ := List.mem_map.1 hx
      exact hvm y hy)
  refine ⟨new, s', by rw [e1], by rw [e1]; exact e3, ?_⟩
  rw [e2]
  exact ⟨Nat.le_refl _, fun cl hcl l hl => Or.inl (hv cl hcl l hl), fun b hb => (hc b).1 hb, fun a ha => ⟨a, fun _ _ => rfl, (hc a).2 ha⟩⟩

theorem sat_map_clauses {α : Type} (b : Asg) (l : List α) (g : α → Clause) :
    ClauseSet.sat b (l.map g) ↔ ∀ x ∈ l, Clause.sat b (g x) := by
  unfold ClauseSet.sat
  exact ⟨fun h x hx => h _ (List.mem_map.2 ⟨x, hx, rfl⟩), fun h c hc => by obtain ⟨x, hx, rfl⟩ := List.mem_map.1 hc; exact h x hx⟩

theorem minCoeff_pos {l : List (Lit × Nat)} (h : ∀ x ∈ l, 0 < x.2) : 0 < PbConstraint.minCoeff l := by
  unfold PbConstraint.minCoeff
  have key : ∀ (l : List (Lit × Nat)) (m : Nat), 0 < m → (∀ x ∈ l, 0 < x.2) → 0 < l.foldl (fun m p => min m p.2) m := by
    intro l
    induction l with
    | nil => intro m hm _; exact hm
    | cons x xs ih =>
      intro m hm hx
      exact ih _ (Nat.lt_min.2 ⟨hm, hx x (List.mem_cons_self ..)⟩) fun y hy => hx y (List.mem_cons_of_mem _ hy)
  exact key l _ (by decide) h

theorem sum_ones : ∀ {l : List (Lit × Nat)}, (∀ x ∈ l, x.2 = 1) → wtotal l = l.length := by
  intro l
  induction l with
  | nil => intro _; rfl
  | cons x xs ih =>
    intro h
    have h1 := h x (List.mem_cons_self ..)
    have h2 := ih fun y hy => h y (List.mem_cons_of_mem _ hy)
    show x.2 + wtotal xs = xs.length + 1
    omega

theorem encodePbCert_spec [LawfulVM VM] {Du Dl : List (Lit × Nat) → Nat → Prop} {u l : PbFn VM} (hu : LawUbP Du u) (hl : LawLbP Dl l)
    {f : List Constr} {c : PbConstraint} (hc : c.Certifiable Du Dl) {id : Nat}
    {vm : VM} (cls : List (Clause × Nat)) {p : Proof} {s : State} (h : CheckedProof f vm p s) (hid : c.hasId s id)
    (hv : ∀ x ∈ c.lits, x.1.var < ManageVars.nUsed vm) :
    ∃ r, encodePbCert u l c id vm cls p = some r ∧ PbPost (varsOf (c.lits.map (·.1))) c.sat vm cls p s r := by
  have hr := hc.reg
  have hw := hr.wf
  unfold encodePbCert
  by_cases h1 : c.isTautology = true
  · rw [if_pos h1]
    exact ⟨_, rfl, [], s, by simp, Logged.refl h.inn, ⟨Nat.le_refl _, (fun cl hcl => by cases hcl), fun b _ => C12_is_tautology c hw h1 b,
      fun a _ => ⟨a, fun _ _ => rfl, fun cl hcl => by cases hcl⟩⟩⟩
  rw [if_neg h1]
  by_cases h2 : c.isUnsat = true
  · rw [if_pos h2]
    have hg : ∃ D, s.get id = some D ∧ ∀ b, ¬ D.sat b := by
      cases c with
      | ub l ws b =>
        obtain ⟨-, D, q1, q2⟩ := h.pub hid hw
        refine ⟨D, q1, fun a ha => C12_is_unsat _ hw h2 a ?_⟩
        have q3 : D.slack a = b - wsum a l := q2 a
        unfold Ineq.sat at ha
        show (wsum a l : Int) ≤ b
        omega
      | lb l ws b =>
        obtain ⟨-, D, q1, q2⟩ := h.plb hid
        refine ⟨D, q1, fun a ha => C12_is_unsat _ hw h2 a ?_⟩
        have q3 : D.slack a = wsum a l - b := q2 a
        unfold Ineq.sat at ha
        show b ≤ (wsum a l : Int)
        omega
      | eq l ws b =>
        obtain ⟨-, D, q1, q2⟩ := h.plb hid.1
        have hb := hc.nonneg l ws b rfl
        have h2' : (PbConstraint.lb l ws b).isUnsat = true := by
          simp only [PbConstraint.isUnsat] at h2 ⊢
          rw [if_neg (by omega)] at h2 ⊢
          exact h2
        refine ⟨D, q1, fun a ha => C12_is_unsat (.lb l ws b) hw h2' a ?_⟩
        have q3 : D.slack a = wsum a l - b := q2 a
        unfold Ineq.sat at ha
        show b ≤ (wsum a l : Int)
        omega
    obtain ⟨D, hg, hD⟩ := hg
    refine ⟨_, rfl, ppost_rup cls h hg [[]] (fun cl hcl l hl => by rw [List.mem_singleton.1 hcl] at hl; cases hl) hv
      (fun b hb => absurd hb (hD b)) (fun b => ⟨fun hb => ?_, fun hb => absurd hb (C12_is_unsat c hw h2 b)⟩)⟩
    obtain ⟨x, hx, _⟩ := hb [] (List.mem_singleton.2 rfl); cases hx
  rw [if_neg h2]
  by_cases h3 : c.isPositiveAssignment = true
  · rw [if_pos h3]
    have hg : ∃ D, s.get id = some D ∧ ∀ b, D.sat b → c.sat b := by
      cases c with
      | ub l ws b => cases h3
      | lb l ws b =>
        obtain ⟨-, D, q1, q2⟩ := h.plb hid
        refine ⟨D, q1, fun a ha => ?_⟩
        have q3 : D.slack a = wsum a l - b := q2 a
        unfold Ineq.sat at ha
        show b ≤ (wsum a l : Int)
        omega
      | eq l ws b =>
        obtain ⟨-, D, q1, q2⟩ := h.plb hid.1
        refine ⟨D, q1, fun a ha => ?_⟩
        have q3 : D.slack a = wsum a l - b := q2 a
        unfold Ineq.sat at ha
        have q4 := wsum_le_wtotal a l
        have q5 : ws = wtotal l := hw
        have q6 := hc.nonneg l ws b rfl
        simp only [PbConstraint.isPositiveAssignment] at h3
        rw [if_neg (by omega), beq_iff_eq] at h3
        show (wsum a l : Int) = b
        omega
    obtain ⟨D, hg, hD⟩ := hg
    have hiff : ∀ b, ClauseSet.sat b (c.lits.map fun x => [x.1]) ↔ c.sat b := fun b => by
      rw [C12_is_positive_assignment c hw (.inl hr.pos) h3 b, sat_map_clauses]
      simp [Clause.sat]
    refine ⟨_, rfl, ppost_rup cls h hg _ (fun cl hcl l hl => ?_) hv (fun b hb => (hiff b).2 (hD b hb)) hiff⟩
    obtain ⟨x, hx, rfl⟩ := List.mem_map.1 hcl
    rw [List.mem_singleton.1 hl]
    exact ⟨x.1, List.mem_map.2 ⟨x, hx, rfl⟩, rfl⟩
  rw [if_neg h3]
  by_cases h4 : c.isNegativeAssignment = true
  · rw [if_pos h4]
    have hg : ∃ D, s.get (c.negId id) = some D ∧ ∀ b, D.sat b → c.sat b := by
      cases c with
      | ub l ws b =>
        obtain ⟨-, D, q1, q2⟩ := h.pub hid hw
        refine ⟨D, q1, fun a ha => ?_⟩
        have q3 : D.slack a = b - wsum a l := q2 a
        unfold Ineq.sat at ha
        show (wsum a l : Int) ≤ b
        omega
      | lb l ws b => cases h4
      | eq l ws b =>
        obtain ⟨-, D, q1, q2⟩ := h.pub hid.2 hw
        refine ⟨D, q1, fun a ha => ?_⟩
        have q3 : D.slack a = b - wsum a l := q2 a
        unfold Ineq.sat at ha
        have q6 := hc.nonneg l ws b rfl
        simp only [PbConstraint.isNegativeAssignment] at h4
        rw [if_neg (by omega), beq_iff_eq] at h4
        show (wsum a l : Int) = b
        omega
    obtain ⟨D, hg, hD⟩ := hg
    have hiff : ∀ b, ClauseSet.sat b (c.lits.map fun x => [x.1.neg]) ↔ c.sat b := fun b => by
      rw [C12_is_negative_assignment c (.inl hr.pos) h4 b, sat_map_clauses]
      simp [Clause.sat, Lit.holds_neg]
    refine ⟨_, rfl, ppost_rup cls h hg _ (fun cl hcl l hl => ?_) hv (fun b hb => (hiff b).2 (hD b hb)) hiff⟩
    obtain ⟨x, hx, rfl⟩ := List.mem_map.1 hcl
    rw [List.mem_singleton.1 hl]
    exact ⟨x.1, List.mem_map.2 ⟨x, hx, rfl⟩, (Lit.var_neg x.1).symm⟩
  rw [if_neg h4]
  by_cases h5 : c.isClause = true
  · rw [if_pos h5]
    obtain ⟨cl, e1, e2⟩ := (C13_into_clause c hw).1 h5
    have hg : ∃ D, s.get id = some D ∧ ∀ b, D.sat b → c.sat b := by
      cases c with
      | ub l ws b =>
        obtain ⟨-, D, q1, q2⟩ := h.pub hid hw
        refine ⟨D, q1, fun a ha => ?_⟩
        have q3 : D.slack a = b - wsum a l := q2 a
        unfold Ineq.sat at ha
        show (wsum a l : Int) ≤ b
        omega
      | lb l ws b =>
        obtain ⟨-, D, q1, q2⟩ := h.plb hid
        refine ⟨D, q1, fun a ha => ?_⟩
        have q3 : D.slack a = wsum a l - b := q2 a
        unfold Ineq.sat at ha
        show b ≤ (wsum a l : Int)
        omega
      | eq l ws b => cases h5
    obtain ⟨D, hg, hD⟩ := hg
    have hone : ∀ b, ClauseSet.sat b [cl] ↔ Clause.sat b cl := fun b => by simp [ClauseSet.sat]
    rw [e1]
    refine ⟨_, rfl, ppost_rup cls h hg _ (fun cl' hcl l hl => ?_) hv
      (fun b hb => (hone b).2 ((e2 b).2 (hD b hb))) (fun b => (hone b).trans (e2 b))⟩
    rw [List.mem_singleton.1 hcl] at hl
    exact PbConstraint.vars_intoClause e1 l hl
  rw [if_neg h5]
  have hnd : ¬ c.Direct := by
    unfold PbConstraint.Direct
    rintro (h | h | h | h | h) <;> contradiction
  by_cases h6 : c.isCard = true
  · rw [if_pos h6]
    obtain ⟨d, hd⟩ := hr.intoCardConstr h1 h2 h6
    have hl := PbConstraint.lits_intoCardConstr hd
    obtain ⟨hne, w, hall⟩ := (C12_is_card c).1 h6
    have hw1 := (hc.card.resolve_left hnd) w hall
    subst hw1
    have hws : c.weightSum = c.lits.length := by rw [show c.weightSum = wtotal c.lits from hw, sum_ones hall]
    have hfu : PbConstraint.findUnitWeight c.lits = some 1 := by
      unfold PbConstraint.isCard at h6
      obtain ⟨w', hw'⟩ := Option.isSome_iff_exists.1 h6
      obtain ⟨-, hall'⟩ := PbConstraint.findUnitWeight_some hw'
      obtain ⟨x, hx⟩ := List.exists_mem_of_ne_nil _ hne
      rw [hw', ← hall' x hx, hall x hx]
    have hub : ∀ (l : List (Lit × Nat)) (ws : Nat) (b : Int), (∀ x ∈ l, x.2 = 1) → ws = l.length → 0 ≤ b →
        (PbConstraint.ub l ws b).constr = (CardConstraint.ub (l.map (·.1)) b.natAbs).constr := fun l ws b ha hws hb => by
      simp only [PbConstraint.constr, CardConstraint.constr, List.map_map, List.length_map, Option.some.injEq, Constr.mk.injEq]
      refine ⟨List.map_congr_left fun x hx => ?_, by omega⟩
      simp only [Function.comp]
      rw [ha x hx]; rfl
    have hlb : ∀ (l : List (Lit × Nat)) (ws : Nat) (b : Int), (∀ x ∈ l, x.2 = 1) → 0 ≤ b →
        (PbConstraint.lb l ws b).constr = (CardConstraint.lb (l.map (·.1)) b.natAbs).constr := fun l ws b ha hb => by
      simp only [PbConstraint.constr, CardConstraint.constr, List.map_map, Option.some.injEq, Constr.mk.injEq]
      refine ⟨List.map_congr_left fun x hx => ?_, by omega⟩
      simp only [Function.comp]
      rw [ha x hx]; rfl
    have hid' : d.hasId s id := by
      unfold PbConstraint.intoCardConstr at hd
      rw [if_neg h1, if_neg h2] at hd
      cases c with
      | ub l ws b =>
        have hfu' : PbConstraint.findUnitWeight l = some 1 := hfu
        have hb : ¬ b < 0 := by simpa [PbConstraint.isUnsat] using h2
        simp only [hfu', Nat.div_one, Res.ok.injEq] at hd
        subst hd
        have := hub l ws b hall hws (by omega)
        show s.get id = Option.map ofConstr (CardConstraint.ub (l.map (·.1)) b.natAbs).constr
        rw [← this]; exact hid
      | lb l ws b =>
        have hfu' : PbConstraint.findUnitWeight l = some 1 := hfu
        have hb : 0 < b := by simpa [PbConstraint.isTautology] using h1
        simp only [hfu', Nat.div_one, Nat.mod_one, ne_eq, not_true, if_false, Nat.add_zero, Res.ok.injEq] at hd
        subst hd
        have := hlb l ws b hall (by omega)
        show s.get id = Option.map ofConstr (CardConstraint.lb (l.map (·.1)) b.natAbs).constr
        rw [← this]; exact hid
      | eq l ws b =>
        have hfu' : PbConstraint.findUnitWeight l = some 1 := hfu
        have hb := hc.nonneg l ws b rfl
        simp only [hfu', Nat.div_one, Nat.mod_one, ne_eq, not_true, if_false, Res.ok.injEq] at hd
        subst hd
        have e1 := hlb l ws b hall hb
        have e2 := hub l ws b hall hws hb
        show s.get id = Option.map ofConstr (CardConstraint.lb (l.map (·.1)) b.natAbs).constr ∧
          s.get (id + 1) = Option.map ofConstr (CardConstraint.ub (l.map (·.1)) b.natAbs).constr
        rw [← e1, ← e2]; exact hid
    rw [hd]
    obtain ⟨r, e, hp⟩ := encodeCardCert_spec (lawful_totalizer (VM := VM)) cls h hid'
      (fun x hx => by
        rw [hl] at hx
        obtain ⟨y, hy, rfl⟩ := List.mem_map.1 hx
        exact hv y hy)
      (by rw [hl, List.length_map, ← hws]; exact hc.small)
    obtain ⟨new, s', g1, g2, g3, -⟩ := hp
    refine ⟨r, e, new, s', g1, g2, (g3.weaken fun v hv => ?_).congr ((C13_into_card_constr c hw).1 d hd)⟩
    rw [hl] at hv; exact hv
  rw [if_neg h6]
  have hmany : ¬ ∃ w, ∀ x ∈ c.lits, x.2 = w := by
    intro hh
    by_cases hne : c.lits = []
    · have hz : c.weightSum = 0 := by
        have : c.weightSum = wtotal c.lits := hw
        rw [this, hne]; rfl
      cases c with
      | ub l ws b =>
        have hz' : ws = 0 := hz
        simp only [PbConstraint.isTautology, PbConstraint.isUnsat, hz'] at h1 h2
        simp at h1 h2
        omega
      | lb l ws b =>
        have hz' : ws = 0 := hz
        simp only [PbConstraint.isTautology, PbConstraint.isUnsat, hz'] at h1 h2
        simp at h1 h2
        omega
      | eq l ws b =>
        have hz' : ws = 0 := hz
        have hb := hc.nonneg l ws b rfl
        simp only [PbConstraint.isPositiveAssignment, PbConstraint.isUnsat, hz'] at h3 h2
        simp at h3 h2
        omega
    · exact h6 ((C12_is_card c).2 ⟨hne, hh⟩)
  have hnodup := hr.nodup.resolve_left hmany
  have hwithin := (hc.enc.resolve_left hnd).resolve_left hmany
  have hvv : ∀ x ∈ c.lits, 0 < x.2 ∧ x.1.var < ManageVars.nUsed vm := fun x hx => ⟨hr.pos x hx, hv x hx⟩
  have hmin := minCoeff_pos fun x hx => hr.pos x hx
  have hsum : c.weightSum = (c.lits.map (·.2)).sum := by rw [show c.weightSum = wtotal c.lits from hw, wtotal_eq_sum]
  have hsm := hc.small
  rw [hsum] at hsm
  cases c with
  | ub lits ws b =>
    have hws : ws = (lits.map (·.2)).sum := hsum
    have q2 : ¬ b < 0 := by simpa [PbConstraint.isUnsat] using h2
    have q1 : b.natAbs < ws := by simpa [PbConstraint.isTautology, q2] using h1
    have q4 : PbConstraint.minCoeff lits ≤ b.natAbs := by simpa [PbConstraint.isNegativeAssignment, h2] using h4
    have hmin' : 0 < PbConstraint.minCoeff lits := hmin
    obtain ⟨n, rfl⟩ := Int.eq_ofNat_of_zero_le (show 0 ≤ b by omega)
    rw [Int.natAbs_natCast] at q1 q4
    obtain ⟨r, e, hp⟩ := hu lits n id vm cls p s h.inn hvv hnodup hsm (by omega) (by rw [← hws]; exact q1) hwithin (h.pub hid hw)
    rw [← hws] at e
    have e' : PbFn.constr u l (.ub lits ws n) id vm cls p = .ok r := e
    rw [e']
    exact ⟨r, rfl, hp.congr (fun _ hv => hv) fun a => by show wsum a lits ≤ n ↔ (wsum a lits : Int) ≤ n; omega⟩
  | lb lits ws b =>
    have hws : ws = (lits.map (·.2)).sum := hsum
    have q1 : 0 < b := by simpa [PbConstraint.isTautology] using h1
    have q2 : b.natAbs ≤ ws := by
      have : ¬ b < 0 := by omega
      simpa [PbConstraint.isUnsat, this] using h2
    have q3 : b.natAbs + PbConstraint.minCoeff lits ≤ ws := by
      have : ¬ b < 0 := by omega
      simpa [PbConstraint.isPositiveAssignment, this, h2] using h3
    have hmin' : 0 < PbConstraint.minCoeff lits := hmin
    obtain ⟨n, rfl⟩ := Int.eq_ofNat_of_zero_le (show 0 ≤ b by omega)
    rw [Int.natAbs_natCast] at q2 q3
    obtain ⟨r, e, hp⟩ := hl lits n id vm cls p s h.inn hvv hnodup hsm (by omega) (by omega) hwithin (h.plb hid)
    rw [← hws] at e
    have e' : PbFn.constr u l (.lb lits ws n) id vm cls p = .ok r := e
    rw [e']
    exact ⟨r, rfl, hp.congr (fun _ hv => hv) fun a => by show n ≤ wsum a lits ↔ (n : Int) ≤ wsum a lits; omega⟩
  | eq lits ws b =>
    have hws : ws = (lits.map (·.2)).sum := hsum
    have hb := hc.nonneg lits ws b rfl
    have hb' : ¬ b < 0 := by omega
    have q2 : b.natAbs ≤ ws := by simpa [PbConstraint.isUnsat, hb'] using h2
    have q3 : b.natAbs ≠ ws := by simpa [PbConstraint.isPositiveAssignment, hb'] using h3
    have q4 : b.natAbs ≠ 0 := by
      intro e
      simp [PbConstraint.isNegativeAssignment, hb', e] at h4
    obtain ⟨n, rfl⟩ := Int.eq_ofNat_of_zero_le hb
    rw [Int.natAbs_natCast] at q2 q3 q4
    obtain ⟨r, e, hp⟩ := law_both (cls := cls) hu hl h.inn hvv hnodup hsm (by omega : 0 < n) (by show n < (lits.map (·.2)).sum; omega) hwithin.1 hwithin.2
      (h.plb hid.1) (h.pub hid.2 hw)
    have e' : PbFn.constr u l (.eq lits ws n) id vm cls p = .ok r := by
      rw [hws]; exact e
    rw [e']
    exact ⟨r, rfl, hp.congr (fun _ hv => hv) fun a => by show wsum a lits = n ↔ (wsum a lits : Int) = n; omega⟩

end RustSat
