import Verif.Lemmas.CertEncode
import Verif.Lemmas.Pigeons
/-
Encoding whole cardinality constraints with proof logging: the simulators, and the choice of what to do.
-/
namespace RustSat
open TotDb Pigeons VeriPb Card CertTot

variable {VM : Type} [ManageVars VM]

theorem Encodes.and {V : Nat → Prop} {n n1 n2 : Nat} {c1 c2 : ClauseSet} {P Q : Asg → Prop} (h1 : Encodes V n n1 c1 P)
    (h2 : Encodes V n1 n2 c2 Q) (hV : ∀ v, V v → v < n) (hQ : ∀ a b, (∀ v, V v → a v = b v) → Q a → Q b) :
    Encodes V n n2 (c1 ++ c2) fun a => P a ∧ Q a := by
  have l1 := h1.le
  have l2 := h2.le
  refine ⟨by omega, fun c hc l hl => ?_, fun b hb => ?_, fun a ha => ?_⟩
  · rcases List.mem_append.1 hc with hc | hc
    · exact (h1.vars c hc l hl).imp id (by omega)
    · exact (h2.vars c hc l hl).imp id (by omega)
  · rw [ClauseSet.sat_append] at hb
    exact ⟨h1.sound b hb.1, h2.sound b hb.2⟩
  · obtain ⟨b, e1, e2⟩ := h1.complete a ha.1
    obtain ⟨b', f1, f2⟩ := h2.complete b (hQ a b (fun v hv => (e1 v (Or.inl (hV v hv))).symm) ha.2)
    refine ⟨b', fun v hv => by rw [f1 v (by omega), e1 v (by omega)], ?_⟩
    rw [ClauseSet.sat_append]
    refine ⟨fun c hc => ?_, f2⟩
    obtain ⟨l, hl, hl'⟩ := e2 c hc
    refine ⟨l, hl, ?_⟩
    have : b' l.var = b l.var := f1 _ (by
      rcases h1.vars c hc l hl with h | h
      · have := hV _ h; omega
      · omega)
    unfold Lit.holds at hl' ⊢
    rw [this]; exact hl'

theorem varsOf_map_neg (lits : List Lit) (v : Nat) : varsOf (lits.map Lit.neg) v ↔ varsOf lits v := by
  constructor
  · rintro ⟨l, hl, rfl⟩
    obtain ⟨x, hx, rfl⟩ := List.mem_map.1 hl
    exact ⟨x, hx, (Lit.var_neg x).symm⟩
  · rintro ⟨l, hl, rfl⟩
    exact ⟨l.neg, List.mem_map.2 ⟨l, hl, rfl⟩, Lit.var_neg l⟩

theorem countTrue_congr {a b : Asg} : ∀ {lits : List Lit}, (∀ v, varsOf lits v → a v = b v) → countTrue a lits = countTrue b lits := by
  intro lits
  induction lits with
  | nil => intro _; rfl
  | cons l ls ih =>
    intro h
    have h1 : l.holds a = l.holds b := by
      unfold Lit.holds; rw [h l.var ⟨l, List.mem_cons_self .., rfl⟩]
    simp only [countTrue, h1, ih fun v ⟨x, hx, e⟩ => h v ⟨x, List.mem_cons_of_mem _ hx, e⟩]

/-- The type of the functions that encode a bound. -/
abbrev CertFn (VM : Type) := List Lit → Nat → Nat → VM → List (Clause × Nat) → Proof →
  Res EnforceError (VM × List (Clause × Nat) × Proof)

/-- What is known about the clauses. -/
abbrev ClsRel (VM : Type) := CardConstraint → VM → ClauseSet → VM → ClauseSet → Prop

def LawUb (S : ClsRel VM) (f : CertFn VM) : Prop :=
  ∀ (lits : List Lit) (b id : Nat) (vm : VM) (cls : List (Clause × Nat)) (p : Proof) (s : State),
    In vm p s → (∀ l ∈ lits, l.var < ManageVars.nUsed vm) → lits.length < isizeMax → 2 ≤ lits.length →
    b < lits.length → HasDef s id (fun a => b - countTrue a lits) →
    ∃ r, f lits b id vm cls p = .ok r ∧ Post S (.ub lits b) vm cls p s r

def LawLb (S : ClsRel VM) (f : CertFn VM) : Prop :=
  ∀ (lits : List Lit) (b id : Nat) (vm : VM) (cls : List (Clause × Nat)) (p : Proof) (s : State),
    In vm p s → (∀ l ∈ lits, l.var < ManageVars.nUsed vm) → lits.length < isizeMax → 2 ≤ lits.length →
    0 < b → b ≤ lits.length → HasDef s id (fun a => countTrue a lits - b) →
    ∃ r, f lits b id vm cls p = .ok r ∧ Post S (.lb lits b) vm cls p s r

def LawEq (S : ClsRel VM) (f : CertFn VM) : Prop :=
  ∀ (lits : List Lit) (b id : Nat) (vm : VM) (cls : List (Clause × Nat)) (p : Proof) (s : State),
    In vm p s → (∀ l ∈ lits, l.var < ManageVars.nUsed vm) → lits.length < isizeMax →
    0 < b → b < lits.length → HasDef s id (fun a => countTrue a lits - b) → HasDef s (id + 1) (fun a => b - countTrue a lits) →
    ∃ r, f lits b id vm cls p = .ok r ∧ Post S (.eq lits b) vm cls p s r

/-- What an encoding has to fulfil. -/
structure Lawful (S : ClsRel VM) (ce : CardCert VM) : Prop where
  ub : LawUb S ce.ub
  lb : LawLb S ce.lb
  eq : LawEq S ce.eq

theorem CertTot.Post.mono {S S' : CardConstraint → VM → ClauseSet → VM → ClauseSet → Prop} {c : CardConstraint} {vm : VM}
    {cls : List (Clause × Nat)} {p : Proof} {s : State} {r : VM × List (Clause × Nat) × Proof} (h : Post S c vm cls p s r)
    (hS : ∀ {c vm cls vm' new}, S c vm cls vm' new → S' c vm cls vm' new) : Post S' c vm cls p s r := by
  obtain ⟨new, s', h1, h2, h3, h4⟩ := h
  exact ⟨new, s', h1, h2, h3, hS h4⟩

/-- Nothing is known about the clauses. -/
def AnyCls (_ : CardConstraint) (_ : VM) (_ : ClauseSet) (_ : VM) (_ : ClauseSet) : Prop := True

theorem Lawful.any {S : ClsRel VM} {ce : CardCert VM} (h : Lawful S ce) : Lawful AnyCls ce := by
  refine ⟨fun lits b id vm cls p s h1 h2 h3 h4 h5 h6 => ?_, fun lits b id vm cls p s h1 h2 h3 h4 h5 h6 h7 => ?_,
    fun lits b id vm cls p s h1 h2 h3 h4 h5 h6 h7 => ?_⟩
  · obtain ⟨r, a, b⟩ := h.ub lits b id vm cls p s h1 h2 h3 h4 h5 h6
    exact ⟨r, a, b.mono fun _ => trivial⟩
  · obtain ⟨r, a, b⟩ := h.lb lits b id vm cls p s h1 h2 h3 h4 h5 h6 h7
    exact ⟨r, a, b.mono fun _ => trivial⟩
  · obtain ⟨r, a, b⟩ := h.eq lits b id vm cls p s h1 h2 h3 h4 h5 h6 h7
    exact ⟨r, a, b.mono fun _ => trivial⟩

theorem lawful_totalizer [LawfulVM VM] : Lawful (VM := VM) SameTot CardCert.totalizer :=
  ⟨fun _ _ _ _ cls _ _ h1 h2 h3 h4 h5 h6 => ub_total cls h1 h2 h3 h4 h5 h6,
    fun _ _ _ _ cls _ _ h1 h2 h3 h4 h5 h6 h7 => lb_total cls h1 h2 h3 h4 h5 h6 h7,
    fun _ _ _ _ cls _ _ h1 h2 h3 h4 h5 h6 h7 => eq_total cls h1 h2 h3 h4 h5 h6 h7⟩

theorem lawful_defaultEq {u l : CertFn VM} (hu : LawUb AnyCls u) (hl : LawLb AnyCls l) :
    LawEq AnyCls (CardCert.defaultEq u l) := by
  intro lits b id vm cls p s h hv hn hb0 hb hid hid'
  obtain ⟨⟨vm1, cls1, p1⟩, a1, new1, s1, a2, a3, a4, -⟩ := hu lits b _ vm cls p s h hv hn (by omega) hb hid'
  obtain ⟨⟨vm2, cls2, p2⟩, b1, new2, s2, b2, b3, b4, -⟩ := hl lits b id vm1 cls1 p1 s1 a3.inn
    (fun x hx => Nat.lt_of_lt_of_le (hv x hx) a3.used) hn (by omega) hb0 (by omega) (hid.grow a3.grow)
  refine ⟨(vm2, cls2, p2), ?_, new1 ++ new2, s2, ?_, a3.trans b3, ?_, trivial⟩
  · unfold CardCert.defaultEq
    rw [a1]; exact b1
  · show cls2 = _
    rw [show cls2 = cls1 ++ new2 from b2, show cls1 = cls ++ new1 from a2, List.append_assoc]
  · rw [List.map_append]
    refine (Encodes.and a4 b4 ?_ ?_).congr ?_
    · rintro v ⟨l, hl, rfl⟩
      exact hv l hl
    · intro a a' haa h
      show b ≤ countTrue a' lits
      rw [← countTrue_congr (lits := lits) haa]; exact h
    · intro a
      show countTrue a lits ≤ b ∧ b ≤ countTrue a lits ↔ countTrue a lits = b
      omega

theorem lawful_invertedUb {ce : CardCert VM} (hc : LawLb AnyCls ce.lb) : LawUb AnyCls (CardCert.invertedUb ce) := by
  intro lits b id vm cls p s h hv hn h2 hb hid
  have hd : HasDef s id fun a => countTrue a (lits.map Lit.neg) - (lits.length - b : Nat) := by
    obtain ⟨q1, D, q2, q3⟩ := hid
    refine ⟨q1, D, q2, fun a => ?_⟩
    have := countTrue_map_neg a lits
    rw [q3 a]; show (b : Int) - countTrue a lits = countTrue a (lits.map Lit.neg) - (lits.length - b : Nat); omega
  obtain ⟨r, a1, new, s', a2, a3, a4, -⟩ := hc (lits.map Lit.neg) (lits.length - b) id vm cls p s h
    (fun l hl => by obtain ⟨x, hx, rfl⟩ := List.mem_map.1 hl; rw [Lit.var_neg]; exact hv x hx)
    (by rw [List.length_map]; exact hn) (by rw [List.length_map]; exact h2) (by omega) (by rw [List.length_map]; omega) hd
  refine ⟨r, ?_, new, s', a2, a3, ?_, trivial⟩
  · unfold CardCert.invertedUb CardConstraint.invertUb
    rw [if_pos (by omega)]
    simp only [CardConstraint.lits, CardConstraint.bound, a1]
  · refine (a4.weaken fun v hv => (varsOf_map_neg lits v).1 hv).congr fun a => ?_
    have := countTrue_map_neg a lits
    show lits.length - b ≤ countTrue a (lits.map Lit.neg) ↔ countTrue a lits ≤ b
    omega

theorem lawful_invertedLb {ce : CardCert VM} (hc : LawUb AnyCls ce.ub) : LawLb AnyCls (CardCert.invertedLb ce) := by
  intro lits b id vm cls p s h hv hn h2 hb0 hb hid
  have hd : HasDef s id fun a => (lits.length - b : Nat) - countTrue a (lits.map Lit.neg) := by
    obtain ⟨q1, D, q2, q3⟩ := hid
    refine ⟨q1, D, q2, fun a => ?_⟩
    have := countTrue_map_neg a lits
    rw [q3 a]; show (countTrue a lits : Int) - b = (lits.length - b : Nat) - countTrue a (lits.map Lit.neg); omega
  obtain ⟨r, a1, new, s', a2, a3, a4, -⟩ := hc (lits.map Lit.neg) (lits.length - b) id vm cls p s h
    (fun l hl => by obtain ⟨x, hx, rfl⟩ := List.mem_map.1 hl; rw [Lit.var_neg]; exact hv x hx)
    (by rw [List.length_map]; exact hn) (by rw [List.length_map]; exact h2) (by rw [List.length_map]; omega) hd
  refine ⟨r, ?_, new, s', a2, a3, ?_, trivial⟩
  · unfold CardCert.invertedLb CardConstraint.invertLb
    rw [if_pos (by omega)]
    exact a1
  · refine (a4.weaken fun v hv => (varsOf_map_neg lits v).1 hv).congr fun a => ?_
    have := countTrue_map_neg a lits
    show countTrue a (lits.map Lit.neg) ≤ lits.length - b ↔ b ≤ countTrue a lits
    omega

theorem lawful_double {u l : CardCert VM} (hu : Lawful AnyCls u) (hl : Lawful AnyCls l) : Lawful AnyCls (CardCert.double u l) :=
  ⟨hu.ub, hl.lb, lawful_defaultEq hu.ub hl.lb⟩

theorem lawful_inverted {ce : CardCert VM} (hc : Lawful AnyCls ce) : Lawful AnyCls (CardCert.inverted ce) :=
  ⟨lawful_invertedUb hc.lb, lawful_invertedLb hc.ub, lawful_defaultEq (lawful_invertedUb hc.lb) (lawful_invertedLb hc.ub)⟩

theorem lawful_offered [LawfulVM VM] {ce : CardCert VM} (h : CardCert.Offered ce) : Lawful AnyCls ce := by
  induction h with
  | totalizer => exact lawful_totalizer.any
  | inverted ce _ ih => exact lawful_inverted ih
  | double u l _ _ ihu ihl => exact lawful_double ihu ihl

/-! ### The state reached from a formula -/

theorem run_keys : ∀ (ls : List Line) {s s' : State}, (∀ x ∈ s.db, x.1 < s.next) → run s ls = some s' → ∀ x ∈ s'.db, x.1 < s'.next := by
  intro ls
  induction ls with
  | nil => intro s s' h e; injection e with e; subst e; exact h
  | cons l ls ih =>
    intro s s' h e
    rw [run] at e
    cases hl : step s l with
    | none => rw [hl] at e; cases e
    | some t =>
      rw [hl] at e
      refine ih ?_ e
      have push : ∀ D, some (s.push D) = some t → ∀ x ∈ t.db, x.1 < t.next := by
        intro D e
        injection e with e
        subst e
        intro x hx
        rcases List.mem_cons.1 hx with rfl | hx
        · exact Nat.lt_succ_self _
        · exact Nat.lt_succ_of_lt (h x hx)
      cases l with
      | pol ops =>
        rw [step] at hl
        split at hl
        · exact push _ hl
        · cases hl
      | rup c hs =>
        rw [step] at hl
        split at hl
        · exact push _ hl
        · cases hl
      | red c w =>
        rw [step] at hl
        split at hl
        · exact push _ hl
        · cases hl
      | del ids =>
        rw [step] at hl
        split at hl
        · injection hl with hl
          subst hl
          intro x hx
          exact h x (List.mem_filter.1 hx).1
        · cases hl

theorem start_keys (f : List Constr) : ∀ x ∈ (start f).db, x.1 < (start f).next := by
  intro x hx
  obtain ⟨y, hy, rfl⟩ := List.mem_map.1 hx
  have := (List.mem_zipIdx hy).2.1
  show y.2 < f.length + 1
  omega

theorem lookup_mem {α : Type} {l : List (Nat × α)} {k : Nat} {v : α} (h : l.lookup k = some v) : (k, v) ∈ l := by
  induction l with
  | nil => cases h
  | cons x l ih =>
    obtain ⟨w, u⟩ := x
    rw [lookup_pair] at h
    by_cases e : k = w
    · rw [if_pos e] at h; injection h with h; subst h; subst e; exact List.mem_cons_self ..
    · rw [if_neg e] at h; exact List.mem_cons_of_mem _ (ih h)

theorem CheckedProof.inn {f : List Constr} {vm : VM} {p : Proof} {s : State} (h : CheckedProof f vm p s) : In vm p s :=
  ⟨(run_sound _ (start_ok f) h.run).1, fun D hD v hv => h.vars v ⟨D, hD, hv⟩, h.next⟩

theorem CheckedProof.lt {f : List Constr} {vm : VM} {p : Proof} {s : State} (h : CheckedProof f vm p s) {id : Nat} {D : Ineq}
    (hg : s.get id = some D) : id < s.next := run_keys _ (start_keys f) h.run _ (lookup_mem hg)

theorem csum_ones (b : Asg) (lits : List Lit) : csum b (lits.map fun l => ((1 : Int), l)) = countTrue b lits := by
  induction lits with
  | nil => rfl
  | cons l ls ih =>
    rw [List.map_cons]
    simp only [csum, ih, countTrue, lbit]
    by_cases h : l.holds b = true <;> simp [h]

theorem slack_lb (b : Asg) (lits : List Lit) (k : Nat) :
    (ofConstr ⟨lits.map fun l => (1, l), k⟩).slack b = countTrue b lits - k := by
  rw [slack_ofConstr]
  show csum b (lits.map fun l => ((1 : Int), l)) - k = _
  rw [csum_ones]

theorem slack_ub (b : Asg) (lits : List Lit) (k : Nat) :
    (ofConstr ⟨lits.map fun l => (1, l.neg), lits.length - k⟩).slack b = k - countTrue b lits := by
  rw [slack_ofConstr]
  show csum b (lits.map fun l => ((1 : Int), l.neg)) - (lits.length - k : Int) = _
  rw [show lits.map (fun l => ((1 : Int), l.neg)) = (lits.map Lit.neg).map fun l => ((1 : Int), l) by simp, csum_ones]
  have := countTrue_map_neg b lits
  omega

theorem CheckedProof.lb {f : List Constr} {vm : VM} {p : Proof} {s : State} (h : CheckedProof f vm p s) {id : Nat} {lits : List Lit}
    {k : Nat} (hg : s.get id = (CardConstraint.lb lits k).constr.map ofConstr) : HasDef s id fun a => countTrue a lits - k :=
  ⟨h.lt hg, _, hg, fun b => slack_lb b lits k⟩

theorem CheckedProof.ub {f : List Constr} {vm : VM} {p : Proof} {s : State} (h : CheckedProof f vm p s) {id : Nat} {lits : List Lit}
    {k : Nat} (hg : s.get id = (CardConstraint.ub lits k).constr.map ofConstr) : HasDef s id fun a => k - countTrue a lits :=
  ⟨h.lt hg, _, hg, fun b => slack_ub b lits k⟩

/-! ### The choice of what to do -/

/-- The same as without proof logging. -/
def SameCard (c : CardConstraint) (vm : VM) (cls : ClauseSet) (vm' : VM) (new : ClauseSet) : Prop :=
  encodeCardinalityConstraint Totalizer c vm cls = some (vm', cls ++ new)

theorem post_rup {f : List Constr} {c : CardConstraint} {id : Nat} {vm : VM} (cls : List (Clause × Nat)) {p : Proof} {s : State}
    (h : CheckedProof f vm p s) {D : Ineq} (hg : s.get id = some D) (cs : List Clause)
    (hv : ∀ cl ∈ cs, ∀ l ∈ cl, varsOf c.lits l.var) (hvm : ∀ l ∈ c.lits, l.var < ManageVars.nUsed vm)
    (hD : ∀ b, D.sat b → ClauseSet.sat b cs) (hc : ∀ b, ClauseSet.sat b cs ↔ c.sat b) {S : ClsRel VM}
    (hS : S c vm (cls.map (·.1)) vm cs) : Post S c vm cls p s (vm, rupClauses id cs cls p) := by
  obtain ⟨new, p', s', e1, e2, e3⟩ := rupClauses_spec cs cls p s D h.inn (h.lt hg) hg (fun cl hcl b hb => hD b hb cl hcl)
    (fun cl hcl l hl => by obtain ⟨x, hx, e⟩ := hv cl hcl l hl; rw [← e]; exact hvm x hx)
  refine ⟨new, s', by rw [e1], by rw [e1]; exact e3, ?_, by rw [e2]; exact hS⟩
  rw [e2]
  exact ⟨Nat.le_refl _, fun cl hcl l hl => Or.inl (hv cl hcl l hl), fun b hb => (hc b).1 hb, fun a ha => ⟨a, fun _ _ => rfl, (hc a).2 ha⟩⟩

theorem sat_units (b : Asg) (lits : List Lit) : ClauseSet.sat b (lits.map fun l => [l]) ↔ countTrue b lits = lits.length := by
  induction lits with
  | nil => simp [ClauseSet.sat, countTrue]
  | cons l ls ih =>
    have hle : countTrue b ls ≤ ls.length := by
      have := countTrue_map_neg b ls; omega
    have : ClauseSet.sat b ((l :: ls).map fun l => [l]) ↔ l.holds b = true ∧ ClauseSet.sat b (ls.map fun l => [l]) := by
      simp [ClauseSet.sat, Clause.sat]
    rw [this, ih]
    simp only [countTrue, List.length_cons]
    by_cases h : l.holds b = true
    · simp [h]; omega
    · simp [h]; omega

theorem sat_neg_units (b : Asg) (lits : List Lit) : ClauseSet.sat b (lits.map fun l => [l.neg]) ↔ countTrue b lits = 0 := by
  have := sat_units b (lits.map Lit.neg)
  rw [List.map_map] at this
  have e := countTrue_map_neg b lits
  rw [List.length_map] at this
  exact this.trans (by omega)

/-- The result of encoding a constraint with proof logging. -/
theorem encodeCardCert_spec {S : ClsRel VM} {ce : CardCert VM} (hce : Lawful S ce) {f : List Constr} {c : CardConstraint} {id : Nat}
    {vm : VM} (cls : List (Clause × Nat)) {p : Proof} {s : State} (h : CheckedProof f vm p s) (hid : c.hasId s id)
    (hv : ∀ l ∈ c.lits, l.var < ManageVars.nUsed vm) (hn : c.lits.length < isizeMax) :
    ∃ r, encodeCardCert ce c id vm cls p = some r ∧
      Post (fun c vm cls vm' new => (SameCard c vm cls vm' new) ∨ S c vm cls vm' new ∧
        c.isTautology = false ∧ c.isUnsat = false ∧ c.isPositiveAssignment = false ∧ c.isNegativeAssignment = false ∧
        c.isClause = false) c vm cls p s r := by
  unfold encodeCardCert
  by_cases h1 : c.isTautology = true
  · rw [if_pos h1]
    refine ⟨_, rfl, [], s, by simp, Logged.refl h.inn, ⟨Nat.le_refl _, (fun cl hcl => by cases hcl), fun b _ => C10_is_tautology c h1 b,
      fun a _ => ⟨a, fun _ _ => rfl, fun cl hcl => by cases hcl⟩⟩, Or.inl ?_⟩
    unfold SameCard encodeCardinalityConstraint
    rw [if_pos h1]; simp
  rw [if_neg h1]
  by_cases h2 : c.isUnsat = true
  · rw [if_pos h2]
    have hg : ∃ D, s.get id = some D ∧ ∀ b, ¬ D.sat b := by
      cases c with
      | ub l b => cases h2
      | lb l k =>
        refine ⟨_, hid, fun b hb => ?_⟩
        have := C10_is_unsat _ h2 b
        unfold Ineq.sat at hb
        rw [slack_lb] at hb
        exact this (by show k ≤ countTrue b l; omega)
      | eq l k =>
        refine ⟨_, hid.1, fun b hb => ?_⟩
        have := C10_is_unsat (.lb l k) h2 b
        unfold Ineq.sat at hb
        rw [slack_lb] at hb
        exact this (by show k ≤ countTrue b l; omega)
    obtain ⟨D, hg, hD⟩ := hg
    refine ⟨_, rfl, post_rup cls h hg [[]] (fun cl hcl l hl => by rw [List.mem_singleton.1 hcl] at hl; cases hl) hv
      (fun b hb => absurd hb (hD b)) (fun b => ⟨fun hb => ?_, fun hb => absurd hb (C10_is_unsat c h2 b)⟩) (Or.inl ?_)⟩
    · obtain ⟨x, hx, _⟩ := hb [] (List.mem_singleton.2 rfl); cases hx
    · unfold SameCard encodeCardinalityConstraint
      rw [if_neg h1, if_pos h2]
  rw [if_neg h2]
  by_cases h3 : c.isPositiveAssignment = true
  · rw [if_pos h3]
    have hg : ∃ D, s.get id = some D ∧ ∀ b, D.sat b → c.lits.length ≤ countTrue b c.lits := by
      cases c with
      | ub l b => cases h3
      | lb l k =>
        refine ⟨_, hid, fun b hb => ?_⟩
        unfold Ineq.sat at hb
        rw [slack_lb] at hb
        have : k = l.length := by simpa [CardConstraint.isPositiveAssignment] using h3
        show l.length ≤ countTrue b l
        omega
      | eq l k =>
        refine ⟨_, hid.1, fun b hb => ?_⟩
        unfold Ineq.sat at hb
        rw [slack_lb] at hb
        have : k = l.length := by simpa [CardConstraint.isPositiveAssignment] using h3
        show l.length ≤ countTrue b l
        omega
    obtain ⟨D, hg, hD⟩ := hg
    have hle : ∀ b, countTrue b c.lits ≤ c.lits.length := fun b => by
      have := countTrue_map_neg b c.lits; omega
    refine ⟨_, rfl, post_rup cls h hg _ (fun cl hcl l hl => ?_) hv
      (fun b hb => (sat_units b _).2 (Nat.le_antisymm (hle b) (hD b hb))) (fun b => ?_) (Or.inl ?_)⟩
    · obtain ⟨x, hx, rfl⟩ := List.mem_map.1 hcl
      rw [List.mem_singleton.1 hl]
      exact ⟨x, hx, rfl⟩
    · rw [C10_is_positive_assignment c h3 b]
      simp [ClauseSet.sat, Clause.sat]
    · unfold SameCard encodeCardinalityConstraint
      rw [if_neg h1, if_neg h2, if_pos h3]; rfl
  rw [if_neg h3]
  by_cases h4 : c.isNegativeAssignment = true
  · rw [if_pos h4]
    have hg : ∃ D, s.get (match c with | .eq _ _ => id + 1 | _ => id) = some D ∧ ∀ b, D.sat b → countTrue b c.lits = 0 := by
      cases c with
      | ub l k =>
        refine ⟨_, hid, fun b hb => ?_⟩
        unfold Ineq.sat at hb
        rw [slack_ub] at hb
        have : k = 0 := by simpa [CardConstraint.isNegativeAssignment] using h4
        show countTrue b l = 0
        omega
      | lb l k => cases h4
      | eq l k =>
        refine ⟨_, hid.2, fun b hb => ?_⟩
        unfold Ineq.sat at hb
        rw [slack_ub] at hb
        have : k = 0 := by simpa [CardConstraint.isNegativeAssignment] using h4
        show countTrue b l = 0
        omega
    obtain ⟨D, hg, hD⟩ := hg
    refine ⟨_, rfl, post_rup cls h hg _ (fun cl hcl l hl => ?_) hv
      (fun b hb => (sat_neg_units b _).2 (hD b hb)) (fun b => ?_) (Or.inl ?_)⟩
    · obtain ⟨x, hx, rfl⟩ := List.mem_map.1 hcl
      rw [List.mem_singleton.1 hl]
      exact ⟨x, hx, (Lit.var_neg x).symm⟩
    · rw [C10_is_negative_assignment c h4 b]
      simp [ClauseSet.sat, Clause.sat, Lit.holds_neg]
    · unfold SameCard encodeCardinalityConstraint
      rw [if_neg h1, if_neg h2, if_neg h3, if_pos h4]
      simp [unitClauses]
  rw [if_neg h4]
  by_cases h5 : c.isClause = true
  · rw [if_pos h5]
    obtain ⟨cl, e1, e2⟩ := (C09_into_clause c).1 h5
    have hg : ∃ D, s.get id = some D ∧ ∀ b, D.sat b → c.sat b := by
      cases c with
      | ub l k =>
        refine ⟨_, hid, fun b hb => ?_⟩
        unfold Ineq.sat at hb
        rw [slack_ub] at hb
        show countTrue b l ≤ k
        omega
      | lb l k =>
        refine ⟨_, hid, fun b hb => ?_⟩
        unfold Ineq.sat at hb
        rw [slack_lb] at hb
        show k ≤ countTrue b l
        omega
      | eq l k => cases h5
    obtain ⟨D, hg, hD⟩ := hg
    have hone : ∀ b, ClauseSet.sat b [cl] ↔ Clause.sat b cl := fun b => by simp [ClauseSet.sat]
    rw [e1]
    refine ⟨_, rfl, post_rup cls h hg _ (fun cl' hcl l hl => ?_) hv
      (fun b hb => (hone b).2 ((e2 b).2 (hD b hb))) (fun b => (hone b).trans (e2 b)) (Or.inl ?_)⟩
    · rw [List.mem_singleton.1 hcl] at hl
      exact CardConstraint.vars_intoClause e1 l hl
    · unfold SameCard encodeCardinalityConstraint
      rw [if_neg h1, if_neg h2, if_neg h3, if_neg h4, if_pos h5, e1]
  rw [if_neg h5]
  have fin : ∀ {r}, ce.constr c id vm cls p = .ok r → Post S c vm cls p s r →
      ∃ r, (match ce.constr c id vm cls p with | .ok r => some r | _ => none) = some r ∧
        Post (fun c vm cls vm' new => (SameCard c vm cls vm' new) ∨ S c vm cls vm' new ∧
          c.isTautology = false ∧ c.isUnsat = false ∧ c.isPositiveAssignment = false ∧ c.isNegativeAssignment = false ∧
          c.isClause = false) c vm cls p s r := by
    intro r e hp
    obtain ⟨new, s', g1, g2, g3, g4⟩ := hp
    refine ⟨r, by rw [e], new, s', g1, g2, g3, Or.inr ⟨g4, ?_⟩⟩
    simp only [Bool.not_eq_true] at h1 h2 h3 h4 h5
    exact ⟨h1, h2, h3, h4, h5⟩
  cases c with
  | ub l k =>
    have q1 : k < l.length := by simpa [CardConstraint.isTautology] using h1
    have q4 : k ≠ 0 := by simpa [CardConstraint.isNegativeAssignment] using h4
    obtain ⟨r, e, hp⟩ := hce.ub l k id vm cls p s h.inn hv hn (by omega) q1 (h.ub hid)
    exact fin e hp
  | lb l k =>
    have q1 : k ≠ 0 := by simpa [CardConstraint.isTautology] using h1
    have q2 : k ≤ l.length := by simpa [CardConstraint.isUnsat] using h2
    have q5 : k ≠ 1 := by simpa [CardConstraint.isClause] using h5
    obtain ⟨r, e, hp⟩ := hce.lb l k id vm cls p s h.inn hv hn (by omega) (by omega) q2 (h.lb hid)
    exact fin e hp
  | eq l k =>
    have q2 : k ≤ l.length := by simpa [CardConstraint.isUnsat] using h2
    have q3 : k ≠ l.length := by simpa [CardConstraint.isPositiveAssignment] using h3
    have q4 : k ≠ 0 := by simpa [CardConstraint.isNegativeAssignment] using h4
    obtain ⟨r, e, hp⟩ := hce.eq l k id vm cls p s h.inn hv hn (by omega) (by omega) (h.lb hid.1) (h.ub hid.2)
    exact fin e hp

end RustSat
