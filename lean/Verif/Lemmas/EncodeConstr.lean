import Verif.Spec.EncodeConstr
import Verif.Lemmas.Simulators
import Verif.Props.Constraints
/-
Lemmas about encoding whole constraints.
-/
namespace RustSat
open Card

theorem sat_unitClauses (a : Asg) (A : List Lit) : ClauseSet.sat a (unitClauses A) ↔ cubeSat a A := by
  unfold unitClauses ClauseSet.sat cubeSat
  constructor
  · intro h l hl
    obtain ⟨x, hx, h1⟩ := h [l] (List.mem_map.2 ⟨l, hl, rfl⟩)
    rw [List.mem_singleton.1 hx] at h1
    exact h1
  · intro h c hc
    obtain ⟨l, hl, rfl⟩ := List.mem_map.1 hc
    exact ⟨l, List.mem_singleton.2 rfl, h l hl⟩

theorem vars_unitClauses {A : List Lit} {c : Clause} {l : Lit} (hc : c ∈ unitClauses A) (hl : l ∈ c) : l ∈ A := by
  obtain ⟨x, hx, rfl⟩ := List.mem_map.1 hc
  rw [List.mem_singleton.1 hl]
  exact hx

/-- From assumptions to unit clauses. -/
theorem Enforces.encodes {cls : ClauseSet} {n n' : Nat} {own : List Nat} {V : Nat → Prop} {A : List Lit} {P : Asg → Prop}
    (h : Enforces cls own V A P) (hle : n ≤ n') (ho : ∀ v, v ∈ own ↔ n ≤ v ∧ v < n')
    (hv : ∀ c ∈ cls, ∀ l ∈ c, V l.var ∨ l.var ∈ own) : Encodes V n n' (cls ++ unitClauses A) P where
  le := hle
  vars c hc l hl := by
    rcases List.mem_append.1 hc with hc | hc
    · exact (hv c hc l hl).imp id (ho _).1
    · exact (h.vars l (vars_unitClauses hc hl)).imp id (ho _).1
  sound b hb := by
    rw [ClauseSet.sat_append, sat_unitClauses] at hb
    exact h.sound b hb.1 hb.2
  complete a ha := by
    obtain ⟨m, h1, h2, h3⟩ := h.complete a ha
    refine ⟨m, fun v hv => h1 v fun ho' => ?_, ?_⟩
    · have := (ho v).1 ho'; omega
    · rw [ClauseSet.sat_append, sat_unitClauses]; exact ⟨h2, h3⟩

namespace AddsEncoding
variable {VM : Type} [ManageVars VM] {f g : VM → ClauseSet → Option (VM × ClauseSet)} {vm : VM} {V V' : Nat → Prop}
  {P P' : Asg → Prop}

theorem congr (h : AddsEncoding f vm V P) (hf : ∀ cls, g vm cls = f vm cls) (hV : ∀ v, V v → V' v) (hP : ∀ a, P a ↔ P' a) :
    AddsEncoding g vm V' P' := by
  intro cls
  obtain ⟨vm', new, h1, h2⟩ := h cls
  exact ⟨vm', new, by rw [hf, h1], (h2.congr hP).weaken hV⟩

theorem static {cl : ClauseSet} (hf : ∀ cls, f vm cls = some (vm, cls ++ cl)) (hv : ∀ c ∈ cl, ∀ l ∈ c, V l.var)
    (hP : ∀ a, ClauseSet.sat a cl ↔ P a) : AddsEncoding f vm V P :=
  fun cls => ⟨vm, cl, hf cls, (Encodes.static hv).congr hP⟩

end AddsEncoding

section
variable {E ι VM : Type} [ManageVars VM] [Item ι] [LawfulItem ι] [Encoder E ι] [EncodeInc E VM] [LawfulEnc E ι VM]

theorem addsUb [BoundUpper E VM] [EnforceUb E] [LawfulUb E ι VM] (lits : List ι) (b : Nat) (vm : VM)
    (hd : LawfulItem.distinct lits) (h : ∀ x ∈ lits, 0 < Item.weight x ∧ (Item.lit x).var < ManageVars.nUsed vm)
    (hok : LawfulUb.ubOk VM (Encoder.new lits : E) ⟨.incl b, .incl b⟩) :
    AddsEncoding (encodeOneUb E lits b) vm (Item.vars lits) fun a => Item.value a lits ≤ b := by
  intro cls
  have hi := LawfulEnc.new (E := E) (VM := VM) lits _ hd h
  obtain ⟨e, vm', new, h1, h2, h3, h4⟩ := LawfulUb.encodeUb (Encoder.new lits : E) ⟨.incl b, .incl b⟩ vm [] lits [] hi hok cls
  obtain ⟨A, hA⟩ := h4 b ⟨Nat.le_refl _, Nat.le_refl _⟩
  refine ⟨vm', new ++ unitClauses A, ?_, ?_⟩
  · unfold encodeOneUb
    rw [h1]
    simp only [hA, List.append_assoc]
  · exact (LawfulUb.enforceUb e _ _ lits _ b A h3 hA).encodes h2 (fun v => by rw [List.nil_append]; exact mem_handedOut)
      (LawfulEnc.vars e _ _ _ _ h3)

theorem addsLb [BoundLower E VM] [EnforceLb E] [LawfulLb E ι VM] (lits : List ι) (b : Nat) (vm : VM)
    (hd : LawfulItem.distinct lits) (h : ∀ x ∈ lits, 0 < Item.weight x ∧ (Item.lit x).var < ManageVars.nUsed vm)
    (hb : b ≤ Item.total lits) (hok : LawfulLb.lbOk VM (Encoder.new lits : E) ⟨.incl b, .incl b⟩) :
    AddsEncoding (encodeOneLb E lits b) vm (Item.vars lits) fun a => b ≤ Item.value a lits := by
  intro cls
  have hi := LawfulEnc.new (E := E) (VM := VM) lits _ hd h
  obtain ⟨e, vm', new, h1, h2, h3, h4⟩ := LawfulLb.encodeLb (Encoder.new lits : E) ⟨.incl b, .incl b⟩ vm [] lits [] hi hok cls
  obtain ⟨A, hA⟩ := h4 b ⟨Nat.le_refl _, Nat.le_refl _⟩ hb
  refine ⟨vm', new ++ unitClauses A, ?_, ?_⟩
  · unfold encodeOneLb
    rw [h1]
    simp only [hA, List.append_assoc]
  · exact (LawfulLb.enforceLb e _ _ lits _ b A h3 hA).encodes h2 (fun v => by rw [List.nil_append]; exact mem_handedOut)
      (LawfulEnc.vars e _ _ _ _ h3)

theorem addsEq [BoundBoth E VM] [EnforceEq E] [LawfulBoth E ι VM] (lits : List ι) (b : Nat) (vm : VM)
    (hd : LawfulItem.distinct lits) (h : ∀ x ∈ lits, 0 < Item.weight x ∧ (Item.lit x).var < ManageVars.nUsed vm)
    (hb : b ≤ Item.total lits) (hok : LawfulBoth.bothOk VM (Encoder.new lits : E) ⟨.incl b, .incl b⟩) :
    AddsEncoding (encodeOneEq E lits b) vm (Item.vars lits) fun a => Item.value a lits = b := by
  intro cls
  have hi := LawfulEnc.new (E := E) (VM := VM) lits _ hd h
  obtain ⟨e, vm', new, h1, h2, h3, h4⟩ := LawfulBoth.encodeBoth (Encoder.new lits : E) ⟨.incl b, .incl b⟩ vm [] lits [] hi hok cls
  obtain ⟨A, hA⟩ := h4 b ⟨Nat.le_refl _, Nat.le_refl _⟩ hb
  refine ⟨vm', new ++ unitClauses A, ?_, ?_⟩
  · unfold encodeOneEq
    rw [h1]
    simp only [hA, List.append_assoc]
  · exact (LawfulBoth.enforceEq e _ _ lits _ b A h3 hA).encodes h2 (fun v => by rw [List.nil_append]; exact mem_handedOut)
      (LawfulEnc.vars e _ _ _ _ h3)

end

/-- The clause of a constraint has its variables. -/
theorem CardConstraint.vars_intoClause {c : CardConstraint} {cl : Clause} (h : c.intoClause = .ok cl) :
    ∀ l ∈ cl, varsOf c.lits l.var := by
  unfold CardConstraint.intoClause at h
  intro l hl
  cases c with
  | ub ls b =>
    split at h
    · cases h
    · simp only [Res.ok.injEq] at h
      subst h
      obtain ⟨x, hx, rfl⟩ := List.mem_map.1 hl
      exact ⟨x, hx, (Lit.var_neg x).symm⟩
  | lb ls b =>
    split at h
    · cases h
    · simp only [Res.ok.injEq] at h
      subst h
      exact ⟨l, hl, rfl⟩
  | eq ls b => simp [CardConstraint.isClause] at h

theorem PbConstraint.vars_intoClause {c : PbConstraint} {cl : Clause} (h : c.intoClause = .ok cl) :
    ∀ l ∈ cl, varsOf (c.lits.map (·.1)) l.var := by
  unfold PbConstraint.intoClause at h
  intro l hl
  cases c with
  | ub ls ws b =>
    split at h
    · cases h
    · simp only [Res.ok.injEq] at h
      subst h
      obtain ⟨x, hx, rfl⟩ := List.mem_map.1 hl
      exact ⟨x.1, List.mem_map.2 ⟨x, hx, rfl⟩, (Lit.var_neg x.1).symm⟩
  | lb ls ws b =>
    split at h
    · cases h
    · simp only [Res.ok.injEq] at h
      subst h
      exact ⟨l, hl, rfl⟩
  | eq ls ws b => simp [PbConstraint.isClause] at h

theorem item_vars_lit (l : List Lit) (v : Nat) : Item.vars l v ↔ varsOf l v := Iff.rfl

theorem item_vars_weighted (l : List (Lit × Nat)) (v : Nat) : Item.vars l v ↔ varsOf (l.map (·.1)) v := by
  constructor
  · rintro ⟨x, hx, rfl⟩; exact ⟨x.1, List.mem_map.2 ⟨x, hx, rfl⟩, rfl⟩
  · rintro ⟨y, hy, rfl⟩
    obtain ⟨x, hx, rfl⟩ := List.mem_map.1 hy
    exact ⟨x, hx, rfl⟩

theorem wtotal_eq_sum (l : List (Lit × Nat)) : wtotal l = (l.map (·.2)).sum := by
  induction l with
  | nil => rfl
  | cons x l ih => rw [List.map_cons, List.sum_cons, ← ih]; rfl

section
variable {VM : Type} [ManageVars VM]

/-- Encoding a cardinality constraint. -/
theorem addsCard (E : Type) [Encoder E Lit] [EncodeInc E VM] [LawfulEnc E Lit VM] [BoundUpper E VM] [EnforceUb E]
    [LawfulUb E Lit VM] [BoundLower E VM] [EnforceLb E] [LawfulLb E Lit VM] [BoundBoth E VM] [EnforceEq E]
    [LawfulBoth E Lit VM] (acc : AcceptsSingle E Lit VM) (c : CardConstraint) (vm : VM)
    (hv : ∀ l ∈ c.lits, l.var < ManageVars.nUsed vm) :
    AddsEncoding (encodeCardinalityConstraint E c) vm (varsOf c.lits) c.sat := by
  have hv' : ∀ x ∈ c.lits, 0 < Item.weight x ∧ (Item.lit x).var < ManageVars.nUsed vm := fun x hx => ⟨Nat.one_pos, hv x hx⟩
  by_cases h1 : c.isTautology = true
  · exact AddsEncoding.static (cl := []) (fun cls => by unfold encodeCardinalityConstraint; rw [if_pos h1, List.append_nil])
      (fun _ h => by cases h) fun a => ⟨fun _ => C10_is_tautology c h1 a, fun _ _ h => by cases h⟩
  by_cases h2 : c.isUnsat = true
  · exact AddsEncoding.static (cl := [[]]) (fun cls => by unfold encodeCardinalityConstraint; rw [if_neg h1, if_pos h2])
      (fun c hc l hl => by rw [List.mem_singleton.1 hc] at hl; cases hl)
      fun a => ⟨fun h => (by obtain ⟨x, hx, _⟩ := h [] (List.mem_singleton.2 rfl); cases hx),
        fun h => absurd h (C10_is_unsat c h2 a)⟩
  by_cases h3 : c.isPositiveAssignment = true
  · exact AddsEncoding.static (cl := unitClauses c.lits)
      (fun cls => by unfold encodeCardinalityConstraint; rw [if_neg h1, if_neg h2, if_pos h3])
      (fun c' hc l hl => ⟨l, vars_unitClauses hc hl, rfl⟩)
      fun a => by rw [sat_unitClauses, C10_is_positive_assignment c h3 a]; rfl
  by_cases h4 : c.isNegativeAssignment = true
  · refine AddsEncoding.static (cl := unitClauses (c.lits.map Lit.neg))
      (fun cls => by unfold encodeCardinalityConstraint; rw [if_neg h1, if_neg h2, if_neg h3, if_pos h4])
      (fun c' hc l hl => ?_) fun a => ?_
    · obtain ⟨x, hx, rfl⟩ := List.mem_map.1 (vars_unitClauses hc hl)
      exact ⟨x, hx, (Lit.var_neg x).symm⟩
    · rw [sat_unitClauses, C10_is_negative_assignment c h4 a]
      unfold cubeSat
      constructor
      · intro h l hl
        have := h l.neg (List.mem_map.2 ⟨l, hl, rfl⟩)
        rw [Lit.holds_neg] at this
        simpa using this
      · intro h l hl
        obtain ⟨x, hx, rfl⟩ := List.mem_map.1 hl
        rw [Lit.holds_neg, h x hx]; rfl
  by_cases h5 : c.isClause = true
  · obtain ⟨cl, e1, e2⟩ := (C09_into_clause c).1 h5
    refine AddsEncoding.static (cl := [cl])
      (fun cls => by unfold encodeCardinalityConstraint; rw [if_neg h1, if_neg h2, if_neg h3, if_neg h4, if_pos h5, e1])
      (fun c' hc l hl => ?_) fun a => ?_
    · rw [List.mem_singleton.1 hc] at hl
      exact CardConstraint.vars_intoClause e1 l hl
    · rw [← e2 a]
      unfold ClauseSet.sat
      exact ⟨fun h => h cl (List.mem_singleton.2 rfl), fun h c hc => by rw [List.mem_singleton.1 hc]; exact h⟩
  have key : ∀ cls, encodeCardinalityConstraint E c vm cls = match c.encodeConstr E vm cls with
      | .ok r => some r
      | _ => none := fun cls => by
    unfold encodeCardinalityConstraint; rw [if_neg h1, if_neg h2, if_neg h3, if_neg h4, if_neg h5]; rfl
  cases c with
  | ub l b =>
    simp only [CardConstraint.isTautology, decide_eq_true_eq] at h1
    refine (addsUb (E := E) l b vm trivial hv' (acc.ub l b trivial (by rw [Item.total_lit]; omega))).congr (fun cls => ?_)
      (fun v h => h) fun a => ?_
    · rw [key]
      show (match Res.ofOption (ε := Unit) (encodeOneUb E l b vm cls) with | .ok r => some r | _ => none) = _
      cases encodeOneUb E l b vm cls <;> rfl
    · rw [Item.value_lit]; rfl
  | lb l b =>
    have hb : b ≤ l.length := by simpa [CardConstraint.isUnsat] using h2
    refine (addsLb (E := E) l b vm trivial hv' (by rw [Item.total_lit]; exact hb)
      (acc.lb l b trivial (by rw [Item.total_lit]; exact hb))).congr (fun cls => ?_) (fun v h => h) fun a => ?_
    · rw [key]
      show (match (if b > l.length then .err () else Res.ofOption (ε := Unit) (encodeOneLb E l b vm cls)) with
        | .ok r => some r | _ => none) = _
      rw [if_neg (by omega)]
      cases encodeOneLb E l b vm cls <;> rfl
    · rw [Item.value_lit]; rfl
  | eq l b =>
    have hb : b ≤ l.length := by simpa [CardConstraint.isUnsat] using h2
    refine (addsEq (E := E) l b vm trivial hv' (by rw [Item.total_lit]; exact hb)
      (acc.both l b trivial (by rw [Item.total_lit]; exact hb))).congr (fun cls => ?_) (fun v h => h) fun a => ?_
    · rw [key]
      show (match (if b > l.length then .err () else Res.ofOption (ε := Unit) (encodeOneEq E l b vm cls)) with
        | .ok r => some r | _ => none) = _
      rw [if_neg (by omega)]
      cases encodeOneEq E l b vm cls <;> rfl
    · rw [Item.value_lit]; rfl

/-- The literals of the cardinality constraint made from a PB constraint. -/
theorem PbConstraint.lits_intoCardConstr {c : PbConstraint} {d : CardConstraint} (h : c.intoCardConstr = .ok d) :
    d.lits = c.lits.map (·.1) := by
  unfold PbConstraint.intoCardConstr at h
  split at h
  · cases h
  split at h
  · cases h
  cases c with
  | ub l ws b => simp only at h; split at h <;> cases h; rfl
  | lb l ws b => simp only at h; split at h <;> cases h; rfl
  | eq l ws b =>
    simp only at h
    split at h
    · cases h
    · cases h
    · split at h <;> cases h; rfl

/-- When a PB constraint is a cardinality constraint. -/
theorem PbConstraint.Regular.intoCardConstr {c : PbConstraint} (h : c.Regular) (h1 : c.isTautology ≠ true)
    (h2 : c.isUnsat ≠ true) (h3 : c.isCard = true) : ∃ d, c.intoCardConstr = .ok d := by
  unfold PbConstraint.intoCardConstr
  rw [if_neg h1, if_neg h2]
  unfold PbConstraint.isCard at h3
  obtain ⟨w, hw⟩ := Option.isSome_iff_exists.1 h3
  obtain ⟨hne, hall⟩ := PbConstraint.findUnitWeight_some hw
  have hpos : w ≠ 0 := by
    obtain ⟨p, hp⟩ := List.exists_mem_of_ne_nil _ hne
    have := h.pos p hp
    rw [hall p hp] at this
    omega
  cases w with
  | zero => exact absurd rfl hpos
  | succ w =>
    cases c with
    | ub l ws b => simp only [PbConstraint.lits] at hw; simp only [hw]; exact ⟨_, rfl⟩
    | lb l ws b => simp only [PbConstraint.lits] at hw; simp only [hw]; exact ⟨_, rfl⟩
    | eq l ws b =>
      simp only [PbConstraint.lits] at hw hall
      simp only [hw]
      have := Nat.mod_eq_zero_of_dvd (h.divides l ws b (w + 1) rfl hall)
      rw [if_neg (by rw [this]; simp)]
      exact ⟨_, rfl⟩

theorem acceptsTotalizer [LawfulVM VM] : AcceptsSingle Totalizer Lit VM where
  ub _ _ _ _ := trivial
  lb _ _ _ _ := trivial
  both _ _ _ _ := trivial

/-- Encoding a PB constraint. -/
theorem addsPb [LawfulVM VM] (E : Type) [Encoder E (Lit × Nat)] [EncodeInc E VM] [LawfulEnc E (Lit × Nat) VM] [BoundUpper E VM]
    [EnforceUb E] [LawfulUb E (Lit × Nat) VM] [BoundLower E VM] [EnforceLb E] [LawfulLb E (Lit × Nat) VM] [BoundBoth E VM]
    [EnforceEq E] [LawfulBoth E (Lit × Nat) VM] (acc : AcceptsSingle E (Lit × Nat) VM) (c : PbConstraint) (hr : c.Regular)
    (vm : VM) (hv : ∀ p ∈ c.lits, p.1.var < ManageVars.nUsed vm) :
    AddsEncoding (encodePbConstraint E c) vm (varsOf (c.lits.map (·.1))) c.sat := by
  have hv' : ∀ x ∈ c.lits, 0 < Item.weight x ∧ (Item.lit x).var < ManageVars.nUsed vm := fun x hx => ⟨hr.pos x hx, hv x hx⟩
  have hw := hr.wf
  by_cases h1 : c.isTautology = true
  · exact AddsEncoding.static (cl := []) (fun cls => by unfold encodePbConstraint; rw [if_pos h1, List.append_nil])
      (fun _ h => by cases h) fun a => ⟨fun _ => C12_is_tautology c hw h1 a, fun _ _ h => by cases h⟩
  by_cases h2 : c.isUnsat = true
  · exact AddsEncoding.static (cl := [[]]) (fun cls => by unfold encodePbConstraint; rw [if_neg h1, if_pos h2])
      (fun c hc l hl => by rw [List.mem_singleton.1 hc] at hl; cases hl)
      fun a => ⟨fun h => (by obtain ⟨x, hx, _⟩ := h [] (List.mem_singleton.2 rfl); cases hx),
        fun h => absurd h (C12_is_unsat c hw h2 a)⟩
  by_cases h3 : c.isPositiveAssignment = true
  · refine AddsEncoding.static (cl := unitClauses (c.lits.map (·.1)))
      (fun cls => by unfold encodePbConstraint; rw [if_neg h1, if_neg h2, if_pos h3])
      (fun c' hc l hl => ⟨l, vars_unitClauses hc hl, rfl⟩)
      fun a => ?_
    rw [sat_unitClauses, C12_is_positive_assignment c hw (.inl hr.pos) h3 a]
    unfold cubeSat
    constructor
    · intro h p hp; exact h p.1 (List.mem_map.2 ⟨p, hp, rfl⟩)
    · intro h l hl
      obtain ⟨p, hp, rfl⟩ := List.mem_map.1 hl
      exact h p hp
  by_cases h4 : c.isNegativeAssignment = true
  · refine AddsEncoding.static (cl := unitClauses (c.lits.map fun p => p.1.neg))
      (fun cls => by unfold encodePbConstraint; rw [if_neg h1, if_neg h2, if_neg h3, if_pos h4])
      (fun c' hc l hl => ?_) fun a => ?_
    · obtain ⟨x, hx, rfl⟩ := List.mem_map.1 (vars_unitClauses hc hl)
      exact ⟨x.1, List.mem_map.2 ⟨x, hx, rfl⟩, (Lit.var_neg x.1).symm⟩
    · rw [sat_unitClauses, C12_is_negative_assignment c (.inl hr.pos) h4 a]
      unfold cubeSat
      constructor
      · intro h p hp
        have := h p.1.neg (List.mem_map.2 ⟨p, hp, rfl⟩)
        rw [Lit.holds_neg] at this
        simpa using this
      · intro h l hl
        obtain ⟨x, hx, rfl⟩ := List.mem_map.1 hl
        rw [Lit.holds_neg, h x hx]; rfl
  by_cases h5 : c.isClause = true
  · obtain ⟨cl, e1, e2⟩ := (C13_into_clause c hw).1 h5
    refine AddsEncoding.static (cl := [cl])
      (fun cls => by unfold encodePbConstraint; rw [if_neg h1, if_neg h2, if_neg h3, if_neg h4, if_pos h5, e1])
      (fun c' hc l hl => ?_) fun a => ?_
    · rw [List.mem_singleton.1 hc] at hl
      exact PbConstraint.vars_intoClause e1 l hl
    · rw [← e2 a]
      unfold ClauseSet.sat
      exact ⟨fun h => h cl (List.mem_singleton.2 rfl), fun h c hc => by rw [List.mem_singleton.1 hc]; exact h⟩
  by_cases h6 : c.isCard = true
  · obtain ⟨d, hd⟩ := hr.intoCardConstr h1 h2 h6
    have hl := PbConstraint.lits_intoCardConstr hd
    refine (addsCard Totalizer acceptsTotalizer d vm ?_).congr (fun cls => ?_) (fun v h => ?_)
      ((C13_into_card_constr c hw).1 d hd)
    · rw [hl]
      intro l hl'
      obtain ⟨p, hp, rfl⟩ := List.mem_map.1 hl'
      exact hv p hp
    · unfold encodePbConstraint
      rw [if_neg h1, if_neg h2, if_neg h3, if_neg h4, if_neg h5, if_pos h6, hd]
      rfl
    · rw [hl] at h; exact h
  have key : ∀ cls, encodePbConstraint E c vm cls = match c.encodeConstr E vm cls with
      | .ok r => some r
      | _ => none := fun cls => by
    unfold encodePbConstraint; rw [if_neg h1, if_neg h2, if_neg h3, if_neg h4, if_neg h5, if_neg h6]; rfl
  have hne : c.lits ≠ [] ∧ (c.lits.map (·.1)).Nodup := by
    have hne : c.lits ≠ [] := by
      intro h0
      cases c with
      | ub l ws b =>
        simp only [PbConstraint.lits] at h0
        simp only [PbConstraint.WF, PbConstraint.weightSum, PbConstraint.lits, h0] at hw
        simp only [PbConstraint.isTautology, PbConstraint.isUnsat, hw, wtotal] at h1 h2
        simp at h1 h2
        omega
      | lb l ws b =>
        simp only [PbConstraint.lits] at h0
        simp only [PbConstraint.WF, PbConstraint.weightSum, PbConstraint.lits, h0] at hw
        simp only [PbConstraint.isTautology, PbConstraint.isUnsat, hw, wtotal] at h1 h2
        simp at h1 h2
        omega
      | eq l ws b =>
        simp only [PbConstraint.lits] at h0
        simp only [PbConstraint.WF, PbConstraint.weightSum, PbConstraint.lits, h0] at hw
        simp only [PbConstraint.isPositiveAssignment, PbConstraint.isUnsat, hw, wtotal] at h3 h2
        simp at h3 h2
        omega
    refine ⟨hne, ?_⟩
    rcases hr.nodup with h | h
    · exact absurd ((C12_is_card c).2 ⟨hne, h⟩) h6
    · exact h
  cases c with
  | ub l ws b =>
    simp only [PbConstraint.WF, PbConstraint.weightSum, PbConstraint.lits] at hw
    have hb : ¬ b < 0 := by simpa [PbConstraint.isUnsat] using h2
    have hb2 : b.natAbs < ws := by simpa [PbConstraint.isTautology, hb] using h1
    refine (addsUb (E := E) l b.natAbs vm hne.2 hv' (acc.ub l _ hne.2 ?_)).congr (fun cls => ?_)
      (fun v h => (item_vars_weighted l v).1 h) fun a => ?_
    · show _ < (l.map (·.2)).sum
      rw [← wtotal_eq_sum]; omega
    · rw [key]
      show (match (if b < 0 then .err () else Res.ofOption (ε := Unit) (encodeOneUb E l b.natAbs vm cls)) with
        | .ok r => some r | _ => none) = _
      rw [if_neg hb]
      cases encodeOneUb E l b.natAbs vm cls <;> rfl
    · rw [Item.value_weighted]
      show _ ↔ (wsum a l : Int) ≤ b
      omega
  | lb l ws b =>
    simp only [PbConstraint.WF, PbConstraint.weightSum, PbConstraint.lits] at hw
    have hb : ¬ b ≤ 0 := by simpa [PbConstraint.isTautology] using h1
    have hb2 : b.natAbs ≤ ws := by
      have : ¬ b < 0 := by omega
      simpa [PbConstraint.isUnsat, this] using h2
    have ht : b.natAbs ≤ (l.map (·.2)).sum := by rw [← wtotal_eq_sum]; omega
    refine (addsLb (E := E) l b.natAbs vm hne.2 hv' ht (acc.lb l _ hne.2 ht)).congr (fun cls => ?_)
      (fun v h => (item_vars_weighted l v).1 h) fun a => ?_
    · rw [key]
      show (match (if b < 0 then .ok (vm, cls) else if b.natAbs > litsWeight l then .err () else
        Res.ofOption (ε := Unit) (encodeOneLb E l b.natAbs vm cls)) with
        | .ok r => some r | _ => none) = _
      rw [if_neg (by omega), if_neg (by unfold litsWeight; omega)]
      cases encodeOneLb E l b.natAbs vm cls <;> rfl
    · rw [Item.value_weighted]
      show _ ↔ b ≤ (wsum a l : Int)
      omega
  | eq l ws b =>
    simp only [PbConstraint.WF, PbConstraint.weightSum, PbConstraint.lits] at hw
    have hb : ¬ b < 0 := by
      intro hb; simp [PbConstraint.isUnsat, hb] at h2
    have hb2 : b.natAbs ≤ ws := by simpa [PbConstraint.isUnsat, hb] using h2
    have ht : b.natAbs ≤ (l.map (·.2)).sum := by rw [← wtotal_eq_sum]; omega
    refine (addsEq (E := E) l b.natAbs vm hne.2 hv' ht (acc.both l _ hne.2 ht)).congr (fun cls => ?_)
      (fun v h => (item_vars_weighted l v).1 h) fun a => ?_
    · rw [key]
      show (match (if b < 0 then .err () else if b.natAbs > litsWeight l then .err () else
        Res.ofOption (ε := Unit) (encodeOneEq E l b.natAbs vm cls)) with
        | .ok r => some r | _ => none) = _
      rw [if_neg (by omega), if_neg (by unfold litsWeight; omega)]
      cases encodeOneEq E l b.natAbs vm cls <;> rfl
    · rw [Item.value_weighted]
      show _ ↔ (wsum a l : Int) = b
      omega

/-- Encoding a list of constraints. -/
theorem addsAll {α : Type} (enc : α → VM → ClauseSet → Option (VM × ClauseSet)) (V : α → Nat → Prop) (P : α → Asg → Prop)
    (hP : ∀ c a b, (∀ v, V c v → a v = b v) → P c a → P c b) (cs : List α) (vm : VM)
    (h : ∀ c ∈ cs, ∀ vm', ManageVars.nUsed vm ≤ ManageVars.nUsed vm' → AddsEncoding (enc c) vm' (V c) (P c))
    (hV : ∀ c ∈ cs, ∀ v, V c v → v < ManageVars.nUsed vm) :
    AddsEncoding (encodeAll enc cs) vm (fun v => ∃ c ∈ cs, V c v) fun a => ∀ c ∈ cs, P c a := by
  induction cs generalizing vm with
  | nil =>
    exact AddsEncoding.static (cl := []) (fun cls => by rw [List.append_nil]; rfl) (fun _ h => by cases h)
      fun a => ⟨fun _ _ h => (by cases h), fun _ _ h => (by cases h)⟩
  | cons c cs ih =>
    intro cls
    obtain ⟨vm1, n1, e1, i1⟩ := h c (List.mem_cons_self ..) vm (Nat.le_refl _) cls
    obtain ⟨vm2, n2, e2, i2⟩ := ih vm1 (fun d hd vm' hvm => h d (List.mem_cons_of_mem _ hd) vm' (Nat.le_trans i1.le hvm))
      (fun d hd v hv => Nat.lt_of_lt_of_le (hV d (List.mem_cons_of_mem _ hd) v hv) i1.le) (cls ++ n1)
    refine ⟨vm2, n1 ++ n2, ?_, ?_⟩
    · show (match enc c vm cls with | none => none | some (vm, cls) => encodeAll enc cs vm cls) = _
      rw [e1]
      simp only
      rw [e2, List.append_assoc]
    · have := (i1.weaken (V' := fun v => ∃ d ∈ c :: cs, V d v) fun v hv => ⟨c, List.mem_cons_self .., hv⟩).append
        (i2.weaken (V' := fun v => ∃ d ∈ c :: cs, V d v) fun v ⟨d, hd, hv⟩ => ⟨d, List.mem_cons_of_mem _ hd, hv⟩)
        (fun v ⟨d, hd, hv⟩ => hV d hd v hv)
        (fun a b hab hp d hd => hP d a b (fun v hv => hab v ⟨d, List.mem_cons_of_mem _ hd, hv⟩) (hp d hd))
      refine this.congr fun a => ?_
      simp only [List.mem_cons, forall_eq_or_imp]

theorem CardConstraint.sat_congr_vars {c : CardConstraint} {a b : Asg} (h : ∀ v, varsOf c.lits v → a v = b v) :
    c.sat a → c.sat b := by
  have : countTrue a c.lits = countTrue b c.lits := countTrue_congr_vars fun l hl => h _ ⟨l, hl, rfl⟩
  cases c <;> simp only [CardConstraint.lits] at this <;> simp only [CardConstraint.sat, this, imp_self]

theorem PbConstraint.sat_congr_vars {c : PbConstraint} {a b : Asg} (h : ∀ v, varsOf (c.lits.map (·.1)) v → a v = b v) :
    c.sat a → c.sat b := by
  have : wsum a c.lits = wsum b c.lits := by
    rw [← Item.value_weighted, ← Item.value_weighted]
    exact Item.value_congr fun x hx => h _ ⟨x.1, List.mem_map.2 ⟨x, hx, rfl⟩, rfl⟩
  cases c <;> simp only [PbConstraint.lits] at this <;> simp only [PbConstraint.sat, this, imp_self]

/-- Which encoders accept single bounds. -/
theorem acceptsInverted [LawfulVM VM] : AcceptsSingle (Inverted Totalizer) Lit VM where
  ub l b _ hb := by
    obtain ⟨r, hr⟩ := ((Encoder.new l : Inverted Totalizer).convert_isSome (prepareUbRange l.length ⟨.incl b, .incl b⟩)).2 (by
      rw [Item.total_lit] at hb
      show 0 < min (b + 1) l.length ∧ min (b + 1) l.length ≤ Item.total l + 1
      rw [Item.total_lit]; omega)
    refine ⟨r, ?_, trivial⟩
    have : (Encoder.new l : Inverted Totalizer).sum = l.length := Item.total_lit l
    rw [this]; exact hr
  lb l b _ hb := by
    obtain ⟨r, hr⟩ := ((Encoder.new l : Inverted Totalizer).convert_isSome (prepareLbRange l.length ⟨.incl b, .incl b⟩)).2 (by
      rw [Item.total_lit] at hb
      show 0 < min (b + 1) (l.length + 1) ∧ min (b + 1) (l.length + 1) ≤ Item.total l + 1
      rw [Item.total_lit]; omega)
    refine ⟨r, ?_, trivial⟩
    have : (Encoder.new l : Inverted Totalizer).sum = l.length := Item.total_lit l
    rw [this]; exact hr
  both l b _ hb := by
    obtain ⟨r, hr⟩ := ((Encoder.new l : Inverted Totalizer).convert_isSome
      (Inverted.prepareBothRange l.length ⟨.incl b, .incl b⟩)).2 (by
      rw [Item.total_lit] at hb
      show 0 < min (b + 1) (l.length + 1) ∧ min (b + 1) (l.length + 1) ≤ Item.total l + 1
      rw [Item.total_lit]; omega)
    refine ⟨(fun h => by cases h), r, ?_, trivial⟩
    have : (Encoder.new l : Inverted Totalizer).sum = l.length := Item.total_lit l
    rw [this]; exact hr

theorem acceptsDoubleGte [LawfulVM VM] : AcceptsSingle DoubleGte (Lit × Nat) VM := by
  have key : ∀ (l : List (Lit × Nat)) b, LawfulLb.lbOk VM (Encoder.new l : Inverted Gte) ⟨.incl b, .incl b⟩ := by
    intro l b
    obtain ⟨r, hr⟩ := ((Encoder.new l : Inverted Gte).convert_isSome
      (prepareLbRange (Encoder.new l : Inverted Gte).sum ⟨.incl b, .incl b⟩)).2 (by
        unfold prepareLbRange; simp only; omega)
    exact ⟨r, hr, trivial⟩
  exact ⟨fun _ _ _ _ => trivial, fun l b hd _ => by
      show LawfulLb.lbOk VM (Encoder.new (Item.collect l) : Inverted Gte) _
      exact key _ b,
    fun l b hd _ => ⟨trivial, by
      show LawfulLb.lbOk VM (Encoder.new (Item.collect l) : Inverted Gte) _
      exact key _ b⟩⟩

theorem acceptsCardSim [LawfulVM VM] {E : Type} [Encoder E Lit] [EncodeInc E VM] [LawfulEnc E Lit VM] [BoundUpper E VM]
    [EnforceUb E] [LawfulUb E Lit VM] [BoundLower E VM] [EnforceLb E] [LawfulLb E Lit VM] [BoundBoth E VM] [EnforceEq E]
    [LawfulBoth E Lit VM] (acc : AcceptsSingle E Lit VM) : AcceptsSingle (CardSim E) (Lit × Nat) VM where
  ub l b _ hb := acc.ub (CardSim.multiply l) b trivial (by rw [CardSim.total_multiply]; exact hb)
  lb l b _ hb := acc.lb (CardSim.multiply l) b trivial (by rw [CardSim.total_multiply]; exact hb)
  both l b _ hb := acc.both (CardSim.multiply l) b trivial (by rw [CardSim.total_multiply]; exact hb)

end
end RustSat
