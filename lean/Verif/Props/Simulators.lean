import Verif.Lemmas.Simulators
/-
C36: encodings obtained by inverting, combining or multiplying other encodings are correct.
-/
namespace RustSat
open Card

section
variable {E ι VM : Type} [ManageVars VM] [LawfulVM VM] [Item ι] [LawfulItem ι] [Encoder E ι] [EncodeInc E VM]
  [LawfulEnc E ι VM]

/-! ### Any encodings -/

omit [LawfulVM VM] in
/-- **C36** (`Inverted`). If `E` is a correct encoding of upper bounds, then after any history the inverted encoding
enforces lower bounds: models of the clauses under the assumptions respect the bound, and every assignment of the
inputs respecting the bound extends to a model. Lower bounds are refused as `Unsat` iff they are above the sum. -/
theorem C36_inverted_lower [BoundUpper E VM] [EnforceUb E] [LawfulUb E ι VM] (w : EncWorld (Inverted E) ι VM)
    (h : EncReach (LawfulEnc.same VM) lbCalls w) (b : Nat) :
    (∀ A, EnforceLb.enforceLb w.enc b = .ok A →
      Enforces w.cls w.own (Item.vars w.ins) A fun a => b ≤ Item.value a w.ins) ∧
    (EnforceLb.enforceLb w.enc b = .err .unsat ↔ Item.total w.ins < b) := by
  have hi := EncReach.inv lbCalls_ok h
  refine ⟨fun A hA => LawfulLb.enforceLb w.enc _ _ _ _ b A hi hA, ?_⟩
  rcases LawfulLb.lb_total w.enc _ _ _ _ b hi with ⟨h1, h2⟩ | ⟨h1, ⟨A, h2⟩ | h2⟩ <;> rw [h2]
  · exact ⟨fun _ => h1, fun _ => rfl⟩
  · exact ⟨fun h => (by cases h), fun h => by omega⟩
  · exact ⟨fun h => (by cases h), fun h => by omega⟩

omit [LawfulVM VM] in
/-- **C36** (`Inverted`). If `E` is a correct encoding of lower bounds, the inverted encoding is one of upper bounds. -/
theorem C36_inverted_upper [BoundLower E VM] [EnforceLb E] [LawfulLb E ι VM] (w : EncWorld (Inverted E) ι VM)
    (h : EncReach (LawfulEnc.same VM) ubCalls w) (b : Nat) (A : List Lit) (hA : EnforceUb.enforceUb w.enc b = .ok A) :
    Enforces w.cls w.own (Item.vars w.ins) A fun a => Item.value a w.ins ≤ b :=
  LawfulUb.enforceUb w.enc _ _ _ _ b A (EncReach.inv ubCalls_ok h) hA

omit [LawfulVM VM] in
/-- **C36** (`Inverted`). Equalities. -/
theorem C36_inverted_eq [BoundBoth E VM] [EnforceEq E] [LawfulBoth E ι VM] (w : EncWorld (Inverted E) ι VM)
    (h : EncReach (LawfulEnc.same VM) bothCalls w) (b : Nat) :
    (∀ A, EnforceEq.enforceEq w.enc b = .ok A →
      Enforces w.cls w.own (Item.vars w.ins) A fun a => Item.value a w.ins = b) ∧
    (EnforceEq.enforceEq w.enc b = .err .unsat ↔ Item.total w.ins < b) := by
  have hi := EncReach.inv bothCalls_ok h
  refine ⟨fun A hA => LawfulBoth.enforceEq w.enc _ _ _ _ b A hi hA, ?_⟩
  rcases LawfulBoth.eq_total w.enc _ _ _ _ b hi with ⟨h1, h2⟩ | ⟨h1, ⟨A, h2⟩ | h2⟩ <;> rw [h2]
  · exact ⟨fun _ => h1, fun _ => rfl⟩
  · exact ⟨fun h => (by cases h), fun h => by omega⟩
  · exact ⟨fun h => (by cases h), fun h => by omega⟩

end

section
variable {U L ι VM : Type} [ManageVars VM] [Item ι] [LawfulItem ι] [Encoder U ι] [Encoder L ι] [EncodeInc U VM]
  [EncodeInc L VM] [LawfulEnc U ι VM] [LawfulEnc L ι VM] [BoundUpper U VM] [EnforceUb U] [LawfulUb U ι VM]
  [BoundLower L VM] [EnforceLb L] [LawfulLb L ι VM]

/-- All encoding calls that `Double` offers. -/
def doubleCalls (e : Double U L) (f : VM → ClauseSet → Option (Double U L × VM × ClauseSet)) : Prop :=
  ubCalls e f ∨ lbCalls e f ∨ bothCalls e f

theorem doubleCalls_ok : CallsOk (doubleCalls (U := U) (L := L) (ι := ι) (VM := VM)) := by
  rintro e f vm cls ins own (h | h | h) hi
  · exact ubCalls_ok e f vm cls ins own h hi
  · exact lbCalls_ok e f vm cls ins own h hi
  · exact bothCalls_ok e f vm cls ins own h hi

/-- **C36** (`Double`). Combining an encoding of upper bounds with one of lower bounds gives an encoding of both, in
which upper and lower bounds and equalities can be enforced after any mix of calls. -/
theorem C36_double (w : EncWorld (Double U L) ι VM) (h : EncReach (LawfulEnc.same VM) doubleCalls w) (b : Nat) :
    (∀ A, EnforceUb.enforceUb w.enc b = .ok A →
      Enforces w.cls w.own (Item.vars w.ins) A fun a => Item.value a w.ins ≤ b) ∧
    (∀ A, EnforceLb.enforceLb w.enc b = .ok A →
      Enforces w.cls w.own (Item.vars w.ins) A fun a => b ≤ Item.value a w.ins) ∧
    (∀ A, EnforceEq.enforceEq w.enc b = .ok A →
      Enforces w.cls w.own (Item.vars w.ins) A fun a => Item.value a w.ins = b) := by
  have hi := EncReach.inv doubleCalls_ok h
  exact ⟨fun A hA => LawfulUb.enforceUb w.enc _ _ _ _ b A hi hA, fun A hA => LawfulLb.enforceLb w.enc _ _ _ _ b A hi hA,
    fun A hA => LawfulBoth.enforceEq w.enc _ _ _ _ b A hi hA⟩

/-- **C36** (`Double`). After encoding both bounds of a range, all equalities in the range can be enforced. -/
theorem C36_double_available (w : EncWorld (Double U L) ι VM) (h : EncReach (LawfulEnc.same VM) doubleCalls w) (r : URange)
    (hr : LawfulBoth.bothOk VM w.enc r) :
    ∃ e' vm' cls', BoundBoth.encodeBoth w.enc r w.vm w.cls = some (e', vm', cls') ∧
      ∀ b, r.contains b → b ≤ Item.total w.ins → ∃ A, EnforceEq.enforceEq e' b = .ok A := by
  obtain ⟨e', vm', new, h1, -, -, h4⟩ := LawfulBoth.encodeBoth w.enc r w.vm w.cls w.ins w.own
    (EncReach.inv doubleCalls_ok h) hr w.cls
  exact ⟨e', vm', _, h1, h4⟩

end

section
variable {E VM : Type} [ManageVars VM] [Encoder E Lit] [EncodeInc E VM] [LawfulEnc E Lit VM]
  [BoundUpper E VM] [EnforceUb E] [LawfulUb E Lit VM] [BoundLower E VM] [EnforceLb E] [LawfulLb E Lit VM]
  [BoundBoth E VM] [EnforceEq E] [LawfulBoth E Lit VM]

/-- All encoding calls that `Card` offers. -/
def cardCalls (e : CardSim E) (f : VM → ClauseSet → Option (CardSim E × VM × ClauseSet)) : Prop :=
  ubCalls e f ∨ lbCalls e f ∨ bothCalls e f

/-- **C36** (`Card`). A correct cardinality encoding, given every literal as often as its weight, enforces bounds on the
weighted sum. -/
theorem C36_card (w : EncWorld (CardSim E) (Lit × Nat) VM) (h : EncReach (LawfulEnc.same VM) cardCalls w) (b : Nat) :
    (∀ A, EnforceUb.enforceUb w.enc b = .ok A → Enforces w.cls w.own (Item.vars w.ins) A fun a => wsum a w.ins ≤ b) ∧
    (∀ A, EnforceLb.enforceLb w.enc b = .ok A → Enforces w.cls w.own (Item.vars w.ins) A fun a => b ≤ wsum a w.ins) ∧
    (∀ A, EnforceEq.enforceEq w.enc b = .ok A → Enforces w.cls w.own (Item.vars w.ins) A fun a => wsum a w.ins = b) := by
  have hi := EncReach.inv (calls := cardCalls) (by
    rintro e f vm cls ins own (h | h | h) hi
    · exact ubCalls_ok e f vm cls ins own h hi
    · exact lbCalls_ok e f vm cls ins own h hi
    · exact bothCalls_ok e f vm cls ins own h hi) h
  simp only [← Item.value_weighted]
  exact ⟨fun A hA => LawfulUb.enforceUb w.enc _ _ _ _ b A hi hA, fun A hA => LawfulLb.enforceLb w.enc _ _ _ _ b A hi hA,
    fun A hA => LawfulBoth.enforceEq w.enc _ _ _ _ b A hi hA⟩

end

/-! ### The encodings of the library -/

section
variable {VM : Type} [ManageVars VM] [LawfulVM VM]

/-- Which ranges are accepted: all but those ending at 0. -/
theorem C36_double_gte_accepts (e : DoubleGte) (r : URange) : LawfulBoth.bothOk VM e r ↔ r.hi ≠ .excl 0 := by
  constructor
  · rintro ⟨-, r', h, -⟩
    have := (e.lbEnc.convert_isSome _).1 ⟨r', h⟩
    intro h0
    unfold prepareLbRange at this
    rw [h0] at this
    simp at this
  · intro h
    refine ⟨trivial, ?_⟩
    obtain ⟨r', h1⟩ := (e.lbEnc.convert_isSome (prepareLbRange e.lbEnc.sum r)).2 (by
      unfold prepareLbRange
      cases hh : r.hi with
      | incl b => simp only; omega
      | excl b =>
        have : b ≠ 0 := fun h0 => h (by rw [hh, h0])
        simp only; omega
      | unbounded => simp only; omega)
    exact ⟨r', h1, trivial⟩

/-- **C36** (`DoubleGeneralizedTotalizer`). After any history of adding literals and encoding ranges, equalities of the
weighted sum are enforced exactly, and available in the encoded range. -/
theorem C36_double_gte (w : EncWorld DoubleGte (Lit × Nat) VM) (h : EncReach (LawfulEnc.same VM) doubleCalls w) :
    (∀ b A, EnforceEq.enforceEq w.enc b = .ok A →
      (∀ m, ClauseSet.sat m w.cls → cubeSat m A → wsum m w.ins = b) ∧
      (∀ a, wsum a w.ins = b → ∃ m, (∀ v, v ∉ w.own → m v = a v) ∧ ClauseSet.sat m w.cls ∧ cubeSat m A)) ∧
    (∀ r, r.hi ≠ .excl 0 → ∃ e' vm' cls', BoundBoth.encodeBoth w.enc r w.vm w.cls = some (e', vm', cls') ∧
      ∀ b, r.contains b → b ≤ (w.ins.map (·.2)).sum → ∃ A, EnforceEq.enforceEq e' b = .ok A) := by
  refine ⟨fun b A hA => ?_, fun r hr => C36_double_available w h r ((C36_double_gte_accepts w.enc r).2 hr)⟩
  have := (C36_double w h b).2.2 A hA
  simp only [Item.value_weighted] at this
  exact ⟨this.sound, this.complete⟩

/-- Encoding both bounds right after collecting the inputs. -/
theorem double_start (lits : List (Lit × Nat)) (vm : VM) (hd : LawfulItem.distinct lits)
    (h : ∀ x ∈ lits, 0 < Item.weight x ∧ (Item.lit x).var < ManageVars.nUsed vm) (r : URange) (hr : r.hi ≠ .excl 0)
    (x : DoubleGte × VM × ClauseSet) (hx : BoundBoth.encodeBoth (Encoder.new lits : DoubleGte) r vm [] = some x) :
    EncReach (LawfulEnc.same VM) doubleCalls
      (⟨x.1, x.2.1, x.2.2, lits, [] ++ CardWorld.handedOut vm x.2.1⟩ : EncWorld DoubleGte (Lit × Nat) VM) :=
  EncReach.call ⟨Encoder.new lits, vm, [], lits, []⟩ (BoundBoth.encodeBoth (Encoder.new lits : DoubleGte) r) x.1 x.2.1 x.2.2
    (EncReach.start lits vm hd h) (Or.inr (Or.inr ⟨r, (C36_double_gte_accepts _ _).2 hr, Or.inl rfl⟩)) hx

/-- A concrete encoder: 2 x0 + 3 x1 + 5 x2. -/
def demoDouble : DoubleGte := Encoder.new [(Lit.pos 0, 2), (Lit.pos 1, 3), (Lit.negOf 2, 5)]

/-- Non-vacuity: a history that encodes both bounds for the range `5..=7`, after which the sum can be fixed to 5, while
the sum 4 was not encoded and the sum 11 is impossible. -/
example : ∃ w : EncWorld DoubleGte (Lit × Nat) BasicVM, EncReach (LawfulEnc.same BasicVM) doubleCalls w ∧
    w.ins = [(Lit.pos 0, 2), (Lit.pos 1, 3), (Lit.negOf 2, 5)] ∧
    EnforceEq.enforceEq w.enc 5 = .ok [Lit.negOf 3, Lit.negOf 5, Lit.negOf 7, Lit.negOf 11, Lit.negOf 12, Lit.negOf 14] ∧
    EnforceEq.enforceEq w.enc 4 = .err .notEncoded ∧ EnforceEq.enforceEq w.enc 11 = .err .unsat := by
  cases h : BoundBoth.encodeBoth demoDouble ⟨.incl 5, .incl 7⟩ (⟨3⟩ : BasicVM) [] with
  | none => exact absurd h (by decide)
  | some x =>
    have key : ((BoundBoth.encodeBoth demoDouble ⟨.incl 5, .incl 7⟩ (⟨3⟩ : BasicVM) []).map fun x =>
      (EnforceEq.enforceEq x.1 5, EnforceEq.enforceEq x.1 4, EnforceEq.enforceEq x.1 11)) =
      some (.ok [Lit.negOf 3, Lit.negOf 5, Lit.negOf 7, Lit.negOf 11, Lit.negOf 12, Lit.negOf 14], .err .notEncoded, .err .unsat) := by decide
    rw [h] at key
    simp only [Option.map_some, Option.some.injEq, Prod.mk.injEq] at key
    exact ⟨_, double_start _ _ (show ([Lit.pos 0, Lit.pos 1, Lit.negOf 2] : List Lit).Nodup by decide) (by decide)
      ⟨.incl 5, .incl 7⟩ (by simp) x h, rfl, key⟩

/-- The inverted totalizer, as a pseudo-boolean encoding by repeating literals, for 2 x0 + 3 x1. -/
def demoCard : CardSim (Inverted Totalizer) := Encoder.new [(Lit.pos 0, 2), (Lit.pos 1, 3)]

/-- Non-vacuity of `C36_card`, `C36_inverted_upper`, `C36_inverted_lower`, `C36_inverted_eq`: a history with equality 3
available. -/
example : ∃ w : EncWorld (CardSim (Inverted Totalizer)) (Lit × Nat) BasicVM,
    EncReach (LawfulEnc.same BasicVM) cardCalls w ∧ w.ins = [(Lit.pos 0, 2), (Lit.pos 1, 3)] ∧
    EnforceEq.enforceEq w.enc 3 = .ok [Lit.negOf 9, Lit.pos 10] ∧ EnforceEq.enforceEq w.enc 6 = .err .unsat := by
  cases h : BoundBoth.encodeBoth demoCard ⟨.incl 3, .incl 3⟩ (⟨2⟩ : BasicVM) [] with
  | none => exact absurd h (by decide)
  | some x =>
    have key : ((BoundBoth.encodeBoth demoCard ⟨.incl 3, .incl 3⟩ (⟨2⟩ : BasicVM) []).map fun x =>
      (EnforceEq.enforceEq x.1 3, EnforceEq.enforceEq x.1 6)) =
      some (.ok [Lit.negOf 9, Lit.pos 10], .err .unsat) := by decide
    rw [h] at key
    simp only [Option.map_some, Option.some.injEq, Prod.mk.injEq] at key
    have hs : EncReach (VM := BasicVM) (LawfulEnc.same BasicVM) cardCalls
        (⟨demoCard, ⟨2⟩, [], [(Lit.pos 0, 2), (Lit.pos 1, 3)], []⟩ : EncWorld (CardSim (Inverted Totalizer)) (Lit × Nat) BasicVM) :=
      EncReach.start [(Lit.pos 0, 2), (Lit.pos 1, 3)] (⟨2⟩ : BasicVM)
        (show ([Lit.pos 0, Lit.pos 1] : List Lit).Nodup by decide) (by decide)
    exact ⟨_, EncReach.call _ (BoundBoth.encodeBoth demoCard ⟨.incl 3, .incl 3⟩) x.1 x.2.1 x.2.2 hs
      (Or.inr (Or.inr ⟨⟨.incl 3, .incl 3⟩, ⟨by simp, _, rfl, trivial⟩, Or.inl rfl⟩)) h, rfl, key⟩

/-- **C36** violated: encoding lower bounds for the empty range `..0`, or — with an inverted totalizer — upper bounds for
the range `..` without literals, panics (the range is converted by subtracting 1 from its end). -/
theorem C36_violated_empty_range :
    (BoundLower.encodeLb demoDouble ⟨.unbounded, .excl 0⟩ (⟨3⟩ : BasicVM) []).isNone = true ∧
    (BoundUpper.encodeUb (Encoder.new [] : Inverted Totalizer) ⟨.unbounded, .unbounded⟩ (⟨0⟩ : BasicVM) []).isNone = true := by
  decide

/-- **C36** violated: encoding both bounds for the range `..` does not include the bound 0. -/
theorem C36_violated_unbounded :
    ((BoundBoth.encodeBoth (Encoder.new [Lit.pos 0, Lit.pos 1] : Inverted Totalizer) ⟨.unbounded, .unbounded⟩ (⟨2⟩ : BasicVM)
      []).map fun x => EnforceEq.enforceEq x.1 0) = some (.err .notEncoded) := by decide

end
end RustSat
