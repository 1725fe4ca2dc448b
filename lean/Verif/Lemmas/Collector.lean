import Verif.Model.Totalizer
import Verif.Model.Gte
import Verif.Model.Adder
import Verif.Model.Dpw
/-
What encoders produce does not depend on the clauses that are in the collector before.
-/
namespace RustSat

section
variable {VM : Type} [ManageVars VM]

/-- The result of an encoding call with further clauses in front. -/
def preRes {E : Type} (c : ClauseSet) (r : Option (E × VM × ClauseSet)) : Option (E × VM × ClauseSet) :=
  r.map fun x => (x.1, x.2.1, c ++ x.2.2)

namespace TotDb

/-- Clauses in front of those in the collector. -/
def St.pre (c : ClauseSet) (st : St VM) : St VM := { st with cls := c ++ st.cls }

omit [ManageVars VM] in
@[simp] theorem St.pre_db (c : ClauseSet) (st : St VM) : (st.pre c).db = st.db := rfl
omit [ManageVars VM] in
@[simp] theorem St.pre_vm (c : ClauseSet) (st : St VM) : (st.pre c).vm = st.vm := rfl
omit [ManageVars VM] in
@[simp] theorem St.pre_cls (c : ClauseSet) (st : St VM) : (st.pre c).cls = c ++ st.cls := rfl

/-- The result of a function with clauses in front. -/
def preR {α : Type} (c : ClauseSet) (r : Option (α × St VM)) : Option (α × St VM) := r.map fun x => (x.1, x.2.pre c)

theorem getOlit_pre (c : ClauseSet) (st : St VM) (id idx : Nat) : getOlit (st.pre c) id idx = preR c (getOlit st id idx) := by
  unfold getOlit
  simp only [St.pre_db, St.pre_vm]
  cases st.db.unitData id idx with
  | none => rfl
  | some d => cases d <;> rfl

omit [ManageVars VM] in
theorem encodeUnweighted_pre (c : ClauseSet) (st : St VM) (id idx : Nat) (olit : Lit) (req : Semantics) (p : Pre) :
    encodeUnweighted (st.pre c) id idx olit req p = (encodeUnweighted st id idx olit req p).map (·.pre c) := by
  unfold encodeUnweighted
  simp only [St.pre_db, St.pre_cls]
  cases st.db.unitData id idx with
  | none => rfl
  | some d =>
    dsimp only
    cases d.missingSemantics req with
    | none => rfl
    | some s =>
      dsimp only
      cases litSlice (st.db.setUnit id idx (d.addSemantics req)) p.lcon.id with
      | none => rfl
      | some ll =>
        cases litSlice (st.db.setUnit id idx (d.addSemantics req)) p.rcon.id with
        | none => rfl
        | some rl =>
          dsimp only
          cases collect (ifClause p ll rl idx olit) p.leftIf with
          | none => rfl
          | some c1 =>
            cases collect (onlyIfClause (st.db.setUnit id idx (d.addSemantics req)) p ll rl idx olit) p.leftOnlyIf with
            | none => rfl
            | some c2 => simp [St.pre]

omit [ManageVars VM] in
theorem runRequests_pre (c : ClauseSet) (f : St VM → Nat → Nat → Semantics → Option (Lit × St VM))
    (hf : ∀ st id idx sem, f (St.pre c st) id idx sem = preR c (f st id idx sem)) (rs : List (Nat × Nat × Semantics)) (st : St VM) :
    runRequests f rs (st.pre c) = (runRequests f rs st).map (·.pre c) := by
  induction rs generalizing st with
  | nil => rfl
  | cons r rs ih =>
    obtain ⟨id, idx, sem⟩ := r
    simp only [runRequests, hf]
    cases f st id idx sem with
    | none => rfl
    | some x => exact ih x.2

theorem defineUnweighted_pre (c : ClauseSet) (fuel : Nat) (st : St VM) (id idx : Nat) (sem : Semantics) :
    defineUnweighted fuel (st.pre c) id idx sem = preR c (defineUnweighted fuel st id idx sem) := by
  induction fuel generalizing st id idx sem with
  | zero => rfl
  | succ fuel ih =>
    simp only [defineUnweighted, St.pre_db]
    cases precond st.db id idx sem with
    | panic => rfl
    | ret l => rfl
    | pass con =>
      dsimp only
      rw [ih]
      cases defineUnweighted fuel st con.id (conIdx idx con) sem with
      | none => rfl
      | some x =>
        simp only [preR, Option.map_some]
        rw [getOlit_pre]
        cases getOlit x.2 id idx with
        | none => rfl
        | some y =>
          simp only [preR, Option.map_some, St.pre_db]
          cases y.2.db.unitData id idx with
          | none => rfl
          | some d => simp [St.pre]
    | cont p =>
      dsimp only
      rw [runRequests_pre c _ fun st id idx sem => ih st id idx sem]
      cases runRequests (fun st id idx sem => defineUnweighted fuel st id idx sem) (requests st.db p) st with
      | none => rfl
      | some x =>
        simp only [Option.map_some]
        rw [getOlit_pre]
        cases getOlit x id idx with
        | none => rfl
        | some y =>
          simp only [preR, Option.map_some]
          rw [encodeUnweighted_pre]
          cases encodeUnweighted y.2 id idx y.1 sem p <;> rfl

theorem define_pre (c : ClauseSet) (st : St VM) (id idx : Nat) (sem : Semantics) :
    define (st.pre c) id idx sem = preR c (define st id idx sem) := defineUnweighted_pre c _ st id idx sem

theorem defineAll_pre (c : ClauseSet) (st : St VM) (id : Nat) (sem : Semantics) (is : List Nat) :
    defineAll (st.pre c) id sem is = (defineAll st id sem is).map (·.pre c) := by
  induction is generalizing st with
  | nil => rfl
  | cons i is ih =>
    simp only [defineAll, define_pre]
    cases define st id i sem with
    | none => rfl
    | some x => exact ih x.2

theorem weightedOlit_pre (c : ClauseSet) (st : St VM) (id k : Nat) :
    weightedOlit (st.pre c) id k = preR c (weightedOlit st id k) := by
  unfold weightedOlit
  simp only [St.pre_db, St.pre_vm]
  cases st.db.outLit id k with
  | none => rfl
  | some d => cases d <;> rfl

omit [ManageVars VM] in
theorem addClause_pre (c : ClauseSet) (st : St VM) (d : Clause) : addClause (st.pre c) d = (addClause st d).pre c := by
  simp [addClause, St.pre]

omit [ManageVars VM] in
theorem sumLoop_pre (c : ClauseSet) (f : St VM → Nat → Nat → Option (Option Lit × St VM))
    (hf : ∀ st id v, f (St.pre c st) id v = preR c (f st id v)) (lcon rcon : NodeCon) (rmax val : Nat) (olit : Lit)
    (vs : List Nat) (st : St VM) :
    sumLoop f lcon rcon rmax val olit vs (st.pre c) = (sumLoop f lcon rcon rmax val olit vs st).map (·.pre c) := by
  induction vs generalizing st with
  | nil => rfl
  | cons v vs ih =>
    simp only [sumLoop, hf]
    split
    · cases f st rcon.id (rcon.revMap (val - lcon.map v)) with
      | none => rfl
      | some x =>
        obtain ⟨l, s⟩ := x
        cases l with
        | none => exact ih s
        | some rl =>
          simp only [preR, Option.map_some, hf]
          cases f s lcon.id v with
          | none => rfl
          | some y =>
            obtain ⟨l, s⟩ := y
            cases l with
            | none => rfl
            | some ll =>
              simp only [Option.map_some, addClause_pre]
              exact ih _
    · exact ih st

omit [ManageVars VM] in
theorem propagateVal_pre (c : ClauseSet) (f : St VM → Nat → Nat → Option (Option Lit × St VM))
    (hf : ∀ st id v, f (St.pre c st) id v = preR c (f st id v)) (con : NodeCon) (val : Nat) (olit : Lit) (st : St VM) :
    propagateVal f con val olit (st.pre c) = (propagateVal f con val olit st).map (·.pre c) := by
  unfold propagateVal
  show (if (con.isPossible val && decide (con.revMap val ≤ (st.db.node con.id).maxVal)) = true then _ else _) = _
  rw [hf]
  by_cases hc : (con.isPossible val && decide (con.revMap val ≤ (st.db.node con.id).maxVal)) = true
  · rw [if_pos hc, if_pos hc]
    cases f st con.id (con.revMap val) with
    | none => rfl
    | some x =>
      obtain ⟨l, s⟩ := x
      cases l with
      | none => rfl
      | some l => simp only [preR, Option.map_some, addClause_pre]
  · rw [if_neg hc, if_neg hc]; rfl

theorem defineWeighted_pre (c : ClauseSet) (fuel : Nat) (st : St VM) (id val : Nat) :
    defineWeighted fuel (st.pre c) id val = preR c (defineWeighted fuel st id val) := by
  induction fuel generalizing st id val with
  | zero => rfl
  | succ fuel ih =>
    simp only [defineWeighted, St.pre_db]
    cases st.db.node id with
    | leaf l => rfl
    | dummy => rfl
    | unit lits a b l r =>
      dsimp only
      split
      · rfl
      · rw [define_pre]
        cases define st id (val - 1) .if_ <;> rfl
    | general lits a b d lcon rcon =>
      dsimp only
      cases valIdx lits val with
      | none => rfl
      | some k =>
        dsimp only
        cases st.db.outLit id k with
        | none => rfl
        | some d =>
          dsimp only
          have key : ∀ l : Option Lit, (match weightedOlit (St.pre c st) id k with
              | none => none
              | some (olit, st) =>
                match sumLoop (defineWeighted fuel) lcon rcon (st.db.node rcon.id).maxVal val olit
                    (sumVals st.db lcon val) st with
                | none => none
                | some st =>
                  match propagateVal (defineWeighted fuel) lcon val olit st with
                  | none => none
                  | some st =>
                    match propagateVal (defineWeighted fuel) rcon val olit st with
                    | none => none
                    | some st =>
                      match st.db.outLit id k with
                      | none => none
                      | some d => some (some olit, { st with db := st.db.setOut id k (d.addSemantics .if_) })) =
              preR c (match weightedOlit st id k with
              | none => none
              | some (olit, st) =>
                match sumLoop (defineWeighted fuel) lcon rcon (st.db.node rcon.id).maxVal val olit
                    (sumVals st.db lcon val) st with
                | none => none
                | some st =>
                  match propagateVal (defineWeighted fuel) lcon val olit st with
                  | none => none
                  | some st =>
                    match propagateVal (defineWeighted fuel) rcon val olit st with
                    | none => none
                    | some st =>
                      match st.db.outLit id k with
                      | none => none
                      | some d => some (some olit, { st with db := st.db.setOut id k (d.addSemantics .if_) })) := by
            intro _
            rw [weightedOlit_pre]
            cases weightedOlit st id k with
            | none => rfl
            | some x =>
              simp only [preR, Option.map_some, St.pre_db]
              rw [sumLoop_pre c _ ih]
              cases sumLoop (defineWeighted fuel) lcon rcon (x.2.db.node rcon.id).maxVal val x.1 (sumVals x.2.db lcon val) x.2 with
              | none => rfl
              | some s =>
                simp only [Option.map_some]
                rw [propagateVal_pre c _ ih]
                cases propagateVal (defineWeighted fuel) lcon val x.1 s with
                | none => rfl
                | some s =>
                  simp only [Option.map_some]
                  rw [propagateVal_pre c _ ih]
                  cases propagateVal (defineWeighted fuel) rcon val x.1 s with
                  | none => rfl
                  | some s =>
                    simp only [Option.map_some, St.pre_db]
                    cases s.db.outLit id k <;> rfl
          cases d.hasIf with
          | false => exact key none
          | true =>
            cases d.lit? with
            | none => exact key none
            | some l => rfl

theorem defineVals_pre (c : ClauseSet) (st : St VM) (id : Nat) (vs : List Nat) :
    defineVals (st.pre c) id vs = (defineVals st id vs).map (·.pre c) := by
  induction vs generalizing st with
  | nil => rfl
  | cons v vs ih =>
    simp only [defineVals, defineWeighted_pre]
    cases defineWeighted (id + 1) st id v with
    | none => rfl
    | some x =>
      obtain ⟨l, s⟩ := x
      cases l with
      | none => rfl
      | some l => exact ih s

end TotDb

open TotDb

/-! ### Totalizer and generalized totalizer -/

theorem len_pre (c x y : ClauseSet) : (c ++ x).length - (c ++ y).length = x.length - y.length := by
  simp; omega

theorem Totalizer.defineOutputs_pre (t : Totalizer) (sem : Semantics) (is : List Nat) (vm : VM) (c cls : ClauseSet) :
    t.defineOutputs sem is vm (c ++ cls) = preRes c (t.defineOutputs sem is vm cls) := by
  unfold Totalizer.defineOutputs
  split
  · rfl
  · cases t.extendTree with
    | none => rfl
    | some t =>
      dsimp only
      cases t.root with
      | none => rfl
      | some id =>
        dsimp only
        have := defineAll_pre c (⟨t.db, vm, cls⟩ : St VM) id sem (is.map fun i => i + t.offset)
        simp only [St.pre] at this
        rw [this]
        cases defineAll (⟨t.db, vm, cls⟩ : St VM) id sem (is.map fun i => i + t.offset) with
        | none => rfl
        | some s => simp only [Option.map_some, preRes, len_pre]

theorem Totalizer.encodeUbChange_pre (t : Totalizer) (r : URange) (vm : VM) (c cls : ClauseSet) :
    t.encodeUbChange r vm (c ++ cls) = preRes c (t.encodeUbChange r vm cls) := t.defineOutputs_pre _ _ _ _ _

theorem Totalizer.encodeLbChange_pre (t : Totalizer) (r : URange) (vm : VM) (c cls : ClauseSet) :
    t.encodeLbChange r vm (c ++ cls) = preRes c (t.encodeLbChange r vm cls) := t.defineOutputs_pre _ _ _ _ _

theorem Totalizer.encodeBoth_pre (t : Totalizer) (r : URange) (vm : VM) (c cls : ClauseSet) :
    t.encodeBoth r vm (c ++ cls) = preRes c (t.encodeBoth r vm cls) := by
  unfold Totalizer.encodeBoth
  rw [encodeUbChange_pre]
  cases t.encodeUbChange r vm cls with
  | none => rfl
  | some x => exact x.1.encodeLbChange_pre r x.2.1 c x.2.2

theorem Gte.encodeUbChange_pre (t : Gte) (r : URange) (vm : VM) (c cls : ClauseSet) :
    t.encodeUbChange r vm (c ++ cls) = preRes c (t.encodeUbChange r vm cls) := by
  unfold Gte.encodeUbChange
  dsimp only
  split
  · rfl
  · cases t.extendTree (some ((Pb.prepareUbRange t.weightSum r).2 - 1)) with
    | none => rfl
    | some t' =>
      dsimp only
      cases t'.root with
      | none => rfl
      | some con =>
        dsimp only
        generalize (t'.db.node con.id).valsRange _ _ = vals
        have := defineVals_pre c (⟨t'.db, vm, cls⟩ : St VM) con.id vals
        simp only [St.pre] at this
        rw [this]
        cases defineVals (⟨t'.db, vm, cls⟩ : St VM) con.id vals with
        | none => rfl
        | some s => simp only [Option.map_some, preRes, len_pre]

/-! ### Binary adder -/

namespace Adder

/-- Clauses in front of those in the collector. -/
def St.pre (c : ClauseSet) (st : Adder.St VM) : Adder.St VM := { st with cls := c ++ st.cls }

/-- The result of a function with clauses in front. -/
def preR {α : Type} (c : ClauseSet) (r : Option (α × Adder.St VM)) : Option (α × Adder.St VM) := r.map fun x => (x.1, x.2.pre c)

omit [ManageVars VM] in
theorem mapBits_coll (c : ClauseSet) (f : Con → Adder.St VM → Option (Lit × Adder.St VM))
    (hf : ∀ k st, f k (Adder.St.pre c st) = Adder.preR c (f k st)) (cs : List Con) (st : Adder.St VM) :
    mapBits f cs (st.pre c) = Adder.preR c (mapBits f cs st) := by
  induction cs generalizing st with
  | nil => rfl
  | cons k cs ih =>
    simp only [mapBits, hf]
    cases f k st with
    | none => rfl
    | some x =>
      simp only [Adder.preR, Option.map_some]
      rw [ih]
      cases mapBits f cs x.2 <;> rfl

theorem getBit_coll (c : ClauseSet) (fuel len : Nat) (m : Mode) (k : Con) (st : Adder.St VM) :
    getBit fuel len m k (st.pre c) = Adder.preR c (getBit fuel len m k st) := by
  induction fuel generalizing len m k st with
  | zero => cases k <;> rfl
  | succ fuel ih =>
    cases k with
    | input l => rfl
    | sum i =>
      simp only [getBit]
      by_cases hl : len ≤ i
      · rw [if_pos hl, if_pos hl]; rfl
      · rw [if_neg hl, if_neg hl]
        show (match st.nodes[i]? with | none => _ | some nd => _) = _
        cases st.nodes[i]? with
        | none => rfl
        | some nd =>
          dsimp only
          show (match claim m m nd.sum st.vm with | (true, o, _) => _ | (false, o, vm) => _) = _
          rcases claim m m nd.sum st.vm with ⟨b, o, vm⟩
          cases b with
          | true => rfl
          | false =>
            dsimp only
            have := mapBits_coll c (getBit fuel i m) (fun k st => ih i m k st) nd.ins ⟨st.nodes.set i { nd with sum := some o }, vm, st.cls⟩
            simp only [Adder.St.pre] at this ⊢
            rw [this]
            cases mapBits (getBit fuel i m) nd.ins ⟨st.nodes.set i { nd with sum := some o }, vm, st.cls⟩ with
            | none => rfl
            | some x => simp [Adder.preR, Adder.St.pre]
    | carry i =>
      simp only [getBit]
      by_cases hl : len ≤ i
      · rw [if_pos hl, if_pos hl]; rfl
      · rw [if_neg hl, if_neg hl]
        show (match st.nodes[i]? with | none => _ | some nd => _) = _
        cases st.nodes[i]? with
        | none => rfl
        | some nd =>
          dsimp only
          show (match claim m (carryMark m nd.ins) nd.carry st.vm with | (true, o, _) => _ | (false, o, vm) => _) = _
          rcases claim m (carryMark m nd.ins) nd.carry st.vm with ⟨b, o, vm⟩
          cases b with
          | true => rfl
          | false =>
            dsimp only
            have := mapBits_coll c (getBit fuel i .if_) (fun k st => ih i .if_ k st) nd.ins ⟨st.nodes.set i { nd with carry := some o }, vm, st.cls⟩
            simp only [Adder.St.pre] at this ⊢
            rw [this]
            cases mapBits (getBit fuel i .if_) nd.ins ⟨st.nodes.set i { nd with carry := some o }, vm, st.cls⟩ with
            | none => rfl
            | some x => simp [Adder.preR, Adder.St.pre]

end Adder

namespace BinaryAdder
open Adder

theorem outputBits_pre (c : ClauseSet) (m : Mode) (os : List (Option Con)) (st : Adder.St VM) :
    outputBits m os (st.pre c) = Adder.preR c (outputBits m os st) := by
  induction os generalizing st with
  | nil => rfl
  | cons o os ih =>
    cases o with
    | none =>
      simp only [outputBits, ih]
      cases outputBits m os st <;> rfl
    | some k =>
      simp only [outputBits]
      have : (st.pre c).nodes.length = st.nodes.length := rfl
      rw [this, getBit_coll]
      cases getBit st.nodes.length st.nodes.length m k st with
      | none => rfl
      | some x =>
        simp only [Adder.preR, Option.map_some]
        rw [ih]
        cases outputBits m os x.2 <;> rfl

theorem ubLoop_pre (c : ClauseSet) (outputs : List (Option Lit)) (vals : List Nat) (comp : List (Option Out)) (vm : VM) (cls : ClauseSet) :
    ubLoop outputs vals comp vm (c ++ cls) =
      ((ubLoop outputs vals comp vm cls).1, (ubLoop outputs vals comp vm cls).2.1, c ++ (ubLoop outputs vals comp vm cls).2.2) := by
  induction vals generalizing comp vm cls with
  | nil => rfl
  | cons v vals ih =>
    simp only [ubLoop]
    rcases claim .if_ .if_ (comp[v]?.getD none) vm with ⟨b, o, vm'⟩
    cases b with
    | true => exact ih _ _ _
    | false => dsimp only; rw [List.append_assoc]; exact ih _ _ _

theorem lbLoop_pre (c : ClauseSet) (outputs : List (Option Lit)) (vals : List Nat) (comp : List (Option Out)) (vm : VM) (cls : ClauseSet) :
    lbLoop outputs vals comp vm (c ++ cls) =
      ((lbLoop outputs vals comp vm cls).1, (lbLoop outputs vals comp vm cls).2.1, c ++ (lbLoop outputs vals comp vm cls).2.2) := by
  induction vals generalizing comp vm cls with
  | nil => rfl
  | cons v vals ih =>
    simp only [lbLoop]
    rcases claim .if_ .onlyIf (comp[v - 1]?.getD none) vm with ⟨b, o, vm'⟩
    cases b with
    | true => exact ih _ _ _
    | false => dsimp only; rw [List.append_assoc]; exact ih _ _ _

theorem encodeChange_pre (m : Mode) (e : BinaryAdder) (range : Nat × Nat) (vm : VM) (c cls : ClauseSet) :
    encodeChange m e range vm (c ++ cls) = preRes c (encodeChange m e range vm cls) := by
  unfold encodeChange
  by_cases hr : range.2 ≤ range.1
  · rw [if_pos hr, if_pos hr]; rfl
  · rw [if_neg hr, if_neg hr]
    dsimp only
    cases e.extendStructure.structure_ with
    | none => rfl
    | some str =>
      dsimp only
      have := outputBits_pre c m str.outputs (⟨e.extendStructure.nodes, vm, cls⟩ : Adder.St VM)
      simp only [Adder.St.pre] at this
      rw [this]
      cases outputBits m str.outputs (⟨e.extendStructure.nodes, vm, cls⟩ : Adder.St VM) with
      | none => rfl
      | some x =>
        simp only [Adder.preR, Option.map_some, Adder.St.pre]
        cases m with
        | if_ => simp only [ubLoop_pre, len_pre, preRes, Option.map_some]
        | onlyIf => simp only [lbLoop_pre, len_pre, preRes, Option.map_some]

theorem encodeUbChange_pre (e : BinaryAdder) (r : URange) (vm : VM) (c cls : ClauseSet) :
    e.encodeUbChange r vm (c ++ cls) = preRes c (e.encodeUbChange r vm cls) := encodeChange_pre _ _ _ _ _ _

theorem encodeLbChange_pre (e : BinaryAdder) (r : URange) (vm : VM) (c cls : ClauseSet) :
    e.encodeLbChange r vm (c ++ cls) = preRes c (e.encodeLbChange r vm cls) := encodeChange_pre _ _ _ _ _ _

theorem encodeBoth_pre (e : BinaryAdder) (r : URange) (vm : VM) (c cls : ClauseSet) :
    e.encodeBoth r vm (c ++ cls) = preRes c (e.encodeBoth r vm cls) := by
  unfold encodeBoth
  rw [encodeUbChange_pre]
  cases e.encodeUbChange r vm cls with
  | none => rfl
  | some x => exact x.1.encodeLbChange_pre r x.2.1 c x.2.2

end BinaryAdder

/-! ### Dynamic polynomial watchdog -/

namespace Dpw

theorem encodeOutputs_pre (c : ClauseSet) (root : Nat) (os : List Nat) (st : TotDb.St VM) :
    encodeOutputs root os (st.pre c) = (encodeOutputs root os st).map (·.pre c) := by
  induction os generalizing st with
  | nil => rfl
  | cons o os ih =>
    unfold encodeOutputs
    show (if o ≥ (st.db.node root).maxVal then _ else _) = _
    by_cases h : o ≥ (st.db.node root).maxVal
    · rw [if_pos h, if_pos h]; exact ih st
    · rw [if_neg h, if_neg h, define_pre]
      cases define st root o .if_ with
      | none => rfl
      | some x => exact ih x.2

theorem extendVals_pre (c : ClauseSet) (left right : NodeCon) (olit : Lit) (val : Nat) (vs : List Nat) (st : TotDb.St VM) :
    extendVals left right olit val vs (st.pre c) = (extendVals left right olit val vs st).map (·.pre c) := by
  induction vs generalizing st with
  | nil => rfl
  | cons v vs ih =>
    simp only [extendVals]
    by_cases h : left.isPossible (val - right.map v) = true
    · rw [if_pos h, if_pos h, define_pre]
      cases define st right.id (v - 1) .if_ with
      | none => rfl
      | some x =>
        simp only [preR, Option.map_some]
        by_cases h0 : val - right.map v = 0
        · rw [if_pos h0, if_pos h0, addClause_pre]; exact ih _
        · rw [if_neg h0, if_neg h0, define_pre]
          cases define x.2 left.id (val - right.map v - 1) .if_ with
          | none => rfl
          | some y =>
            simp only [preR, Option.map_some, addClause_pre]
            exact ih _
    · rw [if_neg h, if_neg h]; exact ih st

theorem extendOlits_pre (c : ClauseSet) (left right : NodeCon) (orm : Nat) (ls : List (Lit × Nat)) (st : TotDb.St VM) :
    extendOlits left right orm ls (st.pre c) = (extendOlits left right orm ls st).map (·.pre c) := by
  induction ls generalizing st with
  | nil => rfl
  | cons l ls ih =>
    obtain ⟨l, v⟩ := l
    simp only [extendOlits, St.pre_db, extendVals_pre]
    generalize extendVals left right l v _ st = o
    cases o with
    | none => rfl
    | some s => exact ih s

theorem extendBuckets_pre (c : ClauseSet) (orm : Nat) (bs : List (Nat × Nat)) (st : TotDb.St VM) :
    extendBuckets orm bs (st.pre c) = (extendBuckets orm bs st).map (·.pre c) := by
  induction bs generalizing st orm with
  | nil => rfl
  | cons b bs ih =>
    obtain ⟨id, n⟩ := b
    simp only [extendBuckets, St.pre_db]
    cases st.db.node id with
    | unit lits a b l r =>
      dsimp only
      rw [extendOlits_pre]
      cases extendOlits l r orm (toExtend orm 0 lits) st with
      | none => rfl
      | some s => exact ih _ s
    | _ => rfl

theorem mergeStructures_pre (bot top : Structure) (db : Db) (vm : VM) (c cls : ClauseSet) :
    mergeStructures bot top db vm (c ++ cls) = TotDb.preR c (mergeStructures bot top db vm cls) := by
  unfold mergeStructures
  split
  · rfl
  · dsimp only
    generalize Am1.newVars _ vm = nv
    generalize extraBuckets _ top.root db = eb
    cases moveBuckets bot.bottomBuckets.reverse eb.2.1 eb.2.2 with
    | none => rfl
    | some x =>
      dsimp only
      have := extendBuckets_pre c 0 (eb.1.map (·, 1) ++ x.1) (⟨x.2, nv.2, cls⟩ : TotDb.St VM)
      simp only [St.pre] at this
      rw [this]
      cases extendBuckets 0 (eb.1.map (·, 1) ++ x.1) (⟨x.2, nv.2, cls⟩ : TotDb.St VM) <;> rfl

theorem buildOrExtend_pre (e : Dpw) (vm : VM) (c cls : ClauseSet) :
    e.buildOrExtend vm (c ++ cls) = (e.buildOrExtend vm cls).map fun x => (x.1, x.2.1, x.2.2.1, c ++ x.2.2.2) := by
  unfold buildOrExtend
  cases e.structure_ with
  | none =>
    dsimp only
    cases e.build vm <;> rfl
  | some s =>
    dsimp only
    split
    · cases buildStructure false e.weightQueue e.precDiv e.db vm with
      | none => rfl
      | some x =>
        dsimp only
        rw [mergeStructures_pre]
        cases mergeStructures s x.1 x.2.2.1 x.2.2.2 cls <;> rfl
    · rfl

theorem encodeUbChange_pre (e : Dpw) (r : URange) (vm : VM) (c cls : ClauseSet) :
    e.encodeUbChange r vm (c ++ cls) = preRes c (e.encodeUbChange r vm cls) := by
  unfold encodeUbChange
  dsimp only
  split
  · rfl
  · rw [buildOrExtend_pre]
    cases e.buildOrExtend vm cls with
    | none => rfl
    | some x =>
      simp only [Option.map_some]
      generalize rangeIncl _ _ = rg
      have := encodeOutputs_pre c x.2.1.root rg (⟨x.1.db, x.2.2.1, x.2.2.2⟩ : TotDb.St VM)
      simp only [St.pre] at this
      rw [this]
      cases encodeOutputs x.2.1.root rg (⟨x.1.db, x.2.2.1, x.2.2.2⟩ : TotDb.St VM) with
      | none => rfl
      | some s => simp only [Option.map_some, preRes, len_pre]

end Dpw

end
end RustSat
