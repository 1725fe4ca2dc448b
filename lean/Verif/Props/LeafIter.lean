import Verif.Lemmas.LeafIter
import Verif.Lemmas.Drain
import Verif.Props.Cert
import Verif.Props.CertGte
/-
C103: the iterator over the leaves of a totalizer.
-/
namespace RustSat
namespace TotDb

/-- **C103.** For a node of a well-formed database, the iterator over the literals at its (pseudo) leaves ends without a
panic, and under all assignments for which outputs have their meaning, the sum of the weights of the true literals is the
value of the node. Connections do not divide values, and outputs at pseudo leaves have literals. -/
theorem C103_sum (db : Db) (hw : db.WF) (hd : Undivided db) (hr : Reserved db) (id : Nat) :
    ∃ out, Yields (leafIterLits db id) out ∧ ∀ a, OutsStrict db a → wsum a out = value db (trueLits a) id := by
  obtain ⟨L, h1, h2⟩ := sub_sum hw hd hr id 1
  exact ⟨L, leafIterLits_spec hw id h1, fun a ha => by rw [h2 a ha, Nat.mul_one]⟩

/-- **C103** (complete connections). If connections transmit all valuesthen the
iterator yields exactly the literals at the leaves with their multipliers, from left to right. -/
theorem C103_leaves (db : Db) (hw : db.WF) (hc : Complete db) (id : Nat) : Yields (leafIterLits db id) (leafLits db id) := by
  refine leafIterLits_spec hw id ?_
  rw [sub_leafLitsF hw hc (id + 1) id 1 (by omega)]
  simp [leafLits]

section
variable {VM : Type} [ManageVars VM] [LawfulVM VM]

/-- **C103** (certified totalizer). In every state of a history the iterator over the leaves of the root yields literals
of which as many are true as input literals are true, if all of them are in the tree. -/
theorem C103_certified_totalizer (w : CertWorld VM) (h : w.Reach) (id : Nat) (hr : w.enc.tot.root = some id) :
    Yields (leafIterLits w.enc.tot.db id) (leafLits w.enc.tot.db id) ∧
    (w.enc.tot.litBuffer = [] → ∀ a, wsum a (leafLits w.enc.tot.db id) = countTrue a w.ins) := by
  obtain ⟨s, hi⟩ := h.inv
  have hg := hi.enc.good id hr
  have hw := hi.enc.tot.core.wf
  refine ⟨leafIterLits_spec hw id ?_, fun hb a => ?_⟩
  · rw [sub_leafLitsF_good hw (id + 1) id 1 (by omega) hg]
    simp [leafLits]
  · rw [wsum_eq_wsumT, (hg.leafOK hw).sum, hi.enc.tot.rootValue hb hr, ← countTrue_eq_cnt]

/-- **C103** (certified generalized totalizer). In every state of a history the iterator over the leaves of the root yields
literals with weights. -/
theorem C103_certified_gte (w : CertGteWorld VM) (h : w.Reach) (con : NodeCon) (hr : w.enc.gte.root = some con) :
    Yields (leafIterLits w.enc.gte.db con.id) (leafLits w.enc.gte.db con.id) ∧
    ∀ a, wsum a (leafLits w.enc.gte.db con.id) = value w.enc.gte.db (trueLits a) con.id := by
  obtain ⟨s, hi⟩ := h.inv
  have hg := hi.enc.good con hr
  have hw := hi.enc.gte.core.wf
  refine ⟨leafIterLits_spec hw con.id ?_, fun a => ?_⟩
  · rw [sub_leafLitsF_good hw (con.id + 1) con.id 1 (by omega) hg]
    simp [leafLits]
  · rw [wsum_eq_wsumT, (hg.leafOK hw).sum]

end

set_option maxRecDepth 20000 in
example : ((runCert demoCertStart demoCertOps).map fun w => (w.enc.tot.root, leafIterLits w.enc.tot.db 8 50)) =
    some (some 8, some [(.pos 0, 1), (.pos 1, 1), (.pos 2, 1), (.pos 3, 1), (.negOf 0, 1)]) := by decide_cbv

/-- A node over two leaves; its second output is a pseudo leaf of another node. -/
def leafDemo : Db :=
  ⟨[.leaf (.pos 0), .leaf (.pos 1), .unit [.none, .lit (.pos 7) none] 2 2 (NodeCon.full 0) (NodeCon.full 1), .leaf (.pos 2),
    .unit [.none, .none] 3 2 (NodeCon.full 3) (NodeCon.single 2 2 1),
    .unit [.none, .none, .none] 4 3 (NodeCon.offsetWeighted 2 1 1) (NodeCon.full 4)], [(.pos 0, 0), (.pos 1, 1), (.pos 2, 3)], none⟩

example : leafIterLits leafDemo 2 20 = some [(.pos 0, 1), (.pos 1, 1)] ∧ leafIterLits leafDemo 4 20 = some [(.pos 2, 1), (.pos 7, 1)] ∧
    leafIterLits leafDemo 5 20 = some [(.pos 7, 1), (.pos 2, 1), (.pos 7, 1)] ∧ leafIterLits leafDemo 3 20 = some [(.pos 2, 1)] := by
  decide

/-- Non-vacuity: the demo has the properties that are assumed. -/
example : leafDemo.WF ∧ Undivided leafDemo ∧ Reserved leafDemo := by
  refine ⟨.of_check (by decide), ?_⟩
  have key : ∀ i, i < 6 ∨ leafDemo.node i = .dummy := fun i => by
    rcases Nat.lt_or_ge i 6 with h | h
    · exact Or.inl h
    · exact Or.inr (Db.node_out h)
  have h1 : ∀ i < 6, ∀ c ∈ (leafDemo.node i).cons, c.divisor = 1 := by decide
  have h2 : ∀ i < 6, ∀ c ∈ (leafDemo.node i).cons, c.offset = 0 ∧ c.lenLimit = none ∨
      ∀ v < (leafDemo.node c.id).len + 1, c.offset < v → ((leafDemo.node c.id).litAt v).isSome = true := by decide
  constructor
  · intro i c hc
    rcases key i with h | h
    · exact h1 i h c hc
    · rw [h] at hc; cases hc
  · intro i c hc
    rcases key i with h | h
    · rcases h2 i h c hc with h | h
      · exact Or.inl h
      · exact Or.inr fun v hv1 hv2 => Option.isSome_iff_exists.1 (h v (by omega) hv1)
    · rw [h] at hc; cases hc

/-- Without the literal of the output, the iterator panics. -/
example : leafIterLits ⟨leafDemo.nodes.set 2 (.unit [.none, .none] 2 2 (NodeCon.full 0) (NodeCon.full 1)), [], none⟩ 4 20 = none := by
  decide

end TotDb
end RustSat
