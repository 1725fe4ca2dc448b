import Verif.Lemmas.Referenced
/-
Lemmas about databases whose outputs lose their variables.
-/
namespace RustSat
open TotDb Card

namespace TotDb

/-- What is left of a node. -/
theorem NodeRel.bare_eq {R : LitData → LitData → Prop} {n n' : Node} (h : NodeRel R n n') :
    n.resetVars = n'.resetVars := by
  cases n <;> cases n' <;> simp only [NodeRel] at h
  · rw [h]
  · obtain ⟨rfl, rfl, rfl, rfl, h5, -⟩ := h
    simp only [Node.resetVars, List.map_const', h5]
  · obtain ⟨rfl, rfl, rfl, rfl, rfl, h5, -⟩ := h
    rename_i lits _ _ _ _ _ lits'
    have e : ∀ L : List (Nat × LitData), (L.map fun x => (x.1, LitData.none)) = (L.map (·.1)).map fun v => (v, LitData.none) := by
      intro L; simp
    simp only [Node.resetVars, e, h5]
  · rfl

/-- What is left does not depend on output data. -/
theorem DbRel.resetVars_eq {R : LitData → LitData → Prop} {a b : Db} (h : DbRel R a b) : a.resetVars = b.resetVars := by
  have hn : a.resetVars.nodes = b.resetVars.nodes := by
    apply List.ext_getElem
    · simp [Db.resetVars, h.len]
    · intro i h1 h2
      have e1 := Db.getElem?_node h1
      have e2 := Db.getElem?_node h2
      rw [List.getElem?_eq_getElem h1] at e1
      rw [List.getElem?_eq_getElem h2] at e2
      have : a.resetVars.node i = b.resetVars.node i := by
        rw [resetVars_node, resetVars_node]
        exact (h.node i).bare_eq
      rw [this] at e1
      exact Option.some.inj (e1.trans e2.symm)
  have h1 : a.resetVars = { a with nodes := a.resetVars.nodes } := rfl
  have h2 : b.resetVars = { b with nodes := b.resetVars.nodes } := rfl
  have hl := h.lookup
  have hd := h.dummy
  rw [h1, h2, hn]
  cases a
  cases b
  simp only at hl hd
  rw [hl, hd]

theorem HasLit.resetVars_leaf {db : Db} {id idx : Nat} {sem : Semantics} {l : Lit} (h : HasLit db.resetVars id idx sem l) :
    db.node id = .leaf l := by
  rcases h with ⟨h, -⟩ | ⟨s, -, h, -⟩
  · exact (resetVars_rel db).leaf.1 h
  · cases resetVars_out db _ _ _ _ h

theorem HasVal.resetVars_leaf {db : Db} {id val : Nat} {l : Lit} (h : HasVal db.resetVars id val l) : db.node id = .leaf l := by
  rcases h with ⟨h, -⟩ | ⟨k, s, h, -⟩
  · exact (resetVars_rel db).leaf.1 h
  · cases resetVars_out db _ _ _ _ h

end TotDb

namespace SharedWorld
variable {VM : Type} [ManageVars VM] [LawfulVM VM]

/-- Calls on encodings only change output data. -/
theorem call_resetVars {w w' : SharedWorld VM} (h : w.Inv) {op : SharedOp VM} (ha : w.allowed op) (hs : w.step op = some w')
    (hop : op.isCall = true) : w'.db.resetVars = w.db.resetVars := by
  have hw := h.core.wf
  have keep0 := keepRefl w.db
  have keep1 := keepReset w.db .if_
  have core1 := h.core.reset .if_
  have fin : ∀ {db0 : Db} {st : St VM}, DbRel LitKeep w.db db0 → Step ⟨db0, w.vm, w.cls⟩ st → st.db.resetVars = w.db.resetVars :=
    fun k s => s.ref.resetVars_eq.symm.trans k.resetVars_eq.symm
  cases op with
  | litTree lits => cases hop
  | weightedLitTree lits => cases hop
  | join trees => cases hop
  | watchdog lits d => cases hop
  | watchdogOf trees d => cases hop
  | totUb root r =>
    obtain ⟨lits, hc⟩ := ha
    obtain ⟨st, c, av⟩ := tot_ub_call keep1 core1 ((h.cards _ hc).rel keep1 hw) r
    have e : RefTot.encodeUb root r w.st = some st := c.eq
    simp only [step, called, e] at hs
    cases hs
    exact fin keep1 c.step
  | totUbChange root r =>
    obtain ⟨lits, hc⟩ := ha
    obtain ⟨st, c, av⟩ := tot_ub_call keep0 h.core (h.cards _ hc) r
    have e : RefTot.encodeUbChange root r w.st = some st := c.eq
    simp only [step, called, e] at hs
    cases hs
    exact fin keep0 c.step
  | totLb root r =>
    obtain ⟨lits, hc⟩ := ha
    obtain ⟨st, c, av⟩ := tot_lb_call keep1 core1 ((h.cards _ hc).rel keep1 hw) r
    have e : RefTot.encodeLb root r w.st = some st := c.eq
    simp only [step, called, e] at hs
    cases hs
    exact fin keep1 c.step
  | totLbChange root r =>
    obtain ⟨lits, hc⟩ := ha
    obtain ⟨st, c, av⟩ := tot_lb_call keep0 h.core (h.cards _ hc) r
    have e : RefTot.encodeLbChange root r w.st = some st := c.eq
    simp only [step, called, e] at hs
    cases hs
    exact fin keep0 c.step
  | totBoth root r =>
    obtain ⟨lits, hc⟩ := ha
    obtain ⟨st1, c1, av1⟩ := tot_ub_call keep0 h.core (h.cards _ hc) r
    have i1 := h.step keep0 h.core c1.step (also w.ub root r) w.lb w.wub w.dub
    obtain ⟨st2, c2, av2⟩ := tot_lb_call (keepRefl st1.db) i1.core (i1.cards _ hc) r
    have e : RefTot.encodeBoth root r w.st = some st2 := by
      rw [RefTot.encodeBoth, show RefTot.encodeUbChange root r w.st = some st1 from c1.eq]
      exact c2.eq
    simp only [step, called, e] at hs
    cases hs
    have e2 : st2.db.resetVars = st1.db.resetVars := c2.step.ref.resetVars_eq.symm
    exact e2.trans (fin keep0 c1.step)
  | totReserve root =>
    obtain ⟨st, c⟩ := reserve_call h (con := NodeCon.full root) (Or.inr (Nat.zero_le _))
    have e : RefTot.reserve root w.st = some st := c.eq
    simp only [step, called, e] at hs
    cases hs
    exact fin keep0 c.step
  | gteUb con M r =>
    obtain ⟨lits, hc, -⟩ := ha
    obtain ⟨st, c, av⟩ := weighted_call keep1 core1 ((h.sums _ hc).rel keep1 hw) M r
    have e : RefGte.encodeUb con M r w.st = some st := c.eq
    simp only [step, called, e] at hs
    cases hs
    exact fin keep1 c.step
  | gteUbChange con M r =>
    obtain ⟨lits, hc, -⟩ := ha
    obtain ⟨st, c, av⟩ := weighted_call keep0 h.core (h.sums _ hc) M r
    have e : RefGte.encodeUbChange con M r w.st = some st := c.eq
    simp only [step, called, e] at hs
    cases hs
    exact fin keep0 c.step
  | gteReserve con =>
    obtain ⟨lits, hc⟩ := ha
    obtain ⟨st, c⟩ := reserve_call h (con := con) (Or.inr (by rw [(h.sums _ hc).plain.offset]; exact Nat.zero_le _))
    have e : RefGte.reserve con w.st = some st := c.eq
    simp only [step, called, e] at hs
    cases hs
    exact fin keep0 c.step
  | dogUb s r =>
    obtain ⟨lits, hc⟩ := ha
    obtain ⟨st, c, av⟩ := dog_call keep1 core1 (DogOK.rel keep1 hw (h.dogs _ hc)) r
    have e : RefDpw.encodeUb s r w.st = some st := c.eq
    simp only [step, called, e] at hs
    cases hs
    exact fin keep1 c.step
  | dogUbChange s r =>
    obtain ⟨lits, hc⟩ := ha
    obtain ⟨st, c, av⟩ := dog_call keep0 h.core (h.dogs _ hc) r
    have e : RefDpw.encodeUbChange s r w.st = some st := c.eq
    simp only [step, called, e] at hs
    cases hs
    exact fin keep0 c.step
  | dogReserve s =>
    obtain ⟨st, c⟩ := reserve_call h (con := NodeCon.full s.root) (Or.inr (Nat.zero_le _))
    have e : RefDpw.reserve s w.st = some st := c.eq
    simp only [step, called, e] at hs
    cases hs
    exact fin keep0 c.step
  | useVars vm => cases hs; rfl
  | resetVars vm => cases hs; exact (resetVars_rel w.db).resetVars_eq.symm

end SharedWorld
end RustSat
