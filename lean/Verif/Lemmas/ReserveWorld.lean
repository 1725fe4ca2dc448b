import Verif.Lemmas.ReserveShape
import Verif.Lemmas.Totalizer2
import Verif.Lemmas.Gte
import Verif.Spec.Reserve
/-
After reserving, the totalizer and the generalized totalizer encode without using variables.
-/
namespace RustSat
open TotDb Card
variable {VM : Type} [ManageVars VM]

/-- All nodes reachable from the root have all literals. -/
def Rooted (db : Db) (id : Nat) : Prop := ∃ S, Closed db S ∧ ∀ v, S id v

theorem Rooted.ref {db db' : Db} {id : Nat} (h : DbRel LitKeep db db') (hr : Rooted db id) : Rooted db' id := by
  obtain ⟨S, h1, h2⟩ := hr
  exact ⟨S, h1.ref h, h2⟩

theorem rooted_reserve [LawfulVM VM] {fuel : Nat} {st st' : St VM} {c : NodeCon} (hw : st.db.WF) (hu : Unlimited st.db)
    (hl : c.lenLimit = none) (ho : c.offset = 0) (hd : c.divisor = 1) (h : reserveVars fuel st c = some st') :
    st'.db.WF ∧ Unlimited st'.db ∧ Rooted st'.db c.id := by
  obtain ⟨h1, h2⟩ := reserveVars_closed hw hu hl (fun _ => hd) h
  exact ⟨h1.toKeep.wf hw, hu.ref h1.toKeep, _, h2, fun v => ⟨c, .refl c, rfl, by unfold Cov; rw [ho, hd]; exact ⟨Nat.zero_le _, Nat.mod_one _⟩⟩⟩

namespace Totalizer

/-- All variables are reserved. -/
structure Ready (t : Totalizer) : Prop where
  wf : t.db.WF
  unl : Unlimited t.db
  buf : t.litBuffer = []
  root : ∀ id, t.root = some id → Rooted t.db id

theorem Ready.extendTree {t : Totalizer} (h : t.Ready) : t.extendTree = some t := by
  have e : litTree t.db t.litBuffer = (none, t.db) := by rw [h.buf]; rfl
  unfold Totalizer.extendTree
  rw [e]
  obtain ⟨b, r, nv, nc, db, off, na⟩ := t
  have := h.buf
  simp only at this ⊢
  rw [this]

theorem Ready.quiet {t : Totalizer} (h : t.Ready) {db : Db} (hk : DbRel LitKeep t.db db) (nv nc : Nat) :
    Ready { t with db := db, nVars := nv, nClauses := nc } :=
  ⟨hk.wf h.wf, h.unl.ref hk, h.buf, fun id hid => (h.root id hid).ref hk⟩

theorem Ready.reset {t : Totalizer} (h : t.Ready) (sem : Semantics) : Ready { t with db := t.db.resetEncoded sem } :=
  h.quiet (reset_rel t.db sem) t.nVars t.nClauses

theorem Ready.defineOutputs {t t' : Totalizer} (h : t.Ready) {sem : Semantics} {idxs : List Nat} {vm vm' : VM} {cls cls' : ClauseSet}
    (he : t.defineOutputs sem idxs vm cls = some (t', vm', cls')) : t'.Ready ∧ vm' = vm := by
  unfold Totalizer.defineOutputs at he
  split at he
  · cases he; exact ⟨h, rfl⟩
  · rw [h.extendTree] at he
    simp only at he
    cases hr : t.root with
    | none => rw [hr] at he; cases he; exact ⟨h, rfl⟩
    | some id =>
      rw [hr] at he
      simp only at he
      cases hd : defineAll (⟨t.db, vm, cls⟩ : St VM) id sem (idxs.map fun i => i + t.offset) with
      | none => rw [hd] at he; cases he
      | some st =>
        rw [hd] at he
        cases he
        obtain ⟨S, h1, h2⟩ := h.root id hr
        have q := defineAll_quiet (S := S) _ _ _ h.wf h.unl h1 (fun idx _ => h2 _) hd
        refine ⟨?_, q.1⟩
        rw [← hr]
        exact h.quiet q.2 _ _

theorem Ready.encodeUbChange {t t' : Totalizer} (h : t.Ready) {r : URange} {vm vm' : VM} {cls cls' : ClauseSet}
    (he : t.encodeUbChange r vm cls = some (t', vm', cls')) : t'.Ready ∧ vm' = vm := h.defineOutputs he

theorem Ready.encodeLbChange {t t' : Totalizer} (h : t.Ready) {r : URange} {vm vm' : VM} {cls cls' : ClauseSet}
    (he : t.encodeLbChange r vm cls = some (t', vm', cls')) : t'.Ready ∧ vm' = vm := h.defineOutputs he

/-- Only the connections matter for the limits. -/
theorem unl_extendTree {t t' : Totalizer} (hu : Unlimited t.db) (he : t.extendTree = some t') : Unlimited t'.db := by
  unfold Totalizer.extendTree at he
  have h1 := hu.litTree t.litBuffer
  cases hl : litTree t.db t.litBuffer with
  | mk o db =>
    rw [hl] at he h1
    cases o with
    | none => cases he; exact h1
    | some n =>
      simp only at he
      cases hr : t.root with
      | none => rw [hr] at he; cases he; exact h1
      | some old =>
        rw [hr] at he
        simp only at he
        have h2 := Unlimited.merge (db := db) (cons := [NodeCon.offsetWeighted old t.offset 1, NodeCon.full n]) h1 (by
          intro c hc
          simp only [List.mem_cons, List.not_mem_nil, or_false] at hc
          rcases hc with rfl | rfl <;> rfl)
        cases hm : merge db [NodeCon.offsetWeighted old t.offset 1, NodeCon.full n] with
        | mk o db2 =>
          rw [hm] at he h2
          cases o with
          | none => cases he
          | some con => cases he; exact h2

theorem unl_defineOutputs {t t' : Totalizer} (hu : Unlimited t.db) {sem : Semantics} {idxs : List Nat} {vm vm' : VM} {cls cls' : ClauseSet}
    (he : t.defineOutputs sem idxs vm cls = some (t', vm', cls')) : Unlimited t'.db := by
  unfold Totalizer.defineOutputs at he
  split at he
  · cases he; exact hu
  · cases h1 : t.extendTree with
    | none => rw [h1] at he; cases he
    | some t1 =>
      rw [h1] at he
      simp only at he
      have u1 := unl_extendTree hu h1
      cases hr : t1.root with
      | none => rw [hr] at he; cases he; exact u1
      | some id =>
        rw [hr] at he
        simp only at he
        cases hd : defineAll (⟨t1.db, vm, cls⟩ : St VM) id sem (idxs.map fun i => i + t1.offset) with
        | none => rw [hd] at he; cases he
        | some st => rw [hd] at he; cases he; exact (defineAll_sh _ _ _ hd).unlimited u1

theorem unl_reserve {t t' : Totalizer} (hu : Unlimited t.db) {vm vm' : VM} (he : t.reserve vm = some (t', vm')) : Unlimited t'.db := by
  unfold Totalizer.reserve at he
  cases h1 : t.extendTree with
  | none => rw [h1] at he; cases he
  | some t1 =>
    rw [h1] at he
    simp only at he
    have u1 := unl_extendTree hu h1
    cases hr : t1.root with
    | none => rw [hr] at he; cases he; exact u1
    | some root =>
      rw [hr] at he
      simp only at he
      cases hv : reserveVars (root + 1) (⟨t1.db, vm, []⟩ : St VM) (NodeCon.full root) with
      | none => rw [hv] at he; cases he
      | some st => rw [hv] at he; cases he; exact (reserveVars_sh _ _ _ _ hv).unlimited u1

theorem ready_reserve [LawfulVM VM] {t t' : Totalizer} {n : Nat} {cls : ClauseSet} {ins : List Lit} {own : List Nat} (h : t.Inv n cls ins own)
    (hu : Unlimited t.db) {vm vm' : VM} (he : t.reserve vm = some (t', vm')) : t'.Ready := by
  unfold Totalizer.reserve at he
  obtain ⟨t1, h1, i1, b1, -⟩ := h.extendTree
  rw [h1] at he
  simp only at he
  have u1 := unl_extendTree hu h1
  cases hr : t1.root with
  | none => rw [hr] at he; cases he; exact ⟨i1.core.wf, u1, b1, fun id hid => by rw [hr] at hid; cases hid⟩
  | some root =>
    rw [hr] at he
    simp only at he
    cases hv : reserveVars (root + 1) (⟨t1.db, vm, []⟩ : St VM) (NodeCon.full root) with
    | none => rw [hv] at he; cases he
    | some st =>
      rw [hv] at he
      cases he
      obtain ⟨w1, w2, w3⟩ := rooted_reserve (st := ⟨t1.db, vm, []⟩) i1.core.wf u1 rfl rfl rfl hv
      refine ⟨w1, w2, b1, fun id hid => ?_⟩
      cases hid
      exact w3

end Totalizer

namespace CardWorld

theorem encoded_some {w w' : CardWorld VM} {r : Option (Totalizer × VM × ClauseSet)} {ub lb : Nat → Prop} (h : w.encoded r ub lb = some w') :
    ∃ c, r = some (w'.tot, w'.vm, c) := by
  unfold encoded at h
  cases r with
  | none => cases h
  | some x => obtain ⟨t, vm, cls⟩ := x; cases h; exact ⟨cls, rfl⟩

/-- Encoding with reserved variables. -/
theorem ready_encode {w w' : CardWorld VM} {op : CardOp VM} (h : w.tot.Ready) (hop : isEncode op) (hs : w.step op = some w') :
    w'.tot.Ready ∧ w'.vm = w.vm := by
  cases op with
  | add => exact hop.elim
  | reserve => exact hop.elim
  | useVars => exact hop.elim
  | encodeUb r => obtain ⟨c, e⟩ := encoded_some hs; exact (h.reset .if_).encodeUbChange e
  | encodeUbChange r => obtain ⟨c, e⟩ := encoded_some hs; exact h.encodeUbChange e
  | encodeLb r => obtain ⟨c, e⟩ := encoded_some hs; exact (h.reset .onlyIf).encodeLbChange e
  | encodeLbChange r => obtain ⟨c, e⟩ := encoded_some hs; exact h.encodeLbChange e
  | encodeBoth r =>
    obtain ⟨c, e⟩ := encoded_some hs
    unfold Totalizer.encodeBoth at e
    cases h1 : w.tot.encodeUbChange r w.vm w.cls with
    | none => rw [h1] at e; cases e
    | some x =>
      obtain ⟨t1, vm1, cls1⟩ := x
      rw [h1] at e
      obtain ⟨r1, rfl⟩ := h.encodeUbChange h1
      exact r1.encodeLbChange e

theorem unl_step {w w' : CardWorld VM} {op : CardOp VM} (h : Unlimited w.tot.db) (hs : w.step op = some w') : Unlimited w'.tot.db := by
  cases op with
  | add lits => cases hs; exact h
  | useVars => cases hs; exact h
  | reserve =>
    obtain ⟨c, e⟩ := encoded_some hs
    cases hr : w.tot.reserve w.vm with
    | none => rw [hr] at e; cases e
    | some x =>
      obtain ⟨t, vm⟩ := x
      rw [hr] at e
      cases e
      exact Totalizer.unl_reserve h hr
  | encodeUb r => obtain ⟨c, e⟩ := encoded_some hs; exact Totalizer.unl_defineOutputs (t := { w.tot with db := w.tot.db.resetEncoded .if_ }) ((reset_sh w.tot.db .if_).unlimited h) e
  | encodeUbChange r => obtain ⟨c, e⟩ := encoded_some hs; exact Totalizer.unl_defineOutputs h e
  | encodeLb r => obtain ⟨c, e⟩ := encoded_some hs; exact Totalizer.unl_defineOutputs (t := { w.tot with db := w.tot.db.resetEncoded .onlyIf }) ((reset_sh w.tot.db .onlyIf).unlimited h) e
  | encodeLbChange r => obtain ⟨c, e⟩ := encoded_some hs; exact Totalizer.unl_defineOutputs h e
  | encodeBoth r =>
    obtain ⟨c, e⟩ := encoded_some hs
    unfold Totalizer.encodeBoth at e
    cases h1 : w.tot.encodeUbChange r w.vm w.cls with
    | none => rw [h1] at e; cases e
    | some x =>
      obtain ⟨t1, vm1, cls1⟩ := x
      rw [h1] at e
      exact Totalizer.unl_defineOutputs (Totalizer.unl_defineOutputs h h1) e

theorem Reach.unl {R : CardOp VM → Prop} {w : CardWorld VM} (h : Reach R w) : Unlimited w.tot.db := by
  induction h with
  | start => exact Unlimited.empty
  | step w w' op _ _ _ hs ih => exact unl_step ih hs

theorem ready_step_reserve [LawfulVM VM] {R : CardOp VM → Prop} {w w' : CardWorld VM} (h : Reach R w) (hs : w.step .reserve = some w') :
    w'.tot.Ready := by
  obtain ⟨c, e⟩ := encoded_some hs
  cases hr : w.tot.reserve w.vm with
  | none => rw [hr] at e; cases e
  | some x =>
    obtain ⟨t, vm⟩ := x
    rw [hr] at e
    cases e
    exact Totalizer.ready_reserve h.inv.tot h.unl hr

theorem Since.ready [LawfulVM VM] {w w1 w2 : CardWorld VM} (h : Reach (fun _ => True) w) (hs : w.step .reserve = some w1) (h2 : Since w1 w2) :
    Reach (fun _ => True) w2 ∧ w2.tot.Ready := by
  induction h2 with
  | here => exact ⟨.step _ _ .reserve h trivial trivial hs, ready_step_reserve h hs⟩
  | step w3 w4 op _ hn ha hs' ih =>
    obtain ⟨i1, i2⟩ := ih
    refine ⟨.step _ _ _ i1 trivial ha hs', ?_⟩
    cases op with
    | add lits => exact absurd rfl (hn lits)
    | useVars vm => cases hs'; exact i2
    | reserve => exact ready_step_reserve i1 hs'
    | encodeUb r => exact (ready_encode (op := .encodeUb r) i2 trivial hs').1
    | encodeUbChange r => exact (ready_encode (op := .encodeUbChange r) i2 trivial hs').1
    | encodeLb r => exact (ready_encode (op := .encodeLb r) i2 trivial hs').1
    | encodeLbChange r => exact (ready_encode (op := .encodeLbChange r) i2 trivial hs').1
    | encodeBoth r => exact (ready_encode (op := .encodeBoth r) i2 trivial hs').1

end CardWorld

namespace Gte

/-- All variables are reserved. -/
structure Ready (t : Gte) : Prop where
  wf : t.db.WF
  unl : Unlimited t.db
  buf : t.litBuffer = []
  root : ∀ con, t.root = some con → Rooted t.db con.id

theorem Ready.extendTree {t : Gte} (h : t.Ready) (m : Option Nat) : t.extendTree m = some t := by
  unfold Gte.extendTree
  rw [h.buf]
  rfl

theorem Ready.quiet {t : Gte} (h : t.Ready) {db : Db} (hk : DbRel LitKeep t.db db) (nv nc : Nat) :
    Ready { t with db := db, nVars := nv, nClauses := nc } :=
  ⟨hk.wf h.wf, h.unl.ref hk, h.buf, fun id hid => (h.root id hid).ref hk⟩

theorem Ready.encodeUbChange {t t' : Gte} (h : t.Ready) {r : URange} {vm vm' : VM} {cls cls' : ClauseSet}
    (he : t.encodeUbChange r vm cls = some (t', vm', cls')) : t'.Ready ∧ vm' = vm := by
  unfold Gte.encodeUbChange at he
  simp only at he
  split at he
  · cases he; exact ⟨h, rfl⟩
  · rw [h.extendTree] at he
    simp only at he
    cases hr : t.root with
    | none => rw [hr] at he; cases he; exact ⟨h, rfl⟩
    | some con =>
      rw [hr] at he
      simp only at he
      split at he
      · cases he
      · rename_i st hd
        cases he
        obtain ⟨S, h1, h2⟩ := h.root con hr
        have q := defineVals_quiet (S := S) _ _ _ h.wf h.unl h1 (fun v _ => h2 v) hd
        refine ⟨?_, q.1⟩
        rw [← hr]
        exact h.quiet q.2 _ _

theorem Ready.encodeUb {t t' : Gte} (h : t.Ready) {r : URange} {vm vm' : VM} {cls cls' : ClauseSet}
    (he : t.encodeUb r vm cls = some (t', vm', cls')) : t'.Ready ∧ vm' = vm :=
  (h.quiet (reset_rel t.db .if_) t.nVars t.nClauses).encodeUbChange he

/-- Neither the database nor the root are limited. -/
def Unl (t : Gte) : Prop := Unlimited t.db ∧ ∀ con, t.root = some con → con.lenLimit = none

theorem Unl.extendTree {t t' : Gte} (hu : t.Unl) {m : Option Nat} (he : t.extendTree m = some t') : t'.Unl := by
  unfold Gte.extendTree at he
  simp only at he
  split at he
  · cases he; exact hu
  · cases h1 : segTrees t.db (segments (·.2) (sortBy (·.2) (t.litBuffer.filter (fits m)))) with
    | none => rw [h1] at he; cases he
    | some x =>
      obtain ⟨cons, db⟩ := x
      rw [h1] at he
      simp only at he
      obtain ⟨u1, u2⟩ := Unlimited.segTrees _ _ _ _ hu.1 h1
      obtain ⟨u3, u4⟩ := Unlimited.mergeBalanced (cons := cons ++ t.root.toList) u1 (fun c hc => by
        rcases List.mem_append.1 hc with hc | hc
        · exact u2 c hc
        · exact hu.2 c (by simpa using hc))
      cases h2 : mergeBalanced db (cons ++ t.root.toList) with
      | mk o db2 =>
        rw [h2] at he u3 u4
        cases o with
        | none => cases he
        | some con => cases he; exact ⟨u3, fun c hc => by cases hc; exact u4 _ rfl⟩

theorem Unl.sh {t : Gte} (hu : t.Unl) {db : Db} (h : Sh t.db db) (nv nc : Nat) : Unl { t with db := db, nVars := nv, nClauses := nc } :=
  ⟨h.unlimited hu.1, hu.2⟩

theorem Unl.encodeUbChange {t t' : Gte} (h : t.Unl) {r : URange} {vm vm' : VM} {cls cls' : ClauseSet}
    (he : t.encodeUbChange r vm cls = some (t', vm', cls')) : t'.Unl := by
  unfold Gte.encodeUbChange at he
  simp only at he
  split at he
  · cases he; exact h
  · split at he
    · cases he
    · rename_i t1 h1
      have u1 := h.extendTree h1
      cases hr : t1.root with
      | none => rw [hr] at he; cases he; exact u1
      | some con =>
        rw [hr] at he
        simp only at he
        split at he
        · cases he
        · rename_i st hd
          cases he
          rw [← hr]
          exact u1.sh (defineVals_sh _ _ _ hd) _ _

theorem Unl.encodeUb {t t' : Gte} (h : t.Unl) {r : URange} {vm vm' : VM} {cls cls' : ClauseSet}
    (he : t.encodeUb r vm cls = some (t', vm', cls')) : t'.Unl := (h.sh (reset_sh t.db .if_) t.nVars t.nClauses).encodeUbChange he

theorem Unl.reserve {t t' : Gte} (h : t.Unl) {vm vm' : VM} (he : t.reserve vm = some (t', vm')) : t'.Unl := by
  unfold Gte.reserve at he
  cases h1 : t.extendTree none with
  | none => rw [h1] at he; cases he
  | some t1 =>
    rw [h1] at he
    simp only at he
    have u1 := h.extendTree h1
    cases hr : t1.root with
    | none => rw [hr] at he; cases he; exact u1
    | some con =>
      rw [hr] at he
      simp only at he
      split at he
      · cases he
      · rename_i st hv
        cases he
        rw [← hr]
        exact u1.sh (reserveVars_sh _ _ _ _ hv) t1.nVars t1.nClauses

theorem ready_reserve [LawfulVM VM] {t t' : Gte} {n : Nat} {cls : ClauseSet} {ins : List (Lit × Nat)} {own : List Nat} (h : t.Inv n cls ins own)
    (hu : t.Unl) {vm vm' : VM} (he : t.reserve vm = some (t', vm')) : t'.Ready := by
  unfold Gte.reserve at he
  obtain ⟨t1, h1, i1, b1, -⟩ := h.extendTree none
  rw [h1] at he
  simp only at he
  have u1 := hu.extendTree h1
  have b2 : t1.litBuffer = [] := by rw [b1]; simp [fits]
  cases hr : t1.root with
  | none => rw [hr] at he; cases he; exact ⟨i1.core.wf, u1.1, b2, fun id hid => by rw [hr] at hid; cases hid⟩
  | some con =>
    rw [hr] at he
    simp only at he
    split at he
    · cases he
    · rename_i st hv
      cases he
      have hp := (i1.root con hr).1
      obtain ⟨w1, w2, w3⟩ := rooted_reserve (st := ⟨t1.db, vm, []⟩) i1.core.wf u1.1 hp.limit hp.offset hp.divisor hv
      refine ⟨w1, w2, b2, fun c hc => ?_⟩
      cases hc
      exact w3

end Gte

namespace GteWorld

theorem encoded_some {w w' : GteWorld VM} {r : Option (Gte × VM × ClauseSet)} {ub : Nat → Prop} (h : w.encoded r ub = some w') :
    ∃ c, r = some (w'.gte, w'.vm, c) := by
  unfold encoded at h
  cases r with
  | none => cases h
  | some x => obtain ⟨t, vm, cls⟩ := x; cases h; exact ⟨cls, rfl⟩

theorem reserve_some {w w' : GteWorld VM} (hs : w.step .reserve = some w') : w.gte.reserve w.vm = some (w'.gte, w'.vm) := by
  obtain ⟨c, e⟩ := encoded_some hs
  cases hr : w.gte.reserve w.vm with
  | none => rw [hr] at e; cases e
  | some x => obtain ⟨t, vm⟩ := x; rw [hr] at e; cases e; rfl

theorem ready_encode {w w' : GteWorld VM} {op : GteOp VM} (h : w.gte.Ready) (hop : isEncode op) (hs : w.step op = some w') :
    w'.gte.Ready ∧ w'.vm = w.vm := by
  cases op with
  | add => exact hop.elim
  | reserve => exact hop.elim
  | rehash => exact hop.elim
  | useVars => exact hop.elim
  | encodeUb r => obtain ⟨c, e⟩ := encoded_some hs; exact h.encodeUb e
  | encodeUbChange r => obtain ⟨c, e⟩ := encoded_some hs; exact h.encodeUbChange e

theorem Reach.unl {R : GteOp VM → Prop} {w : GteWorld VM} (h : Reach R w) : w.gte.Unl := by
  induction h with
  | start => exact ⟨Unlimited.empty, fun _ h => by cases h⟩
  | step w w' op _ _ _ hs ih =>
    cases op with
    | add lits => cases hs; exact ih
    | rehash => cases hs; exact ih
    | useVars => cases hs; exact ih
    | reserve => exact ih.reserve (reserve_some hs)
    | encodeUb r => obtain ⟨c, e⟩ := encoded_some hs; exact ih.encodeUb e
    | encodeUbChange r => obtain ⟨c, e⟩ := encoded_some hs; exact ih.encodeUbChange e

theorem Since.ready [LawfulVM VM] {w w1 w2 : GteWorld VM} (h : Reach (fun _ => True) w) (hs : w.step .reserve = some w1) (h2 : Since w1 w2) :
    Reach (fun _ => True) w2 ∧ w2.gte.Ready := by
  induction h2 with
  | here => exact ⟨.step _ _ .reserve h trivial trivial hs, Gte.ready_reserve h.inv.gte h.unl (reserve_some hs)⟩
  | step w3 w4 op _ hn ha hs' ih =>
    obtain ⟨i1, i2⟩ := ih
    refine ⟨.step _ _ _ i1 trivial ha hs', ?_⟩
    cases op with
    | add lits => exact absurd rfl (hn lits)
    | useVars vm => cases hs'; exact i2
    | rehash b =>
      have hb : b = [] := by
        have : b.Perm w3.gte.litBuffer := ha
        rw [i2.buf] at this
        exact this.eq_nil
      cases hs'
      exact ⟨i2.wf, i2.unl, hb, i2.root⟩
    | reserve => exact Gte.ready_reserve i1.inv.gte i1.unl (reserve_some hs')
    | encodeUb r => exact (ready_encode (op := .encodeUb r) i2 trivial hs').1
    | encodeUbChange r => exact (ready_encode (op := .encodeUbChange r) i2 trivial hs').1

end GteWorld
end RustSat
