import Verif.Lemmas.Reserve
import Verif.Spec.Totalizer
/-
The invariant of the totalizer over histories.
-/
namespace RustSat
open TotDb Card

/-- Number of literals in a list that belong to a set. -/
def cnt (T : Lit → Bool) (lits : List Lit) : Nat := (lits.map fun l => if T l then 1 else 0).sum

theorem cnt_append (T : Lit → Bool) (a b : List Lit) : cnt T (a ++ b) = cnt T a + cnt T b := by
  simp [cnt]

theorem cnt_all (lits : List Lit) : cnt (fun _ => true) lits = lits.length := by
  induction lits with
  | nil => rfl
  | cons l ls ih => simp only [cnt, List.map_cons, List.sum_cons, List.length_cons] at ih ⊢; simp at ih ⊢; omega

theorem countTrue_eq_cnt (a : Asg) (lits : List Lit) : countTrue a lits = cnt (trueLits a) lits := by
  induction lits with
  | nil => rfl
  | cons l ls ih =>
    rw [countTrue_cons, ih]
    simp only [cnt, List.map_cons, List.sum_cons]
    rfl

namespace TotDb

theorem merge_two (db : Db) (a b : NodeCon) : merge db [a, b] = (some (mergeCons db a b).1, (mergeCons db a b).2) := by
  have h : reverseWidth 2 2 0 = (1, 0) := by decide
  simp only [merge, List.isEmpty_cons, Bool.false_eq_true, if_false, List.length_cons, List.length_nil, h]
  have l1 : ∀ db, mergeLevel 1 0 0 2 db [a, b] 0 1 = (db, [a, b]) := by
    intro db; simp [mergeLevel]
  have l2 : mergeLevel 2 0 0 2 db [a, b] 0 1 = ((mergeCons db a b).2, [(mergeCons db a b).1, b]) := by
    simp [mergeLevel]
  simp [mergeLoop, l1]
  rw [show mergeLevel 2 0 0 2 db [a, b] 0 1 = _ from l2]
  simp

/-- The node created by merging two connections is new. -/
theorem mergeCons_id (db : Db) (a b : NodeCon) : (mergeCons db a b).1.id = db.nodes.length := by
  have key : ∀ (a b : NodeCon), (db.insert (Node.internal a b db)).1 = db.nodes.length := by
    intro a b
    unfold Db.insert
    unfold Node.internal
    by_cases h : a.multiplier ≠ b.multiplier ∨ (db.node a.id).isGeneral = true ∨ (db.node b.id).isGeneral = true
    · simp only [h, if_true]
    · simp only [h, if_false]
  unfold mergeCons
  by_cases h : a.multiplier > 1 ∧ a.multiplier = b.multiplier
  · rw [if_pos h]; exact key _ _
  · rw [if_neg h]; exact key _ _

/-- New nodes have no marked outputs. -/
theorem ExtD.unmarked {dm : Prop} {L : List Lit} {a b : Db} (h : ExtD dm L a b) {i : Nat} (hi : a.nodes.length ≤ i) (k : Nat) :
    ¬ MarkedIf b i k ∧ ¬ MarkedOnly b i k := by
  have key : ∀ v d, (b.node i).outData k = some (v, d) → d = .none := by
    intro v d hd
    have hlt : i < b.nodes.length := Db.node_lt (by intro hn; rw [hn] at hd; cases hd)
    obtain ⟨nn, e, hb, -⟩ := h
    have hn : b.node i ∈ nn := by
      have := Db.getElem?_node hlt
      rw [e, List.getElem?_append_right hi] at this
      exact List.mem_of_getElem? this
    exact blank_out (hb _ hn) hd
  refine ⟨?_, ?_⟩ <;> rintro ⟨v, d, hd, hx⟩ <;> rw [key v d hd] at hx <;> cases hx

theorem HasLit.markedIf {db : Db} {id k : Nat} {l : Lit} (h : HasLit db id k .if_ l) :
    db.node id = .leaf l ∨ MarkedIf db id k := by
  rcases h with ⟨h, -⟩ | ⟨s, -, h1, h2, -⟩
  · exact Or.inl h
  · exact Or.inr ⟨_, _, h1, h2 rfl⟩

theorem HasLit.markedOnly {db : Db} {id k : Nat} {l : Lit} (h : HasLit db id k .onlyIf l) :
    db.node id = .leaf l ∨ MarkedOnly db id k := by
  rcases h with ⟨h, -⟩ | ⟨s, -, h1, -, h2⟩
  · exact Or.inl h
  · exact Or.inr ⟨_, _, h1, h2 rfl⟩

/-- Resetting keeps outputs with other semantics. -/
theorem HasLit.reset {db : Db} {id k : Nat} {l : Lit} {sem sem' : Semantics} (h : HasLit db id k sem l)
    (h1 : sem = .if_ ∧ sem' = .onlyIf ∨ sem = .onlyIf ∧ sem' = .if_) : HasLit (db.resetEncoded sem') id k sem l := by
  rcases h with ⟨h, h0⟩ | ⟨s, hg, hd, hs1, hs2⟩
  · exact Or.inl ⟨(resetEncoded_rel db sem').leaf.2 h, h0⟩
  · obtain ⟨d', e1, e2⟩ := ((resetEncoded_rel db sem').node id).outData_fwd hd
    have hgg : ((db.resetEncoded sem').node id).isGeneral = false := by
      rw [((resetEncoded_rel db sem').node id).isGeneral]; exact hg
    unfold LitReset at e2
    subst e2
    rcases h1 with ⟨rfl, rfl⟩ | ⟨rfl, rfl⟩
    · have := hs1 rfl
      cases s with
      | if_ => exact Or.inr ⟨.if_, hgg, e1, fun _ => rfl, (fun h => by cases h)⟩
      | onlyIf => cases this
      | iff_ => exact Or.inr ⟨.if_, hgg, e1, fun _ => rfl, (fun h => by cases h)⟩
    · have := hs2 rfl
      cases s with
      | if_ => cases this
      | onlyIf => exact Or.inr ⟨.onlyIf, hgg, e1, (fun h => by cases h), fun _ => rfl⟩
      | iff_ => exact Or.inr ⟨.onlyIf, hgg, e1, (fun h => by cases h), fun _ => rfl⟩

theorem reset_marked (db : Db) (sem : Semantics) (id k : Nat) :
    (MarkedIf (db.resetEncoded sem) id k → MarkedIf db id k ∧ sem.hasIf = false) ∧
      (MarkedOnly (db.resetEncoded sem) id k → MarkedOnly db id k ∧ sem.hasOnlyIf = false) := by
  refine ⟨?_, ?_⟩ <;> rintro ⟨v, d, hd, hx⟩ <;>
    obtain ⟨d', e1, e2⟩ := ((resetEncoded_rel db sem).node id).outData_bwd hd <;> unfold LitReset at e2 <;> subst e2
  · refine ⟨⟨v, d', e1, (removeSemantics_rel sem d').2.2.1 hx⟩, ?_⟩
    cases hs : sem.hasIf with
    | false => rfl
    | true => rw [(removeSemantics_rel sem d').2.2.2.2.1 hs] at hx; cases hx
  · refine ⟨⟨v, d', e1, (removeSemantics_rel sem d').2.2.2.1 hx⟩, ?_⟩
    cases hs : sem.hasOnlyIf with
    | false => rfl
    | true => rw [(removeSemantics_rel sem d').2.2.2.2.2 hs] at hx; cases hx

end TotDb

namespace Totalizer
variable {VM : Type} [ManageVars VM]

/-- The value of the root. -/
def rootVal (t : Totalizer) (T : Lit → Bool) : Nat :=
  match t.root with
  | some id => value t.db T id
  | none => 0

/-- The invariant of an encoder. -/
structure Inv (t : Totalizer) (n : Nat) (cls : ClauseSet) (ins : List Lit) (own : List Nat) : Prop where
  core : Core t.db n cls ins own
  real : AllReal t.db
  off : t.offset = 0
  add : t.nAddInput = 0
  root : ∀ id, t.root = some id → id < t.db.nodes.length ∧ (t.db.node id).isGeneral = false
  val : ∀ T, t.rootVal T + cnt T t.litBuffer = cnt T ins
  buf : ∀ l ∈ t.litBuffer, l ∈ ins
  empty : t.root = none → t.db.nodes = []

/-- The upper bound `b` is encoded. -/
def EncUb (t : Totalizer) (b : Nat) : Prop :=
  t.litBuffer = [] ∧ ∃ id l, t.root = some id ∧ HasLit t.db id b .if_ l

/-- The lower bound `b + 1` is encoded. -/
def EncLb (t : Totalizer) (b : Nat) : Prop :=
  t.litBuffer = [] ∧ ∃ id l, t.root = some id ∧ HasLit t.db id b .onlyIf l

/-- The output `b` of the root is marked with "if" semantics. -/
def MarkUb (t : Totalizer) (b : Nat) : Prop :=
  t.litBuffer = [] ∧ ∃ id, t.root = some id ∧ MarkedIf t.db id b

/-- The output `b` of the root is marked with "only if" semantics. -/
def MarkLb (t : Totalizer) (b : Nat) : Prop :=
  t.litBuffer = [] ∧ ∃ id, t.root = some id ∧ MarkedOnly t.db id b

/-- How the marks of outputs change. -/
structure Trans (t t' : Totalizer) (Q : Nat → Prop) (sem : Semantics) : Prop where
  mUb : ∀ b, t'.MarkUb b → t.MarkUb b ∨ (Q b ∧ sem.hasIf = true)
  mLb : ∀ b, t'.MarkLb b → t.MarkLb b ∨ (Q b ∧ sem.hasOnlyIf = true)
  kUb : ∀ b, t.EncUb b → t'.EncUb b
  kLb : ∀ b, t.EncLb b → t'.EncLb b

theorem Trans.refl (t : Totalizer) (Q : Nat → Prop) (sem : Semantics) : Trans t t Q sem :=
  ⟨fun _ h => Or.inl h, fun _ h => Or.inl h, fun _ h => h, fun _ h => h⟩

theorem Trans.trans {a b c : Totalizer} {Q : Nat → Prop} {sem : Semantics} (h1 : Trans a b Q sem) (h2 : Trans b c Q sem) :
    Trans a c Q sem :=
  ⟨fun k hk => (h2.mUb k hk).elim (h1.mUb k) Or.inr, fun k hk => (h2.mLb k hk).elim (h1.mLb k) Or.inr,
    fun k hk => h2.kUb k (h1.kUb k hk), fun k hk => h2.kLb k (h1.kLb k hk)⟩

/-- The database changed by defining outputs of the root. -/
theorem Trans.of_db {t : Totalizer} {db' : Db} {id : Nat} {Q : Nat → Prop} {sem : Semantics} (hr : t.root = some id)
    (h : DbRef t.db db') (ha : Adds t.db db' id Q sem) (k1 k2 : Nat) :
    Trans t { t with db := db', nClauses := k1, nVars := k2 } Q sem := by
  refine ⟨?_, ?_, ?_, ?_⟩
  · rintro b ⟨h1, id', h2, h3⟩
    simp only at h1 h2 h3
    rw [hr] at h2; cases h2
    exact (ha.if_ b h3).imp (fun h => ⟨h1, id, hr, h⟩) fun h => h
  · rintro b ⟨h1, id', h2, h3⟩
    simp only at h1 h2 h3
    rw [hr] at h2; cases h2
    exact (ha.only b h3).imp (fun h => ⟨h1, id, hr, h⟩) fun h => h
  · rintro b ⟨h1, id', l, h2, h3⟩
    exact ⟨h1, id', l, h2, h3.ref h⟩
  · rintro b ⟨h1, id', l, h2, h3⟩
    exact ⟨h1, id', l, h2, h3.ref h⟩

namespace Inv
variable {t : Totalizer} {n : Nat} {cls : ClauseSet} {ins : List Lit} {own : List Nat}

theorem nLits (h : t.Inv n cls ins own) : t.nLits = ins.length := by
  have hv := h.val (fun _ => true)
  rw [cnt_all, cnt_all] at hv
  unfold Totalizer.nLits
  unfold rootVal at hv
  rw [h.add]
  cases hr : t.root with
  | none => rw [hr] at hv; simp only at hv ⊢; omega
  | some id =>
    rw [hr] at hv
    simp only at hv ⊢
    rw [value_all h.core.wf id (h.root id hr).2] at hv
    omega

theorem rootLen (h : t.Inv n cls ins own) (hb : t.litBuffer = []) {id : Nat} (hr : t.root = some id) :
    (t.db.node id).len = ins.length := by
  have := h.nLits
  unfold Totalizer.nLits at this
  rw [h.add, hb, hr] at this
  simpa using this

theorem rootValue (h : t.Inv n cls ins own) (hb : t.litBuffer = []) {id : Nat} (hr : t.root = some id)
    (T : Lit → Bool) : value t.db T id = cnt T ins := by
  have := h.val T
  unfold rootVal at this
  rw [hb, hr] at this
  simpa [cnt] using this

theorem extendTree (h : t.Inv n cls ins own) :
    ∃ t', t.extendTree = some t' ∧ t'.Inv n cls ins own ∧ t'.litBuffer = [] ∧ t'.nVars = t.nVars ∧
      t'.nClauses = t.nClauses ∧ t'.nLits = t.nLits ∧ (ins ≠ [] → ∃ id, t'.root = some id) ∧
      Ext ins t.db t'.db ∧ ∀ Q sem, Trans t t' Q sem := by
  cases hbuf : t.litBuffer with
  | nil =>
    have e : litTree t.db t.litBuffer = (none, t.db) := by rw [hbuf]; rfl
    refine ⟨{ t with litBuffer := [], db := t.db }, by unfold Totalizer.extendTree; rw [e], ?_, rfl, rfl, rfl, ?_, ?_, Ext.refl _ _, fun Q sem => ?_⟩
    · exact ⟨h.core, h.real, h.off, h.add, h.root, fun T => by have := h.val T; rw [hbuf] at this; exact this, by simp, h.empty⟩
    · unfold Totalizer.nLits; simp [hbuf]
    · intro hne
      cases hr : t.root with
      | some id => exact ⟨id, rfl⟩
      | none =>
        have := h.val (fun _ => true)
        unfold rootVal at this
        rw [hr, hbuf, cnt_all, cnt_all] at this
        exact absurd (List.length_eq_zero_iff.1 this.symm) hne
    · exact ⟨fun b hb => Or.inl ⟨hbuf, hb.2⟩, fun b hb => Or.inl ⟨hbuf, hb.2⟩, fun b hb => ⟨rfl, hb.2⟩, fun b hb => ⟨rfl, hb.2⟩⟩
  | cons x xs =>
    have hne : t.litBuffer ≠ [] := by rw [hbuf]; simp
    obtain ⟨id, db1, e1, w1, x1, i1, g1, v1⟩ := litTree_spec h.core.wf hne
    have core1 : Core db1 n cls ins own := h.core.ext x1 w1 h.buf
    have real1 : AllReal db1 := ExtD.allReal x1 h.real
    have htr : ∀ (t' : Totalizer) (id : Nat), t'.root = some id → Ext ins t.db t'.db → t.db.nodes.length ≤ id →
        ∀ Q sem, Trans t t' Q sem := by
      intro t' id' hr' hx hid Q sem
      refine ⟨?_, ?_, fun b hb => absurd hb.1 hne, fun b hb => absurd hb.1 hne⟩
      · rintro b ⟨-, id2, h2, h3⟩
        rw [hr'] at h2; cases h2
        exact absurd h3 (hx.unmarked hid b).1
      · rintro b ⟨-, id2, h2, h3⟩
        rw [hr'] at h2; cases h2
        exact absurd h3 (hx.unmarked hid b).2
    cases hr : t.root with
    | none =>
      have hinv : Inv { t with litBuffer := [], db := db1, root := some id, nAddInput := t.nAddInput + t.offset, offset := 0 }
          n cls ins own := by
        refine ⟨core1, real1, rfl, by simp only; rw [h.add, h.off], fun id' hid => ?_, fun T => ?_, by simp, by intro h; cases h⟩
        · cases hid; exact ⟨i1, g1⟩
        · have := h.val T
          unfold rootVal at this ⊢
          rw [hr] at this
          simp only at this ⊢
          rw [v1]
          simp only [cnt] at this ⊢
          simpa using this
      refine ⟨_, by unfold Totalizer.extendTree; rw [e1, hr], hinv, rfl, rfl, rfl, ?_, fun _ => ⟨id, rfl⟩, x1.mono h.buf,
        htr _ id rfl (x1.mono h.buf) (by rw [h.empty hr]; exact Nat.zero_le _)⟩
      rw [hinv.nLits, h.nLits]
    | some old =>
      obtain ⟨o1, o2⟩ := h.root old hr
      have hlc : UnitCon db1 (NodeCon.offsetWeighted old t.offset 1) := by
        rw [h.off]
        exact full_unit (Nat.lt_of_lt_of_le o1 x1.len) (by rw [x1.node o1]; exact o2)
      obtain ⟨con, db2, m1, m2, m3, m4, m5⟩ := merge_spec mergeable_full w1
        (cons := [NodeCon.offsetWeighted old t.offset 1, NodeCon.full id]) (by simp) (by
          intro c hc
          simp only [List.mem_cons, List.not_mem_nil, or_false] at hc
          rcases hc with rfl | rfl
          · exact ⟨hlc, by rw [h.off]; rfl⟩
          · exact ⟨full_unit i1 g1, rfl⟩)
      have x2 : Ext ins t.db db2 := (x1.mono h.buf).trans (m3.mono (by simp))
      have core2 : Core db2 n cls ins own := h.core.ext x2 m2 fun l hl => hl
      have hinv : Inv { t with litBuffer := [], db := db2, root := some con.id, nAddInput := t.nAddInput + t.offset, offset := 0 }
          n cls ins own := by
        refine ⟨core2, ExtD.allReal x2 h.real, rfl, by simp only; rw [h.add, h.off], fun id' hid => ?_, fun T => ?_, by simp, by intro h; cases h⟩
        · cases hid; exact ⟨m4.1.id, m4.1.notGeneral⟩
        · have := h.val T
          unfold rootVal at this ⊢
          rw [hr] at this
          have hm := m5 T
          rw [m4.2, conVal_full, h.off] at hm
          simp only at this ⊢
          rw [hm]
          simp only [List.map_cons, List.map_nil, List.sum_cons, List.sum_nil]
          rw [conVal_full, v1, show NodeCon.offsetWeighted old 0 1 = NodeCon.full old from rfl, conVal_full,
            x1.value h.core.wf T o1]
          simp only [cnt] at this ⊢
          simpa using this
      refine ⟨_, by unfold Totalizer.extendTree; rw [e1, hr]; simp only [m1], hinv, rfl, rfl, rfl, ?_, fun _ => ⟨_, rfl⟩, x2,
        htr _ con.id rfl x2 ?_⟩
      · rw [hinv.nLits, h.nLits]
      · rw [merge_two] at m1
        have hcid : con.id = db1.nodes.length := by
          have := (Prod.mk.inj m1).1
          rw [← Option.some.inj this, mergeCons_id]
        rw [hcid]
        exact x1.len

theorem replace_db (h : t.Inv n cls ins own) {R : LitData → LitData → Prop} {db' : Db} (hr : DbRel R t.db db') {n' : Nat} {cls' : ClauseSet}
    {own' : List Nat} (hc : Core db' n' cls' ins own') (k1 k2 : Nat) :
    Inv { t with db := db', nClauses := k1, nVars := k2 } n' cls' ins own' := by
  refine ⟨hc, h.real.rel hr, h.off, h.add, fun id hid => ?_, fun T => ?_, h.buf,
    fun hn => List.length_eq_zero_iff.1 (by simp only; rw [hr.len, h.empty hn]; rfl)⟩
  · obtain ⟨h1, h2⟩ := h.root id hid
    exact ⟨by simp only; rw [hr.len]; exact h1, by simp only; rw [(hr.node id).isGeneral]; exact h2⟩
  · have := h.val T
    unfold rootVal at this ⊢
    cases he : t.root with
    | none => rw [he] at this; exact this
    | some id => rw [he] at this; simp only at this ⊢; rw [hr.value h.core.wf]; exact this

theorem reset (h : t.Inv n cls ins own) (sem : Semantics) :
    Inv { t with db := t.db.resetEncoded sem } n cls ins own :=
  h.replace_db (resetEncoded_rel t.db sem) (h.core.reset sem) t.nClauses t.nVars

/-- Defining outputs: no panic, the invariant is preserved, the outputs are encoded. `C` are clauses that suffice
for the outputs that are already encoded. -/
theorem defineOutputs [LawfulVM VM] {vm : VM} (h : t.Inv (ManageVars.nUsed vm) cls ins own) (col : ClauseSet) (sem : Semantics)
    (idxs : List Nat) (hi : ∀ i ∈ idxs, i < t.nLits) :
    ∃ t' vm' new, t.defineOutputs sem idxs vm col = some (t', vm', col ++ new) ∧
      t'.Inv (ManageVars.nUsed vm') (cls ++ new) ins (own ++ CardWorld.handedOut vm vm') ∧
      t'.nVars = t.nVars + (CardWorld.handedOut vm vm').length ∧ t'.nClauses = t.nClauses + new.length ∧
      ManageVars.nUsed vm ≤ ManageVars.nUsed vm' ∧
      (idxs ≠ [] → t'.litBuffer = [] ∧ ∃ id, t'.root = some id ∧ ∀ i ∈ idxs, ∃ l, HasLit t'.db id i sem l) ∧
      (idxs = [] → t' = t) ∧
      (∀ C, SoundIf t.db C → SoundIf t'.db (C ++ new)) ∧ (∀ C, SoundOnlyIf t.db C → SoundOnlyIf t'.db (C ++ new)) ∧
      Trans t t' (· ∈ idxs) sem := by
  unfold Totalizer.defineOutputs
  by_cases he : idxs = []
  · subst he
    refine ⟨t, vm, [], by simp, ?_, ?_, by simp, Nat.le_refl _, fun h => absurd rfl h, fun _ => rfl, by simp, by simp, Trans.refl _ _ _⟩
    · simpa [CardWorld.handedOut] using h
    · simp [CardWorld.handedOut]
  · have hie : idxs.isEmpty = false := by simpa using he
    rw [hie]
    simp only [Bool.false_eq_true, if_false]
    obtain ⟨t1, e1, inv1, b1, k1, k2, k3, k4, x1, tr1⟩ := h.extendTree
    rw [e1]
    simp only
    have hins : ins ≠ [] := by
      intro h0
      obtain ⟨i, hi'⟩ := List.exists_mem_of_ne_nil _ he
      have := hi i hi'
      rw [h.nLits, h0] at this
      exact absurd this (Nat.not_lt_zero _)
    obtain ⟨id, hr⟩ := k4 hins
    obtain ⟨r1, r2⟩ := inv1.root id hr
    obtain ⟨st, e2, s2, l2, a2⟩ := defineAll_spec id sem (idxs.map fun i => i + t1.offset) (⟨t1.db, vm, col⟩ : St VM)
      inv1.core.wf r2 (by
        intro i hi'
        obtain ⟨j, hj, rfl⟩ := List.mem_map.1 hi'
        have := hi j hj
        simp only
        rw [inv1.off, inv1.rootLen b1 hr, ← h.nLits]
        exact this)
    obtain ⟨new, en, s3⟩ := s2.recol cls
    obtain ⟨new', en', c1, c2, c3, c4⟩ := s3.cls
    have : new = new' := List.append_cancel_left en'
    subst this
    simp only at c1 c2
    have hcore := Core.step (st := (⟨t1.db, vm, cls⟩ : St VM)) inv1.core s3
    rw [hr]
    simp only [e2]
    have hfwd : ∀ C, SoundIf t.db C → SoundIf t1.db C := fun C hC => by
      intro i k v l s hs hif b hb T hT hv
      have ho := x1.outAt.1 ⟨s, hs⟩
      have hlt := outAt_lt ho
      rw [x1.value h.core.wf T hlt, x1.node hlt, x1.att h.core.wf inv1.core.wf hlt] at hv
      rw [x1.node hlt] at hs
      exact hC i k v l s hs hif b hb T hT hv
    have hfwdO : ∀ C, SoundOnlyIf t.db C → SoundOnlyIf t1.db C := fun C hC => by
      intro i k v l s hs hif b hb hl
      have ho := x1.outAt.1 ⟨s, hs⟩
      have hlt := outAt_lt ho
      rw [x1.value h.core.wf _ hlt]
      rw [x1.node hlt] at hs
      exact hC i k v l s hs hif b hb hl
    refine ⟨{ t1 with db := st.db, nClauses := t1.nClauses + (st.cls.length - col.length), nVars := t1.nVars + (ManageVars.nUsed st.vm - ManageVars.nUsed vm) },
      st.vm, new, by simp only [en, hr], ?_, ?_, ?_, s2.used, fun _ => ⟨b1, id, hr, fun i hi' => ?_⟩, fun h0 => absurd h0 he,
      fun C hC => c1 C (hfwd C hC), fun C hC => c2 (inv1.real.noDummy inv1.core.wf) C (hfwdO C hC),
      (tr1 _ _).trans (Trans.of_db hr s2.ref (a2.mono fun k hk => ?_) _ _)⟩
    · exact inv1.replace_db s2.ref hcore _ _
    · simp only [k1, CardWorld.handedOut, List.length_range']
    · simp only [k2, en, List.length_append]; omega
    · have := l2 (i + t1.offset) (List.mem_map.2 ⟨i, hi', rfl⟩)
      rw [inv1.off, Nat.add_zero] at this
      exact this
    · obtain ⟨j, hj, rfl⟩ := List.mem_map.1 hk
      rw [inv1.off]
      exact hj

end Inv
end Totalizer
end RustSat
