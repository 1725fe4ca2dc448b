import Verif.Lemmas.NoUnit
import Mathlib.Data.List.Nodup
/-
Generalized totalizers for inputs with different weights.
-/
namespace RustSat
open TotDb
namespace Gte
variable {VM : Type} [ManageVars VM] {t t' : Gte} {n : Nat} {cls : ClauseSet} {ins : List (Lit × Nat)} {own : List Nat}

/-- The invariant of an encoder whose inputs all have different weights. -/
structure Distinct (t : Gte) (ins : List (Lit × Nat)) : Prop where
  noUnit : NoUnit t.db
  buf : (t.litBuffer.map (·.2)).Nodup
  sub : ∀ x ∈ t.litBuffer, x ∈ ins
  root : ∀ con, t.root = some con → (t.db.node con.id).isGeneral = true ∨
    (con.multiplier ∈ ins.map (·.2) ∧ con.multiplier ∉ t.litBuffer.map (·.2))

theorem Distinct.rel {R : LitData → LitData → Prop} {db' : Db} (h : Distinct t ins) (hr : DbRel R t.db db') (k1 k2 : Nat) :
    Distinct { t with db := db', nClauses := k1, nVars := k2 } ins :=
  ⟨h.noUnit.rel hr, h.buf, h.sub, fun con hcon => by
    rcases h.root con hcon with h | h
    · exact Or.inl (by rw [(hr.node con.id).isGeneral]; exact h)
    · exact Or.inr h⟩

theorem Distinct.extendTree (h : t.Inv n cls ins own) (d : Distinct t ins) (mw : Option Nat)
    (e : t.extendTree mw = some t') : Distinct t' ins := by
  unfold Gte.extendTree at e
  simp only at e
  by_cases he : (t.litBuffer.filter (fits mw)).isEmpty = true
  · rw [if_pos he] at e; cases e; exact d
  · rw [if_neg he] at e
    have hp := sortBy_perm (·.2) (t.litBuffer.filter (fits mw))
    have hnd : ((t.litBuffer.filter (fits mw)).map (·.2)).Nodup := d.buf.sublist (List.filter_sublist.map _)
    have hnd2 : ((sortBy (·.2) (t.litBuffer.filter (fits mw))).map (·.2)).Nodup := (hp.map _).nodup_iff.2 hnd
    rw [segments_distinct _ _ hnd2] at e
    obtain ⟨cons, db1, e1, w1, n1, k1, i1, m1⟩ := segTrees_distinct (sortBy (·.2) (t.litBuffer.filter (fits mw))) t.db
      h.core.wf d.noUnit fun x hx => (h.buf x (List.mem_of_mem_filter (hp.mem_iff.1 hx))).1
    rw [e1] at e
    simp only at e
    have hcm : ∀ c ∈ cons, ∃ x ∈ t.litBuffer, fits mw x = true ∧ c.multiplier = x.2 := fun c hc => by
      have : c.multiplier ∈ cons.map (·.multiplier) := List.mem_map.2 ⟨c, hc, rfl⟩
      rw [m1] at this
      obtain ⟨x, hx, e⟩ := List.mem_map.1 this
      have := hp.mem_iff.1 hx
      rw [List.mem_filter] at this
      exact ⟨x, this.1, this.2, e.symm⟩
    have hcne : cons ≠ [] := by
      intro hc
      have := congrArg List.length m1
      rw [hc] at this
      simp only [List.map_nil, List.length_nil, List.length_map, hp.length_eq] at this
      have h0 := List.eq_nil_of_length_eq_zero this.symm
      rw [h0] at he
      exact he rfl
    have hrid : ∀ con, t.root = some con → con.id < t.db.nodes.length := fun con hcon => (h.root con hcon).1.id
    have hall : ∀ c ∈ cons ++ t.root.toList, c.id < db1.nodes.length := fun c hc => by
      rcases List.mem_append.1 hc with hc | hc
      · exact i1 c hc
      · exact Nat.lt_of_lt_of_le (hrid c (by simpa using hc)) k1.1
    have hpw : (cons ++ t.root.toList).Pairwise (Apart db1) := by
      rw [List.pairwise_append]
      refine ⟨?_, ?_, fun c hc con hcon => ?_⟩
      · have : (cons.map (·.multiplier)).Nodup := by rw [m1]; exact hnd2
        rw [List.Nodup, List.pairwise_map] at this
        exact this.imp fun h => Or.inr (Or.inr h)
      · cases t.root with
        | none => exact List.Pairwise.nil
        | some c => exact List.pairwise_singleton _ _
      · have hcon : t.root = some con := by simpa using hcon
        rcases d.root con hcon with hg | ⟨-, hg⟩
        · exact Or.inr (Or.inl (by rw [k1.2 _ (hrid con hcon)]; exact hg))
        · refine Or.inr (Or.inr fun heq => ?_)
          obtain ⟨x, hx, -, hm⟩ := hcm c hc
          exact hg (List.mem_map.2 ⟨x, hx, by rw [← hm, heq]⟩)
    have hne : cons ++ t.root.toList ≠ [] := by simp [hcne]
    unfold mergeBalanced at e
    rw [if_neg (by simpa using fun h => absurd h hcne)] at e
    have hm := mergeBalancedRec_noUnit _ db1 (cons ++ t.root.toList) (cumWeight db1 0 (cons ++ t.root.toList)) 0 n1 hne
      (Nat.le_refl _) (cumWeight_length db1 _ 0) (cumWeight_sorted db1 _ 0) (by simp) hall hpw
    simp only at hm e
    generalize mergeBalancedRec (cons ++ t.root.toList).length db1 (cons ++ t.root.toList)
      (cumWeight db1 0 (cons ++ t.root.toList)) 0 = res at hm e
    obtain ⟨con, db2⟩ := res
    simp only [Option.some.injEq] at hm e
    subst e
    obtain ⟨-, q2, -, q4⟩ := hm
    refine ⟨q2, d.buf.sublist (List.filter_sublist.map _), fun x hx => d.sub x (List.mem_of_mem_filter hx), fun con' hc => ?_⟩
    simp only [Option.some.injEq] at hc
    subst hc
    rcases q4 with q4 | q4
    · exact Or.inl q4
    · right
      have hcc : con ∈ cons := by
        cases cons with
        | nil => exact absurd rfl hcne
        | cons c cs =>
          simp only [List.cons_append, List.cons.injEq] at q4
          rw [← q4.1]; simp
      obtain ⟨x, hx, hf, hm⟩ := hcm con hcc
      refine ⟨List.mem_map.2 ⟨x, d.sub x hx, hm.symm⟩, fun hmem => ?_⟩
      obtain ⟨y, hy, hyw⟩ := List.mem_map.1 hmem
      simp only [List.mem_filter, Bool.not_eq_true'] at hy
      have : x = y := List.inj_on_of_nodup_map d.buf hx hy.1 (by rw [hyw, hm])
      rw [this, hy.2] at hf
      cases hf

theorem Distinct.encodeUbChange [LawfulVM VM] {vm vm' : VM} {cls' : ClauseSet}
    (h : t.Inv (ManageVars.nUsed vm) cls ins own) (d : Distinct t ins) (r : URange)
    (e : t.encodeUbChange r vm cls = some (t', vm', cls')) : Distinct t' ins := by
  unfold Gte.encodeUbChange at e
  simp only at e
  generalize Pb.prepareUbRange t.weightSum r = range at e
  obtain ⟨lo, hi⟩ := range
  simp only at e
  by_cases he : hi ≤ lo
  · rw [if_pos he] at e; cases e; exact d
  · rw [if_neg he] at e
    obtain ⟨t1, e1, inv1, -⟩ := h.extendTree (some (hi - 1))
    rw [e1] at e
    simp only at e
    have d1 := d.extendTree h _ e1
    cases hr : t1.root with
    | none => rw [hr] at e; cases e; exact d1
    | some con =>
      rw [hr] at e
      simp only at e
      obtain ⟨hpc, -⟩ := inv1.root con hr
      obtain ⟨st, e2, s2, -⟩ := defineVals_spec con.id _ (⟨t1.db, vm, cls⟩ : St VM) inv1.core.wf
        fun v hv => ((mem_rootVals hpc (lo := lo) (hi := hi + t1.maxLeafWeight) (v := v)).1 hv).1
      rw [e2] at e
      simp only [Option.some.injEq, Prod.mk.injEq] at e
      obtain ⟨rfl, -, -⟩ := e
      have := d1.rel s2.ref (t1.nClauses + (st.cls.length - cls.length))
        (t1.nVars + (ManageVars.nUsed st.vm - ManageVars.nUsed vm))
      rw [hr] at this
      exact this

theorem Distinct.memEncodeUbChange [LawfulVM VM] {vm vm' : VM} {cls' : ClauseSet} {mem : List (Option Nat)} {lost : Bool}
    (h : t.Inv (ManageVars.nUsed vm) cls ins own) (d : Distinct t ins) (r : URange)
    (e : t.memEncodeUbChange r vm cls mem = .oom lost t' vm' cls') : lost = false ∧ Distinct t' ins := by
  unfold Gte.memEncodeUbChange at e
  simp only at e
  generalize Pb.prepareUbRange t.weightSum r = range at e
  obtain ⟨lo, hi⟩ := range
  simp only at e
  by_cases he : hi ≤ lo
  · rw [if_pos he] at e; cases e
  · rw [if_neg he] at e
    obtain ⟨t1, e1, inv1, -⟩ := h.extendTree (some (hi - 1))
    rw [e1] at e
    simp only at e
    have d1 := d.extendTree h _ e1
    cases hr : t1.root with
    | none => rw [hr] at e; cases e
    | some con =>
      rw [hr] at e
      simp only at e
      obtain ⟨hpc, -⟩ := inv1.root con hr
      have hv : ∀ v ∈ (t1.db.node con.id).valsRange (con.revMapRoundUp (lo + 1)) (con.revMap (hi + t1.maxLeafWeight) + 1),
          v ∈ (t1.db.node con.id).valsFrom 1 :=
        fun v hv => ((mem_rootVals hpc (lo := lo) (hi := hi + t1.maxLeafWeight) (v := v)).1 hv).1
      have g := memDefineVals_good con.id _ (⟨⟨t1.db, vm, cls⟩, mem⟩ : MemSt VM) inv1.core.wf hv
      have gn := memDefineVals_notLost con.id _ (⟨⟨t1.db, vm, cls⟩, mem⟩ : MemSt VM) inv1.core.wf d1.noUnit hv
      generalize memDefineVals (⟨⟨t1.db, vm, cls⟩, mem⟩ : MemSt VM) con.id _ = res at g gn e
      cases res with
      | panic => cases e
      | ok _ s => cases e
      | oom lost' s =>
        simp only [EncodeEnd.oom.injEq] at e
        obtain ⟨rfl, rfl, -, -⟩ := e
        have hl : lost' = false := by
          cases lost' with
          | false => rfl
          | true => exact absurd rfl (gn s)
        refine ⟨hl, ?_⟩
        have := d1.rel (Partly.toStep g hl).ref t1.nClauses t1.nVars
        rw [hr] at this
        exact this

theorem Distinct.reserve [LawfulVM VM] {vm vm' : VM} (h : t.Inv (ManageVars.nUsed vm) cls ins own) (d : Distinct t ins)
    (e : t.reserve vm = some (t', vm')) : Distinct t' ins := by
  unfold Gte.reserve at e
  obtain ⟨t1, e1, inv1, -⟩ := h.extendTree none
  rw [e1] at e
  simp only at e
  have d1 := d.extendTree h _ e1
  cases hr : t1.root with
  | none => rw [hr] at e; cases e; exact d1
  | some con =>
    rw [hr] at e
    simp only at e
    obtain ⟨hpc, -⟩ := inv1.root con hr
    obtain ⟨st, e2, s2, -⟩ := reserveVars_spec (con.id + 1) (⟨t1.db, vm, []⟩ : St VM) con inv1.core.wf
      (Nat.lt_succ_self _) (Or.inr (by rw [hpc.offset]; exact Nat.zero_le _))
    rw [e2] at e
    simp only [Option.some.injEq, Prod.mk.injEq] at e
    obtain ⟨rfl, -⟩ := e
    have := d1.rel s2.ref t1.nClauses t1.nVars
    rw [hr] at this
    exact this

theorem Distinct.reset (d : Distinct t ins) (sem : Semantics) : Distinct { t with db := t.db.resetEncoded sem } ins :=
  d.rel (resetEncoded_rel t.db sem) t.nClauses t.nVars

end Gte

theorem LitMap.addLits_nodup : ∀ (lits : List (Lit × Nat)) (m : LitMap), ((m ++ lits).map (·.1)).Nodup →
    lits.foldl LitMap.addLit m = m ++ lits := by
  intro lits
  induction lits with
  | nil => intro m _; simp
  | cons x xs ih =>
    intro m hm
    have hx : x.1 ∉ m.map (·.1) := by
      intro hx
      rw [List.map_append, List.nodup_append] at hm
      exact hm.2.2 x.1 hx x.1 (by simp) rfl
    have hg : LitMap.get m x.1 = none := by
      cases hg : LitMap.get m x.1 with
      | none => rfl
      | some w => 
        unfold LitMap.get at hg
        rw [Option.map_eq_some_iff] at hg
        obtain ⟨y, hy, -⟩ := hg
        have := List.find?_some hy
        exact absurd (List.mem_map.2 ⟨y, List.mem_of_find?_eq_some hy, by simpa using this⟩) hx
    rw [List.foldl_cons]
    have : LitMap.addLit m x = m ++ [x] := by
      unfold LitMap.addLit
      rw [hg]
      exact LitMap.insert_notMem _ _ _ hx
    rw [this, ih]
    · simp
    · simpa using hm

namespace GteWorld
variable {VM : Type} [ManageVars VM]

theorem MemReach.distinct [LawfulVM VM] {w : GteWorld VM} (h : MemReach w) :
    (w.ins.map (·.1)).Nodup → (w.ins.map (·.2)).Nodup → w.gte.Distinct w.ins := by
  induction h with
  | start lits vm hn h =>
    intro h1 h2
    have hb : (GteWorld.start lits vm).gte.litBuffer = lits := LitMap.ofList_nodup lits hn
    refine ⟨fun i => rfl, by rw [hb]; exact h2, fun x hx => by rw [hb] at hx; exact hx, fun con hcon => by cases hcon⟩
  | step w w' op a hw ha hs hl ih =>
    intro h1 h2
    have inv := hw.inv
    have plain : ∀ op, w.allowed op → w.step op = some w' → w'.gte.Distinct w'.ins := by
      intro op ha hs
      cases op with
      | add lits =>
        simp only [GteWorld.step, Option.some.injEq] at hs
        subst hs
        simp only [List.map_append] at h1 h2
        have d := ih (List.nodup_append.1 h1).1 (List.nodup_append.1 h2).1
        have hb : (w.gte.extend lits).litBuffer = w.gte.litBuffer ++ lits := by
          refine LitMap.addLits_nodup lits w.gte.litBuffer ?_
          rw [List.map_append, List.nodup_append]
          refine ⟨(d.buf.of_map _).map_on fun x hx y hy e =>
            List.inj_on_of_nodup_map (List.nodup_append.1 h1).1 (d.sub x hx) (d.sub y hy) e, (List.nodup_append.1 h1).2.1, ?_⟩
          intro a ha b hb
          obtain ⟨x, hx, rfl⟩ := List.mem_map.1 ha
          exact (List.nodup_append.1 h1).2.2 _ (List.mem_map.2 ⟨x, d.sub x hx, rfl⟩) b hb
        refine ⟨d.noUnit, ?_, fun x hx => ?_, fun con hcon => ?_⟩
        · simp only
          rw [hb, List.map_append, List.nodup_append]
          refine ⟨d.buf, (List.nodup_append.1 h2).2.1, fun a ha b hb => ?_⟩
          obtain ⟨x, hx, rfl⟩ := List.mem_map.1 ha
          exact (List.nodup_append.1 h2).2.2 _ (List.mem_map.2 ⟨x, d.sub x hx, rfl⟩) b hb
        · simp only at hx ⊢
          rw [hb] at hx
          rcases List.mem_append.1 hx with hx | hx
          · exact List.mem_append_left _ (d.sub x hx)
          · exact List.mem_append_right _ hx
        · rcases d.root con hcon with hg | ⟨g1, g2⟩
          · exact Or.inl hg
          · right
            simp only
            rw [hb, List.map_append, List.map_append, List.mem_append, List.mem_append]
            refine ⟨Or.inl g1, fun hor => hor.elim g2 fun hm => ?_⟩
            exact (List.nodup_append.1 h2).2.2 _ g1 _ hm rfl
      | encodeUb r =>
        simp only [GteWorld.step, encoded, Option.map_eq_some_iff] at hs
        obtain ⟨⟨t', vm', cls'⟩, e, rfl⟩ := hs
        exact ((ih h1 h2).reset .if_).encodeUbChange (inv.gte.reset .if_) r e
      | encodeUbChange r =>
        simp only [GteWorld.step, encoded, Option.map_eq_some_iff] at hs
        obtain ⟨⟨t', vm', cls'⟩, e, rfl⟩ := hs
        exact (ih h1 h2).encodeUbChange inv.gte r e
      | reserve =>
        simp only [GteWorld.step, encoded, Option.map_eq_some_iff] at hs
        obtain ⟨⟨t', vm', cls'⟩, ⟨⟨t2, vm2⟩, e, e2⟩, rfl⟩ := hs
        cases e2
        exact (ih h1 h2).reserve inv.gte e
      | rehash buffer =>
        simp only [GteWorld.step, Option.some.injEq] at hs
        subst hs
        have d := ih h1 h2
        refine ⟨d.noUnit, (ha.map _).nodup_iff.2 d.buf, fun x hx => d.sub x (ha.mem_iff.1 hx), fun con hcon => ?_⟩
        rcases d.root con hcon with hg | ⟨g1, g2⟩
        · exact Or.inl hg
        · exact Or.inr ⟨g1, fun hm => g2 ((ha.map _).mem_iff.1 hm)⟩
      | useVars vm =>
        simp only [GteWorld.step, Option.some.injEq] at hs
        subst hs
        exact ih h1 h2
    obtain ⟨a2, w2, e2, -, q2, -⟩ := memStep_spec w inv op ha
    rw [hs] at e2
    simp only [Option.some.injEq, Prod.mk.injEq] at e2
    obtain ⟨rfl, rfl⟩ := e2
    cases op with
    | plain op =>
      simp only [memStep, Option.map_eq_some_iff, Prod.mk.injEq] at hs
      obtain ⟨w3, e, -, rfl⟩ := hs
      exact plain op ha e
    | encodeUb r mem =>
      cases a with
      | ok => exact plain (.encodeUb r) trivial ((q2 rfl r mem).1 rfl)
      | outOfMemory lost =>
        simp only [memStep, memEncoded] at hs
        cases hx : w.gte.memEncodeUb r w.vm w.cls mem with
        | panic => rw [hx] at hs; cases hs
        | ok => rw [hx] at hs; cases hs
        | oom lost t' vm' cls' =>
          rw [hx] at hs
          simp only [Option.some.injEq, Prod.mk.injEq] at hs
          obtain ⟨-, rfl⟩ := hs
          exact (((ih h1 h2).reset .if_).memEncodeUbChange (inv.gte.reset .if_) r hx).2
    | encodeUbChange r mem =>
      cases a with
      | ok => exact plain (.encodeUbChange r) trivial ((q2 rfl r mem).2 rfl)
      | outOfMemory lost =>
        simp only [memStep, memEncoded] at hs
        cases hx : w.gte.memEncodeUbChange r w.vm w.cls mem with
        | panic => rw [hx] at hs; cases hs
        | ok => rw [hx] at hs; cases hs
        | oom lost t' vm' cls' =>
          rw [hx] at hs
          simp only [Option.some.injEq, Prod.mk.injEq] at hs
          obtain ⟨-, rfl⟩ := hs
          exact ((ih h1 h2).memEncodeUbChange inv.gte r hx).2

/-- With different weights no call fails at a bad moment. -/
theorem MemReach.notLost [LawfulVM VM] {w w' : GteWorld VM} (h : MemReach w) (h1 : (w.ins.map (·.1)).Nodup)
    (h2 : (w.ins.map (·.2)).Nodup) (op : MemGteOp VM) (a : MemAnswer) (hs : w.memStep op = some (a, w')) :
    a ≠ .outOfMemory true := by
  rintro rfl
  have d := h.distinct h1 h2
  have inv := h.inv
  cases op with
  | plain op =>
    simp only [memStep, Option.map_eq_some_iff, Prod.mk.injEq] at hs
    obtain ⟨_, _, h, _⟩ := hs
    cases h
  | encodeUb r mem =>
    simp only [memStep, memEncoded] at hs
    cases hx : w.gte.memEncodeUb r w.vm w.cls mem with
    | panic => rw [hx] at hs; cases hs
    | ok => rw [hx] at hs; cases hs
    | oom lost t' vm' cls' =>
      rw [hx] at hs
      simp only [Option.some.injEq, Prod.mk.injEq, MemAnswer.outOfMemory.injEq] at hs
      have := ((d.reset .if_).memEncodeUbChange (inv.gte.reset .if_) r hx).1
      rw [this] at hs
      cases hs.1
  | encodeUbChange r mem =>
    simp only [memStep, memEncoded] at hs
    cases hx : w.gte.memEncodeUbChange r w.vm w.cls mem with
    | panic => rw [hx] at hs; cases hs
    | ok => rw [hx] at hs; cases hs
    | oom lost t' vm' cls' =>
      rw [hx] at hs
      simp only [Option.some.injEq, Prod.mk.injEq, MemAnswer.outOfMemory.injEq] at hs
      have := (d.memEncodeUbChange inv.gte r hx).1
      rw [this] at hs
      cases hs.1

end GteWorld
end RustSat
