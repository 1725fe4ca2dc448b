import Verif.Lemmas.OutOfMem
import Verif.Spec.OutOfMem
/-
The generalized totalizer with encoding calls that run out of memory.
-/
namespace RustSat
open TotDb
namespace Gte
variable {VM : Type} [ManageVars VM] {t : Gte} {cls : ClauseSet} {ins : List (Lit × Nat)} {own : List Nat}

/-- What is left behind by an encoding call that ran out of memory. -/
structure FailCall (t : Gte) (vm : VM) (cls : ClauseSet) (ins : List (Lit × Nat)) (own : List Nat) (t' : Gte) (vm' : VM)
    (cls' : ClauseSet) : Prop where
  inv : t'.Inv (ManageVars.nUsed vm') cls' ins (own ++ CardWorld.handedOut vm vm')
  grows : ∃ new, cls' = cls ++ new
  nVars : t'.nVars = t.nVars
  nClauses : t'.nClauses = t.nClauses
  used : ManageVars.nUsed vm ≤ ManageVars.nUsed vm'

theorem Inv.memEncodeUbChange [LawfulVM VM] {vm : VM} (h : t.Inv (ManageVars.nUsed vm) cls ins own) (r : URange)
    (mem : List (Option Nat)) :
    (∃ t' vm' cls', t.encodeUbChange r vm cls = some (t', vm', cls') ∧ t.memEncodeUbChange r vm cls mem = .ok t' vm' cls') ∨
    (∃ lost t' vm' cls', t.memEncodeUbChange r vm cls mem = .oom lost t' vm' cls' ∧
      (lost = false → FailCall t vm cls ins own t' vm' cls' ∧
        ((∀ x ∈ t.litBuffer, ∀ b, r.contains b → b < x.2) → ∀ b, t.EncUb b → t'.EncUb b))) := by
  unfold Gte.encodeUbChange Gte.memEncodeUbChange
  simp only
  rw [h.weightSum]
  have hmem := fun b => prepareUb_iff (ws := wsumT (fun _ => true) ins) (r := r) (b := b)
  generalize Pb.prepareUbRange (wsumT (fun _ => true) ins) r = range at hmem ⊢
  obtain ⟨lo, hi⟩ := range
  simp only at hmem ⊢
  by_cases he : hi ≤ lo
  · rw [if_pos he, if_pos he]
    exact Or.inl ⟨t, vm, cls, rfl, rfl⟩
  · rw [if_neg he, if_neg he]
    obtain ⟨t1, e1, inv1, b1, k1, k2, x1, s1⟩ := h.extendTree (some (hi - 1))
    rw [e1]
    simp only
    have hsame : (∀ x ∈ t.litBuffer, ∀ b, r.contains b → b < x.2) → t1 = t := fun hx => s1 (by
      rw [List.filter_eq_nil_iff]
      intro x hm
      have := hx x hm (hi - 1) ((hmem (hi - 1)).1 (by omega)).1
      simp only [fits, decide_eq_true_eq]
      omega)
    cases hr : t1.root with
    | none => exact Or.inl ⟨t1, vm, cls, rfl, rfl⟩
    | some con =>
      simp only
      obtain ⟨hpc, hgap⟩ := inv1.root con hr
      have hvals := fun v => mem_rootVals hpc (lo := lo) (hi := hi + t1.maxLeafWeight) (v := v)
      generalize (t1.db.node con.id).valsRange (con.revMapRoundUp (lo + 1)) (con.revMap (hi + t1.maxLeafWeight) + 1) = vals
        at hvals ⊢
      have hv : ∀ v ∈ vals, v ∈ (t1.db.node con.id).valsFrom 1 := fun v hv => ((hvals v).1 hv).1
      have g := memDefineVals_good con.id vals (⟨⟨t1.db, vm, cls⟩, mem⟩ : MemSt VM) inv1.core.wf hv
      simp only at g
      obtain ⟨st, e2, -⟩ := defineVals_spec con.id vals (⟨t1.db, vm, cls⟩ : St VM) inv1.core.wf hv
      rw [e2] at g ⊢
      cases hx : memDefineVals (⟨⟨t1.db, vm, cls⟩, mem⟩ : MemSt VM) con.id vals with
      | panic => rw [hx] at g; cases g
      | ok _ s =>
        rw [hx] at g
        simp only [MemGoodU, Option.some.injEq] at g
        subst g
        exact Or.inl ⟨_, _, _, rfl, rfl⟩
      | oom lost s =>
        rw [hx] at g
        refine Or.inr ⟨lost, _, _, _, rfl, fun hl => ?_⟩
        have s2 : Step (⟨t1.db, vm, cls⟩ : St VM) s.st := Partly.toStep g hl
        have hcore := Core.step (st := (⟨t1.db, vm, cls⟩ : St VM)) inv1.core s2
        refine ⟨⟨?_, ?_, k1, k2, s2.used⟩, fun hx b hb => ?_⟩
        · have := inv1.replace_db s2.ref hcore t1.nClauses t1.nVars
          rw [hr] at this
          exact this
        · obtain ⟨new, en, -⟩ := s2.cls
          exact ⟨new, en⟩
        · have ht := hsame hx
          obtain ⟨q1, q2⟩ := hb
          refine ⟨fun x hx' => q1 x (by simp only at hx'; rw [← ht]; exact hx'), fun con' hcon v hv h1 h2 => ?_⟩
          simp only at hcon h2 hv
          rw [(s2.ref.node con'.id).valsFrom] at hv
          simp only at hv
          rw [ht] at hv h2
          rw [ht] at hr
          obtain ⟨l, hl⟩ := q2 con' (by rw [hr]; exact hcon) v hv h1 h2
          exact ⟨l, (by rw [ht]; exact hl : HasVal t1.db con'.id v l).ref s2.ref⟩

theorem Inv.memEncodeUb [LawfulVM VM] {vm : VM} (h : t.Inv (ManageVars.nUsed vm) cls ins own) (r : URange)
    (mem : List (Option Nat)) :
    (∃ t' vm' cls', t.encodeUb r vm cls = some (t', vm', cls') ∧ t.memEncodeUb r vm cls mem = .ok t' vm' cls') ∨
    (∃ lost t' vm' cls', t.memEncodeUb r vm cls mem = .oom lost t' vm' cls' ∧
      (lost = false → FailCall t vm cls ins own t' vm' cls')) := by
  rcases (h.reset .if_).memEncodeUbChange r mem with h1 | ⟨lost, t', vm', cls', e, h1⟩
  · exact Or.inl h1
  · exact Or.inr ⟨lost, t', vm', cls', e, fun hl => ⟨(h1 hl).1.inv, (h1 hl).1.grows, (h1 hl).1.nVars, (h1 hl).1.nClauses, (h1 hl).1.used⟩⟩

end Gte

namespace GteWorld
variable {VM : Type} [ManageVars VM]

/-- The invariant of all states reachable with failing calls. -/
structure MemInv (w : GteWorld VM) : Prop where
  gte : w.gte.Inv (ManageVars.nUsed w.vm) w.cls w.ins w.own
  nClauses : w.gte.nClauses ≤ w.cls.length
  ubEnc : ∀ b, b < wsumT (fun _ => true) w.ins → w.ub b → w.gte.EncUb b

theorem start_memInv (lits : List (Lit × Nat)) (vm : VM) (hn : (lits.map (·.1)).Nodup)
    (h : ∀ x ∈ lits, 0 < x.2 ∧ x.1.var < ManageVars.nUsed vm) : (start lits vm).MemInv :=
  have h := start_inv lits vm hn h
  ⟨h.gte, Nat.le_of_eq h.nClauses, h.ubEnc⟩

theorem plain_spec [LawfulVM VM] (w : GteWorld VM) (hw : w.MemInv) (op : GteOp VM) (ha : w.allowed op) :
    ∃ w', w.step op = some w' ∧ w'.MemInv := by
  obtain ⟨ht, hc, hu⟩ := hw
  have enc : ∀ {r : Option (Gte × VM × ClauseSet)} {t' : Gte} {vm' : VM} {new : ClauseSet} (ub : Nat → Prop),
      r = some (t', vm', w.cls ++ new) → Gte.EncCall w.gte w.vm w.cls w.ins w.own t' vm' new →
      (∀ b, b < wsumT (fun _ => true) w.ins → ub b → t'.EncUb b) →
      ∃ w', w.encoded r ub = some w' ∧ w'.MemInv := by
    intro r t' vm' new ub e h a1
    subst e
    refine ⟨_, rfl, h.inv, ?_, a1⟩
    simp only [h.nClauses, List.length_append]
    omega
  cases op with
  | add lits =>
    refine ⟨_, rfl, ⟨?_, ht.root, fun T => ?_, fun x hx => ?_⟩, hc, ?_⟩
    · have := ht.core.add (lits.map (·.1)) fun l hl => by
        obtain ⟨x, hx, rfl⟩ := List.mem_map.1 hl
        exact (ha x hx).2
      rw [← List.map_append] at this
      exact this
    · have := ht.val T
      show w.gte.rootVal T + wsumT T (lits.foldl LitMap.addLit w.gte.litBuffer) = _
      rw [LitMap.addLits_sum, wsumT_append]
      omega
    · rcases LitMap.addLits_mem _ _ x hx with h | ⟨y, hy, h1, h2⟩
      · obtain ⟨h1, h2⟩ := ht.buf x h
        exact ⟨h1, by simp only [List.map_append, List.mem_append]; exact Or.inl h2⟩
      · have := (ha y hy).1
        refine ⟨by omega, ?_⟩
        simp only [List.map_append, List.mem_append]
        exact Or.inr (List.mem_map.2 ⟨y, hy, h1.symm⟩)
    · rintro b hb ⟨h, rfl⟩
      exact hu b (by simpa using hb) h
  | encodeUb r =>
    obtain ⟨t', vm', new, e, h, k1, -⟩ := ht.encodeUb w.cls r
    exact enc _ e h fun b hb hr => k1 b hr hb
  | encodeUbChange r =>
    obtain ⟨t', vm', new, e, h, k1, k2, -⟩ := ht.encodeUbChange w.cls r
    exact enc _ e h fun b hb hr => hr.elim (fun hr => k1 b hr hb) fun hr => k2 hr.2 b (hu b hb hr.1)
  | reserve =>
    obtain ⟨t', vm', e, h1, h2, h3, -, h4⟩ := ht.reserve
    refine ⟨⟨t', vm', w.cls, w.ins, w.own ++ CardWorld.handedOut w.vm vm', fun b => w.ub b ∧ w.gte.litBuffer = []⟩, ?_,
      ⟨h1, by simp only [h2, hc], fun b hb hr => h4 hr.2 b (hu b hb hr.1)⟩⟩
    simp only [GteWorld.step, e, Option.map_some, encoded]
  | rehash buffer =>
    refine ⟨_, rfl, ⟨ht.core, ht.root, fun T => ?_, fun x hx => ht.buf x (ha.mem_iff.1 hx)⟩, hc, fun b hb hr => ?_⟩
    · show w.gte.rootVal T + wsumT T buffer = _
      rw [wsumT_perm T ha]
      exact ht.val T
    · obtain ⟨q1, q2⟩ := hu b hb hr
      exact ⟨fun x hx => q1 x (ha.mem_iff.1 hx), q2⟩
  | useVars vm =>
    exact ⟨_, rfl, { ht with core := ht.core.more ha }, hc, hu⟩

/-- An encoding call either has enough memory, and is then the plain operation, or it runs out of memory. -/
theorem memStep_spec [LawfulVM VM] (w : GteWorld VM) (hw : w.MemInv) (op : MemGteOp VM) (ha : w.memAllowed op) :
    ∃ a w', w.memStep op = some (a, w') ∧ (a ≠ .outOfMemory true → w'.MemInv) ∧
      (a = .ok → ∀ r mem, (op = .encodeUb r mem → w.step (.encodeUb r) = some w') ∧
        (op = .encodeUbChange r mem → w.step (.encodeUbChange r) = some w')) ∧
      (a = .outOfMemory false → ∃ new, w'.cls = w.cls ++ new) := by
  cases op with
  | plain op =>
    obtain ⟨w', e, h⟩ := plain_spec w hw op ha
    exact ⟨.ok, w', by simp only [memStep, e, Option.map_some], fun _ => h,
      fun _ r mem => ⟨fun h => (by cases h), fun h => (by cases h)⟩, fun h => (by cases h)⟩
  | encodeUb r mem =>
    rcases hw.gte.memEncodeUb r mem with ⟨t', vm', cls', e1, e2⟩ | ⟨lost, t', vm', cls', e, h⟩
    · obtain ⟨w', e, h⟩ := plain_spec w hw (.encodeUb r) trivial
      have e' : w' = ⟨t', vm', cls', w.ins, w.own ++ CardWorld.handedOut w.vm vm', r.contains⟩ := by
        simp only [GteWorld.step, e1, encoded, Option.map_some, Option.some.injEq] at e
        exact e.symm
      refine ⟨.ok, w', ?_, fun _ => h, fun _ r' mem' => ⟨fun h => ?_, fun h => (by cases h)⟩, fun h => (by cases h)⟩
      · simp only [memStep, memEncoded, e2, e']
      · cases h; exact e
    · refine ⟨_, _, by simp only [memStep, memEncoded, e]; rfl, fun hl => ?_, fun h => (by cases h), fun hl => ?_⟩
      · have hl : lost = false := by
          cases lost with
          | false => rfl
          | true => exact absurd rfl hl
        have := h hl
        refine ⟨this.inv, ?_, fun b _ h => h.elim⟩
        obtain ⟨new, en⟩ := this.grows
        have h1 := this.nClauses
        have h2 := hw.nClauses
        simp only [h1, en, List.length_append]
        omega
      · cases hl
        exact (h rfl).grows
  | encodeUbChange r mem =>
    rcases hw.gte.memEncodeUbChange r mem with ⟨t', vm', cls', e1, e2⟩ | ⟨lost, t', vm', cls', e, h⟩
    · obtain ⟨w', e, h⟩ := plain_spec w hw (.encodeUbChange r) trivial
      have e' := e
      simp only [GteWorld.step, e1, encoded, Option.map_some, Option.some.injEq] at e'
      refine ⟨.ok, w', ?_, fun _ => h, fun _ r' mem' => ⟨fun h => (by cases h), fun h => ?_⟩, fun h => (by cases h)⟩
      · simp only [memStep, memEncoded, e2, e']
      · cases h; exact e
    · refine ⟨_, _, by simp only [memStep, memEncoded, e]; rfl, fun hl => ?_, fun h => (by cases h), fun hl => ?_⟩
      · have hl : lost = false := by
          cases lost with
          | false => rfl
          | true => exact absurd rfl hl
        obtain ⟨this, hk⟩ := h hl
        refine ⟨this.inv, ?_, fun b hb hr => hk hr.2 b (hw.ubEnc b hb hr.1)⟩
        obtain ⟨new, en⟩ := this.grows
        have h1 := this.nClauses
        have h2 := hw.nClauses
        simp only [h1, en, List.length_append]
        omega
      · cases hl
        exact (h rfl).1.grows

theorem MemReach.inv [LawfulVM VM] {w : GteWorld VM} (h : MemReach w) : w.MemInv := by
  induction h with
  | start lits vm hn h => exact start_memInv lits vm hn h
  | step w w' op a _ ha hs hl ih =>
    obtain ⟨a2, w2, e, n, -⟩ := memStep_spec w ih op ha
    rw [e] at hs
    cases hs
    exact n hl

end GteWorld
end RustSat
