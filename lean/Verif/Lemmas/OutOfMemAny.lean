import Verif.Lemmas.OutOfMemWorld
/-
Histories in which encoding calls run out of memory at any moment: the collected clauses are some of those of a state
in which nothing was lost.
-/
namespace RustSat
open TotDb
namespace Gte
variable {VM : Type} [ManageVars VM] {t : Gte} {all : ClauseSet} {ins : List (Lit × Nat)} {own : List Nat}

theorem Inv.memEncodeUbChange_any [LawfulVM VM] {vm : VM} (h : t.Inv (ManageVars.nUsed vm) all ins own) (r : URange)
    (col : ClauseSet) (mem : List (Option Nat)) :
    (∃ t' vm' cls', t.encodeUbChange r vm col = some (t', vm', cls') ∧ t.memEncodeUbChange r vm col mem = .ok t' vm' cls') ∨
    (∃ lost t' vm' cls' new, t.memEncodeUbChange r vm col mem = .oom lost t' vm' cls' ∧
      t'.Inv (ManageVars.nUsed vm') (all ++ new) ins (own ++ CardWorld.handedOut vm vm') ∧ col <+: cls' ∧ cls' <+: col ++ new ∧
      ((∀ x ∈ t.litBuffer, ∀ b, r.contains b → b < x.2) → ∀ b, t.EncUb b → t'.EncUb b)) := by
  unfold Gte.encodeUbChange Gte.memEncodeUbChange
  simp only
  rw [h.weightSum]
  have hmem := fun b => prepareUb_iff (ws := wsumT (fun _ => true) ins) (r := r) (b := b)
  generalize Pb.prepareUbRange (wsumT (fun _ => true) ins) r = range at hmem ⊢
  obtain ⟨lo, hi⟩ := range
  simp only at hmem ⊢
  by_cases he : hi ≤ lo
  · rw [if_pos he, if_pos he]
    exact Or.inl ⟨t, vm, col, rfl, rfl⟩
  · rw [if_neg he, if_neg he]
    obtain ⟨t1, e1, inv1, b1, k1, k2, x1, s1⟩ := h.extendTree (some (hi - 1))
    rw [e1]
    simp only
    have hsame : (∀ x ∈ t.litBuffer, ∀ b, r.contains b → b < x.2) → t1 = t := fun hx => s1 (by
      rw [List.filter_eq_nil_iff]
      intro x hm
      have := hx x hm (hi - 1) ((hmem (hi - 1)).1 (by omega)).1
      simp only [fits, decide_eq_true_eq]
      omega)
    cases hr : t1.root with
    | none => exact Or.inl ⟨t1, vm, col, rfl, rfl⟩
    | some con =>
      simp only
      obtain ⟨hpc, hgap⟩ := inv1.root con hr
      have hvals := fun v => mem_rootVals hpc (lo := lo) (hi := hi + t1.maxLeafWeight) (v := v)
      generalize (t1.db.node con.id).valsRange (con.revMapRoundUp (lo + 1)) (con.revMap (hi + t1.maxLeafWeight) + 1) = vals
        at hvals ⊢
      have hv : ∀ v ∈ vals, v ∈ (t1.db.node con.id).valsFrom 1 := fun v hv => ((hvals v).1 hv).1
      have g := memDefineVals_good con.id vals (⟨⟨t1.db, vm, col⟩, mem⟩ : MemSt VM) inv1.core.wf hv
      simp only at g
      obtain ⟨st, e2, -⟩ := defineVals_spec con.id vals (⟨t1.db, vm, col⟩ : St VM) inv1.core.wf hv
      rw [e2] at g ⊢
      cases hx : memDefineVals (⟨⟨t1.db, vm, col⟩, mem⟩ : MemSt VM) con.id vals with
      | panic => rw [hx] at g; cases g
      | ok _ s =>
        rw [hx] at g
        simp only [MemGoodU, Option.some.injEq] at g
        subst g
        exact Or.inl ⟨_, _, _, rfl, rfl⟩
      | oom lost s =>
        rw [hx] at g
        obtain ⟨full, f1, f2, f3, f4, f5, -⟩ := g
        obtain ⟨new, en, s2⟩ := f1.recol all
        have hcore := Core.step (st := (⟨t1.db, vm, all⟩ : St VM)) inv1.core s2
        refine Or.inr ⟨lost, _, _, _, new, rfl, ?_, f4, by rw [← en]; exact f5, fun hx b hb => ?_⟩
        · have := inv1.replace_db s2.ref hcore t1.nClauses t1.nVars
          rw [hr] at this
          rw [f2, f3]
          exact this
        · have ht := hsame hx
          obtain ⟨q1, q2⟩ := hb
          refine ⟨fun x hx' => q1 x (by simp only at hx'; rw [← ht]; exact hx'), fun con' hcon v hv h1 h2 => ?_⟩
          simp only [f2] at hcon h2 hv ⊢
          rw [(s2.ref.node con'.id).valsFrom] at hv
          simp only at hv
          rw [ht] at hv h2
          rw [ht] at hr
          obtain ⟨l, hl⟩ := q2 con' (by rw [hr]; exact hcon) v hv h1 h2
          exact ⟨l, (by rw [ht]; exact hl : HasVal t1.db con'.id v l).ref s2.ref⟩

end Gte

namespace GteWorld
variable {VM : Type} [ManageVars VM]

/-- The collected clauses are some of those of a state in which nothing was lost. -/
structure TaintInv (w : GteWorld VM) (all : ClauseSet) : Prop where
  gte : w.gte.Inv (ManageVars.nUsed w.vm) all w.ins w.own
  sub : ∀ c ∈ w.cls, c ∈ all
  ubEnc : ∀ b, b < wsumT (fun _ => true) w.ins → w.ub b → w.gte.EncUb b

theorem plain_any [LawfulVM VM] (w : GteWorld VM) {all : ClauseSet} (hw : w.TaintInv all) (op : GteOp VM) (ha : w.allowed op) :
    ∃ w' all', w.step op = some w' ∧ w'.TaintInv all' ∧ w.cls <+: w'.cls := by
  obtain ⟨ht, hc, hu⟩ := hw
  have enc : ∀ {r : Option (Gte × VM × ClauseSet)} {t' : Gte} {vm' : VM} {new : ClauseSet} (ub : Nat → Prop),
      r = some (t', vm', w.cls ++ new) → Gte.EncCall w.gte w.vm all w.ins w.own t' vm' new →
      (∀ b, b < wsumT (fun _ => true) w.ins → ub b → t'.EncUb b) →
      ∃ w' all', w.encoded r ub = some w' ∧ w'.TaintInv all' ∧ w.cls <+: w'.cls := by
    intro r t' vm' new ub e h a1
    subst e
    refine ⟨_, _, rfl, ⟨h.inv, fun c hc' => ?_, a1⟩, ⟨new, rfl⟩⟩
    rcases List.mem_append.1 hc' with h | h
    · exact List.mem_append_left _ (hc c h)
    · exact List.mem_append_right _ h
  cases op with
  | add lits =>
    refine ⟨_, all, rfl, ⟨⟨?_, ht.root, fun T => ?_, fun x hx => ?_⟩, hc, ?_⟩, List.prefix_refl _⟩
    · have := ht.core.add (lits.map (·.1)) fun l hl => by
        obtain ⟨x, hx, rfl⟩ := List.mem_map.1 hl
        exact (ha x hx).2
      rw [← List.map_append] at this
      exact this
    · have := ht.val T
      show w.gte.rootVal T + wsumT T (lits.foldl LitMap.addLit w.gte.litBuffer) = _
      rw [LitMap.addLits_sum, wsumT_append]
      omega
    · rcases LitMap.addLits_mem _ _ x hx with h | ⟨y, hy, h1, h2⟩
      · obtain ⟨h1, h2⟩ := ht.buf x h
        exact ⟨h1, by simp only [List.map_append, List.mem_append]; exact Or.inl h2⟩
      · have := (ha y hy).1
        refine ⟨by omega, ?_⟩
        simp only [List.map_append, List.mem_append]
        exact Or.inr (List.mem_map.2 ⟨y, hy, h1.symm⟩)
    · rintro b hb ⟨h, rfl⟩
      exact hu b (by simpa using hb) h
  | encodeUb r =>
    obtain ⟨t', vm', new, e, h, k1, -⟩ := ht.encodeUb w.cls r
    exact enc _ e h fun b hb hr => k1 b hr hb
  | encodeUbChange r =>
    obtain ⟨t', vm', new, e, h, k1, k2, -⟩ := ht.encodeUbChange w.cls r
    exact enc _ e h fun b hb hr => hr.elim (fun hr => k1 b hr hb) fun hr => k2 hr.2 b (hu b hb hr.1)
  | reserve =>
    obtain ⟨t', vm', e, h1, h2, h3, -, h4⟩ := ht.reserve
    refine ⟨⟨t', vm', w.cls, w.ins, w.own ++ CardWorld.handedOut w.vm vm', fun b => w.ub b ∧ w.gte.litBuffer = []⟩, all, ?_,
      ⟨h1, hc, fun b hb hr => h4 hr.2 b (hu b hb hr.1)⟩, List.prefix_refl _⟩
    simp only [GteWorld.step, e, Option.map_some, encoded]
  | rehash buffer =>
    refine ⟨_, all, rfl, ⟨⟨ht.core, ht.root, fun T => ?_, fun x hx => ht.buf x (ha.mem_iff.1 hx)⟩, hc, fun b hb hr => ?_⟩,
      List.prefix_refl _⟩
    · show w.gte.rootVal T + wsumT T buffer = _
      rw [wsumT_perm T ha]
      exact ht.val T
    · obtain ⟨q1, q2⟩ := hu b hb hr
      exact ⟨fun x hx => q1 x (ha.mem_iff.1 hx), q2⟩
  | useVars vm =>
    exact ⟨_, all, rfl, ⟨{ ht with core := ht.core.more ha }, hc, hu⟩, List.prefix_refl _⟩

theorem any_spec [LawfulVM VM] (w : GteWorld VM) {all : ClauseSet} (hw : w.TaintInv all) (op : MemGteOp VM)
    (ha : w.memAllowed op) :
    ∃ a w' all', w.memStep op = some (a, w') ∧ w'.TaintInv all' ∧ w.cls <+: w'.cls ∧
      (a = .ok → ∀ r mem, (op = .encodeUb r mem → w.step (.encodeUb r) = some w') ∧
        (op = .encodeUbChange r mem → w.step (.encodeUbChange r) = some w')) := by
  have hsub : ∀ {cls' new : ClauseSet}, cls' <+: w.cls ++ new → ∀ c ∈ cls', c ∈ all ++ new := by
    intro cls' new h c hc
    rcases List.mem_append.1 (h.subset hc) with h | h
    · exact List.mem_append_left _ (hw.sub c h)
    · exact List.mem_append_right _ h
  cases op with
  | plain op =>
    obtain ⟨w', all', e, h, hp⟩ := plain_any w hw op ha
    exact ⟨.ok, w', all', by simp only [memStep, e, Option.map_some], h, hp,
      fun _ r mem => ⟨fun h => (by cases h), fun h => (by cases h)⟩⟩
  | encodeUb r mem =>
    rcases (hw.gte.reset .if_).memEncodeUbChange_any r w.cls mem with ⟨t', vm', cls', e1, e2⟩ | ⟨lost, t', vm', cls', new, e, h1, h2, h3, -⟩
    · obtain ⟨w', all', e, h, hp⟩ := plain_any w hw (.encodeUb r) trivial
      have e' := e
      have e1 : w.gte.encodeUb r w.vm w.cls = some (t', vm', cls') := e1
      have e2 : w.gte.memEncodeUb r w.vm w.cls mem = .ok t' vm' cls' := e2
      simp only [GteWorld.step, e1, encoded, Option.map_some, Option.some.injEq] at e'
      refine ⟨.ok, w', all', ?_, h, hp, fun _ r' mem' => ⟨fun h => ?_, fun h => (by cases h)⟩⟩
      · simp only [memStep, memEncoded, e2, e']
      · cases h; exact e
    · have e : w.gte.memEncodeUb r w.vm w.cls mem = .oom lost t' vm' cls' := e
      refine ⟨_, _, all ++ new, by simp only [memStep, memEncoded, e]; rfl, ?_, ?_, fun h => (by cases h)⟩
      · exact ⟨h1, hsub h3, fun b _ h => h.elim⟩
      · exact h2
  | encodeUbChange r mem =>
    rcases hw.gte.memEncodeUbChange_any r w.cls mem with ⟨t', vm', cls', e1, e2⟩ | ⟨lost, t', vm', cls', new, e, h1, h2, h3, h4⟩
    · obtain ⟨w', all', e, h, hp⟩ := plain_any w hw (.encodeUbChange r) trivial
      have e' := e
      simp only [GteWorld.step, e1, encoded, Option.map_some, Option.some.injEq] at e'
      refine ⟨.ok, w', all', ?_, h, hp, fun _ r' mem' => ⟨fun h => (by cases h), fun h => ?_⟩⟩
      · simp only [memStep, memEncoded, e2, e']
      · cases h; exact e
    · refine ⟨_, _, all ++ new, by simp only [memStep, memEncoded, e]; rfl, ?_, ?_, fun h => (by cases h)⟩
      · exact ⟨h1, hsub h3, fun b hb hr => h4 hr.2 b (hw.ubEnc b hb hr.1)⟩
      · exact h2

theorem AnyReach.inv [LawfulVM VM] {w : GteWorld VM} (h : AnyReach w) : ∃ all, w.TaintInv all := by
  induction h with
  | start lits vm hn h =>
    have h := start_inv lits vm hn h
    exact ⟨_, h.gte, fun c hc => hc, h.ubEnc⟩
  | step w w' op a _ ha hs ih =>
    obtain ⟨all, ih⟩ := ih
    obtain ⟨a2, w2, all', e, n, -⟩ := any_spec w ih op ha
    rw [e] at hs
    cases hs
    exact ⟨all', n⟩

theorem MemReach.any {w : GteWorld VM} (h : MemReach w) : AnyReach w := by
  induction h with
  | start lits vm hn h => exact .start lits vm hn h
  | step w w' op a _ ha hs hl ih => exact .step w w' op a ih ha hs

end GteWorld
end RustSat
