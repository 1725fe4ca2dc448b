import Verif.Spec.Mono
import Verif.Lemmas.Bound
import Verif.Lemmas.AdderWorld
/-
The generalized totalizer, the totalizer and the binary adder are monotone.
-/
namespace RustSat
open Card

namespace TotDb

theorem Strict_ext {L : List Lit} {db db' : Db} (h : Ext L db db') (hw : db.WF) {b : Asg} (hs : Strict db' b) : Strict db b := by
  intro i k v l ho
  rw [hs i k v l (h.outAt.2 ho), h.value hw _ (outAt_lt ho)]

theorem Strict_reset {db : Db} {sem : Semantics} (hw : db.WF) {b : Asg} (hs : Strict (db.resetEncoded sem) b) :
    Strict db b := by
  intro i k v l ho
  rw [hs i k v l ((reset_outAt db sem).2 ho), (resetEncoded_rel db sem).value hw]

end TotDb
open TotDb

/-! ### Generalized totalizer -/

namespace Gte.Inv
variable {VM : Type} [ManageVars VM] {t : Gte} {n : Nat} {cls : ClauseSet} {ins : List (Lit × Nat)} {own : List Nat}

theorem encodeUbChange_strict [LawfulVM VM] {vm vm' : VM} (h : t.Inv (ManageVars.nUsed vm) cls ins own) {col col' : ClauseSet}
    {r : URange} {t' : Gte} (e : t.encodeUbChange r vm col = some (t', vm', col')) {b : Asg} (hb : Strict t'.db b) :
    Strict t.db b := by
  unfold Gte.encodeUbChange at e
  simp only at e
  generalize Pb.prepareUbRange t.weightSum r = range at e
  obtain ⟨lo, hi⟩ := range
  simp only at e
  by_cases he : hi ≤ lo
  · rw [if_pos he] at e; cases e; exact hb
  · rw [if_neg he] at e
    obtain ⟨t1, e1, inv1, b1, k1, k2, x1, s1⟩ := h.extendTree (some (hi - 1))
    rw [e1] at e
    simp only at e
    cases hr : t1.root with
    | none => rw [hr] at e; simp only at e; cases e; exact Strict_ext x1 h.core.wf hb
    | some con =>
      rw [hr] at e
      simp only at e
      obtain ⟨hpc, hgap⟩ := inv1.root con hr
      have hvals := fun v => mem_rootVals hpc (lo := lo) (hi := hi + t1.maxLeafWeight) (v := v)
      generalize (t1.db.node con.id).valsRange (con.revMapRoundUp (lo + 1)) (con.revMap (hi + t1.maxLeafWeight) + 1) = vals
        at hvals e
      obtain ⟨st, e2, s2, l2, -, -⟩ := defineVals_spec con.id vals (⟨t1.db, vm, col⟩ : St VM) inv1.core.wf
        fun v hv => ((hvals v).1 hv).1
      rw [e2] at e
      simp only at e
      cases e
      exact Strict_ext x1 h.core.wf (Strict.of_ref (fun _ _ => keep_of_ref) s2.ref inv1.core.wf hb)

theorem encodeUb_strict [LawfulVM VM] {vm vm' : VM} (h : t.Inv (ManageVars.nUsed vm) cls ins own) {col col' : ClauseSet}
    {r : URange} {t' : Gte} (e : t.encodeUb r vm col = some (t', vm', col')) {b : Asg} (hb : Strict t'.db b) :
    Strict t.db b :=
  Strict_reset h.core.wf ((h.reset .if_).encodeUbChange_strict e hb)

theorem strict_ub (h : t.Inv n cls ins own) {b : Nat} {A : List Lit} (hA : t.enforceUb b = .ok A) {m : Asg}
    (h2 : Strict t.db m) (hsum : wsum m ins ≤ b) : cubeSat m A := by
  intro x hx
  rw [wsum_eq_wsumT, ← h.val] at hsum
  rcases h.enforceUb_cases b with ⟨hb, e⟩ | ⟨_, e, -⟩ | ⟨hb, -, A', e, hbuf, -, hA'⟩
  · rw [e] at hA; cases hA; cases hx
  · rw [e] at hA; cases hA
  · rw [e] at hA; cases hA
    rcases hA' x hx with ⟨y, hy, rfl⟩ | ⟨con, v, l, hr, hv, hl, rfl⟩
    · rw [Lit.holds_neg]
      cases hh : y.1.holds m with
      | false => rfl
      | true =>
        have := wsumT_mem_le (T := trueLits m) hy hh
        have := (hbuf y hy).1
        omega
    · rw [Lit.holds_neg]
      cases hh : l.holds m with
      | false => rfl
      | true =>
        have hle := (hl.strict h.core.wf h2).1 hh
        have := con.map_mono hle
        unfold rootVal at hsum
        rw [hr] at hsum
        simp only [conVal] at hsum
        omega

end Gte.Inv

section
variable {VM : Type} [ManageVars VM] [LawfulVM VM]

instance : LawfulMono Gte (Lit × Nat) VM where
  Inv e n cls ins own C := e.Inv n cls ins own ∧ C = Strict e.db
  same e e' := ∃ buffer, buffer.Perm e.litBuffer ∧ e' = { e with litBuffer := buffer }
  new ins n hd h := ⟨_, (GteWorld.start_inv ins (⟨n⟩ : BasicVM) hd h).gte, rfl⟩
  extend e n cls ins own C lits h _ hl := ⟨h.1.extend lits hl, h.2⟩
  same_inv e e' n cls ins own C h hs := by
    refine ⟨LawfulEnc.same_inv (VM := VM) e e' n cls ins own h.1 hs, ?_⟩
    obtain ⟨buffer, -, rfl⟩ := hs
    exact h.2
  more e n n' cls ins own C h hn := ⟨C, ⟨{ h.1 with core := h.1.core.more hn }, h.2⟩, fun _ h => h⟩
  encodeUb e vm cls ins own C r col h := by
    obtain ⟨h, rfl⟩ := h
    obtain ⟨t', vm', new, e1, h1, h2, -⟩ := h.encodeUb col r
    refine ⟨t', vm', new, _, e1, h1.used, ⟨h1.inv, rfl⟩, fun m hm => h.encodeUb_strict e1 hm, fun b hb => ?_⟩
    obtain ⟨A, hA⟩ := h1.inv.ub_ok (h2 b hb)
    exact ⟨A, hA, fun m hm hc => by rw [Item.value_weighted]; exact h1.inv.sound hA h1.inv.core.soundIf hm hc⟩
  encodeUbChange e vm cls ins own C r col h := by
    obtain ⟨h, rfl⟩ := h
    obtain ⟨t', vm', new, e1, h1, h2, -⟩ := h.encodeUbChange col r
    refine ⟨t', vm', new, _, e1, h1.used, ⟨h1.inv, rfl⟩, fun m hm => h.encodeUbChange_strict e1 hm, fun b hb => ?_⟩
    obtain ⟨A, hA⟩ := h1.inv.ub_ok (h2 b hb)
    exact ⟨A, hA, fun m hm hc => by rw [Item.value_weighted]; exact h1.inv.sound hA h1.inv.core.soundIf hm hc⟩
  canon_ext e n cls ins own C h a := by
    obtain ⟨h, rfl⟩ := h
    obtain ⟨m, h1, h2, -⟩ := h.core.complete a
    exact ⟨m, h1, h2⟩
  canon_sat e n cls ins own C h m hm := h.1.core.strict m (h.2 ▸ hm)
  canon_enforce e n cls ins own C h b A hA m hm hv := by
    rw [Item.value_weighted] at hv
    exact h.1.strict_ub hA (h.2 ▸ hm) hv
  ownLt e n cls ins own C h := h.1.core.ownLt
  disj e n cls ins own C h := LawfulEnc.disj (VM := VM) e n cls ins own h.1
end

/-! ### Totalizer -/

namespace Totalizer.Inv
variable {VM : Type} [ManageVars VM] {t : Totalizer} {n : Nat} {cls : ClauseSet} {ins : List Lit} {own : List Nat}

theorem encodeUbChange_strict [LawfulVM VM] {vm vm' : VM} (h : t.Inv (ManageVars.nUsed vm) cls ins own) {col col' : ClauseSet}
    {r : URange} {t' : Totalizer} (e : t.encodeUbChange r vm col = some (t', vm', col')) {b : Asg} (hb : Strict t'.db b) :
    Strict t.db b := by
  unfold Totalizer.encodeUbChange at e
  simp only at e
  rw [h.off, Nat.sub_zero] at e
  have hi : ∀ i ∈ List.range' (prepareUbRange t.nLits r).1 (min (prepareUbRange t.nLits r).2 t.nLits - (prepareUbRange t.nLits r).1),
      i < t.nLits := fun i hi => (prepareUb_mem.1 hi).2
  generalize List.range' (prepareUbRange t.nLits r).1 (min (prepareUbRange t.nLits r).2 t.nLits - (prepareUbRange t.nLits r).1)
    = idxs at e hi
  unfold Totalizer.defineOutputs at e
  by_cases he : idxs = []
  · subst he; simp at e; obtain ⟨rfl, -⟩ := e; exact hb
  · have hie : idxs.isEmpty = false := by simpa using he
    rw [hie] at e
    simp only [Bool.false_eq_true, if_false] at e
    obtain ⟨t1, e1, inv1, b1, k1, k2, k3, k4, x1, tr1⟩ := h.extendTree
    rw [e1] at e
    simp only at e
    have hins : ins ≠ [] := by
      intro h0
      obtain ⟨i, hi'⟩ := List.exists_mem_of_ne_nil _ he
      have := hi i hi'
      rw [h.nLits, h0] at this
      exact absurd this (Nat.not_lt_zero _)
    obtain ⟨id, hr⟩ := k4 hins
    obtain ⟨r1, r2⟩ := inv1.root id hr
    obtain ⟨st, e2, s2, l2, a2⟩ := defineAll_spec id .if_ (idxs.map fun i => i + t1.offset) (⟨t1.db, vm, col⟩ : St VM)
      inv1.core.wf r2 (by
        intro i hi'
        obtain ⟨j, hj, rfl⟩ := List.mem_map.1 hi'
        have := hi j hj
        simp only
        rw [inv1.off, inv1.rootLen b1 hr, ← h.nLits]
        exact this)
    rw [hr] at e
    simp only [e2] at e
    cases e
    exact Strict_ext x1 h.core.wf (Strict.of_ref (fun _ _ => keep_of_ref) s2.ref inv1.core.wf hb)

theorem encodeUb_strict [LawfulVM VM] {vm vm' : VM} (h : t.Inv (ManageVars.nUsed vm) cls ins own) {col col' : ClauseSet}
    {r : URange} {t' : Totalizer} (e : t.encodeUb r vm col = some (t', vm', col')) {b : Asg} (hb : Strict t'.db b) :
    Strict t.db b :=
  Strict_reset h.core.wf ((h.reset .if_).encodeUbChange_strict e hb)

end Totalizer.Inv

section
variable {VM : Type} [ManageVars VM] [LawfulVM VM]

instance : LawfulMono Totalizer Lit VM where
  Inv e n cls ins own C := e.Inv n cls ins own ∧ C = Strict e.db
  same e e' := e = e'
  new ins n hd h := ⟨_, (CardWorld.start_inv ins (⟨n⟩ : BasicVM) fun l hl => (h l hl).2).tot, rfl⟩
  extend e n cls ins own C lits h _ hl := ⟨h.1.extend lits fun l hm => (hl l hm).2, h.2⟩
  same_inv e e' n cls ins own C h hs := hs ▸ h
  more e n n' cls ins own C h hn := ⟨C, ⟨{ h.1 with core := h.1.core.more hn }, h.2⟩, fun _ h => h⟩
  encodeUb e vm cls ins own C r col h := by
    obtain ⟨h, rfl⟩ := h
    obtain ⟨t', vm', new, e1, h1, h2, -⟩ := h.encodeUb col r
    refine ⟨t', vm', new, _, e1, h1.used, ⟨h1.inv, rfl⟩, fun m hm => h.encodeUb_strict e1 hm, fun b hb => ?_⟩
    obtain ⟨A, hA⟩ := h1.inv.ub_ok (h2 b hb)
    exact ⟨A, hA, fun m hm hc => by rw [Item.value_lit]; exact h1.inv.ub_sound hA hm hc⟩
  encodeUbChange e vm cls ins own C r col h := by
    obtain ⟨h, rfl⟩ := h
    obtain ⟨t', vm', new, e1, h1, h2, -⟩ := h.encodeUbChange col r
    refine ⟨t', vm', new, _, e1, h1.used, ⟨h1.inv, rfl⟩, fun m hm => h.encodeUbChange_strict e1 hm, fun b hb => ?_⟩
    obtain ⟨A, hA⟩ := h1.inv.ub_ok (h2 b hb)
    exact ⟨A, hA, fun m hm hc => by rw [Item.value_lit]; exact h1.inv.ub_sound hA hm hc⟩
  canon_ext e n cls ins own C h a := by
    obtain ⟨h, rfl⟩ := h
    obtain ⟨m, h1, h2, -⟩ := h.core.complete a
    exact ⟨m, h1, h2⟩
  canon_sat e n cls ins own C h m hm := h.1.core.strict m (h.2 ▸ hm)
  canon_enforce e n cls ins own C h b A hA m hm hv := by
    rw [Item.value_lit] at hv
    exact h.1.ub_strict hA (h.2 ▸ hm) hv
  ownLt e n cls ins own C h := h.1.core.ownLt
  disj e n cls ins own C h := LawfulEnc.disj (VM := VM) e n cls ins own h.1
end

/-! ### Binary adder -/

namespace BinaryAdder

/-- The canonical assignments of a binary adder: all variables below `n` have their canonical values. -/
def Canon (n : Nat) (D : Asg → Asg) (m : Asg) : Prop := ∃ a : Asg, ∀ v, v < n → m v = D a v

/-- The invariant, with upper bounds encoded only. -/
def MonoInv (e : BinaryAdder) (n : Nat) (cls : ClauseSet) (ins : List (Lit × Nat)) (own : List Nat) (C : Asg → Prop) : Prop :=
  ∃ sins cols D, InvWith True e n cls ins own sins cols D ∧ e.Clean cls ∧ C = Canon n D

section
variable {VM : Type} [ManageVars VM] [LawfulVM VM]

theorem MonoInv.encode {e : BinaryAdder} {vm : VM} {cls : ClauseSet} {ins : List (Lit × Nat)} {own : List Nat} {C : Asg → Prop}
    (h : MonoInv e (ManageVars.nUsed vm) cls ins own C) (r : URange) (col : ClauseSet) :
    ∃ e' vm' new C', e.encodeUbChange r vm col = some (e', vm', col ++ new) ∧
      ManageVars.nUsed vm ≤ ManageVars.nUsed vm' ∧
      MonoInv e' (ManageVars.nUsed vm') (cls ++ new) ins (own ++ CardWorld.handedOut vm vm') C' ∧ (∀ m, C' m → C m) ∧
      ∀ b, r.contains b → ∃ A, e'.enforceUb b = .ok A ∧
        ∀ m, ClauseSet.sat m (cls ++ new) → cubeSat m A → Item.value m ins ≤ b := by
  obtain ⟨sins, cols, D, h, hcl, rfl⟩ := h
  obtain ⟨e', vm', new, e1, hc, sins', cols', D', ht, hold⟩ := h.encodeChange .if_ (fun _ _ => hcl)
    (Pb.prepareUbRange e.weightSum r) (fun _ h1 h2 => (Gte.Inv.prepareUb_iff.1 ⟨h1, h2⟩).2) col
  have hle := hc.le
  refine ⟨e', vm', new, _, e1, hc.le, ⟨sins', cols', D', ht, hc.clean rfl trivial, rfl⟩, ?_, fun b hb => ?_⟩
  · rintro m ⟨a, ha⟩
    exact ⟨a, fun v hv => by rw [ha v (by omega), hold a v hv]⟩
  · have hws : e.weightSum = e'.weightSum := by rw [h.weightSum, ht.weightSum]
    by_cases hlt : b < e.weightSum
    · obtain ⟨h1, h2⟩ := Gte.Inv.prepareUb_iff.2 ⟨hb, hlt⟩
      have hbuf := hc.buf (by omega)
      have hub := hc.ub rfl b h1 h2
      rcases enforceUb_cases e' b with ⟨h3, -⟩ | ⟨-, ⟨h3, -⟩ | ⟨st, o, -, -, -, h4⟩⟩
      · omega
      · exact absurd hub h3
      · refine ⟨_, h4, fun m hm hcb => ?_⟩
        rw [Item.value_weighted, wsum_eq_wsumT]
        exact (hc.inv.enforceUb trivial hbuf h4).sound m hm hcb
    · rcases enforceUb_cases e' b with ⟨-, h3⟩ | ⟨h3, -⟩
      · refine ⟨_, h3, fun m _ _ => ?_⟩
        rw [Item.value_weighted, wsum_eq_wsumT]
        rw [h.weightSum] at hlt
        exact Nat.le_trans (wsumT_le _ _) (by omega)
      · omega

instance : LawfulMono BinaryAdder (Lit × Nat) VM where
  Inv := MonoInv
  same e e' := ∃ buffer, buffer.Perm e.litBuffer ∧ e' = { e with litBuffer := buffer }
  new ins n hd h := ⟨_, _, _, _, InvWith.new hd fun x hx => (h x hx).2, Clean.new ins [], rfl⟩
  extend e n cls ins own C lits h _ hl := by
    obtain ⟨sins, cols, D, h, hcl, rfl⟩ := h
    exact ⟨sins, cols, D, h.extend fun x hx => (hl x hx).2, hcl, rfl⟩
  same_inv e e' n cls ins own C h hs := by
    obtain ⟨sins, cols, D, h, hcl, rfl⟩ := h
    obtain ⟨buffer, hp, rfl⟩ := hs
    exact ⟨sins, cols, D, h.rehash hp, hcl, rfl⟩
  more e n n' cls ins own C h hn := by
    obtain ⟨sins, cols, D, h, hcl, rfl⟩ := h
    exact ⟨_, ⟨sins, cols, D, h.more hn, hcl, rfl⟩, fun m ⟨a, ha⟩ => ⟨a, fun v hv => ha v (by omega)⟩⟩
  encodeUb e vm cls ins own C r col h := by
    refine MonoInv.encode (e := e.reset) ?_ r col
    obtain ⟨sins, cols, D, h, hcl, rfl⟩ := h
    exact ⟨sins, cols, D, h.reset, Clean.reset _ _, rfl⟩
  encodeUbChange e vm cls ins own C r col h := MonoInv.encode h r col
  canon_ext e n cls ins own C h a := by
    obtain ⟨sins, cols, D, h, hcl, rfl⟩ := h
    exact ⟨D a, (h.free a).1, a, fun _ _ => rfl⟩
  canon_sat e n cls ins own C h m hm := by
    obtain ⟨sins, cols, D, h, hcl, rfl⟩ := h
    obtain ⟨a, ha⟩ := hm
    refine ClauseSet.sat_congr (a := D a) (fun k hk l hl => (ha _ ?_).symm) (h.free a).2
    rcases h.s.vars k hk l hl with ⟨x, hx, hv⟩ | ho
    · rw [← hv]; exact (h.s.inLt x hx).1
    · exact h.s.lt ho
  canon_enforce e n cls ins own C h b A hA m hm hv := by
    obtain ⟨sins, cols, D, h, hcl, rfl⟩ := h
    obtain ⟨a, ha⟩ := hm
    by_cases hs : b < e.weightSum
    · obtain ⟨-, h2, h3⟩ := h.ub hA hs
      have e1 : wsumT (trueLits a) ins = wsumT (trueLits m) ins := by
        rw [← wsum_eq_wsumT, ← wsum_eq_wsumT, ← Item.value_weighted, ← Item.value_weighted]
        unfold Item.value
        congr 1
        refine List.map_congr_left fun y hy => ?_
        obtain ⟨h4, h5⟩ := h.s.inLt y.1 ⟨y, hy, rfl⟩
        have : a y.1.var = m y.1.var := by rw [ha _ h4, (h.free a).1 _ h5]
        rw [show (Item.lit y).holds a = (Item.lit y).holds m from Lit.holds_congr this]
      rw [Item.value_weighted, wsum_eq_wsumT, ← e1] at hv
      have := h.sum (trueLits a)
      have h6 := h2 a (by omega)
      intro l hl
      rw [← h6 l hl]
      exact Lit.holds_congr (ha _ (h.s.ownLt _ (h3 l hl)))
    · rcases enforceUb_cases e b with ⟨-, h3⟩ | ⟨h3, -⟩
      · cases (show e.enforceUb b = .ok A from hA).symm.trans h3; intro l hl; cases hl
      · omega
  ownLt e n cls ins own C h := by
    obtain ⟨sins, cols, D, h, hcl, rfl⟩ := h
    exact h.s.ownLt
  disj e n cls ins own C h v hv := by
    obtain ⟨sins, cols, D, h, hcl, rfl⟩ := h
    rintro ⟨x, hx, rfl⟩
    exact (h.s.inLt x.1 ⟨x, hx, rfl⟩).2 hv

end
end BinaryAdder

/-! ### Histories -/

section
variable {E ι VM : Type} [ManageVars VM] [Item ι] [LawfulItem ι] [Encoder E ι] [BoundUpper E VM] [EnforceUb E]
  [LawfulMono E ι VM]

omit [LawfulItem ι] in
theorem Item.value_append_le (a : Asg) (l1 l2 : List ι) : Item.value a l1 ≤ Item.value a (l1 ++ l2) := by
  unfold Item.value
  rw [List.map_append, List.sum_append]
  omega

/-- The invariant of histories: permanently enforced bounds hold in all canonical assignments respecting them. -/
theorem MonoReach.inv {w : EncWorld E ι VM} {H : List (Nat × List Lit)} (h : MonoReach (LawfulMono.same VM) w H) :
    ∃ C, LawfulMono.Inv VM w.enc (ManageVars.nUsed w.vm) w.cls w.ins w.own C ∧
      ∀ x ∈ H, ∀ m, C m → Item.value m w.ins ≤ x.1 → cubeSat m x.2 := by
  induction h with
  | start lits vm hd h =>
    obtain ⟨C, hC⟩ := LawfulMono.new (VM := VM) (E := E) lits (ManageVars.nUsed vm) hd h
    exact ⟨C, hC, by simp⟩
  | add w H lits hw hd h ih =>
    obtain ⟨C, hC, hH⟩ := ih
    exact ⟨C, LawfulMono.extend _ _ _ _ _ _ lits hC hd h, fun x hx m hm hv =>
      hH x hx m hm (Nat.le_trans (Item.value_append_le _ _ _) hv)⟩
  | encodeUb w H r e' vm' cls' hw hs ih =>
    obtain ⟨C, hC, hH⟩ := ih
    obtain ⟨e2, vm2, new, C', e, -, hC', hm, -⟩ := LawfulMono.encodeUb _ _ _ _ _ _ r w.cls hC
    rw [hs] at e
    cases e
    exact ⟨C', hC', fun x hx m h1 hv => hH x hx m (hm m h1) hv⟩
  | encodeUbChange w H r e' vm' cls' hw hs ih =>
    obtain ⟨C, hC, hH⟩ := ih
    obtain ⟨e2, vm2, new, C', e, -, hC', hm, -⟩ := LawfulMono.encodeUbChange _ _ _ _ _ _ r w.cls hC
    rw [hs] at e
    cases e
    exact ⟨C', hC', fun x hx m h1 hv => hH x hx m (hm m h1) hv⟩
  | harden w H b A hw hA ih =>
    obtain ⟨C, hC, hH⟩ := ih
    refine ⟨C, hC, fun x hx m hm hv => ?_⟩
    rcases List.mem_cons.1 hx with rfl | hx
    · exact LawfulMono.canon_enforce _ _ _ _ _ _ hC b A hA m hm hv
    · exact hH x hx m hm hv
  | rehash w H e' hw hs ih =>
    obtain ⟨C, hC, hH⟩ := ih
    exact ⟨C, LawfulMono.same_inv _ _ _ _ _ _ _ hC hs, hH⟩
  | useVars w H vm' hw hs ih =>
    obtain ⟨C, hC, hH⟩ := ih
    obtain ⟨C', hC', hm⟩ := LawfulMono.more _ _ _ _ _ _ _ hC hs
    exact ⟨C', hC', fun x hx m h1 hv => hH x hx m (hm m h1) hv⟩

theorem MonoReach.noConflict {w : EncWorld E ι VM} {H : List (Nat × List Lit)} (h : MonoReach (LawfulMono.same VM) w H) :
    NoConflict w H := by
  intro a ha
  obtain ⟨C, hC, hH⟩ := h.inv
  obtain ⟨m, h1, h2⟩ := LawfulMono.canon_ext _ _ _ _ _ _ hC a
  refine ⟨m, h1, LawfulMono.canon_sat _ _ _ _ _ _ hC m h2, fun x hx => hH x hx m h2 ?_⟩
  have e : Item.value m w.ins = Item.value a w.ins := by
    unfold Item.value
    congr 1
    refine List.map_congr_left fun y hy => ?_
    rw [Lit.holds_congr (h1 _ fun hv => LawfulMono.disj _ _ _ _ _ _ hC _ hv ⟨y, hy, rfl⟩)]
  rw [e]
  exact ha x hx

end
end RustSat
