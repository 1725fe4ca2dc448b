import Verif.Lemmas.Totalizer
/-
The totalizer over histories: every operation preserves the invariant and does not panic; what the enforce functions
return.
-/
namespace RustSat
open TotDb Card

theorem prepareUb_mem {n : Nat} {r : URange} {b : Nat} :
    b ∈ List.range' (prepareUbRange n r).1 (min (prepareUbRange n r).2 n - (prepareUbRange n r).1) ↔ r.contains b ∧ b < n := by
  rw [List.mem_range'_1]
  unfold prepareUbRange URange.contains
  cases r.lo <;> cases r.hi <;> simp only [true_and, and_true, Nat.min_self] <;> omega

theorem prepareLb_mem {n : Nat} {r : URange} {i : Nat} :
    i ∈ (List.range' (prepareLbRange n r).1 (min (prepareLbRange n r).2 (n + 1) - (prepareLbRange n r).1)).map (· - 1) ↔
      r.contains (i + 1) ∧ i < n := by
  rw [List.mem_map]
  have key : ∀ b, b ∈ List.range' (prepareLbRange n r).1 (min (prepareLbRange n r).2 (n + 1) - (prepareLbRange n r).1) ↔
      r.contains b ∧ 1 ≤ b ∧ b ≤ n := by
    intro b
    rw [List.mem_range'_1]
    unfold prepareLbRange URange.contains
    cases r.lo <;> cases r.hi <;> simp only [true_and, and_true, Nat.min_self] <;> omega
  constructor
  · rintro ⟨b, hb, rfl⟩
    obtain ⟨h1, h2, h3⟩ := (key b).1 hb
    rw [show b - 1 + 1 = b by omega]
    exact ⟨h1, by omega⟩
  · rintro ⟨h1, h2⟩
    exact ⟨i + 1, (key _).2 ⟨h1, by omega, by omega⟩, rfl⟩

namespace Totalizer
variable {VM : Type} [ManageVars VM]

/-- What an encoding call guarantees. `need` are the outputs it has to define. -/
structure EncCall (t : Totalizer) (vm : VM) (cls : ClauseSet) (ins : List Lit) (own : List Nat)
    (t' : Totalizer) (vm' : VM) (new : ClauseSet) : Prop where
  inv : t'.Inv (ManageVars.nUsed vm') (cls ++ new) ins (own ++ CardWorld.handedOut vm vm')
  nVars : t'.nVars = t.nVars + (CardWorld.handedOut vm vm').length
  nClauses : t'.nClauses = t.nClauses + new.length
  used : ManageVars.nUsed vm ≤ ManageVars.nUsed vm'

namespace Inv
variable {t : Totalizer} {cls : ClauseSet} {ins : List Lit} {own : List Nat}

theorem encodeUbChange [LawfulVM VM] {vm : VM} (h : t.Inv (ManageVars.nUsed vm) cls ins own) (col : ClauseSet) (r : URange) :
    ∃ t' vm' new, t.encodeUbChange r vm col = some (t', vm', col ++ new) ∧ EncCall t vm cls ins own t' vm' new ∧
      (∀ b, r.contains b → b < ins.length → t'.EncUb b) ∧ Trans t t' (fun b => r.contains b) .if_ ∧
      (∀ C, SoundIf t.db C → SoundIf t'.db (C ++ new)) ∧ (∀ C, SoundOnlyIf t.db C → SoundOnlyIf t'.db (C ++ new)) := by
  unfold Totalizer.encodeUbChange
  simp only
  rw [h.off, Nat.sub_zero]
  obtain ⟨t', vm', new, e, i1, i2, i3, i4, i5, i6, i7, i8, i9⟩ := h.defineOutputs col .if_
    (List.range' (prepareUbRange t.nLits r).1 (min (prepareUbRange t.nLits r).2 t.nLits - (prepareUbRange t.nLits r).1))
    fun i hi => (prepareUb_mem.1 hi).2
  refine ⟨t', vm', new, e, ⟨i1, i2, i3, i4⟩, fun b hb hl => ?_,
    ⟨fun b hb => (i9.mUb b hb).imp (fun h => h) fun h => ⟨(prepareUb_mem.1 h.1).1, h.2⟩,
      fun b hb => (i9.mLb b hb).imp (fun h => h) fun h => ⟨(prepareUb_mem.1 h.1).1, h.2⟩, i9.kUb, i9.kLb⟩, i7, i8⟩
  rw [← h.nLits] at hl
  have hm := prepareUb_mem.2 ⟨hb, hl⟩
  obtain ⟨j1, id, j2, j3⟩ := i5 (List.ne_nil_of_mem hm)
  obtain ⟨l, j4⟩ := j3 b hm
  exact ⟨j1, id, l, j2, j4⟩

theorem encodeLbChange [LawfulVM VM] {vm : VM} (h : t.Inv (ManageVars.nUsed vm) cls ins own) (col : ClauseSet) (r : URange) :
    ∃ t' vm' new, t.encodeLbChange r vm col = some (t', vm', col ++ new) ∧ EncCall t vm cls ins own t' vm' new ∧
      (∀ b, r.contains (b + 1) → b < ins.length → t'.EncLb b) ∧ Trans t t' (fun b => r.contains (b + 1)) .onlyIf ∧
      (∀ C, SoundIf t.db C → SoundIf t'.db (C ++ new)) ∧ (∀ C, SoundOnlyIf t.db C → SoundOnlyIf t'.db (C ++ new)) := by
  unfold Totalizer.encodeLbChange
  simp only
  rw [h.off, Nat.sub_zero]
  obtain ⟨t', vm', new, e, i1, i2, i3, i4, i5, i6, i7, i8, i9⟩ := h.defineOutputs col .onlyIf
    ((List.range' (prepareLbRange t.nLits r).1 (min (prepareLbRange t.nLits r).2 (t.nLits + 1) - (prepareLbRange t.nLits r).1)).map (· - 1))
    fun i hi => (prepareLb_mem.1 hi).2
  refine ⟨t', vm', new, e, ⟨i1, i2, i3, i4⟩, fun b hb hl => ?_,
    ⟨fun b hb => (i9.mUb b hb).imp (fun h => h) fun h => ⟨(prepareLb_mem.1 h.1).1, h.2⟩,
      fun b hb => (i9.mLb b hb).imp (fun h => h) fun h => ⟨(prepareLb_mem.1 h.1).1, h.2⟩, i9.kUb, i9.kLb⟩, i7, i8⟩
  rw [← h.nLits] at hl
  have hm := prepareLb_mem.2 ⟨hb, hl⟩
  obtain ⟨j1, id, j2, j3⟩ := i5 (List.ne_nil_of_mem hm)
  obtain ⟨l, j4⟩ := j3 b hm
  exact ⟨j1, id, l, j2, j4⟩

theorem encodeUb [LawfulVM VM] {vm : VM} (h : t.Inv (ManageVars.nUsed vm) cls ins own) (col : ClauseSet) (r : URange) :
    ∃ t' vm' new, t.encodeUb r vm col = some (t', vm', col ++ new) ∧ EncCall t vm cls ins own t' vm' new ∧
      (∀ b, r.contains b → b < ins.length → t'.EncUb b) ∧ (∀ b, t'.MarkUb b → r.contains b) ∧
      (∀ b, t'.MarkLb b → t.MarkLb b) ∧ (∀ b, t.EncLb b → t'.EncLb b) ∧ SoundIf t'.db new := by
  obtain ⟨t', vm', new, e, i1, i2, i4, i3, -⟩ := (h.reset .if_).encodeUbChange col r
  refine ⟨t', vm', new, e, ⟨i1.inv, i1.nVars, i1.nClauses, i1.used⟩, i2, fun b hb => ?_, fun b hb => ?_, fun b hb => ?_,
    by simpa using i3 [] (reset_soundIf t.db [])⟩
  · rcases i4.mUb b hb with ⟨-, id, -, h3⟩ | h
    · exact absurd ((reset_marked t.db .if_ id b).1 h3).2 (by simp [Semantics.hasIf])
    · exact h.1
  · rcases i4.mLb b hb with ⟨h1, id, h2, h3⟩ | h
    · exact ⟨h1, id, h2, ((reset_marked t.db .if_ id b).2 h3).1⟩
    · cases h.2
  · obtain ⟨h1, id, l, h2, h3⟩ := hb
    exact i4.kLb b ⟨h1, id, l, h2, h3.reset (Or.inr ⟨rfl, rfl⟩)⟩

theorem encodeLb [LawfulVM VM] {vm : VM} (h : t.Inv (ManageVars.nUsed vm) cls ins own) (col : ClauseSet) (r : URange) :
    ∃ t' vm' new, t.encodeLb r vm col = some (t', vm', col ++ new) ∧ EncCall t vm cls ins own t' vm' new ∧
      (∀ b, r.contains (b + 1) → b < ins.length → t'.EncLb b) ∧ (∀ b, t'.MarkLb b → r.contains (b + 1)) ∧
      (∀ b, t'.MarkUb b → t.MarkUb b) ∧ (∀ b, t.EncUb b → t'.EncUb b) ∧ SoundOnlyIf t'.db new := by
  obtain ⟨t', vm', new, e, i1, i2, i4, -, i3⟩ := (h.reset .onlyIf).encodeLbChange col r
  refine ⟨t', vm', new, e, ⟨i1.inv, i1.nVars, i1.nClauses, i1.used⟩, i2, fun b hb => ?_, fun b hb => ?_, fun b hb => ?_,
    by simpa using i3 [] (reset_soundOnlyIf t.db [])⟩
  · rcases i4.mLb b hb with ⟨-, id, -, h3⟩ | h
    · exact absurd ((reset_marked t.db .onlyIf id b).2 h3).2 (by simp [Semantics.hasOnlyIf])
    · exact h.1
  · rcases i4.mUb b hb with ⟨h1, id, h2, h3⟩ | h
    · exact ⟨h1, id, h2, ((reset_marked t.db .onlyIf id b).1 h3).1⟩
    · cases h.2
  · obtain ⟨h1, id, l, h2, h3⟩ := hb
    exact i4.kUb b ⟨h1, id, l, h2, h3.reset (Or.inl ⟨rfl, rfl⟩)⟩

theorem handedOut_trans {a b c : VM} (h1 : ManageVars.nUsed a ≤ ManageVars.nUsed b)
    (h2 : ManageVars.nUsed b ≤ ManageVars.nUsed c) :
    CardWorld.handedOut a b ++ CardWorld.handedOut b c = CardWorld.handedOut a c := by
  unfold CardWorld.handedOut
  have := List.range'_append_1 (s := ManageVars.nUsed a) (m := ManageVars.nUsed b - ManageVars.nUsed a)
    (n := ManageVars.nUsed c - ManageVars.nUsed b)
  rw [show ManageVars.nUsed a + (ManageVars.nUsed b - ManageVars.nUsed a) = ManageVars.nUsed b by omega] at this
  rw [this]
  congr 1
  omega

theorem _root_.RustSat.Totalizer.EncCall.trans {t1 t2 t3 : Totalizer} {a b c : VM} {n1 n2 : ClauseSet}
    (h1 : EncCall t1 a cls ins own t2 b n1) (h2 : EncCall t2 b (cls ++ n1) ins (own ++ CardWorld.handedOut a b) t3 c n2) :
    EncCall t1 a cls ins own t3 c (n1 ++ n2) := by
  have hh := handedOut_trans h1.used h2.used
  refine ⟨?_, ?_, ?_, Nat.le_trans h1.used h2.used⟩
  · have := h2.inv
    rw [List.append_assoc own, hh, List.append_assoc] at this
    exact this
  · rw [h2.nVars, h1.nVars, ← hh, List.length_append, Nat.add_assoc]
  · rw [h2.nClauses, h1.nClauses, List.length_append, Nat.add_assoc]

theorem encodeBoth [LawfulVM VM] {vm : VM} (h : t.Inv (ManageVars.nUsed vm) cls ins own) (col : ClauseSet) (r : URange) :
    ∃ t' vm' new, t.encodeBoth r vm col = some (t', vm', col ++ new) ∧ EncCall t vm cls ins own t' vm' new ∧
      (∀ b, r.contains b → b < ins.length → t'.EncUb b) ∧ (∀ b, r.contains (b + 1) → b < ins.length → t'.EncLb b) ∧
      (∀ b, t'.MarkUb b → t.MarkUb b ∨ r.contains b) ∧ (∀ b, t'.MarkLb b → t.MarkLb b ∨ r.contains (b + 1)) ∧
      (∀ b, t.EncUb b → t'.EncUb b) ∧ (∀ b, t.EncLb b → t'.EncLb b) := by
  obtain ⟨t1, vm1, n1, e1, c1, b1, d1, -⟩ := h.encodeUbChange col r
  obtain ⟨t2, vm2, n2, e2, c2, b2, d2, -⟩ := c1.inv.encodeLbChange (col ++ n1) r
  refine ⟨t2, vm2, n1 ++ n2, ?_, c1.trans c2, fun b hb hl => d2.kUb b (b1 b hb hl), b2, fun b hb => ?_, fun b hb => ?_,
    fun b hb => d2.kUb b (d1.kUb b hb), fun b hb => d2.kLb b (d1.kLb b hb)⟩
  rotate_left
  · rcases d2.mUb b hb with h | h
    · exact (d1.mUb b h).imp (fun h => h) fun h => h.1
    · cases h.2
  · rcases d2.mLb b hb with h | h
    · rcases d1.mLb b h with h | h
      · exact Or.inl h
      · cases h.2
    · exact Or.inr h.1
  unfold Totalizer.encodeBoth
  rw [e1]
  simp only
  rw [e2, List.append_assoc]

theorem reserve [LawfulVM VM] {vm : VM} (h : t.Inv (ManageVars.nUsed vm) cls ins own) :
    ∃ t' vm', t.reserve vm = some (t', vm') ∧
      t'.Inv (ManageVars.nUsed vm') cls ins (own ++ CardWorld.handedOut vm vm') ∧ t'.nClauses = t.nClauses ∧
      ManageVars.nUsed vm ≤ ManageVars.nUsed vm' ∧ ∀ Q sem, Trans t t' Q sem := by
  obtain ⟨t1, e1, inv1, b1, k1, k2, k3, k4, x1, tr1⟩ := h.extendTree
  unfold Totalizer.reserve
  rw [e1]
  simp only
  cases hr : t1.root with
  | none =>
    simp only
    exact ⟨_, _, rfl, by simpa [CardWorld.handedOut] using inv1, k2, Nat.le_refl _, tr1⟩
  | some id =>
    simp only
    obtain ⟨st, e2, s2, c2, a2⟩ := reserveVars_spec (id + 1) (⟨t1.db, vm, []⟩ : St VM) (NodeCon.full id) inv1.core.wf
      (Nat.lt_succ_self id) (Or.inr (Nat.zero_le _))
    rw [e2]
    simp only
    -- the step with the clauses so far
    have s3 : Step (⟨t1.db, vm, cls⟩ : St VM) ⟨st.db, st.vm, cls⟩ := by
      obtain ⟨new, en, c1', c2', c3', c4'⟩ := s2.cls
      rw [c2] at en
      simp only [List.nil_append] at en
      subst en
      exact ⟨s2.ref, s2.used, s2.fresh, s2.aux, ⟨[], by simp, c1', c2', c3', c4'⟩⟩
    have hc := Core.step (st := (⟨t1.db, vm, cls⟩ : St VM)) inv1.core s3
    rw [← hr]
    exact ⟨_, _, rfl, inv1.replace_db s2.ref hc t1.nClauses t1.nVars, k2, s2.used,
      fun Q sem => (tr1 Q sem).trans (Trans.of_db hr s2.ref (a2 id Q sem) t1.nClauses t1.nVars)⟩

/-- What `enforce_ub` returns. -/
theorem enforceUb_cases {n : Nat} (h : t.Inv n cls ins own) (b : Nat) :
    (ins.length ≤ b ∧ t.enforceUb b = .ok []) ∨
    (b < ins.length ∧ t.enforceUb b = .err .notEncoded ∧
      ¬ t.EncUb b) ∨
    (b < ins.length ∧ t.litBuffer = [] ∧ ∃ id l, t.root = some id ∧ HasLit t.db id b .if_ l ∧ t.enforceUb b = .ok [l.neg]) := by
  unfold Totalizer.enforceUb Totalizer.EncUb
  rw [h.nLits, h.off, Nat.sub_zero]
  by_cases hb : b ≥ ins.length
  · rw [if_pos hb]; exact Or.inl ⟨hb, rfl⟩
  · rw [if_neg hb]
    have hlt : b < ins.length := Nat.lt_of_not_le hb
    refine Or.inr ?_
    by_cases hbuf : t.litBuffer ≠ []
    · rw [if_pos hbuf]
      exact Or.inl ⟨hlt, rfl, fun hx => hbuf hx.1⟩
    · rw [if_neg hbuf]
      have hbuf' : t.litBuffer = [] := by simpa using hbuf
      cases hr : t.root with
      | none => exact Or.inl ⟨hlt, rfl, by rintro ⟨-, id, l, hx, -⟩; cases hx⟩
      | some id =>
        have hlen := h.rootLen hbuf' hr
        simp only
        cases hn : t.db.node id with
        | leaf l =>
          rw [hn] at hlen
          simp only [Node.len] at hlen
          refine Or.inr ⟨hlt, hbuf', id, l, rfl, Or.inl ⟨hn, by omega⟩, rfl⟩
        | dummy => rw [hn] at hlen; simp only [Node.len] at hlen; omega
        | general => have := (h.root id hr).2; rw [hn] at this; cases this
        | unit lits d nl lc rc =>
          rw [hn] at hlen
          simp only [Node.len] at hlen
          simp only [Nat.add_zero]
          have hg : (t.db.node id).isGeneral = false := by rw [hn]; rfl
          have hnot : ∀ d, lits[b]? = some d → (∀ l s, d = .lit l (some s) → s.hasIf = false) →
              ¬ (t.litBuffer = [] ∧ ∃ id' l, some id = some id' ∧ HasLit t.db id' b .if_ l) := by
            rintro d hd hno ⟨-, id', l, hid, hl⟩
            cases hid
            rcases hl with ⟨hl, -⟩ | ⟨s, -, hl, hs, -⟩
            · rw [hn] at hl; cases hl
            · rw [hn] at hl
              simp only [Node.outData, hd, Option.map_some, Option.some.injEq, Prod.mk.injEq] at hl
              rw [hno l s hl.2] at hs
              exact absurd (hs rfl) (by simp)
          have hget : lits[b]? = some lits[b] := List.getElem?_eq_getElem (by omega)
          rw [hget]
          generalize lits[b] = d at hget
          match d with
          | .none => exact Or.inl ⟨hlt, rfl, hnot _ hget (by intro l s he; cases he)⟩
          | .lit l none => exact Or.inl ⟨hlt, rfl, hnot _ hget (by intro l s he; cases he)⟩
          | .lit l (some s) =>
            simp only
            by_cases hs : s.hasIf = true
            · rw [if_pos hs]
              refine Or.inr ⟨hlt, hbuf', id, l, rfl, Or.inr ⟨s, hg, ?_, fun _ => hs, (fun h => by cases h)⟩, rfl⟩
              rw [hn]
              simp only [Node.outData, hget, Option.map_some]
            · rw [if_neg hs]
              refine Or.inl ⟨hlt, rfl, hnot _ hget ?_⟩
              intro l' s' he
              cases he
              simpa using hs

/-- What `enforce_lb` returns. -/
theorem enforceLb_cases {n : Nat} (h : t.Inv n cls ins own) (b : Nat) :
    (b = 0 ∧ t.enforceLb b = .ok []) ∨
    (ins.length < b ∧ t.enforceLb b = .err .unsat) ∨
    (0 < b ∧ b ≤ ins.length ∧ t.enforceLb b = .err .notEncoded ∧
      ¬ t.EncLb (b - 1)) ∨
    (0 < b ∧ b ≤ ins.length ∧ t.litBuffer = [] ∧
      ∃ id l, t.root = some id ∧ HasLit t.db id (b - 1) .onlyIf l ∧ t.enforceLb b = .ok [l]) := by
  unfold Totalizer.enforceLb Totalizer.EncLb
  rw [h.nLits, h.off, Nat.add_zero]
  by_cases hb : b ≤ 0
  · rw [if_pos hb]; exact Or.inl ⟨by omega, rfl⟩
  · rw [if_neg hb]
    refine Or.inr ?_
    by_cases hu : b > ins.length
    · rw [if_pos hu]; exact Or.inl ⟨hu, rfl⟩
    · rw [if_neg hu]
      refine Or.inr ?_
      have h0 : 0 < b := by omega
      have hle : b ≤ ins.length := by omega
      by_cases hbuf : t.litBuffer ≠ []
      · rw [if_pos hbuf]
        exact Or.inl ⟨h0, hle, rfl, fun hx => hbuf hx.1⟩
      · rw [if_neg hbuf]
        have hbuf' : t.litBuffer = [] := by simpa using hbuf
        cases hr : t.root with
        | none => exact Or.inl ⟨h0, hle, rfl, by rintro ⟨-, id, l, hx, -⟩; cases hx⟩
        | some id =>
          have hlen := h.rootLen hbuf' hr
          simp only
          cases hn : t.db.node id with
          | leaf l =>
            rw [hn] at hlen
            simp only [Node.len] at hlen
            refine Or.inr ⟨h0, hle, hbuf', id, l, rfl, Or.inl ⟨hn, by omega⟩, rfl⟩
          | dummy => rw [hn] at hlen; simp only [Node.len] at hlen; omega
          | general => have := (h.root id hr).2; rw [hn] at this; cases this
          | unit lits d nl lc rc =>
            rw [hn] at hlen
            simp only [Node.len] at hlen
            simp only [Nat.add_zero]
            have hg : (t.db.node id).isGeneral = false := by rw [hn]; rfl
            have hnot : ∀ d, lits[b - 1]? = some d → (∀ l s, d = .lit l (some s) → s.hasOnlyIf = false) →
                ¬ (t.litBuffer = [] ∧ ∃ id' l, some id = some id' ∧ HasLit t.db id' (b - 1) .onlyIf l) := by
              rintro d hd hno ⟨-, id', l, hid, hl⟩
              cases hid
              rcases hl with ⟨hl, -⟩ | ⟨s, -, hl, -, hs⟩
              · rw [hn] at hl; cases hl
              · rw [hn] at hl
                simp only [Node.outData, hd, Option.map_some, Option.some.injEq, Prod.mk.injEq] at hl
                rw [hno l s hl.2] at hs
                exact absurd (hs rfl) (by simp)
            have hget : lits[b - 1]? = some lits[b - 1] := List.getElem?_eq_getElem (by omega)
            rw [hget]
            generalize lits[b - 1] = d at hget
            match d with
            | .none => exact Or.inl ⟨h0, hle, rfl, hnot _ hget (by intro l s he; cases he)⟩
            | .lit l none => exact Or.inl ⟨h0, hle, rfl, hnot _ hget (by intro l s he; cases he)⟩
            | .lit l (some s) =>
              simp only
              by_cases hs : s.hasOnlyIf = true
              · rw [if_pos hs]
                refine Or.inr ⟨h0, hle, hbuf', id, l, rfl, Or.inr ⟨s, hg, ?_, (fun h => by cases h), fun _ => hs⟩, rfl⟩
                rw [hn]
                simp only [Node.outData, hget, Option.map_some]
              · rw [if_neg hs]
                refine Or.inl ⟨h0, hle, rfl, hnot _ hget ?_⟩
                intro l' s' he
                cases he
                simpa using hs

end Inv
end Totalizer

namespace CardWorld
variable {VM : Type} [ManageVars VM]

/-- The invariant of all reachable states. -/
structure Inv (w : CardWorld VM) : Prop where
  tot : w.tot.Inv (ManageVars.nUsed w.vm) w.cls w.ins w.own
  nClauses : w.tot.nClauses = w.cls.length
  ubEnc : ∀ b, b < w.ins.length → w.ub b → w.tot.EncUb b
  lbEnc : ∀ b, b < w.ins.length → w.lb (b + 1) → w.tot.EncLb b
  encUb : ∀ b, w.tot.MarkUb b → w.ub b
  encLb : ∀ b, w.tot.MarkLb b → w.lb (b + 1)

/-- What every operation guarantees. -/
structure Next (w w' : CardWorld VM) (op : CardOp VM) : Prop where
  inv : w'.Inv
  nVars : op ≠ .reserve → w.tot.nVars = w.own.length → w'.tot.nVars = w'.own.length

theorem start_inv (lits : List Lit) (vm : VM) (h : ∀ l ∈ lits, l.var < ManageVars.nUsed vm) : (start lits vm).Inv := by
  have hnode : ∀ i, Db.empty.node i = .dummy := fun i => by simp [Db.empty, Db.node]
  have hout : ∀ i k v l, ¬ OutAt Db.empty i k v l := by
    rintro i k v l ⟨s, hs⟩; rw [hnode] at hs; cases hs
  have hdat : ∀ i k, (Db.empty.node i).outData k = none := fun i k => by rw [hnode]; rfl
  refine ⟨⟨⟨⟨?_, ?_, ?_⟩, ⟨?_, ?_, ?_, ?_⟩, ?_, ?_, ?_, h, ?_, ?_, ?_, ?_, ?_⟩, ?_, rfl, rfl, ?_, ?_, ?_, ?_⟩, rfl, ?_, ?_, ?_, ?_⟩
  · intro i n hn; simp [start, Totalizer.new, Db.empty] at hn
  · intro l id hl; simp [start, Totalizer.new, Db.empty] at hl
  · intro id hd; simp [start, Totalizer.new, Db.empty] at hd
  · intro i l hl; rw [show (start lits vm).tot.db = Db.empty from rfl, hnode] at hl; cases hl
  · intro i k v l ho; exact absurd ho (hout i k v l)
  · intro i k v l _ _ ho; exact absurd ho (hout i k v l)
  · intro i k v _ _ _ l ho; exact absurd ho (hout i k v l)
  · intro i l hl; rw [show (start lits vm).tot.db = Db.empty from rfl, hnode] at hl; cases hl
  · intro i k v l ho; exact absurd ho (hout i k v l)
  · intro v hv; cases hv
  · intro l _ hv; cases hv
  · intro i k v l s hs; rw [show (start lits vm).tot.db = Db.empty from rfl, hdat] at hs; cases hs
  · intro _ i k v l s hs; rw [show (start lits vm).tot.db = Db.empty from rfl, hdat] at hs; cases hs
  · intro b _ c hc; cases hc
  · intro c hc; cases hc
  · intro i hi; simp [start, Totalizer.new, Db.empty] at hi
  · intro id hid; cases hid
  · intro T; simp [Totalizer.rootVal, start, Totalizer.new]
  · intro l hl; exact hl
  · intro _; rfl
  · intro b _ h; exact absurd h id
  · intro b _ h; exact absurd h id
  · rintro b ⟨-, id, h, -⟩; cases h
  · rintro b ⟨-, id, h, -⟩; cases h

theorem step_spec [LawfulVM VM] (w : CardWorld VM) (hw : w.Inv) (op : CardOp VM) (ha : w.allowed op) :
    ∃ w', w.step op = some w' ∧ Next w w' op := by
  obtain ⟨ht, hc, hu1, hl1, hu2, hl2⟩ := hw
  have enc : ∀ {r : Option (Totalizer × VM × ClauseSet)} {t' : Totalizer} {vm' : VM} {new : ClauseSet} (ub lb : Nat → Prop),
      r = some (t', vm', w.cls ++ new) → Totalizer.EncCall w.tot w.vm w.cls w.ins w.own t' vm' new →
      (∀ b, b < w.ins.length → ub b → t'.EncUb b) → (∀ b, b < w.ins.length → lb (b + 1) → t'.EncLb b) →
      (∀ b, t'.MarkUb b → ub b) → (∀ b, t'.MarkLb b → lb (b + 1)) →
      ∃ w', w.encoded r ub lb = some w' ∧ Next w w' op := by
    intro r t' vm' new ub lb e h a1 a2 a3 a4
    subst e
    refine ⟨_, rfl, ⟨h.inv, ?_, a1, a2, a3, a4⟩, fun _ hv => ?_⟩
    · simp only [h.nClauses, hc, List.length_append]
    · simp only [h.nVars, hv, List.length_append]
  cases op with
  | add lits =>
    refine ⟨_, rfl, ⟨⟨ht.core.add lits ha, ht.real, ht.off, ht.add, ht.root, fun T => ?_, fun l hl => ?_, ht.empty⟩, hc,
      ?_, ?_, ?_, ?_⟩, fun _ h => h⟩
    · have := ht.val T
      simp only [Totalizer.extend, cnt_append]
      unfold Totalizer.rootVal at this ⊢
      simp only
      omega
    · rcases List.mem_append.1 hl with h | h
      · exact List.mem_append_left _ (ht.buf l h)
      · exact List.mem_append_right _ h
    · rintro b hb ⟨h, rfl⟩
      obtain ⟨h1, h2⟩ := hu1 b (by simpa using hb) h
      exact ⟨by simp [Totalizer.extend, h1], h2⟩
    · rintro b hb ⟨h, rfl⟩
      obtain ⟨h1, h2⟩ := hl1 b (by simpa using hb) h
      exact ⟨by simp [Totalizer.extend, h1], h2⟩
    · rintro b ⟨h1, h2⟩
      obtain ⟨h3, h4⟩ := List.append_eq_nil_iff.1 h1
      exact ⟨hu2 b ⟨h3, h2⟩, h4⟩
    · rintro b ⟨h1, h2⟩
      obtain ⟨h3, h4⟩ := List.append_eq_nil_iff.1 h1
      exact ⟨hl2 b ⟨h3, h2⟩, h4⟩
  | encodeUb r =>
    obtain ⟨t', vm', new, e, h, k1, k2, k3, k4, -⟩ := ht.encodeUb w.cls r
    exact enc _ _ e h (fun b hb hr => k1 b hr hb) (fun b hb hr => k4 b (hl1 b hb hr)) k2 fun b hb => hl2 b (k3 b hb)
  | encodeUbChange r =>
    obtain ⟨t', vm', new, e, h, k1, k2, -⟩ := ht.encodeUbChange w.cls r
    exact enc _ _ e h (fun b hb hr => hr.elim (fun hr => k2.kUb b (hu1 b hb hr)) fun hr => k1 b hr hb)
      (fun b hb hr => k2.kLb b (hl1 b hb hr)) (fun b hb => (k2.mUb b hb).imp (hu2 b) fun h => h.1)
      fun b hb => (k2.mLb b hb).elim (hl2 b) fun h => by cases h.2
  | encodeLb r =>
    obtain ⟨t', vm', new, e, h, k1, k2, k3, k4, -⟩ := ht.encodeLb w.cls r
    exact enc _ _ e h (fun b hb hr => k4 b (hu1 b hb hr)) (fun b hb hr => k1 b hr hb) (fun b hb => hu2 b (k3 b hb)) k2
  | encodeLbChange r =>
    obtain ⟨t', vm', new, e, h, k1, k2, -⟩ := ht.encodeLbChange w.cls r
    exact enc _ _ e h (fun b hb hr => k2.kUb b (hu1 b hb hr))
      (fun b hb hr => hr.elim (fun hr => k2.kLb b (hl1 b hb hr)) fun hr => k1 b hr hb)
      (fun b hb => (k2.mUb b hb).elim (hu2 b) fun h => by cases h.2)
      fun b hb => (k2.mLb b hb).imp (hl2 b) fun h => h.1
  | encodeBoth r =>
    obtain ⟨t', vm', new, e, h, k1, k2, k3, k4, k5, k6⟩ := ht.encodeBoth w.cls r
    exact enc _ _ e h (fun b hb hr => hr.elim (fun hr => k5 b (hu1 b hb hr)) fun hr => k1 b hr hb)
      (fun b hb hr => hr.elim (fun hr => k6 b (hl1 b hb hr)) fun hr => k2 b hr hb)
      (fun b hb => (k3 b hb).imp (hu2 b) fun h => h) fun b hb => (k4 b hb).imp (hl2 b) fun h => h
  | reserve =>
    obtain ⟨t', vm', e, h1, h2, h3, h4⟩ := ht.reserve
    have k2 := h4 (fun _ => False) .iff_
    refine ⟨⟨t', vm', w.cls, w.ins, w.own ++ handedOut w.vm vm', w.ub, w.lb⟩, ?_,
      ⟨h1, ?_, fun b hb hr => k2.kUb b (hu1 b hb hr), fun b hb hr => k2.kLb b (hl1 b hb hr),
        fun b hb => (k2.mUb b hb).elim (hu2 b) fun h => h.1.elim, fun b hb => (k2.mLb b hb).elim (hl2 b) fun h => h.1.elim⟩,
      fun h => absurd rfl h⟩
    · simp only [CardWorld.step, e, Option.map_some, encoded]
    · simp only [h2, hc]
  | useVars vm =>
    exact ⟨_, rfl, ⟨{ ht with core := ht.core.more ha }, hc, hu1, hl1, hu2, hl2⟩, fun _ h => h⟩

theorem Reach.inv [LawfulVM VM] {R : CardOp VM → Prop} {w : CardWorld VM} (h : Reach R w) : w.Inv := by
  induction h with
  | start lits vm h => exact start_inv lits vm h
  | step w w' op _ _ ha hs ih =>
    obtain ⟨w2, e, n⟩ := step_spec w ih op ha
    rw [e] at hs
    cases hs
    exact n.inv

end CardWorld
end RustSat
