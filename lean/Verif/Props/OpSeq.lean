import Verif.Lemmas.OpSeq
/-
C107: sequences of proof operations are what was put into them.
-/
namespace RustSat
namespace Pigeons

open IntOpSeq in
/-- **C107.** Whatever expression a sequence is built by, it has exactly the operations of the expression in
reverse polish notation, the assigning operators make no difference, and it panics exactly when something that is
not empty is divided by zero. -/
theorem C107_polish (e : SeqExpr) :
    (∀ x, e.polish = some x → ∃ s, e.run = .ok s ∧ s.items = x ∧ s.Canon) ∧ (e.polish = none → e.run = .panic) := by
  induction e with
  | empty => exact ⟨fun x h => by cases h; exact ⟨_, rfl, rfl, trivial⟩, fun h => by cases h⟩
  | op o => exact ⟨fun x h => by cases h; exact ⟨_, rfl, rfl, trivial⟩, fun h => by cases h⟩
  | add assign a b iha ihb =>
    simp only [SeqExpr.run, SeqExpr.polish]
    cases ha : a.polish with
    | none => rw [iha.2 ha]; exact ⟨fun x h => (by cases h), fun _ => rfl⟩
    | some x =>
      obtain ⟨s, hs, rfl, cs⟩ := iha.1 x ha
      cases hb : b.polish with
      | none => rw [ihb.2 hb, hs]; exact ⟨fun x h => (by cases h), fun _ => rfl⟩
      | some y =>
        obtain ⟨r, hr, rfl, cr⟩ := ihb.1 y hb
        rw [hs, hr]
        refine ⟨fun x h => ?_, fun h => by cases h⟩
        cases h
        refine ⟨_, rfl, ?_⟩
        cases assign
        · exact add_spec s r cs cr
        · exact addAssign_spec s r cs cr
  | mul a k ih =>
    simp only [SeqExpr.run, SeqExpr.polish]
    cases ha : a.polish with
    | none => rw [ih.2 ha]; exact ⟨fun x h => (by cases h), fun _ => rfl⟩
    | some x =>
      obtain ⟨s, hs, rfl, cs⟩ := ih.1 x ha
      rw [hs]
      refine ⟨fun x h => ?_, fun h => by cases h⟩
      cases h
      refine ⟨_, rfl, ?_⟩
      unfold IntOpSeq.mul
      by_cases hk : k = 0
      · simp [hk, items, Canon]
      · have e1 := isEmpty_iff s cs
        by_cases h1 : s.items = []
        · simp [hk, e1.2 h1, h1, cs]
        · have : s.isEmpty = false := by simpa using fun h => h1 (e1.1 h)
          by_cases h2 : k = 1
          · simp [h2, h1, cs]
          · have : k > 1 := by omega
            simp [*, items_push, canon_push _ _ cs]
  | div a k ih =>
    simp only [SeqExpr.run, SeqExpr.polish]
    cases ha : a.polish with
    | none => rw [ih.2 ha]; exact ⟨fun x h => (by cases h), fun _ => rfl⟩
    | some x =>
      obtain ⟨s, hs, rfl, cs⟩ := ih.1 x ha
      rw [hs]
      have e1 := isEmpty_iff s cs
      by_cases h1 : s.items = []
      · simp [IntOpSeq.div, e1.2 h1, h1, cs]
      · have h3 : s.isEmpty = false := by simpa using fun h => h1 (e1.1 h)
        by_cases h2 : k = 0
        · simp [IntOpSeq.div, h3, h1, h2]
        · simp [IntOpSeq.div, h3, h1, h2, items_push, canon_push _ _ cs]
  | saturate a ih =>
    simp only [SeqExpr.run, SeqExpr.polish]
    cases ha : a.polish with
    | none => rw [ih.2 ha]; exact ⟨fun x h => (by cases h), fun _ => rfl⟩
    | some x =>
      obtain ⟨s, hs, rfl, cs⟩ := ih.1 x ha
      rw [hs]
      exact ⟨fun x h => by cases h; exact ⟨_, rfl, pushIf_spec s _ cs⟩, fun h => by cases h⟩
  | weaken a ih =>
    simp only [SeqExpr.run, SeqExpr.polish]
    cases ha : a.polish with
    | none => rw [ih.2 ha]; exact ⟨fun x h => (by cases h), fun _ => rfl⟩
    | some x =>
      obtain ⟨s, hs, rfl, cs⟩ := ih.1 x ha
      rw [hs]
      exact ⟨fun x h => by cases h; exact ⟨_, rfl, pushIf_spec s _ cs⟩, fun h => by cases h⟩

/-- **C107.** `is_empty` tells whether writing the sequence panics; otherwise its operations are written. -/
theorem C107_written (e : SeqExpr) (s : IntOpSeq) (h : e.run = .ok s) :
    (s.isEmpty = true ↔ e.polish = some []) ∧ (s.isEmpty = true ↔ s.written = .panic) ∧
    (s.isEmpty = false → ∃ x, e.polish = some x ∧ s.written = .ok x) := by
  cases hp : e.polish with
  | none => rw [(C107_polish e).2 hp] at h; cases h
  | some x =>
    obtain ⟨t, ht, rfl, ct⟩ := (C107_polish e).1 x hp
    rw [h] at ht
    cases ht
    refine ⟨by rw [IntOpSeq.isEmpty_iff s ct]; simp, ?_, fun hf => ?_⟩
    · cases s <;> simp [IntOpSeq.isEmpty, IntOpSeq.written]
    · cases s <;> simp_all [IntOpSeq.isEmpty, IntOpSeq.written, IntOpSeq.items]

/-- **C107.** The sequences of the proofs of C61 and after are these: sums, products, quotients and saturations of
lists are the ones of the representation. -/
theorem C107_lists (s r : IntOpSeq) (k : Nat) (hs : s.Canon) (hr : r.Canon) (hk : k ≠ 0) :
    (s.add r).items = Ops.add s.items r.items ∧ (s.addAssign r).items = Ops.add s.items r.items ∧
    (s.mul k).items = Ops.mul s.items k ∧ (∃ t, s.div k = .ok t ∧ t.items = Ops.div s.items k) ∧
    s.saturate.items = Ops.saturate s.items ∧ s.weaken.items = Ops.weaken s.items := by
  have e1 := IntOpSeq.isEmpty_iff s hs
  refine ⟨(IntOpSeq.add_spec s r hs hr).1, (IntOpSeq.addAssign_spec s r hs hr).1, ?_⟩
  by_cases h1 : s.items = []
  · simp [IntOpSeq.mul, IntOpSeq.div, IntOpSeq.saturate, IntOpSeq.weaken, Ops.mul, Ops.div, Ops.saturate, Ops.weaken, e1.2 h1,
      h1, hk]
  · have h3 : s.isEmpty = false := by simpa using fun h => h1 (e1.1 h)
    by_cases h2 : 1 < k <;>
    simp [IntOpSeq.mul, IntOpSeq.div, IntOpSeq.saturate, IntOpSeq.weaken, Ops.mul, Ops.div, Ops.saturate, Ops.weaken, h3,
      h1, hk, h2, IntOpSeq.items_push]

/-- `((3 + 0 * 4) * 2 + (~x0 + 5)) / 3`, saturated. -/
def seqDemo (assign : Bool) : SeqExpr :=
  .saturate (.div (.add assign (.mul (.add assign (.op (.id 3)) (.mul (.op (.id 4)) 0)) 2)
    (.add assign (.op (.ax (Lit.negOf 0))) (.op (.id 5)))) 3)
/-- Non-vacuity. -/
example : (seqDemo true).run = (seqDemo false).run ∧
    (seqDemo true).run = .ok (.sequence [.id 3, .mult 2, .ax (Lit.negOf 0), .id 5, .add, .add, .div 3, .sat]) := by decide
/-- Non-vacuity: division by zero. -/
example : (SeqExpr.div (.op (.id 3)) 0).run = .panic ∧ (SeqExpr.div (.mul (.op (.id 3)) 0) 0).run = .ok .empty := by decide
/-- Non-vacuity of `C107_lists`. -/
example : (IntOpSeq.sequence [.id 3, .mult 2]).Canon ∧ (IntOpSeq.singleton (.id 3)).Canon ∧ ((3 : Nat) ≠ 0) := by
  simp [IntOpSeq.Canon]

end Pigeons
end RustSat
