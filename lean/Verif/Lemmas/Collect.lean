import Verif.Spec.Collect
/-
Lemmas about clause collectors.
-/
namespace RustSat.Collect

theorem le_nextPow2 (n : Nat) : n ≤ nextPow2 n := by
  unfold nextPow2
  by_cases h : n ≤ 1
  · rw [if_pos h]; exact h
  · rw [if_neg h]
    have := Nat.lt_log2_self (n := n - 1)
    omega

theorem nextPow2_lt {n : Nat} (h : 0 < n) : nextPow2 n < 2 * n := by
  unfold nextPow2
  by_cases h1 : n ≤ 1
  · rw [if_pos h1]; omega
  · rw [if_neg h1, Nat.pow_succ]
    have := Nat.log2_self_le (n := n - 1) (by omega)
    omega

theorem nextPow2_le {n k : Nat} (h : n ≤ 2 ^ k) : nextPow2 n ≤ 2 ^ k := by
  unfold nextPow2
  by_cases h1 : n ≤ 1
  · rw [if_pos h1]; exact Nat.one_le_two_pow
  · rw [if_neg h1]
    refine Nat.pow_le_pow_right (by omega) ?_
    exact (Nat.log2_lt (by omega)).2 (by omega)

variable {alloc : Nat → Bool} {b b' : Buf} {k n : Nat}

theorem grow_some (h : grow alloc b k = some b') : b'.clauses = b.clauses ∧ b.clauses.length + k ≤ b'.cap := by
  unfold grow at h
  simp only at h
  split at h
  · cases h
    exact ⟨rfl, Nat.le_trans (Nat.le_max_right _ _) (Nat.le_max_right _ _)⟩
  · cases h

theorem tryReserve_some (h : tryReserve alloc b k = some b') (hk : 0 < k) :
    b'.clauses = b.clauses ∧ b.clauses.length + k ≤ b'.cap := by
  unfold tryReserve at h
  by_cases hc : k ≤ b.cap - b.clauses.length
  · rw [if_pos hc] at h; cases h
    exact ⟨rfl, by omega⟩
  · rw [if_neg hc] at h; exact grow_some h

/-- Pushing into a vector with enough capacity. -/
theorem extend_fits (lower : ClauseSet → Nat) : ∀ (cs : ClauseSet) (b : Buf), b.clauses.length + cs.length ≤ b.cap →
    extend alloc lower b cs = .ok { b with clauses := b.clauses ++ cs } := by
  intro cs
  induction cs with
  | nil => intro b _; simp [extend]
  | cons c cs ih =>
    intro b h
    simp only [List.length_cons] at h
    unfold extend push
    rw [if_pos (by omega)]
    simp only
    rw [ih _ (by simp; omega)]
    simp

theorem extendLimited_fits : ∀ (n : Nat) (cs : ClauseSet) (b : Buf), b.clauses.length + n ≤ b.cap →
    extendLimited alloc n b cs = .ok ({ b with clauses := b.clauses ++ cs.take n }, cs.drop n) := by
  intro n
  induction n with
  | zero => intro cs b _; simp [extendLimited]
  | succ n ih =>
    intro cs b h
    cases cs with
    | nil => simp [extendLimited]
    | cons c cs =>
      unfold extendLimited push
      rw [if_pos (by omega)]
      simp only
      rw [ih _ _ (by simp; omega)]
      simp

/-- What the loop does. -/
def ChunksEnd (b : Buf) (cs : ClauseSet) : End Buf → Prop
  | .ok b' => b'.clauses = b.clauses ++ cs
  | .oom b' => ∃ p, p <+: cs ∧ p ≠ cs ∧ b'.clauses = b.clauses ++ p
  | .abort => False
  | .panic => 2 ^ 63 < b.clauses.length + cs.length

theorem chunks_spec (lower : ClauseSet → Nat) : ∀ (fuel : Nat) (cs : ClauseSet) (b : Buf),
    (∀ rest, rest <:+ cs → lower rest ≤ rest.length) → cs.length ≤ fuel → ChunksEnd b cs (chunks alloc lower fuel b cs) := by
  intro fuel
  induction fuel with
  | zero =>
    intro cs b _ hf
    cases cs with
    | nil => simp [chunks, ChunksEnd]
    | cons c cs => simp at hf
  | succ fuel ih =>
    intro cs b hl hf
    cases cs with
    | nil => simp [chunks, ChunksEnd]
    | cons c cs =>
      simp only [List.length_cons] at hf
      have hlow := hl cs (List.suffix_cons c cs)
      unfold chunks
      simp only
      have hn1 : b.clauses.length + max (lower cs + 1) 1 ≤ b.clauses.length + (cs.length + 1) := by omega
      have hn0 : b.clauses.length < b.clauses.length + max (lower cs + 1) 1 := by omega
      generalize b.clauses.length + max (lower cs + 1) 1 = total at hn1 hn0
      have hp := le_nextPow2 total
      by_cases hov : 2 ^ 64 ≤ total ∨ 2 ^ 64 ≤ nextPow2 total
      · rw [if_pos hov]
        show 2 ^ 63 < b.clauses.length + (cs.length + 1)
        apply Nat.lt_of_not_le
        intro hle
        have := nextPow2_le (n := total) (k := 63) (by omega)
        omega
      · rw [if_neg hov]
        cases hr : tryReserve alloc b (nextPow2 total - b.clauses.length) with
        | none => exact ⟨[], List.nil_prefix, by simp, by simp⟩
        | some b1 =>
          obtain ⟨e1, hc⟩ := tryReserve_some hr (by omega)
          simp only
          rw [extendLimited_fits _ _ _ (by rw [e1]; exact hc)]
          simp only
          have hk : 0 < nextPow2 total - b.clauses.length := by omega
          generalize nextPow2 total - b.clauses.length = k at hk
          have hd : (List.drop k (c :: cs)) <:+ c :: cs := List.drop_suffix _ _
          have := ih (List.drop k (c :: cs)) { b1 with clauses := b1.clauses ++ List.take k (c :: cs) }
            (fun rest hs => hl rest (hs.trans hd)) (by rw [List.length_drop, List.length_cons]; omega)
          generalize chunks alloc lower fuel { b1 with clauses := b1.clauses ++ List.take k (c :: cs) }
            (List.drop k (c :: cs)) = res at this
          cases res with
          | ok b2 =>
            simp only [ChunksEnd] at this ⊢
            rw [this, e1, List.append_assoc, List.take_append_drop]
          | oom b2 =>
            obtain ⟨p, h1, h2, h3⟩ := this
            refine ⟨List.take k (c :: cs) ++ p, ?_, ?_, ?_⟩
            · obtain ⟨q, hq⟩ := h1
              exact ⟨q, by rw [List.append_assoc, hq, List.take_append_drop]⟩
            · intro he
              apply h2
              have h4 : List.take k (c :: cs) ++ p = List.take k (c :: cs) ++ List.drop k (c :: cs) := by
                rw [he, List.take_append_drop]
              exact List.append_cancel_left h4
            · rw [h3, e1, List.append_assoc]
          | abort => exact this
          | panic =>
            simp only [ChunksEnd, e1] at this ⊢
            rw [List.length_append, Nat.add_assoc, ← List.length_append, List.take_append_drop] at this
            exact this

/-- With enough memory the loop does not run out of memory. -/
theorem chunks_enough (lower : ClauseSet → Nat) : ∀ (fuel : Nat) (cs : ClauseSet) (b : Buf),
    (∀ rest, rest <:+ cs → lower rest ≤ rest.length) → cs.length ≤ fuel →
    (∀ n, n ≤ 4 * (b.clauses.length + cs.length) → alloc n = true) →
    ∀ b', chunks alloc lower fuel b cs ≠ .oom b' := by
  intro fuel
  induction fuel with
  | zero =>
    intro cs b _ hf
    cases cs with
    | nil => simp [chunks]
    | cons c cs => simp at hf
  | succ fuel ih =>
    intro cs b hl hf ha b'
    cases cs with
    | nil => simp [chunks]
    | cons c cs =>
      simp only [List.length_cons] at hf ha
      have hlow := hl cs (List.suffix_cons c cs)
      unfold chunks
      simp only
      have hn1 : b.clauses.length + max (lower cs + 1) 1 ≤ b.clauses.length + (cs.length + 1) := by omega
      have hn0 : b.clauses.length < b.clauses.length + max (lower cs + 1) 1 := by omega
      generalize b.clauses.length + max (lower cs + 1) 1 = total at hn1 hn0
      have hp := le_nextPow2 total
      have hq := nextPow2_lt (n := total) (by omega)
      by_cases hov : 2 ^ 64 ≤ total ∨ 2 ^ 64 ≤ nextPow2 total
      · rw [if_pos hov]; simp
      · rw [if_neg hov]
        cases hr : tryReserve alloc b (nextPow2 total - b.clauses.length) with
        | none =>
          exfalso
          unfold tryReserve at hr
          by_cases hc : nextPow2 total - b.clauses.length ≤ b.cap - b.clauses.length
          · rw [if_pos hc] at hr; cases hr
          · rw [if_neg hc] at hr
            unfold grow at hr
            simp only at hr
            rw [if_pos (ha _ (by omega))] at hr
            cases hr
        | some b1 =>
          obtain ⟨e1, hc⟩ := tryReserve_some hr (by omega)
          simp only
          rw [extendLimited_fits _ _ _ (by rw [e1]; exact hc)]
          simp only
          have hk : 0 < nextPow2 total - b.clauses.length := by omega
          generalize nextPow2 total - b.clauses.length = k at hk
          have hd : (List.drop k (c :: cs)) <:+ c :: cs := List.drop_suffix _ _
          refine ih (List.drop k (c :: cs)) { b1 with clauses := b1.clauses ++ List.take k (c :: cs) }
            (fun rest hs => hl rest (hs.trans hd)) (by rw [List.length_drop, List.length_cons]; omega) (fun n hn => ha n ?_) b'
          simp only [e1] at hn
          rw [List.length_append, Nat.add_assoc, ← List.length_append, List.take_append_drop] at hn
          exact hn

end RustSat.Collect
