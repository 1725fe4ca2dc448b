import Verif.Lemmas.Collect
/-
C98: clause collectors.
-/
namespace RustSat.Collect
variable {alloc : Nat → Bool} {b b' : Buf} {it : ClauseIter}

/-- Memory for up to `n` clauses. -/
def upTo (n : Nat) : Nat → Bool := fun k => decide (k ≤ n)

/-- What is in the vector in the end; `none` for an abort or a panic. -/
def End.contents : End Buf → Option (Bool × ClauseSet)
  | .ok b => some (true, b.clauses)
  | .oom b => some (false, b.clauses)
  | _ => none

/-- Five clauses from an iterator that promises nothing. -/
def unknown : ClauseIter :=
  ⟨[[Lit.pos 0], [Lit.pos 1], [Lit.pos 2], [Lit.pos 3], [Lit.pos 4]], fun _ => 0, fun _ => none⟩

theorem unknown_sound : unknown.Sound := ⟨fun _ _ => Nat.zero_le _, fun _ h => by cases h⟩

/-- **C98.** If `extend_clauses` of a CNF formula succeeds, exactly the clauses of the iterator have been added, in their
order. -/
theorem C98_cnf_ok (hs : it.Sound) (h : extendClauses alloc b it = .ok b') : b'.clauses = b.clauses ++ it.items := by
  unfold extendClauses at h
  cases hu : it.upper it.items with
  | none =>
    rw [hu] at h
    have := chunks_spec (alloc := alloc) it.lower it.items.length it.items b hs.lower (Nat.le_refl _)
    simp only at h
    rw [h] at this
    exact this
  | some u =>
    rw [hu] at h
    simp only at h
    have hle := hs.upper u hu
    cases hr : tryReserve alloc b u with
    | none => rw [hr] at h; cases h
    | some b1 =>
      rw [hr] at h
      simp only at h
      cases u with
      | zero =>
        have hi : it.items = [] := List.eq_nil_of_length_eq_zero (by omega)
        have h0 : tryReserve alloc b 0 = some b := if_pos (Nat.zero_le _)
        rw [h0] at hr
        cases hr
        rw [hi, extend] at h
        cases h
        rw [hi, List.append_nil]
      | succ u =>
        obtain ⟨e1, hc⟩ := tryReserve_some hr (Nat.succ_pos _)
        rw [extend_fits _ _ _ (by rw [e1]; omega)] at h
        cases h
        rw [e1]

/-- Non-vacuity: three reservations, for 1, 1 and 2 further clauses, then the next 4. -/
example : (extendClauses (upTo 20) ⟨[[Lit.pos 9]], 1⟩ unknown).contents =
    some (true, [[Lit.pos 9], [Lit.pos 0], [Lit.pos 1], [Lit.pos 2], [Lit.pos 3], [Lit.pos 4]]) := by decide

/-- **C98.** If it reports that memory ran out, some first clauses of the iterator have been added but not all, and none if
the iterator knows an upper bound; everything added before is kept. -/
theorem C98_cnf_out_of_memory (hs : it.Sound) (h : extendClauses alloc b it = .oom b') :
    ∃ p, p <+: it.items ∧ b'.clauses = b.clauses ++ p ∧
      (it.upper it.items = none → p ≠ it.items) ∧ (it.upper it.items ≠ none → p = []) := by
  unfold extendClauses at h
  cases hu : it.upper it.items with
  | none =>
    rw [hu] at h
    have := chunks_spec (alloc := alloc) it.lower it.items.length it.items b hs.lower (Nat.le_refl _)
    simp only at h
    rw [h] at this
    obtain ⟨p, h1, h2, h3⟩ := this
    exact ⟨p, h1, h3, fun _ => h2, fun h => absurd rfl h⟩
  | some u =>
    rw [hu] at h
    simp only at h
    have hle := hs.upper u hu
    refine ⟨[], List.nil_prefix, ?_, (fun h => by cases h), fun _ => rfl⟩
    cases hr : tryReserve alloc b u with
    | none => rw [hr] at h; cases h; simp
    | some b1 =>
      rw [hr] at h
      simp only at h
      cases u with
      | zero =>
        have hi : it.items = [] := List.eq_nil_of_length_eq_zero (by omega)
        rw [hi, extend] at h
        cases h
      | succ u =>
        obtain ⟨e1, hc⟩ := tryReserve_some hr (Nat.succ_pos _)
        rw [extend_fits _ _ _ (by rw [e1]; omega)] at h
        cases h

/-- Non-vacuity: with memory for at most 5 clauses the first four fit (the vector is not extended to 5). -/
example : (extendClauses (upTo 5) ⟨[], 0⟩ unknown).contents =
    some (false, [[Lit.pos 0], [Lit.pos 1], [Lit.pos 2], [Lit.pos 3]]) := by decide

/-- **C98.** Running out of memory is always reported: the process is never aborted by an allocation in
`extend_clauses`, and it does not panic as long as there are at most 2^63 clauses in all. -/
theorem C98_cnf_no_abort (hs : it.Sound) : extendClauses alloc b it ≠ .abort ∧
    (b.clauses.length + it.items.length ≤ 2 ^ 63 → extendClauses alloc b it ≠ .panic) := by
  unfold extendClauses
  cases hu : it.upper it.items with
  | none =>
    have := chunks_spec (alloc := alloc) it.lower it.items.length it.items b hs.lower (Nat.le_refl _)
    simp only
    refine ⟨fun h => ?_, fun hb h => ?_⟩
    · rw [h] at this; exact this
    · rw [h] at this; exact absurd this (Nat.not_lt.2 hb)
  | some u =>
    have hle := hs.upper u hu
    simp only
    cases hr : tryReserve alloc b u with
    | none => simp
    | some b1 =>
      simp only
      cases u with
      | zero =>
        have hi : it.items = [] := List.eq_nil_of_length_eq_zero (by omega)
        rw [hi, extend]
        simp
      | succ u =>
        obtain ⟨e1, hc⟩ := tryReserve_some hr (Nat.succ_pos _)
        rw [extend_fits _ _ _ (by rw [e1]; omega)]
        simp

/-- Beside it: an iterator that promises too little does make the process abort. -/
example : (extendClauses (upTo 4) ⟨[], 0⟩ { unknown with upper := fun _ => some 2 }).contents = none := by decide

/-- **C98 (partial).** `extend_clauses` succeeds if memory for four times the clauses in all can be allocated, or, for an
iterator with an upper bound, memory for twice the clauses and this bound. Missing: an upper bound larger than the number
of clauses counts as needed, see `C98_violated_bound`. -/
theorem C98_cnf_enough_partial (hs : it.Sound) (hn : b.clauses.length + it.items.length ≤ 2 ^ 63)
    (h1 : it.upper it.items = none → ∀ n, n ≤ 4 * (b.clauses.length + it.items.length) → alloc n = true)
    (h2 : ∀ u, it.upper it.items = some u → ∀ n, n ≤ max 4 (2 * (b.clauses.length + u)) → alloc n = true) :
    ∃ b', extendClauses alloc b it = .ok b' := by
  have hna := C98_cnf_no_abort (alloc := alloc) (b := b) hs
  cases hx : extendClauses alloc b it with
  | ok b' => exact ⟨b', rfl⟩
  | abort => exact absurd hx hna.1
  | panic => exact absurd hx (hna.2 hn)
  | oom b' =>
    exfalso
    cases hu : it.upper it.items with
    | none =>
      unfold extendClauses at hx
      rw [hu] at hx
      exact chunks_enough it.lower it.items.length it.items b hs.lower (Nat.le_refl _) (h1 hu) b' hx
    | some u =>
      have hle := hs.upper u hu
      unfold extendClauses at hx
      rw [hu] at hx
      simp only at hx
      cases hr : tryReserve alloc b u with
      | none =>
        unfold tryReserve at hr
        by_cases hc : u ≤ b.cap - b.clauses.length
        · rw [if_pos hc] at hr; cases hr
        · rw [if_neg hc] at hr
          unfold grow at hr
          simp only at hr
          rw [if_pos (h2 u hu _ (by omega))] at hr
          cases hr
      | some b1 =>
        rw [hr] at hx
        simp only at hx
        cases u with
        | zero =>
          have hi : it.items = [] := List.eq_nil_of_length_eq_zero (by omega)
          rw [hi, extend] at hx
          cases hx
        | succ u =>
          obtain ⟨e1, hc⟩ := tryReserve_some hr (Nat.succ_pos _)
          rw [extend_fits _ _ _ (by rw [e1]; omega)] at hx
          cases hx

example : (extendClauses (upTo 20) ⟨[], 0⟩ unknown).contents = some (true, unknown.items) := by decide

/-- **C98, violated.** A single clause from an iterator that only knows that it yields at most 1000 (as for a filter) is
not added although there is memory for 500. -/
theorem C98_violated_bound : ∃ it : ClauseIter, it.Sound ∧ it.items.length = 1 ∧
    (extendClauses (upTo 500) ⟨[], 0⟩ it).contents = some (false, []) := by
  refine ⟨⟨[[Lit.pos 0]], fun _ => 0, fun _ => some 1000⟩, ⟨fun _ _ => Nat.zero_le _, fun u h => ?_⟩, rfl, by decide⟩
  cases h
  decide

/-- **C98.** Adding one clause adds it, or adds nothing and reports that memory ran out. -/
theorem C98_add_clause (alloc : Nat → Bool) (b : Buf) (c : Clause) :
    (∃ b', addClause alloc b c = .ok b' ∧ b'.clauses = b.clauses ++ [c]) ∨
    (∃ b', addClause alloc b c = .oom b' ∧ b'.clauses = b.clauses) := by
  have hs : (⟨[c], List.length, fun l => some l.length⟩ : ClauseIter).Sound :=
    ⟨fun _ _ => Nat.le_refl _, fun u h => by cases h; exact Nat.le_refl _⟩
  cases hx : addClause alloc b c with
  | ok b' => exact Or.inl ⟨b', rfl, C98_cnf_ok hs hx⟩
  | oom b' =>
    obtain ⟨p, -, h, -, hp⟩ := C98_cnf_out_of_memory hs hx
    rw [hp (by simp), List.append_nil] at h
    exact Or.inr ⟨b', rfl, h⟩
  | abort => exact absurd hx (C98_cnf_no_abort hs).1
  | panic =>
    exfalso
    unfold addClause extendClauses at hx
    simp only at hx
    cases hr : tryReserve alloc b [c].length with
    | none => rw [hr] at hx; cases hx
    | some b1 =>
      rw [hr] at hx
      simp only at hx
      obtain ⟨e1, hc⟩ := tryReserve_some hr (by simp)
      rw [extend_fits _ _ _ (by rw [e1]; exact hc)] at hx
      cases hx

example : (addClause (upTo 4) ⟨[], 0⟩ [Lit.pos 1]).contents = some (true, [[Lit.pos 1]]) ∧
    (addClause (upTo 3) ⟨[], 0⟩ [Lit.pos 1]).contents = some (false, []) := by decide

variable {S : Type} {add : S → Clause → Res AddErr Unit × S}

/-- Adding clauses to a solver one after the other until one fails. -/
def addAll (add : S → Clause → Res AddErr Unit × S) (s : S) (cs : ClauseSet) : S := cs.foldl (fun s c => (add s c).2) s

/-- **C98.** A solver as a collector gets the clauses one by one: if it succeeds, all of them were added without an error;
if memory runs out, this was at one of them and all before were added. -/
theorem C98_solver (s s' : S) (cs : ClauseSet) :
    (solverExtend add s cs = .ok s' → s' = addAll add s cs ∧
      ∀ p c q, cs = p ++ c :: q → (add (addAll add s p) c).1 = .ok ()) ∧
    (solverExtend add s cs = .oom s' → ∃ p c q, cs = p ++ c :: q ∧ s' = addAll add s (p ++ [c]) ∧
      (add (addAll add s p) c).1 = .err .outOfMemory) := by
  induction cs generalizing s with
  | nil =>
    refine ⟨fun h => ?_, fun h => by cases h⟩
    cases h
    exact ⟨rfl, fun p c q h => by simp at h⟩
  | cons c cs ih =>
    obtain ⟨i1, i2⟩ := ih (add s c).2
    unfold solverExtend
    cases hx : add s c with
    | mk r s1 =>
      rw [hx] at i1 i2
      cases r with
      | ok u =>
        simp only at i1 i2 ⊢
        refine ⟨fun h => ?_, fun h => ?_⟩
        · obtain ⟨e, h⟩ := i1 h
          refine ⟨by rw [e, addAll, addAll, List.foldl_cons, hx], fun p c' q he => ?_⟩
          cases p with
          | nil => cases he; exact congrArg Prod.fst hx
          | cons c2 p =>
            cases he
            have := h p c' q rfl
            rw [addAll, List.foldl_cons, hx]
            exact this
        · obtain ⟨p, c', q, e1, e2, e3⟩ := i2 h
          refine ⟨c :: p, c', q, by rw [e1, List.cons_append], ?_, ?_⟩
          · rw [e2, addAll, addAll, List.cons_append, List.foldl_cons, hx]
          · rw [addAll, List.foldl_cons, hx]; exact e3
      | err e =>
        cases e with
        | outOfMemory =>
          refine ⟨fun h => (by cases h), fun h => ?_⟩
          cases h
          exact ⟨[], c, cs, rfl, by simp [addAll, hx], by simp [addAll, hx]⟩
        | other => exact ⟨fun h => (by cases h), fun h => (by cases h)⟩
      | panic => exact ⟨fun h => (by cases h), fun h => (by cases h)⟩

/-- **C98 (partial).** A solver as a collector panics only if the solver panics or has another error than running out of
memory. Missing: it is not a panic, see `C98_violated_kissat`. -/
theorem C98_solver_panic_partial (hadd : ∀ s c, (add s c).1 = .ok () ∨ (add s c).1 = .err .outOfMemory) (s : S) (cs : ClauseSet) :
    solverExtend add s cs ≠ .panic ∧ solverExtend add s cs ≠ .abort := by
  induction cs generalizing s with
  | nil => simp [solverExtend]
  | cons c cs ih =>
    unfold solverExtend
    have := hadd s c
    cases hx : add s c with
    | mk r s1 =>
      rw [hx] at this
      rcases this with h | h
      · simp only at h
        subst h
        exact ih s1
      · simp only at h
        subst h
        simp

/-- Non-vacuity: a solver that takes two clauses. -/
example : let add := fun (s : ClauseSet) (c : Clause) =>
      if s.length < 2 then ((.ok () : Res AddErr Unit), s ++ [c]) else (.err .outOfMemory, s)
    (∀ s c, (add s c).1 = .ok () ∨ (add s c).1 = .err .outOfMemory) ∧
    (match solverExtend add [] unknown.items with | .oom s => s | _ => []) = [[Lit.pos 0], [Lit.pos 1]] := by
  refine ⟨fun s c => ?_, by decide⟩
  simp only
  split
  · exact Or.inl rfl
  · exact Or.inr rfl

/-- **C98, violated.** Collecting a clause in a Kissat solver that has found a model panics. -/
theorem C98_violated_kissat {H : Type} [KissatLib H] (n n' : Native H) (hs : n.state = .input) (h : H)
    (hk : KissatLib.solve n.handle = some (10, h)) (hn : n' = (Kissat.solve n).2) (c : Clause) :
    (Kissat.solve n).1 = .ok .sat ∧ solverExtend kissatAdd n' [c] = .panic := by
  have e : Kissat.solve n = (.ok .sat, ⟨h, .sat, { n.stats with nSat := n.stats.nSat + 1 }⟩) := by
    unfold Kissat.solve
    rw [hs]
    simp only [hk]
    rfl
  rw [e] at hn ⊢
  subst hn
  exact ⟨rfl, rfl⟩

end RustSat.Collect
