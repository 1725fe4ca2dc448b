import Verif.Spec.PyApi
import Verif.Props.Atomics
import Verif.Props.Clause
import Verif.Props.Types
import Mathlib.Data.List.Sort
/-
C91: what Python programs see of literals, clauses, CNF formulas, their iterators and variable managers.
-/
namespace RustSat

/-! ### Slices and indices -/

theorem mem_stepBy (lo hi step p : Nat) (h : 0 < step) :
    p ∈ stepBy lo hi step ↔ lo ≤ p ∧ p < hi ∧ (p - lo) % step = 0 := by
  unfold stepBy
  simp only [List.mem_map, List.mem_range]
  have key : ∀ n, lo < hi → (n < (hi - lo + step - 1) / step ↔ lo + n * step < hi) := by
    intro n hl
    rw [Nat.lt_iff_add_one_le, Nat.le_div_iff_mul_le h, Nat.add_mul, Nat.one_mul]
    omega
  constructor
  · rintro ⟨n, hn, rfl⟩
    by_cases hl : lo < hi
    · rw [if_pos hl] at hn
      refine ⟨by omega, (key n hl).1 hn, ?_⟩
      rw [Nat.add_sub_cancel_left, Nat.mul_mod_left]
    · rw [if_neg hl] at hn; omega
  · rintro ⟨h1, h2, h3⟩
    have hl : lo < hi := by omega
    have he : lo + (p - lo) / step * step = p := by
      have := Nat.div_add_mod (p - lo) step
      rw [h3, Nat.mul_comm] at this
      omega
    refine ⟨(p - lo) / step, ?_, he⟩
    rw [if_pos hl, key _ hl, he]
    exact h2

theorem stepBy_pairwise (lo hi step : Nat) (h : 0 < step) : (stepBy lo hi step).Pairwise (· < ·) := by
  unfold stepBy
  rw [List.pairwise_map]
  refine List.Pairwise.imp ?_ List.pairwise_lt_range
  intro a b hab
  have := Nat.mul_lt_mul_of_pos_right hab h
  omega

theorem gather_eq {α : Type} (xs : List α) (ps : List Nat) (h : ∀ p ∈ ps, p < xs.length) :
    PySeq.gather xs ps = some (pyItems xs ps) := by
  induction ps with
  | nil => rfl
  | cons p ps ih =>
    have hp : xs[p]? = some (xs[p]'(h p (by simp))) := List.getElem?_eq_getElem _
    rw [PySeq.gather, hp, ih fun q hq => h q (by simp [hq])]
    simp [pyItems, hp]

theorem asUsize_of (i : Int) (h0 : 0 ≤ i) (h : i < 18446744073709551616) : (asUsize i : Int) = i := by
  unfold asUsize; omega

/-- The start of a slice with a positive step. -/
theorem adjust_clip (len : Nat) (step i : Int) (h : 0 < step) :
    adjustIndex len step i = min (len : Int) (max 0 (pyEnd len i)) := by
  unfold adjustIndex pyEnd
  have h1 : ¬ step < 0 := by omega
  simp only [if_neg h1]
  split <;> split <;> (try split) <;> omega

theorem positions_eq (len lo hi step : Nat) (lo' hi' : Int) (h : 0 < step)
    (h1 : (lo : Int) = min (len : Int) lo') (h2 : (hi : Int) = min (len : Int) (max 0 hi')) :
    stepBy lo hi step =
      (List.range len).filter fun p : Nat => lo' ≤ (p : Int) ∧ (p : Int) < hi' ∧ ((p : Int) - lo') % (step : Int) = 0 := by
  refine List.Pairwise.eq_of_mem_iff (r := (· < ·)) (stepBy_pairwise lo hi step h)
    (List.Pairwise.filter _ List.pairwise_lt_range) ?_
  intro p
  rw [mem_stepBy lo hi step p h]
  simp only [List.mem_filter, List.mem_range, decide_eq_true_eq]
  constructor
  · rintro ⟨a, b, c⟩
    have e : lo' = lo := by omega
    refine ⟨by omega, by omega, by omega, ?_⟩
    rw [e, ← Int.ofNat_sub a]
    exact_mod_cast c
  · rintro ⟨a, b, c, d⟩
    have e : lo' = lo := by omega
    have hlp : lo ≤ p := by omega
    refine ⟨hlp, by omega, ?_⟩
    rw [e, ← Int.ofNat_sub hlp] at d
    exact_mod_cast d

/-- C91, slices: for a step that is not negative, `s[start:stop:step]` is the slice that Python lists have; step zero gives a
`ValueError`. Missing: negative steps (`C91_violated_negative_step`). The bounds are those of `isize`. -/
theorem C91_slice_partial {α : Type} (s : PySeq α) (start stop step : Option Int) (h0 : 0 ≤ step.getD 1)
    (h1 : step.getD 1 < 9223372036854775808) (hl : s.items.length < 9223372036854775808) :
    s.getItem (.slice start stop step) =
      match pySlice s.items start stop step with
      | none => .valueError
      | some ys => .ok (.list ys) := by
  unfold PySeq.getItem sliceIndices pySlice
  dsimp only
  by_cases hz : step.getD 1 = 0
  · simp [hz, PySeq.getSlice]
  have hp : 0 < step.getD 1 := by omega
  generalize step.getD 1 = st at *
  simp only [if_neg hz, if_pos hp, PySeq.getSlice, PySeq.len]
  have hst := asUsize_of st (by omega) (by omega)
  have hneg : ¬ st < 0 := by omega
  have key : ∀ lo hi lo' hi' : Int, lo = min (s.items.length : Int) lo' → 0 ≤ lo' →
      hi = min (s.items.length : Int) (max 0 hi') →
      stepBy (asUsize lo) (asUsize hi) (asUsize st) = (List.range s.items.length).filter fun p : Nat =>
        lo' ≤ (p : Int) ∧ (p : Int) < hi' ∧ ((p : Int) - lo') % st = 0 := by
    intro lo hi lo' hi' e1 e2 e3
    have a1 := asUsize_of lo (by omega) (by omega)
    have a2 := asUsize_of hi (by omega) (by omega)
    have := positions_eq s.items.length (asUsize lo) (asUsize hi) (asUsize st) lo' hi' (by omega) (by omega) (by omega)
    rw [hst] at this
    exact this
  have hk : stepBy (asUsize (match start with | some i => adjustIndex s.items.length st i | none => if st < 0 then (s.items.length : Int) - 1 else 0))
      (asUsize (match stop with | some i => adjustIndex s.items.length st i | none => if st < 0 then -1 else s.items.length)) (asUsize st)
      = pyPositionsUp s.items.length start stop st := by
    unfold pyPositionsUp
    refine key _ _ _ _ ?_ (by omega) ?_
    · cases start with
      | none => simp [hneg]
      | some i => simp [adjust_clip _ _ _ hp]
    · cases stop with
      | none => simp [hneg]
      | some i => simp [adjust_clip _ _ _ hp]
  have hg := gather_eq s.items (pyPositionsUp s.items.length start stop st) (by
    intro p hp; unfold pyPositionsUp at hp; simp at hp; exact hp.1)
  cases start <;> cases stop <;> simp only at hk ⊢ <;> rw [hk, hg]

example : (PySeq.new [10, 11, 12, 13, 14, 15]).getItem (.slice (some (-5)) none (some 2)) = .ok (.list [11, 13, 15]) ∧
    pySlice [10, 11, 12, 13, 14, 15] (some (-5)) none (some 2) = some [11, 13, 15] := by decide

/-- C91, indices: for a number from 0 up to the length, `s[i]` is that element; an argument that is neither an integer nor a
slice gives a `TypeError`. Missing: all other numbers (`C91_violated_index`). -/
theorem C91_index_partial {α : Type} (s : PySeq α) :
    (∀ (i : Nat) (h : i < s.items.length), (i : Int) ≤ i32Max → s.getItem (.int i) = .ok (.single s.items[i])) ∧
    s.getItem .other = .typeError := by
  refine ⟨fun i h hi => ?_, rfl⟩
  have h1 : ¬ ((i : Int) < i32Min ∨ i32Max < (i : Int)) := by
    rintro (hc | hc)
    · have : i32Min ≤ 0 := by decide
      omega
    · omega
  rw [PySeq.getItem, if_neg h1, if_neg (by omega), Int.toNat_natCast, List.getElem?_eq_getElem h]

example : (PySeq.new [10, 11, 12]).getItem (.int 2) = .ok (.single 12) := by decide

/-- C91, violated: `s[-1]` and `s[len(s)]` panic, where Python sequences return the last element and raise `IndexError`. This
holds for every clause and every CNF formula. -/
theorem C91_violated_index {α : Type} (s : PySeq α) (i : Int) (h : i < 0 ∨ (s.items.length : Int) ≤ i) (h1 : i32Min ≤ i)
    (h2 : i ≤ i32Max) : s.getItem (.int i) = .panic := by
  rw [PySeq.getItem, if_neg (by omega)]
  by_cases hn : i < 0
  · rw [if_pos hn]
  · have : s.items[i.toNat]? = none := List.getElem?_eq_none (by omega)
    rw [if_neg hn, this]

/-- C91, violated: slices with negative steps silently drop elements (`[::-1]`, `[2:0:-1]`) or panic (`[0::-2]`). -/
theorem C91_violated_negative_step :
    (PySeq.new [10, 11, 12]).getItem (.slice none none (some (-1))) = .ok (.list [12]) ∧
    pySlice [10, 11, 12] none none (some (-1)) = some [12, 11, 10] ∧
    (PySeq.new [10, 11, 12]).getItem (.slice (some 2) (some 0) (some (-1))) = .ok (.list []) ∧
    pySlice [10, 11, 12] (some 2) (some 0) (some (-1)) = some [12, 11] ∧
    (PySeq.new [10, 11, 12]).getItem (.slice (some 0) none (some (-2))) = .panic ∧
    pySlice [10, 11, 12] (some 0) none (some (-2)) = some [10] := by
  refine ⟨?_, ?_, ?_, ?_, ?_, ?_⟩ <;> cbv

/-! ### Iterators -/

section
variable {α : Type}

theorem yields_reads (k : Nat) (ops : List (PyOp α)) (h : ∀ op ∈ ops, op.reads) :
    ∀ w : PyWorld α, w.seq.modified = false → k < w.iters.length →
      ∀ n, w.iters.getD k 0 = min n w.seq.items.length →
      pyYields k w ops = (List.range (pyCalls k ops)).map fun i => .ok (w.seq.items[n + i]?) := by
  induction ops with
  | nil => intros; rfl
  | cons op ops ih =>
    intro w hm hk n hn
    have ih := ih fun o ho => h o (by simp [ho])
    cases op with
    | modify f => exact False.elim (h _ List.mem_cons_self)
    | extend xs => exact False.elim (h _ List.mem_cons_self)
    | iter =>
      rw [pyYields, pyCalls, PyOp.run]
      · exact ih w.iter rfl (by simp [PyWorld.iter]; omega) n (by
          refine Eq.trans ?_ hn; simp [PyWorld.iter, List.getElem?_append_left hk])
      all_goals (intros; contradiction)
    | next j =>
      rw [pyYields, pyCalls]
      by_cases hj : j = k
      · subst hj
        rw [if_pos rfl, if_pos rfl, Nat.add_comm 1, List.range_succ_eq_map, List.map_cons, List.map_map]
        unfold PyWorld.next
        rw [if_neg (by simp [hm]), hn]
        by_cases hlt : n < w.seq.items.length
        · have e : min n w.seq.items.length = n := by omega
          rw [e, List.getElem?_eq_getElem hlt]
          dsimp only
          rw [ih { w with iters := w.iters.set j (n + 1) } hm (by simp; exact hk) (n + 1) (by
            simp [hk]; omega)]
          simp only [Nat.add_zero, List.getElem?_eq_getElem hlt]
          congr 1
          apply List.map_congr_left
          intro i _
          simp only [Function.comp]
          rw [show n + 1 + i = n + (i + 1) by omega]
        · have e : min n w.seq.items.length = w.seq.items.length := by omega
          rw [e, List.getElem?_eq_none (Nat.le_refl _)]
          dsimp only
          rw [ih w hm hk (n + 1) (by omega)]
          rw [Nat.add_zero, List.getElem?_eq_none (by omega)]
          congr 1
          apply List.map_congr_left
          intro i _
          simp only [Function.comp]
          rw [show n + 1 + i = n + (i + 1) by omega]
      · rw [if_neg hj, if_neg hj, Nat.zero_add]
        unfold PyWorld.next
        rw [if_neg (by simp [hm])]
        cases hx : w.seq.items[w.iters.getD j 0]? with
        | none => exact ih w hm hk n hn
        | some x =>
          exact ih { w with iters := w.iters.set j (w.iters.getD j 0 + 1) } hm (by simp; exact hk) n (by
            rw [← hn]; simp [List.getElem?_set_ne hj])

/-- C91, iterators: as long as the elements do not change, an iterator yields them in order, each once, and then ends — no
matter which other iterators exist, are created and are advanced in between, and whether there were modifications before. -/
theorem C91_iterator (w : PyWorld α) (ops : List (PyOp α)) (h : ∀ op ∈ ops, op.reads) :
    pyYields w.iters.length w.iter ops = (List.range (pyCalls w.iters.length ops)).map fun i => .ok (w.seq.items[i]?) := by
  have := yields_reads w.iters.length ops h w.iter rfl (by simp [PyWorld.iter]) 0 (by simp [PyWorld.iter])
  simpa [PyWorld.iter] using this

example : pyYields 1 (PyWorld.iter ⟨⟨[10, 11], true⟩, [2]⟩) [.next 1, .iter, .next 2, .next 1, .next 0, .next 1] =
    [.ok (some 10), .ok (some 11), .ok none] := by decide

/-- C91, modification: after a method of a clause other than `extend`, or of a CNF formula, has changed the elements, every
call of `next` raises a `RuntimeError`, until a new iterator is created. Missing: changes by `extend`
(`C91_violated_extend_unnoticed`) and calls after a new iterator was created (`C91_violated_modification_hidden`). -/
theorem C91_modification_partial (k : Nat) (w : PyWorld α) (f : List α → List α) (ops : List (PyOp α))
    (h : ∀ op ∈ ops, op.notIter) :
    pyYields k { w with seq := w.seq.modify f } ops = List.replicate (pyCalls k ops) .runtimeError := by
  have gen : ∀ w : PyWorld α, w.seq.modified = true →
      pyYields k w ops = List.replicate (pyCalls k ops) .runtimeError := by
    induction ops with
    | nil => intros; rfl
    | cons op ops ih =>
      intro w hm
      have ih := ih fun o ho => h o (by simp [ho])
      cases op with
      | iter => exact False.elim (h _ List.mem_cons_self)
      | modify f => exact ih _ rfl
      | extend xs => exact ih _ hm
      | next j =>
        have hn : w.next j = (.runtimeError, w) := by rw [PyWorld.next, if_pos hm]
        rw [pyYields, pyCalls, hn]
        by_cases hj : j = k
        · rw [if_pos hj, if_pos hj, ih w hm, Nat.add_comm, List.replicate_succ]
        · rw [if_neg hj, if_neg hj, ih w hm, Nat.zero_add]
  exact gen _ rfl

example : pyYields 0 { (⟨⟨[10, 11], false⟩, [1]⟩ : PyWorld Nat) with seq := PySeq.modify ⟨[10, 11], false⟩ (· ++ [12]) }
    [.next 0, .extend [13], .next 0] = [.runtimeError, .runtimeError] := by decide

/-- C91, violated: the flag belongs to the sequence, not to the iterator, and `__iter__` resets it: after a modification
inside a loop, any second loop over the same sequence lets the first one go on. Here the clause `[10, 11, 12]` loses its first
element; the first iterator, which has yielded 10, goes on with 11 after the swap and never yields 12. -/
theorem C91_violated_modification_hidden :
    pyYields 0 (PyWorld.iter ⟨PySeq.new [10, 11, 12], []⟩)
      [.next 0, .modify (fun _ => [12, 11]), .iter, .next 0, .next 0] = [.ok (some 10), .ok (some 11), .ok none] := by
  decide

/-- C91, violated: `Clause.extend` does not set the flag: `for l in c: c.extend([l])` does not end. -/
theorem C91_violated_extend_unnoticed :
    pyYields 0 (PyWorld.iter ⟨PySeq.new [10], []⟩)
      [.next 0, .extend [10], .next 0, .extend [10], .next 0] = [.ok (some 10), .ok (some 10), .ok (some 10)] := by
  decide

end

/-- C91, equality: `==` compares the elements in their order and nothing else; the flag and iterators have no effect. -/
theorem C91_eq {α : Type} [DecidableEq α] (s t : PySeq α) : s.eq t = true ↔ s.items = t.items := decide_eq_true_iff

example : PySeq.eq ⟨[10, 11], true⟩ ⟨[10, 11], false⟩ = true ∧ PySeq.eq (PySeq.new [10, 11]) (PySeq.new [11, 10]) = false := by decide

/-- C91, violated: `remove` and `remove_thorough` set the flag also if they find nothing, so that a loop that does not change
the clause ends with an error "clause modified during iteration". -/
theorem C91_violated_spurious_error :
    PyClause.remove (PySeq.new [Lit.pos 0]) (Lit.pos 1) = (false, ⟨[Lit.pos 0], true⟩) ∧
    (PyWorld.next ⟨(PyClause.remove (PySeq.new [Lit.pos 0]) (Lit.pos 1)).2, [0]⟩ 0).1 = .runtimeError := by
  decide

/-! ### Literals -/

/-- C91, literals: the number of a literal can be read back; 0 is no literal. Missing: the smallest `c_int`
(`C91_violated_lit`). -/
theorem C91_lit_partial (z : Int) (h0 : z ≠ 0) (h1 : i32Min < z) (h2 : z ≤ i32Max) :
    (∃ l, pyLit z = .ok l ∧ pyToIpasir l = .ok z ∧ pyToIpasir l.neg = .ok (-z)) ∧ pyLit 0 = .valueError := by
  obtain ⟨l, e, hv, hn, _, _⟩ := C01_int_ipasir_roundtrip_partial z h0 h1 h2
  refine ⟨⟨l, by rw [pyLit, e], ?_, ?_⟩, rfl⟩
  · have : (l.var : Int) + 1 ≤ i32Max := by
      simp only [i32Min, i32Max] at *; omega
    rw [pyToIpasir, if_pos this]
    cases hb : l.isNeg <;> simp [hb] at hn ⊢ <;> omega
  · have hv' : l.neg.var = l.var := Lit.var_neg l
    have : (l.neg.var : Int) + 1 ≤ i32Max := by
      rw [hv']; simp only [i32Min, i32Max] at *; omega
    rw [pyToIpasir, if_pos this, hv']
    have hb' : l.neg.isNeg = !l.isNeg := Lit.isNeg_neg l
    rw [hb']
    cases hb : l.isNeg <;> simp [hb] at hn ⊢ <;> omega

/-- C91, violated: `Lit(-2**31)` is accepted, but `to_ipasir` of it panics. -/
theorem C91_violated_lit : ∃ l, pyLit i32Min = .ok l ∧ pyToIpasir l = .panic :=
  ⟨Lit.mk' 2147483647 true, by decide, by decide⟩

/-! ### Clauses and CNF formulas -/

/-- C91, clauses: `add` and `extend` append, `remove` removes one occurrence and `remove_thorough` all of them, and both say
whether there was one. -/
theorem C91_clause (c : PySeq Lit) (l : Lit) (ls : List Lit) :
    (PyClause.add c l).items = c.items ++ [l] ∧
    (PyClause.extend c ls).items = c.items ++ ls ∧
    ((PyClause.remove c l).1 = true ↔ l ∈ c.items) ∧
    (l ∈ c.items → (l :: (PyClause.remove c l).2.items).Perm c.items) ∧
    (l ∉ c.items → (PyClause.remove c l).2.items = c.items) ∧
    ((PyClause.removeThorough c l).1 = true ↔ l ∈ c.items) ∧
    (PyClause.removeThorough c l).2.items = c.items.filter (fun x => decide (x ≠ l)) ∧
    (PyClause.isUnit c = true ↔ ∃ x, c.items = [x]) ∧
    (PyClause.isBinary c = true ↔ ∃ x y, c.items = [x, y]) :=
  ⟨rfl, rfl, (C08_remove c.items l).1, (C08_remove c.items l).2.1, (C08_remove c.items l).2.2,
    (C08_remove_thorough c.items l).1, (C08_remove_thorough c.items l).2,
    by simp [PyClause.isUnit, List.length_eq_one_iff], by simp [PyClause.isBinary, List.length_eq_two]⟩

/-- C91, CNF formulas: each method adds what its name says, and nothing is lost. -/
theorem C91_cnf (a : Asg) (f : PySeq Clause) (c : PySeq Lit) (p q r : Lit) (ps qs : List Lit) :
    (ClauseSet.sat a (PyCnf.addClause f c).items ↔ ClauseSet.sat a f.items ∧ Clause.sat a c.items) ∧
    (ClauseSet.sat a (PyCnf.addUnit f p).items ↔ ClauseSet.sat a f.items ∧ p.holds a = true) ∧
    (ClauseSet.sat a (PyCnf.addBinary f p q).items ↔ ClauseSet.sat a f.items ∧ (p.holds a = true ∨ q.holds a = true)) ∧
    (ClauseSet.sat a (PyCnf.addTernary f p q r).items ↔
      ClauseSet.sat a f.items ∧ (p.holds a = true ∨ q.holds a = true ∨ r.holds a = true)) ∧
    (ClauseSet.sat a (PyCnf.addLitImplLit f p q).items ↔ ClauseSet.sat a f.items ∧ (p.holds a = true → q.holds a = true)) ∧
    (ClauseSet.sat a (PyCnf.addLitImplClause f p qs).items ↔ ClauseSet.sat a f.items ∧ (p.holds a = true → Clause.sat a qs)) ∧
    (ClauseSet.sat a (PyCnf.addLitImplCube f p qs).items ↔ ClauseSet.sat a f.items ∧ (p.holds a = true → cubeSat a qs)) ∧
    (ClauseSet.sat a (PyCnf.addCubeImplLit f ps q).items ↔ ClauseSet.sat a f.items ∧ (cubeSat a ps → q.holds a = true)) ∧
    (ClauseSet.sat a (PyCnf.addClauseImplLit f ps q).items ↔ ClauseSet.sat a f.items ∧ (Clause.sat a ps → q.holds a = true)) ∧
    (ClauseSet.sat a (PyCnf.addCubeImplClause f ps qs).items ↔ ClauseSet.sat a f.items ∧ (cubeSat a ps → Clause.sat a qs)) ∧
    (ClauseSet.sat a (PyCnf.addClauseImplClause f ps qs).items ↔
      ClauseSet.sat a f.items ∧ (Clause.sat a ps → Clause.sat a qs)) ∧
    (ClauseSet.sat a (PyCnf.addClauseImplCube f ps qs).items ↔ ClauseSet.sat a f.items ∧ (Clause.sat a ps → cubeSat a qs)) ∧
    (ClauseSet.sat a (PyCnf.addCubeImplCube f ps qs).items ↔ ClauseSet.sat a f.items ∧ (cubeSat a ps → cubeSat a qs)) := by
  obtain ⟨b1, b2, b3, b4, b5, b6, b7, b8, b9⟩ := C15_builders f.items p q ps qs a
  refine ⟨?_, ?_, ?_, ?_, b1, b2, b3, b4, b5, b6, b7, b8, b9⟩
  · exact (C15_connectives f.items [] c.items [] p q r a).2.1
  · exact (C15_connectives f.items [] [] [] p q r a).2.2.2.2.2.1
  · exact (C15_connectives f.items [] [] [] p q r a).2.2.2.2.2.2.1
  · exact (C15_connectives f.items [] [] [] p q r a).2.2.2.2.2.2.2

/-! ### Variable managers -/

theorem vmRun_eq (n : Nat) (ops : List PyVmOp) : (pyVmRun (PyVarManager.new n) ops).2 = PyVarManager.new (pyVmUsed n ops) := by
  induction ops generalizing n with
  | nil => rfl
  | cons op ops ih =>
    cases op with
    | increaseUsed k =>
      have : ((PyVarManager.new n).increaseUsed k).2 = PyVarManager.new (max n k) := by
        show (⟨(if k > n then (true, (⟨k⟩ : BasicVM)) else (false, ⟨n⟩)).2⟩ : PyVarManager) = ⟨⟨max n k⟩⟩
        by_cases h : k > n
        · rw [if_pos h, Nat.max_eq_right (by omega)]
        · rw [if_neg h, Nat.max_eq_left (by omega)]
      rw [pyVmRun, this, ih, pyVmUsed]
    | newVar => exact ih (n + 1)

theorem vmRun_append (m : PyVarManager) (ops ops' : List PyVmOp) :
    (pyVmRun m (ops ++ ops')).1 = (pyVmRun m ops).1 ++ (pyVmRun (pyVmRun m ops).2 ops').1 := by
  induction ops generalizing m with
  | nil => rfl
  | cons op ops ih => cases op <;> simp [pyVmRun, ih]

/-- C91, variable managers: after any calls `n_used` is the highest number in use, and the next call of `new_var` returns the
number above it; so it is fresh. -/
theorem C91_var_manager (n : Nat) (ops ops' : List PyVmOp) :
    (pyVmRun (PyVarManager.new n) ops).2.nUsed = pyVmUsed n ops ∧
    (pyVmRun (PyVarManager.new n) (ops ++ .newVar :: ops')).1 =
      (pyVmRun (PyVarManager.new n) ops).1 ++ (pyVmUsed n ops + 1) ::
        (pyVmRun (PyVarManager.new (pyVmUsed n ops + 1)) ops').1 := by
  rw [vmRun_append, vmRun_eq]
  exact ⟨rfl, rfl⟩

/-- C91: `increase_used` says whether the number of variables in use went up. -/
theorem C91_increase_used (n k : Nat) :
    ((PyVarManager.new n).increaseUsed k).1 = true ↔ n < k := by
  show (if k > n then (true, (⟨k⟩ : BasicVM)) else (false, ⟨n⟩)).1 = true ↔ n < k
  by_cases h : k > n
  · simp [h]
  · simp [h]

example : (pyVmRun (PyVarManager.new 3) [.newVar, .increaseUsed 7, .newVar, .increaseUsed 2, .newVar]).1 = [4, 8, 9] := by
  decide

end RustSat
