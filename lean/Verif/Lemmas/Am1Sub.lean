import Verif.Lemmas.Am1
/-
Lemmas about the at-most-one encodings built from other at-most-one encodings.
-/
namespace RustSat
namespace Am1
variable {VM : Type} [ManageVars VM] [LawfulVM VM]

omit [LawfulVM VM] in
theorem splitLoop_spec {sub : SubEnc VM} (hsub : AmoSpec sub) (pre : Nat → ClauseSet) (part : Nat → List Lit)
    (V : Nat → Prop) : ∀ (idxs : List Nat) (vm : VM), (∀ v, V v → v < ManageVars.nUsed vm) →
    (∀ s ∈ idxs, ∀ c ∈ pre s, ∀ l ∈ c, V l.var) → (∀ s ∈ idxs, ∀ l ∈ part s, V l.var) →
    Encodes V (ManageVars.nUsed vm) (ManageVars.nUsed (splitLoop sub pre part idxs vm).2)
      (splitLoop sub pre part idxs vm).1
      (fun a => ∀ s ∈ idxs, ClauseSet.sat a (pre s) ∧ countTrue a (part s) ≤ 1) := by
  intro idxs
  induction idxs with
  | nil => intro vm _ _ _; exact encodes_nil _ _ _ (by simp)
  | cons s rest ih =>
    intro vm hV hpre hpart
    have hs := hsub (part s) vm fun l hl => hV _ (hpart s (by simp) l hl)
    have hs' : Encodes V _ _ _ _ := hs.weaken (V' := V) (by
      rintro v ⟨l, hl, rfl⟩; exact hpart s (by simp) l hl)
    have hst : Encodes V (ManageVars.nUsed vm) (ManageVars.nUsed vm) (pre s) _ :=
      Encodes.static (hpre s (by simp))
    have h1 := hst.append hs' hV (by
      intro a b hab h
      rwa [← countTrue_congr_vars (fun l hl => hab _ (hpart s (by simp) l hl))])
    have hle := hs.le
    have h2 := h1.append (ih (sub (part s) vm).2 (fun v hv => Nat.lt_of_lt_of_le (hV v hv) hle)
      (fun t ht => hpre t (by simp [ht])) (fun t ht => hpart t (by simp [ht]))) hV (by
      intro a b hab h t ht
      obtain ⟨h1, h2⟩ := h t ht
      refine ⟨?_, ?_⟩
      · rwa [← ClauseSet.sat_congr_vars (fun c hc l hl => hab _ (hpre t (by simp [ht]) c hc l hl))]
      · rwa [← countTrue_congr_vars (fun l hl => hab _ (hpart t (by simp [ht]) l hl))])
    exact h2.congr fun a => by simp [List.forall_mem_cons]

theorem chunk_getElem? (lits : List Lit) (n s j : Nat) :
    (chunk lits n s)[j]? = if j < n then lits[s * n + j]? else none := by
  unfold chunk
  by_cases h : j < n
  · rw [if_pos h, List.getElem?_take_of_lt h, List.getElem?_drop]
  · rw [if_neg h, List.getElem?_take_eq_none (by omega)]

theorem chunk_mem {lits : List Lit} {n s : Nat} {l : Lit} (h : l ∈ chunk lits n s) :
    ∃ i : Nat, lits[i]? = some l ∧ i / n = s := by
  obtain ⟨j, hj⟩ := List.mem_iff_getElem?.1 h
  rw [chunk_getElem?] at hj
  by_cases hn : j < n
  · rw [if_pos hn] at hj
    exact ⟨_, hj, by rw [Nat.mul_comm, Nat.mul_add_div (by omega), Nat.div_eq_of_lt hn, Nat.add_zero]⟩
  · rw [if_neg hn] at hj; cases hj

theorem chunk_div_mod {lits : List Lit} {n i : Nat} {l : Lit} (hn : 0 < n) (h : lits[i]? = some l) :
    (chunk lits n (i / n))[i % n]? = some l := by
  rw [chunk_getElem?, if_pos (Nat.mod_lt _ hn), Nat.mul_comm, Nat.div_add_mod, h]

theorem div_lt_divCeil {i len n : Nat} (hn : 0 < n) (h : i < len) : i / n < divCeil len n := by
  unfold divCeil
  rw [Nat.div_lt_iff_lt_mul hn]
  have h1 := Nat.div_add_mod (len + n - 1) n
  have h2 := Nat.mod_lt (len + n - 1) hn
  rw [Nat.mul_comm] at h1
  omega

/-- At most one of the literals in total: at most one per chunk, and only one chunk. -/
theorem amo_chunks (a : Asg) (lits : List Lit) (n : Nat) (hn : 0 < n) :
    countTrue a lits ≤ 1 ↔
    (∀ s, s < divCeil lits.length n → countTrue a (chunk lits n s) ≤ 1) ∧
    (∀ (i j : Nat) l k, lits[i]? = some l → lits[j]? = some k → l.holds a = true → k.holds a = true →
      i / n = j / n) := by
  constructor
  · intro h
    rw [amo_iff_pairs] at h
    refine ⟨fun s _ => ?_, fun i j l k hi hj hl hk => by rw [h i j l k hi hj hl hk]⟩
    rw [amo_iff_pairs]
    intro i j l k hi hj hl hk
    rw [chunk_getElem?] at hi hj
    by_cases h1 : i < n
    · by_cases h2 : j < n
      · rw [if_pos h1] at hi
        rw [if_pos h2] at hj
        have := h _ _ _ _ hi hj hl hk
        omega
      · rw [if_neg h2] at hj; cases hj
    · rw [if_neg h1] at hi; cases hi
  · rintro ⟨h1, h2⟩
    rw [amo_iff_pairs]
    intro i j l k hi hj hl hk
    have hd := h2 i j l k hi hj hl hk
    have hil := (List.getElem?_eq_some_iff.1 hi).1
    have hc := h1 (i / n) (div_lt_divCeil hn hil)
    rw [amo_iff_pairs] at hc
    have hm := hc (i % n) (j % n) l k (chunk_div_mod hn hi) (by rw [hd]; exact chunk_div_mod hn hj) hl hk
    rw [← Nat.div_add_mod i n, ← Nat.div_add_mod j n, hd, hm]

theorem sat_clauseImplLit (a : Asg) (ps : List Lit) (q : Lit) :
    ClauseSet.sat a (Atomics.clauseImplLit ps q) ↔ ∀ p ∈ ps, p.holds a = true → q.holds a = true := by
  simp only [ClauseSet.sat, Atomics.clauseImplLit, List.mem_map, forall_exists_index, and_imp,
    forall_apply_eq_imp_iff₂]
  exact forall₂_congr fun p _ => sat_litImplLit a p q

theorem bimander_spec {n : Nat} (hn : 0 < n) {sub : SubEnc VM} (hsub : AmoSpec sub) :
    AmoSpec (bimander n sub) := by
  intro lits vm hlt
  unfold bimander
  by_cases h : lits.length ≤ 1
  · rw [if_pos h]; exact encodes_nil _ _ _ fun a => amo_short a lits h
  · rw [if_neg h]
    simp only
    have hp := digits_lt (divCeil lits.length n - 1) 2 (by omega)
    generalize digits (divCeil lits.length n - 1) 2 = p at *
    obtain ⟨e1, e2⟩ := newVars_spec p vm
    rw [e1]
    generalize (newVars p vm).2 = vm1 at *
    generalize ManageVars.nUsed vm = m at *
    have hsp := splitLoop_spec hsub
      (fun s => (List.range p).flatMap fun k => Atomics.clauseImplLit (chunk lits n s)
        (bitLit ((List.range p).map fun i => m + i) s k)) (chunk lits n)
      (fun v => varsOf lits v ∨ (m ≤ v ∧ v < m + p)) (List.range (divCeil lits.length n)) vm1 ?_ ?_ ?_
    · rw [e2] at hsp
      refine Encodes.aux hsp (by omega) (fun v hv => hv) ?_ ?_
      · intro b hb
        simp only [List.mem_range] at hb
        rw [amo_chunks b lits n hn]
        refine ⟨fun s hs => (hb s hs).2, ?_⟩
        have key : ∀ (i : Nat) l, lits[i]? = some l → l.holds b = true →
            i / n < 2 ^ p ∧ ∀ k, k < p → b (m + k) = (i / n).testBit k := by
          intro i l hi hl
          have hil := (List.getElem?_eq_some_iff.1 hi).1
          have hd := div_lt_divCeil hn hil
          refine ⟨by omega, fun k hk => ?_⟩
          have := (hb (i / n) hd).1
          have h2 : ClauseSet.sat b (Atomics.clauseImplLit (chunk lits n (i / n))
              (bitLit ((List.range p).map fun i => m + i) (i / n) k)) := fun c hc =>
            this c (List.mem_flatMap.2 ⟨k, List.mem_range.2 hk, hc⟩)
          rw [sat_clauseImplLit] at h2
          exact (holds_bitLit _ _ _ _ _ hk).1 (h2 l (List.mem_of_getElem? (chunk_div_mod hn hi)) hl)
        intro i j l k hi hj hl hk
        obtain ⟨h1, h2⟩ := key i l hi hl
        obtain ⟨h3, h4⟩ := key j k hj hk
        exact eq_of_bits h1 h3 fun t ht => by rw [← h2 t ht, ← h4 t ht]
      · intro a ha
        obtain ⟨s, hs⟩ := (amo_iff_sel a lits).1 ha
        refine ⟨override a m p (fun k => (s / n).testBit k), fun v hv => override_out _ _ _ _ hv, ?_⟩
        intro t ht
        refine ⟨?_, ?_⟩
        · intro c hc
          obtain ⟨k, hk, hc⟩ := List.mem_flatMap.1 hc
          rw [List.mem_range] at hk
          refine (sat_clauseImplLit _ _ _).2 ?_ c hc
          intro l hl hh
          obtain ⟨i, hi, hit⟩ := chunk_mem hl
          rw [holds_override_of_lt _ _ _ _ (hlt l (List.mem_of_getElem? hi))] at hh
          rw [holds_bitLit _ _ _ _ _ hk, override_in _ _ _ _ hk, ← hs i l hi hh, hit]
        · rw [countTrue_congr_vars (b := a)]
          · exact ((amo_chunks a lits n hn).1 ha).1 t (List.mem_range.1 ht)
          · intro l hl
            obtain ⟨i, hi, _⟩ := chunk_mem hl
            exact override_out _ _ _ _ (.inl (hlt l (List.mem_of_getElem? hi)))
    · rintro v (⟨l, hl, rfl⟩ | h)
      · have := hlt l hl; omega
      · omega
    · intro s _ c hc l hl
      obtain ⟨k, hk, hc⟩ := List.mem_flatMap.1 hc
      rw [List.mem_range] at hk
      obtain ⟨x, hx, rfl⟩ := List.mem_map.1 hc
      simp only [List.mem_cons, List.not_mem_nil, or_false] at hl
      rcases hl with rfl | rfl
      · obtain ⟨i, hi, _⟩ := chunk_mem hx
        exact .inl ⟨x, List.mem_of_getElem? hi, by simp⟩
      · right; rw [var_bitLit _ _ _ _ hk]; omega
    · intro s _ l hl
      obtain ⟨i, hi, _⟩ := chunk_mem hl
      exact .inl ⟨l, List.mem_of_getElem? hi, rfl⟩

/-- The `k` new literals starting at `m`: at most one is true. -/
theorem amo_new (a : Asg) (m k : Nat) :
    countTrue a ((List.range k).map fun i => Lit.pos (m + i)) ≤ 1 ↔
    ∀ i j, i < k → j < k → a (m + i) = true → a (m + j) = true → i = j := by
  rw [amo_iff_pairs]
  have hg : ∀ i, i < k → ((List.range k).map fun i => Lit.pos (m + i))[i]? = some (Lit.pos (m + i)) := by
    intro i hi; simp [hi]
  constructor
  · intro h i j hi hj h1 h2
    exact h i j _ _ (hg i hi) (hg j hj) (by rwa [Lit.holds_pos]) (by rwa [Lit.holds_pos])
  · intro h i j l x hi hj hl hx
    have h1 := (List.getElem?_eq_some_iff.1 hi).1
    have h2 := (List.getElem?_eq_some_iff.1 hj).1
    simp only [List.length_map, List.length_range] at h1 h2
    rw [hg i h1] at hi
    rw [hg j h2] at hj
    injection hi with hi; injection hj with hj
    subst hi hj
    exact h i j h1 h2 (by rwa [Lit.holds_pos] at hl) (by rwa [Lit.holds_pos] at hx)

theorem new_var {m k : Nat} {l : Lit} (h : l ∈ (List.range k).map fun i => Lit.pos (m + i)) :
    m ≤ l.var ∧ l.var < m + k := by
  obtain ⟨i, hi, rfl⟩ := List.mem_map.1 h
  rw [List.mem_range] at hi
  simp; omega

theorem commander_spec {n : Nat} (hn : 0 < n) {sub : SubEnc VM} (hsub : AmoSpec sub) :
    AmoSpec (commander n sub) := by
  intro lits vm hlt
  unfold commander
  by_cases h : lits.length ≤ 1
  · rw [if_pos h]; exact encodes_nil _ _ _ fun a => amo_short a lits h
  · rw [if_neg h]
    simp only
    generalize hq : divCeil lits.length n = q at *
    obtain ⟨e1, e2⟩ := newLits_spec q vm
    rw [e1]
    generalize (newLits q vm).2 = vm1 at *
    generalize ManageVars.nUsed vm = m at *
    have hsp := splitLoop_spec hsub
      (fun s => Atomics.clauseImplLit (chunk lits n s)
        (((List.range q).map fun i => Lit.pos (m + i)).getD s (Lit.pos 0))) (chunk lits n)
      (fun v => varsOf lits v ∨ (m ≤ v ∧ v < m + q)) (List.range q) vm1 ?_ ?_ ?_
    · have hle := hsp.le
      generalize splitLoop sub _ (chunk lits n) (List.range q) vm1 = r at *
      obtain ⟨c1, vm2⟩ := r
      simp only at *
      have hs2 := hsub ((List.range q).map fun i => Lit.pos (m + i)) vm2 fun l hl => by
        have := new_var hl; omega
      have hV : ∀ v, varsOf lits v ∨ (m ≤ v ∧ v < m + q) → v < ManageVars.nUsed vm1 := by
        rintro v (⟨l, hl, rfl⟩ | h)
        · have := hlt l hl; omega
        · omega
      have hall := hsp.append (hs2.weaken (V' := fun v => varsOf lits v ∨ (m ≤ v ∧ v < m + q)) (by
        rintro v ⟨l, hl, rfl⟩; exact .inr (new_var hl))) hV (by
        intro a b hab h
        rwa [← countTrue_congr_vars (fun l hl => hab _ (.inr (new_var hl)))])
      rw [e2] at hall
      refine Encodes.aux hall (by omega) (fun v hv => hv) ?_ ?_
      · rintro b ⟨hb, hc⟩
        simp only [List.mem_range] at hb
        rw [amo_chunks b lits n hn, hq]
        refine ⟨fun s hs => (hb s hs).2, ?_⟩
        have key : ∀ (i : Nat) l, lits[i]? = some l → l.holds b = true →
            i / n < q ∧ b (m + i / n) = true := by
          intro i l hi hl
          have hil := (List.getElem?_eq_some_iff.1 hi).1
          have hd := div_lt_divCeil hn hil
          rw [hq] at hd
          refine ⟨hd, ?_⟩
          have h2 := (hb (i / n) hd).1
          rw [sat_clauseImplLit, getD_range_map _ _ _ _ hd] at h2
          have := h2 l (List.mem_of_getElem? (chunk_div_mod hn hi)) hl
          rwa [Lit.holds_pos] at this
        intro i j l k hi hj hl hk
        obtain ⟨h1, h2⟩ := key i l hi hl
        obtain ⟨h3, h4⟩ := key j k hj hk
        exact (amo_new b m q).1 hc _ _ h1 h3 h2 h4
      · intro a ha
        obtain ⟨s, hs⟩ := (amo_iff_sel a lits).1 ha
        refine ⟨override a m q (fun k => decide (k = s / n)), fun v hv => override_out _ _ _ _ hv, ?_, ?_⟩
        · intro t ht
          rw [List.mem_range] at ht
          refine ⟨?_, ?_⟩
          · rw [sat_clauseImplLit]
            intro l hl hh
            obtain ⟨i, hi, hit⟩ := chunk_mem hl
            rw [holds_override_of_lt _ _ _ _ (hlt l (List.mem_of_getElem? hi))] at hh
            rw [getD_range_map _ _ _ _ ht, Lit.holds_pos, override_in _ _ _ _ ht, ← hs i l hi hh, hit]
            simp
          · rw [countTrue_congr_vars (b := a)]
            · exact ((amo_chunks a lits n hn).1 ha).1 t (by omega)
            · intro l hl
              obtain ⟨i, hi, _⟩ := chunk_mem hl
              exact override_out _ _ _ _ (.inl (hlt l (List.mem_of_getElem? hi)))
        · rw [amo_new]
          intro i j hi hj h1 h2
          rw [override_in _ _ _ _ hi] at h1
          rw [override_in _ _ _ _ hj] at h2
          simp at h1 h2
          omega
    · rintro v (⟨l, hl, rfl⟩ | h)
      · have := hlt l hl; omega
      · omega
    · intro s hs c hc l hl
      rw [List.mem_range] at hs
      obtain ⟨x, hx, rfl⟩ := List.mem_map.1 hc
      simp only [List.mem_cons, List.not_mem_nil, or_false] at hl
      rcases hl with rfl | rfl
      · obtain ⟨i, hi, _⟩ := chunk_mem hx
        exact .inl ⟨x, List.mem_of_getElem? hi, by simp⟩
      · right; rw [getD_range_map _ _ _ _ hs]; simp; omega
    · intro s _ l hl
      obtain ⟨i, hi, _⟩ := chunk_mem hl
      exact .inl ⟨l, List.mem_of_getElem? hi, rfl⟩

theorem sqrtLoop_spec (len : Nat) : ∀ (fuel p : Nat), p * p ≤ len → len < (p + fuel + 1) * (p + fuel + 1) →
    sqrtLoop len fuel p * sqrtLoop len fuel p ≤ len ∧
    len < (sqrtLoop len fuel p + 1) * (sqrtLoop len fuel p + 1) := by
  intro fuel
  induction fuel with
  | zero => intro p h1 h2; exact ⟨h1, h2⟩
  | succ f ih =>
    intro p h1 h2
    rw [sqrtLoop]
    split
    · rename_i h
      exact ih (p + 1) h (by rwa [show p + 1 + f + 1 = p + (f + 1) + 1 by omega])
    · rename_i h
      exact ⟨h1, by omega⟩

/-- `p` is the integer square root. -/
theorem sqrtLoop_len (len : Nat) :
    sqrtLoop len len 0 * sqrtLoop len len 0 ≤ len ∧ len < (sqrtLoop len len 0 + 1) * (sqrtLoop len len 0 + 1) := by
  apply sqrtLoop_spec
  · omega
  · rw [Nat.zero_add, Nat.mul_add, Nat.mul_one]; have := Nat.zero_le ((len + 1) * len); omega

theorem sqrtLoop_pos {len : Nat} (h : 0 < len) : 0 < sqrtLoop len len 0 := by
  have h2 := (sqrtLoop_len len).2
  rcases Nat.eq_zero_or_pos (sqrtLoop len len 0) with h0 | h0
  · rw [h0] at h2; omega
  · exact h0

theorem divCeil_mul {len p : Nat} (hp : 0 < p) : len ≤ divCeil len p * p := by
  unfold divCeil
  have h1 := Nat.div_add_mod (len + p - 1) p
  have h2 := Nat.mod_lt (len + p - 1) hp
  rw [Nat.mul_comm] at h1
  omega

theorem divCeil_pos {len p : Nat} (h : 0 < len) (hp : 0 < p) : 0 < divCeil len p := by
  unfold divCeil; exact Nat.div_pos (by omega) hp

theorem twoProduct_spec {sub : SubEnc VM} (hsub : AmoSpec sub) : AmoSpec (twoProduct sub) := by
  intro lits vm hlt
  unfold twoProduct
  by_cases h : lits.length ≤ 1
  · rw [if_pos h]; exact encodes_nil _ _ _ fun a => amo_short a lits h
  · rw [if_neg h]
    simp only
    have hp0 : 0 < sqrtLoop lits.length lits.length 0 := sqrtLoop_pos (by omega)
    generalize sqrtLoop lits.length lits.length 0 = p at *
    have hq0 : 0 < divCeil lits.length p := divCeil_pos (by omega) hp0
    have hrow : ∀ i, i < lits.length → i / divCeil lits.length p < p := by
      intro i hi
      rw [Nat.div_lt_iff_lt_mul hq0, Nat.mul_comm]
      have := divCeil_mul (len := lits.length) hp0
      omega
    generalize divCeil lits.length p = q at *
    obtain ⟨e1, e2⟩ := newLits_spec p vm
    rw [e1]
    generalize (newLits p vm).2 = vm1 at *
    obtain ⟨e3, e4⟩ := newLits_spec q vm1
    rw [e3]
    generalize (newLits q vm1).2 = vm2 at *
    rw [e2] at e4
    rw [e2]
    generalize ManageVars.nUsed vm = m at *
    have hs1 := hsub ((List.range p).map fun i => Lit.pos (m + i)) vm2 fun l hl => by
      have := new_var hl; omega
    have hle1 := hs1.le
    generalize sub ((List.range p).map fun i => Lit.pos (m + i)) vm2 = r1 at *
    obtain ⟨c1, vm3⟩ := r1
    simp only at *
    have hs2 := hsub ((List.range q).map fun i => Lit.pos (m + p + i)) vm3 fun l hl => by
      have := new_var hl; omega
    generalize sub ((List.range q).map fun i => Lit.pos (m + p + i)) vm3 = r2 at *
    obtain ⟨c2, vm4⟩ := r2
    simp only at *
    have hV : ∀ v, varsOf lits v ∨ (m ≤ v ∧ v < m + p + q) → v < ManageVars.nUsed vm2 := by
      rintro v (⟨l, hl, rfl⟩ | h)
      · have := hlt l hl; omega
      · omega
    have hst := Encodes.static (V := fun v => varsOf lits v ∨ (m ≤ v ∧ v < m + p + q)) (n := ManageVars.nUsed vm2)
        (cls := (List.range lits.length).flatMap fun i =>
          [Atomics.litImplLit (lits.getD i (Lit.pos 0))
            (((List.range p).map fun i => Lit.pos (m + i)).getD (i / q) (Lit.pos 0)),
           Atomics.litImplLit (lits.getD i (Lit.pos 0))
            (((List.range q).map fun i => Lit.pos (m + p + i)).getD (i % q) (Lit.pos 0))]) (by
      intro c hc l hl
      obtain ⟨i, hi, hc⟩ := List.mem_flatMap.1 hc
      rw [List.mem_range] at hi
      have hr := hrow i hi
      have hm := Nat.mod_lt i hq0
      have hx : varsOf lits (lits.getD i (Lit.pos 0)).var := by
        rw [getD_of_getElem? (List.getElem?_eq_getElem hi)]
        exact ⟨_, List.getElem_mem hi, rfl⟩
      rw [getD_range_map _ _ _ _ hr, getD_range_map _ _ _ _ hm] at hc
      simp only [Atomics.litImplLit, List.mem_cons, List.not_mem_nil, or_false] at hc
      rcases hc with rfl | rfl
      · simp only [List.mem_cons, List.not_mem_nil, or_false] at hl
        rcases hl with rfl | rfl
        · left; simpa using hx
        · right; simp; omega
      · simp only [List.mem_cons, List.not_mem_nil, or_false] at hl
        rcases hl with rfl | rfl
        · left; simpa using hx
        · right; simp; omega)
    have h1 := hst.append (hs1.weaken (V' := fun v => varsOf lits v ∨ (m ≤ v ∧ v < m + p + q)) (by
      rintro v ⟨l, hl, rfl⟩; have := new_var hl; right; omega)) hV (by
      intro a b hab h
      rwa [← countTrue_congr_vars (fun l hl => hab _ (.inr (by have := new_var hl; omega)))])
    have h2 := h1.append (hs2.weaken (V' := fun v => varsOf lits v ∨ (m ≤ v ∧ v < m + p + q)) (by
      rintro v ⟨l, hl, rfl⟩; have := new_var hl; right; omega)) hV (by
      intro a b hab h
      rwa [← countTrue_congr_vars (fun l hl => hab _ (.inr (by have := new_var hl; omega)))])
    rw [e4] at h2
    have hsat : ∀ b, ClauseSet.sat b ((List.range lits.length).flatMap fun i =>
          [Atomics.litImplLit (lits.getD i (Lit.pos 0))
            (((List.range p).map fun i => Lit.pos (m + i)).getD (i / q) (Lit.pos 0)),
           Atomics.litImplLit (lits.getD i (Lit.pos 0))
            (((List.range q).map fun i => Lit.pos (m + p + i)).getD (i % q) (Lit.pos 0))]) ↔
        ∀ (i : Nat) l, lits[i]? = some l → l.holds b = true → b (m + i / q) = true ∧ b (m + p + i % q) = true := by
      intro b
      simp only [ClauseSet.sat, List.mem_flatMap, List.mem_range]
      constructor
      · intro hh i l hi hl
        have hil := (List.getElem?_eq_some_iff.1 hi).1
        have hr := hrow i hil
        have hm := Nat.mod_lt i hq0
        have g1 := hh _ ⟨i, hil, List.mem_cons_self⟩
        have g2 := hh _ ⟨i, hil, List.mem_cons_of_mem _ List.mem_cons_self⟩
        rw [sat_litImplLit, getD_of_getElem? hi, getD_range_map _ _ _ _ hr, Lit.holds_pos] at g1
        rw [sat_litImplLit, getD_of_getElem? hi, getD_range_map _ _ _ _ hm, Lit.holds_pos] at g2
        exact ⟨g1 hl, g2 hl⟩
      · rintro hh c ⟨i, hi, hc⟩
        have hg : lits[i]? = some lits[i] := List.getElem?_eq_getElem hi
        have hr := hrow i hi
        have hm := Nat.mod_lt i hq0
        rw [getD_of_getElem? hg, getD_range_map _ _ _ _ hr, getD_range_map _ _ _ _ hm] at hc
        simp only [List.mem_cons, List.not_mem_nil, or_false] at hc
        rcases hc with rfl | rfl
        · rw [sat_litImplLit, Lit.holds_pos]; exact fun hl => (hh i _ hg hl).1
        · rw [sat_litImplLit, Lit.holds_pos]; exact fun hl => (hh i _ hg hl).2
    refine Encodes.aux h2 (by omega) (fun v hv => by rcases hv with h | h; exact .inl h; exact .inr (by omega)) ?_ ?_
    · rintro b ⟨⟨hb, hr⟩, hc⟩
      rw [hsat] at hb
      rw [amo_new] at hr hc
      rw [amo_iff_pairs]
      intro i j l k hi hj hl hk
      have hil := (List.getElem?_eq_some_iff.1 hi).1
      have hjl := (List.getElem?_eq_some_iff.1 hj).1
      obtain ⟨g1, g2⟩ := hb i l hi hl
      obtain ⟨g3, g4⟩ := hb j k hj hk
      have r1 := hr _ _ (hrow i hil) (hrow j hjl) g1 g3
      have r2 := hc _ _ (Nat.mod_lt i hq0) (Nat.mod_lt j hq0) g2 g4
      rw [← Nat.div_add_mod i q, ← Nat.div_add_mod j q, r1, r2]
    · intro a ha
      obtain ⟨s, hs⟩ := (amo_iff_sel a lits).1 ha
      refine ⟨override a m (p + q) (fun k => decide (k = s / q ∧ k < p ∨ k = p + s % q)),
        fun v hv => override_out _ _ _ _ (by omega), ⟨?_, ?_⟩, ?_⟩
      · rw [hsat]
        intro i l hi hl
        have hil := (List.getElem?_eq_some_iff.1 hi).1
        have hr := hrow i hil
        have hm := Nat.mod_lt i hq0
        rw [holds_override_of_lt _ _ _ _ (hlt l (List.mem_of_getElem? hi))] at hl
        have his := hs i l hi hl
        subst his
        rw [Nat.add_assoc, override_in _ _ _ _ (by omega), override_in _ _ _ _ (by omega)]
        simp; omega
      · rw [amo_new]
        intro i j hi hj h1 h2
        rw [override_in _ _ _ _ (by omega)] at h1 h2
        simp at h1 h2
        omega
      · rw [amo_new]
        intro i j hi hj h1 h2
        rw [Nat.add_assoc, override_in _ _ _ _ (by omega)] at h1 h2
        simp at h1 h2
        omega

/-- Group sizes are positive (a group size of zero panics with a division by zero). -/
def Kind.WF : Kind → Prop
  | .pairwise | .ladder | .bitwise => True
  | .bimander n sub | .commander n sub => 0 < n ∧ sub.WF
  | .twoProduct sub => sub.WF

theorem Kind.encode_spec : ∀ k : Kind, k.WF → AmoSpec (k.encode : SubEnc VM)
  | .pairwise, _ => pairwise_spec
  | .ladder, _ => ladder_spec
  | .bitwise, _ => bitwise_spec
  | .bimander _ sub, h => bimander_spec h.1 (Kind.encode_spec sub h.2)
  | .commander _ sub, h => commander_spec h.1 (Kind.encode_spec sub h.2)
  | .twoProduct sub, h => twoProduct_spec (Kind.encode_spec sub h)

end Am1
end RustSat
