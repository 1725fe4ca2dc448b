import Verif.Model.Am1
import Verif.Lemmas.Encoding
import Verif.Lemmas.VarManager
import Verif.Props.Atomics
import Mathlib.Data.Nat.Bitwise
/-
Lemmas about the at-most-one encodings.
-/
namespace RustSat

theorem digitsLoop_zero (f : Nat → Nat) (fuel : Nat) : digitsLoop f fuel 0 = 0 := by
  cases fuel <;> simp [digitsLoop]

theorem digitsLoop_spec (b : Nat) (hb : 1 < b) : ∀ (fuel n : Nat), n ≤ fuel →
    n < b ^ digitsLoop (fun n => n / b) fuel n ∧
    (0 < n → b ^ (digitsLoop (fun n => n / b) fuel n - 1) ≤ n ∧ 0 < digitsLoop (fun n => n / b) fuel n) := by
  intro fuel
  induction fuel with
  | zero => intro n hn; simp [digitsLoop]; omega
  | succ fuel ih =>
    intro n hn
    by_cases h0 : n > 0
    · have hlt : n / b < n := Nat.div_lt_self h0 hb
      obtain ⟨h1, h2⟩ := ih (n / b) (by omega)
      rw [digitsLoop, if_pos h0]
      have hz0 : n / b = 0 → digitsLoop (fun n => n / b) fuel (n / b) = 0 := by
        intro h; rw [h]; exact digitsLoop_zero _ _
      generalize digitsLoop (fun n => n / b) fuel (n / b) = d at h1 h2 hz0 ⊢
      refine ⟨?_, fun _ => ⟨?_, by omega⟩⟩
      · rw [Nat.div_lt_iff_lt_mul (by omega)] at h1
        rw [Nat.add_comm, Nat.pow_succ]; exact h1
      · rw [Nat.add_sub_cancel_left]
        by_cases hz : n / b > 0
        · obtain ⟨h3, h4⟩ := h2 hz
          rw [Nat.le_div_iff_mul_le (by omega)] at h3
          rw [← Nat.pow_succ] at h3
          rwa [show (d - 1).succ = d by omega] at h3
        · rw [hz0 (Nat.eq_zero_of_not_pos hz)]; simp; omega
    · have : n = 0 := by omega
      subst this
      simp [digitsLoop]

theorem powLoop_eq : ∀ (k fuel : Nat), 2 ^ k ≤ fuel → powLoop fuel (2 ^ k) = k + 1 := by
  intro k
  induction k with
  | zero =>
    intro fuel h
    cases fuel with
    | zero => omega
    | succ f => cases f <;> simp [powLoop]
  | succ k ih =>
    intro fuel h
    have hp : 0 < 2 ^ k := Nat.two_pow_pos k
    rw [Nat.pow_succ] at h
    cases fuel with
    | zero => omega
    | succ f =>
      have : 2 ^ (k + 1) >>> 1 = 2 ^ k := by rw [Nat.shiftRight_eq_div_pow, Nat.pow_succ]; omega
      rw [powLoop, if_pos (Nat.two_pow_pos _), this, ih f (by omega)]; omega

theorem digits_lt (n b : Nat) (hb : 1 < b) : n < b ^ digits n b := by
  unfold digits
  by_cases h0 : n = 0
  · subst h0; simp; omega
  · rw [if_neg h0, if_neg (by omega)]
    split
    · rename_i hp
      simp only [isPow2, beq_iff_eq] at hp
      obtain ⟨k, hk⟩ := (Nat.and_sub_one_eq_zero_iff_isPowerOfTwo (by omega)).1 hp
      subst hk
      cases k with
      | zero => omega
      | succ k =>
        have h2 : 2 ^ (k + 1) >>> 1 = 2 ^ k := by rw [Nat.shiftRight_eq_div_pow, Nat.pow_succ]; omega
        simp only [h2, powLoop_eq k (2 ^ (k + 1)) (by rw [Nat.pow_succ]; have := Nat.two_pow_pos k; omega)]
        have hf : (fun n : Nat => n >>> (k + 1)) = fun n => n / 2 ^ (k + 1) := by
          funext n; rw [Nat.shiftRight_eq_div_pow]
        rw [hf]
        exact (digitsLoop_spec _ hb n n (Nat.le_refl _)).1
    · exact (digitsLoop_spec _ hb n n (Nat.le_refl _)).1

theorem digits_pos (n b : Nat) (hb : 1 < b) : 0 < digits n b := by
  have := digits_lt n b hb
  by_cases h0 : n = 0
  · subst h0; simp [digits]
  · rcases Nat.eq_zero_or_pos (digits n b) with h | h
    · rw [h] at this; simp at this; omega
    · exact h

theorem digits_le (n b : Nat) (hb : 1 < b) (hn : 0 < n) : b ^ (digits n b - 1) ≤ n := by
  unfold digits
  rw [if_neg (by omega), if_neg (by omega)]
  split
  · rename_i hp
    simp only [isPow2, beq_iff_eq] at hp
    obtain ⟨k, hk⟩ := (Nat.and_sub_one_eq_zero_iff_isPowerOfTwo (by omega)).1 hp
    subst hk
    cases k with
    | zero => omega
    | succ k =>
      have h2 : 2 ^ (k + 1) >>> 1 = 2 ^ k := by rw [Nat.shiftRight_eq_div_pow, Nat.pow_succ]; omega
      simp only [h2, powLoop_eq k (2 ^ (k + 1)) (by rw [Nat.pow_succ]; have := Nat.two_pow_pos k; omega)]
      have hf : (fun n : Nat => n >>> (k + 1)) = fun n => n / 2 ^ (k + 1) := by
        funext n; rw [Nat.shiftRight_eq_div_pow]
      rw [hf]
      exact ((digitsLoop_spec _ hb n n (Nat.le_refl _)).2 hn).1
  · exact ((digitsLoop_spec _ hb n n (Nat.le_refl _)).2 hn).1

namespace Am1
variable {VM : Type} [ManageVars VM] [LawfulVM VM]

theorem newVars_spec : ∀ (k : Nat) (vm : VM),
    (newVars k vm).1 = (List.range k).map (fun i => ManageVars.nUsed vm + i) ∧
    ManageVars.nUsed (newVars k vm).2 = ManageVars.nUsed vm + k := by
  intro k
  induction k with
  | zero => intro vm; simp [newVars]
  | succ k ih =>
    intro vm
    obtain ⟨h1, h2⟩ := ih (ManageVars.newVar vm).2
    simp only [newVars]
    rw [h1, h2, LawfulVM.newVar_snd, LawfulVM.newVar_fst]
    refine ⟨?_, by omega⟩
    rw [List.range_succ_eq_map]
    simp only [List.map_cons, List.map_map, Nat.add_zero]
    congr 1
    apply List.map_congr_left
    intro i _
    simp only [Function.comp]; omega

theorem newLits_spec : ∀ (k : Nat) (vm : VM),
    (newLits k vm).1 = (List.range k).map (fun i => Lit.pos (ManageVars.nUsed vm + i)) ∧
    ManageVars.nUsed (newLits k vm).2 = ManageVars.nUsed vm + k := by
  intro k
  induction k with
  | zero => intro vm; simp [newLits]
  | succ k ih =>
    intro vm
    obtain ⟨h1, h2⟩ := ih (ManageVars.newVar vm).2
    simp only [newLits, ManageVars.newLit]
    rw [h1, h2, LawfulVM.newVar_snd, LawfulVM.newVar_fst]
    refine ⟨?_, by omega⟩
    rw [List.range_succ_eq_map]
    simp only [List.map_cons, List.map_map, Nat.add_zero]
    congr 1
    apply List.map_congr_left
    intro i _
    simp only [Function.comp]; congr 1; omega

/-- At most one literal is true: all true positions coincide. -/
theorem amo_iff_pairs (a : Asg) : ∀ lits : List Lit, countTrue a lits ≤ 1 ↔
    ∀ (i j : Nat) l k, lits[i]? = some l → lits[j]? = some k → l.holds a = true → k.holds a = true → i = j := by
  intro lits
  induction lits with
  | nil => simp
  | cons x xs ih =>
    rw [countTrue_cons]
    by_cases hx : x.holds a = true
    · rw [if_pos hx]
      constructor
      · intro h i j l k hi hj hl hk
        have hz : countTrue a xs = 0 := by omega
        rw [countTrue_eq_zero_iff] at hz
        cases i with
        | zero =>
          cases j with
          | zero => rfl
          | succ j =>
            simp only [List.getElem?_cons_succ] at hj
            have := hz _ (List.mem_of_getElem? hj)
            rw [hk] at this; cases this
        | succ i =>
          simp only [List.getElem?_cons_succ] at hi
          have := hz _ (List.mem_of_getElem? hi)
          rw [hl] at this; cases this
      · intro h
        have : countTrue a xs = 0 := by
          rw [countTrue_eq_zero_iff]
          intro l hl
          obtain ⟨i, hi⟩ := List.mem_iff_getElem?.1 hl
          cases hh : l.holds a with
          | false => rfl
          | true =>
            have := h 0 (i + 1) x l rfl (by simpa using hi) hx hh
            omega
        omega
    · rw [if_neg hx, Nat.zero_add, ih]
      constructor
      · intro h i j l k hi hj hl hk
        cases i with
        | zero => simp at hi; subst hi; exact absurd hl hx
        | succ i =>
          cases j with
          | zero => simp at hj; subst hj; exact absurd hk hx
          | succ j => have := h i j l k (by simpa using hi) (by simpa using hj) hl hk; omega
      · intro h i j l k hi hj hl hk
        have := h (i + 1) (j + 1) l k (by simpa using hi) (by simpa using hj) hl hk
        omega

/-- At most one literal is true: there is a position such that only the literal there may be true. -/
theorem amo_iff_sel (a : Asg) (lits : List Lit) : countTrue a lits ≤ 1 ↔
    ∃ s : Nat, ∀ (i : Nat) l, lits[i]? = some l → l.holds a = true → i = s := by
  rw [amo_iff_pairs]
  constructor
  · intro h
    by_cases hex : ∃ (i : Nat) (l : Lit), lits[i]? = some l ∧ l.holds a = true
    · obtain ⟨i, l, h1, h2⟩ := hex
      exact ⟨i, fun j k hj hk => h j i k l hj h1 hk h2⟩
    · exact ⟨0, fun i l hi hl => absurd ⟨i, l, hi, hl⟩ hex⟩
  · rintro ⟨s, hs⟩ i j l k hi hj hl hk
    rw [hs i l hi hl, hs j k hj hk]

/-- If some position is true, the selector is that position: a selector in range. -/
theorem amo_sel_lt (a : Asg) {lits : List Lit} (h0 : 0 < lits.length) (h : countTrue a lits ≤ 1) :
    ∃ s : Nat, s < lits.length ∧ ∀ (i : Nat) l, lits[i]? = some l → l.holds a = true → i = s := by
  obtain ⟨s, hs⟩ := (amo_iff_sel a lits).1 h
  by_cases hlt : s < lits.length
  · exact ⟨s, hlt, hs⟩
  · refine ⟨0, h0, fun i l hi hl => ?_⟩
    have := hs i l hi hl
    have := (List.getElem?_eq_some_iff.1 hi).1
    omega

/-- The specification of an at-most-one encoder. -/
def AmoSpec (enc : SubEnc VM) : Prop :=
  ∀ (lits : List Lit) (vm : VM), (∀ l ∈ lits, l.var < ManageVars.nUsed vm) →
    Encodes (varsOf lits) (ManageVars.nUsed vm) (ManageVars.nUsed (enc lits vm).2) (enc lits vm).1
      (fun a => countTrue a lits ≤ 1)

theorem amo_short (a : Asg) (lits : List Lit) (h : lits.length ≤ 1) : countTrue a lits ≤ 1 :=
  Nat.le_trans (countTrue_le_length _ _) h

theorem encodes_nil (V : Nat → Prop) (n : Nat) (P : Asg → Prop) (h : ∀ a, P a) : Encodes V n n [] P where
  le := Nat.le_refl _
  vars := by simp
  sound b _ := h b
  complete a _ := ⟨a, fun _ _ => rfl, by simp [ClauseSet.sat]⟩

theorem pairwise_sat (a : Asg) : ∀ lits, ClauseSet.sat a (pairwiseCls lits) ↔ countTrue a lits ≤ 1 := by
  intro lits
  induction lits with
  | nil => simp [pairwiseCls]
  | cons x xs ih =>
    rw [pairwiseCls, ClauseSet.sat_append, ih, countTrue_cons]
    have h1 : ClauseSet.sat a (xs.map fun k => [x.neg, k.neg]) ↔ (x.holds a = true → countTrue a xs = 0) := by
      rw [countTrue_eq_zero_iff]
      simp only [ClauseSet.sat, List.mem_map, forall_exists_index, and_imp, forall_apply_eq_imp_iff₂,
        Clause.sat, List.mem_cons, List.not_mem_nil, or_false, exists_eq_or_imp, exists_eq_left, Lit.holds_neg]
      constructor
      · intro h hx l hl; have := h l hl; rw [hx] at this; simpa using this
      · intro h l hl
        cases hx : x.holds a with
        | false => simp
        | true => simp [h hx l hl]
    rw [h1]
    by_cases hx : x.holds a = true
    · simp only [hx, true_imp_iff, if_pos]; omega
    · simp [hx]

theorem pairwise_vars : ∀ (lits : List Lit), ∀ c ∈ pairwiseCls lits, ∀ l ∈ c, varsOf lits l.var := by
  intro lits
  induction lits with
  | nil => simp [pairwiseCls]
  | cons x xs ih =>
    intro c hc l hl
    rw [pairwiseCls, List.mem_append] at hc
    rcases hc with hc | hc
    · obtain ⟨k, hk, rfl⟩ := List.mem_map.1 hc
      simp only [List.mem_cons, List.not_mem_nil, or_false] at hl
      rcases hl with rfl | rfl
      · exact ⟨x, by simp, by simp⟩
      · exact ⟨k, by simp [hk], by simp⟩
    · obtain ⟨k, hk, e⟩ := ih c hc l hl
      exact ⟨k, by simp [hk], e⟩

omit [LawfulVM VM] in
theorem pairwise_spec : AmoSpec (pairwise : SubEnc VM) := by
  intro lits vm _
  exact (Encodes.static (pairwise_vars lits)).congr (fun a => pairwise_sat a lits)

/-- Override an assignment on the variables `n, n+1, …, n+k-1`. -/
def override (a : Asg) (n k : Nat) (f : Nat → Bool) : Asg :=
  fun v => if n ≤ v ∧ v < n + k then f (v - n) else a v

theorem override_out (a : Asg) (n k : Nat) (f : Nat → Bool) {v : Nat} (h : v < n ∨ n + k ≤ v) :
    override a n k f v = a v := by
  unfold override; rw [if_neg]; omega

theorem override_in (a : Asg) (n k : Nat) (f : Nat → Bool) {i : Nat} (h : i < k) :
    override a n k f (n + i) = f i := by
  unfold override; rw [if_pos (by omega)]; congr 1; omega

theorem holds_override_of_lt (a : Asg) (n k : Nat) (f : Nat → Bool) {l : Lit} (h : l.var < n) :
    l.holds (override a n k f) = l.holds a := Lit.holds_congr (override_out a n k f (.inl h))

theorem getD_range_map {α : Type} (f : Nat → α) (k i : Nat) (d : α) (h : i < k) :
    ((List.range k).map f).getD i d = f i := by
  simp [List.getD, h]

theorem getD_of_getElem? {α : Type} {l : List α} {i : Nat} {x d : α} (h : l[i]? = some x) : l.getD i d = x := by
  simp [List.getD, h]

theorem sat_litImplLit (a : Asg) (p q : Lit) :
    Clause.sat a (Atomics.litImplLit p q) ↔ (p.holds a = true → q.holds a = true) := by
  simp only [Clause.sat, Atomics.litImplLit, List.mem_cons, List.not_mem_nil, or_false, exists_eq_or_imp,
    exists_eq_left, Lit.holds_neg]
  cases p.holds a <;> simp

/-! ### Ladder -/

theorem ladder_sat (a : Asg) (lits : List Lit) (n : Nat) (h : 2 ≤ lits.length) :
    ClauseSet.sat a (ladderCls lits ((List.range (lits.length - 1)).map fun i => Lit.pos (n + i))) ↔
    (∀ i, i + 2 < lits.length → a (n + (i + 1)) = true → a (n + i) = true) ∧
    (∀ (i : Nat) l, lits[i]? = some l → l.holds a = true →
      (∀ j, i = j + 1 → a (n + j) = true) ∧ (i + 1 < lits.length → a (n + i) = false)) := by
  rw [ladderCls, ClauseSet.sat_append]
  apply and_congr
  · simp only [ClauseSet.sat, List.mem_map, List.mem_range, forall_exists_index, and_imp,
      forall_apply_eq_imp_iff₂]
    constructor
    · intro hh i hi
      have := hh i (by omega)
      rw [sat_litImplLit, getD_range_map _ _ _ _ (by omega), getD_range_map _ _ _ _ (by omega),
        Lit.holds_pos, Lit.holds_pos] at this
      exact this
    · intro hh i hi
      rw [sat_litImplLit, getD_range_map _ _ _ _ (by omega), getD_range_map _ _ _ _ (by omega),
        Lit.holds_pos, Lit.holds_pos]
      exact hh i (by omega)
  · have key : ∀ (i : Nat) (l : Lit), lits[i]? = some l →
        ((∀ c ∈ Atomics.litImplCube (lits.getD i (Lit.pos 0))
          ((if i > 0 then [((List.range (lits.length - 1)).map fun i => Lit.pos (n + i)).getD (i - 1) (Lit.pos 0)]
            else []) ++
          (if i < ((List.range (lits.length - 1)).map fun i => Lit.pos (n + i)).length then
            [(((List.range (lits.length - 1)).map fun i => Lit.pos (n + i)).getD i (Lit.pos 0)).neg] else [])),
          Clause.sat a c) ↔
        (l.holds a = true →
          (∀ j, i = j + 1 → a (n + j) = true) ∧ (i + 1 < lits.length → a (n + i) = false))) := by
      intro i l hi
      have hlt := (List.getElem?_eq_some_iff.1 hi).1
      rw [getD_of_getElem? hi]
      simp only [Atomics.litImplCube, List.mem_map, forall_exists_index, and_imp, forall_apply_eq_imp_iff₂,
        List.mem_append, List.length_map, List.length_range]
      constructor
      · intro hh hl
        refine ⟨fun j hj => ?_, fun hi1 => ?_⟩
        · have := hh _ (.inl (by rw [if_pos (by omega)]; exact List.mem_singleton.2 rfl))
          rw [show ∀ x, [l.neg, x] = Atomics.litImplLit l x from fun _ => rfl, sat_litImplLit] at this
          have := this hl
          rw [getD_range_map _ _ _ _ (by omega), Lit.holds_pos] at this
          rwa [show i - 1 = j by omega] at this
        · have := hh _ (.inr (by rw [if_pos (by omega)]; exact List.mem_singleton.2 rfl))
          rw [show ∀ x, [l.neg, x] = Atomics.litImplLit l x from fun _ => rfl, sat_litImplLit] at this
          have := this hl
          rw [getD_range_map _ _ _ _ (by omega), Lit.holds_neg, Lit.holds_pos] at this
          simpa using this
      · rintro hh x (hx | hx)
        · split at hx
          · rename_i h0
            rw [List.mem_singleton] at hx
            subst hx
            rw [show ∀ x, [l.neg, x] = Atomics.litImplLit l x from fun _ => rfl, sat_litImplLit]
            intro hl
            rw [getD_range_map _ _ _ _ (by omega), Lit.holds_pos]
            exact (hh hl).1 (i - 1) (by omega)
          · cases hx
        · split at hx
          · rw [List.mem_singleton] at hx
            subst hx
            rw [show ∀ x, [l.neg, x] = Atomics.litImplLit l x from fun _ => rfl, sat_litImplLit]
            intro hl
            rw [getD_range_map _ _ _ _ (by omega), Lit.holds_neg, Lit.holds_pos]
            simp [(hh hl).2 (by omega)]
          · cases hx
    simp only [ClauseSet.sat, List.mem_flatMap, List.mem_range, forall_exists_index, and_imp]
    constructor
    · intro hh i l hi
      exact (key i l hi).1 fun c hc => hh c i (List.getElem?_eq_some_iff.1 hi).1 hc
    · intro hh c i hi hc
      have hg : lits[i]? = some lits[i] := List.getElem?_eq_getElem hi
      exact (key i _ hg).2 (hh i _ hg) c hc

theorem ladder_vars (lits : List Lit) (n : Nat) (h : 2 ≤ lits.length) :
    ∀ c ∈ ladderCls lits ((List.range (lits.length - 1)).map fun i => Lit.pos (n + i)), ∀ l ∈ c,
      varsOf lits l.var ∨ (n ≤ l.var ∧ l.var < n + (lits.length - 1)) := by
  intro c hc l hl
  rw [ladderCls, List.mem_append] at hc
  rcases hc with hc | hc
  · obtain ⟨i, hi, rfl⟩ := List.mem_map.1 hc
    rw [List.mem_range] at hi
    rw [getD_range_map _ _ _ _ (by omega), getD_range_map _ _ _ _ (by omega)] at hl
    simp only [Atomics.litImplLit, List.mem_cons, List.not_mem_nil, or_false] at hl
    rcases hl with rfl | rfl <;> simp <;> omega
  · obtain ⟨i, hi, hc⟩ := List.mem_flatMap.1 hc
    rw [List.mem_range] at hi
    obtain ⟨x, hx, rfl⟩ := List.mem_map.1 hc
    simp only [List.mem_cons, List.not_mem_nil, or_false] at hl
    rcases hl with rfl | rfl
    · left
      rw [getD_of_getElem? (List.getElem?_eq_getElem hi)]
      exact ⟨lits[i], List.getElem_mem hi, by simp⟩
    · right
      rw [List.mem_append] at hx
      rcases hx with hx | hx
      · split at hx
        · rw [List.mem_singleton] at hx
          rw [hx, getD_range_map _ _ _ _ (by omega)]; simp; omega
        · cases hx
      · split at hx
        · rename_i hlt
          simp at hlt
          rw [List.mem_singleton] at hx
          rw [hx, getD_range_map _ _ _ _ (by omega)]; simp; omega
        · cases hx

theorem ladder_spec : AmoSpec (ladder : SubEnc VM) := by
  intro lits vm hlt
  unfold ladder
  by_cases h : lits.length ≤ 1
  · rw [if_pos h]; exact encodes_nil _ _ _ fun a => amo_short a lits h
  · rw [if_neg h]
    obtain ⟨e1, e2⟩ := newLits_spec (lits.length - 1) vm
    simp only
    rw [e1, e2]
    generalize ManageVars.nUsed vm = n at *
    refine Encodes.aux (V' := fun v => varsOf lits v ∨ (n ≤ v ∧ v < n + (lits.length - 1)))
      (Encodes.static (ladder_vars lits n (by omega))) (by omega) (fun v hv => hv) ?_ ?_
    · intro b hb
      rw [ladder_sat b lits n (by omega)] at hb
      obtain ⟨hv, hc⟩ := hb
      -- the ladder is monotone
      have mono : ∀ d i, i + d + 1 < lits.length → b (n + (i + d)) = true → b (n + i) = true := by
        intro d
        induction d with
        | zero => intro i _ h; exact h
        | succ d ih => intro i hi h; exact ih i (by omega) (hv (i + d) (by omega) h)
      have lt : ∀ (i j : Nat) l k, lits[i]? = some l → lits[j]? = some k → l.holds b = true →
          k.holds b = true → ¬ i < j := by
        intro i j l k hi hj hl hk hij
        have hjl := (List.getElem?_eq_some_iff.1 hj).1
        have h1 := (hc i l hi hl).2 (by omega)
        have h2 := (hc j k hj hk).1 (j - 1) (by omega)
        have h3 := mono (j - 1 - i) i (by omega) (by rwa [show i + (j - 1 - i) = j - 1 by omega])
        rw [h1] at h3; cases h3
      rw [amo_iff_pairs]
      intro i j l k hi hj hl hk
      have := lt i j l k hi hj hl hk
      have := lt j i k l hj hi hk hl
      omega
    · intro a ha
      obtain ⟨s, hs⟩ := (amo_iff_sel a lits).1 ha
      refine ⟨override a n (lits.length - 1) (fun i => decide (i < s)),
        fun v hv => override_out _ _ _ _ hv, ?_⟩
      rw [ladder_sat _ lits n (by omega)]
      refine ⟨fun i hi => ?_, fun i l hi hl => ?_⟩
      · rw [override_in _ _ _ _ (by omega), override_in _ _ _ _ (by omega)]; simp; omega
      · have hil := (List.getElem?_eq_some_iff.1 hi).1
        rw [holds_override_of_lt _ _ _ _ (hlt l (List.mem_of_getElem? hi))] at hl
        have := hs i l hi hl
        refine ⟨fun j hj => ?_, fun hi1 => ?_⟩
        · rw [override_in _ _ _ _ (by omega)]; simp; omega
        · rw [override_in _ _ _ _ (by omega)]; simp; omega

/-! ### Bitwise -/

theorem and_one_shiftLeft (i k : Nat) : ((i &&& (1 <<< k)) == 0) = !(i.testBit k) := by
  rw [Nat.one_shiftLeft, Nat.and_two_pow]
  cases i.testBit k <;> simp

theorem holds_bitLit (a : Asg) (n p i k : Nat) (h : k < p) :
    (bitLit ((List.range p).map fun j => n + j) i k).holds a = true ↔ a (n + k) = i.testBit k := by
  unfold bitLit
  rw [getD_range_map _ _ _ _ h, and_one_shiftLeft]
  cases hb : i.testBit k
  · simp [Lit.holds]
  · simp [Lit.holds]

theorem var_bitLit (n p i k : Nat) (h : k < p) :
    (bitLit ((List.range p).map fun j => n + j) i k).var = n + k := by
  unfold bitLit
  rw [getD_range_map _ _ _ _ h]; simp

theorem eq_of_bits {i j p : Nat} (hi : i < 2 ^ p) (hj : j < 2 ^ p)
    (h : ∀ k, k < p → i.testBit k = j.testBit k) : i = j := by
  apply Nat.eq_of_testBit_eq
  intro k
  by_cases hk : k < p
  · exact h k hk
  · have hle : 2 ^ p ≤ 2 ^ k := Nat.pow_le_pow_right (by omega) (by omega)
    rw [Nat.testBit_lt_two_pow (Nat.lt_of_lt_of_le hi hle), Nat.testBit_lt_two_pow (Nat.lt_of_lt_of_le hj hle)]

theorem bitwise_spec : AmoSpec (bitwise : SubEnc VM) := by
  intro lits vm hlt
  unfold bitwise
  by_cases h : lits.length ≤ 1
  · rw [if_pos h]; exact encodes_nil _ _ _ fun a => amo_short a lits h
  · rw [if_neg h]
    have hp := digits_lt (lits.length - 1) 2 (by omega)
    generalize digits (lits.length - 1) 2 = p at *
    obtain ⟨e1, e2⟩ := newVars_spec p vm
    simp only
    rw [e1, e2]
    generalize ManageVars.nUsed vm = n at *
    have hsat : ∀ a, ClauseSet.sat a (bitwiseCls lits ((List.range p).map fun i => n + i) p) ↔
        ∀ (i : Nat) l, lits[i]? = some l → l.holds a = true → ∀ k, k < p → a (n + k) = i.testBit k := by
      intro a
      simp only [bitwiseCls, ClauseSet.sat, List.mem_flatMap, List.mem_range, List.mem_map]
      constructor
      · intro hh i l hi hl k hk
        have hil := (List.getElem?_eq_some_iff.1 hi).1
        have := hh _ ⟨i, hil, k, hk, rfl⟩
        rw [sat_litImplLit, getD_of_getElem? hi, holds_bitLit _ _ _ _ _ hk] at this
        exact this hl
      · rintro hh c ⟨i, hi, k, hk, rfl⟩
        have hg : lits[i]? = some lits[i] := List.getElem?_eq_getElem hi
        rw [sat_litImplLit, getD_of_getElem? hg, holds_bitLit _ _ _ _ _ hk]
        intro hl
        exact hh i _ hg hl k hk
    refine Encodes.aux (V' := fun v => varsOf lits v ∨ (n ≤ v ∧ v < n + p))
      (Encodes.static ?_) (by omega) (fun v hv => hv) ?_ ?_
    · intro c hc l hl
      simp only [bitwiseCls, List.mem_flatMap, List.mem_range, List.mem_map] at hc
      obtain ⟨i, hi, k, hk, rfl⟩ := hc
      simp only [Atomics.litImplLit, List.mem_cons, List.not_mem_nil, or_false] at hl
      rcases hl with rfl | rfl
      · left
        rw [getD_of_getElem? (List.getElem?_eq_getElem hi)]
        exact ⟨lits[i], List.getElem_mem hi, by simp⟩
      · right
        rw [var_bitLit _ _ _ _ hk]; omega
    · intro b hb
      rw [hsat] at hb
      rw [amo_iff_pairs]
      intro i j l k hi hj hl hk
      have hil := (List.getElem?_eq_some_iff.1 hi).1
      have hjl := (List.getElem?_eq_some_iff.1 hj).1
      exact eq_of_bits (p := p) (by omega) (by omega) fun t ht => by
        rw [← hb i l hi hl t ht, ← hb j k hj hk t ht]
    · intro a ha
      obtain ⟨s, hs⟩ := (amo_iff_sel a lits).1 ha
      refine ⟨override a n p (fun k => s.testBit k), fun v hv => override_out _ _ _ _ hv, ?_⟩
      rw [hsat]
      intro i l hi hl k hk
      rw [holds_override_of_lt _ _ _ _ (hlt l (List.mem_of_getElem? hi))] at hl
      rw [override_in _ _ _ _ hk, hs i l hi hl]

end Am1
end RustSat
