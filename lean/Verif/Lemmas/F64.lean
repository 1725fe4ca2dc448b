import Verif.Model.ClusteringInput
import Mathlib.Tactic.Linarith
import Mathlib.Tactic.NormNum
import Mathlib.Tactic.Positivity
import Mathlib.Tactic.Ring
import Mathlib.Tactic.FieldSimp
/-
Rounding of rational numbers to binary floating-point numbers.
-/
namespace RustSat
namespace Clustering

theorem roundEven_bounds (q : ℚ) : (roundEven q : ℚ) - q ≤ 1 / 2 ∧ q - roundEven q ≤ 1 / 2 := by
  have h1 := Int.floor_le q
  have h2 := Int.lt_floor_add_one q
  unfold roundEven
  by_cases h : q - ⌊q⌋ < 1 / 2
  · rw [if_pos h]; constructor <;> linarith
  rw [if_neg h]
  by_cases h' : 1 / 2 < q - ⌊q⌋
  · rw [if_pos h']; push_cast; constructor <;> linarith
  rw [if_neg h']
  split
  · constructor <;> linarith
  · push_cast; constructor <;> linarith

theorem roundEven_tie {q : ℚ} (h : (roundEven q : ℚ) - q = 1 / 2 ∨ q - roundEven q = 1 / 2) : roundEven q % 2 = 0 := by
  have h1 := Int.floor_le q
  have h2 := Int.lt_floor_add_one q
  unfold roundEven at h ⊢
  by_cases h3 : q - ⌊q⌋ < 1 / 2
  · rw [if_pos h3] at h; rcases h with h | h <;> exfalso <;> linarith
  rw [if_neg h3] at h ⊢
  by_cases h' : 1 / 2 < q - ⌊q⌋
  · rw [if_pos h'] at h; push_cast at h; rcases h with h | h <;> exfalso <;> linarith
  rw [if_neg h']
  by_cases h4 : ⌊q⌋ % 2 = 0
  · rw [if_pos h4]; exact h4
  · rw [if_neg h4]; omega

theorem roundEven_unique {q : ℚ} {n : ℤ} (h1 : (n : ℚ) - q ≤ 1 / 2) (h2 : q - n ≤ 1 / 2) (h3 : (n : ℚ) - q = 1 / 2 ∨ q - n = 1 / 2 → n % 2 = 0) :
    roundEven q = n := by
  obtain ⟨g1, g2⟩ := roundEven_bounds q
  have g3 := roundEven_tie (q := q)
  generalize roundEven q = r at *
  rcases lt_trichotomy r n with h | h | h
  · exfalso
    have e : (r : ℚ) + 1 ≤ n := by exact_mod_cast h
    have t1 : (n : ℚ) - q = 1 / 2 := by linarith
    have t2 : q - r = 1 / 2 := by linarith
    have := h3 (Or.inl t1)
    have := g3 (Or.inr t2)
    have e' : (n : ℚ) = r + 1 := by linarith
    have : n = r + 1 := by exact_mod_cast e'
    omega
  · exact h
  · exfalso
    have e : (n : ℚ) + 1 ≤ r := by exact_mod_cast h
    have t1 : (r : ℚ) - q = 1 / 2 := by linarith
    have t2 : q - n = 1 / 2 := by linarith
    have := h3 (Or.inr t2)
    have := g3 (Or.inl t1)
    have e' : (r : ℚ) = n + 1 := by linarith
    have : r = n + 1 := by exact_mod_cast e'
    omega

theorem roundEven_int (n : ℤ) : roundEven n = n := roundEven_unique (by norm_num) (by norm_num) (by norm_num)

theorem roundEven_neg (q : ℚ) : roundEven (-q) = -roundEven q := by
  obtain ⟨g1, g2⟩ := roundEven_bounds q
  refine roundEven_unique (by push_cast; linarith) (by push_cast; linarith) fun h => ?_
  have := roundEven_tie (q := q) (by
    push_cast at h
    rcases h with h | h
    · right; linarith
    · left; linarith)
  omega

theorem roundEven_mono {a b : ℚ} (h : a ≤ b) : roundEven a ≤ roundEven b := by
  by_contra hc
  have hc : roundEven b + 1 ≤ roundEven a := by omega
  have e : (roundEven b : ℚ) + 1 ≤ roundEven a := by exact_mod_cast hc
  obtain ⟨g1, -⟩ := roundEven_bounds a
  obtain ⟨-, g2⟩ := roundEven_bounds b
  have : a = b := by linarith
  subst this
  linarith

theorem two_zpow_pos (e : ℤ) : (0 : ℚ) < 2 ^ e := zpow_pos (by norm_num) e

theorem roundBits_zero : roundBits 0 = 0 := by
  unfold roundBits
  have := roundEven_int 0
  rw [Int.cast_zero] at this
  rw [zero_div, this, Int.cast_zero, zero_mul]

theorem lastPlace_neg (q : ℚ) : lastPlace (-q) = lastPlace q := by unfold lastPlace; rw [abs_neg]

theorem roundBits_neg (q : ℚ) : roundBits (-q) = -roundBits q := by
  unfold roundBits
  rw [lastPlace_neg, neg_div, roundEven_neg]
  push_cast
  ring

/-- The error of rounding: half a unit in the last place. -/
theorem roundBits_ulp (q : ℚ) : |roundBits q - q| ≤ 2 ^ lastPlace q / 2 := by
  unfold roundBits
  obtain ⟨g1, g2⟩ := roundEven_bounds (q / 2 ^ lastPlace q)
  have hp := two_zpow_pos (lastPlace q)
  have e : q = q / 2 ^ lastPlace q * 2 ^ lastPlace q := by field_simp
  generalize hx : q / 2 ^ lastPlace q = x at *
  generalize (2 : ℚ) ^ lastPlace q = u at *
  rw [e, abs_le]
  constructor <;> nlinarith

theorem roundBits_error (q : ℚ) : |roundBits q - q| ≤ |q| / 2 ^ 53 + 2 ^ (-1075 : ℤ) := by
  have hq := abs_nonneg q
  have hs := two_zpow_pos (-1075)
  rcases eq_or_ne q 0 with rfl | h0
  · rw [roundBits_zero, sub_zero, abs_zero, zero_div, zero_add]
    exact hs.le
  refine (roundBits_ulp q).trans ?_
  have hl := Int.zpow_log_le_self (b := 2) (r := |q|) (by norm_num) (abs_pos.2 h0)
  unfold lastPlace
  rcases le_total (Int.log 2 |q| - 52) (-1074) with h | h
  · rw [max_eq_right h]
    have : (2 : ℚ) ^ (-1074 : ℤ) / 2 = 2 ^ (-1075 : ℤ) := by
      have e : (-1075 : ℤ) = -1074 - 1 := by norm_num
      rw [e, zpow_sub_one₀ (by norm_num)]
      ring
    rw [this]
    have : 0 ≤ |q| / 2 ^ 53 := by positivity
    linarith
  · rw [max_eq_left h, zpow_sub₀ (by norm_num)]
    have h1 : (2 : ℚ) ^ (52 : ℤ) = 2 ^ 52 := by norm_num
    rw [h1]
    have h2 : ((2 : ℕ) : ℚ) = 2 := by norm_num
    rw [h2] at hl
    have h3 : (2 : ℚ) ^ Int.log 2 |q| / 2 ^ 52 / 2 = 2 ^ Int.log 2 |q| / 2 ^ 53 := by ring
    rw [h3]
    have h4 : (2 : ℚ) ^ Int.log 2 |q| / 2 ^ 53 ≤ |q| / 2 ^ 53 := by gcongr
    linarith

theorem tiny : (2 : ℚ) ^ (-1075 : ℤ) ≤ 1 / 2 ^ 60 := by
  have : (2 : ℚ) ^ (-1075 : ℤ) ≤ 2 ^ (-60 : ℤ) := zpow_le_zpow_right₀ (by norm_num) (by norm_num)
  refine this.trans (le_of_eq ?_)
  norm_num

/-- The characterization of the integer part. -/
theorem truncQ_spec (q : ℚ) : (0 ≤ q ∧ 0 ≤ truncQ q ∧ (truncQ q : ℚ) ≤ q ∧ q < truncQ q + 1) ∨
    (q < 0 ∧ truncQ q ≤ 0 ∧ q ≤ truncQ q ∧ (truncQ q : ℚ) - 1 < q) := by
  unfold truncQ
  by_cases h : q < 0
  · right
    rw [if_pos h]
    have h1 := Int.floor_le (-q)
    have h2 := Int.lt_floor_add_one (-q)
    have h3 : 0 ≤ ⌊-q⌋ := Int.floor_nonneg.2 (by linarith)
    push_cast
    refine ⟨h, by omega, by linarith, by linarith⟩
  · left
    rw [if_neg h]
    push Not at h
    exact ⟨h, Int.floor_nonneg.2 h, Int.floor_le q, Int.lt_floor_add_one q⟩

theorem truncQ_near {a b : ℚ} (h : |a - b| < 1) : |truncQ a - truncQ b| ≤ 1 := by
  rw [abs_lt] at h
  have ha := truncQ_spec a
  have hb := truncQ_spec b
  generalize truncQ a = n at *
  generalize truncQ b = m at *
  rw [abs_le]
  constructor
  · by_contra hc
    have hc : n + 2 ≤ m := by omega
    have e : (n : ℚ) + 2 ≤ m := by exact_mod_cast hc
    rcases ha with ⟨a1, a2, a3, a4⟩ | ⟨a1, a2, a3, a4⟩ <;> rcases hb with ⟨b1, b2, b3, b4⟩ | ⟨b1, b2, b3, b4⟩
    · linarith
    · omega
    · linarith
    · linarith
  · by_contra hc
    have hc : m + 2 ≤ n := by omega
    have e : (m : ℚ) + 2 ≤ n := by exact_mod_cast hc
    rcases ha with ⟨a1, a2, a3, a4⟩ | ⟨a1, a2, a3, a4⟩ <;> rcases hb with ⟨b1, b2, b3, b4⟩ | ⟨b1, b2, b3, b4⟩
    · linarith
    · linarith
    · omega
    · linarith

theorem truncQ_mono {a b : ℚ} (h : a ≤ b) : truncQ a ≤ truncQ b := by
  have ha := truncQ_spec a
  have hb := truncQ_spec b
  generalize truncQ a = n at *
  generalize truncQ b = m at *
  by_contra hc
  have hc : m + 1 ≤ n := by omega
  have e : (m : ℚ) + 1 ≤ n := by exact_mod_cast hc
  rcases ha with ⟨a1, a2, a3, a4⟩ | ⟨a1, a2, a3, a4⟩ <;> rcases hb with ⟨b1, b2, b3, b4⟩ | ⟨b1, b2, b3, b4⟩
  · linarith
  · linarith
  · omega
  · linarith

theorem big_pow : (2 : ℚ) ^ 64 ≤ 2 ^ 1024 := pow_le_pow_right₀ (by norm_num) (by norm_num)

theorem round_fin {q : ℚ} (h : |roundBits q| < 2 ^ 64) : F64.round q = .fin (roundBits q) := by
  unfold F64.round
  rw [if_neg]
  exact not_le.2 (h.trans_le big_pow)

theorem abs_le_of_near {a b c : ℚ} (h : |a - b| ≤ c) : |a| ≤ |b| + c := by
  have := abs_sub_abs_le_abs_sub a b
  linarith

theorem mulNat_fin (q : ℚ) (m : ℕ) : (F64.fin q).mulNat m = F64.round (q * m) := rfl

theorem scaling_zero (q : ℚ) : scalingMap (F64.round q) 0 = 0 := by
  unfold scalingMap F64.round
  by_cases hb : 2 ^ 1024 ≤ |roundBits q|
  · rw [if_pos hb]; rfl
  · rw [if_neg hb, mulNat_fin, Nat.cast_zero, mul_zero, round_fin (by rw [roundBits_zero]; norm_num), roundBits_zero]
    unfold F64.toIsize truncQ
    norm_num

/-- Scaling of exact numbers, with at most one unit of error. -/
theorem scaling_near {q : ℚ} {m : ℕ} (hm : m < 2 ^ 32) (h : |q * m| ≤ 2 ^ 50) : |scalingMap (F64.round q) m - truncQ (q * m)| ≤ 1 := by
  rcases Nat.eq_zero_or_pos m with rfl | hpos
  · have h0 : truncQ (q * (0 : ℕ)) = 0 := by norm_num [truncQ]
    rw [h0]
    rw [scaling_zero]; norm_num
  have hm1 : (1 : ℚ) ≤ m := by exact_mod_cast hpos
  have hm2 : (m : ℚ) < 2 ^ 32 := by exact_mod_cast hm
  have hq : |q| ≤ 2 ^ 50 := by
    rw [abs_mul, Nat.abs_cast] at h
    have := abs_nonneg q
    nlinarith
  have ht := tiny
  have e1 := roundBits_error q
  have b1 := abs_le_of_near e1
  have r1 : F64.round q = .fin (roundBits q) := round_fin (by
    have : |q| / 2 ^ 53 ≤ 2 ^ 50 / 2 ^ 53 := by gcongr
    norm_num at *
    linarith)
  generalize hx : roundBits q = x at *
  have e2 := roundBits_error (x * m)
  have e3 : |x * m - q * m| ≤ |q * m| / 2 ^ 53 + 1 / 2 ^ 28 := by
    rw [← sub_mul, abs_mul, abs_mul, Nat.abs_cast]
    calc |x - q| * m ≤ (|q| / 2 ^ 53 + 1 / 2 ^ 60) * m := by
          refine mul_le_mul_of_nonneg_right (e1.trans ?_) (by linarith)
          linarith
      _ = |q| * m / 2 ^ 53 + m * (1 / 2 ^ 60) := by ring
      _ ≤ _ := by
        have : (m : ℚ) * (1 / 2 ^ 60) ≤ 2 ^ 32 * (1 / 2 ^ 60) := by gcongr
        have e : (2 : ℚ) ^ 32 * (1 / 2 ^ 60) = 1 / 2 ^ 28 := by norm_num
        rw [e] at this
        linarith
  have b3 := abs_le_of_near e3
  have b2 := abs_le_of_near e2
  have d1 : |q * m| / 2 ^ 53 ≤ 2 ^ 50 / 2 ^ 53 := by gcongr
  have hxm : |x * m| ≤ 2 ^ 50 + 1 := by norm_num at *; linarith
  have d2 : |x * m| / 2 ^ 53 ≤ (2 ^ 50 + 1) / 2 ^ 53 := by gcongr
  have r2 : F64.round (x * m) = .fin (roundBits (x * m)) := round_fin (by norm_num at *; linarith)
  have hlim : |roundBits (x * m)| ≤ 2 ^ 50 + 2 := by norm_num at *; linarith
  unfold scalingMap
  rw [r1, mulNat_fin, r2]
  unfold F64.toIsize
  have hnear : |roundBits (x * m) - q * m| < 1 := by
    have := abs_sub_le (roundBits (x * m)) (x * m) (q * m)
    norm_num at *
    linarith
  have hs := truncQ_spec (roundBits (x * m))
  have hn := truncQ_near hnear
  have hr : -(2 ^ 63 : ℤ) ≤ truncQ (roundBits (x * m)) ∧ truncQ (roundBits (x * m)) ≤ 2 ^ 63 - 1 := by
    rw [abs_le] at hlim
    generalize truncQ (roundBits (x * m)) = n at *
    constructor
    · have : (-(2 ^ 63) : ℚ) ≤ n := by rcases hs with ⟨a1, a2, a3, a4⟩ | ⟨a1, a2, a3, a4⟩ <;> norm_num at * <;> linarith
      exact_mod_cast this
    · have : (n : ℚ) ≤ 2 ^ 63 - 1 := by rcases hs with ⟨a1, a2, a3, a4⟩ | ⟨a1, a2, a3, a4⟩ <;> norm_num at * <;> linarith
      exact_mod_cast this
  simp only
  rw [min_eq_right hr.2, max_eq_right hr.1]
  exact hn

/-! ### Exact numbers -/

theorem roundBits_exact {k : ℤ} {j : ℕ} (hk : |k| < 2 ^ 53) (hj : j ≤ 1074) : roundBits (k / 2 ^ j) = k / 2 ^ j := by
  rcases eq_or_ne k 0 with rfl | h0
  · rw [Int.cast_zero, zero_div, roundBits_zero]
  have hq : (0 : ℚ) < |(k : ℚ) / 2 ^ j| := by
    rw [abs_pos]
    have : (k : ℚ) ≠ 0 := by exact_mod_cast h0
    positivity
  have hlt : |(k : ℚ) / 2 ^ j| < 2 ^ ((53 : ℤ) - j) := by
    rw [abs_div, abs_of_pos (show (0 : ℚ) < 2 ^ j by positivity), zpow_sub₀ (by norm_num), zpow_natCast]
    have : |(k : ℚ)| < 2 ^ (53 : ℤ) := by
      have : ((|k| : ℤ) : ℚ) < ((2 ^ 53 : ℤ) : ℚ) := Int.cast_lt.2 hk
      rw [Int.cast_abs] at this
      refine this.trans_eq ?_
      norm_num
    gcongr
  have hlog : Int.log 2 |(k : ℚ) / 2 ^ j| < 53 - j := by
    refine (Int.lt_zpow_iff_log_lt (by norm_num) hq).1 ?_
    exact_mod_cast hlt
  have hlp : lastPlace ((k : ℚ) / 2 ^ j) ≤ -j := by
    unfold lastPlace
    exact max_le (by omega) (by omega)
  obtain ⟨d, hd⟩ : ∃ d : ℕ, -(j : ℤ) - lastPlace ((k : ℚ) / 2 ^ j) = d := ⟨_, (Int.toNat_of_nonneg (by omega)).symm⟩
  unfold roundBits
  have e : (k : ℚ) / 2 ^ j / 2 ^ lastPlace ((k : ℚ) / 2 ^ j) = ((k * 2 ^ d : ℤ) : ℚ) := by
    push_cast
    have : (2 : ℚ) ^ d = 2 ^ (-(j : ℤ) - lastPlace ((k : ℚ) / 2 ^ j)) := by rw [hd, zpow_natCast]
    rw [this, zpow_sub₀ (by norm_num), zpow_neg, zpow_natCast]
    field_simp
  have hp := two_zpow_pos (lastPlace ((k : ℚ) / 2 ^ j))
  rw [e, roundEven_int, ← e]
  field_simp

/-! ### Monotonicity -/

theorem roundBits_nonneg {q : ℚ} (h : 0 ≤ q) : 0 ≤ roundBits q := by
  unfold roundBits
  have hp := two_zpow_pos (lastPlace q)
  have : roundEven ((0 : ℤ) : ℚ) ≤ roundEven (q / 2 ^ lastPlace q) := roundEven_mono (by push_cast; positivity)
  rw [roundEven_int] at this
  have : (0 : ℚ) ≤ roundEven (q / 2 ^ lastPlace q) := by exact_mod_cast this
  positivity

/-- Rounding stays below a power of two in reach of the last place, and above. -/
theorem roundBits_le_pow {q : ℚ} {e : ℤ} (h : q ≤ 2 ^ e) (he : lastPlace q ≤ e) : roundBits q ≤ 2 ^ e := by
  obtain ⟨d, hd⟩ : ∃ d : ℕ, e - lastPlace q = d := ⟨_, (Int.toNat_of_nonneg (by omega)).symm⟩
  have hp := two_zpow_pos (lastPlace q)
  have e1 : (2 : ℚ) ^ e = ((2 ^ d : ℤ) : ℚ) * 2 ^ lastPlace q := by
    push_cast
    rw [← zpow_natCast, ← hd, ← zpow_add₀ (by norm_num)]
    congr 1
    omega
  unfold roundBits
  rw [e1] at h ⊢
  have h2 : q / 2 ^ lastPlace q ≤ ((2 ^ d : ℤ) : ℚ) := (div_le_iff₀ hp).2 h
  have := roundEven_mono h2
  rw [roundEven_int] at this
  have : (roundEven (q / 2 ^ lastPlace q) : ℚ) ≤ ((2 ^ d : ℤ) : ℚ) := by exact_mod_cast this
  gcongr

theorem pow_le_roundBits {q : ℚ} {e : ℤ} (h : 2 ^ e ≤ q) (he : lastPlace q ≤ e) : 2 ^ e ≤ roundBits q := by
  obtain ⟨d, hd⟩ : ∃ d : ℕ, e - lastPlace q = d := ⟨_, (Int.toNat_of_nonneg (by omega)).symm⟩
  have hp := two_zpow_pos (lastPlace q)
  have e1 : (2 : ℚ) ^ e = ((2 ^ d : ℤ) : ℚ) * 2 ^ lastPlace q := by
    push_cast
    rw [← zpow_natCast, ← hd, ← zpow_add₀ (by norm_num)]
    congr 1
    omega
  unfold roundBits
  rw [e1] at h ⊢
  have h2 : ((2 ^ d : ℤ) : ℚ) ≤ q / 2 ^ lastPlace q := (le_div_iff₀ hp).2 h
  have := roundEven_mono h2
  rw [roundEven_int] at this
  have : ((2 ^ d : ℤ) : ℚ) ≤ (roundEven (q / 2 ^ lastPlace q) : ℚ) := by exact_mod_cast this
  gcongr

theorem roundBits_mono_pos {a b : ℚ} (ha : 0 < a) (h : a ≤ b) : roundBits a ≤ roundBits b := by
  have hb : 0 < b := ha.trans_le h
  have hlog : Int.log 2 a ≤ Int.log 2 b := Int.log_mono_right ha h
  have la : lastPlace a = max (Int.log 2 a - 52) (-1074) := by unfold lastPlace; rw [abs_of_pos ha]
  have lb : lastPlace b = max (Int.log 2 b - 52) (-1074) := by unfold lastPlace; rw [abs_of_pos hb]
  by_cases heq : lastPlace a = lastPlace b
  · unfold roundBits
    rw [heq]
    have hp := two_zpow_pos (lastPlace b)
    have : roundEven (a / 2 ^ lastPlace b) ≤ roundEven (b / 2 ^ lastPlace b) := roundEven_mono (by gcongr)
    have : (roundEven (a / 2 ^ lastPlace b) : ℚ) ≤ roundEven (b / 2 ^ lastPlace b) := by exact_mod_cast this
    gcongr
  · have hlt : Int.log 2 a < Int.log 2 b := by
      rcases lt_or_eq_of_le hlog with h | h
      · exact h
      · rw [la, lb, h] at heq; exact absurd rfl heq
    have hbl : -1074 < Int.log 2 b - 52 := by
      by_contra hc
      rw [la, lb, max_eq_right (by omega), max_eq_right (by omega)] at heq
      exact heq rfl
    have h1 : (2 : ℚ) ^ Int.log 2 b ≤ b := by
      have := Int.zpow_log_le_self (b := 2) (r := b) (by norm_num) hb
      exact_mod_cast this
    have h2 : a ≤ 2 ^ Int.log 2 b := by
      have := Int.lt_zpow_succ_log_self (b := 2) (by norm_num) a
      have e : ((2 : ℕ) : ℚ) = 2 := by norm_num
      rw [e] at this
      exact this.le.trans (zpow_le_zpow_right₀ (by norm_num) (by omega))
    exact (roundBits_le_pow h2 (by rw [la]; exact max_le (by omega) (by omega))).trans
      (pow_le_roundBits h1 (by rw [lb]; exact max_le (by omega) (by omega)))

theorem roundBits_mono {a b : ℚ} (h : a ≤ b) : roundBits a ≤ roundBits b := by
  rcases lt_trichotomy a 0 with ha | rfl | ha
  · rcases le_total b 0 with hb | hb
    · rcases eq_or_lt_of_le hb with rfl | hb
      · rw [roundBits_zero]
        have := roundBits_nonneg (q := -a) (by linarith)
        rw [roundBits_neg] at this
        linarith
      · have := roundBits_mono_pos (a := -b) (b := -a) (by linarith) (by linarith)
        rw [roundBits_neg, roundBits_neg] at this
        linarith
    · have h1 := roundBits_nonneg (q := -a) (by linarith)
      have h2 := roundBits_nonneg hb
      rw [roundBits_neg] at h1
      linarith
  · rw [roundBits_zero]; exact roundBits_nonneg h
  · exact roundBits_mono_pos ha h

/-- Rounding in order: infinities are at the ends. -/
theorem round_le_cases {a b : ℚ} (h : a ≤ b) :
    F64.round a = .inf true ∨ F64.round b = .inf false ∨ ∃ x y, F64.round a = .fin x ∧ F64.round b = .fin y ∧ x ≤ y := by
  have hm := roundBits_mono h
  have hneg : ∀ q : ℚ, q < 0 → roundBits q ≤ 0 := fun q hq => by rw [← roundBits_zero]; exact roundBits_mono hq.le
  have hpos : ∀ q : ℚ, ¬ q < 0 → 0 ≤ roundBits q := fun q hq => roundBits_nonneg (not_lt.1 hq)
  unfold F64.round
  generalize (2 : ℚ) ^ 1024 = lim
  by_cases ha : lim ≤ |roundBits a|
  · rw [if_pos ha]
    by_cases ha0 : a < 0
    · left; rw [decide_eq_true ha0]
    · have hb0 : ¬ b < 0 := fun hb => ha0 (h.trans_lt hb)
      have hb : lim ≤ |roundBits b| := by
        rw [abs_of_nonneg (hpos a ha0)] at ha
        rw [abs_of_nonneg (hpos b hb0)]
        exact ha.trans hm
      right; left
      rw [if_pos hb, decide_eq_false hb0]
  · rw [if_neg ha]
    by_cases hb : lim ≤ |roundBits b|
    · rw [if_pos hb]
      by_cases hb0 : b < 0
      · exfalso
        have ha0 := h.trans_lt hb0
        rw [abs_of_nonpos (hneg b hb0)] at hb
        rw [abs_of_nonpos (hneg a ha0)] at ha
        exact ha (hb.trans (by linarith))
      · right; left; rw [decide_eq_false hb0]
    · rw [if_neg hb]
      exact Or.inr (Or.inr ⟨_, _, rfl, rfl, hm⟩)

theorem toIsize_range (v : F64) : -2 ^ 63 ≤ v.toIsize ∧ v.toIsize ≤ 2 ^ 63 - 1 := by
  cases v with
  | nan => exact ⟨by norm_num [F64.toIsize], by norm_num [F64.toIsize]⟩
  | inf s => cases s <;> exact ⟨by norm_num [F64.toIsize], by norm_num [F64.toIsize]⟩
  | fin q => exact ⟨le_max_left _ _, max_le (by norm_num) (min_le_left _ _)⟩

theorem toIsize_round_mono {a b : ℚ} (h : a ≤ b) : (F64.round a).toIsize ≤ (F64.round b).toIsize := by
  rcases round_le_cases h with e | e | ⟨x, y, e1, e2, hxy⟩
  · rw [e]; exact (toIsize_range _).1
  · rw [e]; exact (toIsize_range _).2
  · rw [e1, e2]
    exact max_le_max (le_refl _) (min_le_min (le_refl _) (truncQ_mono hxy))

theorem scaling_mono {a b : ℚ} (h : a ≤ b) (m : ℕ) : scalingMap (F64.round a) m ≤ scalingMap (F64.round b) m := by
  rcases Nat.eq_zero_or_pos m with rfl | hpos
  · rw [scaling_zero, scaling_zero]
  have hinf : ∀ s, (F64.inf s).mulNat m = .inf s := fun s => if_neg (by omega)
  unfold scalingMap
  rcases round_le_cases h with e | e | ⟨x, y, e1, e2, hxy⟩
  · rw [e, hinf]; exact (toIsize_range _).1
  · rw [e, hinf]; exact (toIsize_range _).2
  · rw [e1, e2, mulNat_fin, mulNat_fin]
    exact toIsize_round_mono (by gcongr)

/-- Numbers with few bits are scaled exactly. -/
theorem scaling_exact {k : ℤ} {j m : ℕ} (hk : |k * m| < 2 ^ 53) (hk' : |k| < 2 ^ 53) (hj : j ≤ 1074) :
    scalingMap (F64.round (k / 2 ^ j)) m = truncQ (k / 2 ^ j * m) := by
  have hb : ∀ x : ℤ, |x| < 2 ^ 53 → |(x : ℚ) / 2 ^ j| < 2 ^ 53 := fun x hx => by
    rw [abs_div, abs_of_pos (show (0 : ℚ) < 2 ^ j by positivity), div_lt_iff₀ (by positivity)]
    have h1 : ((|x| : ℤ) : ℚ) < ((2 ^ 53 : ℤ) : ℚ) := Int.cast_lt.2 hx
    rw [Int.cast_abs] at h1
    have h2 : (1 : ℚ) ≤ 2 ^ j := one_le_pow₀ (by norm_num)
    push_cast at h1
    have h3 : (0 : ℚ) < 2 ^ 53 := by norm_num
    nlinarith
  have hlim : (2 : ℚ) ^ 53 ≤ 2 ^ 64 := pow_le_pow_right₀ (by norm_num) (by norm_num)
  have e1 := roundBits_exact hk' hj
  have e2 := roundBits_exact (k := k * m) hk hj
  have e : (k : ℚ) / 2 ^ j * m = ((k * m : ℤ) : ℚ) / 2 ^ j := by push_cast; ring
  unfold scalingMap
  rw [round_fin (by rw [e1]; exact (hb k hk').trans_le hlim), e1, mulNat_fin, e,
    round_fin (by rw [e2]; exact (hb _ hk).trans_le hlim), e2]
  have hs := truncQ_spec (((k * m : ℤ) : ℚ) / 2 ^ j)
  have hl := hb _ hk
  rw [abs_lt] at hl
  unfold F64.toIsize
  simp only
  generalize ((k * m : ℤ) : ℚ) / 2 ^ j = x at *
  generalize truncQ x = n at *
  have hr : -(2 ^ 63 : ℤ) ≤ n ∧ n ≤ 2 ^ 63 - 1 := by
    constructor
    · have : (-(2 ^ 63) : ℚ) ≤ n := by rcases hs with ⟨a1, a2, a3, a4⟩ | ⟨a1, a2, a3, a4⟩ <;> norm_num at * <;> linarith
      exact_mod_cast this
    · have : (n : ℚ) ≤ 2 ^ 63 - 1 := by rcases hs with ⟨a1, a2, a3, a4⟩ | ⟨a1, a2, a3, a4⟩ <;> norm_num at * <;> linarith
      exact_mod_cast this
  rw [min_eq_right hr.2, max_eq_right hr.1]

theorem roundBits_eval {q : ℚ} {e n : ℤ} (h1 : 2 ^ (e + 52) ≤ |q|) (h2 : |q| < 2 ^ (e + 53)) (he : -1074 ≤ e)
    (h3 : 2 * |n - q / 2 ^ e| < 1) : roundBits q = n * 2 ^ e := by
  have hq : 0 < |q| := (two_zpow_pos _).trans_le h1
  have l1 : e + 52 ≤ Int.log 2 |q| := (Int.zpow_le_iff_le_log (by norm_num) hq).1 (by exact_mod_cast h1)
  have l2 : Int.log 2 |q| < e + 53 := (Int.lt_zpow_iff_log_lt (by norm_num) hq).1 (by exact_mod_cast h2)
  have l3 : lastPlace q = e := by unfold lastPlace; omega
  unfold roundBits
  rw [l3]
  have h4 : |(n : ℚ) - q / 2 ^ e| < 1 / 2 := by linarith
  rw [abs_lt] at h4
  have : roundEven (q / 2 ^ e) = n := roundEven_unique (by linarith) (by linarith) (by rintro (h | h) <;> exfalso <;> linarith)
  rw [this]

end Clustering
end RustSat
