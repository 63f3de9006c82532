import Mathlib.Analysis.SpecialFunctions.Trigonometric.Bounds
import Mathlib.Analysis.Complex.Exponential
import Mathlib.Analysis.Real.Pi.Bounds

/-! # Numeric bounds -/

namespace Omega
namespace Numeric

/-- the cosine to eighth order -/
theorem cos_bound8 {x : ℝ} (hx : |x| ≤ 1) :
    |Real.cos x - (1 - x ^ 2 / 2 + x ^ 4 / 24 - x ^ 6 / 720)| ≤ x ^ 8 / 35840 := by
  have h := Complex.exp_bound (x := (x : ℂ) * Complex.I) (by simpa using hx) (n := 8) (by norm_num)
  have h2 := (Complex.abs_re_le_norm _).trans h
  have e : (Complex.exp ((x : ℂ) * Complex.I) -
      ∑ m ∈ Finset.range 8, ((x : ℂ) * Complex.I) ^ m / m.factorial).re =
      Real.cos x - (1 - x ^ 2 / 2 + x ^ 4 / 24 - x ^ 6 / 720) := by
    rw [Complex.sub_re, Complex.exp_ofReal_mul_I_re]
    congr 1
    have i2 : Complex.I ^ 2 = -1 := Complex.I_sq
    have : ∑ m ∈ Finset.range 8, ((x : ℂ) * Complex.I) ^ m / m.factorial =
        ((1 - x ^ 2 / 2 + x ^ 4 / 24 - x ^ 6 / 720 : ℝ) : ℂ) +
        ((x - x ^ 3 / 6 + x ^ 5 / 120 - x ^ 7 / 5040 : ℝ) : ℂ) * Complex.I := by
      simp only [Finset.sum_range_succ, Finset.sum_range_zero, mul_pow,
        show Complex.I ^ 3 = -Complex.I by rw [pow_succ, i2]; ring,
        show Complex.I ^ 4 = 1 by rw [show 4 = 2 * 2 by norm_num, pow_mul, i2]; norm_num,
        show Complex.I ^ 5 = Complex.I by
          rw [pow_succ, show 4 = 2 * 2 by norm_num, pow_mul, i2]; norm_num,
        show Complex.I ^ 6 = -1 by rw [show 6 = 2 * 3 by norm_num, pow_mul, i2]; norm_num,
        show Complex.I ^ 7 = -Complex.I by
          rw [pow_succ, show 6 = 2 * 3 by norm_num, pow_mul, i2]; norm_num, i2]
      norm_num [Nat.factorial]
      ring
    rw [this]
    simp only [Complex.add_re, Complex.ofReal_re, Complex.re_ofReal_mul, Complex.I_re, mul_zero,
      add_zero]
  rw [e] at h2
  refine h2.trans (le_of_eq ?_)
  rw [norm_mul, Complex.norm_I, mul_one, Complex.norm_real, Real.norm_eq_abs]
  rw [show |x| ^ 8 = x ^ 8 by rw [show 8 = 2 * 4 by norm_num, pow_mul, sq_abs, ← pow_mul]]
  norm_num [Nat.factorial]
  ring

/-- the exponential to sixth order -/
theorem exp_bound6 {x : ℝ} (hx : |x| ≤ 1) :
    |Real.exp x - (1 + x + x ^ 2 / 2 + x ^ 3 / 6 + x ^ 4 / 24 + x ^ 5 / 120)| ≤ |x| ^ 6 / 600 := by
  have h := Real.exp_bound hx (n := 6) (by norm_num)
  have e : ∑ m ∈ Finset.range 6, x ^ m / m.factorial =
      1 + x + x ^ 2 / 2 + x ^ 3 / 6 + x ^ 4 / 24 + x ^ 5 / 120 := by
    simp only [Finset.sum_range_succ, Finset.sum_range_zero]
    norm_num [Nat.factorial]
  rw [e] at h
  refine h.trans ?_
  have : (0 : ℝ) ≤ |x| ^ 6 := by positivity
  norm_num [Nat.factorial]
  linarith

/-- powers of numbers in the unit interval -/
theorem abs_pow_sub_pow {x y : ℝ} (hx : |x| ≤ 1) (hy : |y| ≤ 1) (n : ℕ) :
    |x ^ n - y ^ n| ≤ n * |x - y| := by
  induction n with
  | zero => simp
  | succ n ih =>
    have e : x ^ (n + 1) - y ^ (n + 1) = x * (x ^ n - y ^ n) + y ^ n * (x - y) := by ring
    rw [e]
    refine (abs_add_le _ _).trans ?_
    rw [abs_mul, abs_mul, abs_pow]
    have h1 : |x| * |x ^ n - y ^ n| ≤ 1 * (n * |x - y|) :=
      mul_le_mul hx ih (abs_nonneg _) zero_le_one
    have h2 : |y| ^ n * |x - y| ≤ 1 * |x - y| :=
      mul_le_mul_of_nonneg_right (pow_le_one₀ (abs_nonneg _) hy) (abs_nonneg _)
    push_cast
    linarith

/-- `exp y - 1` for small `y` -/
theorem expm1_bounds {y : ℝ} (h0 : 0 ≤ y) (h1 : y ≤ 1 / 10) :
    y + y ^ 2 / 2 ≤ Real.exp y - 1 ∧ Real.exp y - 1 ≤ y * (1 + 13 / 25 * y) := by
  constructor
  · have := Real.quadratic_le_exp_of_nonneg h0; linarith
  · have h := Real.exp_bound (x := y) (by rw [abs_of_nonneg h0]; linarith) (n := 4) (by norm_num)
    have e : ∑ m ∈ Finset.range 4, y ^ m / m.factorial = 1 + y + y ^ 2 / 2 + y ^ 3 / 6 := by
      simp only [Finset.sum_range_succ, Finset.sum_range_zero]
      norm_num [Nat.factorial]
    rw [e, abs_of_nonneg h0] at h
    have h3 := (abs_le.1 h).2
    norm_num [Nat.factorial] at h3
    have : y ^ 3 ≤ y ^ 2 * (1 / 10) := by nlinarith [sq_nonneg y]
    have : y ^ 4 ≤ y ^ 2 * (1 / 100) := by nlinarith [sq_nonneg y]
    nlinarith

/-- `2 cos a + 4 cos (a/2) cos a - 6` -/
theorem lap_bound {a : ℝ} (h0 : 0 ≤ a) (h1 : a ≤ 2 / 5) :
    |2 * Real.cos a + 4 * Real.cos (a / 2) * Real.cos a - 6 -
      (-(7 / 2) * a ^ 2 + 49 / 96 * a ^ 4 - 397 / 11520 * a ^ 6)| ≤ 3 / 2000 * a ^ 8 := by
  have e : 4 * Real.cos (a / 2) * Real.cos a = 2 * Real.cos (3 * a / 2) + 2 * Real.cos (a / 2) := by
    rw [show 3 * a / 2 = a + a / 2 by ring]
    have : Real.cos (a / 2) = Real.cos (a - a / 2) := by congr 1; ring
    have h2 : 2 * Real.cos (a + a / 2) + 2 * Real.cos (a - a / 2) =
        4 * Real.cos a * Real.cos (a / 2) := by
      rw [Real.cos_add, Real.cos_sub]; ring
    rw [← this] at h2
    linarith
  have b1 := cos_bound8 (x := a) (by rw [abs_of_nonneg h0]; linarith)
  have b2 := cos_bound8 (x := 3 * a / 2) (by rw [abs_of_nonneg (by linarith)]; linarith)
  have b3 := cos_bound8 (x := a / 2) (by rw [abs_of_nonneg (by linarith)]; linarith)
  have p8 : 0 ≤ a ^ 8 := by positivity
  rw [abs_le] at b1 b2 b3 ⊢
  rw [show (3 * a / 2) ^ 2 = 9 / 4 * a ^ 2 by ring, show (3 * a / 2) ^ 4 = 81 / 16 * a ^ 4 by ring,
    show (3 * a / 2) ^ 6 = 729 / 64 * a ^ 6 by ring,
    show (3 * a / 2) ^ 8 = 6561 / 256 * a ^ 8 by ring] at b2
  rw [show (a / 2) ^ 2 = 1 / 4 * a ^ 2 by ring, show (a / 2) ^ 4 = 1 / 16 * a ^ 4 by ring,
    show (a / 2) ^ 6 = 1 / 64 * a ^ 6 by ring, show (a / 2) ^ 8 = 1 / 256 * a ^ 8 by ring] at b3
  rw [e]
  constructor <;> linarith [b1.1, b1.2, b2.1, b2.2, b3.1, b3.2]

end Numeric
end Omega
