import Mathlib.Analysis.SpecialFunctions.Trigonometric.Bounds
import Mathlib.Analysis.SpecialFunctions.Trigonometric.Deriv
import Mathlib.Analysis.Calculus.Deriv.MeanValue
import Mathlib.Analysis.SpecialFunctions.Log.Base

/-! # Bounds on the sine and cosine, rates of convergence -/

namespace Omega
namespace Numeric

theorem cos_le_quartic {x : ℝ} (hx : 0 ≤ x) : Real.cos x ≤ 1 - x ^ 2 / 2 + x ^ 4 / 24 := by
  have d : ∀ y : ℝ, HasDerivAt (fun y : ℝ => 1 - y ^ 2 / 2 + y ^ 4 / 24 - Real.cos y)
      (-y + y ^ 3 / 6 + Real.sin y) y := by
    intro y
    have h := ((((hasDerivAt_pow 2 y).div_const 2).const_sub 1).add
      ((hasDerivAt_pow 4 y).div_const 24)).sub (Real.hasDerivAt_cos y)
    refine h.congr_deriv ?_
    norm_num; ring
  have h := monotoneOn_of_deriv_nonneg (convex_Ici (0 : ℝ))
    (f := fun y : ℝ => 1 - y ^ 2 / 2 + y ^ 4 / 24 - Real.cos y) (by fun_prop)
    (fun y _ => (d y).differentiableAt.differentiableWithinAt) (fun y hy => by
      rw [interior_Ici] at hy
      rw [(d y).deriv]
      have := Real.sin_ge_sub_cube (x := y) (le_of_lt hy)
      linarith)
  have := h (Set.mem_Ici.2 le_rfl) (Set.mem_Ici.2 hx) hx
  norm_num at this
  linarith

theorem sin_le_quintic {x : ℝ} (hx : 0 ≤ x) : Real.sin x ≤ x - x ^ 3 / 6 + x ^ 5 / 120 := by
  have d : ∀ y : ℝ, HasDerivAt (fun y : ℝ => y - y ^ 3 / 6 + y ^ 5 / 120 - Real.sin y)
      (1 - y ^ 2 / 2 + y ^ 4 / 24 - Real.cos y) y := by
    intro y
    have h := (((hasDerivAt_id y).sub ((hasDerivAt_pow 3 y).div_const 6)).add
      ((hasDerivAt_pow 5 y).div_const 120)).sub (Real.hasDerivAt_sin y)
    refine h.congr_deriv ?_
    norm_num; ring
  have h := monotoneOn_of_deriv_nonneg (convex_Ici (0 : ℝ))
    (f := fun y : ℝ => y - y ^ 3 / 6 + y ^ 5 / 120 - Real.sin y) (by fun_prop)
    (fun y _ => (d y).differentiableAt.differentiableWithinAt) (fun y hy => by
      rw [interior_Ici] at hy
      rw [(d y).deriv]
      have := cos_le_quartic (x := y) (le_of_lt hy)
      linarith)
  have := h (Set.mem_Ici.2 le_rfl) (Set.mem_Ici.2 hx) hx
  norm_num at this
  linarith

/-- `x - sin x` -/
theorem sub_sin_bounds {x : ℝ} (hx : 0 ≤ x) :
    x ^ 3 / 6 - x ^ 5 / 120 ≤ x - Real.sin x ∧ x - Real.sin x ≤ x ^ 3 / 6 := by
  have h1 := sin_le_quintic hx
  have h2 := Real.sin_ge_sub_cube hx
  constructor <;> linarith

/-- `1 - cos x` -/
theorem sub_cos_bounds {x : ℝ} (hx : 0 ≤ x) :
    x ^ 2 / 2 - x ^ 4 / 24 ≤ 1 - Real.cos x ∧ 1 - Real.cos x ≤ x ^ 2 / 2 := by
  have h1 := cos_le_quartic hx
  have h2 := Real.one_sub_sq_div_two_le_cos (x := x)
  constructor <;> linarith

/-- Two errors in brackets proportional to `h ^ k` and `(h / 2) ^ k` show the rate `k`. -/
theorem rate_bracket {E E' K h : ℝ} {k : ℕ} (hK : 0 < K) (hh : 0 < h)
    (lo : 31 / 32 * (K * h ^ k) ≤ E) (hi : E ≤ K * h ^ k)
    (lo' : 31 / 32 * (K * (h / 2) ^ k) ≤ E') (hi' : E' ≤ K * (h / 2) ^ k) :
    |Real.logb 2 (E / E') - k| < 1 / 20 := by
  have p : 0 < K * h ^ k := by positivity
  have p' : 0 < K * (h / 2) ^ k := by positivity
  have pE : 0 < E := by linarith
  have pE' : 0 < E' := by linarith
  have e : K * h ^ k = 2 ^ k * (K * (h / 2) ^ k) := by
    rw [div_pow]; field_simp
  have r1 : E / E' ≤ 2 ^ k * (32 / 31) := by
    rw [div_le_iff₀ pE']
    have : (0 : ℝ) < 2 ^ k := by positivity
    nlinarith
  have r2 : 2 ^ k * (31 / 32) ≤ E / E' := by
    rw [le_div_iff₀ pE']
    have : (0 : ℝ) < 2 ^ k := by positivity
    nlinarith
  have small : Real.logb 2 (32 / 31) < 1 / 20 := by
    have : (20 : ℝ) * Real.logb 2 (32 / 31) < 1 := by
      have h20 : (20 : ℝ) * Real.logb 2 (32 / 31) = Real.logb 2 ((32 / 31) ^ (20 : ℕ)) := by
        rw [Real.logb_pow]; norm_num
      rw [h20, Real.logb_lt_iff_lt_rpow (by norm_num) (by norm_num)]
      norm_num
    linarith
  have l1 : Real.logb 2 (2 ^ k * (32 / 31)) = k + Real.logb 2 (32 / 31) := by
    rw [Real.logb_mul (by positivity) (by norm_num), Real.logb_pow, Real.logb_self_eq_one (by norm_num)]
    ring
  have l2 : Real.logb 2 (2 ^ k * (31 / 32)) = k - Real.logb 2 (32 / 31) := by
    rw [Real.logb_mul (by positivity) (by norm_num), Real.logb_pow, Real.logb_self_eq_one (by norm_num),
      show (31 / 32 : ℝ) = (32 / 31)⁻¹ by norm_num, Real.logb_inv]
    ring
  have u := Real.logb_le_logb_of_le (b := 2) (by norm_num) (by positivity) r1
  have l := Real.logb_le_logb_of_le (b := 2) (by norm_num) (by positivity) r2
  rw [l1] at u
  rw [l2] at l
  rw [abs_lt]
  constructor <;> linarith

end Numeric
end Omega
