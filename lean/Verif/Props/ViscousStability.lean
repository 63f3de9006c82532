import Verif.Props.Dispersion

/-!
# C106: small disturbances of rest with viscosity

A dissipative operator `z` with `‖z‖ ≤ 3/10`: two steps of the classical stepper do not increase the norm, one
step does by a factor of at most `1 + 10⁻⁴` in the square.  The proof writes the square of the norm after the steps
as the square before them, terms `‖zⁱ x‖²`, and multiples of `⟪z y, y⟫` with polynomials `y` in `z`
applied to `x` (a Cholesky decomposition); all multiples but two have the right sign.
-/

set_option linter.unusedVariables false
set_option linter.unusedSectionVars false

namespace Omega
noncomputable section

namespace Lax

open Polynomial
open scoped RealInnerProductSpace

variable {V E : Type*} [AddCommGroup V] [Module ℝ V] [NormedAddCommGroup E] [InnerProductSpace ℝ E]

/-- square of the norm after one step, `w i` being `T (zⁱ x)` -/
theorem rk4_once (w : ℕ → E) :
    ‖(1 : ℝ) • w 0 + (1 : ℝ) • w 1 + (1 / 2 : ℝ) • w 2 + (1 / 6 : ℝ) • w 3 + (1 / 24 : ℝ) • w 4‖ ^ 2 =
      ‖w 0‖ ^ 2 + (-1 / 72 : ℝ) * ‖w 3‖ ^ 2 + (1 / 576 : ℝ) * ‖w 4‖ ^ 2 +
      (2 : ℝ) * ⟪(1 : ℝ) • w 1 + (1 / 2 : ℝ) • w 2 + (1 / 6 : ℝ) • w 3 + (1 / 24 : ℝ) • w 4,
        (1 : ℝ) • w 0 + (1 / 2 : ℝ) • w 1 + (1 / 6 : ℝ) • w 2 + (1 / 24 : ℝ) • w 3⟫ +
      (1 / 6 : ℝ) * ⟪(1 : ℝ) • w 2 + (1 / 2 : ℝ) • w 3 + (1 / 4 : ℝ) • w 4,
        (1 : ℝ) • w 1 + (1 / 2 : ℝ) • w 2 + (1 / 4 : ℝ) • w 3⟫ +
      (-1 / 72 : ℝ) * ⟪(1 : ℝ) • w 3 + (-1 / 2 : ℝ) • w 4,
        (1 : ℝ) • w 2 + (-1 / 2 : ℝ) • w 3⟫ +
      (1 / 288 : ℝ) * ⟪(1 : ℝ) • w 4,
        (1 : ℝ) • w 3⟫ := by
  have s : ∀ i j, ⟪w j, w i⟫ = ⟪w i, w j⟫ := fun i j => real_inner_comm _ _
  simp only [← real_inner_self_eq_norm_sq, inner_add_left, inner_add_right, real_inner_smul_left, real_inner_smul_right]
  simp only [s 0 1, s 0 2, s 0 3, s 0 4, s 1 2, s 1 3, s 1 4, s 2 3, s 2 4, s 3 4]
  ring

/-- square of the norm after two steps -/
theorem rk4_twice (w : ℕ → E) :
    ‖(1 : ℝ) • w 0 + (2 : ℝ) • w 1 + (2 : ℝ) • w 2 + (4 / 3 : ℝ) • w 3 + (2 / 3 : ℝ) • w 4 + (1 / 4 : ℝ) • w 5 + (5 / 72 : ℝ) • w 6 + (1 / 72 : ℝ) • w 7 + (1 / 576 : ℝ) • w 8‖ ^ 2 =
      ‖w 0‖ ^ 2 + (-1 / 36 : ℝ) * ‖w 3‖ ^ 2 + (1 / 288 : ℝ) * ‖w 4‖ ^ 2 + (1 / 5184 : ℝ) * ‖w 6‖ ^ 2 + (-1 / 20736 : ℝ) * ‖w 7‖ ^ 2 + (1 / 331776 : ℝ) * ‖w 8‖ ^ 2 +
      (4 : ℝ) * ⟪(1 : ℝ) • w 1 + (1 : ℝ) • w 2 + (2 / 3 : ℝ) • w 3 + (1 / 3 : ℝ) • w 4 + (1 / 8 : ℝ) • w 5 + (5 / 144 : ℝ) • w 6 + (1 / 144 : ℝ) • w 7 + (1 / 1152 : ℝ) • w 8,
        (1 : ℝ) • w 0 + (1 : ℝ) • w 1 + (2 / 3 : ℝ) • w 2 + (1 / 3 : ℝ) • w 3 + (1 / 8 : ℝ) • w 4 + (5 / 144 : ℝ) • w 5 + (1 / 144 : ℝ) • w 6 + (1 / 1152 : ℝ) • w 7⟫ +
      (4 / 3 : ℝ) * ⟪(1 : ℝ) • w 2 + (1 : ℝ) • w 3 + (5 / 8 : ℝ) • w 4 + (13 / 48 : ℝ) • w 5 + (1 / 12 : ℝ) • w 6 + (7 / 384 : ℝ) • w 7 + (1 / 384 : ℝ) • w 8,
        (1 : ℝ) • w 1 + (1 : ℝ) • w 2 + (5 / 8 : ℝ) • w 3 + (13 / 48 : ℝ) • w 4 + (1 / 12 : ℝ) • w 5 + (7 / 384 : ℝ) • w 6 + (1 / 384 : ℝ) • w 7⟫ +
      (1 / 18 : ℝ) * ⟪(1 : ℝ) • w 3 + (3 / 2 : ℝ) • w 4 + (1 : ℝ) • w 5 + (19 / 48 : ℝ) • w 6 + (5 / 48 : ℝ) • w 7 + (1 / 48 : ℝ) • w 8,
        (1 : ℝ) • w 2 + (3 / 2 : ℝ) • w 3 + (1 : ℝ) • w 4 + (19 / 48 : ℝ) • w 5 + (5 / 48 : ℝ) • w 6 + (1 / 48 : ℝ) • w 7⟫ +
      (-1 / 16 : ℝ) * ⟪(1 : ℝ) • w 4 + (5 / 9 : ℝ) • w 5 + (7 / 36 : ℝ) • w 6 + (7 / 144 : ℝ) • w 7 + (1 / 144 : ℝ) • w 8,
        (1 : ℝ) • w 3 + (5 / 9 : ℝ) • w 4 + (7 / 36 : ℝ) • w 5 + (7 / 144 : ℝ) • w 6 + (1 / 144 : ℝ) • w 7⟫ +
      (1 / 5184 : ℝ) * ⟪(1 : ℝ) • w 5 + (-1 : ℝ) • w 6 + (-11 / 8 : ℝ) • w 7 + (1 / 8 : ℝ) • w 8,
        (1 : ℝ) • w 4 + (-1 : ℝ) • w 5 + (-11 / 8 : ℝ) • w 6 + (1 / 8 : ℝ) • w 7⟫ +
      (1 / 4608 : ℝ) * ⟪(1 : ℝ) • w 6 + (-3 / 2 : ℝ) • w 7 + (1 / 2 : ℝ) • w 8,
        (1 : ℝ) • w 5 + (-3 / 2 : ℝ) • w 6 + (1 / 2 : ℝ) • w 7⟫ +
      (-293 / 331776 : ℝ) * ⟪(1 : ℝ) • w 7 + (-83 / 293 : ℝ) • w 8,
        (1 : ℝ) • w 6 + (-83 / 293 : ℝ) • w 7⟫ +
      (929 / 32403456 : ℝ) * ⟪(1 : ℝ) • w 8,
        (1 : ℝ) • w 7⟫ := by
  have s : ∀ i j, ⟪w j, w i⟫ = ⟪w i, w j⟫ := fun i j => real_inner_comm _ _
  simp only [← real_inner_self_eq_norm_sq, inner_add_left, inner_add_right, real_inner_smul_left, real_inner_smul_right]
  simp only [s 0 1, s 0 2, s 0 3, s 0 4, s 0 5, s 0 6, s 0 7, s 0 8, s 1 2, s 1 3, s 1 4, s 1 5, s 1 6, s 1 7, s 1 8, s 2 3, s 2 4, s 2 5, s 2 6, s 2 7, s 2 8, s 3 4, s 3 5, s 3 6, s 3 7, s 3 8, s 4 5, s 4 6, s 4 7, s 4 8, s 5 6, s 5 7, s 5 8, s 6 7, s 6 8, s 7 8]
  ring

/-- `z` does not increase the norm of `E` pulled back by `T` to first order, and is bounded by `c` -/
structure Dissipative (T : V →ₗ[ℝ] E) (z : Module.End ℝ V) (c : ℝ) : Prop where
  bound : ∀ x, ‖T (z x)‖ ≤ c * ‖T x‖
  neg : ∀ x, ⟪T (z x), T x⟫ ≤ 0

variable {T : V →ₗ[ℝ] E} {z : Module.End ℝ V} {c : ℝ}

theorem rk4_apply (T : V →ₗ[ℝ] E) (z : Module.End ℝ V) (x : V) :
    T (aeval z (Props.stabPoly .rk4) x) = (1 : ℝ) • T ((z ^ 0) x) + (1 : ℝ) • T ((z ^ 1) x) + (1 / 2 : ℝ) • T ((z ^ 2) x) + (1 / 6 : ℝ) • T ((z ^ 3) x) + (1 / 24 : ℝ) • T ((z ^ 4) x) := by
  have e : Props.stabPoly .rk4 = C (1 : ℝ) * X ^ 0 + C (1 : ℝ) * X ^ 1 + C (1 / 2 : ℝ) * X ^ 2 + C (1 / 6 : ℝ) * X ^ 3 + C (1 / 24 : ℝ) * X ^ 4 := by
    refine Polynomial.funext fun y => ?_
    simp only [eval_mul, Props.rk4_eval, eval_add, eval_C, eval_pow, eval_X]
    ring
  rw [e]
  simp only [map_add, map_mul, aeval_C, map_pow, aeval_X, LinearMap.add_apply, Module.End.mul_apply,
    Module.algebraMap_end_apply, map_smul]

theorem rk4_apply2 (T : V →ₗ[ℝ] E) (z : Module.End ℝ V) (x : V) :
    T (aeval z (Props.stabPoly .rk4) (aeval z (Props.stabPoly .rk4) x)) = (1 : ℝ) • T ((z ^ 0) x) + (2 : ℝ) • T ((z ^ 1) x) + (2 : ℝ) • T ((z ^ 2) x) + (4 / 3 : ℝ) • T ((z ^ 3) x) + (2 / 3 : ℝ) • T ((z ^ 4) x) + (1 / 4 : ℝ) • T ((z ^ 5) x) + (5 / 72 : ℝ) • T ((z ^ 6) x) + (1 / 72 : ℝ) • T ((z ^ 7) x) + (1 / 576 : ℝ) • T ((z ^ 8) x) := by
  have e : Props.stabPoly .rk4 * Props.stabPoly .rk4 = C (1 : ℝ) * X ^ 0 + C (2 : ℝ) * X ^ 1 + C (2 : ℝ) * X ^ 2 + C (4 / 3 : ℝ) * X ^ 3 + C (2 / 3 : ℝ) * X ^ 4 + C (1 / 4 : ℝ) * X ^ 5 + C (5 / 72 : ℝ) * X ^ 6 + C (1 / 72 : ℝ) * X ^ 7 + C (1 / 576 : ℝ) * X ^ 8 := by
    refine Polynomial.funext fun y => ?_
    simp only [eval_mul, Props.rk4_eval, eval_add, eval_C, eval_pow, eval_X]
    ring
  rw [← Module.End.mul_apply, ← map_mul, e]
  simp only [map_add, map_mul, aeval_C, map_pow, aeval_X, LinearMap.add_apply, Module.End.mul_apply,
    Module.algebraMap_end_apply, map_smul]

theorem Dissipative.pow (h : Dissipative T z c) (c0 : 0 ≤ c) (x : V) (i j : ℕ) :
    ‖T ((z ^ (i + j)) x)‖ ≤ c ^ j * ‖T ((z ^ i) x)‖ := by
  induction j with
  | zero => simp
  | succ j ih =>
    rw [← add_assoc, pow_succ' z, Module.End.mul_apply, pow_succ' c, mul_assoc]
    exact (h.bound _).trans (mul_le_mul_of_nonneg_left ih c0)

/-- lower bound of the rate of change -/
theorem Dissipative.low (h : Dissipative T z c) (c0 : 0 ≤ c) (y : V) : -(c * ‖T y‖ ^ 2) ≤ ⟪T (z y), T y⟫ := by
  have := (abs_le.mp (abs_real_inner_le_norm (T (z y)) (T y))).1
  have := mul_le_mul_of_nonneg_right (h.bound y) (norm_nonneg (T y))
  nlinarith

/-- One step adds at most a ten-thousandth of the square of the norm. -/
theorem Dissipative.once (h : Dissipative T z (3 / 10)) (x : V) :
    ‖T (aeval z (Props.stabPoly .rk4) x)‖ ^ 2 ≤ (1 + 1 / 10 ^ 4) * ‖T x‖ ^ 2 := by
  have q0 := h.neg ((1 : ℝ) • (z ^ 0) x + (1 / 2 : ℝ) • (z ^ 1) x + (1 / 6 : ℝ) • (z ^ 2) x + (1 / 24 : ℝ) • (z ^ 3) x)
  have q1 := h.neg ((1 : ℝ) • (z ^ 1) x + (1 / 2 : ℝ) • (z ^ 2) x + (1 / 4 : ℝ) • (z ^ 3) x)
  have q2 := h.low (by norm_num) ((1 : ℝ) • (z ^ 2) x + (-1 / 2 : ℝ) • (z ^ 3) x)
  have q3 := h.neg ((1 : ℝ) • (z ^ 3) x)
  simp only [map_add, map_smul, ← Module.End.mul_apply, ← pow_succ'] at q0 q1 q2 q3
  have key := rk4_once fun i => T ((z ^ i) x)
  rw [rk4_apply, key]
  have b := h.pow (by norm_num) x 0
  simp only [zero_add, pow_zero, Module.End.one_apply] at b ⊢
  have b2 := b 2
  have b3 := b 3
  have b4 := h.pow (by norm_num) x 3 1
  have t3 := norm_nonneg (T ((z ^ 3) x))
  have t4 := norm_nonneg (T ((z ^ 4) x))
  set r := ‖T x‖ with hr
  have t0 : 0 ≤ r := norm_nonneg _
  have n2 : ‖(1 : ℝ) • T ((z ^ 2) x) + (-1 / 2 : ℝ) • T ((z ^ 3) x)‖ ≤ (207 / 2000 : ℝ) * r := by
    refine (norm_add_le _ _).trans ?_
    simp only [norm_smul, Real.norm_eq_abs]
    norm_num [abs_of_pos, abs_of_neg]
    linarith
  have s2 := pow_le_pow_left₀ (norm_nonneg _) n2 2
  have s4 := pow_le_pow_left₀ t4 b4 2
  simp only [Nat.reduceAdd, pow_zero, Module.End.one_apply] at q0 q1 q2 q3 b4 s4
  rw [mul_pow] at s2 s4
  nlinarith [sq_nonneg ‖T ((z ^ 3) x)‖, sq_nonneg r]

/-- Two steps do not increase the norm. -/
theorem Dissipative.twice (h : Dissipative T z (3 / 10)) (x : V) :
    ‖T (aeval z (Props.stabPoly .rk4) (aeval z (Props.stabPoly .rk4) x))‖ ≤ ‖T x‖ := by
  refine le_of_sq_le_sq ?_ (norm_nonneg _)
  have q0 := h.neg ((1 : ℝ) • (z ^ 0) x + (1 : ℝ) • (z ^ 1) x + (2 / 3 : ℝ) • (z ^ 2) x + (1 / 3 : ℝ) • (z ^ 3) x + (1 / 8 : ℝ) • (z ^ 4) x + (5 / 144 : ℝ) • (z ^ 5) x + (1 / 144 : ℝ) • (z ^ 6) x + (1 / 1152 : ℝ) • (z ^ 7) x)
  have q1 := h.neg ((1 : ℝ) • (z ^ 1) x + (1 : ℝ) • (z ^ 2) x + (5 / 8 : ℝ) • (z ^ 3) x + (13 / 48 : ℝ) • (z ^ 4) x + (1 / 12 : ℝ) • (z ^ 5) x + (7 / 384 : ℝ) • (z ^ 6) x + (1 / 384 : ℝ) • (z ^ 7) x)
  have q2 := h.neg ((1 : ℝ) • (z ^ 2) x + (3 / 2 : ℝ) • (z ^ 3) x + (1 : ℝ) • (z ^ 4) x + (19 / 48 : ℝ) • (z ^ 5) x + (5 / 48 : ℝ) • (z ^ 6) x + (1 / 48 : ℝ) • (z ^ 7) x)
  have q3 := h.low (by norm_num) ((1 : ℝ) • (z ^ 3) x + (5 / 9 : ℝ) • (z ^ 4) x + (7 / 36 : ℝ) • (z ^ 5) x + (7 / 144 : ℝ) • (z ^ 6) x + (1 / 144 : ℝ) • (z ^ 7) x)
  have q4 := h.neg ((1 : ℝ) • (z ^ 4) x + (-1 : ℝ) • (z ^ 5) x + (-11 / 8 : ℝ) • (z ^ 6) x + (1 / 8 : ℝ) • (z ^ 7) x)
  have q5 := h.neg ((1 : ℝ) • (z ^ 5) x + (-3 / 2 : ℝ) • (z ^ 6) x + (1 / 2 : ℝ) • (z ^ 7) x)
  have q6 := h.low (by norm_num) ((1 : ℝ) • (z ^ 6) x + (-83 / 293 : ℝ) • (z ^ 7) x)
  have q7 := h.neg ((1 : ℝ) • (z ^ 7) x)
  simp only [map_add, map_smul, ← Module.End.mul_apply, ← pow_succ'] at q0 q1 q2 q3 q4 q5 q6 q7
  have key := rk4_twice fun i => T ((z ^ i) x)
  rw [rk4_apply2, key]
  have b := h.pow (by norm_num) x 3
  have b4 := b 1
  have b5 := b 2
  have b6 := b 3
  have b7 := b 4
  have b8 := b 5
  set r := ‖T ((z ^ 3) x)‖ with hr
  have t0 : 0 ≤ r := norm_nonneg _
  have n3 : ‖(1 : ℝ) • T ((z ^ 3) x) + (5 / 9 : ℝ) • T ((z ^ 4) x) + (7 / 36 : ℝ) • T ((z ^ 5) x) + (7 / 144 : ℝ) • T ((z ^ 6) x) + (1 / 144 : ℝ) • T ((z ^ 7) x)‖ ≤ (569057 / 480000 : ℝ) * r := by
    refine ((norm_add_le _ _).trans (add_le_add_left ((norm_add_le _ _).trans (add_le_add_left ((norm_add_le _ _).trans (add_le_add_left (norm_add_le _ _) _)) _)) _)).trans ?_
    simp only [norm_smul, Real.norm_eq_abs]
    norm_num [abs_of_pos, abs_of_neg]
    linarith
  have n6 : ‖(1 : ℝ) • T ((z ^ 6) x) + (-83 / 293 : ℝ) • T ((z ^ 7) x)‖ ≤ (85833 / 2930000 : ℝ) * r := by
    refine (norm_add_le _ _).trans ?_
    simp only [norm_smul, Real.norm_eq_abs]
    norm_num [abs_of_pos, abs_of_neg]
    linarith
  have s3 := pow_le_pow_left₀ (norm_nonneg _) n3 2
  have s6 := pow_le_pow_left₀ (norm_nonneg _) n6 2
  have s4 := pow_le_pow_left₀ (norm_nonneg _) b4 2
  have s6' := pow_le_pow_left₀ (norm_nonneg _) b6 2
  have s8 := pow_le_pow_left₀ (norm_nonneg _) b8 2
  have s7 := sq_nonneg ‖T ((z ^ 7) x)‖
  simp only [Nat.reduceAdd, pow_zero, Module.End.one_apply] at q0 q1 q2 q3 q4 q5 q6 q7 s4 s6' s8 ⊢
  rw [mul_pow] at s3 s4 s6 s6' s8
  have r2 := sq_nonneg r
  linarith

/-- Steps with a dissipative operator: the norm is not larger than at the start after an even number of steps,
and larger by at most a ten-thousandth (in the square) after an odd number. -/
theorem Dissipative.steps (h : Dissipative T z (3 / 10)) (n : ℕ) (x : V) :
    ‖T (aeval z (Props.stabPoly .rk4 ^ n) x)‖ ^ 2 ≤ (if n % 2 = 0 then 1 else 1 + 1 / 10 ^ 4) * ‖T x‖ ^ 2 := by
  have ev : ∀ (n : ℕ) (x : V), ‖T (aeval z (Props.stabPoly .rk4 ^ (2 * n)) x)‖ ≤ ‖T x‖ := fun n => by
    induction n with
    | zero => simp
    | succ n ih =>
      intro x
      rw [mul_add, pow_add, map_mul, Module.End.mul_apply]
      refine (ih _).trans ?_
      rw [mul_one, pow_two, map_mul, Module.End.mul_apply]
      exact h.twice x
  rcases Nat.even_or_odd' n with ⟨j, rfl | rfl⟩
  · rw [if_pos (by omega), one_mul]
    exact pow_le_pow_left₀ (norm_nonneg _) (ev j x) 2
  · rw [if_neg (by omega), pow_add, map_mul, Module.End.mul_apply, pow_one]
    exact (pow_le_pow_left₀ (norm_nonneg _) (ev j _) 2).trans (h.once x)

end Lax

namespace Hex

variable {nx ny : Int}

/-- differences along the edges -/
theorem sum_Gv_sq (hnx : 1 ≤ nx) (ψ : Int → ℝ) :
    ∑ e ∈ upto (3 * (nx * ny)), Gv nx ny ψ e ^ 2 ≤ 6 * ∑ v ∈ upto (2 * (nx * ny)), ψ v ^ 2 := by
  have l : ∑ e ∈ upto (3 * (nx * ny)), Gv nx ny ψ e ^ 2 ≤
      ∑ e ∈ upto (3 * (nx * ny)), (2 * ψ (voe nx ny e 1) ^ 2 + 2 * ψ (voe nx ny e 0) ^ 2) :=
    Finset.sum_le_sum fun e _ => by
      unfold Gv
      nlinarith [sq_nonneg (ψ (voe nx ny e 1) + ψ (voe nx ny e 0))]
  refine l.trans (le_of_eq ?_)
  rw [sum_three, sum_two]
  have c : ∀ c : Int, (2 * ψ (voe nx ny (3 * c) 1) ^ 2 + 2 * ψ (voe nx ny (3 * c) 0) ^ 2 +
      (2 * ψ (voe nx ny (3 * c + 1) 1) ^ 2 + 2 * ψ (voe nx ny (3 * c + 1) 0) ^ 2) +
      (2 * ψ (voe nx ny (3 * c + 2) 1) ^ 2 + 2 * ψ (voe nx ny (3 * c + 2) 0) ^ 2)) =
      2 * ψ (2 * c) ^ 2 + 4 * ψ (2 * c + 1) ^ 2 + 4 * ψ (2 * nb nx ny 2 c) ^ 2 + 2 * ψ (2 * nb nx ny 3 c + 1) ^ 2 :=
    fun c => by
      unfold voe
      have a0 : 3 * c / 3 = c := by omega
      have a1 : (3 * c + 1) / 3 = c := by omega
      have a2 : (3 * c + 2) / 3 = c := by omega
      have b0 : 3 * c % 3 = 0 := by omega
      have b1 : (3 * c + 1) % 3 = 1 := by omega
      have b2 : (3 * c + 2) % 3 = 2 := by omega
      rw [a0, a1, a2, b0, b1, b2]
      norm_num
      ring
  rw [Finset.sum_congr rfl fun x _ => c x]
  have s2 := sum_nb hnx 2 (ny := ny) fun c => 4 * ψ (2 * c) ^ 2
  have s3 := sum_nb hnx 3 (ny := ny) fun c => 2 * ψ (2 * c + 1) ^ 2
  rw [Finset.sum_add_distrib, Finset.sum_add_distrib, s2, s3, ← Finset.sum_add_distrib, ← Finset.sum_add_distrib,
    Finset.mul_sum]
  exact Finset.sum_congr rfl fun _ _ => by ring

/-- the circulation, by duality -/
theorem sum_Cu_sq (hnx : 1 ≤ nx) (u : Int → ℝ) :
    ∑ v ∈ upto (2 * (nx * ny)), Cu nx ny u v ^ 2 ≤ 6 * ∑ e ∈ upto (3 * (nx * ny)), u e ^ 2 := by
  set X := ∑ v ∈ upto (2 * (nx * ny)), Cu nx ny u v ^ 2 with hX
  set Y := ∑ e ∈ upto (3 * (nx * ny)), u e ^ 2 with hY
  have X0 : 0 ≤ X := Finset.sum_nonneg fun _ _ => sq_nonneg _
  have Y0 : 0 ≤ Y := Finset.sum_nonneg fun _ _ => sq_nonneg _
  have h : X ^ 2 ≤ Y * (6 * X) := by
    have e : X = ∑ e ∈ upto (3 * (nx * ny)), u e * Gv nx ny (Cu nx ny u) e := by
      rw [← adjoint_vertex hnx]
      exact Finset.sum_congr rfl fun c _ => by ring
    rw [show X ^ 2 = (∑ e ∈ upto (3 * (nx * ny)), u e * Gv nx ny (Cu nx ny u) e) ^ 2 by rw [← e]]
    refine (Finset.sum_mul_sq_le_sq_mul_sq _ _ _).trans ?_
    exact mul_le_mul_of_nonneg_left (sum_Gv_sq hnx _) Y0
  rcases X0.eq_or_lt with h0 | h0
  · rw [← h0]; positivity
  · nlinarith

end Hex

namespace Props

open Prog Model Refine Hex Polynomial
open scoped RealInnerProductSpace

variable {p : MeshParams} {dc : ℝ} {m : Mem ℝ}

/-- the viscous operator of the documentation: gradient of the divergence minus the gradient along the edges
of the vorticity -/
def lapU (m : Mem ℝ) (u : Int → ℝ) (e : Int) : ℝ :=
  Spec.grad m (Spec.div m u) e - Spec.gradT m (Spec.curl m u) e

theorem gradT_add' (m : Mem ℝ) (x y : Int → ℝ) (e : Int) :
    Spec.gradT m (fun i => x i + y i) e = Spec.gradT m x e + Spec.gradT m y e := by
  unfold Spec.gradT; ring
theorem gradT_mul' (m : Mem ℝ) (a : ℝ) (x : Int → ℝ) (e : Int) :
    Spec.gradT m (fun i => a * x i) e = a * Spec.gradT m x e := by
  unfold Spec.gradT; ring

theorem curl_add'' (m : Mem ℝ) (x y : Int → ℝ) :
    Spec.curl m (fun i => x i + y i) = fun v => Spec.curl m x v + Spec.curl m y v := by
  funext v
  have := curl_lin (m := m) x y 1 1 v
  simpa using this
theorem curl_mul'' (m : Mem ℝ) (a : ℝ) (x : Int → ℝ) :
    Spec.curl m (fun i => a * x i) = fun v => a * Spec.curl m x v := by
  funext v
  have := curl_lin (m := m) x x a 0 v
  simpa using this
theorem div_add'' (m : Mem ℝ) (x y : Int → ℝ) :
    Spec.div m (fun i => x i + y i) = fun v => Spec.div m x v + Spec.div m y v := funext fun v => div_add' m x y v
theorem div_mul'' (m : Mem ℝ) (a : ℝ) (x : Int → ℝ) :
    Spec.div m (fun i => a * x i) = fun v => a * Spec.div m x v := funext fun v => div_mul' m a x v

theorem lapU_add (m : Mem ℝ) (x y : Int → ℝ) (e : Int) :
    lapU m (fun i => x i + y i) e = lapU m x e + lapU m y e := by
  unfold lapU; rw [div_add'', curl_add'', grad_add', gradT_add']; ring
theorem lapU_mul (m : Mem ℝ) (a : ℝ) (x : Int → ℝ) (e : Int) :
    lapU m (fun i => a * x i) e = a * lapU m x e := by
  unfold lapU; rw [div_mul'', curl_mul'', grad_mul', gradT_mul']; ring

/-- viscosity `ν` and hyperviscosity `κ` as an operator on disturbances of rest -/
def viscOp (m : Mem ℝ) (ν κ : ℝ) : Module.End ℝ ((Int → ℝ) × (Int → ℝ)) where
  toFun w := (0, fun e => ν * lapU m w.2 e - κ * lapU m (lapU m w.2) e)
  map_add' x y := by
    refine Prod.ext (by simp) (funext fun e => ?_)
    have l : lapU m (fun i => x.2 i + y.2 i) = fun e => lapU m x.2 e + lapU m y.2 e := funext fun e => lapU_add m _ _ e
    show ν * lapU m (fun i => x.2 i + y.2 i) e - κ * lapU m (lapU m (fun i => x.2 i + y.2 i)) e =
      (ν * lapU m x.2 e - κ * lapU m (lapU m x.2) e) + (ν * lapU m y.2 e - κ * lapU m (lapU m y.2) e)
    rw [l, lapU_add]; ring
  map_smul' a x := by
    refine Prod.ext (by simp) (funext fun e => ?_)
    have l : lapU m (fun i => a * x.2 i) = fun e => a * lapU m x.2 e := funext fun e => lapU_mul m _ _ e
    show ν * lapU m (fun i => a * x.2 i) e - κ * lapU m (lapU m (fun i => a * x.2 i)) e =
      a * (ν * lapU m x.2 e - κ * lapU m (lapU m x.2) e)
    rw [l, lapU_mul]; ring

section

variable (h : Geo2 p.nx p.ny p.dims.nlayers dc m.mesh)
include h

/-- the viscous operator in the weighted norm -/
theorem lapU_sq (u : Int → ℝ) :
    ∑ e ∈ Spec.edges p.dims, Spec.dcE m e * Spec.dvE m e * lapU m u e ^ 2 ≤
      (32 / dc ^ 2) ^ 2 * ∑ e ∈ Spec.edges p.dims, Spec.dcE m e * Spec.dvE m e * u e ^ 2 := by
  have w := w_pos; have d0 := h.dc_pos; have w2 := w_sq
  obtain ⟨G, D, -⟩ := rest_sums h (g := 1) (H := 1) (by norm_num) (by norm_num) (Spec.div m u) u
  have se : ∀ x : Int → ℝ, ∑ e ∈ Spec.edges p.dims, Spec.dcE m e * Spec.dvE m e * x e ^ 2 =
      dc * (dc * √3 / 3) * ∑ e ∈ upto (3 * (p.nx * p.ny)), x e ^ 2 := fun x => by
    rw [Finset.mul_sum]
    refine Finset.sum_congr rfl fun e he => ?_
    have he := Finset.mem_Ico.mp he
    rw [spec_dcE h.toGeo he.1 he.2, spec_dvE h.toGeo he.1 he.2]
  set S := ∑ e ∈ Spec.edges p.dims, Spec.dcE m e * Spec.dvE m e * u e ^ 2 with hS
  have S0 : 0 ≤ S := by rw [hS, se]; positivity
  have gd : ∑ e ∈ Spec.edges p.dims, Spec.dcE m e * Spec.dvE m e * Spec.grad m (Spec.div m u) e ^ 2 ≤
      (8 / dc ^ 2) ^ 2 * S := by
    have k : 2 / 3 * gradConst p.ny ≤ 8 := by unfold gradConst; split_ifs <;> norm_num
    have k0 : 0 ≤ 2 / 3 * gradConst p.ny := by have := gradConst_pos p.ny; positivity
    calc _ ≤ 2 / 3 * gradConst p.ny / dc ^ 2 * (2 / 3 * gradConst p.ny / dc ^ 2 * S) :=
          G.trans (mul_le_mul_of_nonneg_left D (by positivity))
      _ ≤ 8 / dc ^ 2 * (8 / dc ^ 2 * S) := by gcongr
      _ = _ := by ring
  have gc : ∑ e ∈ Spec.edges p.dims, Spec.dcE m e * Spec.dvE m e * Spec.gradT m (Spec.curl m u) e ^ 2 ≤
      (24 / dc ^ 2) ^ 2 * S := by
    have e1 : ∑ e ∈ upto (3 * (p.nx * p.ny)), Spec.gradT m (Spec.curl m u) e ^ 2 =
        16 / dc ^ 4 * ∑ e ∈ upto (3 * (p.nx * p.ny)), Gv p.nx p.ny (Cu p.nx p.ny u) e ^ 2 := by
      rw [Finset.mul_sum]
      refine Finset.sum_congr rfl fun e he => ?_
      have he := Finset.mem_Ico.mp he
      rw [spec_gradT h.toGeo _ he.1 he.2, Gv_congr h.hnx (ψ' := fun v => 4 / (dc * √3) * Cu p.nx p.ny u v)
        (fun v a b => spec_curl h.toGeo u a b) he.1 he.2]
      unfold Gv
      field_simp
      norm_num
      ring
    rw [se, e1, hS, se]
    have a := sum_Gv_sq (ny := p.ny) h.hnx (Cu p.nx p.ny u)
    have b := sum_Cu_sq (ny := p.ny) h.hnx u
    calc _ ≤ dc * (dc * √3 / 3) * (16 / dc ^ 4 * (6 * (6 * ∑ e ∈ upto (3 * (p.nx * p.ny)), u e ^ 2))) := by
          gcongr
          exact a.trans (by linarith)
      _ = _ := by ring
  have pt : ∑ e ∈ Spec.edges p.dims, Spec.dcE m e * Spec.dvE m e * lapU m u e ^ 2 ≤
      4 * ∑ e ∈ Spec.edges p.dims, Spec.dcE m e * Spec.dvE m e * Spec.grad m (Spec.div m u) e ^ 2 +
      4 / 3 * ∑ e ∈ Spec.edges p.dims, Spec.dcE m e * Spec.dvE m e * Spec.gradT m (Spec.curl m u) e ^ 2 := by
    rw [Finset.mul_sum, Finset.mul_sum, ← Finset.sum_add_distrib]
    refine Finset.sum_le_sum fun e he => ?_
    have he := Finset.mem_Ico.mp he
    have c0 := (dcdv_pos h.toGeo he.1 he.2).le
    unfold lapU
    have : (Spec.grad m (Spec.div m u) e - Spec.gradT m (Spec.curl m u) e) ^ 2 ≤
        4 * Spec.grad m (Spec.div m u) e ^ 2 + 4 / 3 * Spec.gradT m (Spec.curl m u) e ^ 2 := by
      nlinarith [sq_nonneg (3 * Spec.grad m (Spec.div m u) e + Spec.gradT m (Spec.curl m u) e)]
    have := mul_le_mul_of_nonneg_left this c0
    linarith
  calc _ ≤ 4 * ((8 / dc ^ 2) ^ 2 * S) + 4 / 3 * ((24 / dc ^ 2) ^ 2 * S) := by linarith
    _ = _ := by ring

variable {g f H : ℝ} (g0 : 0 ≤ g) (H0 : 0 < H)
include g0 H0

theorem lapU_norm (u : Int → ℝ) : ‖restMap p.dims m g H (0, lapU m u)‖ ≤
    32 / dc ^ 2 * ‖restMap p.dims m g H (0, u)‖ := by
  refine le_of_sq_le_sq ?_ (by positivity)
  rw [norm_rest h g0 H0, mul_pow, norm_rest h g0 H0]
  have := mul_le_mul_of_nonneg_left (lapU_sq h u) H0.le
  simp only [restEnergy, Pi.zero_apply]
  simp only [ne_eq, OfNat.ofNat_ne_zero, not_false_eq_true, zero_pow, mul_zero, Finset.sum_const_zero, zero_add]
  linarith

theorem norm_snd (w : (Int → ℝ) × (Int → ℝ)) :
    ‖restMap p.dims m g H (0, w.2)‖ ≤ ‖restMap p.dims m g H w‖ := by
  refine le_of_sq_le_sq ?_ (norm_nonneg _)
  rw [norm_rest h g0 H0, norm_rest h g0 H0]
  simp only [restEnergy, Pi.zero_apply]
  have : 0 ≤ ∑ c ∈ Spec.cells p.dims, Spec.areaC m c * w.1 c ^ 2 := Finset.sum_nonneg fun c hc => by
    have hc := Finset.mem_Ico.mp hc
    exact mul_nonneg (areaC_pos h.toGeo hc.1 hc.2).le (sq_nonneg _)
  have := mul_nonneg g0 this
  simp only [ne_eq, OfNat.ofNat_ne_zero, not_false_eq_true, zero_pow, mul_zero, Finset.sum_const_zero, zero_add]
  linarith

theorem visc_bound {ν κ : ℝ} (ν0 : 0 ≤ ν) (κ0 : 0 ≤ κ) (w : (Int → ℝ) × (Int → ℝ)) :
    ‖restMap p.dims m g H (viscOp m ν κ w)‖ ≤
      (32 * ν / dc ^ 2 + 1024 * κ / dc ^ 4) * ‖restMap p.dims m g H w‖ := by
  have d0 := h.dc_pos
  have e : viscOp m ν κ w = ν • ((0, lapU m w.2) : (Int → ℝ) × (Int → ℝ)) - κ • (0, lapU m (lapU m w.2)) := by
    refine Prod.ext (by simp [viscOp]) (funext fun e => ?_)
    simp [viscOp]
  have l1 := lapU_norm h g0 H0 w.2
  have l2 := lapU_norm h g0 H0 (lapU m w.2)
  have l3 := norm_snd h g0 H0 w
  rw [e, map_sub, map_smul, map_smul]
  refine (norm_sub_le _ _).trans ?_
  rw [norm_smul, norm_smul, Real.norm_of_nonneg ν0, Real.norm_of_nonneg κ0]
  set r := ‖restMap p.dims m g H w‖
  have a1 : ‖restMap p.dims m g H (0, lapU m w.2)‖ ≤ 32 / dc ^ 2 * r :=
    l1.trans (mul_le_mul_of_nonneg_left l3 (by positivity))
  have a2 : ‖restMap p.dims m g H (0, lapU m (lapU m w.2))‖ ≤ 32 / dc ^ 2 * (32 / dc ^ 2 * r) :=
    l2.trans (mul_le_mul_of_nonneg_left a1 (by positivity))
  calc _ ≤ ν * (32 / dc ^ 2 * r) + κ * (32 / dc ^ 2 * (32 / dc ^ 2 * r)) := by gcongr
    _ = _ := by ring

theorem visc_neg {ν κ : ℝ} (ν0 : 0 ≤ ν) (κ0 : 0 ≤ κ) (w : (Int → ℝ) × (Int → ℝ)) :
    ⟪restMap p.dims m g H (viscOp m ν κ w), restMap p.dims m g H w⟫ ≤ 0 := by
  rw [inner_rest h g0 H0]
  have z : ∑ c ∈ Spec.cells p.dims, Spec.areaC m c * ((viscOp m ν κ w).1 c * w.1 c) = 0 :=
    Finset.sum_eq_zero fun c _ => by simp [viscOp]
  have l1 : ∑ e ∈ Spec.edges p.dims, Spec.dcE m e * Spec.dvE m e * (w.2 e * lapU m w.2 e) =
      -(∑ c ∈ Spec.cells p.dims, Spec.areaC m c * (Spec.div m w.2 c * Spec.div m w.2 c) +
        ∑ v ∈ Spec.verts p.dims, Spec.areaT m v * (Spec.curl m w.2 v * Spec.curl m w.2 v)) := lap_work h w.2 w.2
  have l2 : ∑ e ∈ Spec.edges p.dims, Spec.dcE m e * Spec.dvE m e * (w.2 e * lapU m (lapU m w.2) e) =
      ∑ e ∈ Spec.edges p.dims, Spec.dcE m e * Spec.dvE m e * (lapU m w.2 e * lapU m w.2 e) := by
    have a := lap_work h w.2 (lapU m w.2)
    have b := lap_work h (lapU m w.2) w.2
    simp only [mul_comm (Spec.div m (lapU m w.2) _), mul_comm (Spec.curl m (lapU m w.2) _)] at a
    exact a.trans b.symm
  have n1 : 0 ≤ ∑ c ∈ Spec.cells p.dims, Spec.areaC m c * (Spec.div m w.2 c * Spec.div m w.2 c) :=
    Finset.sum_nonneg fun c hc => by
      have hc := Finset.mem_Ico.mp hc
      exact mul_nonneg (areaC_pos h.toGeo hc.1 hc.2).le (mul_self_nonneg _)
  have n2 : 0 ≤ ∑ v ∈ Spec.verts p.dims, Spec.areaT m v * (Spec.curl m w.2 v * Spec.curl m w.2 v) :=
    Finset.sum_nonneg fun c hc => by
      have hc := Finset.mem_Ico.mp hc
      exact mul_nonneg (areaT_pos h.toGeo hc.1 hc.2).le (mul_self_nonneg _)
  have n3 : 0 ≤ ∑ e ∈ Spec.edges p.dims, Spec.dcE m e * Spec.dvE m e * (lapU m w.2 e * lapU m w.2 e) :=
    Finset.sum_nonneg fun c hc => by
      have hc := Finset.mem_Ico.mp hc
      exact mul_nonneg (dcdv_pos h.toGeo hc.1 hc.2).le (mul_self_nonneg _)
  have e : ∑ e ∈ Spec.edges p.dims, Spec.dcE m e * Spec.dvE m e * ((viscOp m ν κ w).2 e * w.2 e) =
      ν * ∑ e ∈ Spec.edges p.dims, Spec.dcE m e * Spec.dvE m e * (w.2 e * lapU m w.2 e) -
      κ * ∑ e ∈ Spec.edges p.dims, Spec.dcE m e * Spec.dvE m e * (w.2 e * lapU m (lapU m w.2) e) := by
    rw [Finset.mul_sum, Finset.mul_sum, ← Finset.sum_sub_distrib]
    exact Finset.sum_congr rfl fun c _ => by simp only [viscOp, LinearMap.coe_mk, AddHom.coe_mk]; ring
  rw [z, e, l1, l2]
  have := mul_nonneg ν0 (add_nonneg n1 n2)
  have := mul_nonneg κ0 n3
  have : H * (ν * -(∑ c ∈ Spec.cells p.dims, Spec.areaC m c * (Spec.div m w.2 c * Spec.div m w.2 c) +
        ∑ v ∈ Spec.verts p.dims, Spec.areaT m v * (Spec.curl m w.2 v * Spec.curl m w.2 v)) -
      κ * ∑ e ∈ Spec.edges p.dims, Spec.dcE m e * Spec.dvE m e * (lapU m w.2 e * lapU m w.2 e)) ≤ 0 :=
    mul_nonpos_of_nonneg_of_nonpos H0.le (by linarith)
  linarith

/-- linear tendency with viscosity, times a small step -/
theorem rest_dissipative {ν κ dt : ℝ} (ν0 : 0 ≤ ν) (κ0 : 0 ≤ κ) (t0 : 0 ≤ dt)
    (hcfl : dt * (√(2 / 3 * gradConst p.ny * (g * H)) / dc + 2 / √3 * |f| + 32 * ν / dc ^ 2 + 1024 * κ / dc ^ 4) ≤
      3 / 10) :
    Lax.Dissipative (restMap p.dims m g H) (dt • (restOp m g f H + viscOp m ν κ)) (3 / 10) := by
  refine ⟨fun x => ?_, fun x => ?_⟩
  · rw [LinearMap.smul_apply, map_smul, norm_smul, Real.norm_of_nonneg t0, LinearMap.add_apply, map_add]
    have a := rest_bound h g0 H0 (f := f) x
    have b := visc_bound h g0 H0 ν0 κ0 x
    have c := norm_add_le (restMap p.dims m g H (restOp m g f H x)) (restMap p.dims m g H (viscOp m ν κ x))
    calc _ ≤ dt * ((√(2 / 3 * gradConst p.ny * (g * H)) / dc + 2 / √3 * |f| + 32 * ν / dc ^ 2 +
          1024 * κ / dc ^ 4) * ‖restMap p.dims m g H x‖) := mul_le_mul_of_nonneg_left (by linarith) t0
      _ ≤ _ := by
        rw [← mul_assoc]
        exact mul_le_mul_of_nonneg_right hcfl (norm_nonneg _)
  · rw [LinearMap.smul_apply, map_smul, real_inner_smul_left, LinearMap.add_apply, map_add, inner_add_left]
    have a := rest_skew h g0 H0 (f := f) x x
    rw [real_inner_comm (restMap p.dims m g H (restOp m g f H x)) (restMap p.dims m g H x)] at a
    have b := visc_neg h g0 H0 ν0 κ0 x
    exact mul_nonpos_of_nonneg_of_nonpos t0 (by linarith)

end

/-! ### The first-order response with viscosity -/

section

variable {mm : ℝ → Mem ℝ} (hg : ∀ ε, Geo2 p.nx p.ny p.dims.nlayers dc (mm ε).mesh)
include hg

/-- the viscous operator of a family of velocities -/
theorem tangent_lapU {u : ℝ → Int → ℝ} {b : Int → ℝ}
    (h0 : ∀ e, 0 ≤ e → e < 3 * (p.nx * p.ny) → u 0 e = 0)
    (h1 : ∀ e, 0 ≤ e → e < 3 * (p.nx * p.ny) → HasDerivAt (fun ε => u ε e) (b e) 0) {e : Int} (e0 : 0 ≤ e)
    (e1 : e < 3 * (p.nx * p.ny)) :
    HasDerivAt (fun ε => lapU (mm ε) (u ε) e) (lapU (mm 0) b e) 0 ∧ lapU (mm 0) (u 0) e = 0 := by
  have hnx := (hg 0).hnx
  have cl : ∀ ε (v : Int → ℝ), lapU (mm ε) v e =
      2 / (3 * dc) * (Dv p.nx p.ny v (Hex.coe p.nx p.ny e 1) - Dv p.nx p.ny v (Hex.coe p.nx p.ny e 0)) / dc -
      4 / (dc * √3) * (Cu p.nx p.ny v (Hex.voe p.nx p.ny e 1) - Cu p.nx p.ny v (Hex.voe p.nx p.ny e 0)) * (√3 / dc) :=
    fun ε v => by
      unfold lapU
      rw [spec_grad (hg ε).toGeo _ e0 e1, spec_gradT (hg ε).toGeo _ e0 e1,
        Gr_congr hnx (φ' := fun c => 2 / (3 * dc) * Dv p.nx p.ny v c) (fun c a b => spec_div (hg ε) v ⟨a, b⟩) e0 e1,
        Gv_congr hnx (ψ' := fun c => 4 / (dc * √3) * Cu p.nx p.ny v c)
          (fun c a b => spec_curl (hg ε).toGeo v a b) e0 e1]
      unfold Gr Gv
      ring
  have dv : ∀ c, IsCell p.nx p.ny c → HasDerivAt (fun ε => Dv p.nx p.ny (u ε) c) (Dv p.nx p.ny b c) 0 :=
    fun c hc => by
      have d := fun j a b' => h1 _ (E_range hnx hc j a b').1 (E_range hnx hc j a b').2
      unfold Dv
      exact (((((d 3 (by norm_num) (by norm_num)).add (d 4 (by norm_num) (by norm_num))).add
        (d 5 (by norm_num) (by norm_num))).sub (d 0 (by norm_num) (by norm_num))).sub
        (d 1 (by norm_num) (by norm_num))).sub (d 2 (by norm_num) (by norm_num))
  have cu : ∀ v, 0 ≤ v → v < 2 * (p.nx * p.ny) →
      HasDerivAt (fun ε => Cu p.nx p.ny (u ε) v) (Cu p.nx p.ny b v) 0 := fun v v0 v1 => by
    have d := fun s => h1 _ (eov_range hnx v0 v1 (s := s)).1 (eov_range hnx v0 v1 (s := s)).2
    unfold Cu
    split_ifs
    · exact ((d 0).add (d 1)).sub (d 2)
    · exact ((d 2).sub (d 0)).sub (d 1)
  have vr : ∀ s, 0 ≤ s → s < 2 → 0 ≤ Hex.voe p.nx p.ny e s ∧ Hex.voe p.nx p.ny e s < 2 * (p.nx * p.ny) :=
    fun s s0 s1 => by
      exact voe_isVertex hnx (by unfold IsCell; omega) (by omega)
  constructor
  · simp only [cl]
    exact ((((dv _ (coe_isCell hnx e0 e1)).sub (dv _ (coe_isCell hnx e0 e1))).const_mul _).div_const _).sub
      ((((cu _ (vr 1 (by norm_num) (by norm_num)).1 (vr 1 (by norm_num) (by norm_num)).2).sub
      (cu _ (vr 0 (by norm_num) (by norm_num)).1 (vr 0 (by norm_num) (by norm_num)).2)).const_mul _).mul_const _)
  · have z1 : ∀ c, IsCell p.nx p.ny c → Dv p.nx p.ny (u 0) c = 0 := fun c hc => by
      rw [Dv_congr hnx (u' := fun _ => 0) (fun e a b => h0 e a b) hc]; simp [Dv]
    have z2 : ∀ v, 0 ≤ v → v < 2 * (p.nx * p.ny) → Cu p.nx p.ny (u 0) v = 0 := fun v a b => by
      rw [Cu_congr hnx (u' := fun _ => 0) (fun e a b => h0 e a b) a b]; simp [Cu]
    rw [cl, z1 _ (coe_isCell hnx e0 e1), z1 _ (coe_isCell hnx e0 e1),
      z2 _ (vr 1 (by norm_num) (by norm_num)).1 (vr 1 (by norm_num) (by norm_num)).2,
      z2 _ (vr 0 (by norm_num) (by norm_num)).1 (vr 0 (by norm_num) (by norm_num)).2]
    ring

end

/-- The tendency respects first-order perturbations of rest and acts on them as `A`. -/
def TendTangent (p : MeshParams) (k : Int) (sys : ℝ → Sys ℝ) (H : ℝ)
    (A : Module.End ℝ ((Int → ℝ) × (Int → ℝ))) : Prop :=
  ∀ (mode : AddMode) (t : ℝ) (o x : ℝ → Fld ℝ) (z w : (Int → ℝ) × (Int → ℝ)), Tangent p.dims k x H w →
    (mode = .replace ∨ Tangent p.dims k o 0 z) →
    Tangent p.dims k (fun ε => (sys ε).tend mode t (o ε) (x ε)) 0 ((if mode = .replace then 0 else z) + A w)

section

variable {sys : ℝ → Sys ℝ} {A : Module.End ℝ ((Int → ℝ) × (Int → ℝ))} {k : Int} {H : ℝ}
  (TT : TendTangent p k sys H A)
include TT

theorem TangentAlong.genLsrk {dt : ℝ} {w : (Int → ℝ) × (Int → ℝ)} {q : ℝ[X] × ℝ[X]} {x : ℝ → Fld ℝ × Fld ℝ}
    (h : TangentAlong p k A dt H w q x) (K : Coef ℝ) (t : ℝ) (i : Nat) :
    TangentAlong p k A dt H w
      (C (K.a i) * q.1 + X * q.2, q.2 + C (K.b i) * (C (K.a i) * q.1 + X * q.2))
      (fun ε => (sys ε).lsrkStage K t dt i (x ε)) := by
  obtain ⟨⟨z, hz, ez⟩, hs⟩ := h
  have T := TT .increment (t + K.c i * dt) _ _ _ _ hs (Or.inr (hz.scale (K.a i)))
  simp only [reduceCtorEq, if_false] at T
  have e : dt • (K.a i • z + A (aeval (dt • A) q.2 w)) = aeval (dt • A) (C (K.a i) * q.1 + X * q.2) w := by
    rw [map_add, map_mul, map_mul, aeval_C, aeval_X, LinearMap.add_apply, Module.End.mul_apply,
      Module.End.mul_apply, ← ez, smul_add, Module.algebraMap_end_apply, LinearMap.smul_apply, smul_comm]
  refine ⟨⟨_, T, e⟩, ?_⟩
  have S := hs.axpy T (dt * K.b i)
  have es : ∀ v : (Int → ℝ) × (Int → ℝ), (dt * K.b i) • v = K.b i • dt • v := fun v => by rw [mul_comm, mul_smul]
  rw [es, e] at S
  rw [map_add, LinearMap.add_apply, map_mul, aeval_C, Module.End.mul_apply, Module.algebraMap_end_apply]
  exact S

theorem TangentAlong.genLsrk_fold {dt : ℝ} {w : (Int → ℝ) × (Int → ℝ)} (K : Coef ℝ) (t : ℝ) (L : List Nat) :
    ∀ {q : ℝ[X] × ℝ[X]} {x : ℝ → Fld ℝ × Fld ℝ},
      TangentAlong p k A dt H w q x →
    TangentAlong p k A dt H w
      (L.foldl (fun (q : ℝ[X] × ℝ[X]) i => (C (K.a i) * q.1 + X * q.2,
        q.2 + C (K.b i) * (C (K.a i) * q.1 + X * q.2))) q)
      (fun ε => L.foldl (fun x i => (sys ε).lsrkStage K t dt i x) (x ε)) := by
  induction L with
  | nil => exact fun h => h
  | cons i L ih => exact fun h => ih (h.genLsrk TT K t i)

theorem TangentAlong.genRk4 {dt : ℝ} {w : (Int → ℝ) × (Int → ℝ)} {s : ℝ → Fld ℝ} (hs0 : Tangent p.dims k s H w)
    {q : ℝ[X] × ℝ[X]} {x : ℝ → Fld ℝ × Fld ℝ}
    (h : TangentAlong p k A dt H w q x) (K : Coef ℝ) (t : ℝ) (i : Nat) :
    TangentAlong p k A dt H w
      (if i < 3 then X * (1 + C (K.a i) * q.1) else q.1, q.2 + C (K.b i) * q.1)
      (fun ε => (sys ε).rk4Stage K t dt (s ε) i (x ε)) := by
  obtain ⟨⟨z, hz, ez⟩, hs⟩ := h
  have mid := hs0.axpy hz (dt * K.a i)
  have T := TT .replace (t + K.c i * dt) (fun ε => (x ε).1) _ 0 _ mid (Or.inl rfl)
  simp only [if_true, zero_add] at T
  constructor
  · by_cases hi : i < 3
    · refine ⟨A (w + (dt * K.a i) • z), ?_, ?_⟩
      · have e : (fun ε => ((sys ε).rk4Stage K t dt (s ε) i (x ε)).1) =
            fun ε => (sys ε).tend .replace (t + K.c i * dt) (x ε).1
              ((s ε).axpy (dt * K.a i) (x ε).1) := funext fun ε => if_pos hi
        rw [e]
        exact T
      · have e : aeval (dt • A) (1 + C (K.a i) * q.1) w = w + (dt * K.a i) • z := by
          rw [map_add, map_one, LinearMap.add_apply, map_mul, aeval_C, Module.End.mul_apply, ← ez,
            Module.algebraMap_end_apply, mul_comm dt, mul_smul]
          rfl
        rw [if_pos hi, map_mul, aeval_X, Module.End.mul_apply, e, LinearMap.smul_apply]
    · refine ⟨z, ?_, by rw [if_neg hi, ez]⟩
      have e : (fun ε => ((sys ε).rk4Stage K t dt (s ε) i (x ε)).1) =
          fun ε => (x ε).1 := funext fun ε => if_neg hi
      rw [e]
      exact hz
  · have S := hs.axpy hz (dt * K.b i)
    have es : ∀ v : (Int → ℝ) × (Int → ℝ), (dt * K.b i) • v = K.b i • dt • v := fun v => by rw [mul_comm, mul_smul]
    rw [es, ez] at S
    rw [map_add, LinearMap.add_apply, map_mul, aeval_C, Module.End.mul_apply, Module.algebraMap_end_apply]
    exact S

theorem TangentAlong.genRk4_fold {dt : ℝ} {w : (Int → ℝ) × (Int → ℝ)} {s : ℝ → Fld ℝ}
    (hs0 : Tangent p.dims k s H w) (K : Coef ℝ) (t : ℝ) (L : List Nat) :
    ∀ {q : ℝ[X] × ℝ[X]} {x : ℝ → Fld ℝ × Fld ℝ},
      TangentAlong p k A dt H w q x →
    TangentAlong p k A dt H w
      (L.foldl (fun (q : ℝ[X] × ℝ[X]) i =>
        (if i < 3 then X * (1 + C (K.a i) * q.1) else q.1, q.2 + C (K.b i) * q.1)) q)
      (fun ε => L.foldl (fun x i => (sys ε).rk4Stage K t dt (s ε) i x) (x ε)) := by
  induction L with
  | nil => exact fun h => h
  | cons i L ih => exact fun h => ih (h.genRk4 TT hs0 K t i)

/-- A step acts on a perturbation as the stability polynomial of the stepper. -/
theorem gen_step (stp : Stepper) (t dt : ℝ) {w : (Int → ℝ) × (Int → ℝ)} {x : ℝ → Fld ℝ × Fld ℝ}
    (hx : Tangent p.dims k (fun ε => (x ε).2) H w) :
    Tangent p.dims k (fun ε => ((sys ε).step t dt (x ε) stp).2) H
      (aeval (dt • A) (stabPoly stp) w) := by
  have zero : Tangent p.dims k (fun _ => (zeroFld : Fld ℝ)) 0 0 := by
    refine ⟨fun _ _ _ => by simp [zeroFld], fun _ _ _ => by simp [zeroFld], fun _ _ _ => ?_, fun _ _ _ => ?_⟩ <;>
    exact hasDerivAt_const _ _
  cases stp with
  | lsrk n =>
    rcases Nat.eq_zero_or_pos n with rfl | hn
    · simpa [stabPoly, Sys.step, Sys.lsrkStep] using hx
    · obtain ⟨n, rfl⟩ : ∃ k, n = k + 1 := ⟨n - 1, by omega⟩
      have e : (fun ε => (sys ε).step t dt (x ε) (.lsrk (n + 1))) =
          fun ε => (List.range (n + 1)).foldl (fun y i => (sys ε).lsrkStage
            (lsrkCoef (n + 1)) t dt i y) (zeroFld, (x ε).2) := by
        funext ε
        show (List.range (n + 1)).foldl _ _ = _
        rw [List.range_succ_eq_map, List.foldl_cons, List.foldl_cons]
        congr 1
        unfold Sys.lsrkStage
        have : ((x ε).1.map fun v => v * (lsrkCoef (n + 1)).a 0) =
            (zeroFld.map fun v => v * (lsrkCoef (n + 1)).a 0 : Fld ℝ) := by
          simp [Fld.map, lsrk_a0]
        rw [this]
      have init : TangentAlong p k A dt H w ((0, 1) : ℝ[X] × ℝ[X])
          (fun ε => (zeroFld, (x ε).2)) :=
        ⟨⟨0, zero, by simp⟩, by simpa using hx⟩
      have key := TangentAlong.genLsrk_fold TT (lsrkCoef (n + 1)) t
        (List.range (n + 1)) init
      rw [← e] at key
      exact key.st
  | rk4 =>
    have T := TT .replace t (fun ε => (x ε).1) _ 0 _ hx (Or.inl rfl)
    simp only [if_true, zero_add] at T
    have init : TangentAlong p k A dt H w ((X, 1) : ℝ[X] × ℝ[X])
        (fun ε => ((sys ε).tend .replace t (x ε).1 (x ε).2, (x ε).2)) :=
      ⟨⟨_, T, by simp⟩, by simpa using hx⟩
    exact (TangentAlong.genRk4_fold TT hx rk4Coef t (List.range 4) init).st

theorem gen_run (stp : Stepper) (sched : List (ℝ × ℝ)) : ∀ {w : (Int → ℝ) × (Int → ℝ)}
    {x : ℝ → Fld ℝ × Fld ℝ}, Tangent p.dims k (fun ε => (x ε).2) H w →
    Tangent p.dims k (fun ε => ((sys ε).run stp sched (x ε)).2) H
      (sched.foldl (fun w a => aeval (a.2 • A) (stabPoly stp) w) w) := by
  induction sched with
  | nil => exact fun h => h
  | cons a L ih =>
    exact fun h => ih (gen_step TT stp a.1 a.2 h)

end


/-- The tendency with viscosity is zero at rest, and its derivative is the linear operator. -/
theorem visc_tend {mm : ℝ → Mem ℝ} (hg : ∀ ε, Geo2 p.nx p.ny p.dims.nlayers dc (mm ε).mesh) {f : ℝ}
    (hf : ∀ ε v, 0 ≤ v → v < p.dims.nvertices → (mm ε).real .f_vertex 0 v 0 = f)
    {sw : SWModel ℝ} (s1 : sw.en_hadv = true) (s2 : sw.en_pv = true) (s3 : sw.en_ke = true)
    (s4 : sw.en_ssh = true) (n1 : sw.prm.disable_h = false) (n2 : sw.prm.disable_vn = false)
    {k : Int} (k0 : 0 ≤ k) (k1 : k < p.dims.nlayers) {H : ℝ} (H0 : 0 < H) :
    TendTangent p k (fun ε => genSys p.dims sw noHook (mm ε)) H (restOp (mm 0) sw.prm.grav f H +
      viscOp (mm 0) (if sw.en_vdiff then sw.prm.visc_del2 else 0) (if sw.en_vhyper then sw.prm.visc_del4 else 0)) := by
  intro mode t o x z w hx ho
  have th := fun ε => (tend_val (m := mm ε) p.dims sw mode t (o ε) (x ε)).1
  have tv := fun ε => (tend_val (m := mm ε) p.dims sw mode t (o ε) (x ε)).2.1
  simp only [n1, n2, Bool.false_eq_true, if_false] at th tv
  have l1 := fun e (e0 : 0 ≤ e) (e1 : e < 3 * (p.nx * p.ny)) =>
    tangent_lapU hg (u := fun ε i => (x ε).vn i k) hx.v0 hx.v1 e0 e1
  have ve : ∀ ε (u : Int → ℝ) e, 0 ≤ e → e < 3 * (p.nx * p.ny) → Spec.vecLap (mm ε) u e = lapU (mm ε) u e :=
    fun ε u e e0 e1 => vecLap_eq (hg ε).toGeo u e0 e1
  have l2 := fun e (e0 : 0 ≤ e) (e1 : e < 3 * (p.nx * p.ny)) =>
    tangent_lapU hg (u := fun ε => Spec.vecLap (mm ε) fun i => (x ε).vn i k) (b := lapU (mm 0) w.2)
      (fun e a b => (ve 0 _ e a b).trans (l1 e a b).2)
      (fun e a b => (l1 e a b).1.congr_of_eventuallyEq (Filter.Eventually.of_forall fun ε => ve ε _ e a b)) e0 e1
  set sw' : SWModel ℝ := { sw with en_vdiff := false, en_vhyper := false } with hsw
  have vt : ∀ e, 0 ≤ e → e < 3 * (p.nx * p.ny) →
      HasDerivAt (fun ε => Spec.velocityTend (mm ε) sw k (fun i => (x ε).h i k) (fun i => (x ε).vn i k) e)
        (((restOp (mm 0) sw.prm.grav f H + viscOp (mm 0) (if sw.en_vdiff then sw.prm.visc_del2 else 0)
          (if sw.en_vhyper then sw.prm.visc_del4 else 0)) w).2 e) 0 ∧
      Spec.velocityTend (mm 0) sw k (fun i => (x 0).h i k) (fun i => (x 0).vn i k) e = 0 := fun e e0 e1 => by
    obtain ⟨r1, r2⟩ := tangent_velocity hg hf (sw := sw') s2 s3 s4 rfl rfl H0 hx e0 e1
    have cl : ∀ ε, Spec.velocityTend (mm ε) sw k (fun i => (x ε).h i k) (fun i => (x ε).vn i k) e =
        Spec.velocityTend (mm ε) sw' k (fun i => (x ε).h i k) (fun i => (x ε).vn i k) e +
        ((if sw.en_vdiff then sw.prm.visc_del2 else 0) * lapU (mm ε) (fun i => (x ε).vn i k) e -
        (if sw.en_vhyper then sw.prm.visc_del4 else 0) *
          lapU (mm ε) (Spec.vecLap (mm ε) fun i => (x ε).vn i k) e) := fun ε => by
      obtain ⟨q1, q2, q3⟩ := mask_one (hg ε).toGeo e0 e1 k0 k1
      simp only [Spec.velocityTend, hsw, q1, q2, q3, lapU, Bool.false_eq_true, if_false]
      split_ifs <;> ring
    constructor
    · simp only [cl]
      exact (r1.add (((l1 e e0 e1).1.const_mul _).sub ((l2 e e0 e1).1.const_mul _)))
    · rw [cl, r2, (l1 e e0 e1).2, (l2 e e0 e1).2]; ring
  refine ⟨fun c c0 c1 => ?_, fun e e0 e1 => ?_, fun c c0 c1 => ?_, fun e e0 e1 => ?_⟩
  · rw [th, (tangent_thickness (f := f) hg s1 hx ⟨c0, c1⟩).2]
    split_ifs with hm
    · rw [add_zero]
    · rw [(ho.resolve_left hm).h0 c c0 c1, add_zero]
  · rw [tv, (vt e e0 e1).2]
    split_ifs with hm
    · rw [add_zero]
    · rw [(ho.resolve_left hm).v0 e e0 e1, add_zero]
  · simp only [th]
    have d := (tangent_thickness (f := f) hg s1 hx ⟨c0, c1⟩).1
    have e : (restOp (mm 0) sw.prm.grav f H w).1 c = ((restOp (mm 0) sw.prm.grav f H +
        viscOp (mm 0) (if sw.en_vdiff then sw.prm.visc_del2 else 0)
          (if sw.en_vhyper then sw.prm.visc_del4 else 0)) w).1 c := by
      simp [viscOp]
    rw [e] at d
    by_cases hm : mode = .replace
    · simp only [if_pos hm]
      exact (d.const_add 0).congr_deriv (zero_add _).symm
    · simp only [if_neg hm]
      exact ((ho.resolve_left hm).h1 c c0 c1).add d
  · simp only [tv]
    have d := (vt e e0 e1).1
    by_cases hm : mode = .replace
    · simp only [if_pos hm]
      exact (d.const_add 0).congr_deriv (zero_add _).symm
    · simp only [if_neg hm]
      exact ((ho.resolve_left hm).v1 e e0 e1).add d

/-! ### C106 -/

/-- With viscosity and hyperviscosity a layer at rest is linearly stable.  Take a family of initial states that
is differentiable at the state of rest with thickness `H`, and run the classical stepper with steps of size `dt`
from each of them.  Then the result from rest is rest, the results are differentiable there, and the energy of the
derivative after an even number of steps is at most the energy at the start (a ten-thousandth more after an odd
number), as long as `dt` is at most 3/10 divided by the sum of `√(6 g H) / dc` (8 instead of 6 on a mesh with an odd
number of rows), `2 / √3 |f|`, `32 ν / dc²` and `1024 κ / dc⁴`. -/
theorem C106_viscous_rest_stable (hv : RunValid p) (hnx : 2 ≤ p.nx)
    (hny : 2 ≤ p.ny) (hdc : 0 < dc) {prm : Params ℝ} (n1 : prm.disable_h = false)
    (n2 : prm.disable_vn = false) (g0 : 0 ≤ prm.grav)
    {H : ℝ} (H0 : 0 < H) {k : Int} (k0 : 0 ≤ k) (k1 : k < p.dims.nlayers) {m m1 : ℝ → Mem ℝ}
    (hr : ∀ ε, Ready p dc prm (m ε)) {a b : Int → ℝ}
    (ha0 : ∀ c, 0 ≤ c → c < p.dims.ncells → (m 0).real (.h_cell .state) 0 c k = H)
    (hb0 : ∀ e, 0 ≤ e → e < p.dims.nedges → (m 0).real (.vn_edge .state) 0 e k = 0)
    (ha : ∀ c, 0 ≤ c → c < p.dims.ncells →
      HasDerivAt (fun ε => (m ε).real (.h_cell .state) 0 c k) (a c) 0)
    (hb : ∀ e, 0 ≤ e → e < p.dims.nedges →
      HasDerivAt (fun ε => (m ε).real (.vn_edge .state) 0 e k) (b e) 0)
    {sched : List (ℝ × ℝ)} {dt : ℝ} (hs : ∀ q ∈ sched, q.2 = dt) (t0 : 0 ≤ dt)
    (hcfl : dt * (√((if p.ny % 2 = 0 then 6 else 8) * (prm.grav * H)) / dc + 2 / √3 * |prm.f0| +
      32 * max prm.visc_del2 0 / dc ^ 2 + 1024 * max prm.visc_del4 0 / dc ^ 4) ≤ 3 / 10)
    {split : Bool} (he : ∀ ε, Exec p.dims (Stepper.rk4.ctor p.dims ++ Stepper.rk4.run p.dims
      ⟨defaultKernels p.dims.vl, split⟩ (SWModel.ofParams prm) sched) (m ε) (m1 ε)) :
    (∀ c, 0 ≤ c → c < p.dims.ncells → (m1 0).real (.h_cell .state) 0 c k = H) ∧
    (∀ e, 0 ≤ e → e < p.dims.nedges → (m1 0).real (.vn_edge .state) 0 e k = 0) ∧
    ∃ a' b' : Int → ℝ,
      (∀ c, 0 ≤ c → c < p.dims.ncells →
        HasDerivAt (fun ε => (m1 ε).real (.h_cell .state) 0 c k) (a' c) 0) ∧
      (∀ e, 0 ≤ e → e < p.dims.nedges →
        HasDerivAt (fun ε => (m1 ε).real (.vn_edge .state) 0 e k) (b' e) 0) ∧
      restEnergy p.dims (m 0) prm.grav H a' b' ≤
        (if sched.length % 2 = 0 then 1 else 1 + 1 / 10 ^ 4) * restEnergy p.dims (m 0) prm.grav H a b := by
  have hg := fun ε => Ready.geo2 (hr ε) hv.toValid hnx hny hdc
  have hf := fun ε => (Ready.hex hv.toValid (hr ε)).2.1
  set sw := SWModel.ofParams prm with hsw
  have s5 : (if sw.en_vdiff then sw.prm.visc_del2 else 0) = max prm.visc_del2 0 := by
    show (if decide ((lit 0 : ℝ) < prm.visc_del2) then prm.visc_del2 else 0) = _
    rw [show (lit 0 : ℝ) = 0 by simp]
    simp only [decide_eq_true_eq]
    split_ifs with h
    · rw [max_eq_left h.le]
    · rw [max_eq_right (not_lt.1 h)]
  have s6 : (if sw.en_vhyper then sw.prm.visc_del4 else 0) = max prm.visc_del4 0 := by
    show (if decide ((lit 0 : ℝ) < prm.visc_del4) then prm.visc_del4 else 0) = _
    rw [show (lit 0 : ℝ) = 0 by simp]
    simp only [decide_eq_true_eq]
    split_ifs with h
    · rw [max_eq_left h.le]
    · rw [max_eq_right (not_lt.1 h)]
  have v := fun ε => by
    obtain ⟨hd, hc⟩ := ready_ok hv (hr ε)
    exact ((genSetup hd hc (hookOK_noHook (noHook_ofParams prm) p.dims (m ε))).newRun (he ε)).2.2
  have init : Tangent p.dims k (fun ε => (m ε).fld .state) H (a, b) := ⟨ha0, hb0, ha, hb⟩
  have TT := visc_tend hg hf (sw := sw) rfl rfl rfl rfl n1 n2 k0 k1 H0
  rw [s5, s6] at TT
  have key := gen_run TT .rk4 sched (x := fun ε => (zeroFld, (m ε).fld .state)) init
  set w := sched.foldl (fun w a => aeval (a.2 • (restOp (m 0) sw.prm.grav prm.f0 H +
    viscOp (m 0) (max prm.visc_del2 0) (max prm.visc_del4 0))) (stabPoly .rk4) w) (a, b) with hw
  refine ⟨fun c c0 c1 => ((v 0).h c k c0 c1 k0 k1).trans (key.h0 c c0 c1),
    fun e e0 e1 => ((v 0).vn e k e0 e1 k0 k1).trans (key.v0 e e0 e1), w.1, w.2,
    fun c c0 c1 => ?_, fun e e0 e1 => ?_, ?_⟩
  · exact (key.h1 c c0 c1).congr_of_eventuallyEq (Filter.Eventually.of_forall fun ε => (v ε).h c k c0 c1 k0 k1)
  · exact (key.v1 e e0 e1).congr_of_eventuallyEq (Filter.Eventually.of_forall fun ε => (v ε).vn e k e0 e1 k0 k1)
  · have e : (2 / 3 * gradConst p.ny : ℝ) = if p.ny % 2 = 0 then 6 else 8 := by
      unfold gradConst; split_ifs <;> norm_num
    rw [← e] at hcfl
    have D := rest_dissipative (hg 0) (g := prm.grav) (f := prm.f0) g0 H0 (le_max_right prm.visc_del2 0)
      (le_max_right prm.visc_del4 0) t0 hcfl
    have := D.steps sched.length (a, b)
    rw [norm_rest (hg 0) g0 H0, norm_rest (hg 0) g0 H0] at this
    have e2 : w = aeval (dt • (restOp (m 0) prm.grav prm.f0 H +
        viscOp (m 0) (max prm.visc_del2 0) (max prm.visc_del4 0))) (stabPoly .rk4 ^ sched.length) (a, b) := by
      rw [hw]
      exact fold_pow _ _ sched hs (a, b)
    rw [e2]
    exact this

example (n : ℕ) : ∃ (prm : Params ℝ) (m m1 : ℝ → Mem ℝ) (sched : List (ℝ × ℝ)),
    RunValid p46 ∧ 2 ≤ p46.nx ∧ 2 ≤ p46.ny ∧ prm.disable_h = false ∧ prm.disable_vn = false ∧
    0 < prm.visc_del2 ∧ 0 < prm.visc_del4 ∧ 0 < prm.grav ∧ prm.f0 ≠ 0 ∧ (0 : Int) ≤ 2 ∧ 2 < p46.dims.nlayers ∧
    (∀ ε, Ready p46 1 prm (m ε)) ∧
    (∀ c, 0 ≤ c → c < p46.dims.ncells → (m 0).real (.h_cell .state) 0 c 2 = 1) ∧
    (∀ e, 0 ≤ e → e < p46.dims.nedges → (m 0).real (.vn_edge .state) 0 e 2 = 0) ∧
    (∀ c, 0 ≤ c → c < p46.dims.ncells →
      HasDerivAt (fun ε => (m ε).real (.h_cell .state) 0 c 2) (c : ℝ) 0) ∧
    (∀ e, 0 ≤ e → e < p46.dims.nedges →
      HasDerivAt (fun ε => (m ε).real (.vn_edge .state) 0 e 2) (e : ℝ) 0) ∧
    sched.length = n ∧ (∀ q ∈ sched, q.2 = 1 / 100) ∧
    (1 / 100 : ℝ) * (√((if p46.ny % 2 = 0 then 6 else 8) * (prm.grav * 1)) / 1 + 2 / √3 * |prm.f0| +
      32 * max prm.visc_del2 0 / 1 ^ 2 + 1024 * max prm.visc_del4 0 / 1 ^ 4) ≤ 3 / 10 ∧
    ∀ ε, Exec p46.dims (Stepper.rk4.ctor p46.dims ++ Stepper.rk4.run p46.dims
      ⟨defaultKernels p46.dims.vl, true⟩ (SWModel.ofParams prm) sched) (m ε) (m1 ε) := by
  set prm : Params ℝ := ⟨1, 1, 1 / 10, 1 / 100, 0, 0, false, false⟩ with hprm
  have ex := fun ε : ℝ => exists_ready p46_run.toValid 1 prm
    ⟨fun c _ => 1 + ε * c, fun e _ => ε * e, fun _ _ _ => 0⟩ zeroFld
  choose m hr hx _ using ex
  set sched : List (ℝ × ℝ) := List.replicate n (0, 1 / 100) with hsch
  have run := fun ε => by
    obtain ⟨hd, hc⟩ := ready_ok p46_run (hr ε)
    exact ((C40_safe_deterministic hd hc (noHook_ofParams prm) true).2.2 .rk4 sched).2.exists
  choose m1 he using run
  have eh : ∀ ε c, (m ε).real (.h_cell .state) 0 c 2 = 1 + ε * c := fun ε c =>
    congrFun (congrFun (congrArg Fld.h (hx ε)) c) 2
  have ev : ∀ ε e, (m ε).real (.vn_edge .state) 0 e 2 = ε * e := fun ε e =>
    congrFun (congrFun (congrArg Fld.vn (hx ε)) e) 2
  refine ⟨prm, m, m1, sched, p46_run, by simp [p46], by simp [p46], rfl, rfl, by norm_num [hprm],
    by norm_num [hprm], by norm_num [hprm], by norm_num [hprm], by norm_num, by rw [p46_layers]; norm_num, hr,
    fun c _ _ => by rw [eh]; simp, fun e _ _ => by rw [ev]; simp, fun c _ _ => ?_, fun e _ _ => ?_,
    by rw [hsch, List.length_replicate], fun q hq => by rw [List.eq_of_mem_replicate hq], ?_, he⟩
  · simp only [eh]
    exact (((hasDerivAt_id (0 : ℝ)).mul_const (c : ℝ)).const_add 1).congr_deriv (by simp)
  · simp only [ev]
    exact ((hasDerivAt_id (0 : ℝ)).mul_const (e : ℝ)).congr_deriv (by simp)
  · have a1 : √((if p46.ny % 2 = 0 then 6 else 8) * (prm.grav * 1)) ≤ 3 := by
      rw [Real.sqrt_le_left (by norm_num)]
      norm_num [hprm, p46]
    have a2 : 2 / √3 ≤ 2 := by
      refine div_le_self (by norm_num) ?_
      rw [Real.one_le_sqrt]; norm_num
    have a3 : max prm.visc_del2 0 = 1 / 10 := max_eq_left (by norm_num [hprm])
    have a4 : max prm.visc_del4 0 = 1 / 100 := max_eq_left (by norm_num [hprm])
    rw [a3, a4, show |prm.f0| = 1 from abs_one, div_one, mul_one]
    norm_num at a1 a2 ⊢
    linarith

end Props
end
end Omega
