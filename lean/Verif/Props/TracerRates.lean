import Verif.Props.TracerTests
import Verif.Lib.Numeric
import Mathlib.Analysis.Complex.ExponentialBounds
import Mathlib.Analysis.SpecialFunctions.Log.Base

/-!
# C64: rates of the tracer diffusion and hyperdiffusion tests

Both tests compare two resolutions and require a rate within 0.05 of two.
-/

set_option linter.unusedVariables false
set_option linter.unusedSectionVars false

namespace Omega
noncomputable section
namespace Props

open Prog Model Refine Hex Polynomial

variable {p : MeshParams} {dc : ℝ} {m : Mem ℝ}

theorem lsrk5_exp {z : ℝ} (h0 : -(1 / 10) ≤ z) (h1 : z ≤ 0) :
    |(stabPoly (.lsrk 5)).eval z - Real.exp z| ≤ |z| * (|z| ^ 4 / 250 + 5 / 10 ^ 20) := by
  obtain ⟨c1, c2, c3, c4, c5, k1, k2, k3, k4, k5, he⟩ := lsrk5_eval
  have hx := Numeric.exp_bound6 (x := z) (by rw [abs_of_nonpos h1]; linarith)
  rw [he]
  obtain ⟨y, rfl⟩ : ∃ y, z = -y := ⟨-z, by ring⟩
  have y0 : 0 ≤ y := by linarith
  have y1 : y ≤ 1 / 10 := by linarith
  rw [abs_neg, abs_of_nonneg y0] at *
  rw [abs_le] at *
  have p2 : y ^ 2 ≤ y := by nlinarith
  have p3 : y ^ 3 ≤ y := by nlinarith [pow_nonneg y0 2]
  have p4 : y ^ 4 ≤ y := by nlinarith [pow_nonneg y0 3]
  have p5 : y ^ 5 ≤ y := by nlinarith [pow_nonneg y0 4]
  have p6 : y ^ 6 ≤ y ^ 5 / 10 := by nlinarith [pow_nonneg y0 5]
  have q2 := pow_nonneg y0 2
  have q3 := pow_nonneg y0 3
  have q4 := pow_nonneg y0 4
  have q5 := pow_nonneg y0 5
  set t := Real.exp (-y)
  have a1 : |(c1 - 1) * -y| ≤ 1 / 10 ^ 20 * y := by
    rw [abs_mul, abs_neg, abs_of_nonneg y0]
    exact mul_le_mul_of_nonneg_right (abs_le.2 k1) y0
  have a2 : |(c2 - 1 / 2) * y ^ 2| ≤ 1 / 10 ^ 20 * y := by
    rw [abs_mul, abs_of_nonneg q2]
    exact mul_le_mul (abs_le.2 k2) p2 q2 (by norm_num)
  have a3 : |(c3 - 1 / 6) * -y ^ 3| ≤ 1 / 10 ^ 20 * y := by
    rw [abs_mul, abs_neg, abs_of_nonneg q3]
    exact mul_le_mul (abs_le.2 k3) p3 q3 (by norm_num)
  have a4 : |(c4 - 1 / 24) * y ^ 4| ≤ 1 / 10 ^ 20 * y := by
    rw [abs_mul, abs_of_nonneg q4]
    exact mul_le_mul (abs_le.2 k4) p4 q4 (by norm_num)
  have a5 : |(c5 - 1 / 200) * -y ^ 5| ≤ 1 / 10 ^ 20 * y := by
    rw [abs_mul, abs_neg, abs_of_nonneg q5]
    exact mul_le_mul (abs_le.2 k5) p5 q5 (by norm_num)
  rw [abs_le] at a1 a2 a3 a4 a5
  have e : ∀ r : ℝ, 1 + c1 * -y + c2 * (-y) ^ 2 + c3 * (-y) ^ 3 + c4 * (-y) ^ 4 + c5 * (-y) ^ 5 - r =
      (c1 - 1) * -y + (c2 - 1 / 2) * y ^ 2 + (c3 - 1 / 6) * -y ^ 3 + (c4 - 1 / 24) * y ^ 4 +
      (c5 - 1 / 200) * -y ^ 5 + (1 / 300) * y ^ 5 -
      (r - (1 + -y + (-y) ^ 2 / 2 + (-y) ^ 3 / 6 + (-y) ^ 4 / 24 + (-y) ^ 5 / 120)) := fun r => by ring
  rw [e, show y * (y ^ 4 / 250 + 5 / 10 ^ 20) = y ^ 5 / 250 + 5 * (1 / 10 ^ 20 * y) by ring]
  constructor <;> linarith [a1.1, a1.2, a2.1, a2.2, a3.1, a3.2, a4.1, a4.2, a5.1, a5.2, hx.1, hx.2]

/-- The amplitude after `N` steps against the exact one. -/
theorem amp_err {z M y s : ℝ} {N : ℕ} (s0 : 1 / 10 ^ 10 ≤ s) (s1 : s ≤ 31 / 200)
    (z0 : -(3 / 5 * s) ≤ z) (z1 : z ≤ 0) (hN : N * z = -M + y) (hM : M ≤ 2) (hy : s / 5 ≤ y) :
    |(stabPoly (.lsrk 5)).eval z ^ N - Real.exp (-M) - Real.exp (-M) * (Real.exp y - 1)| ≤
      Real.exp (-M) * (Real.exp y - 1) / 1000 := by
  have hs : 0 < s := lt_of_lt_of_le (by norm_num) s0
  have hz : |z| = -z := abs_of_nonpos z1
  have b1 := lsrk5_exp (z := z) (by linarith) z1
  have b2 := Numeric.abs_pow_sub_pow (x := (stabPoly (.lsrk 5)).eval z) (y := Real.exp z)
    (stab_le_one _ (by simp only [diffusionLimit]; norm_num; linarith) z1)
    (by rw [abs_of_pos (Real.exp_pos z)]; exact Real.exp_le_one_iff.2 z1) N
  have e1 : Real.exp z ^ N = Real.exp (-M) * Real.exp y := by
    rw [← Real.exp_nat_mul, hN, Real.exp_add]
  rw [e1] at b2
  have hD : 1 / 8 ≤ Real.exp (-M) := by
    have h2 : Real.exp 2 ≤ 8 := by
      have := Real.exp_one_lt_d9
      rw [show (2 : ℝ) = 1 + 1 by norm_num, Real.exp_add]
      nlinarith [Real.exp_pos 1]
    have : Real.exp (-2) ≤ Real.exp (-M) := Real.exp_le_exp.2 (by linarith)
    rw [Real.exp_neg] at this
    refine le_trans ?_ this
    rw [one_div]
    exact inv_anti₀ (Real.exp_pos 2) h2
  have hG : s / 5 ≤ Real.exp y - 1 := by
    have := Real.add_one_le_exp y; linarith
  have hz4 : |z| ^ 4 ≤ s * (1 / 2000) := by
    have h1 : |z| ≤ 3 / 5 * s := by rw [hz]; linarith
    have h2 : |z| ^ 4 ≤ (3 / 5 * s) ^ 4 := pow_le_pow_left₀ (abs_nonneg z) h1 4
    have h3 : s ^ 3 ≤ (31 / 200) ^ 3 := pow_le_pow_left₀ hs.le s1 3
    nlinarith
  have hc : (N : ℝ) * |z| ≤ 2 := by rw [hz]; linarith [hN]
  have b3 : (N : ℝ) * |(stabPoly (.lsrk 5)).eval z - Real.exp z| ≤
      2 * (s * (1 / 2000) / 250 + 5 / 10 ^ 20) := by
    calc (N : ℝ) * |(stabPoly (.lsrk 5)).eval z - Real.exp z|
        ≤ N * (|z| * (|z| ^ 4 / 250 + 5 / 10 ^ 20)) := mul_le_mul_of_nonneg_left b1 (by positivity)
      _ = (N * |z|) * (|z| ^ 4 / 250 + 5 / 10 ^ 20) := by ring
      _ ≤ 2 * (s * (1 / 2000) / 250 + 5 / 10 ^ 20) := by
        refine mul_le_mul hc ?_ (by positivity) (by norm_num)
        linarith
  rw [show (stabPoly (.lsrk 5)).eval z ^ N - Real.exp (-M) - Real.exp (-M) * (Real.exp y - 1) =
    (stabPoly (.lsrk 5)).eval z ^ N - Real.exp (-M) * Real.exp y by ring]
  refine (b2.trans b3).trans ?_
  have : 1 / 8 * (s / 5) ≤ Real.exp (-M) * (Real.exp y - 1) :=
    mul_le_mul hD hG (by positivity) (Real.exp_pos _).le
  linarith

/-- From the ratio of two errors to the rate. -/
theorem rate_of {E1 E2 D G1 G2 : ℝ} (hD : 0 < D) (hG : 0 < G2) (h1 : |E1 - D * G1| ≤ D * G1 / 1000)
    (h2 : |E2 - D * G2| ≤ D * G2 / 1000) (lo : 39 / 10 * G2 ≤ G1) (hi : G1 ≤ 411 / 100 * G2) :
    0 < |E2| ∧ |Real.logb 2 (|E1| / |E2|) - 2| < 5 / 100 := by
  rw [abs_le] at h1 h2
  have g2 : 0 < D * G2 := mul_pos hD hG
  have g1 : 39 / 10 * (D * G2) ≤ D * G1 := by nlinarith
  have g1' : D * G1 ≤ 411 / 100 * (D * G2) := by nlinarith
  have p2 : 0 < E2 := by linarith
  have p1 : 0 < E1 := by linarith
  rw [abs_of_pos p2, abs_of_pos p1]
  refine ⟨p2, ?_⟩
  have r0 : 0 < E1 / E2 := div_pos p1 p2
  have l1 : 389 / 100 ≤ E1 / E2 := by rw [le_div_iff₀ p2]; linarith
  have l2 : E1 / E2 ≤ 412 / 100 := by rw [div_le_iff₀ p2]; linarith
  set r := E1 / E2
  have e : Real.logb 2 r - 2 = Real.logb 2 (r / 4) := by
    rw [Real.logb_div r0.ne' (by norm_num), show (4 : ℝ) = 2 ^ (2 : ℕ) by norm_num, Real.logb_pow,
      Real.logb_self_eq_one (by norm_num)]
    norm_num
  have e2 : (20 : ℝ) * Real.logb 2 (r / 4) = Real.logb 2 ((r / 4) ^ 20) := by
    rw [Real.logb_pow]; norm_num
  have q1 : (389 / 400 : ℝ) ^ 20 ≤ (r / 4) ^ 20 := pow_le_pow_left₀ (by norm_num) (by linarith) 20
  have q2 : (r / 4) ^ 20 ≤ (412 / 400 : ℝ) ^ 20 := pow_le_pow_left₀ (by positivity) (by linarith) 20
  have q1' : (1 / 2 : ℝ) < (r / 4) ^ 20 := lt_of_lt_of_le (by norm_num) q1
  have q2' : (r / 4) ^ 20 < 2 := lt_of_le_of_lt q2 (by norm_num)
  have u1 : Real.logb 2 ((r / 4) ^ 20) < 1 := by
    have := Real.logb_lt_logb (b := 2) (by norm_num) (by positivity) q2'
    rwa [Real.logb_self_eq_one (by norm_num)] at this
  have u2 : -1 < Real.logb 2 ((r / 4) ^ 20) := by
    have := Real.logb_lt_logb (b := 2) (by norm_num) (by norm_num) q1'
    rwa [one_div, Real.logb_inv, Real.logb_self_eq_one (by norm_num)] at this
  rw [e, abs_lt]
  constructor <;> linarith

/-- `8 π² / 300` -/
def Bc : ℝ := 8 * Real.pi ^ 2 / 300

theorem Bc_bounds : 2631 / 10000 ≤ Bc ∧ Bc ≤ 2633 / 10000 := by
  have h1 := Real.pi_gt_d4
  have h2 := Real.pi_lt_d4
  unfold Bc
  constructor <;> nlinarith

/-- relative spectral error: `q` in terms of the squared phase `s` -/
structure Phase (s q : ℝ) : Prop where
  lo : s * (49 / 96 - 397 / 11520 * s - 3 / 2000 * s ^ 2) ≤ q
  hi : q ≤ s * (49 / 96 - 397 / 11520 * s + 3 / 2000 * s ^ 2)

theorem Phase.simple {s q : ℝ} (h : Phase s q) (s0 : 0 < s) (s1 : s ≤ 31 / 200) :
    s * (49 / 96 - 35 / 1000 * s) ≤ q ∧ q ≤ 49 / 96 * s := by
  have p2 : 0 ≤ s ^ 2 := by positivity
  have := h.lo
  have := h.hi
  constructor <;> nlinarith

theorem diff_ratio {s q1 q2 : ℝ} (s0 : 0 < s) (s1 : s ≤ 31 / 200) (h1 : Phase s q1)
    (h2 : Phase (s / 4) q2) :
    39 / 10 * (Real.exp (2 * Bc * q2) - 1) ≤ Real.exp (2 * Bc * q1) - 1 ∧
    Real.exp (2 * Bc * q1) - 1 ≤ 411 / 100 * (Real.exp (2 * Bc * q2) - 1) := by
  obtain ⟨B0, B1⟩ := Bc_bounds
  obtain ⟨a1, b1⟩ := h1.simple s0 s1
  obtain ⟨a2, b2⟩ := h2.simple (by linarith) (by linarith)
  set B := Bc
  have q1p : 0 ≤ q1 := le_trans (by nlinarith) a1
  have q2p : 0 ≤ q2 := le_trans (by nlinarith) a2
  obtain ⟨l1, u1⟩ := Numeric.expm1_bounds (y := 2 * B * q1) (by positivity) (by nlinarith)
  obtain ⟨l2, u2⟩ := Numeric.expm1_bounds (y := 2 * B * q2) (by positivity) (by nlinarith)
  have sq1 : 0 ≤ (2 * B * q1) ^ 2 := by positivity
  have sq2 : 0 ≤ (2 * B * q2) ^ 2 := by positivity
  constructor
  · have : 39 / 10 * (q2 * (1 + 13 / 25 * (2 * B * q2))) ≤ q1 := by
      have : 13 / 25 * (2 * B * q2) ≤ 1 / 150 := by nlinarith
      nlinarith
    nlinarith
  · have : q1 * (1 + 13 / 25 * (2 * B * q1)) ≤ 411 / 100 * q2 := by
      have : 13 / 25 * (2 * B * q1) ≤ 22 / 1000 := by nlinarith
      nlinarith
    nlinarith

theorem hyper_lo {B s t1 t2 : ℝ} (s0 : 0 < s) (s1 : s ≤ 31 / 200) (C0 : 1384 / 10000 ≤ B)
    (C1 : B ≤ 1387 / 10000) (w1 : s * (343 / 96 - 51 / 100 * s) ≤ t1) (t2p : 0 ≤ t2)
    (v2 : t2 ≤ 343 / 384 * s) :
    39 / 10 * (t2 * (1 + 13 / 25 * (B * t2))) ≤ t1 + B * t1 ^ 2 / 2 := by
  have B0 : 0 ≤ B := by linarith
  have h0 : 349 / 100 * s ≤ t1 := le_trans (by nlinarith) w1
  have t1p : 0 ≤ t1 := le_trans (by positivity) h0
  have x1 : 13 / 25 * (B * t2) ≤ 1 / 100 := by
    have : B * t2 ≤ 1387 / 10000 * (343 / 384 * (31 / 200)) :=
      mul_le_mul C1 (v2.trans (by linarith)) t2p (by norm_num)
    linarith
  have x2 : t1 * (1 + 24 / 100 * s) ≤ t1 + B * t1 ^ 2 / 2 := by
    have h : 1384 / 10000 * (349 / 100 * s) ≤ B * t1 := mul_le_mul C0 h0 (by positivity) B0
    have := mul_le_mul_of_nonneg_left (show 48 / 100 * s ≤ B * t1 by linarith) t1p
    linarith
  have x3 : s * (343 / 96 - 51 / 100 * s) * (1 + 24 / 100 * s) ≤ t1 * (1 + 24 / 100 * s) :=
    mul_le_mul_of_nonneg_right w1 (by positivity)
  have x4 : 343 / 96 * s ≤ s * (343 / 96 - 51 / 100 * s) * (1 + 24 / 100 * s) := by
    have : 0 ≤ s ^ 2 := by positivity
    nlinarith
  have x5 : t2 * (1 + 13 / 25 * (B * t2)) ≤ 343 / 384 * s * (1 + 1 / 100) :=
    mul_le_mul v2 (by linarith) (by positivity) (by positivity)
  linarith

theorem hyper_hi {B s t1 t2 : ℝ} (s0 : 0 < s) (s1 : s ≤ 31 / 200) (C0 : 1384 / 10000 ≤ B)
    (C1 : B ≤ 1387 / 10000) (t1p : 0 ≤ t1) (v1 : t1 ≤ 343 / 96 * s - 26 / 100 * s ^ 2)
    (w2 : s * (343 / 384 - 32 / 1000 * s) ≤ t2) :
    t1 * (1 + 13 / 25 * (B * t1)) ≤ 411 / 100 * (t2 + B * t2 ^ 2 / 2) := by
  have B0 : 0 ≤ B := by linarith
  have p2 : 0 ≤ s ^ 2 := by positivity
  have p3 : 0 ≤ s ^ 3 := by positivity
  have h0 : 888 / 1000 * s ≤ t2 := le_trans (by nlinarith) w2
  have t2p : 0 ≤ t2 := le_trans (by positivity) h0
  have t1u : t1 ≤ 343 / 96 * s := by linarith
  have x1 : 13 / 25 * (B * t1) ≤ 258 / 1000 * s := by
    have : B * t1 ≤ 1387 / 10000 * (343 / 96 * s) := mul_le_mul C1 t1u t1p (by norm_num)
    linarith
  have x2 : t2 * (1 + 122 / 2000 * s) ≤ t2 + B * t2 ^ 2 / 2 := by
    have h : 1384 / 10000 * (888 / 1000 * s) ≤ B * t2 := mul_le_mul C0 h0 (by positivity) B0
    have := mul_le_mul_of_nonneg_left (show 122 / 1000 * s ≤ B * t2 by linarith) t2p
    linarith
  have x3 : t1 * (1 + 13 / 25 * (B * t1)) ≤
      (343 / 96 * s - 26 / 100 * s ^ 2) * (1 + 258 / 1000 * s) :=
    mul_le_mul v1 (by linarith) (by positivity) (t1p.trans v1)
  have x4 : s * (343 / 384 - 32 / 1000 * s) * (1 + 122 / 2000 * s) ≤
      t2 * (1 + 122 / 2000 * s) := mul_le_mul_of_nonneg_right w2 (by positivity)
  have x5 : (343 / 96 * s - 26 / 100 * s ^ 2) * (1 + 258 / 1000 * s) ≤
      411 / 100 * (s * (343 / 384 - 32 / 1000 * s) * (1 + 122 / 2000 * s)) := by
    have y1 : s ^ 2 ≤ 31 / 200 * s := by nlinarith
    have y2 : s ^ 3 ≤ 31 / 200 * s ^ 2 := by nlinarith
    linarith
  linarith

theorem hyper_ratio {s q1 q2 : ℝ} (s0 : 0 < s) (s1 : s ≤ 31 / 200) (h1 : Phase s q1)
    (h2 : Phase (s / 4) q2) :
    39 / 10 * (Real.exp (2 * Bc ^ 2 * (7 * q2 - q2 ^ 2)) - 1) ≤
      Real.exp (2 * Bc ^ 2 * (7 * q1 - q1 ^ 2)) - 1 ∧
    Real.exp (2 * Bc ^ 2 * (7 * q1 - q1 ^ 2)) - 1 ≤
      411 / 100 * (Real.exp (2 * Bc ^ 2 * (7 * q2 - q2 ^ 2)) - 1) := by
  obtain ⟨B0, B1⟩ := Bc_bounds
  obtain ⟨a1, b1⟩ := h1.simple s0 s1
  obtain ⟨a2, b2⟩ := h2.simple (by linarith) (by linarith)
  have C0 : 1384 / 10000 ≤ 2 * Bc ^ 2 := by nlinarith
  have C1 : 2 * Bc ^ 2 ≤ 1387 / 10000 := by nlinarith
  have q1p : 0 ≤ q1 := le_trans (by nlinarith) a1
  have q2p : 0 ≤ q2 := le_trans (by nlinarith) a2
  -- `7 q - q²` in terms of `s`
  have v1 : 7 * q1 - q1 ^ 2 ≤ 343 / 96 * s - 26 / 100 * s ^ 2 := by nlinarith
  have w1 : s * (343 / 96 - 51 / 100 * s) ≤ 7 * q1 - q1 ^ 2 := by nlinarith
  have v2 : 7 * q2 - q2 ^ 2 ≤ 343 / 384 * s := by nlinarith
  have w2 : s * (343 / 384 - 32 / 1000 * s) ≤ 7 * q2 - q2 ^ 2 := by nlinarith
  clear a1 b1 a2 b2 q1p q2p h1 h2 B0 B1
  generalize 7 * q1 - q1 ^ 2 = t1 at *
  generalize 7 * q2 - q2 ^ 2 = t2 at *
  generalize 2 * Bc ^ 2 = B at *
  have t1p : 0 ≤ t1 := le_trans (mul_nonneg s0.le (by linarith)) w1
  have t2p : 0 ≤ t2 := le_trans (mul_nonneg s0.le (by linarith)) w2
  have B0 : 0 ≤ B := by linarith
  have z1 : B * t1 ≤ 1387 / 10000 * (343 / 96 * (31 / 200)) :=
    mul_le_mul C1 (by nlinarith [sq_nonneg s]) t1p (by norm_num)
  have z2 : B * t2 ≤ 1387 / 10000 * (343 / 384 * (31 / 200)) :=
    mul_le_mul C1 (by linarith) t2p (by norm_num)
  obtain ⟨l1, u1⟩ := Numeric.expm1_bounds (y := B * t1) (by positivity) (by linarith)
  obtain ⟨l2, u2⟩ := Numeric.expm1_bounds (y := B * t2) (by positivity) (by linarith)
  constructor
  · have := mul_le_mul_of_nonneg_left (hyper_lo s0 s1 C0 C1 w1 t2p v2) B0
    linarith
  · have := mul_le_mul_of_nonneg_left (hyper_hi s0 s1 C0 C1 t1p v1 w2) B0
    linarith

/-- squared phase of the mode between neighbouring columns, `n` columns -/
def phase2 (n : Int) : ℝ := (2 * Real.pi / n) ^ 2

/-- relative spectral error of the discrete Laplacian, `n` columns -/
def spec (n : Int) : ℝ := 7 / 2 + (2 * Real.cos (2 * Real.pi / n) +
  4 * Real.cos (2 * Real.pi / n / 2) * Real.cos (2 * Real.pi / n) - 6) / phase2 n

theorem phase2_bounds {n : Int} (hn : 16 ≤ n) (hn' : n ≤ 53510) :
    1 / 10 ^ 10 ≤ phase2 n ∧ phase2 n ≤ 31 / 200 := by
  have h1 := Real.pi_gt_d4
  have h2 := Real.pi_lt_d4
  have n0 : (16 : ℝ) ≤ n := by exact_mod_cast hn
  have n1 : (n : ℝ) ≤ 53510 := by exact_mod_cast hn'
  unfold phase2
  rw [div_pow]
  have np : (0 : ℝ) < (n : ℝ) ^ 2 := by positivity
  constructor
  · rw [le_div_iff₀ np]; nlinarith
  · rw [div_le_iff₀ np]; nlinarith

theorem spec_phase {n : Int} (hn : 16 ≤ n) : Phase (phase2 n) (spec n) := by
  have h1 := Real.pi_gt_d4
  have h2 := Real.pi_lt_d4
  have n0 : (16 : ℝ) ≤ n := by exact_mod_cast hn
  have hb := Numeric.lap_bound (a := 2 * Real.pi / n) (by positivity)
    (by rw [div_le_iff₀ (by linarith)]; linarith)
  unfold spec phase2
  have ap : 0 < 2 * Real.pi / (n : ℝ) := by positivity
  set a := 2 * Real.pi / (n : ℝ)
  set S := 2 * Real.cos a + 4 * Real.cos (a / 2) * Real.cos a - 6
  rw [abs_le] at hb
  have e : 7 / 2 + S / a ^ 2 = (7 / 2 * a ^ 2 + S) / a ^ 2 := by field_simp
  rw [e]
  constructor
  · rw [le_div_iff₀ (by positivity)]; linarith [hb.1]
  · rw [div_le_iff₀ (by positivity)]; linarith [hb.2]

theorem lapEig_spec {n : Int} (hn : 16 ≤ n) (hx : p.nx = n) (hy : p.ny = n) :
    lapEig p (10 / n) = -(Bc * (7 / 2 - spec n)) := by
  have n0 : (16 : ℝ) ≤ n := by exact_mod_cast hn
  unfold lapEig spec phase2 Bc
  rw [hx, hy]
  have := Real.pi_pos
  field_simp
  ring

theorem phase2_double (n : Int) : phase2 (2 * n) = phase2 n / 4 := by
  unfold phase2; push_cast; ring

theorem cols_le (hv : RunValid p) {n : Int} (hx : p.nx = n) (hy : p.ny = n) (hn : 16 ≤ n) :
    n ≤ 53510 := by
  have := hv.fits
  rw [hx, hy] at this
  nlinarith

/-- the period of the mesh of the tests -/
theorem test_periods {n : Int} (hn : 16 ≤ n) (hx : p.nx = n) (hy : p.ny = n) :
    periodX p.nx (10 / (n : ℝ)) = 10 ∧ periodY p.ny (10 / (n : ℝ)) = √3 / 2 * 10 := by
  have n0 : (16 : ℝ) ≤ n := by exact_mod_cast hn
  unfold periodX periodY
  rw [hx, hy]
  simp only [lit_real, sqrt_real]
  push_cast
  constructor <;> field_simp

/-! ### The tests -/

/-- `TracerDiffusionTest`, `tracer_diffusion_convergence.cpp:12-28`, with `m_diff2 = 1`, `m_lx = 10` -/
def diffusionTest : TracerTest ℝ where
  h _ _ _ := 1
  tr := diffTr 1 10 (√3 / 2 * 10)
  vx _ _ _ := 0
  vy _ _ _ := 0

/-- `TracerHyperDiffusionTest`, `tracer_hyperdiffusion_convergence.cpp:12-28`, with `m_diff4 = 1`,
`m_lx = 10` -/
def hyperTest : TracerTest ℝ where
  h _ _ _ := 1
  tr := hyperTr 1 10 (√3 / 2 * 10)
  vx _ _ _ := 0
  vy _ _ _ := 0

/-- `m` is a memory after the device work of `run(n)` of the diffusion test. -/
def DiffusionRun (p : MeshParams) (n : Int) (m : Mem ℝ) : Prop :=
  p.nx = n ∧ p.ny = n ∧ p.ntracers = 1 ∧ ∃ prm split m0, prm.disable_h = true ∧
    prm.disable_vn = true ∧ prm.eddy_diff2 = 1 ∧ prm.eddy_diff4 = 0 ∧
    Exec p.dims (tracer_run p (10 / (n : ℝ)) prm
    ⟨defaultKernels p.dims.vl, split⟩ diffusionTest (.lsrk 5) 2
    (driverRun 2 (10 / n * (10 / n) / (4 * 1)))) m0 m

/-- The same for the hyperdiffusion test. Simplification: the number of steps is not limited to the
range of `Int`, which it leaves for more than 1076 columns. -/
def HyperRun (p : MeshParams) (n : Int) (m : Mem ℝ) : Prop :=
  p.nx = n ∧ p.ny = n ∧ p.ntracers = 1 ∧ ∃ prm split m0, prm.disable_h = true ∧
    prm.disable_vn = true ∧ prm.eddy_diff2 = 0 ∧ prm.eddy_diff4 = 1 ∧
    Exec p.dims (tracer_run p (10 / (n : ℝ)) prm
    ⟨defaultKernels p.dims.vl, split⟩ hyperTest (.lsrk 5) 2
    (driverRun 2 ((10 / n) ^ 4 / (8 * 1)))) m0 m

theorem diffusion_error (hv : RunValid p) {n : Int} (hn : 16 ≤ n) (he : n % 2 = 0)
    (h : DiffusionRun p n m) {v : ℝ} (hr : IsTracerError p m v) :
    ∃ E, v = √p.dims.nlayers / 2 * |E| ∧
      |E - Real.exp (-(7 * Bc)) * (Real.exp (2 * Bc * spec n) - 1)| ≤
        Real.exp (-(7 * Bc)) * (Real.exp (2 * Bc * spec n) - 1) / 1000 := by
  obtain ⟨hx, hy, ht, prm, split, m0, dh, dv, k2, k4, hex⟩ := h
  have n0 : (16 : ℝ) ≤ n := by exact_mod_cast hn
  obtain ⟨P1, P2⟩ := test_periods (p := p) hn hx hy
  have hdt : (0 : ℝ) < 10 / n * (10 / n) / (4 * 1) := by positivity
  have key := (C63_tracer_test_error hv ht (by omega) (by omega) (by omega) (by positivity)
    (prm := prm) dh dv (by simp [k2]) (by simp [k4]) (T := diffusionTest) one_ne_zero
    (fun _ _ => rfl) (fun _ _ => rfl) (fun _ _ => rfl)
    (g := fun t => Real.exp (-1 * (4 * Real.pi * Real.pi * (1 / (10 * 10) +
      1 / ((√3 / 2 * 10) * (√3 / 2 * 10)))) * t)) (by simp)
    (fun x y t => by rw [P1, P2]; rfl) (.lsrk 5) two_pos hdt split hex v).1 hr
  obtain ⟨N0, d0, d1, -, -, hT⟩ := C49_driver_steps (timeend := 2) two_pos hdt
  rw [lapEig_spec hn hx hy] at key
  obtain ⟨s0, s1⟩ := phase2_bounds hn (cols_le hv hx hy hn)
  have sp : 0 < phase2 n := lt_of_lt_of_le (by norm_num) s0
  have ph := spec_phase hn
  obtain ⟨q0, q1⟩ := ph.simple sp s1
  obtain ⟨B0, B1⟩ := Bc_bounds
  have eM : -1 * (4 * Real.pi * Real.pi * (1 / (10 * 10) +
      1 / ((√3 / 2 * 10) * (√3 / 2 * 10)))) * 2 = -(7 * Bc) := by
    have : (√3 / 2 * 10) * (√3 / 2 * 10) = (75 : ℝ) := by
      have := Real.mul_self_sqrt (show (0 : ℝ) ≤ 3 by norm_num)
      nlinarith
    rw [this]; unfold Bc; ring
  have es : phase2 n * (n : ℝ) ^ 2 = 4 * Real.pi ^ 2 := by unfold phase2; field_simp; ring
  set N := (numberofsteps 2 (10 / (n : ℝ) * (10 / n) / (4 * 1))).toNat
  set d := adjustedDt 2 (10 / (n : ℝ) * (10 / n) / (4 * 1))
  have q2 : spec n ≤ 8 / 100 := by linarith
  have q3 : phase2 n / 2 ≤ spec n := by nlinarith
  refine ⟨_, key, ?_⟩
  simp only [eM]
  have ez : d * (prm.eddy_diff2 * -(Bc * (7 / 2 - spec n)) -
      prm.eddy_diff4 * (-(Bc * (7 / 2 - spec n))) ^ 2) = -(d * (Bc * (7 / 2 - spec n))) := by
    rw [k2, k4]; ring
  rw [ez]
  refine amp_err s0 s1 ?_ ?_ ?_ (by linarith) (by nlinarith)
  · have e1 : 10 / (n : ℝ) * (10 / n) / (4 * 1) = 25 / (n : ℝ) ^ 2 := by field_simp; ring
    rw [e1] at d1
    have e2 : Bc * (25 / (n : ℝ) ^ 2) = phase2 n / 6 := by
      unfold Bc phase2; field_simp; ring
    have : d * (Bc * (7 / 2 - spec n)) ≤ 25 / (n : ℝ) ^ 2 * (Bc * (7 / 2)) := by
      refine mul_le_mul d1 ?_ (mul_nonneg (by linarith) (by linarith)) (by positivity)
      exact mul_le_mul_of_nonneg_left (by linarith) (by linarith)
    nlinarith
  · have : 0 ≤ d * (Bc * (7 / 2 - spec n)) :=
      mul_nonneg d0.le (mul_nonneg (by linarith) (by linarith))
    linarith
  · rw [show (N : ℝ) * -(d * (Bc * (7 / 2 - spec n))) = -(N * d * (Bc * (7 / 2 - spec n))) by ring, hT]
    ring

theorem spec_facts {s q : ℝ} (h : Phase s q) (s0 : 0 < s) (s1 : s ≤ 31 / 200) :
    q ≤ 8 / 100 ∧ s / 2 ≤ q ∧ 3 * s ≤ 7 * q - q ^ 2 ∧ (7 / 2 - q) ^ 2 ≤ 49 / 4 := by
  obtain ⟨q0, q1⟩ := h.simple s0 s1
  have q2 : q ≤ 8 / 100 := by linarith
  have q3 : s / 2 ≤ q := by nlinarith
  exact ⟨q2, q3, by nlinarith, by nlinarith⟩

theorem hyper_step {n : Int} (n0 : (16 : ℝ) ≤ n) (sp : 0 < phase2 n) (s1 : phase2 n ≤ 31 / 200)
    {d r : ℝ} (d0 : 0 ≤ d) (d1 : d ≤ (10 / (n : ℝ)) ^ 4 / (8 * 1))
    (r0 : 0 ≤ r) (r1 : r ≤ 49 / 4) : -(3 / 5 * phase2 n) ≤ -(d * (Bc ^ 2 * r)) := by
  have e1 : (10 / (n : ℝ)) ^ 4 / (8 * 1) = 1250 / (n : ℝ) ^ 4 := by
    field_simp; norm_num
  rw [e1] at d1
  have e2 : 1250 / (n : ℝ) ^ 4 * (Bc ^ 2 * (49 / 4)) = phase2 n ^ 2 * (49 / 72) := by
    unfold Bc phase2; field_simp; norm_num
  have h : d * (Bc ^ 2 * r) ≤ 1250 / (n : ℝ) ^ 4 * (Bc ^ 2 * (49 / 4)) :=
    mul_le_mul d1 (mul_le_mul_of_nonneg_left r1 (by positivity)) (by positivity) (by positivity)
  rw [e2] at h
  nlinarith

theorem hyper_error (hv : RunValid p) {n : Int} (hn : 16 ≤ n) (he : n % 2 = 0)
    (h : HyperRun p n m) {v : ℝ} (hr : IsTracerError p m v) :
    ∃ E, v = √p.dims.nlayers / 2 * |E| ∧
      |E - Real.exp (-(49 / 2 * Bc ^ 2)) *
          (Real.exp (2 * Bc ^ 2 * (7 * spec n - spec n ^ 2)) - 1)| ≤
        Real.exp (-(49 / 2 * Bc ^ 2)) *
          (Real.exp (2 * Bc ^ 2 * (7 * spec n - spec n ^ 2)) - 1) / 1000 := by
  obtain ⟨hx, hy, ht, prm, split, m0, dh, dv, k2, k4, hex⟩ := h
  have n0 : (16 : ℝ) ≤ n := by exact_mod_cast hn
  obtain ⟨P1, P2⟩ := test_periods (p := p) hn hx hy
  have hdt : (0 : ℝ) < (10 / n) ^ 4 / (8 * 1) := by positivity
  have key := (C63_tracer_test_error hv ht (by omega) (by omega) (by omega) (by positivity)
    (prm := prm) dh dv (by simp [k2]) (by simp [k4]) (T := hyperTest) one_ne_zero
    (fun _ _ => rfl) (fun _ _ => rfl) (fun _ _ => rfl)
    (g := fun t => Real.exp (-1 * (4 * Real.pi * Real.pi * (1 / (10 * 10) +
      1 / ((√3 / 2 * 10) * (√3 / 2 * 10)))) * (4 * Real.pi * Real.pi * (1 / (10 * 10) +
      1 / ((√3 / 2 * 10) * (√3 / 2 * 10)))) * t)) (by simp)
    (fun x y t => by rw [P1, P2]; rfl) (.lsrk 5) two_pos hdt split hex v).1 hr
  obtain ⟨N0, d0, d1, -, -, hT⟩ := C49_driver_steps (timeend := 2) two_pos hdt
  rw [lapEig_spec hn hx hy] at key
  obtain ⟨s0, s1⟩ := phase2_bounds hn (cols_le hv hx hy hn)
  have sp : 0 < phase2 n := lt_of_lt_of_le (by norm_num) s0
  have ph := spec_phase hn
  obtain ⟨q2, q3, r0, r1⟩ := spec_facts ph sp s1
  obtain ⟨B0, B1⟩ := Bc_bounds
  have eM : -1 * (4 * Real.pi * Real.pi * (1 / (10 * 10) +
      1 / ((√3 / 2 * 10) * (√3 / 2 * 10)))) * (4 * Real.pi * Real.pi * (1 / (10 * 10) +
      1 / ((√3 / 2 * 10) * (√3 / 2 * 10)))) * 2 = -(49 / 2 * Bc ^ 2) := by
    have : (√3 / 2 * 10) * (√3 / 2 * 10) = (75 : ℝ) := by
      have := Real.mul_self_sqrt (show (0 : ℝ) ≤ 3 by norm_num)
      nlinarith
    rw [this]; unfold Bc; ring
  have C0 : 692 / 10000 ≤ Bc ^ 2 := by nlinarith
  have C1 : Bc ^ 2 ≤ 694 / 10000 := by nlinarith
  set N := (numberofsteps 2 ((10 / (n : ℝ)) ^ 4 / (8 * 1))).toNat
  set d := adjustedDt 2 ((10 / (n : ℝ)) ^ 4 / (8 * 1))
  refine ⟨_, key, ?_⟩
  simp only [eM]
  have ez : d * (prm.eddy_diff2 * -(Bc * (7 / 2 - spec n)) -
      prm.eddy_diff4 * (-(Bc * (7 / 2 - spec n))) ^ 2) =
      -(d * (Bc ^ 2 * (7 / 2 - spec n) ^ 2)) := by
    rw [k2, k4]; ring
  rw [ez]
  have yl : phase2 n / 5 ≤ 2 * Bc ^ 2 * (7 * spec n - spec n ^ 2) := by
    have := mul_le_mul C0 r0 (by positivity) (by positivity)
    linarith
  refine amp_err s0 s1 ?_ ?_ ?_ (by linarith) yl
  · exact hyper_step n0 sp s1 d0.le d1 (sq_nonneg _) r1
  · have : 0 ≤ d * (Bc ^ 2 * (7 / 2 - spec n) ^ 2) := mul_nonneg d0.le (by positivity)
    linarith
  · rw [show (N : ℝ) * -(d * (Bc ^ 2 * (7 / 2 - spec n) ^ 2)) =
      -(N * d * (Bc ^ 2 * (7 / 2 - spec n) ^ 2)) by ring, hT]
    ring

/-! ### C64 -/

/-- a mesh of the tests with `n` columns -/
def pTest (n : Int) : MeshParams := ⟨n, n, 1, 1, 8⟩

/-- C63, C64: the hypotheses hold for the resolutions of the tests and SIMD vectors of eight; the runs
exist and return a result. -/
example : ∀ n : Int, n = 16 ∨ n = 32 → RunValid (pTest n) ∧ (pTest n).dims.nlayers = 8 ∧
    (∃ m v, DiffusionRun (pTest n) n m ∧ IsTracerError (pTest n) m v) ∧
    ∃ m v, HyperRun (pTest n) n m ∧ IsTracerError (pTest n) m v := by
  intro n hn
  have hv : RunValid (pTest n) := by
    rcases hn with rfl | rfl <;> refine ⟨⟨?_, ?_, ?_, ?_, ?_, ?_⟩, ?_⟩ <;>
      norm_num [pTest, MeshParams.dims, ceilDiv]
  have n0 : (0 : ℝ) < n := by rcases hn with rfl | rfl <;> norm_num
  have hn' : 16 ≤ n := by omega
  have he : n % 2 = 0 := by omega
  have dt1 : (0 : ℝ) < 10 / n * (10 / n) / (4 * 1) := by positivity
  have dt2 : (0 : ℝ) < (10 / n) ^ 4 / (8 * 1) := by positivity
  obtain ⟨P1, P2⟩ := test_periods (p := pTest n) hn' rfl rfl
  refine ⟨hv, by norm_num [pTest, MeshParams.dims, ceilDiv], ?_, ?_⟩
  · obtain ⟨m, hr, -⟩ := tracer_run_runs hv rfl (10 / (n : ℝ)) (prmTr 1 0) diffusionTest (.lsrk 5) 2
      (driverRun 2 (10 / n * (10 / n) / (4 * 1))) ⟨fun _ _ _ => 0, fun _ _ _ _ => 0⟩
    have hex := (hr true).exec
    refine ⟨m, _, ⟨rfl, rfl, rfl, prmTr 1 0, true, _, rfl, rfl, rfl, rfl, hex⟩,
      (C63_tracer_test_error hv rfl (by show 3 ≤ n; omega) (by show 3 ≤ n; omega) he (by positivity)
        (prm := prmTr 1 0) rfl rfl (by simp [prmTr]) (by simp [prmTr]) (T := diffusionTest) one_ne_zero
        (fun _ _ => rfl) (fun _ _ => rfl) (fun _ _ => rfl)
        (g := fun t => Real.exp (-1 * (4 * Real.pi * Real.pi * (1 / (10 * 10) +
          1 / ((√3 / 2 * 10) * (√3 / 2 * 10)))) * t)) (by simp)
        (fun x y t => by rw [P1, P2]; rfl) (.lsrk 5) two_pos dt1 true hex _).2 rfl⟩
  · obtain ⟨m, hr, -⟩ := tracer_run_runs hv rfl (10 / (n : ℝ)) (prmTr 0 1) hyperTest (.lsrk 5) 2
      (driverRun 2 ((10 / n) ^ 4 / (8 * 1))) ⟨fun _ _ _ => 0, fun _ _ _ _ => 0⟩
    have hex := (hr true).exec
    refine ⟨m, _, ⟨rfl, rfl, rfl, prmTr 0 1, true, _, rfl, rfl, rfl, rfl, hex⟩,
      (C63_tracer_test_error hv rfl (by show 3 ≤ n; omega) (by show 3 ≤ n; omega) he (by positivity)
        (prm := prmTr 0 1) rfl rfl (by simp [prmTr]) (by simp [prmTr]) (T := hyperTest) one_ne_zero
        (fun _ _ => rfl) (fun _ _ => rfl) (fun _ _ => rfl)
        (g := fun t => Real.exp (-1 * (4 * Real.pi * Real.pi * (1 / (10 * 10) +
          1 / ((√3 / 2 * 10) * (√3 / 2 * 10)))) * (4 * Real.pi * Real.pi * (1 / (10 * 10) +
          1 / ((√3 / 2 * 10) * (√3 / 2 * 10)))) * t)) (by simp)
        (fun x y t => by rw [P1, P2]; rfl) (.lsrk 5) two_pos dt2 true hex _).2 rfl⟩

theorem rate_scale {c a b : ℝ} (hc : 0 < c) : c * a / (c * b) = a / b := mul_div_mul_left a b hc.ne'

/-- The check of the diffusion test succeeds in exact arithmetic at every resolution of at least 16
columns: whatever the two runs return, the rate is within 0.05 of two. -/
theorem C64_diffusion_rate {p' : MeshParams} {m' : Mem ℝ} (hv : RunValid p) (hv' : RunValid p')
    {n : Int} (hn : 16 ≤ n) (he : n % 2 = 0) (hl : 0 < p.dims.nlayers)
    (hl' : p'.dims.nlayers = p.dims.nlayers) (h : DiffusionRun p n m)
    (h' : DiffusionRun p' (2 * n) m') {v v' : ℝ} (hr : IsTracerError p m v)
    (hr' : IsTracerError p' m' v') : 0 < v' ∧ |Real.logb 2 (v / v') - 2| < 5 / 100 := by
  obtain ⟨E, rfl, hE⟩ := diffusion_error hv hn he h hr
  obtain ⟨E', rfl, hE'⟩ := diffusion_error hv' (by omega) (by omega) h' hr'
  obtain ⟨s0, s1⟩ := phase2_bounds hn (cols_le hv h.1 h.2.1 hn)
  have sp : 0 < phase2 n := lt_of_lt_of_le (by norm_num) s0
  have ph' := spec_phase (n := 2 * n) (by omega)
  rw [phase2_double] at ph'
  obtain ⟨lo, hi⟩ := diff_ratio sp s1 (spec_phase hn) ph'
  obtain ⟨B0, B1⟩ := Bc_bounds
  have g2 : 0 < Real.exp (2 * Bc * spec (2 * n)) - 1 := by
    have := (ph'.simple (by linarith) (by linarith)).1
    have q : 0 < spec (2 * n) := lt_of_lt_of_le (mul_pos (by linarith) (by linarith)) this
    have : (1 : ℝ) < Real.exp (2 * Bc * spec (2 * n)) :=
      Real.one_lt_exp_iff.2 (mul_pos (by linarith) q)
    linarith
  obtain ⟨r1, r2⟩ := rate_of (Real.exp_pos _) g2 hE hE' lo hi
  have sl : 0 < √(p.dims.nlayers : ℝ) / 2 := by
    have : (0 : ℝ) < p.dims.nlayers := by exact_mod_cast hl
    positivity
  rw [hl', rate_scale sl]
  exact ⟨mul_pos sl r1, r2⟩

/-- The same for the hyperdiffusion test. -/
theorem C64_hyperdiffusion_rate {p' : MeshParams} {m' : Mem ℝ} (hv : RunValid p) (hv' : RunValid p')
    {n : Int} (hn : 16 ≤ n) (he : n % 2 = 0) (hl : 0 < p.dims.nlayers)
    (hl' : p'.dims.nlayers = p.dims.nlayers) (h : HyperRun p n m)
    (h' : HyperRun p' (2 * n) m') {v v' : ℝ} (hr : IsTracerError p m v)
    (hr' : IsTracerError p' m' v') : 0 < v' ∧ |Real.logb 2 (v / v') - 2| < 5 / 100 := by
  obtain ⟨E, rfl, hE⟩ := hyper_error hv hn he h hr
  obtain ⟨E', rfl, hE'⟩ := hyper_error hv' (by omega) (by omega) h' hr'
  obtain ⟨s0, s1⟩ := phase2_bounds hn (cols_le hv h.1 h.2.1 hn)
  have sp : 0 < phase2 n := lt_of_lt_of_le (by norm_num) s0
  have ph' := spec_phase (n := 2 * n) (by omega)
  rw [phase2_double] at ph'
  obtain ⟨lo, hi⟩ := hyper_ratio sp s1 (spec_phase hn) ph'
  obtain ⟨B0, B1⟩ := Bc_bounds
  have g2 : 0 < Real.exp (2 * Bc ^ 2 * (7 * spec (2 * n) - spec (2 * n) ^ 2)) - 1 := by
    obtain ⟨k1, k2⟩ := ph'.simple (by linarith) (by linarith)
    have q : 0 < spec (2 * n) := lt_of_lt_of_le (mul_pos (by linarith) (by linarith)) k1
    have q' : 0 < 7 * spec (2 * n) - spec (2 * n) ^ 2 := by nlinarith
    have Bp : 0 < Bc := by linarith
    have : (1 : ℝ) < Real.exp (2 * Bc ^ 2 * (7 * spec (2 * n) - spec (2 * n) ^ 2)) :=
      Real.one_lt_exp_iff.2 (by positivity)
    linarith
  obtain ⟨r1, r2⟩ := rate_of (Real.exp_pos _) g2 hE hE' lo hi
  have sl : 0 < √(p.dims.nlayers : ℝ) / 2 := by
    have : (0 : ℝ) < p.dims.nlayers := by exact_mod_cast hl
    positivity
  rw [hl', rate_scale sl]
  exact ⟨mul_pos sl r1, r2⟩

end Props
end
end Omega
