import Verif.Props.RestStability
import Verif.Props.Cases

/-!
# C78: the step sizes of the double vortex test, the benchmark and the manufactured solution test

The steps chosen by these programs satisfy the Courant condition of `C78_rest_stable` at every
resolution.
-/

set_option linter.unusedVariables false
set_option linter.unusedSectionVars false

namespace Omega
noncomputable section

namespace Props

open Prog Model Refine Hex

theorem driver_step {T dt : ℝ} (hT : 0 < T) (hdt : 0 < dt) {q : ℝ × ℝ} (hq : q ∈ driverRun T dt) :
    0 ≤ q.2 ∧ q.2 ≤ dt := by
  obtain ⟨-, h1, h2, -⟩ := C49_driver_steps hT hdt
  have : q.2 = adjustedDt T dt := by
    simp only [driverRun, driverSched, List.mem_map] at hq
    obtain ⟨a, -, rfl⟩ := hq
    rfl
  rw [this]
  exact ⟨h1.le, h2⟩

theorem inv_sqrt3 : 2 / √3 ≤ (11548 : ℝ) / 10000 := by
  have : (17320 : ℝ) / 10000 ≤ √3 := Real.le_sqrt_of_sq_le (by norm_num)
  rw [div_le_div_iff₀ (by positivity) (by norm_num)]
  linarith

/-- The steps of `double_vortex.cpp` for every Courant number up to one half (the default is 0.1) and every
number of columns from two on, of `benchmark.cpp` (which takes steps of the requested size), and of
`nonlinear_swe_convergence.cpp` at every resolution from two on, satisfy the Courant condition of
`C78_rest_stable` for the layer thickness at rest. -/
theorem C78_test_steps {T : ℝ} (hT : 0 < T) :
    (∀ (nx : Int) (cfl : ℝ), 2 ≤ nx → 0 < cfl → cfl ≤ 1 / 2 →
      let s := DoubleVortex.default
      let dt := cfl * s.dc nx / √(s.g * s.h0)
      ∀ q, q ∈ driverRun T dt ∨ q.2 = dt → 0 ≤ q.2 ∧
        q.2 * (√((if s.rows nx % 2 = 0 then 6 else 8) * (s.g * s.h0)) / s.dc nx +
          2 / √3 * |s.coriolis|) ≤ 5 / 2) ∧
    ∀ n : Int, 2 ≤ n →
      let s := Manufactured.default
      let dc := s.lx / n
      ∀ q ∈ driverRun T (3 * dc / 1000), 0 ≤ q.2 ∧
        q.2 * (√((if n % 2 = 0 then 6 else 8) * (s.grav * s.h0)) / dc + 2 / √3 * |s.f0|) ≤ 5 / 2 := by
  have i3 := inv_sqrt3
  constructor
  · intro nx cfl hnx c0 c1 s dt q hq
    have n2 : (2 : ℝ) ≤ nx := by exact_mod_cast hnx
    have d0 : 0 < s.dc nx := by
      show (0 : ℝ) < 5000000 / nx
      positivity
    have d1 : s.dc nx ≤ 2500000 := by
      show (5000000 : ℝ) / nx ≤ _
      rw [div_le_iff₀ (by linarith)]
      linarith
    set σ : ℝ := √(s.g * s.h0) with hσ
    have σ1 : (8575 : ℝ) / 100 ≤ σ := Real.le_sqrt_of_sq_le (by
      show (8575 / 100 : ℝ) ^ 2 ≤ 980616 / 100000 * 750
      norm_num)
    have σ0 : 0 < σ := by linarith
    have t0 : 0 < dt := div_pos (mul_pos c0 d0) σ0
    have q2 : 0 ≤ q.2 ∧ q.2 ≤ dt := by
      rcases hq with hq | hq
      · exact driver_step hT t0 hq
      · exact ⟨hq ▸ t0.le, hq.le⟩
    refine ⟨q2.1, ?_⟩
    have r : √((if s.rows nx % 2 = 0 then 6 else 8) * (s.g * s.h0)) ≤ 28285 / 10000 * σ := by
      have : ((if s.rows nx % 2 = 0 then 6 else 8) : ℝ) ≤ (28285 / 10000) ^ 2 := by split_ifs <;> norm_num
      rw [hσ, Real.sqrt_mul (by split_ifs <;> norm_num)]
      refine mul_le_mul_of_nonneg_right ?_ (Real.sqrt_nonneg _)
      exact Real.sqrt_le_iff.2 ⟨by norm_num, this⟩
    have f : |s.coriolis| = 6147 / 100000000 := by
      show |(6147 / 100000000 : ℝ)| = _
      rw [abs_of_pos (by norm_num)]
    have b : √((if s.rows nx % 2 = 0 then 6 else 8) * (s.g * s.h0)) / s.dc nx + 2 / √3 * |s.coriolis| ≤
        28285 / 10000 * σ / s.dc nx + 11548 / 10000 * (6147 / 100000000) := by
      rw [f]
      exact add_le_add (div_le_div_of_nonneg_right r d0.le)
        (mul_le_mul_of_nonneg_right i3 (by norm_num))
    refine (mul_le_mul q2.2 b (by positivity) t0.le).trans ?_
    have e : dt * (28285 / 10000 * σ / s.dc nx + 11548 / 10000 * (6147 / 100000000)) =
        cfl * (28285 / 10000 + 11548 / 10000 * (6147 / 100000000) * (s.dc nx / σ)) := by
      show cfl * s.dc nx / σ * _ = _
      field_simp
    have w : s.dc nx / σ ≤ 29155 := by
      rw [div_le_iff₀ σ0]
      linarith
    rw [e]
    have : 28285 / 10000 + 11548 / 10000 * (6147 / 100000000) * (s.dc nx / σ) ≤ 5 := by linarith
    nlinarith
  · intro n hn s dc q hq
    have n2 : (2 : ℝ) ≤ n := by exact_mod_cast hn
    have d0 : 0 < dc := by
      show (0 : ℝ) < 10000 * 1000 / n
      positivity
    have q2 := driver_step hT (by positivity) hq
    refine ⟨q2.1, ?_⟩
    have f : |s.f0| = 1 / 10000 := by
      show |(1 / 10000 : ℝ)| = _
      rw [abs_of_pos (by norm_num)]
    have gh : s.grav * s.h0 = 980616 / 100 := by
      show (980616 / 100000 * 1000 : ℝ) = _
      norm_num
    rw [f, gh]
    have t0 : 0 < 3 * dc / 1000 := by positivity
    have main : ∀ R : ℝ, √((if n % 2 = 0 then 6 else 8) * (980616 / 100)) ≤ R →
        3 * R / 1000 + 3 / 1000 * (11548 / 10000 * (1 / 10000)) * dc ≤ 5 / 2 →
        q.2 * (√((if n % 2 = 0 then 6 else 8) * (980616 / 100)) / dc + 2 / √3 * (1 / 10000)) ≤ 5 / 2 := by
      intro R hR h
      have b : √((if n % 2 = 0 then 6 else 8) * (980616 / 100)) / dc + 2 / √3 * (1 / 10000) ≤
          R / dc + 11548 / 10000 * (1 / 10000) :=
        add_le_add (div_le_div_of_nonneg_right hR d0.le) (mul_le_mul_of_nonneg_right i3 (by norm_num))
      refine (mul_le_mul q2.2 b (by positivity) t0.le).trans (le_trans (le_of_eq ?_) h)
      field_simp
    by_cases ev : n % 2 = 0
    · refine main (2426 / 10) ?_ ?_
      · rw [if_pos ev]
        exact Real.sqrt_le_iff.2 ⟨by norm_num, by norm_num⟩
      · have : dc ≤ 5000000 := by
          show (10000 * 1000 : ℝ) / n ≤ _
          rw [div_le_iff₀ (by linarith)]
          linarith
        linarith
    · have n3 : (3 : ℝ) ≤ n := by exact_mod_cast (show (3 : Int) ≤ n by omega)
      refine main (2801 / 10) ?_ ?_
      · rw [if_neg ev]
        exact Real.sqrt_le_iff.2 ⟨by norm_num, by norm_num⟩
      · have : dc ≤ 10000000 / 3 := by
          show (10000 * 1000 : ℝ) / n ≤ _
          rw [div_le_iff₀ (by linarith)]
          linarith
        linarith

/-- the default run of the double vortex test: 25 columns, Courant number 0.1, 200 000 seconds -/
example : ∀ q ∈ driverRun 200000 (1 / 10 * DoubleVortex.default.dc 25 /
      √(DoubleVortex.default.g * DoubleVortex.default.h0)),
    0 ≤ q.2 ∧ q.2 * (√((if DoubleVortex.default.rows 25 % 2 = 0 then 6 else 8) *
      (DoubleVortex.default.g * DoubleVortex.default.h0)) / DoubleVortex.default.dc 25 +
        2 / √3 * |DoubleVortex.default.coriolis|) ≤ 5 / 2 :=
  fun q hq => (C78_test_steps (by norm_num)).1 25 (1 / 10) (by norm_num) (by norm_num) (by norm_num) q (.inl hq)

end Props
end
end Omega
