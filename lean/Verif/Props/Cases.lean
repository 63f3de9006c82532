import Verif.Model.TestCases
import Mathlib.Analysis.SpecialFunctions.Trigonometric.Deriv
import Mathlib.Analysis.SpecialFunctions.ExpDeriv
import Mathlib.Tactic.NormNum.RealSqrt

/-!
# The analytic fields and the step size of the test drivers
-/

set_option linter.unusedVariables false

namespace Omega
noncomputable section
namespace Props

open Model Real

/-! ### Specification: the shallow-water equations -/

/-- right-hand side needed for `h, u, v` to solve the continuity equation -/
def massResidual (h u v : ℝ → ℝ → ℝ → ℝ) (x y t : ℝ) : ℝ :=
  deriv (fun t => h x y t) t + deriv (fun x => h x y t * u x y t) x +
    deriv (fun y => h x y t * v x y t) y
/-- right-hand side needed for the first momentum equation with rotation `f` and gravity `g` -/
def momentumX (f g : ℝ) (h u v : ℝ → ℝ → ℝ → ℝ) (x y t : ℝ) : ℝ :=
  deriv (fun t => u x y t) t + u x y t * deriv (fun x => u x y t) x +
    v x y t * deriv (fun y => u x y t) y - f * v x y t + g * deriv (fun x => h x y t) x
/-- the second momentum equation -/
def momentumY (f g : ℝ) (h u v : ℝ → ℝ → ℝ → ℝ) (x y t : ℝ) : ℝ :=
  deriv (fun t => v x y t) t + u x y t * deriv (fun x => v x y t) x +
    v x y t * deriv (fun y => v x y t) y + f * u x y t + g * deriv (fun y => h x y t) y

/-! ### C47 -/

section
variable (s : Manufactured) (x y t : ℝ)

theorem phi_x : HasDerivAt (fun x => s.kx * x + s.ky * y - s.omega * t) s.kx x := by
  simpa using (((hasDerivAt_id x).const_mul s.kx).add_const (s.ky * y)).sub_const (s.omega * t)
theorem phi_y : HasDerivAt (fun y => s.kx * x + s.ky * y - s.omega * t) s.ky y := by
  simpa using (((hasDerivAt_id y).const_mul s.ky).const_add (s.kx * x)).sub_const (s.omega * t)
theorem phi_t : HasDerivAt (fun t => s.kx * x + s.ky * y - s.omega * t) (-s.omega) t := by
  simpa using ((hasDerivAt_id t).const_mul s.omega).const_sub (s.kx * x + s.ky * y)

/-- The forcing of the manufactured-solution test is the residual of the rotating shallow-water
equations: with it the manufactured fields are an exact solution. -/
theorem C47_forcing_is_residual :
    s.h_tend x y t = massResidual s.h s.vx s.vy x y t ∧
    s.vx_tend x y t = momentumX s.f0 s.grav s.h s.vx s.vy x y t ∧
    s.vy_tend x y t = momentumY s.f0 s.grav s.h s.vx s.vy x y t := by
  have hx := phi_x s x y t
  have hy := phi_y s x y t
  have ht := phi_t s x y t
  have Hh : ∀ {w d : ℝ} {ph : ℝ → ℝ}, HasDerivAt ph d w →
      HasDerivAt (fun w => s.h0 + s.eta0 * sin (ph w)) (s.eta0 * (cos (ph w) * d)) w :=
    fun h => (h.sin.const_mul s.eta0).const_add s.h0
  have Hv : ∀ {w d : ℝ} {ph : ℝ → ℝ}, HasDerivAt ph d w →
      HasDerivAt (fun w => s.eta0 * cos (ph w)) (s.eta0 * (-sin (ph w) * d)) w :=
    fun h => h.cos.const_mul s.eta0
  have s2 : ∀ a : ℝ, sin a ^ 2 = 1 - cos a ^ 2 := fun a => by rw [← sin_sq_add_cos_sq a]; ring
  refine ⟨?_, ?_, ?_⟩
  · simp only [massResidual, Manufactured.h, Manufactured.vx, Manufactured.vy, Manufactured.h_tend]
    rw [(Hh ht).deriv, ((Hh hx).fun_mul (Hv hx)).deriv, ((Hh hy).fun_mul (Hv hy)).deriv, cos_two_mul]
    linear_combination (s.eta0 ^ 2 * (s.kx + s.ky)) * s2 (s.kx * x + s.ky * y - s.omega * t)
  · simp only [momentumX, Manufactured.h, Manufactured.vx, Manufactured.vy, Manufactured.vx_tend]
    rw [(Hh hx).deriv, (Hv hx).deriv, (Hv hy).deriv, (Hv ht).deriv, sin_two_mul]
    ring
  · simp only [momentumY, Manufactured.h, Manufactured.vx, Manufactured.vy, Manufactured.vy_tend]
    rw [(Hh hy).deriv, (Hv hx).deriv, (Hv hy).deriv, (Hv ht).deriv, sin_two_mul]
    ring

end

/-- the fields of the test vary -/
example : Manufactured.default.h 0 0 0 = 1000 ∧ Manufactured.default.vx 0 0 0 = 1 := by
  simp [Manufactured.default, Manufactured.h, Manufactured.vx]

/-! ### C48 -/

/-- derivative of one of the two vortices along one coordinate -/
theorem vortex_deriv {L σ c b w : ℝ} (hL : L ≠ 0) (hσ : σ ≠ 0) :
    HasDerivAt (fun w => exp (-(1 / 2) * (L / (π * σ) * sin (π / L * (w - c)) *
        (L / (π * σ) * sin (π / L * (w - c))) + b)))
      (-(1 / σ) * (L / (2 * π * σ) * sin (2 * π / L * (w - c))) *
        exp (-(1 / 2) * (L / (π * σ) * sin (π / L * (w - c)) *
        (L / (π * σ) * sin (π / L * (w - c))) + b))) w := by
  have h1 : HasDerivAt (fun w => π / L * (w - c)) (π / L) w := by
    simpa using ((hasDerivAt_id w).sub_const c).const_mul (π / L)
  have h2 := h1.sin.const_mul (L / (π * σ))
  have h3 := (((h2.fun_mul h2).add_const b).const_mul (-(1 / 2))).exp
  refine h3.congr_deriv ?_
  rw [show 2 * π / L * (w - c) = 2 * (π / L * (w - c)) by ring, sin_two_mul]
  have hπ := pi_ne_zero
  field_simp
  ring

/-- The initial velocity of the double vortex is the geostrophic velocity of its thickness: the
Coriolis force balances the pressure force at every point. -/
theorem C48_geostrophic (s : DoubleVortex) (hf : s.coriolis ≠ 0) (hlx : s.lx ≠ 0) (hly : s.ly ≠ 0)
    (hsx : s.sigmax ≠ 0) (hsy : s.sigmay ≠ 0) (x y : ℝ) :
    s.coriolis * s.vy x y = s.g * deriv (fun x => s.h x y) x ∧
    s.coriolis * s.vx x y = -(s.g * deriv (fun y => s.h x y) y) := by
  constructor
  · have h1 := vortex_deriv (c := s.xc1) (w := x) (b := s.ly / (π * s.sigmay) *
      sin (π / s.ly * (y - s.yc1)) * (s.ly / (π * s.sigmay) * sin (π / s.ly * (y - s.yc1)))) hlx hsx
    have h2 := vortex_deriv (c := s.xc2) (w := x) (b := s.ly / (π * s.sigmay) *
      sin (π / s.ly * (y - s.yc2)) * (s.ly / (π * s.sigmay) * sin (π / s.ly * (y - s.yc2)))) hlx hsx
    have h3 := (((h1.fun_add h2).sub_const (4 * π * s.sigmax * s.sigmay / s.lx / s.ly)).const_mul
      s.dh).const_sub s.h0
    have e : (fun x => s.h x y) = _ := rfl
    simp only [DoubleVortex.h]
    rw [h3.deriv]
    simp only [DoubleVortex.vy]
    field_simp
    ring
  · have h1 := vortex_deriv (c := s.yc1) (w := y) (b := s.lx / (π * s.sigmax) *
      sin (π / s.lx * (x - s.xc1)) * (s.lx / (π * s.sigmax) * sin (π / s.lx * (x - s.xc1)))) hly hsy
    have h2 := vortex_deriv (c := s.yc2) (w := y) (b := s.lx / (π * s.sigmax) *
      sin (π / s.lx * (x - s.xc2)) * (s.lx / (π * s.sigmax) * sin (π / s.lx * (x - s.xc2)))) hly hsy
    have h3 := (((h1.fun_add h2).sub_const (4 * π * s.sigmax * s.sigmay / s.lx / s.ly)).const_mul
      s.dh).const_sub s.h0
    have e : (fun y => s.h x y) = fun y => s.h0 - s.dh * (exp (-(1 / 2) *
        (s.ly / (π * s.sigmay) * sin (π / s.ly * (y - s.yc1)) *
          (s.ly / (π * s.sigmay) * sin (π / s.ly * (y - s.yc1))) +
        s.lx / (π * s.sigmax) * sin (π / s.lx * (x - s.xc1)) *
          (s.lx / (π * s.sigmax) * sin (π / s.lx * (x - s.xc1))))) +
        exp (-(1 / 2) *
        (s.ly / (π * s.sigmay) * sin (π / s.ly * (y - s.yc2)) *
          (s.ly / (π * s.sigmay) * sin (π / s.ly * (y - s.yc2))) +
        s.lx / (π * s.sigmax) * sin (π / s.lx * (x - s.xc2)) *
          (s.lx / (π * s.sigmax) * sin (π / s.lx * (x - s.xc2))))) -
        4 * π * s.sigmax * s.sigmay / s.lx / s.ly) := by
      funext y
      simp only [DoubleVortex.h]
      rw [add_comm (s.lx / (π * s.sigmax) * sin (π / s.lx * (x - s.xc1)) * _),
        add_comm (s.lx / (π * s.sigmax) * sin (π / s.lx * (x - s.xc2)) * _)]
    rw [e, h3.deriv]
    simp only [DoubleVortex.vx]
    rw [add_comm (s.lx / (π * s.sigmax) * sin (π / s.lx * (x - s.xc1)) * _),
        add_comm (s.lx / (π * s.sigmax) * sin (π / s.lx * (x - s.xc2)) * _)]
    field_simp
    ring

example : DoubleVortex.default.coriolis ≠ 0 ∧ DoubleVortex.default.lx ≠ 0 ∧
    DoubleVortex.default.ly ≠ 0 ∧ DoubleVortex.default.sigmax ≠ 0 ∧
    DoubleVortex.default.sigmay ≠ 0 := by
  norm_num [DoubleVortex.default]

/-- The default run of the double-vortex test (`nx = 25`, `double_vortex.cpp:183`) has 29 rows of cells,
an odd number, and its meridional period is not the length of the vortex field. -/
theorem C48_default_rows : DoubleVortex.default.rows 25 = 29 ∧
    (periodY 29 (DoubleVortex.default.dc 25) : ℝ) ≠ DoubleVortex.default.ly := by
  have h3 : √3 * √3 = 3 := Real.mul_self_sqrt (by norm_num)
  have h0 : 0 < √3 := Real.sqrt_pos.mpr (by norm_num)
  have hdc : DoubleVortex.default.dc 25 = 200000 := by
    norm_num [DoubleVortex.default, DoubleVortex.dc]
  have hly : DoubleVortex.default.ly = 5000000 := rfl
  constructor
  · unfold DoubleVortex.rows
    rw [hdc, hly, Int.ceil_eq_iff]
    push_cast
    constructor
    · rw [lt_div_iff₀ (by positivity)]; nlinarith
    · rw [div_le_iff₀ (by positivity)]; nlinarith
  · rw [hdc, hly]
    simp only [periodY, lit_real, sqrt_real]
    push_cast
    intro h
    nlinarith

/-! ### C49 -/

/-- The drivers take a positive number of steps of one size not above the requested one; the steps
follow each other from time zero to exactly the end time. -/
theorem C49_driver_steps {timeend dt : ℝ} (hT : 0 < timeend) (hdt : 0 < dt) :
    let n := (numberofsteps timeend dt).toNat
    let dt' := adjustedDt timeend dt
    0 < n ∧ 0 < dt' ∧ dt' ≤ dt ∧ (driverRun timeend dt).length = n ∧
    (∀ k (hk : k < n), (driverRun timeend dt)[k]? = some (k * dt', dt')) ∧
    (n : ℝ) * dt' = timeend := by
  intro n dt'
  have hpos : 0 < numberofsteps timeend dt := Int.ceil_pos.mpr (div_pos hT hdt)
  have hn : ((n : ℕ) : ℤ) = numberofsteps timeend dt := Int.toNat_of_nonneg hpos.le
  have hnr : (n : ℝ) = ((numberofsteps timeend dt : ℤ) : ℝ) := by rw [← hn]; simp
  have hr : (0 : ℝ) < ((numberofsteps timeend dt : ℤ) : ℝ) := by exact_mod_cast hpos
  refine ⟨by omega, div_pos hT hr, ?_, by simp [driverRun, driverSched, n], ?_, ?_⟩
  · show timeend / _ ≤ dt
    rw [div_le_iff₀ hr, ← div_le_iff₀' hdt]
    exact Int.le_ceil _
  · intro k hk
    show ((List.range n).map _)[k]? = _
    rw [List.getElem?_map, List.getElem?_range hk]
    simp [lit_real, dt']
  · rw [hnr]; show _ * (timeend / _) = _
    field_simp

example : (0:ℝ) < 36000 ∧ (0:ℝ) < 3 * 200 := by norm_num

/-! ### C59 -/

/-- Laplacian of a function of two variables -/
def lap2 (q : ℝ → ℝ → ℝ) (x y : ℝ) : ℝ :=
  deriv (fun x => deriv (fun x => q x y) x) x + deriv (fun y => deriv (fun y => q x y) y) y

/-- The reference solutions of the tracer tests solve the equations: transport of the tracer content by
the constant velocity (1, 1) whatever the thickness, diffusion and hyperdiffusion with thickness one. -/
theorem C59_tracer_references {lx ly : ℝ} (hlx : lx ≠ 0) (hly : ly ≠ 0) (κ x y t : ℝ) :
    (deriv (fun t => advTr lx ly x y t) t + deriv (fun x => advTr lx ly x y t * 1) x +
      deriv (fun y => advTr lx ly x y t * 1) y = 0) ∧
    (deriv (fun t => diffTr κ lx ly x y t) t = κ * lap2 (fun x y => diffTr κ lx ly x y t) x y) ∧
    (deriv (fun t => hyperTr κ lx ly x y t) t =
      -(κ * lap2 (lap2 fun x y => hyperTr κ lx ly x y t) x y)) := by
  have S : ∀ (a b w : ℝ), HasDerivAt (fun w => sin (a * w + b)) (a * cos (a * w + b)) w := by
    intro a b w
    have := (((hasDerivAt_id w).const_mul a).add_const b).sin
    refine this.congr_deriv ?_
    simp; ring
  have C : ∀ (a b w : ℝ), HasDerivAt (fun w => cos (a * w + b)) (-(a * sin (a * w + b))) w := by
    intro a b w
    have := (((hasDerivAt_id w).const_mul a).add_const b).cos
    refine this.congr_deriv ?_
    simp; ring
  -- second derivatives of a product of a sine and a constant
  have S2 : ∀ (a c : ℝ), deriv (fun w => deriv (fun w => sin (a * w) * c) w) = fun w =>
      -(a ^ 2 * (sin (a * w) * c)) := by
    intro a c
    have e1 : (fun w => deriv (fun w => sin (a * w) * c) w) = fun w => a * cos (a * w) * c := by
      funext w
      have := (S a 0 w).mul_const c
      simp only [add_zero] at this
      exact this.deriv
    rw [e1]
    funext w
    have := ((C a 0 w).const_mul a).mul_const c
    simp only [add_zero] at this
    rw [this.deriv]; ring
  have lapE : ∀ (c : ℝ), lap2 (fun x y => sin (2 * π * x / lx) * sin (2 * π * y / ly) * c) =
      fun x y => sin (2 * π * x / lx) * sin (2 * π * y / ly) *
        (-(4 * π * π * (1 / (lx * lx) + 1 / (ly * ly))) * c) := by
    intro c
    funext x y
    unfold lap2
    have e1 : (fun x => deriv (fun x => sin (2 * π * x / lx) * sin (2 * π * y / ly) * c) x) =
        fun x => deriv (fun x => sin (2 * π / lx * x) * (sin (2 * π * y / ly) * c)) x := by
      funext x; congr 1; funext w
      rw [show 2 * π * w / lx = 2 * π / lx * w by ring]; ring
    have e2 : (fun y => deriv (fun y => sin (2 * π * x / lx) * sin (2 * π * y / ly) * c) y) =
        fun y => deriv (fun y => sin (2 * π / ly * y) * (sin (2 * π * x / lx) * c)) y := by
      funext y; congr 1; funext w
      rw [show 2 * π * w / ly = 2 * π / ly * w by ring]; ring
    rw [e1, e2, S2, S2, show 2 * π * x / lx = 2 * π / lx * x by ring,
      show 2 * π * y / ly = 2 * π / ly * y by ring]
    field_simp
    ring
  have Ex : ∀ (a b : ℝ) (t : ℝ), HasDerivAt (fun t => b * exp (a * t)) (b * (a * exp (a * t))) t := by
    intro a b t
    have := (((hasDerivAt_id t).const_mul a).exp).const_mul b
    refine this.congr_deriv ?_
    simp only [id, mul_one]; ring
  refine ⟨?_, ?_, ?_⟩
  · have X := (S (2 * π / lx) (-(2 * π / lx * t)) x).mul_const (sin (2 * π * (y - t) / ly))
    have Y := (S (2 * π / ly) (-(2 * π / ly * t)) y).const_mul (sin (2 * π * (x - t) / lx))
    have T := (S (-(2 * π / lx)) (2 * π / lx * x) t).fun_mul (S (-(2 * π / ly)) (2 * π / ly * y) t)
    have eT : (fun t => advTr lx ly x y t) = fun t => sin (-(2 * π / lx) * t + 2 * π / lx * x) *
        sin (-(2 * π / ly) * t + 2 * π / ly * y) := by
      funext t; unfold advTr; congr 2 <;> ring
    have eX : (fun x => advTr lx ly x y t * 1) = fun x => sin (2 * π / lx * x + -(2 * π / lx * t)) *
        sin (2 * π * (y - t) / ly) := by
      funext x; unfold advTr; rw [mul_one]; congr 2; ring
    have eY : (fun y => advTr lx ly x y t * 1) = fun y => sin (2 * π * (x - t) / lx) *
        sin (2 * π / ly * y + -(2 * π / ly * t)) := by
      funext y; unfold advTr; rw [mul_one]; congr 2; ring
    rw [eT, eX, eY, T.deriv, X.deriv, Y.deriv,
      show -(2 * π / lx) * t + 2 * π / lx * x = 2 * π / lx * x + -(2 * π / lx * t) by ring,
      show -(2 * π / ly) * t + 2 * π / ly * y = 2 * π / ly * y + -(2 * π / ly * t) by ring,
      show 2 * π * (y - t) / ly = 2 * π / ly * y + -(2 * π / ly * t) by ring,
      show 2 * π * (x - t) / lx = 2 * π / lx * x + -(2 * π / lx * t) by ring]
    ring
  · have e : (fun x y => diffTr κ lx ly x y t) = fun x y => sin (2 * π * x / lx) *
        sin (2 * π * y / ly) * exp (-κ * (4 * π * π * (1 / (lx * lx) + 1 / (ly * ly))) * t) := rfl
    rw [e, lapE]
    have h := Ex (-κ * (4 * π * π * (1 / (lx * lx) + 1 / (ly * ly))))
      (sin (2 * π * x / lx) * sin (2 * π * y / ly)) t
    refine Eq.trans h.deriv ?_
    ring
  · have e : (fun x y => hyperTr κ lx ly x y t) = fun x y => sin (2 * π * x / lx) *
        sin (2 * π * y / ly) * exp (-κ * (4 * π * π * (1 / (lx * lx) + 1 / (ly * ly))) *
          (4 * π * π * (1 / (lx * lx) + 1 / (ly * ly))) * t) := rfl
    rw [e, lapE, lapE]
    have h := Ex (-κ * (4 * π * π * (1 / (lx * lx) + 1 / (ly * ly))) *
      (4 * π * π * (1 / (lx * lx) + 1 / (ly * ly)))) (sin (2 * π * x / lx) * sin (2 * π * y / ly)) t
    refine Eq.trans h.deriv ?_
    ring

example : (10:ℝ) ≠ 0 ∧ √3 / 2 * 10 ≠ 0 := ⟨by norm_num, by positivity⟩

end Props
end
end Omega
