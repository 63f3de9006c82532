import Verif.Props.Consistency
import Verif.Props.Cases
import Verif.Props.Stepping

/-!
# C72: the manufactured solution satisfies the discrete equations to second order

`test/nonlinear_swe_convergence.cpp` expects the error of a forced run to fall with the square of the
spacing.  C47 says the forcing makes the manufactured fields an exact solution of the differential
equations; with C71 it follows that the fields sampled on a mesh satisfy the equations that the program
integrates up to a truncation error of that order.
-/

set_option linter.unusedVariables false
set_option linter.unusedSectionVars false

namespace Omega
noncomputable section
namespace Props

open Prog Model Refine Hex Taylor Jets

/-! ### Plane waves -/

/-- phase of a plane wave, as a linear map -/
def phase (a b : ℝ) : ℝ × ℝ →L[ℝ] ℝ :=
  a • ContinuousLinearMap.fst ℝ ℝ ℝ + b • ContinuousLinearMap.snd ℝ ℝ ℝ

theorem phase_apply (a b : ℝ) (z : ℝ × ℝ) : phase a b z = a * z.1 + b * z.2 := by
  simp [phase]

theorem phase_norm (a b : ℝ) : ‖phase a b‖ ≤ |a| + |b| := by
  refine ContinuousLinearMap.opNorm_le_bound _ (by positivity) fun z => ?_
  rw [phase_apply, Real.norm_eq_abs]
  have h1 : |z.1| ≤ ‖z‖ := norm_fst_le z
  have h2 : |z.2| ≤ ‖z‖ := norm_snd_le z
  calc |a * z.1 + b * z.2| ≤ |a| * |z.1| + |b| * |z.2| := by
        rw [← abs_mul, ← abs_mul]; exact abs_add_le _ _
    _ ≤ |a| * ‖z‖ + |b| * ‖z‖ := by gcongr
    _ = _ := by ring

/-- a function of the phase of a plane wave is as smooth as its profile -/
theorem bounded_plane {f : ℝ → ℝ} (hf : ∀ n : ℕ, ContDiff ℝ n f) (h1 : ∀ n x, |iteratedDeriv n f x| ≤ 1)
    (hp : ∀ x (n : ℤ), f (x + n * (2 * Real.pi)) = f x) {n : ℕ} {P Q a b A : ℝ} (c : ℝ)
    (ha : |a| ≤ A) (hb : |b| ≤ A) {k l : ℤ} (hP : a * P = k * (2 * Real.pi)) (hQ : b * Q = l * (2 * Real.pi)) :
    Bounded n P Q ((1 + 2 * A) ^ n) (fun z => f (a * z.1 + b * z.2 - c)) := by
  have A0 : 0 ≤ A := (abs_nonneg _).trans ha
  have e : (fun z : ℝ × ℝ => f (a * z.1 + b * z.2 - c)) = (fun w => f (w - c)) ∘ phase a b := by
    funext z; simp [phase_apply]
  have hs : ∀ n : ℕ, ContDiff ℝ n (fun w => f (w - c)) := fun n =>
    (hf n).comp (contDiff_id.sub contDiff_const)
  refine ⟨?_, ⟨fun x y => ?_, fun x y => ?_⟩, fun i hi z => ?_⟩
  · rw [e]; exact (hs n).comp (phase a b).contDiff
  · have : a * (x + P) + b * y - c = a * x + b * y - c + k * (2 * Real.pi) := by rw [← hP]; ring
    simp only [this, hp]
  · have : a * x + b * (y + Q) - c = a * x + b * y - c + l * (2 * Real.pi) := by rw [← hQ]; ring
    simp only [this, hp]
  · rw [e, ContinuousLinearMap.iteratedFDeriv_comp_right _ (hs i) _ le_rfl]
    refine (ContinuousMultilinearMap.norm_compContinuousLinearMap_le _ _).trans ?_
    rw [iteratedFDeriv_comp_sub, norm_iteratedFDeriv_eq_norm_iteratedDeriv, Finset.prod_const,
      Finset.card_univ, Fintype.card_fin, Real.norm_eq_abs]
    calc _ ≤ 1 * (1 + 2 * A) ^ i := by
          refine mul_le_mul (h1 _ _) (pow_le_pow_left₀ (norm_nonneg _) ?_ _) (by positivity) zero_le_one
          have := phase_norm a b
          linarith
      _ = (1 + 2 * A) ^ i := one_mul _
      _ ≤ _ := pow_le_pow_right₀ (by linarith) hi

theorem Bounded.affine {n : ℕ} {P Q B : ℝ} {φ : ℝ × ℝ → ℝ} (h : Bounded n P Q B φ) {c d C : ℝ}
    (hc : |c| ≤ C) (hd : |d| ≤ C) : Bounded n P Q (C * (1 + B)) (fun z => d + c * φ z) := by
  have B0 := h.nonneg
  have C0 : 0 ≤ C := (abs_nonneg _).trans hc
  have h1 : ContDiff ℝ n (fun z => c * φ z) := contDiff_const.mul h.smooth
  refine ⟨contDiff_const.add h1, ⟨fun x y => ?_, fun x y => ?_⟩, fun k hk z => ?_⟩
  · simp only [h.per.1 x y]
  · simp only [h.per.2 x y]
  · have hk' : (k : WithTop ℕ∞) ≤ n := by exact_mod_cast hk
    have e : iteratedFDeriv ℝ k (fun z => d + c * φ z) z =
        iteratedFDeriv ℝ k (fun _ : ℝ × ℝ => d) z + c • iteratedFDeriv ℝ k φ z := by
      rw [show (fun z => d + c * φ z) = (fun _ : ℝ × ℝ => d) + (c • φ) from rfl,
        iteratedFDeriv_add_apply (contDiff_const.contDiffAt)
          (show ContDiffAt ℝ k (c • φ) z from (h1.of_le hk').contDiffAt),
        iteratedFDeriv_const_smul_apply (h.smooth.of_le hk').contDiffAt]
    rw [e]
    have b1 : ‖iteratedFDeriv ℝ k (fun _ : ℝ × ℝ => d) z‖ ≤ C := by
      rcases Nat.eq_zero_or_pos k with rfl | hk0
      · rw [norm_iteratedFDeriv_zero]; exact hd
      · rw [iteratedFDeriv_const_of_ne (by omega)]; simpa using C0
    calc _ ≤ ‖iteratedFDeriv ℝ k (fun _ : ℝ × ℝ => d) z‖ + ‖c • iteratedFDeriv ℝ k φ z‖ := norm_add_le _ _
      _ ≤ C + C * B := by
        refine add_le_add b1 ?_
        rw [norm_smul]
        exact mul_le_mul hc (h.bound k hk z) (norm_nonneg _) C0
      _ = _ := by ring

/-! ### The manufactured fields -/

section
variable (s : Manufactured) (t : ℝ)

/-- thickness of the manufactured solution at a given time -/
def manH (z : ℝ × ℝ) : ℝ := s.h z.1 z.2 t
/-- first velocity component -/
def manU (z : ℝ × ℝ) : ℝ := s.vx z.1 z.2 t
/-- second velocity component -/
def manW (z : ℝ × ℝ) : ℝ := s.vy z.1 z.2 t

theorem man_bounded {P Q A : ℝ} (hx : |s.kx| ≤ A) (hy : |s.ky| ≤ A) {C : ℝ} (he : |s.eta0| ≤ C) (hh : |s.h0| ≤ C)
    {k l : ℤ} (hP : s.kx * P = k * (2 * Real.pi)) (hQ : s.ky * Q = l * (2 * Real.pi)) :
    Bounded 3 P Q (C * (1 + (1 + 2 * A) ^ 3)) (manH s t) ∧
    Bounded 3 P Q (C * (1 + (1 + 2 * A) ^ 3)) (manU s t) ∧
    Bounded 3 P Q (C * (1 + (1 + 2 * A) ^ 3)) (manW s t) := by
  have C0 : 0 ≤ C := (abs_nonneg _).trans he
  have b1 := bounded_plane (n := 3) (P := P) (Q := Q) (f := Real.sin) (fun n => Real.contDiff_sin)
    Real.abs_iteratedDeriv_sin_le_one (fun x n => Real.sin_add_int_mul_two_pi x n) (s.omega * t) hx hy hP hQ
  have b2 := bounded_plane (n := 3) (P := P) (Q := Q) (f := Real.cos) (fun n => Real.contDiff_cos)
    Real.abs_iteratedDeriv_cos_le_one (fun x n => Real.cos_add_int_mul_two_pi x n) (s.omega * t) hx hy hP hQ
  have u := b2.affine (d := 0) he (by simpa using C0)
  have e : (fun z : ℝ × ℝ => 0 + s.eta0 * Real.cos (s.kx * z.1 + s.ky * z.2 - s.omega * t)) = manU s t := by
    funext z; simp only [manU, Manufactured.vx, zero_add]
  rw [e] at u
  exact ⟨b1.affine he hh, u, u⟩

theorem man_dH (z v : ℝ × ℝ) : fderiv ℝ (manH s t) z v =
    s.eta0 * (Real.cos (s.kx * z.1 + s.ky * z.2 - s.omega * t) * (s.kx * v.1 + s.ky * v.2)) := by
  have h : HasFDerivAt (fun z : ℝ × ℝ => s.kx * z.1 + s.ky * z.2 - s.omega * t) (phase s.kx s.ky) z := by
    have := ((phase s.kx s.ky).hasFDerivAt (x := z)).sub_const (s.omega * t)
    simpa [phase_apply] using this
  have := (h.sin.const_mul s.eta0).const_add s.h0
  rw [show manH s t = fun z : ℝ × ℝ => s.h0 + s.eta0 * Real.sin (s.kx * z.1 + s.ky * z.2 - s.omega * t) from rfl,
    this.fderiv]
  simp [phase_apply]

theorem man_dU (z v : ℝ × ℝ) : fderiv ℝ (manU s t) z v =
    s.eta0 * (-Real.sin (s.kx * z.1 + s.ky * z.2 - s.omega * t) * (s.kx * v.1 + s.ky * v.2)) := by
  have h : HasFDerivAt (fun z : ℝ × ℝ => s.kx * z.1 + s.ky * z.2 - s.omega * t) (phase s.kx s.ky) z := by
    have := ((phase s.kx s.ky).hasFDerivAt (x := z)).sub_const (s.omega * t)
    simpa [phase_apply] using this
  have := h.cos.const_mul s.eta0
  rw [show manU s t = fun z : ℝ × ℝ => s.eta0 * Real.cos (s.kx * z.1 + s.ky * z.2 - s.omega * t) from rfl,
    this.fderiv]
  simp [phase_apply]

theorem man_diff : Differentiable ℝ (manH s t) ∧ Differentiable ℝ (manU s t) := by
  unfold manH manU Manufactured.h Manufactured.vx
  constructor <;> fun_prop

theorem man_eq (z : ℝ × ℝ) :
    rhsH (manH s t) (manU s t) (manW s t) z + s.h_tend z.1 z.2 t = deriv (fun t => s.h z.1 z.2 t) t ∧
    rhsU s.grav s.f0 (manH s t) (manU s t) (manW s t) z + s.vx_tend z.1 z.2 t =
      deriv (fun t => s.vx z.1 z.2 t) t ∧
    rhsW s.grav s.f0 (manH s t) (manU s t) (manW s t) z + s.vy_tend z.1 z.2 t =
      deriv (fun t => s.vy z.1 z.2 t) t := by
  obtain ⟨dH, dU⟩ := man_diff s t
  have eW : manW s t = manU s t := rfl
  have h1 := phi_t s z.1 z.2 t
  have d1 : deriv (fun t => s.h z.1 z.2 t) t = _ := ((h1.sin.const_mul s.eta0).const_add s.h0).deriv
  have d2 : deriv (fun t => s.vx z.1 z.2 t) t = _ := (h1.cos.const_mul s.eta0).deriv
  have d3 : deriv (fun t => s.vy z.1 z.2 t) t = _ := (h1.cos.const_mul s.eta0).deriv
  have hB : ∀ v, fderiv ℝ (bern s.grav (manH s t) (manU s t) (manW s t)) z v =
      2 * manU s t z * fderiv ℝ (manU s t) z v + s.grav * fderiv ℝ (manH s t) z v := fun v => by
    have hu := (dU z).hasFDerivAt
    have := ((((hu.pow 2).add (hu.pow 2)).const_mul (1 / 2)).add ((dH z).hasFDerivAt.const_mul s.grav)).fderiv
    rw [show bern s.grav (manH s t) (manU s t) (manW s t) = fun z =>
      1 / 2 * (manU s t z ^ 2 + manU s t z ^ 2) + s.grav * manH s t z from by
        funext z; simp only [bern, eW]; ring]
    refine (congrArg (fun F => F v) this).trans ?_
    simp
    ring
  refine ⟨?_, ?_, ?_⟩
  · rw [d1]
    unfold rhsH divAt
    rw [eW, fderiv_fun_mul (dH z) (dU z)]
    simp only [_root_.add_apply, _root_.smul_apply, smul_eq_mul, man_dH, man_dU]
    simp only [manH, manU, Manufactured.h, Manufactured.vx, Manufactured.h_tend, Real.cos_two_mul']
    ring
  · rw [d2]
    unfold rhsU curlAt
    rw [hB, eW, man_dH, man_dU, man_dU]
    simp only [manU, Manufactured.vx, Manufactured.vx_tend, Real.sin_two_mul]
    ring
  · rw [d3]
    unfold rhsW curlAt
    rw [hB, eW, man_dH, man_dU, man_dU]
    simp only [manU, Manufactured.vx, Manufactured.vy_tend, Real.sin_two_mul]
    ring

end

/-! ### C72 -/

/-- For given gravity, rotation and bounds there is a constant such that, for every manufactured solution
within the bounds, every mesh on which it is periodic and every time, the tendency that the forced model of
the test computes for the exact solution sampled on the mesh is within that constant times the squared
spacing of the exact time derivative, at every cell and every edge (normal component). -/
theorem C72_manufactured_consistent (g f0 D A C : ℝ) {η : ℝ} (hη : 0 < η) :
    ∃ K : ℝ, ∀ (s : Manufactured) (p : MeshParams) (dc : ℝ) (m m1 : Mem ℝ) (split : Bool)
        (tn st : StateId) (t : ℝ) (a b k : Int),
      s.grav = g → s.f0 = f0 → |s.kx| ≤ A → |s.ky| ≤ A → |s.eta0| ≤ C → |s.h0| ≤ C → η + |s.eta0| ≤ s.h0 →
      RunValid p → 2 ≤ p.nx → p.ny % 2 = 0 → 0 < dc → dc ≤ D →
      s.kx * periodX p.nx dc = a * (2 * Real.pi) → s.ky * periodY p.ny dc = b * (2 * Real.pi) →
      Ready p dc s.params m → st ≠ tn → 0 ≤ k → k < p.dims.nlayers →
      (∀ c, 0 ≤ c → c < p.dims.ncells →
        m.real (.h_cell st) 0 c k = s.h (m.real .x_cell 0 c 0) (m.real .y_cell 0 c 0) t) →
      (∀ e, 0 ≤ e → e < p.dims.nedges → m.real (.vn_edge st) 0 e k =
        Real.cos (m.real .angle_edge 0 e 0) * s.vx (m.real .x_edge 0 e 0) (m.real .y_edge 0 e 0) t +
        Real.sin (m.real .angle_edge 0 e 0) * s.vy (m.real .x_edge 0 e 0) (m.real .y_edge 0 e 0) t) →
      Exec p.dims (compute_tendency p.dims ⟨defaultKernels p.dims.vl, split⟩ (s.model p.dims)
        .replace tn st t) m m1 →
      (∀ c, 0 ≤ c → c < p.dims.ncells →
        |m1.real (.h_cell tn) 0 c k -
          deriv (fun t => s.h (m.real .x_cell 0 c 0) (m.real .y_cell 0 c 0) t) t| ≤ K * dc ^ 2) ∧
      (∀ e, 0 ≤ e → e < p.dims.nedges → |m1.real (.vn_edge tn) 0 e k -
          (Real.cos (m.real .angle_edge 0 e 0) *
              deriv (fun t => s.vx (m.real .x_edge 0 e 0) (m.real .y_edge 0 e 0) t) t +
            Real.sin (m.real .angle_edge 0 e 0) *
              deriv (fun t => s.vy (m.real .x_edge 0 e 0) (m.real .y_edge 0 e 0) t) t)| ≤ K * dc ^ 2) := by
  obtain ⟨K, hK⟩ := C71_tendency_consistent D (C * (1 + (1 + 2 * A) ^ 3)) hη
    (prm := ⟨f0, g, 0, 0, 0, 0, false, false⟩) le_rfl le_rfl le_rfl rfl rfl
  refine ⟨K, ?_⟩
  intro s p dc m m1 split tn st t a b k hg hf hx hy he hh hpos hv hnx hny hdc hD hP hQ hr hne hk0 hk1 sh su ex
  subst hg hf
  obtain ⟨bH, bU, bW⟩ := man_bounded s t hx hy he hh hP hQ
  obtain ⟨hd, hc⟩ := ready_ok hv hr
  obtain ⟨m2, ex2, -⟩ :=
    ((C40_safe_deterministic hd hc (noHook_ofParams s.params) split).1 .replace tn st t hne).2
  have pos : ∀ z, η ≤ manH s t z := fun z => by
    have h1 : |s.eta0 * Real.sin (s.kx * z.1 + s.ky * z.2 - s.omega * t)| ≤ |s.eta0| := by
      rw [abs_mul]
      exact mul_le_of_le_one_right (abs_nonneg _) (Real.abs_sin_le_one _)
    have h2 := (abs_le.1 h1).1
    show η ≤ s.h0 + s.eta0 * Real.sin (s.kx * z.1 + s.ky * z.2 - s.omega * t)
    linarith
  have su' : ∀ e, 0 ≤ e → e < p.dims.nedges → m.real (.vn_edge st) 0 e k = normalOf m (manU s t) (manW s t) e :=
    fun e h0 h1 => by rw [su e h0 h1]; rfl
  obtain ⟨t1, t2, -⟩ := hK p dc m m2 split tn st t k (manH s t) (manU s t) (manW s t) hv hnx hny hdc hD bH bU bW pos
    hr hne hk0 hk1 (fun c h0 h1 => sh c h0 h1) su' ex2
  obtain ⟨f1, f2, -⟩ := C38_forcing_added_once hd hc (noHook_ofParams s.params) s.h_tend s.vx_tend s.vy_tend split
    .replace hne t ex ex2
  refine ⟨fun c h0 h1 => ?_, fun e h0 h1 => ?_⟩
  · have := (man_eq s t (cellAt m c)).1
    rw [show m1.real (.h_cell tn) 0 c k = _ from f1 c k h0 h1 hk0 hk1]
    have e : (m2.fld tn).h c k + s.h_tend (m.real .x_cell 0 c 0) (m.real .y_cell 0 c 0) t -
        deriv (fun t => s.h (m.real .x_cell 0 c 0) (m.real .y_cell 0 c 0) t) t =
        m2.real (.h_cell tn) 0 c k - rhsH (manH s t) (manU s t) (manW s t) (cellAt m c) := by
      rw [show deriv (fun t => s.h (m.real .x_cell 0 c 0) (m.real .y_cell 0 c 0) t) t = _ from this.symm]
      show m2.real (.h_cell tn) 0 c k + s.h_tend (m.real .x_cell 0 c 0) (m.real .y_cell 0 c 0) t -
        (_ + s.h_tend (m.real .x_cell 0 c 0) (m.real .y_cell 0 c 0) t) = _
      ring
    rw [e]
    exact t1 c h0 h1
  · obtain ⟨-, q1, q2⟩ := man_eq s t (edgeAt m e)
    rw [show m1.real (.vn_edge tn) 0 e k = _ from f2 e k h0 h1 hk0 hk1]
    have ee : (m2.fld tn).vn e k + (Scalar.cos (m.real .angle_edge 0 e 0) *
            s.vx_tend (m.real .x_edge 0 e 0) (m.real .y_edge 0 e 0) t +
          Scalar.sin (m.real .angle_edge 0 e 0) *
            s.vy_tend (m.real .x_edge 0 e 0) (m.real .y_edge 0 e 0) t) -
        (Real.cos (m.real .angle_edge 0 e 0) *
              deriv (fun t => s.vx (m.real .x_edge 0 e 0) (m.real .y_edge 0 e 0) t) t +
            Real.sin (m.real .angle_edge 0 e 0) *
              deriv (fun t => s.vy (m.real .x_edge 0 e 0) (m.real .y_edge 0 e 0) t) t) =
        m2.real (.vn_edge tn) 0 e k - normalOf m (rhsU s.grav s.f0 (manH s t) (manU s t) (manW s t))
          (rhsW s.grav s.f0 (manH s t) (manU s t) (manW s t)) e := by
      rw [show deriv (fun t => s.vx (m.real .x_edge 0 e 0) (m.real .y_edge 0 e 0) t) t = _ from q1.symm,
        show deriv (fun t => s.vy (m.real .x_edge 0 e 0) (m.real .y_edge 0 e 0) t) t = _ from q2.symm]
      show m2.real (.vn_edge tn) 0 e k + (Real.cos (m.real .angle_edge 0 e 0) *
            s.vx_tend (m.real .x_edge 0 e 0) (m.real .y_edge 0 e 0) t +
          Real.sin (m.real .angle_edge 0 e 0) *
            s.vy_tend (m.real .x_edge 0 e 0) (m.real .y_edge 0 e 0) t) -
        (Real.cos (m.real .angle_edge 0 e 0) * (_ + s.vx_tend (m.real .x_edge 0 e 0) (m.real .y_edge 0 e 0) t) +
         Real.sin (m.real .angle_edge 0 e 0) * (_ + s.vy_tend (m.real .x_edge 0 e 0) (m.real .y_edge 0 e 0) t)) =
        m2.real (.vn_edge tn) 0 e k - (Real.cos (m.real .angle_edge 0 e 0) * _ + Real.sin (m.real .angle_edge 0 e 0) * _)
      ring
    rw [ee]
    exact t2 e h0 h1

/-- The solution of the test on the meshes of the test: its parameters are within the bounds, it is
periodic on the `n` by `n` mesh with spacing `lx / n`, and the memory and execution exist. -/
example : ∀ n : Int, n = 50 ∨ n = 100 → ∀ t : ℝ, ∃ (s : Manufactured) (m m1 : Mem ℝ) (a b : Int),
    s = Manufactured.default ∧ 1 + |s.eta0| ≤ s.h0 ∧ RunValid (⟨n, n, 1, 0, 8⟩ : MeshParams) ∧
    0 < s.lx / n ∧ s.kx * periodX n (s.lx / n) = a * (2 * Real.pi) ∧
    s.ky * periodY n (s.lx / n) = b * (2 * Real.pi) ∧ Ready ⟨n, n, 1, 0, 8⟩ (s.lx / n) s.params m ∧
    (∀ c, 0 ≤ c → c < n * n →
      m.real (.h_cell .state) 0 c 0 = s.h (m.real .x_cell 0 c 0) (m.real .y_cell 0 c 0) t) ∧
    (∀ e, 0 ≤ e → e < 3 * (n * n) → m.real (.vn_edge .state) 0 e 0 =
      Real.cos (m.real .angle_edge 0 e 0) * s.vx (m.real .x_edge 0 e 0) (m.real .y_edge 0 e 0) t +
      Real.sin (m.real .angle_edge 0 e 0) * s.vy (m.real .x_edge 0 e 0) (m.real .y_edge 0 e 0) t) ∧
    Exec (⟨n, n, 1, 0, 8⟩ : MeshParams).dims (compute_tendency (⟨n, n, 1, 0, 8⟩ : MeshParams).dims
      ⟨defaultKernels 8, false⟩ (s.model (⟨n, n, 1, 0, 8⟩ : MeshParams).dims) .replace .tend .state t) m m1 := by
  intro n hn t
  have hv : RunValid (⟨n, n, 1, 0, 8⟩ : MeshParams) := by
    rcases hn with rfl | rfl <;> refine ⟨⟨?_, ?_, ?_, ?_, ?_, ?_⟩, ?_⟩ <;>
      norm_num [MeshParams.dims, ceilDiv]
  have n0 : (0 : ℝ) < n := by rcases hn with rfl | rfl <;> norm_num
  obtain ⟨m, m2, hr, h1, h2, -, -⟩ := exists_sampled hv (Manufactured.default.lx / n) Manufactured.default.params
    false t (manH .default t) (manU .default t) (manW .default t) (fun _ => 0)
  obtain ⟨hd, hc⟩ := ready_ok hv hr
  obtain ⟨m1, r, -⟩ := compute_tendency_runs (genSetup hd hc (hookOK_forced (⟨n, n, 1, 0, 8⟩ : MeshParams).dims
    (SWModel.ofParams Manufactured.default.params) Manufactured.default.h_tend Manufactured.default.vx_tend
    Manufactured.default.vy_tend m)) .replace (tn := .tend) (st := .state) (by decide) t
  refine ⟨.default, m, m1, 2, 2, rfl, ?_, hv, ?_, ?_, ?_, hr, fun c => h1 c 0, fun e => h2 e 0, (r false).exec⟩
  · norm_num [Manufactured.default]
  · simp only [Manufactured.default]; positivity
  · simp only [Manufactured.default, periodX, lit_real]; push_cast; field_simp
  · simp only [Manufactured.default, periodY, lit_real, sqrt_real]; push_cast; field_simp

end Props
end
end Omega
