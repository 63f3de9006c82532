import Verif.Props.TracerStability
import Verif.Props.Operators
import Verif.Lib.Lax
import Mathlib.Analysis.InnerProductSpace.PiL2
import Mathlib.Algebra.Order.Chebyshev

/-!
# The advective tracer tendency as an operator

Weighted by the inverse thickness the advective tendency is skew up to the divergence of the mass flux,
and its norm is bounded by the Courant number.  This file has no property of its own; it serves the
convergence of tracer advection.
-/

set_option linter.unusedVariables false
set_option linter.unusedSectionVars false

namespace Omega
noncomputable section

namespace Hex

theorem sum_across {nx ny : Int} (hnx : 1 ≤ nx) (j : Int) (G : Int → ℝ) :
    ∑ c ∈ upto (nx * ny), G (across nx ny c j) = ∑ c ∈ upto (nx * ny), G c := by
  unfold across
  split_ifs
  · exact sum_inv hnx _ G
  · exact sum_nb hnx _ G

end Hex

namespace Props

open Prog Model Refine Hex Polynomial
open scoped RealInnerProductSpace

/-! ### The stability polynomial as an operator -/

theorem aeval_stab {V : Type*} [AddCommGroup V] [Module ℝ V] {q : ℝ[X]} {c1 c2 c3 c4 c5 : ℝ}
    (h : ∀ z : ℝ, q.eval z = 1 + c1 * z + c2 * z ^ 2 + c3 * z ^ 3 + c4 * z ^ 4 + c5 * z ^ 5)
    (z : Module.End ℝ V) (x : V) : aeval z q x = Lax.stab c1 c2 c3 c4 c5 z x := by
  have e : q = 1 + C c1 * X + C c2 * X ^ 2 + C c3 * X ^ 3 + C c4 * X ^ 4 + C c5 * X ^ 5 := by
    refine Polynomial.funext fun y => ?_
    rw [h]; simp
  rw [e]
  simp only [map_add, map_mul, map_one, aeval_C, aeval_X, map_pow, LinearMap.add_apply, Lax.stab]
  simp only [pow_succ, pow_zero, one_mul, Module.End.mul_apply,
    Module.End.one_apply, Module.algebraMap_end_apply]

/-- the two fourth-order steppers of the code -/
def FourthOrder (stp : Stepper) : Prop := stp = .rk4 ∨ stp = .lsrk 5

/-- how far the coefficients of a stepper are from those of a method of order four: the tabulated
coefficients of the low-storage stepper are rounded -/
def defect : Stepper → ℝ
  | .rk4 => 0
  | .lsrk _ => 1 / 10 ^ 20

theorem defect_nonneg (stp : Stepper) : 0 ≤ defect stp := by cases stp <;> simp [defect]

theorem fourth_order {stp : Stepper} (h : FourthOrder stp) : ∃ c1 c2 c3 c4 c5 : ℝ,
    Lax.Coefs (defect stp) c1 c2 c3 c4 c5 ∧ ∀ {V : Type} [AddCommGroup V] [Module ℝ V] (z : Module.End ℝ V) (x : V),
      aeval z (stabPoly stp) x = Lax.stab c1 c2 c3 c4 c5 z x := by
  rcases h with rfl | rfl
  · refine ⟨1, 1 / 2, 1 / 6, 1 / 24, 0, ⟨defect_nonneg _, by norm_num [defect], by norm_num [defect], by norm_num [defect],
      by norm_num [defect], by norm_num [defect], by rw [abs_le]; norm_num [defect]⟩, fun z x => aeval_stab (fun y => ?_) z x⟩
    rw [rk4_eval]; ring
  · obtain ⟨c1, c2, c3, c4, c5, h1, h2, h3, h4, h5, he⟩ := lsrk5_eval
    refine ⟨c1, c2, c3, c4, c5, ⟨defect_nonneg _, le_rfl, h1, h2, h3, h4, ?_⟩, fun z x => aeval_stab he z x⟩
    rw [abs_le] at h5 ⊢
    unfold defect
    constructor <;> linarith [h5.1, h5.2]

/-! ### The weighted norm -/

variable {p : MeshParams} {dc : ℝ} {m : Mem ℝ}

/-- cell values divided by the root of the thickness -/
def scaled (d : Dims) (x : Int → ℝ) : (Int → ℝ) →ₗ[ℝ] EuclideanSpace ℝ (Spec.cells d) where
  toFun f := WithLp.toLp 2 fun c => f c / √(x c)
  map_add' f g := by ext c; simp [add_div]
  map_smul' a f := by ext c; simp [mul_div_assoc]

theorem inner_scaled (d : Dims) {x : Int → ℝ} (hx : ∀ c ∈ Spec.cells d, 0 < x c) (f g : Int → ℝ) :
    ⟪scaled d x f, scaled d x g⟫ = ∑ c ∈ Spec.cells d, f c * g c / x c := by
  rw [PiLp.inner_apply, ← Finset.sum_coe_sort (Spec.cells d) fun c => f c * g c / x c]
  refine Finset.sum_congr rfl fun c _ => ?_
  have h := hx c c.2
  have s := Real.mul_self_sqrt h.le
  have s0 := (Real.sqrt_pos.2 h).ne'
  simp only [scaled, LinearMap.coe_mk, AddHom.coe_mk, RCLike.inner_apply, conj_trivial]
  rw [← s]
  field_simp
  rw [Real.sqrt_sq (Real.sqrt_nonneg _)]

theorem norm_scaled (d : Dims) (x : Int → ℝ) (f : Int → ℝ) :
    ‖scaled d x f‖ ^ 2 = ∑ c ∈ Spec.cells d, (f c / √(x c)) ^ 2 := by
  rw [EuclideanSpace.norm_sq_eq, ← Finset.sum_coe_sort (Spec.cells d) fun c => (f c / √(x c)) ^ 2]
  refine Finset.sum_congr rfl fun c _ => ?_
  simp only [scaled, LinearMap.coe_mk, AddHom.coe_mk, Real.norm_eq_abs, sq_abs]

theorem scaled_congr (d : Dims) (x : Int → ℝ) {f g : Int → ℝ} (h : ∀ c ∈ Spec.cells d, f c = g c) :
    scaled d x f = scaled d x g := by
  ext c
  simp [scaled, h c c.2]

/-- a bound at every cell -/
theorem scaled_le (d : Dims) {x : Int → ℝ} {η : ℝ} (hη : 0 < η) (hx : ∀ c ∈ Spec.cells d, η ≤ x c)
    {f : Int → ℝ} {M : ℝ} (M0 : 0 ≤ M) (hf : ∀ c ∈ Spec.cells d, |f c| ≤ M) :
    ‖scaled d x f‖ ≤ M / √η * √((Spec.cells d).card) := by
  refine le_of_sq_le_sq ?_ (by positivity) |>.trans_eq' rfl
  rw [norm_scaled, mul_pow, Real.sq_sqrt (Nat.cast_nonneg _), mul_comm, ← nsmul_eq_mul]
  refine Finset.sum_le_card_nsmul _ _ _ fun c hc => ?_
  rw [div_pow, div_pow, Real.sq_sqrt (hη.le.trans (hx c hc)), Real.sq_sqrt hη.le, ← sq_abs]
  have := hx c hc
  have := hf c hc
  gcongr

/-- back to the plain mean square -/
theorem le_scaled (d : Dims) {x : Int → ℝ} {B : ℝ} (hx : ∀ c ∈ Spec.cells d, 0 < x c ∧ x c ≤ B)
    (f : Int → ℝ) : ∑ c ∈ Spec.cells d, f c ^ 2 ≤ B * ‖scaled d x f‖ ^ 2 := by
  rw [norm_scaled, Finset.mul_sum]
  refine Finset.sum_le_sum fun c hc => ?_
  obtain ⟨h0, h1⟩ := hx c hc
  rw [div_pow, Real.sq_sqrt h0.le, mul_div_assoc', le_div_iff₀ h0, mul_comm]
  exact mul_le_mul_of_nonneg_right h1 (sq_nonneg _)

/-! ### The operator -/

/-- advection only -/
structure AdvOnly (sw : SWModel ℝ) : Prop where
  adv : sw.en_thadv = true
  diff : sw.en_tdiff = false
  hyper : sw.en_thyper = false

theorem trOp_adv {sw : SWModel ℝ} (hsw : AdvOnly sw) (x u f : Int → ℝ) (c : Int) :
    trOp m sw x u f c =
      -Spec.div m (fun e => Spec.mean m x e * Spec.mean m (fun i => f i / x i) e * u e) c := by
  show Spec.tracerTend m sw x u f c = _
  simp [Spec.tracerTend, hsw.adv, hsw.diff, hsw.hyper]

variable (h : Geo2 p.nx p.ny p.dims.nlayers dc m.mesh) {sw : SWModel ℝ} (hsw : AdvOnly sw)
  {x u : Int → ℝ} (hx : ∀ c ∈ Spec.cells p.dims, 0 < x c)
include h hsw hx

/-- skew up to the divergence of the mass flux -/
theorem trOp_skew (f g : Int → ℝ) :
    ⟪scaled p.dims x (trOp m sw x u f), scaled p.dims x g⟫ +
      ⟪scaled p.dims x f, scaled p.dims x (trOp m sw x u g)⟫ =
    -∑ c ∈ Spec.cells p.dims, (f c / x c) * (g c / x c) *
      Spec.div m (fun e => Spec.mean m x e * u e) c := by
  have hdc := h.dc_pos
  have w0 := w_pos
  rw [inner_scaled _ hx, inner_scaled _ hx, ← Finset.sum_add_distrib]
  set a : Int → ℝ := fun i => f i / x i with ha
  set b : Int → ℝ := fun i => g i / x i with hb
  have A1 := adjoint h b (fun e => Spec.mean m x e * Spec.mean m a e * u e)
  have A2 := adjoint h a (fun e => Spec.mean m x e * Spec.mean m b e * u e)
  have A3 := adjoint h (fun c => a c * b c) (fun e => Spec.mean m x e * u e)
  have key : ∑ e ∈ Spec.edges p.dims, Spec.dcE m e * Spec.dvE m e *
        (Spec.mean m x e * Spec.mean m a e * u e * Spec.grad m b e) +
      ∑ e ∈ Spec.edges p.dims, Spec.dcE m e * Spec.dvE m e *
        (Spec.mean m x e * Spec.mean m b e * u e * Spec.grad m a e) =
      ∑ e ∈ Spec.edges p.dims, Spec.dcE m e * Spec.dvE m e *
        (Spec.mean m x e * u e * Spec.grad m (fun c => a c * b c) e) := by
    rw [← Finset.sum_add_distrib]
    refine Finset.sum_congr rfl fun e _ => ?_
    have : Spec.mean m a e * Spec.grad m b e + Spec.mean m b e * Spec.grad m a e =
        Spec.grad m (fun c => a c * b c) e := by
      unfold Spec.mean Spec.grad; ring
    rw [← this]; ring
  have area : ∀ F : Int → ℝ, ∑ c ∈ Spec.cells p.dims, Spec.areaC m c * F c =
      dc * dc * √3 / 2 * ∑ c ∈ Spec.cells p.dims, F c := fun F => by
    rw [Finset.mul_sum]
    exact Finset.sum_congr rfl fun c hc => by rw [spec_areaC h.toGeo (mem_cells.mp hc)]
  rw [area] at A1 A2 A3
  have s3 : (0 : ℝ) < dc * dc * √3 / 2 := by positivity
  refine mul_left_cancel₀ s3.ne' ?_
  have e : ∑ c ∈ Spec.cells p.dims, (trOp m sw x u f c * g c / x c + f c * trOp m sw x u g c / x c) =
      -(∑ c ∈ Spec.cells p.dims, b c * Spec.div m (fun e => Spec.mean m x e * Spec.mean m a e * u e) c) -
        ∑ c ∈ Spec.cells p.dims, a c * Spec.div m (fun e => Spec.mean m x e * Spec.mean m b e * u e) c := by
    rw [← Finset.sum_neg_distrib, ← Finset.sum_sub_distrib]
    refine Finset.sum_congr rfl fun c hc => ?_
    rw [trOp_adv hsw, trOp_adv hsw, hb, ha]; ring
  rw [e]
  have e3 : ∑ c ∈ Spec.cells p.dims, f c / x c * (g c / x c) * Spec.div m (fun e => Spec.mean m x e * u e) c =
      ∑ c ∈ Spec.cells p.dims, a c * b c * Spec.div m (fun e => Spec.mean m x e * u e) c := rfl
  rw [e3]
  linear_combination -A1 - A2 + A3 + key

theorem trOp_skew_le {Δ : ℝ} (Δ0 : 0 ≤ Δ) (hΔ : ∀ c ∈ Spec.cells p.dims,
      |Spec.div m (fun e => Spec.mean m x e * u e) c| ≤ Δ * x c) {dt : ℝ} (t0 : 0 ≤ dt) (f g : Int → ℝ) :
    |⟪scaled p.dims x ((dt • trOp m sw x u) f), scaled p.dims x g⟫ +
      ⟪scaled p.dims x f, scaled p.dims x ((dt • trOp m sw x u) g)⟫| ≤
    dt * Δ * (‖scaled p.dims x f‖ * ‖scaled p.dims x g‖) := by
  rw [LinearMap.smul_apply, LinearMap.smul_apply, map_smul, map_smul, real_inner_smul_left,
    real_inner_smul_right, ← mul_add, trOp_skew h hsw hx, abs_mul, abs_of_nonneg t0, mul_assoc, abs_neg]
  refine mul_le_mul_of_nonneg_left ?_ t0
  have cs : ∑ c ∈ Spec.cells p.dims, |f c / √(x c)| * |g c / √(x c)| ≤
      ‖scaled p.dims x f‖ * ‖scaled p.dims x g‖ := by
    refine (Real.sum_mul_le_sqrt_mul_sqrt _ _ _).trans_eq ?_
    simp only [sq_abs]
    rw [← norm_scaled, ← norm_scaled, Real.sqrt_sq (norm_nonneg _), Real.sqrt_sq (norm_nonneg _)]
  refine (Finset.abs_sum_le_sum_abs _ _).trans ((le_trans ?_ (mul_le_mul_of_nonneg_left cs Δ0)))
  rw [Finset.mul_sum]
  refine Finset.sum_le_sum fun c hc => ?_
  have x0 := hx c hc
  have s := Real.sqrt_pos.2 x0
  have ss := Real.sq_sqrt x0.le
  rw [abs_mul, abs_mul, abs_div, abs_div, abs_div, abs_div, abs_of_pos x0, abs_of_pos s]
  calc |f c| / x c * (|g c| / x c) * |Spec.div m (fun e => Spec.mean m x e * u e) c| ≤
      |f c| / x c * (|g c| / x c) * (Δ * x c) := mul_le_mul_of_nonneg_left (hΔ c hc) (by positivity)
    _ = Δ * (|f c| / √(x c) * (|g c| / √(x c))) := by
      rw [div_mul_div_comm, div_mul_div_comm, ← sq (√(x c)), ss]
      field_simp

/-- neighbours and divergence -/
theorem trOp_parts (f : Int → ℝ) {c : Int} (hc : IsCell p.nx p.ny c) :
    trOp m sw x u f c = -(1 / (3 * dc)) * ∑ j ∈ Finset.range 6, (if j < 3 then -1 else 1) *
        (Mn p.nx p.ny x (E p.nx p.ny c j) * u (E p.nx p.ny c j)) *
          (f (across p.nx p.ny c j) / x (across p.nx p.ny c j)) -
      1 / 2 * (f c / x c) * Spec.div m (fun e => Spec.mean m x e * u e) c := by
  have hdc := h.dc_pos
  rw [trOp_adv hsw, spec_div h _ hc, spec_div h _ hc,
    Dv_congr h.hnx (u' := fun e => Mn p.nx p.ny x e * Mn p.nx p.ny (fun i => f i / x i) e * u e)
      (fun e a b => by beta_reduce; rw [spec_mean h.toGeo _ a b, spec_mean h.toGeo _ a b]) hc,
    Dv_congr h.hnx (u := fun e => Spec.mean m x e * u e) (u' := fun e => Mn p.nx p.ny x e * u e)
      (fun e a b => by beta_reduce; rw [spec_mean h.toGeo _ a b]) hc]
  have M := fun j a b => Mn_E h.hnx (fun i => f i / x i) hc (j := j) a b
  simp only [Finset.sum_range_succ, Finset.sum_range_zero, zero_add, Dv, Nat.cast_zero,
    Nat.cast_one, Nat.cast_ofNat]
  rw [M 0 (by omega) (by omega), M 1 (by omega) (by omega), M 2 (by omega) (by omega),
    M 3 (by omega) (by omega), M 4 (by omega) (by omega), M 5 (by omega) (by omega)]
  norm_num
  field_simp
  ring

omit h hsw hx in
/-- Jensen for six weights of a third and a weight `μ` -/
theorem weighted {a : ℕ → ℝ} {b μ v : ℝ} (μ0 : 0 ≤ μ)
    (hv : |v| ≤ 1 / 3 * ∑ j ∈ Finset.range 6, |a j| + μ * |b|) :
    v ^ 2 ≤ (2 + μ) * (1 / 3 * ∑ j ∈ Finset.range 6, a j ^ 2 + μ * b ^ 2) := by
  have cs := sq_sum_le_card_mul_sum_sq (s := Finset.range 6) (f := fun j => |a j|)
  simp only [sq_abs, Finset.card_range] at cs
  set A := ∑ j ∈ Finset.range 6, |a j|
  set S := ∑ j ∈ Finset.range 6, a j ^ 2
  have A0 : 0 ≤ A := Finset.sum_nonneg fun _ _ => abs_nonneg _
  rw [← sq_abs v, ← sq_abs b]
  have b0 := abs_nonneg b
  generalize |b| = y at *
  have : |v| ^ 2 ≤ (1 / 3 * A + μ * y) ^ 2 := pow_le_pow_left₀ (abs_nonneg _) hv 2
  push_cast at cs
  nlinarith [mul_nonneg μ0 (sq_nonneg (A - 6 * y)), mul_nonneg μ0 (sub_nonneg.2 cs)]

omit hsw in
/-- the weight of a neighbour -/
theorem term {dt : ℝ} (t0 : 0 ≤ dt)
    (hcfl : ∀ e ∈ Spec.edges p.dims, dt * (Spec.mean m x e * |u e|) ≤
      dc * √(x (Spec.cellOf m e 0) * x (Spec.cellOf m e 1))) (f : Int → ℝ) {c : Int}
    (hc : IsCell p.nx p.ny c) {j : ℕ} (j0 : (0 : Int) ≤ j) (j6 : (j : Int) < 6) :
    dt / (3 * dc) * |(if j < 3 then -1 else 1) *
        (Mn p.nx p.ny x (E p.nx p.ny c j) * u (E p.nx p.ny c j)) *
          (f (across p.nx p.ny c j) / x (across p.nx p.ny c j)) / √(x c)| ≤
      1 / 3 * |f (across p.nx p.ny c j) / √(x (across p.nx p.ny c j))| := by
  have hdc := h.dc_pos
  have hy := across_isCell h.hnx hc j
  obtain ⟨e0, e1⟩ := E_range h.hnx hc j j0 j6
  have x0 := hx c (mem_cells.mpr hc)
  have y0 := hx _ (mem_cells.mpr hy)
  have k := hcfl _ (Finset.mem_Ico.mpr ⟨e0, e1⟩)
  have kk : √(x (Spec.cellOf m (E p.nx p.ny c j) 0) * x (Spec.cellOf m (E p.nx p.ny c j) 1)) =
      √(x c) * √(x (across p.nx p.ny c j)) := by
    have c0 : Spec.cellOf m (E p.nx p.ny c j) 0 = Hex.coe p.nx p.ny (E p.nx p.ny c j) 0 :=
      h.coe _ e0 e1 0 (by omega) (by omega)
    have c1 : Spec.cellOf m (E p.nx p.ny c j) 1 = Hex.coe p.nx p.ny (E p.nx p.ny c j) 1 :=
      h.coe _ e0 e1 1 (by omega) (by omega)
    rw [c0, c1, ← Real.sqrt_mul x0.le]
    rcases lt_or_ge (j : Int) 3 with h3 | h3
    · rw [(coe_across_lo j0 h3).1, (coe_across_lo j0 h3).2, mul_comm]
    · rw [(coe_across_hi h.hnx hc h3 j6).1, (coe_across_hi h.hnx hc h3 j6).2]
  rw [kk, spec_mean h.toGeo _ e0 e1] at k
  have M0 : 0 ≤ Mn p.nx p.ny x (E p.nx p.ny c j) := by
    rw [Mn_E h.hnx x hc j0 j6]; positivity
  generalize Mn p.nx p.ny x (E p.nx p.ny c j) = M at *
  generalize u (E p.nx p.ny c j) = U at *
  generalize f (across p.nx p.ny c j) = F at *
  generalize x (across p.nx p.ny c j) = y at *
  have s0 := Real.sqrt_pos.2 x0
  have r0 := Real.sqrt_pos.2 y0
  have rr := Real.mul_self_sqrt y0.le
  have sg : |(if j < 3 then (-1 : ℝ) else 1)| = 1 := by split_ifs <;> simp
  rw [abs_div, abs_mul, abs_mul, sg, abs_mul, abs_of_nonneg M0, abs_div, abs_div, abs_of_pos s0,
    abs_of_pos y0, abs_of_pos r0]
  calc dt / (3 * dc) * (1 * (M * |U|) * (|F| / y) / √(x c)) =
      dt * (M * |U|) * (|F| / (y * (3 * dc * √(x c)))) := by field_simp
    _ ≤ dc * (√(x c) * √y) * (|F| / (y * (3 * dc * √(x c)))) :=
      mul_le_mul_of_nonneg_right k (by positivity)
    _ = 1 / 3 * (|F| / √y) := by
      rw [show |F| / (y * (3 * dc * √(x c))) = |F| / (√y * √y * (3 * dc * √(x c))) by rw [rr]]
      field_simp

/-- The norm of the operator. -/
theorem trOp_norm {Δ : ℝ} (Δ0 : 0 ≤ Δ) (hΔ : ∀ c ∈ Spec.cells p.dims,
      |Spec.div m (fun e => Spec.mean m x e * u e) c| ≤ Δ * x c) {dt : ℝ} (t0 : 0 ≤ dt)
    (hcfl : ∀ e ∈ Spec.edges p.dims, dt * (Spec.mean m x e * |u e|) ≤
      dc * √(x (Spec.cellOf m e 0) * x (Spec.cellOf m e 1))) (f : Int → ℝ) :
    ‖scaled p.dims x ((dt • trOp m sw x u) f)‖ ≤ (2 + dt * Δ / 2) * ‖scaled p.dims x f‖ := by
  have hdc := h.dc_pos
  set μ := dt * Δ / 2 with hμ
  have μ0 : 0 ≤ μ := by positivity
  refine le_of_sq_le_sq ?_ (by positivity) |>.trans_eq' rfl
  rw [mul_pow, norm_scaled, norm_scaled]
  have pt : ∀ c ∈ Spec.cells p.dims, ((dt • trOp m sw x u) f c / √(x c)) ^ 2 ≤
      (2 + μ) * (1 / 3 * ∑ j ∈ Finset.range 6,
        (f (across p.nx p.ny c j) / √(x (across p.nx p.ny c j))) ^ 2 + μ * (f c / √(x c)) ^ 2) := by
    intro c hc
    have hcell := mem_cells.mp hc
    refine weighted μ0 ?_
    have x0 := hx c hc
    have s0 := Real.sqrt_pos.2 x0
    have ss := Real.mul_self_sqrt x0.le
    rw [LinearMap.smul_apply, Pi.smul_apply, smul_eq_mul, trOp_parts h hsw hx f hcell]
    have e : ∀ S Z : ℝ, dt * (-(1 / (3 * dc)) * S - 1 / 2 * (f c / x c) * Z) / √(x c) =
        -(dt / (3 * dc) * S / √(x c)) + -(dt / 2 * (f c / x c) * Z / √(x c)) := fun S Z => by
      field_simp; ring
    rw [e]
    refine (abs_add_le _ _).trans (add_le_add ?_ ?_)
    · rw [abs_neg, mul_div_assoc, Finset.sum_div, abs_mul,
        abs_of_nonneg (by positivity : 0 ≤ dt / (3 * dc))]
      refine (mul_le_mul_of_nonneg_left (Finset.abs_sum_le_sum_abs _ _) (by positivity)).trans ?_
      rw [Finset.mul_sum, Finset.mul_sum]
      refine Finset.sum_le_sum fun j hj => ?_
      exact term h hx t0 hcfl f hcell (by omega) (by have := Finset.mem_range.1 hj; omega)
    · have t2 : (0 : ℝ) ≤ dt / 2 := by positivity
      rw [abs_neg, abs_div _ (√(x c)), abs_div _ (√(x c)), abs_mul, abs_mul, abs_of_pos s0, abs_div (f c),
        abs_of_pos x0, abs_of_nonneg t2, ← mul_div_assoc μ, div_le_div_iff_of_pos_right s0]
      calc _ ≤ dt / 2 * (|f c| / x c) * (Δ * x c) := mul_le_mul_of_nonneg_left (hΔ c hc) (by positivity)
        _ = _ := by rw [hμ]; field_simp
  refine (Finset.sum_le_sum pt).trans_eq ?_
  rw [← Finset.mul_sum, Finset.sum_add_distrib, ← Finset.mul_sum, ← Finset.mul_sum, Finset.sum_comm]
  have : ∀ j ∈ Finset.range 6, ∑ c ∈ Spec.cells p.dims,
      (f (across p.nx p.ny c j) / √(x (across p.nx p.ny c j))) ^ 2 =
      ∑ c ∈ Spec.cells p.dims, (f c / √(x c)) ^ 2 := fun j _ =>
    sum_across h.hnx j fun c => (f c / √(x c)) ^ 2
  rw [Finset.sum_congr rfl this, Finset.sum_const, Finset.card_range, nsmul_eq_mul]
  push_cast
  ring

end Props
end
end Omega
