import Verif.Props.OperatorRates

/-!
# C69: the viscous term does not converge pointwise to the Laplacian

The discrete vector Laplacian `grad div - gradT curl` of the velocity diffusion takes a difference of
the vorticity over one edge. The vorticity is first-order accurate with an error of opposite sign at
the two ends of an edge, so an error of order one is left.
-/

set_option linter.unusedVariables false
set_option linter.unusedSectionVars false

namespace Omega
noncomputable section
namespace Props

open Prog Model Refine Hex Numeric Taylor

variable {p : MeshParams} {dc : ℝ} {m : Mem ℝ}

/-- the Laplacian of a function of the plane -/
def lapAt (φ : ℝ × ℝ → ℝ) (z : ℝ × ℝ) : ℝ :=
  fderiv ℝ (fun w => fderiv ℝ φ w (1, 0)) z (1, 0) + fderiv ℝ (fun w => fderiv ℝ φ w (0, 1)) z (0, 1)

theorem lap_opU (Lx Ly : ℝ) (z : ℝ × ℝ) : lapAt (opU Lx Ly) z =
    -((2 * Real.pi / Lx) ^ 2 + (2 * Real.pi / Ly) ^ 2) * opU Lx Ly z := by
  have h1 : (fun w : ℝ × ℝ => fderiv ℝ (opU Lx Ly) w (1, 0)) = fun w =>
      (fun x => 2 * Real.pi / Lx * Real.cos (2 * Real.pi * x / Lx)) w.1 *
        (fun y => Real.cos (2 * Real.pi * y / Ly)) w.2 := by
    funext w
    unfold opU
    rw [fderiv_prod2 (deriv_sinw Lx) (deriv_cosw Ly)]
    simp
  have h2 : (fun w : ℝ × ℝ => fderiv ℝ (opU Lx Ly) w (0, 1)) = fun w =>
      (fun x => Real.sin (2 * Real.pi * x / Lx)) w.1 *
        (fun y => -(2 * Real.pi / Ly) * Real.sin (2 * Real.pi * y / Ly)) w.2 := by
    funext w
    unfold opU
    rw [fderiv_prod2 (deriv_sinw Lx) (deriv_cosw Ly)]
    simp
  unfold lapAt
  rw [h1, h2, fderiv_prod2 (fun x => (deriv_cosw Lx x).const_mul _) (deriv_cosw Ly),
    fderiv_prod2 (deriv_sinw Lx) (fun y => (deriv_sinw Ly y).const_mul _)]
  unfold opU
  ring

theorem lap_opW (Lx Ly : ℝ) (z : ℝ × ℝ) : lapAt (opW Lx Ly) z =
    -((2 * Real.pi / Lx) ^ 2 + (2 * Real.pi / Ly) ^ 2) * opW Lx Ly z := by
  have h1 : (fun w : ℝ × ℝ => fderiv ℝ (opW Lx Ly) w (1, 0)) = fun w =>
      (fun x => -(2 * Real.pi / Lx) * Real.sin (2 * Real.pi * x / Lx)) w.1 *
        (fun y => Real.sin (2 * Real.pi * y / Ly)) w.2 := by
    funext w
    unfold opW
    rw [fderiv_prod2 (deriv_cosw Lx) (deriv_sinw Ly)]
    simp
  have h2 : (fun w : ℝ × ℝ => fderiv ℝ (opW Lx Ly) w (0, 1)) = fun w =>
      (fun x => Real.cos (2 * Real.pi * x / Lx)) w.1 *
        (fun y => 2 * Real.pi / Ly * Real.cos (2 * Real.pi * y / Ly)) w.2 := by
    funext w
    unfold opW
    rw [fderiv_prod2 (deriv_cosw Lx) (deriv_sinw Ly)]
    simp
  unfold lapAt
  rw [h1, h2, fderiv_prod2 (fun x => (deriv_sinw Lx x).const_mul _) (deriv_sinw Ly),
    fderiv_prod2 (deriv_cosw Lx) (fun y => (deriv_cosw Ly y).const_mul _)]
  unfold opW
  ring

/-- The remainder of the viscous term at the edge considered, in units of the spacing. -/
theorem visc_size {t : ℝ} (h0 : 0 ≤ t) (h1 : t ≤ 131 / 2000) :
    257 / 100 * t ^ 2 ≤ -2 * Real.sin t * (2 * t * (1 + 2 / √3) - 4 / 3 * ampD t) -
      4 * t * (2 - √3) * Real.sin (2 * t / 3) -
      8 * (ampT t * Real.sin (2 * t / 3) - ampS t * Real.cos (2 * t / 3)) + 4 * t ^ 2 * (1 + 4 / 3) := by
  have hw := w_pos
  obtain ⟨l, u⟩ := s3_bounds
  obtain ⟨d1, -⟩ := ampD_bounds h0 h1
  obtain ⟨s1, s2⟩ := ampS_bounds h0 h1
  have b := ampT_bound h0 h1
  obtain ⟨k1, k2⟩ := kS_bounds
  have p2 : 0 ≤ t ^ 2 := by positivity
  have hsin : Real.sin t ≤ t := Real.sin_le h0
  have hsin0 : 0 ≤ Real.sin t := Real.sin_nonneg_of_nonneg_of_le_pi h0 (by linarith [Real.pi_gt_three])
  have hs2 : Real.sin (2 * t / 3) ≤ 2 * t / 3 := Real.sin_le (by positivity)
  have hs20 : 0 ≤ Real.sin (2 * t / 3) :=
    Real.sin_nonneg_of_nonneg_of_le_pi (by positivity) (by linarith [Real.pi_gt_three])
  have hD : 0 ≤ ampD t := le_trans (by unfold kD; positivity) d1
  have hcos : 997 / 1000 ≤ Real.cos (2 * t / 3) :=
    cos_ge h0 h1 (by rw [abs_of_nonneg (by positivity)]; linarith)
  have x1 : ampT t * Real.sin (2 * t / 3) ≤ 1 / 2000 * t ^ 2 := by
    refine (le_abs_self _).trans ?_
    rw [abs_mul, abs_of_nonneg hs20]
    calc _ ≤ 1 / 200 * t ^ 2 * (1 / 10) := mul_le_mul b (by linarith) hs20 (by positivity)
      _ = _ := by ring
  have x2 : 324 / 1000 * t ^ 2 * (997 / 1000) ≤ ampS t * Real.cos (2 * t / 3) := by
    refine mul_le_mul (le_trans ?_ s1) hcos (by norm_num) (le_trans (mul_nonneg (by linarith) p2) s1)
    exact mul_le_mul_of_nonneg_right (by linarith) p2
  have x3 : 0 ≤ Real.sin t * ampD t := mul_nonneg hsin0 hD
  have i3 : (2 / √3 : ℝ) = 2 * √3 / 3 := by
    rw [div_eq_div_iff hw.ne' (by norm_num)]; linear_combination (-2) * w_sq
  have x4 : Real.sin t * (t * (1 + 2 / √3)) ≤ t * (t * (1 + 2 / √3)) :=
    mul_le_mul_of_nonneg_right hsin (by positivity)
  have x5 : t * (2 - √3) * Real.sin (2 * t / 3) ≤ t * (2 - √3) * (2 * t / 3) :=
    mul_le_mul_of_nonneg_left hs2 (mul_nonneg h0 (by linarith))
  rw [i3] at x4 ⊢
  nlinarith

theorem pi_sq_ge : (2533 / 100 : ℝ) ≤ 257 / 100 * Real.pi ^ 2 := by
  have := Real.pi_gt_d2
  nlinarith

set_option maxHeartbeats 800000 in
/-- **C69.** On the doubly periodic domain of size `1 × √3/2` there are smooth periodic fields `U`,
`W`, the same for all resolutions, for which the discrete Laplacian of the velocity diffusion misses
the normal component of the Laplacian of `(U, W)` by at least 25 at some edge of every mesh with an
even number `n ≥ 48` of columns and rows and spacing `1/n`. -/
theorem C69_viscosity_inconsistent (hv : MeshParams.Valid p) (hev : p.nx % 2 = 0)
    (hsq : p.ny = p.nx) (hn : 48 ≤ p.nx) (hdcd : dc = 1 / (p.nx : ℝ)) (hb : Built p dc m) :
    ∃ e, 0 ≤ e ∧ e < p.dims.nedges ∧
      25 ≤ |Spec.grad m (Spec.div m (normalOf m (opU 1 (√3 / 2)) (opW 1 (√3 / 2)))) e -
          Spec.gradT m (Spec.curl m (normalOf m (opU 1 (√3 / 2)) (opW 1 (√3 / 2)))) e -
        normalOf m (lapAt (opU 1 (√3 / 2))) (lapAt (opW 1 (√3 / 2))) e| := by
  have hnr : (0 : ℝ) < p.nx := by have := hv.nx_pos; exact_mod_cast this
  have hdc : 0 < dc := by rw [hdcd]; positivity
  have h : Sq p dc := ⟨hv, hev, hsq, hdc⟩
  have ht : th p ≤ 131 / 2000 := th_small hn
  have t0 := h.th_pos
  have hw := w_pos
  have hnx := h.two
  have pX : periodX p.nx dc = 1 := by rw [periodX_real, hdcd]; field_simp
  have pY : periodY p.ny dc = √3 / 2 := by rw [periodY_real, hsq, hdcd]; field_simp
  have hm := hb.hex hv
  rw [← pX, ← pY]
  set U := opU (periodX p.nx dc) (periodY p.ny dc)
  set W := opW (periodX p.nx dc) (periodY p.ny dc)
  set i := p.nx / 4 with hi
  set c := p.nx * (p.ny - 1) + i with hc
  have i0 : 0 ≤ i := by omega
  have i1 : i < p.nx := by omega
  have c0 : 0 ≤ c := by have : 0 ≤ p.nx * (p.ny - 1) := mul_nonneg (by omega) (by omega); omega
  have c1 : c < p.nx * p.ny := by rw [hc, mul_sub]; omega
  have hr : 3 * c < p.dims.nedges := by show _ < 3 * (p.nx * p.ny); omega
  have hr2 : 2 * c < p.dims.nvertices := by show _ < 2 * (p.nx * p.ny); omega
  have hr3 : 2 * c + 1 < p.dims.nvertices := by show _ < 2 * (p.nx * p.ny); omega
  have r0 : Hex.row p.nx c = p.ny - 1 := by
    unfold Hex.row
    rw [hc, add_comm, Int.add_mul_ediv_left _ _ (by omega), Int.ediv_eq_zero_of_lt i0 i1, zero_add]
  have cc : Hex.col p.nx c = i := by
    unfold Hex.col
    rw [hc, add_comm, Int.add_mul_emod_self_left, Int.emod_eq_of_lt i0 i1]
  have r1 : ¬ (p.ny - 1) % 2 = 0 := by have := h.even_y; omega
  have e1 : 2 * c / 2 = c := by omega
  have e2 : (2 * c) % 2 = 0 := by omega
  have e3 : (2 * c + 1) / 2 = c := by omega
  have e4 : ¬ (2 * c + 1) % 2 = 0 := by omega
  have e5 : 3 * c / 3 = c := by omega
  have e6 : (3 * c) % 3 = 0 := by omega
  have h2p : 2 * Real.pi = 2 * th p * p.ny := by rw [hsq]; unfold th; field_simp
  -- phases
  have hXe : phX p dc (edgeAt m (3 * c)) = th p * (2 * i + 1) := by
    rw [h.phX_eq]
    unfold edgeAt
    rw [hm.x_edge _ (by omega) hr]
    simp only [xE, e5, e6, xC, r0, cc, r1, if_true, if_false, lit_real]
    push_cast
    field_simp
    ring
  have hYe : phY p dc (edgeAt m (3 * c)) = 2 * Real.pi := by
    rw [h.phY_eq]
    unfold edgeAt
    rw [hm.y_edge _ (by omega) hr]
    simp only [yE, e5, e6, yC, r0, if_true, lit_real, sqrt_real]
    push_cast
    rw [h2p]
    field_simp
    ring
  have hX0 : phX p dc (vertAt m (2 * c)) = th p * (2 * i + 1) := by
    rw [h.phX_eq]
    unfold vertAt
    rw [hm.x_vertex _ (by omega) hr2]
    simp only [xV, e1, xC, r0, cc, r1, if_false, lit_real]
    push_cast
    field_simp
    ring
  have hY0 : phY p dc (vertAt m (2 * c)) = 2 * th p / 3 + 2 * Real.pi := by
    rw [h.phY_eq]
    unfold vertAt
    rw [hm.y_vertex _ (by omega) hr2]
    simp only [yV, e1, e2, yC, r0, if_true, lit_real, sqrt_real]
    push_cast
    rw [h2p]
    field_simp
    ring
  have hX1 : phX p dc (vertAt m (2 * c + 1)) = th p * (2 * i + 1) := by
    rw [h.phX_eq]
    unfold vertAt
    rw [hm.x_vertex _ (by omega) hr3]
    simp only [xV, e3, xC, r0, cc, r1, if_false, lit_real]
    push_cast
    field_simp
    ring
  have hY1 : phY p dc (vertAt m (2 * c + 1)) = -(2 * th p / 3) + 2 * Real.pi := by
    rw [h.phY_eq]
    unfold vertAt
    rw [hm.y_vertex _ (by omega) hr3]
    simp only [yV, e3, e4, yC, r0, if_false, lit_real, sqrt_real]
    push_cast
    rw [h2p]
    field_simp
    ring
  -- divergence part
  have hdivx : ∀ z, divAt U W z = (2 * th p / dc + 2 * th p / dc * (2 / √3)) *
      (Real.cos (phX p dc z) * Real.cos (phY p dc z)) := by
    intro z
    unfold divAt U W opU opW
    rw [fderiv_prod2 (deriv_sinw _) (deriv_cosw _), fderiv_prod2 (deriv_cosw _) (deriv_sinw _),
      h.kx, h.ky]
    unfold phX phY
    ring
  have hcurlx : ∀ z, curlAt U W z = (2 * th p / dc * (2 / √3) - 2 * th p / dc) *
      (Real.sin (phX p dc z) * Real.sin (phY p dc z)) := by
    intro z
    unfold curlAt U W opU opW
    rw [fderiv_prod2 (deriv_sinw _) (deriv_cosw _), fderiv_prod2 (deriv_cosw _) (deriv_sinw _),
      h.kx, h.ky]
    unfold phX phY
    ring
  set κ : ℝ := 2 * th p / dc + 2 * th p / dc * (2 / √3) - 4 / (3 * dc) * ampD (th p) with hκ
  have hdiv : ∀ c', 0 ≤ c' → c' < p.dims.ncells → Spec.div m (normalOf m U W) c' =
      κ * (Real.cos (phX p dc (cellAt m c')) * Real.cos (phY p dc (cellAt m c'))) := by
    intro c' a b
    have := div_error h hb a b
    rw [hdivx] at this
    rw [hκ]; linear_combination this
  have hper : Periodic2 (periodX p.nx dc) (periodY p.ny dc)
      (fun z => Real.cos (phX p dc z) * Real.cos (phY p dc z)) := by
    have := wave_periodic h.px h.py (Real.pi / 2) (Real.pi / 2)
    unfold Props.wave at this
    simp only [Real.sin_add_pi_div_two] at this
    exact this
  obtain ⟨k0, k1⟩ := cells_of_edge hv h.even_y hb hper (by omega : 0 ≤ 3 * c) hr
  have hN := normal_eq hv hb (by omega : 0 ≤ 3 * c) hr
  rw [e6] at hN
  have hcl0 := coe_isCell h.valid.nx_pos (by omega : 0 ≤ 3 * c) hr (s := 0)
  have hcl1 := coe_isCell h.valid.nx_pos (by omega : 0 ≤ 3 * c) hr (s := 1)
  have hgrad : Spec.grad m (Spec.div m (normalOf m U W)) (3 * c) =
      -2 * κ / dc * Real.sin (th p) * Real.sin (th p * (2 * i + 1)) := by
    rw [spec_grad (hb.geo hv hdc) _ (by omega) hr]
    unfold Gr
    rw [hdiv _ hcl0.1 hcl0.2, hdiv _ hcl1.1 hcl1.2, k0, k1, hN, smul_neg, sub_neg_eq_add,
      ← sub_eq_add_neg, h.shiftX, h.shiftY, h.unshiftX, h.unshiftY, hXe, hYe]
    simp only [DX, DY]
    norm_num
    simp only [← sub_eq_add_neg, Real.cos_add, Real.cos_sub]
    ring
  have hv0 : Hex.voe p.nx p.ny (3 * c) 0 = 2 * c + 1 := by simp [Hex.voe, e5, e6]
  have hv1 : Hex.voe p.nx p.ny (3 * c) 1 = 2 * c := by simp [Hex.voe, e5, e6]
  have q0 := curl_error h hb (by omega : 0 ≤ 2 * c) hr2
  have q1 := curl_error h hb (by omega : 0 ≤ 2 * c + 1) hr3
  rw [hcurlx, hX0, hY0, if_pos e2, Real.sin_add_two_pi, Real.cos_add_two_pi] at q0
  rw [hcurlx, hX1, hY1, if_neg e4, Real.sin_add_two_pi, Real.cos_add_two_pi, Real.sin_neg,
    Real.cos_neg] at q1
  have hgT : Spec.gradT m (Spec.curl m (normalOf m U W)) (3 * c) = √3 / dc *
      (Real.sin (th p * (2 * i + 1)) * (2 * (2 * th p / dc * (2 / √3) - 2 * th p / dc) *
        Real.sin (2 * th p / 3) + 8 / (dc * √3) * (ampT (th p) * Real.sin (2 * th p / 3) -
          ampS (th p) * Real.cos (2 * th p / 3)))) := by
    rw [spec_gradT (hb.geo hv hdc) _ (by omega) hr]
    unfold Gv
    rw [hv0, hv1, eq_add_of_sub_eq q0, eq_add_of_sub_eq q1]
    ring
  have hL : normalOf m (lapAt U) (lapAt W) (3 * c) =
      -((2 * th p / dc) ^ 2 + (2 * th p / dc * (2 / √3)) ^ 2) * Real.sin (th p * (2 * i + 1)) := by
    unfold normalOf
    rw [hN]
    simp only [dir, DX, DY, Prod.fst_neg, Prod.snd_neg]
    norm_num
    rw [show U = opU (periodX p.nx dc) (periodY p.ny dc) from rfl, lap_opU, h.kx, h.ky]
    have : opU (periodX p.nx dc) (periodY p.ny dc) (edgeAt m (3 * c)) =
      Real.sin (phX p dc (edgeAt m (3 * c))) * Real.cos (phY p dc (edgeAt m (3 * c))) := rfl
    rw [this, hXe, hYe, Real.cos_two_pi]
    ring
  refine ⟨3 * c, by omega, hr, ?_⟩
  have hsin : 997 / 1000 ≤ Real.sin (th p * (2 * i + 1)) := by
    have hpi := h.half_pi
    rw [← Real.cos_pi_div_two_sub]
    refine cos_ge t0.le ht ?_
    obtain q | q : p.nx = 4 * i ∨ p.nx = 4 * i + 2 := by omega
    · have : (p.nx : ℝ) = 4 * (i : ℝ) := by exact_mod_cast q
      rw [hpi, this, show th p * (4 * (i : ℝ)) / 2 - th p * (2 * i + 1) = -th p by ring, abs_neg,
        abs_of_nonneg t0.le]
    · have : (p.nx : ℝ) = 4 * (i : ℝ) + 2 := by exact_mod_cast q
      rw [hpi, this, show th p * (4 * (i : ℝ) + 2) / 2 - th p * (2 * i + 1) = 0 by ring, abs_zero]
      exact t0.le
  have key := visc_size t0.le ht
  have E : Spec.grad m (Spec.div m (normalOf m U W)) (3 * c) -
      Spec.gradT m (Spec.curl m (normalOf m U W)) (3 * c) - normalOf m (lapAt U) (lapAt W) (3 * c) =
      Real.sin (th p * (2 * i + 1)) * (1 / dc ^ 2 *
      (-2 * Real.sin (th p) * (2 * th p * (1 + 2 / √3) - 4 / 3 * ampD (th p)) -
      4 * th p * (2 - √3) * Real.sin (2 * th p / 3) -
      8 * (ampT (th p) * Real.sin (2 * th p / 3) - ampS (th p) * Real.cos (2 * th p / 3)) +
        4 * th p ^ 2 * (1 + 4 / 3))) := by
    rw [hgrad, hgT, hL, hκ]
    have i3 : (2 / √3 : ℝ) = 2 * √3 / 3 := by
      rw [div_eq_div_iff hw.ne' (by norm_num)]; linear_combination (-2) * w_sq
    have i4 : (8 / (dc * √3) : ℝ) = 8 * √3 / (3 * dc) := by
      rw [div_eq_div_iff (by positivity) (by positivity)]; linear_combination (-8 * dc) * w_sq
    rw [i3, i4]
    field_simp
    ring_nf
    simp only [show √3 ^ 2 = (3 : ℝ) from Real.sq_sqrt (by norm_num)]
    ring
  rw [E]
  refine le_trans ?_ (le_abs_self _)
  have hth : th p = Real.pi * dc := by rw [hdcd]; unfold th; ring
  have y1 : 2533 / 100 ≤ 1 / dc ^ 2 * (257 / 100 * th p ^ 2) := by
    rw [hth]
    have : 1 / dc ^ 2 * (257 / 100 * (Real.pi * dc) ^ 2) = 257 / 100 * Real.pi ^ 2 := by field_simp
    rw [this]
    exact pi_sq_ge
  have y2 := y1.trans (mul_le_mul_of_nonneg_left key (by positivity : 0 ≤ 1 / dc ^ 2))
  calc (25 : ℝ) ≤ 997 / 1000 * (2533 / 100) := by norm_num
    _ ≤ _ := mul_le_mul hsin y2 (by norm_num) (by linarith)

/-- Every hypothesis is met by the mesh of 48 by 48 cells that the mesh constructor builds. -/
example (vl : ℤ) (hvl : 0 < vl) : ∃ m, Built (R := ℝ) ⟨48, 48, 1, 0, vl⟩ (1 / ((48 : ℤ) : ℝ)) m := by
  have hv : MeshParams.Valid ⟨48, 48, 1, 0, vl⟩ := by constructor <;> norm_num; exact hvl
  exact ⟨_, built_meshMem hv _ ⟨fun _ _ _ => 0, fun _ _ _ _ => 0⟩⟩

theorem prod_err {a b a' b' ε D : ℝ} (ha : |a - a'| ≤ ε) (hb : |b - b'| ≤ ε) (hA : |a'| ≤ D)
    (hB : |b'| ≤ D) : |a * b - a' * b'| ≤ ε * (2 * D + ε) := by
  have e0 : 0 ≤ ε := (abs_nonneg _).trans ha
  have d0 : 0 ≤ D := (abs_nonneg _).trans hA
  have : a * b - a' * b' = (a - a') * (b - b') + ((a - a') * b' + a' * (b - b')) := by ring
  rw [this]
  have x1 : |(a - a') * (b - b')| ≤ ε * ε := by rw [abs_mul]; exact mul_le_mul ha hb (abs_nonneg _) e0
  have x2 : |(a - a') * b'| ≤ ε * D := by rw [abs_mul]; exact mul_le_mul ha hB (abs_nonneg _) e0
  have x3 : |a' * (b - b')| ≤ D * ε := by rw [abs_mul]; exact mul_le_mul hA hb (abs_nonneg _) d0
  have := (abs_add_le ((a - a') * (b - b')) ((a - a') * b' + a' * (b - b')))
  have := abs_add_le ((a - a') * b') (a' * (b - b'))
  linarith

theorem sum_err {s : Finset ℤ} {A f g : ℤ → ℝ} {a ε : ℝ} (hA : ∀ i ∈ s, A i = a) (ha : 0 ≤ a)
    (h : ∀ i ∈ s, |f i - g i| ≤ ε) :
    |∑ i ∈ s, A i * f i - ∑ i ∈ s, A i * g i| ≤ s.card * a * ε := by
  rw [← Finset.sum_sub_distrib]
  refine (Finset.abs_sum_le_sum_abs _ _).trans ?_
  have : ∀ i ∈ s, |A i * f i - A i * g i| ≤ a * ε := by
    intro i hi
    rw [← mul_sub, abs_mul, hA i hi, abs_of_nonneg ha]
    exact mul_le_mul_of_nonneg_left (h i hi) ha
  refine (Finset.sum_le_card_nsmul _ _ _ this).trans (le_of_eq ?_)
  rw [nsmul_eq_mul]; ring

/-- **C70.** Weakly the discrete Laplacian of the velocity diffusion is consistent: tested with the
edge values of any smooth field `(Φ, Ψ)` it agrees, to first order in the spacing, with the sum over
the cells and triangles of minus the products of the exact divergences and of the exact vorticities
(the viscous form `-∫ div φ div u + curl φ curl u`). `D` bounds the divergences and vorticities, `B`
the second and third derivatives. -/
theorem C70_viscosity_weakly_consistent (hv : MeshParams.Valid p) (hx : 2 ≤ p.nx) (hy : 2 ≤ p.ny)
    (hny : p.ny % 2 = 0) (hdc : 0 < dc) (hb : Built p dc m) {U W Φ Ψ : ℝ × ℝ → ℝ} {B D : ℝ}
    (hf : ∀ f, f = U ∨ f = W ∨ f = Φ ∨ f = Ψ → Field 2 (periodX p.nx dc) (periodY p.ny dc) B f ∧
      Field 3 (periodX p.nx dc) (periodY p.ny dc) B f)
    (hD : ∀ z, |divAt U W z| ≤ D ∧ |divAt Φ Ψ z| ≤ D ∧ |curlAt U W z| ≤ D ∧ |curlAt Φ Ψ z| ≤ D) :
    |∑ e ∈ Spec.edges p.dims, Spec.dcE m e * Spec.dvE m e * (normalOf m Φ Ψ e *
          (Spec.grad m (Spec.div m (normalOf m U W)) e -
            Spec.gradT m (Spec.curl m (normalOf m U W)) e)) -
        -(∑ c ∈ Spec.cells p.dims, Spec.areaC m c *
            (divAt Φ Ψ (cellAt m c) * divAt U W (cellAt m c)) +
          ∑ v ∈ Spec.verts p.dims, Spec.areaT m v *
            (curlAt Φ Ψ (vertAt m v) * curlAt U W (vertAt m v)))| ≤
      periodX p.nx dc * periodY p.ny dc *
        (B / 9 * dc ^ 2 * (2 * D + B / 9 * dc ^ 2) + 2 / 5 * B * dc * (2 * D + 2 / 5 * B * dc)) := by
  have h := hb.geo2 hv hx hy hdc
  have hnx := hv.nx_pos
  have hw := w_pos
  obtain ⟨s3, -⟩ := s3_bounds
  have hB : 0 ≤ B := (hf U (by simp)).1.nonneg
  have ad := adjoint h (Spec.div m (normalOf m U W)) (normalOf m Φ Ψ)
  have av := adjointV h.toGeo (Spec.curl m (normalOf m U W)) (normalOf m Φ Ψ)
  have split : ∑ e ∈ Spec.edges p.dims, Spec.dcE m e * Spec.dvE m e * (normalOf m Φ Ψ e *
          (Spec.grad m (Spec.div m (normalOf m U W)) e -
            Spec.gradT m (Spec.curl m (normalOf m U W)) e)) =
      -(∑ c ∈ Spec.cells p.dims, Spec.areaC m c *
          (Spec.div m (normalOf m Φ Ψ) c * Spec.div m (normalOf m U W) c) +
        ∑ v ∈ Spec.verts p.dims, Spec.areaT m v *
          (Spec.curl m (normalOf m Φ Ψ) v * Spec.curl m (normalOf m U W) v)) := by
    simp only [mul_comm (Spec.div m (normalOf m Φ Ψ) _), mul_comm (Spec.curl m (normalOf m Φ Ψ) _)]
    rw [ad, av]
    simp only [mul_sub, Finset.sum_sub_distrib]
    ring
  have ecs : ∀ c ∈ Spec.cells p.dims, Spec.areaC m c = dc * dc * √3 / 2 :=
    fun c hc => spec_areaC h.toGeo (mem_cells.mp hc)
  have evs : ∀ v ∈ Spec.verts p.dims, Spec.areaT m v = dc * dc * √3 / 4 := by
    intro v hv'
    have hv' := Finset.mem_Ico.mp hv'
    exact spec_areaT h.toGeo hv'.1 hv'.2
  have e1 := sum_err (ε := B / 9 * dc ^ 2 * (2 * D + B / 9 * dc ^ 2)) ecs (by positivity)
    (f := fun c => Spec.div m (normalOf m Φ Ψ) c * Spec.div m (normalOf m U W) c)
    (g := fun c => divAt Φ Ψ (cellAt m c) * divAt U W (cellAt m c)) (by
      intro c hc
      have hc := mem_cells.mp hc
      exact prod_err (C55_divergence_second_order hv hx hy hny hdc hb (hf Φ (by simp)).2
          (hf Ψ (by simp)).2 c hc.1 hc.2)
        (C55_divergence_second_order hv hx hy hny hdc hb (hf U (by simp)).2
          (hf W (by simp)).2 c hc.1 hc.2) (hD _).2.1 (hD _).1)
  have cb : 2 / (3 * √3) * B * dc ≤ 2 / 5 * B * dc := by
    have : 2 / (3 * √3) ≤ 2 / 5 := by
      apply div_le_div_of_nonneg_left <;> linarith
    exact mul_le_mul_of_nonneg_right (mul_le_mul_of_nonneg_right this hB) hdc.le
  have e2 := sum_err (ε := 2 / 5 * B * dc * (2 * D + 2 / 5 * B * dc)) evs (by positivity)
    (f := fun v => Spec.curl m (normalOf m Φ Ψ) v * Spec.curl m (normalOf m U W) v)
    (g := fun v => curlAt Φ Ψ (vertAt m v) * curlAt U W (vertAt m v)) (by
      intro v hv'
      have hv' := Finset.mem_Ico.mp hv'
      exact prod_err ((C56_curl_first_order hv hny hdc hb (hf Φ (by simp)).1
          (hf Ψ (by simp)).1 v hv'.1 hv'.2).trans cb)
        ((C56_curl_first_order hv hny hdc hb (hf U (by simp)).1
          (hf W (by simp)).1 v hv'.1 hv'.2).trans cb) (hD _).2.2.2 (hD _).2.2.1)
  have n1 : ((Spec.cells p.dims).card : ℝ) = p.nx * p.ny := by
    have : ((Spec.cells p.dims).card : ℤ) = p.nx * p.ny := by
      unfold Spec.cells
      rw [Int.card_Ico, Int.toNat_of_nonneg]
      · show p.nx * p.ny - 0 = _
        ring
      · show 0 ≤ p.nx * p.ny - 0
        have : 0 ≤ p.nx * p.ny := mul_nonneg (by omega) (by omega)
        omega
    exact_mod_cast this
  have n2 : ((Spec.verts p.dims).card : ℝ) = 2 * (p.nx * p.ny) := by
    have : ((Spec.verts p.dims).card : ℤ) = 2 * (p.nx * p.ny) := by
      unfold Spec.verts
      rw [Int.card_Ico, Int.toNat_of_nonneg]
      · show 2 * (p.nx * p.ny) - 0 = _
        ring
      · show 0 ≤ 2 * (p.nx * p.ny) - 0
        have : 0 ≤ p.nx * p.ny := mul_nonneg (by omega) (by omega)
        omega
    exact_mod_cast this
  rw [split]
  rw [n1] at e1
  rw [n2] at e2
  rw [periodX_real, periodY_real]
  set X1 := ∑ c ∈ Spec.cells p.dims, Spec.areaC m c *
          (Spec.div m (normalOf m Φ Ψ) c * Spec.div m (normalOf m U W) c)
  set X2 := ∑ c ∈ Spec.cells p.dims, Spec.areaC m c *
          (divAt Φ Ψ (cellAt m c) * divAt U W (cellAt m c))
  set Y1 := ∑ v ∈ Spec.verts p.dims, Spec.areaT m v *
          (Spec.curl m (normalOf m Φ Ψ) v * Spec.curl m (normalOf m U W) v)
  set Y2 := ∑ v ∈ Spec.verts p.dims, Spec.areaT m v *
          (curlAt Φ Ψ (vertAt m v) * curlAt U W (vertAt m v))
  rw [show -(X1 + Y1) - -(X2 + Y2) = -((X1 - X2) + (Y1 - Y2)) by ring, abs_neg]
  refine (abs_add_le _ _).trans ((add_le_add e1 e2).trans (le_of_eq ?_))
  ring

theorem Field.mono {n : ℕ} {P Q B B' : ℝ} {φ : ℝ × ℝ → ℝ} (h : Field n P Q B φ) (hB : B ≤ B') :
    Field n P Q B' φ := ⟨h.smooth, h.periodic, fun z => (h.bound z).trans hB⟩

theorem fderiv_bound {P Q : ℝ} (hP : 0 < P) (hQ : 0 < Q) {φ : ℝ × ℝ → ℝ} (hs : ContDiff ℝ 1 φ)
    (hp : Periodic2 P Q φ) : ∃ D, 0 ≤ D ∧ ∀ z, |fderiv ℝ φ z (1, 0)| ≤ D ∧ |fderiv ℝ φ z (0, 1)| ≤ D := by
  obtain ⟨D, h0, hD⟩ := Field.exists_bound (n := 1) hP hQ hs hp
  have key : ∀ z v, ‖v‖ ≤ 1 → |fderiv ℝ φ z v| ≤ D := by
    intro z v hv
    have := hD.bound z
    rw [norm_iteratedFDeriv_one] at this
    exact ((fderiv ℝ φ z).le_opNorm v).trans
      ((mul_le_of_le_one_right (norm_nonneg _) hv).trans this)
  exact ⟨D, h0, fun z => ⟨key z _ (by simp [Prod.norm_def]), key z _ (by simp [Prod.norm_def])⟩⟩

/-- **C70**, as a limit: for periodic fields with three continuous derivatives the error of the weak
form is at most a constant times the spacing, the constant being the same on all meshes with these
periods and spacing at most one. -/
theorem C70_viscosity_weak_limit {P Q : ℝ} (hP : 0 < P) (hQ : 0 < Q) {U W Φ Ψ : ℝ × ℝ → ℝ}
    (hs : ∀ f, f = U ∨ f = W ∨ f = Φ ∨ f = Ψ → ContDiff ℝ 3 f ∧ Periodic2 P Q f) :
    ∃ K, ∀ (p : MeshParams) (dc : ℝ) (m : Mem ℝ), MeshParams.Valid p → 2 ≤ p.nx → 2 ≤ p.ny →
      p.ny % 2 = 0 → 0 < dc → dc ≤ 1 → periodX p.nx dc = P → periodY p.ny dc = Q → Built p dc m →
      |∑ e ∈ Spec.edges p.dims, Spec.dcE m e * Spec.dvE m e * (normalOf m Φ Ψ e *
          (Spec.grad m (Spec.div m (normalOf m U W)) e -
            Spec.gradT m (Spec.curl m (normalOf m U W)) e)) -
        -(∑ c ∈ Spec.cells p.dims, Spec.areaC m c *
            (divAt Φ Ψ (cellAt m c) * divAt U W (cellAt m c)) +
          ∑ v ∈ Spec.verts p.dims, Spec.areaT m v *
            (curlAt Φ Ψ (vertAt m v) * curlAt U W (vertAt m v)))| ≤ K * dc := by
  have bd : ∀ f, f = U ∨ f = W ∨ f = Φ ∨ f = Ψ → ∃ B, 0 ≤ B ∧ Field 2 P Q B f ∧ Field 3 P Q B f := by
    intro f hf
    obtain ⟨h1, h2⟩ := hs f hf
    obtain ⟨B, b0, hB⟩ := Field.exists_bound (n := 2) hP hQ (h1.of_le (by norm_num)) h2
    obtain ⟨B', b1, hB'⟩ := Field.exists_bound (n := 3) hP hQ h1 h2
    exact ⟨max B B', le_max_of_le_left b0, hB.mono (le_max_left _ _), hB'.mono (le_max_right _ _)⟩
  have dd : ∀ f, f = U ∨ f = W ∨ f = Φ ∨ f = Ψ → ∃ D, 0 ≤ D ∧
      ∀ z, |fderiv ℝ f z (1, 0)| ≤ D ∧ |fderiv ℝ f z (0, 1)| ≤ D := by
    intro f hf
    obtain ⟨h1, h2⟩ := hs f hf
    exact fderiv_bound hP hQ (h1.of_le (by norm_num)) h2
  obtain ⟨BU, bU0, bU⟩ := bd U (by simp)
  obtain ⟨BW, bW0, bW⟩ := bd W (by simp)
  obtain ⟨BΦ, bΦ0, bΦ⟩ := bd Φ (by simp)
  obtain ⟨BΨ, bΨ0, bΨ⟩ := bd Ψ (by simp)
  obtain ⟨DU, dU0, dU⟩ := dd U (by simp)
  obtain ⟨DW, dW0, dW⟩ := dd W (by simp)
  obtain ⟨DΦ, dΦ0, dΦ⟩ := dd Φ (by simp)
  obtain ⟨DΨ, dΨ0, dΨ⟩ := dd Ψ (by simp)
  set B := BU + BW + BΦ + BΨ with hB
  set D := DU + DW + DΦ + DΨ with hD
  have B0 : 0 ≤ B := by positivity
  have D0 : 0 ≤ D := by positivity
  refine ⟨P * Q * (B / 9 * (2 * D + B / 9) + 2 / 5 * B * (2 * D + 2 / 5 * B)), ?_⟩
  intro p dc m hv hx hy hny hdc hdc1 hpx hpy hb
  have main := C70_viscosity_weakly_consistent (B := B) (D := D) (U := U) (W := W) (Φ := Φ) (Ψ := Ψ)
    hv hx hy hny hdc hb (by
      rw [hpx, hpy]
      rintro f (rfl | rfl | rfl | rfl)
      · exact ⟨bU.1.mono (by linarith), bU.2.mono (by linarith)⟩
      · exact ⟨bW.1.mono (by linarith), bW.2.mono (by linarith)⟩
      · exact ⟨bΦ.1.mono (by linarith), bΦ.2.mono (by linarith)⟩
      · exact ⟨bΨ.1.mono (by linarith), bΨ.2.mono (by linarith)⟩) (by
      intro z
      obtain ⟨u1, u2⟩ := dU z; obtain ⟨w1, w2⟩ := dW z
      obtain ⟨f1, f2⟩ := dΦ z; obtain ⟨g1, g2⟩ := dΨ z
      rw [abs_le] at u1 u2 w1 w2 f1 f2 g1 g2
      unfold divAt curlAt
      simp only [abs_le]
      refine ⟨⟨?_, ?_⟩, ⟨?_, ?_⟩, ⟨?_, ?_⟩, ?_, ?_⟩ <;> linarith)
  refine main.trans ?_
  rw [hpx, hpy, mul_assoc (P * Q)]
  refine mul_le_mul_of_nonneg_left ?_ (by positivity)
  have d2 : dc ^ 2 ≤ dc := by nlinarith
  have x1 : B / 9 * dc ^ 2 ≤ B / 9 * dc := mul_le_mul_of_nonneg_left d2 (by positivity)
  have x2 : B / 9 * dc ≤ B / 9 := mul_le_of_le_one_right (by positivity) hdc1
  have x3 : 2 / 5 * B * dc ≤ 2 / 5 * B := mul_le_of_le_one_right (by positivity) hdc1
  have y1 : B / 9 * dc ^ 2 * (2 * D + B / 9 * dc ^ 2) ≤ B / 9 * dc * (2 * D + B / 9) :=
    mul_le_mul x1 (by linarith) (by positivity) (by positivity)
  have y2 : 2 / 5 * B * dc * (2 * D + 2 / 5 * B * dc) ≤ 2 / 5 * B * dc * (2 * D + 2 / 5 * B) :=
    mul_le_mul_of_nonneg_left (by linarith) (by positivity)
  linarith

/-- The hypotheses are met by non-constant fields: the fields of the operator test. -/
example (f : ℝ × ℝ → ℝ) (h : f = opU 1 (√3 / 2) ∨ f = opW 1 (√3 / 2) ∨ f = opU 1 (√3 / 2) ∨
    f = opW 1 (√3 / 2)) : ContDiff ℝ 3 f ∧ Periodic2 1 (√3 / 2) f := by
  have hw : 0 < √3 / 2 := by have := w_pos; positivity
  rcases h with rfl | rfl | rfl | rfl
  · exact ⟨by unfold opU; fun_prop, opU_per one_pos hw⟩
  · exact ⟨by unfold opW; fun_prop, opW_per one_pos hw⟩
  · exact ⟨by unfold opU; fun_prop, opU_per one_pos hw⟩
  · exact ⟨by unfold opW; fun_prop, opW_per one_pos hw⟩

end Props
end
end Omega
