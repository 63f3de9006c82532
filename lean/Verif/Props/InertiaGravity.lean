import Verif.Props.Dispersion

/-!
# C105: inertia-gravity waves, exactly

With rotation a plane wave has a velocity across the gradient of its thickness as well.  On the plane waves
the tangential reconstruction is a skew 3×3 matrix, i.e. the vector product with a vector `n` that is
orthogonal to the gradient; hence applying it twice to a gradient gives `-|n|²` times the gradient, and a
small travelling wave keeps its shape, with frequency `ω² = f² |n|² + g H λ`.
-/

set_option linter.unusedVariables false
set_option linter.unusedSectionVars false
set_option linter.unusedSimpArgs false

namespace Omega
noncomputable section

namespace Props

open Prog Model Refine Hex Polynomial Taylor

variable {D : ℝ} {T : MeshParams → ℝ → Type}

/-- Factor by which the averages in the Coriolis term reduce the square of the Coriolis parameter for the
wave vector `(k1, k2)` on a mesh of spacing `dc`. -/
def rotSymbol (dc k1 k2 : ℝ) : ℝ :=
  ((2 * Real.cos (dc / 2 * k1) + Real.cos (dc / 2 * (√3 * k2))) ^ 2 +
    (2 * Real.cos (dc / 2 * (k1 / 2 + √3 / 2 * k2)) + Real.cos (dc / 2 * (3 / 2 * k1 - √3 / 2 * k2))) ^ 2 +
    (2 * Real.cos (dc / 2 * (k1 / 2 - √3 / 2 * k2)) + Real.cos (dc / 2 * (3 / 2 * k1 + √3 / 2 * k2))) ^ 2) / 27

/-- half the phase difference between a cell and its neighbour `j` -/
def ph (dc k1 k2 : ℝ) (j : Int) : ℝ := dc / 2 * dotK k1 k2 (dir j)

theorem ph1 (dc k1 k2 : ℝ) : ph dc k1 k2 1 = ph dc k1 k2 0 + ph dc k1 k2 2 := by
  norm_num [ph, dotK, dir, DX, DY]; ring
theorem ph3 (dc k1 k2 : ℝ) : ph dc k1 k2 3 = -ph dc k1 k2 0 := by
  norm_num [ph, dotK, dir, DX, DY]
theorem ph4 (dc k1 k2 : ℝ) : ph dc k1 k2 4 = -(ph dc k1 k2 0 + ph dc k1 k2 2) := by
  norm_num [ph, dotK, dir, DX, DY]; ring
theorem ph5 (dc k1 k2 : ℝ) : ph dc k1 k2 5 = -ph dc k1 k2 2 := by
  norm_num [ph, dotK, dir, DX, DY]; ring

/-- coupling of edges of different direction with phase differences `near` and `far` -/
def cpl (near far : ℝ) : ℝ := (2 * Real.cos near + Real.cos far) / 3

/-- the reconstruction on amplitudes of a plane wave, without the factor `1/√3` -/
def recon (x y : ℝ) (s : Int → ℝ) (a : Int) : ℝ :=
  if a = 0 then cpl y (2 * x + y) * s 1 + cpl (x + y) (x - y) * s 2
  else if a = 1 then cpl x (x + 2 * y) * s 2 - cpl y (2 * x + y) * s 0
  else -(cpl (x + y) (x - y) * s 0) - cpl x (x + 2 * y) * s 1

/-- reconstruction of a plane wave with any amplitudes in the three directions -/
theorem tang_wave (M : MeshOf D T) {k1 k2 : ℝ} (hk : Fits M.p M.dc k1 k2) (δ : ℝ) {s u : Int → ℝ}
    (hu : ∀ e, 0 ≤ e → e < M.p.dims.nedges → u e = s (e % 3) * Real.cos (dotK k1 k2 (edgeAt M.m e) + δ))
    {e : Int} (h0 : 0 ≤ e) (h1 : e < M.p.dims.nedges) :
    Spec.tang M.m u e = 1 / √3 * recon (ph M.dc k1 k2 0) (ph M.dc k1 k2 2) s (e % 3) *
      Real.cos (dotK k1 k2 (edgeAt M.m e) + δ) := by
  have hnx := M.valid.nx_pos
  have hc := isCell_edge h0 h1
  have hc0 : IsCell M.p.nx M.p.ny (coe M.p.nx M.p.ny e 0) := coe_isCell hnx h0 h1
  have hper : ∀ δ, Periodic2 M.P M.Q fun z => Real.cos (dotK k1 k2 z + δ) := fun δ => hk.periodic δ
  have hG : ∀ a : Int, Periodic2 M.P M.Q (fun z => s a * Real.cos (dotK k1 k2 z + δ)) := fun a =>
    ⟨fun x y => by have := (hper δ).1 x y; beta_reduce at this ⊢; rw [this],
     fun x y => by have := (hper δ).2 x y; beta_reduce at this ⊢; rw [this]⟩
  have side := fun c hc j a b => at_side M (G := fun a z => s a * Real.cos (dotK k1 k2 z + δ)) hG hu
    (c := c) hc (j := j) a b
  beta_reduce at side
  set A := dotK k1 k2 (edgeAt M.m e) + δ with hA
  set x := ph M.dc k1 k2 0 with hx
  set y := ph M.dc k1 k2 2 with hy
  have N := normal_eq M.valid M.built h0 h1
  have U : ∀ j : Int, 0 ≤ j → j < 6 →
      u (E M.p.nx M.p.ny (e / 3) j) = s (j % 3) * Real.cos (A + (ph M.dc k1 k2 j - ph M.dc k1 k2 (e % 3))) ∧
      u (E M.p.nx M.p.ny (coe M.p.nx M.p.ny e 0) j) =
        s (j % 3) * Real.cos (A + (ph M.dc k1 k2 j + ph M.dc k1 k2 (e % 3))) := by
    intro j a b
    obtain ⟨c0, c1⟩ := cells_of_edge M.valid M.even M.built (hper (ph M.dc k1 k2 j + δ)) h0 h1
    rw [coe_one] at c1
    have sh : ∀ c, dotK k1 k2 (cellAt M.m c + (M.dc / 2) • dir j) + δ =
        dotK k1 k2 (cellAt M.m c) + (ph M.dc k1 k2 j + δ) := fun c => by
      rw [dotK_add, dotK_smul, ph]; ring
    constructor
    · rw [side _ hc j a b, sh, c1, N, dotK_add, dotK_smul, dotK_neg]
      congr 2
      simp only [hA, ph]; ring
    · rw [side _ hc0 j a b, sh, c0, N, dotK_sub, dotK_smul, dotK_neg]
      congr 2
      simp only [hA, ph]; ring
  have lo : ∀ j r : Int, 0 ≤ j → j < 6 → j % 3 = r → ∀ t, ph M.dc k1 k2 j - ph M.dc k1 k2 (e % 3) = t →
      u (E M.p.nx M.p.ny (e / 3) j) = s r * (Real.cos A * Real.cos t - Real.sin A * Real.sin t) :=
    fun j r a b hr t ht => by rw [(U j a b).1, ht, Real.cos_add, hr]
  have lo' : ∀ j r : Int, 0 ≤ j → j < 6 → j % 3 = r → ∀ t, ph M.dc k1 k2 j - ph M.dc k1 k2 (e % 3) = -t →
      u (E M.p.nx M.p.ny (e / 3) j) = s r * (Real.cos A * Real.cos t + Real.sin A * Real.sin t) :=
    fun j r a b hr t ht => by rw [(U j a b).1, ht, ← sub_eq_add_neg, Real.cos_sub, hr]
  have hi : ∀ j r : Int, 0 ≤ j → j < 6 → j % 3 = r → ∀ t, ph M.dc k1 k2 j + ph M.dc k1 k2 (e % 3) = t →
      u (E M.p.nx M.p.ny (coe M.p.nx M.p.ny e 0) j) =
        s r * (Real.cos A * Real.cos t - Real.sin A * Real.sin t) :=
    fun j r a b hr t ht => by rw [(U j a b).2, ht, Real.cos_add, hr]
  have hi' : ∀ j r : Int, 0 ≤ j → j < 6 → j % 3 = r → ∀ t, ph M.dc k1 k2 j + ph M.dc k1 k2 (e % 3) = -t →
      u (E M.p.nx M.p.ny (coe M.p.nx M.p.ny e 0) j) =
        s r * (Real.cos A * Real.cos t + Real.sin A * Real.sin t) :=
    fun j r a b hr t ht => by rw [(U j a b).2, ht, ← sub_eq_add_neg, Real.cos_sub, hr]
  rw [spec_tang M.geo u h0 h1, mul_assoc]
  congr 1
  unfold Tn
  rw [Tw_eq hnx _ hc]
  unfold Tq
  obtain h | h | h : e % 3 = 0 ∨ e % 3 = 1 ∨ e % 3 = 2 := by omega
  · rw [h] at lo lo' hi hi' ⊢
    have a1 := lo 1 1 (by norm_num) (by norm_num) (by norm_num) y
      (by simp only [ph1, ph3, ph4, ph5, ← hx, ← hy]; try ring)
    have a2 := lo' 2 2 (by norm_num) (by norm_num) (by norm_num) (x - y)
      (by simp only [ph1, ph3, ph4, ph5, ← hx, ← hy]; try ring)
    have a4 := lo' 4 1 (by norm_num) (by norm_num) (by norm_num) (2 * x + y)
      (by simp only [ph1, ph3, ph4, ph5, ← hx, ← hy]; try ring)
    have a5 := lo' 5 2 (by norm_num) (by norm_num) (by norm_num) (x + y)
      (by simp only [ph1, ph3, ph4, ph5, ← hx, ← hy]; try ring)
    have b4 := hi' 4 1 (by norm_num) (by norm_num) (by norm_num) y
      (by simp only [ph1, ph3, ph4, ph5, ← hx, ← hy]; try ring)
    have b5 := hi 5 2 (by norm_num) (by norm_num) (by norm_num) (x - y)
      (by simp only [ph1, ph3, ph4, ph5, ← hx, ← hy]; try ring)
    have b1 := hi 1 1 (by norm_num) (by norm_num) (by norm_num) (2 * x + y)
      (by simp only [ph1, ph3, ph4, ph5, ← hx, ← hy]; try ring)
    have b2 := hi 2 2 (by norm_num) (by norm_num) (by norm_num) (x + y)
      (by simp only [ph1, ph3, ph4, ph5, ← hx, ← hy]; try ring)
    norm_num
    rw [a1, a2, a4, a5, b4, b5, b1, b2]
    norm_num [wRaw, recon, cpl]
    ring
  · rw [h] at lo lo' hi hi' ⊢
    have a2 := lo' 2 2 (by norm_num) (by norm_num) (by norm_num) x
      (by simp only [ph1, ph3, ph4, ph5, ← hx, ← hy]; try ring)
    have a3 := lo' 3 0 (by norm_num) (by norm_num) (by norm_num) (2 * x + y)
      (by simp only [ph1, ph3, ph4, ph5, ← hx, ← hy]; try ring)
    have a5 := lo' 5 2 (by norm_num) (by norm_num) (by norm_num) (x + 2 * y)
      (by simp only [ph1, ph3, ph4, ph5, ← hx, ← hy]; try ring)
    have a0 := lo' 0 0 (by norm_num) (by norm_num) (by norm_num) y
      (by simp only [ph1, ph3, ph4, ph5, ← hx, ← hy]; try ring)
    have b5 := hi 5 2 (by norm_num) (by norm_num) (by norm_num) x
      (by simp only [ph1, ph3, ph4, ph5, ← hx, ← hy]; try ring)
    have b0 := hi 0 0 (by norm_num) (by norm_num) (by norm_num) (2 * x + y)
      (by simp only [ph1, ph3, ph4, ph5, ← hx, ← hy]; try ring)
    have b2 := hi 2 2 (by norm_num) (by norm_num) (by norm_num) (x + 2 * y)
      (by simp only [ph1, ph3, ph4, ph5, ← hx, ← hy]; try ring)
    have b3 := hi 3 0 (by norm_num) (by norm_num) (by norm_num) y
      (by simp only [ph1, ph3, ph4, ph5, ← hx, ← hy]; try ring)
    norm_num
    rw [a2, a3, a5, a0, b5, b0, b2, b3]
    norm_num [wRaw, recon, cpl]
    ring
  · rw [h] at lo lo' hi hi' ⊢
    have a3 := lo' 3 0 (by norm_num) (by norm_num) (by norm_num) (x + y)
      (by simp only [ph1, ph3, ph4, ph5, ← hx, ← hy]; try ring)
    have a4 := lo' 4 1 (by norm_num) (by norm_num) (by norm_num) (x + 2 * y)
      (by simp only [ph1, ph3, ph4, ph5, ← hx, ← hy]; try ring)
    have a0 := lo 0 0 (by norm_num) (by norm_num) (by norm_num) (x - y)
      (by simp only [ph1, ph3, ph4, ph5, ← hx, ← hy]; try ring)
    have a1 := lo 1 1 (by norm_num) (by norm_num) (by norm_num) x
      (by simp only [ph1, ph3, ph4, ph5, ← hx, ← hy]; try ring)
    have b0 := hi 0 0 (by norm_num) (by norm_num) (by norm_num) (x + y)
      (by simp only [ph1, ph3, ph4, ph5, ← hx, ← hy]; try ring)
    have b1 := hi 1 1 (by norm_num) (by norm_num) (by norm_num) (x + 2 * y)
      (by simp only [ph1, ph3, ph4, ph5, ← hx, ← hy]; try ring)
    have b3 := hi' 3 0 (by norm_num) (by norm_num) (by norm_num) (x - y)
      (by simp only [ph1, ph3, ph4, ph5, ← hx, ← hy]; try ring)
    have b4 := hi' 4 1 (by norm_num) (by norm_num) (by norm_num) x
      (by simp only [ph1, ph3, ph4, ph5, ← hx, ← hy]; try ring)
    norm_num
    rw [a3, a4, a0, a1, b0, b1, b3, b4]
    norm_num [wRaw, recon, cpl]
    ring

/-- the vector of the reconstruction is orthogonal to gradients -/
theorem recon_orth (x y : ℝ) :
    cpl (x + y) (x - y) * Real.sin (x + y) - cpl x (x + 2 * y) * Real.sin x -
      cpl y (2 * x + y) * Real.sin y = 0 := by
  unfold cpl
  rw [show x + 2 * y = y + (x + y) by ring, show 2 * x + y = x + (x + y) by ring, Real.cos_add y, Real.cos_add x (x + y),
    Real.cos_add x y, Real.sin_add, Real.cos_sub]
  have hX := Real.sin_sq_add_cos_sq x
  have hY := Real.sin_sq_add_cos_sq y
  linear_combination (2 / 3 * Real.sin y * Real.cos y) * hX + (2 / 3 * Real.sin x * Real.cos x) * hY

/-- amplitudes of a gradient -/
def gradAmp (x y : ℝ) (a : Int) : ℝ := -Real.sin (if a = 0 then x else if a = 1 then x + y else y)

/-- sum of the squares of the couplings -/
def cplSq (x y : ℝ) : ℝ := cpl x (x + 2 * y) ^ 2 + cpl (x + y) (x - y) ^ 2 + cpl y (2 * x + y) ^ 2

theorem recon_recon (x y : ℝ) {a : Int} (h0 : 0 ≤ a) (h3 : a < 3) :
    recon x y (fun b => 1 / √3 * recon x y (gradAmp x y) b) a = -(1 / √3 * (cplSq x y * gradAmp x y a)) := by
  have o := recon_orth x y
  obtain rfl | rfl | rfl : a = 0 ∨ a = 1 ∨ a = 2 := by omega
  all_goals
    norm_num [recon, gradAmp, cplSq]
  · linear_combination ((√3)⁻¹ * cpl x (x + 2 * y)) * o
  · linear_combination (-(√3)⁻¹ * cpl (x + y) (x - y)) * o
  · linear_combination ((√3)⁻¹ * cpl y (2 * x + y)) * o

theorem recon_skew (x y : ℝ) (s : Int → ℝ) :
    s 0 * recon x y s 0 + s 1 * recon x y s 1 + s 2 * recon x y s 2 = 0 := by
  norm_num [recon]; ring

theorem cplSq_eq (dc k1 k2 : ℝ) : cplSq (ph dc k1 k2 0) (ph dc k1 k2 2) = 3 * rotSymbol dc k1 k2 := by
  have e0 : ph dc k1 k2 0 = -(dc / 2 * k1) := by norm_num [ph, dotK, dir, DX, DY]
  have e2 : ph dc k1 k2 2 = dc / 2 * (k1 / 2 - √3 / 2 * k2) := by
    norm_num [ph, dotK, dir, DX, DY]; left; ring
  unfold cplSq rotSymbol cpl
  rw [e0, e2, show -(dc / 2 * k1) + 2 * (dc / 2 * (k1 / 2 - √3 / 2 * k2)) = -(dc / 2 * (√3 * k2)) by ring,
    show -(dc / 2 * k1) + dc / 2 * (k1 / 2 - √3 / 2 * k2) = -(dc / 2 * (k1 / 2 + √3 / 2 * k2)) by ring,
    show -(dc / 2 * k1) - dc / 2 * (k1 / 2 - √3 / 2 * k2) = -(dc / 2 * (3 / 2 * k1 - √3 / 2 * k2)) by ring,
    show 2 * -(dc / 2 * k1) + dc / 2 * (k1 / 2 - √3 / 2 * k2) = -(dc / 2 * (3 / 2 * k1 + √3 / 2 * k2)) by ring]
  simp only [Real.cos_neg]
  ring

/-! ### The discrete dispersion relation with rotation -/

/-- The averages of the Coriolis term reduce the square of the Coriolis parameter by a factor between
`1 - 5 dc² |k|² / 24` and one. -/
theorem C105_coriolis_factor (dc k1 k2 : ℝ) :
    1 - 5 / 24 * (dc ^ 2 * (k1 ^ 2 + k2 ^ 2)) ≤ rotSymbol dc k1 k2 ∧ 0 ≤ rotSymbol dc k1 k2 ∧
      rotSymbol dc k1 k2 ≤ 1 := by
  have s3 : √3 ^ 2 = (3 : ℝ) := Real.sq_sqrt (by norm_num)
  have lo : ∀ a b : ℝ, 9 - 6 * a ^ 2 - 3 * b ^ 2 ≤ (2 * Real.cos a + Real.cos b) ^ 2 := fun a b => by
    have h1 := Real.one_sub_sq_div_two_le_cos (x := a)
    have h2 := Real.one_sub_sq_div_two_le_cos (x := b)
    nlinarith [sq_nonneg (3 - (2 * Real.cos a + Real.cos b))]
  have hi : ∀ a b : ℝ, (2 * Real.cos a + Real.cos b) ^ 2 ≤ 9 := fun a b => by
    have h1 := Real.neg_one_le_cos a
    have h2 := Real.neg_one_le_cos b
    have h3 := Real.cos_le_one a
    have h4 := Real.cos_le_one b
    nlinarith
  unfold rotSymbol
  refine ⟨?_, by positivity, ?_⟩
  · have l1 := lo (dc / 2 * k1) (dc / 2 * (√3 * k2))
    have l2 := lo (dc / 2 * (k1 / 2 + √3 / 2 * k2)) (dc / 2 * (3 / 2 * k1 - √3 / 2 * k2))
    have l3 := lo (dc / 2 * (k1 / 2 - √3 / 2 * k2)) (dc / 2 * (3 / 2 * k1 + √3 / 2 * k2))
    have sum : 6 * (dc / 2 * k1) ^ 2 + 3 * (dc / 2 * (√3 * k2)) ^ 2 +
        (6 * (dc / 2 * (k1 / 2 + √3 / 2 * k2)) ^ 2 + 3 * (dc / 2 * (3 / 2 * k1 - √3 / 2 * k2)) ^ 2) +
        (6 * (dc / 2 * (k1 / 2 - √3 / 2 * k2)) ^ 2 + 3 * (dc / 2 * (3 / 2 * k1 + √3 / 2 * k2)) ^ 2) =
        45 / 8 * (dc ^ 2 * (k1 ^ 2 + k2 ^ 2)) := by
      linear_combination (15 / 8 * dc ^ 2 * k2 ^ 2) * s3
    rw [le_div_iff₀ (by norm_num)]
    linarith
  · rw [div_le_one (by norm_num)]
    have l1 := hi (dc / 2 * k1) (dc / 2 * (√3 * k2))
    have l2 := hi (dc / 2 * (k1 / 2 + √3 / 2 * k2)) (dc / 2 * (3 / 2 * k1 - √3 / 2 * k2))
    have l3 := hi (dc / 2 * (k1 / 2 - √3 / 2 * k2)) (dc / 2 * (3 / 2 * k1 + √3 / 2 * k2))
    linarith

/-- Discrete inertia-gravity waves are never faster than the exact ones with `ω² = f² + g H |k|²`, and the
square of their frequency is smaller by at most the fraction `5 dc² |k|² / 24`. -/
theorem C105_frequency {dc f g H ω k1 k2 : ℝ} (hdc : 0 < dc) (g0 : 0 ≤ g) (H0 : 0 ≤ H)
    (hw : ω ^ 2 = f ^ 2 * rotSymbol dc k1 k2 + g * H * lapSymbol dc k1 k2) :
    ω ^ 2 ≤ f ^ 2 + g * H * (k1 ^ 2 + k2 ^ 2) ∧
    (f ^ 2 + g * H * (k1 ^ 2 + k2 ^ 2)) * (1 - 5 / 24 * (dc ^ 2 * (k1 ^ 2 + k2 ^ 2))) ≤ ω ^ 2 := by
  obtain ⟨l1, l2, -, -⟩ := C98_dispersion_bounds hdc k1 k2
  obtain ⟨r1, -, r2⟩ := C105_coriolis_factor dc k1 k2
  have gH : 0 ≤ g * H := by positivity
  rw [hw]
  constructor
  · have := mul_le_mul_of_nonneg_left r2 (sq_nonneg f)
    have := mul_le_mul_of_nonneg_left l2 gH
    linarith
  · have a := mul_le_mul_of_nonneg_left r1 (sq_nonneg f)
    have b := mul_le_mul_of_nonneg_left l1 gH
    have c : (k1 ^ 2 + k2 ^ 2) * (1 - 5 / 24 * (dc ^ 2 * (k1 ^ 2 + k2 ^ 2))) ≤
        (k1 ^ 2 + k2 ^ 2) * (1 - dc ^ 2 * (k1 ^ 2 + k2 ^ 2) / 16) :=
      mul_le_mul_of_nonneg_left (by nlinarith [show 0 ≤ dc ^ 2 * (k1 ^ 2 + k2 ^ 2) by positivity]) (by positivity)
    have d := mul_le_mul_of_nonneg_left c gH
    linarith

/-! ### Travelling waves -/

/-- difference of the wave across an edge, up to a factor and a quarter of a period -/
def waveG (m : Mem ℝ) (dc k1 k2 θ : ℝ) (e : Int) : ℝ :=
  Real.sin (dc / 2 * dotK k1 k2 (normal m e)) * Real.cos (dotK k1 k2 (edgeAt m e) - θ)

/-- Normal velocity of the inertia-gravity wave whose thickness is `waveH`: a part along the gradient of the
thickness, and `f / ω` times the tangential reconstruction of that part a quarter of a period later. -/
def waveV (m : Mem ℝ) (f H ω dc k1 k2 θ : ℝ) (e : Int) : ℝ :=
  2 * ω / (H * dc * lapSymbol dc k1 k2) *
    (waveG m dc k1 k2 θ e - f / ω * Spec.tang m (waveG m dc k1 k2 (θ + Real.pi / 2)) e)

theorem waveG_amp (M : MeshOf D T) (k1 k2 θ : ℝ) {e : Int} (h0 : 0 ≤ e) (h1 : e < M.p.dims.nedges) :
    waveG M.m M.dc k1 k2 θ e = gradAmp (ph M.dc k1 k2 0) (ph M.dc k1 k2 2) (e % 3) *
      Real.cos (dotK k1 k2 (edgeAt M.m e) + -θ) := by
  have : Real.sin (M.dc / 2 * dotK k1 k2 (normal M.m e)) =
      gradAmp (ph M.dc k1 k2 0) (ph M.dc k1 k2 2) (e % 3) := by
    rw [normal_eq M.valid M.built h0 h1, dotK_neg, mul_neg, Real.sin_neg]
    obtain h | h | h : e % 3 = 0 ∨ e % 3 = 1 ∨ e % 3 = 2 := by omega
    all_goals rw [h]
    · simp [gradAmp, ph]
    · rw [show M.dc / 2 * dotK k1 k2 (dir 1) = ph M.dc k1 k2 1 from rfl, ph1]; norm_num [gradAmp]
    · norm_num [gradAmp, ph]
  unfold waveG
  rw [this, sub_eq_add_neg]

/-- reconstructing a gradient twice turns it round and reduces it -/
theorem tang_tang (M : MeshOf D T) {k1 k2 : ℝ} (hk : Fits M.p M.dc k1 k2) (θ : ℝ) {e : Int} (h0 : 0 ≤ e)
    (h1 : e < M.p.dims.nedges) :
    Spec.tang M.m (Spec.tang M.m (waveG M.m M.dc k1 k2 θ)) e =
      -(rotSymbol M.dc k1 k2 * waveG M.m M.dc k1 k2 θ e) := by
  have t1 := fun e a b => tang_wave M hk (-θ) (u := waveG M.m M.dc k1 k2 θ)
    (fun e a b => waveG_amp M k1 k2 θ a b) (e := e) a b
  rw [tang_wave M hk (-θ) (s := fun b => 1 / √3 * recon (ph M.dc k1 k2 0) (ph M.dc k1 k2 2)
      (gradAmp (ph M.dc k1 k2 0) (ph M.dc k1 k2 2)) b) t1 h0 h1,
    recon_recon _ _ (by omega) (by omega), cplSq_eq, waveG_amp M k1 k2 θ h0 h1]
  have hw := w_sq
  have hw0 := w_pos
  field_simp
  rw [show √3 ^ 2 = √3 * √3 by ring, hw]

/-- the reconstruction of a gradient has no divergence -/
theorem div_tang_wave (M : MeshOf D T) {k1 k2 : ℝ} (hk : Fits M.p M.dc k1 k2) (θ : ℝ) {c : Int}
    (hc : IsCell M.p.nx M.p.ny c) :
    Spec.div M.m (Spec.tang M.m (waveG M.m M.dc k1 k2 θ)) c = 0 := by
  have t1 := fun e a b => tang_wave M hk (-θ) (u := waveG M.m M.dc k1 k2 θ)
    (fun e a b => waveG_amp M k1 k2 θ a b) (e := e) a b
  set x := ph M.dc k1 k2 0 with hx
  set y := ph M.dc k1 k2 2 with hy
  set r : Int → ℝ := fun b => 1 / √3 * recon x y (gradAmp x y) b with hr
  have hper : Periodic2 M.P M.Q fun z => Real.cos (dotK k1 k2 z + -θ) := hk.periodic (-θ)
  rw [div_sides M (G := fun a z => r a * Real.cos (dotK k1 k2 z + -θ))
    (fun a => ⟨fun x y => by have := hper.1 x y; beta_reduce at this ⊢; rw [this],
     fun x y => by have := hper.2 x y; beta_reduce at this ⊢; rw [this]⟩) t1 hc]
  set B := dotK k1 k2 (cellAt M.m c) + -θ with hB
  have pr : ∀ a : Int, r a * Real.cos (dotK k1 k2 (cellAt M.m c - M.dc • ((1 / 2 : ℝ) • dir a)) + -θ) -
      r a * Real.cos (dotK k1 k2 (cellAt M.m c + M.dc • ((1 / 2 : ℝ) • dir a)) + -θ) =
      2 * Real.sin B * (r a * Real.sin (ph M.dc k1 k2 a)) := fun a => by
    rw [dotK_sub, dotK_add, dotK_smul, dotK_smul,
      show dotK k1 k2 (cellAt M.m c) - M.dc * (1 / 2 * dotK k1 k2 (dir a)) + -θ = B - ph M.dc k1 k2 a by
        simp only [hB, ph]; ring,
      show dotK k1 k2 (cellAt M.m c) + M.dc * (1 / 2 * dotK k1 k2 (dir a)) + -θ = B + ph M.dc k1 k2 a by
        simp only [hB, ph]; ring, Real.cos_sub B, Real.cos_add B]
    ring
  rw [pr 0, pr 1, pr 2, ph1, ← hx, ← hy]
  have sk := recon_skew x y (gradAmp x y)
  have g0 : gradAmp x y 0 = -Real.sin x := by simp [gradAmp]
  have g1 : gradAmp x y 1 = -Real.sin (x + y) := by simp [gradAmp]
  have g2 : gradAmp x y 2 = -Real.sin y := by norm_num [gradAmp]
  rw [g0, g1, g2] at sk
  simp only [hr]
  linear_combination (-(2 / (3 * M.dc) * (2 * Real.sin B) * (1 / √3))) * sk

section

variable {p : MeshParams} {dc : ℝ} {m : Mem ℝ}

theorem SameMesh.tang {m m' : Mem ℝ} (h : SameMesh m m') : Spec.tang m = Spec.tang m' := by
  funext u e; unfold Spec.tang
  rw [h.int, h.real _ rfl]

variable (h : Geo2 p.nx p.ny p.dims.nlayers dc m.mesh) (hv : MeshParams.Valid p) (hnx : 2 ≤ p.nx)
  (hny : p.ny % 2 = 0) {m' : Mem ℝ} (hb : Built p dc m') (hs : SameMesh m m') {g f H ω k1 k2 : ℝ} (g0 : 0 < g)
  (H0 : 0 < H) (w0 : ω ≠ 0) (l0 : 0 < lapSymbol dc k1 k2)
  (hw : ω ^ 2 = f ^ 2 * rotSymbol dc k1 k2 + g * H * lapSymbol dc k1 k2) (hk : Fits p dc k1 k2)
include h hv hnx hny hb hs g0 H0 w0 l0 hw hk

theorem waveG_same (θ : ℝ) : waveG m dc k1 k2 θ = waveG m' dc k1 k2 θ := by
  funext e; unfold waveG; rw [hs.edgeAt, hs.normal]

theorem ig_grad (θ : ℝ) {e : Int} (h0 : 0 ≤ e) (h1 : e < p.dims.nedges) :
    Spec.grad m (waveH m k1 k2 θ) e = -(2 / dc * waveG m dc k1 k2 (θ + Real.pi / 2) e) := by
  let M : MeshOf dc (fun _ _ => Unit) := ⟨p, dc, m', (), hv, hnx, hny, h.dc_pos, le_rfl, hb⟩
  have := grad_wave M (k1 := k1) (k2 := k2) hk (-θ) h0 h1
  change Spec.grad m' (fun c => Real.cos (dotK k1 k2 (cellAt m' c) + -θ)) e =
    -(2 / dc * Real.sin (dc / 2 * dotK k1 k2 (normal m' e)) * Real.sin (dotK k1 k2 (edgeAt m' e) + -θ)) at this
  unfold waveH waveG
  rw [hs.grad, hs.cellAt, hs.edgeAt, hs.normal]
  simp only [sub_eq_add_neg] at this ⊢
  rw [this, show dotK k1 k2 (edgeAt m' e) + -(θ + Real.pi / 2) = dotK k1 k2 (edgeAt m' e) + -θ - Real.pi / 2 by ring,
    Real.cos_sub_pi_div_two]
  ring

theorem ig_div (θ : ℝ) {c : Int} (hc : IsCell p.nx p.ny c) :
    Spec.div m (waveG m dc k1 k2 θ) c = -(dc / 2 * lapSymbol dc k1 k2 * waveH m k1 k2 (θ + Real.pi / 2) c) := by
  let M : MeshOf dc (fun _ _ => Unit) := ⟨p, dc, m', (), hv, hnx, hny, h.dc_pos, le_rfl, hb⟩
  have d0 := h.dc_pos
  have e1 : Spec.div m (waveG m dc k1 k2 θ) c =
      Spec.div m (fun e => -(dc / 2) * Spec.grad m (waveH m k1 k2 (θ - Real.pi / 2)) e) c := by
    rw [spec_div h _ hc, spec_div h _ hc]
    congr 1
    refine Dv_congr h.hnx (fun e a b => ?_) hc
    have := ig_grad h hv hnx hny hb hs g0 H0 w0 l0 hw hk (θ - Real.pi / 2) a b
    rw [sub_add_cancel] at this
    rw [this]
    field_simp
  have := lap_wave M (k1 := k1) (k2 := k2) hk (-(θ - Real.pi / 2)) hc
  change Spec.div m' (Spec.grad m' fun c => Real.cos (dotK k1 k2 (cellAt m' c) + -(θ - Real.pi / 2))) c =
    -(lapSymbol dc k1 k2 * Real.cos (dotK k1 k2 (cellAt m' c) + -(θ - Real.pi / 2))) at this
  rw [e1, div_mul']
  unfold waveH
  rw [hs.grad, hs.cellAt, hs.div]
  simp only [sub_eq_add_neg] at this ⊢
  rw [this]
  have c1 : Real.cos (dotK k1 k2 (cellAt m' c) + -(θ + -(Real.pi / 2))) =
      -Real.cos (dotK k1 k2 (cellAt m' c) + -(θ + Real.pi / 2)) := by
    rw [← Real.cos_add_pi]
    congr 1; ring
  rw [c1]
  ring

theorem waveG_neg (θ : ℝ) : waveG m dc k1 k2 (θ + Real.pi / 2 + Real.pi / 2) = fun e => -1 * waveG m dc k1 k2 θ e := by
  funext e
  unfold waveG
  rw [show θ + Real.pi / 2 + Real.pi / 2 = θ + Real.pi by ring, ← sub_sub, Real.cos_sub_pi]
  ring

theorem ig_tend_h (θ : ℝ) {c : Int} (hc : IsCell p.nx p.ny c) :
    -(H * Spec.div m (waveV m f H ω dc k1 k2 θ) c) = ω * waveH m k1 k2 (θ + Real.pi / 2) c := by
  let M : MeshOf dc (fun _ _ => Unit) := ⟨p, dc, m', (), hv, hnx, hny, h.dc_pos, le_rfl, hb⟩
  have d0 := h.dc_pos
  have z := div_tang_wave M (k1 := k1) (k2 := k2) hk (θ + Real.pi / 2) hc
  change Spec.div m' (Spec.tang m' (waveG m' dc k1 k2 (θ + Real.pi / 2))) c = 0 at z
  rw [← hs.div, ← SameMesh.tang hs, ← waveG_same h hv hnx hny hb hs g0 H0 w0 l0 hw hk] at z
  have e : waveV m f H ω dc k1 k2 θ = fun e => 2 * ω / (H * dc * lapSymbol dc k1 k2) *
      (waveG m dc k1 k2 θ e + -(f / ω) * Spec.tang m (waveG m dc k1 k2 (θ + Real.pi / 2)) e) := by
    funext e; unfold waveV; ring
  rw [e, div_mul', div_add', div_mul', z, ig_div h hv hnx hny hb hs g0 H0 w0 l0 hw hk θ hc]
  field_simp
  ring

theorem ig_tend_u (θ : ℝ) {e : Int} (h0 : 0 ≤ e) (h1 : e < p.dims.nedges) :
    f * Spec.tang m (waveV m f H ω dc k1 k2 θ) e - g * Spec.grad m (waveH m k1 k2 θ) e =
      ω * waveV m f H ω dc k1 k2 (θ + Real.pi / 2) e := by
  let M : MeshOf dc (fun _ _ => Unit) := ⟨p, dc, m', (), hv, hnx, hny, h.dc_pos, le_rfl, hb⟩
  have d0 := h.dc_pos
  have z := tang_tang M (k1 := k1) (k2 := k2) hk (θ + Real.pi / 2) h0 h1
  change Spec.tang m' (Spec.tang m' (waveG m' dc k1 k2 (θ + Real.pi / 2))) e =
    -(rotSymbol dc k1 k2 * waveG m' dc k1 k2 (θ + Real.pi / 2) e) at z
  rw [← SameMesh.tang hs, ← waveG_same h hv hnx hny hb hs g0 H0 w0 l0 hw hk] at z
  have ev : waveV m f H ω dc k1 k2 θ = fun e => 2 * ω / (H * dc * lapSymbol dc k1 k2) *
      (waveG m dc k1 k2 θ e + -(f / ω) * Spec.tang m (waveG m dc k1 k2 (θ + Real.pi / 2)) e) := by
    funext e; unfold waveV; ring
  rw [ev, tang_mul', tang_add', tang_mul', z, ig_grad h hv hnx hny hb hs g0 H0 w0 l0 hw hk θ h0 h1]
  unfold waveV
  rw [waveG_neg h hv hnx hny hb hs g0 H0 w0 l0 hw hk, tang_mul']
  set G := waveG m dc k1 k2 (θ + Real.pi / 2) e
  set L := lapSymbol dc k1 k2
  set R := rotSymbol dc k1 k2
  set U := Spec.tang m (waveG m dc k1 k2 θ) e
  field_simp
  linear_combination (-G) * hw

/-- the linear equations turn the phase of the wave by a quarter -/
theorem ig_turn (θ : ℝ) :
    restMap p.dims m g H (restOp m g f H (waveH m k1 k2 θ, waveV m f H ω dc k1 k2 θ)) =
    ω • restMap p.dims m g H (waveH m k1 k2 (θ + Real.pi / 2), waveV m f H ω dc k1 k2 (θ + Real.pi / 2)) := by
  ext i
  rcases i with c | e
  · have hc := mem_cells.mp c.2
    have v : (restOp m g f H (waveH m k1 k2 θ, waveV m f H ω dc k1 k2 θ)).1 c =
        ω * waveH m k1 k2 (θ + Real.pi / 2) c := ig_tend_h h hv hnx hny hb hs g0 H0 w0 l0 hw hk θ hc
    simp only [restMap, LinearMap.coe_mk, AddHom.coe_mk, v, PiLp.smul_apply, Sum.elim_inl, smul_eq_mul]
    ring
  · have he := Finset.mem_Ico.mp e.2
    have v : (restOp m g f H (waveH m k1 k2 θ, waveV m f H ω dc k1 k2 θ)).2 e =
        ω * waveV m f H ω dc k1 k2 (θ + Real.pi / 2) e :=
      ig_tend_u h hv hnx hny hb hs g0 H0 w0 l0 hw hk θ he.1 he.2
    simp only [restMap, LinearMap.coe_mk, AddHom.coe_mk, v, PiLp.smul_apply, Sum.elim_inr, smul_eq_mul]
    ring

/-- A combination of a wave and the wave a quarter of a period later is a wave. -/
theorem ig_shift (A θ τ : ℝ) {α β : ℝ} (re : A * Real.cos τ = α) (im : A * Real.sin τ = β) :
    α • (waveH m k1 k2 θ, waveV m f H ω dc k1 k2 θ) +
      β • (waveH m k1 k2 (θ + Real.pi / 2), waveV m f H ω dc k1 k2 (θ + Real.pi / 2)) =
    A • (waveH m k1 k2 (θ + τ), waveV m f H ω dc k1 k2 (θ + τ)) := by
  have cs : ∀ a t : ℝ, α * Real.cos (a - t) + β * Real.cos (a - (t + Real.pi / 2)) = A * Real.cos (a - (t + τ)) :=
    fun a t => by
      rw [← re, ← im, ← sub_sub, ← sub_sub, Real.cos_sub_pi_div_two, Real.cos_sub _ τ]
      ring
  have gs : ∀ t e, α * waveG m dc k1 k2 t e + β * waveG m dc k1 k2 (t + Real.pi / 2) e =
      A * waveG m dc k1 k2 (t + τ) e := fun t e => by
    unfold waveG
    linear_combination Real.sin (dc / 2 * dotK k1 k2 (normal m e)) * cs (dotK k1 k2 (edgeAt m e)) t
  refine Prod.ext (funext fun c => cs _ θ) (funext fun e => ?_)
  show α * waveV m f H ω dc k1 k2 θ e + β * waveV m f H ω dc k1 k2 (θ + Real.pi / 2) e =
    A * waveV m f H ω dc k1 k2 (θ + τ) e
  unfold waveV
  have ts : α * Spec.tang m (waveG m dc k1 k2 (θ + Real.pi / 2)) e +
      β * Spec.tang m (waveG m dc k1 k2 (θ + Real.pi / 2 + Real.pi / 2)) e =
      A * Spec.tang m (waveG m dc k1 k2 (θ + τ + Real.pi / 2)) e := by
    rw [← tang_mul', ← tang_mul', ← tang_add', ← tang_mul']
    congr 1
    funext e
    rw [gs, show θ + τ + Real.pi / 2 = θ + Real.pi / 2 + τ by ring]
  linear_combination 2 * ω / (H * dc * lapSymbol dc k1 k2) * gs θ e -
    2 * ω / (H * dc * lapSymbol dc k1 k2) * (f / ω) * ts

theorem ig_poly (P : ℝ[X]) (dt θ : ℝ) {A τ : ℝ}
    (hP : aeval ((dt * ω : ℝ) * Complex.I) P = A * Complex.exp (τ * Complex.I)) :
    (∀ c, 0 ≤ c → c < p.dims.ncells →
      (aeval (dt • restOp m g f H) P (waveH m k1 k2 θ, waveV m f H ω dc k1 k2 θ)).1 c =
        A * waveH m k1 k2 (θ + τ) c) ∧
    ∀ e, 0 ≤ e → e < p.dims.nedges →
      (aeval (dt • restOp m g f H) P (waveH m k1 k2 θ, waveV m f H ω dc k1 k2 θ)).2 e =
        A * waveV m f H ω dc k1 k2 (θ + τ) e := by
  have sk := rest_exactSkew h (f := f) g0.le H0 dt
  have turn := ig_turn h hv hnx hny hb hs g0 H0 w0 l0 hw hk
  have shift := fun A θ τ α β re im => ig_shift h hv hnx hny hb hs g0 H0 w0 l0 hw hk A θ τ (α := α) (β := β) re im
  have ker := fun x y (e : restMap p.dims m g H x = restMap p.dims m g H y) => by
    have := sk.ker (x - y) (by rw [map_sub, e, sub_self])
    rw [map_sub, map_sub, sub_eq_zero] at this
    exact this
  set W := fun θ => (waveH m k1 k2 θ, waveV m f H ω dc k1 k2 θ) with hW
  have t1 : ∀ θ, restMap p.dims m g H ((dt • restOp m g f H) (W θ)) =
      restMap p.dims m g H ((dt * ω) • W (θ + Real.pi / 2)) := fun θ => by
    rw [LinearMap.smul_apply, map_smul, map_smul, turn, smul_smul]
  have neg : ∀ θ, W (θ + Real.pi / 2 + Real.pi / 2) = -W θ := fun θ => by
    have := shift 1 (θ + Real.pi / 2) (Real.pi / 2 + Real.pi / 2) (-1) 0
      (by rw [add_halves, Real.cos_pi]; norm_num) (by rw [add_halves, Real.sin_pi]; norm_num)
    have t2 := shift 1 θ Real.pi (-1) 0 (by rw [Real.cos_pi]; norm_num) (by rw [Real.sin_pi]; norm_num)
    rw [zero_smul, add_zero, one_smul] at t2
    rw [add_assoc, add_halves]
    exact t2.symm.trans (neg_one_smul ℝ _)
  have osc : restMap p.dims m g H ((dt • restOp m g f H) ((dt • restOp m g f H) (W θ)) +
      (dt * ω) ^ 2 • W θ) = 0 := by
    rw [map_add, ker _ _ (t1 θ), map_smul, map_smul, t1, neg, map_smul, map_smul, map_neg]
    module
  obtain ⟨α, β, e1, e2⟩ := sk.osc_apply P osc
  rw [t1, map_smul, smul_smul] at e2
  have comb : (α • W θ + (β * (dt * ω)) • W (θ + Real.pi / 2)) = A • W (θ + τ) := by
    rw [hP] at e1
    have re : A * Real.cos τ = α := by
      have := congrArg Complex.re e1
      simpa [Complex.exp_ofReal_mul_I_re] using this
    have im : A * Real.sin τ = β * (dt * ω) := by
      have := congrArg Complex.im e1
      simpa [Complex.exp_ofReal_mul_I_im] using this
    exact shift A θ τ _ _ re im
  rw [← map_smul, ← map_smul, ← map_add, comb] at e2
  obtain ⟨r1, r2⟩ := rest_inj h hv hnx hny hb hs g0 H0 (ω := √(g * H * lapSymbol dc k1 k2)) (by positivity)
    (Real.sq_sqrt (by positivity)) hk e2
  exact ⟨r1, r2⟩

end

/-- Travelling inertia-gravity waves.  On a mesh with an even number of rows, without viscosity and with any
Coriolis parameter `f`, perturb the state of rest with thickness `H` by the plane wave `cos (k·x - θ₀)` whose
wave vector fits the periods of the domain, together with the velocity that belongs to it: a part along the
gradient and a part across it.  After `N` steps of size `dt` the first-order response is the same wave with
amplitude `A` and its phase advanced by `τ`, where `A exp (i τ)` is the `N`-th power of the stability polynomial
of the stepper at `i ω dt`; the frequency `ω`, of either sign, is given by the discrete dispersion relation
`ω² = f² σ(k) + g H λ(k)`.  For every stepper and step size, stable or not. -/
theorem C105_inertia_gravity (stp : Stepper) {p : MeshParams} {dc : ℝ} (hv : RunValid p) (hnx : 2 ≤ p.nx)
    (hny : p.ny % 2 = 0) (hdc : 0 < dc) {prm : Params ℝ} (n1 : prm.disable_h = false)
    (n2 : prm.disable_vn = false) (n3 : prm.visc_del2 ≤ 0) (n4 : prm.visc_del4 ≤ 0) (g0 : 0 < prm.grav)
    {H : ℝ} (H0 : 0 < H) {k1 k2 ω θ₀ : ℝ} (hk : Fits p dc k1 k2) (l0 : 0 < lapSymbol dc k1 k2)
    (hw : ω ^ 2 = prm.f0 ^ 2 * rotSymbol dc k1 k2 + prm.grav * H * lapSymbol dc k1 k2)
    {k : Int} (k0 : 0 ≤ k) (kl : k < p.dims.nlayers) {m m1 : ℝ → Mem ℝ}
    (hr : ∀ ε, Ready p dc prm (m ε))
    (ha0 : ∀ c, 0 ≤ c → c < p.dims.ncells → (m 0).real (.h_cell .state) 0 c k = H)
    (hb0 : ∀ e, 0 ≤ e → e < p.dims.nedges → (m 0).real (.vn_edge .state) 0 e k = 0)
    (ha : ∀ c, 0 ≤ c → c < p.dims.ncells →
      HasDerivAt (fun ε => (m ε).real (.h_cell .state) 0 c k) (waveH (m 0) k1 k2 θ₀ c) 0)
    (hb : ∀ e, 0 ≤ e → e < p.dims.nedges →
      HasDerivAt (fun ε => (m ε).real (.vn_edge .state) 0 e k) (waveV (m 0) prm.f0 H ω dc k1 k2 θ₀ e) 0)
    {sched : List (ℝ × ℝ)} {dt : ℝ} (hs : ∀ q ∈ sched, q.2 = dt) {split : Bool}
    (he : ∀ ε, Exec p.dims (stp.ctor p.dims ++ stp.run p.dims
      ⟨defaultKernels p.dims.vl, split⟩ (SWModel.ofParams prm) sched) (m ε) (m1 ε))
    {A τ : ℝ} (hP : aeval ((dt * ω : ℝ) * Complex.I) (stabPoly stp) ^ sched.length =
      A * Complex.exp (τ * Complex.I)) :
    (∀ c, 0 ≤ c → c < p.dims.ncells → HasDerivAt (fun ε => (m1 ε).real (.h_cell .state) 0 c k)
        (A * waveH (m 0) k1 k2 (θ₀ + τ) c) 0) ∧
    ∀ e, 0 ≤ e → e < p.dims.nedges → HasDerivAt (fun ε => (m1 ε).real (.vn_edge .state) 0 e k)
        (A * waveV (m 0) prm.f0 H ω dc k1 k2 (θ₀ + τ) e) 0 := by
  have hny2 : 2 ≤ p.ny := by have := hv.ny_pos; omega
  have hg := fun ε => Ready.geo2 (hr ε) hv.toValid hnx hny2 hdc
  have hf := fun ε => (Ready.hex hv.toValid (hr ε)).2.1
  obtain ⟨m', hbt, hsm⟩ := ready_mesh (hr 0)
  have w0 : ω ≠ 0 := by
    rintro rfl
    have a : 0 ≤ prm.f0 ^ 2 * rotSymbol dc k1 k2 :=
      mul_nonneg (sq_nonneg _) (C105_coriolis_factor dc k1 k2).2.1
    have : 0 < prm.grav * H * lapSymbol dc k1 k2 := by positivity
    nlinarith
  set sw := SWModel.ofParams prm with hsw
  have s5 : sw.en_vdiff = false := by
    show decide ((lit 0 : ℝ) < prm.visc_del2) = false
    simp [n3]
  have s6 : sw.en_vhyper = false := by
    show decide ((lit 0 : ℝ) < prm.visc_del4) = false
    simp [n4]
  have v := fun ε => by
    obtain ⟨hd, hc⟩ := ready_ok hv (hr ε)
    exact ((genSetup hd hc (hookOK_noHook (noHook_ofParams prm) p.dims (m ε))).newRun (he ε)).2.2
  have init : Tangent p.dims k (fun ε => (m ε).fld .state) H
      (waveH (m 0) k1 k2 θ₀, waveV (m 0) prm.f0 H ω dc k1 k2 θ₀) := ⟨ha0, hb0, ha, hb⟩
  have key := tangent_run hg hf (sw := sw) rfl rfl rfl rfl s5 s6 n1 n2 H0 stp sched
    (x := fun ε => (zeroFld, (m ε).fld .state)) init
  rw [fold_pow _ _ sched hs] at key
  rw [← map_pow] at hP
  obtain ⟨r1, r2⟩ := ig_poly (hg 0) hv.toValid hnx hny hbt hsm g0 H0 w0 l0 hw hk _ dt θ₀ hP
  refine ⟨fun c c0 c1 => ?_, fun e e0 e1 => ?_⟩
  · have := key.h1 c c0 c1
    rw [show (aeval (dt • restOp (m 0) sw.prm.grav prm.f0 H) (stabPoly stp ^ sched.length)
      (waveH (m 0) k1 k2 θ₀, waveV (m 0) prm.f0 H ω dc k1 k2 θ₀)).1 c = _ from r1 c c0 c1] at this
    exact this.congr_of_eventuallyEq (Filter.Eventually.of_forall fun ε => (v ε).h c k c0 c1 k0 kl)
  · have := key.v1 e e0 e1
    rw [show (aeval (dt • restOp (m 0) sw.prm.grav prm.f0 H) (stabPoly stp ^ sched.length)
      (waveH (m 0) k1 k2 θ₀, waveV (m 0) prm.f0 H ω dc k1 k2 θ₀)).2 e = _ from r2 e e0 e1] at this
    exact this.congr_of_eventuallyEq (Filter.Eventually.of_forall fun ε => (v ε).vn e k e0 e1 k0 kl)

/-- 24 cells, Coriolis parameter 3, the longest wave in the first direction, seven steps of size 1/50; the
factor of the stepper has an amplitude and a phase -/
example (stp : Stepper) : ∃ (prm : Params ℝ) (k1 ω : ℝ) (m m1 : ℝ → Mem ℝ) (sched : List (ℝ × ℝ)) (A τ : ℝ),
    RunValid p46 ∧ 2 ≤ p46.nx ∧ p46.ny % 2 = 0 ∧ prm.disable_h = false ∧ prm.disable_vn = false ∧
    prm.visc_del2 ≤ 0 ∧ prm.visc_del4 ≤ 0 ∧ prm.grav = 9 ∧ prm.f0 = 3 ∧ Fits p46 (1 / 4) k1 0 ∧
    0 < lapSymbol (1 / 4) k1 0 ∧
    ω ^ 2 = prm.f0 ^ 2 * rotSymbol (1 / 4) k1 0 + prm.grav * 2 * lapSymbol (1 / 4) k1 0 ∧ (0 : Int) ≤ 2 ∧
    2 < p46.dims.nlayers ∧ (∀ ε, Ready p46 (1 / 4) prm (m ε)) ∧
    (∀ c, 0 ≤ c → c < p46.dims.ncells → (m 0).real (.h_cell .state) 0 c 2 = 2) ∧
    (∀ e, 0 ≤ e → e < p46.dims.nedges → (m 0).real (.vn_edge .state) 0 e 2 = 0) ∧
    (∀ c, 0 ≤ c → c < p46.dims.ncells →
      HasDerivAt (fun ε => (m ε).real (.h_cell .state) 0 c 2) (waveH (m 0) k1 0 1 c) 0) ∧
    (∀ e, 0 ≤ e → e < p46.dims.nedges →
      HasDerivAt (fun ε => (m ε).real (.vn_edge .state) 0 e 2) (waveV (m 0) prm.f0 2 ω (1 / 4) k1 0 1 e) 0) ∧
    sched.length = 7 ∧ (∀ q ∈ sched, q.2 = 1 / 50) ∧ 0 ≤ A ∧
    aeval ((1 / 50 * ω : ℝ) * Complex.I) (stabPoly stp) ^ sched.length = A * Complex.exp (τ * Complex.I) ∧
    ∀ ε, Exec p46.dims (stp.ctor p46.dims ++ stp.run p46.dims
      ⟨defaultKernels p46.dims.vl, true⟩ (SWModel.ofParams prm) sched) (m ε) (m1 ε) := by
  obtain ⟨prm, hprm⟩ : ∃ q : Params ℝ, q = ⟨3, 9, 0, 0, 0, 0, false, false⟩ := ⟨_, rfl⟩
  have v := p46_run.toValid
  obtain ⟨k1, hk1⟩ : ∃ k : ℝ, k = 2 * Real.pi := ⟨_, rfl⟩
  have per : periodX p46.nx (1 / 4 : ℝ) = 1 := by
    show ((4 : Int) : ℝ) * (1 / 4) = 1
    norm_num
  have fits : Fits p46 (1 / 4) k1 0 := ⟨⟨1, by rw [per, hk1]; simp⟩, 0, by simp⟩
  have sym : lapSymbol (1 / 4) k1 0 = 64 - 128 / 3 * Real.cos (Real.pi / 4) := by
    unfold lapSymbol
    rw [hk1, show (1 / 4 : ℝ) * (2 * Real.pi) = Real.pi / 2 by ring,
      show (1 / 4 : ℝ) * (2 * Real.pi / 2 + √3 / 2 * 0) = Real.pi / 4 by ring,
      show (1 / 4 : ℝ) * (2 * Real.pi / 2 - √3 / 2 * 0) = Real.pi / 4 by ring, Real.cos_pi_div_two]
    ring
  have pos : 0 < lapSymbol (1 / 4) k1 0 := by
    rw [sym]; have := Real.cos_le_one (Real.pi / 4); linarith
  obtain ⟨ω, hω⟩ : ∃ w : ℝ, w = √(3 ^ 2 * rotSymbol (1 / 4) k1 0 + 9 * 2 * lapSymbol (1 / 4) k1 0) := ⟨_, rfl⟩
  have rp := (C105_coriolis_factor (1 / 4) k1 0).2.1
  have w2 : ω ^ 2 = prm.f0 ^ 2 * rotSymbol (1 / 4) k1 0 + prm.grav * 2 * lapSymbol (1 / 4) k1 0 := by
    rw [hω, Real.sq_sqrt (by positivity), hprm]
  obtain ⟨m₀, hr₀, -, -⟩ := exists_ready v (1 / 4) prm ⟨fun _ _ => 0, fun _ _ => 0, fun _ _ _ => 0⟩ zeroFld
  have ex := fun ε : ℝ => exists_ready v (1 / 4) prm
    ⟨fun c _ => 2 + ε * waveH m₀ k1 0 1 c, fun e _ => ε * waveV m₀ prm.f0 2 ω (1 / 4) k1 0 1 e, fun _ _ _ => 0⟩ zeroFld
  choose m hr hx _ using ex
  obtain ⟨sched, hsch⟩ : ∃ s : List (ℝ × ℝ), s = List.replicate 7 (0, 1 / 50) := ⟨_, rfl⟩
  have run := fun ε => by
    obtain ⟨hd, hc⟩ := ready_ok p46_run (hr ε)
    exact ((C40_safe_deterministic hd hc (noHook_ofParams prm) true).2.2 stp sched).2.exists
  choose m1 he using run
  have eh : ∀ ε c, (m ε).real (.h_cell .state) 0 c 2 = 2 + ε * waveH m₀ k1 0 1 c := fun ε c =>
    congrFun (congrFun (congrArg Fld.h (hx ε)) c) 2
  have ev : ∀ ε e, (m ε).real (.vn_edge .state) 0 e 2 = ε * waveV m₀ prm.f0 2 ω (1 / 4) k1 0 1 e := fun ε e =>
    congrFun (congrFun (congrArg Fld.vn (hx ε)) e) 2
  have g0 := hr₀.hex v
  have g1 := (hr 0).hex v
  have sc : ∀ c, 0 ≤ c → c < p46.dims.ncells → cellAt m₀ c = cellAt (m 0) c := fun c c0 c1 => by
    unfold cellAt; rw [g0.1.x_cell c ⟨c0, c1⟩, g0.1.y_cell c ⟨c0, c1⟩, g1.1.x_cell c ⟨c0, c1⟩, g1.1.y_cell c ⟨c0, c1⟩]
  have se : ∀ e, 0 ≤ e → e < p46.dims.nedges → edgeAt m₀ e = edgeAt (m 0) e ∧ normal m₀ e = normal (m 0) e :=
    fun e e0 e1 => by
      constructor
      · unfold edgeAt; rw [g0.1.x_edge e e0 e1, g0.1.y_edge e e0 e1, g1.1.x_edge e e0 e1, g1.1.y_edge e e0 e1]
      · unfold normal; rw [g0.1.angle_edge e e0 e1, g1.1.angle_edge e e0 e1]
  have sw : ∀ t e, 0 ≤ e → e < p46.dims.nedges → waveG (m 0) (1 / 4) k1 0 t e = waveG m₀ (1 / 4) k1 0 t e :=
    fun t e e0 e1 => by unfold waveG; rw [(se e e0 e1).1, (se e e0 e1).2]
  have G0 := Ready.geo2 hr₀ v (by simp [p46]) (by simp [p46]) (by norm_num)
  have G1 := Ready.geo2 (hr 0) v (by simp [p46]) (by simp [p46]) (by norm_num)
  set Z : ℂ := aeval ((1 / 50 * ω : ℝ) * Complex.I) (stabPoly stp) ^ sched.length with hZ
  refine ⟨prm, k1, ω, m, m1, sched, ‖Z‖, Z.arg, p46_run, by simp [p46], by simp [p46], by rw [hprm], by rw [hprm],
    by rw [hprm], by rw [hprm], by rw [hprm], by rw [hprm], fits, pos, w2, by norm_num,
    by rw [p46_layers]; norm_num, hr, fun c _ _ => by rw [eh]; simp, fun e _ _ => by rw [ev]; simp,
    fun c c0 c1 => ?_, fun e e0 e1 => ?_, by rw [hsch, List.length_replicate],
    fun q hq => by rw [hsch] at hq; rw [List.eq_of_mem_replicate hq], norm_nonneg _,
    (Complex.norm_mul_exp_arg_mul_I Z).symm, he⟩
  · simp only [eh]
    have : waveH (m 0) k1 0 1 c = waveH m₀ k1 0 1 c := by unfold waveH; rw [sc c c0 c1]
    rw [this]
    exact (((hasDerivAt_id (0 : ℝ)).mul_const _).const_add 2).congr_deriv (by simp)
  · simp only [ev]
    have : waveV (m 0) prm.f0 2 ω (1 / 4) k1 0 1 e = waveV m₀ prm.f0 2 ω (1 / 4) k1 0 1 e := by
      unfold waveV
      rw [sw _ e e0 e1, spec_tang (p := p46) G0.toGeo _ e0 e1, spec_tang (p := p46) G1.toGeo _ e0 e1]
      unfold Tn
      rw [Tw_congr v.nx_pos (F' := fun _ e' => waveG m₀ (1 / 4) k1 0 (1 + Real.pi / 2) e') e0 e1
        fun e' a b => sw _ e' a b]
    rw [this]
    exact ((hasDerivAt_id (0 : ℝ)).mul_const _).congr_deriv (by simp)

end Props
end
end Omega
