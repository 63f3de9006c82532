import Verif.Props.RestCourant
import Verif.Props.Inertial
import Verif.Props.Consistency
import Verif.Lib.Trig

/-!
# C98: plane gravity waves, exactly

On a mesh with an even number of rows every periodic plane wave is an eigenfunction of the discrete
Laplacian.  A small travelling gravity wave about rest keeps its shape; each step turns its phase and scales
its amplitude by the value of the stability polynomial of the stepper at `i ω dt`, where `ω` is given by the
discrete dispersion relation.
-/

set_option linter.unusedVariables false
set_option linter.unusedSectionVars false

namespace Omega
noncomputable section

namespace Lax

open Polynomial
open scoped RealInnerProductSpace

variable {V E : Type*} [AddCommGroup V] [Module ℝ V] [NormedAddCommGroup E] [InnerProductSpace ℝ E]
variable {T : V →ₗ[ℝ] E} {z : Module.End ℝ V} {ζ : ℝ} {x : V}

/-- a polynomial in the operator acts on an oscillation as the value at `ζ i` acts on the plane -/
theorem ExactSkew.osc_apply (h : ExactSkew T z) (P : ℝ[X]) (hx : T (z (z x) + ζ ^ 2 • x) = 0) :
    ∃ α β : ℝ, aeval (ζ * Complex.I) P = α + β * ζ * Complex.I ∧
      T (aeval z P x) = α • T x + β • T (z x) := by
  set D : ℝ[X] := X ^ 2 + C (ζ ^ 2) with hD
  have mon : D.Monic := monic_X_pow_add_C _ (by norm_num)
  have deg : (P %ₘ D).natDegree ≤ 1 := by
    have nd : D.natDegree = 2 := natDegree_X_pow_add_C
    have := natDegree_modByMonic_lt P mon (by intro h; rw [h, natDegree_one] at nd; omega)
    omega
  obtain ⟨β, α, hr⟩ : ∃ β α, P %ₘ D = C β * X + C α := ⟨_, _, eq_X_add_C_of_natDegree_le_one deg⟩
  have dec : P = C β * X + C α + D * (P /ₘ D) := by rw [← hr, modByMonic_add_div P D]
  refine ⟨α, β, ?_, ?_⟩
  · rw [dec]
    simp only [map_add, map_mul, hD, map_pow, aeval_X, aeval_C, mul_pow, Complex.I_sq]
    simp
    ring
  · have z2 : T (aeval z (D * (P /ₘ D)) x) = 0 := by
      rw [mul_comm, map_mul, Module.End.mul_apply]
      refine h.poly_ker _ ?_
      rw [hD, map_add, LinearMap.add_apply, map_pow, aeval_X, aeval_C, Module.algebraMap_end_apply, pow_two,
        Module.End.mul_apply]
      exact hx
    conv_lhs => rw [dec]
    rw [map_add, LinearMap.add_apply, map_add, z2, add_zero, map_add, LinearMap.add_apply, map_mul, aeval_X,
      aeval_C, aeval_C, Module.End.mul_apply, Module.algebraMap_end_apply, Module.algebraMap_end_apply,
      map_add, map_smul, map_smul, add_comm]

end Lax

namespace Props

open Prog Model Refine Hex Polynomial Taylor

variable {D : ℝ} {T : MeshParams → ℝ → Type}

/-- phase of the wave with wave vector `(k1, k2)` at a point -/
def dotK (k1 k2 : ℝ) (z : ℝ × ℝ) : ℝ := k1 * z.1 + k2 * z.2

/-- eigenvalue of minus the discrete Laplacian for the wave vector `(k1, k2)` on a mesh of spacing `dc` -/
def lapSymbol (dc k1 k2 : ℝ) : ℝ :=
  4 / (3 * dc ^ 2) * (3 - Real.cos (dc * k1) - Real.cos (dc * (k1 / 2 + √3 / 2 * k2)) -
    Real.cos (dc * (k1 / 2 - √3 / 2 * k2)))

/-- wave numbers that fit the periods of the domain -/
structure Fits (p : MeshParams) (dc k1 k2 : ℝ) : Prop where
  x : ∃ a : Int, k1 * periodX p.nx dc = 2 * Real.pi * a
  y : ∃ b : Int, k2 * periodY p.ny dc = 2 * Real.pi * b

theorem Fits.periodic {p : MeshParams} {dc k1 k2 : ℝ} (h : Fits p dc k1 k2) (δ : ℝ) :
    Periodic2 (periodX p.nx dc) (periodY p.ny dc) fun z => Real.cos (dotK k1 k2 z + δ) := by
  obtain ⟨⟨a, ha⟩, b, hb⟩ := h
  constructor
  · intro x y
    show Real.cos (k1 * (x + periodX p.nx dc) + k2 * y + δ) = Real.cos (k1 * x + k2 * y + δ)
    rw [show k1 * (x + periodX p.nx dc) + k2 * y + δ = k1 * x + k2 * y + δ + a * (2 * Real.pi) by
      rw [mul_add, ha]; ring, Real.cos_add_int_mul_two_pi]
  · intro x y
    show Real.cos (k1 * x + k2 * (y + periodY p.ny dc) + δ) = Real.cos (k1 * x + k2 * y + δ)
    rw [show k1 * x + k2 * (y + periodY p.ny dc) + δ = k1 * x + k2 * y + δ + b * (2 * Real.pi) by
      rw [mul_add k2, hb]; ring, Real.cos_add_int_mul_two_pi]

theorem dotK_add (k1 k2 : ℝ) (z w : ℝ × ℝ) : dotK k1 k2 (z + w) = dotK k1 k2 z + dotK k1 k2 w := by
  simp only [dotK, Prod.fst_add, Prod.snd_add]; ring
theorem dotK_sub (k1 k2 : ℝ) (z w : ℝ × ℝ) : dotK k1 k2 (z - w) = dotK k1 k2 z - dotK k1 k2 w := by
  simp only [dotK, Prod.fst_sub, Prod.snd_sub]; ring
theorem dotK_smul (k1 k2 s : ℝ) (z : ℝ × ℝ) : dotK k1 k2 (s • z) = s * dotK k1 k2 z := by
  simp only [dotK, Prod.smul_fst, Prod.smul_snd, smul_eq_mul]; ring
theorem dotK_neg (k1 k2 : ℝ) (z : ℝ × ℝ) : dotK k1 k2 (-z) = -dotK k1 k2 z := by
  simp only [dotK, Prod.fst_neg, Prod.snd_neg]; ring

/-- plane waves are eigenfunctions of the discrete Laplacian -/
theorem lap_wave (M : MeshOf D T) {k1 k2 : ℝ} (hk : Fits M.p M.dc k1 k2) (δ : ℝ) {c : Int}
    (hc : IsCell M.p.nx M.p.ny c) :
    Spec.div M.m (Spec.grad M.m fun c => Real.cos (dotK k1 k2 (cellAt M.m c) + δ)) c =
      -(lapSymbol M.dc k1 k2 * Real.cos (dotK k1 k2 (cellAt M.m c) + δ)) := by
  have d0 := M.pos
  have hp := hk.periodic δ
  rw [div_sides M (G := gradF M.dc fun z => Real.cos (dotK k1 k2 z + δ)) (fun a => per_gradF _ hp a)
    (fun e h0 h1 => grad_edge M hp h0 h1) hc]
  set A := dotK k1 k2 (cellAt M.m c) with hA
  have pr : ∀ a, gradF M.dc (fun z => Real.cos (dotK k1 k2 z + δ)) a
        (cellAt M.m c - M.dc • ((1 / 2 : ℝ) • dir a)) -
      gradF M.dc (fun z => Real.cos (dotK k1 k2 z + δ)) a (cellAt M.m c + M.dc • ((1 / 2 : ℝ) • dir a)) =
      (2 * Real.cos (A + δ) * (Real.cos (M.dc * dotK k1 k2 (dir a)) - 1)) / M.dc := fun a => by
    unfold gradF
    simp only [dotK_add, dotK_sub, dotK_smul]
    rw [show dotK k1 k2 (cellAt M.m c) = A from rfl]
    set y := dotK k1 k2 (dir a)
    rw [show A - M.dc * (1 / 2 * y) - M.dc / 2 * y + δ = A + δ - M.dc * y by ring,
      show A - M.dc * (1 / 2 * y) + M.dc / 2 * y + δ = A + δ by ring,
      show A + M.dc * (1 / 2 * y) - M.dc / 2 * y + δ = A + δ by ring,
      show A + M.dc * (1 / 2 * y) + M.dc / 2 * y + δ = A + δ + M.dc * y by ring, Real.cos_sub, Real.cos_add (A + δ)]
    ring
  rw [pr 0, pr 1, pr 2]
  have e0 : M.dc * dotK k1 k2 (dir 0) = -(M.dc * k1) := by
    simp [dotK, dir, DX, DY]
  have e1 : M.dc * dotK k1 k2 (dir 1) = -(M.dc * (k1 / 2 + √3 / 2 * k2)) := by
    norm_num [dotK, dir, DX, DY]; ring
  have e2 : M.dc * dotK k1 k2 (dir 2) = M.dc * (k1 / 2 - √3 / 2 * k2) := by
    have : dotK k1 k2 (dir 2) = k1 / 2 - √3 / 2 * k2 := by
      norm_num [dotK, dir, DX, DY]; ring
    rw [this]
  rw [e0, e1, e2, Real.cos_neg, Real.cos_neg]
  unfold lapSymbol
  field_simp
  ring

/-- gradient of a plane wave -/
theorem grad_wave (M : MeshOf D T) {k1 k2 : ℝ} (hk : Fits M.p M.dc k1 k2) (δ : ℝ) {e : Int} (h0 : 0 ≤ e)
    (h1 : e < M.p.dims.nedges) :
    Spec.grad M.m (fun c => Real.cos (dotK k1 k2 (cellAt M.m c) + δ)) e =
      -(2 / M.dc * Real.sin (M.dc / 2 * dotK k1 k2 (normal M.m e)) *
        Real.sin (dotK k1 k2 (edgeAt M.m e) + δ)) := by
  have d0 := M.pos
  rw [grad_edge M (hk.periodic δ) h0 h1, normal_eq M.valid M.built h0 h1]
  unfold gradF
  simp only [dotK_add, dotK_sub, dotK_smul, dotK_neg]
  set A := dotK k1 k2 (edgeAt M.m e)
  set y := dotK k1 k2 (dir (e % 3))
  rw [show A - M.dc / 2 * y + δ = A + δ - M.dc / 2 * y by ring,
    show A + M.dc / 2 * y + δ = A + δ + M.dc / 2 * y by ring, Real.cos_sub, Real.cos_add (A + δ),
    show M.dc / 2 * -y = -(M.dc / 2 * y) by ring, Real.sin_neg]
  field_simp
  ring

/-! ### The discrete dispersion relation -/

/-- The eigenvalue of the wave vector `(k1, k2)` is the exact one, `k1² + k2²`, up to the relative error
`dc² (k1² + k2²) / 16`, in whatever direction the wave travels; it is never larger than the exact one, and
never larger than `6 / dc²`. -/
theorem C98_dispersion_bounds {dc : ℝ} (hdc : 0 < dc) (k1 k2 : ℝ) :
    (k1 ^ 2 + k2 ^ 2) * (1 - dc ^ 2 * (k1 ^ 2 + k2 ^ 2) / 16) ≤ lapSymbol dc k1 k2 ∧
    lapSymbol dc k1 k2 ≤ k1 ^ 2 + k2 ^ 2 ∧ 0 ≤ lapSymbol dc k1 k2 ∧ lapSymbol dc k1 k2 ≤ 6 / dc ^ 2 := by
  have bd : ∀ x : ℝ, x ^ 2 / 2 - x ^ 4 / 24 ≤ 1 - Real.cos x ∧ 1 - Real.cos x ≤ x ^ 2 / 2 := fun x => by
    have := Numeric.sub_cos_bounds (abs_nonneg x)
    rw [Real.cos_abs, sq_abs, show |x| ^ 4 = x ^ 4 from Even.pow_abs (by decide) x] at this
    exact this
  set B := dc * (k1 / 2 + √3 / 2 * k2) with hB
  set C := dc * (k1 / 2 - √3 / 2 * k2) with hC
  have hA : dc * k1 = B + C := by rw [hB, hC]; ring
  have s3 : √3 ^ 2 = (3 : ℝ) := Real.sq_sqrt (by norm_num)
  have q2 : (B + C) ^ 2 + B ^ 2 + C ^ 2 = 3 / 2 * (dc ^ 2 * (k1 ^ 2 + k2 ^ 2)) := by
    rw [hB, hC]; linear_combination (1 / 2 * dc ^ 2 * k2 ^ 2) * s3
  have q4 : (B + C) ^ 4 + B ^ 4 + C ^ 4 = 9 / 8 * (dc ^ 2 * (k1 ^ 2 + k2 ^ 2)) ^ 2 := by
    have : (B + C) ^ 4 + B ^ 4 + C ^ 4 = 1 / 2 * ((B + C) ^ 2 + B ^ 2 + C ^ 2) ^ 2 := by ring
    rw [this, q2]; ring
  have k0 : 0 < 4 / (3 * dc ^ 2) := by positivity
  unfold lapSymbol
  rw [← hB, ← hC, hA]
  obtain ⟨a1, a2⟩ := bd (B + C)
  obtain ⟨b1, b2⟩ := bd B
  obtain ⟨c1, c2⟩ := bd C
  set S := 3 - Real.cos (B + C) - Real.cos B - Real.cos C with hS
  refine ⟨?_, ?_, ?_, ?_⟩
  · have : (k1 ^ 2 + k2 ^ 2) * (1 - dc ^ 2 * (k1 ^ 2 + k2 ^ 2) / 16) = 4 / (3 * dc ^ 2) *
        (3 / 4 * (dc ^ 2 * (k1 ^ 2 + k2 ^ 2)) - 9 / 192 * (dc ^ 2 * (k1 ^ 2 + k2 ^ 2)) ^ 2) := by
      field_simp; ring
    rw [this]
    exact mul_le_mul_of_nonneg_left (by linarith) k0.le
  · have : k1 ^ 2 + k2 ^ 2 = 4 / (3 * dc ^ 2) * (3 / 4 * (dc ^ 2 * (k1 ^ 2 + k2 ^ 2))) := by
      field_simp
    rw [this]
    exact mul_le_mul_of_nonneg_left (by linarith) k0.le
  · refine mul_nonneg k0.le ?_
    have := Real.cos_le_one (B + C)
    have := Real.cos_le_one B
    have := Real.cos_le_one C
    linarith
  · have : 6 / dc ^ 2 = 4 / (3 * dc ^ 2) * (9 / 2) := by field_simp; norm_num
    rw [this]
    refine mul_le_mul_of_nonneg_left ?_ k0.le
    have := Real.sin_sq_add_cos_sq B
    have := Real.sin_sq_add_cos_sq C
    have : 0 ≤ (1 + Real.cos B + Real.cos C) ^ 2 + (Real.sin B - Real.sin C) ^ 2 := by positivity
    rw [hS, Real.cos_add]
    nlinarith

/-- Discrete gravity waves are never faster than exact ones, and slower by at most the fraction
`dc² |k|² / 16`. -/
theorem C98_frequency {dc g H ω k1 k2 : ℝ} (hdc : 0 < dc) (g0 : 0 ≤ g) (H0 : 0 ≤ H) (w0 : 0 ≤ ω)
    (hw : ω ^ 2 = g * H * lapSymbol dc k1 k2) :
    ω ≤ √(g * H) * √(k1 ^ 2 + k2 ^ 2) ∧
    √(g * H) * √(k1 ^ 2 + k2 ^ 2) * (1 - dc ^ 2 * (k1 ^ 2 + k2 ^ 2) / 16) ≤ ω := by
  obtain ⟨l1, l2, -, -⟩ := C98_dispersion_bounds hdc k1 k2
  have c2 : √(g * H) ^ 2 = g * H := Real.sq_sqrt (by positivity)
  have q2 : √(k1 ^ 2 + k2 ^ 2) ^ 2 = k1 ^ 2 + k2 ^ 2 := Real.sq_sqrt (by positivity)
  have c0 := Real.sqrt_nonneg (g * H)
  have q0 := Real.sqrt_nonneg (k1 ^ 2 + k2 ^ 2)
  have gH : 0 ≤ g * H := by positivity
  constructor
  · refine abs_le_of_sq_le_sq' ?_ (by positivity) |>.2
    rw [hw, mul_pow, c2, q2]
    exact mul_le_mul_of_nonneg_left l2 gH
  · set x := dc ^ 2 * (k1 ^ 2 + k2 ^ 2) / 16 with hx
    have x0 : 0 ≤ x := by positivity
    rcases le_total x 1 with h | h
    · refine abs_le_of_sq_le_sq' ?_ w0 |>.2
      rw [hw, mul_pow, mul_pow, c2, q2, mul_assoc]
      refine mul_le_mul_of_nonneg_left (le_trans ?_ l1) gH
      refine mul_le_mul_of_nonneg_left ?_ (by positivity)
      nlinarith
    · refine le_trans (mul_nonpos_of_nonneg_of_nonpos (by positivity) (by linarith)) w0

/-! ### Travelling waves -/

/-- thickness of the wave with unit amplitude and phase `θ` -/
def waveH (m : Mem ℝ) (k1 k2 θ : ℝ) (c : Int) : ℝ := Real.cos (dotK k1 k2 (cellAt m c) - θ)
/-- normal velocity that goes with it: `g / ω` times the difference quotient of the sine across the edge -/
def waveU (m : Mem ℝ) (g ω dc k1 k2 θ : ℝ) (e : Int) : ℝ :=
  g / ω * (2 / dc * Real.sin (dc / 2 * dotK k1 k2 (normal m e)) * Real.cos (dotK k1 k2 (edgeAt m e) - θ))

section

variable {p : MeshParams} {dc : ℝ} {m : Mem ℝ}
variable (h : Geo2 p.nx p.ny p.dims.nlayers dc m.mesh) (hv : MeshParams.Valid p) (hnx : 2 ≤ p.nx)
  (hny : p.ny % 2 = 0) {m' : Mem ℝ} (hb : Built p dc m') (hs : SameMesh m m') {g H ω k1 k2 : ℝ} (g0 : 0 < g)
  (H0 : 0 < H) (w0 : 0 < ω) (hw : ω ^ 2 = g * H * lapSymbol dc k1 k2) (hk : Fits p dc k1 k2)
include h hv hnx hny hb hs g0 H0 w0 hw hk

theorem wave_grad (θ : ℝ) {e : Int} (h0 : 0 ≤ e) (h1 : e < p.dims.nedges) :
    g * Spec.grad m (waveH m k1 k2 θ) e = -(ω * waveU m g ω dc k1 k2 (θ + Real.pi / 2) e) := by
  let M : MeshOf dc (fun _ _ => Unit) := ⟨p, dc, m', (), hv, hnx, hny, h.dc_pos, le_rfl, hb⟩
  have := grad_wave M (k1 := k1) (k2 := k2) hk (-θ) h0 h1
  change Spec.grad m' (fun c => Real.cos (dotK k1 k2 (cellAt m' c) + -θ)) e =
    -(2 / dc * Real.sin (dc / 2 * dotK k1 k2 (normal m' e)) * Real.sin (dotK k1 k2 (edgeAt m' e) + -θ)) at this
  unfold waveH waveU
  rw [hs.grad, hs.cellAt, hs.edgeAt, hs.normal]
  simp only [sub_eq_add_neg] at this ⊢
  rw [this, show dotK k1 k2 (edgeAt m' e) + -(θ + Real.pi / 2) = dotK k1 k2 (edgeAt m' e) + -θ - Real.pi / 2 by ring,
    Real.cos_sub_pi_div_two]
  field_simp

theorem wave_div (θ : ℝ) {c : Int} (hc : IsCell p.nx p.ny c) :
    -(H * Spec.div m (waveU m g ω dc k1 k2 θ) c) = ω * waveH m k1 k2 (θ + Real.pi / 2) c := by
  let M : MeshOf dc (fun _ _ => Unit) := ⟨p, dc, m', (), hv, hnx, hny, h.dc_pos, le_rfl, hb⟩
  have e1 : Spec.div m (waveU m g ω dc k1 k2 θ) c =
      Spec.div m (fun e => -(g / ω) * Spec.grad m (waveH m k1 k2 (θ - Real.pi / 2)) e) c := by
    rw [spec_div h _ hc, spec_div h _ hc]
    congr 1
    refine Dv_congr h.hnx (fun e a b => ?_) hc
    have := wave_grad h hv hnx hny hb hs g0 H0 w0 hw hk (θ - Real.pi / 2) a b
    rw [sub_add_cancel] at this
    rw [show -(g / ω) * Spec.grad m (waveH m k1 k2 (θ - Real.pi / 2)) e =
      -(1 / ω) * (g * Spec.grad m (waveH m k1 k2 (θ - Real.pi / 2)) e) by ring, this]
    field_simp
  have := lap_wave M (k1 := k1) (k2 := k2) hk (-(θ - Real.pi / 2)) hc
  change Spec.div m' (Spec.grad m' fun c => Real.cos (dotK k1 k2 (cellAt m' c) + -(θ - Real.pi / 2))) c =
    -(lapSymbol dc k1 k2 * Real.cos (dotK k1 k2 (cellAt m' c) + -(θ - Real.pi / 2))) at this
  rw [e1, div_mul']
  unfold waveH
  rw [hs.grad, hs.cellAt, hs.div]
  simp only [sub_eq_add_neg] at this ⊢
  rw [this]
  have c1 : Real.cos (dotK k1 k2 (cellAt m' c) + -(θ + -(Real.pi / 2))) =
      -Real.cos (dotK k1 k2 (cellAt m' c) + -(θ + Real.pi / 2)) := by
    rw [← Real.cos_add_pi]
    congr 1; ring
  rw [c1]
  have : g * H * lapSymbol dc k1 k2 / ω = ω := by rw [← hw]; field_simp
  calc _ = -(g * H * lapSymbol dc k1 k2 / ω) * -Real.cos (dotK k1 k2 (cellAt m' c) + -(θ + Real.pi / 2)) := by ring
    _ = _ := by rw [this]; ring

/-- the linear equations turn the phase of the wave by a quarter -/
theorem wave_turn (θ : ℝ) : restMap p.dims m g H (restOp m g 0 H (waveH m k1 k2 θ, waveU m g ω dc k1 k2 θ)) =
    ω • restMap p.dims m g H (waveH m k1 k2 (θ + Real.pi / 2), waveU m g ω dc k1 k2 (θ + Real.pi / 2)) := by
  ext i
  rcases i with c | e
  · have hc := mem_cells.mp c.2
    have v : (restOp m g 0 H (waveH m k1 k2 θ, waveU m g ω dc k1 k2 θ)).1 c =
        ω * waveH m k1 k2 (θ + Real.pi / 2) c := wave_div h hv hnx hny hb hs g0 H0 w0 hw hk θ hc
    simp only [restMap, LinearMap.coe_mk, AddHom.coe_mk, v, PiLp.smul_apply, Sum.elim_inl, smul_eq_mul]
    ring
  · have he := Finset.mem_Ico.mp e.2
    have v : (restOp m g 0 H (waveH m k1 k2 θ, waveU m g ω dc k1 k2 θ)).2 e =
        ω * waveU m g ω dc k1 k2 (θ + Real.pi / 2) e := by
      show 0 * _ - g * Spec.grad m (waveH m k1 k2 θ) e = _
      rw [wave_grad h hv hnx hny hb hs g0 H0 w0 hw hk θ he.1 he.2]; ring
    simp only [restMap, LinearMap.coe_mk, AddHom.coe_mk, v, PiLp.smul_apply, Sum.elim_inr, smul_eq_mul]
    ring

theorem rest_inj {x y : (Int → ℝ) × (Int → ℝ)} (e : restMap p.dims m g H x = restMap p.dims m g H y) :
    (∀ c, 0 ≤ c → c < p.dims.ncells → x.1 c = y.1 c) ∧ ∀ e, 0 ≤ e → e < p.dims.nedges → x.2 e = y.2 e := by
  have w := w_pos; have d0 := h.dc_pos
  constructor
  · intro c c0 c1
    have hc : c ∈ Spec.cells p.dims := mem_cells.mpr ⟨c0, c1⟩
    have := congrArg (fun v : EuclideanSpace ℝ (Spec.cells p.dims ⊕ Spec.edges p.dims) => v (.inl ⟨c, hc⟩)) e
    simp only [restMap, LinearMap.coe_mk, AddHom.coe_mk, Sum.elim_inl] at this
    refine mul_left_cancel₀ (ne_of_gt ?_) this
    rw [spec_areaC h.toGeo ⟨c0, c1⟩]
    positivity
  · intro c c0 c1
    have hc : c ∈ Spec.edges p.dims := Finset.mem_Ico.mpr ⟨c0, c1⟩
    have := congrArg (fun v : EuclideanSpace ℝ (Spec.cells p.dims ⊕ Spec.edges p.dims) => v (.inr ⟨c, hc⟩)) e
    simp only [restMap, LinearMap.coe_mk, AddHom.coe_mk, Sum.elim_inr] at this
    refine mul_left_cancel₀ (ne_of_gt ?_) this
    rw [spec_dcE h.toGeo c0 c1, spec_dvE h.toGeo c0 c1]
    positivity

/-- the wave after a polynomial in the linear operator -/
theorem wave_poly (P : ℝ[X]) (dt θ : ℝ) {A τ : ℝ}
    (hP : aeval ((dt * ω : ℝ) * Complex.I) P = A * Complex.exp (τ * Complex.I)) :
    (∀ c, 0 ≤ c → c < p.dims.ncells →
      (aeval (dt • restOp m g 0 H) P (waveH m k1 k2 θ, waveU m g ω dc k1 k2 θ)).1 c =
        A * waveH m k1 k2 (θ + τ) c) ∧
    ∀ e, 0 ≤ e → e < p.dims.nedges →
      (aeval (dt • restOp m g 0 H) P (waveH m k1 k2 θ, waveU m g ω dc k1 k2 θ)).2 e =
        A * waveU m g ω dc k1 k2 (θ + τ) e := by
  have sk := rest_exactSkew h (f := 0) g0.le H0 dt
  have turn := wave_turn h hv hnx hny hb hs g0 H0 w0 hw hk
  have ker := fun x y (e : restMap p.dims m g H x = restMap p.dims m g H y) => by
    have := sk.ker (x - y) (by rw [map_sub, e, sub_self])
    rw [map_sub, map_sub, sub_eq_zero] at this
    exact this
  set W := fun θ => (waveH m k1 k2 θ, waveU m g ω dc k1 k2 θ) with hW
  have t1 : ∀ θ, restMap p.dims m g H ((dt • restOp m g 0 H) (W θ)) =
      restMap p.dims m g H ((dt * ω) • W (θ + Real.pi / 2)) := fun θ => by
    rw [LinearMap.smul_apply, map_smul, map_smul, turn, smul_smul]
  have neg : ∀ θ, W (θ + Real.pi / 2 + Real.pi / 2) = -W θ := fun θ => by
    have e : θ + Real.pi / 2 + Real.pi / 2 = θ + Real.pi := by ring
    rw [e]
    refine Prod.ext (funext fun c => ?_) (funext fun c => ?_)
    · show Real.cos _ = -Real.cos _
      rw [← sub_sub, Real.cos_sub_pi]
    · show g / ω * _ = -(g / ω * _)
      rw [← sub_sub, Real.cos_sub_pi]; ring
  have osc : restMap p.dims m g H ((dt • restOp m g 0 H) ((dt • restOp m g 0 H) (W θ)) +
      (dt * ω) ^ 2 • W θ) = 0 := by
    rw [map_add, ker _ _ (t1 θ), map_smul, map_smul, t1, neg, map_smul, map_smul, map_neg]
    module
  obtain ⟨α, β, e1, e2⟩ := sk.osc_apply P osc
  rw [t1, map_smul, smul_smul] at e2
  have comb : (α • W θ + (β * (dt * ω)) • W (θ + Real.pi / 2)) = A • W (θ + τ) := by
    rw [hP] at e1
    have re : A * Real.cos τ = α := by
      have := congrArg Complex.re e1
      simpa [Complex.exp_ofReal_mul_I_re] using this
    have im : A * Real.sin τ = β * (dt * ω) := by
      have := congrArg Complex.im e1
      simpa [Complex.exp_ofReal_mul_I_im] using this
    refine Prod.ext (funext fun c => ?_) (funext fun c => ?_)
    · show α * Real.cos (_ - θ) + β * (dt * ω) * Real.cos (_ - (θ + Real.pi / 2)) = A * Real.cos (_ - (θ + τ))
      rw [← re, ← im, ← sub_sub, ← sub_sub, Real.cos_sub_pi_div_two, Real.cos_sub _ τ]
      ring
    · show α * (g / ω * (_ * Real.cos (_ - θ))) + β * (dt * ω) * (g / ω * (_ * Real.cos (_ - (θ + Real.pi / 2)))) =
        A * (g / ω * (_ * Real.cos (_ - (θ + τ))))
      rw [← re, ← im, ← sub_sub, ← sub_sub, Real.cos_sub_pi_div_two, Real.cos_sub _ τ]
      ring
  rw [← map_smul, ← map_smul, ← map_add, comb] at e2
  obtain ⟨r1, r2⟩ := rest_inj h hv hnx hny hb hs g0 H0 w0 hw hk e2
  exact ⟨r1, r2⟩

end

/-- Steps of one size are a power of the polynomial. -/
theorem fold_pow {V : Type*} [AddCommGroup V] [Module ℝ V] (L : Module.End ℝ V) (P : ℝ[X]) {dt : ℝ}
    (sched : List (ℝ × ℝ)) (hs : ∀ q ∈ sched, q.2 = dt) (x : V) :
    sched.foldl (fun w a => aeval (a.2 • L) P w) x = aeval (dt • L) (P ^ sched.length) x := by
  induction sched generalizing x with
  | nil => simp
  | cons a l ih =>
    rw [List.foldl_cons, List.length_cons, ih (fun q hq => hs q (List.mem_cons_of_mem _ hq)),
      hs a List.mem_cons_self, pow_succ, map_mul, Module.End.mul_apply]

/-- Travelling gravity waves.  Without rotation and viscosity, on a mesh with an even number of rows, perturb
the state of rest with thickness `H` by the plane wave `cos (k·x - θ₀)` whose wave vector fits the periods of
the domain, together with the velocity that belongs to it.  After `N` steps of size `dt` the first-order
response is the same wave with amplitude `A` and its phase advanced by `τ`, where `A exp (i τ)` is the `N`-th
power of the stability polynomial of the stepper at `i ω dt`; the frequency `ω` is given by the discrete
dispersion relation `ω² = g H λ(k)`.  For every stepper and step size, stable or not. -/
theorem C98_travelling_wave (stp : Stepper) {p : MeshParams} {dc : ℝ} (hv : RunValid p) (hnx : 2 ≤ p.nx)
    (hny : p.ny % 2 = 0) (hdc : 0 < dc) {prm : Params ℝ} (n1 : prm.disable_h = false)
    (n2 : prm.disable_vn = false) (n3 : prm.visc_del2 ≤ 0) (n4 : prm.visc_del4 ≤ 0) (g0 : 0 < prm.grav)
    (n5 : prm.f0 = 0) {H : ℝ} (H0 : 0 < H) {k1 k2 ω θ₀ : ℝ} (hk : Fits p dc k1 k2) (w0 : 0 < ω)
    (hw : ω ^ 2 = prm.grav * H * lapSymbol dc k1 k2)
    {k : Int} (k0 : 0 ≤ k) (kl : k < p.dims.nlayers) {m m1 : ℝ → Mem ℝ}
    (hr : ∀ ε, Ready p dc prm (m ε))
    (ha0 : ∀ c, 0 ≤ c → c < p.dims.ncells → (m 0).real (.h_cell .state) 0 c k = H)
    (hb0 : ∀ e, 0 ≤ e → e < p.dims.nedges → (m 0).real (.vn_edge .state) 0 e k = 0)
    (ha : ∀ c, 0 ≤ c → c < p.dims.ncells →
      HasDerivAt (fun ε => (m ε).real (.h_cell .state) 0 c k) (waveH (m 0) k1 k2 θ₀ c) 0)
    (hb : ∀ e, 0 ≤ e → e < p.dims.nedges →
      HasDerivAt (fun ε => (m ε).real (.vn_edge .state) 0 e k) (waveU (m 0) prm.grav ω dc k1 k2 θ₀ e) 0)
    {sched : List (ℝ × ℝ)} {dt : ℝ} (hs : ∀ q ∈ sched, q.2 = dt) {split : Bool}
    (he : ∀ ε, Exec p.dims (stp.ctor p.dims ++ stp.run p.dims
      ⟨defaultKernels p.dims.vl, split⟩ (SWModel.ofParams prm) sched) (m ε) (m1 ε))
    {A τ : ℝ} (hP : aeval ((dt * ω : ℝ) * Complex.I) (stabPoly stp) ^ sched.length =
      A * Complex.exp (τ * Complex.I)) :
    (∀ c, 0 ≤ c → c < p.dims.ncells → HasDerivAt (fun ε => (m1 ε).real (.h_cell .state) 0 c k)
        (A * waveH (m 0) k1 k2 (θ₀ + τ) c) 0) ∧
    ∀ e, 0 ≤ e → e < p.dims.nedges → HasDerivAt (fun ε => (m1 ε).real (.vn_edge .state) 0 e k)
        (A * waveU (m 0) prm.grav ω dc k1 k2 (θ₀ + τ) e) 0 := by
  have hny2 : 2 ≤ p.ny := by have := hv.ny_pos; omega
  have hg := fun ε => Ready.geo2 (hr ε) hv.toValid hnx hny2 hdc
  have hf := fun ε => (Ready.hex hv.toValid (hr ε)).2.1
  rw [n5] at hf
  obtain ⟨m', hbt, hsm⟩ := ready_mesh (hr 0)
  set sw := SWModel.ofParams prm with hsw
  have s5 : sw.en_vdiff = false := by
    show decide ((lit 0 : ℝ) < prm.visc_del2) = false
    simp [n3]
  have s6 : sw.en_vhyper = false := by
    show decide ((lit 0 : ℝ) < prm.visc_del4) = false
    simp [n4]
  have v := fun ε => by
    obtain ⟨hd, hc⟩ := ready_ok hv (hr ε)
    exact ((genSetup hd hc (hookOK_noHook (noHook_ofParams prm) p.dims (m ε))).newRun (he ε)).2.2
  have init : Tangent p.dims k (fun ε => (m ε).fld .state) H
      (waveH (m 0) k1 k2 θ₀, waveU (m 0) prm.grav ω dc k1 k2 θ₀) := ⟨ha0, hb0, ha, hb⟩
  have key := tangent_run hg hf (sw := sw) rfl rfl rfl rfl s5 s6 n1 n2 H0 stp sched
    (x := fun ε => (zeroFld, (m ε).fld .state)) init
  rw [fold_pow _ _ sched hs] at key
  rw [← map_pow] at hP
  obtain ⟨r1, r2⟩ := wave_poly (hg 0) hv.toValid hnx hny hbt hsm g0 H0 w0 hw hk _ dt θ₀ hP
  refine ⟨fun c c0 c1 => ?_, fun e e0 e1 => ?_⟩
  · have := key.h1 c c0 c1
    rw [show (aeval (dt • restOp (m 0) sw.prm.grav 0 H) (stabPoly stp ^ sched.length)
      (waveH (m 0) k1 k2 θ₀, waveU (m 0) prm.grav ω dc k1 k2 θ₀)).1 c = _ from r1 c c0 c1] at this
    exact this.congr_of_eventuallyEq (Filter.Eventually.of_forall fun ε => (v ε).h c k c0 c1 k0 kl)
  · have := key.v1 e e0 e1
    rw [show (aeval (dt • restOp (m 0) sw.prm.grav 0 H) (stabPoly stp ^ sched.length)
      (waveH (m 0) k1 k2 θ₀, waveU (m 0) prm.grav ω dc k1 k2 θ₀)).2 e = _ from r2 e e0 e1] at this
    exact this.congr_of_eventuallyEq (Filter.Eventually.of_forall fun ε => (v ε).vn e k e0 e1 k0 kl)

/-- With the classical stepper and `z = ω dt`, `z² ≤ 8`, the amplitude does not grow and the wave of
`C98_travelling_wave` is within `N |z|⁵ / 60` of the one that travels at the frequency `ω` of the discrete
equations, at every point. -/
theorem C98_phase_error (z : ℝ) (hz : z ^ 2 ≤ 8) (n : ℕ) {A τ : ℝ} (A0 : 0 ≤ A)
    (hP : aeval ((z : ℝ) * Complex.I) (stabPoly .rk4) ^ n = A * Complex.exp (τ * Complex.I)) :
    A ≤ 1 ∧ ∀ φ : ℝ, |A * Real.cos (φ - τ) - Real.cos (φ - n * z)| ≤ n * (|z| ^ 5 / 60) := by
  set P : ℂ := aeval ((z : ℝ) * Complex.I) (stabPoly .rk4) with hPd
  set x : ℂ := (z : ℝ) * Complex.I with hx
  have nx : ‖x‖ = |z| := by
    rw [hx, norm_mul, Complex.norm_I, mul_one, Complex.norm_real, Real.norm_eq_abs]
  have P1 : ‖P‖ ≤ 1 := by
    have := rk4_imag z
    rw [← hx, ← hPd, Complex.normSq_eq_norm_sq] at this
    have : z ^ 8 / 576 ≤ z ^ 6 / 72 := by nlinarith [show 0 ≤ z ^ 6 by positivity]
    nlinarith [norm_nonneg P]
  have E1 : ‖Complex.exp x‖ ≤ 1 := by
    rw [hx, Complex.norm_exp_ofReal_mul_I]
  have d : ‖P - Complex.exp x‖ ≤ |z| ^ 5 / 60 := by
    have b : ‖x‖ ≤ 3 := by
      rw [nx]
      exact abs_le_of_sq_le_sq (by linarith) (by norm_num)
    have := Complex.exp_bound' (x := x) (n := 5) (by rw [div_le_iff₀ (by positivity)]; norm_num; linarith)
    rw [← rk4_exp, norm_sub_rev, nx] at this
    refine this.trans (le_of_eq ?_)
    norm_num [Nat.factorial]
    ring
  have nA : ‖P ^ n‖ = A := by
    rw [hP, norm_mul, Complex.norm_exp_ofReal_mul_I, mul_one, Complex.norm_real, Real.norm_eq_abs, abs_of_nonneg A0]
  refine ⟨?_, fun φ => ?_⟩
  · rw [← nA, norm_pow]
    exact pow_le_one₀ (norm_nonneg _) P1
  · have e : A * Real.cos (φ - τ) - Real.cos (φ - n * z) =
        ((P ^ n - Complex.exp x ^ n) * Complex.exp ((-φ : ℝ) * Complex.I)).re := by
      rw [hP, ← Complex.exp_nat_mul, hx, sub_mul, mul_assoc, ← Complex.exp_add, ← Complex.exp_add,
        show (τ : ℂ) * Complex.I + ((-φ : ℝ) : ℂ) * Complex.I = ((τ - φ : ℝ) : ℂ) * Complex.I by push_cast; ring,
        show (n : ℂ) * ((z : ℂ) * Complex.I) + ((-φ : ℝ) : ℂ) * Complex.I = ((n * z - φ : ℝ) : ℂ) * Complex.I by
          push_cast; ring, Complex.sub_re, Complex.re_ofReal_mul, Complex.exp_ofReal_mul_I_re,
        Complex.exp_ofReal_mul_I_re, ← Real.cos_neg (τ - φ), ← Real.cos_neg (n * z - φ), neg_sub, neg_sub]
    rw [e]
    refine (Complex.abs_re_le_norm _).trans ?_
    rw [norm_mul, Complex.norm_exp_ofReal_mul_I, mul_one]
    refine (pow_close P1 E1 n).trans ?_
    exact mul_le_mul_of_nonneg_left d (Nat.cast_nonneg _)

/-- 24 cells, the longest wave in the first direction, seven steps of size 1/50; the factor of the stepper has
an amplitude and a phase -/
example (stp : Stepper) : ∃ (prm : Params ℝ) (k1 ω : ℝ) (m m1 : ℝ → Mem ℝ) (sched : List (ℝ × ℝ)) (A τ : ℝ),
    RunValid p46 ∧ 2 ≤ p46.nx ∧ p46.ny % 2 = 0 ∧ prm.disable_h = false ∧ prm.disable_vn = false ∧
    prm.visc_del2 ≤ 0 ∧ prm.visc_del4 ≤ 0 ∧ prm.grav = 9 ∧ prm.f0 = 0 ∧ Fits p46 (1 / 4) k1 0 ∧ 0 < ω ∧
    ω ^ 2 = prm.grav * 2 * lapSymbol (1 / 4) k1 0 ∧ (0 : Int) ≤ 2 ∧ 2 < p46.dims.nlayers ∧
    (∀ ε, Ready p46 (1 / 4) prm (m ε)) ∧
    (∀ c, 0 ≤ c → c < p46.dims.ncells → (m 0).real (.h_cell .state) 0 c 2 = 2) ∧
    (∀ e, 0 ≤ e → e < p46.dims.nedges → (m 0).real (.vn_edge .state) 0 e 2 = 0) ∧
    (∀ c, 0 ≤ c → c < p46.dims.ncells →
      HasDerivAt (fun ε => (m ε).real (.h_cell .state) 0 c 2) (waveH (m 0) k1 0 1 c) 0) ∧
    (∀ e, 0 ≤ e → e < p46.dims.nedges →
      HasDerivAt (fun ε => (m ε).real (.vn_edge .state) 0 e 2) (waveU (m 0) prm.grav ω (1 / 4) k1 0 1 e) 0) ∧
    sched.length = 7 ∧ (∀ q ∈ sched, q.2 = 1 / 50) ∧ 0 ≤ A ∧
    aeval ((1 / 50 * ω : ℝ) * Complex.I) (stabPoly stp) ^ sched.length = A * Complex.exp (τ * Complex.I) ∧
    ∀ ε, Exec p46.dims (stp.ctor p46.dims ++ stp.run p46.dims
      ⟨defaultKernels p46.dims.vl, true⟩ (SWModel.ofParams prm) sched) (m ε) (m1 ε) := by
  obtain ⟨prm, hprm⟩ : ∃ q : Params ℝ, q = ⟨0, 9, 0, 0, 0, 0, false, false⟩ := ⟨_, rfl⟩
  have v := p46_run.toValid
  obtain ⟨k1, hk1⟩ : ∃ k : ℝ, k = 2 * Real.pi := ⟨_, rfl⟩
  have per : periodX p46.nx (1 / 4 : ℝ) = 1 := by
    show ((4 : Int) : ℝ) * (1 / 4) = 1
    norm_num
  have fits : Fits p46 (1 / 4) k1 0 := ⟨⟨1, by rw [per, hk1]; simp⟩, 0, by simp⟩
  have sym : lapSymbol (1 / 4) k1 0 = 64 - 128 / 3 * Real.cos (Real.pi / 4) := by
    unfold lapSymbol
    rw [hk1, show (1 / 4 : ℝ) * (2 * Real.pi) = Real.pi / 2 by ring,
      show (1 / 4 : ℝ) * (2 * Real.pi / 2 + √3 / 2 * 0) = Real.pi / 4 by ring,
      show (1 / 4 : ℝ) * (2 * Real.pi / 2 - √3 / 2 * 0) = Real.pi / 4 by ring, Real.cos_pi_div_two]
    ring
  have pos : 0 < lapSymbol (1 / 4) k1 0 := by
    rw [sym]; have := Real.cos_le_one (Real.pi / 4); linarith
  obtain ⟨ω, hω⟩ : ∃ w : ℝ, w = √(9 * 2 * lapSymbol (1 / 4) k1 0) := ⟨_, rfl⟩
  have w0 : 0 < ω := by rw [hω]; positivity
  have w2 : ω ^ 2 = prm.grav * 2 * lapSymbol (1 / 4) k1 0 := by
    rw [hω, Real.sq_sqrt (by positivity), hprm]
  obtain ⟨m₀, hr₀, -, -⟩ := exists_ready v (1 / 4) prm ⟨fun _ _ => 0, fun _ _ => 0, fun _ _ _ => 0⟩ zeroFld
  have ex := fun ε : ℝ => exists_ready v (1 / 4) prm
    ⟨fun c _ => 2 + ε * waveH m₀ k1 0 1 c, fun e _ => ε * waveU m₀ prm.grav ω (1 / 4) k1 0 1 e, fun _ _ _ => 0⟩ zeroFld
  choose m hr hx _ using ex
  obtain ⟨sched, hsch⟩ : ∃ s : List (ℝ × ℝ), s = List.replicate 7 (0, 1 / 50) := ⟨_, rfl⟩
  have run := fun ε => by
    obtain ⟨hd, hc⟩ := ready_ok p46_run (hr ε)
    exact ((C40_safe_deterministic hd hc (noHook_ofParams prm) true).2.2 stp sched).2.exists
  choose m1 he using run
  have eh : ∀ ε c, (m ε).real (.h_cell .state) 0 c 2 = 2 + ε * waveH m₀ k1 0 1 c := fun ε c =>
    congrFun (congrFun (congrArg Fld.h (hx ε)) c) 2
  have ev : ∀ ε e, (m ε).real (.vn_edge .state) 0 e 2 = ε * waveU m₀ prm.grav ω (1 / 4) k1 0 1 e := fun ε e =>
    congrFun (congrFun (congrArg Fld.vn (hx ε)) e) 2
  have g0 := hr₀.hex v
  have g1 := (hr 0).hex v
  have sc : ∀ c, 0 ≤ c → c < p46.dims.ncells → cellAt m₀ c = cellAt (m 0) c := fun c c0 c1 => by
    unfold cellAt; rw [g0.1.x_cell c ⟨c0, c1⟩, g0.1.y_cell c ⟨c0, c1⟩, g1.1.x_cell c ⟨c0, c1⟩, g1.1.y_cell c ⟨c0, c1⟩]
  have se : ∀ e, 0 ≤ e → e < p46.dims.nedges → edgeAt m₀ e = edgeAt (m 0) e ∧ normal m₀ e = normal (m 0) e :=
    fun e e0 e1 => by
      constructor
      · unfold edgeAt; rw [g0.1.x_edge e e0 e1, g0.1.y_edge e e0 e1, g1.1.x_edge e e0 e1, g1.1.y_edge e e0 e1]
      · unfold normal; rw [g0.1.angle_edge e e0 e1, g1.1.angle_edge e e0 e1]
  set Z : ℂ := aeval ((1 / 50 * ω : ℝ) * Complex.I) (stabPoly stp) ^ sched.length with hZ
  refine ⟨prm, k1, ω, m, m1, sched, ‖Z‖, Z.arg, p46_run, by simp [p46], by simp [p46], by rw [hprm], by rw [hprm],
    by rw [hprm], by rw [hprm], by rw [hprm], by rw [hprm], fits, w0, w2, by norm_num,
    by rw [p46_layers]; norm_num, hr, fun c _ _ => by rw [eh]; simp, fun e _ _ => by rw [ev]; simp,
    fun c c0 c1 => ?_, fun e e0 e1 => ?_, by rw [hsch, List.length_replicate],
    fun q hq => by rw [hsch] at hq; rw [List.eq_of_mem_replicate hq], norm_nonneg _,
    (Complex.norm_mul_exp_arg_mul_I Z).symm, he⟩
  · simp only [eh]
    have : waveH (m 0) k1 0 1 c = waveH m₀ k1 0 1 c := by unfold waveH; rw [sc c c0 c1]
    rw [this]
    exact (((hasDerivAt_id (0 : ℝ)).mul_const _).const_add 2).congr_deriv (by simp)
  · simp only [ev]
    have : waveU (m 0) prm.grav ω (1 / 4) k1 0 1 e = waveU m₀ prm.grav ω (1 / 4) k1 0 1 e := by
      unfold waveU; rw [(se e e0 e1).1, (se e e0 e1).2]
    rw [this]
    exact ((hasDerivAt_id (0 : ℝ)).mul_const _).congr_deriv (by simp)

end Props
end
end Omega
