import Verif.Props.AdvectionConvergence

/-!
# Small perturbations of a state of rest

A layer of constant thickness without motion is a steady state.  The response of a run to a small
perturbation of it is, to first order, that of the linear equations stepped in time with the stability
polynomial of the stepper.  The linear equations conserve energy, and under a Courant condition the
fourth-order steppers do not amplify it.
-/

set_option linter.unusedVariables false
set_option linter.unusedSectionVars false

namespace Omega
noncomputable section

/-! ### Bounds of the lattice operators -/

namespace Hex

open Refine

variable {nx ny : Int}

/-- sum over the edges of a function of the two cells -/
theorem sum_across_edges (G : Int → Int → ℝ) :
    ∑ e ∈ upto (3 * (nx * ny)), G (Hex.coe nx ny e 0) (Hex.coe nx ny e 1) =
      ∑ c ∈ upto (nx * ny), (G (inv nx ny 3 c) c + G (inv nx ny 4 c) c + G (inv nx ny 5 c) c) := by
  rw [sum_three]
  refine Finset.sum_congr rfl fun c _ => ?_
  simp only [coe_one, coe_zero]
  have a0 : 3 * c / 3 = c := by omega
  have a1 : (3 * c + 1) / 3 = c := by omega
  have a2 : (3 * c + 2) / 3 = c := by omega
  have b0 : 3 * c % 3 = 0 := by omega
  have b1 : (3 * c + 1) % 3 = 1 := by omega
  have b2 : (3 * c + 2) % 3 = 2 := by omega
  rw [a0, a1, a2, b0, b1, b2]
  norm_num

/-- bound of the squared differences by the squares -/
def gradConst (ny : Int) : ℝ := if ny % 2 = 0 then 9 else 12

theorem gradConst_pos (ny : Int) : 0 < gradConst ny := by unfold gradConst; split_ifs <;> norm_num

theorem sum_Gr_sq (hnx : 1 ≤ nx) (φ : Int → ℝ) :
    ∑ e ∈ upto (3 * (nx * ny)), Gr nx ny φ e ^ 2 ≤ gradConst ny * ∑ c ∈ upto (nx * ny), φ c ^ 2 := by
  have l : ∑ e ∈ upto (3 * (nx * ny)), Gr nx ny φ e ^ 2 = ∑ c ∈ upto (nx * ny),
      ((φ c - φ (inv nx ny 3 c)) ^ 2 + (φ c - φ (inv nx ny 4 c)) ^ 2 + (φ c - φ (inv nx ny 5 c)) ^ 2) :=
    sum_across_edges fun a b => (φ b - φ a) ^ 2
  have sh : ∀ j, ∑ c ∈ upto (nx * ny), (φ c - φ (inv nx ny j c)) ^ 2 =
      ∑ c ∈ upto (nx * ny), (φ (nb nx ny j c) - φ c) ^ 2 := fun j => by
    rw [← sum_nb hnx j fun c => (φ c - φ (inv nx ny j c)) ^ 2]
    exact Finset.sum_congr rfl fun c hc => by rw [inv_nb hnx (mem_cells.mp hc)]
  have sq : ∀ j, ∑ c ∈ upto (nx * ny), φ (nb nx ny j c) ^ 2 = ∑ c ∈ upto (nx * ny), φ c ^ 2 :=
    fun j => sum_nb hnx j fun c => φ c ^ 2
  rw [l, Finset.sum_add_distrib, Finset.sum_add_distrib, sh, sh, sh]
  unfold gradConst
  split_ifs with hny
  · -- triangles
    have t : ∑ c ∈ upto (nx * ny), (φ (nb nx ny 5 c) - φ c) ^ 2 = ∑ c ∈ upto (nx * ny),
        (φ (nb nx ny 5 (nb nx ny 3 c)) - φ (nb nx ny 3 c)) ^ 2 :=
      (sum_nb hnx 3 fun c => (φ (nb nx ny 5 c) - φ c) ^ 2).symm
    rw [t, ← Finset.sum_add_distrib, ← Finset.sum_add_distrib]
    calc _ ≤ ∑ c ∈ upto (nx * ny), (3 * φ (nb nx ny 3 c) ^ 2 + 3 * φ (nb nx ny 4 c) ^ 2 + 3 * φ c ^ 2) := by
          refine Finset.sum_le_sum fun c hc => ?_
          have := nb_turn hnx hny (mem_cells.mp hc) (j := 3) (by norm_num) (by norm_num)
          norm_num at this
          rw [this]
          nlinarith [sq_nonneg (φ (nb nx ny 3 c) + φ (nb nx ny 4 c) + φ c)]
      _ = _ := by
          simp only [Finset.sum_add_distrib, ← Finset.mul_sum, sq]
          ring
  · rw [← Finset.sum_add_distrib, ← Finset.sum_add_distrib]
    calc _ ≤ ∑ c ∈ upto (nx * ny), (2 * φ (nb nx ny 3 c) ^ 2 + 2 * φ (nb nx ny 4 c) ^ 2 +
          2 * φ (nb nx ny 5 c) ^ 2 + 6 * φ c ^ 2) := by
          refine Finset.sum_le_sum fun c hc => ?_
          nlinarith [sq_nonneg (φ (nb nx ny 3 c) + φ c), sq_nonneg (φ (nb nx ny 4 c) + φ c),
            sq_nonneg (φ (nb nx ny 5 c) + φ c)]
      _ = _ := by
          simp only [Finset.sum_add_distrib, ← Finset.mul_sum, sq]
          ring

/-- the divergence, by duality -/
theorem sum_Dv_sq (hnx : 1 ≤ nx) (u : Int → ℝ) :
    ∑ c ∈ upto (nx * ny), Dv nx ny u c ^ 2 ≤ gradConst ny * ∑ e ∈ upto (3 * (nx * ny)), u e ^ 2 := by
  have k0 := gradConst_pos ny
  set X := ∑ c ∈ upto (nx * ny), Dv nx ny u c ^ 2 with hX
  set Y := ∑ e ∈ upto (3 * (nx * ny)), u e ^ 2 with hY
  have X0 : 0 ≤ X := Finset.sum_nonneg fun _ _ => sq_nonneg _
  have Y0 : 0 ≤ Y := Finset.sum_nonneg fun _ _ => sq_nonneg _
  have h : X ^ 2 ≤ Y * (gradConst ny * X) := by
    have e : X = -∑ e ∈ upto (3 * (nx * ny)), u e * Gr nx ny (Dv nx ny u) e := by
      rw [← adjoint_cell hnx]
      exact Finset.sum_congr rfl fun c _ => by ring
    rw [show X ^ 2 = (∑ e ∈ upto (3 * (nx * ny)), u e * Gr nx ny (Dv nx ny u) e) ^ 2 by rw [e]; ring]
    refine (Finset.sum_mul_sq_le_sq_mul_sq _ _ _).trans ?_
    exact mul_le_mul_of_nonneg_left (sum_Gr_sq hnx _) Y0
  rcases X0.eq_or_lt with h0 | h0
  · rw [← h0]; positivity
  · nlinarith

/-- the tangential reconstruction -/
theorem sum_Tn_sq (hnx : 1 ≤ nx) (u : Int → ℝ) :
    ∑ e ∈ upto (3 * (nx * ny)), Tn nx ny u e ^ 2 ≤ 4 * ∑ e ∈ upto (3 * (nx * ny)), u e ^ 2 := by
  set P : Int → Int → ℝ := fun c a => 1 / 3 * u (E nx ny c ((a + 1) % 6)) ^ 2 +
    1 / 6 * u (E nx ny c ((a + 2) % 6)) ^ 2 + 1 / 6 * u (E nx ny c ((a + 4) % 6)) ^ 2 +
    1 / 3 * u (E nx ny c ((a + 5) % 6)) ^ 2 with hP
  have one : ∀ c a, Tq nx ny (fun _ e' => u e') c a ^ 2 ≤ P c a := fun c a => by
    simp only [Tq, hP]
    set x1 := u (E nx ny c ((a + 1) % 6))
    set x2 := u (E nx ny c ((a + 2) % 6))
    set x4 := u (E nx ny c ((a + 4) % 6))
    set x5 := u (E nx ny c ((a + 5) % 6))
    obtain h | h | h : a % 3 = 0 ∨ a % 3 = 1 ∨ a % 3 = 2 := by omega
    · rw [h]; norm_num [wRaw]
      nlinarith [sq_nonneg (x1 - x2), sq_nonneg (x1 - x4), sq_nonneg (x1 - x5), sq_nonneg (x2 - x4),
        sq_nonneg (x2 - x5), sq_nonneg (x4 - x5)]
    · rw [h]; norm_num [wRaw]
      nlinarith [sq_nonneg (x1 + x2), sq_nonneg (x1 - x4), sq_nonneg (x1 + x5), sq_nonneg (x2 + x4),
        sq_nonneg (x2 - x5), sq_nonneg (x4 + x5)]
    · rw [h]; norm_num [wRaw]
      nlinarith [sq_nonneg (x1 - x2), sq_nonneg (x1 - x4), sq_nonneg (x1 - x5), sq_nonneg (x2 - x4),
        sq_nonneg (x2 - x5), sq_nonneg (x4 - x5)]
  calc ∑ e ∈ upto (3 * (nx * ny)), Tn nx ny u e ^ 2 ≤
      ∑ e ∈ upto (3 * (nx * ny)), 2 * (P (Hex.coe nx ny e 0) (e % 3 + 3) + P (e / 3) (e % 3)) := by
        refine Finset.sum_le_sum fun e he => ?_
        have he := Finset.mem_Ico.mp he
        have h1 := one (Hex.coe nx ny e 0) (e % 3 + 3)
        have h2 := one (e / 3) (e % 3)
        rw [Tn, Tw_eq hnx _ (isCell_edge he.1 he.2)]
        set s := Tq nx ny (fun _ e' => u e') (Hex.coe nx ny e 0) (e % 3 + 3)
        set t := Tq nx ny (fun _ e' => u e') (e / 3) (e % 3)
        nlinarith [sq_nonneg (s - t)]
    _ = 2 * ∑ c ∈ upto (nx * ny), Sd nx ny (fun e => u e ^ 2) c := by
        rw [← Finset.mul_sum, sum_sides hnx P]
        congr 1
        refine Finset.sum_congr rfl fun c _ => ?_
        simp only [hP, Sd]
        norm_num
        ring
    _ = 4 * ∑ e ∈ upto (3 * (nx * ny)), u e ^ 2 := by
        have := sum_Sd (ny := ny) hnx (fun _ => 1) fun e => u e ^ 2
        simp only [one_mul] at this
        rw [this, Finset.mul_sum, Finset.mul_sum]
        exact Finset.sum_congr rfl fun e _ => by ring

end Hex

namespace Props

open Prog Model Refine Hex Polynomial

open scoped RealInnerProductSpace

variable {p : MeshParams} {dc : ℝ} {m : Mem ℝ}

/-! ### The linear equations -/

theorem grad_add' (m : Mem ℝ) (x y : Int → ℝ) (e : Int) :
    Spec.grad m (fun i => x i + y i) e = Spec.grad m x e + Spec.grad m y e := by
  unfold Spec.grad; ring
theorem grad_mul' (m : Mem ℝ) (a : ℝ) (x : Int → ℝ) (e : Int) :
    Spec.grad m (fun i => a * x i) e = a * Spec.grad m x e := by
  unfold Spec.grad; ring
theorem tang_add' (m : Mem ℝ) (x y : Int → ℝ) (e : Int) :
    Spec.tang m (fun i => x i + y i) e = Spec.tang m x e + Spec.tang m y e := by
  unfold Spec.tang
  rw [← Finset.sum_add_distrib]
  exact Finset.sum_congr rfl fun _ _ => by ring
theorem tang_mul' (m : Mem ℝ) (a : ℝ) (x : Int → ℝ) (e : Int) :
    Spec.tang m (fun i => a * x i) e = a * Spec.tang m x e := by
  unfold Spec.tang
  rw [Finset.mul_sum]
  exact Finset.sum_congr rfl fun _ _ => by ring

/-- Shallow-water equations linearised about rest with thickness `H`: the thickness changes by minus `H`
times the divergence of the velocity, the velocity by the Coriolis force and minus gravity times the
gradient of the thickness. -/
def restOp (m : Mem ℝ) (g f H : ℝ) : Module.End ℝ ((Int → ℝ) × (Int → ℝ)) where
  toFun w := (fun c => -(H * Spec.div m w.2 c), fun e => f * Spec.tang m w.2 e - g * Spec.grad m w.1 e)
  map_add' x y := by
    refine Prod.ext (funext fun c => ?_) (funext fun e => ?_)
    · show -(H * Spec.div m (fun i => x.2 i + y.2 i) c) = -(H * Spec.div m x.2 c) + -(H * Spec.div m y.2 c)
      rw [div_add']; ring
    · show f * Spec.tang m (fun i => x.2 i + y.2 i) e - g * Spec.grad m (fun i => x.1 i + y.1 i) e =
        f * Spec.tang m x.2 e - g * Spec.grad m x.1 e + (f * Spec.tang m y.2 e - g * Spec.grad m y.1 e)
      rw [tang_add', grad_add']; ring
  map_smul' a x := by
    refine Prod.ext (funext fun c => ?_) (funext fun e => ?_)
    · show -(H * Spec.div m (fun i => a * x.2 i) c) = a * -(H * Spec.div m x.2 c)
      rw [div_mul']; ring
    · show f * Spec.tang m (fun i => a * x.2 i) e - g * Spec.grad m (fun i => a * x.1 i) e =
        a * (f * Spec.tang m x.2 e - g * Spec.grad m x.1 e)
      rw [tang_mul', grad_mul']; ring

/-- energy of a perturbation of rest with thickness `H`, times two -/
def restEnergy (d : Dims) (m : Mem ℝ) (g H : ℝ) (a b : Int → ℝ) : ℝ :=
  g * ∑ c ∈ Spec.cells d, Spec.areaC m c * a c ^ 2 +
    H * ∑ e ∈ Spec.edges d, Spec.dcE m e * Spec.dvE m e * b e ^ 2

/-- cell values and edge values, scaled to make the energy a squared norm -/
def restMap (d : Dims) (m : Mem ℝ) (g H : ℝ) :
    ((Int → ℝ) × (Int → ℝ)) →ₗ[ℝ] EuclideanSpace ℝ (Spec.cells d ⊕ Spec.edges d) where
  toFun w := WithLp.toLp 2 (Sum.elim (fun c => √(g * Spec.areaC m c) * w.1 c)
    fun e => √(H * (Spec.dcE m e * Spec.dvE m e)) * w.2 e)
  map_add' x y := by
    ext i
    rcases i with i | i <;> simp [mul_add]
  map_smul' a x := by
    ext i
    rcases i with i | i <;> simp <;> ring

section

variable (h : Geo2 p.nx p.ny p.dims.nlayers dc m.mesh) {g f H : ℝ} (g0 : 0 ≤ g) (H0 : 0 < H)
include h g0 H0

theorem inner_rest (x y : (Int → ℝ) × (Int → ℝ)) :
    ⟪restMap p.dims m g H x, restMap p.dims m g H y⟫ =
      g * ∑ c ∈ Spec.cells p.dims, Spec.areaC m c * (x.1 c * y.1 c) +
      H * ∑ e ∈ Spec.edges p.dims, Spec.dcE m e * Spec.dvE m e * (x.2 e * y.2 e) := by
  have := w_pos; have := h.dc_pos
  rw [PiLp.inner_apply, Fintype.sum_sum_type, Finset.mul_sum, Finset.mul_sum,
    ← Finset.sum_coe_sort (Spec.cells p.dims), ← Finset.sum_coe_sort (Spec.edges p.dims)]
  congr 1
  · refine Finset.sum_congr rfl fun c _ => ?_
    have a0 : 0 ≤ g * Spec.areaC m c := by
      rw [spec_areaC h.toGeo (mem_cells.mp c.2)]; positivity
    have s := Real.mul_self_sqrt a0
    simp only [restMap, LinearMap.coe_mk, AddHom.coe_mk, Sum.elim_inl, RCLike.inner_apply, conj_trivial]
    linear_combination (x.1 c * y.1 c) * s
  · refine Finset.sum_congr rfl fun e _ => ?_
    have he := Finset.mem_Ico.mp e.2
    have a0 : 0 ≤ H * (Spec.dcE m e * Spec.dvE m e) := by
      rw [spec_dcE h.toGeo he.1 he.2, spec_dvE h.toGeo he.1 he.2]; positivity
    have s := Real.mul_self_sqrt a0
    simp only [restMap, LinearMap.coe_mk, AddHom.coe_mk, Sum.elim_inr, RCLike.inner_apply, conj_trivial]
    linear_combination (x.2 e * y.2 e) * s

theorem norm_rest (x : (Int → ℝ) × (Int → ℝ)) :
    ‖restMap p.dims m g H x‖ ^ 2 = restEnergy p.dims m g H x.1 x.2 := by
  rw [← real_inner_self_eq_norm_sq, inner_rest h g0 H0]
  simp only [restEnergy, sq]

/-- the linear equations conserve energy -/
theorem rest_skew (x y : (Int → ℝ) × (Int → ℝ)) :
    ⟪restMap p.dims m g H (restOp m g f H x), restMap p.dims m g H y⟫ +
      ⟪restMap p.dims m g H x, restMap p.dims m g H (restOp m g f H y)⟫ = 0 := by
  rw [inner_rest h g0 H0, inner_rest h g0 H0]
  have a1 := adjoint h y.1 x.2
  have a2 := adjoint h x.1 y.2
  have w1 := no_work h.toGeo (fun _ => 1) fun e => x.2 e + y.2 e
  have w2 := no_work h.toGeo (fun _ => 1) x.2
  have w3 := no_work h.toGeo (fun _ => 1) y.2
  have pt : ∀ u e, Spec.pvFlux m (fun _ => 1) u e = Spec.tang m u e := fun u e => by
    simp [Spec.pvFlux, Spec.tang]
  simp only [pt, tang_add'] at w1 w2 w3
  have w : ∑ e ∈ Spec.edges p.dims, Spec.dcE m e * Spec.dvE m e * (x.2 e * Spec.tang m y.2 e) +
      ∑ e ∈ Spec.edges p.dims, Spec.dcE m e * Spec.dvE m e * (y.2 e * Spec.tang m x.2 e) = 0 := by
    have : ∑ e ∈ Spec.edges p.dims, Spec.dcE m e * Spec.dvE m e *
        ((x.2 e + y.2 e) * (Spec.tang m x.2 e + Spec.tang m y.2 e)) =
        ∑ e ∈ Spec.edges p.dims, Spec.dcE m e * Spec.dvE m e * (x.2 e * Spec.tang m x.2 e) +
        ∑ e ∈ Spec.edges p.dims, Spec.dcE m e * Spec.dvE m e * (y.2 e * Spec.tang m y.2 e) +
        (∑ e ∈ Spec.edges p.dims, Spec.dcE m e * Spec.dvE m e * (x.2 e * Spec.tang m y.2 e) +
        ∑ e ∈ Spec.edges p.dims, Spec.dcE m e * Spec.dvE m e * (y.2 e * Spec.tang m x.2 e)) := by
      rw [← Finset.sum_add_distrib, ← Finset.sum_add_distrib, ← Finset.sum_add_distrib]
      exact Finset.sum_congr rfl fun e _ => by ring
    linarith
  have c1 : ∑ c ∈ Spec.cells p.dims, Spec.areaC m c * ((restOp m g f H x).1 c * y.1 c) =
      -H * ∑ c ∈ Spec.cells p.dims, Spec.areaC m c * (y.1 c * Spec.div m x.2 c) := by
    rw [Finset.mul_sum]
    exact Finset.sum_congr rfl fun c _ => by simp only [restOp, LinearMap.coe_mk, AddHom.coe_mk]; ring
  have c2 : ∑ c ∈ Spec.cells p.dims, Spec.areaC m c * (x.1 c * (restOp m g f H y).1 c) =
      -H * ∑ c ∈ Spec.cells p.dims, Spec.areaC m c * (x.1 c * Spec.div m y.2 c) := by
    rw [Finset.mul_sum]
    exact Finset.sum_congr rfl fun c _ => by simp only [restOp, LinearMap.coe_mk, AddHom.coe_mk]; ring
  have e1 : ∑ e ∈ Spec.edges p.dims, Spec.dcE m e * Spec.dvE m e * ((restOp m g f H x).2 e * y.2 e) =
      f * ∑ e ∈ Spec.edges p.dims, Spec.dcE m e * Spec.dvE m e * (y.2 e * Spec.tang m x.2 e) -
      g * ∑ e ∈ Spec.edges p.dims, Spec.dcE m e * Spec.dvE m e * (y.2 e * Spec.grad m x.1 e) := by
    rw [Finset.mul_sum, Finset.mul_sum, ← Finset.sum_sub_distrib]
    exact Finset.sum_congr rfl fun c _ => by simp only [restOp, LinearMap.coe_mk, AddHom.coe_mk]; ring
  have e2 : ∑ e ∈ Spec.edges p.dims, Spec.dcE m e * Spec.dvE m e * (x.2 e * (restOp m g f H y).2 e) =
      f * ∑ e ∈ Spec.edges p.dims, Spec.dcE m e * Spec.dvE m e * (x.2 e * Spec.tang m y.2 e) -
      g * ∑ e ∈ Spec.edges p.dims, Spec.dcE m e * Spec.dvE m e * (x.2 e * Spec.grad m y.1 e) := by
    rw [Finset.mul_sum, Finset.mul_sum, ← Finset.sum_sub_distrib]
    exact Finset.sum_congr rfl fun c _ => by simp only [restOp, LinearMap.coe_mk, AddHom.coe_mk]; ring
  rw [c1, c2, e1, e2, a1, a2]
  linear_combination H * f * w

/-- bounds of the operators in the weighted norms -/
theorem rest_sums (a b : Int → ℝ) :
    ∑ e ∈ Spec.edges p.dims, Spec.dcE m e * Spec.dvE m e * Spec.grad m a e ^ 2 ≤
      2 / 3 * gradConst p.ny / dc ^ 2 * ∑ c ∈ Spec.cells p.dims, Spec.areaC m c * a c ^ 2 ∧
    ∑ c ∈ Spec.cells p.dims, Spec.areaC m c * Spec.div m b c ^ 2 ≤
      2 / 3 * gradConst p.ny / dc ^ 2 * ∑ e ∈ Spec.edges p.dims, Spec.dcE m e * Spec.dvE m e * b e ^ 2 ∧
    ∑ e ∈ Spec.edges p.dims, Spec.dcE m e * Spec.dvE m e * Spec.tang m b e ^ 2 ≤
      4 / 3 * ∑ e ∈ Spec.edges p.dims, Spec.dcE m e * Spec.dvE m e * b e ^ 2 := by
  have w := w_pos; have d0 := h.dc_pos; have w2 := w_sq
  have G := sum_Gr_sq (ny := p.ny) h.hnx a
  have D := sum_Dv_sq (ny := p.ny) h.hnx b
  have T := sum_Tn_sq (ny := p.ny) h.hnx b
  have sc : ∀ x : Int → ℝ, ∑ c ∈ Spec.cells p.dims, Spec.areaC m c * x c ^ 2 =
      dc * dc * √3 / 2 * ∑ c ∈ upto (p.nx * p.ny), x c ^ 2 := fun x => by
    rw [Finset.mul_sum]
    exact Finset.sum_congr rfl fun c hc => by rw [spec_areaC h.toGeo (mem_cells.mp hc)]
  have se : ∀ x : Int → ℝ, ∑ e ∈ Spec.edges p.dims, Spec.dcE m e * Spec.dvE m e * x e ^ 2 =
      dc * (dc * √3 / 3) * ∑ e ∈ upto (3 * (p.nx * p.ny)), x e ^ 2 := fun x => by
    rw [Finset.mul_sum]
    refine Finset.sum_congr rfl fun e he => ?_
    have he := Finset.mem_Ico.mp he
    rw [spec_dcE h.toGeo he.1 he.2, spec_dvE h.toGeo he.1 he.2]
  have g1 : ∑ e ∈ upto (3 * (p.nx * p.ny)), Spec.grad m a e ^ 2 =
      1 / dc ^ 2 * ∑ e ∈ upto (3 * (p.nx * p.ny)), Gr p.nx p.ny a e ^ 2 := by
    rw [Finset.mul_sum]
    refine Finset.sum_congr rfl fun e he => ?_
    have he := Finset.mem_Ico.mp he
    rw [spec_grad h.toGeo a he.1 he.2]; field_simp
  have g2 : ∑ c ∈ upto (p.nx * p.ny), Spec.div m b c ^ 2 =
      4 / (9 * dc ^ 2) * ∑ c ∈ upto (p.nx * p.ny), Dv p.nx p.ny b c ^ 2 := by
    rw [Finset.mul_sum]
    refine Finset.sum_congr rfl fun c hc => ?_
    rw [spec_div h b (mem_cells.mp hc)]; field_simp; ring
  have g3 : ∑ e ∈ upto (3 * (p.nx * p.ny)), Spec.tang m b e ^ 2 =
      1 / 3 * ∑ e ∈ upto (3 * (p.nx * p.ny)), Tn p.nx p.ny b e ^ 2 := by
    rw [Finset.mul_sum]
    refine Finset.sum_congr rfl fun e he => ?_
    have he := Finset.mem_Ico.mp he
    rw [spec_tang h.toGeo b he.1 he.2, mul_pow, div_pow, one_pow, Real.sq_sqrt (by norm_num)]
  rw [se, se, sc, sc, se, g1, g2, g3]
  refine ⟨?_, ?_, ?_⟩
  · calc _ ≤ dc * (dc * √3 / 3) * (1 / dc ^ 2 * (gradConst p.ny * ∑ c ∈ upto (p.nx * p.ny), a c ^ 2)) := by
          gcongr
      _ = _ := by field_simp
  · calc _ ≤ dc * dc * √3 / 2 * (4 / (9 * dc ^ 2) * (gradConst p.ny *
          ∑ e ∈ upto (3 * (p.nx * p.ny)), b e ^ 2)) := by
          gcongr
      _ = _ := by field_simp; ring
  · calc _ ≤ dc * (dc * √3 / 3) * (1 / 3 * (4 * ∑ e ∈ upto (3 * (p.nx * p.ny)), b e ^ 2)) := by
          gcongr
      _ = _ := by ring

/-- bound of the linear equations in the energy norm: the fastest gravity wave and the Coriolis force -/
theorem rest_bound (x : (Int → ℝ) × (Int → ℝ)) :
    ‖restMap p.dims m g H (restOp m g f H x)‖ ≤
      (√(2 / 3 * gradConst p.ny * (g * H)) / dc + 2 / √3 * |f|) * ‖restMap p.dims m g H x‖ := by
  have w := w_pos; have d0 := h.dc_pos; have k0 := gradConst_pos p.ny
  obtain ⟨G, D, T⟩ := rest_sums h g0 H0 x.1 x.2
  set T' := restMap p.dims m g H with hT
  have split : restOp m g f H x = restOp m g 0 H x + (0, fun e => f * Spec.tang m x.2 e) := by
    refine Prod.ext (funext fun c => ?_) (funext fun e => ?_) <;>
      simp only [restOp, LinearMap.coe_mk, AddHom.coe_mk, Prod.fst_add, Prod.snd_add, Pi.add_apply] <;> (simp; try ring)
  have sA0 : 0 ≤ ∑ c ∈ Spec.cells p.dims, Spec.areaC m c * x.1 c ^ 2 := by
    refine Finset.sum_nonneg fun c hc => ?_
    rw [spec_areaC h.toGeo (mem_cells.mp hc)]; positivity
  have sB0 : 0 ≤ ∑ e ∈ Spec.edges p.dims, Spec.dcE m e * Spec.dvE m e * x.2 e ^ 2 := by
    refine Finset.sum_nonneg fun e he => ?_
    have he := Finset.mem_Ico.mp he
    rw [spec_dcE h.toGeo he.1 he.2, spec_dvE h.toGeo he.1 he.2]; positivity
  have nx2 := norm_rest h g0 H0 x
  have p1 : ‖T' (restOp m g 0 H x)‖ ≤ √(2 / 3 * gradConst p.ny * (g * H)) / dc * ‖T' x‖ := by
    refine le_of_sq_le_sq ?_ (by positivity)
    rw [hT, norm_rest h g0 H0, mul_pow, nx2, div_pow, Real.sq_sqrt (by positivity)]
    simp only [restEnergy, restOp, LinearMap.coe_mk, AddHom.coe_mk, zero_mul, zero_sub, neg_sq, mul_pow]
    have e1 : ∑ c ∈ Spec.cells p.dims, Spec.areaC m c * (H ^ 2 * Spec.div m x.2 c ^ 2) =
        H ^ 2 * ∑ c ∈ Spec.cells p.dims, Spec.areaC m c * Spec.div m x.2 c ^ 2 := by
      rw [Finset.mul_sum]; exact Finset.sum_congr rfl fun _ _ => by ring
    have e2 : ∑ e ∈ Spec.edges p.dims, Spec.dcE m e * Spec.dvE m e * (g ^ 2 * Spec.grad m x.1 e ^ 2) =
        g ^ 2 * ∑ e ∈ Spec.edges p.dims, Spec.dcE m e * Spec.dvE m e * Spec.grad m x.1 e ^ 2 := by
      rw [Finset.mul_sum]; exact Finset.sum_congr rfl fun _ _ => by ring
    rw [e1, e2]
    calc _ ≤ g * (H ^ 2 * (2 / 3 * gradConst p.ny / dc ^ 2 *
            ∑ e ∈ Spec.edges p.dims, Spec.dcE m e * Spec.dvE m e * x.2 e ^ 2)) +
          H * (g ^ 2 * (2 / 3 * gradConst p.ny / dc ^ 2 *
            ∑ c ∈ Spec.cells p.dims, Spec.areaC m c * x.1 c ^ 2)) := by gcongr
      _ = _ := by ring
  have p2 : ‖T' (0, fun e => f * Spec.tang m x.2 e)‖ ≤ 2 / √3 * |f| * ‖T' x‖ := by
    refine le_of_sq_le_sq ?_ (by positivity)
    rw [hT, norm_rest h g0 H0, mul_pow, nx2, mul_pow, div_pow, Real.sq_sqrt (by norm_num), sq_abs]
    simp only [restEnergy, mul_pow, Pi.zero_apply]
    have e2 : ∑ e ∈ Spec.edges p.dims, Spec.dcE m e * Spec.dvE m e * (f ^ 2 * Spec.tang m x.2 e ^ 2) =
        f ^ 2 * ∑ e ∈ Spec.edges p.dims, Spec.dcE m e * Spec.dvE m e * Spec.tang m x.2 e ^ 2 := by
      rw [Finset.mul_sum]; exact Finset.sum_congr rfl fun _ _ => by ring
    rw [e2]
    calc _ ≤ g * 0 + H * (f ^ 2 * (4 / 3 * ∑ e ∈ Spec.edges p.dims, Spec.dcE m e * Spec.dvE m e * x.2 e ^ 2)) := by
          have : ∑ c ∈ Spec.cells p.dims, Spec.areaC m c * (0 : ℝ) ^ 2 = 0 := by simp
          rw [this]
          gcongr
      _ ≤ _ := by
          nlinarith [mul_nonneg g0 sA0, mul_nonneg (sq_nonneg f) (mul_nonneg g0 sA0)]
  rw [split, map_add, add_mul]
  exact (norm_add_le _ _).trans (add_le_add p1 p2)

theorem rest_nearlySkew {dt : ℝ} (t0 : 0 ≤ dt)
    (hcfl : dt * (√(2 / 3 * gradConst p.ny * (g * H)) / dc + 2 / √3 * |f|) ≤ 5 / 2) :
    Lax.NearlySkew (restMap p.dims m g H) (dt • restOp m g f H) 0 := by
  refine ⟨fun x => ?_, fun x y => ?_⟩
  · rw [LinearMap.smul_apply, map_smul, norm_smul, Real.norm_of_nonneg t0]
    refine (mul_le_mul_of_nonneg_left (rest_bound h g0 H0 x) t0).trans ?_
    rw [← mul_assoc]
    exact mul_le_mul_of_nonneg_right hcfl (norm_nonneg _)
  · rw [LinearMap.smul_apply, LinearMap.smul_apply, map_smul, map_smul, inner_smul_left, inner_smul_right,
      conj_trivial, ← mul_add, rest_skew h g0 H0, mul_zero, abs_zero, zero_mul]

/-- the energy after steps of a fourth-order stepper -/
theorem rest_steps {stp : Stepper} (hstp : FourthOrder stp) {dt : ℝ} (t0 : 0 ≤ dt)
    (hcfl : dt * (√(2 / 3 * gradConst p.ny * (g * H)) / dc + 2 / √3 * |f|) ≤ 5 / 2)
    (sched : List (ℝ × ℝ)) (hs : ∀ a ∈ sched, a.2 = dt) (x : (Int → ℝ) × (Int → ℝ)) :
    ‖restMap p.dims m g H (sched.foldl (fun w a => aeval (a.2 • restOp m g f H) (stabPoly stp) w) x)‖ ≤
      (1 + 500 * defect stp) ^ sched.length * ‖restMap p.dims m g H x‖ := by
  obtain ⟨c1, c2, c3, c4, c5, hc, ha⟩ := fourth_order hstp
  induction sched generalizing x with
  | nil => simp
  | cons a L ih =>
    rw [List.foldl_cons, List.length_cons, hs a List.mem_cons_self]
    refine (ih (fun b hb => hs b (List.mem_cons_of_mem _ hb)) _).trans ?_
    have := (rest_nearlySkew h g0 H0 t0 hcfl).stable le_rfl hc x
    rw [← ha, mul_zero, add_zero] at this
    rw [pow_succ _ L.length, mul_assoc]
    exact mul_le_mul_of_nonneg_left this (by have := defect_nonneg stp; positivity)

end

/-! ### The first-order response -/

/-- Layer `k` of a family of states is `(H, 0)` at zero and has the derivative `w` there. -/
structure Tangent (d : Dims) (k : Int) (x : ℝ → Fld ℝ) (H : ℝ) (w : (Int → ℝ) × (Int → ℝ)) : Prop where
  h0 : ∀ c, 0 ≤ c → c < d.ncells → (x 0).h c k = H
  v0 : ∀ e, 0 ≤ e → e < d.nedges → (x 0).vn e k = 0
  h1 : ∀ c, 0 ≤ c → c < d.ncells → HasDerivAt (fun ε => (x ε).h c k) (w.1 c) 0
  v1 : ∀ e, 0 ≤ e → e < d.nedges → HasDerivAt (fun ε => (x ε).vn e k) (w.2 e) 0

theorem Tangent.axpy {d : Dims} {k : Int} {x y : ℝ → Fld ℝ} {H : ℝ} {w z : (Int → ℝ) × (Int → ℝ)}
    (hx : Tangent d k x H w) (hy : Tangent d k y 0 z) (a : ℝ) :
    Tangent d k (fun ε => (x ε).axpy a (y ε)) H (w + a • z) := by
  refine ⟨fun c c0 c1 => ?_, fun c c0 c1 => ?_, fun c c0 c1 => ?_, fun c c0 c1 => ?_⟩
  · show (x 0).h c k + a * (y 0).h c k = H
    rw [hx.h0 c c0 c1, hy.h0 c c0 c1]; ring
  · show (x 0).vn c k + a * (y 0).vn c k = 0
    rw [hx.v0 c c0 c1, hy.v0 c c0 c1]; ring
  · exact (hx.h1 c c0 c1).add ((hy.h1 c c0 c1).const_mul a)
  · exact (hx.v1 c c0 c1).add ((hy.v1 c c0 c1).const_mul a)

/-- a product with a factor that vanishes at zero -/
theorem deriv_mul_cont {F q : ℝ → ℝ} {F' : ℝ} (hF : HasDerivAt F F' 0) (h0 : F 0 = 0)
    (hq : ContinuousAt q 0) : HasDerivAt (fun ε => F ε * q ε) (F' * q 0) 0 := by
  rw [hasDerivAt_iff_tendsto_slope] at hF ⊢
  have : Filter.Tendsto (fun y => slope F 0 y * q y) (nhdsWithin 0 {0}ᶜ) (nhds (F' * q 0)) :=
    hF.mul (hq.tendsto.mono_left nhdsWithin_le_nhds)
  refine this.congr fun y => ?_
  simp only [slope_def_field, h0]
  ring

section

variable {mm : ℝ → Mem ℝ} (hg : ∀ ε, Geo2 p.nx p.ny p.dims.nlayers dc (mm ε).mesh) {f : ℝ}
  (hf : ∀ ε v, 0 ≤ v → v < p.dims.nvertices → (mm ε).real .f_vertex 0 v 0 = f)
  {sw : SWModel ℝ} (s1 : sw.en_hadv = true) (s2 : sw.en_pv = true) (s3 : sw.en_ke = true)
  (s4 : sw.en_ssh = true) (s5 : sw.en_vdiff = false) (s6 : sw.en_vhyper = false)
  {k : Int} {x : ℝ → Fld ℝ} {H : ℝ} (H0 : 0 < H) {w : (Int → ℝ) × (Int → ℝ)}
  (hx : Tangent p.dims k x H w)
include hg hx

/-- the mass flux -/
theorem tangent_flux {e : Int} (e0 : 0 ≤ e) (e1 : e < 3 * (p.nx * p.ny)) :
    HasDerivAt (fun ε => Mn p.nx p.ny (fun i => (x ε).h i k) e * (x ε).vn e k) (H * w.2 e) 0 ∧
    Mn p.nx p.ny (fun i => (x 0).h i k) e * (x 0).vn e k = 0 := by
  have hc := fun s => coe_isCell (hg 0).hnx e0 e1 (s := s)
  have v0 := hx.v0 e e0 e1
  have a := hx.h1 _ (hc 0).1 (hc 0).2
  have b := hx.h1 _ (hc 1).1 (hc 1).2
  have a0 := hx.h0 _ (hc 0).1 (hc 0).2
  have b0 := hx.h0 _ (hc 1).1 (hc 1).2
  refine ⟨?_, by rw [v0, mul_zero]⟩
  have := ((a.add b).div_const 2).mul (hx.v1 e e0 e1)
  refine this.congr_deriv ?_
  simp only [Pi.add_apply, v0, a0, b0]
  ring

include s1 in
theorem tangent_thickness {c : Int} (hc : IsCell p.nx p.ny c) :
    HasDerivAt (fun ε => Spec.thicknessTend (mm ε) sw (fun i => (x ε).h i k) (fun i => (x ε).vn i k) c)
      ((restOp (mm 0) sw.prm.grav f H w).1 c) 0 ∧
    Spec.thicknessTend (mm 0) sw (fun i => (x 0).h i k) (fun i => (x 0).vn i k) c = 0 := by
  have cl : ∀ ε, Spec.thicknessTend (mm ε) sw (fun i => (x ε).h i k) (fun i => (x ε).vn i k) c =
      -(2 / (3 * dc) * Dv p.nx p.ny (fun e => Mn p.nx p.ny (fun i => (x ε).h i k) e * (x ε).vn e k) c) :=
    fun ε => by
    rw [Spec.thicknessTend, if_pos s1, spec_div (hg ε) _ hc]
    congr 2
    refine Dv_congr (hg ε).hnx (fun e a b => ?_) hc
    show Spec.mean (mm ε) _ e * _ = _
    rw [spec_mean (hg ε).toGeo _ a b]
  have er := fun j a b => E_range (hg 0).hnx hc j a b
  have fl := fun j a b => tangent_flux hg hx (er j a b).1 (er j a b).2
  have f0 := fl 0 (by norm_num) (by norm_num)
  have f1 := fl 1 (by norm_num) (by norm_num)
  have f2 := fl 2 (by norm_num) (by norm_num)
  have f3 := fl 3 (by norm_num) (by norm_num)
  have f4 := fl 4 (by norm_num) (by norm_num)
  have f5 := fl 5 (by norm_num) (by norm_num)
  constructor
  · simp only [cl]
    have := ((((((f3.1.add f4.1).add f5.1).sub f0.1).sub f1.1).sub f2.1).const_mul (2 / (3 * dc))).neg
    refine this.congr_deriv ?_
    show _ = -(H * Spec.div (mm 0) w.2 c)
    rw [spec_div (hg 0) _ hc, Dv]
    ring
  · rw [cl]
    simp only [Dv, f0.2, f1.2, f2.2, f3.2, f4.2, f5.2]
    ring

include H0 hf in
/-- the potential vorticity on an edge -/
theorem tangent_pv {e : Int} (e0 : 0 ≤ e) (e1 : e < 3 * (p.nx * p.ny)) :
    ContinuousAt (fun ε => Spec.vmean (mm ε) (Spec.pv (mm ε) (fun i => (x ε).h i k) fun i => (x ε).vn i k) e) 0 ∧
    Spec.vmean (mm 0) (Spec.pv (mm 0) (fun i => (x 0).h i k) fun i => (x 0).vn i k) e = f / H := by
  have vx : ∀ s, s = 0 ∨ s = 1 → ContinuousAt (fun ε => Spec.pv (mm ε) (fun i => (x ε).h i k)
      (fun i => (x ε).vn i k) (Hex.voe p.nx p.ny e s)) 0 ∧ Spec.pv (mm 0) (fun i => (x 0).h i k)
      (fun i => (x 0).vn i k) (Hex.voe p.nx p.ny e s) = f / H := fun s hs => by
    obtain ⟨v0, v1⟩ := voe_isVertex (hg 0).hnx (isCell_edge e0 e1) (s := s) hs
    set v := Hex.voe p.nx p.ny e s
    have cl : ∀ ε, Spec.pv (mm ε) (fun i => (x ε).h i k) (fun i => (x ε).vn i k) v =
        (4 / (dc * √3) * Cu p.nx p.ny (fun i => (x ε).vn i k) v + f) / Mv p.nx p.ny (fun i => (x ε).h i k) v :=
      fun ε => by
      rw [Spec.pv, spec_curl (hg ε).toGeo _ v0 v1, spec_kiteMean (hg ε).toGeo _ v0 v1, hf ε v v0 v1]
    have hc := fun s => cov_isCell (hg 0).hnx v0 v1 (s := s)
    have cc := fun s => (hx.h1 _ (hc s).1 (hc s).2).continuousAt
    have c0 := fun s => hx.h0 _ (hc s).1 (hc s).2
    have er : ∀ s, 0 ≤ Hex.eov p.nx p.ny v s ∧ Hex.eov p.nx p.ny v s < 3 * (p.nx * p.ny) := fun s => by
      have := eov_isCell (hg 0).hnx v0 v1 (s := s)
      unfold IsCell at this
      constructor <;> omega
    have ec := fun s => (hx.v1 _ (er s).1 (er s).2).continuousAt
    have ez := fun s => hx.v0 _ (er s).1 (er s).2
    have m0 : Mv p.nx p.ny (fun i => (x 0).h i k) v = H := by
      simp only [Mv, c0]; ring
    have z0 : Cu p.nx p.ny (fun i => (x 0).vn i k) v = 0 := by
      simp only [Cu, ez]; simp
    constructor
    · simp only [cl]
      refine ContinuousAt.div ?_ ?_ (by rw [m0]; exact H0.ne')
      · refine (ContinuousAt.mul continuousAt_const ?_).add continuousAt_const
        unfold Cu
        split_ifs
        · exact ((ec 0).add (ec 1)).sub (ec 2)
        · exact ((ec 2).sub (ec 0)).sub (ec 1)
      · exact (((cc 0).add (cc 1)).add (cc 2)).div_const 3
    · rw [cl, m0, z0, mul_zero, zero_add]
  have cl : ∀ ε, Spec.vmean (mm ε) (Spec.pv (mm ε) (fun i => (x ε).h i k) fun i => (x ε).vn i k) e =
      (Spec.pv (mm ε) (fun i => (x ε).h i k) (fun i => (x ε).vn i k) (Hex.voe p.nx p.ny e 0) +
        Spec.pv (mm ε) (fun i => (x ε).h i k) (fun i => (x ε).vn i k) (Hex.voe p.nx p.ny e 1)) / 2 := fun ε => by
    have a0 : Spec.vertOf (mm ε) e 0 = Hex.voe p.nx p.ny e 0 := (hg ε).voe e e0 e1 0 (by omega) (by omega)
    have a1 : Spec.vertOf (mm ε) e 1 = Hex.voe p.nx p.ny e 1 := (hg ε).voe e e0 e1 1 (by omega) (by omega)
    rw [Spec.vmean, a0, a1]
  obtain ⟨b0, b1⟩ := vx 0 (Or.inl rfl)
  obtain ⟨d0, d1⟩ := vx 1 (Or.inr rfl)
  constructor
  · simp only [cl]
    exact (b0.add d0).div_const 2
  · rw [cl, b1, d1]; ring

include H0 hf s2 s3 s4 s5 s6 in
theorem tangent_velocity {e : Int} (e0 : 0 ≤ e) (e1 : e < 3 * (p.nx * p.ny)) :
    HasDerivAt (fun ε => Spec.velocityTend (mm ε) sw k (fun i => (x ε).h i k) (fun i => (x ε).vn i k) e)
      ((restOp (mm 0) sw.prm.grav f H w).2 e) 0 ∧
    Spec.velocityTend (mm 0) sw k (fun i => (x 0).h i k) (fun i => (x 0).vn i k) e = 0 := by
  have hc := fun s => coe_isCell (hg 0).hnx e0 e1 (s := s)
  -- vorticity flux
  have q : HasDerivAt (fun ε => Spec.pvFlux (mm ε) (Spec.vmean (mm ε) (Spec.pv (mm ε) (fun i => (x ε).h i k)
      fun i => (x ε).vn i k)) (fun e => Spec.mean (mm ε) (fun i => (x ε).h i k) e * (x ε).vn e k) e)
      (f * Spec.tang (mm 0) w.2 e) 0 ∧ Spec.pvFlux (mm 0) (Spec.vmean (mm 0) (Spec.pv (mm 0) (fun i => (x 0).h i k)
      fun i => (x 0).vn i k)) (fun e => Spec.mean (mm 0) (fun i => (x 0).h i k) e * (x 0).vn e k) e = 0 := by
    set Q : ℝ → Int → ℝ := fun ε => Spec.vmean (mm ε) (Spec.pv (mm ε) (fun i => (x ε).h i k)
      fun i => (x ε).vn i k) with hQ
    set F : ℝ → Int → ℝ := fun ε e => Mn p.nx p.ny (fun i => (x ε).h i k) e * (x ε).vn e k with hF
    have cl : ∀ ε, Spec.pvFlux (mm ε) (Q ε) (fun e => Spec.mean (mm ε) (fun i => (x ε).h i k) e * (x ε).vn e k) e =
        1 / √3 * ∑ s ∈ Finset.range 10, wRaw (e % 3) ((s : ℤ) % 5) *
          (F ε (eoe p.nx p.ny e s) * ((Q ε e + Q ε (eoe p.nx p.ny e s)) / 2)) := fun ε => by
      rw [spec_pvFlux (hg ε).toGeo _ _ e0 e1, Tw]
      congr 1
      refine Finset.sum_congr rfl fun s hs => ?_
      have hs := Finset.mem_range.1 hs
      obtain ⟨r0, r1⟩ := eoe_range (hg 0).hnx e0 e1 (s := s) (by omega) (by omega)
      rw [spec_mean (hg ε).toGeo _ r0 r1]
    obtain ⟨c1, v1⟩ := tangent_pv hg hf H0 hx e0 e1
    constructor
    · have : HasDerivAt (fun ε => 1 / √3 * ∑ s ∈ Finset.range 10, wRaw (e % 3) ((s : ℤ) % 5) *
          (F ε (eoe p.nx p.ny e s) * ((Q ε e + Q ε (eoe p.nx p.ny e s)) / 2)))
          (1 / √3 * ∑ s ∈ Finset.range 10, wRaw (e % 3) ((s : ℤ) % 5) * (f * w.2 (eoe p.nx p.ny e s))) 0 := by
        refine HasDerivAt.const_mul _ (HasDerivAt.fun_sum fun s hs => HasDerivAt.const_mul _ ?_)
        have hs := Finset.mem_range.1 hs
        obtain ⟨r0, r1⟩ := eoe_range (hg 0).hnx e0 e1 (s := s) (by omega) (by omega)
        obtain ⟨fd, fz⟩ := tangent_flux hg hx r0 r1
        obtain ⟨c2, v2⟩ := tangent_pv hg hf H0 hx r0 r1
        refine (deriv_mul_cont fd fz ((c1.add c2).div_const 2)).congr_deriv ?_
        simp only [Pi.add_apply, v1, v2]
        field_simp
        ring
      refine HasDerivAt.congr_deriv (this.congr_of_eventuallyEq (Filter.Eventually.of_forall cl)) ?_
      rw [spec_tang (hg 0).toGeo _ e0 e1, Tn, Tw, Finset.mul_sum, Finset.mul_sum, Finset.mul_sum]
      exact Finset.sum_congr rfl fun s _ => by ring
    · rw [cl, Finset.sum_eq_zero, mul_zero]
      intro s hs
      have hs := Finset.mem_range.1 hs
      obtain ⟨r0, r1⟩ := eoe_range (hg 0).hnx e0 e1 (s := s) (by omega) (by omega)
      have := (tangent_flux hg hx r0 r1).2
      simp only [hF, this, zero_mul, mul_zero]
  -- kinetic energy
  have kc : ∀ c, IsCell p.nx p.ny c → HasDerivAt (fun ε => Spec.kinetic (mm ε) (fun i => (x ε).vn i k) c) 0 0 ∧
      Spec.kinetic (mm 0) (fun i => (x 0).vn i k) c = 0 := fun c hcc => by
    have cl : ∀ ε, Spec.kinetic (mm ε) (fun i => (x ε).vn i k) c =
        1 / 6 * Sd p.nx p.ny (fun e => (x ε).vn e k * (x ε).vn e k) c := fun ε => spec_kinetic (hg ε).toGeo _ hcc
    have er := fun j a b => E_range (hg 0).hnx hcc j a b
    have z : ∀ j, 0 ≤ j → j < 6 → HasDerivAt (fun ε => (x ε).vn (E p.nx p.ny c j) k * (x ε).vn (E p.nx p.ny c j) k)
        0 0 := fun j a b => by
      have d := hx.v1 _ (er j a b).1 (er j a b).2
      refine (d.mul d).congr_deriv ?_
      rw [hx.v0 _ (er j a b).1 (er j a b).2]; ring
    have z' : ∀ j, 0 ≤ j → j < 6 → (x 0).vn (E p.nx p.ny c j) k = 0 :=
      fun j a b => hx.v0 _ (er j a b).1 (er j a b).2
    constructor
    · simp only [cl]
      have := ((((((z 0 (by norm_num) (by norm_num)).add (z 1 (by norm_num) (by norm_num))).add
        (z 2 (by norm_num) (by norm_num))).add (z 3 (by norm_num) (by norm_num))).add
        (z 4 (by norm_num) (by norm_num))).add (z 5 (by norm_num) (by norm_num))).const_mul (1 / 6)
      exact this.congr_deriv (by ring)
    · rw [cl, Sd, z' 0 (by norm_num) (by norm_num), z' 1 (by norm_num) (by norm_num),
        z' 2 (by norm_num) (by norm_num), z' 3 (by norm_num) (by norm_num), z' 4 (by norm_num) (by norm_num),
        z' 5 (by norm_num) (by norm_num)]
      ring
  have kg : HasDerivAt (fun ε => Spec.grad (mm ε) (Spec.kinetic (mm ε) fun i => (x ε).vn i k) e) 0 0 ∧
      Spec.grad (mm 0) (Spec.kinetic (mm 0) fun i => (x 0).vn i k) e = 0 := by
    have cl : ∀ ε, Spec.grad (mm ε) (Spec.kinetic (mm ε) fun i => (x ε).vn i k) e =
        (Spec.kinetic (mm ε) (fun i => (x ε).vn i k) (Hex.coe p.nx p.ny e 1) -
          Spec.kinetic (mm ε) (fun i => (x ε).vn i k) (Hex.coe p.nx p.ny e 0)) / dc := fun ε => by
      rw [spec_grad (hg ε).toGeo _ e0 e1, Gr]
    constructor
    · simp only [cl]
      exact (((kc _ (hc 1)).1.sub (kc _ (hc 0)).1).div_const dc).congr_deriv (by ring)
    · rw [cl, (kc _ (hc 1)).2, (kc _ (hc 0)).2]; ring
  -- pressure
  have hgr : HasDerivAt (fun ε => Spec.grad (mm ε) (fun i => (x ε).h i k) e) (Spec.grad (mm 0) w.1 e) 0 ∧
      Spec.grad (mm 0) (fun i => (x 0).h i k) e = 0 := by
    have cl : ∀ ε, Spec.grad (mm ε) (fun i => (x ε).h i k) e = ((x ε).h (Hex.coe p.nx p.ny e 1) k -
        (x ε).h (Hex.coe p.nx p.ny e 0) k) / dc := fun ε => spec_grad (hg ε).toGeo _ e0 e1
    constructor
    · simp only [cl]
      refine (((hx.h1 _ (hc 1).1 (hc 1).2).sub (hx.h1 _ (hc 0).1 (hc 0).2)).div_const dc).congr_deriv ?_
      rw [spec_grad (hg 0).toGeo _ e0 e1, Gr]
    · rw [cl, hx.h0 _ (hc 1).1 (hc 1).2, hx.h0 _ (hc 0).1 (hc 0).2]; ring
  have cl : ∀ ε, Spec.velocityTend (mm ε) sw k (fun i => (x ε).h i k) (fun i => (x ε).vn i k) e =
      Spec.pvFlux (mm ε) (Spec.vmean (mm ε) (Spec.pv (mm ε) (fun i => (x ε).h i k) fun i => (x ε).vn i k))
        (fun e => Spec.mean (mm ε) (fun i => (x ε).h i k) e * (x ε).vn e k) e -
      Spec.grad (mm ε) (Spec.kinetic (mm ε) fun i => (x ε).vn i k) e -
      sw.prm.grav * Spec.grad (mm ε) (fun i => (x ε).h i k) e := fun ε => by
    simp [Spec.velocityTend, s2, s3, s4, s5, s6]
  constructor
  · simp only [cl]
    exact ((q.1.sub kg.1).sub (hgr.1.const_mul _)).congr_deriv (by
      show _ = f * Spec.tang (mm 0) w.2 e - sw.prm.grav * Spec.grad (mm 0) w.1 e
      ring)
  · rw [cl, q.2, kg.2, hgr.2]; ring

include H0 hf s1 s2 s3 s4 s5 s6 in
/-- The tendency is zero at rest, and its derivative is the linear operator. -/
theorem tangent_tend (n1 : sw.prm.disable_h = false) (n2 : sw.prm.disable_vn = false) (mode : AddMode)
    (t : ℝ) {o : ℝ → Fld ℝ} {z : (Int → ℝ) × (Int → ℝ)} (ho : mode = .replace ∨ Tangent p.dims k o 0 z) :
    Tangent p.dims k (fun ε => (genSys p.dims sw noHook (mm ε)).tend mode t (o ε) (x ε)) 0
      ((if mode = .replace then 0 else z) + restOp (mm 0) sw.prm.grav f H w) := by
  have th := fun ε => (tend_val (m := mm ε) p.dims sw mode t (o ε) (x ε)).1
  have tv := fun ε => (tend_val (m := mm ε) p.dims sw mode t (o ε) (x ε)).2.1
  simp only [n1, n2, Bool.false_eq_true, if_false] at th tv
  refine ⟨fun c c0 c1 => ?_, fun e e0 e1 => ?_, fun c c0 c1 => ?_, fun e e0 e1 => ?_⟩
  · rw [th, (tangent_thickness (f := f) hg s1 hx ⟨c0, c1⟩).2]
    split_ifs with hm
    · rw [add_zero]
    · rw [(ho.resolve_left hm).h0 c c0 c1, add_zero]
  · rw [tv, (tangent_velocity hg hf s2 s3 s4 s5 s6 H0 hx e0 e1).2]
    split_ifs with hm
    · rw [add_zero]
    · rw [(ho.resolve_left hm).v0 e e0 e1, add_zero]
  · simp only [th]
    have d := (tangent_thickness (f := f) hg s1 hx ⟨c0, c1⟩).1
    split_ifs with hm
    · exact (d.const_add 0).congr_deriv (by simp)
    · exact ((ho.resolve_left hm).h1 c c0 c1).add d
  · simp only [tv]
    have d := (tangent_velocity hg hf s2 s3 s4 s5 s6 H0 hx e0 e1).1
    split_ifs with hm
    · exact (d.const_add 0).congr_deriv (by simp)
    · exact ((ho.resolve_left hm).v1 e e0 e1).add d

end

theorem Tangent.scale {d : Dims} {k : Int} {y : ℝ → Fld ℝ} {z : (Int → ℝ) × (Int → ℝ)}
    (hy : Tangent d k y 0 z) (a : ℝ) : Tangent d k (fun ε => (y ε).map fun v => v * a) 0 (a • z) := by
  refine ⟨fun c c0 c1 => ?_, fun c c0 c1 => ?_, fun c c0 c1 => ?_, fun c c0 c1 => ?_⟩
  · show (y 0).h c k * a = 0
    rw [hy.h0 c c0 c1, zero_mul]
  · show (y 0).vn c k * a = 0
    rw [hy.v0 c c0 c1, zero_mul]
  · exact ((hy.h1 c c0 c1).mul_const a).congr_deriv (mul_comm _ _)
  · exact ((hy.v1 c c0 c1).mul_const a).congr_deriv (mul_comm _ _)

/-- tendency and state after part of a step from the perturbation `w`, with polynomials `q` -/
structure TangentAlong (p : MeshParams) (k : Int) (A : Module.End ℝ ((Int → ℝ) × (Int → ℝ))) (dt H : ℝ)
    (w : (Int → ℝ) × (Int → ℝ)) (q : ℝ[X] × ℝ[X]) (x : ℝ → Fld ℝ × Fld ℝ) : Prop where
  tn : ∃ z, Tangent p.dims k (fun ε => (x ε).1) 0 z ∧ dt • z = aeval (dt • A) q.1 w
  st : Tangent p.dims k (fun ε => (x ε).2) H (aeval (dt • A) q.2 w)

section

variable {mm : ℝ → Mem ℝ} (hg : ∀ ε, Geo2 p.nx p.ny p.dims.nlayers dc (mm ε).mesh) {f : ℝ}
  (hf : ∀ ε v, 0 ≤ v → v < p.dims.nvertices → (mm ε).real .f_vertex 0 v 0 = f)
  {sw : SWModel ℝ} (s1 : sw.en_hadv = true) (s2 : sw.en_pv = true) (s3 : sw.en_ke = true)
  (s4 : sw.en_ssh = true) (s5 : sw.en_vdiff = false) (s6 : sw.en_vhyper = false)
  (n1 : sw.prm.disable_h = false) (n2 : sw.prm.disable_vn = false)
  {k : Int} {H : ℝ} (H0 : 0 < H)
include hg hf s1 s2 s3 s4 s5 s6 n1 n2 H0

theorem TangentAlong.lsrk {dt : ℝ} {w : (Int → ℝ) × (Int → ℝ)} {q : ℝ[X] × ℝ[X]} {x : ℝ → Fld ℝ × Fld ℝ}
    (h : TangentAlong p k (restOp (mm 0) sw.prm.grav f H) dt H w q x) (K : Coef ℝ) (t : ℝ) (i : Nat) :
    TangentAlong p k (restOp (mm 0) sw.prm.grav f H) dt H w
      (C (K.a i) * q.1 + X * q.2, q.2 + C (K.b i) * (C (K.a i) * q.1 + X * q.2))
      (fun ε => (genSys p.dims sw noHook (mm ε)).lsrkStage K t dt i (x ε)) := by
  obtain ⟨⟨z, hz, ez⟩, hs⟩ := h
  have T := tangent_tend hg hf s1 s2 s3 s4 s5 s6 H0 hs n1 n2 .increment (t + K.c i * dt)
    (Or.inr (hz.scale (K.a i)))
  simp only [reduceCtorEq, if_false] at T
  set A := restOp (mm 0) sw.prm.grav f H
  have e : dt • (K.a i • z + A (aeval (dt • A) q.2 w)) = aeval (dt • A) (C (K.a i) * q.1 + X * q.2) w := by
    rw [map_add, map_mul, map_mul, aeval_C, aeval_X, LinearMap.add_apply, Module.End.mul_apply,
      Module.End.mul_apply, ← ez, smul_add, Module.algebraMap_end_apply, LinearMap.smul_apply, smul_comm]
  refine ⟨⟨_, T, e⟩, ?_⟩
  have S := hs.axpy T (dt * K.b i)
  have es : ∀ v : (Int → ℝ) × (Int → ℝ), (dt * K.b i) • v = K.b i • dt • v := fun v => by rw [mul_comm, mul_smul]
  rw [es, e] at S
  rw [map_add, LinearMap.add_apply, map_mul, aeval_C, Module.End.mul_apply, Module.algebraMap_end_apply]
  exact S

theorem TangentAlong.lsrk_fold {dt : ℝ} {w : (Int → ℝ) × (Int → ℝ)} (K : Coef ℝ) (t : ℝ) (L : List Nat) :
    ∀ {q : ℝ[X] × ℝ[X]} {x : ℝ → Fld ℝ × Fld ℝ},
      TangentAlong p k (restOp (mm 0) sw.prm.grav f H) dt H w q x →
    TangentAlong p k (restOp (mm 0) sw.prm.grav f H) dt H w
      (L.foldl (fun (q : ℝ[X] × ℝ[X]) i => (C (K.a i) * q.1 + X * q.2,
        q.2 + C (K.b i) * (C (K.a i) * q.1 + X * q.2))) q)
      (fun ε => L.foldl (fun x i => (genSys p.dims sw noHook (mm ε)).lsrkStage K t dt i x) (x ε)) := by
  induction L with
  | nil => exact fun h => h
  | cons i L ih => exact fun h => ih (h.lsrk hg hf s1 s2 s3 s4 s5 s6 n1 n2 H0 K t i)

theorem TangentAlong.rk4 {dt : ℝ} {w : (Int → ℝ) × (Int → ℝ)} {s : ℝ → Fld ℝ} (hs0 : Tangent p.dims k s H w)
    {q : ℝ[X] × ℝ[X]} {x : ℝ → Fld ℝ × Fld ℝ}
    (h : TangentAlong p k (restOp (mm 0) sw.prm.grav f H) dt H w q x) (K : Coef ℝ) (t : ℝ) (i : Nat) :
    TangentAlong p k (restOp (mm 0) sw.prm.grav f H) dt H w
      (if i < 3 then X * (1 + C (K.a i) * q.1) else q.1, q.2 + C (K.b i) * q.1)
      (fun ε => (genSys p.dims sw noHook (mm ε)).rk4Stage K t dt (s ε) i (x ε)) := by
  obtain ⟨⟨z, hz, ez⟩, hs⟩ := h
  have mid := hs0.axpy hz (dt * K.a i)
  have T := tangent_tend hg hf s1 s2 s3 s4 s5 s6 H0 mid n1 n2 .replace (t + K.c i * dt) (o := fun ε => (x ε).1)
    (z := 0) (Or.inl rfl)
  simp only [if_true, zero_add] at T
  set A := restOp (mm 0) sw.prm.grav f H
  constructor
  · by_cases hi : i < 3
    · refine ⟨A (w + (dt * K.a i) • z), ?_, ?_⟩
      · have e : (fun ε => ((genSys p.dims sw noHook (mm ε)).rk4Stage K t dt (s ε) i (x ε)).1) =
            fun ε => (genSys p.dims sw noHook (mm ε)).tend .replace (t + K.c i * dt) (x ε).1
              ((s ε).axpy (dt * K.a i) (x ε).1) := funext fun ε => if_pos hi
        rw [e]
        exact T
      · have e : aeval (dt • A) (1 + C (K.a i) * q.1) w = w + (dt * K.a i) • z := by
          rw [map_add, map_one, LinearMap.add_apply, map_mul, aeval_C, Module.End.mul_apply, ← ez,
            Module.algebraMap_end_apply, mul_comm dt, mul_smul]
          rfl
        rw [if_pos hi, map_mul, aeval_X, Module.End.mul_apply, e, LinearMap.smul_apply]
    · refine ⟨z, ?_, by rw [if_neg hi, ez]⟩
      have e : (fun ε => ((genSys p.dims sw noHook (mm ε)).rk4Stage K t dt (s ε) i (x ε)).1) =
          fun ε => (x ε).1 := funext fun ε => if_neg hi
      rw [e]
      exact hz
  · have S := hs.axpy hz (dt * K.b i)
    have es : ∀ v : (Int → ℝ) × (Int → ℝ), (dt * K.b i) • v = K.b i • dt • v := fun v => by rw [mul_comm, mul_smul]
    rw [es, ez] at S
    rw [map_add, LinearMap.add_apply, map_mul, aeval_C, Module.End.mul_apply, Module.algebraMap_end_apply]
    exact S

theorem TangentAlong.rk4_fold {dt : ℝ} {w : (Int → ℝ) × (Int → ℝ)} {s : ℝ → Fld ℝ}
    (hs0 : Tangent p.dims k s H w) (K : Coef ℝ) (t : ℝ) (L : List Nat) :
    ∀ {q : ℝ[X] × ℝ[X]} {x : ℝ → Fld ℝ × Fld ℝ},
      TangentAlong p k (restOp (mm 0) sw.prm.grav f H) dt H w q x →
    TangentAlong p k (restOp (mm 0) sw.prm.grav f H) dt H w
      (L.foldl (fun (q : ℝ[X] × ℝ[X]) i =>
        (if i < 3 then X * (1 + C (K.a i) * q.1) else q.1, q.2 + C (K.b i) * q.1)) q)
      (fun ε => L.foldl (fun x i => (genSys p.dims sw noHook (mm ε)).rk4Stage K t dt (s ε) i x) (x ε)) := by
  induction L with
  | nil => exact fun h => h
  | cons i L ih => exact fun h => ih (h.rk4 hg hf s1 s2 s3 s4 s5 s6 n1 n2 H0 hs0 K t i)

/-- A step acts on a perturbation as the stability polynomial of the stepper. -/
theorem tangent_step (stp : Stepper) (t dt : ℝ) {w : (Int → ℝ) × (Int → ℝ)} {x : ℝ → Fld ℝ × Fld ℝ}
    (hx : Tangent p.dims k (fun ε => (x ε).2) H w) :
    Tangent p.dims k (fun ε => ((genSys p.dims sw noHook (mm ε)).step t dt (x ε) stp).2) H
      (aeval (dt • restOp (mm 0) sw.prm.grav f H) (stabPoly stp) w) := by
  have zero : Tangent p.dims k (fun _ => (zeroFld : Fld ℝ)) 0 0 := by
    refine ⟨fun _ _ _ => by simp [zeroFld], fun _ _ _ => by simp [zeroFld], fun _ _ _ => ?_, fun _ _ _ => ?_⟩ <;>
    exact hasDerivAt_const _ _
  cases stp with
  | lsrk n =>
    rcases Nat.eq_zero_or_pos n with rfl | hn
    · simpa [stabPoly, Sys.step, Sys.lsrkStep] using hx
    · obtain ⟨n, rfl⟩ : ∃ k, n = k + 1 := ⟨n - 1, by omega⟩
      have e : (fun ε => (genSys p.dims sw noHook (mm ε)).step t dt (x ε) (.lsrk (n + 1))) =
          fun ε => (List.range (n + 1)).foldl (fun y i => (genSys p.dims sw noHook (mm ε)).lsrkStage
            (lsrkCoef (n + 1)) t dt i y) (zeroFld, (x ε).2) := by
        funext ε
        show (List.range (n + 1)).foldl _ _ = _
        rw [List.range_succ_eq_map, List.foldl_cons, List.foldl_cons]
        congr 1
        unfold Sys.lsrkStage
        have : ((x ε).1.map fun v => v * (lsrkCoef (n + 1)).a 0) =
            (zeroFld.map fun v => v * (lsrkCoef (n + 1)).a 0 : Fld ℝ) := by
          simp [Fld.map, lsrk_a0]
        rw [this]
      have init : TangentAlong p k (restOp (mm 0) sw.prm.grav f H) dt H w ((0, 1) : ℝ[X] × ℝ[X])
          (fun ε => (zeroFld, (x ε).2)) :=
        ⟨⟨0, zero, by simp⟩, by simpa using hx⟩
      have key := TangentAlong.lsrk_fold hg hf s1 s2 s3 s4 s5 s6 n1 n2 H0 (lsrkCoef (n + 1)) t
        (List.range (n + 1)) init
      rw [← e] at key
      exact key.st
  | rk4 =>
    have T := tangent_tend hg hf s1 s2 s3 s4 s5 s6 H0 hx n1 n2 .replace t (o := fun ε => (x ε).1)
      (z := 0) (Or.inl rfl)
    simp only [if_true, zero_add] at T
    have init : TangentAlong p k (restOp (mm 0) sw.prm.grav f H) dt H w ((X, 1) : ℝ[X] × ℝ[X])
        (fun ε => ((genSys p.dims sw noHook (mm ε)).tend .replace t (x ε).1 (x ε).2, (x ε).2)) :=
      ⟨⟨_, T, by simp⟩, by simpa using hx⟩
    exact (TangentAlong.rk4_fold hg hf s1 s2 s3 s4 s5 s6 n1 n2 H0 hx rk4Coef t (List.range 4) init).st

theorem tangent_run (stp : Stepper) (sched : List (ℝ × ℝ)) : ∀ {w : (Int → ℝ) × (Int → ℝ)}
    {x : ℝ → Fld ℝ × Fld ℝ}, Tangent p.dims k (fun ε => (x ε).2) H w →
    Tangent p.dims k (fun ε => ((genSys p.dims sw noHook (mm ε)).run stp sched (x ε)).2) H
      (sched.foldl (fun w a => aeval (a.2 • restOp (mm 0) sw.prm.grav f H) (stabPoly stp) w) w) := by
  induction sched with
  | nil => exact fun h => h
  | cons a L ih =>
    exact fun h => ih (tangent_step hg hf s1 s2 s3 s4 s5 s6 n1 n2 H0 stp a.1 a.2 h)

end

/-! ### C78 -/

/-- A layer at rest is linearly stable.  Take a family of initial states that is differentiable at the
state of rest with thickness `H`, and run either fourth-order stepper with steps of size `dt` from each of
them.  Then the results are differentiable at rest as well, the result from rest is rest, and the energy
of the derivative does not grow (classical stepper), or in the root at most by a factor of `1 + 5e-18`
per step (low-storage stepper, whose coefficients are rounded), as long as `dt` is at most 5/2 divided by `√(6 g H) / dc + 2 / √3 |f|` (8 instead of 6 on a mesh with an odd number of rows). -/
theorem C78_rest_stable {stp : Stepper} (hstp : FourthOrder stp) (hv : RunValid p) (hnx : 2 ≤ p.nx)
    (hny : 2 ≤ p.ny) (hdc : 0 < dc) {prm : Params ℝ} (n1 : prm.disable_h = false)
    (n2 : prm.disable_vn = false) (n3 : prm.visc_del2 ≤ 0) (n4 : prm.visc_del4 ≤ 0) (g0 : 0 ≤ prm.grav)
    {H : ℝ} (H0 : 0 < H) {k : Int} (k0 : 0 ≤ k) (k1 : k < p.dims.nlayers) {m m1 : ℝ → Mem ℝ}
    (hr : ∀ ε, Ready p dc prm (m ε)) {a b : Int → ℝ}
    (ha0 : ∀ c, 0 ≤ c → c < p.dims.ncells → (m 0).real (.h_cell .state) 0 c k = H)
    (hb0 : ∀ e, 0 ≤ e → e < p.dims.nedges → (m 0).real (.vn_edge .state) 0 e k = 0)
    (ha : ∀ c, 0 ≤ c → c < p.dims.ncells →
      HasDerivAt (fun ε => (m ε).real (.h_cell .state) 0 c k) (a c) 0)
    (hb : ∀ e, 0 ≤ e → e < p.dims.nedges →
      HasDerivAt (fun ε => (m ε).real (.vn_edge .state) 0 e k) (b e) 0)
    {sched : List (ℝ × ℝ)} {dt : ℝ} (hs : ∀ q ∈ sched, q.2 = dt) (t0 : 0 ≤ dt)
    (hcfl : dt * (√((if p.ny % 2 = 0 then 6 else 8) * (prm.grav * H)) / dc + 2 / √3 * |prm.f0|) ≤ 5 / 2)
    {split : Bool} (he : ∀ ε, Exec p.dims (stp.ctor p.dims ++ stp.run p.dims
      ⟨defaultKernels p.dims.vl, split⟩ (SWModel.ofParams prm) sched) (m ε) (m1 ε)) :
    (∀ c, 0 ≤ c → c < p.dims.ncells → (m1 0).real (.h_cell .state) 0 c k = H) ∧
    (∀ e, 0 ≤ e → e < p.dims.nedges → (m1 0).real (.vn_edge .state) 0 e k = 0) ∧
    ∃ a' b' : Int → ℝ,
      (∀ c, 0 ≤ c → c < p.dims.ncells →
        HasDerivAt (fun ε => (m1 ε).real (.h_cell .state) 0 c k) (a' c) 0) ∧
      (∀ e, 0 ≤ e → e < p.dims.nedges →
        HasDerivAt (fun ε => (m1 ε).real (.vn_edge .state) 0 e k) (b' e) 0) ∧
      restEnergy p.dims (m 0) prm.grav H a' b' ≤
        ((1 + 500 * defect stp) ^ sched.length) ^ 2 * restEnergy p.dims (m 0) prm.grav H a b := by
  have hg := fun ε => Ready.geo2 (hr ε) hv.toValid hnx hny hdc
  have hf := fun ε => (Ready.hex hv.toValid (hr ε)).2.1
  set sw := SWModel.ofParams prm with hsw
  have s5 : sw.en_vdiff = false := by
    show decide ((lit 0 : ℝ) < prm.visc_del2) = false
    simp [n3]
  have s6 : sw.en_vhyper = false := by
    show decide ((lit 0 : ℝ) < prm.visc_del4) = false
    simp [n4]
  have v := fun ε => by
    obtain ⟨hd, hc⟩ := ready_ok hv (hr ε)
    exact ((genSetup hd hc (hookOK_noHook (noHook_ofParams prm) p.dims (m ε))).newRun (he ε)).2.2
  have init : Tangent p.dims k (fun ε => (m ε).fld .state) H (a, b) := ⟨ha0, hb0, ha, hb⟩
  have key := tangent_run hg hf (sw := sw) rfl rfl rfl rfl s5 s6 n1 n2 H0 stp sched
    (x := fun ε => (zeroFld, (m ε).fld .state)) init
  set w := sched.foldl (fun w a => aeval (a.2 • restOp (m 0) sw.prm.grav prm.f0 H) (stabPoly stp) w) (a, b)
    with hw
  refine ⟨fun c c0 c1 => ((v 0).h c k c0 c1 k0 k1).trans (key.h0 c c0 c1),
    fun e e0 e1 => ((v 0).vn e k e0 e1 k0 k1).trans (key.v0 e e0 e1), w.1, w.2,
    fun c c0 c1 => ?_, fun e e0 e1 => ?_, ?_⟩
  · exact (key.h1 c c0 c1).congr_of_eventuallyEq (Filter.Eventually.of_forall fun ε => (v ε).h c k c0 c1 k0 k1)
  · exact (key.v1 e e0 e1).congr_of_eventuallyEq (Filter.Eventually.of_forall fun ε => (v ε).vn e k e0 e1 k0 k1)
  · have e : (2 / 3 * gradConst p.ny : ℝ) = if p.ny % 2 = 0 then 6 else 8 := by
      unfold gradConst; split_ifs <;> norm_num
    rw [← e] at hcfl
    have := rest_steps (hg 0) (g := prm.grav) g0 H0 hstp t0 hcfl sched hs (a, b)
    have sq := pow_le_pow_left₀ (norm_nonneg _) this 2
    rw [mul_pow, norm_rest (hg 0) g0 H0, norm_rest (hg 0) g0 H0] at sq
    exact sq

/-- a mesh of 24 cells with rotation and gravity, a perturbation of thickness and velocity, ten steps -/
example (stp : Stepper) : ∃ (prm : Params ℝ) (m m1 : ℝ → Mem ℝ) (sched : List (ℝ × ℝ)),
    FourthOrder .rk4 ∧ FourthOrder (.lsrk 5) ∧ RunValid p46 ∧ 2 ≤ p46.nx ∧ 2 ≤ p46.ny ∧ prm.disable_h = false ∧
    prm.disable_vn = false ∧ prm.visc_del2 ≤ 0 ∧ prm.visc_del4 ≤ 0 ∧ 0 < prm.grav ∧ prm.f0 ≠ 0 ∧
    (0 : Int) ≤ 2 ∧ 2 < p46.dims.nlayers ∧ (∀ ε, Ready p46 1 prm (m ε)) ∧
    (∀ c, 0 ≤ c → c < p46.dims.ncells → (m 0).real (.h_cell .state) 0 c 2 = 1) ∧
    (∀ e, 0 ≤ e → e < p46.dims.nedges → (m 0).real (.vn_edge .state) 0 e 2 = 0) ∧
    (∀ c, 0 ≤ c → c < p46.dims.ncells →
      HasDerivAt (fun ε => (m ε).real (.h_cell .state) 0 c 2) (c : ℝ) 0) ∧
    (∀ e, 0 ≤ e → e < p46.dims.nedges →
      HasDerivAt (fun ε => (m ε).real (.vn_edge .state) 0 e 2) ((e : ℝ) ^ 2) 0) ∧
    sched.length = 10 ∧ (∀ q ∈ sched, q.2 = 1 / 2) ∧
    (1 / 2 : ℝ) * (√((if p46.ny % 2 = 0 then 6 else 8) * (prm.grav * 1)) / 1 + 2 / √3 * |prm.f0|) ≤ 5 / 2 ∧
    ∀ ε, Exec p46.dims (stp.ctor p46.dims ++ stp.run p46.dims
      ⟨defaultKernels p46.dims.vl, true⟩ (SWModel.ofParams prm) sched) (m ε) (m1 ε) := by
  set prm : Params ℝ := ⟨1, 1, 0, 0, 0, 0, false, false⟩ with hprm
  have ex := fun ε : ℝ => exists_ready p46_valid 1 prm ⟨fun c _ => 1 + ε * c, fun e _ => ε * e ^ 2, fun _ _ _ => 0⟩
    zeroFld
  choose m hr hx _ using ex
  set sched : List (ℝ × ℝ) := List.replicate 10 (0, 1 / 2) with hsch
  have run := fun ε => by
    obtain ⟨hd, hc⟩ := ready_ok p46_run (hr ε)
    exact ((C40_safe_deterministic hd hc (noHook_ofParams prm) true).2.2 stp sched).2.exists
  choose m1 he using run
  have eh : ∀ ε c, (m ε).real (.h_cell .state) 0 c 2 = 1 + ε * c := fun ε c =>
    congrFun (congrFun (congrArg Fld.h (hx ε)) c) 2
  have ev : ∀ ε e, (m ε).real (.vn_edge .state) 0 e 2 = ε * e ^ 2 := fun ε e =>
    congrFun (congrFun (congrArg Fld.vn (hx ε)) e) 2
  refine ⟨prm, m, m1, sched, Or.inl rfl, Or.inr rfl, p46_run, by simp [p46], by simp [p46], rfl, rfl, le_rfl, le_rfl,
    by norm_num [hprm], by norm_num [hprm], by norm_num, by rw [p46_layers]; norm_num, hr,
    fun c _ _ => by rw [eh]; simp, fun e _ _ => by rw [ev]; simp, fun c _ _ => ?_, fun e _ _ => ?_,
    by rw [hsch, List.length_replicate], fun q hq => by rw [List.eq_of_mem_replicate hq], ?_, he⟩
  · simp only [eh]
    exact (((hasDerivAt_id (0 : ℝ)).mul_const (c : ℝ)).const_add 1).congr_deriv (by ring)
  · simp only [ev]
    exact ((hasDerivAt_id (0 : ℝ)).mul_const ((e : ℝ) ^ 2)).congr_deriv (by ring)
  · have r6 : √(6 : ℝ) ≤ 5 / 2 := by rw [Real.sqrt_le_left (by norm_num)]; norm_num
    have r3 : 2 / √(3 : ℝ) ≤ 2 := by
      rw [div_le_iff₀ w_pos]
      have : (1 : ℝ) ≤ √3 := Real.one_le_sqrt.2 (by norm_num)
      linarith
    simp only [hprm, p46]
    norm_num
    norm_num at r6 r3
    linarith

end Props
end
end Omega
