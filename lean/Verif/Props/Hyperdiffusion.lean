import Verif.Props.DiffusionConvergence

/-!
# C84: tracer hyperdiffusion

The hyperdiffusive tracer tendency is consistent to second order and, in a layer at rest of uniform
thickness, the tracers converge to the solution of the hyperdiffusion equation.
-/

set_option linter.unusedVariables false
set_option linter.unusedSectionVars false

namespace Omega
noncomputable section
namespace Props

open Prog Model Refine Hex Taylor Jets Polynomial

/-- `∇·(h∇q)` -/
def diffAt (H q : ℝ × ℝ → ℝ) (z : ℝ × ℝ) : ℝ :=
  divAt (fun w => H w * fderiv ℝ q w (1, 0)) (fun w => H w * fderiv ℝ q w (0, 1)) z

/-- the Laplacian -/
def laplace (φ : ℝ × ℝ → ℝ) (z : ℝ × ℝ) : ℝ := divAt (fun w => fderiv ℝ φ w (1, 0)) (fun w => fderiv ℝ φ w (0, 1)) z

/-- directional derivative -/
def dAlong (v : ℝ × ℝ) (φ : ℝ × ℝ → ℝ) (z : ℝ × ℝ) : ℝ := fderiv ℝ φ z v

/-- thickness-weighted difference on an edge of type `a` -/
def fluxF (dc : ℝ) (H q : ℝ × ℝ → ℝ) (a : Int) (z : ℝ × ℝ) : ℝ := meanF dc H a z * gradF dc q a z

/-- the discrete `∇·(h∇q)` as a function of the position -/
def diffF (dc : ℝ) (H q : ℝ × ℝ → ℝ) (z : ℝ × ℝ) : ℝ := 2 / (3 * dc) *
  ((fluxF dc H q 0 (z - dc • ((1 / 2 : ℝ) • dir 0)) - fluxF dc H q 0 (z + dc • ((1 / 2 : ℝ) • dir 0))) +
   (fluxF dc H q 1 (z - dc • ((1 / 2 : ℝ) • dir 1)) - fluxF dc H q 1 (z + dc • ((1 / 2 : ℝ) • dir 1))) +
   (fluxF dc H q 2 (z - dc • ((1 / 2 : ℝ) • dir 2)) - fluxF dc H q 2 (z + dc • ((1 / 2 : ℝ) • dir 2))))

/-! ### Derivatives -/

theorem fderiv_shift (φ : ℝ × ℝ → ℝ) (z w v : ℝ × ℝ) :
    fderiv ℝ (fun z => φ (z + w)) z v = fderiv ℝ φ (z + w) v := by
  rw [fderiv_comp_add_right]

theorem fderiv_shift' (φ : ℝ × ℝ → ℝ) (z w v : ℝ × ℝ) :
    fderiv ℝ (fun z => φ (z - w)) z v = fderiv ℝ φ (z - w) v := by
  simpa [sub_eq_add_neg] using fderiv_shift φ z (-w) v

section
variable {H q φ : ℝ × ℝ → ℝ} {n : WithTop ℕ∞}

theorem diff_shift (h : Differentiable ℝ φ) (w : ℝ × ℝ) : Differentiable ℝ fun z => φ (z + w) :=
  h.comp (differentiable_id.add_const w)
theorem diff_shift' (h : Differentiable ℝ φ) (w : ℝ × ℝ) : Differentiable ℝ fun z => φ (z - w) :=
  h.comp (differentiable_id.sub_const w)
theorem cd_shift (h : ContDiff ℝ n φ) (w : ℝ × ℝ) : ContDiff ℝ n fun z => φ (z + w) :=
  h.comp (contDiff_id.add contDiff_const)
theorem cd_shift' (h : ContDiff ℝ n φ) (w : ℝ × ℝ) : ContDiff ℝ n fun z => φ (z - w) :=
  h.comp (contDiff_id.sub contDiff_const)

theorem meanF_fderiv (h : Differentiable ℝ φ) (dc : ℝ) (a : Int) (z v : ℝ × ℝ) :
    fderiv ℝ (meanF dc φ a) z v = meanF dc (dAlong v φ) a z := by
  have e : meanF dc φ a = fun z => (φ (z + (dc / 2) • dir a) + φ (z - (dc / 2) • dir a)) / 2 := rfl
  rw [e]
  have := (((diff_shift h ((dc / 2) • dir a)) z).hasFDerivAt.add
    ((diff_shift' h ((dc / 2) • dir a)) z).hasFDerivAt).mul_const (2⁻¹ : ℝ)
  have k := this.fderiv
  simp only [← div_eq_mul_inv] at k
  refine (congrArg (fun L => L v) k).trans ?_
  simp only [_root_.smul_apply, _root_.add_apply, fderiv_shift, fderiv_shift', smul_eq_mul]
  unfold meanF dAlong
  ring

theorem gradF_fderiv (h : Differentiable ℝ φ) (dc : ℝ) (a : Int) (z v : ℝ × ℝ) :
    fderiv ℝ (gradF dc φ a) z v = gradF dc (dAlong v φ) a z := by
  have e : gradF dc φ a = fun z => (φ (z - (dc / 2) • dir a) - φ (z + (dc / 2) • dir a)) / dc := rfl
  rw [e]
  have := (((diff_shift' h ((dc / 2) • dir a)) z).hasFDerivAt.sub
    ((diff_shift h ((dc / 2) • dir a)) z).hasFDerivAt).mul_const (dc⁻¹ : ℝ)
  have k := this.fderiv
  simp only [← div_eq_mul_inv] at k
  refine (congrArg (fun L => L v) k).trans ?_
  simp only [_root_.smul_apply, _root_.sub_apply, fderiv_shift, fderiv_shift', smul_eq_mul]
  unfold gradF dAlong
  ring

theorem cd_meanF (h : ContDiff ℝ n φ) (dc : ℝ) (a : Int) : ContDiff ℝ n (meanF dc φ a) :=
  ((cd_shift h _).add (cd_shift' h _)).div_const 2
theorem cd_gradF (h : ContDiff ℝ n φ) (dc : ℝ) (a : Int) : ContDiff ℝ n (gradF dc φ a) :=
  ((cd_shift' h _).sub (cd_shift h _)).div_const dc
theorem cd_fluxF (hH : ContDiff ℝ n H) (hq : ContDiff ℝ n q) (dc : ℝ) (a : Int) : ContDiff ℝ n (fluxF dc H q a) :=
  (cd_meanF hH dc a).mul (cd_gradF hq dc a)
theorem cd_diffF (hH : ContDiff ℝ n H) (hq : ContDiff ℝ n q) (dc : ℝ) : ContDiff ℝ n (diffF dc H q) := by
  have k := fun a w => (cd_shift' (cd_fluxF hH hq dc a) w).sub (cd_shift (cd_fluxF hH hq dc a) w)
  exact contDiff_const.mul (((k 0 _).add (k 1 _)).add (k 2 _))

theorem diff_meanF (h : Differentiable ℝ φ) (dc : ℝ) (a : Int) : Differentiable ℝ (meanF dc φ a) := by
  have h1 := diff_shift h ((dc / 2) • dir a)
  have h2 := diff_shift' h ((dc / 2) • dir a)
  unfold meanF
  fun_prop
theorem diff_gradF (h : Differentiable ℝ φ) (dc : ℝ) (a : Int) : Differentiable ℝ (gradF dc φ a) := by
  have h1 := diff_shift h ((dc / 2) • dir a)
  have h2 := diff_shift' h ((dc / 2) • dir a)
  unfold gradF
  fun_prop
theorem diff_fluxF (hH : Differentiable ℝ H) (hq : Differentiable ℝ q) (dc : ℝ) (a : Int) :
    Differentiable ℝ (fluxF dc H q a) := (diff_meanF hH dc a).mul (diff_gradF hq dc a)

theorem fluxF_fderiv (hH : Differentiable ℝ H) (hq : Differentiable ℝ q) (dc : ℝ) (a : Int) (z v : ℝ × ℝ) :
    fderiv ℝ (fluxF dc H q a) z v = fluxF dc (dAlong v H) q a z + fluxF dc H (dAlong v q) a z := by
  have e : fluxF dc H q a = fun z => meanF dc H a z * gradF dc q a z := rfl
  rw [e, fderiv_mul2 (diff_meanF hH dc a) (diff_gradF hq dc a), meanF_fderiv hH, gradF_fderiv hq]
  unfold fluxF
  ring

/-- The discrete operator commutes with derivatives up to the product rule. -/
theorem diffF_fderiv (hH : Differentiable ℝ H) (hq : Differentiable ℝ q) (dc : ℝ) (z v : ℝ × ℝ) :
    fderiv ℝ (diffF dc H q) z v = diffF dc (dAlong v H) q z + diffF dc H (dAlong v q) z := by
  have k := fun a w => ((diff_shift' (diff_fluxF hH hq dc a) w) z).hasFDerivAt.sub
    ((diff_shift (diff_fluxF hH hq dc a) w) z).hasFDerivAt
  have := (((k 0 (dc • ((1 / 2 : ℝ) • dir 0))).add (k 1 (dc • ((1 / 2 : ℝ) • dir 1)))).add
    (k 2 (dc • ((1 / 2 : ℝ) • dir 2)))).const_mul (2 / (3 * dc))
  refine (congrArg (fun L => L v) this.fderiv).trans ?_
  simp only [_root_.smul_apply, _root_.sub_apply, _root_.add_apply, fderiv_shift, fderiv_shift', smul_eq_mul,
    fluxF_fderiv hH hq]
  unfold diffF
  ring

theorem cd_dAlong {k : ℕ} (h : ContDiff ℝ (k + 1 : ℕ) φ) (v : ℝ × ℝ) : ContDiff ℝ k (dAlong v φ) :=
  (h.fderiv_right (m := k) (by norm_cast)).clm_apply contDiff_const

theorem dAlong_comm (h : ContDiff ℝ 2 φ) (v w : ℝ × ℝ) : dAlong v (dAlong w φ) = dAlong w (dAlong v φ) := by
  funext z
  show fderiv ℝ (fun y => fderiv ℝ φ y w) z v = fderiv ℝ (fun y => fderiv ℝ φ y v) z w
  rw [fderiv_fderiv h, fderiv_fderiv h]
  exact (h.contDiffAt.isSymmSndFDerivAt (by simp)).eq _ _

/-- the flux form expanded -/
theorem diffAt_expand (hH : ContDiff ℝ 1 H) (hq : ContDiff ℝ 2 q) : diffAt H q = fun z =>
    H z * dAlong (1, 0) (dAlong (1, 0) q) z + dAlong (1, 0) q z * dAlong (1, 0) H z +
      (H z * dAlong (0, 1) (dAlong (0, 1) q) z + dAlong (0, 1) q z * dAlong (0, 1) H z) := by
  funext z
  have dH : Differentiable ℝ H := hH.differentiable (by norm_num)
  unfold diffAt divAt
  rw [fderiv_mul2 dH (diff_fderiv hq _), fderiv_mul2 dH (diff_fderiv hq _)]
  rfl

theorem diffAt_fderiv (hH : ContDiff ℝ 2 H) (hq : ContDiff ℝ 3 q) (z v : ℝ × ℝ) :
    fderiv ℝ (diffAt H q) z v = diffAt (dAlong v H) q z + diffAt H (dAlong v q) z := by
  have q1 := fun w => cd_dAlong (k := 2) hq w
  have q2 := fun w w' => cd_dAlong (k := 1) (q1 w) w'
  have H1 := fun w => cd_dAlong (k := 1) hH w
  have dH : Differentiable ℝ H := hH.differentiable (by norm_num)
  have d1 := fun w => (q1 w).differentiable (by norm_num)
  have d2 := fun w w' => (q2 w w').differentiable (by norm_num)
  have dH1 := fun w => (H1 w).differentiable (by norm_num)
  have hqq : ContDiff ℝ 2 q := hq.of_le (by norm_num)
  have t := fun w : ℝ × ℝ => (dH z).hasFDerivAt.mul ((d2 w w) z).hasFDerivAt |>.add
    (((d1 w) z).hasFDerivAt.mul ((dH1 w) z).hasFDerivAt)
  rw [diffAt_expand (hH.of_le (by norm_num)) hqq, diffAt_expand (H1 v) hqq,
    diffAt_expand (hH.of_le (by norm_num)) (q1 v)]
  refine (congrArg (fun L => L v) ((t (1, 0)).add (t (0, 1))).fderiv).trans ?_
  simp only [_root_.smul_apply, _root_.add_apply, smul_eq_mul]
  have c1 : ∀ w, fderiv ℝ (dAlong w (dAlong w q)) z v = dAlong w (dAlong w (dAlong v q)) z := fun w => by
    show dAlong v (dAlong w (dAlong w q)) z = _
    rw [dAlong_comm (q1 w), dAlong_comm hqq v w]
  have c2 : ∀ w, fderiv ℝ (dAlong w q) z v = dAlong w (dAlong v q) z := fun w =>
    congrFun (dAlong_comm hqq v w) z
  have c3 : ∀ w, fderiv ℝ (dAlong w H) z v = dAlong w (dAlong v H) z := fun w =>
    congrFun (dAlong_comm hH v w) z
  rw [c1, c1, c2, c2, c3, c3]
  simp only [show fderiv ℝ H z v = dAlong v H z from rfl]
  ring

theorem cd_diffAt {k : ℕ} (hH : ContDiff ℝ (k + 1 : ℕ) H) (hq : ContDiff ℝ (k + 2 : ℕ) q) :
    ContDiff ℝ k (diffAt H q) := by
  have q1 := fun w => cd_dAlong (k := k + 1) hq w
  have q2 := fun w => cd_dAlong (k := k) (q1 w) w
  have H1 := fun w => cd_dAlong (k := k) hH w
  have H0 : ContDiff ℝ k H := hH.of_le (by norm_cast; omega)
  have q0 := fun w => (q1 w).of_le (show (k : WithTop ℕ∞) ≤ (k + 1 : ℕ) by norm_cast; omega)
  rw [diffAt_expand (hH.of_le (by norm_cast; omega)) (hq.of_le (by norm_cast; omega))]
  exact ((H0.mul (q2 _)).add ((q0 _).mul (H1 _))).add ((H0.mul (q2 _)).add ((q0 _).mul (H1 _)))

/-- A second difference in terms of the second derivative. -/
theorem second_diff {φ : ℝ × ℝ → ℝ} (h : ContDiff ℝ 2 φ) {M : ℝ} (v : ℝ × ℝ)
    (hM : ∀ z, |dAlong v (dAlong v φ) z| ≤ M) (z : ℝ × ℝ) : |φ (z + v) + φ (z - v) - 2 * φ z| ≤ 2 * M := by
  have d1 : Differentiable ℝ φ := h.differentiable (by norm_num)
  have d2 : Differentiable ℝ (dAlong v φ) := (cd_dAlong (k := 1) h v).differentiable (by norm_num)
  have line : ∀ s : ℝ, HasDerivAt (fun s : ℝ => z + s • v) v s := fun s => by
    simpa using ((hasDerivAt_id s).smul_const v).const_add z
  have L : ∀ {ψ : ℝ × ℝ → ℝ}, Differentiable ℝ ψ → ∀ s : ℝ,
      HasDerivAt (fun s : ℝ => ψ (z + s • v)) (dAlong v ψ (z + s • v)) s := fun hψ s =>
    (hψ (z + s • v)).hasFDerivAt.comp_hasDerivAt s (line s)
  have g1 : ∀ s t : ℝ, |dAlong v φ (z + s • v) - dAlong v φ (z + t • v)| ≤ M * |s - t| := fun s t => by
    have := Convex.norm_image_sub_le_of_norm_hasDerivWithin_le (f := fun s : ℝ => dAlong v φ (z + s • v))
      (s := Set.univ) (C := M) (fun s _ => (L d2 s).hasDerivWithinAt) (fun s _ => hM _) convex_univ
      (Set.mem_univ t) (Set.mem_univ s)
    simpa [Real.norm_eq_abs] using this
  have M0 : 0 ≤ M := (abs_nonneg _).trans (hM z)
  have neg : ∀ s : ℝ, HasDerivAt (fun s : ℝ => φ (z + (-s) • v)) (-dAlong v φ (z + (-s) • v)) s := fun s => by
    refine ((L d1 (-s)).scomp s (hasDerivAt_neg s)).congr_deriv ?_
    simp
  have := (convex_Icc (0 : ℝ) 1).norm_image_sub_le_of_norm_hasDerivWithin_le
    (f := fun s : ℝ => φ (z + s • v) + φ (z + (-s) • v)) (C := 2 * M)
    (fun s _ => ((L d1 s).add (neg s)).hasDerivWithinAt) (fun s hs => by
      rw [Real.norm_eq_abs, ← sub_eq_add_neg]
      refine (g1 s (-s)).trans ?_
      rw [sub_neg_eq_add, ← two_mul, abs_of_nonneg (by have := hs.1; linarith)]
      have := hs.2
      nlinarith) (Set.left_mem_Icc.2 zero_le_one) (Set.right_mem_Icc.2 zero_le_one)
  simp only [one_smul, neg_smul, zero_smul, add_zero, neg_zero, sub_zero, Real.norm_eq_abs, abs_one, mul_one,
    ← sub_eq_add_neg] at this
  rwa [two_mul]

end

/-! ### Consistency at every point -/

variable {D : ℝ} {T : MeshParams → ℝ → Type}

/-- a mesh and a point of the plane -/
abbrev PtIx (D : ℝ) (T : MeshParams → ℝ → Type) := MeshOf D T × (ℝ × ℝ)

/-- the spacing -/
def dcP : Spacing (PtIx D T) := ⟨fun i => i.1.dc, D, fun i => i.1.pos, fun i => i.1.le⟩

theorem Smooth.points {n : ℕ} {φ : MeshOf D T → ℝ × ℝ → ℝ} (h : Smooth n φ) : Fam n (fun i : PtIx D T => φ i.1) :=
  h.toFam.comp _

theorem mean_P3 {φ : MeshOf D T → ℝ × ℝ → ℝ} (h : Smooth 3 φ) {j : Int} (h0 : 0 ≤ j) (h6 : j < 6) :
    J3 (dcP : Spacing (PtIx D T)) (fun i => meanF i.1.dc (φ i.1) j (i.2 + i.1.dc • ((1 / 2 : ℝ) • dir j)))
      (fun i => meanF i.1.dc (φ i.1) j (i.2 - i.1.dc • ((1 / 2 : ℝ) • dir j))) (fun i => φ i.1 i.2)
      (fun i => 1 / 2 * fderiv ℝ (φ i.1) i.2 (dir j)) := by
  have t := J3.taylor (dcP : Spacing (PtIx D T)) h.points (fun i => i.2)
    (fun _ => dir j) (fun _ => norm_dir1 h0 h6)
  have c := J3.const (δ := (dcP : Spacing (PtIx D T))) (fun i => φ i.1 i.2)
    (bdd_val h.points _)
  refine ((t.add c).smul (fun _ => 1 / 2) (Bdd.const _)).congr (fun i => ?_) (fun i => ?_)
    (fun i => by ring) (fun i => by ring)
  · unfold meanF
    rw [show i.2 + i.1.dc • ((1 / 2 : ℝ) • dir j) + (i.1.dc / 2) • dir j = i.2 + i.1.dc • dir j by
      rw [smul_smul, add_assoc, ← add_smul]; congr 2; ring,
      show i.2 + i.1.dc • ((1 / 2 : ℝ) • dir j) - (i.1.dc / 2) • dir j = i.2 by
      rw [smul_smul, add_sub_assoc, ← sub_smul, show i.1.dc * (1 / 2) - i.1.dc / 2 = 0 by ring, zero_smul,
        add_zero]]
    show _ = 1 / 2 * (φ i.1 (i.2 + i.1.dc • dir j) + φ i.1 i.2)
    ring
  · unfold meanF
    rw [show i.2 - i.1.dc • ((1 / 2 : ℝ) • dir j) - (i.1.dc / 2) • dir j = i.2 - i.1.dc • dir j by
      rw [smul_smul, sub_sub, ← add_smul]; congr 2; ring,
      show i.2 - i.1.dc • ((1 / 2 : ℝ) • dir j) + (i.1.dc / 2) • dir j = i.2 by
      rw [smul_smul, sub_add, ← sub_smul, show i.1.dc * (1 / 2) - i.1.dc / 2 = 0 by ring, zero_smul,
        sub_zero]]
    show _ = 1 / 2 * (φ i.1 (i.2 - i.1.dc • dir j) + φ i.1 i.2)
    ring

theorem grad_P3 {φ : MeshOf D T → ℝ × ℝ → ℝ} (h : Smooth 4 φ) {j : Int} (h0 : 0 ≤ j) (h6 : j < 6) :
    J3 (dcP : Spacing (PtIx D T)) (fun i => -gradF i.1.dc (φ i.1) j (i.2 + i.1.dc • ((1 / 2 : ℝ) • dir j)))
      (fun i => -gradF i.1.dc (φ i.1) j (i.2 - i.1.dc • ((1 / 2 : ℝ) • dir j)))
      (fun i => fderiv ℝ (φ i.1) i.2 (dir j)) (fun i => iteratedFDeriv ℝ 2 (φ i.1) i.2 (fun _ => dir j) / 2) := by
  refine (J3.slope (dcP : Spacing (PtIx D T)) h.points (fun i => i.2)
    (fun _ => dir j) (fun _ => norm_dir1 h0 h6)).congr (fun i => ?_) (fun i => ?_) (fun i => rfl)
    (fun i => rfl)
  · unfold gradF
    rw [show i.2 + i.1.dc • ((1 / 2 : ℝ) • dir j) + (i.1.dc / 2) • dir j = i.2 + i.1.dc • dir j by
      rw [smul_smul, add_assoc, ← add_smul]; congr 2; ring,
      show i.2 + i.1.dc • ((1 / 2 : ℝ) • dir j) - (i.1.dc / 2) • dir j = i.2 by
      rw [smul_smul, add_sub_assoc, ← sub_smul, show i.1.dc * (1 / 2) - i.1.dc / 2 = 0 by ring, zero_smul,
        add_zero]]
    show _ = (φ i.1 (i.2 + i.1.dc • dir j) - φ i.1 i.2) / i.1.dc
    ring
  · unfold gradF
    rw [show i.2 - i.1.dc • ((1 / 2 : ℝ) • dir j) - (i.1.dc / 2) • dir j = i.2 - i.1.dc • dir j by
      rw [smul_smul, sub_sub, ← add_smul]; congr 2; ring,
      show i.2 - i.1.dc • ((1 / 2 : ℝ) • dir j) + (i.1.dc / 2) • dir j = i.2 by
      rw [smul_smul, sub_add, ← sub_smul, show i.1.dc * (1 / 2) - i.1.dc / 2 = 0 by ring, zero_smul,
        sub_zero]]
    show _ = (φ i.1 i.2 - φ i.1 (i.2 - i.1.dc • dir j)) / i.1.dc
    ring

/-- The discrete operator is accurate to second order at every point. -/
theorem point_order {H q : MeshOf D T → ℝ × ℝ → ℝ} (hH : Smooth 3 H) (hq : Smooth 4 q) :
    Ord (dcP : Spacing (PtIx D T)) 2 (fun i => diffF i.1.dc (H i.1) (q i.1) i.2 - diffAt (H i.1) (q i.1) i.2) := by
  have J := fun (j : Int) (hj : j = 0 ∨ j = 1 ∨ j = 2) => ((mean_P3 hH (j := j) (by omega) (by omega)).mul
    (grad_P3 hq (j := j) (by omega) (by omega))).diff
  have h0 := J 0 (by simp)
  have h1 := J 1 (by simp)
  have h2 := J 2 (by simp)
  refine (((h0.add h1).add h2).div.cmul (2 / 3)).congr fun i => ?_
  have hd : (dcP.val i : ℝ) = i.1.dc := rfl
  have hp := i.1.pos.ne'
  rw [hd]
  have key : diffAt (H i.1) (q i.1) i.2 = 4 / 3 *
      (((H i.1) i.2 * (iteratedFDeriv ℝ 2 (q i.1) i.2 (fun _ => dir 0) / 2) +
        1 / 2 * fderiv ℝ (H i.1) i.2 (dir 0) * fderiv ℝ (q i.1) i.2 (dir 0)) +
       ((H i.1) i.2 * (iteratedFDeriv ℝ 2 (q i.1) i.2 (fun _ => dir 1) / 2) +
        1 / 2 * fderiv ℝ (H i.1) i.2 (dir 1) * fderiv ℝ (q i.1) i.2 (dir 1)) +
       ((H i.1) i.2 * (iteratedFDeriv ℝ 2 (q i.1) i.2 (fun _ => dir 2) / 2) +
        1 / 2 * fderiv ℝ (H i.1) i.2 (dir 2) * fderiv ℝ (q i.1) i.2 (dir 2))) := by
    unfold diffAt
    unfold divAt
    have hq2 : ContDiff ℝ 2 (q i.1) := (hq.smooth i.1).of_le (by norm_num)
    rw [fderiv_mul2 (hH.diff (by omega) i.1) (diff_fderiv hq2 _),
      fderiv_mul2 (hH.diff (by omega) i.1) (diff_fderiv hq2 _), fderiv_fderiv hq2, fderiv_fderiv hq2]
    simp only [iteratedFDeriv_two_apply]
    set A := fderiv ℝ (fderiv ℝ (q i.1)) i.2 with hA
    have L : ∀ v : ℝ × ℝ, A v v = v.1 * A v (1, 0) + v.2 * A v (0, 1) := fun v => lin_pt (A v) v.1 v.2
    have L' : ∀ v : ℝ × ℝ, fderiv ℝ (q i.1) i.2 v = v.1 * fderiv ℝ (q i.1) i.2 (1, 0) + v.2 * fderiv ℝ (q i.1) i.2 (0, 1) :=
      fun v => lin_pt (fderiv ℝ (q i.1) i.2) v.1 v.2
    have s1 := sum_dirs (A.flip (1, 0)) (A.flip (0, 1))
    have s2 := sum_dirs (fderiv ℝ (q i.1) i.2 (1, 0) • fderiv ℝ (H i.1) i.2) (fderiv ℝ (q i.1) i.2 (0, 1) • fderiv ℝ (H i.1) i.2)
    simp only [_root_.smul_apply, smul_eq_mul, ContinuousLinearMap.flip_apply] at s1 s2
    rw [L (dir 0), L (dir 1), L (dir 2), L' (dir 0), L' (dir 1), L' (dir 2)]
    linear_combination (-2 / 3 * H i.1 i.2) * s1 - 2 / 3 * s2
  rw [key]
  unfold diffF fluxF
  field_simp
  ring

/-! ### The Laplacian of the error -/

section
variable {H q φ ψ : ℝ × ℝ → ℝ}

/-- the difference of the discrete and the exact operator -/
def errF (dc : ℝ) (H q : ℝ × ℝ → ℝ) (z : ℝ × ℝ) : ℝ := diffF dc H q z - diffAt H q z

theorem cd_errF {k : ℕ} (hH : ContDiff ℝ (k + 1 : ℕ) H) (hq : ContDiff ℝ (k + 2 : ℕ) q) (dc : ℝ) :
    ContDiff ℝ k (errF dc H q) :=
  (cd_diffF (hH.of_le (by norm_cast; omega)) (hq.of_le (by norm_cast; omega)) dc).sub (cd_diffAt hH hq)

theorem errF_along (hH : ContDiff ℝ 2 H) (hq : ContDiff ℝ 3 q) (dc : ℝ) (v : ℝ × ℝ) :
    dAlong v (errF dc H q) = fun z => errF dc (dAlong v H) q z + errF dc H (dAlong v q) z := by
  funext z
  have dH : Differentiable ℝ H := hH.differentiable (by norm_num)
  have dq : Differentiable ℝ q := hq.differentiable (by norm_num)
  have d1 : Differentiable ℝ (diffF dc H q) :=
    (cd_diffF (n := 1) (hH.of_le (by norm_num)) (hq.of_le (by norm_num)) dc).differentiable (by norm_num)
  have d2 : Differentiable ℝ (diffAt H q) :=
    (cd_diffAt (k := 1) (by exact_mod_cast hH) (by exact_mod_cast hq)).differentiable (by norm_num)
  have := ((d1 z).hasFDerivAt.sub (d2 z).hasFDerivAt).fderiv
  refine (congrArg (fun L => L v) this).trans ?_
  show fderiv ℝ (diffF dc H q) z v - fderiv ℝ (diffAt H q) z v = _
  rw [diffF_fderiv dH dq, diffAt_fderiv hH hq]
  unfold errF
  ring

theorem dAlong_add (hf : Differentiable ℝ φ) (hg : Differentiable ℝ ψ) (v : ℝ × ℝ) :
    dAlong v (fun z => φ z + ψ z) = fun z => dAlong v φ z + dAlong v ψ z := by
  funext z
  have := ((hf z).hasFDerivAt.add (hg z).hasFDerivAt).fderiv
  exact congrArg (fun L => L v) this

theorem errF_along2 (hH : ContDiff ℝ 3 H) (hq : ContDiff ℝ 4 q) (dc : ℝ) (v : ℝ × ℝ) :
    dAlong v (dAlong v (errF dc H q)) = fun z => errF dc (dAlong v (dAlong v H)) q z +
      2 * errF dc (dAlong v H) (dAlong v q) z + errF dc H (dAlong v (dAlong v q)) z := by
  have H2 : ContDiff ℝ 2 H := hH.of_le (by norm_num)
  have q3 : ContDiff ℝ 3 q := hq.of_le (by norm_num)
  have H' : ContDiff ℝ 2 (dAlong v H) := by exact_mod_cast cd_dAlong (k := 2) (by exact_mod_cast hH) v
  have q' : ContDiff ℝ 3 (dAlong v q) := by exact_mod_cast cd_dAlong (k := 3) (by exact_mod_cast hq) v
  rw [errF_along H2 q3, dAlong_add
    ((cd_errF (k := 1) (by exact_mod_cast H') (by exact_mod_cast q3) dc).differentiable (by norm_num))
    ((cd_errF (k := 1) (by exact_mod_cast H2) (by exact_mod_cast q') dc).differentiable (by norm_num)),
    errF_along H' q3, errF_along H2 q']
  funext z
  ring

theorem dAlong_smul (c : ℝ) (v : ℝ × ℝ) : dAlong (c • v) φ = fun z => c * dAlong v φ z := by
  funext z; unfold dAlong; rw [map_smul]; rfl

theorem dAlong_smul2 {v : ℝ × ℝ} (h : Differentiable ℝ (dAlong v φ)) (c : ℝ) :
    dAlong (c • v) (dAlong (c • v) φ) = fun z => c ^ 2 * dAlong v (dAlong v φ) z := by
  rw [dAlong_smul c v (φ := φ), dAlong_smul]
  funext z
  have := congrArg (fun L => L v) ((h z).hasFDerivAt.const_mul c).fderiv
  have e : dAlong v (fun z => c * dAlong v φ z) z = c * dAlong v (dAlong v φ) z := this
  rw [e]
  ring

/-- the discrete Laplacian in terms of second differences -/
theorem lapF_eq {dc : ℝ} (hd : dc ≠ 0) (φ : ℝ × ℝ → ℝ) (z : ℝ × ℝ) : diffF dc (fun _ => 1) φ z = 2 / (3 * dc ^ 2) *
    ((φ (z + dc • dir 0) + φ (z - dc • dir 0) - 2 * φ z) + (φ (z + dc • dir 1) + φ (z - dc • dir 1) - 2 * φ z) +
      (φ (z + dc • dir 2) + φ (z - dc • dir 2) - 2 * φ z)) := by
  have e1 : ∀ v : ℝ × ℝ, z - dc • ((1 / 2 : ℝ) • v) - (dc / 2) • v = z - dc • v := fun v => by module
  have e2 : ∀ v : ℝ × ℝ, z - dc • ((1 / 2 : ℝ) • v) + (dc / 2) • v = z := fun v => by module
  have e3 : ∀ v : ℝ × ℝ, z + dc • ((1 / 2 : ℝ) • v) - (dc / 2) • v = z := fun v => by module
  have e4 : ∀ v : ℝ × ℝ, z + dc • ((1 / 2 : ℝ) • v) + (dc / 2) • v = z + dc • v := fun v => by module
  unfold diffF fluxF meanF gradF
  simp only [e1, e2, e3, e4]
  field_simp
  ring

end

theorem Smooth.along {n : ℕ} {φ : MeshOf D T → ℝ × ℝ → ℝ} (h : Smooth (n + 1) φ) (v : ℝ × ℝ) :
    Smooth n (fun M => dAlong v (φ M)) := h.fderiv v

/-- The discrete Laplacian of the error is of second order. -/
theorem lap_err_order {H q : MeshOf D T → ℝ × ℝ → ℝ} (hH : Smooth 5 H) (hq : Smooth 6 q) :
    Ord (dcP : Spacing (PtIx D T)) 2 (fun i => diffF i.1.dc (fun _ => 1) (errF i.1.dc (H i.1) (q i.1)) i.2) := by
  have o : ∀ a : Int, Ord (dcP : Spacing (PtIx D T)) 2 fun i =>
      dAlong (dir a) (dAlong (dir a) (errF i.1.dc (H i.1) (q i.1))) i.2 := fun a => by
    have o1 := point_order ((hH.along (dir a)).along (dir a)) (hq.mono (by omega : 4 ≤ 6))
    have o2 := point_order ((hH.along (dir a)).mono (by omega : 3 ≤ 4)) ((hq.along (dir a)).mono (by omega : 4 ≤ 5))
    have o3 := point_order (hH.mono (by omega : 3 ≤ 5)) ((hq.along (dir a)).along (dir a))
    refine ((o1.add (o2.cmul 2)).add o3).congr fun i => ?_
    rw [errF_along2 ((hH.smooth i.1).of_le (by norm_num)) ((hq.smooth i.1).of_le (by norm_num))]
    rfl
  have s : ∀ a : Int, ∃ K, 0 ≤ K ∧ ∀ (M : MeshOf D T) (z : ℝ × ℝ),
      |errF M.dc (H M) (q M) (z + M.dc • dir a) + errF M.dc (H M) (q M) (z - M.dc • dir a) -
        2 * errF M.dc (H M) (q M) z| ≤ K * M.dc ^ 4 := fun a => by
    obtain ⟨K, k0, hK⟩ := o a
    refine ⟨2 * K, by positivity, fun M z => ?_⟩
    have c2 : ContDiff ℝ (3 : ℕ) (errF M.dc (H M) (q M)) :=
      cd_errF ((hH.smooth M).of_le (by norm_num)) ((hq.smooth M).of_le (by norm_num)) M.dc
    have := second_diff (c2.of_le (by norm_num)) (M.dc • dir a) (M := K * M.dc ^ 4) (fun w => by
      rw [dAlong_smul2 ((cd_dAlong (k := 2) c2 _).differentiable (by norm_num))]
      beta_reduce
      rw [abs_mul, abs_of_nonneg (by positivity)]
      refine (mul_le_mul_of_nonneg_left (hK (M, w)) (by positivity)).trans_eq ?_
      show M.dc ^ 2 * (K * M.dc ^ 2) = _
      ring) z
    linarith
  obtain ⟨K0, k0, h0⟩ := s 0
  obtain ⟨K1, k1, h1⟩ := s 1
  obtain ⟨K2, k2, h2⟩ := s 2
  refine ⟨2 / 3 * (K0 + K1 + K2), by positivity, fun i => ?_⟩
  have hd := i.1.pos
  show _ ≤ _ * i.1.dc ^ 2
  beta_reduce
  rw [lapF_eq hd.ne', abs_mul, abs_of_pos (by positivity)]
  have e : 2 / 3 * (K0 + K1 + K2) * i.1.dc ^ 2 = 2 / (3 * i.1.dc ^ 2) *
      (K0 * i.1.dc ^ 4 + K1 * i.1.dc ^ 4 + K2 * i.1.dc ^ 4) := by field_simp
  rw [e]
  exact mul_le_mul_of_nonneg_left ((abs_add_three _ _ _).trans
    (add_le_add (add_le_add (h0 _ _) (h1 _ _)) (h2 _ _))) (by positivity)

/-! ### The hyperdiffusive operator -/

theorem per_fluxF (dc : ℝ) {P Q : ℝ} {H q : ℝ × ℝ → ℝ} (hH : Periodic2 P Q H) (hq : Periodic2 P Q q) (a : Int) :
    Periodic2 P Q (fluxF dc H q a) := per_mul (per_meanF dc hH a) (per_gradF dc hq a)

theorem per_diffF (dc : ℝ) {P Q : ℝ} {H q : ℝ × ℝ → ℝ} (hH : Periodic2 P Q H) (hq : Periodic2 P Q q) :
    Periodic2 P Q (diffF dc H q) := by
  have k := fun a w => per_shift (per_fluxF dc hH hq a) w
  constructor <;> intro x y <;> unfold diffF <;> simp only [sub_eq_add_neg]
  · have := fun a w => (k a w).1 x y
    beta_reduce at this
    simp only [this]
  · have := fun a w => (k a w).2 x y
    beta_reduce at this
    simp only [this]

/-- the first pass on the mesh -/
theorem diff_cell (M : MeshOf D T) {H q : ℝ × ℝ → ℝ} (hH : Periodic2 M.P M.Q H) (hq : Periodic2 M.P M.Q q)
    {c : Int} (hc : IsCell M.p.nx M.p.ny c) :
    Spec.div M.m (fun e => Spec.mean M.m (fun c => H (cellAt M.m c)) e * Spec.grad M.m (fun c => q (cellAt M.m c)) e) c =
      diffF M.dc H q (cellAt M.m c) :=
  div_sides M (G := fluxF M.dc H q) (fun a => per_fluxF _ hH hq a)
    (fun e h0 h1 => by rw [mean_edge M hH h0 h1, grad_edge M hq h0 h1]; rfl) hc

/-- the second pass on the mesh -/
theorem lap_cell (M : MeshOf D T) {φ : ℝ × ℝ → ℝ} (h : Periodic2 M.P M.Q φ) {f : Int → ℝ}
    (hf : ∀ c, IsCell M.p.nx M.p.ny c → f c = φ (cellAt M.m c)) {c : Int} (hc : IsCell M.p.nx M.p.ny c) :
    Spec.div M.m (Spec.grad M.m f) c = diffF M.dc (fun _ => 1) φ (cellAt M.m c) :=
  div_sides M (G := fluxF M.dc (fun _ => 1) φ) (fun a => per_fluxF _ ⟨fun _ _ => rfl, fun _ _ => rfl⟩ h a)
    (fun e h0 h1 => by
      rw [grad_congr_cells M hf h0 h1, grad_edge M h h0 h1]
      unfold fluxF meanF
      norm_num) hc

theorem Smooth.diffAt {n : ℕ} {H q : MeshOf D T → ℝ × ℝ → ℝ} (hH : Smooth (n + 1) H) (hq : Smooth (n + 2) q) :
    Smooth n (fun M => diffAt (H M) (q M)) := by
  have e : (fun M => Props.diffAt (H M) (q M)) = fun M z =>
      H M z * dAlong (1, 0) (dAlong (1, 0) (q M)) z + dAlong (1, 0) (q M) z * dAlong (1, 0) (H M) z +
      (H M z * dAlong (0, 1) (dAlong (0, 1) (q M)) z + dAlong (0, 1) (q M) z * dAlong (0, 1) (H M) z) := by
    funext M
    exact diffAt_expand ((hH.smooth M).of_le (by norm_cast; omega)) ((hq.smooth M).of_le (by norm_cast; omega))
  rw [e]
  have h0 : Smooth n H := hH.mono (by omega)
  have k := fun v => (h0.mul ((hq.along v).along v)).add (((hq.along v).mono (by omega : n ≤ n + 1)).mul (hH.along v))
  exact (k (1, 0)).add (k (0, 1))

theorem diffAt_one (φ : ℝ × ℝ → ℝ) (z : ℝ × ℝ) : diffAt (fun _ => 1) φ z = laplace φ z := by
  unfold diffAt laplace; simp only [one_mul]

/-- Both passes together are accurate to second order. -/
theorem hyper_order {H q : MeshOf D T → ℝ × ℝ → ℝ} (hH : Smooth 5 H) (hq : Smooth 6 q) :
    Ord (dcC : Spacing (CellIx D T)) 2 (fun i => Spec.div i.m (Spec.grad i.m (Spec.div i.m fun e =>
        Spec.mean i.m (fun c => H i.M (cellAt i.m c)) e * Spec.grad i.m (fun c => q i.M (cellAt i.m c)) e)) i.c -
      laplace (diffAt (H i.M) (q i.M)) i.x) := by
  obtain ⟨K1, k1, h1⟩ := lap_err_order hH hq
  obtain ⟨K2, k2, h2⟩ := point_order (Smooth.const (D := D) (T := T) (n := 3) 1) (hH.diffAt (n := 4) hq)
  refine ⟨K1 + K2, by positivity, fun i => ?_⟩
  have a := h1 (i.M, i.x)
  have b := h2 (i.M, i.x)
  beta_reduce at a b ⊢
  rw [lap_cell i.M (per_diffF _ (hH.per i.M) (hq.per i.M))
    (fun c hc => diff_cell i.M (hH.per i.M) (hq.per i.M) hc) i.isCell]
  have e : diffF i.dc (fun _ => 1) (diffF i.dc (H i.M) (q i.M)) i.x =
      diffF i.dc (fun _ => 1) (diffAt (H i.M) (q i.M)) i.x + diffF i.dc (fun _ => 1) (errF i.dc (H i.M) (q i.M)) i.x := by
    rw [lapF_eq i.pos.ne', lapF_eq i.pos.ne', lapF_eq i.pos.ne']
    unfold errF
    ring
  rw [diffAt_one] at b
  show |diffF i.dc (fun _ => 1) (diffF i.dc (H i.M) (q i.M)) i.x - _| ≤ (K1 + K2) * i.dc ^ 2
  rw [e, add_sub_right_comm, add_mul, add_comm (K1 * _)]
  exact (abs_add_le _ _).trans (add_le_add b a)

/-! ### C84, consistency -/

/-- fields of a mesh with bounds on more derivatives -/
structure HyperData (B : ℝ) (p : MeshParams) (dc : ℝ) : Type where
  H : ℝ × ℝ → ℝ
  U : ℝ × ℝ → ℝ
  W : ℝ × ℝ → ℝ
  q : ℝ × ℝ → ℝ
  hH : Bounded 5 (periodX p.nx dc) (periodY p.ny dc) B H
  hU : Bounded 3 (periodX p.nx dc) (periodY p.ny dc) B U
  hW : Bounded 3 (periodX p.nx dc) (periodY p.ny dc) B W
  hq : Bounded 6 (periodX p.nx dc) (periodY p.ny dc) B q

/-- the coefficient that acts, of any sign -/
theorem coef_any (κ : ℝ) : (if Scalar.lt (lit 0 : ℝ) κ = true then κ else 0) = max κ 0 := by
  rcases le_total 0 κ with h | h
  · rw [coef_on h, max_eq_left h]
  · rw [max_eq_right h, if_neg]
    rw [slt_real]; simpa using h

/-- For any bounds there is a constant such that, on every mesh with a spacing of at most `D` and for all
periodic fields that respect the bounds, the tracer tendency stored by `compute_tendency` for the sampled
state is within that constant times the squared spacing of
`-∇·(hqu) + κ₂∇·(h∇q) - κ₄∇²∇·(h∇q)` at every cell. The bounds are `B` for the values and derivatives of the
concentration up to the sixth, of the thickness up to the fifth and of the velocity up to the third order,
and `η` below the thickness; the periods are arbitrary. -/
theorem C84_hyperdiffusion_consistent (D B : ℝ) {η : ℝ} (hη : 0 < η) (prm : Params ℝ) :
    ∃ K : ℝ, ∀ (p : MeshParams) (dc : ℝ) (m m1 : Mem ℝ) (split : Bool) (tn st : StateId) (t : ℝ) (l k : Int)
        (H U W q : ℝ × ℝ → ℝ),
      RunValid p → 2 ≤ p.nx → p.ny % 2 = 0 → 0 < dc → dc ≤ D →
      Bounded 5 (periodX p.nx dc) (periodY p.ny dc) B H →
      Bounded 3 (periodX p.nx dc) (periodY p.ny dc) B U →
      Bounded 3 (periodX p.nx dc) (periodY p.ny dc) B W →
      Bounded 6 (periodX p.nx dc) (periodY p.ny dc) B q → (∀ z, η ≤ H z) →
      Ready p dc prm m → st ≠ tn → 0 ≤ k → k < p.dims.nlayers → 0 ≤ l → l < p.dims.ntracers →
      (∀ c, 0 ≤ c → c < p.dims.ncells → m.real (.h_cell st) 0 c k = H (cellAt m c)) →
      (∀ e, 0 ≤ e → e < p.dims.nedges → m.real (.vn_edge st) 0 e k = normalOf m U W e) →
      (∀ c, 0 ≤ c → c < p.dims.ncells → m.real (.tr_cell st) l c k = H (cellAt m c) * q (cellAt m c)) →
      Exec p.dims (compute_tendency p.dims ⟨defaultKernels p.dims.vl, split⟩ (SWModel.ofParams prm)
        .replace tn st t) m m1 →
      ∀ c, 0 ≤ c → c < p.dims.ncells →
        |m1.real (.tr_cell tn) l c k - (rhsS (max prm.eddy_diff2 0) H U W q (cellAt m c) -
          max prm.eddy_diff4 0 * laplace (diffAt H q) (cellAt m c))| ≤ K * dc ^ 2 := by
  by_cases hB : 0 ≤ B
  swap
  · exact ⟨0, fun p dc m m1 split tn st t l k H U W q _ _ _ _ _ h => absurd h.nonneg hB⟩
  let T := HyperData B
  have fH : Smooth 5 (fun M : MeshOf D T => M.tag.H) := smooth_of_bounded hB fun M => M.tag.hH
  have fU : Smooth 3 (fun M : MeshOf D T => M.tag.U) := smooth_of_bounded hB fun M => M.tag.hU
  have fW : Smooth 3 (fun M : MeshOf D T => M.tag.W) := smooth_of_bounded hB fun M => M.tag.hW
  have fq : Smooth 6 (fun M : MeshOf D T => M.tag.q) := smooth_of_bounded hB fun M => M.tag.hq
  have fH3 := fH.mono (by omega : 3 ≤ 5)
  obtain ⟨K3, k3, o3⟩ := tracer_flux_order fH3 (fq.mono (by omega : 3 ≤ 6)) fU fW
  obtain ⟨K4, k4, o4⟩ := tracer_diff_order fH3 (fq.mono (by omega : 4 ≤ 6))
  obtain ⟨K5, k5, o5⟩ := hyper_order fH fq
  refine ⟨K3 + max prm.eddy_diff2 0 * K4 + max prm.eddy_diff4 0 * K5, ?_⟩
  intro p dc m m1 split tn st t l k H U W q hv hnx hny hdc hD bH bU bW bq hpos hr hne hk0 hk1 l0 l1 hh hu hSs he c h0 h1
  obtain ⟨m', hb, hs⟩ := ready_mesh hr
  obtain ⟨hd, hc⟩ := ready_ok hv hr
  have geo := Ready.geo2 hr hv.toValid hnx (by have := hv.ny_pos; omega) hdc
  let M : MeshOf D T := ⟨p, dc, m', ⟨H, U, W, q, bH, bU, bW, bq⟩, hv.toValid, hnx, hny, hdc, hD, hb⟩
  let x : Fld ℝ := ⟨fun i k' => if k' = k then H (cellAt m i) else m.real (.h_cell st) 0 i k',
    fun i k' => if k' = k then normalOf m U W i else m.real (.vn_edge st) 0 i k',
    fun l' i k' => if l' = l ∧ k' = k then H (cellAt m i) * q (cellAt m i) else m.real (.tr_cell st) l' i k'⟩
  have hx : EqFld p.dims (m.fld st) x := by
    refine ⟨fun c k' a b _ _ => ?_, fun e k' a b _ _ => ?_, fun l' c k' _ _ a b _ _ => ?_⟩
    · by_cases h : k' = k
      · subst h; simp only [x, if_true]; exact hh c a b
      · simp only [x, if_neg h]; rfl
    · by_cases h : k' = k
      · subst h; simp only [x, if_true]; exact hu e a b
      · simp only [x, if_neg h]; rfl
    · by_cases h : l' = l ∧ k' = k
      · simp only [x, if_pos h]; rw [h.1, h.2]; exact hSs c a b
      · simp only [x, if_neg h]; rfl
  obtain ⟨-, -, T4⟩ := tend_spec hd hc (noHook_ofParams prm) hne he hx
  have xh : (fun i => x.h i k) = fun i => H (cellAt m' i) := by
    funext i; simp only [x, if_true, hs.cellAt]
  have xu : (fun i => x.vn i k) = normalOf m' U W := by
    funext i; simp only [x, if_true, hs.normalOf]
  have xt : (fun i => x.tr l i k) = fun i => H (cellAt m' i) * q (cellAt m' i) := by
    funext i; simp only [x, and_self, if_true, hs.cellAt]
  rw [T4 l c k l0 l1 h0 h1 hk0 hk1, xh, xu, xt]
  have a3 := o3 ⟨M, c, h0, h1⟩
  have a4 := o4 ⟨M, c, h0, h1⟩
  have a5 := o5 ⟨M, c, h0, h1⟩
  have hSH : ∀ z, H z * q z / H z = q z := fun z => by
    have := (hη.trans_le (hpos z)).ne'
    field_simp
  unfold Spec.tracerTend rhsS
  rw [if_pos (show (SWModel.ofParams prm).en_thadv = true from rfl), hs.mean, hs.grad, hs.cellAt]
  simp only [hSH]
  have e2 : Spec.div m (fun e => m.real .mesh_scaling_del2 0 e 0 * Spec.mean m' (fun i => H (cellAt m' i)) e *
      Spec.grad m' (fun i => q (cellAt m' i)) e) c =
      Spec.div m (fun e => Spec.mean m' (fun i => H (cellAt m' i)) e * Spec.grad m' (fun i => q (cellAt m' i)) e) c :=
    div_congr hc (fun e a b => by rw [(mask_one geo.toGeo a b hk0 hk1).2.1, one_mul]) h0 h1
  have e3 : Spec.div m (fun e => m.real .mesh_scaling_del4 0 e 0 * Spec.grad m'
        (Spec.div m fun e => Spec.mean m' (fun i => H (cellAt m' i)) e * Spec.grad m' (fun i => q (cellAt m' i)) e) e) c =
      Spec.div m (Spec.grad m' (Spec.div m fun e =>
        Spec.mean m' (fun i => H (cellAt m' i)) e * Spec.grad m' (fun i => q (cellAt m' i)) e)) c :=
    div_congr hc (fun e a b => by rw [(mask_one geo.toGeo a b hk0 hk1).2.2, one_mul]) h0 h1
  rw [e2, e3, hs.div]
  have f2 : ∀ a : ℝ, (if (SWModel.ofParams prm).en_tdiff = true then (SWModel.ofParams prm).prm.eddy_diff2 * a else 0) =
      max prm.eddy_diff2 0 * a := fun a => by
    rw [← coef_any, ite_mul, zero_mul]; rfl
  have f4 : ∀ a : ℝ, (if (SWModel.ofParams prm).en_thyper = true then (SWModel.ofParams prm).prm.eddy_diff4 * a else 0) =
      max prm.eddy_diff4 0 * a := fun a => by
    rw [← coef_any, ite_mul, zero_mul]; rfl
  rw [f2, f4]
  have κ2 : 0 ≤ max prm.eddy_diff2 0 := le_max_right _ _
  have κ4 : 0 ≤ max prm.eddy_diff4 0 := le_max_right _ _
  generalize max prm.eddy_diff2 0 = κ at *
  generalize max prm.eddy_diff4 0 = ν at *
  have e1 : ∀ a b b' d f f' : ℝ, -a + κ * b - ν * b' - (-d + κ * f - ν * f') =
      -(a - d) + κ * (b - f) + -(ν * (b' - f')) := fun a b b' d f f' => by ring
  rw [e1, add_mul, add_mul, mul_assoc, mul_assoc]
  refine (abs_add_three _ _ _).trans (add_le_add (add_le_add ?_ ?_) ?_)
  · rw [abs_neg]; exact a3
  · rw [abs_mul, abs_of_nonneg κ2]
    exact mul_le_mul_of_nonneg_left a4 κ2
  · rw [abs_neg, abs_mul, abs_of_nonneg κ4]
    exact mul_le_mul_of_nonneg_left a5 κ4

/-- meshes of one domain refined up to a thousandfold (the cell count must fit in the code's `int`),
nonconstant fields, diffusion and hyperdiffusion -/
example (dc : ℝ) (hdc : 0 < dc) : ∃ (B P Q : ℝ) (H U W q : ℝ × ℝ → ℝ) (prm : Params ℝ),
    Bounded 5 P Q B H ∧ Bounded 3 P Q B U ∧ Bounded 3 P Q B W ∧ Bounded 6 P Q B q ∧ (∀ z, 1 ≤ H z) ∧
    H (0, 0) ≠ H (P / 4, Q / 4) ∧ U (0, 0) ≠ U (P / 4, Q / 4) ∧ q (0, 0) ≠ q (P / 4, Q / 4) ∧
    0 < prm.eddy_diff2 ∧ 0 < prm.eddy_diff4 ∧
    ∀ n : ℕ, 1 ≤ n → n ≤ 1000 → RunValid (pRef n) ∧ 2 ≤ (pRef n).nx ∧ (pRef n).ny % 2 = 0 ∧ 0 < dc / n ∧
      dc / n ≤ dc ∧ periodX (pRef n).nx (dc / n) = P ∧ periodY (pRef n).ny (dc / n) = Q ∧
      0 < (pRef n).dims.nlayers ∧ 0 < (pRef n).dims.ntracers ∧
      ∃ m m1 : Mem ℝ, Ready (pRef n) (dc / n) prm m ∧
      (∀ c k, 0 ≤ c → c < (pRef n).dims.ncells → m.real (.h_cell .state) 0 c k = H (cellAt m c)) ∧
      (∀ e k, 0 ≤ e → e < (pRef n).dims.nedges → m.real (.vn_edge .state) 0 e k = normalOf m U W e) ∧
      (∀ l c k, 0 ≤ c → c < (pRef n).dims.ncells →
        m.real (.tr_cell .state) l c k = H (cellAt m c) * q (cellAt m c)) ∧
      Exec (pRef n).dims (compute_tendency (pRef n).dims ⟨defaultKernels (pRef n).dims.vl, false⟩
        (SWModel.ofParams prm) .replace .tend .state 3) m m1 := by
  obtain ⟨hP, hQ⟩ := periods_pos (dc := dc) p46_valid hdc
  set P := (periodX p46.nx dc : ℝ) with hPd
  set Q := (periodY p46.ny dc : ℝ) with hQd
  have wp := wave_periodic hP hQ 0 0
  obtain ⟨B1, hB1⟩ := Bounded.exists (n := 6) hP hQ (wave_smooth P Q 0 0) wp
  obtain ⟨B2, hB2⟩ := Bounded.exists (n := 5) (φ := fun z => 2 + wave P Q 0 0 z) hP hQ
    (contDiff_const.add (wave_smooth P Q 0 0)) ⟨fun x y => by simp only [wp.1], fun x y => by simp only [wp.2]⟩
  have l1 : B1 ≤ B1 + B2 := by have := hB2.nonneg; linarith
  have l2 : B2 ≤ B1 + B2 := by have := hB1.nonneg; linarith
  have w6 := hB1.mono l1
  have w3 : Bounded 3 P Q (B1 + B2) (wave P Q 0 0) :=
    ⟨wave_smooth _ _ _ _, wp, fun k hk z => w6.bound k (by omega) z⟩
  have e0 : wave P Q 0 0 (0, 0) = 0 := by simp [wave]
  have e1 : wave P Q 0 0 (P / 4, Q / 4) = 1 := by
    unfold wave
    rw [show 2 * Real.pi * (P / 4) / P + 0 = Real.pi / 2 by field_simp; ring,
      show 2 * Real.pi * (Q / 4) / Q + 0 = Real.pi / 2 by field_simp; ring]
    simp
  refine ⟨B1 + B2, P, Q, fun z => 2 + wave P Q 0 0 z, wave P Q 0 0, wave P Q 0 0, wave P Q 0 0,
    ⟨1, 9, 0, 0, 5, 2, false, false⟩, hB2.mono l2, w3, w3, w6, fun z => ?_, ?_, ?_, ?_, by norm_num,
    by norm_num, fun n hn hm => ?_⟩
  · have a := Real.neg_one_le_sin (2 * Real.pi * z.1 / P + 0)
    have b := Real.sin_le_one (2 * Real.pi * z.1 / P + 0)
    have c := Real.neg_one_le_sin (2 * Real.pi * z.2 / Q + 0)
    have d := Real.sin_le_one (2 * Real.pi * z.2 / Q + 0)
    unfold wave
    nlinarith
  · beta_reduce; rw [e0, e1]; norm_num
  · rw [e0, e1]; norm_num
  · rw [e0, e1]; norm_num
  · have hn1 : (1 : ℝ) ≤ n := by exact_mod_cast hn
    have hl : (pRef n).dims.nlayers = p46.dims.nlayers := rfl
    refine ⟨pRef_run hn hm, by simp [pRef]; omega, by simp [pRef]; omega, by positivity,
      div_le_self hdc.le hn1, ?_, ?_, by rw [hl, p46_layers]; norm_num, by simp [pRef, MeshParams.dims],
      exists_sampled (pRef_run hn hm) _ _ _ _ (fun z => 2 + wave P Q 0 0 z) (wave P Q 0 0) (wave P Q 0 0)
        (fun z => (2 + wave P Q 0 0 z) * wave P Q 0 0 z)⟩
    · rw [hPd]; simp only [periodX, pRef, p46, lit_real]; push_cast; field_simp
    · rw [hQd]; simp only [periodY, pRef, p46, lit_real]; push_cast; field_simp

/-! ### The equation on the plane -/

/-- the hyperdiffusion equation `∂t q = κ∇²q - ν∇⁴q` -/
def Hyperdiffused (κ ν : ℝ) (q : ℝ × (ℝ × ℝ) → ℝ) : Prop :=
  ∀ t z, deriv (fun s => q (s, z)) t =
    κ * laplace (fun z => q (t, z)) z - ν * laplace (laplace fun z => q (t, z)) z

section
variable {q : ℝ × (ℝ × ℝ) → ℝ}

/-- space derivative of a function of time and space -/
def dSpace (v : ℝ × ℝ) (q : ℝ × (ℝ × ℝ) → ℝ) (x : ℝ × (ℝ × ℝ)) : ℝ := fderiv ℝ q x (0, v)

/-- the Laplacian at each time -/
def lapS (q : ℝ × (ℝ × ℝ) → ℝ) (x : ℝ × (ℝ × ℝ)) : ℝ := laplace (fun z => q (x.1, z)) x.2

theorem cd_dSpace {k : ℕ} (h : ContDiff ℝ (k + 1 : ℕ) q) (v : ℝ × ℝ) : ContDiff ℝ k (dSpace v q) :=
  (h.fderiv_right (m := k) (by norm_cast)).clm_apply contDiff_const

theorem lapS_eq (h : ContDiff ℝ 2 q) : lapS q = fun x =>
    dSpace (1, 0) (dSpace (1, 0) q) x + dSpace (0, 1) (dSpace (0, 1) q) x := by
  funext x
  obtain ⟨t, z⟩ := x
  have d1 : Differentiable ℝ q := h.differentiable (by norm_num)
  have d2 := fun v => (cd_dSpace (k := 1) (by exact_mod_cast h) v).differentiable (by norm_num)
  unfold lapS laplace divAt
  have e := fun v => funext fun w => fderiv_slice d1 t w v
  dsimp only
  rw [e, e]
  have k := fun v => fderiv_slice (d2 v) t z v
  exact congrArg₂ (· + ·) (k (1, 0)) (k (0, 1))

theorem cd_lapS {k : ℕ} (h : ContDiff ℝ (k + 2 : ℕ) q) : ContDiff ℝ k (lapS q) := by
  rw [lapS_eq (h.of_le (by norm_cast; omega))]
  exact (cd_dSpace (cd_dSpace h _) _).add (cd_dSpace (cd_dSpace h _) _)

theorem dTime_dSpace (h : ContDiff ℝ 2 q) (v : ℝ × ℝ) : dTime (dSpace v q) = dSpace v (dTime q) := by
  funext x
  have hf : ContDiff ℝ 1 (fderiv ℝ q) := h.fderiv_right (m := 1) (by norm_num)
  have ff : ∀ x v w, fderiv ℝ (fun y => fderiv ℝ q y v) x w = fderiv ℝ (fderiv ℝ q) x w v := fun x v w => by
    rw [fderiv_clm_apply (hf.differentiable (by norm_num) x) (differentiableAt_const v)]
    simp
  show fderiv ℝ (fun y => fderiv ℝ q y (0, v)) x (1, 0) = fderiv ℝ (fun y => fderiv ℝ q y (1, 0)) x (0, v)
  rw [ff, ff]
  exact (h.contDiffAt.isSymmSndFDerivAt (by simp)).eq _ _

theorem dTime_add {f g : ℝ × (ℝ × ℝ) → ℝ} (hf : Differentiable ℝ f) (hg : Differentiable ℝ g) :
    dTime (fun x => f x + g x) = fun x => dTime f x + dTime g x := by
  funext x
  exact congrArg (fun L => L (1, 0)) ((hf x).hasFDerivAt.add (hg x).hasFDerivAt).fderiv

theorem dTime_lapS (h : ContDiff ℝ 3 q) : dTime (lapS q) = lapS (dTime q) := by
  have h2 : ContDiff ℝ 2 q := h.of_le (by norm_num)
  have h' : ContDiff ℝ 2 (dTime q) :=
    (h.fderiv_right (m := 2) (by norm_num)).clm_apply contDiff_const
  have c := fun v => cd_dSpace (k := 2) (by exact_mod_cast h) v
  have d := fun v => (cd_dSpace (k := 1) (c v) v).differentiable (by norm_num)
  rw [lapS_eq h2, dTime_add (d _) (d _), dTime_dSpace (c _), dTime_dSpace (c _), dTime_dSpace h2, dTime_dSpace h2,
    lapS_eq h']

/-- The time derivative of a solution is a solution. -/
theorem Hyperdiffused.dTime {κ ν : ℝ} (hq : ContDiff ℝ 5 q) (h : Hyperdiffused κ ν q) :
    Hyperdiffused κ ν (dTime q) := by
  have d1 : Differentiable ℝ q := hq.differentiable (by norm_num)
  have e : Props.dTime q = fun x => κ * lapS q x + -ν * lapS (lapS q) x := by
    funext x
    obtain ⟨t, z⟩ := x
    rw [← (hasDerivAt_time d1 t z).deriv, h t z]
    show κ * lapS q (t, z) - ν * lapS (lapS q) (t, z) = _
    ring
  have c1 : ContDiff ℝ 3 (lapS q) := by exact_mod_cast cd_lapS (k := 3) (by exact_mod_cast hq)
  have c2 : ContDiff ℝ 1 (lapS (lapS q)) := by exact_mod_cast cd_lapS (k := 1) (by exact_mod_cast c1)
  have d2 : Differentiable ℝ (lapS q) := c1.differentiable (by norm_num)
  have d3 : Differentiable ℝ (lapS (lapS q)) := c2.differentiable (by norm_num)
  have cm : ∀ {f : ℝ × (ℝ × ℝ) → ℝ} (c : ℝ), Differentiable ℝ f →
      Props.dTime (fun x => c * f x) = fun x => c * Props.dTime f x := fun c hf => by
    funext x
    exact congrArg (fun L => L (1, 0)) ((hf x).hasFDerivAt.const_mul c).fderiv
  intro t z
  have dd : Differentiable ℝ (Props.dTime q) := dTime_diff (hq.of_le (by norm_num)) (1, 0)
  rw [(hasDerivAt_time dd t z).deriv]
  have k : Props.dTime (Props.dTime q) = fun x => κ * lapS (Props.dTime q) x + -ν * lapS (lapS (Props.dTime q)) x := by
    conv_lhs => rw [e]
    rw [dTime_add (d2.const_mul κ) (d3.const_mul (-ν)), cm κ d2, cm (-ν) d3, dTime_lapS (hq.of_le (by norm_num)),
      dTime_lapS c1, dTime_lapS (hq.of_le (by norm_num))]
  rw [k]
  show κ * lapS (Props.dTime q) (t, z) + -ν * lapS (lapS (Props.dTime q)) (t, z) = κ * lapS (Props.dTime q) (t, z) -
    ν * lapS (lapS (Props.dTime q)) (t, z)
  ring

end

theorem iter_hyperdiffused {P Q B Te κ ν : ℝ} {q : ℝ × (ℝ × ℝ) → ℝ} (hq : BoundedIn 10 P Q B Te q)
    (ha : Hyperdiffused κ ν q) (i : ℕ) (hi : i ≤ 5) :
    BoundedIn (10 - i) P Q B Te (dTime^[i] q) ∧ Hyperdiffused κ ν (dTime^[i] q) := by
  induction i with
  | zero => exact ⟨hq, ha⟩
  | succ i ih =>
    obtain ⟨h1, h2⟩ := ih (by omega)
    rw [Function.iterate_succ_apply', show 10 - (i + 1) = 9 - i by omega]
    rw [show 10 - i = (9 - i) + 1 by omega] at h1
    refine ⟨h1.dTime, h2.dTime ?_⟩
    exact h1.smooth.of_le (by exact_mod_cast (by omega : 5 ≤ 9 - i + 1))

theorem laplace_cmul (c : ℝ) (φ : ℝ × ℝ → ℝ) : laplace (fun z => c * φ z) = fun z => c * laplace φ z := by
  funext z
  unfold laplace divAt
  have e : ∀ (f : ℝ × ℝ → ℝ) w v, fderiv ℝ (fun z => c * f z) w v = c * fderiv ℝ f w v := fun f w v => by
    have := congrFun (fderiv_const_smul_field (𝕜 := ℝ) (f := f) c) w
    exact congrArg (fun L => L v) this
  simp only [e]
  ring

theorem diffAt_const (c : ℝ) (φ : ℝ × ℝ → ℝ) : diffAt (fun _ => c) φ = fun z => c * laplace φ z := by
  funext z
  unfold diffAt laplace divAt
  have e : ∀ (f : ℝ × ℝ → ℝ) w v, fderiv ℝ (fun z => c * f z) w v = c * fderiv ℝ f w v := fun f w v => by
    have := congrFun (fderiv_const_smul_field (𝕜 := ℝ) (f := f) c) w
    exact congrArg (fun L => L v) this
  rw [e, e]
  ring

/-! ### C84, convergence -/

/-- thickness and concentration at one time, with bounds -/
structure HyperRest (B : ℝ) (p : MeshParams) (dc : ℝ) : Type where
  h : ℝ
  q : ℝ × ℝ → ℝ
  hh : |h| ≤ B
  hq : Bounded 6 (periodX p.nx dc) (periodY p.ny dc) B q

/-- For any bounds there is a constant such that, on every mesh with a spacing of at most `D`, for all
coefficients and every solution `q` of the hyperdiffusion equation within the bounds, the following holds
for a run of either fourth-order stepper from a layer at rest of uniform thickness `h` with thickness and
velocity held fixed and steps of size `dt` up to a time of at most `Te`: if the steps are within the
stability limit of the stepper, then the root mean square difference of the final tracer content and the
solution at the cell centers is at most that constant times the sum of the squared spacing, the fourth
power of the time step and, for the low-storage stepper, `1e-20` (its coefficients are rounded). The
number of steps is not bounded. -/
theorem C84_hyperdiffusion_converges (D B Te : ℝ) {η : ℝ} (hη : 0 < η) :
    ∃ K : ℝ, ∀ (stp : Stepper) (prm : Params ℝ) (p : MeshParams) (dc dt h : ℝ) (m m1 : Mem ℝ) (split : Bool)
        (sched : List (ℝ × ℝ)) (l k : Int) (q : ℝ × (ℝ × ℝ) → ℝ),
      FourthOrder stp → 0 ≤ prm.eddy_diff2 → prm.eddy_diff2 ≤ B → 0 ≤ prm.eddy_diff4 → prm.eddy_diff4 ≤ B →
      prm.disable_h = true → prm.disable_vn = true →
      RunValid p → 2 ≤ p.nx → p.ny % 2 = 0 → 0 < dc → dc ≤ D → η ≤ h → h ≤ B →
      BoundedIn 10 (periodX p.nx dc) (periodY p.ny dc) B Te q → Hyperdiffused prm.eddy_diff2 prm.eddy_diff4 q →
      Ready p dc prm m → 0 ≤ k → k < p.dims.nlayers → 0 ≤ l → l < p.dims.ntracers →
      (∀ c, 0 ≤ c → c < p.dims.ncells → m.real (.h_cell .state) 0 c k = h) →
      (∀ e, 0 ≤ e → e < p.dims.nedges → m.real (.vn_edge .state) 0 e k = 0) →
      (∀ c, 0 ≤ c → c < p.dims.ncells → m.real (.tr_cell .state) l c k = h * q (0, cellAt m c)) →
      0 ≤ dt → (∀ a ∈ sched, a.2 = dt) → sched.length * dt ≤ Te →
      6 * prm.eddy_diff2 * dt / dc ^ 2 + 36 * prm.eddy_diff4 * dt / dc ^ 4 ≤ diffusionLimit stp →
      Exec p.dims (stp.ctor p.dims ++ stp.run p.dims ⟨defaultKernels p.dims.vl, split⟩
        (SWModel.ofParams prm) sched) m m1 →
      √((∑ c ∈ Spec.cells p.dims, (m1.real (.tr_cell .state) l c k -
          h * q (sched.length * dt, cellAt m c)) ^ 2) / p.dims.ncells) ≤
        K * (dc ^ 2 + dt ^ 4 + defect stp) := by
  by_cases hB : 0 ≤ B
  swap
  · exact ⟨0, fun stp prm p dc dt h m m1 split sched l k q _ h2 h2B => absurd (h2.trans h2B) hB⟩
  let T := HyperRest B
  have fH : ∀ {n : ℕ}, Smooth n (fun (M : MeshOf D T) _ => M.tag.h) := fun {n} =>
    ⟨Fam.const _ ⟨B, hB, fun M => M.tag.hh⟩, fun M => ⟨fun _ _ => rfl, fun _ _ => rfl⟩⟩
  have fq : Smooth 6 (fun M : MeshOf D T => M.tag.q) := smooth_of_bounded hB fun M => M.tag.hq
  obtain ⟨K3, k3, o3⟩ := tracer_diff_order fH (fq.mono (by omega : 4 ≤ 6))
  obtain ⟨K4, k4, o4⟩ := hyper_order fH fq
  refine ⟨√(B / η) * (77760 * Te * (1 + Te) ^ 5) * (B * K3 + B * K4 + B * B), ?_⟩
  intro stp prm p dc dt h m m1 split sched l k q hstp h2 h2B h4 h4B hdh hdv hv hnx hny hdc hD hlo hhi bq hdif hr
    hk0 hk1 hl0 hl1 hh hu ht t0 hsched hTe hlim he
  obtain ⟨m', hb, hs⟩ := ready_mesh hr
  obtain ⟨hd, hc⟩ := ready_ok hv hr
  have geo := Ready.geo2 hr hv.toValid hnx (by have := hv.ny_pos; omega) hdc
  obtain ⟨-, -, fin⟩ := frozen_exec hdh hdv hd hc (noHook_ofParams prm) he
  have κ0 := defect_nonneg stp
  have Te0 : 0 ≤ Te := le_trans (by positivity) hTe
  have lo0 : 0 < h := hη.trans_le hlo
  set x : Int → ℝ := fun i => m.real (.h_cell .state) 0 i k with hxd
  set u : Int → ℝ := fun i => m.real (.vn_edge .state) 0 i k with hud
  have cell : ∀ {c}, c ∈ Spec.cells p.dims → 0 ≤ c ∧ c < p.dims.ncells := fun h => Finset.mem_Ico.1 h
  have xv : ∀ c ∈ Spec.cells p.dims, x c = h := fun c hcc => hh c (cell hcc).1 (cell hcc).2
  have x0 : ∀ c ∈ Spec.cells p.dims, 0 < x c := fun c hcc => by rw [xv c hcc]; exact lo0
  have sol := iter_hyperdiffused bq hdif
  let Mq : ∀ q, Bounded 6 (periodX p.nx dc) (periodY p.ny dc) B q → MeshOf D T := fun q bq =>
    ⟨p, dc, m', ⟨h, q, by rw [abs_of_pos lo0]; exact hhi, bq⟩, hv.toValid, hnx, hny, hdc, hD, hb⟩
  have key := damped_core hv hstp (x := x) (y := fun i => m.real (.tr_cell .state) l i k) (z := cellAt m)
    (H := fun _ => h) (q := q) (A := trOp m (SWModel.ofParams prm) x u) (dt := dt)
    (ε := B * (K3 * dc ^ 2) + B * (K4 * dc ^ 2)) (n0 := 4) hη (fun _ => ⟨hlo, hhi⟩) xv
    (fun r hr f => by
      have a := hyper_spectral (sw := SWModel.ofParams prm) (x := x) (u := u) (dt := dt) geo hc hny h2 h4 lo0.ne'
        hh hu hk0 hk1 t0 hlim hr f
      have w : ∀ g : Int → ℝ, ∑ c ∈ Spec.cells p.dims, Spec.areaC m c * g c ^ 2 =
          h * (dc * dc * √3 / 2 * ‖scaled p.dims x g‖ ^ 2) := fun g => by
        rw [← scaled_area geo x0, Finset.mul_sum]
        refine Finset.sum_congr rfl fun c hcc => ?_
        rw [xv c hcc]
        field_simp
      rw [w, w] at a
      have hp : 0 < dc * dc * √3 / 2 := by positivity
      exact abs_le_of_sq_le_sq' (le_of_mul_le_mul_left (le_of_mul_le_mul_left a lo0) hp) (norm_nonneg _) |>.2)
    t0 hsched hTe bq (by positivity) ?_ (fun c hcc => ht c (cell hcc).1 (cell hcc).2)
  · have e : ∑ c ∈ Spec.cells p.dims, (m1.real (.tr_cell .state) l c k -
        h * q (sched.length * dt, cellAt m c)) ^ 2 = _ := Finset.sum_congr rfl fun c hcc => by
      rw [fin l c k hl0 hl1 (cell hcc).1 (cell hcc).2 hk0 hk1]
    rw [e]
    refine key.trans ?_
    rw [mul_assoc _ (B * K3 + B * K4 + B * B)]
    refine mul_le_mul_of_nonneg_left ?_ (by positivity)
    have : 0 ≤ B * B * dc ^ 2 + (B * K3 + B * K4) * dt ^ 4 + (B * K3 + B * K4) * defect stp := by positivity
    linarith
  intro t s0 s1 i hi c hcc
  obtain ⟨h0, h1⟩ := cell hcc
  obtain ⟨b8, hsol⟩ := sol i (by omega)
  have bs := (b8.mono (by omega : 6 ≤ 10 - i)).slice s0 s1
  have a3 := o3 ⟨Mq _ bs, c, h0, h1⟩
  have a4 := o4 ⟨Mq _ bs, c, h0, h1⟩
  have eq := hsol t (cellAt m c)
  have dq : Differentiable ℝ (dTime^[i] q) := b8.smooth.differentiable
    (by exact_mod_cast (by omega : 10 - i ≠ 0))
  rw [(hasDerivAt_time dq _ _).deriv, ← Function.iterate_succ_apply' dTime i q] at eq
  have on2 : (if (SWModel.ofParams prm).en_tdiff then (SWModel.ofParams prm).prm.eddy_diff2 else 0) =
    prm.eddy_diff2 := coef_on h2
  have on4 : (if (SWModel.ofParams prm).en_thyper then (SWModel.ofParams prm).prm.eddy_diff4 else 0) =
    prm.eddy_diff4 := coef_on h4
  set φ : ℝ × ℝ → ℝ := fun z => dTime^[i] q (t, z) with hφ
  have flux : ∀ e, 0 ≤ e → e < p.dims.nedges →
      Spec.mean m x e * Spec.grad m (fun c => h * dTime^[i] q (t, cellAt m c) / x c) e =
      Spec.mean m' (fun _ => h) e * Spec.grad m' (fun c => φ (cellAt m' c)) e := fun e e0 e1 => by
    rw [mean_congr hc hh e0 e1, hs.mean, ← hs.cellAt, ← hs.grad]
    congr 1
    refine grad_congr hc (fun c c0 c1 => ?_) e0 e1
    rw [hxd]
    beta_reduce
    rw [hh c c0 c1]
    field_simp
    rfl
  rw [trOp_rest geo hc (SWModel.ofParams prm) x u _ hu hk0 hk1 h0 h1, on2, on4, eq, div_congr hc flux h0 h1,
    div_congr hc (fun e a b => grad_congr hc (fun c a b => div_congr hc flux a b) a b) h0 h1, hs.div, hs.grad]
  have a3' : |Spec.div m' (fun e => Spec.mean m' (fun _ => h) e * Spec.grad m' (fun c => φ (cellAt m' c)) e) c -
      diffAt (fun _ => h) φ (cellAt m' c)| ≤ K3 * dc ^ 2 := a3
  have a4' : |Spec.div m' (Spec.grad m' (Spec.div m' fun e => Spec.mean m' (fun _ => h) e *
      Spec.grad m' (fun c => φ (cellAt m' c)) e)) c - laplace (diffAt (fun _ => h) φ) (cellAt m' c)| ≤ K4 * dc ^ 2 := a4
  rw [diffAt_const] at a3' a4'
  rw [laplace_cmul] at a4'
  rw [hs.cellAt]
  have e1 : ∀ a b c d : ℝ, prm.eddy_diff2 * a - prm.eddy_diff4 * b - h * (prm.eddy_diff2 * c - prm.eddy_diff4 * d) =
      prm.eddy_diff2 * (a - h * c) + -(prm.eddy_diff4 * (b - h * d)) := fun a b c d => by ring
  rw [e1]
  refine (abs_add_le _ _).trans (add_le_add ?_ ?_)
  · rw [abs_mul, abs_of_nonneg h2]
    exact mul_le_mul h2B a3' (abs_nonneg _) hB
  · rw [abs_neg, abs_mul, abs_of_nonneg h4]
    exact mul_le_mul h4B a4' (abs_nonneg _) hB

/-! ### Example -/

theorem laplace_sin (c a : ℝ) : laplace (fun z => c * Real.sin (a * z.1)) = fun z => -(a ^ 2) * (c * Real.sin (a * z.1)) := by
  funext z
  have d1 : ∀ w : ℝ × ℝ, HasFDerivAt (fun z : ℝ × ℝ => c * Real.sin (a * z.1))
      ((c * Real.cos (a * w.1) * a) • ContinuousLinearMap.fst ℝ ℝ ℝ) w := fun w => by
    have := ((hasFDerivAt_fst (𝕜 := ℝ) (p := w)).const_mul a).sin.const_mul c
    refine this.congr_fderiv ?_
    ext <;> simp; ring
  have f1 : (fun w : ℝ × ℝ => fderiv ℝ (fun z : ℝ × ℝ => c * Real.sin (a * z.1)) w (1, 0)) =
      fun w => c * a * Real.cos (a * w.1) := by
    funext w
    rw [(d1 w).fderiv]
    show c * Real.cos (a * w.1) * a * 1 = _
    ring
  have f2 : (fun w : ℝ × ℝ => fderiv ℝ (fun z : ℝ × ℝ => c * Real.sin (a * z.1)) w (0, 1)) = fun w => 0 := by
    funext w; rw [(d1 w).fderiv]; simp
  have d3 : HasFDerivAt (fun w : ℝ × ℝ => c * a * Real.cos (a * w.1))
      ((c * a * (-Real.sin (a * z.1) * a)) • ContinuousLinearMap.fst ℝ ℝ ℝ) z := by
    have := ((hasFDerivAt_fst (𝕜 := ℝ) (p := z)).const_mul a).cos.const_mul (c * a)
    refine this.congr_fderiv ?_
    ext <;> simp
  unfold laplace divAt
  rw [f1, f2, d3.fderiv]
  simp
  ring

/-- a decaying wave -/
theorem decaying_hyper (κ ν a : ℝ) : Hyperdiffused κ ν fun x =>
    Real.exp (-((κ * a ^ 2 + ν * a ^ 4) * x.1)) * Real.sin (a * x.2.1) := by
  intro t z
  dsimp only
  rw [laplace_sin, laplace_cmul, laplace_sin]
  have dt : HasDerivAt (fun s => Real.exp (-((κ * a ^ 2 + ν * a ^ 4) * s)) * Real.sin (a * z.1))
      (Real.exp (-((κ * a ^ 2 + ν * a ^ 4) * t)) * -(κ * a ^ 2 + ν * a ^ 4) * Real.sin (a * z.1)) t := by
    have := (((hasDerivAt_id t).const_mul (κ * a ^ 2 + ν * a ^ 4)).neg.exp).mul_const (Real.sin (a * z.1))
    refine this.congr_deriv ?_
    simp
  rw [dt.deriv]
  ring

/-- meshes of one domain refined up to a thousandfold, a decaying wave, steps proportional to the fourth
power of the spacing up to a fixed time -/
example (dc : ℝ) (hdc : 0 < dc) : ∃ (B P Q : ℝ) (q : ℝ × (ℝ × ℝ) → ℝ) (prm : Params ℝ),
    0 < prm.eddy_diff2 ∧ prm.eddy_diff2 ≤ B ∧ 0 < prm.eddy_diff4 ∧ prm.eddy_diff4 ≤ B ∧ prm.disable_h = true ∧
    prm.disable_vn = true ∧ FourthOrder .rk4 ∧ FourthOrder (.lsrk 5) ∧ 2 ≤ B ∧
    BoundedIn 10 P Q B (dc ^ 4) q ∧ Hyperdiffused prm.eddy_diff2 prm.eddy_diff4 q ∧
    q (0, (P / 4, 0)) ≠ q (dc ^ 4, (P / 4, 0)) ∧
    ∀ n : ℕ, 1 ≤ n → n ≤ 1000 → RunValid (pRef n) ∧ 2 ≤ (pRef n).nx ∧ (pRef n).ny % 2 = 0 ∧ 0 < dc / n ∧
      dc / n ≤ dc ∧ periodX (pRef n).nx (dc / n) = P ∧ periodY (pRef n).ny (dc / n) = Q ∧
      0 < (pRef n).dims.nlayers ∧ 0 < (pRef n).dims.ntracers ∧
      ∀ stp : Stepper, FourthOrder stp →
      6 * prm.eddy_diff2 * ((dc / n) ^ 4 / 42) / (dc / n) ^ 2 + 36 * prm.eddy_diff4 * ((dc / n) ^ 4 / 42) / (dc / n) ^ 4 ≤
        diffusionLimit stp ∧
      ∃ (sched : List (ℝ × ℝ)) (m m1 : Mem ℝ),
      (∀ a ∈ sched, a.2 = (dc / n) ^ 4 / 42) ∧ sched.length * ((dc / n) ^ 4 / 42) = dc ^ 4 ∧ Ready (pRef n) (dc / n) prm m ∧
      (∀ c k, 0 ≤ c → c < (pRef n).dims.ncells → m.real (.h_cell .state) 0 c k = 2) ∧
      (∀ e k, 0 ≤ e → e < (pRef n).dims.nedges → m.real (.vn_edge .state) 0 e k = 0) ∧
      (∀ l c k, 0 ≤ c → c < (pRef n).dims.ncells →
        m.real (.tr_cell .state) l c k = 2 * q (0, cellAt m c)) ∧
      Exec (pRef n).dims (stp.ctor (pRef n).dims ++ stp.run (pRef n).dims
        ⟨defaultKernels (pRef n).dims.vl, true⟩ (SWModel.ofParams prm) sched) m m1 := by
  obtain ⟨hP, hQ⟩ := periods_pos (dc := dc) p46_valid hdc
  set P := (periodX p46.nx dc : ℝ) with hPd
  set Q := (periodY p46.ny dc : ℝ) with hQd
  set a : ℝ := 2 * Real.pi / P with ha
  have a0 : 0 < a := by have := Real.pi_pos; positivity
  have aP : a * P = 2 * Real.pi := by rw [ha]; field_simp
  set q : ℝ × (ℝ × ℝ) → ℝ := fun x => Real.exp (-((1 / dc ^ 2 * a ^ 2 + 1 * a ^ 4) * x.1)) * Real.sin (a * x.2.1) with hq
  have sq : ContDiff ℝ (10 : ℕ) q := by fun_prop
  have pq : ∀ t, Periodic2 P Q fun z => q (t, z) := fun t =>
    ⟨fun x y => by simp only [hq]; rw [mul_add, aP, Real.sin_add_two_pi], fun x y => rfl⟩
  obtain ⟨B3, hB3⟩ := BoundedIn.exists (n := 10) hP hQ (dc ^ 4) sq pq
  have n3 : 0 ≤ B3 := (abs_nonneg _).trans (hB3.le le_rfl (by positivity) 0)
  have q4 : a * (P / 4) = Real.pi / 2 := by rw [← mul_div_assoc, aP]; ring
  have d2 : 0 < 1 / dc ^ 2 := by positivity
  refine ⟨B3 + 1 / dc ^ 2 + 2, P, Q, q, ⟨0, 0, 0, 0, 1 / dc ^ 2, 1, true, true⟩, d2, ?_, one_pos, ?_, rfl, rfl,
    Or.inl rfl, Or.inr rfl, by linarith, hB3.raise (by linarith), decaying_hyper _ _ a, ?_, fun n hn hm => ?_⟩
  · show 1 / dc ^ 2 ≤ _; linarith
  · show (1 : ℝ) ≤ _; linarith
  · simp only [hq, q4, Real.sin_pi_div_two, mul_one, mul_zero, neg_zero, Real.exp_zero]
    have : Real.exp (-((1 / dc ^ 2 * a ^ 2 + 1 * a ^ 4) * dc ^ 4)) < 1 := by
      rw [Real.exp_lt_one_iff]
      have : 0 < (1 / dc ^ 2 * a ^ 2 + 1 * a ^ 4) * dc ^ 4 := by positivity
      linarith
    exact this.ne'
  have hn1 : (1 : ℝ) ≤ n := by exact_mod_cast hn
  have hn0 : (0 : ℝ) < n := by linarith
  have hl : (pRef n).dims.nlayers = p46.dims.nlayers := rfl
  have hv := pRef_run hn hm
  refine ⟨hv, by simp [pRef]; omega, by simp [pRef]; omega, by positivity,
    div_le_self hdc.le hn1, ?_, ?_, by rw [hl, p46_layers]; norm_num, by simp [pRef, MeshParams.dims],
    fun stp hstp => ⟨?_, ?_⟩⟩
  · rw [hPd]; simp only [periodX, pRef, p46, lit_real]; push_cast; field_simp
  · rw [hQd]; simp only [periodY, pRef, p46, lit_real]; push_cast; field_simp
  · show 6 * (1 / dc ^ 2) * ((dc / n) ^ 4 / 42) / (dc / n) ^ 2 + 36 * 1 * ((dc / n) ^ 4 / 42) / (dc / n) ^ 4 ≤ _
    have e : 6 * (1 / dc ^ 2) * ((dc / n) ^ 4 / 42) / (dc / n) ^ 2 + 36 * 1 * ((dc / n) ^ 4 / 42) / (dc / n) ^ 4 =
        1 / 7 * (1 / n ^ 2) + 6 / 7 := by field_simp; ring
    have : 1 / (n : ℝ) ^ 2 ≤ 1 := by
      rw [div_le_one (by positivity)]; nlinarith
    rw [e]
    rcases hstp with rfl | rfl <;> norm_num [diffusionLimit] at * <;> linarith
  obtain ⟨m, -, hr, s1, s2, s3, -⟩ := exists_sampled hv (dc / n) (⟨0, 0, 0, 0, 1 / dc ^ 2, 1, true, true⟩) true 0
    (fun _ => 2) (fun _ => 0) (fun _ => 0) (fun z => 2 * q (0, z))
  obtain ⟨hd, hc⟩ := ready_ok hv hr
  obtain ⟨m1, he, -⟩ := ((C40_safe_deterministic hd hc (noHook_ofParams (⟨0, 0, 0, 0, 1 / dc ^ 2, 1, true, true⟩)) true).2.2 stp
    (List.replicate (42 * n ^ 4) (0, (dc / n) ^ 4 / 42))).2
  refine ⟨List.replicate (42 * n ^ 4) (0, (dc / n) ^ 4 / 42), m, m1,
    fun a ha => by rw [List.eq_of_mem_replicate ha], by rw [List.length_replicate]; push_cast; field_simp,
    hr, s1, fun e k a b => ?_, s3, he⟩
  rw [s2 e k a b]
  simp [normalOf, normal]

end Props
end
end Omega
