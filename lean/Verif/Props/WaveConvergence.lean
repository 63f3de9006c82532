import Verif.Props.RestStability
import Verif.Props.AdvectionConvergence

/-!
# C82: linear waves converge

The response of the model to a small perturbation of a layer at rest converges to the solution of the
linear shallow-water equations on the plane, with second order in the spacing and fourth order in the time
step, and an explicit constant.
-/

set_option linter.unusedVariables false
set_option linter.unusedSectionVars false

namespace Omega
noncomputable section
namespace Props

open Prog Model Refine Hex Taylor Jets Polynomial

/-! ### The linear equations on the plane -/

/-- The linear shallow-water equations about rest with thickness `H`: `∂t a = -H ∇·u`,
`∂t u = f v - g ∂x a`, `∂t v = -f u - g ∂y a`. -/
structure LinearWave (g f H : ℝ) (a U W : ℝ × (ℝ × ℝ) → ℝ) : Prop where
  mass : ∀ t z, deriv (fun s => a (s, z)) t = -(H * divAt (fun z => U (t, z)) (fun z => W (t, z)) z)
  east : ∀ t z, deriv (fun s => U (s, z)) t = f * W (t, z) - g * fderiv ℝ (fun z => a (t, z)) z (1, 0)
  north : ∀ t z, deriv (fun s => W (s, z)) t = -(f * U (t, z)) - g * fderiv ℝ (fun z => a (t, z)) z (0, 1)

section
variable {q : ℝ × (ℝ × ℝ) → ℝ}

theorem dTime_diff (hq : ContDiff ℝ 2 q) (v : ℝ × (ℝ × ℝ)) : Differentiable ℝ fun x => fderiv ℝ q x v :=
  ((hq.fderiv_right (m := 1) (by norm_num)).clm_apply contDiff_const).differentiable (by norm_num)

/-- time and space derivatives commute -/
theorem dTime_swap (hq : ContDiff ℝ 2 q) (t : ℝ) (z v : ℝ × ℝ) :
    HasDerivAt (fun s => fderiv ℝ (fun z => q (s, z)) z v) (fderiv ℝ (fun z => dTime q (t, z)) z v) t := by
  have d1 : Differentiable ℝ q := hq.differentiable (by norm_num)
  have hf : ContDiff ℝ 1 (fderiv ℝ q) := hq.fderiv_right (m := 1) (by norm_num)
  have ff : ∀ x v w, fderiv ℝ (fun y => fderiv ℝ q y v) x w = fderiv ℝ (fderiv ℝ q) x w v := fun x v w => by
    rw [fderiv_clm_apply (hf.differentiable (by norm_num) x) (differentiableAt_const v)]
    simp
  have e : (fun s => fderiv ℝ (fun z => q (s, z)) z v) = fun s => fderiv ℝ q (s, z) (0, v) :=
    funext fun s => fderiv_slice d1 s z v
  rw [e, fderiv_slice (q := dTime q) (dTime_diff hq (1, 0))]
  refine (hasDerivAt_time (dTime_diff hq (0, v)) t z).congr_deriv ?_
  unfold dTime
  rw [ff, ff]
  exact (hq.contDiffAt.isSymmSndFDerivAt (by simp)).eq _ _

end

/-- The time derivative of a solution is a solution. -/
theorem LinearWave.dTime {g f H : ℝ} {a U W : ℝ × (ℝ × ℝ) → ℝ} (h : LinearWave g f H a U W)
    (ha : ContDiff ℝ 2 a) (hU : ContDiff ℝ 2 U) (hW : ContDiff ℝ 2 W) :
    LinearWave g f H (dTime a) (dTime U) (dTime W) := by
  have d1 : ∀ {q : ℝ × (ℝ × ℝ) → ℝ}, ContDiff ℝ 2 q → Differentiable ℝ q := fun h => h.differentiable (by norm_num)
  have e : ∀ {q : ℝ × (ℝ × ℝ) → ℝ} (hq : ContDiff ℝ 2 q) (z : ℝ × ℝ), (fun s => Props.dTime q (s, z)) =
      fun s => deriv (fun s => q (s, z)) s := fun hq z =>
    funext fun s => ((hasDerivAt_time (d1 hq) s z).deriv).symm
  refine ⟨fun t z => ?_, fun t z => ?_, fun t z => ?_⟩
  · rw [e ha z, funext fun s => h.mass s z]
    exact (((dTime_swap hU t z (1, 0)).add (dTime_swap hW t z (0, 1))).const_mul H).neg.deriv
  · rw [e hU z, funext fun s => h.east s z]
    exact (((hasDerivAt_time (d1 hW) t z).const_mul f).sub ((dTime_swap ha t z (1, 0)).const_mul g)).deriv
  · rw [e hW z, funext fun s => h.north s z]
    exact (((hasDerivAt_time (d1 hU) t z).const_mul f).neg.sub ((dTime_swap ha t z (0, 1)).const_mul g)).deriv

/-- the `i`-th time derivative is a bounded solution -/
theorem iter_wave {P Q B Te g f H : ℝ} {a U W : ℝ × (ℝ × ℝ) → ℝ} (ha : BoundedIn 8 P Q B Te a)
    (hU : BoundedIn 8 P Q B Te U) (hW : BoundedIn 8 P Q B Te W) (h : LinearWave g f H a U W)
    (i : ℕ) (hi : i ≤ 5) :
    BoundedIn (8 - i) P Q B Te (dTime^[i] a) ∧ BoundedIn (8 - i) P Q B Te (dTime^[i] U) ∧
      BoundedIn (8 - i) P Q B Te (dTime^[i] W) ∧
      LinearWave g f H (dTime^[i] a) (dTime^[i] U) (dTime^[i] W) := by
  induction i with
  | zero => exact ⟨ha, hU, hW, h⟩
  | succ i ih =>
    obtain ⟨h1, h2, h3, h4⟩ := ih (by omega)
    rw [Function.iterate_succ_apply', Function.iterate_succ_apply', Function.iterate_succ_apply',
      show 8 - (i + 1) = 7 - i by omega]
    rw [show 8 - i = (7 - i) + 1 by omega] at h1 h2 h3
    have k : ∀ {q : ℝ × (ℝ × ℝ) → ℝ}, BoundedIn (7 - i + 1) P Q B Te q → ContDiff ℝ 2 q := fun h =>
      h.smooth.of_le (by exact_mod_cast (by omega : 2 ≤ 7 - i + 1))
    exact ⟨h1.dTime, h2.dTime, h3.dTime, h4.dTime (k h1) (k h2) (k h3)⟩

theorem Bounded.field {n : ℕ} {P Q B : ℝ} {φ : ℝ × ℝ → ℝ} (h : Bounded n P Q B φ) {k : ℕ} (hk : k ≤ n) :
    Field k P Q B φ :=
  ⟨h.smooth.of_le (by exact_mod_cast hk), h.per, h.bound k hk⟩

theorem SameMesh.tang {m m' : Mem ℝ} (h : SameMesh m m') : Spec.tang m = Spec.tang m' := by
  funext u e; unfold Spec.tang
  rw [h.int, h.real _ rfl]

variable {p : MeshParams} {dc : ℝ} {m : Mem ℝ}

theorem normalOf_le (m : Mem ℝ) {U W : ℝ × ℝ → ℝ} {M : ℝ} (hU : ∀ z, |U z| ≤ M) (hW : ∀ z, |W z| ≤ M)
    (e : Int) : |normalOf m U W e| ≤ 2 * M := by
  have a := mul_le_mul (Real.abs_cos_le_one (m.real .angle_edge 0 e 0)) (hU (edgeAt m e)) (abs_nonneg _) zero_le_one
  have b := mul_le_mul (Real.abs_sin_le_one (m.real .angle_edge 0 e 0)) (hW (edgeAt m e)) (abs_nonneg _) zero_le_one
  rw [← abs_mul] at a b
  unfold normalOf normal
  refine (abs_add_le _ _).trans ?_
  linarith

/-- area of the mesh -/
def meshArea (p : MeshParams) (dc : ℝ) : ℝ := p.dims.ncells * (√3 / 2 * dc ^ 2)

theorem restEnergy_eq (h : Geo2 p.nx p.ny p.dims.nlayers dc m.mesh) (g H : ℝ) (a b : Int → ℝ) :
    restEnergy p.dims m g H a b = √3 / 2 * dc ^ 2 * (g * ∑ c ∈ Spec.cells p.dims, a c ^ 2 +
      2 * H / 3 * ∑ e ∈ Spec.edges p.dims, b e ^ 2) := by
  unfold restEnergy
  have e1 : ∑ c ∈ Spec.cells p.dims, Spec.areaC m c * a c ^ 2 =
      dc * dc * √3 / 2 * ∑ c ∈ Spec.cells p.dims, a c ^ 2 := by
    rw [Finset.mul_sum]
    exact Finset.sum_congr rfl fun c hc => by rw [spec_areaC h.toGeo (mem_cells.mp hc)]
  have e2 : ∑ e ∈ Spec.edges p.dims, Spec.dcE m e * Spec.dvE m e * b e ^ 2 =
      dc * (dc * √3 / 3) * ∑ e ∈ Spec.edges p.dims, b e ^ 2 := by
    rw [Finset.mul_sum]
    refine Finset.sum_congr rfl fun e he => ?_
    obtain ⟨h0, h1⟩ := Finset.mem_Ico.1 he
    rw [spec_dcE h.toGeo h0 h1, spec_dvE h.toGeo h0 h1]
  rw [e1, e2]
  ring

theorem ncells_nonneg (hv : MeshParams.Valid p) : (0 : Int) ≤ p.dims.ncells :=
  mul_nonneg (by have := hv.nx_pos; omega) (by have := hv.ny_pos; omega)

theorem card_cells (hv : MeshParams.Valid p) : ((Spec.cells p.dims).card : ℝ) = p.dims.ncells := by
  have : (0 : Int) ≤ p.dims.ncells := ncells_nonneg hv
  unfold Spec.cells
  rw [Int.card_Ico, sub_zero]
  exact_mod_cast Int.toNat_of_nonneg this

theorem card_edges (hv : MeshParams.Valid p) : ((Spec.edges p.dims).card : ℝ) = p.dims.nedges := by
  have : (0 : Int) ≤ p.dims.ncells := ncells_nonneg hv
  have : (0 : Int) ≤ p.dims.nedges := by show 0 ≤ 3 * (p.nx * p.ny); exact mul_nonneg (by norm_num) this
  unfold Spec.edges
  rw [Int.card_Ico, sub_zero]
  exact_mod_cast Int.toNat_of_nonneg this

/-- pointwise bounds bound the energy -/
theorem rest_le (hv : MeshParams.Valid p) (h : Geo2 p.nx p.ny p.dims.nlayers dc m.mesh) {g H γ : ℝ} (g0 : 0 ≤ g)
    (H0 : 0 < H) (γ0 : 0 ≤ γ) {x : (Int → ℝ) × (Int → ℝ)}
    (hc : ∀ c, 0 ≤ c → c < p.dims.ncells → |x.1 c| ≤ γ)
    (he : ∀ e, 0 ≤ e → e < p.dims.nedges → |x.2 e| ≤ γ) :
    ‖restMap p.dims m g H x‖ ≤ √(g + 2 * H) * γ * √(meshArea p dc) := by
  have n0 : (0 : ℝ) ≤ p.dims.ncells := by exact_mod_cast ncells_nonneg hv
  have A0 : 0 ≤ meshArea p dc := by unfold meshArea; positivity
  have sc : ∀ {S : Finset Int} {y : Int → ℝ}, (∀ i ∈ S, |y i| ≤ γ) → ∑ i ∈ S, y i ^ 2 ≤ S.card * γ ^ 2 := by
    intro S y hy
    rw [← nsmul_eq_mul]
    refine Finset.sum_le_card_nsmul _ _ _ fun i hi => ?_
    rw [← sq_abs]
    exact pow_le_pow_left₀ (abs_nonneg _) (hy i hi) 2
  have s1 := sc (S := Spec.cells p.dims) (y := x.1) fun c hcc =>
    hc c (Finset.mem_Ico.1 hcc).1 (Finset.mem_Ico.1 hcc).2
  have s2 := sc (S := Spec.edges p.dims) (y := x.2) fun c hcc =>
    he c (Finset.mem_Ico.1 hcc).1 (Finset.mem_Ico.1 hcc).2
  rw [card_cells hv] at s1
  rw [card_edges hv, show ((p.dims.nedges : Int) : ℝ) = 3 * p.dims.ncells by
    show ((3 * (p.nx * p.ny) : Int) : ℝ) = 3 * ((p.nx * p.ny : Int) : ℝ); push_cast; ring] at s2
  refine (sq_le_sq₀ (norm_nonneg _) (by positivity)).1 ?_
  rw [norm_rest h g0 H0, restEnergy_eq h, mul_pow, mul_pow, Real.sq_sqrt (by positivity), Real.sq_sqrt A0]
  have := mul_le_mul_of_nonneg_left s1 g0
  have := mul_le_mul_of_nonneg_left s2 (by positivity : 0 ≤ 2 * H / 3)
  unfold meshArea
  have w := w_pos
  calc _ ≤ √3 / 2 * dc ^ 2 * (g * (p.dims.ncells * γ ^ 2) + 2 * H / 3 * (3 * p.dims.ncells * γ ^ 2)) := by
        gcongr
    _ = _ := by ring

/-- growth of the local errors of the linear equations up to the time `Te` -/
def waveGain (Te : ℝ) : ℝ := 10240 * (1 + Te) ^ 6 * Real.exp 5

/-- The error of the numerical solution of the linear equations. -/
theorem wave_core {B Te : ℝ} {stp : Stepper} (hstp : FourthOrder stp) (hv : RunValid p) (hnx : 2 ≤ p.nx)
    (hny : p.ny % 2 = 0) (hdc : 0 < dc) {m' : Mem ℝ} (hb : Built p dc m') (hs : SameMesh m m')
    (h : Geo2 p.nx p.ny p.dims.nlayers dc m.mesh) {g f H : ℝ} (g0 : 0 ≤ g) (H0 : 0 < H)
    {a U W : ℝ × (ℝ × ℝ) → ℝ} (ba : BoundedIn 8 (periodX p.nx dc) (periodY p.ny dc) B Te a)
    (bU : BoundedIn 8 (periodX p.nx dc) (periodY p.ny dc) B Te U)
    (bW : BoundedIn 8 (periodX p.nx dc) (periodY p.ny dc) B Te W) (hw : LinearWave g f H a U W)
    {x : (Int → ℝ) × (Int → ℝ)} (hx1 : ∀ c, 0 ≤ c → c < p.dims.ncells → x.1 c = a (0, cellAt m c))
    (hx2 : ∀ e, 0 ≤ e → e < p.dims.nedges → x.2 e = normalOf m (fun z => U (0, z)) (fun z => W (0, z)) e)
    {sched : List (ℝ × ℝ)} {dt : ℝ} (hsched : ∀ q ∈ sched, q.2 = dt) (t0 : 0 ≤ dt) (hN : sched.length ≤ 10 ^ 18)
    (hTe : sched.length * dt ≤ Te)
    (hcfl : dt * (√(2 / 3 * gradConst p.ny * (g * H)) / dc + 2 / √3 * |f|) ≤ 5 / 2) :
    ‖restMap p.dims m g H (sched.foldl (fun w a => aeval (a.2 • restOp m g f H) (stabPoly stp) w) x -
        (fun c => a (sched.length * dt, cellAt m c),
          normalOf m (fun z => U (sched.length * dt, z)) (fun z => W (sched.length * dt, z))))‖ ≤
      waveGain Te * (√(g + 2 * H) * (g + |f| + H + 2) * B * (dc ^ 2 + dt ^ 4 + defect stp)) *
        √(meshArea p dc) := by
  obtain ⟨c1, c2, c3, c4, c5, hco, hstab⟩ := fourth_order hstp
  have hvv := hv.toValid
  have κ0 := defect_nonneg stp
  have Te0 : 0 ≤ Te := le_trans (by positivity) hTe
  have hny2 : 2 ≤ p.ny := by have := hv.ny_pos; omega
  set N := sched.length with hNdef
  have sol := iter_wave ba bU bW hw
  have tn : ∀ n, n ≤ N → 0 ≤ (n : ℝ) * dt ∧ (n : ℝ) * dt ≤ Te := fun n hn =>
    ⟨by positivity, le_trans (mul_le_mul_of_nonneg_right (by exact_mod_cast hn) t0) hTe⟩
  have B0 : 0 ≤ B := (norm_nonneg _).trans (ba.bound 0 (by omega) 0 le_rfl Te0 0)
  set S := √(meshArea p dc) with hS
  have S0 : 0 ≤ S := Real.sqrt_nonneg _
  set R := √(g + 2 * H) with hR
  have R0 : 0 ≤ R := Real.sqrt_nonneg _
  set s : ℕ → ℕ → (Int → ℝ) × (Int → ℝ) := fun n i => (fun c => dTime^[i] a (n * dt, cellAt m c),
    normalOf m (fun z => dTime^[i] U (n * dt, z)) (fun z => dTime^[i] W (n * dt, z))) with hsd
  have dd : ∀ {i} {q : ℝ × (ℝ × ℝ) → ℝ}, i ≤ 5 →
      BoundedIn (8 - i) (periodX p.nx dc) (periodY p.ny dc) B Te q → Differentiable ℝ q := fun hi hq =>
    hq.smooth.differentiable (by exact_mod_cast (by omega : 8 - _ ≠ 0))
  have r3 : √3 / 2 ≤ (1 : ℝ) := by have := sqrt3_le; linarith
  have hA : ∀ n, n < N → ∀ i, i ≤ 4 → ‖restMap p.dims m g H (restOp m g f H (s n i) - s n (i + 1))‖ ≤
      R * ((g + |f| + H) * B * dc ^ 2) * S := by
    intro n hn i hi
    obtain ⟨b1, b2, b3, hl⟩ := sol i (by omega)
    have sl : ∀ {q : ℝ × (ℝ × ℝ) → ℝ}, BoundedIn (8 - i) (periodX p.nx dc) (periodY p.ny dc) B Te q →
        Bounded 3 (periodX p.nx dc) (periodY p.ny dc) B fun z => q (n * dt, z) := fun hq =>
      (hq.mono (by omega : 3 ≤ 8 - i)).slice (tn n hn.le).1 (tn n hn.le).2
    have d2 : 0 ≤ B * dc ^ 2 := by positivity
    have f0 := abs_nonneg f
    refine rest_le hvv h g0 H0 (by positivity) (fun c h0 h1 => ?_) fun e h0 h1 => ?_
    · have k := C55_divergence_second_order hvv hnx hny2 hny hdc hb ((sl b2).field le_rfl) ((sl b3).field le_rfl)
        c h0 h1
      have eq := hl.mass (n * dt) (cellAt m c)
      rw [(hasDerivAt_time (dd (by omega) b1) _ _).deriv, ← Function.iterate_succ_apply' dTime i a] at eq
      show |-(H * Spec.div m (s n i).2 c) - dTime^[i + 1] a (n * dt, cellAt m c)| ≤ _
      rw [eq, hs.div, show (s n i).2 = normalOf m (fun z => dTime^[i] U (n * dt, z)) fun z => dTime^[i] W (n * dt, z)
        from rfl, hs.normalOf, hs.cellAt, neg_sub_neg, ← mul_sub, abs_mul, abs_sub_comm, abs_of_pos H0]
      refine (mul_le_mul_of_nonneg_left k H0.le).trans ?_
      have : 0 ≤ (g + |f| + H * (8 / 9)) * (B * dc ^ 2) := by positivity
      linarith
    · have k1 := C57_reconstruction_second_order hvv hny hdc hb ((sl b2).field (k := 2) (by omega))
        ((sl b3).field (by omega)) e h0 h1
      have k2 := C50_gradient_second_order hvv hny hdc hb ((sl b1).field le_rfl) e h0 h1
      have e1 := hl.east (n * dt) (edgeAt m e)
      have e2 := hl.north (n * dt) (edgeAt m e)
      rw [(hasDerivAt_time (dd (by omega) b2) _ _).deriv, ← Function.iterate_succ_apply' dTime i U] at e1
      rw [(hasDerivAt_time (dd (by omega) b3) _ _).deriv, ← Function.iterate_succ_apply' dTime i W] at e2
      show |(f * Spec.tang m (normalOf m (fun z => dTime^[i] U (n * dt, z)) fun z => dTime^[i] W (n * dt, z)) e -
        g * Spec.grad m (fun c => dTime^[i] a (n * dt, cellAt m c)) e) -
        ((normal m e).1 * dTime^[i + 1] U (n * dt, edgeAt m e) +
          (normal m e).2 * dTime^[i + 1] W (n * dt, edgeAt m e))| ≤ _
      rw [e1, e2, hs.tang, hs.grad, hs.normalOf, hs.cellAt, hs.edgeAt, hs.normal]
      rw [lin_pt _ (normal m' e).1 (normal m' e).2] at k2
      obtain ⟨δ1, j1, i1⟩ := exists_err k1
      obtain ⟨δ2, j2, i2⟩ := exists_err k2
      rw [i1, i2]
      unfold tangentOf
      have r : f * δ1 - g * δ2 = _ := rfl
      refine le_trans (le_of_eq (congrArg abs (?_ : _ = f * δ1 - g * δ2))) ?_
      · ring
      refine (abs_sub _ _).trans ?_
      rw [abs_mul, abs_mul, abs_of_nonneg g0]
      have l1 := mul_le_mul_of_nonneg_left j1 f0
      have l2 := mul_le_mul_of_nonneg_left j2 g0
      have l3 := mul_le_mul_of_nonneg_left r3 (mul_nonneg f0 d2)
      have : 0 ≤ (g * (23 / 24) + H) * (B * dc ^ 2) := by positivity
      linarith
  have hM : ∀ n, n ≤ N → ∀ i, i ≤ 5 → ‖restMap p.dims m g H (s n i)‖ ≤ R * (2 * B) * S := by
    intro n hn i hi
    obtain ⟨b1, b2, b3, hl⟩ := sol i hi
    refine rest_le hvv h g0 H0 (by positivity) (fun c h0 h1 => ?_) fun e h0 h1 => ?_
    · refine (b1.le (tn n hn).1 (tn n hn).2 _).trans ?_
      linarith
    · exact normalOf_le m (fun z => b2.le (tn n hn).1 (tn n hn).2 z) (fun z => b3.le (tn n hn).1 (tn n hn).2 z) e
  have hT : ∀ n, n < N → ‖restMap p.dims m g H (s (n + 1) 0 - (s n 0 + dt • s n 1 + (dt ^ 2 / 2) • s n 2 +
      (dt ^ 3 / 6) • s n 3 + (dt ^ 4 / 24) • s n 4))‖ ≤ R * (2 * B) * S * dt ^ 5 := by
    intro n hn
    rw [show R * (2 * B) * S * dt ^ 5 = R * (2 * (B * dt ^ 5)) * S by ring]
    have tay : ∀ {q : ℝ × (ℝ × ℝ) → ℝ}, (∀ i, i ≤ 5 →
        BoundedIn (8 - i) (periodX p.nx dc) (periodY p.ny dc) B Te (dTime^[i] q)) → ∀ z,
        |q ((n + 1 : ℕ) * dt, z) - (q (n * dt, z) + dt * dTime^[1] q (n * dt, z) +
          dt ^ 2 / 2 * dTime^[2] q (n * dt, z) + dt ^ 3 / 6 * dTime^[3] q (n * dt, z) +
          dt ^ 4 / 24 * dTime^[4] q (n * dt, z))| ≤ B * dt ^ 5 := by
      intro q hq z
      have tay := taylor_five (g := fun i t => dTime^[i] q (t, z)) (a := n * dt) (b := (n + 1 : ℕ) * dt)
        (M := B) (fun i hi t => by
          rw [Function.iterate_succ_apply']
          exact hasDerivAt_time (dd (by omega) (hq i (by omega))) t _)
        (fun t h1 h2 => (hq 5 le_rfl).le ((tn n hn.le).1.trans h1) (h2.trans (tn (n + 1) hn).2) _)
        (by push_cast; nlinarith)
      have e1 : ((n + 1 : ℕ) : ℝ) * dt - n * dt = dt := by push_cast; ring
      rw [e1] at tay
      exact tay
    refine rest_le hvv h g0 H0 (by positivity) (fun c h0 h1 => ?_) fun e h0 h1 => ?_
    · refine (tay (fun i hi => (sol i hi).1) (cellAt m c)).trans ?_
      have : 0 ≤ B * dt ^ 5 := by positivity
      linarith
    · refine le_trans (le_of_eq (congrArg abs ?_)) (normalOf_le m (tay fun i hi => (sol i hi).2.1)
        (tay fun i hi => (sol i hi).2.2.1) e)
      simp only [hsd, normalOf, Prod.snd_sub, Prod.snd_add, Prod.smul_snd, Pi.sub_apply, Pi.add_apply,
        Pi.smul_apply, smul_eq_mul, Function.iterate_zero, id]
      ring
  have h0 : restMap p.dims m g H (x - s 0 0) = 0 := by
    rw [← norm_eq_zero]
    refine le_antisymm ((rest_le hvv h g0 H0 (γ := 0) le_rfl (fun c h0 h1 => ?_) fun e h0 h1 => ?_).trans_eq
      (by ring)) (norm_nonneg _)
    · show |x.1 c - a ((0 : ℕ) * dt, cellAt m c)| ≤ 0
      rw [hx1 c h0 h1]; simp
    · show |x.2 e - normalOf m (fun z => U ((0 : ℕ) * dt, z)) (fun z => W ((0 : ℕ) * dt, z)) e| ≤ 0
      rw [hx2 e h0 h1]; simp
  rw [foldl_iterate (hstab _) sched hsched]
  change ‖restMap p.dims m g H ((Lax.stab c1 c2 c3 c4 c5 (dt • restOp m g f H))^[N] x - s N 0)‖ ≤ _
  have Z0 : 0 ≤ R * (g + |f| + H + 2) * B * (dc ^ 2 + dt ^ 4 + defect stp) := by positivity
  rcases Nat.eq_zero_or_pos N with hN0 | N1
  · rw [hN0, Function.iterate_zero, id, h0, norm_zero]
    unfold waveGain
    positivity
  have N1' : (1 : ℝ) ≤ N := by exact_mod_cast N1
  have dT : dt ≤ Te := le_trans (by nlinarith) hTe
  have ns := rest_nearlySkew h g0 H0 (f := f) t0 hcfl
  set r := R * ((g + |f| + H) * B * dc ^ 2) * S + R * (2 * B) * S * dt ^ 4 + R * (2 * B) * S * defect stp with hr
  have r0 : 0 ≤ r := by positivity
  have k := Lax.convergence ns le_rfl hco (y := fun n => s n 0) (N := N) hN
    (ρ := dt * (10240 * (1 + Te) ^ 5 * r))
    (fun n hn => Lax.truncation t0 (by linarith) (by linarith) ns.bound hco (s := s n) (hA n hn)
      (hM n hn.le) (hT n hn)) (by positivity) h0
  rw [mul_zero, mul_zero, add_zero] at k
  refine k.trans ?_
  have rb : r ≤ R * (g + |f| + H + 2) * B * (dc ^ 2 + dt ^ 4 + defect stp) * S := by
    have : 0 ≤ R * B * S * (2 * dc ^ 2 + (g + |f| + H) * (dt ^ 4 + defect stp)) := by positivity
    rw [hr]
    linarith
  calc N * (dt * (10240 * (1 + Te) ^ 5 * r)) * Real.exp 5
      = (N * dt) * (10240 * (1 + Te) ^ 5 * Real.exp 5 * r) := by ring
    _ ≤ (1 + Te) * (10240 * (1 + Te) ^ 5 * Real.exp 5 *
        (R * (g + |f| + H + 2) * B * (dc ^ 2 + dt ^ 4 + defect stp) * S)) := by
      refine mul_le_mul (by linarith) (mul_le_mul_of_nonneg_left rb (by positivity)) (by positivity) (by positivity)
    _ = _ := by unfold waveGain; ring

/-- Linear waves converge.  Let `(a, U, W)` be a solution of the linear shallow-water equations on the plane
whose derivatives up to order eight are bounded by `B` until the time `Te`.  Take a family of initial
states that at rest has the derivative sampled from this solution at the initial time, and run either fourth-order
stepper with steps of size `dt` up to a time of at most `Te`, within the stability limit of C78.  Then
the results have a derivative, and its difference from the solution at the final time, in the root mean
square weighted like the energy, is at most an explicit constant times `B` times the sum of the squared
spacing, the fourth power of the time step and, for the low-storage stepper, `1e-20`.  The constant
depends on gravity, rotation, thickness and `Te` only. -/
theorem C82_waves_converge {stp : Stepper} (hstp : FourthOrder stp) (hv : RunValid p) (hnx : 2 ≤ p.nx)
    (hny : p.ny % 2 = 0) (hdc : 0 < dc) {prm : Params ℝ} (n1 : prm.disable_h = false)
    (n2 : prm.disable_vn = false) (n3 : prm.visc_del2 ≤ 0) (n4 : prm.visc_del4 ≤ 0) (g0 : 0 ≤ prm.grav)
    {H : ℝ} (H0 : 0 < H) {B Te : ℝ} {a U W : ℝ × (ℝ × ℝ) → ℝ}
    (ba : BoundedIn 8 (periodX p.nx dc) (periodY p.ny dc) B Te a)
    (bU : BoundedIn 8 (periodX p.nx dc) (periodY p.ny dc) B Te U)
    (bW : BoundedIn 8 (periodX p.nx dc) (periodY p.ny dc) B Te W)
    (hw : LinearWave prm.grav prm.f0 H a U W) {k : Int} (k0 : 0 ≤ k) (k1 : k < p.dims.nlayers)
    {m m1 : ℝ → Mem ℝ} (hr : ∀ ε, Ready p dc prm (m ε))
    (ha0 : ∀ c, 0 ≤ c → c < p.dims.ncells → (m 0).real (.h_cell .state) 0 c k = H)
    (hb0 : ∀ e, 0 ≤ e → e < p.dims.nedges → (m 0).real (.vn_edge .state) 0 e k = 0)
    (ha : ∀ c, 0 ≤ c → c < p.dims.ncells →
      HasDerivAt (fun ε => (m ε).real (.h_cell .state) 0 c k) (a (0, cellAt (m 0) c)) 0)
    (hb : ∀ e, 0 ≤ e → e < p.dims.nedges →
      HasDerivAt (fun ε => (m ε).real (.vn_edge .state) 0 e k)
        (normalOf (m 0) (fun z => U (0, z)) (fun z => W (0, z)) e) 0)
    {sched : List (ℝ × ℝ)} {dt : ℝ} (hs : ∀ q ∈ sched, q.2 = dt) (t0 : 0 ≤ dt)
    (hN : sched.length ≤ 10 ^ 18) (hTe : sched.length * dt ≤ Te)
    (hcfl : dt * (√(6 * (prm.grav * H)) / dc + 2 / √3 * |prm.f0|) ≤ 5 / 2)
    {split : Bool} (he : ∀ ε, Exec p.dims (stp.ctor p.dims ++ stp.run p.dims
      ⟨defaultKernels p.dims.vl, split⟩ (SWModel.ofParams prm) sched) (m ε) (m1 ε)) :
    ∃ a' b' : Int → ℝ,
      (∀ c, 0 ≤ c → c < p.dims.ncells →
        HasDerivAt (fun ε => (m1 ε).real (.h_cell .state) 0 c k) (a' c) 0) ∧
      (∀ e, 0 ≤ e → e < p.dims.nedges →
        HasDerivAt (fun ε => (m1 ε).real (.vn_edge .state) 0 e k) (b' e) 0) ∧
      √(prm.grav * ((∑ c ∈ Spec.cells p.dims, (a' c - a (sched.length * dt, cellAt (m 0) c)) ^ 2) / p.dims.ncells) +
        2 * H * ((∑ e ∈ Spec.edges p.dims, (b' e - normalOf (m 0) (fun z => U (sched.length * dt, z))
          (fun z => W (sched.length * dt, z)) e) ^ 2) / p.dims.nedges)) ≤
        10240 * (1 + Te) ^ 6 * Real.exp 5 * (√(prm.grav + 2 * H) * (prm.grav + |prm.f0| + H + 2) * B *
          (dc ^ 2 + dt ^ 4 + defect stp)) := by
  have hny2 : 2 ≤ p.ny := by have := hv.ny_pos; omega
  have hg := fun ε => Ready.geo2 (hr ε) hv.toValid hnx hny2 hdc
  have hf := fun ε => (Ready.hex hv.toValid (hr ε)).2.1
  set sw := SWModel.ofParams prm with hsw
  have s5 : sw.en_vdiff = false := by
    show decide ((lit 0 : ℝ) < prm.visc_del2) = false
    simp [n3]
  have s6 : sw.en_vhyper = false := by
    show decide ((lit 0 : ℝ) < prm.visc_del4) = false
    simp [n4]
  have v := fun ε => by
    obtain ⟨hd, hc⟩ := ready_ok hv (hr ε)
    exact ((genSetup hd hc (hookOK_noHook (noHook_ofParams prm) p.dims (m ε))).newRun (he ε)).2.2
  set x : (Int → ℝ) × (Int → ℝ) := (fun c => a (0, cellAt (m 0) c),
    normalOf (m 0) (fun z => U (0, z)) (fun z => W (0, z))) with hx
  have init : Tangent p.dims k (fun ε => (m ε).fld .state) H x := ⟨ha0, hb0, ha, hb⟩
  have key := tangent_run hg hf (sw := sw) rfl rfl rfl rfl s5 s6 n1 n2 H0 stp sched
    (x := fun ε => (zeroFld, (m ε).fld .state)) init
  set w := sched.foldl (fun w a => aeval (a.2 • restOp (m 0) sw.prm.grav prm.f0 H) (stabPoly stp) w) x
    with hw'
  refine ⟨w.1, w.2, fun c c0 c1 => ?_, fun e e0 e1 => ?_, ?_⟩
  · exact (key.h1 c c0 c1).congr_of_eventuallyEq (Filter.Eventually.of_forall fun ε => (v ε).h c k c0 c1 k0 k1)
  · exact (key.v1 e e0 e1).congr_of_eventuallyEq (Filter.Eventually.of_forall fun ε => (v ε).vn e k e0 e1 k0 k1)
  have e6 : (2 / 3 * gradConst p.ny : ℝ) = 6 := by
    unfold gradConst; rw [if_pos hny]; norm_num
  rw [← e6] at hcfl
  obtain ⟨m', hbt, hsm⟩ := ready_mesh (hr 0)
  have main := wave_core (m := m 0) (x := x) hstp hv hnx hny hdc hbt hsm (hg 0) (g := prm.grav) g0 H0 ba bU bW hw
    (fun _ _ _ => rfl) (fun _ _ _ => rfl) hs t0 hN hTe hcfl
  change ‖restMap p.dims (m 0) prm.grav H (w - _)‖ ≤ _ at main
  have sq := pow_le_pow_left₀ (norm_nonneg _) main 2
  rw [norm_rest (hg 0) g0 H0, restEnergy_eq (hg 0)] at sq
  have n0 : (0 : ℝ) < p.dims.ncells := by
    exact_mod_cast mul_pos (by omega : 0 < p.nx) (by omega : 0 < p.ny)
  have A0 : 0 ≤ meshArea p dc := by unfold meshArea; positivity
  rw [mul_pow, Real.sq_sqrt A0] at sq
  have Te0 : 0 ≤ Te := le_trans (by positivity) hTe
  have B0 : 0 ≤ B := (norm_nonneg _).trans (ba.bound 0 (by omega) 0 le_rfl Te0 0)
  have κ0 := defect_nonneg stp
  refine Real.sqrt_le_iff.2 ⟨by positivity, ?_⟩
  have w0 := w_pos
  rw [show ((p.dims.nedges : Int) : ℝ) = 3 * p.dims.ncells by
    show ((3 * (p.nx * p.ny) : Int) : ℝ) = 3 * ((p.nx * p.ny : Int) : ℝ); push_cast; ring]
  unfold meshArea waveGain at sq
  have A1 : 0 < p.dims.ncells * (√3 / 2 * dc ^ 2) := by positivity
  refine le_of_mul_le_mul_right ((le_of_eq ?_).trans sq) A1
  simp only [Prod.fst_sub, Prod.snd_sub, Pi.sub_apply]
  field_simp

/-! ### Inertia-gravity waves -/

/-- The plane wave `cos (κ x - ω t)` with `ω² = f² + g H κ²` solves the linear equations. -/
theorem poincare_wave {g f H κ ω : ℝ} (hH : H ≠ 0) (hκ : κ ≠ 0) (hω : ω ^ 2 = f ^ 2 + g * H * κ ^ 2) :
    LinearWave g f H (fun x => Real.cos (κ * x.2.1 - ω * x.1))
      (fun x => ω / (H * κ) * Real.cos (κ * x.2.1 - ω * x.1))
      (fun x => f / (H * κ) * Real.sin (κ * x.2.1 - ω * x.1)) := by
  have ct : ∀ (t : ℝ) (z : ℝ × ℝ), HasDerivAt (fun s => Real.cos (κ * z.1 - ω * s))
      (ω * Real.sin (κ * z.1 - ω * t)) t := fun t z =>
    ((((hasDerivAt_id t).const_mul ω).const_sub (κ * z.1)).cos).congr_deriv (by simp; ring)
  have st : ∀ (t : ℝ) (z : ℝ × ℝ), HasDerivAt (fun s => Real.sin (κ * z.1 - ω * s))
      (-ω * Real.cos (κ * z.1 - ω * t)) t := fun t z =>
    ((((hasDerivAt_id t).const_mul ω).const_sub (κ * z.1)).sin).congr_deriv (by simp; ring)
  have lz : ∀ (t : ℝ) (z : ℝ × ℝ), HasFDerivAt (fun w : ℝ × ℝ => κ * w.1 - ω * t)
      (κ • ContinuousLinearMap.fst ℝ ℝ ℝ) z := fun t z => (hasFDerivAt_fst.const_mul κ).sub_const _
  have cz : ∀ (t : ℝ) (z v : ℝ × ℝ), fderiv ℝ (fun w : ℝ × ℝ => Real.cos (κ * w.1 - ω * t)) z v =
      -(κ * Real.sin (κ * z.1 - ω * t)) * v.1 := fun t z v => by
    rw [(lz t z).cos.fderiv]; simp; ring
  have cz' : ∀ (t A : ℝ) (z v : ℝ × ℝ), fderiv ℝ (fun w : ℝ × ℝ => A * Real.cos (κ * w.1 - ω * t)) z v =
      -(A * κ * Real.sin (κ * z.1 - ω * t)) * v.1 := fun t A z v => by
    rw [((lz t z).cos.const_mul A).fderiv]; simp; ring
  have sz' : ∀ (t A : ℝ) (z v : ℝ × ℝ), fderiv ℝ (fun w : ℝ × ℝ => A * Real.sin (κ * w.1 - ω * t)) z v =
      (A * κ * Real.cos (κ * z.1 - ω * t)) * v.1 := fun t A z v => by
    rw [((lz t z).sin.const_mul A).fderiv]; simp; ring
  refine ⟨fun t z => ?_, fun t z => ?_, fun t z => ?_⟩
  · unfold divAt
    beta_reduce
    rw [(ct t z).deriv, cz', sz']
    field_simp
    ring
  · beta_reduce
    rw [((ct t z).const_mul _).deriv, cz]
    field_simp
    linear_combination Real.sin (κ * z.1 - ω * t) * hω
  · beta_reduce
    rw [((st t z).const_mul _).deriv, cz]
    field_simp
    ring

/-- For every inertia-gravity wave there is a constant such that, on every mesh whose length is a multiple of
the wavelength, a small perturbation in the form of the wave is at the time `t = N dt ≤ Te` again the wave,
moved by `ω t / κ` with `ω² = f² + g H κ²`, up to that constant times the sum of the
squared spacing, the fourth power of the time step and, for the low-storage stepper, `1e-20`. -/
theorem C82_inertia_gravity_wave {g f H κ ω : ℝ} (g0 : 0 ≤ g) (H0 : 0 < H) (hκ : κ ≠ 0)
    (hω : ω ^ 2 = f ^ 2 + g * H * κ ^ 2) (Te : ℝ) :
    ∃ K : ℝ, ∀ (stp : Stepper) (prm : Params ℝ) (p : MeshParams) (dc dt : ℝ) (m m1 : ℝ → Mem ℝ) (split : Bool)
        (sched : List (ℝ × ℝ)) (k : Int),
      FourthOrder stp → prm.grav = g → prm.f0 = f → prm.disable_h = false → prm.disable_vn = false →
      prm.visc_del2 ≤ 0 → prm.visc_del4 ≤ 0 → RunValid p → 2 ≤ p.nx → p.ny % 2 = 0 → 0 < dc →
      (∃ n : ℤ, κ * (p.nx * dc) = n * (2 * Real.pi)) → 0 ≤ k → k < p.dims.nlayers → (∀ ε, Ready p dc prm (m ε)) →
      (∀ ε c, 0 ≤ c → c < p.dims.ncells → (m ε).real (.h_cell .state) 0 c k =
        H + ε * Real.cos (κ * (cellAt (m 0) c).1)) →
      (∀ ε e, 0 ≤ e → e < p.dims.nedges → (m ε).real (.vn_edge .state) 0 e k =
        ε * ((normal (m 0) e).1 * (ω / (H * κ) * Real.cos (κ * (edgeAt (m 0) e).1)) +
          (normal (m 0) e).2 * (f / (H * κ) * Real.sin (κ * (edgeAt (m 0) e).1)))) →
      0 ≤ dt → (∀ a ∈ sched, a.2 = dt) → sched.length ≤ 10 ^ 18 → sched.length * dt ≤ Te →
      dt * (√(6 * (g * H)) / dc + 2 / √3 * |f|) ≤ 5 / 2 →
      (∀ ε, Exec p.dims (stp.ctor p.dims ++ stp.run p.dims ⟨defaultKernels p.dims.vl, split⟩
        (SWModel.ofParams prm) sched) (m ε) (m1 ε)) →
      ∃ a' b' : Int → ℝ,
        (∀ c, 0 ≤ c → c < p.dims.ncells →
          HasDerivAt (fun ε => (m1 ε).real (.h_cell .state) 0 c k) (a' c) 0) ∧
        (∀ e, 0 ≤ e → e < p.dims.nedges →
          HasDerivAt (fun ε => (m1 ε).real (.vn_edge .state) 0 e k) (b' e) 0) ∧
        √(g * ((∑ c ∈ Spec.cells p.dims,
            (a' c - Real.cos (κ * (cellAt (m 0) c).1 - ω * (sched.length * dt))) ^ 2) / p.dims.ncells) +
          2 * H * ((∑ e ∈ Spec.edges p.dims, (b' e -
            ((normal (m 0) e).1 * (ω / (H * κ) * Real.cos (κ * (edgeAt (m 0) e).1 - ω * (sched.length * dt))) +
              (normal (m 0) e).2 * (f / (H * κ) * Real.sin (κ * (edgeAt (m 0) e).1 - ω * (sched.length * dt)))))
                ^ 2) / p.dims.nedges)) ≤
          K * (dc ^ 2 + dt ^ 4 + defect stp) := by
  set α : ℝ × (ℝ × ℝ) → ℝ := fun x => Real.cos (κ * x.2.1 - ω * x.1) with hα
  set μ : ℝ × (ℝ × ℝ) → ℝ := fun x => ω / (H * κ) * Real.cos (κ * x.2.1 - ω * x.1) with hμ
  set ν : ℝ × (ℝ × ℝ) → ℝ := fun x => f / (H * κ) * Real.sin (κ * x.2.1 - ω * x.1) with hν
  have cph : ContDiff ℝ 8 fun x : ℝ × (ℝ × ℝ) => κ * x.2.1 - ω * x.1 :=
    (contDiff_const.mul (contDiff_fst.comp contDiff_snd)).sub (contDiff_const.mul contDiff_fst)
  have cα : ContDiff ℝ 8 α := Real.contDiff_cos.comp cph
  have cμ : ContDiff ℝ 8 μ := contDiff_const.mul (Real.contDiff_cos.comp cph)
  have cν : ContDiff ℝ 8 ν := contDiff_const.mul (Real.contDiff_sin.comp cph)
  have per : ∀ {P : ℝ} (Q : ℝ) (n : ℤ), κ * P = n * (2 * Real.pi) → ∀ t, Periodic2 P Q (fun z => α (t, z)) ∧
      Periodic2 P Q (fun z => μ (t, z)) ∧ Periodic2 P Q fun z => ν (t, z) := by
    intro P Q n hn t
    have e : ∀ x, κ * (x + P) - ω * t = κ * x - ω * t + n * (2 * Real.pi) := fun x => by rw [← hn]; ring
    refine ⟨⟨fun x y => ?_, fun x y => rfl⟩, ⟨fun x y => ?_, fun x y => rfl⟩, ⟨fun x y => ?_, fun x y => rfl⟩⟩
    · show Real.cos _ = Real.cos _
      simp only [e, Real.cos_add_int_mul_two_pi]
    · show _ * Real.cos _ = _ * Real.cos _
      simp only [e, Real.cos_add_int_mul_two_pi]
    · show _ * Real.sin _ = _ * Real.sin _
      simp only [e, Real.sin_add_int_mul_two_pi]
  obtain ⟨P, P0, n, hP⟩ : ∃ P : ℝ, 0 < P ∧ ∃ n : ℤ, κ * P = n * (2 * Real.pi) := by
    have pi := Real.pi_pos
    rcases lt_or_gt_of_ne hκ with h | h
    · exact ⟨-(2 * Real.pi) / κ, div_pos_of_neg_of_neg (by linarith) h, -1, by field_simp; push_cast; ring⟩
    · exact ⟨2 * Real.pi / κ, by positivity, 1, by field_simp; push_cast; ring⟩
  obtain ⟨B1, h1⟩ := BoundedIn.exists (n := 8) P0 one_pos Te cα fun t => (per 1 n hP t).1
  obtain ⟨B2, h2⟩ := BoundedIn.exists (n := 8) P0 one_pos Te cμ fun t => (per 1 n hP t).2.1
  obtain ⟨B3, h3⟩ := BoundedIn.exists (n := 8) P0 one_pos Te cν fun t => (per 1 n hP t).2.2
  set B := max B1 (max B2 B3) with hB
  refine ⟨10240 * (1 + Te) ^ 6 * Real.exp 5 * (√(g + 2 * H) * (g + |f| + H + 2) * B), ?_⟩
  rintro stp prm p dc dt m m1 split sched k hstp rfl rfl n1 n2 n3 n4 hv hnx hny hdc ⟨N, hN⟩ k0 k1 hr hh hu t0 hs
    hlen hTe hcfl he
  have hX : κ * periodX p.nx dc = N * (2 * Real.pi) := by rw [← hN]; simp [periodX]
  have q := per (periodY p.ny dc) N hX
  have ex := C82_waves_converge (a := α) (U := μ) (W := ν) (B := B) (Te := Te) hstp hv hnx hny hdc n1 n2 n3 n4 g0 H0
    ⟨cα, fun t => (q t).1, (h1.raise (le_max_left _ _)).bound⟩
    ⟨cμ, fun t => (q t).2.1, (h2.raise ((le_max_left _ _).trans (le_max_right _ _))).bound⟩
    ⟨cν, fun t => (q t).2.2, (h3.raise ((le_max_right _ _).trans (le_max_right _ _))).bound⟩
    (poincare_wave H0.ne' hκ hω) k0 k1 hr (fun c c0 c1 => by rw [hh 0 c c0 c1]; ring)
    (fun e e0 e1 => by rw [hu 0 e e0 e1]; ring)
    (fun c c0 c1 => by
      rw [funext fun ε => hh ε c c0 c1]
      refine (((hasDerivAt_id (0 : ℝ)).mul_const _).const_add H).congr_deriv ?_
      simp [hα])
    (fun e e0 e1 => by
      rw [funext fun ε => hu ε e e0 e1]
      refine ((hasDerivAt_id (0 : ℝ)).mul_const _).congr_deriv ?_
      simp [hμ, hν, normalOf]) hs t0 hlen hTe hcfl he
  obtain ⟨a', b', ea, eb, fin⟩ := ex
  exact ⟨a', b', ea, eb, fin.trans_eq (by ring)⟩

/-- a wave of length 4 on a mesh of 24 cells with rotation and gravity, ten steps -/
example (stp : Stepper) : ∃ (prm : Params ℝ) (m m1 : ℝ → Mem ℝ) (sched : List (ℝ × ℝ)) (κ ω : ℝ),
    FourthOrder .rk4 ∧ FourthOrder (.lsrk 5) ∧ prm.grav = 1 ∧ prm.f0 = 1 ∧ prm.disable_h = false ∧
    prm.disable_vn = false ∧ prm.visc_del2 ≤ 0 ∧ prm.visc_del4 ≤ 0 ∧ κ ≠ 0 ∧
    ω ^ 2 = 1 ^ 2 + 1 * 1 * κ ^ 2 ∧ RunValid p46 ∧ 2 ≤ p46.nx ∧ p46.ny % 2 = 0 ∧
    κ * (p46.nx * 1) = (1 : ℤ) * (2 * Real.pi) ∧ (0 : Int) ≤ 2 ∧ 2 < p46.dims.nlayers ∧
    (∀ ε, Ready p46 1 prm (m ε)) ∧
    (∀ ε c, 0 ≤ c → c < p46.dims.ncells → (m ε).real (.h_cell .state) 0 c 2 =
      1 + ε * Real.cos (κ * (cellAt (m 0) c).1)) ∧
    (∀ ε e, 0 ≤ e → e < p46.dims.nedges → (m ε).real (.vn_edge .state) 0 e 2 =
      ε * ((normal (m 0) e).1 * (ω / (1 * κ) * Real.cos (κ * (edgeAt (m 0) e).1)) +
        (normal (m 0) e).2 * (1 / (1 * κ) * Real.sin (κ * (edgeAt (m 0) e).1)))) ∧
    sched.length = 10 ∧ (∀ q ∈ sched, q.2 = 1 / 2) ∧ sched.length * (1 / 2 : ℝ) ≤ 5 ∧
    (1 / 2 : ℝ) * (√(6 * (1 * 1)) / 1 + 2 / √3 * |1|) ≤ 5 / 2 ∧
    ∀ ε, Exec p46.dims (stp.ctor p46.dims ++ stp.run p46.dims
      ⟨defaultKernels p46.dims.vl, true⟩ (SWModel.ofParams prm) sched) (m ε) (m1 ε) := by
  set prm : Params ℝ := ⟨1, 1, 0, 0, 0, 0, false, false⟩ with hprm
  set κ : ℝ := Real.pi / 2 with hκ
  set ω : ℝ := √(1 ^ 2 + 1 * 1 * κ ^ 2) with hω
  obtain ⟨M, hM, -⟩ := exists_ready p46_valid 1 prm zeroFld zeroFld
  have ex := fun ε : ℝ => exists_ready p46_valid 1 prm ⟨fun c _ => 1 + ε * Real.cos (κ * (cellAt M c).1),
    fun e _ => ε * ((normal M e).1 * (ω / (1 * κ) * Real.cos (κ * (edgeAt M e).1)) +
        (normal M e).2 * (1 / (1 * κ) * Real.sin (κ * (edgeAt M e).1))), fun _ _ _ => 0⟩
    zeroFld
  choose m hr hx _ using ex
  set sched : List (ℝ × ℝ) := List.replicate 10 (0, 1 / 2) with hsch
  have run := fun ε => by
    obtain ⟨hd, hc⟩ := ready_ok p46_run (hr ε)
    exact ((C40_safe_deterministic hd hc (noHook_ofParams prm) true).2.2 stp sched).2.exists
  choose m1 he using run
  have hexM := (Ready.hex p46_valid hM).1
  have hex0 := (Ready.hex p46_valid (hr 0)).1
  have xc : ∀ c, 0 ≤ c → c < p46.dims.ncells → (cellAt (m 0) c).1 = (cellAt M c).1 := fun c c0 c1 =>
    (hex0.x_cell c ⟨c0, c1⟩).trans (hexM.x_cell c ⟨c0, c1⟩).symm
  have xe : ∀ e, 0 ≤ e → e < p46.dims.nedges → (edgeAt (m 0) e).1 = (edgeAt M e).1 := fun e e0 e1 =>
    (hex0.x_edge e e0 e1).trans (hexM.x_edge e e0 e1).symm
  have ne : ∀ e, 0 ≤ e → e < p46.dims.nedges → normal (m 0) e = normal M e := fun e e0 e1 => by
    unfold normal
    rw [hex0.angle_edge e e0 e1, hexM.angle_edge e e0 e1]
  have eh : ∀ ε c, (m ε).real (.h_cell .state) 0 c 2 = 1 + ε * Real.cos (κ * (cellAt M c).1) := fun ε c =>
    congrFun (congrFun (congrArg Fld.h (hx ε)) c) 2
  have ev : ∀ ε e, (m ε).real (.vn_edge .state) 0 e 2 = ε * ((normal M e).1 * (ω / (1 * κ) *
      Real.cos (κ * (edgeAt M e).1)) + (normal M e).2 * (1 / (1 * κ) * Real.sin (κ * (edgeAt M e).1))) := fun ε e =>
    congrFun (congrFun (congrArg Fld.vn (hx ε)) e) 2
  refine ⟨prm, m, m1, sched, κ, ω, Or.inl rfl, Or.inr rfl, rfl, rfl, rfl, rfl, le_rfl, le_rfl, by positivity,
    Real.sq_sqrt (by positivity), p46_run, by simp [p46], by simp [p46], by simp [p46, hκ]; ring, by norm_num,
    by rw [p46_layers]; norm_num, hr, fun ε c c0 c1 => by rw [eh, xc c c0 c1],
    fun ε e e0 e1 => by rw [ev, xe e e0 e1, ne e e0 e1],
    by rw [hsch, List.length_replicate], fun q hq => by rw [List.eq_of_mem_replicate hq],
    by rw [hsch, List.length_replicate]; norm_num, ?_, he⟩
  have r6 : √(6 : ℝ) ≤ 5 / 2 := by rw [Real.sqrt_le_left (by norm_num)]; norm_num
  have r3 : 2 / √(3 : ℝ) ≤ 2 := by
    rw [div_le_iff₀ w_pos]
    have : (1 : ℝ) ≤ √3 := Real.one_le_sqrt.2 (by norm_num)
    linarith
  norm_num
  norm_num at r6 r3
  linarith

end Props
end
end Omega
