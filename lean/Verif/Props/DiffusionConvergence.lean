import Verif.Props.WaveConvergence
import Verif.Props.TracerHyper

/-!
# C83: tracer diffusion converges

The tracers of a layer at rest converge to the solution of the diffusion equation, with second order in
the spacing and fourth order in the time step.
-/

set_option linter.unusedVariables false
set_option linter.unusedSectionVars false

namespace Omega
noncomputable section
namespace Props

open Prog Model Refine Hex Taylor Jets Polynomial

/-! ### The equation on the plane -/

/-- the diffusion equation `∂t(hq) = κ ∇·(h∇q)` in a layer at rest -/
def Diffused (κ : ℝ) (H : ℝ × ℝ → ℝ) (q : ℝ × (ℝ × ℝ) → ℝ) : Prop :=
  ∀ t z, H z * deriv (fun s => q (s, z)) t = rhsS κ H (fun _ => 0) (fun _ => 0) (fun z => q (t, z)) z

theorem rhsS_rest (κ : ℝ) (H q : ℝ × ℝ → ℝ) (z : ℝ × ℝ) : rhsS κ H (fun _ => 0) (fun _ => 0) q z =
    κ * divAt (fun w => H w * fderiv ℝ q w (1, 0)) (fun w => H w * fderiv ℝ q w (0, 1)) z := by
  simp [rhsS, divAt]

/-- the time derivative of a space derivative, weighted -/
theorem dTime_weighted {H : ℝ × ℝ → ℝ} {q : ℝ × (ℝ × ℝ) → ℝ} (hH : ContDiff ℝ 2 H) (hq : ContDiff ℝ 3 q)
    (t : ℝ) (z v w : ℝ × ℝ) :
    HasDerivAt (fun s => fderiv ℝ (fun z => H z * fderiv ℝ (fun z => q (s, z)) z v) z w)
      (fderiv ℝ (fun z => H z * fderiv ℝ (fun z => dTime q (t, z)) z v) z w) t := by
  have d1 : Differentiable ℝ q := hq.differentiable (by norm_num)
  have q2 : ContDiff ℝ 2 q := hq.of_le (by norm_num)
  have hF : ContDiff ℝ 2 fun x : ℝ × (ℝ × ℝ) => H x.2 * fderiv ℝ q x (0, v) :=
    (hH.comp contDiff_snd).mul ((hq.fderiv_right (m := 2) (by norm_num)).clm_apply contDiff_const)
  have k := dTime_swap hF t z w
  have e1 : ∀ s, (fun z => H z * fderiv ℝ (fun z => q (s, z)) z v) = fun z => H z * fderiv ℝ q (s, z) (0, v) :=
    fun s => funext fun z => by rw [fderiv_slice d1]
  have e2 : (fun z => H z * fderiv ℝ (fun z => dTime q (t, z)) z v) =
      fun z => dTime (fun x : ℝ × (ℝ × ℝ) => H x.2 * fderiv ℝ q x (0, v)) (t, z) := by
    funext z
    have a := (dTime_swap q2 t z v).const_mul (H z)
    have b := hasDerivAt_time (hF.differentiable (by norm_num)) t z
    refine a.unique ?_
    refine b.congr_of_eventuallyEq (Filter.Eventually.of_forall fun s => ?_)
    beta_reduce
    rw [fderiv_slice d1]
  rw [e2]
  refine k.congr_of_eventuallyEq (Filter.Eventually.of_forall fun s => ?_)
  beta_reduce
  rw [e1]

/-- The time derivative of a solution is a solution. -/
theorem Diffused.dTime {κ : ℝ} {H : ℝ × ℝ → ℝ} {q : ℝ × (ℝ × ℝ) → ℝ} (hH : ContDiff ℝ 2 H)
    (hq : ContDiff ℝ 3 q) (h : Diffused κ H q) : Diffused κ H (dTime q) := by
  intro t z
  have d1 : Differentiable ℝ q := hq.differentiable (by norm_num)
  have L := ((hasDerivAt_time (dTime_diff (hq.of_le (by norm_num)) (1, 0)) t z)).const_mul (H z)
  have R := ((dTime_weighted hH hq t z (1, 0) (1, 0)).add (dTime_weighted hH hq t z (0, 1) (0, 1))).const_mul κ
  have e : (fun s => H z * fderiv ℝ q (s, z) (1, 0)) = fun s => κ *
      ((fun s => fderiv ℝ (fun z => H z * fderiv ℝ (fun z => q (s, z)) z (1, 0)) z (1, 0)) +
        fun s => fderiv ℝ (fun z => H z * fderiv ℝ (fun z => q (s, z)) z (0, 1)) z (0, 1)) s := by
    funext s
    have := h s z
    rw [(hasDerivAt_time d1 s z).deriv, rhsS_rest] at this
    exact this
  rw [rhsS_rest]
  have L' : H z * deriv (fun s => Props.dTime q (s, z)) t = deriv (fun s => H z * fderiv ℝ q (s, z) (1, 0)) t := by
    rw [L.deriv]
    exact congrArg _ (hasDerivAt_time (dTime_diff (hq.of_le (by norm_num)) (1, 0)) t z).deriv
  rw [L', e, R.deriv]
  rfl

theorem iter_diffused {P Q B Te κ : ℝ} {H : ℝ × ℝ → ℝ} (hH : ContDiff ℝ 2 H) {q : ℝ × (ℝ × ℝ) → ℝ}
    (hq : BoundedIn 8 P Q B Te q) (ha : Diffused κ H q) (i : ℕ) (hi : i ≤ 5) :
    BoundedIn (8 - i) P Q B Te (dTime^[i] q) ∧ Diffused κ H (dTime^[i] q) := by
  induction i with
  | zero => exact ⟨hq, ha⟩
  | succ i ih =>
    obtain ⟨h1, h2⟩ := ih (by omega)
    rw [Function.iterate_succ_apply', show 8 - (i + 1) = 7 - i by omega]
    rw [show 8 - i = (7 - i) + 1 by omega] at h1
    refine ⟨h1.dTime, h2.dTime hH ?_⟩
    exact h1.smooth.of_le (by exact_mod_cast (by omega : 3 ≤ 7 - i + 1))

/-! ### Steps that do not increase the variance -/

variable {p : MeshParams} {dc : ℝ} {m : Mem ℝ}

theorem scaled_area (h : Geo2 p.nx p.ny p.dims.nlayers dc m.mesh) {x : Int → ℝ}
    (hx : ∀ c ∈ Spec.cells p.dims, 0 < x c) (f : Int → ℝ) :
    ∑ c ∈ Spec.cells p.dims, Spec.areaC m c / x c * f c ^ 2 = dc * dc * √3 / 2 * ‖scaled p.dims x f‖ ^ 2 := by
  rw [norm_scaled, Finset.mul_sum]
  refine Finset.sum_congr rfl fun c hc => ?_
  rw [spec_areaC h.toGeo (mem_cells.mp hc), div_pow, Real.sq_sqrt (hx c hc).le]
  ring

theorem limit_pos {stp : Stepper} (h : FourthOrder stp) :
    0 < diffusionLimit stp ∧ diffusionLimit stp ≤ 9 / 2 := by
  rcases h with rfl | rfl <;> norm_num [diffusionLimit]

/-- Stability of the steps and consistency of the tendency give convergence. `z` are the positions of
the cells. -/
theorem damped_core (hv : RunValid p) {stp : Stepper} (hstp : FourthOrder stp) {x y : Int → ℝ}
    {z : Int → ℝ × ℝ} {H : ℝ × ℝ → ℝ} {q : ℝ × (ℝ × ℝ) → ℝ} {A : Module.End ℝ (Int → ℝ)}
    {dt η B Te ε P Q : ℝ} {n0 : ℕ} (hη : 0 < η)
    (hH : ∀ z, η ≤ H z ∧ H z ≤ B) (hx : ∀ c ∈ Spec.cells p.dims, x c = H (z c))
    (hs : ∀ r : ℝ[X], (∀ y, -diffusionLimit stp ≤ y → y ≤ 0 → |r.eval y| ≤ 1) → ∀ f,
      ‖scaled p.dims x (aeval (dt • A) r f)‖ ≤ ‖scaled p.dims x f‖)
    (t0 : 0 ≤ dt) {sched : List (ℝ × ℝ)} (hsched : ∀ a ∈ sched, a.2 = dt) (hTe : sched.length * dt ≤ Te)
    (hq : BoundedIn (n0 + 6) P Q B Te q) (ε0 : 0 ≤ ε)
    (hA : ∀ t, 0 ≤ t → t ≤ Te → ∀ i, i ≤ 4 → ∀ c ∈ Spec.cells p.dims,
      |A (fun c => H (z c) * dTime^[i] q (t, z c)) c - H (z c) * dTime^[i + 1] q (t, z c)| ≤ ε)
    (hy : ∀ c ∈ Spec.cells p.dims, y c = H (z c) * q (0, z c)) :
    √((∑ c ∈ Spec.cells p.dims, (sched.foldl (fun f a => aeval (a.2 • A) (stabPoly stp) f) y c -
        H (z c) * q (sched.length * dt, z c)) ^ 2) / p.dims.ncells) ≤
      √(B / η) * (77760 * Te * (1 + Te) ^ 5) * (ε + B * B * dt ^ 4 + B * B * defect stp) := by
  obtain ⟨c1, c2, c3, c4, c5, hco, hstab⟩ := fourth_order hstp
  obtain ⟨Y0, Y1⟩ := limit_pos hstp
  have κ0 := defect_nonneg stp
  have hB : 0 ≤ B := hη.le.trans ((hH 0).1.trans (hH 0).2)
  have aH : ∀ z, |H z| ≤ B := fun z => by
    rw [abs_of_nonneg (hη.le.trans (hH z).1)]; exact (hH z).2
  have Te0 : 0 ≤ Te := le_trans (by positivity) hTe
  set N := sched.length with hNdef
  have xη : ∀ c ∈ Spec.cells p.dims, η ≤ x c := fun c hc => by rw [hx c hc]; exact (hH _).1
  have xB : ∀ c ∈ Spec.cells p.dims, 0 < x c ∧ x c ≤ B := fun c hc =>
    ⟨hη.trans_le (xη c hc), by rw [hx c hc]; exact (hH _).2⟩
  have sol : ∀ i, i ≤ 5 → BoundedIn (n0 + 6 - i) P Q B Te (dTime^[i] q) := by
    intro i
    induction i with
    | zero => intro _; exact hq
    | succ i ih =>
      intro hi
      have h1 := ih (by omega)
      rw [Function.iterate_succ_apply', show n0 + 6 - (i + 1) = n0 + 5 - i by omega]
      rw [show n0 + 6 - i = (n0 + 5 - i) + 1 by omega] at h1
      exact h1.dTime
  set s : ℕ → ℕ → Int → ℝ := fun n i c => H (z c) * dTime^[i] q (n * dt, z c) with hsd
  have tn : ∀ n, n ≤ N → 0 ≤ (n : ℝ) * dt ∧ (n : ℝ) * dt ≤ Te := fun n hn =>
    ⟨by positivity, le_trans (mul_le_mul_of_nonneg_right (by exact_mod_cast hn) t0) hTe⟩
  set S := √((Spec.cells p.dims).card : ℝ) with hS
  have S0 : 0 ≤ S := Real.sqrt_nonneg _
  have hA' : ∀ n, n < N → ∀ i, i ≤ 4 → ‖scaled p.dims x (A (s n i) - s n (i + 1))‖ ≤ ε / √η * S :=
    fun n hn i hi => scaled_le _ hη xη ε0 fun c hcc => hA _ (tn n hn.le).1 (tn n hn.le).2 i hi c hcc
  have prod : ∀ {a b C : ℝ}, |a| ≤ B → |b| ≤ C → |a * b| ≤ B * C := fun ha hb => by
    rw [abs_mul]; exact mul_le_mul ha hb (abs_nonneg _) hB
  have hM : ∀ n, n ≤ N → ∀ i, i ≤ 5 → ‖scaled p.dims x (s n i)‖ ≤ B * B / √η * S := fun n hn i hi =>
    scaled_le _ hη xη (by positivity) fun c hcc => prod (aH _) ((sol i hi).le (tn n hn).1 (tn n hn).2 _)
  have hT : ∀ n, n < N → ‖scaled p.dims x (s (n + 1) 0 - (s n 0 + dt • s n 1 + (dt ^ 2 / 2) • s n 2 +
      (dt ^ 3 / 6) • s n 3 + (dt ^ 4 / 24) • s n 4))‖ ≤ B * B / √η * S * dt ^ 5 := by
    intro n hn
    have e : B * B / √η * S * dt ^ 5 = B * (B * dt ^ 5) / √η * S := by ring
    rw [e]
    refine scaled_le _ hη xη (by positivity) fun c hcc => ?_
    have tay := taylor_five (g := fun i t => dTime^[i] q (t, z c)) (a := n * dt) (b := (n + 1 : ℕ) * dt)
      (M := B) (fun i hi t => by
        rw [Function.iterate_succ_apply']
        exact hasDerivAt_time ((sol i (by omega)).smooth.differentiable
          (by exact_mod_cast (by omega : n0 + 6 - i ≠ 0))) t _)
      (fun t h1 h2 => (sol 5 le_rfl).le ((tn n hn.le).1.trans h1) (h2.trans (tn (n + 1) hn).2) _)
      (by push_cast; nlinarith)
    have e1 : ((n + 1 : ℕ) : ℝ) * dt - n * dt = dt := by push_cast; ring
    rw [e1] at tay
    refine le_trans (le_of_eq (congrArg abs ?_)) (prod (aH (z c)) tay)
    simp only [hsd, Pi.sub_apply, Pi.add_apply, Pi.smul_apply, smul_eq_mul]
    ring
  have h0 : scaled p.dims x (y - s 0 0) = 0 := by
    rw [map_sub, sub_eq_zero]
    refine scaled_congr _ _ fun c hcc => ?_
    rw [hy c hcc, hsd]
    simp
  have hn : ∀ f, ‖scaled p.dims x ((dt • A) f)‖ ≤ diffusionLimit stp * ‖scaled p.dims x f‖ := fun f => by
    have := hs (C (1 / diffusionLimit stp) * X) (fun y h1 h2 => by
      rw [eval_mul, eval_C, eval_X, abs_mul, abs_of_nonpos h2, abs_of_pos (by positivity), one_div,
        inv_mul_le_iff₀ Y0]
      linarith) f
    rw [map_mul, aeval_C, aeval_X, Module.End.mul_apply, Module.algebraMap_end_apply, map_smul, norm_smul,
      Real.norm_of_nonneg (by positivity), one_div, inv_mul_le_iff₀ Y0] at this
    exact this
  have hst : ∀ f, ‖scaled p.dims x (Lax.stab c1 c2 c3 c4 c5 (dt • A) f)‖ ≤ ‖scaled p.dims x f‖ := fun f => by
    rw [← hstab]; exact hs _ (fun y => stab_le_one stp) f
  have main := Lax.contracting (T := scaled p.dims x) (A := A) t0 Y0.le (by positivity) hn hst hco hTe hA' hM hT h0
  have card := card_cells hv.toValid
  have val : ∑ c ∈ Spec.cells p.dims, (sched.foldl (fun f a => aeval (a.2 • A) (stabPoly stp) f) y c -
      H (z c) * q (N * dt, z c)) ^ 2 = ∑ c ∈ Spec.cells p.dims,
      ((Lax.stab c1 c2 c3 c4 c5 (dt • A))^[N] y - s N 0) c ^ 2 := by
    refine Finset.sum_congr rfl fun c hcc => ?_
    rw [foldl_iterate (hstab _) sched hsched]
    rfl
  rw [val, ← card]
  have sq := le_scaled p.dims xB ((Lax.stab c1 c2 c3 c4 c5 (dt • A))^[N] y - s N 0)
  set X := ‖scaled p.dims x ((Lax.stab c1 c2 c3 c4 c5 (dt • A))^[N] y - s N 0)‖ with hX
  have n0 : (0 : ℝ) < (Spec.cells p.dims).card := by
    rw [card]
    exact_mod_cast mul_pos (by have := hv.nx_pos; omega : 0 < p.nx) (by have := hv.ny_pos; omega : 0 < p.ny)
  have Y5 : (diffusionLimit stp + 3 / 2) ^ 5 ≤ 7776 :=
    (pow_le_pow_left₀ (by linarith) (by linarith : diffusionLimit stp + 3 / 2 ≤ 6) 5).trans (by norm_num)
  have XS : X ≤ 77760 * Te * (1 + Te) ^ 5 * (ε + B * B * dt ^ 4 + B * B * defect stp) / √η * S := by
    refine main.trans ?_
    have e : Te * (10 * (diffusionLimit stp + 3 / 2) ^ 5 * (1 + Te) ^ 5 *
        (ε / √η * S + B * B / √η * S * dt ^ 4 + B * B / √η * S * defect stp)) =
        (diffusionLimit stp + 3 / 2) ^ 5 * (10 * Te * (1 + Te) ^ 5 *
          (ε + B * B * dt ^ 4 + B * B * defect stp) / √η * S) := by ring
    rw [e]
    refine (mul_le_mul_of_nonneg_right Y5 (by positivity)).trans_eq (by ring)
  have X2 := pow_le_pow_left₀ (norm_nonneg _) XS 2
  rw [Real.sqrt_le_iff]
  refine ⟨by positivity, ?_⟩
  rw [div_le_iff₀ n0]
  refine sq.trans ((mul_le_mul_of_nonneg_left X2 hB).trans_eq ?_)
  have s2 := Real.sq_sqrt n0.le
  rw [← hS] at s2
  rw [mul_assoc √(B / η), mul_pow √(B / η), Real.sq_sqrt (by positivity), ← s2, mul_pow, div_pow, Real.sq_sqrt hη.le]
  ring

/-! ### C83 -/

/-- thickness and concentration at one time, with bounds -/
structure DiffData (B : ℝ) (p : MeshParams) (dc : ℝ) : Type where
  H : ℝ × ℝ → ℝ
  q : ℝ × ℝ → ℝ
  hH : Bounded 3 (periodX p.nx dc) (periodY p.ny dc) B H
  hq : Bounded 4 (periodX p.nx dc) (periodY p.ny dc) B q

/-- the coefficient that acts -/
theorem coef_on {κ : ℝ} (h : 0 ≤ κ) : (if Scalar.lt (lit 0 : ℝ) κ = true then κ else 0) = κ := by
  split_ifs with hc
  · rfl
  · rw [slt_real] at hc
    have : ¬ (0 : ℝ) < κ := by simpa using hc
    linarith

/-- For any bounds there is a constant such that, on every mesh with a spacing of at most `D`, for every
thickness `H` between `lo` and `hi`, diffusivity and solution `q` of the diffusion equation within the
bounds, the following holds for a run of either fourth-order stepper from a layer at rest with thickness
and velocity held fixed, no hyperdiffusion, and steps of size `dt` up to a time of at most `Te`: if the
steps are within the stability limit of the stepper, then the root mean square difference of the final
tracer content and the solution at the cell centers is at most that constant times the sum of the squared
spacing, the fourth power of the time step and, for the low-storage stepper, `1e-20` (its coefficients
are rounded). The number of steps is not bounded. -/
theorem C83_diffusion_converges (D B Te : ℝ) {η : ℝ} (hη : 0 < η) :
    ∃ K : ℝ, ∀ (stp : Stepper) (prm : Params ℝ) (p : MeshParams) (dc dt lo hi : ℝ) (m m1 : Mem ℝ) (split : Bool)
        (sched : List (ℝ × ℝ)) (l k : Int) (H : ℝ × ℝ → ℝ) (q : ℝ × (ℝ × ℝ) → ℝ),
      FourthOrder stp → 0 ≤ prm.eddy_diff2 → prm.eddy_diff2 ≤ B → prm.eddy_diff4 ≤ 0 → prm.disable_h = true →
      prm.disable_vn = true →
      RunValid p → 2 ≤ p.nx → p.ny % 2 = 0 → 0 < dc → dc ≤ D →
      Bounded 3 (periodX p.nx dc) (periodY p.ny dc) B H → η ≤ lo → (∀ z, lo ≤ H z ∧ H z ≤ hi) →
      BoundedIn 8 (periodX p.nx dc) (periodY p.ny dc) B Te q → Diffused prm.eddy_diff2 H q →
      Ready p dc prm m → 0 ≤ k → k < p.dims.nlayers → 0 ≤ l → l < p.dims.ntracers →
      (∀ c, 0 ≤ c → c < p.dims.ncells → m.real (.h_cell .state) 0 c k = H (cellAt m c)) →
      (∀ e, 0 ≤ e → e < p.dims.nedges → m.real (.vn_edge .state) 0 e k = 0) →
      (∀ c, 0 ≤ c → c < p.dims.ncells →
        m.real (.tr_cell .state) l c k = H (cellAt m c) * q (0, cellAt m c)) →
      0 ≤ dt → (∀ a ∈ sched, a.2 = dt) → sched.length * dt ≤ Te →
      6 * prm.eddy_diff2 * dt * hi ≤ diffusionLimit stp * lo * dc ^ 2 →
      Exec p.dims (stp.ctor p.dims ++ stp.run p.dims ⟨defaultKernels p.dims.vl, split⟩
        (SWModel.ofParams prm) sched) m m1 →
      √((∑ c ∈ Spec.cells p.dims, (m1.real (.tr_cell .state) l c k -
          H (cellAt m c) * q (sched.length * dt, cellAt m c)) ^ 2) / p.dims.ncells) ≤
        K * (dc ^ 2 + dt ^ 4 + defect stp) := by
  by_cases hB : 0 ≤ B
  swap
  · exact ⟨0, fun stp prm p dc dt lo hi m m1 split sched l k H q _ _ _ _ _ _ _ _ _ _ _ h => absurd h.nonneg hB⟩
  let T := DiffData B
  have fH : Smooth 3 (fun M : MeshOf D T => M.tag.H) := smooth_of_bounded hB fun M => M.tag.hH
  have fq : Smooth 4 (fun M : MeshOf D T => M.tag.q) := smooth_of_bounded hB fun M => M.tag.hq
  obtain ⟨K3, k3, o3⟩ := tracer_diff_order fH fq
  refine ⟨√(B / η) * (77760 * Te * (1 + Te) ^ 5) * (B * K3 + B * B), ?_⟩
  intro stp prm p dc dt lo hi m m1 split sched l k H q hstp h2 h2B h4 hdh hdv hv hnx hny hdc hD bH hlo hH bq hdif hr
    hk0 hk1 hl0 hl1 hh hu ht t0 hsched hTe hlim he
  obtain ⟨m', hb, hs⟩ := ready_mesh hr
  obtain ⟨hd, hc⟩ := ready_ok hv hr
  have geo := Ready.geo2 hr hv.toValid hnx (by have := hv.ny_pos; omega) hdc
  obtain ⟨-, -, fin⟩ := frozen_exec hdh hdv hd hc (noHook_ofParams prm) he
  have κ0 := defect_nonneg stp
  have Te0 : 0 ≤ Te := le_trans (by positivity) hTe
  have lo0 : 0 < lo := hη.trans_le hlo
  set x : Int → ℝ := fun i => m.real (.h_cell .state) 0 i k with hxd
  set u : Int → ℝ := fun i => m.real (.vn_edge .state) 0 i k with hud
  have cell : ∀ {c}, c ∈ Spec.cells p.dims → 0 ≤ c ∧ c < p.dims.ncells := fun h => Finset.mem_Ico.1 h
  have x0 : ∀ c ∈ Spec.cells p.dims, 0 < x c := fun c hcc => by
    rw [hxd]; beta_reduce; rw [hh c (cell hcc).1 (cell hcc).2]; exact lo0.trans_le (hH _).1
  have hyp : (SWModel.ofParams prm).en_thyper = false := by
    show Scalar.lt (lit 0 : ℝ) prm.eddy_diff4 = false
    rw [← Bool.not_eq_true, slt_real]; simpa using h4
  have BH : ∀ z, η ≤ H z ∧ H z ≤ B := fun z => ⟨hlo.trans (hH z).1, (le_abs_self _).trans (bH.le z)⟩
  have sol := iter_diffused (bH.smooth.of_le (by norm_num)) bq hdif
  let Mq : ∀ q, Bounded 4 (periodX p.nx dc) (periodY p.ny dc) B q → MeshOf D T := fun q bq =>
    ⟨p, dc, m', ⟨H, q, bH, bq⟩, hv.toValid, hnx, hny, hdc, hD, hb⟩
  have key := damped_core hv hstp (x := x) (y := fun i => m.real (.tr_cell .state) l i k) (z := cellAt m) (H := H)
    (q := q) (A := trOp m (SWModel.ofParams prm) x u) (dt := dt) (ε := B * (K3 * dc ^ 2)) (n0 := 2) hη BH
    (fun c hcc => hh c (cell hcc).1 (cell hcc).2)
    (fun r hr f => by
      have a := diff_spectral (sw := SWModel.ofParams prm) (x := x) (u := u) (dt := dt) geo hc hny hyp h2 hu hk0 hk1 lo0
        (fun c a b => by rw [hxd]; beta_reduce; rw [hh c a b]; exact hH _) t0 hlim hr f
      rw [scaled_area geo x0, scaled_area geo x0] at a
      have hp : 0 < dc * dc * √3 / 2 := by positivity
      exact abs_le_of_sq_le_sq' (le_of_mul_le_mul_left a hp) (norm_nonneg _) |>.2)
    t0 hsched hTe bq (by positivity) ?_ (fun c hcc => ht c (cell hcc).1 (cell hcc).2)
  · have e : ∑ c ∈ Spec.cells p.dims, (m1.real (.tr_cell .state) l c k -
        H (cellAt m c) * q (sched.length * dt, cellAt m c)) ^ 2 = _ := Finset.sum_congr rfl fun c hcc => by
      rw [fin l c k hl0 hl1 (cell hcc).1 (cell hcc).2 hk0 hk1]
    rw [e]
    refine key.trans ?_
    rw [mul_assoc _ (B * K3 + B * B)]
    refine mul_le_mul_of_nonneg_left ?_ (by positivity)
    have : 0 ≤ B * B * dc ^ 2 + B * K3 * dt ^ 4 + B * K3 * defect stp := by positivity
    linarith
  intro t s0 s1 i hi c hcc
  obtain ⟨h0, h1⟩ := cell hcc
  obtain ⟨b8, hsol⟩ := sol i (by omega)
  have bs := (b8.mono (by omega : 4 ≤ 8 - i)).slice s0 s1
  have a := o3 ⟨Mq _ bs, c, h0, h1⟩
  have eq := hsol t (cellAt m c)
  have dq : Differentiable ℝ (dTime^[i] q) := b8.smooth.differentiable
    (by exact_mod_cast (by omega : 8 - i ≠ 0))
  rw [(hasDerivAt_time dq _ _).deriv, ← Function.iterate_succ_apply' dTime i q, rhsS_rest] at eq
  have on : (if (SWModel.ofParams prm).en_tdiff then (SWModel.ofParams prm).prm.eddy_diff2 else 0) =
    prm.eddy_diff2 := coef_on h2
  rw [trOp_diff geo hc hyp x u _ hu hk0 hk1 h0 h1, on, eq, ← mul_sub, abs_mul, abs_of_nonneg h2]
  refine mul_le_mul h2B ?_ (abs_nonneg _) hB
  rw [div_congr hc (v := fun e => Spec.mean m' (fun c => H (cellAt m' c)) e *
    Spec.grad m' (fun c => dTime^[i] q (t, cellAt m' c)) e) ?_ h0 h1, hs.div, hs.cellAt]
  · exact a
  intro e e0 e1
  rw [mean_congr hc hh e0 e1, hs.mean, ← hs.cellAt, ← hs.grad]
  congr 1
  refine grad_congr hc (fun c c0 c1 => ?_) e0 e1
  have := (lo0.trans_le (hH (cellAt m c)).1).ne'
  rw [hxd]
  beta_reduce
  rw [hh c c0 c1]
  field_simp

/-! ### Example -/

/-- a wave in the first coordinate decays under diffusion where the thickness depends on the second -/
theorem decaying_diffused (κ a : ℝ) {h : ℝ → ℝ} (hh : Differentiable ℝ h) :
    Diffused κ (fun z => h z.2) fun x => Real.exp (-(κ * a ^ 2 * x.1)) * Real.sin (a * x.2.1) := by
  intro t z
  rw [rhsS_rest]
  set E := Real.exp (-(κ * a ^ 2 * t)) with hE
  have d1 : ∀ w : ℝ × ℝ, HasFDerivAt (fun z : ℝ × ℝ => E * Real.sin (a * z.1))
      ((E * Real.cos (a * w.1) * a) • ContinuousLinearMap.fst ℝ ℝ ℝ) w := fun w => by
    have := ((hasFDerivAt_fst (𝕜 := ℝ) (p := w)).const_mul a).sin.const_mul E
    refine this.congr_fderiv ?_
    ext <;> simp; ring
  have f1 : (fun w : ℝ × ℝ => h w.2 * fderiv ℝ (fun z : ℝ × ℝ => E * Real.sin (a * z.1)) w (1, 0)) =
      fun w => h w.2 * (E * a * Real.cos (a * w.1)) := by
    funext w
    rw [(d1 w).fderiv]
    show h w.2 * (E * Real.cos (a * w.1) * a * 1) = _
    ring
  have f2 : (fun w : ℝ × ℝ => h w.2 * fderiv ℝ (fun z : ℝ × ℝ => E * Real.sin (a * z.1)) w (0, 1)) =
      fun w => 0 := by
    funext w; rw [(d1 w).fderiv]; simp
  have d2 : Differentiable ℝ fun w : ℝ × ℝ => h w.2 := hh.comp differentiable_snd
  have d3 : HasFDerivAt (fun w : ℝ × ℝ => E * a * Real.cos (a * w.1))
      ((E * a * (-Real.sin (a * z.1) * a)) • ContinuousLinearMap.fst ℝ ℝ ℝ) z := by
    have := ((hasFDerivAt_fst (𝕜 := ℝ) (p := z)).const_mul a).cos.const_mul (E * a)
    refine this.congr_fderiv ?_
    ext <;> simp
  have d4 : fderiv ℝ (fun w : ℝ × ℝ => h w.2) z (1, 0) = 0 := by
    have := (hh z.2).hasDerivAt.comp_hasFDerivAt z (hasFDerivAt_snd (𝕜 := ℝ) (p := z))
    rw [show (fun w : ℝ × ℝ => h w.2) = h ∘ Prod.snd from rfl, this.fderiv]
    simp
  have d5 : fderiv ℝ (fun w : ℝ × ℝ => h w.2 * (E * a * Real.cos (a * w.1))) z (1, 0) =
      h z.2 * (E * a * (-Real.sin (a * z.1) * a)) := by
    have := ((d2 z).hasFDerivAt.mul d3).fderiv
    rw [show (fun w : ℝ × ℝ => h w.2 * (E * a * Real.cos (a * w.1))) =
      (fun w => h w.2) * fun w => E * a * Real.cos (a * w.1) from rfl, this]
    simp [d4]
  show h z.2 * deriv (fun s => Real.exp (-(κ * a ^ 2 * s)) * Real.sin (a * z.1)) t = _
  have dt : HasDerivAt (fun s => Real.exp (-(κ * a ^ 2 * s)) * Real.sin (a * z.1))
      (E * -(κ * a ^ 2) * Real.sin (a * z.1)) t := by
    have := (((hasDerivAt_id t).const_mul (κ * a ^ 2)).neg.exp).mul_const (Real.sin (a * z.1))
    refine this.congr_deriv ?_
    simp [hE]
  rw [dt.deriv]
  unfold divAt
  rw [f1, f2, d5]
  simp
  ring

/-- meshes of one domain refined up to a thousandfold, a thickness between 1 and 3, a decaying wave, steps
of an eighth of the squared spacing up to a fixed time -/
example (dc : ℝ) (hdc : 0 < dc) : ∃ (B P Q : ℝ) (H : ℝ × ℝ → ℝ) (q : ℝ × (ℝ × ℝ) → ℝ) (prm : Params ℝ),
    0 ≤ prm.eddy_diff2 ∧ prm.eddy_diff2 ≤ B ∧ prm.eddy_diff4 ≤ 0 ∧ prm.disable_h = true ∧ prm.disable_vn = true ∧
    FourthOrder .rk4 ∧ FourthOrder (.lsrk 5) ∧
    Bounded 3 P Q B H ∧ (∀ z, 1 ≤ H z ∧ H z ≤ 3) ∧ BoundedIn 8 P Q B (dc ^ 2) q ∧ Diffused prm.eddy_diff2 H q ∧
    H (0, 0) ≠ H (P / 4, Q / 4) ∧ q (0, (P / 4, 0)) ≠ q (dc ^ 2, (P / 4, 0)) ∧
    ∀ n : ℕ, 1 ≤ n → n ≤ 1000 → RunValid (pRef n) ∧ 2 ≤ (pRef n).nx ∧ (pRef n).ny % 2 = 0 ∧ 0 < dc / n ∧
      dc / n ≤ dc ∧ periodX (pRef n).nx (dc / n) = P ∧ periodY (pRef n).ny (dc / n) = Q ∧
      0 < (pRef n).dims.nlayers ∧ 0 < (pRef n).dims.ntracers ∧
      ∀ stp : Stepper, FourthOrder stp →
      6 * prm.eddy_diff2 * ((dc / n) ^ 2 / 8) * 3 ≤ diffusionLimit stp * 1 * (dc / n) ^ 2 ∧
      ∃ (sched : List (ℝ × ℝ)) (m m1 : Mem ℝ),
      (∀ a ∈ sched, a.2 = (dc / n) ^ 2 / 8) ∧ sched.length * ((dc / n) ^ 2 / 8) = dc ^ 2 ∧ Ready (pRef n) (dc / n) prm m ∧
      (∀ c k, 0 ≤ c → c < (pRef n).dims.ncells → m.real (.h_cell .state) 0 c k = H (cellAt m c)) ∧
      (∀ e k, 0 ≤ e → e < (pRef n).dims.nedges → m.real (.vn_edge .state) 0 e k = 0) ∧
      (∀ l c k, 0 ≤ c → c < (pRef n).dims.ncells →
        m.real (.tr_cell .state) l c k = H (cellAt m c) * q (0, cellAt m c)) ∧
      Exec (pRef n).dims (stp.ctor (pRef n).dims ++ stp.run (pRef n).dims
        ⟨defaultKernels (pRef n).dims.vl, true⟩ (SWModel.ofParams prm) sched) m m1 := by
  obtain ⟨hP, hQ⟩ := periods_pos (dc := dc) p46_valid hdc
  set P := (periodX p46.nx dc : ℝ) with hPd
  set Q := (periodY p46.ny dc : ℝ) with hQd
  set a : ℝ := 2 * Real.pi / P with ha
  set b : ℝ := 2 * Real.pi / Q with hb
  have a0 : 0 < a := by have := Real.pi_pos; positivity
  have aP : a * P = 2 * Real.pi := by rw [ha]; field_simp
  have bQ : b * Q = 2 * Real.pi := by rw [hb]; field_simp
  set h : ℝ → ℝ := fun y => 2 + Real.sin (b * y) with hh
  set H : ℝ × ℝ → ℝ := fun z => h z.2 with hH
  have range : ∀ z, 1 ≤ H z ∧ H z ≤ 3 := fun z => by
    have a := Real.neg_one_le_sin (b * z.2)
    have b := Real.sin_le_one (b * z.2)
    simp only [hH, hh]
    constructor <;> linarith
  have sh : ∀ {k : ℕ}, ContDiff ℝ k h := by intro k; fun_prop
  have sH : ∀ {k : ℕ}, ContDiff ℝ k H := fun {k} => sh.comp contDiff_snd
  have pH : Periodic2 P Q H := ⟨fun x y => rfl, fun x y => by
    simp only [hH, hh]; rw [mul_add, bQ, Real.sin_add_two_pi]⟩
  set q : ℝ × (ℝ × ℝ) → ℝ := fun x => Real.exp (-(1 * a ^ 2 * x.1)) * Real.sin (a * x.2.1) with hq
  have sq : ContDiff ℝ (8 : ℕ) q := by fun_prop
  have pq : ∀ t, Periodic2 P Q fun z => q (t, z) := fun t =>
    ⟨fun x y => by simp only [hq]; rw [mul_add, aP, Real.sin_add_two_pi], fun x y => rfl⟩
  obtain ⟨B1, hB1⟩ := Bounded.exists (n := 3) hP hQ sH pH
  obtain ⟨B3, hB3⟩ := BoundedIn.exists (n := 8) hP hQ (dc ^ 2) sq pq
  have n1 := hB1.nonneg
  have n3 : 0 ≤ B3 := (abs_nonneg _).trans (hB3.le le_rfl (by positivity) 0)
  have q4 : a * (P / 4) = Real.pi / 2 := by rw [← mul_div_assoc, aP]; ring
  refine ⟨B1 + B3 + 1, P, Q, H, q, ⟨0, 0, 0, 0, 1, 0, true, true⟩, zero_le_one, ?_, le_rfl, rfl, rfl, Or.inl rfl,
    Or.inr rfl, hB1.mono (by linarith), range, hB3.raise (by linarith),
    decaying_diffused 1 a (sh.differentiable (n := 1) (by norm_num)), ?_, ?_, fun n hn hm => ?_⟩
  · show (1 : ℝ) ≤ _; linarith
  · simp only [hH, hh, ← mul_div_assoc, bQ]
    rw [show 2 * Real.pi / 4 = Real.pi / 2 by ring]
    simp
  · simp only [hq, q4, Real.sin_pi_div_two, mul_one, mul_zero, neg_zero, Real.exp_zero]
    have : Real.exp (-(1 * a ^ 2 * dc ^ 2)) < 1 := by
      rw [Real.exp_lt_one_iff]
      have : 0 < a ^ 2 * dc ^ 2 := by positivity
      linarith
    exact this.ne'
  have hn1 : (1 : ℝ) ≤ n := by exact_mod_cast hn
  have hn0 : (0 : ℝ) < n := by linarith
  have hl : (pRef n).dims.nlayers = p46.dims.nlayers := rfl
  have hv := pRef_run hn hm
  refine ⟨hv, by simp [pRef]; omega, by simp [pRef]; omega, by positivity,
    div_le_self hdc.le hn1, ?_, ?_, by rw [hl, p46_layers]; norm_num, by simp [pRef, MeshParams.dims],
    fun stp hstp => ⟨?_, ?_⟩⟩
  · rw [hPd]; simp only [periodX, pRef, p46, lit_real]; push_cast; field_simp
  · rw [hQd]; simp only [periodY, pRef, p46, lit_real]; push_cast; field_simp
  · show 6 * 1 * ((dc / n) ^ 2 / 8) * 3 ≤ _
    have : 0 < (dc / n) ^ 2 := by positivity
    rcases hstp with rfl | rfl <;> norm_num [diffusionLimit] <;> linarith
  obtain ⟨m, -, hr, s1, s2, s3, -⟩ := exists_sampled hv (dc / n) (⟨0, 0, 0, 0, 1, 0, true, true⟩) true 0 H (fun _ => 0) (fun _ => 0)
    (fun z => H z * q (0, z))
  obtain ⟨hd, hc⟩ := ready_ok hv hr
  obtain ⟨m1, he, -⟩ := ((C40_safe_deterministic hd hc (noHook_ofParams (⟨0, 0, 0, 0, 1, 0, true, true⟩)) true).2.2 stp
    (List.replicate (8 * n ^ 2) (0, (dc / n) ^ 2 / 8))).2
  refine ⟨List.replicate (8 * n ^ 2) (0, (dc / n) ^ 2 / 8), m, m1,
    fun a ha => by rw [List.eq_of_mem_replicate ha], by rw [List.length_replicate]; push_cast; field_simp,
    hr, s1, fun e k a b => ?_, s3, he⟩
  rw [s2 e k a b]
  simp [normalOf, normal]

end Props
end
end Omega
