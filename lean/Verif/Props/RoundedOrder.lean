import Verif.Lib.ButcherPerturbed
import Verif.Props.RoundedStep
import Verif.Lib.Ieee

/-!
# C87: runs in rounded arithmetic converge

Every other property about accuracy is about runs in exact arithmetic.  Here the mesh is built, the tendency is
evaluated and the steps are taken in an arithmetic that rounds, and the result is compared with the solution.
-/

set_option linter.unusedVariables false
set_option linter.unusedSectionVars false

namespace Omega
noncomputable section
namespace Props

open Prog Model Refine Hex Set

/-! ### The exact stages stay near the state -/

section
variable {d : Dims} {m : Mem ℝ} {sw : SWModel ℝ}

theorem pack_axpy (d : Dims) (x y : Fld ℝ) (c : ℝ) : pack d (x.axpy c y) = pack d x + c • pack d y := by
  funext i
  rcases i with i | i | i <;> rfl

theorem pack_scale (d : Dims) (x : Fld ℝ) (a : ℝ) : pack d (x.map fun v => v * a) = a • pack d x := by
  funext i
  rcases i with i | i | i <;> exact mul_comm _ _

theorem pack_increment (hd : DimsOK d) (hc : ConnOK d m) (hH : HookOK d sw noHook m)
    (n1 : sw.prm.disable_h = false) (n2 : sw.prm.disable_vn = false) (t : ℝ) (o s : Fld ℝ) :
    pack d ((genSys d sw noHook m).tend .increment t o s) = pack d o + vfield d m sw (pack d s) := by
  rw [vfield_pack hd hc hH n1 n2]
  obtain ⟨a, b, c⟩ := tend_val (m := m) d sw .increment t o s
  funext i
  rcases i with i | i | i
  · simp only [pack, a, n1]; rfl
  · simp only [pack, b, n2]; rfl
  · simp only [pack, c]; rfl

theorem pack_replace (hd : DimsOK d) (hc : ConnOK d m) (hH : HookOK d sw noHook m)
    (n1 : sw.prm.disable_h = false) (n2 : sw.prm.disable_vn = false) (t : ℝ) (o s : Fld ℝ) :
    pack d ((genSys d sw noHook m).tend .replace t o s) = vfield d m sw (pack d s) := by
  rw [vfield_pack hd hc hH n1 n2, tend_textbook n1 n2]

theorem lsrk_near (hd : DimsOK d) (hc : ConnOK d m) (hH : HookOK d sw noHook m)
    (n1 : sw.prm.disable_h = false) (n2 : sw.prm.disable_vn = false) {W : Set (Ix d → ℝ)} {G : ℝ} (G0 : 0 ≤ G)
    (hG : ∀ v ∈ W, ‖vfield d m sw v‖ ≤ G) (C : Coef ℝ) (L : List ℕ) :
    ∀ κ : ℝ, 0 ≤ κ → ∃ D : ℝ, 0 ≤ D ∧ ∀ (t dt : ℝ) (q : Fld ℝ × Fld ℝ), 0 ≤ dt → ‖pack d q.1‖ ≤ κ →
      Metric.closedBall (pack d q.2) (dt * D) ⊆ W →
      ∀ x ∈ (genSys d sw noHook m).lsrkEvals C t dt L q, pack d x ∈ W := by
  induction L with
  | nil => exact fun κ κ0 => ⟨0, le_rfl, fun t dt q d0 hq hb x hx => by simp [Sys.lsrkEvals] at hx⟩
  | cons i L ih =>
    intro κ κ0
    obtain ⟨D, D0, key⟩ := ih (|C.a i| * κ + G) (by positivity)
    refine ⟨|C.b i| * (|C.a i| * κ + G) + D, by positivity, fun t dt q d0 hq hb x hx => ?_⟩
    have hin : pack d q.2 ∈ W := hb (Metric.mem_closedBall_self (by positivity))
    simp only [Sys.lsrkEvals, List.mem_cons] at hx
    rcases hx with rfl | hx
    · exact hin
    · set q' := (genSys d sw noHook m).lsrkStage C t dt i q with hq'
      have e1 : pack d q'.1 = C.a i • pack d q.1 + vfield d m sw (pack d q.2) := by
        rw [← pack_scale, ← pack_increment hd hc hH n1 n2 (t + C.c i * dt)]; rfl
      have e2 : pack d q'.2 = pack d q.2 + (dt * C.b i) • pack d q'.1 := by
        rw [← pack_axpy]; rfl
      have k1 : ‖pack d q'.1‖ ≤ |C.a i| * κ + G := by
        rw [e1]
        refine (norm_add_le _ _).trans (add_le_add ?_ (hG _ hin))
        rw [norm_smul, Real.norm_eq_abs]
        exact mul_le_mul_of_nonneg_left hq (abs_nonneg _)
      refine key t dt q' d0 k1 (fun v hv => hb ?_) x hx
      rw [Metric.mem_closedBall, dist_eq_norm] at hv ⊢
      have k2 : ‖pack d q'.2 - pack d q.2‖ ≤ dt * (|C.b i| * (|C.a i| * κ + G)) := by
        rw [e2, add_sub_cancel_left, norm_smul, Real.norm_eq_abs, abs_mul, abs_of_nonneg d0, mul_assoc]
        gcongr
      have := norm_sub_le_norm_sub_add_norm_sub v (pack d q'.2) (pack d q.2)
      linarith

theorem rk4_near (hd : DimsOK d) (hc : ConnOK d m) (hH : HookOK d sw noHook m)
    (n1 : sw.prm.disable_h = false) (n2 : sw.prm.disable_vn = false) {W : Set (Ix d → ℝ)} {G : ℝ} (G0 : 0 ≤ G)
    (hG : ∀ v ∈ W, ‖vfield d m sw v‖ ≤ G) (C : Coef ℝ) {α : ℝ} (hα : ∀ i < 3, |C.a i| ≤ α) (L : List ℕ)
    {t dt : ℝ} (d0 : 0 ≤ dt) {o : Fld ℝ} (hb : Metric.closedBall (pack d o) (dt * (α * G)) ⊆ W) :
    ∀ q : Fld ℝ × Fld ℝ, ‖pack d q.1‖ ≤ G →
      ∀ x ∈ (genSys d sw noHook m).rk4Evals C t dt o L q, pack d x ∈ W := by
  induction L with
  | nil => intro q hq x hx; simp [Sys.rk4Evals] at hx
  | cons i L ih =>
    intro q hq x hx
    have near : i < 3 → pack d (o.axpy (dt * C.a i) q.1) ∈ W := fun hi => by
      refine hb ?_
      rw [Metric.mem_closedBall, dist_eq_norm, pack_axpy, add_sub_cancel_left, norm_smul, Real.norm_eq_abs, abs_mul,
        abs_of_nonneg d0, mul_assoc]
      have := hα i hi
      have := (abs_nonneg _).trans this
      gcongr
    simp only [Sys.rk4Evals, List.mem_append] at hx
    rcases hx with hx | hx
    · by_cases hi : i < 3
      · rw [if_pos hi, List.mem_singleton] at hx
        rw [hx]
        exact near hi
      · rw [if_neg hi] at hx
        cases hx
    · refine ih _ ?_ x hx
      by_cases hi : i < 3
      · simp only [Sys.rk4Stage, if_pos hi]
        rw [pack_replace hd hc hH n1 n2]
        exact hG _ (near hi)
      · simp only [Sys.rk4Stage, if_neg hi]
        exact hq

/-- the states at which a step evaluates the tendency are within a distance proportional to the step size -/
theorem evals_near (hd : DimsOK d) (hc : ConnOK d m) (hH : HookOK d sw noHook m)
    (n1 : sw.prm.disable_h = false) (n2 : sw.prm.disable_vn = false) {W : Set (Ix d → ℝ)} {G : ℝ} (G0 : 0 ≤ G)
    (hG : ∀ v ∈ W, ‖vfield d m sw v‖ ≤ G) {stp : Stepper} (hs : FourthOrder stp) :
    ∃ D : ℝ, 0 ≤ D ∧ ∀ (dt : ℝ) (y : Fld ℝ), 0 ≤ dt → Metric.closedBall (pack d y) (dt * D) ⊆ W →
      ∀ x ∈ (genSys d sw noHook m).stepEvals (lit 0) dt (zeroFld, y) stp, pack d x ∈ W := by
  rcases hs with rfl | rfl
  · have hα : ∀ i < 3, |(rk4Coef : Coef ℝ).a i| ≤ 1 := by
      intro i hi
      interval_cases i <;> norm_num [rk4Coef, nth]
    refine ⟨1 * G, by positivity, fun dt y d0 hb x hx => ?_⟩
    have hin : pack d y ∈ W := hb (Metric.mem_closedBall_self (by positivity))
    simp only [Sys.stepEvals, List.mem_cons] at hx
    rcases hx with rfl | hx
    · exact hin
    · refine rk4_near hd hc hH n1 n2 G0 hG rk4Coef hα _ d0 hb _ ?_ x hx
      simp only
      rw [pack_replace hd hc hH n1 n2]
      exact hG _ hin
  · obtain ⟨D, D0, key⟩ := lsrk_near hd hc hH n1 n2 G0 hG (lsrkCoef 5) (List.range 5) 0 le_rfl
    refine ⟨D, D0, fun dt y d0 hb x hx => key (lit 0) dt (zeroFld, y) d0 ?_ hb x hx⟩
    have : pack d (zeroFld : Fld ℝ) = 0 := by
      funext i
      rcases i with i | i | i <;> simp [pack, zeroFld]
    rw [this, norm_zero]

end

/-- states during a run in any arithmetic, step by step -/
theorem run_steps_gen {R : Type} [Scalar R] {S : Sys R} {stp : Stepper} {dt : R} {sched : List (R × R)}
    (hs : ∀ q ∈ sched, q.2 = dt) (p : Fld R × Fld R) :
    ∃ x : ℕ → Fld R × Fld R, x 0 = p ∧ x sched.length = S.run stp sched p ∧
      ∀ n < sched.length, ∃ t, x (n + 1) = S.step t dt (x n) stp := by
  refine ⟨fun n => S.run stp (sched.take n) p, rfl, by simp, fun n hn => ⟨(sched[n]).1, ?_⟩⟩
  simp only [Sys.run]
  rw [List.take_succ_eq_append_getElem hn, List.foldl_append, ← hs _ (List.getElem_mem hn)]
  rfl

theorem pack_val_congr {R : Type} {d : Dims} {val : R → ℝ} {x y : Fld R} (h : EqFld d x y) :
    pack d (valFld val x) = pack d (valFld val y) :=
  pack_congr ⟨fun c k c0 c1 k0 k1 => congrArg val (h.h c k c0 c1 k0 k1),
    fun c k c0 c1 k0 k1 => congrArg val (h.vn c k c0 c1 k0 k1),
    fun l c k l0 l1 c0 c1 k0 k1 => congrArg val (h.tr l c k l0 l1 c0 c1 k0 k1)⟩

theorem rounded_order {stp : Stepper} (hs : FourthOrder stp) {s : ℕ} {A : ℕ → ℕ → ℝ} {b : ℕ → ℝ}
    (ht : HasTableau stp s A b) (ho : Butcher.Order4 s A b (defect stp))
    (hM : ∃ M : ℝ, (∀ i j, |A i j| ≤ M) ∧ ∀ i, |b i| ≤ M)
    {p : MeshParams} (hv : RunValid p) {dc : ℝ} (hdc : 0 < dc)
    {prm : Params ℝ} (n1 : prm.disable_h = false) (n2 : prm.disable_vn = false) {m : Mem ℝ}
    (hr : Ready p dc prm m) {T : ℝ} {u : ℝ → Fld ℝ} (hu : Solves p.dims m (SWModel.ofParams prm) T u) :
    ∃ K τ : ℝ, 0 ≤ K ∧ 0 < τ ∧ ∀ (R : Type) [Scalar R] (fin : R → Prop) (val : R → ℝ) (ε : ℝ), Machine fin val ε →
      ∀ (dcR : R) (prmR : Params R) (mR : Mem R), IsNum fin val dcR dc →
      ParamVals fin val prmR prm → Ready p dcR prmR mR →
      FinFld fin p.dims (mR.fld .state) → ∀ (δ : ℝ), δ ≤ τ → ‖pack p.dims (valFld val (mR.fld .state)) - pack p.dims (u 0)‖ ≤ δ →
      ∀ (dt : R) (sched : List (R × R)) (split : Bool) (m1 : Mem R), fin dt → 0 < val dt → val dt ≤ τ →
      ε ≤ τ * val dt →
      (∀ q ∈ sched, q.2 = dt) → sched.length * val dt ≤ T → sched.length * val dt * defect stp ≤ τ →
      Exec p.dims (stp.ctor p.dims ++ stp.run p.dims ⟨defaultKernels p.dims.vl, split⟩
        (SWModel.ofParams prmR) sched) mR m1 →
      FinFld fin p.dims (m1.fld .state) ∧ ‖pack p.dims (valFld val (m1.fld .state)) - pack p.dims (u (sched.length * val dt))‖ ≤
        K * (val dt ^ 4 + defect stp + ε / val dt + δ) := by
  obtain ⟨hd, hc⟩ := ready_ok hv hr
  have hH := hookOK_noHook (noHook_ofParams prm) p.dims m
  obtain ⟨du, wu⟩ := hu.pack hd hc hH n1 n2
  obtain ⟨M, hA, hb⟩ := hM
  have hF := vfield_smooth hc (SWModel.ofParams prm) fun i i0 i1 φ hφ => kiteMean_pos hv hdc hr i0 i1 hφ
  -- a compact neighbourhood of the trajectory
  have hK : IsCompact ((fun x => pack p.dims (u x)) '' Icc 0 T) :=
    isCompact_Icc.image_of_continuousOn fun x hx => (du x hx).continuousWithinAt
  obtain ⟨r, r0, hrW⟩ := hK.exists_cthickening_subset_open (wetSet_open p.dims)
    (by rintro _ ⟨x, hx, rfl⟩; exact wu x hx)
  set W := Metric.cthickening r ((fun x => pack p.dims (u x)) '' Icc 0 T) with hW
  have cW : IsCompact W := hK.cthickening
  obtain ⟨G, hG⟩ := cW.exists_bound_of_continuousOn (hF.continuousOn.mono hrW)
  have hG' : ∀ v ∈ W, ‖vfield p.dims m (SWModel.ofParams prm) v‖ ≤ |G| := fun v hv => (hG v hv).trans (le_abs_self G)
  obtain ⟨B, hB⟩ := cW.exists_bound_of_continuousOn (f := fun v => v) continuousOn_id
  have hμ : ∃ μ : ℝ, 0 < μ ∧ ∀ v ∈ W, ∀ i, μ ≤ v (.inl i) := by
    have each : ∀ i, ∃ μ : ℝ, 0 < μ ∧ ∀ v ∈ W, μ ≤ v (.inl i) := fun i => by
      by_cases ne : W.Nonempty
      · obtain ⟨v, hv, hmin⟩ := cW.exists_isMinOn ne (f := fun v => v (.inl i)) (continuous_apply _).continuousOn
        exact ⟨v (.inl i), hrW hv i, fun w hw => hmin hw⟩
      · exact ⟨1, one_pos, fun v hv => absurd ⟨v, hv⟩ ne⟩
    choose f f0 hf using each
    have S0 : 0 ≤ ∑ i, 1 / f i := Finset.sum_nonneg fun i _ => (one_div_pos.mpr (f0 i)).le
    refine ⟨1 / (∑ i, 1 / f i + 1), by positivity, fun v hv i => (hf i v hv).trans' ?_⟩
    have h1 : 1 / f i ≤ ∑ i, 1 / f i := Finset.single_le_sum (f := fun i => 1 / f i)
      (fun i _ => (one_div_pos.mpr (f0 i)).le) (Finset.mem_univ i)
    rw [div_le_iff₀ (f0 i)] at h1
    rw [div_le_iff₀ (by positivity)]
    linarith [f0 i]
  obtain ⟨μ, μ0, hμ⟩ := hμ
  obtain ⟨D, D0, near⟩ := evals_near hd hc hH n1 n2 (abs_nonneg G) hG' hs
  obtain ⟨C, u0, C0, u00, step⟩ := step_rounding hv hdc n1 n2 hr hs B μ0
  obtain ⟨K, τ, K0, τ0, key⟩ := Butcher.global_perturbed (wetSet_open p.dims) hF du wu M s (half_pos r0)
  set τ' := min (min τ 1) (min (r / 2 / (D + 1)) (min (min u0 (1 / (C + 1))) (τ / 2 / (|T| * C + 1)))) with hτ'
  have t'0 : 0 < τ' := by positivity
  refine ⟨K * (C + 1), min τ' (τ / 2), by positivity, by positivity,
    fun R _ fin val ε hR dcR prmR mR e1 e2 hrR f0 δ hδ hi dt sched split m1 fdt d0 d1 hε hsch hT hdef he => ?_⟩
  obtain ⟨hdR, hcR⟩ := ready_ok hv hrR
  have hHR := hookOK_noHook (noHook_ofParams prmR) p.dims mR
  have v := ((genSetup hdR hcR hHR).newRun he).2.2
  obtain ⟨x, x0, xN, xs⟩ := run_steps_gen (S := genSys p.dims (SWModel.ofParams prmR) noHook mR) (stp := stp) hsch
    (zeroFld, mR.fld .state)
  have dτ' : val dt ≤ τ' := d1.trans (min_le_left _ _)
  have dτ : val dt ≤ τ := dτ'.trans ((min_le_left _ _).trans (min_le_left _ _))
  have dl : val dt ≤ 1 := dτ'.trans ((min_le_left _ _).trans (min_le_right _ _))
  have dD : val dt * D ≤ r / 2 := by
    have := dτ'.trans ((min_le_right _ _).trans (min_le_left _ _))
    rw [le_div_iff₀ (by positivity)] at this
    linarith
  have εd : ε / val dt ≤ τ' := by
    rw [div_le_iff₀ d0]
    exact hε.trans (mul_le_mul_of_nonneg_right (min_le_left _ _) d0.le)
  have εd0 : 0 ≤ ε / val dt := div_nonneg hR.pos.le d0.le
  have εle : ε ≤ ε / val dt := by
    rw [le_div_iff₀ d0]
    exact mul_le_of_le_one_right hR.pos.le dl
  have εu : ε ≤ u0 := εle.trans (εd.trans ((min_le_right _ _).trans ((min_le_right _ _).trans
    ((min_le_left _ _).trans (min_le_left _ _)))))
  have εC : C * (ε / val dt) ≤ 1 := by
    have := εd.trans ((min_le_right _ _).trans ((min_le_right _ _).trans ((min_le_left _ _).trans (min_le_right _ _))))
    rw [le_div_iff₀ (by positivity)] at this
    linarith
  have εT : |T| * C * (ε / val dt) ≤ τ / 2 := by
    have := εd.trans ((min_le_right _ _).trans ((min_le_right _ _).trans (min_le_right _ _)))
    rw [le_div_iff₀ (by positivity)] at this
    linarith
  have N0 : 0 ≤ (sched.length : ℝ) * val dt := by positivity
  have hdef' : sched.length * val dt * (defect stp + C * (ε / val dt)) ≤ τ := by
    have h1 := hdef.trans (min_le_right _ _)
    have h2 : sched.length * val dt * (C * (ε / val dt)) ≤ |T| * (C * (ε / val dt)) :=
      mul_le_mul_of_nonneg_right (hT.trans (le_abs_self T)) (by positivity)
    rw [mul_add]
    linarith
  -- one step
  have one : ∀ n < sched.length, ‖pack p.dims (valFld val (x n).2) - pack p.dims (u (n * val dt))‖ ≤ r / 2 →
      FinFld fin p.dims (x n).1 ∧ FinFld fin p.dims (x n).2 →
      (FinFld fin p.dims (x (n + 1)).1 ∧ FinFld fin p.dims (x (n + 1)).2) ∧
      ‖pack p.dims (valFld val (x (n + 1)).2) - Butcher.rkStep (vfield p.dims m (SWModel.ofParams prm)) s A b
        (val dt) (pack p.dims (valFld val (x n).2))‖ ≤ C * ε := by
    rintro n hn hball ⟨f1, f2⟩
    obtain ⟨t, e⟩ := xs n hn
    set y := (x n).2 with hy
    set Y := pack p.dims (valFld val y) with hY
    have inT : (n : ℝ) * val dt ∈ Icc 0 T :=
      ⟨by positivity, (mul_le_mul_of_nonneg_right (by exact_mod_cast hn.le) d0.le).trans hT⟩
    have ball : Metric.closedBall (pack p.dims (unpack p.dims Y)) (val dt * D) ⊆ W := fun w hw => by
      rw [pack_unpack, Metric.mem_closedBall, dist_eq_norm] at hw
      refine Metric.mem_cthickening_of_dist_le w _ r _ (mem_image_of_mem _ inT) ?_
      rw [dist_eq_norm]
      have := norm_sub_le_norm_sub_add_norm_sub w Y (pack p.dims (u (n * val dt)))
      linarith
    have inW : Y ∈ W := by
      have := ball (Metric.mem_closedBall_self (by positivity))
      rwa [pack_unpack] at this
    have ev := near (val dt) (unpack p.dims Y) d0.le ball
    obtain ⟨g1, g2, hst⟩ := step R fin val ε hR εu dcR prmR mR e1 e2 hrR t dt (x n).1 y f1 f2 fdt d0.le dl (hB Y inW)
      fun z hz => by
        intro c k c0 c1 k0 k1
        exact hμ _ (ev z hz) (⟨c, Finset.mem_Ico.mpr ⟨c0, c1⟩⟩, ⟨k, Finset.mem_Ico.mpr ⟨k0, k1⟩⟩)
    have e' : x (n + 1) = (genSys p.dims (SWModel.ofParams prmR) noHook mR).step t dt ((x n).1, y) stp := e
    rw [tableau_step ht hd hc hH n1 n2, pack_unpack] at hst
    rw [e']
    exact ⟨⟨g1, g2⟩, hst⟩
  have fins : ∀ n ≤ sched.length,
      (∀ j < n, ‖pack p.dims (valFld val (x j).2) - pack p.dims (u (j * val dt))‖ ≤ r / 2) →
      FinFld fin p.dims (x n).1 ∧ FinFld fin p.dims (x n).2 := by
    intro n
    induction n with
    | zero =>
      intro _ _
      rw [x0]
      refine ⟨fun i => ?_, f0⟩
      rcases i with i | i | i <;> exact hR.zero.1
    | succ n ih =>
      exact fun hn hb => (one n (by omega) (hb n (by omega)) (ih (by omega) fun j hj => hb j (by omega))).1
  have main := key A b (defect stp) hA hb ho (val dt) (C * (ε / val dt)) δ sched.length
    (fun n => pack p.dims (valFld val (x n).2)) d0.le dτ hT hdef' (by positivity) εC
    (hδ.trans ((min_le_right _ _).trans (by linarith))) (by simp only [x0]; exact hi) fun n hn hball => ?_
  · obtain ⟨balls, main⟩ := main
    constructor
    · have := (fins _ le_rfl fun j hj => balls j hj.le).2
      rw [xN] at this
      intro i
      have hi := this i
      rcases i with ⟨⟨c, hc⟩, ⟨k, hk⟩⟩ | ⟨⟨c, hc⟩, ⟨k, hk⟩⟩ | ⟨⟨l, hl⟩, ⟨c, hc⟩, ⟨k, hk⟩⟩
      · have a := Finset.mem_Ico.mp hc; have b := Finset.mem_Ico.mp hk
        show fin ((m1.fld .state).h c k)
        rw [v.h c k a.1 a.2 b.1 b.2]; exact hi
      · have a := Finset.mem_Ico.mp hc; have b := Finset.mem_Ico.mp hk
        show fin ((m1.fld .state).vn c k)
        rw [v.vn c k a.1 a.2 b.1 b.2]; exact hi
      · have a := Finset.mem_Ico.mp hc; have b := Finset.mem_Ico.mp hk; have g := Finset.mem_Ico.mp hl
        show fin ((m1.fld .state).tr l c k)
        rw [v.tr l c k g.1 g.2 a.1 a.2 b.1 b.2]; exact hi
    rw [pack_val_congr v, ← xN]
    refine main.trans ?_
    rw [mul_assoc]
    refine mul_le_mul_of_nonneg_left ?_ K0
    have q1 : 0 ≤ val dt ^ 4 := by positivity
    have q2 := defect_nonneg stp
    have q3 : 0 ≤ δ := (norm_nonneg _).trans hi
    nlinarith [mul_nonneg C0 q1, mul_nonneg C0 q2, mul_nonneg C0 q3]
  · have hst := (one n hn (hball n le_rfl) (fins n hn.le fun j hj => hball j hj.le)).2
    refine ⟨fun i => Butcher.stg (vfield p.dims m (SWModel.ofParams prm)) A
      (pack p.dims (valFld val (x n).2)) (val dt) i 0, fun i hi => ?_, ?_⟩
    · beta_reduce
      rw [Butcher.stg_zero, sub_self, norm_zero]
      positivity
    · rw [Butcher.rkStep] at hst
      have e3 : val dt * (C * (ε / val dt)) = C * ε := by field_simp
      rw [e3]
      exact hst

/-- `r` is a finite number with value within `e` of `x` -/
def Within {R : Type} (fin : R → Prop) (val : R → ℝ) (e : ℝ) (r : R) (x : ℝ) : Prop := fin r ∧ |val r - x| ≤ e

/-- On every mesh, for all parameters and every solution `u` of the textbook equations that stays wet up to a time
`T`, there are constants such that the following holds in every floating-point arithmetic of precision `ε`: a run of
a new stepper of order four, on the mesh as built in that arithmetic, from finite initial values within `δ` of those
of the solution, ends with finite numbers within `K (dt⁴ + defect + ε / dt + δ)` of the solution, in every entry.  The
step size may not be smaller than the order of `ε`. -/
theorem C87_rounded_run {p : MeshParams} (hv : RunValid p) {dc : ℝ} (hdc : 0 < dc)
    {prm : Params ℝ} (n1 : prm.disable_h = false) (n2 : prm.disable_vn = false) {m : Mem ℝ}
    (hr : Ready p dc prm m) {T : ℝ} {u : ℝ → Fld ℝ} (hu : Solves p.dims m (SWModel.ofParams prm) T u) :
    ∃ K τ : ℝ, 0 ≤ K ∧ 0 < τ ∧ ∀ (R : Type) [Scalar R] (fin : R → Prop) (val : R → ℝ) (ε : ℝ), Machine fin val ε →
      ∀ (dcR : R) (prmR : Params R) (mR : Mem R), IsNum fin val dcR dc →
      ParamVals fin val prmR prm → Ready p dcR prmR mR →
      ∀ δ : ℝ, 0 ≤ δ → δ ≤ τ →
      (∀ c k, 0 ≤ c → c < p.dims.ncells → 0 ≤ k → k < p.dims.nlayers →
        Within fin val δ (mR.real (.h_cell .state) 0 c k) ((u 0).h c k)) →
      (∀ e k, 0 ≤ e → e < p.dims.nedges → 0 ≤ k → k < p.dims.nlayers →
        Within fin val δ (mR.real (.vn_edge .state) 0 e k) ((u 0).vn e k)) →
      (∀ l c k, 0 ≤ l → l < p.dims.ntracers → 0 ≤ c → c < p.dims.ncells → 0 ≤ k → k < p.dims.nlayers →
        Within fin val δ (mR.real (.tr_cell .state) l c k) ((u 0).tr l c k)) →
      ∀ stp, FourthOrder stp → ∀ (dt : R) (sched : List (R × R)) (split : Bool) (m1 : Mem R),
      fin dt → 0 < val dt → val dt ≤ τ → ε ≤ τ * val dt → (∀ q ∈ sched, q.2 = dt) → sched.length * val dt ≤ T →
      sched.length * val dt * defect stp ≤ τ →
      Exec p.dims (stp.ctor p.dims ++ stp.run p.dims ⟨defaultKernels p.dims.vl, split⟩
        (SWModel.ofParams prmR) sched) mR m1 →
      (∀ c k, 0 ≤ c → c < p.dims.ncells → 0 ≤ k → k < p.dims.nlayers →
        Within fin val (K * (val dt ^ 4 + defect stp + ε / val dt + δ)) (m1.real (.h_cell .state) 0 c k)
          ((u (sched.length * val dt)).h c k)) ∧
      (∀ e k, 0 ≤ e → e < p.dims.nedges → 0 ≤ k → k < p.dims.nlayers →
        Within fin val (K * (val dt ^ 4 + defect stp + ε / val dt + δ)) (m1.real (.vn_edge .state) 0 e k)
          ((u (sched.length * val dt)).vn e k)) ∧
      ∀ l c k, 0 ≤ l → l < p.dims.ntracers → 0 ≤ c → c < p.dims.ncells → 0 ≤ k → k < p.dims.nlayers →
        Within fin val (K * (val dt ^ 4 + defect stp + ε / val dt + δ)) (m1.real (.tr_cell .state) l c k)
          ((u (sched.length * val dt)).tr l c k) := by
  obtain ⟨K, τ, K0, τ0, key⟩ := rounded_order (.inl rfl) rk4_tableau rk4_order4
    (exists_tab_bound 4 _ _ (fun i j h => if_neg (by omega)) (fun i h => by
      rw [rkB, if_neg (by omega), if_neg (by omega)])) hv hdc n1 n2 hr hu
  obtain ⟨K', τ', K0', τ0', key'⟩ := rounded_order (.inr rfl) lsrk5_tableau lsrk5_order4
    (exists_tab_bound 5 _ _ (fun i j h => if_neg (by omega)) (fun i h => if_neg (by omega))) hv hdc n1 n2 hr hu
  refine ⟨max K K', min τ τ', le_max_of_le_left K0, lt_min τ0 τ0',
    fun R _ fin val ε hR dcR prmR mR e1 e2 hrR δ δ0 hδ i1 i2 i3 stp hstp dt sched split m1 fdt d0 d1 hε hs hT hdef he => ?_⟩
  have q0 : 0 ≤ val dt ^ 4 + defect stp + ε / val dt + δ := by
    have := div_nonneg hR.pos.le d0.le
    have := defect_nonneg stp
    positivity
  have init : ‖pack p.dims (valFld val (mR.fld .state)) - pack p.dims (u 0)‖ ≤ δ := by
    rw [pi_norm_le_iff_of_nonneg δ0]
    rintro (⟨⟨c, hc⟩, ⟨k, hk⟩⟩ | ⟨⟨c, hc⟩, ⟨k, hk⟩⟩ | ⟨⟨l, hl⟩, ⟨c, hc⟩, ⟨k, hk⟩⟩)
    · have a := Finset.mem_Ico.mp hc; have b := Finset.mem_Ico.mp hk
      exact (i1 c k a.1 a.2 b.1 b.2).2
    · have a := Finset.mem_Ico.mp hc; have b := Finset.mem_Ico.mp hk
      exact (i2 c k a.1 a.2 b.1 b.2).2
    · have a := Finset.mem_Ico.mp hc; have b := Finset.mem_Ico.mp hk; have g := Finset.mem_Ico.mp hl
      exact (i3 l c k g.1 g.2 a.1 a.2 b.1 b.2).2
  have fini : FinFld fin p.dims (mR.fld .state) := by
    rintro (⟨⟨c, hc⟩, ⟨k, hk⟩⟩ | ⟨⟨c, hc⟩, ⟨k, hk⟩⟩ | ⟨⟨l, hl⟩, ⟨c, hc⟩, ⟨k, hk⟩⟩)
    · have a := Finset.mem_Ico.mp hc; have b := Finset.mem_Ico.mp hk
      exact (i1 c k a.1 a.2 b.1 b.2).1
    · have a := Finset.mem_Ico.mp hc; have b := Finset.mem_Ico.mp hk
      exact (i2 c k a.1 a.2 b.1 b.2).1
    · have a := Finset.mem_Ico.mp hc; have b := Finset.mem_Ico.mp hk; have g := Finset.mem_Ico.mp hl
      exact (i3 l c k g.1 g.2 a.1 a.2 b.1 b.2).1
  have le1 : ε ≤ τ * val dt := hε.trans (mul_le_mul_of_nonneg_right (min_le_left _ _) d0.le)
  have le2 : ε ≤ τ' * val dt := hε.trans (mul_le_mul_of_nonneg_right (min_le_right _ _) d0.le)
  have main : FinFld fin p.dims (m1.fld .state) ∧
      ‖pack p.dims (valFld val (m1.fld .state)) - pack p.dims (u (sched.length * val dt))‖ ≤
      max K K' * (val dt ^ 4 + defect stp + ε / val dt + δ) := by
    rcases hstp with rfl | rfl
    · obtain ⟨g1, g2⟩ := key R fin val ε hR dcR prmR mR e1 e2 hrR fini δ (hδ.trans (min_le_left _ _)) init dt sched
        split m1 fdt d0 (d1.trans (min_le_left _ _)) le1 hs hT (hdef.trans (min_le_left _ _)) he
      exact ⟨g1, g2.trans (mul_le_mul_of_nonneg_right (le_max_left _ _) q0)⟩
    · obtain ⟨g1, g2⟩ := key' R fin val ε hR dcR prmR mR e1 e2 hrR fini δ (hδ.trans (min_le_right _ _)) init dt sched
        split m1 fdt d0 (d1.trans (min_le_right _ _)) le2 hs hT (hdef.trans (min_le_right _ _)) he
      exact ⟨g1, g2.trans (mul_le_mul_of_nonneg_right (le_max_right _ _) q0)⟩
  have co := fun i => (norm_le_pi_norm (pack p.dims (valFld val (m1.fld .state)) -
    pack p.dims (u (sched.length * val dt))) i).trans main.2
  have fm := main.1
  refine ⟨fun c k c0 c1 k0 k1 => ?_, fun c k c0 c1 k0 k1 => ?_, fun l c k l0 l1 c0 c1 k0 k1 => ?_⟩
  · exact ⟨fm.h c0 c1 k0 k1, co (.inl (⟨c, Finset.mem_Ico.mpr ⟨c0, c1⟩⟩, ⟨k, Finset.mem_Ico.mpr ⟨k0, k1⟩⟩))⟩
  · exact ⟨fm.vn c0 c1 k0 k1, co (.inr (.inl (⟨c, Finset.mem_Ico.mpr ⟨c0, c1⟩⟩, ⟨k, Finset.mem_Ico.mpr ⟨k0, k1⟩⟩)))⟩
  · exact ⟨fm.tr l0 l1 c0 c1 k0 k1, co (.inr (.inr (⟨l, Finset.mem_Ico.mpr ⟨l0, l1⟩⟩, ⟨c, Finset.mem_Ico.mpr ⟨c0, c1⟩⟩,
      ⟨k, Finset.mem_Ico.mpr ⟨k0, k1⟩⟩)))⟩

/-- The classical stepper with `N` steps of size `T / N` keeps its order four in floating point as long as the
precision is at most `1 / N⁵` and the error of the initial values at most `1 / N⁴`. -/
theorem C87_rounded_rk4_converges {p : MeshParams} (hv : RunValid p) {dc : ℝ} (hdc : 0 < dc)
    {prm : Params ℝ} (n1 : prm.disable_h = false) (n2 : prm.disable_vn = false) {m : Mem ℝ}
    (hr : Ready p dc prm m) {T : ℝ} (hT : 0 < T) {u : ℝ → Fld ℝ} (hu : Solves p.dims m (SWModel.ofParams prm) T u) :
    ∃ (K : ℝ) (N0 : ℕ), ∀ (R : Type) [Scalar R] (fin : R → Prop) (val : R → ℝ) (ε : ℝ), Machine fin val ε →
      ∀ (dcR : R) (prmR : Params R) (mR : Mem R), IsNum fin val dcR dc →
      ParamVals fin val prmR prm → Ready p dcR prmR mR →
      ∀ (dt : R) (sched : List (R × R)) (split : Bool) (m1 : Mem R), N0 ≤ sched.length →
      ε ≤ 1 / sched.length ^ 5 → IsNum fin val dt (T / sched.length) → (∀ q ∈ sched, q.2 = dt) →
      (∀ c k, 0 ≤ c → c < p.dims.ncells → 0 ≤ k → k < p.dims.nlayers →
        Within fin val (1 / sched.length ^ 4) (mR.real (.h_cell .state) 0 c k) ((u 0).h c k)) →
      (∀ e k, 0 ≤ e → e < p.dims.nedges → 0 ≤ k → k < p.dims.nlayers →
        Within fin val (1 / sched.length ^ 4) (mR.real (.vn_edge .state) 0 e k) ((u 0).vn e k)) →
      (∀ l c k, 0 ≤ l → l < p.dims.ntracers → 0 ≤ c → c < p.dims.ncells → 0 ≤ k → k < p.dims.nlayers →
        Within fin val (1 / sched.length ^ 4) (mR.real (.tr_cell .state) l c k) ((u 0).tr l c k)) →
      Exec p.dims (Stepper.rk4.ctor p.dims ++ Stepper.rk4.run p.dims ⟨defaultKernels p.dims.vl, split⟩
        (SWModel.ofParams prmR) sched) mR m1 →
      (∀ c k, 0 ≤ c → c < p.dims.ncells → 0 ≤ k → k < p.dims.nlayers →
        Within fin val (K / sched.length ^ 4) (m1.real (.h_cell .state) 0 c k) ((u T).h c k)) ∧
      (∀ e k, 0 ≤ e → e < p.dims.nedges → 0 ≤ k → k < p.dims.nlayers →
        Within fin val (K / sched.length ^ 4) (m1.real (.vn_edge .state) 0 e k) ((u T).vn e k)) ∧
      ∀ l c k, 0 ≤ l → l < p.dims.ntracers → 0 ≤ c → c < p.dims.ncells → 0 ≤ k → k < p.dims.nlayers →
        Within fin val (K / sched.length ^ 4) (m1.real (.tr_cell .state) l c k) ((u T).tr l c k) := by
  obtain ⟨K, τ, K0, τ0, key⟩ := C87_rounded_run hv hdc n1 n2 hr hu
  obtain ⟨N0, hN0⟩ := exists_nat_ge (T / τ + 1 / (τ * T) + 1 / τ + 1)
  have g1 : 0 < T / τ := div_pos hT τ0
  have g2 : 0 < 1 / (τ * T) := by positivity
  have g3 : 0 < 1 / τ := by positivity
  refine ⟨K * (T ^ 4 + 1 / T + 1), N0, fun R _ fin val ε hR dcR prmR mR e1 e2 hrR dt sched split m1 hN hε hdt' hs i1 i2
    i3 he => ?_⟩
  obtain ⟨fdt, hdt⟩ := hdt'
  have hN' : (N0 : ℝ) ≤ sched.length := by exact_mod_cast hN
  set N : ℝ := (sched.length : ℝ) with hNdef
  have N1 : 1 ≤ N := by linarith
  have Np : 0 < N := by linarith
  have N4 : N ≤ N ^ 4 := le_self_pow₀ N1 (by norm_num)
  have eT : N * val dt = T := by rw [hdt]; exact mul_div_cancel₀ T Np.ne'
  have d0 : 0 < val dt := by rw [hdt]; positivity
  have := key R fin val ε hR dcR prmR mR e1 e2 hrR (1 / N ^ 4) (by positivity)
    (by
      rw [div_le_iff₀ (by positivity)]
      have : 1 / τ ≤ N ^ 4 := by linarith
      rw [div_le_iff₀ τ0] at this
      linarith) i1 i2 i3 .rk4 (.inl rfl) dt sched split m1 fdt d0
    (by rw [hdt, div_le_iff₀ Np, mul_comm, ← div_le_iff₀ τ0]; linarith)
    (hε.trans (by
      rw [hdt, div_le_iff₀ (by positivity)]
      have : 1 / (τ * T) ≤ N ^ 4 := by linarith
      rw [div_le_iff₀ (by positivity)] at this
      have e : τ * (T / N) * N ^ 5 = N ^ 4 * (τ * T) := by field_simp
      rw [e]
      exact this)) hs eT.le (by simp [defect, τ0.le]) he
  rw [← hNdef, eT] at this
  have le : K * (val dt ^ 4 + defect .rk4 + ε / val dt + 1 / N ^ 4) ≤ K * (T ^ 4 + 1 / T + 1) / N ^ 4 := by
    rw [mul_div_assoc]
    refine mul_le_mul_of_nonneg_left ?_ K0
    have b1 : val dt ^ 4 = T ^ 4 / N ^ 4 := by rw [hdt, div_pow]
    have b2 : ε / val dt ≤ 1 / T / N ^ 4 := by
      rw [div_le_iff₀ d0, hdt]
      refine hε.trans (le_of_eq ?_)
      field_simp
    simp only [defect, add_zero, add_div, b1]
    linarith
  obtain ⟨a, b, c⟩ := this
  exact ⟨fun i k c0 c1 k0 k1 => (a i k c0 c1 k0 k1).imp_right (·.trans le),
    fun i k c0 c1 k0 k1 => (b i k c0 c1 k0 k1).imp_right (·.trans le),
    fun l i k l0 l1 c0 c1 k0 k1 => (c l i k l0 l1 c0 c1 k0 k1).imp_right (·.trans le)⟩

/-! ### Non-vacuity -/

/-- double precision, with and without contraction, satisfies the assumptions on the arithmetic -/
example (fma : Bool) : Machine (Ieee.Fin (b := 0) (fma := fma)) Ieee.val (2⁻¹ ^ 51) := by
  have := Ieee.machine 0 fma
  rwa [show 4 * prec 0 = 2⁻¹ ^ 51 by rw [prec]; norm_num] at this

/-- A fluid with rotation, viscosity and a tracer on a mesh of 24 cells: in arithmetics of high enough precision
there are runs with any large number of steps, and they end within `K / N⁴` of the solution without overflow. -/
example (fma : Bool) : ∃ (T : ℝ) (u : ℝ → Fld ℝ) (m : Mem ℝ) (K : ℝ) (N0 : ℕ), 0 < T ∧
    Ready p46 2 ⟨1, 10, 1 / 100, 0, 1 / 100, 0, false, false⟩ m ∧
    Solves p46.dims m (SWModel.ofParams ⟨1, 10, 1 / 100, 0, 1 / 100, 0, false, false⟩) T u ∧
    ∀ N : ℕ, N0 ≤ N → ∃ b0 : ℕ, ∀ b ≥ b0, ∃ (mR m1 : Mem (Ieee b fma)) (prmR : Params (Ieee b fma)) (dt : Ieee b fma),
      ParamVals Ieee.Fin Ieee.val prmR ⟨1, 10, 1 / 100, 0, 1 / 100, 0, false, false⟩ ∧
      Ready p46 (Ieee.num b fma 2) prmR mR ∧
      Exec p46.dims (Stepper.rk4.ctor p46.dims ++ Stepper.rk4.run p46.dims ⟨defaultKernels p46.dims.vl, true⟩
        (SWModel.ofParams prmR) (List.replicate N (lit 0, dt))) mR m1 ∧
      dt.val = T / N ∧
      ∀ c k, 0 ≤ c → c < p46.dims.ncells → 0 ≤ k → k < p46.dims.nlayers →
        Within Ieee.Fin Ieee.val (K / N ^ 4) (m1.real (.h_cell .state) 0 c k) ((u T).h c k) := by
  obtain ⟨m, hr, hst, -⟩ := exists_ready p46_valid (2 : ℝ)
    ⟨1, 10, 1 / 100, 0, 1 / 100, 0, false, false⟩
    ⟨fun c _ => 10 + (c : ℝ) / 100, fun e _ => (e : ℝ) / 1000, fun _ c _ => 10 + (c : ℝ)⟩ zeroFld
  obtain ⟨T, u, T0, hu, h0⟩ := C80_solution_exists p46_run two_pos (m := m) rfl rfl hr
    (fun c k c0 _ _ _ => by
      show 0 < (m.fld .state).h c k
      rw [hst]
      have : (0 : ℝ) ≤ c := by exact_mod_cast c0
      show (0 : ℝ) < 10 + (c : ℝ) / 100
      positivity)
  obtain ⟨K, N0, key⟩ := C87_rounded_rk4_converges p46_run two_pos rfl rfl hr T0 hu
  refine ⟨T, u, m, K, max N0 1, T0, hr, hu, fun N hN => ?_⟩
  have hN1 : N0 ≤ N := (le_max_left _ _).trans hN
  have Np : (0 : ℝ) < N := by exact_mod_cast (le_max_right _ _).trans hN
  obtain ⟨b0, hb0⟩ := exists_pow_lt_of_lt_one (show (0 : ℝ) < 1 / N ^ 5 by positivity) (show (2⁻¹ : ℝ) < 1 by norm_num)
  -- the initial values and the step size do not overflow
  obtain ⟨b1, hb1⟩ := pow_unbounded_of_one_lt (max ‖pack p46.dims (m.fld .state)‖ (max (T / N) 16)) (one_lt_two (α := ℝ))
  refine ⟨max b0 b1, fun b hb => ?_⟩
  have hb0' : b0 ≤ b := (le_max_left _ _).trans hb
  have hb1' : b1 ≤ b := (le_max_right _ _).trans hb
  have big : ∀ x : ℝ, |x| ≤ max ‖pack p46.dims (m.fld .state)‖ (max (T / N) 16) → |x| < huge b := fun x hx =>
    (hx.trans_lt hb1).trans_le (pow_le_pow_right₀ (by norm_num) (by omega))
  have hε : 4 * prec b ≤ 1 / N ^ 5 := by
    have h1 : (2⁻¹ : ℝ) ^ (53 + b) ≤ 2⁻¹ ^ (b0 + 2) := pow_le_pow_of_le_one (by norm_num) (by norm_num) (by omega)
    have h2 : (2⁻¹ : ℝ) ^ (b0 + 2) = 2⁻¹ ^ b0 / 4 := by rw [pow_add]; norm_num; ring
    rw [prec]
    linarith
  let num := Ieee.num b fma
  have isn : ∀ x : ℝ, |x| ≤ max ‖pack p46.dims (m.fld .state)‖ (max (T / N) 16) → IsNum Ieee.Fin Ieee.val (num x) x :=
    fun x hx => ⟨Ieee.fin_num (big x hx), rfl⟩
  have sm : ∀ x : ℝ, |x| ≤ 16 → IsNum Ieee.Fin Ieee.val (num x) x := fun x hx =>
    isn x (le_max_of_le_right (le_max_of_le_right hx))
  let lift : Fld ℝ → Fld (Ieee b fma) := fun x =>
    ⟨fun c k => num (x.h c k), fun e k => num (x.vn e k), fun l c k => num (x.tr l c k)⟩
  set prmR : Params (Ieee b fma) := ⟨num 1, num 10, num (1 / 100), num 0, num (1 / 100), num 0, false, false⟩ with hprm
  have hP : ParamVals Ieee.Fin Ieee.val prmR ⟨1, 10, 1 / 100, 0, 1 / 100, 0, false, false⟩ :=
    ⟨sm 1 (by norm_num), sm 10 (by norm_num [abs_of_pos]), sm (1 / 100) (by norm_num [abs_of_pos]), sm 0 (by norm_num),
      sm (1 / 100) (by norm_num [abs_of_pos]), sm 0 (by norm_num), rfl, rfl⟩
  have hdt : IsNum Ieee.Fin Ieee.val (num (T / N)) (T / N) := isn _ (by
    rw [abs_of_pos (by positivity)]; exact le_max_of_le_right (le_max_left _ _))
  obtain ⟨mR, hrR, hsR, -⟩ := exists_ready p46_valid (num 2) prmR (lift (m.fld .state)) (lift zeroFld)
  obtain ⟨hd, hc⟩ := ready_ok p46_run hrR
  obtain ⟨m1, he, -⟩ := ((C40_safe_deterministic hd hc (noHook_ofParams prmR) true).2.2 .rk4
    (List.replicate N (lit 0, num (T / N)))).2
  refine ⟨mR, m1, prmR, num (T / N), hP, hrR, he, rfl, ?_⟩
  have z : (0 : ℝ) ≤ 1 / N ^ 4 := by positivity
  have ent : ∀ i : Ix p46.dims, Within Ieee.Fin Ieee.val (1 / N ^ 4) (num (pack p46.dims (m.fld .state) i))
      (pack p46.dims (m.fld .state) i) := fun i => by
    obtain ⟨a, b⟩ := isn _ (le_max_of_le_left (norm_le_pi_norm (pack p46.dims (m.fld .state)) i))
    refine ⟨a, ?_⟩
    rw [b, sub_self, abs_zero]
    exact z
  have := (key (Ieee b fma) Ieee.Fin Ieee.val _ (Ieee.machine b fma) (num 2) prmR mR (sm 2 (by norm_num)) hP hrR
    (num (T / N)) (List.replicate N (lit 0, num (T / N))) true m1 (by simpa using hN1) (by simpa using hε)
    (by simpa using hdt) (fun q hq => by rw [List.eq_of_mem_replicate hq])
    (fun c k c0 c1 k0 k1 => by
      rw [← h0.h c k c0 c1 k0 k1, List.length_replicate]
      have e : mR.real (.h_cell .state) 0 c k = num ((m.fld .state).h c k) :=
        congrArg (fun x : Fld (Ieee b fma) => x.h c k) hsR
      rw [e]
      exact ent (.inl (⟨c, Finset.mem_Ico.mpr ⟨c0, c1⟩⟩, ⟨k, Finset.mem_Ico.mpr ⟨k0, k1⟩⟩)))
    (fun c k c0 c1 k0 k1 => by
      rw [← h0.vn c k c0 c1 k0 k1, List.length_replicate]
      have e : mR.real (.vn_edge .state) 0 c k = num ((m.fld .state).vn c k) :=
        congrArg (fun x : Fld (Ieee b fma) => x.vn c k) hsR
      rw [e]
      exact ent (.inr (.inl (⟨c, Finset.mem_Ico.mpr ⟨c0, c1⟩⟩, ⟨k, Finset.mem_Ico.mpr ⟨k0, k1⟩⟩))))
    (fun l c k l0 l1 c0 c1 k0 k1 => by
      rw [← h0.tr l c k l0 l1 c0 c1 k0 k1, List.length_replicate]
      have e : mR.real (.tr_cell .state) l c k = num ((m.fld .state).tr l c k) :=
        congrArg (fun x : Fld (Ieee b fma) => x.tr l c k) hsR
      rw [e]
      exact ent (.inr (.inr (⟨l, Finset.mem_Ico.mpr ⟨l0, l1⟩⟩, ⟨c, Finset.mem_Ico.mpr ⟨c0, c1⟩⟩,
        ⟨k, Finset.mem_Ico.mpr ⟨k0, k1⟩⟩)))) he).1
  rwa [List.length_replicate] at this

end Props
end
end Omega
