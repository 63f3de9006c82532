import Verif.Lib.ButcherPerturbed
import Verif.Props.TimeOrder
import Mathlib.Analysis.Calculus.MeanValue

/-!
# C86: the time stepping of the forced model is fourth-order accurate

The drivers may add a forcing that depends on position and time to the tendency (`additional_tendency`, used by
the test with a manufactured solution).  The forcing is evaluated at the stage times of the stepper.
-/

set_option linter.unusedVariables false
set_option linter.unusedSectionVars false

namespace Omega
noncomputable section
namespace Props

open Prog Model Refine Hex Set
open scoped ContDiff

/-- the forcing at a time: functions of position on cells, projected on the normals of edges -/
def forceFld (fh fx fy : ℝ → ℝ → ℝ → ℝ) (m : Mem ℝ) (t : ℝ) : Fld ℝ where
  h c _ := fh (m.real .x_cell 0 c 0) (m.real .y_cell 0 c 0) t
  vn e _ := Real.cos (m.real .angle_edge 0 e 0) * fx (m.real .x_edge 0 e 0) (m.real .y_edge 0 e 0) t +
    Real.sin (m.real .angle_edge 0 e 0) * fy (m.real .x_edge 0 e 0) (m.real .y_edge 0 e 0) t
  tr _ _ _ := 0

section
variable {d : Dims} {m : Mem ℝ} {sw : SWModel ℝ} {fh fx fy : ℝ → ℝ → ℝ → ℝ}

/-- the model with forcing -/
local notation "Sf" => genSys d (SWModel.forced d sw fh fx fy) (forceFn fh fx fy m) m

theorem tend_forced (n1 : sw.prm.disable_h = false) (n2 : sw.prm.disable_vn = false) (t : ℝ) (o s : Fld ℝ) :
    Sys.tend Sf .replace t o s = plus (tendFld m sw s) 1 (forceFld fh fx fy m t) := by
  rw [← tend_textbook (d := d) n1 n2 t o s]
  have e1 : (Sys.tend Sf .replace t o s).h =
      (plus ((genSys d sw noHook m).tend .replace t o s) 1 (forceFld fh fx fy m t)).h := by
    funext c k
    simp only [plus, forceFld, one_mul]
    rfl
  have e2 : (Sys.tend Sf .replace t o s).vn =
      (plus ((genSys d sw noHook m).tend .replace t o s) 1 (forceFld fh fx fy m t)).vn := by
    funext c k
    simp only [plus, forceFld, one_mul]
    rfl
  have e3 : (Sys.tend Sf .replace t o s).tr =
      (plus ((genSys d sw noHook m).tend .replace t o s) 1 (forceFld fh fx fy m t)).tr := by
    funext l c k
    simp only [plus, forceFld, one_mul, mul_zero, add_zero]
    rfl
  generalize Sys.tend Sf .replace t o s = x at *
  generalize plus ((genSys d sw noHook m).tend .replace t o s) 1 (forceFld fh fx fy m t) = y at *
  cases x; cases y
  simp only at e1 e2 e3
  subst e1 e2 e3
  rfl

end

/-- a stepper performs, with forcing, the Runge-Kutta method with the given tableau and stage times -/
def HasForcedTableau (stp : Stepper) (s : ℕ) (A : ℕ → ℕ → ℝ) (b c : ℕ → ℝ) : Prop :=
  ∀ (d : Dims) (m : Mem ℝ) (sw : SWModel ℝ) (fh fx fy : ℝ → ℝ → ℝ → ℝ), sw.prm.disable_h = false →
    sw.prm.disable_vn = false → ∀ (t dt : ℝ) (o y : Fld ℝ), ∃ k : ℕ → Fld ℝ,
      (∀ i < s, k i = plus (tendFld m sw (comb y (fun j => dt * A i j) k i)) 1
        (forceFld fh fx fy m (t + c i * dt))) ∧
      ((genSys d (SWModel.forced d sw fh fx fy) (forceFn fh fx fy m) m).step t dt (o, y) stp).2 =
        comb y (fun j => dt * b j) k s

theorem lsrk5_forced : HasForcedTableau (.lsrk 5) 5 lsT (lsT 5) (lsrkCoef 5 : Coef ℝ).c := by
  intro d m sw fh fx fy n1 n2 t dt o y
  obtain ⟨k, hk⟩ := lsrk_unroll (genSys d (SWModel.forced d sw fh fx fy) (forceFn fh fx fy m) m)
    (hookAdds_force fh fx fy m) n1 n2 (lsrkCoef 5) (lsrkCoef_a0 5) t dt o y
  refine ⟨k, fun i hi => ?_, ?_⟩
  · rw [(hk i).1, tend_forced n1 n2]
    congr 2
    refine comb_congr (fun j hj => ?_) (fun _ _ => rfl)
    rw [lsT, if_pos ⟨by omega, by omega⟩]
  · refine (hk 5).2.1.trans (comb_congr (fun j hj => ?_) (fun _ _ => rfl))
    rw [lsT, if_pos ⟨by omega, by omega⟩]

/-- stage times of the classical method -/
def rkC (i : ℕ) : ℝ := if i = 0 then 0 else if i = 3 then 1 else 1 / 2

theorem rk4_forced : HasForcedTableau .rk4 4 rkT rkB rkC := by
  intro d m sw fh fx fy n1 n2 t dt o y
  set G : ℝ → Fld ℝ → Fld ℝ := fun t s => plus (tendFld m sw s) 1 (forceFld fh fx fy m t) with hG
  set k1 := G t y with e1
  set k2 := G (t + 1 / 2 * dt) (plus y (dt * (1 / 2)) k1) with e2
  set k3 := G (t + 1 / 2 * dt) (plus y (dt * (1 / 2)) k2) with e3
  set k4 := G (t + 1 * dt) (plus y (dt * 1) k3) with e4
  have ax : ∀ x c y, Fld.axpy x c y = plus x c y := fun _ _ _ => rfl
  refine ⟨fun i => if i = 0 then k1 else if i = 1 then k2 else if i = 2 then k3 else k4, fun i hi => ?_, ?_⟩
  · interval_cases i
    · simp [comb, e1, hG, rkC]
    · simp [comb, e2, hG, rkT, rkC, plus]
    · simp [comb, e3, hG, rkT, rkC, plus]
    · simp [comb, e4, hG, rkT, rkC, plus]
  · have hrun : ((genSys d (SWModel.forced d sw fh fx fy) (forceFn fh fx fy m) m).step t dt (o, y) .rk4).2 =
        plus (plus (plus (plus y (dt * (1 / 6)) k1) (dt * (1 / 3)) k2) (dt * (1 / 3)) k3) (dt * (1 / 6)) k4 := by
      simp only [Sys.step, Sys.rk4Step, List.foldl_cons, List.foldl_nil, List.range_succ,
        List.range_zero, List.nil_append, List.cons_append, Sys.rk4Stage, rk4Coef, nth, tend_forced n1 n2]
      simp only [List.getD_cons_zero, List.getD_cons_succ, lit_real, ax,
        show (0 : ℕ) < 3 by omega, show (1 : ℕ) < 3 by omega, show (2 : ℕ) < 3 by omega, if_true,
        Int.cast_one, Int.cast_ofNat, e1, e2, e3, e4, hG]
    rw [hrun]
    simp only [comb, plus, Finset.sum_range_succ, Finset.sum_range_zero, rkB]
    norm_num [add_assoc]

theorem rk4_rows : ∀ i < 4, |rkC i - ∑ j ∈ Finset.range i, rkT i j| ≤ defect .rk4 := by
  intro i hi
  interval_cases i <;> simp only [rkC, rkT, Finset.sum_range_succ, Finset.sum_range_zero, defect] <;> norm_num

theorem lsrk5_rows : ∀ i < 5, |(lsrkCoef 5 : Coef ℝ).c i - ∑ j ∈ Finset.range i, lsT i j| ≤ defect (.lsrk 5) := by
  intro i hi
  have h := lsrk5_order.rows i hi
  have e : ∑ j ∈ Finset.range i, lsT i j =
      ∑ j ∈ Finset.range i, lsA (lsrkCoef 5 : Coef ℝ).a (lsrkCoef 5 : Coef ℝ).b i j :=
    Finset.sum_congr rfl fun j hj => by
      have := Finset.mem_range.mp hj
      rw [lsT, if_pos ⟨by omega, by omega⟩]
  rw [e]
  exact h.trans (by norm_num [defect])

/-! ### The forced equations as an autonomous system -/

/-- the forcing as a vector -/
def fvec (d : Dims) (m : Mem ℝ) (fh fx fy : ℝ → ℝ → ℝ → ℝ) (t : ℝ) : Ix d → ℝ := pack d (forceFld fh fx fy m t)

/-- tendency of state and time -/
def afield (d : Dims) (m : Mem ℝ) (sw : SWModel ℝ) (fh fx fy : ℝ → ℝ → ℝ → ℝ) (v : (Ix d → ℝ) × ℝ) :
    (Ix d → ℝ) × ℝ := (vfield d m sw v.1 + fvec d m fh fx fy v.2, 1)

theorem fvec_smooth (d : Dims) (m : Mem ℝ) {fh fx fy : ℝ → ℝ → ℝ → ℝ} (s1 : ∀ x y, ContDiff ℝ ∞ (fh x y))
    (s2 : ∀ x y, ContDiff ℝ ∞ (fx x y)) (s3 : ∀ x y, ContDiff ℝ ∞ (fy x y)) :
    ContDiff ℝ ∞ (fvec d m fh fx fy) := by
  rw [contDiff_pi]
  rintro (i | i | i)
  · exact s1 _ _
  · exact (contDiff_const.mul (s2 _ _)).add (contDiff_const.mul (s3 _ _))
  · exact contDiff_const

theorem afield_smooth {d : Dims} {m : Mem ℝ} (hc : ConnOK d m) (sw : SWModel ℝ)
    (hk : ∀ i, 0 ≤ i → i < d.nvertices → ∀ φ : Int → ℝ, (∀ c, 0 < φ c) → 0 < Spec.kiteMean m φ i)
    {fh fx fy : ℝ → ℝ → ℝ → ℝ} (s1 : ∀ x y, ContDiff ℝ ∞ (fh x y))
    (s2 : ∀ x y, ContDiff ℝ ∞ (fx x y)) (s3 : ∀ x y, ContDiff ℝ ∞ (fy x y)) :
    ContDiffOn ℝ ∞ (afield d m sw fh fx fy) (wetSet d ×ˢ univ) := by
  have h1 := (vfield_smooth hc sw hk).comp (contDiff_fst (𝕜 := ℝ) (n := ∞) (E := Ix d → ℝ) (F := ℝ)).contDiffOn
    (s := wetSet d ×ˢ univ) fun v hv => hv.1
  have h2 := ((fvec_smooth d m s1 s2 s3).comp
    (contDiff_snd (𝕜 := ℝ) (n := ∞) (E := Ix d → ℝ) (F := ℝ))).contDiffOn (s := wetSet d ×ˢ univ)
  exact (h1.add h2).prodMk contDiffOn_const

/-- `u` is, for times between 0 and `T`, a solution of the forced equations on the mesh of the memory `m`, nowhere
dry: the textbook tendency plus the forcing at the centers of cells, and its normal component at the midpoints of
edges -/
structure SolvesForced (d : Dims) (m : Mem ℝ) (sw : SWModel ℝ) (fh fx fy : ℝ → ℝ → ℝ → ℝ) (T : ℝ)
    (u : ℝ → Fld ℝ) : Prop where
  h : ∀ c k, 0 ≤ c → c < d.ncells → 0 ≤ k → k < d.nlayers → ∀ x ∈ Icc 0 T,
    HasDerivWithinAt (fun x => (u x).h c k)
      (Spec.thicknessTend m sw (fun i => (u x).h i k) (fun i => (u x).vn i k) c +
        fh (m.real .x_cell 0 c 0) (m.real .y_cell 0 c 0) x) (Icc 0 T) x
  vn : ∀ e k, 0 ≤ e → e < d.nedges → 0 ≤ k → k < d.nlayers → ∀ x ∈ Icc 0 T,
    HasDerivWithinAt (fun x => (u x).vn e k)
      (Spec.velocityTend m sw k (fun i => (u x).h i k) (fun i => (u x).vn i k) e +
        (Real.cos (m.real .angle_edge 0 e 0) * fx (m.real .x_edge 0 e 0) (m.real .y_edge 0 e 0) x +
          Real.sin (m.real .angle_edge 0 e 0) * fy (m.real .x_edge 0 e 0) (m.real .y_edge 0 e 0) x)) (Icc 0 T) x
  tr : ∀ l c k, 0 ≤ l → l < d.ntracers → 0 ≤ c → c < d.ncells → 0 ≤ k → k < d.nlayers → ∀ x ∈ Icc 0 T,
    HasDerivWithinAt (fun x => (u x).tr l c k)
      (Spec.tracerTend m sw (fun i => (u x).h i k) (fun i => (u x).vn i k) (fun i => (u x).tr l i k) c)
      (Icc 0 T) x
  wet : ∀ c k, 0 ≤ c → c < d.ncells → 0 ≤ k → k < d.nlayers → ∀ x ∈ Icc 0 T, 0 < (u x).h c k

theorem SolvesForced.pack {d : Dims} {m : Mem ℝ} (hd : DimsOK d) (hc : ConnOK d m) {sw : SWModel ℝ}
    (hH : HookOK d sw noHook m) (n1 : sw.prm.disable_h = false) (n2 : sw.prm.disable_vn = false)
    {fh fx fy : ℝ → ℝ → ℝ → ℝ} {T : ℝ} {u : ℝ → Fld ℝ} (h : SolvesForced d m sw fh fx fy T u) :
    (∀ x ∈ Icc 0 T, HasDerivWithinAt (fun x => (Props.pack d (u x), x))
      (afield d m sw fh fx fy (Props.pack d (u x), x)) (Icc 0 T) x) ∧
    ∀ x ∈ Icc 0 T, (Props.pack d (u x), x) ∈ wetSet d ×ˢ (univ : Set ℝ) := by
  constructor
  · intro x hx
    have key : HasDerivWithinAt (fun x => Props.pack d (u x))
        (vfield d m sw (Props.pack d (u x)) + fvec d m fh fx fy x) (Icc 0 T) x := by
      rw [vfield_pack hd hc hH n1 n2, hasDerivWithinAt_pi]
      rintro (⟨⟨c, hc'⟩, ⟨k, hk'⟩⟩ | ⟨⟨c, hc'⟩, ⟨k, hk'⟩⟩ | ⟨⟨l, hl⟩, ⟨c, hc'⟩, ⟨k, hk'⟩⟩)
      · have a := Finset.mem_Ico.mp hc'; have b := Finset.mem_Ico.mp hk'
        exact h.h c k a.1 a.2 b.1 b.2 x hx
      · have a := Finset.mem_Ico.mp hc'; have b := Finset.mem_Ico.mp hk'
        exact h.vn c k a.1 a.2 b.1 b.2 x hx
      · have a := Finset.mem_Ico.mp hc'; have b := Finset.mem_Ico.mp hk'; have g := Finset.mem_Ico.mp hl
        have := h.tr l c k g.1 g.2 a.1 a.2 b.1 b.2 x hx
        simpa [Props.pack, tendFld, fvec, forceFld] using this
    exact key.prodMk (hasDerivWithinAt_id x _)
  · intro x hx
    refine ⟨?_, trivial⟩
    rintro ⟨⟨c, hc'⟩, ⟨k, hk'⟩⟩
    have a := Finset.mem_Ico.mp hc'; have b := Finset.mem_Ico.mp hk'
    exact h.wet c k a.1 a.2 b.1 b.2 x hx

/-- states during a run of a driver, step by step -/
theorem driver_steps {S : Sys ℝ} {stp : Stepper} (N : ℕ) (dt : ℝ) (p : Fld ℝ × Fld ℝ) :
    ∃ x : ℕ → Fld ℝ × Fld ℝ, x 0 = p ∧ x N = S.run stp (driverSched N dt) p ∧
      ∀ n, x (n + 1) = S.step (n * dt) dt (x n) stp := by
  refine ⟨fun n => S.run stp (driverSched n dt) p, rfl, rfl, fun n => ?_⟩
  simp only [Sys.run, driverSched, List.range_succ, List.map_append, List.foldl_append, List.map_cons, List.map_nil,
    List.foldl_cons, List.foldl_nil, lit_real, Int.cast_natCast]

theorem pack_plus (d : Dims) (x y : Fld ℝ) : pack d (plus x 1 y) = pack d x + pack d y := by
  funext i
  rcases i with i | i | i <;> simp [pack, plus]

theorem forced_order {stp : Stepper} {s : ℕ} {A : ℕ → ℕ → ℝ} {b c : ℕ → ℝ} (ht : HasForcedTableau stp s A b c)
    (ho : Butcher.Order4 s A b (defect stp)) (hrow : ∀ i < s, |c i - ∑ j ∈ Finset.range i, A i j| ≤ defect stp)
    (hM : ∃ M : ℝ, (∀ i j, |A i j| ≤ M) ∧ ∀ i, |b i| ≤ M)
    {p : MeshParams} (hv : RunValid p) {dc : ℝ} (hdc : 0 < dc)
    {prm : Params ℝ} (n1 : prm.disable_h = false) (n2 : prm.disable_vn = false) {m : Mem ℝ}
    (hr : Ready p dc prm m) {fh fx fy : ℝ → ℝ → ℝ → ℝ} (s1 : ∀ x y, ContDiff ℝ ∞ (fh x y))
    (s2 : ∀ x y, ContDiff ℝ ∞ (fx x y)) (s3 : ∀ x y, ContDiff ℝ ∞ (fy x y)) {T : ℝ} {u : ℝ → Fld ℝ}
    (hu : SolvesForced p.dims m (SWModel.ofParams prm) fh fx fy T u)
    (h0 : EqFld p.dims (m.fld .state) (u 0)) :
    ∃ K τ : ℝ, 0 ≤ K ∧ 0 < τ ∧ ∀ (dt : ℝ) (N : ℕ) (split : Bool)
      (m1 : Mem ℝ), 0 ≤ dt → dt ≤ τ → N * dt ≤ T → N * dt * defect stp ≤ τ →
      Exec p.dims (stp.ctor p.dims ++ stp.run p.dims ⟨defaultKernels p.dims.vl, split⟩
        ((SWModel.ofParams prm).forced p.dims fh fx fy) (driverSched N dt)) m m1 →
      ‖pack p.dims (m1.fld .state) - pack p.dims (u (N * dt))‖ ≤ K * (dt ^ 4 + defect stp) := by
  obtain ⟨hd, hc⟩ := ready_ok hv hr
  have hH := hookOK_noHook (noHook_ofParams prm) p.dims m
  obtain ⟨du, wu⟩ := hu.pack hd hc hH n1 n2
  obtain ⟨M, hA, hb⟩ := hM
  have M0 : 0 ≤ M := (abs_nonneg _).trans (hb 0)
  have ε0 := defect_nonneg stp
  have hop : IsOpen (wetSet p.dims ×ˢ (univ : Set ℝ)) := (wetSet_open p.dims).prod isOpen_univ
  obtain ⟨C, τ, C0, τ0, key⟩ := Butcher.global_perturbed hop
    (afield_smooth hc (SWModel.ofParams prm) (fun i i0 i1 φ hφ => kiteMean_pos hv hdc hr i0 i1 hφ) s1 s2 s3) du wu M s
    one_pos
  -- the forcing changes slowly on the interval of all stage times
  set R : ℝ := |T| + s * M + 1 with hR
  have fs := fvec_smooth p.dims m s1 s2 s3
  obtain ⟨L, hL⟩ := (isCompact_Icc (a := -R) (b := R)).exists_bound_of_continuousOn
    (fs.continuous_deriv (by simp)).continuousOn
  have L0 : 0 ≤ |L| := abs_nonneg L
  have lip : ∀ x ∈ Icc (-R) R, ∀ y ∈ Icc (-R) R, ‖fvec p.dims m fh fx fy y - fvec p.dims m fh fx fy x‖ ≤
      |L| * ‖y - x‖ := fun x hx y hy =>
    (convex_Icc (-R) R).norm_image_sub_le_of_norm_deriv_le
      (fun z _ => (fs.differentiable (by simp)).differentiableAt) (fun z hz => (hL z hz).trans (le_abs_self L)) hx hy
  refine ⟨C * 2, min (min τ 1) (min (1 / (|L| + 1)) (τ / 2)), by positivity,
    by positivity, fun dt N split m1 t0 t1 hT hε he => ?_⟩
  have dτ : dt ≤ τ := t1.trans ((min_le_left _ _).trans (min_le_left _ _))
  have d1 : dt ≤ 1 := t1.trans ((min_le_left _ _).trans (min_le_right _ _))
  have dL : |L| * dt ≤ 1 := by
    have := t1.trans ((min_le_right _ _).trans (min_le_left _ _))
    rw [le_div_iff₀ (by positivity)] at this
    linarith
  have ε1 : defect stp ≤ 1 := by cases stp <;> norm_num [defect]
  have ετ : N * dt * (defect stp + defect stp) ≤ τ := by
    have h := hε.trans ((min_le_right _ _).trans (min_le_right _ _))
    linarith
  have hHf := hookOK_forced p.dims (SWModel.ofParams prm) fh fx fy m
  have v := ((genSetup hd hc hHf).newRun he).2.2
  obtain ⟨x, x0, xN, xs⟩ := driver_steps (S := genSys p.dims ((SWModel.ofParams prm).forced p.dims fh fx fy)
    (forceFn fh fx fy m) m) (stp := stp) N dt (zeroFld, m.fld .state)
  have main := key A b (defect stp) hA hb ho dt (defect stp) 0 N
    (fun n => (pack p.dims (x n).2, (n : ℝ) * dt)) t0 dτ hT ετ ε0 ε1 τ0.le
    (by simp only [x0]; rw [pack_congr h0]; simp) fun n hn _ => ?_
  · have g := (norm_fst_le _).trans main.2
    rw [pack_congr v, ← xN]
    refine g.trans ?_
    rw [add_zero, mul_assoc]
    refine mul_le_mul_of_nonneg_left ?_ C0
    have : 0 ≤ dt ^ 4 := by positivity
    linarith
  · obtain ⟨k, hk, e⟩ := ht p.dims m (SWModel.ofParams prm) fh fx fy n1 n2 (n * dt) dt (x n).1 (x n).2
    have nT : (n : ℝ) * dt ≤ T :=
      (mul_le_mul_of_nonneg_right (by exact_mod_cast hn.le) t0).trans hT
    have n0 : 0 ≤ (n : ℝ) * dt := by positivity
    refine ⟨fun i => (pack p.dims (k i), 1), fun i hi => ?_, ?_⟩
    · set a : (Ix p.dims → ℝ) × ℝ := (pack p.dims (x n).2, (n : ℝ) * dt) +
        dt • ∑ j ∈ Finset.range i, A i j • ((pack p.dims (k j), 1) : (Ix p.dims → ℝ) × ℝ) with ha
      have a1 : a.1 = pack p.dims (comb (x n).2 (fun j => dt * A i j) k i) := by
        rw [pack_comb, ha]
        simp [Prod.fst_sum]
      have a2 : a.2 = n * dt + dt * ∑ j ∈ Finset.range i, A i j := by
        rw [ha]
        simp [Prod.snd_sum]
      have rb : |∑ j ∈ Finset.range i, A i j| ≤ s * M := by
        refine (Finset.abs_sum_le_sum_abs _ _).trans ((Finset.sum_le_card_nsmul _ _ M fun j _ => hA i j).trans ?_)
        rw [Finset.card_range, nsmul_eq_mul]
        exact mul_le_mul_of_nonneg_right (by exact_mod_cast hi.le) M0
      have hrw := hrow i hi
      have cb : |c i| ≤ s * M + 1 := by
        have := abs_sub_abs_le_abs_sub (c i) (∑ j ∈ Finset.range i, A i j)
        linarith
      have inR : ∀ z : ℝ, |z| ≤ s * M + 1 → (n : ℝ) * dt + z * dt ∈ Icc (-R) R := by
        intro z hz
        rw [mem_Icc, ← abs_le]
        have p1 : |z * dt| ≤ s * M + 1 := by
          rw [abs_mul, abs_of_nonneg t0]
          exact (mul_le_of_le_one_right (abs_nonneg _) d1).trans hz
        have p2 : |(n : ℝ) * dt| ≤ |T| := by rw [abs_of_nonneg n0]; exact nT.trans (le_abs_self T)
        have := abs_add_le ((n : ℝ) * dt) (z * dt)
        linarith
      have lp := lip _ (inR (∑ j ∈ Finset.range i, A i j) (by linarith)) _ (inR (c i) cb)
      have e0 : (pack p.dims (k i), (1 : ℝ)) - afield p.dims m (SWModel.ofParams prm) fh fx fy a =
          (fvec p.dims m fh fx fy (n * dt + c i * dt) -
            fvec p.dims m fh fx fy (n * dt + (∑ j ∈ Finset.range i, A i j) * dt), 0) := by
        rw [afield, a1, a2, vfield_pack hd hc hH n1 n2, mul_comm dt, Prod.mk_sub_mk, sub_self]
        congr 1
        conv_lhs => rw [hk i hi, pack_plus]
        rw [add_sub_add_left_eq_sub]
        rfl
      rw [e0, Prod.norm_mk, norm_zero, max_eq_left (norm_nonneg _)]
      refine lp.trans ?_
      rw [add_sub_add_left_eq_sub, ← sub_mul, norm_mul, Real.norm_eq_abs, Real.norm_eq_abs, abs_of_nonneg t0]
      calc |L| * (|c i - ∑ j ∈ Finset.range i, A i j| * dt) ≤ |L| * (defect stp * dt) := by gcongr
        _ = |L| * dt * defect stp := by ring
        _ ≤ _ := mul_le_of_le_one_left ε0 dL
    · have e1 : (pack p.dims (x (n + 1)).2, ((n + 1 : ℕ) : ℝ) * dt) - ((pack p.dims (x n).2, (n : ℝ) * dt) +
          dt • ∑ i ∈ Finset.range s, b i • ((pack p.dims (k i), 1) : (Ix p.dims → ℝ) × ℝ)) =
          (0, -(dt * (∑ i ∈ Finset.range s, b i - 1))) := by
        rw [xs n, e, pack_comb]
        ext1
        · simp [Prod.fst_sum]
        · simp [Prod.snd_sum]; ring
      rw [e1, Prod.norm_mk, norm_zero, max_eq_right (norm_nonneg _), norm_neg, norm_mul, Real.norm_eq_abs,
        Real.norm_eq_abs, abs_of_nonneg t0]
      exact mul_le_mul_of_nonneg_left ho.o1 t0

/-- On every mesh, for all parameters, every forcing that is smooth in time and every solution `u` of the forced
equations that stays wet up to a time `T`, there are constants such that a run of a driver with `N` steps of size
`dt` by a new stepper of order four, started from the initial value of the solution, ends within
`K (dt⁴ + defect)` of the solution at the final time, in every entry. -/
theorem C86_forced_time_order {p : MeshParams} (hv : RunValid p) {dc : ℝ} (hdc : 0 < dc)
    {prm : Params ℝ} (n1 : prm.disable_h = false) (n2 : prm.disable_vn = false) {m : Mem ℝ}
    (hr : Ready p dc prm m) {fh fx fy : ℝ → ℝ → ℝ → ℝ} (s1 : ∀ x y, ContDiff ℝ ∞ (fh x y))
    (s2 : ∀ x y, ContDiff ℝ ∞ (fx x y)) (s3 : ∀ x y, ContDiff ℝ ∞ (fy x y)) {T : ℝ} {u : ℝ → Fld ℝ}
    (hu : SolvesForced p.dims m (SWModel.ofParams prm) fh fx fy T u)
    (h0 : EqFld p.dims (m.fld .state) (u 0)) :
    ∃ K τ : ℝ, 0 ≤ K ∧ 0 < τ ∧ ∀ stp, FourthOrder stp → ∀ (dt : ℝ) (N : ℕ) (split : Bool)
      (m1 : Mem ℝ), 0 ≤ dt → dt ≤ τ → N * dt ≤ T → N * dt * defect stp ≤ τ →
      Exec p.dims (stp.ctor p.dims ++ stp.run p.dims ⟨defaultKernels p.dims.vl, split⟩
        ((SWModel.ofParams prm).forced p.dims fh fx fy) (driverSched N dt)) m m1 →
      (∀ c k, 0 ≤ c → c < p.dims.ncells → 0 ≤ k → k < p.dims.nlayers →
        |m1.real (.h_cell .state) 0 c k - (u (N * dt)).h c k| ≤ K * (dt ^ 4 + defect stp)) ∧
      (∀ e k, 0 ≤ e → e < p.dims.nedges → 0 ≤ k → k < p.dims.nlayers →
        |m1.real (.vn_edge .state) 0 e k - (u (N * dt)).vn e k| ≤ K * (dt ^ 4 + defect stp)) ∧
      ∀ l c k, 0 ≤ l → l < p.dims.ntracers → 0 ≤ c → c < p.dims.ncells → 0 ≤ k → k < p.dims.nlayers →
        |m1.real (.tr_cell .state) l c k - (u (N * dt)).tr l c k| ≤ K * (dt ^ 4 + defect stp) := by
  obtain ⟨K, τ, K0, τ0, key⟩ := forced_order rk4_forced rk4_order4 rk4_rows
    (exists_tab_bound 4 _ _ (fun i j h => if_neg (by omega)) (fun i h => by
      rw [rkB, if_neg (by omega), if_neg (by omega)])) hv hdc n1 n2 hr s1 s2 s3 hu h0
  obtain ⟨K', τ', K0', τ0', key'⟩ := forced_order lsrk5_forced lsrk5_order4 lsrk5_rows
    (exists_tab_bound 5 _ _ (fun i j h => if_neg (by omega)) (fun i h => if_neg (by omega))) hv hdc n1 n2 hr s1 s2 s3
    hu h0
  refine ⟨max K K', min τ τ', le_max_of_le_left K0, lt_min τ0 τ0',
    fun stp hstp dt N split m1 t0 t1 hT hε he => ?_⟩
  have q0 : 0 ≤ dt ^ 4 + defect stp := add_nonneg (by positivity) (defect_nonneg stp)
  have main : ‖pack p.dims (m1.fld .state) - pack p.dims (u (N * dt))‖ ≤ max K K' * (dt ^ 4 + defect stp) := by
    rcases hstp with rfl | rfl
    · exact (key dt N split m1 t0 (t1.trans (min_le_left _ _)) hT (hε.trans (min_le_left _ _)) he).trans
        (mul_le_mul_of_nonneg_right (le_max_left _ _) q0)
    · exact (key' dt N split m1 t0 (t1.trans (min_le_right _ _)) hT (hε.trans (min_le_right _ _)) he).trans
        (mul_le_mul_of_nonneg_right (le_max_right _ _) q0)
  have co := fun i => (norm_le_pi_norm (pack p.dims (m1.fld .state) - pack p.dims (u (N * dt))) i).trans main
  refine ⟨fun c k c0 c1 k0 k1 => ?_, fun c k c0 c1 k0 k1 => ?_, fun l c k l0 l1 c0 c1 k0 k1 => ?_⟩
  · exact co (.inl (⟨c, Finset.mem_Ico.mpr ⟨c0, c1⟩⟩, ⟨k, Finset.mem_Ico.mpr ⟨k0, k1⟩⟩))
  · exact co (.inr (.inl (⟨c, Finset.mem_Ico.mpr ⟨c0, c1⟩⟩, ⟨k, Finset.mem_Ico.mpr ⟨k0, k1⟩⟩)))
  · exact co (.inr (.inr (⟨l, Finset.mem_Ico.mpr ⟨l0, l1⟩⟩, ⟨c, Finset.mem_Ico.mpr ⟨c0, c1⟩⟩,
      ⟨k, Finset.mem_Ico.mpr ⟨k0, k1⟩⟩)))

/-- From every wet state the forced equations have a solution for a while. -/
theorem C86_forced_solution_exists {p : MeshParams} (hv : RunValid p) {dc : ℝ} (hdc : 0 < dc)
    {prm : Params ℝ} (n1 : prm.disable_h = false) (n2 : prm.disable_vn = false) {m : Mem ℝ}
    (hr : Ready p dc prm m) {fh fx fy : ℝ → ℝ → ℝ → ℝ} (s1 : ∀ x y, ContDiff ℝ ∞ (fh x y))
    (s2 : ∀ x y, ContDiff ℝ ∞ (fx x y)) (s3 : ∀ x y, ContDiff ℝ ∞ (fy x y))
    (hw : ∀ c k, 0 ≤ c → c < p.dims.ncells → 0 ≤ k → k < p.dims.nlayers →
      0 < m.real (.h_cell .state) 0 c k) :
    ∃ (T : ℝ) (u : ℝ → Fld ℝ), 0 < T ∧ SolvesForced p.dims m (SWModel.ofParams prm) fh fx fy T u ∧
      EqFld p.dims (m.fld .state) (u 0) := by
  obtain ⟨hd, hc⟩ := ready_ok hv hr
  have hH := hookOK_noHook (noHook_ofParams prm) p.dims m
  have hs := afield_smooth hc (SWModel.ofParams prm) (fun i i0 i1 φ hφ => kiteMean_pos hv hdc hr i0 i1 hφ) s1 s2 s3
  have hop : IsOpen (wetSet p.dims ×ˢ (univ : Set ℝ)) := (wetSet_open p.dims).prod isOpen_univ
  set v0 : (Ix p.dims → ℝ) × ℝ := (pack p.dims (m.fld .state), 0) with hv0
  have w0 : v0 ∈ wetSet p.dims ×ˢ (univ : Set ℝ) := by
    refine ⟨?_, trivial⟩
    rintro ⟨⟨c, hc'⟩, ⟨k, hk'⟩⟩
    have a := Finset.mem_Ico.mp hc'; have b := Finset.mem_Ico.mp hk'
    exact hw c k a.1 a.2 b.1 b.2
  have ca := ((hs.contDiffAt (hop.mem_nhds w0)).of_le (WithTop.coe_le_coe.2 (le_top (a := (1 : ℕ∞)))))
  obtain ⟨α, hα0, hα⟩ := ca.exists_forall_mem_closedBall_exists_eq_forall_mem_Ioo_hasDerivAt₀ (t₀ := 0)
  obtain ⟨ε, ε0, hε⟩ := hα
  have cont : ContinuousAt α 0 := (hε 0 ⟨by linarith, by linarith⟩).continuousAt
  have ev : ∀ᶠ t in nhds 0, α t ∈ wetSet p.dims ×ˢ (univ : Set ℝ) :=
    cont.eventually (by rw [hα0]; exact hop.mem_nhds w0)
  obtain ⟨δ, δ0, hδ⟩ := Metric.eventually_nhds_iff.mp ev
  set T := min ε δ / 2 with hT
  have T0 : 0 < T := half_pos (lt_min ε0 δ0)
  have sub : ∀ x ∈ Icc (0 : ℝ) T,
      HasDerivAt α (afield p.dims m (SWModel.ofParams prm) fh fx fy (α x)) x ∧
      (α x).1 ∈ wetSet p.dims := fun x hx => by
    have p0 := lt_min ε0 δ0
    have a := min_le_left ε δ
    have b := min_le_right ε δ
    refine ⟨hε x ⟨by linarith [hx.1], by linarith [hx.2]⟩, (hδ ?_).1⟩
    rw [Real.dist_eq, sub_zero, abs_of_nonneg hx.1]
    linarith [hx.2]
  have clock : ∀ x ∈ Icc (0 : ℝ) T, (α x).2 = x := by
    have h1 : ∀ x ∈ Icc (0 : ℝ) T, HasDerivWithinAt (fun x => (α x).2 - x) 0 (Icc 0 T) x := fun x hx => by
      have := (((hasFDerivAt_snd (p := α x)).comp_hasDerivAt x (sub x hx).1).sub (hasDerivAt_id x)).hasDerivWithinAt
        (s := Icc 0 T)
      simp only [afield, ContinuousLinearMap.coe_snd', sub_self] at this
      exact this
    intro x hx
    have := (convex_Icc (0 : ℝ) T).norm_image_sub_le_of_norm_hasDerivWithin_le (C := 0) h1
      (fun x hx => by simp) (left_mem_Icc.mpr T0.le) hx
    rw [zero_mul] at this
    have := norm_le_zero_iff.mp this
    rw [hα0] at this
    simp only [hv0] at this
    linarith
  have dα : ∀ x ∈ Icc (0 : ℝ) T, HasDerivAt (fun x => (α x).1)
      (vfield p.dims m (SWModel.ofParams prm) (α x).1 + fvec p.dims m fh fx fy x) x := fun x hx => by
    have := (hasFDerivAt_fst (p := α x)).comp_hasDerivAt x (sub x hx).1
    simp only [afield, ContinuousLinearMap.coe_fst', clock x hx] at this
    exact this
  refine ⟨T, fun x => unpack p.dims (α x).1, T0, ⟨?_, ?_, ?_, ?_⟩, ?_⟩
  · intro c k c0 c1 k0 k1 x hx
    have := (hasDerivAt_pi.mp (dα x hx) (.inl (⟨c, Finset.mem_Ico.mpr ⟨c0, c1⟩⟩,
      ⟨k, Finset.mem_Ico.mpr ⟨k0, k1⟩⟩))).hasDerivWithinAt (s := Icc 0 T)
    simpa [unpack, c0, c1, k0, k1, vfield, fvec, pack, tendFld, forceFld] using this
  · intro c k c0 c1 k0 k1 x hx
    have := (hasDerivAt_pi.mp (dα x hx) (.inr (.inl (⟨c, Finset.mem_Ico.mpr ⟨c0, c1⟩⟩,
      ⟨k, Finset.mem_Ico.mpr ⟨k0, k1⟩⟩)))).hasDerivWithinAt (s := Icc 0 T)
    simpa [unpack, c0, c1, k0, k1, vfield, fvec, pack, tendFld, forceFld] using this
  · intro l c k l0 l1 c0 c1 k0 k1 x hx
    have := (hasDerivAt_pi.mp (dα x hx) (.inr (.inr (⟨l, Finset.mem_Ico.mpr ⟨l0, l1⟩⟩,
      ⟨c, Finset.mem_Ico.mpr ⟨c0, c1⟩⟩, ⟨k, Finset.mem_Ico.mpr ⟨k0, k1⟩⟩)))).hasDerivWithinAt (s := Icc 0 T)
    simpa [unpack, l0, l1, c0, c1, k0, k1, vfield, fvec, pack, tendFld, forceFld] using this
  · intro c k _ _ _ _ x hx
    exact unpack_h_pos (sub x hx).2 c k
  · simp only [hα0]
    have := unpack_pack p.dims (m.fld .state)
    exact this.symm

/-- the hypotheses of C86 are met by the model with all terms, a forcing that varies in space and time and a state
that is neither flat nor at rest, with runs of arbitrarily small steps by every stepper -/
example : ∃ (prm : Params ℝ) (m : Mem ℝ) (fh fx fy : ℝ → ℝ → ℝ → ℝ) (T : ℝ) (u : ℝ → Fld ℝ), RunValid p46 ∧
    prm.disable_h = false ∧ prm.disable_vn = false ∧ prm.f0 ≠ 0 ∧ prm.visc_del2 ≠ 0 ∧ Ready p46 1 prm m ∧ 0 < T ∧
    (∀ x y, ContDiff ℝ ∞ (fh x y)) ∧ (∀ x y, ContDiff ℝ ∞ (fx x y)) ∧ (∀ x y, ContDiff ℝ ∞ (fy x y)) ∧
    fh 1 0 0 ≠ fh 1 0 1 ∧ fh 1 0 0 ≠ fh 0 0 0 ∧ fx 1 0 0 ≠ fx 1 0 1 ∧
    SolvesForced p46.dims m (SWModel.ofParams prm) fh fx fy T u ∧ EqFld p46.dims (m.fld .state) (u 0) ∧
    m.real (.h_cell .state) 0 1 0 ≠ m.real (.h_cell .state) 0 2 0 ∧ m.real (.vn_edge .state) 0 1 0 ≠ 0 ∧
    ∀ τ > 0, ∀ stp, ∃ (dt : ℝ) (N : ℕ) (m1 : Mem ℝ), 0 < dt ∧ dt ≤ τ ∧ N ≠ 0 ∧
      N * dt ≤ T ∧ N * dt * defect stp ≤ τ ∧
      Exec p46.dims (stp.ctor p46.dims ++ stp.run p46.dims ⟨defaultKernels p46.dims.vl, true⟩
        ((SWModel.ofParams prm).forced p46.dims fh fx fy) (driverSched N dt)) m m1 := by
  set prm : Params ℝ := ⟨1, 10, 1, 0, 1, 0, false, false⟩ with hprm
  set fh : ℝ → ℝ → ℝ → ℝ := fun x y t => x * t + x with hfh
  set fx : ℝ → ℝ → ℝ → ℝ := fun x y t => t ^ 2 with hfx
  have s1 : ∀ x y, ContDiff ℝ ∞ (fh x y) := fun x y => by simp only [hfh]; fun_prop
  have s2 : ∀ x y, ContDiff ℝ ∞ (fx x y) := fun x y => by simp only [hfx]; fun_prop
  obtain ⟨m, hr, hx, -⟩ := exists_ready p46_valid (1 : ℝ) prm
    ⟨fun c _ => 1 + (c : ℝ) ^ 2, fun e _ => e, fun _ c _ => c⟩ zeroFld
  have eh : ∀ c k, m.real (.h_cell .state) 0 c k = 1 + (c : ℝ) ^ 2 := fun c k =>
    congrFun (congrFun (congrArg Fld.h hx) c) k
  have ev : ∀ e k, m.real (.vn_edge .state) 0 e k = (e : ℝ) := fun e k =>
    congrFun (congrFun (congrArg Fld.vn hx) e) k
  obtain ⟨T, u, T0, hu, h0⟩ := C86_forced_solution_exists p46_run one_pos (prm := prm) rfl rfl hr s1 s2 s2
    fun c k _ _ _ _ => by rw [eh]; positivity
  refine ⟨prm, m, fh, fx, fx, T, u, p46_run, rfl, rfl, by norm_num [hprm], by norm_num [hprm], hr, T0, s1, s2, s2,
    by norm_num [hfh], by norm_num [hfh], by norm_num [hfx], hu, h0, by rw [eh, eh]; norm_num, by rw [ev]; norm_num,
    fun τ τ0 stp => ?_⟩
  obtain ⟨hd, hc⟩ := ready_ok p46_run hr
  have p1 : 0 < min (min τ T) 1 / 2 := half_pos (lt_min (lt_min τ0 T0) one_pos)
  have b1 : min (min τ T) 1 / 2 ≤ τ := (half_le_self (by positivity)).trans ((min_le_left _ _).trans (min_le_left _ _))
  have b2 : min (min τ T) 1 / 2 ≤ T := (half_le_self (by positivity)).trans ((min_le_left _ _).trans (min_le_right _ _))
  obtain ⟨m1, he⟩ := (C40_safe_deterministic_forced hd hc (SWModel.ofParams prm) fh fx fx true stp
    (driverSched 1 (min (min τ T) 1 / 2))).2.exists
  refine ⟨min (min τ T) 1 / 2, 1, m1, p1, b1, one_ne_zero, by simpa using b2, ?_, he⟩
  have : defect stp ≤ 1 := by cases stp <;> norm_num [defect]
  have := mul_le_of_le_one_right p1.le this
  rw [Nat.cast_one, one_mul]
  linarith

end Props
end
end Omega
