import Verif.Props.AdvectionConvergence
import Verif.Props.TracerRates
import Verif.Props.TestRuns

/-!
# C74: the result of a tracer advection test

The number a tracer test returns is bounded by the squared spacing plus the fourth power of the step,
for every test whose reference solves the advection equation.
-/

set_option linter.unusedVariables false
set_option linter.unusedSectionVars false

namespace Omega
noncomputable section
namespace Props

open Prog Model Refine Hex Taylor Jets Polynomial

/-- For any bounds there is a constant such that every possible result of a tracer test, whose thickness
and velocity are a flow within the bounds and whose reference is the thickness times a solution of the
advection equation within the bounds, is at most that constant times the root of the number of layers
times the sum of the squared spacing, the fourth power of the requested step and, for the low-storage
stepper, `1e-20`, if the Courant
number is at most one on every edge. -/
theorem C74_advection_test_converges (D B : ℝ) {te : ℝ} (hte : 0 < te) {η : ℝ} (hη : 0 < η) :
    ∃ K : ℝ, ∀ (stp : Stepper) (prm : Params ℝ) (p : MeshParams) (dc dt : ℝ) (T : TracerTest ℝ) (m0 m1 : Mem ℝ) (split : Bool)
        (H U W : ℝ × ℝ → ℝ) (q : ℝ × (ℝ × ℝ) → ℝ) (v : ℝ),
      FourthOrder stp → prm.eddy_diff2 ≤ 0 → prm.eddy_diff4 ≤ 0 → prm.disable_h = true → prm.disable_vn = true →
      RunValid p → p.ntracers = 1 → 2 ≤ p.nx → p.ny % 2 = 0 → 0 < dc → dc ≤ D →
      Bounded 3 (periodX p.nx dc) (periodY p.ny dc) B H →
      Bounded 3 (periodX p.nx dc) (periodY p.ny dc) B U →
      Bounded 3 (periodX p.nx dc) (periodY p.ny dc) B W → (∀ z, η ≤ H z) →
      BoundedIn 8 (periodX p.nx dc) (periodY p.ny dc) B te q → Advected H U W q →
      (∀ z, T.h z.1 z.2 0 = H z) → (∀ z, T.vx z.1 z.2 0 = U z) → (∀ z, T.vy z.1 z.2 0 = W z) →
      (∀ z t, T.tr z.1 z.2 t = H z * q (t, z)) →
      0 < dt → numberofsteps te dt ≤ 10 ^ 18 →
      (∀ e, 0 ≤ e → e < p.dims.nedges →
        dt * (Spec.mean m1 (fun c => H (cellAt m1 c)) e * |normalOf m1 U W e|) ≤
          dc * √(H (cellAt m1 (Spec.cellOf m1 e 0)) * H (cellAt m1 (Spec.cellOf m1 e 1)))) →
      Exec p.dims (tracer_run p dc prm ⟨defaultKernels p.dims.vl, split⟩ T stp te (driverRun te dt)) m0 m1 →
      IsTracerError p m1 v → v ≤ K * √p.dims.nlayers * (dc ^ 2 + dt ^ 4 + defect stp) := by
  obtain ⟨K, K0, hK⟩ := advection_core D B te hη
  refine ⟨K, ?_⟩
  intro stp prm p dc dt T m0 m1 split H U W q v hstp hk2 hk4 hdh hdv hv hnt hnx hny hdc hD bH bU bW hpos bq hadv tH tU tW tT hdt hN hcfl he hr
  obtain ⟨m, hrun, hm, ⟨hc, -, mb, hb, hi, hre⟩, hex, hst⟩ :=
    tracer_run_runs hv hnt dc prm T stp te (driverRun te dt) m0
  obtain rfl : m1 = m := ((hrun split).2 m1).1 he
  have ny2 : 2 ≤ p.ny := by have := hv.ny_pos; omega
  have geo := geo2_of_hex hv.toValid hnx ny2 hdc hm
  obtain ⟨-, d0, d1, hlen, -, hT⟩ := C49_driver_steps hte hdt
  set d := adjustedDt te dt with hd
  set N := (numberofsteps te dt).toNat with hNd
  have cellv : ∀ c, 0 ≤ c → c < p.dims.ncells → cellAt m1 c = (xC p.nx dc c, yC p.nx dc c) := fun c h0 h1 => by
    unfold cellAt; rw [hm.x_cell c ⟨h0, h1⟩, hm.y_cell c ⟨h0, h1⟩]
  have z0 : (lit 0 : ℝ) = 0 := by simp
  have sched : ∀ a ∈ driverRun te dt, a.2 = d := fun a ha => by
    unfold driverRun driverSched at ha
    rw [List.mem_map] at ha
    obtain ⟨i, -, rfl⟩ := ha
    rfl
  set E := dc ^ 2 + dt ^ 4 + defect stp with hE
  have layer : ∀ k, 0 ≤ k → k < p.dims.nlayers → ∑ c ∈ Spec.cells p.dims,
      (m1.real (.test .tr_exact_cell) 0 c k - m1.real (.tr_cell .state) 0 c k) ^ 2 ≤
        p.dims.ncells * (K * E) ^ 2 := by
    intro k k0 k1
    have main := hK stp prm p dc d m1 mb (driverRun te dt) (fun i => (tracerInit p dc T).h i k)
      (fun i => (tracerInit p dc T).vn i k) (fun i => (tracerInit p dc T).tr 0 i k) H U W q hstp hk2 hk4 hv hnx hny hdc hD
      bH bU bW hpos bq hadv hb ⟨hi, hre⟩ hc geo
      (fun c h0 h1 => by
        rw [cellv c h0 h1, ← tH]
        show T.h _ _ (lit 0) = _
        rw [z0])
      (fun e h0 h1 => by
        show Scalar.cos _ * T.vx _ _ (lit 0) + Scalar.sin _ * T.vy _ _ (lit 0) = _
        unfold normalOf normal edgeAt
        rw [hm.x_edge e h0 h1, hm.y_edge e h0 h1, hm.angle_edge e h0 h1, ← tU, ← tW, z0]
        rfl)
      (fun c h0 h1 => by
        rw [cellv c h0 h1, ← tT]
        show T.tr _ _ (lit 0) = _
        rw [z0])
      d0.le sched (by rw [hlen]; omega) (by rw [hlen, hT])
      (fun e h0 h1 => by
        refine le_trans (mul_le_mul_of_nonneg_right d1 (mul_nonneg ?_ (abs_nonneg _))) (hcfl e h0 h1)
        have a := hpos (cellAt m1 (Spec.cellOf m1 e 0))
        have b := hpos (cellAt m1 (Spec.cellOf m1 e 1))
        unfold Spec.mean
        linarith)
    have nc : (0 : ℝ) < p.dims.ncells := by
      exact_mod_cast mul_pos (by omega : 0 < p.nx) (by omega : 0 < p.ny)
    have dE : dc ^ 2 + d ^ 4 + defect stp ≤ E := by
      have := pow_le_pow_left₀ d0.le d1 4
      linarith
    have main2 := main.trans (mul_le_mul_of_nonneg_left dE K0)
    rw [Real.sqrt_le_iff, div_le_iff₀ nc] at main2
    refine le_trans (le_of_eq (Finset.sum_congr rfl fun c hcc => ?_)) (main2.2.trans_eq (mul_comm _ _))
    obtain ⟨c0, c1⟩ := Finset.mem_Ico.1 hcc
    obtain ⟨-, -, r3⟩ := frozen_run (d := p.dims) (m := m1) (sw := SWModel.ofParams prm) hdh hdv stp
      (driverRun te dt) (x := (zeroFld, tracerInit p dc T)) (fun _ _ => by simp [zeroFld])
      (fun _ _ => by simp [zeroFld])
    have e := (hst.tr 0 c k le_rfl (by show (0 : Int) < p.ntracers; omega) c0 c1 k0 k1).trans (congrFun (r3 0 k) c)
    have e' : m1.real (.tr_cell .state) 0 c k = _ := e
    rw [hex c k c0 c1 k0 k1, e', hlen, hT, cellv c c0 c1, ← tT]
    ring
  obtain ⟨s, hs, rfl⟩ := hr
  have nl := layers_nonneg hv
  rw [reduces2_real (show 0 ≤ p.dims.ncells from mul_nonneg (by omega) (by omega)) nl
    (fun c k b c0 c1 k0 k1 => wp_tracer_error hnt c0 c1 k0 k1 b)] at hs
  have hsum : s ≤ p.dims.nlayers * (p.dims.ncells * (K * E) ^ 2) := by
    rw [hs, Finset.sum_comm]
    refine (Finset.sum_le_sum (g := fun _ => p.dims.ncells * (K * E) ^ 2) fun k hk => ?_).trans_eq ?_
    · obtain ⟨k0, k1⟩ := Finset.mem_Ico.1 hk
      refine le_trans (le_of_eq (Finset.sum_congr rfl fun c _ => ?_)) (layer k k0 k1)
      ring
    · rw [Finset.sum_const, Int.card_Ico, nsmul_eq_mul]
      have : (((p.dims.nlayers - 0).toNat : ℕ) : ℤ) = p.dims.nlayers := by omega
      have : (((p.dims.nlayers - 0).toNat : ℕ) : ℝ) = (p.dims.nlayers : ℝ) := by exact_mod_cast this
      rw [this]
  have E0 : 0 ≤ E := by have := defect_nonneg stp; positivity
  have nl' : (0 : ℝ) ≤ p.dims.nlayers := by exact_mod_cast nl
  have nc : (0 : ℝ) < ((p.nx * p.ny : Int) : ℝ) := by
    exact_mod_cast mul_pos (by omega : 0 < p.nx) (by omega : 0 < p.ny)
  rw [sqrt_real, lit_real, Real.sqrt_le_iff]
  refine ⟨by positivity, ?_⟩
  rw [div_le_iff₀ nc]
  refine hsum.trans_eq ?_
  show (p.dims.nlayers : ℝ) * (((p.nx * p.ny : Int) : ℝ) * (K * E) ^ 2) = _
  have := Real.sq_sqrt nl'
  linear_combination -(K * E) ^ 2 * ((p.nx * p.ny : Int) : ℝ) * this

/-! ### The test of the repository -/

/-- `TracerAdvectionTest`, `tracer_advection_convergence.cpp:12-28`, with `m_lx = 1` -/
def advectionTest : TracerTest ℝ where
  h := advH 1
  tr := advTr 1 (√3 / 2 * 1)
  vx _ _ _ := 1
  vy _ _ _ := 1

/-- the thickness of the test -/
def advThick (z : ℝ × ℝ) : ℝ := advH 1 z.1 z.2 0
/-- the concentration of the test -/
def advConc (x : ℝ × (ℝ × ℝ)) : ℝ := wave 1 (√3 / 2) 0 0 (x.2.1 - 1 * x.1, x.2.2 - 1 * x.1) / advThick x.2

theorem advThick_smooth {k : ℕ} : ContDiff ℝ k advThick := by
  unfold advThick advH
  fun_prop

theorem advThick_pos (z : ℝ × ℝ) : Real.exp (-1) ≤ advThick z :=
  Real.exp_le_exp.2 (Real.neg_one_le_cos _)

theorem advThick_ne (z : ℝ × ℝ) : advThick z ≠ 0 := (Real.exp_pos _).ne'

theorem advThick_periodic (Q : ℝ) : Periodic2 1 Q advThick := by
  refine ⟨fun x y => ?_, fun x y => rfl⟩
  unfold advThick advH
  rw [show 2 * Real.pi * (x + 1) / 1 = 2 * Real.pi * x / 1 + 2 * Real.pi by ring, Real.cos_add_two_pi]

theorem advConc_smooth {k : ℕ} : ContDiff ℝ k advConc := by
  refine ContDiff.div ?_ (advThick_smooth.comp contDiff_snd) fun x => advThick_ne _
  exact (wave_smooth 1 (√3 / 2) 0 0).comp (by fun_prop)

theorem advConc_periodic (t : ℝ) : Periodic2 1 (√3 / 2) fun z => advConc (t, z) := by
  have wp := wave_periodic one_pos (show (0 : ℝ) < √3 / 2 by positivity) 0 0
  have pH := advThick_periodic (√3 / 2)
  refine ⟨fun x y => ?_, fun x y => ?_⟩
  · simp only [advConc]
    rw [show x + 1 - 1 * t = x - 1 * t + 1 by ring, wp.1, pH.1]
  · simp only [advConc]
    rw [show y + √3 / 2 - 1 * t = y - 1 * t + √3 / 2 by ring, wp.2, pH.2]

theorem advConc_advected : Advected advThick (fun _ => 1) (fun _ => 1) advConc :=
  advected_translation advThick_ne ((wave_smooth 1 (√3 / 2) 0 0 (n := 1)).differentiable (by norm_num)) 1 1

theorem advTr_eq (z : ℝ × ℝ) (t : ℝ) : advectionTest.tr z.1 z.2 t = advThick z * advConc (t, z) := by
  unfold advConc
  rw [mul_div_cancel₀ _ (advThick_ne z)]
  show advTr 1 (√3 / 2 * 1) z.1 z.2 t = _
  unfold advTr wave
  simp only [mul_one, one_mul, add_zero]

/-- a mean of two numbers whose logarithms differ by at most one -/
theorem mean_le_geom {a b : ℝ} (h : |a - b| ≤ 1) :
    (Real.exp a + Real.exp b) / 2 ≤ √2 * √(Real.exp a * Real.exp b) := by
  rw [← Real.sqrt_mul (by norm_num)]
  refine Real.le_sqrt_of_sq_le ?_
  have key : ∀ {a b : ℝ}, a - b ≤ 1 → Real.exp a ≤ 3 * Real.exp b := fun {a b} h => by
    have h1 : Real.exp a ≤ Real.exp (1 + b) := Real.exp_le_exp.2 (by linarith)
    rw [Real.exp_add] at h1
    have := Real.exp_one_lt_d9
    nlinarith [Real.exp_pos b]
  have k1 := key (abs_le.1 h).2
  have k2 := key (show b - a ≤ 1 by linarith [(abs_le.1 h).1])
  nlinarith [Real.exp_pos a, Real.exp_pos b, mul_nonneg (sub_nonneg.2 k1) (sub_nonneg.2 k2)]

/-- The step of the test is within the Courant limit if there are at least seven columns. -/
theorem adv_courant {p : MeshParams} {dc : ℝ} {m mb : Mem ℝ} (hv : MeshParams.Valid p)
    (hny : p.ny % 2 = 0) (hdc : 0 < dc) (h7 : 7 * dc ≤ 1) (hP : periodX p.nx dc = (1 : ℝ))
    (hb : Built p dc mb) (hs : SameMesh m mb) {e : Int} (h0 : 0 ≤ e) (h1 : e < p.dims.nedges) :
    1 / 2 * dc * (Spec.mean m (fun c => advThick (cellAt m c)) e * |normalOf m (fun _ => 1) (fun _ => 1) e|) ≤
      dc * √(advThick (cellAt m (Spec.cellOf m e 0)) * advThick (cellAt m (Spec.cellOf m e 1))) := by
  set ψ : ℝ × ℝ → ℝ := fun z => Real.cos (2 * Real.pi * z.1 / 1) with hψ
  have pc : Periodic2 (periodX p.nx dc) (periodY p.ny dc) ψ := by
    rw [hP]
    refine ⟨fun x y => ?_, fun x y => rfl⟩
    simp only [hψ]
    rw [show 2 * Real.pi * (x + 1) / 1 = 2 * Real.pi * x / 1 + 2 * Real.pi by ring, Real.cos_add_two_pi]
  obtain ⟨k0, k1⟩ := cells_of_edge hv hny hb pc h0 h1
  have hm := hb.hex hv
  have co : ∀ i, 0 ≤ i → i < 2 → Spec.cellOf m e i = coe p.nx p.ny e i := fun i i0 i1 => by
    unfold Spec.cellOf
    rw [hs.int]
    exact hm.coe e h0 h1 i i0 i1
  rw [← hs.cellAt, ← co 0 (by norm_num) (by norm_num)] at k0
  rw [← hs.cellAt, ← co 1 (by norm_num) (by norm_num)] at k1
  have near : |ψ (cellAt m (Spec.cellOf m e 0)) - ψ (cellAt m (Spec.cellOf m e 1))| ≤ 1 := by
    rw [k0, k1]
    have := Real.lipschitzWith_cos.dist_le_mul (2 * Real.pi * (edgeAt mb e - (dc / 2) • normal mb e).1 / 1)
      (2 * Real.pi * (edgeAt mb e + (dc / 2) • normal mb e).1 / 1)
    rw [Real.dist_eq, Real.dist_eq] at this
    refine this.trans ?_
    have e1 : 2 * Real.pi * (edgeAt mb e - (dc / 2) • normal mb e).1 / 1 -
        2 * Real.pi * (edgeAt mb e + (dc / 2) • normal mb e).1 / 1 =
        -(2 * Real.pi * dc * Real.cos (mb.real .angle_edge 0 e 0)) := by
      simp [normal]; ring
    rw [e1, abs_neg, abs_mul, abs_of_pos (by positivity), NNReal.coe_one, one_mul]
    have c1 := Real.abs_cos_le_one (mb.real .angle_edge 0 e 0)
    have c0 := abs_nonneg (Real.cos (mb.real .angle_edge 0 e 0))
    have p1 := Real.pi_lt_d2
    have p0 := Real.pi_pos
    have : 2 * Real.pi * dc ≤ 1 := by nlinarith
    calc _ ≤ 2 * Real.pi * dc * 1 := mul_le_mul_of_nonneg_left c1 (by positivity)
      _ ≤ 1 := by linarith
  have g := mean_le_geom near
  have nrm : |normalOf m (fun _ => 1) (fun _ => 1) e| ≤ √2 := by
    unfold normalOf normal
    refine Real.abs_le_sqrt ?_
    have := Real.sin_sq_add_cos_sq (m.real .angle_edge 0 e 0)
    nlinarith [sq_nonneg (Real.cos (m.real .angle_edge 0 e 0) - Real.sin (m.real .angle_edge 0 e 0))]
  have r2 : √2 * √2 = (2 : ℝ) := Real.mul_self_sqrt (by norm_num)
  have me : Spec.mean m (fun c => advThick (cellAt m c)) e = (Real.exp (ψ (cellAt m (Spec.cellOf m e 0))) +
      Real.exp (ψ (cellAt m (Spec.cellOf m e 1)))) / 2 := by
    unfold Spec.mean; rfl
  have pr := mul_le_mul (me.trans_le g) nrm (abs_nonneg _) (by positivity)
  set R := √(Real.exp (ψ (cellAt m (Spec.cellOf m e 0))) * Real.exp (ψ (cellAt m (Spec.cellOf m e 1)))) with hR
  show _ ≤ dc * R
  have : √2 * R * √2 = 2 * R := by rw [mul_right_comm, r2]
  rw [this] at pr
  nlinarith

/-- a run of the test with `n` columns, `tracer_advection_convergence.cpp:31-101`: end time one, Courant
number a half. The test leaves `m_f0` uninitialised, so the parameter is arbitrary. -/
def AdvectionRun (p : MeshParams) (n : Int) (m : Mem ℝ) : Prop :=
  p.nx = n ∧ p.ny = n ∧ p.ntracers = 1 ∧ ∃ prm split m0, prm.disable_h = true ∧
    prm.disable_vn = true ∧ prm.eddy_diff2 = 0 ∧ prm.eddy_diff4 = 0 ∧
    Exec p.dims (tracer_run p (1 / (n : ℝ)) prm
    ⟨defaultKernels p.dims.vl, split⟩ advectionTest (.lsrk 5) 1
    (driverRun 1 (1 / 2 * (1 / n)))) m0 m

/-- the test of the repository, at all resolutions that fit in `int`, meets the hypotheses with bounds
that do not depend on the resolution -/
theorem advectionRun_hyps : ∃ B : ℝ,
    (∀ n : Int, 8 ≤ n → n % 2 = 0 → ∀ p : MeshParams, RunValid p → ∀ m, AdvectionRun p n m →
      2 ≤ p.nx ∧ p.ny % 2 = 0 ∧ (0 : ℝ) < 1 / n ∧ (1 : ℝ) / n ≤ 1 ∧
      Bounded 3 (periodX p.nx (1 / (n : ℝ))) (periodY p.ny (1 / (n : ℝ))) B advThick ∧
      Bounded 3 (periodX p.nx (1 / (n : ℝ))) (periodY p.ny (1 / (n : ℝ))) B (fun _ => 1) ∧
      (∀ z, Real.exp (-1) ≤ advThick z) ∧
      BoundedIn 8 (periodX p.nx (1 / (n : ℝ))) (periodY p.ny (1 / (n : ℝ))) B 1 advConc ∧
      Advected advThick (fun _ => 1) (fun _ => 1) advConc ∧
      (∀ z, advectionTest.h z.1 z.2 0 = advThick z) ∧ (∀ z : ℝ × ℝ, advectionTest.vx z.1 z.2 0 = 1) ∧
      (∀ z : ℝ × ℝ, advectionTest.vy z.1 z.2 0 = 1) ∧
      (∀ z t, advectionTest.tr z.1 z.2 t = advThick z * advConc (t, z)) ∧ (0 : ℝ) < 1 / 2 * (1 / n) ∧
      numberofsteps 1 (1 / 2 * (1 / n)) ≤ 10 ^ 18 ∧
      ∀ e, 0 ≤ e → e < p.dims.nedges →
        1 / 2 * (1 / (n : ℝ)) * (Spec.mean m (fun c => advThick (cellAt m c)) e *
          |normalOf m (fun _ => 1) (fun _ => 1) e|) ≤
        1 / n * √(advThick (cellAt m (Spec.cellOf m e 0)) * advThick (cellAt m (Spec.cellOf m e 1)))) := by
  have Q0 : (0 : ℝ) < √3 / 2 := by positivity
  obtain ⟨B1, hB1⟩ := Bounded.exists (n := 3) one_pos Q0 advThick_smooth (advThick_periodic _)
  obtain ⟨B2, hB2⟩ := Bounded.exists (n := 3) (φ := fun _ => (1 : ℝ)) one_pos Q0 contDiff_const
    ⟨fun _ _ => rfl, fun _ _ => rfl⟩
  obtain ⟨B3, hB3⟩ := BoundedIn.exists (n := 8) one_pos Q0 1 advConc_smooth advConc_periodic
  have n1 := hB1.nonneg
  have n2 := hB2.nonneg
  have n3 : 0 ≤ B3 := (abs_nonneg _).trans (hB3.le le_rfl zero_le_one 0)
  refine ⟨B1 + B2 + B3, fun n hn he p hv m hr => ?_⟩
  · obtain ⟨hx, hy, ht, prm, split, m0, -, -, -, -, hex⟩ := hr
    have n8 : (8 : ℝ) ≤ n := by exact_mod_cast hn
    have n0 : (0 : ℝ) < n := by linarith
    have P1 : periodX p.nx (1 / (n : ℝ)) = 1 := by
      unfold periodX; rw [hx]; simp only [lit_real]; field_simp
    have P2 : periodY p.ny (1 / (n : ℝ)) = √3 / 2 := by
      unfold periodY; rw [hy]; simp only [lit_real, sqrt_real]; push_cast; field_simp
    obtain ⟨m', hrun, -, ⟨-, -, mb, hb, hi, hre⟩, -⟩ := tracer_run_runs hv ht (1 / (n : ℝ))
      prm advectionTest (.lsrk 5) 1 (driverRun 1 (1 / 2 * (1 / n))) m0
    obtain rfl : m = m' := ((hrun split).2 m).1 hex
    refine ⟨by omega, by omega, by positivity, by rw [div_le_one n0]; linarith, ?_, ?_, advThick_pos, ?_,
      advConc_advected, fun _ => rfl, fun _ => rfl, fun _ => rfl, advTr_eq, by positivity, ?_, fun e h0 h1 => ?_⟩
    · rw [P1, P2]; exact hB1.mono (by linarith)
    · rw [P1, P2]; exact hB2.mono (by linarith)
    · rw [P1, P2]; exact hB3.raise (by linarith)
    · unfold numberofsteps
      have e1 : (1 : ℝ) / (1 / 2 * (1 / n)) = ((2 * n : Int) : ℝ) := by push_cast; field_simp
      rw [e1, Int.ceil_intCast]
      have := hv.fits
      rw [hx, hy] at this
      nlinarith
    · exact adv_courant hv.toValid (by omega) (by positivity) (by rw [mul_one_div, div_le_one n0]; linarith) P1 hb
        ⟨hi, hre⟩ h0 h1

/-- C74 for the test of the repository, `tracer_advection_convergence.cpp`: at every even number of columns from
eight on, the reported error is at most a constant times the square of the cell size, up to the rounding of the
coefficients of the stepper. -/
theorem C74_repository_test : ∃ K : ℝ, ∀ n : Int, 8 ≤ n → n % 2 = 0 → ∀ p : MeshParams, RunValid p → ∀ m v,
    AdvectionRun p n m → IsTracerError p m v → v ≤ K * √p.dims.nlayers * (1 / (n : ℝ) ^ 2 + 1 / 10 ^ 20) := by
  obtain ⟨B, hB⟩ := advectionRun_hyps
  obtain ⟨K, hK⟩ := C74_advection_test_converges 1 B one_pos (Real.exp_pos (-1))
  refine ⟨2 * max K 0, fun n hn he p hv m v hr hm => ?_⟩
  obtain ⟨a1, a2, a3, a4, a5, a6, a7, a8, a9, b1, b2, b3, b4, b5, b6, b7⟩ := hB n hn he p hv m hr
  obtain ⟨hx, hy, ht, prm, split, m0, d1, d2, d3, d4, hex⟩ := hr
  have := hK (.lsrk 5) prm p (1 / n) (1 / 2 * (1 / n)) advectionTest m0 m split advThick (fun _ => 1) (fun _ => 1)
    advConc v (Or.inr rfl) d3.le d4.le d1 d2 hv ht a1 a2 a3 a4 a5 a6 a6 a7 a8 a9 b1 b2 b3 b4 b5 b6 b7 hex hm
  refine this.trans ?_
  have n8 : (8 : ℝ) ≤ n := by exact_mod_cast hn
  have i0 : (0 : ℝ) < 1 / n := by positivity
  have i1 : (1 : ℝ) / n ≤ 1 := a4
  have e1 : (1 : ℝ) / (n : ℝ) ^ 2 = (1 / n) ^ 2 := by rw [div_pow, one_pow]
  have hE : (1 / (n : ℝ)) ^ 2 + (1 / 2 * (1 / n)) ^ 4 + defect (.lsrk 5) ≤ 2 * ((1 / (n : ℝ)) ^ 2 + 1 / 10 ^ 20) := by
    have : (1 / 2 * (1 / (n : ℝ))) ^ 4 ≤ (1 / (n : ℝ)) ^ 2 := by
      have q1 : (1 / (n : ℝ)) ^ 2 ≤ 1 := pow_le_one₀ i0.le i1
      have q0 : 0 ≤ (1 / (n : ℝ)) ^ 2 := by positivity
      calc (1 / 2 * (1 / (n : ℝ))) ^ 4 = 1 / 16 * ((1 / (n : ℝ)) ^ 2 * (1 / (n : ℝ)) ^ 2) := by ring
        _ ≤ (1 / (n : ℝ)) ^ 2 := by nlinarith
    have : defect (.lsrk 5) = 1 / 10 ^ 20 := rfl
    have : (0 : ℝ) ≤ 1 / 10 ^ 20 := by positivity
    linarith
  have E0 : 0 ≤ (1 / (n : ℝ)) ^ 2 + (1 / 2 * (1 / n)) ^ 4 + defect (.lsrk 5) := by
    have := defect_nonneg (.lsrk 5)
    positivity
  rw [e1]
  calc _ ≤ max K 0 * √p.dims.nlayers * ((1 / (n : ℝ)) ^ 2 + (1 / 2 * (1 / n)) ^ 4 + defect (.lsrk 5)) := by
        gcongr
        exact le_max_left K 0
    _ ≤ max K 0 * √p.dims.nlayers * (2 * ((1 / (n : ℝ)) ^ 2 + 1 / 10 ^ 20)) := by
        gcongr
    _ = _ := by ring

/-- at the two resolutions of the test there is a result -/
example : ∀ n : Int, n = 50 ∨ n = 100 → RunValid (pTest n) ∧ (pTest n).dims.nlayers = 8 ∧
      ∃ m v, AdvectionRun (pTest n) n m ∧ IsTracerError (pTest n) m v := by
  intro n hn
  have hv : RunValid (pTest n) := by
    rcases hn with rfl | rfl <;> refine ⟨⟨?_, ?_, ?_, ?_, ?_, ?_⟩, ?_⟩ <;>
      norm_num [pTest, MeshParams.dims, ceilDiv]
  obtain ⟨m, hr, -⟩ := tracer_run_runs hv rfl (1 / (n : ℝ)) (prmTr 0 0) advectionTest
    (.lsrk 5) 1 (driverRun 1 (1 / 2 * (1 / n))) ⟨fun _ _ _ => 0, fun _ _ _ _ => 0⟩
  refine ⟨hv, by norm_num [pTest, MeshParams.dims, ceilDiv], m, _, ⟨rfl, rfl, rfl, prmTr 0 0, true, _, rfl, rfl, rfl, rfl, (hr true).exec⟩,
    _, (reduces2_real (by rcases hn with rfl | rfl <;> norm_num [pTest, MeshParams.dims]) (layers_nonneg hv)
      (fun c k b c0 c1 k0 k1 => wp_tracer_error rfl c0 c1 k0 k1 b) _).2 rfl, rfl⟩

end Props
end
end Omega
