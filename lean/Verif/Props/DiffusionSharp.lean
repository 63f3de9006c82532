import Verif.Props.Dispersion
import Verif.Props.TracerTests
import Verif.Props.LinearPv

/-!
# C110: what diffusion does to every wave, and where it becomes unstable

C62 gives step sizes up to which diffusion and hyperdiffusion do not increase the variance.  Here is the exact
factor by which a step multiplies each wave of concentration, and with it the instability beyond the limits.
-/

set_option linter.unusedVariables false
set_option linter.unusedSectionVars false

namespace Omega
noncomputable section
namespace Props

open Prog Model Refine Hex Polynomial Taylor

variable {p : MeshParams} {dc : ℝ} {m : Mem ℝ}

/-- the shortest wave is an eigenvector of the discrete Laplacian -/
theorem lap_shortWave (h : Geo2 p.nx p.ny p.dims.nlayers dc m.mesh) (h3 : p.nx % 3 = 0) (hny : p.ny % 2 = 0) {c : Int}
    (hc : IsCell p.nx p.ny c) :
    Spec.div m (Spec.grad m (shortWave p.nx)) c = -(6 / dc ^ 2) * shortWave p.nx c := by
  have d0 := h.dc_pos
  rw [spec_div h _ hc, Dv_congr h.hnx (u' := fun e => 1 / dc * Gr p.nx p.ny (shortWave p.nx) e)
    (fun e a b => by rw [spec_grad h.toGeo _ a b]; ring) hc]
  have : Dv p.nx p.ny (fun e => 1 / dc * Gr p.nx p.ny (shortWave p.nx) e) c =
      1 / dc * Dv p.nx p.ny (Gr p.nx p.ny (shortWave p.nx)) c := by unfold Dv; ring
  rw [this, Dv_shortWave h.hnx h3 hny hc]
  field_simp
  ring

/-- steps on a multiple of an eigenvector above a background in the kernel -/
theorem fold_base {A : Module.End ℝ (Int → ℝ)} {S : Int → Prop}
    (loc : ∀ g g' : Int → ℝ, (∀ c, S c → g c = g' c) → ∀ c, S c → A g c = A g' c) {μ : ℝ} {P : ℝ[X]}
    (P0 : P.eval 0 = 1) {w f : Int → ℝ} (hw : ∀ c, S c → A w c = 0) (hf : ∀ c, S c → A f c = μ * f c)
    (L : List (ℝ × ℝ)) : ∀ (a : ℝ) (x : Int → ℝ), (∀ c, S c → x c = w c + a * f c) → ∀ c, S c →
    L.foldl (fun f q => aeval (q.2 • A) P f) x c =
      w c + a * (L.map fun q => P.eval (q.2 * μ)).prod * f c := by
  induction L with
  | nil => intro a x hx c hc; simpa using hx c hc
  | cons q L ih =>
    intro a x hx c hc
    have loc' : ∀ g g' : Int → ℝ, (∀ c, S c → g c = g' c) → ∀ c, S c → (q.2 • A) g c = (q.2 • A) g' c :=
      fun g g' h c hc => congrArg (q.2 * ·) (loc g g' h c hc)
    have e1 := aeval_eig loc' (f := f) (μ := q.2 * μ) (fun c hc => by
      show q.2 * A f c = _
      rw [hf c hc]; ring) P
    have e2 := aeval_eig loc' (f := x - a • f) (μ := 0) (fun c hc => by
      rw [loc' _ w (fun c hc => by
        show x c - a * f c = w c
        rw [hx c hc]; ring) c hc]
      show q.2 * A w c = _
      rw [hw c hc]; ring) P
    have e3 : ∀ c, S c → aeval (q.2 • A) P x c = w c + a * P.eval (q.2 * μ) * f c := fun c hc => by
      have hs : x = (x - a • f) + a • f := by simp
      rw [hs, map_add, map_smul, Pi.add_apply, e2 c hc, P0]
      show 1 * (x c - a * f c) + a * aeval (q.2 • A) P f c = _
      rw [e1 c hc, hx c hc]; ring
    rw [List.foldl_cons, ih (a * P.eval (q.2 * μ)) _ e3 c hc, List.map_cons, List.prod_cons]
    ring

/-- a run on an eigenvector of the Laplacian above a uniform background -/
theorem diffuse_eig (hv : RunValid p) (hx : 2 ≤ p.nx) (hy : 2 ≤ p.ny) (hdc : 0 < dc) {prm : Params ℝ}
    (hr : Ready p dc prm m) (h5 : prm.disable_h = true) (h6 : prm.disable_vn = true) (k2 : 0 ≤ prm.eddy_diff2)
    (k4 : 0 ≤ prm.eddy_diff4) {l k : Int} (l0 : 0 ≤ l) (l1 : l < p.dims.ntracers) (k0 : 0 ≤ k)
    (k1 : k < p.dims.nlayers) {H : ℝ} (hH : H ≠ 0)
    (hh : ∀ c, 0 ≤ c → c < p.dims.ncells → m.real (.h_cell .state) 0 c k = H)
    (hu : ∀ e, 0 ≤ e → e < p.dims.nedges → m.real (.vn_edge .state) 0 e k = 0) {f : Int → ℝ} {lam : ℝ}
    (hf : ∀ c, IsCell p.nx p.ny c → Spec.div m (Spec.grad m f) c = -lam * f c) {b a : ℝ}
    (ht : ∀ c, 0 ≤ c → c < p.dims.ncells → m.real (.tr_cell .state) l c k = b + a * f c)
    (stp : Stepper) {sched : List (ℝ × ℝ)} {split : Bool} {m1 : Mem ℝ}
    (he : Exec p.dims (stp.ctor p.dims ++
      stp.run p.dims ⟨defaultKernels p.dims.vl, split⟩ (SWModel.ofParams prm) sched) m m1) :
    ∀ c, 0 ≤ c → c < p.dims.ncells → m1.real (.tr_cell .state) l c k =
      b + a * (sched.map fun q => (stabPoly stp).eval
        (-(q.2 * (prm.eddy_diff2 * lam + prm.eddy_diff4 * lam ^ 2)))).prod * f c := by
  intro c c0 c1
  obtain ⟨hd, hc⟩ := ready_ok hv hr
  have g := Ready.geo2 hr hv.toValid hx hy hdc
  set sw := SWModel.ofParams prm with hsw
  obtain ⟨-, -, r3⟩ := frozen_exec h5 h6 hd hc (noHook_ofParams prm) he
  have e1 : (if sw.en_tdiff then sw.prm.eddy_diff2 else 0) = prm.eddy_diff2 := by
    show (if Scalar.lt (lit 0) prm.eddy_diff2 then prm.eddy_diff2 else 0) = _
    simp only [lit_real, slt_real, Int.cast_zero]
    split_ifs <;> linarith
  have e2 : (if sw.en_thyper then sw.prm.eddy_diff4 else 0) = prm.eddy_diff4 := by
    show (if Scalar.lt (lit 0) prm.eddy_diff4 then prm.eddy_diff4 else 0) = _
    simp only [lit_real, slt_real, Int.cast_zero]
    split_ifs <;> linarith
  have eig : ∀ c, IsCell p.nx p.ny c → trOp m sw (fun i => m.real (.h_cell .state) 0 i k)
      (fun i => m.real (.vn_edge .state) 0 i k) f c =
      -(prm.eddy_diff2 * lam + prm.eddy_diff4 * lam ^ 2) * f c := by
    rintro c ⟨a, b⟩
    have e3 : Spec.div m (Spec.grad m (Spec.div m (Spec.grad m f))) c = lam ^ 2 * f c := by
      rw [div_congr hc (v := fun e => -lam * Spec.grad m f e) (fun e a b => ?_) a b, div_mul', hf c ⟨a, b⟩]
      · ring
      · rw [grad_congr hc (ψ := fun c => -lam * f c) (fun c a b => hf c ⟨a, b⟩) a b]
        unfold Spec.grad; ring
    rw [trOp_uniform g hc sw hH hh hu k0 k1 a b, e1, e2, e3, hf c ⟨a, b⟩]
    ring
  have ker : ∀ c, IsCell p.nx p.ny c → trOp m sw (fun i => m.real (.h_cell .state) 0 i k)
      (fun i => m.real (.vn_edge .state) 0 i k) (fun _ => b) c = 0 := by
    rintro c ⟨c0, c1⟩
    have g0 : Spec.grad m (fun _ => b) = fun _ => 0 * (0 : ℝ) := funext fun e => by unfold Spec.grad; simp
    have g1 : Spec.grad m (fun _ => (0 : ℝ)) = fun _ => 0 * (0 : ℝ) := funext fun e => by unfold Spec.grad; simp
    have d0 : Spec.div m (fun _ => 0 * (0 : ℝ)) = fun _ => 0 := funext fun e => by rw [div_mul', zero_mul]
    rw [trOp_uniform g hc sw hH hh hu k0 k1 c0 c1, g0, d0, g1, d0]
    ring
  rw [r3 l c k l0 l1 c0 c1 k0 k1, fold_base (S := IsCell p.nx p.ny)
    (μ := -(prm.eddy_diff2 * lam + prm.eddy_diff4 * lam ^ 2)) (w := fun _ => b) (f := f)
    (trOp_local g hc sw hH hh hu k0 k1) (stabPoly_eval_zero stp) ker eig sched a _
    (fun c hc => ht c hc.1 hc.2) c ⟨c0, c1⟩]
  simp only [mul_neg]

/-- plane waves on a mesh ready for a run -/
theorem lap_ready (hv : RunValid p) (hx : 2 ≤ p.nx) (hny : p.ny % 2 = 0) (hdc : 0 < dc) {prm : Params ℝ}
    (hr : Ready p dc prm m) {k1 k2 : ℝ} (hk : Fits p dc k1 k2) (θ : ℝ) {c : Int} (hc : IsCell p.nx p.ny c) :
    Spec.div m (Spec.grad m (waveH m k1 k2 θ)) c = -lapSymbol dc k1 k2 * waveH m k1 k2 θ c := by
  obtain ⟨m', hb, hs⟩ := ready_mesh hr
  let M : MeshOf dc (fun _ _ => Unit) := ⟨p, dc, m', (), hv.toValid, hx, hny, hdc, le_rfl, hb⟩
  have := lap_wave M (k1 := k1) (k2 := k2) hk (-θ) hc
  change Spec.div m' (Spec.grad m' fun c => Real.cos (dotK k1 k2 (cellAt m' c) + -θ)) c =
    -(lapSymbol dc k1 k2 * Real.cos (dotK k1 k2 (cellAt m' c) + -θ)) at this
  unfold waveH
  rw [hs.grad, hs.cellAt, hs.div]
  simp only [sub_eq_add_neg]
  rw [this]; ring

/-- **C110.**  Every plane wave of tracer on a layer of uniform thickness at rest is multiplied in each step by the
stability polynomial of the stepper at `-dt * (κ₂ * λ + κ₄ * λ²)`, where `λ` is the symbol of the discrete Laplacian
at the wave number: amplitude and nothing else changes, whatever the steps. -/
theorem C110_wave_factor (hv : RunValid p) (hx : 2 ≤ p.nx) (hny : p.ny % 2 = 0) (hdc : 0 < dc) {prm : Params ℝ}
    (hr : Ready p dc prm m) (h5 : prm.disable_h = true) (h6 : prm.disable_vn = true) (k2 : 0 ≤ prm.eddy_diff2)
    (k4 : 0 ≤ prm.eddy_diff4) {l k : Int} (l0 : 0 ≤ l) (l1 : l < p.dims.ntracers) (k0 : 0 ≤ k)
    (k1 : k < p.dims.nlayers) {H : ℝ} (hH : H ≠ 0)
    (hh : ∀ c, 0 ≤ c → c < p.dims.ncells → m.real (.h_cell .state) 0 c k = H)
    (hu : ∀ e, 0 ≤ e → e < p.dims.nedges → m.real (.vn_edge .state) 0 e k = 0) {κx κy : ℝ}
    (hk : Fits p dc κx κy) {b a θ : ℝ}
    (ht : ∀ c, 0 ≤ c → c < p.dims.ncells →
      m.real (.tr_cell .state) l c k = b + a * Real.cos (dotK κx κy (cellAt m c) - θ))
    (stp : Stepper) {sched : List (ℝ × ℝ)} {split : Bool} {m1 : Mem ℝ}
    (he : Exec p.dims (stp.ctor p.dims ++
      stp.run p.dims ⟨defaultKernels p.dims.vl, split⟩ (SWModel.ofParams prm) sched) m m1) :
    ∀ c, 0 ≤ c → c < p.dims.ncells → m1.real (.tr_cell .state) l c k =
      b + a * (sched.map fun q => (stabPoly stp).eval (-(q.2 * (prm.eddy_diff2 * lapSymbol dc κx κy +
        prm.eddy_diff4 * lapSymbol dc κx κy ^ 2)))).prod * Real.cos (dotK κx κy (cellAt m c) - θ) :=
  diffuse_eig hv hx (by have := hv.toValid.ny_pos; omega) hdc hr h5 h6 k2 k4 l0 l1 k0 k1 hH hh hu
    (fun c hc => lap_ready hv hx hny hdc hr hk θ hc) ht stp he

/-- the longest wave along the rows of a mesh of 36 cells, three steps of different sizes -/
example (stp : Stepper) : ∃ (prm : Params ℝ) (m m1 : Mem ℝ) (κ : ℝ),
    RunValid p66 ∧ 2 ≤ p66.nx ∧ p66.ny % 2 = 0 ∧ prm.disable_h = true ∧ prm.disable_vn = true ∧
    prm.eddy_diff2 = 1 / 3 ∧ prm.eddy_diff4 = 1 / 36 ∧ (0 : Int) ≤ 2 ∧ 2 < p66.dims.nlayers ∧ Ready p66 1 prm m ∧
    (∀ c, 0 ≤ c → c < p66.dims.ncells → m.real (.h_cell .state) 0 c 2 = 5) ∧
    (∀ e, 0 ≤ e → e < p66.dims.nedges → m.real (.vn_edge .state) 0 e 2 = 0) ∧ κ ≠ 0 ∧ Fits p66 1 κ 0 ∧
    (∀ c, 0 ≤ c → c < p66.dims.ncells →
      m.real (.tr_cell .state) 0 c 2 = 3 + 1 * Real.cos (dotK κ 0 (cellAt m c) - 1)) ∧
    Exec p66.dims (stp.ctor p66.dims ++ stp.run p66.dims
      ⟨defaultKernels p66.dims.vl, false⟩ (SWModel.ofParams prm) [(0, 1), (1, 2), (3, 1 / 2)]) m m1 := by
  obtain ⟨prm, hprm⟩ : ∃ q : Params ℝ, q = ⟨0, 1, 0, 0, 1 / 3, 1 / 36, true, true⟩ := ⟨_, rfl⟩
  obtain ⟨κ, hκ⟩ : ∃ q : ℝ, q = 2 * Real.pi / 6 := ⟨_, rfl⟩
  have px : periodX p66.nx (1 : ℝ) = 6 := by
    show ((6 : Int) : ℝ) * 1 = 6
    norm_num
  have hκ0 : κ ≠ 0 := by rw [hκ]; have := Real.pi_pos; positivity
  obtain ⟨m0, hr0, -, -⟩ := exists_ready p66_run.toValid 1 prm zeroFld zeroFld
  obtain ⟨m, m1, hr, hx, he⟩ := exists_newRun p66_run 1 prm (noHook_ofParams prm) false stp
    [(0, 1), (1, 2), (3, 1 / 2)]
    ⟨fun _ _ => 5, fun _ _ => 0, fun _ c _ => 3 + 1 * Real.cos (dotK κ 0 (cellAt m0 c) - 1)⟩
  have g0 := (hr0.hex p66_run.toValid).1
  have g1 := (hr.hex p66_run.toValid).1
  have hl : p66.dims.nlayers = p46.dims.nlayers := rfl
  refine ⟨prm, m, m1, κ, p66_run, by simp [p66], by simp [p66],
    by rw [hprm], by rw [hprm], by rw [hprm], by rw [hprm], by norm_num,
    by rw [hl, p46_layers]; norm_num, hr, fun c _ _ => congrFun (congrFun (congrArg Fld.h hx) c) 2,
    fun c _ _ => congrFun (congrFun (congrArg Fld.vn hx) c) 2, hκ0,
    ⟨⟨1, by rw [hκ, px]; push_cast; ring⟩, 0, by simp⟩, fun c c0 c1 => ?_, he⟩
  rw [show m.real (.tr_cell .state) 0 c 2 = 3 + 1 * Real.cos (dotK κ 0 (cellAt m0 c) - 1) from
    congrFun (congrFun (congrFun (congrArg Fld.tr hx) 0) c) 2]
  unfold cellAt
  rw [g0.x_cell c ⟨c0, c1⟩, g0.y_cell c ⟨c0, c1⟩, g1.x_cell c ⟨c0, c1⟩, g1.y_cell c ⟨c0, c1⟩]

/-- step size times damping of the shortest wave from which the stepper amplifies it -/
def growthLimit : Stepper → ℝ
  | .lsrk n => if n = 1 then 2 else 466 / 100
  | .rk4 => 279 / 100

theorem one_lt_stab (stp : Stepper) (hs : stp = .rk4 ∨ stp = .lsrk 1 ∨ stp = .lsrk 5) {z : ℝ}
    (hz : growthLimit stp < z) : 1 < |(stabPoly stp).eval (-z)| := by
  rcases hs with rfl | rfl | rfl
  · simp only [growthLimit] at hz
    rw [rk4_eval, lt_abs]
    left
    obtain ⟨t, t0, rfl⟩ : ∃ t : ℝ, 0 < t ∧ z = 279 / 100 + t := ⟨z - 279 / 100, by linarith, by ring⟩
    nlinarith [pow_pos t0 2, pow_pos t0 3, pow_pos t0 4]
  · simp only [growthLimit, if_true] at hz
    rw [stabPoly_euler, eval_add, eval_one, eval_X, lt_abs]
    right; linarith
  · simp only [growthLimit] at hz
    norm_num at hz
    obtain ⟨c1, c2, c3, c4, c5, b1, b2, b3, b4, b5, he⟩ := lsrk5_eval
    rw [he, lt_abs]
    right
    obtain ⟨t, t0, rfl⟩ : ∃ t : ℝ, 0 < t ∧ z = 466 / 100 + t := ⟨z - 466 / 100, by linarith, by ring⟩
    have z0 : (0 : ℝ) ≤ 466 / 100 + t := by positivity
    have d1 := mul_le_mul_of_nonneg_right (abs_le.1 b1).1 z0
    have d2 := mul_le_mul_of_nonneg_right (abs_le.1 b2).2 (pow_nonneg z0 2)
    have d3 := mul_le_mul_of_nonneg_right (abs_le.1 b3).1 (pow_nonneg z0 3)
    have d4 := mul_le_mul_of_nonneg_right (abs_le.1 b4).2 (pow_nonneg z0 4)
    have d5 := mul_le_mul_of_nonneg_right (abs_le.1 b5).1 (pow_nonneg z0 5)
    have e : 1 + c1 * -(466 / 100 + t) + c2 * (-(466 / 100 + t)) ^ 2 + c3 * (-(466 / 100 + t)) ^ 3 +
        c4 * (-(466 / 100 + t)) ^ 4 + c5 * (-(466 / 100 + t)) ^ 5 = 1 - c1 * (466 / 100 + t) +
        c2 * (466 / 100 + t) ^ 2 - c3 * (466 / 100 + t) ^ 3 + c4 * (466 / 100 + t) ^ 4 -
        c5 * (466 / 100 + t) ^ 5 := by ring
    rw [e]
    nlinarith [pow_pos t0 2, pow_pos t0 3, pow_pos t0 4, pow_pos t0 5]

/-- **C110.**  On a mesh whose rows have a multiple of three cells and whose number of rows is even the shortest wave
decays with `6 * κ₂ / dc² + 36 * κ₄ / dc⁴`. -/
theorem C110_short_wave (hv : RunValid p) (hx : 2 ≤ p.nx) (h3 : p.nx % 3 = 0) (hny : p.ny % 2 = 0) (hdc : 0 < dc)
    {prm : Params ℝ}
    (hr : Ready p dc prm m) (h5 : prm.disable_h = true) (h6 : prm.disable_vn = true) (k2 : 0 ≤ prm.eddy_diff2)
    (k4 : 0 ≤ prm.eddy_diff4) {l k : Int} (l0 : 0 ≤ l) (l1 : l < p.dims.ntracers) (k0 : 0 ≤ k)
    (k1 : k < p.dims.nlayers) {H : ℝ} (hH : H ≠ 0)
    (hh : ∀ c, 0 ≤ c → c < p.dims.ncells → m.real (.h_cell .state) 0 c k = H)
    (hu : ∀ e, 0 ≤ e → e < p.dims.nedges → m.real (.vn_edge .state) 0 e k = 0) {b a : ℝ}
    (ht : ∀ c, 0 ≤ c → c < p.dims.ncells → m.real (.tr_cell .state) l c k = b + a * shortWave p.nx c)
    (stp : Stepper) {sched : List (ℝ × ℝ)} {split : Bool} {m1 : Mem ℝ}
    (he : Exec p.dims (stp.ctor p.dims ++
      stp.run p.dims ⟨defaultKernels p.dims.vl, split⟩ (SWModel.ofParams prm) sched) m m1) :
    ∀ c, 0 ≤ c → c < p.dims.ncells → m1.real (.tr_cell .state) l c k =
      b + a * (sched.map fun q => (stabPoly stp).eval (-(q.2 * (6 * prm.eddy_diff2 / dc ^ 2 +
        36 * prm.eddy_diff4 / dc ^ 4)))).prod * shortWave p.nx c := by
  intro c c0 c1
  have hy : 2 ≤ p.ny := by have := hv.toValid.ny_pos; omega
  rw [diffuse_eig hv hx hy hdc hr h5 h6 k2 k4 l0 l1 k0 k1 hH hh hu
    (fun c hc => lap_shortWave (Ready.geo2 hr hv.toValid hx hy hdc) h3 hny hc) ht stp he c c0 c1]
  congr 6
  funext q
  congr 3
  ring

/-- **C110.**  The limits of C62 cannot be raised by much (for the forward Euler step: not at all): with a step beyond
`growthLimit` the smallest ripple of the shortest wave on a uniform concentration exceeds any bound in every cell
after enough steps. -/
theorem C110_limits_sharp (hv : RunValid p) (hx : 2 ≤ p.nx) (h3 : p.nx % 3 = 0) (hny : p.ny % 2 = 0) (hdc : 0 < dc)
    {prm : Params ℝ} (h5 : prm.disable_h = true) (h6 : prm.disable_vn = true) (k2 : 0 ≤ prm.eddy_diff2)
    (k4 : 0 ≤ prm.eddy_diff4) (stp : Stepper) (hs : stp = .rk4 ∨ stp = .lsrk 1 ∨ stp = .lsrk 5) {dt : ℝ}
    (hz : growthLimit stp < dt * (6 * prm.eddy_diff2 / dc ^ 2 + 36 * prm.eddy_diff4 / dc ^ 4)) {a : ℝ}
    (ha : a ≠ 0) (B : ℝ) :
    ∃ N : ℕ, ∀ (m m1 : Mem ℝ) (l k : Int) (H b : ℝ) (sched : List (ℝ × ℝ)) (split : Bool), Ready p dc prm m →
      0 ≤ l → l < p.dims.ntracers → 0 ≤ k → k < p.dims.nlayers → H ≠ 0 →
      (∀ c, 0 ≤ c → c < p.dims.ncells → m.real (.h_cell .state) 0 c k = H) →
      (∀ e, 0 ≤ e → e < p.dims.nedges → m.real (.vn_edge .state) 0 e k = 0) →
      (∀ c, 0 ≤ c → c < p.dims.ncells → m.real (.tr_cell .state) l c k = b + a * shortWave p.nx c) →
      (∀ q ∈ sched, q.2 = dt) → N ≤ sched.length →
      Exec p.dims (stp.ctor p.dims ++
        stp.run p.dims ⟨defaultKernels p.dims.vl, split⟩ (SWModel.ofParams prm) sched) m m1 →
      ∀ c, 0 ≤ c → c < p.dims.ncells → B < |m1.real (.tr_cell .state) l c k - b| := by
  have g1 := one_lt_stab stp hs hz
  set z := dt * (6 * prm.eddy_diff2 / dc ^ 2 + 36 * prm.eddy_diff4 / dc ^ 4) with hzd
  obtain ⟨N, hN⟩ := pow_unbounded_of_one_lt (B / |a|) g1
  refine ⟨N, fun m m1 l k H b sched split hr l0 l1 k0 k1 hH hh hu ht hq hl he c c0 c1 => ?_⟩
  have e1 : (sched.map fun q => (stabPoly stp).eval (-(q.2 * (6 * prm.eddy_diff2 / dc ^ 2 +
      36 * prm.eddy_diff4 / dc ^ 4)))).prod = (stabPoly stp).eval (-z) ^ sched.length := by
    rw [List.map_congr_left (g := fun _ => (stabPoly stp).eval (-z)) (fun q h => by rw [hq q h]),
      List.map_const', List.prod_replicate]
  have s1 : 1 ≤ |shortWave p.nx c| := by
    unfold shortWave
    split_ifs <;> norm_num
  rw [C110_short_wave hv hx h3 hny hdc hr h5 h6 k2 k4 l0 l1 k0 k1 hH hh hu ht stp he c c0 c1, e1,
    add_sub_cancel_left, abs_mul, abs_mul, abs_pow]
  have a0 : 0 < |a| := abs_pos.2 ha
  have p1 := pow_le_pow_right₀ g1.le hl
  have p0 : 0 < |(stabPoly stp).eval (-z)| ^ sched.length := by positivity
  calc B = |a| * (B / |a|) := by field_simp
    _ < |a| * |(stabPoly stp).eval (-z)| ^ sched.length := by gcongr; linarith
    _ ≤ _ := le_mul_of_one_le_right (by positivity) s1

/-- a mesh of 36 cells: Runge-Kutta steps of one, ripples of size a millionth on a uniform concentration -/
example (n : ℕ) : ∃ (prm : Params ℝ) (m m1 : Mem ℝ) (sched : List (ℝ × ℝ)),
    RunValid p66 ∧ 2 ≤ p66.nx ∧ p66.nx % 3 = 0 ∧ p66.ny % 2 = 0 ∧ prm.disable_h = true ∧
    prm.disable_vn = true ∧ prm.eddy_diff2 = 1 / 3 ∧ prm.eddy_diff4 = 1 / 36 ∧
    growthLimit .rk4 < (1 : ℝ) * (6 * prm.eddy_diff2 / 1 ^ 2 + 36 * prm.eddy_diff4 / 1 ^ 4) ∧
    (0 : Int) ≤ 2 ∧ 2 < p66.dims.nlayers ∧ Ready p66 1 prm m ∧
    (∀ c, 0 ≤ c → c < p66.dims.ncells → m.real (.h_cell .state) 0 c 2 = 5) ∧
    (∀ e, 0 ≤ e → e < p66.dims.nedges → m.real (.vn_edge .state) 0 e 2 = 0) ∧
    (∀ c, 0 ≤ c → c < p66.dims.ncells →
      m.real (.tr_cell .state) 0 c 2 = 1 + 1 / 10 ^ 6 * shortWave p66.nx c) ∧
    sched.length = n ∧ (∀ q ∈ sched, q.2 = 1) ∧
    Exec p66.dims (Stepper.ctor p66.dims .rk4 ++ Stepper.run p66.dims
      ⟨defaultKernels p66.dims.vl, true⟩ (SWModel.ofParams prm) .rk4 sched) m m1 := by
  obtain ⟨prm, hprm⟩ : ∃ q : Params ℝ, q = ⟨0, 1, 0, 0, 1 / 3, 1 / 36, true, true⟩ := ⟨_, rfl⟩
  obtain ⟨m, m1, hr, hx, he⟩ := exists_newRun p66_run 1 prm (noHook_ofParams prm) true .rk4
    (List.replicate n (0, 1)) ⟨fun _ _ => 5, fun _ _ => 0, fun _ c _ => 1 + 1 / 10 ^ 6 * shortWave 6 c⟩
  have hl : p66.dims.nlayers = p46.dims.nlayers := rfl
  refine ⟨prm, m, m1, List.replicate n (0, 1), p66_run, by simp [p66], by simp [p66], by simp [p66],
    by rw [hprm], by rw [hprm], by rw [hprm], by rw [hprm], by rw [hprm]; norm_num [growthLimit], by norm_num,
    by rw [hl, p46_layers]; norm_num, hr, fun c _ _ => congrFun (congrFun (congrArg Fld.h hx) c) 2,
    fun c _ _ => congrFun (congrFun (congrArg Fld.vn hx) c) 2,
    fun c _ _ => congrFun (congrFun (congrFun (congrArg Fld.tr hx) 0) c) 2, by simp,
    fun q hq => by rw [List.eq_of_mem_replicate hq], he⟩

end Props
end
end Omega
