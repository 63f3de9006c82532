import Verif.Props.TracerStability

/-!
# C62, continued: diffusion and hyperdiffusion of tracers in a layer of uniform thickness

The step sizes of the two tests are within the limits.
-/

set_option linter.unusedVariables false
set_option linter.unusedSectionVars false

namespace Omega
noncomputable section
namespace Props

open Prog Model Refine Hex Polynomial

variable {p : MeshParams} {dc : ℝ} {m : Mem ℝ}

/-- The tracer tendency of a layer of uniform thickness at rest. -/
theorem trOp_uniform (h : Geo2 p.nx p.ny p.dims.nlayers dc m.mesh) (hc : ConnOK p.dims m)
    (sw : SWModel ℝ) {x u : Int → ℝ} {H : ℝ} (hH : H ≠ 0)
    (hx : ∀ c, 0 ≤ c → c < p.dims.ncells → x c = H)
    (hu : ∀ e, 0 ≤ e → e < p.dims.nedges → u e = 0) {k c : Int} (k0 : 0 ≤ k)
    (k1 : k < p.dims.nlayers) (c0 : 0 ≤ c) (c1 : c < p.dims.ncells) (s : Int → ℝ) :
    trOp m sw x u s c = (if sw.en_tdiff then sw.prm.eddy_diff2 else 0) *
        Spec.div m (Spec.grad m s) c -
      (if sw.en_thyper then sw.prm.eddy_diff4 else 0) *
        Spec.div m (Spec.grad m (Spec.div m (Spec.grad m s))) c := by
  have e1 : ∀ e, 0 ≤ e → e < p.dims.nedges →
      Spec.mean m x e * Spec.grad m (fun i => s i / x i) e = Spec.grad m s e := fun e a b => by
    obtain ⟨a0, a1⟩ := hc.coe e a b 0 (by norm_num) (by norm_num)
    obtain ⟨b0, b1⟩ := hc.coe e a b 1 (by norm_num) (by norm_num)
    unfold Spec.mean Spec.grad Spec.cellOf
    beta_reduce
    rw [hx _ a0 a1, hx _ b0 b1]
    field_simp
    ring
  rw [trOp_rest h hc sw x u s hu k0 k1 c0 c1, div_congr hc e1 c0 c1,
    div_congr hc (fun e a b => grad_congr hc (fun c a b => div_congr hc e1 a b) a b) c0 c1]

/-- The squared Laplacian is bounded by `36 / dc⁴` times the square. -/
theorem lap_sq_le (h : Geo2 p.nx p.ny p.dims.nlayers dc m.mesh) (hny : p.ny % 2 = 0) (f : Int → ℝ) :
    ∑ c ∈ Spec.cells p.dims, Spec.areaC m c * Spec.div m (Spec.grad m f) c ^ 2 ≤
      36 / dc ^ 4 * ∑ c ∈ Spec.cells p.dims, Spec.areaC m c * f c ^ 2 := by
  have hd := h.dc_pos
  set L := Spec.div m (Spec.grad m f) with hL
  have a := adjoint h L (Spec.grad m f)
  have b := grad_sq_le h.toGeo hny f
  have b2 := grad_sq_le h.toGeo hny L
  set G := ∑ e ∈ Spec.edges p.dims, Spec.dcE m e * Spec.dvE m e * Spec.grad m f e ^ 2
  set GS := ∑ e ∈ Spec.edges p.dims, Spec.dcE m e * Spec.dvE m e * Spec.grad m L e ^ 2
  set F := ∑ c ∈ Spec.cells p.dims, Spec.areaC m c * f c ^ 2
  set N := ∑ c ∈ Spec.cells p.dims, Spec.areaC m c * L c ^ 2
  have eN : ∑ c ∈ Spec.cells p.dims, Spec.areaC m c * (L c * Spec.div m (Spec.grad m f) c) = N :=
    Finset.sum_congr rfl fun c _ => by rw [← hL]; ring
  rw [eN] at a
  -- weighted Cauchy-Schwarz
  have hM : (0 : ℝ) < 6 / dc ^ 2 := by positivity
  have cs : N ≤ (6 / dc ^ 2 * G + GS / (6 / dc ^ 2)) / 2 := by
    rw [a, show (6 / dc ^ 2 * G + GS / (6 / dc ^ 2)) / 2 = ∑ e ∈ Spec.edges p.dims,
      Spec.dcE m e * Spec.dvE m e * ((6 / dc ^ 2 * Spec.grad m f e ^ 2 +
        Spec.grad m L e ^ 2 / (6 / dc ^ 2)) / 2) from ?_, ← Finset.sum_neg_distrib]
    · refine Finset.sum_le_sum fun e he => ?_
      have l0 := (dcdv_pos h.toGeo (Finset.mem_Ico.1 he).1 (Finset.mem_Ico.1 he).2).le
      have : -(Spec.grad m f e * Spec.grad m L e) ≤ (6 / dc ^ 2 * Spec.grad m f e ^ 2 +
          Spec.grad m L e ^ 2 / (6 / dc ^ 2)) / 2 := by
        generalize Spec.grad m f e = s
        generalize Spec.grad m L e = t
        have : (6 / dc ^ 2 * s ^ 2 + t ^ 2 / (6 / dc ^ 2)) / 2 + s * t =
            (6 / dc ^ 2 * s + t) ^ 2 / (2 * (6 / dc ^ 2)) := by field_simp; ring
        have : 0 ≤ (6 / dc ^ 2 * s + t) ^ 2 / (2 * (6 / dc ^ 2)) := by positivity
        linarith
      have := mul_le_mul_of_nonneg_left this l0
      linarith
    · rw [Finset.mul_sum, Finset.sum_div, ← Finset.sum_add_distrib, Finset.sum_div]
      exact Finset.sum_congr rfl fun e _ => by ring
  have b3 : GS / (6 / dc ^ 2) ≤ N := by rw [div_le_iff₀ hM]; linarith
  have b4 := mul_le_mul_of_nonneg_left b hM.le
  have e : 6 / dc ^ 2 * (6 / dc ^ 2 * F) = 36 / dc ^ 4 * F := by field_simp; ring
  linarith

/-- the same for any polynomial that is at most one on the range of the operator -/
theorem hyper_spectral (h : Geo2 p.nx p.ny p.dims.nlayers dc m.mesh) (hc : ConnOK p.dims m)
    (hny : p.ny % 2 = 0) {sw : SWModel ℝ} (h2 : 0 ≤ sw.prm.eddy_diff2) (h4 : 0 ≤ sw.prm.eddy_diff4)
    {x u : Int → ℝ} {H : ℝ} (hH : H ≠ 0) (hx : ∀ c, 0 ≤ c → c < p.dims.ncells → x c = H)
    (hu : ∀ e, 0 ≤ e → e < p.dims.nedges → u e = 0) {k : Int} (k0 : 0 ≤ k)
    (k1 : k < p.dims.nlayers) {dt : ℝ} (hdt : 0 ≤ dt) {L : ℝ}
    (hcfl : 6 * sw.prm.eddy_diff2 * dt / dc ^ 2 + 36 * sw.prm.eddy_diff4 * dt / dc ^ 4 ≤
      L) {r : ℝ[X]}
    (hr : ∀ z, -L ≤ z → z ≤ 0 → |r.eval z| ≤ 1) (f : Int → ℝ) :
    ∑ c ∈ Spec.cells p.dims, Spec.areaC m c *
        aeval (dt • trOp m sw x u) r f c ^ 2 ≤
      ∑ c ∈ Spec.cells p.dims, Spec.areaC m c * f c ^ 2 := by
  have hd := h.dc_pos
  have hA : ∀ c ∈ Spec.cells p.dims, 0 < Spec.areaC m c := fun c hcc =>
    areaC_pos h.toGeo (Finset.mem_Ico.1 hcc).1 (Finset.mem_Ico.1 hcc).2
  set κ := if sw.en_tdiff then sw.prm.eddy_diff2 else 0 with hκ
  have κ0 : 0 ≤ κ := by rw [hκ]; split_ifs <;> simp [h2]
  have κ1 : κ ≤ sw.prm.eddy_diff2 := by rw [hκ]; split_ifs <;> simp [h2]
  set ν := if sw.en_thyper then sw.prm.eddy_diff4 else 0 with hν
  have ν0 : 0 ≤ ν := by rw [hν]; split_ifs <;> simp [h4]
  have ν1 : ν ≤ sw.prm.eddy_diff4 := by rw [hν]; split_ifs <;> simp [h4]
  have hl' : ∀ e ∈ Spec.edges p.dims, 0 ≤ Spec.dcE m e * Spec.dvE m e := fun e he =>
    (dcdv_pos h.toGeo (Finset.mem_Ico.1 he).1 (Finset.mem_Ico.1 he).2).le
  have parts : ∀ f g : Int → ℝ, ∑ c ∈ Spec.cells p.dims, Spec.areaC m c *
      (g c * Spec.div m (Spec.grad m f) c) = -∑ e ∈ Spec.edges p.dims, Spec.dcE m e *
        Spec.dvE m e * (Spec.grad m f e * Spec.grad m g e) := fun f g => adjoint h g _
  have bil : ∀ f g : Int → ℝ, ∑ c ∈ Spec.cells p.dims, Spec.areaC m c *
      ((dt • trOp m sw x u) f c * g c) = -(dt * (κ * ∑ e ∈ Spec.edges p.dims, Spec.dcE m e *
        Spec.dvE m e * (Spec.grad m f e * Spec.grad m g e) + ν * ∑ c ∈ Spec.cells p.dims,
          Spec.areaC m c * (Spec.div m (Spec.grad m f) c * Spec.div m (Spec.grad m g) c))) :=
    fun f g => by
    have a1 := parts f g
    have a2 := parts (Spec.div m (Spec.grad m f)) g
    have a3 := parts g (Spec.div m (Spec.grad m f))
    have a4 : ∑ c ∈ Spec.cells p.dims, Spec.areaC m c *
        (g c * Spec.div m (Spec.grad m (Spec.div m (Spec.grad m f))) c) =
        ∑ c ∈ Spec.cells p.dims, Spec.areaC m c *
          (Spec.div m (Spec.grad m f) c * Spec.div m (Spec.grad m g) c) := by
      rw [a2, a3]
      congr 1
      exact Finset.sum_congr rfl fun e _ => by ring
    have a5 : ∑ e ∈ Spec.edges p.dims, Spec.dcE m e *
        Spec.dvE m e * (Spec.grad m f e * Spec.grad m g e) = -∑ c ∈ Spec.cells p.dims,
          Spec.areaC m c * (g c * Spec.div m (Spec.grad m f) c) := by rw [a1, neg_neg]
    rw [a5, ← a4, ← Finset.sum_neg_distrib, Finset.mul_sum, Finset.mul_sum,
      ← Finset.sum_add_distrib, Finset.mul_sum, ← Finset.sum_neg_distrib]
    refine Finset.sum_congr rfl fun c hcc => ?_
    obtain ⟨c0, c1⟩ := Finset.mem_Ico.1 hcc
    show _ * (dt * trOp m sw x u f c * g c) = _
    rw [trOp_uniform h hc sw hH hx hu k0 k1 c0 c1]
    ring
  have com : ∀ f g : Int → ℝ, ∑ c ∈ Spec.cells p.dims, Spec.areaC m c *
      (f c * (dt • trOp m sw x u) g c) = ∑ c ∈ Spec.cells p.dims, Spec.areaC m c *
      ((dt • trOp m sw x u) g c * f c) := fun f g =>
    Finset.sum_congr rfl fun c _ => by ring
  refine Spectral.contract hA
    (T := dt • trOp m sw x u) (L := L) ?_ ?_ ?_ ?_ hr f
  · intro f g hfg c hcc
    show dt * trOp m sw x u f c = dt * trOp m sw x u g c
    rw [rest_local h hc sw hu k0 k1 hfg hcc]
  · intro f g
    rw [com, bil, bil]
    congr 4
    · exact Finset.sum_congr rfl fun e _ => by ring
    · exact Finset.sum_congr rfl fun e _ => by ring
  · intro f
    rw [com, bil, neg_nonpos]
    refine mul_nonneg hdt (add_nonneg (mul_nonneg κ0 (Finset.sum_nonneg fun e he => ?_))
      (mul_nonneg ν0 (Finset.sum_nonneg fun c hcc => ?_)))
    · exact mul_nonneg (hl' e he) (mul_self_nonneg _)
    · exact mul_nonneg (hA c hcc).le (mul_self_nonneg _)
  · intro f
    rw [com, bil, neg_le_neg_iff]
    have s2 := grad_sq_le h.toGeo hny f
    have s3 := lap_sq_le h hny f
    set W := ∑ c ∈ Spec.cells p.dims, Spec.areaC m c * f c ^ 2 with hW
    have W0 : 0 ≤ W := Finset.sum_nonneg fun c hcc => mul_nonneg (hA c hcc).le (sq_nonneg _)
    simp only [← pow_two]
    calc _ ≤ dt * (κ * (6 / dc ^ 2 * W) + ν * (36 / dc ^ 4 * W)) := by gcongr
      _ = (6 * κ * dt / dc ^ 2 + 36 * ν * dt / dc ^ 4) * W := by ring
      _ ≤ (6 * sw.prm.eddy_diff2 * dt / dc ^ 2 + 36 * sw.prm.eddy_diff4 * dt / dc ^ 4) * W := by
        gcongr
      _ ≤ L * W := mul_le_mul_of_nonneg_right hcfl W0

/-- One step of any stepper does not increase the variance in a uniform layer at rest. -/
theorem hyper_contract (h : Geo2 p.nx p.ny p.dims.nlayers dc m.mesh) (hc : ConnOK p.dims m)
    (hny : p.ny % 2 = 0) {sw : SWModel ℝ} (h2 : 0 ≤ sw.prm.eddy_diff2) (h4 : 0 ≤ sw.prm.eddy_diff4)
    {x u : Int → ℝ} {H : ℝ} (hH : H ≠ 0) (hx : ∀ c, 0 ≤ c → c < p.dims.ncells → x c = H)
    (hu : ∀ e, 0 ≤ e → e < p.dims.nedges → u e = 0) {k : Int} (k0 : 0 ≤ k)
    (k1 : k < p.dims.nlayers) {dt : ℝ} (hdt : 0 ≤ dt) {stp : Stepper}
    (hcfl : 6 * sw.prm.eddy_diff2 * dt / dc ^ 2 + 36 * sw.prm.eddy_diff4 * dt / dc ^ 4 ≤
      diffusionLimit stp) (f : Int → ℝ) :
    ∑ c ∈ Spec.cells p.dims, Spec.areaC m c *
        aeval (dt • trOp m sw x u) (stabPoly stp) f c ^ 2 ≤
      ∑ c ∈ Spec.cells p.dims, Spec.areaC m c * f c ^ 2 :=
  hyper_spectral h hc hny h2 h4 hH hx hu k0 k1 hdt hcfl (fun z => stab_le_one stp) f

/-- Steps of tracer diffusion and hyperdiffusion in a prescribed flow at rest with uniform thickness:
if every step satisfies `6 κ₂ dt / dc² + 36 κ₄ dt / dc⁴ ≤ limit`, then the variance of the tracer
does not grow. -/
theorem C62_hyperdiffusion_stable (hv : RunValid p) (hx : 2 ≤ p.nx) (hy : 2 ≤ p.ny)
    (hny : p.ny % 2 = 0) (hdc : 0 < dc) {prm : Params ℝ} (hr : Ready p dc prm m) {sw : SWModel ℝ}
    (hn : sw.NoHook) (h5 : sw.prm.disable_h = true) (h6 : sw.prm.disable_vn = true)
    (h2 : 0 ≤ sw.prm.eddy_diff2) (h4 : 0 ≤ sw.prm.eddy_diff4)
    {l k : Int} (l0 : 0 ≤ l) (l1 : l < p.dims.ntracers) (k0 : 0 ≤ k) (k1 : k < p.dims.nlayers)
    (hu : ∀ e, 0 ≤ e → e < p.dims.nedges → m.real (.vn_edge .state) 0 e k = 0)
    {H : ℝ} (hH : H ≠ 0) (hh : ∀ c, 0 ≤ c → c < p.dims.ncells → m.real (.h_cell .state) 0 c k = H)
    {stp : Stepper} {sched : List (ℝ × ℝ)}
    (hs : ∀ q ∈ sched, 0 ≤ q.2 ∧ 6 * sw.prm.eddy_diff2 * q.2 / dc ^ 2 +
      36 * sw.prm.eddy_diff4 * q.2 / dc ^ 4 ≤ diffusionLimit stp)
    {split : Bool} {m1 : Mem ℝ}
    (he : Exec p.dims (stp.ctor p.dims ++
      stp.run p.dims ⟨defaultKernels p.dims.vl, split⟩ sw sched) m m1) :
    ∑ c ∈ Spec.cells p.dims, Spec.areaC m c * m1.real (.tr_cell .state) l c k ^ 2 ≤
      ∑ c ∈ Spec.cells p.dims, Spec.areaC m c * m.real (.tr_cell .state) l c k ^ 2 := by
  obtain ⟨hd, hc⟩ := ready_ok hv hr
  have g := Ready.geo2 hr hv.toValid hx hy hdc
  obtain ⟨-, -, r3⟩ := frozen_exec h5 h6 hd hc hn he
  have key := fold_le (Q := fun f => ∑ c ∈ Spec.cells p.dims, Spec.areaC m c * f c ^ 2)
    (A := fun q => aeval (q.2 • trOp m sw (fun i => m.real (.h_cell .state) 0 i k)
          (fun i => m.real (.vn_edge .state) 0 i k)) (stabPoly stp)) sched
    (fun q hq f => hyper_contract g hc hny h2 h4 hH hh hu k0 k1 (hs q hq).1 (hs q hq).2 f)
    (fun c => m.real (.tr_cell .state) l c k)
  refine le_trans (le_of_eq ?_) key
  refine Finset.sum_congr rfl fun c hcc => ?_
  obtain ⟨c0, c1⟩ := Finset.mem_Ico.1 hcc
  rw [r3 l c k l0 l1 c0 c1 k0 k1]

/-- The steps which the drivers of the tracer diffusion test (`dt = dc² / (4 κ₂)`) and the tracer
hyperdiffusion test (`dt = dc⁴ / (8 κ₄)`) take are within the limit of their stepper, for every mesh
spacing, coefficient and final time. -/
theorem C62_test_steps (hdc : 0 < dc) {κ T : ℝ} (hκ : 0 < κ) (hT : 0 < T) :
    (∀ q ∈ driverRun T (dc ^ 2 / (4 * κ)), 0 ≤ q.2 ∧
      6 * κ * q.2 / dc ^ 2 + 36 * 0 * q.2 / dc ^ 4 ≤ diffusionLimit (.lsrk 5)) ∧
    (∀ q ∈ driverRun T (dc ^ 4 / (8 * κ)), 0 ≤ q.2 ∧
      6 * 0 * q.2 / dc ^ 2 + 36 * κ * q.2 / dc ^ 4 ≤ diffusionLimit (.lsrk 5)) := by
  have mem : ∀ (n : ℕ) (d : ℝ) (q : ℝ × ℝ), q ∈ driverSched n d → q.2 = d := by
    intro n d q hq
    simp only [driverSched, List.mem_map] at hq
    obtain ⟨a, -, rfl⟩ := hq
    rfl
  have lim : diffusionLimit (.lsrk 5) = 9 / 2 := by simp [diffusionLimit]
  constructor
  · intro q hq
    have e := mem _ _ _ hq
    obtain ⟨-, h1, h2, -⟩ := C49_driver_steps hT (show 0 < dc ^ 2 / (4 * κ) by positivity)
    rw [e, lim]
    refine ⟨h1.le, ?_⟩
    rw [le_div_iff₀ (by positivity)] at h2
    rw [mul_zero, zero_mul, zero_div, add_zero, div_le_iff₀ (by positivity)]
    nlinarith [sq_nonneg dc]
  · intro q hq
    have e := mem _ _ _ hq
    obtain ⟨-, h1, h2, -⟩ := C49_driver_steps hT (show 0 < dc ^ 4 / (8 * κ) by positivity)
    rw [e, lim]
    refine ⟨h1.le, ?_⟩
    rw [le_div_iff₀ (by positivity)] at h2
    rw [mul_zero, zero_mul, zero_div, zero_add, div_le_iff₀ (by positivity)]
    nlinarith [pow_pos hdc 4]

/-! ### Examples -/

/-- parameters of the tracer tests -/
def prmTr (a b : ℝ) : Params ℝ :=
  { f0 := 0, grav := 0, visc_del2 := 0, visc_del4 := 0, eddy_diff2 := a, eddy_diff4 := b,
    disable_h := true, disable_vn := true }

theorem p46t_layer : 0 < p46t.dims.nlayers := by
  norm_num [p46t, MeshParams.dims, ceilDiv]

/-- C61, C62 at variable thickness: a mesh of 4 × 6 cells, thickness between 1 and 2. -/
example : ∃ m m1 : Mem ℝ, Ready p46t 1 (prmTr 1 0) m ∧
    (SWModel.ofParams (prmTr 1 0)).en_thyper = false ∧
    (SWModel.ofParams (prmTr 1 0)).en_tdiff = true ∧
    Exec p46t.dims ((Stepper.lsrk 1).ctor p46t.dims ++ (Stepper.lsrk 1).run p46t.dims
      ⟨defaultKernels p46t.dims.vl, false⟩ (SWModel.ofParams (prmTr 1 0)) [(0, 1 / 8)]) m m1 ∧
    (∀ c, 0 ≤ c → c < p46t.dims.ncells → 1 ≤ m.real (.h_cell .state) 0 c 0 ∧
      m.real (.h_cell .state) 0 c 0 ≤ 2) ∧
    (∀ c, 0 ≤ c → c < p46t.dims.ncells → 0 * m.real (.h_cell .state) 0 c 0 ≤
      m.real (.tr_cell .state) 0 c 0 ∧
      m.real (.tr_cell .state) 0 c 0 ≤ 23 * m.real (.h_cell .state) 0 c 0) ∧
    m.real (.tr_cell .state) 0 5 0 = 5 ∧
    (∀ c, 0 ≤ c → c < p46t.dims.ncells → 0 * m1.real (.h_cell .state) 0 c 0 ≤
      m1.real (.tr_cell .state) 0 c 0 ∧
      m1.real (.tr_cell .state) 0 c 0 ≤ 23 * m1.real (.h_cell .state) 0 c 0) ∧
    ∑ c ∈ Spec.cells p46t.dims, Spec.areaC m c * (m1.real (.tr_cell .state) 0 c 0 ^ 2 /
        m1.real (.h_cell .state) 0 c 0) ≤
      ∑ c ∈ Spec.cells p46t.dims, Spec.areaC m c * (m.real (.tr_cell .state) 0 c 0 ^ 2 /
        m.real (.h_cell .state) 0 c 0) := by
  obtain ⟨m, m1, hr, hx, he⟩ := exists_newRun p46t_run 1 (prmTr 1 0)
    (noHook_ofParams _) false (.lsrk 1) [(0, 1 / 8)]
    ⟨fun c _ => 1 + c / 24, fun e _ => 0, fun l c k => c⟩
  have nc : p46t.dims.ncells = 24 := rfl
  have en : (SWModel.ofParams (prmTr 1 0)).en_thyper = false := by
    simp [SWModel.ofParams, prmTr, Scalar.lt]
  have eh : ∀ c k, m.real (.h_cell .state) 0 c k = 1 + (c : ℝ) / 24 := fun c k =>
    congrFun (congrFun (congrArg Fld.h hx) c) k
  have ev : ∀ e k, m.real (.vn_edge .state) 0 e k = 0 := fun e k =>
    congrFun (congrFun (congrArg Fld.vn hx) e) k
  have et : ∀ l c k, m.real (.tr_cell .state) l c k = (c : ℝ) := fun l c k =>
    congrFun (congrFun (congrFun (congrArg Fld.tr hx) l) c) k
  have hh : ∀ c, 0 ≤ c → c < p46t.dims.ncells → 1 ≤ m.real (.h_cell .state) 0 c 0 ∧
      m.real (.h_cell .state) 0 c 0 ≤ 2 := fun c c0 c1 => by
    rw [nc] at c1
    have a0 : (0 : ℝ) ≤ c := by exact_mod_cast c0
    have a1 : (c : ℝ) ≤ 24 := by exact_mod_cast c1.le
    rw [eh]
    constructor <;> linarith
  have hq : ∀ c, 0 ≤ c → c < p46t.dims.ncells → 0 * m.real (.h_cell .state) 0 c 0 ≤
      m.real (.tr_cell .state) 0 c 0 ∧
      m.real (.tr_cell .state) 0 c 0 ≤ 23 * m.real (.h_cell .state) 0 c 0 := fun c c0 c1 => by
    rw [nc] at c1
    have a0 : (0 : ℝ) ≤ c := by exact_mod_cast c0
    have a1 : (c : ℝ) ≤ 23 := by exact_mod_cast (by omega : c ≤ 23)
    rw [eh, et]
    constructor <;> linarith
  refine ⟨m, m1, hr, en, by simp [SWModel.ofParams, prmTr], he, hh, hq, by rw [et]; norm_num, ?_, ?_⟩
  · exact C61_maximum_principle p46t_run (by simp [p46t]) (by simp [p46t]) one_pos hr
      (noHook_ofParams _) rfl rfl en (by simp [SWModel.ofParams, prmTr]) (by norm_num)
      (by decide) (by norm_num) p46t_layer (fun e _ _ => ev e 0) one_pos hh
      (by intro q hq; simp only [List.mem_singleton] at hq; subst hq
          norm_num [SWModel.ofParams, prmTr]) he hq
  · exact C62_diffusion_stable p46t_run (by simp [p46t]) (by simp [p46t]) (by decide) one_pos hr
      (noHook_ofParams _) rfl rfl en (by simp [SWModel.ofParams, prmTr]) (by norm_num)
      (by decide) (by norm_num) p46t_layer (fun e _ _ => ev e 0) one_pos hh
      (by intro q hq; simp only [List.mem_singleton] at hq; subst hq
          norm_num [SWModel.ofParams, prmTr, diffusionLimit]) he

/-- C62 with hyperdiffusion: the steps of the driver of the test. -/
example : ∃ m m1 : Mem ℝ, Ready p46t (1 / 2) (prmTr 0 1) m ∧
    (SWModel.ofParams (prmTr 0 1)).en_thyper = true ∧
    Exec p46t.dims ((Stepper.lsrk 5).ctor p46t.dims ++ (Stepper.lsrk 5).run p46t.dims
      ⟨defaultKernels p46t.dims.vl, false⟩ (SWModel.ofParams (prmTr 0 1))
        (driverRun 2 ((1 / 2) ^ 4 / (8 * 1)))) m m1 ∧
    m.real (.tr_cell .state) 0 5 0 = 25 ∧
    ∑ c ∈ Spec.cells p46t.dims, Spec.areaC m c * m1.real (.tr_cell .state) 0 c 0 ^ 2 ≤
      ∑ c ∈ Spec.cells p46t.dims, Spec.areaC m c * m.real (.tr_cell .state) 0 c 0 ^ 2 := by
  obtain ⟨m, m1, hr, hx, he⟩ := exists_newRun p46t_run (1 / 2) (prmTr 0 1)
    (noHook_ofParams _) false (.lsrk 5) (driverRun 2 ((1 / 2) ^ 4 / (8 * 1)))
    ⟨fun c _ => 1, fun e _ => 0, fun l c k => c * c⟩
  refine ⟨m, m1, hr, by simp [SWModel.ofParams, prmTr], he,
    (congrFun (congrFun (congrFun (congrArg Fld.tr hx) 0) 5) 0).trans (by norm_num), ?_⟩
  exact C62_hyperdiffusion_stable p46t_run (by simp [p46t]) (by simp [p46t]) (by decide)
    (by norm_num) hr (noHook_ofParams _) rfl rfl (by simp [SWModel.ofParams, prmTr])
    (by simp [SWModel.ofParams, prmTr]) (by norm_num) (by decide) (by norm_num) p46t_layer
    (fun e _ _ => congrFun (congrFun (congrArg Fld.vn hx) e) 0) one_ne_zero
    (fun c _ _ => congrFun (congrFun (congrArg Fld.h hx) c) 0)
    (C62_test_steps (dc := 1 / 2) (by norm_num) one_pos two_pos).2 he

end Props
end
end Omega
