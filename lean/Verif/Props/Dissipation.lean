import Verif.Props.Vorticity

/-!
# C24 – C27: viscosity and diffusion dissipate
-/

set_option linter.unusedVariables false
set_option linter.unusedSectionVars false

namespace Omega
noncomputable section

namespace Props

open Prog Model Refine Hex

variable {p : MeshParams} {dc : ℝ} {m : Mem ℝ}

theorem mask_one (h : Geo p.nx p.ny p.dims.nlayers dc m.mesh) {e k : Int} (h0 : 0 ≤ e)
    (h1 : e < p.dims.nedges) (k0 : 0 ≤ k) (k1 : k < p.dims.nlayers) :
    m.real .edge_mask 0 e k = 1 ∧ m.real .mesh_scaling_del2 0 e 0 = 1 ∧
      m.real .mesh_scaling_del4 0 e 0 = 1 :=
  ⟨h.mask e h0 h1 k k0 k1, h.sdel2 e h0 h1, h.sdel4 e h0 h1⟩

theorem dcdv_pos (h : Geo p.nx p.ny p.dims.nlayers dc m.mesh) {e : Int} (h0 : 0 ≤ e)
    (h1 : e < p.dims.nedges) : 0 < Spec.dcE m e * Spec.dvE m e := by
  rw [spec_dcE h h0 h1, spec_dvE h h0 h1]
  have := w_pos; have := h.dc_pos; positivity

theorem areaC_pos (h : Geo p.nx p.ny p.dims.nlayers dc m.mesh) {c : Int} (h0 : 0 ≤ c)
    (h1 : c < p.dims.ncells) : 0 < Spec.areaC m c := by
  rw [spec_areaC h (mem_cells.mp (Finset.mem_Ico.2 ⟨h0, h1⟩))]
  have := w_pos; have := h.dc_pos; positivity

theorem areaT_pos (h : Geo p.nx p.ny p.dims.nlayers dc m.mesh) {c : Int} (h0 : 0 ≤ c)
    (h1 : c < p.dims.nvertices) : 0 < Spec.areaT m c := by
  rw [spec_areaT h h0 h1]
  have := w_pos; have := h.dc_pos; positivity

/-- the limiter on short edges is inactive on this mesh -/
theorem vecLap_eq (h : Geo p.nx p.ny p.dims.nlayers dc m.mesh) (u : Int → ℝ) {e : Int} (h0 : 0 ≤ e)
    (h1 : e < p.dims.nedges) :
    Spec.vecLap m u e = Spec.grad m (Spec.div m u) e - Spec.gradT m (Spec.curl m u) e := by
  unfold Spec.vecLap Spec.gradT
  rw [max_eq_left]
  rw [spec_dcE h h0 h1, spec_dvE h h0 h1]
  have hd := h.dc_pos
  have : (1 : ℝ) ≤ √3 := by rw [Real.one_le_sqrt]; norm_num
  nlinarith

/-- work of `grad div L - gradT curl L` -/
theorem lap_work (h : Geo2 p.nx p.ny p.dims.nlayers dc m.mesh) (u L : Int → ℝ) :
    ∑ e ∈ Spec.edges p.dims, Spec.dcE m e * Spec.dvE m e *
        (u e * (Spec.grad m (Spec.div m L) e - Spec.gradT m (Spec.curl m L) e)) =
      -(∑ c ∈ Spec.cells p.dims, Spec.areaC m c * (Spec.div m L c * Spec.div m u c) +
        ∑ v ∈ Spec.verts p.dims, Spec.areaT m v * (Spec.curl m L v * Spec.curl m u v)) := by
  rw [adjoint h (Spec.div m L) u, adjointV h.toGeo (Spec.curl m L) u]
  simp only [mul_sub, Finset.sum_sub_distrib]
  ring

/-- The Laplacian viscosity: the difference between the velocity tendencies with and without it
removes kinetic energy at the rate viscosity times squared divergence plus squared vorticity. -/
theorem C24_viscosity_dissipates (hv : RunValid p) (hx : 2 ≤ p.nx) (hy : 2 ≤ p.ny) (hdc : 0 < dc)
    {prm : Params ℝ} (hr : Ready p dc prm m) {sw : SWModel ℝ} (hn : sw.NoHook)
    (hen : sw.en_vdiff = true) (hdis : sw.prm.disable_vn = false) {split : Bool} {t t' : ℝ}
    {m1 m1' : Mem ℝ}
    (he : Exec p.dims (compute_tendency p.dims ⟨defaultKernels p.dims.vl, split⟩ sw .replace .tend
      .state t) m m1)
    (he' : Exec p.dims (compute_tendency p.dims ⟨defaultKernels p.dims.vl, split⟩
      { sw with en_vdiff := false } .replace .tend .state t') m m1')
    {k : Int} (k0 : 0 ≤ k) (k1 : k < p.dims.nlayers) :
    ∑ e ∈ Spec.edges p.dims, Spec.dcE m e * Spec.dvE m e * (m.real (.vn_edge .state) 0 e k *
        (m1.real (.vn_edge .tend) 0 e k - m1'.real (.vn_edge .tend) 0 e k)) =
      -(sw.prm.visc_del2 *
        (∑ c ∈ Spec.cells p.dims, Spec.areaC m c *
            Spec.div m (fun e => m.real (.vn_edge .state) 0 e k) c ^ 2 +
          ∑ v ∈ Spec.verts p.dims, Spec.areaT m v *
            Spec.curl m (fun e => m.real (.vn_edge .state) 0 e k) v ^ 2)) ∧
    (0 ≤ sw.prm.visc_del2 →
      ∑ e ∈ Spec.edges p.dims, Spec.dcE m e * Spec.dvE m e * (m.real (.vn_edge .state) 0 e k *
        (m1.real (.vn_edge .tend) 0 e k - m1'.real (.vn_edge .tend) 0 e k)) ≤ 0) := by
  obtain ⟨hd, hc⟩ := ready_ok hv hr
  have hg := Ready.geo2 hr hv.toValid hx hy hdc
  obtain ⟨-, t2, -⟩ := C51_tendency_formula hd hc hn (by decide) he
  obtain ⟨-, t2', -⟩ := C51_tendency_formula hd hc
    (sw := { sw with en_vdiff := false }) hn (by decide) he'
  have key : ∑ e ∈ Spec.edges p.dims, Spec.dcE m e * Spec.dvE m e * (m.real (.vn_edge .state) 0 e k *
        (m1.real (.vn_edge .tend) 0 e k - m1'.real (.vn_edge .tend) 0 e k)) =
      -(sw.prm.visc_del2 *
        (∑ c ∈ Spec.cells p.dims, Spec.areaC m c *
            Spec.div m (fun e => m.real (.vn_edge .state) 0 e k) c ^ 2 +
          ∑ v ∈ Spec.verts p.dims, Spec.areaT m v *
            Spec.curl m (fun e => m.real (.vn_edge .state) 0 e k) v ^ 2)) := by
    simp only [pow_two]
    rw [← mul_neg, ← lap_work hg, Finset.mul_sum]
    refine Finset.sum_congr rfl fun e he => ?_
    have he := Finset.mem_Ico.mp he
    obtain ⟨q1, q2, -⟩ := mask_one hg.toGeo he.1 he.2 k0 k1
    rw [t2 hdis e k he.1 he.2 k0 k1, t2' hdis e k he.1 he.2 k0 k1]
    simp only [Spec.velocityTend, hen, if_true, q1, q2, Bool.false_eq_true, if_false]
    ring
  refine ⟨key, fun hnu => ?_⟩
  rw [key, neg_nonpos]
  refine mul_nonneg hnu (add_nonneg (Finset.sum_nonneg fun c hc => ?_)
    (Finset.sum_nonneg fun c hc => ?_))
  · have hc := Finset.mem_Ico.mp hc
    exact mul_nonneg (areaC_pos hg.toGeo hc.1 hc.2).le (sq_nonneg _)
  · have hc := Finset.mem_Ico.mp hc
    exact mul_nonneg (areaT_pos hg.toGeo hc.1 hc.2).le (sq_nonneg _)

/-- The biharmonic viscosity of the default build: the difference between the velocity tendencies
with and without it removes kinetic energy at the rate coefficient times squared Laplacian. -/
theorem C25_hyperviscosity_dissipates (hv : RunValid p) (hx : 2 ≤ p.nx) (hy : 2 ≤ p.ny) (hdc : 0 < dc)
    {prm : Params ℝ} (hr : Ready p dc prm m) {sw : SWModel ℝ} (hn : sw.NoHook)
    (hen : sw.en_vhyper = true) (hdis : sw.prm.disable_vn = false) {split : Bool} {t t' : ℝ}
    {m1 m1' : Mem ℝ}
    (he : Exec p.dims (compute_tendency p.dims ⟨defaultKernels p.dims.vl, split⟩ sw .replace .tend
      .state t) m m1)
    (he' : Exec p.dims (compute_tendency p.dims ⟨defaultKernels p.dims.vl, split⟩
      { sw with en_vhyper := false } .replace .tend .state t') m m1')
    {k : Int} (k0 : 0 ≤ k) (k1 : k < p.dims.nlayers) :
    ∑ e ∈ Spec.edges p.dims, Spec.dcE m e * Spec.dvE m e * (m.real (.vn_edge .state) 0 e k *
        (m1.real (.vn_edge .tend) 0 e k - m1'.real (.vn_edge .tend) 0 e k)) =
      -(sw.prm.visc_del4 * ∑ e ∈ Spec.edges p.dims, Spec.dcE m e * Spec.dvE m e *
        (Spec.grad m (Spec.div m fun e => m.real (.vn_edge .state) 0 e k) e -
          Spec.gradT m (Spec.curl m fun e => m.real (.vn_edge .state) 0 e k) e) ^ 2) ∧
    (0 ≤ sw.prm.visc_del4 →
      ∑ e ∈ Spec.edges p.dims, Spec.dcE m e * Spec.dvE m e * (m.real (.vn_edge .state) 0 e k *
        (m1.real (.vn_edge .tend) 0 e k - m1'.real (.vn_edge .tend) 0 e k)) ≤ 0) := by
  obtain ⟨hd, hc⟩ := ready_ok hv hr
  have hg := Ready.geo2 hr hv.toValid hx hy hdc
  obtain ⟨-, t2, -⟩ := C51_tendency_formula hd hc hn (by decide) he
  obtain ⟨-, t2', -⟩ := C51_tendency_formula hd hc
    (sw := { sw with en_vhyper := false }) hn (by decide) he'
  have key : ∑ e ∈ Spec.edges p.dims, Spec.dcE m e * Spec.dvE m e * (m.real (.vn_edge .state) 0 e k *
        (m1.real (.vn_edge .tend) 0 e k - m1'.real (.vn_edge .tend) 0 e k)) =
      -(sw.prm.visc_del4 * ∑ e ∈ Spec.edges p.dims, Spec.dcE m e * Spec.dvE m e *
        (Spec.grad m (Spec.div m fun e => m.real (.vn_edge .state) 0 e k) e -
          Spec.gradT m (Spec.curl m fun e => m.real (.vn_edge .state) 0 e k) e) ^ 2) := by
    set u : Int → ℝ := fun e => m.real (.vn_edge .state) 0 e k with hu
    have w1 := lap_work hg u (Spec.vecLap m u)
    have w2 := lap_work hg (Spec.vecLap m u) u
    have w3 : ∑ e ∈ Spec.edges p.dims, Spec.dcE m e * Spec.dvE m e *
        (Spec.grad m (Spec.div m u) e - Spec.gradT m (Spec.curl m u) e) ^ 2 =
        ∑ e ∈ Spec.edges p.dims, Spec.dcE m e * Spec.dvE m e *
        (u e * (Spec.grad m (Spec.div m (Spec.vecLap m u)) e -
          Spec.gradT m (Spec.curl m (Spec.vecLap m u)) e)) := by
      rw [w1]
      simp only [mul_comm (Spec.div m (Spec.vecLap m u) _), mul_comm (Spec.curl m (Spec.vecLap m u) _)]
      rw [← w2]
      refine Finset.sum_congr rfl fun e he => ?_
      have he := Finset.mem_Ico.mp he
      rw [vecLap_eq hg.toGeo u he.1 he.2]; ring
    rw [w3, ← mul_neg, ← Finset.sum_neg_distrib, Finset.mul_sum]
    refine Finset.sum_congr rfl fun e he => ?_
    have he := Finset.mem_Ico.mp he
    obtain ⟨q1, -, q2⟩ := mask_one hg.toGeo he.1 he.2 k0 k1
    rw [t2 hdis e k he.1 he.2 k0 k1, t2' hdis e k he.1 he.2 k0 k1]
    simp only [Spec.velocityTend, hen, if_true, q1, q2, Bool.false_eq_true, if_false, ← hu]
    ring
  refine ⟨key, fun hnu => ?_⟩
  rw [key, neg_nonpos]
  refine mul_nonneg hnu (Finset.sum_nonneg fun c hc => ?_)
  have hc := Finset.mem_Ico.mp hc
  exact mul_nonneg (dcdv_pos hg.toGeo hc.1 hc.2).le (sq_nonneg _)

/-- Tracer diffusion: the difference between the tracer tendencies with and without it removes
concentration variance at the rate coefficient times thickness-weighted squared gradient. -/
theorem C26_diffusion_dissipates (hv : RunValid p) (hx : 2 ≤ p.nx) (hy : 2 ≤ p.ny) (hdc : 0 < dc)
    {prm : Params ℝ} (hr : Ready p dc prm m) {sw : SWModel ℝ} (hn : sw.NoHook)
    (hen : sw.en_tdiff = true) {split : Bool} {t t' : ℝ} {m1 m1' : Mem ℝ}
    (he : Exec p.dims (compute_tendency p.dims ⟨defaultKernels p.dims.vl, split⟩ sw .replace .tend
      .state t) m m1)
    (he' : Exec p.dims (compute_tendency p.dims ⟨defaultKernels p.dims.vl, split⟩
      { sw with en_tdiff := false } .replace .tend .state t') m m1')
    {l k : Int} (l0 : 0 ≤ l) (l1 : l < p.dims.ntracers) (k0 : 0 ≤ k) (k1 : k < p.dims.nlayers)
    (hh : ∀ c, 0 ≤ c → c < p.dims.ncells → m.real (.h_cell .state) 0 c k ≠ 0)
    {q : Int → ℝ} (hq : ∀ c, 0 ≤ c → c < p.dims.ncells →
      m.real (.tr_cell .state) l c k = q c * m.real (.h_cell .state) 0 c k) :
    ∑ c ∈ Spec.cells p.dims, Spec.areaC m c *
        (q c * (m1.real (.tr_cell .tend) l c k - m1'.real (.tr_cell .tend) l c k)) =
      -(sw.prm.eddy_diff2 * ∑ e ∈ Spec.edges p.dims, Spec.dcE m e * Spec.dvE m e *
        (Spec.mean m (fun i => m.real (.h_cell .state) 0 i k) e * Spec.grad m q e ^ 2)) ∧
    (0 ≤ sw.prm.eddy_diff2 → (∀ c, 0 ≤ c → c < p.dims.ncells → 0 ≤ m.real (.h_cell .state) 0 c k) →
      ∑ c ∈ Spec.cells p.dims, Spec.areaC m c *
        (q c * (m1.real (.tr_cell .tend) l c k - m1'.real (.tr_cell .tend) l c k)) ≤ 0) := by
  obtain ⟨hd, hc⟩ := ready_ok hv hr
  have hg := Ready.geo2 hr hv.toValid hx hy hdc
  obtain ⟨-, -, t2⟩ := C51_tendency_formula hd hc hn (by decide) he
  obtain ⟨-, -, t2'⟩ := C51_tendency_formula hd hc
    (sw := { sw with en_tdiff := false }) hn (by decide) he'
  have hr : ∀ c, 0 ≤ c → c < p.dims.ncells →
      m.real (.tr_cell .state) l c k / m.real (.h_cell .state) 0 c k = q c := fun c a b => by
    rw [hq c a b, mul_div_assoc, div_self (hh c a b), mul_one]
  have key : ∑ c ∈ Spec.cells p.dims, Spec.areaC m c *
        (q c * (m1.real (.tr_cell .tend) l c k - m1'.real (.tr_cell .tend) l c k)) =
      -(sw.prm.eddy_diff2 * ∑ e ∈ Spec.edges p.dims, Spec.dcE m e * Spec.dvE m e *
        (Spec.mean m (fun i => m.real (.h_cell .state) 0 i k) e * Spec.grad m q e ^ 2)) := by
    have a := adjoint hg q (fun e => Spec.mean m (fun i => m.real (.h_cell .state) 0 i k) e *
      Spec.grad m q e)
    have a' : ∑ e ∈ Spec.edges p.dims, Spec.dcE m e * Spec.dvE m e *
        (Spec.mean m (fun i => m.real (.h_cell .state) 0 i k) e * Spec.grad m q e ^ 2) =
        -∑ c ∈ Spec.cells p.dims, Spec.areaC m c * (q c * Spec.div m (fun e =>
          Spec.mean m (fun i => m.real (.h_cell .state) 0 i k) e * Spec.grad m q e) c) := by
      rw [a, neg_neg]
      exact Finset.sum_congr rfl fun e _ => by ring
    rw [a', mul_neg, neg_neg, Finset.mul_sum]
    refine Finset.sum_congr rfl fun c hcc => ?_
    have hcc := Finset.mem_Ico.mp hcc
    rw [t2 l c k l0 l1 hcc.1 hcc.2 k0 k1, t2' l c k l0 l1 hcc.1 hcc.2 k0 k1]
    have ed : Spec.div m (fun e => m.real .mesh_scaling_del2 0 e 0 *
        Spec.mean m (fun i => m.real (.h_cell .state) 0 i k) e * Spec.grad m (fun i =>
          m.real (.tr_cell .state) l i k / m.real (.h_cell .state) 0 i k) e) c =
        Spec.div m (fun e => Spec.mean m (fun i => m.real (.h_cell .state) 0 i k) e *
          Spec.grad m q e) c := by
      refine div_congr hc (fun e a b => ?_) hcc.1 hcc.2
      rw [(mask_one hg.toGeo a b k0 k1).2.1, grad_congr hc hr a b]; ring
    simp only [Spec.tracerTend, hen, if_true, ed, Bool.false_eq_true, if_false]
    ring
  refine ⟨key, fun hnu h0 => ?_⟩
  rw [key, neg_nonpos]
  refine mul_nonneg hnu (Finset.sum_nonneg fun e he => ?_)
  have he := Finset.mem_Ico.mp he
  obtain ⟨a, b⟩ := hc.coe e he.1 he.2 0 (by omega) (by omega)
  obtain ⟨a', b'⟩ := hc.coe e he.1 he.2 1 (by omega) (by omega)
  refine mul_nonneg (dcdv_pos hg.toGeo he.1 he.2).le (mul_nonneg ?_ (sq_nonneg _))
  unfold Spec.mean
  have := h0 _ a b; have := h0 _ a' b'
  positivity

/-- Tracer hyperdiffusion with uniform thickness `H`: the difference between the tracer tendencies
with and without it removes concentration variance at the rate coefficient times thickness times
squared Laplacian. -/
theorem C27_hyperdiffusion_dissipates (hv : RunValid p) (hx : 2 ≤ p.nx) (hy : 2 ≤ p.ny)
    (hdc : 0 < dc) {prm : Params ℝ} (hr : Ready p dc prm m) {sw : SWModel ℝ} (hn : sw.NoHook)
    (hen : sw.en_thyper = true) {split : Bool} {t t' : ℝ} {m1 m1' : Mem ℝ}
    (he : Exec p.dims (compute_tendency p.dims ⟨defaultKernels p.dims.vl, split⟩ sw .replace .tend
      .state t) m m1)
    (he' : Exec p.dims (compute_tendency p.dims ⟨defaultKernels p.dims.vl, split⟩
      { sw with en_thyper := false } .replace .tend .state t') m m1')
    {l k : Int} (l0 : 0 ≤ l) (l1 : l < p.dims.ntracers) (k0 : 0 ≤ k) (k1 : k < p.dims.nlayers)
    {H : ℝ} (hH : H ≠ 0) (hh : ∀ c, 0 ≤ c → c < p.dims.ncells → m.real (.h_cell .state) 0 c k = H)
    {q : Int → ℝ} (hq : ∀ c, 0 ≤ c → c < p.dims.ncells →
      m.real (.tr_cell .state) l c k = q c * m.real (.h_cell .state) 0 c k) :
    ∑ c ∈ Spec.cells p.dims, Spec.areaC m c *
        (q c * (m1.real (.tr_cell .tend) l c k - m1'.real (.tr_cell .tend) l c k)) =
      -(sw.prm.eddy_diff4 * (H * ∑ c ∈ Spec.cells p.dims, Spec.areaC m c *
        Spec.div m (Spec.grad m q) c ^ 2)) ∧
    (0 ≤ sw.prm.eddy_diff4 → 0 ≤ H →
      ∑ c ∈ Spec.cells p.dims, Spec.areaC m c *
        (q c * (m1.real (.tr_cell .tend) l c k - m1'.real (.tr_cell .tend) l c k)) ≤ 0) := by
  obtain ⟨hd, hc⟩ := ready_ok hv hr
  have hg := Ready.geo2 hr hv.toValid hx hy hdc
  obtain ⟨-, -, t2⟩ := C51_tendency_formula hd hc hn (by decide) he
  obtain ⟨-, -, t2'⟩ := C51_tendency_formula hd hc
    (sw := { sw with en_thyper := false }) hn (by decide) he'
  have hr : ∀ c, 0 ≤ c → c < p.dims.ncells →
      m.real (.tr_cell .state) l c k / m.real (.h_cell .state) 0 c k = q c := fun c a b => by
    rw [hq c a b, mul_div_assoc, div_self (by rw [hh c a b]; exact hH), mul_one]
  have hm : ∀ e, 0 ≤ e → e < p.dims.nedges →
      Spec.mean m (fun i => m.real (.h_cell .state) 0 i k) e = H := fun e a b => by
    rw [mean_congr hc (ψ := fun _ => H) hh a b]; simp [Spec.mean]
  have key : ∑ c ∈ Spec.cells p.dims, Spec.areaC m c *
        (q c * (m1.real (.tr_cell .tend) l c k - m1'.real (.tr_cell .tend) l c k)) =
      -(sw.prm.eddy_diff4 * (H * ∑ c ∈ Spec.cells p.dims, Spec.areaC m c *
        Spec.div m (Spec.grad m q) c ^ 2)) := by
    have a := adjoint hg q (Spec.grad m (Spec.div m (Spec.grad m q)))
    have b := adjoint hg (Spec.div m (Spec.grad m q)) (Spec.grad m q)
    have ab : ∑ c ∈ Spec.cells p.dims, Spec.areaC m c * Spec.div m (Spec.grad m q) c ^ 2 =
        ∑ c ∈ Spec.cells p.dims, Spec.areaC m c *
          (q c * Spec.div m (Spec.grad m (Spec.div m (Spec.grad m q))) c) := by
      simp only [pow_two]
      rw [a, b]
      congr 1
      exact Finset.sum_congr rfl fun e _ => by ring
    rw [ab, ← mul_neg, ← mul_neg, ← Finset.sum_neg_distrib, Finset.mul_sum, Finset.mul_sum]
    refine Finset.sum_congr rfl fun c hcc => ?_
    have hcc := Finset.mem_Ico.mp hcc
    rw [t2 l c k l0 l1 hcc.1 hcc.2 k0 k1, t2' l c k l0 l1 hcc.1 hcc.2 k0 k1]
    have e1 : ∀ c, 0 ≤ c → c < p.dims.ncells → Spec.div m (fun e =>
        Spec.mean m (fun i => m.real (.h_cell .state) 0 i k) e * Spec.grad m (fun i =>
          m.real (.tr_cell .state) l i k / m.real (.h_cell .state) 0 i k) e) c =
        H * Spec.div m (Spec.grad m q) c := by
      intro c c0 c1
      rw [← div_smul]
      refine div_congr hc (fun e a b => ?_) c0 c1
      rw [hm e a b, grad_congr hc hr a b]
    have ed : Spec.div m (fun e => m.real .mesh_scaling_del4 0 e 0 *
        Spec.grad m (Spec.div m fun e => Spec.mean m (fun i => m.real (.h_cell .state) 0 i k) e *
          Spec.grad m (fun i => m.real (.tr_cell .state) l i k / m.real (.h_cell .state) 0 i k) e)
            e) c = H * Spec.div m (Spec.grad m (Spec.div m (Spec.grad m q))) c := by
      rw [← div_smul]
      refine div_congr hc (fun e a b => ?_) hcc.1 hcc.2
      rw [(mask_one hg.toGeo a b k0 k1).2.2, grad_congr hc e1 a b]
      unfold Spec.grad; ring
    simp only [Spec.tracerTend, hen, if_true, ed, Bool.false_eq_true, if_false]
    ring
  refine ⟨key, fun hnu h0 => ?_⟩
  rw [key, neg_nonpos]
  refine mul_nonneg hnu (mul_nonneg h0 (Finset.sum_nonneg fun c hcc => ?_))
  have hcc := Finset.mem_Ico.mp hcc
  exact mul_nonneg (areaC_pos hg.toGeo hcc.1 hcc.2).le (sq_nonneg _)

/-- Two executions that differ in one term, from one state with varying velocity and concentration;
the hypotheses of all four theorems are met. -/
example (prm : Params ℝ) (hp : prm.disable_vn = false) : ∃ m : Mem ℝ, Ready p46t (1 / 4) prm m ∧
    (∀ sw : SWModel ℝ, sw.NoHook → ∃ m1, Exec p46t.dims (compute_tendency p46t.dims
      ⟨defaultKernels p46t.dims.vl, true⟩ sw .replace .tend .state 3) m m1) ∧
    (∀ c k, m.real (.h_cell .state) 0 c k = 2) ∧
    (∀ l c k, m.real (.tr_cell .state) l c k = (l + c) * m.real (.h_cell .state) 0 c k) ∧
    m.real (.vn_edge .state) 0 7 2 = 49 := by
  obtain ⟨m, h, h1, -⟩ := exists_ready p46t_run.toValid (1 / 4 : ℝ) prm
    ⟨fun _ _ => 2, fun e _ => e * e, fun l c _ => (l + c) * 2⟩ zeroFld
  obtain ⟨hd, hc⟩ := ready_ok p46t_run h
  have e1 : ∀ c k, m.real (.h_cell .state) 0 c k = 2 := fun c k =>
    congrFun (congrFun (congrArg Fld.h h1) c) k
  refine ⟨m, h, fun sw hn => ?_, e1, fun l c k => ?_, ?_⟩
  · obtain ⟨m1, he, -⟩ :=
      ((C40_safe_deterministic hd hc hn true).1 .replace .tend .state 3 (by decide)).2
    exact ⟨m1, he⟩
  · rw [e1]; exact congrFun (congrFun (congrFun (congrArg Fld.tr h1) l) c) k
  · exact (congrFun (congrFun (congrArg Fld.vn h1) 7) 2).trans (by norm_num)

end Props
end
end Omega
