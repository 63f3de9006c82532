import Verif.Props.Uniform
import Mathlib.Analysis.Calculus.Deriv.Mul
import Mathlib.Analysis.Calculus.Deriv.Add
import Mathlib.Analysis.Calculus.Deriv.Pow

/-!
# C20: energy
-/

set_option linter.unusedVariables false
set_option linter.unusedSectionVars false

namespace Omega
noncomputable section

namespace Props

open Prog Model Refine Hex

variable {p : MeshParams} {dc : ℝ} {m : Mem ℝ}

/-- The kinetic energy of the cells, weighted with a cell field, is half the squared velocity of the
edges, weighted with the mean of the field on the edge. -/
theorem kinetic_pair (h : Geo p.nx p.ny p.dims.nlayers dc m.mesh) (φ u : Int → ℝ) :
    ∑ c ∈ Spec.cells p.dims, Spec.areaC m c * (φ c * Spec.kinetic m u c) =
      ∑ e ∈ Spec.edges p.dims, Spec.dcE m e * Spec.dvE m e * (Spec.mean m φ e * u e ^ 2 / 2) := by
  have l : ∑ c ∈ Spec.cells p.dims, Spec.areaC m c * (φ c * Spec.kinetic m u c) =
      dc * dc * √3 / 12 * ∑ c ∈ upto (p.nx * p.ny), φ c * Sd p.nx p.ny (fun e => u e * u e) c := by
    rw [Finset.mul_sum]
    refine Finset.sum_congr rfl fun c hc => ?_
    rw [spec_areaC h (mem_cells.mp hc), spec_kinetic h u (mem_cells.mp hc)]
    ring
  rw [l, sum_Sd h.hnx, Finset.mul_sum]
  refine Finset.sum_congr rfl fun e he => ?_
  have he := Finset.mem_Ico.mp he
  rw [spec_dcE h he.1 he.2, spec_dvE h he.1 he.2, spec_mean h φ he.1 he.2]
  unfold Mn; ring

theorem kinetic_congr {d : Dims} (hc : ConnOK d m) {u v : Int → ℝ}
    (h : ∀ e, 0 ≤ e → e < d.nedges → u e = v e) {c : Int} (h0 : 0 ≤ c) (h1 : c < d.ncells) :
    Spec.kinetic m u c = Spec.kinetic m v c := by
  unfold Spec.kinetic
  congr 1
  refine Finset.sum_congr rfl fun j hj => ?_
  rw [Finset.mem_Ico] at hj
  obtain ⟨a, b⟩ := hc.eoc c h0 h1 j hj.1 hj.2
  rw [h _ a b]

theorem deriv_sq (x y : ℝ) : HasDerivAt (fun ε : ℝ => (x + ε * y) ^ 2) (2 * x * y) 0 := by
  have h := (((hasDerivAt_id (0 : ℝ)).mul_const y).const_add x).pow 2
  have e : ((2 : ℕ) : ℝ) * (x + id (0 : ℝ) * y) ^ (2 - 1) * (1 * y) = 2 * x * y := by
    simp
  rw [e] at h
  exact h

theorem deriv_cube (a b x y : ℝ) :
    HasDerivAt (fun ε : ℝ => (a + ε * b) * (x + ε * y) ^ 2) (b * x ^ 2 + a * (2 * x * y)) 0 := by
  have h := (((hasDerivAt_id (0 : ℝ)).mul_const b).const_add a).mul (deriv_sq x y)
  have e : (1 * b * (x + 0 * y) ^ 2 + (a + id (0 : ℝ) * b) * (2 * x * y)) =
      b * x ^ 2 + a * (2 * x * y) := by simp
  rw [e] at h
  exact h

theorem mean_axpy (φ ψ : Int → ℝ) (c : ℝ) (e : Int) :
    Spec.mean m (fun i => φ i + c * ψ i) e = Spec.mean m φ e + c * Spec.mean m ψ e := by
  unfold Spec.mean; ring

theorem grad_comb (φ ψ : Int → ℝ) (g : ℝ) (e : Int) :
    Spec.grad m (fun i => g * φ i + ψ i) e = g * Spec.grad m φ e + Spec.grad m ψ e := by
  unfold Spec.grad; ring

/-- energy of one layer along a line of states -/
theorem layer_energy_deriv (h : Geo p.nx p.ny p.dims.nlayers dc m.mesh) (g : ℝ)
    (x a u w : Int → ℝ) :
    HasDerivAt (fun ε : ℝ => ∑ c ∈ Spec.cells p.dims, Spec.areaC m c *
        (g * (x c + ε * a c) ^ 2 / 2 + (x c + ε * a c) * Spec.kinetic m (fun e => u e + ε * w e) c))
      (∑ c ∈ Spec.cells p.dims, Spec.areaC m c * ((g * x c + Spec.kinetic m u c) * a c) +
        ∑ e ∈ Spec.edges p.dims, Spec.dcE m e * Spec.dvE m e * (Spec.mean m x e * u e * w e)) 0 := by
  have e : (fun ε : ℝ => ∑ c ∈ Spec.cells p.dims, Spec.areaC m c *
        (g * (x c + ε * a c) ^ 2 / 2 + (x c + ε * a c) * Spec.kinetic m (fun e => u e + ε * w e) c)) =
      fun ε => ∑ c ∈ Spec.cells p.dims, Spec.areaC m c * g / 2 * (x c + ε * a c) ^ 2 +
        ∑ e ∈ Spec.edges p.dims, Spec.dcE m e * Spec.dvE m e / 2 *
          ((Spec.mean m x e + ε * Spec.mean m a e) * (u e + ε * w e) ^ 2) := by
    funext ε
    have k := kinetic_pair h (fun c => x c + ε * a c) (fun e => u e + ε * w e)
    simp only [mean_axpy] at k
    calc _ = ∑ c ∈ Spec.cells p.dims, Spec.areaC m c * g / 2 * (x c + ε * a c) ^ 2 +
          ∑ c ∈ Spec.cells p.dims, Spec.areaC m c * ((x c + ε * a c) *
            Spec.kinetic m (fun e => u e + ε * w e) c) := by
          rw [← Finset.sum_add_distrib]
          exact Finset.sum_congr rfl fun c _ => by ring
      _ = _ := by
          rw [k]
          congr 1
          exact Finset.sum_congr rfl fun c _ => by ring
  rw [e]
  have d1 := HasDerivAt.fun_sum (u := Spec.cells p.dims) fun c _ =>
    (deriv_sq (x c) (a c)).const_mul (Spec.areaC m c * g / 2)
  have d2 := HasDerivAt.fun_sum (u := Spec.edges p.dims) fun e _ =>
    (deriv_cube (Spec.mean m x e) (Spec.mean m a e) (u e) (w e)).const_mul
      (Spec.dcE m e * Spec.dvE m e / 2)
  refine (d1.add d2).congr_deriv ?_
  have k := kinetic_pair h a u
  calc _ = ∑ c ∈ Spec.cells p.dims, Spec.areaC m c * (g * x c * a c) +
        (∑ e ∈ Spec.edges p.dims, Spec.dcE m e * Spec.dvE m e * (Spec.mean m a e * u e ^ 2 / 2) +
        ∑ e ∈ Spec.edges p.dims, Spec.dcE m e * Spec.dvE m e * (Spec.mean m x e * u e * w e)) := by
        rw [← Finset.sum_add_distrib]
        congr 1 <;> exact Finset.sum_congr rfl fun c _ => by ring
    _ = _ := by
        rw [← k, ← add_assoc, ← Finset.sum_add_distrib]
        congr 1
        exact Finset.sum_congr rfl fun c _ => by ring

/-- the same model without viscosity -/
def inviscid (sw : SWModel ℝ) : SWModel ℝ := { sw with en_vdiff := false, en_vhyper := false }

theorem layer_energy_rate (h : Geo2 p.nx p.ny p.dims.nlayers dc m.mesh) {sw : SWModel ℝ}
    (h1 : sw.en_hadv = true) (h2 : sw.en_pv = true) (h3 : sw.en_ke = true) (h4 : sw.en_ssh = true)
    (k : Int) (x u : Int → ℝ) :
    ∑ c ∈ Spec.cells p.dims, Spec.areaC m c * ((sw.prm.grav * x c + Spec.kinetic m u c) *
        Spec.thicknessTend m sw x u c) +
      ∑ e ∈ Spec.edges p.dims, Spec.dcE m e * Spec.dvE m e * (Spec.mean m x e * u e *
        Spec.velocityTend m sw k x u e) =
      ∑ e ∈ Spec.edges p.dims, Spec.dcE m e * Spec.dvE m e * (Spec.mean m x e * u e *
        (Spec.velocityTend m sw k x u e - Spec.velocityTend m (inviscid sw) k x u e)) := by
  have a := adjoint h (fun c => sw.prm.grav * x c + Spec.kinetic m u c)
    (fun e => Spec.mean m x e * u e)
  have n := no_work h.toGeo (Spec.vmean m (Spec.pv m x u)) (fun e => Spec.mean m x e * u e)
  have e1 : ∑ c ∈ Spec.cells p.dims, Spec.areaC m c * ((sw.prm.grav * x c + Spec.kinetic m u c) *
        Spec.thicknessTend m sw x u c) =
      ∑ e ∈ Spec.edges p.dims, Spec.dcE m e * Spec.dvE m e * (Spec.mean m x e * u e *
        (sw.prm.grav * Spec.grad m x e + Spec.grad m (Spec.kinetic m u) e)) := by
    simp only [grad_comb] at a
    rw [← neg_eq_iff_eq_neg.2 a, ← Finset.sum_neg_distrib]
    refine Finset.sum_congr rfl fun c _ => ?_
    simp only [Spec.thicknessTend, h1, if_true]; ring
  have e2 : ∑ e ∈ Spec.edges p.dims, Spec.dcE m e * Spec.dvE m e * (Spec.mean m x e * u e *
      Spec.velocityTend m (inviscid sw) k x u e) = -∑ e ∈ Spec.edges p.dims,
        Spec.dcE m e * Spec.dvE m e * (Spec.mean m x e * u e *
        (sw.prm.grav * Spec.grad m x e + Spec.grad m (Spec.kinetic m u) e)) := by
    rw [eq_neg_iff_add_eq_zero, ← n, ← Finset.sum_add_distrib]
    refine Finset.sum_congr rfl fun c _ => ?_
    simp only [Spec.velocityTend, inviscid, h2, h3, h4, if_true, Bool.false_eq_true, if_false]; ring
  rw [e1]
  simp only [mul_sub, Finset.sum_sub_distrib]
  rw [e2]; ring

/-- Energy budget.  Let `E ε` be the value of `energy_integral` for the state displaced by `ε` times
the computed tendency.  Its derivative at zero is the work done by the viscous terms of the velocity
tendency; thickness advection, vorticity flux and the two gradient terms cancel exactly. -/
theorem C20_energy_budget (hv : RunValid p) (hx : 2 ≤ p.nx) (hy : 2 ≤ p.ny) (hdc : 0 < dc)
    {prm : Params ℝ} (hr : Ready p dc prm m) {sw : SWModel ℝ} (hn : sw.NoHook)
    (h1 : sw.en_hadv = true) (h2 : sw.en_pv = true) (h3 : sw.en_ke = true) (h4 : sw.en_ssh = true)
    (h5 : sw.prm.disable_h = false) (h6 : sw.prm.disable_vn = false) {split : Bool} {t : ℝ}
    {m1 : Mem ℝ}
    (he : Exec p.dims (compute_tendency p.dims ⟨defaultKernels p.dims.vl, split⟩ sw .replace .tend
      .state t) m m1) {E : ℝ → ℝ}
    (hE : ∀ ε, ∃ mε : Mem ℝ, Static mε m ∧
      (∀ c k, 0 ≤ c → c < p.dims.ncells → 0 ≤ k → k < p.dims.nlayers →
        mε.real (.h_cell .state) 0 c k =
          m.real (.h_cell .state) 0 c k + ε * m1.real (.h_cell .tend) 0 c k) ∧
      (∀ e k, 0 ≤ e → e < p.dims.nedges → 0 ≤ k → k < p.dims.nlayers →
        mε.real (.vn_edge .state) 0 e k =
          m.real (.vn_edge .state) 0 e k + ε * m1.real (.vn_edge .tend) 0 e k) ∧
      IsEnergyIntegral p.dims sw.prm.grav .state mε (E ε)) :
    HasDerivAt E (∑ k ∈ Spec.layers p.dims, ∑ e ∈ Spec.edges p.dims,
      Spec.dcE m e * Spec.dvE m e * (Spec.mean m (fun i => m.real (.h_cell .state) 0 i k) e *
        m.real (.vn_edge .state) 0 e k *
        (Spec.velocityTend m sw k (fun i => m.real (.h_cell .state) 0 i k)
            (fun i => m.real (.vn_edge .state) 0 i k) e -
          Spec.velocityTend m (inviscid sw) k (fun i => m.real (.h_cell .state) 0 i k)
            (fun i => m.real (.vn_edge .state) 0 i k) e))) 0 := by
  obtain ⟨hd, hc⟩ := ready_ok hv hr
  have hg := Ready.geo2 hr hv.toValid hx hy hdc
  obtain ⟨t1, t2, -⟩ := C51_tendency_formula hd hc hn (by decide) he
  have eE : E = fun ε => ∑ k ∈ Spec.layers p.dims, ∑ c ∈ Spec.cells p.dims, Spec.areaC m c *
      (sw.prm.grav * (m.real (.h_cell .state) 0 c k + ε * Spec.thicknessTend m sw
        (fun i => m.real (.h_cell .state) 0 i k) (fun i => m.real (.vn_edge .state) 0 i k) c) ^ 2 / 2 +
      (m.real (.h_cell .state) 0 c k + ε * Spec.thicknessTend m sw
        (fun i => m.real (.h_cell .state) 0 i k) (fun i => m.real (.vn_edge .state) 0 i k) c) *
        Spec.kinetic m (fun e => m.real (.vn_edge .state) 0 e k + ε * Spec.velocityTend m sw k
          (fun i => m.real (.h_cell .state) 0 i k) (fun i => m.real (.vn_edge .state) 0 i k) e) c) := by
    funext ε
    obtain ⟨mε, hs, g1, g2, g3⟩ := hE ε
    rw [(energy_spec hv (hr.static hs) sw.prm.grav .state (E ε)).1 g3]
    refine Finset.sum_congr rfl fun k hk => Finset.sum_congr rfl fun c hc' => ?_
    have hk := Finset.mem_Ico.mp hk
    have hc' := Finset.mem_Ico.mp hc'
    have ek : Spec.kinetic mε (fun e => mε.real (.vn_edge .state) 0 e k) c =
        Spec.kinetic m (fun e => mε.real (.vn_edge .state) 0 e k) c := by
      simp only [Spec.kinetic, Spec.dcE, Spec.dvE, Spec.side, Spec.areaC, hs.int,
        hs.real .dc_edge rfl, hs.real .dv_edge rfl, hs.real .area_cell rfl]
    rw [ek, area_static hs, g1 c k hc'.1 hc'.2 hk.1 hk.2, t1 h5 c k hc'.1 hc'.2 hk.1 hk.2,
      kinetic_congr hc (v := fun e => m.real (.vn_edge .state) 0 e k + ε * Spec.velocityTend m sw k
          (fun i => m.real (.h_cell .state) 0 i k) (fun i => m.real (.vn_edge .state) 0 i k) e)
        (fun e a b => by rw [g2 e k a b hk.1 hk.2, t2 h6 e k a b hk.1 hk.2]) hc'.1 hc'.2]
  rw [eE]
  have D := HasDerivAt.fun_sum (u := Spec.layers p.dims) fun k _ =>
    layer_energy_deriv hg.toGeo sw.prm.grav
      (fun i => m.real (.h_cell .state) 0 i k)
      (Spec.thicknessTend m sw (fun i => m.real (.h_cell .state) 0 i k)
        (fun i => m.real (.vn_edge .state) 0 i k))
      (fun i => m.real (.vn_edge .state) 0 i k)
      (Spec.velocityTend m sw k (fun i => m.real (.h_cell .state) 0 i k)
        (fun i => m.real (.vn_edge .state) 0 i k))
  refine D.congr_deriv (Finset.sum_congr rfl fun k _ => ?_)
  exact layer_energy_rate hg h1 h2 h3 h4 k _ _

/-- Without viscosity the rate of change of `energy_integral` along the computed tendency is zero. -/
theorem C20_energy_conserved (hv : RunValid p) (hx : 2 ≤ p.nx) (hy : 2 ≤ p.ny) (hdc : 0 < dc)
    {prm : Params ℝ} (hr : Ready p dc prm m) {sw : SWModel ℝ} (hn : sw.NoHook)
    (h1 : sw.en_hadv = true) (h2 : sw.en_pv = true) (h3 : sw.en_ke = true) (h4 : sw.en_ssh = true)
    (h5 : sw.prm.disable_h = false) (h6 : sw.prm.disable_vn = false)
    (h7 : sw.en_vdiff = true → sw.prm.visc_del2 = 0)
    (h8 : sw.en_vhyper = true → sw.prm.visc_del4 = 0) {split : Bool} {t : ℝ} {m1 : Mem ℝ}
    (he : Exec p.dims (compute_tendency p.dims ⟨defaultKernels p.dims.vl, split⟩ sw .replace .tend
      .state t) m m1) {E : ℝ → ℝ}
    (hE : ∀ ε, ∃ mε : Mem ℝ, Static mε m ∧
      (∀ c k, 0 ≤ c → c < p.dims.ncells → 0 ≤ k → k < p.dims.nlayers →
        mε.real (.h_cell .state) 0 c k =
          m.real (.h_cell .state) 0 c k + ε * m1.real (.h_cell .tend) 0 c k) ∧
      (∀ e k, 0 ≤ e → e < p.dims.nedges → 0 ≤ k → k < p.dims.nlayers →
        mε.real (.vn_edge .state) 0 e k =
          m.real (.vn_edge .state) 0 e k + ε * m1.real (.vn_edge .tend) 0 e k) ∧
      IsEnergyIntegral p.dims sw.prm.grav .state mε (E ε)) : HasDerivAt E 0 0 := by
  refine (C20_energy_budget hv hx hy hdc hr hn h1 h2 h3 h4 h5 h6 he hE).congr_deriv ?_
  refine Finset.sum_eq_zero fun k _ => Finset.sum_eq_zero fun e _ => ?_
  have : ∀ x u : Int → ℝ, Spec.velocityTend m sw k x u e =
      Spec.velocityTend m (inviscid sw) k x u e := fun x u => by
    simp only [Spec.velocityTend, inviscid, Bool.false_eq_true, if_false]
    have e7 : (if sw.en_vdiff = true then sw.prm.visc_del2 * m.real .edge_mask 0 e k *
        m.real .mesh_scaling_del2 0 e 0 * (Spec.grad m (Spec.div m u) e -
          Spec.gradT m (Spec.curl m u) e) else 0) = 0 := by
      split_ifs with hh
      · rw [h7 hh]; ring
      · rfl
    have e8 : (if sw.en_vhyper = true then sw.prm.visc_del4 * m.real .edge_mask 0 e k *
        m.real .mesh_scaling_del4 0 e 0 * (Spec.grad m (Spec.div m (Spec.vecLap m u)) e -
          Spec.gradT m (Spec.curl m (Spec.vecLap m u)) e) else 0) = 0 := by
      split_ifs with hh
      · rw [h8 hh]; ring
      · rfl
    rw [e7, e8]
    simp only [h2, h3, h4, if_true]
  rw [this]; ring

/-- For every state there is such a family of displaced states; here with varying thickness and
velocity. -/
example (prm : Params ℝ) (h5 : prm.disable_h = false) (h6 : prm.disable_vn = false) :
    ∃ (m m1 : Mem ℝ) (E : ℝ → ℝ), Ready p46 (1 / 4) prm m ∧
      Exec p46.dims (compute_tendency p46.dims ⟨defaultKernels p46.dims.vl, false⟩
        (inviscid (SWModel.ofParams prm)) .replace .tend .state 3) m m1 ∧
      (∀ ε, ∃ mε : Mem ℝ, Static mε m ∧
        (∀ c k, mε.real (.h_cell .state) 0 c k =
          m.real (.h_cell .state) 0 c k + ε * m1.real (.h_cell .tend) 0 c k) ∧
        (∀ e k, mε.real (.vn_edge .state) 0 e k =
          m.real (.vn_edge .state) 0 e k + ε * m1.real (.vn_edge .tend) 0 e k) ∧
        IsEnergyIntegral p46.dims prm.grav .state mε (E ε)) ∧
      m.real (.h_cell .state) 0 5 2 = 6 ∧ m.real (.vn_edge .state) 0 7 2 = 49 := by
  have hn : (inviscid (SWModel.ofParams prm)).NoHook := noHook_ofParams prm
  obtain ⟨m, m1, hr, hd, hc, hx, he⟩ := exists_tendency p46_run (1 / 4) prm hn false
    .replace 3 ⟨fun c _ => 1 + c, fun e _ => e * e, fun l c k => l + c + k⟩
  let y : ℝ → Fld ℝ := fun ε => (m.fld .state).axpy ε (m1.fld .tend)
  have key : ∀ ε, ∃ v, IsEnergyIntegral p46.dims prm.grav .state (setFld m .state (y ε)) v :=
    fun ε => (C41_reduction_order p46_run (hr.static (setFld_static _ _ _)) prm.grav .state).2.1.exists
  choose E hE using key
  refine ⟨m, m1, E, hr, he, fun ε => ⟨_, setFld_static _ _ _, fun c k => ?_, fun c k => ?_, hE ε⟩,
    ?_, ?_⟩
  · exact congrFun (congrFun (congrArg Fld.h (setFld_fld m .state (y ε))) c) k
  · exact congrFun (congrFun (congrArg Fld.vn (setFld_fld m .state (y ε))) c) k
  · exact (congrFun (congrFun (congrArg Fld.h hx) 5) 2).trans (by norm_num)
  · exact (congrFun (congrFun (congrArg Fld.vn hx) 7) 2).trans (by norm_num)

end Props
end
end Omega
