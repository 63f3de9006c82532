import Verif.Refine.Hierarchical
import Verif.Props.Simd
import Verif.Props.Energy

/-!
# C45, C46: the single-file implementation

`src/shallow_water_hierarchical.cpp` holds a second implementation of the shallow-water tendency and a
linear model.  The tendency is compared with the modular one; the linear model is shown to conserve
mass and energy.
-/

set_option linter.unusedVariables false
set_option linter.unusedSectionVars false

namespace Omega
noncomputable section

namespace Props

open Prog Model Refine Hex

variable {p : MeshParams} {dc : ℝ} {m : Mem ℝ}

/-! ### The functions of the kernels are the operators -/

theorem hfn_div (u : Int → ℝ) : HFn.div m.mesh u = Spec.div m u := by
  funext c
  unfold HFn.div
  rw [fold_div _ _ (fun j => m.real .edge_sign_on_cell 0 c j * Spec.dvE m (Spec.side m c j) *
    u (Spec.side m c j)) 1 fun j => by simp only [Mem.mesh]; ring]
  simp only [Spec.div, Mem.mesh, lit_real]; push_cast; ring

theorem hfn_ke (u : Int → ℝ) : HFn.ke m.mesh u = Spec.kinetic m u := by
  funext c
  unfold HFn.ke
  rw [fold_div _ _ (fun j => Spec.dcE m (Spec.side m c j) * Spec.dvE m (Spec.side m c j) *
    u (Spec.side m c j) ^ 2 / 4) 1 fun j => by simp only [Mem.mesh, quarter_real]; ring]
  simp only [Spec.kinetic, Mem.mesh, lit_real]; push_cast; ring

theorem hfn_rvort (u : Int → ℝ) : HFn.rvort m.mesh u = Spec.curl m u := by
  funext v
  unfold HFn.rvort
  rw [fold_div _ _ (fun j => m.real .edge_sign_on_vertex 0 v j * Spec.dcE m (Spec.spoke m v j) *
    u (Spec.spoke m v j)) 1 fun j => by simp only [Mem.mesh]; ring]
  simp only [Spec.curl, Mem.mesh, lit_real]; push_cast; ring

theorem hfn_hvert (φ : Int → ℝ) : HFn.hvert m.mesh φ = Spec.kiteMean m φ := by
  funext v
  unfold HFn.hvert
  rw [fold_div _ _ (fun j => m.real .kiteareas_on_vertex 0 v j * φ (m.int .cells_on_vertex v j)) 1
    fun j => by simp only [Mem.mesh]; ring]
  simp only [Spec.kiteMean, Mem.mesh, lit_real]; push_cast; ring

theorem hfn_hmean (φ : Int → ℝ) : HFn.hmean m.mesh φ = Spec.mean m φ := by
  funext e
  have : foldI 2 (lit 0) (fun j s => s + φ (m.mesh.coe e j)) =
      lit 0 + φ (m.mesh.coe e 0) + φ (m.mesh.coe e 1) := rfl
  unfold HFn.hmean
  rw [this]
  simp only [Spec.mean, Mem.mesh, half_real, lit_real]; push_cast; ring

theorem hfn_vedge (ψ : Int → ℝ) : HFn.vedge m.mesh ψ = Spec.vmean m ψ := by
  funext e
  have : foldI 2 (lit 0) (fun j s => s + ψ (m.mesh.voe e j)) =
      lit 0 + ψ (m.mesh.voe e 0) + ψ (m.mesh.voe e 1) := rfl
  unfold HFn.vedge
  rw [this]
  simp only [Spec.vmean, Mem.mesh, half_real, lit_real]; push_cast; ring

theorem hfn_htend (hf u : Int → ℝ) (c : Int) :
    HFn.htend m.mesh hf u c = -Spec.div m (fun e => hf e * u e) c := by
  unfold HFn.htend
  rw [fold_div _ _ (fun j => m.real .edge_sign_on_cell 0 c j * Spec.dvE m (Spec.side m c j) *
    (hf (Spec.side m c j) * u (Spec.side m c j))) 1 fun j => by simp only [Mem.mesh]; ring]
  simp only [Spec.div, Mem.mesh, lit_real]; push_cast; ring

theorem hfn_lap (φ ψ : Int → ℝ) (e : Int) :
    HFn.lap m.mesh φ ψ e = Spec.grad m φ e - Spec.gradT m ψ e := by
  simp only [HFn.lap, Spec.grad, Spec.gradT, Mem.mesh, lit_real]; push_cast; ring

theorem hfn_vt0 (g : ℝ) (q f hf u K h : Int → ℝ) (e : Int) :
    HFn.vt0 m.mesh g q f hf u K h e =
      Spec.pvFlux m (fun e => q e + f e) (fun e => hf e * u e) e - Spec.grad m K e -
        g * Spec.grad m h e := by
  unfold HFn.vt0
  rw [fold_div _ _ (fun j => m.real .weights_on_edge 0 e j * (hf (m.int .edges_on_edge e j) *
      u (m.int .edges_on_edge e j)) * ((q e + f e + (q (m.int .edges_on_edge e j) +
        f (m.int .edges_on_edge e j))) / 2)) 1 fun j => by simp only [Mem.mesh, half_real]; ring]
  simp only [Spec.pvFlux, Spec.grad, Mem.mesh, lit_real]; push_cast; ring

theorem hfn_trdel2 (q hm : Int → ℝ) (c : Int) : HFn.trdel2 m.mesh q hm c =
    Spec.div m (fun e => m.real .mesh_scaling_del2 0 e 0 * hm e * Spec.grad m q e) c := by
  unfold HFn.trdel2
  rw [fold_div _ _ (fun j => m.real .edge_sign_on_cell 0 c j * Spec.dvE m (Spec.side m c j) *
    (m.real .mesh_scaling_del2 0 (Spec.side m c j) 0 * hm (Spec.side m c j) *
      Spec.grad m q (Spec.side m c j))) 1 fun j => by
        simp only [Mem.mesh, Spec.grad, lit_real]; push_cast; ring]
  simp only [Spec.div, Mem.mesh, lit_real]; push_cast; ring

theorem hfn_trtend (prm : Params ℝ) (hf hm u q d2 : Int → ℝ) (c : Int) :
    HFn.trtend m.mesh prm hf hm u q d2 c = Spec.div m (HFn.trflux m.mesh prm hf hm u q d2) c := by
  unfold HFn.trtend
  rw [fold_div _ _ (fun j => m.real .edge_sign_on_cell 0 c j * Spec.dvE m (Spec.side m c j) *
    HFn.trflux m.mesh prm hf hm u q d2 (Spec.side m c j)) 1 fun j => by
      simp only [Mem.mesh]; ring]
  simp only [Spec.div, Mem.mesh, lit_real]; push_cast; ring

theorem hfn_linH (h0 : ℝ) (u : Int → ℝ) (c : Int) :
    HFn.linH m.mesh h0 u c = -(h0 * Spec.div m u c) := by
  unfold HFn.linH
  rw [fold_div _ _ (fun j => m.real .edge_sign_on_cell 0 c j * Spec.dvE m (Spec.side m c j) *
    u (Spec.side m c j)) 1 fun j => by simp only [Mem.mesh]; ring]
  simp only [Spec.div, Mem.mesh]; ring

theorem hfn_linV (g : ℝ) (f h u : Int → ℝ) (e : Int) :
    HFn.linV m.mesh g f h u e = f e * Spec.tang m u e - g * Spec.grad m h e := by
  unfold HFn.linV
  rw [fold_div _ _ (fun j => m.real .weights_on_edge 0 e j * u (m.int .edges_on_edge e j)) 1
    fun j => by simp only [Mem.mesh]; ring]
  simp only [Spec.tang, Spec.grad, Mem.mesh]; ring

/-! ### Values of the tendency -/

/-- The difference of the two velocity tendencies: the single-file code subtracts
`grad div (lap u) - gradT curl u` where the modular code subtracts `grad div (lap u) - gradT curl (lap u)`. -/
def hyperDefect (m : Mem ℝ) (prm : Params ℝ) (k : Int) (u : Int → ℝ) (e : Int) : ℝ :=
  if 0 < prm.visc_del4 then prm.visc_del4 * m.real .edge_mask 0 e k *
    m.real .mesh_scaling_del4 0 e 0 *
      (Spec.gradT m (Spec.curl m u) e - Spec.gradT m (Spec.curl m (Spec.vecLap m u)) e) else 0

theorem lt_real' (x : ℝ) : Scalar.lt (lit 0) x = true ↔ 0 < x := by
  have : Scalar.lt (lit 0 : ℝ) x = decide ((lit 0 : ℝ) < x) := rfl
  rw [this, decide_eq_true_iff, lit_real, Int.cast_zero]

theorem hsys_h (prm : Params ℝ) (s : Fld ℝ) (c k : Int) :
    HFn.htend m.mesh (HSys.flux m.mesh s k) (Sys.vk s k) c =
      Spec.thicknessTend m (SWModel.ofParams prm) (fun i => s.h i k) (fun i => s.vn i k) c := by
  have hfl : HSys.flux m.mesh s k = Spec.mean m (fun i => s.h i k) := hfn_hmean _
  rw [hfn_htend, hfl]
  exact (if_pos rfl).symm

theorem hsys_vn (prm : Params ℝ) (s : Fld ℝ) (e k : Int) :
    HSys.vnTend m.mesh (m.sl .f_vertex 0 0) prm s k e =
      Spec.velocityTend m (SWModel.ofParams prm) k (fun i => s.h i k) (fun i => s.vn i k) e +
        hyperDefect m prm k (fun i => s.vn i k) e := by
  have hdiv : HSys.divC m.mesh s k = Spec.div m (fun i => s.vn i k) := hfn_div _
  have hrv : HSys.rv m.mesh s k = Spec.curl m (fun i => s.vn i k) := hfn_rvort _
  have hke : HSys.keC m.mesh s k = Spec.kinetic m (fun i => s.vn i k) := hfn_ke _
  have hfl : HSys.flux m.mesh s k = Spec.mean m (fun i => s.h i k) := hfn_hmean _
  have hd2 : HSys.d2E m.mesh s k = Spec.vecLap m (fun i => s.vn i k) := by
    unfold HSys.d2E
    rw [hdiv, hrv]
    exact funext fun e => fn_del2 m _ e
  have hd2c : HSys.d2C m.mesh s k = Spec.div m (Spec.vecLap m (fun i => s.vn i k)) := by
    unfold HSys.d2C
    rw [hd2]
    exact hfn_div _
  have hq : (fun e => HSys.nrvE m.mesh s k e + HSys.npvE m.mesh (m.sl .f_vertex 0 0) s k e) =
      Spec.vmean m (Spec.pv m (fun i => s.h i k) (fun i => s.vn i k)) := by
    funext e
    show HFn.vedge m.mesh (HFn.nrv m.mesh (Sys.hk s k) (Sys.vk s k)) e +
      HFn.vedge m.mesh (HFn.npv m.mesh (Sys.hk s k) (m.sl .f_vertex 0 0)) e = _
    rw [hfn_vedge, hfn_vedge]
    simp only [Spec.vmean, HFn.nrv, HFn.npv, hfn_rvort, hfn_hvert, Spec.pv, lit_real, Mem.sl]
    have e1 : (Sys.hk s k) = fun i => s.h i k := rfl
    have e2 : (Sys.vk s k) = fun i => s.vn i k := rfl
    rw [e1, e2]
    push_cast
    ring
  have e1 : (Sys.hk s k) = fun i => s.h i k := rfl
  have e2 : (Sys.vk s k) = fun i => s.vn i k := rfl
  unfold HSys.vnTend HFn.vt
  beta_reduce
  rw [hfn_lap, hfn_lap, hfn_vt0, hq, hdiv, hrv, hke, hfl, hd2c, e1, e2]
  have c1 : (SWModel.ofParams prm).en_vdiff = Scalar.lt (lit 0) prm.visc_del2 := rfl
  have c2 : (SWModel.ofParams prm).en_vhyper = Scalar.lt (lit 0) prm.visc_del4 := rfl
  have c3 : (SWModel.ofParams prm).prm = prm := rfl
  have c4 : (SWModel.ofParams prm).en_pv = true := rfl
  have c5 : (SWModel.ofParams prm).en_ke = true := rfl
  have c6 : (SWModel.ofParams prm).en_ssh = true := rfl
  unfold Spec.velocityTend hyperDefect
  rw [c1, c2, c3, c4, c5, c6]
  simp only [lt_real', if_true, Mem.mesh]
  split_ifs <;> ring

theorem hsys_tr {d : Dims} (hc : ConnOK d m)
    (hs : ∀ e, 0 ≤ e → e < d.nedges → m.real .mesh_scaling_del2 0 e 0 = 1) (prm : Params ℝ)
    (s : Fld ℝ) {c : Int} (h0 : 0 ≤ c) (h1 : c < d.ncells) (l k : Int) :
    HSys.trTend m.mesh prm s l k c =
      Spec.tracerTend m (SWModel.ofParams prm) (fun i => s.h i k) (fun i => s.vn i k)
        (fun i => s.tr l i k) c := by
  have hn : HSys.ntrC s l k = fun i => s.tr l i k / s.h i k := funext fun c => fn_ntr _ _ c
  have hfl : HSys.flux m.mesh s k = Spec.mean m (fun i => s.h i k) := hfn_hmean _
  have e2 : (Sys.vk s k) = fun i => s.vn i k := rfl
  -- the divergence reads valid edges only
  have dcong : ∀ {u w : Int → ℝ}, (∀ e, 0 ≤ e → e < d.nedges → u e = w e) →
      ∀ c, 0 ≤ c → c < d.ncells → Spec.div m u c = Spec.div m w c := by
    intro u w huw c h0 h1
    unfold Spec.div
    congr 1
    refine Finset.sum_congr rfl fun j hj => ?_
    rw [Finset.mem_Ico] at hj
    obtain ⟨a, b⟩ := hc.eoc c h0 h1 j hj.1 hj.2
    rw [huw _ a b]
  have ht : ∀ c, 0 ≤ c → c < d.ncells → HSys.t2C m.mesh s l k c =
      Spec.div m (fun e => Spec.mean m (fun i => s.h i k) e *
      Spec.grad m (fun i => s.tr l i k / s.h i k) e) c := by
    intro c h0 h1
    unfold HSys.t2C
    rw [hn, hfl, hfn_trdel2]
    exact dcong (fun e h0 h1 => by rw [hs e h0 h1, one_mul]) c h0 h1
  unfold HSys.trTend
  rw [hfn_trtend]
  have hflux : ∀ e, 0 ≤ e → e < d.nedges →
      HFn.trflux m.mesh prm (HSys.flux m.mesh s k) (HSys.flux m.mesh s k) (Sys.vk s k)
        (HSys.ntrC s l k) (HSys.t2C m.mesh s l k) e =
      -1 * (Spec.mean m (fun i => s.h i k) e * Spec.mean m (fun i => s.tr l i k / s.h i k) e *
        s.vn e k) +
      (if 0 < prm.eddy_diff2 then prm.eddy_diff2 else 0) * (m.real .mesh_scaling_del2 0 e 0 *
        Spec.mean m (fun i => s.h i k) e * Spec.grad m (fun i => s.tr l i k / s.h i k) e) +
      -(if 0 < prm.eddy_diff4 then prm.eddy_diff4 else 0) * (m.real .mesh_scaling_del4 0 e 0 *
        Spec.grad m (Spec.div m fun e => Spec.mean m (fun i => s.h i k) e *
          Spec.grad m (fun i => s.tr l i k / s.h i k) e) e) := by
    intro e g0 g1
    have i0 : 0 ≤ m.mesh.coe e 0 ∧ m.mesh.coe e 0 < d.ncells := hc.coe e g0 g1 0 (by omega) (by omega)
    have i1 : 0 ≤ m.mesh.coe e 1 ∧ m.mesh.coe e 1 < d.ncells := hc.coe e g0 g1 1 (by omega) (by omega)
    unfold HFn.trflux
    beta_reduce
    rw [hn, hfl, ht _ i0.1 i0.2, ht _ i1.1 i1.2, e2, hs e g0 g1]
    generalize (Spec.div m fun e => Spec.mean m (fun i => s.h i k) e *
          Spec.grad m (fun i => s.tr l i k / s.h i k) e) = D
    simp only [lt_real']
    simp only [Mem.mesh, half_real, lit_real, Spec.mean, Spec.grad, Int.cast_one]
    split_ifs <;> ring
  rw [dcong hflux c h0 h1]
  have lin : ∀ (a b : ℝ) (u v w : Int → ℝ), Spec.div m (fun e => -1 * u e + a * v e + b * w e) c =
      -Spec.div m u c + a * Spec.div m v c + b * Spec.div m w c := by
    intro a b u v w
    unfold Spec.div
    rw [← neg_div, mul_div_assoc', mul_div_assoc', ← add_div, ← add_div]
    congr 1
    rw [← Finset.sum_neg_distrib, Finset.mul_sum, Finset.mul_sum, ← Finset.sum_add_distrib,
      ← Finset.sum_add_distrib]
    exact Finset.sum_congr rfl fun j _ => by ring
  rw [lin]
  have c1 : (SWModel.ofParams prm).en_tdiff = Scalar.lt (lit 0) prm.eddy_diff2 := rfl
  have c2 : (SWModel.ofParams prm).en_thyper = Scalar.lt (lit 0) prm.eddy_diff4 := rfl
  have c3 : (SWModel.ofParams prm).prm = prm := rfl
  have c4 : (SWModel.ofParams prm).en_thadv = true := rfl
  unfold Spec.tracerTend
  rw [c1, c2, c3, c4]
  simp only [lt_real', if_true]
  split_ifs <;> ring

/-! ### C46 -/

/-- The single-file tendency is safe and deterministic, in any arithmetic. -/
theorem C46_single_file_safe_deterministic {R : Type} [Scalar R] {d : Dims} {m : Mem R}
    (hd : DimsOK d) (hc : ConnOK d m) (prm : Params R) (mode : AddMode) {tn st : StateId}
    (hne : st ≠ tn) (t : R) :
    Safe d (h_compute_tendency d (HModel.ofParams prm) mode tn st t) m ∧
      ∃! m', Exec d (h_compute_tendency d (HModel.ofParams prm) mode tn st t) m m' := by
  obtain ⟨m', r, -⟩ := h_compute_tendency_runs ⟨hd, hc, rfl, rfl⟩ prm mode hne t
  exact ⟨r.1, m', r.exec, fun y hy => r.unique hy⟩

/-- On any mesh with valid tables, both implementations, run in the same memory and in either mode,
store the same thickness tendencies; the same tracer tendencies if `mesh_scaling_del2` is 1; and
velocity tendencies that differ exactly by `hyperDefect`. -/
theorem C46_difference {d : Dims} (hd : DimsOK d) (hc : ConnOK d m) (prm : Params ℝ)
    {split : Bool} {mode : AddMode} {tn st : StateId} (hne : st ≠ tn) {t t' : ℝ} {m1 m2 : Mem ℝ}
    (he : Exec d (compute_tendency d ⟨defaultKernels d.vl, split⟩ (SWModel.ofParams prm) mode tn st
      t) m m1)
    (hh : Exec d (h_compute_tendency d (HModel.ofParams prm) mode tn st t') m m2) :
    (∀ c k, 0 ≤ c → c < d.ncells → 0 ≤ k → k < d.nlayers →
      m2.real (.h_cell tn) 0 c k = m1.real (.h_cell tn) 0 c k) ∧
    (∀ e k, 0 ≤ e → e < d.nedges → 0 ≤ k → k < d.nlayers →
      m2.real (.vn_edge tn) 0 e k = m1.real (.vn_edge tn) 0 e k +
        if prm.disable_vn = true then 0 else
          hyperDefect m prm k (fun i => m.real (.vn_edge st) 0 i k) e) ∧
    ((∀ e, 0 ≤ e → e < d.nedges → m.real .mesh_scaling_del2 0 e 0 = 1) →
      ∀ l c k, 0 ≤ l → l < d.ntracers → 0 ≤ c → c < d.ncells → 0 ≤ k → k < d.nlayers →
      m2.real (.tr_cell tn) l c k = m1.real (.tr_cell tn) l c k) := by
  obtain ⟨-, a⟩ := (genSetup hd hc (hookOK_noHook (noHook_ofParams prm) d m)).tendency hne he
  obtain ⟨m2', r, -, b⟩ := h_compute_tendency_runs ⟨hd, hc, rfl, rfl⟩ prm mode hne t'
  obtain rfl := r.unique hh
  obtain ⟨v1, v2, v3⟩ := tend_val (m := m) d (SWModel.ofParams prm) mode t (m.fld tn) (m.fld st)
  have pm : ∀ o x : ℝ, putm mode o x = (if mode = .replace then 0 else o) + x := fun o x => by
    cases mode <;> simp [putm]
  refine ⟨fun c k h0 h1 k0 k1 => ?_, fun e k h0 h1 k0 k1 => ?_, fun hs l c k l0 l1 h0 h1 k0 k1 => ?_⟩
  · refine (b.h c k h0 h1 k0 k1).trans (Eq.trans ?_ ((a.h c k h0 h1 k0 k1).trans (v1 c k)).symm)
    simp only [HSys.tend, pm, hsys_h prm]
    rfl
  · have e1 := b.vn e k h0 h1 k0 k1
    have e2 := (a.vn e k h0 h1 k0 k1).trans (v2 e k)
    simp only [HSys.tend, pm, hsys_vn prm] at e1
    rw [show m2.real (.vn_edge tn) 0 e k = _ from e1, show m1.real (.vn_edge tn) 0 e k = _ from e2]
    have c3 : (SWModel.ofParams prm).prm = prm := rfl
    rw [c3]
    simp only [Mem.fld]
    split_ifs <;> ring
  · refine (b.tr l c k l0 l1 h0 h1 k0 k1).trans
      (Eq.trans ?_ ((a.tr l c k l0 l1 h0 h1 k0 k1).trans (v3 l c k)).symm)
    simp only [HSys.tend, pm]
    rw [hsys_tr hc hs prm (m.fld st) h0 h1]

/-- On the planar hexagonal meshes, thickness and tracer tendencies of the two implementations are
equal for all parameters, and the velocity tendencies are equal if hyperviscosity is off. -/
theorem C46_agrees (hv : RunValid p) (hdc : 0 < dc) {prm : Params ℝ} (hr : Ready p dc prm m)
    {prm' : Params ℝ} {split : Bool} {mode : AddMode} {t t' : ℝ} {m1 m2 : Mem ℝ}
    (he : Exec p.dims (compute_tendency p.dims ⟨defaultKernels p.dims.vl, split⟩
      (SWModel.ofParams prm') mode .tend .state t) m m1)
    (hh : Exec p.dims (h_compute_tendency p.dims (HModel.ofParams prm') mode .tend .state t') m m2) :
    (∀ c k, 0 ≤ c → c < p.dims.ncells → 0 ≤ k → k < p.dims.nlayers →
      m2.real (.h_cell .tend) 0 c k = m1.real (.h_cell .tend) 0 c k) ∧
    (∀ l c k, 0 ≤ l → l < p.dims.ntracers → 0 ≤ c → c < p.dims.ncells → 0 ≤ k → k < p.dims.nlayers →
      m2.real (.tr_cell .tend) l c k = m1.real (.tr_cell .tend) l c k) ∧
    (prm'.visc_del4 ≤ 0 → ∀ e k, 0 ≤ e → e < p.dims.nedges → 0 ≤ k → k < p.dims.nlayers →
      m2.real (.vn_edge .tend) 0 e k = m1.real (.vn_edge .tend) 0 e k) := by
  obtain ⟨hd, hc⟩ := ready_ok hv hr
  have hg := Ready.geo hr hv.toValid hdc
  obtain ⟨a1, a2, a3⟩ := C46_difference hd hc prm' (by decide) he hh
  refine ⟨a1, a3 fun e h0 h1 => hg.sdel2 e h0 h1, fun hz e k h0 h1 k0 k1 => ?_⟩
  rw [a2 e k h0 h1 k0 k1, hyperDefect, if_neg (not_lt.mpr hz), ite_self, add_zero]

/-- `gradT` of the curl is the same for a field and for its vector Laplacian exactly when the field is
irrotational. -/
theorem gradT_curl_same (h : Geo p.nx p.ny p.dims.nlayers dc m.mesh) (hny : p.ny % 2 = 0)
    (u : Int → ℝ) :
    (∀ e, 0 ≤ e → e < p.dims.nedges →
      Spec.gradT m (Spec.curl m u) e = Spec.gradT m (Spec.curl m (Spec.vecLap m u)) e) ↔
      ∀ v, 0 ≤ v → v < p.dims.nvertices → Spec.curl m u v = 0 := by
  have hcl : ∀ v, 0 ≤ v → v < p.dims.nvertices → Spec.curl m (Spec.vecLap m u) v =
      -Spec.curl m (Spec.gradT m (Spec.curl m u)) v := fun v h0 h1 => by
    rw [curl_on h (w := fun e => Spec.grad m (Spec.div m u) e - Spec.gradT m (Spec.curl m u) e)
      (fun e g0 g1 => vecLap_eq h u g0 g1) h0 h1, curl_sub, curl_grad h hny _ h0 h1, zero_sub]
  have area : ∀ v ∈ Spec.verts p.dims, 0 < Spec.areaT m v := fun v hv =>
    areaT_pos h (Finset.mem_Ico.mp hv).1 (Finset.mem_Ico.mp hv).2
  have len : ∀ e ∈ Spec.edges p.dims, 0 < Spec.dcE m e * Spec.dvE m e := fun v hv =>
    dcdv_pos h (Finset.mem_Ico.mp hv).1 (Finset.mem_Ico.mp hv).2
  constructor
  · intro hz
    -- the curl of `u - lap u` vanishes
    set w : Int → ℝ := fun e => u e - Spec.vecLap m u e with hw
    have z : ∀ e, 0 ≤ e → e < p.dims.nedges → Spec.gradT m (Spec.curl m w) e = 0 := fun e h0 h1 => by
      have := hz e h0 h1
      unfold Spec.gradT at this ⊢
      simp only [hw, curl_sub]
      rw [← sub_eq_zero, ← sub_div] at this
      rw [← this]; ring
    have a1 := sq_sum_zero area ((adjointV h (Spec.curl m w) w).trans
      (Finset.sum_eq_zero fun e he => by
        have := Finset.mem_Ico.mp he
        rw [z e this.1 this.2, mul_zero, mul_zero]))
    have a2 : ∀ v ∈ Spec.verts p.dims,
        Spec.curl m (Spec.gradT m (Spec.curl m u)) v = -Spec.curl m u v := fun v hv => by
      have g := Finset.mem_Ico.mp hv
      have := a1 v hv
      rw [hw, curl_sub, hcl v g.1 g.2] at this
      linarith
    have a3 := adjointV h (Spec.curl m u) (Spec.gradT m (Spec.curl m u))
    have a4 : ∑ v ∈ Spec.verts p.dims, Spec.areaT m v * (Spec.curl m u v * Spec.curl m u v) =
        -∑ e ∈ Spec.edges p.dims, Spec.dcE m e * Spec.dvE m e *
          (Spec.gradT m (Spec.curl m u) e * Spec.gradT m (Spec.curl m u) e) := by
      rw [← a3, ← Finset.sum_neg_distrib]
      exact Finset.sum_congr rfl fun v hv => by rw [a2 v hv]; ring
    have p1 : 0 ≤ ∑ v ∈ Spec.verts p.dims, Spec.areaT m v * (Spec.curl m u v * Spec.curl m u v) :=
      Finset.sum_nonneg fun v hv => mul_nonneg (area v hv).le (mul_self_nonneg _)
    have p2 : 0 ≤ ∑ e ∈ Spec.edges p.dims, Spec.dcE m e * Spec.dvE m e *
          (Spec.gradT m (Spec.curl m u) e * Spec.gradT m (Spec.curl m u) e) :=
      Finset.sum_nonneg fun e he => mul_nonneg (len e he).le (mul_self_nonneg _)
    have a5 := sq_sum_zero area (show ∑ v ∈ Spec.verts p.dims, Spec.areaT m v *
      (Spec.curl m u v * Spec.curl m u v) = 0 by linarith)
    exact fun v h0 h1 => a5 v (Finset.mem_Ico.mpr ⟨h0, h1⟩)
  · intro hz e h0 h1
    rw [(gradT_curl_vecLap h hny u).mpr hz e h0 h1]
    obtain ⟨b0, b1⟩ := voe_range h h0 h1 (s := 0) (by omega) (by omega)
    obtain ⟨c0, c1⟩ := voe_range h h0 h1 (s := 1) (by omega) (by omega)
    unfold Spec.gradT
    rw [hz _ b0 b1, hz _ c0 c1, sub_zero, zero_div]

/-- With hyperviscosity and an even number of rows, the velocity tendencies of the two implementations
agree at layer `k` exactly when the velocity of that layer has no vorticity. -/
theorem C46_hyperviscosity_iff (hv : RunValid p) (hny : p.ny % 2 = 0) (hdc : 0 < dc)
    {prm : Params ℝ} (hr : Ready p dc prm m) {prm' : Params ℝ} (hvisc : 0 < prm'.visc_del4)
    (hdis : prm'.disable_vn = false) {split : Bool} {mode : AddMode} {t t' : ℝ} {m1 m2 : Mem ℝ}
    (he : Exec p.dims (compute_tendency p.dims ⟨defaultKernels p.dims.vl, split⟩
      (SWModel.ofParams prm') mode .tend .state t) m m1)
    (hh : Exec p.dims (h_compute_tendency p.dims (HModel.ofParams prm') mode .tend .state t') m m2)
    {k : Int} (k0 : 0 ≤ k) (k1 : k < p.dims.nlayers) :
    (∀ e, 0 ≤ e → e < p.dims.nedges →
      m2.real (.vn_edge .tend) 0 e k = m1.real (.vn_edge .tend) 0 e k) ↔
    ∀ v, 0 ≤ v → v < p.dims.nvertices →
      Spec.curl m (fun e => m.real (.vn_edge .state) 0 e k) v = 0 := by
  obtain ⟨hd, hc⟩ := ready_ok hv hr
  have hg := Ready.geo hr hv.toValid hdc
  obtain ⟨-, a2, -⟩ := C46_difference hd hc prm' (by decide) he hh
  rw [← gradT_curl_same hg hny]
  refine forall_congr' fun e => forall_congr' fun h0 => forall_congr' fun h1 => ?_
  obtain ⟨q1, -, q2⟩ := mask_one hg h0 h1 k0 k1
  rw [a2 e k h0 h1 k0 k1, hdis, add_eq_left, if_neg (by simp), hyperDefect, if_pos hvisc, q1, q2,
    mul_one, mul_one, mul_eq_zero, or_iff_right hvisc.ne', sub_eq_zero]

/-- a memory with a given state, and an execution of each implementation from it -/
theorem hier_execs (hv : RunValid p) (dc : ℝ) (prm prm' : Params ℝ) (split : Bool) (mode : AddMode)
    (t t' : ℝ) (x : Fld ℝ) :
    ∃ m m1 m2 : Mem ℝ, Ready p dc prm m ∧ m.fld .state = x ∧
      Exec p.dims (compute_tendency p.dims ⟨defaultKernels p.dims.vl, split⟩
        (SWModel.ofParams prm') mode .tend .state t) m m1 ∧
      Exec p.dims (h_compute_tendency p.dims (HModel.ofParams prm') mode .tend .state t') m m2 := by
  obtain ⟨m, m1, hr, hd, hc, hx, he⟩ :=
    exists_tendency hv dc prm (noHook_ofParams prm') split mode t x
  obtain ⟨-, m2, h2, -⟩ := C46_single_file_safe_deterministic hd hc prm' mode
    (st := .state) (tn := .tend) (by decide) t'
  exact ⟨m, m1, m2, hr, hx, he, h2⟩

/-- The two implementations do differ: on every mesh with an even number of rows and with
hyperviscosity there is a state for which their velocity tendencies are not equal. -/
theorem C46_hyperviscosity_differs (hv : RunValid p) (hny : p.ny % 2 = 0) (hL : 0 < p.dims.nlayers)
    (hdc : 0 < dc) (prm : Params ℝ) (hvisc : 0 < prm.visc_del4) (hdis : prm.disable_vn = false)
    (split : Bool) (mode : AddMode) (t : ℝ) :
    ∃ m m1 m2 : Mem ℝ, Ready p dc prm m ∧
      Exec p.dims (compute_tendency p.dims ⟨defaultKernels p.dims.vl, split⟩
        (SWModel.ofParams prm) mode .tend .state t) m m1 ∧
      Exec p.dims (h_compute_tendency p.dims (HModel.ofParams prm) mode .tend .state t) m m2 ∧
      ∃ e, 0 ≤ e ∧ e < p.dims.nedges ∧
        m2.real (.vn_edge .tend) 0 e 0 ≠ m1.real (.vn_edge .tend) 0 e 0 := by
  obtain ⟨m, m1, m2, hr, hx, he, hh⟩ := hier_execs hv dc prm prm split mode t t
    ⟨fun _ _ => 1, fun e _ => stripe e, fun _ _ _ => 0⟩
  refine ⟨m, m1, m2, hr, he, hh, ?_⟩
  by_contra hcon
  push Not at hcon
  have := (C46_hyperviscosity_iff hv hny hdc hr hvisc hdis he hh le_rfl hL).mp hcon 0 le_rfl
    (nvertices_pos hv)
  have hx' : (fun e => m.real (.vn_edge .state) 0 e 0) = stripe :=
    funext fun e => congrFun (congrFun (congrArg Fld.vn hx) e) 0
  rw [hx'] at this
  exact stripe_curl hv (Ready.geo hr hv.toValid hdc) this

/-- the hypotheses of the four theorems are met by a state with varying fields -/
example (prm : Params ℝ) : ∃ m m1 m2 : Mem ℝ, Ready p46 (1 / 4) prm m ∧ DimsOK p46.dims ∧
    ConnOK p46.dims m ∧
    Exec p46.dims (compute_tendency p46.dims ⟨defaultKernels p46.dims.vl, true⟩
      (SWModel.ofParams prm) .increment .tend .state 1) m m1 ∧
    Exec p46.dims (h_compute_tendency p46.dims (HModel.ofParams prm) .increment .tend .state 2) m m2 ∧
    m.real (.h_cell .state) 0 5 2 = 6 ∧ m.real (.vn_edge .state) 0 7 2 = 49 := by
  obtain ⟨m, m1, m2, hr, hx, he, hh⟩ := hier_execs p46_run (1 / 4) prm prm true .increment 1 2
    ⟨fun c _ => 1 + c, fun e _ => e * e, fun l c k => l + c + k⟩
  obtain ⟨hd, hc⟩ := ready_ok p46_run hr
  refine ⟨m, m1, m2, hr, hd, hc, he, hh, ?_, ?_⟩
  · exact (congrFun (congrFun (congrArg Fld.h hx) 5) 2).trans (by norm_num)
  · exact (congrFun (congrFun (congrArg Fld.vn hx) 7) 2).trans (by norm_num)

/-- and the difference is present on the example mesh -/
example (prm : Params ℝ) (h : prm.disable_vn = false) (h4 : 0 < prm.visc_del4) :
    ∃ m m1 m2 : Mem ℝ, Ready p46 (1 / 4) prm m ∧
      Exec p46.dims (compute_tendency p46.dims ⟨defaultKernels p46.dims.vl, false⟩
        (SWModel.ofParams prm) .replace .tend .state 0) m m1 ∧
      Exec p46.dims (h_compute_tendency p46.dims (HModel.ofParams prm) .replace .tend .state 0) m m2 ∧
      ∃ e, 0 ≤ e ∧ e < p46.dims.nedges ∧
        m2.real (.vn_edge .tend) 0 e 0 ≠ m1.real (.vn_edge .tend) 0 e 0 :=
  C46_hyperviscosity_differs p46_run (by decide) (by norm_num [MeshParams.dims, ceilDiv, p46])
    (by norm_num) prm h4 h false .replace 0

/-! ### C45: the linear model -/

/-- The linear tendency is safe and deterministic, in any arithmetic. -/
theorem C45_safe_deterministic {R : Type} [Scalar R] {d : Dims} {m : Mem R}
    (hd : DimsOK d) (hc : ConnOK d m) (sw : LinModel R) (mode : AddMode) {tn st : StateId}
    (hne : st ≠ tn) :
    Safe d (lin_compute_tendency d sw mode tn st) m ∧
      ∃! m', Exec d (lin_compute_tendency d sw mode tn st) m m' := by
  obtain ⟨m', r, -⟩ := lin_compute_tendency_runs hd hc sw mode hne
  exact ⟨r.1, m', r.exec, fun y hy => r.unique hy⟩

/-- On any mesh with valid tables the linear model stores `-h0 div u` and `f u⊥ - g grad h`. -/
theorem C45_formula {d : Dims} (hd : DimsOK d) (hc : ConnOK d m) {sw : LinModel ℝ} {tn st : StateId}
    (hne : st ≠ tn) {m1 : Mem ℝ} (he : Exec d (lin_compute_tendency d sw .replace tn st) m m1) :
    (sw.prm.disable_h = false → ∀ c k, 0 ≤ c → c < d.ncells → 0 ≤ k → k < d.nlayers →
      m1.real (.h_cell tn) 0 c k =
        -(sw.h0 * Spec.div m (fun i => m.real (.vn_edge st) 0 i k) c)) ∧
    (sw.prm.disable_vn = false → ∀ e k, 0 ≤ e → e < d.nedges → 0 ≤ k → k < d.nlayers →
      m1.real (.vn_edge tn) 0 e k =
        m.real .f_edge 0 e 0 * Spec.tang m (fun i => m.real (.vn_edge st) 0 i k) e -
          sw.prm.grav * Spec.grad m (fun i => m.real (.h_cell st) 0 i k) e) := by
  obtain ⟨m', r, -, v1, v2⟩ := lin_compute_tendency_runs hd hc sw .replace hne
  obtain rfl := r.unique he
  refine ⟨fun h c k h0 h1 k0 k1 => ?_, fun h e k h0 h1 k0 k1 => ?_⟩
  · rw [v1 c k h0 h1 k0 k1, h]
    exact (hfn_linH _ _ _).trans rfl
  · rw [v2 e k h0 h1 k0 k1, h]
    exact (hfn_linV _ _ _ _ _).trans rfl

theorem wp_h_mass {R : Type} [Scalar R] {d : Dims} {m : Mem R} (hl : LevelsOK d m) (st : StateId)
    {c : Int} (a : R) (h0 : 0 ≤ c) (h1 : c < d.ncells) :
    Wp d (fun _ => .ro) (sumCols (h_column_mass st) c a) m (fun r m' =>
      r = a + foldI (m.int .max_level_cell c 0) (lit 0) (fun k a => a + m.real .area_cell 0 c 0 *
        m.real (.h_cell st) 0 c k) ∧ m' = m) := by
  unfold sumCols h_column_mass
  refine wp_bind ?_
  refine wp_bind (wp_rdI1 ⟨⟨h0, h1⟩, by simp [IArr.ext]⟩ (by simp) ?_)
  refine wp_forI_read' (α := R) (fun k a => a + m.real .area_cell 0 c 0 * m.real (.h_cell st) 0 c k) ?_
    (wp_pure' ⟨rfl, rfl⟩)
  intro k s k0 k1
  have := hl.cell c h0 h1
  refine wp_bind (wp_rd1 ⟨by simp [RArr.ext], ⟨h0, h1⟩, by simp [RArr.ext]⟩ (by simp) ?_)
  refine wp_bind (wp_rd2 ⟨by simp [RArr.ext], ⟨h0, h1⟩, ⟨k0, by simp only [RArr.ext]; omega⟩⟩
    (by simp) ?_)
  exact wp_pure' ⟨rfl, rfl⟩

theorem wp_lin_energy {R : Type} [Scalar R] {d : Dims} {m : Mem R} (hc : ConnOK d m)
    (hl : LevelsOK d m) (grav hb : R) (st : StateId) {c : Int} (a : R) (h0 : 0 ≤ c)
    (h1 : c < d.ncells) :
    Wp d (fun _ => .ro) (sumCols (lin_column_energy grav hb st) c a) m (fun r m' =>
      r = a + foldI (m.int .max_level_cell c 0) (lit 0) (fun k a => a + m.real .area_cell 0 c 0 *
        (grav * m.real (.h_cell st) 0 c k * m.real (.h_cell st) 0 c k / lit 2 +
          hb * keF m st c k)) ∧ m' = m) := by
  unfold sumCols lin_column_energy
  refine wp_bind ?_
  refine wp_bind (wp_rdI1 ⟨⟨h0, h1⟩, by simp [IArr.ext]⟩ (by simp) ?_)
  refine wp_forI_read' (α := R) (fun k a => a + m.real .area_cell 0 c 0 *
    (grav * m.real (.h_cell st) 0 c k * m.real (.h_cell st) 0 c k / lit 2 +
      hb * keF m st c k)) ?_ (wp_pure' ⟨rfl, rfl⟩)
  intro k s k0 k1
  have hk : k < d.nlayers := by have := hl.cell c h0 h1; omega
  have hn := hc.neoc c h0 h1
  refine wp_bind (wp_rdI1 ⟨⟨h0, h1⟩, by simp [IArr.ext]⟩ (by simp) ?_)
  refine wp_bind (wp_forI_read' (α := R) (fun j K =>
    K + m.real .dv_edge 0 (m.int .edges_on_cell c j) 0 * m.real .dc_edge 0 (m.int .edges_on_cell c j) 0 *
      m.real (.vn_edge st) 0 (m.int .edges_on_cell c j) k *
      m.real (.vn_edge st) 0 (m.int .edges_on_cell c j) k / lit 4) ?_ ?_)
  · intro j K j0 j1
    have he := hc.eoc c h0 h1 j j0 j1
    refine wp_bind (wp_rdI2 ⟨⟨h0, h1⟩, ⟨j0, by simp only [IArr.ext, maxedges]; omega⟩⟩ (by simp) ?_)
    refine wp_bind (wp_rd1 ⟨by simp [RArr.ext], he, by simp [RArr.ext]⟩ (by simp) ?_)
    refine wp_bind (wp_rd1 ⟨by simp [RArr.ext], he, by simp [RArr.ext]⟩ (by simp) ?_)
    refine wp_bind (wp_rd2 ⟨by simp [RArr.ext], he, ⟨k0, hk⟩⟩ (by simp) ?_)
    refine wp_bind (wp_rd2 ⟨by simp [RArr.ext], he, ⟨k0, hk⟩⟩ (by simp) ?_)
    exact wp_pure' ⟨rfl, rfl⟩
  · refine wp_bind (wp_rd1 ⟨by simp [RArr.ext], ⟨h0, h1⟩, by simp [RArr.ext]⟩ (by simp) ?_)
    refine wp_bind (wp_rd2 ⟨by simp [RArr.ext], ⟨h0, h1⟩, ⟨k0, hk⟩⟩ (by simp) ?_)
    exact wp_pure' ⟨rfl, rfl⟩

theorem h_mass_spec {prm : Params ℝ} (hv : MeshParams.Valid p) (hr : Ready p dc prm m) (st : StateId)
    (v : ℝ) : IsHMassIntegral p.dims st m v ↔ v = ∑ k ∈ Spec.layers p.dims,
      ∑ c ∈ Spec.cells p.dims, Spec.areaC m c * m.real (.h_cell st) 0 c k := by
  have hx := (hr.hex hv).1
  have key : IsHMassIntegral p.dims st m v ↔ v = ∑ c ∈ below p.dims.ncells,
      ∑ k ∈ below (m.int .max_level_cell c 0), m.real .area_cell 0 c 0 * m.real (.h_cell st) 0 c k :=
    reduces_real (g := fun c => ∑ k ∈ below (m.int .max_level_cell c 0),
      m.real .area_cell 0 c 0 * m.real (.h_cell st) 0 c k) (fun c a h0 h1 => by
        refine wp_mono (wp_h_mass (levels_of_hex hx) st a h0 h1) ?_
        rintro r m' ⟨rfl, rfl⟩
        exact ⟨by rw [foldI_shift]; simp, rfl⟩) v
  rw [key, Finset.sum_comm]
  rw [sum_below p.dims.ncells fun c => ∑ k ∈ below (m.int .max_level_cell c 0),
      m.real .area_cell 0 c 0 * m.real (.h_cell st) 0 c k]
  refine Eq.congr_right (Finset.sum_congr rfl fun c hc => ?_)
  rw [(hx.levels c).1 (mem_cells.mp hc)]
  exact sum_below _ fun k => m.real .area_cell 0 c 0 * m.real (.h_cell st) 0 c k

theorem lin_energy_spec {prm : Params ℝ} (hv : RunValid p) (hr : Ready p dc prm m) (sw : LinModel ℝ)
    (st : StateId) (v : ℝ) : IsLinEnergyIntegral p.dims sw st m v ↔ v = ∑ k ∈ Spec.layers p.dims,
      ∑ c ∈ Spec.cells p.dims, Spec.areaC m c * (sw.prm.grav * m.real (.h_cell st) 0 c k ^ 2 / 2 +
        sw.h0 * Spec.kinetic m (fun e => m.real (.vn_edge st) 0 e k) c) := by
  have hx := (hr.hex hv.toValid).1
  have hc := (ready_ok hv hr).2
  have key : IsLinEnergyIntegral p.dims sw st m v ↔ v = ∑ c ∈ below p.dims.ncells,
      ∑ k ∈ below (m.int .max_level_cell c 0), m.real .area_cell 0 c 0 *
        (sw.prm.grav * m.real (.h_cell st) 0 c k * m.real (.h_cell st) 0 c k / 2 +
          sw.h0 * keF m st c k) :=
    reduces_real (g := fun c => ∑ k ∈ below (m.int .max_level_cell c 0),
      m.real .area_cell 0 c 0 * (sw.prm.grav * m.real (.h_cell st) 0 c k *
        m.real (.h_cell st) 0 c k / 2 + sw.h0 * keF m st c k)) (fun c a h0 h1 => by
        refine wp_mono (wp_lin_energy hc (levels_of_hex hx) _ _ st a h0 h1) ?_
        rintro r m' ⟨rfl, rfl⟩
        exact ⟨by rw [foldI_shift]; simp, rfl⟩) v
  rw [key, Finset.sum_comm]
  rw [sum_below p.dims.ncells fun c => ∑ k ∈ below (m.int .max_level_cell c 0),
      m.real .area_cell 0 c 0 * (sw.prm.grav * m.real (.h_cell st) 0 c k *
        m.real (.h_cell st) 0 c k / 2 + sw.h0 * keF m st c k)]
  refine Eq.congr_right (Finset.sum_congr rfl fun c hc => ?_)
  rw [(hx.levels c).1 (mem_cells.mp hc), sum_below _ fun k => m.real .area_cell 0 c 0 *
    (sw.prm.grav * m.real (.h_cell st) 0 c k * m.real (.h_cell st) 0 c k / 2 + sw.h0 * keF m st c k)]
  refine Finset.sum_congr rfl fun k _ => ?_
  rw [keF_spec]; ring

/-- The thickness tendency of the linear model has no total: `mass_integral` of it is zero. -/
theorem C45_mass (hv : RunValid p) (hx : 2 ≤ p.nx) (hy : 2 ≤ p.ny) (hdc : 0 < dc)
    {prm : Params ℝ} (hr : Ready p dc prm m) {sw : LinModel ℝ} (h1 : sw.prm.disable_h = false)
    {m1 : Mem ℝ} (he : Exec p.dims (lin_compute_tendency p.dims sw .replace .tend .state) m m1)
    {v : ℝ} (hm : IsHMassIntegral p.dims .tend m1 v) : v = 0 := by
  obtain ⟨hd, hc⟩ := ready_ok hv hr
  have hg := Ready.geo2 hr hv.toValid hx hy hdc
  obtain ⟨t1, -⟩ := C45_formula hd hc (by decide) he
  obtain ⟨m', r, ag, -⟩ := lin_compute_tendency_runs hd hc sw .replace (st := .state) (tn := .tend)
    (by decide)
  obtain rfl := r.unique he
  have hs : Static m1 m := ag.mono fun b h => by
    cases b <;> first | rfl | simp [linSet, only] at h
  rw [(h_mass_spec hv.toValid (hr.static hs) .tend v).1 hm]
  refine Finset.sum_eq_zero fun k hk => ?_
  have hk := Finset.mem_Ico.mp hk
  have a := adjoint hg (fun _ => 1) (fun i => m.real (.vn_edge .state) 0 i k)
  have z : ∑ c ∈ Spec.cells p.dims, Spec.areaC m c *
      (1 * Spec.div m (fun i => m.real (.vn_edge .state) 0 i k) c) = 0 := by
    rw [a, neg_eq_zero]
    exact Finset.sum_eq_zero fun e _ => by simp [Spec.grad]
  calc _ = -sw.h0 * ∑ c ∈ Spec.cells p.dims, Spec.areaC m c *
      (1 * Spec.div m (fun i => m.real (.vn_edge .state) 0 i k) c) := by
        rw [Finset.mul_sum]
        refine Finset.sum_congr rfl fun c hc' => ?_
        have hc' := Finset.mem_Ico.mp hc'
        rw [area_static hs, t1 h1 c k hc'.1 hc'.2 hk.1 hk.2]
        ring
    _ = 0 := by rw [z, mul_zero]

/-- energy of one layer of the linear model along a line of states -/
theorem lin_energy_deriv (h : Geo p.nx p.ny p.dims.nlayers dc m.mesh) (g h0 : ℝ)
    (x a u w : Int → ℝ) :
    HasDerivAt (fun ε : ℝ => ∑ c ∈ Spec.cells p.dims, Spec.areaC m c *
        (g * (x c + ε * a c) ^ 2 / 2 + h0 * Spec.kinetic m (fun e => u e + ε * w e) c))
      (∑ c ∈ Spec.cells p.dims, Spec.areaC m c * (g * x c * a c) +
        ∑ e ∈ Spec.edges p.dims, Spec.dcE m e * Spec.dvE m e * (h0 * u e * w e)) 0 := by
  have e : (fun ε : ℝ => ∑ c ∈ Spec.cells p.dims, Spec.areaC m c *
        (g * (x c + ε * a c) ^ 2 / 2 + h0 * Spec.kinetic m (fun e => u e + ε * w e) c)) =
      fun ε => ∑ c ∈ Spec.cells p.dims, Spec.areaC m c * g / 2 * (x c + ε * a c) ^ 2 +
        ∑ e ∈ Spec.edges p.dims, Spec.dcE m e * Spec.dvE m e * h0 / 2 * (u e + ε * w e) ^ 2 := by
    funext ε
    have k := kinetic_pair h (fun _ => h0) (fun e => u e + ε * w e)
    calc _ = ∑ c ∈ Spec.cells p.dims, Spec.areaC m c * g / 2 * (x c + ε * a c) ^ 2 +
          ∑ c ∈ Spec.cells p.dims, Spec.areaC m c * (h0 *
            Spec.kinetic m (fun e => u e + ε * w e) c) := by
          rw [← Finset.sum_add_distrib]
          exact Finset.sum_congr rfl fun c _ => by ring
      _ = _ := by
          rw [k]
          congr 1
          exact Finset.sum_congr rfl fun c _ => by unfold Spec.mean; ring
  rw [e]
  have d1 := HasDerivAt.fun_sum (u := Spec.cells p.dims) fun c _ =>
    (deriv_sq (x c) (a c)).const_mul (Spec.areaC m c * g / 2)
  have d2 := HasDerivAt.fun_sum (u := Spec.edges p.dims) fun e _ =>
    (deriv_sq (u e) (w e)).const_mul (Spec.dcE m e * Spec.dvE m e * h0 / 2)
  refine (d1.add d2).congr_deriv ?_
  congr 1 <;> exact Finset.sum_congr rfl fun c _ => by ring

/-- Let `E ε` be the value of `energy_integral` of the linear model for the state displaced by `ε`
times the computed tendency.  Its derivative at zero is zero. -/
theorem C45_energy (hv : RunValid p) (hx : 2 ≤ p.nx) (hy : 2 ≤ p.ny) (hdc : 0 < dc)
    {prm : Params ℝ} (hr : Ready p dc prm m) {sw : LinModel ℝ} (h5 : sw.prm.disable_h = false)
    (h6 : sw.prm.disable_vn = false) {m1 : Mem ℝ}
    (he : Exec p.dims (lin_compute_tendency p.dims sw .replace .tend .state) m m1) {E : ℝ → ℝ}
    (hE : ∀ ε, ∃ mε : Mem ℝ, Static mε m ∧
      (∀ c k, 0 ≤ c → c < p.dims.ncells → 0 ≤ k → k < p.dims.nlayers →
        mε.real (.h_cell .state) 0 c k =
          m.real (.h_cell .state) 0 c k + ε * m1.real (.h_cell .tend) 0 c k) ∧
      (∀ e k, 0 ≤ e → e < p.dims.nedges → 0 ≤ k → k < p.dims.nlayers →
        mε.real (.vn_edge .state) 0 e k =
          m.real (.vn_edge .state) 0 e k + ε * m1.real (.vn_edge .tend) 0 e k) ∧
      IsLinEnergyIntegral p.dims sw .state mε (E ε)) : HasDerivAt E 0 0 := by
  obtain ⟨hd, hc⟩ := ready_ok hv hr
  have hg := Ready.geo2 hr hv.toValid hx hy hdc
  obtain ⟨t1, t2⟩ := C45_formula hd hc (by decide) he
  have hf := (hr.hex hv.toValid).2.2
  have eE : E = fun ε => ∑ k ∈ Spec.layers p.dims, ∑ c ∈ Spec.cells p.dims, Spec.areaC m c *
      (sw.prm.grav * (m.real (.h_cell .state) 0 c k +
        ε * -(sw.h0 * Spec.div m (fun i => m.real (.vn_edge .state) 0 i k) c)) ^ 2 / 2 +
      sw.h0 * Spec.kinetic m (fun e => m.real (.vn_edge .state) 0 e k + ε * (prm.f0 *
        Spec.tang m (fun i => m.real (.vn_edge .state) 0 i k) e -
          sw.prm.grav * Spec.grad m (fun i => m.real (.h_cell .state) 0 i k) e)) c) := by
    funext ε
    obtain ⟨mε, hs, g1, g2, g3⟩ := hE ε
    rw [(lin_energy_spec hv (hr.static hs) sw .state (E ε)).1 g3]
    refine Finset.sum_congr rfl fun k hk => Finset.sum_congr rfl fun c hc' => ?_
    have hk := Finset.mem_Ico.mp hk
    have hc' := Finset.mem_Ico.mp hc'
    have ek : Spec.kinetic mε (fun e => mε.real (.vn_edge .state) 0 e k) c =
        Spec.kinetic m (fun e => mε.real (.vn_edge .state) 0 e k) c := by
      simp only [Spec.kinetic, Spec.dcE, Spec.dvE, Spec.side, Spec.areaC, hs.int,
        hs.real .dc_edge rfl, hs.real .dv_edge rfl, hs.real .area_cell rfl]
    rw [ek, area_static hs, g1 c k hc'.1 hc'.2 hk.1 hk.2, t1 h5 c k hc'.1 hc'.2 hk.1 hk.2,
      kinetic_congr hc (v := fun e => m.real (.vn_edge .state) 0 e k + ε * (prm.f0 *
        Spec.tang m (fun i => m.real (.vn_edge .state) 0 i k) e -
          sw.prm.grav * Spec.grad m (fun i => m.real (.h_cell .state) 0 i k) e))
        (fun e a b => by
          rw [g2 e k a b hk.1 hk.2, t2 h6 e k a b hk.1 hk.2, hf e a b]) hc'.1 hc'.2]
  rw [eE]
  have D := HasDerivAt.fun_sum (u := Spec.layers p.dims) fun k _ =>
    lin_energy_deriv hg.toGeo sw.prm.grav sw.h0 (fun i => m.real (.h_cell .state) 0 i k)
      (fun c => -(sw.h0 * Spec.div m (fun i => m.real (.vn_edge .state) 0 i k) c))
      (fun i => m.real (.vn_edge .state) 0 i k)
      (fun e => prm.f0 * Spec.tang m (fun i => m.real (.vn_edge .state) 0 i k) e -
          sw.prm.grav * Spec.grad m (fun i => m.real (.h_cell .state) 0 i k) e)
  refine D.congr_deriv (Finset.sum_eq_zero fun k _ => ?_)
  have a := adjoint hg (fun i => m.real (.h_cell .state) 0 i k)
    (fun i => m.real (.vn_edge .state) 0 i k)
  have n := no_work hg.toGeo (fun _ => 1) (fun i => m.real (.vn_edge .state) 0 i k)
  have tg : ∀ e, Spec.pvFlux m (fun _ => 1) (fun i => m.real (.vn_edge .state) 0 i k) e =
      Spec.tang m (fun i => m.real (.vn_edge .state) 0 i k) e := fun e => by
    unfold Spec.pvFlux Spec.tang
    exact Finset.sum_congr rfl fun j _ => by ring
  simp only [tg] at n
  have s1 : ∑ c ∈ Spec.cells p.dims, Spec.areaC m c * (sw.prm.grav * m.real (.h_cell .state) 0 c k *
      -(sw.h0 * Spec.div m (fun i => m.real (.vn_edge .state) 0 i k) c)) =
      -(sw.prm.grav * sw.h0) * ∑ c ∈ Spec.cells p.dims, Spec.areaC m c * (m.real (.h_cell .state) 0 c k *
        Spec.div m (fun i => m.real (.vn_edge .state) 0 i k) c) := by
    rw [Finset.mul_sum]
    exact Finset.sum_congr rfl fun c _ => by ring
  have s2 : ∑ e ∈ Spec.edges p.dims, Spec.dcE m e * Spec.dvE m e * (sw.h0 *
      m.real (.vn_edge .state) 0 e k * (prm.f0 * Spec.tang m (fun i => m.real (.vn_edge .state) 0 i k) e -
          sw.prm.grav * Spec.grad m (fun i => m.real (.h_cell .state) 0 i k) e)) =
      sw.h0 * prm.f0 * ∑ e ∈ Spec.edges p.dims, Spec.dcE m e * Spec.dvE m e *
        (m.real (.vn_edge .state) 0 e k * Spec.tang m (fun i => m.real (.vn_edge .state) 0 i k) e) -
      sw.prm.grav * sw.h0 * ∑ e ∈ Spec.edges p.dims, Spec.dcE m e * Spec.dvE m e *
        (m.real (.vn_edge .state) 0 e k * Spec.grad m (fun i => m.real (.h_cell .state) 0 i k) e) := by
    rw [Finset.mul_sum, Finset.mul_sum, ← Finset.sum_sub_distrib]
    exact Finset.sum_congr rfl fun c _ => by ring
  rw [s1, s2, a, n]
  ring

/-- For every state there is such a family of displaced states; here with varying fields. -/
example (sw : LinModel ℝ) (prm : Params ℝ) :
    ∃ (m m1 : Mem ℝ) (E : ℝ → ℝ) (v : ℝ), Ready p46 (1 / 4) prm m ∧
      Exec p46.dims (lin_compute_tendency p46.dims sw .replace .tend .state) m m1 ∧
      IsHMassIntegral p46.dims .tend m1 v ∧
      (∀ ε, ∃ mε : Mem ℝ, Static mε m ∧
        (∀ c k, mε.real (.h_cell .state) 0 c k =
          m.real (.h_cell .state) 0 c k + ε * m1.real (.h_cell .tend) 0 c k) ∧
        (∀ e k, mε.real (.vn_edge .state) 0 e k =
          m.real (.vn_edge .state) 0 e k + ε * m1.real (.vn_edge .tend) 0 e k) ∧
        IsLinEnergyIntegral p46.dims sw .state mε (E ε)) ∧
      m.real (.h_cell .state) 0 5 2 = 6 ∧ m.real (.vn_edge .state) 0 7 2 = 49 := by
  obtain ⟨m, hr, hx, -⟩ := exists_ready p46_run.toValid (1 / 4 : ℝ) prm
    ⟨fun c _ => 1 + c, fun e _ => e * e, fun l c k => l + c + k⟩ zeroFld
  obtain ⟨hd, hc⟩ := ready_ok p46_run hr
  obtain ⟨m1, r, ag, -⟩ := lin_compute_tendency_runs hd hc sw .replace (st := .state) (tn := .tend)
    (by decide)
  have hs : Static m1 m := ag.mono fun b h => by
    cases b <;> first | rfl | simp [linSet, only] at h
  let y : ℝ → Fld ℝ := fun ε => (m.fld .state).axpy ε (m1.fld .tend)
  have key : ∀ ε, ∃ v, IsLinEnergyIntegral p46.dims sw .state (setFld m .state (y ε)) v :=
    fun ε => ⟨_, (lin_energy_spec p46_run (hr.static (setFld_static _ _ _)) sw .state _).2 rfl⟩
  choose E hE using key
  refine ⟨m, m1, E, _, hr, r.exec, (h_mass_spec p46_run.toValid (hr.static hs) .tend _).2 rfl,
    fun ε => ⟨_, setFld_static _ _ _, fun c k => ?_, fun c k => ?_, hE ε⟩, ?_, ?_⟩
  · exact congrFun (congrFun (congrArg Fld.h (setFld_fld m .state (y ε))) c) k
  · exact congrFun (congrFun (congrArg Fld.vn (setFld_fld m .state (y ε))) c) k
  · exact (congrFun (congrFun (congrArg Fld.h hx) 5) 2).trans (by norm_num)
  · exact (congrFun (congrFun (congrArg Fld.vn hx) 7) 2).trans (by norm_num)

end Props
end
end Omega
