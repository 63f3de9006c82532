import Verif.Props.SimdConservation
import Verif.Props.MeanVelocity

/-!
# C122: vorticity in the explicit-SIMD build

The hyperviscosity of this build diffuses the vorticity of the first layer of each vector (C28), and adds the result to
all layers of the vector.
-/

set_option linter.unusedVariables false
set_option linter.unusedSectionVars false

namespace Omega
noncomputable section
namespace Props

open Prog Model Refine Hex

variable {p : MeshParams} {dc : ℝ} {m : Mem ℝ}

theorem first_layer (hv : RunValid p) {k : Int} (k0 : 0 ≤ k) :
    0 ≤ k / p.dims.vl * p.dims.vl ∧ k / p.dims.vl * p.dims.vl ≤ k := by
  have hvl : 0 < p.dims.vl := hv.toValid.vl_pos
  exact ⟨mul_nonneg (Int.ediv_nonneg k0 hvl.le) hvl.le, Int.ediv_mul_le k hvl.ne'⟩

/-- one layer: curl of the velocity tendency of the explicit-SIMD build -/
theorem simd_curl_tend (h : Geo2 p.nx p.ny p.dims.nlayers dc m.mesh) (hc : ConnOK p.dims m) (hny : p.ny % 2 = 0)
    (sw : SWModel ℝ) {k : Int} (k0 : 0 ≤ k) (k1 : k < p.dims.nlayers) (vl : Int) (x : Int → ℝ) (u : Int → Int → ℝ)
    {v : Int} (v0 : 0 ≤ v) (v1 : v < p.dims.nvertices) :
    Spec.curl m (Spec.simdVelocityTend m sw vl k x u) v =
      Spec.vorticityTend m { sw with en_vhyper := false } (Spec.vmean m (Spec.pv m x (u k)))
        (fun e => Spec.mean m x e * u k e) (Spec.curl m (u k)) v -
      (if sw.en_vhyper then sw.prm.visc_del4 * Spec.vertLap m (Spec.vertLap m (Spec.curl m (u (k / vl * vl)))) v
        else 0) := by
  have hw : ∀ e, 0 ≤ e → e < p.dims.nedges → Spec.simdVelocityTend m sw vl k x u e =
      1 * Spec.velocityTend m { sw with en_vhyper := false } k x (u k) e +
      (-(if sw.en_vhyper then sw.prm.visc_del4 else 0)) * (1 * Spec.grad m (Spec.div m (Spec.vecLap m (u k))) e +
        (-1) * Spec.gradT m (Spec.curl m (Spec.vecLap m (u (k / vl * vl)))) e) := by
    intro e e0 e1
    obtain ⟨q1, q2, q3⟩ := mask_one h.toGeo e0 e1 k0 k1
    unfold Spec.simdVelocityTend
    rw [q1, q3]
    split_ifs <;> ring
  rw [curl_congr hc hw v0 v1, curl_lin, curl_lin, curl_grad h.toGeo hny _ v0 v1, curl_gradT,
    vertLap_congr hc (fun v a b => curl_vecLap h hc hny _ a b) v0 v1, curl_tend h hc hny _ k0 k1 _ _ v0 v1]
  split_ifs <;> ring

/-- the stored velocity tendency of the explicit-SIMD build -/
theorem simd_stored {d : Dims} (hd : DimsOK d) (hc : ConnOK d m) {sw : SWModel ℝ} (hn : sw.NoHook)
    (h6 : sw.prm.disable_vn = false) {split : Bool} {t : ℝ} {m1 : Mem ℝ}
    (he : Exec d (compute_tendency d ⟨simdKernels d.vl d.vl, split⟩ sw .replace .tend .state t) m m1)
    {e k : Int} (e0 : 0 ≤ e) (e1 : e < d.nedges) (k0 : 0 ≤ k) (k1 : k < d.nlayers) :
    m1.real (.vn_edge .tend) 0 e k = Spec.simdVelocityTend m sw d.vl k (fun i => m.real (.h_cell .state) 0 i k)
      (fun k i => m.real (.vn_edge .state) 0 i k) e := by
  obtain ⟨-, a⟩ := (simdSetup hd hc (hookOK_noHook hn d m)).tendency (by decide) he
  have b := a.vn e k e0 e1 k0 k1
  rw [(simd_tend_val (m := m) _ _ _ _ _ _).2.1, if_neg (by simp [h6]), if_pos rfl, zero_add] at b
  exact b

/-- The vorticity equation of the explicit-SIMD build: that of the default build without hyperviscosity (C99), minus the
coefficient times the second Laplacian of the vorticity of the first layer of the vector. -/
theorem C122_simd_vorticity (hv : RunValid p) (hx : 2 ≤ p.nx) (hny : p.ny % 2 = 0) (hdc : 0 < dc)
    {prm : Params ℝ} (hr : Ready p dc prm m) {sw : SWModel ℝ} (hn : sw.NoHook) (h6 : sw.prm.disable_vn = false)
    {split : Bool} {t : ℝ} {m1 : Mem ℝ}
    (he : Exec p.dims (compute_tendency p.dims ⟨simdKernels p.dims.vl p.dims.vl, split⟩ sw .replace .tend .state t) m
      m1) {k : Int} (k0 : 0 ≤ k) (k1 : k < p.dims.nlayers) {v : Int} (v0 : 0 ≤ v) (v1 : v < p.dims.nvertices) :
    Spec.curl m (fun e => m1.real (.vn_edge .tend) 0 e k) v =
      Spec.vorticityTend m { sw with en_vhyper := false }
        (Spec.vmean m (Spec.pv m (fun i => m.real (.h_cell .state) 0 i k) fun e => m.real (.vn_edge .state) 0 e k))
        (fun e => Spec.mean m (fun i => m.real (.h_cell .state) 0 i k) e * m.real (.vn_edge .state) 0 e k)
        (Spec.curl m fun e => m.real (.vn_edge .state) 0 e k) v -
      (if sw.en_vhyper then sw.prm.visc_del4 * Spec.vertLap m (Spec.vertLap m
        (Spec.curl m fun e => m.real (.vn_edge .state) 0 e (k / p.dims.vl * p.dims.vl))) v else 0) := by
  obtain ⟨hd, hc⟩ := ready_ok hv hr
  have hy2 : 2 ≤ p.ny := by have := hv.toValid.ny_pos; omega
  rw [curl_congr hc (fun e a b => simd_stored hd hc hn h6 he a b k0 k1) v0 v1]
  exact simd_curl_tend (Ready.geo2 hr hv.toValid hx hy2 hdc) hc hny sw k0 k1 _ _ _ v0 v1

/-- So hyperviscosity changes the vorticity tendency of all layers of a vector by the same field: it has no effect on
the differences of vorticity between these layers, however strong it is and however rough they are. -/
theorem C122_simd_differences_undamped (hv : RunValid p) (hx : 2 ≤ p.nx) (hny : p.ny % 2 = 0) (hdc : 0 < dc)
    {prm : Params ℝ} (hr : Ready p dc prm m) {sw : SWModel ℝ} (hn : sw.NoHook) (h6 : sw.prm.disable_vn = false)
    {split split' : Bool} {t t' : ℝ} {m1 m1' : Mem ℝ}
    (he : Exec p.dims (compute_tendency p.dims ⟨simdKernels p.dims.vl p.dims.vl, split⟩ sw .replace .tend .state t) m
      m1)
    (he' : Exec p.dims (compute_tendency p.dims ⟨simdKernels p.dims.vl p.dims.vl, split'⟩
      { sw with en_vhyper := false } .replace .tend .state t') m m1')
    {k k' : Int} (k0 : 0 ≤ k) (k1 : k < p.dims.nlayers) (k0' : 0 ≤ k') (k1' : k' < p.dims.nlayers)
    (same : k / p.dims.vl = k' / p.dims.vl) {v : Int} (v0 : 0 ≤ v) (v1 : v < p.dims.nvertices) :
    Spec.curl m (fun e => m1.real (.vn_edge .tend) 0 e k) v - Spec.curl m (fun e => m1.real (.vn_edge .tend) 0 e k') v =
      Spec.curl m (fun e => m1'.real (.vn_edge .tend) 0 e k) v -
        Spec.curl m (fun e => m1'.real (.vn_edge .tend) 0 e k') v := by
  rw [C122_simd_vorticity hv hx hny hdc hr hn h6 he k0 k1 v0 v1,
    C122_simd_vorticity hv hx hny hdc hr hn h6 he k0' k1' v0 v1,
    C122_simd_vorticity hv hx hny hdc hr (sw := { sw with en_vhyper := false }) hn h6 he' k0 k1 v0 v1,
    C122_simd_vorticity hv hx hny hdc hr (sw := { sw with en_vhyper := false }) hn h6 he' k0' k1' v0 v1, same]
  simp only [Bool.false_eq_true, if_false]
  ring

/-- A layer at rest with uniform thickness is set in motion by the first layer of its vector, on every mesh with an even
number of rows and with every non-zero coefficient. -/
theorem C122_simd_moves_rest (hv : RunValid p) (hny : p.ny % 2 = 0) (hvl : 2 ≤ p.vl)
    (hL : 1 ≤ p.nlayers) (hdc : 0 < dc) (prm : Params ℝ) {sw : SWModel ℝ} (hn : sw.NoHook)
    (hen : sw.en_vhyper = true) (hdis : sw.prm.disable_vn = false) (hvisc : sw.prm.visc_del4 ≠ 0)
    (split : Bool) (t : ℝ) :
    ∃ m m1 : Mem ℝ, Ready p dc prm m ∧ (∀ c k, m.real (.h_cell .state) 0 c k = 1) ∧
      (∀ e, m.real (.vn_edge .state) 0 e 1 = 0) ∧
      Exec p.dims (compute_tendency p.dims ⟨simdKernels p.dims.vl p.dims.vl, split⟩ sw .replace
        .tend .state t) m m1 ∧
      ∃ e, 0 ≤ e ∧ e < p.dims.nedges ∧ m1.real (.vn_edge .tend) 0 e 1 ≠ 0 := by
  obtain ⟨m, m1, m1', hr, hx, he, he'⟩ := simd_execs hv dc prm hn split split t
    ⟨fun _ _ => 1, fun e k => if k = 0 then stripe e else 0, fun _ _ _ => 0⟩
  have hh : ∀ c k, m.real (.h_cell .state) 0 c k = 1 := fun c k => congrFun (congrFun (congrArg Fld.h hx) c) k
  have hu : ∀ e k, m.real (.vn_edge .state) 0 e k = if k = 0 then stripe e else 0 := fun e k =>
    congrFun (congrFun (congrArg Fld.vn hx) e) k
  refine ⟨m, m1', hr, hh, fun e => by rw [hu]; simp, he', ?_⟩
  by_contra hcon
  push Not at hcon
  obtain ⟨hd, hc⟩ := ready_ok hv hr
  have l2 := two_le_layers hvl hL
  have e1 : (1 : Int) / p.dims.vl * p.dims.vl = 0 := by
    rw [show p.dims.vl = p.vl from rfl, Int.ediv_eq_zero_of_lt (by omega) (by omega), zero_mul]
  obtain ⟨-, t2, -⟩ := C51_tendency_formula hd hc hn (by decide) he
  have := (C28_simd_agrees_iff hv hny hdc hr hn hen hdis hvisc he he' (k := 1) (by omega) l2).mp (fun e a b => by
    rw [hcon e a b, t2 hdis e 1 a b (by omega) l2]
    simp only [hh, hu, one_ne_zero, if_false]
    exact ((rest_tend (m := m) sw 1 0 1).2.1 e).symm) 0 le_rfl (nvertices_pos hv)
  simp only [hu, e1, if_true, one_ne_zero, if_false] at this
  refine stripe_curl hv (Ready.geo hr hv.toValid hdc) (this.symm.trans ?_)
  simp [Spec.curl]

/-- as in the default build, only the vorticity flux changes the mean velocity -/
theorem simd_totalVel_tend (h : Geo2 p.nx p.ny p.dims.nlayers dc m.mesh)
    (ang : ∀ e, 0 ≤ e → e < p.dims.nedges → m.real .angle_edge 0 e 0 = angE e) (sw : SWModel ℝ) {k : Int}
    (k0 : 0 ≤ k) (k1 : k < p.dims.nlayers) (vl : Int) (x : Int → ℝ) (u : Int → Int → ℝ) :
    Spec.totalVel p.dims m (Spec.simdVelocityTend m sw vl k x u) =
      Spec.totalVel p.dims m (Spec.velocityTend m { sw with en_vhyper := false } k x (u k)) := by
  have hw : ∀ e, 0 ≤ e → e < p.dims.nedges → Spec.simdVelocityTend m sw vl k x u e =
      Spec.velocityTend m { sw with en_vhyper := false } k x (u k) e +
      ((-(if sw.en_vhyper then sw.prm.visc_del4 else 0)) * Spec.grad m (Spec.div m (Spec.vecLap m (u k))) e +
        (if sw.en_vhyper then sw.prm.visc_del4 else 0) *
          Spec.gradT m (Spec.curl m (Spec.vecLap m (u (k / vl * vl)))) e) := by
    intro e e0 e1
    obtain ⟨q1, q2, q3⟩ := mask_one h.toGeo e0 e1 k0 k1
    unfold Spec.simdVelocityTend
    rw [q1, q3]
    split_ifs <;> ring
  rw [totalVel_congr hw, totalVel_add, totalVel_add, totalVel_mul, totalVel_mul, totalVel_grad h ang,
    totalVel_gradT h ang]
  ring

/-- the explicit-SIMD build and the default build change the mean velocity equally (C121), with hyperviscosity too -/
theorem C122_simd_mean_velocity (hv : RunValid p) (hx : 2 ≤ p.nx) (hy : 2 ≤ p.ny) (hdc : 0 < dc)
    {prm : Params ℝ} (hr : Ready p dc prm m) {sw : SWModel ℝ} (hn : sw.NoHook) (h6 : sw.prm.disable_vn = false)
    {split split' : Bool} {t t' : ℝ} {m1 m1' : Mem ℝ}
    (he : Exec p.dims (compute_tendency p.dims ⟨simdKernels p.dims.vl p.dims.vl, split⟩ sw .replace .tend .state t) m
      m1)
    (he' : Exec p.dims (compute_tendency p.dims ⟨defaultKernels p.dims.vl, split'⟩ sw .replace .tend .state t') m m1')
    {k : Int} (k0 : 0 ≤ k) (k1 : k < p.dims.nlayers) :
    Spec.totalVel p.dims m (fun e => m1.real (.vn_edge .tend) 0 e k) =
      Spec.totalVel p.dims m (fun e => m1'.real (.vn_edge .tend) 0 e k) := by
  obtain ⟨hd, hc⟩ := ready_ok hv hr
  have g := Ready.geo2 hr hv.toValid hx hy hdc
  have ang := (hr.hex hv.toValid).1.angle_edge
  obtain ⟨-, t2, -⟩ := C51_tendency_formula hd hc hn (by decide) he'
  rw [totalVel_congr (fun e a b => simd_stored hd hc hn h6 he a b k0 k1),
    totalVel_congr (fun e a b => t2 h6 e k a b k0 k1), simd_totalVel_tend g ang sw k0 k1,
    totalVel_tend g ang _ k0 k1, totalVel_tend g ang sw k0 k1]

theorem simd_guarded_irrotational (hv : RunValid p) (h : Geo2 p.nx p.ny p.dims.nlayers dc m.mesh)
    (hc : ConnOK p.dims m) (hny : p.ny % 2 = 0)
    (hf : ∀ v, 0 ≤ v → v < p.dims.nvertices → m.real .f_vertex 0 v 0 = 0) (sw : SWModel ℝ) :
    Guarded (simdSys p.dims sw noHook m)
      (fun x => ∀ k, 0 ≤ k → k < p.dims.nlayers → ∀ v, 0 ≤ v → v < p.dims.nvertices →
        Spec.kiteMean m (fun c => x.h c k) v ≠ 0)
      (fun x => ∀ k, 0 ≤ k → k < p.dims.nlayers → ∀ v, 0 ≤ v → v < p.dims.nvertices →
        Spec.curl m (fun e => x.vn e k) v = 0)
      (fun x => ∀ k, 0 ≤ k → k < p.dims.nlayers → ∀ v, 0 ≤ v → v < p.dims.nvertices →
        Spec.curl m (fun e => x.vn e k) v = 0) where
  tend := by
    intro mode t o s hN ho hs k k0 k1 v v0 v1
    obtain ⟨-, tu, -⟩ := simd_tend_val (m := m) p.dims sw mode t o s
    obtain ⟨f0, f1⟩ := first_layer hv k0
    have key : Spec.curl m (Spec.simdVelocityTend m sw p.dims.vl k (fun i => s.h i k) fun k i => s.vn i k) v = 0 := by
      rw [simd_curl_tend h hc hny sw k0 k1 _ _ _ v0 v1, ← curl_tend h hc hny _ k0 k1 _ _ v0 v1,
        curl_tend_zero h hc hny hf _ k0 k1 (hN k k0 k1) (hs k k0 k1) v0 v1,
        vertLap_zero hc (fun v a b => vertLap_zero hc (hs _ f0 (by omega)) a b) v0 v1]
      simp
    simp only [tu]
    rw [show (fun c => if sw.prm.disable_vn = true then o.vn c k
        else (if mode = .replace then 0 else o.vn c k) + Spec.simdVelocityTend m sw p.dims.vl k (fun i => s.h i k)
          (fun k i => s.vn i k) c) =
          fun c => (if mode = .replace ∧ sw.prm.disable_vn = false then 0 else 1) * o.vn c k +
          (if sw.prm.disable_vn = true then 0 else 1) *
            Spec.simdVelocityTend m sw p.dims.vl k (fun i => s.h i k) (fun k i => s.vn i k) c by
        funext c; cases mode <;> cases sw.prm.disable_vn <;> simp, curl_lin, key, ho k k0 k1 v v0 v1]
    ring
  map := by
    intro x a hx k k0 k1
    exact (guarded_irrotational h hc hny hf sw k0 k1).map a (hx k k0 k1)
  axpy := by
    intro x y a hx hy k k0 k1
    exact (guarded_irrotational h hc hny hf sw k0 k1).axpy a (hx k k0 k1) (hy k k0 k1)

/-- Without rotation, if all layers are irrotational, they stay so in any run of the explicit-SIMD build. -/
theorem C122_simd_irrotational_run (hv : RunValid p) (hx : 2 ≤ p.nx)
    (hny : p.ny % 2 = 0) (hdc : 0 < dc) {prm : Params ℝ} (hf : prm.f0 = 0) (hr : Ready p dc prm m)
    {sw : SWModel ℝ} (hn : sw.NoHook)
    {stp : Stepper} {sched : List (ℝ × ℝ)} {split : Bool} {m1 : Mem ℝ}
    (he : Exec p.dims (stp.ctor p.dims ++
      stp.run p.dims ⟨simdKernels p.dims.vl p.dims.vl, split⟩ sw sched) m m1)
    (hN : ∀ st m', CallsAt p.dims ⟨simdKernels p.dims.vl p.dims.vl, split⟩ sw stp sched m st m' →
      ∀ k, 0 ≤ k → k < p.dims.nlayers → ∀ v, 0 ≤ v → v < p.dims.nvertices →
        Spec.kiteMean m (fun c => m'.real (.h_cell st) 0 c k) v ≠ 0)
    (hu : ∀ k, 0 ≤ k → k < p.dims.nlayers → ∀ v, 0 ≤ v → v < p.dims.nvertices →
      Spec.curl m (fun e => m.real (.vn_edge .state) 0 e k) v = 0) :
    ∀ k, 0 ≤ k → k < p.dims.nlayers → ∀ v, 0 ≤ v → v < p.dims.nvertices →
      Spec.curl m (fun e => m1.real (.vn_edge .state) 0 e k) v = 0 := by
  obtain ⟨hd, hc⟩ := ready_ok hv hr
  have hy2 : 2 ≤ p.ny := by have := hv.toValid.ny_pos; omega
  have hS := simdSetup hd hc (hookOK_noHook hn p.dims m)
  obtain ⟨x, e, hx⟩ := hS.newRun_inv
    (simd_guarded_irrotational hv (Ready.geo2 hr hv.toValid hx hy2 hdc) hc hny
      (fun v a b => by rw [(hr.hex hv.toValid).2.1 v a b, hf]) sw) he
    (fun x y exy hx k k0 k1 v v0 v1 => by
      rw [kiteMean_congr hc (v := fun c => x.h c k) (fun c a b => (exy.h c k a b k0 k1).symm) v0 v1]
      exact hx k k0 k1 v v0 v1)
    hN (fun k _ _ v _ _ => by simp [zeroFld, Spec.curl]) hu
  intro k k0 k1 v v0 v1
  rw [← hx k k0 k1 v v0 v1]
  exact curl_congr hc (fun i a b => e.vn i k a b k0 k1) v0 v1

/-- executions for the first theorems: different flows in the two layers of a vector, with hyperviscosity -/
example : ∃ (prm : Params ℝ) (m m1 m1' m2 : Mem ℝ), Ready p46 (1 / 4) prm m ∧ (SWModel.ofParams prm).en_vhyper = true ∧
    (SWModel.ofParams prm).prm.disable_vn = false ∧
    Exec p46.dims (compute_tendency p46.dims ⟨simdKernels p46.dims.vl p46.dims.vl, false⟩ (SWModel.ofParams prm)
      .replace .tend .state 0) m m1 ∧
    Exec p46.dims (compute_tendency p46.dims ⟨simdKernels p46.dims.vl p46.dims.vl, true⟩
      { SWModel.ofParams prm with en_vhyper := false } .replace .tend .state 0) m m1' ∧
    Exec p46.dims (compute_tendency p46.dims ⟨defaultKernels p46.dims.vl, false⟩ (SWModel.ofParams prm)
      .replace .tend .state 0) m m2 ∧
    (0 : Int) / p46.dims.vl = 1 / p46.dims.vl ∧ 1 < p46.dims.nlayers ∧
    m.real (.vn_edge .state) 0 3 0 = 3 ∧ m.real (.vn_edge .state) 0 3 1 = 9 := by
  obtain ⟨prm, hp⟩ : ∃ q : Params ℝ, q = ⟨1, 10, 0, 1 / 100, 0, 0, false, false⟩ := ⟨_, rfl⟩
  obtain ⟨m, m2, m1, hr, hx, he, he'⟩ := simd_execs p46_run (1 / 4) prm (noHook_ofParams prm) false false 0
    ⟨fun c _ => 2 + c, fun e k => if k = 0 then e else e * e, fun _ _ _ => 0⟩
  obtain ⟨hd, hc⟩ := ready_ok p46_run hr
  obtain ⟨m1', h'⟩ := (C54_simd_safe_deterministic hd hc (sw := { SWModel.ofParams prm with en_vhyper := false })
    (noHook_ofParams prm)).1 .replace .tend .state 0 (by decide)
  refine ⟨prm, m, m1, m1', m2, hr, ?_, by show prm.disable_vn = false; rw [hp], he', ((h' true).2 m1').mpr rfl, he,
    by decide, by rw [p46_layers]; norm_num, (congrFun (congrFun (congrArg Fld.vn hx) 3) 0).trans (by norm_num),
    (congrFun (congrFun (congrArg Fld.vn hx) 3) 1).trans (by norm_num)⟩
  show decide ((lit 0 : ℝ) < prm.visc_del4) = true
  rw [hp]; simp

/-- the layer at rest is moved on a mesh with 24 cells and vectors of two layers -/
example (prm : Params ℝ) (h : prm.disable_vn = false) (h4 : prm.visc_del4 ≠ 0) :
    ∃ m m1 : Mem ℝ, Ready p46 (1 / 4) prm m ∧ (∀ c k, m.real (.h_cell .state) 0 c k = 1) ∧
      (∀ e, m.real (.vn_edge .state) 0 e 1 = 0) ∧
      Exec p46.dims (compute_tendency p46.dims ⟨simdKernels p46.dims.vl p46.dims.vl, false⟩
        { SWModel.ofParams prm with en_vhyper := true } .replace .tend .state 0) m m1 ∧
      ∃ e, 0 ≤ e ∧ e < p46.dims.nedges ∧ m1.real (.vn_edge .tend) 0 e 1 ≠ 0 :=
  C122_simd_moves_rest p46_run (by decide) (by decide) (by decide) (by norm_num) prm
    (sw := { SWModel.ofParams prm with en_vhyper := true }) (noHook_ofParams prm) rfl h h4 false 0

/-- uniform flows, a different one in each layer, over varying thickness -/
example (prm : Params ℝ) (hf : prm.f0 = 0) : ∃ m m1 : Mem ℝ, Ready p46 (1 / 4) prm m ∧
    Exec p46.dims ((Stepper.lsrk 1).ctor p46.dims ++ (Stepper.lsrk 1).run p46.dims
      ⟨simdKernels p46.dims.vl p46.dims.vl, false⟩ (SWModel.ofParams prm) [(0, 1)]) m m1 ∧
    (∀ st m', CallsAt p46.dims ⟨simdKernels p46.dims.vl p46.dims.vl, false⟩ (SWModel.ofParams prm)
      (.lsrk 1) [(0, 1)] m st m' → ∀ k, 0 ≤ k → k < p46.dims.nlayers → ∀ v, 0 ≤ v → v < p46.dims.nvertices →
        Spec.kiteMean m (fun c => m'.real (.h_cell st) 0 c k) v ≠ 0) ∧
    (∀ k, 0 ≤ k → k < p46.dims.nlayers → ∀ v, 0 ≤ v → v < p46.dims.nvertices →
      Spec.curl m (fun e => m.real (.vn_edge .state) 0 e k) v = 0) ∧
    m.real (.vn_edge .state) 0 0 1 = 2 ∧ m.real (.h_cell .state) 0 3 0 = 10 := by
  obtain ⟨m, hr, hx, -⟩ := exists_ready p46_run.toValid (1 / 4 : ℝ) prm
    ⟨fun c _ => 1 + (c : ℝ) ^ 2, fun e k => (1 + k) * Real.cos (angE e), fun l c k => (l + k) * (1 + c)⟩ zeroFld
  obtain ⟨hd, hc⟩ := ready_ok p46_run hr
  obtain ⟨m1, h1⟩ := (C54_simd_safe_deterministic hd hc (noHook_ofParams prm)).2 (.lsrk 1) [(0, 1)]
  have g := Ready.geo2 hr p46_run.toValid (by decide) (by decide) (by norm_num)
  have hu : ∀ e k, m.real (.vn_edge .state) 0 e k = (1 + k) * Real.cos (angE e) := fun e k =>
    congrFun (congrFun (congrArg Fld.vn hx) e) k
  refine ⟨m, m1, hr, ((h1 false).2 m1).mpr rfl, fun st m' hca k k0 k1 v v0 v1 => ?_, fun k k0 k1 => ?_, ?_, ?_⟩
  · obtain ⟨rfl, hs⟩ := callsAt_euler hca
    rw [hx] at hs
    rw [show (fun c => m'.real (.h_cell .state) 0 c k) = fun c : Int => 1 + (c : ℝ) ^ 2 from
      funext fun c => congrFun (congrFun (congrArg Fld.h hs) c) k, spec_kiteMean g.toGeo _ v0 v1]
    simp only [Mv]
    positivity
  · refine (harmonic_of_uniform g (hr.hex p46_run.toValid).1.angle_edge (a := 1 + k) (b := 0) fun e a b => ?_).2
    rw [hu, (hr.hex p46_run.toValid).1.angle_edge e a b]
    ring
  · rw [hu]; simp [angE]; norm_num
  · exact (congrFun (congrFun (congrArg Fld.h hx) 3) 0).trans (by norm_num)

end Props
end
end Omega
