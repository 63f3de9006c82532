import Verif.Props.Vorticity
import Verif.Props.Dissipation

/-!
# C99: the discrete vorticity equation; irrotational flow stays irrotational

Taking the circulation around a triangle removes from the velocity tendency everything that is a
gradient: gravity, kinetic energy and the divergence part of both viscosities.  What is left is the
flux of potential vorticity and the diffusion of vorticity itself.  Without rotation of the frame an
irrotational flow therefore stays irrotational in every run, with any viscosity.
-/

set_option linter.unusedVariables false
set_option linter.unusedSectionVars false

namespace Omega
noncomputable section

namespace Spec

open Model Finset

/-- Laplacian of a vertex field: the circulation, per unit area and with the opposite sign, of its
tangential derivatives -/
def vertLap (m : Mem ℝ) (ζ : Int → ℝ) (v : Int) : ℝ :=
  -(∑ j ∈ Ico (0 : Int) 3, m.real .edge_sign_on_vertex 0 v j * dcE m (spoke m v j) *
    ((ζ (vertOf m (spoke m v j) 1) - ζ (vertOf m (spoke m v j) 0)) / dvE m (spoke m v j))) /
    areaT m v

/-- The right hand side of the vorticity equation of one layer with potential vorticity at edges `q`,
mass flux `F` and vorticity `ζ`: the circulation of the vorticity flux, and diffusion. -/
def vorticityTend (m : Mem ℝ) (sw : SWModel ℝ) (q F ζ : Int → ℝ) (v : Int) : ℝ :=
  (if sw.en_pv then (∑ j ∈ Ico (0 : Int) 3, m.real .edge_sign_on_vertex 0 v j *
    dcE m (spoke m v j) * pvFlux m q F (spoke m v j)) / areaT m v else 0) +
  (if sw.en_vdiff then sw.prm.visc_del2 * vertLap m ζ v else 0) -
  (if sw.en_vhyper then sw.prm.visc_del4 * vertLap m (vertLap m ζ) v else 0)

end Spec

namespace Props

open Prog Model Refine Hex

variable {p : MeshParams} {dc : ℝ} {m : Mem ℝ}

theorem curl_gradT (ζ : Int → ℝ) (v : Int) :
    Spec.curl m (Spec.gradT m ζ) v = -Spec.vertLap m ζ v := by
  unfold Spec.vertLap Spec.curl Spec.gradT; ring

theorem vertLap_congr {d : Dims} (hc : ConnOK d m) {ζ ξ : Int → ℝ}
    (h : ∀ v, 0 ≤ v → v < d.nvertices → ζ v = ξ v) {i : Int} (h0 : 0 ≤ i) (h1 : i < d.nvertices) :
    Spec.vertLap m ζ i = Spec.vertLap m ξ i := by
  have : Spec.curl m (Spec.gradT m ζ) i = Spec.curl m (Spec.gradT m ξ) i :=
    curl_congr hc (fun e e0 e1 => by
      obtain ⟨a, b⟩ := hc.voe e e0 e1 0 (by omega) (by omega)
      obtain ⟨a', b'⟩ := hc.voe e e0 e1 1 (by omega) (by omega)
      unfold Spec.gradT
      rw [h _ a b, h _ a' b']) h0 h1
  rw [curl_gradT, curl_gradT] at this
  linarith

theorem vertLap_zero {d : Dims} (hc : ConnOK d m) {ζ : Int → ℝ}
    (h : ∀ v, 0 ≤ v → v < d.nvertices → ζ v = 0) {i : Int} (h0 : 0 ≤ i) (h1 : i < d.nvertices) :
    Spec.vertLap m ζ i = 0 := by
  rw [vertLap_congr hc (ξ := fun _ => 0) h h0 h1]
  simp [Spec.vertLap]

/-- the vorticity of the vector Laplacian is the Laplacian of the vorticity -/
theorem curl_vecLap (h : Geo2 p.nx p.ny p.dims.nlayers dc m.mesh) (hc : ConnOK p.dims m)
    (hny : p.ny % 2 = 0) (u : Int → ℝ) {v : Int} (v0 : 0 ≤ v) (v1 : v < p.dims.nvertices) :
    Spec.curl m (Spec.vecLap m u) v = Spec.vertLap m (Spec.curl m u) v := by
  rw [curl_congr hc (v := fun e => 1 * Spec.grad m (Spec.div m u) e +
      (-1) * Spec.gradT m (Spec.curl m u) e)
    (fun e a b => by rw [vecLap_eq h.toGeo u a b]; ring) v0 v1, curl_lin,
    curl_grad h.toGeo hny _ v0 v1, curl_gradT]
  ring

/-- one layer: curl of the velocity tendency -/
theorem curl_tend (h : Geo2 p.nx p.ny p.dims.nlayers dc m.mesh) (hc : ConnOK p.dims m)
    (hny : p.ny % 2 = 0) (sw : SWModel ℝ) {k : Int} (k0 : 0 ≤ k) (k1 : k < p.dims.nlayers)
    (x u : Int → ℝ) {v : Int} (v0 : 0 ≤ v) (v1 : v < p.dims.nvertices) :
    Spec.curl m (Spec.velocityTend m sw k x u) v =
      Spec.vorticityTend m sw (Spec.vmean m (Spec.pv m x u)) (fun e => Spec.mean m x e * u e)
        (Spec.curl m u) v := by
  have hw : ∀ e, 0 ≤ e → e < p.dims.nedges → Spec.velocityTend m sw k x u e =
      1 * ((if sw.en_pv = true then (1 : ℝ) else 0) * Spec.pvFlux m (Spec.vmean m (Spec.pv m x u))
          (fun e => Spec.mean m x e * u e) e +
        (-1) * Spec.grad m (fun i => (if sw.en_ssh = true then sw.prm.grav else 0) * x i +
          (if sw.en_ke = true then 1 else 0) * Spec.kinetic m u i -
          (if sw.en_vdiff = true then sw.prm.visc_del2 else 0) * Spec.div m u i +
          (if sw.en_vhyper = true then sw.prm.visc_del4 else 0) *
            Spec.div m (Spec.vecLap m u) i) e) +
      1 * ((-(if sw.en_vdiff = true then sw.prm.visc_del2 else 0)) *
          Spec.gradT m (Spec.curl m u) e +
        (if sw.en_vhyper = true then sw.prm.visc_del4 else 0) *
          Spec.gradT m (Spec.curl m (Spec.vecLap m u)) e) := by
    intro e e0 e1
    obtain ⟨q1, q2, q3⟩ := mask_one h.toGeo e0 e1 k0 k1
    unfold Spec.velocityTend
    rw [q1, q2, q3]
    simp only [Spec.grad]
    split_ifs <;> ring
  have hl : Spec.curl m (Spec.gradT m (Spec.curl m (Spec.vecLap m u))) v =
      -Spec.vertLap m (Spec.vertLap m (Spec.curl m u)) v := by
    rw [curl_gradT, vertLap_congr hc (fun v a b => curl_vecLap h hc hny u a b) v0 v1]
  rw [curl_congr hc hw v0 v1, curl_lin, curl_lin, curl_lin, curl_grad h.toGeo hny _ v0 v1, hl,
    curl_gradT]
  unfold Spec.vorticityTend
  simp only [Spec.curl]
  split_ifs <;> ring

/-- The discrete vorticity equation.  The circulation around any triangle of the velocity tendencies
that `compute_tendency` stores is the circulation of the potential vorticity flux plus the diffusion
of vorticity; pressure, kinetic energy and the divergence do not enter. -/
theorem C99_vorticity_equation (hv : RunValid p) (hx : 2 ≤ p.nx) (hy : 2 ≤ p.ny)
    (hny : p.ny % 2 = 0) (hdc : 0 < dc) {prm : Params ℝ} (hr : Ready p dc prm m) {sw : SWModel ℝ}
    (hn : sw.NoHook) (h6 : sw.prm.disable_vn = false) {split : Bool} {t : ℝ} {m1 : Mem ℝ}
    (he : Exec p.dims (compute_tendency p.dims ⟨defaultKernels p.dims.vl, split⟩ sw .replace .tend
      .state t) m m1) {k : Int} (k0 : 0 ≤ k) (k1 : k < p.dims.nlayers) {v : Int} (v0 : 0 ≤ v)
    (v1 : v < p.dims.nvertices) :
    Spec.curl m (fun e => m1.real (.vn_edge .tend) 0 e k) v =
      Spec.vorticityTend m sw
        (Spec.vmean m (Spec.pv m (fun i => m.real (.h_cell .state) 0 i k)
          (fun e => m.real (.vn_edge .state) 0 e k)))
        (fun e => Spec.mean m (fun i => m.real (.h_cell .state) 0 i k) e *
          m.real (.vn_edge .state) 0 e k)
        (Spec.curl m fun e => m.real (.vn_edge .state) 0 e k) v := by
  obtain ⟨hd, hc⟩ := ready_ok hv hr
  obtain ⟨t1, t2, -⟩ := C51_tendency_formula hd hc hn (by decide) he
  rw [curl_congr hc (fun e a b => t2 h6 e k a b k0 k1) v0 v1]
  exact curl_tend (Ready.geo2 hr hv.toValid hx hy hdc) hc hny sw k0 k1 _ _ v0 v1

/-- a rotating state and all terms: the hypotheses are met -/
example (prm : Params ℝ) (h6 : prm.disable_vn = false) : ∃ m m1 : Mem ℝ, Ready p46t (1 / 4) prm m ∧
    (SWModel.ofParams prm).prm.disable_vn = false ∧
    Exec p46t.dims (compute_tendency p46t.dims ⟨defaultKernels p46t.dims.vl, false⟩
      (SWModel.ofParams prm) .replace .tend .state 0) m m1 ∧
    (fun e => m.real (.vn_edge .state) 0 e 2) = fun e => if e = 0 then 1 else 0 := by
  obtain ⟨m, m1, hr, -, -, hx, he⟩ := exists_tendency p46t_run (1 / 4) prm (noHook_ofParams prm) false
    .replace 0 ⟨fun c _ => 2 + c, fun e _ => if e = 0 then 1 else 0, fun l c k => (l + k) * (1 + c)⟩
  exact ⟨m, m1, hr, h6, he, funext fun e => congrFun (congrFun (congrArg Fld.vn hx) e) 2⟩

/-- irrotational flow without rotation of the frame: no tendency of vorticity -/
theorem curl_tend_zero (h : Geo2 p.nx p.ny p.dims.nlayers dc m.mesh) (hc : ConnOK p.dims m)
    (hny : p.ny % 2 = 0) (hf : ∀ v, 0 ≤ v → v < p.dims.nvertices → m.real .f_vertex 0 v 0 = 0)
    (sw : SWModel ℝ) {k : Int} (k0 : 0 ≤ k) (k1 : k < p.dims.nlayers) {x u : Int → ℝ}
    (hN : ∀ v, 0 ≤ v → v < p.dims.nvertices → Spec.kiteMean m x v ≠ 0)
    (hu : ∀ v, 0 ≤ v → v < p.dims.nvertices → Spec.curl m u v = 0) {v : Int} (v0 : 0 ≤ v)
    (v1 : v < p.dims.nvertices) : Spec.curl m (Spec.velocityTend m sw k x u) v = 0 := by
  have hpv : ∀ v, 0 ≤ v → v < p.dims.nvertices → Spec.pv m x u v = 0 := fun v a b => by
    rw [Spec.pv, div_eq_iff (hN v a b), hu v a b, hf v a b]; ring
  have hq : ∀ e, 0 ≤ e → e < p.dims.nedges → Spec.vmean m (Spec.pv m x u) e = 0 := by
    intro e e0 e1
    obtain ⟨a, b⟩ := hc.voe e e0 e1 0 (by omega) (by omega)
    obtain ⟨a', b'⟩ := hc.voe e e0 e1 1 (by omega) (by omega)
    unfold Spec.vmean
    rw [hpv _ a b, hpv _ a' b']; norm_num
  rw [curl_tend h hc hny sw k0 k1 x u v0 v1]
  unfold Spec.vorticityTend
  rw [vertLap_zero hc hu v0 v1,
    vertLap_zero hc (fun v a b => vertLap_zero hc hu a b) v0 v1,
    Finset.sum_eq_zero (fun j hj => ?_)]
  · simp
  · rw [Finset.mem_Ico] at hj
    obtain ⟨a, b⟩ := hc.eov v v0 v1 j hj.1 hj.2
    rw [pvFlux_uniform hc _ hq a b]; ring

theorem guarded_irrotational (h : Geo2 p.nx p.ny p.dims.nlayers dc m.mesh) (hc : ConnOK p.dims m)
    (hny : p.ny % 2 = 0) (hf : ∀ v, 0 ≤ v → v < p.dims.nvertices → m.real .f_vertex 0 v 0 = 0)
    (sw : SWModel ℝ) {k : Int} (k0 : 0 ≤ k) (k1 : k < p.dims.nlayers) :
    Guarded (genSys p.dims sw noHook m)
      (fun x => ∀ v, 0 ≤ v → v < p.dims.nvertices → Spec.kiteMean m (fun c => x.h c k) v ≠ 0)
      (fun x => ∀ v, 0 ≤ v → v < p.dims.nvertices → Spec.curl m (fun e => x.vn e k) v = 0)
      (fun x => ∀ v, 0 ≤ v → v < p.dims.nvertices → Spec.curl m (fun e => x.vn e k) v = 0) where
  tend := by
    intro mode t o s hN ho hs v v0 v1
    obtain ⟨-, tu, -⟩ := tend_val (m := m) p.dims sw mode t o s
    have key := curl_tend_zero h hc hny hf sw k0 k1 hN hs v0 v1
    simp only [tu]
    rw [show (fun c => if sw.prm.disable_vn = true then o.vn c k
        else (if mode = .replace then 0 else o.vn c k) + Spec.velocityTend m sw k (fun i => s.h i k)
          (fun i => s.vn i k) c) =
          fun c => (if mode = .replace ∧ sw.prm.disable_vn = false then 0 else 1) * o.vn c k +
          (if sw.prm.disable_vn = true then 0 else 1) *
            Spec.velocityTend m sw k (fun i => s.h i k) (fun i => s.vn i k) c by
        funext c; cases mode <;> cases sw.prm.disable_vn <;> simp,
      curl_lin, key, ho v v0 v1]
    ring
  map := by
    intro x a hx v v0 v1
    simp only [Fld.map]
    have e1 := curl_lin (m := m) (fun e => x.vn e k) (fun e => 0) a 0 v
    simp only [mul_zero, add_zero, zero_mul] at e1
    simp only [mul_comm _ a]
    rw [e1, hx v v0 v1]; ring
  axpy := by
    intro x y a hx hy v v0 v1
    simp only [Fld.axpy, Fld.zip]
    have e1 := curl_lin (m := m) (fun e => x.vn e k) (fun e => y.vn e k) 1 a v
    simp only [one_mul] at e1
    rw [e1, hy v v0 v1, hx v v0 v1]
    ring

/-- Without rotation of the frame a layer whose flow is irrotational is irrotational after any number
of steps of either stepper, whatever its thickness does, and with any viscosity and hyperviscosity,
if vertex thickness does not vanish when the run calls `compute_tendency`. -/
theorem C99_irrotational_run (hv : RunValid p) (hx : 2 ≤ p.nx) (hy : 2 ≤ p.ny)
    (hny : p.ny % 2 = 0) (hdc : 0 < dc) {prm : Params ℝ} (hf : prm.f0 = 0) (hr : Ready p dc prm m)
    {sw : SWModel ℝ} (hn : sw.NoHook)
    {stp : Stepper} {sched : List (ℝ × ℝ)} {split : Bool} {m1 : Mem ℝ}
    (he : Exec p.dims (stp.ctor p.dims ++
      stp.run p.dims ⟨defaultKernels p.dims.vl, split⟩ sw sched) m m1)
    {k : Int} (k0 : 0 ≤ k) (k1 : k < p.dims.nlayers)
    (hN : ∀ st m', CallsAt p.dims ⟨defaultKernels p.dims.vl, split⟩ sw stp sched m st m' →
      ∀ v, 0 ≤ v → v < p.dims.nvertices →
        Spec.kiteMean m (fun c => m'.real (.h_cell st) 0 c k) v ≠ 0)
    (hu : ∀ v, 0 ≤ v → v < p.dims.nvertices →
      Spec.curl m (fun e => m.real (.vn_edge .state) 0 e k) v = 0) :
    ∀ v, 0 ≤ v → v < p.dims.nvertices →
      Spec.curl m (fun e => m1.real (.vn_edge .state) 0 e k) v = 0 := by
  obtain ⟨hd, hc⟩ := ready_ok hv hr
  have hS := genSetup hd hc (hookOK_noHook hn p.dims m)
  obtain ⟨x, e, hx⟩ := hS.newRun_inv
    (guarded_irrotational (Ready.geo2 hr hv.toValid hx hy hdc) hc hny
      (fun v a b => by rw [(hr.hex hv.toValid).2.1 v a b, hf]) sw k0 k1) he
    (fun x y exy hx v v0 v1 => by
      rw [kiteMean_congr hc (v := fun c => x.h c k) (fun c a b => (exy.h c k a b k0 k1).symm) v0 v1]
      exact hx v v0 v1)
    hN (fun v _ _ => by simp [zeroFld, Spec.curl]) hu
  intro v v0 v1
  have h3 := hx v v0 v1
  rw [← curl_congr hc (fun i a b => e.vn i k a b k0 k1) v0 v1] at h3
  exact h3

/-- An Euler step of an irrotational, not uniform flow (velocity the differences of the cell numbers)
of uniform thickness, with viscosity and hyperviscosity, meets the hypotheses. -/
example (prm : Params ℝ) (hf : prm.f0 = 0) : ∃ m m1 : Mem ℝ, Ready p46t (1 / 4) prm m ∧
    Exec p46t.dims ((Stepper.lsrk 1).ctor p46t.dims ++ (Stepper.lsrk 1).run p46t.dims
      ⟨defaultKernels p46t.dims.vl, false⟩ (SWModel.ofParams prm) [(0, 1)]) m m1 ∧
    (∀ st m', CallsAt p46t.dims ⟨defaultKernels p46t.dims.vl, false⟩ (SWModel.ofParams prm)
      (.lsrk 1) [(0, 1)] m st m' → ∀ v, 0 ≤ v → v < p46t.dims.nvertices →
        Spec.kiteMean m (fun c => m'.real (.h_cell st) 0 c 2) v ≠ 0) ∧
    (∀ v, 0 ≤ v → v < p46t.dims.nvertices →
      Spec.curl m (fun e => m.real (.vn_edge .state) 0 e 2) v = 0) ∧
    m.real (.vn_edge .state) 0 0 2 = Gr p46t.nx p46t.ny (fun c => (c : ℝ)) 0 := by
  have hn : (SWModel.ofParams prm).NoHook := noHook_ofParams prm
  obtain ⟨m, m1, hr, hx, he⟩ := exists_newRun p46t_run (1 / 4) prm hn false
    (.lsrk 1) [(0, 1)] ⟨fun c _ => 2, fun e _ => Gr p46t.nx p46t.ny (fun c => (c : ℝ)) e,
      fun l c k => (l + k) * (1 + c)⟩
  have hc := (ready_ok p46t_run hr).2
  have g := Ready.geo hr p46t_run.toValid (by norm_num)
  have hu : ∀ k, (fun e => m.real (.vn_edge .state) 0 e k) =
      Gr p46t.nx p46t.ny (fun c => (c : ℝ)) := fun k => by
    funext e; exact congrFun (congrFun (congrArg Fld.vn hx) e) k
  have km : ∀ v, 0 ≤ v → v < p46t.dims.nvertices → Spec.kiteMean m (fun _ => 2) v = 2 :=
    fun v v0 v1 => by rw [spec_kiteMean g _ v0 v1]; simp only [Mv]; norm_num
  refine ⟨m, m1, hr, he, fun st m' hca v v0 v1 => ?_, fun v v0 v1 => ?_,
    congrFun (hu 2) 0⟩
  · obtain ⟨rfl, hs⟩ := callsAt_euler hca
    rw [hx] at hs
    rw [show (fun c => m'.real (.h_cell .state) 0 c 2) = fun _ => 2 from
      funext fun c => congrFun (congrFun (congrArg Fld.h hs) c) 2, km v v0 v1]
    norm_num
  · rw [hu, curl_congr hc (v := fun e => 1 / 4 * Spec.grad m (fun c => (c : ℝ)) e + 0 * 0)
      (fun e a b => by rw [spec_grad g _ a b]; ring) v0 v1, curl_lin,
      curl_grad g (by simp [p46t]) _ v0 v1]
    ring

end Props
end
end Omega
