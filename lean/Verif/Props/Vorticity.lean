import Verif.Props.Energy

/-!
# C23: uniform potential vorticity is preserved
-/

set_option linter.unusedVariables false
set_option linter.unusedSectionVars false

namespace Omega
noncomputable section

namespace Props

open Prog Model Refine Hex

variable {p : MeshParams} {dc : ℝ} {m : Mem ℝ}

theorem curl_congr {d : Dims} (hc : ConnOK d m) {u v : Int → ℝ}
    (h : ∀ e, 0 ≤ e → e < d.nedges → u e = v e) {i : Int} (h0 : 0 ≤ i) (h1 : i < d.nvertices) :
    Spec.curl m u i = Spec.curl m v i := by
  unfold Spec.curl
  congr 1
  refine Finset.sum_congr rfl fun j hj => ?_
  rw [Finset.mem_Ico] at hj
  obtain ⟨a, b⟩ := hc.eov i h0 h1 j hj.1 hj.2
  rw [h _ a b]

theorem kiteMean_congr {d : Dims} (hc : ConnOK d m) {u v : Int → ℝ}
    (h : ∀ e, 0 ≤ e → e < d.ncells → u e = v e) {i : Int} (h0 : 0 ≤ i) (h1 : i < d.nvertices) :
    Spec.kiteMean m u i = Spec.kiteMean m v i := by
  unfold Spec.kiteMean
  congr 1
  refine Finset.sum_congr rfl fun j hj => ?_
  rw [Finset.mem_Ico] at hj
  obtain ⟨a, b⟩ := hc.cov i h0 h1 j hj.1 hj.2
  rw [h _ a b]

theorem curl_lin (u v : Int → ℝ) (a b : ℝ) (i : Int) :
    Spec.curl m (fun e => a * u e + b * v e) i = a * Spec.curl m u i + b * Spec.curl m v i := by
  unfold Spec.curl
  rw [← mul_div_assoc, ← mul_div_assoc, ← add_div, Finset.mul_sum, Finset.mul_sum,
    ← Finset.sum_add_distrib]
  congr 1
  exact Finset.sum_congr rfl fun j _ => by ring

theorem kiteMean_lin (u v : Int → ℝ) (a b : ℝ) (i : Int) :
    Spec.kiteMean m (fun e => a * u e + b * v e) i =
      a * Spec.kiteMean m u i + b * Spec.kiteMean m v i := by
  unfold Spec.kiteMean
  rw [← mul_div_assoc, ← mul_div_assoc, ← add_div, Finset.mul_sum, Finset.mul_sum,
    ← Finset.sum_add_distrib]
  congr 1
  exact Finset.sum_congr rfl fun j _ => by ring

/-- With uniform vorticity the flux is the tangential reconstruction. -/
theorem pvFlux_uniform {d : Dims} (hc : ConnOK d m) {q : Int → ℝ} {q0 : ℝ} (F : Int → ℝ)
    (h : ∀ e, 0 ≤ e → e < d.nedges → q e = q0) {e : Int} (h0 : 0 ≤ e) (h1 : e < d.nedges) :
    Spec.pvFlux m q F e = q0 * Spec.tang m F e := by
  unfold Spec.pvFlux Spec.tang
  rw [Finset.mul_sum]
  refine Finset.sum_congr rfl fun j hj => ?_
  rw [Finset.mem_Ico] at hj
  obtain ⟨a, b⟩ := hc.eoe e h0 h1 j hj.1 hj.2
  rw [h _ a b, h _ h0 h1]; ring

/-- one layer: curl of the velocity tendency of a state with uniform potential vorticity -/
theorem curl_tend_uniform (h : Geo2 p.nx p.ny p.dims.nlayers dc m.mesh) (hc : ConnOK p.dims m)
    (hny : p.ny % 2 = 0) {sw : SWModel ℝ} (h1 : sw.en_hadv = true) (h2 : sw.en_pv = true)
    (h7 : sw.en_vdiff = true → sw.prm.visc_del2 = 0)
    (h8 : sw.en_vhyper = true → sw.prm.visc_del4 = 0) {k : Int} {x u : Int → ℝ} {q : ℝ}
    (hN : ∀ v, 0 ≤ v → v < p.dims.nvertices → Spec.kiteMean m x v ≠ 0)
    (hq : ∀ v, 0 ≤ v → v < p.dims.nvertices →
      Spec.curl m u v + m.real .f_vertex 0 v 0 = q * Spec.kiteMean m x v)
    {v : Int} (v0 : 0 ≤ v) (v1 : v < p.dims.nvertices) :
    Spec.curl m (Spec.velocityTend m sw k x u) v =
      q * Spec.kiteMean m (Spec.thicknessTend m sw x u) v := by
  have hpv : ∀ e, 0 ≤ e → e < p.dims.nedges → Spec.vmean m (Spec.pv m x u) e = q := by
    intro e e0 e1
    obtain ⟨a, b⟩ := hc.voe e e0 e1 0 (by omega) (by omega)
    obtain ⟨a', b'⟩ := hc.voe e e0 e1 1 (by omega) (by omega)
    unfold Spec.vmean Spec.pv
    rw [hq _ a b, hq _ a' b', mul_div_assoc, mul_div_assoc, div_self (hN _ a b),
      div_self (hN _ a' b')]
    ring
  have hw : ∀ e, 0 ≤ e → e < p.dims.nedges → Spec.velocityTend m sw k x u e =
      q * Spec.tang m (fun e => Spec.mean m x e * u e) e + (-1) * (Spec.grad m (fun i =>
        (if sw.en_ssh = true then sw.prm.grav else 0) * x i +
        (if sw.en_ke = true then 1 else 0) * Spec.kinetic m u i) e) := by
    intro e e0 e1
    have e7 : (if sw.en_vdiff = true then sw.prm.visc_del2 * m.real .edge_mask 0 e k *
        m.real .mesh_scaling_del2 0 e 0 * (Spec.grad m (Spec.div m u) e -
          Spec.gradT m (Spec.curl m u) e) else 0) = 0 := by
      split_ifs with hh
      · rw [h7 hh]; ring
      · rfl
    have e8 : (if sw.en_vhyper = true then sw.prm.visc_del4 * m.real .edge_mask 0 e k *
        m.real .mesh_scaling_del4 0 e 0 * (Spec.grad m (Spec.div m (Spec.vecLap m u)) e -
          Spec.gradT m (Spec.curl m (Spec.vecLap m u)) e) else 0) = 0 := by
      split_ifs with hh
      · rw [h8 hh]; ring
      · rfl
    unfold Spec.velocityTend
    rw [e7, e8, if_pos h2, pvFlux_uniform hc _ hpv e0 e1]
    simp only [Spec.grad]
    split_ifs <;> ring
  rw [curl_congr hc hw v0 v1, curl_lin, curl_grad h.toGeo hny _ v0 v1, curl_tang h hny _ v0 v1]
  have : Spec.kiteMean m (Spec.thicknessTend m sw x u) v =
      -Spec.kiteMean m (Spec.div m fun e => Spec.mean m x e * u e) v := by
    have e : Spec.thicknessTend m sw x u = fun c =>
        (-1) * Spec.div m (fun e => Spec.mean m x e * u e) c + 0 * x c := by
      funext c; simp [Spec.thicknessTend, h1]
    rw [e, kiteMean_lin]; ring
  rw [this]; ring

/-- If the potential vorticity is uniform in a layer then the rate of change of the absolute vorticity
at each vertex is that value times the rate of change of the vertex thickness: uniform potential
vorticity is not changed by the computed tendency. -/
theorem C23_uniform_pv_tendency (hv : RunValid p) (hx : 2 ≤ p.nx) (hy : 2 ≤ p.ny)
    (hny : p.ny % 2 = 0) (hdc : 0 < dc) {prm : Params ℝ} (hr : Ready p dc prm m) {sw : SWModel ℝ}
    (hn : sw.NoHook) (h1 : sw.en_hadv = true) (h2 : sw.en_pv = true)
    (h5 : sw.prm.disable_h = false) (h6 : sw.prm.disable_vn = false)
    (h7 : sw.en_vdiff = true → sw.prm.visc_del2 = 0)
    (h8 : sw.en_vhyper = true → sw.prm.visc_del4 = 0) {split : Bool} {t : ℝ} {m1 : Mem ℝ}
    (he : Exec p.dims (compute_tendency p.dims ⟨defaultKernels p.dims.vl, split⟩ sw .replace .tend
      .state t) m m1) {k : Int} (k0 : 0 ≤ k) (k1 : k < p.dims.nlayers) {q : ℝ}
    (hN : ∀ v, 0 ≤ v → v < p.dims.nvertices →
      Spec.kiteMean m (fun i => m.real (.h_cell .state) 0 i k) v ≠ 0)
    (hq : ∀ v, 0 ≤ v → v < p.dims.nvertices → Spec.pv m (fun i => m.real (.h_cell .state) 0 i k)
      (fun i => m.real (.vn_edge .state) 0 i k) v = q) :
    ∀ v, 0 ≤ v → v < p.dims.nvertices →
      Spec.curl m (fun e => m1.real (.vn_edge .tend) 0 e k) v =
        q * Spec.kiteMean m (fun c => m1.real (.h_cell .tend) 0 c k) v := by
  intro v v0 v1
  obtain ⟨hd, hc⟩ := ready_ok hv hr
  obtain ⟨t1, t2, -⟩ := C51_tendency_formula hd hc hn (by decide) he
  rw [curl_congr hc (fun e a b => t2 h6 e k a b k0 k1) v0 v1,
    kiteMean_congr hc (fun e a b => t1 h5 e k a b k0 k1) v0 v1]
  refine curl_tend_uniform (Ready.geo2 hr hv.toValid hx hy hdc) hc hny h1 h2 h7 h8 hN
    (fun v a b => ?_) v0 v1
  rw [← hq v a b]
  unfold Spec.pv
  rw [div_mul_cancel₀ _ (hN v a b)]

theorem guarded_pv (h : Geo2 p.nx p.ny p.dims.nlayers dc m.mesh) (hc : ConnOK p.dims m)
    (hny : p.ny % 2 = 0) {sw : SWModel ℝ} (h1 : sw.en_hadv = true) (h2 : sw.en_pv = true)
    (h5 : sw.prm.disable_h = false) (h6 : sw.prm.disable_vn = false)
    (h7 : sw.en_vdiff = true → sw.prm.visc_del2 = 0)
    (h8 : sw.en_vhyper = true → sw.prm.visc_del4 = 0) (q : Int → ℝ) :
    Guarded (genSys p.dims sw noHook m)
      (fun x => ∀ v k, 0 ≤ v → v < p.dims.nvertices → 0 ≤ k → k < p.dims.nlayers →
        Spec.kiteMean m (fun c => x.h c k) v ≠ 0)
      (fun x => ∀ v k, 0 ≤ v → v < p.dims.nvertices → 0 ≤ k → k < p.dims.nlayers →
        Spec.curl m (fun e => x.vn e k) v = q k * Spec.kiteMean m (fun c => x.h c k) v)
      (fun x => ∀ v k, 0 ≤ v → v < p.dims.nvertices → 0 ≤ k → k < p.dims.nlayers →
        Spec.curl m (fun e => x.vn e k) v + m.real .f_vertex 0 v 0 =
          q k * Spec.kiteMean m (fun c => x.h c k) v) where
  tend := by
    intro mode t o s hN ho hs v k v0 v1 k0 k1
    obtain ⟨tv, tu, -⟩ := tend_val (m := m) p.dims sw mode t o s
    have key := curl_tend_uniform h hc hny h1 h2 h7 h8 (k := k) (x := fun i => s.h i k)
      (u := fun i => s.vn i k) (q := q k) (fun v a b => hN v k a b k0 k1)
      (fun v a b => hs v k a b k0 k1) v0 v1
    simp only [tv, tu]
    rw [show (fun c => if sw.prm.disable_h = true then o.h c k
        else (if mode = .replace then 0 else o.h c k) + Spec.thicknessTend m sw (fun i => s.h i k)
          (fun i => s.vn i k) c) = fun c => (if mode = .replace then 0 else 1) * o.h c k +
          1 * Spec.thicknessTend m sw (fun i => s.h i k) (fun i => s.vn i k) c by
        funext c; cases mode <;> simp [h5],
      show (fun c => if sw.prm.disable_vn = true then o.vn c k
        else (if mode = .replace then 0 else o.vn c k) + Spec.velocityTend m sw k (fun i => s.h i k)
          (fun i => s.vn i k) c) = fun c => (if mode = .replace then 0 else 1) * o.vn c k +
          1 * Spec.velocityTend m sw k (fun i => s.h i k) (fun i => s.vn i k) c by
        funext c; cases mode <;> simp [h6],
      curl_lin, kiteMean_lin, key, ho v k v0 v1 k0 k1]
    ring
  map := by
    intro x a hx v k v0 v1 k0 k1
    simp only [Fld.map]
    have e1 := curl_lin (m := m) (fun e => x.vn e k) (fun e => 0) a 0 v
    have e2 := kiteMean_lin (m := m) (fun e => x.h e k) (fun e => 0) a 0 v
    simp only [mul_zero, add_zero, zero_mul] at e1 e2
    simp only [mul_comm _ a]
    rw [e1, e2, hx v k v0 v1 k0 k1]; ring
  axpy := by
    intro x y a hx hy v k v0 v1 k0 k1
    simp only [Fld.axpy, Fld.zip]
    have e1 := curl_lin (m := m) (fun e => x.vn e k) (fun e => y.vn e k) 1 a v
    have e2 := kiteMean_lin (m := m) (fun e => x.h e k) (fun e => y.h e k) 1 a v
    simp only [one_mul] at e1 e2
    have := hx v k v0 v1 k0 k1
    rw [e1, e2, hy v k v0 v1 k0 k1]
    linear_combination this

/-- The same for runs: a state with uniform potential vorticity in each layer has it after any number
of steps of either stepper, if vertex thickness does not vanish when the run calls
`compute_tendency`. -/
theorem C23_uniform_pv_run (hv : RunValid p) (hx : 2 ≤ p.nx) (hy : 2 ≤ p.ny)
    (hny : p.ny % 2 = 0) (hdc : 0 < dc) {prm : Params ℝ} (hr : Ready p dc prm m) {sw : SWModel ℝ}
    (hn : sw.NoHook) (h1 : sw.en_hadv = true) (h2 : sw.en_pv = true)
    (h5 : sw.prm.disable_h = false) (h6 : sw.prm.disable_vn = false)
    (h7 : sw.en_vdiff = true → sw.prm.visc_del2 = 0)
    (h8 : sw.en_vhyper = true → sw.prm.visc_del4 = 0)
    {stp : Stepper} {sched : List (ℝ × ℝ)} {split : Bool} {m1 : Mem ℝ}
    (he : Exec p.dims (stp.ctor p.dims ++
      stp.run p.dims ⟨defaultKernels p.dims.vl, split⟩ sw sched) m m1)
    (hN : ∀ st m', CallsAt p.dims ⟨defaultKernels p.dims.vl, split⟩ sw stp sched m st m' →
      ∀ v k, 0 ≤ v → v < p.dims.nvertices → 0 ≤ k → k < p.dims.nlayers →
        Spec.kiteMean m (fun c => m'.real (.h_cell st) 0 c k) v ≠ 0)
    {q : Int → ℝ}
    (hq : ∀ v k, 0 ≤ v → v < p.dims.nvertices → 0 ≤ k → k < p.dims.nlayers →
      Spec.curl m (fun e => m.real (.vn_edge .state) 0 e k) v + m.real .f_vertex 0 v 0 =
        q k * Spec.kiteMean m (fun c => m.real (.h_cell .state) 0 c k) v) :
    ∀ v k, 0 ≤ v → v < p.dims.nvertices → 0 ≤ k → k < p.dims.nlayers →
      Spec.curl m (fun e => m1.real (.vn_edge .state) 0 e k) v + m.real .f_vertex 0 v 0 =
        q k * Spec.kiteMean m (fun c => m1.real (.h_cell .state) 0 c k) v := by
  obtain ⟨hd, hc⟩ := ready_ok hv hr
  have hS := genSetup hd hc (hookOK_noHook hn p.dims m)
  obtain ⟨x, e, hx⟩ := hS.newRun_inv
    (guarded_pv (Ready.geo2 hr hv.toValid hx hy hdc) hc hny h1 h2 h5 h6 h7 h8 q) he
    (fun x y exy hx v k v0 v1 k0 k1 => by
      rw [kiteMean_congr hc (v := fun c => x.h c k) (fun c a b => (exy.h c k a b k0 k1).symm) v0 v1]
      exact hx v k v0 v1 k0 k1)
    hN (fun v k _ _ _ _ => by simp [zeroFld, Spec.curl, Spec.kiteMean]) hq
  intro v k v0 v1 k0 k1
  have h3 := hx v k v0 v1 k0 k1
  rw [← curl_congr hc (fun i a b => e.vn i k a b k0 k1) v0 v1,
    ← kiteMean_congr hc (fun i a b => e.h i k a b k0 k1) v0 v1] at h3
  exact h3

/-- An Euler step of an irrotational, not uniform flow (velocity the differences of the cell numbers)
of uniform thickness has potential vorticity `f / h` and meets the hypotheses. -/
example (prm : Params ℝ) : ∃ m m1 : Mem ℝ, Ready p46t (1 / 4) prm m ∧
    Exec p46t.dims ((Stepper.lsrk 1).ctor p46t.dims ++ (Stepper.lsrk 1).run p46t.dims
      ⟨defaultKernels p46t.dims.vl, false⟩ (inviscid (SWModel.ofParams prm)) [(0, 1)]) m m1 ∧
    (∀ st m', CallsAt p46t.dims ⟨defaultKernels p46t.dims.vl, false⟩ (inviscid (SWModel.ofParams prm))
      (.lsrk 1) [(0, 1)] m st m' → ∀ v k, 0 ≤ v → v < p46t.dims.nvertices → 0 ≤ k →
        k < p46t.dims.nlayers → Spec.kiteMean m (fun c => m'.real (.h_cell st) 0 c k) v ≠ 0) ∧
    (∀ v k, 0 ≤ v → v < p46t.dims.nvertices → 0 ≤ k → k < p46t.dims.nlayers →
      Spec.curl m (fun e => m.real (.vn_edge .state) 0 e k) v + m.real .f_vertex 0 v 0 =
        (prm.f0 / 2) * Spec.kiteMean m (fun c => m.real (.h_cell .state) 0 c k) v) ∧
    m.real (.vn_edge .state) 0 0 2 = Gr p46t.nx p46t.ny (fun c => (c : ℝ)) 0 := by
  have hn : (inviscid (SWModel.ofParams prm)).NoHook := noHook_ofParams prm
  obtain ⟨m, m1, hr, hx, he⟩ := exists_newRun p46t_run (1 / 4) prm hn false
    (.lsrk 1) [(0, 1)] ⟨fun c _ => 2, fun e _ => Gr p46t.nx p46t.ny (fun c => (c : ℝ)) e,
      fun l c k => (l + k) * (1 + c)⟩
  have hc := (ready_ok p46t_run hr).2
  have g := Ready.geo hr p46t_run.toValid (by norm_num)
  have hu : ∀ k, (fun e => m.real (.vn_edge .state) 0 e k) =
      Gr p46t.nx p46t.ny (fun c => (c : ℝ)) := fun k => by
    funext e; exact congrFun (congrFun (congrArg Fld.vn hx) e) k
  have hh : ∀ k, (fun e => m.real (.h_cell .state) 0 e k) = fun _ => 2 := fun k => by
    funext e; exact congrFun (congrFun (congrArg Fld.h hx) e) k
  have km : ∀ v, 0 ≤ v → v < p46t.dims.nvertices → Spec.kiteMean m (fun _ => 2) v = 2 :=
    fun v v0 v1 => by rw [spec_kiteMean g _ v0 v1]; simp only [Mv]; norm_num
  refine ⟨m, m1, hr, he, fun st m' hca v k v0 v1 k0 k1 => ?_, fun v k v0 v1 k0 k1 => ?_,
    congrFun (hu 2) 0⟩
  · obtain ⟨rfl, hs⟩ := callsAt_euler hca
    rw [hx] at hs
    rw [show (fun c => m'.real (.h_cell .state) 0 c k) = fun _ => 2 from
      funext fun c => congrFun (congrFun (congrArg Fld.h hs) c) k, km v v0 v1]
    norm_num
  · rw [hu, hh, km v v0 v1, (hr.hex p46t_run.toValid).2.1 v v0 v1]
    have : Spec.curl m (Gr p46t.nx p46t.ny (fun c => (c : ℝ))) v = 0 := by
      rw [curl_congr hc (v := fun e => 1 / 4 * Spec.grad m (fun c => (c : ℝ)) e + 0 * 0)
        (fun e a b => by rw [spec_grad g _ a b]; ring) v0 v1, curl_lin,
        curl_grad g (by simp [p46t]) _ v0 v1]
      ring
    rw [this]; ring

end Props
end
end Omega
