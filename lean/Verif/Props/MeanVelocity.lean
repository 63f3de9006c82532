import Verif.Props.Modes
import Verif.Props.Inertial
import Verif.Props.Irrotational
import Verif.Props.Geostrophic
import Verif.Props.ViscousStability

/-!
# C121: what can change the mean velocity

Pressure, kinetic energy gradient and viscosity cannot; the vorticity flux of small disturbances turns it with the
inertial frequency; without rotation an irrotational flow keeps it.
-/

set_option linter.unusedVariables false
set_option linter.unusedSectionVars false

namespace Omega
noncomputable section

namespace Spec

/-- velocity integrated over the domain, east component as real and north component as imaginary part: each edge with
the area `dc dv` and the direction of its normal -/
def totalVel (d : Dims) (m : Mem ℝ) (u : Int → ℝ) : ℂ :=
  ⟨∑ e ∈ edges d, dcE m e * dvE m e * (Real.cos (m.real .angle_edge 0 e 0) * u e),
    ∑ e ∈ edges d, dcE m e * dvE m e * (Real.sin (m.real .angle_edge 0 e 0) * u e)⟩

end Spec

namespace Props

open Prog Model Refine Hex Polynomial

variable {p : MeshParams} {dc : ℝ} {m : Mem ℝ}

theorem totalVel_congr {d : Dims} {u v : Int → ℝ} (h : ∀ e, 0 ≤ e → e < d.nedges → u e = v e) :
    Spec.totalVel d m u = Spec.totalVel d m v := by
  have : ∀ w : ℝ → ℝ, ∑ e ∈ Spec.edges d, Spec.dcE m e * Spec.dvE m e * (w (m.real .angle_edge 0 e 0) * u e) =
      ∑ e ∈ Spec.edges d, Spec.dcE m e * Spec.dvE m e * (w (m.real .angle_edge 0 e 0) * v e) := fun w =>
    Finset.sum_congr rfl fun e he => by rw [h e (Finset.mem_Ico.1 he).1 (Finset.mem_Ico.1 he).2]
  exact Complex.ext (this _) (this _)

theorem totalVel_add (d : Dims) (u v : Int → ℝ) :
    Spec.totalVel d m (fun e => u e + v e) = Spec.totalVel d m u + Spec.totalVel d m v := by
  refine Complex.ext ?_ ?_ <;>
  · simp only [Spec.totalVel, Complex.add_re, Complex.add_im, mul_add, Finset.sum_add_distrib]

theorem totalVel_mul (d : Dims) (a : ℝ) (u : Int → ℝ) :
    Spec.totalVel d m (fun e => a * u e) = a * Spec.totalVel d m u := by
  refine Complex.ext ?_ ?_
  · simp only [Spec.totalVel, Complex.re_ofReal_mul, Finset.mul_sum]
    exact Finset.sum_congr rfl fun e _ => by ring
  · simp only [Spec.totalVel, Complex.im_ofReal_mul, Finset.mul_sum]
    exact Finset.sum_congr rfl fun e _ => by ring

section

variable (h : Geo2 p.nx p.ny p.dims.nlayers dc m.mesh)
  (ang : ∀ e, 0 ≤ e → e < p.dims.nedges → m.real .angle_edge 0 e 0 = angE e)
include h ang

/-- gradients have no mean -/
theorem totalVel_grad (φ : Int → ℝ) : Spec.totalVel p.dims m (Spec.grad m φ) = 0 := by
  have z : ∀ (a b : ℝ) (u : Int → ℝ), Uniform p.dims m u a b →
      ∑ e ∈ Spec.edges p.dims, Spec.dcE m e * Spec.dvE m e * (u e * Spec.grad m φ e) = 0 := fun a b u hu => by
    have hh := (harmonic_of_uniform h ang hu).1
    have := adjoint h φ u
    rw [Finset.sum_eq_zero fun c hc => by
      rw [hh c (Finset.mem_Ico.1 hc).1 (Finset.mem_Ico.1 hc).2, mul_zero, mul_zero]] at this
    linarith
  exact Complex.ext (z 1 0 _ fun e _ _ => by ring) (z 0 1 _ fun e _ _ => by ring)

/-- nor have gradients along the edges -/
theorem totalVel_gradT (ψ : Int → ℝ) : Spec.totalVel p.dims m (Spec.gradT m ψ) = 0 := by
  have z : ∀ (a b : ℝ) (u : Int → ℝ), Uniform p.dims m u a b →
      ∑ e ∈ Spec.edges p.dims, Spec.dcE m e * Spec.dvE m e * (u e * Spec.gradT m ψ e) = 0 := fun a b u hu => by
    have hh := (harmonic_of_uniform h ang hu).2
    have := adjointV h.toGeo ψ u
    rw [Finset.sum_eq_zero fun c hc => by
      rw [hh c (Finset.mem_Ico.1 hc).1 (Finset.mem_Ico.1 hc).2, mul_zero, mul_zero]] at this
    linarith
  exact Complex.ext (z 1 0 _ fun e _ _ => by ring) (z 0 1 _ fun e _ _ => by ring)

/-- the reconstruction of the tangential velocity turns the mean by a right angle -/
theorem totalVel_tang (u : Int → ℝ) :
    Spec.totalVel p.dims m (Spec.tang m u) = -Complex.I * Spec.totalVel p.dims m u := by
  have t : ∀ (w : ℝ → ℝ) (z : ℂ), (∀ e, 0 ≤ e → e < p.dims.nedges → w (m.real .angle_edge 0 e 0) =
      compAt z (m.real .angle_edge 0 e 0)) →
      ∑ e ∈ Spec.edges p.dims, Spec.dcE m e * Spec.dvE m e * (w (m.real .angle_edge 0 e 0) * Spec.tang m u e) =
        -∑ e ∈ Spec.edges p.dims, Spec.dcE m e * Spec.dvE m e *
          (u e * compAt (-Complex.I * z) (m.real .angle_edge 0 e 0)) := fun w z hw => by
    rw [tang_antisymm h.toGeo (fun e => w (m.real .angle_edge 0 e 0)) u]
    congr 1
    refine Finset.sum_congr rfl fun e he => ?_
    obtain ⟨a, b⟩ := Finset.mem_Ico.1 he
    rw [uni_tang h (z := z) (fun e a b => by rw [hw e a b, ang e a b]) a b, ang e a b]
  refine Complex.ext ?_ ?_
  · show ∑ e ∈ Spec.edges p.dims, Spec.dcE m e * Spec.dvE m e *
        (Real.cos (m.real .angle_edge 0 e 0) * Spec.tang m u e) = _
    rw [t Real.cos 1 fun e _ _ => by simp [compAt], ← Finset.sum_neg_distrib]
    simp only [compAt, mul_one, Complex.neg_re, Complex.I_re, Complex.neg_im, Complex.I_im, Complex.mul_re,
      Spec.totalVel]
    rw [neg_zero, zero_mul, zero_sub, neg_mul, one_mul, neg_neg]
    exact Finset.sum_congr rfl fun e _ => by ring
  · show ∑ e ∈ Spec.edges p.dims, Spec.dcE m e * Spec.dvE m e *
        (Real.sin (m.real .angle_edge 0 e 0) * Spec.tang m u e) = _
    rw [t Real.sin Complex.I fun e _ _ => by simp [compAt], ← Finset.sum_neg_distrib]
    simp only [compAt, neg_mul, Complex.I_mul_I, neg_neg, Complex.one_re, Complex.one_im, Complex.neg_im,
      Complex.mul_im, Complex.I_re, Complex.I_im, Spec.totalVel]
    rw [zero_mul, one_mul, zero_add, ← Finset.sum_neg_distrib]
    exact Finset.sum_congr rfl fun e _ => by ring

/-- only the vorticity flux changes the mean velocity -/
theorem totalVel_tend (sw : SWModel ℝ) {k : Int} (k0 : 0 ≤ k) (k1 : k < p.dims.nlayers) (x u : Int → ℝ) :
    Spec.totalVel p.dims m (Spec.velocityTend m sw k x u) =
      (if sw.en_pv then (1 : ℝ) else 0 : ℝ) * Spec.totalVel p.dims m (Spec.pvFlux m (Spec.vmean m (Spec.pv m x u))
        fun e => Spec.mean m x e * u e) := by
  have hw : ∀ e, 0 ≤ e → e < p.dims.nedges → Spec.velocityTend m sw k x u e =
      ((if sw.en_pv then (1 : ℝ) else 0) * Spec.pvFlux m (Spec.vmean m (Spec.pv m x u))
          (fun e => Spec.mean m x e * u e) e +
        (-1) * Spec.grad m (fun i => (if sw.en_ssh then sw.prm.grav else 0) * x i +
          (if sw.en_ke then 1 else 0) * Spec.kinetic m u i -
          (if sw.en_vdiff then sw.prm.visc_del2 else 0) * Spec.div m u i +
          (if sw.en_vhyper then sw.prm.visc_del4 else 0) * Spec.div m (Spec.vecLap m u) i) e) +
      ((-(if sw.en_vdiff then sw.prm.visc_del2 else 0)) * Spec.gradT m (Spec.curl m u) e +
        (if sw.en_vhyper then sw.prm.visc_del4 else 0) * Spec.gradT m (Spec.curl m (Spec.vecLap m u)) e) := by
    intro e e0 e1
    obtain ⟨q1, q2, q3⟩ := mask_one h.toGeo e0 e1 k0 k1
    unfold Spec.velocityTend
    rw [q1, q2, q3]
    simp only [Spec.grad]
    split_ifs <;> ring
  rw [totalVel_congr hw, totalVel_add, totalVel_add, totalVel_add, totalVel_mul, totalVel_mul, totalVel_mul,
    totalVel_mul, totalVel_grad h ang, totalVel_gradT h ang, totalVel_gradT h ang]
  ring

end

/-- The integral of a uniform flow is its velocity times the area of the domain. -/
theorem C121_total_of_uniform (hv : RunValid p) (hx : 2 ≤ p.nx) (hy : 2 ≤ p.ny) (hdc : 0 < dc)
    {prm : Params ℝ} (hr : Ready p dc prm m) {u : Int → ℝ} {z : ℂ}
    (hu : ∀ e, 0 ≤ e → e < p.dims.nedges → u e = compAt z (m.real .angle_edge 0 e 0)) :
    Spec.totalVel p.dims m u = (∑ c ∈ Spec.cells p.dims, Spec.areaC m c : ℝ) * z := by
  have g := Ready.geo2 hr hv.toValid hx hy hdc
  have ang : ∀ e, 0 ≤ e → e < p.dims.nedges → m.real .angle_edge 0 e 0 = angE e :=
    (hr.hex hv.toValid).1.angle_edge
  have hw := w_sq
  have a0 : ∀ c : Int, (angE (3 * c) : ℝ) = 0 := fun c => by simp [angE]
  have a1 : ∀ c : Int, (angE (3 * c + 1) : ℝ) = Real.pi / 3 := fun c => by
    have : (3 * c + 1) % 3 = 1 := by omega
    simp [angE, this]
  have a2 : ∀ c : Int, (angE (3 * c + 2) : ℝ) = 2 * Real.pi / 3 := fun c => by
    have : (3 * c + 2) % 3 = 2 := by omega
    simp [angE, this]
  have key : ∀ w : ℝ → ℝ, ∑ e ∈ Spec.edges p.dims, Spec.dcE m e * Spec.dvE m e *
      (w (m.real .angle_edge 0 e 0) * u e) = ∑ c ∈ Spec.cells p.dims, dc * (dc * √3 / 3) *
        (w 0 * compAt z 0 + w (Real.pi / 3) * compAt z (Real.pi / 3) +
          w (2 * Real.pi / 3) * compAt z (2 * Real.pi / 3)) := fun w => by
    have e1 : ∑ e ∈ Spec.edges p.dims, Spec.dcE m e * Spec.dvE m e * (w (m.real .angle_edge 0 e 0) * u e) =
        ∑ e ∈ upto (3 * (p.nx * p.ny)), dc * (dc * √3 / 3) * (w (angE e) * compAt z (angE e)) :=
      Finset.sum_congr rfl fun e he => by
        obtain ⟨a, b⟩ := Finset.mem_Ico.1 he
        rw [spec_dcE g.toGeo a b, spec_dvE g.toGeo a b, hu e a b, ang e a b]
    rw [e1, sum_three]
    refine Finset.sum_congr rfl fun c _ => ?_
    rw [a0, a1, a2]
    ring
  have area : ∀ c ∈ Spec.cells p.dims, Spec.areaC m c = dc * dc * √3 / 2 := fun c hc =>
    spec_areaC g.toGeo ⟨(Finset.mem_Ico.1 hc).1, (Finset.mem_Ico.1 hc).2⟩
  refine Complex.ext ?_ ?_
  · show ∑ e ∈ Spec.edges p.dims, Spec.dcE m e * Spec.dvE m e * (Real.cos (m.real .angle_edge 0 e 0) * u e) = _
    rw [key Real.cos, Complex.re_ofReal_mul, Finset.sum_mul]
    refine Finset.sum_congr rfl fun c hc => ?_
    rw [area c hc]
    simp only [compAt, Real.cos_zero, Real.sin_zero, Real.cos_pi_div_three, Real.sin_pi_div_three, cos_two_third,
      sin_two_third]
    ring
  · show ∑ e ∈ Spec.edges p.dims, Spec.dcE m e * Spec.dvE m e * (Real.sin (m.real .angle_edge 0 e 0) * u e) = _
    rw [key Real.sin, Complex.im_ofReal_mul, Finset.sum_mul]
    refine Finset.sum_congr rfl fun c hc => ?_
    rw [area c hc]
    simp only [compAt, Real.cos_zero, Real.sin_zero, Real.cos_pi_div_three, Real.sin_pi_div_three, cos_two_third,
      sin_two_third]
    linear_combination (dc * dc * √3 / 6 * z.im) * hw

/-- a uniform flow whose total is not zero -/
example (prm : Params ℝ) : ∃ m : Mem ℝ, Ready p46t (1 / 4) prm m ∧
    (∀ e, 0 ≤ e → e < p46t.dims.nedges → m.real (.vn_edge .state) 0 e 0 = compAt ⟨3, 4⟩ (m.real .angle_edge 0 e 0)) ∧
    Spec.totalVel p46t.dims m (fun e => m.real (.vn_edge .state) 0 e 0) ≠ 0 := by
  obtain ⟨m, hr, h, -⟩ := exists_ready p46t_run.toValid (1 / 4 : ℝ) prm
    ⟨fun c _ => 1 + c * c, fun e _ => compAt ⟨3, 4⟩ (angE e), fun _ _ _ => 0⟩ zeroFld
  have hu : ∀ e, 0 ≤ e → e < p46t.dims.nedges → m.real (.vn_edge .state) 0 e 0 =
      compAt ⟨3, 4⟩ (m.real .angle_edge 0 e 0) := fun e a b => by
    rw [(hr.hex p46t_run.toValid).1.angle_edge e a b]
    exact congrFun (congrFun (congrArg Fld.vn h) e) 0
  have g := Ready.geo2 hr p46t_run.toValid (by decide) (by decide) (by norm_num)
  refine ⟨m, hr, hu, ?_⟩
  rw [C121_total_of_uniform p46t_run (by decide) (by decide) (by norm_num) hr hu]
  refine mul_ne_zero (Complex.ofReal_ne_zero.2 (ne_of_gt (Finset.sum_pos (fun c hc => ?_) ⟨0, ?_⟩))) fun hz => ?_
  · rw [spec_areaC g.toGeo ⟨(Finset.mem_Ico.1 hc).1, (Finset.mem_Ico.1 hc).2⟩]
    positivity
  · exact Finset.mem_Ico.2 ⟨le_rfl, by decide⟩
  · have := congrArg Complex.re hz
    norm_num at this

/-- The total of the velocity tendencies that `compute_tendency` stores is that of the vorticity flux: gradients of
pressure and kinetic energy, viscosity and hyperviscosity do not contribute. -/
theorem C121_only_vorticity_flux (hv : RunValid p) (hx : 2 ≤ p.nx) (hy : 2 ≤ p.ny) (hdc : 0 < dc)
    {prm : Params ℝ} (hr : Ready p dc prm m) {sw : SWModel ℝ} (hn : sw.NoHook) (h6 : sw.prm.disable_vn = false)
    (hpv : sw.en_pv = true) {split : Bool} {t : ℝ} {m1 : Mem ℝ}
    (he : Exec p.dims (compute_tendency p.dims ⟨defaultKernels p.dims.vl, split⟩ sw .replace .tend .state t) m m1)
    {k : Int} (k0 : 0 ≤ k) (k1 : k < p.dims.nlayers) :
    Spec.totalVel p.dims m (fun e => m1.real (.vn_edge .tend) 0 e k) =
      Spec.totalVel p.dims m (Spec.pvFlux m
        (Spec.vmean m (Spec.pv m (fun i => m.real (.h_cell .state) 0 i k) fun e => m.real (.vn_edge .state) 0 e k))
        fun e => Spec.mean m (fun i => m.real (.h_cell .state) 0 i k) e * m.real (.vn_edge .state) 0 e k) := by
  obtain ⟨hd, hc⟩ := ready_ok hv hr
  have g := Ready.geo2 hr hv.toValid hx hy hdc
  obtain ⟨-, t2, -⟩ := C51_tendency_formula hd hc hn (by decide) he
  rw [totalVel_congr (fun e a b => t2 h6 e k a b k0 k1),
    totalVel_tend g (hr.hex hv.toValid).1.angle_edge sw k0 k1, if_pos hpv]
  simp

/-- a sheared flow over varying thickness with rotation and both viscosities -/
example : ∃ (prm : Params ℝ) (m m1 : Mem ℝ), Ready p46t (1 / 4) prm m ∧
    (SWModel.ofParams prm).prm.disable_vn = false ∧ (SWModel.ofParams prm).en_pv = true ∧
    (SWModel.ofParams prm).en_vdiff = true ∧ (SWModel.ofParams prm).en_vhyper = true ∧ prm.f0 = 1 ∧
    Exec p46t.dims (compute_tendency p46t.dims ⟨defaultKernels p46t.dims.vl, false⟩
      (SWModel.ofParams prm) .replace .tend .state 0) m m1 ∧
    (fun e => m.real (.vn_edge .state) 0 e 0) = (fun e => if e = 0 then 1 else 0) ∧
    m.real (.h_cell .state) 0 5 0 = 7 := by
  obtain ⟨prm, hp⟩ : ∃ q : Params ℝ, q = ⟨1, 10, 1 / 10, 1 / 100, 0, 0, false, false⟩ := ⟨_, rfl⟩
  obtain ⟨m, m1, hr, -, -, hx, he⟩ := exists_tendency p46t_run (1 / 4) prm (noHook_ofParams prm) false
    .replace 0 ⟨fun c _ => 2 + c, fun e _ => if e = 0 then 1 else 0, fun l c k => (l + k) * (1 + c)⟩
  refine ⟨prm, m, m1, hr, by show prm.disable_vn = false; rw [hp], rfl, ?_, ?_, by rw [hp], he,
    funext fun e => congrFun (congrFun (congrArg Fld.vn hx) e) 0,
    (congrFun (congrFun (congrArg Fld.h hx) 5) 0).trans (by norm_num)⟩
  · show decide ((lit 0 : ℝ) < prm.visc_del2) = true
    rw [hp]; simp
  · show decide ((lit 0 : ℝ) < prm.visc_del4) = true
    rw [hp]; simp

/-- In the linear model the tendency of the mean velocity is the Coriolis acceleration of the mean velocity. -/
theorem C121_linear_model (hv : RunValid p) (hx : 2 ≤ p.nx) (hy : 2 ≤ p.ny) (hdc : 0 < dc)
    {prm : Params ℝ} (hr : Ready p dc prm m) {sw : LinModel ℝ} (h6 : sw.prm.disable_vn = false)
    {tn st : StateId} (hne : st ≠ tn) {m1 : Mem ℝ} (he : Exec p.dims (lin_compute_tendency p.dims sw .replace tn st) m m1)
    {k : Int} (k0 : 0 ≤ k) (k1 : k < p.dims.nlayers) :
    Spec.totalVel p.dims m (fun e => m1.real (.vn_edge tn) 0 e k) =
      -(prm.f0 * Complex.I) * Spec.totalVel p.dims m (fun e => m.real (.vn_edge st) 0 e k) := by
  obtain ⟨hd, hc⟩ := ready_ok hv hr
  have g := Ready.geo2 hr hv.toValid hx hy hdc
  have ang := (hr.hex hv.toValid).1.angle_edge
  obtain ⟨-, t2⟩ := C45_formula hd hc hne he
  rw [totalVel_congr (v := fun e => prm.f0 * Spec.tang m (fun i => m.real (.vn_edge st) 0 i k) e +
      (-sw.prm.grav) * Spec.grad m (fun i => m.real (.h_cell st) 0 i k) e) (fun e a b => by
        rw [t2 h6 e k a b k0 k1, (hr.hex hv.toValid).2.2 e a b]; ring),
    totalVel_add, totalVel_mul, totalVel_mul, totalVel_grad g ang, totalVel_tang g ang]
  ring

/-- an execution of the linear model -/
example (sw : LinModel ℝ) (prm : Params ℝ) :
    ∃ m m1 : Mem ℝ, Ready p46t (1 / 4) prm m ∧
      Exec p46t.dims (lin_compute_tendency p46t.dims sw .replace .tend .state) m m1 ∧
      m.real (.vn_edge .state) 0 3 0 = 9 := by
  obtain ⟨m, hr, hx, -⟩ := exists_ready p46t_run.toValid (1 / 4 : ℝ) prm
    ⟨fun c _ => 1 + c, fun e _ => e * e, fun l c k => l + c + k⟩ zeroFld
  obtain ⟨hd, hc⟩ := ready_ok p46t_run hr
  obtain ⟨m1, he, -⟩ := (C45_safe_deterministic hd hc sw .replace (tn := .tend) (st := .state) (by decide)).2
  exact ⟨m, m1, hr, he, (congrFun (congrFun (congrArg Fld.vn hx) 3) 0).trans (by norm_num)⟩

theorem guarded_mean (h : Geo2 p.nx p.ny p.dims.nlayers dc m.mesh) (hc : ConnOK p.dims m) (hny : p.ny % 2 = 0)
    (ang : ∀ e, 0 ≤ e → e < p.dims.nedges → m.real .angle_edge 0 e 0 = angE e)
    (hf : ∀ v, 0 ≤ v → v < p.dims.nvertices → m.real .f_vertex 0 v 0 = 0)
    (sw : SWModel ℝ) {k : Int} (k0 : 0 ≤ k) (k1 : k < p.dims.nlayers) (z : ℂ) :
    Guarded (genSys p.dims sw noHook m)
      (fun x => ∀ v, 0 ≤ v → v < p.dims.nvertices → Spec.kiteMean m (fun c => x.h c k) v ≠ 0)
      (fun x => (∀ v, 0 ≤ v → v < p.dims.nvertices → Spec.curl m (fun e => x.vn e k) v = 0) ∧
        Spec.totalVel p.dims m (fun e => x.vn e k) = 0)
      (fun x => (∀ v, 0 ≤ v → v < p.dims.nvertices → Spec.curl m (fun e => x.vn e k) v = 0) ∧
        Spec.totalVel p.dims m (fun e => x.vn e k) = z) where
  tend := by
    intro mode t o s hN ho hs
    refine ⟨(guarded_irrotational h hc hny hf sw k0 k1).tend hN ho.1 hs.1, ?_⟩
    obtain ⟨-, tu, -⟩ := tend_val (m := m) p.dims sw mode t o s
    have hq : ∀ e, 0 ≤ e → e < p.dims.nedges →
        Spec.vmean m (Spec.pv m (fun i => s.h i k) fun i => s.vn i k) e = 0 := by
      intro e e0 e1
      have hpv : ∀ v, 0 ≤ v → v < p.dims.nvertices →
          Spec.pv m (fun i => s.h i k) (fun i => s.vn i k) v = 0 := fun v a b => by
        rw [Spec.pv, div_eq_iff (hN v a b), hs.1 v a b, hf v a b]; ring
      obtain ⟨a, b⟩ := hc.voe e e0 e1 0 (by omega) (by omega)
      obtain ⟨a', b'⟩ := hc.voe e e0 e1 1 (by omega) (by omega)
      unfold Spec.vmean
      rw [hpv _ a b, hpv _ a' b']; norm_num
    have key : Spec.totalVel p.dims m (Spec.velocityTend m sw k (fun i => s.h i k) fun i => s.vn i k) = 0 := by
      rw [totalVel_tend h ang sw k0 k1, totalVel_congr (v := fun e => (0 : ℝ) * 0) fun e a b => by
        rw [pvFlux_uniform hc _ hq a b]; ring, totalVel_mul]
      simp
    simp only [tu]
    rw [show (fun c => if sw.prm.disable_vn = true then o.vn c k
        else (if mode = .replace then 0 else o.vn c k) + Spec.velocityTend m sw k (fun i => s.h i k)
          (fun i => s.vn i k) c) =
          fun c => (if mode = .replace ∧ sw.prm.disable_vn = false then 0 else 1) * o.vn c k +
          (if sw.prm.disable_vn = true then 0 else 1) *
            Spec.velocityTend m sw k (fun i => s.h i k) (fun i => s.vn i k) c by
        funext c; cases mode <;> cases sw.prm.disable_vn <;> simp,
      totalVel_add, totalVel_mul, totalVel_mul, key, ho.2]
    ring
  map := by
    intro x a hx
    refine ⟨(guarded_irrotational h hc hny hf sw k0 k1).map a hx.1, ?_⟩
    simp only [Fld.map, mul_comm _ a]
    rw [totalVel_mul, hx.2, mul_zero]
  axpy := by
    intro x y a hx hy
    refine ⟨(guarded_irrotational h hc hny hf sw k0 k1).axpy a hx.1 hy.1, ?_⟩
    simp only [Fld.axpy, Fld.zip]
    rw [totalVel_add, totalVel_mul, hx.2, hy.2, mul_zero, add_zero]

/-- Without rotation an irrotational layer keeps its mean velocity exactly, in any number of steps of either stepper,
with any thickness and any viscosity and hyperviscosity. -/
theorem C121_irrotational_run (hv : RunValid p) (hx : 2 ≤ p.nx) (hy : 2 ≤ p.ny)
    (hny : p.ny % 2 = 0) (hdc : 0 < dc) {prm : Params ℝ} (hf : prm.f0 = 0) (hr : Ready p dc prm m)
    {sw : SWModel ℝ} (hn : sw.NoHook)
    {stp : Stepper} {sched : List (ℝ × ℝ)} {split : Bool} {m1 : Mem ℝ}
    (he : Exec p.dims (stp.ctor p.dims ++
      stp.run p.dims ⟨defaultKernels p.dims.vl, split⟩ sw sched) m m1)
    {k : Int} (k0 : 0 ≤ k) (k1 : k < p.dims.nlayers)
    (hN : ∀ st m', CallsAt p.dims ⟨defaultKernels p.dims.vl, split⟩ sw stp sched m st m' →
      ∀ v, 0 ≤ v → v < p.dims.nvertices →
        Spec.kiteMean m (fun c => m'.real (.h_cell st) 0 c k) v ≠ 0)
    (hu : ∀ v, 0 ≤ v → v < p.dims.nvertices →
      Spec.curl m (fun e => m.real (.vn_edge .state) 0 e k) v = 0) :
    Spec.totalVel p.dims m (fun e => m1.real (.vn_edge .state) 0 e k) =
      Spec.totalVel p.dims m (fun e => m.real (.vn_edge .state) 0 e k) := by
  obtain ⟨hd, hc⟩ := ready_ok hv hr
  have hS := genSetup hd hc (hookOK_noHook hn p.dims m)
  obtain ⟨x, e, -, hx⟩ := hS.newRun_inv
    (guarded_mean (Ready.geo2 hr hv.toValid hx hy hdc) hc hny (hr.hex hv.toValid).1.angle_edge
      (fun v a b => by rw [(hr.hex hv.toValid).2.1 v a b, hf]) sw k0 k1
      (Spec.totalVel p.dims m (fun e => m.real (.vn_edge .state) 0 e k))) he
    (fun x y exy hx v v0 v1 => by
      rw [kiteMean_congr hc (v := fun c => x.h c k) (fun c a b => (exy.h c k a b k0 k1).symm) v0 v1]
      exact hx v v0 v1)
    hN ⟨fun v _ _ => by simp [zeroFld, Spec.curl], by
      simpa [zeroFld] using totalVel_mul (m := m) p.dims 0 fun _ => 0⟩ ⟨hu, rfl⟩
  rw [← hx]
  exact totalVel_congr fun i a b => e.vn i k a b k0 k1

/-- a uniform flow over varying thickness -/
example (prm : Params ℝ) (hf : prm.f0 = 0) : ∃ m m1 : Mem ℝ, Ready p46t (1 / 4) prm m ∧
    Exec p46t.dims ((Stepper.lsrk 1).ctor p46t.dims ++ (Stepper.lsrk 1).run p46t.dims
      ⟨defaultKernels p46t.dims.vl, false⟩ (SWModel.ofParams prm) [(0, 1)]) m m1 ∧
    (∀ st m', CallsAt p46t.dims ⟨defaultKernels p46t.dims.vl, false⟩ (SWModel.ofParams prm)
      (.lsrk 1) [(0, 1)] m st m' → ∀ v, 0 ≤ v → v < p46t.dims.nvertices →
        Spec.kiteMean m (fun c => m'.real (.h_cell st) 0 c 0) v ≠ 0) ∧
    (∀ v, 0 ≤ v → v < p46t.dims.nvertices →
      Spec.curl m (fun e => m.real (.vn_edge .state) 0 e 0) v = 0) ∧
    m.real (.vn_edge .state) 0 0 0 = 1 ∧ m.real (.h_cell .state) 0 3 0 = 10 := by
  obtain ⟨m, m1, hr, hx, he⟩ := exists_newRun p46t_run (1 / 4) prm (noHook_ofParams prm) false
    (.lsrk 1) [(0, 1)] ⟨fun c _ => 1 + (c : ℝ) ^ 2, fun e _ => Real.cos (angE e), fun l c k => (l + k) * (1 + c)⟩
  have g := Ready.geo2 hr p46t_run.toValid (by decide) (by decide) (by norm_num)
  have hu : ∀ e, m.real (.vn_edge .state) 0 e 0 = Real.cos (angE e) := fun e =>
    congrFun (congrFun (congrArg Fld.vn hx) e) 0
  refine ⟨m, m1, hr, he, fun st m' hca v v0 v1 => ?_, ?_, ?_, ?_⟩
  · obtain ⟨rfl, hs⟩ := callsAt_euler hca
    rw [hx] at hs
    rw [show (fun c => m'.real (.h_cell .state) 0 c 0) = fun c : Int => 1 + (c : ℝ) ^ 2 from
      funext fun c => congrFun (congrFun (congrArg Fld.h hs) c) 0, spec_kiteMean g.toGeo _ v0 v1]
    simp only [Mv]
    positivity
  · refine (harmonic_of_uniform g (hr.hex p46t_run.toValid).1.angle_edge (a := 1) (b := 0) fun e a b => ?_).2
    rw [hu, (hr.hex p46t_run.toValid).1.angle_edge e a b]
    ring
  · rw [hu]; simp [angE]
  · exact (congrFun (congrFun (congrArg Fld.h hx) 3) 0).trans (by norm_num)

/-- a functional that an operator multiplies by a number -/
theorem functional_poly {M : Type*} [AddCommGroup M] [Module ℝ M] {A : Module.End ℝ M} {Λ : M →ₗ[ℝ] ℂ} {μ : ℂ}
    (h : ∀ x, Λ (A x) = μ * Λ x) (P : ℝ[X]) (x : M) : Λ (aeval A P x) = aeval μ P * Λ x := by
  induction P using Polynomial.induction_on' with
  | add P Q hP hQ => rw [map_add, LinearMap.add_apply, map_add, hP, hQ, map_add, add_mul]
  | monomial n a =>
    have pw : ∀ n : ℕ, Λ ((A ^ n) x) = μ ^ n * Λ x := fun n => by
      induction n with
      | zero => simp
      | succ n ih => rw [pow_succ', Module.End.mul_apply, h, ih, pow_succ', mul_assoc]
    rw [aeval_monomial, Module.End.mul_apply, Module.algebraMap_end_apply, map_smul, pw, aeval_monomial,
      Complex.coe_algebraMap, Complex.real_smul, mul_assoc]

/-- Small disturbances of rest: the derivative of the mean velocity performs an inertial oscillation, whatever waves the
disturbance contains, with any viscosity and hyperviscosity and with the factor per step of C95. -/
theorem C121_mean_oscillates (stp : Stepper) (hv : RunValid p) (hnx : 2 ≤ p.nx) (hny : 2 ≤ p.ny) (hdc : 0 < dc)
    {prm : Params ℝ} (n1 : prm.disable_h = false) (n2 : prm.disable_vn = false)
    {H : ℝ} (H0 : 0 < H) {k : Int} (k0 : 0 ≤ k) (k1 : k < p.dims.nlayers) {m m1 : ℝ → Mem ℝ}
    (hr : ∀ ε, Ready p dc prm (m ε)) {a b : Int → ℝ}
    (ha0 : ∀ c, 0 ≤ c → c < p.dims.ncells → (m 0).real (.h_cell .state) 0 c k = H)
    (hb0 : ∀ e, 0 ≤ e → e < p.dims.nedges → (m 0).real (.vn_edge .state) 0 e k = 0)
    (ha : ∀ c, 0 ≤ c → c < p.dims.ncells →
      HasDerivAt (fun ε => (m ε).real (.h_cell .state) 0 c k) (a c) 0)
    (hb : ∀ e, 0 ≤ e → e < p.dims.nedges →
      HasDerivAt (fun ε => (m ε).real (.vn_edge .state) 0 e k) (b e) 0)
    {sched : List (ℝ × ℝ)} {split : Bool} (he : ∀ ε, Exec p.dims (stp.ctor p.dims ++ stp.run p.dims
      ⟨defaultKernels p.dims.vl, split⟩ (SWModel.ofParams prm) sched) (m ε) (m1 ε)) :
    ∃ b' : Int → ℝ, (∀ e, 0 ≤ e → e < p.dims.nedges →
        HasDerivAt (fun ε => (m1 ε).real (.vn_edge .state) 0 e k) (b' e) 0) ∧
      Spec.totalVel p.dims (m 0) b' =
        (sched.map fun q => aeval (-(prm.f0 * q.2 * Complex.I)) (stabPoly stp)).prod *
          Spec.totalVel p.dims (m 0) b := by
  have hg := fun ε => Ready.geo2 (hr ε) hv.toValid hnx hny hdc
  have hf := fun ε => (Ready.hex hv.toValid (hr ε)).2.1
  have ang := ((hr 0).hex hv.toValid).1.angle_edge
  set sw := SWModel.ofParams prm with hsw
  have v := fun ε => by
    obtain ⟨hd, hc⟩ := ready_ok hv (hr ε)
    exact ((genSetup hd hc (hookOK_noHook (noHook_ofParams prm) p.dims (m ε))).newRun (he ε)).2.2
  have init : Tangent p.dims k (fun ε => (m ε).fld .state) H (a, b) := ⟨ha0, hb0, ha, hb⟩
  have TT := visc_tend hg hf (sw := sw) rfl rfl rfl rfl n1 n2 k0 k1 H0
  set ν := (if sw.en_vdiff then sw.prm.visc_del2 else 0) with hν
  set κ := (if sw.en_vhyper then sw.prm.visc_del4 else 0) with hκ
  have key := gen_run TT stp sched (x := fun ε => (zeroFld, (m ε).fld .state)) init
  set A := restOp (m 0) sw.prm.grav prm.f0 H + viscOp (m 0) ν κ with hA
  let Λ : ((Int → ℝ) × (Int → ℝ)) →ₗ[ℝ] ℂ :=
    { toFun := fun w => Spec.totalVel p.dims (m 0) w.2
      map_add' := fun x y => totalVel_add _ x.2 y.2
      map_smul' := fun c x => by
        rw [RingHom.id_apply, Complex.real_smul]
        exact totalVel_mul _ c x.2 }
  have lap : ∀ u : Int → ℝ, Spec.totalVel p.dims (m 0) (lapU (m 0) u) = 0 := fun u => by
    rw [totalVel_congr (v := fun e => Spec.grad (m 0) (Spec.div (m 0) u) e +
        (-1) * Spec.gradT (m 0) (Spec.curl (m 0) u) e) (fun e _ _ => by unfold lapU; ring),
      totalVel_add, totalVel_mul, totalVel_grad (hg 0) ang, totalVel_gradT (hg 0) ang]
    ring
  have step : ∀ x, Λ (A x) = -(prm.f0 * Complex.I) * Λ x := fun x => by
    show Spec.totalVel p.dims (m 0) (fun e => (prm.f0 * Spec.tang (m 0) x.2 e - sw.prm.grav * Spec.grad (m 0) x.1 e) +
      (ν * lapU (m 0) x.2 e - κ * lapU (m 0) (lapU (m 0) x.2) e)) = _ * Spec.totalVel p.dims (m 0) x.2
    rw [totalVel_congr (v := fun e => (prm.f0 * Spec.tang (m 0) x.2 e + (-sw.prm.grav) * Spec.grad (m 0) x.1 e) +
        (ν * lapU (m 0) x.2 e + (-κ) * lapU (m 0) (lapU (m 0) x.2) e)) (fun e _ _ => by ring),
      totalVel_add, totalVel_add, totalVel_add, totalVel_mul, totalVel_mul, totalVel_mul, totalVel_mul, lap, lap,
      totalVel_grad (hg 0) ang, totalVel_tang (hg 0) ang]
    ring
  have fold : ∀ (L : List (ℝ × ℝ)) x, Λ (L.foldl (fun w a => aeval (a.2 • A) (stabPoly stp) w) x) =
      (L.map fun q => aeval (-(prm.f0 * q.2 * Complex.I)) (stabPoly stp)).prod * Λ x := by
    intro L
    induction L with
    | nil => intro x; simp
    | cons q L ih =>
      intro x
      have := functional_poly (A := q.2 • A) (Λ := Λ) (μ := -(prm.f0 * q.2 * Complex.I)) (fun x => by
        rw [LinearMap.smul_apply, map_smul, step, Complex.real_smul]; ring) (stabPoly stp) x
      rw [List.foldl_cons, ih, List.map_cons, List.prod_cons, this]
      ring
  refine ⟨_, fun e e0 e1 => ?_, fold sched (a, b)⟩
  exact (key.v1 e e0 e1).congr_of_eventuallyEq (Filter.Eventually.of_forall fun ε => (v ε).vn e k e0 e1 k0 k1)

/-- disturbances of every cell and edge, with rotation and both viscosities -/
example (stp : Stepper) : ∃ (prm : Params ℝ) (m m1 : ℝ → Mem ℝ),
    prm.disable_h = false ∧ prm.disable_vn = false ∧ 0 < prm.visc_del2 ∧ 0 < prm.visc_del4 ∧ prm.f0 ≠ 0 ∧
    (∀ ε, Ready p46t (1 / 4) prm (m ε)) ∧
    (∀ c, 0 ≤ c → c < p46t.dims.ncells → (m 0).real (.h_cell .state) 0 c 0 = 3) ∧
    (∀ e, 0 ≤ e → e < p46t.dims.nedges → (m 0).real (.vn_edge .state) 0 e 0 = 0) ∧
    (∀ c, 0 ≤ c → c < p46t.dims.ncells →
      HasDerivAt (fun ε => (m ε).real (.h_cell .state) 0 c 0) (c : ℝ) 0) ∧
    (∀ e, 0 ≤ e → e < p46t.dims.nedges →
      HasDerivAt (fun ε => (m ε).real (.vn_edge .state) 0 e 0) (e : ℝ) 0) ∧
    ∀ ε, Exec p46t.dims (stp.ctor p46t.dims ++ stp.run p46t.dims
      ⟨defaultKernels p46t.dims.vl, true⟩ (SWModel.ofParams prm) [(0, 100), (100, 7)]) (m ε) (m1 ε) := by
  obtain ⟨prm, hp⟩ : ∃ q : Params ℝ, q = ⟨1, 10, 1 / 10, 1 / 100, 0, 0, false, false⟩ := ⟨_, rfl⟩
  have ex := fun ε : ℝ => exists_ready p46t_run.toValid (1 / 4) prm
    ⟨fun c _ => 3 + ε * c, fun e _ => ε * e, fun _ _ _ => 0⟩ zeroFld
  choose m hr hx _ using ex
  have run := fun ε => by
    obtain ⟨hd, hc⟩ := ready_ok p46t_run (hr ε)
    exact ((C40_safe_deterministic hd hc (noHook_ofParams prm) true).2.2 stp [(0, 100), (100, 7)]).2.exists
  choose m1 he using run
  have eh : ∀ ε c, (m ε).real (.h_cell .state) 0 c 0 = 3 + ε * c := fun ε c =>
    congrFun (congrFun (congrArg Fld.h (hx ε)) c) 0
  have ev : ∀ ε e, (m ε).real (.vn_edge .state) 0 e 0 = ε * e := fun ε e =>
    congrFun (congrFun (congrArg Fld.vn (hx ε)) e) 0
  refine ⟨prm, m, m1, by rw [hp], by rw [hp], by rw [hp]; norm_num, by rw [hp]; norm_num, by rw [hp]; norm_num, hr,
    fun c _ _ => by rw [eh]; simp, fun e _ _ => by rw [ev]; simp, fun c _ _ => ?_, fun e _ _ => ?_, he⟩
  · simp only [eh]
    exact (((hasDerivAt_id (0 : ℝ)).mul_const (c : ℝ)).const_add 3).congr_deriv (by simp)
  · simp only [ev]
    exact ((hasDerivAt_id (0 : ℝ)).mul_const (e : ℝ)).congr_deriv (by simp)

end Props
end
end Omega
