import Verif.Props.RestCourant
import Verif.Props.Inertial
import Verif.Props.Irrotational
import Verif.Props.Geostrophic

/-!
# C104: small disturbances of rest keep their potential vorticity, vertex by vertex

The linearised potential vorticity of a disturbance of rest, `ζ - f η / H` (multiplied by `H` here so
that nothing is divided), is a linear function of the disturbance that the linear tendency leaves
alone, at every vertex separately.  Every stepper therefore keeps it exactly, without a condition on
the time step.
-/

set_option linter.unusedVariables false
set_option linter.unusedSectionVars false

namespace Omega
noncomputable section

namespace Spec

open Model

/-- Linearised potential vorticity on a vertex, times the thickness `H` at rest: `H` times the
circulation of the velocity per unit area, minus the Coriolis parameter times the thickness there. -/
def restPv (m : Mem ℝ) (f H : ℝ) (a b : Int → ℝ) (v : Int) : ℝ :=
  H * curl m b v - f * kiteMean m a v

end Spec

namespace Props

open Prog Model Refine Hex Polynomial

variable {p : MeshParams} {dc : ℝ} {m : Mem ℝ}

/-- the linearised potential vorticity as a linear form -/
def restPvForm (m : Mem ℝ) (f H : ℝ) (v : Int) : ((Int → ℝ) × (Int → ℝ)) →ₗ[ℝ] ℝ where
  toFun w := Spec.restPv m f H w.1 w.2 v
  map_add' x y := by
    have e1 := curl_lin (m := m) x.2 y.2 1 1 v
    have e2 := kiteMean_lin (m := m) x.1 y.1 1 1 v
    simp only [one_mul] at e1 e2
    show H * Spec.curl m (fun e => x.2 e + y.2 e) v - f * Spec.kiteMean m (fun e => x.1 e + y.1 e) v = _
    rw [e1, e2]; unfold Spec.restPv; ring
  map_smul' a x := by
    have e1 := curl_lin (m := m) x.2 0 a 0 v
    have e2 := kiteMean_lin (m := m) x.1 0 a 0 v
    simp only [zero_mul, add_zero] at e1 e2
    show H * Spec.curl m (fun e => a * x.2 e) v - f * Spec.kiteMean m (fun e => a * x.1 e) v =
      a * Spec.restPv m f H x.1 x.2 v
    rw [e1, e2]; unfold Spec.restPv; ring

/-- the linear tendency has no potential vorticity -/
theorem restPv_tend (h : Geo2 p.nx p.ny p.dims.nlayers dc m.mesh) (hny : p.ny % 2 = 0) (g f H : ℝ)
    (a b : Int → ℝ) {v : Int} (v0 : 0 ≤ v) (v1 : v < p.dims.nvertices) :
    Spec.restPv m f H (fun c => -(H * Spec.div m b c))
      (fun e => f * Spec.tang m b e - g * Spec.grad m a e) v = 0 := by
  have e1 := curl_lin (m := m) (Spec.tang m b) (Spec.grad m a) f (-g) v
  have e2 := kiteMean_lin (m := m) (Spec.div m b) 0 (-H) 0 v
  simp only [zero_mul, add_zero, neg_mul, ← sub_eq_add_neg] at e1 e2
  unfold Spec.restPv
  rw [e1, e2, curl_tang h hny b v0 v1, curl_grad h.toGeo hny _ v0 v1]
  ring

theorem restPv_poly {Λ : ((Int → ℝ) × (Int → ℝ)) →ₗ[ℝ] ℝ} {A : Module.End ℝ ((Int → ℝ) × (Int → ℝ))}
    (h : ∀ x, Λ (A x) = 0) (P : ℝ[X]) (x : (Int → ℝ) × (Int → ℝ)) :
    Λ (aeval A P x) = P.eval 0 * Λ x := by
  induction P using Polynomial.induction_on' with
  | add P Q hP hQ => rw [map_add, LinearMap.add_apply, map_add, hP, hQ, eval_add]; ring
  | monomial n a =>
    rw [aeval_monomial, Module.End.mul_apply, Module.algebraMap_end_apply, map_smul, eval_monomial]
    cases n with
    | zero => simp
    | succ n => rw [pow_succ', Module.End.mul_apply, h]; simp

theorem stabPoly_eval_zero (stp : Stepper) : (stabPoly stp).eval 0 = 1 := by
  have := stabPoly_zero stp
  rw [aeval_def, ← Polynomial.eval_map, ← map_zero (algebraMap ℝ ℂ), Polynomial.eval_map_algebraMap,
    aeval_algebraMap_apply] at this
  simpa using this

/-- The linear model of the hierarchical programs: the potential vorticity of the tendencies that its
`compute_tendency` stores is zero at every vertex. -/
theorem C104_linear_model (hv : RunValid p) (hx : 2 ≤ p.nx) (hy : 2 ≤ p.ny) (hny : p.ny % 2 = 0)
    (hdc : 0 < dc) {prm : Params ℝ} (hr : Ready p dc prm m) {sw : LinModel ℝ} {tn st : StateId}
    (hne : st ≠ tn) (h1 : sw.prm.disable_h = false) (h2 : sw.prm.disable_vn = false)
    {m1 : Mem ℝ} (he : Exec p.dims (lin_compute_tendency p.dims sw .replace tn st) m m1)
    {k : Int} (k0 : 0 ≤ k) (k1 : k < p.dims.nlayers) {v : Int} (v0 : 0 ≤ v)
    (v1 : v < p.dims.nvertices) :
    Spec.restPv m prm.f0 sw.h0 (fun c => m1.real (.h_cell tn) 0 c k)
      (fun e => m1.real (.vn_edge tn) 0 e k) v = 0 := by
  obtain ⟨hd, hc⟩ := ready_ok hv hr
  obtain ⟨t1, t2⟩ := C45_formula hd hc hne he
  have key := restPv_tend (Ready.geo2 hr hv.toValid hx hy hdc) hny sw.prm.grav prm.f0 sw.h0
    (fun c => m.real (.h_cell st) 0 c k) (fun e => m.real (.vn_edge st) 0 e k) v0 v1
  unfold Spec.restPv at key ⊢
  rw [kiteMean_congr hc (fun c a b => t1 h1 c k a b k0 k1) v0 v1,
    curl_congr hc (fun e a b => t2 h2 e k a b k0 k1) v0 v1,
    curl_congr hc (v := fun e => prm.f0 * Spec.tang m (fun i => m.real (.vn_edge st) 0 i k) e -
          sw.prm.grav * Spec.grad m (fun i => m.real (.h_cell st) 0 i k) e)
      (fun e a b => by rw [(Ready.hex hv.toValid hr).2.2 e a b]) v0 v1]
  exact key

/-- a rotating frame, a flow with divergence and vorticity and uneven thickness -/
example (sw : LinModel ℝ) (prm : Params ℝ) (h1 : sw.prm.disable_h = false) (h2 : sw.prm.disable_vn = false) :
    ∃ m m1 : Mem ℝ, RunValid p46t ∧ p46t.ny % 2 = 0 ∧ Ready p46t (1 / 4) prm m ∧
      Exec p46t.dims (lin_compute_tendency p46t.dims sw .replace .tend .state) m m1 ∧
      (∀ c k, m.real (.h_cell .state) 0 c k = 1 + c) ∧ ∀ e k, m.real (.vn_edge .state) 0 e k = e * e := by
  obtain ⟨m, hr, hx, -⟩ := exists_ready p46t_run.toValid (1 / 4 : ℝ) prm
    ⟨fun c _ => 1 + c, fun e _ => e * e, fun l c k => l + c + k⟩ zeroFld
  obtain ⟨hd, hc⟩ := ready_ok p46t_run hr
  obtain ⟨m1, he, -⟩ := (C45_safe_deterministic hd hc sw .replace (tn := .tend) (st := .state) (by decide)).2
  exact ⟨m, m1, p46t_run, by simp [p46t], hr, he,
    fun c k => congrFun (congrFun (congrArg Fld.h hx) c) k,
    fun e k => congrFun (congrFun (congrArg Fld.vn hx) e) k⟩

/-- Take a family of initial states that is differentiable at the state of rest with thickness `H`, and
run any stepper with any steps from each of them.  The results are differentiable at rest, and the
linearised potential vorticity of the derivative is at every vertex what it was at the start. -/
theorem C104_rest_pv (stp : Stepper) (hv : RunValid p) (hnx : 2 ≤ p.nx) (hny2 : 2 ≤ p.ny)
    (hny : p.ny % 2 = 0) (hdc : 0 < dc) {prm : Params ℝ} (n1 : prm.disable_h = false)
    (n2 : prm.disable_vn = false) (n3 : prm.visc_del2 ≤ 0) (n4 : prm.visc_del4 ≤ 0)
    {H : ℝ} (H0 : 0 < H) {k : Int} (k0 : 0 ≤ k) (k1 : k < p.dims.nlayers) {m m1 : ℝ → Mem ℝ}
    (hr : ∀ ε, Ready p dc prm (m ε)) {a b : Int → ℝ}
    (ha0 : ∀ c, 0 ≤ c → c < p.dims.ncells → (m 0).real (.h_cell .state) 0 c k = H)
    (hb0 : ∀ e, 0 ≤ e → e < p.dims.nedges → (m 0).real (.vn_edge .state) 0 e k = 0)
    (ha : ∀ c, 0 ≤ c → c < p.dims.ncells →
      HasDerivAt (fun ε => (m ε).real (.h_cell .state) 0 c k) (a c) 0)
    (hb : ∀ e, 0 ≤ e → e < p.dims.nedges →
      HasDerivAt (fun ε => (m ε).real (.vn_edge .state) 0 e k) (b e) 0)
    {sched : List (ℝ × ℝ)} {split : Bool} (he : ∀ ε, Exec p.dims (stp.ctor p.dims ++ stp.run p.dims
      ⟨defaultKernels p.dims.vl, split⟩ (SWModel.ofParams prm) sched) (m ε) (m1 ε)) :
    ∃ a' b' : Int → ℝ,
      (∀ c, 0 ≤ c → c < p.dims.ncells →
        HasDerivAt (fun ε => (m1 ε).real (.h_cell .state) 0 c k) (a' c) 0) ∧
      (∀ e, 0 ≤ e → e < p.dims.nedges →
        HasDerivAt (fun ε => (m1 ε).real (.vn_edge .state) 0 e k) (b' e) 0) ∧
      ∀ v, 0 ≤ v → v < p.dims.nvertices →
        Spec.restPv (m 0) prm.f0 H a' b' v = Spec.restPv (m 0) prm.f0 H a b v := by
  have hg := fun ε => Ready.geo2 (hr ε) hv.toValid hnx hny2 hdc
  have hf := fun ε => (Ready.hex hv.toValid (hr ε)).2.1
  set sw := SWModel.ofParams prm with hsw
  have s5 : sw.en_vdiff = false := by
    show decide ((lit 0 : ℝ) < prm.visc_del2) = false
    simp [n3]
  have s6 : sw.en_vhyper = false := by
    show decide ((lit 0 : ℝ) < prm.visc_del4) = false
    simp [n4]
  have v := fun ε => by
    obtain ⟨hd, hc⟩ := ready_ok hv (hr ε)
    exact ((genSetup hd hc (hookOK_noHook (noHook_ofParams prm) p.dims (m ε))).newRun (he ε)).2.2
  have init : Tangent p.dims k (fun ε => (m ε).fld .state) H (a, b) := ⟨ha0, hb0, ha, hb⟩
  have key := tangent_run hg hf (sw := sw) rfl rfl rfl rfl s5 s6 n1 n2 H0 stp sched
    (x := fun ε => (zeroFld, (m ε).fld .state)) init
  set w := sched.foldl (fun w a => aeval (a.2 • restOp (m 0) sw.prm.grav prm.f0 H) (stabPoly stp) w) (a, b)
    with hw
  refine ⟨w.1, w.2, fun c c0 c1 => ?_, fun e e0 e1 => ?_, fun i i0 i1 => ?_⟩
  · exact (key.h1 c c0 c1).congr_of_eventuallyEq (Filter.Eventually.of_forall fun ε => (v ε).h c k c0 c1 k0 k1)
  · exact (key.v1 e e0 e1).congr_of_eventuallyEq (Filter.Eventually.of_forall fun ε => (v ε).vn e k e0 e1 k0 k1)
  · have kill : ∀ (dt : ℝ) x, restPvForm (m 0) prm.f0 H i ((dt • restOp (m 0) sw.prm.grav prm.f0 H) x) = 0 :=
      fun dt x => by
        rw [LinearMap.smul_apply, map_smul]
        exact (congrArg (dt * ·) (restPv_tend (hg 0) hny sw.prm.grav prm.f0 H x.1 x.2 i0 i1)).trans (mul_zero _)
    have run : ∀ (L : List (ℝ × ℝ)) x, restPvForm (m 0) prm.f0 H i
        (L.foldl (fun w a => aeval (a.2 • restOp (m 0) sw.prm.grav prm.f0 H) (stabPoly stp) w) x) =
        restPvForm (m 0) prm.f0 H i x := by
      intro L
      induction L with
      | nil => exact fun x => rfl
      | cons q L ih =>
        intro x
        rw [List.foldl_cons, ih, restPv_poly (kill q.2), stabPoly_eval_zero, one_mul]
    exact run sched (a, b)

/-- two steps of different size, with rotation, of a disturbance of thickness and velocity -/
example (stp : Stepper) : ∃ (prm : Params ℝ) (m m1 : ℝ → Mem ℝ) (sched : List (ℝ × ℝ)),
    RunValid p46t ∧ 2 ≤ p46t.nx ∧ 2 ≤ p46t.ny ∧ p46t.ny % 2 = 0 ∧ prm.disable_h = false ∧
    prm.disable_vn = false ∧ prm.visc_del2 ≤ 0 ∧ prm.visc_del4 ≤ 0 ∧ prm.f0 = 1 ∧ prm.grav = 10 ∧
    (0 : Int) ≤ 2 ∧ 2 < p46t.dims.nlayers ∧ (∀ ε, Ready p46t 1 prm (m ε)) ∧
    (∀ c, 0 ≤ c → c < p46t.dims.ncells → (m 0).real (.h_cell .state) 0 c 2 = 3) ∧
    (∀ e, 0 ≤ e → e < p46t.dims.nedges → (m 0).real (.vn_edge .state) 0 e 2 = 0) ∧
    (∀ c, 0 ≤ c → c < p46t.dims.ncells →
      HasDerivAt (fun ε => (m ε).real (.h_cell .state) 0 c 2) (c : ℝ) 0) ∧
    (∀ e, 0 ≤ e → e < p46t.dims.nedges →
      HasDerivAt (fun ε => (m ε).real (.vn_edge .state) 0 e 2) ((e : ℝ) ^ 2) 0) ∧
    sched = [(0, 100), (100, 7)] ∧
    ∀ ε, Exec p46t.dims (stp.ctor p46t.dims ++ stp.run p46t.dims
      ⟨defaultKernels p46t.dims.vl, true⟩ (SWModel.ofParams prm) sched) (m ε) (m1 ε) := by
  obtain ⟨prm, hprm⟩ : ∃ q : Params ℝ, q = ⟨1, 10, 0, 0, 0, 0, false, false⟩ := ⟨_, rfl⟩
  have ex := fun ε : ℝ => exists_ready p46t_run.toValid 1 prm
    ⟨fun c _ => 3 + ε * c, fun e _ => ε * e ^ 2, fun _ _ _ => 0⟩ zeroFld
  choose m hr hx _ using ex
  have run := fun ε => by
    obtain ⟨hd, hc⟩ := ready_ok p46t_run (hr ε)
    exact ((C40_safe_deterministic hd hc (noHook_ofParams prm) true).2.2 stp [(0, 100), (100, 7)]).2.exists
  choose m1 he using run
  have eh : ∀ ε c, (m ε).real (.h_cell .state) 0 c 2 = 3 + ε * c := fun ε c =>
    congrFun (congrFun (congrArg Fld.h (hx ε)) c) 2
  have ev : ∀ ε e, (m ε).real (.vn_edge .state) 0 e 2 = ε * e ^ 2 := fun ε e =>
    congrFun (congrFun (congrArg Fld.vn (hx ε)) e) 2
  refine ⟨prm, m, m1, _, p46t_run, by simp [p46t], by simp [p46t], by simp [p46t], by rw [hprm], by rw [hprm],
    by rw [hprm], by rw [hprm], by rw [hprm], by rw [hprm], by norm_num,
    by norm_num [p46t, MeshParams.dims, ceilDiv], hr,
    fun c _ _ => by rw [eh]; simp, fun e _ _ => by rw [ev]; simp, fun c _ _ => ?_, fun e _ _ => ?_, rfl, he⟩
  · simp only [eh]
    exact (((hasDerivAt_id (0 : ℝ)).mul_const (c : ℝ)).const_add 3).congr_deriv (by ring)
  · simp only [ev]
    exact ((hasDerivAt_id (0 : ℝ)).mul_const ((e : ℝ) ^ 2)).congr_deriv (by ring)

end Props
end
end Omega
