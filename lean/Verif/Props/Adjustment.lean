import Verif.Props.LinearPv

/-!
# C107: geostrophic adjustment

A disturbance of rest in geostrophic balance (velocity of a stream function on the vertices, thickness
that balances it) does not move, to first order.  The energy product of any other disturbance with a
balanced one never changes either, whatever the steps: a run cannot create or destroy the balanced part
of a disturbance.
-/

set_option linter.unusedVariables false
set_option linter.unusedSectionVars false

namespace Omega
noncomputable section

namespace Spec

open Model

/-- The disturbance `(a, b)` of thickness and normal velocity is in geostrophic balance: `b` is the velocity of
the stream function `ψ` and gravity times the disturbance of thickness is a constant minus the Coriolis
parameter times the mean of `ψ` over the cell. -/
structure Balanced (d : Dims) (m : Mem ℝ) (g f K : ℝ) (ψ a b : Int → ℝ) : Prop where
  vel : ∀ e, 0 ≤ e → e < d.nedges → b e = gradT m ψ e
  height : ∀ c, 0 ≤ c → c < d.ncells → g * a c = K - f * cellMean m d ψ c

/-- the energy product of two disturbances of rest -/
def restProduct (d : Dims) (m : Mem ℝ) (g H : ℝ) (a b a' b' : Int → ℝ) : ℝ :=
  g * ∑ c ∈ cells d, areaC m c * (a c * a' c) + H * ∑ e ∈ edges d, dcE m e * dvE m e * (b e * b' e)

end Spec

namespace Props

open Prog Model Refine Hex Polynomial

variable {p : MeshParams} {dc : ℝ} {m : Mem ℝ}

local notation "⟪" x ", " y "⟫" => inner ℝ x y

/-- the linear tendency of a balanced disturbance is zero -/
theorem balanced_tend (h : Geo2 p.nx p.ny p.dims.nlayers dc m.mesh) (hc : ConnOK p.dims m)
    (hny : p.ny % 2 = 0) {g f H K : ℝ} {ψ a b : Int → ℝ} (hb : Spec.Balanced p.dims m g f K ψ a b) :
    restMap p.dims m g H (restOp m g f H (a, b)) = 0 := by
  have e1 : ∀ c, 0 ≤ c → c < p.dims.ncells → (restOp m g f H (a, b)).1 c = 0 := fun c c0 c1 => by
    show -(H * Spec.div m b c) = 0
    rw [div_congr hc hb.vel c0 c1, div_gradT h hny _ c0 c1, mul_zero, neg_zero]
  have e2 : ∀ e, 0 ≤ e → e < p.dims.nedges → (restOp m g f H (a, b)).2 e = 0 := fun e e0 e1 => by
    show f * Spec.tang m b e - g * Spec.grad m a e = 0
    have t : Spec.tang m b e = Spec.tang m (Spec.gradT m ψ) e := by
      unfold Spec.tang
      refine Finset.sum_congr rfl fun j hj => ?_
      obtain ⟨j0, j1⟩ := Finset.mem_Ico.1 hj
      obtain ⟨a, b⟩ := hc.eoe e e0 e1 j j0 j1
      rw [hb.vel _ a b]
    rw [t, tang_gradT h hc hny _ e0 e1]
    obtain ⟨a0, a1⟩ := hc.coe e e0 e1 0 (by norm_num) (by norm_num)
    obtain ⟨b0, b1⟩ := hc.coe e e0 e1 1 (by norm_num) (by norm_num)
    have ha := hb.height _ a0 a1
    have hb := hb.height _ b0 b1
    unfold Spec.grad Spec.cellOf
    rw [← mul_div_assoc g, mul_sub g, ha, hb]
    ring
  ext i
  rcases i with c | e
  · obtain ⟨c0, c1⟩ := Finset.mem_Ico.1 c.2
    show √_ * (restOp m g f H (a, b)).1 c = 0
    rw [e1 c c0 c1, mul_zero]
  · obtain ⟨c0, c1⟩ := Finset.mem_Ico.1 e.2
    show √_ * (restOp m g f H (a, b)).2 e = 0
    rw [e2 e c0 c1, mul_zero]

/-- the scaled vector determines the values on the mesh -/
theorem rest_values (h : Geo2 p.nx p.ny p.dims.nlayers dc m.mesh) {g H : ℝ} (g0 : 0 < g) (H0 : 0 < H)
    {x y : (Int → ℝ) × (Int → ℝ)} (e : restMap p.dims m g H x = restMap p.dims m g H y) :
    (∀ c, 0 ≤ c → c < p.dims.ncells → x.1 c = y.1 c) ∧ ∀ e, 0 ≤ e → e < p.dims.nedges → x.2 e = y.2 e := by
  have w := w_pos; have d0 := h.dc_pos
  constructor
  · intro c c0 c1
    have hc : c ∈ Spec.cells p.dims := mem_cells.mpr ⟨c0, c1⟩
    have := congrArg (fun v : EuclideanSpace ℝ (Spec.cells p.dims ⊕ Spec.edges p.dims) => v (.inl ⟨c, hc⟩)) e
    simp only [restMap, LinearMap.coe_mk, AddHom.coe_mk, Sum.elim_inl] at this
    refine mul_left_cancel₀ (ne_of_gt ?_) this
    rw [spec_areaC h.toGeo ⟨c0, c1⟩]
    positivity
  · intro c c0 c1
    have hc : c ∈ Spec.edges p.dims := Finset.mem_Ico.mpr ⟨c0, c1⟩
    have := congrArg (fun v : EuclideanSpace ℝ (Spec.cells p.dims ⊕ Spec.edges p.dims) => v (.inr ⟨c, hc⟩)) e
    simp only [restMap, LinearMap.coe_mk, AddHom.coe_mk, Sum.elim_inr] at this
    refine mul_left_cancel₀ (ne_of_gt ?_) this
    rw [spec_dcE h.toGeo c0 c1, spec_dvE h.toGeo c0 c1]
    positivity

theorem ExactSkew.fixed {V E : Type*} [AddCommGroup V] [Module ℝ V] [NormedAddCommGroup E]
    [InnerProductSpace ℝ E] {T : V →ₗ[ℝ] E} {z : Module.End ℝ V} (h : Lax.ExactSkew T z) (P : ℝ[X]) {x y : V}
    (hy : T y = T x) (hx : T (z x) = 0) : T (aeval z P y) = P.eval 0 • T x := by
  have hy' : T (z y) = 0 := by
    have := h.ker (y - x) (by rw [map_sub, hy, sub_self])
    rwa [map_sub, map_sub, hx, sub_zero] at this
  rw [← hy]
  induction P using Polynomial.induction_on' with
  | add P Q hP hQ => rw [map_add, LinearMap.add_apply, map_add, hP, hQ, eval_add, add_smul]
  | monomial n a =>
    rw [aeval_monomial, Module.End.mul_apply, Module.algebraMap_end_apply, map_smul, eval_monomial]
    cases n with
    | zero => simp
    | succ n =>
      rw [pow_succ, Module.End.mul_apply]
      have := h.poly_ker (X ^ n) hy'
      rw [map_pow, aeval_X] at this
      rw [this]; simp

section

variable (stp : Stepper) (hv : RunValid p) (hnx : 2 ≤ p.nx) (hny2 : 2 ≤ p.ny)
    (hny : p.ny % 2 = 0) (hdc : 0 < dc) {prm : Params ℝ} (n1 : prm.disable_h = false)
    (n2 : prm.disable_vn = false) (n3 : prm.visc_del2 ≤ 0) (n4 : prm.visc_del4 ≤ 0) (g0 : 0 < prm.grav)
    {H : ℝ} (H0 : 0 < H) {k : Int} (k0 : 0 ≤ k) (k1 : k < p.dims.nlayers) {m m1 : ℝ → Mem ℝ}
    (hr : ∀ ε, Ready p dc prm (m ε)) {a b : Int → ℝ}
    (ha0 : ∀ c, 0 ≤ c → c < p.dims.ncells → (m 0).real (.h_cell .state) 0 c k = H)
    (hb0 : ∀ e, 0 ≤ e → e < p.dims.nedges → (m 0).real (.vn_edge .state) 0 e k = 0)
    (ha : ∀ c, 0 ≤ c → c < p.dims.ncells →
      HasDerivAt (fun ε => (m ε).real (.h_cell .state) 0 c k) (a c) 0)
    (hb : ∀ e, 0 ≤ e → e < p.dims.nedges →
      HasDerivAt (fun ε => (m ε).real (.vn_edge .state) 0 e k) (b e) 0)
    {sched : List (ℝ × ℝ)} {split : Bool} (he : ∀ ε, Exec p.dims (stp.ctor p.dims ++ stp.run p.dims
      ⟨defaultKernels p.dims.vl, split⟩ (SWModel.ofParams prm) sched) (m ε) (m1 ε))
include hv hnx hny2 hdc n1 n2 n3 n4 H0 k0 k1 hr ha0 hb0 ha hb he

/-- the derivative of the run at rest -/
theorem rest_response : ∃ w : (Int → ℝ) × (Int → ℝ),
    w = sched.foldl (fun w a => aeval (a.2 • restOp (m 0) prm.grav prm.f0 H) (stabPoly stp) w) (a, b) ∧
    (∀ c, 0 ≤ c → c < p.dims.ncells →
      HasDerivAt (fun ε => (m1 ε).real (.h_cell .state) 0 c k) (w.1 c) 0) ∧
    (∀ e, 0 ≤ e → e < p.dims.nedges →
      HasDerivAt (fun ε => (m1 ε).real (.vn_edge .state) 0 e k) (w.2 e) 0) := by
  have hg := fun ε => Ready.geo2 (hr ε) hv.toValid hnx hny2 hdc
  have hf := fun ε => (Ready.hex hv.toValid (hr ε)).2.1
  set sw := SWModel.ofParams prm with hsw
  have s5 : sw.en_vdiff = false := by
    show decide ((lit 0 : ℝ) < prm.visc_del2) = false
    simp [n3]
  have s6 : sw.en_vhyper = false := by
    show decide ((lit 0 : ℝ) < prm.visc_del4) = false
    simp [n4]
  have v := fun ε => by
    obtain ⟨hd, hc⟩ := ready_ok hv (hr ε)
    exact ((genSetup hd hc (hookOK_noHook (noHook_ofParams prm) p.dims (m ε))).newRun (he ε)).2.2
  have init : Tangent p.dims k (fun ε => (m ε).fld .state) H (a, b) := ⟨ha0, hb0, ha, hb⟩
  have key := tangent_run hg hf (sw := sw) rfl rfl rfl rfl s5 s6 n1 n2 H0 stp sched
    (x := fun ε => (zeroFld, (m ε).fld .state)) init
  refine ⟨_, rfl, fun c c0 c1 => ?_, fun e e0 e1 => ?_⟩
  · exact (key.h1 c c0 c1).congr_of_eventuallyEq (Filter.Eventually.of_forall fun ε => (v ε).h c k c0 c1 k0 k1)
  · exact (key.v1 e e0 e1).congr_of_eventuallyEq (Filter.Eventually.of_forall fun ε => (v ε).vn e k e0 e1 k0 k1)

include hny g0

/-- A balanced disturbance of rest is stationary to first order: whatever the stepper and the steps, the derivative of
the result at rest is the derivative of the initial state. -/
theorem C107_balanced_stationary {K : ℝ} {ψ : Int → ℝ}
    (hbal : Spec.Balanced p.dims (m 0) prm.grav prm.f0 K ψ a b) :
    (∀ c, 0 ≤ c → c < p.dims.ncells →
      HasDerivAt (fun ε => (m1 ε).real (.h_cell .state) 0 c k) (a c) 0) ∧
    ∀ e, 0 ≤ e → e < p.dims.nedges →
      HasDerivAt (fun ε => (m1 ε).real (.vn_edge .state) 0 e k) (b e) 0 := by
  have hg := Ready.geo2 (hr 0) hv.toValid hnx hny2 hdc
  obtain ⟨hd, hc⟩ := ready_ok hv (hr 0)
  obtain ⟨w, hw, d1, d2⟩ := rest_response stp hv hnx hny2 hdc n1 n2 n3 n4 H0 k0 k1 hr ha0 hb0 ha hb he
  have zero := balanced_tend hg hc hny (H := H) hbal
  have run : ∀ (L : List (ℝ × ℝ)) x, restMap p.dims (m 0) prm.grav H x = restMap p.dims (m 0) prm.grav H (a, b) →
      restMap p.dims (m 0) prm.grav H (L.foldl (fun w a => aeval (a.2 • restOp (m 0) prm.grav prm.f0 H)
        (stabPoly stp) w) x) = restMap p.dims (m 0) prm.grav H (a, b) := by
    intro L
    induction L with
    | nil => exact fun x hx => hx
    | cons q L ih =>
      intro x hx
      rw [List.foldl_cons]
      refine ih _ ?_
      rw [ExactSkew.fixed (rest_exactSkew hg g0.le H0 q.2) _ hx
        (by rw [LinearMap.smul_apply, map_smul, zero, smul_zero]), stabPoly_eval_zero, one_smul]
  have e := run sched (a, b) rfl
  rw [← hw] at e
  obtain ⟨i1, i2⟩ := rest_values hg g0 H0 e
  exact ⟨fun c c0 c1 => (d1 c c0 c1).congr_deriv (i1 c c0 c1), fun c c0 c1 => (d2 c c0 c1).congr_deriv (i2 c c0 c1)⟩

/-- The balanced part of a disturbance never changes: the energy product of the derivative at rest with every
balanced disturbance is the same before and after the run, whatever the stepper and the steps. -/
theorem C107_balanced_part : ∃ a' b' : Int → ℝ,
    (∀ c, 0 ≤ c → c < p.dims.ncells →
      HasDerivAt (fun ε => (m1 ε).real (.h_cell .state) 0 c k) (a' c) 0) ∧
    (∀ e, 0 ≤ e → e < p.dims.nedges →
      HasDerivAt (fun ε => (m1 ε).real (.vn_edge .state) 0 e k) (b' e) 0) ∧
    ∀ (K : ℝ) (ψ η u : Int → ℝ), Spec.Balanced p.dims (m 0) prm.grav prm.f0 K ψ η u →
      Spec.restProduct p.dims (m 0) prm.grav H a' b' η u = Spec.restProduct p.dims (m 0) prm.grav H a b η u := by
  have hg := Ready.geo2 (hr 0) hv.toValid hnx hny2 hdc
  obtain ⟨hd, hc⟩ := ready_ok hv (hr 0)
  obtain ⟨w, hw, d1, d2⟩ := rest_response stp hv hnx hny2 hdc n1 n2 n3 n4 H0 k0 k1 hr ha0 hb0 ha hb he
  refine ⟨w.1, w.2, d1, d2, fun K ψ η u hbal => ?_⟩
  set T := restMap p.dims (m 0) prm.grav H with hT
  set Λ : ((Int → ℝ) × (Int → ℝ)) →ₗ[ℝ] ℝ := (innerₗ _ (T (η, u))).comp T with hΛ
  have val : ∀ x : (Int → ℝ) × (Int → ℝ), Λ x = Spec.restProduct p.dims (m 0) prm.grav H x.1 x.2 η u := fun x => by
    show ⟪T (η, u), T x⟫ = _
    rw [real_inner_comm, hT, inner_rest hg g0.le H0]
    rfl
  have kill : ∀ (dt : ℝ) x, Λ ((dt • restOp (m 0) prm.grav prm.f0 H) x) = 0 := fun dt x => by
    rw [LinearMap.smul_apply, map_smul]
    show dt • ⟪T (η, u), T (restOp (m 0) prm.grav prm.f0 H x)⟫ = 0
    have s := rest_skew hg (f := prm.f0) g0.le H0 (η, u) x
    rw [balanced_tend hg hc hny hbal, inner_zero_left, zero_add] at s
    rw [hT, s, smul_zero]
  have run : ∀ (L : List (ℝ × ℝ)) x, Λ (L.foldl (fun w a => aeval (a.2 • restOp (m 0) prm.grav prm.f0 H)
      (stabPoly stp) w) x) = Λ x := by
    intro L
    induction L with
    | nil => exact fun x => rfl
    | cons q L ih =>
      intro x
      rw [List.foldl_cons, ih, restPv_poly (kill q.2), stabPoly_eval_zero, one_mul]
  have := run sched (a, b)
  rw [← hw, val, val] at this
  exact this

end

/-- two steps of different size of a disturbance that is balanced, with stream function `v²` -/
example (stp : Stepper) : ∃ (prm : Params ℝ) (m m1 : ℝ → Mem ℝ) (sched : List (ℝ × ℝ)) (ψ a b : Int → ℝ),
    RunValid p46 ∧ 2 ≤ p46.nx ∧ 2 ≤ p46.ny ∧ p46.ny % 2 = 0 ∧ prm.disable_h = false ∧
    prm.disable_vn = false ∧ prm.visc_del2 ≤ 0 ∧ prm.visc_del4 ≤ 0 ∧ prm.f0 = 1 ∧ prm.grav = 10 ∧
    (0 : Int) ≤ 2 ∧ 2 < p46.dims.nlayers ∧ (∀ ε, Ready p46 1 prm (m ε)) ∧
    (∀ c, 0 ≤ c → c < p46.dims.ncells → (m 0).real (.h_cell .state) 0 c 2 = 3) ∧
    (∀ e, 0 ≤ e → e < p46.dims.nedges → (m 0).real (.vn_edge .state) 0 e 2 = 0) ∧
    (∀ c, 0 ≤ c → c < p46.dims.ncells →
      HasDerivAt (fun ε => (m ε).real (.h_cell .state) 0 c 2) (a c) 0) ∧
    (∀ e, 0 ≤ e → e < p46.dims.nedges →
      HasDerivAt (fun ε => (m ε).real (.vn_edge .state) 0 e 2) (b e) 0) ∧
    Spec.Balanced p46.dims (m 0) prm.grav prm.f0 5 ψ a b ∧ ψ 3 = 9 ∧
    sched = [(0, 100), (100, 7)] ∧
    ∀ ε, Exec p46.dims (stp.ctor p46.dims ++ stp.run p46.dims
      ⟨defaultKernels p46.dims.vl, true⟩ (SWModel.ofParams prm) sched) (m ε) (m1 ε) := by
  obtain ⟨prm, hprm⟩ : ∃ q : Params ℝ, q = ⟨1, 10, 0, 0, 0, 0, false, false⟩ := ⟨_, rfl⟩
  obtain ⟨M, hM, -, -⟩ := exists_ready p46_run.toValid (1 : ℝ) prm zeroFld zeroFld
  let ψ : Int → ℝ := fun v => v ^ 2
  let a : Int → ℝ := fun c => (5 - Spec.cellMean M p46.dims ψ c) / 10
  let b : Int → ℝ := fun e => Spec.gradT M ψ e
  let y : ℝ → Fld ℝ := fun ε => ⟨fun c _ => 3 + ε * a c, fun e _ => ε * b e, fun _ _ _ => 0⟩
  have hr : ∀ ε, Ready p46 1 prm (setFld M .state (y ε)) := fun ε => hM.static (setFld_static M .state (y ε))
  have run := fun ε => by
    obtain ⟨hd, hc⟩ := ready_ok p46_run (hr ε)
    exact ((C40_safe_deterministic hd hc (noHook_ofParams prm) true).2.2 stp [(0, 100), (100, 7)]).2.exists
  choose m1 he using run
  have eh : ∀ ε c, (setFld M .state (y ε)).real (.h_cell .state) 0 c 2 = 3 + ε * a c := fun ε c => rfl
  have ev : ∀ ε e, (setFld M .state (y ε)).real (.vn_edge .state) 0 e 2 = ε * b e := fun ε e => rfl
  refine ⟨prm, fun ε => setFld M .state (y ε), m1, _, ψ, a, b, p46_run, by simp [p46], by simp [p46],
    by simp [p46], by rw [hprm], by rw [hprm],
    by rw [hprm], by rw [hprm], by rw [hprm], by rw [hprm], by norm_num, by rw [p46_layers]; norm_num, hr,
    fun c _ _ => by rw [eh]; simp, fun e _ _ => by rw [ev]; simp, fun c _ _ => ?_, fun e _ _ => ?_,
    ⟨fun e _ _ => rfl, fun c _ _ => ?_⟩, by norm_num [ψ], rfl, he⟩
  · simp only [eh]
    exact (((hasDerivAt_id (0 : ℝ)).mul_const (a c)).const_add 3).congr_deriv (by ring)
  · simp only [ev]
    exact ((hasDerivAt_id (0 : ℝ)).mul_const (b e)).congr_deriv (by ring)
  · show prm.grav * ((5 - Spec.cellMean M p46.dims ψ c) / 10) = 5 - prm.f0 * Spec.cellMean M p46.dims ψ c
    rw [hprm]; ring

end Props
end
end Omega
