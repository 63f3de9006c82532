import Verif.Props.ConsistencyPV

/-!
# C71: the discrete equations are second-order consistent with the shallow-water equations

The tendency that `compute_tendency` stores for a state sampled from smooth fields differs from the
right-hand side of the rotating shallow-water equations in vector-invariant form, with tracer advection
and diffusion, by at most a constant times the square of the spacing, at every cell and edge. The constant
depends only on bounds for the fields and their derivatives, not on the fields, the mesh or its periods.
-/

set_option linter.unusedVariables false
set_option linter.unusedSectionVars false

namespace Omega
noncomputable section
namespace Props

open Prog Model Refine Hex Taylor Jets

/-! ### The shallow-water equations -/

/-- rate of change of the thickness: `-∇·(hu)` -/
def rhsH (H U W : ℝ × ℝ → ℝ) (z : ℝ × ℝ) : ℝ := -divAt (fun w => H w * U w) (fun w => H w * W w) z
/-- Bernoulli function `|u|²/2 + g h` -/
def bern (g : ℝ) (H U W : ℝ × ℝ → ℝ) (z : ℝ × ℝ) : ℝ := (U z ^ 2 + W z ^ 2) / 2 + g * H z
/-- rate of change of the first velocity component: `(ζ + f) v - ∂x B` -/
def rhsU (g f : ℝ) (H U W : ℝ × ℝ → ℝ) (z : ℝ × ℝ) : ℝ :=
  (curlAt U W z + f) * W z - fderiv ℝ (bern g H U W) z (1, 0)
/-- rate of change of the second velocity component: `-(ζ + f) u - ∂y B` -/
def rhsW (g f : ℝ) (H U W : ℝ × ℝ → ℝ) (z : ℝ × ℝ) : ℝ :=
  -(curlAt U W z + f) * U z - fderiv ℝ (bern g H U W) z (0, 1)
/-- rate of change of the content `h q` of a tracer of concentration `q`: `-∇·(h q u) + κ ∇·(h ∇q)` -/
def rhsS (κ : ℝ) (H U W q : ℝ × ℝ → ℝ) (z : ℝ × ℝ) : ℝ :=
  -divAt (fun w => H w * q w * U w) (fun w => H w * q w * W w) z +
    κ * divAt (fun w => H w * fderiv ℝ q w (1, 0)) (fun w => H w * fderiv ℝ q w (0, 1)) z

/-- `n` times continuously differentiable, doubly periodic, values and derivatives up to order `n`
bounded by `B` -/
structure Bounded (n : ℕ) (P Q B : ℝ) (φ : ℝ × ℝ → ℝ) : Prop where
  smooth : ContDiff ℝ n φ
  per : Periodic2 P Q φ
  bound : ∀ k, k ≤ n → ∀ z, ‖iteratedFDeriv ℝ k φ z‖ ≤ B

/-! ### From a ready memory to the mesh it was built on -/

/-- same mesh arrays -/
structure SameMesh (m m' : Mem ℝ) : Prop where
  int : m.int = m'.int
  real : ∀ b, isMeshR b = true → m.real b = m'.real b

theorem ready_mesh {p : MeshParams} {dc : ℝ} {prm : Params ℝ} {m : Mem ℝ} (h : Ready p dc prm m) :
    ∃ m', Built p dc m' ∧ SameMesh m m' := by
  obtain ⟨m1, m2, hb, he, hs⟩ := h
  obtain ⟨m', hr, ha, hf, hf'⟩ := sw_ctor_runs p.dims prm m1
  obtain rfl := (hr.2 m2).1 he
  exact ⟨m1, hb, hs.int.trans ha.int, fun b hb =>
    (hs.real b (isDyn_mesh hb)).trans (ha.real b (isMeshR_f hb))⟩

namespace SameMesh
variable {m m' : Mem ℝ} (h : SameMesh m m')
include h

theorem cellAt : cellAt m = cellAt m' := by
  funext c; unfold Props.cellAt; rw [h.real _ rfl, h.real _ rfl]
theorem edgeAt : edgeAt m = edgeAt m' := by
  funext c; unfold Props.edgeAt; rw [h.real _ rfl, h.real _ rfl]
theorem normal : normal m = normal m' := by
  funext c; unfold Props.normal; rw [h.real _ rfl]
theorem normalOf : normalOf m = normalOf m' := by
  funext U W e; unfold Props.normalOf; rw [h.normal, h.edgeAt]
theorem grad : Spec.grad m = Spec.grad m' := by
  funext φ e; unfold Spec.grad Spec.cellOf Spec.dcE; rw [h.int, h.real _ rfl]
theorem div : Spec.div m = Spec.div m' := by
  funext φ e; unfold Spec.div Spec.side Spec.dvE Spec.areaC
  rw [h.int, h.real _ rfl, h.real _ rfl, h.real _ rfl]
theorem curl : Spec.curl m = Spec.curl m' := by
  funext φ e; unfold Spec.curl Spec.spoke Spec.dcE Spec.areaT
  rw [h.int, h.real _ rfl, h.real _ rfl, h.real _ rfl]
theorem mean : Spec.mean m = Spec.mean m' := by
  funext φ e; unfold Spec.mean Spec.cellOf; rw [h.int]
theorem vmean : Spec.vmean m = Spec.vmean m' := by
  funext φ e; unfold Spec.vmean Spec.vertOf; rw [h.int]
theorem kiteMean : Spec.kiteMean m = Spec.kiteMean m' := by
  funext φ e; unfold Spec.kiteMean Spec.areaT
  rw [h.int, h.real _ rfl, h.real _ rfl]
theorem kinetic : Spec.kinetic m = Spec.kinetic m' := by
  funext φ e; unfold Spec.kinetic Spec.side Spec.dcE Spec.dvE Spec.areaC
  rw [h.int, h.real _ rfl, h.real _ rfl, h.real _ rfl]
theorem pvFlux : Spec.pvFlux m = Spec.pvFlux m' := by
  funext φ u e; unfold Spec.pvFlux
  rw [h.int, h.real _ rfl]

end SameMesh

/-! ### Consistency -/

variable {D : ℝ} {T : MeshParams → ℝ → Type}

theorem grad_order {H : MeshOf D T → ℝ × ℝ → ℝ} (hH : Smooth 3 H) :
    Ord (dcE : Spacing (EdgeIx D T)) 2 (fun i => Spec.grad i.m (fun c => H i.M (cellAt i.m c)) i.e -
      normalOf i.m (fun z => fderiv ℝ (H i.M) z (1, 0)) (fun z => fderiv ℝ (H i.M) z (0, 1)) i.e) := by
  have t := (J3.taylor (dcE : Spacing (EdgeIx D T)) hH.edges
    (fun i => i.x) (fun i => (1 / 2 : ℝ) • dir i.a) (c := 1) (fun i => by
      have := i.norm_dir
      rw [norm_smul]; norm_num; linarith)).diff.div
  refine (t.cmul (-1)).congr fun i => ?_
  have hp := i.pos.ne'
  rw [grad_edge i.toMeshOf (hH.per i.M) i.lo i.hi, norm_edge i.toMeshOf _ _ i.lo i.hi]
  show gradF i.dc (H i.M) i.a i.x - normF _ _ i.a i.x = -1 * ((H i.M (i.x + i.dc • (1 / 2 : ℝ) • dir i.a) -
    H i.M (i.x - i.dc • (1 / 2 : ℝ) • dir i.a) - 2 * i.dc * fderiv ℝ (H i.M) i.x ((1 / 2 : ℝ) • dir i.a)) / i.dc)
  unfold gradF normF
  rw [map_smul, show fderiv ℝ (H i.M) i.x (dir i.a) = _ from lin_pt _ (dir i.a).1 (dir i.a).2]
  simp only [smul_smul, mul_one_div, smul_eq_mul]
  field_simp
  ring

theorem velocity_order (g f0 : ℝ) {H U W : MeshOf D T → ℝ × ℝ → ℝ} (hH : Smooth 3 H) (hU : Smooth 3 U)
    (hW : Smooth 3 W) {η : ℝ} (e0 : 0 < η) (hη : ∀ M z, η ≤ H M z) :
    Ord (dcE : Spacing (EdgeIx D T)) 2 (fun i =>
      Spec.pvFlux i.m (qM f0 (H i.M) (U i.M) (W i.M) i.m) (fun e => Spec.mean i.m (fun c => H i.M (cellAt i.m c)) e *
        normalOf i.m (U i.M) (W i.M) e) i.e - Spec.grad i.m (Spec.kinetic i.m (normalOf i.m (U i.M) (W i.M))) i.e -
        g * Spec.grad i.m (fun c => H i.M (cellAt i.m c)) i.e -
      normalOf i.m (rhsU g f0 (H i.M) (U i.M) (W i.M)) (rhsW g f0 (H i.M) (U i.M) (W i.M)) i.e) := by
  refine (((pvflux_order f0 hH hU hW e0 hη).sub (ke_order hU hW)).sub
    ((grad_order hH).cmul g)).congr fun i => ?_
  have dK : DifferentiableAt ℝ (fun z => (U i.M z ^ 2 + W i.M z ^ 2) / 2) (edgeAt i.m i.e) := by
    have := hU.diff (by omega : 1 ≤ 3) i.M
    have := hW.diff (by omega : 1 ≤ 3) i.M
    fun_prop
  have dH : DifferentiableAt ℝ (fun z => g * H i.M z) (edgeAt i.m i.e) :=
    ((hH.diff (by omega) i.M).const_mul g) _
  have hB : ∀ v, fderiv ℝ (bern g (H i.M) (U i.M) (W i.M)) (edgeAt i.m i.e) v =
      fderiv ℝ (fun z => (U i.M z ^ 2 + W i.M z ^ 2) / 2) (edgeAt i.m i.e) v + g * fderiv ℝ (H i.M) (edgeAt i.m i.e) v := by
    intro v
    unfold bern
    rw [fderiv_fun_add dK dH, fderiv_const_mul ((hH.diff (by omega) i.M) _)]
    rfl
  simp only [normalOf, tangentOf, rhsU, rhsW, hB]
  ring

/-- fields of a mesh with bounds -/
structure FieldData (B η : ℝ) (p : MeshParams) (dc : ℝ) : Type where
  H : ℝ × ℝ → ℝ
  U : ℝ × ℝ → ℝ
  W : ℝ × ℝ → ℝ
  q : ℝ × ℝ → ℝ
  hH : Bounded 3 (periodX p.nx dc) (periodY p.ny dc) B H
  hU : Bounded 3 (periodX p.nx dc) (periodY p.ny dc) B U
  hW : Bounded 3 (periodX p.nx dc) (periodY p.ny dc) B W
  hq : Bounded 4 (periodX p.nx dc) (periodY p.ny dc) B q
  pos : ∀ z, η ≤ H z

theorem Bounded.nonneg {n : ℕ} {P Q B : ℝ} {φ : ℝ × ℝ → ℝ} (h : Bounded n P Q B φ) : 0 ≤ B :=
  (norm_nonneg _).trans (h.bound 0 (Nat.zero_le _) 0)

theorem Bounded.zero (n : ℕ) (P Q : ℝ) {B : ℝ} (h : 0 ≤ B) : Bounded n P Q B (fun _ => 0) := by
  refine ⟨contDiff_const, ⟨fun _ _ => rfl, fun _ _ => rfl⟩, fun k _ z => ?_⟩
  have : iteratedFDeriv ℝ k (fun _ : ℝ × ℝ => (0 : ℝ)) = 0 := iteratedFDeriv_fun_zero
  rw [this]
  simpa using h

theorem Bounded.mono {n : ℕ} {P Q B C : ℝ} {φ : ℝ × ℝ → ℝ} (h : Bounded n P Q B φ) (hBC : B ≤ C) :
    Bounded n P Q C φ := ⟨h.smooth, h.per, fun k hk z => (h.bound k hk z).trans hBC⟩

theorem Bounded.exists {n : ℕ} {P Q : ℝ} (hP : 0 < P) (hQ : 0 < Q) {φ : ℝ × ℝ → ℝ}
    (hs : ContDiff ℝ n φ) (hp : Periodic2 P Q φ) : ∃ B, Bounded n P Q B φ := by
  have h : ∀ k : ℕ, ∃ B, 0 ≤ B ∧ (k ≤ n → ∀ z, ‖iteratedFDeriv ℝ k φ z‖ ≤ B) := fun k => by
    by_cases hk : k ≤ n
    · obtain ⟨B, b0, hB⟩ := hp.bounded hP hQ (hs.of_le (by exact_mod_cast hk) : ContDiff ℝ k φ)
      exact ⟨B, b0, fun _ => hB⟩
    · exact ⟨0, le_rfl, fun h => absurd h hk⟩
  choose B b0 hB using h
  refine ⟨∑ k ∈ Finset.range (n + 1), B k, hs, hp, fun k hk z => (hB k hk z).trans ?_⟩
  exact Finset.single_le_sum (f := B) (fun k _ => b0 k) (Finset.mem_range.2 (Nat.lt_succ_of_le hk))

theorem smooth_of_bounded {n : ℕ} {B : ℝ} (hB : 0 ≤ B) {φ : MeshOf D T → ℝ × ℝ → ℝ}
    (h : ∀ M, Bounded n M.P M.Q B (φ M)) : Smooth n φ :=
  ⟨⟨fun M => (h M).smooth, B, hB, fun M k hk z => (h M).bound k hk z⟩, fun M => (h M).per⟩

/-- For any bounds there is a constant such that, on every mesh with a spacing of at most `D` and for all
periodic fields that respect the bounds, the tendency stored by `compute_tendency` for the sampled state
is within that constant times the squared spacing of the right-hand side of the shallow-water equations:
the thickness tendency at every cell, the velocity tendency at every edge (normal component), the
tendency of every sampled tracer at every cell.  The bounds are `B` for the values and derivatives of
thickness and velocity up to the third and of the concentration up to the fourth order, and `η` below
the thickness; the periods are arbitrary.  Viscosity and hyperdiffusion are off. -/
theorem C71_tendency_consistent (D B : ℝ) {η : ℝ} (hη : 0 < η) {prm : Params ℝ}
    (hv2 : prm.visc_del2 ≤ 0) (hv4 : prm.visc_del4 ≤ 0) (hk4 : prm.eddy_diff4 ≤ 0)
    (hdh : prm.disable_h = false) (hdv : prm.disable_vn = false) :
    ∃ K : ℝ, ∀ (p : MeshParams) (dc : ℝ) (m m1 : Mem ℝ) (split : Bool) (tn st : StateId) (t : ℝ) (k : Int)
        (H U W : ℝ × ℝ → ℝ),
      RunValid p → 2 ≤ p.nx → p.ny % 2 = 0 → 0 < dc → dc ≤ D →
      Bounded 3 (periodX p.nx dc) (periodY p.ny dc) B H →
      Bounded 3 (periodX p.nx dc) (periodY p.ny dc) B U →
      Bounded 3 (periodX p.nx dc) (periodY p.ny dc) B W → (∀ z, η ≤ H z) →
      Ready p dc prm m → st ≠ tn → 0 ≤ k → k < p.dims.nlayers →
      (∀ c, 0 ≤ c → c < p.dims.ncells → m.real (.h_cell st) 0 c k = H (cellAt m c)) →
      (∀ e, 0 ≤ e → e < p.dims.nedges → m.real (.vn_edge st) 0 e k = normalOf m U W e) →
      Exec p.dims (compute_tendency p.dims ⟨defaultKernels p.dims.vl, split⟩ (SWModel.ofParams prm)
        .replace tn st t) m m1 →
      (∀ c, 0 ≤ c → c < p.dims.ncells →
        |m1.real (.h_cell tn) 0 c k - rhsH H U W (cellAt m c)| ≤ K * dc ^ 2) ∧
      (∀ e, 0 ≤ e → e < p.dims.nedges → |m1.real (.vn_edge tn) 0 e k -
        normalOf m (rhsU prm.grav prm.f0 H U W) (rhsW prm.grav prm.f0 H U W) e| ≤ K * dc ^ 2) ∧
      (∀ l, 0 ≤ l → l < p.dims.ntracers → ∀ q : ℝ × ℝ → ℝ,
        Bounded 4 (periodX p.nx dc) (periodY p.ny dc) B q →
        (∀ c, 0 ≤ c → c < p.dims.ncells →
          m.real (.tr_cell st) l c k = H (cellAt m c) * q (cellAt m c)) →
        ∀ c, 0 ≤ c → c < p.dims.ncells →
          |m1.real (.tr_cell tn) l c k - rhsS (max prm.eddy_diff2 0) H U W q (cellAt m c)| ≤ K * dc ^ 2) := by
  by_cases hB : 0 ≤ B
  swap
  · exact ⟨0, fun p dc m m1 split tn st t k H U W _ _ _ _ _ h => absurd h.nonneg hB⟩
  let T := FieldData B η
  have fH : Smooth 3 (fun M : MeshOf D T => M.tag.H) := smooth_of_bounded hB fun M => M.tag.hH
  have fU : Smooth 3 (fun M : MeshOf D T => M.tag.U) := smooth_of_bounded hB fun M => M.tag.hU
  have fW : Smooth 3 (fun M : MeshOf D T => M.tag.W) := smooth_of_bounded hB fun M => M.tag.hW
  have fq : Smooth 4 (fun M : MeshOf D T => M.tag.q) := smooth_of_bounded hB fun M => M.tag.hq
  have fp : ∀ (M : MeshOf D T) z, η ≤ M.tag.H z := fun M z => M.tag.pos z
  obtain ⟨K1, k1, o1⟩ := mass_flux_order fH fU fW
  obtain ⟨K2, k2, o2⟩ := velocity_order prm.grav prm.f0 fH fU fW hη fp
  obtain ⟨K3, k3, o3⟩ := tracer_flux_order fH (fq.mono (by omega : 3 ≤ 4)) fU fW
  obtain ⟨K4, k4, o4⟩ := tracer_diff_order fH fq
  refine ⟨K1 + K2 + K3 + max prm.eddy_diff2 0 * K4, ?_⟩
  intro p dc m m1 split tn st t k H U W hv hnx hny hdc hD bH bU bW hpos hr hne hk0 hk1 hh hu he
  obtain ⟨m', hb, hs⟩ := ready_mesh hr
  have hhex := hr.hex hv.toValid
  obtain ⟨hd, hc⟩ := ready_ok hv hr
  have κ0 : 0 ≤ max prm.eddy_diff2 0 := le_max_right _ _
  have hd2 : 0 < dc ^ 2 := by positivity
  have le : ∀ {x K : ℝ}, |x| ≤ K * dc ^ 2 → K ≤ K1 + K2 + K3 + max prm.eddy_diff2 0 * K4 →
      |x| ≤ (K1 + K2 + K3 + max prm.eddy_diff2 0 * K4) * dc ^ 2 := fun h h' =>
    h.trans (mul_le_mul_of_nonneg_right h' hd2.le)
  have kk4 : 0 ≤ max prm.eddy_diff2 0 * K4 := by positivity
  let Mq : ∀ q, Bounded 4 (periodX p.nx dc) (periodY p.ny dc) B q → MeshOf D T := fun q bq =>
    ⟨p, dc, m', ⟨H, U, W, q, bH, bU, bW, bq, hpos⟩, hv.toValid, hnx, hny, hdc, hD, hb⟩
  let M : MeshOf D T := Mq (fun _ => 0) (Bounded.zero _ _ _ hB)
  have fl : ∀ x : ℝ, x ≤ 0 → Scalar.lt (lit 0 : ℝ) x = false := fun x hx => by
    rw [← Bool.not_eq_true, slt_real]; simpa using hx
  let x : Fld ℝ := ⟨fun i k' => if k' = k then H (cellAt m i) else m.real (.h_cell st) 0 i k',
    fun i k' => if k' = k then normalOf m U W i else m.real (.vn_edge st) 0 i k',
    fun l i k' => m.real (.tr_cell st) l i k'⟩
  have hx : EqFld p.dims (m.fld st) x := by
    refine ⟨fun c k' a b _ _ => ?_, fun e k' a b _ _ => ?_, fun _ _ _ _ _ _ _ _ _ => rfl⟩
    · by_cases h : k' = k
      · subst h; simp only [x, if_true]; exact hh c a b
      · simp only [x, if_neg h]; rfl
    · by_cases h : k' = k
      · subst h; simp only [x, if_true]; exact hu e a b
      · simp only [x, if_neg h]; rfl
  have f2 : ∀ a b : ℝ, (if (SWModel.ofParams prm).en_vdiff = true then a else b) = b := fun a b =>
    if_neg (by rw [show (SWModel.ofParams prm).en_vdiff = false from fl _ hv2]; simp)
  have f4 : ∀ a b : ℝ, (if (SWModel.ofParams prm).en_vhyper = true then a else b) = b := fun a b =>
    if_neg (by rw [show (SWModel.ofParams prm).en_vhyper = false from fl _ hv4]; simp)
  have f6 : ∀ a b : ℝ, (if (SWModel.ofParams prm).en_thyper = true then a else b) = b := fun a b =>
    if_neg (by rw [show (SWModel.ofParams prm).en_thyper = false from fl _ hk4]; simp)
  obtain ⟨T1, T2, T3⟩ := tend_spec hd hc (noHook_ofParams prm) hne he hx
  have xh : (fun i => x.h i k) = fun i => H (cellAt m' i) := by
    funext i; simp only [x, if_true, hs.cellAt]
  have xu : (fun i => x.vn i k) = normalOf m' U W := by
    funext i; simp only [x, if_true, hs.normalOf]
  refine ⟨fun c h0 h1 => ?_, fun e h0 h1 => ?_, fun l l0 l1 q bq hSs c h0 h1 => ?_⟩
  · rw [T1 hdh c k h0 h1 hk0 hk1, xh, xu]
    have := o1 ⟨M, c, h0, h1⟩
    refine le (K := K1) ?_ (by linarith)
    unfold Spec.thicknessTend rhsH
    rw [if_pos (show (SWModel.ofParams prm).en_hadv = true from rfl), hs.div, hs.mean, hs.cellAt, ← abs_neg]
    rw [show ∀ a b : ℝ, -(-a - -b) = a - b from fun a b => by ring]
    exact this
  · rw [T2 hdv e k h0 h1 hk0 hk1, xh, xu]
    have := o2 ⟨M, e, h0, h1⟩
    refine le (K := K2) ?_ (by linarith)
    unfold Spec.velocityTend
    rw [if_pos (show (SWModel.ofParams prm).en_pv = true from rfl),
      if_pos (show (SWModel.ofParams prm).en_ke = true from rfl),
      if_pos (show (SWModel.ofParams prm).en_ssh = true from rfl), f2,
      f4, hs.grad, hs.mean, hs.normalOf, hs.kinetic,
      hs.pvFlux, hs.vmean, add_zero, sub_zero]
    have hpv : Spec.pvFlux m' (Spec.vmean m' (Spec.pv m (fun i => H (cellAt m' i)) (normalOf m' U W)))
        (fun e => Spec.mean m' (fun i => H (cellAt m' i)) e * normalOf m' U W e) e =
        Spec.pvFlux m' (qM prm.f0 H U W m')
        (fun e => Spec.mean m' (fun i => H (cellAt m' i)) e * normalOf m' U W e) e := by
      refine pvFlux_congr M (fun e' a b => ?_) (fun _ _ _ => rfl) h0 h1
      unfold qM Spec.vmean
      have hC := isCell_edge a b
      have e0 : Spec.vertOf m' e' 0 = Hex.voe p.nx p.ny e' 0 := M.geo.voe e' a b 0 (by omega) (by omega)
      have e1 : Spec.vertOf m' e' 1 = Hex.voe p.nx p.ny e' 1 := M.geo.voe e' a b 1 (by omega) (by omega)
      have r0 := voe_isVertex hv.nx_pos hC (s := 0) (by simp)
      have r1 := voe_isVertex hv.nx_pos hC (s := 1) (by simp)
      show (Spec.pv m _ _ (Spec.vertOf m' e' 0) + Spec.pv m _ _ (Spec.vertOf m' e' 1)) / 2 =
        (_ / Spec.kiteMean m' _ (Spec.vertOf m' e' 0) + _ / Spec.kiteMean m' _ (Spec.vertOf m' e' 1)) / 2
      rw [e0, e1]
      unfold Spec.pv
      rw [hhex.2.1 _ r0.1 r0.2, hhex.2.1 _ r1.1 r1.2, hs.curl, hs.kiteMean]
    rw [hpv]
    exact this
  · let y : Fld ℝ := ⟨x.h, x.vn, fun l' i k' => if l' = l ∧ k' = k then H (cellAt m i) * q (cellAt m i) else
      m.real (.tr_cell st) l' i k'⟩
    have hy : EqFld p.dims (m.fld st) y := by
      refine ⟨hx.h, hx.vn, fun l' c k' _ _ a b _ _ => ?_⟩
      by_cases h : l' = l ∧ k' = k
      · simp only [y, if_pos h]; rw [h.1, h.2]; exact hSs c a b
      · simp only [y, if_neg h]; rfl
    obtain ⟨-, -, T4⟩ := tend_spec hd hc (noHook_ofParams prm) hne he hy
    have yt : (fun i => y.tr l i k) = fun i => H (cellAt m' i) * q (cellAt m' i) := by
      funext i; simp only [y, and_self, if_true, hs.cellAt]
    rw [T4 l c k l0 l1 h0 h1 hk0 hk1, show (fun i => y.h i k) = _ from xh,
      show (fun i => y.vn i k) = _ from xu, yt]
    have a3 := o3 ⟨Mq q bq, c, h0, h1⟩
    have a4 := o4 ⟨Mq q bq, c, h0, h1⟩
    have hSH : ∀ z, H z * q z / H z = q z := fun z => by
      have := (hη.trans_le (hpos z)).ne'
      field_simp
    refine le (K := K3 + max prm.eddy_diff2 0 * K4) ?_ (by linarith)
    unfold Spec.tracerTend rhsS
    rw [if_pos (show (SWModel.ofParams prm).en_thadv = true from rfl),
      f6, hs.div, hs.mean, hs.grad, hs.cellAt,
      sub_zero]
    have sc : (if (SWModel.ofParams prm).en_tdiff then (SWModel.ofParams prm).prm.eddy_diff2 *
        Spec.div m' (fun e => m.real .mesh_scaling_del2 0 e 0 * Spec.mean m' (fun i => H (cellAt m' i)) e *
          Spec.grad m' (fun i => q (cellAt m' i)) e) c else 0) =
        max prm.eddy_diff2 0 * Spec.div m' (fun e => Spec.mean m' (fun i => H (cellAt m' i)) e *
          Spec.grad m' (fun i => q (cellAt m' i)) e) c := by
      by_cases hκ : 0 < prm.eddy_diff2
      · have : (SWModel.ofParams prm).en_tdiff = true := by
          show Scalar.lt (lit 0 : ℝ) prm.eddy_diff2 = true
          rw [slt_real]; simpa using hκ
        rw [if_pos this, max_eq_left hκ.le]
        congr 1
        rw [spec_div M.geo2 _ ⟨h0, h1⟩, spec_div M.geo2 _ ⟨h0, h1⟩]
        congr 1
        have D : ∀ j : Int, 0 ≤ j → j < 6 →
            m.real .mesh_scaling_del2 0 (E p.nx p.ny c j) 0 = 1 := fun j a b => by
          have r := E_range hv.nx_pos ⟨h0, h1⟩ j a b
          have := hhex.1.del2 _ r.1 r.2
          simpa using this
        unfold Dv
        show (m.real .mesh_scaling_del2 0 (E p.nx p.ny c 3) 0 * _ * _ +
          m.real .mesh_scaling_del2 0 (E p.nx p.ny c 4) 0 * _ * _ +
          m.real .mesh_scaling_del2 0 (E p.nx p.ny c 5) 0 * _ * _ -
          m.real .mesh_scaling_del2 0 (E p.nx p.ny c 0) 0 * _ * _ -
          m.real .mesh_scaling_del2 0 (E p.nx p.ny c 1) 0 * _ * _ -
          m.real .mesh_scaling_del2 0 (E p.nx p.ny c 2) 0 * _ * _) = _
        rw [D 0 (by omega) (by omega), D 1 (by omega) (by omega), D 2 (by omega) (by omega),
          D 3 (by omega) (by omega), D 4 (by omega) (by omega), D 5 (by omega) (by omega)]
        simp only [one_mul]
      · have : (SWModel.ofParams prm).en_tdiff = false := fl _ (not_lt.1 hκ)
        rw [if_neg (by simp [this]), max_eq_right (not_lt.1 hκ), zero_mul]
    simp only [hSH]
    rw [sc]
    have e1 : ∀ a b d f : ℝ, -a + max prm.eddy_diff2 0 * b - (-d + max prm.eddy_diff2 0 * f) =
        -(a - d) + max prm.eddy_diff2 0 * (b - f) := fun a b d f => by ring
    rw [e1, add_mul, mul_assoc]
    refine (abs_add_le _ _).trans (add_le_add ?_ ?_)
    · rw [abs_neg]; exact a3
    · rw [abs_mul, abs_of_nonneg κ0]
      exact mul_le_mul_of_nonneg_left a4 κ0

/-- A ready memory holding any given sampled state, and an execution of `compute_tendency` from it. -/
theorem exists_sampled {p : MeshParams} (hv : RunValid p) (dc : ℝ) (prm : Params ℝ) (split : Bool) (t : ℝ)
    (H U W S : ℝ × ℝ → ℝ) :
    ∃ m m1 : Mem ℝ, Ready p dc prm m ∧
      (∀ c k, 0 ≤ c → c < p.dims.ncells → m.real (.h_cell .state) 0 c k = H (cellAt m c)) ∧
      (∀ e k, 0 ≤ e → e < p.dims.nedges → m.real (.vn_edge .state) 0 e k = normalOf m U W e) ∧
      (∀ l c k, 0 ≤ c → c < p.dims.ncells → m.real (.tr_cell .state) l c k = S (cellAt m c)) ∧
      Exec p.dims (compute_tendency p.dims ⟨defaultKernels p.dims.vl, split⟩ (SWModel.ofParams prm)
        .replace .tend .state t) m m1 := by
  obtain ⟨m0, h0, -, -⟩ := exists_ready hv.toValid dc prm zeroFld zeroFld
  obtain ⟨m, m1, h, -, -, hx, he⟩ := exists_tendency hv dc prm (noHook_ofParams prm) split .replace t
    ⟨fun c _ => H (cellAt m0 c), fun e _ => normalOf m0 U W e, fun _ c _ => S (cellAt m0 c)⟩
  have a0 := (h0.hex hv.toValid).1
  have a := (h.hex hv.toValid).1
  have ec : ∀ c, 0 ≤ c → c < p.dims.ncells → cellAt m c = cellAt m0 c := fun c x y => by
    unfold cellAt; rw [a.x_cell c ⟨x, y⟩, a.y_cell c ⟨x, y⟩, a0.x_cell c ⟨x, y⟩, a0.y_cell c ⟨x, y⟩]
  have ee : ∀ e, 0 ≤ e → e < p.dims.nedges → normalOf m U W e = normalOf m0 U W e := fun e x y => by
    unfold normalOf normal edgeAt
    rw [a.x_edge e x y, a.y_edge e x y, a0.x_edge e x y, a0.y_edge e x y, a.angle_edge e x y,
      a0.angle_edge e x y]
  refine ⟨m, m1, h, fun c k x y => ?_, fun e k x y => ?_, fun l c k x y => ?_, he⟩
  · rw [ec c x y]; exact congrFun (congrFun (congrArg Fld.h hx) c) k
  · rw [ee e x y]; exact congrFun (congrFun (congrArg Fld.vn hx) e) k
  · rw [ec c x y]; exact congrFun (congrFun (congrFun (congrArg Fld.tr hx) l) c) k

/-- the example mesh refined `n` times -/
def pRef (n : ℕ) : MeshParams := ⟨4 * n, 6 * n, 3, 1, 2⟩
set_option linter.unnecessarySeqFocus false in
theorem pRef_run {n : ℕ} (hn : 1 ≤ n) (hm : n ≤ 1000) : RunValid (pRef n) := by
  have h2 : (n : ℤ) * n ≤ 1000000 := by nlinarith [(by exact_mod_cast hm : (n : ℤ) ≤ 1000)]
  have hl : (pRef n).dims.nlayers = p46.dims.nlayers := rfl
  exact ⟨by constructor <;> simp [pRef] <;> (try omega) <;> nlinarith, by rw [hl, p46_layers]; norm_num⟩

/-- meshes of one domain refined up to a thousandfold (the cell count must fit in the code's `int`),
nonconstant fields, Coriolis force, gravity and tracer diffusion -/
example (dc : ℝ) (hdc : 0 < dc) : ∃ (B P Q : ℝ) (H U W q : ℝ × ℝ → ℝ) (prm : Params ℝ),
    Bounded 3 P Q B H ∧ Bounded 3 P Q B U ∧ Bounded 3 P Q B W ∧ Bounded 4 P Q B q ∧ (∀ z, 1 ≤ H z) ∧
    H (0, 0) ≠ H (P / 4, Q / 4) ∧ U (0, 0) ≠ U (P / 4, Q / 4) ∧ q (0, 0) ≠ q (P / 4, Q / 4) ∧
    prm.f0 ≠ 0 ∧ 0 < prm.grav ∧ 0 < prm.eddy_diff2 ∧ prm.visc_del2 ≤ 0 ∧ prm.visc_del4 ≤ 0 ∧
    prm.eddy_diff4 ≤ 0 ∧ prm.disable_h = false ∧ prm.disable_vn = false ∧
    ∀ n : ℕ, 1 ≤ n → n ≤ 1000 → RunValid (pRef n) ∧ 2 ≤ (pRef n).nx ∧ (pRef n).ny % 2 = 0 ∧ 0 < dc / n ∧
      dc / n ≤ dc ∧ periodX (pRef n).nx (dc / n) = P ∧ periodY (pRef n).ny (dc / n) = Q ∧
      0 < (pRef n).dims.nlayers ∧ 0 < (pRef n).dims.ntracers ∧
      ∃ m m1 : Mem ℝ, Ready (pRef n) (dc / n) prm m ∧
      (∀ c k, 0 ≤ c → c < (pRef n).dims.ncells → m.real (.h_cell .state) 0 c k = H (cellAt m c)) ∧
      (∀ e k, 0 ≤ e → e < (pRef n).dims.nedges → m.real (.vn_edge .state) 0 e k = normalOf m U W e) ∧
      (∀ l c k, 0 ≤ c → c < (pRef n).dims.ncells →
        m.real (.tr_cell .state) l c k = H (cellAt m c) * q (cellAt m c)) ∧
      Exec (pRef n).dims (compute_tendency (pRef n).dims ⟨defaultKernels (pRef n).dims.vl, false⟩
        (SWModel.ofParams prm) .replace .tend .state 3) m m1 := by
  obtain ⟨hP, hQ⟩ := periods_pos (dc := dc) p46_valid hdc
  set P := (periodX p46.nx dc : ℝ) with hPd
  set Q := (periodY p46.ny dc : ℝ) with hQd
  have wp := wave_periodic hP hQ 0 0
  obtain ⟨B1, hB1⟩ := Bounded.exists (n := 4) hP hQ (wave_smooth P Q 0 0) wp
  obtain ⟨B2, hB2⟩ := Bounded.exists (n := 3) (φ := fun z => 2 + wave P Q 0 0 z) hP hQ
    (contDiff_const.add (wave_smooth P Q 0 0)) ⟨fun x y => by simp only [wp.1], fun x y => by simp only [wp.2]⟩
  have l1 : B1 ≤ B1 + B2 := by have := hB2.nonneg; linarith
  have l2 : B2 ≤ B1 + B2 := by have := hB1.nonneg; linarith
  have w4 := hB1.mono l1
  have w3 : Bounded 3 P Q (B1 + B2) (wave P Q 0 0) :=
    ⟨wave_smooth _ _ _ _, wp, fun k hk z => w4.bound k (by omega) z⟩
  have e0 : wave P Q 0 0 (0, 0) = 0 := by simp [wave]
  have e1 : wave P Q 0 0 (P / 4, Q / 4) = 1 := by
    unfold wave
    rw [show 2 * Real.pi * (P / 4) / P + 0 = Real.pi / 2 by field_simp; ring,
      show 2 * Real.pi * (Q / 4) / Q + 0 = Real.pi / 2 by field_simp; ring]
    simp
  refine ⟨B1 + B2, P, Q, fun z => 2 + wave P Q 0 0 z, wave P Q 0 0, wave P Q 0 0, wave P Q 0 0,
    ⟨1, 9, 0, 0, 5, 0, false, false⟩, hB2.mono l2, w3, w3, w4, fun z => ?_, ?_, ?_, ?_, by norm_num,
    by norm_num, by norm_num, le_rfl, le_rfl, le_rfl, rfl, rfl, fun n hn hm => ?_⟩
  · have a := Real.neg_one_le_sin (2 * Real.pi * z.1 / P + 0)
    have b := Real.sin_le_one (2 * Real.pi * z.1 / P + 0)
    have c := Real.neg_one_le_sin (2 * Real.pi * z.2 / Q + 0)
    have d := Real.sin_le_one (2 * Real.pi * z.2 / Q + 0)
    unfold wave
    nlinarith
  · beta_reduce; rw [e0, e1]; norm_num
  · rw [e0, e1]; norm_num
  · rw [e0, e1]; norm_num
  · have hn1 : (1 : ℝ) ≤ n := by exact_mod_cast hn
    have hl : (pRef n).dims.nlayers = p46.dims.nlayers := rfl
    refine ⟨pRef_run hn hm, by simp [pRef]; omega, by simp [pRef]; omega, by positivity,
      div_le_self hdc.le hn1, ?_, ?_, by rw [hl, p46_layers]; norm_num, by simp [pRef, MeshParams.dims],
      exists_sampled (pRef_run hn hm) _ _ _ _ (fun z => 2 + wave P Q 0 0 z) (wave P Q 0 0) (wave P Q 0 0)
        (fun z => (2 + wave P Q 0 0 z) * wave P Q 0 0 z)⟩
    · rw [hPd]; simp only [periodX, pRef, p46, lit_real]; push_cast; field_simp
    · rw [hQd]; simp only [periodY, pRef, p46, lit_real]; push_cast; field_simp

end Props
end
end Omega
