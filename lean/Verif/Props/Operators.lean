import Verif.Refine.HexSpec

/-!
# C12 – C16: identities of the discrete operators on the mesh built by the code

The operators are those of `Spec/Ops.lean` on the tables of a built mesh; by C51 they are what
`compute_tendency` evaluates.
-/

set_option linter.unusedVariables false
set_option linter.unusedSectionVars false

namespace Omega
noncomputable section

namespace Props

open Prog Model Refine Hex

variable {p : MeshParams} {dc : ℝ} {m : Mem ℝ}

theorem Built.geo (hb : Built p dc m) (hv : MeshParams.Valid p) (hdc : 0 < dc) :
    Geo p.nx p.ny p.dims.nlayers dc m.mesh := geo_of_hex hv hdc (hb.hex hv)
theorem Built.geo2 (hb : Built p dc m) (hv : MeshParams.Valid p) (hx : 2 ≤ p.nx) (hy : 2 ≤ p.ny)
    (hdc : 0 < dc) : Geo2 p.nx p.ny p.dims.nlayers dc m.mesh := geo2_of_hex hv hx hy hdc (hb.hex hv)
theorem Ready.geo {prm : Params ℝ} (hr : Ready p dc prm m) (hv : MeshParams.Valid p)
    (hdc : 0 < dc) : Geo p.nx p.ny p.dims.nlayers dc m.mesh := geo_of_hex hv hdc (hr.hex hv).1
theorem Ready.geo2 {prm : Params ℝ} (hr : Ready p dc prm m) (hv : MeshParams.Valid p)
    (hx : 2 ≤ p.nx) (hy : 2 ≤ p.ny) (hdc : 0 < dc) :
    Geo2 p.nx p.ny p.dims.nlayers dc m.mesh := geo2_of_hex hv hx hy hdc (hr.hex hv).1

/-! ### C12 -/

theorem curl_grad (h : Geo p.nx p.ny p.dims.nlayers dc m.mesh) (hny : p.ny % 2 = 0) (φ : Int → ℝ)
    {v : Int} (h0 : 0 ≤ v) (h1 : v < p.dims.nvertices) : Spec.curl m (Spec.grad m φ) v = 0 := by
  have e : EqOn (3 * (p.nx * p.ny)) (Spec.grad m φ) (Gr p.nx p.ny fun i => φ i / dc) := by
    intro e a b
    rw [spec_grad h φ a b]; unfold Gr; ring
  rw [spec_curl h _ h0 h1, Cu_congr h.hnx e h0 h1, Cu_Gr h.hnx hny _ h0 h1, mul_zero]

/-- With an even number of rows the discrete curl of a discrete gradient vanishes at every vertex. -/
theorem C12_curl_grad (hv : MeshParams.Valid p) (hdc : 0 < dc) (hb : Built p dc m)
    (hny : p.ny % 2 = 0) (φ : Int → ℝ) :
    ∀ v, 0 ≤ v → v < p.dims.nvertices → Spec.curl m (Spec.grad m φ) v = 0 :=
  fun v h0 h1 => curl_grad (hb.geo hv hdc) hny φ h0 h1

/-- With an odd number of rows (at least three) there is a cell field whose gradient has a
circulation. -/
theorem C12_curl_grad_fails_odd (hv : MeshParams.Valid p) (hdc : 0 < dc) (hb : Built p dc m)
    (hnx : 2 ≤ p.nx) (hny : 3 ≤ p.ny) (hodd : p.ny % 2 = 1) :
    ∃ (φ : Int → ℝ) (v : Int), 0 ≤ v ∧ v < p.dims.nvertices ∧
      Spec.curl m (Spec.grad m φ) v ≠ 0 := by
  have h := hb.geo hv hdc
  set A := cid p.nx 0 (p.ny - 1) with hA
  have hr := cid_range (nx := p.nx) (ny := p.ny) (i := 0) (r := p.ny - 1) (by omega) (by omega)
    (by omega) (by omega)
  rw [← hA] at hr
  refine ⟨fun i => if i = A then 1 else 0, 2 * A, by omega, by simp only [MeshParams.dims]; omega, ?_⟩
  have g0 : (0 : Int) ≤ 2 * A := by omega
  have g1 : 2 * A < 2 * (p.nx * p.ny) := by omega
  have e : EqOn (3 * (p.nx * p.ny)) (Spec.grad m fun i => if i = A then 1 else 0)
      (Gr p.nx p.ny fun i => (if i = A then 1 else 0) / dc) := by
    intro e a b
    rw [spec_grad h _ a b]; unfold Gr; ring
  rw [spec_curl h _ g0 g1, Cu_congr h.hnx e g0 g1]
  have hm : mx p.ny (0 : Int) = p.ny - 1 := by simp [mx]
  have hp : px p.ny (p.ny - 1) = 0 := by simp [px]
  have par : (p.ny - 1) % 2 = 0 := by omega
  have iB : inv p.nx p.ny 2 A = cid p.nx 0 0 := by
    rw [hA, inv_cid (by omega) (by omega)]; simp [inI, inR, hp]
  have i4 : inv p.nx p.ny 4 (cid p.nx 0 0) = A := by
    rw [hA, inv_cid (by omega) (by omega)]; simp [inI, inR, hm, par]
  have i5 : inv p.nx p.ny 5 (cid p.nx 0 0) = cid p.nx (px p.nx 0) (p.ny - 1) := by
    rw [inv_cid (by omega) (by omega)]; simp [inI, inR, hm, par]
  have i3 : inv p.nx p.ny 3 A = cid p.nx (mx p.nx 0) (p.ny - 1) := by
    rw [hA, inv_cid (by omega) (by omega)]; simp [inI, inR]
  have n5 : ¬ cid p.nx (px p.nx 0) (p.ny - 1) = A := by
    have := px_ne (n := p.nx) (i := 0) hnx
    unfold A cid; omega
  have n3 : ¬ cid p.nx (mx p.nx 0) (p.ny - 1) = A := by
    have := mx_ne (n := p.nx) (i := 0) hnx
    unfold A cid; omega
  have m0 : 2 * A % 2 = 0 := by omega
  have d0 : 2 * A / 2 = A := by omega
  unfold Cu Hex.eov Gr
  rw [if_pos m0]
  simp only [m0, d0, if_true, coe_one, coe_zero, iB]
  norm_num
  have a0 : 3 * A / 3 = A := by omega
  have a1 : (3 * cid p.nx 0 0 + 1) / 3 = cid p.nx 0 0 := by omega
  have a2 : (3 * cid p.nx 0 0 + 2) / 3 = cid p.nx 0 0 := by omega
  have b0 : 3 * A % 3 = 0 := by omega
  have b1 : (3 * cid p.nx 0 0 + 1) % 3 = 1 := by omega
  have b2 : (3 * cid p.nx 0 0 + 2) % 3 = 2 := by omega
  have := w_pos
  refine ⟨hdc.ne', ?_⟩
  rw [a1, a2, i3, i4, i5, if_neg n3, if_neg n5, if_pos rfl]
  intro hh
  have hpos : (0 : ℝ) < dc⁻¹ := inv_pos.mpr hdc
  rw [zero_div, one_div] at hh
  linarith

/-- A fluid at rest acquires no vorticity: the velocity tendency computed from a state at rest has no
circulation, for every thickness field and all viscosities. -/
theorem C12_rest_acquires_no_vorticity (hv : RunValid p) (hdc : 0 < dc) {prm : Params ℝ}
    (hr : Ready p dc prm m) (hny : p.ny % 2 = 0) {sw : SWModel ℝ} (hn : sw.NoHook)
    (hen : sw.prm.disable_vn = false) {split : Bool} {t : ℝ} {m1 : Mem ℝ}
    (he : Exec p.dims (compute_tendency p.dims ⟨defaultKernels p.dims.vl, split⟩ sw .replace .tend
      .state t) m m1)
    (hrest : ∀ e k, 0 ≤ e → e < p.dims.nedges → 0 ≤ k → k < p.dims.nlayers →
      m.real (.vn_edge .state) 0 e k = 0) :
    ∀ v k, 0 ≤ v → v < p.dims.nvertices → 0 ≤ k → k < p.dims.nlayers →
      Spec.curl m (fun e => m1.real (.vn_edge .tend) 0 e k) v = 0 := by
  intro v k h0 h1 k0 k1
  obtain ⟨hd, hc⟩ := ready_ok hv hr
  have h := Ready.geo hr hv.toValid hdc
  have key := (tend_spec hd hc hn (by decide) he
    (x := ⟨(m.fld .state).h, fun _ _ => 0, (m.fld .state).tr⟩)
    ⟨fun _ _ _ _ _ _ => rfl, fun e k a b c d => hrest e k a b c d, fun _ _ _ _ _ _ _ _ _ => rfl⟩).2.1
    hen
  have hz : Spec.div m (fun _ => 0) = fun _ => 0 := by funext c; simp [Spec.div]
  have hzc : Spec.curl m (fun _ => 0) = fun _ => 0 := by funext c; simp [Spec.curl]
  have hzk : Spec.kinetic m (fun _ => 0) = fun _ => 0 := by funext c; simp [Spec.kinetic]
  have hzl : Spec.vecLap m (fun _ => 0) = fun _ => 0 := by
    funext c; simp [Spec.vecLap, hz, hzc, Spec.grad]
  have hu : EqOn (3 * (p.nx * p.ny)) (fun e => m1.real (.vn_edge .tend) 0 e k)
      (Spec.grad m fun i => -(if sw.en_ssh then sw.prm.grav else 0) * m.real (.h_cell .state) 0 i k) := by
    intro e a b
    simp only
    rw [key e k a b k0 k1]
    simp only [Spec.velocityTend, hz, hzc, hzk, hzl, Spec.pvFlux, Spec.grad, Spec.gradT, mul_zero,
      zero_mul, Finset.sum_const_zero, sub_zero, zero_div, ite_self, zero_sub, add_zero, Mem.fld]
    split_ifs <;> ring
  have hcv := curl_grad h hny (fun i => -(if sw.en_ssh then sw.prm.grav else 0) *
    m.real (.h_cell .state) 0 i k) h0 h1
  rw [spec_curl h _ h0 h1] at hcv ⊢
  rw [Cu_congr h.hnx hu h0 h1]
  exact hcv

/-- a state at rest with non-uniform thickness on a mesh with six rows -/
example (prm : Params ℝ) : ∃ m m1 : Mem ℝ, Ready p46 (1 / 4) prm m ∧ p46.ny % 2 = 0 ∧
    Exec p46.dims (compute_tendency p46.dims ⟨defaultKernels p46.dims.vl, false⟩
      (SWModel.ofParams prm) .replace .tend .state 0) m m1 ∧
    (∀ e k, m.real (.vn_edge .state) 0 e k = 0) ∧ m.real (.h_cell .state) 0 3 1 = 4 := by
  obtain ⟨m, m1, hr, -, -, hx, he⟩ := exists_tendency p46_run (1 / 4) prm (noHook_ofParams prm) false
    .replace 0 ⟨fun c _ => 1 + c, fun _ _ => 0, fun _ _ _ => 0⟩
  refine ⟨m, m1, hr, by decide, he, fun e k => ?_, ?_⟩
  · exact congrFun (congrFun (congrArg Fld.vn hx) e) k
  · exact (congrFun (congrFun (congrArg Fld.h hx) 3) 1).trans (by norm_num)

/-- an odd mesh (the smallest one the refutation covers) -/
example : MeshParams.Valid ⟨2, 3, 1, 0, 1⟩ ∧ ∃ m : Mem ℝ, Built ⟨2, 3, 1, 0, 1⟩ 1 m :=
  have hv : MeshParams.Valid ⟨2, 3, 1, 0, 1⟩ := by constructor <;> simp
  ⟨hv, _, built_meshMem hv 1 ⟨fun _ _ _ => 0, fun _ _ _ _ => 1⟩⟩

/-! ### C13 -/

theorem adjoint (h : Geo2 p.nx p.ny p.dims.nlayers dc m.mesh) (φ u : Int → ℝ) :
    ∑ c ∈ Spec.cells p.dims, Spec.areaC m c * (φ c * Spec.div m u c) =
      -∑ e ∈ Spec.edges p.dims, Spec.dcE m e * Spec.dvE m e * (u e * Spec.grad m φ e) := by
  have := w_pos; have := h.dc_pos
  have l : ∑ c ∈ Spec.cells p.dims, Spec.areaC m c * (φ c * Spec.div m u c) =
      dc * √3 / 3 * ∑ c ∈ upto (p.nx * p.ny), φ c * Dv p.nx p.ny u c := by
    rw [Finset.mul_sum]
    refine Finset.sum_congr rfl fun c hc => ?_
    have hc := mem_cells.mp hc
    rw [spec_areaC h.toGeo hc, spec_div h u hc]; field_simp
  have r : ∑ e ∈ Spec.edges p.dims, Spec.dcE m e * Spec.dvE m e * (u e * Spec.grad m φ e) =
      dc * √3 / 3 * ∑ e ∈ upto (3 * (p.nx * p.ny)), u e * Gr p.nx p.ny φ e := by
    rw [Finset.mul_sum]
    refine Finset.sum_congr rfl fun e he => ?_
    have he := Finset.mem_Ico.mp he
    rw [spec_dcE h.toGeo he.1 he.2, spec_dvE h.toGeo he.1 he.2, spec_grad h.toGeo φ he.1 he.2]
    field_simp
  rw [l, r, adjoint_cell h.hnx]; ring

theorem adjointV (h : Geo p.nx p.ny p.dims.nlayers dc m.mesh) (ψ u : Int → ℝ) :
    ∑ v ∈ Spec.verts p.dims, Spec.areaT m v * (ψ v * Spec.curl m u v) =
      ∑ e ∈ Spec.edges p.dims, Spec.dcE m e * Spec.dvE m e * (u e * Spec.gradT m ψ e) := by
  have := w_pos; have := h.dc_pos
  have l : ∑ v ∈ Spec.verts p.dims, Spec.areaT m v * (ψ v * Spec.curl m u v) =
      dc * ∑ v ∈ upto (2 * (p.nx * p.ny)), ψ v * Cu p.nx p.ny u v := by
    rw [Finset.mul_sum]
    refine Finset.sum_congr rfl fun v hv => ?_
    have hv := Finset.mem_Ico.mp hv
    rw [spec_areaT h hv.1 hv.2, spec_curl h u hv.1 hv.2]; field_simp
  have r : ∑ e ∈ Spec.edges p.dims, Spec.dcE m e * Spec.dvE m e * (u e * Spec.gradT m ψ e) =
      dc * ∑ e ∈ upto (3 * (p.nx * p.ny)), u e * Gv p.nx p.ny ψ e := by
    rw [Finset.mul_sum]
    refine Finset.sum_congr rfl fun e he => ?_
    have he := Finset.mem_Ico.mp he
    rw [spec_dcE h he.1 he.2, spec_dvE h he.1 he.2, spec_gradT h ψ he.1 he.2]
    field_simp
    linear_combination (u e * Gv p.nx p.ny ψ e) * w_sq
  rw [l, r, adjoint_vertex h.hnx]

/-- Gradient and divergence are negative adjoints (with the weights area of a cell and
`dc_edge * dv_edge`); in particular the total divergence is zero.  Tangential derivative and curl are
adjoints. -/
theorem C13_adjoint (hv : MeshParams.Valid p) (hx : 2 ≤ p.nx) (hy : 2 ≤ p.ny) (hdc : 0 < dc)
    (hb : Built p dc m) (φ ψ u : Int → ℝ) :
    ∑ c ∈ Spec.cells p.dims, Spec.areaC m c * (φ c * Spec.div m u c) =
      -∑ e ∈ Spec.edges p.dims, Spec.dcE m e * Spec.dvE m e * (u e * Spec.grad m φ e) ∧
    ∑ c ∈ Spec.cells p.dims, Spec.areaC m c * Spec.div m u c = 0 ∧
    ∑ v ∈ Spec.verts p.dims, Spec.areaT m v * (ψ v * Spec.curl m u v) =
      ∑ e ∈ Spec.edges p.dims, Spec.dcE m e * Spec.dvE m e * (u e * Spec.gradT m ψ e) ∧
    ∑ v ∈ Spec.verts p.dims, Spec.areaT m v * Spec.curl m u v = 0 := by
  have h := hb.geo2 hv hx hy hdc
  refine ⟨adjoint h φ u, ?_, adjointV h.toGeo ψ u, ?_⟩
  · have := adjoint h (fun _ => 1) u
    simpa [Spec.grad] using this
  · have := adjointV h.toGeo (fun _ => 1) u
    simpa [Spec.gradT] using this

example : 2 ≤ p46.nx ∧ 2 ≤ p46.ny ∧ ∃ m : Mem ℝ, Built p46 (1 / 4) m :=
  ⟨by simp [p46], by simp [p46], _, built_meshMem p46_valid _ ⟨fun _ _ _ => 0, fun _ _ _ _ => 1⟩⟩

/-! ### C14 -/

theorem cos_two_third : Real.cos (2 * Real.pi / 3) = -(1 / 2) := by
  rw [show 2 * Real.pi / 3 = Real.pi - Real.pi / 3 by ring, Real.cos_pi_sub, Real.cos_pi_div_three]
theorem sin_two_third : Real.sin (2 * Real.pi / 3) = √3 / 2 := by
  rw [show 2 * Real.pi / 3 = Real.pi - Real.pi / 3 by ring, Real.sin_pi_sub, Real.sin_pi_div_three]

/-- The tangential reconstruction is exact for uniform flow `(a, b)`: from the normal components it
gives the components along the direction 90° to the left of the normal, at every edge. -/
theorem C14_uniform_reconstruction (hv : MeshParams.Valid p) (hdc : 0 < dc) (hb : Built p dc m)
    (a b : ℝ) (u : Int → ℝ)
    (hu : ∀ e, 0 ≤ e → e < p.dims.nedges →
      u e = a * Real.cos (m.real .angle_edge 0 e 0) + b * Real.sin (m.real .angle_edge 0 e 0)) :
    ∀ e, 0 ≤ e → e < p.dims.nedges →
      Spec.tang m u e =
        a * Real.cos (m.real .angle_edge 0 e 0 + Real.pi / 2) +
        b * Real.sin (m.real .angle_edge 0 e 0 + Real.pi / 2) := by
  intro e h0 h1
  have h := hb.geo hv hdc
  have hang : ∀ e, 0 ≤ e → e < p.dims.nedges → m.real .angle_edge 0 e 0 = angE e :=
    (hb.hex hv).angle_edge
  have hu' : ∀ e, 0 ≤ e → e < 3 * (p.nx * p.ny) → u e = (fun r : Int =>
      a * Real.cos (angE r) + b * Real.sin (angE r)) (e % 3) := by
    intro e h0 h1
    rw [hu e h0 h1, hang e h0 h1]
    simp [angE]
  rw [spec_tang h u h0 h1, Tn_uniform h.hnx u (fun r : Int =>
    a * Real.cos (angE r) + b * Real.sin (angE r)) hu' h0 h1, hang e h0 h1, Real.cos_add_pi_div_two,
    Real.sin_add_pi_div_two]
  have hw := w_sq
  have hw0 := w_pos
  obtain hh | hh | hh : e % 3 = 0 ∨ e % 3 = 1 ∨ e % 3 = 2 := by omega
  all_goals
    simp only [angE, hh]
    norm_num [Real.cos_pi_div_three, Real.sin_pi_div_three, cos_two_third, sin_two_third]
    field_simp
    first | ring1 | linear_combination a * hw

/-! ### C15 -/

theorem no_work (h : Geo p.nx p.ny p.dims.nlayers dc m.mesh) (q F : Int → ℝ) :
    ∑ e ∈ Spec.edges p.dims, Spec.dcE m e * Spec.dvE m e * (F e * Spec.pvFlux m q F e) = 0 := by
  have l : ∑ e ∈ Spec.edges p.dims, Spec.dcE m e * Spec.dvE m e * (F e * Spec.pvFlux m q F e) =
      dc * (dc * √3 / 3) * (1 / √3) * ∑ e ∈ upto (3 * (p.nx * p.ny)),
        Tw p.nx p.ny (fun e e' => F e * F e' * ((q e + q e') / 2)) e := by
    rw [Finset.mul_sum]
    refine Finset.sum_congr rfl fun e he => ?_
    have he := Finset.mem_Ico.mp he
    rw [spec_dcE h he.1 he.2, spec_dvE h he.1 he.2, spec_pvFlux h q F he.1 he.2]
    unfold Tw
    simp only [Finset.mul_sum]
    refine Finset.sum_congr rfl fun s _ => ?_
    ring
  rw [l, Hex.antisymm h.hnx, mul_zero]
  intro x y; ring

/-- The vorticity flux does no work: it is orthogonal to the mass flux, for every vorticity and mass
flux. -/
theorem C15_vorticity_flux_no_work (hv : MeshParams.Valid p) (hdc : 0 < dc) (hb : Built p dc m)
    (q F : Int → ℝ) :
    ∑ e ∈ Spec.edges p.dims, Spec.dcE m e * Spec.dvE m e * (F e * Spec.pvFlux m q F e) = 0 :=
  no_work (hb.geo hv hdc) q F

/-! ### C16 -/

theorem curl_tang (h : Geo2 p.nx p.ny p.dims.nlayers dc m.mesh) (hny : p.ny % 2 = 0)
    (u : Int → ℝ) {v : Int} (h0 : 0 ≤ v) (h1 : v < p.dims.nvertices) :
    Spec.curl m (Spec.tang m u) v = -Spec.kiteMean m (Spec.div m u) v := by
  have e1 : EqOn (3 * (p.nx * p.ny)) (Spec.tang m u) (fun e => 1 / √3 * Tn p.nx p.ny u e) :=
    fun e a b => spec_tang h.toGeo u a b
  have e2 : EqOn (p.nx * p.ny) (Spec.div m u) (fun c => 2 / (3 * dc) * Dv p.nx p.ny u c) :=
    fun c a b => spec_div h u ⟨a, b⟩
  rw [spec_curl h.toGeo _ h0 h1, spec_kiteMean h.toGeo _ h0 h1, Cu_congr h.hnx e1 h0 h1,
    Mv_congr h.hnx e2 h0 h1]
  have hl : Cu p.nx p.ny (fun e => 1 / √3 * Tn p.nx p.ny u e) v =
      1 / √3 * Cu p.nx p.ny (Tn p.nx p.ny u) v := by
    unfold Cu; split_ifs <;> ring
  have hr : Mv p.nx p.ny (fun c => 2 / (3 * dc) * Dv p.nx p.ny u c) v =
      2 / (3 * dc) * Mv p.nx p.ny (Dv p.nx p.ny u) v := by unfold Mv; ring
  rw [hl, hr, Cu_Tn h.hnx hny u h0 h1]
  have := w_pos; have := h.dc_pos; have := w_sq
  field_simp
  rw [show √3 ^ 2 = √3 * √3 by ring, w_sq]
  ring

/-- The curl of the reconstructed flux is minus the interpolated divergence (even number of rows). -/
theorem C16_curl_of_reconstruction (hv : MeshParams.Valid p) (hx : 2 ≤ p.nx) (hy : 2 ≤ p.ny)
    (hny : p.ny % 2 = 0) (hdc : 0 < dc) (hb : Built p dc m) (u : Int → ℝ) :
    ∀ v, 0 ≤ v → v < p.dims.nvertices →
      Spec.curl m (Spec.tang m u) v = -Spec.kiteMean m (Spec.div m u) v :=
  fun v h0 h1 => curl_tang (hb.geo2 hv hx hy hdc) hny u h0 h1

/-- meshes for C14 – C16 -/
example : p46.ny % 2 = 0 ∧ 2 ≤ p46.nx ∧ 2 ≤ p46.ny ∧ ∃ m : Mem ℝ, Built p46 (1 / 4) m :=
  ⟨by simp [p46], by simp [p46], by simp [p46], _,
    built_meshMem p46_valid _ ⟨fun _ _ _ => 0, fun _ _ _ _ => 1⟩⟩

end Props
end
end Omega
