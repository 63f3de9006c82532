import Verif.Props.Hierarchical

/-!
# C60: geostrophic balance of the linear model

A stream function on the vertices gives a velocity that has no divergence, and whose reconstructed
tangential component is minus the gradient of the area mean of the stream function over each cell.
So the linear model has an exactly steady state for every stream function.
-/

set_option linter.unusedVariables false
set_option linter.unusedSectionVars false

namespace Omega
noncomputable section

namespace Spec

open Model Finset

/-- mean of a vertex field on a cell, weighted with the parts of the cell next to each vertex -/
def cellMean (m : Mem ℝ) (d : Dims) (ψ : Int → ℝ) (c : Int) : ℝ :=
  (∑ v ∈ verts d, ∑ j ∈ Ico (0 : Int) 3,
    if m.int .cells_on_vertex v j = c then m.real .kiteareas_on_vertex 0 v j * ψ v else 0) /
      areaC m c

end Spec

namespace Props

open Prog Model Refine Hex

variable {p : MeshParams} {dc : ℝ} {m : Mem ℝ}

/-- a function orthogonal to every function is zero -/
theorem orth_zero (A : Finset Int) (w f : Int → ℝ) (hw : ∀ i ∈ A, 0 < w i)
    (h : ∀ φ : Int → ℝ, ∑ i ∈ A, w i * (φ i * f i) = 0) {i : Int} (hi : i ∈ A) : f i = 0 := by
  have := h fun j => if j = i then 1 else 0
  rw [Finset.sum_eq_single i (fun j _ hj => by simp [hj]) (fun hn => absurd hi hn)] at this
  have hp := hw i hi
  simpa [hp.ne'] using this

/-- The velocity of a stream function has no divergence. -/
theorem div_gradT (h : Geo2 p.nx p.ny p.dims.nlayers dc m.mesh) (hny : p.ny % 2 = 0)
    (ψ : Int → ℝ) {c : Int} (h0 : 0 ≤ c) (h1 : c < p.dims.ncells) :
    Spec.div m (Spec.gradT m ψ) c = 0 := by
  refine orth_zero (Spec.cells p.dims) (Spec.areaC m) _ (fun c hc => ?_) (fun φ => ?_)
    (Finset.mem_Ico.2 ⟨h0, h1⟩)
  · exact areaC_pos h.toGeo (Finset.mem_Ico.1 hc).1 (Finset.mem_Ico.1 hc).2
  · rw [adjoint h φ (Spec.gradT m ψ)]
    have := adjointV h.toGeo ψ (Spec.grad m φ)
    rw [Finset.sum_eq_zero (fun v hv => by
      rw [curl_grad h.toGeo hny φ (Finset.mem_Ico.1 hv).1 (Finset.mem_Ico.1 hv).2, mul_zero,
        mul_zero])] at this
    rw [neg_eq_zero, this]
    exact Finset.sum_congr rfl fun e _ => by ring

/-- the reconstruction is antisymmetric -/
theorem tang_antisymm (h : Geo p.nx p.ny p.dims.nlayers dc m.mesh) (u w : Int → ℝ) :
    ∑ e ∈ Spec.edges p.dims, Spec.dcE m e * Spec.dvE m e * (u e * Spec.tang m w e) =
      -∑ e ∈ Spec.edges p.dims, Spec.dcE m e * Spec.dvE m e * (w e * Spec.tang m u e) := by
  have k : ∀ F : Int → ℝ, ∑ e ∈ Spec.edges p.dims,
      Spec.dcE m e * Spec.dvE m e * (F e * Spec.tang m F e) = 0 := fun F => by
    rw [← no_work h (fun _ => 1) F]
    refine Finset.sum_congr rfl fun e _ => ?_
    unfold Spec.tang Spec.pvFlux
    norm_num
  have ku := k u
  have kw := k w
  have kuw := k fun e => u e + w e
  have lin : ∀ e, Spec.tang m (fun e => u e + w e) e = Spec.tang m u e + Spec.tang m w e :=
    fun e => by
      unfold Spec.tang
      rw [← Finset.sum_add_distrib]
      exact Finset.sum_congr rfl fun j _ => by ring
  simp only [lin] at kuw
  rw [eq_neg_iff_add_eq_zero]
  have : ∑ e ∈ Spec.edges p.dims, Spec.dcE m e * Spec.dvE m e *
      ((u e + w e) * (Spec.tang m u e + Spec.tang m w e)) =
      ∑ e ∈ Spec.edges p.dims, Spec.dcE m e * Spec.dvE m e * (u e * Spec.tang m u e) +
      ∑ e ∈ Spec.edges p.dims, Spec.dcE m e * Spec.dvE m e * (w e * Spec.tang m w e) +
      (∑ e ∈ Spec.edges p.dims, Spec.dcE m e * Spec.dvE m e * (u e * Spec.tang m w e) +
      ∑ e ∈ Spec.edges p.dims, Spec.dcE m e * Spec.dvE m e * (w e * Spec.tang m u e)) := by
    simp only [← Finset.sum_add_distrib]
    exact Finset.sum_congr rfl fun e _ => by ring
  rw [this, ku, kw] at kuw
  linarith

/-- the kite mean and the cell mean are adjoint -/
theorem cellMean_adjoint (h : Geo p.nx p.ny p.dims.nlayers dc m.mesh) (hc : ConnOK p.dims m)
    (ψ φ : Int → ℝ) :
    ∑ v ∈ Spec.verts p.dims, Spec.areaT m v * (ψ v * Spec.kiteMean m φ v) =
      ∑ c ∈ Spec.cells p.dims, Spec.areaC m c * (Spec.cellMean m p.dims ψ c * φ c) := by
  have r : ∀ c ∈ Spec.cells p.dims, Spec.areaC m c * (Spec.cellMean m p.dims ψ c * φ c) =
      ∑ v ∈ Spec.verts p.dims, ∑ j ∈ Finset.Ico (0 : Int) 3,
        if m.int .cells_on_vertex v j = c then
          m.real .kiteareas_on_vertex 0 v j * ψ v * φ c else 0 := fun c hc => by
    have := areaC_pos h (Finset.mem_Ico.1 hc).1 (Finset.mem_Ico.1 hc).2
    unfold Spec.cellMean
    rw [div_mul_eq_mul_div, mul_div_cancel₀ _ this.ne', Finset.sum_mul]
    refine Finset.sum_congr rfl fun v _ => ?_
    rw [Finset.sum_mul]
    exact Finset.sum_congr rfl fun j _ => by split_ifs <;> simp
  rw [Finset.sum_congr rfl r, Finset.sum_comm]
  refine Finset.sum_congr rfl fun v hv => ?_
  have hv' := Finset.mem_Ico.1 hv
  have := areaT_pos h hv'.1 hv'.2
  rw [Finset.sum_comm]
  unfold Spec.kiteMean
  rw [mul_comm (ψ v), div_mul_eq_mul_div, mul_div_cancel₀ _ this.ne', Finset.sum_mul]
  refine Finset.sum_congr rfl fun j hj => ?_
  obtain ⟨j0, j1⟩ := Finset.mem_Ico.1 hj
  rw [Finset.sum_ite_eq, if_pos (Finset.mem_Ico.2 (hc.cov v hv'.1 hv'.2 j j0 j1))]
  ring

/-- The velocity of a stream function is balanced by the gradient of the cell mean of the stream
function. -/
theorem tang_gradT (h : Geo2 p.nx p.ny p.dims.nlayers dc m.mesh) (hc : ConnOK p.dims m)
    (hny : p.ny % 2 = 0) (ψ : Int → ℝ) {e : Int} (h0 : 0 ≤ e) (h1 : e < p.dims.nedges) :
    Spec.tang m (Spec.gradT m ψ) e = -Spec.grad m (Spec.cellMean m p.dims ψ) e := by
  rw [eq_neg_iff_add_eq_zero]
  refine orth_zero (Spec.edges p.dims) (fun e => Spec.dcE m e * Spec.dvE m e)
    (fun e => Spec.tang m (Spec.gradT m ψ) e + Spec.grad m (Spec.cellMean m p.dims ψ) e)
    (fun e he => ?_) (fun u => ?_) (Finset.mem_Ico.2 ⟨h0, h1⟩)
  · exact dcdv_pos h.toGeo (Finset.mem_Ico.1 he).1 (Finset.mem_Ico.1 he).2
  · have k1 := tang_antisymm h.toGeo u (Spec.gradT m ψ)
    have k2 := adjointV h.toGeo ψ (Spec.tang m u)
    have k3 := cellMean_adjoint h.toGeo hc ψ (Spec.div m u)
    have k4 := adjoint h (Spec.cellMean m p.dims ψ) u
    have k5 : ∑ v ∈ Spec.verts p.dims, Spec.areaT m v * (ψ v * Spec.curl m (Spec.tang m u) v) =
        -∑ v ∈ Spec.verts p.dims, Spec.areaT m v * (ψ v * Spec.kiteMean m (Spec.div m u) v) := by
      rw [← Finset.sum_neg_distrib]
      refine Finset.sum_congr rfl fun v hv => ?_
      rw [curl_tang h hny u (Finset.mem_Ico.1 hv).1 (Finset.mem_Ico.1 hv).2]
      ring
    have k6 : ∑ e ∈ Spec.edges p.dims, Spec.dcE m e * Spec.dvE m e *
        (Spec.tang m u e * Spec.gradT m ψ e) = ∑ e ∈ Spec.edges p.dims,
        Spec.dcE m e * Spec.dvE m e * (Spec.gradT m ψ e * Spec.tang m u e) :=
      Finset.sum_congr rfl fun e _ => by ring
    simp only [mul_add, Finset.sum_add_distrib] at *
    linarith

/-- For every stream function on the vertices (one per layer), the velocity it defines is an exactly
steady solution of the linear model, together with the thickness that balances it. -/
theorem C60_geostrophic (hv : RunValid p) (hx : 2 ≤ p.nx) (hy : 2 ≤ p.ny) (hny : p.ny % 2 = 0)
    (hdc : 0 < dc) {prm : Params ℝ} (hr : Ready p dc prm m) {sw : LinModel ℝ} {tn st : StateId}
    (hne : st ≠ tn) (ψ : Int → Int → ℝ) (H : Int → ℝ)
    (hu : ∀ e k, 0 ≤ e → e < p.dims.nedges → 0 ≤ k → k < p.dims.nlayers →
      m.real (.vn_edge st) 0 e k = Spec.gradT m (ψ k) e)
    (hh : ∀ c k, 0 ≤ c → c < p.dims.ncells → 0 ≤ k → k < p.dims.nlayers →
      sw.prm.grav * m.real (.h_cell st) 0 c k =
        H k - prm.f0 * Spec.cellMean m p.dims (ψ k) c)
    {m1 : Mem ℝ} (he : Exec p.dims (lin_compute_tendency p.dims sw .replace tn st) m m1) :
    (sw.prm.disable_h = false → ∀ c k, 0 ≤ c → c < p.dims.ncells → 0 ≤ k → k < p.dims.nlayers →
      m1.real (.h_cell tn) 0 c k = 0) ∧
    (sw.prm.disable_vn = false → ∀ e k, 0 ≤ e → e < p.dims.nedges → 0 ≤ k → k < p.dims.nlayers →
      m1.real (.vn_edge tn) 0 e k = 0) := by
  obtain ⟨hd, hc⟩ := ready_ok hv hr
  have g := Ready.geo2 hr hv.toValid hx hy hdc
  obtain ⟨v1, v2⟩ := C45_formula hd hc hne he
  refine ⟨fun hb c k c0 c1 k0 k1 => ?_, fun hb e k e0 e1 k0 k1 => ?_⟩
  · rw [v1 hb c k c0 c1 k0 k1, div_congr hc (fun e a b => hu e k a b k0 k1) c0 c1,
      div_gradT g hny _ c0 c1, mul_zero, neg_zero]
  · rw [v2 hb e k e0 e1 k0 k1, (Ready.hex hv.toValid hr).2.2 e e0 e1]
    have t : Spec.tang m (fun i => m.real (.vn_edge st) 0 i k) e =
        Spec.tang m (Spec.gradT m (ψ k)) e := by
      unfold Spec.tang
      refine Finset.sum_congr rfl fun j hj => ?_
      obtain ⟨j0, j1⟩ := Finset.mem_Ico.1 hj
      obtain ⟨a, b⟩ := hc.eoe e e0 e1 j j0 j1
      simp only [hu _ k a b k0 k1]
    rw [t, tang_gradT g hc hny _ e0 e1]
    obtain ⟨a0, a1⟩ := hc.coe e e0 e1 0 (by norm_num) (by norm_num)
    obtain ⟨b0, b1⟩ := hc.coe e e0 e1 1 (by norm_num) (by norm_num)
    have ha := hh _ k a0 a1 k0 k1
    have hb := hh _ k b0 b1 k0 k1
    unfold Spec.grad Spec.cellOf
    rw [← mul_div_assoc, mul_sub, ha, hb]
    ring

/-- on the example mesh, with stream function `v²` -/
example (sw : LinModel ℝ) (hg : sw.prm.grav ≠ 0) (prm : Params ℝ) :
    ∃ (m m1 : Mem ℝ) (ψ : Int → Int → ℝ) (H : Int → ℝ), Ready p46 (1 / 4) prm m ∧
      (∀ e k, m.real (.vn_edge .state) 0 e k = Spec.gradT m (ψ k) e) ∧
      (∀ c k, sw.prm.grav * m.real (.h_cell .state) 0 c k =
        H k - prm.f0 * Spec.cellMean m p46.dims (ψ k) c) ∧
      Exec p46.dims (lin_compute_tendency p46.dims sw .replace .tend .state) m m1 ∧
      ψ 0 3 = 9 := by
  obtain ⟨m, hr, hx, -⟩ := exists_ready p46_run.toValid (1 / 4 : ℝ) prm
    ⟨fun c _ => 1 + c, fun e _ => e * e, fun l c k => l + c + k⟩ zeroFld
  let ψ : Int → Int → ℝ := fun k v => v ^ 2 + k
  let y : Fld ℝ := ⟨fun c k => (1 - prm.f0 * Spec.cellMean m p46.dims (ψ k) c) / sw.prm.grav,
    fun e k => Spec.gradT m (ψ k) e, fun _ _ _ => 0⟩
  have hs := setFld_static m .state y
  have hr' := hr.static hs
  obtain ⟨hd, hc⟩ := ready_ok p46_run hr'
  obtain ⟨m1, r, -⟩ := lin_compute_tendency_runs hd hc sw .replace (st := .state) (tn := .tend)
    (by decide)
  refine ⟨setFld m .state y, m1, ψ, fun _ => 1, hr', fun e k => ?_, fun c k => ?_, r.exec, ?_⟩
  · exact rfl
  · show sw.prm.grav * ((1 - prm.f0 * Spec.cellMean m p46.dims (ψ k) c) / sw.prm.grav) = _
    rw [mul_div_cancel₀ _ hg]
    rfl
  · norm_num [ψ]

end Props
end
end Omega
