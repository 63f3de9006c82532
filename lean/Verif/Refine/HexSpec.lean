import Verif.Refine.HexIdent
import Verif.Props.Trisk

/-!
# The operators of `Spec` on the hexagonal mesh
-/

set_option linter.unusedSectionVars false
set_option linter.unusedVariables false

namespace Omega
noncomputable section

namespace Hex

open Refine

variable {nx ny : Int} (hnx : 1 ≤ nx) {u u' φ φ' ψ ψ' : Int → ℝ}
include hnx

theorem E_eq (h : EqOn (3 * (nx * ny)) u u') {c : Int} (hc : IsCell nx ny c) (j : Int) (a : 0 ≤ j)
    (b : j < 6) : u (E nx ny c j) = u' (E nx ny c j) :=
  h _ (E_range hnx hc j a b).1 (E_range hnx hc j a b).2

theorem Dv_congr (h : EqOn (3 * (nx * ny)) u u') {c : Int} (hc : IsCell nx ny c) :
    Dv nx ny u c = Dv nx ny u' c := by
  unfold Dv
  have e := E_eq hnx h hc
  rw [e 0 (by omega) (by omega), e 1 (by omega) (by omega), e 2 (by omega) (by omega),
    e 3 (by omega) (by omega), e 4 (by omega) (by omega), e 5 (by omega) (by omega)]

theorem Sd_congr (h : EqOn (3 * (nx * ny)) u u') {c : Int} (hc : IsCell nx ny c) :
    Sd nx ny u c = Sd nx ny u' c := by
  unfold Sd
  have e := E_eq hnx h hc
  rw [e 0 (by omega) (by omega), e 1 (by omega) (by omega), e 2 (by omega) (by omega),
    e 3 (by omega) (by omega), e 4 (by omega) (by omega), e 5 (by omega) (by omega)]

theorem Gr_congr (h : EqOn (nx * ny) φ φ') {e : Int} (h0 : 0 ≤ e) (h1 : e < 3 * (nx * ny)) :
    Gr nx ny φ e = Gr nx ny φ' e := by
  unfold Gr
  have := fun s => coe_isCell hnx h0 h1 (s := s)
  rw [h _ (this 0).1 (this 0).2, h _ (this 1).1 (this 1).2]

theorem Mn_congr (h : EqOn (nx * ny) φ φ') {e : Int} (h0 : 0 ≤ e) (h1 : e < 3 * (nx * ny)) :
    Mn nx ny φ e = Mn nx ny φ' e := by
  unfold Mn
  have := fun s => coe_isCell hnx h0 h1 (s := s)
  rw [h _ (this 0).1 (this 0).2, h _ (this 1).1 (this 1).2]

theorem Mv_congr (h : EqOn (nx * ny) φ φ') {v : Int} (h0 : 0 ≤ v) (h1 : v < 2 * (nx * ny)) :
    Mv nx ny φ v = Mv nx ny φ' v := by
  unfold Mv
  have := fun s => cov_isCell hnx h0 h1 (s := s)
  rw [h _ (this 0).1 (this 0).2, h _ (this 1).1 (this 1).2, h _ (this 2).1 (this 2).2]

theorem Cu_congr (h : EqOn (3 * (nx * ny)) u u') {v : Int} (h0 : 0 ≤ v) (h1 : v < 2 * (nx * ny)) :
    Cu nx ny u v = Cu nx ny u' v := by
  have e : ∀ s, u (eov nx ny v s) = u' (eov nx ny v s) := fun s => by
    have := eov_isCell hnx h0 h1 (s := s)
    unfold IsCell at this
    exact h _ (by omega) (by omega)
  unfold Cu; rw [e, e, e]

theorem Gv_congr (h : EqOn (2 * (nx * ny)) ψ ψ') {e : Int} (h0 : 0 ≤ e) (h1 : e < 3 * (nx * ny)) :
    Gv nx ny ψ e = Gv nx ny ψ' e := by
  unfold Gv
  have := fun s hs => voe_isVertex hnx (isCell_edge h0 h1) (s := s) hs
  rw [h _ (this 0 (Or.inl rfl)).1 (this 0 (Or.inl rfl)).2,
    h _ (this 1 (Or.inr rfl)).1 (this 1 (Or.inr rfl)).2]

theorem eoe_range {e : Int} (h0 : 0 ≤ e) (h1 : e < 3 * (nx * ny)) {s : Int} (hs : 0 ≤ s)
    (hs' : s < 10) : 0 ≤ eoe nx ny e s ∧ eoe nx ny e s < 3 * (nx * ny) := by
  unfold eoe
  split_ifs
  · exact E_range hnx (coe_isCell hnx h0 h1) _ (by omega) (by omega)
  · exact E_range hnx (isCell_edge h0 h1) _ (by omega) (by omega)

theorem Tw_congr {F F' : Int → Int → ℝ} {e : Int} (h0 : 0 ≤ e) (h1 : e < 3 * (nx * ny))
    (h : EqOn (3 * (nx * ny)) (F e) (F' e)) : Tw nx ny F e = Tw nx ny F' e := by
  unfold Tw
  refine Finset.sum_congr rfl fun s hs => ?_
  simp only [Finset.mem_range] at hs
  have := eoe_range hnx h0 h1 (s := s) (by omega) (by omega)
  rw [h _ this.1 this.2]

end Hex

namespace Props

open Model Refine Hex

variable {p : MeshParams} {dc : ℝ} {m : Mem ℝ}

section

variable (h : Geo p.nx p.ny p.dims.nlayers dc m.mesh)
include h

theorem spec_grad (φ : Int → ℝ) {e : Int} (h0 : 0 ≤ e) (h1 : e < 3 * (p.nx * p.ny)) :
    Spec.grad m φ e = Gr p.nx p.ny φ e / dc := by rw [← fn_keG, h.keG φ h0 h1]

theorem spec_gradT (ψ : Int → ℝ) {e : Int} (h0 : 0 ≤ e) (h1 : e < 3 * (p.nx * p.ny)) :
    Spec.gradT m ψ e = Gv p.nx p.ny ψ e * (√3 / dc) := by
  unfold Spec.gradT Gv
  have e0 : Spec.vertOf m e 0 = Hex.voe p.nx p.ny e 0 := h.voe e h0 h1 0 (by omega) (by omega)
  have e1 : Spec.vertOf m e 1 = Hex.voe p.nx p.ny e 1 := h.voe e h0 h1 1 (by omega) (by omega)
  have e2 : Spec.dvE m e = dc * √3 / 3 := h.dv e h0 h1
  rw [e0, e1, e2, ← h.dv_inv]; ring

theorem spec_curl (u : Int → ℝ) {v : Int} (h0 : 0 ≤ v) (h1 : v < 2 * (p.nx * p.ny)) :
    Spec.curl m u v = 4 / (dc * √3) * Cu p.nx p.ny u v := by rw [← fn_rvort, h.rvort u h0 h1]

theorem spec_mean (φ : Int → ℝ) {e : Int} (h0 : 0 ≤ e) (h1 : e < 3 * (p.nx * p.ny)) :
    Spec.mean m φ e = Mn p.nx p.ny φ e := by rw [← fn_hmean, h.hmean φ h0 h1]

theorem spec_kiteMean (φ : Int → ℝ) {v : Int} (h0 : 0 ≤ v) (h1 : v < 2 * (p.nx * p.ny)) :
    Spec.kiteMean m φ v = Mv p.nx p.ny φ v := by rw [← fn_hvert, h.hvert φ h0 h1]

theorem spec_kinetic (u : Int → ℝ) {c : Int} (hc : IsCell p.nx p.ny c) :
    Spec.kinetic m u c = 1 / 6 * Sd p.nx p.ny (fun e => u e * u e) c := by
  rw [← fn_ke, h.ke u hc]

theorem spec_pvFlux (q F : Int → ℝ) {e : Int} (h0 : 0 ≤ e) (h1 : e < 3 * (p.nx * p.ny)) :
    Spec.pvFlux m q F e = 1 / √3 * Tw p.nx p.ny (fun e e' => F e' * ((q e + q e') / 2)) e := by
  have := h.pv q (fun _ => 0) F (fun _ => 1) h0 h1
  rw [fn_pv] at this
  simpa using this

theorem spec_tang (u : Int → ℝ) {e : Int} (h0 : 0 ≤ e) (h1 : e < 3 * (p.nx * p.ny)) :
    Spec.tang m u e = 1 / √3 * Tn p.nx p.ny u e := by
  have := spec_pvFlux h (fun _ => 1) u h0 h1
  have e2 : ((1 : ℝ) + 1) / 2 = 1 := by norm_num
  simp only [Spec.pvFlux, e2, mul_one] at this
  exact this

theorem spec_areaC {c : Int} (hc : IsCell p.nx p.ny c) : Spec.areaC m c = dc * dc * √3 / 2 :=
  h.areaCell c hc
theorem spec_areaT {v : Int} (h0 : 0 ≤ v) (h1 : v < 2 * (p.nx * p.ny)) :
    Spec.areaT m v = dc * dc * √3 / 4 := h.areaTri v h0 h1
theorem spec_dcE {e : Int} (h0 : 0 ≤ e) (h1 : e < 3 * (p.nx * p.ny)) : Spec.dcE m e = dc :=
  h.dcE e h0 h1
theorem spec_dvE {e : Int} (h0 : 0 ≤ e) (h1 : e < 3 * (p.nx * p.ny)) :
    Spec.dvE m e = dc * √3 / 3 := h.dv e h0 h1

end

theorem spec_div (h : Geo2 p.nx p.ny p.dims.nlayers dc m.mesh) (u : Int → ℝ) {c : Int}
    (hc : IsCell p.nx p.ny c) : Spec.div m u c = 2 / (3 * dc) * Dv p.nx p.ny u c := by
  rw [← fn_div, h.div u hc]

end Props
end
end Omega
