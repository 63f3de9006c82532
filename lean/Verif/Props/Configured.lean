import Verif.Props.Trisk

/-!
# C58: which terms a model built from parameters has
-/

set_option linter.unusedVariables false

namespace Omega
noncomputable section
namespace Props

open Prog Model Refine

/-- Specification: the equations of a model with parameters `prm`. Advection, the vorticity flux and
both gradients are always there; a diffusion coefficient acts when it is positive, and a negative one
counts as zero. -/
structure Equations (m : Mem ℝ) (prm : Params ℝ) (k : Int) (h u : Int → ℝ) where
  /-- thickness -/
  thickness : Int → ℝ
  /-- velocity -/
  velocity : Int → ℝ
  /-- content of a tracer -/
  tracer : (Int → ℝ) → Int → ℝ

/-- see `Equations` -/
def equations (m : Mem ℝ) (prm : Params ℝ) (k : Int) (h u : Int → ℝ) : Equations m prm k h u where
  thickness := fun c => -Spec.div m (fun e => Spec.mean m h e * u e) c
  velocity := fun e =>
    Spec.pvFlux m (Spec.vmean m (Spec.pv m h u)) (fun e => Spec.mean m h e * u e) e -
    Spec.grad m (Spec.kinetic m u) e - prm.grav * Spec.grad m h e +
    max prm.visc_del2 0 * m.real .edge_mask 0 e k * m.real .mesh_scaling_del2 0 e 0 *
      (Spec.grad m (Spec.div m u) e - Spec.gradT m (Spec.curl m u) e) -
    max prm.visc_del4 0 * m.real .edge_mask 0 e k * m.real .mesh_scaling_del4 0 e 0 *
      (Spec.grad m (Spec.div m (Spec.vecLap m u)) e - Spec.gradT m (Spec.curl m (Spec.vecLap m u)) e)
  tracer := fun s c =>
    -Spec.div m (fun e => Spec.mean m h e * Spec.mean m (fun i => s i / h i) e * u e) c +
    max prm.eddy_diff2 0 * Spec.div m (fun e => m.real .mesh_scaling_del2 0 e 0 *
      Spec.mean m h e * Spec.grad m (fun i => s i / h i) e) c -
    max prm.eddy_diff4 0 * Spec.div m (fun e => m.real .mesh_scaling_del4 0 e 0 *
      Spec.grad m (Spec.div m fun e => Spec.mean m h e * Spec.grad m (fun i => s i / h i) e) e) c

theorem enabled_iff (a : ℝ) : (Scalar.lt (lit 0) a : Bool) = true ↔ 0 < a := by
  show @decide (((0 : Int) : ℝ) < a) (Classical.dec _) = true ↔ _
  rw [decide_eq_true_eq, Int.cast_zero]

theorem coef_max {a : ℝ} {b : Bool} (hb : b = true ↔ 0 < a) (x : ℝ) :
    (if b then a * x else 0) = max a 0 * x := by
  by_cases h : 0 < a
  · rw [if_pos (hb.2 h), max_eq_left h.le]
  · rw [if_neg (fun h' => h (hb.1 h')), max_eq_right (not_lt.mp h), zero_mul]

/-- A model constructed from parameters computes the tendencies of `Equations`. -/
theorem C58_model_of_parameters {d : Dims} {m m1 : Mem ℝ} (hd : DimsOK d) (hc : ConnOK d m)
    (prm : Params ℝ) {split : Bool} {tn st : StateId} (hne : st ≠ tn) {t : ℝ}
    (he : Exec d (compute_tendency d ⟨defaultKernels d.vl, split⟩ (SWModel.ofParams prm) .replace tn st
      t) m m1) :
    (prm.disable_h = false → ∀ c k, 0 ≤ c → c < d.ncells → 0 ≤ k → k < d.nlayers →
      m1.real (.h_cell tn) 0 c k = (equations m prm k (fun i => m.real (.h_cell st) 0 i k)
        (fun i => m.real (.vn_edge st) 0 i k)).thickness c) ∧
    (prm.disable_vn = false → ∀ e k, 0 ≤ e → e < d.nedges → 0 ≤ k → k < d.nlayers →
      m1.real (.vn_edge tn) 0 e k = (equations m prm k (fun i => m.real (.h_cell st) 0 i k)
        (fun i => m.real (.vn_edge st) 0 i k)).velocity e) ∧
    (∀ l c k, 0 ≤ l → l < d.ntracers → 0 ≤ c → c < d.ncells → 0 ≤ k → k < d.nlayers →
      m1.real (.tr_cell tn) l c k = (equations m prm k (fun i => m.real (.h_cell st) 0 i k)
        (fun i => m.real (.vn_edge st) 0 i k)).tracer (fun i => m.real (.tr_cell st) l i k) c) := by
  obtain ⟨h1, h2, h3⟩ := C51_tendency_formula hd hc (sw := SWModel.ofParams prm) (fun _ _ _ => rfl) hne he
  refine ⟨fun hp c k a b a' b' => ?_, fun hp e k a b a' b' => ?_, fun l c k a0 b0 a b a' b' => ?_⟩
  · rw [h1 hp c k a b a' b']; simp [Spec.thicknessTend, SWModel.ofParams, equations]
  · rw [h2 hp e k a b a' b']
    simp only [Spec.velocityTend, equations, mul_assoc]
    rw [coef_max (a := (SWModel.ofParams prm).prm.visc_del2) (b := (SWModel.ofParams prm).en_vdiff)
        (enabled_iff _),
      coef_max (a := (SWModel.ofParams prm).prm.visc_del4) (b := (SWModel.ofParams prm).en_vhyper)
        (enabled_iff _)]
    rfl
  · rw [h3 l c k a0 b0 a b a' b']
    simp only [Spec.tracerTend, equations]
    rw [coef_max (a := (SWModel.ofParams prm).prm.eddy_diff2) (b := (SWModel.ofParams prm).en_tdiff)
        (enabled_iff _),
      coef_max (a := (SWModel.ofParams prm).prm.eddy_diff4) (b := (SWModel.ofParams prm).en_thyper)
        (enabled_iff _)]
    rfl

/-- An execution of the theorem, with negative and positive coefficients. -/
example (x : Fld ℝ) : ∃ m m1 : Mem ℝ, DimsOK p46.dims ∧ ConnOK p46.dims m ∧ m.fld .state = x ∧
    Exec p46.dims (compute_tendency p46.dims ⟨defaultKernels p46.dims.vl, true⟩
      (SWModel.ofParams ⟨1, 10, -3, 2, 1, 0, false, false⟩) .replace .tend .state 0) m m1 := by
  obtain ⟨m, m1, -, h1, h2, h3, h4⟩ := exists_tendency p46_run (1 / 4) ⟨1, 10, -3, 2, 1, 0, false, false⟩
    (sw := SWModel.ofParams ⟨1, 10, -3, 2, 1, 0, false, false⟩) (fun _ _ _ => rfl) true .replace 0 x
  exact ⟨m, m1, h1, h2, h3, h4⟩

end Props
end
end Omega
