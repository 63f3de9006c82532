import Verif.Props.TestRuns

/-!
# C125: what the errors reported by the convergence tests measure
-/

namespace Omega
noncomputable section
namespace Props

open Prog Model Refine Hex

/-- `v` is the root of the sum of the squared errors of all cells and layers, divided by the number of columns: as a
property, without naming the way it is computed. -/
structure MeasuresError (p : MeshParams) (err : Int → Int → ℝ) (v : ℝ) : Prop where
  nonneg : 0 ≤ v
  /-- the number of columns times its square is the sum of the squares -/
  sq : p.nx * p.ny * v ^ 2 = ∑ c ∈ Spec.cells p.dims, ∑ k ∈ Spec.layers p.dims, err c k ^ 2
  /-- a bound for all errors bounds it, with a factor for the layers -/
  le : ∀ ε : ℝ, 0 ≤ ε → (∀ c k, 0 ≤ c → c < p.dims.ncells → 0 ≤ k → k < p.dims.nlayers → |err c k| ≤ ε) →
    v ≤ √p.dims.nlayers * ε
  /-- it bounds each error, with a factor for the columns -/
  ge : ∀ c k, 0 ≤ c → c < p.dims.ncells → 0 ≤ k → k < p.dims.nlayers → |err c k| ≤ √(p.nx * p.ny) * v
  /-- it is zero for an exact result only -/
  zero : v = 0 ↔ ∀ c k, 0 ≤ c → c < p.dims.ncells → 0 ≤ k → k < p.dims.nlayers → err c k = 0

theorem nxp {p : MeshParams} (hv : RunValid p) : 0 < p.nx := hv.nx_pos
theorem nyp {p : MeshParams} (hv : RunValid p) : 0 < p.ny := hv.ny_pos

theorem measures {p : MeshParams} (hv : RunValid p) (err : Int → Int → ℝ) :
    MeasuresError p err (√((∑ c ∈ Spec.cells p.dims, ∑ k ∈ Spec.layers p.dims, err c k ^ 2) /
      ((p.nx * p.ny : Int) : ℝ))) := by
  set S := ∑ c ∈ Spec.cells p.dims, ∑ k ∈ Spec.layers p.dims, err c k ^ 2 with hS
  have N0 : (0 : ℝ) < (p.nx * p.ny : ℝ) :=
    mul_pos (by exact_mod_cast nxp hv) (by exact_mod_cast nyp hv)
  have in0 : ∀ c ∈ Spec.cells p.dims, 0 ≤ ∑ k ∈ Spec.layers p.dims, err c k ^ 2 := fun c _ =>
    Finset.sum_nonneg fun k _ => sq_nonneg _
  have S0 : 0 ≤ S := Finset.sum_nonneg in0
  have one : ∀ c k, 0 ≤ c → c < p.dims.ncells → 0 ≤ k → k < p.dims.nlayers → err c k ^ 2 ≤ S :=
    fun c k c0 c1 k0 k1 =>
      (Finset.single_le_sum (f := fun k => err c k ^ 2) (fun k _ => sq_nonneg _)
        (Finset.mem_Ico.mpr ⟨k0, k1⟩ : k ∈ Spec.layers p.dims)).trans
      (Finset.single_le_sum in0 (Finset.mem_Ico.mpr ⟨c0, c1⟩ : c ∈ Spec.cells p.dims))
  push_cast
  set v := √(S / (p.nx * p.ny : ℝ)) with hvv
  have v2 : (p.nx * p.ny : ℝ) * v ^ 2 = S := by
    rw [hvv, Real.sq_sqrt (div_nonneg S0 N0.le), mul_div_cancel₀ _ N0.ne']
  refine ⟨Real.sqrt_nonneg _, v2, fun ε ε0 h => ?_, fun c k c0 c1 k0 k1 => ?_, ?_⟩
  · have L0 : (0 : ℝ) ≤ p.dims.nlayers := by exact_mod_cast layers_nonneg hv
    have : S ≤ (p.nx * p.ny : ℝ) * (p.dims.nlayers * ε ^ 2) := by
      have : S ≤ ∑ c ∈ Spec.cells p.dims, ∑ k ∈ Spec.layers p.dims, ε ^ 2 := by
        refine Finset.sum_le_sum fun c hc => Finset.sum_le_sum fun k hk => ?_
        have a := Finset.mem_Ico.mp hc; have b := Finset.mem_Ico.mp hk
        exact sq_le_sq' (by linarith [(abs_le.mp (h c k a.1 a.2 b.1 b.2)).1])
          (abs_le.mp (h c k a.1 a.2 b.1 b.2)).2
      refine this.trans_eq ?_
      have nc : ((p.dims.ncells.toNat : ℕ) : ℝ) = p.nx * p.ny := by
        have e : ((p.dims.ncells.toNat : ℕ) : Int) = p.nx * p.ny :=
          Int.toNat_of_nonneg (mul_nonneg (nxp hv).le (nyp hv).le)
        exact_mod_cast e
      have nl : ((p.dims.nlayers.toNat : ℕ) : ℝ) = p.dims.nlayers := by
        have e : ((p.dims.nlayers.toNat : ℕ) : Int) = p.dims.nlayers := Int.toNat_of_nonneg (layers_nonneg hv)
        exact_mod_cast e
      simp only [Spec.cells, Spec.layers, Finset.sum_const, Int.card_Ico, sub_zero, nsmul_eq_mul, nc, nl]
    rw [hvv]
    refine Real.sqrt_le_iff.mpr ⟨by positivity, ?_⟩
    rw [div_le_iff₀ N0, mul_pow, Real.sq_sqrt L0]
    linarith
  · refine abs_le_of_sq_le_sq ?_ (by positivity)
    rw [mul_pow, Real.sq_sqrt N0.le, v2]
    exact one c k c0 c1 k0 k1
  · constructor
    · intro h c k c0 c1 k0 k1
      have := one c k c0 c1 k0 k1
      rw [← v2, h] at this
      exact pow_eq_zero_iff (two_ne_zero) |>.mp (le_antisymm (by simpa using this) (sq_nonneg _))
    · intro h
      have : S = 0 := Finset.sum_eq_zero fun c hc => Finset.sum_eq_zero fun k hk => by
        have a := Finset.mem_Ico.mp hc; have b := Finset.mem_Ico.mp hk
        rw [h c k a.1 a.2 b.1 b.2]; simp
      rw [hvv, this]; simp

/-- The nonlinear convergence test, for any reference fields, forcing, stepper and number of steps, reports one
number.  It measures, as above, the differences between the final thicknesses and the reference thickness at the
final time at the cell centres. -/
theorem C125_nonlinear_error {p : MeshParams} (hv : RunValid p) (dc : ℝ) (sw : SWModel ℝ) (fh fx fy : ℝ → ℝ → ℝ → ℝ)
    (h : ℝ → ℝ → ℝ → ℝ) (vx vy : ℝ → ℝ → ℝ) (stp : Stepper) (te : ℝ) (sched : List (ℝ × ℝ)) (split : Bool)
    {m0 m1 : Mem ℝ} (he : Exec p.dims (nonlinear_run p dc (sw.forced p.dims fh fx fy)
      ⟨defaultKernels p.dims.vl, split⟩ h vx vy stp te sched) m0 m1) :
    (∃ v, IsNonlinearError p m1 v) ∧ ∀ v, IsNonlinearError p m1 v → MeasuresError p
      (fun c k => h (xC p.nx dc c) (yC p.nx dc c) te - m1.real (.h_cell .state) 0 c k) v := by
  obtain ⟨m2, r, -, -, hex, -⟩ := nonlinear_run_runs hv dc sw fh fx fy h vx vy stp te sched m0
  obtain rfl := ((r split).2 m1).1 he
  have key := fun v => reduces2_real (m := m1) (body := nonlinear_error_body) (n0 := p.dims.ncells)
    (n1 := p.dims.nlayers) (d := p.dims) (mul_nonneg (nxp hv).le (nyp hv).le) (layers_nonneg hv)
    (fun c k a c0 c1 k0 k1 => wp_nonlinear_error c0 c1 k0 k1 a) v
  have e : ∑ i ∈ Finset.Ico 0 p.dims.ncells, ∑ k ∈ Finset.Ico 0 p.dims.nlayers,
      (m1.real (.test .hexact_cell) 0 i k - m1.real (.h_cell .state) 0 i k) *
      (m1.real (.test .hexact_cell) 0 i k - m1.real (.h_cell .state) 0 i k) =
      ∑ c ∈ Spec.cells p.dims, ∑ k ∈ Spec.layers p.dims,
        (h (xC p.nx dc c) (yC p.nx dc c) te - m1.real (.h_cell .state) 0 c k) ^ 2 :=
    Finset.sum_congr rfl fun c hc => Finset.sum_congr rfl fun k hk => by
      have a := Finset.mem_Ico.mp hc; have b := Finset.mem_Ico.mp hk
      rw [hex c k a.1 a.2 b.1 b.2]; ring
  refine ⟨⟨_, _, (key _).mpr rfl, rfl⟩, ?_⟩
  rintro v ⟨errf, hf, rfl⟩
  rw [(key _).mp hf, e]
  exact measures hv _

/-- The same for the tracer tests: the differences between the final tracer contents and the reference tracer
content at the final time. -/
theorem C125_tracer_error {p : MeshParams} (hv : RunValid p) (hnt : p.ntracers = 1) (dc : ℝ) (prm : Params ℝ)
    (T : TracerTest ℝ) (stp : Stepper) (te : ℝ) (sched : List (ℝ × ℝ)) (split : Bool)
    {m0 m1 : Mem ℝ} (he : Exec p.dims (tracer_run p dc prm ⟨defaultKernels p.dims.vl, split⟩ T stp te sched) m0 m1) :
    (∃ v, IsTracerError p m1 v) ∧ ∀ v, IsTracerError p m1 v → MeasuresError p
      (fun c k => T.tr (xC p.nx dc c) (yC p.nx dc c) te - m1.real (.tr_cell .state) 0 c k) v := by
  obtain ⟨m2, r, -, -, hex, -⟩ := tracer_run_runs hv hnt dc prm T stp te sched m0
  obtain rfl := ((r split).2 m1).1 he
  have key := fun v => reduces2_real (m := m1) (body := tracer_error_body) (n0 := p.dims.ncells)
    (n1 := p.dims.nlayers) (d := p.dims) (mul_nonneg (nxp hv).le (nyp hv).le) (layers_nonneg hv)
    (fun c k a c0 c1 k0 k1 => wp_tracer_error hnt c0 c1 k0 k1 a) v
  have e : ∑ i ∈ Finset.Ico 0 p.dims.ncells, ∑ k ∈ Finset.Ico 0 p.dims.nlayers,
      (m1.real (.test .tr_exact_cell) 0 i k - m1.real (.tr_cell .state) 0 i k) *
      (m1.real (.test .tr_exact_cell) 0 i k - m1.real (.tr_cell .state) 0 i k) =
      ∑ c ∈ Spec.cells p.dims, ∑ k ∈ Spec.layers p.dims,
        (T.tr (xC p.nx dc c) (yC p.nx dc c) te - m1.real (.tr_cell .state) 0 c k) ^ 2 :=
    Finset.sum_congr rfl fun c hc => Finset.sum_congr rfl fun k hk => by
      have a := Finset.mem_Ico.mp hc; have b := Finset.mem_Ico.mp hk
      rw [hex c k a.1 a.2 b.1 b.2]; ring
  refine ⟨⟨_, _, (key _).mpr rfl, rfl⟩, ?_⟩
  rintro v ⟨errf, hf, rfl⟩
  rw [(key _).mp hf, e]
  exact measures hv _

/-- Refinement does not change the size of the reported number but the number of layers does: an error of the same
size `ε` in every cell and layer is reported as `√nlayers * ε`, whatever the number of columns. -/
theorem C125_uniform_error {p : MeshParams} (hv : RunValid p) {err : Int → Int → ℝ} {v ε : ℝ}
    (h : MeasuresError p err v) (ε0 : 0 ≤ ε)
    (he : ∀ c k, 0 ≤ c → c < p.dims.ncells → 0 ≤ k → k < p.dims.nlayers → |err c k| = ε) :
    v = √p.dims.nlayers * ε := by
  refine le_antisymm (h.le ε ε0 fun c k c0 c1 k0 k1 => (he c k c0 c1 k0 k1).le) ?_
  have N0 : (0 : ℝ) < (p.nx * p.ny : ℝ) := mul_pos (by exact_mod_cast nxp hv) (by exact_mod_cast nyp hv)
  have L0 : (0 : ℝ) ≤ p.dims.nlayers := by exact_mod_cast layers_nonneg hv
  have s : ∑ c ∈ Spec.cells p.dims, ∑ k ∈ Spec.layers p.dims, err c k ^ 2 =
      (p.nx * p.ny : ℝ) * (p.dims.nlayers * ε ^ 2) := by
    rw [Finset.sum_congr rfl fun c hc => Finset.sum_congr rfl fun k hk => (by
      have a := Finset.mem_Ico.mp hc; have b := Finset.mem_Ico.mp hk
      rw [← sq_abs, he c k a.1 a.2 b.1 b.2] : err c k ^ 2 = ε ^ 2)]
    have nc : ((p.dims.ncells.toNat : ℕ) : ℝ) = p.nx * p.ny := by
      have e : ((p.dims.ncells.toNat : ℕ) : Int) = p.nx * p.ny :=
        Int.toNat_of_nonneg (mul_nonneg (nxp hv).le (nyp hv).le)
      exact_mod_cast e
    have nl : ((p.dims.nlayers.toNat : ℕ) : ℝ) = p.dims.nlayers := by
      have e : ((p.dims.nlayers.toNat : ℕ) : Int) = p.dims.nlayers := Int.toNat_of_nonneg (layers_nonneg hv)
      exact_mod_cast e
    simp only [Spec.cells, Spec.layers, Finset.sum_const, Int.card_Ico, sub_zero, nsmul_eq_mul, nc, nl]
  have v2 : v ^ 2 = p.dims.nlayers * ε ^ 2 := mul_left_cancel₀ N0.ne' (h.sq.trans s)
  refine abs_le_of_sq_le_sq' ?_ h.nonneg |>.2
  rw [v2, mul_pow, Real.sq_sqrt L0]

/-- a run of the nonlinear test in which nothing moves: reference one off the state everywhere at the end -/
example : ∃ (m0 m1 : Mem ℝ) (v : ℝ), Exec p46.dims (nonlinear_run p46 1 ((SWModel.ofParams
      ⟨0, 10, 0, 0, 0, 0, false, false⟩).forced p46.dims (fun _ _ _ => 0) (fun _ _ _ => 0) (fun _ _ _ => 0))
      ⟨defaultKernels p46.dims.vl, false⟩ (fun _ _ t => 1 + t) (fun _ _ => 0) (fun _ _ => 0) .rk4 1 []) m0 m1 ∧
    IsNonlinearError p46 m1 v ∧ v = 2 := by
  obtain ⟨m1, r, -, -, -, hs⟩ := nonlinear_run_runs p46_run (1 : ℝ) (SWModel.ofParams
      ⟨0, 10, 0, 0, 0, 0, false, false⟩) (fun _ _ _ => 0) (fun _ _ _ => 0) (fun _ _ _ => 0)
      (fun _ _ t => 1 + t) (fun _ _ => 0) (fun _ _ => 0) .rk4 1 [] ⟨fun _ _ _ => 0, fun _ _ _ _ => 0⟩
  have he := (r false).exec
  obtain ⟨⟨v, hv⟩, key⟩ := C125_nonlinear_error p46_run 1 _ _ _ _ _ _ _ _ _ _ _ he
  refine ⟨_, m1, v, he, hv, ?_⟩
  rw [C125_uniform_error p46_run (key v hv) zero_le_one fun c k c0 c1 k0 k1 => ?_, p46_layers]
  · rw [mul_one, show ((4 : Int) : ℝ) = 2 ^ 2 by norm_num]
    exact Real.sqrt_sq (by norm_num)
  · have : m1.real (.h_cell .state) 0 c k = 1 + (lit 0 : ℝ) := hs.h c k c0 c1 k0 k1
    rw [this]
    simp

end Props
end
end Omega
