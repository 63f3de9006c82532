import Mathlib.Analysis.SpecialFunctions.Trigonometric.Bounds
import Verif.Props.Convergence

/-!
# C85: the order of the curl is sharp

The first order of C56 cannot be improved: at every vertex of every mesh there is an irrotational wave,
bounded with all its derivatives, whose discrete curl is at least a fixed multiple of the spacing.
-/

set_option linter.unusedVariables false
set_option linter.unusedSectionVars false

namespace Omega
noncomputable section
namespace Props

open Prog Model Refine Hex Taylor

variable {p : MeshParams} {dc : ℝ} {m : Mem ℝ}

/-- a plane wave in the first coordinate -/
def xWave (A k x0 : ℝ) (z : ℝ × ℝ) : ℝ := A * Real.cos (k * (z.1 - x0))

theorem xWave_smooth (A k x0 : ℝ) {n : WithTop ℕ∞} : ContDiff ℝ n (xWave A k x0) := by unfold xWave; fun_prop

theorem cos_bound (A k b : ℝ) (n : ℕ) (x : ℝ) : ‖iteratedDeriv n (fun x => A * Real.cos (k * (x - b))) x‖ ≤ |A| * |k| ^ n := by
  have hc : ContDiff ℝ (n : ℕ) Real.cos := Real.contDiff_cos
  have e : iteratedDeriv n (fun x => A * Real.cos (k * (x - b))) x = A * (k ^ n * iteratedDeriv n Real.cos (k * (x - b))) := by
    rw [iteratedDeriv_const_mul_field]
    congr 1
    have := iteratedDeriv_comp_sub_const n (fun x => Real.cos (k * x)) b
    rw [congrFun this x, iteratedDeriv_comp_const_mul hc k]
  rw [e, norm_mul, norm_mul, norm_pow]
  simp only [Real.norm_eq_abs]
  refine mul_le_mul_of_nonneg_left ?_ (abs_nonneg A)
  exact mul_le_of_le_one_right (by positivity) (Real.abs_iteratedDeriv_cos_le_one n _)

theorem xWave_bound (A k x0 : ℝ) (n : ℕ) (z : ℝ × ℝ) : ‖iteratedFDeriv ℝ n (xWave A k x0) z‖ ≤ |A| * |k| ^ n := by
  have hf : ContDiff ℝ n (fun x : ℝ => A * Real.cos (k * (x - x0))) := by fun_prop
  have e : xWave A k x0 = (fun x : ℝ => A * Real.cos (k * (x - x0))) ∘ ContinuousLinearMap.fst ℝ ℝ ℝ := rfl
  rw [e, ContinuousLinearMap.iteratedFDeriv_comp_right _ hf z le_rfl]
  refine (ContinuousMultilinearMap.norm_compContinuousLinearMap_le _ _).trans ?_
  have h1 : ∏ _i : Fin n, ‖ContinuousLinearMap.fst ℝ ℝ ℝ‖ ≤ 1 :=
    Finset.prod_le_one (fun _ _ => norm_nonneg _) fun _ _ =>
      ContinuousLinearMap.opNorm_le_bound _ zero_le_one fun x => by rw [one_mul]; exact norm_fst_le x
  have h2 := cos_bound A k x0 n z.1
  rw [← norm_iteratedFDeriv_eq_norm_iteratedDeriv] at h2
  exact (mul_le_of_le_one_right (norm_nonneg _) h1).trans h2

theorem xWave_periodic {P : ℝ} (hP : 0 < P) (Q A x0 : ℝ) : Periodic2 P Q (xWave A (2 * Real.pi / P) x0) := by
  refine ⟨fun x y => ?_, fun x y => rfl⟩
  unfold xWave
  have : 2 * Real.pi / P * (x + P - x0) = 2 * Real.pi / P * (x - x0) + 2 * Real.pi := by field_simp; ring
  dsimp only
  rw [this, Real.cos_add_two_pi]

/-- the wave carries no rotation -/
theorem xWave_curl (A k x0 : ℝ) (z : ℝ × ℝ) : curlAt (xWave A k x0) (fun _ => 0) z = 0 := by
  have d : HasFDerivAt (xWave A k x0) ((A * (-Real.sin (k * (z.1 - x0)) * k)) • ContinuousLinearMap.fst ℝ ℝ ℝ) z := by
    have := (((hasFDerivAt_fst (𝕜 := ℝ) (p := z)).sub_const x0).const_mul k).cos.const_mul A
    refine this.congr_fderiv ?_
    ext <;> simp
  unfold curlAt
  rw [d.fderiv]
  simp

/-- The discrete curl of the wave. -/
theorem C85_curl_of_wave (hv : MeshParams.Valid p) (hny : p.ny % 2 = 0) (hdc : 0 < dc) (hb : Built p dc m)
    (A x0 : ℝ) (v : Int) (h0 : 0 ≤ v) (h1 : v < p.dims.nvertices) :
    Spec.curl m (normalOf m (xWave A (2 * Real.pi / periodX p.nx dc) x0) (fun _ => 0)) v =
      (if v % 2 = 0 then 1 else -1) * (4 / (dc * √3) * (1 - Real.cos (Real.pi / (2 * p.nx)))) *
        xWave A (2 * Real.pi / periodX p.nx dc) x0 (vertAt m v) := by
  have hw := w_pos
  have hnx := hv.nx_pos
  have hn : (0 : ℝ) < p.nx := by exact_mod_cast hnx
  have hP : (0 : ℝ) < periodX p.nx dc := by
    simp only [periodX, lit_real]; positivity
  have hV : v < 2 * (p.nx * p.ny) := by simpa [MeshParams.dims] using h1
  have hvc := isCell_vertex h0 hV
  rw [spec_curl (hb.geo hv hdc) _ h0 hV]
  set k := 2 * Real.pi / periodX p.nx dc with hk
  have kd : k * (dc / 4) = Real.pi / (2 * p.nx) := by
    rw [hk]; simp only [periodX, lit_real]; field_simp; norm_num
  have key : ∀ s : Int, 0 ≤ s → s < 3 → xWave A k x0 (edgeAt m (Hex.eov p.nx p.ny v s)) =
      A * Real.cos (k * ((vertAt m v).1 - x0) + (if eovEnd v s = 0 then 1 else -1) *
        DY (Hex.eov p.nx p.ny v s % 3) * (Real.pi / (2 * p.nx))) := by
    intro s a b
    have hs : eovEnd v s = 0 ∨ eovEnd v s = 1 := by unfold eovEnd; split_ifs <;> simp
    have hr := eov_isCell hnx h0 hV (s := s)
    have he : 0 ≤ Hex.eov p.nx p.ny v s ∧ Hex.eov p.nx p.ny v s < 3 * (p.nx * p.ny) := by
      unfold IsCell at hr; omega
    have h := edge_of_vertex hv hny hb (xWave_periodic hP (periodY p.ny dc) A x0) he.1 he.2 hs
    rw [voe_eov hnx hvc a b] at h
    rw [h, ← kd]
    unfold xWave
    simp only [Prod.fst_add, Prod.smul_fst, smul_eq_mul]
    congr 2
    linear_combination (k * dc / 12 * (if eovEnd v s = 0 then 1 else -1) * DY (Hex.eov p.nx p.ny v s % 3)) * w_sq
  have N : ∀ s : Int, 0 ≤ s → s < 3 → normal m (Hex.eov p.nx p.ny v s)
      = -dir (Hex.eov p.nx p.ny v s % 3) := by
    intro s a b
    have hr := eov_isCell hnx h0 hV (s := s)
    exact normal_eq hv hb (by unfold IsCell at hr; omega)
      (by show _ < 3 * (p.nx * p.ny); unfold IsCell at hr; omega)
  have M : ∀ s : Int, 0 ≤ s → s < 3 → Hex.eov p.nx p.ny v s % 3
      = if s = 0 then 0 else if s = 1 then 2 else 1 := by
    intro s a b; unfold Hex.eov; split_ifs <;> omega
  have A0 := key 0 (by omega) (by omega)
  have A1 := key 1 (by omega) (by omega)
  have A2 := key 2 (by omega) (by omega)
  have m0 : Hex.eov p.nx p.ny v 0 % 3 = 0 := (M 0 (by omega) (by omega)).trans (by norm_num)
  have m1 : Hex.eov p.nx p.ny v 1 % 3 = 2 := (M 1 (by omega) (by omega)).trans (by norm_num)
  have m2 : Hex.eov p.nx p.ny v 2 % 3 = 1 := (M 2 (by omega) (by omega)).trans (by norm_num)
  unfold Cu normalOf
  rw [N 0 (by omega) (by omega), N 1 (by omega) (by omega), N 2 (by omega) (by omega), A0, A1, A2, m0, m1, m2]
  unfold xWave
  generalize k * ((vertAt m v).1 - x0) = x
  generalize Real.pi / (2 * p.nx) = t
  by_cases hp : v % 2 = 0
  · simp only [dir, DX, DY, eovEnd, hp]
    norm_num
    simp only [← sub_eq_add_neg, Real.cos_add, Real.cos_sub]
    ring
  · simp only [dir, DX, DY, eovEnd, hp]
    norm_num
    simp only [← sub_eq_add_neg, Real.cos_add, Real.cos_sub]
    ring

/-- At every vertex of every mesh there is a periodic irrotational velocity, bounded by `A` with
derivatives of order `n` bounded by `A kⁿ` for the wave number `k` of the domain, whose discrete curl is
off by at least `A k² dc / (2√3π²)`. The bound of C56 for it is `2 A k² dc / (3√3)`. -/
theorem C85_curl_not_second_order (hv : MeshParams.Valid p) (hny : p.ny % 2 = 0) (hdc : 0 < dc)
    (hb : Built p dc m) {A : ℝ} (hA : 0 ≤ A) (v : Int) (h0 : 0 ≤ v) (h1 : v < p.dims.nvertices) :
    ∃ U W : ℝ × ℝ → ℝ, (∀ n : ℕ, Field n (periodX p.nx dc) (periodY p.ny dc) (A * (2 * Real.pi / periodX p.nx dc) ^ n) U) ∧
      (∀ n : ℕ, Field n (periodX p.nx dc) (periodY p.ny dc) (A * (2 * Real.pi / periodX p.nx dc) ^ n) W) ∧
      (∀ z, curlAt U W z = 0) ∧
      A * (2 * Real.pi / periodX p.nx dc) ^ 2 * dc / (2 * √3 * Real.pi ^ 2) ≤
        |Spec.curl m (normalOf m U W) v - curlAt U W (vertAt m v)| := by
  have hw := w_pos
  have hpi := Real.pi_pos
  have hn : (1 : ℝ) ≤ p.nx := by exact_mod_cast hv.nx_pos
  have hP : (0 : ℝ) < periodX p.nx dc := by
    simp only [periodX, lit_real]; positivity
  have hk : (0 : ℝ) < 2 * Real.pi / periodX p.nx dc := by positivity
  refine ⟨xWave A (2 * Real.pi / periodX p.nx dc) (vertAt m v).1, fun _ => 0, fun n => ?_, fun n => ?_,
    xWave_curl _ _ _, ?_⟩
  · refine ⟨xWave_smooth _ _ _, xWave_periodic hP _ _ _, fun z => ?_⟩
    have := xWave_bound A (2 * Real.pi / periodX p.nx dc) (vertAt m v).1 n z
    rwa [abs_of_nonneg hA, abs_of_pos hk] at this
  · refine ⟨contDiff_const, ⟨fun _ _ => rfl, fun _ _ => rfl⟩, fun z => ?_⟩
    have : iteratedFDeriv ℝ n (fun _ : ℝ × ℝ => (0 : ℝ)) = 0 := iteratedFDeriv_fun_zero
    rw [this]
    simp only [Pi.zero_apply, norm_zero]
    positivity
  · rw [C85_curl_of_wave hv hny hdc hb A _ v h0 h1, xWave_curl, sub_zero]
    have e : xWave A (2 * Real.pi / periodX p.nx dc) (vertAt m v).1 (vertAt m v) = A := by
      unfold xWave; simp
    have t0 : 0 < Real.pi / (2 * p.nx) := by positivity
    have tp : Real.pi / (2 * p.nx) ≤ Real.pi := div_le_self hpi.le (by linarith)
    have q := Real.cos_le_one_sub_mul_cos_sq (x := Real.pi / (2 * p.nx)) (by rw [abs_of_pos t0]; exact tp)
    have c1 : 2 / Real.pi ^ 2 * (Real.pi / (2 * p.nx)) ^ 2 ≤ 1 - Real.cos (Real.pi / (2 * p.nx)) := by linarith
    have c0 : 0 ≤ 1 - Real.cos (Real.pi / (2 * p.nx)) := le_trans (by positivity) c1
    rw [e, abs_mul, abs_mul, abs_of_nonneg hA, show |if v % 2 = 0 then (1:ℝ) else -1| = 1 by split_ifs <;> simp, one_mul,
      abs_of_nonneg (by positivity)]
    have := mul_le_mul_of_nonneg_right (mul_le_mul_of_nonneg_left c1 (by positivity : 0 ≤ 4 / (dc * √3))) hA
    refine le_trans (le_of_eq ?_) this
    simp only [periodX, lit_real]
    field_simp
    norm_num

/-- Hence no constant serves for all meshes of a domain: on any sequence of refinements the ratio of the
error to the squared spacing grows like the inverse of the spacing. -/
theorem C85_no_second_order_constant (hv : MeshParams.Valid p) (hny : p.ny % 2 = 0) (hdc : 0 < dc)
    (hb : Built p dc m) {K B : ℝ} (hB : 0 ≤ B)
    (hK : ∀ U W : ℝ × ℝ → ℝ, (∀ n : ℕ, Field n (periodX p.nx dc) (periodY p.ny dc) (B * (2 * Real.pi / periodX p.nx dc) ^ n) U) →
      (∀ n : ℕ, Field n (periodX p.nx dc) (periodY p.ny dc) (B * (2 * Real.pi / periodX p.nx dc) ^ n) W) →
      ∀ v, 0 ≤ v → v < p.dims.nvertices →
        |Spec.curl m (normalOf m U W) v - curlAt U W (vertAt m v)| ≤ K * dc ^ 2) :
    B * (2 * Real.pi / periodX p.nx dc) ^ 2 / (2 * √3 * Real.pi ^ 2 * dc) ≤ K := by
  have hw := w_pos
  have hpi := Real.pi_pos
  have hp : 0 < p.dims.nvertices := by
    have h1 := hv.nx_pos
    have h2 := hv.ny_pos
    simp only [MeshParams.dims]
    positivity
  obtain ⟨U, W, hU, hW, -, h⟩ := C85_curl_not_second_order hv hny hdc hb hB 0 le_rfl hp
  have := h.trans (hK U W hU hW 0 le_rfl hp)
  rw [div_le_iff₀ (by positivity)] at this ⊢
  have e : K * dc ^ 2 * (2 * √3 * Real.pi ^ 2) = K * (2 * √3 * Real.pi ^ 2 * dc) * dc := by ring
  rw [e] at this
  exact le_of_mul_le_mul_right this hdc

/-- meshes of one domain refined up to a thousandfold; the domain, hence the wave and its bounds, stays -/
example (dc : ℝ) (hdc : 0 < dc) (n : ℕ) (hn : 1 ≤ n) (hm : n ≤ 1000) : ∃ (p : MeshParams) (m : Mem ℝ), MeshParams.Valid p ∧ p.ny % 2 = 0 ∧
    0 < dc / n ∧ periodX p.nx (dc / n) = periodX p46.nx dc ∧ Built p (dc / n) m ∧ 7 < p.dims.nvertices := by
  have hv : MeshParams.Valid ⟨4 * n, 6 * n, 3, 1, 2⟩ := by
    have h2 : (n : ℤ) * n ≤ 1000000 := by nlinarith [(by exact_mod_cast hm : (n : ℤ) ≤ 1000)]
    set_option linter.unnecessarySeqFocus false in
    constructor <;> simp <;> (try omega) <;> nlinarith
  have hn0 : (0 : ℝ) < n := by exact_mod_cast hn
  refine ⟨_, _, hv, by simp; omega, by positivity, ?_, built_meshMem hv _ ⟨fun _ _ _ => 0, fun _ _ _ _ => 0⟩, ?_⟩
  · simp only [periodX, p46, lit_real]; push_cast; field_simp
  · simp only [MeshParams.dims]
    have : (1 : ℤ) ≤ n := by exact_mod_cast hn
    nlinarith

end Props
end
end Omega
