import Mathlib.Analysis.SpecialFunctions.Trigonometric.Deriv
import Verif.Lib.Taylor
import Verif.Props.MeshGeometry
import Verif.Props.Operators

/-!
# Truncation error of the discrete operators

For every smooth doubly periodic field sampled at the stored coordinates of the mesh, the discrete
gradient, divergence, curl and tangential reconstruction differ from the derivatives of the field by an
explicit power of the spacing. `test/operator_convergence.cpp` measures the rates of one field.
-/

set_option linter.unusedSectionVars false
set_option linter.unusedVariables false

namespace Omega
noncomputable section
open Scalar Model Refine Hex Taylor
namespace Props

/-! ### Specification -/

/-- stored position of a cell centre -/
def cellAt (m : Mem ℝ) (c : Int) : ℝ × ℝ := (m.real .x_cell 0 c 0, m.real .y_cell 0 c 0)
/-- stored position of an edge -/
def edgeAt (m : Mem ℝ) (e : Int) : ℝ × ℝ := (m.real .x_edge 0 e 0, m.real .y_edge 0 e 0)
/-- stored position of a vertex -/
def vertAt (m : Mem ℝ) (v : Int) : ℝ × ℝ := (m.real .x_vertex 0 v 0, m.real .y_vertex 0 v 0)
/-- direction of the normal of an edge -/
def normal (m : Mem ℝ) (e : Int) : ℝ × ℝ :=
  (Real.cos (m.real .angle_edge 0 e 0), Real.sin (m.real .angle_edge 0 e 0))

/-- normal component of the field `(U, W)` at the stored position of the edge -/
def normalOf (m : Mem ℝ) (U W : ℝ × ℝ → ℝ) (e : Int) : ℝ :=
  (normal m e).1 * U (edgeAt m e) + (normal m e).2 * W (edgeAt m e)

/-- component along the direction 90° to the left of the normal -/
def tangentOf (m : Mem ℝ) (U W : ℝ × ℝ → ℝ) (e : Int) : ℝ :=
  -(normal m e).2 * U (edgeAt m e) + (normal m e).1 * W (edgeAt m e)

/-- divergence of `(U, W)` -/
def divAt (U W : ℝ × ℝ → ℝ) (z : ℝ × ℝ) : ℝ := fderiv ℝ U z (1, 0) + fderiv ℝ W z (0, 1)
/-- vertical component of the curl of `(U, W)` -/
def curlAt (U W : ℝ × ℝ → ℝ) (z : ℝ × ℝ) : ℝ := fderiv ℝ W z (1, 0) - fderiv ℝ U z (0, 1)

/-- `n` times continuously differentiable, doubly periodic, `n`-th derivative bounded by `B` -/
structure Field (n : ℕ) (P Q B : ℝ) (φ : ℝ × ℝ → ℝ) : Prop where
  smooth : ContDiff ℝ n φ
  periodic : Periodic2 P Q φ
  bound : ∀ z, ‖iteratedFDeriv ℝ n φ z‖ ≤ B

theorem Field.exists_bound {n : ℕ} {P Q : ℝ} (hP : 0 < P) (hQ : 0 < Q) {φ : ℝ × ℝ → ℝ}
    (hs : ContDiff ℝ n φ) (hp : Periodic2 P Q φ) : ∃ B, 0 ≤ B ∧ Field n P Q B φ := by
  obtain ⟨B, h0, hB⟩ := hp.bounded hP hQ hs
  exact ⟨B, h0, hs, hp, hB⟩

theorem Field.nonneg {n : ℕ} {P Q B : ℝ} {φ : ℝ × ℝ → ℝ} (h : Field n P Q B φ) : 0 ≤ B :=
  (norm_nonneg _).trans (h.bound 0)

/-! ### Points -/

theorem per_mod {P Q : ℝ} {φ : ℝ × ℝ → ℝ} (h : Periodic2 P Q φ) {x x' y y' : ℝ} (hx : ModP P x x')
    (hy : ModP Q y y') : φ (x, y) = φ (x', y') := by
  obtain ⟨k, rfl⟩ := hx
  obtain ⟨l, rfl⟩ := hy
  exact h.shift k l x' y'

theorem lin_pt (L : ℝ × ℝ →L[ℝ] ℝ) (a b : ℝ) : L (a, b) = a * L (1, 0) + b * L (0, 1) := by
  have : ((a, b) : ℝ × ℝ) = a • ((1, 0) : ℝ × ℝ) + b • ((0, 1) : ℝ × ℝ) := by simp
  rw [this, map_add, map_smul, map_smul]; rfl

theorem norm_pt {a b r : ℝ} (ha : |a| ≤ r) (hb : |b| ≤ r) : ‖((a, b) : ℝ × ℝ)‖ ≤ r := by
  rw [Prod.norm_def]; exact max_le ha hb

/-- direction towards side `j` of a cell -/
def dir (j : Int) : ℝ × ℝ := (DX j, DY j * √3 / 2)

variable {p : MeshParams} {dc : ℝ} {m : Mem ℝ}

theorem sqrt3_le : √3 ≤ 2 := by
  rw [show (2:ℝ) = √4 by rw [show (4:ℝ) = 2 ^ 2 by norm_num, Real.sqrt_sq (by norm_num)]]
  exact Real.sqrt_le_sqrt (by norm_num)

theorem normal_eq (hv : MeshParams.Valid p) (hb : Built p dc m) {e : Int} (h0 : 0 ≤ e)
    (h1 : e < p.dims.nedges) : normal m e = -dir (e % 3) := by
  unfold normal dir
  rw [(hb.hex hv).angle_edge e h0 h1, cos_angE, sin_angE]; rfl

theorem dir_opp {j : Int} (h0 : 0 ≤ j) (h3 : j < 3) : dir (j + 3) = -dir j := by
  obtain rfl | rfl | rfl : j = 0 ∨ j = 1 ∨ j = 2 := by omega
  all_goals unfold dir DX DY; norm_num; try ring

/-- the midpoint of side `j` of a cell -/
theorem edge_of_cell (hv : MeshParams.Valid p) (hny : p.ny % 2 = 0) (hb : Built p dc m)
    {φ : ℝ × ℝ → ℝ} (hφ : Periodic2 (periodX p.nx dc) (periodY p.ny dc) φ) {c : Int}
    (hc : IsCell p.nx p.ny c) {j : Int} (h0 : 0 ≤ j) (h6 : j < 6) :
    φ (edgeAt m (E p.nx p.ny c j)) = φ (cellAt m c + (dc / 2) • dir j) := by
  have hnx := hv.nx_pos
  have hr := E_range hnx hc j h0 h6
  have hm := hb.hex hv
  obtain ⟨hcc, hec, -, -⟩ := C10_coordinates hv hny hb (E p.nx p.ny c j) hr.1 hr.2
  have hdc := hm.dc_edge _ hr.1 hr.2
  have hang := hm.angle_edge _ hr.1 hr.2
  have k0 := hm.coe _ hr.1 hr.2 0 (by omega) (by omega)
  have k1 := hm.coe _ hr.1 hr.2 1 (by omega) (by omega)
  rw [hdc, hang, cos_angE, sin_angE, E_mod h0 h6, k0] at hec
  rw [hdc, hang, cos_angE, sin_angE, E_mod h0 h6, k0, k1] at hcc
  unfold edgeAt cellAt
  by_cases h3 : j < 3
  · rw [show j % 3 = j by omega] at hec hcc
    rw [coe_E_lo h0 h3] at hcc
    have := per_mod hφ (hec.1.trans ((hcc.1.add (dc / 2 * DX j)).trans (ModP.of_eq (by ring))).symm)
      (hec.2.trans ((hcc.2.add (dc / 2 * (DY j * √3 / 2))).trans (ModP.of_eq (by ring))).symm)
    rw [this]; rfl
  · have hj : j % 3 = j - 3 := by omega
    have hd := dir_opp (j := j - 3) (by omega) (by omega)
    rw [show j - 3 + 3 = j by ring] at hd
    rw [coe_E_hi hnx hc (by omega) h6, hj] at hec
    rw [hd, per_mod hφ hec.1 hec.2]
    rfl

/-- the two cells of an edge -/
theorem cells_of_edge (hv : MeshParams.Valid p) (hny : p.ny % 2 = 0) (hb : Built p dc m)
    {φ : ℝ × ℝ → ℝ} (hφ : Periodic2 (periodX p.nx dc) (periodY p.ny dc) φ) {e : Int} (h0 : 0 ≤ e)
    (h1 : e < p.dims.nedges) :
    φ (cellAt m (coe p.nx p.ny e 0)) = φ (edgeAt m e - (dc / 2) • normal m e) ∧
    φ (cellAt m (coe p.nx p.ny e 1)) = φ (edgeAt m e + (dc / 2) • normal m e) := by
  have hm := hb.hex hv
  obtain ⟨hcc, hec, -, -⟩ := C10_coordinates hv hny hb e h0 h1
  have hdc := hm.dc_edge _ h0 h1
  have k0 := hm.coe _ h0 h1 0 (by omega) (by omega)
  have k1 := hm.coe _ h0 h1 1 (by omega) (by omega)
  rw [hdc, k0] at hec
  rw [hdc, k0, k1] at hcc
  constructor
  · exact (per_mod hφ ((hec.1.add (-(dc / 2 * Real.cos (m.real .angle_edge 0 e 0)))).trans
      (ModP.of_eq (by ring))) ((hec.2.add (-(dc / 2 * Real.sin (m.real .angle_edge 0 e 0)))).trans
      (ModP.of_eq (by ring)))).symm.trans (by simp [edgeAt, normal, sub_eq_add_neg])
  · exact (per_mod hφ (hcc.1.trans ((hec.1.add (dc / 2 * Real.cos (m.real .angle_edge 0 e 0))).trans
      (ModP.of_eq (by ring))).symm) (hcc.2.trans
        ((hec.2.add (dc / 2 * Real.sin (m.real .angle_edge 0 e 0))).trans
      (ModP.of_eq (by ring))).symm)).trans (by simp [edgeAt, normal])

theorem norm_half (hdc : 0 < dc) (θ : ℝ) : ‖(dc / 2) • ((Real.cos θ, Real.sin θ) : ℝ × ℝ)‖ ≤ dc / 2 := by
  rw [norm_smul, Real.norm_of_nonneg (by positivity)]
  have := norm_pt (Real.abs_cos_le_one θ) (Real.abs_sin_le_one θ)
  nlinarith

/-- The discrete gradient is second-order accurate at every edge of every mesh with an even number of
rows, for every field. -/
theorem C50_gradient_second_order (hv : MeshParams.Valid p) (hny : p.ny % 2 = 0) (hdc : 0 < dc)
    (hb : Built p dc m) {φ : ℝ × ℝ → ℝ} {B : ℝ}
    (hφ : Field 3 (periodX p.nx dc) (periodY p.ny dc) B φ) (e : Int) (h0 : 0 ≤ e)
    (h1 : e < p.dims.nedges) :
    |Spec.grad m (fun c => φ (cellAt m c)) e - fderiv ℝ φ (edgeAt m e) (normal m e)|
      ≤ B / 24 * dc ^ 2 := by
  obtain ⟨k0, k1⟩ := cells_of_edge hv hny hb hφ.periodic h0 h1
  rw [spec_grad (hb.geo hv hdc) _ h0 h1]
  unfold Gr
  beta_reduce
  rw [k0, k1]
  have h := symm_diff (by exact_mod_cast hφ.smooth) hφ.bound (edgeAt m e) ((dc / 2) • normal m e)
  have hn : ‖(dc / 2) • normal m e‖ ^ 3 ≤ (dc / 2) ^ 3 :=
    pow_le_pow_left₀ (norm_nonneg _) (norm_half hdc _) 3
  rw [map_smul] at h
  have e1 : (φ (edgeAt m e + (dc / 2) • normal m e) - φ (edgeAt m e - (dc / 2) • normal m e)) / dc
      - fderiv ℝ φ (edgeAt m e) (normal m e) =
      (φ (edgeAt m e + (dc / 2) • normal m e) - φ (edgeAt m e - (dc / 2) • normal m e)
        - 2 * (dc / 2) • fderiv ℝ φ (edgeAt m e) (normal m e)) / dc := by
    rw [smul_eq_mul]; field_simp
  rw [e1, abs_div, abs_of_pos hdc, div_le_iff₀ hdc]
  refine h.trans ?_
  nlinarith [hφ.nonneg, mul_le_mul_of_nonneg_left hn hφ.nonneg]

/-! ### Divergence -/

theorem flow_E (hv : MeshParams.Valid p) (hny : p.ny % 2 = 0) (hb : Built p dc m)
    {U W : ℝ × ℝ → ℝ} (hU : Periodic2 (periodX p.nx dc) (periodY p.ny dc) U)
    (hW : Periodic2 (periodX p.nx dc) (periodY p.ny dc) W) {c : Int}
    (hc : IsCell p.nx p.ny c) {j : Int} (h0 : 0 ≤ j) (h6 : j < 6) :
    normalOf m U W (E p.nx p.ny c j) =
      -(dir (j % 3)).1 * U (cellAt m c + (dc / 2) • dir j) +
      -(dir (j % 3)).2 * W (cellAt m c + (dc / 2) • dir j) := by
  have hr := E_range hv.nx_pos hc j h0 h6
  unfold normalOf
  rw [normal_eq hv hb hr.1 hr.2, E_mod h0 h6, edge_of_cell hv hny hb hU hc h0 h6,
    edge_of_cell hv hny hb hW hc h0 h6]
  rfl

theorem norm_dir (hdc : 0 < dc) {j : Int} (h0 : 0 ≤ j) (h6 : j < 6) :
    ‖(dc / 2) • dir j‖ ≤ dc / 2 := by
  have hw := w_pos
  have hw2 := sqrt3_le
  rw [norm_smul, Real.norm_of_nonneg (by positivity)]
  have : ‖dir j‖ ≤ 1 := by
    obtain rfl | rfl | rfl | rfl | rfl | rfl : j = 0 ∨ j = 1 ∨ j = 2 ∨ j = 3 ∨ j = 4 ∨ j = 5 := by
      omega
    all_goals
      unfold dir DX DY
      apply norm_pt <;> rw [abs_le] <;> norm_num <;> constructor <;> linarith
  nlinarith

/-- The discrete divergence is second-order accurate at every cell. -/
theorem C55_divergence_second_order (hv : MeshParams.Valid p) (hx : 2 ≤ p.nx) (hy : 2 ≤ p.ny)
    (hny : p.ny % 2 = 0) (hdc : 0 < dc)
    (hb : Built p dc m) {U W : ℝ × ℝ → ℝ} {B : ℝ}
    (hU : Field 3 (periodX p.nx dc) (periodY p.ny dc) B U)
    (hW : Field 3 (periodX p.nx dc) (periodY p.ny dc) B W) (c : Int) (h0 : 0 ≤ c)
    (h1 : c < p.dims.ncells) :
    |Spec.div m (normalOf m U W) c - divAt U W (cellAt m c)| ≤ B / 9 * dc ^ 2 := by
  have hc : IsCell p.nx p.ny c := ⟨h0, h1⟩
  have hw := w_pos
  have hw2 := sqrt3_le
  have hsq := w_sq
  rw [spec_div (hb.geo2 hv hx hy hdc) _ hc]
  have key : ∀ φ, Field 3 (periodX p.nx dc) (periodY p.ny dc) B φ → ∀ j : Int, 0 ≤ j → j < 3 →
      ∃ δ, |δ| ≤ B * dc ^ 3 / 24 ∧ φ (cellAt m c + (dc / 2) • dir j) =
        φ (cellAt m c + (dc / 2) • dir (j + 3)) + dc * (DX j * fderiv ℝ φ (cellAt m c) (1, 0) +
          DY j * √3 / 2 * fderiv ℝ φ (cellAt m c) (0, 1)) + δ := by
    intro φ hφ j a b
    have h := symm_diff (by exact_mod_cast hφ.smooth) hφ.bound (cellAt m c) ((dc / 2) • dir j)
    have hn : ‖(dc / 2) • dir j‖ ^ 3 ≤ (dc / 2) ^ 3 :=
      pow_le_pow_left₀ (norm_nonneg _) (norm_dir hdc a (by omega)) 3
    rw [map_smul, sub_eq_add_neg (cellAt m c), ← smul_neg, ← dir_opp a b] at h
    refine ⟨_, h.trans ?_, ?_⟩
    · nlinarith [mul_le_mul_of_nonneg_left hn hφ.nonneg]
    · rw [show fderiv ℝ φ (cellAt m c) (dir j) = _ from lin_pt _ _ _, smul_eq_mul]; ring
  obtain ⟨a0, ha0, A0⟩ := key U hU 0 (by omega) (by omega)
  obtain ⟨a1, ha1, A1⟩ := key U hU 1 (by omega) (by omega)
  obtain ⟨a2, ha2, A2⟩ := key U hU 2 (by omega) (by omega)
  obtain ⟨b0, hb0, B0⟩ := key W hW 0 (by omega) (by omega)
  obtain ⟨b1, hb1, B1⟩ := key W hW 1 (by omega) (by omega)
  obtain ⟨b2, hb2, B2⟩ := key W hW 2 (by omega) (by omega)
  have F := fun j h0 h6 => flow_E hv hny hb hU.periodic hW.periodic hc (j := j) h0 h6
  have D : Dv p.nx p.ny (normalOf m U W) c = dc * (3 / 2) * divAt U W (cellAt m c) +
      (-a0 - a1 / 2 + a2 / 2 - √3 / 2 * b1 - √3 / 2 * b2) := by
    unfold Dv
    rw [F 0 (by omega) (by omega), F 1 (by omega) (by omega), F 2 (by omega) (by omega),
      F 3 (by omega) (by omega), F 4 (by omega) (by omega), F 5 (by omega) (by omega), A0, A1, A2,
      B0, B1, B2]
    simp only [Int.reduceMod, Int.reduceAdd, zero_add, EuclideanDomain.zero_mod]
    simp only [dir, DX, DY, divAt]
    norm_num
    ring_nf
    linear_combination (dc * fderiv ℝ W (cellAt m c) (0, 1) / 2) * w_sq
  rw [D]
  have e1 : 2 / (3 * dc) * (dc * (3 / 2) * divAt U W (cellAt m c) +
      (-a0 - a1 / 2 + a2 / 2 - √3 / 2 * b1 - √3 / 2 * b2)) - divAt U W (cellAt m c) =
      2 / (3 * dc) * (-a0 - a1 / 2 + a2 / 2 - √3 / 2 * b1 - √3 / 2 * b2) := by field_simp; ring
  rw [e1, abs_mul, abs_of_pos (by positivity)]
  have hs : ∀ b β : ℝ, |b| ≤ β → |√3 / 2 * b| ≤ β := by
    intro b β h
    rw [abs_mul, abs_of_pos (by positivity)]
    nlinarith [abs_nonneg b]
  have hb1' := abs_le.mp (hs _ _ hb1)
  have hb2' := abs_le.mp (hs _ _ hb2)
  rw [abs_le] at ha0 ha1 ha2
  have : |-a0 - a1 / 2 + a2 / 2 - √3 / 2 * b1 - √3 / 2 * b2| ≤ 4 * (B * dc ^ 3 / 24) := by
    rw [abs_le]; constructor <;> linarith
  calc _ ≤ 2 / (3 * dc) * (4 * (B * dc ^ 3 / 24)) := mul_le_mul_of_nonneg_left this (by positivity)
    _ = B / 9 * dc ^ 2 := by field_simp; ring

/-! ### Curl -/

/-- the edge midpoint seen from one of its vertices -/
theorem edge_of_vertex (hv : MeshParams.Valid p) (hny : p.ny % 2 = 0) (hb : Built p dc m)
    {φ : ℝ × ℝ → ℝ} (hφ : Periodic2 (periodX p.nx dc) (periodY p.ny dc) φ) {e : Int} (h0 : 0 ≤ e)
    (h1 : e < p.dims.nedges) {s : Int} (hs : s = 0 ∨ s = 1) :
    φ (edgeAt m e) = φ (vertAt m (voe p.nx p.ny e s) +
      (dc * √3 / 6 * (if s = 0 then 1 else -1)) • (DY (e % 3) * √3 / 2, -DX (e % 3))) := by
  have hm := hb.hex hv
  have hnx := hv.nx_pos
  simp only [MeshParams.dims] at h1
  have hC := Hex.isCell_edge h0 h1
  have r := Hex.voe_isVertex hnx hC hs
  have ht := Hex.voe_E (nx := p.nx) (ny := p.ny) (c := e / 3) (a := e % 3) (s := s) (by omega)
    (by omega) hs
  rw [← Hex.eq_E_lo] at ht
  have XV := xV_V hnx hny dc hC (a := e % 3 + 1 - s) (by omega) (by omega)
  have YV := yV_V hnx dc hC (a := e % 3 + 1 - s) (by omega) (by omega)
  rw [← ht] at XV YV
  have hs3 := w_sq
  unfold edgeAt vertAt
  rw [hm.x_edge e h0 h1, hm.y_edge e h0 h1, hm.x_vertex _ r.1 r.2, hm.y_vertex _ r.1 r.2]
  refine per_mod hφ ((XV.add _).trans (ModP.of_eq ?_)).symm ((YV.add _).trans (ModP.of_eq ?_)).symm
  · obtain h | h | h : e % 3 = 0 ∨ e % 3 = 1 ∨ e % 3 = 2 := by omega
    all_goals rcases hs with rfl | rfl
    all_goals rw [h]; simp [VX, DY, xE, h]
    all_goals first | ring1 | linear_combination (-dc / 12) * hs3 | linear_combination (dc / 12) * hs3
  · obtain h | h | h : e % 3 = 0 ∨ e % 3 = 1 ∨ e % 3 = 2 := by omega
    all_goals rcases hs with rfl | rfl
    all_goals rw [h]; simp [VY, DX, yE, h]; try ring

/-- The discrete curl is first-order accurate at every vertex. -/
theorem C56_curl_first_order (hv : MeshParams.Valid p) (hny : p.ny % 2 = 0) (hdc : 0 < dc)
    (hb : Built p dc m) {U W : ℝ × ℝ → ℝ} {B : ℝ}
    (hU : Field 2 (periodX p.nx dc) (periodY p.ny dc) B U)
    (hW : Field 2 (periodX p.nx dc) (periodY p.ny dc) B W) (v : Int) (h0 : 0 ≤ v)
    (h1 : v < p.dims.nvertices) :
    |Spec.curl m (normalOf m U W) v - curlAt U W (vertAt m v)| ≤ 2 / (3 * √3) * B * dc := by
  have hw := w_pos
  have hw2 := sqrt3_le
  have hsq := w_sq
  have hnx := hv.nx_pos
  have hV : v < 2 * (p.nx * p.ny) := by simpa [MeshParams.dims] using h1
  have hvc := isCell_vertex h0 hV
  rw [spec_curl (hb.geo hv hdc) _ h0 hV]
  have key : ∀ φ, Field 2 (periodX p.nx dc) (periodY p.ny dc) B φ → ∀ s : Int, 0 ≤ s → s < 3 →
      ∃ δ, |δ| ≤ B * dc ^ 2 / 24 ∧ φ (edgeAt m (Hex.eov p.nx p.ny v s)) = φ (vertAt m v) +
        dc * √3 / 6 * (if eovEnd v s = 0 then 1 else -1) *
         (DY (Hex.eov p.nx p.ny v s % 3) * √3 / 2 * fderiv ℝ φ (vertAt m v) (1, 0) -
          DX (Hex.eov p.nx p.ny v s % 3) * fderiv ℝ φ (vertAt m v) (0, 1)) + δ := by
    intro φ hφ s a b
    have hs : eovEnd v s = 0 ∨ eovEnd v s = 1 := by unfold eovEnd; split_ifs <;> simp
    have hr := eov_isCell hnx h0 hV (s := s)
    have he : 0 ≤ Hex.eov p.nx p.ny v s ∧ Hex.eov p.nx p.ny v s < 3 * (p.nx * p.ny) := by
      unfold IsCell at hr; omega
    have h := edge_of_vertex hv hny hb hφ.periodic he.1 he.2 hs
    rw [voe_eov hnx hvc a b] at h
    have t := remainder_two (by exact_mod_cast hφ.smooth) hφ.bound (vertAt m v)
      ((dc * √3 / 6 * (if eovEnd v s = 0 then 1 else -1)) •
        (DY (Hex.eov p.nx p.ny v s % 3) * √3 / 2, -DX (Hex.eov p.nx p.ny v s % 3)))
    rw [← h, map_smul, lin_pt] at t
    refine ⟨_, t.trans ?_, ?_⟩
    · have hn : ‖(dc * √3 / 6 * (if eovEnd v s = 0 then (1:ℝ) else -1)) •
        ((DY (Hex.eov p.nx p.ny v s % 3) * √3 / 2, -DX (Hex.eov p.nx p.ny v s % 3)) : ℝ × ℝ)‖
          ≤ dc * √3 / 6 := by
        rw [norm_smul]
        have e1 : ‖dc * √3 / 6 * (if eovEnd v s = 0 then (1:ℝ) else -1)‖ = dc * √3 / 6 := by
          rw [Real.norm_eq_abs, abs_mul, abs_of_pos (by positivity : 0 < dc * √3 / 6)]
          split_ifs <;> simp
        have e2 : ‖((DY (Hex.eov p.nx p.ny v s % 3) * √3 / 2, -DX (Hex.eov p.nx p.ny v s % 3)) :
            ℝ × ℝ)‖ ≤ 1 := by
          generalize Hex.eov p.nx p.ny v s = e
          obtain h | h | h : e % 3 = 0 ∨ e % 3 = 1 ∨ e % 3 = 2 := by omega
          all_goals
            rw [h]; unfold DX DY
            apply norm_pt <;> rw [abs_le] <;> norm_num <;> constructor <;> linarith
        rw [e1]
        nlinarith [mul_pos hdc hw]
      have hn2 := pow_le_pow_left₀ (norm_nonneg _) hn 2
      have e3 : (dc * √3 / 6) ^ 2 = dc ^ 2 / 12 := by linear_combination (dc ^ 2 / 36) * hsq
      rw [e3] at hn2
      nlinarith [mul_le_mul_of_nonneg_left hn2 hφ.nonneg]
    · rw [smul_eq_mul]; ring
  have N : ∀ s : Int, 0 ≤ s → s < 3 → normal m (Hex.eov p.nx p.ny v s)
      = -dir (Hex.eov p.nx p.ny v s % 3) := by
    intro s a b
    have hr := eov_isCell hnx h0 hV (s := s)
    exact normal_eq hv hb (by unfold IsCell at hr; omega)
      (by show _ < 3 * (p.nx * p.ny); unfold IsCell at hr; omega)
  have M : ∀ s : Int, 0 ≤ s → s < 3 → Hex.eov p.nx p.ny v s % 3
      = if s = 0 then 0 else if s = 1 then 2 else 1 := by
    intro s a b; unfold Hex.eov; split_ifs <;> omega
  obtain ⟨a0, ha0, A0⟩ := key U hU 0 (by omega) (by omega)
  obtain ⟨a1, ha1, A1⟩ := key U hU 1 (by omega) (by omega)
  obtain ⟨a2, ha2, A2⟩ := key U hU 2 (by omega) (by omega)
  obtain ⟨b0, hb0, B0⟩ := key W hW 0 (by omega) (by omega)
  obtain ⟨b1, hb1, B1⟩ := key W hW 1 (by omega) (by omega)
  obtain ⟨b2, hb2, B2⟩ := key W hW 2 (by omega) (by omega)
  have m0 : Hex.eov p.nx p.ny v 0 % 3 = 0 := (M 0 (by omega) (by omega)).trans (by norm_num)
  have m1 : Hex.eov p.nx p.ny v 1 % 3 = 2 := (M 1 (by omega) (by omega)).trans (by norm_num)
  have m2 : Hex.eov p.nx p.ny v 2 % 3 = 1 := (M 2 (by omega) (by omega)).trans (by norm_num)
  have D : Cu p.nx p.ny (normalOf m U W) v = dc * √3 / 4 * curlAt U W (vertAt m v) +
      (if v % 2 = 0 then 1 else -1) * (a0 - a1 / 2 - a2 / 2 + √3 / 2 * b1 - √3 / 2 * b2) := by
    unfold Cu normalOf
    rw [N 0 (by omega) (by omega), N 1 (by omega) (by omega), N 2 (by omega) (by omega), A0, A1, A2,
      B0, B1, B2, m0, m1, m2]
    simp only [dir, DX, DY, curlAt, eovEnd]
    by_cases hp : v % 2 = 0
    · simp only [hp]
      norm_num
      ring_nf
      simp only [show √3 ^ 3 = 3 * √3 by linear_combination √3 * hsq]
      ring
    · simp only [hp]
      norm_num
      ring_nf
      simp only [show √3 ^ 3 = 3 * √3 by linear_combination √3 * hsq]
      ring
  rw [D]
  have e1 : ∀ k : ℝ, 4 / (dc * √3) * (dc * √3 / 4 * curlAt U W (vertAt m v) + k)
      - curlAt U W (vertAt m v) = 4 / (dc * √3) * k := by intro k; field_simp; ring
  rw [e1, abs_mul, abs_of_pos (by positivity)]
  have hs : ∀ b β : ℝ, |b| ≤ β → |√3 / 2 * b| ≤ β := by
    intro b β h
    rw [abs_mul, abs_of_pos (by positivity)]
    nlinarith [abs_nonneg b]
  have hb1' := abs_le.mp (hs _ _ hb1)
  have hb2' := abs_le.mp (hs _ _ hb2)
  rw [abs_le] at ha0 ha1 ha2
  have : |(if v % 2 = 0 then 1 else -1) * (a0 - a1 / 2 - a2 / 2 + √3 / 2 * b1 - √3 / 2 * b2)|
      ≤ 4 * (B * dc ^ 2 / 24) := by
    rw [abs_mul, show |if v % 2 = 0 then (1:ℝ) else -1| = 1 by split_ifs <;> simp, one_mul]
    rw [abs_le]; constructor <;> linarith
  calc _ ≤ 4 / (dc * √3) * (4 * (B * dc ^ 2 / 24)) := mul_le_mul_of_nonneg_left this (by positivity)
    _ = 2 / (3 * √3) * B * dc := by field_simp; ring

/-! ### Reconstruction -/

theorem dir_opp6 {j : Int} (h0 : 0 ≤ j) (h6 : j < 6) : dir ((j + 3) % 6) = -dir j := by
  obtain rfl | rfl | rfl | rfl | rfl | rfl : j = 0 ∨ j = 1 ∨ j = 2 ∨ j = 3 ∨ j = 4 ∨ j = 5 := by
    omega
  all_goals simp only [Int.reduceAdd, Int.reduceMod]; unfold dir DX DY; norm_num
  all_goals ring

theorem abs_dir {j : Int} (h0 : 0 ≤ j) (h6 : j < 6) {x y β : ℝ} (hx : |x| ≤ β) (hy : |y| ≤ β) :
    |(dir j).1 * x + (dir j).2 * y| ≤ 3 / 2 * β := by
  have hw := w_pos
  have hw2 := sqrt3_le
  have hs : |√3 / 2 * y| ≤ β := by
    rw [abs_mul, abs_of_pos (by positivity)]
    nlinarith [abs_nonneg y]
  have hβ : 0 ≤ β := (abs_nonneg x).trans hx
  rw [abs_le] at hx hs ⊢
  obtain rfl | rfl | rfl | rfl | rfl | rfl : j = 0 ∨ j = 1 ∨ j = 2 ∨ j = 3 ∨ j = 4 ∨ j = 5 := by
    omega
  all_goals
    simp only [dir, DX, DY]
    norm_num
    constructor <;> linarith

theorem exists_err {x y β : ℝ} (h : |x - y| ≤ β) : ∃ ε, |ε| ≤ β ∧ x = y + ε := ⟨_, h, by ring⟩

/-- The tangential reconstruction is second-order accurate at every edge. -/
theorem C57_reconstruction_second_order (hv : MeshParams.Valid p) (hny : p.ny % 2 = 0) (hdc : 0 < dc)
    (hb : Built p dc m) {U W : ℝ × ℝ → ℝ} {B : ℝ}
    (hU : Field 2 (periodX p.nx dc) (periodY p.ny dc) B U)
    (hW : Field 2 (periodX p.nx dc) (periodY p.ny dc) B W) (e : Int) (h0 : 0 ≤ e)
    (h1 : e < p.dims.nedges) :
    |Spec.tang m (normalOf m U W) e - tangentOf m U W e| ≤ √3 / 2 * B * dc ^ 2 := by
  have hw := w_pos
  have hsq := w_sq
  have hnx := hv.nx_pos
  have hc := isCell_edge h0 h1
  have hc0 : IsCell p.nx p.ny (coe p.nx p.ny e 0) := coe_isCell hnx h0 h1
  have ha : 0 ≤ e % 3 ∧ e % 3 < 3 := by omega
  have hN := normal_eq hv hb h0 h1
  have key : ∀ φ, Field 2 (periodX p.nx dc) (periodY p.ny dc) B φ → ∀ j : Int, 0 ≤ j → j < 6 →
      |φ (cellAt m (e / 3) + (dc / 2) • dir j) +
        φ (cellAt m (coe p.nx p.ny e 0) + (dc / 2) • dir ((j + 3) % 6)) - 2 * φ (edgeAt m e)|
        ≤ B * dc ^ 2 := by
    intro φ hφ j a b
    have hs : ∀ w : ℝ × ℝ, Periodic2 (periodX p.nx dc) (periodY p.ny dc) (fun x => φ (x + w)) := by
      rintro ⟨w1, w2⟩
      constructor
      · intro x y
        simpa [add_right_comm] using hφ.periodic.1 (x + w1) (y + w2)
      · intro x y
        simpa [add_right_comm] using hφ.periodic.2 (x + w1) (y + w2)
    have k1 := (cells_of_edge hv hny hb (hs ((dc / 2) • dir j)) h0 h1).2
    have k0 := (cells_of_edge hv hny hb (hs ((dc / 2) • dir ((j + 3) % 6))) h0 h1).1
    rw [coe_one] at k1
    rw [k0, k1, dir_opp6 a b]
    have t := symm_mean (by exact_mod_cast hφ.smooth) hφ.bound (edgeAt m e)
      ((dc / 2) • normal m e + (dc / 2) • dir j)
    have hn : ‖(dc / 2) • normal m e + (dc / 2) • dir j‖ ≤ dc := by
      have := norm_add_le ((dc / 2) • normal m e) ((dc / 2) • dir j)
      have q1 := norm_half hdc (m.real .angle_edge 0 e 0)
      have q2 := norm_dir hdc a b
      have : ‖(dc / 2) • normal m e‖ ≤ dc / 2 := q1
      linarith
    have hn2 := pow_le_pow_left₀ (norm_nonneg _) hn 2
    rw [show edgeAt m e + (dc / 2) • normal m e + (dc / 2) • dir j =
      edgeAt m e + ((dc / 2) • normal m e + (dc / 2) • dir j) by abel,
      show edgeAt m e - (dc / 2) • normal m e + (dc / 2) • -dir j =
      edgeAt m e - ((dc / 2) • normal m e + (dc / 2) • dir j) by rw [smul_neg]; abel]
    exact t.trans (mul_le_mul_of_nonneg_left hn2 hφ.nonneg)
  have F := fun c hc j h0 h6 => flow_E hv hny hb hU.periodic hW.periodic (c := c) hc (j := j) h0 h6
  -- opposite edges together
  have P : ∀ j : Int, 0 ≤ j → j < 6 → ∃ ε, |ε| ≤ 3 / 2 * (B * dc ^ 2) ∧
      normalOf m U W (E p.nx p.ny (e / 3) j) =
        -normalOf m U W (E p.nx p.ny (coe p.nx p.ny e 0) ((j + 3) % 6))
        - 2 * ((dir (j % 3)).1 * U (edgeAt m e) + (dir (j % 3)).2 * W (edgeAt m e)) + ε := by
    intro j a b
    refine exists_err ?_
    rw [F _ hc j a b, F _ hc0 ((j + 3) % 6) (by omega) (by omega),
      show (j + 3) % 6 % 3 = j % 3 by omega]
    have := abs_dir (j := j % 3) (by omega) (by omega) (key U hU j a b) (key W hW j a b)
    rw [← abs_neg] at this
    refine le_of_eq_of_le (congrArg abs ?_) this
    ring
  have hex : tangentOf m U W e = (dir (e % 3)).2 * U (edgeAt m e) - (dir (e % 3)).1 * W (edgeAt m e) := by
    unfold tangentOf; rw [hN]; simp; ring
  rw [spec_tang (hb.geo hv hdc) _ h0 h1]
  obtain ⟨q0, i0, Q0⟩ := P 0 (by omega) (by omega)
  obtain ⟨q1, i1, Q1⟩ := P 1 (by omega) (by omega)
  obtain ⟨q2, i2, Q2⟩ := P 2 (by omega) (by omega)
  obtain ⟨q3, i3, Q3⟩ := P 3 (by omega) (by omega)
  obtain ⟨q4, i4, Q4⟩ := P 4 (by omega) (by omega)
  obtain ⟨q5, i5, Q5⟩ := P 5 (by omega) (by omega)
  norm_num at Q0 Q1 Q2 Q3 Q4 Q5
  have D : ∃ ε, |ε| ≤ 3 / 2 * (B * dc ^ 2) ∧
      Tn p.nx p.ny (normalOf m U W) e = √3 * tangentOf m U W e + ε := by
    unfold Tn
    rw [Tw_eq hnx _ hc, hex]
    unfold Tq
    obtain h | h | h : e % 3 = 0 ∨ e % 3 = 1 ∨ e % 3 = 2 := by omega
    all_goals
      rw [h]
      norm_num
      norm_num [wRaw, Q0, Q1, Q2, Q3, Q4, Q5]
      refine exists_err ?_
      rw [abs_le] at *
      simp only [dir, DX, DY]
      norm_num
      ring_nf
      ring_nf at i0 i1 i2 i3 i4 i5
      try simp only [show √3 ^ 2 = 3 by linarith]
      constructor <;> linarith
  obtain ⟨ε, hε, D⟩ := D
  rw [D]
  have e1 : 1 / √3 * (√3 * tangentOf m U W e + ε) - tangentOf m U W e = 1 / √3 * ε := by
    field_simp; ring
  rw [e1, abs_mul, abs_of_pos (by positivity)]
  calc _ ≤ 1 / √3 * (3 / 2 * (B * dc ^ 2)) := mul_le_mul_of_nonneg_left hε (by positivity)
    _ = √3 / 2 * B * dc ^ 2 := by
      rw [div_mul_eq_mul_div, div_eq_iff hw.ne']
      linear_combination (-(B * dc ^ 2 / 2)) * hsq

/-! ### Families of meshes of one domain -/

theorem periods_pos (hv : MeshParams.Valid p) (hdc : 0 < dc) :
    0 < (periodX p.nx dc : ℝ) ∧ 0 < (periodY p.ny dc : ℝ) := by
  have h1 : (0:ℝ) < p.nx := by exact_mod_cast hv.nx_pos
  have h2 : (0:ℝ) < p.ny := by exact_mod_cast hv.ny_pos
  have := w_pos
  constructor
  · simp only [periodX, lit_real]; positivity
  · simp only [periodY, lit_real, sqrt_real]; norm_num; positivity

/-- Refining the mesh of a fixed domain: for every smooth periodic scalar and vector field one constant
bounds the errors of the four operators on all meshes of the domain. -/
theorem C50_operators_converge {Lx Ly : ℝ} (hLx : 0 < Lx) (hLy : 0 < Ly) {φ U W : ℝ × ℝ → ℝ}
    (hφ : ContDiff ℝ 3 φ) (hU : ContDiff ℝ 3 U) (hW : ContDiff ℝ 3 W) (pφ : Periodic2 Lx Ly φ)
    (pU : Periodic2 Lx Ly U) (pW : Periodic2 Lx Ly W) :
    ∃ C : ℝ, ∀ (p : MeshParams) (dc : ℝ) (m : Mem ℝ), MeshParams.Valid p → 2 ≤ p.nx → p.ny % 2 = 0 →
      0 < dc → Built p dc m → periodX p.nx dc = Lx → periodY p.ny dc = Ly →
      (∀ e, 0 ≤ e → e < p.dims.nedges →
        |Spec.grad m (fun c => φ (cellAt m c)) e - fderiv ℝ φ (edgeAt m e) (normal m e)| ≤ C * dc ^ 2) ∧
      (∀ c, 0 ≤ c → c < p.dims.ncells →
        |Spec.div m (normalOf m U W) c - divAt U W (cellAt m c)| ≤ C * dc ^ 2) ∧
      (∀ v, 0 ≤ v → v < p.dims.nvertices →
        |Spec.curl m (normalOf m U W) v - curlAt U W (vertAt m v)| ≤ C * dc) ∧
      (∀ e, 0 ≤ e → e < p.dims.nedges →
        |Spec.tang m (normalOf m U W) e - tangentOf m U W e| ≤ C * dc ^ 2) := by
  have c2 : ∀ {f : ℝ × ℝ → ℝ}, ContDiff ℝ 3 f → ContDiff ℝ (2 : ℕ) f :=
    fun h => h.of_le (by norm_num)
  obtain ⟨b1, n1, k1⟩ := pφ.bounded (n := 3) hLx hLy (by exact_mod_cast hφ)
  obtain ⟨b2, n2, k2⟩ := pU.bounded (n := 3) hLx hLy (by exact_mod_cast hU)
  obtain ⟨b3, n3, k3⟩ := pW.bounded (n := 3) hLx hLy (by exact_mod_cast hW)
  obtain ⟨b4, n4, k4⟩ := pU.bounded (n := 2) hLx hLy (c2 hU)
  obtain ⟨b5, n5, k5⟩ := pW.bounded (n := 2) hLx hLy (c2 hW)
  refine ⟨b1 + b2 + b3 + b4 + b5, ?_⟩
  intro p dc m hv hx hny hdc hb rx ry
  have hw := w_pos
  have hw2 := sqrt3_le
  have hsq := w_sq
  have hy : 2 ≤ p.ny := by have := hv.ny_pos; omega
  subst rx ry
  have q2 : (0:ℝ) < dc ^ 2 := by positivity
  have F3 : ∀ {f b}, ContDiff ℝ 3 f → Periodic2 (periodX p.nx dc) (periodY p.ny dc) f →
      (∀ z, ‖iteratedFDeriv ℝ 3 f z‖ ≤ b) → ∀ b', b ≤ b' →
      Field 3 (periodX p.nx dc) (periodY p.ny dc) b' f :=
    fun h1 h2 h3 b' h4 => ⟨by exact_mod_cast h1, h2, fun z => (h3 z).trans h4⟩
  have F2 : ∀ {f b}, ContDiff ℝ 3 f → Periodic2 (periodX p.nx dc) (periodY p.ny dc) f →
      (∀ z, ‖iteratedFDeriv ℝ 2 f z‖ ≤ b) → ∀ b', b ≤ b' →
      Field 2 (periodX p.nx dc) (periodY p.ny dc) b' f :=
    fun h1 h2 h3 b' h4 => ⟨c2 h1, h2, fun z => (h3 z).trans h4⟩
  refine ⟨fun e h0 h1 => ?_, fun c h0 h1 => ?_, fun v h0 h1 => ?_, fun e h0 h1 => ?_⟩
  · refine (C50_gradient_second_order hv hny hdc hb (F3 hφ pφ k1 b1 le_rfl) e h0 h1).trans ?_
    exact mul_le_mul_of_nonneg_right (by linarith) q2.le
  · refine (C55_divergence_second_order hv hx hy hny hdc hb (F3 hU pU k2 (b2 + b3) (by linarith))
      (F3 hW pW k3 (b2 + b3) (by linarith)) c h0 h1).trans ?_
    exact mul_le_mul_of_nonneg_right (by linarith) q2.le
  · refine (C56_curl_first_order hv hny hdc hb (F2 hU pU k4 (b4 + b5) (by linarith))
      (F2 hW pW k5 (b4 + b5) (by linarith)) v h0 h1).trans ?_
    have : 2 / (3 * √3) ≤ 1 := by
      rw [div_le_one (by positivity)]; nlinarith
    exact mul_le_mul_of_nonneg_right (by nlinarith) hdc.le
  · refine (C57_reconstruction_second_order hv hny hdc hb (F2 hU pU k4 (b4 + b5) (by linarith))
      (F2 hW pW k5 (b4 + b5) (by linarith)) e h0 h1).trans ?_
    exact mul_le_mul_of_nonneg_right (by nlinarith) q2.le

/-! ### The fields of the convergence test -/

/-- `sin(2πx/Lx) sin(2πy/Ly)` and the like, `operator_convergence.cpp:26, 80-81` -/
def wave (Lx Ly a b : ℝ) (z : ℝ × ℝ) : ℝ :=
  Real.sin (2 * Real.pi * z.1 / Lx + a) * Real.sin (2 * Real.pi * z.2 / Ly + b)

theorem wave_smooth (Lx Ly a b : ℝ) {n : ℕ} : ContDiff ℝ n (wave Lx Ly a b) := by
  unfold wave
  fun_prop

theorem wave_periodic {Lx Ly : ℝ} (hx : 0 < Lx) (hy : 0 < Ly) (a b : ℝ) :
    Periodic2 Lx Ly (wave Lx Ly a b) := by
  constructor
  · intro x y
    have e : 2 * Real.pi * (x + Lx) / Lx + a = 2 * Real.pi * x / Lx + a + 2 * Real.pi := by
      field_simp; ring
    simp only [wave]
    rw [e, Real.sin_add_two_pi]
  · intro x y
    have e : 2 * Real.pi * (y + Ly) / Ly + b = 2 * Real.pi * y / Ly + b + 2 * Real.pi := by
      field_simp; ring
    simp only [wave]
    rw [e, Real.sin_add_two_pi]

/-- The hypotheses of the five theorems hold for the field of the test on a 4 × 6 mesh. -/
example : ∃ (B : ℝ) (m : Mem ℝ), 2 ≤ p46.nx ∧ 2 ≤ p46.ny ∧ p46.ny % 2 = 0 ∧ Built p46 (1 / 4) m ∧
    (71 : Int) < p46.dims.nedges ∧
    Field 3 (periodX p46.nx (1 / 4)) (periodY p46.ny (1 / 4)) B
      (wave (periodX p46.nx (1 / 4)) (periodY p46.ny (1 / 4)) 0 0) := by
  obtain ⟨hx, hy⟩ := periods_pos p46_valid (by norm_num : (0:ℝ) < 1 / 4)
  obtain ⟨B, -, h⟩ := Field.exists_bound (n := 3) hx hy (wave_smooth _ _ 0 0)
    (wave_periodic hx hy 0 0)
  exact ⟨B, _, by simp [p46], by simp [p46], rfl,
    built_meshMem p46_valid _ ⟨fun _ _ _ => 0, fun _ _ _ _ => 0⟩, by
    simp [MeshParams.dims, p46], h⟩
example : ∃ (B : ℝ), 0 ≤ B ∧ Field 2 (periodX p46.nx (1 / 4)) (periodY p46.ny (1 / 4)) B
      (wave (periodX p46.nx (1 / 4)) (periodY p46.ny (1 / 4)) 0 (Real.pi / 2)) := by
  obtain ⟨hx, hy⟩ := periods_pos p46_valid (by norm_num : (0:ℝ) < 1 / 4)
  exact Field.exists_bound (n := 2) hx hy (wave_smooth _ _ _ _) (wave_periodic hx hy _ _)

end Props
end
end Omega
