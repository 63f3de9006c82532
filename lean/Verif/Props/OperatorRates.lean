import Mathlib.Analysis.Real.Pi.Bounds
import Verif.Lib.Trig
import Verif.Props.OperatorTest

/-!
# C68: the rates of the operator convergence test

On the square meshes of the test the errors of its four fields have closed forms in `θ = π / n`.
-/

set_option linter.unusedVariables false
set_option linter.unusedSectionVars false

namespace Omega
noncomputable section
namespace Props

open Prog Model Refine Hex Numeric Taylor

variable {p : MeshParams} {dc : ℝ} {m : Mem ℝ}

/-- phases of the test fields -/
def phX (p : MeshParams) (dc : ℝ) (z : ℝ × ℝ) : ℝ := 2 * Real.pi * z.1 / periodX p.nx dc
@[inherit_doc phX]
def phY (p : MeshParams) (dc : ℝ) (z : ℝ × ℝ) : ℝ := 2 * Real.pi * z.2 / periodY p.ny dc
/-- half the phase between two columns -/
def th (p : MeshParams) : ℝ := Real.pi / (p.nx : ℝ)

theorem periodX_real (n : Int) (dc : ℝ) : periodX n dc = n * dc := by simp [periodX]
theorem periodY_real (n : Int) (dc : ℝ) : periodY n dc = n * dc * √3 / 2 := by simp [periodY]

theorem opS_per {Lx Ly : ℝ} (hx : 0 < Lx) (hy : 0 < Ly) : Periodic2 Lx Ly (opS Lx Ly) := by
  have := wave_periodic hx hy 0 0
  unfold Props.wave at this
  simp only [add_zero] at this
  exact this
theorem opU_per {Lx Ly : ℝ} (hx : 0 < Lx) (hy : 0 < Ly) : Periodic2 Lx Ly (opU Lx Ly) := by
  have := wave_periodic hx hy 0 (Real.pi / 2)
  unfold Props.wave at this
  simp only [add_zero, Real.sin_add_pi_div_two] at this
  exact this
theorem opW_per {Lx Ly : ℝ} (hx : 0 < Lx) (hy : 0 < Ly) : Periodic2 Lx Ly (opW Lx Ly) := by
  have := wave_periodic hx hy (Real.pi / 2) 0
  unfold Props.wave at this
  simp only [add_zero, Real.sin_add_pi_div_two] at this
  exact this

/-- Square mesh with an even number of rows, positive spacing. -/
structure Sq (p : MeshParams) (dc : ℝ) : Prop where
  valid : MeshParams.Valid p
  even : p.nx % 2 = 0
  square : p.ny = p.nx
  pos : 0 < dc

theorem Sq.even_y (h : Sq p dc) : p.ny % 2 = 0 := by rw [h.square]; exact h.even
theorem Sq.two (h : Sq p dc) : 2 ≤ p.nx := by have := h.valid.nx_pos; have := h.even; omega
theorem Sq.n_pos (h : Sq p dc) : (0 : ℝ) < p.nx := by exact_mod_cast h.valid.nx_pos
theorem Sq.px (h : Sq p dc) : 0 < periodX p.nx dc := (periods_pos h.valid h.pos).1
theorem Sq.py (h : Sq p dc) : 0 < periodY p.ny dc := (periods_pos h.valid h.pos).2
theorem Sq.th_pos (h : Sq p dc) : 0 < th p := div_pos Real.pi_pos h.n_pos

theorem Sq.kx (h : Sq p dc) : 2 * Real.pi / periodX p.nx dc = 2 * th p / dc := by
  have := h.n_pos; have := h.pos
  rw [periodX_real]; unfold th; field_simp
theorem Sq.ky (h : Sq p dc) : 2 * Real.pi / periodY p.ny dc = 2 * th p / dc * (2 / √3) := by
  have := h.n_pos; have := h.pos; have := w_pos
  rw [periodY_real, h.square]; unfold th; field_simp

theorem Sq.phX_eq (h : Sq p dc) (z : ℝ × ℝ) : phX p dc z = 2 * th p / dc * z.1 := by
  rw [← h.kx]; unfold phX; ring
theorem Sq.phY_eq (h : Sq p dc) (z : ℝ × ℝ) : phY p dc z = 2 * th p / dc * (2 / √3) * z.2 := by
  rw [← h.ky]; unfold phY; ring

theorem Sq.shiftX (h : Sq p dc) (z : ℝ × ℝ) (j : Int) :
    phX p dc (z + (dc / 2) • dir j) = phX p dc z + th p * DX j := by
  have := h.pos
  rw [h.phX_eq, h.phX_eq]; simp [dir]; field_simp
theorem Sq.shiftY (h : Sq p dc) (z : ℝ × ℝ) (j : Int) :
    phY p dc (z + (dc / 2) • dir j) = phY p dc z + th p * DY j := by
  have := h.pos; have := w_pos
  rw [h.phY_eq, h.phY_eq]; simp [dir]; field_simp

/-! ### Gradient -/

/-- amplitude along an inclined edge, east part -/
def ampA (t : ℝ) : ℝ := t / 2 - Real.sin (t / 2) * Real.cos t
/-- amplitude along an inclined edge, north part -/
def ampB (t : ℝ) : ℝ := t - Real.cos (t / 2) * Real.sin t

theorem grad_error (h : Sq p dc) (hb : Built p dc m) {e : Int} (h0 : 0 ≤ e) (h1 : e < p.dims.nedges) :
    Spec.grad m (fun c => opS (periodX p.nx dc) (periodY p.ny dc) (cellAt m c)) e -
      fderiv ℝ (opS (periodX p.nx dc) (periodY p.ny dc)) (edgeAt m e) (normal m e) =
    2 / dc * ((th p * DX (e % 3) - Real.sin (th p * DX (e % 3)) * Real.cos (th p * DY (e % 3))) *
        (Real.cos (phX p dc (edgeAt m e)) * Real.sin (phY p dc (edgeAt m e))) +
      (th p * DY (e % 3) - Real.cos (th p * DX (e % 3)) * Real.sin (th p * DY (e % 3))) *
        (Real.sin (phX p dc (edgeAt m e)) * Real.cos (phY p dc (edgeAt m e)))) := by
  have hw := w_pos
  obtain ⟨k0, k1⟩ := cells_of_edge h.valid h.even_y hb (opS_per h.px h.py) h0 h1
  rw [spec_grad (hb.geo h.valid h.pos) _ h0 h1]
  unfold Gr
  beta_reduce
  have hN := normal_eq h.valid hb h0 h1
  have s : ∀ z, opS (periodX p.nx dc) (periodY p.ny dc) z =
    Real.sin (phX p dc z) * Real.sin (phY p dc z) := fun z => rfl
  have t : edgeAt m e - (dc / 2) • -dir (e % 3) = edgeAt m e + (dc / 2) • dir (e % 3) := by
    rw [smul_neg, sub_neg_eq_add]
  have nX : phX p dc (edgeAt m e + (dc / 2) • -dir (e % 3)) = phX p dc (edgeAt m e) - th p * DX (e % 3) := by
    have := h.shiftX (edgeAt m e + (dc / 2) • -dir (e % 3)) (e % 3)
    rw [smul_neg, neg_add_cancel_right] at this
    rw [smul_neg]; linarith
  have nY : phY p dc (edgeAt m e + (dc / 2) • -dir (e % 3)) = phY p dc (edgeAt m e) - th p * DY (e % 3) := by
    have := h.shiftY (edgeAt m e + (dc / 2) • -dir (e % 3)) (e % 3)
    rw [smul_neg, neg_add_cancel_right] at this
    rw [smul_neg]; linarith
  rw [k0, k1, hN, t, s, s, h.shiftX, h.shiftY, nX, nY]
  unfold opS
  rw [fderiv_prod2 (deriv_sinw _) (deriv_sinw _)]
  rw [h.kx, h.ky]
  simp only [Real.sin_add, Real.sin_sub, phX, phY, dir, Prod.fst_neg, Prod.snd_neg]
  have := h.pos
  field_simp
  ring

/-! ### Divergence -/

theorem opU_shift (h : Sq p dc) (z : ℝ × ℝ) (j : Int) :
    opU (periodX p.nx dc) (periodY p.ny dc) (z + (dc / 2) • dir j) =
      Real.sin (phX p dc z + th p * DX j) * Real.cos (phY p dc z + th p * DY j) := by
  rw [← h.shiftX, ← h.shiftY]; rfl
theorem opW_shift (h : Sq p dc) (z : ℝ × ℝ) (j : Int) :
    opW (periodX p.nx dc) (periodY p.ny dc) (z + (dc / 2) • dir j) =
      Real.cos (phX p dc z + th p * DX j) * Real.sin (phY p dc z + th p * DY j) := by
  rw [← h.shiftX, ← h.shiftY]; rfl

/-- amplitude of the error of the divergence -/
def ampD (t : ℝ) : ℝ := t - Real.sin t + ampA t + √3 * ampB t

theorem div_error (h : Sq p dc) (hb : Built p dc m) {c : Int} (h0 : 0 ≤ c) (h1 : c < p.dims.ncells) :
    Spec.div m (normalOf m (opU (periodX p.nx dc) (periodY p.ny dc))
        (opW (periodX p.nx dc) (periodY p.ny dc))) c -
      divAt (opU (periodX p.nx dc) (periodY p.ny dc)) (opW (periodX p.nx dc) (periodY p.ny dc))
        (cellAt m c) =
    -(4 / (3 * dc) * ampD (th p)) *
      (Real.cos (phX p dc (cellAt m c)) * Real.cos (phY p dc (cellAt m c))) := by
  have hw := w_pos
  have hdc := h.pos
  have hc : IsCell p.nx p.ny c := ⟨h0, h1⟩
  rw [spec_div (hb.geo2 h.valid h.two (by rw [h.square]; exact h.two) h.pos) _ hc]
  have F := fun j h0 h6 => flow_E h.valid h.even_y hb (opU_per h.px h.py) (opW_per h.px h.py) hc
    (j := j) h0 h6
  have X : divAt (opU (periodX p.nx dc) (periodY p.ny dc)) (opW (periodX p.nx dc) (periodY p.ny dc))
      (cellAt m c) = (2 * th p / dc + 2 * th p / dc * (2 / √3)) *
      (Real.cos (phX p dc (cellAt m c)) * Real.cos (phY p dc (cellAt m c))) := by
    unfold divAt opU opW
    rw [fderiv_prod2 (deriv_sinw _) (deriv_cosw _), fderiv_prod2 (deriv_cosw _) (deriv_sinw _),
      h.kx, h.ky]
    unfold phX phY
    ring
  rw [X]
  unfold Dv
  rw [F 0 (by omega) (by omega), F 1 (by omega) (by omega), F 2 (by omega) (by omega),
    F 3 (by omega) (by omega), F 4 (by omega) (by omega), F 5 (by omega) (by omega)]
  simp only [opU_shift h, opW_shift h]
  generalize phX p dc (cellAt m c) = x
  generalize phY p dc (cellAt m c) = y
  generalize th p = t
  have i3 : (2 / √3 : ℝ) = 2 * √3 / 3 := by
    rw [div_eq_div_iff hw.ne' (by norm_num)]; linear_combination (-2) * w_sq
  rw [i3]
  unfold ampD ampA ampB
  simp only [Int.reduceMod, EuclideanDomain.zero_mod, dir, DX, DY]
  norm_num
  simp only [show t * (1 / 2) = t / 2 by ring, Real.sin_add,
    Real.cos_add, Real.sin_neg, Real.cos_neg]
  field_simp
  ring

/-! ### Curl -/

theorem Sq.vshiftX (h : Sq p dc) (z : ℝ × ℝ) (s x y : ℝ) :
    phX p dc (z + (dc * √3 / 6 * s) • (y * √3 / 2, -x)) = phX p dc z + s * (th p * y / 2) := by
  have := h.pos; have := w_pos
  rw [h.phX_eq, h.phX_eq]
  simp only [Prod.fst_add, Prod.smul_fst, smul_eq_mul]
  field_simp
  linear_combination (s * th p * y * 2 * dc) * w_sq
theorem Sq.vshiftY (h : Sq p dc) (z : ℝ × ℝ) (s x y : ℝ) :
    phY p dc (z + (dc * √3 / 6 * s) • (y * √3 / 2, -x)) = phY p dc z - s * (2 * (th p * x) / 3) := by
  have := h.pos; have := w_pos
  rw [h.phY_eq, h.phY_eq]
  simp only [Prod.snd_add, Prod.smul_snd, smul_eq_mul]
  field_simp
  ring

/-- amplitude of the leading error of the curl -/
def ampS (t : ℝ) : ℝ :=
  Real.cos (t / 2) * Real.cos (t / 3) + √3 * (Real.sin (t / 2) * Real.sin (t / 3)) - Real.cos (2 * t / 3)
/-- amplitude of the next error of the curl -/
def ampT (t : ℝ) : ℝ :=
  Real.sin (2 * t / 3) + Real.cos (t / 2) * Real.sin (t / 3) - √3 * (Real.sin (t / 2) * Real.cos (t / 3))
    - t * (1 - √3 / 2)

theorem curl_error (h : Sq p dc) (hb : Built p dc m) {v : Int} (h0 : 0 ≤ v)
    (h1 : v < p.dims.nvertices) :
    Spec.curl m (normalOf m (opU (periodX p.nx dc) (periodY p.ny dc))
        (opW (periodX p.nx dc) (periodY p.ny dc))) v -
      curlAt (opU (periodX p.nx dc) (periodY p.ny dc)) (opW (periodX p.nx dc) (periodY p.ny dc))
        (vertAt m v) =
    4 / (dc * √3) * (Real.sin (phX p dc (vertAt m v)) *
      (ampT (th p) * Real.sin (phY p dc (vertAt m v)) -
        (if v % 2 = 0 then 1 else -1) * ampS (th p) * Real.cos (phY p dc (vertAt m v)))) := by
  have hw := w_pos
  have hdc := h.pos
  have hnx := h.valid.nx_pos
  have hV : v < 2 * (p.nx * p.ny) := by simpa [MeshParams.dims] using h1
  have hvc := isCell_vertex h0 hV
  rw [spec_curl (hb.geo h.valid hdc) _ h0 hV]
  have X : curlAt (opU (periodX p.nx dc) (periodY p.ny dc)) (opW (periodX p.nx dc) (periodY p.ny dc))
      (vertAt m v) = (2 * th p / dc * (2 / √3) - 2 * th p / dc) *
      (Real.sin (phX p dc (vertAt m v)) * Real.sin (phY p dc (vertAt m v))) := by
    unfold curlAt opU opW
    rw [fderiv_prod2 (deriv_sinw _) (deriv_cosw _), fderiv_prod2 (deriv_cosw _) (deriv_sinw _),
      h.kx, h.ky]
    unfold phX phY
    ring
  have key : ∀ s : Int, 0 ≤ s → s < 3 →
      opU (periodX p.nx dc) (periodY p.ny dc) (edgeAt m (Hex.eov p.nx p.ny v s)) =
        Real.sin (phX p dc (vertAt m v) + (if eovEnd v s = 0 then 1 else -1) *
          (th p * DY (Hex.eov p.nx p.ny v s % 3) / 2)) *
        Real.cos (phY p dc (vertAt m v) - (if eovEnd v s = 0 then 1 else -1) *
          (2 * (th p * DX (Hex.eov p.nx p.ny v s % 3)) / 3)) ∧
      opW (periodX p.nx dc) (periodY p.ny dc) (edgeAt m (Hex.eov p.nx p.ny v s)) =
        Real.cos (phX p dc (vertAt m v) + (if eovEnd v s = 0 then 1 else -1) *
          (th p * DY (Hex.eov p.nx p.ny v s % 3) / 2)) *
        Real.sin (phY p dc (vertAt m v) - (if eovEnd v s = 0 then 1 else -1) *
          (2 * (th p * DX (Hex.eov p.nx p.ny v s % 3)) / 3)) := by
    intro s a b
    have hs : eovEnd v s = 0 ∨ eovEnd v s = 1 := by unfold eovEnd; split_ifs <;> simp
    have hr := eov_isCell hnx h0 hV (s := s)
    have he : 0 ≤ Hex.eov p.nx p.ny v s ∧ Hex.eov p.nx p.ny v s < 3 * (p.nx * p.ny) := by
      unfold IsCell at hr; omega
    have eU := edge_of_vertex h.valid h.even_y hb (opU_per h.px h.py) he.1 he.2 hs
    have eW := edge_of_vertex h.valid h.even_y hb (opW_per h.px h.py) he.1 he.2 hs
    rw [voe_eov hnx hvc a b] at eU eW
    rw [eU, eW, ← h.vshiftX _ _ (DX (Hex.eov p.nx p.ny v s % 3)),
      ← h.vshiftY _ _ _ (DY (Hex.eov p.nx p.ny v s % 3))]
    exact ⟨rfl, rfl⟩
  have N : ∀ s : Int, 0 ≤ s → s < 3 → normal m (Hex.eov p.nx p.ny v s)
      = -dir (Hex.eov p.nx p.ny v s % 3) := by
    intro s a b
    have hr := eov_isCell hnx h0 hV (s := s)
    exact normal_eq h.valid hb (by unfold IsCell at hr; omega)
      (by show _ < 3 * (p.nx * p.ny); unfold IsCell at hr; omega)
  have M : ∀ s : Int, 0 ≤ s → s < 3 → Hex.eov p.nx p.ny v s % 3
      = if s = 0 then 0 else if s = 1 then 2 else 1 := by
    intro s a b; unfold Hex.eov; split_ifs <;> omega
  obtain ⟨A0, B0⟩ := key 0 (by omega) (by omega)
  obtain ⟨A1, B1⟩ := key 1 (by omega) (by omega)
  obtain ⟨A2, B2⟩ := key 2 (by omega) (by omega)
  have m0 : Hex.eov p.nx p.ny v 0 % 3 = 0 := (M 0 (by omega) (by omega)).trans (by norm_num)
  have m1 : Hex.eov p.nx p.ny v 1 % 3 = 2 := (M 1 (by omega) (by omega)).trans (by norm_num)
  have m2 : Hex.eov p.nx p.ny v 2 % 3 = 1 := (M 2 (by omega) (by omega)).trans (by norm_num)
  rw [X]
  unfold Cu normalOf
  rw [N 0 (by omega) (by omega), N 1 (by omega) (by omega), N 2 (by omega) (by omega), A0, A1, A2,
    B0, B1, B2, m0, m1, m2]
  generalize phX p dc (vertAt m v) = x
  generalize phY p dc (vertAt m v) = y
  generalize th p = t
  unfold ampS ampT
  by_cases hp : v % 2 = 0
  · simp only [dir, DX, DY, eovEnd, hp]
    norm_num
    simp only [← sub_eq_add_neg, sub_neg_eq_add, neg_div, mul_one_div,
      show 2 * (t / 2) / 3 = t / 3 by ring, Real.sin_add, Real.cos_add, Real.sin_sub, Real.cos_sub]
    field_simp
    ring
  · simp only [dir, DX, DY, eovEnd, hp]
    norm_num
    simp only [← sub_eq_add_neg, sub_neg_eq_add, neg_div, mul_one_div,
      show 2 * (t / 2) / 3 = t / 3 by ring, Real.sin_add, Real.cos_add, Real.sin_sub, Real.cos_sub]
    field_simp
    ring

/-! ### Reconstruction -/

theorem Sq.unshiftX (h : Sq p dc) (z : ℝ × ℝ) (j : Int) :
    phX p dc (z - (dc / 2) • dir j) = phX p dc z - th p * DX j := by
  have := h.shiftX (z - (dc / 2) • dir j) j
  rw [sub_add_cancel] at this; linarith
theorem Sq.unshiftY (h : Sq p dc) (z : ℝ × ℝ) (j : Int) :
    phY p dc (z - (dc / 2) • dir j) = phY p dc z - th p * DY j := by
  have := h.shiftY (z - (dc / 2) • dir j) j
  rw [sub_add_cancel] at this; linarith

/-- factor of the reconstruction of edges of the first direction, less one -/
def ampR (t : ℝ) : ℝ :=
  (1 - Real.cos (t / 2)) * (1 / 2 + √3 / 18) + (1 - Real.cos (3 * t / 2)) * (1 / 3 - √3 / 9) +
    (1 - Real.cos (5 * t / 2)) * (1 / 6 + √3 / 18)
/-- amplitudes for the inclined directions -/
def ampP (t : ℝ) : ℝ :=
  √3 / 3 * ((1 - Real.cos t) / 3 + (1 - Real.cos (2 * t)) / 6 + (1 - Real.cos (t / 2)) / 2 +
    (1 - Real.cos (3 * t / 2)) / 3 + (1 - Real.cos (5 * t / 2)) / 6)
@[inherit_doc ampP]
def ampQ (t : ℝ) : ℝ :=
  (1 - Real.cos t) / 3 + (1 - Real.cos (2 * t)) / 6 -
    √3 / 9 * ((1 - Real.cos (5 * t / 2)) / 2 + (1 - Real.cos (t / 2)) / 2 - (1 - Real.cos (3 * t / 2)))

theorem cos_half3 (t : ℝ) : Real.cos (3 * t / 2) =
    Real.cos t * Real.cos (t / 2) - Real.sin t * Real.sin (t / 2) := by
  rw [← Real.cos_add]; ring_nf
theorem sin_half3 (t : ℝ) : Real.sin (3 * t / 2) =
    Real.sin t * Real.cos (t / 2) + Real.cos t * Real.sin (t / 2) := by
  rw [← Real.sin_add]; ring_nf
theorem cos_half5 (t : ℝ) : Real.cos (5 * t / 2) =
    Real.cos t * Real.cos (3 * t / 2) - Real.sin t * Real.sin (3 * t / 2) := by
  rw [← Real.cos_add]; ring_nf
theorem cos_half1 (t : ℝ) : Real.cos (t / 2) =
    Real.cos t * Real.cos (3 * t / 2) + Real.sin t * Real.sin (3 * t / 2) := by
  rw [← Real.cos_sub, ← Real.cos_neg]; ring_nf

/-- opposite edges of the two cells of an edge -/
theorem pair_edges (h : Sq p dc) (hb : Built p dc m) {e : Int} (h0 : 0 ≤ e) (h1 : e < p.dims.nedges)
    {j : Int} (a : 0 ≤ j) (b : j < 6) :
    normalOf m (opU (periodX p.nx dc) (periodY p.ny dc)) (opW (periodX p.nx dc) (periodY p.ny dc))
      (E p.nx p.ny (e / 3) j) =
    -normalOf m (opU (periodX p.nx dc) (periodY p.ny dc)) (opW (periodX p.nx dc) (periodY p.ny dc))
      (E p.nx p.ny (coe p.nx p.ny e 0) ((j + 3) % 6)) -
    2 * ((dir (j % 3)).1 *
        (Real.sin (phX p dc (edgeAt m e)) * Real.cos (phY p dc (edgeAt m e)) *
          (Real.cos (th p * (DX j - DX (e % 3))) * Real.cos (th p * (DY j - DY (e % 3)))) -
         Real.cos (phX p dc (edgeAt m e)) * Real.sin (phY p dc (edgeAt m e)) *
          (Real.sin (th p * (DX j - DX (e % 3))) * Real.sin (th p * (DY j - DY (e % 3))))) +
      (dir (j % 3)).2 *
        (Real.cos (phX p dc (edgeAt m e)) * Real.sin (phY p dc (edgeAt m e)) *
          (Real.cos (th p * (DX j - DX (e % 3))) * Real.cos (th p * (DY j - DY (e % 3)))) -
         Real.sin (phX p dc (edgeAt m e)) * Real.cos (phY p dc (edgeAt m e)) *
          (Real.sin (th p * (DX j - DX (e % 3))) * Real.sin (th p * (DY j - DY (e % 3)))))) := by
  have hnx := h.valid.nx_pos
  have hc := isCell_edge h0 h1
  have hc0 : IsCell p.nx p.ny (coe p.nx p.ny e 0) := coe_isCell hnx h0 h1
  have hN := normal_eq h.valid hb h0 h1
  have key : ∀ φ : ℝ × ℝ → ℝ, Periodic2 (periodX p.nx dc) (periodY p.ny dc) φ →
      φ (cellAt m (e / 3) + (dc / 2) • dir j) =
        φ (edgeAt m e - (dc / 2) • dir (e % 3) + (dc / 2) • dir j) ∧
      φ (cellAt m (coe p.nx p.ny e 0) + (dc / 2) • dir ((j + 3) % 6)) =
        φ (edgeAt m e + (dc / 2) • dir (e % 3) - (dc / 2) • dir j) := by
    intro φ hφ
    have hs : ∀ w : ℝ × ℝ, Periodic2 (periodX p.nx dc) (periodY p.ny dc) (fun x => φ (x + w)) := by
      rintro ⟨w1, w2⟩
      constructor
      · intro x y
        simpa [add_right_comm] using hφ.1 (x + w1) (y + w2)
      · intro x y
        simpa [add_right_comm] using hφ.2 (x + w1) (y + w2)
    have k1 := (cells_of_edge h.valid h.even_y hb (hs ((dc / 2) • dir j)) h0 h1).2
    have k0 := (cells_of_edge h.valid h.even_y hb (hs ((dc / 2) • dir ((j + 3) % 6))) h0 h1).1
    rw [coe_one] at k1
    rw [k0, k1, dir_opp6 a b, hN, smul_neg, smul_neg, ← sub_eq_add_neg, sub_neg_eq_add, ← sub_eq_add_neg]
    exact ⟨rfl, rfl⟩
  have F := fun c hc j h0 h6 => flow_E h.valid h.even_y hb (opU_per h.px h.py) (opW_per h.px h.py)
    (c := c) hc (j := j) h0 h6
  rw [F _ hc j a b, F _ hc0 ((j + 3) % 6) (by omega) (by omega),
    show (j + 3) % 6 % 3 = j % 3 by omega, (key _ (opU_per h.px h.py)).1, (key _ (opU_per h.px h.py)).2,
    (key _ (opW_per h.px h.py)).1, (key _ (opW_per h.px h.py)).2]
  have s : ∀ z, opU (periodX p.nx dc) (periodY p.ny dc) z =
    Real.sin (phX p dc z) * Real.cos (phY p dc z) := fun z => rfl
  have s' : ∀ z, opW (periodX p.nx dc) (periodY p.ny dc) z =
    Real.cos (phX p dc z) * Real.sin (phY p dc z) := fun z => rfl
  rw [s, s, s', s', h.shiftX, h.shiftY, h.unshiftX, h.unshiftY, h.unshiftX, h.unshiftY, h.shiftX,
    h.shiftY]
  generalize phX p dc (edgeAt m e) = x
  generalize phY p dc (edgeAt m e) = y
  rw [show x - th p * DX (e % 3) + th p * DX j = x + th p * (DX j - DX (e % 3)) by ring,
    show y - th p * DY (e % 3) + th p * DY j = y + th p * (DY j - DY (e % 3)) by ring,
    show x + th p * DX (e % 3) - th p * DX j = x - th p * (DX j - DX (e % 3)) by ring,
    show y + th p * DY (e % 3) - th p * DY j = y - th p * (DY j - DY (e % 3)) by ring]
  simp only [Real.sin_add, Real.cos_add, Real.sin_sub, Real.cos_sub]
  ring

theorem recon_error (h : Sq p dc) (hb : Built p dc m) {e : Int} (h0 : 0 ≤ e) (h1 : e < p.dims.nedges) :
    Spec.tang m (normalOf m (opU (periodX p.nx dc) (periodY p.ny dc))
        (opW (periodX p.nx dc) (periodY p.ny dc))) e -
      tangentOf m (opU (periodX p.nx dc) (periodY p.ny dc)) (opW (periodX p.nx dc) (periodY p.ny dc)) e =
    (if e % 3 = 0 then -ampR (th p) else if e % 3 = 1 then -ampQ (th p) else ampQ (th p)) *
        (Real.cos (phX p dc (edgeAt m e)) * Real.sin (phY p dc (edgeAt m e))) +
      (if e % 3 = 0 then 0 else ampP (th p)) *
        (Real.sin (phX p dc (edgeAt m e)) * Real.cos (phY p dc (edgeAt m e))) := by
  have hw := w_pos
  have hnx := h.valid.nx_pos
  have hdc := h.pos
  have hc := isCell_edge h0 h1
  have hN := normal_eq h.valid hb h0 h1
  have hex : tangentOf m (opU (periodX p.nx dc) (periodY p.ny dc))
      (opW (periodX p.nx dc) (periodY p.ny dc)) e =
      (dir (e % 3)).2 * (Real.sin (phX p dc (edgeAt m e)) * Real.cos (phY p dc (edgeAt m e))) -
      (dir (e % 3)).1 * (Real.cos (phX p dc (edgeAt m e)) * Real.sin (phY p dc (edgeAt m e))) := by
    unfold tangentOf; rw [hN]; simp [opU, opW, phX, phY]; ring
  rw [spec_tang (hb.geo h.valid hdc) _ h0 h1, hex]
  have Q0 := pair_edges h hb h0 h1 (j := 0) (by omega) (by omega)
  have Q1 := pair_edges h hb h0 h1 (j := 1) (by omega) (by omega)
  have Q2 := pair_edges h hb h0 h1 (j := 2) (by omega) (by omega)
  have Q3 := pair_edges h hb h0 h1 (j := 3) (by omega) (by omega)
  have Q4 := pair_edges h hb h0 h1 (j := 4) (by omega) (by omega)
  have Q5 := pair_edges h hb h0 h1 (j := 5) (by omega) (by omega)
  generalize phX p dc (edgeAt m e) = x at *
  generalize phY p dc (edgeAt m e) = y at *
  generalize th p = t at *
  generalize normalOf m (opU (periodX p.nx dc) (periodY p.ny dc))
    (opW (periodX p.nx dc) (periodY p.ny dc)) = N at *
  unfold Tn
  rw [Tw_eq hnx _ hc]
  unfold Tq
  have i3 : (1 / √3 : ℝ) = √3 / 3 := by
    rw [div_eq_div_iff hw.ne' (by norm_num)]; linear_combination (-1) * w_sq
  rw [i3]
  have c1 : Real.cos (t / 2) * Real.cos t = (Real.cos (t / 2) + Real.cos (3 * t / 2)) / 2 := by
    have := cos_half3 t
    have h2 : Real.cos (t / 2) = Real.cos t * Real.cos (t / 2) + Real.sin t * Real.sin (t / 2) := by
      rw [← Real.cos_sub]; ring_nf
    linarith
  have s1 : Real.sin (t / 2) * Real.sin t = (Real.cos (t / 2) - Real.cos (3 * t / 2)) / 2 := by
    have := cos_half3 t
    have h2 : Real.cos (t / 2) = Real.cos t * Real.cos (t / 2) + Real.sin t * Real.sin (t / 2) := by
      rw [← Real.cos_sub]; ring_nf
    linarith
  have c3 : Real.cos (3 * t / 2) * Real.cos t = (Real.cos (t / 2) + Real.cos (5 * t / 2)) / 2 := by
    have := cos_half5 t
    have := cos_half1 t
    linarith
  have s3 : Real.sin (3 * t / 2) * Real.sin t = (Real.cos (t / 2) - Real.cos (5 * t / 2)) / 2 := by
    have := cos_half5 t
    have := cos_half1 t
    linarith
  have a1 : t * (1 / 2) = t / 2 := by ring
  have a3 : t * (3 / 2) = 3 * t / 2 := by ring
  have a2 : t * 2 = 2 * t := by ring
  have sq3 : √3 ^ 2 = (3 : ℝ) := Real.sq_sqrt (by norm_num)
  unfold ampR ampP ampQ
  obtain q | q | q : e % 3 = 0 ∨ e % 3 = 1 ∨ e % 3 = 2 := by omega
  · simp only [q, dir, DX, DY] at Q1 Q2 Q4 Q5 ⊢
    norm_num at Q1 Q2 Q4 Q5
    simp only [a1, a3, c1, s1, c3, s3] at Q1 Q2 Q4 Q5
    norm_num [wRaw, Q1, Q2, Q4, Q5]
    ring_nf
    simp only [sq3]
    ring
  · simp only [q, dir, DX, DY] at Q0 Q2 Q3 Q5 ⊢
    norm_num at Q0 Q2 Q3 Q5
    simp only [a1, a3, a2, c1, s1, c3, s3] at Q0 Q2 Q3 Q5
    norm_num [wRaw, Q0, Q2, Q3, Q5]
    ring_nf
    simp only [sq3]
    ring
  · simp only [q, dir, DX, DY] at Q0 Q1 Q3 Q4 ⊢
    norm_num at Q0 Q1 Q3 Q4
    simp only [a1, a3, a2, c1, s1, c3, s3] at Q0 Q1 Q3 Q4
    norm_num [wRaw, Q0, Q1, Q3, Q4]
    ring_nf
    simp only [sq3]
    ring

/-! ### Sizes of the amplitudes -/

theorem ampA_eq (t : ℝ) : ampA t =
    ((3 * t / 2 - Real.sin (3 * t / 2)) - (t / 2 - Real.sin (t / 2))) / 2 := by
  have h2 : Real.sin (t / 2) = Real.sin t * Real.cos (t / 2) - Real.cos t * Real.sin (t / 2) := by
    rw [← Real.sin_sub]; ring_nf
  unfold ampA
  linarith [sin_half3 t]

theorem ampB_eq (t : ℝ) : ampB t =
    ((3 * t / 2 - Real.sin (3 * t / 2)) + (t / 2 - Real.sin (t / 2))) / 2 := by
  have h2 : Real.sin (t / 2) = Real.sin t * Real.cos (t / 2) - Real.cos t * Real.sin (t / 2) := by
    rw [← Real.sin_sub]; ring_nf
  unfold ampB
  linarith [sin_half3 t]

/-- Sizes used below; `131/2000` is an upper bound of `π / 48`. -/
theorem small_pow {t : ℝ} (h0 : 0 ≤ t) (h1 : t ≤ 131 / 2000) :
    t ^ 2 ≤ 43 / 10000 ∧ t ^ 3 ≤ 131 / 2000 * t ^ 2 ∧ t ^ 4 ≤ 43 / 10000 * t ^ 2 ∧
      t ^ 5 ≤ 43 / 10000 * t ^ 3 := by
  have h2 : t ^ 2 ≤ 43 / 10000 := by nlinarith
  refine ⟨h2, ?_, ?_, ?_⟩
  · nlinarith [sq_nonneg t]
  · nlinarith [sq_nonneg t]
  · have : 0 ≤ t ^ 3 := by positivity
    nlinarith

theorem ampA_bounds {t : ℝ} (h0 : 0 ≤ t) (h1 : t ≤ 131 / 2000) :
    (13 / 48 - 1 / 5000) * t ^ 3 ≤ ampA t ∧ ampA t ≤ (13 / 48 + 1 / 5000) * t ^ 3 := by
  obtain ⟨a1, a2⟩ := sub_sin_bounds (x := 3 * t / 2) (by positivity)
  obtain ⟨b1, b2⟩ := sub_sin_bounds (x := t / 2) (by positivity)
  obtain ⟨-, -, -, h5⟩ := small_pow h0 h1
  rw [ampA_eq]
  ring_nf at a1 a2 b1 b2 h5 ⊢
  constructor <;> linarith

theorem ampB_bounds {t : ℝ} (h0 : 0 ≤ t) (h1 : t ≤ 131 / 2000) :
    (7 / 24 - 1 / 5000) * t ^ 3 ≤ ampB t ∧ ampB t ≤ 7 / 24 * t ^ 3 := by
  obtain ⟨a1, a2⟩ := sub_sin_bounds (x := 3 * t / 2) (by positivity)
  obtain ⟨b1, b2⟩ := sub_sin_bounds (x := t / 2) (by positivity)
  obtain ⟨-, -, -, h5⟩ := small_pow h0 h1
  rw [ampB_eq]
  ring_nf at a1 a2 b1 b2 h5 ⊢
  constructor <;> linarith

theorem g_bounds {t : ℝ} (h0 : 0 ≤ t) (h1 : t ≤ 131 / 2000) :
    (1 / 6 - 1 / 5000) * t ^ 3 ≤ t - Real.sin t ∧ t - Real.sin t ≤ 1 / 6 * t ^ 3 := by
  obtain ⟨a1, a2⟩ := sub_sin_bounds h0
  obtain ⟨-, -, -, h5⟩ := small_pow h0 h1
  constructor <;> linarith

theorem s3_bounds : (1732 : ℝ) / 1000 ≤ √3 ∧ √3 ≤ 1733 / 1000 := by
  constructor
  · exact Real.le_sqrt_of_sq_le (by norm_num)
  · exact Real.sqrt_le_iff.2 ⟨by norm_num, by norm_num⟩

/-- leading coefficient of the error of the divergence -/
def kD : ℝ := 1 / 6 + 13 / 48 + 1 / 5000 + √3 * (7 / 24)

theorem ampD_bounds {t : ℝ} (h0 : 0 ≤ t) (h1 : t ≤ 131 / 2000) :
    99 / 100 * (kD * t ^ 3) ≤ ampD t ∧ ampD t ≤ kD * t ^ 3 := by
  obtain ⟨a1, a2⟩ := ampA_bounds h0 h1
  obtain ⟨b1, b2⟩ := ampB_bounds h0 h1
  obtain ⟨g1, g2⟩ := g_bounds h0 h1
  have hw := w_pos
  have c1 := mul_le_mul_of_nonneg_left b1 hw.le
  have c2 := mul_le_mul_of_nonneg_left b2 hw.le
  have p3 : 0 ≤ t ^ 3 := by positivity
  have q3 : 0 ≤ √3 * t ^ 3 := by positivity
  unfold ampD kD
  constructor <;> nlinarith

/-- leading coefficient of the error of the curl -/
def kS : ℝ := 2 / 9 + 1 / 4000 + 1 / 200 + (√3 - 1) * (25 / 144) - (1 + √3) / 144

theorem cos_pair (a b : ℝ) : Real.cos a * Real.cos b = (Real.cos (a + b) + Real.cos (a - b)) / 2 ∧
    Real.sin a * Real.sin b = (Real.cos (a - b) - Real.cos (a + b)) / 2 := by
  rw [Real.cos_add, Real.cos_sub]; constructor <;> ring
theorem sin_pair (a b : ℝ) : Real.sin a * Real.cos b = (Real.sin (a + b) + Real.sin (a - b)) / 2 ∧
    Real.cos a * Real.sin b = (Real.sin (a + b) - Real.sin (a - b)) / 2 := by
  rw [Real.sin_add, Real.sin_sub]; constructor <;> ring

theorem ampS_eq (t : ℝ) : ampS t = (1 - Real.cos (2 * t / 3)) +
    (√3 - 1) / 2 * (1 - Real.cos (5 * t / 6)) - (1 + √3) / 2 * (1 - Real.cos (t / 6)) := by
  obtain ⟨a, b⟩ := cos_pair (t / 2) (t / 3)
  rw [show t / 2 + t / 3 = 5 * t / 6 by ring, show t / 2 - t / 3 = t / 6 by ring] at a b
  unfold ampS
  rw [a, b]; ring

theorem ampT_eq (t : ℝ) : ampT t = -(2 * t / 3 - Real.sin (2 * t / 3)) +
    (√3 - 1) / 2 * (5 * t / 6 - Real.sin (5 * t / 6)) + (1 + √3) / 2 * (t / 6 - Real.sin (t / 6)) := by
  obtain ⟨a, b⟩ := sin_pair (t / 2) (t / 3)
  rw [show t / 2 + t / 3 = 5 * t / 6 by ring, show t / 2 - t / 3 = t / 6 by ring] at a b
  unfold ampT
  rw [a, b]; ring

theorem ampS_bounds {t : ℝ} (h0 : 0 ≤ t) (h1 : t ≤ 131 / 2000) :
    (kS - 1 / 200 - 1 / 1000) * t ^ 2 ≤ ampS t ∧ ampS t ≤ (kS - 1 / 200) * t ^ 2 := by
  obtain ⟨a1, a2⟩ := sub_cos_bounds (x := 2 * t / 3) (by positivity)
  obtain ⟨b1, b2⟩ := sub_cos_bounds (x := 5 * t / 6) (by positivity)
  obtain ⟨c1, c2⟩ := sub_cos_bounds (x := t / 6) (by positivity)
  obtain ⟨-, -, h4, -⟩ := small_pow h0 h1
  obtain ⟨l, u⟩ := s3_bounds
  have k1 : 0 ≤ (√3 - 1) / 2 := by linarith
  have k2 : 0 ≤ (1 + √3) / 2 := by linarith
  have b1' := mul_le_mul_of_nonneg_left b1 k1
  have b2' := mul_le_mul_of_nonneg_left b2 k1
  have c1' := mul_le_mul_of_nonneg_left c1 k2
  have c2' := mul_le_mul_of_nonneg_left c2 k2
  have p4 : 0 ≤ t ^ 4 := by positivity
  have u4 : √3 * t ^ 4 ≤ 1733 / 1000 * t ^ 4 := mul_le_mul_of_nonneg_right u p4
  have l4 : 1732 / 1000 * t ^ 4 ≤ √3 * t ^ 4 := mul_le_mul_of_nonneg_right l p4
  rw [ampS_eq]
  unfold kS
  ring_nf at *
  constructor <;> linarith

theorem ampT_bound {t : ℝ} (h0 : 0 ≤ t) (h1 : t ≤ 131 / 2000) : |ampT t| ≤ 1 / 200 * t ^ 2 := by
  obtain ⟨a1, a2⟩ := sub_sin_bounds (x := 2 * t / 3) (by positivity)
  obtain ⟨b1, b2⟩ := sub_sin_bounds (x := 5 * t / 6) (by positivity)
  obtain ⟨c1, c2⟩ := sub_sin_bounds (x := t / 6) (by positivity)
  obtain ⟨-, h3, -, h5⟩ := small_pow h0 h1
  obtain ⟨l, u⟩ := s3_bounds
  have p3 : 0 ≤ t ^ 3 := by positivity
  have g : ∀ x : ℝ, 0 ≤ x → 0 ≤ x - Real.sin x := fun x hx => by have := Real.sin_le hx; linarith
  have b0 := g (5 * t / 6) (by positivity)
  have c0 := g (t / 6) (by positivity)
  have a0 := g (2 * t / 3) (by positivity)
  have b3 : (√3 - 1) / 2 * (5 * t / 6 - Real.sin (5 * t / 6)) ≤ 1 / 2 * ((5 * t / 6) ^ 3 / 6) :=
    mul_le_mul (by linarith) b2 b0 (by norm_num)
  have c3 : (1 + √3) / 2 * (t / 6 - Real.sin (t / 6)) ≤ 3 / 2 * ((t / 6) ^ 3 / 6) :=
    mul_le_mul (by linarith) c2 c0 (by norm_num)
  have b4 : 0 ≤ (√3 - 1) / 2 * (5 * t / 6 - Real.sin (5 * t / 6)) := mul_nonneg (by linarith) b0
  have c4 : 0 ≤ (1 + √3) / 2 * (t / 6 - Real.sin (t / 6)) := mul_nonneg (by linarith) c0
  rw [ampT_eq, abs_le]
  ring_nf at *
  constructor <;> linarith

/-- leading coefficient of the error of the reconstruction -/
def kR : ℝ := (1 / 2 + √3 / 18) / 8 + (1 / 3 - √3 / 9) * 9 / 8 + (1 / 6 + √3 / 18) * 25 / 8

theorem kR_bounds : 1 ≤ kR ∧ kR ≤ 11 / 10 := by
  obtain ⟨l, u⟩ := s3_bounds
  unfold kR
  constructor <;> linarith

theorem ampR_bounds {t : ℝ} (h0 : 0 ≤ t) (h1 : t ≤ 131 / 2000) :
    99 / 100 * (kR * t ^ 2) ≤ ampR t ∧ ampR t ≤ kR * t ^ 2 := by
  obtain ⟨a1, a2⟩ := sub_cos_bounds (x := t / 2) (by positivity)
  obtain ⟨b1, b2⟩ := sub_cos_bounds (x := 3 * t / 2) (by positivity)
  obtain ⟨c1, c2⟩ := sub_cos_bounds (x := 5 * t / 2) (by positivity)
  obtain ⟨-, -, h4, -⟩ := small_pow h0 h1
  obtain ⟨l, u⟩ := s3_bounds
  have k1 : 0 ≤ 1 / 2 + √3 / 18 := by linarith
  have k2 : 0 ≤ 1 / 3 - √3 / 9 := by linarith
  have k3 : 0 ≤ 1 / 6 + √3 / 18 := by linarith
  have a1' := mul_le_mul_of_nonneg_right a1 k1
  have a2' := mul_le_mul_of_nonneg_right a2 k1
  have b1' := mul_le_mul_of_nonneg_right b1 k2
  have b2' := mul_le_mul_of_nonneg_right b2 k2
  have c1' := mul_le_mul_of_nonneg_right c1 k3
  have c2' := mul_le_mul_of_nonneg_right c2 k3
  have p4 : 0 ≤ t ^ 4 := by positivity
  have p2 : 0 ≤ t ^ 2 := by positivity
  have u4 : √3 * t ^ 4 ≤ 1733 / 1000 * t ^ 4 := mul_le_mul_of_nonneg_right u p4
  have l4 : 1732 / 1000 * t ^ 4 ≤ √3 * t ^ 4 := mul_le_mul_of_nonneg_right l p4
  have u2 : √3 * t ^ 2 ≤ 1733 / 1000 * t ^ 2 := mul_le_mul_of_nonneg_right u p2
  have l2 : 1732 / 1000 * t ^ 2 ≤ √3 * t ^ 2 := mul_le_mul_of_nonneg_right l p2
  unfold ampR kR
  ring_nf at *
  constructor <;> linarith

theorem ampP_bounds {t : ℝ} (h0 : 0 ≤ t) (h1 : t ≤ 131 / 2000) :
    0 ≤ ampP t ∧ ampP t ≤ 9 / 10 * t ^ 2 := by
  obtain ⟨a1, a2⟩ := sub_cos_bounds (x := t / 2) (by positivity)
  obtain ⟨b1, b2⟩ := sub_cos_bounds (x := 3 * t / 2) (by positivity)
  obtain ⟨c1, c2⟩ := sub_cos_bounds (x := 5 * t / 2) (by positivity)
  obtain ⟨d1, d2⟩ := sub_cos_bounds (x := t) h0
  obtain ⟨e1, e2⟩ := sub_cos_bounds (x := 2 * t) (by positivity)
  have g : ∀ x : ℝ, 0 ≤ 1 - Real.cos x := fun x => by have := Real.cos_le_one x; linarith
  obtain ⟨l, u⟩ := s3_bounds
  have p2 : 0 ≤ t ^ 2 := by positivity
  have i0 : 0 ≤ (1 - Real.cos t) / 3 + (1 - Real.cos (2 * t)) / 6 + (1 - Real.cos (t / 2)) / 2 +
    (1 - Real.cos (3 * t / 2)) / 3 + (1 - Real.cos (5 * t / 2)) / 6 := by
    linarith [g t, g (2 * t), g (t / 2), g (3 * t / 2), g (5 * t / 2)]
  have i1 : (1 - Real.cos t) / 3 + (1 - Real.cos (2 * t)) / 6 + (1 - Real.cos (t / 2)) / 2 +
    (1 - Real.cos (3 * t / 2)) / 3 + (1 - Real.cos (5 * t / 2)) / 6 ≤ 35 / 24 * t ^ 2 := by
    ring_nf at *; linarith
  unfold ampP
  constructor
  · positivity
  · calc _ ≤ 1733 / 3000 * (35 / 24 * t ^ 2) := mul_le_mul (by linarith) i1 i0 (by norm_num)
      _ ≤ _ := by nlinarith

theorem ampQ_bound {t : ℝ} (h0 : 0 ≤ t) (h1 : t ≤ 131 / 2000) : |ampQ t| ≤ 9 / 10 * t ^ 2 := by
  obtain ⟨a1, a2⟩ := sub_cos_bounds (x := t / 2) (by positivity)
  obtain ⟨b1, b2⟩ := sub_cos_bounds (x := 3 * t / 2) (by positivity)
  obtain ⟨c1, c2⟩ := sub_cos_bounds (x := 5 * t / 2) (by positivity)
  obtain ⟨d1, d2⟩ := sub_cos_bounds (x := t) h0
  obtain ⟨e1, e2⟩ := sub_cos_bounds (x := 2 * t) (by positivity)
  obtain ⟨-, -, h4, -⟩ := small_pow h0 h1
  have g : ∀ x : ℝ, 0 ≤ 1 - Real.cos x := fun x => by have := Real.cos_le_one x; linarith
  obtain ⟨l, u⟩ := s3_bounds
  have p2 : 0 ≤ t ^ 2 := by positivity
  set z := (1 - Real.cos (5 * t / 2)) / 2 + (1 - Real.cos (t / 2)) / 2 - (1 - Real.cos (3 * t / 2)) with hz
  have z1 : |z| ≤ 2 * t ^ 2 := by
    rw [abs_le]
    ring_nf at *
    constructor <;> linarith
  have z2 : |√3 / 9 * z| ≤ 1733 / 9000 * (2 * t ^ 2) := by
    rw [abs_mul, abs_of_nonneg (by positivity)]
    exact mul_le_mul (by linarith) z1 (abs_nonneg _) (by norm_num)
  have y1 : |(1 - Real.cos t) / 3 + (1 - Real.cos (2 * t)) / 6| ≤ t ^ 2 / 2 := by
    rw [abs_of_nonneg (by linarith [g t, g (2 * t)])]
    ring_nf at *; linarith
  unfold ampQ
  rw [← hz]
  refine (abs_sub _ _).trans ?_
  linarith

/-! ### Brackets of the four errors -/

theorem IsMaxOf.le {n : Int} {f : Int → ℝ} {v U : ℝ} (h : IsMaxOf n f v)
    (hU : ∀ i, 0 ≤ i → i < n → f i ≤ U) : v ≤ U := by
  obtain ⟨i, hi, rfl⟩ := h.1
  exact hU i hi.1 hi.2
theorem IsMaxOf.ge {n : Int} {f : Int → ℝ} {v : ℝ} (h : IsMaxOf n f v) {i : Int} (h0 : 0 ≤ i)
    (h1 : i < n) : f i ≤ v := h.2 ⟨i, ⟨h0, h1⟩, rfl⟩

theorem cs_le_one (x y : ℝ) :
    |Real.cos x * Real.sin y| + |Real.sin x * Real.cos y| ≤ 1 := by
  rw [abs_mul, abs_mul]
  have := Real.sin_sq_add_cos_sq x
  have := Real.sin_sq_add_cos_sq y
  nlinarith [sq_nonneg (|Real.cos x| - |Real.sin y|), sq_nonneg (|Real.sin x| - |Real.cos y|),
    sq_abs (Real.cos x), sq_abs (Real.sin x), sq_abs (Real.cos y), sq_abs (Real.sin y)]

theorem lin_le {x y a b M : ℝ} (ha : |a| ≤ M) (hb : |b| ≤ M) :
    |a * (Real.cos x * Real.sin y) + b * (Real.sin x * Real.cos y)| ≤ M := by
  refine (abs_add_le _ _).trans ?_
  rw [abs_mul a, abs_mul b]
  have := cs_le_one x y
  have hM := (abs_nonneg a).trans ha
  nlinarith [mul_le_mul_of_nonneg_right ha (abs_nonneg (Real.cos x * Real.sin y)),
    mul_le_mul_of_nonneg_right hb (abs_nonneg (Real.sin x * Real.cos y)),
    mul_le_mul_of_nonneg_left this hM]

theorem Sq.half_pi (h : Sq p dc) : Real.pi / 2 = th p * p.nx / 2 := by
  have := h.n_pos
  unfold th; field_simp

theorem grad_le (h : Sq p dc) (ht : th p ≤ 131 / 2000) (hb : Built p dc m) {eg ed ec er : ℝ}
    (E : OperatorErrors p (periodX p.nx dc) (periodY p.ny dc) m eg ed ec er) :
    eg ≤ 2 / dc * ampB (th p) := by
  refine E.grad.le fun e h0 h1 => ?_
  have hdc := h.pos
  have t0 := h.th_pos.le
  rw [grad_error h hb h0 h1, abs_mul, abs_of_pos (by positivity)]
  refine mul_le_mul_of_nonneg_left ?_ (by positivity)
  obtain ⟨a1, a2⟩ := ampA_bounds t0 ht
  obtain ⟨b1, b2⟩ := ampB_bounds t0 ht
  obtain ⟨g1, g2⟩ := g_bounds t0 ht
  have p3 : 0 ≤ th p ^ 3 := by positivity
  generalize th p = t at *
  have x1 : t * (-1 / 2) = -(t / 2) := by ring
  have x2 : t * (1 / 2) = t / 2 := by ring
  have eA : -(t / 2) - -Real.sin (t / 2) * Real.cos t = -ampA t := by unfold ampA; ring
  have eB : -t - Real.cos (t / 2) * -Real.sin t = -ampB t := by unfold ampB; ring
  have eA' : t / 2 - Real.sin (t / 2) * Real.cos t = ampA t := rfl
  have hA : |ampA t| ≤ ampB t := by rw [abs_of_nonneg] <;> linarith
  have hB : |ampB t| ≤ ampB t := by rw [abs_of_nonneg] ; linarith
  obtain q | q | q : e % 3 = 0 ∨ e % 3 = 1 ∨ e % 3 = 2 := by omega
  · simp only [q, DX, DY]
    norm_num
    have := lin_le (x := phX p dc (edgeAt m e)) (y := phY p dc (edgeAt m e)) (a := -t + Real.sin t)
      (b := 0) (M := ampB t) (by rw [abs_of_nonpos (by linarith)]; linarith) (by
        rw [abs_zero]; linarith)
    simpa using this
  · simp only [q, DX, DY]
    norm_num
    simp only [mul_one_div]
    refine le_trans (le_of_eq (congrArg abs ?_)) (lin_le (x := phX p dc (edgeAt m e))
      (y := phY p dc (edgeAt m e)) (a := -ampA t) (b := -ampB t) (M := ampB t) (by rwa [abs_neg])
      (by rwa [abs_neg]))
    unfold ampA ampB
    ring
  · simp only [q, DX, DY]
    norm_num
    simp only [x2]
    refine le_trans (le_of_eq (congrArg abs ?_)) (lin_le (x := phX p dc (edgeAt m e))
      (y := phY p dc (edgeAt m e)) (a := ampA t) (b := -ampB t) (M := ampB t) hA
      (by rwa [abs_neg]))
    unfold ampA ampB
    ring

/-- the phases at the edge of the second direction in the first row -/
theorem grad_point (h : Sq p dc) (hb : Built p dc m) {i : Int} (i0 : 0 ≤ i) (i1 : i < p.nx) :
    phX p dc (edgeAt m (3 * i + 1)) = th p * (2 * i + 1 / 2) ∧
    phY p dc (edgeAt m (3 * i + 1)) = th p := by
  have hm := hb.hex h.valid
  have hdc := h.pos
  have hw := w_pos
  have hn := h.valid.nx_pos
  have hr : 3 * i + 1 < p.dims.nedges := by
    show _ < 3 * (p.nx * p.ny); rw [h.square]; nlinarith
  have e1 : (3 * i + 1) % 3 = 1 := by omega
  have e2 : (3 * i + 1) / 3 = i := by omega
  have r0 : Hex.row p.nx i = 0 := Int.ediv_eq_zero_of_lt i0 i1
  have c0 : Hex.col p.nx i = i := Int.emod_eq_of_lt i0 i1
  rw [h.phX_eq, h.phY_eq]
  unfold edgeAt
  rw [hm.x_edge _ (by omega) hr, hm.y_edge _ (by omega) hr]
  simp [xE, yE, e1, e2, xC, yC, r0, c0]
  constructor
  · field_simp; ring
  · field_simp; ring

theorem cos_two_halves {t : ℝ} (h0 : 0 ≤ t) (h1 : t ≤ 131 / 2000) : 99 / 100 ≤ Real.cos (3 * t / 2) := by
  obtain ⟨-, a⟩ := sub_cos_bounds (x := 3 * t / 2) (by positivity)
  obtain ⟨h2, -⟩ := small_pow h0 h1
  nlinarith

theorem grad_ge (h : Sq p dc) (ht : th p ≤ 131 / 2000) (hb : Built p dc m) {eg ed ec er : ℝ}
    (E : OperatorErrors p (periodX p.nx dc) (periodY p.ny dc) m eg ed ec er) :
    2 / dc * (ampB (th p) * (99 / 100)) ≤ eg := by
  have hdc := h.pos
  have hn := h.two
  have hev := h.even
  have t0 := h.th_pos.le
  have i0 : 0 ≤ p.nx / 4 := by omega
  have i1 : p.nx / 4 < p.nx := by omega
  obtain ⟨hX, hY⟩ := grad_point h hb i0 i1
  have hr : 3 * (p.nx / 4) + 1 < p.dims.nedges := by
    show _ < 3 * (p.nx * p.ny); rw [h.square]; nlinarith
  refine le_trans ?_ (E.grad.ge (i := 3 * (p.nx / 4) + 1) (by omega) hr)
  rw [grad_error h hb (by omega) hr, abs_mul, abs_of_pos (by positivity), hX, hY]
  refine mul_le_mul_of_nonneg_left ?_ (by positivity)
  have hpi := h.half_pi
  have hco := cos_two_halves t0 ht
  obtain ⟨a1, a2⟩ := ampA_bounds t0 ht
  obtain ⟨b1, b2⟩ := ampB_bounds t0 ht
  have p3 : 0 ≤ th p ^ 3 := by positivity
  have hs1 : 0 ≤ Real.sin (th p) := Real.sin_nonneg_of_nonneg_of_le_pi t0 (by linarith [Real.pi_gt_three])
  have hs2 : 0 ≤ Real.sin (th p / 2) :=
    Real.sin_nonneg_of_nonneg_of_le_pi (by positivity) (by linarith [Real.pi_gt_three])
  have hc3 := cos_half3 (th p)
  have e1 : (3 * (p.nx / 4) + 1) % 3 = 1 := by omega
  have key : ∀ x y : ℝ, |x| = Real.sin (th p / 2) → y = Real.cos (th p / 2) →
      ampB (th p) * (99 / 100) ≤ |-ampA (th p) * (x * Real.sin (th p)) +
        -ampB (th p) * (y * Real.cos (th p))| := by
    intro x y hx hy
    have k1 : |ampA (th p) * (x * Real.sin (th p))| ≤ ampB (th p) * (Real.sin (th p / 2) * Real.sin (th p)) := by
      rw [abs_mul, abs_mul, hx, abs_of_nonneg hs1, abs_of_nonneg (by nlinarith : 0 ≤ ampA (th p))]
      exact mul_le_mul_of_nonneg_right (by linarith) (by positivity)
    have k2 : ampB (th p) * (99 / 100) ≤ ampB (th p) * Real.cos (3 * th p / 2) :=
      mul_le_mul_of_nonneg_left hco (by nlinarith)
    rw [hc3] at k2
    rw [hy, ← abs_neg]
    refine le_trans ?_ (le_abs_self _)
    have := (abs_le.1 k1).1
    nlinarith
  have x1 : th p * (-1 / 2) = -(th p / 2) := by ring
  have main : ∀ X : ℝ, |Real.cos X| = Real.sin (th p / 2) → Real.sin X = Real.cos (th p / 2) →
      ampB (th p) * (99 / 100) ≤ |(th p * DX ((3 * (p.nx / 4) + 1) % 3) -
        Real.sin (th p * DX ((3 * (p.nx / 4) + 1) % 3)) * Real.cos (th p * DY ((3 * (p.nx / 4) + 1) % 3))) *
        (Real.cos X * Real.sin (th p)) + (th p * DY ((3 * (p.nx / 4) + 1) % 3) -
        Real.cos (th p * DX ((3 * (p.nx / 4) + 1) % 3)) * Real.sin (th p * DY ((3 * (p.nx / 4) + 1) % 3))) *
        (Real.sin X * Real.cos (th p))| := by
    intro X hx hy
    refine (key _ _ hx hy).trans (le_of_eq (congrArg abs ?_))
    rw [e1]
    simp only [DX, DY]
    norm_num
    simp only [mul_one_div]
    unfold ampA ampB
    ring
  obtain q | q : p.nx = 4 * (p.nx / 4) ∨ p.nx = 4 * (p.nx / 4) + 2 := by omega
  · have : (p.nx : ℝ) = 4 * ((p.nx / 4 : Int) : ℝ) := by exact_mod_cast q
    have hx : th p * (2 * ((p.nx / 4 : Int) : ℝ) + 1 / 2) = th p / 2 + Real.pi / 2 := by
      rw [hpi, this]; ring
    rw [hx]
    refine main _ ?_ ?_
    · rw [Real.cos_add_pi_div_two, abs_neg, abs_of_nonneg hs2]
    · rw [Real.sin_add_pi_div_two]
  · have : (p.nx : ℝ) = 4 * ((p.nx / 4 : Int) : ℝ) + 2 := by exact_mod_cast q
    have hx : th p * (2 * ((p.nx / 4 : Int) : ℝ) + 1 / 2) = Real.pi / 2 - th p / 2 := by
      rw [hpi, this]; ring
    rw [hx]
    refine main _ ?_ ?_
    · rw [Real.cos_pi_div_two_sub, abs_of_nonneg hs2]
    · rw [Real.sin_pi_div_two_sub]

theorem div_le_amp (h : Sq p dc) (ht : th p ≤ 131 / 2000) (hb : Built p dc m) {eg ed ec er : ℝ}
    (E : OperatorErrors p (periodX p.nx dc) (periodY p.ny dc) m eg ed ec er) :
    ed = 4 / (3 * dc) * ampD (th p) := by
  have hdc := h.pos
  have hw := w_pos
  have t0 := h.th_pos.le
  have hm := hb.hex h.valid
  obtain ⟨d1, -⟩ := ampD_bounds t0 ht
  have hD : 0 ≤ 4 / (3 * dc) * ampD (th p) := by
    refine mul_nonneg (by positivity) (le_trans ?_ d1)
    unfold kD; positivity
  apply le_antisymm
  · refine E.div.le fun c h0 h1 => ?_
    rw [div_error h hb h0 h1, abs_mul, abs_neg, abs_of_nonneg hD]
    refine mul_le_of_le_one_right hD ?_
    rw [abs_mul]
    exact mul_le_one₀ (Real.abs_cos_le_one _) (abs_nonneg _) (Real.abs_cos_le_one _)
  · have hn := h.two
    have hs := h.square
    have hN : 1 ≤ p.nx * p.ny := by rw [hs]; nlinarith
    have hr : p.nx * p.ny - 1 < p.dims.ncells := by show _ < p.nx * p.ny; omega
    refine le_trans (le_of_eq ?_) (E.div.ge (i := p.nx * p.ny - 1) (by omega) hr)
    have r0 : Hex.row p.nx (p.nx * p.ny - 1) = p.ny - 1 := by
      unfold Hex.row
      rw [show p.nx * p.ny - 1 = (p.nx - 1) + p.nx * (p.ny - 1) by ring,
        Int.add_mul_ediv_left _ _ (by omega), Int.ediv_eq_zero_of_lt (by omega) (by omega)]
      ring
    have c0 : Hex.col p.nx (p.nx * p.ny - 1) = p.nx - 1 := by
      unfold Hex.col
      rw [show p.nx * p.ny - 1 = (p.nx - 1) + p.nx * (p.ny - 1) by ring,
        Int.add_mul_emod_self_left, Int.emod_eq_of_lt (by omega) (by omega)]
    have r1 : ¬ (p.ny - 1) % 2 = 0 := by have := h.even_y; omega
    have np := h.n_pos
    have hX : phX p dc (cellAt m (p.nx * p.ny - 1)) = 2 * Real.pi := by
      unfold phX cellAt
      rw [hm.x_cell _ ⟨by omega, hr⟩, periodX_real]
      simp only [xC, r0, c0, r1, if_false, lit_real]
      push_cast
      rw [show dc * ((p.nx : ℝ) - 1 + 1) = p.nx * dc by ring]
      field_simp
    have hY : phY p dc (cellAt m (p.nx * p.ny - 1)) = 2 * Real.pi := by
      unfold phY cellAt
      rw [hm.y_cell _ ⟨by omega, hr⟩, periodY_real]
      simp only [yC, r0, lit_real, sqrt_real]
      push_cast
      have : (0 : ℝ) < p.ny := by rw [hs]; exact np
      rw [show dc * ((p.ny : ℝ) - 1 + 1) * √3 / 2 = p.ny * dc * √3 / 2 by ring]
      field_simp
    rw [div_error h hb (by omega) hr, hX, hY, Real.cos_two_pi]
    rw [mul_one, mul_one, abs_neg, abs_of_nonneg hD]

theorem kS_bounds : 34 / 100 - 1 / 100 ≤ kS ∧ kS ≤ 34 / 100 := by
  obtain ⟨l, u⟩ := s3_bounds
  unfold kS
  constructor <;> linarith

theorem curl_le (h : Sq p dc) (ht : th p ≤ 131 / 2000) (hb : Built p dc m) {eg ed ec er : ℝ}
    (E : OperatorErrors p (periodX p.nx dc) (periodY p.ny dc) m eg ed ec er) :
    ec ≤ 4 / (dc * √3) * (kS * th p ^ 2) := by
  have hdc := h.pos
  have hw := w_pos
  have t0 := h.th_pos.le
  obtain ⟨s1, s2⟩ := ampS_bounds t0 ht
  have b := ampT_bound t0 ht
  have p2 : 0 ≤ th p ^ 2 := by positivity
  obtain ⟨k1, k2⟩ := kS_bounds
  have sp : 0 ≤ ampS (th p) := by refine le_trans ?_ s1; exact mul_nonneg (by linarith) p2
  refine E.curl.le fun v h0 h1 => ?_
  rw [curl_error h hb h0 h1, abs_mul, abs_of_pos (by positivity)]
  refine mul_le_mul_of_nonneg_left ?_ (by positivity)
  rw [abs_mul]
  have e1 : |ampT (th p) * Real.sin (phY p dc (vertAt m v)) -
      (if v % 2 = 0 then 1 else -1) * ampS (th p) * Real.cos (phY p dc (vertAt m v))| ≤ kS * th p ^ 2 := by
    refine (abs_sub _ _).trans ?_
    have x1 : |ampT (th p) * Real.sin (phY p dc (vertAt m v))| ≤ 1 / 200 * th p ^ 2 := by
      rw [abs_mul]
      exact (mul_le_of_le_one_right (abs_nonneg _) (Real.abs_sin_le_one _)).trans b
    have x2 : |(if v % 2 = 0 then 1 else -1) * ampS (th p) * Real.cos (phY p dc (vertAt m v))| ≤
        (kS - 1 / 200) * th p ^ 2 := by
      rw [abs_mul, abs_mul, show |if v % 2 = 0 then (1:ℝ) else -1| = 1 by split_ifs <;> simp, one_mul,
        abs_of_nonneg sp]
      exact (mul_le_of_le_one_right sp (Real.abs_cos_le_one _)).trans s2
    linarith
  calc _ ≤ 1 * (kS * th p ^ 2) :=
      mul_le_mul (Real.abs_sin_le_one _) e1 (abs_nonneg _) (by norm_num)
    _ = _ := one_mul _

theorem cos_ge {t x : ℝ} (h0 : 0 ≤ t) (h1 : t ≤ 131 / 2000) (hx : |x| ≤ t) : 997 / 1000 ≤ Real.cos x := by
  have a := Real.one_sub_sq_div_two_le_cos (x := x)
  obtain ⟨h2, -⟩ := small_pow h0 h1
  have : x ^ 2 ≤ t ^ 2 := by rw [← sq_abs]; exact pow_le_pow_left₀ (abs_nonneg _) hx 2
  linarith

theorem curl_ge (h : Sq p dc) (ht : th p ≤ 131 / 2000) (hb : Built p dc m) {eg ed ec er : ℝ}
    (E : OperatorErrors p (periodX p.nx dc) (periodY p.ny dc) m eg ed ec er) :
    4 / (dc * √3) * (31 / 32 * (kS * th p ^ 2)) ≤ ec := by
  have hdc := h.pos
  have hw := w_pos
  have t0 := h.th_pos.le
  have hn := h.two
  have hs := h.square
  have hm := hb.hex h.valid
  obtain ⟨s1, s2⟩ := ampS_bounds t0 ht
  have b := ampT_bound t0 ht
  have p2 : 0 ≤ th p ^ 2 := by positivity
  obtain ⟨k1, k2⟩ := kS_bounds
  set i := p.nx / 4 with hi
  set c := p.nx * (p.ny - 1) + i with hc
  have i0 : 0 ≤ i := by omega
  have i1 : i < p.nx := by omega
  have c0 : 0 ≤ c := by have : 0 ≤ p.nx * (p.ny - 1) := mul_nonneg (by omega) (by omega); omega
  have hr : 2 * c < p.dims.nvertices := by
    show _ < 2 * (p.nx * p.ny)
    rw [hc, mul_sub]; omega
  have e1 : 2 * c / 2 = c := by omega
  have e2 : (2 * c) % 2 = 0 := by omega
  have r0 : Hex.row p.nx c = p.ny - 1 := by
    unfold Hex.row
    rw [hc, add_comm, Int.add_mul_ediv_left _ _ (by omega), Int.ediv_eq_zero_of_lt i0 i1, zero_add]
  have cc : Hex.col p.nx c = i := by
    unfold Hex.col
    rw [hc, add_comm, Int.add_mul_emod_self_left, Int.emod_eq_of_lt i0 i1]
  have r1 : ¬ (p.ny - 1) % 2 = 0 := by have := h.even_y; omega
  have np := h.n_pos
  have hX : phX p dc (vertAt m (2 * c)) = th p * (2 * i + 1) := by
    rw [h.phX_eq]
    unfold vertAt
    rw [hm.x_vertex _ (by omega) hr]
    simp only [xV, e1, xC, r0, cc, r1, if_false, lit_real]
    push_cast
    field_simp
    ring
  have hY : phY p dc (vertAt m (2 * c)) = 2 * th p / 3 + 2 * Real.pi := by
    rw [h.phY_eq]
    unfold vertAt
    rw [hm.y_vertex _ (by omega) hr]
    simp only [yV, e1, e2, yC, r0, if_true, lit_real, sqrt_real]
    push_cast
    have : 2 * Real.pi = 2 * th p * p.ny := by rw [hs]; unfold th; field_simp
    rw [this]
    field_simp
    ring
  refine le_trans ?_ (E.curl.ge (i := 2 * c) (by omega) hr)
  rw [curl_error h hb (by omega) hr, abs_mul, abs_of_pos (by positivity), hX, hY]
  refine mul_le_mul_of_nonneg_left ?_ (by positivity)
  rw [Real.sin_add_two_pi, Real.cos_add_two_pi, if_pos e2, one_mul]
  have hsin : 997 / 1000 ≤ Real.sin (th p * (2 * i + 1)) := by
    have hpi := h.half_pi
    rw [← Real.cos_pi_div_two_sub]
    refine cos_ge t0 ht ?_
    have hev := h.even
    obtain q | q : p.nx = 4 * i ∨ p.nx = 4 * i + 2 := by omega
    · have : (p.nx : ℝ) = 4 * (i : ℝ) := by exact_mod_cast q
      rw [hpi, this, show th p * (4 * (i : ℝ)) / 2 - th p * (2 * i + 1) = -th p by ring, abs_neg,
        abs_of_nonneg t0]
    · have : (p.nx : ℝ) = 4 * (i : ℝ) + 2 := by exact_mod_cast q
      rw [hpi, this, show th p * (4 * (i : ℝ) + 2) / 2 - th p * (2 * i + 1) = 0 by ring, abs_zero]
      exact t0
  have hcos : 997 / 1000 ≤ Real.cos (2 * th p / 3) :=
    cos_ge t0 ht (by rw [abs_of_nonneg (by positivity)]; linarith)
  have x1 : |ampT (th p) * Real.sin (2 * th p / 3)| ≤ 1 / 2000 * th p ^ 2 := by
    rw [abs_mul]
    have : |Real.sin (2 * th p / 3)| ≤ 1 / 10 := by
      rw [abs_of_nonneg (Real.sin_nonneg_of_nonneg_of_le_pi (by positivity)
        (by linarith [Real.pi_gt_three]))]
      exact (Real.sin_le (by positivity)).trans (by linarith)
    calc _ ≤ 1 / 200 * th p ^ 2 * (1 / 10) := mul_le_mul b this (abs_nonneg _) (by positivity)
      _ = _ := by ring
  have x2 : (kS - 1 / 200 - 1 / 1000) * th p ^ 2 * (997 / 1000) ≤ ampS (th p) * Real.cos (2 * th p / 3) :=
    mul_le_mul s1 hcos (by norm_num) (le_trans (mul_nonneg (by linarith) p2) s1)
  have x3 : (kS - 1 / 200 - 1 / 1000) * th p ^ 2 * (997 / 1000) - 1 / 2000 * th p ^ 2 ≤
      |ampT (th p) * Real.sin (2 * th p / 3) - ampS (th p) * Real.cos (2 * th p / 3)| := by
    rw [abs_sub_comm]
    refine le_trans ?_ (le_abs_self _)
    have := (abs_le.1 x1).2
    linarith
  rw [abs_mul, abs_of_nonneg (by linarith : 0 ≤ Real.sin (th p * (2 * i + 1)))]
  have x4 : 997 / 1000 * ((kS - 1 / 200 - 1 / 1000) * th p ^ 2 * (997 / 1000) - 1 / 2000 * th p ^ 2) ≤
      Real.sin (th p * (2 * i + 1)) *
        |ampT (th p) * Real.sin (2 * th p / 3) - ampS (th p) * Real.cos (2 * th p / 3)| :=
    mul_le_mul hsin x3 (by nlinarith) (by linarith)
  refine le_trans ?_ x4
  nlinarith [mul_nonneg (sub_nonneg.2 k1) p2, mul_nonneg (sub_nonneg.2 k2) p2]

theorem recon_le (h : Sq p dc) (ht : th p ≤ 131 / 2000) (hb : Built p dc m) {eg ed ec er : ℝ}
    (E : OperatorErrors p (periodX p.nx dc) (periodY p.ny dc) m eg ed ec er) :
    er ≤ kR * th p ^ 2 := by
  have t0 := h.th_pos.le
  obtain ⟨k1, k2⟩ := kR_bounds
  obtain ⟨r1, r2⟩ := ampR_bounds t0 ht
  obtain ⟨q1, q2⟩ := ampP_bounds t0 ht
  have q3 := ampQ_bound t0 ht
  have p2 : 0 ≤ th p ^ 2 := by positivity
  have k3 : 9 / 10 * th p ^ 2 ≤ kR * th p ^ 2 := mul_le_mul_of_nonneg_right (by linarith) p2
  have kp : 0 ≤ kR * th p ^ 2 := by linarith [mul_nonneg (by norm_num : (0:ℝ) ≤ 9 / 10) p2]
  refine E.recon.le fun e h0 h1 => ?_
  rw [recon_error h hb h0 h1]
  refine lin_le ?_ ?_
  · split_ifs
    · rw [abs_neg, abs_of_nonneg (by linarith)]; exact r2
    · rw [abs_neg]; linarith
    · linarith
  · split_ifs
    · rw [abs_zero]; exact kp
    · rw [abs_of_nonneg q1]; linarith

theorem recon_ge (h : Sq p dc) (ht : th p ≤ 131 / 2000) (hb : Built p dc m) {eg ed ec er : ℝ}
    (E : OperatorErrors p (periodX p.nx dc) (periodY p.ny dc) m eg ed ec er) :
    31 / 32 * (kR * th p ^ 2) ≤ er := by
  have hdc := h.pos
  have hw := w_pos
  have t0 := h.th_pos.le
  have hn := h.two
  have hs := h.square
  have hm := hb.hex h.valid
  obtain ⟨k1, k2⟩ := kR_bounds
  obtain ⟨r1, r2⟩ := ampR_bounds t0 ht
  have p2 : 0 ≤ th p ^ 2 := by positivity
  set r := p.nx / 4 with hrr
  set c := p.nx * r with hc
  have i0 : 0 ≤ r := by omega
  have i1 : r < p.ny := by omega
  have c0 : 0 ≤ c := mul_nonneg (by omega) i0
  have hr : 3 * c < p.dims.nedges := by
    show _ < 3 * (p.nx * p.ny)
    have : p.nx * r < p.nx * p.ny := mul_lt_mul_of_pos_left i1 (by omega)
    omega
  have e1 : 3 * c / 3 = c := by omega
  have e2 : (3 * c) % 3 = 0 := by omega
  have r0 : Hex.row p.nx c = r := by
    unfold Hex.row
    rw [hc, Int.mul_ediv_cancel_left _ (by omega)]
  have cc : Hex.col p.nx c = 0 := by
    unfold Hex.col
    rw [hc, Int.mul_emod_right]
  have np := h.n_pos
  have hX : phX p dc (edgeAt m (3 * c)) = 0 ∨ phX p dc (edgeAt m (3 * c)) = th p := by
    rw [h.phX_eq]
    unfold edgeAt
    rw [hm.x_edge _ (by omega) hr]
    simp only [xE, e1, e2, xC, r0, cc, if_true, lit_real]
    split_ifs
    · left; simp
    · right; push_cast; field_simp; ring
  have hY : phY p dc (edgeAt m (3 * c)) = th p * (2 * r + 2) := by
    rw [h.phY_eq]
    unfold edgeAt
    rw [hm.y_edge _ (by omega) hr]
    simp only [yE, e1, e2, yC, r0, if_true, lit_real, sqrt_real]
    push_cast
    field_simp
  refine le_trans ?_ (E.recon.ge (i := 3 * c) (by omega) hr)
  rw [recon_error h hb (by omega) hr, if_pos e2, if_pos e2, zero_mul, add_zero, abs_mul, abs_neg,
    abs_mul, hY]
  have hcos : 997 / 1000 ≤ |Real.cos (phX p dc (edgeAt m (3 * c)))| := by
    refine le_trans (cos_ge t0 ht ?_) (le_abs_self _)
    rcases hX with q | q
    · rw [q, abs_zero]; exact t0
    · rw [q, abs_of_nonneg t0]
  have hsin : 991 / 1000 ≤ |Real.sin (th p * (2 * r + 2))| := by
    refine le_trans ?_ (le_abs_self _)
    have hpi := h.half_pi
    rw [← Real.cos_pi_div_two_sub]
    have a := Real.one_sub_sq_div_two_le_cos (x := Real.pi / 2 - th p * (2 * r + 2))
    obtain ⟨h2, -⟩ := small_pow t0 ht
    have hev := h.even
    refine le_trans ?_ a
    obtain q | q : p.nx = 4 * r ∨ p.nx = 4 * r + 2 := by omega
    · have : (p.nx : ℝ) = 4 * (r : ℝ) := by exact_mod_cast q
      rw [hpi, this, show th p * (4 * (r : ℝ)) / 2 - th p * (2 * r + 2) = -(2 * th p) by ring]
      linarith
    · have : (p.nx : ℝ) = 4 * (r : ℝ) + 2 := by exact_mod_cast q
      rw [hpi, this, show th p * (4 * (r : ℝ) + 2) / 2 - th p * (2 * r + 2) = -th p by ring]
      linarith
  have x1 : (997 : ℝ) / 1000 * (991 / 1000) ≤
      |Real.cos (phX p dc (edgeAt m (3 * c)))| * |Real.sin (th p * (2 * r + 2))| :=
    mul_le_mul hcos hsin (by norm_num) (abs_nonneg _)
  have kp : 0 ≤ kR * th p ^ 2 := mul_nonneg (by linarith) p2
  have x2 : 99 / 100 * (kR * th p ^ 2) * (997 / 1000 * (991 / 1000)) ≤ _ :=
    mul_le_mul (r1.trans (le_abs_self (ampR (th p)))) x1 (by norm_num) (abs_nonneg _)
  refine le_trans ?_ x2
  linarith

/-! ### The rates -/

theorem th_small {n : Int} (hn : 48 ≤ n) : Real.pi / (n : ℝ) ≤ 131 / 2000 := by
  have h : (48 : ℝ) ≤ n := by exact_mod_cast hn
  rw [div_le_iff₀ (by linarith)]
  have := Real.pi_lt_d4
  linarith

/-- One mesh of the test: the four errors lie in brackets proportional to powers of the spacing. -/
theorem operator_brackets (hv : MeshParams.Valid p) (hev : p.nx % 2 = 0) (hsq : p.ny = p.nx)
    (hn : 48 ≤ p.nx) {lowest : ℝ} (hl : lowest ≤ 0) {m0 : Mem ℝ} {eg ed ec er : ℝ}
    (E : IsOperatorErrors p (defaultDc p.nx) lowest m0 eg ed ec er) :
    (31 / 32 * (7 * Real.pi / 12 * th p ^ 2) ≤ eg ∧ eg ≤ 7 * Real.pi / 12 * th p ^ 2) ∧
    (31 / 32 * (4 * Real.pi * kD / 3 * th p ^ 2) ≤ ed ∧ ed ≤ 4 * Real.pi * kD / 3 * th p ^ 2) ∧
    (31 / 32 * (4 * Real.pi * kS / √3 * th p ^ 1) ≤ ec ∧ ec ≤ 4 * Real.pi * kS / √3 * th p ^ 1) ∧
    (31 / 32 * (kR * th p ^ 2) ≤ er ∧ er ≤ kR * th p ^ 2) := by
  obtain ⟨-, -, m, hm, hE⟩ := C67_operator_test hv (defaultDc p.nx) hl m0
  have hb : Built p (defaultDc p.nx) m := ⟨m0, hm⟩
  have hE := (hE _ _ _ _).1 E
  have hnr : (0 : ℝ) < p.nx := by have := hv.nx_pos; exact_mod_cast this
  have hdc : (defaultDc p.nx : ℝ) = 1 / p.nx := by simp [defaultDc]
  have h : Sq p (defaultDc p.nx) := ⟨hv, hev, hsq, by rw [hdc]; positivity⟩
  have ht : th p ≤ 131 / 2000 := th_small hn
  have t0 := h.th_pos
  have hpi := Real.pi_pos
  have hw := w_pos
  have hdt : (defaultDc p.nx : ℝ) = th p / Real.pi := by rw [hdc]; unfold th; field_simp
  obtain ⟨b1, b2⟩ := ampB_bounds t0.le ht
  obtain ⟨d1, d2⟩ := ampD_bounds t0.le ht
  have g1 := grad_le h ht hb hE
  have g2 := grad_ge h ht hb hE
  have g3 := div_le_amp h ht hb hE
  have g4 := curl_le h ht hb hE
  have g5 := curl_ge h ht hb hE
  rw [hdt] at g1 g2 g3 g4 g5
  have p3 : 0 < th p ^ 3 := by positivity
  have x1 : 2 / (th p / Real.pi) = 2 * Real.pi / th p := by field_simp
  have x2 : 4 / (3 * (th p / Real.pi)) = 4 * Real.pi / (3 * th p) := by field_simp
  have x3 : 4 / (th p / Real.pi * √3) = 4 * Real.pi / (√3 * th p) := by field_simp
  rw [x1] at g1 g2
  rw [x2] at g3
  rw [x3] at g4 g5
  have kd : 0 < kD := by unfold kD; positivity
  refine ⟨⟨?_, ?_⟩, ⟨?_, ?_⟩, ⟨?_, ?_⟩, recon_ge h ht hb hE, recon_le h ht hb hE⟩
  · refine le_trans ?_ g2
    have : 31 / 32 * (7 / 24 * th p ^ 3) ≤ ampB (th p) * (99 / 100) := by nlinarith
    calc _ = 2 * Real.pi / th p * (31 / 32 * (7 / 24 * th p ^ 3)) := by field_simp; ring
      _ ≤ _ := mul_le_mul_of_nonneg_left this (by positivity)
  · refine g1.trans ?_
    calc _ ≤ 2 * Real.pi / th p * (7 / 24 * th p ^ 3) := mul_le_mul_of_nonneg_left b2 (by positivity)
      _ = _ := by field_simp; ring
  · rw [g3]
    have : 31 / 32 * (kD * th p ^ 3) ≤ ampD (th p) := by
      have : 0 < kD * th p ^ 3 := by positivity
      linarith
    calc _ = 4 * Real.pi / (3 * th p) * (31 / 32 * (kD * th p ^ 3)) := by field_simp
      _ ≤ _ := mul_le_mul_of_nonneg_left this (by positivity)
  · rw [g3]
    calc _ ≤ 4 * Real.pi / (3 * th p) * (kD * th p ^ 3) := mul_le_mul_of_nonneg_left d2 (by positivity)
      _ = _ := by field_simp
  · refine le_trans (le_of_eq ?_) g5
    field_simp
  · refine g4.trans (le_of_eq ?_)
    field_simp

/-- **C68.** The rates the operator convergence test checks. On any two successive square meshes with
an even number of at least 48 columns, whatever the order of the parallel iterations and reductions,
the measured rates are within 0.05 of two for the gradient, the divergence and the reconstruction and
of one for the curl. -/
theorem C68_operator_rates {p' : MeshParams} (hv : MeshParams.Valid p) (hv' : MeshParams.Valid p')
    (hev : p.nx % 2 = 0) (hn : 48 ≤ p.nx) (hsq : p.ny = p.nx) (hsq' : p'.ny = p'.nx)
    (h2 : p'.nx = 2 * p.nx) {lowest : ℝ} (hl : lowest ≤ 0) {m0 m0' : Mem ℝ}
    {eg ed ec er eg' ed' ec' er' : ℝ}
    (E : IsOperatorErrors p (defaultDc p.nx) lowest m0 eg ed ec er)
    (E' : IsOperatorErrors p' (defaultDc p'.nx) lowest m0' eg' ed' ec' er') :
    |Real.logb 2 (eg / eg') - 2| < 1 / 20 ∧ |Real.logb 2 (ed / ed') - 2| < 1 / 20 ∧
    |Real.logb 2 (ec / ec') - 1| < 1 / 20 ∧ |Real.logb 2 (er / er') - 2| < 1 / 20 := by
  obtain ⟨⟨a1, a2⟩, ⟨b1, b2⟩, ⟨c1, c2⟩, d1, d2⟩ := operator_brackets hv hev hsq hn hl E
  obtain ⟨⟨a1', a2'⟩, ⟨b1', b2'⟩, ⟨c1', c2'⟩, d1', d2'⟩ :=
    operator_brackets hv' (by omega) hsq' (by omega) hl E'
  have hnr : (0 : ℝ) < p.nx := by have := hv.nx_pos; exact_mod_cast this
  have ht : 0 < th p := div_pos Real.pi_pos hnr
  have hh : th p' = th p / 2 := by
    unfold th; rw [h2]; push_cast; field_simp
  rw [hh] at a1' a2' b1' b2' c1' c2' d1' d2'
  have hpi := Real.pi_pos
  have hw := w_pos
  have kd : 0 < kD := by unfold kD; positivity
  have ks : 0 < kS := by have := kS_bounds.1; linarith
  have kr : 0 < kR := by have := kR_bounds.1; linarith
  have r1 := rate_bracket (k := 2) (by positivity) ht a1 a2 a1' a2'
  have r2 := rate_bracket (k := 2) (by positivity) ht b1 b2 b1' b2'
  have r3 := rate_bracket (k := 1) (by positivity) ht c1 c2 c1' c2'
  have r4 := rate_bracket (k := 2) kr ht d1 d2 d1' d2'
  push_cast at r1 r2 r3 r4
  exact ⟨r1, r2, r3, r4⟩

/-- the last two meshes of the test meet the hypotheses -/
def p48 : MeshParams := ⟨48, 48, 1, 0, 1⟩
@[inherit_doc p48]
def p96 : MeshParams := ⟨96, 96, 1, 0, 1⟩

example : ∃ eg ed ec er eg' ed' ec' er' : ℝ,
    MeshParams.Valid p48 ∧ MeshParams.Valid p96 ∧ p48.nx % 2 = 0 ∧ 48 ≤ p48.nx ∧ p96.nx = 2 * p48.nx ∧
    IsOperatorErrors p48 (defaultDc p48.nx) (-1) ⟨fun _ _ _ => 0, fun _ _ _ _ => 0⟩ eg ed ec er ∧
    IsOperatorErrors p96 (defaultDc p96.nx) (-1) ⟨fun _ _ _ => 7, fun _ _ _ _ => 5⟩ eg' ed' ec' er' := by
  have v1 : MeshParams.Valid p48 := by constructor <;> norm_num [p48]
  have v2 : MeshParams.Valid p96 := by constructor <;> norm_num [p96]
  obtain ⟨-, ⟨a, b, c, d, h⟩, -⟩ := C67_operator_test v1 (defaultDc p48.nx) (by norm_num : (-1:ℝ) ≤ 0)
    ⟨fun _ _ _ => 0, fun _ _ _ _ => 0⟩
  obtain ⟨-, ⟨a', b', c', d', h'⟩, -⟩ := C67_operator_test v2 (defaultDc p96.nx)
    (by norm_num : (-1:ℝ) ≤ 0) ⟨fun _ _ _ => 7, fun _ _ _ _ => 5⟩
  exact ⟨a, b, c, d, a', b', c', d', v1, v2, rfl, le_rfl, rfl, h, h'⟩

end Props
end
end Omega
