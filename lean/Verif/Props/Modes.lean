import Verif.Props.Dissipation
import Verif.Props.Operators
import Verif.Props.Positivity

/-!
# C119: no spurious modes

A velocity is determined by its divergence, its vorticity and its mean, and only flat states at rest are steady.
-/

set_option linter.unusedVariables false
set_option linter.unusedSectionVars false

namespace Omega
noncomputable section
namespace Props

open Prog Model Refine Hex

variable {p : MeshParams} {dc : ℝ} {m : Mem ℝ} {nx ny : Int}

/-- A function on the cells that does not change from a cell to its neighbours on sides 0 and 2 is constant. -/
theorem const_of_nb (hnx : 1 ≤ nx) (hny : 1 ≤ ny) {f : Int → ℝ}
    (h0 : ∀ c, IsCell nx ny c → f (nb nx ny 0 c) = f c) (h2 : ∀ c, IsCell nx ny c → f (nb nx ny 2 c) = f c) :
    ∀ c, IsCell nx ny c → f c = f 0 := by
  have cell : ∀ i r, 0 ≤ i → i < nx → 0 ≤ r → r < ny → IsCell nx ny (cid nx i r) := fun i r a b c d =>
    cid_range a b c d
  have step0 : ∀ i r, 0 ≤ i → i + 1 < nx → 0 ≤ r → r < ny → f (cid nx (i + 1) r) = f (cid nx i r) := by
    intro i r a b c d
    have h := h0 _ (cell (i + 1) r (by omega) b c d)
    have h' := h0 _ (cell i r a (by omega) c d)
    rw [nb_cid (by omega) b] at h
    rw [nb_cid a (by omega)] at h'
    simp only [nbI, nbR, mx, px] at h h'
    norm_num at h h'
    rw [if_neg (by omega)] at h
    exact h.symm
  have rowc : ∀ (i : ℕ) r, (i : Int) < nx → 0 ≤ r → r < ny → f (cid nx i r) = f (cid nx 0 r) := by
    intro i
    induction i with
    | zero => intro r _ _ _; rfl
    | succ i ih =>
      intro r a b c
      push_cast at a ⊢
      rw [step0 i r (by omega) a b c, ih r (by omega) b c]
  have rowc' : ∀ i r, 0 ≤ i → i < nx → 0 ≤ r → r < ny → f (cid nx i r) = f (cid nx 0 r) := fun i r a b c d => by
    lift i to ℕ using a
    exact rowc i r b c d
  have step2 : ∀ r, 0 ≤ r → r + 1 < ny → f (cid nx 0 (r + 1)) = f (cid nx 0 r) := by
    intro r a b
    have h := h2 _ (cell 0 (r + 1) le_rfl (by omega) (by omega) b)
    have h' := h2 _ (cell 0 r le_rfl (by omega) a (by omega))
    rw [nb_cid le_rfl (by omega)] at h h'
    have I := nbI_range (nx := nx) (j := 2) (i := 0) (r := r + 1) le_rfl (by omega)
    have I' := nbI_range (nx := nx) (j := 2) (i := 0) (r := r) le_rfl (by omega)
    have R := nbR_range (ny := ny) (j := 2) (r := r + 1) (by omega) b
    have R' := nbR_range (ny := ny) (j := 2) (r := r) a (by omega)
    rw [rowc' _ _ I.1 I.2 R.1 R.2] at h
    rw [rowc' _ _ I'.1 I'.2 R'.1 R'.2] at h'
    simp only [nbR, mx, px] at h h'
    norm_num at h h'
    rw [if_neg (by omega)] at h
    exact h.symm
  have colc : ∀ r : ℕ, (r : Int) < ny → f (cid nx 0 r) = f (cid nx 0 0) := by
    intro r
    induction r with
    | zero => intro _; rfl
    | succ r ih =>
      intro a
      push_cast at a ⊢
      rw [step2 r (by omega) a, ih (by omega)]
  intro c hc
  obtain ⟨i, r, hi, hi', hr, hr', rfl⟩ := exists_coords hnx hc
  rw [rowc' i r hi hi' hr hr']
  lift r to ℕ using hr
  rw [colc r hr']
  simp [cid]

theorem Gr_edge (hnx : 1 ≤ nx) (hny : ny % 2 = 0) (φ : Int → ℝ) {c j : Int} (hc : IsCell nx ny c) (j0 : 0 ≤ j)
    (j3 : j < 3) : Gr nx ny φ (3 * c + j) = φ c - φ (nb nx ny j c) := by
  unfold Gr
  have a := divmod3 c j j0 j3
  rw [coe_one, coe_zero, a.1, a.2, inv_eq_nb hnx hny hc (by omega) (by omega)]
  congr 3
  omega

/-- A function with zero gradient is constant. -/
theorem const_of_Gr (hnx : 1 ≤ nx) (hy1 : 1 ≤ ny) (hny : ny % 2 = 0) {φ : Int → ℝ}
    (h : ∀ e, 0 ≤ e → e < 3 * (nx * ny) → Gr nx ny φ e = 0) : ∀ c, IsCell nx ny c → φ c = φ 0 := by
  have key : ∀ j, 0 ≤ j → j < 3 → ∀ c, IsCell nx ny c → φ (nb nx ny j c) = φ c := fun j a b c hc => by
    have := h (3 * c + j) (by have := hc.1; omega) (by have := hc.2; omega)
    rw [Gr_edge hnx hny φ hc a b] at this
    linarith
  exact const_of_nb hnx hy1 (key 0 (by omega) (by omega)) (key 2 (by omega) (by omega))

/-- A function whose Laplacian vanishes is constant. -/
theorem Gr_of_harmonic (hnx : 1 ≤ nx) {φ : Int → ℝ}
    (h : ∀ c, IsCell nx ny c → Dv nx ny (Gr nx ny φ) c = 0) :
    ∀ e, 0 ≤ e → e < 3 * (nx * ny) → Gr nx ny φ e = 0 := by
  have s := adjoint_cell (ny := ny) hnx φ (Gr nx ny φ)
  rw [Finset.sum_eq_zero fun c hc => by rw [h c (mem_cells.1 hc), mul_zero]] at s
  have s0 : ∑ e ∈ upto (3 * (nx * ny)), Gr nx ny φ e * Gr nx ny φ e = 0 := by linarith
  rw [Finset.sum_eq_zero_iff_of_nonneg fun e _ => mul_self_nonneg _] at s0
  intro e a b
  have := s0 e (Finset.mem_Ico.2 ⟨a, b⟩)
  exact mul_self_eq_zero.1 this

/-- Edge fields without divergence and curl depend only on the direction of the edge. -/
theorem harmonic_edge (hnx : 1 ≤ nx) (hy1 : 1 ≤ ny) (hny : ny % 2 = 0) {u : Int → ℝ}
    (hd : ∀ c, IsCell nx ny c → Dv nx ny u c = 0)
    (hcu : ∀ v, 0 ≤ v → v < 2 * (nx * ny) → Cu nx ny u v = 0) :
    (∀ c, IsCell nx ny c → ∀ j, 0 ≤ j → j < 3 → u (3 * c + j) = u j) ∧ u 0 + u 2 = u 1 := by
  have N : ∀ {c} j, IsCell nx ny c → IsCell nx ny (nb nx ny j c) := fun j hc => nb_isCell hnx hc
  have t20 : ∀ c, IsCell nx ny c → nb nx ny 2 (nb nx ny 0 c) = nb nx ny 1 c := fun c hc =>
    nb_turn hnx hny hc (j := 0) (by omega) (by omega)
  have t02 : ∀ c, IsCell nx ny c → nb nx ny 0 (nb nx ny 2 c) = nb nx ny 1 c := fun c hc =>
    nb_turn' hnx hny hc (j := 2) (by omega) (by omega)
  have i03 : ∀ c, IsCell nx ny c → nb nx ny 0 (nb nx ny 3 c) = c := fun c hc =>
    nb_nb hnx hny hc (j := 3) (by omega) (by omega)
  have i30 : ∀ c, IsCell nx ny c → nb nx ny 3 (nb nx ny 0 c) = c := fun c hc =>
    nb_nb hnx hny hc (j := 0) (by omega) (by omega)
  have i14 : ∀ c, IsCell nx ny c → nb nx ny 1 (nb nx ny 4 c) = c := fun c hc =>
    nb_nb hnx hny hc (j := 4) (by omega) (by omega)
  have i41 : ∀ c, IsCell nx ny c → nb nx ny 4 (nb nx ny 1 c) = c := fun c hc =>
    nb_nb hnx hny hc (j := 1) (by omega) (by omega)
  have i25 : ∀ c, IsCell nx ny c → nb nx ny 2 (nb nx ny 5 c) = c := fun c hc =>
    nb_nb hnx hny hc (j := 5) (by omega) (by omega)
  have i52 : ∀ c, IsCell nx ny c → nb nx ny 5 (nb nx ny 2 c) = c := fun c hc =>
    nb_nb hnx hny hc (j := 2) (by omega) (by omega)
  -- the two triangles
  have P1 : ∀ c, IsCell nx ny c → u (3 * nb nx ny 2 c) + u (3 * c + 2) = u (3 * c + 1) := fun c hc => by
    have n := N 2 hc
    have h := hcu (2 * nb nx ny 2 c) (by have := n.1; omega) (by have := n.2; omega)
    unfold Cu Hex.eov at h
    have a : 2 * nb nx ny 2 c / 2 = nb nx ny 2 c := by omega
    have b : 2 * nb nx ny 2 c % 2 = 0 := by omega
    simp only [a, b, if_true, inv_nb hnx hc] at h
    norm_num at h
    linarith
  have P2 : ∀ c, IsCell nx ny c → u (3 * c) + u (3 * nb nx ny 0 c + 2) = u (3 * c + 1) := fun c hc => by
    have h := hcu (2 * c + 1) (by have := hc.1; omega) (by have := hc.2; omega)
    unfold Cu Hex.eov at h
    have a : (2 * c + 1) / 2 = c := by omega
    have b : (2 * c + 1) % 2 = 1 := by omega
    simp only [a, b, inv_three] at h
    norm_num at h
    linarith
  have D : ∀ c, IsCell nx ny c → u (3 * nb nx ny 3 c) + u (3 * nb nx ny 4 c + 1) + u (3 * nb nx ny 5 c + 2) -
      u (3 * c) - u (3 * c + 1) - u (3 * c + 2) = 0 := fun c hc => by
    have h := hd c hc
    unfold Dv E at h
    norm_num at h
    exact h
  -- the shift along direction 0 is the gradient of u on the edges of that direction
  have A : ∀ c, IsCell nx ny c → (∀ j, 0 ≤ j → j < 3 → u (3 * nb nx ny 0 c + j) = u (3 * c + j)) := by
    set φ : Int → ℝ := fun c => u (3 * c) with hφ
    have g : ∀ c, IsCell nx ny c → ∀ j, 0 ≤ j → j < 3 →
        Gr nx ny φ (3 * c + j) = u (3 * c + j) - u (3 * nb nx ny 0 c + j) := fun c hc j a b => by
      rw [Gr_edge hnx hny φ hc a b]
      obtain rfl | rfl | rfl : j = 0 ∨ j = 1 ∨ j = 2 := by omega
      · simp [hφ]
      · have q1 := P1 c hc
        have q2 := P2 c hc
        have q3 := P1 _ (N 0 hc)
        rw [t20 c hc] at q3
        simp only [hφ]
        linarith
      · have q1 := P1 c hc
        have q2 := P2 c hc
        simp only [hφ]
        linarith
    have z := Gr_of_harmonic (ny := ny) hnx (φ := φ) fun c hc => by
      have e3 := g _ (N 3 hc) 0 (by omega) (by omega)
      have e4 := g _ (N 4 hc) 1 (by omega) (by omega)
      have e5 := g _ (N 5 hc) 2 (by omega) (by omega)
      have e0 := g c hc 0 (by omega) (by omega)
      have e1 := g c hc 1 (by omega) (by omega)
      have e2 := g c hc 2 (by omega) (by omega)
      have d := D c hc
      have d' := D _ (N 0 hc)
      have s4 : nb nx ny 4 (nb nx ny 0 c) = nb nx ny 0 (nb nx ny 4 c) := by
        exact (nb_turn' hnx hny hc (j := 0) (by omega) (by omega)).trans
          (nb_turn hnx hny hc (j := 4) (by omega) (by omega)).symm
      have s5 : nb nx ny 5 (nb nx ny 0 c) = nb nx ny 0 (nb nx ny 5 c) := by
        have := (t02 _ (N 5 hc)).trans (t20 _ (N 5 hc)).symm
        rw [i25 c hc] at this
        rw [this, i52 _ (N 0 (N 5 hc))]
      rw [i30 c hc, s4, s5] at d'
      rw [i03 c hc] at e3
      simp only [add_zero] at e3 e0
      unfold Dv E
      norm_num
      rw [e3, e4, e5, e0, e1, e2]
      linarith
    intro c hc j a b
    have := z (3 * c + j) (by have := hc.1; omega) (by have := hc.2; omega)
    rw [g c hc j a b] at this
    linarith
  have B : ∀ c, IsCell nx ny c → (∀ j, 0 ≤ j → j < 3 → u (3 * nb nx ny 2 c + j) = u (3 * c + j)) := by
    set φ : Int → ℝ := fun c => u (3 * c + 2) with hφ
    have g : ∀ c, IsCell nx ny c → ∀ j, 0 ≤ j → j < 3 →
        Gr nx ny φ (3 * c + j) = u (3 * c + j) - u (3 * nb nx ny 2 c + j) := fun c hc j a b => by
      rw [Gr_edge hnx hny φ hc a b]
      obtain rfl | rfl | rfl : j = 0 ∨ j = 1 ∨ j = 2 := by omega
      · have q1 := P1 c hc
        have q2 := P2 c hc
        simp only [hφ, add_zero]
        linarith
      · have q1 := P1 c hc
        have q3 := P2 _ (N 2 hc)
        rw [t02 c hc] at q3
        simp only [hφ]
        linarith
      · simp [hφ]
    have z := Gr_of_harmonic (ny := ny) hnx (φ := φ) fun c hc => by
      have e3 := g _ (N 3 hc) 0 (by omega) (by omega)
      have e4 := g _ (N 4 hc) 1 (by omega) (by omega)
      have e5 := g _ (N 5 hc) 2 (by omega) (by omega)
      have e0 := g c hc 0 (by omega) (by omega)
      have e1 := g c hc 1 (by omega) (by omega)
      have e2 := g c hc 2 (by omega) (by omega)
      have d := D c hc
      have d' := D _ (N 2 hc)
      have s4 : nb nx ny 4 (nb nx ny 2 c) = nb nx ny 2 (nb nx ny 4 c) :=
        (nb_turn hnx hny hc (j := 2) (by omega) (by omega)).trans
          (nb_turn' hnx hny hc (j := 4) (by omega) (by omega)).symm
      have s3 : nb nx ny 3 (nb nx ny 2 c) = nb nx ny 2 (nb nx ny 3 c) := by
        have := (t20 _ (N 3 hc)).trans (t02 _ (N 3 hc)).symm
        rw [i03 c hc] at this
        rw [this, i30 _ (N 2 (N 3 hc))]
      rw [i52 c hc, s4, s3] at d'
      rw [i25 c hc] at e5
      simp only [add_zero] at e3 e0
      unfold Dv E
      norm_num
      rw [e3, e4, e5, e0, e1, e2]
      linarith
    intro c hc j a b
    have := z (3 * c + j) (by have := hc.1; omega) (by have := hc.2; omega)
    rw [g c hc j a b] at this
    linarith
  have C : ∀ c, IsCell nx ny c → ∀ j, 0 ≤ j → j < 3 → u (3 * c + j) = u j := fun c hc j a b => by
    have := const_of_nb hnx hy1 (f := fun c => u (3 * c + j)) (fun c hc => A c hc j a b)
      (fun c hc => B c hc j a b) c hc
    simpa using this
  refine ⟨C, ?_⟩
  have c00 : IsCell nx ny 0 := ⟨le_rfl, by nlinarith⟩
  have := P1 0 c00
  rw [show 3 * nb nx ny 2 0 = 3 * nb nx ny 2 0 + 0 by ring, C _ (N 2 c00) 0 le_rfl (by omega)] at this
  simpa using this

/-- a flow with the same velocity `(a, b)` everywhere -/
def Uniform (d : Dims) (m : Mem ℝ) (u : Int → ℝ) (a b : ℝ) : Prop :=
  ∀ e, 0 ≤ e → e < d.nedges → u e = a * Real.cos (m.real .angle_edge 0 e 0) + b * Real.sin (m.real .angle_edge 0 e 0)

/-- Only uniform flow has neither divergence nor vorticity. -/
theorem uniform_of_harmonic (g : Geo2 p.nx p.ny p.dims.nlayers dc m.mesh) (hy : 2 ≤ p.ny) (hny : p.ny % 2 = 0)
    (ang : ∀ e, 0 ≤ e → e < p.dims.nedges → m.real .angle_edge 0 e 0 = angE e) {u : Int → ℝ}
    (h1 : ∀ c, 0 ≤ c → c < p.dims.ncells → Spec.div m u c = 0)
    (h2 : ∀ v, 0 ≤ v → v < p.dims.nvertices → Spec.curl m u v = 0) : ∃ a b, Uniform p.dims m u a b := by
  have hd := g.dc_pos
  have hw := w_pos
  obtain ⟨C, s⟩ := harmonic_edge (ny := p.ny) g.hnx (by omega) hny (u := u)
    (fun c hc => by
      have := h1 c hc.1 hc.2
      rw [spec_div g u hc] at this
      exact (mul_eq_zero.1 this).resolve_left (by positivity))
    (fun v a b => by
      have := h2 v a b
      rw [spec_curl g.toGeo u a b] at this
      exact (mul_eq_zero.1 this).resolve_left (by positivity))
  refine ⟨u 0, (u 1 + u 2) / √3, fun e a b => ?_⟩
  rw [ang e a b]
  have hc := isCell_edge a b
  have e1 := C _ hc (e % 3) (by omega) (by omega)
  rw [show 3 * (e / 3) + e % 3 = e by omega] at e1
  rw [e1]
  obtain hh | hh | hh : e % 3 = 0 ∨ e % 3 = 1 ∨ e % 3 = 2 := by omega
  all_goals
    simp only [angE, hh]
    norm_num [Real.cos_pi_div_three, Real.sin_pi_div_three, cos_two_third, sin_two_third]
  · rw [← s]
    field_simp
    ring
  · rw [← s]
    field_simp
    ring

theorem angE_mod (e : Int) : angE (R := ℝ) e = angE (e % 3) := by simp [angE]

/-- Uniform flow has neither. -/
theorem harmonic_of_uniform (g : Geo2 p.nx p.ny p.dims.nlayers dc m.mesh)
    (ang : ∀ e, 0 ≤ e → e < p.dims.nedges → m.real .angle_edge 0 e 0 = angE e) {u : Int → ℝ} {a b : ℝ}
    (h : Uniform p.dims m u a b) :
    (∀ c, 0 ≤ c → c < p.dims.ncells → Spec.div m u c = 0) ∧
      ∀ v, 0 ≤ v → v < p.dims.nvertices → Spec.curl m u v = 0 := by
  have hu : ∀ e, 0 ≤ e → e < 3 * (p.nx * p.ny) →
      u e = a * Real.cos (angE (e % 3)) + b * Real.sin (angE (e % 3)) := fun e x y => by
    rw [h e x y, ang e x y, angE_mod]
  constructor
  · intro c c0 c1
    have hc : IsCell p.nx p.ny c := ⟨c0, c1⟩
    have hE : ∀ j, 0 ≤ j → j < 6 → u (E p.nx p.ny c j) =
        a * Real.cos (angE (j % 3)) + b * Real.sin (angE (j % 3)) := fun j x y => by
      have r := E_range g.hnx hc j x y
      rw [hu _ r.1 r.2, E_mod x y]
    rw [spec_div g u hc]
    unfold Dv
    rw [hE 0 (by omega) (by omega), hE 1 (by omega) (by omega), hE 2 (by omega) (by omega),
      hE 3 (by omega) (by omega), hE 4 (by omega) (by omega), hE 5 (by omega) (by omega)]
    norm_num
    right
    ring
  · intro v v0 v1
    have hvc := isCell_vertex v0 v1
    rw [spec_curl g.toGeo u v0 v1]
    have i2 := inv_isCell (j := 2) g.hnx hvc
    have i3 := inv_isCell (j := 3) g.hnx hvc
    have hE : ∀ c j, IsCell p.nx p.ny c → 0 ≤ j → j < 3 → u (3 * c + j) =
        a * Real.cos (angE j) + b * Real.sin (angE j) := fun c j hc x y => by
      rw [hu _ (by have := hc.1; omega) (by have := hc.2; omega)]
      rw [(divmod3 c j x y).2]
    have E0 : ∀ c, IsCell p.nx p.ny c → u (3 * c) = a * Real.cos (angE 0) + b * Real.sin (angE 0) := fun c hc => by
      have := hE c 0 hc le_rfl (by omega)
      rwa [add_zero] at this
    refine mul_eq_zero_of_right _ ?_
    unfold Cu Hex.eov
    norm_num
    simp only [apply_ite u]
    rw [E0 _ hvc, hE _ 2 i2 (by omega) (by omega), hE _ 2 i3 (by omega) (by omega), hE _ 1 i2 (by omega) (by omega),
      hE _ 1 hvc (by omega) (by omega)]
    simp only [angE]
    norm_num [Real.cos_pi_div_three, Real.sin_pi_div_three, cos_two_third, sin_two_third]
    split_ifs <;> ring

theorem sum_sq_zero {ι : Type} {s : Finset ι} {w x : ι → ℝ} (hw : ∀ i ∈ s, 0 < w i)
    (h : ∑ i ∈ s, w i * x i ^ 2 = 0) : ∀ i ∈ s, x i = 0 := fun i hi => by
  rw [Finset.sum_eq_zero_iff_of_nonneg fun i hi => mul_nonneg (hw i hi).le (sq_nonneg _)] at h
  have := (mul_eq_zero.1 (h i hi)).resolve_left (hw i hi).ne'
  exact pow_eq_zero_iff (two_ne_zero) |>.1 this

theorem lap_zero (g : Geo2 p.nx p.ny p.dims.nlayers dc m.mesh) (hc : ConnOK p.dims m) {u : Int → ℝ}
    (h1 : ∀ c, 0 ≤ c → c < p.dims.ncells → Spec.div m u c = 0)
    (h2 : ∀ v, 0 ≤ v → v < p.dims.nvertices → Spec.curl m u v = 0) {e : Int} (e0 : 0 ≤ e) (e1 : e < p.dims.nedges) :
    Spec.grad m (Spec.div m u) e - Spec.gradT m (Spec.curl m u) e = 0 := by
  rw [grad_congr hc (ψ := fun _ => 0) h1 e0 e1, spec_gradT g.toGeo _ e0 e1,
    Gv_congr g.hnx (ψ' := fun _ => 0) (fun v a b => h2 v a b) e0 e1]
  simp [Spec.grad, Gv]

/-- A velocity is determined by its divergence in every cell, its vorticity at every vertex and the two components of
its mean: states that agree in these agree at every edge. -/
theorem C119_velocity_determined (hv : RunValid p) (hx : 2 ≤ p.nx) (hy : 2 ≤ p.ny) (hny : p.ny % 2 = 0)
    (hdc : 0 < dc) {prm prm' : Params ℝ} {m' : Mem ℝ} (hr : Ready p dc prm m) (hr' : Ready p dc prm' m') {k : Int}
    (k0 : 0 ≤ k) (k1 : k < p.dims.nlayers)
    (h1 : ∀ c, 0 ≤ c → c < p.dims.ncells → Spec.div m (fun e => m.real (.vn_edge .state) 0 e k) c =
      Spec.div m' (fun e => m'.real (.vn_edge .state) 0 e k) c)
    (h2 : ∀ v, 0 ≤ v → v < p.dims.nvertices → Spec.curl m (fun e => m.real (.vn_edge .state) 0 e k) v =
      Spec.curl m' (fun e => m'.real (.vn_edge .state) 0 e k) v)
    (h3 : ∑ e ∈ Spec.edges p.dims, Spec.dcE m e * Spec.dvE m e *
        (m.real (.vn_edge .state) 0 e k * Real.cos (m.real .angle_edge 0 e 0)) =
      ∑ e ∈ Spec.edges p.dims, Spec.dcE m' e * Spec.dvE m' e *
        (m'.real (.vn_edge .state) 0 e k * Real.cos (m'.real .angle_edge 0 e 0)))
    (h4 : ∑ e ∈ Spec.edges p.dims, Spec.dcE m e * Spec.dvE m e *
        (m.real (.vn_edge .state) 0 e k * Real.sin (m.real .angle_edge 0 e 0)) =
      ∑ e ∈ Spec.edges p.dims, Spec.dcE m' e * Spec.dvE m' e *
        (m'.real (.vn_edge .state) 0 e k * Real.sin (m'.real .angle_edge 0 e 0))) :
    ∀ e, 0 ≤ e → e < p.dims.nedges → m.real (.vn_edge .state) 0 e k = m'.real (.vn_edge .state) 0 e k := by
  have g := Ready.geo2 hr hv.toValid hx hy hdc
  have g' := Ready.geo2 hr' hv.toValid hx hy hdc
  have ang : ∀ e, 0 ≤ e → e < p.dims.nedges → m.real .angle_edge 0 e 0 = angE e := (hr.hex hv.toValid).1.angle_edge
  have ang' : ∀ e, 0 ≤ e → e < p.dims.nedges → m'.real .angle_edge 0 e 0 = angE e :=
    (hr'.hex hv.toValid).1.angle_edge
  set u : Int → ℝ := fun e => m.real (.vn_edge .state) 0 e k with hu
  set u' : Int → ℝ := fun e => m'.real (.vn_edge .state) 0 e k with hu'
  obtain ⟨a, b, U⟩ := uniform_of_harmonic g hy hny ang (u := fun e => u e - u' e)
    (fun c c0 c1 => by
      have := h1 c c0 c1
      rw [spec_div g _ ⟨c0, c1⟩] at this ⊢
      rw [spec_div g' _ ⟨c0, c1⟩] at this
      unfold Dv at *
      linarith)
    (fun v v0 v1 => by
      have := h2 v v0 v1
      rw [spec_curl g.toGeo _ v0 v1] at this ⊢
      rw [spec_curl g'.toGeo _ v0 v1] at this
      unfold Cu at *
      split_ifs at * <;> linarith)
  have pos : ∀ e ∈ Spec.edges p.dims, 0 < Spec.dcE m e * Spec.dvE m e := fun e he => by
    have he := Finset.mem_Ico.mp he
    exact dcdv_pos g.toGeo he.1 he.2
  have e3 : ∑ e ∈ Spec.edges p.dims, Spec.dcE m e * Spec.dvE m e *
      ((u e - u' e) * Real.cos (m.real .angle_edge 0 e 0)) = 0 := by
    rw [← sub_eq_zero, ← Finset.sum_sub_distrib] at h3
    rw [← h3]
    refine Finset.sum_congr rfl fun e he => ?_
    have he := Finset.mem_Ico.mp he
    rw [spec_dcE g.toGeo he.1 he.2, spec_dvE g.toGeo he.1 he.2, spec_dcE g'.toGeo he.1 he.2,
      spec_dvE g'.toGeo he.1 he.2, ang e he.1 he.2, ang' e he.1 he.2]
    ring
  have e4 : ∑ e ∈ Spec.edges p.dims, Spec.dcE m e * Spec.dvE m e *
      ((u e - u' e) * Real.sin (m.real .angle_edge 0 e 0)) = 0 := by
    rw [← sub_eq_zero, ← Finset.sum_sub_distrib] at h4
    rw [← h4]
    refine Finset.sum_congr rfl fun e he => ?_
    have he := Finset.mem_Ico.mp he
    rw [spec_dcE g.toGeo he.1 he.2, spec_dvE g.toGeo he.1 he.2, spec_dcE g'.toGeo he.1 he.2,
      spec_dvE g'.toGeo he.1 he.2, ang e he.1 he.2, ang' e he.1 he.2]
    ring
  have sq : ∑ e ∈ Spec.edges p.dims, Spec.dcE m e * Spec.dvE m e * (u e - u' e) ^ 2 = 0 := by
    have : ∑ e ∈ Spec.edges p.dims, Spec.dcE m e * Spec.dvE m e * (u e - u' e) ^ 2 =
        a * ∑ e ∈ Spec.edges p.dims, Spec.dcE m e * Spec.dvE m e *
            ((u e - u' e) * Real.cos (m.real .angle_edge 0 e 0)) +
          b * ∑ e ∈ Spec.edges p.dims, Spec.dcE m e * Spec.dvE m e *
            ((u e - u' e) * Real.sin (m.real .angle_edge 0 e 0)) := by
      rw [Finset.mul_sum, Finset.mul_sum, ← Finset.sum_add_distrib]
      refine Finset.sum_congr rfl fun e he => ?_
      have he := Finset.mem_Ico.mp he
      have := U e he.1 he.2
      beta_reduce at this
      generalize u e - u' e = w at this ⊢
      rw [pow_two]
      nth_rewrite 2 [this]
      ring
    rw [this, e3, e4]
    ring
  intro e x y
  have := sum_sq_zero pos sq e (Finset.mem_Ico.2 ⟨x, y⟩)
  simp only [hu, hu'] at this
  linarith

/-- Laplacian viscosity leaves the velocity tendency of exactly the uniform flows unchanged, and does no work on
exactly these. -/
theorem C119_viscosity_kernel (hv : RunValid p) (hx : 2 ≤ p.nx) (hy : 2 ≤ p.ny) (hny : p.ny % 2 = 0) (hdc : 0 < dc)
    {prm : Params ℝ} (hr : Ready p dc prm m) {sw : SWModel ℝ} (hn : sw.NoHook)
    (hen : sw.en_vdiff = true) (hdis : sw.prm.disable_vn = false) (hnu : sw.prm.visc_del2 ≠ 0) {split : Bool}
    {t t' : ℝ} {m1 m1' : Mem ℝ}
    (he : Exec p.dims (compute_tendency p.dims ⟨defaultKernels p.dims.vl, split⟩ sw .replace .tend
      .state t) m m1)
    (he' : Exec p.dims (compute_tendency p.dims ⟨defaultKernels p.dims.vl, split⟩
      { sw with en_vdiff := false } .replace .tend .state t') m m1')
    {k : Int} (k0 : 0 ≤ k) (k1 : k < p.dims.nlayers) :
    ((∀ e, 0 ≤ e → e < p.dims.nedges → m1.real (.vn_edge .tend) 0 e k = m1'.real (.vn_edge .tend) 0 e k) ↔
      ∃ a b, Uniform p.dims m (fun e => m.real (.vn_edge .state) 0 e k) a b) ∧
    (∑ e ∈ Spec.edges p.dims, Spec.dcE m e * Spec.dvE m e * (m.real (.vn_edge .state) 0 e k *
        (m1.real (.vn_edge .tend) 0 e k - m1'.real (.vn_edge .tend) 0 e k)) = 0 ↔
      ∃ a b, Uniform p.dims m (fun e => m.real (.vn_edge .state) 0 e k) a b) := by
  obtain ⟨hd, hc⟩ := ready_ok hv hr
  have g := Ready.geo2 hr hv.toValid hx hy hdc
  have ang : ∀ e, 0 ≤ e → e < p.dims.nedges → m.real .angle_edge 0 e 0 = angE e := (hr.hex hv.toValid).1.angle_edge
  obtain ⟨work, -⟩ := C24_viscosity_dissipates hv hx hy hdc hr hn hen hdis he he' k0 k1
  have uni : ∑ e ∈ Spec.edges p.dims, Spec.dcE m e * Spec.dvE m e * (m.real (.vn_edge .state) 0 e k *
        (m1.real (.vn_edge .tend) 0 e k - m1'.real (.vn_edge .tend) 0 e k)) = 0 →
      ∃ a b, Uniform p.dims m (fun e => m.real (.vn_edge .state) 0 e k) a b := fun h => by
    rw [work, neg_eq_zero] at h
    obtain ⟨z1, z2⟩ := (add_eq_zero_iff_of_nonneg
      (Finset.sum_nonneg fun c hc => mul_nonneg
        (by have hc := Finset.mem_Ico.mp hc; exact (areaC_pos g.toGeo hc.1 hc.2).le) (sq_nonneg _))
      (Finset.sum_nonneg fun c hc => mul_nonneg
        (by have hc := Finset.mem_Ico.mp hc; exact (areaT_pos g.toGeo hc.1 hc.2).le) (sq_nonneg _))).1
      ((mul_eq_zero.1 h).resolve_left hnu)
    refine uniform_of_harmonic g hy hny ang (fun c c0 c1 => ?_) fun v v0 v1 => ?_
    · exact sum_sq_zero (fun c hc => by
        have hc := Finset.mem_Ico.mp hc
        exact areaC_pos g.toGeo hc.1 hc.2) z1 c (Finset.mem_Ico.2 ⟨c0, c1⟩)
    · exact sum_sq_zero (fun c hc => by
        have hc := Finset.mem_Ico.mp hc
        exact areaT_pos g.toGeo hc.1 hc.2) z2 v (Finset.mem_Ico.2 ⟨v0, v1⟩)
  have same : (∃ a b, Uniform p.dims m (fun e => m.real (.vn_edge .state) 0 e k) a b) →
      ∀ e, 0 ≤ e → e < p.dims.nedges → m1.real (.vn_edge .tend) 0 e k = m1'.real (.vn_edge .tend) 0 e k := by
    rintro ⟨a, b, U⟩ e e0 e1
    obtain ⟨d0, c0⟩ := harmonic_of_uniform g ang U
    obtain ⟨-, t2, -⟩ := C51_tendency_formula hd hc hn (by decide) he
    obtain ⟨-, t2', -⟩ := C51_tendency_formula hd hc
      (sw := { sw with en_vdiff := false }) hn (by decide) he'
    rw [t2 hdis e k e0 e1 k0 k1, t2' hdis e k e0 e1 k0 k1]
    have L := lap_zero g hc d0 c0 e0 e1
    simp only [Spec.velocityTend, hen, if_true, Bool.false_eq_true, if_false, L]
    ring
  have none : (∀ e, 0 ≤ e → e < p.dims.nedges → m1.real (.vn_edge .tend) 0 e k = m1'.real (.vn_edge .tend) 0 e k) →
      ∑ e ∈ Spec.edges p.dims, Spec.dcE m e * Spec.dvE m e * (m.real (.vn_edge .state) 0 e k *
        (m1.real (.vn_edge .tend) 0 e k - m1'.real (.vn_edge .tend) 0 e k)) = 0 := fun h =>
    Finset.sum_eq_zero fun e he => by
      have he := Finset.mem_Ico.mp he
      rw [h e he.1 he.2, sub_self, mul_zero, mul_zero]
  exact ⟨⟨fun h => uni (none h), same⟩, ⟨uni, fun h => none (same h)⟩⟩

/-- The same for the biharmonic viscosity. -/
theorem C119_hyperviscosity_kernel (hv : RunValid p) (hx : 2 ≤ p.nx) (hy : 2 ≤ p.ny) (hny : p.ny % 2 = 0)
    (hdc : 0 < dc) {prm : Params ℝ} (hr : Ready p dc prm m) {sw : SWModel ℝ} (hn : sw.NoHook)
    (hen : sw.en_vhyper = true) (hdis : sw.prm.disable_vn = false) (hnu : sw.prm.visc_del4 ≠ 0) {split : Bool}
    {t t' : ℝ} {m1 m1' : Mem ℝ}
    (he : Exec p.dims (compute_tendency p.dims ⟨defaultKernels p.dims.vl, split⟩ sw .replace .tend
      .state t) m m1)
    (he' : Exec p.dims (compute_tendency p.dims ⟨defaultKernels p.dims.vl, split⟩
      { sw with en_vhyper := false } .replace .tend .state t') m m1')
    {k : Int} (k0 : 0 ≤ k) (k1 : k < p.dims.nlayers) :
    ((∀ e, 0 ≤ e → e < p.dims.nedges → m1.real (.vn_edge .tend) 0 e k = m1'.real (.vn_edge .tend) 0 e k) ↔
      ∃ a b, Uniform p.dims m (fun e => m.real (.vn_edge .state) 0 e k) a b) ∧
    (∑ e ∈ Spec.edges p.dims, Spec.dcE m e * Spec.dvE m e * (m.real (.vn_edge .state) 0 e k *
        (m1.real (.vn_edge .tend) 0 e k - m1'.real (.vn_edge .tend) 0 e k)) = 0 ↔
      ∃ a b, Uniform p.dims m (fun e => m.real (.vn_edge .state) 0 e k) a b) := by
  obtain ⟨hd, hc⟩ := ready_ok hv hr
  have g := Ready.geo2 hr hv.toValid hx hy hdc
  have ang : ∀ e, 0 ≤ e → e < p.dims.nedges → m.real .angle_edge 0 e 0 = angE e := (hr.hex hv.toValid).1.angle_edge
  obtain ⟨work, -⟩ := C25_hyperviscosity_dissipates hv hx hy hdc hr hn hen hdis he he' k0 k1
  have uni : ∑ e ∈ Spec.edges p.dims, Spec.dcE m e * Spec.dvE m e * (m.real (.vn_edge .state) 0 e k *
        (m1.real (.vn_edge .tend) 0 e k - m1'.real (.vn_edge .tend) 0 e k)) = 0 →
      ∃ a b, Uniform p.dims m (fun e => m.real (.vn_edge .state) 0 e k) a b := fun h => by
    rw [work, neg_eq_zero] at h
    have z := sum_sq_zero (fun e he => by
      have he := Finset.mem_Ico.mp he
      exact dcdv_pos g.toGeo he.1 he.2) ((mul_eq_zero.1 h).resolve_left hnu)
    have w := lap_work g (fun e => m.real (.vn_edge .state) 0 e k) fun e => m.real (.vn_edge .state) 0 e k
    rw [Finset.sum_eq_zero fun e he => by rw [z e he, mul_zero, mul_zero]] at w
    have w' := neg_eq_zero.1 w.symm
    simp only [← pow_two] at w'
    obtain ⟨z1, z2⟩ := (add_eq_zero_iff_of_nonneg
      (Finset.sum_nonneg fun c hc => mul_nonneg
        (by have hc := Finset.mem_Ico.mp hc; exact (areaC_pos g.toGeo hc.1 hc.2).le) (sq_nonneg _))
      (Finset.sum_nonneg fun c hc => mul_nonneg
        (by have hc := Finset.mem_Ico.mp hc; exact (areaT_pos g.toGeo hc.1 hc.2).le) (sq_nonneg _))).1 w'
    refine uniform_of_harmonic g hy hny ang (fun c c0 c1 => ?_) fun v v0 v1 => ?_
    · exact sum_sq_zero (fun c hc => by
        have hc := Finset.mem_Ico.mp hc
        exact areaC_pos g.toGeo hc.1 hc.2) z1 c (Finset.mem_Ico.2 ⟨c0, c1⟩)
    · exact sum_sq_zero (fun c hc => by
        have hc := Finset.mem_Ico.mp hc
        exact areaT_pos g.toGeo hc.1 hc.2) z2 v (Finset.mem_Ico.2 ⟨v0, v1⟩)
  have same : (∃ a b, Uniform p.dims m (fun e => m.real (.vn_edge .state) 0 e k) a b) →
      ∀ e, 0 ≤ e → e < p.dims.nedges → m1.real (.vn_edge .tend) 0 e k = m1'.real (.vn_edge .tend) 0 e k := by
    rintro ⟨a, b, U⟩ e e0 e1
    obtain ⟨d0, c0⟩ := harmonic_of_uniform g ang U
    obtain ⟨-, t2, -⟩ := C51_tendency_formula hd hc hn (by decide) he
    obtain ⟨-, t2', -⟩ := C51_tendency_formula hd hc
      (sw := { sw with en_vhyper := false }) hn (by decide) he'
    rw [t2 hdis e k e0 e1 k0 k1, t2' hdis e k e0 e1 k0 k1]
    have L : ∀ e, 0 ≤ e → e < p.dims.nedges → Spec.vecLap m (fun e => m.real (.vn_edge .state) 0 e k) e = 0 :=
      fun e a b => by
        rw [vecLap_eq g.toGeo _ a b]
        exact lap_zero g hc d0 c0 a b
    have L2 := lap_zero g hc (u := Spec.vecLap m (fun e => m.real (.vn_edge .state) 0 e k))
      (fun c x y => by rw [div_congr hc (v := fun _ => 0) L x y]; simp [Spec.div])
      (fun c x y => by rw [curl_congr hc (v := fun _ => 0) L x y]; simp [Spec.curl]) e0 e1
    simp only [Spec.velocityTend, hen, if_true, Bool.false_eq_true, if_false, L2]
    ring
  have none : (∀ e, 0 ≤ e → e < p.dims.nedges → m1.real (.vn_edge .tend) 0 e k = m1'.real (.vn_edge .tend) 0 e k) →
      ∑ e ∈ Spec.edges p.dims, Spec.dcE m e * Spec.dvE m e * (m.real (.vn_edge .state) 0 e k *
        (m1.real (.vn_edge .tend) 0 e k - m1'.real (.vn_edge .tend) 0 e k)) = 0 := fun h =>
    Finset.sum_eq_zero fun e he => by
      have he := Finset.mem_Ico.mp he
      rw [h e he.1 he.2, sub_self, mul_zero, mul_zero]
  exact ⟨⟨fun h => uni (none h), same⟩, ⟨uni, fun h => none (same h)⟩⟩

/-- A function of the cells with zero gradient is constant. -/
theorem const_of_grad (g : Geo2 p.nx p.ny p.dims.nlayers dc m.mesh) (hy : 2 ≤ p.ny) (hny : p.ny % 2 = 0)
    {φ : Int → ℝ} (h : ∀ e, 0 ≤ e → e < p.dims.nedges → Spec.grad m φ e = 0) :
    ∃ C, ∀ c, 0 ≤ c → c < p.dims.ncells → φ c = C := by
  have hd := g.dc_pos
  refine ⟨φ 0, fun c c0 c1 => const_of_Gr g.hnx (by omega) hny (fun e a b => ?_) c ⟨c0, c1⟩⟩
  have := h e a b
  rw [spec_grad g.toGeo _ a b] at this
  exact (mul_eq_zero.1 this).resolve_right (by positivity)

/-- A layer at rest stays at rest for an instant if and only if it has the same thickness everywhere: there is no
pattern of thicknesses that the pressure gradient does not see. -/
theorem C119_rest_flat (hv : RunValid p) (hx : 2 ≤ p.nx) (hy : 2 ≤ p.ny) (hny : p.ny % 2 = 0)
    (hdc : 0 < dc) {prm : Params ℝ} (hr : Ready p dc prm m) {sw : SWModel ℝ} (hn : sw.NoHook)
    (hen : sw.en_ssh = true) (hdis : sw.prm.disable_vn = false) (hgr : sw.prm.grav ≠ 0) {split : Bool}
    {t : ℝ} {m1 : Mem ℝ}
    (he : Exec p.dims (compute_tendency p.dims ⟨defaultKernels p.dims.vl, split⟩ sw .replace .tend
      .state t) m m1) {k : Int} (k0 : 0 ≤ k) (k1 : k < p.dims.nlayers)
    (hu : ∀ e, 0 ≤ e → e < p.dims.nedges → m.real (.vn_edge .state) 0 e k = 0) :
    (∀ e, 0 ≤ e → e < p.dims.nedges → m1.real (.vn_edge .tend) 0 e k = 0) ↔
      ∃ H, ∀ c, 0 ≤ c → c < p.dims.ncells → m.real (.h_cell .state) 0 c k = H := by
  obtain ⟨hd, hc⟩ := ready_ok hv hr
  have g := Ready.geo2 hr hv.toValid hx hy hdc
  obtain ⟨-, t2, -⟩ := C51_tendency_formula hd hc hn (by decide) he
  have val : ∀ e, 0 ≤ e → e < p.dims.nedges → m1.real (.vn_edge .tend) 0 e k =
      -(sw.prm.grav * Spec.grad m (fun i => m.real (.h_cell .state) 0 i k) e) := fun e e0 e1 => by
    rw [t2 hdis e k e0 e1 k0 k1]
    have q1 : ∀ q : Int → ℝ, Spec.pvFlux m q (fun e => Spec.mean m (fun i => m.real (.h_cell .state) 0 i k) e *
        m.real (.vn_edge .state) 0 e k) e = 0 := fun q => by
      have : Spec.pvFlux m q (fun e => Spec.mean m (fun i => m.real (.h_cell .state) 0 i k) e *
          m.real (.vn_edge .state) 0 e k) e = Spec.pvFlux m q (fun _ => 0) e := by
        rw [spec_pvFlux g.toGeo _ _ e0 e1, spec_pvFlux g.toGeo _ _ e0 e1]
        congr 1
        exact Tw_congr g.hnx e0 e1 fun s a b => by
          simp only [hu _ a b, mul_zero]
      rw [this]
      simp [Spec.pvFlux]
    have q2 : Spec.grad m (Spec.kinetic m fun e => m.real (.vn_edge .state) 0 e k) e = 0 := by
      rw [grad_congr hc (ψ := fun _ => 0) (fun c a b => by
        rw [kinetic_congr hc (v := fun _ => 0) hu a b]; simp [Spec.kinetic]) e0 e1]
      simp [Spec.grad]
    have d0 : ∀ c, 0 ≤ c → c < p.dims.ncells → Spec.div m (fun e => m.real (.vn_edge .state) 0 e k) c = 0 :=
      fun c x y => by rw [div_congr hc (v := fun _ => 0) hu x y]; simp [Spec.div]
    have c0 : ∀ v, 0 ≤ v → v < p.dims.nvertices → Spec.curl m (fun e => m.real (.vn_edge .state) 0 e k) v = 0 :=
      fun c x y => by rw [curl_congr hc (v := fun _ => 0) hu x y]; simp [Spec.curl]
    have q3 := lap_zero g hc d0 c0 e0 e1
    have L : ∀ e, 0 ≤ e → e < p.dims.nedges → Spec.vecLap m (fun e => m.real (.vn_edge .state) 0 e k) e = 0 :=
      fun e a b => by
        rw [vecLap_eq g.toGeo _ a b]
        exact lap_zero g hc d0 c0 a b
    have q4 := lap_zero g hc (u := Spec.vecLap m (fun e => m.real (.vn_edge .state) 0 e k))
      (fun c x y => by rw [div_congr hc (v := fun _ => 0) L x y]; simp [Spec.div])
      (fun c x y => by rw [curl_congr hc (v := fun _ => 0) L x y]; simp [Spec.curl]) e0 e1
    simp only [Spec.velocityTend, hen, if_true, q1, q2, q3, q4]
    simp
  constructor
  · intro h
    refine const_of_grad g hy hny fun e a b => ?_
    have := h e a b
    rw [val e a b, neg_eq_zero] at this
    exact (mul_eq_zero.1 this).resolve_left hgr
  · rintro ⟨H, hH⟩ e a b
    rw [val e a b, grad_congr hc (ψ := fun _ => H) hH a b]
    simp [Spec.grad]

/-- Tracer diffusion leaves the tracer tendency of exactly the uniform concentrations unchanged. -/
theorem C119_diffusion_kernel (hv : RunValid p) (hx : 2 ≤ p.nx) (hy : 2 ≤ p.ny) (hny : p.ny % 2 = 0) (hdc : 0 < dc)
    {prm : Params ℝ} (hr : Ready p dc prm m) {sw : SWModel ℝ} (hn : sw.NoHook)
    (hen : sw.en_tdiff = true) (hka : sw.prm.eddy_diff2 ≠ 0) {split : Bool} {t t' : ℝ} {m1 m1' : Mem ℝ}
    (he : Exec p.dims (compute_tendency p.dims ⟨defaultKernels p.dims.vl, split⟩ sw .replace .tend
      .state t) m m1)
    (he' : Exec p.dims (compute_tendency p.dims ⟨defaultKernels p.dims.vl, split⟩
      { sw with en_tdiff := false } .replace .tend .state t') m m1')
    {l k : Int} (l0 : 0 ≤ l) (l1 : l < p.dims.ntracers) (k0 : 0 ≤ k) (k1 : k < p.dims.nlayers)
    (hh : ∀ c, 0 ≤ c → c < p.dims.ncells → 0 < m.real (.h_cell .state) 0 c k)
    {q : Int → ℝ} (hq : ∀ c, 0 ≤ c → c < p.dims.ncells →
      m.real (.tr_cell .state) l c k = q c * m.real (.h_cell .state) 0 c k) :
    (∀ c, 0 ≤ c → c < p.dims.ncells → m1.real (.tr_cell .tend) l c k = m1'.real (.tr_cell .tend) l c k) ↔
      ∃ C, ∀ c, 0 ≤ c → c < p.dims.ncells → q c = C := by
  obtain ⟨hd, hc⟩ := ready_ok hv hr
  have g := Ready.geo2 hr hv.toValid hx hy hdc
  obtain ⟨var, -⟩ := C26_diffusion_dissipates hv hx hy hdc hr hn hen he he' l0 l1 k0 k1
    (fun c a b => (hh c a b).ne') hq
  have mpos : ∀ e, 0 ≤ e → e < p.dims.nedges → 0 < Spec.mean m (fun i => m.real (.h_cell .state) 0 i k) e :=
    fun e e0 e1 => by
      obtain ⟨a, b⟩ := hc.coe e e0 e1 0 (by omega) (by omega)
      obtain ⟨a', b'⟩ := hc.coe e e0 e1 1 (by omega) (by omega)
      have := hh _ a b; have := hh _ a' b'
      unfold Spec.mean
      positivity
  constructor
  · intro h
    rw [Finset.sum_eq_zero fun c hc => by
      have hc := Finset.mem_Ico.mp hc
      rw [h c hc.1 hc.2, sub_self, mul_zero, mul_zero]] at var
    have z := (mul_eq_zero.1 (neg_eq_zero.1 var.symm)).resolve_left hka
    simp only [← mul_assoc] at z
    have z' := sum_sq_zero (fun e he => by
      have he := Finset.mem_Ico.mp he
      exact mul_pos (dcdv_pos g.toGeo he.1 he.2) (mpos e he.1 he.2)) z
    exact const_of_grad g hy hny fun e a b => z' e (Finset.mem_Ico.2 ⟨a, b⟩)
  · rintro ⟨C, hC⟩ c c0 c1
    obtain ⟨-, -, t2⟩ := C51_tendency_formula hd hc hn (by decide) he
    obtain ⟨-, -, t2'⟩ := C51_tendency_formula hd hc
      (sw := { sw with en_tdiff := false }) hn (by decide) he'
    rw [t2 l c k l0 l1 c0 c1 k0 k1, t2' l c k l0 l1 c0 c1 k0 k1]
    have ed : Spec.div m (fun e => m.real .mesh_scaling_del2 0 e 0 *
        Spec.mean m (fun i => m.real (.h_cell .state) 0 i k) e * Spec.grad m (fun i =>
          m.real (.tr_cell .state) l i k / m.real (.h_cell .state) 0 i k) e) c = 0 := by
      rw [div_congr hc (v := fun _ => 0) (fun e a b => by
        rw [grad_congr hc (ψ := fun _ => C) (fun c x y => by
          rw [hq c x y, hC c x y, mul_div_assoc, div_self (hh c x y).ne', mul_one]) a b]
        simp [Spec.grad]) c0 c1]
      simp [Spec.div]
    simp only [Spec.tracerTend, hen, if_true, ed, Bool.false_eq_true, if_false]
    ring

/-- two memories with different thicknesses, parameters and the same varying velocity -/
example (prm prm' : Params ℝ) : ∃ m m' : Mem ℝ, Ready p46t (1 / 4) prm m ∧ Ready p46t (1 / 4) prm' m' ∧
    (∀ c, 0 ≤ c → c < p46t.dims.ncells → Spec.div m (fun e => m.real (.vn_edge .state) 0 e 0) c =
      Spec.div m' (fun e => m'.real (.vn_edge .state) 0 e 0) c) ∧
    (∀ v, 0 ≤ v → v < p46t.dims.nvertices → Spec.curl m (fun e => m.real (.vn_edge .state) 0 e 0) v =
      Spec.curl m' (fun e => m'.real (.vn_edge .state) 0 e 0) v) ∧
    m.real (.vn_edge .state) 0 7 0 = 49 ∧ m.real (.h_cell .state) 0 3 0 ≠ m'.real (.h_cell .state) 0 3 0 := by
  obtain ⟨m, hr, h, -⟩ := exists_ready p46t_run.toValid (1 / 4 : ℝ) prm
    ⟨fun _ _ => 2, fun e _ => e * e, fun _ _ _ => 0⟩ zeroFld
  obtain ⟨m', hr', h', -⟩ := exists_ready p46t_run.toValid (1 / 4 : ℝ) prm'
    ⟨fun c _ => 3 + c, fun e _ => e * e, fun _ _ _ => 0⟩ zeroFld
  have g := Ready.geo2 hr p46t_run.toValid (by decide) (by decide) (by norm_num)
  have g' := Ready.geo2 hr' p46t_run.toValid (by decide) (by decide) (by norm_num)
  have U : (fun e => m.real (.vn_edge .state) 0 e 0) = fun e => m'.real (.vn_edge .state) 0 e 0 := funext fun e =>
    (congrFun (congrFun (congrArg Fld.vn h) e) 0).trans (congrFun (congrFun (congrArg Fld.vn h') e) 0).symm
  refine ⟨m, m', hr, hr', fun c a b => ?_, fun v a b => ?_, ?_, ?_⟩
  · rw [U, spec_div g _ ⟨a, b⟩, spec_div g' _ ⟨a, b⟩]
  · rw [U, spec_curl g.toGeo _ a b, spec_curl g'.toGeo _ a b]
  · exact (congrFun (congrFun (congrArg Fld.vn h) 7) 0).trans (by norm_num)
  · have e1 : m.real (.h_cell .state) 0 3 0 = 2 := congrFun (congrFun (congrArg Fld.h h) 3) 0
    have e2 : m'.real (.h_cell .state) 0 3 0 = 3 + (3 : Int) := congrFun (congrFun (congrArg Fld.h h') 3) 0
    rw [e1, e2]
    norm_num

/-- A uniform flow over varying thickness: both viscosities leave its tendency unchanged. -/
example (prm : Params ℝ) (n : prm.disable_vn = false) (n2 : 0 < prm.visc_del2) (a b : ℝ) :
    ∃ m m1 m1' : Mem ℝ, Ready p46t (1 / 4) prm m ∧
      Exec p46t.dims (compute_tendency p46t.dims ⟨defaultKernels p46t.dims.vl, true⟩ (SWModel.ofParams prm) .replace
        .tend .state 3) m m1 ∧
      Exec p46t.dims (compute_tendency p46t.dims ⟨defaultKernels p46t.dims.vl, true⟩
        { SWModel.ofParams prm with en_vdiff := false } .replace .tend .state 3) m m1' ∧
      ∀ e, 0 ≤ e → e < p46t.dims.nedges → m1.real (.vn_edge .tend) 0 e 0 = m1'.real (.vn_edge .tend) 0 e 0 := by
  obtain ⟨m, hr, h, -⟩ := exists_ready p46t_run.toValid (1 / 4 : ℝ) prm
    ⟨fun c _ => 1 + c * c, fun e _ => a * Real.cos (angE e) + b * Real.sin (angE e), fun _ _ _ => 0⟩ zeroFld
  obtain ⟨hd, hc⟩ := ready_ok p46t_run hr
  have hn := noHook_ofParams prm
  obtain ⟨m1, he, -⟩ := ((C40_safe_deterministic hd hc hn true).1 .replace .tend .state 3 (by decide)).2
  obtain ⟨m1', he', -⟩ := ((C40_safe_deterministic hd hc (sw := { SWModel.ofParams prm with en_vdiff := false }) hn
    true).1 .replace .tend .state 3 (by decide)).2
  refine ⟨m, m1, m1', hr, he, he', ((C119_viscosity_kernel p46t_run (by decide) (by decide) (by decide) (by norm_num)
    hr hn (by show decide ((lit 0 : ℝ) < prm.visc_del2) = true; simpa using n2) n n2.ne' he he' le_rfl
    p46t_layers).1).2 ⟨a, b, fun e e0 e1 => ?_⟩⟩
  rw [(hr.hex p46t_run.toValid).1.angle_edge e e0 e1]
  exact congrFun (congrFun (congrArg Fld.vn h) e) 0

/-- A layer at rest whose thickness alternates from cell to cell: its tendency is not zero. -/
example (prm : Params ℝ) (n : prm.disable_vn = false) (n2 : prm.grav ≠ 0) :
    ∃ m m1 : Mem ℝ, Ready p46t (1 / 4) prm m ∧
      Exec p46t.dims (compute_tendency p46t.dims ⟨defaultKernels p46t.dims.vl, true⟩ (SWModel.ofParams prm) .replace
        .tend .state 3) m m1 ∧
      (∀ c, m.real (.h_cell .state) 0 c 0 = 10 + (c % 2 : Int)) ∧
      ∃ e, 0 ≤ e ∧ e < p46t.dims.nedges ∧ m1.real (.vn_edge .tend) 0 e 0 ≠ 0 := by
  obtain ⟨m, hr, h, -⟩ := exists_ready p46t_run.toValid (1 / 4 : ℝ) prm
    ⟨fun c _ => 10 + (c % 2 : Int), fun e _ => 0, fun _ _ _ => 0⟩ zeroFld
  obtain ⟨hd, hc⟩ := ready_ok p46t_run hr
  have hn := noHook_ofParams prm
  obtain ⟨m1, he, -⟩ := ((C40_safe_deterministic hd hc hn true).1 .replace .tend .state 3 (by decide)).2
  have H : ∀ c, m.real (.h_cell .state) 0 c 0 = 10 + (c % 2 : Int) := fun c =>
    congrFun (congrFun (congrArg Fld.h h) c) 0
  refine ⟨m, m1, hr, he, H, ?_⟩
  by_contra hh
  push Not at hh
  obtain ⟨C, hC⟩ := (C119_rest_flat p46t_run (by decide) (by decide) (by decide) (by norm_num) hr hn rfl n n2 he
    le_rfl p46t_layers (fun e _ _ => congrFun (congrFun (congrArg Fld.vn h) e) 0)).1 hh
  have a := hC 0 le_rfl (by decide)
  have b := hC 1 (by decide) (by decide)
  rw [H] at a b
  norm_num at a b
  linarith

/-- a state of varying thickness and concentration for the last theorem -/
example (prm : Params ℝ) (n2 : 0 < prm.eddy_diff2) :
    ∃ m m1 m1' : Mem ℝ, Ready p46t (1 / 4) prm m ∧ (SWModel.ofParams prm).en_tdiff = true ∧
      0 < p46t.dims.ntracers ∧
      Exec p46t.dims (compute_tendency p46t.dims ⟨defaultKernels p46t.dims.vl, true⟩ (SWModel.ofParams prm) .replace
        .tend .state 3) m m1 ∧
      Exec p46t.dims (compute_tendency p46t.dims ⟨defaultKernels p46t.dims.vl, true⟩
        { SWModel.ofParams prm with en_tdiff := false } .replace .tend .state 3) m m1' ∧
      (∀ c k, 0 < m.real (.h_cell .state) 0 c k) ∧
      ∀ l c k, m.real (.tr_cell .state) l c k = (l + c) * m.real (.h_cell .state) 0 c k := by
  obtain ⟨m, hr, h, -⟩ := exists_ready p46t_run.toValid (1 / 4 : ℝ) prm
    ⟨fun c _ => 1 + c * c, fun e _ => e, fun l c _ => (l + c) * (1 + c * c)⟩ zeroFld
  obtain ⟨hd, hc⟩ := ready_ok p46t_run hr
  have hn := noHook_ofParams prm
  obtain ⟨m1, he, -⟩ := ((C40_safe_deterministic hd hc hn true).1 .replace .tend .state 3 (by decide)).2
  obtain ⟨m1', he', -⟩ := ((C40_safe_deterministic hd hc (sw := { SWModel.ofParams prm with en_tdiff := false }) hn
    true).1 .replace .tend .state 3 (by decide)).2
  have H : ∀ c k, m.real (.h_cell .state) 0 c k = 1 + c * c := fun c k =>
    congrFun (congrFun (congrArg Fld.h h) c) k
  refine ⟨m, m1, m1', hr, by show decide ((lit 0 : ℝ) < prm.eddy_diff2) = true; simpa using n2, by decide, he, he',
    fun c k => ?_, fun l c k => ?_⟩
  · rw [H]
    have := mul_self_nonneg (c : ℝ)
    linarith
  · rw [H]
    exact congrFun (congrFun (congrFun (congrArg Fld.tr h) l) c) k

end Props
end
end Omega
