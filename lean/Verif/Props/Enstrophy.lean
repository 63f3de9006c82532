import Verif.Props.ViscousEnergy
import Verif.Props.Irrotational

/-!
# C118: potential enstrophy is not conserved

The flux of potential vorticity is built to do no work (C20).  It does not conserve the potential enstrophy, the sum
of the squared potential vorticity weighted with the thickness.
-/

set_option linter.unusedVariables false
set_option linter.unusedSectionVars false

namespace Omega
noncomputable section

namespace Spec

open Refine

/-- potential enstrophy: the potential vorticity squared, times the thickness, integrated over the triangles and
summed over the layers -/
def enstrophy (d : Dims) (m : Mem ℝ) (x : Fld ℝ) : ℝ :=
  ∑ k ∈ layers d, ∑ v ∈ verts d, areaT m v * kiteMean m (fun i => x.h i k) v *
    pv m (fun i => x.h i k) (fun i => x.vn i k) v ^ 2

end Spec

namespace Props

open Prog Model Refine Hex Set

variable {p : MeshParams} {dc : ℝ} {m : Mem ℝ}

/-! ### Corners and sides of a cell -/

section
variable {nx ny : Int} (hnx : 3 ≤ nx) (hny : 2 ≤ ny) (hev : ny % 2 = 0)
include hnx hny hev

/-- the end points of the sides of a cell are its corners -/
theorem side_ends {c : Int} (hc : IsCell nx ny c) :
    (Hex.voe nx ny (E nx ny c 0) 0 = V nx ny c 1 ∧ Hex.voe nx ny (E nx ny c 0) 1 = V nx ny c 0) ∧
    (Hex.voe nx ny (E nx ny c 1) 0 = V nx ny c 2 ∧ Hex.voe nx ny (E nx ny c 1) 1 = V nx ny c 1) ∧
    (Hex.voe nx ny (E nx ny c 2) 0 = V nx ny c 3 ∧ Hex.voe nx ny (E nx ny c 2) 1 = V nx ny c 2) ∧
    (Hex.voe nx ny (E nx ny c 3) 0 = V nx ny c 3 ∧ Hex.voe nx ny (E nx ny c 3) 1 = V nx ny c 4) ∧
    (Hex.voe nx ny (E nx ny c 4) 0 = V nx ny c 4 ∧ Hex.voe nx ny (E nx ny c 4) 1 = V nx ny c 5) ∧
    (Hex.voe nx ny (E nx ny c 5) 0 = V nx ny c 5 ∧ Hex.voe nx ny (E nx ny c 5) 1 = V nx ny c 0) := by
  have h1 : 1 ≤ nx := by omega
  have t1 : nb nx ny 2 (nb nx ny 4 c) = nb nx ny 3 c := by
    simpa using nb_turn' h1 hev hc (j := 4) (by omega) (by omega)
  have t2 : nb nx ny 3 (nb nx ny 5 c) = nb nx ny 4 c := by
    simpa using nb_turn' h1 hev hc (j := 5) (by omega) (by omega)
  have t3 : nb nx ny 2 (nb nx ny 5 c) = c := by
    simpa using nb_nb h1 hev hc (j := 5) (by omega) (by omega)
  refine ⟨⟨?_, ?_⟩, ⟨?_, ?_⟩, ⟨?_, ?_⟩, ⟨?_, ?_⟩, ⟨?_, ?_⟩, ?_, ?_⟩
  · exact voe_E (by omega) (by omega) (.inl rfl)
  · exact voe_E (by omega) (by omega) (.inr rfl)
  · exact voe_E (by omega) (by omega) (.inl rfl)
  · exact voe_E (by omega) (by omega) (.inr rfl)
  · exact voe_E (by omega) (by omega) (.inl rfl)
  · exact voe_E (by omega) (by omega) (.inr rfl)
  all_goals
    unfold Hex.voe
    rw [E_mod (by omega) (by omega), E_div_hi (by omega) (by omega)]
    simp [V, t1, t2, t3]

/-! ### Pairs of edges of which one is edge 0 -/

/-- edge 0 is side 0 of cell 0 and side 3 of its neighbour, and a side of no other cell -/
theorem sum_edge0 {G : Int → Int → ℝ} (hG : ∀ a b, b ≠ 0 → G a b = 0) :
    ∑ e ∈ upto (3 * (nx * ny)), Tw nx ny G e =
      (-(1 / 3) * G (E nx ny 0 1) 0 - 1 / 6 * G (E nx ny 0 2) 0 - 1 / 6 * G (E nx ny 0 4) 0
        - 1 / 3 * G (E nx ny 0 5) 0) +
      (-(1 / 6) * G (E nx ny (inv nx ny 3 0) 1) 0 - 1 / 3 * G (E nx ny (inv nx ny 3 0) 2) 0
        - 1 / 3 * G (E nx ny (inv nx ny 3 0) 4) 0 - 1 / 6 * G (E nx ny (inv nx ny 3 0) 5) 0) := by
  have h1 : 1 ≤ nx := by omega
  have a4 := area_ge (by omega : 2 ≤ nx) hny
  have hc : IsCell nx ny 0 := ⟨le_rfl, by omega⟩
  obtain ⟨i3, -⟩ := inv_35 (by omega : 2 ≤ nx) hny
  set C := inv nx ny 3 0 with hC
  have hCc : IsCell nx ny C := inv_isCell h1 hc
  have n3 : nb nx ny 3 C = 0 := nb_inv h1 hc
  have s0 : ∀ c, c ≠ 0 → ∀ a, G a (E nx ny c 0) = 0 := fun c h a => hG _ _ (by simp [E, h])
  have s1 : ∀ c a, G a (E nx ny c 1) = 0 := fun c a => hG _ _ (by simp only [E]; norm_num; omega)
  have s2 : ∀ c a, G a (E nx ny c 2) = 0 := fun c a => hG _ _ (by simp only [E]; norm_num; omega)
  have s3 : ∀ c, nb nx ny 3 c ≠ 0 → ∀ a, G a (E nx ny c 3) = 0 := fun c h a => hG _ _ (by simp [E, h])
  have s4 : ∀ c a, G a (E nx ny c 4) = 0 := fun c a => hG _ _ (by simp only [E]; norm_num; omega)
  have s5 : ∀ c a, G a (E nx ny c 5) = 0 := fun c a => hG _ _ (by simp only [E]; norm_num; omega)
  have e0 : E nx ny 0 0 = 0 := by simp [E]
  have e3 : E nx ny C 3 = 0 := by simp [E, n3]
  have : ∑ e ∈ upto (3 * (nx * ny)), Tw nx ny G e = ∑ e ∈ upto (3 * (nx * ny)),
      (Tq nx ny G (coe nx ny e 0) (e % 3 + 3) + Tq nx ny G (e / 3) (e % 3)) := by
    refine Finset.sum_congr rfl fun e he => Tw_eq h1 G ?_
    simp only [Finset.mem_Ico] at he
    exact isCell_edge he.1 he.2
  rw [this, sum_sides h1 (Tq nx ny G)]
  have sub : ∑ c ∈ upto (nx * ny), (Tq nx ny G c 0 + Tq nx ny G c 1 + Tq nx ny G c 2 + Tq nx ny G c 3 +
      Tq nx ny G c 4 + Tq nx ny G c 5) = ∑ c ∈ ({0, C} : Finset Int), (Tq nx ny G c 0 + Tq nx ny G c 1 +
      Tq nx ny G c 2 + Tq nx ny G c 3 + Tq nx ny G c 4 + Tq nx ny G c 5) := by
    refine (Finset.sum_subset (fun c h => ?_) fun c h h' => ?_).symm
    · simp only [Finset.mem_insert, Finset.mem_singleton] at h
      rcases h with rfl | rfl
      · exact mem_cells.2 hc
      · exact mem_cells.2 hCc
    · simp only [Finset.mem_insert, Finset.mem_singleton, not_or] at h'
      have hcc := mem_cells.1 h
      have nn : nb nx ny 3 c ≠ 0 := fun hh => h'.2 (nb_inj (j := 3) h1 hcc hCc (hh.trans n3.symm))
      unfold Tq
      norm_num
      simp only [s0 c h'.1, s1, s2, s3 c nn, s4, s5]
      ring
  rw [sub, Finset.sum_pair (by omega)]
  have nn : nb nx ny 3 0 ≠ 0 := nb_ne (by omega) hny hc 3
  have C0 : C ≠ 0 := by omega
  unfold Tq
  norm_num
  simp only [s0 C C0, s1, s2, s3 0 nn, s4, s5, e0, e3]
  simp [wRaw]
  ring

/-- a thickness four times as large in one cell -/
def thickCell (nx ny : Int) (c : Int) : ℝ := 1 + 3 * oneAt (inv nx ny 3 0) c

theorem Mv_thick (v : Int) : Mv nx ny (thickCell nx ny) v = 1 + (oneAt (inv nx ny 3 0) (cov nx ny v 0) +
    oneAt (inv nx ny 3 0) (cov nx ny v 1) + oneAt (inv nx ny 3 0) (cov nx ny v 2)) := by
  unfold Mv thickCell
  ring

theorem Mv_near {v : Int} (hv : IsCell nx ny (v / 2)) {s : Int} (hs : 0 ≤ s ∧ s < 3)
    (h : cov nx ny v s = inv nx ny 3 0) : Mv nx ny (thickCell nx ny) v = 2 := by
  rw [Mv_thick hnx hny hev]
  have key : ∀ t, 0 ≤ t ∧ t < 3 → oneAt (inv nx ny 3 0) (cov nx ny v t) = if t = s then (1 : ℝ) else 0 := by
    intro t ht
    unfold oneAt
    by_cases e : t = s
    · rw [if_pos e, e, if_pos h]
    · rw [if_neg e, if_neg fun hh => e (cov_inj (by omega) hny hv ht hs (hh.trans h.symm))]
  rw [key 0 (by omega), key 1 (by omega), key 2 (by omega)]
  obtain rfl | rfl | rfl : s = 0 ∨ s = 1 ∨ s = 2 := by omega
  all_goals norm_num

theorem Mv_far {v : Int} (h0 : cov nx ny v 0 ≠ inv nx ny 3 0) (h1 : cov nx ny v 1 ≠ inv nx ny 3 0)
    (h2 : cov nx ny v 2 ≠ inv nx ny 3 0) : Mv nx ny (thickCell nx ny) v = 1 := by
  rw [Mv_thick hnx hny hev]
  simp [oneAt, h0, h1, h2]

/-- the pairs of edges do not balance -/
theorem thick_work (κ f : ℝ) {q r : Int → ℝ}
    (hq : ∀ v, 0 ≤ v → v < 2 * (nx * ny) →
      q v = (κ * Cu nx ny (fun e => -oneAt 0 e) v + f) / Mv nx ny (thickCell nx ny) v)
    (hr : ∀ e, r e = (q (Hex.voe nx ny e 0) + q (Hex.voe nx ny e 1)) / 2) :
    ∑ e ∈ upto (3 * (nx * ny)), Tw nx ny (fun e e' =>
      Gv nx ny q e * (Mn nx ny (thickCell nx ny) e' * -oneAt 0 e' * (r e' - r e))) e = 5 / 24 * f ^ 2 := by
  have h1 : 1 ≤ nx := by omega
  have a4 := area_ge (by omega : 2 ≤ nx) hny
  have hc : IsCell nx ny 0 := ⟨le_rfl, by omega⟩
  obtain ⟨i3, -⟩ := inv_35 (by omega : 2 ≤ nx) hny
  have hCc : IsCell nx ny (inv nx ny 3 0) := inv_isCell h1 hc
  have n3 : nb nx ny 3 (inv nx ny 3 0) = 0 := nb_inv h1 hc
  -- the vorticity
  have cu : ∀ v, 0 ≤ v → v < 2 * (nx * ny) →
      Cu nx ny (fun e => -oneAt 0 e) v = oneAt v 1 - oneAt v 0 := fun v v0 v1 => by
    have := Cu_oneAt (by omega : 2 ≤ nx) hny v0 v1 (a := 0) le_rfl (by omega)
    have z0 : Hex.voe nx ny 0 0 = 1 := by simp [Hex.voe]
    have z1 : Hex.voe nx ny 0 1 = 0 := by simp [Hex.voe]
    rw [z0, z1] at this
    have e : Cu nx ny (fun e => -oneAt 0 e) v = -Cu nx ny (oneAt 0) v := by
      unfold Cu; split <;> ring
    rw [e, this]; ring
  -- rows
  have rC : row nx (inv nx ny 3 0) = row nx 0 := row_inv_eq h1 hc (.inr rfl)
  have rnb : ∀ j, 0 ≤ j → j < 6 → j ≠ 0 ∧ j ≠ 3 → ∀ c, IsCell nx ny c → row nx (nb nx ny j c) ≠ row nx c :=
    fun j a b d c hc' hh => by
      have := row_inv_ne (ny := ny) h1 hny (nb_isCell (j := j) h1 hc') d
      rw [inv_nb h1 hc'] at this
      exact this hh.symm
  have rnb0 : ∀ c, IsCell nx ny c → row nx (nb nx ny 3 c) = row nx c := fun c hc' => by
    have := row_inv_eq (ny := ny) (j := 3) h1 (nb_isCell (j := 3) h1 hc') (.inr rfl)
    rw [inv_nb h1 hc'] at this
    exact this.symm
  have rinv : ∀ j, j ≠ 0 ∧ j ≠ 3 → ∀ c, IsCell nx ny c → row nx (inv nx ny j c) ≠ row nx c :=
    fun j d c hc' => row_inv_ne h1 hny hc' d
  have rowne : ∀ c, row nx c ≠ row nx 0 → c ≠ inv nx ny 3 0 := fun c h e => h (by rw [e, rC])
  have c2 := nb_isCell (ny := ny) (j := 2) h1 hc
  have c3 := nb_isCell (ny := ny) (j := 3) h1 hc
  have c4 := nb_isCell (ny := ny) (j := 4) h1 hc
  have d2 := nb_isCell (ny := ny) (j := 2) h1 hCc
  have d4 := nb_isCell (ny := ny) (j := 4) h1 hCc
  have k2 : inv nx ny 2 (nb nx ny 2 0) = 0 := inv_nb h1 hc
  have k3 : inv nx ny 3 (nb nx ny 3 0) = 0 := inv_nb h1 hc
  have k4 : inv nx ny 4 (nb nx ny 4 0) = 0 := inv_nb h1 hc
  have C0 : (0 : Int) ≠ inv nx ny 3 0 := by omega
  have nb3 : nb nx ny 3 0 = 1 := by
    have c0 : col nx 0 = 0 := by simp [col]
    have r0 : row nx 0 = 0 := by simp [row]
    unfold nb
    rw [c0, r0]
    simp only [nbI, nbR, cid, px]
    norm_num
    omega
  have i2 := nb_ne (by omega) hny hc 2
  have i4 := nb_ne (by omega) hny hc 4
  have j2 : nb nx ny 2 (inv nx ny 3 0) ≠ 0 := fun h => rnb 2 (by omega) (by omega) (by omega) _ hCc (by rw [h, rC])
  have j4 : nb nx ny 4 (inv nx ny 3 0) ≠ 0 := fun h => rnb 4 (by omega) (by omega) (by omega) _ hCc (by rw [h, rC])
  unfold IsCell at c2 c3 c4 d2 d4 hCc hc
  -- values at the corners of cell 0
  have q0 : q 0 = (-κ + f) / 2 := by
    rw [hq 0 le_rfl (by omega), cu 0 le_rfl (by omega),
      Mv_near hnx hny hev (s := 2) ⟨by omega, by omega⟩ (by omega) (by simp [Hex.cov])]
    simp [oneAt]
  have q1 : q 1 = (κ + f) / 2 := by
    rw [hq 1 (by omega) (by omega), cu 1 (by omega) (by omega),
      Mv_near hnx hny hev (s := 0) ⟨by omega, by omega⟩ (by omega) (by simp [Hex.cov])]
    simp [oneAt]
  have far : ∀ v, 0 ≤ v → v < 2 * (nx * ny) → v ≠ 0 → v ≠ 1 → cov nx ny v 0 ≠ inv nx ny 3 0 →
      cov nx ny v 1 ≠ inv nx ny 3 0 → cov nx ny v 2 ≠ inv nx ny 3 0 → q v = f := fun v v0 v1 n0 n1 a b d => by
    rw [hq v v0 v1, cu v v0 v1, Mv_far hnx hny hev a b d]
    simp [oneAt, n0.symm, n1.symm]
  have near : ∀ a, 0 ≤ a → a < 6 → V nx ny (inv nx ny 3 0) a ≠ 0 → V nx ny (inv nx ny 3 0) a ≠ 1 →
      q (V nx ny (inv nx ny 3 0) a) = f / 2 := fun a a0 a6 n0 n1 => by
    have vr := V_range (ny := ny) h1 (c := inv nx ny 3 0) hCc a
    have cs : 0 ≤ covSlot a ∧ covSlot a < 3 := by unfold covSlot; split_ifs <;> omega
    rw [hq _ vr.1 vr.2, cu _ vr.1 vr.2,
      Mv_near hnx hny hev (s := covSlot a) ⟨by omega, by omega⟩ cs (cov_V h1 hCc a0 a6)]
    simp [oneAt, n0.symm, n1.symm]
  have m0 : Mn nx ny (thickCell nx ny) 0 = 5 / 2 := by
    unfold Mn thickCell
    rw [coe_one, coe_zero]
    norm_num
    simp only [oneAt, if_true, if_neg C0]
    norm_num
  have r2 := rnb 2 (by omega) (by omega) (by omega) 0 hc
  have r4 := rnb 4 (by omega) (by omega) (by omega) 0 hc
  have r3 := rnb0 0 hc
  have f2 : q (2 * nb nx ny 2 0) = f := by
    have e : 2 * nb nx ny 2 0 / 2 = nb nx ny 2 0 := by omega
    refine far _ (by omega) (by omega) (by omega) (by omega) ?_ ?_ ?_ <;> simp [Hex.cov]
    · exact rowne _ r2
    · rw [k2]; exact C0
    · refine rowne _ ?_
      rw [row_inv_eq h1 c2 (.inr rfl)]; exact r2
  have f3 : q (2 * nb nx ny 3 0 + 1) = f := by
    have e : (2 * nb nx ny 3 0 + 1) / 2 = nb nx ny 3 0 := by omega
    refine far _ (by omega) (by omega) (by omega) (by omega) ?_ ?_ ?_ <;> simp [Hex.cov] <;> rw [e]
    · rw [k3]; exact C0
    · refine rowne _ ?_
      rw [← r3]; exact rinv 4 (by omega) _ c3
    · omega
  have f4 : q (2 * nb nx ny 3 0) = f := by
    refine far _ (by omega) (by omega) (by omega) (by omega) ?_ ?_ ?_ <;> simp [Hex.cov]
    · omega
    · refine rowne _ ?_
      rw [← r3]; exact rinv 2 (by omega) _ c3
    · rw [k3]; exact C0
  have f5 : q (2 * nb nx ny 4 0 + 1) = f := by
    have e : (2 * nb nx ny 4 0 + 1) / 2 = nb nx ny 4 0 := by omega
    refine far _ (by omega) (by omega) (by omega) (by omega) ?_ ?_ ?_ <;> simp [Hex.cov] <;> rw [e]
    · refine rowne _ ?_
      rw [row_inv_eq h1 c4 (.inr rfl)]; exact r4
    · rw [k4]; exact C0
    · exact rowne _ r4
  -- the corners of the two cells
  have V0 : V nx ny 0 0 = 0 := by simp [V]
  have V1 : V nx ny 0 1 = 1 := by simp [V]
  have V2 : V nx ny 0 2 = 2 * nb nx ny 2 0 := by simp [V]
  have V3 : V nx ny 0 3 = 2 * nb nx ny 3 0 + 1 := by simp [V]
  have V4 : V nx ny 0 4 = 2 * nb nx ny 3 0 := by simp [V]
  have V5 : V nx ny 0 5 = 2 * nb nx ny 4 0 + 1 := by simp [V]
  have W3 : V nx ny (inv nx ny 3 0) 3 = 1 := by simp [V, n3]
  have W4 : V nx ny (inv nx ny 3 0) 4 = 0 := by simp [V, n3]
  have w0 := near 0 (by omega) (by omega) (by simp [V]; omega) (by simp [V]; omega)
  have w1 := near 1 (by omega) (by omega) (by simp [V]; omega) (by simp [V]; omega)
  have w2 := near 2 (by omega) (by omega) (by simp [V]; omega) (by simp [V]; omega)
  have w5 := near 5 (by omega) (by omega) (by simp [V]; omega) (by simp [V]; omega)
  obtain ⟨-, s1, s2, -, s4, s5⟩ := side_ends hnx hny hev (c := 0) hc
  obtain ⟨-, t1, t2, -, t4, t5⟩ := side_ends hnx hny hev (c := inv nx ny 3 0) hCc
  have z0 : Hex.voe nx ny 0 0 = 1 := by simp [Hex.voe]
  have z1 : Hex.voe nx ny 0 1 = 0 := by simp [Hex.voe]
  rw [sum_edge0 hnx hny hev (fun a b hb => by simp [oneAt, hb])]
  simp only [Gv, hr, s1, s2, s4, s5, t1, t2, t4, t5, z0, z1, V0, V1, V2, V3, V4, V5, W3, W4, w0, w1, w2, w5, f2, f3,
    f4, f5, q0, q1, m0]
  simp only [oneAt, if_true]
  ring

end

/-! ### The rate of change -/

/-- the rate of change of the potential enstrophy of a layer, as a sum over pairs of edges of a cell -/
theorem enstrophy_rate (h : Geo2 p.nx p.ny p.dims.nlayers dc m.mesh) (hc : ConnOK p.dims m) (hev : p.ny % 2 = 0)
    {sw : SWModel ℝ} (h1 : sw.en_hadv = true) (h2 : sw.en_pv = true) (h5 : sw.en_vdiff = false)
    (h6 : sw.en_vhyper = false) {k : Int} (k0 : 0 ≤ k) (k1 : k < p.dims.nlayers) (x u q r : Int → ℝ)
    (hq : q = Spec.pv m x u) (hr : ∀ e, r e = (q (Hex.voe p.nx p.ny e 0) + q (Hex.voe p.nx p.ny e 1)) / 2) :
    ∑ v ∈ Spec.verts p.dims, Spec.areaT m v * (2 * q v * Spec.curl m (Spec.velocityTend m sw k x u) v -
      q v ^ 2 * Spec.kiteMean m (Spec.thicknessTend m sw x u) v) =
    dc * √3 / 3 * ∑ e ∈ upto (3 * (p.nx * p.ny)), Tw p.nx p.ny (fun e e' =>
      Gv p.nx p.ny q e * (Mn p.nx p.ny x e' * u e' * (r e' - r e))) e := by
  have hd := h.dc_pos
  have s3 : (√3 : ℝ) ≠ 0 := by positivity
  have s33 : (√3 : ℝ) * √3 = 3 := Real.mul_self_sqrt (by norm_num)
  set F : Int → ℝ := fun e => Mn p.nx p.ny x e * u e with hF
  set Q : Int → ℝ := Tw p.nx p.ny (fun e e' => F e' * ((r e + r e') / 2)) with hQ
  have vm : ∀ e, 0 ≤ e → e < 3 * (p.nx * p.ny) → Spec.vmean m q e = r e := fun e e0 e1 => by
    rw [hr]
    unfold Spec.vmean
    have a0 : Spec.vertOf m e 0 = Hex.voe p.nx p.ny e 0 := h.voe e e0 e1 0 (by omega) (by omega)
    have a1 : Spec.vertOf m e 1 = Hex.voe p.nx p.ny e 1 := h.voe e e0 e1 1 (by omega) (by omega)
    rw [a0, a1]
  have pt : ∀ v, 0 ≤ v → v < 2 * (p.nx * p.ny) →
      Spec.areaT m v * (2 * q v * Spec.curl m (Spec.velocityTend m sw k x u) v -
      q v ^ 2 * Spec.kiteMean m (Spec.thicknessTend m sw x u) v) =
      dc * √3 / 3 * (2 * (q v * Cu p.nx p.ny Q v) - q v ^ 2 * Cu p.nx p.ny (Tn p.nx p.ny F) v) := fun v v0 v1 => by
    have c1 : Spec.curl m (Spec.velocityTend m sw k x u) v = 4 / (3 * dc) * Cu p.nx p.ny Q v := by
      rw [curl_tend h hc hev sw k0 k1 x u v0 v1]
      have : Spec.vorticityTend m sw (Spec.vmean m (Spec.pv m x u)) (fun e => Spec.mean m x e * u e)
          (Spec.curl m u) v = Spec.curl m (Spec.pvFlux m (Spec.vmean m q) (fun e => Spec.mean m x e * u e)) v := by
        unfold Spec.vorticityTend
        rw [h2, h5, h6, hq]
        simp [Spec.curl]
      rw [this, spec_curl h.toGeo _ v0 v1]
      have cg : Cu p.nx p.ny (Spec.pvFlux m (Spec.vmean m q) (fun e => Spec.mean m x e * u e)) v =
          Cu p.nx p.ny (fun e => 1 / √3 * Q e) v := by
        refine Cu_congr h.hnx (fun e e0 e1 => ?_) v0 v1
        rw [spec_pvFlux h.toGeo _ _ e0 e1]
        refine congrArg (1 / √3 * ·) (Tw_congr h.hnx e0 e1 fun e' a b => ?_)
        rw [vm e e0 e1, vm e' a b, spec_mean h.toGeo _ a b]
      have lin : Cu p.nx p.ny (fun e => 1 / √3 * Q e) v = 1 / √3 * Cu p.nx p.ny Q v := by
        unfold Cu; split <;> ring
      rw [cg, lin, show 4 / (3 * dc) = 4 / ((√3 * √3) * dc) by rw [s33]]
      field_simp
    have c2 : Spec.kiteMean m (Spec.thicknessTend m sw x u) v = 4 / (3 * dc) * Cu p.nx p.ny (Tn p.nx p.ny F) v := by
      rw [Cu_Tn h.hnx hev F v0 v1, spec_kiteMean h.toGeo _ v0 v1]
      have cg : Mv p.nx p.ny (Spec.thicknessTend m sw x u) v =
          Mv p.nx p.ny (fun c => -(2 / (3 * dc)) * Dv p.nx p.ny F c) v := by
        refine Mv_congr h.hnx (fun c c0 c1' => ?_) v0 v1
        unfold Spec.thicknessTend
        rw [h1, if_pos rfl, spec_div h _ ⟨c0, c1'⟩,
          Dv_congr h.hnx (u := fun e => Spec.mean m x e * u e) (u' := F)
            (fun e e0 e1 => congrArg (· * u e) (spec_mean h.toGeo _ e0 e1)) ⟨c0, c1'⟩]
        ring
      rw [cg]
      unfold Mv
      ring
    rw [c1, c2, spec_areaT h.toGeo v0 v1]
    field_simp
  have e1 : ∑ v ∈ Spec.verts p.dims, Spec.areaT m v * (2 * q v * Spec.curl m (Spec.velocityTend m sw k x u) v -
      q v ^ 2 * Spec.kiteMean m (Spec.thicknessTend m sw x u) v) = ∑ v ∈ upto (2 * (p.nx * p.ny)),
      dc * √3 / 3 * (2 * (q v * Cu p.nx p.ny Q v) - q v ^ 2 * Cu p.nx p.ny (Tn p.nx p.ny F) v) :=
    Finset.sum_congr rfl fun v hv => by
      have := Finset.mem_Ico.mp hv
      exact pt v this.1 this.2
  rw [e1, ← Finset.mul_sum, Finset.sum_sub_distrib, ← Finset.mul_sum, adjoint_vertex h.hnx,
    adjoint_vertex h.hnx (fun v => q v ^ 2), Finset.mul_sum, ← Finset.sum_sub_distrib]
  refine congrArg (dc * √3 / 3 * ·) (Finset.sum_congr rfl fun e _ => ?_)
  have g2 : Gv p.nx p.ny (fun v => q v ^ 2) e = 2 * r e * Gv p.nx p.ny q e := by
    rw [hr]; unfold Gv; ring
  rw [g2, hQ]
  unfold Tn Tw
  rw [Finset.sum_mul, Finset.sum_mul, Finset.mul_sum, ← Finset.sum_sub_distrib]
  refine Finset.sum_congr rfl fun s _ => ?_
  rw [hF]
  ring

/-! ### Functionals of the state that grow -/

/-- the potential enstrophy depends on the entries in range only -/
theorem enstrophy_congr (hc : ConnOK p.dims m) {x y : Fld ℝ} (h : EqFld p.dims x y) :
    Spec.enstrophy p.dims m x = Spec.enstrophy p.dims m y := by
  refine Finset.sum_congr rfl fun k hk => Finset.sum_congr rfl fun v hv => ?_
  have k' := Finset.mem_Ico.mp hk
  have v' := Finset.mem_Ico.mp hv
  have a := kiteMean_congr hc (u := fun i => x.h i k) (v := fun i => y.h i k)
    (fun c c0 c1 => h.h c k c0 c1 k'.1 k'.2) v'.1 v'.2
  have b := curl_congr hc (u := fun i => x.vn i k) (v := fun i => y.vn i k)
    (fun e e0 e1 => h.vn e k e0 e1 k'.1 k'.2) v'.1 v'.2
  unfold Spec.pv
  rw [a, b]

theorem enstrophy_static {m1 : Mem ℝ} (hs : Static m1 m) (x : Fld ℝ) :
    Spec.enstrophy p.dims m1 x = Spec.enstrophy p.dims m x := by
  refine Finset.sum_congr rfl fun k hk => Finset.sum_congr rfl fun v hv => ?_
  simp only [Spec.pv, Spec.curl, Spec.kiteMean, Spec.spoke, Spec.dcE, Spec.areaT, hs.int, hs.real .dc_edge rfl,
    hs.real .area_triangle rfl, hs.real .kiteareas_on_vertex rfl, hs.real .f_vertex rfl,
    hs.real .edge_sign_on_vertex rfl]

/-- A continuous functional that grows at the start of a solution has grown, by a margin that does not vanish as the
steps shrink, at the end of the runs of the RK4 stepper up to some time. -/
theorem runs_gain (hv : RunValid p) (hdc : 0 < dc) {prm : Params ℝ} (n1 : prm.disable_h = false)
    (n2 : prm.disable_vn = false) (hr : Ready p dc prm m) {T : ℝ} {s : ℝ → Fld ℝ} (T0 : 0 < T)
    (hs : Solves p.dims m (SWModel.ofParams prm) T s) (h0 : EqFld p.dims (m.fld .state) (s 0))
    {Φ : (Ix p.dims → ℝ) → ℝ} (cont : ContinuousOn Φ (wetSet p.dims)) {ρ : ℝ} (ρ0 : 0 < ρ)
    (d0 : HasDerivWithinAt (fun t => Φ (pack p.dims (s t))) ρ (Icc 0 T) 0) :
    ∃ (T r : ℝ) (n0 : ℕ), 0 < T ∧ 0 < r ∧ ∀ (sched : List (ℝ × ℝ)) (split : Bool), n0 ≤ sched.length →
      (∀ q ∈ sched, q.2 = T / sched.length) →
      ∀ m1 : Mem ℝ, Exec p.dims (Stepper.rk4.ctor p.dims ++ Stepper.rk4.run p.dims
        ⟨defaultKernels p.dims.vl, split⟩ (SWModel.ofParams prm) sched) m m1 →
      Φ (pack p.dims (m.fld .state)) + r ≤ Φ (pack p.dims (m1.fld .state)) := by
  obtain ⟨T1, t0, t1, gain⟩ : ∃ T1, 0 < T1 ∧ T1 ≤ T ∧ Φ (pack p.dims (s 0)) < Φ (pack p.dims (s T1)) := by
    have d1 := d0.mono_of_mem_nhdsWithin (Icc_mem_nhdsGE T0)
    rw [hasDerivWithinAt_iff_tendsto_slope, Ici_sdiff_left] at d1
    obtain ⟨T1, hp, h1⟩ := ((d1.eventually (lt_mem_nhds ρ0)).and (Ioc_mem_nhdsGT T0)).exists
    refine ⟨T1, h1.1, h1.2, ?_⟩
    rw [slope_def_field, sub_zero] at hp
    have := (div_pos_iff_of_pos_right h1.1).1 hp
    linarith
  have hs1 : Solves p.dims m (SWModel.ofParams prm) T1 s := by
    have sub : Icc 0 T1 ⊆ Icc 0 T := Icc_subset_Icc_right t1
    exact ⟨fun c k a b d e y hy => (hs.h c k a b d e y (sub hy)).mono sub,
      fun c k a b d e y hy => (hs.vn c k a b d e y (sub hy)).mono sub,
      fun l c k a0 a1 a b d e y hy => (hs.tr l c k a0 a1 a b d e y (sub hy)).mono sub,
      fun c k a b d e y hy => hs.wet c k a b d e y (sub hy)⟩
  have w1 : pack p.dims (s T1) ∈ wetSet p.dims := by
    rintro ⟨⟨c, hc'⟩, ⟨k, hk'⟩⟩
    have a := Finset.mem_Ico.mp hc'; have b := Finset.mem_Ico.mp hk'
    exact hs.wet c k a.1 a.2 b.1 b.2 T1 ⟨t0.le, t1⟩
  obtain ⟨K, n0, conv⟩ := C80_rk4_converges hv hdc n1 n2 hr t0.le hs1 h0
  obtain ⟨δ, δ0, hδ⟩ := Metric.continuousAt_iff.1 (cont.continuousAt ((wetSet_open p.dims).mem_nhds w1))
    ((Φ (pack p.dims (s T1)) - Φ (pack p.dims (s 0))) / 2) (by linarith)
  obtain ⟨n1', hn1⟩ := exists_nat_gt (|K| / δ)
  refine ⟨T1, (Φ (pack p.dims (s T1)) - Φ (pack p.dims (s 0))) / 2, n0 + n1' + 1, t0, by linarith,
    fun sched split hn hq m1 he => ?_⟩
  obtain ⟨c1, c2, c3⟩ := conv sched split m1 (by omega) hq he
  have small : K / (sched.length : ℝ) ^ 4 < δ := by
    have l1 : (n1' : ℝ) + 1 ≤ sched.length := by exact_mod_cast (by omega : n1' + 1 ≤ sched.length)
    have l2 : (1 : ℝ) ≤ sched.length := by have := Nat.cast_nonneg (α := ℝ) n1'; linarith
    have l3 : (sched.length : ℝ) ≤ (sched.length : ℝ) ^ 4 := le_self_pow₀ l2 (by norm_num)
    rw [div_lt_iff₀ δ0] at hn1
    rw [div_lt_iff₀ (by positivity)]
    have := le_abs_self K
    nlinarith
  have near : dist (pack p.dims (m1.fld .state)) (pack p.dims (s T1)) < δ := by
    rw [dist_pi_lt_iff δ0]
    rintro (⟨⟨c, hc'⟩, ⟨k, hk'⟩⟩ | ⟨⟨c, hc'⟩, ⟨k, hk'⟩⟩ | ⟨⟨l, hl'⟩, ⟨c, hc'⟩, ⟨k, hk'⟩⟩)
    · have a := Finset.mem_Ico.mp hc'; have b := Finset.mem_Ico.mp hk'
      exact (c1 c k a.1 a.2 b.1 b.2).trans_lt small
    · have a := Finset.mem_Ico.mp hc'; have b := Finset.mem_Ico.mp hk'
      exact (c2 c k a.1 a.2 b.1 b.2).trans_lt small
    · have a := Finset.mem_Ico.mp hc'; have b := Finset.mem_Ico.mp hk'; have g := Finset.mem_Ico.mp hl'
      exact (c3 l c k g.1 g.2 a.1 a.2 b.1 b.2).trans_lt small
  have := hδ near
  rw [Real.dist_eq, abs_lt] at this
  rw [pack_congr h0]
  linarith [this.1]

/-- the potential enstrophy along a path of states -/
theorem enstrophy_deriv (hv : RunValid p) (hdc : 0 < dc) {prm : Params ℝ} (hr : Ready p dc prm m)
    {I : Set ℝ} {t : ℝ} {s : ℝ → Fld ℝ} {a b : Int → Int → ℝ}
    (ha : ∀ c k, 0 ≤ c → c < p.dims.ncells → 0 ≤ k → k < p.dims.nlayers →
      HasDerivWithinAt (fun t => (s t).h c k) (a c k) I t)
    (hb : ∀ e k, 0 ≤ e → e < p.dims.nedges → 0 ≤ k → k < p.dims.nlayers →
      HasDerivWithinAt (fun t => (s t).vn e k) (b e k) I t)
    (wet : ∀ c k, 0 ≤ c → c < p.dims.ncells → 0 ≤ k → k < p.dims.nlayers → 0 < (s t).h c k) :
    HasDerivWithinAt (fun t => Spec.enstrophy p.dims m (s t)) (∑ k ∈ Spec.layers p.dims, ∑ v ∈ Spec.verts p.dims,
      Spec.areaT m v * (2 * Spec.pv m (fun i => (s t).h i k) (fun i => (s t).vn i k) v *
        Spec.curl m (fun e => b e k) v -
      Spec.pv m (fun i => (s t).h i k) (fun i => (s t).vn i k) v ^ 2 * Spec.kiteMean m (fun c => a c k) v)) I t := by
  obtain ⟨hd, hc⟩ := ready_ok hv hr
  have hg := geo_of_hex hv.toValid hdc (Ready.hex hv.toValid hr).1
  refine HasDerivWithinAt.fun_sum fun k hk => HasDerivWithinAt.fun_sum fun v hv' => ?_
  have k' := Finset.mem_Ico.mp hk
  have v' := Finset.mem_Ico.mp hv'
  have dk : HasDerivWithinAt (fun t => Spec.kiteMean m (fun i => (s t).h i k) v)
      (Spec.kiteMean m (fun c => a c k) v) I t := by
    unfold Spec.kiteMean
    refine (HasDerivWithinAt.fun_sum fun j hj => ?_).div_const _
    have j' := Finset.mem_Ico.mp hj
    have r := hc.cov v v'.1 v'.2 j j'.1 j'.2
    exact (ha _ k r.1 r.2 k'.1 k'.2).const_mul _
  have dz : HasDerivWithinAt (fun t => Spec.curl m (fun i => (s t).vn i k) v)
      (Spec.curl m (fun e => b e k) v) I t := by
    unfold Spec.curl
    refine (HasDerivWithinAt.fun_sum fun j hj => ?_).div_const _
    have j' := Finset.mem_Ico.mp hj
    have r := hc.eov v v'.1 v'.2 j j'.1 j'.2
    exact (hb _ k r.1 r.2 k'.1 k'.2).const_mul _
  have ne : Spec.kiteMean m (fun i => (s t).h i k) v ≠ 0 := by
    rw [spec_kiteMean hg _ v'.1 v'.2]
    have g : ∀ j, 0 < (s t).h (Hex.cov p.nx p.ny v j) k := fun j => by
      have := cov_isCell hg.hnx v'.1 v'.2 (s := j)
      exact wet _ k this.1 this.2 k'.1 k'.2
    have := g 0; have := g 1; have := g 2
    unfold Mv
    positivity
  unfold Spec.pv
  refine ((dk.const_mul (Spec.areaT m v)).mul (((dz.add_const (m.real .f_vertex 0 v 0)).div dk ne).pow 2)).congr_deriv ?_
  simp only [Pi.div_apply, Pi.pow_apply]
  generalize Spec.kiteMean m (fun i => (s t).h i k) v = N at ne ⊢
  norm_num
  field_simp
  ring

theorem enstrophy_cont (hv : RunValid p) (hdc : 0 < dc) {prm : Params ℝ} (hr : Ready p dc prm m) :
    ContinuousOn (fun v => Spec.enstrophy p.dims m (unpack p.dims v)) (wetSet p.dims) := by
  have sh : ∀ k, Sm (wetSet p.dims) (fun v i => (unpack p.dims v).h i k) := fun k i => by
    simp only [unpack]
    split_ifs with h
    · exact (contDiff_apply ℝ ℝ _).contDiffOn
    · exact contDiffOn_const
  have su : ∀ k, Sm (wetSet p.dims) (fun v i => (unpack p.dims v).vn i k) := fun k i => by
    simp only [unpack]
    split_ifs with h
    · exact (contDiff_apply ℝ ℝ _).contDiffOn
    · exact contDiffOn_const
  refine continuousOn_finsetSum _ fun k hk => continuousOn_finsetSum _ fun v hv' => ?_
  have v' := Finset.mem_Ico.mp hv'
  have c1 := ((sh k).kiteMean (m := m) v).continuousOn
  have c2 := ((su k).curl (m := m) v).continuousOn
  exact (continuousOn_const.mul c1).mul (((c2.add continuousOn_const).div c1 fun w hw =>
    (kiteMean_pos hv hdc hr v'.1 v'.2 fun c => unpack_h_pos hw c k).ne').pow 2)

/-- The exact budget.  Without viscosity, the derivative of the potential enstrophy along the tendencies that
`compute_tendency` stores is the work of the potential vorticity flux against the gradient of the potential vorticity,
less that of the flux with the potential vorticity of the edge itself: it is zero only as far as the mean potential
vorticity of neighbouring edges agrees. -/
theorem C118_enstrophy_budget (hv : RunValid p) (hx : 2 ≤ p.nx) (hy : 2 ≤ p.ny) (hev : p.ny % 2 = 0) (hdc : 0 < dc)
    {prm : Params ℝ} (hr : Ready p dc prm m) (n1 : prm.disable_h = false) (n2 : prm.disable_vn = false)
    (n3 : prm.visc_del2 ≤ 0) (n4 : prm.visc_del4 ≤ 0)
    (wet : ∀ c k, 0 ≤ c → c < p.dims.ncells → 0 ≤ k → k < p.dims.nlayers → 0 < m.real (.h_cell .state) 0 c k)
    {split : Bool} {t : ℝ} {m1 : Mem ℝ}
    (he : Exec p.dims (compute_tendency p.dims ⟨defaultKernels p.dims.vl, split⟩ (SWModel.ofParams prm) .replace
      .tend .state t) m m1) :
    HasDerivAt (fun ε : ℝ => Spec.enstrophy p.dims m ((m.fld .state).axpy ε (m1.fld .tend)))
      (∑ k ∈ Spec.layers p.dims, ∑ e ∈ Spec.edges p.dims, 2 * Spec.dcE m e * Spec.dvE m e *
        Spec.gradT m (Spec.pv m (fun i => m.real (.h_cell .state) 0 i k) fun i => m.real (.vn_edge .state) 0 i k) e *
        (Spec.pvFlux m
          (Spec.vmean m (Spec.pv m (fun i => m.real (.h_cell .state) 0 i k) fun i => m.real (.vn_edge .state) 0 i k))
          (fun e => Spec.mean m (fun i => m.real (.h_cell .state) 0 i k) e * m.real (.vn_edge .state) 0 e k) e -
        Spec.vmean m (Spec.pv m (fun i => m.real (.h_cell .state) 0 i k) fun i => m.real (.vn_edge .state) 0 i k) e *
          Spec.tang m (fun e => Spec.mean m (fun i => m.real (.h_cell .state) 0 i k) e *
            m.real (.vn_edge .state) 0 e k) e)) 0 := by
  obtain ⟨hd, hc⟩ := ready_ok hv hr
  have hg := Ready.geo2 hr hv.toValid hx hy hdc
  obtain ⟨t1, t2, -⟩ := C51_tendency_formula hd hc (noHook_ofParams prm) (by decide) he
  have lin : ∀ a b : ℝ, HasDerivWithinAt (fun ε : ℝ => a + ε * b) b univ 0 := fun a b => by
    simpa using ((hasDerivAt_id (0 : ℝ)).mul_const b).const_add a
  have z : (m.fld .state).axpy 0 (m1.fld .tend) = m.fld .state := by
    simp [Fld.axpy, Fld.zip]
  have d0 := enstrophy_deriv hv hdc hr (I := univ) (t := 0) (s := fun ε => (m.fld .state).axpy ε (m1.fld .tend))
    (a := fun c k => m1.real (.h_cell .tend) 0 c k) (b := fun e k => m1.real (.vn_edge .tend) 0 e k)
    (fun c k _ _ _ _ => lin _ _) (fun c k _ _ _ _ => lin _ _)
    (fun c k c0 c1 k0 k1 => by rw [z]; exact wet c k c0 c1 k0 k1)
  rw [hasDerivWithinAt_univ, z] at d0
  refine d0.congr_deriv (Finset.sum_congr rfl fun k hk => ?_)
  have k' := Finset.mem_Ico.mp hk
  set sw := SWModel.ofParams prm with hsw
  have s5 : sw.en_vdiff = false := by
    show decide ((lit 0 : ℝ) < prm.visc_del2) = false
    simp [n3]
  have s6 : sw.en_vhyper = false := by
    show decide ((lit 0 : ℝ) < prm.visc_del4) = false
    simp [n4]
  set x : Int → ℝ := fun i => m.real (.h_cell .state) 0 i k with hX
  set u : Int → ℝ := fun i => m.real (.vn_edge .state) 0 i k with hU
  set q := Spec.pv m x u with hq
  set r : Int → ℝ := fun e => (q (Hex.voe p.nx p.ny e 0) + q (Hex.voe p.nx p.ny e 1)) / 2 with hr'
  have vm : ∀ e, 0 ≤ e → e < 3 * (p.nx * p.ny) → Spec.vmean m q e = r e := fun e e0 e1 => by
    unfold Spec.vmean
    have a0 : Spec.vertOf m e 0 = Hex.voe p.nx p.ny e 0 := hg.voe e e0 e1 0 (by omega) (by omega)
    have a1 : Spec.vertOf m e 1 = Hex.voe p.nx p.ny e 1 := hg.voe e e0 e1 1 (by omega) (by omega)
    rw [a0, a1]
  have s3 : (√3 : ℝ) ≠ 0 := by positivity
  have s33 : (√3 : ℝ) * √3 = 3 := Real.mul_self_sqrt (by norm_num)
  have key := enstrophy_rate hg hc hev (sw := sw) rfl rfl s5 s6 k'.1 k'.2 x u q r hq fun e => rfl
  have lhs : ∑ v ∈ Spec.verts p.dims, Spec.areaT m v * (2 * Spec.pv m (fun i => (m.fld .state).h i k)
        (fun i => (m.fld .state).vn i k) v * Spec.curl m (fun e => m1.real (.vn_edge .tend) 0 e k) v -
      Spec.pv m (fun i => (m.fld .state).h i k) (fun i => (m.fld .state).vn i k) v ^ 2 *
        Spec.kiteMean m (fun c => m1.real (.h_cell .tend) 0 c k) v) =
      ∑ v ∈ Spec.verts p.dims, Spec.areaT m v * (2 * q v * Spec.curl m (Spec.velocityTend m sw k x u) v -
        q v ^ 2 * Spec.kiteMean m (Spec.thicknessTend m sw x u) v) := Finset.sum_congr rfl fun v hv' => by
    have v' := Finset.mem_Ico.mp hv'
    rw [curl_congr hc (fun e a b => t2 n2 e k a b k'.1 k'.2) v'.1 v'.2,
      kiteMean_congr hc (fun c a b => t1 n1 c k a b k'.1 k'.2) v'.1 v'.2]
    rfl
  refine (lhs.trans key).trans ?_
  rw [Finset.mul_sum]
  refine Finset.sum_congr rfl fun e he' => ?_
  obtain ⟨e0, e1⟩ := Finset.mem_Ico.mp he'
  rw [spec_dcE hg.toGeo e0 e1, spec_dvE hg.toGeo e0 e1, spec_gradT hg.toGeo _ e0 e1, spec_pvFlux hg.toGeo _ _ e0 e1,
    spec_tang hg.toGeo _ e0 e1, vm e e0 e1]
  have a1 : Tw p.nx p.ny (fun e e' => Spec.mean m x e' * m.real (.vn_edge .state) 0 e' k *
      ((Spec.vmean m q e + Spec.vmean m q e') / 2)) e =
      Tw p.nx p.ny (fun e e' => Mn p.nx p.ny x e' * u e' * ((r e + r e') / 2)) e :=
    Tw_congr hg.hnx e0 e1 fun e' a b => by
      rw [vm e e0 e1, vm e' a b, spec_mean hg.toGeo _ a b]
  have a2 : Tn p.nx p.ny (fun e' => Spec.mean m x e' * m.real (.vn_edge .state) 0 e' k) e =
      Tw p.nx p.ny (fun e e' => Mn p.nx p.ny x e' * u e') e :=
    Tw_congr hg.hnx e0 e1 fun e' a b => by beta_reduce; rw [spec_mean hg.toGeo _ a b]
  rw [a1, a2]
  have a3 : Tw p.nx p.ny (fun e e' => Gv p.nx p.ny q e * (Mn p.nx p.ny x e' * u e' * (r e' - r e))) e =
      2 * Gv p.nx p.ny q e * (Tw p.nx p.ny (fun e e' => Mn p.nx p.ny x e' * u e' * ((r e + r e') / 2)) e -
        r e * Tw p.nx p.ny (fun e e' => Mn p.nx p.ny x e' * u e') e) := by
    unfold Tw
    rw [Finset.mul_sum, ← Finset.sum_sub_distrib, Finset.mul_sum]
    refine Finset.sum_congr rfl fun s _ => ?_
    ring
  rw [a3]
  field_simp

/-- Without viscosity, on every mesh with an even number of rows and at least three columns, and for every nonzero
rotation and every gravity, there is a wet state for which the runs of the RK4 stepper up to some time end with a
potential enstrophy above that of the state, by a margin that does not vanish as the steps shrink.  (The energy of
these runs drifts by no more than the fourth power of the step, C81.) -/
theorem C118_enstrophy_grows (hv : RunValid p) (hnx : 3 ≤ p.nx) (hny : 2 ≤ p.ny) (hev : p.ny % 2 = 0)
    (hl : 0 < p.dims.nlayers) (hdc : 0 < dc) {prm : Params ℝ} (n1 : prm.disable_h = false)
    (n2 : prm.disable_vn = false) (n3 : prm.visc_del2 ≤ 0) (n4 : prm.visc_del4 ≤ 0) (hf : prm.f0 ≠ 0) :
    ∃ m : Mem ℝ, Ready p dc prm m ∧
      (∀ c k, 0 ≤ c → c < p.dims.ncells → 0 ≤ k → k < p.dims.nlayers → 0 < m.real (.h_cell .state) 0 c k) ∧
      ∃ (T r : ℝ) (n0 : ℕ), 0 < T ∧ 0 < r ∧ ∀ (sched : List (ℝ × ℝ)) (split : Bool), n0 ≤ sched.length →
        (∀ q ∈ sched, q.2 = T / sched.length) →
        (∃ m1, Exec p.dims (Stepper.rk4.ctor p.dims ++ Stepper.rk4.run p.dims
          ⟨defaultKernels p.dims.vl, split⟩ (SWModel.ofParams prm) sched) m m1) ∧
        ∀ m1 : Mem ℝ, Exec p.dims (Stepper.rk4.ctor p.dims ++ Stepper.rk4.run p.dims
          ⟨defaultKernels p.dims.vl, split⟩ (SWModel.ofParams prm) sched) m m1 →
        Spec.enstrophy p.dims m (m.fld .state) + r ≤ Spec.enstrophy p.dims m1 (m1.fld .state) := by
  set x := thickCell p.nx p.ny with hx
  set u : Int → ℝ := fun e => -oneAt 0 e with hu
  obtain ⟨m, hr, hm, -⟩ := exists_ready hv.toValid dc prm ⟨fun c _ => x c, fun e _ => u e, fun _ _ _ => 0⟩ zeroFld
  have x0 : ∀ c, 0 < x c := fun c => by
    rw [hx]; unfold thickCell oneAt; split <;> norm_num
  have wet : ∀ c k, 0 ≤ c → c < p.dims.ncells → 0 ≤ k → k < p.dims.nlayers →
      0 < m.real (.h_cell .state) 0 c k := fun c k _ _ _ _ =>
    (x0 c).trans_eq (congrFun (congrFun (congrArg Fld.h hm) c) k).symm
  obtain ⟨hd, hc⟩ := ready_ok hv hr
  have hH := hookOK_noHook (noHook_ofParams prm) p.dims m
  have hg := Ready.geo2 hr hv.toValid (by omega) hny hdc
  have hfv := (Ready.hex hv.toValid hr).2.1
  obtain ⟨T, s, T0, hs, h0⟩ := C80_solution_exists hv hdc n1 n2 hr wet
  set sw := SWModel.ofParams prm with hsw
  have s5 : sw.en_vdiff = false := by
    show decide ((lit 0 : ℝ) < prm.visc_del2) = false
    simp [n3]
  have s6 : sw.en_vhyper = false := by
    show decide ((lit 0 : ℝ) < prm.visc_del4) = false
    simp [n4]
  obtain ⟨du, -⟩ := hs.pack hd hc hH n1 n2
  have D := du 0 (left_mem_Icc.2 T0.le)
  rw [← pack_congr h0, hm, vfield_pack hd hc hH n1 n2, hasDerivWithinAt_pi] at D
  have d0 := enstrophy_deriv hv hdc hr (I := Icc 0 T) (t := 0) (s := s)
    (a := fun c k => Spec.thicknessTend m sw x u c) (b := fun e k => Spec.velocityTend m sw k x u e)
    (fun c k c0 c1 k0 k1 => D (.inl (⟨c, Finset.mem_Ico.2 ⟨c0, c1⟩⟩, ⟨k, Finset.mem_Ico.2 ⟨k0, k1⟩⟩)))
    (fun e k c0 c1 k0 k1 => D (.inr (.inl (⟨e, Finset.mem_Ico.2 ⟨c0, c1⟩⟩, ⟨k, Finset.mem_Ico.2 ⟨k0, k1⟩⟩))))
    (fun c k c0 c1 k0 k1 => hs.wet c k c0 c1 k0 k1 0 (left_mem_Icc.2 T0.le))
  -- the potential vorticity at the start
  set q := Spec.pv m x u with hq
  rw [hm] at h0
  have pv0 : ∀ k ∈ Spec.layers p.dims, ∀ v ∈ Spec.verts p.dims,
      Spec.pv m (fun i => (s 0).h i k) (fun i => (s 0).vn i k) v = q v := fun k hk v hv' => by
    have k' := Finset.mem_Ico.mp hk
    have v' := Finset.mem_Ico.mp hv'
    rw [hq]
    unfold Spec.pv
    rw [kiteMean_congr hc (u := fun i => (s 0).h i k) (v := x)
        (fun c c0 c1 => (h0.h c k c0 c1 k'.1 k'.2).symm) v'.1 v'.2,
      curl_congr hc (u := fun i => (s 0).vn i k) (v := u)
        (fun e e0 e1 => (h0.vn e k e0 e1 k'.1 k'.2).symm) v'.1 v'.2]
  set r : Int → ℝ := fun e => (q (Hex.voe p.nx p.ny e 0) + q (Hex.voe p.nx p.ny e 1)) / 2 with hr'
  have work := thick_work (q := q) (r := r) hnx hny hev (4 / (dc * √3)) prm.f0 (fun v v0 v1 => by
    rw [hq]
    unfold Spec.pv
    rw [spec_curl hg.toGeo _ v0 v1, spec_kiteMean hg.toGeo _ v0 v1, hfv v v0 v1]) fun e => rfl
  have rate : ∑ k ∈ Spec.layers p.dims, ∑ v ∈ Spec.verts p.dims,
      Spec.areaT m v * (2 * Spec.pv m (fun i => (s 0).h i k) (fun i => (s 0).vn i k) v *
        Spec.curl m (fun e => Spec.velocityTend m sw k x u e) v -
      Spec.pv m (fun i => (s 0).h i k) (fun i => (s 0).vn i k) v ^ 2 *
        Spec.kiteMean m (fun c => Spec.thicknessTend m sw x u c) v) > 0 := by
    refine Finset.sum_pos (fun k hk => ?_) ⟨0, Finset.mem_Ico.2 ⟨le_rfl, hl⟩⟩
    have k' := Finset.mem_Ico.mp hk
    rw [Finset.sum_congr rfl fun v hv' => by rw [pv0 k hk v hv'],
      enstrophy_rate hg hc hev (sw := sw) rfl rfl s5 s6 k'.1 k'.2 x u q r hq fun e => rfl, work]
    have : 0 < prm.f0 ^ 2 := by positivity
    positivity
  have fn : ∀ y : Fld ℝ, Spec.enstrophy p.dims m (unpack p.dims (pack p.dims y)) = Spec.enstrophy p.dims m y :=
    fun y => enstrophy_congr hc (unpack_pack p.dims y)
  obtain ⟨T1, g, n0, t0, g0, run⟩ := runs_gain hv hdc n1 n2 hr T0 hs (hm ▸ h0) (enstrophy_cont hv hdc hr) rate
    (by simp only [fn]; exact d0)
  simp only [fn] at run
  refine ⟨m, hr, wet, T1, g, n0, t0, g0, fun sched split hn hq' =>
    ⟨((C40_safe_deterministic hd hc (noHook_ofParams prm) split).2.2 .rk4 sched).2.exists, fun m1 he => ?_⟩⟩
  rw [enstrophy_static ((genSetup hd hc hH).newRun he).1]
  exact run sched split hn hq' m1 he

/-- a state of varying thickness and velocity for the first theorem -/
example (prm : Params ℝ) : ∃ m m1 : Mem ℝ, Ready p46 (1 / 4) prm m ∧
    Exec p46.dims (compute_tendency p46.dims ⟨defaultKernels p46.dims.vl, false⟩ (SWModel.ofParams prm) .replace
      .tend .state 3) m m1 ∧
    (∀ c k, 0 ≤ c → c < p46.dims.ncells → 0 ≤ k → k < p46.dims.nlayers → 0 < m.real (.h_cell .state) 0 c k) ∧
    m.real (.h_cell .state) 0 3 0 = 10 ∧ m.real (.vn_edge .state) 0 7 2 = 49 := by
  obtain ⟨m, m1, hr, hd, hc, hx, he⟩ := exists_tendency p46_run (1 / 4) prm (noHook_ofParams prm) false
    .replace 3 ⟨fun c _ => 1 + c * c, fun e _ => e * e, fun l c k => l + c + k⟩
  refine ⟨m, m1, hr, he, fun c k _ _ _ _ => ?_, ?_, ?_⟩
  · refine lt_of_lt_of_eq ?_ (congrFun (congrFun (congrArg Fld.h hx) c) k).symm
    have := mul_self_nonneg (c : ℝ)
    show (0 : ℝ) < 1 + c * c
    linarith
  · exact (congrFun (congrFun (congrArg Fld.h hx) 3) 0).trans (by norm_num)
  · exact (congrFun (congrFun (congrArg Fld.vn hx) 7) 2).trans (by norm_num)

/-- a mesh of 24 cells and parameters with rotation and gravity for the second -/
example : ∃ prm : Params ℝ, RunValid p46 ∧ 3 ≤ p46.nx ∧ 2 ≤ p46.ny ∧ p46.ny % 2 = 0 ∧ 0 < p46.dims.nlayers ∧
    prm.disable_h = false ∧ prm.disable_vn = false ∧ prm.visc_del2 ≤ 0 ∧ prm.visc_del4 ≤ 0 ∧ prm.f0 ≠ 0 ∧
    0 < prm.grav := by
  obtain ⟨prm, e⟩ : ∃ q : Params ℝ, q = ⟨1 / 10000, 10, 0, 0, 0, 0, false, false⟩ := ⟨_, rfl⟩
  refine ⟨prm, p46_run, by simp [p46], by simp [p46], by simp [p46], by rw [p46_layers]; norm_num, ?_⟩
  rw [e]
  norm_num

end Props
end
end Omega
