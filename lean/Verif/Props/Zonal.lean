import Verif.Props.Vorticity
import Verif.Props.Dissipation
import Verif.Refine.HexSym

/-!
# C100: flow along the rows of the mesh

A state that is the same in all columns and has no flow across the rows.
-/

set_option linter.unusedVariables false
set_option linter.unusedSectionVars false

namespace Omega
noncomputable section

namespace Props

open Prog Model Refine Hex

/-- a cell field that depends on the row only -/
def RowCell (nx ny : Int) (φ H : Int → ℝ) : Prop := ∀ c, IsCell nx ny c → φ c = H (c / nx)

/-- an edge field that depends on the row and on the direction of the edge only -/
def RowEdge (nx ny : Int) (u : Int → ℝ) (W : Int → Int → ℝ) : Prop :=
  ∀ c, IsCell nx ny c → ∀ j, 0 ≤ j → j < 3 → u (3 * c + j) = W j (c / nx)

section

variable {nx ny : Int} (hnx : 1 ≤ nx) (hny : ny % 2 = 0)

include hnx hny

theorem row_nb {c j : Int} (hc : IsCell nx ny c) (h0 : 0 ≤ j) (h6 : j < 6) :
    nb nx ny j c / nx = nbR ny j (c / nx) := by
  have hr := col_range hnx c
  have : 0 ≤ nbI nx j (col nx c) (row nx c) ∧ nbI nx j (col nx c) (row nx c) < nx := by
    unfold nbI mx px; split_ifs <;> omega
  exact row_cid this.1 this.2

theorem px_mx {r : Int} (h0 : 0 ≤ r) (h1 : r < ny) : px ny (mx ny r) = r := by
  unfold px mx; split_ifs <;> omega

theorem RowEdge.side {u : Int → ℝ} {W : Int → Int → ℝ} (h : RowEdge nx ny u W) {c j : Int}
    (hc : IsCell nx ny c) (h0 : 0 ≤ j) (h6 : j < 6) :
    u (E nx ny c j) = if j < 3 then W j (c / nx) else W (j - 3) (nbR ny j (c / nx)) := by
  unfold E
  split_ifs with hj
  · exact h c hc j h0 hj
  · rw [h _ (nb_isCell hnx hc) _ (by omega) (by omega), row_nb hnx hny hc h0 h6]

/-- the six sides -/
theorem RowEdge.sides {u : Int → ℝ} {W : Int → Int → ℝ} (h : RowEdge nx ny u W) {c : Int}
    (hc : IsCell nx ny c) :
    u (E nx ny c 0) = W 0 (c / nx) ∧ u (E nx ny c 1) = W 1 (c / nx) ∧
    u (E nx ny c 2) = W 2 (c / nx) ∧ u (E nx ny c 3) = W 0 (c / nx) ∧
    u (E nx ny c 4) = W 1 (px ny (c / nx)) ∧ u (E nx ny c 5) = W 2 (px ny (c / nx)) := by
  refine ⟨?_, ?_, ?_, ?_, ?_, ?_⟩ <;>
    rw [h.side hnx hny hc (by omega) (by omega)] <;> norm_num [nbR]

theorem RowCell.grad {φ H : Int → ℝ} (h : RowCell nx ny φ H) : RowEdge nx ny (Gr nx ny φ)
    (fun j r => if j = 0 then 0 else H r - H (mx ny r)) := by
  intro c hc j h0 h3
  have := Gr_side hnx hny φ hc h0 (by omega)
  unfold E at this
  rw [if_pos h3] at this
  rw [this, h _ (nb_isCell hnx hc), h c hc, row_nb hnx hny hc h0 (by omega)]
  obtain rfl | rfl | rfl : j = 0 ∨ j = 1 ∨ j = 2 := by omega
  all_goals norm_num [nbR, sg]

theorem RowCell.mean {φ H : Int → ℝ} (h : RowCell nx ny φ H) : RowEdge nx ny (Mn nx ny φ)
    (fun j r => if j = 0 then H r else (H (mx ny r) + H r) / 2) := by
  intro c hc j h0 h3
  have := Mn_side hnx hny φ hc h0 (by omega)
  unfold E at this
  rw [if_pos h3] at this
  rw [this, h _ (nb_isCell hnx hc), h c hc, row_nb hnx hny hc h0 (by omega)]
  obtain rfl | rfl | rfl : j = 0 ∨ j = 1 ∨ j = 2 := by omega
  all_goals norm_num [nbR]
  all_goals ring

/-- No divergence if the flow across the rows is opposite on the two slanted edges. -/
theorem RowEdge.div {u : Int → ℝ} {W : Int → Int → ℝ} (h : RowEdge nx ny u W)
    (hW : ∀ r, W 2 r = -W 1 r) {c : Int} (hc : IsCell nx ny c) : Dv nx ny u c = 0 := by
  obtain ⟨e0, e1, e2, e3, e4, e5⟩ := h.sides hnx hny hc
  unfold Dv
  rw [e0, e1, e2, e3, e4, e5, hW, hW]; ring

theorem RowEdge.squares {u : Int → ℝ} {W : Int → Int → ℝ} (h : RowEdge nx ny u W) :
    RowCell nx ny (Sd nx ny fun e => u e * u e) fun r => 2 * (W 0 r * W 0 r) + W 1 r * W 1 r +
      W 2 r * W 2 r + W 1 (px ny r) * W 1 (px ny r) + W 2 (px ny r) * W 2 (px ny r) := by
  intro c hc
  obtain ⟨e0, e1, e2, e3, e4, e5⟩ := h.sides hnx hny hc
  unfold Sd
  beta_reduce
  rw [e0, e1, e2, e3, e4, e5]; ring

/-- vorticity at the two vertices of a cell -/
theorem RowEdge.curl {u : Int → ℝ} {W : Int → Int → ℝ} (h : RowEdge nx ny u W)
    (hW : ∀ r, W 2 r = -W 1 r) {c : Int} (hc : IsCell nx ny c) :
    Cu nx ny u (2 * c) = W 0 (c / nx) - 2 * W 1 (px ny (c / nx)) ∧
    Cu nx ny u (2 * c + 1) = 2 * W 1 (c / nx) - W 0 (c / nx) := by
  obtain ⟨e0, e1, e2, e3, e4, e5⟩ := h.sides hnx hny hc
  have e6 := (h.sides hnx hny (nb_isCell hnx hc (j := 5))).2.1
  have e7 := (h.sides hnx hny (nb_isCell hnx hc (j := 0))).2.2.1
  rw [row_nb hnx hny hc (by omega) (by omega)] at e6 e7
  norm_num [nbR] at e6 e7
  rw [Cu_even hnx hny u hc, Cu_odd hnx hny u hc, e0, e1, e5, e6, e7, hW, hW]
  constructor <;> ring

theorem RowCell.kite {φ H : Int → ℝ} (h : RowCell nx ny φ H) {c : Int} (hc : IsCell nx ny c) :
    Mv nx ny φ (2 * c) = (2 * H (c / nx) + H (px ny (c / nx))) / 3 ∧
    Mv nx ny φ (2 * c + 1) = (2 * H (c / nx) + H (mx ny (c / nx))) / 3 := by
  rw [Mv_even hnx hny φ hc, Mv_odd hnx hny φ hc, h c hc, h _ (nb_isCell hnx hc),
    h _ (nb_isCell hnx hc), h _ (nb_isCell hnx hc), row_nb hnx hny hc (by omega) (by omega),
    row_nb hnx hny hc (by omega) (by omega), row_nb hnx hny hc (by omega) (by omega)]
  norm_num [nbR]
  constructor <;> ring

/-- mean of a vertex field on the edges -/
theorem row_vmean {q : Int → ℝ} {Q P : Int → ℝ}
    (h : ∀ c, IsCell nx ny c → q (2 * c) = Q (c / nx) ∧ q (2 * c + 1) = P (c / nx)) :
    RowEdge nx ny (fun e => (q (voe nx ny e 0) + q (voe nx ny e 1)) / 2)
      (fun j r => if j = 0 then (Q r + P r) / 2 else (P r + Q (mx ny r)) / 2) := by
  intro c hc j h0 h3
  have := vm_side hnx hny q hc h0 (by omega)
  unfold E at this
  rw [if_pos h3] at this
  beta_reduce
  rw [this]
  have h2 := (h _ (nb_isCell hnx hc (j := 2))).1
  have h3' := (h _ (nb_isCell hnx hc (j := 3))).2
  rw [row_nb hnx hny hc (by omega) (by omega)] at h2 h3'
  norm_num [nbR] at h2 h3'
  obtain rfl | rfl | rfl : j = 0 ∨ j = 1 ∨ j = 2 := by omega
  · norm_num [V]; rw [(h c hc).1, (h c hc).2]
  · norm_num [V]; rw [(h c hc).2, h2]
  · norm_num [V]; rw [h2, h3']; ring

/-- the flux through the slanted edges below row `r` -/
def rowFlux (ny : Int) (f φ : Int → Int → ℝ) (r : Int) : ℝ :=
  -(2 / 3) * (f 1 r * φ 1 r) -
  1 / 2 * (f 0 r * ((φ 1 r + φ 0 r) / 2) + f 0 (mx ny r) * ((φ 1 r + φ 0 (mx ny r)) / 2)) -
  1 / 6 * (f 1 (px ny r) * ((φ 1 r + φ 1 (px ny r)) / 2) +
    f 1 (mx ny r) * ((φ 1 r + φ 1 (mx ny r)) / 2))

/-- The flux of a row-wise quantity: none along the rows, the same through both kinds of slanted
edges. -/
theorem row_flux {u q : Int → ℝ} {f φ : Int → Int → ℝ} (hu : RowEdge nx ny u f)
    (hq : RowEdge nx ny q φ) (hf : ∀ r, f 2 r = -f 1 r) (hφ : ∀ r, φ 2 r = φ 1 r) :
    RowEdge nx ny (Tw nx ny fun e e' => u e' * ((q e + q e') / 2))
      (fun j r => if j = 0 then 0 else rowFlux ny f φ r) := by
  intro c hc j h0 h3
  have key := Tw_side hnx hny (fun e e' => u e' * ((q e + q e') / 2)) hc h0 (by omega)
  have hE : E nx ny c j = 3 * c + j := by unfold E; rw [if_pos h3]
  rw [hE] at key
  rw [key]
  have hr := row_range hnx hc
  have hp : px ny (mx ny (c / nx)) = c / nx := px_mx hnx hny hr.1 hr.2
  obtain ⟨a0, a1, a2, a3, a4, a5⟩ := hu.sides hnx hny hc
  obtain ⟨b0, b1, b2, b3, b4, b5⟩ := hq.sides hnx hny hc
  obtain ⟨c0, c1, c2, c3, c4, c5⟩ := hu.sides hnx hny (nb_isCell hnx hc (j := j))
  obtain ⟨d0, d1, d2, d3, d4, d5⟩ := hq.sides hnx hny (nb_isCell hnx hc (j := j))
  rw [row_nb hnx hny hc h0 (by omega)] at c0 c1 c2 c3 c4 c5 d0 d1 d2 d3 d4 d5
  unfold Tq
  obtain rfl | rfl | rfl : j = 0 ∨ j = 1 ∨ j = 2 := by omega
  all_goals
    norm_num [nbR, hp] at c0 c1 c2 c3 c4 c5 d0 d1 d2 d3 d4 d5 ⊢
    simp only [a0, a1, a2, a3, a4, a5, b0, b1, b2, b3, b4, b5, c0, c1, c2, c3, c4, c5, d0, d1, d2, d3,
      d4, d5, hf, hφ]
    simp [wRaw, rowFlux]
    try ring

end

/-- A layer that is the same in all columns and has no flow across the rows: thickness `H`, normal
velocity `U` on the edges across the row, `A` and `-A` on the two kinds of slanted edges below it. -/
structure AlongRows (nx ny : Int) (h u H U A : Int → ℝ) : Prop where
  h : ∀ c, IsCell nx ny c → h c = H (c / nx)
  u0 : ∀ c, IsCell nx ny c → u (3 * c) = U (c / nx)
  u1 : ∀ c, IsCell nx ny c → u (3 * c + 1) = A (c / nx)
  u2 : ∀ c, IsCell nx ny c → u (3 * c + 2) = -A (c / nx)

/-- the velocities of such a layer by direction and row -/
def alongW (U A : Int → ℝ) (j r : Int) : ℝ := if j = 0 then U r else if j = 1 then A r else -A r

variable {p : MeshParams} {dc : ℝ} {m : Mem ℝ} {h u H U A : Int → ℝ}

theorem AlongRows.rows (a : AlongRows p.nx p.ny h u H U A) : RowEdge p.nx p.ny u (alongW U A) := by
  intro c hc j h0 h3
  obtain rfl | rfl | rfl : j = 0 ∨ j = 1 ∨ j = 2 := by omega
  · rw [add_zero, a.u0 c hc]; simp [alongW]
  · rw [a.u1 c hc]; simp [alongW]
  · rw [a.u2 c hc]; simp [alongW]

theorem RowEdge.congr {nx ny : Int} (hnx : 1 ≤ nx) {u v : Int → ℝ} {W : Int → Int → ℝ}
    (hu : RowEdge nx ny u W) (e : ∀ i, 0 ≤ i → i < 3 * (nx * ny) → v i = u i) :
    RowEdge nx ny v W := fun c hc j h0 h3 => by
  rw [e _ (by have := hc.1; omega) (by have := hc.2; omega)]
  exact hu c hc j h0 h3

theorem RowEdge.mul {nx ny : Int} {u v : Int → ℝ} {W X : Int → Int → ℝ}
    (hu : RowEdge nx ny u W) (hv : RowEdge nx ny v X) :
    RowEdge nx ny (fun e => u e * v e) (fun j r => W j r * X j r) := fun c hc j h0 h3 => by
  beta_reduce
  rw [hu c hc j h0 h3, hv c hc j h0 h3]

section

variable (g : Geo2 p.nx p.ny p.dims.nlayers dc m.mesh) (hny : p.ny % 2 = 0)
  (a : AlongRows p.nx p.ny h u H U A)
include g hny a

theorem AlongRows.flux {s S : Int → ℝ} (hs : RowCell p.nx p.ny s S) :
    ∃ W : Int → Int → ℝ, RowEdge p.nx p.ny (fun e => Spec.mean m h e * Spec.mean m s e * u e) W ∧
      ∀ r, W 2 r = -W 1 r := by
  have h1 := (RowCell.mean g.hnx hny a.h).congr g.hnx (v := Spec.mean m h)
    (fun i h0 h1 => spec_mean g.toGeo h h0 h1)
  have h2 := (RowCell.mean g.hnx hny hs).congr g.hnx (v := Spec.mean m s)
    (fun i h0 h1 => spec_mean g.toGeo s h0 h1)
  exact ⟨_, (h1.mul h2).mul a.rows, fun r => by norm_num [alongW]⟩

theorem AlongRows.thickness (sw : SWModel ℝ) {c : Int} (hc : IsCell p.nx p.ny c) :
    Spec.thicknessTend m sw h u c = 0 := by
  obtain ⟨W, hW, h2⟩ := a.flux g hny (s := fun _ => 1) (S := fun _ => 1) (fun _ _ => rfl)
  have hm : ∀ e, Spec.mean m (fun _ => 1) e = 1 := fun e => by unfold Spec.mean; norm_num
  simp only [hm, mul_one] at hW
  unfold Spec.thicknessTend
  rw [spec_div g _ hc, hW.div g.hnx hny h2 hc]
  simp

theorem AlongRows.tracer {sw : SWModel ℝ} (h7 : sw.en_tdiff = true → sw.prm.eddy_diff2 = 0)
    (h8 : sw.en_thyper = true → sw.prm.eddy_diff4 = 0) {s S : Int → ℝ} (hs : RowCell p.nx p.ny s S)
    {c : Int} (hc : IsCell p.nx p.ny c) : Spec.tracerTend m sw h u s c = 0 := by
  obtain ⟨W, hW, h2⟩ := a.flux g hny (s := fun i => s i / h i) (S := fun r => S r / H r)
    (fun c hc => by beta_reduce; rw [hs c hc, a.h c hc])
  unfold Spec.tracerTend
  rw [spec_div g _ hc, hW.div g.hnx hny h2 hc]
  have e7 := h7
  have e8 := h8
  split_ifs with i1 i2 i3 i3 i2 i3 i3 <;> simp_all

/-- the acceleration across the rows of such a layer on the edges below row `r` -/
def rowAccel (ny : Int) (dc f : ℝ) (sw : SWModel ℝ) (H U A : Int → ℝ) (r : Int) : ℝ :=
  let Q (r : Int) : ℝ := (4 / (dc * √3) * (U r - 2 * A (px ny r)) + f) / ((2 * H r + H (px ny r)) / 3)
  let P (r : Int) : ℝ := (4 / (dc * √3) * (2 * A r - U r) + f) / ((2 * H r + H (mx ny r)) / 3)
  let K (r : Int) : ℝ := 1 / 6 * (2 * (U r * U r) + 2 * (A r * A r) + 2 * (A (px ny r) * A (px ny r)))
  (if sw.en_pv = true then 1 / √3 * rowFlux ny
    (fun j r => (if j = 0 then H r else (H (mx ny r) + H r) / 2) * alongW U A j r)
    (fun j r => if j = 0 then (Q r + P r) / 2 else (P r + Q (mx ny r)) / 2) r else 0) -
  (if sw.en_ke = true then (K r - K (mx ny r)) / dc else 0) -
  (if sw.en_ssh = true then sw.prm.grav * ((H r - H (mx ny r)) / dc) else 0)

theorem AlongRows.velocity {sw : SWModel ℝ} (h7 : sw.en_vdiff = true → sw.prm.visc_del2 = 0)
    (h8 : sw.en_vhyper = true → sw.prm.visc_del4 = 0) {f : ℝ}
    (hf : ∀ v, 0 ≤ v → v < 2 * (p.nx * p.ny) → m.real .f_vertex 0 v 0 = f) (k : Int) :
    RowEdge p.nx p.ny (Spec.velocityTend m sw k h u)
      (fun j r => if j = 0 then 0 else rowAccel p.ny dc f sw H U A r) := by
  have hnx := g.hnx
  have hv : ∀ c, IsCell p.nx p.ny c → 0 ≤ 2 * c ∧ 2 * c + 1 < 2 * (p.nx * p.ny) := fun c hc => by
    have := hc.1; have := hc.2; constructor <;> omega
  have hq : ∀ c, IsCell p.nx p.ny c →
      Spec.pv m h u (2 * c) = (4 / (dc * √3) * (U (c / p.nx) - 2 * A (px p.ny (c / p.nx))) + f) /
        ((2 * H (c / p.nx) + H (px p.ny (c / p.nx))) / 3) ∧
      Spec.pv m h u (2 * c + 1) = (4 / (dc * √3) * (2 * A (c / p.nx) - U (c / p.nx)) + f) /
        ((2 * H (c / p.nx) + H (mx p.ny (c / p.nx))) / 3) := fun c hc => by
    obtain ⟨k1, k2⟩ := RowEdge.curl hnx hny a.rows (fun r => by simp [alongW]) hc
    obtain ⟨k3, k4⟩ := RowCell.kite hnx hny a.h hc
    obtain ⟨v0, v1⟩ := hv c hc
    simp only [alongW] at k1 k2
    norm_num at k1 k2
    unfold Spec.pv
    rw [spec_curl g.toGeo _ v0 (by omega), spec_curl g.toGeo _ (by omega) v1,
      spec_kiteMean g.toGeo _ v0 (by omega), spec_kiteMean g.toGeo _ (by omega) v1,
      hf _ v0 (by omega), hf _ (by omega) v1, k1, k2, k3, k4]
    exact ⟨rfl, rfl⟩
  have hvm := (row_vmean hnx hny
    (Q := fun r => (4 / (dc * √3) * (U r - 2 * A (px p.ny r)) + f) / ((2 * H r + H (px p.ny r)) / 3))
    (P := fun r => (4 / (dc * √3) * (2 * A r - U r) + f) / ((2 * H r + H (mx p.ny r)) / 3)) hq).congr hnx (v := Spec.vmean m (Spec.pv m h u))
    (fun i h0 h1 => by
      have e0 : Spec.vertOf m i 0 = Hex.voe p.nx p.ny i 0 := g.voe i h0 h1 0 (by omega) (by omega)
      have e1 : Spec.vertOf m i 1 = Hex.voe p.nx p.ny i 1 := g.voe i h0 h1 1 (by omega) (by omega)
      unfold Spec.vmean; rw [e0, e1])
  have hF := ((RowCell.mean hnx hny a.h).congr hnx (v := Spec.mean m h)
    (fun i h0 h1 => spec_mean g.toGeo h h0 h1)).mul a.rows
  have hP := row_flux hnx hny hF hvm (fun r => by norm_num [alongW]) (fun r => by norm_num)
  have hG := RowCell.grad hnx hny a.h
  have hK : RowCell p.nx p.ny (Spec.kinetic m u) fun r => 1 / 6 * (2 * (U r * U r) +
      2 * (A r * A r) + 2 * (A (px p.ny r) * A (px p.ny r))) := fun c hc => by
    rw [spec_kinetic g.toGeo u hc, RowEdge.squares hnx hny a.rows c hc]
    norm_num [alongW]; ring
  have hGK := RowCell.grad hnx hny hK
  intro c hc j h0 h3
  have i0 : 0 ≤ 3 * c + j := by have := hc.1; omega
  have i1 : 3 * c + j < 3 * (p.nx * p.ny) := by have := hc.2; omega
  have e7 : (if sw.en_vdiff = true then sw.prm.visc_del2 * m.real .edge_mask 0 (3 * c + j) k *
      m.real .mesh_scaling_del2 0 (3 * c + j) 0 * (Spec.grad m (Spec.div m u) (3 * c + j) -
        Spec.gradT m (Spec.curl m u) (3 * c + j)) else 0) = 0 := by
    split_ifs with hh
    · rw [h7 hh]; ring
    · rfl
  have e8 : (if sw.en_vhyper = true then sw.prm.visc_del4 * m.real .edge_mask 0 (3 * c + j) k *
      m.real .mesh_scaling_del4 0 (3 * c + j) 0 *
        (Spec.grad m (Spec.div m (Spec.vecLap m u)) (3 * c + j) -
        Spec.gradT m (Spec.curl m (Spec.vecLap m u)) (3 * c + j)) else 0) = 0 := by
    split_ifs with hh
    · rw [h8 hh]; ring
    · rfl
  unfold Spec.velocityTend
  rw [e7, e8, spec_pvFlux g.toGeo _ _ i0 i1, spec_grad g.toGeo _ i0 i1, spec_grad g.toGeo _ i0 i1,
    hP c hc j h0 h3, hG c hc j h0 h3, hGK c hc j h0 h3]
  unfold rowAccel
  by_cases hj : j = 0
  · simp [hj]
  · simp only [if_neg hj]; ring

end

/-- The computed tendency of a layer that is the same in all columns and has no flow across the rows,
without viscosity: nothing changes the thickness or the velocity along the rows, and the acceleration
on the two kinds of slanted edges is the same, that is, it is across the rows only, and the same in
all columns. -/
theorem C100_along_tendency (hv : RunValid p) (hx : 2 ≤ p.nx) (hy : 2 ≤ p.ny) (hny : p.ny % 2 = 0)
    (hdc : 0 < dc) {prm : Params ℝ} (hr : Ready p dc prm m) {sw : SWModel ℝ} (hn : sw.NoHook)
    (h5 : sw.prm.disable_h = false) (h6 : sw.prm.disable_vn = false)
    (h7 : sw.en_vdiff = true → sw.prm.visc_del2 = 0)
    (h8 : sw.en_vhyper = true → sw.prm.visc_del4 = 0) {split : Bool} {t : ℝ} {m1 : Mem ℝ}
    (he : Exec p.dims (compute_tendency p.dims ⟨defaultKernels p.dims.vl, split⟩ sw .replace .tend
      .state t) m m1) {k : Int} (k0 : 0 ≤ k) (k1 : k < p.dims.nlayers)
    (hH : ∀ c, IsCell p.nx p.ny c → 0 < m.real (.h_cell .state) 0 c k)
    (a : AlongRows p.nx p.ny (fun c => m.real (.h_cell .state) 0 c k)
      (fun e => m.real (.vn_edge .state) 0 e k) H U A) :
    (∀ c, IsCell p.nx p.ny c → m1.real (.h_cell .tend) 0 c k = 0) ∧
    (∀ c, IsCell p.nx p.ny c → m1.real (.vn_edge .tend) 0 (3 * c) k = 0) ∧
    (∀ c c', IsCell p.nx p.ny c → IsCell p.nx p.ny c' → c / p.nx = c' / p.nx →
      m1.real (.vn_edge .tend) 0 (3 * c + 2) k = m1.real (.vn_edge .tend) 0 (3 * c' + 1) k) := by
  obtain ⟨hd, hc⟩ := ready_ok hv hr
  have g := Ready.geo2 hr hv.toValid hx hy hdc
  obtain ⟨t1, t2, -⟩ := C51_tendency_formula hd hc hn (by decide) he
  have hve := a.velocity g hny h7 h8 (hr.hex hv.toValid).2.1 k
  have t2' : ∀ c, IsCell p.nx p.ny c → ∀ j, 0 ≤ j → j < 3 →
      m1.real (.vn_edge .tend) 0 (3 * c + j) k = if j = 0 then 0 else
        rowAccel p.ny dc prm.f0 sw H U A (c / p.nx) := fun c hc j h0 h3 => by
    have e1 : p.dims.nedges = 3 * (p.nx * p.ny) := rfl
    rw [t2 h6 _ k (by have := hc.1; omega) (by have := hc.2; omega) k0 k1]
    exact hve c hc j h0 h3
  refine ⟨fun c hc => ?_, fun c hc => ?_, fun c c' hc hc' e => ?_⟩
  · rw [t1 h5 c k hc.1 hc.2 k0 k1]
    exact a.thickness g hny sw hc
  · have := t2' c hc 0 (by omega) (by omega)
    rwa [add_zero, if_pos rfl] at this
  · rw [t2' c hc 2 (by omega) (by omega), t2' c' hc' 1 (by omega) (by omega), e]
    norm_num

theorem guarded_along (g : Geo2 p.nx p.ny p.dims.nlayers dc m.mesh) (hny : p.ny % 2 = 0)
    {sw : SWModel ℝ} (h7 : sw.en_vdiff = true → sw.prm.visc_del2 = 0)
    (h8 : sw.en_vhyper = true → sw.prm.visc_del4 = 0)
    (h9 : sw.en_tdiff = true → sw.prm.eddy_diff2 = 0)
    (h10 : sw.en_thyper = true → sw.prm.eddy_diff4 = 0) {f : ℝ}
    (hf : ∀ v, 0 ≤ v → v < 2 * (p.nx * p.ny) → m.real .f_vertex 0 v 0 = f) {k : Int}
    (hb : ∀ c, IsCell p.nx p.ny c → rowAccel p.ny dc f sw H U A (c / p.nx) = 0)
    (S : Int → Int → ℝ) :
    Guarded (genSys p.dims sw noHook m) (fun _ => True)
      (fun x => (∀ c, IsCell p.nx p.ny c → x.h c k = 0) ∧
        (∀ e, 0 ≤ e → e < 3 * (p.nx * p.ny) → x.vn e k = 0) ∧
        ∀ l c, 0 ≤ l → l < p.dims.ntracers → IsCell p.nx p.ny c → x.tr l c k = 0)
      (fun x => AlongRows p.nx p.ny (fun c => x.h c k) (fun e => x.vn e k) H U A ∧
        ∀ l, 0 ≤ l → l < p.dims.ntracers → RowCell p.nx p.ny (fun c => x.tr l c k) (S l)) where
  tend := by
    rintro mode t o s - ⟨ho, hov, hot⟩ ⟨hs, hst⟩
    obtain ⟨tv, tu, tt⟩ := tend_val (m := m) p.dims sw mode t o s
    refine ⟨fun c hc => ?_, fun e e0 e1 => ?_, fun l c l0 l1 hc => ?_⟩
    · rw [tv, ho c hc, hs.thickness g hny sw hc]; simp
    · have hc := isCell_edge e0 e1
      have := hs.velocity g hny h7 h8 hf k (e / 3) hc (e % 3) (by omega) (by omega)
      beta_reduce at this
      rw [show 3 * (e / 3) + e % 3 = e by omega, hb _ hc, ite_self] at this
      rw [tu, hov e e0 e1, this]; simp
    · rw [tt, hot l c l0 l1 hc, hs.tracer g hny h9 h10 (hst l l0 l1) hc]; simp
  map := by
    rintro x b ⟨h1, h2, h3⟩
    simp only [Fld.map]
    exact ⟨fun c hc => by rw [h1 c hc, zero_mul], fun e e0 e1 => by rw [h2 e e0 e1, zero_mul],
      fun l c l0 l1 hc => by rw [h3 l c l0 l1 hc, zero_mul]⟩
  axpy := by
    rintro x y b ⟨hx, hxt⟩ ⟨h1, h2, h3⟩
    simp only [Fld.axpy, Fld.zip]
    have r : ∀ {c j : Int}, IsCell p.nx p.ny c → 0 ≤ j → j < 3 →
        y.vn (3 * c + j) k = 0 := fun {c j} hc h0 h3 =>
      h2 _ (by have := hc.1; omega) (by have := hc.2; omega)
    refine ⟨⟨fun c hc => ?_, fun c hc => ?_, fun c hc => ?_, fun c hc => ?_⟩,
      fun l l0 l1 c hc => ?_⟩
    · beta_reduce; rw [h1 c hc, mul_zero, add_zero]; exact hx.h c hc
    · have := r hc (j := 0) (by omega) (by omega)
      rw [add_zero] at this
      beta_reduce; rw [this, mul_zero, add_zero]; exact hx.u0 c hc
    · beta_reduce; rw [r hc (by omega) (by omega), mul_zero, add_zero]; exact hx.u1 c hc
    · beta_reduce; rw [r hc (by omega) (by omega), mul_zero, add_zero]; exact hx.u2 c hc
    · beta_reduce; rw [h3 l c l0 l1 hc, mul_zero, add_zero]; exact hxt l l0 l1 c hc

/-- If moreover the first computed acceleration on one kind of slanted edges is zero, then the layer is
a steady state of the program: any number of steps of either stepper leaves thickness and velocity
unchanged, and also every tracer that is the same in all columns. -/
theorem C100_steady_run (hv : RunValid p) (hx : 2 ≤ p.nx) (hy : 2 ≤ p.ny) (hny : p.ny % 2 = 0)
    (hdc : 0 < dc) {prm : Params ℝ} (hr : Ready p dc prm m) {sw : SWModel ℝ} (hn : sw.NoHook)
    (h6 : sw.prm.disable_vn = false)
    (h7 : sw.en_vdiff = true → sw.prm.visc_del2 = 0)
    (h8 : sw.en_vhyper = true → sw.prm.visc_del4 = 0)
    (h9 : sw.en_tdiff = true → sw.prm.eddy_diff2 = 0)
    (h10 : sw.en_thyper = true → sw.prm.eddy_diff4 = 0) {split split' : Bool} {t : ℝ}
    {m0 m1 : Mem ℝ} {k : Int} (k0 : 0 ≤ k) (k1 : k < p.dims.nlayers)
    (hH : ∀ c, IsCell p.nx p.ny c → 0 < m.real (.h_cell .state) 0 c k)
    (a : AlongRows p.nx p.ny (fun c => m.real (.h_cell .state) 0 c k)
      (fun e => m.real (.vn_edge .state) 0 e k) H U A) {S : Int → Int → ℝ}
    (hS : ∀ l c, 0 ≤ l → l < p.dims.ntracers → IsCell p.nx p.ny c →
      m.real (.tr_cell .state) l c k = S l (c / p.nx))
    (he0 : Exec p.dims (compute_tendency p.dims ⟨defaultKernels p.dims.vl, split'⟩ sw .replace .tend
      .state t) m m0)
    (hb : ∀ c, IsCell p.nx p.ny c → m0.real (.vn_edge .tend) 0 (3 * c + 1) k = 0)
    {stp : Stepper} {sched : List (ℝ × ℝ)}
    (he : Exec p.dims (stp.ctor p.dims ++
      stp.run p.dims ⟨defaultKernels p.dims.vl, split⟩ sw sched) m m1) :
    (∀ c, IsCell p.nx p.ny c → m1.real (.h_cell .state) 0 c k = m.real (.h_cell .state) 0 c k) ∧
    (∀ e, 0 ≤ e → e < p.dims.nedges →
      m1.real (.vn_edge .state) 0 e k = m.real (.vn_edge .state) 0 e k) ∧
    (∀ l c, 0 ≤ l → l < p.dims.ntracers → IsCell p.nx p.ny c →
      m1.real (.tr_cell .state) l c k = m.real (.tr_cell .state) l c k) := by
  obtain ⟨hd, hc⟩ := ready_ok hv hr
  have g := Ready.geo2 hr hv.toValid hx hy hdc
  have hf := (hr.hex hv.toValid).2.1
  obtain ⟨-, t2, -⟩ := C51_tendency_formula hd hc hn (by decide) he0
  have e1 : p.dims.nedges = 3 * (p.nx * p.ny) := rfl
  have hb' : ∀ c, IsCell p.nx p.ny c → rowAccel p.ny dc prm.f0 sw H U A (c / p.nx) = 0 :=
    fun c hc => by
      have := a.velocity g hny h7 h8 hf k c hc 1 (by omega) (by omega)
      rw [← t2 h6 _ k (by have := hc.1; omega) (by have := hc.2; omega) k0 k1, hb c hc] at this
      simpa using this.symm
  obtain ⟨x, e, ⟨hx, hxt⟩⟩ := (genSetup hd hc (hookOK_noHook hn p.dims m)).newRun_inv
    (guarded_along g hny h7 h8 h9 h10 hf hb' S) he (fun _ _ _ _ => trivial) (fun _ _ _ => trivial)
    ⟨fun _ _ => by simp [zeroFld], fun _ _ _ => by simp [zeroFld],
      fun _ _ _ _ _ => by simp [zeroFld]⟩
    ⟨a, fun l l0 l1 c hc => hS l c l0 l1 hc⟩
  refine ⟨fun c hc => ?_, fun i i0 i1 => ?_, fun l c l0 l1 hc => ?_⟩
  · exact (e.h c k hc.1 hc.2 k0 k1).trans ((hx.h c hc).trans (a.h c hc).symm)
  · refine (e.vn i k i0 i1 k0 k1).trans ?_
    have hc := isCell_edge (nx := p.nx) (ny := p.ny) i0 i1
    have q1 := hx.rows (i / 3) hc (i % 3) (by omega) (by omega)
    have q2 := a.rows (i / 3) hc (i % 3) (by omega) (by omega)
    rw [show 3 * (i / 3) + i % 3 = i by omega] at q1 q2
    exact q1.trans q2.symm
  · exact (e.tr l c k l0 l1 hc.1 hc.2 k0 k1).trans ((hxt l l0 l1 c hc).trans (hS l c l0 l1 hc).symm)

/-- A steady flow with shear and varying thickness that is not near rest meets the hypotheses:
rows alternately of thickness 1 and 2 and of velocity 2 and 0, with gravity 13/30. -/
example : ∃ (prm : Params ℝ) (m m0 m1 : Mem ℝ) (H U : Int → ℝ), Ready p46t (1 / 4) prm m ∧
    (∀ c, IsCell p46t.nx p46t.ny c → 0 < m.real (.h_cell .state) 0 c 2) ∧
    AlongRows p46t.nx p46t.ny (fun c => m.real (.h_cell .state) 0 c 2)
      (fun e => m.real (.vn_edge .state) 0 e 2) H U (fun _ => 1 / 2) ∧
    (∀ l c, 0 ≤ l → l < p46t.dims.ntracers → IsCell p46t.nx p46t.ny c →
      m.real (.tr_cell .state) l c 2 = l + H (c / p46t.nx)) ∧
    Exec p46t.dims (compute_tendency p46t.dims ⟨defaultKernels p46t.dims.vl, false⟩
      (SWModel.ofParams prm) .replace .tend .state 0) m m0 ∧
    (∀ c, IsCell p46t.nx p46t.ny c → m0.real (.vn_edge .tend) 0 (3 * c + 1) 2 = 0) ∧
    Exec p46t.dims ((Stepper.rk4).ctor p46t.dims ++ (Stepper.rk4).run p46t.dims
      ⟨defaultKernels p46t.dims.vl, false⟩ (SWModel.ofParams prm) [(0, 1), (1, 2)]) m m1 ∧
    U 0 ≠ U 1 ∧ H 0 ≠ H 1 := by
  obtain ⟨prm, hp⟩ : ∃ q : Params ℝ, q = ⟨0, 13 / 30, 0, 0, 0, 0, false, false⟩ := ⟨_, rfl⟩
  obtain ⟨H, hH⟩ : ∃ H : Int → ℝ, H = fun r => if r % 2 = 0 then 1 else 2 := ⟨_, rfl⟩
  obtain ⟨U, hU⟩ : ∃ H : Int → ℝ, H = fun r => if r % 2 = 0 then 2 else 0 := ⟨_, rfl⟩
  have hn : (SWModel.ofParams prm).NoHook := noHook_ofParams prm
  obtain ⟨m, m1, hr, hx, he⟩ := exists_newRun p46t_run (1 / 4) prm hn false
    .rk4 [(0, 1), (1, 2)] ⟨fun c _ => H (c / p46t.nx),
      fun e _ => alongW U (fun _ => 1 / 2) (e % 3) (e / 3 / p46t.nx),
      fun l c k => l + H (c / p46t.nx)⟩
  obtain ⟨hd, hc⟩ := ready_ok p46t_run hr
  obtain ⟨m0, he0, -⟩ :=
    ((C40_safe_deterministic hd hc hn false).1 .replace .tend .state 0 (by decide)).2
  have hh : (fun c => m.real (.h_cell .state) 0 c 2) = fun c => H (c / p46t.nx) := by
    funext e; exact congrFun (congrFun (congrArg Fld.h hx) e) 2
  have hu : (fun e => m.real (.vn_edge .state) 0 e 2) =
      fun e => alongW U (fun _ => 1 / 2) (e % 3) (e / 3 / p46t.nx) := by
    funext e; exact congrFun (congrFun (congrArg Fld.vn hx) e) 2
  have ht : ∀ l c, m.real (.tr_cell .state) l c 2 = l + H (c / p46t.nx) := fun l c =>
    congrFun (congrFun (congrFun (congrArg Fld.tr hx) l) c) 2
  have a : AlongRows p46t.nx p46t.ny (fun c => m.real (.h_cell .state) 0 c 2)
      (fun e => m.real (.vn_edge .state) 0 e 2) H U (fun _ => 1 / 2) := by
    rw [hh, hu]
    refine ⟨fun _ _ => rfl, fun c _ => ?_, fun c _ => ?_, fun c _ => ?_⟩
    · beta_reduce; rw [show 3 * c % 3 = 0 by omega, show 3 * c / 3 = c by omega]; simp [alongW]
    · beta_reduce; rw [show (3 * c + 1) % 3 = 1 by omega, show (3 * c + 1) / 3 = c by omega]
      simp [alongW]
    · beta_reduce; rw [show (3 * c + 2) % 3 = 2 by omega, show (3 * c + 2) / 3 = c by omega]
      simp [alongW]
  have hpos : ∀ c, IsCell p46t.nx p46t.ny c → 0 < m.real (.h_cell .state) 0 c 2 := fun c _ => by
    rw [congrFun hh c, hH]; beta_reduce; split_ifs <;> norm_num
  refine ⟨prm, m, m0, m1, H, U, hr, hpos, a, fun l c _ _ _ => ht l c, he0, fun c hcc => ?_, he, ?_, ?_⟩
  · have g := Ready.geo2 hr p46t_run.toValid (by decide) (by decide) (by norm_num)
    obtain ⟨-, t2, -⟩ := C51_tendency_formula hd hc hn (by decide) he0
    have hnn : ¬ Scalar.lt (lit 0 : ℝ) 0 = true := by rw [slt_real, lit_real]; norm_num
    have v := a.velocity g (by decide) (sw := SWModel.ofParams prm) (fun _ => by rw [hp]; rfl)
      (fun _ => by rw [hp]; rfl) (hr.hex p46t_run.toValid).2.1 2 c hcc 1 (by omega) (by omega)
    have e1 : p46t.dims.nedges = 3 * (p46t.nx * p46t.ny) := rfl
    rw [t2 (by rw [hp]; rfl) _ 2 (by have := hcc.1; omega) (by have := hcc.2; omega) (by omega)
      (by norm_num [p46t, MeshParams.dims, ceilDiv]), v]
    have hrow := row_range (nx := p46t.nx) (by decide) hcc
    have hny : p46t.ny = 6 := rfl
    obtain ⟨r, hrr⟩ : ∃ r, r = c / p46t.nx := ⟨_, rfl⟩
    have r0 : 0 ≤ r := hrr ▸ hrow.1
    have r1 : r < 6 := by have := hrow.2; rw [hny] at this; exact hrr ▸ this
    rw [← hrr, hny]
    have w := w_sq
    have wp := w_pos
    have i1 : (SWModel.ofParams prm).en_pv = true := rfl
    have i2 : (SWModel.ofParams prm).en_ke = true := rfl
    have i3 : (SWModel.ofParams prm).en_ssh = true := rfl
    have i4 : (SWModel.ofParams prm).prm.grav = 13 / 30 := by rw [hp]; rfl
    have i5 : prm.f0 = 0 := by rw [hp]
    norm_num only [if_false]
    unfold rowAccel
    simp only [i1, i2, i3, i4, i5, if_true]
    interval_cases r
    all_goals
      norm_num [rowFlux, px, mx, hH, hU, alongW]
      field_simp
      norm_num [pow_two, w]
  · rw [hU]; norm_num
  · rw [hH]; norm_num

end Props
end
end Omega
