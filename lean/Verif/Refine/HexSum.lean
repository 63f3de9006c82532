import Verif.Spec.Hex
import Verif.Refine.MeshAll
import Mathlib.Algebra.BigOperators.Intervals
import Mathlib.Algebra.BigOperators.Ring.Finset
import Mathlib.Order.Interval.Finset.Basic
import Mathlib.Data.Int.Interval

/-!
# Sums over the hexagonal lattice
-/

set_option linter.unusedSectionVars false
set_option linter.unusedVariables false

namespace Omega
noncomputable section

namespace Hex

open Finset Refine

variable {nx ny : Int}

/-- `[0, n)` -/
abbrev upto (n : Int) : Finset ℤ := Finset.Ico 0 n

theorem sum_upto (n : Int) (F : Int → ℝ) :
    ∑ i ∈ Finset.range n.toNat, F i = ∑ i ∈ upto n, F i := by
  refine Finset.sum_nbij' (fun i : ℕ => (i : ℤ)) Int.toNat ?_ ?_ ?_ ?_ ?_
  · intro i hi; simp only [Finset.mem_range] at hi; simp only [Finset.mem_Ico]; omega
  · intro i hi; simp only [Finset.mem_Ico] at hi; simp only [Finset.mem_range]; omega
  · intro i hi; simp
  · intro i hi; simp only [Finset.mem_Ico] at hi; simp; omega
  · intro i hi; rfl

theorem sum_three (n : Int) (F : Int → ℝ) :
    ∑ e ∈ upto (3 * n), F e = ∑ c ∈ upto n, (F (3 * c) + F (3 * c + 1) + F (3 * c + 2)) := by
  rw [← sum_upto, ← sum_upto]
  rcases le_or_gt n 0 with h | h
  · have h1 : n.toNat = 0 := by omega
    have h2 : (3 * n).toNat = 0 := by omega
    simp [h1, h2]
  · obtain ⟨k, rfl⟩ : ∃ k : ℕ, n = k := ⟨n.toNat, by omega⟩
    have h2 : (3 * (k : ℤ)).toNat = 3 * k := by omega
    rw [h2, Int.toNat_natCast]
    clear h h2
    induction k with
    | zero => simp
    | succ k ih =>
      rw [Finset.sum_range_succ, ← ih, show 3 * (k + 1) = 3 * k + 1 + 1 + 1 by ring,
        Finset.sum_range_succ, Finset.sum_range_succ, Finset.sum_range_succ]
      push_cast
      ring_nf

theorem sum_two (n : Int) (F : Int → ℝ) :
    ∑ e ∈ upto (2 * n), F e = ∑ c ∈ upto n, (F (2 * c) + F (2 * c + 1)) := by
  rw [← sum_upto, ← sum_upto]
  rcases le_or_gt n 0 with h | h
  · have h1 : n.toNat = 0 := by omega
    have h2 : (2 * n).toNat = 0 := by omega
    simp [h1, h2]
  · obtain ⟨k, rfl⟩ : ∃ k : ℕ, n = k := ⟨n.toNat, by omega⟩
    have h2 : (2 * (k : ℤ)).toNat = 2 * k := by omega
    rw [h2, Int.toNat_natCast]
    clear h h2
    induction k with
    | zero => simp
    | succ k ih =>
      rw [Finset.sum_range_succ, ← ih, show 2 * (k + 1) = 2 * k + 1 + 1 by ring,
        Finset.sum_range_succ, Finset.sum_range_succ]
      push_cast
      ring_nf

theorem mem_cells {c : Int} : c ∈ upto (nx * ny) ↔ IsCell nx ny c := by
  simp [IsCell]

/-- A sum over cells does not change when every cell is replaced by its neighbour `j`. -/
theorem sum_nb (hnx : 1 ≤ nx) (j : Int) (G : Int → ℝ) :
    ∑ c ∈ upto (nx * ny), G (nb nx ny j c) = ∑ c ∈ upto (nx * ny), G c := by
  refine Finset.sum_nbij' (nb nx ny j) (inv nx ny j) ?_ ?_ ?_ ?_ ?_
  · intro c hc; exact mem_cells.mpr (nb_isCell hnx (mem_cells.mp hc))
  · intro c hc; exact mem_cells.mpr (inv_isCell hnx (mem_cells.mp hc))
  · intro c hc; exact inv_nb hnx (mem_cells.mp hc)
  · intro c hc; exact nb_inv hnx (mem_cells.mp hc)
  · intro c hc; rfl

theorem sum_inv (hnx : 1 ≤ nx) (j : Int) (G : Int → ℝ) :
    ∑ c ∈ upto (nx * ny), G (inv nx ny j c) = ∑ c ∈ upto (nx * ny), G c := by
  rw [← sum_nb hnx j fun c => G (inv nx ny j c)]
  exact Finset.sum_congr rfl fun c hc => by rw [inv_nb hnx (mem_cells.mp hc)]

/-! ### Lattice operators -/

/-- sides 3, 4, 5 minus sides 0, 1, 2 -/
def Dv (nx ny : Int) (u : Int → ℝ) (c : Int) : ℝ :=
  u (E nx ny c 3) + u (E nx ny c 4) + u (E nx ny c 5) -
    u (E nx ny c 0) - u (E nx ny c 1) - u (E nx ny c 2)

/-- difference across an edge -/
def Gr (nx ny : Int) (φ : Int → ℝ) (e : Int) : ℝ := φ (coe nx ny e 1) - φ (coe nx ny e 0)

/-- signed sum over the edges of a vertex -/
def Cu (nx ny : Int) (u : Int → ℝ) (v : Int) : ℝ :=
  if v % 2 = 0 then u (eov nx ny v 0) + u (eov nx ny v 1) - u (eov nx ny v 2)
  else u (eov nx ny v 2) - u (eov nx ny v 0) - u (eov nx ny v 1)

/-- difference along an edge -/
def Gv (nx ny : Int) (ψ : Int → ℝ) (e : Int) : ℝ := ψ (voe nx ny e 1) - ψ (voe nx ny e 0)

theorem coe_one (e : Int) : coe nx ny e 1 = e / 3 := by simp [coe]
theorem coe_zero (e : Int) : coe nx ny e 0 = inv nx ny (e % 3 + 3) (e / 3) := by simp [coe]

/-- Summation by parts, cells and edges. -/
theorem adjoint_cell (hnx : 1 ≤ nx) (φ u : Int → ℝ) :
    ∑ c ∈ upto (nx * ny), φ c * Dv nx ny u c = -∑ e ∈ upto (3 * (nx * ny)), u e * Gr nx ny φ e := by
  rw [sum_three, ← Finset.sum_neg_distrib]
  have h : ∀ r : Int, 0 ≤ r → r < 3 → ∑ c ∈ upto (nx * ny), φ c * u (E nx ny c (r + 3)) =
      ∑ c ∈ upto (nx * ny), φ (inv nx ny (r + 3) c) * u (3 * c + r) := by
    intro r h0 h1
    rw [← sum_nb hnx (r + 3) fun c => φ (inv nx ny (r + 3) c) * u (3 * c + r)]
    refine Finset.sum_congr rfl fun c hc => ?_
    rw [inv_nb hnx (mem_cells.mp hc)]
    have : E nx ny c (r + 3) = 3 * nb nx ny (r + 3) c + r := by
      unfold E; rw [if_neg (by omega)]; ring
    rw [this]
  have h0 := h 0 (by omega) (by omega)
  have h1 := h 1 (by omega) (by omega)
  have h2 := h 2 (by omega) (by omega)
  norm_num at h0 h1 h2
  have e : ∀ c r : Int, 0 ≤ r → r < 3 → E nx ny c r = 3 * c + r := by
    intro c r a b; unfold E; rw [if_pos b]
  have lhs : ∑ c ∈ upto (nx * ny), φ c * Dv nx ny u c =
      ∑ c ∈ upto (nx * ny), φ c * u (E nx ny c 3) + ∑ c ∈ upto (nx * ny), φ c * u (E nx ny c 4) +
      ∑ c ∈ upto (nx * ny), φ c * u (E nx ny c 5) -
      ∑ c ∈ upto (nx * ny), φ c * (u (3 * c) + u (3 * c + 1) + u (3 * c + 2)) := by
    rw [← Finset.sum_add_distrib, ← Finset.sum_add_distrib, ← Finset.sum_sub_distrib]
    refine Finset.sum_congr rfl fun c _ => ?_
    unfold Dv
    rw [e c 0 (by omega) (by omega), e c 1 (by omega) (by omega), e c 2 (by omega) (by omega),
      add_zero]
    ring
  rw [lhs, h0, h1, h2, ← Finset.sum_add_distrib, ← Finset.sum_add_distrib, ← Finset.sum_sub_distrib]
  refine Finset.sum_congr rfl fun c _ => ?_
  unfold Gr
  simp only [coe_one, coe_zero]
  have a0 : 3 * c / 3 = c := by omega
  have a1 : (3 * c + 1) / 3 = c := by omega
  have a2 : (3 * c + 2) / 3 = c := by omega
  have b0 : 3 * c % 3 = 0 := by omega
  have b1 : (3 * c + 1) % 3 = 1 := by omega
  have b2 : (3 * c + 2) % 3 = 2 := by omega
  rw [a0, a1, a2, b0, b1, b2]
  norm_num
  ring

/-- Summation by parts, vertices and edges. -/
theorem adjoint_vertex (hnx : 1 ≤ nx) (ψ u : Int → ℝ) :
    ∑ v ∈ upto (2 * (nx * ny)), ψ v * Cu nx ny u v =
      ∑ e ∈ upto (3 * (nx * ny)), u e * Gv nx ny ψ e := by
  rw [sum_two, sum_three]
  have s2 : ∀ G : Int → Int → ℝ, ∑ c ∈ upto (nx * ny), G c (inv nx ny 2 c) =
      ∑ c ∈ upto (nx * ny), G (nb nx ny 2 c) c := by
    intro G
    rw [← sum_nb hnx 2 fun c => G c (inv nx ny 2 c)]
    exact Finset.sum_congr rfl fun c hc => by rw [inv_nb hnx (mem_cells.mp hc)]
  have s3 : ∀ G : Int → Int → ℝ, ∑ c ∈ upto (nx * ny), G c (inv nx ny 3 c) =
      ∑ c ∈ upto (nx * ny), G (nb nx ny 3 c) c := by
    intro G
    rw [← sum_nb hnx 3 fun c => G c (inv nx ny 3 c)]
    exact Finset.sum_congr rfl fun c hc => by rw [inv_nb hnx (mem_cells.mp hc)]
  have lhs : ∑ c ∈ upto (nx * ny), (ψ (2 * c) * Cu nx ny u (2 * c) +
        ψ (2 * c + 1) * Cu nx ny u (2 * c + 1)) =
      ∑ c ∈ upto (nx * ny), (ψ (2 * c) * u (3 * c) + ψ (2 * c + 1) * (u (3 * c + 1) - u (3 * c))) +
      ∑ c ∈ upto (nx * ny), ψ (2 * c) * (u (3 * inv nx ny 2 c + 2) - u (3 * inv nx ny 2 c + 1)) -
      ∑ c ∈ upto (nx * ny), ψ (2 * c + 1) * u (3 * inv nx ny 3 c + 2) := by
    rw [← Finset.sum_add_distrib, ← Finset.sum_sub_distrib]
    refine Finset.sum_congr rfl fun c _ => ?_
    unfold Cu eov
    have a0 : 2 * c % 2 = 0 := by omega
    have a1 : ¬ (2 * c + 1) % 2 = 0 := by omega
    have d0 : 2 * c / 2 = c := by omega
    have d1 : (2 * c + 1) / 2 = c := by omega
    simp only [a0, a1, d0, d1, if_true, if_false]
    norm_num
    ring
  rw [lhs, s2 fun c i => ψ (2 * c) * (u (3 * i + 2) - u (3 * i + 1)),
    s3 fun c i => ψ (2 * c + 1) * u (3 * i + 2), ← Finset.sum_add_distrib, ← Finset.sum_sub_distrib]
  refine Finset.sum_congr rfl fun c _ => ?_
  unfold Gv voe
  have a0 : 3 * c / 3 = c := by omega
  have a1 : (3 * c + 1) / 3 = c := by omega
  have a2 : (3 * c + 2) / 3 = c := by omega
  have b0 : 3 * c % 3 = 0 := by omega
  have b1 : (3 * c + 1) % 3 = 1 := by omega
  have b2 : (3 * c + 2) % 3 = 2 := by omega
  rw [a0, a1, a2, b0, b1, b2]
  norm_num
  ring

/-- Summing a quantity of (cell, side) over both cells of every edge covers every (cell, side). -/
theorem sum_sides (hnx : 1 ≤ nx) (P : Int → Int → ℝ) :
    ∑ e ∈ upto (3 * (nx * ny)), (P (coe nx ny e 0) (e % 3 + 3) + P (e / 3) (e % 3)) =
      ∑ c ∈ upto (nx * ny), (P c 0 + P c 1 + P c 2 + P c 3 + P c 4 + P c 5) := by
  rw [sum_three]
  have h : ∀ j, ∑ c ∈ upto (nx * ny), P (inv nx ny j c) j = ∑ c ∈ upto (nx * ny), P c j :=
    fun j => sum_inv hnx j fun c => P c j
  have lhs : ∀ c : Int, (P (coe nx ny (3 * c) 0) (3 * c % 3 + 3) + P (3 * c / 3) (3 * c % 3)) +
      (P (coe nx ny (3 * c + 1) 0) ((3 * c + 1) % 3 + 3) + P ((3 * c + 1) / 3) ((3 * c + 1) % 3)) +
      (P (coe nx ny (3 * c + 2) 0) ((3 * c + 2) % 3 + 3) + P ((3 * c + 2) / 3) ((3 * c + 2) % 3)) =
      P (inv nx ny 3 c) 3 + P (inv nx ny 4 c) 4 + P (inv nx ny 5 c) 5 + (P c 0 + P c 1 + P c 2) := by
    intro c
    simp only [coe_zero]
    have a0 : 3 * c / 3 = c := by omega
    have a1 : (3 * c + 1) / 3 = c := by omega
    have a2 : (3 * c + 2) / 3 = c := by omega
    have b0 : 3 * c % 3 = 0 := by omega
    have b1 : (3 * c + 1) % 3 = 1 := by omega
    have b2 : (3 * c + 2) % 3 = 2 := by omega
    rw [a0, a1, a2, b0, b1, b2]
    norm_num
    ring
  rw [Finset.sum_congr rfl fun c _ => lhs c]
  simp only [Finset.sum_add_distrib, h]
  ring

/-! ### Tangential weights -/

/-- weighted sum of a function of (edge, neighbouring edge) over the neighbourhood of an edge -/
def Tw (nx ny : Int) (F : Int → Int → ℝ) (e : Int) : ℝ :=
  ∑ s ∈ Finset.range 10, wRaw (e % 3) ((s : ℤ) % 5) * F e (eoe nx ny e s)

/-- the part of one cell -/
def Tq (nx ny : Int) (F : Int → Int → ℝ) (c a : Int) : ℝ :=
  wRaw (a % 3) 0 * F (E nx ny c a) (E nx ny c ((a + 1) % 6)) +
  wRaw (a % 3) 1 * F (E nx ny c a) (E nx ny c ((a + 2) % 6)) +
  wRaw (a % 3) 2 * F (E nx ny c a) (E nx ny c ((a + 3) % 6)) +
  wRaw (a % 3) 3 * F (E nx ny c a) (E nx ny c ((a + 4) % 6)) +
  wRaw (a % 3) 4 * F (E nx ny c a) (E nx ny c ((a + 5) % 6))

theorem Tw_eq (hnx : 1 ≤ nx) (F : Int → Int → ℝ) {e : Int} (he : IsCell nx ny (e / 3)) :
    Tw nx ny F e = Tq nx ny F (coe nx ny e 0) (e % 3 + 3) + Tq nx ny F (e / 3) (e % 3) := by
  have h1 : E nx ny (coe nx ny e 0) (e % 3 + 3) = e := (eq_E_hi hnx he).symm
  have h2 : E nx ny (e / 3) (e % 3) = e := (eq_E_lo e).symm
  unfold Tw Tq
  rw [h1, h2]
  have h3 : (e % 3 + 3) % 3 = e % 3 := by omega
  have h4 : e % 3 % 3 = e % 3 := by omega
  rw [h3, h4]
  simp only [Finset.sum_range_succ, Finset.sum_range_zero, eoe]
  norm_num
  ring_nf

/-- The weights are antisymmetric: a symmetric weighting of pairs sums to zero. -/
theorem antisymm (hnx : 1 ≤ nx) (F : Int → Int → ℝ) (hF : ∀ x y, F x y = F y x) :
    ∑ e ∈ upto (3 * (nx * ny)), Tw nx ny F e = 0 := by
  have : ∑ e ∈ upto (3 * (nx * ny)), Tw nx ny F e = ∑ e ∈ upto (3 * (nx * ny)),
      (Tq nx ny F (coe nx ny e 0) (e % 3 + 3) + Tq nx ny F (e / 3) (e % 3)) := by
    refine Finset.sum_congr rfl fun e he => Tw_eq hnx F ?_
    simp only [Finset.mem_Ico] at he
    exact isCell_edge he.1 he.2
  rw [this, sum_sides hnx (Tq nx ny F)]
  apply Finset.sum_eq_zero
  intro c _
  unfold Tq
  norm_num
  rw [hF (E nx ny c 1) (E nx ny c 0), hF (E nx ny c 2) (E nx ny c 0), hF (E nx ny c 3) (E nx ny c 0),
    hF (E nx ny c 4) (E nx ny c 0), hF (E nx ny c 5) (E nx ny c 0), hF (E nx ny c 2) (E nx ny c 1),
    hF (E nx ny c 3) (E nx ny c 1), hF (E nx ny c 4) (E nx ny c 1), hF (E nx ny c 5) (E nx ny c 1),
    hF (E nx ny c 3) (E nx ny c 2), hF (E nx ny c 4) (E nx ny c 2), hF (E nx ny c 5) (E nx ny c 2),
    hF (E nx ny c 4) (E nx ny c 3), hF (E nx ny c 5) (E nx ny c 3), hF (E nx ny c 5) (E nx ny c 4)]
  simp [wRaw]
  ring

end Hex

end
end Omega
