import Verif.Lib.Scalar
import Mathlib.Tactic.LinearCombination
import Mathlib.Tactic.IntervalCases

/-!
# The periodic hexagonal lattice: closed forms

Columns `0 ≤ i < nx`, rows `0 ≤ r < ny`, cell number `r * nx + i`.  These are the closed forms that
the mesh tables built by the code are proved to have.
-/

set_option linter.unusedVariables false

namespace Omega
namespace Hex

/-- previous index on a ring of `n` -/
def mx (n i : Int) : Int := if i = 0 then n - 1 else i - 1
/-- next index on a ring of `n` -/
def px (n i : Int) : Int := if i = n - 1 then 0 else i + 1

/-- cell number -/
def cid (nx i r : Int) : Int := r * nx + i
/-- column of a cell -/
def col (nx a : Int) : Int := a % nx
/-- row of a cell -/
def row (nx a : Int) : Int := a / nx

/-- column of neighbour `j` -/
def nbI (nx j i r : Int) : Int :=
  if j = 0 then mx nx i
  else if j = 1 then (if r % 2 = 0 then mx nx i else i)
  else if j = 2 then (if r % 2 = 0 then i else px nx i)
  else if j = 3 then px nx i
  else if j = 4 then (if r % 2 = 0 then i else px nx i)
  else (if r % 2 = 0 then mx nx i else i)
/-- row of neighbour `j` -/
def nbR (ny j r : Int) : Int :=
  if j = 0 ∨ j = 3 then r else if j = 1 ∨ j = 2 then mx ny r else px ny r

/-- neighbour `j` of cell `a` -/
def nb (nx ny j a : Int) : Int :=
  cid nx (nbI nx j (col nx a) (row nx a)) (nbR ny j (row nx a))

/-- column of the cell whose neighbour `j` is `(i, r)` -/
def inI (nx ny j i r : Int) : Int :=
  if j = 0 then px nx i
  else if j = 1 then (if px ny r % 2 = 0 then px nx i else i)
  else if j = 2 then (if px ny r % 2 = 0 then i else mx nx i)
  else if j = 3 then mx nx i
  else if j = 4 then (if mx ny r % 2 = 0 then i else mx nx i)
  else (if mx ny r % 2 = 0 then px nx i else i)
/-- row of the cell whose neighbour `j` is in row `r` -/
def inR (ny j r : Int) : Int :=
  if j = 0 ∨ j = 3 then r else if j = 1 ∨ j = 2 then px ny r else mx ny r

/-- the cell whose neighbour `j` is `a` -/
def inv (nx ny j a : Int) : Int :=
  cid nx (inI nx ny j (col nx a) (row nx a)) (inR ny j (row nx a))

/-- edge number of side `j` of cell `c` -/
def E (nx ny c j : Int) : Int := if j < 3 then 3 * c + j else 3 * nb nx ny j c + (j - 3)

/-- vertex number of corner `j` of cell `c` -/
def V (nx ny c j : Int) : Int :=
  if j = 0 then 2 * c
  else if j = 1 then 2 * c + 1
  else if j = 2 then 2 * nb nx ny 2 c
  else if j = 3 then 2 * nb nx ny 3 c + 1
  else if j = 4 then 2 * nb nx ny 3 c
  else 2 * nb nx ny 4 c + 1

/-- cell on side `s` of edge `e` -/
def coe (nx ny e s : Int) : Int := if s = 1 then e / 3 else inv nx ny (e % 3 + 3) (e / 3)

/-- end point `s` of edge `e` -/
def voe (nx ny e s : Int) : Int :=
  if s = 0 then
    (if e % 3 = 0 then 2 * (e / 3) + 1
     else if e % 3 = 1 then 2 * nb nx ny 2 (e / 3) else 2 * nb nx ny 3 (e / 3) + 1)
  else
    (if e % 3 = 0 then 2 * (e / 3)
     else if e % 3 = 1 then 2 * (e / 3) + 1 else 2 * nb nx ny 2 (e / 3))

/-- edge `s` in the neighbourhood of edge `e` -/
def eoe (nx ny e s : Int) : Int :=
  if s < 5 then E nx ny (coe nx ny e 0) ((e % 3 + 3 + 1 + s) % 6)
  else E nx ny (e / 3) ((e % 3 + 1 + (s - 5)) % 6)

/-- cell `s` around vertex `v` -/
def cov (nx ny v s : Int) : Int :=
  if v % 2 = 0 then
    (if s = 0 then v / 2 else if s = 1 then inv nx ny 2 (v / 2) else inv nx ny 3 (v / 2))
  else
    (if s = 0 then inv nx ny 3 (v / 2) else if s = 1 then inv nx ny 4 (v / 2) else v / 2)

/-- edge `s` at vertex `v` -/
def eov (nx ny v s : Int) : Int :=
  if v % 2 = 0 then
    (if s = 0 then 3 * (v / 2) else if s = 1 then 3 * inv nx ny 2 (v / 2) + 2
     else 3 * inv nx ny 2 (v / 2) + 1)
  else
    (if s = 0 then 3 * (v / 2) else if s = 1 then 3 * inv nx ny 3 (v / 2) + 2
     else 3 * (v / 2) + 1)

variable {nx ny : Int}

theorem cid_range {i r : Int} (hi : 0 ≤ i) (hi' : i < nx) (hr : 0 ≤ r) (hr' : r < ny) :
    0 ≤ cid nx i r ∧ cid nx i r < nx * ny := by
  unfold cid
  constructor
  · have : 0 ≤ r * nx := Int.mul_nonneg hr (by omega)
    omega
  · have : r * nx ≤ (ny - 1) * nx := Int.mul_le_mul_of_nonneg_right (by omega) (by omega)
    have h2 : (ny - 1) * nx = nx * ny - nx := by ring
    omega

theorem col_cid {i r : Int} (hi : 0 ≤ i) (hi' : i < nx) : col nx (cid nx i r) = i := by
  unfold col cid
  rw [Int.add_comm, Int.add_mul_emod_self_right]
  exact Int.emod_eq_of_lt hi hi'

theorem row_cid {i r : Int} (hi : 0 ≤ i) (hi' : i < nx) : row nx (cid nx i r) = r := by
  unfold row cid
  rw [Int.add_comm, Int.add_mul_ediv_right _ _ (by omega), Int.ediv_eq_zero_of_lt hi hi']
  omega

theorem cid_col_row (a : Int) : cid nx (col nx a) (row nx a) = a := by
  unfold cid col row
  rw [Int.mul_comm]
  exact Int.mul_ediv_add_emod a nx

/-- a valid cell number -/
def IsCell (nx ny a : Int) : Prop := 0 ≤ a ∧ a < nx * ny

theorem col_range (hnx : 1 ≤ nx) (a : Int) : 0 ≤ col nx a ∧ col nx a < nx :=
  ⟨Int.emod_nonneg _ (by omega), Int.emod_lt_of_pos _ (by omega)⟩

theorem row_range (hnx : 1 ≤ nx) {a : Int} (ha : IsCell nx ny a) :
    0 ≤ row nx a ∧ row nx a < ny := by
  unfold row
  exact ⟨Int.ediv_nonneg ha.1 (by omega),
    Int.ediv_lt_of_lt_mul (by omega) (by rw [Int.mul_comm]; exact ha.2)⟩

/-- every cell number comes from coordinates -/
theorem exists_coords (hnx : 1 ≤ nx) {a : Int} (ha : IsCell nx ny a) :
    ∃ i r, 0 ≤ i ∧ i < nx ∧ 0 ≤ r ∧ r < ny ∧ a = cid nx i r :=
  ⟨col nx a, row nx a, (col_range hnx a).1, (col_range hnx a).2, (row_range hnx ha).1,
    (row_range hnx ha).2, (cid_col_row a).symm⟩

theorem mx_range {n i : Int} (h0 : 0 ≤ i) (h1 : i < n) : 0 ≤ mx n i ∧ mx n i < n := by
  unfold mx; split_ifs <;> omega
theorem px_range {n i : Int} (h0 : 0 ≤ i) (h1 : i < n) : 0 ≤ px n i ∧ px n i < n := by
  unfold px; split_ifs <;> omega
theorem mx_px {n i : Int} (h0 : 0 ≤ i) (_h1 : i < n) : mx n (px n i) = i := by
  unfold mx px; split_ifs <;> omega
theorem px_mx {n i : Int} (_h0 : 0 ≤ i) (h1 : i < n) : px n (mx n i) = i := by
  unfold mx px; split_ifs <;> omega

theorem nbI_range {j i r : Int} (h0 : 0 ≤ i) (h1 : i < nx) :
    0 ≤ nbI nx j i r ∧ nbI nx j i r < nx := by
  have := mx_range h0 h1
  have := px_range h0 h1
  unfold nbI; split_ifs <;> omega
theorem nbR_range {j r : Int} (h0 : 0 ≤ r) (h1 : r < ny) : 0 ≤ nbR ny j r ∧ nbR ny j r < ny := by
  have := mx_range h0 h1
  have := px_range h0 h1
  unfold nbR; split_ifs <;> omega
theorem inI_range {j i r : Int} (h0 : 0 ≤ i) (h1 : i < nx) :
    0 ≤ inI nx ny j i r ∧ inI nx ny j i r < nx := by
  have := mx_range h0 h1
  have := px_range h0 h1
  unfold inI; split_ifs <;> omega
theorem inR_range {j r : Int} (h0 : 0 ≤ r) (h1 : r < ny) : 0 ≤ inR ny j r ∧ inR ny j r < ny := by
  have := mx_range h0 h1
  have := px_range h0 h1
  unfold inR; split_ifs <;> omega

theorem nb_cid {j i r : Int} (h0 : 0 ≤ i) (h1 : i < nx) :
    nb nx ny j (cid nx i r) = cid nx (nbI nx j i r) (nbR ny j r) := by
  unfold nb; rw [col_cid h0 h1, row_cid h0 h1]
theorem inv_cid {j i r : Int} (h0 : 0 ≤ i) (h1 : i < nx) :
    inv nx ny j (cid nx i r) = cid nx (inI nx ny j i r) (inR ny j r) := by
  unfold inv; rw [col_cid h0 h1, row_cid h0 h1]

theorem nb_isCell (hnx : 1 ≤ nx) {j a : Int} (ha : IsCell nx ny a) : IsCell nx ny (nb nx ny j a) := by
  obtain ⟨i, r, h0, h1, h2, h3, rfl⟩ := exists_coords hnx ha
  rw [nb_cid h0 h1]
  have := nbI_range (j := j) (r := r) h0 h1
  have := nbR_range (j := j) h2 h3
  exact cid_range (by omega) (by omega) (by omega) (by omega)

theorem inv_isCell (hnx : 1 ≤ nx) {j a : Int} (ha : IsCell nx ny a) :
    IsCell nx ny (inv nx ny j a) := by
  obtain ⟨i, r, h0, h1, h2, h3, rfl⟩ := exists_coords hnx ha
  rw [inv_cid h0 h1]
  have := inI_range (ny := ny) (j := j) (r := r) h0 h1
  have := inR_range (j := j) h2 h3
  exact cid_range (by omega) (by omega) (by omega) (by omega)

theorem inI_nb {j i r : Int} (h0 : 0 ≤ i) (h1 : i < nx) (h2 : 0 ≤ r) (h3 : r < ny) :
    inI nx ny j (nbI nx j i r) (nbR ny j r) = i := by
  have a1 := mx_px h0 h1
  have a2 := px_mx h0 h1
  have a3 := mx_px h2 h3
  have a4 := px_mx h2 h3
  unfold inI nbI nbR
  split_ifs <;> simp_all

theorem inR_nb {j r : Int} (h2 : 0 ≤ r) (h3 : r < ny) : inR ny j (nbR ny j r) = r := by
  have a3 := mx_px h2 h3
  have a4 := px_mx h2 h3
  unfold inR nbR
  split_ifs <;> simp_all

theorem nbI_inv {j i r : Int} (h0 : 0 ≤ i) (h1 : i < nx) :
    nbI nx j (inI nx ny j i r) (inR ny j r) = i := by
  have a1 := mx_px h0 h1
  have a2 := px_mx h0 h1
  unfold inI nbI inR
  split_ifs <;> simp_all

theorem nbR_inv {j r : Int} (h2 : 0 ≤ r) (h3 : r < ny) : nbR ny j (inR ny j r) = r := by
  have a3 := mx_px h2 h3
  have a4 := px_mx h2 h3
  unfold inR nbR
  split_ifs <;> simp_all

/-- `inv j` undoes `nb j`. -/
theorem inv_nb (hnx : 1 ≤ nx) {j a : Int} (ha : IsCell nx ny a) :
    inv nx ny j (nb nx ny j a) = a := by
  obtain ⟨i, r, h0, h1, h2, h3, rfl⟩ := exists_coords hnx ha
  have hI := nbI_range (j := j) (r := r) h0 h1
  rw [nb_cid h0 h1, inv_cid hI.1 hI.2, inI_nb h0 h1 h2 h3, inR_nb h2 h3]

/-- `nb j` undoes `inv j`. -/
theorem nb_inv (hnx : 1 ≤ nx) {j a : Int} (ha : IsCell nx ny a) :
    nb nx ny j (inv nx ny j a) = a := by
  obtain ⟨i, r, h0, h1, h2, h3, rfl⟩ := exists_coords hnx ha
  have hI := inI_range (ny := ny) (j := j) (r := r) h0 h1
  rw [inv_cid h0 h1, nb_cid hI.1 hI.2, nbI_inv h0 h1, nbR_inv h2 h3]

theorem nb_inj (hnx : 1 ≤ nx) {j a b : Int} (ha : IsCell nx ny a) (hb : IsCell nx ny b)
    (h : nb nx ny j a = nb nx ny j b) : a = b := by
  rw [← inv_nb hnx ha (j := j), h, inv_nb hnx hb]

/-- neighbours 0 and 3 are always mutually inverse -/
theorem inv_three (j : Int) : inv nx ny 3 j = nb nx ny 0 j := by
  simp [inv, nb, inI, nbI, inR, nbR]
theorem inv_zero (j : Int) : inv nx ny 0 j = nb nx ny 3 j := by
  simp [inv, nb, inI, nbI, inR, nbR]

end Hex
end Omega

namespace Omega
namespace Hex

variable {nx ny : Int}

theorem E_range (hnx : 1 ≤ nx) {c : Int} (hc : IsCell nx ny c) (j : Int) (h0 : 0 ≤ j) (h6 : j < 6) :
    0 ≤ E nx ny c j ∧ E nx ny c j < 3 * (nx * ny) := by
  have h1 := nb_isCell hnx hc (j := j)
  unfold IsCell at hc h1
  unfold E; split_ifs <;> omega

theorem V_range (hnx : 1 ≤ nx) {c : Int} (hc : IsCell nx ny c) (j : Int) :
    0 ≤ V nx ny c j ∧ V nx ny c j < 2 * (nx * ny) := by
  have h2 := nb_isCell hnx hc (j := 2)
  have h3 := nb_isCell hnx hc (j := 3)
  have h4 := nb_isCell hnx hc (j := 4)
  unfold IsCell at hc h2 h3 h4
  unfold V; split_ifs <;> omega

theorem E_mod {c j : Int} (h0 : 0 ≤ j) (h6 : j < 6) : E nx ny c j % 3 = j % 3 := by
  unfold E; split_ifs <;> omega

theorem E_div_lo {c j : Int} (h0 : 0 ≤ j) (h3 : j < 3) : E nx ny c j / 3 = c := by
  unfold E; rw [if_pos h3]; omega

theorem E_div_hi {c j : Int} (h3 : 3 ≤ j) (h6 : j < 6) : E nx ny c j / 3 = nb nx ny j c := by
  unfold E; rw [if_neg (by omega)]; omega

theorem coe_E_lo {c j : Int} (h0 : 0 ≤ j) (h3 : j < 3) : coe nx ny (E nx ny c j) 1 = c := by
  unfold coe; rw [if_pos rfl]; exact E_div_lo h0 h3

theorem coe_E_hi (hnx : 1 ≤ nx) {c : Int} (hc : IsCell nx ny c) {j : Int} (h3 : 3 ≤ j) (h6 : j < 6) :
    coe nx ny (E nx ny c j) 0 = c := by
  unfold coe
  rw [if_neg (by omega), E_mod (by omega) h6, E_div_hi h3 h6, show j % 3 + 3 = j by omega]
  exact inv_nb hnx hc

theorem eoe_E (hnx : 1 ≤ nx) {c : Int} (hc : IsCell nx ny c) {a s : Int} (h0 : 0 ≤ a) (h6 : a < 6)
    (hs : (a < 3 ∧ 5 ≤ s ∧ s < 10) ∨ (3 ≤ a ∧ 0 ≤ s ∧ s < 5)) :
    eoe nx ny (E nx ny c a) s = E nx ny c ((a + 1 + s % 5) % 6) := by
  unfold eoe
  rcases hs with ⟨h3, h5, h10⟩ | ⟨h3, h5, h10⟩
  · rw [if_neg (by omega), E_mod h0 h6, E_div_lo h0 h3]
    congr 1; omega
  · rw [if_pos h10, coe_E_hi hnx hc h3 h6, E_mod h0 h6]
    congr 1; omega

/-- the cell that stores slot `s` of the neighbourhood of edge `e` -/
def eoeOwner (nx ny e s : Int) : Int := if s < 5 then coe nx ny e 0 else e / 3

theorem eoeOwner_E (hnx : 1 ≤ nx) {c : Int} (hc : IsCell nx ny c) {a s : Int} (h0 : 0 ≤ a)
    (h6 : a < 6) (hs : (a < 3 ∧ 5 ≤ s ∧ s < 10) ∨ (3 ≤ a ∧ 0 ≤ s ∧ s < 5)) :
    eoeOwner nx ny (E nx ny c a) s = c := by
  unfold eoeOwner
  rcases hs with ⟨h3, h5, h10⟩ | ⟨h3, h5, h10⟩
  · rw [if_neg (by omega), E_div_lo h0 h3]
  · rw [if_pos h10, coe_E_hi hnx hc h3 h6]

/-- an edge is a low side of its own cell -/
theorem eq_E_lo (e : Int) : e = E nx ny (e / 3) (e % 3) := by
  unfold E; rw [if_pos (by omega)]; omega

/-- an edge is a high side of the cell in slot 0 -/
theorem eq_E_hi (hnx : 1 ≤ nx) {e : Int} (he : IsCell nx ny (e / 3)) :
    e = E nx ny (coe nx ny e 0) (e % 3 + 3) := by
  unfold E; rw [if_neg (by omega)]
  unfold coe; rw [if_neg (by omega), nb_inv hnx he]; omega

theorem isCell_edge {e : Int} (h0 : 0 ≤ e) (h1 : e < 3 * (nx * ny)) : IsCell nx ny (e / 3) := by
  unfold IsCell; omega
theorem isCell_vertex {v : Int} (h0 : 0 ≤ v) (h1 : v < 2 * (nx * ny)) : IsCell nx ny (v / 2) := by
  unfold IsCell; omega

theorem coe_isCell (hnx : 1 ≤ nx) {e s : Int} (h0 : 0 ≤ e) (h1 : e < 3 * (nx * ny)) :
    IsCell nx ny (coe nx ny e s) := by
  unfold coe; split_ifs
  · exact isCell_edge h0 h1
  · exact inv_isCell hnx (isCell_edge h0 h1)

theorem cov_isCell (hnx : 1 ≤ nx) {v s : Int} (h0 : 0 ≤ v) (h1 : v < 2 * (nx * ny)) :
    IsCell nx ny (cov nx ny v s) := by
  have h := isCell_vertex h0 h1
  unfold cov; split_ifs <;> first | exact h | exact inv_isCell hnx h

theorem eov_isCell (hnx : 1 ≤ nx) {v s : Int} (h0 : 0 ≤ v) (h1 : v < 2 * (nx * ny)) :
    IsCell nx ny (eov nx ny v s / 3) := by
  have h := isCell_vertex h0 h1
  have h2 := inv_isCell hnx h (j := 2)
  have h3 := inv_isCell hnx h (j := 3)
  unfold IsCell at *
  unfold eov; split_ifs <;> omega

/-- the vertex slots that cell `c` fills: corner `a` goes to slot `covSlot a` -/
def covSlot (a : Int) : Int :=
  if a = 0 then 0 else if a = 1 then 2 else if a = 2 then 1 else if a = 3 then 0
  else if a = 4 then 2 else 1

theorem cov_V (hnx : 1 ≤ nx) {c : Int} (hc : IsCell nx ny c) {a : Int} (h0 : 0 ≤ a) (h6 : a < 6) :
    cov nx ny (V nx ny c a) (covSlot a) = c := by
  have h2 := inv_nb hnx hc (j := 2)
  have h3 := inv_nb hnx hc (j := 3)
  have h4 := inv_nb hnx hc (j := 4)
  obtain rfl | rfl | rfl | rfl | rfl | rfl : a = 0 ∨ a = 1 ∨ a = 2 ∨ a = 3 ∨ a = 4 ∨ a = 5 := by
    omega
  all_goals simp [cov, V, covSlot]
  · omega
  · exact h2
  · rw [show (2 * nb nx ny 3 c + 1) / 2 = nb nx ny 3 c by omega]; exact h3
  · exact h3
  · rw [show (2 * nb nx ny 4 c + 1) / 2 = nb nx ny 4 c by omega]; exact h4

/-- every vertex slot is filled by the cell it names -/
theorem eq_V (hnx : 1 ≤ nx) {v s : Int} (hv : IsCell nx ny (v / 2)) (h0 : 0 ≤ s) (h3 : s < 3) :
    ∃ a, 0 ≤ a ∧ a < 6 ∧ v = V nx ny (cov nx ny v s) a ∧ s = covSlot a := by
  have e2 := nb_inv hnx hv (j := 2)
  have e3 := nb_inv hnx hv (j := 3)
  have e4 := nb_inv hnx hv (j := 4)
  obtain rfl | rfl | rfl : s = 0 ∨ s = 1 ∨ s = 2 := by omega
  all_goals by_cases hp : v % 2 = 0
  · exact ⟨0, by omega, by omega, by simp [cov, V, hp]; omega, rfl⟩
  · exact ⟨3, by omega, by omega, by simp [cov, V, hp, e3]; omega, rfl⟩
  · exact ⟨2, by omega, by omega, by simp [cov, V, hp, e2]; omega, rfl⟩
  · exact ⟨5, by omega, by omega, by simp [cov, V, hp, e4]; omega, rfl⟩
  · exact ⟨4, by omega, by omega, by simp [cov, V, hp, e3]; omega, rfl⟩
  · exact ⟨1, by omega, by omega, by simp [cov, V, hp]; omega, rfl⟩

/-- the `(corner, slot, side)` triples by which cell `c` fills `edges_on_vertex` -/
def eovTriple (a s b : Int) : Prop :=
  (a = 0 ∧ s = 0 ∧ b = 0) ∨ (a = 1 ∧ s = 0 ∧ b = 0) ∨ (a = 2 ∧ s = 2 ∧ b = 1) ∨
  (a = 1 ∧ s = 2 ∧ b = 1) ∨ (a = 2 ∧ s = 1 ∧ b = 2) ∨ (a = 3 ∧ s = 1 ∧ b = 2)

theorem eov_V (hnx : 1 ≤ nx) {c : Int} (hc : IsCell nx ny c) {a s b : Int} (h : eovTriple a s b) :
    eov nx ny (V nx ny c a) s = E nx ny c b := by
  have h2 := inv_nb hnx hc (j := 2)
  have h3 := inv_nb hnx hc (j := 3)
  rcases h with ⟨rfl, rfl, rfl⟩ | ⟨rfl, rfl, rfl⟩ | ⟨rfl, rfl, rfl⟩ | ⟨rfl, rfl, rfl⟩ |
    ⟨rfl, rfl, rfl⟩ | ⟨rfl, rfl, rfl⟩
  all_goals simp [eov, V, E]
  · omega
  · exact h2
  · omega
  · exact h2
  · rw [show (2 * nb nx ny 3 c + 1) / 2 = nb nx ny 3 c by omega]; exact h3

theorem eq_V_eov (hnx : 1 ≤ nx) {v s : Int} (hv : IsCell nx ny (v / 2)) (h0 : 0 ≤ s) (h3 : s < 3) :
    ∃ a b, eovTriple a s b ∧ v = V nx ny (eov nx ny v s / 3) a := by
  have e2 := nb_inv hnx hv (j := 2)
  have e3 := nb_inv hnx hv (j := 3)
  obtain rfl | rfl | rfl : s = 0 ∨ s = 1 ∨ s = 2 := by omega
  all_goals by_cases hp : v % 2 = 0
  · exact ⟨0, 0, by simp [eovTriple], by simp [eov, V, hp]; omega⟩
  · exact ⟨1, 0, by simp [eovTriple], by simp [eov, V, hp]; omega⟩
  · refine ⟨2, 2, by simp [eovTriple], ?_⟩
    simp only [eov, V, hp, if_true]
    simp only [show ((1 : Int) = 0) = False by simp, show ((2 : Int) = 0) = False by simp,
      show ((2 : Int) = 1) = False by simp, if_false]
    rw [show (3 * inv nx ny 2 (v / 2) + 2) / 3 = inv nx ny 2 (v / 2) by omega, e2]; omega
  · refine ⟨3, 2, by simp [eovTriple], ?_⟩
    simp [eov, V, hp]
    rw [show (3 * inv nx ny 3 (v / 2) + 2) / 3 = inv nx ny 3 (v / 2) by omega, e3]; omega
  · refine ⟨2, 1, by simp [eovTriple], ?_⟩
    simp [eov, V, hp]
    rw [show (3 * inv nx ny 2 (v / 2) + 1) / 3 = inv nx ny 2 (v / 2) by omega, e2]; omega
  · refine ⟨1, 1, by simp [eovTriple], ?_⟩
    simp [eov, V, hp]; omega

theorem voe_E {c a s : Int} (h0 : 0 ≤ a) (h3 : a < 3) (hs : s = 0 ∨ s = 1) :
    voe nx ny (E nx ny c a) s = V nx ny c (a + 1 - s) := by
  have hm := E_mod (nx := nx) (ny := ny) (c := c) h0 (by omega : a < 6)
  have hd := E_div_lo (nx := nx) (ny := ny) (c := c) h0 h3
  unfold voe; rw [hm, hd]
  obtain rfl | rfl | rfl : a = 0 ∨ a = 1 ∨ a = 2 := by omega
  all_goals rcases hs with rfl | rfl <;> simp [V]

end Hex
end Omega

namespace Omega
namespace Hex

variable {nx ny : Int}

/-- With an even number of rows, going back is the opposite neighbour. -/
theorem inv_eq_nb (hnx : 1 ≤ nx) (hny : ny % 2 = 0) {a : Int} (ha : IsCell nx ny a)
    {j : Int} (h0 : 0 ≤ j) (h6 : j < 6) : inv nx ny j a = nb nx ny ((j + 3) % 6) a := by
  obtain ⟨i, r, hi, hi', hr, hr', rfl⟩ := exists_coords hnx ha
  rw [inv_cid hi hi', nb_cid hi hi']
  obtain rfl | rfl | rfl | rfl | rfl | rfl : j = 0 ∨ j = 1 ∨ j = 2 ∨ j = 3 ∨ j = 4 ∨ j = 5 := by
    omega
  all_goals simp only [inI, nbI, inR, nbR]
  all_goals norm_num
  all_goals
    have hp : px ny r % 2 = 0 ↔ ¬ r % 2 = 0 := by unfold px; split_ifs <;> omega
    have hm : mx ny r % 2 = 0 ↔ ¬ r % 2 = 0 := by unfold mx; split_ifs <;> omega
    by_cases h : r % 2 = 0 <;> simp [hp, hm, h]

theorem nb_nb (hnx : 1 ≤ nx) (hny : ny % 2 = 0) {a : Int} (ha : IsCell nx ny a)
    {j : Int} (h0 : 0 ≤ j) (h6 : j < 6) : nb nx ny ((j + 3) % 6) (nb nx ny j a) = a := by
  rw [← inv_eq_nb hnx hny (nb_isCell hnx ha) h0 h6, inv_nb hnx ha]

theorem mx_ne {n i : Int} (hn : 2 ≤ n) : mx n i ≠ i := by unfold mx; split_ifs <;> omega
theorem px_ne {n i : Int} (hn : 2 ≤ n) : px n i ≠ i := by unfold px; split_ifs <;> omega

theorem cid_inj {i r i' r' : Int} (hi : 0 ≤ i) (hi' : i < nx) (hj : 0 ≤ i') (hj' : i' < nx)
    (h : cid nx i r = cid nx i' r') : i = i' ∧ r = r' := by
  constructor
  · rw [← col_cid (r := r) hi hi', h, col_cid hj hj']
  · rw [← row_cid (r := r) hi hi', h, row_cid hj hj']

/-- With at least two rows and columns a cell is not its own (inverse) neighbour. -/
theorem inv_ne (hnx : 2 ≤ nx) (hny : 2 ≤ ny) {a : Int} (ha : IsCell nx ny a) (j : Int) :
    inv nx ny j a ≠ a := by
  obtain ⟨i, r, hi, hi', hr, hr', rfl⟩ := exists_coords (by omega) ha
  rw [inv_cid hi hi']
  intro h
  have hI := inI_range (ny := ny) (j := j) (r := r) hi hi'
  obtain ⟨h1, h2⟩ := cid_inj hI.1 hI.2 hi hi' h
  by_cases hj : j = 0 ∨ j = 3
  · rcases hj with rfl | rfl
    · simp [inI] at h1; exact px_ne hnx h1
    · simp [inI] at h1; exact mx_ne hnx h1
  · unfold inR at h2
    rw [if_neg hj] at h2
    split_ifs at h2
    · exact px_ne hny h2
    · exact mx_ne hny h2

theorem nb_ne (hnx : 2 ≤ nx) (hny : 2 ≤ ny) {a : Int} (ha : IsCell nx ny a) (j : Int) :
    nb nx ny j a ≠ a := by
  intro h
  have := inv_ne hnx hny ha j
  rw [← h, inv_nb (by omega) ha, h] at this
  exact this rfl

/-- rows of neighbours across a slanted edge differ -/
theorem row_inv_ne (hnx : 1 ≤ nx) (hny : 2 ≤ ny) {a : Int} (ha : IsCell nx ny a) {j : Int}
    (hj : j ≠ 0 ∧ j ≠ 3) : row nx (inv nx ny j a) ≠ row nx a := by
  obtain ⟨i, r, hi, hi', hr, hr', rfl⟩ := exists_coords (by omega) ha
  have hI := inI_range (ny := ny) (j := j) (r := r) hi hi'
  rw [inv_cid hi hi', row_cid hI.1 hI.2, row_cid hi hi']
  unfold inR
  rw [if_neg (by tauto)]
  split_ifs
  · exact px_ne hny
  · exact mx_ne hny

theorem row_inv_eq (hnx : 1 ≤ nx) {a : Int} (ha : IsCell nx ny a) {j : Int}
    (hj : j = 0 ∨ j = 3) : row nx (inv nx ny j a) = row nx a := by
  obtain ⟨i, r, hi, hi', hr, hr', rfl⟩ := exists_coords (by omega) ha
  have hI := inI_range (ny := ny) (j := j) (r := r) hi hi'
  rw [inv_cid hi hi', row_cid hI.1 hI.2, row_cid hi hi']
  unfold inR
  rw [if_pos hj]

/-- at a vertex the three cells are distinct -/
theorem cov_inj (hnx : 2 ≤ nx) (hny : 2 ≤ ny) {v : Int} (hv : IsCell nx ny (v / 2)) {s t : Int}
    (hs : 0 ≤ s ∧ s < 3) (ht : 0 ≤ t ∧ t < 3) (h : cov nx ny v s = cov nx ny v t) : s = t := by
  have hv' := hv
  have a3 := inv_ne hnx hny hv 3
  have r3 := row_inv_eq (ny := ny) (by omega) hv (j := 3) (Or.inr rfl)
  have a2 := inv_ne hnx hny hv 2
  have r2 := row_inv_ne (by omega) hny hv (j := 2) (by omega)
  have a4 := inv_ne hnx hny hv 4
  have r4 := row_inv_ne (by omega) hny hv (j := 4) (by omega)
  have h23 : inv nx ny 2 (v / 2) ≠ inv nx ny 3 (v / 2) := fun e => r2 (by rw [e, r3])
  have h43 : inv nx ny 4 (v / 2) ≠ inv nx ny 3 (v / 2) := fun e => r4 (by rw [e, r3])
  obtain ⟨hs0, hs3⟩ := hs
  obtain ⟨ht0, ht3⟩ := ht
  clear r2 r3 r4 hv hv'
  unfold cov at h
  generalize inv nx ny 2 (v / 2) = x2 at *
  generalize inv nx ny 3 (v / 2) = x3 at *
  generalize inv nx ny 4 (v / 2) = x4 at *
  generalize v / 2 = x0 at *
  split_ifs at h <;> omega

/-- the slot in which both end points of edge `e` list it -/
def eovSlot (e : Int) : Int := if e % 3 = 0 then 0 else if e % 3 = 1 then 2 else 1

theorem eov_voe (hnx : 1 ≤ nx) {e t : Int} (he : IsCell nx ny (e / 3)) (ht : t = 0 ∨ t = 1) :
    eov nx ny (voe nx ny e t) (eovSlot e) = e := by
  have h := voe_E (nx := nx) (ny := ny) (c := e / 3) (a := e % 3) (s := t) (by omega) (by omega) ht
  rw [← eq_E_lo] at h
  rw [h]
  conv_rhs => rw [eq_E_lo (nx := nx) (ny := ny) e]
  apply eov_V hnx he
  unfold eovTriple eovSlot
  rcases ht with rfl | rfl <;> split_ifs <;> omega

theorem eov_mod {v s : Int} (h0 : 0 ≤ s) (h3 : s < 3) : eovSlot (eov nx ny v s) = s := by
  unfold eov eovSlot
  split_ifs <;> omega

/-- which end point of its edge `s` the vertex is -/
def eovEnd (v s : Int) : Int := if v % 2 = 0 then (if s = 2 then 0 else 1) else (if s = 2 then 1 else 0)

theorem voe_eov (hnx : 1 ≤ nx) {v s : Int} (hv : IsCell nx ny (v / 2)) (h0 : 0 ≤ s) (h3 : s < 3) :
    voe nx ny (eov nx ny v s) (eovEnd v s) = v := by
  have e2 := nb_inv hnx hv (j := 2)
  have e3 := nb_inv hnx hv (j := 3)
  have d : ∀ x r : Int, 0 ≤ r → r < 3 → (3 * x + r) / 3 = x ∧ (3 * x + r) % 3 = r := by
    intro x r _ _; omega
  have d0 : ∀ x : Int, (3 * x) / 3 = x ∧ (3 * x) % 3 = 0 := by intro x; omega
  obtain rfl | rfl | rfl : s = 0 ∨ s = 1 ∨ s = 2 := by omega
  all_goals by_cases hp : v % 2 = 0
  all_goals simp only [eov, hp, if_true, if_false, eovEnd, voe]
  all_goals norm_num
  all_goals try simp only [d _ 1 (by norm_num) (by norm_num), d _ 2 (by norm_num) (by norm_num), (d0 _).2]
  all_goals norm_num
  all_goals try rw [e2]
  all_goals try rw [e3]
  all_goals omega

theorem voe_ne {e : Int} : voe nx ny e 0 ≠ voe nx ny e 1 := by
  unfold voe
  norm_num
  split_ifs <;> omega

theorem voe_isVertex (hnx : 1 ≤ nx) {e s : Int} (he : IsCell nx ny (e / 3)) (hs : s = 0 ∨ s = 1) :
    0 ≤ voe nx ny e s ∧ voe nx ny e s < 2 * (nx * ny) := by
  have := voe_E (nx := nx) (ny := ny) (c := e / 3) (a := e % 3) (s := s) (by omega) (by omega) hs
  rw [← eq_E_lo] at this
  rw [this]
  exact V_range hnx he _

/-- sign of edge `s` in the circulation at `v` -/
theorem voe_eov_zero (hnx : 1 ≤ nx) {v s : Int} (hv : IsCell nx ny (v / 2)) (h0 : 0 ≤ s) (h3 : s < 3) :
    voe nx ny (eov nx ny v s) 0 = v ↔ eovEnd v s = 0 := by
  have h := voe_eov hnx hv h0 h3
  have hne := voe_ne (nx := nx) (ny := ny) (e := eov nx ny v s)
  have : eovEnd v s = 0 ∨ eovEnd v s = 1 := by unfold eovEnd; split_ifs <;> simp
  rcases this with h' | h'
  · rw [h'] at h ⊢; simp [h]
  · rw [h'] at h ⊢
    constructor
    · intro h2; exact absurd (h2.trans h.symm) hne
    · simp

theorem eovEnd_voe (hnx : 1 ≤ nx) {e t : Int} (he : IsCell nx ny (e / 3)) (ht : t = 0 ∨ t = 1) :
    eovEnd (voe nx ny e t) (eovSlot e) = t := by
  have h := voe_isVertex hnx he ht
  have hh := voe_eov hnx (isCell_vertex h.1 h.2) (s := eovSlot e)
    (by unfold eovSlot; split_ifs <;> omega) (by unfold eovSlot; split_ifs <;> omega)
  rw [eov_voe hnx he ht] at hh
  have hne := voe_ne (nx := nx) (ny := ny) (e := e)
  have : eovEnd (voe nx ny e t) (eovSlot e) = 0 ∨ eovEnd (voe nx ny e t) (eovSlot e) = 1 := by
    unfold eovEnd; split_ifs <;> simp
  rcases this with h' | h' <;> rw [h'] at hh ⊢ <;> rcases ht with rfl | rfl
  · rfl
  · exact absurd hh hne
  · exact absurd hh.symm hne
  · rfl

end Hex
end Omega
