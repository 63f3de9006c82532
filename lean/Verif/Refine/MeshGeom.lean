import Verif.Refine.MeshTables

/-!
# Refinement of the remaining kernels of the mesh constructor
-/

set_option linter.unusedSectionVars false
set_option linter.unusedVariables false

namespace Omega
namespace Refine

open Prog Model

variable {R : Type} [Scalar R]

/-! ### scale_weights -/

/-- locations written by "scale_weights" -/
def scaleP (d : Dims) : Loc → Bool
  | .real .weights_on_edge l i k => decide (RArr.InB d .weights_on_edge l i k)
  | _ => false

/-- contents stored by "scale_weights" -/
def scaleT (m : Mem R) : Mem R where
  int := m.int
  real a l i k := m.real a l i k * (lit 1 / Scalar.sqrt (lit 3))

theorem scaleWeights_runs (d : Dims) (m : Mem R) :
    (par2 d.nedges (2 * maxedges) scaleWeightsBody : Cmd R).Runs d m
      (m.patch (scaleP d) (scaleT m)) := by
  refine Cmd.runs_pinv (scaleP d)
    (fun loc => match loc with | .real _ _ i k => (i, k, 0) | .int _ i j => (i, j, 0)) _ ?_ ?_
  · rintro (⟨a, i, j⟩ | ⟨a, l, i, k⟩) hP
    · simp [scaleP] at hP
    · cases a <;> simp only [scaleP, decide_eq_true_eq, reduceCtorEq] at hP
      simp only [RArr.InB, RArr.ext] at hP
      exact ⟨hP.2.1, hP.2.2, by simp [par2]⟩
  · rintro ⟨i, k, z⟩ ⟨⟨h1, h2⟩, ⟨h3, h4⟩, hz, hz'⟩
    simp only [par2] at h1 h2 h3 h4 hz hz'
    obtain rfl : z = 0 := by omega
    have hin : RArr.InB d .weights_on_edge 0 i k := by
      simp only [RArr.InB, RArr.ext]; omega
    show Wp d _ (scaleWeightsBody i k) m _
    have ho : (fun l => scaleP d l = true ∧ (match l with
        | .real _ _ i k => ((i, k, 0) : Idx) | .int _ i j => (i, j, 0)) = (i, k, 0))
        (.real .weights_on_edge 0 i k) := ⟨decide_eq_true hin, rfl⟩
    refine wp_bind (wp_rd2 hin (by rw [ownPerm_own _ ho]; simp) ?_)
    refine wp_mono (wp_pwr2 ownPerm_own PInv.start hin ho rfl) fun _ M hM => ⟨_, hM, ?_⟩
    rintro (⟨a, i', j'⟩ | ⟨a, l', i', k'⟩) hP he
    · simp [scaleP] at hP
    · cases a <;> simp only [scaleP, decide_eq_true_eq, reduceCtorEq] at hP
      simp only [RArr.InB, RArr.ext] at hP
      simp only [Prod.mk.injEq, and_true] at he
      obtain rfl : l' = 0 := by omega
      left; rw [he.1, he.2]

/-! ### compute_cell_arrays -/

/-- cell centre, east coordinate -/
def xC (nx : Int) (dc : R) (a : Int) : R :=
  if Hex.row nx a % 2 = 0 then dc * lit (Hex.col nx a) + dc / lit 2
  else dc * lit (Hex.col nx a + 1)
/-- cell centre, north coordinate -/
def yC (nx : Int) (dc : R) (a : Int) : R :=
  dc * lit (Hex.row nx a + 1) * Scalar.sqrt (lit 3) / lit 2
/-- edge midpoint, east coordinate -/
def xE (nx : Int) (dc : R) (e : Int) : R :=
  if e % 3 = 0 then xC nx dc (e / 3) - dc / lit 2
  else if e % 3 = 1 then xC nx dc (e / 3) - dc / lit 2 * Scalar.cos (Scalar.pi / lit 3)
  else xC nx dc (e / 3) + dc / lit 2 * Scalar.cos (Scalar.pi / lit 3)
/-- edge midpoint, north coordinate -/
def yE (nx : Int) (dc : R) (e : Int) : R :=
  if e % 3 = 0 then yC nx dc (e / 3)
  else yC nx dc (e / 3) - dc / lit 2 * Scalar.sin (Scalar.pi / lit 3)
/-- angle of the edge normal -/
def angE (e : Int) : R :=
  if e % 3 = 0 then lit 0 else if e % 3 = 1 then Scalar.pi / lit 3 else lit 2 * Scalar.pi / lit 3
/-- vertex, east coordinate -/
def xV (nx : Int) (dc : R) (v : Int) : R := xC nx dc (v / 2) - dc / lit 2
/-- vertex, north coordinate -/
def yV (nx : Int) (dc : R) (v : Int) : R :=
  if v % 2 = 0 then yC nx dc (v / 2) + dc * Scalar.sqrt (lit 3) / lit 6
  else yC nx dc (v / 2) - dc * Scalar.sqrt (lit 3) / lit 6

/-- contents stored by "compute_cell_arrays" -/
def geomT (nx : Int) (dc : R) : Mem R where
  int _ _ _ := 0
  real a _ i _ :=
    match a with
    | .area_cell => dc * dc * Scalar.sqrt (lit 3) / lit 2
    | .x_cell => xC nx dc i
    | .y_cell => yC nx dc i
    | .x_edge => xE nx dc i
    | .y_edge => yE nx dc i
    | .angle_edge => angE i
    | .x_vertex => xV nx dc i
    | .y_vertex => yV nx dc i
    | _ => lit 0

/-- is the array written by "compute_cell_arrays"? (on cells / edges / vertices) -/
def geomArr : RArr → Option Int
  | .area_cell | .lat_cell | .lon_cell | .x_cell | .y_cell | .z_cell => some 1
  | .x_edge | .y_edge | .z_edge | .angle_edge => some 3
  | .x_vertex | .y_vertex | .z_vertex => some 2
  | _ => none

/-- locations written by "compute_cell_arrays" -/
def geomP (d : Dims) : Loc → Bool
  | .int _ _ _ => false
  | .real a l i k => (geomArr a).isSome && decide (RArr.InB d a l i k)

/-- the iteration that writes a location -/
def geomOwner (nx : Int) : Loc → Idx
  | .int _ _ _ => (0, 0, 0)
  | .real a _ i _ =>
    let c := i / (geomArr a).getD 1
    (Hex.row nx c, Hex.col nx c, 0)

theorem cellArrays_runs {p : MeshParams} (hv : MeshParams.Valid p) (dc : R) (m : Mem R)
    (hE : ∀ c, Hex.IsCell p.nx p.ny c → ∀ j, 0 ≤ j → j < 3 →
      m.int .edges_on_cell c j = Hex.E p.nx p.ny c j)
    (hV : ∀ c, Hex.IsCell p.nx p.ny c → ∀ j, 0 ≤ j → j < 2 →
      m.int .vertices_on_cell c j = Hex.V p.nx p.ny c j) :
    (par2 p.ny p.nx (cellArraysBody p.nx dc) : Cmd R).Runs p.dims m
      (m.patch (geomP p.dims) (geomT p.nx dc)) := by
  have hnx := hv.nx_pos
  have hf := hv.fits
  have hfb := fits_bounds hnx hv.ny_pos hf
  refine Cmd.runs_pinv _ (geomOwner p.nx) _ ?_ ?_
  · rintro (⟨a, i, j⟩ | ⟨a, l, i, k⟩) hP
    · simp [geomP] at hP
    · simp only [geomP, Bool.and_eq_true, decide_eq_true_eq] at hP
      have hc : Hex.IsCell p.nx p.ny (i / (geomArr a).getD 1) := by
        obtain ⟨h1, h2⟩ := hP
        unfold Hex.IsCell
        cases a <;> simp only [geomArr, Option.isSome_none, Bool.false_eq_true] at h1 <;>
          simp only [RArr.InB, RArr.ext, MeshParams.dims] at h2 <;>
          simp only [geomArr, Option.getD_some] <;> omega
      exact ⟨Hex.row_range hnx hc, Hex.col_range hnx _, by simp [geomOwner, par2]⟩
  · rintro ⟨r, i, z⟩ ⟨⟨hr, hr'⟩, ⟨hi, hi'⟩, hz, hz'⟩
    simp only [par2] at hr hr' hi hi' hz hz'
    obtain rfl : z = 0 := by omega
    obtain ⟨c, hcid⟩ : ∃ c, c = Hex.cid p.nx i r := ⟨_, rfl⟩
    have hc : Hex.IsCell p.nx p.ny c := hcid ▸ Hex.cid_range hi hi' hr hr'
    have hrow : Hex.row p.nx c = r := hcid ▸ Hex.row_cid hi hi'
    have hcol : Hex.col p.nx c = i := hcid ▸ Hex.col_cid hi hi'
    have hown : ∀ a n j, geomArr a = some n → 0 ≤ j → j < n → RArr.InB p.dims a 0 (n * c + j) 0 →
        geomP p.dims (.real a 0 (n * c + j) 0) = true ∧
          geomOwner p.nx (.real a 0 (n * c + j) 0) = (r, i, 0) := by
      intro a n j ha h0 h1 hb
      refine ⟨?_, ?_⟩
      · simp only [geomP, ha, Option.isSome_some, Bool.true_and]; exact decide_eq_true hb
      · simp only [geomOwner, ha, Option.getD_some]
        rw [Int.add_comm, Int.add_mul_ediv_left _ _ (by omega), Int.ediv_eq_zero_of_lt h0 h1,
          Int.zero_add, hrow, hcol]
    show Wp p.dims _ (cellArraysBody p.nx dc r i) m _
    unfold cellArraysBody
    rw [cellidx_eq hf hi hi' hr hr', ret_bind, ← hcid]
    have hcc := hc
    unfold Hex.IsCell at hcc
    have hoc : ∀ a, geomArr a = some 1 → RArr.InB p.dims a 0 c 0 ∧
        (geomP p.dims (.real a 0 c 0) = true ∧ geomOwner p.nx (.real a 0 c 0) = (r, i, 0)) := by
      intro a ha
      have hb : RArr.InB p.dims a 0 c 0 := by
        cases a <;> simp [geomArr] at ha <;> simp only [RArr.InB, RArr.ext, MeshParams.dims] <;>
          omega
      have := hown a 1 0 ha (by omega) (by omega) (by simpa using hb)
      simp only [Int.one_mul, Int.add_zero] at this
      exact ⟨hb, this⟩
    have hoe : ∀ a j, geomArr a = some 3 → 0 ≤ j → j < 3 →
        RArr.InB p.dims a 0 (Hex.E p.nx p.ny c j) 0 ∧
        (geomP p.dims (.real a 0 (Hex.E p.nx p.ny c j) 0) = true ∧
          geomOwner p.nx (.real a 0 (Hex.E p.nx p.ny c j) 0) = (r, i, 0)) := by
      intro a j ha h0 h1
      have he : Hex.E p.nx p.ny c j = 3 * c + j := by unfold Hex.E; rw [if_pos h1]
      rw [he]
      have hb : RArr.InB p.dims a 0 (3 * c + j) 0 := by
        cases a <;> simp [geomArr] at ha <;> simp only [RArr.InB, RArr.ext, MeshParams.dims] <;>
          omega
      exact ⟨hb, hown a 3 j ha h0 h1 hb⟩
    have hov : ∀ a j, geomArr a = some 2 → 0 ≤ j → j < 2 →
        RArr.InB p.dims a 0 (Hex.V p.nx p.ny c j) 0 ∧
        (geomP p.dims (.real a 0 (Hex.V p.nx p.ny c j) 0) = true ∧
          geomOwner p.nx (.real a 0 (Hex.V p.nx p.ny c j) 0) = (r, i, 0)) := by
      intro a j ha h0 h1
      have he : Hex.V p.nx p.ny c j = 2 * c + j := by
        obtain rfl | rfl : j = 0 ∨ j = 1 := by omega
        all_goals simp [Hex.V]
      rw [he]
      have hb : RArr.InB p.dims a 0 (2 * c + j) 0 := by
        cases a <;> simp [geomArr] at ha <;> simp only [RArr.InB, RArr.ext, MeshParams.dims] <;>
          omega
      exact ⟨hb, hown a 2 j ha h0 h1 hb⟩
    -- cell arrays
    refine wp_bind (wp_mono (wp_pwr1 (T := geomT p.nx dc) ownPerm_own PInv.start (hoc .area_cell rfl).1
      (hoc .area_cell rfl).2 rfl) fun _ M0 h0 => ?_)
    refine wp_bind (wp_mono (wp_pwr1 ownPerm_own h0 (hoc .lat_cell rfl).1
      (hoc .lat_cell rfl).2 rfl) fun _ M1 h1 => ?_)
    refine wp_bind (wp_mono (wp_pwr1 ownPerm_own h1 (hoc .lon_cell rfl).1
      (hoc .lon_cell rfl).2 rfl) fun _ M2 h2 => ?_)
    have hp : r.tmod 2 = r % 2 := Int.tmod_eq_emod_of_nonneg hr
    have hcoords : Wp p.dims (ownPerm (geomP p.dims) (geomOwner p.nx) (r, i, 0))
        (cellCoords dc r i c) M2 (fun _ M => PInv
          (fun l => geomP p.dims l = true ∧ geomOwner p.nx l = (r, i, 0)) (geomT p.nx dc) m
          (Ins (.real .z_cell 0 c 0) (Ins (.real .y_cell 0 c 0) (Ins (.real .x_cell 0 c 0)
            (Ins (.real .lon_cell 0 c 0) (Ins (.real .lat_cell 0 c 0) (Ins (.real .area_cell 0 c 0)
              (fun _ => False))))))) M) := by
      unfold cellCoords
      rw [iadd_eq (by unfold InInt; omega), iadd_eq (by unfold InInt; omega)]
      simp only [ret_bind]
      split_ifs with hpar
      · rw [hp] at hpar
        refine wp_bind (wp_mono (wp_pwr1 ownPerm_own h2 (hoc .x_cell rfl).1
          (hoc .x_cell rfl).2 (by simp [geomT, xC, hrow, hcol, hpar])) fun _ M3 h3 => ?_)
        refine wp_bind (wp_mono (wp_pwr1 ownPerm_own h3 (hoc .y_cell rfl).1
          (hoc .y_cell rfl).2 (by simp [geomT, yC, hrow])) fun _ M4 h4 => ?_)
        exact wp_pwr1 ownPerm_own h4 (hoc .z_cell rfl).1 (hoc .z_cell rfl).2 rfl
      · rw [hp] at hpar
        refine wp_bind (wp_mono (wp_pwr1 ownPerm_own h2 (hoc .x_cell rfl).1
          (hoc .x_cell rfl).2 (by simp [geomT, xC, hrow, hcol, hpar])) fun _ M3 h3 => ?_)
        refine wp_bind (wp_mono (wp_pwr1 ownPerm_own h3 (hoc .y_cell rfl).1
          (hoc .y_cell rfl).2 (by simp [geomT, yC, hrow])) fun _ M4 h4 => ?_)
        exact wp_pwr1 ownPerm_own h4 (hoc .z_cell rfl).1 (hoc .z_cell rfl).2 rfl
    refine wp_bind (wp_mono hcoords fun _ M3 h3 => ?_)
    have rdE : ∀ j, 0 ≤ j → j < 3 → ∀ {Q : Int → Mem R → Prop}, Q (Hex.E p.nx p.ny c j) M3 →
        Wp p.dims (ownPerm (geomP p.dims) (geomOwner p.nx) (r, i, 0))
          (rdI2 .edges_on_cell c j) M3 Q := by
      intro j h0 h1 Q hQ
      refine wp_rdI2 (inb_cell6 hc h0 (by omega)).1 (ownPerm_off rfl) ?_
      rw [h3.int_off (by simp [Ins]), hE c hc j h0 h1]; exact hQ
    refine wp_bind (rdE 0 (by omega) (by omega) ?_)
    refine wp_bind (rdE 1 (by omega) (by omega) ?_)
    refine wp_bind (rdE 2 (by omega) (by omega) ?_)
    refine wp_bind (wp_rd1 (hoc .x_cell rfl).1
      (by rw [ownPerm_own _ (hoc .x_cell rfl).2]; simp) ?_)
    refine wp_bind (wp_rd1 (hoc .y_cell rfl).1
      (by rw [ownPerm_own _ (hoc .y_cell rfl).2]; simp) ?_)
    rw [h3.real_on (a := .x_cell) (by simp [Ins]), h3.real_on (a := .y_cell) (by simp [Ins])]
    have hmod : ∀ j, 0 ≤ j → j < 3 → Hex.E p.nx p.ny c j % 3 = j ∧ Hex.E p.nx p.ny c j / 3 = c := by
      intro j h0 h1
      exact ⟨by rw [Hex.E_mod h0 (by omega)]; omega, Hex.E_div_lo h0 h1⟩
    have m0 := hmod 0 (by omega) (by omega)
    have m1 := hmod 1 (by omega) (by omega)
    have m2 := hmod 2 (by omega) (by omega)
    have v0 : Hex.V p.nx p.ny c 0 % 2 = 0 ∧ Hex.V p.nx p.ny c 0 / 2 = c := by
      simp [Hex.V]
    have v1 : Hex.V p.nx p.ny c 1 % 2 = 1 ∧ Hex.V p.nx p.ny c 1 / 2 = c := by
      simp only [Hex.V]; constructor <;> simp <;> omega
    have wE : ∀ a j, geomArr a = some 3 → 0 ≤ j → j < 3 → ∀ {W M v}, PInv
          (fun l => geomP p.dims l = true ∧ geomOwner p.nx l = (r, i, 0)) (geomT p.nx dc) m W M →
        (geomT p.nx dc).real a 0 (Hex.E p.nx p.ny c j) 0 = v →
        Wp p.dims (ownPerm (geomP p.dims) (geomOwner p.nx) (r, i, 0))
          (wr1 a (Hex.E p.nx p.ny c j) v) M (fun _ M' => PInv
          (fun l => geomP p.dims l = true ∧ geomOwner p.nx l = (r, i, 0)) (geomT p.nx dc) m
          (Ins (.real a 0 (Hex.E p.nx p.ny c j) 0) W) M') := by
      intro a j ha h0 h1 W M v hI hval
      exact wp_pwr1 ownPerm_own hI (hoe a j ha h0 h1).1 (hoe a j ha h0 h1).2 hval
    have wV : ∀ a j, geomArr a = some 2 → 0 ≤ j → j < 2 → ∀ {W M v}, PInv
          (fun l => geomP p.dims l = true ∧ geomOwner p.nx l = (r, i, 0)) (geomT p.nx dc) m W M →
        (geomT p.nx dc).real a 0 (Hex.V p.nx p.ny c j) 0 = v →
        Wp p.dims (ownPerm (geomP p.dims) (geomOwner p.nx) (r, i, 0))
          (wr1 a (Hex.V p.nx p.ny c j) v) M (fun _ M' => PInv
          (fun l => geomP p.dims l = true ∧ geomOwner p.nx l = (r, i, 0)) (geomT p.nx dc) m
          (Ins (.real a 0 (Hex.V p.nx p.ny c j) 0) W) M') := by
      intro a j ha h0 h1 W M v hI hval
      exact wp_pwr1 ownPerm_own hI (hov a j ha h0 h1).1 (hov a j ha h0 h1).2 hval
    refine wp_bind (wp_mono (wE .x_edge 0 rfl (by omega) (by omega) h3
      (by simp [geomT, xE, m0])) fun _ M4 h4 => ?_)
    refine wp_bind (wp_mono (wE .y_edge 0 rfl (by omega) (by omega) h4
      (by simp [geomT, yE, m0])) fun _ M5 h5 => ?_)
    refine wp_bind (wp_mono (wE .z_edge 0 rfl (by omega) (by omega) h5
      (by simp [geomT])) fun _ M6 h6 => ?_)
    refine wp_bind (wp_mono (wE .x_edge 1 rfl (by omega) (by omega) h6
      (by simp [geomT, xE, m1])) fun _ M7 h7 => ?_)
    refine wp_bind (wp_mono (wE .y_edge 1 rfl (by omega) (by omega) h7
      (by simp [geomT, yE, m1])) fun _ M8 h8 => ?_)
    refine wp_bind (wp_mono (wE .z_edge 1 rfl (by omega) (by omega) h8
      (by simp [geomT])) fun _ M9 h9 => ?_)
    refine wp_bind (wp_mono (wE .x_edge 2 rfl (by omega) (by omega) h9
      (by simp [geomT, xE, m2])) fun _ M10 h10 => ?_)
    refine wp_bind (wp_mono (wE .y_edge 2 rfl (by omega) (by omega) h10
      (by simp [geomT, yE, m2])) fun _ M11 h11 => ?_)
    refine wp_bind (wp_mono (wE .z_edge 2 rfl (by omega) (by omega) h11
      (by simp [geomT])) fun _ M12 h12 => ?_)
    refine wp_bind (wp_mono (wE .angle_edge 0 rfl (by omega) (by omega) h12
      (by simp [geomT, angE, m0])) fun _ M13 h13 => ?_)
    refine wp_bind (wp_mono (wE .angle_edge 1 rfl (by omega) (by omega) h13
      (by simp [geomT, angE, m1])) fun _ M14 h14 => ?_)
    refine wp_bind (wp_mono (wE .angle_edge 2 rfl (by omega) (by omega) h14
      (by simp [geomT, angE, m2])) fun _ M15 h15 => ?_)
    have rdV : ∀ j, 0 ≤ j → j < 2 → ∀ {Q : Int → Mem R → Prop}, Q (Hex.V p.nx p.ny c j) M15 →
        Wp p.dims (ownPerm (geomP p.dims) (geomOwner p.nx) (r, i, 0))
          (rdI2 .vertices_on_cell c j) M15 Q := by
      intro j h0 h1 Q hQ
      refine wp_rdI2 (inb_cell6 hc h0 (by omega)).2.1 (ownPerm_off rfl) ?_
      rw [h15.int_off (by simp [Ins]), hV c hc j h0 h1]; exact hQ
    refine wp_bind (rdV 0 (by omega) (by omega) ?_)
    refine wp_bind (rdV 1 (by omega) (by omega) ?_)
    refine wp_bind (wp_mono (wV .x_vertex 0 rfl (by omega) (by omega) h15
      (by simp [geomT, xV, v0])) fun _ M16 h16 => ?_)
    refine wp_bind (wp_mono (wV .y_vertex 0 rfl (by omega) (by omega) h16
      (by simp [geomT, yV, v0])) fun _ M17 h17 => ?_)
    refine wp_bind (wp_mono (wV .z_vertex 0 rfl (by omega) (by omega) h17
      (by simp [geomT])) fun _ M18 h18 => ?_)
    refine wp_bind (wp_mono (wV .x_vertex 1 rfl (by omega) (by omega) h18
      (by simp [geomT, xV, v1])) fun _ M19 h19 => ?_)
    refine wp_bind (wp_mono (wV .y_vertex 1 rfl (by omega) (by omega) h19
      (by simp [geomT, yV, v1])) fun _ M20 h20 => ?_)
    refine wp_mono (wV .z_vertex 1 rfl (by omega) (by omega) h20
      (by simp [geomT])) fun _ M21 h21 => ⟨_, h21, ?_⟩
    -- every owned location has been stored
    rintro (⟨a, i', j'⟩ | ⟨a, l', i', k'⟩) hP he
    · simp [geomP] at hP
    · simp only [geomP, Bool.and_eq_true, decide_eq_true_eq] at hP
      obtain ⟨hs, hb⟩ := hP
      have hcell : i' / (geomArr a).getD 1 = c := by
        simp only [geomOwner, Prod.mk.injEq, and_true] at he
        rw [← Hex.cid_col_row (nx := p.nx) (i' / (geomArr a).getD 1), he.1, he.2, hcid]
      have hedge : ∀ e, e / 3 = c → e = Hex.E p.nx p.ny c 0 ∨ e = Hex.E p.nx p.ny c 1 ∨
          e = Hex.E p.nx p.ny c 2 := by
        intro e he; simp only [Hex.E]; simp; omega
      have hvert : ∀ e, e / 2 = c → e = Hex.V p.nx p.ny c 0 ∨ e = Hex.V p.nx p.ny c 1 := by
        intro e he; simp only [Hex.V]; simp; omega
      cases a <;> simp only [geomArr, Option.isSome_none, Bool.false_eq_true] at hs <;>
        simp only [RArr.InB, RArr.ext, MeshParams.dims] at hb <;>
        simp only [geomArr, Option.getD_some] at hcell <;>
        (obtain rfl : l' = 0 := by omega) <;> (obtain rfl : k' = 0 := by omega)
      case area_cell | lat_cell | lon_cell | x_cell | y_cell | z_cell =>
        obtain rfl : i' = c := by omega
        simp [Ins]
      case x_edge | y_edge | z_edge | angle_edge =>
        rcases hedge _ hcell with h | h | h <;> rw [h] <;> simp [Ins]
      case x_vertex | y_vertex | z_vertex =>
        rcases hvert _ hcell with h | h <;> rw [h] <;> simp [Ins]

end Refine
end Omega
