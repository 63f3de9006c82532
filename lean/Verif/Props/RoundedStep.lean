import Verif.Refine.ErrArith
import Verif.Props.Arithmetic
import Verif.Props.TimeOrder

/-!
# Rounding errors of one step

One step of the model in arithmetic with unit roundoff `u` differs from the exact step from the same state by at
most `C u`, with a constant that holds for all arithmetics, all states in a bounded set whose stages stay wet and
all step sizes up to one.
-/

set_option linter.unusedVariables false
set_option linter.unusedSectionVars false

namespace Omega
noncomputable section
namespace Props

open Prog Model Refine Hex Set

/-! ### Meshes built in two arithmetics -/

theorem hexMesh_rel {R R' : Type} [Scalar R] [Scalar R'] {p : MeshParams} {dc : R} {dc' : R'}
    {m : Mem R} {m' : Mem R'} (h : IsHexMesh p dc m) (h' : IsHexMesh p dc' m') {ρ : R → R' → Prop} {NZ : R' → Prop}
    (hρ : ScRel ρ NZ) (hneg : ∀ {x x'}, ρ x x' → ρ (-x) (-x')) (hsq : ρ (Scalar.sqrt (lit 3)) (Scalar.sqrt (lit 3)))
    (hdc : ρ dc dc')
    (hfl : ρ (maxS (dc * Scalar.sqrt (lit 3) / lit 3) (quarter * dc))
      (maxS (dc' * Scalar.sqrt (lit 3) / lit 3) (quarter * dc')))
    (nzdc : NZ dc') (nzs : NZ (Scalar.sqrt (lit 3))) (nzm : ∀ {a b}, NZ a → NZ b → NZ (a * b))
    (nzd : ∀ {a b}, NZ a → NZ b → NZ (a / b))
    (nzF : NZ (maxS (dc' * Scalar.sqrt (lit 3) / lit 3) (quarter * dc'))) :
    MeshRel ρ NZ Ren.id p.dims m.mesh m'.mesh := by
  have n : ∀ k : Int, k ≠ 0 → NZ (lit k) := hρ.nz
  have q : ∀ a b : Int, b ≠ 0 → ρ (lit a / lit b) (lit a / lit b) := fun a b hb =>
    hρ.div (hρ.lit a) (hρ.lit b) (hρ.nz b hb)
  have q' : ∀ a b : Int, b ≠ 0 → ρ (-lit a / lit b) (-lit a / lit b) := fun a b hb =>
    hρ.div (hneg (hρ.lit a)) (hρ.lit b) (hρ.nz b hb)
  have hw : ∀ j t : Int, ρ (wRaw j t) (wRaw j t) := fun j t => by
    unfold wRaw
    split_ifs <;> first | exact hρ.lit 0 | exact q _ _ (by decide) | exact q' _ _ (by decide)
  have hdv : ρ (dc * Scalar.sqrt (lit 3) / lit 3) (dc' * Scalar.sqrt (lit 3) / lit 3) :=
    hρ.div (hρ.mul hdc hsq) (hρ.lit 3) (n 3 (by decide))
  have ha : ∀ k : Int, k ≠ 0 → ρ (dc * dc * Scalar.sqrt (lit 3) / lit k) (dc' * dc' * Scalar.sqrt (lit 3) / lit k) :=
    fun k hk => hρ.div (hρ.mul (hρ.mul hdc hdc) hsq) (hρ.lit k) (n k hk)
  have na : ∀ k : Int, k ≠ 0 → NZ (dc' * dc' * Scalar.sqrt (lit 3) / lit k) := fun k hk =>
    nzd (nzm (nzm nzdc nzdc) nzs) (n k hk)
  constructor
  · intro c h0 h1
    show m.int .nedges_on_cell c 0 = m'.int .nedges_on_cell c 0
    rw [h.neoc c ⟨h0, h1⟩, h'.neoc c ⟨h0, h1⟩]
  · intro c h0 h1 j j0 j1
    have j1 : j < m'.int .nedges_on_cell c 0 := j1
    rw [h'.neoc c ⟨h0, h1⟩] at j1
    show m.int .edges_on_cell c j = m'.int .edges_on_cell c j
    rw [h.eoc c ⟨h0, h1⟩ j j0 j1, h'.eoc c ⟨h0, h1⟩ j j0 j1]
  · intro e h0 h1 j j0 j1
    show m.int .cells_on_edge e j = m'.int .cells_on_edge e j
    rw [h.coe e h0 h1 j j0 j1, h'.coe e h0 h1 j j0 j1]
  · intro e h0 h1 j j0 j1
    show m.int .vertices_on_edge e j = m'.int .vertices_on_edge e j
    rw [h.voe e h0 h1 j j0 j1, h'.voe e h0 h1 j j0 j1]
  · intro e h0 h1 j j0 j1
    show m.int .edges_on_vertex e j = m'.int .edges_on_vertex e j
    rw [h.eov e h0 h1 j j0 j1, h'.eov e h0 h1 j j0 j1]
  · intro e h0 h1 j j0 j1
    show m.int .cells_on_vertex e j = m'.int .cells_on_vertex e j
    rw [h.cov e h0 h1 j j0 j1, h'.cov e h0 h1 j j0 j1]
  · intro e h0 h1
    show m.int .nedges_on_edge e 0 = m'.int .nedges_on_edge e 0
    rw [h.neoe e h0 h1, h'.neoe e h0 h1]
  · intro e h0 h1 j j0 j1
    have j1 : j < m'.int .nedges_on_edge e 0 := j1
    rw [h'.neoe e h0 h1] at j1
    show m.int .edges_on_edge e j = m'.int .edges_on_edge e j
    rw [h.eoe e h0 h1 j j0 j1, h'.eoe e h0 h1 j j0 j1]
  · intro c h0 h1
    show ρ (m.real .area_cell 0 c 0) (m'.real .area_cell 0 c 0)
    rw [h.area_cell c ⟨h0, h1⟩, h'.area_cell c ⟨h0, h1⟩]
    exact ha 2 (by decide)
  · intro c h0 h1
    show ρ (m.real .area_triangle 0 c 0) (m'.real .area_triangle 0 c 0)
    rw [h.area_triangle c h0 h1, h'.area_triangle c h0 h1]
    exact ha 4 (by decide)
  · intro e h0 h1
    show ρ (m.real .dv_edge 0 e 0) (m'.real .dv_edge 0 e 0)
    rw [h.dv_edge e h0 h1, h'.dv_edge e h0 h1]
    exact hdv
  · intro e h0 h1
    show ρ (m.real .dc_edge 0 e 0) (m'.real .dc_edge 0 e 0)
    rw [h.dc_edge e h0 h1, h'.dc_edge e h0 h1]
    exact hdc
  · intro e h0 h1
    show ρ (maxS (m.real .dv_edge 0 e 0) (quarter * m.real .dc_edge 0 e 0))
      (maxS (m'.real .dv_edge 0 e 0) (quarter * m'.real .dc_edge 0 e 0))
    rw [h.dv_edge e h0 h1, h'.dv_edge e h0 h1, h.dc_edge e h0 h1, h'.dc_edge e h0 h1]
    exact hfl
  · intro c h0 h1 j j0 j1
    have j1 : j < m'.int .nedges_on_cell c 0 := j1
    rw [h'.neoc c ⟨h0, h1⟩] at j1
    show ρ (m.real .edge_sign_on_cell 0 c j) (m'.real .edge_sign_on_cell 0 c j)
    rw [h.sign_cell c ⟨h0, h1⟩ j j0 j1, h'.sign_cell c ⟨h0, h1⟩ j j0 j1]
    split_ifs <;> exact hρ.lit _
  · intro c h0 h1 j j0 j1
    show ρ (m.real .edge_sign_on_vertex 0 c j) (m'.real .edge_sign_on_vertex 0 c j)
    rw [h.sign_vertex c h0 h1 j j0 j1, h'.sign_vertex c h0 h1 j j0 j1]
    split_ifs <;> exact hρ.lit _
  · intro c h0 h1 j j0 j1
    show ρ (m.real .kiteareas_on_vertex 0 c j) (m'.real .kiteareas_on_vertex 0 c j)
    rw [h.kitearea c h0 h1 j j0 j1, h'.kitearea c h0 h1 j j0 j1]
    exact ha 12 (by decide)
  · intro e h0 h1 j j0 j1
    have j1 : j < m'.int .nedges_on_edge e 0 := j1
    rw [h'.neoe e h0 h1] at j1
    show ρ (m.real .weights_on_edge 0 e j) (m'.real .weights_on_edge 0 e j)
    rw [h.woe e h0 h1 j j0 j1, h'.woe e h0 h1 j j0 j1]
    exact hρ.mul (hw _ _) (hρ.div (hρ.lit 1) hsq nzs)
  · intro e h0 h1 k k0 k1
    show ρ (m.real .edge_mask 0 e k) (m'.real .edge_mask 0 e k)
    rw [h.mask e h0 h1 k k0 k1, h'.mask e h0 h1 k k0 k1]
    exact hρ.lit 1
  · intro e h0 h1
    show ρ (m.real .mesh_scaling_del2 0 e 0) (m'.real .mesh_scaling_del2 0 e 0)
    rw [h.del2 e h0 h1, h'.del2 e h0 h1]
    exact hρ.lit 1
  · intro e h0 h1
    show ρ (m.real .mesh_scaling_del4 0 e 0) (m'.real .mesh_scaling_del4 0 e 0)
    rw [h.del4 e h0 h1, h'.del4 e h0 h1]
    exact hρ.lit 1
  · intro c h0 h1
    show NZ (m'.real .area_cell 0 c 0)
    rw [h'.area_cell c ⟨h0, h1⟩]
    exact na 2 (by decide)
  · intro c h0 h1
    show NZ (m'.real .area_triangle 0 c 0)
    rw [h'.area_triangle c h0 h1]
    exact na 4 (by decide)
  · intro e h0 h1
    show NZ (m'.real .dv_edge 0 e 0)
    rw [h'.dv_edge e h0 h1]
    exact nzd (nzm nzdc nzs) (n 3 (by decide))
  · intro e h0 h1
    show NZ (m'.real .dc_edge 0 e 0)
    rw [h'.dc_edge e h0 h1]
    exact nzdc
  · intro e h0 h1
    show NZ (maxS (m'.real .dv_edge 0 e 0) (quarter * m'.real .dc_edge 0 e 0))
    rw [h'.dv_edge e h0 h1, h'.dc_edge e h0 h1]
    exact nzF

/-! ### The model in tracking arithmetic -/

section
variable {X : Type}

/-- parameters without error -/
def errParams (X : Type) (prm : Params ℝ) : Params (Err X) where
  f0 := .const prm.f0
  grav := .const prm.grav
  visc_del2 := .const prm.visc_del2
  visc_del4 := .const prm.visc_del4
  eddy_diff2 := .const prm.eddy_diff2
  eddy_diff4 := .const prm.eddy_diff4
  disable_h := prm.disable_h
  disable_vn := prm.disable_vn

/-- the model with the same terms -/
def errModel (X : Type) (prm : Params ℝ) : SWModel (Err X) where
  prm := errParams X prm
  en_hadv := (SWModel.ofParams prm).en_hadv
  en_pv := (SWModel.ofParams prm).en_pv
  en_ke := (SWModel.ofParams prm).en_ke
  en_ssh := (SWModel.ofParams prm).en_ssh
  en_vdiff := (SWModel.ofParams prm).en_vdiff
  en_vhyper := (SWModel.ofParams prm).en_vhyper
  en_thadv := (SWModel.ofParams prm).en_thadv
  en_tdiff := (SWModel.ofParams prm).en_tdiff
  en_thyper := (SWModel.ofParams prm).en_thyper
  hook _ _ _ := []

/-- `r` is a finite number with value `x` -/
def IsNum {R : Type} (fin : R → Prop) (val : R → ℝ) (r : R) (x : ℝ) : Prop := fin r ∧ val r = x

/-- the values of the parameters -/
structure ParamVals {R : Type} (fin : R → Prop) (val : R → ℝ) (a : Params R) (b : Params ℝ) : Prop where
  f0 : IsNum fin val a.f0 b.f0
  grav : IsNum fin val a.grav b.grav
  visc_del2 : IsNum fin val a.visc_del2 b.visc_del2
  visc_del4 : IsNum fin val a.visc_del4 b.visc_del4
  eddy_diff2 : IsNum fin val a.eddy_diff2 b.eddy_diff2
  eddy_diff4 : IsNum fin val a.eddy_diff4 b.eddy_diff4
  disable_h : a.disable_h = b.disable_h
  disable_vn : a.disable_vn = b.disable_vn

theorem tracks_const {R : Type} {fin : R → Prop} {val : R → ℝ} {u : ℝ} {x : X} {r : R} {c : ℝ}
    (h : IsNum fin val r c) : Err.Tracks fin val u x r (.const c) := fun _ => by
  refine ⟨h.1, ?_⟩
  show |val r - c| ≤ 0 * u
  rw [h.2, sub_self, abs_zero, zero_mul]

theorem tracks_exact {R : Type} {fin : R → Prop} {val : R → ℝ} {u : ℝ} {x : X} {r : R} {f : X → ℝ} {B : ℝ}
    {hB : ∀ x, |f x| ≤ B} {B0 : 0 ≤ B} (h : IsNum fin val r (f x)) :
    Err.Tracks fin val u x r (.exact f B hB B0) := fun _ => by
  refine ⟨h.1, ?_⟩
  show |val r - f x| ≤ 0 * u
  rw [h.2, sub_self, abs_zero, zero_mul]

theorem nz_const {c : ℝ} (h : c ≠ 0) : Err.NZ (.const c : Err X) := ⟨|c|, abs_pos.mpr h, fun _ => le_rfl⟩

theorem err_max (a b : Err X) : maxS a b = a := by
  show (if false = true then b else a) = a
  simp

variable {p : MeshParams} {dc : ℝ} {prm : Params ℝ} {mE : Mem (Err X)}

theorem sysRel_err {R : Type} [Scalar R] {dcR : R} {prmR : Params R} {m : Mem R} {ρ : R → Err X → Prop}
    (hv : RunValid p) (hdc : 0 < dc) (hr : Ready p dcR prmR m)
    (hE : Ready p (.const dc : Err X) (errParams X prm) mE) (hρ : ScRel ρ Err.NZ)
    (hneg : ∀ {x x'}, ρ x x' → ρ (-x) (-x')) (hsq : ρ (Scalar.sqrt (lit 3)) (Scalar.sqrt (lit 3)))
    (h1 : ρ dcR (.const dc)) (h2 : ρ prmR.f0 (.const prm.f0)) (h3 : ρ prmR.grav (.const prm.grav))
    (h4 : ρ prmR.visc_del2 (.const prm.visc_del2)) (h5 : ρ prmR.visc_del4 (.const prm.visc_del4))
    (h6 : ρ prmR.eddy_diff2 (.const prm.eddy_diff2)) (h7 : ρ prmR.eddy_diff4 (.const prm.eddy_diff4))
    (h8 : prmR.disable_h = prm.disable_h) (h9 : prmR.disable_vn = prm.disable_vn)
    (hlt : ∀ {x : R} {y : ℝ}, ρ x (.const y) → (Scalar.lt (lit 0) x = Scalar.lt (lit 0) y))
    (hfl : maxS (dcR * Scalar.sqrt (lit 3) / lit 3) (quarter * dcR) = dcR * Scalar.sqrt (lit 3) / lit 3) :
    SysRel ρ Err.NZ Ren.id p.dims (genSys p.dims (SWModel.ofParams prmR) noHook m)
      (genSys p.dims (errModel X prm) noHook mE) where
  sc := hρ
  ren := ⟨fun i h0 h1 => ⟨h0, h1⟩, fun i h0 h1 => ⟨h0, h1⟩⟩
  F := .inl ⟨rfl, rfl⟩
  mesh := by
    have nzdv : Err.NZ ((.const dc : Err X) * Scalar.sqrt (lit 3) / lit 3) :=
      ((nz_const hdc.ne').mul Err.nz_sqrt3).div (Err.nz_lit (by decide))
    refine hexMesh_rel (hr.hex hv.toValid).1 (hE.hex hv.toValid).1 hρ hneg hsq h1 ?_ (nz_const hdc.ne') Err.nz_sqrt3
      Err.NZ.mul Err.NZ.div ?_
    · rw [hfl, err_max]
      exact hρ.div (hρ.mul h1 hsq) (hρ.lit 3) (hρ.nz 3 (by decide))
    · rw [err_max]
      exact nzdv
  ok := (ready_ok hv hE).2.mesh
  f v v0 v1 := by
    show ρ (m.real .f_vertex 0 v 0) (mE.real .f_vertex 0 v 0)
    rw [(hr.hex hv.toValid).2.1 v v0 v1, (hE.hex hv.toValid).2.1 v v0 v1]
    exact h2
  grav := h3
  visc2 := h4
  visc4 := h5
  eddy2 := h6
  eddy4 := h7
  dis_h := h8
  dis_vn := h9
  en_hadv := rfl
  en_pv := rfl
  en_ke := rfl
  en_ssh := rfl
  en_vdiff := hlt h4
  en_vhyper := hlt h5
  en_thadv := rfl
  en_tdiff := hlt h6
  en_thyper := hlt h7
  hookH _ _ _ _ _ _ _ _ _ _ _ h := h
  hookV _ _ _ _ _ _ _ _ _ _ _ h := h

end

/-- the edges of a hexagon are longer than a quarter of the distance of its neighbours -/
theorem dv_floor_real {dc : ℝ} (h : 0 < dc) :
    maxS (dc * Scalar.sqrt (lit 3) / lit 3) (quarter * dc) = dc * Scalar.sqrt (lit 3) / lit 3 := by
  rw [maxS_real]
  refine max_eq_left ?_
  have : (1 : ℝ) ≤ √3 := Real.le_sqrt_of_sq_le (by norm_num)
  simp only [quarter_real, sqrt_real, lit_real]
  push_cast
  nlinarith

theorem sysRel_at {X : Type} (q : X) {p : MeshParams} {dc : ℝ} {prm : Params ℝ} {mE : Mem (Err X)} {m : Mem ℝ}
    (hv : RunValid p) (hdc : 0 < dc) (hr : Ready p dc prm m)
    (hE : Ready p (.const dc : Err X) (errParams X prm) mE) :
    SysRel (Err.At q) Err.NZ Ren.id p.dims (genSys p.dims (SWModel.ofParams prm) noHook m)
      (genSys p.dims (errModel X prm) noHook mE) := by
  refine sysRel_err hv hdc hr hE (Err.scRel_at q) ?_ ?_ rfl rfl rfl rfl rfl rfl rfl rfl rfl ?_ (dv_floor_real hdc)
  · rintro _ a rfl; rfl
  · exact (Err.fn_sqrt _ Err.sqrt3_pos q).symm
  · rintro x y h
    rw [show x = y from h]

theorem sysRel_tracks {X : Type} (p : MeshParams) {dc : ℝ} (prm : Params ℝ) {mE : Mem (Err X)} 
    (hv : RunValid p) (hdc : 0 < dc) (hE : Ready p (.const dc : Err X) (errParams X prm) mE) :
    ∃ u0 : ℝ, 0 < u0 ∧ u0 ≤ 1 ∧ ∀ (R : Type) [Scalar R] (fin : R → Prop) (val : R → ℝ) (u : ℝ), Machine fin val u →
      u ≤ u0 → ∀ (dcR : R) (prmR : Params R) (m : Mem R), IsNum fin val dcR dc → ParamVals fin val prmR prm →
      Ready p dcR prmR m → ∀ q : X, SysRel (Err.Tracks fin val u q) Err.NZ Ren.id p.dims (genSys p.dims (SWModel.ofParams prmR) noHook m)
        (genSys p.dims (errModel X prm) noHook mE) := by
  set a : Err X := .const dc * Scalar.sqrt (lit 3) / lit 3 with ha
  set b : Err X := quarter * .const dc with hb
  refine ⟨min 1 (min (min a.u0 b.u0) (dc / 13 / (a.C + b.C + 1))), ?_, min_le_left _ _, ?_⟩
  · have := a.u0_pos
    have := b.u0_pos
    have := a.C0
    have := b.C0
    positivity
  intro R _ fin val u hR hu dcR prmR m e1 e2 hr q
  have u1 : u ≤ 1 := hu.trans (min_le_left _ _)
  have ua : u ≤ a.u0 := hu.trans ((min_le_right _ _).trans ((min_le_left _ _).trans (min_le_left _ _)))
  have ub : u ≤ b.u0 := hu.trans ((min_le_right _ _).trans ((min_le_left _ _).trans (min_le_right _ _)))
  have uc := hu.trans ((min_le_right _ _).trans (min_le_right _ _))
  have ca := a.C0
  have cb := b.C0
  rw [le_div_iff₀ (by positivity)] at uc
  have hρ := Err.scRel_tracks (X := X) hR u1 q
  have hsq : Err.Tracks fin val u q (Scalar.sqrt (lit 3)) (Scalar.sqrt (lit 3)) :=
    Err.tracks_sqrt hR u1 q (hρ.lit 3) Err.sqrt3_pos
  have hd : Err.Tracks fin val u q dcR (.const dc) := tracks_const e1
  refine sysRel_err hv hdc hr hE hρ (fun h => Err.tracks_neg hR u1 q h) hsq hd (tracks_const e2.f0)
    (tracks_const e2.grav) (tracks_const e2.visc_del2) (tracks_const e2.visc_del4) (tracks_const e2.eddy_diff2)
    (tracks_const e2.eddy_diff4) e2.disable_h e2.disable_vn ?_ ?_
  · intro x y h
    obtain ⟨fx, h1⟩ := h u1
    have hx : val x = y := by
      have h2 : |val x - y| ≤ 0 * u := h1
      rw [zero_mul] at h2
      linarith [abs_nonpos_iff.mp h2]
    rw [Bool.eq_iff_iff, hR.lt _ _ hR.zero.1 fx, hR.zero.2, hx, slt_real]
    simp
  · obtain ⟨fna, ta⟩ := (hρ.div (hρ.mul hd hsq) (hρ.lit 3) (hρ.nz 3 (by decide))) ua
    obtain ⟨fnb, tb⟩ := (hρ.mul hρ.quarter hd) ub
    have fa : a.fn q = dc * √3 / 3 := by
      rw [ha, Err.fn_div _ _ (Err.nz_lit (by decide)), Err.fn_mul, Err.fn_sqrt _ Err.sqrt3_pos]
      rfl
    have fb : b.fn q = dc / 4 := by
      rw [hb, Err.fn_mul, quarter, Err.fn_div _ _ (Err.nz_lit (by decide))]
      show (((1 : Int) : ℝ) / ((4 : Int) : ℝ)) * dc = dc / 4
      push_cast; ring
    rw [← ha, fa] at ta
    rw [← hb, fb] at tb
    unfold maxS
    rw [if_neg]
    rw [hR.lt _ _ fna fnb, not_lt]
    have s3 : (1 : ℝ) ≤ √3 := Real.le_sqrt_of_sq_le (by norm_num)
    have t1 := (abs_le.mp ta).1
    have t2 := (abs_le.mp tb).2
    nlinarith [hR.pos]

/-! ### One step -/

/-- thickness at least `μ` -/
def WetBy (d : Dims) (μ : ℝ) (x : Fld ℝ) : Prop :=
  ∀ c k, 0 ≤ c → c < d.ncells → 0 ≤ k → k < d.nlayers → μ ≤ x.h c k

/-- states and step sizes from which all stages of a step are at least `μ` thick -/
def StepBox (d : Dims) (S : Sys ℝ) (stp : Stepper) (B μ : ℝ) : Type :=
  {q : (Ix d → ℝ) × ℝ // ‖q.1‖ ≤ B ∧ 0 ≤ q.2 ∧ q.2 ≤ 1 ∧
    ∀ x ∈ S.stepEvals (lit 0) q.2 (zeroFld, unpack d q.1) stp, WetBy d μ x}

section
variable {d : Dims} {S : Sys ℝ} {stp : Stepper} {B μ : ℝ}

theorem unpack_bound {v : Ix d → ℝ} (h : ‖v‖ ≤ B) :
    (∀ c k, |(unpack d v).h c k| ≤ max B 1) ∧ (∀ c k, |(unpack d v).vn c k| ≤ max B 1) ∧
      ∀ l c k, |(unpack d v).tr l c k| ≤ max B 1 := by
  have co : ∀ i, |v i| ≤ max B 1 := fun i => (norm_le_pi_norm v i).trans (h.trans (le_max_left _ _))
  have b1 : |(1 : ℝ)| ≤ max B 1 := by rw [abs_one]; exact le_max_right _ _
  have b0 : |(0 : ℝ)| ≤ max B 1 := by rw [abs_zero]; exact zero_le_one.trans (le_max_right _ _)
  refine ⟨fun c k => ?_, fun c k => ?_, fun l c k => ?_⟩ <;> simp only [unpack] <;> split_ifs
  all_goals first | exact co _ | exact b1 | exact b0

theorem box_nonneg (B : ℝ) : 0 ≤ max B 1 := zero_le_one.trans (le_max_right _ _)

/-- all states of the box at once -/
def boxFld (d : Dims) (S : Sys ℝ) (stp : Stepper) (B μ : ℝ) : Fld (Err (StepBox d S stp B μ)) where
  h c k := .exact (fun q => (unpack d q.1.1).h c k) (max B 1) (fun q => (unpack_bound q.2.1).1 c k) (box_nonneg B)
  vn e k := .exact (fun q => (unpack d q.1.1).vn e k) (max B 1) (fun q => (unpack_bound q.2.1).2.1 e k) (box_nonneg B)
  tr l c k := .exact (fun q => (unpack d q.1.1).tr l c k) (max B 1) (fun q => (unpack_bound q.2.1).2.2 l c k)
    (box_nonneg B)

/-- all step sizes at once -/
def boxDt (d : Dims) (S : Sys ℝ) (stp : Stepper) (B μ : ℝ) : Err (StepBox d S stp B μ) :=
  .exact (fun q => q.1.2) 1 (fun q => abs_le.mpr ⟨by linarith [q.2.2.1], q.2.2.2.1⟩) zero_le_one

end

section
variable {X : Type} {p : MeshParams} {dc : ℝ} {prm : Params ℝ} {mE : Mem (Err X)} {m : Mem ℝ}
  (hv : RunValid p) (hdc : 0 < dc) (hr : Ready p dc prm m)
  (hE : Ready p (.const dc : Err X) (errParams X prm) mE) {μ : ℝ} (hμ : 0 < μ)
include hv hdc hr hE hμ

local notation "Sx" => genSys p.dims (SWModel.ofParams prm) noHook m
local notation "SE" => genSys p.dims (errModel X prm) noHook mE

theorem wet_err {x : X → Fld ℝ} {y : Fld (Err X)} (h : ∀ q, FldRel (Err.At q) Ren.id p.dims (x q) y)
    (hw : ∀ q, WetBy p.dims μ (x q)) : Wet Err.NZ p.dims (Sys.M SE) y := by
  have hg := geo_of_hex hv.toValid hdc (Ready.hex hv.toValid hr).1
  refine ⟨fun v k v0 v1 k0 k1 => ⟨μ, hμ, fun q => ?_⟩, fun _ c k c0 c1 k0 k1 => ⟨μ, hμ, fun q => ?_⟩⟩
  · have hS := sysRel_at q hv hdc hr hE
    have e : Fn.hvert (Sys.M Sx) (Sys.hk (x q) k) v = (Fn.hvert (Sys.M SE) (Sys.hk y k) v).fn q :=
      hvert_rel hS.sc hS.mesh hS.ok (fun c c0 c1 => (h q).h c k c0 c1 k0 k1) v v0 v1
    rw [← e]
    show μ ≤ |Fn.hvert m.mesh _ v|
    rw [hg.hvert _ v0 v1]
    have hc := (ready_ok hv hr).2
    have cb : ∀ j, 0 ≤ j → j < 3 → μ ≤ (x q).h (Hex.cov p.nx p.ny v j) k := fun j j0 j1 => by
      have := hc.cov v v0 v1 j j0 j1
      rw [(Ready.hex hv.toValid hr).1.cov v v0 v1 j j0 j1] at this
      exact hw q _ k this.1 this.2 k0 k1
    have a := cb 0 (by omega) (by omega)
    have b := cb 1 (by omega) (by omega)
    have c := cb 2 (by omega) (by omega)
    refine le_trans ?_ (le_abs_self _)
    simp only [Mv, Sys.hk]
    linarith
  · have e : (x q).h c k = (y.h c k).fn q := (h q).h c k c0 c1 k0 k1
    rw [← e]
    exact (hw q c k c0 c1 k0 k1).trans (le_abs_self _)

theorem lsrk_evals_err (n : ℕ) {t dt : X → ℝ} {t' dt' : Err X} (ht : ∀ q, Err.At q (t q) t')
    (hdt : ∀ q, Err.At q (dt q) dt') (L : List ℕ) {x : X → Fld ℝ × Fld ℝ} {y : Fld (Err X) × Fld (Err X)}
    (h : ∀ q, PairRel (Err.At q) Ren.id p.dims (x q) y)
    (hw : ∀ q, ∀ z ∈ Sys.lsrkEvals Sx (lsrkCoef n) (t q) (dt q) L (x q), WetBy p.dims μ z) :
    ∀ z ∈ Sys.lsrkEvals SE (lsrkCoef n) t' dt' L y, Wet Err.NZ p.dims (Sys.M SE) z := by
  induction L generalizing x y with
  | nil => simp [Sys.lsrkEvals]
  | cons i L ih =>
    have w1 : Wet Err.NZ p.dims (Sys.M SE) y.2 := wet_err hv hdc hr hE hμ (fun q => (h q).2)
      fun q => hw q (x q).2 (by simp [Sys.lsrkEvals])
    intro z hz
    simp only [Sys.lsrkEvals, List.mem_cons] at hz
    rcases hz with rfl | hz
    · exact w1
    · refine ih (x := fun q => Sys.lsrkStage Sx (lsrkCoef n) (t q) (dt q) i (x q)) (fun q => ?_)
        (fun q z hz => hw q z (by simp [Sys.lsrkEvals, hz])) z hz
      have hS := sysRel_at q hv hdc hr hE
      exact lsrk_rel hS _ _ (lsrkCoef_rel hS.sc n) (ht q) (hdt q) [i] (h q)
        (fun z hz => by simp only [Sys.lsrkEvals, List.mem_cons, List.not_mem_nil, or_false] at hz; exact hz ▸ w1)

theorem rk4_evals_err {t dt : X → ℝ} {t' dt' : Err X} (ht : ∀ q, Err.At q (t q) t')
    (hdt : ∀ q, Err.At q (dt q) dt') {o : X → Fld ℝ} {o' : Fld (Err X)}
    (ho : ∀ q, FldRel (Err.At q) Ren.id p.dims (o q) o') (L : List ℕ) {x : X → Fld ℝ × Fld ℝ}
    {y : Fld (Err X) × Fld (Err X)}
    (h : ∀ q, PairRel (Err.At q) Ren.id p.dims (x q) y)
    (hw : ∀ q, ∀ z ∈ Sys.rk4Evals Sx rk4Coef (t q) (dt q) (o q) L (x q), WetBy p.dims μ z) :
    ∀ z ∈ Sys.rk4Evals SE rk4Coef t' dt' o' L y, Wet Err.NZ p.dims (Sys.M SE) z := by
  induction L generalizing x y with
  | nil => simp [Sys.rk4Evals]
  | cons i L ih =>
    have w1 : ∀ z ∈ Sys.rk4Evals SE rk4Coef t' dt' o' [i] y, Wet Err.NZ p.dims (Sys.M SE) z := by
      intro z hz
      by_cases hi : i < 3
      · simp only [Sys.rk4Evals, hi, if_true, List.append_nil, List.mem_singleton] at hz
        subst hz
        refine wet_err hv hdc hr hE hμ (x := fun q => (o q).axpy (dt q * (rk4Coef : Coef ℝ).a i) (x q).1)
          (fun q => ?_) fun q => hw q _ (by simp [Sys.rk4Evals, hi])
        have hS := sysRel_at q hv hdc hr hE
        exact axpy_rel hS (hS.sc.mul (hdt q) (rk4Coef_rel hS.sc i).1) (ho q) (h q).1
      · simp [Sys.rk4Evals, hi] at hz
    intro z hz
    simp only [Sys.rk4Evals, List.mem_append] at hz
    rcases hz with hz | hz
    · exact w1 z (by simpa [Sys.rk4Evals] using hz)
    · refine ih (x := fun q => Sys.rk4Stage Sx rk4Coef (t q) (dt q) (o q) i (x q)) (fun q => ?_)
        (fun q z hz => hw q z (by simp [Sys.rk4Evals, hz])) z hz
      have hS := sysRel_at q hv hdc hr hE
      exact rk4_rel hS _ _ (rk4Coef_rel hS.sc) (ht q) (hdt q) [i] (ho q) (h q) w1

end

/-- values of a state -/
def valFld {R : Type} (val : R → ℝ) (x : Fld R) : Fld ℝ :=
  ⟨fun c k => val (x.h c k), fun e k => val (x.vn e k), fun l c k => val (x.tr l c k)⟩

/-- the entries of a state in range -/
def entry {R : Type} {d : Dims} (x : Fld R) : Ix d → R
  | .inl i => x.h i.1 i.2
  | .inr (.inl i) => x.vn i.1 i.2
  | .inr (.inr i) => x.tr i.1 i.2.1 i.2.2

theorem fldRel_entry {R R' : Type} {ρ : R → R' → Prop} {d : Dims} {x : Fld R} {y : Fld R'}
    (h : FldRel ρ Ren.id d x y) (i : Ix d) : ρ (entry x i) (entry y i) := by
  rcases i with ⟨⟨c, hc⟩, ⟨k, hk⟩⟩ | ⟨⟨c, hc⟩, ⟨k, hk⟩⟩ | ⟨⟨l, hl⟩, ⟨c, hc⟩, ⟨k, hk⟩⟩
  · have a := Finset.mem_Ico.mp hc; have b := Finset.mem_Ico.mp hk
    exact h.h c k a.1 a.2 b.1 b.2
  · have a := Finset.mem_Ico.mp hc; have b := Finset.mem_Ico.mp hk
    exact h.vn c k a.1 a.2 b.1 b.2
  · have a := Finset.mem_Ico.mp hc; have b := Finset.mem_Ico.mp hk; have g := Finset.mem_Ico.mp hl
    exact h.tr l c k g.1 g.2 a.1 a.2 b.1 b.2

theorem pack_entry (d : Dims) (x : Fld ℝ) (i : Ix d) : pack d x i = entry x i := by
  rcases i with i | i | i <;> rfl

theorem pack_valFld {R : Type} (d : Dims) (val : R → ℝ) (x : Fld R) (i : Ix d) :
    pack d (valFld val x) i = val (entry x i) := by
  rcases i with i | i | i <;> rfl

/-- without forcing a step does not depend on the time -/
theorem step_time {R : Type} [Scalar R] (d : Dims) (sw : SWModel R) (m : Mem R) (t t' dt : R) (x : Fld R × Fld R)
    (stp : Stepper) : (genSys d sw noHook m).step t dt x stp = (genSys d sw noHook m).step t' dt x stp := by
  cases stp <;> rfl

theorem tend_replace_old {R : Type} [Scalar R] (d : Dims) (sw : SWModel R) (m : Mem R) (n1 : sw.prm.disable_h = false)
    (n2 : sw.prm.disable_vn = false) (t : R) (o o' s : Fld R) :
    (genSys d sw noHook m).tend .replace t o s = (genSys d sw noHook m).tend .replace t o' s := by
  simp only [Sys.tend, genSys, n1, n2, Sys.termsH, Sys.termsVn, Sys.termsTr, Sys.start]
  simp

/-- all entries in range are finite -/
def FinFld {R : Type} (fin : R → Prop) (d : Dims) (x : Fld R) : Prop := ∀ i : Ix d, fin (entry x i)

theorem FinFld.h {R : Type} {fin : R → Prop} {d : Dims} {x : Fld R} (hx : FinFld fin d x) {c k : Int} (c0 : 0 ≤ c)
    (c1 : c < d.ncells) (k0 : 0 ≤ k) (k1 : k < d.nlayers) : fin (x.h c k) :=
  hx (.inl (⟨c, Finset.mem_Ico.mpr ⟨c0, c1⟩⟩, ⟨k, Finset.mem_Ico.mpr ⟨k0, k1⟩⟩))
theorem FinFld.vn {R : Type} {fin : R → Prop} {d : Dims} {x : Fld R} (hx : FinFld fin d x) {c k : Int} (c0 : 0 ≤ c)
    (c1 : c < d.nedges) (k0 : 0 ≤ k) (k1 : k < d.nlayers) : fin (x.vn c k) :=
  hx (.inr (.inl (⟨c, Finset.mem_Ico.mpr ⟨c0, c1⟩⟩, ⟨k, Finset.mem_Ico.mpr ⟨k0, k1⟩⟩)))
theorem FinFld.tr {R : Type} {fin : R → Prop} {d : Dims} {x : Fld R} (hx : FinFld fin d x) {l c k : Int} (l0 : 0 ≤ l)
    (l1 : l < d.ntracers) (c0 : 0 ≤ c) (c1 : c < d.ncells) (k0 : 0 ≤ k) (k1 : k < d.nlayers) : fin (x.tr l c k) :=
  hx (.inr (.inr (⟨l, Finset.mem_Ico.mpr ⟨l0, l1⟩⟩, ⟨c, Finset.mem_Ico.mpr ⟨c0, c1⟩⟩,
    ⟨k, Finset.mem_Ico.mpr ⟨k0, k1⟩⟩)))

/-- a step in rounded arithmetic tracks the step, whatever the old tendency was, if it was finite -/
theorem step_tracks {R : Type} [Scalar R] {fin : R → Prop} {val : R → ℝ} {u : ℝ} (hR : Machine fin val u) (u1 : u ≤ 1)
    {X : Type} {q : X} {d : Dims} {sw : SWModel R} {sw' : SWModel (Err X)} {m : Mem R} {mE : Mem (Err X)}
    (hS : SysRel (Err.Tracks fin val u q) Err.NZ Ren.id d (genSys d sw noHook m) (genSys d sw' noHook mE))
    (n1 : sw.prm.disable_h = false) (n2 : sw.prm.disable_vn = false)
    {stp : Stepper} (hs : FourthOrder stp) {t dt : R} {dt' : Err X} (hdt : Err.Tracks fin val u q dt dt') {o : Fld R}
    (ho : FinFld fin d o) {y : Fld R} {y' : Fld (Err X)} (hy : FldRel (Err.Tracks fin val u q) Ren.id d y y')
    (hw : ∀ z ∈ (genSys d sw' noHook mE).stepEvals (lit 0) dt' (zeroFld, y') stp, Wet Err.NZ d mE.mesh z) :
    PairRel (Err.Tracks fin val u q) Ren.id d ((genSys d sw noHook m).step t dt (o, y) stp)
      ((genSys d sw' noHook mE).step (lit 0) dt' (zeroFld, y') stp) := by
  rw [step_time d sw m t (lit 0)]
  have ht : Err.Tracks fin val u q (lit 0) (lit 0) := hS.sc.lit 0
  have hz : FldRel (Err.Tracks fin val u q) Ren.id d (zeroFld : Fld R) (zeroFld : Fld (Err X)) := zeroFld_rel hS
  rcases hs with rfl | rfl
  · have e := tend_replace_old d sw m n1 n2 (lit 0) o zeroFld y
    have e' : (genSys d sw noHook m).step (lit 0) dt (o, y) .rk4 = (genSys d sw noHook m).step (lit 0) dt (zeroFld, y) .rk4 := by
      simp only [Sys.step, Sys.rk4Step, e]
    rw [e']
    exact step_rel hS .rk4 ht hdt ⟨hz, hy⟩ hw
  · have r5 : List.range 5 = 0 :: [1, 2, 3, 4] := rfl
    have a0 : ∀ {Q : Type} [Scalar Q], (lsrkCoef 5 : Coef Q).a 0 = lit 0 := fun {Q} _ => rfl
    obtain ⟨-, cb, cc⟩ := lsrkCoef_rel hS.sc 5 0
    have zr : ∀ v : R, fin v →
        Err.Tracks fin val u q (v * (lsrkCoef 5 : Coef R).a 0) (lit 0 * (lsrkCoef 5 : Coef (Err X)).a 0) := by
      intro v hv _
      rw [a0, a0, Err.fn_mul, Err.fn_lit]
      obtain ⟨f, h1⟩ := hR.mul v (lit 0) hv hR.zero.1 (by
        rw [hR.zero.2, mul_zero, abs_zero]; exact (one_div_pos.mpr hR.pos).le)
      rw [hR.zero.2] at h1
      refine ⟨f, ?_⟩
      have hC : 1 ≤ (lit 0 * lit 0 : Err X).C := by
        have := (lit 0 : Err X).B0
        have := (lit 0 : Err X).C0
        show 1 ≤ (1 + ((lit 0 : Err X).B + (lit 0 : Err X).C) * ((lit 0 : Err X).B + (lit 0 : Err X).C)) +
          ((lit 0 : Err X).C * ((lit 0 : Err X).B + (lit 0 : Err X).C) + (lit 0 : Err X).B * (lit 0 : Err X).C)
        have : 0 ≤ ((lit 0 : Err X).B + (lit 0 : Err X).C) * ((lit 0 : Err X).B + (lit 0 : Err X).C) +
          ((lit 0 : Err X).C * ((lit 0 : Err X).B + (lit 0 : Err X).C) + (lit 0 : Err X).B * (lit 0 : Err X).C) := by
          positivity
        linarith
      simp only [Int.cast_zero, mul_zero, abs_zero, sub_zero, add_zero, mul_one] at h1 ⊢
      have := mul_le_mul_of_nonneg_right hC hR.pos.le
      linarith
    have hz' : FldRel (Err.Tracks fin val u q) Ren.id d (o.map fun v => v * (lsrkCoef 5 : Coef R).a 0)
        ((zeroFld : Fld (Err X)).map fun v => v * (lsrkCoef 5 : Coef (Err X)).a 0) :=
      ⟨fun c k c0 c1 k0 k1 => zr _ (ho.h c0 c1 k0 k1), fun c k c0 c1 k0 k1 => zr _ (ho.vn c0 c1 k0 k1),
        fun l c k l0 l1 c0 c1 k0 k1 => zr _ (ho.tr l0 l1 c0 c1 k0 k1)⟩
    have first := tend_rel hS .increment (hS.sc.add ht (hS.sc.mul cc hdt)) hz' hy
      (hw y' (by simp [Sys.stepEvals, r5, Sys.lsrkEvals]))
    simp only [Sys.step, Sys.lsrkStep, r5, List.foldl_cons]
    exact lsrk_rel hS _ _ (lsrkCoef_rel hS.sc 5) ht hdt [1, 2, 3, 4]
      (p := (genSys d sw noHook m).lsrkStage (lsrkCoef 5) (lit 0) dt 0 (o, y))
      (q := (genSys d sw' noHook mE).lsrkStage (lsrkCoef 5) (lit 0) dt' 0 (zeroFld, y'))
      ⟨first, axpy_rel hS (hS.sc.mul hdt cb) hy first⟩
      fun z hz => hw z (by simp only [Sys.stepEvals, r5, Sys.lsrkEvals, List.mem_cons] at hz ⊢; exact .inr hz)

/-- The rounding error of one step is at most `C u` and all results are finite, for all arithmetics with precision
`u ≤ u0`, all finite states bounded by `B` and all step sizes up to one such that the exact stages are at least `μ`
thick. -/
theorem step_rounding {p : MeshParams} (hv : RunValid p) {dc : ℝ} (hdc : 0 < dc) {prm : Params ℝ}
    (n1 : prm.disable_h = false) (n2 : prm.disable_vn = false) {m : Mem ℝ} (hr : Ready p dc prm m) {stp : Stepper}
    (hs : FourthOrder stp) (B : ℝ) {μ : ℝ} (hμ : 0 < μ) :
    ∃ C u0 : ℝ, 0 ≤ C ∧ 0 < u0 ∧ ∀ (R : Type) [Scalar R] (fin : R → Prop) (val : R → ℝ) (u : ℝ),
      Machine fin val u → u ≤ u0 → ∀ (dcR : R) (prmR : Params R) (mR : Mem R), IsNum fin val dcR dc →
      ParamVals fin val prmR prm → Ready p dcR prmR mR →
      ∀ (t dt : R) (o y : Fld R), FinFld fin p.dims o → FinFld fin p.dims y → fin dt → 0 ≤ val dt → val dt ≤ 1 → ‖pack p.dims (valFld val y)‖ ≤ B →
        (∀ x ∈ (genSys p.dims (SWModel.ofParams prm) noHook m).stepEvals (lit 0) (val dt)
          (zeroFld, unpack p.dims (pack p.dims (valFld val y))) stp, WetBy p.dims μ x) →
        FinFld fin p.dims ((genSys p.dims (SWModel.ofParams prmR) noHook mR).step t dt (o, y) stp).1 ∧
        FinFld fin p.dims ((genSys p.dims (SWModel.ofParams prmR) noHook mR).step t dt (o, y) stp).2 ∧
        ‖pack p.dims (valFld val ((genSys p.dims (SWModel.ofParams prmR) noHook mR).step t dt (o, y) stp).2) -
          pack p.dims ((genSys p.dims (SWModel.ofParams prm) noHook m).step (lit 0) (val dt)
            (zeroFld, unpack p.dims (pack p.dims (valFld val y))) stp).2‖ ≤ C * u := by
  set S := genSys p.dims (SWModel.ofParams prm) noHook m with hSdef
  set X := StepBox p.dims S stp B μ with hX
  obtain ⟨mE, hE, -, -⟩ := exists_ready hv.toValid (.const dc : Err X) (errParams X prm) zeroFld zeroFld
  obtain ⟨u1, u10, u11, rel⟩ := sysRel_tracks p prm hv hdc hE
  set SE := genSys p.dims (errModel X prm) noHook mE with hSE
  set y' := boxFld p.dims S stp B μ with hy'
  set dt' := boxDt p.dims S stp B μ with hdt'
  set r := (SE.step (lit 0) dt' (zeroFld, y') stp).2 with hrr
  -- the exact values
  have hat : ∀ q : X, SysRel (Err.At q) Err.NZ Ren.id p.dims S SE := fun q => sysRel_at q hv hdc hr hE
  have yat : ∀ q : X, FldRel (Err.At q) Ren.id p.dims (unpack p.dims q.1.1) y' := fun q =>
    ⟨fun _ _ _ _ _ _ => rfl, fun _ _ _ _ _ _ => rfl, fun _ _ _ _ _ _ _ _ _ => rfl⟩
  have tat : ∀ q : X, Err.At q (lit 0 : ℝ) (lit 0) := fun q => rfl
  have dat : ∀ q : X, Err.At q q.1.2 dt' := fun q => rfl
  have zat : ∀ q : X, FldRel (Err.At q) Ren.id p.dims (zeroFld : Fld ℝ) (zeroFld : Fld (Err X)) := fun q =>
    zeroFld_rel (hat q)
  have cst : ∀ s s' : Stepper, s = s' → ∀ (dt : ℝ) (x : Fld ℝ × Fld ℝ) z, z ∈ S.stepEvals (lit 0) dt x s' →
      z ∈ S.stepEvals (lit 0) dt x s := by
    rintro s _ rfl dt x z h
    exact h
  have hw : ∀ z ∈ SE.stepEvals (lit 0) dt' (zeroFld, y') stp, Wet Err.NZ p.dims SE.M z := by
    rcases hs with hs | hs
    · have w0 : Wet Err.NZ p.dims SE.M y' := wet_err hv hdc hr hE hμ yat fun q => q.2.2.2.2 _
        (cst _ _ hs _ _ _ (by simp [Sys.stepEvals]))
      intro z hz
      rw [hs] at hz
      simp only [Sys.stepEvals, List.mem_cons] at hz
      rcases hz with rfl | hz
      · exact w0
      · refine rk4_evals_err hv hdc hr hE hμ tat dat yat _
          (x := fun q => (S.tend .replace (lit 0) zeroFld (unpack p.dims q.1.1), unpack p.dims q.1.1))
          (fun q => ⟨tend_rel (hat q) .replace (tat q) (zat q) (yat q) w0, yat q⟩) (fun q z hz => ?_) z hz
        refine q.2.2.2.2 z (cst _ _ hs _ _ _ ?_)
        simp only [Sys.stepEvals, List.mem_cons]
        exact .inr hz
    · intro z hz
      rw [hs] at hz
      refine lsrk_evals_err hv hdc hr hE hμ 5 tat dat _ (x := fun q => (zeroFld, unpack p.dims q.1.1))
        (fun q => ⟨zat q, yat q⟩) (fun q z hz => ?_) z hz
      exact q.2.2.2.2 z (cst _ _ hs _ _ _ hz)
  have exactStep : ∀ q : X, FldRel (Err.At q) Ren.id p.dims
      (S.step (lit 0) q.1.2 (zeroFld, unpack p.dims q.1.1) stp).2 r := fun q =>
    (step_rel (hat q) stp (tat q) (dat q) ⟨zat q, yat q⟩ hw).2
  -- the constants
  set r1 := (SE.step (lit 0) dt' (zeroFld, y') stp).1 with hr1
  have inv0 : ∀ (z : Fld (Err X)) (i : Ix p.dims), 0 ≤ 1 / (entry z i).u0 := fun z i =>
    (one_div_pos.mpr (entry z i).u0_pos).le
  set C := ∑ i : Ix p.dims, (entry r i).C with hC
  set D := ∑ i : Ix p.dims, 1 / (entry r i).u0 + ∑ i : Ix p.dims, 1 / (entry r1 i).u0 with hD
  have C0 : 0 ≤ C := Finset.sum_nonneg fun i _ => (entry r i).C0
  have s0 : 0 ≤ ∑ i : Ix p.dims, 1 / (entry r i).u0 := Finset.sum_nonneg fun i _ => inv0 r i
  have s1 : 0 ≤ ∑ i : Ix p.dims, 1 / (entry r1 i).u0 := Finset.sum_nonneg fun i _ => inv0 r1 i
  have D0 : 0 ≤ D := add_nonneg s0 s1
  have small : ∀ {u : ℝ} {z : Err X}, u ≤ 1 / (D + 1) → 1 / z.u0 ≤ D → u ≤ z.u0 := fun {u z} hu h1 => by
    refine hu.trans ?_
    have h0 := z.u0_pos
    rw [div_le_iff₀ h0] at h1
    rw [div_le_iff₀ (by positivity)]
    linarith
  refine ⟨C, min u1 (1 / (D + 1)), C0, by positivity, ?_⟩
  intro R _ fin val u hR hu dcR prmR mR e1 e2 hrR t dt o y fo fy fdt d0 d1 hB hwet
  have ux : u ≤ u1 := hu.trans (min_le_left _ _)
  have uD : u ≤ 1 / (D + 1) := hu.trans (min_le_right _ _)
  have ul : u ≤ 1 := ux.trans u11
  let q : X := ⟨(pack p.dims (valFld val y), val dt), hB, d0, d1, hwet⟩
  have hy : FldRel (Err.Tracks fin val u q) Ren.id p.dims y y' := by
    have up := unpack_pack p.dims (valFld val y)
    exact ⟨fun c k c0 c1 k0 k1 => tracks_exact ⟨fy.h c0 c1 k0 k1, (up.h c k c0 c1 k0 k1).symm⟩,
      fun c k c0 c1 k0 k1 => tracks_exact ⟨fy.vn c0 c1 k0 k1, (up.vn c k c0 c1 k0 k1).symm⟩,
      fun l c k l0 l1 c0 c1 k0 k1 => tracks_exact ⟨fy.tr l0 l1 c0 c1 k0 k1, (up.tr l c k l0 l1 c0 c1 k0 k1).symm⟩⟩
  obtain ⟨main1, main⟩ := step_tracks hR ul (rel R fin val u hR ux dcR prmR mR e1 e2 hrR q) (e2.disable_h.trans n1)
    (e2.disable_vn.trans n2) hs (t := t) (dt' := dt') (tracks_exact ⟨fdt, rfl⟩) fo hy hw
  have ue : ∀ i : Ix p.dims, u ≤ (entry r i).u0 := fun i => small uD ((Finset.single_le_sum
    (f := fun i => 1 / (entry r i).u0) (fun i _ => inv0 r i) (Finset.mem_univ i)).trans (by linarith))
  have ue1 : ∀ i : Ix p.dims, u ≤ (entry r1 i).u0 := fun i => small uD ((Finset.single_le_sum
    (f := fun i => 1 / (entry r1 i).u0) (fun i _ => inv0 r1 i) (Finset.mem_univ i)).trans (by linarith))
  refine ⟨fun i => (fldRel_entry main1 i (ue1 i)).1, fun i => (fldRel_entry main i (ue i)).1, ?_⟩
  rw [pi_norm_le_iff_of_nonneg (mul_nonneg C0 hR.pos.le)]
  intro i
  have hi := (fldRel_entry main i (ue i)).2
  have he : entry (S.step (lit 0) (val dt) (zeroFld, unpack p.dims (pack p.dims (valFld val y))) stp).2 i =
    (entry r i).fn q := fldRel_entry (exactStep q) i
  rw [Pi.sub_apply, pack_valFld, pack_entry, he, Real.norm_eq_abs]
  refine hi.trans (mul_le_mul_of_nonneg_right ?_ hR.pos.le)
  exact Finset.single_le_sum (f := fun i => (entry r i).C) (fun i _ => (entry r i).C0) (Finset.mem_univ i)

end Props
end
end Omega
