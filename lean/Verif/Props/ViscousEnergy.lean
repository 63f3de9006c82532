import Verif.Props.ViscousStability
import Verif.Props.TimeOrder
import Verif.Props.Dissipation

/-!
# C116: viscosity and the reported energy

The viscous terms dissipate the sum of the squared velocities (C24, C25).  The reported energy weighs them with the
thickness, and this sum need not decrease.
-/

set_option linter.unusedVariables false
set_option linter.unusedSectionVars false

namespace Omega
noncomputable section
namespace Props

open Prog Model Refine Hex Set

variable {p : MeshParams} {dc : ℝ} {m : Mem ℝ}

/-! ### Two edges of a cell coupled by viscosity -/

/-- the Laplacian of a velocity in terms of differences on the hexagonal mesh -/
def hexLap (nx ny : Int) (dc : ℝ) (u : Int → ℝ) (e : Int) : ℝ :=
  2 / (3 * dc ^ 2) * Gr nx ny (Dv nx ny u) e - 4 / dc ^ 2 * Gv nx ny (Cu nx ny u) e

theorem lapU_hex (h : Geo2 p.nx p.ny p.dims.nlayers dc m.mesh) (u : Int → ℝ) {e : Int} (e0 : 0 ≤ e)
    (e1 : e < 3 * (p.nx * p.ny)) : lapU m u e = hexLap p.nx p.ny dc u e := by
  have hd := h.dc_pos
  have hc : IsCell p.nx p.ny (e / 3) := ⟨by omega, by omega⟩
  have hi := inv_isCell (j := e % 3 + 3) h.hnx hc
  have v0 := voe_isVertex (ny := p.ny) (s := 0) h.hnx hc (.inl rfl)
  have v1 := voe_isVertex (ny := p.ny) (s := 1) h.hnx hc (.inr rfl)
  unfold lapU hexLap
  rw [spec_grad h.toGeo _ e0 e1, spec_gradT h.toGeo _ e0 e1]
  unfold Gr Gv
  rw [coe_one, coe_zero, spec_div h _ hc, spec_div h _ hi, spec_curl h.toGeo _ v0.1 v0.2,
    spec_curl h.toGeo _ v1.1 v1.2]
  have s3 : (√3 : ℝ) ≠ 0 := by positivity
  field_simp

theorem hexLap_add (nx ny : Int) (dc : ℝ) (u w : Int → ℝ) (b : ℝ) (e : Int) :
    hexLap nx ny dc (fun i => u i + b * w i) e = hexLap nx ny dc u e + b * hexLap nx ny dc w e := by
  have cu : ∀ v, Cu nx ny (fun i => u i + b * w i) v = Cu nx ny u v + b * Cu nx ny w v := fun v => by
    unfold Cu; split <;> ring
  unfold hexLap Gr Gv
  simp only [cu]
  unfold Dv
  ring

/-- velocity one on a single edge -/
def oneAt (a : Int) (e : Int) : ℝ := if e = a then 1 else 0

section
variable {nx ny : Int} (hnx : 2 ≤ nx) (hny : 2 ≤ ny)
include hnx hny

theorem area_ge : 4 ≤ nx * ny := by nlinarith

theorem Dv_oneAt {c : Int} (hc : IsCell nx ny c) {a : Int} (a0 : 0 ≤ a) (a1 : a < 3 * (nx * ny)) :
    Dv nx ny (oneAt a) c = -(oneAt c (a / 3) - oneAt c (inv nx ny (a % 3 + 3) (a / 3))) := by
  have := adjoint_cell (ny := ny) (by omega : 1 ≤ nx) (oneAt c) (oneAt a)
  rw [Finset.sum_eq_single_of_mem c (Finset.mem_Ico.2 hc) (fun b _ hb => by simp [oneAt, hb]),
    Finset.sum_eq_single_of_mem a (Finset.mem_Ico.2 ⟨a0, a1⟩) (fun b _ hb => by simp [oneAt, hb])] at this
  simpa [oneAt, Gr, coe_one, coe_zero] using this

theorem Cu_oneAt {v : Int} (v0 : 0 ≤ v) (v1 : v < 2 * (nx * ny)) {a : Int} (a0 : 0 ≤ a) (a1 : a < 3 * (nx * ny)) :
    Cu nx ny (oneAt a) v = oneAt v (Hex.voe nx ny a 1) - oneAt v (Hex.voe nx ny a 0) := by
  have := adjoint_vertex (ny := ny) (by omega : 1 ≤ nx) (oneAt v) (oneAt a)
  rw [Finset.sum_eq_single_of_mem v (Finset.mem_Ico.2 ⟨v0, v1⟩) (fun b _ hb => by simp [oneAt, hb]),
    Finset.sum_eq_single_of_mem a (Finset.mem_Ico.2 ⟨a0, a1⟩) (fun b _ hb => by simp [oneAt, hb])] at this
  simpa [oneAt, Gv] using this

theorem inv_35 : inv nx ny 3 0 = nx - 1 ∧ nx ≤ inv nx ny 5 0 := by
  have c0 : col nx 0 = 0 := by simp [col]
  have r0 : row nx 0 = 0 := by simp [row]
  unfold inv
  rw [c0, r0]
  refine ⟨by simp [inI, inR, cid, mx], ?_⟩
  have h1 : inR ny 5 0 = ny - 1 := by simp [inR, mx]
  have h2 : 0 ≤ inI nx ny 5 0 0 := by
    simp only [inI, px]
    norm_num
    split_ifs <;> omega
  rw [h1]
  unfold cid
  nlinarith

/-- the velocity on edge 2 changes that on edge 0 -/
theorem hexLap_couple {dc : ℝ} : hexLap nx ny dc (oneAt 2) 0 = -(2 / (3 * dc ^ 2)) := by
  have a4 := area_ge hnx hny
  have hc : IsCell nx ny 0 := ⟨le_rfl, by omega⟩
  obtain ⟨i3, i5⟩ := inv_35 hnx hny
  have hi := inv_isCell (ny := ny) (j := 3) (by omega : 1 ≤ nx) hc
  have n2 := nb_ne hnx hny hc 2
  have n3 := nb_ne hnx hny hc 3
  have d1 := Dv_oneAt hnx hny hc (a := 2) (by norm_num) (by omega)
  have d2 := Dv_oneAt hnx hny hi (a := 2) (by norm_num) (by omega)
  have c1 := Cu_oneAt hnx hny (v := 0) le_rfl (by omega) (a := 2) (by norm_num) (by omega)
  have c2 := Cu_oneAt hnx hny (v := 1) (by norm_num) (by omega) (a := 2) (by norm_num) (by omega)
  have w0 : Hex.voe nx ny 2 0 = 2 * nb nx ny 3 0 + 1 := by simp [Hex.voe]
  have w1 : Hex.voe nx ny 2 1 = 2 * nb nx ny 2 0 := by simp [Hex.voe]
  have z0 : Hex.voe nx ny 0 0 = 1 := by simp [Hex.voe]
  have z1 : Hex.voe nx ny 0 1 = 0 := by simp [Hex.voe]
  have e1 : Dv nx ny (oneAt 2) 0 = -1 := by
    rw [d1]
    have : inv nx ny (2 % 3 + 3) (2 / 3) ≠ 0 := by norm_num; omega
    simp only [oneAt, if_neg this]
    norm_num
  have e2 : Dv nx ny (oneAt 2) (inv nx ny 3 0) = 0 := by
    rw [d2]
    have a : inv nx ny (2 % 3 + 3) (2 / 3) ≠ inv nx ny 3 0 := by norm_num; omega
    have b : ((2 : Int) / 3) ≠ inv nx ny 3 0 := by norm_num; omega
    simp only [oneAt, if_neg a, if_neg b]
    norm_num
  have e3 : Cu nx ny (oneAt 2) 0 = 0 := by
    rw [c1, w0, w1]
    simp only [oneAt]
    rw [if_neg (by omega), if_neg (by omega), sub_zero]
  have e4 : Cu nx ny (oneAt 2) 1 = 0 := by
    rw [c2, w0, w1]
    simp only [oneAt]
    rw [if_neg (by omega), if_neg (by omega), sub_zero]
  unfold hexLap Gr Gv
  rw [coe_one, coe_zero, z0, z1, e3, e4]
  norm_num
  rw [e1, e2]
  ring

/-- a thickness and a velocity for which the viscous term does positive work on the fluid -/
theorem exists_work {dc : ℝ} (hdc : 0 < dc) : ∃ (x u : Int → ℝ), (∀ c, 0 < x c) ∧
    (∀ c, c ∉ upto (nx * ny) → x c = 1) ∧ (∀ e, e ∉ upto (3 * (nx * ny)) → u e = 0) ∧
    0 < ∑ e ∈ upto (3 * (nx * ny)), Mn nx ny x e * u e * hexLap nx ny dc u e := by
  have a4 := area_ge hnx hny
  obtain ⟨i3, i5⟩ := inv_35 hnx hny
  have hc : IsCell nx ny 0 := ⟨le_rfl, by omega⟩
  have r0 : (0 : Int) ∈ upto (nx * ny) := mem_cells.mpr hc
  have r3 := mem_cells.mpr (inv_isCell (ny := ny) (j := 3) (by omega : 1 ≤ nx) hc)
  have r5 := mem_cells.mpr (inv_isCell (ny := ny) (j := 5) (by omega : 1 ≤ nx) hc)
  set d := hexLap nx ny dc (oneAt 0) 0 with hd
  set κ := -(2 / (3 * dc ^ 2)) with hκ
  have κ0 : κ ≠ 0 := by rw [hκ]; exact neg_ne_zero.2 (by positivity)
  set b := (1 - d) / κ with hb
  set u : Int → ℝ := fun i => oneAt 0 i + b * oneAt 2 i with hu
  set Q := b * hexLap nx ny dc u 2 with hQ
  set η := 1 / (2 * (|Q| + 1)) with hη
  have η0 : 0 < η := by positivity
  set x : Int → ℝ := fun c => if c ∈ upto (nx * ny) then η + oneAt (inv nx ny 3 0) c else 1 with hx
  have l0 : hexLap nx ny dc u 0 = 1 := by
    rw [hu, hexLap_add, hexLap_couple hnx hny, ← hd, ← hκ, hb]
    field_simp
    ring
  have u0 : u 0 = 1 := by simp [hu, oneAt]
  have u2 : u 2 = b := by simp [hu, oneAt]
  have m0 : Mn nx ny x 0 = η + 1 / 2 := by
    unfold Mn
    rw [coe_one, coe_zero]
    norm_num
    simp only [hx, oneAt, if_true]
    rw [if_pos r3, if_pos r0, if_neg (by omega)]
    ring
  have m2 : Mn nx ny x 2 = η := by
    unfold Mn
    rw [coe_one, coe_zero]
    norm_num
    simp only [hx, oneAt]
    rw [if_pos r5, if_pos r0, if_neg (by omega), if_neg (by omega)]
    ring
  refine ⟨x, u, fun c => ?_, fun c hc => if_neg hc, fun e he => ?_, ?_⟩
  · have : 0 ≤ oneAt (inv nx ny 3 0) c := by unfold oneAt; split <;> norm_num
    show 0 < if c ∈ upto (nx * ny) then η + oneAt (inv nx ny 3 0) c else 1
    split
    · linarith
    · exact one_pos
  · have n0 : e ≠ 0 := by rintro rfl; exact he (Finset.mem_Ico.2 (by omega))
    have n2 : e ≠ 2 := by rintro rfl; exact he (Finset.mem_Ico.2 (by omega))
    simp [hu, oneAt, n0, n2]
  have sum2 : ∑ e ∈ upto (3 * (nx * ny)), Mn nx ny x e * u e * hexLap nx ny dc u e =
      ∑ e ∈ ({0, 2} : Finset Int), Mn nx ny x e * u e * hexLap nx ny dc u e := by
    refine (Finset.sum_subset (fun e he => ?_) fun e _ he => ?_).symm
    · simp only [Finset.mem_insert, Finset.mem_singleton] at he
      exact Finset.mem_Ico.2 (by omega)
    · simp only [Finset.mem_insert, Finset.mem_singleton, not_or] at he
      have : u e = 0 := by simp [hu, oneAt, he.1, he.2]
      rw [this]; ring
  rw [sum2, Finset.sum_pair (by norm_num), l0, u0, u2, m0, m2, mul_assoc η, ← hQ]
  have : η * |Q| < 1 / 2 := by
    rw [hη, one_div, inv_mul_eq_div, div_lt_div_iff₀ (by positivity) (by norm_num)]
    linarith
  have := neg_abs_le Q
  nlinarith

end

/-! ### The rate of change of the energy -/

theorem eng_rate_visc (hc : ConnOK p.dims m) (h : Geo2 p.nx p.ny p.dims.nlayers dc m.mesh) {sw : SWModel ℝ}
    (h1 : sw.en_hadv = true) (h2 : sw.en_pv = true) (h3 : sw.en_ke = true) (h4 : sw.en_ssh = true)
    (v : Ix p.dims → ℝ) :
    fderiv ℝ (eng p.dims m sw.prm.grav) v (vfield p.dims m sw v) =
      ∑ k ∈ Spec.layers p.dims, ∑ e ∈ Spec.edges p.dims, Spec.dcE m e * Spec.dvE m e *
        (Spec.mean m (fun i => (unpack p.dims v).h i k) e * (unpack p.dims v).vn e k *
        (Spec.velocityTend m sw k (fun i => (unpack p.dims v).h i k) (fun i => (unpack p.dims v).vn i k) e -
        Spec.velocityTend m (inviscid sw) k (fun i => (unpack p.dims v).h i k)
          (fun i => (unpack p.dims v).vn i k) e)) := by
  have D := HasDerivAt.fun_sum (u := Spec.layers p.dims) fun k _ =>
    layer_energy_deriv h.toGeo sw.prm.grav (fun i => (unpack p.dims v).h i k)
      (Spec.thicknessTend m sw (fun i => (unpack p.dims v).h i k) (fun i => (unpack p.dims v).vn i k))
      (fun i => (unpack p.dims v).vn i k)
      (Spec.velocityTend m sw k (fun i => (unpack p.dims v).h i k) (fun i => (unpack p.dims v).vn i k))
  have l1 : HasDerivAt (fun ε : ℝ => v + ε • vfield p.dims m sw v) (vfield p.dims m sw v) 0 := by
    have := ((hasDerivAt_id (0 : ℝ)).smul_const (vfield p.dims m sw v)).const_add v
    simpa using this
  have l2 : HasDerivAt (fun ε : ℝ => eng p.dims m sw.prm.grav (v + ε • vfield p.dims m sw v))
      (fderiv ℝ (eng p.dims m sw.prm.grav) v (vfield p.dims m sw v)) 0 := by
    have d : HasFDerivAt (eng p.dims m sw.prm.grav) (fderiv ℝ (eng p.dims m sw.prm.grav) v)
        (v + (0 : ℝ) • vfield p.dims m sw v) := by
      rw [zero_smul, add_zero]
      exact ((eng_smooth p.dims m sw.prm.grav).differentiable (by simp)).differentiableAt.hasFDerivAt
    exact d.comp_hasDerivAt 0 l1
  have e : (fun ε : ℝ => eng p.dims m sw.prm.grav (v + ε • vfield p.dims m sw v)) = fun ε =>
      ∑ k ∈ Spec.layers p.dims, ∑ c ∈ Spec.cells p.dims, Spec.areaC m c *
        (sw.prm.grav * ((unpack p.dims v).h c k + ε * Spec.thicknessTend m sw (fun i => (unpack p.dims v).h i k)
          (fun i => (unpack p.dims v).vn i k) c) ^ 2 / 2 + ((unpack p.dims v).h c k + ε * Spec.thicknessTend m sw
          (fun i => (unpack p.dims v).h i k) (fun i => (unpack p.dims v).vn i k) c) *
          Spec.kinetic m (fun e => (unpack p.dims v).vn e k + ε * Spec.velocityTend m sw k
            (fun i => (unpack p.dims v).h i k) (fun i => (unpack p.dims v).vn i k) e) c) := by
    funext ε
    refine Finset.sum_congr rfl fun k hk => Finset.sum_congr rfl fun c hc' => ?_
    have a1 : (unpack p.dims (v + ε • vfield p.dims m sw v)).h c k = (unpack p.dims v).h c k + ε *
        Spec.thicknessTend m sw (fun i => (unpack p.dims v).h i k) (fun i => (unpack p.dims v).vn i k) c := by
      show (if _ : _ then _ else _) = (if _ : _ then _ else _) + _
      rw [dif_pos ⟨hc', hk⟩, dif_pos ⟨hc', hk⟩]; rfl
    have a2 : ∀ e, 0 ≤ e → e < p.dims.nedges → (unpack p.dims (v + ε • vfield p.dims m sw v)).vn e k =
        (unpack p.dims v).vn e k + ε * Spec.velocityTend m sw k (fun i => (unpack p.dims v).h i k)
          (fun i => (unpack p.dims v).vn i k) e := fun e e0 e1 => by
      have he : e ∈ Spec.edges p.dims := Finset.mem_Ico.mpr ⟨e0, e1⟩
      show (if _ : _ then _ else _) = (if _ : _ then _ else _) + _
      rw [dif_pos ⟨he, hk⟩, dif_pos ⟨he, hk⟩]; rfl
    have b := Finset.mem_Ico.mp hc'
    rw [a1, kinetic_congr hc a2 b.1 b.2]
  rw [e] at l2
  rw [l2.unique D]
  exact Finset.sum_congr rfl fun k _ => layer_energy_rate h h1 h2 h3 h4 k _ _

/-- On every mesh with at least two columns and rows, and for every positive viscosity, there is a wet state for
which the runs of the RK4 stepper up to some time end with a reported energy above that of the state, by a margin
that does not vanish as the steps shrink.  The Laplacian viscosity of the code is not weighted with the thickness. -/
theorem C116_viscosity_adds_energy (hv : RunValid p) (hnx : 2 ≤ p.nx) (hny : 2 ≤ p.ny) (hl : 0 < p.dims.nlayers)
    (hdc : 0 < dc) {prm : Params ℝ} (n1 : prm.disable_h = false) (n2 : prm.disable_vn = false)
    (n3 : 0 < prm.visc_del2) (n4 : prm.visc_del4 ≤ 0) :
    ∃ m : Mem ℝ, Ready p dc prm m ∧
      (∀ c k, 0 ≤ c → c < p.dims.ncells → 0 ≤ k → k < p.dims.nlayers → 0 < m.real (.h_cell .state) 0 c k) ∧
      ∃ (T r : ℝ) (n0 : ℕ), 0 < T ∧ 0 < r ∧ ∀ (sched : List (ℝ × ℝ)) (split : Bool), n0 ≤ sched.length →
        (∀ q ∈ sched, q.2 = T / sched.length) →
        (∃ m1, Exec p.dims (Stepper.rk4.ctor p.dims ++ Stepper.rk4.run p.dims
          ⟨defaultKernels p.dims.vl, split⟩ (SWModel.ofParams prm) sched) m m1) ∧
        ∀ (m1 : Mem ℝ) (v0 v1 : ℝ), Exec p.dims (Stepper.rk4.ctor p.dims ++ Stepper.rk4.run p.dims
          ⟨defaultKernels p.dims.vl, split⟩ (SWModel.ofParams prm) sched) m m1 →
        IsEnergyIntegral p.dims prm.grav .state m v0 → IsEnergyIntegral p.dims prm.grav .state m1 v1 →
        v0 + r ≤ v1 := by
  obtain ⟨x, u, x0, xo, uo, work⟩ := exists_work hnx hny hdc
  obtain ⟨m, hr, hx, -⟩ := exists_ready hv.toValid dc prm ⟨fun c _ => x c, fun e _ => u e, fun _ _ _ => 0⟩ zeroFld
  have eh : ∀ c k, m.real (.h_cell .state) 0 c k = x c := fun c k => congrFun (congrFun (congrArg Fld.h hx) c) k
  have wet : ∀ c k, 0 ≤ c → c < p.dims.ncells → 0 ≤ k → k < p.dims.nlayers →
      0 < m.real (.h_cell .state) 0 c k := fun c k _ _ _ _ => by rw [eh]; exact x0 c
  obtain ⟨hd, hc⟩ := ready_ok hv hr
  have hH := hookOK_noHook (noHook_ofParams prm) p.dims m
  have hg := Ready.geo2 hr hv.toValid hnx hny hdc
  obtain ⟨T, s, T0, hs, h0⟩ := C80_solution_exists hv hdc n1 n2 hr wet
  obtain ⟨du, wu⟩ := hs.pack hd hc hH n1 n2
  set sw := SWModel.ofParams prm with hsw
  set G := eng p.dims m prm.grav with hG
  have sm := eng_smooth p.dims m prm.grav
  -- the rate at the start
  have s2 : sw.en_pv = true := rfl
  have s3 : sw.en_ke = true := rfl
  have s4 : sw.en_ssh = true := rfl
  have s5 : sw.en_vdiff = true := by
    show decide ((lit 0 : ℝ) < prm.visc_del2) = true
    simp [n3]
  have s6 : sw.en_vhyper = false := by
    show decide ((lit 0 : ℝ) < prm.visc_del4) = false
    simp [n4]
  have rate : 0 < fderiv ℝ G (pack p.dims (s 0)) (vfield p.dims m sw (pack p.dims (s 0))) := by
    rw [← pack_congr h0, hx]
    have := eng_rate_visc hc hg (sw := sw) rfl rfl rfl rfl
      (pack p.dims ⟨fun c _ => x c, fun e _ => u e, fun _ _ _ => 0⟩)
    rw [show sw.prm.grav = prm.grav from rfl] at this
    rw [this]
    refine Finset.sum_pos (fun k hk => ?_) ⟨0, Finset.mem_Ico.2 ⟨le_rfl, hl⟩⟩
    have hk' := Finset.mem_Ico.mp hk
    have e1 : (fun i => (unpack p.dims (pack p.dims ⟨fun c _ => x c, fun e _ => u e, fun _ _ _ => 0⟩)).h i k) = x := by
      funext i
      show (if _ : _ then _ else _) = _
      split
      · rfl
      · rename_i hi
        exact (xo i fun hh => hi ⟨hh, hk⟩).symm
    have e2 : (fun i => (unpack p.dims (pack p.dims ⟨fun c _ => x c, fun e _ => u e, fun _ _ _ => 0⟩)).vn i k) = u := by
      funext i
      show (if _ : _ then _ else _) = _
      split
      · rfl
      · rename_i hi
        exact (uo i fun hh => hi ⟨hh, hk⟩).symm
    have e3 : ∀ i, (unpack p.dims (pack p.dims ⟨fun c _ => x c, fun e _ => u e, fun _ _ _ => 0⟩)).vn i k = u i :=
      fun i => congrFun e2 i
    have : ∑ e ∈ upto (3 * (p.nx * p.ny)), dc * (dc * √3 / 3) * prm.visc_del2 *
        (Mn p.nx p.ny x e * u e * hexLap p.nx p.ny dc u e) > 0 := by
      rw [← Finset.mul_sum]
      exact mul_pos (by positivity) work
    refine lt_of_lt_of_eq this (Finset.sum_congr rfl fun e he => ?_)
    have he' := Finset.mem_Ico.mp he
    simp only [e1, e3]
    have mk := mask_one hg.toGeo he'.1 he'.2 hk'.1 hk'.2
    have dt : Spec.velocityTend m sw k x u e - Spec.velocityTend m (inviscid sw) k x u e =
        prm.visc_del2 * lapU m u e := by
      simp only [Spec.velocityTend, inviscid, s2, s3, s4, s5, s6, mk.1, mk.2.1, if_true, Bool.false_eq_true, if_false, lapU]
      rw [show sw.prm.visc_del2 = prm.visc_del2 from rfl]
      ring
    rw [dt, spec_dcE hg.toGeo he'.1 he'.2, spec_dvE hg.toGeo he'.1 he'.2, lapU_hex hg u he'.1 he'.2,
      spec_mean hg.toGeo _ he'.1 he'.2]
    ring
  -- a later time with more energy
  have d0 : HasDerivWithinAt (fun t => G (pack p.dims (s t)))
      (fderiv ℝ G (pack p.dims (s 0)) (vfield p.dims m sw (pack p.dims (s 0)))) (Ici 0) 0 := by
    have := ((sm.differentiable (by simp)).differentiableAt.hasFDerivAt
      (x := pack p.dims (s 0))).comp_hasDerivWithinAt 0 (du 0 (left_mem_Icc.2 T0.le))
    exact this.mono_of_mem_nhdsWithin (Icc_mem_nhdsGE T0)
  obtain ⟨T1, t0, t1, gain⟩ : ∃ T1, 0 < T1 ∧ T1 ≤ T ∧ G (pack p.dims (s 0)) < G (pack p.dims (s T1)) := by
    rw [hasDerivWithinAt_iff_tendsto_slope, Ici_sdiff_left] at d0
    obtain ⟨T1, hp, h1⟩ := ((d0.eventually (lt_mem_nhds rate)).and (Ioc_mem_nhdsGT T0)).exists
    refine ⟨T1, h1.1, h1.2, ?_⟩
    rw [slope_def_field, sub_zero] at hp
    have := (div_pos_iff_of_pos_right h1.1).1 hp
    linarith
  have hs1 : Solves p.dims m sw T1 s := by
    have sub : Icc 0 T1 ⊆ Icc 0 T := Icc_subset_Icc_right t1
    exact ⟨fun c k a b d e y hy => (hs.h c k a b d e y (sub hy)).mono sub,
      fun c k a b d e y hy => (hs.vn c k a b d e y (sub hy)).mono sub,
      fun l c k a0 a1 a b d e y hy => (hs.tr l c k a0 a1 a b d e y (sub hy)).mono sub,
      fun c k a b d e y hy => hs.wet c k a b d e y (sub hy)⟩
  obtain ⟨K, n0, conv⟩ := C80_rk4_converges hv hdc n1 n2 hr t0.le hs1 h0
  obtain ⟨δ, δ0, hδ⟩ := Metric.continuous_iff.1 sm.continuous (pack p.dims (s T1))
    ((G (pack p.dims (s T1)) - G (pack p.dims (s 0))) / 2) (by linarith)
  obtain ⟨n1', hn1⟩ := exists_nat_gt (|K| / δ)
  refine ⟨m, hr, wet, T1, (G (pack p.dims (s T1)) - G (pack p.dims (s 0))) / 2, n0 + n1' + 1, t0, by linarith,
    fun sched split hn hq =>
      ⟨((C40_safe_deterministic hd hc (noHook_ofParams prm) split).2.2 .rk4 sched).2.exists,
      fun m1 v0 v1 he hv0 hv1 => ?_⟩⟩
  obtain ⟨c1, c2, c3⟩ := conv sched split m1 (by omega) hq he
  have small : K / (sched.length : ℝ) ^ 4 < δ := by
    have l1 : (n1' : ℝ) + 1 ≤ sched.length := by exact_mod_cast (by omega : n1' + 1 ≤ sched.length)
    have l2 : (1 : ℝ) ≤ sched.length := by have := Nat.cast_nonneg (α := ℝ) n1'; linarith
    have l3 : (sched.length : ℝ) ≤ (sched.length : ℝ) ^ 4 := le_self_pow₀ l2 (by norm_num)
    rw [div_lt_iff₀ δ0] at hn1
    rw [div_lt_iff₀ (by positivity)]
    have := le_abs_self K
    nlinarith
  have st := ((genSetup hd hc hH).newRun he).1
  have near : dist (pack p.dims (m1.fld .state)) (pack p.dims (s T1)) < δ := by
    rw [dist_pi_lt_iff δ0]
    rintro (⟨⟨c, hc'⟩, ⟨k, hk'⟩⟩ | ⟨⟨c, hc'⟩, ⟨k, hk'⟩⟩ | ⟨⟨l, hl'⟩, ⟨c, hc'⟩, ⟨k, hk'⟩⟩)
    · have a := Finset.mem_Ico.mp hc'; have b := Finset.mem_Ico.mp hk'
      exact (c1 c k a.1 a.2 b.1 b.2).trans_lt small
    · have a := Finset.mem_Ico.mp hc'; have b := Finset.mem_Ico.mp hk'
      exact (c2 c k a.1 a.2 b.1 b.2).trans_lt small
    · have a := Finset.mem_Ico.mp hc'; have b := Finset.mem_Ico.mp hk'; have g := Finset.mem_Ico.mp hl'
      exact (c3 l c k g.1 g.2 a.1 a.2 b.1 b.2).trans_lt small
  have := hδ _ near
  rw [Real.dist_eq, abs_lt] at this
  rw [eng_pack hv hr st hv1, eng_pack hv hr ⟨rfl, fun _ _ => rfl⟩ hv0, pack_congr h0]
  linarith [this.1]

/-- Where the thickness of each layer is uniform, both viscous terms take energy out: the derivative of the
reported energy along the computed tendency is minus a sum of squares weighted with the thickness. -/
theorem C116_uniform_thickness (hv : RunValid p) (hx : 2 ≤ p.nx) (hy : 2 ≤ p.ny) (hdc : 0 < dc)
    {prm : Params ℝ} (hr : Ready p dc prm m) (h5 : prm.disable_h = false) (h6 : prm.disable_vn = false)
    (n3 : 0 < prm.visc_del2) (n4 : 0 < prm.visc_del4) {H : Int → ℝ}
    (hH : ∀ c k, 0 ≤ c → c < p.dims.ncells → 0 ≤ k → k < p.dims.nlayers → m.real (.h_cell .state) 0 c k = H k)
    {split : Bool} {t : ℝ} {m1 : Mem ℝ}
    (he : Exec p.dims (compute_tendency p.dims ⟨defaultKernels p.dims.vl, split⟩ (SWModel.ofParams prm) .replace
      .tend .state t) m m1) {E : ℝ → ℝ}
    (hE : ∀ ε, ∃ mε : Mem ℝ, Static mε m ∧
      (∀ c k, 0 ≤ c → c < p.dims.ncells → 0 ≤ k → k < p.dims.nlayers →
        mε.real (.h_cell .state) 0 c k =
          m.real (.h_cell .state) 0 c k + ε * m1.real (.h_cell .tend) 0 c k) ∧
      (∀ e k, 0 ≤ e → e < p.dims.nedges → 0 ≤ k → k < p.dims.nlayers →
        mε.real (.vn_edge .state) 0 e k =
          m.real (.vn_edge .state) 0 e k + ε * m1.real (.vn_edge .tend) 0 e k) ∧
      IsEnergyIntegral p.dims prm.grav .state mε (E ε)) :
    HasDerivAt E (-∑ k ∈ Spec.layers p.dims, H k *
      (prm.visc_del2 * (∑ c ∈ Spec.cells p.dims, Spec.areaC m c *
          Spec.div m (fun i => m.real (.vn_edge .state) 0 i k) c ^ 2 +
        ∑ v ∈ Spec.verts p.dims, Spec.areaT m v * Spec.curl m (fun i => m.real (.vn_edge .state) 0 i k) v ^ 2) +
      prm.visc_del4 * ∑ e ∈ Spec.edges p.dims, Spec.dcE m e * Spec.dvE m e *
        (Spec.grad m (Spec.div m fun i => m.real (.vn_edge .state) 0 i k) e -
          Spec.gradT m (Spec.curl m fun i => m.real (.vn_edge .state) 0 i k) e) ^ 2)) 0 := by
  have hg := Ready.geo2 hr hv.toValid hx hy hdc
  obtain ⟨hd, hc⟩ := ready_ok hv hr
  set sw := SWModel.ofParams prm with hsw
  have s2 : sw.en_pv = true := rfl
  have s3 : sw.en_ke = true := rfl
  have s4 : sw.en_ssh = true := rfl
  have s5 : sw.en_vdiff = true := by
    show decide ((lit 0 : ℝ) < prm.visc_del2) = true
    simp [n3]
  have s6 : sw.en_vhyper = true := by
    show decide ((lit 0 : ℝ) < prm.visc_del4) = true
    simp [n4]
  refine (C20_energy_budget hv hx hy hdc hr (noHook_ofParams prm) rfl rfl rfl rfl h5 h6 he hE).congr_deriv ?_
  rw [← Finset.sum_neg_distrib]
  refine Finset.sum_congr rfl fun k hk => ?_
  have hk' := Finset.mem_Ico.mp hk
  set u : Int → ℝ := fun i => m.real (.vn_edge .state) 0 i k with hu
  set L : Int → ℝ := Spec.vecLap m u with hL
  have w1 := lap_work hg u u
  have w2 := lap_work hg u L
  have w3 := lap_work hg L u
  have key : ∑ e ∈ Spec.edges p.dims, Spec.dcE m e * Spec.dvE m e * (u e * lapU m L e) =
      ∑ e ∈ Spec.edges p.dims, Spec.dcE m e * Spec.dvE m e * lapU m u e ^ 2 := by
    refine w2.trans ?_
    have : ∑ e ∈ Spec.edges p.dims, Spec.dcE m e * Spec.dvE m e * lapU m u e ^ 2 =
      ∑ e ∈ Spec.edges p.dims, Spec.dcE m e * Spec.dvE m e *
        (L e * (Spec.grad m (Spec.div m u) e - Spec.gradT m (Spec.curl m u) e)) :=
      Finset.sum_congr rfl fun e he => by
        have he' := Finset.mem_Ico.mp he
        rw [hL, vecLap_eq hg.toGeo u he'.1 he'.2]; unfold lapU; ring
    rw [this, w3]
    congr 2 <;> exact Finset.sum_congr rfl fun _ _ => by ring
  have pt : ∀ e ∈ Spec.edges p.dims, Spec.dcE m e * Spec.dvE m e *
      (Spec.mean m (fun i => m.real (.h_cell .state) 0 i k) e * m.real (.vn_edge .state) 0 e k *
      (Spec.velocityTend m sw k (fun i => m.real (.h_cell .state) 0 i k) u e -
      Spec.velocityTend m (inviscid sw) k (fun i => m.real (.h_cell .state) 0 i k) u e)) =
      H k * (prm.visc_del2 * (Spec.dcE m e * Spec.dvE m e *
        (u e * (Spec.grad m (Spec.div m u) e - Spec.gradT m (Spec.curl m u) e))) -
      prm.visc_del4 * (Spec.dcE m e * Spec.dvE m e * (u e * lapU m L e))) := fun e he => by
    have he' := Finset.mem_Ico.mp he
    have mk := mask_one hg.toGeo he'.1 he'.2 hk'.1 hk'.2
    have hce : IsCell p.nx p.ny (e / 3) := by
      have : e < 3 * (p.nx * p.ny) := he'.2
      exact ⟨by omega, by omega⟩
    have hi := inv_isCell (j := e % 3 + 3) hg.hnx hce
    have mn : Spec.mean m (fun i => m.real (.h_cell .state) 0 i k) e = H k := by
      rw [spec_mean hg.toGeo _ he'.1 he'.2]
      unfold Mn
      rw [coe_one, coe_zero]
      beta_reduce
      rw [hH _ k hce.1 hce.2 hk'.1 hk'.2, hH _ k hi.1 hi.2 hk'.1 hk'.2]
      ring
    have vl : Spec.grad m (Spec.div m (Spec.vecLap m u)) e - Spec.gradT m (Spec.curl m (Spec.vecLap m u)) e =
        lapU m L e := rfl
    rw [mn]
    simp only [Spec.velocityTend, inviscid, s2, s3, s4, s5, s6, mk.1, mk.2.1, mk.2.2, if_true, Bool.false_eq_true, if_false]
    rw [vl, show sw.prm.visc_del2 = prm.visc_del2 from rfl, show sw.prm.visc_del4 = prm.visc_del4 from rfl]
    ring
  rw [Finset.sum_congr rfl pt, ← Finset.mul_sum, Finset.sum_sub_distrib, ← Finset.mul_sum, ← Finset.mul_sum, key, w1]
  simp only [lapU, sq]
  ring

/-- a mesh of 24 cells and parameters with gravity, rotation and viscosity for the first theorem -/
example : ∃ prm : Params ℝ, RunValid p46 ∧ 2 ≤ p46.nx ∧ 2 ≤ p46.ny ∧ 0 < p46.dims.nlayers ∧
    prm.disable_h = false ∧ prm.disable_vn = false ∧ 0 < prm.visc_del2 ∧ prm.visc_del4 ≤ 0 ∧ 0 < prm.grav ∧
    0 < prm.f0 := by
  obtain ⟨prm, e⟩ : ∃ q : Params ℝ, q = ⟨1 / 10000, 10, 1 / 2, 0, 0, 0, false, false⟩ := ⟨_, rfl⟩
  refine ⟨prm, p46_run, by simp [p46], by simp [p46], by rw [p46_layers]; norm_num, ?_⟩
  rw [e]
  norm_num

/-- layers of different uniform thickness with a varying velocity for the second -/
example (prm : Params ℝ) (h5 : prm.disable_h = false) (h6 : prm.disable_vn = false) :
    ∃ (m m1 : Mem ℝ) (E : ℝ → ℝ), Ready p46 (1 / 4) prm m ∧
      Exec p46.dims (compute_tendency p46.dims ⟨defaultKernels p46.dims.vl, false⟩
        (SWModel.ofParams prm) .replace .tend .state 3) m m1 ∧
      (∀ ε, ∃ mε : Mem ℝ, Static mε m ∧
        (∀ c k, mε.real (.h_cell .state) 0 c k =
          m.real (.h_cell .state) 0 c k + ε * m1.real (.h_cell .tend) 0 c k) ∧
        (∀ e k, mε.real (.vn_edge .state) 0 e k =
          m.real (.vn_edge .state) 0 e k + ε * m1.real (.vn_edge .tend) 0 e k) ∧
        IsEnergyIntegral p46.dims prm.grav .state mε (E ε)) ∧
      (∀ c k, m.real (.h_cell .state) 0 c k = 1 + k) ∧ m.real (.vn_edge .state) 0 7 2 = 49 := by
  obtain ⟨m, m1, hr, hd, hc, hx, he⟩ := exists_tendency p46_run (1 / 4) prm (noHook_ofParams prm) false
    .replace 3 ⟨fun _ k => 1 + k, fun e _ => e * e, fun l c k => l + c + k⟩
  let y : ℝ → Fld ℝ := fun ε => (m.fld .state).axpy ε (m1.fld .tend)
  have key : ∀ ε, ∃ v, IsEnergyIntegral p46.dims prm.grav .state (setFld m .state (y ε)) v :=
    fun ε => (C41_reduction_order p46_run (hr.static (setFld_static _ _ _)) prm.grav .state).2.1.exists
  choose E hE using key
  refine ⟨m, m1, E, hr, he, fun ε => ⟨_, setFld_static _ _ _, fun c k => ?_, fun c k => ?_, hE ε⟩,
    fun c k => ?_, ?_⟩
  · exact congrFun (congrFun (congrArg Fld.h (setFld_fld m .state (y ε))) c) k
  · exact congrFun (congrFun (congrArg Fld.vn (setFld_fld m .state (y ε))) c) k
  · exact congrFun (congrFun (congrArg Fld.h hx) c) k
  · exact (congrFun (congrFun (congrArg Fld.vn hx) 7) 2).trans (by norm_num)

end Props
end
end Omega
