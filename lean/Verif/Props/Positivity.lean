import Verif.Props.AdvectionOp
import Verif.Props.Symmetry

/-!
# C92, C93: bounds of tracers and positivity of the thickness

One-stage steps keep concentrations within their bounds if the cell Peclet number is at most two, and
for larger ones no step size does.  The thickness stays positive under a condition on the depths of
neighbours; no bound on speed and step size alone is enough.
-/

set_option linter.unusedVariables false
set_option linter.unusedSectionVars false

namespace Omega
noncomputable section
namespace Props

open Prog Model Refine Hex Polynomial

variable {p : MeshParams} {dc : ℝ} {m : Mem ℝ}

/-- sign of the normal of side `j` -/
def outSg (j : ℕ) : ℝ := if j < 3 then -1 else 1

theorem outSg_abs (j : ℕ) : |outSg j| = 1 := by unfold outSg; split_ifs <;> simp

theorem Dv_sum (nx ny : Int) (u : Int → ℝ) (c : Int) :
    Dv nx ny u c = ∑ j ∈ Finset.range 6, outSg j * u (E nx ny c j) := by
  simp only [Finset.sum_range_succ, Finset.sum_range_zero, zero_add, Dv, outSg, Nat.cast_zero,
    Nat.cast_one, Nat.cast_ofNat]
  norm_num
  ring

/-- The thickness tendency, side by side. -/
theorem thick_nbrs (h : Geo2 p.nx p.ny p.dims.nlayers dc m.mesh) (prm : Params ℝ) (x u : Int → ℝ)
    {c : Int} (hc : IsCell p.nx p.ny c) :
    Spec.thicknessTend m (SWModel.ofParams prm) x u c = 2 / (3 * dc) * ∑ j ∈ Finset.range 6,
      (x c + x (across p.nx p.ny c j)) / 2 * -(outSg j * u (E p.nx p.ny c j)) := by
  have hd := h.dc_pos
  have e : EqOn (3 * (p.nx * p.ny)) (fun e => Spec.mean m x e * u e)
      (fun e => Mn p.nx p.ny x e * u e) := fun e a b => by
    show Spec.mean m x e * u e = _
    rw [spec_mean h.toGeo x a b]
  unfold Spec.thicknessTend
  rw [if_pos (show (SWModel.ofParams prm).en_hadv = true from rfl), spec_div h _ hc, Dv_congr h.hnx e hc,
    Dv_sum, ← mul_neg, ← Finset.sum_neg_distrib]
  congr 1
  refine Finset.sum_congr rfl fun j hj => ?_
  rw [Mn_E h.hnx x hc (by positivity) (by have := Finset.mem_range.1 hj; omega)]
  ring

/-- The tracer tendency, side by side. -/
theorem tracer_nbrs (h : Geo2 p.nx p.ny p.dims.nlayers dc m.mesh) (hcn : ConnOK p.dims m)
    {prm : Params ℝ} (h4 : prm.eddy_diff4 ≤ 0) (x u s : Int → ℝ) {k : Int} (k0 : 0 ≤ k)
    (k1 : k < p.dims.nlayers) {c : Int} (hc : IsCell p.nx p.ny c) :
    Spec.tracerTend m (SWModel.ofParams prm) x u s c = 2 / (3 * dc) * ∑ j ∈ Finset.range 6,
      (x c + x (across p.nx p.ny c j)) / 2 *
        ((max prm.eddy_diff2 0 / dc - outSg j * u (E p.nx p.ny c j) / 2) *
            (s (across p.nx p.ny c j) / x (across p.nx p.ny c j)) -
          (max prm.eddy_diff2 0 / dc + outSg j * u (E p.nx p.ny c j) / 2) * (s c / x c)) := by
  have hd := h.dc_pos
  have e1 : EqOn (3 * (p.nx * p.ny)) (fun e => Spec.mean m x e * Spec.mean m (fun i => s i / x i) e * u e)
      (fun e => Mn p.nx p.ny x e * Mn p.nx p.ny (fun i => s i / x i) e * u e) := fun e a b => by
    show Spec.mean m x e * Spec.mean m _ e * u e = _
    rw [spec_mean h.toGeo x a b, spec_mean h.toGeo _ a b]
  have e2 : Spec.div m (fun e => m.real .mesh_scaling_del2 0 e 0 * Spec.mean m x e *
      Spec.grad m (fun i => s i / x i) e) c =
      Spec.div m (fun e => Spec.mean m x e * Spec.grad m (fun i => s i / x i) e) c :=
    div_congr hcn (fun e a b => by rw [(mask_one h.toGeo a b k0 k1).2.1, one_mul]) hc.1 hc.2
  have f4 : ¬ (SWModel.ofParams prm).en_thyper = true := by
    show ¬ Scalar.lt (lit 0) prm.eddy_diff4 = true
    simp [Scalar.lt, lit, h4]
  have f2 : (if (SWModel.ofParams prm).en_tdiff then (SWModel.ofParams prm).prm.eddy_diff2 *
      Spec.div m (fun e => Spec.mean m x e * Spec.grad m (fun i => s i / x i) e) c else 0) =
      max prm.eddy_diff2 0 * Spec.div m (fun e => Spec.mean m x e * Spec.grad m (fun i => s i / x i) e) c := by
    have i : (SWModel.ofParams prm).en_tdiff = decide (0 < prm.eddy_diff2) := by
      show Scalar.lt (lit 0) prm.eddy_diff2 = _
      simp [Scalar.lt, lit]
    rw [i]
    by_cases g : 0 < prm.eddy_diff2
    · rw [if_pos (by simpa using g), max_eq_left g.le]; rfl
    · rw [if_neg (by simpa using g), max_eq_right (not_lt.1 g), zero_mul]
  unfold Spec.tracerTend
  rw [e2, f2, if_neg f4, if_pos (show (SWModel.ofParams prm).en_thadv = true from rfl), diff_nbrs h x _ hc,
    spec_div h _ hc, Dv_congr h.hnx e1 hc, Dv_sum, sub_zero, ← mul_neg, ← Finset.sum_neg_distrib,
    Finset.mul_sum, Finset.mul_sum, Finset.mul_sum, Finset.mul_sum, ← Finset.sum_add_distrib]
  refine Finset.sum_congr rfl fun j hj => ?_
  have j6 : (j : Int) < 6 := by have := Finset.mem_range.1 hj; omega
  rw [Mn_E h.hnx x hc (by positivity) j6, Mn_E h.hnx _ hc (by positivity) j6]
  field_simp
  ring

/-- One step of the one-stage stepper. -/
theorem euler_val (hv : RunValid p) {prm : Params ℝ} (hr : Ready p dc prm m) {t dt : ℝ} {split : Bool}
    {m1 : Mem ℝ} (he : Exec p.dims ((Stepper.lsrk 1).ctor p.dims ++ (Stepper.lsrk 1).run p.dims
      ⟨defaultKernels p.dims.vl, split⟩ (SWModel.ofParams prm) [(t, dt)]) m m1) {k : Int} (k0 : 0 ≤ k)
    (k1 : k < p.dims.nlayers) {c : Int} (hc : IsCell p.nx p.ny c) :
    (m1.real (.h_cell .state) 0 c k = m.real (.h_cell .state) 0 c k + if prm.disable_h = true then 0 else
      dt * Spec.thicknessTend m (SWModel.ofParams prm) (fun i => m.real (.h_cell .state) 0 i k)
        (fun i => m.real (.vn_edge .state) 0 i k) c) ∧
    ∀ l, 0 ≤ l → l < p.dims.ntracers → m1.real (.tr_cell .state) l c k = m.real (.tr_cell .state) l c k +
      dt * Spec.tracerTend m (SWModel.ofParams prm) (fun i => m.real (.h_cell .state) 0 i k)
        (fun i => m.real (.vn_edge .state) 0 i k) (fun i => m.real (.tr_cell .state) l i k) c := by
  obtain ⟨hd, hcn⟩ := ready_ok hv hr
  obtain ⟨-, -, v⟩ := (genSetup hd hcn (hookOK_noHook (noHook_ofParams prm) p.dims m)).newRun he
  obtain ⟨t1, -, t3⟩ := tend_val (m := m) p.dims (SWModel.ofParams prm) .increment t
    (zeroFld.map fun v => v * 0) (m.fld .state)
  have hrun : (genSys p.dims (SWModel.ofParams prm) noHook m).run (.lsrk 1) [(t, dt)] (zeroFld, m.fld .state) =
      ((genSys p.dims (SWModel.ofParams prm) noHook m).tend .increment t (zeroFld.map fun v => v * 0)
        (m.fld .state), (m.fld .state).axpy dt
        ((genSys p.dims (SWModel.ofParams prm) noHook m).tend .increment t (zeroFld.map fun v => v * 0)
          (m.fld .state))) := by
    simp [Sys.run, Sys.step, Sys.lsrkStep, Sys.lsrkStage, lsrkCoef, nth]
  rw [hrun] at v
  refine ⟨(v.h c k hc.1 hc.2 k0 k1).trans ?_, fun l l0 l1 => (v.tr l c k l0 l1 hc.1 hc.2 k0 k1).trans ?_⟩
  · show (m.fld .state).h c k + dt * _ = _
    rw [t1]
    have : (SWModel.ofParams prm).prm.disable_h = prm.disable_h := rfl
    rw [this]
    split_ifs <;> simp [zeroFld, Fld.map] <;> rfl
  · show (m.fld .state).tr l c k + dt * _ = _
    rw [t3]
    simp [zeroFld, Fld.map]
    rfl

/-! ### C92: tracers -/

/-- A one-stage step of the full model keeps concentrations within their bounds when the cell Peclet
number `|v| dc / κ` is at most two on every edge and the step is short enough. -/
theorem C92_tracer_bounds (hv : RunValid p) (hx : 2 ≤ p.nx) (hy : 2 ≤ p.ny) (hdc : 0 < dc)
    {prm : Params ℝ} (hr : Ready p dc prm m) (hh : prm.disable_h = false) (h4 : prm.eddy_diff4 ≤ 0)
    {k : Int} (k0 : 0 ≤ k) (k1 : k < p.dims.nlayers) {V hlo hhi t dt : ℝ}
    (hu : ∀ e, 0 ≤ e → e < p.dims.nedges → |m.real (.vn_edge .state) 0 e k| ≤ V)
    (hP : V * dc ≤ 2 * prm.eddy_diff2) (hl : 0 < hlo)
    (hb : ∀ c, 0 ≤ c → c < p.dims.ncells →
      hlo ≤ m.real (.h_cell .state) 0 c k ∧ m.real (.h_cell .state) 0 c k ≤ hhi)
    (hdt : 0 ≤ dt) (hcfl : 4 * dt * hhi * (prm.eddy_diff2 + V * dc / 2) ≤ hlo * dc ^ 2) {split : Bool}
    {m1 : Mem ℝ} (he : Exec p.dims ((Stepper.lsrk 1).ctor p.dims ++ (Stepper.lsrk 1).run p.dims
      ⟨defaultKernels p.dims.vl, split⟩ (SWModel.ofParams prm) [(t, dt)]) m m1)
    {l : Int} (l0 : 0 ≤ l) (l1 : l < p.dims.ntracers) {lo hi : ℝ}
    (hq : ∀ c, 0 ≤ c → c < p.dims.ncells →
      lo * m.real (.h_cell .state) 0 c k ≤ m.real (.tr_cell .state) l c k ∧
        m.real (.tr_cell .state) l c k ≤ hi * m.real (.h_cell .state) 0 c k) :
    ∀ c, 0 ≤ c → c < p.dims.ncells →
      0 ≤ m1.real (.h_cell .state) 0 c k ∧
      lo * m1.real (.h_cell .state) 0 c k ≤ m1.real (.tr_cell .state) l c k ∧
        m1.real (.tr_cell .state) l c k ≤ hi * m1.real (.h_cell .state) 0 c k := by
  obtain ⟨hd, hcn⟩ := ready_ok hv hr
  have g := Ready.geo2 hr hv.toValid hx hy hdc
  intro c c0 c1
  have hc : IsCell p.nx p.ny c := ⟨c0, c1⟩
  obtain ⟨a1, a2⟩ := euler_val hv hr he k0 k1 hc
  rw [if_neg (by simp [hh]), thick_nbrs g prm _ _ hc] at a1
  have a3 := a2 l l0 l1
  rw [tracer_nbrs g hcn h4 _ _ _ k0 k1 hc] at a3
  have κ0 : 0 ≤ prm.eddy_diff2 := by
    have : 0 ≤ V := (abs_nonneg _).trans (hu (E p.nx p.ny c 0)
      (E_range g.hnx hc 0 (by norm_num) (by norm_num)).1 (E_range g.hnx hc 0 (by norm_num) (by norm_num)).2)
    nlinarith
  rw [max_eq_left κ0] at a3
  set κ := prm.eddy_diff2 with hκ
  set x := fun i => m.real (.h_cell .state) 0 i k with hxd
  set u := fun i => m.real (.vn_edge .state) 0 i k with hud
  set s := fun i => m.real (.tr_cell .state) l i k with hsd
  set n : ℕ → Int := fun j => across p.nx p.ny c j with hn
  have nC : ∀ j : ℕ, IsCell p.nx p.ny (n j) := fun j => across_isCell g.hnx hc j
  have xpos : ∀ i, IsCell p.nx p.ny i → 0 < x i := fun i hi => hl.trans_le (hb i hi.1 hi.2).1
  set b : ℕ → ℝ := fun j => outSg j * u (E p.nx p.ny c j) with hbd
  have bV : ∀ j : ℕ, j < 6 → |b j| ≤ V := fun j hj => by
    have r := E_range g.hnx hc (j : Int) (by positivity) (by omega)
    rw [hbd]; simp only [abs_mul, outSg_abs, one_mul]
    exact hu _ r.1 r.2
  have V0 : 0 ≤ V := (abs_nonneg _).trans (bV 0 (by norm_num))
  -- weights
  set w : ℕ → ℝ := fun j => dt * (2 / (3 * dc)) * ((x c + x (n j)) / 2) * (κ / dc - b j / 2) with hw
  set w' : ℕ → ℝ := fun j => dt * (2 / (3 * dc)) * ((x c + x (n j)) / 2) * (κ / dc + b j / 2) with hw'
  have xm : ∀ j : ℕ, 0 < (x c + x (n j)) / 2 ∧ (x c + x (n j)) / 2 ≤ hhi := fun j => by
    have := xpos c hc; have := xpos _ (nC j)
    have := (hb c c0 c1).2; have := (hb _ (nC j).1 (nC j).2).2
    exact ⟨by linarith, by simp only [hxd]; linarith⟩
  have κV : V / 2 ≤ κ / dc := by rw [div_le_div_iff₀ (by norm_num) hdc]; linarith
  have w0 : ∀ j ∈ Finset.range 6, 0 ≤ w j := fun j hj => by
    have := abs_le.1 (bV j (Finset.mem_range.1 hj))
    have := (xm j).1
    have : 0 ≤ κ / dc - b j / 2 := by linarith
    rw [hw]; positivity
  have w1 : ∀ j ∈ Finset.range 6, w' j ≤ dt * (2 / (3 * dc)) * hhi * (κ / dc + V / 2) := fun j hj => by
    have := abs_le.1 (bV j (Finset.mem_range.1 hj))
    have h1 := (xm j).1
    rw [hw']
    have : 0 ≤ κ / dc + b j / 2 := by linarith
    have : 0 ≤ hhi := (xm j).1.le.trans (xm j).2
    apply mul_le_mul _ _ ‹_› (by positivity)
    · exact mul_le_mul_of_nonneg_left (xm j).2 (by positivity)
    · linarith
  have ws : ∑ j ∈ Finset.range 6, w' j ≤ x c := by
    have := Finset.sum_le_card_nsmul _ _ _ w1
    rw [Finset.card_range, nsmul_eq_mul] at this
    refine this.trans (le_trans ?_ (hb c c0 c1).1)
    have e : ((6 : ℕ) : ℝ) * (dt * (2 / (3 * dc)) * hhi * (κ / dc + V / 2)) =
        4 * dt * hhi * (κ + V * dc / 2) / dc ^ 2 := by
      push_cast; field_simp; ring
    rw [e, div_le_iff₀ (by positivity)]
    exact hcfl
  have E1 : m1.real (.h_cell .state) 0 c k = (x c - ∑ j ∈ Finset.range 6, w' j) +
      ∑ j ∈ Finset.range 6, w j := by
    rw [a1, sub_add, ← Finset.sum_sub_distrib, Finset.mul_sum, Finset.mul_sum, sub_eq_add_neg,
      ← Finset.sum_neg_distrib]
    congr 1
    refine Finset.sum_congr rfl fun j _ => ?_
    simp only [hw, hw', hbd, hn]; ring
  have E2 : m1.real (.tr_cell .state) l c k = (x c - ∑ j ∈ Finset.range 6, w' j) * (s c / x c) +
      ∑ j ∈ Finset.range 6, w j * (s (n j) / x (n j)) := by
    have e : s c = x c * (s c / x c) := by have := (xpos c hc).ne'; field_simp
    have e' : m1.real (.tr_cell .state) l c k = x c * (s c / x c) + (m1.real (.tr_cell .state) l c k - s c) := by
      rw [← e]; ring
    rw [e', a3, show ∀ y : ℝ, m.real (.tr_cell .state) l c k + y - s c = y from fun y => by simp only [hsd]; ring,
      sub_mul, sub_add, Finset.sum_mul, ← Finset.sum_sub_distrib, Finset.mul_sum, Finset.mul_sum,
      sub_eq_add_neg, ← Finset.sum_neg_distrib]
    congr 1
    refine Finset.sum_congr rfl fun j _ => ?_
    simp only [hw, hw', hbd, hn]; ring
  have q : ∀ i, IsCell p.nx p.ny i → lo ≤ s i / x i ∧ s i / x i ≤ hi := fun i hi => by
    have := hq i hi.1 hi.2
    exact ⟨by rw [le_div_iff₀ (xpos i hi)]; exact this.1, by rw [div_le_iff₀ (xpos i hi)]; exact this.2⟩
  have W0 : 0 ≤ x c - ∑ j ∈ Finset.range 6, w' j := by linarith
  have W1 : 0 ≤ ∑ j ∈ Finset.range 6, w j := Finset.sum_nonneg w0
  refine ⟨by rw [E1]; linarith, ?_, ?_⟩
  · rw [E1, E2, mul_add, Finset.mul_sum]
    refine add_le_add (by rw [mul_comm]; exact mul_le_mul_of_nonneg_left (q c hc).1 W0)
      (Finset.sum_le_sum fun j hj => ?_)
    rw [mul_comm]; exact mul_le_mul_of_nonneg_left (q _ (nC j)).1 (w0 j hj)
  · rw [E1, E2, mul_add, Finset.mul_sum]
    refine add_le_add (by rw [mul_comm hi]; exact mul_le_mul_of_nonneg_left (q c hc).2 W0)
      (Finset.sum_le_sum fun j hj => ?_)
    rw [mul_comm hi]; exact mul_le_mul_of_nonneg_left (q _ (nC j)).2 (w0 j hj)

/-! #### Different sides of a cell -/

theorem across_nb {nx ny : Int} (hnx : 1 ≤ nx) (hny : ny % 2 = 0) {c j : Int} (hc : IsCell nx ny c)
    (h0 : 0 ≤ j) (h6 : j < 6) : across nx ny c j = nb nx ny j c := by
  unfold across
  split_ifs with h
  · rw [inv_eq_nb hnx hny hc (by omega) (by omega)]
    congr 1; omega
  · rfl

theorem across_ne {nx ny : Int} (hnx : 2 ≤ nx) (hny : 2 ≤ ny) {c j : Int} (hc : IsCell nx ny c) :
    across nx ny c j ≠ c := by
  unfold across
  split_ifs
  · exact inv_ne hnx hny hc _
  · exact nb_ne hnx hny hc _

theorem across_inj {nx ny : Int} (hnx : 3 ≤ nx) (hny : 3 ≤ ny) (hev : ny % 2 = 0) {c i j : Int}
    (hc : IsCell nx ny c) (i0 : 0 ≤ i) (i6 : i < 6) (j0 : 0 ≤ j) (j6 : j < 6)
    (h : across nx ny c i = across nx ny c j) : i = j := by
  rw [across_nb (by omega) hev hc i0 i6, across_nb (by omega) hev hc j0 j6] at h
  obtain ⟨a, r, h0, h1, h2, h3, rfl⟩ := exists_coords (by omega) hc
  rw [nb_cid h0 h1, nb_cid h0 h1] at h
  have hI := nbI_range (nx := nx) (j := i) (r := r) h0 h1
  have hJ := nbI_range (nx := nx) (j := j) (r := r) h0 h1
  obtain ⟨e1, e2⟩ := cid_inj hI.1 hI.2 hJ.1 hJ.2 h
  have hi : i = 0 ∨ i = 1 ∨ i = 2 ∨ i = 3 ∨ i = 4 ∨ i = 5 := by omega
  have hj : j = 0 ∨ j = 1 ∨ j = 2 ∨ j = 3 ∨ j = 4 ∨ j = 5 := by omega
  rcases hi with rfl | rfl | rfl | rfl | rfl | rfl <;>
    rcases hj with rfl | rfl | rfl | rfl | rfl | rfl <;>
    first
    | rfl
    | (exfalso
       simp only [nbI, nbR, mx, px] at e1 e2
       norm_num at e1 e2
       split_ifs at e1 e2 <;> omega)

theorem E_inj {nx ny : Int} (hnx : 2 ≤ nx) (hny : 2 ≤ ny) {c i j : Int} (hc : IsCell nx ny c)
    (i0 : 0 ≤ i) (i6 : i < 6) (j0 : 0 ≤ j) (j6 : j < 6) (h : E nx ny c i = E nx ny c j) : i = j := by
  have n1 := nb_ne hnx hny hc i
  have n2 := nb_ne hnx hny hc j
  revert h
  unfold E
  split_ifs with a b b
  · omega
  · intro h; exfalso; apply n2; omega
  · intro h; exfalso; apply n1; omega
  · intro h
    omega

/-- the cell out of which an edge leads, for either direction of the flow -/
theorem out_side {nx ny : Int} (hnx : 1 ≤ nx) {e : Int} (e0 : 0 ≤ e) (e1 : e < 3 * (nx * ny)) {v : ℝ}
    (hv : v ≠ 0) : ∃ c, ∃ j : ℕ, IsCell nx ny c ∧ j < 6 ∧ E nx ny c j = e ∧ outSg j * v = |v| := by
  have ha : IsCell nx ny (e / 3) := ⟨by omega, by omega⟩
  obtain ⟨r, hr⟩ : ∃ r : ℕ, (r : Int) = e % 3 := ⟨(e % 3).toNat, by omega⟩
  rcases lt_or_gt_of_ne hv with h | h
  · refine ⟨e / 3, r, ha, by omega, ?_, ?_⟩
    · unfold E; rw [if_pos (by omega)]; omega
    · unfold outSg; rw [if_pos (by omega), abs_of_neg h]; ring
  · refine ⟨inv nx ny (e % 3 + 3) (e / 3), r + 3, inv_isCell hnx ha, by omega, ?_, ?_⟩
    · unfold E
      rw [if_neg (by push_cast; omega), show ((r + 3 : ℕ) : Int) = e % 3 + 3 by push_cast; omega, nb_inv hnx ha]
      omega
    · unfold outSg; rw [if_neg (by omega), abs_of_pos h]; ring

/-- Whatever the step: if the cell Peclet number is above two on some edge then some tracer with
concentrations between zero and one becomes negative in a one-stage step of the full model. -/
theorem C92_undershoot (hv : RunValid p) (hx : 3 ≤ p.nx) (hy : 3 ≤ p.ny) (hev : p.ny % 2 = 0)
    (hdc : 0 < dc) {prm : Params ℝ} (hr : Ready p dc prm m) (h4 : prm.eddy_diff4 ≤ 0) {k : Int}
    (k0 : 0 ≤ k) (k1 : k < p.dims.nlayers)
    (hw : ∀ c, 0 ≤ c → c < p.dims.ncells → 0 < m.real (.h_cell .state) 0 c k) {e : Int} (e0 : 0 ≤ e)
    (e1 : e < p.dims.nedges) (hP : 2 * max prm.eddy_diff2 0 < |m.real (.vn_edge .state) 0 e k| * dc)
    {l : Int} (l0 : 0 ≤ l) (l1 : l < p.dims.ntracers) (t : ℝ) {dt : ℝ} (hdt : 0 < dt) (split : Bool) :
    ∃ m' m1 : Mem ℝ, Ready p dc prm m' ∧
      (∀ c, m'.real (.h_cell .state) 0 c k = m.real (.h_cell .state) 0 c k) ∧
      (∀ e, m'.real (.vn_edge .state) 0 e k = m.real (.vn_edge .state) 0 e k) ∧
      (∀ c, 0 ≤ c → c < p.dims.ncells → 0 ≤ m'.real (.tr_cell .state) l c k ∧
        m'.real (.tr_cell .state) l c k ≤ m'.real (.h_cell .state) 0 c k) ∧
      Exec p.dims ((Stepper.lsrk 1).ctor p.dims ++ (Stepper.lsrk 1).run p.dims
        ⟨defaultKernels p.dims.vl, split⟩ (SWModel.ofParams prm) [(t, dt)]) m' m1 ∧
      ∃ c, 0 ≤ c ∧ c < p.dims.ncells ∧ m1.real (.tr_cell .state) l c k < 0 := by
  have v0 : m.real (.vn_edge .state) 0 e k ≠ 0 := by
    intro h
    rw [h, abs_zero, zero_mul] at hP
    linarith [le_max_right prm.eddy_diff2 0]
  obtain ⟨c, j, hc, j6, hE, hs⟩ := out_side (nx := p.nx) (ny := p.ny) (by omega) e0 e1 v0
  set n := across p.nx p.ny c j with hn
  have hnC : IsCell p.nx p.ny n := across_isCell (by omega) hc j
  obtain ⟨m', hr', hst, -⟩ := exists_ready hv.toValid dc prm
    ⟨(m.fld .state).h, (m.fld .state).vn, fun _ i k => if i = n then (m.fld .state).h i k else 0⟩ zeroFld
  have H : ∀ c k, m'.real (.h_cell .state) 0 c k = m.real (.h_cell .state) 0 c k := fun c k =>
    congrFun (congrFun (congrArg Fld.h hst) c) k
  have U : ∀ c k, m'.real (.vn_edge .state) 0 c k = m.real (.vn_edge .state) 0 c k := fun c k =>
    congrFun (congrFun (congrArg Fld.vn hst) c) k
  have T : ∀ c k, m'.real (.tr_cell .state) l c k = if c = n then m.real (.h_cell .state) 0 c k else 0 :=
    fun c k => congrFun (congrFun (congrFun (congrArg Fld.tr hst) l) c) k
  obtain ⟨m1, he⟩ := run_exists hv hr' (.lsrk 1) [(t, dt)] split
  refine ⟨m', m1, hr', fun c => H c k, fun e => U e k, fun i i0 i1 => ?_, he, c, hc.1, hc.2, ?_⟩
  · rw [T, H]
    have := hw i i0 i1
    split_ifs
    · exact ⟨this.le, le_rfl⟩
    · exact ⟨le_rfl, this.le⟩
  · obtain ⟨hd, hcn⟩ := ready_ok hv hr'
    have g := Ready.geo2 hr' hv.toValid (by omega) (by omega) hdc
    rw [(euler_val hv hr' he k0 k1 hc).2 l l0 l1, tracer_nbrs g hcn h4 _ _ _ k0 k1 hc]
    have cn : c ≠ n := fun h => across_ne (by omega) (by omega) hc (j := j) h.symm
    have z : m'.real (.tr_cell .state) l c k = 0 := by rw [T, if_neg cn]
    rw [Finset.sum_eq_single j]
    · beta_reduce
      rw [z, ← hn, T n k, if_pos rfl, hE, U, H, H, hs]
      have a := hw c hc.1 hc.2
      have b := hw n hnC.1 hnC.2
      have q : max prm.eddy_diff2 0 / dc - |m.real (.vn_edge .state) 0 e k| / 2 < 0 := by
        rw [sub_neg, div_lt_div_iff₀ hdc (by norm_num)]; linarith
      have : 0 < dt * (2 / (3 * dc)) * ((m.real (.h_cell .state) 0 c k + m.real (.h_cell .state) 0 n k) / 2) := by
        positivity
      rw [div_self b.ne', zero_div, mul_zero, sub_zero, mul_one, zero_add]
      nlinarith
    · intro i hi hne
      have : across p.nx p.ny c i ≠ n := fun h => hne (by
        have := across_inj hx hy hev hc (by positivity) (by have := Finset.mem_range.1 hi; omega)
          (by positivity) (by omega) h
        exact_mod_cast this)
      beta_reduce
      rw [z, T, if_neg this]
      simp
    · intro h; exact absurd (Finset.mem_range.2 j6) h

/-! #### Prescribed flow, fourth-order steppers -/

/-- flow across one edge only -/
def oneEdge (p : MeshParams) (V : ℝ) (e : Int) : ℝ := if e = E p.nx p.ny 0 3 then V else 0

theorem oneEdge_op (h : Geo2 p.nx p.ny p.dims.nlayers dc m.mesh) (hcn : ConnOK p.dims m) (hx : 2 ≤ p.nx)
    (hy : 2 ≤ p.ny) {prm : Params ℝ} (h2 : prm.eddy_diff2 ≤ 0) (h4 : prm.eddy_diff4 ≤ 0) {k : Int}
    (k0 : 0 ≤ k) (k1 : k < p.dims.nlayers) (V : ℝ) (f : Int → ℝ) {c : Int} (hc : IsCell p.nx p.ny c) :
    trOp m (SWModel.ofParams prm) (fun _ => 1) (oneEdge p V) f c =
      (if c = 0 then -(V / (3 * dc) * (f 0 + f (nb p.nx p.ny 3 0))) else 0) +
        if c = nb p.nx p.ny 3 0 then V / (3 * dc) * (f 0 + f (nb p.nx p.ny 3 0)) else 0 := by
  have hd := h.dc_pos
  have c00 : IsCell p.nx p.ny 0 := ⟨le_rfl, by nlinarith⟩
  have ne := nb_ne hx hy c00 3
  show Spec.tracerTend m _ _ _ _ c = _
  rw [tracer_nbrs h hcn h4 _ _ _ k0 k1 hc, max_eq_right h2]
  have e0 : E p.nx p.ny 0 3 = 3 * nb p.nx p.ny 3 0 := by unfold E; norm_num
  by_cases h0 : c = 0
  · subst h0
    rw [if_pos rfl, if_neg ne.symm, Finset.sum_eq_single 3]
    · have : across p.nx p.ny 0 ((3 : ℕ) : Int) = nb p.nx p.ny 3 0 := by unfold across; norm_num
      rw [this, oneEdge, if_pos (by norm_num)]
      unfold outSg; norm_num; field_simp; ring
    · intro j hj hne
      rw [oneEdge, if_neg]
      · simp
      · intro h
        have := E_inj hx hy hc (by positivity) (by have := Finset.mem_range.1 hj; omega) (by norm_num)
          (by norm_num) h
        omega
    · intro h; simp at h
  · rw [if_neg h0]
    by_cases h1 : c = nb p.nx p.ny 3 0
    · rw [if_pos h1, Finset.sum_eq_single 0]
      · have : across p.nx p.ny c ((0 : ℕ) : Int) = 0 := by
          unfold across; norm_num; rw [h1, inv_nb (by omega) c00]
        have e1 : E p.nx p.ny c ((0 : ℕ) : Int) = E p.nx p.ny 0 3 := by
          rw [e0, h1]; unfold E; norm_num
        rw [this, oneEdge, if_pos e1, ← h1]
        unfold outSg; norm_num; field_simp; ring
      · intro j hj hne
        rw [oneEdge, if_neg]
        · simp
        · intro h
          have e1 : E p.nx p.ny c 0 = E p.nx p.ny 0 3 := by
            rw [e0, h1]; unfold E; norm_num
          rw [← e1] at h
          have := E_inj hx hy hc (by positivity) (by have := Finset.mem_range.1 hj; omega) (by norm_num)
            (by norm_num) h
          omega
      · intro h; simp at h
    · rw [if_neg h1, Finset.sum_eq_zero, mul_zero, add_zero]
      intro j hj
      rw [oneEdge, if_neg]
      · simp
      · rw [e0]
        intro h
        have j6 := Finset.mem_range.1 hj
        rcases lt_or_ge (j : Int) 3 with g | g
        · have := E_div_lo (nx := p.nx) (ny := p.ny) (c := c) (j := j) (by positivity) g
          rw [h] at this; apply h1; omega
        · have := E_div_hi (nx := p.nx) (ny := p.ny) (c := c) (j := j) g (by omega)
          have mm := E_mod (nx := p.nx) (ny := p.ny) (c := c) (j := j) (by positivity) (by omega)
          rw [h] at this mm
          have j3 : (j : Int) = 3 := by omega
          rw [j3] at this
          have i1 := inv_nb (ny := p.ny) (j := 3) (by omega) hc
          have i2 := inv_nb (ny := p.ny) (j := 3) (by omega) c00
          apply h0
          rw [← i1, ← i2, ← this]
          congr 1; omega

/-- Higher order in time does not help: with prescribed flow and thickness and no diffusion, for every
step and every speed there is an initial tracer with concentrations between zero and one which the
fourth-order steppers make negative in one step. -/
theorem C92_undershoot_fourth_order (hv : RunValid p) (hx : 2 ≤ p.nx) (hy : 2 ≤ p.ny) (hdc : 0 < dc)
    {prm : Params ℝ} (hh : prm.disable_h = true) (hvn : prm.disable_vn = true) (h2 : prm.eddy_diff2 ≤ 0)
    (h4 : prm.eddy_diff4 ≤ 0) {k : Int} (k0 : 0 ≤ k) (k1 : k < p.dims.nlayers) {l : Int} (l0 : 0 ≤ l)
    (l1 : l < p.dims.ntracers) {V dt : ℝ} (hV : 0 < V) (hdt : 0 < dt) (t : ℝ) {stp : Stepper}
    (hs : FourthOrder stp) (split : Bool) :
    ∃ m m1 : Mem ℝ, Ready p dc prm m ∧
      (∀ c, m.real (.h_cell .state) 0 c k = 1) ∧ (∀ e, |m.real (.vn_edge .state) 0 e k| ≤ V) ∧
      (∀ c, 0 ≤ m.real (.tr_cell .state) l c k ∧ m.real (.tr_cell .state) l c k ≤ 1) ∧
      Exec p.dims (stp.ctor p.dims ++ stp.run p.dims ⟨defaultKernels p.dims.vl, split⟩
        (SWModel.ofParams prm) [(t, dt)]) m m1 ∧
      ∃ c, 0 ≤ c ∧ c < p.dims.ncells ∧ m1.real (.tr_cell .state) l c k < 0 := by
  have c00 : IsCell p.nx p.ny 0 := ⟨le_rfl, by nlinarith⟩
  have ne := nb_ne hx hy c00 3
  have nC := nb_isCell (j := 3) (by omega : 1 ≤ p.nx) c00
  obtain ⟨m, hr, hst, -⟩ := exists_ready hv.toValid dc prm
    ⟨fun _ _ => 1, fun e _ => oneEdge p V e, fun _ i _ => if i = nb p.nx p.ny 3 0 then 1 else 0⟩ zeroFld
  have H : (fun i => m.real (.h_cell .state) 0 i k) = fun _ => 1 := funext fun c =>
    congrFun (congrFun (congrArg Fld.h hst) c) k
  have U : (fun i => m.real (.vn_edge .state) 0 i k) = oneEdge p V := funext fun c =>
    congrFun (congrFun (congrArg Fld.vn hst) c) k
  have T : (fun i => m.real (.tr_cell .state) l i k) = fun i => if i = nb p.nx p.ny 3 0 then 1 else 0 :=
    funext fun c => congrFun (congrFun (congrFun (congrArg Fld.tr hst) l) c) k
  obtain ⟨m1, he⟩ := run_exists hv hr stp [(t, dt)] split
  refine ⟨m, m1, hr, fun c => congrFun H c, fun e => ?_, fun c => ?_, he, 0, c00.1, c00.2, ?_⟩
  · rw [congrFun U e]
    unfold oneEdge
    split_ifs
    · rw [abs_of_pos hV]
    · simpa using hV.le
  · rw [congrFun T c]
    beta_reduce
    split_ifs <;> norm_num
  · obtain ⟨hd, hcn⟩ := ready_ok hv hr
    have g := Ready.geo2 hr hv.toValid hx hy hdc
    obtain ⟨-, -, r⟩ := frozen_exec (sw := SWModel.ofParams prm) hh hvn hd hcn (noHook_ofParams prm) he
    obtain ⟨d1, d2, d3, d4, d5, hco, hst⟩ := fourth_order hs
    rw [r l 0 k l0 l1 c00.1 c00.2 k0 k1, H, U, T]
    simp only [List.foldl_cons, List.foldl_nil]
    rw [hst]
    have op := fun f {c} (hc : IsCell p.nx p.ny c) => oneEdge_op g hcn hx hy h2 h4 k0 k1 V f hc
    have sq : ∀ f, (dt • trOp m (SWModel.ofParams prm) (fun _ => 1) (oneEdge p V))
        ((dt • trOp m (SWModel.ofParams prm) (fun _ => 1) (oneEdge p V)) f) 0 = 0 := fun f => by
      rw [LinearMap.smul_apply, LinearMap.smul_apply, Pi.smul_apply, op _ c00, Pi.smul_apply, Pi.smul_apply,
        op f c00, op f nC, if_pos rfl, if_pos rfl, if_neg ne, if_neg ne.symm, if_neg ne.symm]
      simp
    unfold Lax.stab
    simp only [Pi.add_apply, Pi.smul_apply, sq, smul_zero, add_zero]
    rw [LinearMap.smul_apply, Pi.smul_apply, op _ c00, if_pos rfl, if_neg ne.symm, if_neg ne.symm, if_pos rfl]
    have c1 := abs_le.1 hco.c1
    have k1 := hco.k1
    have : 0 < d1 := by norm_num at k1; linarith [c1.1]
    have : 0 < d1 * (dt * (V / (3 * dc))) := by positivity
    simp only [smul_eq_mul]
    nlinarith

/-! ### C93: thickness -/

/-- A one-stage step with Courant number `4 |dt| V / dc ≤ r` changes the thickness by at most `r` times the
largest one; in particular the layer stays wet when `r hhi < hlo`. -/
theorem C93_stays_wet (hv : RunValid p) (hx : 2 ≤ p.nx) (hy : 2 ≤ p.ny) (hdc : 0 < dc)
    {prm : Params ℝ} (hr : Ready p dc prm m) {k : Int} (k0 : 0 ≤ k) (k1 : k < p.dims.nlayers)
    {V hlo hhi t dt : ℝ}
    (hu : ∀ e, 0 ≤ e → e < p.dims.nedges → |m.real (.vn_edge .state) 0 e k| ≤ V) (hl : 0 < hlo)
    (hb : ∀ c, 0 ≤ c → c < p.dims.ncells →
      hlo ≤ m.real (.h_cell .state) 0 c k ∧ m.real (.h_cell .state) 0 c k ≤ hhi) {r : ℝ}
    (hcfl : 4 * |dt| * V ≤ r * dc) {split : Bool}
    {m1 : Mem ℝ} (he : Exec p.dims ((Stepper.lsrk 1).ctor p.dims ++ (Stepper.lsrk 1).run p.dims
      ⟨defaultKernels p.dims.vl, split⟩ (SWModel.ofParams prm) [(t, dt)]) m m1) :
    ∀ c, 0 ≤ c → c < p.dims.ncells →
      hlo - r * hhi ≤ m1.real (.h_cell .state) 0 c k ∧ m1.real (.h_cell .state) 0 c k ≤ (1 + r) * hhi := by
  have g := Ready.geo2 hr hv.toValid hx hy hdc
  intro c c0 c1
  have hc : IsCell p.nx p.ny c := ⟨c0, c1⟩
  have a1 := (euler_val hv hr he k0 k1 hc).1
  have bV : ∀ j : ℕ, j < 6 → |outSg j * m.real (.vn_edge .state) 0 (E p.nx p.ny c j) k| ≤ V := fun j hj => by
    have r := E_range g.hnx hc (j : Int) (by positivity) (by omega)
    rw [abs_mul, outSg_abs, one_mul]
    exact hu _ r.1 r.2
  have V0 : 0 ≤ V := (abs_nonneg _).trans (bV 0 (by norm_num))
  have r0 : 0 ≤ r := by
    have : 0 ≤ r * dc := le_trans (by positivity) hcfl
    exact nonneg_of_mul_nonneg_left this hdc
  have xb := hb c c0 c1
  have hh0 : 0 ≤ hhi := hl.le.trans (xb.1.trans xb.2)
  by_cases hdis : prm.disable_h = true
  · rw [a1, if_pos hdis, add_zero]
    constructor <;> nlinarith
  · rw [if_neg hdis, thick_nbrs g prm _ _ hc] at a1
    have b : |dt * (2 / (3 * dc) * ∑ j ∈ Finset.range 6,
        (m.real (.h_cell .state) 0 c k + m.real (.h_cell .state) 0 (across p.nx p.ny c j) k) / 2 *
          -(outSg j * m.real (.vn_edge .state) 0 (E p.nx p.ny c j) k))| ≤ r * hhi := by
      rw [abs_mul, abs_mul, abs_of_pos (by positivity : (0 : ℝ) < 2 / (3 * dc))]
      have s : |∑ j ∈ Finset.range 6,
          (m.real (.h_cell .state) 0 c k + m.real (.h_cell .state) 0 (across p.nx p.ny c j) k) / 2 *
          -(outSg j * m.real (.vn_edge .state) 0 (E p.nx p.ny c j) k)| ≤ 6 * (hhi * V) := by
        refine (Finset.abs_sum_le_sum_abs _ _).trans ?_
        have := Finset.sum_le_card_nsmul (Finset.range 6) (fun j : ℕ => |(m.real (.h_cell .state) 0 c k +
          m.real (.h_cell .state) 0 (across p.nx p.ny c j) k) / 2 *
          -(outSg j * m.real (.vn_edge .state) 0 (E p.nx p.ny c j) k)|) (hhi * V) fun j hj => by
            have nC : IsCell p.nx p.ny (across p.nx p.ny c j) := across_isCell g.hnx hc j
            have nb := hb _ nC.1 nC.2
            rw [abs_mul, abs_neg]
            refine mul_le_mul ?_ (bV j (Finset.mem_range.1 hj)) (abs_nonneg _) hh0
            rw [abs_of_nonneg (by linarith)]
            linarith
        rw [Finset.card_range, nsmul_eq_mul] at this
        exact_mod_cast this
      calc |dt| * (2 / (3 * dc) * _) ≤ |dt| * (2 / (3 * dc) * (6 * (hhi * V))) := by gcongr
        _ = (4 * |dt| * V) * hhi / dc := by field_simp; ring
        _ ≤ (r * dc) * hhi / dc := by gcongr
        _ = r * hhi := by field_simp
    have b' := abs_le.1 b
    rw [a1]
    constructor <;> nlinarith

/-- No bound on speed, depth and step size alone keeps the layer wet: for all of them there is a wet
initial state whose thickness is negative somewhere after one one-stage step. -/
theorem C93_may_dry (hv : RunValid p) (hx : 2 ≤ p.nx) (hy : 2 ≤ p.ny) (hdc : 0 < dc)
    {prm : Params ℝ} (hh : prm.disable_h = false) {k : Int} (k0 : 0 ≤ k) (k1 : k < p.dims.nlayers)
    {V H dt : ℝ} (hV : 0 < V) (hH : 0 < H) (hdt : 0 < dt) (t : ℝ) (split : Bool) :
    ∃ m m1 : Mem ℝ, Ready p dc prm m ∧
      (∀ c, 0 < m.real (.h_cell .state) 0 c k ∧ m.real (.h_cell .state) 0 c k ≤ H) ∧
      (∀ e, |m.real (.vn_edge .state) 0 e k| ≤ V) ∧
      Exec p.dims ((Stepper.lsrk 1).ctor p.dims ++ (Stepper.lsrk 1).run p.dims
        ⟨defaultKernels p.dims.vl, split⟩ (SWModel.ofParams prm) [(t, dt)]) m m1 ∧
      ∃ c, 0 ≤ c ∧ c < p.dims.ncells ∧ m1.real (.h_cell .state) 0 c k < 0 := by
  have c00 : IsCell p.nx p.ny 0 := ⟨le_rfl, by nlinarith⟩
  have ne := nb_ne hx hy c00 3
  obtain ⟨ε, ε0, ε1, ε2⟩ : ∃ ε : ℝ, 0 < ε ∧ ε ≤ H ∧ ε < dt * V / (3 * dc) * H := by
    have : 0 < dt * V / (3 * dc) * H := by positivity
    exact ⟨min H (dt * V / (3 * dc) * H) / 2, by positivity, by linarith [min_le_left H (dt * V / (3 * dc) * H)],
      by linarith [min_le_right H (dt * V / (3 * dc) * H)]⟩
  obtain ⟨m, hr, hst, -⟩ := exists_ready hv.toValid dc prm
    ⟨fun i _ => if i = 0 then ε else H, fun e _ => oneEdge p V e, fun _ _ _ => 0⟩ zeroFld
  have X : (fun i => m.real (.h_cell .state) 0 i k) = fun i => if i = 0 then ε else H := funext fun c =>
    congrFun (congrFun (congrArg Fld.h hst) c) k
  have U : (fun i => m.real (.vn_edge .state) 0 i k) = oneEdge p V := funext fun c =>
    congrFun (congrFun (congrArg Fld.vn hst) c) k
  obtain ⟨m1, he⟩ := run_exists hv hr (.lsrk 1) [(t, dt)] split
  refine ⟨m, m1, hr, fun c => ?_, fun e => ?_, he, 0, c00.1, c00.2, ?_⟩
  · rw [congrFun X c]
    beta_reduce
    split_ifs
    · exact ⟨ε0, ε1⟩
    · exact ⟨hH, le_rfl⟩
  · rw [congrFun U e]
    unfold oneEdge
    split_ifs
    · rw [abs_of_pos hV]
    · simpa using hV.le
  · have g := Ready.geo2 hr hv.toValid hx hy hdc
    rw [(euler_val hv hr he k0 k1 c00).1, if_neg (by simp [hh]), X, U, congrFun X 0,
      thick_nbrs g prm _ _ c00, Finset.sum_eq_single 3]
    · have : across p.nx p.ny 0 ((3 : ℕ) : Int) = nb p.nx p.ny 3 0 := by unfold across; norm_num
      have e3 : E p.nx p.ny 0 ((3 : ℕ) : Int) = E p.nx p.ny 0 3 := by norm_num
      simp only [this, oneEdge, e3, if_true, if_neg ne]
      unfold outSg
      norm_num
      have e : dt * (2 / (3 * dc) * ((ε + H) / 2 * V)) = dt * V / (3 * dc) * (ε + H) := by field_simp
      rw [e]
      have : 0 < dt * V / (3 * dc) * ε := by positivity
      linarith
    · intro j hj hne
      have : oneEdge p V (E p.nx p.ny 0 j) = 0 := by
        rw [oneEdge, if_neg]
        intro h
        have := E_inj hx hy c00 (by positivity) (by have := Finset.mem_range.1 hj; omega) (by norm_num)
          (by norm_num) h
        omega
      rw [this]
      simp
    · intro h; simp at h

/-! ### Examples -/

theorem p46t_layers : 0 < p46t.dims.nlayers := by
  have hl : p46t.dims.nlayers = p46.dims.nlayers := rfl
  rw [hl, p46_layers]; norm_num

/-- Peclet number two: concentrations between 1 and 2 stay there. -/
example (f0 g : ℝ) (split : Bool) : ∃ m m1 : Mem ℝ, Ready p46t 1 ⟨f0, g, 0, 0, 1, 0, false, false⟩ m ∧
    (∀ e, m.real (.vn_edge .state) 0 e 0 = 2) ∧
    (∀ c, m.real (.tr_cell .state) 0 c 0 = if c = 3 then 2 else 1) ∧
    Exec p46t.dims ((Stepper.lsrk 1).ctor p46t.dims ++ (Stepper.lsrk 1).run p46t.dims
      ⟨defaultKernels p46t.dims.vl, split⟩ (SWModel.ofParams ⟨f0, g, 0, 0, 1, 0, false, false⟩)
      [(0, 1 / 8)]) m m1 ∧
    ∀ c, 0 ≤ c → c < p46t.dims.ncells →
      0 ≤ m1.real (.h_cell .state) 0 c 0 ∧
      1 * m1.real (.h_cell .state) 0 c 0 ≤ m1.real (.tr_cell .state) 0 c 0 ∧
        m1.real (.tr_cell .state) 0 c 0 ≤ 2 * m1.real (.h_cell .state) 0 c 0 := by
  obtain ⟨m, hr, hx, -⟩ := exists_ready p46t_run.toValid (1 : ℝ) ⟨f0, g, 0, 0, 1, 0, false, false⟩
    ⟨fun _ _ => 1, fun _ _ => 2, fun _ c _ => if c = 3 then 2 else 1⟩ zeroFld
  have H : ∀ c k, m.real (.h_cell .state) 0 c k = 1 := fun c k => congrFun (congrFun (congrArg Fld.h hx) c) k
  have U : ∀ c k, m.real (.vn_edge .state) 0 c k = 2 := fun c k => congrFun (congrFun (congrArg Fld.vn hx) c) k
  have T : ∀ c k, m.real (.tr_cell .state) 0 c k = if c = 3 then 2 else 1 := fun c k =>
    congrFun (congrFun (congrFun (congrArg Fld.tr hx) 0) c) k
  obtain ⟨m1, he⟩ := run_exists p46t_run hr (.lsrk 1) [(0, 1 / 8)] split
  refine ⟨m, m1, hr, fun e => U e 0, fun c => T c 0, he, ?_⟩
  refine C92_tracer_bounds p46t_run (by decide) (by decide) one_pos hr rfl le_rfl le_rfl p46t_layers (V := 2)
    (hlo := 1) (hhi := 1) (fun e _ _ => by rw [U]; norm_num) (by norm_num) one_pos
    (fun c _ _ => by rw [H]; exact ⟨le_rfl, le_rfl⟩) (by norm_num) (by norm_num) he le_rfl (by decide)
    fun c _ _ => ?_
  rw [H, T]
  split_ifs <;> norm_num

/-- Peclet number above two, any step. -/
example (f0 g : ℝ) (split : Bool) {dt : ℝ} (hdt : 0 < dt) : ∃ m m1 : Mem ℝ,
    Ready p46t 1 ⟨f0, g, 0, 0, 1, 0, false, false⟩ m ∧
    (∀ c, m.real (.h_cell .state) 0 c 0 = 1) ∧
    (∀ e, m.real (.vn_edge .state) 0 e 0 = if e = 5 then 201 / 100 else 0) ∧
    (∀ c, 0 ≤ c → c < p46t.dims.ncells → 0 ≤ m.real (.tr_cell .state) 0 c 0) ∧
    Exec p46t.dims ((Stepper.lsrk 1).ctor p46t.dims ++ (Stepper.lsrk 1).run p46t.dims
      ⟨defaultKernels p46t.dims.vl, split⟩ (SWModel.ofParams ⟨f0, g, 0, 0, 1, 0, false, false⟩)
      [(0, dt)]) m m1 ∧
    ∃ c, 0 ≤ c ∧ c < p46t.dims.ncells ∧ m1.real (.tr_cell .state) 0 c 0 < 0 := by
  obtain ⟨m, hr, hx, -⟩ := exists_ready p46t_run.toValid (1 : ℝ) ⟨f0, g, 0, 0, 1, 0, false, false⟩
    ⟨fun _ _ => 1, fun e _ => if e = 5 then 201 / 100 else 0, fun _ _ _ => 0⟩ zeroFld
  have H : ∀ c k, m.real (.h_cell .state) 0 c k = 1 := fun c k => congrFun (congrFun (congrArg Fld.h hx) c) k
  have U : ∀ c k, m.real (.vn_edge .state) 0 c k = if c = 5 then 201 / 100 else 0 := fun c k =>
    congrFun (congrFun (congrArg Fld.vn hx) c) k
  obtain ⟨m', m1, hr', h1, h2, h3, he, hc⟩ := C92_undershoot p46t_run (by decide) (by decide) (by decide)
    one_pos hr le_rfl le_rfl p46t_layers (fun c _ _ => by rw [H]; exact one_pos) (e := 5) (by decide)
    (by decide) (by rw [U, if_pos rfl]; norm_num) (l := 0) le_rfl (by decide) 0 hdt split
  exact ⟨m', m1, hr', fun c => by rw [h1, H], fun e => by rw [h2, U], fun c a b => (h3 c a b).1, he, hc⟩

/-- RK4 with the parameters of the advection test -/
example {dt : ℝ} (hdt : 0 < dt) := C92_undershoot_fourth_order (dc := 1) (prm := ⟨0, 1, 0, 0, 0, 0, true, true⟩)
  p46t_run (by decide) (by decide) one_pos rfl rfl le_rfl le_rfl le_rfl p46t_layers (l := 0) le_rfl (by decide)
  (V := 1) one_pos hdt 0 (stp := .rk4) (.inl rfl) false

/-- depths between 1 and 2 -/
example (f0 g : ℝ) (split : Bool) : ∃ m m1 : Mem ℝ, Ready p46t 1 ⟨f0, g, 0, 0, 0, 0, false, false⟩ m ∧
    Exec p46t.dims ((Stepper.lsrk 1).ctor p46t.dims ++ (Stepper.lsrk 1).run p46t.dims
      ⟨defaultKernels p46t.dims.vl, split⟩ (SWModel.ofParams ⟨f0, g, 0, 0, 0, 0, false, false⟩)
      [(0, 1 / 10)]) m m1 ∧
    ∀ c, 0 ≤ c → c < p46t.dims.ncells → 1 / 5 ≤ m1.real (.h_cell .state) 0 c 0 := by
  obtain ⟨m, hr, hx, -⟩ := exists_ready p46t_run.toValid (1 : ℝ) ⟨f0, g, 0, 0, 0, 0, false, false⟩
    ⟨fun c _ => if c = 3 then 2 else 1, fun e _ => if e = 4 then -1 else 1, fun _ _ _ => 1⟩ zeroFld
  have H : ∀ c k, m.real (.h_cell .state) 0 c k = if c = 3 then 2 else 1 := fun c k =>
    congrFun (congrFun (congrArg Fld.h hx) c) k
  have U : ∀ c k, m.real (.vn_edge .state) 0 c k = if c = 4 then -1 else 1 := fun c k =>
    congrFun (congrFun (congrArg Fld.vn hx) c) k
  obtain ⟨m1, he⟩ := run_exists p46t_run hr (.lsrk 1) [(0, 1 / 10)] split
  refine ⟨m, m1, hr, he, fun c c0 c1 => ?_⟩
  have := (C93_stays_wet p46t_run (by decide) (by decide) one_pos hr le_rfl p46t_layers (V := 1) (hlo := 1)
    (hhi := 2) (fun e _ _ => by rw [U]; split_ifs <;> norm_num) one_pos
    (fun c _ _ => by rw [H]; split_ifs <;> norm_num) (r := 2 / 5)
    (by rw [abs_of_pos (by norm_num)]; norm_num) he c c0 c1).1
  linarith

/-- any step on a mesh of four columns and six rows -/
example {dt : ℝ} (hdt : 0 < dt) := C93_may_dry (dc := 1) (prm := ⟨0, 1, 0, 0, 0, 0, false, false⟩)
  p46t_run (by decide) (by decide) one_pos rfl le_rfl p46t_layers (V := 1) (H := 1) one_pos one_pos hdt 0 false

end Props
end
end Omega
