import Verif.Lib.ButcherOrder
import Verif.Props.RungeKutta
import Verif.Props.AdvectionOp
import Verif.Props.Energy
import Mathlib.Analysis.Calculus.ContDiff.Operations
import Mathlib.Analysis.ODE.ExistUnique

/-!
# C80: the time stepping of the nonlinear model is fourth-order accurate

On every mesh, for every wet solution of the semi-discrete equations (the textbook tendency of `Spec`), a run
of either fourth-order stepper from the initial value of the solution stays within `K (dt⁴ + defect)` of it.
-/

set_option linter.unusedVariables false
set_option linter.unusedSectionVars false

namespace Omega
noncomputable section
namespace Props

open Prog Model Refine Hex Set
open scoped ContDiff

/-! ### States as vectors -/

/-- the entries of a state in range -/
abbrev Ix (d : Dims) : Type :=
  ({c // c ∈ Spec.cells d} × {k // k ∈ Spec.layers d}) ⊕
    (({e // e ∈ Spec.edges d} × {k // k ∈ Spec.layers d}) ⊕
      ({l // l ∈ Finset.Ico 0 d.ntracers} × {c // c ∈ Spec.cells d} × {k // k ∈ Spec.layers d}))

/-- the entries of a state in range, as a vector -/
def pack (d : Dims) (x : Fld ℝ) : Ix d → ℝ
  | .inl i => x.h i.1 i.2
  | .inr (.inl i) => x.vn i.1 i.2
  | .inr (.inr i) => x.tr i.1 i.2.1 i.2.2

/-- the state with given entries in range, of thickness one elsewhere -/
def unpack (d : Dims) (v : Ix d → ℝ) : Fld ℝ where
  h c k := if h : c ∈ Spec.cells d ∧ k ∈ Spec.layers d then v (.inl (⟨c, h.1⟩, ⟨k, h.2⟩)) else 1
  vn e k := if h : e ∈ Spec.edges d ∧ k ∈ Spec.layers d then v (.inr (.inl (⟨e, h.1⟩, ⟨k, h.2⟩))) else 0
  tr l c k := if h : l ∈ Finset.Ico 0 d.ntracers ∧ c ∈ Spec.cells d ∧ k ∈ Spec.layers d then
    v (.inr (.inr (⟨l, h.1⟩, ⟨c, h.2.1⟩, ⟨k, h.2.2⟩))) else 0

theorem unpack_pack (d : Dims) (x : Fld ℝ) : EqFld d (unpack d (pack d x)) x := by
  constructor
  · intro c k c0 c1 k0 k1
    simp [unpack, pack, c0, c1, k0, k1]
  · intro c k c0 c1 k0 k1
    simp [unpack, pack, c0, c1, k0, k1]
  · intro l c k l0 l1 c0 c1 k0 k1
    simp [unpack, pack, l0, l1, c0, c1, k0, k1]

theorem pack_unpack (d : Dims) (v : Ix d → ℝ) : pack d (unpack d v) = v := by
  funext i
  rcases i with i | i | i
  · simp only [pack, unpack]; rw [dif_pos ⟨i.1.2, i.2.2⟩]
  · simp only [pack, unpack]; rw [dif_pos ⟨i.1.2, i.2.2⟩]
  · simp only [pack, unpack]; rw [dif_pos ⟨i.1.2, i.2.1.2, i.2.2.2⟩]

theorem pack_congr {d : Dims} {x y : Fld ℝ} (h : EqFld d x y) : pack d x = pack d y := by
  funext i
  rcases i with ⟨⟨c, hc⟩, ⟨k, hk⟩⟩ | ⟨⟨c, hc⟩, ⟨k, hk⟩⟩ | ⟨⟨l, hl⟩, ⟨c, hc⟩, ⟨k, hk⟩⟩ <;>
    simp only [pack] <;> simp only [Spec.cells, Spec.edges, Spec.layers, Finset.mem_Ico] at hc hk
  · exact h.h c k hc.1 hc.2 hk.1 hk.2
  · exact h.vn c k hc.1 hc.2 hk.1 hk.2
  · simp only [Finset.mem_Ico] at hl
    exact h.tr l c k hl.1 hl.2 hc.1 hc.2 hk.1 hk.2

theorem pack_comb (d : Dims) (y : Fld ℝ) (w : ℕ → ℝ) (dt : ℝ) (k : ℕ → Fld ℝ) (n : ℕ) :
    pack d (comb y (fun j => dt * w j) k n) = pack d y + dt • ∑ j ∈ Finset.range n, w j • pack d (k j) := by
  funext i
  rcases i with i | i | i <;>
  · simp only [pack, comb, Pi.add_apply, Pi.smul_apply, Finset.sum_apply, smul_eq_mul, Finset.mul_sum, mul_assoc]

/-- the tendency of a state: the textbook formulas -/
def tendFld (m : Mem ℝ) (sw : SWModel ℝ) (x : Fld ℝ) : Fld ℝ where
  h c k := Spec.thicknessTend m sw (fun i => x.h i k) (fun i => x.vn i k) c
  vn e k := Spec.velocityTend m sw k (fun i => x.h i k) (fun i => x.vn i k) e
  tr l c k := Spec.tracerTend m sw (fun i => x.h i k) (fun i => x.vn i k) (fun i => x.tr l i k) c

theorem tend_textbook {d : Dims} {m : Mem ℝ} {sw : SWModel ℝ} (n1 : sw.prm.disable_h = false)
    (n2 : sw.prm.disable_vn = false) (t : ℝ) (o s : Fld ℝ) :
    (genSys d sw noHook m).tend .replace t o s = tendFld m sw s := by
  obtain ⟨a, b, c⟩ := tend_val (m := m) d sw .replace t o s
  have e1 : ((genSys d sw noHook m).tend .replace t o s).h = (tendFld m sw s).h := by
    funext i k; rw [a]; simp [n1, tendFld]
  have e2 : ((genSys d sw noHook m).tend .replace t o s).vn = (tendFld m sw s).vn := by
    funext i k; rw [b]; simp [n2, tendFld]
  have e3 : ((genSys d sw noHook m).tend .replace t o s).tr = (tendFld m sw s).tr := by
    funext l i k; rw [c]; simp [tendFld]
  generalize (genSys d sw noHook m).tend .replace t o s = x at *
  cases x
  simp only at e1 e2 e3
  subst e1 e2 e3
  rfl

/-- the tendency as a vector field -/
def vfield (d : Dims) (m : Mem ℝ) (sw : SWModel ℝ) (v : Ix d → ℝ) : Ix d → ℝ :=
  pack d (tendFld m sw (unpack d v))

theorem vfield_pack {d : Dims} {m : Mem ℝ} (hd : DimsOK d) (hc : ConnOK d m) {sw : SWModel ℝ}
    (hH : HookOK d sw noHook m) (n1 : sw.prm.disable_h = false) (n2 : sw.prm.disable_vn = false) (x : Fld ℝ) :
    vfield d m sw (pack d x) = pack d (tendFld m sw x) := by
  have hS := (genSetup hd hc hH).sys
  have := tend_local hS (unpack_pack d x) .replace 0 (EqFld.refl d zeroFld)
  rw [tend_textbook n1 n2, tend_textbook n1 n2] at this
  exact pack_congr this

/-! ### The steppers as Runge-Kutta methods on vectors -/

/-- a stepper performs the Runge-Kutta method with the given tableau -/
def HasTableau (stp : Stepper) (s : ℕ) (A : ℕ → ℕ → ℝ) (b : ℕ → ℝ) : Prop :=
  ∀ (d : Dims) (m : Mem ℝ) (sw : SWModel ℝ), sw.prm.disable_h = false → sw.prm.disable_vn = false →
    ∀ (t dt : ℝ) (o y : Fld ℝ), ∃ k : ℕ → Fld ℝ,
      (∀ i < s, k i = tendFld m sw (comb y (fun j => dt * A i j) k i)) ∧
      ((genSys d sw noHook m).step t dt (o, y) stp).2 = comb y (fun j => dt * b j) k s

theorem comb_congr {y : Fld ℝ} {w w' : ℕ → ℝ} {k k' : ℕ → Fld ℝ} {n : ℕ} (h : ∀ j < n, w j = w' j)
    (h' : ∀ j < n, k j = k' j) : comb y w k n = comb y w' k' n := by
  unfold comb
  congr 1
  · funext i l; congr 1
    exact Finset.sum_congr rfl fun j hj => by rw [h j (Finset.mem_range.mp hj), h' j (Finset.mem_range.mp hj)]
  · funext i l; congr 1
    exact Finset.sum_congr rfl fun j hj => by rw [h j (Finset.mem_range.mp hj), h' j (Finset.mem_range.mp hj)]
  · funext q i l; congr 1
    exact Finset.sum_congr rfl fun j hj => by rw [h j (Finset.mem_range.mp hj), h' j (Finset.mem_range.mp hj)]

/-- tableau of the low-storage method -/
def lsT (i j : ℕ) : ℝ :=
  if i < 6 ∧ j < 5 then lsA (lsrkCoef 5 : Coef ℝ).a (lsrkCoef 5 : Coef ℝ).b i j else 0

theorem lsrk5_tableau : HasTableau (.lsrk 5) 5 lsT (lsT 5) := by
  intro d m sw n1 n2 t dt o y
  obtain ⟨k, hk⟩ := lsrk_unroll (genSys d sw noHook m) hookAdds_noHook n1 n2 (lsrkCoef 5) (lsrkCoef_a0 5) t dt o y
  refine ⟨k, fun i hi => ?_, ?_⟩
  · rw [(hk i).1, tend_textbook n1 n2]
    congr 1
    refine comb_congr (fun j hj => ?_) (fun _ _ => rfl)
    rw [lsT, if_pos ⟨by omega, by omega⟩]
  · refine (hk 5).2.1.trans (comb_congr (fun j hj => ?_) (fun _ _ => rfl))
    rw [lsT, if_pos ⟨by omega, by omega⟩]

/-- tableau of the classical method -/
def rkT (i j : ℕ) : ℝ := if i = j + 1 ∧ i < 4 then (if i = 3 then 1 else 1 / 2) else 0
def rkB (i : ℕ) : ℝ := if i = 0 ∨ i = 3 then 1 / 6 else if i < 3 then 1 / 3 else 0

theorem rk4_tableau : HasTableau .rk4 4 rkT rkB := by
  intro d m sw n1 n2 t dt o y
  set G := tendFld m sw with hG
  set k1 := G y with e1
  set k2 := G (plus y (dt * (1 / 2)) k1) with e2
  set k3 := G (plus y (dt * (1 / 2)) k2) with e3
  set k4 := G (plus y dt k3) with e4
  have ax : ∀ x c y, Fld.axpy x c y = plus x c y := fun _ _ _ => rfl
  refine ⟨fun i => if i = 0 then k1 else if i = 1 then k2 else if i = 2 then k3 else k4, fun i hi => ?_, ?_⟩
  · interval_cases i
    · simp [comb, e1, hG]
    · simp [comb, e2, hG, rkT, plus]
    · simp [comb, e3, hG, rkT, plus]
    · simp [comb, e4, hG, rkT, plus]
  · have hrun : ((genSys d sw noHook m).step t dt (o, y) .rk4).2 =
        plus (plus (plus (plus y (dt * (1 / 6)) k1) (dt * (1 / 3)) k2) (dt * (1 / 3)) k3) (dt * (1 / 6)) k4 := by
      simp only [Sys.step, Sys.rk4Step, List.foldl_cons, List.foldl_nil, List.range_succ,
        List.range_zero, List.nil_append, List.cons_append, Sys.rk4Stage, rk4Coef, nth, tend_textbook n1 n2]
      simp only [List.getD_cons_zero, List.getD_cons_succ, lit_real, ax,
        show (0 : ℕ) < 3 by omega, show (1 : ℕ) < 3 by omega, show (2 : ℕ) < 3 by omega, if_true,
        Int.cast_one, Int.cast_ofNat, mul_one, ← hG, ← e1, ← e2, ← e3, ← e4]
    rw [hrun]
    simp only [comb, plus, Finset.sum_range_succ, Finset.sum_range_zero, rkB]
    norm_num [add_assoc]

theorem tableau_step {stp : Stepper} {s : ℕ} {A : ℕ → ℕ → ℝ} {b : ℕ → ℝ} (h : HasTableau stp s A b) {d : Dims}
    {m : Mem ℝ} (hd : DimsOK d) (hc : ConnOK d m) {sw : SWModel ℝ} (hH : HookOK d sw noHook m)
    (n1 : sw.prm.disable_h = false) (n2 : sw.prm.disable_vn = false) (t dt : ℝ) (o y : Fld ℝ) :
    pack d ((genSys d sw noHook m).step t dt (o, y) stp).2 =
      Butcher.rkStep (vfield d m sw) s A b dt (pack d y) := by
  obtain ⟨k, hk, e⟩ := h d m sw n1 n2 t dt o y
  have st : ∀ i < s, pack d (k i) = Butcher.stg (vfield d m sw) A (pack d y) dt i 0 := by
    intro i
    induction i using Nat.strong_induction_on with
    | _ i ih =>
      intro hi
      rw [hk i hi, ← vfield_pack hd hc hH n1 n2, pack_comb, Butcher.stg_zero]
      congr 3
      exact Finset.sum_congr rfl fun j hj => by
        rw [ih j (Finset.mem_range.mp hj) ((Finset.mem_range.mp hj).trans hi)]
  rw [e, pack_comb, Butcher.rkStep]
  congr 2
  exact Finset.sum_congr rfl fun j hj => by rw [st j (Finset.mem_range.mp hj)]

/-! ### Order conditions -/

set_option maxRecDepth 4000 in
theorem rk4_order4 : Butcher.Order4 4 rkT rkB (defect .rk4) := by
  constructor <;>
    simp only [Butcher.rS, Butcher.pS, Butcher.qS, Butcher.wS, Finset.sum_range_succ, Finset.sum_range_zero] <;>
    norm_num [rkT, rkB, defect]

set_option maxRecDepth 4000 in
set_option maxHeartbeats 4000000 in
theorem lsrk5_order4 : Butcher.Order4 5 lsT (lsT 5) (defect (.lsrk 5)) := by
  have ea : (lsrkCoef 5 : Coef ℝ).a = nth [0, -567301805773 / 1357537059087,
        -2404267990393 / 2016746695238, -3550918686646 / 2091501179385,
        -1275806237668 / 842570457699] := by simp [lsrkCoef]
  have eb : (lsrkCoef 5 : Coef ℝ).b = nth [1432997174477 / 9575080441755,
      5161836677717 / 13612068292357, 1720146321549 / 2090206949498, 3134564353537 / 4481467310338,
      2277821191437 / 14882151754819] := by simp [lsrkCoef]
  constructor <;>
    norm_num [lsT, ea, eb, lsA, nth, Butcher.rS, Butcher.pS, Butcher.qS, Butcher.wS, Finset.sum_range_succ,
      Finset.prod_range_succ, abs_le, defect]

/-! ### The tendency is smooth at wet states -/

section
variable {E : Type*} [NormedAddCommGroup E] [NormedSpace ℝ E] {U : Set E} {m : Mem ℝ}

/-- every entry depends smoothly on the vector -/
def Sm (U : Set E) (φ : E → Int → ℝ) : Prop := ∀ i, ContDiffOn ℝ ∞ (fun v => φ v i) U

theorem Sm.mul {φ ψ : E → Int → ℝ} (h : Sm U φ) (g : Sm U ψ) : Sm U (fun v i => φ v i * ψ v i) :=
  fun i => (h i).mul (g i)

theorem Sm.cmul {ψ : E → Int → ℝ} (c : Int → ℝ) (g : Sm U ψ) : Sm U (fun v i => c i * ψ v i) :=
  fun i => contDiffOn_const.mul (g i)

theorem Sm.div {φ ψ : E → Int → ℝ} (h : Sm U φ) (g : Sm U ψ) (h0 : ∀ v ∈ U, ∀ i, ψ v i ≠ 0) :
    Sm U (fun v i => φ v i / ψ v i) := fun i => (h i).div (g i) fun v hv => h0 v hv i

theorem Sm.grad {φ : E → Int → ℝ} (h : Sm U φ) : Sm U (fun v => Spec.grad m (φ v)) :=
  fun i => ((h _).sub (h _)).div_const _

theorem Sm.gradT {φ : E → Int → ℝ} (h : Sm U φ) : Sm U (fun v => Spec.gradT m (φ v)) :=
  fun i => ((h _).sub (h _)).div_const _

theorem Sm.mean {φ : E → Int → ℝ} (h : Sm U φ) : Sm U (fun v => Spec.mean m (φ v)) :=
  fun i => ((h _).add (h _)).div_const _

theorem Sm.divg {φ : E → Int → ℝ} (h : Sm U φ) : Sm U (fun v => Spec.div m (φ v)) :=
  fun i => (ContDiffOn.sum fun j _ => contDiffOn_const.mul (h _)).div_const _

theorem Sm.curl {φ : E → Int → ℝ} (h : Sm U φ) : Sm U (fun v => Spec.curl m (φ v)) :=
  fun i => (ContDiffOn.sum fun j _ => contDiffOn_const.mul (h _)).div_const _

theorem Sm.kiteMean {φ : E → Int → ℝ} (h : Sm U φ) : Sm U (fun v => Spec.kiteMean m (φ v)) :=
  fun i => (ContDiffOn.sum fun j _ => contDiffOn_const.mul (h _)).div_const _

theorem Sm.kinetic {φ : E → Int → ℝ} (h : Sm U φ) : Sm U (fun v => Spec.kinetic m (φ v)) :=
  fun i => (ContDiffOn.sum fun j _ => (contDiffOn_const.mul ((h _).pow 2)).div_const _).div_const _

theorem Sm.vecLap {φ : E → Int → ℝ} (h : Sm U φ) : Sm U (fun v => Spec.vecLap m (φ v)) :=
  fun i => (h.divg.grad i).sub (((h.curl _).sub (h.curl _)).div_const _)

theorem smooth_ite {b : Bool} {f : E → ℝ} (h : ContDiffOn ℝ ∞ f U) :
    ContDiffOn ℝ ∞ (fun v => if b then f v else 0) U := by
  cases b
  · simpa using contDiffOn_const
  · simpa using h

theorem thicknessTend_smooth (sw : SWModel ℝ) {h u : E → Int → ℝ} (hh : Sm U h) (hu : Sm U u) (c : Int) :
    ContDiffOn ℝ ∞ (fun v => Spec.thicknessTend m sw (h v) (u v) c) U :=
  smooth_ite (((hh.mean (m := m)).mul hu).divg c).neg

theorem tracerTend_smooth (sw : SWModel ℝ) {h u s : E → Int → ℝ} (hh : Sm U h) (hu : Sm U u) (hs : Sm U s)
    (h0 : ∀ v ∈ U, ∀ i, h v i ≠ 0) (c : Int) :
    ContDiffOn ℝ ∞ (fun v => Spec.tracerTend m sw (h v) (u v) (s v) c) U := by
  have hφ : Sm U (fun v i => s v i / h v i) := hs.div hh h0
  refine ((smooth_ite ?_).add (smooth_ite ?_)).sub (smooth_ite ?_)
  · exact ((((hh.mean (m := m)).mul hφ.mean).mul hu).divg c).neg
  · refine contDiffOn_const.mul (Sm.divg (φ := fun v e => m.real .mesh_scaling_del2 0 e 0 *
      Spec.mean m (h v) e * Spec.grad m (fun i => s v i / h v i) e) ?_ c)
    exact (Sm.cmul (fun e => m.real .mesh_scaling_del2 0 e 0) hh.mean).mul hφ.grad
  · refine contDiffOn_const.mul (Sm.divg (φ := fun v e => m.real .mesh_scaling_del4 0 e 0 *
      Spec.grad m (Spec.div m fun e => Spec.mean m (h v) e * Spec.grad m (fun i => s v i / h v i) e) e) ?_ c)
    exact Sm.cmul (fun e => m.real .mesh_scaling_del4 0 e 0) (((hh.mean (m := m)).mul hφ.grad).divg).grad

theorem velocityTend_smooth {d : Dims} (hc : ConnOK d m) (sw : SWModel ℝ) (k : Int) {h u : E → Int → ℝ}
    (hh : Sm U h) (hu : Sm U u)
    (h0 : ∀ v ∈ U, ∀ i, 0 ≤ i → i < d.nvertices → Spec.kiteMean m (h v) i ≠ 0) {e : Int} (e0 : 0 ≤ e)
    (e1 : e < d.nedges) : ContDiffOn ℝ ∞ (fun v => Spec.velocityTend m sw k (h v) (u v) e) U := by
  have hpv : ∀ i, 0 ≤ i → i < d.nvertices → ContDiffOn ℝ ∞ (fun v => Spec.pv m (h v) (u v) i) U :=
    fun i i0 i1 => ((hu.curl i).add contDiffOn_const).div (hh.kiteMean i) fun v hv => h0 v hv i i0 i1
  have hq : ∀ i, 0 ≤ i → i < d.nedges →
      ContDiffOn ℝ ∞ (fun v => Spec.vmean m (Spec.pv m (h v) (u v)) i) U := fun i i0 i1 => by
    have a := hc.voe i i0 i1 0 (by omega) (by omega)
    have b := hc.voe i i0 i1 1 (by omega) (by omega)
    exact ((hpv _ a.1 a.2).add (hpv _ b.1 b.2)).div_const _
  refine ((((smooth_ite ?_).sub (smooth_ite ?_)).sub (smooth_ite ?_)).add (smooth_ite ?_)).sub (smooth_ite ?_)
  · refine ContDiffOn.sum fun j hj => ?_
    rw [Finset.mem_Ico] at hj
    have a := hc.eoe e e0 e1 j hj.1 hj.2
    exact (contDiffOn_const.mul ((hh.mean (m := m)).mul hu _)).mul
      (((hq e e0 e1).add (hq _ a.1 a.2)).div_const _)
  · exact hu.kinetic.grad e
  · exact contDiffOn_const.mul (hh.grad e)
  · exact contDiffOn_const.mul ((hu.divg.grad e).sub (hu.curl.gradT e))
  · exact contDiffOn_const.mul (((hu.vecLap (m := m)).divg.grad e).sub (hu.vecLap.curl.gradT e))

end

/-- the wet states -/
def wetSet (d : Dims) : Set (Ix d → ℝ) := {v | ∀ i, 0 < v (.inl i)}

theorem wetSet_open (d : Dims) : IsOpen (wetSet d) := by
  have : wetSet d = ⋂ i, {v | 0 < v (.inl i)} := by ext v; simp [wetSet]
  rw [this]
  exact isOpen_iInter_of_finite fun i => isOpen_lt continuous_const (continuous_apply _)

theorem unpack_h_pos {d : Dims} {v : Ix d → ℝ} (hv : v ∈ wetSet d) (c k : Int) : 0 < (unpack d v).h c k := by
  simp only [unpack]
  split_ifs with h
  · exact hv _
  · exact one_pos

theorem vfield_smooth {d : Dims} {m : Mem ℝ} (hc : ConnOK d m) (sw : SWModel ℝ)
    (hk : ∀ i, 0 ≤ i → i < d.nvertices → ∀ φ : Int → ℝ, (∀ c, 0 < φ c) → 0 < Spec.kiteMean m φ i) :
    ContDiffOn ℝ ∞ (vfield d m sw) (wetSet d) := by
  have co : ∀ i, ContDiffOn ℝ ∞ (fun v : Ix d → ℝ => v i) (wetSet d) := fun i => (contDiff_apply ℝ ℝ i).contDiffOn
  have sh : ∀ k, Sm (wetSet d) (fun v i => (unpack d v).h i k) := fun k i => by
    simp only [unpack]
    split_ifs with h
    · exact co _
    · exact contDiffOn_const
  have su : ∀ k, Sm (wetSet d) (fun v i => (unpack d v).vn i k) := fun k i => by
    simp only [unpack]
    split_ifs with h
    · exact co _
    · exact contDiffOn_const
  have ss : ∀ l k, Sm (wetSet d) (fun v i => (unpack d v).tr l i k) := fun l k i => by
    simp only [unpack]
    split_ifs with h
    · exact co _
    · exact contDiffOn_const
  rw [contDiffOn_pi]
  rintro (⟨⟨c, hc'⟩, ⟨k, hk'⟩⟩ | ⟨⟨e, he⟩, ⟨k, hk'⟩⟩ | ⟨⟨l, hl⟩, ⟨c, hc'⟩, ⟨k, hk'⟩⟩)
  · exact thicknessTend_smooth sw (sh k) (su k) c
  · rw [Finset.mem_Ico] at he
    exact velocityTend_smooth hc sw k (sh k) (su k)
      (fun v hv i i0 i1 => (hk i i0 i1 _ fun c => unpack_h_pos hv c k).ne') he.1 he.2
  · exact tracerTend_smooth sw (sh k) (su k) (ss l k) (fun v hv i => (unpack_h_pos hv i k).ne') c

/-! ### The property -/

/-- `u` is, for times between 0 and `T`, a solution of the textbook equations on the mesh of the memory `m`,
nowhere dry -/
structure Solves (d : Dims) (m : Mem ℝ) (sw : SWModel ℝ) (T : ℝ) (u : ℝ → Fld ℝ) : Prop where
  h : ∀ c k, 0 ≤ c → c < d.ncells → 0 ≤ k → k < d.nlayers → ∀ x ∈ Icc 0 T,
    HasDerivWithinAt (fun x => (u x).h c k)
      (Spec.thicknessTend m sw (fun i => (u x).h i k) (fun i => (u x).vn i k) c) (Icc 0 T) x
  vn : ∀ e k, 0 ≤ e → e < d.nedges → 0 ≤ k → k < d.nlayers → ∀ x ∈ Icc 0 T,
    HasDerivWithinAt (fun x => (u x).vn e k)
      (Spec.velocityTend m sw k (fun i => (u x).h i k) (fun i => (u x).vn i k) e) (Icc 0 T) x
  tr : ∀ l c k, 0 ≤ l → l < d.ntracers → 0 ≤ c → c < d.ncells → 0 ≤ k → k < d.nlayers → ∀ x ∈ Icc 0 T,
    HasDerivWithinAt (fun x => (u x).tr l c k)
      (Spec.tracerTend m sw (fun i => (u x).h i k) (fun i => (u x).vn i k) (fun i => (u x).tr l i k) c)
      (Icc 0 T) x
  wet : ∀ c k, 0 ≤ c → c < d.ncells → 0 ≤ k → k < d.nlayers → ∀ x ∈ Icc 0 T, 0 < (u x).h c k

theorem kiteMean_pos {p : MeshParams} {dc : ℝ} {prm : Params ℝ} {m : Mem ℝ} (hv : RunValid p) (hdc : 0 < dc)
    (hr : Ready p dc prm m) {i : Int} (i0 : 0 ≤ i) (i1 : i < p.dims.nvertices) {φ : Int → ℝ} (hφ : ∀ c, 0 < φ c) :
    0 < Spec.kiteMean m φ i := by
  have hg := geo_of_hex hv.toValid hdc (Ready.hex hv.toValid hr).1
  rw [← fn_hvert, hg.hvert φ i0 i1]
  have := hφ (Hex.cov p.nx p.ny i 0)
  have := hφ (Hex.cov p.nx p.ny i 1)
  have := hφ (Hex.cov p.nx p.ny i 2)
  unfold Mv
  positivity

theorem Solves.pack {d : Dims} {m : Mem ℝ} (hd : DimsOK d) (hc : ConnOK d m) {sw : SWModel ℝ}
    (hH : HookOK d sw noHook m) (n1 : sw.prm.disable_h = false) (n2 : sw.prm.disable_vn = false) {T : ℝ}
    {u : ℝ → Fld ℝ} (h : Solves d m sw T u) :
    (∀ x ∈ Icc 0 T, HasDerivWithinAt (fun x => pack d (u x)) (vfield d m sw (pack d (u x))) (Icc 0 T) x) ∧
    ∀ x ∈ Icc 0 T, Props.pack d (u x) ∈ wetSet d := by
  constructor
  · intro x hx
    rw [vfield_pack hd hc hH n1 n2, hasDerivWithinAt_pi]
    rintro (⟨⟨c, hc'⟩, ⟨k, hk'⟩⟩ | ⟨⟨c, hc'⟩, ⟨k, hk'⟩⟩ | ⟨⟨l, hl⟩, ⟨c, hc'⟩, ⟨k, hk'⟩⟩)
    · have a := Finset.mem_Ico.mp hc'; have b := Finset.mem_Ico.mp hk'
      exact h.h c k a.1 a.2 b.1 b.2 x hx
    · have a := Finset.mem_Ico.mp hc'; have b := Finset.mem_Ico.mp hk'
      exact h.vn c k a.1 a.2 b.1 b.2 x hx
    · have a := Finset.mem_Ico.mp hc'; have b := Finset.mem_Ico.mp hk'; have g := Finset.mem_Ico.mp hl
      exact h.tr l c k g.1 g.2 a.1 a.2 b.1 b.2 x hx
  · rintro x hx ⟨⟨c, hc'⟩, ⟨k, hk'⟩⟩
    have a := Finset.mem_Ico.mp hc'; have b := Finset.mem_Ico.mp hk'
    exact h.wet c k a.1 a.2 b.1 b.2 x hx

/-- states during a run, step by step -/
theorem run_steps {S : Sys ℝ} {stp : Stepper} {dt : ℝ} {sched : List (ℝ × ℝ)} (hs : ∀ q ∈ sched, q.2 = dt)
    (p : Fld ℝ × Fld ℝ) : ∃ x : ℕ → Fld ℝ × Fld ℝ, x 0 = p ∧ x sched.length = S.run stp sched p ∧
      ∀ n < sched.length, ∃ t, x (n + 1) = S.step t dt (x n) stp := by
  refine ⟨fun n => S.run stp (sched.take n) p, rfl, by simp, fun n hn => ⟨(sched[n]).1, ?_⟩⟩
  simp only [Sys.run]
  rw [List.take_succ_eq_append_getElem hn, List.foldl_append, ← hs _ (List.getElem_mem hn)]
  rfl

theorem exists_tab_bound (s : ℕ) (A : ℕ → ℕ → ℝ) (b : ℕ → ℝ) (hA : ∀ i j, ¬(i < 6 ∧ j < 6) → A i j = 0)
    (hb : ∀ i, ¬ i < 6 → b i = 0) : ∃ M : ℝ, (∀ i j, |A i j| ≤ M) ∧ ∀ i, |b i| ≤ M := by
  have p1 : ∀ i, 0 ≤ ∑ j ∈ Finset.range 6, |A i j| := fun i => Finset.sum_nonneg fun _ _ => abs_nonneg _
  have p2 : 0 ≤ ∑ i ∈ Finset.range 6, ∑ j ∈ Finset.range 6, |A i j| := Finset.sum_nonneg fun i _ => p1 i
  have p3 : 0 ≤ ∑ i ∈ Finset.range 6, |b i| := Finset.sum_nonneg fun _ _ => abs_nonneg _
  refine ⟨(∑ i ∈ Finset.range 6, ∑ j ∈ Finset.range 6, |A i j|) + ∑ i ∈ Finset.range 6, |b i|,
    fun i j => ?_, fun i => ?_⟩
  · by_cases h : i < 6 ∧ j < 6
    · have a := Finset.single_le_sum (f := fun j => |A i j|) (fun _ _ => abs_nonneg _) (Finset.mem_range.mpr h.2)
      have b := Finset.single_le_sum (f := fun i => ∑ j ∈ Finset.range 6, |A i j|) (fun i _ => p1 i)
        (Finset.mem_range.mpr h.1)
      linarith
    · rw [hA i j h, abs_zero]; linarith
  · by_cases h : i < 6
    · have a := Finset.single_le_sum (f := fun i => |b i|) (fun _ _ => abs_nonneg _) (Finset.mem_range.mpr h)
      linarith
    · rw [hb i h, abs_zero]; linarith

theorem order_of_tableau {stp : Stepper} {s : ℕ} {A : ℕ → ℕ → ℝ} {b : ℕ → ℝ} (ht : HasTableau stp s A b)
    (ho : Butcher.Order4 s A b (defect stp)) (hM : ∃ M : ℝ, (∀ i j, |A i j| ≤ M) ∧ ∀ i, |b i| ≤ M)
    {p : MeshParams} (hv : RunValid p) {dc : ℝ} (hdc : 0 < dc)
    {prm : Params ℝ} (n1 : prm.disable_h = false) (n2 : prm.disable_vn = false) {m : Mem ℝ}
    (hr : Ready p dc prm m) {T : ℝ} {u : ℝ → Fld ℝ} (hu : Solves p.dims m (SWModel.ofParams prm) T u)
    (h0 : EqFld p.dims (m.fld .state) (u 0)) :
    ∃ K τ : ℝ, 0 ≤ K ∧ 0 < τ ∧ ∀ (dt : ℝ) (sched : List (ℝ × ℝ)) (split : Bool)
      (m1 : Mem ℝ), 0 ≤ dt → dt ≤ τ → (∀ q ∈ sched, q.2 = dt) → sched.length * dt ≤ T →
      sched.length * dt * defect stp ≤ τ →
      Exec p.dims (stp.ctor p.dims ++ stp.run p.dims ⟨defaultKernels p.dims.vl, split⟩
        (SWModel.ofParams prm) sched) m m1 →
      ‖pack p.dims (m1.fld .state) - pack p.dims (u (sched.length * dt))‖ ≤ K * (dt ^ 4 + defect stp) := by
  obtain ⟨hd, hc⟩ := ready_ok hv hr
  have hH := hookOK_noHook (noHook_ofParams prm) p.dims m
  obtain ⟨du, wu⟩ := hu.pack hd hc hH n1 n2
  obtain ⟨M, hA, hb⟩ := hM
  obtain ⟨K, τ, K0, τ0, key⟩ := Butcher.global_error (wetSet_open p.dims)
    (vfield_smooth hc (SWModel.ofParams prm) fun i i0 i1 φ hφ => kiteMean_pos hv hdc hr i0 i1 hφ) du wu M s
  refine ⟨K, τ, K0, τ0, fun dt sched split m1 t0 t1 hs hT hε he => ?_⟩
  have v := ((genSetup hd hc hH).newRun he).2.2
  obtain ⟨x, x0, xN, xs⟩ := run_steps (S := genSys p.dims (SWModel.ofParams prm) noHook m) (stp := stp) hs
    (zeroFld, m.fld .state)
  rw [pack_congr v, ← xN]
  refine key A b (defect stp) hA hb ho dt sched.length (fun n => pack p.dims (x n).2) t0 t1 hT hε ?_ fun n hn => ?_
  · rw [x0]; exact pack_congr h0
  · obtain ⟨t, e⟩ := xs n hn
    rw [e]
    exact tableau_step ht hd hc hH n1 n2 t dt (x n).1 (x n).2

/-- On every mesh, for all parameters (with viscosity and tracers, with rotation) and every solution `u` of the
textbook equations that stays wet up to a time `T`, there are constants such that a run of a new stepper of order
four, started from the initial value of the solution, with any number of steps of one size, ends within
`K (dt⁴ + defect)` of the solution at the final time, in every entry.  The classical stepper has no defect.  The
low-storage one has a defect of `10⁻²⁰` from its coefficients, which are rounded to thirteen digits. -/
theorem C80_time_order {p : MeshParams} (hv : RunValid p) {dc : ℝ} (hdc : 0 < dc)
    {prm : Params ℝ} (n1 : prm.disable_h = false) (n2 : prm.disable_vn = false) {m : Mem ℝ}
    (hr : Ready p dc prm m) {T : ℝ} {u : ℝ → Fld ℝ} (hu : Solves p.dims m (SWModel.ofParams prm) T u)
    (h0 : EqFld p.dims (m.fld .state) (u 0)) :
    ∃ K τ : ℝ, 0 ≤ K ∧ 0 < τ ∧ ∀ stp, FourthOrder stp → ∀ (dt : ℝ) (sched : List (ℝ × ℝ)) (split : Bool)
      (m1 : Mem ℝ), 0 ≤ dt → dt ≤ τ → (∀ q ∈ sched, q.2 = dt) → sched.length * dt ≤ T →
      sched.length * dt * defect stp ≤ τ →
      Exec p.dims (stp.ctor p.dims ++ stp.run p.dims ⟨defaultKernels p.dims.vl, split⟩
        (SWModel.ofParams prm) sched) m m1 →
      (∀ c k, 0 ≤ c → c < p.dims.ncells → 0 ≤ k → k < p.dims.nlayers →
        |m1.real (.h_cell .state) 0 c k - (u (sched.length * dt)).h c k| ≤ K * (dt ^ 4 + defect stp)) ∧
      (∀ e k, 0 ≤ e → e < p.dims.nedges → 0 ≤ k → k < p.dims.nlayers →
        |m1.real (.vn_edge .state) 0 e k - (u (sched.length * dt)).vn e k| ≤ K * (dt ^ 4 + defect stp)) ∧
      ∀ l c k, 0 ≤ l → l < p.dims.ntracers → 0 ≤ c → c < p.dims.ncells → 0 ≤ k → k < p.dims.nlayers →
        |m1.real (.tr_cell .state) l c k - (u (sched.length * dt)).tr l c k| ≤ K * (dt ^ 4 + defect stp) := by
  obtain ⟨K, τ, K0, τ0, key⟩ := order_of_tableau rk4_tableau rk4_order4
    (exists_tab_bound 4 _ _ (fun i j h => if_neg (by omega)) (fun i h => by
      rw [rkB, if_neg (by omega), if_neg (by omega)])) hv hdc n1 n2 hr hu h0
  obtain ⟨K', τ', K0', τ0', key'⟩ := order_of_tableau lsrk5_tableau lsrk5_order4
    (exists_tab_bound 5 _ _ (fun i j h => if_neg (by omega)) (fun i h => if_neg (by omega))) hv hdc n1 n2 hr hu h0
  refine ⟨max K K', min τ τ', le_max_of_le_left K0, lt_min τ0 τ0',
    fun stp hstp dt sched split m1 t0 t1 hs hT hε he => ?_⟩
  have q0 : 0 ≤ dt ^ 4 + defect stp := add_nonneg (by positivity) (defect_nonneg stp)
  have main : ‖pack p.dims (m1.fld .state) - pack p.dims (u (sched.length * dt))‖ ≤
      max K K' * (dt ^ 4 + defect stp) := by
    rcases hstp with rfl | rfl
    · exact (key dt sched split m1 t0 (t1.trans (min_le_left _ _)) hs hT (hε.trans (min_le_left _ _)) he).trans
        (mul_le_mul_of_nonneg_right (le_max_left _ _) q0)
    · exact (key' dt sched split m1 t0 (t1.trans (min_le_right _ _)) hs hT (hε.trans (min_le_right _ _)) he).trans
        (mul_le_mul_of_nonneg_right (le_max_right _ _) q0)
  have co := fun i => (norm_le_pi_norm (pack p.dims (m1.fld .state) - pack p.dims (u (sched.length * dt))) i).trans main
  refine ⟨fun c k c0 c1 k0 k1 => ?_, fun c k c0 c1 k0 k1 => ?_, fun l c k l0 l1 c0 c1 k0 k1 => ?_⟩
  · exact co (.inl (⟨c, Finset.mem_Ico.mpr ⟨c0, c1⟩⟩, ⟨k, Finset.mem_Ico.mpr ⟨k0, k1⟩⟩))
  · exact co (.inr (.inl (⟨c, Finset.mem_Ico.mpr ⟨c0, c1⟩⟩, ⟨k, Finset.mem_Ico.mpr ⟨k0, k1⟩⟩)))
  · exact co (.inr (.inr (⟨l, Finset.mem_Ico.mpr ⟨l0, l1⟩⟩, ⟨c, Finset.mem_Ico.mpr ⟨c0, c1⟩⟩,
      ⟨k, Finset.mem_Ico.mpr ⟨k0, k1⟩⟩)))

/-- From every wet state the textbook equations have a solution for a while, so that the previous theorem applies
to every run from a wet state. -/
theorem C80_solution_exists {p : MeshParams} (hv : RunValid p) {dc : ℝ} (hdc : 0 < dc)
    {prm : Params ℝ} (n1 : prm.disable_h = false) (n2 : prm.disable_vn = false) {m : Mem ℝ}
    (hr : Ready p dc prm m)
    (hw : ∀ c k, 0 ≤ c → c < p.dims.ncells → 0 ≤ k → k < p.dims.nlayers →
      0 < m.real (.h_cell .state) 0 c k) :
    ∃ (T : ℝ) (u : ℝ → Fld ℝ), 0 < T ∧ Solves p.dims m (SWModel.ofParams prm) T u ∧
      EqFld p.dims (m.fld .state) (u 0) := by
  obtain ⟨hd, hc⟩ := ready_ok hv hr
  have hH := hookOK_noHook (noHook_ofParams prm) p.dims m
  have hs := vfield_smooth hc (SWModel.ofParams prm) fun i i0 i1 φ hφ => kiteMean_pos hv hdc hr i0 i1 hφ
  set v0 := pack p.dims (m.fld .state) with hv0
  have w0 : v0 ∈ wetSet p.dims := by
    rintro ⟨⟨c, hc'⟩, ⟨k, hk'⟩⟩
    have a := Finset.mem_Ico.mp hc'; have b := Finset.mem_Ico.mp hk'
    exact hw c k a.1 a.2 b.1 b.2
  have ca := ((hs.contDiffAt ((wetSet_open p.dims).mem_nhds w0)).of_le
    (WithTop.coe_le_coe.2 (le_top (a := (1 : ℕ∞)))))
  obtain ⟨α, hα0, hα⟩ := ca.exists_forall_mem_closedBall_exists_eq_forall_mem_Ioo_hasDerivAt₀ (t₀ := 0)
  obtain ⟨ε, ε0, hε⟩ := hα
  have cont : ContinuousAt α 0 := (hε 0 ⟨by linarith, by linarith⟩).continuousAt
  have ev : ∀ᶠ t in nhds 0, α t ∈ wetSet p.dims :=
    cont.eventually (by rw [hα0]; exact (wetSet_open p.dims).mem_nhds w0)
  obtain ⟨δ, δ0, hδ⟩ := Metric.eventually_nhds_iff.mp ev
  have sub : ∀ x ∈ Icc (0 : ℝ) (min ε δ / 2), HasDerivAt α (vfield p.dims m (SWModel.ofParams prm) (α x)) x ∧
      α x ∈ wetSet p.dims := fun x hx => by
    have p0 := lt_min ε0 δ0
    have a := min_le_left ε δ
    have b := min_le_right ε δ
    refine ⟨hε x ⟨by linarith [hx.1], by linarith [hx.2]⟩, hδ ?_⟩
    rw [Real.dist_eq, sub_zero, abs_of_nonneg hx.1]
    linarith [hx.2]
  refine ⟨min ε δ / 2, fun x => unpack p.dims (α x), half_pos (lt_min ε0 δ0), ⟨?_, ?_, ?_, ?_⟩, ?_⟩
  · intro c k c0 c1 k0 k1 x hx
    have := (hasDerivAt_pi.mp (sub x hx).1 (.inl (⟨c, Finset.mem_Ico.mpr ⟨c0, c1⟩⟩,
      ⟨k, Finset.mem_Ico.mpr ⟨k0, k1⟩⟩))).hasDerivWithinAt (s := Icc 0 (min ε δ / 2))
    simpa [unpack, c0, c1, k0, k1, vfield, pack, tendFld] using this
  · intro c k c0 c1 k0 k1 x hx
    have := (hasDerivAt_pi.mp (sub x hx).1 (.inr (.inl (⟨c, Finset.mem_Ico.mpr ⟨c0, c1⟩⟩,
      ⟨k, Finset.mem_Ico.mpr ⟨k0, k1⟩⟩)))).hasDerivWithinAt (s := Icc 0 (min ε δ / 2))
    simpa [unpack, c0, c1, k0, k1, vfield, pack, tendFld] using this
  · intro l c k l0 l1 c0 c1 k0 k1 x hx
    have := (hasDerivAt_pi.mp (sub x hx).1 (.inr (.inr (⟨l, Finset.mem_Ico.mpr ⟨l0, l1⟩⟩,
      ⟨c, Finset.mem_Ico.mpr ⟨c0, c1⟩⟩, ⟨k, Finset.mem_Ico.mpr ⟨k0, k1⟩⟩)))).hasDerivWithinAt
      (s := Icc 0 (min ε δ / 2))
    simpa [unpack, l0, l1, c0, c1, k0, k1, vfield, pack, tendFld] using this
  · intro c k _ _ _ _ x hx
    exact unpack_h_pos (sub x hx).2 c k
  · simp only [hα0]
    have := unpack_pack p.dims (m.fld .state)
    exact this.symm

/-- The classical stepper with `n` steps of size `T / n` converges to the solution at time `T` like `1 / n⁴`. -/
theorem C80_rk4_converges {p : MeshParams} (hv : RunValid p) {dc : ℝ} (hdc : 0 < dc)
    {prm : Params ℝ} (n1 : prm.disable_h = false) (n2 : prm.disable_vn = false) {m : Mem ℝ}
    (hr : Ready p dc prm m) {T : ℝ} (hT : 0 ≤ T) {u : ℝ → Fld ℝ}
    (hu : Solves p.dims m (SWModel.ofParams prm) T u) (h0 : EqFld p.dims (m.fld .state) (u 0)) :
    ∃ (K : ℝ) (n0 : ℕ), ∀ (sched : List (ℝ × ℝ)) (split : Bool) (m1 : Mem ℝ), n0 ≤ sched.length →
      (∀ q ∈ sched, q.2 = T / sched.length) →
      Exec p.dims (Stepper.rk4.ctor p.dims ++ Stepper.rk4.run p.dims ⟨defaultKernels p.dims.vl, split⟩
        (SWModel.ofParams prm) sched) m m1 →
      (∀ c k, 0 ≤ c → c < p.dims.ncells → 0 ≤ k → k < p.dims.nlayers →
        |m1.real (.h_cell .state) 0 c k - (u T).h c k| ≤ K / sched.length ^ 4) ∧
      (∀ e k, 0 ≤ e → e < p.dims.nedges → 0 ≤ k → k < p.dims.nlayers →
        |m1.real (.vn_edge .state) 0 e k - (u T).vn e k| ≤ K / sched.length ^ 4) ∧
      ∀ l c k, 0 ≤ l → l < p.dims.ntracers → 0 ≤ c → c < p.dims.ncells → 0 ≤ k → k < p.dims.nlayers →
        |m1.real (.tr_cell .state) l c k - (u T).tr l c k| ≤ K / sched.length ^ 4 := by
  obtain ⟨K, τ, K0, τ0, key⟩ := C80_time_order hv hdc n1 n2 hr hu h0
  obtain ⟨n0, hn0⟩ := exists_nat_ge (T / τ)
  refine ⟨K * T ^ 4, n0 + 1, fun sched split m1 hn hs he => ?_⟩
  have l1 : (n0 : ℝ) + 1 ≤ sched.length := by exact_mod_cast hn
  have l0 : (0 : ℝ) < sched.length := by
    have : (0 : ℝ) ≤ n0 := Nat.cast_nonneg n0
    linarith
  have eT : sched.length * (T / sched.length) = T := mul_div_cancel₀ T l0.ne'
  have := key .rk4 (Or.inl rfl) (T / sched.length) sched split m1 (by positivity)
    (by rw [div_le_iff₀ l0, mul_comm, ← div_le_iff₀ τ0]; linarith) hs eT.le (by simp [defect, τ0.le]) he
  rw [eT] at this
  have eK : K * ((T / sched.length) ^ 4 + defect .rk4) = K * T ^ 4 / sched.length ^ 4 := by
    simp only [defect, add_zero, div_pow]; ring
  rwa [eK] at this

/-! ### C81: the energy of a run without viscosity -/

/-- energy of a vector of entries -/
def eng (d : Dims) (m : Mem ℝ) (g : ℝ) (v : Ix d → ℝ) : ℝ :=
  ∑ k ∈ Spec.layers d, ∑ c ∈ Spec.cells d, Spec.areaC m c *
    (g * (unpack d v).h c k ^ 2 / 2 + (unpack d v).h c k * Spec.kinetic m (fun e => (unpack d v).vn e k) c)

theorem eng_smooth (d : Dims) (m : Mem ℝ) (g : ℝ) : ContDiff ℝ ∞ (eng d m g) := by
  have co : ∀ i, ContDiffOn ℝ ∞ (fun v : Ix d → ℝ => v i) univ := fun i => (contDiff_apply ℝ ℝ i).contDiffOn
  have sh : ∀ k, Sm univ (fun (v : Ix d → ℝ) i => (unpack d v).h i k) := fun k i => by
    simp only [unpack]
    split_ifs with h
    · exact co _
    · exact contDiffOn_const
  have su : ∀ k, Sm univ (fun (v : Ix d → ℝ) i => (unpack d v).vn i k) := fun k i => by
    simp only [unpack]
    split_ifs with h
    · exact co _
    · exact contDiffOn_const
  rw [← contDiffOn_univ]
  refine ContDiffOn.sum fun k _ => ContDiffOn.sum fun c _ => contDiffOn_const.mul ?_
  exact ((contDiffOn_const.mul ((sh k c).pow 2)).div_const _).add ((sh k c).mul ((su k).kinetic c))

theorem eng_rate {p : MeshParams} {dc : ℝ} {m : Mem ℝ} (hc : ConnOK p.dims m)
    (h : Geo2 p.nx p.ny p.dims.nlayers dc m.mesh) {sw : SWModel ℝ}
    (h1 : sw.en_hadv = true) (h2 : sw.en_pv = true) (h3 : sw.en_ke = true) (h4 : sw.en_ssh = true)
    (h5 : sw.en_vdiff = false) (h6 : sw.en_vhyper = false) (v : Ix p.dims → ℝ) :
    fderiv ℝ (eng p.dims m sw.prm.grav) v (vfield p.dims m sw v) = 0 := by
  have D := HasDerivAt.fun_sum (u := Spec.layers p.dims) fun k _ =>
    layer_energy_deriv h.toGeo sw.prm.grav (fun i => (unpack p.dims v).h i k)
      (Spec.thicknessTend m sw (fun i => (unpack p.dims v).h i k) (fun i => (unpack p.dims v).vn i k))
      (fun i => (unpack p.dims v).vn i k)
      (Spec.velocityTend m sw k (fun i => (unpack p.dims v).h i k) (fun i => (unpack p.dims v).vn i k))
  have l1 : HasDerivAt (fun ε : ℝ => v + ε • vfield p.dims m sw v) (vfield p.dims m sw v) 0 := by
    have := ((hasDerivAt_id (0 : ℝ)).smul_const (vfield p.dims m sw v)).const_add v
    simpa using this
  have l2 : HasDerivAt (fun ε : ℝ => eng p.dims m sw.prm.grav (v + ε • vfield p.dims m sw v))
      (fderiv ℝ (eng p.dims m sw.prm.grav) v (vfield p.dims m sw v)) 0 := by
    have d : HasFDerivAt (eng p.dims m sw.prm.grav) (fderiv ℝ (eng p.dims m sw.prm.grav) v)
        (v + (0 : ℝ) • vfield p.dims m sw v) := by
      rw [zero_smul, add_zero]
      exact ((eng_smooth p.dims m sw.prm.grav).differentiable (by simp)).differentiableAt.hasFDerivAt
    exact d.comp_hasDerivAt 0 l1
  have e : (fun ε : ℝ => eng p.dims m sw.prm.grav (v + ε • vfield p.dims m sw v)) = fun ε =>
      ∑ k ∈ Spec.layers p.dims, ∑ c ∈ Spec.cells p.dims, Spec.areaC m c *
        (sw.prm.grav * ((unpack p.dims v).h c k + ε * Spec.thicknessTend m sw (fun i => (unpack p.dims v).h i k)
          (fun i => (unpack p.dims v).vn i k) c) ^ 2 / 2 + ((unpack p.dims v).h c k + ε * Spec.thicknessTend m sw
          (fun i => (unpack p.dims v).h i k) (fun i => (unpack p.dims v).vn i k) c) *
          Spec.kinetic m (fun e => (unpack p.dims v).vn e k + ε * Spec.velocityTend m sw k
            (fun i => (unpack p.dims v).h i k) (fun i => (unpack p.dims v).vn i k) e) c) := by
    funext ε
    refine Finset.sum_congr rfl fun k hk => Finset.sum_congr rfl fun c hc' => ?_
    have a1 : (unpack p.dims (v + ε • vfield p.dims m sw v)).h c k = (unpack p.dims v).h c k + ε *
        Spec.thicknessTend m sw (fun i => (unpack p.dims v).h i k) (fun i => (unpack p.dims v).vn i k) c := by
      show (if _ : _ then _ else _) = (if _ : _ then _ else _) + _
      rw [dif_pos ⟨hc', hk⟩, dif_pos ⟨hc', hk⟩]; rfl
    have a2 : ∀ e, 0 ≤ e → e < p.dims.nedges → (unpack p.dims (v + ε • vfield p.dims m sw v)).vn e k =
        (unpack p.dims v).vn e k + ε * Spec.velocityTend m sw k (fun i => (unpack p.dims v).h i k)
          (fun i => (unpack p.dims v).vn i k) e := fun e e0 e1 => by
      have he : e ∈ Spec.edges p.dims := Finset.mem_Ico.mpr ⟨e0, e1⟩
      show (if _ : _ then _ else _) = (if _ : _ then _ else _) + _
      rw [dif_pos ⟨he, hk⟩, dif_pos ⟨he, hk⟩]; rfl
    have b := Finset.mem_Ico.mp hc'
    rw [a1, kinetic_congr hc a2 b.1 b.2]
  rw [e] at l2
  rw [l2.unique D]
  refine Finset.sum_eq_zero fun k _ => ?_
  rw [layer_energy_rate h h1 h2 h3 h4 k]
  refine Finset.sum_eq_zero fun e _ => ?_
  have : Spec.velocityTend m sw k (fun i => (unpack p.dims v).h i k) (fun i => (unpack p.dims v).vn i k) e =
      Spec.velocityTend m (inviscid sw) k (fun i => (unpack p.dims v).h i k) (fun i => (unpack p.dims v).vn i k) e := by
    simp only [Spec.velocityTend, inviscid, h5, h6, Bool.false_eq_true, if_false]
    rfl
  rw [this]; ring

theorem eng_pack {p : MeshParams} (hv : RunValid p) {dc : ℝ} {prm : Params ℝ} {m m1 : Mem ℝ}
    (hr : Ready p dc prm m) (hs : Static m1 m) {g w : ℝ} (hw : IsEnergyIntegral p.dims g .state m1 w) :
    w = eng p.dims m g (pack p.dims (m1.fld .state)) := by
  obtain ⟨hd, hc⟩ := ready_ok hv hr
  rw [(energy_spec hv (hr.static hs) g .state w).1 hw]
  refine Finset.sum_congr rfl fun k hk => Finset.sum_congr rfl fun c hc' => ?_
  have hk' := Finset.mem_Ico.mp hk
  have b := Finset.mem_Ico.mp hc'
  have ek : ∀ u, Spec.kinetic m1 u c = Spec.kinetic m u c := fun u => by
    simp only [Spec.kinetic, Spec.dcE, Spec.dvE, Spec.side, Spec.areaC, hs.int,
      hs.real .dc_edge rfl, hs.real .dv_edge rfl, hs.real .area_cell rfl]
  have E := unpack_pack p.dims (m1.fld .state)
  rw [ek, area_static hs, E.h c k b.1 b.2 hk'.1 hk'.2, kinetic_congr hc
    (u := fun e => m1.real (.vn_edge .state) 0 e k) (v := fun e => (unpack p.dims (pack p.dims (m1.fld .state))).vn e k)
    (fun e e0 e1 => (E.vn e k e0 e1 hk'.1 hk'.2).symm) b.1 b.2]
  rfl

/-- Without viscosity, the value of `energy_integral` after a run of a stepper of order four from a state with a
wet solution differs from its value before the run by at most `K (dt⁴ + defect)`, for any number of steps up to
the time `T`. -/
theorem C81_energy_drift {p : MeshParams} (hv : RunValid p) (hnx : 2 ≤ p.nx) (hny : 2 ≤ p.ny) {dc : ℝ}
    (hdc : 0 < dc) {prm : Params ℝ} (n1 : prm.disable_h = false) (n2 : prm.disable_vn = false)
    (n3 : prm.visc_del2 ≤ 0) (n4 : prm.visc_del4 ≤ 0) {m : Mem ℝ}
    (hr : Ready p dc prm m) {T : ℝ} {u : ℝ → Fld ℝ} (hu : Solves p.dims m (SWModel.ofParams prm) T u)
    (h0 : EqFld p.dims (m.fld .state) (u 0)) :
    ∃ K τ : ℝ, 0 ≤ K ∧ 0 < τ ∧ ∀ stp, FourthOrder stp → ∀ (dt : ℝ) (sched : List (ℝ × ℝ)) (split : Bool)
      (m1 : Mem ℝ) (v0 v1 : ℝ), 0 ≤ dt → dt ≤ τ → (∀ q ∈ sched, q.2 = dt) → sched.length * dt ≤ T →
      sched.length * dt * defect stp ≤ τ →
      Exec p.dims (stp.ctor p.dims ++ stp.run p.dims ⟨defaultKernels p.dims.vl, split⟩
        (SWModel.ofParams prm) sched) m m1 →
      IsEnergyIntegral p.dims prm.grav .state m v0 → IsEnergyIntegral p.dims prm.grav .state m1 v1 →
      |v1 - v0| ≤ K * (dt ^ 4 + defect stp) := by
  obtain ⟨hd, hc⟩ := ready_ok hv hr
  have hH := hookOK_noHook (noHook_ofParams prm) p.dims m
  have hg := Ready.geo2 hr hv.toValid hnx hny hdc
  obtain ⟨du, wu⟩ := hu.pack hd hc hH n1 n2
  set sw := SWModel.ofParams prm with hsw
  have s5 : sw.en_vdiff = false := by
    show decide ((lit 0 : ℝ) < prm.visc_del2) = false
    simp [n3]
  have s6 : sw.en_vhyper = false := by
    show decide ((lit 0 : ℝ) < prm.visc_del4) = false
    simp [n4]
  set G := eng p.dims m prm.grav with hG
  have sm := eng_smooth p.dims m prm.grav
  -- constant along the solution
  have const : ∀ x ∈ Icc 0 T, G (pack p.dims (u x)) = G (pack p.dims (u 0)) := by
    have dG : ∀ x ∈ Icc 0 T, HasDerivWithinAt (fun x => G (pack p.dims (u x))) 0 (Icc 0 T) x := fun x hx => by
      have := ((sm.differentiable (by simp)).differentiableAt.hasFDerivAt
        (x := pack p.dims (u x))).comp_hasDerivWithinAt x (du x hx)
      exact this.congr_deriv (eng_rate hc hg (sw := sw) rfl rfl rfl rfl s5 s6 _)
    intro x hx
    have := (convex_Icc 0 T).norm_image_sub_le_of_norm_hasDerivWithin_le (C := 0) dG (fun x _ => by simp)
      (left_mem_Icc.mpr (hx.1.trans hx.2)) hx
    rw [zero_mul] at this
    exact sub_eq_zero.mp (norm_le_zero_iff.mp this)
  -- the solution is bounded
  have cu : ContinuousOn (fun x => pack p.dims (u x)) (Icc 0 T) := fun x hx => (du x hx).continuousWithinAt
  obtain ⟨B, hB⟩ := (isCompact_Icc (a := (0 : ℝ)) (b := T)).exists_bound_of_continuousOn cu
  obtain ⟨K, τ, K0, τ0, key⟩ := order_of_tableau rk4_tableau rk4_order4
    (exists_tab_bound 4 _ _ (fun i j h => if_neg (by omega)) (fun i h => by
      rw [rkB, if_neg (by omega), if_neg (by omega)])) hv hdc n1 n2 hr hu h0
  obtain ⟨K', τ', K0', τ0', key'⟩ := order_of_tableau lsrk5_tableau lsrk5_order4
    (exists_tab_bound 5 _ _ (fun i j h => if_neg (by omega)) (fun i h => if_neg (by omega))) hv hdc n1 n2 hr hu h0
  set R := B + max K K' * 2 with hR
  obtain ⟨L, hL⟩ := (isCompact_closedBall (0 : Ix p.dims → ℝ) R).exists_bound_of_continuousOn
    (sm.continuous_fderiv (by simp)).continuousOn
  have Kp : 0 ≤ max K K' := le_max_of_le_left K0
  refine ⟨max L 0 * max K K', min (min τ τ') 1, by positivity, lt_min (lt_min τ0 τ0') one_pos,
    fun stp hstp dt sched split m1 v0 v1 t0 t1 hs hT hε he hv0 hv1 => ?_⟩
  have t2 : dt ≤ 1 := t1.trans (min_le_right _ _)
  have q0 : 0 ≤ dt ^ 4 + defect stp := add_nonneg (by positivity) (defect_nonneg stp)
  have q1 : dt ^ 4 + defect stp ≤ 2 := by
    have : defect stp ≤ 1 := by rcases hstp with rfl | rfl <;> norm_num [defect]
    have := pow_le_one₀ t0 t2 (n := 4)
    linarith
  have main : ‖pack p.dims (m1.fld .state) - pack p.dims (u (sched.length * dt))‖ ≤
      max K K' * (dt ^ 4 + defect stp) := by
    have b1 : min (min τ τ') 1 ≤ τ := (min_le_left _ _).trans (min_le_left _ _)
    have b2 : min (min τ τ') 1 ≤ τ' := (min_le_left _ _).trans (min_le_right _ _)
    rcases hstp with rfl | rfl
    · exact (key dt sched split m1 t0 (t1.trans b1) hs hT (hε.trans b1) he).trans
        (mul_le_mul_of_nonneg_right (le_max_left _ _) q0)
    · exact (key' dt sched split m1 t0 (t1.trans b2) hs hT (hε.trans b2) he).trans
        (mul_le_mul_of_nonneg_right (le_max_right _ _) q0)
  have hx : (sched.length : ℝ) * dt ∈ Icc 0 T := ⟨by positivity, hT⟩
  have m2 : ‖pack p.dims (m1.fld .state) - pack p.dims (u (sched.length * dt))‖ ≤ max K K' * 2 :=
    main.trans (mul_le_mul_of_nonneg_left q1 Kp)
  have i1 : pack p.dims (u (sched.length * dt)) ∈ Metric.closedBall (0 : Ix p.dims → ℝ) R := by
    rw [mem_closedBall_zero_iff]
    have := hB _ hx
    linarith [mul_nonneg Kp (zero_le_two (α := ℝ))]
  have i2 : pack p.dims (m1.fld .state) ∈ Metric.closedBall (0 : Ix p.dims → ℝ) R := by
    rw [mem_closedBall_zero_iff]
    have := hB _ hx
    have := norm_le_norm_add_norm_sub' (pack p.dims (m1.fld .state)) (pack p.dims (u (sched.length * dt)))
    linarith
  have lip := (convex_closedBall (0 : Ix p.dims → ℝ) R).norm_image_sub_le_of_norm_fderiv_le (f := G)
    (fun x _ => (sm.differentiable (by simp)).differentiableAt)
    (fun x hx => (hL x hx).trans (le_max_left L 0)) i1 i2
  have st := ((genSetup hd hc hH).newRun he).1
  rw [eng_pack hv hr st hv1, eng_pack hv hr ⟨rfl, fun _ _ => rfl⟩ hv0, pack_congr h0, ← Real.norm_eq_abs]
  change ‖G (pack p.dims (m1.fld .state)) - G (pack p.dims (u 0))‖ ≤ _
  rw [← const _ hx]
  refine lip.trans ?_
  rw [mul_assoc]
  exact mul_le_mul_of_nonneg_left main (le_max_right L 0)

/-- a wet state that is not at rest on a mesh of 24 cells, with rotation and a tracer; a solution exists for a
while, and for every bound on the step there are runs of both steppers that meet the hypotheses -/
example : ∃ (prm : Params ℝ) (m : Mem ℝ) (T : ℝ) (u : ℝ → Fld ℝ), RunValid p46 ∧ 2 ≤ p46.nx ∧ 2 ≤ p46.ny ∧
    prm.disable_h = false ∧ prm.disable_vn = false ∧ prm.visc_del2 ≤ 0 ∧ prm.visc_del4 ≤ 0 ∧
    0 < prm.eddy_diff2 ∧ prm.f0 ≠ 0 ∧ Ready p46 1 prm m ∧ 0 < T ∧
    Solves p46.dims m (SWModel.ofParams prm) T u ∧ EqFld p46.dims (m.fld .state) (u 0) ∧
    m.real (.h_cell .state) 0 1 0 ≠ m.real (.h_cell .state) 0 2 0 ∧ m.real (.vn_edge .state) 0 1 0 ≠ 0 ∧
    ∀ τ > 0, ∀ stp, ∃ (dt : ℝ) (sched : List (ℝ × ℝ)) (m1 : Mem ℝ), 0 < dt ∧ dt ≤ τ ∧ (∀ q ∈ sched, q.2 = dt) ∧
      sched ≠ [] ∧ sched.length * dt ≤ T ∧ sched.length * dt * defect stp ≤ τ ∧
      Exec p46.dims (stp.ctor p46.dims ++ stp.run p46.dims ⟨defaultKernels p46.dims.vl, true⟩
        (SWModel.ofParams prm) sched) m m1 := by
  set prm : Params ℝ := ⟨1, 10, 0, 0, 1, 0, false, false⟩ with hprm
  obtain ⟨m, hr, hx, -⟩ := exists_ready p46_valid (1 : ℝ) prm
    ⟨fun c _ => 1 + (c : ℝ) ^ 2, fun e _ => e, fun _ c _ => c⟩ zeroFld
  have eh : ∀ c k, m.real (.h_cell .state) 0 c k = 1 + (c : ℝ) ^ 2 := fun c k =>
    congrFun (congrFun (congrArg Fld.h hx) c) k
  have ev : ∀ e k, m.real (.vn_edge .state) 0 e k = (e : ℝ) := fun e k =>
    congrFun (congrFun (congrArg Fld.vn hx) e) k
  obtain ⟨T, u, T0, hu, h0⟩ := C80_solution_exists p46_run one_pos (prm := prm) rfl rfl hr fun c k _ _ _ _ => by
    rw [eh]; positivity
  refine ⟨prm, m, T, u, p46_run, by simp [p46], by simp [p46], rfl, rfl, le_rfl, le_rfl, by norm_num [hprm],
    by norm_num [hprm], hr, T0, hu, h0, by rw [eh, eh]; norm_num, by rw [ev]; norm_num, fun τ τ0 stp => ?_⟩
  obtain ⟨hd, hc⟩ := ready_ok p46_run hr
  have p1 : 0 < min (min τ T) 1 / 2 := half_pos (lt_min (lt_min τ0 T0) one_pos)
  have b1 : min (min τ T) 1 / 2 ≤ τ := (half_le_self (by positivity)).trans ((min_le_left _ _).trans (min_le_left _ _))
  have b2 : min (min τ T) 1 / 2 ≤ T := (half_le_self (by positivity)).trans ((min_le_left _ _).trans (min_le_right _ _))
  obtain ⟨m1, he⟩ := ((C40_safe_deterministic hd hc (noHook_ofParams prm) true).2.2 stp
    [((0 : ℝ), min (min τ T) 1 / 2)]).2.exists
  refine ⟨min (min τ T) 1 / 2, [(0, min (min τ T) 1 / 2)], m1, p1, b1, by simp, by simp, by simpa using b2, ?_, he⟩
  have : defect stp ≤ 1 := by cases stp <;> norm_num [defect]
  have := mul_le_of_le_one_right p1.le this
  simp only [List.length_cons, List.length_nil, zero_add, Nat.cast_one, one_mul]
  linarith

end Props
end
end Omega
