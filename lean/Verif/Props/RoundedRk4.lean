import Verif.Props.Rounding
import Verif.Refine.Calls

/-!
# C94: conservation by the classical stepper in rounded arithmetic

C76 is about the five-stage low-storage stepper.  Here the bounds are only asked of the states for which
the run calls `compute_tendency`; those accumulated between the stages are bounded by them.
-/

set_option linter.unusedVariables false
set_option linter.unusedSectionVars false

namespace Omega
noncomputable section
namespace Props

open Prog Model Refine Hex

variable {R : Type} [Scalar R] {val : R → ℝ} {u : ℝ} {p : MeshParams} {dc : R}

/-! ### One step on a row -/

/-- a tendency computed from scratch -/
theorem fresh_tend (hR : Rounded val u) (hu : u ≤ 1 / 1000) (hn : (0 : Int) ≤ p.nx * p.ny) {y : Int → R} {b : ℝ}
    (hy : TermOK val u p b y) (hb : 0 ≤ b) :
    TendOK val p (621 / 100 * b) (u * (683 / 10 * b)) (fun c => lit 0 + y c) := by
  have u0 := hR.nonneg
  have l0 : val (lit 0 : R) = 0 := by rw [hR.lit 0 (by norm_num)]; norm_num
  have d : ∀ c, IsCell p.nx p.ny c → |val (lit 0 + y c) - val (y c)| ≤ u * (31 / 5 * b) := fun c hc => by
    have := hR.add (lit 0) (y c)
    rw [l0, zero_add] at this
    exact this.trans (mul_le_mul_of_nonneg_left (hy.1 c hc) u0)
  constructor
  · intro c hc
    have h1 := d c hc
    have h2 := hy.1 c hc
    have h3 := abs_add_le (val (lit 0 + y c) - val (y c)) (val (y c))
    rw [sub_add_cancel] at h3
    have := mul_le_mul_of_nonneg_right hu hb
    linarith
  · have e : ∑ c ∈ upto (p.nx * p.ny), val (lit 0 + y c) =
        ∑ c ∈ upto (p.nx * p.ny), (val (lit 0 + y c) - val (y c)) + ∑ c ∈ upto (p.nx * p.ny), val (y c) := by
      rw [← Finset.sum_add_distrib]
      exact Finset.sum_congr rfl fun c _ => by ring
    rw [e]
    have s1 := abs_sum_upto hn fun c hc => d c (mem_cells.1 hc)
    refine (abs_add_le _ _).trans ((add_le_add s1 hy.2).trans ?_)
    have hn' : (0 : ℝ) ≤ ((p.nx * p.ny : ℤ) : ℝ) := by exact_mod_cast hn
    nlinarith [mul_nonneg hn' (mul_nonneg u0 hb)]

/-- growth of the accumulated state in a stage -/
theorem state_grow (hR : Rounded val u) (hu : u ≤ 1 / 1000) {h o dt b : R} {H B β : ℝ} (hH : |val h| ≤ H)
    (ho : |val o| ≤ B) (hβ : |val b| ≤ β) :
    |val (h + dt * b * o)| ≤ 1001 / 1000 * H + 1004 / 1000 * (|val dt| * β * B) := by
  have u0 := hR.nonneg
  have H0 := (abs_nonneg _).trans hH
  have B0 := (abs_nonneg _).trans ho
  have β0 := (abs_nonneg _).trans hβ
  have h1 : |val (dt * b)| ≤ 1001 / 1000 * (|val dt| * β) := (hR.mul_le _ _).trans
    (mul_le_mul (by linarith) (mul_le_mul_of_nonneg_left hβ (abs_nonneg _)) (by positivity) (by norm_num))
  have h2 : |val (dt * b * o)| ≤ 1001 / 1000 * (1001 / 1000 * (|val dt| * β) * B) := (hR.mul_le _ _).trans
    (mul_le_mul (by linarith) (mul_le_mul h1 ho (abs_nonneg _) (by positivity)) (by positivity) (by norm_num))
  have h3 : |val h + val (dt * b * o)| ≤ H + 1001 / 1000 * (1001 / 1000 * (|val dt| * β) * B) :=
    (abs_add_le _ _).trans (add_le_add hH h2)
  refine (hR.add_le _ _).trans ((mul_le_mul (by linarith : 1 + u ≤ 1001 / 1000) h3 (abs_nonneg _)
    (by norm_num)).trans ?_)
  have : 0 ≤ |val dt| * β * B := by positivity
  linarith

/-- the four stages of a step, on one row of a conserved quantity -/
theorem four_stages (hR : Rounded val u) (hu : u ≤ 1 / 1000) (hn : (0 : Int) ≤ p.nx * p.ny) {h y : ℕ → Int → R}
    {dt : R} {H b : ℝ} (hb : 0 ≤ b)
    (hh : ∀ i, i < 4 → ∀ c, IsCell p.nx p.ny c → h (i + 1) c = h i c + dt * rk4Coef.b i * (lit 0 + y i c))
    (hy : ∀ i, i < 4 → TermOK val u p b (y i)) (hH : ∀ c, IsCell p.nx p.ny c → |val (h 0 c)| ≤ H) :
    |∑ c ∈ upto (p.nx * p.ny), val (h 4 c) - ∑ c ∈ upto (p.nx * p.ny), val (h 0 c)| ≤
      ((p.nx * p.ny : ℤ) : ℝ) * (u * (401 / 100 * H + 91 * (|val dt| * b))) := by
  have u0 := hR.nonneg
  have b0 : |val (rk4Coef.b 0 : R)| ≤ 167 / 1000 :=
    coef_bounds hR hu (by norm_num) (by norm_num) (by norm_num) (by norm_num)
  have b1 : |val (rk4Coef.b 1 : R)| ≤ 334 / 1000 :=
    coef_bounds hR hu (by norm_num) (by norm_num) (by norm_num) (by norm_num)
  have b2 : |val (rk4Coef.b 2 : R)| ≤ 334 / 1000 :=
    coef_bounds hR hu (by norm_num) (by norm_num) (by norm_num) (by norm_num)
  have b3 : |val (rk4Coef.b 3 : R)| ≤ 167 / 1000 :=
    coef_bounds hR hu (by norm_num) (by norm_num) (by norm_num) (by norm_num)
  set X := |val dt| * b with hX
  have X0 : 0 ≤ X := by positivity
  have T := fun i hi => fresh_tend hR hu hn (hy i hi) hb
  have g1 : ∀ c, IsCell p.nx p.ny c → |val (h 1 c)| ≤ 1001 / 1000 * H + 105 / 100 * X := fun c hc => by
    rw [hh 0 (by norm_num) c hc]
    refine (state_grow hR hu (hH c hc) ((T 0 (by norm_num)).1 c hc) b0).trans ?_
    rw [show |val dt| * (167 / 1000) * (621 / 100 * b) = 167 / 1000 * (621 / 100) * X by rw [hX]; ring]
    linarith
  have H0 : ∀ c, IsCell p.nx p.ny c → 0 ≤ H := fun c hc => (abs_nonneg _).trans (hH c hc)
  have g2 : ∀ c, IsCell p.nx p.ny c → |val (h 2 c)| ≤ 1003 / 1000 * H + 314 / 100 * X := fun c hc => by
    rw [hh 1 (by norm_num) c hc]
    refine (state_grow hR hu (g1 c hc) ((T 1 (by norm_num)).1 c hc) b1).trans ?_
    rw [show |val dt| * (334 / 1000) * (621 / 100 * b) = 334 / 1000 * (621 / 100) * X by rw [hX]; ring]
    linarith [H0 c hc]
  have g3 : ∀ c, IsCell p.nx p.ny c → |val (h 3 c)| ≤ 1005 / 1000 * H + 523 / 100 * X := fun c hc => by
    rw [hh 2 (by norm_num) c hc]
    refine (state_grow hR hu (g2 c hc) ((T 2 (by norm_num)).1 c hc) b2).trans ?_
    rw [show |val dt| * (334 / 1000) * (621 / 100 * b) = 334 / 1000 * (621 / 100) * X by rw [hX]; ring]
    linarith [H0 c hc]
  have S : ∀ i (hi : i < 4), ∑ c ∈ upto (p.nx * p.ny), val (h (i + 1) c) = ∑ c ∈ upto (p.nx * p.ny),
      val (h i c + dt * rk4Coef.b i * (lit 0 + y i c)) := fun i hi =>
    Finset.sum_congr rfl fun c hc => by rw [hh i hi c (mem_cells.1 hc)]
  have s0 := state_stage (dt := dt) hR hu hn hH (T 0 (by norm_num)) (by positivity) b0 (by positivity)
  have s1 := state_stage (dt := dt) hR hu hn g1 (T 1 (by norm_num)) (by positivity) b1 (by positivity)
  have s2 := state_stage (dt := dt) hR hu hn g2 (T 2 (by norm_num)) (by positivity) b2 (by positivity)
  have s3 := state_stage (dt := dt) hR hu hn g3 (T 3 (by norm_num)) (by positivity) b3 (by positivity)
  rw [← S 0 (by norm_num)] at s0
  rw [← S 1 (by norm_num)] at s1
  rw [← S 2 (by norm_num)] at s2
  rw [← S 3 (by norm_num)] at s3
  have e : ∑ c ∈ upto (p.nx * p.ny), val (h 4 c) - ∑ c ∈ upto (p.nx * p.ny), val (h 0 c) =
    (∑ c ∈ upto (p.nx * p.ny), val (h (0 + 1) c) - ∑ c ∈ upto (p.nx * p.ny), val (h 0 c)) +
    ((∑ c ∈ upto (p.nx * p.ny), val (h (1 + 1) c) - ∑ c ∈ upto (p.nx * p.ny), val (h 1 c)) +
    ((∑ c ∈ upto (p.nx * p.ny), val (h (2 + 1) c) - ∑ c ∈ upto (p.nx * p.ny), val (h 2 c)) +
    (∑ c ∈ upto (p.nx * p.ny), val (h (3 + 1) c) - ∑ c ∈ upto (p.nx * p.ny), val (h 3 c)))) := by
    norm_num
  rw [e]
  refine (abs_add_le _ _).trans ((add_le_add s0 ((abs_add_le _ _).trans (add_le_add s1 ((abs_add_le _ _).trans
    (add_le_add s2 s3))))).trans ?_)
  have hn' : (0 : ℝ) ≤ ((p.nx * p.ny : ℤ) : ℝ) := by exact_mod_cast hn
  rcases hn.lt_or_eq with h | h
  · have h0 := H0 0 ⟨le_rfl, h⟩
    have eβ : ∀ β : ℝ, 1001 / 1000 * (|val dt| * β) * (u * (201 / 100 * (621 / 100 * b)) + u * (683 / 10 * b)) =
      1001 / 1000 * (201 / 100 * (621 / 100) + 683 / 10) * β * (u * X) := fun β => by rw [hX]; ring
    simp only [eβ]
    have z1 := mul_nonneg hn' (mul_nonneg u0 X0)
    have z2 := mul_nonneg hn' (mul_nonneg u0 h0)
    linarith
  · rw [← h]
    simp

/-! ### Runs -/

/-- layer `k` of the thickness and of the velocity of a state is bounded by `H` and `V` -/
def FldBounds (val : R → ℝ) (p : MeshParams) (k : Int) (H V : ℝ) (x : Fld R) : Prop :=
  (∀ c, IsCell p.nx p.ny c → |val (x.h c k)| ≤ H) ∧
    ∀ e, 0 ≤ e → e < 3 * (p.nx * p.ny) → |val (x.vn e k)| ≤ V

/-- layer `k` of tracer `l` of a state is bounded by `T` and its thickness is at least `b` -/
def FldTracer (val : R → ℝ) (p : MeshParams) (l k : Int) (T b : ℝ) (x : Fld R) : Prop :=
  ∀ c, IsCell p.nx p.ny c → |val (x.tr l c k)| ≤ T ∧ b ≤ |val (x.h c k)|

theorem FldBounds.congr {k : Int} (k0 : 0 ≤ k) (k1 : k < p.dims.nlayers) {H V : ℝ} {x y : Fld R}
    (e : EqFld p.dims x y) (h : FldBounds val p k H V x) : FldBounds val p k H V y :=
  ⟨fun c hc => by rw [← e.h c k hc.1 hc.2 k0 k1]; exact h.1 c hc,
   fun i h0 h1 => by rw [← e.vn i k h0 h1 k0 k1]; exact h.2 i h0 h1⟩

theorem FldTracer.congr {l k : Int} (l0 : 0 ≤ l) (l1 : l < p.dims.ntracers) (k0 : 0 ≤ k) (k1 : k < p.dims.nlayers)
    {T b : ℝ} {x y : Fld R} (e : EqFld p.dims x y) (h : FldTracer val p l k T b x) : FldTracer val p l k T b y :=
  fun c hc => by
    rw [← e.tr l c k l0 l1 hc.1 hc.2 k0 k1, ← e.h c k hc.1 hc.2 k0 k1]
    exact h c hc

/-- the states at which a classical step evaluates the tendency -/
def rk4At (S : Sys R) (t dt : R) (q : Fld R × Fld R) : ℕ → Fld R × Fld R
  | 0 => (q.2, S.tend .replace t q.1 q.2)
  | i + 1 =>
    let y := q.2.axpy (dt * rk4Coef.a i) (rk4At S t dt q i).2
    (y, S.tend .replace (t + rk4Coef.c i * dt) (rk4At S t dt q i).2 y)

/-- the states accumulated by a classical step -/
def rk4Sum (S : Sys R) (t dt : R) (q : Fld R × Fld R) : ℕ → Fld R
  | 0 => q.2
  | i + 1 => (rk4Sum S t dt q i).axpy (dt * rk4Coef.b i) (rk4At S t dt q i).2

theorem rk4Step_sum (S : Sys R) (t dt : R) (q : Fld R × Fld R) : (S.rk4Step t dt q).2 = rk4Sum S t dt q 4 := rfl

theorem rk4At_mem (S : Sys R) (t dt : R) (q : Fld R × Fld R) (i : ℕ) (hi : i < 4) :
    (rk4At S t dt q i).1 ∈ S.stepEvals t dt q .rk4 := by
  have : i = 0 ∨ i = 1 ∨ i = 2 ∨ i = 3 := by omega
  rcases this with rfl | rfl | rfl | rfl <;>
    simp [rk4At, Sys.stepEvals, Sys.rk4Evals, Sys.rk4Stage, List.range_succ]

theorem stepEvals_rk4 (S : Sys R) (t dt : R) (q : Fld R × Fld R) {x : Fld R} (h : x ∈ S.stepEvals t dt q .rk4) :
    ∃ i, i < 4 ∧ x = (rk4At S t dt q i).1 := by
  simp only [Sys.stepEvals, Sys.rk4Evals, Sys.rk4Stage, List.range_succ, List.range_zero, List.nil_append,
    List.cons_append, List.mem_cons, List.mem_append] at h
  norm_num at h
  rcases h with rfl | rfl | rfl | rfl
  · exact ⟨0, by norm_num, rfl⟩
  · exact ⟨1, by norm_num, rfl⟩
  · exact ⟨2, by norm_num, rfl⟩
  · exact ⟨3, by norm_num, rfl⟩

/-- the tendency behind an evaluation state -/
theorem rk4At_tend (S : Sys R) (t dt : R) (q : Fld R × Fld R) (i : ℕ) :
    ∃ t' o, (rk4At S t dt q i).2 = S.tend .replace t' o (rk4At S t dt q i).1 := by
  cases i with
  | zero => exact ⟨_, _, rfl⟩
  | succ i => exact ⟨_, _, rfl⟩

section

variable (hR : Rounded val u) (hu : u ≤ 1 / 1000) (hv : RunValid p) (h2x : 2 ≤ p.nx) (h2y : 2 ≤ p.ny)
  (hdc : 0 < val dc) {prm : Params R} {m : Mem R} (hr : Ready p dc prm m)
include hR hu hv h2x h2y hdc hr

theorem rk4_mass_step (hdh : prm.disable_h = false) {k : Int} {H V : ℝ} {t dt : R} {q : Fld R × Fld R}
    (hb : ∀ x ∈ (sysOf scalarF p (SWModel.ofParams prm) noHook m).stepEvals t dt q .rk4, FldBounds val p k H V x) :
    |∑ c ∈ upto (p.nx * p.ny), val (((sysOf scalarF p (SWModel.ofParams prm) noHook m).rk4Step t dt q).2.h c k) -
        ∑ c ∈ upto (p.nx * p.ny), val (q.2.h c k)| ≤
      ((p.nx * p.ny : ℤ) : ℝ) * H * u * (5 + 64 * (|val dt| * V / val dc)) := by
  set S := sysOf scalarF p (SWModel.ofParams prm) noHook m with hS
  have hx := hv.toValid.nx_pos
  have hn : (0 : Int) ≤ p.nx * p.ny := by nlinarith
  have z0 : IsCell p.nx p.ny 0 := ⟨le_rfl, by nlinarith⟩
  have hB := fun i hi => hb _ (rk4At_mem S t dt q i hi)
  have H0 := (abs_nonneg _).trans ((hB 0 (by norm_num)).1 0 z0)
  have V0 := (abs_nonneg _).trans ((hB 0 (by norm_num)).2 0 le_rfl (by nlinarith))
  have hN : (0 : ℝ) ≤ ((p.nx * p.ny : ℤ) : ℝ) := by exact_mod_cast hn
  have u0 := hR.nonneg
  have st := four_stages hR hu hn (dt := dt) (b := 7 / 10 * V / val dc * H) (H := H) (by positivity)
    (h := fun i c => (rk4Sum S t dt q i).h c k)
    (y := fun i => Fn.hadv m.mesh (fun e => (rk4At S t dt q i).1.vn e k)
      (Fn.hmean m.mesh fun c => (rk4At S t dt q i).1.h c k))
    (fun i hi c hc => by
      obtain ⟨t', o, e⟩ := rk4At_tend S t dt q i
      show (rk4Sum S t dt q i).h c k + dt * rk4Coef.b i * (rk4At S t dt q i).2.h c k = _
      rw [e]
      simp only [hS, Sys.tend, Sys.termsH, sysOf, SWModel.ofParams, hdh, noHook]
      rfl)
    (fun i hi => hadv_term hR hu hv.toValid h2x h2y hdc (hr.hex hv.toValid).1 (hB i hi).1 (hB i hi).2)
    (hB 0 (by norm_num)).1
  rw [rk4Step_sum]
  refine st.trans ?_
  have hz : 0 ≤ |val dt| * V / val dc * H := by positivity
  calc _ = ((p.nx * p.ny : ℤ) : ℝ) * u * (401 / 100 * H + 637 / 10 * (|val dt| * V / val dc * H)) := by ring
    _ ≤ ((p.nx * p.ny : ℤ) : ℝ) * u * (5 * H + 64 * (|val dt| * V / val dc * H)) := by
        refine mul_le_mul_of_nonneg_left ?_ (by positivity)
        linarith
    _ = _ := by ring

theorem rk4_tracer_step (hd2 : Scalar.lt (lit 0) prm.eddy_diff2 = false)
    (hd4 : Scalar.lt (lit 0) prm.eddy_diff4 = false) {l k : Int} {H V T b : ℝ} (b0 : 0 < b) {t dt : R}
    {q : Fld R × Fld R}
    (hb : ∀ x ∈ (sysOf scalarF p (SWModel.ofParams prm) noHook m).stepEvals t dt q .rk4,
      FldBounds val p k H V x ∧ FldTracer val p l k T b x) :
    |∑ c ∈ upto (p.nx * p.ny), val (((sysOf scalarF p (SWModel.ofParams prm) noHook m).rk4Step t dt q).2.tr l c k) -
        ∑ c ∈ upto (p.nx * p.ny), val (q.2.tr l c k)| ≤
      ((p.nx * p.ny : ℤ) : ℝ) * T * u * (5 + 64 * (H / b) * (|val dt| * V / val dc)) := by
  set S := sysOf scalarF p (SWModel.ofParams prm) noHook m with hS
  have hx := hv.toValid.nx_pos
  have hn : (0 : Int) ≤ p.nx * p.ny := by nlinarith
  have z0 : IsCell p.nx p.ny 0 := ⟨le_rfl, by nlinarith⟩
  have hB := fun i hi => hb _ (rk4At_mem S t dt q i hi)
  have H0 := (abs_nonneg _).trans ((hB 0 (by norm_num)).1.1 0 z0)
  have V0 := (abs_nonneg _).trans ((hB 0 (by norm_num)).1.2 0 le_rfl (by nlinarith))
  have T0 := (abs_nonneg _).trans ((hB 0 (by norm_num)).2 0 z0).1
  have hN : (0 : ℝ) ≤ ((p.nx * p.ny : ℤ) : ℝ) := by exact_mod_cast hn
  have u0 := hR.nonneg
  have st := four_stages hR hu hn (dt := dt) (b := 7 / 10 * V / val dc * (H * (T / b))) (H := T) (by positivity)
    (h := fun i c => (rk4Sum S t dt q i).tr l c k)
    (y := fun i => Fn.thadv m.mesh (fun e => (rk4At S t dt q i).1.vn e k)
      (Fn.ntr (fun c => (rk4At S t dt q i).1.tr l c k) fun c => (rk4At S t dt q i).1.h c k)
      (Fn.hmean m.mesh fun c => (rk4At S t dt q i).1.h c k))
    (fun i hi c hc => by
      obtain ⟨t', o, e⟩ := rk4At_tend S t dt q i
      show (rk4Sum S t dt q i).tr l c k + dt * rk4Coef.b i * (rk4At S t dt q i).2.tr l c k = _
      rw [e]
      simp only [hS, Sys.tend, Sys.termsTr, sysOf, SWModel.ofParams, hd2, hd4]
      rfl)
    (fun i hi => thadv_term hR hu hv.toValid h2x h2y hdc (hr.hex hv.toValid).1 b0 (hB i hi).1.1
      (fun c hc => ((hB i hi).2 c hc).2) (fun c hc => ((hB i hi).2 c hc).1) (hB i hi).1.2)
    (fun c hc => ((hB 0 (by norm_num)).2 c hc).1)
  rw [rk4Step_sum]
  refine st.trans ?_
  have hz : 0 ≤ H / b * (|val dt| * V / val dc) * T := by positivity
  calc _ = ((p.nx * p.ny : ℤ) : ℝ) * u * (401 / 100 * T + 637 / 10 * (H / b * (|val dt| * V / val dc) * T)) := by ring
    _ ≤ ((p.nx * p.ny : ℤ) : ℝ) * u * (5 * T + 64 * (H / b * (|val dt| * V / val dc) * T)) := by
        refine mul_le_mul_of_nonneg_left ?_ (by positivity)
        linarith
    _ = _ := by ring

/-- C94. Mass in rounded arithmetic: a run of a new classical stepper changes the sum of the thicknesses of a layer
by at most `u (5 + 64 |dt| V / dc)` times the number of cells times the largest thickness for each step, where `u` is
the unit roundoff and `H` and `V` bound the states for which the run calls `compute_tendency`. -/
theorem C94_mass_rounding_rk4 (hdh : prm.disable_h = false) {split : Bool} {k : Int} (k0 : 0 ≤ k)
    (k1 : k < p.dims.nlayers) {H V : ℝ} (sched : List (R × R)) {m' : Mem R}
    (hb : ∀ st m1, CallsAt p.dims ⟨defaultKernels p.dims.vl, split⟩ (SWModel.ofParams prm) .rk4 sched m st m1 →
      (∀ c, IsCell p.nx p.ny c → |val (m1.real (.h_cell st) 0 c k)| ≤ H) ∧
      ∀ e, 0 ≤ e → e < 3 * (p.nx * p.ny) → |val (m1.real (.vn_edge st) 0 e k)| ≤ V)
    (he : Exec p.dims (Stepper.rk4.ctor p.dims ++ Stepper.rk4.run p.dims ⟨defaultKernels p.dims.vl, split⟩
      (SWModel.ofParams prm) sched) m m') :
    |∑ c ∈ upto (p.nx * p.ny), val (m'.real (.h_cell .state) 0 c k) -
        ∑ c ∈ upto (p.nx * p.ny), val (m.real (.h_cell .state) 0 c k)| ≤
      ((p.nx * p.ny : ℤ) : ℝ) * H * u * (sched.map fun q => 5 + 64 * (|val q.2| * V / val dc)).sum := by
  have hS := hr.setup hv (noHook_ofParams prm)
  obtain ⟨-, -, w⟩ := hS.newRun he
  have hb' := (calls_iff hS split (N := FldBounds val p k H V) (fun _ _ e => FldBounds.congr k0 k1 e) .rk4 sched).1 hb
  have key : ∀ (L : List (R × R)) (q : Fld R × Fld R),
      (∀ x ∈ (sysOf scalarF p (SWModel.ofParams prm) noHook m).evals .rk4 L q, FldBounds val p k H V x) →
      |∑ c ∈ upto (p.nx * p.ny), val (((sysOf scalarF p (SWModel.ofParams prm) noHook m).run .rk4 L q).2.h c k) -
        ∑ c ∈ upto (p.nx * p.ny), val (q.2.h c k)| ≤
      ((p.nx * p.ny : ℤ) : ℝ) * H * u * (L.map fun q => 5 + 64 * (|val q.2| * V / val dc)).sum := by
    intro L
    induction L with
    | nil => intro q _; simp [Sys.run]
    | cons a L ih =>
      intro q hq
      have i1 := ih ((sysOf scalarF p (SWModel.ofParams prm) noHook m).step a.1 a.2 q .rk4)
        fun x hx => hq x (by simp [Sys.evals, hx])
      have i2 := rk4_mass_step hR hu hv h2x h2y hdc hr hdh (t := a.1) (dt := a.2) (q := q) (k := k) (H := H) (V := V)
        fun x hx => hq x (by simp [Sys.evals, hx])
      rw [List.map_cons, List.sum_cons]
      refine (abs_sub_le _ (∑ c ∈ upto (p.nx * p.ny),
        val (((sysOf scalarF p (SWModel.ofParams prm) noHook m).step a.1 a.2 q .rk4).2.h c k)) _).trans
        ((add_le_add i1 i2).trans (le_of_eq ?_))
      ring
  have := key sched _ hb'
  rw [Finset.sum_congr rfl fun c hc => by
    rw [show m'.real (.h_cell .state) 0 c k = _ from
      w.h c k (mem_cells.1 hc).1 (mem_cells.1 hc).2 k0 k1]]
  exact this

/-- C94. Tracer content in rounded arithmetic, without tracer diffusion. -/
theorem C94_tracer_rounding_rk4 (hd2 : Scalar.lt (lit 0) prm.eddy_diff2 = false)
    (hd4 : Scalar.lt (lit 0) prm.eddy_diff4 = false) {split : Bool} {l k : Int} (l0 : 0 ≤ l)
    (l1 : l < p.dims.ntracers) (k0 : 0 ≤ k) (k1 : k < p.dims.nlayers) {H V T b : ℝ} (b0 : 0 < b)
    (sched : List (R × R)) {m' : Mem R}
    (hb : ∀ st m1, CallsAt p.dims ⟨defaultKernels p.dims.vl, split⟩ (SWModel.ofParams prm) .rk4 sched m st m1 →
      ((∀ c, IsCell p.nx p.ny c → |val (m1.real (.h_cell st) 0 c k)| ≤ H) ∧
      ∀ e, 0 ≤ e → e < 3 * (p.nx * p.ny) → |val (m1.real (.vn_edge st) 0 e k)| ≤ V) ∧
      ∀ c, IsCell p.nx p.ny c → |val (m1.real (.tr_cell st) l c k)| ≤ T ∧ b ≤ |val (m1.real (.h_cell st) 0 c k)|)
    (he : Exec p.dims (Stepper.rk4.ctor p.dims ++ Stepper.rk4.run p.dims ⟨defaultKernels p.dims.vl, split⟩
      (SWModel.ofParams prm) sched) m m') :
    |∑ c ∈ upto (p.nx * p.ny), val (m'.real (.tr_cell .state) l c k) -
        ∑ c ∈ upto (p.nx * p.ny), val (m.real (.tr_cell .state) l c k)| ≤
      ((p.nx * p.ny : ℤ) : ℝ) * T * u * (sched.map fun q => 5 + 64 * (H / b) * (|val q.2| * V / val dc)).sum := by
  have hS := hr.setup hv (noHook_ofParams prm)
  obtain ⟨-, -, w⟩ := hS.newRun he
  have hb' := (calls_iff hS split (N := fun x => FldBounds val p k H V x ∧ FldTracer val p l k T b x)
    (fun _ _ e h => ⟨h.1.congr k0 k1 e, h.2.congr l0 l1 k0 k1 e⟩) .rk4 sched).1 hb
  have key : ∀ (L : List (R × R)) (q : Fld R × Fld R),
      (∀ x ∈ (sysOf scalarF p (SWModel.ofParams prm) noHook m).evals .rk4 L q,
        FldBounds val p k H V x ∧ FldTracer val p l k T b x) →
      |∑ c ∈ upto (p.nx * p.ny), val (((sysOf scalarF p (SWModel.ofParams prm) noHook m).run .rk4 L q).2.tr l c k) -
        ∑ c ∈ upto (p.nx * p.ny), val (q.2.tr l c k)| ≤
      ((p.nx * p.ny : ℤ) : ℝ) * T * u * (L.map fun q => 5 + 64 * (H / b) * (|val q.2| * V / val dc)).sum := by
    intro L
    induction L with
    | nil => intro q _; simp [Sys.run]
    | cons a L ih =>
      intro q hq
      have i1 := ih ((sysOf scalarF p (SWModel.ofParams prm) noHook m).step a.1 a.2 q .rk4)
        fun x hx => hq x (by simp [Sys.evals, hx])
      have i2 := rk4_tracer_step hR hu hv h2x h2y hdc hr hd2 hd4 b0 (t := a.1) (dt := a.2) (q := q) (l := l) (k := k)
        (H := H) (V := V) (T := T) fun x hx => hq x (by simp [Sys.evals, hx])
      rw [List.map_cons, List.sum_cons]
      refine (abs_sub_le _ (∑ c ∈ upto (p.nx * p.ny),
        val (((sysOf scalarF p (SWModel.ofParams prm) noHook m).step a.1 a.2 q .rk4).2.tr l c k)) _).trans
        ((add_le_add i1 i2).trans (le_of_eq ?_))
      ring
  have := key sched _ hb'
  rw [Finset.sum_congr rfl fun c hc => by
    rw [show m'.real (.tr_cell .state) l c k = _ from
      w.tr l c k l0 l1 (mem_cells.1 hc).1 (mem_cells.1 hc).2 k0 k1]]
  exact this

end

/-! ### The hypotheses can be met -/

/-- a step in doubles (without overflow), from the initial data and with the bounds of `C94_tracer_rounding_rk4` -/
example : ∃ (m m' : Mem Fl) (prm : Params Fl) (dt : Fl), RunValid p461 ∧ Ready p461 (lit 1 : Fl) prm m ∧
    0 < dt.val ∧ prm.disable_h = false ∧ Scalar.lt (lit 0) prm.eddy_diff2 = false ∧
    Scalar.lt (lit 0) prm.eddy_diff4 = false ∧
    (∀ c, (m.real (.tr_cell .state) 0 c 0).val = if c % 2 = 0 then 1 else 3) ∧
    (∀ st m1, CallsAt p461.dims ⟨defaultKernels p461.dims.vl, true⟩ (SWModel.ofParams prm) .rk4 [(lit 0, dt)] m st m1 →
      ((∀ c, IsCell p461.nx p461.ny c → |(m1.real (.h_cell st) 0 c 0).val| ≤ 3 / 2) ∧
      ∀ e, 0 ≤ e → e < 3 * (p461.nx * p461.ny) → |(m1.real (.vn_edge st) 0 e 0).val| ≤ 3 / 2) ∧
      ∀ c, IsCell p461.nx p461.ny c → |(m1.real (.tr_cell st) 0 c 0).val| ≤ 4 ∧
        1 / 2 ≤ |(m1.real (.h_cell st) 0 c 0).val|) ∧
    Exec p461.dims (Stepper.rk4.ctor p461.dims ++ Stepper.rk4.run p461.dims ⟨defaultKernels p461.dims.vl, true⟩
      (SWModel.ofParams prm) [(lit 0, dt)]) m m' := by
  have hR := fl_rounded
  have hu : ((2 : ℝ)⁻¹ ^ 53) ≤ 1 / 1000 := by norm_num
  have hv := p461_run
  have hl : 0 < p461.dims.nlayers := by
    rw [show p461.dims.nlayers = p46.dims.nlayers from rfl, p46_layers]
    norm_num
  let prm : Params Fl := ⟨lit 0, lit 9, lit 0, lit 0, lit 0, lit 0, false, true⟩
  have hd2 : Scalar.lt (lit 0) prm.eddy_diff2 = false := by
    show decide ((lit 0 : Fl).val < (lit 0 : Fl).val) = false
    simp
  have hd4 : Scalar.lt (lit 0) prm.eddy_diff4 = false := hd2
  have l1 : (lit 1 : Fl).val = 1 := by simpa using hR.lit 1 (by norm_num)
  have l3 : (lit 3 : Fl).val = 3 := by simpa using hR.lit 3 (by norm_num)
  have l0 : (lit 0 : Fl).val = 0 := by simpa using hR.lit 0 (by norm_num)
  obtain ⟨m, hr, hx, hy⟩ := exists_ready hv.toValid (lit 1 : Fl) prm
    ⟨fun _ _ => lit 1, fun _ _ => lit 1, fun _ c _ => if c % 2 = 0 then lit 1 else lit 3⟩
    ⟨fun _ _ => lit 0, fun _ _ => lit 0, fun _ _ _ => lit 0⟩
  let dt : Fl := lit 1 / lit 1000000
  have hdt : |dt.val| ≤ 2 / 1000000 := coef_bounds hR hu (by norm_num) (by norm_num) (by norm_num) (by norm_num)
  have hdt0 : 0 < dt.val := by
    have h := hR.div (lit 1) (lit 1000000) (by rw [hR.lit _ (by norm_num)]; norm_num)
    rw [hR.lit _ (by norm_num), hR.lit _ (by norm_num)] at h
    have := (abs_le.1 h).1
    norm_num at this
    linarith
  have ha : ∀ i, i < 3 → |(rk4Coef.a i : Fl).val| ≤ 1 := by
    intro i hi
    have : i = 0 ∨ i = 1 ∨ i = 2 := by omega
    rcases this with rfl | rfl | rfl
    · exact coef_bounds hR hu (by norm_num) (by norm_num) (by norm_num) (by norm_num)
    · exact coef_bounds hR hu (by norm_num) (by norm_num) (by norm_num) (by norm_num)
    · show |(lit 1 : Fl).val| ≤ 1
      rw [l1]; norm_num
  have hS := hr.setup hv (noHook_ofParams prm)
  set S := sysOf scalarF p461 (SWModel.ofParams prm) noHook m with hSd
  -- the states at which the tendency is evaluated are within a tenth of the initial data
  have key : ∀ i : ℕ, i < 4 →
      (∀ c, IsCell p461.nx p461.ny c → |((rk4At S (lit 0) dt (zeroFld, m.fld .state) i).1.h c 0).val - 1| ≤ 1 / 10) ∧
      (∀ e, 0 ≤ e → e < 3 * (p461.nx * p461.ny) →
        |((rk4At S (lit 0) dt (zeroFld, m.fld .state) i).1.vn e 0).val - 1| ≤ 1 / 10) ∧
      (∀ c, IsCell p461.nx p461.ny c → |((rk4At S (lit 0) dt (zeroFld, m.fld .state) i).1.tr 0 c 0).val -
        (if c % 2 = 0 then 1 else 3)| ≤ 1 / 10) ∧
      ((rk4At S (lit 0) dt (zeroFld, m.fld .state) i).2.vn = fun _ _ => lit 0) := by
    have ev : ∀ (t' : Fl) (o x : Fld Fl), o.vn = (fun _ _ => lit 0) → (S.tend .replace t' o x).vn = fun _ _ => lit 0 :=
      fun t' o x h => by
        funext e k
        simp only [hSd, Sys.tend, sysOf, SWModel.ofParams, prm, noHook, h]
        rfl
    have hbase : ∀ c : Int, |((if c % 2 = 0 then lit 1 else lit 3 : Fl)).val - (if c % 2 = 0 then 1 else 3)| ≤ 0 := by
      intro c
      split
      · rw [l1]; norm_num
      · rw [l3]; norm_num
    intro i
    induction i with
    | zero =>
      intro _
      show (∀ c, _ → |((m.fld .state).h c 0).val - 1| ≤ 1 / 10) ∧ (∀ e, _ → _ → |((m.fld .state).vn e 0).val - 1| ≤ _) ∧
        (∀ c, _ → |((m.fld .state).tr 0 c 0).val - _| ≤ _) ∧ (S.tend .replace (lit 0) zeroFld (m.fld .state)).vn = _
      rw [hx]
      refine ⟨fun c _ => ?_, fun e _ _ => ?_, fun c _ => (hbase c).trans (by norm_num), ev _ _ _ rfl⟩
      · show |(lit 1 : Fl).val - 1| ≤ _
        rw [l1]; norm_num
      · show |(lit 1 : Fl).val - 1| ≤ _
        rw [l1]; norm_num
    | succ i ih =>
      intro hi
      obtain ⟨k1, k2, k3, k4⟩ := ih (by omega)
      set A := rk4At S (lit 0) dt (zeroFld, m.fld .state) i with hA
      have bh : ∀ c, IsCell p461.nx p461.ny c → |(A.1.h c 0).val| ≤ 3 / 2 := fun c h => by
        have := abs_le.1 (k1 c h)
        exact abs_le.2 ⟨by linarith, by linarith⟩
      have bh' : ∀ c, IsCell p461.nx p461.ny c → 1 / 2 ≤ |(A.1.h c 0).val| := fun c h => by
        have := abs_le.1 (k1 c h)
        exact le_trans (by linarith) (le_abs_self _)
      have bv : ∀ e, 0 ≤ e → e < 3 * (p461.nx * p461.ny) → |(A.1.vn e 0).val| ≤ 3 / 2 := fun e h h' => by
        have := abs_le.1 (k2 e h h')
        exact abs_le.2 ⟨by linarith, by linarith⟩
      have bt : ∀ c, IsCell p461.nx p461.ny c → |(A.1.tr 0 c 0).val| ≤ 4 := fun c h => by
        have := abs_le.1 (k3 c h)
        split at this <;> exact abs_le.2 ⟨by linarith, by linarith⟩
      have hx' := (hr.hex hv.toValid).1
      have t1 := fresh_tend hR hu (by decide) (hadv_term hR hu hv.toValid (by decide) (by decide)
        (by rw [l1]; norm_num) hx' bh bv) (by rw [l1]; norm_num)
      have t2 := fresh_tend hR hu (by decide) (thadv_term hR hu hv.toValid (by decide) (by decide)
        (by rw [l1]; norm_num) hx' (b := 1 / 2) (by norm_num) bh bh' bt bv) (by rw [l1]; norm_num)
      rw [l1] at t1 t2
      obtain ⟨t', o, e⟩ := rk4At_tend S (lit 0) dt (zeroFld, m.fld .state) i
      rw [← hA] at e
      have eh : ∀ c, A.2.h c 0 = lit 0 + Fn.hadv m.mesh (fun e => A.1.vn e 0)
          (Fn.hmean m.mesh fun c => A.1.h c 0) c := fun c => by
        rw [e]
        simp only [hSd, Sys.tend, Sys.termsH, sysOf, SWModel.ofParams, prm, noHook]
        rfl
      have et : ∀ c, A.2.tr 0 c 0 = lit 0 + Fn.thadv m.mesh (fun e => A.1.vn e 0)
          (Fn.ntr (fun c => A.1.tr 0 c 0) fun c => A.1.h c 0) (Fn.hmean m.mesh fun c => A.1.h c 0) c := fun c => by
        rw [e]
        simp only [hSd, Sys.tend, Sys.termsTr, sysOf, SWModel.ofParams, hd2, hd4]
        rfl
      show (∀ c, _ → |((m.fld .state).h c 0 + dt * rk4Coef.a i * A.2.h c 0).val - 1| ≤ 1 / 10) ∧
        (∀ e, _ → _ → |((m.fld .state).vn e 0 + dt * rk4Coef.a i * A.2.vn e 0).val - 1| ≤ _) ∧
        (∀ c, _ → |((m.fld .state).tr 0 c 0 + dt * rk4Coef.a i * A.2.tr 0 c 0).val - _| ≤ _) ∧
        (S.tend .replace _ A.2 _).vn = _
      rw [hx]
      refine ⟨fun c h => ?_, fun e h h' => ?_, fun c h => ?_, ev _ _ _ k4⟩
      · have := drift_state (h := (lit 1 : Fl)) (x := 1) (s := 0) hR hu (by rw [l1]; norm_num) (by norm_num) hdt
          (ha i (by omega)) (o := A.2.h c 0) (by
            rw [eh]
            exact (t1.1 c h).trans (by norm_num))
        linarith
      · have := drift_state (h := (lit 1 : Fl)) (x := 1) (s := 0) hR hu (by rw [l1]; norm_num) (by norm_num) hdt
          (ha i (by omega)) (o := A.2.vn e 0) (by
            rw [k4, l0]
            norm_num)
        linarith
      · have := drift_state (h := (if c % 2 = 0 then lit 1 else lit 3 : Fl)) (x := if c % 2 = 0 then 1 else 3) (s := 0)
          hR hu (hbase c) (by split <;> norm_num) hdt (ha i (by omega)) (o := A.2.tr 0 c 0) (by
            rw [et]
            exact (t2.1 c h).trans (by norm_num))
        linarith
  obtain ⟨m', r, -⟩ := new_run_runs hS .rk4 [(lit 0, dt)]
  refine ⟨m, m', prm, dt, hv, hr, hdt0, rfl, hd2, hd2, fun c => ?_, fun st m1 hc => ?_, (r true).exec⟩
  · rw [show m.real (.tr_cell .state) 0 c 0 = _ from congrFun (congrFun (congrFun (congrArg Fld.tr hx) 0) c) 0]
    show (if c % 2 = 0 then lit 1 else lit 3 : Fl).val = _
    split <;> assumption
  · refine (calls_iff hS true (N := fun x => FldBounds Fl.val p461 0 (3 / 2) (3 / 2) x ∧
      FldTracer Fl.val p461 0 0 4 (1 / 2) x) (fun _ _ e h => ⟨h.1.congr le_rfl hl e,
      h.2.congr le_rfl (by decide) le_rfl hl e⟩) .rk4 [(lit 0, dt)]).2 (fun x hx => ?_) st m1 hc
    simp only [Sys.evals, List.append_nil] at hx
    obtain ⟨i, hi, rfl⟩ := stepEvals_rk4 S (lit 0) dt _ hx
    obtain ⟨k1, k2, k3, -⟩ := key i hi
    refine ⟨⟨fun c h => ?_, fun e h h' => ?_⟩, fun c h => ⟨?_, ?_⟩⟩
    · have := abs_le.1 (k1 c h)
      exact abs_le.2 ⟨by linarith, by linarith⟩
    · have := abs_le.1 (k2 e h h')
      exact abs_le.2 ⟨by linarith, by linarith⟩
    · have := abs_le.1 (k3 c h)
      split at this <;> exact abs_le.2 ⟨by linarith, by linarith⟩
    · have := abs_le.1 (k1 c h)
      exact le_trans (by linarith) (le_abs_self _)

end Props
end
end Omega
