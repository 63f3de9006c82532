import Verif.Lib.Rounding
import Verif.Refine.HexReal
import Verif.Props.TestRuns
import Verif.Props.TracerInputs

/-!
# C76: conservation in rounded arithmetic
-/

set_option linter.unusedVariables false
set_option linter.unusedSectionVars false

namespace Omega
noncomputable section
namespace Props

open Prog Model Refine Hex

variable {R : Type} [Scalar R] {val : R → ℝ} {u : ℝ} {p : MeshParams} {dc : R}

/-! ### The mesh -/

/-- side length over area, as the kernels compute it -/
def sideOverArea (dc : R) : R :=
  dc * Scalar.sqrt (lit 3) / lit 3 * (lit 1 / (dc * dc * Scalar.sqrt (lit 3) / lit 2))

theorem side_le (hR : Rounded val u) (hu : u ≤ 1 / 1000) (hdc : 0 < val dc) :
    |val (sideOverArea dc)| ≤ 7 / 10 / val dc := by
  have u0 := hR.nonneg
  have l3 : val (lit 3 : R) = 3 := by rw [hR.lit 3 (by norm_num)]; norm_num
  have l2 : val (lit 2 : R) = 2 := by rw [hR.lit 2 (by norm_num)]; norm_num
  have l1 : val (lit 1 : R) = 1 := by rw [hR.lit 1 (by norm_num)]; norm_num
  set s := Scalar.sqrt (lit 3 : R)
  have hs : 0 < |val s| := by
    have := hR.sqrt (lit 3) (by rw [l3]; norm_num)
    rw [l3] at this
    have h3 : 0 < √(3 : ℝ) := Real.sqrt_pos.2 (by norm_num)
    have h4 := abs_sub_abs_le_abs_sub √(3 : ℝ) (val s)
    rw [abs_sub_comm, abs_of_pos h3] at h4
    nlinarith
  set D := val dc
  have d1 : |val (dc * s)| ≤ (1 + u) * (D * |val s|) := by
    have := hR.mul_le dc s
    rwa [abs_of_pos hdc] at this
  have d2 : |val (dc * s / lit 3)| ≤ (1 + u) * ((1 + u) * (D * |val s|) / 3) := by
    have := hR.div_le (dc * s) (lit 3) (by rw [l3]; norm_num)
    rw [l3, abs_of_pos (by norm_num : (0 : ℝ) < 3)] at this
    refine this.trans ?_
    gcongr
  have a1 : (1 - u) * (D * D) ≤ |val (dc * dc)| := by
    have := hR.mul_ge dc dc
    rwa [abs_of_pos hdc] at this
  have hv1 : 0 ≤ 1 - u := by linarith
  have a2 : (1 - u) * ((1 - u) * (D * D) * |val s|) ≤ |val (dc * dc * s)| :=
    le_trans (by gcongr) (hR.mul_ge (dc * dc) s)
  have a3 : (1 - u) * ((1 - u) * ((1 - u) * (D * D) * |val s|) / 2) ≤ |val (dc * dc * s / lit 2)| := by
    have := hR.div_ge (dc * dc * s) (lit 2) (by rw [l2]; norm_num)
    rw [l2, abs_of_pos (by norm_num : (0 : ℝ) < 2)] at this
    refine le_trans ?_ this
    gcongr
  set A := dc * dc * s / lit 2
  have hA : 0 < |val A| := by
    refine lt_of_lt_of_le ?_ a3
    have : 0 < 1 - u := by linarith
    positivity
  have i1 : |val (lit 1 / A)| ≤ (1 + u) * (1 / |val A|) := by
    have := hR.div_le (lit 1) A (abs_pos.1 hA)
    rwa [l1, abs_one] at this
  have w1 : |val (sideOverArea dc)| ≤
      (1 + u) * ((1 + u) * ((1 + u) * (D * |val s|) / 3) * ((1 + u) * (1 / |val A|))) := by
    refine (hR.mul_le _ _).trans ?_
    gcongr
  refine w1.trans ?_
  have key : (1 + u) ^ 4 * (D ^ 2 * |val s|) ≤ 3 * |val A| * (7 / 10) := by
    have k1 : (1 + u) ^ 4 ≤ 1005 / 1000 := by
      have := pow_unit u0 hu (n := 4) (by norm_num)
      norm_num at this
      linarith
    have k2 : 997 / 1000 ≤ (1 - u) ^ 3 := by nlinarith [mul_nonneg u0 u0, mul_nonneg u0 (mul_nonneg u0 u0)]
    have hp : 0 ≤ D ^ 2 * |val s| := by positivity
    nlinarith [mul_le_mul_of_nonneg_right k1 hp, mul_le_mul_of_nonneg_right k2 hp]
  rw [show (1 + u) * ((1 + u) * ((1 + u) * (D * |val s|) / 3) * ((1 + u) * (1 / |val A|))) =
    (1 + u) ^ 4 * D * |val s| / (3 * |val A|) by field_simp, div_le_div_iff₀ (by positivity) hdc]
  linarith [key]

/-- A sum over the sides of a cell with opposite signs on the two sides of an edge, in rounded
arithmetic. -/
theorem sides_round (hR : Rounded val u) (hx : 1 ≤ p.nx) {c : Int} (hc : IsCell p.nx p.ny c) {t : Int → R}
    {n : ℕ} {W G : ℝ} {g : Int → ℝ} (hg : ∀ e, 0 ≤ e → e < 3 * (p.nx * p.ny) → |g e| ≤ G)
    (ht : ∀ j, 0 ≤ j → j < 6 → Near u n (val (t j)) (W * ((if j < 3 then -1 else 1) * g (E p.nx p.ny c j)))) :
    |val (foldI 6 (lit 0) fun j s => s - t j) + W * Dv p.nx p.ny g c| ≤
      ((1 + u) ^ (6 + n) - 1) * (6 * (|W| * G)) := by
  have h := fold_sub hR (p := t) (q := fun j => W * ((if j < 3 then -1 else 1) * g (E p.nx p.ny c j))) (m := n) 6
    fun j hj => ht j (by omega) (by omega)
  have e : ∑ j ∈ Finset.range 6, (fun j : Int => W * ((if j < 3 then -1 else 1) * g (E p.nx p.ny c j))) (j : ℕ) =
      W * Dv p.nx p.ny g c := by
    simp only [Finset.sum_range_succ, Finset.sum_range_zero, Nat.cast_zero, Nat.cast_one, Nat.cast_ofNat, zero_add]
    unfold Dv
    norm_num
    ring
  rw [e] at h
  refine h.trans (mul_le_mul_of_nonneg_left ?_ ?_)
  · calc _ ≤ ∑ j ∈ Finset.range 6, |W| * G := by
          refine Finset.sum_le_sum (g := fun _ => |W| * G) fun j hj => ?_
          have hj' : (j : ℕ) < 6 := Finset.mem_range.1 hj
          have hr := E_range (ny := p.ny) hx hc (j : Int) (by omega) (by omega)
          rw [abs_mul, abs_mul]
          have : |(if (j : Int) < 3 then (-1 : ℝ) else 1)| = 1 := by split_ifs <;> simp
          rw [this, one_mul]
          exact mul_le_mul_of_nonneg_left (hg _ hr.1 hr.2) (abs_nonneg _)
      _ = 6 * (|W| * G) := by simp
  · have := one_le_pow₀ (by linarith [hR.nonneg] : (1 : ℝ) ≤ 1 + u) (n := 6 + n)
    linarith

/-- signs on the sides of a cell -/
theorem sign_val (hR : Rounded val u) (hv : MeshParams.Valid p) (h2x : 2 ≤ p.nx) (h2y : 2 ≤ p.ny) {m : Mem R}
    (hm : IsHexMesh p dc m) {c : Int} (hc : IsCell p.nx p.ny c) {j : Int} (h0 : 0 ≤ j) (h6 : j < 6) :
    val (m.real .edge_sign_on_cell 0 c j) = if j < 3 then -1 else 1 := by
  rw [hm.sign_cell c hc j h0 h6]
  by_cases h3 : j < 3
  · have e : coe p.nx p.ny (E p.nx p.ny c j) 0 ≠ c := by
      rw [coe_zero, E_div_lo h0 h3, E_mod h0 h6]
      exact inv_ne h2x h2y hc _
    rw [if_neg e, if_pos h3, hR.lit _ (by norm_num)]
    norm_num
  · rw [if_pos (coe_E_hi hv.nx_pos hc (by omega) h6), if_neg h3, hR.lit _ (by norm_num)]
    norm_num

/-- what the two transport terms have in common -/
def TermOK (val : R → ℝ) (u : ℝ) (p : MeshParams) (B : ℝ) (y : Int → R) : Prop :=
  (∀ c, IsCell p.nx p.ny c → |val (y c)| ≤ 31 / 5 * B) ∧
    |∑ c ∈ upto (p.nx * p.ny), val (y c)| ≤ ((p.nx * p.ny : ℤ) : ℝ) * (62 * u * B)

theorem card_upto {n : Int} (hn : 0 ≤ n) (b : ℝ) : ∑ _c ∈ upto n, b = (n : ℝ) * b := by
  rw [Finset.sum_const, Int.card_Ico, nsmul_eq_mul]
  congr 1
  have : ((n - 0).toNat : ℤ) = n := by omega
  exact_mod_cast this

theorem abs_sum_upto {n : Int} (hn : 0 ≤ n) {f : Int → ℝ} {b : ℝ} (h : ∀ c ∈ upto n, |f c| ≤ b) :
    |∑ c ∈ upto n, f c| ≤ (n : ℝ) * b := by
  rw [← card_upto hn b]
  exact (Finset.abs_sum_le_sum_abs _ _).trans (Finset.sum_le_sum h)

theorem Dv_le {nx ny : Int} (hx : 1 ≤ nx) {G : ℝ} {g : Int → ℝ}
    (hg : ∀ e, 0 ≤ e → e < 3 * (nx * ny) → |g e| ≤ G) {c : Int} (hc : IsCell nx ny c) : |Dv nx ny g c| ≤ 6 * G := by
  have h : ∀ j : Int, 0 ≤ j → j < 6 → |g (E nx ny c j)| ≤ G := fun j h0 h6 => by
    have hr := E_range (ny := ny) hx hc j h0 h6
    exact hg _ hr.1 hr.2
  have a0 := abs_le.1 (h 0 (by omega) (by omega)); have a1 := abs_le.1 (h 1 (by omega) (by omega))
  have a2 := abs_le.1 (h 2 (by omega) (by omega)); have a3 := abs_le.1 (h 3 (by omega) (by omega))
  have a4 := abs_le.1 (h 4 (by omega) (by omega)); have a5 := abs_le.1 (h 5 (by omega) (by omega))
  unfold Dv
  exact abs_le.2 ⟨by linarith [a0.2, a1.2, a2.2, a3.1, a4.1, a5.1], by linarith [a0.1, a1.1, a2.1, a3.2, a4.2, a5.2]⟩

theorem termOK_of (hR : Rounded val u) (hu : u ≤ 1 / 1000) (hx : 1 ≤ p.nx) (hy : 1 ≤ p.ny) {n : ℕ} (hn : n ≤ 4)
    {y : Int → R} {W G B : ℝ} {g : Int → ℝ} (hWG : |W| * G ≤ 101 / 100 * B) (hB : 0 ≤ B)
    (hg : ∀ e, 0 ≤ e → e < 3 * (p.nx * p.ny) → |g e| ≤ G)
    (h : ∀ c, IsCell p.nx p.ny c → |val (y c) + W * Dv p.nx p.ny g c| ≤
      ((1 + u) ^ (6 + n) - 1) * (6 * (|W| * G))) : TermOK val u p B y := by
  have u0 := hR.nonneg
  have hU : (1 + u) ^ (6 + n) ≤ 1 + 51 / 5 * u := by
    refine (pow_le_pow_right₀ (by linarith) (by omega : 6 + n ≤ 10)).trans ?_
    have := pow_unit u0 hu (n := 10) (by norm_num)
    norm_num at this
    linarith
  have h1 := one_le_pow₀ (by linarith : (1 : ℝ) ≤ 1 + u) (n := 6 + n)
  have h' : ∀ c, IsCell p.nx p.ny c → |val (y c) + W * Dv p.nx p.ny g c| ≤ 62 * u * B := fun c hc => by
    refine (h c hc).trans ?_
    have : ((1 + u) ^ (6 + n) - 1) * (6 * (|W| * G)) ≤ (51 / 5 * u) * (6 * (101 / 100 * B)) := by
      refine mul_le_mul (by linarith) (by linarith) ?_ (by positivity)
      have := (abs_nonneg _).trans (hg 0 le_rfl (by nlinarith))
      positivity
    nlinarith [mul_nonneg u0 hB]
  have hn0 : (0 : Int) ≤ p.nx * p.ny := by nlinarith
  constructor
  · intro c hc
    have a := h' c hc
    have b : |W * Dv p.nx p.ny g c| ≤ 6 * (101 / 100 * B) := by
      rw [abs_mul]
      have := mul_le_mul_of_nonneg_left (Dv_le hx hg hc) (abs_nonneg W)
      linarith
    have := abs_sub_abs_le_abs_sub (val (y c)) (-(W * Dv p.nx p.ny g c))
    rw [sub_neg_eq_add, abs_neg] at this
    nlinarith [mul_nonneg u0 hB]
  · have e : ∑ c ∈ upto (p.nx * p.ny), val (y c) =
        ∑ c ∈ upto (p.nx * p.ny), (val (y c) + W * Dv p.nx p.ny g c) := by
      rw [Finset.sum_add_distrib, ← Finset.mul_sum, sum_Dv hx, mul_zero, add_zero]
    rw [e]
    exact abs_sum_upto hn0 fun c hc => h' c (mem_cells.1 hc)

/-! ### The two transport terms -/

theorem half_le (hR : Rounded val u) : |val (half : R)| ≤ (1 + u) / 2 := by
  have := hR.div_le (lit 1) (lit 2) (by rw [hR.lit 2 (by norm_num)]; norm_num)
  rw [hR.lit 1 (by norm_num), hR.lit 2 (by norm_num)] at this
  norm_num at this
  exact this.trans (by linarith)

/-- the mean of two numbers in rounded arithmetic, in either order of factors -/
theorem mean_le (hR : Rounded val u) {a b : R} {H : ℝ} (ha : |val a| ≤ H) (hb : |val b| ≤ H) :
    |val (half * (a + b))| ≤ (1 + u) ^ 3 * H ∧ |val ((a + b) * half)| ≤ (1 + u) ^ 3 * H := by
  have u0 := hR.nonneg
  have h1 := half_le hR
  have h2 : |val (a + b)| ≤ (1 + u) * (2 * H) := (hR.add_le a b).trans (by
    gcongr
    exact (abs_add_le _ _).trans (by linarith))
  have h3 : (1 + u) * ((1 + u) / 2 * ((1 + u) * (2 * H))) = (1 + u) ^ 3 * H := by ring
  constructor
  · rw [← h3]
    exact (hR.mul_le _ _).trans (by gcongr)
  · rw [← h3]
    refine (hR.mul_le _ _).trans ?_
    rw [mul_comm |val (a + b)|]
    gcongr

variable {m : Mem R}

section

variable (hR : Rounded val u) (hu : u ≤ 1 / 1000) (hv : MeshParams.Valid p) (h2x : 2 ≤ p.nx) (h2y : 2 ≤ p.ny)
  (hdc : 0 < val dc) (hm : IsHexMesh p dc m)
include hR hu hv h2x h2y hdc hm

theorem hadv_term {h v : Int → R} {H V : ℝ} (hH : ∀ c, IsCell p.nx p.ny c → |val (h c)| ≤ H)
    (hV : ∀ e, 0 ≤ e → e < 3 * (p.nx * p.ny) → |val (v e)| ≤ V) :
    TermOK val u p (7 / 10 * V / val dc * H) (Fn.hadv m.mesh v (Fn.hmean m.mesh h)) := by
  have u0 := hR.nonneg
  have hx := hv.nx_pos
  have hU3 : (1 + u) ^ 3 ≤ 101 / 100 := by
    have := pow_unit u0 hu (n := 3) (by norm_num)
    norm_num at this
    linarith
  have z0 : IsCell p.nx p.ny 0 := ⟨le_rfl, by nlinarith⟩
  have H0 := (abs_nonneg _).trans (hH 0 z0)
  have V0 := (abs_nonneg _).trans (hV 0 le_rfl (by nlinarith))
  have hF : ∀ e, 0 ≤ e → e < 3 * (p.nx * p.ny) → |val (Fn.hmean m.mesh h e)| ≤ (1 + u) ^ 3 * H := fun e h0 h1 => by
    have c0 := hH _ (coe_isCell hx h0 h1 (s := 0))
    have c1 := hH _ (coe_isCell hx h0 h1 (s := 1))
    have e0 : m.mesh.coe e 0 = Hex.coe p.nx p.ny e 0 := hm.coe e h0 h1 0 (by omega) (by omega)
    have e1 : m.mesh.coe e 1 = Hex.coe p.nx p.ny e 1 := hm.coe e h0 h1 1 (by omega) (by omega)
    unfold Fn.hmean
    rw [e0, e1]
    exact (mean_le hR c0 c1).1
  refine termOK_of hR hu hx (by omega) (n := 3) (by omega) (W := val (sideOverArea dc)) (G := (1 + u) ^ 3 * H * V)
    (g := fun e => val (Fn.hmean m.mesh h e) * val (v e)) ?_ (by positivity) ?_ ?_
  · have := side_le (dc := dc) hR hu hdc
    calc _ ≤ 7 / 10 / val dc * (101 / 100 * H * V) := by gcongr
      _ = _ := by ring
  · intro e h0 h1
    rw [abs_mul]
    exact mul_le_mul (hF e h0 h1) (hV e h0 h1) (abs_nonneg _) (by positivity)
  · intro c hc
    have hneoc : m.mesh.neoc c = 6 := hm.neoc c hc
    unfold Fn.hadv
    rw [hneoc]
    refine sides_round hR hx hc (g := fun e => val (Fn.hmean m.mesh h e) * val (v e)) (n := 3) ?_ fun j h0 h6 => ?_
    · intro e h0 h1
      rw [abs_mul]
      exact mul_le_mul (hF e h0 h1) (hV e h0 h1) (abs_nonneg _) (by positivity)
    · have hr := E_range (ny := p.ny) hx hc j h0 h6
      have e1 : m.mesh.eoc c j = E p.nx p.ny c j := hm.eoc c hc j h0 h6
      have e2 : m.mesh.dv (E p.nx p.ny c j) = dc * Scalar.sqrt (lit 3) / lit 3 := hm.dv_edge _ hr.1 hr.2
      have e3 : m.mesh.areaCell c = dc * dc * Scalar.sqrt (lit 3) / lit 2 := hm.area_cell c hc
      have e4 : val (m.mesh.signC c j) = if j < 3 then -1 else 1 := sign_val hR hv h2x h2y hm hc h0 h6
      rw [e1, e2, e3]
      have n1 := Near.mul u0 (near_refl u (val (sideOverArea dc))) (near_refl u (val (m.mesh.signC c j)))
        (hR.mul (sideOverArea dc) (m.mesh.signC c j))
      have n2 := Near.mul u0 n1 (near_refl u (val (Fn.hmean m.mesh h (E p.nx p.ny c j)))) (hR.mul _ _)
      have n3 := Near.mul u0 n2 (near_refl u (val (v (E p.nx p.ny c j)))) (hR.mul _ _)
      rw [e4] at n3
      have e5 : ∀ W s F v : ℝ, W * (s * (F * v)) = W * s * F * v := fun W s F v => by ring
      rw [e5]
      exact n3

theorem thadv_term {h v tr : Int → R} {H V T b : ℝ} (hb : 0 < b) (hH : ∀ c, IsCell p.nx p.ny c → |val (h c)| ≤ H)
    (hb' : ∀ c, IsCell p.nx p.ny c → b ≤ |val (h c)|) (hT : ∀ c, IsCell p.nx p.ny c → |val (tr c)| ≤ T)
    (hV : ∀ e, 0 ≤ e → e < 3 * (p.nx * p.ny) → |val (v e)| ≤ V) :
    TermOK val u p (7 / 10 * V / val dc * (H * (T / b)))
      (Fn.thadv m.mesh v (Fn.ntr tr h) (Fn.hmean m.mesh h)) := by
  have u0 := hR.nonneg
  have hx := hv.nx_pos
  have hU8 : (1 + u) ^ 8 ≤ 101 / 100 := by
    have := pow_unit u0 hu (n := 8) (by norm_num)
    norm_num at this
    linarith
  have z0 : IsCell p.nx p.ny 0 := ⟨le_rfl, by nlinarith⟩
  have H0 := (abs_nonneg _).trans (hH 0 z0)
  have T0 := (abs_nonneg _).trans (hT 0 z0)
  have V0 := (abs_nonneg _).trans (hV 0 le_rfl (by nlinarith))
  have e0 : ∀ e, 0 ≤ e → e < 3 * (p.nx * p.ny) → m.mesh.coe e 0 = Hex.coe p.nx p.ny e 0 :=
    fun e h0 h1 => hm.coe e h0 h1 0 (by omega) (by omega)
  have e1 : ∀ e, 0 ≤ e → e < 3 * (p.nx * p.ny) → m.mesh.coe e 1 = Hex.coe p.nx p.ny e 1 :=
    fun e h0 h1 => hm.coe e h0 h1 1 (by omega) (by omega)
  have hF : ∀ e, 0 ≤ e → e < 3 * (p.nx * p.ny) → |val (Fn.hmean m.mesh h e)| ≤ (1 + u) ^ 3 * H := fun e h0 h1 => by
    unfold Fn.hmean
    rw [e0 e h0 h1, e1 e h0 h1]
    exact (mean_le hR (hH _ (coe_isCell hx h0 h1)) (hH _ (coe_isCell hx h0 h1))).1
  have hq : ∀ c, IsCell p.nx p.ny c → |val (Fn.ntr tr h c)| ≤ (1 + u) ^ 2 * (T / b) := fun c hc => by
    have hp : 0 < |val (h c)| := hb.trans_le (hb' c hc)
    have d := hR.div_le (lit 1) (h c) (abs_pos.1 hp)
    rw [hR.lit 1 (by norm_num), Int.cast_one, abs_one] at d
    have d' : |val (lit 1 / h c)| ≤ (1 + u) * (1 / b) := d.trans (by
      gcongr
      exact hb' c hc)
    unfold Fn.ntr
    refine (hR.mul_le _ _).trans ?_
    calc _ ≤ (1 + u) * (T * ((1 + u) * (1 / b))) := by
          gcongr
          exact hT c hc
      _ = _ := by ring
  have hQ : ∀ e, 0 ≤ e → e < 3 * (p.nx * p.ny) →
      |val ((Fn.ntr tr h (m.mesh.coe e 0) + Fn.ntr tr h (m.mesh.coe e 1)) * half)| ≤
        (1 + u) ^ 5 * (T / b) := fun e h0 h1 => by
    rw [e0 e h0 h1, e1 e h0 h1]
    refine ((mean_le hR (hq _ (coe_isCell hx h0 h1)) (hq _ (coe_isCell hx h0 h1))).2).trans (le_of_eq (by ring))
  set g : Int → ℝ := fun e => val (Fn.hmean m.mesh h e) *
    val ((Fn.ntr tr h (m.mesh.coe e 0) + Fn.ntr tr h (m.mesh.coe e 1)) * half) * val (v e) with hgd
  have hg : ∀ e, 0 ≤ e → e < 3 * (p.nx * p.ny) → |g e| ≤ (1 + u) ^ 8 * (H * (T / b)) * V := fun e h0 h1 => by
    simp only [hgd]
    rw [abs_mul, abs_mul]
    calc _ ≤ ((1 + u) ^ 3 * H) * ((1 + u) ^ 5 * (T / b)) * V := by
          gcongr
          · exact hF e h0 h1
          · exact hQ e h0 h1
          · exact hV e h0 h1
      _ = _ := by ring
  refine termOK_of hR hu hx (by omega) (n := 4) (by omega) (W := val (sideOverArea dc)) ?_ (by positivity) hg ?_
  · have := side_le (dc := dc) hR hu hdc
    calc _ ≤ 7 / 10 / val dc * (101 / 100 * (H * (T / b)) * V) := by gcongr
      _ = _ := by ring
  · intro c hc
    have hneoc : m.mesh.neoc c = 6 := hm.neoc c hc
    unfold Fn.thadv
    rw [hneoc]
    refine sides_round hR hx hc (g := g) (n := 4) hg fun j h0 h6 => ?_
    have hr := E_range (ny := p.ny) hx hc j h0 h6
    have e1 : m.mesh.eoc c j = E p.nx p.ny c j := hm.eoc c hc j h0 h6
    have e2 : m.mesh.dv (E p.nx p.ny c j) = dc * Scalar.sqrt (lit 3) / lit 3 := hm.dv_edge _ hr.1 hr.2
    have e3 : m.mesh.areaCell c = dc * dc * Scalar.sqrt (lit 3) / lit 2 := hm.area_cell c hc
    have e4 : val (m.mesh.signC c j) = if j < 3 then -1 else 1 := sign_val hR hv h2x h2y hm hc h0 h6
    rw [e1, e2, e3]
    have n1 := Near.mul u0 (near_refl u (val (sideOverArea dc))) (near_refl u (val (m.mesh.signC c j)))
      (hR.mul (sideOverArea dc) (m.mesh.signC c j))
    have n2 := Near.mul u0 n1 (near_refl u (val (Fn.hmean m.mesh h (E p.nx p.ny c j)))) (hR.mul _ _)
    have n3 := Near.mul u0 n2 (near_refl u (val ((Fn.ntr tr h (m.mesh.coe (E p.nx p.ny c j) 0) +
      Fn.ntr tr h (m.mesh.coe (E p.nx p.ny c j) 1)) * half))) (hR.mul _ _)
    have n4 := Near.mul u0 n3 (near_refl u (val (v (E p.nx p.ny c j)))) (hR.mul _ _)
    rw [e4] at n4
    have e5 : ∀ W s F q v : ℝ, W * (s * (F * q * v)) = W * s * F * q * v := fun W s F q v => by ring
    simp only [hgd]
    rw [e5]
    exact n4

end

/-! ### A stage -/

/-- bounds for a tendency and for its sum -/
def TendOK (val : R → ℝ) (p : MeshParams) (B e : ℝ) (o : Int → R) : Prop :=
  (∀ c, IsCell p.nx p.ny c → |val (o c)| ≤ B) ∧
    |∑ c ∈ upto (p.nx * p.ny), val (o c)| ≤ ((p.nx * p.ny : ℤ) : ℝ) * e

theorem tend_stage (hR : Rounded val u) (hu : u ≤ 1 / 1000) (hn : (0 : Int) ≤ p.nx * p.ny) {o y : Int → R} {a : R}
    {α B e b : ℝ} (ha : |val a| ≤ α) (ho : TendOK val p B e o) (hB : 0 ≤ B) (hy : TermOK val u p b y) (hb : 0 ≤ b) :
    TendOK val p (1003 / 1000 * α * B + 621 / 100 * b) (α * e + u * (683 / 10 * b + 201 / 100 * α * B))
      (fun c => o c * a + y c) := by
  have u0 := hR.nonneg
  have α0 := (abs_nonneg _).trans ha
  have hp : ∀ c, IsCell p.nx p.ny c → |val (o c * a)| ≤ (1 + u) * (α * B) := fun c hc => by
    refine (hR.mul_le _ _).trans ?_
    rw [mul_comm |val (o c)|]
    have := ho.1 c hc
    gcongr
  have hs : ∀ c, IsCell p.nx p.ny c → |val (o c * a) + val (y c)| ≤ (1 + u) * (α * B) + 31 / 5 * b := fun c hc =>
    (abs_add_le _ _).trans (add_le_add (hp c hc) (hy.1 c hc))
  have αB : 0 ≤ α * B := mul_nonneg α0 hB
  constructor
  · intro c hc
    refine (hR.add_le _ _).trans ((mul_le_mul_of_nonneg_left (hs c hc) (by linarith)).trans ?_)
    nlinarith [mul_nonneg u0 hb, mul_nonneg u0 αB, mul_nonneg u0 (mul_nonneg u0 αB), mul_le_mul_of_nonneg_right hu αB,
      mul_le_mul_of_nonneg_right hu hb, mul_le_mul_of_nonneg_right hu (mul_nonneg u0 αB)]
  · have d : ∀ c, IsCell p.nx p.ny c → |val (o c * a + y c) - val a * val (o c) - val (y c)| ≤
        u * (621 / 100 * b + 201 / 100 * α * B) := fun c hc => by
      have d1 := (hR.add (o c * a) (y c)).trans (mul_le_mul_of_nonneg_left (hs c hc) u0)
      have d2 := hR.mul (o c) a
      have d3 : |val (o c) * val a| ≤ α * B := by
        rw [mul_comm, abs_mul]
        have := ho.1 c hc
        gcongr
      have d4 := d2.trans (mul_le_mul_of_nonneg_left d3 u0)
      have e : val (o c * a + y c) - val a * val (o c) - val (y c) = (val (o c * a + y c) - (val (o c * a) + val (y c))) +
        (val (o c * a) - val (o c) * val a) := by ring
      rw [e]
      refine (abs_add_le _ _).trans ((add_le_add d1 d4).trans ?_)
      nlinarith [mul_nonneg u0 hb, mul_nonneg u0 (mul_nonneg u0 αB), mul_le_mul_of_nonneg_right hu (mul_nonneg u0 αB)]
    have e1 : ∑ c ∈ upto (p.nx * p.ny), val (o c * a + y c) =
        ∑ c ∈ upto (p.nx * p.ny), (val (o c * a + y c) - val a * val (o c) - val (y c)) +
        (val a * ∑ c ∈ upto (p.nx * p.ny), val (o c) + ∑ c ∈ upto (p.nx * p.ny), val (y c)) := by
      rw [Finset.mul_sum, ← Finset.sum_add_distrib, ← Finset.sum_add_distrib]
      exact Finset.sum_congr rfl fun c _ => by ring
    rw [e1]
    have s1 := abs_sum_upto hn fun c hc => d c (mem_cells.1 hc)
    have s2 : |val a * ∑ c ∈ upto (p.nx * p.ny), val (o c)| ≤ α * (((p.nx * p.ny : ℤ) : ℝ) * e) := by
      rw [abs_mul]
      exact mul_le_mul ha ho.2 (abs_nonneg _) α0
    have hn' : (0 : ℝ) ≤ ((p.nx * p.ny : ℤ) : ℝ) := by exact_mod_cast hn
    refine (abs_add_le _ _).trans ((add_le_add s1 ((abs_add_le _ _).trans (add_le_add s2 hy.2))).trans ?_)
    nlinarith [mul_nonneg hn' (mul_nonneg u0 hb)]

theorem state_stage (hR : Rounded val u) (hu : u ≤ 1 / 1000) (hn : (0 : Int) ≤ p.nx * p.ny) {h o : Int → R} {dt b : R}
    {H B e β : ℝ} (hH : ∀ c, IsCell p.nx p.ny c → |val (h c)| ≤ H) (ho : TendOK val p B e o) (hB : 0 ≤ B)
    (hβ : |val b| ≤ β) (he : 0 ≤ e) :
    |∑ c ∈ upto (p.nx * p.ny), val (h c + dt * b * o c) - ∑ c ∈ upto (p.nx * p.ny), val (h c)| ≤
      ((p.nx * p.ny : ℤ) : ℝ) * (u * H + 1001 / 1000 * (|val dt| * β) * (u * (201 / 100 * B) + e)) := by
  have u0 := hR.nonneg
  have β0 := (abs_nonneg _).trans hβ
  set D := val (dt * b)
  have hD : |D| ≤ 1001 / 1000 * (|val dt| * β) := by
    refine (hR.mul_le _ _).trans ?_
    have : |val dt| * |val b| ≤ |val dt| * β := mul_le_mul_of_nonneg_left hβ (abs_nonneg _)
    refine mul_le_mul (by linarith) this (by positivity) (by norm_num)
  set D' := 1001 / 1000 * (|val dt| * β)
  have D0 : 0 ≤ D' := (abs_nonneg _).trans hD
  have d : ∀ c, IsCell p.nx p.ny c → |val (h c + dt * b * o c) - val (h c) - D * val (o c)| ≤
      u * (H + 201 / 100 * (D' * B)) := fun c hc => by
    have hDo : |D * val (o c)| ≤ D' * B := by
      rw [abs_mul]
      exact mul_le_mul hD (ho.1 c hc) (abs_nonneg _) D0
    have d1 := (hR.mul (dt * b) (o c)).trans (mul_le_mul_of_nonneg_left hDo u0)
    have d2 : |val (dt * b * o c)| ≤ (1 + u) * (D' * B) := by
      refine (hR.mul_le _ _).trans ?_
      rw [← abs_mul]
      gcongr
    have d3 := (hR.add (h c) (dt * b * o c)).trans
      (mul_le_mul_of_nonneg_left ((abs_add_le _ _).trans (add_le_add (hH c hc) d2)) u0)
    have e : val (h c + dt * b * o c) - val (h c) - D * val (o c) =
      (val (h c + dt * b * o c) - (val (h c) + val (dt * b * o c))) + (val (dt * b * o c) - D * val (o c)) := by ring
    rw [e]
    refine (abs_add_le _ _).trans ((add_le_add d3 d1).trans ?_)
    nlinarith [mul_nonneg u0 (mul_nonneg D0 hB), mul_le_mul_of_nonneg_right hu (mul_nonneg u0 (mul_nonneg D0 hB))]
  have e1 : ∑ c ∈ upto (p.nx * p.ny), val (h c + dt * b * o c) - ∑ c ∈ upto (p.nx * p.ny), val (h c) =
      ∑ c ∈ upto (p.nx * p.ny), (val (h c + dt * b * o c) - val (h c) - D * val (o c)) +
      D * ∑ c ∈ upto (p.nx * p.ny), val (o c) := by
    rw [Finset.mul_sum, ← Finset.sum_add_distrib, ← Finset.sum_sub_distrib]
    exact Finset.sum_congr rfl fun c _ => by ring
  rw [e1]
  have hn' : (0 : ℝ) ≤ ((p.nx * p.ny : ℤ) : ℝ) := by exact_mod_cast hn
  have s1 := abs_sum_upto hn fun c hc => d c (mem_cells.1 hc)
  have s2 : |D * ∑ c ∈ upto (p.nx * p.ny), val (o c)| ≤ D' * (((p.nx * p.ny : ℤ) : ℝ) * e) := by
    rw [abs_mul]
    exact mul_le_mul hD ho.2 (abs_nonneg _) D0
  refine (abs_add_le _ _).trans ((add_le_add s1 s2).trans (le_of_eq ?_))
  ring

/-! ### A step -/

theorem TendOK.congr {B e : ℝ} {o o' : Int → R} (h : TendOK val p B e o)
    (he : ∀ c, IsCell p.nx p.ny c → o' c = o c) : TendOK val p B e o' := by
  refine ⟨fun c hc => by rw [he c hc]; exact h.1 c hc, ?_⟩
  rw [Finset.sum_congr rfl fun c hc => by rw [he c (mem_cells.1 hc)]]
  exact h.2

theorem coef_bounds (hR : Rounded val u) (hu : u ≤ 1 / 1000) {a b : Int} {q : ℝ} (ha : |a| < 2 ^ 53)
    (hb : |b| < 2 ^ 53) (hb0 : 0 < b) (hq : 1001 * |(a : ℝ)| ≤ 1000 * q * (b : ℝ)) :
    |val (lit a / lit b : R)| ≤ q := by
  have b0 : (0 : ℝ) < b := by exact_mod_cast hb0
  have := hR.div_le (lit a) (lit b) (by rw [hR.lit b hb]; exact b0.ne')
  rw [hR.lit a ha, hR.lit b hb, abs_of_pos b0] at this
  refine this.trans ?_
  calc (1 + u) * (|(a : ℝ)| / b) ≤ 1001 / 1000 * (|(a : ℝ)| / b) := by
        gcongr
        linarith
    _ ≤ q := by
        rw [← mul_div_assoc, div_le_iff₀ b0]
        linarith

/-- the five stages of a step, on one row of a conserved quantity -/
theorem five_stages (hR : Rounded val u) (hu : u ≤ 1 / 1000) (hn : (0 : Int) ≤ p.nx * p.ny) {o h y : ℕ → Int → R}
    {dt : R} {H b : ℝ} (hb : 0 ≤ b)
    (ho : ∀ i, i < 5 → ∀ c, IsCell p.nx p.ny c → o (i + 1) c = o i c * (lsrkCoef 5).a i + y i c)
    (hh : ∀ i, i < 5 → ∀ c, IsCell p.nx p.ny c → h (i + 1) c = h i c + dt * (lsrkCoef 5).b i * o (i + 1) c)
    (hy : ∀ i, i < 5 → TermOK val u p b (y i))
    (hH : ∀ i, i < 5 → ∀ c, IsCell p.nx p.ny c → |val (h i c)| ≤ H) :
    |∑ c ∈ upto (p.nx * p.ny), val (h 5 c) - ∑ c ∈ upto (p.nx * p.ny), val (h 0 c)| ≤
      ((p.nx * p.ny : ℤ) : ℝ) * (u * (5 * H + 820 * (|val dt| * b))) := by
  have u0 := hR.nonneg
  have a0 : |val ((lsrkCoef 5).a 0 : R)| ≤ 0 := by
    show |val (lit 0 : R)| ≤ 0
    rw [hR.lit 0 (by norm_num)]
    simp
  have a1 : |val ((lsrkCoef 5).a 1 : R)| ≤ 42 / 100 :=
    coef_bounds hR hu (by norm_num) (by norm_num) (by norm_num) (by norm_num)
  have a2 : |val ((lsrkCoef 5).a 2 : R)| ≤ 12 / 10 :=
    coef_bounds hR hu (by norm_num) (by norm_num) (by norm_num) (by norm_num)
  have a3 : |val ((lsrkCoef 5).a 3 : R)| ≤ 17 / 10 :=
    coef_bounds hR hu (by norm_num) (by norm_num) (by norm_num) (by norm_num)
  have a4 : |val ((lsrkCoef 5).a 4 : R)| ≤ 152 / 100 :=
    coef_bounds hR hu (by norm_num) (by norm_num) (by norm_num) (by norm_num)
  have b0 : |val ((lsrkCoef 5).b 0 : R)| ≤ 15 / 100 :=
    coef_bounds hR hu (by norm_num) (by norm_num) (by norm_num) (by norm_num)
  have b1 : |val ((lsrkCoef 5).b 1 : R)| ≤ 38 / 100 :=
    coef_bounds hR hu (by norm_num) (by norm_num) (by norm_num) (by norm_num)
  have b2 : |val ((lsrkCoef 5).b 2 : R)| ≤ 83 / 100 :=
    coef_bounds hR hu (by norm_num) (by norm_num) (by norm_num) (by norm_num)
  have b3 : |val ((lsrkCoef 5).b 3 : R)| ≤ 701 / 1000 :=
    coef_bounds hR hu (by norm_num) (by norm_num) (by norm_num) (by norm_num)
  have b4 : |val ((lsrkCoef 5).b 4 : R)| ≤ 16 / 100 :=
    coef_bounds hR hu (by norm_num) (by norm_num) (by norm_num) (by norm_num)
  have ub := mul_nonneg u0 hb
  -- a previous tendency, of whatever size, is multiplied by zero
  have t0 : TendOK val p (∑ c ∈ upto (p.nx * p.ny), |val (o 0 c)|)
      (|∑ c ∈ upto (p.nx * p.ny), val (o 0 c)|) (o 0) := by
    refine ⟨fun c hc => Finset.single_le_sum (f := fun c => |val (o 0 c)|) (fun _ _ => abs_nonneg _)
      (mem_cells.2 hc), ?_⟩
    rcases hn.lt_or_eq with h | h
    · exact le_mul_of_one_le_left (abs_nonneg _) (by exact_mod_cast h)
    · rw [← h]; simp
  have t1 := (tend_stage hR hu hn a0 t0 (Finset.sum_nonneg fun _ _ => abs_nonneg _) (hy 0 (by norm_num)) hb).congr
    (ho 0 (by norm_num))
  simp only [mul_zero, zero_mul, zero_add, add_zero] at t1
  have t2 := (tend_stage hR hu hn a1 t1 (by positivity) (hy 1 (by norm_num)) hb).congr (ho 1 (by norm_num))
  have t3 := (tend_stage hR hu hn a2 t2 (by positivity) (hy 2 (by norm_num)) hb).congr (ho 2 (by norm_num))
  have t4 := (tend_stage hR hu hn a3 t3 (by positivity) (hy 3 (by norm_num)) hb).congr (ho 3 (by norm_num))
  have t5 := (tend_stage hR hu hn a4 t4 (by positivity) (hy 4 (by norm_num)) hb).congr (ho 4 (by norm_num))
  have S : ∀ i (hi : i < 5), ∑ c ∈ upto (p.nx * p.ny), val (h (i + 1) c) = ∑ c ∈ upto (p.nx * p.ny),
      val (h i c + dt * (lsrkCoef 5).b i * o (i + 1) c) := fun i hi =>
    Finset.sum_congr rfl fun c hc => by rw [hh i hi c (mem_cells.1 hc)]
  have s0 := state_stage (dt := dt) hR hu hn (hH 0 (by norm_num)) t1 (by positivity) b0 (by positivity)
  have s1 := state_stage (dt := dt) hR hu hn (hH 1 (by norm_num)) t2 (by positivity) b1 (by positivity)
  have s2 := state_stage (dt := dt) hR hu hn (hH 2 (by norm_num)) t3 (by positivity) b2 (by positivity)
  have s3 := state_stage (dt := dt) hR hu hn (hH 3 (by norm_num)) t4 (by positivity) b3 (by positivity)
  have s4 := state_stage (dt := dt) hR hu hn (hH 4 (by norm_num)) t5 (by positivity) b4 (by positivity)
  rw [← S 0 (by norm_num)] at s0
  rw [← S 1 (by norm_num)] at s1
  rw [← S 2 (by norm_num)] at s2
  rw [← S 3 (by norm_num)] at s3
  rw [← S 4 (by norm_num)] at s4
  clear t0 t1 t2 t3 t4 t5 S a0 a1 a2 a3 a4 b0 b1 b2 b3 b4
  have hn' : (0 : ℝ) ≤ ((p.nx * p.ny : ℤ) : ℝ) := by exact_mod_cast hn
  have e : ∑ c ∈ upto (p.nx * p.ny), val (h 5 c) - ∑ c ∈ upto (p.nx * p.ny), val (h 0 c) =
    (∑ c ∈ upto (p.nx * p.ny), val (h (0 + 1) c) - ∑ c ∈ upto (p.nx * p.ny), val (h 0 c)) +
    ((∑ c ∈ upto (p.nx * p.ny), val (h (1 + 1) c) - ∑ c ∈ upto (p.nx * p.ny), val (h 1 c)) +
    ((∑ c ∈ upto (p.nx * p.ny), val (h (2 + 1) c) - ∑ c ∈ upto (p.nx * p.ny), val (h 2 c)) +
    ((∑ c ∈ upto (p.nx * p.ny), val (h (3 + 1) c) - ∑ c ∈ upto (p.nx * p.ny), val (h 3 c)) +
    (∑ c ∈ upto (p.nx * p.ny), val (h (4 + 1) c) - ∑ c ∈ upto (p.nx * p.ny), val (h 4 c))))) := by
    norm_num
  rw [e]
  refine (abs_add_le _ _).trans ((add_le_add s0 ((abs_add_le _ _).trans (add_le_add s1 ((abs_add_le _ _).trans
    (add_le_add s2 ((abs_add_le _ _).trans (add_le_add s3 s4))))))).trans ?_)
  have hz : 0 ≤ ((p.nx * p.ny : ℤ) : ℝ) * (|val dt| * (u * b)) := by positivity
  linarith [hz]

/-! ### Runs -/

/-- one stage on the rows of the conserved quantities -/
theorem stage_rows (hv : RunValid p) {prm : Params R} (hr : Ready p dc prm m) (C : Coef R) (t dt : R) (i : ℕ) :
    ∃ m', (∀ split, Runs p.dims (lsrk_stage p.dims ⟨defaultKernels p.dims.vl, split⟩ (SWModel.ofParams prm) C t dt i)
        m m') ∧ Static m' m ∧
      (prm.disable_h = false → ∀ c k, 0 ≤ c → c < p.dims.ncells → 0 ≤ k → k < p.dims.nlayers →
        m'.real (.h_cell .tend) 0 c k = m.real (.h_cell .tend) 0 c k * C.a i +
          Fn.hadv m.mesh (fun e => m.real (.vn_edge .state) 0 e k)
            (Fn.hmean m.mesh fun c => m.real (.h_cell .state) 0 c k) c ∧
        m'.real (.h_cell .state) 0 c k = m.real (.h_cell .state) 0 c k +
          dt * C.b i * m'.real (.h_cell .tend) 0 c k) ∧
      (Scalar.lt (lit 0) prm.eddy_diff2 = false → Scalar.lt (lit 0) prm.eddy_diff4 = false →
        ∀ l c k, 0 ≤ l → l < p.dims.ntracers → 0 ≤ c → c < p.dims.ncells → 0 ≤ k → k < p.dims.nlayers →
        m'.real (.tr_cell .tend) l c k = m.real (.tr_cell .tend) l c k * C.a i +
          Fn.thadv m.mesh (fun e => m.real (.vn_edge .state) 0 e k)
            (Fn.ntr (fun c => m.real (.tr_cell .state) l c k) fun c => m.real (.h_cell .state) 0 c k)
            (Fn.hmean m.mesh fun c => m.real (.h_cell .state) 0 c k) c ∧
        m'.real (.tr_cell .state) l c k = m.real (.tr_cell .state) l c k +
          dt * C.b i * m'.real (.tr_cell .tend) l c k) ∧
      (prm.disable_vn = true → ∀ e k, 0 ≤ e → e < p.dims.nedges → 0 ≤ k → k < p.dims.nlayers →
        m'.real (.vn_edge .tend) 0 e k = m.real (.vn_edge .tend) 0 e k * C.a i ∧
        m'.real (.vn_edge .state) 0 e k = m.real (.vn_edge .state) 0 e k +
          dt * C.b i * m'.real (.vn_edge .tend) 0 e k) := by
  obtain ⟨m', r, ag, v, w⟩ := lsrk_stage_runs (hr.setup hv (noHook_ofParams prm)) C t dt i
  refine ⟨m', r, ag.mono fun _ h => lsrkSet_dyn h, fun hd c k c0 c1 k0 k1 => ?_,
    fun hd2 hd4 l c k l0 l1 c0 c1 k0 k1 => ?_, fun hd e k e0 e1 k0 k1 => ?_⟩
  · have a := v.h c k c0 c1 k0 k1
    have b := w.h c k c0 c1 k0 k1
    refine ⟨?_, ?_⟩
    · refine a.trans ?_
      simp only [Sys.lsrkStage, Sys.tend, Sys.termsH, sysOf, SWModel.ofParams, hd, noHook]
      rfl
    · refine b.trans ?_
      rw [show m'.real (.h_cell .tend) 0 c k = _ from a]
      rfl
  · have a := v.tr l c k l0 l1 c0 c1 k0 k1
    have b := w.tr l c k l0 l1 c0 c1 k0 k1
    refine ⟨?_, ?_⟩
    · refine a.trans ?_
      simp only [Sys.lsrkStage, Sys.tend, Sys.termsTr, sysOf, SWModel.ofParams, hd2, hd4]
      rfl
    · refine b.trans ?_
      rw [show m'.real (.tr_cell .tend) l c k = _ from a]
      rfl
  · have a := v.vn e k e0 e1 k0 k1
    have b := w.vn e k e0 e1 k0 k1
    refine ⟨?_, ?_⟩
    · refine a.trans ?_
      simp only [Sys.lsrkStage, Sys.tend, Sys.termsVn, sysOf, SWModel.ofParams, hd, noHook]
      rfl
    · refine b.trans ?_
      rw [show m'.real (.vn_edge .tend) 0 e k = _ from a]
      rfl

/-- the stages of a run of the five-stage stepper -/
def stages (d : Dims) (B : Build R) (sw : SWModel R) (sched : List (R × R)) : List (List (Cmd R)) :=
  sched.flatMap fun q => (List.range 5).map (lsrk_stage d B sw (lsrkCoef 5) q.1 q.2)

theorem run_stages (d : Dims) (B : Build R) (sw : SWModel R) (sched : List (R × R)) :
    (Stepper.lsrk 5).run d B sw sched = (stages d B sw sched).flatten := by
  unfold stages Stepper.run
  induction sched with
  | nil => rfl
  | cons q L ih =>
    rw [List.flatMap_cons, List.flatMap_cons, List.flatten_append, ih]
    rfl

/-- `P` holds in every memory between two stages of the run, at its start and at its end -/
def Throughout (d : Dims) (B : Build R) (sw : SWModel R) (sched : List (R × R)) (m : Mem R) (P : Mem R → Prop) : Prop :=
  ∀ n m', Exec d ((stages d B sw sched).take n).flatten m m' → P m'

/-- five stages from a memory satisfying a property throughout the run -/
theorem five_memories (hv : RunValid p) {prm : Params R} (hr : Ready p dc prm m) {split : Bool} {P : Mem R → Prop}
    {t dt : R} {sched : List (R × R)}
    (h : Throughout p.dims ⟨defaultKernels p.dims.vl, split⟩ (SWModel.ofParams prm) ((t, dt) :: sched) m P) :
    ∃ M : ℕ → Mem R, M 0 = m ∧ (∀ i, i ≤ 5 → P (M i) ∧ Ready p dc prm (M i)) ∧
      Runs p.dims (lsrk_step p.dims ⟨defaultKernels p.dims.vl, split⟩ (SWModel.ofParams prm) 5 t dt) m (M 5) ∧
      Throughout p.dims ⟨defaultKernels p.dims.vl, split⟩ (SWModel.ofParams prm) sched (M 5) P ∧
      (∀ i, i ≤ 5 → Runs p.dims ((stages p.dims ⟨defaultKernels p.dims.vl, split⟩ (SWModel.ofParams prm)
        ((t, dt) :: sched)).take i).flatten m (M i)) ∧
      ∀ i, i < 5 →
      (prm.disable_h = false → ∀ c k, 0 ≤ c → c < p.dims.ncells → 0 ≤ k → k < p.dims.nlayers →
        (M (i + 1)).real (.h_cell .tend) 0 c k = (M i).real (.h_cell .tend) 0 c k * (lsrkCoef 5).a i +
          Fn.hadv (M i).mesh (fun e => (M i).real (.vn_edge .state) 0 e k)
            (Fn.hmean (M i).mesh fun c => (M i).real (.h_cell .state) 0 c k) c ∧
        (M (i + 1)).real (.h_cell .state) 0 c k = (M i).real (.h_cell .state) 0 c k +
          dt * (lsrkCoef 5).b i * (M (i + 1)).real (.h_cell .tend) 0 c k) ∧
      (Scalar.lt (lit 0) prm.eddy_diff2 = false → Scalar.lt (lit 0) prm.eddy_diff4 = false →
        ∀ l c k, 0 ≤ l → l < p.dims.ntracers → 0 ≤ c → c < p.dims.ncells → 0 ≤ k → k < p.dims.nlayers →
        (M (i + 1)).real (.tr_cell .tend) l c k = (M i).real (.tr_cell .tend) l c k * (lsrkCoef 5).a i +
          Fn.thadv (M i).mesh (fun e => (M i).real (.vn_edge .state) 0 e k)
            (Fn.ntr (fun c => (M i).real (.tr_cell .state) l c k) fun c => (M i).real (.h_cell .state) 0 c k)
            (Fn.hmean (M i).mesh fun c => (M i).real (.h_cell .state) 0 c k) c ∧
        (M (i + 1)).real (.tr_cell .state) l c k = (M i).real (.tr_cell .state) l c k +
          dt * (lsrkCoef 5).b i * (M (i + 1)).real (.tr_cell .tend) l c k) ∧
      (prm.disable_vn = true → ∀ e k, 0 ≤ e → e < p.dims.nedges → 0 ≤ k → k < p.dims.nlayers →
        (M (i + 1)).real (.vn_edge .tend) 0 e k = (M i).real (.vn_edge .tend) 0 e k * (lsrkCoef 5).a i ∧
        (M (i + 1)).real (.vn_edge .state) 0 e k = (M i).real (.vn_edge .state) 0 e k +
          dt * (lsrkCoef 5).b i * (M (i + 1)).real (.vn_edge .tend) 0 e k) := by
  obtain ⟨m1, r1, s1, q1⟩ := stage_rows hv hr (lsrkCoef 5) t dt 0
  obtain ⟨m2, r2, s2, q2⟩ := stage_rows hv (hr.static s1) (lsrkCoef 5) t dt 1
  obtain ⟨m3, r3, s3, q3⟩ := stage_rows hv ((hr.static s1).static s2) (lsrkCoef 5) t dt 2
  obtain ⟨m4, r4, s4, q4⟩ := stage_rows hv (((hr.static s1).static s2).static s3) (lsrkCoef 5) t dt 3
  obtain ⟨m5, r5, s5, q5⟩ := stage_rows hv ((((hr.static s1).static s2).static s3).static s4) (lsrkCoef 5) t dt 4
  have R1 := r1 split
  have R2 := R1.append (r2 split)
  have R3 := R2.append (r3 split)
  have R4 := R3.append (r4 split)
  have R5 := R4.append (r5 split)
  have e : ∀ n, ((stages p.dims ⟨defaultKernels p.dims.vl, split⟩ (SWModel.ofParams prm) ((t, dt) :: sched)).take
      (5 + n)).flatten = (lsrk_step p.dims ⟨defaultKernels p.dims.vl, split⟩ (SWModel.ofParams prm) 5 t dt) ++
      ((stages p.dims ⟨defaultKernels p.dims.vl, split⟩ (SWModel.ofParams prm) sched).take n).flatten := fun n => by
    rw [add_comm]
    simp [stages, lsrk_step, List.range_succ]
  let M : ℕ → Mem R := fun i => if i = 0 then m else if i = 1 then m1 else if i = 2 then m2 else if i = 3 then m3 else
    if i = 4 then m4 else m5
  have hruns : ∀ i, i ≤ 5 → Runs p.dims ((stages p.dims ⟨defaultKernels p.dims.vl, split⟩ (SWModel.ofParams prm)
        ((t, dt) :: sched)).take i).flatten m (M i) ∧ Ready p dc prm (M i) := by
    intro i hi
    have : i = 0 ∨ i = 1 ∨ i = 2 ∨ i = 3 ∨ i = 4 ∨ i = 5 := by omega
    rcases this with rfl | rfl | rfl | rfl | rfl | rfl
    · refine ⟨?_, hr⟩
      show @Runs R p.dims _ m m
      simpa using Runs.nil m
    · refine ⟨?_, hr.static s1⟩
      show @Runs R p.dims _ m m1
      simpa [stages, List.range_succ] using R1
    · refine ⟨?_, (hr.static s1).static s2⟩
      show @Runs R p.dims _ m m2
      simpa [stages, List.range_succ] using R2
    · refine ⟨?_, ((hr.static s1).static s2).static s3⟩
      show @Runs R p.dims _ m m3
      simpa [stages, List.range_succ] using R3
    · refine ⟨?_, (((hr.static s1).static s2).static s3).static s4⟩
      show @Runs R p.dims _ m m4
      simpa [stages, List.range_succ] using R4
    · refine ⟨?_, ((((hr.static s1).static s2).static s3).static s4).static s5⟩
      show @Runs R p.dims _ m m5
      simpa [stages, List.range_succ] using R5
  refine ⟨M, rfl, fun i hi => ⟨h i (M i) (hruns i hi).1.exec, (hruns i hi).2⟩, ?_, ?_, fun i hi => (hruns i hi).1, ?_⟩
  · show @Runs R p.dims _ m m5
    simpa [lsrk_step, List.range_succ] using R5
  · intro n m' he
    refine h (5 + n) m' ?_
    rw [e]
    refine exec_append.2 ⟨m5, ?_, he⟩
    simpa [lsrk_step, List.range_succ] using R5.exec
  · intro i hi
    have : i = 0 ∨ i = 1 ∨ i = 2 ∨ i = 3 ∨ i = 4 := by omega
    rcases this with rfl | rfl | rfl | rfl | rfl
    · exact q1
    · exact q2
    · exact q3
    · exact q4
    · exact q5

/-- layer `k` of the thickness and of the velocity is bounded by `H` and `V` -/
def LayerBounds (val : R → ℝ) (p : MeshParams) (k : Int) (H V : ℝ) (m : Mem R) : Prop :=
  (∀ c, IsCell p.nx p.ny c → |val (m.real (.h_cell .state) 0 c k)| ≤ H) ∧
    ∀ e, 0 ≤ e → e < 3 * (p.nx * p.ny) → |val (m.real (.vn_edge .state) 0 e k)| ≤ V

/-- layer `k` of tracer `l` is bounded by `T` and the thickness is at least `b` -/
def TracerBounds (val : R → ℝ) (p : MeshParams) (l k : Int) (T b : ℝ) (m : Mem R) : Prop :=
  ∀ c, IsCell p.nx p.ny c → |val (m.real (.tr_cell .state) l c k)| ≤ T ∧ b ≤ |val (m.real (.h_cell .state) 0 c k)|

/-- C76. Mass in rounded arithmetic: a run of the five-stage stepper changes the sum of the thicknesses of a layer by
at most `u (5 + 574 |dt| V / dc)` times the number of cells times the largest thickness for each step, where `u` is the
unit roundoff. -/
theorem C76_mass_rounding (hR : Rounded val u) (hu : u ≤ 1 / 1000) (hv : RunValid p) (h2x : 2 ≤ p.nx)
    (h2y : 2 ≤ p.ny) (hdc : 0 < val dc) {prm : Params R} (hdh : prm.disable_h = false) {split : Bool} {k : Int}
    (k0 : 0 ≤ k) (k1 : k < p.dims.nlayers) {H V : ℝ} (sched : List (R × R)) {m m' : Mem R} (hr : Ready p dc prm m)
    (hb : Throughout p.dims ⟨defaultKernels p.dims.vl, split⟩ (SWModel.ofParams prm) sched m (LayerBounds val p k H V))
    (he : Exec p.dims ((Stepper.lsrk 5).run p.dims ⟨defaultKernels p.dims.vl, split⟩ (SWModel.ofParams prm) sched)
      m m') :
    |∑ c ∈ upto (p.nx * p.ny), val (m'.real (.h_cell .state) 0 c k) -
        ∑ c ∈ upto (p.nx * p.ny), val (m.real (.h_cell .state) 0 c k)| ≤
      ((p.nx * p.ny : ℤ) : ℝ) * H * u * (sched.map fun q => 5 + 574 * (|val q.2| * V / val dc)).sum := by
  have hx := hv.toValid.nx_pos
  have hn : (0 : Int) ≤ p.nx * p.ny := by nlinarith
  induction sched generalizing m with
  | nil =>
    cases he
    simp
  | cons q sched ih =>
    obtain ⟨t, dt⟩ := q
    obtain ⟨M, rfl, hM, hrun, hrest, -, hst⟩ := five_memories hv hr hb
    rw [show (Stepper.lsrk 5).run p.dims ⟨defaultKernels p.dims.vl, split⟩ (SWModel.ofParams prm) ((t, dt) :: sched) =
      lsrk_step p.dims ⟨defaultKernels p.dims.vl, split⟩ (SWModel.ofParams prm) 5 t dt ++
      (Stepper.lsrk 5).run p.dims ⟨defaultKernels p.dims.vl, split⟩ (SWModel.ofParams prm) sched from rfl] at he
    obtain ⟨m1, e1, e2⟩ := exec_append.1 he
    have hm1 : m1 = M 5 := hrun.unique e1
    subst hm1
    have i1 := ih (hM 5 le_rfl).2 hrest e2
    have z0 : IsCell p.nx p.ny 0 := ⟨le_rfl, by nlinarith⟩
    have H0 := (abs_nonneg _).trans ((hM 0 (by norm_num)).1.1 0 z0)
    have V0 := (abs_nonneg _).trans ((hM 0 (by norm_num)).1.2 0 le_rfl (by nlinarith))
    have i2 := five_stages hR hu hn (dt := dt) (b := 7 / 10 * V / val dc * H) (H := H) (by positivity)
      (h := fun i c => (M i).real (.h_cell .state) 0 c k) (o := fun i c => (M i).real (.h_cell .tend) 0 c k)
      (fun i hi c hc => ((hst i hi).1 hdh c k hc.1 hc.2 k0 k1).1)
      (fun i hi c hc => ((hst i hi).1 hdh c k hc.1 hc.2 k0 k1).2)
      (fun i hi => hadv_term hR hu hv.toValid h2x h2y hdc ((hM i hi.le).2.hex hv.toValid).1 (hM i hi.le).1.1 (hM i hi.le).1.2)
      (fun i hi c hc => (hM i hi.le).1.1 c hc)
    rw [List.map_cons, List.sum_cons]
    refine (abs_sub_le _ (∑ c ∈ upto (p.nx * p.ny), val ((M 5).real (.h_cell .state) 0 c k)) _).trans
      ((add_le_add i1 i2).trans (le_of_eq ?_))
    ring

/-- C76. Tracer content in rounded arithmetic, without tracer diffusion. -/
theorem C76_tracer_rounding (hR : Rounded val u) (hu : u ≤ 1 / 1000) (hv : RunValid p) (h2x : 2 ≤ p.nx)
    (h2y : 2 ≤ p.ny) (hdc : 0 < val dc) {prm : Params R} (hd2 : Scalar.lt (lit 0) prm.eddy_diff2 = false)
    (hd4 : Scalar.lt (lit 0) prm.eddy_diff4 = false) {split : Bool} {l k : Int} (l0 : 0 ≤ l)
    (l1 : l < p.dims.ntracers) (k0 : 0 ≤ k) (k1 : k < p.dims.nlayers) {H V T b : ℝ} (b0 : 0 < b)
    (sched : List (R × R)) {m m' : Mem R} (hr : Ready p dc prm m)
    (hb : Throughout p.dims ⟨defaultKernels p.dims.vl, split⟩ (SWModel.ofParams prm) sched m
      fun m => LayerBounds val p k H V m ∧ TracerBounds val p l k T b m)
    (he : Exec p.dims ((Stepper.lsrk 5).run p.dims ⟨defaultKernels p.dims.vl, split⟩ (SWModel.ofParams prm) sched)
      m m') :
    |∑ c ∈ upto (p.nx * p.ny), val (m'.real (.tr_cell .state) l c k) -
        ∑ c ∈ upto (p.nx * p.ny), val (m.real (.tr_cell .state) l c k)| ≤
      ((p.nx * p.ny : ℤ) : ℝ) * T * u * (sched.map fun q => 5 + 574 * (H / b) * (|val q.2| * V / val dc)).sum := by
  have hx := hv.toValid.nx_pos
  have hn : (0 : Int) ≤ p.nx * p.ny := by nlinarith
  induction sched generalizing m with
  | nil =>
    cases he
    simp
  | cons q sched ih =>
    obtain ⟨t, dt⟩ := q
    obtain ⟨M, rfl, hM, hrun, hrest, -, hst⟩ := five_memories hv hr hb
    rw [show (Stepper.lsrk 5).run p.dims ⟨defaultKernels p.dims.vl, split⟩ (SWModel.ofParams prm) ((t, dt) :: sched) =
      lsrk_step p.dims ⟨defaultKernels p.dims.vl, split⟩ (SWModel.ofParams prm) 5 t dt ++
      (Stepper.lsrk 5).run p.dims ⟨defaultKernels p.dims.vl, split⟩ (SWModel.ofParams prm) sched from rfl] at he
    obtain ⟨m1, e1, e2⟩ := exec_append.1 he
    have hm1 : m1 = M 5 := hrun.unique e1
    subst hm1
    have i1 := ih (hM 5 le_rfl).2 hrest e2
    have z0 : IsCell p.nx p.ny 0 := ⟨le_rfl, by nlinarith⟩
    have H0 := (abs_nonneg _).trans ((hM 0 (by norm_num)).1.1.1 0 z0)
    have V0 := (abs_nonneg _).trans ((hM 0 (by norm_num)).1.1.2 0 le_rfl (by nlinarith))
    have T0 := (abs_nonneg _).trans ((hM 0 (by norm_num)).1.2 0 z0).1
    have i2 := five_stages hR hu hn (dt := dt) (b := 7 / 10 * V / val dc * (H * (T / b))) (H := T) (by positivity)
      (h := fun i c => (M i).real (.tr_cell .state) l c k) (o := fun i c => (M i).real (.tr_cell .tend) l c k)
      (fun i hi c hc => ((hst i hi).2.1 hd2 hd4 l c k l0 l1 hc.1 hc.2 k0 k1).1)
      (fun i hi c hc => ((hst i hi).2.1 hd2 hd4 l c k l0 l1 hc.1 hc.2 k0 k1).2)
      (fun i hi => thadv_term hR hu hv.toValid h2x h2y hdc ((hM i hi.le).2.hex hv.toValid).1 b0 (hM i hi.le).1.1.1
        (fun c hc => ((hM i hi.le).1.2 c hc).2) (fun c hc => ((hM i hi.le).1.2 c hc).1) (hM i hi.le).1.1.2)
      (fun i hi c hc => ((hM i hi.le).1.2 c hc).1)
    rw [List.map_cons, List.sum_cons]
    refine (abs_sub_le _ (∑ c ∈ upto (p.nx * p.ny), val ((M 5).real (.tr_cell .state) l c k)) _).trans
      ((add_le_add i1 i2).trans (le_of_eq ?_))
    ring

/-! ### The hypotheses can be met -/

/-- There are bounds for every run: the memories between its stages are finitely many. -/
theorem C76_bounds_exist (val : R → ℝ) (hv : RunValid p) {prm : Params R} {split : Bool}
    (sched : List (R × R)) {m : Mem R} (hr : Ready p dc prm m) :
    ∃ H V, Throughout p.dims ⟨defaultKernels p.dims.vl, split⟩ (SWModel.ofParams prm) sched m
      fun m => ∀ k, 0 ≤ k → k < p.dims.nlayers → LayerBounds val p k H V m := by
  let P : ℝ → ℝ → Mem R → Prop := fun H V m => ∀ k, 0 ≤ k → k < p.dims.nlayers → LayerBounds val p k H V m
  have one : ∀ m : Mem R, ∃ H V, P H V m := fun m => by
    have hk : ∀ (F : Int → ℝ), (∀ k, 0 ≤ F k) → ∀ k, 0 ≤ k → k < p.dims.nlayers → F k ≤ ∑ k ∈ upto p.dims.nlayers, F k :=
      fun F hF k k0 k1 => Finset.single_le_sum (f := F) (fun k _ => hF k) (Finset.mem_Ico.2 ⟨k0, k1⟩)
    refine ⟨∑ k ∈ upto p.dims.nlayers, ∑ c ∈ upto (p.nx * p.ny), |val (m.real (.h_cell .state) 0 c k)|,
      ∑ k ∈ upto p.dims.nlayers, ∑ e ∈ upto (3 * (p.nx * p.ny)), |val (m.real (.vn_edge .state) 0 e k)|,
      fun k k0 k1 => ⟨fun c hc => ?_, fun e h0 h1 => ?_⟩⟩
    · exact (Finset.single_le_sum (f := fun c => |val (m.real (.h_cell .state) 0 c k)|)
        (fun _ _ => abs_nonneg _) (mem_cells.2 hc)).trans (hk (fun k => ∑ c ∈ upto (p.nx * p.ny),
          |val (m.real (.h_cell .state) 0 c k)|) (fun k => Finset.sum_nonneg fun _ _ => abs_nonneg _) k k0 k1)
    · exact (Finset.single_le_sum (f := fun e => |val (m.real (.vn_edge .state) 0 e k)|)
        (fun _ _ => abs_nonneg _) (Finset.mem_Ico.2 ⟨h0, h1⟩)).trans (hk (fun k => ∑ e ∈ upto (3 * (p.nx * p.ny)),
          |val (m.real (.vn_edge .state) 0 e k)|) (fun k => Finset.sum_nonneg fun _ _ => abs_nonneg _) k k0 k1)
  have mono : ∀ {H V H' V' : ℝ} {m : Mem R}, P H V m → H ≤ H' → V ≤ V' → P H' V' m :=
    fun h a b k k0 k1 => ⟨fun c hc => ((h k k0 k1).1 c hc).trans a, fun e h0 h1 => ((h k k0 k1).2 e h0 h1).trans b⟩
  suffices hS : ∀ S : List (List (Cmd R)), (∀ L ∈ S, ∀ m, Ready p dc prm m → ∃ m', Runs p.dims L m m' ∧
      Ready p dc prm m') → ∀ m, Ready p dc prm m →
      ∃ H V, ∀ n m', Exec p.dims (S.take n).flatten m m' → P H V m' by
    refine hS _ (fun L hL m hr => ?_) m hr
    simp only [stages, List.mem_flatMap, List.mem_map] at hL
    obtain ⟨q, -, i, -, rfl⟩ := hL
    obtain ⟨m', r, st, -⟩ := stage_rows hv hr (lsrkCoef 5) q.1 q.2 i
    exact ⟨m', r split, hr.static st⟩
  intro S hS
  induction S with
  | nil =>
    intro m _
    obtain ⟨H, V, h⟩ := one m
    refine ⟨H, V, fun n m' he => ?_⟩
    simp only [List.take_nil, List.flatten_nil] at he
    cases he
    exact h
  | cons L S ih =>
    intro m hr
    obtain ⟨m1, r1, hr1⟩ := hS L (by simp) m hr
    obtain ⟨H1, V1, h1⟩ := ih (fun L hL => hS L (by simp [hL])) m1 hr1
    obtain ⟨H, V, h⟩ := one m
    refine ⟨max H H1, max V V1, fun n m' he => ?_⟩
    cases n with
    | zero =>
      simp only [List.take_zero, List.flatten_nil] at he
      cases he
      exact mono h (le_max_left _ _) (le_max_left _ _)
    | succ n =>
      rw [List.take_succ_cons, List.flatten_cons] at he
      obtain ⟨m2, e1, e2⟩ := exec_append.1 he
      have : m2 = m1 := (r1.2 m2).1 e1
      subst this
      exact mono (h1 n m' e2) (le_max_right _ _) (le_max_right _ _)

theorem drift_tend (hR : Rounded val u) (hu : u ≤ 1 / 1000) {o y a : R} {B : ℝ} (ho : |val o| ≤ B)
    (ha : |val a| ≤ 2) (hy : |val y| ≤ 9 / 10 * B) : |val (o * a + y)| ≤ 3 * B := by
  have u0 := hR.nonneg
  have B0 := (abs_nonneg _).trans ho
  have h1 : |val (o * a)| ≤ 1001 / 1000 * (B * 2) := (hR.mul_le _ _).trans (by
    refine mul_le_mul (by linarith) (mul_le_mul ho ha (abs_nonneg _) B0) (by positivity) (by norm_num))
  refine (hR.add_le _ _).trans ?_
  have h2 := (abs_add_le (val (o * a)) (val y)).trans (add_le_add h1 hy)
  calc (1 + u) * |val (o * a) + val y| ≤ 1001 / 1000 * (1001 / 1000 * (B * 2) + 9 / 10 * B) :=
        mul_le_mul (by linarith) h2 (abs_nonneg _) (by norm_num)
    _ ≤ 3 * B := by linarith

theorem drift_state (hR : Rounded val u) (hu : u ≤ 1 / 1000) {h dt b o : R} {x s : ℝ} (hh : |val h - x| ≤ s)
    (hx : |x| + s ≤ 5) (hdt : |val dt| ≤ 2 / 1000000) (hb : |val b| ≤ 1) (ho : |val o| ≤ 24300) :
    |val (h + dt * b * o) - x| ≤ s + 1 / 10 := by
  have u0 := hR.nonneg
  have h1 : |val (dt * b)| ≤ 3 / 1000000 := (hR.mul_le _ _).trans (by
    calc (1 + u) * (|val dt| * |val b|) ≤ 1001 / 1000 * (2 / 1000000 * 1) :=
          mul_le_mul (by linarith) (mul_le_mul hdt hb (abs_nonneg _) (by norm_num)) (by positivity) (by norm_num)
      _ ≤ _ := by norm_num)
  have h2 : |val (dt * b * o)| ≤ 8 / 100 := (hR.mul_le _ _).trans (by
    calc (1 + u) * (|val (dt * b)| * |val o|) ≤ 1001 / 1000 * (3 / 1000000 * 24300) :=
          mul_le_mul (by linarith) (mul_le_mul h1 ho (abs_nonneg _) (by norm_num)) (by positivity) (by norm_num)
      _ ≤ _ := by norm_num)
  have h3 : |val h| ≤ 5 := by
    have := abs_add_le (val h - x) x
    rw [sub_add_cancel] at this
    linarith
  have h4 := hR.add h (dt * b * o)
  have h5 : u * |val h + val (dt * b * o)| ≤ 1 / 1000 * (5 + 8 / 100) :=
    mul_le_mul hu ((abs_add_le _ _).trans (add_le_add h3 h2)) (abs_nonneg _) (by norm_num)
  have e : val (h + dt * b * o) - x = (val (h + dt * b * o) - (val h + val (dt * b * o))) + ((val h - x) +
    val (dt * b * o)) := by ring
  rw [e]
  refine (abs_add_le _ _).trans ?_
  have := abs_add_le (val h - x) (val (dt * b * o))
  linarith

/-- a step in doubles (without overflow), from the initial data and with the bounds of `C76_tracer_rounding` -/
example : ∃ (m m' : Mem Fl) (prm : Params Fl) (dt : Fl), RunValid p461 ∧ Ready p461 (lit 1 : Fl) prm m ∧
    0 < dt.val ∧ prm.disable_h = false ∧ Scalar.lt (lit 0) prm.eddy_diff2 = false ∧
    Scalar.lt (lit 0) prm.eddy_diff4 = false ∧
    (∀ c, (m.real (.tr_cell .state) 0 c 0).val = if c % 2 = 0 then 1 else 3) ∧
    Throughout p461.dims ⟨defaultKernels p461.dims.vl, true⟩ (SWModel.ofParams prm) [(lit 0, dt)] m
      (fun m => LayerBounds Fl.val p461 0 (3 / 2) (3 / 2) m ∧ TracerBounds Fl.val p461 0 0 4 (1 / 2) m) ∧
    Exec p461.dims ((Stepper.lsrk 5).run p461.dims ⟨defaultKernels p461.dims.vl, true⟩ (SWModel.ofParams prm)
      [(lit 0, dt)]) m m' := by
  have hR := fl_rounded
  have hu : ((2 : ℝ)⁻¹ ^ 53) ≤ 1 / 1000 := by norm_num
  have hv := p461_run
  have hl : 0 < p461.dims.nlayers := by
    rw [show p461.dims.nlayers = p46.dims.nlayers from rfl, p46_layers]
    norm_num
  let prm : Params Fl := ⟨lit 0, lit 9, lit 0, lit 0, lit 0, lit 0, false, true⟩
  have hd2 : Scalar.lt (lit 0) prm.eddy_diff2 = false := by
    show decide ((lit 0 : Fl).val < (lit 0 : Fl).val) = false
    simp
  have l1 : (lit 1 : Fl).val = 1 := by simpa using hR.lit 1 (by norm_num)
  have l3 : (lit 3 : Fl).val = 3 := by simpa using hR.lit 3 (by norm_num)
  have l0 : (lit 0 : Fl).val = 0 := by simpa using hR.lit 0 (by norm_num)
  obtain ⟨m, hr, hx, hy⟩ := exists_ready hv.toValid (lit 1 : Fl) prm
    ⟨fun _ _ => lit 1, fun _ _ => lit 1, fun _ c _ => if c % 2 = 0 then lit 1 else lit 3⟩
    ⟨fun _ _ => lit 0, fun _ _ => lit 0, fun _ _ _ => lit 0⟩
  have xh : ∀ c k, m.real (.h_cell .state) 0 c k = lit 1 := fun c k => congrFun (congrFun (congrArg Fld.h hx) c) k
  have xv : ∀ c k, m.real (.vn_edge .state) 0 c k = lit 1 := fun c k => congrFun (congrFun (congrArg Fld.vn hx) c) k
  have xt : ∀ l c k, m.real (.tr_cell .state) l c k = if c % 2 = 0 then lit 1 else lit 3 := fun l c k =>
    congrFun (congrFun (congrFun (congrArg Fld.tr hx) l) c) k
  have yh : ∀ c k, m.real (.h_cell .tend) 0 c k = lit 0 := fun c k => congrFun (congrFun (congrArg Fld.h hy) c) k
  have yv : ∀ c k, m.real (.vn_edge .tend) 0 c k = lit 0 := fun c k => congrFun (congrFun (congrArg Fld.vn hy) c) k
  have yt : ∀ l c k, m.real (.tr_cell .tend) l c k = lit 0 := fun l c k =>
    congrFun (congrFun (congrFun (congrArg Fld.tr hy) l) c) k
  let dt : Fl := lit 1 / lit 1000000
  have hdt : |dt.val| ≤ 2 / 1000000 := coef_bounds hR hu (by norm_num) (by norm_num) (by norm_num) (by norm_num)
  have hdt0 : 0 < dt.val := by
    have h := hR.div (lit 1) (lit 1000000) (by rw [hR.lit _ (by norm_num)]; norm_num)
    rw [hR.lit _ (by norm_num), hR.lit _ (by norm_num)] at h
    have := (abs_le.1 h).1
    norm_num at this
    linarith
  obtain ⟨M, hM0, hM, hrun, -, hpre, hst⟩ := five_memories hv hr (split := true) (t := lit 0) (dt := dt) (sched := [])
    (P := fun _ => True) (fun _ _ _ => trivial)
  have ha : ∀ i, i < 5 → |((lsrkCoef 5).a i : Fl).val| ≤ 2 := by
    intro i hi
    have : i = 0 ∨ i = 1 ∨ i = 2 ∨ i = 3 ∨ i = 4 := by omega
    rcases this with rfl | rfl | rfl | rfl | rfl
    · show |(lit 0 : Fl).val| ≤ 2
      rw [l0]; norm_num
    all_goals exact coef_bounds hR hu (by norm_num) (by norm_num) (by norm_num) (by norm_num)
  have hb : ∀ i, i < 5 → |((lsrkCoef 5).b i : Fl).val| ≤ 1 := by
    intro i hi
    have : i = 0 ∨ i = 1 ∨ i = 2 ∨ i = 3 ∨ i = 4 := by omega
    rcases this with rfl | rfl | rfl | rfl | rfl
    all_goals exact coef_bounds hR hu (by norm_num) (by norm_num) (by norm_num) (by norm_num)
  have hpow : ∀ i : ℕ, i ≤ 5 → (100 : ℝ) * 3 ^ i ≤ 24300 := fun i hi => by
    have : (3 : ℝ) ^ i ≤ 3 ^ 5 := pow_le_pow_right₀ (by norm_num) hi
    linarith
  have hpow1 : ∀ i : ℕ, (1 : ℝ) ≤ 3 ^ i := fun i => one_le_pow₀ (by norm_num)
  -- thickness, velocity and tracer drift by at most a tenth per stage
  have key : ∀ i : ℕ, i ≤ 5 →
      (∀ c, IsCell p461.nx p461.ny c → |((M i).real (.h_cell .state) 0 c 0).val - 1| ≤ i / 10 ∧
        |((M i).real (.h_cell .tend) 0 c 0).val| ≤ 100 * 3 ^ i) ∧
      (∀ e, 0 ≤ e → e < 3 * (p461.nx * p461.ny) → |((M i).real (.vn_edge .state) 0 e 0).val - 1| ≤ i / 10 ∧
        ((M i).real (.vn_edge .tend) 0 e 0).val = 0) ∧
      (∀ c, IsCell p461.nx p461.ny c →
        |((M i).real (.tr_cell .state) 0 c 0).val - (if c % 2 = 0 then 1 else 3)| ≤ i / 10 ∧
        |((M i).real (.tr_cell .tend) 0 c 0).val| ≤ 100 * 3 ^ i) := by
    intro i
    induction i with
    | zero =>
      intro _
      rw [hM0]
      refine ⟨fun c _ => ?_, fun e _ _ => ?_, fun c _ => ?_⟩
      · rw [xh, yh, l1, l0]; norm_num
      · rw [xv, yv, l1, l0]; norm_num
      · rw [xt, yt, l0]
        split
        · rw [l1]; norm_num
        · rw [l3]; norm_num
    | succ i ih =>
      intro hi
      obtain ⟨k1, k2, k3⟩ := ih (by omega)
      have hi5 : (i : ℝ) ≤ 4 := by exact_mod_cast (by omega : i ≤ 4)
      have i0 : (0 : ℝ) ≤ i := Nat.cast_nonneg i
      have hc : ((i + 1 : ℕ) : ℝ) / 10 = i / 10 + 1 / 10 := by push_cast; ring
      have hp : (100 : ℝ) * 3 ^ (i + 1) = 3 * (100 * 3 ^ i) := by ring
      have bh : ∀ c, IsCell p461.nx p461.ny c → |((M i).real (.h_cell .state) 0 c 0).val| ≤ 3 / 2 := fun c h => by
        have := abs_le.1 (k1 c h).1
        exact abs_le.2 ⟨by linarith, by linarith⟩
      have bh' : ∀ c, IsCell p461.nx p461.ny c → 1 / 2 ≤ |((M i).real (.h_cell .state) 0 c 0).val| := fun c h => by
        have := abs_le.1 (k1 c h).1
        exact le_trans (by linarith) (le_abs_self _)
      have bv : ∀ e, 0 ≤ e → e < 3 * (p461.nx * p461.ny) → |((M i).real (.vn_edge .state) 0 e 0).val| ≤ 3 / 2 :=
        fun e h h' => by
          have := abs_le.1 (k2 e h h').1
          exact abs_le.2 ⟨by linarith, by linarith⟩
      have bt : ∀ c, IsCell p461.nx p461.ny c → |((M i).real (.tr_cell .state) 0 c 0).val| ≤ 4 := fun c h => by
        have := abs_le.1 (k3 c h).1
        split at this <;> exact abs_le.2 ⟨by linarith, by linarith⟩
      have hx := ((hM i (by omega)).2.hex hv.toValid).1
      have t1 := hadv_term hR hu hv.toValid (by decide) (by decide) (by rw [l1]; norm_num) hx bh bv
      have t2 := thadv_term hR hu hv.toValid (by decide) (by decide) (by rw [l1]; norm_num) hx (b := 1 / 2) (by norm_num)
        bh bh' bt bv
      rw [l1] at t1 t2
      refine ⟨fun c h => ?_, fun e h h' => ?_, fun c h => ?_⟩
      · obtain ⟨r1, r2⟩ := (hst i (by omega)).1 rfl c 0 h.1 h.2 le_rfl hl
        have o1 : |((M (i + 1)).real (.h_cell .tend) 0 c 0).val| ≤ 3 * (100 * 3 ^ i) := by
          rw [r1]
          refine drift_tend hR hu (k1 c h).2 (ha i (by omega)) ((t1.1 c h).trans ?_)
          have := hpow1 i
          norm_num
          linarith
        rw [hc, hp]
        refine ⟨?_, o1⟩
        rw [r2]
        refine drift_state hR hu (k1 c h).1 (by norm_num; linarith) hdt (hb i (by omega)) (o1.trans ?_)
        rw [← hp]
        exact hpow _ hi
      · obtain ⟨r1, r2⟩ := (hst i (by omega)).2.2 rfl e 0 h h' le_rfl hl
        have o1 : ((M (i + 1)).real (.vn_edge .tend) 0 e 0).val = 0 := by
          rw [r1]
          have := hR.mul_le ((M i).real (.vn_edge .tend) 0 e 0) ((lsrkCoef 5).a i)
          rw [(k2 e h h').2, abs_zero, zero_mul, mul_zero] at this
          exact abs_nonpos_iff.1 this
        rw [hc]
        refine ⟨?_, o1⟩
        rw [r2]
        exact drift_state hR hu (k2 e h h').1 (by norm_num; linarith) hdt (hb i (by omega)) (by rw [o1]; norm_num)
      · obtain ⟨r1, r2⟩ := (hst i (by omega)).2.1 hd2 hd2 0 c 0 le_rfl (by decide) h.1 h.2 le_rfl hl
        have o1 : |((M (i + 1)).real (.tr_cell .tend) 0 c 0).val| ≤ 3 * (100 * 3 ^ i) := by
          rw [r1]
          refine drift_tend hR hu (k3 c h).2 (ha i (by omega)) ((t2.1 c h).trans ?_)
          have := hpow1 i
          norm_num
          linarith
        rw [hc, hp]
        refine ⟨?_, o1⟩
        rw [r2]
        refine drift_state hR hu (k3 c h).1 (by split <;> norm_num <;> linarith) hdt (hb i (by omega)) (o1.trans ?_)
        rw [← hp]
        exact hpow _ hi
  refine ⟨m, M 5, prm, dt, hv, hr, hdt0, rfl, hd2, hd2, fun c => ?_, ?_, ?_⟩
  · rw [xt]
    split <;> assumption
  · intro n m' he
    have hn : ∃ i, i ≤ 5 ∧ m' = M i := by
      rcases le_total n 5 with h | h
      · exact ⟨n, h, ((hpre n h).2 m').1 he⟩
      · refine ⟨5, le_rfl, ((hpre 5 le_rfl).2 m').1 ?_⟩
        have e : ∀ n, 5 ≤ n → (stages p461.dims ⟨defaultKernels p461.dims.vl, true⟩ (SWModel.ofParams prm)
          [(lit 0, dt)]).take n = stages p461.dims ⟨defaultKernels p461.dims.vl, true⟩ (SWModel.ofParams prm)
          [(lit 0, dt)] := fun n hn => List.take_of_length_le (by simpa [stages] using hn)
        rw [e 5 le_rfl]
        rw [e n h] at he
        exact he
    obtain ⟨i, hi, rfl⟩ := hn
    obtain ⟨k1, k2, k3⟩ := key i hi
    have hi5 : (i : ℝ) ≤ 5 := by exact_mod_cast hi
    refine ⟨⟨fun c h => ?_, fun e h h' => ?_⟩, fun c h => ⟨?_, ?_⟩⟩
    · have := abs_le.1 (k1 c h).1
      exact abs_le.2 ⟨by linarith, by linarith⟩
    · have := abs_le.1 (k2 e h h').1
      exact abs_le.2 ⟨by linarith, by linarith⟩
    · have := abs_le.1 (k3 c h).1
      split at this <;> exact abs_le.2 ⟨by linarith, by linarith⟩
    · have := abs_le.1 (k1 c h).1
      exact le_trans (by linarith) (le_abs_self _)
  · rw [run_stages]
    have := (hpre 5 le_rfl).exec
    rwa [List.take_of_length_le (by simp [stages])] at this

/-- two steps of the full equations in doubles (without overflow) -/
example : ∃ (m m' : Mem Fl) (prm : Params Fl) (dt : Fl) (H V : ℝ), RunValid p46 ∧ Ready p46 (lit 1 : Fl) prm m ∧
    prm.disable_h = false ∧ prm.disable_vn = false ∧ dt.val ≠ 0 ∧
    Throughout p46.dims ⟨defaultKernels p46.dims.vl, true⟩ (SWModel.ofParams prm) [(lit 0, dt), (dt, dt)] m
      (LayerBounds Fl.val p46 0 H V) ∧
    Exec p46.dims ((Stepper.lsrk 5).run p46.dims ⟨defaultKernels p46.dims.vl, true⟩ (SWModel.ofParams prm)
      [(lit 0, dt), (dt, dt)]) m m' := by
  let prm : Params Fl := ⟨lit 1, lit 9, lit 0, lit 0, lit 0, lit 0, false, false⟩
  obtain ⟨m, hr, -⟩ := exists_ready p46_run.toValid (lit 1 : Fl) prm
    ⟨fun c _ => lit (c % 5 + 10), fun e _ => lit (e % 3), fun _ _ _ => lit 0⟩
    ⟨fun _ _ => lit 0, fun _ _ => lit 0, fun _ _ _ => lit 0⟩
  obtain ⟨H, V, hb⟩ := C76_bounds_exist Fl.val p46_run (split := true)
    [(lit 0, (lit 1 / lit 8 : Fl)), (lit 1 / lit 8, lit 1 / lit 8)] hr
  have hex : ∀ (sched : List (Fl × Fl)) (m : Mem Fl), Ready p46 (lit 1 : Fl) prm m → ∃ m', Exec p46.dims
      ((Stepper.lsrk 5).run p46.dims ⟨defaultKernels p46.dims.vl, true⟩ (SWModel.ofParams prm) sched) m m' := by
    intro sched
    induction sched with
    | nil => exact fun m _ => ⟨m, .nil m⟩
    | cons q L ih =>
      intro m hr
      obtain ⟨M, -, hM, hrun, -⟩ := five_memories p46_run hr (split := true) (t := q.1) (dt := q.2) (sched := [])
        (P := fun _ => True) (fun _ _ _ => trivial)
      obtain ⟨m', he⟩ := ih (M 5) (hM 5 le_rfl).2
      exact ⟨m', exec_append.2 ⟨M 5, hrun.exec, he⟩⟩
  obtain ⟨m', he⟩ := hex _ m hr
  refine ⟨m, m', prm, lit 1 / lit 8, H, V, p46_run, hr, rfl, rfl, fun h => ?_,
    fun n m' h => hb n m' h 0 le_rfl (by rw [p46_layers]; norm_num), he⟩
  have h1 := fl_rounded.div (lit 1) (lit 8) (by rw [fl_rounded.lit _ (by norm_num)]; norm_num)
  rw [fl_rounded.lit _ (by norm_num), fl_rounded.lit _ (by norm_num), h] at h1
  norm_num at h1

end Props
end
end Omega
