import Verif.Refine.TestPrograms
import Verif.Props.TracerHyper
import Verif.Props.Convergence

/-!
# C63, C64: the tracer diffusion and hyperdiffusion tests

The initial concentration is an eigenvector of the discrete Laplacian, so the error the tests return
has a closed form.
-/

set_option linter.unusedVariables false
set_option linter.unusedSectionVars false

namespace Omega
noncomputable section
namespace Props

open Prog Model Refine Hex Polynomial

variable {p : MeshParams} {dc : ℝ} {m : Mem ℝ}

/-! ### Eigenvectors -/

theorem pow_eig {A : Module.End ℝ (Int → ℝ)} {S : Int → Prop}
    (loc : ∀ g g' : Int → ℝ, (∀ c, S c → g c = g' c) → ∀ c, S c → A g c = A g' c) {f : Int → ℝ} {μ : ℝ}
    (eig : ∀ c, S c → A f c = μ * f c) (n : ℕ) : ∀ c, S c → (A ^ n) f c = μ ^ n * f c := by
  induction n with
  | zero => intro c hc; simp
  | succ n ih =>
    intro c hc
    rw [pow_succ', Module.End.mul_apply, loc _ (μ ^ n • f) (fun c hc => ih c hc) c hc, map_smul]
    show μ ^ n * A f c = _
    rw [eig c hc]; ring

/-- A polynomial of an operator acts on an eigenvector by its value. -/
theorem aeval_eig {A : Module.End ℝ (Int → ℝ)} {S : Int → Prop}
    (loc : ∀ g g' : Int → ℝ, (∀ c, S c → g c = g' c) → ∀ c, S c → A g c = A g' c) {f : Int → ℝ} {μ : ℝ}
    (eig : ∀ c, S c → A f c = μ * f c) (P : ℝ[X]) : ∀ c, S c → aeval A P f c = P.eval μ * f c := by
  induction P using Polynomial.induction_on' with
  | add P Q hP hQ =>
    intro c hc
    rw [map_add, LinearMap.add_apply, Pi.add_apply, hP c hc, hQ c hc, eval_add]; ring
  | monomial n a =>
    intro c hc
    rw [aeval_monomial, eval_monomial, Module.End.mul_apply, mul_assoc, ← pow_eig loc eig n c hc]
    rfl

/-- Repeated steps of one size. -/
theorem fold_eig {A : Module.End ℝ (Int → ℝ)} {S : Int → Prop}
    (loc : ∀ g g' : Int → ℝ, (∀ c, S c → g c = g' c) → ∀ c, S c → A g c = A g' c) {μ : ℝ} (P : ℝ[X])
    {dt : ℝ} (L : List (ℝ × ℝ)) : ∀ {f : Int → ℝ}, (∀ c, S c → A f c = μ * f c) →
    (∀ q ∈ L, q.2 = dt) → ∀ c, S c →
    L.foldl (fun f q => aeval (q.2 • A) P f) f c = P.eval (dt * μ) ^ L.length * f c := by
  induction L with
  | nil => intro f eig hq c hc; simp
  | cons a L ih =>
    intro f eig hq c hc
    have ha : a.2 = dt := hq a (by simp)
    have loc' : ∀ g g' : Int → ℝ, (∀ c, S c → g c = g' c) → ∀ c, S c → (dt • A) g c = (dt • A) g' c :=
      fun g g' h c hc => congrArg (dt * ·) (loc g g' h c hc)
    have eig' : ∀ c, S c → (dt • A) f c = (dt * μ) * f c := fun c hc => by
      show dt * A f c = _
      rw [eig c hc]; ring
    have e1 := aeval_eig loc' eig' P
    rw [List.foldl_cons, ha, ih (f := aeval (dt • A) P f) (fun c hc => ?_)
      (fun q h => hq q (by simp [h])) c hc, e1 c hc, List.length_cons, pow_succ]
    · ring
    · rw [e1 c hc, loc _ (P.eval (dt * μ) • f) (fun c hc => e1 c hc) c hc, map_smul]
      show _ * A f c = _
      rw [eig c hc]; ring

/-! ### The mode of the tests -/

/-- `sin(2 * pi * x / lx) * sin(2 * pi * y / ly)` at the cells -/
def mode (p : MeshParams) (dc : ℝ) (c : Int) : ℝ :=
  Real.sin (2 * Real.pi * xC p.nx dc c / periodX p.nx dc) *
    Real.sin (2 * Real.pi * yC p.nx dc c / periodY p.ny dc)

/-- its eigenvalue -/
def lapEig (p : MeshParams) (dc : ℝ) : ℝ :=
  2 / (3 * dc ^ 2) * (2 * Real.cos (2 * Real.pi / p.nx) +
    4 * Real.cos (2 * Real.pi / p.nx / 2) * Real.cos (2 * Real.pi / p.ny) - 6)

theorem across_x {nx ny : Int} (hnx : 1 ≤ nx) (hny : ny % 2 = 0) (dc : ℝ) {c : Int}
    (hc : IsCell nx ny c) {j : Int} (h0 : 0 ≤ j) (h6 : j < 6) :
    ModP (periodX nx dc) (xC nx dc (across nx ny c j)) (xC nx dc c + dc * DX j) := by
  unfold across
  split_ifs with h
  · have := xC_nb hnx hny dc (inv_isCell hnx hc (j := j + 3)) (j := j + 3) (by omega) (by omega)
    rw [nb_inv hnx hc] at this
    have e : DX (j + 3) = -DX j := by
      obtain rfl | rfl | rfl : j = 0 ∨ j = 1 ∨ j = 2 := by omega
      all_goals unfold DX; norm_num
    rw [e] at this
    exact ((this.add (dc * DX j)).trans (ModP.of_eq (by ring))).symm
  · exact xC_nb hnx hny dc hc h0 h6

theorem across_y {nx ny : Int} (hnx : 1 ≤ nx) (dc : ℝ) {c : Int}
    (hc : IsCell nx ny c) {j : Int} (h0 : 0 ≤ j) (h6 : j < 6) :
    ModP (periodY ny dc) (yC nx dc (across nx ny c j)) (yC nx dc c + dc * (DY j * √3 / 2)) := by
  unfold across
  split_ifs with h
  · have := yC_nb hnx dc (inv_isCell hnx hc (j := j + 3)) (j := j + 3) (by omega) (by omega)
    rw [nb_inv hnx hc] at this
    have e : DY (j + 3) = -DY j := by
      obtain rfl | rfl | rfl : j = 0 ∨ j = 1 ∨ j = 2 := by omega
      all_goals unfold DY; norm_num
    rw [e] at this
    exact ((this.add (dc * (DY j * √3 / 2))).trans (ModP.of_eq (by ring))).symm
  · exact yC_nb hnx dc hc h0 h6

theorem sin_mod {P x y : ℝ} (hP : P ≠ 0) (h : ModP P x y) :
    Real.sin (2 * Real.pi * x / P) = Real.sin (2 * Real.pi * y / P) := by
  obtain ⟨k, rfl⟩ := h
  rw [show 2 * Real.pi * (y + k * P) / P = 2 * Real.pi * y / P + k * (2 * Real.pi) by field_simp,
    Real.sin_add_int_mul_two_pi]

theorem mode_across (hnx : 1 ≤ p.nx) (hny1 : 1 ≤ p.ny) (hny : p.ny % 2 = 0) (hdc : dc ≠ 0) {c : Int}
    (hc : IsCell p.nx p.ny c) {j : Int} (h0 : 0 ≤ j) (h6 : j < 6) :
    mode p dc (across p.nx p.ny c j) =
      Real.sin (2 * Real.pi * xC p.nx dc c / periodX p.nx dc + 2 * Real.pi / p.nx * DX j) *
      Real.sin (2 * Real.pi * yC p.nx dc c / periodY p.ny dc + 2 * Real.pi / p.ny * DY j) := by
  have a0 : (p.nx : ℝ) ≠ 0 := by exact_mod_cast (by omega : p.nx ≠ 0)
  have b0 : (p.ny : ℝ) ≠ 0 := by exact_mod_cast (by omega : p.ny ≠ 0)
  have s3 : √3 ≠ 0 := by positivity
  have hX : periodX p.nx dc ≠ 0 := by
    unfold periodX; simp only [lit_real]; exact mul_ne_zero a0 hdc
  have hY : periodY p.ny dc ≠ 0 := by
    unfold periodY
    simp only [lit_real, sqrt_real]
    push_cast
    exact div_ne_zero (mul_ne_zero (mul_ne_zero b0 hdc) s3) two_ne_zero
  unfold mode
  rw [sin_mod hX (across_x hnx hny dc hc h0 h6), sin_mod hY (across_y hnx dc hc h0 h6)]
  congr 2
  · unfold periodX; simp only [lit_real]; field_simp
  · unfold periodY; simp only [lit_real, sqrt_real]; push_cast; field_simp

/-- The mode is an eigenvector of the discrete Laplacian. -/
theorem lap_mode (h : Geo2 p.nx p.ny p.dims.nlayers dc m.mesh) (hny : p.ny % 2 = 0) {c : Int}
    (hc : IsCell p.nx p.ny c) :
    Spec.div m (Spec.grad m (mode p dc)) c = lapEig p dc * mode p dc c := by
  have e : Spec.grad m (mode p dc) = fun e => Spec.mean m (fun _ => 1) e * Spec.grad m (mode p dc) e := by
    funext e; unfold Spec.mean; ring
  have mc := fun (j : Int) a b => mode_across (p := p) (dc := dc) h.hnx (by have := h.hny2; omega) hny
    h.dc_pos.ne' hc (j := j) a b
  rw [e, diff_nbrs h _ _ hc]
  simp only [Finset.sum_range_succ, Finset.sum_range_zero, zero_add, Nat.cast_zero, Nat.cast_one,
    Nat.cast_ofNat]
  rw [mc 0 (by norm_num) (by norm_num), mc 1 (by norm_num) (by norm_num),
    mc 2 (by norm_num) (by norm_num), mc 3 (by norm_num) (by norm_num),
    mc 4 (by norm_num) (by norm_num), mc 5 (by norm_num) (by norm_num)]
  unfold lapEig mode
  generalize 2 * Real.pi * xC p.nx dc c / periodX p.nx dc = X
  generalize 2 * Real.pi * yC p.nx dc c / periodY p.ny dc = Y
  generalize 2 * Real.pi / (p.nx : ℝ) = a
  generalize 2 * Real.pi / (p.ny : ℝ) = b
  have d0 : DX 0 = -1 := by simp [DX]
  have d1 : DX 1 = -1 / 2 := by simp [DX]
  have d2 : DX 2 = 1 / 2 := by simp [DX]
  have d3 : DX 3 = 1 := by simp [DX]
  have d4 : DX 4 = 1 / 2 := by simp [DX]
  have d5 : DX 5 = -1 / 2 := by norm_num [DX]
  have g0 : DY 0 = 0 := by simp [DY]
  have g1 : DY 1 = -1 := by simp [DY]
  have g2 : DY 2 = -1 := by simp [DY]
  have g3 : DY 3 = 0 := by simp [DY]
  have g4 : DY 4 = 1 := by simp [DY]
  have g5 : DY 5 = 1 := by norm_num [DY]
  rw [d0, d1, d2, d3, d4, d5, g0, g1, g2, g3, g4, g5,
    show a * (-1 / 2) = -(a / 2) by ring, show a * (1 / 2) = a / 2 by ring,
    show a * -1 = -a by ring, show b * -1 = -b by ring, mul_one, mul_zero, add_zero, mul_one]
  simp only [Real.sin_add, Real.cos_neg, Real.sin_neg]
  ring

/-- The tracer tendency of the mode in a layer of uniform thickness at rest. -/
theorem trOp_mode (h : Geo2 p.nx p.ny p.dims.nlayers dc m.mesh) (hc : ConnOK p.dims m)
    (hny : p.ny % 2 = 0) (sw : SWModel ℝ) {x u : Int → ℝ} {H : ℝ} (hH : H ≠ 0)
    (hx : ∀ c, 0 ≤ c → c < p.dims.ncells → x c = H)
    (hu : ∀ e, 0 ≤ e → e < p.dims.nedges → u e = 0) {k c : Int} (k0 : 0 ≤ k)
    (k1 : k < p.dims.nlayers) (c0 : 0 ≤ c) (c1 : c < p.dims.ncells) :
    trOp m sw x u (mode p dc) c = ((if sw.en_tdiff then sw.prm.eddy_diff2 else 0) * lapEig p dc -
      (if sw.en_thyper then sw.prm.eddy_diff4 else 0) * lapEig p dc ^ 2) * mode p dc c := by
  have e1 : Spec.div m (Spec.grad m (Spec.div m (Spec.grad m (mode p dc)))) c =
      lapEig p dc ^ 2 * mode p dc c := by
    rw [div_congr hc (v := fun e => lapEig p dc * Spec.grad m (mode p dc) e) (fun e a b => ?_) c0 c1,
      div_mul', lap_mode h hny ⟨c0, c1⟩]
    · ring
    · rw [grad_congr hc (ψ := fun c => lapEig p dc * mode p dc c)
        (fun c a b => lap_mode h hny ⟨a, b⟩) a b]
      unfold Spec.grad; ring
  rw [trOp_uniform h hc sw hH hx hu k0 k1 c0 c1, e1, lap_mode h hny ⟨c0, c1⟩]
  ring

theorem trOp_local (h : Geo2 p.nx p.ny p.dims.nlayers dc m.mesh) (hc : ConnOK p.dims m)
    (sw : SWModel ℝ) {x u : Int → ℝ} {H : ℝ} (hH : H ≠ 0)
    (hx : ∀ c, 0 ≤ c → c < p.dims.ncells → x c = H)
    (hu : ∀ e, 0 ≤ e → e < p.dims.nedges → u e = 0) {k : Int} (k0 : 0 ≤ k)
    (k1 : k < p.dims.nlayers) (g g' : Int → ℝ) (hg : ∀ c, IsCell p.nx p.ny c → g c = g' c) :
    ∀ c, IsCell p.nx p.ny c → trOp m sw x u g c = trOp m sw x u g' c := by
  rintro c ⟨c0, c1⟩
  rw [trOp_uniform h hc sw hH hx hu k0 k1 c0 c1, trOp_uniform h hc sw hH hx hu k0 k1 c0 c1]
  have e : ∀ c, 0 ≤ c → c < p.dims.ncells →
      Spec.div m (Spec.grad m g) c = Spec.div m (Spec.grad m g') c := fun c a b =>
    div_congr hc (fun e a b => grad_congr hc (fun c a b => hg c ⟨a, b⟩) a b) a b
  rw [e c c0 c1, div_congr hc (fun i a b => grad_congr hc e a b) c0 c1]

/-! ### Mean square of the mode -/

theorem sum_cos (n : ℕ) (hn : 3 ≤ n) (φ : ℝ) :
    ∑ k ∈ Finset.range n, Real.cos (2 * (2 * Real.pi / n * k + φ)) = 0 := by
  set a := 2 * Real.pi / n with ha
  have n0 : (0 : ℝ) < n := by exact_mod_cast (by omega : 0 < n)
  have n3 : (3 : ℝ) ≤ n := by exact_mod_cast hn
  have a0 : 0 < a := by positivity
  have a1 : a < Real.pi := by
    rw [ha, div_lt_iff₀ n0]; nlinarith [Real.pi_pos]
  have hs := Real.sin_pos_of_pos_of_lt_pi a0 a1
  have tel : ∀ N : ℕ, ∑ k ∈ Finset.range N, 2 * Real.sin a * Real.cos (2 * (a * k + φ)) =
      Real.sin (2 * (a * N + φ) - a) - Real.sin (2 * φ - a) := fun N => by
    induction N with
    | zero => simp
    | succ N ih =>
      rw [Finset.sum_range_succ, ih]
      push_cast
      rw [show 2 * (a * ((N : ℝ) + 1) + φ) - a = 2 * (a * N + φ) + a by ring, Real.sin_add,
        Real.sin_sub (2 * (a * N + φ))]
      ring
  have := tel n
  rw [← Finset.mul_sum, show 2 * (a * n + φ) - a = 2 * φ - a + (2 : ℕ) * (2 * Real.pi) by
    rw [ha]; field_simp; push_cast; ring, Real.sin_add_nat_mul_two_pi, sub_self] at this
  rcases mul_eq_zero.1 this with h | h
  · linarith
  · exact h

theorem sum_sin_sq (n : ℕ) (hn : 3 ≤ n) (φ : ℝ) :
    ∑ k ∈ Finset.range n, Real.sin (2 * Real.pi / n * k + φ) ^ 2 = n / 2 := by
  have : ∀ x : ℝ, Real.sin x ^ 2 = 1 / 2 - Real.cos (2 * x) / 2 := fun x => by
    rw [Real.cos_two_mul, Real.cos_sq']; ring
  simp only [this]
  rw [Finset.sum_sub_distrib, ← Finset.sum_div _ fun k : ℕ => Real.cos (2 * (2 * Real.pi / n * k + φ)),
    sum_cos n hn φ]
  simp [Finset.sum_const]
  ring

theorem sum_sin_sq_int (n : Int) (hn : 3 ≤ n) (φ : ℝ) :
    ∑ k ∈ upto n, Real.sin (2 * Real.pi / n * k + φ) ^ 2 = n / 2 := by
  obtain ⟨N, rfl⟩ : ∃ N : ℕ, n = N := ⟨n.toNat, by omega⟩
  have := sum_sin_sq N (by omega) φ
  rw [← sum_upto, Int.toNat_natCast]
  simpa using this

theorem sum_rows {nx ny : Int} (hnx : 1 ≤ nx) (hny : 0 ≤ ny) (F : Int → ℝ) :
    ∑ c ∈ upto (nx * ny), F c = ∑ r ∈ upto ny, ∑ i ∈ upto nx, F (cid nx i r) := by
  rw [← Finset.sum_product']
  refine Finset.sum_nbij' (fun c => (row nx c, col nx c)) (fun q => cid nx q.2 q.1) ?_ ?_ ?_ ?_ ?_
  · intro c hc
    obtain ⟨i, r, hi, hi', hr, hr', rfl⟩ := exists_coords (ny := ny) hnx (Finset.mem_Ico.1 hc)
    simp only [Finset.mem_product, Finset.mem_Ico, row_cid hi hi', col_cid hi hi']
    exact ⟨⟨hr, hr'⟩, hi, hi'⟩
  · rintro ⟨r, i⟩ hq
    simp only [Finset.mem_product, Finset.mem_Ico] at hq ⊢
    exact cid_range hq.2.1 hq.2.2 hq.1.1 hq.1.2
  · intro c hc
    obtain ⟨i, r, hi, hi', hr, hr', rfl⟩ := exists_coords (ny := ny) hnx (Finset.mem_Ico.1 hc)
    simp only [row_cid hi hi', col_cid hi hi']
  · rintro ⟨r, i⟩ hq
    simp only [Finset.mem_product, Finset.mem_Ico] at hq
    simp only [row_cid hq.2.1 hq.2.2, col_cid hq.2.1 hq.2.2]
  · intro c hc
    obtain ⟨i, r, hi, hi', hr, hr', rfl⟩ := exists_coords (ny := ny) hnx (Finset.mem_Ico.1 hc)
    simp only [row_cid hi hi', col_cid hi hi']

/-- The mean square of the mode is a quarter. -/
theorem sum_mode (hnx : 3 ≤ p.nx) (hny : 3 ≤ p.ny) (hdc : dc ≠ 0) :
    ∑ c ∈ upto (p.nx * p.ny), mode p dc c ^ 2 = p.nx * p.ny / 4 := by
  have a0 : (p.nx : ℝ) ≠ 0 := by exact_mod_cast (by omega : p.nx ≠ 0)
  have b0 : (p.ny : ℝ) ≠ 0 := by exact_mod_cast (by omega : p.ny ≠ 0)
  have s3 : √3 ≠ 0 := by positivity
  rw [sum_rows (by omega) (by omega)]
  have key : ∀ r ∈ upto p.ny, ∑ i ∈ upto p.nx, mode p dc (cid p.nx i r) ^ 2 =
      p.nx / 2 * Real.sin (2 * Real.pi / p.ny * r + 2 * Real.pi / p.ny) ^ 2 := fun r hr => by
    have e : ∀ i ∈ upto p.nx, mode p dc (cid p.nx i r) ^ 2 =
        Real.sin (2 * Real.pi / p.nx * i + 2 * Real.pi / p.nx * (if r % 2 = 0 then 1 / 2 else 1)) ^ 2 *
        Real.sin (2 * Real.pi / p.ny * r + 2 * Real.pi / p.ny) ^ 2 := fun i hi => by
      obtain ⟨i0, i1⟩ := Finset.mem_Ico.1 hi
      unfold mode xC yC periodX periodY
      rw [row_cid i0 i1, col_cid i0 i1, mul_pow]
      simp only [lit_real, sqrt_real]
      congr 3
      · split_ifs <;> push_cast <;> field_simp
      · push_cast; field_simp
    rw [Finset.sum_congr rfl e, ← Finset.sum_mul, sum_sin_sq_int _ hnx]
  rw [Finset.sum_congr rfl key, ← Finset.mul_sum, sum_sin_sq_int _ hny]
  ring

/-! ### C63 -/

/-- A test that starts from the mode in a layer at rest: for every mesh, every stepper and every
end time, every possible result of the program is the difference between the exact amplitude and the
power of the stepper's polynomial, over two, times the root of the number of layers (the mean is taken
over the cells only). -/
theorem C63_tracer_test_error (hv : RunValid p) (hnt : p.ntracers = 1) (hx : 3 ≤ p.nx)
    (hy : 3 ≤ p.ny) (hny : p.ny % 2 = 0) (hdc : 0 < dc) {prm : Params ℝ} (hh : prm.disable_h = true)
    (hvn : prm.disable_vn = true) (h2 : 0 ≤ prm.eddy_diff2) (h4 : 0 ≤ prm.eddy_diff4)
    {T : TracerTest ℝ} {H : ℝ} (hH : H ≠ 0) (tH : ∀ x y, T.h x y 0 = H) (tx : ∀ x y, T.vx x y 0 = 0)
    (ty : ∀ x y, T.vy x y 0 = 0) {g : ℝ → ℝ} (g0 : g 0 = 1)
    (tt : ∀ x y t, T.tr x y t = Real.sin (2 * Real.pi * x / periodX p.nx dc) *
      Real.sin (2 * Real.pi * y / periodY p.ny dc) * g t)
    (stp : Stepper) {te dt : ℝ} (hte : 0 < te) (hdt : 0 < dt) (split : Bool) {m0 m1 : Mem ℝ}
    (he : Exec p.dims (tracer_run p dc prm ⟨defaultKernels p.dims.vl, split⟩ T stp te
      (driverRun te dt)) m0 m1) (v : ℝ) :
    IsTracerError p m1 v ↔ v = √p.dims.nlayers / 2 *
      |(stabPoly stp).eval (adjustedDt te dt *
        (prm.eddy_diff2 * lapEig p dc - prm.eddy_diff4 * lapEig p dc ^ 2)) ^
          (numberofsteps te dt).toNat - g te| := by
  obtain ⟨m, hr, hm, ⟨hc, -⟩, hex, hst⟩ := tracer_run_runs hv hnt dc prm T stp te (driverRun te dt) m0
  obtain rfl : m1 = m := ((hr split).2 m1).1 he
  have h := geo2_of_hex hv.toValid (by omega) (by omega) hdc hm
  obtain ⟨-, -, -, hlen, hel, -⟩ := C49_driver_steps hte hdt
  set sw := SWModel.ofParams prm with hsw
  set μ := prm.eddy_diff2 * lapEig p dc - prm.eddy_diff4 * lapEig p dc ^ 2 with hμ
  set a := (stabPoly stp).eval (adjustedDt te dt * μ) ^ (numberofsteps te dt).toNat with ha
  have eμ : (if sw.en_tdiff then sw.prm.eddy_diff2 else 0) * lapEig p dc -
      (if sw.en_thyper then sw.prm.eddy_diff4 else 0) * lapEig p dc ^ 2 = μ := by
    have e1 : (if sw.en_tdiff then sw.prm.eddy_diff2 else 0) = prm.eddy_diff2 := by
      show (if Scalar.lt (lit 0) prm.eddy_diff2 then prm.eddy_diff2 else 0) = _
      simp only [lit_real, slt_real, Int.cast_zero]
      split_ifs <;> linarith
    have e2 : (if sw.en_thyper then sw.prm.eddy_diff4 else 0) = prm.eddy_diff4 := by
      show (if Scalar.lt (lit 0) prm.eddy_diff4 then prm.eddy_diff4 else 0) = _
      simp only [lit_real, slt_real, Int.cast_zero]
      split_ifs <;> linarith
    rw [e1, e2]
  have val : ∀ c k, 0 ≤ c → c < p.dims.ncells → 0 ≤ k → k < p.dims.nlayers →
      m1.real (.tr_cell .state) 0 c k = a * mode p dc c := fun c k c0 c1 k0 k1 => by
    have e := hst.tr 0 c k le_rfl (by show (0 : Int) < p.ntracers; omega) c0 c1 k0 k1
    obtain ⟨-, -, r3⟩ := frozen_run (d := p.dims) (m := m1) (sw := sw) hh hvn stp (driverRun te dt)
      (x := (zeroFld, tracerInit p dc T)) (fun _ _ => by simp [zeroFld]) (fun _ _ => by simp [zeroFld])
    have e2 := congrFun (r3 0 k) c
    refine e.trans (e2.trans ?_)
    have eq0 : (fun c => (tracerInit p dc T).tr 0 c k) = mode p dc := by
      funext c
      show T.tr _ _ (lit 0) = _
      rw [tt]
      simp [g0, mode]
    have hx' : ∀ c, 0 ≤ c → c < p.dims.ncells → (fun i => (tracerInit p dc T).h i k) c = H :=
      fun c _ _ => by
        show T.h _ _ (lit 0) = _
        simp [tH]
    have hu' : ∀ e, 0 ≤ e → e < p.dims.nedges → (fun i => (tracerInit p dc T).vn i k) e = 0 :=
      fun e _ _ => by
        show Scalar.cos _ * T.vx _ _ (lit 0) + Scalar.sin _ * T.vy _ _ (lit 0) = 0
        simp [tx, ty]
    show List.foldl _ (fun c => (tracerInit p dc T).tr 0 c k) _ c = _
    rw [eq0, fold_eig (S := IsCell p.nx p.ny) (μ := μ) (dt := adjustedDt te dt)
      (trOp_local h hc sw hH hx' hu' k0 k1) (stabPoly stp) (driverRun te dt)
      (fun c hcc => by rw [trOp_mode h hc hny sw hH hx' hu' k0 k1 hcc.1 hcc.2, eμ]) ?_ c ⟨c0, c1⟩,
      hlen]
    intro q hq
    unfold driverRun driverSched at hq
    rw [List.mem_map] at hq
    obtain ⟨i, -, rfl⟩ := hq
    rfl
  have nl : (0 : Int) ≤ p.dims.nlayers := by
    rw [hv.dims.chunks]; exact mul_nonneg hv.dims.vec_nonneg hv.dims.vl_pos.le
  have nx0 : (0 : ℝ) < p.nx := by exact_mod_cast (by omega : 0 < p.nx)
  have ny0 : (0 : ℝ) < p.ny := by exact_mod_cast (by omega : 0 < p.ny)
  have key : ∀ s, Reduces2 p.dims p.dims.ncells p.dims.nlayers tracer_error_body m1 s ↔
      s = p.dims.nlayers * (p.nx * p.ny / 4) * (a - g te) ^ 2 := fun s => by
    rw [reduces2_real (show 0 ≤ p.dims.ncells from mul_nonneg (by omega) (by omega)) nl
      (fun c k b c0 c1 k0 k1 => wp_tracer_error hnt c0 c1 k0 k1 b)]
    have : ∑ i ∈ Finset.Ico 0 p.dims.ncells, ∑ k ∈ Finset.Ico 0 p.dims.nlayers,
        (m1.real (.test .tr_exact_cell) 0 i k - m1.real (.tr_cell .state) 0 i k) *
        (m1.real (.test .tr_exact_cell) 0 i k - m1.real (.tr_cell .state) 0 i k) =
        p.dims.nlayers * (p.nx * p.ny / 4) * (a - g te) ^ 2 := by
      have e : ∀ i ∈ upto (p.nx * p.ny), ∑ k ∈ Finset.Ico 0 p.dims.nlayers,
          (m1.real (.test .tr_exact_cell) 0 i k - m1.real (.tr_cell .state) 0 i k) *
          (m1.real (.test .tr_exact_cell) 0 i k - m1.real (.tr_cell .state) 0 i k) =
          p.dims.nlayers * (a - g te) ^ 2 * mode p dc i ^ 2 := fun i hi => by
        obtain ⟨i0, i1⟩ := Finset.mem_Ico.1 hi
        rw [Finset.sum_congr rfl (g := fun k => (a - g te) ^ 2 * mode p dc i ^ 2) fun k hk => by
          obtain ⟨k0, k1⟩ := Finset.mem_Ico.1 hk
          rw [hex i k i0 i1 k0 k1, val i k i0 i1 k0 k1, tt]
          unfold mode; ring]
        rw [Finset.sum_const, Int.card_Ico, nsmul_eq_mul]
        have : (((p.dims.nlayers - 0).toNat : ℕ) : ℝ) = (p.dims.nlayers : ℝ) := by
          have : (((p.dims.nlayers - 0).toNat : ℕ) : ℤ) = p.dims.nlayers := by omega
          exact_mod_cast this
        rw [this]; ring
      show ∑ i ∈ upto (p.nx * p.ny), _ = _
      rw [Finset.sum_congr rfl e, ← Finset.mul_sum, sum_mode hx hy hdc.ne']
      ring
    rw [this]
  have fin : Scalar.sqrt ((p.dims.nlayers * (p.nx * p.ny / 4) * (a - g te) ^ 2) /
      lit (p.nx * p.ny)) = √p.dims.nlayers / 2 * |a - g te| := by
    simp only [sqrt_real, lit_real]
    push_cast
    rw [show (p.dims.nlayers : ℝ) * (p.nx * p.ny / 4) * (a - g te) ^ 2 / (p.nx * p.ny) =
      p.dims.nlayers * ((a - g te) / 2) ^ 2 by field_simp; ring,
      Real.sqrt_mul (by exact_mod_cast nl), Real.sqrt_sq_eq_abs, abs_div, abs_of_pos (two_pos : (0 : ℝ) < 2)]
    ring
  constructor
  · rintro ⟨s, hs, rfl⟩
    rw [(key s).1 hs, fin]
  · rintro rfl
    exact ⟨_, (key _).2 rfl, fin.symm⟩

end Props
end
end Omega
