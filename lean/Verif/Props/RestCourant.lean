import Verif.Props.RestStability
import Mathlib.Analysis.Complex.Basic
import Mathlib.Algebra.Polynomial.Div

/-!
# The Courant limit for gravity waves

On a mesh that can be coloured with three colours the shortest gravity wave is an exact solution of the
linear equations.  A step multiplies its energy by the squared modulus of the stability polynomial on the
imaginary axis, so the classical stepper amplifies it as soon as the step is longer than the limit.
-/

set_option linter.unusedVariables false
set_option linter.unusedSectionVars false

namespace Omega
noncomputable section

namespace Lax

open Polynomial
open scoped RealInnerProductSpace

variable {V E : Type*} [AddCommGroup V] [Module ℝ V] [NormedAddCommGroup E] [InnerProductSpace ℝ E]

/-- `z` is skew in the norm of `E` pulled back by `T`, and respects its kernel -/
structure ExactSkew (T : V →ₗ[ℝ] E) (z : Module.End ℝ V) : Prop where
  ker : ∀ x, T x = 0 → T (z x) = 0
  skew : ∀ x y, ⟪T (z x), T y⟫ + ⟪T x, T (z y)⟫ = 0

variable {T : V →ₗ[ℝ] E} {z : Module.End ℝ V} {ζ : ℝ} {x : V}

theorem ExactSkew.poly_ker (h : ExactSkew T z) (P : ℝ[X]) {y : V} (hy : T y = 0) : T (aeval z P y) = 0 := by
  induction P using Polynomial.induction_on' with
  | add p q hp hq => rw [map_add, LinearMap.add_apply, map_add, hp, hq, add_zero]
  | monomial n a =>
    have : ∀ n : ℕ, T ((z ^ n) y) = 0 := fun n => by
      induction n with
      | zero => simpa using hy
      | succ n ih => rw [pow_succ', Module.End.mul_apply]; exact h.ker _ ih
    rw [aeval_monomial, Module.End.mul_apply, Module.algebraMap_end_apply, map_smul, this, smul_zero]

/-- an oscillation stays one -/
theorem ExactSkew.osc (h : ExactSkew T z) (P : ℝ[X]) (hx : T (z (z x) + ζ ^ 2 • x) = 0) :
    T (z (z (aeval z P x)) + ζ ^ 2 • aeval z P x) = 0 := by
  have e : z (z (aeval z P x)) + ζ ^ 2 • aeval z P x = aeval z P (z (z x) + ζ ^ 2 • x) := by
    have c : ∀ y, z (aeval z P y) = aeval z P (z y) := fun y => by
      have : aeval z (X * P) = aeval z (P * X) := by rw [mul_comm]
      rw [map_mul, map_mul, aeval_X] at this
      exact LinearMap.congr_fun this y
    rw [map_add, map_smul, c, c]
  rw [e]
  exact h.poly_ker P hx

/-- A polynomial multiplies the squared norm of an oscillation by its squared modulus on the imaginary
axis. -/
theorem ExactSkew.osc_norm (h : ExactSkew T z) (P : ℝ[X]) (hx : T (z (z x) + ζ ^ 2 • x) = 0) :
    ‖T (aeval z P x)‖ ^ 2 = Complex.normSq (aeval (ζ * Complex.I) P) * ‖T x‖ ^ 2 := by
  set D : ℝ[X] := X ^ 2 + C (ζ ^ 2) with hD
  have mon : D.Monic := monic_X_pow_add_C _ (by norm_num)
  have deg : (P %ₘ D).natDegree ≤ 1 := by
    have nd : D.natDegree = 2 := natDegree_X_pow_add_C
    have := natDegree_modByMonic_lt P mon (by intro h; rw [h, natDegree_one] at nd; omega)
    omega
  obtain ⟨β, α, hr⟩ : ∃ β α, P %ₘ D = C β * X + C α := ⟨_, _, eq_X_add_C_of_natDegree_le_one deg⟩
  have dec : P = C β * X + C α + D * (P /ₘ D) := by rw [← hr, modByMonic_add_div P D]
  have e1 : aeval (ζ * Complex.I) P = α + β * ζ * Complex.I := by
    rw [dec]
    simp only [map_add, map_mul, hD, map_pow, aeval_X, aeval_C, mul_pow, Complex.I_sq]
    simp
    ring
  have e2 : T (aeval z P x) = α • T x + β • T (z x) := by
    have z2 : T (aeval z (D * (P /ₘ D)) x) = 0 := by
      rw [mul_comm, map_mul, Module.End.mul_apply]
      refine h.poly_ker _ ?_
      rw [hD, map_add, LinearMap.add_apply, map_pow, aeval_X, aeval_C, Module.algebraMap_end_apply, pow_two,
        Module.End.mul_apply]
      exact hx
    conv_lhs => rw [dec]
    rw [map_add, LinearMap.add_apply, map_add, z2, add_zero, map_add, LinearMap.add_apply, map_mul, aeval_X,
      aeval_C, aeval_C, Module.End.mul_apply, Module.algebraMap_end_apply, Module.algebraMap_end_apply,
      map_add, map_smul, map_smul, add_comm]
  have o : ⟪T x, T (z x)⟫ = 0 := by
    have := h.skew x x
    rw [real_inner_comm] at this
    linarith
  have n : ‖T (z x)‖ ^ 2 = ζ ^ 2 * ‖T x‖ ^ 2 := by
    have s := h.skew x (z x)
    rw [map_add, map_smul] at hx
    rw [show T (z (z x)) = -(ζ ^ 2 • T x) from eq_neg_of_add_eq_zero_left hx, inner_neg_right, inner_smul_right,
      real_inner_self_eq_norm_sq, real_inner_self_eq_norm_sq] at s
    linarith
  rw [e1, e2, norm_add_sq_real, inner_smul_left, inner_smul_right, o, norm_smul, norm_smul, mul_pow, mul_pow, n]
  have : Complex.normSq (α + β * ζ * Complex.I) = α ^ 2 + (β * ζ) ^ 2 := by
    simp [Complex.normSq_apply]; ring
  rw [this]
  simp
  ring

end Lax

/-! ### The three-coloured wave -/

namespace Hex

open Refine

variable {nx ny : Int}

/-- colour of a cell -/
def colour (nx c : Int) : Int := (c % nx + 2 * (c / nx % 2)) % 3

/-- the shortest wave: two on cells of one colour, minus one on the others -/
def shortWave (nx c : Int) : ℝ := if colour nx c = 0 then 2 else -1

theorem colour_cid {i r : Int} (h0 : 0 ≤ i) (h1 : i < nx) : colour nx (cid nx i r) = (i + 2 * (r % 2)) % 3 := by
  have a := col_cid (r := r) h0 h1
  have b := row_cid (r := r) h0 h1
  unfold col at a
  unfold row at b
  rw [colour, a, b]

theorem colour_nb (hnx : 1 ≤ nx) (h3 : nx % 3 = 0) (hny : ny % 2 = 0) {c : Int} (hc : IsCell nx ny c) {j : Int}
    (j0 : 0 ≤ j) (j6 : j < 6) :
    colour nx (nb nx ny j c) = (colour nx c + if j % 2 = 0 then 2 else 1) % 3 := by
  obtain ⟨i, r, h0, h1, h2, h3', rfl⟩ := exists_coords hnx hc
  have hI := nbI_range (j := j) (r := r) h0 h1
  rw [nb_cid h0 h1, colour_cid hI.1 hI.2, colour_cid h0 h1]
  obtain rfl | rfl | rfl | rfl | rfl | rfl : j = 0 ∨ j = 1 ∨ j = 2 ∨ j = 3 ∨ j = 4 ∨ j = 5 := by omega
  all_goals simp only [nbI, nbR, px, mx]
  all_goals norm_num
  all_goals split_ifs <;> omega

/-- the shortest wave is an eigenvector -/
theorem Dv_shortWave (hnx : 1 ≤ nx) (h3 : nx % 3 = 0) (hny : ny % 2 = 0) {c : Int} (hc : IsCell nx ny c) :
    Dv nx ny (Gr nx ny (shortWave nx)) c = -9 * shortWave nx c := by
  have hi : ∀ r : Int, 0 ≤ r → r < 3 → Gr nx ny (shortWave nx) (E nx ny c (r + 3)) =
      shortWave nx (nb nx ny (r + 3) c) - shortWave nx c := fun r a b => by
    have e : E nx ny c (r + 3) = 3 * nb nx ny (r + 3) c + r := by
      unfold E; rw [if_neg (by omega)]; ring
    obtain ⟨d1, d2⟩ := divmod3 (nb nx ny (r + 3) c) r a b
    rw [e, Gr, coe_one, coe_zero, d1, d2, inv_nb hnx hc]
  have lo : ∀ r : Int, 0 ≤ r → r < 3 → Gr nx ny (shortWave nx) (E nx ny c r) =
      shortWave nx c - shortWave nx (nb nx ny r c) := fun r a b => by
    have e : E nx ny c r = 3 * c + r := by unfold E; rw [if_pos b]
    obtain ⟨d1, d2⟩ := divmod3 c r a b
    rw [e, Gr, coe_one, coe_zero, d1, d2, inv_eq_nb hnx hny hc (by omega) (by omega),
      show (r + 3 + 3) % 6 = r by omega]
  have a0 := hi 0 (by norm_num) (by norm_num)
  have a1 := hi 1 (by norm_num) (by norm_num)
  have a2 := hi 2 (by norm_num) (by norm_num)
  norm_num at a0 a1 a2
  rw [Dv, a0, a1, a2, lo 0 (by norm_num) (by norm_num), lo 1 (by norm_num) (by norm_num),
    lo 2 (by norm_num) (by norm_num)]
  simp only [shortWave]
  rw [colour_nb hnx h3 hny hc (j := 0) (by norm_num) (by norm_num),
    colour_nb hnx h3 hny hc (j := 1) (by norm_num) (by norm_num),
    colour_nb hnx h3 hny hc (j := 2) (by norm_num) (by norm_num),
    colour_nb hnx h3 hny hc (j := 3) (by norm_num) (by norm_num),
    colour_nb hnx h3 hny hc (j := 4) (by norm_num) (by norm_num),
    colour_nb hnx h3 hny hc (j := 5) (by norm_num) (by norm_num)]
  obtain h | h | h : colour nx c = 0 ∨ colour nx c = 1 ∨ colour nx c = 2 := by unfold colour; omega
  all_goals rw [h]; norm_num

end Hex

namespace Props

open Prog Model Refine Hex Polynomial

open scoped RealInnerProductSpace

variable {p : MeshParams} {dc : ℝ} {m : Mem ℝ}

section

variable (h : Geo2 p.nx p.ny p.dims.nlayers dc m.mesh) {g f H : ℝ} (g0 : 0 ≤ g) (H0 : 0 < H)
include h g0 H0

theorem rest_exactSkew (dt : ℝ) : Lax.ExactSkew (restMap p.dims m g H) (dt • restOp m g f H) := by
  refine ⟨fun x hx => ?_, fun x y => ?_⟩
  · have := rest_bound h (f := f) g0 H0 x
    rw [hx, norm_zero, mul_zero] at this
    rw [LinearMap.smul_apply, map_smul, norm_le_zero_iff.1 this, smul_zero]
  · rw [LinearMap.smul_apply, LinearMap.smul_apply, map_smul, map_smul, inner_smul_left, inner_smul_right,
      conj_trivial, ← mul_add, rest_skew h g0 H0, mul_zero]

/-- the shortest wave oscillates -/
theorem shortWave_osc (h3 : p.nx % 3 = 0) (hny : p.ny % 2 = 0) (dt : ℝ) :
    restMap p.dims m g H ((dt • restOp m g 0 H) ((dt • restOp m g 0 H) (shortWave p.nx, 0)) +
      (dt * (√(6 * (g * H)) / dc)) ^ 2 • (shortWave p.nx, 0)) = 0 := by
  have d0 := h.dc_pos
  ext i
  rcases i with c | e
  · have hc := mem_cells.mp c.2
    have k : Spec.div m (Spec.grad m (shortWave p.nx)) c = -(6 / dc ^ 2) * shortWave p.nx c := by
      rw [spec_div h _ hc, Dv_congr h.hnx (u' := fun e => 1 / dc * Gr p.nx p.ny (shortWave p.nx) e)
        (fun e a b => by rw [spec_grad h.toGeo _ a b]; ring) hc]
      have : Dv p.nx p.ny (fun e => 1 / dc * Gr p.nx p.ny (shortWave p.nx) e) c =
          1 / dc * Dv p.nx p.ny (Gr p.nx p.ny (shortWave p.nx)) c := by unfold Dv; ring
      rw [this, Dv_shortWave h.hnx h3 hny hc]
      field_simp
      ring
    have k2 : ∀ s : ℝ, Spec.div m (fun e => s * Spec.grad m (shortWave p.nx) e) c =
        s * (-(6 / dc ^ 2) * shortWave p.nx c) := fun s => by rw [div_mul', k]
    have v : ((dt • restOp m g 0 H) ((dt • restOp m g 0 H) (shortWave p.nx, 0)) +
        (dt * (√(6 * (g * H)) / dc)) ^ 2 • (shortWave p.nx, (0 : Int → ℝ))).1 c = 0 := by
      show dt * -(H * Spec.div m (fun e => dt * (0 * Spec.tang m 0 e - g * Spec.grad m (shortWave p.nx) e)) c) +
        (dt * (√(6 * (g * H)) / dc)) ^ 2 * shortWave p.nx c = 0
      have e : (fun e => dt * (0 * Spec.tang m 0 e - g * Spec.grad m (shortWave p.nx) e)) =
          fun e => (-(dt * g)) * Spec.grad m (shortWave p.nx) e := funext fun e => by ring
      rw [e, k2, mul_pow, div_pow, Real.sq_sqrt (by positivity)]
      field_simp
      ring
    simp only [restMap, LinearMap.coe_mk, AddHom.coe_mk, Sum.elim_inl, v]
    simp
  · have v : ((dt • restOp m g 0 H) ((dt • restOp m g 0 H) (shortWave p.nx, 0)) +
        (dt * (√(6 * (g * H)) / dc)) ^ 2 • (shortWave p.nx, (0 : Int → ℝ))).2 e = 0 := by
      show dt * (0 * Spec.tang m _ e - g * Spec.grad m (fun c => dt * -(H * Spec.div m 0 c)) e) +
        (dt * (√(6 * (g * H)) / dc)) ^ 2 * 0 = 0
      have : ∀ c, Spec.div m 0 c = 0 := fun c => by simp [Spec.div]
      simp [this, Spec.grad]
    simp only [restMap, LinearMap.coe_mk, AddHom.coe_mk, Sum.elim_inr, v]
    simp

/-- energy of the shortest wave after a number of steps -/
theorem shortWave_steps (h3 : p.nx % 3 = 0) (hny : p.ny % 2 = 0) (stp : Stepper) (dt : ℝ)
    (sched : List (ℝ × ℝ)) (hs : ∀ a ∈ sched, a.2 = dt) {x : (Int → ℝ) × (Int → ℝ)}
    (hx : restMap p.dims m g H ((dt • restOp m g 0 H) ((dt • restOp m g 0 H) x) +
      (dt * (√(6 * (g * H)) / dc)) ^ 2 • x) = 0) :
    ‖restMap p.dims m g H (sched.foldl (fun w a => aeval (a.2 • restOp m g 0 H) (stabPoly stp) w) x)‖ ^ 2 =
      Complex.normSq (aeval ((dt * (√(6 * (g * H)) / dc) : ℝ) * Complex.I) (stabPoly stp)) ^ sched.length *
        ‖restMap p.dims m g H x‖ ^ 2 := by
  have sk := rest_exactSkew h (f := 0) g0 H0 dt
  induction sched generalizing x with
  | nil => simp
  | cons a L ih =>
    rw [List.foldl_cons, List.length_cons, hs a List.mem_cons_self,
      ih (fun b hb => hs b (List.mem_cons_of_mem _ hb)) (sk.osc _ hx), sk.osc_norm _ hx]
    ring

end

/-- modulus of the polynomial of the classical stepper on the imaginary axis -/
theorem rk4_imag (y : ℝ) : Complex.normSq (aeval ((y : ℝ) * Complex.I) (stabPoly .rk4)) =
    1 - y ^ 6 / 72 + y ^ 8 / 576 := by
  have e : stabPoly .rk4 = 1 + X + C (1 / 2) * X ^ 2 + C (1 / 6) * X ^ 3 + C (1 / 24) * X ^ 4 := by
    refine Polynomial.funext fun z => ?_
    rw [rk4_eval]; simp; ring
  have i2 : Complex.I ^ 2 = -1 := Complex.I_sq
  have i3 : Complex.I ^ 3 = -Complex.I := by rw [pow_succ, i2]; ring
  have i4 : Complex.I ^ 4 = 1 := by rw [show (4 : ℕ) = 2 * 2 from rfl, pow_mul, i2]; norm_num
  have v : aeval ((y : ℝ) * Complex.I) (stabPoly .rk4) =
      ((1 - y ^ 2 / 2 + y ^ 4 / 24 : ℝ) : ℂ) + ((y - y ^ 3 / 6 : ℝ) : ℂ) * Complex.I := by
    rw [e]
    simp only [map_add, map_mul, map_one, map_pow, aeval_X, aeval_C, mul_pow, i2, i3, i4]
    simp
    ring
  rw [v, Complex.normSq_add_mul_I]
  ring

/-- The Courant condition of C78 cannot be dropped.  Without rotation, on a mesh whose number of columns is a
multiple of three and whose number of rows is even, perturb the state of rest by the shortest wave (thickness
only).  Each step of size `dt` multiplies the energy of the first-order response by the squared modulus of
the stability polynomial at `i z`, `z = dt √(6 g H) / dc`, for every stepper; for the classical one this is
`1 - z^6/72 + z^8/576`, which is larger than one exactly for `z > 2√2`. -/
theorem C79_courant_limit (stp : Stepper) (hv : RunValid p) (hnx : 2 ≤ p.nx) (h3 : p.nx % 3 = 0)
    (hny : p.ny % 2 = 0) (hdc : 0 < dc) {prm : Params ℝ} (n1 : prm.disable_h = false)
    (n2 : prm.disable_vn = false) (n3 : prm.visc_del2 ≤ 0) (n4 : prm.visc_del4 ≤ 0) (g0 : 0 < prm.grav)
    (n5 : prm.f0 = 0) {H : ℝ} (H0 : 0 < H) {k : Int} (k0 : 0 ≤ k) (k1 : k < p.dims.nlayers) {m m1 : ℝ → Mem ℝ}
    (hr : ∀ ε, Ready p dc prm (m ε))
    (ha0 : ∀ c, 0 ≤ c → c < p.dims.ncells → (m 0).real (.h_cell .state) 0 c k = H)
    (hb0 : ∀ e, 0 ≤ e → e < p.dims.nedges → (m 0).real (.vn_edge .state) 0 e k = 0)
    (ha : ∀ c, 0 ≤ c → c < p.dims.ncells →
      HasDerivAt (fun ε => (m ε).real (.h_cell .state) 0 c k) (shortWave p.nx c) 0)
    (hb : ∀ e, 0 ≤ e → e < p.dims.nedges → HasDerivAt (fun ε => (m ε).real (.vn_edge .state) 0 e k) 0 0)
    {sched : List (ℝ × ℝ)} {dt : ℝ} (hs : ∀ q ∈ sched, q.2 = dt) {split : Bool}
    (he : ∀ ε, Exec p.dims (stp.ctor p.dims ++ stp.run p.dims
      ⟨defaultKernels p.dims.vl, split⟩ (SWModel.ofParams prm) sched) (m ε) (m1 ε)) :
    0 < restEnergy p.dims (m 0) prm.grav H (shortWave p.nx) 0 ∧
    (∃ a' b' : Int → ℝ,
      (∀ c, 0 ≤ c → c < p.dims.ncells →
        HasDerivAt (fun ε => (m1 ε).real (.h_cell .state) 0 c k) (a' c) 0) ∧
      (∀ e, 0 ≤ e → e < p.dims.nedges →
        HasDerivAt (fun ε => (m1 ε).real (.vn_edge .state) 0 e k) (b' e) 0) ∧
      restEnergy p.dims (m 0) prm.grav H a' b' =
        Complex.normSq (aeval ((dt * (√(6 * (prm.grav * H)) / dc) : ℝ) * Complex.I) (stabPoly stp)) ^ sched.length *
          restEnergy p.dims (m 0) prm.grav H (shortWave p.nx) 0) ∧
    ∀ y : ℝ, Complex.normSq (aeval ((y : ℝ) * Complex.I) (stabPoly .rk4)) = 1 - y ^ 6 / 72 + y ^ 8 / 576 ∧
      (1 < 1 - y ^ 6 / 72 + y ^ 8 / 576 ↔ 8 < y ^ 2) := by
  have hny2 : 2 ≤ p.ny := by have := hv.ny_pos; omega
  have hg := fun ε => Ready.geo2 (hr ε) hv.toValid hnx hny2 hdc
  have hf := fun ε => (Ready.hex hv.toValid (hr ε)).2.1
  rw [n5] at hf
  set sw := SWModel.ofParams prm with hsw
  have s5 : sw.en_vdiff = false := by
    show decide ((lit 0 : ℝ) < prm.visc_del2) = false
    simp [n3]
  have s6 : sw.en_vhyper = false := by
    show decide ((lit 0 : ℝ) < prm.visc_del4) = false
    simp [n4]
  have v := fun ε => by
    obtain ⟨hd, hc⟩ := ready_ok hv (hr ε)
    exact ((genSetup hd hc (hookOK_noHook (noHook_ofParams prm) p.dims (m ε))).newRun (he ε)).2.2
  have init : Tangent p.dims k (fun ε => (m ε).fld .state) H (shortWave p.nx, 0) := ⟨ha0, hb0, ha, hb⟩
  have key := tangent_run hg hf (sw := sw) rfl rfl rfl rfl s5 s6 n1 n2 H0 stp sched
    (x := fun ε => (zeroFld, (m ε).fld .state)) init
  set w := sched.foldl (fun w a => aeval (a.2 • restOp (m 0) sw.prm.grav 0 H) (stabPoly stp) w)
    (shortWave p.nx, 0) with hw
  refine ⟨?_, ⟨w.1, w.2, fun c c0 c1 => ?_, fun e e0 e1 => ?_, ?_⟩, fun y => ⟨rk4_imag y, ?_⟩⟩
  · have w0 := w_pos
    have : 0 < ∑ c ∈ Spec.cells p.dims, Spec.areaC (m 0) c * shortWave p.nx c ^ 2 := by
      refine Finset.sum_pos (fun c hc => ?_) ⟨0, ?_⟩
      · have : shortWave p.nx c ≠ 0 := by unfold shortWave; split_ifs <;> norm_num
        rw [spec_areaC (hg 0).toGeo (mem_cells.mp hc)]
        positivity
      · refine mem_cells.mpr ⟨le_rfl, ?_⟩
        have a : 0 < p.nx := by omega
        have b : 0 < p.ny := by omega
        positivity
    simp only [restEnergy]
    simp
    positivity
  · exact (key.h1 c c0 c1).congr_of_eventuallyEq (Filter.Eventually.of_forall fun ε => (v ε).h c k c0 c1 k0 k1)
  · exact (key.v1 e e0 e1).congr_of_eventuallyEq (Filter.Eventually.of_forall fun ε => (v ε).vn e k e0 e1 k0 k1)
  · have := shortWave_steps (hg 0) (g := prm.grav) g0.le H0 h3 hny stp dt sched hs
      (shortWave_osc (hg 0) g0.le H0 h3 hny dt)
    rw [norm_rest (hg 0) g0.le H0, norm_rest (hg 0) g0.le H0] at this
    exact this
  · constructor
    · intro hy
      by_contra hc
      have : y ^ 8 / 576 ≤ y ^ 6 / 72 := by nlinarith [show 0 ≤ y ^ 6 by positivity, not_lt.1 hc]
      linarith
    · intro hy
      have : 0 < y ^ 6 := by
        have : y ≠ 0 := by rintro rfl; norm_num at hy
        positivity
      nlinarith

/-- Above the limit the classical stepper is unstable: for every bound there is a number of steps, the same
for all meshes, layers and perturbations, after which the response to the shortest wave has exceeded it. -/
theorem C79_unstable {dc dt grav H : ℝ} (hdc : 0 < dc) (g0 : 0 < grav) (H0 : 0 < H)
    (hz : 8 < (dt * (√(6 * (grav * H)) / dc)) ^ 2) (B : ℝ) : ∃ n : ℕ, ∀ (p : MeshParams) (prm : Params ℝ) (k : Int)
    (m m1 : ℝ → Mem ℝ) (sched : List (ℝ × ℝ)) (split : Bool), RunValid p → 2 ≤ p.nx → p.nx % 3 = 0 →
    p.ny % 2 = 0 → prm.disable_h = false → prm.disable_vn = false → prm.visc_del2 ≤ 0 → prm.visc_del4 ≤ 0 →
    prm.grav = grav → prm.f0 = 0 → 0 ≤ k → k < p.dims.nlayers → (∀ ε, Ready p dc prm (m ε)) →
    (∀ c, 0 ≤ c → c < p.dims.ncells → (m 0).real (.h_cell .state) 0 c k = H) →
    (∀ e, 0 ≤ e → e < p.dims.nedges → (m 0).real (.vn_edge .state) 0 e k = 0) →
    (∀ c, 0 ≤ c → c < p.dims.ncells →
      HasDerivAt (fun ε => (m ε).real (.h_cell .state) 0 c k) (shortWave p.nx c) 0) →
    (∀ e, 0 ≤ e → e < p.dims.nedges → HasDerivAt (fun ε => (m ε).real (.vn_edge .state) 0 e k) 0 0) →
    (∀ q ∈ sched, q.2 = dt) → n ≤ sched.length →
    (∀ ε, Exec p.dims (Stepper.rk4.ctor p.dims ++ Stepper.rk4.run p.dims
      ⟨defaultKernels p.dims.vl, split⟩ (SWModel.ofParams prm) sched) (m ε) (m1 ε)) →
    0 < restEnergy p.dims (m 0) grav H (shortWave p.nx) 0 ∧
    ∃ a' b' : Int → ℝ,
      (∀ c, 0 ≤ c → c < p.dims.ncells →
        HasDerivAt (fun ε => (m1 ε).real (.h_cell .state) 0 c k) (a' c) 0) ∧
      (∀ e, 0 ≤ e → e < p.dims.nedges →
        HasDerivAt (fun ε => (m1 ε).real (.vn_edge .state) 0 e k) (b' e) 0) ∧
      B * restEnergy p.dims (m 0) grav H (shortWave p.nx) 0 < restEnergy p.dims (m 0) grav H a' b' := by
  set z := dt * (√(6 * (grav * H)) / dc) with hzd
  have z6 : 0 < z ^ 6 := by
    have : z ≠ 0 := by intro h; rw [h] at hz; norm_num at hz
    positivity
  have one : 1 < 1 - z ^ 6 / 72 + z ^ 8 / 576 := by nlinarith
  obtain ⟨n, hn⟩ := pow_unbounded_of_one_lt B one
  refine ⟨n, fun p prm k m m1 sched split hv hnx h3 hny n1 n2 n3 n4 hg n5 k0 k1 hr ha0 hb0 ha hb hs hl he => ?_⟩
  subst hg
  obtain ⟨e0, ⟨a', b', da, db, en⟩, fac⟩ := C79_courant_limit .rk4 hv hnx h3 hny hdc n1 n2 n3 n4 g0 n5 H0 k0 k1 hr
    ha0 hb0 ha hb hs he
  refine ⟨e0, a', b', da, db, ?_⟩
  rw [en, ← hzd, (fac z).1]
  exact mul_lt_mul_of_pos_right (hn.trans_le (pow_le_pow_right₀ one.le hl)) e0

/-- the mesh of the examples: 36 cells -/
def p66 : MeshParams := ⟨6, 6, 3, 1, 2⟩
theorem p66_run : RunValid p66 := by
  have hl : p66.dims.nlayers = p46.dims.nlayers := rfl
  exact ⟨by constructor <;> simp [p66], by rw [hl, p46_layers]; norm_num⟩

/-- a mesh of 36 cells, the shortest wave, any number of steps of size two: above the limit -/
example (stp : Stepper) (n : ℕ) : ∃ (prm : Params ℝ) (m m1 : ℝ → Mem ℝ) (sched : List (ℝ × ℝ)),
    RunValid p66 ∧ 2 ≤ p66.nx ∧ p66.nx % 3 = 0 ∧ p66.ny % 2 = 0 ∧ prm.disable_h = false ∧
    prm.disable_vn = false ∧ prm.visc_del2 ≤ 0 ∧ prm.visc_del4 ≤ 0 ∧ prm.grav = 1 ∧ prm.f0 = 0 ∧
    (0 : Int) ≤ 2 ∧ 2 < p66.dims.nlayers ∧ 8 < ((2 : ℝ) * (√(6 * (prm.grav * 1)) / 1)) ^ 2 ∧
    (∀ ε, Ready p66 1 prm (m ε)) ∧
    (∀ c, 0 ≤ c → c < p66.dims.ncells → (m 0).real (.h_cell .state) 0 c 2 = 1) ∧
    (∀ e, 0 ≤ e → e < p66.dims.nedges → (m 0).real (.vn_edge .state) 0 e 2 = 0) ∧
    (∀ c, 0 ≤ c → c < p66.dims.ncells →
      HasDerivAt (fun ε => (m ε).real (.h_cell .state) 0 c 2) (shortWave p66.nx c) 0) ∧
    (∀ e, 0 ≤ e → e < p66.dims.nedges →
      HasDerivAt (fun ε => (m ε).real (.vn_edge .state) 0 e 2) 0 0) ∧
    sched.length = n ∧ (∀ q ∈ sched, q.2 = 2) ∧
    ∀ ε, Exec p66.dims (stp.ctor p66.dims ++ stp.run p66.dims
      ⟨defaultKernels p66.dims.vl, true⟩ (SWModel.ofParams prm) sched) (m ε) (m1 ε) := by
  set prm : Params ℝ := ⟨0, 1, 0, 0, 0, 0, false, false⟩ with hprm
  have ex := fun ε : ℝ => exists_ready p66_run.toValid 1 prm
    ⟨fun c _ => 1 + ε * shortWave 6 c, fun e _ => ε ^ 2 * e, fun _ _ _ => 0⟩ zeroFld
  choose m hr hx _ using ex
  set sched : List (ℝ × ℝ) := List.replicate n (0, 2) with hsch
  have run := fun ε => by
    obtain ⟨hd, hc⟩ := ready_ok p66_run (hr ε)
    exact ((C40_safe_deterministic hd hc (noHook_ofParams prm) true).2.2 stp sched).2.exists
  choose m1 he using run
  have eh : ∀ ε c, (m ε).real (.h_cell .state) 0 c 2 = 1 + ε * shortWave 6 c := fun ε c =>
    congrFun (congrFun (congrArg Fld.h (hx ε)) c) 2
  have ev : ∀ ε e, (m ε).real (.vn_edge .state) 0 e 2 = ε ^ 2 * e := fun ε e =>
    congrFun (congrFun (congrArg Fld.vn (hx ε)) e) 2
  have hl : p66.dims.nlayers = p46.dims.nlayers := rfl
  refine ⟨prm, m, m1, sched, p66_run, by simp [p66], by simp [p66], by simp [p66], rfl, rfl, le_rfl, le_rfl,
    rfl, rfl, by norm_num, by rw [hl, p46_layers]; norm_num, ?_, hr,
    fun c _ _ => by rw [eh]; simp, fun e _ _ => by rw [ev]; simp, fun c _ _ => ?_, fun e _ _ => ?_,
    by rw [hsch, List.length_replicate], fun q hq => by rw [List.eq_of_mem_replicate hq], he⟩
  · rw [mul_pow, div_pow, Real.sq_sqrt (by norm_num [hprm])]
    norm_num [hprm]
  · simp only [eh]
    exact (((hasDerivAt_id (0 : ℝ)).mul_const (shortWave 6 c)).const_add 1).congr_deriv (by simp [p66])
  · simp only [ev]
    exact (((hasDerivAt_id (0 : ℝ)).pow 2).mul_const (e : ℝ)).congr_deriv (by simp)

end Props
end
end Omega
