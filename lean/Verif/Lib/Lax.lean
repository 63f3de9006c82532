import Mathlib.Analysis.InnerProductSpace.Basic
import Mathlib.Analysis.SpecialFunctions.Exp
import Mathlib.Tactic.Linarith
import Mathlib.Tactic.Positivity
import Mathlib.Tactic.Ring
import Mathlib.Tactic.FieldSimp
import Mathlib.Tactic.FinCases

/-! Stability and convergence of explicit Runge–Kutta methods for a nearly skew linear operator. Pure
analysis, nothing about the code: used by the convergence theorem for tracer advection. -/

namespace Omega
namespace Lax

open scoped RealInnerProductSpace

/-! ### Numbers that behave like inner products of the iterates of a skew operator -/

/-- `e i j` stands for `⟪zⁱ x, zʲ x⟫`, `d` for the defect of skewness -/
structure Skew (e : ℕ → ℕ → ℝ) (d : ℝ) : Prop where
  symm : ∀ i j, e i j = e j i
  skew : ∀ i j, i ≤ 4 → j ≤ 4 → |e (i + 1) j + e i (j + 1)| ≤ d

variable {e : ℕ → ℕ → ℝ} {d : ℝ}

/-- the squared norm of a polynomial of degree five -/
theorem Skew.square (h : Skew e d) (d0 : 0 ≤ d) {c1 c2 c3 c4 c5 : ℝ} (h1 : |c1| ≤ 2) (h2 : |c2| ≤ 2)
    (h3 : |c3| ≤ 2) (h4 : |c4| ≤ 2) (h5 : |c5| ≤ 2) :
    e 0 0 + c1 ^ 2 * e 1 1 + c2 ^ 2 * e 2 2 + c3 ^ 2 * e 3 3 + c4 ^ 2 * e 4 4 + c5 ^ 2 * e 5 5 +
      2 * (c1 * e 0 1 + c2 * e 0 2 + c3 * e 0 3 + c4 * e 0 4 + c5 * e 0 5 +
        c1 * c2 * e 1 2 + c1 * c3 * e 1 3 + c1 * c4 * e 1 4 + c1 * c5 * e 1 5 +
        c2 * c3 * e 2 3 + c2 * c4 * e 2 4 + c2 * c5 * e 2 5 + c3 * c4 * e 3 4 + c3 * c5 * e 3 5 +
        c4 * c5 * e 4 5) ≤
    e 0 0 + (c1 ^ 2 - 2 * c2) * e 1 1 + (c2 ^ 2 + 2 * c4 - 2 * c1 * c3) * e 2 2 +
      (c3 ^ 2 - 2 * c2 * c4 + 2 * c1 * c5) * e 3 3 + (c4 ^ 2 - 2 * c3 * c5) * e 4 4 + c5 ^ 2 * e 5 5 +
      200 * d := by
  have s := h.skew
  have p : ∀ {a b x y D : ℝ}, |a| ≤ 2 → |b| ≤ 2 → |x - y| ≤ D → 2 * (a * b * x) ≤ 2 * (a * b * y) + 8 * D := by
    intro a b x y D ha hb hx
    have : |a * b * (x - y)| ≤ 2 * 2 * D := by
      rw [abs_mul, abs_mul]
      have := abs_nonneg a; have := abs_nonneg b
      gcongr
    have := le_abs_self (a * b * (x - y))
    nlinarith
  have q : ∀ {a x y D : ℝ}, |a| ≤ 2 → |x - y| ≤ D → 2 * (a * x) ≤ 2 * (a * y) + 4 * D := by
    intro a x y D ha hx
    have : |a * (x - y)| ≤ 2 * D := by
      rw [abs_mul]
      have := abs_nonneg a
      gcongr
    have := le_abs_self (a * (x - y))
    nlinarith
  have near : ∀ i, i ≤ 4 → |e i (i + 1) - 0| ≤ d := fun i hi => by
    have := s i i hi hi
    rw [h.symm (i + 1) i] at this
    rw [abs_le] at this ⊢
    constructor <;> linarith [this.1, this.2]
  have two : ∀ i, i ≤ 3 → |e i (i + 2) - -e (i + 1) (i + 1)| ≤ d := fun i hi => by
    have := s i (i + 1) (by omega) (by omega)
    rw [abs_le] at this ⊢
    constructor <;> linarith [this.1, this.2]
  have three : ∀ i, i ≤ 2 → |e i (i + 3) - 0| ≤ 2 * d := fun i hi => by
    have a := s i (i + 2) (by omega) (by omega)
    have b := near (i + 1) (by omega)
    rw [abs_le] at a b ⊢
    constructor <;> linarith [a.1, a.2, b.1, b.2]
  have four : ∀ i, i ≤ 1 → |e i (i + 4) - e (i + 2) (i + 2)| ≤ 2 * d := fun i hi => by
    have a := s i (i + 3) (by omega) (by omega)
    have b := two (i + 1) (by omega)
    rw [abs_le] at a b ⊢
    constructor <;> linarith [a.1, a.2, b.1, b.2]
  have five : |e 0 5 - 0| ≤ 3 * d := by
    have a := s 0 4 (by omega) (by omega)
    have b := three 1 (by omega)
    rw [abs_le] at a b ⊢
    constructor <;> linarith [a.1, a.2, b.1, b.2]
  have t01 := q h1 (near 0 (by omega))
  have t02 := q h2 (two 0 (by omega))
  have t03 := q h3 (three 0 (by omega))
  have t04 := q h4 (four 0 (by omega))
  have t05 := q h5 five
  have t12 := p h1 h2 (near 1 (by omega))
  have t13 := p h1 h3 (two 1 (by omega))
  have t14 := p h1 h4 (three 1 (by omega))
  have t15 := p h1 h5 (four 1 (by omega))
  have t23 := p h2 h3 (near 2 (by omega))
  have t24 := p h2 h4 (two 2 (by omega))
  have t25 := p h2 h5 (three 2 (by omega))
  have t34 := p h3 h4 (near 3 (by omega))
  have t35 := p h3 h5 (two 3 (by omega))
  have t45 := p h4 h5 (near 4 (by omega))
  simp only [zero_add, Nat.reduceAdd] at t01 t02 t03 t04 t05 t12 t13 t14 t15 t23 t24 t25 t34 t35 t45
  linarith

/-! ### Polynomials of degree five close to the exponential -/

/-- coefficients of the stability polynomials of interest: those of the exponential up to the fourth order
and a fifth between 0 and 1/200, up to a rounding `κ` of the tabulated coefficients -/
structure Coefs (κ c1 c2 c3 c4 c5 : ℝ) : Prop where
  k0 : 0 ≤ κ
  k1 : κ ≤ 1 / 10 ^ 20
  c1 : |c1 - 1| ≤ κ
  c2 : |c2 - 1 / 2| ≤ κ
  c3 : |c3 - 1 / 6| ≤ κ
  c4 : |c4 - 1 / 24| ≤ κ
  c5 : |c5 - 1 / 400| ≤ 1 / 400 + κ

variable {V E : Type*} [AddCommGroup V] [Module ℝ V] [NormedAddCommGroup E] [InnerProductSpace ℝ E]

/-- the polynomial -/
def stab (c1 c2 c3 c4 c5 : ℝ) (z : Module.End ℝ V) (x : V) : V :=
  x + c1 • z x + c2 • z (z x) + c3 • z (z (z x)) + c4 • z (z (z (z x))) + c5 • z (z (z (z (z x))))

variable {κ c1 c2 c3 c4 c5 : ℝ}

theorem Coefs.signs (h : Coefs κ c1 c2 c3 c4 c5) :
    c1 ^ 2 - 2 * c2 ≤ 10 * κ ∧ c2 ^ 2 + 2 * c4 - 2 * c1 * c3 ≤ 10 * κ ∧
    0 ≤ c4 ^ 2 - 2 * c3 * c5 ∧ c3 ^ 2 - 2 * c2 * c4 + 2 * c1 * c5 + 25 / 4 * (c4 ^ 2 - 2 * c3 * c5) +
      625 / 16 * c5 ^ 2 ≤ 0 := by
  obtain ⟨k0, k1, h1, h2, h3, h4, h5⟩ := h
  have k2 : κ * κ ≤ κ := by nlinarith
  obtain ⟨x1, rfl⟩ : ∃ x, c1 = 1 + x := ⟨c1 - 1, by ring⟩
  obtain ⟨x2, rfl⟩ : ∃ x, c2 = 1 / 2 + x := ⟨c2 - 1 / 2, by ring⟩
  obtain ⟨x3, rfl⟩ : ∃ x, c3 = 1 / 6 + x := ⟨c3 - 1 / 6, by ring⟩
  obtain ⟨x4, rfl⟩ : ∃ x, c4 = 1 / 24 + x := ⟨c4 - 1 / 24, by ring⟩
  have e1 : |x1| ≤ κ := by simpa using h1
  have e2 : |x2| ≤ κ := by simpa using h2
  have e3 : |x3| ≤ κ := by simpa using h3
  have e4 : |x4| ≤ κ := by simpa using h4
  have pr : ∀ {x y a b : ℝ}, |x| ≤ a → |y| ≤ b → |x * y| ≤ a * b := fun hx hy => by
    rw [abs_mul]; exact mul_le_mul hx hy (abs_nonneg _) ((abs_nonneg _).trans hx)
  have b5 : |c5| ≤ 1 / 200 + κ := by
    rw [abs_le] at h5 ⊢; constructor <;> linarith [h5.1, h5.2]
  have p11 := pr e1 e1
  have p22 := pr e2 e2
  have p33 := pr e3 e3
  have p44 := pr e4 e4
  have p13 := pr e1 e3
  have p24 := pr e2 e4
  have p15 := pr e1 b5
  have p35 := pr e3 b5
  have p55 := pr b5 b5
  rw [abs_le] at e1 e2 e3 e4 b5 h5 p11 p22 p33 p44 p13 p24 p15 p35 p55
  obtain ⟨_, _⟩ := e1
  obtain ⟨_, _⟩ := e2
  obtain ⟨_, _⟩ := e3
  obtain ⟨_, _⟩ := e4
  obtain ⟨_, _⟩ := b5
  obtain ⟨_, _⟩ := h5
  obtain ⟨_, _⟩ := p11
  obtain ⟨_, _⟩ := p22
  obtain ⟨_, _⟩ := p33
  obtain ⟨_, _⟩ := p44
  obtain ⟨_, _⟩ := p13
  obtain ⟨_, _⟩ := p24
  obtain ⟨_, _⟩ := p15
  obtain ⟨_, _⟩ := p35
  obtain ⟨_, _⟩ := p55
  norm_num at *
  refine ⟨by linarith, by linarith, by linarith, by linarith⟩

theorem Coefs.bounds (h : Coefs κ c1 c2 c3 c4 c5) : |c1| ≤ 2 ∧ |c2| ≤ 2 ∧ |c3| ≤ 2 ∧ |c4| ≤ 2 ∧ |c5| ≤ 2 := by
  obtain ⟨k0, k1, h1, h2, h3, h4, h5⟩ := h
  have k2 : κ * κ ≤ κ := by nlinarith
  rw [abs_le] at h1 h2 h3 h4 h5
  norm_num at *
  refine ⟨?_, ?_, ?_, ?_, ?_⟩ <;> rw [abs_le] <;> constructor <;> linarith [h1.1, h1.2, h2.1, h2.2, h3.1,
    h3.2, h4.1, h4.2, h5.1, h5.2]

/-! ### Stability -/

/-- `z` is bounded by 5/2 and skew up to `δ`, in the norm of `E` pulled back by `T` -/
structure NearlySkew (T : V →ₗ[ℝ] E) (z : Module.End ℝ V) (δ : ℝ) : Prop where
  bound : ∀ x, ‖T (z x)‖ ≤ 5 / 2 * ‖T x‖
  skew : ∀ x y, |⟪T (z x), T y⟫ + ⟪T x, T (z y)⟫| ≤ δ * (‖T x‖ * ‖T y‖)

/-- terms of the squared norm -/
theorem combine {n0 n1 n2 n3 n4 n5 a1 a2 a3 a4 a5 : ℝ} (h1 : 0 ≤ n1) (h2 : 0 ≤ n2) (h3 : 0 ≤ n3)
    (k1 : n1 ≤ 25 / 4 * n0) (k2 : n2 ≤ 25 / 4 * n1) (k4 : n4 ≤ 25 / 4 * n3) (k5 : n5 ≤ 25 / 4 * n4) (b1 : a1 ≤ 10 * κ)
    (b2 : a2 ≤ 10 * κ) (b4 : 0 ≤ a4) (b5 : 0 ≤ a5) (b3 : a3 + 25 / 4 * a4 + 625 / 16 * a5 ≤ 0) (k0 : 0 ≤ κ) :
    n0 + a1 * n1 + a2 * n2 + a3 * n3 + a4 * n4 + a5 * n5 ≤ (1 + 500 * κ) * n0 := by
  have h0 : 0 ≤ n0 := by linarith
  have u1 : a1 * n1 ≤ 10 * κ * (25 / 4 * n0) := by
    refine (mul_le_mul_of_nonneg_right b1 h1).trans (mul_le_mul_of_nonneg_left k1 (by positivity))
  have u2 : a2 * n2 ≤ 10 * κ * (625 / 16 * n0) := by
    refine (mul_le_mul_of_nonneg_right b2 h2).trans (mul_le_mul_of_nonneg_left (by linarith) (by positivity))
  have u4 := mul_le_mul_of_nonneg_left k4 b4
  have u5 : a5 * n5 ≤ a5 * (625 / 16 * n3) := mul_le_mul_of_nonneg_left (by linarith) b5
  have u3 := mul_nonneg (neg_nonneg.2 b3) h3
  have u0 : 0 ≤ κ * n0 := mul_nonneg k0 h0
  linarith

theorem NearlySkew.stable {T : V →ₗ[ℝ] E} {z : Module.End ℝ V} {δ : ℝ} (h : NearlySkew T z δ) (δ0 : 0 ≤ δ)
    (hc : Coefs κ c1 c2 c3 c4 c5) (x : V) :
    ‖T (stab c1 c2 c3 c4 c5 z x)‖ ≤ (1 + 500 * κ + 320000 * δ) * ‖T x‖ := by
  obtain ⟨b1, b2, b3, b4, b5⟩ := hc.bounds
  obtain ⟨s1, s2, s4, s5⟩ := hc.signs
  set n := ‖T x‖ with hn
  have n0 : 0 ≤ n := norm_nonneg _
  have pw : ∀ i : ℕ, ‖T ((z ^ i) x)‖ ≤ (5 / 2) ^ i * n := fun i => by
    induction i with
    | zero => simp [hn]
    | succ i ih =>
      rw [pow_succ', Module.End.mul_apply]
      calc _ ≤ 5 / 2 * ‖T ((z ^ i) x)‖ := h.bound _
        _ ≤ 5 / 2 * ((5 / 2) ^ i * n) := by gcongr
        _ = _ := by ring
  let e : ℕ → ℕ → ℝ := fun i j => ⟪T ((z ^ i) x), T ((z ^ j) x)⟫
  have hS : Skew e (1600 * δ * n ^ 2) := by
    refine ⟨fun i j => real_inner_comm _ _, fun i j hi hj => ?_⟩
    simp only [e, pow_succ', Module.End.mul_apply]
    refine (h.skew _ _).trans ?_
    calc δ * (‖T ((z ^ i) x)‖ * ‖T ((z ^ j) x)‖) ≤ δ * (((5 / 2) ^ 4 * n) * ((5 / 2) ^ 4 * n)) := by
          have a := (pw i).trans (mul_le_mul_of_nonneg_right (pow_le_pow_right₀ (by norm_num) hi) n0)
          have b := (pw j).trans (mul_le_mul_of_nonneg_right (pow_le_pow_right₀ (by norm_num) hj) n0)
          exact mul_le_mul_of_nonneg_left (mul_le_mul a b (norm_nonneg _) (by positivity)) δ0
      _ ≤ _ := by nlinarith [mul_nonneg δ0 (sq_nonneg n)]
  have sq := hS.square (by positivity) b1 b2 b3 b4 b5
  have ee : ∀ i, e i i = ‖T ((z ^ i) x)‖ ^ 2 := fun i => real_inner_self_eq_norm_sq _
  have q2 : ∀ i, e (i + 1) (i + 1) ≤ 25 / 4 * e i i := fun i => by
    rw [ee, ee, show z ^ (i + 1) = z * z ^ i from pow_succ' z i, Module.End.mul_apply]
    have := pow_le_pow_left₀ (norm_nonneg _) (h.bound ((z ^ i) x)) 2
    linarith
  have q0 : ∀ i, 0 ≤ e i i := fun i => by rw [ee]; positivity
  have e0 : e 0 0 = n ^ 2 := by rw [ee]; simp [hn]
  have hsum : ‖T (stab c1 c2 c3 c4 c5 z x)‖ ^ 2 =
      e 0 0 + c1 ^ 2 * e 1 1 + c2 ^ 2 * e 2 2 + c3 ^ 2 * e 3 3 + c4 ^ 2 * e 4 4 + c5 ^ 2 * e 5 5 +
      2 * (c1 * e 0 1 + c2 * e 0 2 + c3 * e 0 3 + c4 * e 0 4 + c5 * e 0 5 +
        c1 * c2 * e 1 2 + c1 * c3 * e 1 3 + c1 * c4 * e 1 4 + c1 * c5 * e 1 5 +
        c2 * c3 * e 2 3 + c2 * c4 * e 2 4 + c2 * c5 * e 2 5 + c3 * c4 * e 3 4 + c3 * c5 * e 3 5 +
        c4 * c5 * e 4 5) := by
    have hx : T (stab c1 c2 c3 c4 c5 z x) = T ((z ^ 0) x) + c1 • T ((z ^ 1) x) + c2 • T ((z ^ 2) x) +
        c3 • T ((z ^ 3) x) + c4 • T ((z ^ 4) x) + c5 • T ((z ^ 5) x) := by
      simp only [stab, map_add, map_smul, pow_succ', Module.End.mul_apply, pow_zero, Module.End.one_apply]
    rw [hx, ← real_inner_self_eq_norm_sq]
    simp only [inner_add_left, inner_add_right, real_inner_smul_left, real_inner_smul_right]
    have sy : ∀ i j, ⟪T ((z ^ i) x), T ((z ^ j) x)⟫ = e i j := fun _ _ => rfl
    simp only [sy]
    rw [hS.symm 1 0, hS.symm 2 0, hS.symm 3 0, hS.symm 4 0, hS.symm 5 0, hS.symm 2 1, hS.symm 3 1, hS.symm 4 1,
      hS.symm 5 1, hS.symm 3 2, hS.symm 4 2, hS.symm 5 2, hS.symm 4 3, hS.symm 5 3, hS.symm 5 4]
    ring
  have hle : ‖T (stab c1 c2 c3 c4 c5 z x)‖ ^ 2 ≤ (1 + 500 * κ + 320000 * δ) * n ^ 2 := by
    rw [hsum]
    refine sq.trans ?_
    have := combine (q0 1) (q0 2) (q0 3) (q2 0) (q2 1) (q2 3) (q2 4) s1 s2 s4 (sq_nonneg c5) s5 hc.k0
    rw [e0] at this ⊢
    linarith
  have g1 : 1 ≤ 1 + 500 * κ + 320000 * δ := by
    have := hc.k0
    linarith
  refine abs_le_of_sq_le_sq' ?_ (by positivity) |>.2
  refine hle.trans ?_
  rw [mul_pow]
  refine mul_le_mul_of_nonneg_right ?_ (by positivity)
  nlinarith

/-! ### Truncation error -/

/-- for steps whose operator has norm at most `Y` -/
theorem truncation_of {T : V →ₗ[ℝ] E} {A : Module.End ℝ V} {dt L ε M Y : ℝ} (Y0 : 0 ≤ Y) (t0 : 0 ≤ dt) (tL : dt ≤ L) (L1 : 1 ≤ L)
    (two : ∀ x, ‖T ((dt • A) x)‖ ≤ Y * ‖T x‖) (hc : Coefs κ c1 c2 c3 c4 c5) {s : ℕ → V} {s' : V}
    (hA : ∀ i, i ≤ 4 → ‖T (A (s i) - s (i + 1))‖ ≤ ε) (hM : ∀ i, i ≤ 5 → ‖T (s i)‖ ≤ M)
    (hT : ‖T (s' - (s 0 + dt • s 1 + (dt ^ 2 / 2) • s 2 + (dt ^ 3 / 6) • s 3 + (dt ^ 4 / 24) • s 4))‖ ≤ M * dt ^ 5) :
    ‖T (stab c1 c2 c3 c4 c5 (dt • A) (s 0) - s')‖ ≤ dt * (10 * (Y + 3 / 2) ^ 5 * L ^ 5 * (ε + M * dt ^ 4 + M * κ)) := by
  have ε0 : 0 ≤ ε := (norm_nonneg _).trans (hA 0 (by omega))
  have M0 : 0 ≤ M := (norm_nonneg _).trans (hM 0 (by omega))
  have κ0 := hc.k0
  obtain ⟨b1, b2, b3, b4, b5⟩ := hc.bounds
  let z := dt • A
  have key : ∀ i, i ≤ 5 → ‖T ((z ^ i) (s 0) - dt ^ i • s i)‖ ≤ dt * ε * ((Y + 3 / 2) * L) ^ i := by
    intro i
    induction i with
    | zero => intro _; simp; positivity
    | succ i ih =>
      intro hi
      have e : (z ^ (i + 1)) (s 0) - dt ^ (i + 1) • s (i + 1) =
          z ((z ^ i) (s 0) - dt ^ i • s i) + dt ^ (i + 1) • (A (s i) - s (i + 1)) := by
        rw [pow_succ' z, Module.End.mul_apply, map_sub, map_smul]
        simp only [z, LinearMap.smul_apply]
        module
      rw [e, map_add, map_smul]
      have a1 := (two ((z ^ i) (s 0) - dt ^ i • s i)).trans
        (mul_le_mul_of_nonneg_left (ih (by omega)) Y0)
      have a2 : ‖dt ^ (i + 1) • T (A (s i) - s (i + 1))‖ ≤ dt * L ^ i * ε := by
        rw [norm_smul, Real.norm_of_nonneg (by positivity), pow_succ']
        have := hA i (by omega)
        have := pow_le_pow_left₀ t0 tL i
        gcongr
      refine (norm_add_le _ _).trans ((add_le_add a1 a2).trans ?_)
      have l1 : L ^ i ≤ ((Y + 3 / 2) * L) ^ i := pow_le_pow_left₀ (by linarith) (by nlinarith) _
      have l2 : 0 ≤ dt * ε := by positivity
      have l3 : 0 ≤ ((Y + 3 / 2) * L) ^ i := by positivity
      calc Y * (dt * ε * ((Y + 3 / 2) * L) ^ i) + dt * L ^ i * ε = dt * ε * (Y * ((Y + 3 / 2) * L) ^ i + L ^ i) := by ring
        _ ≤ dt * ε * ((Y + 3 / 2) * L) ^ (i + 1) := by
          refine mul_le_mul_of_nonneg_left ?_ l2
          rw [pow_succ]
          have : ((Y + 3 / 2) * L) ^ i * (Y + 1) ≤ ((Y + 3 / 2) * L) ^ i * ((Y + 3 / 2) * L) :=
            mul_le_mul_of_nonneg_left (by nlinarith) l3
          linarith
  have k : ∀ (i : ℕ) (c : ℝ), i ≤ 5 → |c| ≤ 2 → ‖c • T ((z ^ i) (s 0) - dt ^ i • s i)‖ ≤ 2 * (dt * ε * ((Y + 3 / 2) ^ 5 * L ^ 5)) := by
    intro i c hi hc
    rw [norm_smul, Real.norm_eq_abs]
    have h1 : ((Y + 3 / 2) * L) ^ i ≤ (Y + 3 / 2) ^ 5 * L ^ 5 := by
      refine (pow_le_pow_right₀ (by nlinarith) hi).trans (le_of_eq ?_)
      ring
    have := key i hi
    exact mul_le_mul hc (this.trans (mul_le_mul_of_nonneg_left h1 (by positivity))) (norm_nonneg _) (by norm_num)
  have c : ∀ (i : ℕ) (c : ℝ), i + 1 ≤ 4 → |c| ≤ κ → ‖(c * dt ^ (i + 1)) • T (s (i + 1))‖ ≤ κ * (dt * L ^ 5) * M := by
    intro i c hi hc
    rw [norm_smul, Real.norm_eq_abs, abs_mul, abs_of_nonneg (by positivity : (0 : ℝ) ≤ dt ^ (i + 1))]
    have h1 : dt ^ (i + 1) ≤ dt * L ^ 5 := by
      rw [pow_succ']
      have := (pow_le_pow_left₀ t0 tL i).trans (pow_le_pow_right₀ L1 (by omega : i ≤ 5))
      gcongr
    have := hM (i + 1) (by omega)
    gcongr
  have split : T (stab c1 c2 c3 c4 c5 (dt • A) (s 0) - s') =
      c1 • T ((z ^ 1) (s 0) - dt ^ 1 • s 1) + c2 • T ((z ^ 2) (s 0) - dt ^ 2 • s 2) +
      c3 • T ((z ^ 3) (s 0) - dt ^ 3 • s 3) + c4 • T ((z ^ 4) (s 0) - dt ^ 4 • s 4) +
      c5 • T ((z ^ 5) (s 0) - dt ^ 5 • s 5) + ((c1 - 1) * dt ^ 1) • T (s 1) + ((c2 - 1 / 2) * dt ^ 2) • T (s 2) +
      ((c3 - 1 / 6) * dt ^ 3) • T (s 3) + ((c4 - 1 / 24) * dt ^ 4) • T (s 4) + (c5 * dt ^ 5) • T (s 5) -
      T (s' - (s 0 + dt • s 1 + (dt ^ 2 / 2) • s 2 + (dt ^ 3 / 6) • s 3 + (dt ^ 4 / 24) • s 4)) := by
    have hz : dt • A = z := rfl
    rw [hz]
    have z2 : ∀ x, (z ^ 2) x = z (z x) := fun x => by simp [pow_succ']
    have z3 : ∀ x, (z ^ 3) x = z (z (z x)) := fun x => by simp [pow_succ']
    have z4 : ∀ x, (z ^ 4) x = z (z (z (z x))) := fun x => by simp [pow_succ']
    have z5 : ∀ x, (z ^ 5) x = z (z (z (z (z x)))) := fun x => by simp [pow_succ']
    rw [pow_one, z2, z3, z4, z5]
    simp only [stab, map_smul, map_add, map_sub]
    module
  rw [split]
  have f1 := k 1 c1 (by omega) b1
  have f2 := k 2 c2 (by omega) b2
  have f3 := k 3 c3 (by omega) b3
  have f4 := k 4 c4 (by omega) b4
  have f5 := k 5 c5 (by omega) b5
  have g1 := c 0 _ (by omega) hc.c1
  have g2 := c 1 _ (by omega) hc.c2
  have g3 := c 2 _ (by omega) hc.c3
  have g4 := c 3 _ (by omega) hc.c4
  have g5 : ‖(c5 * dt ^ 5) • T (s 5)‖ ≤ 2 * dt ^ 5 * M := by
    rw [norm_smul, Real.norm_eq_abs, abs_mul, abs_of_nonneg (by positivity : (0 : ℝ) ≤ dt ^ 5)]
    have := hM 5 le_rfl
    gcongr
  simp only [zero_add, Nat.reduceAdd] at g1 g2 g3 g4
  refine ((norm_sub_le _ _).trans (add_le_add ((norm_add_le _ _).trans (add_le_add ((norm_add_le _ _).trans
    (add_le_add ((norm_add_le _ _).trans (add_le_add ((norm_add_le _ _).trans (add_le_add ((norm_add_le _ _).trans
    (add_le_add ((norm_add_le _ _).trans (add_le_add ((norm_add_le _ _).trans (add_le_add ((norm_add_le _ _).trans
    (add_le_add ((norm_add_le _ _).trans (add_le_add f1 f2)) f3)) f4)) f5)) g1)) g2)) g3)) g4)) g5)) hT)).trans ?_
  have l5 : 1 ≤ L ^ 5 := one_le_pow₀ L1
  have w1 : 0 ≤ dt ^ 5 * M := by positivity
  have w2 : 0 ≤ κ * (dt * L ^ 5) * M := by positivity
  have w3 : dt ^ 5 * M ≤ dt ^ 5 * M * L ^ 5 := le_mul_of_one_le_right w1 l5
  have e : dt * (10 * (Y + 3 / 2) ^ 5 * L ^ 5 * (ε + M * dt ^ 4 + M * κ)) =
      10 * (dt * ε * ((Y + 3 / 2) ^ 5 * L ^ 5)) + 10 * ((Y + 3 / 2) ^ 5 * (dt ^ 5 * M * L ^ 5)) +
        10 * ((Y + 3 / 2) ^ 5 * (κ * (dt * L ^ 5) * M)) := by ring
  have G1 : 1 ≤ (Y + 3 / 2) ^ 5 := one_le_pow₀ (by linarith)
  have w4 : dt ^ 5 * M * L ^ 5 ≤ (Y + 3 / 2) ^ 5 * (dt ^ 5 * M * L ^ 5) :=
    le_mul_of_one_le_left (by positivity) G1
  have w5 : κ * (dt * L ^ 5) * M ≤ (Y + 3 / 2) ^ 5 * (κ * (dt * L ^ 5) * M) := le_mul_of_one_le_left w2 G1
  rw [e]
  linarith

theorem truncation {T : V →ₗ[ℝ] E} {A : Module.End ℝ V} {dt L ε M : ℝ} (t0 : 0 ≤ dt) (tL : dt ≤ L) (L1 : 1 ≤ L)
    (two : ∀ x, ‖T ((dt • A) x)‖ ≤ 5 / 2 * ‖T x‖) (hc : Coefs κ c1 c2 c3 c4 c5) {s : ℕ → V} {s' : V}
    (hA : ∀ i, i ≤ 4 → ‖T (A (s i) - s (i + 1))‖ ≤ ε) (hM : ∀ i, i ≤ 5 → ‖T (s i)‖ ≤ M)
    (hT : ‖T (s' - (s 0 + dt • s 1 + (dt ^ 2 / 2) • s 2 + (dt ^ 3 / 6) • s 3 + (dt ^ 4 / 24) • s 4))‖ ≤ M * dt ^ 5) :
    ‖T (stab c1 c2 c3 c4 c5 (dt • A) (s 0) - s')‖ ≤ dt * (10240 * L ^ 5 * (ε + M * dt ^ 4 + M * κ)) := by
  refine (truncation_of (by norm_num) t0 tL L1 two hc hA hM hT).trans (le_of_eq ?_)
  norm_num

/-! ### Convergence -/

theorem stab_sub (z : Module.End ℝ V) (x y : V) :
    stab c1 c2 c3 c4 c5 z (x - y) = stab c1 c2 c3 c4 c5 z x - stab c1 c2 c3 c4 c5 z y := by
  simp only [stab, map_sub]
  module

/-- Stability and consistency give convergence. -/
theorem convergence {T : V →ₗ[ℝ] E} {z : Module.End ℝ V} {δ ρ : ℝ} (h : NearlySkew T z δ) (δ0 : 0 ≤ δ)
    (hc : Coefs κ c1 c2 c3 c4 c5) {y : ℕ → V} {N : ℕ} (hN : N ≤ 10 ^ 18)
    (hy : ∀ n, n < N → ‖T (stab c1 c2 c3 c4 c5 z (y n) - y (n + 1))‖ ≤ ρ) (ρ0 : 0 ≤ ρ) {x : V}
    (h0 : T (x - y 0) = 0) :
    ‖T ((stab c1 c2 c3 c4 c5 z)^[N] x - y N)‖ ≤ N * ρ * Real.exp (5 + 320000 * (N * δ)) := by
  set g := 1 + 500 * κ + 320000 * δ with hg
  have g1 : 1 ≤ g := by
    have := hc.k0
    linarith
  have key : ∀ n, n ≤ N → ‖T ((stab c1 c2 c3 c4 c5 z)^[n] x - y n)‖ ≤ n * ρ * g ^ n := by
    intro n
    induction n with
    | zero => intro _; simp [h0]
    | succ n ih =>
      intro hn
      rw [Function.iterate_succ_apply']
      set w := (stab c1 c2 c3 c4 c5 z)^[n] x
      have e : stab c1 c2 c3 c4 c5 z w - y (n + 1) =
          stab c1 c2 c3 c4 c5 z (w - y n) + (stab c1 c2 c3 c4 c5 z (y n) - y (n + 1)) := by
        rw [stab_sub]; abel
      rw [e, map_add]
      have a := (h.stable δ0 hc (w - y n)).trans (mul_le_mul_of_nonneg_left (ih (by omega)) (by linarith))
      refine (norm_add_le _ _).trans ((add_le_add a (hy n (by omega))).trans ?_)
      have gp : 1 ≤ g ^ (n + 1) := one_le_pow₀ g1
      have : ρ ≤ ρ * g ^ (n + 1) := le_mul_of_one_le_right ρ0 gp
      push_cast
      calc g * (n * ρ * g ^ n) + ρ = n * ρ * g ^ (n + 1) + ρ := by ring
        _ ≤ _ := by linarith
  refine (key N le_rfl).trans (mul_le_mul_of_nonneg_left ?_ (by positivity))
  have N0 : (N : ℝ) ≤ 10 ^ 18 := by exact_mod_cast hN
  calc g ^ N ≤ (Real.exp (500 * κ + 320000 * δ)) ^ N := by
        refine pow_le_pow_left₀ (by linarith) ?_ _
        have := Real.add_one_le_exp (500 * κ + 320000 * δ)
        linarith
    _ = Real.exp (N * (500 * κ + 320000 * δ)) := by rw [← Real.exp_nat_mul]
    _ ≤ _ := by
      refine Real.exp_le_exp.2 ?_
      have : (N : ℝ) * (500 * κ) ≤ 10 ^ 18 * (500 * (1 / 10 ^ 20)) := by
        have := hc.k0
        have := hc.k1
        gcongr
      norm_num at this ⊢
      linarith

/-- Steps that do not increase the norm. -/
theorem contracting {T : V →ₗ[ℝ] E} {A : Module.End ℝ V} {dt Y Te ε M : ℝ} (t0 : 0 ≤ dt) (Y0 : 0 ≤ Y) (ε0 : 0 ≤ ε)
    (hn : ∀ x, ‖T ((dt • A) x)‖ ≤ Y * ‖T x‖)
    (hs : ∀ x, ‖T (stab c1 c2 c3 c4 c5 (dt • A) x)‖ ≤ ‖T x‖)
    (hc : Coefs κ c1 c2 c3 c4 c5) {N : ℕ} (hTe : N * dt ≤ Te) {s : ℕ → ℕ → V}
    (hA : ∀ n, n < N → ∀ i, i ≤ 4 → ‖T (A (s n i) - s n (i + 1))‖ ≤ ε)
    (hM : ∀ n, n ≤ N → ∀ i, i ≤ 5 → ‖T (s n i)‖ ≤ M)
    (hT : ∀ n, n < N → ‖T (s (n + 1) 0 - (s n 0 + dt • s n 1 + (dt ^ 2 / 2) • s n 2 +
      (dt ^ 3 / 6) • s n 3 + (dt ^ 4 / 24) • s n 4))‖ ≤ M * dt ^ 5) {x : V} (h0 : T (x - s 0 0) = 0) :
    ‖T ((stab c1 c2 c3 c4 c5 (dt • A))^[N] x - s N 0)‖ ≤
      Te * (10 * (Y + 3 / 2) ^ 5 * (1 + Te) ^ 5 * (ε + M * dt ^ 4 + M * κ)) := by
  have key : ∀ n, n ≤ N → ‖T ((stab c1 c2 c3 c4 c5 (dt • A))^[n] x - s n 0)‖ ≤
      n * dt * (10 * (Y + 3 / 2) ^ 5 * (1 + Te) ^ 5 * (ε + M * dt ^ 4 + M * κ)) := by
    intro n
    induction n with
    | zero => intro _; simp [h0]
    | succ n ih =>
      intro hn'
      rw [Function.iterate_succ_apply']
      set w := (stab c1 c2 c3 c4 c5 (dt • A))^[n] x
      have e : stab c1 c2 c3 c4 c5 (dt • A) w - s (n + 1) 0 =
          stab c1 c2 c3 c4 c5 (dt • A) (w - s n 0) +
            (stab c1 c2 c3 c4 c5 (dt • A) (s n 0) - s (n + 1) 0) := by
        rw [stab_sub]; abel
      rw [e, map_add]
      have a := (hs (w - s n 0)).trans (ih (by omega))
      have N1 : (1 : ℝ) ≤ N := by exact_mod_cast (by omega : 1 ≤ N)
      have tT : dt ≤ 1 + Te := by nlinarith
      have b := truncation_of Y0 t0 tT (by nlinarith) hn hc (hA n (by omega)) (hM n (by omega)) (hT n (by omega))
      refine (norm_add_le _ _).trans ((add_le_add a b).trans (le_of_eq ?_))
      push_cast
      ring
  refine (key N le_rfl).trans (mul_le_mul_of_nonneg_right hTe ?_)
  have M0 : 0 ≤ M := (norm_nonneg _).trans (hM 0 (Nat.zero_le _) 0 (by omega))
  have κ0 := hc.k0
  have Te0 : 0 ≤ Te := le_trans (by positivity) hTe
  positivity

/-- A crude bound for few steps. -/
theorem few {T : V →ₗ[ℝ] E} {z : Module.End ℝ V} {Y : ℝ} (Y1 : 1 ≤ Y) (h : ∀ x, ‖T (z x)‖ ≤ Y * ‖T x‖)
    (hc : Coefs κ c1 c2 c3 c4 c5) (N : ℕ) (x : V) :
    ‖T ((stab c1 c2 c3 c4 c5 z)^[N] x)‖ ≤ (11 * Y ^ 5) ^ N * ‖T x‖ := by
  obtain ⟨b1, b2, b3, b4, b5⟩ := hc.bounds
  have one : ∀ x, ‖T (stab c1 c2 c3 c4 c5 z x)‖ ≤ 11 * Y ^ 5 * ‖T x‖ := fun x => by
    set n := ‖T x‖ with hn
    have n0 : 0 ≤ n := norm_nonneg _
    have p1 := h x
    have p2 := (h (z x)).trans (mul_le_mul_of_nonneg_left p1 (by linarith))
    have p3 := (h (z (z x))).trans (mul_le_mul_of_nonneg_left p2 (by linarith))
    have p4 := (h (z (z (z x)))).trans (mul_le_mul_of_nonneg_left p3 (by linarith))
    have p5 := (h (z (z (z (z x))))).trans (mul_le_mul_of_nonneg_left p4 (by linarith))
    have up : ∀ (i : ℕ), i ≤ 5 → Y ^ i * n ≤ Y ^ 5 * n := fun i hi =>
      mul_le_mul_of_nonneg_right (pow_le_pow_right₀ Y1 hi) n0
    have k : ∀ {c : ℝ} {v : E} {i : ℕ}, |c| ≤ 2 → i ≤ 5 → ‖v‖ ≤ Y ^ i * n → ‖c • v‖ ≤ 2 * (Y ^ 5 * n) := by
      intro c v i hc hi hv
      rw [norm_smul, Real.norm_eq_abs]
      exact mul_le_mul hc (hv.trans (up i hi)) (norm_nonneg _) (by norm_num)
    have q0 : ‖T x‖ ≤ Y ^ 5 * n := by simpa using up 0 (by omega)
    have q1 := k (i := 1) b1 (by omega) (p1.trans (le_of_eq (by ring)))
    have q2 := k (i := 2) b2 (by omega) (p2.trans (le_of_eq (by ring)))
    have q3 := k (i := 3) b3 (by omega) (p3.trans (le_of_eq (by ring)))
    have q4 := k (i := 4) b4 (by omega) (p4.trans (le_of_eq (by ring)))
    have q5 := k (i := 5) b5 (by omega) (p5.trans (le_of_eq (by ring)))
    simp only [stab, map_add, map_smul]
    refine ((norm_add_le _ _).trans (add_le_add ((norm_add_le _ _).trans (add_le_add ((norm_add_le _ _).trans
      (add_le_add ((norm_add_le _ _).trans (add_le_add ((norm_add_le _ _).trans (add_le_add q0 q1)) q2)) q3)) q4))
      q5)).trans (le_of_eq (by ring))
  induction N with
  | zero => simp
  | succ N ih =>
    rw [Function.iterate_succ_apply', pow_succ', mul_assoc]
    exact (one _).trans (mul_le_mul_of_nonneg_left ih (by positivity))

/-- the constant of the next theorem -/
noncomputable def gain (Te Δ : ℝ) : ℝ :=
  10240 * (1 + Te) ^ 6 * Real.exp (5 + 320000 * (Te * Δ)) +
    ((11 * (2 + Te * Δ) ^ 5) ^ ⌈Te * Δ⌉₊ + 1) * Δ ^ 4

theorem gain_nonneg {Te Δ : ℝ} (h0 : 0 ≤ Te) (h1 : 0 ≤ Δ) : 0 ≤ gain Te Δ := by unfold gain; positivity

/-- Convergence over a time `Te` for steps within the Courant limit, whatever the defect `Δ`. `s n i` is
the `i`-th time derivative of the exact solution after `n` steps. -/
theorem overall {T : V →ₗ[ℝ] E} {A : Module.End ℝ V} {dt Δ Te ε M : ℝ} (t0 : 0 ≤ dt) (Δ0 : 0 ≤ Δ)
    (hn : ∀ x, ‖T ((dt • A) x)‖ ≤ (2 + dt * Δ / 2) * ‖T x‖)
    (hs : ∀ x y, |⟪T ((dt • A) x), T y⟫ + ⟪T x, T ((dt • A) y)⟫| ≤ dt * Δ * (‖T x‖ * ‖T y‖))
    (hc : Coefs κ c1 c2 c3 c4 c5) {N : ℕ} (hN : N ≤ 10 ^ 18) (hTe : N * dt ≤ Te) {s : ℕ → ℕ → V}
    (hA : ∀ n, n < N → ∀ i, i ≤ 4 → ‖T (A (s n i) - s n (i + 1))‖ ≤ ε)
    (hM : ∀ n, n ≤ N → ∀ i, i ≤ 5 → ‖T (s n i)‖ ≤ M)
    (hT : ∀ n, n < N → ‖T (s (n + 1) 0 - (s n 0 + dt • s n 1 + (dt ^ 2 / 2) • s n 2 +
      (dt ^ 3 / 6) • s n 3 + (dt ^ 4 / 24) • s n 4))‖ ≤ M * dt ^ 5) {x : V} (h0 : T (x - s 0 0) = 0)
    (ε0 : 0 ≤ ε) :
    ‖T ((stab c1 c2 c3 c4 c5 (dt • A))^[N] x - s N 0)‖ ≤ gain Te Δ * (ε + M * dt ^ 4 + M * κ) := by
  have M0 : 0 ≤ M := (norm_nonneg _).trans (hM 0 (Nat.zero_le _) 0 (by omega))
  have Te0 : 0 ≤ Te := le_trans (by positivity) hTe
  have κ0 := hc.k0
  have r0 : 0 ≤ ε + M * dt ^ 4 + M * κ := by positivity
  rcases Nat.eq_zero_or_pos N with rfl | N1
  · rw [Function.iterate_zero, id, h0, norm_zero]
    exact mul_nonneg (gain_nonneg Te0 Δ0) r0
  have N1' : (1 : ℝ) ≤ N := by exact_mod_cast N1
  have dT : dt ≤ Te := le_trans (by nlinarith) hTe
  rcases le_or_gt (dt * Δ) 1 with hd | hd
  · have b : ∀ x, ‖T ((dt • A) x)‖ ≤ 5 / 2 * ‖T x‖ := fun x =>
      (hn x).trans (mul_le_mul_of_nonneg_right (by linarith) (norm_nonneg _))
    have ns : NearlySkew T (dt • A) (dt * Δ) := ⟨b, hs⟩
    have k := convergence ns (by positivity) hc (y := fun n => s n 0) (N := N) hN
      (ρ := dt * (10240 * (1 + Te) ^ 5 * (ε + M * dt ^ 4 + M * κ)))
      (fun n hn => truncation t0 (by linarith) (by linarith) b hc (s := s n) (hA n hn)
        (hM n hn.le) (hT n hn)) (by positivity) h0
    refine k.trans ?_
    have e1 : Real.exp (5 + 320000 * (N * (dt * Δ))) ≤ Real.exp (5 + 320000 * (Te * Δ)) := by
      apply Real.exp_le_exp.2
      have := mul_le_mul_of_nonneg_right hTe Δ0
      linarith
    calc N * (dt * (10240 * (1 + Te) ^ 5 * (ε + M * dt ^ 4 + M * κ))) *
          Real.exp (5 + 320000 * (N * (dt * Δ)))
        = (N * dt) * (10240 * (1 + Te) ^ 5 * (ε + M * dt ^ 4 + M * κ) *
          Real.exp (5 + 320000 * (N * (dt * Δ)))) := by ring
      _ ≤ (1 + Te) * (10240 * (1 + Te) ^ 5 * (ε + M * dt ^ 4 + M * κ) *
          Real.exp (5 + 320000 * (Te * Δ))) := by
        refine mul_le_mul (by linarith) (mul_le_mul_of_nonneg_left e1 (by positivity)) (by positivity)
          (by positivity)
      _ = (10240 * (1 + Te) ^ 6 * Real.exp (5 + 320000 * (Te * Δ))) *
          (ε + M * dt ^ 4 + M * κ) := by ring
      _ ≤ _ := by
        refine mul_le_mul_of_nonneg_right ?_ r0
        unfold gain
        have : 0 ≤ ((11 * (2 + Te * Δ) ^ 5) ^ ⌈Te * Δ⌉₊ + 1) * Δ ^ 4 := by positivity
        linarith
  · have TD : 0 ≤ Te * Δ := by positivity
    have dD : dt * Δ ≤ Te * Δ := mul_le_mul_of_nonneg_right dT Δ0
    have f := few (T := T) (z := dt • A) (Y := 2 + Te * Δ) (by linarith)
      (fun x => (hn x).trans (mul_le_mul_of_nonneg_right (by linarith) (norm_nonneg _))) hc N x
    have hx : ‖T x‖ ≤ M := by
      rw [map_sub, sub_eq_zero] at h0
      rw [h0]; exact hM 0 (Nat.zero_le _) 0 (by omega)
    have NT : N ≤ ⌈Te * Δ⌉₊ := by
      have : (N : ℝ) ≤ Te * Δ := by
        have := mul_le_mul_of_nonneg_right hTe Δ0
        nlinarith
      exact_mod_cast this.trans (Nat.le_ceil _)
    have one : (1 : ℝ) ≤ 11 * (2 + Te * Δ) ^ 5 := by
      have : (1 : ℝ) ≤ (2 + Te * Δ) ^ 5 := one_le_pow₀ (by linarith)
      linarith
    have p := pow_le_pow_right₀ one NT
    have d4 : (1 : ℝ) ≤ (dt * Δ) ^ 4 := one_le_pow₀ hd.le
    rw [map_sub]
    set G := (11 * (2 + Te * Δ) ^ 5) ^ ⌈Te * Δ⌉₊ with hG
    have G0 : 0 ≤ G := by positivity
    calc _ ≤ ‖T ((stab c1 c2 c3 c4 c5 (dt • A))^[N] x)‖ + ‖T (s N 0)‖ := norm_sub_le _ _
      _ ≤ G * M + M := by
        refine add_le_add (f.trans (mul_le_mul p hx (norm_nonneg _) G0)) (hM N le_rfl 0 (by omega))
      _ = (G + 1) * M * 1 := by ring
      _ ≤ (G + 1) * M * (dt * Δ) ^ 4 := mul_le_mul_of_nonneg_left d4 (by positivity)
      _ = ((G + 1) * Δ ^ 4) * (M * dt ^ 4) := by ring
      _ ≤ gain Te Δ * (ε + M * dt ^ 4 + M * κ) := by
        refine mul_le_mul ?_ ?_ (by positivity) (gain_nonneg Te0 Δ0)
        · unfold gain
          have : 0 ≤ 10240 * (1 + Te) ^ 6 * Real.exp (5 + 320000 * (Te * Δ)) := by positivity
          linarith
        · have : 0 ≤ M * κ := by positivity
          linarith

end Lax
end Omega
