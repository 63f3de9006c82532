import Verif.Props.Dissipation
import Mathlib.Algebra.Polynomial.AlgebraMap

/-!
# Tracers in a prescribed flow

With the thickness and velocity equations disabled a step acts on each tracer as a polynomial in the
tracer tendency, which is a linear operator.  This file has no property of its own; it serves the
maximum principle, the stability of diffusion and the errors of the tracer tests.
-/

set_option linter.unusedVariables false
set_option linter.unusedSectionVars false

namespace Omega
noncomputable section
namespace Props

open Prog Model Refine Hex Polynomial

variable {p : MeshParams} {dc : ℝ} {m : Mem ℝ}

theorem div_add' (m : Mem ℝ) (u w : Int → ℝ) (c : Int) :
    Spec.div m (fun e => u e + w e) c = Spec.div m u c + Spec.div m w c := by
  unfold Spec.div
  rw [← add_div, ← Finset.sum_add_distrib]
  congr 1
  exact Finset.sum_congr rfl fun j _ => by ring

theorem div_mul' (m : Mem ℝ) (a : ℝ) (u : Int → ℝ) (c : Int) :
    Spec.div m (fun e => a * u e) c = a * Spec.div m u c := by
  unfold Spec.div
  rw [← mul_div_assoc, Finset.mul_sum]
  congr 1
  exact Finset.sum_congr rfl fun j _ => by ring

theorem tracerTend_add (m : Mem ℝ) (sw : SWModel ℝ) (h u x y : Int → ℝ) (c : Int) :
    Spec.tracerTend m sw h u (fun i => x i + y i) c =
      Spec.tracerTend m sw h u x c + Spec.tracerTend m sw h u y c := by
  have e1 : Spec.div m (fun e => Spec.mean m h e * Spec.mean m (fun i => (x i + y i) / h i) e * u e) c
      = Spec.div m (fun e => Spec.mean m h e * Spec.mean m (fun i => x i / h i) e * u e) c +
        Spec.div m (fun e => Spec.mean m h e * Spec.mean m (fun i => y i / h i) e * u e) c := by
    rw [← div_add']
    congr 1; funext e; unfold Spec.mean; ring
  have g : ∀ e, Spec.grad m (fun i => (x i + y i) / h i) e =
      Spec.grad m (fun i => x i / h i) e + Spec.grad m (fun i => y i / h i) e := fun e => by
    unfold Spec.grad; ring
  have e2 : Spec.div m (fun e => m.real .mesh_scaling_del2 0 e 0 * Spec.mean m h e *
      Spec.grad m (fun i => (x i + y i) / h i) e) c =
      Spec.div m (fun e => m.real .mesh_scaling_del2 0 e 0 * Spec.mean m h e *
        Spec.grad m (fun i => x i / h i) e) c +
      Spec.div m (fun e => m.real .mesh_scaling_del2 0 e 0 * Spec.mean m h e *
        Spec.grad m (fun i => y i / h i) e) c := by
    rw [← div_add']
    congr 1; funext e; rw [g]; ring
  have e3 : (Spec.div m fun e => Spec.mean m h e * Spec.grad m (fun i => (x i + y i) / h i) e) =
      fun c => (Spec.div m fun e => Spec.mean m h e * Spec.grad m (fun i => x i / h i) e) c +
        (Spec.div m fun e => Spec.mean m h e * Spec.grad m (fun i => y i / h i) e) c := by
    funext c
    rw [← div_add']
    congr 1; funext e; rw [g]; ring
  have e4 : Spec.div m (fun e => m.real .mesh_scaling_del4 0 e 0 * Spec.grad m (Spec.div m fun e =>
      Spec.mean m h e * Spec.grad m (fun i => (x i + y i) / h i) e) e) c =
      Spec.div m (fun e => m.real .mesh_scaling_del4 0 e 0 * Spec.grad m (Spec.div m fun e =>
        Spec.mean m h e * Spec.grad m (fun i => x i / h i) e) e) c +
      Spec.div m (fun e => m.real .mesh_scaling_del4 0 e 0 * Spec.grad m (Spec.div m fun e =>
        Spec.mean m h e * Spec.grad m (fun i => y i / h i) e) e) c := by
    rw [e3, ← div_add']
    congr 1; funext e; unfold Spec.grad; ring
  unfold Spec.tracerTend
  rw [e1, e2, e4]
  split_ifs <;> ring

theorem tracerTend_smul (m : Mem ℝ) (sw : SWModel ℝ) (h u x : Int → ℝ) (a : ℝ) (c : Int) :
    Spec.tracerTend m sw h u (fun i => a * x i) c = a * Spec.tracerTend m sw h u x c := by
  have e1 : Spec.div m (fun e => Spec.mean m h e * Spec.mean m (fun i => a * x i / h i) e * u e) c
      = a * Spec.div m (fun e => Spec.mean m h e * Spec.mean m (fun i => x i / h i) e * u e) c := by
    rw [← div_mul']
    congr 1; funext e; unfold Spec.mean; ring
  have g : ∀ e, Spec.grad m (fun i => a * x i / h i) e =
      a * Spec.grad m (fun i => x i / h i) e := fun e => by
    unfold Spec.grad; ring
  have e2 : Spec.div m (fun e => m.real .mesh_scaling_del2 0 e 0 * Spec.mean m h e *
      Spec.grad m (fun i => a * x i / h i) e) c =
      a * Spec.div m (fun e => m.real .mesh_scaling_del2 0 e 0 * Spec.mean m h e *
        Spec.grad m (fun i => x i / h i) e) c := by
    rw [← div_mul']
    congr 1; funext e; rw [g]; ring
  have e3 : (Spec.div m fun e => Spec.mean m h e * Spec.grad m (fun i => a * x i / h i) e) =
      fun c => a * (Spec.div m fun e => Spec.mean m h e * Spec.grad m (fun i => x i / h i) e) c := by
    funext c
    rw [← div_mul']
    congr 1; funext e; rw [g]; ring
  have e4 : Spec.div m (fun e => m.real .mesh_scaling_del4 0 e 0 * Spec.grad m (Spec.div m fun e =>
      Spec.mean m h e * Spec.grad m (fun i => a * x i / h i) e) e) c =
      a * Spec.div m (fun e => m.real .mesh_scaling_del4 0 e 0 * Spec.grad m (Spec.div m fun e =>
        Spec.mean m h e * Spec.grad m (fun i => x i / h i) e) e) c := by
    rw [e3, ← div_mul']
    congr 1; funext e; unfold Spec.grad; ring
  unfold Spec.tracerTend
  rw [e1, e2, e4]
  split_ifs <;> ring

/-- the tracer tendency of a layer with given thickness and velocity, as a linear operator -/
def trOp (m : Mem ℝ) (sw : SWModel ℝ) (h u : Int → ℝ) : Module.End ℝ (Int → ℝ) where
  toFun s := Spec.tracerTend m sw h u s
  map_add' x y := by
    funext c
    exact tracerTend_add m sw h u x y c
  map_smul' a x := by
    funext c
    exact tracerTend_smul m sw h u x a c

/-- the polynomial by which a stepper acts on a linear equation -/
def stabPoly : Stepper → ℝ[X]
  | .lsrk n => ((List.range n).foldl (fun (q : ℝ[X] × ℝ[X]) i =>
      (C ((lsrkCoef n).a i) * q.1 + X * q.2,
        q.2 + C ((lsrkCoef n).b i) * (C ((lsrkCoef n).a i) * q.1 + X * q.2))) (0, 1)).2
  | .rk4 => ((List.range 4).foldl (fun (q : ℝ[X] × ℝ[X]) i =>
      (if i < 3 then X * (1 + C (rk4Coef.a i) * q.1) else q.1, q.2 + C (rk4Coef.b i) * q.1))
        (X, 1)).2

theorem lsrk_a0 (n : Nat) : (lsrkCoef n : Coef ℝ).a 0 = 0 := by
  unfold lsrkCoef
  split_ifs <;> simp [nth]

/-- Tendency and state after part of a step from `s`, with polynomials `q` and `p`. -/
structure Along (m : Mem ℝ) (sw : SWModel ℝ) (dt : ℝ) (s : Fld ℝ) (q : ℝ[X] × ℝ[X])
    (x : Fld ℝ × Fld ℝ) : Prop where
  h0 : ∀ c k, x.1.h c k = 0
  v0 : ∀ e k, x.1.vn e k = 0
  h1 : ∀ c k, x.2.h c k = s.h c k
  v1 : ∀ e k, x.2.vn e k = s.vn e k
  tn : ∀ l k, (fun c => dt * x.1.tr l c k) =
    aeval (dt • trOp m sw (fun i => s.h i k) (fun i => s.vn i k)) q.1 (fun c => s.tr l c k)
  st : ∀ l k, (fun c => x.2.tr l c k) =
    aeval (dt • trOp m sw (fun i => s.h i k) (fun i => s.vn i k)) q.2 (fun c => s.tr l c k)

section

variable {d : Dims} {sw : SWModel ℝ} (hh : sw.prm.disable_h = true)
  (hv : sw.prm.disable_vn = true)
include hh hv

theorem Along.lsrk {dt : ℝ} {s : Fld ℝ} {q : ℝ[X] × ℝ[X]} {x : Fld ℝ × Fld ℝ}
    (h : Along m sw dt s q x) (K : Coef ℝ) (t : ℝ) (i : Nat) :
    Along m sw dt s (C (K.a i) * q.1 + X * q.2, q.2 + C (K.b i) * (C (K.a i) * q.1 + X * q.2))
      ((genSys d sw noHook m).lsrkStage K t dt i x) := by
  obtain ⟨th, tv, tt⟩ := tend_val (m := m) d sw .increment (t + K.c i * dt)
    (x.1.map fun v => v * K.a i) x.2
  have eh : ∀ k, (fun i => x.2.h i k) = fun i => s.h i k := fun k => funext fun i => h.h1 i k
  have ev : ∀ k, (fun i => x.2.vn i k) = fun i => s.vn i k := fun k => funext fun i => h.v1 i k
  have hh0 : ∀ c k, ((genSys d sw noHook m).lsrkStage K t dt i x).1.h c k = 0 := fun c k => by
    show ((genSys d sw noHook m).tend _ _ _ _).h c k = 0
    rw [th, if_pos hh]
    simp [Fld.map, h.h0]
  have hv0 : ∀ c k, ((genSys d sw noHook m).lsrkStage K t dt i x).1.vn c k = 0 := fun c k => by
    show ((genSys d sw noHook m).tend _ _ _ _).vn c k = 0
    rw [tv, if_pos hv]
    simp [Fld.map, h.v0]
  have htn : ∀ l k, (fun c => dt * ((genSys d sw noHook m).lsrkStage K t dt i x).1.tr l c k) =
      aeval (dt • trOp m sw (fun i => s.h i k) (fun i => s.vn i k)) (C (K.a i) * q.1 + X * q.2)
        (fun c => s.tr l c k) := fun l k => by
    rw [map_add, map_mul, map_mul, aeval_C, aeval_X, LinearMap.add_apply, Module.End.mul_apply,
      Module.End.mul_apply, ← h.tn l k, ← h.st l k]
    funext c
    show dt * ((genSys d sw noHook m).tend _ _ _ _).tr l c k = _
    rw [tt, eh, ev]
    simp only [Fld.map, reduceCtorEq, if_false]
    show _ = K.a i * (dt * x.1.tr l c k) + dt * Spec.tracerTend m sw (fun i => s.h i k)
      (fun i => s.vn i k) (fun i => x.2.tr l i k) c
    ring
  refine ⟨hh0, hv0, fun c k => ?_, fun c k => ?_, htn, fun l k => ?_⟩
  · show x.2.h c k + _ * ((genSys d sw noHook m).lsrkStage K t dt i x).1.h c k = _
    rw [hh0, mul_zero, add_zero, h.h1]
  · show x.2.vn c k + _ * ((genSys d sw noHook m).lsrkStage K t dt i x).1.vn c k = _
    rw [hv0, mul_zero, add_zero, h.v1]
  · rw [map_add, LinearMap.add_apply, map_mul, aeval_C, Module.End.mul_apply, ← htn, ← h.st l k]
    funext c
    show x.2.tr l c k + dt * K.b i * ((genSys d sw noHook m).lsrkStage K t dt i x).1.tr l c k =
      x.2.tr l c k + K.b i * (dt * ((genSys d sw noHook m).lsrkStage K t dt i x).1.tr l c k)
    ring

theorem Along.lsrk_fold {dt : ℝ} {s : Fld ℝ} (K : Coef ℝ) (t : ℝ) (L : List Nat) :
    ∀ {q : ℝ[X] × ℝ[X]} {x : Fld ℝ × Fld ℝ}, Along m sw dt s q x →
    Along m sw dt s (L.foldl (fun (q : ℝ[X] × ℝ[X]) i => (C (K.a i) * q.1 + X * q.2,
        q.2 + C (K.b i) * (C (K.a i) * q.1 + X * q.2))) q)
      (L.foldl (fun x i => (genSys d sw noHook m).lsrkStage K t dt i x) x) := by
  induction L with
  | nil => exact fun h => h
  | cons i L ih => exact fun h => ih (h.lsrk hh hv K t i)

theorem Along.rk4 {dt : ℝ} {s : Fld ℝ} {q : ℝ[X] × ℝ[X]} {x : Fld ℝ × Fld ℝ}
    (h : Along m sw dt s q x) (K : Coef ℝ) (t : ℝ) (i : Nat) :
    Along m sw dt s (if i < 3 then X * (1 + C (K.a i) * q.1) else q.1, q.2 + C (K.b i) * q.1)
      ((genSys d sw noHook m).rk4Stage K t dt s i x) := by
  have hst : ∀ l k, (fun c => ((genSys d sw noHook m).rk4Stage K t dt s i x).2.tr l c k) =
      aeval (dt • trOp m sw (fun i => s.h i k) (fun i => s.vn i k)) (q.2 + C (K.b i) * q.1)
        (fun c => s.tr l c k) := fun l k => by
    rw [map_add, LinearMap.add_apply, map_mul, aeval_C, Module.End.mul_apply, ← h.tn l k,
      ← h.st l k]
    funext c
    show x.2.tr l c k + dt * K.b i * x.1.tr l c k = x.2.tr l c k + K.b i * (dt * x.1.tr l c k)
    ring
  have hs1 : ∀ c k, ((genSys d sw noHook m).rk4Stage K t dt s i x).2.h c k = s.h c k := fun c k => by
    show x.2.h c k + _ * x.1.h c k = _
    rw [h.h0, mul_zero, add_zero, h.h1]
  have hs2 : ∀ c k, ((genSys d sw noHook m).rk4Stage K t dt s i x).2.vn c k = s.vn c k :=
    fun c k => by
      show x.2.vn c k + _ * x.1.vn c k = _
      rw [h.v0, mul_zero, add_zero, h.v1]
  obtain ⟨th, tv, tt⟩ := tend_val (m := m) d sw .replace (t + K.c i * dt) x.1
    (s.axpy (dt * K.a i) x.1)
  have eh : ∀ k, (fun j => (s.axpy (dt * K.a i) x.1).h j k) = fun j => s.h j k :=
    fun k => funext fun j => by
      show s.h j k + _ * x.1.h j k = _
      rw [h.h0, mul_zero, add_zero]
  have ev : ∀ k, (fun j => (s.axpy (dt * K.a i) x.1).vn j k) = fun j => s.vn j k :=
    fun k => funext fun j => by
      show s.vn j k + _ * x.1.vn j k = _
      rw [h.v0, mul_zero, add_zero]
  by_cases hi : i < 3
  · have e : ((genSys d sw noHook m).rk4Stage K t dt s i x).1 =
        (genSys d sw noHook m).tend .replace (t + K.c i * dt) x.1 (s.axpy (dt * K.a i) x.1) :=
      if_pos hi
    refine ⟨fun c k => ?_, fun c k => ?_, hs1, hs2, fun l k => ?_, hst⟩
    · rw [e, th, if_pos hh, h.h0]
    · rw [e, tv, if_pos hv, h.v0]
    · rw [if_pos hi, map_mul, Module.End.mul_apply, map_add, LinearMap.add_apply, map_mul, aeval_C,
        Module.End.mul_apply, ← h.tn l k, map_one, aeval_X]
      funext c
      rw [e, tt, eh, ev]
      simp only [if_true, zero_add]
      show dt * Spec.tracerTend m sw (fun i => s.h i k) (fun i => s.vn i k)
        (fun j => s.tr l j k + dt * K.a i * x.1.tr l j k) c = dt * Spec.tracerTend m sw
        (fun i => s.h i k) (fun i => s.vn i k)
        (fun j => s.tr l j k + K.a i * (dt * x.1.tr l j k)) c
      congr 2
      funext j
      ring
  · have e : ((genSys d sw noHook m).rk4Stage K t dt s i x).1 = x.1 := if_neg hi
    refine ⟨fun c k => ?_, fun c k => ?_, hs1, hs2, fun l k => ?_, hst⟩
    · rw [e, h.h0]
    · rw [e, h.v0]
    · rw [e, if_neg hi, h.tn l k]

theorem Along.rk4_fold {dt : ℝ} {s : Fld ℝ} (K : Coef ℝ) (t : ℝ) (L : List Nat) :
    ∀ {q : ℝ[X] × ℝ[X]} {x : Fld ℝ × Fld ℝ}, Along m sw dt s q x →
    Along m sw dt s (L.foldl (fun (q : ℝ[X] × ℝ[X]) i =>
        (if i < 3 then X * (1 + C (K.a i) * q.1) else q.1, q.2 + C (K.b i) * q.1)) q)
      (L.foldl (fun x i => (genSys d sw noHook m).rk4Stage K t dt s i x) x) := by
  induction L with
  | nil => exact fun h => h
  | cons i L ih => exact fun h => ih (h.rk4 hh hv K t i)

/-- A step leaves thickness and velocity as they are and acts on each tracer as a polynomial. -/
theorem frozen_step (stp : Stepper) (t dt : ℝ) {x : Fld ℝ × Fld ℝ} (h0 : ∀ c k, x.1.h c k = 0)
    (v0 : ∀ e k, x.1.vn e k = 0) :
    ∃ q, Along m sw dt x.2 (q, stabPoly stp) ((genSys d sw noHook m).step t dt x stp) ∨
      (stabPoly stp = 1 ∧ (genSys d sw noHook m).step t dt x stp = x) := by
  cases stp with
  | lsrk n =>
    rcases Nat.eq_zero_or_pos n with rfl | hn
    · exact ⟨0, Or.inr ⟨by simp [stabPoly], by simp [Sys.step, Sys.lsrkStep]⟩⟩
    · obtain ⟨n, rfl⟩ : ∃ k, n = k + 1 := ⟨n - 1, by omega⟩
      have e : (genSys d sw noHook m).step t dt x (.lsrk (n + 1)) =
          (List.range (n + 1)).foldl (fun y i => (genSys d sw noHook m).lsrkStage
            (lsrkCoef (n + 1)) t dt i y) (zeroFld, x.2) := by
        show (List.range (n + 1)).foldl _ _ = _
        rw [List.range_succ_eq_map, List.foldl_cons, List.foldl_cons]
        congr 1
        unfold Sys.lsrkStage
        have : (x.1.map fun v => v * (lsrkCoef (n + 1)).a 0) =
            (zeroFld.map fun v => v * (lsrkCoef (n + 1)).a 0 : Fld ℝ) := by
          simp [Fld.map, lsrk_a0]
        rw [this]
      have init : Along m sw dt x.2 ((0, 1) : ℝ[X] × ℝ[X]) (zeroFld, x.2) := by
        refine ⟨fun _ _ => ?_, fun _ _ => ?_, fun _ _ => rfl, fun _ _ => rfl, fun l k => ?_,
          fun l k => ?_⟩
        · simp [zeroFld]
        · simp [zeroFld]
        · simp only [map_zero, LinearMap.zero_apply]
          funext c
          simp [zeroFld]
        · simp only [map_one]
          rfl
      have key := Along.lsrk_fold (d := d) hh hv (lsrkCoef (n + 1)) t (List.range (n + 1)) init
      rw [← e] at key
      exact ⟨_, Or.inl key⟩
  | rk4 =>
    obtain ⟨th, tv, tt⟩ := tend_val (m := m) d sw .replace t x.1 x.2
    have init : Along m sw dt x.2 ((X, 1) : ℝ[X] × ℝ[X])
        ((genSys d sw noHook m).tend .replace t x.1 x.2, x.2) := by
      refine ⟨fun c k => ?_, fun c k => ?_, fun _ _ => rfl, fun _ _ => rfl, fun l k => ?_,
        fun l k => ?_⟩
      · show ((genSys d sw noHook m).tend .replace t x.1 x.2).h c k = 0
        rw [th, if_pos hh, h0]
      · show ((genSys d sw noHook m).tend .replace t x.1 x.2).vn c k = 0
        rw [tv, if_pos hv, v0]
      · simp only [aeval_X]
        funext c
        show dt * ((genSys d sw noHook m).tend .replace t x.1 x.2).tr l c k = _
        rw [tt]
        simp only [if_true, zero_add]
        rfl
      · simp only [map_one]
        rfl
    have key := Along.rk4_fold (d := d) hh hv rk4Coef t (List.range 4) init
    exact ⟨_, Or.inl key⟩

/-- the state after the steps of a schedule -/
theorem frozen_run (stp : Stepper) (sched : List (ℝ × ℝ)) : ∀ {x : Fld ℝ × Fld ℝ},
    (∀ c k, x.1.h c k = 0) → (∀ e k, x.1.vn e k = 0) →
    (∀ c k, ((genSys d sw noHook m).run stp sched x).2.h c k = x.2.h c k) ∧
    (∀ e k, ((genSys d sw noHook m).run stp sched x).2.vn e k = x.2.vn e k) ∧
    ∀ l k, (fun c => ((genSys d sw noHook m).run stp sched x).2.tr l c k) =
      sched.foldl (fun f q => aeval (q.2 • trOp m sw (fun i => x.2.h i k) (fun i => x.2.vn i k))
        (stabPoly stp) f) (fun c => x.2.tr l c k) := by
  induction sched with
  | nil => exact fun _ _ => ⟨fun _ _ => rfl, fun _ _ => rfl, fun _ _ => rfl⟩
  | cons a L ih =>
    intro x h0 v0
    set y := (genSys d sw noHook m).step a.1 a.2 x stp with hy
    have key : (∀ c k, y.1.h c k = 0) ∧ (∀ e k, y.1.vn e k = 0) ∧ (∀ c k, y.2.h c k = x.2.h c k) ∧
        (∀ e k, y.2.vn e k = x.2.vn e k) ∧ ∀ l k, (fun c => y.2.tr l c k) =
          aeval (a.2 • trOp m sw (fun i => x.2.h i k) (fun i => x.2.vn i k)) (stabPoly stp)
            (fun c => x.2.tr l c k) := by
      obtain ⟨q, ha | ⟨h1, h2⟩⟩ := frozen_step (d := d) (m := m) hh hv stp a.1 a.2 h0 v0
      · exact ⟨ha.h0, ha.v0, ha.h1, ha.v1, ha.st⟩
      · rw [← hy] at h2
        rw [h2]
        refine ⟨h0, v0, fun _ _ => rfl, fun _ _ => rfl, fun l k => ?_⟩
        rw [h1, map_one]
        rfl
    obtain ⟨y0, y1, y2, y3, y4⟩ := key
    obtain ⟨r1, r2, r3⟩ := ih y0 y1
    have e : (genSys d sw noHook m).run stp (a :: L) x = (genSys d sw noHook m).run stp L y := rfl
    refine ⟨fun c k => by rw [e, r1, y2], fun c k => by rw [e, r2, y3], fun l k => ?_⟩
    rw [e, r3, List.foldl_cons, y4, show (fun i => y.2.h i k) = fun i => x.2.h i k from
      funext fun i => y2 i k, show (fun i => y.2.vn i k) = fun i => x.2.vn i k from
      funext fun i => y3 i k]

/-- the same for the program -/
theorem frozen_exec (hd : DimsOK d) (hc : ConnOK d m) (hn : sw.NoHook) {stp : Stepper}
    {sched : List (ℝ × ℝ)} {split : Bool} {m1 : Mem ℝ}
    (he : Exec d (stp.ctor d ++ stp.run d ⟨defaultKernels d.vl, split⟩ sw sched) m m1) :
    (∀ c k, 0 ≤ c → c < d.ncells → 0 ≤ k → k < d.nlayers →
      m1.real (.h_cell .state) 0 c k = m.real (.h_cell .state) 0 c k) ∧
    (∀ e k, 0 ≤ e → e < d.nedges → 0 ≤ k → k < d.nlayers →
      m1.real (.vn_edge .state) 0 e k = m.real (.vn_edge .state) 0 e k) ∧
    ∀ l c k, 0 ≤ l → l < d.ntracers → 0 ≤ c → c < d.ncells → 0 ≤ k → k < d.nlayers →
      m1.real (.tr_cell .state) l c k =
        sched.foldl (fun f q => aeval (q.2 • trOp m sw (fun i => m.real (.h_cell .state) 0 i k)
          (fun i => m.real (.vn_edge .state) 0 i k)) (stabPoly stp) f)
          (fun c => m.real (.tr_cell .state) l c k) c := by
  obtain ⟨-, -, v⟩ := (genSetup hd hc (hookOK_noHook hn d m)).newRun he
  obtain ⟨r1, r2, r3⟩ := frozen_run (d := d) (m := m) hh hv stp sched (x := (zeroFld, m.fld .state))
    (fun _ _ => by simp [zeroFld]) (fun _ _ => by simp [zeroFld])
  refine ⟨fun c k a b e f => (v.h c k a b e f).trans (r1 c k),
    fun c k a b e f => (v.vn c k a b e f).trans (r2 c k),
    fun l c k l0 l1 a b e f => (v.tr l c k l0 l1 a b e f).trans (congrFun (r3 l k) c)⟩

end

end Props
end
end Omega
