import Verif.Props.Vorticity
import Verif.Props.RestCourant

/-!
# C95: inertial oscillations

A uniform flow over a uniform layer is an exact solution of the nonlinear program: it stays uniform and
turns in each step by the stability polynomial of the stepper.
-/

set_option linter.unusedVariables false
set_option linter.unusedSectionVars false

namespace Omega
noncomputable section

namespace Props

open Prog Model Refine Hex Polynomial

variable {p : MeshParams} {dc : ℝ} {m : Mem ℝ}

/-- normal component, on an edge whose normal has direction `θ`, of the velocity `z` (east and north
components are real and imaginary part) -/
def compAt (z : ℂ) (θ : ℝ) : ℝ := z.re * Real.cos θ + z.im * Real.sin θ

theorem compAt_add (z w : ℂ) (θ : ℝ) : compAt (z + w) θ = compAt z θ + compAt w θ := by
  simp [compAt]; ring

theorem compAt_smul (a : ℝ) (z : ℂ) (θ : ℝ) : compAt (a * z) θ = a * compAt z θ := by
  simp [compAt]; ring

/-- the three directions of the mesh -/
theorem compAt_three (z : ℂ) : compAt z (angE 0) + compAt z (angE 2) = compAt z (angE 1) := by
  simp only [compAt, angE]
  norm_num [Real.cos_pi_div_three, Real.sin_pi_div_three, cos_two_third, sin_two_third]
  ring

section

variable (h : Geo2 p.nx p.ny p.dims.nlayers dc m.mesh) (hc : ConnOK p.dims m) {z : ℂ} {u : Int → ℝ}
  (hu : ∀ e, 0 ≤ e → e < p.dims.nedges → u e = compAt z (angE e))
include h hu

theorem uni_edge {c : Int} (hc : IsCell p.nx p.ny c) {j : Int} (h0 : 0 ≤ j) (h6 : j < 6) :
    u (E p.nx p.ny c j) = compAt z (angE (j % 3)) := by
  have := E_range h.hnx hc j h0 h6
  rw [hu _ this.1 this.2]
  congr 1
  unfold angE
  rw [E_mod h0 h6]
  simp

theorem uni_div {c : Int} (c0 : 0 ≤ c) (c1 : c < p.dims.ncells) : Spec.div m u c = 0 := by
  have hc : IsCell p.nx p.ny c := ⟨c0, c1⟩
  rw [spec_div h _ hc]
  unfold Dv
  have t := fun j a b => uni_edge h hu hc (j := j) a b
  rw [t 0 (by omega) (by omega), t 1 (by omega) (by omega), t 2 (by omega) (by omega),
    t 3 (by omega) (by omega), t 4 (by omega) (by omega), t 5 (by omega) (by omega)]
  norm_num
  right; ring

theorem uni_curl {v : Int} (v0 : 0 ≤ v) (v1 : v < p.dims.nvertices) : Spec.curl m u v = 0 := by
  rw [spec_curl h.toGeo _ v0 v1]
  have t : ∀ s, 0 ≤ s → s < 3 → u (eov p.nx p.ny v s) =
      compAt z (angE (if s = 0 then 0 else if s = 1 then 2 else 1)) := fun s s0 s3 => by
    have hcell := eov_isCell h.hnx (s := s) v0 v1
    have hm : Hex.eov p.nx p.ny v s % 3 = if s = 0 then 0 else if s = 1 then 2 else 1 := by
      unfold Hex.eov; split_ifs <;> omega
    unfold IsCell at hcell
    rw [hu _ (by omega) (by show _ < 3 * (p.nx * p.ny); omega)]
    congr 1
    unfold angE
    rw [hm]
    split_ifs <;> first | rfl | omega
  have k := compAt_three z
  unfold Cu
  rw [t 0 (by omega) (by omega), t 1 (by omega) (by omega), t 2 (by omega) (by omega)]
  simp only [if_true, one_ne_zero, if_false, OfNat.ofNat_ne_zero, OfNat.ofNat_ne_one]
  rw [show (if v % 2 = 0 then compAt z (angE 0) + compAt z (angE 2) - compAt z (angE 1)
    else compAt z (angE 1) - compAt z (angE 0) - compAt z (angE 2)) = 0 by split_ifs <;> linarith, mul_zero]

theorem uni_kinetic {c : Int} (c0 : 0 ≤ c) (c1 : c < p.dims.ncells) :
    Spec.kinetic m u c = 1 / 3 * (compAt z (angE 0) ^ 2 + compAt z (angE 1) ^ 2 +
      compAt z (angE 2) ^ 2) := by
  have hc : IsCell p.nx p.ny c := ⟨c0, c1⟩
  rw [spec_kinetic h.toGeo _ hc]
  unfold Sd
  have t := fun j a b => uni_edge h hu hc (j := j) a b
  simp only []
  rw [t 0 (by omega) (by omega), t 1 (by omega) (by omega), t 2 (by omega) (by omega),
    t 3 (by omega) (by omega), t 4 (by omega) (by omega), t 5 (by omega) (by omega)]
  norm_num
  ring

theorem uni_tang {e : Int} (e0 : 0 ≤ e) (e1 : e < p.dims.nedges) :
    Spec.tang m u e = compAt (-Complex.I * z) (angE e) := by
  rw [spec_tang h.toGeo u e0 e1, Tn_uniform h.hnx u (fun r => compAt z (angE r))
    (fun e a b => by rw [hu e a b]; congr 1; simp [angE]) e0 e1]
  have hw := w_sq
  have hw0 := w_pos
  obtain hh | hh | hh : e % 3 = 0 ∨ e % 3 = 1 ∨ e % 3 = 2 := by omega
  all_goals
    simp only [angE, hh, compAt]
    norm_num [Real.cos_pi_div_three, Real.sin_pi_div_three, cos_two_third, sin_two_third]
    field_simp
    first | ring1 | linear_combination z.re * hw

include hc

/-- tendencies of a uniform flow over a uniform layer -/
theorem uni_tend {sw : SWModel ℝ} (hp : sw.en_pv = true) {f H q : ℝ}
    (hf : ∀ v, 0 ≤ v → v < p.dims.nvertices → m.real .f_vertex 0 v 0 = f) (H0 : H ≠ 0)
    {x s : Int → ℝ} (hx : ∀ c, 0 ≤ c → c < p.dims.ncells → x c = H)
    (hs : ∀ c, 0 ≤ c → c < p.dims.ncells → s c = q) (k : Int) :
    (∀ c, 0 ≤ c → c < p.dims.ncells → Spec.thicknessTend m sw x u c = 0) ∧
    (∀ e, 0 ≤ e → e < p.dims.nedges →
      Spec.velocityTend m sw k x u e = compAt (-(f * Complex.I) * z) (angE e)) ∧
    (∀ c, 0 ≤ c → c < p.dims.ncells → Spec.tracerTend m sw x u s c = 0) := by
  have hm : ∀ e, 0 ≤ e → e < p.dims.nedges → Spec.mean m x e = H := fun e a b => by
    rw [mean_congr hc (ψ := fun _ => H) hx a b]; simp [Spec.mean]
  have hq : ∀ c, 0 ≤ c → c < p.dims.ncells → s c / x c = q / H := fun c a b => by
    rw [hs c a b, hx c a b]
  have hqm : ∀ e, 0 ≤ e → e < p.dims.nedges → Spec.mean m (fun i => s i / x i) e = q / H :=
    fun e a b => by rw [mean_congr hc (ψ := fun _ => q / H) hq a b]; simp [Spec.mean]
  have gz : ∀ (φ : Int → ℝ) (a : ℝ), (∀ c, 0 ≤ c → c < p.dims.ncells → φ c = a) →
      ∀ e, 0 ≤ e → e < p.dims.nedges → Spec.grad m φ e = 0 := fun φ a hφ e e0 e1 => by
    rw [grad_congr hc (ψ := fun _ => a) hφ e0 e1]; simp [Spec.grad]
  have dz : ∀ w : Int → ℝ, (∀ e, 0 ≤ e → e < p.dims.nedges → w e = 0) →
      ∀ c, 0 ≤ c → c < p.dims.ncells → Spec.div m w c = 0 := fun w hw c c0 c1 => by
    rw [div_congr hc (v := fun _ => 0) hw c0 c1, div_zero']
  have cz : ∀ w : Int → ℝ, (∀ e, 0 ≤ e → e < p.dims.nedges → w e = 0) →
      ∀ v, 0 ≤ v → v < p.dims.nvertices → Spec.curl m w v = 0 := fun w hw v v0 v1 => by
    rw [curl_congr hc (v := fun _ => 0) hw v0 v1]; simp [Spec.curl]
  have flux : ∀ (w : Int → ℝ) (a : ℝ), (∀ e, 0 ≤ e → e < p.dims.nedges → w e = a * u e) →
      ∀ c, 0 ≤ c → c < p.dims.ncells → Spec.div m w c = 0 := fun w a hw c c0 c1 => by
    rw [div_congr hc (v := fun e => a * u e) hw c0 c1, div_smul, uni_div h hu c0 c1, mul_zero]
  have vt : ∀ (w : Int → ℝ), (∀ v, 0 ≤ v → v < p.dims.nvertices → w v = 0) →
      ∀ e, 0 ≤ e → e < p.dims.nedges → w (Spec.vertOf m e 1) = 0 ∧ w (Spec.vertOf m e 0) = 0 :=
    fun w hw e e0 e1 => by
      obtain ⟨a, b⟩ := hc.voe e e0 e1 0 (by omega) (by omega)
      obtain ⟨a', b'⟩ := hc.voe e e0 e1 1 (by omega) (by omega)
      exact ⟨hw _ a' b', hw _ a b⟩
  have lz : ∀ e, 0 ≤ e → e < p.dims.nedges → Spec.vecLap m u e = 0 := fun e e0 e1 => by
    obtain ⟨a, b⟩ := vt _ (fun v => uni_curl h hu (v := v)) e e0 e1
    unfold Spec.vecLap
    rw [gz _ 0 (fun c => uni_div h hu (c := c)) e e0 e1, a, b]
    simp
  refine ⟨fun c c0 c1 => ?_, fun e e0 e1 => ?_, fun c c0 c1 => ?_⟩
  · unfold Spec.thicknessTend
    rw [flux _ H (fun e a b => by rw [hm e a b]) c c0 c1]
    simp
  · have hpv : ∀ e, 0 ≤ e → e < p.dims.nedges → Spec.vmean m (Spec.pv m x u) e = f / H := by
      intro e e0 e1
      have one : ∀ v, 0 ≤ v → v < p.dims.nvertices → Spec.pv m x u v = f / H := fun v v0 v1 => by
        unfold Spec.pv
        rw [uni_curl h hu v0 v1, hf v v0 v1, kiteMean_congr hc (v := fun _ => H) hx v0 v1,
          spec_kiteMean h.toGeo _ v0 v1]
        simp only [Mv]
        rw [zero_add]; congr 1; ring
      obtain ⟨a, b⟩ := hc.voe e e0 e1 0 (by omega) (by omega)
      obtain ⟨a', b'⟩ := hc.voe e e0 e1 1 (by omega) (by omega)
      unfold Spec.vmean
      rw [one _ a b, one _ a' b']; ring
    have hpvF : Spec.pvFlux m (Spec.vmean m (Spec.pv m x u)) (fun e => Spec.mean m x e * u e) e =
        compAt (-(f * Complex.I) * z) (angE e) := by
      rw [pvFlux_uniform hc _ hpv e0 e1]
      have ht : Spec.tang m (fun e => Spec.mean m x e * u e) e = H * Spec.tang m u e := by
        unfold Spec.tang
        rw [Finset.mul_sum]
        refine Finset.sum_congr rfl fun j hj => ?_
        rw [Finset.mem_Ico] at hj
        obtain ⟨a, b⟩ := hc.eoe e e0 e1 j hj.1 hj.2
        beta_reduce
        rw [hm _ a b]; ring
      rw [ht, uni_tang h hu e0 e1, ← mul_assoc, div_mul_cancel₀ _ H0, ← compAt_smul]
      congr 1; ring
    obtain ⟨a, b⟩ := vt _ (fun v => uni_curl h hu (v := v)) e e0 e1
    obtain ⟨a', b'⟩ := vt _ (cz _ lz) e e0 e1
    unfold Spec.velocityTend Spec.gradT
    rw [if_pos hp, hpvF, gz _ _ (fun c => uni_kinetic h hu (c := c)) e e0 e1, gz _ _ hx e e0 e1,
      gz _ 0 (fun c => uni_div h hu (c := c)) e e0 e1, a, b, gz _ 0 (dz _ lz) e e0 e1, a', b']
    simp
  · have g0 := gz _ _ hq
    have e3 := dz (fun e => Spec.mean m x e * Spec.grad m (fun i => s i / x i) e)
      (fun e a b => by rw [g0 e a b, mul_zero])
    unfold Spec.tracerTend
    rw [flux _ (H * (q / H)) (fun e a b => by rw [hm e a b, hqm e a b]) c c0 c1,
      dz _ (fun e a b => by rw [g0 e a b, mul_zero]) c c0 c1,
      dz _ (fun e a b => by rw [gz _ 0 e3 e a b, mul_zero]) c c0 c1]
    simp

end

/-! ### Along a step -/

/-- thickness `H`, velocity `z` and tracers `T`, uniform in each layer -/
structure Uni (d : Dims) (H : Int → ℝ) (z : Int → ℂ) (T : Int → Int → ℝ) (x : Fld ℝ) : Prop where
  h : ∀ c k, 0 ≤ c → c < d.ncells → 0 ≤ k → k < d.nlayers → x.h c k = H k
  vn : ∀ e k, 0 ≤ e → e < d.nedges → 0 ≤ k → k < d.nlayers → x.vn e k = compAt (z k) (angE e)
  tr : ∀ l c k, 0 ≤ l → l < d.ntracers → 0 ≤ c → c < d.ncells → 0 ≤ k → k < d.nlayers →
    x.tr l c k = T l k

theorem Uni.axpy {d : Dims} {H z T} {x y : Fld ℝ} {w : Int → ℂ} (hx : Uni d H z T x)
    (hy : Uni d 0 w 0 y) (a : ℝ) : Uni d H (fun k => z k + a * w k) T (x.axpy a y) := by
  refine ⟨fun c k a b e f => ?_, fun c k a b e f => ?_, fun l c k l0 l1 a b e f => ?_⟩
  · show x.h c k + _ * y.h c k = _
    rw [hx.h c k a b e f, hy.h c k a b e f]; simp
  · show x.vn c k + _ * y.vn c k = _
    rw [hx.vn c k a b e f, hy.vn c k a b e f, compAt_add, compAt_smul]
  · show x.tr l c k + _ * y.tr l c k = _
    rw [hx.tr l c k l0 l1 a b e f, hy.tr l c k l0 l1 a b e f]; simp

theorem Uni.scale {d : Dims} {y : Fld ℝ} {w : Int → ℂ} (hy : Uni d 0 w 0 y) (a : ℝ) :
    Uni d 0 (fun k => a * w k) 0 (y.map fun v => v * a) := by
  refine ⟨fun c k a b e f => ?_, fun c k a b e f => ?_, fun l c k l0 l1 a b e f => ?_⟩
  · show y.h c k * _ = _
    rw [hy.h c k a b e f]; simp
  · show y.vn c k * _ = _
    rw [hy.vn c k a b e f, compAt_smul, mul_comm]
  · show y.tr l c k * _ = _
    rw [hy.tr l c k l0 l1 a b e f]; simp

theorem Uni.of_eq {d : Dims} {H T} {x : Fld ℝ} {z w : Int → ℂ} (hx : Uni d H z T x)
    (e : ∀ k, w k = z k) : Uni d H w T x := by
  rwa [show w = z from funext e]

theorem uni_zero (d : Dims) : Uni d 0 0 0 (zeroFld : Fld ℝ) := by
  constructor <;> intros <;> simp [zeroFld, compAt]

section

variable (h : Geo2 p.nx p.ny p.dims.nlayers dc m.mesh) (hc : ConnOK p.dims m) {sw : SWModel ℝ}
  (hp : sw.en_pv = true) (hd : sw.prm.disable_vn = false) {f : ℝ}
  (hf : ∀ v, 0 ≤ v → v < p.dims.nvertices → m.real .f_vertex 0 v 0 = f) {H : Int → ℝ}
  (H0 : ∀ k, 0 ≤ k → k < p.dims.nlayers → H k ≠ 0) {T : Int → Int → ℝ}
include h hc hp hd hf H0

/-- `compute_tendency` for a uniform state -/
theorem Uni.tend {z w : Int → ℂ} {s o : Fld ℝ} (hs : Uni p.dims H z T s) (ho : Uni p.dims 0 w 0 o)
    (mode : AddMode) (t : ℝ) : Uni p.dims 0
      (fun k => (if mode = .replace then 0 else w k) + -(f * Complex.I) * z k) 0
      ((genSys p.dims sw noHook m).tend mode t o s) := by
  obtain ⟨th, tv, tt⟩ := tend_val (m := m) p.dims sw mode t o s
  have key := fun l k (l0 : 0 ≤ l) (l1 : l < p.dims.ntracers) (k0 : 0 ≤ k)
    (k1 : k < p.dims.nlayers) => uni_tend h hc (u := fun i => s.vn i k) (z := z k)
    (fun e a b => hs.vn e k a b k0 k1) hp hf (H0 k k0 k1) (x := fun i => s.h i k)
    (s := fun i => s.tr l i k) (q := T l k) (fun c a b => hs.h c k a b k0 k1)
    (fun c a b => hs.tr l c k l0 l1 a b k0 k1) k
  have key' := fun k (k0 : 0 ≤ k) (k1 : k < p.dims.nlayers) => uni_tend h hc (u := fun i => s.vn i k)
    (z := z k) (fun e a b => hs.vn e k a b k0 k1) hp hf (H0 k k0 k1) (x := fun i => s.h i k)
    (s := fun i => 0) (q := 0) (fun c a b => hs.h c k a b k0 k1) (fun c a b => rfl) k
  refine ⟨fun c k a b k0 k1 => ?_, fun c k a b k0 k1 => ?_, fun l c k l0 l1 a b k0 k1 => ?_⟩
  · rw [th, (key' k k0 k1).1 c a b, ho.h c k a b k0 k1]
    simp
  · rw [tv, (key' k k0 k1).2.1 c a b, ho.vn c k a b k0 k1, compAt_add]
    cases mode <;> simp [hd, compAt]
  · rw [tt, (key l k l0 l1 k0 k1).2.2 c a b, ho.tr l c k l0 l1 a b k0 k1]
    simp

/-- tendency and state after part of a step from velocity `w`, with polynomials `q` -/
structure UniAlong (d : Dims) (f dt : ℝ) (H : Int → ℝ) (T : Int → Int → ℝ) (w : Int → ℂ)
    (q : ℝ[X] × ℝ[X]) (x : Fld ℝ × Fld ℝ) : Prop where
  tn : ∃ z : Int → ℂ, Uni d 0 z 0 x.1 ∧ ∀ k, dt * z k = aeval (-(f * dt * Complex.I)) q.1 * w k
  st : Uni d H (fun k => aeval (-(f * dt * Complex.I)) q.2 * w k) T x.2

theorem UniAlong.lsrk {dt : ℝ} {w : Int → ℂ} {q : ℝ[X] × ℝ[X]} {x : Fld ℝ × Fld ℝ}
    (hx : UniAlong p.dims f dt H T w q x) (K : Coef ℝ) (t : ℝ) (i : Nat) :
    UniAlong p.dims f dt H T w
      (C (K.a i) * q.1 + X * q.2, q.2 + C (K.b i) * (C (K.a i) * q.1 + X * q.2))
      ((genSys p.dims sw noHook m).lsrkStage K t dt i x) := by
  obtain ⟨⟨z, hz, ez⟩, hs⟩ := hx
  have Tn := hs.tend h hc hp hd hf H0 (hz.scale (K.a i)) .increment (t + K.c i * dt)
  simp only [reduceCtorEq, if_false] at Tn
  have e : ∀ k, (dt : ℂ) * (K.a i * z k + -(f * Complex.I) * (aeval (-(f * dt * Complex.I)) q.2 * w k)) =
      aeval (-(f * dt * Complex.I)) (C (K.a i) * q.1 + X * q.2) * w k := fun k => by
    simp only [map_add, map_mul, aeval_C, aeval_X, Complex.coe_algebraMap]
    linear_combination (K.a i : ℂ) * ez k
  refine ⟨⟨_, Tn, e⟩, ?_⟩
  have S := hs.axpy Tn (dt * K.b i)
  refine S.of_eq fun k => ?_
  have := e k
  simp only [map_add, map_mul, aeval_C, aeval_X, Complex.coe_algebraMap] at this ⊢
  push_cast
  linear_combination (-(K.b i : ℂ)) * this

theorem UniAlong.lsrk_fold {dt : ℝ} {w : Int → ℂ} (K : Coef ℝ) (t : ℝ) (L : List Nat) :
    ∀ {q : ℝ[X] × ℝ[X]} {x : Fld ℝ × Fld ℝ}, UniAlong p.dims f dt H T w q x →
    UniAlong p.dims f dt H T w
      (L.foldl (fun (q : ℝ[X] × ℝ[X]) i => (C (K.a i) * q.1 + X * q.2,
        q.2 + C (K.b i) * (C (K.a i) * q.1 + X * q.2))) q)
      (L.foldl (fun x i => (genSys p.dims sw noHook m).lsrkStage K t dt i x) x) := by
  induction L with
  | nil => exact fun h => h
  | cons i L ih => exact fun hx => ih (hx.lsrk h hc hp hd hf H0 K t i)

theorem UniAlong.rk4 {dt : ℝ} {w : Int → ℂ} {s : Fld ℝ} (hs0 : Uni p.dims H w T s)
    {q : ℝ[X] × ℝ[X]} {x : Fld ℝ × Fld ℝ}
    (hx : UniAlong p.dims f dt H T w q x) (K : Coef ℝ) (t : ℝ) (i : Nat) :
    UniAlong p.dims f dt H T w
      (if i < 3 then X * (1 + C (K.a i) * q.1) else q.1, q.2 + C (K.b i) * q.1)
      ((genSys p.dims sw noHook m).rk4Stage K t dt s i x) := by
  obtain ⟨⟨z, hz, ez⟩, hs⟩ := hx
  have mid := hs0.axpy hz (dt * K.a i)
  have Tn := mid.tend h hc hp hd hf H0 hz .replace (t + K.c i * dt)
  simp only [if_true, zero_add] at Tn
  constructor
  · by_cases hi : i < 3
    · refine ⟨fun k => -(f * Complex.I) * (w k + (dt * K.a i : ℝ) * z k), ?_, fun k => ?_⟩
      · have e : ((genSys p.dims sw noHook m).rk4Stage K t dt s i x).1 =
            (genSys p.dims sw noHook m).tend .replace (t + K.c i * dt) x.1
              (s.axpy (dt * K.a i) x.1) := if_pos hi
        rw [e]
        exact Tn
      · rw [if_pos hi]
        simp only [map_add, map_mul, map_one, aeval_C, aeval_X, Complex.coe_algebraMap]
        push_cast
        linear_combination (-(f * dt * Complex.I) * K.a i) * ez k
    · refine ⟨z, ?_, fun k => by rw [if_neg hi, ez]⟩
      have e : ((genSys p.dims sw noHook m).rk4Stage K t dt s i x).1 = x.1 := if_neg hi
      rw [e]
      exact hz
  · have S := hs.axpy hz (dt * K.b i)
    refine S.of_eq fun k => ?_
    simp only [map_add, map_mul, aeval_C, Complex.coe_algebraMap]
    push_cast
    linear_combination (-(K.b i : ℂ)) * ez k

theorem UniAlong.rk4_fold {dt : ℝ} {w : Int → ℂ} {s : Fld ℝ} (hs0 : Uni p.dims H w T s)
    (K : Coef ℝ) (t : ℝ) (L : List Nat) :
    ∀ {q : ℝ[X] × ℝ[X]} {x : Fld ℝ × Fld ℝ}, UniAlong p.dims f dt H T w q x →
    UniAlong p.dims f dt H T w
      (L.foldl (fun (q : ℝ[X] × ℝ[X]) i =>
        (if i < 3 then X * (1 + C (K.a i) * q.1) else q.1, q.2 + C (K.b i) * q.1)) q)
      (L.foldl (fun x i => (genSys p.dims sw noHook m).rk4Stage K t dt s i x) x) := by
  induction L with
  | nil => exact fun h => h
  | cons i L ih => exact fun hx => ih (hx.rk4 h hc hp hd hf H0 hs0 K t i)

/-- a step from a uniform state; the old tendency must be uniform too, as it is zero when allocated -/
theorem uni_step (stp : Stepper) (t dt : ℝ) {w : Int → ℂ} {x : Fld ℝ × Fld ℝ}
    (ho : ∃ z, Uni p.dims 0 z 0 x.1) (hx : Uni p.dims H w T x.2) :
    (∃ z, Uni p.dims 0 z 0 ((genSys p.dims sw noHook m).step t dt x stp).1) ∧
    Uni p.dims H (fun k => aeval (-(f * dt * Complex.I)) (stabPoly stp) * w k) T
      ((genSys p.dims sw noHook m).step t dt x stp).2 := by
  cases stp with
  | lsrk n =>
    rcases Nat.eq_zero_or_pos n with rfl | hn
    · refine ⟨by simpa [Sys.step, Sys.lsrkStep] using ho, ?_⟩
      simpa [stabPoly, Sys.step, Sys.lsrkStep] using hx
    · obtain ⟨n, rfl⟩ : ∃ k, n = k + 1 := ⟨n - 1, by omega⟩
      have e : (genSys p.dims sw noHook m).step t dt x (.lsrk (n + 1)) =
          (List.range (n + 1)).foldl (fun y i => (genSys p.dims sw noHook m).lsrkStage
            (lsrkCoef (n + 1)) t dt i y) (zeroFld, x.2) := by
        show (List.range (n + 1)).foldl _ _ = _
        rw [List.range_succ_eq_map, List.foldl_cons, List.foldl_cons]
        congr 1
        unfold Sys.lsrkStage
        have : (x.1.map fun v => v * (lsrkCoef (n + 1)).a 0) =
            (zeroFld.map fun v => v * (lsrkCoef (n + 1)).a 0 : Fld ℝ) := by
          simp [Fld.map, lsrk_a0]
        rw [this]
      have init : UniAlong p.dims f dt H T w ((0, 1) : ℝ[X] × ℝ[X]) (zeroFld, x.2) :=
        ⟨⟨0, uni_zero _, by simp⟩, by simpa using hx⟩
      have key := UniAlong.lsrk_fold h hc hp hd hf H0 (lsrkCoef (n + 1)) t (List.range (n + 1)) init
      rw [← e] at key
      obtain ⟨⟨z, hz, -⟩, hs⟩ := key
      exact ⟨⟨z, hz⟩, hs⟩
  | rk4 =>
    obtain ⟨z, hz⟩ := ho
    have Tn := hx.tend h hc hp hd hf H0 hz .replace t
    simp only [if_true, zero_add] at Tn
    have init : UniAlong p.dims f dt H T w ((X, 1) : ℝ[X] × ℝ[X])
        ((genSys p.dims sw noHook m).tend .replace t x.1 x.2, x.2) :=
      ⟨⟨_, Tn, fun k => by simp only [aeval_X]; ring⟩, by simpa using hx⟩
    obtain ⟨⟨z, hz, -⟩, hs⟩ := UniAlong.rk4_fold h hc hp hd hf H0 hx rk4Coef t (List.range 4) init
    exact ⟨⟨z, hz⟩, hs⟩

theorem uni_run (stp : Stepper) (sched : List (ℝ × ℝ)) : ∀ {w : Int → ℂ} {x : Fld ℝ × Fld ℝ},
    (∃ z, Uni p.dims 0 z 0 x.1) → Uni p.dims H w T x.2 →
    Uni p.dims H (fun k => (sched.map fun a => aeval (-(f * a.2 * Complex.I)) (stabPoly stp)).prod * w k) T
      ((genSys p.dims sw noHook m).run stp sched x).2 := by
  induction sched with
  | nil => intro w x _ hx; exact hx.of_eq fun k => by simp
  | cons a L ih =>
    intro w x ho hx
    obtain ⟨s1, s2⟩ := uni_step h hc hp hd hf H0 stp a.1 a.2 ho hx
    have := ih s1 s2
    simp only [List.map_cons, List.prod_cons]
    exact this.of_eq fun k => by ring

end

/-! ### C95 -/

/-- A uniform flow over layers of uniform thickness, with uniform tracers, under rotation: after any run
of any stepper, with viscosity and diffusion of any size, thickness and tracers are unchanged and the
flow is still uniform.  The velocity, as a complex number, is multiplied in each step by the stability
polynomial of the stepper at `-i f dt`. -/
theorem C95_inertial_oscillation (hv : RunValid p) (hnx : 2 ≤ p.nx) (hny : 2 ≤ p.ny) (hdc : 0 < dc)
    {prm : Params ℝ} (n2 : prm.disable_vn = false) (hr : Ready p dc prm m) {H : Int → ℝ}
    (H0 : ∀ k, 0 ≤ k → k < p.dims.nlayers → H k ≠ 0) {z : Int → ℂ} {T : Int → Int → ℝ}
    (hh : ∀ c k, 0 ≤ c → c < p.dims.ncells → 0 ≤ k → k < p.dims.nlayers →
      m.real (.h_cell .state) 0 c k = H k)
    (hu : ∀ e k, 0 ≤ e → e < p.dims.nedges → 0 ≤ k → k < p.dims.nlayers →
      m.real (.vn_edge .state) 0 e k = compAt (z k) (m.real .angle_edge 0 e 0))
    (ht : ∀ l c k, 0 ≤ l → l < p.dims.ntracers → 0 ≤ c → c < p.dims.ncells → 0 ≤ k →
      k < p.dims.nlayers → m.real (.tr_cell .state) l c k = T l k)
    {stp : Stepper} {sched : List (ℝ × ℝ)} {split : Bool} {m1 : Mem ℝ}
    (he : Exec p.dims (stp.ctor p.dims ++ stp.run p.dims ⟨defaultKernels p.dims.vl, split⟩
      (SWModel.ofParams prm) sched) m m1) :
    (∀ c k, 0 ≤ c → c < p.dims.ncells → 0 ≤ k → k < p.dims.nlayers →
      m1.real (.h_cell .state) 0 c k = H k) ∧
    (∀ e k, 0 ≤ e → e < p.dims.nedges → 0 ≤ k → k < p.dims.nlayers →
      m1.real (.vn_edge .state) 0 e k =
        compAt ((sched.map fun a => aeval (-(prm.f0 * a.2 * Complex.I)) (stabPoly stp)).prod * z k)
          (m.real .angle_edge 0 e 0)) ∧
    (∀ l c k, 0 ≤ l → l < p.dims.ntracers → 0 ≤ c → c < p.dims.ncells → 0 ≤ k →
      k < p.dims.nlayers → m1.real (.tr_cell .state) l c k = T l k) := by
  obtain ⟨hd, hc⟩ := ready_ok hv hr
  have g := Ready.geo2 hr hv.toValid hnx hny hdc
  have hf := (hr.hex hv.toValid).2.1
  have ang : ∀ e, 0 ≤ e → e < p.dims.nedges → m.real .angle_edge 0 e 0 = angE e :=
    (hr.hex hv.toValid).1.angle_edge
  obtain ⟨-, -, v⟩ := (genSetup hd hc (hookOK_noHook (noHook_ofParams prm) p.dims m)).newRun he
  have init : Uni p.dims H z T (m.fld .state) :=
    ⟨hh, fun e k a b k0 k1 => by
      show m.real (.vn_edge .state) 0 e k = _
      rw [hu e k a b k0 k1, ang e a b], ht⟩
  have key := uni_run g hc (sw := SWModel.ofParams prm) rfl n2 hf H0 stp sched
    (x := (zeroFld, m.fld .state)) ⟨0, uni_zero _⟩ init
  refine ⟨fun c k a b k0 k1 => (v.h c k a b k0 k1).trans (key.h c k a b k0 k1),
    fun e k a b k0 k1 => ?_,
    fun l c k l0 l1 a b k0 k1 => (v.tr l c k l0 l1 a b k0 k1).trans (key.tr l c k l0 l1 a b k0 k1)⟩
  rw [ang e a b]
  exact (v.vn e k a b k0 k1).trans (key.vn e k a b k0 k1)

/-- With the classical stepper the square of the speed changes in each step by
`1 - (f dt)^6 / 72 + (f dt)^8 / 576`, whatever the direction; it does not grow if `(f dt)^2 ≤ 8`, and it
grows if `(f dt)^2 > 8`. -/
theorem C95_inertial_speed (f dt : ℝ) (z : ℂ) :
    Complex.normSq (aeval (-(f * dt * Complex.I)) (stabPoly .rk4) * z) =
      (1 - (f * dt) ^ 6 / 72 + (f * dt) ^ 8 / 576) * Complex.normSq z ∧
    ((f * dt) ^ 2 ≤ 8 → Complex.normSq (aeval (-(f * dt * Complex.I)) (stabPoly .rk4) * z) ≤
      Complex.normSq z) ∧
    (8 < (f * dt) ^ 2 → z ≠ 0 → Complex.normSq z <
      Complex.normSq (aeval (-(f * dt * Complex.I)) (stabPoly .rk4) * z)) := by
  have e : Complex.normSq (aeval (-(f * dt * Complex.I)) (stabPoly .rk4) * z) =
      (1 - (f * dt) ^ 6 / 72 + (f * dt) ^ 8 / 576) * Complex.normSq z := by
    rw [Complex.normSq_mul]
    have := rk4_imag (-(f * dt))
    rw [show (((-(f * dt) : ℝ) : ℂ) * Complex.I) = -(f * dt * Complex.I) by push_cast; ring] at this
    rw [this]; ring
  have hfac : 1 - (f * dt) ^ 6 / 72 + (f * dt) ^ 8 / 576 =
      1 + ((f * dt) ^ 2) ^ 3 / 576 * ((f * dt) ^ 2 - 8) := by ring
  have n0 := Complex.normSq_nonneg z
  have s0 := sq_nonneg (f * dt)
  have c0 : 0 ≤ ((f * dt) ^ 2) ^ 3 / 576 := by positivity
  refine ⟨e, fun hle => ?_, fun hlt hz => ?_⟩
  · rw [e, hfac]
    nlinarith [mul_nonneg c0 n0]
  · rw [e, hfac]
    have zp : 0 < Complex.normSq z := Complex.normSq_pos.2 hz
    have cp : 0 < ((f * dt) ^ 2) ^ 3 / 576 := by
      have : 0 < (f * dt) ^ 2 := by linarith
      positivity
    nlinarith [mul_pos (mul_pos cp (sub_pos.2 hlt)) zp]

theorem rk4_exp (x : ℂ) : aeval x (stabPoly .rk4) =
    ∑ n ∈ Finset.range 5, x ^ n / (n.factorial : ℂ) := by
  have e : stabPoly .rk4 = 1 + X + C (1 / 2) * X ^ 2 + C (1 / 6) * X ^ 3 + C (1 / 24) * X ^ 4 := by
    refine Polynomial.funext fun z => ?_
    rw [rk4_eval]; simp; ring
  rw [e]
  simp only [map_add, map_mul, map_one, map_pow, aeval_X, aeval_C, Finset.sum_range_succ,
    Finset.sum_range_zero, Nat.factorial]
  simp
  ring

/-- The stability polynomial has value one at zero. -/
theorem stabPoly_zero (stp : Stepper) : aeval (0 : ℂ) (stabPoly stp) = 1 := by
  cases stp with
  | lsrk n =>
    have key : ∀ (K : Coef ℝ) (L : List Nat) (q : ℝ[X] × ℝ[X]), aeval (0 : ℂ) q.1 = 0 →
        aeval (0 : ℂ) q.2 = 1 → aeval (0 : ℂ) (L.foldl (fun (q : ℝ[X] × ℝ[X]) i =>
          (C (K.a i) * q.1 + X * q.2, q.2 + C (K.b i) * (C (K.a i) * q.1 + X * q.2))) q).2 = 1 := by
      intro K L
      induction L with
      | nil => exact fun q _ h => h
      | cons i L ih =>
        intro q h1 h2
        refine ih _ ?_ ?_
        · simp [h1]
        · simp [h1, h2]
    exact key _ _ _ (by simp) (by simp)
  | rk4 => rw [rk4_exp]; simp [Finset.sum_range_succ]

/-- Without rotation a uniform flow does not change. -/
theorem C95_no_rotation (stp : Stepper) (sched : List (ℝ × ℝ)) (z : ℂ) :
    (sched.map fun a => aeval (-(((0 : ℝ) : ℂ) * a.2 * Complex.I)) (stabPoly stp)).prod * z = z := by
  have : (sched.map fun a => aeval (-(((0 : ℝ) : ℂ) * a.2 * Complex.I)) (stabPoly stp)).prod = 1 := by
    refine List.prod_eq_one fun y hy => ?_
    obtain ⟨a, -, rfl⟩ := List.mem_map.1 hy
    rw [Complex.ofReal_zero, zero_mul, zero_mul, neg_zero, stabPoly_zero]
  rw [this, one_mul]

theorem compAt_le (z : ℂ) (θ : ℝ) : |compAt z θ| ≤ ‖z‖ := by
  have : compAt z θ = (z * Complex.exp (-θ * Complex.I)).re := by
    rw [Complex.mul_re, ← Complex.ofReal_neg, Complex.exp_ofReal_mul_I_re, Complex.exp_ofReal_mul_I_im]
    simp [compAt]
  rw [this]
  refine (Complex.abs_re_le_norm _).trans ?_
  rw [norm_mul, ← Complex.ofReal_neg, Complex.norm_exp_ofReal_mul_I, mul_one]

/-- powers of a factor close to a factor of modulus one -/
theorem pow_close {a b : ℂ} (ha : ‖a‖ ≤ 1) (hb : ‖b‖ ≤ 1) (n : ℕ) :
    ‖a ^ n - b ^ n‖ ≤ n * ‖a - b‖ := by
  induction n with
  | zero => simp
  | succ n ih =>
    have e : a ^ (n + 1) - b ^ (n + 1) = a * (a ^ n - b ^ n) + (a - b) * b ^ n := by ring
    rw [e]
    refine (norm_add_le _ _).trans ?_
    rw [norm_mul, norm_mul, norm_pow]
    have h1 : ‖a‖ * ‖a ^ n - b ^ n‖ ≤ ‖a ^ n - b ^ n‖ := mul_le_of_le_one_left (norm_nonneg _) ha
    have h2 : ‖a - b‖ * ‖b‖ ^ n ≤ ‖a - b‖ :=
      mul_le_of_le_one_right (norm_nonneg _) (pow_le_one₀ (norm_nonneg _) hb)
    push_cast
    linarith

/-- With `N` steps of size `dt` of the classical stepper, `|f dt| ≤ √8`, the velocity of C95 is within
`N |f dt|^5 / 60` of the inertial oscillation `exp (-i f t)` at time `t = N dt`, relative to its speed. -/
theorem C95_inertial_accuracy (hv : RunValid p) (hnx : 2 ≤ p.nx) (hny : 2 ≤ p.ny) (hdc : 0 < dc)
    {prm : Params ℝ} (n2 : prm.disable_vn = false) (hr : Ready p dc prm m) {H : Int → ℝ}
    (H0 : ∀ k, 0 ≤ k → k < p.dims.nlayers → H k ≠ 0) {z : Int → ℂ} {T : Int → Int → ℝ}
    (hh : ∀ c k, 0 ≤ c → c < p.dims.ncells → 0 ≤ k → k < p.dims.nlayers →
      m.real (.h_cell .state) 0 c k = H k)
    (hu : ∀ e k, 0 ≤ e → e < p.dims.nedges → 0 ≤ k → k < p.dims.nlayers →
      m.real (.vn_edge .state) 0 e k = compAt (z k) (m.real .angle_edge 0 e 0))
    (ht : ∀ l c k, 0 ≤ l → l < p.dims.ntracers → 0 ≤ c → c < p.dims.ncells → 0 ≤ k →
      k < p.dims.nlayers → m.real (.tr_cell .state) l c k = T l k)
    {sched : List (ℝ × ℝ)} {dt : ℝ} (hs : ∀ q ∈ sched, q.2 = dt) (hf : (prm.f0 * dt) ^ 2 ≤ 8)
    {split : Bool} {m1 : Mem ℝ}
    (he : Exec p.dims (Stepper.rk4.ctor p.dims ++ Stepper.rk4.run p.dims
      ⟨defaultKernels p.dims.vl, split⟩ (SWModel.ofParams prm) sched) m m1) :
    ∀ e k, 0 ≤ e → e < p.dims.nedges → 0 ≤ k → k < p.dims.nlayers →
      |m1.real (.vn_edge .state) 0 e k - compAt
        (Complex.exp (-(prm.f0 * (sched.length * dt)) * Complex.I) * z k) (m.real .angle_edge 0 e 0)| ≤
      sched.length * (|prm.f0 * dt| ^ 5 / 60) * ‖z k‖ := by
  intro e k e0 e1 k0 k1
  rw [(C95_inertial_oscillation hv hnx hny hdc n2 hr H0 hh hu ht he).2.1 e k e0 e1 k0 k1]
  set P : ℂ := aeval (-(prm.f0 * dt * Complex.I)) (stabPoly .rk4) with hP
  set x : ℂ := -(prm.f0 * dt * Complex.I) with hx
  have hprod : (sched.map fun a => aeval (-(prm.f0 * a.2 * Complex.I)) (stabPoly .rk4)).prod =
      P ^ sched.length := by
    rw [List.prod_eq_pow_card _ P, List.length_map]
    intro y hy
    obtain ⟨a, ha, rfl⟩ := List.mem_map.1 hy
    rw [hs a ha]
  have hexp : Complex.exp (-(prm.f0 * (sched.length * dt)) * Complex.I) =
      Complex.exp x ^ sched.length := by
    rw [← Complex.exp_nat_mul]; congr 1; rw [hx]; ring
  have nx : ‖x‖ = |prm.f0 * dt| := by
    rw [hx, norm_neg, norm_mul, Complex.norm_I, mul_one, ← Complex.ofReal_mul, Complex.norm_real,
      Real.norm_eq_abs]
  have P1 : ‖P‖ ≤ 1 := by
    have := (C95_inertial_speed prm.f0 dt 1).2.1 hf
    rw [mul_one, Complex.normSq_one, Complex.normSq_eq_norm_sq, ← hx, ← hP] at this
    nlinarith [norm_nonneg P]
  have E1 : ‖Complex.exp x‖ ≤ 1 := by
    rw [Complex.norm_exp, hx]; simp
  have d : ‖P - Complex.exp x‖ ≤ |prm.f0 * dt| ^ 5 / 60 := by
    have b : ‖x‖ ≤ 3 := by
      rw [nx]
      refine abs_le_of_sq_le_sq (by linarith) (by norm_num)
    have := Complex.exp_bound' (x := x) (n := 5) (by rw [div_le_iff₀ (by positivity)]; norm_num; linarith)
    rw [← rk4_exp, norm_sub_rev, nx] at this
    refine this.trans (le_of_eq ?_)
    norm_num [Nat.factorial]
    ring
  rw [hprod, hexp]
  have sub : compAt (P ^ sched.length * z k) (m.real .angle_edge 0 e 0) -
      compAt (Complex.exp x ^ sched.length * z k) (m.real .angle_edge 0 e 0) =
      compAt ((P ^ sched.length - Complex.exp x ^ sched.length) * z k) (m.real .angle_edge 0 e 0) := by
    simp [compAt]; ring
  rw [sub]
  refine (compAt_le _ _).trans ?_
  rw [norm_mul]
  refine mul_le_mul_of_nonneg_right ((pow_close P1 E1 _).trans ?_) (norm_nonneg _)
  exact mul_le_mul_of_nonneg_left d (Nat.cast_nonneg _)

/-- two tracers, different flows and thickness in each layer, viscosity and diffusion on, ten steps -/
example (stp : Stepper) : ∃ (prm : Params ℝ) (m m1 : Mem ℝ) (sched : List (ℝ × ℝ)),
    RunValid p46t ∧ 2 ≤ p46t.nx ∧ 2 ≤ p46t.ny ∧ Ready p46t (1 / 4) prm m ∧ prm.disable_vn = false ∧
    0 < prm.visc_del2 ∧ prm.f0 = 2 ∧ (∀ k : Int, 0 ≤ k → k < p46t.dims.nlayers → (1 + k : ℝ) ≠ 0) ∧
    (∀ c k, m.real (.h_cell .state) 0 c k = 1 + k) ∧
    (∀ e k, 0 ≤ e → e < p46t.dims.nedges → m.real (.vn_edge .state) 0 e k =
      compAt (1 + k * Complex.I) (m.real .angle_edge 0 e 0)) ∧
    (∀ l c k, m.real (.tr_cell .state) l c k = l - k) ∧ sched.length = 10 ∧
    (∀ q ∈ sched, q.2 = 1) ∧ (prm.f0 * 1) ^ 2 ≤ 8 ∧
    Exec p46t.dims (stp.ctor p46t.dims ++ stp.run p46t.dims
      ⟨defaultKernels p46t.dims.vl, true⟩ (SWModel.ofParams prm) sched) m m1 := by
  obtain ⟨prm, hprm⟩ : ∃ q : Params ℝ, q = ⟨2, 9, 1, 1, 1, 1, false, false⟩ := ⟨_, rfl⟩
  obtain ⟨m, m1, hr, hx, he⟩ := exists_newRun p46t_run (1 / 4) prm (noHook_ofParams prm) true
    stp (List.replicate 10 (0, 1)) ⟨fun c k => 1 + k,
      fun e k => compAt (1 + k * Complex.I) (angE e), fun l c k => l - k⟩
  refine ⟨prm, m, m1, _, p46t_run, by simp [p46t], by simp [p46t], hr, by rw [hprm], by norm_num [hprm],
    by rw [hprm], fun k k0 _ => by positivity, fun c k => congrFun (congrFun (congrArg Fld.h hx) c) k,
    fun e k e0 e1 => ?_, fun l c k => congrFun (congrFun (congrFun (congrArg Fld.tr hx) l) c) k,
    List.length_replicate, fun q hq => by rw [List.eq_of_mem_replicate hq], by rw [hprm]; norm_num, he⟩
  rw [(hr.hex p46t_run.toValid).1.angle_edge e e0 e1]
  exact congrFun (congrFun (congrArg Fld.vn hx) e) k

end Props
end
end Omega
