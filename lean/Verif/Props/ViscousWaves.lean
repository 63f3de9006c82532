import Verif.Props.ViscousStability
import Verif.Props.DiffusionSharp
import Verif.Props.Vorticity

/-!
# C114: what viscosity does to gravity waves, and where it becomes unstable

C106 gives a step up to which small disturbances of rest do not grow.  Here is the exact effect of a step on every
disturbance by a wave without vorticity, and with it a step beyond which the shortest wave grows.
-/

set_option linter.unusedVariables false
set_option linter.unusedSectionVars false

namespace Omega
noncomputable section
namespace Props

open Prog Model Refine Hex Polynomial

variable {p : MeshParams} {dc : ℝ} {m : Mem ℝ}

/-- A wave of potential flow with damping: `α` is the amplitude of the thickness, `β` that of the velocity
potential, `lam` the eigenvalue of minus the Laplacian and `mu` the damping of the velocity. -/
def waveOp (g H lam mu : ℝ) : Module.End ℝ (ℝ × ℝ) where
  toFun z := (H * lam * z.2, -(g * z.1) - mu * z.2)
  map_add' x y := by ext <;> simp <;> ring
  map_smul' a x := by ext <;> simp <;> ring

/-- the disturbance is `α φ` in the thickness and `β ∇φ` in the velocity -/
def IsPotential (p : MeshParams) (m : Mem ℝ) (φ : Int → ℝ) (w : (Int → ℝ) × (Int → ℝ)) (z : ℝ × ℝ) : Prop :=
  (∀ c, 0 ≤ c → c < p.dims.ncells → w.1 c = z.1 * φ c) ∧
    ∀ e, 0 ≤ e → e < p.dims.nedges → w.2 e = z.2 * Spec.grad m φ e

section

variable (h : Geo2 p.nx p.ny p.dims.nlayers dc m.mesh) (hcn : ConnOK p.dims m) (hny : p.ny % 2 = 0) {φ : Int → ℝ}
  {lam : ℝ} (hφ : ∀ c, 0 ≤ c → c < p.dims.ncells → Spec.div m (Spec.grad m φ) c = -lam * φ c)
include h hcn hny hφ

theorem lapU_potential {u : Int → ℝ} {β : ℝ} (hu : ∀ e, 0 ≤ e → e < p.dims.nedges → u e = β * Spec.grad m φ e)
    {e : Int} (e0 : 0 ≤ e) (e1 : e < p.dims.nedges) : lapU m u e = -lam * β * Spec.grad m φ e := by
  have d : ∀ c, 0 ≤ c → c < p.dims.ncells → Spec.div m u c = -lam * β * φ c := fun c c0 c1 => by
    rw [div_congr hcn hu c0 c1, div_mul', hφ c c0 c1]; ring
  have cu : ∀ v, 0 ≤ v → v < p.dims.nvertices → Spec.curl m u v = 0 := fun v v0 v1 => by
    rw [curl_congr hcn hu v0 v1, curl_mul'']
    show β * Spec.curl m (Spec.grad m φ) v = 0
    rw [curl_grad h.toGeo hny φ v0 v1, mul_zero]
  obtain ⟨a, b⟩ := hcn.voe e e0 e1 0 (by omega) (by omega)
  obtain ⟨a', b'⟩ := hcn.voe e e0 e1 1 (by omega) (by omega)
  unfold lapU
  rw [grad_congr hcn d e0 e1, grad_mul']
  unfold Spec.gradT
  rw [show Spec.curl m u (Spec.vertOf m e 0) = 0 from cu _ a b,
    show Spec.curl m u (Spec.vertOf m e 1) = 0 from cu _ a' b']
  simp

theorem IsPotential.tend {w : (Int → ℝ) × (Int → ℝ)} {z : ℝ × ℝ} (hw : IsPotential p m φ w z) (g H ν κ : ℝ) :
    IsPotential p m φ ((restOp m g 0 H + viscOp m ν κ) w) (waveOp g H lam (ν * lam + κ * lam ^ 2) z) := by
  refine ⟨fun c c0 c1 => ?_, fun e e0 e1 => ?_⟩
  · show -(H * Spec.div m w.2 c) + 0 = H * lam * z.2 * φ c
    rw [div_congr hcn hw.2 c0 c1, div_mul', hφ c c0 c1]; ring
  · show (0 * Spec.tang m w.2 e - g * Spec.grad m w.1 e) + (ν * lapU m w.2 e - κ * lapU m (lapU m w.2) e) =
      (-(g * z.1) - (ν * lam + κ * lam ^ 2) * z.2) * Spec.grad m φ e
    rw [grad_congr hcn hw.1 e0 e1, grad_mul', lapU_potential h hcn hny hφ hw.2 e0 e1,
      lapU_potential h hcn hny hφ (fun e a b => lapU_potential h hcn hny hφ hw.2 a b) e0 e1]
    ring

theorem IsPotential.add {w w' : (Int → ℝ) × (Int → ℝ)} {z z' : ℝ × ℝ} (hw : IsPotential p m φ w z)
    (hw' : IsPotential p m φ w' z') : IsPotential p m φ (w + w') (z + z') :=
  ⟨fun c c0 c1 => by
    show w.1 c + w'.1 c = (z.1 + z'.1) * φ c
    rw [hw.1 c c0 c1, hw'.1 c c0 c1]; ring,
  fun e e0 e1 => by
    show w.2 e + w'.2 e = (z.2 + z'.2) * Spec.grad m φ e
    rw [hw.2 e e0 e1, hw'.2 e e0 e1]; ring⟩

theorem IsPotential.smul {w : (Int → ℝ) × (Int → ℝ)} {z : ℝ × ℝ} (hw : IsPotential p m φ w z) (a : ℝ) :
    IsPotential p m φ (a • w) (a • z) :=
  ⟨fun c c0 c1 => by
    show a * w.1 c = a * z.1 * φ c
    rw [hw.1 c c0 c1]; ring,
  fun e e0 e1 => by
    show a * w.2 e = a * z.2 * Spec.grad m φ e
    rw [hw.2 e e0 e1]; ring⟩

theorem IsPotential.poly (g H ν κ dt : ℝ) (P : ℝ[X]) {w : (Int → ℝ) × (Int → ℝ)} {z : ℝ × ℝ}
    (hw : IsPotential p m φ w z) :
    IsPotential p m φ (aeval (dt • (restOp m g 0 H + viscOp m ν κ)) P w)
      (aeval (dt • waveOp g H lam (ν * lam + κ * lam ^ 2)) P z) := by
  induction P using Polynomial.induction_on' with
  | add P Q hP hQ =>
    rw [map_add, map_add, LinearMap.add_apply, LinearMap.add_apply]
    exact IsPotential.add h hcn hny hφ hP hQ
  | monomial n a =>
    rw [aeval_monomial, aeval_monomial, ← Algebra.smul_def, ← Algebra.smul_def, LinearMap.smul_apply,
      LinearMap.smul_apply]
    refine IsPotential.smul h hcn hny hφ ?_ a
    induction n with
    | zero => simpa using hw
    | succ n ih =>
      rw [pow_succ', pow_succ', Module.End.mul_apply, Module.End.mul_apply]
      exact IsPotential.smul h hcn hny hφ (IsPotential.tend h hcn hny hφ ih g H ν κ) dt

theorem IsPotential.fold (g H ν κ : ℝ) (P : ℝ[X]) (L : List (ℝ × ℝ)) : ∀ {w : (Int → ℝ) × (Int → ℝ)} {z : ℝ × ℝ},
    IsPotential p m φ w z →
    IsPotential p m φ (L.foldl (fun w a => aeval (a.2 • (restOp m g 0 H + viscOp m ν κ)) P w) w)
      (L.foldl (fun z a => aeval (a.2 • waveOp g H lam (ν * lam + κ * lam ^ 2)) P z) z) := by
  induction L with
  | nil => exact fun hw => hw
  | cons a L ih => exact fun hw => ih (IsPotential.poly h hcn hny hφ g H ν κ a.2 P hw)

end

/-- **C114.**  Without rotation, on a mesh with an even number of rows, disturb a layer at rest by a wave `φ`
(an eigenfunction of the Laplacian) in the thickness and by its gradient in the velocity.  To first order the result
of any run is again such a disturbance, and its two amplitudes are those obtained by the same stepper from two
ordinary differential equations: `α' = H λ β`, `β' = -g α - (ν λ + κ λ²) β`. -/
theorem C114_two_amplitudes (stp : Stepper) (hv : RunValid p) (hnx : 2 ≤ p.nx) (hny : p.ny % 2 = 0) (hdc : 0 < dc)
    {prm : Params ℝ} (n1 : prm.disable_h = false) (n2 : prm.disable_vn = false) (hf0 : prm.f0 = 0)
    {H : ℝ} (H0 : 0 < H) {k : Int} (k0 : 0 ≤ k) (k1 : k < p.dims.nlayers) {m m1 : ℝ → Mem ℝ}
    (hr : ∀ ε, Ready p dc prm (m ε)) {φ : Int → ℝ} {lam α β : ℝ}
    (hφ : ∀ c, 0 ≤ c → c < p.dims.ncells → Spec.div (m 0) (Spec.grad (m 0) φ) c = -lam * φ c)
    (ha0 : ∀ c, 0 ≤ c → c < p.dims.ncells → (m 0).real (.h_cell .state) 0 c k = H)
    (hb0 : ∀ e, 0 ≤ e → e < p.dims.nedges → (m 0).real (.vn_edge .state) 0 e k = 0)
    (ha : ∀ c, 0 ≤ c → c < p.dims.ncells →
      HasDerivAt (fun ε => (m ε).real (.h_cell .state) 0 c k) (α * φ c) 0)
    (hb : ∀ e, 0 ≤ e → e < p.dims.nedges →
      HasDerivAt (fun ε => (m ε).real (.vn_edge .state) 0 e k) (β * Spec.grad (m 0) φ e) 0)
    {sched : List (ℝ × ℝ)} {split : Bool} (he : ∀ ε, Exec p.dims (stp.ctor p.dims ++ stp.run p.dims
      ⟨defaultKernels p.dims.vl, split⟩ (SWModel.ofParams prm) sched) (m ε) (m1 ε)) :
    ∃ α' β' : ℝ, (α', β') = sched.foldl (fun z q => aeval (q.2 • waveOp prm.grav H lam
        (max prm.visc_del2 0 * lam + max prm.visc_del4 0 * lam ^ 2)) (stabPoly stp) z) (α, β) ∧
      (∀ c, 0 ≤ c → c < p.dims.ncells →
        HasDerivAt (fun ε => (m1 ε).real (.h_cell .state) 0 c k) (α' * φ c) 0) ∧
      ∀ e, 0 ≤ e → e < p.dims.nedges →
        HasDerivAt (fun ε => (m1 ε).real (.vn_edge .state) 0 e k) (β' * Spec.grad (m 0) φ e) 0 := by
  have hny2 : 2 ≤ p.ny := by have := hv.toValid.ny_pos; omega
  have hg := fun ε => Ready.geo2 (hr ε) hv.toValid hnx hny2 hdc
  have hf := fun ε => (Ready.hex hv.toValid (hr ε)).2.1
  rw [hf0] at hf
  obtain ⟨-, hcn⟩ := ready_ok hv (hr 0)
  set sw := SWModel.ofParams prm with hsw
  have s5 : (if sw.en_vdiff then sw.prm.visc_del2 else 0) = max prm.visc_del2 0 := by
    show (if decide ((lit 0 : ℝ) < prm.visc_del2) then prm.visc_del2 else 0) = _
    rw [show (lit 0 : ℝ) = 0 by simp]
    simp only [decide_eq_true_eq]
    split_ifs with h
    · rw [max_eq_left h.le]
    · rw [max_eq_right (not_lt.1 h)]
  have s6 : (if sw.en_vhyper then sw.prm.visc_del4 else 0) = max prm.visc_del4 0 := by
    show (if decide ((lit 0 : ℝ) < prm.visc_del4) then prm.visc_del4 else 0) = _
    rw [show (lit 0 : ℝ) = 0 by simp]
    simp only [decide_eq_true_eq]
    split_ifs with h
    · rw [max_eq_left h.le]
    · rw [max_eq_right (not_lt.1 h)]
  have v := fun ε => by
    obtain ⟨hd, hc⟩ := ready_ok hv (hr ε)
    exact ((genSetup hd hc (hookOK_noHook (noHook_ofParams prm) p.dims (m ε))).newRun (he ε)).2.2
  have init : Tangent p.dims k (fun ε => (m ε).fld .state) H (fun c => α * φ c, fun e => β * Spec.grad (m 0) φ e) :=
    ⟨ha0, hb0, ha, hb⟩
  have TT := visc_tend hg hf (sw := sw) rfl rfl rfl rfl n1 n2 k0 k1 H0
  rw [s5, s6] at TT
  have key := gen_run TT stp sched (x := fun ε => (zeroFld, (m ε).fld .state)) init
  have pot := IsPotential.fold (hg 0) hcn hny hφ prm.grav H (max prm.visc_del2 0) (max prm.visc_del4 0)
    (stabPoly stp) sched (w := (fun c => α * φ c, fun e => β * Spec.grad (m 0) φ e)) (z := (α, β))
    ⟨fun _ _ _ => rfl, fun _ _ _ => rfl⟩
  refine ⟨_, _, rfl, fun c c0 c1 => ?_, fun e e0 e1 => ?_⟩
  · rw [← pot.1 c c0 c1]
    exact (key.h1 c c0 c1).congr_of_eventuallyEq (Filter.Eventually.of_forall fun ε => (v ε).h c k c0 c1 k0 k1)
  · rw [← pot.2 e e0 e1]
    exact (key.v1 e e0 e1).congr_of_eventuallyEq (Filter.Eventually.of_forall fun ε => (v ε).vn e k e0 e1 k0 k1)

/-- steps on an eigenvector -/
theorem fold_eigvec {V : Type*} [AddCommGroup V] [Module ℝ V] {A : Module.End ℝ V} {z : V} {s : ℝ} (hz : A z = s • z)
    (P : ℝ[X]) (L : List (ℝ × ℝ)) : ∀ a : ℝ,
    L.foldl (fun z q => aeval (q.2 • A) P z) (a • z) = (a * (L.map fun q => P.eval (q.2 * s)).prod) • z := by
  have one : ∀ t : ℝ, aeval (t • A) P z = P.eval (t * s) • z := by
    intro t
    induction P using Polynomial.induction_on' with
    | add P Q hP hQ => rw [map_add, LinearMap.add_apply, hP, hQ, eval_add, add_smul]
    | monomial n a =>
      rw [aeval_monomial, ← Algebra.smul_def, LinearMap.smul_apply, eval_monomial, mul_smul]
      congr 1
      induction n with
      | zero => simp
      | succ n ih =>
        rw [pow_succ', Module.End.mul_apply, ih, map_smul, LinearMap.smul_apply, hz, smul_smul, smul_smul, pow_succ]
        congr 1; ring
  induction L with
  | nil => intro a; simp
  | cons q L ih =>
    intro a
    rw [List.foldl_cons, map_smul, one, smul_smul, ih, List.map_cons, List.prod_cons, mul_assoc]

/-- a disturbance along a real mode of the damped wave -/
theorem mode_factor {g H lam mu s : ℝ} (hs : s ^ 2 + mu * s + g * H * lam = 0) (P : ℝ[X]) (L : List (ℝ × ℝ)) (A : ℝ) :
    L.foldl (fun z q => aeval (q.2 • waveOp g H lam mu) P z) (A * (H * lam), A * s) =
      (A * (L.map fun q => P.eval (q.2 * s)).prod * (H * lam), A * (L.map fun q => P.eval (q.2 * s)).prod * s) := by
  have hz : waveOp g H lam mu (H * lam, s) = s • (H * lam, s) := by
    show (H * lam * s, -(g * (H * lam)) - mu * s) = (s * (H * lam), s * s)
    refine Prod.ext (by ring) ?_
    show -(g * (H * lam)) - mu * s = s * s
    linear_combination -hs
  exact fold_eigvec hz P L A

/-- **C114.**  If the damping is strong enough for a real root `s` of `s² + (ν λ + κ λ²) s + g H λ = 0`, the
disturbance with thickness `H λ φ` and velocity `s ∇φ` keeps its shape, and every step multiplies it by the
stability polynomial of the stepper at `dt s`. -/
theorem C114_mode (stp : Stepper) (hv : RunValid p) (hnx : 2 ≤ p.nx) (hny : p.ny % 2 = 0) (hdc : 0 < dc)
    {prm : Params ℝ} (n1 : prm.disable_h = false) (n2 : prm.disable_vn = false) (hf0 : prm.f0 = 0)
    {H : ℝ} (H0 : 0 < H) {k : Int} (k0 : 0 ≤ k) (k1 : k < p.dims.nlayers) {m m1 : ℝ → Mem ℝ}
    (hr : ∀ ε, Ready p dc prm (m ε)) {φ : Int → ℝ} {lam s A : ℝ}
    (hφ : ∀ c, 0 ≤ c → c < p.dims.ncells → Spec.div (m 0) (Spec.grad (m 0) φ) c = -lam * φ c)
    (hs : s ^ 2 + (max prm.visc_del2 0 * lam + max prm.visc_del4 0 * lam ^ 2) * s + prm.grav * H * lam = 0)
    (ha0 : ∀ c, 0 ≤ c → c < p.dims.ncells → (m 0).real (.h_cell .state) 0 c k = H)
    (hb0 : ∀ e, 0 ≤ e → e < p.dims.nedges → (m 0).real (.vn_edge .state) 0 e k = 0)
    (ha : ∀ c, 0 ≤ c → c < p.dims.ncells →
      HasDerivAt (fun ε => (m ε).real (.h_cell .state) 0 c k) (A * (H * lam) * φ c) 0)
    (hb : ∀ e, 0 ≤ e → e < p.dims.nedges →
      HasDerivAt (fun ε => (m ε).real (.vn_edge .state) 0 e k) (A * s * Spec.grad (m 0) φ e) 0)
    {sched : List (ℝ × ℝ)} {split : Bool} (he : ∀ ε, Exec p.dims (stp.ctor p.dims ++ stp.run p.dims
      ⟨defaultKernels p.dims.vl, split⟩ (SWModel.ofParams prm) sched) (m ε) (m1 ε)) :
    (∀ c, 0 ≤ c → c < p.dims.ncells → HasDerivAt (fun ε => (m1 ε).real (.h_cell .state) 0 c k)
      (A * (sched.map fun q => (stabPoly stp).eval (q.2 * s)).prod * (H * lam) * φ c) 0) ∧
    ∀ e, 0 ≤ e → e < p.dims.nedges → HasDerivAt (fun ε => (m1 ε).real (.vn_edge .state) 0 e k)
      (A * (sched.map fun q => (stabPoly stp).eval (q.2 * s)).prod * s * Spec.grad (m 0) φ e) 0 := by
  obtain ⟨α', β', e, r1, r2⟩ := C114_two_amplitudes stp hv hnx hny hdc n1 n2 hf0 H0 k0 k1 hr hφ ha0 hb0 ha hb he
  rw [mode_factor hs] at e
  obtain ⟨rfl, rfl⟩ := Prod.mk.inj e
  exact ⟨r1, r2⟩

/-- damping of the shortest wave by viscosity and hyperviscosity -/
def shortDamping (prm : Params ℝ) (dc : ℝ) : ℝ :=
  6 * max prm.visc_del2 0 / dc ^ 2 + 36 * max prm.visc_del4 0 / dc ^ 4
/-- the larger of the two decay rates of the shortest wave -/
def shortRate (prm : Params ℝ) (dc H : ℝ) : ℝ :=
  (shortDamping prm dc + √(shortDamping prm dc ^ 2 - 24 * (prm.grav * H) / dc ^ 2)) / 2

/-- **C114.**  Steps with which viscosity is unstable: on a mesh whose rows have a multiple of three cells and whose
number of rows is even let viscosity dominate the shortest wave (`d² ≥ 24 g H / dc²`, `d = 6 ν / dc² + 36 κ / dc⁴`).
If `dt` times its larger decay rate, which lies between `d / 2` and `d`, exceeds 2 (forward Euler), 2.79 (classical)
or 4.66 (five stages), the response of a layer at rest to this wave exceeds any bound in every cell after enough
steps. -/
theorem C114_viscous_limit_sharp (hv : RunValid p) (hnx : 2 ≤ p.nx) (h3 : p.nx % 3 = 0) (hny : p.ny % 2 = 0)
    (hdc : 0 < dc) {prm : Params ℝ} (n1 : prm.disable_h = false) (n2 : prm.disable_vn = false) (hf0 : prm.f0 = 0)
    (g0 : 0 ≤ prm.grav) {H : ℝ} (H0 : 0 < H) (hov : 24 * (prm.grav * H) / dc ^ 2 ≤ shortDamping prm dc ^ 2)
    (stp : Stepper) (hs : stp = .rk4 ∨ stp = .lsrk 1 ∨ stp = .lsrk 5) {dt : ℝ}
    (hz : growthLimit stp < dt * shortRate prm dc H) {A : ℝ} (hA : A ≠ 0) (B : ℝ) :
    shortDamping prm dc / 2 ≤ shortRate prm dc H ∧ shortRate prm dc H ≤ shortDamping prm dc ∧
    ∃ N : ℕ, ∀ (m m1 : ℝ → Mem ℝ) (k : Int) (sched : List (ℝ × ℝ)) (split : Bool), (∀ ε, Ready p dc prm (m ε)) →
      0 ≤ k → k < p.dims.nlayers →
      (∀ c, 0 ≤ c → c < p.dims.ncells → (m 0).real (.h_cell .state) 0 c k = H) →
      (∀ e, 0 ≤ e → e < p.dims.nedges → (m 0).real (.vn_edge .state) 0 e k = 0) →
      (∀ c, 0 ≤ c → c < p.dims.ncells → HasDerivAt (fun ε => (m ε).real (.h_cell .state) 0 c k)
        (A * (6 * H / dc ^ 2) * shortWave p.nx c) 0) →
      (∀ e, 0 ≤ e → e < p.dims.nedges → HasDerivAt (fun ε => (m ε).real (.vn_edge .state) 0 e k)
        (-(A * shortRate prm dc H) * Spec.grad (m 0) (shortWave p.nx) e) 0) →
      (∀ q ∈ sched, q.2 = dt) → N ≤ sched.length →
      (∀ ε, Exec p.dims (stp.ctor p.dims ++
        stp.run p.dims ⟨defaultKernels p.dims.vl, split⟩ (SWModel.ofParams prm) sched) (m ε) (m1 ε)) →
      ∀ c, 0 ≤ c → c < p.dims.ncells → ∃ r, HasDerivAt (fun ε => (m1 ε).real (.h_cell .state) 0 c k) r 0 ∧ B < |r| := by
  have d0 : 0 ≤ shortDamping prm dc := by
    unfold shortDamping
    have := le_max_right prm.visc_del2 0
    have := le_max_right prm.visc_del4 0
    positivity
  set d := shortDamping prm dc with hd
  set D := d ^ 2 - 24 * (prm.grav * H) / dc ^ 2 with hD
  have D0 : 0 ≤ D := by rw [hD]; linarith
  have sq : √D ^ 2 = D := Real.sq_sqrt D0
  have sD : √D ≤ d := by
    rw [Real.sqrt_le_left d0]
    have : 0 ≤ 24 * (prm.grav * H) / dc ^ 2 := by positivity
    linarith
  have hr : shortRate prm dc H = (d + √D) / 2 := rfl
  refine ⟨by rw [hr]; linarith [Real.sqrt_nonneg D], by rw [hr]; linarith, ?_⟩
  set r := shortRate prm dc H with hrd
  have hroot : (-r) ^ 2 + (max prm.visc_del2 0 * (6 / dc ^ 2) + max prm.visc_del4 0 * (6 / dc ^ 2) ^ 2) * (-r) +
      prm.grav * H * (6 / dc ^ 2) = 0 := by
    have e : max prm.visc_del2 0 * (6 / dc ^ 2) + max prm.visc_del4 0 * (6 / dc ^ 2) ^ 2 = d := by
      rw [hd, shortDamping]; ring
    rw [e, hr]
    have : D = d ^ 2 - 4 * (prm.grav * H * (6 / dc ^ 2)) := by rw [hD]; ring
    linear_combination (1 / 4) * sq + (1 / 4) * this
  have g1 := one_lt_stab stp hs hz
  obtain ⟨N, hN⟩ := pow_unbounded_of_one_lt (B / (|A| * (6 * H / dc ^ 2))) g1
  refine ⟨N, fun m m1 k sched split hrd k0 k1 ha0 hb0 ha hb hq hl he c c0 c1 => ?_⟩
  have hny2 : 2 ≤ p.ny := by have := hv.toValid.ny_pos; omega
  have key := (C114_mode stp hv hnx hny hdc n1 n2 hf0 H0 k0 k1 hrd (A := A)
    (fun c c0 c1 => lap_shortWave (Ready.geo2 (hrd 0) hv.toValid hnx hny2 hdc) h3 hny ⟨c0, c1⟩) hroot ha0 hb0
    (fun c c0 c1 => (ha c c0 c1).congr_deriv (by ring)) (fun e e0 e1 => (hb e e0 e1).congr_deriv (by ring)) he).1
    c c0 c1
  refine ⟨_, key, ?_⟩
  have e1 : (sched.map fun q => (stabPoly stp).eval (q.2 * -r)).prod =
      (stabPoly stp).eval (-(dt * r)) ^ sched.length := by
    rw [List.map_congr_left (g := fun _ => (stabPoly stp).eval (-(dt * r)))
      (fun q h => by rw [hq q h, mul_neg]), List.map_const', List.prod_replicate]
  have s1 : 1 ≤ |shortWave p.nx c| := by
    unfold shortWave
    split_ifs <;> norm_num
  have hp : 0 < 6 * H / dc ^ 2 := by positivity
  rw [e1, show H * (6 / dc ^ 2) = 6 * H / dc ^ 2 by ring, abs_mul, abs_mul, abs_mul, abs_pow, abs_of_pos hp]
  have a0 : 0 < |A| := abs_pos.2 hA
  have p1 := pow_le_pow_right₀ g1.le hl
  calc B = |A| * (6 * H / dc ^ 2) * (B / (|A| * (6 * H / dc ^ 2))) := by field_simp
    _ < |A| * (6 * H / dc ^ 2) * |(stabPoly stp).eval (-(dt * r))| ^ sched.length := by gcongr; linarith
    _ = |A| * |(stabPoly stp).eval (-(dt * r))| ^ sched.length * (6 * H / dc ^ 2) := by ring
    _ ≤ _ := le_mul_of_one_le_right (by positivity) s1

/-- 36 cells, gravity and viscosity one, any number of steps of size one: above the limit -/
example (n : ℕ) : ∃ (prm : Params ℝ) (m m1 : ℝ → Mem ℝ) (sched : List (ℝ × ℝ)),
    RunValid p66 ∧ 2 ≤ p66.nx ∧ p66.nx % 3 = 0 ∧ p66.ny % 2 = 0 ∧ prm.disable_h = false ∧
    prm.disable_vn = false ∧ prm.f0 = 0 ∧ 0 < prm.grav ∧ 0 < prm.visc_del2 ∧
    24 * (prm.grav * 1) / 1 ^ 2 ≤ shortDamping prm 1 ^ 2 ∧ growthLimit .rk4 < 1 * shortRate prm 1 1 ∧
    (0 : Int) ≤ 2 ∧ 2 < p66.dims.nlayers ∧ (∀ ε, Ready p66 1 prm (m ε)) ∧
    (∀ c, 0 ≤ c → c < p66.dims.ncells → (m 0).real (.h_cell .state) 0 c 2 = 1) ∧
    (∀ e, 0 ≤ e → e < p66.dims.nedges → (m 0).real (.vn_edge .state) 0 e 2 = 0) ∧
    (∀ c, 0 ≤ c → c < p66.dims.ncells → HasDerivAt (fun ε => (m ε).real (.h_cell .state) 0 c 2)
      (1 * (6 * 1 / 1 ^ 2) * shortWave p66.nx c) 0) ∧
    (∀ e, 0 ≤ e → e < p66.dims.nedges → HasDerivAt (fun ε => (m ε).real (.vn_edge .state) 0 e 2)
      (-(1 * shortRate prm 1 1) * Spec.grad (m 0) (shortWave p66.nx) e) 0) ∧
    sched.length = n ∧ (∀ q ∈ sched, q.2 = 1) ∧
    ∀ ε, Exec p66.dims (Stepper.rk4.ctor p66.dims ++ Stepper.rk4.run p66.dims
      ⟨defaultKernels p66.dims.vl, true⟩ (SWModel.ofParams prm) sched) (m ε) (m1 ε) := by
  obtain ⟨prm, hprm⟩ : ∃ q : Params ℝ, q = ⟨0, 1, 1, 0, 0, 0, false, false⟩ := ⟨_, rfl⟩
  have hny2 : 2 ≤ p66.ny := by simp [p66]
  have hnx2 : 2 ≤ p66.nx := by simp [p66]
  obtain ⟨r, hrr⟩ : ∃ q : ℝ, q = -(1 * shortRate prm 1 1) := ⟨_, rfl⟩
  obtain ⟨m0, hr0, -, -⟩ := exists_ready p66_run.toValid 1 prm zeroFld zeroFld
  have ex := fun ε : ℝ => exists_ready p66_run.toValid 1 prm
    ⟨fun c _ => 1 + ε * (6 * shortWave 6 c), fun e _ => ε * (r * Spec.grad m0 (shortWave 6) e), fun _ _ _ => 0⟩
    zeroFld
  choose m hr hx _ using ex
  set sched : List (ℝ × ℝ) := List.replicate n (0, 1) with hsch
  have run := fun ε => by
    obtain ⟨hd, hc⟩ := ready_ok p66_run (hr ε)
    exact ((C40_safe_deterministic hd hc (noHook_ofParams prm) true).2.2 .rk4 sched).2.exists
  choose m1 he using run
  have eh : ∀ ε c, (m ε).real (.h_cell .state) 0 c 2 = 1 + ε * (6 * shortWave 6 c) := fun ε c =>
    congrFun (congrFun (congrArg Fld.h (hx ε)) c) 2
  have ev : ∀ ε e, (m ε).real (.vn_edge .state) 0 e 2 = ε * (r * Spec.grad m0 (shortWave 6) e) := fun ε e =>
    congrFun (congrFun (congrArg Fld.vn (hx ε)) e) 2
  have hl : p66.dims.nlayers = p46.dims.nlayers := rfl
  have gg : ∀ e, 0 ≤ e → e < p66.dims.nedges →
      Spec.grad (m 0) (shortWave 6) e = Spec.grad m0 (shortWave 6) e := fun e e0 e1 => by
    have A := (Ready.geo2 (hr 0) p66_run.toValid hnx2 hny2 one_pos).toGeo
    have B := (Ready.geo2 hr0 p66_run.toValid hnx2 hny2 one_pos).toGeo
    have cA : ∀ s, 0 ≤ s → s < 2 → Spec.cellOf (m 0) e s = Spec.cellOf m0 e s := fun s s0 s1 =>
      (A.coe e e0 e1 s s0 s1).trans (B.coe e e0 e1 s s0 s1).symm
    have dA : Spec.dcE (m 0) e = Spec.dcE m0 e := (A.dcE e e0 e1).trans (B.dcE e e0 e1).symm
    unfold Spec.grad
    rw [cA 0 (by norm_num) (by norm_num), cA 1 (by norm_num) (by norm_num), dA]
  have hd : shortDamping prm 1 = 6 := by
    rw [hprm]; norm_num [shortDamping]
  refine ⟨prm, m, m1, sched, p66_run, hnx2, by simp [p66], by simp [p66], by rw [hprm], by rw [hprm],
    by rw [hprm], by rw [hprm]; norm_num, by rw [hprm]; norm_num, ?_, ?_, by norm_num,
    by rw [hl, p46_layers]; norm_num, hr,
    fun c _ _ => by rw [eh]; simp, fun e _ _ => by rw [ev]; simp, fun c _ _ => ?_, fun e e0 e1 => ?_,
    by rw [hsch, List.length_replicate], fun q hq => by rw [List.eq_of_mem_replicate hq], he⟩
  · rw [hd, hprm]; norm_num
  · unfold shortRate
    rw [hd]
    simp only [growthLimit]
    have := Real.sqrt_nonneg ((6 : ℝ) ^ 2 - 24 * (prm.grav * 1) / 1 ^ 2)
    linarith
  · simp only [eh]
    exact (((hasDerivAt_id (0 : ℝ)).mul_const (6 * shortWave 6 c)).const_add 1).congr_deriv (by simp [p66])
  · simp only [ev]
    rw [← hrr, show p66.nx = 6 from rfl, gg e e0 e1]
    exact ((hasDerivAt_id (0 : ℝ)).mul_const _).congr_deriv (by simp)

end Props
end
end Omega
