import Verif.Props.TracerWaves
import Verif.Props.ViscousWaves

/-!
# C117: gravity waves on a uniform flow

A layer of uniform thickness in a uniform flow is a steady state.  Small gravity waves on it are those on a layer at
rest, carried along by the discrete transport: the kinetic-energy term of the momentum equation moves the velocity
potential exactly as the flux term of the thickness equation moves the thickness.
-/

set_option linter.unusedVariables false
set_option linter.unusedSectionVars false

namespace Omega
noncomputable section
namespace Props

open Prog Model Refine Hex Polynomial Taylor

variable {p : MeshParams} {dc : ℝ} {m : Mem ℝ}

/-! ### Perturbations of a flow -/

/-- `x` is a perturbation, with derivative `w`, of the state of thickness `H` and normal velocities `b` -/
structure OverFlow (d : Dims) (k : Int) (x : ℝ → Fld ℝ) (H : ℝ) (b : Int → ℝ) (w : (Int → ℝ) × (Int → ℝ)) :
    Prop where
  h0 : ∀ c, 0 ≤ c → c < d.ncells → (x 0).h c k = H
  v0 : ∀ e, 0 ≤ e → e < d.nedges → (x 0).vn e k = b e
  h1 : ∀ c, 0 ≤ c → c < d.ncells → HasDerivAt (fun ε => (x ε).h c k) (w.1 c) 0
  v1 : ∀ e, 0 ≤ e → e < d.nedges → HasDerivAt (fun ε => (x ε).vn e k) (w.2 e) 0

theorem OverFlow.axpy {d : Dims} {k : Int} {x y : ℝ → Fld ℝ} {H : ℝ} {b : Int → ℝ} {w z : (Int → ℝ) × (Int → ℝ)}
    (hx : OverFlow d k x H b w) (hy : Tangent d k y 0 z) (a : ℝ) :
    OverFlow d k (fun ε => (x ε).axpy a (y ε)) H b (w + a • z) := by
  refine ⟨fun c c0 c1 => ?_, fun c c0 c1 => ?_, fun c c0 c1 => ?_, fun c c0 c1 => ?_⟩
  · show (x 0).h c k + a * (y 0).h c k = H
    rw [hx.h0 c c0 c1, hy.h0 c c0 c1]; ring
  · show (x 0).vn c k + a * (y 0).vn c k = b c
    rw [hx.v0 c c0 c1, hy.v0 c c0 c1]; ring
  · exact (hx.h1 c c0 c1).add ((hy.h1 c c0 c1).const_mul a)
  · exact (hx.v1 c c0 c1).add ((hy.v1 c c0 c1).const_mul a)

/-- tendency and state after part of a step from the perturbation `w`, with polynomials `q` -/
structure FlowAlong (p : MeshParams) (k : Int) (A : Module.End ℝ ((Int → ℝ) × (Int → ℝ))) (dt H : ℝ) (b : Int → ℝ)
    (w : (Int → ℝ) × (Int → ℝ)) (q : ℝ[X] × ℝ[X]) (x : ℝ → Fld ℝ × Fld ℝ) : Prop where
  tn : ∃ z, Tangent p.dims k (fun ε => (x ε).1) 0 z ∧ dt • z = aeval (dt • A) q.1 w
  st : OverFlow p.dims k (fun ε => (x ε).2) H b (aeval (dt • A) q.2 w)

/-- The flow is steady, and the tendency acts on its first-order perturbations as `A`. -/
def FlowTangent (p : MeshParams) (k : Int) (sys : ℝ → Sys ℝ) (H : ℝ) (b : Int → ℝ)
    (A : Module.End ℝ ((Int → ℝ) × (Int → ℝ))) : Prop :=
  ∀ (mode : AddMode) (t : ℝ) (o x : ℝ → Fld ℝ) (z w : (Int → ℝ) × (Int → ℝ)), OverFlow p.dims k x H b w →
    (mode = .replace ∨ Tangent p.dims k o 0 z) →
    Tangent p.dims k (fun ε => (sys ε).tend mode t (o ε) (x ε)) 0 ((if mode = .replace then 0 else z) + A w)

section

variable {sys : ℝ → Sys ℝ} {A : Module.End ℝ ((Int → ℝ) × (Int → ℝ))} {k : Int} {H : ℝ} {b : Int → ℝ}
  (TT : FlowTangent p k sys H b A)
include TT

theorem FlowAlong.genLsrk {dt : ℝ} {w : (Int → ℝ) × (Int → ℝ)} {q : ℝ[X] × ℝ[X]} {x : ℝ → Fld ℝ × Fld ℝ}
    (h : FlowAlong p k A dt H b w q x) (K : Coef ℝ) (t : ℝ) (i : Nat) :
    FlowAlong p k A dt H b w
      (C (K.a i) * q.1 + X * q.2, q.2 + C (K.b i) * (C (K.a i) * q.1 + X * q.2))
      (fun ε => (sys ε).lsrkStage K t dt i (x ε)) := by
  obtain ⟨⟨z, hz, ez⟩, hs⟩ := h
  have T := TT .increment (t + K.c i * dt) _ _ _ _ hs (Or.inr (hz.scale (K.a i)))
  simp only [reduceCtorEq, if_false] at T
  have e : dt • (K.a i • z + A (aeval (dt • A) q.2 w)) = aeval (dt • A) (C (K.a i) * q.1 + X * q.2) w := by
    rw [map_add, map_mul, map_mul, aeval_C, aeval_X, LinearMap.add_apply, Module.End.mul_apply,
      Module.End.mul_apply, ← ez, smul_add, Module.algebraMap_end_apply, LinearMap.smul_apply, smul_comm]
  refine ⟨⟨_, T, e⟩, ?_⟩
  have S := hs.axpy T (dt * K.b i)
  have es : ∀ v : (Int → ℝ) × (Int → ℝ), (dt * K.b i) • v = K.b i • dt • v := fun v => by rw [mul_comm, mul_smul]
  rw [es, e] at S
  rw [map_add, LinearMap.add_apply, map_mul, aeval_C, Module.End.mul_apply, Module.algebraMap_end_apply]
  exact S

theorem FlowAlong.genLsrk_fold {dt : ℝ} {w : (Int → ℝ) × (Int → ℝ)} (K : Coef ℝ) (t : ℝ) (L : List Nat) :
    ∀ {q : ℝ[X] × ℝ[X]} {x : ℝ → Fld ℝ × Fld ℝ},
      FlowAlong p k A dt H b w q x →
    FlowAlong p k A dt H b w
      (L.foldl (fun (q : ℝ[X] × ℝ[X]) i => (C (K.a i) * q.1 + X * q.2,
        q.2 + C (K.b i) * (C (K.a i) * q.1 + X * q.2))) q)
      (fun ε => L.foldl (fun x i => (sys ε).lsrkStage K t dt i x) (x ε)) := by
  induction L with
  | nil => exact fun h => h
  | cons i L ih => exact fun h => ih (h.genLsrk TT K t i)

theorem FlowAlong.genRk4 {dt : ℝ} {w : (Int → ℝ) × (Int → ℝ)} {s : ℝ → Fld ℝ} (hs0 : OverFlow p.dims k s H b w)
    {q : ℝ[X] × ℝ[X]} {x : ℝ → Fld ℝ × Fld ℝ}
    (h : FlowAlong p k A dt H b w q x) (K : Coef ℝ) (t : ℝ) (i : Nat) :
    FlowAlong p k A dt H b w
      (if i < 3 then X * (1 + C (K.a i) * q.1) else q.1, q.2 + C (K.b i) * q.1)
      (fun ε => (sys ε).rk4Stage K t dt (s ε) i (x ε)) := by
  obtain ⟨⟨z, hz, ez⟩, hs⟩ := h
  have mid := hs0.axpy hz (dt * K.a i)
  have T := TT .replace (t + K.c i * dt) (fun ε => (x ε).1) _ 0 _ mid (Or.inl rfl)
  simp only [if_true, zero_add] at T
  constructor
  · by_cases hi : i < 3
    · refine ⟨A (w + (dt * K.a i) • z), ?_, ?_⟩
      · have e : (fun ε => ((sys ε).rk4Stage K t dt (s ε) i (x ε)).1) =
            fun ε => (sys ε).tend .replace (t + K.c i * dt) (x ε).1
              ((s ε).axpy (dt * K.a i) (x ε).1) := funext fun ε => if_pos hi
        rw [e]
        exact T
      · have e : aeval (dt • A) (1 + C (K.a i) * q.1) w = w + (dt * K.a i) • z := by
          rw [map_add, map_one, LinearMap.add_apply, map_mul, aeval_C, Module.End.mul_apply, ← ez,
            Module.algebraMap_end_apply, mul_comm dt, mul_smul]
          rfl
        rw [if_pos hi, map_mul, aeval_X, Module.End.mul_apply, e, LinearMap.smul_apply]
    · refine ⟨z, ?_, by rw [if_neg hi, ez]⟩
      have e : (fun ε => ((sys ε).rk4Stage K t dt (s ε) i (x ε)).1) =
          fun ε => (x ε).1 := funext fun ε => if_neg hi
      rw [e]
      exact hz
  · have S := hs.axpy hz (dt * K.b i)
    have es : ∀ v : (Int → ℝ) × (Int → ℝ), (dt * K.b i) • v = K.b i • dt • v := fun v => by rw [mul_comm, mul_smul]
    rw [es, ez] at S
    rw [map_add, LinearMap.add_apply, map_mul, aeval_C, Module.End.mul_apply, Module.algebraMap_end_apply]
    exact S

theorem FlowAlong.genRk4_fold {dt : ℝ} {w : (Int → ℝ) × (Int → ℝ)} {s : ℝ → Fld ℝ}
    (hs0 : OverFlow p.dims k s H b w) (K : Coef ℝ) (t : ℝ) (L : List Nat) :
    ∀ {q : ℝ[X] × ℝ[X]} {x : ℝ → Fld ℝ × Fld ℝ},
      FlowAlong p k A dt H b w q x →
    FlowAlong p k A dt H b w
      (L.foldl (fun (q : ℝ[X] × ℝ[X]) i =>
        (if i < 3 then X * (1 + C (K.a i) * q.1) else q.1, q.2 + C (K.b i) * q.1)) q)
      (fun ε => L.foldl (fun x i => (sys ε).rk4Stage K t dt (s ε) i x) (x ε)) := by
  induction L with
  | nil => exact fun h => h
  | cons i L ih => exact fun h => ih (h.genRk4 TT hs0 K t i)

/-- A step acts on a perturbation as the stability polynomial of the stepper. -/
theorem flow_step (stp : Stepper) (t dt : ℝ) {w : (Int → ℝ) × (Int → ℝ)} {x : ℝ → Fld ℝ × Fld ℝ}
    (hx : OverFlow p.dims k (fun ε => (x ε).2) H b w) :
    OverFlow p.dims k (fun ε => ((sys ε).step t dt (x ε) stp).2) H b
      (aeval (dt • A) (stabPoly stp) w) := by
  have zero : Tangent p.dims k (fun _ => (zeroFld : Fld ℝ)) 0 0 := by
    refine ⟨fun _ _ _ => by simp [zeroFld], fun _ _ _ => by simp [zeroFld], fun _ _ _ => ?_, fun _ _ _ => ?_⟩ <;>
    exact hasDerivAt_const _ _
  cases stp with
  | lsrk n =>
    rcases Nat.eq_zero_or_pos n with rfl | hn
    · simpa [stabPoly, Sys.step, Sys.lsrkStep] using hx
    · obtain ⟨n, rfl⟩ : ∃ k, n = k + 1 := ⟨n - 1, by omega⟩
      have e : (fun ε => (sys ε).step t dt (x ε) (.lsrk (n + 1))) =
          fun ε => (List.range (n + 1)).foldl (fun y i => (sys ε).lsrkStage
            (lsrkCoef (n + 1)) t dt i y) (zeroFld, (x ε).2) := by
        funext ε
        show (List.range (n + 1)).foldl _ _ = _
        rw [List.range_succ_eq_map, List.foldl_cons, List.foldl_cons]
        congr 1
        unfold Sys.lsrkStage
        have : ((x ε).1.map fun v => v * (lsrkCoef (n + 1)).a 0) =
            (zeroFld.map fun v => v * (lsrkCoef (n + 1)).a 0 : Fld ℝ) := by
          simp [Fld.map, lsrk_a0]
        rw [this]
      have init : FlowAlong p k A dt H b w ((0, 1) : ℝ[X] × ℝ[X])
          (fun ε => (zeroFld, (x ε).2)) :=
        ⟨⟨0, zero, by simp⟩, by simpa using hx⟩
      have key := FlowAlong.genLsrk_fold TT (lsrkCoef (n + 1)) t
        (List.range (n + 1)) init
      rw [← e] at key
      exact key.st
  | rk4 =>
    have T := TT .replace t (fun ε => (x ε).1) _ 0 _ hx (Or.inl rfl)
    simp only [if_true, zero_add] at T
    have init : FlowAlong p k A dt H b w ((X, 1) : ℝ[X] × ℝ[X])
        (fun ε => ((sys ε).tend .replace t (x ε).1 (x ε).2, (x ε).2)) :=
      ⟨⟨_, T, by simp⟩, by simpa using hx⟩
    exact (FlowAlong.genRk4_fold TT hx rk4Coef t (List.range 4) init).st

theorem flow_run (stp : Stepper) (sched : List (ℝ × ℝ)) : ∀ {w : (Int → ℝ) × (Int → ℝ)}
    {x : ℝ → Fld ℝ × Fld ℝ}, OverFlow p.dims k (fun ε => (x ε).2) H b w →
    OverFlow p.dims k (fun ε => ((sys ε).run stp sched (x ε)).2) H b
      (sched.foldl (fun w a => aeval (a.2 • A) (stabPoly stp) w) w) := by
  induction sched with
  | nil => exact fun h => h
  | cons a L ih =>
    exact fun h => ih (flow_step TT stp a.1 a.2 h)

end

/-! ### The linear equations -/

/-- change of the kinetic energy per unit mass of the flow `b` with the velocity `u` -/
def kinLin (m : Mem ℝ) (b u : Int → ℝ) (c : Int) : ℝ :=
  (Spec.kinetic m (fun e => b e + u e) c - Spec.kinetic m (fun e => b e - u e) c) / 2

theorem kinLin_sum (m : Mem ℝ) (b u : Int → ℝ) (c : Int) : kinLin m b u c =
    (∑ j ∈ Finset.Ico 0 (m.int .nedges_on_cell c 0), Spec.dcE m (Spec.side m c j) * Spec.dvE m (Spec.side m c j) *
      (b (Spec.side m c j) * u (Spec.side m c j)) / 2) / Spec.areaC m c := by
  unfold kinLin Spec.kinetic
  rw [← sub_div, ← Finset.sum_sub_distrib, div_right_comm, Finset.sum_div]
  congr 1
  exact Finset.sum_congr rfl fun _ _ => by ring

theorem kinLin_add (m : Mem ℝ) (b u w : Int → ℝ) :
    kinLin m b (fun e => u e + w e) = fun c => kinLin m b u c + kinLin m b w c := by
  funext c
  rw [kinLin_sum, kinLin_sum, kinLin_sum, ← add_div, ← Finset.sum_add_distrib]
  congr 1
  exact Finset.sum_congr rfl fun _ _ => by ring

theorem kinLin_mul (m : Mem ℝ) (b : Int → ℝ) (a : ℝ) (u : Int → ℝ) :
    kinLin m b (fun e => a * u e) = fun c => a * kinLin m b u c := by
  funext c
  rw [kinLin_sum, kinLin_sum, mul_div_assoc', Finset.mul_sum]
  congr 1
  exact Finset.sum_congr rfl fun _ _ => by ring

theorem kinLin_hex (h : Geo p.nx p.ny p.dims.nlayers dc m.mesh) (b u : Int → ℝ) {c : Int} (hc : IsCell p.nx p.ny c) :
    kinLin m b u c = 1 / 3 * Sd p.nx p.ny (fun e => b e * u e) c := by
  rw [kinLin, spec_kinetic h _ hc, spec_kinetic h _ hc]
  simp only [Sd]
  ring

theorem pvFlux_add (m : Mem ℝ) (x y F : Int → ℝ) (e : Int) :
    Spec.pvFlux m (fun i => x i + y i) F e = Spec.pvFlux m x F e + Spec.pvFlux m y F e := by
  unfold Spec.pvFlux
  rw [← Finset.sum_add_distrib]
  exact Finset.sum_congr rfl fun _ _ => by ring
theorem pvFlux_mul (m : Mem ℝ) (a : ℝ) (x F : Int → ℝ) (e : Int) :
    Spec.pvFlux m (fun i => a * x i) F e = a * Spec.pvFlux m x F e := by
  unfold Spec.pvFlux
  rw [Finset.mul_sum]
  exact Finset.sum_congr rfl fun _ _ => by ring

/-- the shallow-water equations without rotation, linearised about the thickness `H` and the flow `b` -/
def flowOp (m : Mem ℝ) (g H : ℝ) (b : Int → ℝ) : Module.End ℝ ((Int → ℝ) × (Int → ℝ)) where
  toFun w := (fun c => -(Spec.div m (fun e => Spec.mean m w.1 e * b e) c + H * Spec.div m w.2 c),
    fun e => Spec.pvFlux m (Spec.vmean m (Spec.curl m w.2)) b e - Spec.grad m (kinLin m b w.2) e -
      g * Spec.grad m w.1 e)
  map_add' x y := by
    refine Prod.ext (funext fun c => ?_) (funext fun e => ?_)
    · show -(Spec.div m (fun e => Spec.mean m (fun i => x.1 i + y.1 i) e * b e) c +
        H * Spec.div m (fun i => x.2 i + y.2 i) c) = -(Spec.div m (fun e => Spec.mean m x.1 e * b e) c +
        H * Spec.div m x.2 c) + -(Spec.div m (fun e => Spec.mean m y.1 e * b e) c + H * Spec.div m y.2 c)
      have e1 : (fun e => Spec.mean m (fun i => x.1 i + y.1 i) e * b e) =
        fun e => Spec.mean m x.1 e * b e + Spec.mean m y.1 e * b e := by funext e; unfold Spec.mean; ring
      rw [e1, div_add', div_add']; ring
    · show Spec.pvFlux m (Spec.vmean m (Spec.curl m fun i => x.2 i + y.2 i)) b e -
        Spec.grad m (kinLin m b fun i => x.2 i + y.2 i) e - g * Spec.grad m (fun i => x.1 i + y.1 i) e =
        Spec.pvFlux m (Spec.vmean m (Spec.curl m x.2)) b e - Spec.grad m (kinLin m b x.2) e - g * Spec.grad m x.1 e +
        (Spec.pvFlux m (Spec.vmean m (Spec.curl m y.2)) b e - Spec.grad m (kinLin m b y.2) e - g * Spec.grad m y.1 e)
      have e1 : Spec.vmean m (fun v => Spec.curl m x.2 v + Spec.curl m y.2 v) =
        fun e => Spec.vmean m (Spec.curl m x.2) e + Spec.vmean m (Spec.curl m y.2) e := by
        funext e; unfold Spec.vmean; ring
      rw [curl_add'', e1, pvFlux_add, kinLin_add, grad_add', grad_add']; ring
  map_smul' a x := by
    refine Prod.ext (funext fun c => ?_) (funext fun e => ?_)
    · show -(Spec.div m (fun e => Spec.mean m (fun i => a * x.1 i) e * b e) c +
        H * Spec.div m (fun i => a * x.2 i) c) = a * -(Spec.div m (fun e => Spec.mean m x.1 e * b e) c +
        H * Spec.div m x.2 c)
      have e1 : (fun e => Spec.mean m (fun i => a * x.1 i) e * b e) =
        fun e => a * (Spec.mean m x.1 e * b e) := by funext e; unfold Spec.mean; ring
      rw [e1, div_mul', div_mul']; ring
    · show Spec.pvFlux m (Spec.vmean m (Spec.curl m fun i => a * x.2 i)) b e -
        Spec.grad m (kinLin m b fun i => a * x.2 i) e - g * Spec.grad m (fun i => a * x.1 i) e =
        a * (Spec.pvFlux m (Spec.vmean m (Spec.curl m x.2)) b e - Spec.grad m (kinLin m b x.2) e -
          g * Spec.grad m x.1 e)
      have e1 : Spec.vmean m (fun v => a * Spec.curl m x.2 v) =
        fun e => a * Spec.vmean m (Spec.curl m x.2) e := by
        funext e; unfold Spec.vmean; ring
      rw [curl_mul'', e1, pvFlux_mul, kinLin_mul, grad_mul', grad_mul']; ring

/-- normal velocities of a uniform flow: one value for each of the three directions of edges -/
structure IsFlow (p : MeshParams) (b : Int → ℝ) (β : Int → ℝ) : Prop where
  val : ∀ e, 0 ≤ e → e < p.dims.nedges → b e = β (e % 3)
  rel : β 1 = β 0 + β 2

theorem isFlow (hv : MeshParams.Valid p) {m' : Mem ℝ} (hb : Built p dc m') (hs : SameMesh m m') (U W : ℝ) :
    IsFlow p (normalOf m (fun _ => U) (fun _ => W)) fun j => -(dotK U W (dir j)) := by
  refine ⟨fun e e0 e1 => ?_, ?_⟩
  · rw [hs.normalOf]
    unfold normalOf
    rw [normal_eq hv hb e0 e1]
    unfold dotK
    simp only [Prod.fst_neg, Prod.snd_neg]
    ring
  · norm_num [dotK, dir, DX, DY]; ring

section

variable {b β : Int → ℝ} (hb : IsFlow p b β)
include hb

theorem IsFlow.side {c : Int} (hnx : 1 ≤ p.nx) (hc : IsCell p.nx p.ny c) {j : Int} (j0 : 0 ≤ j) (j6 : j < 6) :
    b (E p.nx p.ny c j) = β (j % 3) := by
  obtain ⟨e0, e1⟩ := E_range hnx hc j j0 j6
  rw [hb.val _ e0 e1, E_mod j0 j6]

theorem IsFlow.curl {v : Int} (hnx : 1 ≤ p.nx) (v0 : 0 ≤ v) (v1 : v < p.dims.nvertices) :
    Cu p.nx p.ny b v = 0 := by
  have er : ∀ s, 0 ≤ Hex.eov p.nx p.ny v s ∧ Hex.eov p.nx p.ny v s < 3 * (p.nx * p.ny) := fun s => by
    have := eov_isCell hnx v0 v1 (s := s)
    unfold IsCell at this
    constructor <;> omega
  have q := hb.rel
  unfold Cu
  rw [hb.val _ (er 0).1 (er 0).2, hb.val _ (er 1).1 (er 1).2, hb.val _ (er 2).1 (er 2).2]
  by_cases h : v % 2 = 0
  · rw [if_pos h]
    have a0 : Hex.eov p.nx p.ny v 0 % 3 = 0 := by unfold Hex.eov; rw [if_pos h, if_pos rfl]; omega
    have a1 : Hex.eov p.nx p.ny v 1 % 3 = 2 := by
      unfold Hex.eov; rw [if_pos h, if_neg (by norm_num), if_pos rfl]; omega
    have a2 : Hex.eov p.nx p.ny v 2 % 3 = 1 := by
      unfold Hex.eov; rw [if_pos h, if_neg (by norm_num), if_neg (by norm_num)]; omega
    rw [a0, a1, a2, q]; ring
  · rw [if_neg h]
    have a0 : Hex.eov p.nx p.ny v 0 % 3 = 0 := by unfold Hex.eov; rw [if_neg h, if_pos rfl]; omega
    have a1 : Hex.eov p.nx p.ny v 1 % 3 = 2 := by
      unfold Hex.eov; rw [if_neg h, if_neg (by norm_num), if_pos rfl]; omega
    have a2 : Hex.eov p.nx p.ny v 2 % 3 = 1 := by
      unfold Hex.eov; rw [if_neg h, if_neg (by norm_num), if_neg (by norm_num)]; omega
    rw [a0, a1, a2, q]; ring

/-- The kinetic-energy term moves a velocity potential as the flux term moves the thickness. -/
theorem IsFlow.kin_grad (h : Geo2 p.nx p.ny p.dims.nlayers dc m.mesh) (ψ : Int → ℝ) {c : Int}
    (hc : IsCell p.nx p.ny c) :
    kinLin m b (Spec.grad m ψ) c = Spec.div m (fun e => Spec.mean m ψ e * b e) c := by
  have d0 := h.dc_pos
  have sd := fun j j0 j6 => hb.side h.hnx hc (j := j) j0 j6
  have er := fun j a b => E_range h.hnx hc j a b
  have gr := fun j a b => spec_grad h.toGeo ψ (er j a b).1 (er j a b).2
  have mn := fun j a b => spec_mean h.toGeo ψ (er j a b).1 (er j a b).2
  have lo := fun j a b => coe_E_lo (nx := p.nx) (ny := p.ny) (c := c) (j := j) a b
  have hi := fun j a b => coe_E_hi h.hnx hc (j := j) a b
  rw [kinLin_hex h.toGeo _ _ hc, spec_div h _ hc, Sd, Dv]
  rw [sd 0 (by norm_num) (by norm_num), sd 1 (by norm_num) (by norm_num), sd 2 (by norm_num) (by norm_num),
    sd 3 (by norm_num) (by norm_num), sd 4 (by norm_num) (by norm_num), sd 5 (by norm_num) (by norm_num),
    gr 0 (by norm_num) (by norm_num), gr 1 (by norm_num) (by norm_num), gr 2 (by norm_num) (by norm_num),
    gr 3 (by norm_num) (by norm_num), gr 4 (by norm_num) (by norm_num), gr 5 (by norm_num) (by norm_num),
    mn 0 (by norm_num) (by norm_num), mn 1 (by norm_num) (by norm_num), mn 2 (by norm_num) (by norm_num),
    mn 3 (by norm_num) (by norm_num), mn 4 (by norm_num) (by norm_num), mn 5 (by norm_num) (by norm_num)]
  unfold Gr Mn
  rw [lo 0 (by norm_num) (by norm_num), lo 1 (by norm_num) (by norm_num), lo 2 (by norm_num) (by norm_num),
    hi 3 (by norm_num) (by norm_num), hi 4 (by norm_num) (by norm_num), hi 5 (by norm_num) (by norm_num)]
  norm_num
  field_simp
  ring

end

section

variable {b β : Int → ℝ} (hb : IsFlow p b β)
  {mm : ℝ → Mem ℝ} (hg : ∀ ε, Geo2 p.nx p.ny p.dims.nlayers dc (mm ε).mesh)
  (hf : ∀ ε v, 0 ≤ v → v < p.dims.nvertices → (mm ε).real .f_vertex 0 v 0 = 0)
  {sw : SWModel ℝ} (s1 : sw.en_hadv = true) (s2 : sw.en_pv = true) (s3 : sw.en_ke = true)
  (s4 : sw.en_ssh = true) (s5 : sw.en_vdiff = false) (s6 : sw.en_vhyper = false)
  {k : Int} {x : ℝ → Fld ℝ} {H : ℝ} (H0 : 0 < H) {w : (Int → ℝ) × (Int → ℝ)}
  (hx : OverFlow p.dims k x H b w)
include hb hg hx

theorem flow_flux {e : Int} (e0 : 0 ≤ e) (e1 : e < 3 * (p.nx * p.ny)) :
    HasDerivAt (fun ε => Mn p.nx p.ny (fun i => (x ε).h i k) e * (x ε).vn e k)
      (Mn p.nx p.ny w.1 e * b e + H * w.2 e) 0 ∧
    Mn p.nx p.ny (fun i => (x 0).h i k) e * (x 0).vn e k = H * b e := by
  have hc := fun s => coe_isCell (hg 0).hnx e0 e1 (s := s)
  have v0 := hx.v0 e e0 e1
  have a := hx.h1 _ (hc 0).1 (hc 0).2
  have b := hx.h1 _ (hc 1).1 (hc 1).2
  have a0 := hx.h0 _ (hc 0).1 (hc 0).2
  have b0 := hx.h0 _ (hc 1).1 (hc 1).2
  refine ⟨?_, by rw [v0, Mn, a0, b0]; ring⟩
  have := ((a.add b).div_const 2).mul (hx.v1 e e0 e1)
  refine this.congr_deriv ?_
  simp only [Pi.add_apply, v0, a0, b0, Mn]
  ring

include s1 in
theorem flow_thickness {c : Int} (hc : IsCell p.nx p.ny c) :
    HasDerivAt (fun ε => Spec.thicknessTend (mm ε) sw (fun i => (x ε).h i k) (fun i => (x ε).vn i k) c)
      ((flowOp (mm 0) sw.prm.grav H b w).1 c) 0 ∧
    Spec.thicknessTend (mm 0) sw (fun i => (x 0).h i k) (fun i => (x 0).vn i k) c = 0 := by
  have cl : ∀ ε, Spec.thicknessTend (mm ε) sw (fun i => (x ε).h i k) (fun i => (x ε).vn i k) c =
      -(2 / (3 * dc) * Dv p.nx p.ny (fun e => Mn p.nx p.ny (fun i => (x ε).h i k) e * (x ε).vn e k) c) :=
    fun ε => by
    rw [Spec.thicknessTend, if_pos s1, spec_div (hg ε) _ hc]
    congr 2
    refine Dv_congr (hg ε).hnx (fun e a b => ?_) hc
    show Spec.mean (mm ε) _ e * _ = _
    rw [spec_mean (hg ε).toGeo _ a b]
  have er := fun j a b => E_range (hg 0).hnx hc j a b
  have fl := fun j a b => flow_flux hb hg hx (er j a b).1 (er j a b).2
  have f0 := fl 0 (by norm_num) (by norm_num)
  have f1 := fl 1 (by norm_num) (by norm_num)
  have f2 := fl 2 (by norm_num) (by norm_num)
  have f3 := fl 3 (by norm_num) (by norm_num)
  have f4 := fl 4 (by norm_num) (by norm_num)
  have f5 := fl 5 (by norm_num) (by norm_num)
  constructor
  · simp only [cl]
    have := ((((((f3.1.add f4.1).add f5.1).sub f0.1).sub f1.1).sub f2.1).const_mul (2 / (3 * dc))).neg
    refine this.congr_deriv ?_
    show _ = -(Spec.div (mm 0) (fun e => Spec.mean (mm 0) w.1 e * b e) c + H * Spec.div (mm 0) w.2 c)
    rw [spec_div (hg 0) _ hc, spec_div (hg 0) _ hc, Dv_congr (hg 0).hnx (u' := fun e => Mn p.nx p.ny w.1 e * b e)
      (fun e a c => by beta_reduce; rw [spec_mean (hg 0).toGeo _ a c]) hc, Dv, Dv]
    ring
  · rw [cl]
    have sd := fun j j0 j6 => hb.side (hg 0).hnx hc (j := j) j0 j6
    simp only [Dv, f0.2, f1.2, f2.2, f3.2, f4.2, f5.2]
    rw [sd 0 (by norm_num) (by norm_num), sd 1 (by norm_num) (by norm_num), sd 2 (by norm_num) (by norm_num),
      sd 3 (by norm_num) (by norm_num), sd 4 (by norm_num) (by norm_num), sd 5 (by norm_num) (by norm_num)]
    norm_num
    right
    ring

include H0 hf in
/-- the potential vorticity on an edge -/
theorem flow_pv {e : Int} (e0 : 0 ≤ e) (e1 : e < 3 * (p.nx * p.ny)) :
    HasDerivAt (fun ε => Spec.vmean (mm ε) (Spec.pv (mm ε) (fun i => (x ε).h i k) fun i => (x ε).vn i k) e)
      (Spec.vmean (mm 0) (Spec.curl (mm 0) w.2) e / H) 0 ∧
    Spec.vmean (mm 0) (Spec.pv (mm 0) (fun i => (x 0).h i k) fun i => (x 0).vn i k) e = 0 := by
  have vx : ∀ s, s = 0 ∨ s = 1 → HasDerivAt (fun ε => Spec.pv (mm ε) (fun i => (x ε).h i k)
      (fun i => (x ε).vn i k) (Hex.voe p.nx p.ny e s)) (Spec.curl (mm 0) w.2 (Hex.voe p.nx p.ny e s) / H) 0 ∧
      Spec.pv (mm 0) (fun i => (x 0).h i k) (fun i => (x 0).vn i k) (Hex.voe p.nx p.ny e s) = 0 := fun s hs => by
    obtain ⟨v0, v1⟩ := voe_isVertex (hg 0).hnx (isCell_edge e0 e1) (s := s) hs
    set v := Hex.voe p.nx p.ny e s
    have cl : ∀ ε, Spec.pv (mm ε) (fun i => (x ε).h i k) (fun i => (x ε).vn i k) v =
        (4 / (dc * √3) * Cu p.nx p.ny (fun i => (x ε).vn i k) v) * (Mv p.nx p.ny (fun i => (x ε).h i k) v)⁻¹ :=
      fun ε => by
      rw [Spec.pv, spec_curl (hg ε).toGeo _ v0 v1, spec_kiteMean (hg ε).toGeo _ v0 v1, hf ε v v0 v1, add_zero,
        div_eq_mul_inv]
    have hc := fun s => cov_isCell (hg 0).hnx v0 v1 (s := s)
    have cc := fun s => (hx.h1 _ (hc s).1 (hc s).2).continuousAt
    have c0 := fun s => hx.h0 _ (hc s).1 (hc s).2
    have er : ∀ s, 0 ≤ Hex.eov p.nx p.ny v s ∧ Hex.eov p.nx p.ny v s < 3 * (p.nx * p.ny) := fun s => by
      have := eov_isCell (hg 0).hnx v0 v1 (s := s)
      unfold IsCell at this
      constructor <;> omega
    have ed := fun s => hx.v1 _ (er s).1 (er s).2
    have ez := fun s => hx.v0 _ (er s).1 (er s).2
    have m0 : Mv p.nx p.ny (fun i => (x 0).h i k) v = H := by
      simp only [Mv, c0]; ring
    have z0 : Cu p.nx p.ny (fun i => (x 0).vn i k) v = 0 := by
      have := hb.curl (hg 0).hnx v0 v1
      unfold Cu at this ⊢
      simp only [ez]
      exact this
    have zd : HasDerivAt (fun ε => Cu p.nx p.ny (fun i => (x ε).vn i k) v) (Cu p.nx p.ny w.2 v) 0 := by
      unfold Cu
      split_ifs
      · exact ((ed 0).add (ed 1)).sub (ed 2)
      · exact ((ed 2).sub (ed 0)).sub (ed 1)
    have mc : ContinuousAt (fun ε => (Mv p.nx p.ny (fun i => (x ε).h i k) v)⁻¹) 0 := by
      refine ContinuousAt.inv₀ ?_ (by rw [m0]; exact H0.ne')
      exact (((cc 0).add (cc 1)).add (cc 2)).div_const 3
    constructor
    · simp only [cl]
      refine (deriv_mul_cont (zd.const_mul (4 / (dc * √3))) (by rw [z0, mul_zero]) mc).congr_deriv ?_
      rw [m0, spec_curl (hg 0).toGeo _ v0 v1, div_eq_mul_inv _ H]
    · rw [cl, z0, mul_zero, zero_mul]
  have cl : ∀ ε (f : Int → ℝ), Spec.vmean (mm ε) f e =
      (f (Hex.voe p.nx p.ny e 0) + f (Hex.voe p.nx p.ny e 1)) / 2 := fun ε f => by
    have a0 : Spec.vertOf (mm ε) e 0 = Hex.voe p.nx p.ny e 0 := (hg ε).voe e e0 e1 0 (by omega) (by omega)
    have a1 : Spec.vertOf (mm ε) e 1 = Hex.voe p.nx p.ny e 1 := (hg ε).voe e e0 e1 1 (by omega) (by omega)
    rw [Spec.vmean, a0, a1]
  obtain ⟨b0, b1⟩ := vx 0 (Or.inl rfl)
  obtain ⟨d0, d1⟩ := vx 1 (Or.inr rfl)
  constructor
  · simp only [cl]
    exact ((b0.add d0).div_const 2).congr_deriv (by ring)
  · rw [cl, b1, d1]; ring

include H0 hf s2 s3 s4 s5 s6 in
theorem flow_velocity {e : Int} (e0 : 0 ≤ e) (e1 : e < 3 * (p.nx * p.ny)) :
    HasDerivAt (fun ε => Spec.velocityTend (mm ε) sw k (fun i => (x ε).h i k) (fun i => (x ε).vn i k) e)
      ((flowOp (mm 0) sw.prm.grav H b w).2 e) 0 ∧
    Spec.velocityTend (mm 0) sw k (fun i => (x 0).h i k) (fun i => (x 0).vn i k) e = 0 := by
  have hc := fun s => coe_isCell (hg 0).hnx e0 e1 (s := s)
  -- vorticity flux
  have q : HasDerivAt (fun ε => Spec.pvFlux (mm ε) (Spec.vmean (mm ε) (Spec.pv (mm ε) (fun i => (x ε).h i k)
      fun i => (x ε).vn i k)) (fun e => Spec.mean (mm ε) (fun i => (x ε).h i k) e * (x ε).vn e k) e)
      (Spec.pvFlux (mm 0) (Spec.vmean (mm 0) (Spec.curl (mm 0) w.2)) b e) 0 ∧
      Spec.pvFlux (mm 0) (Spec.vmean (mm 0) (Spec.pv (mm 0) (fun i => (x 0).h i k)
      fun i => (x 0).vn i k)) (fun e => Spec.mean (mm 0) (fun i => (x 0).h i k) e * (x 0).vn e k) e = 0 := by
    set Q : ℝ → Int → ℝ := fun ε => Spec.vmean (mm ε) (Spec.pv (mm ε) (fun i => (x ε).h i k)
      fun i => (x ε).vn i k) with hQ
    set F : ℝ → Int → ℝ := fun ε e => Mn p.nx p.ny (fun i => (x ε).h i k) e * (x ε).vn e k with hF
    have cl : ∀ ε, Spec.pvFlux (mm ε) (Q ε) (fun e => Spec.mean (mm ε) (fun i => (x ε).h i k) e * (x ε).vn e k) e =
        1 / √3 * ∑ s ∈ Finset.range 10, wRaw (e % 3) ((s : ℤ) % 5) *
          ((Q ε e + Q ε (eoe p.nx p.ny e s)) / 2 * F ε (eoe p.nx p.ny e s)) := fun ε => by
      rw [spec_pvFlux (hg ε).toGeo _ _ e0 e1, Tw]
      congr 1
      refine Finset.sum_congr rfl fun s hs => ?_
      have hs := Finset.mem_range.1 hs
      obtain ⟨r0, r1⟩ := eoe_range (hg 0).hnx e0 e1 (s := s) (by omega) (by omega)
      rw [spec_mean (hg ε).toGeo _ r0 r1, mul_comm (_ * _) (_ / 2)]
    obtain ⟨c1, v1⟩ := flow_pv hb hg hf H0 hx e0 e1
    set R := Spec.vmean (mm 0) (Spec.curl (mm 0) w.2)
    constructor
    · have : HasDerivAt (fun ε => 1 / √3 * ∑ s ∈ Finset.range 10, wRaw (e % 3) ((s : ℤ) % 5) *
          ((Q ε e + Q ε (eoe p.nx p.ny e s)) / 2 * F ε (eoe p.nx p.ny e s)))
          (1 / √3 * ∑ s ∈ Finset.range 10, wRaw (e % 3) ((s : ℤ) % 5) *
            (b (eoe p.nx p.ny e s) * ((R e + R (eoe p.nx p.ny e s)) / 2))) 0 := by
        refine HasDerivAt.const_mul _ (HasDerivAt.fun_sum fun s hs => HasDerivAt.const_mul _ ?_)
        have hs := Finset.mem_range.1 hs
        obtain ⟨r0, r1⟩ := eoe_range (hg 0).hnx e0 e1 (s := s) (by omega) (by omega)
        obtain ⟨fd, fz⟩ := flow_flux hb hg hx r0 r1
        obtain ⟨c2, v2⟩ := flow_pv hb hg hf H0 hx r0 r1
        refine (deriv_mul_cont ((c1.add c2).div_const 2) (by
          have a : Q 0 e = 0 := v1
          have b : Q 0 (eoe p.nx p.ny e s) = 0 := v2
          show (Q 0 e + Q 0 (eoe p.nx p.ny e s)) / 2 = 0
          rw [a, b]; norm_num) fd.continuousAt).congr_deriv ?_
        rw [fz]
        field_simp
        exact mul_comm _ _
      refine HasDerivAt.congr_deriv (this.congr_of_eventuallyEq (Filter.Eventually.of_forall cl)) ?_
      rw [spec_pvFlux (hg 0).toGeo _ _ e0 e1, Tw]
    · rw [cl, Finset.sum_eq_zero, mul_zero]
      intro s hs
      have hs := Finset.mem_range.1 hs
      obtain ⟨r0, r1⟩ := eoe_range (hg 0).hnx e0 e1 (s := s) (by omega) (by omega)
      have v2 := (flow_pv hb hg hf H0 hx r0 r1).2
      have a : Q 0 e = 0 := v1
      have b : Q 0 (eoe p.nx p.ny e s) = 0 := v2
      rw [a, b]; simp
  -- kinetic energy
  have kc : ∀ c, IsCell p.nx p.ny c → HasDerivAt (fun ε => Spec.kinetic (mm ε) (fun i => (x ε).vn i k) c)
      (kinLin (mm 0) b w.2 c) 0 ∧
      Spec.kinetic (mm 0) (fun i => (x 0).vn i k) c = (β 0 ^ 2 + β 1 ^ 2 + β 2 ^ 2) / 3 := fun c hcc => by
    have cl : ∀ ε, Spec.kinetic (mm ε) (fun i => (x ε).vn i k) c =
        1 / 6 * Sd p.nx p.ny (fun e => (x ε).vn e k * (x ε).vn e k) c := fun ε => spec_kinetic (hg ε).toGeo _ hcc
    have er := fun j a b => E_range (hg 0).hnx hcc j a b
    have z : ∀ j, 0 ≤ j → j < 6 → HasDerivAt (fun ε => (x ε).vn (E p.nx p.ny c j) k * (x ε).vn (E p.nx p.ny c j) k)
        (2 * (b (E p.nx p.ny c j) * w.2 (E p.nx p.ny c j))) 0 := fun j a b => by
      have d := hx.v1 _ (er j a b).1 (er j a b).2
      refine (d.mul d).congr_deriv ?_
      rw [hx.v0 _ (er j a b).1 (er j a b).2]; ring
    have z' : ∀ j, 0 ≤ j → j < 6 → (x 0).vn (E p.nx p.ny c j) k = β (j % 3) :=
      fun j j0 j6 => by rw [hx.v0 _ (er j j0 j6).1 (er j j0 j6).2, hb.side (hg 0).hnx hcc j0 j6]
    constructor
    · simp only [cl]
      have := ((((((z 0 (by norm_num) (by norm_num)).add (z 1 (by norm_num) (by norm_num))).add
        (z 2 (by norm_num) (by norm_num))).add (z 3 (by norm_num) (by norm_num))).add
        (z 4 (by norm_num) (by norm_num))).add (z 5 (by norm_num) (by norm_num))).const_mul (1 / 6)
      refine this.congr_deriv ?_
      rw [kinLin_hex (hg 0).toGeo _ _ hcc, Sd]; ring
    · rw [cl, Sd, z' 0 (by norm_num) (by norm_num), z' 1 (by norm_num) (by norm_num),
        z' 2 (by norm_num) (by norm_num), z' 3 (by norm_num) (by norm_num), z' 4 (by norm_num) (by norm_num),
        z' 5 (by norm_num) (by norm_num)]
      norm_num
      ring
  have kg : HasDerivAt (fun ε => Spec.grad (mm ε) (Spec.kinetic (mm ε) fun i => (x ε).vn i k) e)
      (Spec.grad (mm 0) (kinLin (mm 0) b w.2) e) 0 ∧
      Spec.grad (mm 0) (Spec.kinetic (mm 0) fun i => (x 0).vn i k) e = 0 := by
    have cl : ∀ ε, Spec.grad (mm ε) (Spec.kinetic (mm ε) fun i => (x ε).vn i k) e =
        (Spec.kinetic (mm ε) (fun i => (x ε).vn i k) (Hex.coe p.nx p.ny e 1) -
          Spec.kinetic (mm ε) (fun i => (x ε).vn i k) (Hex.coe p.nx p.ny e 0)) / dc := fun ε => by
      rw [spec_grad (hg ε).toGeo _ e0 e1, Gr]
    constructor
    · simp only [cl]
      refine (((kc _ (hc 1)).1.sub (kc _ (hc 0)).1).div_const dc).congr_deriv ?_
      rw [spec_grad (hg 0).toGeo _ e0 e1, Gr]
    · rw [cl, (kc _ (hc 1)).2, (kc _ (hc 0)).2]; ring
  -- pressure
  have hgr : HasDerivAt (fun ε => Spec.grad (mm ε) (fun i => (x ε).h i k) e) (Spec.grad (mm 0) w.1 e) 0 ∧
      Spec.grad (mm 0) (fun i => (x 0).h i k) e = 0 := by
    have cl : ∀ ε, Spec.grad (mm ε) (fun i => (x ε).h i k) e = ((x ε).h (Hex.coe p.nx p.ny e 1) k -
        (x ε).h (Hex.coe p.nx p.ny e 0) k) / dc := fun ε => spec_grad (hg ε).toGeo _ e0 e1
    constructor
    · simp only [cl]
      refine (((hx.h1 _ (hc 1).1 (hc 1).2).sub (hx.h1 _ (hc 0).1 (hc 0).2)).div_const dc).congr_deriv ?_
      rw [spec_grad (hg 0).toGeo _ e0 e1, Gr]
    · rw [cl, hx.h0 _ (hc 1).1 (hc 1).2, hx.h0 _ (hc 0).1 (hc 0).2]; ring
  have cl : ∀ ε, Spec.velocityTend (mm ε) sw k (fun i => (x ε).h i k) (fun i => (x ε).vn i k) e =
      Spec.pvFlux (mm ε) (Spec.vmean (mm ε) (Spec.pv (mm ε) (fun i => (x ε).h i k) fun i => (x ε).vn i k))
        (fun e => Spec.mean (mm ε) (fun i => (x ε).h i k) e * (x ε).vn e k) e -
      Spec.grad (mm ε) (Spec.kinetic (mm ε) fun i => (x ε).vn i k) e -
      sw.prm.grav * Spec.grad (mm ε) (fun i => (x ε).h i k) e := fun ε => by
    simp [Spec.velocityTend, s2, s3, s4, s5, s6]
  constructor
  · simp only [cl]
    exact (q.1.sub kg.1).sub (hgr.1.const_mul _)
  · rw [cl, q.2, kg.2, hgr.2]; ring

end

/-- The tendency is zero in a uniform flow, and its derivative is the linear operator. -/
theorem flow_tend {b β : Int → ℝ} (hb : IsFlow p b β) {mm : ℝ → Mem ℝ}
    (hg : ∀ ε, Geo2 p.nx p.ny p.dims.nlayers dc (mm ε).mesh)
    (hf : ∀ ε v, 0 ≤ v → v < p.dims.nvertices → (mm ε).real .f_vertex 0 v 0 = 0)
    {sw : SWModel ℝ} (s1 : sw.en_hadv = true) (s2 : sw.en_pv = true) (s3 : sw.en_ke = true)
    (s4 : sw.en_ssh = true) (s5 : sw.en_vdiff = false) (s6 : sw.en_vhyper = false)
    (n1 : sw.prm.disable_h = false) (n2 : sw.prm.disable_vn = false) {k : Int} {H : ℝ} (H0 : 0 < H) :
    FlowTangent p k (fun ε => genSys p.dims sw noHook (mm ε)) H b (flowOp (mm 0) sw.prm.grav H b) := by
  intro mode t o x z w hx ho
  have th := fun ε => (tend_val (m := mm ε) p.dims sw mode t (o ε) (x ε)).1
  have tv := fun ε => (tend_val (m := mm ε) p.dims sw mode t (o ε) (x ε)).2.1
  simp only [n1, n2, Bool.false_eq_true, if_false] at th tv
  refine ⟨fun c c0 c1 => ?_, fun e e0 e1 => ?_, fun c c0 c1 => ?_, fun e e0 e1 => ?_⟩
  · rw [th, (flow_thickness hb hg s1 hx ⟨c0, c1⟩).2]
    split_ifs with hm
    · rw [add_zero]
    · rw [(ho.resolve_left hm).h0 c c0 c1, add_zero]
  · rw [tv, (flow_velocity hb hg hf s2 s3 s4 s5 s6 H0 hx e0 e1).2]
    split_ifs with hm
    · rw [add_zero]
    · rw [(ho.resolve_left hm).v0 e e0 e1, add_zero]
  · simp only [th]
    have d := (flow_thickness hb hg s1 hx ⟨c0, c1⟩).1
    split_ifs with hm
    · exact (d.const_add 0).congr_deriv (by simp)
    · exact ((ho.resolve_left hm).h1 c c0 c1).add d
  · simp only [tv]
    have d := (flow_velocity hb hg hf s2 s3 s4 s5 s6 H0 hx e0 e1).1
    split_ifs with hm
    · exact (d.const_add 0).congr_deriv (by simp)
    · exact ((ho.resolve_left hm).v1 e e0 e1).add d

/-! ### Waves -/

/-- the disturbance is the wave with complex amplitude `z`: thickness `cos (k·x - θ)` times the real part and
`sin (k·x - θ)` times the imaginary part, and the velocity of the gravity wave with frequency `ω` that goes with it -/
def IsWave (p : MeshParams) (m : Mem ℝ) (g ω dc k1 k2 θ : ℝ) (w : (Int → ℝ) × (Int → ℝ)) (z : ℂ) : Prop :=
  (∀ c, 0 ≤ c → c < p.dims.ncells →
    w.1 c = z.re * waveH m k1 k2 θ c + z.im * waveH m k1 k2 (θ + Real.pi / 2) c) ∧
  ∀ e, 0 ≤ e → e < p.dims.nedges →
    w.2 e = z.re * waveU m g ω dc k1 k2 θ e + z.im * waveU m g ω dc k1 k2 (θ + Real.pi / 2) e

theorem IsWave.add {g ω k1 k2 θ : ℝ} {w w' : (Int → ℝ) × (Int → ℝ)} {z z' : ℂ}
    (hw : IsWave p m g ω dc k1 k2 θ w z) (hw' : IsWave p m g ω dc k1 k2 θ w' z') :
    IsWave p m g ω dc k1 k2 θ (w + w') (z + z') :=
  ⟨fun c c0 c1 => by
    show w.1 c + w'.1 c = _
    rw [hw.1 c c0 c1, hw'.1 c c0 c1, Complex.add_re, Complex.add_im]; ring,
  fun e e0 e1 => by
    show w.2 e + w'.2 e = _
    rw [hw.2 e e0 e1, hw'.2 e e0 e1, Complex.add_re, Complex.add_im]; ring⟩

theorem IsWave.smul {g ω k1 k2 θ : ℝ} {w : (Int → ℝ) × (Int → ℝ)} {z : ℂ}
    (hw : IsWave p m g ω dc k1 k2 θ w z) (a : ℝ) : IsWave p m g ω dc k1 k2 θ (a • w) (a * z) :=
  ⟨fun c c0 c1 => by
    show a * w.1 c = _
    rw [hw.1 c c0 c1, Complex.re_ofReal_mul, Complex.im_ofReal_mul]; ring,
  fun e e0 e1 => by
    show a * w.2 e = _
    rw [hw.2 e e0 e1, Complex.re_ofReal_mul, Complex.im_ofReal_mul]; ring⟩

section
variable (hv : RunValid p) (hx : 2 ≤ p.nx) (hny : p.ny % 2 = 0) (hdc : 0 < dc) {prm : Params ℝ}
  (hr : Ready p dc prm m) {κx κy : ℝ} (hk : Fits p dc κx κy) (U W : ℝ) {g H ω : ℝ} (g0 : 0 < g) (H0 : 0 < H)
  (w0 : 0 < ω) (hw : ω ^ 2 = g * H * lapSymbol dc κx κy)
include hv hx hny hdc hr hk g0 H0 w0 hw

/-- the linear equations turn the phase of the wave -/
theorem IsWave.tend {θ : ℝ} {w : (Int → ℝ) × (Int → ℝ)} {z : ℂ} (h : IsWave p m g ω dc κx κy θ w z) :
    IsWave p m g ω dc κx κy θ (flowOp m g H (normalOf m (fun _ => U) (fun _ => W)) w)
      ((ω + advSymbol dc U W κx κy : ℝ) * Complex.I * z) := by
  obtain ⟨hd, hc⟩ := ready_ok hv hr
  have G := Ready.geo2 hr hv.toValid hx (by have := hv.toValid.ny_pos; omega) hdc
  obtain ⟨m', hb, hs⟩ := ready_mesh hr
  have fl := isFlow hv.toValid hb hs U W
  have gr := fun θ e a b => wave_grad G hv.toValid hx hny hb hs g0 H0 w0 hw hk θ (e := e) a b
  have dv := fun θ c a => wave_div G hv.toValid hx hny hb hs g0 H0 w0 hw hk θ (c := c) a
  have ad := fun θ c a => adv_ready hv hx hny hdc hr hk U W θ (c := c) a
  set b := normalOf m (fun _ => U) (fun _ => W)
  set a := advSymbol dc U W κx κy
  have sn : ∀ θ c, Real.sin (dotK κx κy (cellAt m c) - θ) = waveH m κx κy (θ + Real.pi / 2) c := fun θ c => by
    unfold waveH; rw [← sub_sub, Real.cos_sub_pi_div_two]
  simp only [sn] at ad
  have neg : ∀ θ c, waveH m κx κy (θ + Real.pi / 2 + Real.pi / 2) c = -waveH m κx κy θ c := fun θ c => by
    unfold waveH
    rw [show dotK κx κy (cellAt m c) - (θ + Real.pi / 2 + Real.pi / 2) = dotK κx κy (cellAt m c) - θ - Real.pi by ring,
      Real.cos_sub_pi]
  have negU : ∀ θ e, waveU m g ω dc κx κy (θ + Real.pi / 2 + Real.pi / 2) e = -waveU m g ω dc κx κy θ e :=
    fun θ e => by
    unfold waveU
    rw [show dotK κx κy (edgeAt m e) - (θ + Real.pi / 2 + Real.pi / 2) = dotK κx κy (edgeAt m e) - θ - Real.pi by ring,
      Real.cos_sub_pi]
    ring
  have re : (((ω + a : ℝ) : ℂ) * Complex.I * z).re = -((ω + a) * z.im) := by
    simp [Complex.mul_re, Complex.mul_im]
  have im : (((ω + a : ℝ) : ℂ) * Complex.I * z).im = (ω + a) * z.re := by
    simp [Complex.mul_re, Complex.mul_im]
  -- the velocity has a potential
  set Ψ : Int → ℝ := fun c => g / ω * (z.re * waveH m κx κy (θ + Real.pi / 2) c - z.im * waveH m κx κy θ c) with hΨ
  have pot : ∀ e, 0 ≤ e → e < p.dims.nedges → w.2 e = Spec.grad m Ψ e := fun e e0 e1 => by
    have g1 := gr θ e e0 e1
    have g2 := gr (θ + Real.pi / 2) e e0 e1
    rw [negU] at g2
    rw [h.2 e e0 e1, hΨ, show Spec.grad m (fun c => g / ω * (z.re * waveH m κx κy (θ + Real.pi / 2) c -
      z.im * waveH m κx κy θ c)) e = z.re / ω * (g * Spec.grad m (waveH m κx κy (θ + Real.pi / 2)) e) -
      z.im / ω * (g * Spec.grad m (waveH m κx κy θ) e) by unfold Spec.grad; ring, g1, g2]
    field_simp
    ring
  refine ⟨fun c c0 c1 => ?_, fun e e0 e1 => ?_⟩
  · show -(Spec.div m (fun e => Spec.mean m w.1 e * b e) c + H * Spec.div m w.2 c) = _
    have e1 : Spec.div m (fun e => Spec.mean m w.1 e * b e) c =
        z.re * Spec.div m (fun e => Spec.mean m (waveH m κx κy θ) e * b e) c +
        z.im * Spec.div m (fun e => Spec.mean m (waveH m κx κy (θ + Real.pi / 2)) e * b e) c := by
      rw [← div_mul', ← div_mul', ← div_add']
      refine div_congr hc (fun e e0 e1 => ?_) c0 c1
      rw [mean_congr hc h.1 e0 e1]
      unfold Spec.mean; ring
    have e2 : Spec.div m w.2 c = z.re * Spec.div m (waveU m g ω dc κx κy θ) c +
        z.im * Spec.div m (waveU m g ω dc κx κy (θ + Real.pi / 2)) c := by
      rw [← div_mul', ← div_mul', ← div_add']
      exact div_congr hc h.2 c0 c1
    have d1 := dv θ c ⟨c0, c1⟩
    have d2 := dv (θ + Real.pi / 2) c ⟨c0, c1⟩
    rw [neg] at d2
    rw [e1, e2, ad θ c ⟨c0, c1⟩, ad _ c ⟨c0, c1⟩, neg, re, im]
    linear_combination z.re * d1 + z.im * d2
  · show Spec.pvFlux m (Spec.vmean m (Spec.curl m w.2)) b e - Spec.grad m (kinLin m b w.2) e -
      g * Spec.grad m w.1 e = _
    have q0 : ∀ e, 0 ≤ e → e < p.dims.nedges → Spec.vmean m (Spec.curl m w.2) e = 0 := fun e e0 e1 => by
      obtain ⟨a0, a1⟩ := hc.voe e e0 e1 0 (by omega) (by omega)
      obtain ⟨b0, b1⟩ := hc.voe e e0 e1 1 (by omega) (by omega)
      have cu : ∀ v, 0 ≤ v → v < p.dims.nvertices → Spec.curl m w.2 v = 0 := fun v v0 v1 => by
        rw [curl_congr hc pot v0 v1, curl_grad G.toGeo hny _ v0 v1]
      unfold Spec.vmean Spec.vertOf
      rw [cu _ a0 a1, cu _ b0 b1]; norm_num
    have p0 : Spec.pvFlux m (Spec.vmean m (Spec.curl m w.2)) b e = 0 := by
      unfold Spec.pvFlux
      refine Finset.sum_eq_zero fun j hj => ?_
      obtain ⟨j0, j1⟩ := Finset.mem_Ico.mp hj
      obtain ⟨r0, r1⟩ := hc.eoe e e0 e1 j j0 j1
      rw [q0 e e0 e1, q0 _ r0 r1]; norm_num
    have kg : ∀ c, 0 ≤ c → c < p.dims.ncells → kinLin m b w.2 c =
        g / ω * a * (z.re * waveH m κx κy θ c + z.im * waveH m κx κy (θ + Real.pi / 2) c) := fun c c0 c1 => by
      have k1 : kinLin m b w.2 c = kinLin m b (Spec.grad m Ψ) c := by
        unfold kinLin
        rw [kinetic_congr hc (u := fun e => b e + w.2 e) (v := fun e => b e + Spec.grad m Ψ e)
            (fun e e0 e1 => by rw [pot e e0 e1]) c0 c1,
          kinetic_congr hc (u := fun e => b e - w.2 e) (v := fun e => b e - Spec.grad m Ψ e)
            (fun e e0 e1 => by rw [pot e e0 e1]) c0 c1]
      rw [k1, fl.kin_grad G Ψ ⟨c0, c1⟩]
      have e1 : (fun e => Spec.mean m Ψ e * b e) = fun e =>
          g / ω * z.re * (Spec.mean m (waveH m κx κy (θ + Real.pi / 2)) e * b e) +
          -(g / ω * z.im) * (Spec.mean m (waveH m κx κy θ) e * b e) := by
        funext e; simp only [hΨ, Spec.mean]; ring
      rw [e1, div_add', div_mul', div_mul', ad θ c ⟨c0, c1⟩, ad _ c ⟨c0, c1⟩, neg]
      ring
    have g1 := gr θ e e0 e1
    have g2 := gr (θ + Real.pi / 2) e e0 e1
    rw [negU] at g2
    rw [p0, grad_congr hc kg e0 e1, grad_congr hc h.1 e0 e1, re, im,
      show Spec.grad m (fun c => g / ω * a * (z.re * waveH m κx κy θ c + z.im * waveH m κx κy (θ + Real.pi / 2) c)) e =
        a / ω * (z.re * (g * Spec.grad m (waveH m κx κy θ) e) +
          z.im * (g * Spec.grad m (waveH m κx κy (θ + Real.pi / 2)) e)) by unfold Spec.grad; ring,
      show g * Spec.grad m (fun c => z.re * waveH m κx κy θ c + z.im * waveH m κx κy (θ + Real.pi / 2) c) e =
        z.re * (g * Spec.grad m (waveH m κx κy θ) e) +
          z.im * (g * Spec.grad m (waveH m κx κy (θ + Real.pi / 2)) e) by unfold Spec.grad; ring, g1, g2]
    field_simp
    ring

theorem IsWave.poly (dt : ℝ) (P : ℝ[X]) {θ : ℝ} {w : (Int → ℝ) × (Int → ℝ)} {z : ℂ}
    (h : IsWave p m g ω dc κx κy θ w z) :
    IsWave p m g ω dc κx κy θ (aeval (dt • flowOp m g H (normalOf m (fun _ => U) (fun _ => W))) P w)
      (aeval ((dt * (ω + advSymbol dc U W κx κy) : ℝ) * Complex.I) P * z) := by
  induction P using Polynomial.induction_on' with
  | add P Q hP hQ =>
    rw [map_add, map_add, LinearMap.add_apply, add_mul]
    exact hP.add hQ
  | monomial n a =>
    rw [aeval_monomial, aeval_monomial, ← Algebra.smul_def, LinearMap.smul_apply]
    have : ∀ n : ℕ, IsWave p m g ω dc κx κy θ
        (((dt • flowOp m g H (normalOf m (fun _ => U) (fun _ => W))) ^ n) w)
        (((dt * (ω + advSymbol dc U W κx κy) : ℝ) * Complex.I) ^ n * z) := fun n => by
      induction n with
      | zero => simpa using h
      | succ n ih =>
        rw [pow_succ', pow_succ', Module.End.mul_apply]
        have := (IsWave.tend hv hx hny hdc hr hk U W g0 H0 w0 hw ih).smul dt
        rw [LinearMap.smul_apply]
        convert this using 1
        push_cast; ring
    have := (this n).smul a
    rw [← mul_assoc] at this
    exact this

end

/-- **C117.**  Gravity waves on a uniform flow.  Without rotation and viscosity, on a mesh with an even number of rows,
perturb the layer of thickness `H` that moves with the constant velocity `(U, W)` by the plane gravity wave
`cos (k·x - θ₀)` of `C98_travelling_wave`.  The unperturbed layer keeps its thickness and velocity.  After `N` steps of
size `dt` the first-order response is the same wave, its amplitude scaled by `A` and its phase advanced by `τ`, where
`A exp (i τ)` is the `N`-th power of the stability polynomial of the stepper at `i dt (ω + a)`.  Here `ω` is the
frequency of the wave on a layer at rest and `a` the frequency at which the flow carries a tracer with the same wave
vector (`C111_wave_in_flow`). -/
theorem C117_wave_on_flow (stp : Stepper) (hv : RunValid p) (hnx : 2 ≤ p.nx)
    (hny : p.ny % 2 = 0) (hdc : 0 < dc) {prm : Params ℝ} (n1 : prm.disable_h = false)
    (n2 : prm.disable_vn = false) (n3 : prm.visc_del2 ≤ 0) (n4 : prm.visc_del4 ≤ 0) (g0 : 0 < prm.grav)
    (n5 : prm.f0 = 0) {H : ℝ} (H0 : 0 < H) (U W : ℝ) {k1 k2 ω θ₀ : ℝ} (hk : Fits p dc k1 k2) (w0 : 0 < ω)
    (hw : ω ^ 2 = prm.grav * H * lapSymbol dc k1 k2)
    {k : Int} (k0 : 0 ≤ k) (kl : k < p.dims.nlayers) {m m1 : ℝ → Mem ℝ}
    (hr : ∀ ε, Ready p dc prm (m ε))
    (ha0 : ∀ c, 0 ≤ c → c < p.dims.ncells → (m 0).real (.h_cell .state) 0 c k = H)
    (hb0 : ∀ e, 0 ≤ e → e < p.dims.nedges → (m 0).real (.vn_edge .state) 0 e k =
      U * Real.cos ((m 0).real .angle_edge 0 e 0) + W * Real.sin ((m 0).real .angle_edge 0 e 0))
    (ha : ∀ c, 0 ≤ c → c < p.dims.ncells →
      HasDerivAt (fun ε => (m ε).real (.h_cell .state) 0 c k) (waveH (m 0) k1 k2 θ₀ c) 0)
    (hb : ∀ e, 0 ≤ e → e < p.dims.nedges →
      HasDerivAt (fun ε => (m ε).real (.vn_edge .state) 0 e k) (waveU (m 0) prm.grav ω dc k1 k2 θ₀ e) 0)
    {sched : List (ℝ × ℝ)} {dt : ℝ} (hs : ∀ q ∈ sched, q.2 = dt) {split : Bool}
    (he : ∀ ε, Exec p.dims (stp.ctor p.dims ++ stp.run p.dims
      ⟨defaultKernels p.dims.vl, split⟩ (SWModel.ofParams prm) sched) (m ε) (m1 ε))
    {A τ : ℝ} (hP : aeval ((dt * (ω + advSymbol dc U W k1 k2) : ℝ) * Complex.I) (stabPoly stp) ^ sched.length =
      A * Complex.exp (τ * Complex.I)) :
    (∀ c, 0 ≤ c → c < p.dims.ncells → (m1 0).real (.h_cell .state) 0 c k = H ∧
      HasDerivAt (fun ε => (m1 ε).real (.h_cell .state) 0 c k) (A * waveH (m 0) k1 k2 (θ₀ + τ) c) 0) ∧
    ∀ e, 0 ≤ e → e < p.dims.nedges → (m1 0).real (.vn_edge .state) 0 e k =
        U * Real.cos ((m 0).real .angle_edge 0 e 0) + W * Real.sin ((m 0).real .angle_edge 0 e 0) ∧
      HasDerivAt (fun ε => (m1 ε).real (.vn_edge .state) 0 e k)
        (A * waveU (m 0) prm.grav ω dc k1 k2 (θ₀ + τ) e) 0 := by
  have hny2 : 2 ≤ p.ny := by have := hv.ny_pos; omega
  have hg := fun ε => Ready.geo2 (hr ε) hv.toValid hnx hny2 hdc
  have hf := fun ε => (Ready.hex hv.toValid (hr ε)).2.1
  rw [n5] at hf
  obtain ⟨m', hbt, hsm⟩ := ready_mesh (hr 0)
  set sw := SWModel.ofParams prm with hsw
  have s5 : sw.en_vdiff = false := by
    show decide ((lit 0 : ℝ) < prm.visc_del2) = false
    simp [n3]
  have s6 : sw.en_vhyper = false := by
    show decide ((lit 0 : ℝ) < prm.visc_del4) = false
    simp [n4]
  have v := fun ε => by
    obtain ⟨hd, hc⟩ := ready_ok hv (hr ε)
    exact ((genSetup hd hc (hookOK_noHook (noHook_ofParams prm) p.dims (m ε))).newRun (he ε)).2.2
  set b := normalOf (m 0) (fun _ => U) (fun _ => W) with hbd
  have be : ∀ e, b e = U * Real.cos ((m 0).real .angle_edge 0 e 0) + W * Real.sin ((m 0).real .angle_edge 0 e 0) :=
    fun e => by rw [hbd]; unfold normalOf normal; ring
  have init : OverFlow p.dims k (fun ε => (m ε).fld .state) H b
      (waveH (m 0) k1 k2 θ₀, waveU (m 0) prm.grav ω dc k1 k2 θ₀) :=
    ⟨ha0, fun e e0 e1 => (hb0 e e0 e1).trans (be e).symm, ha, hb⟩
  have key := flow_run (flow_tend (isFlow hv.toValid hbt hsm U W) hg hf (sw := sw) rfl rfl rfl rfl s5 s6 n1 n2
    (k := k) H0) stp sched (x := fun ε => (zeroFld, (m ε).fld .state)) init
  rw [fold_pow _ _ sched hs] at key
  rw [← map_pow] at hP
  have wave : IsWave p (m 0) prm.grav ω dc k1 k2 θ₀
      (waveH (m 0) k1 k2 θ₀, waveU (m 0) prm.grav ω dc k1 k2 θ₀) 1 :=
    ⟨fun c _ _ => by simp, fun e _ _ => by simp⟩
  have res := IsWave.poly hv hnx hny hdc (hr 0) hk U W g0 H0 w0 hw dt (stabPoly stp ^ sched.length) wave
  rw [hP, mul_one] at res
  have re : ((A : ℂ) * Complex.exp (τ * Complex.I)).re = A * Real.cos τ := by
    rw [Complex.re_ofReal_mul, Complex.exp_ofReal_mul_I_re]
  have im : ((A : ℂ) * Complex.exp (τ * Complex.I)).im = A * Real.sin τ := by
    rw [Complex.im_ofReal_mul, Complex.exp_ofReal_mul_I_im]
  obtain ⟨r1, r2⟩ := res
  rw [re, im] at r1 r2
  refine ⟨fun c c0 c1 => ⟨((v 0).h c k c0 c1 k0 kl).trans (key.h0 c c0 c1), ?_⟩,
    fun e e0 e1 => ⟨((v 0).vn e k e0 e1 k0 kl).trans ((key.v0 e e0 e1).trans (be e)), ?_⟩⟩
  · refine ((key.h1 c c0 c1).congr_of_eventuallyEq
      (Filter.Eventually.of_forall fun ε => (v ε).h c k c0 c1 k0 kl)).congr_deriv ((r1 c c0 c1).trans ?_)
    unfold waveH
    rw [← sub_sub, ← sub_sub, Real.cos_sub_pi_div_two, Real.cos_sub _ τ]
    ring
  · refine ((key.v1 e e0 e1).congr_of_eventuallyEq
      (Filter.Eventually.of_forall fun ε => (v ε).vn e k e0 e1 k0 kl)).congr_deriv ((r2 e e0 e1).trans ?_)
    unfold waveU
    rw [← sub_sub, ← sub_sub, Real.cos_sub_pi_div_two, Real.cos_sub _ τ]
    ring

/-- **C117.**  With the classical stepper no gravity wave on a uniform flow of speed `s` grows as long as
`dt (4/3 s + √6 √(g H)) ≤ 2 √2 dc`, and each stays within `N |z|⁵ / 60`, `z = dt (ω + a)`, of the wave that travels at
the frequency of the discrete equations. -/
theorem C117_no_growth (hdc : 0 < dc) {g H U W k1 k2 ω dt : ℝ} (g0 : 0 ≤ g) (H0 : 0 ≤ H) (w0 : 0 ≤ ω)
    (hw : ω ^ 2 = g * H * lapSymbol dc k1 k2) (t0 : 0 ≤ dt)
    (cfl : dt * (4 / 3 * √(U ^ 2 + W ^ 2) + √6 * √(g * H)) ≤ 2 * √2 * dc) (n : ℕ) {A τ : ℝ} (A0 : 0 ≤ A)
    (hP : aeval ((dt * (ω + advSymbol dc U W k1 k2) : ℝ) * Complex.I) (stabPoly .rk4) ^ n =
      A * Complex.exp (τ * Complex.I)) :
    A ≤ 1 ∧ ∀ φ : ℝ, |A * Real.cos (φ - τ) - Real.cos (φ - n * (dt * (ω + advSymbol dc U W k1 k2)))| ≤
      n * (|dt * (ω + advSymbol dc U W k1 k2)| ^ 5 / 60) := by
  refine C98_phase_error _ ?_ n A0 hP
  have q6 : √6 ^ 2 = (6 : ℝ) := Real.sq_sqrt (by norm_num)
  have q2 : √2 ^ 2 = (2 : ℝ) := Real.sq_sqrt (by norm_num)
  have qc : √(g * H) ^ 2 = g * H := Real.sq_sqrt (by positivity)
  have qs : √(U ^ 2 + W ^ 2) ^ 2 = U ^ 2 + W ^ 2 := Real.sq_sqrt (by positivity)
  have a : |advSymbol dc U W k1 k2| ≤ 4 / 3 * √(U ^ 2 + W ^ 2) / dc := by
    refine abs_le_of_sq_le_sq ?_ (by positivity)
    rw [div_pow, mul_pow, qs]
    exact (advSymbol_le hdc U W k1 k2).trans (le_of_eq (by ring))
  have o : ω ≤ √6 * √(g * H) / dc := by
    refine abs_le_of_sq_le_sq' ?_ (by positivity) |>.2
    obtain ⟨-, -, -, l⟩ := C98_dispersion_bounds hdc k1 k2
    rw [hw, div_pow, mul_pow, q6, qc]
    exact (mul_le_mul_of_nonneg_left l (by positivity)).trans (le_of_eq (by ring))
  have s : |dt * (ω + advSymbol dc U W k1 k2)| ≤ 2 * √2 := by
    rw [abs_mul, abs_of_nonneg t0]
    have : |ω + advSymbol dc U W k1 k2| ≤ (4 / 3 * √(U ^ 2 + W ^ 2) + √6 * √(g * H)) / dc := by
      refine (abs_add_le _ _).trans ?_
      rw [abs_of_nonneg w0, add_div, add_comm]
      exact add_le_add a o
    refine (mul_le_mul_of_nonneg_left this t0).trans ?_
    rw [mul_div_assoc', div_le_iff₀ hdc]
    exact cfl
  rw [← sq_abs]
  refine (pow_le_pow_left₀ (abs_nonneg _) s 2).trans (le_of_eq ?_)
  rw [mul_pow, q2]; norm_num

/-- Seven steps of either stepper on a wave carried across the flow `(1/2, 1/3)`. -/
example (stp : Stepper) : ∃ (prm : Params ℝ) (k1 ω : ℝ) (m m1 : ℝ → Mem ℝ) (sched : List (ℝ × ℝ)) (A τ : ℝ),
    RunValid p46 ∧ 2 ≤ p46.nx ∧ p46.ny % 2 = 0 ∧ prm.disable_h = false ∧ prm.disable_vn = false ∧
    prm.visc_del2 ≤ 0 ∧ prm.visc_del4 ≤ 0 ∧ prm.grav = 9 ∧ prm.f0 = 0 ∧ Fits p46 (1 / 4) k1 0 ∧ 0 < ω ∧
    ω ^ 2 = prm.grav * 2 * lapSymbol (1 / 4) k1 0 ∧ (0 : Int) ≤ 2 ∧ 2 < p46.dims.nlayers ∧
    (∀ ε, Ready p46 (1 / 4) prm (m ε)) ∧
    (∀ c, 0 ≤ c → c < p46.dims.ncells → (m 0).real (.h_cell .state) 0 c 2 = 2) ∧
    (∀ e, 0 ≤ e → e < p46.dims.nedges → (m 0).real (.vn_edge .state) 0 e 2 =
      1 / 2 * Real.cos ((m 0).real .angle_edge 0 e 0) + 1 / 3 * Real.sin ((m 0).real .angle_edge 0 e 0)) ∧
    (∀ c, 0 ≤ c → c < p46.dims.ncells →
      HasDerivAt (fun ε => (m ε).real (.h_cell .state) 0 c 2) (waveH (m 0) k1 0 1 c) 0) ∧
    (∀ e, 0 ≤ e → e < p46.dims.nedges →
      HasDerivAt (fun ε => (m ε).real (.vn_edge .state) 0 e 2) (waveU (m 0) prm.grav ω (1 / 4) k1 0 1 e) 0) ∧
    sched.length = 7 ∧ (∀ q ∈ sched, q.2 = 1 / 50) ∧ 0 ≤ A ∧
    aeval ((1 / 50 * (ω + advSymbol (1 / 4) (1 / 2) (1 / 3) k1 0) : ℝ) * Complex.I) (stabPoly stp) ^ sched.length =
      A * Complex.exp (τ * Complex.I) ∧
    (1 / 50 : ℝ) * (4 / 3 * √((1 / 2) ^ 2 + (1 / 3) ^ 2) + √6 * √(prm.grav * 2)) ≤ 2 * √2 * (1 / 4) ∧
    ∀ ε, Exec p46.dims (stp.ctor p46.dims ++ stp.run p46.dims
      ⟨defaultKernels p46.dims.vl, true⟩ (SWModel.ofParams prm) sched) (m ε) (m1 ε) := by
  obtain ⟨prm, hprm⟩ : ∃ q : Params ℝ, q = ⟨0, 9, 0, 0, 0, 0, false, false⟩ := ⟨_, rfl⟩
  have v := p46_run.toValid
  obtain ⟨k1, hk1⟩ : ∃ k : ℝ, k = 2 * Real.pi := ⟨_, rfl⟩
  have per : periodX p46.nx (1 / 4 : ℝ) = 1 := by
    show ((4 : Int) : ℝ) * (1 / 4) = 1
    norm_num
  have fits : Fits p46 (1 / 4) k1 0 := ⟨⟨1, by rw [per, hk1]; simp⟩, 0, by simp⟩
  have sym : lapSymbol (1 / 4) k1 0 = 64 - 128 / 3 * Real.cos (Real.pi / 4) := by
    unfold lapSymbol
    rw [hk1, show (1 / 4 : ℝ) * (2 * Real.pi) = Real.pi / 2 by ring,
      show (1 / 4 : ℝ) * (2 * Real.pi / 2 + √3 / 2 * 0) = Real.pi / 4 by ring,
      show (1 / 4 : ℝ) * (2 * Real.pi / 2 - √3 / 2 * 0) = Real.pi / 4 by ring, Real.cos_pi_div_two]
    ring
  have pos : 0 < lapSymbol (1 / 4) k1 0 := by
    rw [sym]; have := Real.cos_le_one (Real.pi / 4); linarith
  obtain ⟨ω, hω⟩ : ∃ w : ℝ, w = √(9 * 2 * lapSymbol (1 / 4) k1 0) := ⟨_, rfl⟩
  have w0 : 0 < ω := by rw [hω]; positivity
  have w2 : ω ^ 2 = prm.grav * 2 * lapSymbol (1 / 4) k1 0 := by
    rw [hω, Real.sq_sqrt (by positivity), hprm]
  obtain ⟨m₀, hr₀, -, -⟩ := exists_ready v (1 / 4) prm ⟨fun _ _ => 0, fun _ _ => 0, fun _ _ _ => 0⟩ zeroFld
  have ex := fun ε : ℝ => exists_ready v (1 / 4) prm
    ⟨fun c _ => 2 + ε * waveH m₀ k1 0 1 c,
     fun e _ => (1 / 2 * Real.cos (m₀.real .angle_edge 0 e 0) + 1 / 3 * Real.sin (m₀.real .angle_edge 0 e 0)) +
       ε * waveU m₀ prm.grav ω (1 / 4) k1 0 1 e, fun _ _ _ => 0⟩ zeroFld
  choose m hr hx _ using ex
  obtain ⟨sched, hsch⟩ : ∃ s : List (ℝ × ℝ), s = List.replicate 7 (0, 1 / 50) := ⟨_, rfl⟩
  have run := fun ε => by
    obtain ⟨hd, hc⟩ := ready_ok p46_run (hr ε)
    exact ((C40_safe_deterministic hd hc (noHook_ofParams prm) true).2.2 stp sched).2.exists
  choose m1 he using run
  have eh : ∀ ε c, (m ε).real (.h_cell .state) 0 c 2 = 2 + ε * waveH m₀ k1 0 1 c := fun ε c =>
    congrFun (congrFun (congrArg Fld.h (hx ε)) c) 2
  have ev : ∀ ε e, (m ε).real (.vn_edge .state) 0 e 2 =
      (1 / 2 * Real.cos (m₀.real .angle_edge 0 e 0) + 1 / 3 * Real.sin (m₀.real .angle_edge 0 e 0)) +
        ε * waveU m₀ prm.grav ω (1 / 4) k1 0 1 e := fun ε e =>
    congrFun (congrFun (congrArg Fld.vn (hx ε)) e) 2
  have g0 := hr₀.hex v
  have g1 := (hr 0).hex v
  have sc : ∀ c, 0 ≤ c → c < p46.dims.ncells → cellAt m₀ c = cellAt (m 0) c := fun c c0 c1 => by
    unfold cellAt; rw [g0.1.x_cell c ⟨c0, c1⟩, g0.1.y_cell c ⟨c0, c1⟩, g1.1.x_cell c ⟨c0, c1⟩, g1.1.y_cell c ⟨c0, c1⟩]
  have sa : ∀ e, 0 ≤ e → e < p46.dims.nedges → m₀.real .angle_edge 0 e 0 = (m 0).real .angle_edge 0 e 0 :=
    fun e e0 e1 => by rw [g0.1.angle_edge e e0 e1, g1.1.angle_edge e e0 e1]
  have se : ∀ e, 0 ≤ e → e < p46.dims.nedges → edgeAt m₀ e = edgeAt (m 0) e ∧ normal m₀ e = normal (m 0) e :=
    fun e e0 e1 => by
      constructor
      · unfold edgeAt; rw [g0.1.x_edge e e0 e1, g0.1.y_edge e e0 e1, g1.1.x_edge e e0 e1, g1.1.y_edge e e0 e1]
      · unfold normal; rw [sa e e0 e1]
  set Z : ℂ := aeval ((1 / 50 * (ω + advSymbol (1 / 4) (1 / 2) (1 / 3) k1 0) : ℝ) * Complex.I) (stabPoly stp) ^
    sched.length with hZ
  refine ⟨prm, k1, ω, m, m1, sched, ‖Z‖, Z.arg, p46_run, by simp [p46], by simp [p46], by rw [hprm], by rw [hprm],
    by rw [hprm], by rw [hprm], by rw [hprm], by rw [hprm], fits, w0, w2, by norm_num,
    by rw [p46_layers]; norm_num, hr, fun c _ _ => by rw [eh]; simp, fun e e0 e1 => by rw [ev, sa e e0 e1]; simp,
    fun c c0 c1 => ?_, fun e e0 e1 => ?_, by rw [hsch, List.length_replicate],
    fun q hq => by rw [hsch] at hq; rw [List.eq_of_mem_replicate hq], norm_nonneg _,
    (Complex.norm_mul_exp_arg_mul_I Z).symm, ?_, he⟩
  · simp only [eh]
    have : waveH (m 0) k1 0 1 c = waveH m₀ k1 0 1 c := by unfold waveH; rw [sc c c0 c1]
    rw [this]
    exact (((hasDerivAt_id (0 : ℝ)).mul_const _).const_add 2).congr_deriv (by simp)
  · simp only [ev]
    have : waveU (m 0) prm.grav ω (1 / 4) k1 0 1 e = waveU m₀ prm.grav ω (1 / 4) k1 0 1 e := by
      unfold waveU; rw [(se e e0 e1).1, (se e e0 e1).2]
    rw [this]
    exact (((hasDerivAt_id (0 : ℝ)).mul_const _).const_add _).congr_deriv (by simp)
  · have a : √((1 / 2 : ℝ) ^ 2 + (1 / 3) ^ 2) ≤ 1 := Real.sqrt_le_one.mpr (by norm_num)
    have b : √6 ≤ 3 := Real.sqrt_le_iff.mpr (by norm_num)
    have c : √(prm.grav * 2) ≤ 5 := by
      rw [hprm]; exact Real.sqrt_le_iff.mpr (by norm_num)
    have d : 1 ≤ √2 := Real.one_le_sqrt.mpr (by norm_num)
    nlinarith [Real.sqrt_nonneg 6, Real.sqrt_nonneg (prm.grav * 2)]

end Props
end
end Omega
