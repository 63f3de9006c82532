import Verif.Props.Conservation
import Verif.Refine.Guarded

/-!
# C19: a uniform tracer concentration stays uniform
-/

set_option linter.unusedVariables false
set_option linter.unusedSectionVars false

namespace Omega
noncomputable section

namespace Props

open Prog Model Refine

variable {p : MeshParams} {dc : ℝ} {m : Mem ℝ}

/-! ### The operators use valid indices only -/

theorem div_congr {d : Dims} (hc : ConnOK d m) {u v : Int → ℝ}
    (h : ∀ e, 0 ≤ e → e < d.nedges → u e = v e) {c : Int} (h0 : 0 ≤ c) (h1 : c < d.ncells) :
    Spec.div m u c = Spec.div m v c := by
  unfold Spec.div
  congr 1
  refine Finset.sum_congr rfl fun j hj => ?_
  rw [Finset.mem_Ico] at hj
  obtain ⟨a, b⟩ := hc.eoc c h0 h1 j hj.1 hj.2
  rw [h _ a b]

theorem grad_congr {d : Dims} (hc : ConnOK d m) {φ ψ : Int → ℝ}
    (h : ∀ c, 0 ≤ c → c < d.ncells → φ c = ψ c) {e : Int} (h0 : 0 ≤ e) (h1 : e < d.nedges) :
    Spec.grad m φ e = Spec.grad m ψ e := by
  obtain ⟨a, b⟩ := hc.coe e h0 h1 0 (by omega) (by omega)
  obtain ⟨a', b'⟩ := hc.coe e h0 h1 1 (by omega) (by omega)
  unfold Spec.grad
  rw [h _ a b, h _ a' b']

theorem mean_congr {d : Dims} (hc : ConnOK d m) {φ ψ : Int → ℝ}
    (h : ∀ c, 0 ≤ c → c < d.ncells → φ c = ψ c) {e : Int} (h0 : 0 ≤ e) (h1 : e < d.nedges) :
    Spec.mean m φ e = Spec.mean m ψ e := by
  obtain ⟨a, b⟩ := hc.coe e h0 h1 0 (by omega) (by omega)
  obtain ⟨a', b'⟩ := hc.coe e h0 h1 1 (by omega) (by omega)
  unfold Spec.mean
  rw [h _ a b, h _ a' b']

theorem div_smul (q : ℝ) (u : Int → ℝ) (c : Int) :
    Spec.div m (fun e => q * u e) c = q * Spec.div m u c := by
  unfold Spec.div
  rw [← mul_div_assoc, Finset.mul_sum]
  congr 1
  exact Finset.sum_congr rfl fun j _ => by ring

theorem div_zero' (c : Int) : Spec.div m (fun _ => 0) c = 0 := by simp [Spec.div]

/-- The tracer tendency of a uniform concentration is that concentration times the thickness
tendency. -/
theorem tracer_uniform {d : Dims} (hc : ConnOK d m) {sw : SWModel ℝ}
    (hadv : sw.en_thadv = sw.en_hadv) {h u s : Int → ℝ} {q : ℝ}
    (hs : ∀ c, 0 ≤ c → c < d.ncells → s c = q * h c)
    (hh : ∀ c, 0 ≤ c → c < d.ncells → h c ≠ 0) {c : Int} (h0 : 0 ≤ c) (h1 : c < d.ncells) :
    Spec.tracerTend m sw h u s c = q * Spec.thicknessTend m sw h u c := by
  have hr : ∀ c, 0 ≤ c → c < d.ncells → s c / h c = q := fun c a b => by
    rw [hs c a b, mul_div_assoc, div_self (hh c a b), mul_one]
  have hg : ∀ e, 0 ≤ e → e < d.nedges → Spec.grad m (fun i => s i / h i) e = 0 := fun e a b => by
    rw [grad_congr hc (ψ := fun _ => q) hr a b]; simp [Spec.grad]
  have hm : ∀ e, 0 ≤ e → e < d.nedges → Spec.mean m (fun i => s i / h i) e = q := fun e a b => by
    rw [mean_congr hc (ψ := fun _ => q) hr a b]; simp [Spec.mean]
  have e1 : Spec.div m (fun e => Spec.mean m h e * Spec.mean m (fun i => s i / h i) e * u e) c =
      q * Spec.div m (fun e => Spec.mean m h e * u e) c := by
    rw [← div_smul]
    exact div_congr hc (fun e a b => by rw [hm e a b]; ring) h0 h1
  have e2 : Spec.div m (fun e => m.real .mesh_scaling_del2 0 e 0 *
      Spec.mean m h e * Spec.grad m (fun i => s i / h i) e) c = 0 := by
    rw [← div_zero' (m := m) c]
    exact div_congr hc (fun e a b => by rw [hg e a b]; ring) h0 h1
  have e3 : ∀ c, 0 ≤ c → c < d.ncells → Spec.div m (fun e => Spec.mean m h e *
      Spec.grad m (fun i => s i / h i) e) c = 0 := fun c a b => by
    rw [← div_zero' (m := m) c]
    exact div_congr hc (fun e a b => by rw [hg e a b]; ring) a b
  have e4 : Spec.div m (fun e => m.real .mesh_scaling_del4 0 e 0 * Spec.grad m (Spec.div m fun e =>
      Spec.mean m h e * Spec.grad m (fun i => s i / h i) e) e) c = 0 := by
    rw [← div_zero' (m := m) c]
    refine div_congr hc (fun e a b => ?_) h0 h1
    rw [grad_congr hc (ψ := fun _ => 0) e3 a b]
    simp [Spec.grad]
  unfold Spec.tracerTend Spec.thicknessTend
  rw [e1, e2, e4, hadv]
  split_ifs <;> ring

theorem guarded_uniform {d : Dims} (hc : ConnOK d m) {sw : SWModel ℝ}
    (hadv : sw.en_thadv = sw.en_hadv) (hh : sw.prm.disable_h = false) (q : Int → Int → ℝ) :
    Guarded (genSys d sw noHook m)
      (fun x => ∀ c k, 0 ≤ c → c < d.ncells → 0 ≤ k → k < d.nlayers → x.h c k ≠ 0)
      (fun x => ∀ l c k, 0 ≤ l → l < d.ntracers → 0 ≤ c → c < d.ncells → 0 ≤ k → k < d.nlayers →
        x.tr l c k = q l k * x.h c k)
      (fun x => ∀ l c k, 0 ≤ l → l < d.ntracers → 0 ≤ c → c < d.ncells → 0 ≤ k → k < d.nlayers →
        x.tr l c k = q l k * x.h c k) where
  tend := by
    intro mode t o s hN ho hs l c k l0 l1 c0 c1 k0 k1
    obtain ⟨tv, -, tt⟩ := tend_val (m := m) d sw mode t o s
    rw [tt, tv, if_neg (show ¬ sw.prm.disable_h = true by simp [hh]), tracer_uniform hc hadv (q := q l k)
      (fun c a b => hs l c k l0 l1 a b k0 k1) (fun c a b => hN c k a b k0 k1) c0 c1]
    cases mode
    · simp
    · simp only [reduceCtorEq, if_false]
      rw [ho l c k l0 l1 c0 c1 k0 k1]; ring
  map := by
    intro x a hx l c k l0 l1 c0 c1 k0 k1
    simp only [Fld.map]
    rw [hx l c k l0 l1 c0 c1 k0 k1]; ring
  axpy := by
    intro x x' a hx hx' l c k l0 l1 c0 c1 k0 k1
    simp only [Fld.axpy, Fld.zip]
    rw [hx l c k l0 l1 c0 c1 k0 k1, hx' l c k l0 l1 c0 c1 k0 k1]; ring

/-- On any mesh with valid tables, with any velocity, diffusion, stepper and sequence of steps: a
tracer that is a constant (per tracer and layer) times thickness remains that constant times
thickness.  Thickness must not vanish when the run calls `compute_tendency`, the thickness equation
must be on, and advection is on for both or neither. -/
theorem C19_uniform_stays {d : Dims} (hd : DimsOK d) (hc : ConnOK d m) {sw : SWModel ℝ}
    (hn : sw.NoHook) (hadv : sw.en_thadv = sw.en_hadv) (hh : sw.prm.disable_h = false)
    {stp : Stepper} {sched : List (ℝ × ℝ)} {split : Bool} {m1 : Mem ℝ}
    (he : Exec d (stp.ctor d ++ stp.run d ⟨defaultKernels d.vl, split⟩ sw sched) m m1)
    (hN : ∀ st m', CallsAt d ⟨defaultKernels d.vl, split⟩ sw stp sched m st m' →
      ∀ c k, 0 ≤ c → c < d.ncells → 0 ≤ k → k < d.nlayers → m'.real (.h_cell st) 0 c k ≠ 0)
    {q : Int → Int → ℝ}
    (h0 : ∀ l c k, 0 ≤ l → l < d.ntracers → 0 ≤ c → c < d.ncells → 0 ≤ k → k < d.nlayers →
      m.real (.tr_cell .state) l c k = q l k * m.real (.h_cell .state) 0 c k) :
    ∀ l c k, 0 ≤ l → l < d.ntracers → 0 ≤ c → c < d.ncells → 0 ≤ k → k < d.nlayers →
      m1.real (.tr_cell .state) l c k = q l k * m1.real (.h_cell .state) 0 c k := by
  have hS := genSetup hd hc (hookOK_noHook hn d m)
  obtain ⟨x, e, hx⟩ := hS.newRun_inv (guarded_uniform hc hadv hh q) he
    (fun x y exy hx c k c0 c1 k0 k1 => by rw [← exy.h c k c0 c1 k0 k1]; exact hx c k c0 c1 k0 k1)
    hN (fun l c k _ _ _ _ _ _ => by simp [zeroFld]) h0
  intro l c k l0 l1 c0 c1 k0 k1
  have h1 := e.tr l c k l0 l1 c0 c1 k0 k1
  have h2 := e.h c k c0 c1 k0 k1
  have h3 := hx l c k l0 l1 c0 c1 k0 k1
  rw [← h1, ← h2] at h3
  exact h3

/-- A single one-stage step calls `compute_tendency` for the initial state. -/
theorem callsAt_euler {d : Dims} {B : Build ℝ} {sw : SWModel ℝ} {t dt : ℝ} {m m' : Mem ℝ}
    {st : StateId} (h : CallsAt d B sw (.lsrk 1) [(t, dt)] m st m') :
    st = .state ∧ m'.fld .state = m.fld .state := by
  obtain ⟨pre, hp, he⟩ := h
  have : (pre, st) = ((Stepper.lsrk 1).ctor d ++ lsrk_scale d (lsrkCoef 1) 0, StateId.state) := by
    simpa [runCalls, stepCalls, lsrkCalls, after, List.range_succ] using hp
  obtain ⟨rfl, rfl⟩ := Prod.mk.inj this
  refine ⟨rfl, ?_⟩
  obtain ⟨m1, e1, e2⟩ := exec_append.1 he
  obtain ⟨m2, r, -, f, -⟩ := ctor_runs d (.lsrk 1) m
  obtain rfl := (r.2 m1).1 e1
  obtain ⟨m3, r', ag, -⟩ := state3_runs (m := m1) (s := .tend)
    (g1 := fun _ _ _ _ v => v * (lsrkCoef 1).a 0) (g2 := fun _ _ _ _ v => v * (lsrkCoef 1).a 0)
    (g3 := fun _ _ _ _ v => v * (lsrkCoef 1).a 0)
    (fun m => map2_runs (n := d.ncells) rfl (fun v => v * (lsrkCoef 1).a 0))
    (fun m => map2_runs (n := d.nedges) rfl (fun v => v * (lsrkCoef 1).a 0))
    (fun m => map3_runs rfl (fun v => v * (lsrkCoef 1).a 0)) (fun _ _ => rfl) (fun _ _ => rfl)
  obtain rfl := (r'.2 m').1 e2
  rw [← f]
  exact fld_congr fun b hb => ag.real b (inState_disj (by decide) hb)

/-- a state with varying thickness and velocity and two tracers, and a run that meets the
hypotheses -/
example (prm : Params ℝ) (hp : prm.disable_h = false) : ∃ m m1 : Mem ℝ, ConnOK p46t.dims m ∧
    Exec p46t.dims ((Stepper.lsrk 1).ctor p46t.dims ++ (Stepper.lsrk 1).run p46t.dims
      ⟨defaultKernels p46t.dims.vl, false⟩ (SWModel.ofParams prm) [(0, 1)]) m m1 ∧
    (∀ st m', CallsAt p46t.dims ⟨defaultKernels p46t.dims.vl, false⟩ (SWModel.ofParams prm)
      (.lsrk 1) [(0, 1)] m st m' → ∀ c k, 0 ≤ c → c < p46t.dims.ncells → 0 ≤ k →
        k < p46t.dims.nlayers → m'.real (.h_cell st) 0 c k ≠ 0) ∧
    (∀ l c k, m.real (.tr_cell .state) l c k = (l + k) * m.real (.h_cell .state) 0 c k) ∧
    m.real (.h_cell .state) 0 5 2 = 6 ∧ m.real (.vn_edge .state) 0 7 2 = 49 := by
  obtain ⟨m, m1, hr, hx, he⟩ := exists_newRun p46t_run (1 / 4) prm (noHook_ofParams prm) false
    (.lsrk 1) [(0, 1)] ⟨fun c _ => 1 + c, fun e _ => e * e, fun l c k => (l + k) * (1 + c)⟩
  refine ⟨m, m1, (ready_ok p46t_run hr).2, he, fun st m' hc c k c0 c1 k0 k1 => ?_,
    fun l c k => ?_, ?_, ?_⟩
  · obtain ⟨rfl, hs⟩ := callsAt_euler hc
    rw [hx] at hs
    rw [show m'.real (.h_cell .state) 0 c k = 1 + (c : ℝ) from
      congrFun (congrFun (congrArg Fld.h hs) c) k]
    positivity
  · rw [show m.real (.h_cell .state) 0 c k = 1 + (c : ℝ) from
      congrFun (congrFun (congrArg Fld.h hx) c) k]
    exact congrFun (congrFun (congrFun (congrArg Fld.tr hx) l) c) k
  · exact (congrFun (congrFun (congrArg Fld.h hx) 5) 2).trans (by norm_num)
  · exact (congrFun (congrFun (congrArg Fld.vn hx) 7) 2).trans (by norm_num)

end Props
end
end Omega
