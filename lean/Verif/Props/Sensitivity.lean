import Verif.Props.RoundedOrder
import Verif.Props.TestRuns
import Verif.Props.Uniform

/-!
# C109: the final state depends smoothly on the initial state

As long as no stage runs dry, the result of a run is a smooth function of the initial state: it has a
tangent-linear model, and errors of the initial state are amplified by no more than a factor that depends
on the run only.
-/

set_option linter.unusedVariables false
set_option linter.unusedSectionVars false

namespace Omega
noncomputable section
namespace Props

open Prog Model Refine Hex Set
open scoped ContDiff Topology

section
variable {d : Dims} {m : Mem ℝ} {sw : SWModel ℝ} {E : Type} [NormedAddCommGroup E] [NormedSpace ℝ E]

/-- tendency and state depend smoothly on the parameter at `v₀` -/
structure SmoothAt (d : Dims) (x : E → Fld ℝ × Fld ℝ) (v₀ : E) : Prop where
  tn : ContDiffAt ℝ ∞ (fun v => pack d (x v).1) v₀
  st : ContDiffAt ℝ ∞ (fun v => pack d (x v).2) v₀

variable (hd : DimsOK d) (hc : ConnOK d m) (hH : HookOK d sw noHook m)
  (n1 : sw.prm.disable_h = false) (n2 : sw.prm.disable_vn = false)
  (hF : ContDiffOn ℝ ∞ (vfield d m sw) (wetSet d)) {v₀ : E}
include hd hc hH n1 n2 hF

theorem smooth_vfield {x : E → Fld ℝ} (hx : ContDiffAt ℝ ∞ (fun v => pack d (x v)) v₀)
    (hw : pack d (x v₀) ∈ wetSet d) : ContDiffAt ℝ ∞ (fun v => vfield d m sw (pack d (x v))) v₀ :=
  ContDiffAt.comp (g := vfield d m sw) (f := fun v => pack d (x v)) v₀
    (hF.contDiffAt ((wetSet_open d).mem_nhds hw)) hx

theorem smooth_lsrk (C : Coef ℝ) (t dt : ℝ) (L : List ℕ) : ∀ {x : E → Fld ℝ × Fld ℝ}, SmoothAt d x v₀ →
    (∀ y ∈ (genSys d sw noHook m).lsrkEvals C t dt L (x v₀), pack d y ∈ wetSet d) →
    SmoothAt d (fun v => L.foldl (fun p i => (genSys d sw noHook m).lsrkStage C t dt i p) (x v)) v₀ := by
  induction L with
  | nil => exact fun h _ => h
  | cons i L ih =>
    intro x h hw
    simp only [Sys.lsrkEvals, List.forall_mem_cons] at hw
    refine ih (x := fun v => (genSys d sw noHook m).lsrkStage C t dt i (x v)) ?_ hw.2
    have a : ContDiffAt ℝ ∞ (fun v => pack d ((genSys d sw noHook m).lsrkStage C t dt i (x v)).1) v₀ := by
      simp only [Sys.lsrkStage, pack_increment hd hc hH n1 n2, pack_scale]
      exact (h.tn.const_smul _).add (smooth_vfield hd hc hH n1 n2 hF h.st hw.1)
    refine ⟨a, ?_⟩
    show ContDiffAt ℝ ∞ (fun v => pack d ((x v).2.axpy (dt * C.b i) ((genSys d sw noHook m).lsrkStage C t dt i (x v)).1)) v₀
    simp only [pack_axpy]
    exact h.st.add (a.const_smul _)

theorem smooth_rk4 (C : Coef ℝ) (t dt : ℝ) {o : E → Fld ℝ} (ho : ContDiffAt ℝ ∞ (fun v => pack d (o v)) v₀)
    (L : List ℕ) : ∀ {x : E → Fld ℝ × Fld ℝ}, SmoothAt d x v₀ →
    (∀ y ∈ (genSys d sw noHook m).rk4Evals C t dt (o v₀) L (x v₀), pack d y ∈ wetSet d) →
    SmoothAt d (fun v => L.foldl (fun p i => (genSys d sw noHook m).rk4Stage C t dt (o v) i p) (x v)) v₀ := by
  induction L with
  | nil => exact fun h _ => h
  | cons i L ih =>
    intro x h hw
    simp only [Sys.rk4Evals, List.mem_append] at hw
    refine ih (x := fun v => (genSys d sw noHook m).rk4Stage C t dt (o v) i (x v)) ?_ fun y hy => hw y (.inr hy)
    constructor
    · by_cases hi : i < 3
      · simp only [Sys.rk4Stage, if_pos hi, pack_replace hd hc hH n1 n2]
        refine smooth_vfield hd hc hH n1 n2 hF ?_ (hw _ (.inl (by simp [hi])))
        simp only [pack_axpy]
        exact ho.add (h.tn.const_smul _)
      · simp only [Sys.rk4Stage, if_neg hi]
        exact h.tn
    · simp only [Sys.rk4Stage, pack_axpy]
      exact h.st.add (h.tn.const_smul _)

theorem smooth_step (t dt : ℝ) (stp : Stepper) {x : E → Fld ℝ × Fld ℝ} (h : SmoothAt d x v₀)
    (hw : ∀ y ∈ (genSys d sw noHook m).stepEvals t dt (x v₀) stp, pack d y ∈ wetSet d) :
    SmoothAt d (fun v => (genSys d sw noHook m).step t dt (x v) stp) v₀ := by
  cases stp with
  | lsrk n => exact smooth_lsrk hd hc hH n1 n2 hF _ t dt _ h hw
  | rk4 =>
    simp only [Sys.stepEvals, List.forall_mem_cons] at hw
    refine smooth_rk4 hd hc hH n1 n2 hF _ t dt (o := fun v => (x v).2) h.st _
      (x := fun v => ((genSys d sw noHook m).tend .replace t (x v).1 (x v).2, (x v).2)) ⟨?_, h.st⟩ hw.2
    simp only [pack_replace hd hc hH n1 n2]
    exact smooth_vfield hd hc hH n1 n2 hF h.st hw.1

theorem smooth_run (stp : Stepper) (sched : List (ℝ × ℝ)) : ∀ {x : E → Fld ℝ × Fld ℝ}, SmoothAt d x v₀ →
    (∀ y ∈ (genSys d sw noHook m).evals stp sched (x v₀), pack d y ∈ wetSet d) →
    SmoothAt d (fun v => (genSys d sw noHook m).run stp sched (x v)) v₀ := by
  induction sched with
  | nil => exact fun h _ => h
  | cons q L ih =>
    intro x h hw
    exact ih (x := fun v => (genSys d sw noHook m).step q.1 q.2 (x v) stp)
      (smooth_step hd hc hH n1 n2 hF q.1 q.2 stp h fun y hy => hw y (by simp [Sys.evals, hy]))
      fun y hy => hw y (by simp [Sys.evals, hy])

end

/-- the state with given entries in range and those of `y` elsewhere -/
def over (d : Dims) (y : Fld ℝ) (v : Ix d → ℝ) : Fld ℝ where
  h c k := if c ∈ Spec.cells d ∧ k ∈ Spec.layers d then (unpack d v).h c k else y.h c k
  vn e k := if e ∈ Spec.edges d ∧ k ∈ Spec.layers d then (unpack d v).vn e k else y.vn e k
  tr l c k := if l ∈ Finset.Ico 0 d.ntracers ∧ c ∈ Spec.cells d ∧ k ∈ Spec.layers d then
    (unpack d v).tr l c k else y.tr l c k

theorem over_self (d : Dims) (y : Fld ℝ) : over d y (pack d y) = y := by
  have e := unpack_pack d y
  rcases y with ⟨a, b, c⟩
  simp only [over, Fld.mk.injEq]
  refine ⟨?_, ?_, ?_⟩
  · funext i k
    split_ifs with h
    · have x := Finset.mem_Ico.mp h.1; have z := Finset.mem_Ico.mp h.2
      exact e.h i k x.1 x.2 z.1 z.2
    · rfl
  · funext i k
    split_ifs with h
    · have x := Finset.mem_Ico.mp h.1; have z := Finset.mem_Ico.mp h.2
      exact e.vn i k x.1 x.2 z.1 z.2
    · rfl
  · funext l i k
    split_ifs with h
    · have w := Finset.mem_Ico.mp h.1; have x := Finset.mem_Ico.mp h.2.1; have z := Finset.mem_Ico.mp h.2.2
      exact e.tr l i k w.1 w.2 x.1 x.2 z.1 z.2
    · rfl

theorem over_eq (d : Dims) (y : Fld ℝ) (v : Ix d → ℝ) : EqFld d (over d y v) (unpack d v) :=
  ⟨fun c k c0 c1 k0 k1 => if_pos ⟨Finset.mem_Ico.2 ⟨c0, c1⟩, Finset.mem_Ico.2 ⟨k0, k1⟩⟩,
    fun c k c0 c1 k0 k1 => if_pos ⟨Finset.mem_Ico.2 ⟨c0, c1⟩, Finset.mem_Ico.2 ⟨k0, k1⟩⟩,
    fun l c k l0 l1 c0 c1 k0 k1 => if_pos ⟨Finset.mem_Ico.2 ⟨l0, l1⟩, Finset.mem_Ico.2 ⟨c0, c1⟩, Finset.mem_Ico.2 ⟨k0, k1⟩⟩⟩

theorem pack_over (d : Dims) (y : Fld ℝ) (v : Ix d → ℝ) : pack d (over d y v) = v :=
  (pack_congr (over_eq d y v)).trans (pack_unpack d v)

/-- the prognostic fields of two memories differ by at most `ε` -/
structure Apart (d : Dims) (ε : ℝ) (m m' : Mem ℝ) : Prop where
  h : ∀ c k, 0 ≤ c → c < d.ncells → 0 ≤ k → k < d.nlayers →
    |m'.real (.h_cell .state) 0 c k - m.real (.h_cell .state) 0 c k| ≤ ε
  vn : ∀ e k, 0 ≤ e → e < d.nedges → 0 ≤ k → k < d.nlayers →
    |m'.real (.vn_edge .state) 0 e k - m.real (.vn_edge .state) 0 e k| ≤ ε
  tr : ∀ l c k, 0 ≤ l → l < d.ntracers → 0 ≤ c → c < d.ncells → 0 ≤ k → k < d.nlayers →
    |m'.real (.tr_cell .state) l c k - m.real (.tr_cell .state) l c k| ≤ ε

theorem apart_iff {d : Dims} {ε : ℝ} (h0 : 0 ≤ ε) {m m' : Mem ℝ} :
    Apart d ε m m' ↔ ‖pack d (m'.fld .state) - pack d (m.fld .state)‖ ≤ ε := by
  rw [pi_norm_le_iff_of_nonneg h0]
  constructor
  · rintro h (⟨⟨c, hc'⟩, ⟨k, hk'⟩⟩ | ⟨⟨c, hc'⟩, ⟨k, hk'⟩⟩ | ⟨⟨l, hl⟩, ⟨c, hc'⟩, ⟨k, hk'⟩⟩)
    · have a := Finset.mem_Ico.mp hc'; have b := Finset.mem_Ico.mp hk'
      exact h.h c k a.1 a.2 b.1 b.2
    · have a := Finset.mem_Ico.mp hc'; have b := Finset.mem_Ico.mp hk'
      exact h.vn c k a.1 a.2 b.1 b.2
    · have a := Finset.mem_Ico.mp hc'; have b := Finset.mem_Ico.mp hk'; have g := Finset.mem_Ico.mp hl
      exact h.tr l c k g.1 g.2 a.1 a.2 b.1 b.2
  · intro h
    exact ⟨fun c k a b e f => h (.inl (⟨c, Finset.mem_Ico.2 ⟨a, b⟩⟩, ⟨k, Finset.mem_Ico.2 ⟨e, f⟩⟩)),
      fun c k a b e f => h (.inr (.inl (⟨c, Finset.mem_Ico.2 ⟨a, b⟩⟩, ⟨k, Finset.mem_Ico.2 ⟨e, f⟩⟩))),
      fun l c k i j a b e f => h (.inr (.inr (⟨l, Finset.mem_Ico.2 ⟨i, j⟩⟩, ⟨c, Finset.mem_Ico.2 ⟨a, b⟩⟩,
        ⟨k, Finset.mem_Ico.2 ⟨e, f⟩⟩)))⟩

section
variable {p : MeshParams} (hv : RunValid p) {dc : ℝ} (hdc : 0 < dc) {prm : Params ℝ}
  (n1 : prm.disable_h = false) (n2 : prm.disable_vn = false) {m : Mem ℝ} (hr : Ready p dc prm m)
include hv hdc n1 n2 hr

/-- the result of runs in all memories with one mesh, as a function of the initial state -/
theorem exists_flow {stp : Stepper} {sched : List (ℝ × ℝ)} {split : Bool}
    (hw : ∀ st m', CallsAt p.dims ⟨defaultKernels p.dims.vl, split⟩ (SWModel.ofParams prm) stp sched m st m' →
      ∀ c k, 0 ≤ c → c < p.dims.ncells → 0 ≤ k → k < p.dims.nlayers → 0 < m'.real (.h_cell st) 0 c k) :
    ∃ Φ : (Ix p.dims → ℝ) → Ix p.dims → ℝ, ContDiffAt ℝ ∞ Φ (pack p.dims (m.fld .state)) ∧
      ∀ (m2 m3 : Mem ℝ) (split' : Bool), Ready p dc prm m2 →
        Exec p.dims (stp.ctor p.dims ++ stp.run p.dims ⟨defaultKernels p.dims.vl, split'⟩ (SWModel.ofParams prm) sched)
          m2 m3 → pack p.dims (m3.fld .state) = Φ (pack p.dims (m2.fld .state)) := by
  obtain ⟨hd, hc⟩ := ready_ok hv hr
  have hH := hookOK_noHook (noHook_ofParams prm) p.dims m
  have hF := vfield_smooth hc (SWModel.ofParams prm) fun i i0 i1 φ hφ => kiteMean_pos hv hdc hr i0 i1 hφ
  have hS := genSetup hd hc hH
  set S := genSys p.dims (SWModel.ofParams prm) noHook m with hSdef
  refine ⟨fun v => pack p.dims (S.run stp sched (zeroFld, over p.dims (m.fld .state) v)).2, ?_, ?_⟩
  · refine (smooth_run hd hc hH n1 n2 hF stp sched (x := fun v => (zeroFld, over p.dims (m.fld .state) v))
      ⟨by dsimp only; exact contDiffAt_const, by simp only [pack_over]; exact contDiffAt_id⟩ ?_).st
    simp only [over_self]
    intro x hx
    obtain ⟨⟨pre, st⟩, hq, m', hx', e⟩ := newRun_called hS split stp sched x hx
    rw [← pack_congr e]
    rintro ⟨⟨c, hc'⟩, ⟨k, hk'⟩⟩
    have a := Finset.mem_Ico.mp hc'; have b := Finset.mem_Ico.mp hk'
    exact hw st m' ⟨pre, hq, hx'⟩ c k a.1 a.2 b.1 b.2
  · intro m2 m3 split' hr2 he
    obtain ⟨hd2, hc2⟩ := ready_ok hv hr2
    have hS2 := genSetup hd2 hc2 (hookOK_noHook (noHook_ofParams prm) p.dims m2)
    have h1 := Ready.hex hv.toValid hr
    have h2 := Ready.hex hv.toValid hr2
    have rel := sysRel_same hv h2.1 h1.1 h2.2.1 h1.2.1 (SWModel.ofParams prm) (H := noHook) (H' := noHook)
      (fun _ _ _ _ _ _ _ _ => rfl) (fun _ _ _ _ _ _ _ _ => rfl)
    have k1 := run_same rel stp sched zeroFld (m2.fld .state)
    have k2 := (run_local hS.sys stp sched (p := (zeroFld, over p.dims (m.fld .state) (pack p.dims (m2.fld .state))))
      (q := (zeroFld, m2.fld .state)) ⟨EqFld.refl _ _, (over_eq _ _ _).trans (unpack_pack p.dims _)⟩).2
    rw [pack_congr (hS2.newRun he).2.2]
    beta_reduce
    rw [pack_congr k2]
    refine pack_congr ⟨k1.h, fun e k e0 e1 f0 f1 => ?_, k1.tr⟩
    have := k1.vn e k e0 e1 f0 f1
    rwa [same_e] at this

/-- Errors of the initial state grow by at most a constant factor.  If the thickness is positive wherever a
run from `m` evaluates the tendency, there are a factor `L` and a radius `δ` such that the results of any two
runs from states that differ from that of `m` by at most `δ` differ by at most `L` times as much as the
initial states.  Steppers, step sizes and viscosity are arbitrary; `L` and `δ` do not depend on the two
states or on the kernels used. -/
theorem C109_continuous_dependence {stp : Stepper} {sched : List (ℝ × ℝ)} {split : Bool}
    (hw : ∀ st m', CallsAt p.dims ⟨defaultKernels p.dims.vl, split⟩ (SWModel.ofParams prm) stp sched m st m' →
      ∀ c k, 0 ≤ c → c < p.dims.ncells → 0 ≤ k → k < p.dims.nlayers → 0 < m'.real (.h_cell st) 0 c k) :
    ∃ L δ : ℝ, 0 < δ ∧ ∀ (a b a' b' : Mem ℝ) (sa sb : Bool), Ready p dc prm a → Ready p dc prm b →
      Apart p.dims δ m a → Apart p.dims δ m b →
      Exec p.dims (stp.ctor p.dims ++ stp.run p.dims ⟨defaultKernels p.dims.vl, sa⟩ (SWModel.ofParams prm) sched) a a' →
      Exec p.dims (stp.ctor p.dims ++ stp.run p.dims ⟨defaultKernels p.dims.vl, sb⟩ (SWModel.ofParams prm) sched) b b' →
      ∀ ε, 0 ≤ ε → Apart p.dims ε a b → Apart p.dims (L * ε) a' b' := by
  obtain ⟨Φ, hΦ, key⟩ := exists_flow hv hdc n1 n2 hr hw
  obtain ⟨K, U, hU, hK⟩ := (hΦ.of_le (m := 1) (by exact_mod_cast le_top)).exists_lipschitzOnWith
  obtain ⟨r, r0, hrU⟩ := Metric.nhds_basis_closedBall.mem_iff.1 hU
  refine ⟨K, r, r0, fun a b a' b' sa sb ra rb na nb ea eb ε ε0 hε => ?_⟩
  rw [apart_iff r0.le] at na nb
  rw [apart_iff ε0] at hε
  rw [apart_iff (mul_nonneg K.coe_nonneg ε0), key a a' sa ra ea, key b b' sb rb eb]
  rw [← dist_eq_norm] at na nb hε ⊢
  exact (hK.dist_le_mul _ (hrU nb) _ (hrU na)).trans (mul_le_mul_of_nonneg_left hε K.coe_nonneg)

/-- The run has a tangent-linear model.  Under the same condition there is a linear map `D` on disturbances,
given by the run from `m`, such that for every family of initial states through that of `m`
whose entries are differentiable there, the entries of the results are differentiable, with the derivative
`D` applied to that of the initial states. -/
theorem C109_tangent_linear {stp : Stepper} {sched : List (ℝ × ℝ)} {split : Bool}
    (hw : ∀ st m', CallsAt p.dims ⟨defaultKernels p.dims.vl, split⟩ (SWModel.ofParams prm) stp sched m st m' →
      ∀ c k, 0 ≤ c → c < p.dims.ncells → 0 ≤ k → k < p.dims.nlayers → 0 < m'.real (.h_cell st) 0 c k) :
    ∃ D : (Ix p.dims → ℝ) →ₗ[ℝ] Ix p.dims → ℝ, ∀ (x x' : ℝ → Mem ℝ) (sp : ℝ → Bool) (w : Ix p.dims → ℝ),
      (∀ s, Ready p dc prm (x s)) → SameState p.dims m (x 0) →
      (∀ s, Exec p.dims (stp.ctor p.dims ++ stp.run p.dims ⟨defaultKernels p.dims.vl, sp s⟩ (SWModel.ofParams prm)
        sched) (x s) (x' s)) →
      (∀ i, HasDerivAt (fun s => pack p.dims ((x s).fld .state) i) (w i) 0) →
      ∀ i, HasDerivAt (fun s => pack p.dims ((x' s).fld .state) i) (D w i) 0 := by
  obtain ⟨Φ, hΦ, key⟩ := exists_flow hv hdc n1 n2 hr hw
  refine ⟨(fderiv ℝ Φ (pack p.dims (m.fld .state)) : _ →L[ℝ] _), fun x x' sp w rx h0 ex hx => ?_⟩
  have e0 : pack p.dims ((x 0).fld .state) = pack p.dims (m.fld .state) :=
    pack_congr ⟨h0.1, h0.2.1, h0.2.2⟩
  have hD := (hΦ.differentiableAt (by simp)).hasFDerivAt
  have e : ∀ s, pack p.dims ((x' s).fld .state) = Φ (pack p.dims ((x s).fld .state)) := fun s =>
    key _ _ _ (rx s) (ex s)
  rw [← hasDerivAt_pi] at hx ⊢
  simp only [e]
  rw [← e0] at hD ⊢
  exact hD.comp_hasDerivAt (0 : ℝ) hx

end

/-- a state with varying thickness and velocity, and a run that meets the hypotheses -/
example (prm : Params ℝ) (n1 : prm.disable_h = false) (n2 : prm.disable_vn = false) : ∃ m m1 : Mem ℝ,
    Ready p46t (1 / 4) prm m ∧
    Exec p46t.dims ((Stepper.lsrk 1).ctor p46t.dims ++ (Stepper.lsrk 1).run p46t.dims
      ⟨defaultKernels p46t.dims.vl, false⟩ (SWModel.ofParams prm) [(0, 1)]) m m1 ∧
    m.real (.vn_edge .state) 0 7 2 = 49 ∧
    ∃ L δ : ℝ, 0 < δ ∧ ∀ (b b' : Mem ℝ), Ready p46t (1 / 4) prm b → Apart p46t.dims δ m b →
      Exec p46t.dims ((Stepper.lsrk 1).ctor p46t.dims ++ (Stepper.lsrk 1).run p46t.dims
        ⟨defaultKernels p46t.dims.vl, false⟩ (SWModel.ofParams prm) [(0, 1)]) b b' →
      ∀ ε, 0 ≤ ε → Apart p46t.dims ε m b → Apart p46t.dims (L * ε) m1 b' := by
  obtain ⟨m, m1, hr, hx, he⟩ := exists_newRun p46t_run (1 / 4) prm (noHook_ofParams prm) false
    (.lsrk 1) [(0, 1)] ⟨fun c _ => 1 + c, fun e _ => e * e, fun l c k => (l + k) * (1 + c)⟩
  refine ⟨m, m1, hr, he, (congrFun (congrFun (congrArg Fld.vn hx) 7) 2).trans (by norm_num), ?_⟩
  obtain ⟨L, δ, δ0, key⟩ := C109_continuous_dependence p46t_run (by norm_num) n1 n2 hr (stp := .lsrk 1)
    (sched := [(0, 1)]) (split := false) fun st m' hc c k c0 c1 k0 k1 => by
      obtain ⟨rfl, hs⟩ := callsAt_euler hc
      rw [hx] at hs
      rw [show m'.real (.h_cell .state) 0 c k = 1 + (c : ℝ) from
        congrFun (congrFun (congrArg Fld.h hs) c) k]
      positivity
  have h0 : Apart p46t.dims δ m m := (apart_iff δ0.le).2 (by simpa using δ0.le)
  exact ⟨L, δ, δ0, fun b b' rb nb eb ε ε0 hε => key m b m1 b' false false hr rb h0 nb he eb ε ε0 hε⟩

end Props
end
end Omega
