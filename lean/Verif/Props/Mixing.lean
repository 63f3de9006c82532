import Verif.Props.TracerHyper
import Verif.Props.Modes

/-!
# C120: diffusion mixes

With the flow prescribed and at rest, steps of tracer diffusion bring every concentration to the uniform one with the
same content.
-/

set_option linter.unusedVariables false
set_option linter.unusedSectionVars false

namespace Omega
noncomputable section
namespace Props

open Prog Model Refine Hex Polynomial

variable {p : MeshParams} {dc : ℝ} {m : Mem ℝ}

/-- Inside the limit every stepper damps. -/
theorem stab_lt_one (stp : Stepper) {z : ℝ} (h1 : -diffusionLimit stp < z) (h0 : z < 0) :
    |(stabPoly stp).eval z| < 1 := by
  cases stp with
  | rk4 =>
    simp only [diffusionLimit] at h1
    rw [rk4_eval, abs_lt]
    constructor
    · nlinarith [sq_nonneg (z ^ 2 + 2 * z), sq_nonneg (z + 1), sq_nonneg (z + 2), sq_nonneg z]
    · have e : 0 < 1 + z / 2 + z ^ 2 / 6 + z ^ 3 / 24 := by
        nlinarith [sq_nonneg (z + 2), mul_nonneg (sub_nonneg.2 h1.le) (sq_nonneg (z + 1 / 2))]
      nlinarith
  | lsrk n =>
    simp only [diffusionLimit] at h1
    by_cases n1 : n = 1
    · subst n1
      rw [if_pos rfl] at h1
      rw [stabPoly_euler, eval_add, eval_one, eval_X, abs_lt]
      constructor <;> linarith
    · rw [if_neg n1] at h1
      by_cases n5 : n = 5
      · subst n5
        rw [if_pos rfl] at h1
        obtain ⟨c1, c2, c3, c4, c5, k1, k2, k3, k4, k5, he⟩ := lsrk5_eval
        rw [abs_le] at k1 k2 k3 k4 k5
        obtain ⟨y, rfl⟩ : ∃ y, z = -y := ⟨-z, by ring⟩
        have yp : 0 < y := by linarith
        have y0 : 0 ≤ y := yp.le
        have y1 : y ≤ 9 / 2 := by linarith
        have b2 : y ^ 2 ≤ 21 := by nlinarith
        have b3 : y ^ 3 ≤ 95 := by nlinarith [pow_nonneg y0 2]
        have b4 : y ^ 4 ≤ 428 := by nlinarith [pow_nonneg y0 3]
        have b5 : y ^ 5 ≤ 1926 := by nlinarith [pow_nonneg y0 4]
        have p2 := pow_nonneg y0 2
        have p3 := pow_nonneg y0 3
        have p4 := pow_nonneg y0 4
        have p5 := pow_nonneg y0 5
        have U : (1 : ℝ) / 100 ≤ 1 - y / 2 + y ^ 2 / 6 - y ^ 3 / 24 + y ^ 4 / 200 := by
          nlinarith [sq_nonneg (y ^ 2 - 25 / 6 * y + 5), sq_nonneg (y - 49 / 10)]
        have D : (1 : ℝ) / 10 ≤ 2 - y + y ^ 2 / 2 - y ^ 3 / 6 + y ^ 4 / 24 - y ^ 5 / 200 := by
          have E : 0 ≤ y ^ 4 / 200 - 23 / 1200 * y ^ 3 + 193 / 2400 * y ^ 2 - 221 / 1600 * y +
              1211 / 3200 := by
            nlinarith [sq_nonneg (y ^ 2 - 23 / 12 * y), sq_nonneg (y - 11 / 10)]
          have := mul_nonneg (sub_nonneg.2 y1) E
          nlinarith
        rw [he, abs_lt]
        constructor
        · nlinarith
        · have : 0 < c1 - c2 * y + c3 * y ^ 2 - c4 * y ^ 3 + c5 * y ^ 4 := by nlinarith
          nlinarith [mul_pos yp this]
      · rw [if_neg n5] at h1
        linarith

/-- Every stepper keeps what does not change. -/
theorem stab_zero (stp : Stepper) : (stabPoly stp).eval 0 = 1 := by
  cases stp with
  | rk4 => rw [rk4_eval]; norm_num
  | lsrk n =>
    have : ∀ (L : List ℕ) (q : ℝ[X] × ℝ[X]), q.1.eval 0 = 0 → q.2.eval 0 = 1 →
        (L.foldl (fun (q : ℝ[X] × ℝ[X]) i => (C ((lsrkCoef n).a i) * q.1 + X * q.2,
          q.2 + C ((lsrkCoef n).b i) * (C ((lsrkCoef n).a i) * q.1 + X * q.2))) q).2.eval 0 = 1 := by
      intro L
      induction L with
      | nil => exact fun q _ h => h
      | cons i L ih =>
        intro q h h'
        exact ih _ (by simp [h]) (by simp [h, h'])
    exact this (List.range n) (0, 1) (by simp) (by simp)

/-- The concentrations that diffusion does not change are the uniform ones. -/
theorem diff_kernel (h : Geo2 p.nx p.ny p.dims.nlayers dc m.mesh) (hc : ConnOK p.dims m) (hny : p.ny % 2 = 0)
    {sw : SWModel ℝ} (h4 : sw.en_thyper = false) (hen : sw.en_tdiff = true) (h2 : 0 < sw.prm.eddy_diff2)
    {x u : Int → ℝ} (hu : ∀ e, 0 ≤ e → e < p.dims.nedges → u e = 0) {k : Int} (k0 : 0 ≤ k)
    (k1 : k < p.dims.nlayers) {hlo hhi dt : ℝ} (hl : 0 < hlo)
    (hx : ∀ c, 0 ≤ c → c < p.dims.ncells → hlo ≤ x c ∧ x c ≤ hhi) (hdt : 0 < dt) :
    (∀ c ∈ Spec.cells p.dims, (dt • trOp m sw x u) x c = 0) ∧
    ∀ g : Int → ℝ, (∀ c ∈ Spec.cells p.dims, (dt • trOp m sw x u) g c = 0) →
      ∃ C, ∀ c ∈ Spec.cells p.dims, g c = C * x c := by
  have pos : ∀ c, 0 ≤ c → c < p.dims.ncells → 0 < x c := fun c a b => hl.trans_le (hx c a b).1
  have dcp := h.dc_pos
  constructor
  · intro c hcc
    obtain ⟨c0, c1⟩ := Finset.mem_Ico.1 hcc
    show dt * trOp m sw x u x c = 0
    rw [trOp_diff h hc h4 x u x hu k0 k1 c0 c1, div_congr hc (v := fun _ => 0) (fun e a b => by
      rw [grad_congr hc (ψ := fun _ => 1) (fun c a b => div_self (pos c a b).ne') a b]
      simp [Spec.grad]) c0 c1]
    simp [Spec.div]
  · intro g hg
    obtain ⟨-, bil, -⟩ := diff_form h hc hny h4 h2.le hu k0 k1 hl hx hdt.le
      (L := 6 * sw.prm.eddy_diff2 * dt * hhi / (hlo * dc ^ 2)) (le_of_eq (by field_simp))
    have b := bil g g
    rw [Finset.sum_eq_zero fun c hcc => by rw [hg c hcc]; ring, if_pos hen] at b
    have z : ∑ e ∈ Spec.edges p.dims, (Spec.dcE m e * Spec.dvE m e * Spec.mean m x e) *
        Spec.grad m (fun i => g i / x i) e ^ 2 = 0 := by
      have := (mul_eq_zero.1 (neg_eq_zero.1 b.symm)).resolve_left (by positivity)
      rw [← this]
      exact Finset.sum_congr rfl fun e _ => by ring
    have z' := sum_sq_zero (fun e he => by
      obtain ⟨a, b⟩ := Finset.mem_Ico.1 he
      obtain ⟨a0, a1⟩ := hc.coe e a b 0 (by norm_num) (by norm_num)
      obtain ⟨b0, b1⟩ := hc.coe e a b 1 (by norm_num) (by norm_num)
      refine mul_pos (dcdv_pos h.toGeo a b) ?_
      have ha := pos _ a0 a1
      have hb := pos _ b0 b1
      unfold Spec.mean Spec.cellOf
      linarith) z
    obtain ⟨C, hC⟩ := const_of_grad h h.hny2 hny fun e a b => z' e (Finset.mem_Ico.2 ⟨a, b⟩)
    refine ⟨C, fun c hcc => ?_⟩
    obtain ⟨c0, c1⟩ := Finset.mem_Ico.1 hcc
    exact (div_eq_iff (pos c c0 c1).ne').1 (hC c c0 c1)

/-- Steps of tracer diffusion in a prescribed flow at rest, all of the same size strictly within the limit of the
stepper: at every step the variance of the concentration about its mean shrinks at least by a fixed factor less than
one, the same for all tracers and all numbers of steps. -/
theorem C120_variance_decays (hv : RunValid p) (hx : 2 ≤ p.nx) (hy : 2 ≤ p.ny) (hny : p.ny % 2 = 0)
    (hdc : 0 < dc) {prm : Params ℝ} (hr : Ready p dc prm m) {sw : SWModel ℝ} (hn : sw.NoHook)
    (h5 : sw.prm.disable_h = true) (h6 : sw.prm.disable_vn = true) (h4 : sw.en_thyper = false)
    (hen : sw.en_tdiff = true) (h2 : 0 < sw.prm.eddy_diff2) {k : Int} (k0 : 0 ≤ k) (k1 : k < p.dims.nlayers)
    (hu : ∀ e, 0 ≤ e → e < p.dims.nedges → m.real (.vn_edge .state) 0 e k = 0) {hlo hhi : ℝ} (hl : 0 < hlo)
    (hh : ∀ c, 0 ≤ c → c < p.dims.ncells →
      hlo ≤ m.real (.h_cell .state) 0 c k ∧ m.real (.h_cell .state) 0 c k ≤ hhi)
    {stp : Stepper} {dt : ℝ} (hdt : 0 < dt)
    (hcfl : 6 * sw.prm.eddy_diff2 * dt * hhi < diffusionLimit stp * hlo * dc ^ 2) :
    ∃ r : ℝ, 0 ≤ r ∧ r < 1 ∧ ∀ (l : Int) (sched : List (ℝ × ℝ)) (split : Bool) (m1 : Mem ℝ), 0 ≤ l →
      l < p.dims.ntracers → (∀ q ∈ sched, q.2 = dt) →
      Exec p.dims (stp.ctor p.dims ++ stp.run p.dims ⟨defaultKernels p.dims.vl, split⟩ sw sched) m m1 →
      ∀ C, C * ∑ c ∈ Spec.cells p.dims, Spec.areaC m c * m.real (.h_cell .state) 0 c k =
          ∑ c ∈ Spec.cells p.dims, Spec.areaC m c * m.real (.tr_cell .state) l c k →
        ∑ c ∈ Spec.cells p.dims, Spec.areaC m c * m1.real (.h_cell .state) 0 c k *
            (m1.real (.tr_cell .state) l c k / m1.real (.h_cell .state) 0 c k - C) ^ 2 ≤
          r ^ sched.length * ∑ c ∈ Spec.cells p.dims, Spec.areaC m c * m.real (.h_cell .state) 0 c k *
            (m.real (.tr_cell .state) l c k / m.real (.h_cell .state) 0 c k - C) ^ 2 := by
  obtain ⟨hd, hc⟩ := ready_ok hv hr
  have g := Ready.geo2 hr hv.toValid hx hy hdc
  set x : Int → ℝ := fun i => m.real (.h_cell .state) 0 i k with hxd
  set u : Int → ℝ := fun i => m.real (.vn_edge .state) 0 i k with hud
  have pos : ∀ c ∈ Spec.cells p.dims, 0 < x c := fun c hcc => by
    obtain ⟨a, b⟩ := Finset.mem_Ico.1 hcc
    exact hl.trans_le (hh c a b).1
  have hw : ∀ c ∈ Spec.cells p.dims, 0 < Spec.areaC m c / x c := fun c hcc => by
    obtain ⟨a, b⟩ := Finset.mem_Ico.1 hcc
    exact div_pos (areaC_pos g.toGeo a b) (pos c hcc)
  obtain ⟨L, hL⟩ : ∃ L, L = 6 * sw.prm.eddy_diff2 * dt * hhi / (hlo * dc ^ 2) := ⟨_, rfl⟩
  have L1 : L < diffusionLimit stp := by
    rw [hL, div_lt_iff₀ (by positivity)]
    linarith
  obtain ⟨loc, -, sym, neg, low⟩ := diff_form g hc hny h4 h2.le hu k0 k1 hl hh hdt.le (L := L)
    (le_of_eq (by rw [hL]; field_simp))
  obtain ⟨kx, ker⟩ := diff_kernel g hc hny h4 hen h2 hu k0 k1 hl hh hdt
  obtain ⟨r, r0, r1, dec⟩ := Spectral.decay hw loc sym neg low (P := stabPoly stp)
    fun z a b => stab_lt_one stp (by linarith) b
  obtain ⟨kp1, kp2⟩ := Spectral.kernel_poly loc sym kx (stabPoly stp)
  rw [stab_zero] at kp1 kp2
  simp only [one_mul] at kp1 kp2
  refine ⟨r, r0, r1, fun l sched split m1 l0 l1 hs he C hC => ?_⟩
  have fold : ∀ (sched : List (ℝ × ℝ)), (∀ q ∈ sched, q.2 = dt) → ∀ f : Int → ℝ,
      (∑ c ∈ Spec.cells p.dims, Spec.areaC m c / x c * (x c * f c) =
        C * ∑ c ∈ Spec.cells p.dims, Spec.areaC m c / x c * (x c * x c)) →
      ∑ c ∈ Spec.cells p.dims, Spec.areaC m c / x c * (sched.foldl (fun f q =>
          aeval (q.2 • trOp m sw x u) (stabPoly stp) f) f c - C * x c) ^ 2 ≤
        r ^ sched.length * ∑ c ∈ Spec.cells p.dims, Spec.areaC m c / x c * (f c - C * x c) ^ 2 := by
    intro sched
    induction sched with
    | nil => intro _ f _; simp
    | cons q sched ih =>
      intro hq f hf
      have q1 : q.2 = dt := hq q List.mem_cons_self
      have s1 := ih (fun q hq' => hq q (List.mem_cons_of_mem _ hq'))
        (aeval (q.2 • trOp m sw x u) (stabPoly stp) f) (by rw [q1, kp2 f]; exact hf)
      rw [List.foldl_cons]
      refine s1.trans ?_
      rw [List.length_cons, pow_succ, mul_assoc]
      refine mul_le_mul_of_nonneg_left ?_ (pow_nonneg r0 _)
      have s2 := dec (f - C • x) fun g' hg' => by
        obtain ⟨K, hK⟩ := ker g' hg'
        have e : ∑ c ∈ Spec.cells p.dims, Spec.areaC m c / x c * (g' c * (f - C • x) c) =
            K * (∑ c ∈ Spec.cells p.dims, Spec.areaC m c / x c * (x c * f c) -
              C * ∑ c ∈ Spec.cells p.dims, Spec.areaC m c / x c * (x c * x c)) := by
          rw [Finset.mul_sum, ← Finset.sum_sub_distrib, Finset.mul_sum]
          refine Finset.sum_congr rfl fun c hcc => ?_
          rw [hK c hcc]
          simp only [Pi.sub_apply, Pi.smul_apply, smul_eq_mul]
          ring
        rw [e, hf, sub_self, mul_zero]
      refine le_trans (le_of_eq ?_) (s2.trans (le_of_eq ?_))
      · refine Finset.sum_congr rfl fun c hcc => ?_
        rw [map_sub, map_smul, q1]
        simp only [Pi.sub_apply, Pi.smul_apply, smul_eq_mul]
        rw [kp1 c hcc]
      · simp only [Pi.sub_apply, Pi.smul_apply, smul_eq_mul]
  obtain ⟨e1, -, e3⟩ := frozen_exec h5 h6 hd hc hn he
  have key := fold sched hs (fun c => m.real (.tr_cell .state) l c k) (by
    have a : ∀ f : Int → ℝ, ∑ c ∈ Spec.cells p.dims, Spec.areaC m c / x c * (x c * f c) =
        ∑ c ∈ Spec.cells p.dims, Spec.areaC m c * f c := fun f =>
      Finset.sum_congr rfl fun c hcc => by
        have := (pos c hcc).ne'
        field_simp
    rw [a, a]
    exact hC.symm)
  have w : ∀ (f : ℝ) (c : Int), c ∈ Spec.cells p.dims →
      Spec.areaC m c * x c * (f / x c - C) ^ 2 = Spec.areaC m c / x c * (f - C * x c) ^ 2 := fun f c hcc => by
    have := (pos c hcc).ne'
    field_simp
  refine le_trans (le_of_eq ?_) (key.trans (le_of_eq ?_))
  · refine Finset.sum_congr rfl fun c hcc => ?_
    obtain ⟨c0, c1⟩ := Finset.mem_Ico.1 hcc
    rw [e1 c k c0 c1 k0 k1, e3 l c k l0 l1 c0 c1 k0 k1]
    exact w _ c hcc
  · congr 1
    exact Finset.sum_congr rfl fun c hcc => (w _ c hcc).symm

/-- Hence every tracer is mixed: after enough steps its concentration is in every cell as close as desired to the
uniform concentration with the same content. -/
theorem C120_diffusion_mixes (hv : RunValid p) (hx : 2 ≤ p.nx) (hy : 2 ≤ p.ny) (hny : p.ny % 2 = 0)
    (hdc : 0 < dc) {prm : Params ℝ} (hr : Ready p dc prm m) {sw : SWModel ℝ} (hn : sw.NoHook)
    (h5 : sw.prm.disable_h = true) (h6 : sw.prm.disable_vn = true) (h4 : sw.en_thyper = false)
    (hen : sw.en_tdiff = true) (h2 : 0 < sw.prm.eddy_diff2) {l k : Int} (l0 : 0 ≤ l) (l1 : l < p.dims.ntracers)
    (k0 : 0 ≤ k) (k1 : k < p.dims.nlayers)
    (hu : ∀ e, 0 ≤ e → e < p.dims.nedges → m.real (.vn_edge .state) 0 e k = 0) {hlo hhi : ℝ} (hl : 0 < hlo)
    (hh : ∀ c, 0 ≤ c → c < p.dims.ncells →
      hlo ≤ m.real (.h_cell .state) 0 c k ∧ m.real (.h_cell .state) 0 c k ≤ hhi)
    {stp : Stepper} {dt : ℝ} (hdt : 0 < dt)
    (hcfl : 6 * sw.prm.eddy_diff2 * dt * hhi < diffusionLimit stp * hlo * dc ^ 2) {ε : ℝ} (hε : 0 < ε) :
    ∃ N : ℕ, ∀ (sched : List (ℝ × ℝ)) (split : Bool) (m1 : Mem ℝ), N ≤ sched.length → (∀ q ∈ sched, q.2 = dt) →
      Exec p.dims (stp.ctor p.dims ++ stp.run p.dims ⟨defaultKernels p.dims.vl, split⟩ sw sched) m m1 →
      ∀ c, 0 ≤ c → c < p.dims.ncells →
        |m1.real (.tr_cell .state) l c k / m1.real (.h_cell .state) 0 c k -
          (∑ c ∈ Spec.cells p.dims, Spec.areaC m c * m.real (.tr_cell .state) l c k) /
            ∑ c ∈ Spec.cells p.dims, Spec.areaC m c * m.real (.h_cell .state) 0 c k| < ε := by
  obtain ⟨hd, hc⟩ := ready_ok hv hr
  have g := Ready.geo2 hr hv.toValid hx hy hdc
  obtain ⟨r, r0, r1, H⟩ := C120_variance_decays hv hx hy hny hdc hr hn h5 h6 h4 hen h2 k0 k1 hu hl hh hdt hcfl
  set C := (∑ c ∈ Spec.cells p.dims, Spec.areaC m c * m.real (.tr_cell .state) l c k) /
    ∑ c ∈ Spec.cells p.dims, Spec.areaC m c * m.real (.h_cell .state) 0 c k with hC
  set V := ∑ c ∈ Spec.cells p.dims, Spec.areaC m c * m.real (.h_cell .state) 0 c k *
    (m.real (.tr_cell .state) l c k / m.real (.h_cell .state) 0 c k - C) ^ 2 with hV
  have Apos : ∀ c ∈ Spec.cells p.dims, 0 < Spec.areaC m c := fun c hcc =>
    areaC_pos g.toGeo (Finset.mem_Ico.1 hcc).1 (Finset.mem_Ico.1 hcc).2
  have hpos : ∀ c ∈ Spec.cells p.dims, 0 < m.real (.h_cell .state) 0 c k := fun c hcc =>
    hl.trans_le (hh c (Finset.mem_Ico.1 hcc).1 (Finset.mem_Ico.1 hcc).2).1
  have nc : 0 < p.dims.ncells := by
    show 0 < p.nx * p.ny
    positivity
  have z0 : (0 : Int) ∈ Spec.cells p.dims := Finset.mem_Ico.2 ⟨le_refl _, nc⟩
  have Mpos : 0 < ∑ c ∈ Spec.cells p.dims, Spec.areaC m c * m.real (.h_cell .state) 0 c k :=
    Finset.sum_pos (fun c hcc => mul_pos (Apos c hcc) (hpos c hcc)) ⟨0, z0⟩
  have V0 : 0 ≤ V := Finset.sum_nonneg fun c hcc =>
    mul_nonneg (mul_pos (Apos c hcc) (hpos c hcc)).le (sq_nonneg _)
  -- all cells have the same area
  have area : ∀ c ∈ Spec.cells p.dims, Spec.areaC m c = Spec.areaC m 0 := fun c hcc => by
    obtain ⟨a, b⟩ := Finset.mem_Ico.1 hcc
    rw [spec_areaC g.toGeo ⟨a, b⟩, spec_areaC g.toGeo ⟨le_refl 0, nc⟩]
  have A0 := Apos 0 z0
  obtain ⟨δ, hδ⟩ : ∃ δ, δ = Spec.areaC m 0 * hlo * ε ^ 2 := ⟨_, rfl⟩
  have δ0 : 0 < δ := by rw [hδ]; positivity
  obtain ⟨N, hN⟩ := exists_pow_lt_of_lt_one (show 0 < δ / (V + 1) by positivity) r1
  refine ⟨N, fun sched split m1 hlen hs he c c0 c1 => ?_⟩
  have key := H l sched split m1 l0 l1 hs he C (by rw [hC]; field_simp)
  obtain ⟨e1, -, -⟩ := frozen_exec h5 h6 hd hc hn he
  have hcc : c ∈ Spec.cells p.dims := Finset.mem_Ico.2 ⟨c0, c1⟩
  have one : Spec.areaC m c * m1.real (.h_cell .state) 0 c k *
      (m1.real (.tr_cell .state) l c k / m1.real (.h_cell .state) 0 c k - C) ^ 2 ≤
      ∑ c ∈ Spec.cells p.dims, Spec.areaC m c * m1.real (.h_cell .state) 0 c k *
        (m1.real (.tr_cell .state) l c k / m1.real (.h_cell .state) 0 c k - C) ^ 2 :=
    Finset.single_le_sum (f := fun c => Spec.areaC m c * m1.real (.h_cell .state) 0 c k *
        (m1.real (.tr_cell .state) l c k / m1.real (.h_cell .state) 0 c k - C) ^ 2) (fun c hcc => by
      obtain ⟨a, b⟩ := Finset.mem_Ico.1 hcc
      show 0 ≤ Spec.areaC m c * m1.real (.h_cell .state) 0 c k * _
      rw [e1 c k a b k0 k1]
      exact mul_nonneg (mul_pos (Apos c hcc) (hpos c hcc)).le (sq_nonneg _)) hcc
  have pw : r ^ sched.length * V < δ := by
    have a : r ^ sched.length ≤ r ^ N := pow_le_pow_of_le_one r0 r1.le hlen
    calc r ^ sched.length * V ≤ r ^ N * V := mul_le_mul_of_nonneg_right a V0
      _ ≤ δ / (V + 1) * V := mul_le_mul_of_nonneg_right hN.le V0
      _ < δ := by
          rw [div_mul_eq_mul_div, div_lt_iff₀ (by positivity)]
          nlinarith
  have fin := lt_of_le_of_lt (one.trans key) pw
  rw [area c hcc, e1 c k c0 c1 k0 k1] at fin
  rw [e1 c k c0 c1 k0 k1]
  refine abs_lt_of_sq_lt_sq ?_ hε.le
  have hlo' := (hh c c0 c1).1
  set q := m1.real (.tr_cell .state) l c k / m.real (.h_cell .state) 0 c k - C
  have : Spec.areaC m 0 * hlo * q ^ 2 < Spec.areaC m 0 * hlo * ε ^ 2 := by
    rw [← hδ]
    refine lt_of_le_of_lt ?_ fin
    exact mul_le_mul_of_nonneg_right (mul_le_mul_of_nonneg_left hlo' A0.le) (sq_nonneg _)
  exact lt_of_mul_lt_mul_left this (by positivity)

/-- C120: a layer of varying thickness with a tracer that is not uniform, on the mesh of the tests. -/
example : ∃ m : Mem ℝ, Ready p46t 1 (prmTr 1 0) m ∧ m.real (.tr_cell .state) 0 5 0 = 5 ∧
    m.real (.h_cell .state) 0 12 0 = 3 / 2 ∧ ∃ N : ℕ, ∀ n, N ≤ n → ∃ m1,
    Exec p46t.dims ((Stepper.lsrk 5).ctor p46t.dims ++ (Stepper.lsrk 5).run p46t.dims
      ⟨defaultKernels p46t.dims.vl, false⟩ (SWModel.ofParams (prmTr 1 0)) (List.replicate n (0, 1 / 8))) m m1 ∧
    ∀ c, 0 ≤ c → c < p46t.dims.ncells →
      |m1.real (.tr_cell .state) 0 c 0 / m1.real (.h_cell .state) 0 c 0 -
        (∑ c ∈ Spec.cells p46t.dims, Spec.areaC m c * m.real (.tr_cell .state) 0 c 0) /
          ∑ c ∈ Spec.cells p46t.dims, Spec.areaC m c * m.real (.h_cell .state) 0 c 0| < 1 / 1000 := by
  obtain ⟨m, hr, hx, -⟩ := exists_ready p46t_run.toValid 1 (prmTr 1 0)
    ⟨fun c _ => 1 + c / 24, fun e _ => 0, fun l c k => c⟩ zeroFld
  have nc : p46t.dims.ncells = 24 := rfl
  have en : (SWModel.ofParams (prmTr 1 0)).en_thyper = false := by
    simp [SWModel.ofParams, prmTr, Scalar.lt]
  have eh : ∀ c k, m.real (.h_cell .state) 0 c k = 1 + (c : ℝ) / 24 := fun c k =>
    congrFun (congrFun (congrArg Fld.h hx) c) k
  have ev : ∀ e k, m.real (.vn_edge .state) 0 e k = 0 := fun e k =>
    congrFun (congrFun (congrArg Fld.vn hx) e) k
  have et : ∀ l c k, m.real (.tr_cell .state) l c k = (c : ℝ) := fun l c k =>
    congrFun (congrFun (congrFun (congrArg Fld.tr hx) l) c) k
  have hh : ∀ c, 0 ≤ c → c < p46t.dims.ncells → 1 ≤ m.real (.h_cell .state) 0 c 0 ∧
      m.real (.h_cell .state) 0 c 0 ≤ 2 := fun c c0 c1 => by
    rw [nc] at c1
    have a0 : (0 : ℝ) ≤ c := by exact_mod_cast c0
    have a1 : (c : ℝ) ≤ 24 := by exact_mod_cast c1.le
    rw [eh]
    constructor <;> linarith
  obtain ⟨N, hN⟩ := C120_diffusion_mixes p46t_run (by simp [p46t]) (by simp [p46t]) (by decide) one_pos hr
    (noHook_ofParams _) rfl rfl en (by simp [SWModel.ofParams, prmTr]) (by simp [SWModel.ofParams, prmTr])
    (l := 0) (le_refl _) (by decide) (k := 0) (by norm_num) p46t_layer (fun e _ _ => ev e 0) one_pos hh
    (stp := .lsrk 5) (dt := 1 / 8) (by norm_num)
    (by norm_num [SWModel.ofParams, prmTr, diffusionLimit]) (ε := 1 / 1000) (by norm_num)
  refine ⟨m, hr, by rw [et]; norm_num, by rw [eh]; norm_num, N, fun n hn => ?_⟩
  obtain ⟨hd, hc⟩ := ready_ok p46t_run hr
  obtain ⟨m1, he⟩ := ((C40_safe_deterministic hd hc (noHook_ofParams (prmTr 1 0)) false).2.2 (.lsrk 5)
    (List.replicate n (0, 1 / 8))).2.exists
  exact ⟨m1, he, hN _ false m1 (by simpa using hn) (fun q hq => by rw [List.eq_of_mem_replicate hq]) he⟩

end Props
end
end Omega
