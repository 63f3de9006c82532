import Verif.Props.DiffusionSharp

/-!
# C111: a wave of tracer in a uniform flow

The discrete dispersion relation of tracer transport: how fast each wave moves, how it is damped, and which steppers
amplify it.
-/

set_option linter.unusedVariables false
set_option linter.unusedSectionVars false

namespace Omega
noncomputable section
namespace Props

open Prog Model Refine Hex Polynomial Taylor

variable {p : MeshParams} {dc : ℝ} {m : Mem ℝ}

/-! ### Polynomials in an operator that turns and damps a wave -/

/-- the function `Re (w * exp (-i (φ c)))` -/
def turned (φ : Int → ℝ) (w : ℂ) (c : Int) : ℝ := (w * Complex.exp (-(φ c * Complex.I))).re

theorem turned_eq (φ : Int → ℝ) (w : ℂ) (c : Int) :
    turned φ w c = w.re * Real.cos (φ c) + w.im * Real.sin (φ c) := by
  unfold turned
  rw [show -((φ c : ℂ) * Complex.I) = ((-φ c : ℝ) : ℂ) * Complex.I by push_cast; ring, Complex.mul_re,
    Complex.exp_ofReal_mul_I_re, Complex.exp_ofReal_mul_I_im, Real.cos_neg, Real.sin_neg]
  ring

theorem turned_add (φ : Int → ℝ) (w w' : ℂ) : turned φ (w + w') = turned φ w + turned φ w' := by
  funext c
  rw [Pi.add_apply, turned_eq, turned_eq, turned_eq, Complex.add_re, Complex.add_im]; ring

theorem turned_smul (φ : Int → ℝ) (a : ℝ) (w : ℂ) : turned φ (a * w) = a • turned φ w := by
  funext c
  rw [Pi.smul_apply, turned_eq, turned_eq, Complex.re_ofReal_mul, Complex.im_ofReal_mul, smul_eq_mul]; ring

section
variable {A : Module.End ℝ (Int → ℝ)} {S : Int → Prop}
  (loc : ∀ g g' : Int → ℝ, (∀ c, S c → g c = g' c) → ∀ c, S c → A g c = A g' c) {φ : Int → ℝ} {ζ : ℂ}
  (turn : ∀ w c, S c → A (turned φ w) c = turned φ (ζ * w) c)
include loc turn

theorem pow_turn (n : ℕ) (w : ℂ) : ∀ c, S c → (A ^ n) (turned φ w) c = turned φ (ζ ^ n * w) c := by
  induction n with
  | zero => intro c hc; simp
  | succ n ih =>
    intro c hc
    rw [pow_succ', Module.End.mul_apply, loc _ _ ih c hc, turn _ c hc, pow_succ', mul_assoc]

theorem aeval_turn (P : ℝ[X]) (w : ℂ) : ∀ c, S c → aeval A P (turned φ w) c = turned φ (aeval ζ P * w) c := by
  induction P using Polynomial.induction_on' with
  | add P Q hP hQ =>
    intro c hc
    rw [map_add, LinearMap.add_apply, Pi.add_apply, hP c hc, hQ c hc, map_add, add_mul, turned_add, Pi.add_apply]
  | monomial n a =>
    intro c hc
    rw [aeval_monomial, aeval_monomial, Module.End.mul_apply, mul_assoc]
    show a * (A ^ n) (turned φ w) c = turned φ ((a : ℂ) * (ζ ^ n * w)) c
    rw [pow_turn loc turn n w c hc, turned_smul]; rfl

end

/-- steps on a wave above a background in the kernel -/
theorem fold_turn {A : Module.End ℝ (Int → ℝ)} {S : Int → Prop}
    (loc : ∀ g g' : Int → ℝ, (∀ c, S c → g c = g' c) → ∀ c, S c → A g c = A g' c) {φ : Int → ℝ} {ζ : ℂ}
    (turn : ∀ w c, S c → A (turned φ w) c = turned φ (ζ * w) c) {P : ℝ[X]} (P0 : P.eval 0 = 1) {b : Int → ℝ}
    (hb : ∀ c, S c → A b c = 0) (L : List (ℝ × ℝ)) : ∀ (w : ℂ) (x : Int → ℝ),
    (∀ c, S c → x c = b c + turned φ w c) → ∀ c, S c →
    L.foldl (fun f q => aeval (q.2 • A) P f) x c =
      b c + turned φ ((L.map fun q => aeval (q.2 * ζ : ℂ) P).prod * w) c := by
  induction L with
  | nil => intro w x hx c hc; simpa using hx c hc
  | cons q L ih =>
    intro w x hx c hc
    have loc' : ∀ g g' : Int → ℝ, (∀ c, S c → g c = g' c) → ∀ c, S c → (q.2 • A) g c = (q.2 • A) g' c :=
      fun g g' h c hc => congrArg (q.2 * ·) (loc g g' h c hc)
    have turn' : ∀ w c, S c → (q.2 • A) (turned φ w) c = turned φ (q.2 * ζ * w) c := fun w c hc => by
      show q.2 * A (turned φ w) c = _
      rw [turn w c hc, mul_assoc, turned_smul]; rfl
    have e1 := aeval_turn loc' turn' P w
    have e2 := aeval_eig loc' (f := x - turned φ w) (μ := 0) (fun c hc => by
      rw [loc' _ b (fun c hc => by
        show x c - turned φ w c = b c
        rw [hx c hc]; ring) c hc]
      show q.2 * A b c = _
      rw [hb c hc]; ring) P
    have e3 : ∀ c, S c → aeval (q.2 • A) P x c = b c + turned φ (aeval (q.2 * ζ : ℂ) P * w) c := fun c hc => by
      have hs : x = (x - turned φ w) + turned φ w := by simp
      rw [hs, map_add, Pi.add_apply, e2 c hc, P0, e1 c hc]
      show 1 * (x c - turned φ w c) + _ = _
      rw [hx c hc]; ring
    rw [List.foldl_cons, ih _ _ e3 c hc, List.map_cons, List.prod_cons]
    congr 2; ring

/-! ### Transport of a plane wave -/

/-- frequency of the wave vector `(k1, k2)` in the uniform flow `(U, W)` on a mesh of spacing `dc` -/
def advSymbol (dc U W k1 k2 : ℝ) : ℝ :=
  2 / (3 * dc) * (U * Real.sin (dc * k1) +
    (U / 2 + √3 / 2 * W) * Real.sin (dc * (k1 / 2 + √3 / 2 * k2)) +
    (U / 2 - √3 / 2 * W) * Real.sin (dc * (k1 / 2 - √3 / 2 * k2)))

/-- the discrete transport of a plane wave by a uniform flow -/
theorem adv_wave {D : ℝ} {T : MeshParams → ℝ → Type} (M : MeshOf D T) {k1 k2 : ℝ} (hk : Fits M.p M.dc k1 k2)
    (U W δ : ℝ) {c : Int} (hc : IsCell M.p.nx M.p.ny c) :
    Spec.div M.m (fun e => Spec.mean M.m (fun c => Real.cos (dotK k1 k2 (cellAt M.m c) + δ)) e *
      normalOf M.m (fun _ => U) (fun _ => W) e) c =
      -(advSymbol M.dc U W k1 k2 * Real.sin (dotK k1 k2 (cellAt M.m c) + δ)) := by
  have d0 := M.pos
  have hp := hk.periodic δ
  have cst : ∀ a : ℝ, Periodic2 M.P M.Q (fun _ => a) := fun a => ⟨fun _ _ => rfl, fun _ _ => rfl⟩
  rw [div_sides M (G := fun a z => meanF M.dc (fun z => Real.cos (dotK k1 k2 z + δ)) a z *
      normF (fun _ => U) (fun _ => W) a z)
    (fun a => per_mul (per_meanF _ hp a) (per_normF (cst U) (cst W) a))
    (fun e h0 h1 => by rw [mean_edge M hp h0 h1, norm_edge M _ _ h0 h1]) hc]
  set A := dotK k1 k2 (cellAt M.m c) with hA
  have pr : ∀ a, meanF M.dc (fun z => Real.cos (dotK k1 k2 z + δ)) a
        (cellAt M.m c - M.dc • ((1 / 2 : ℝ) • dir a)) * normF (fun _ => U) (fun _ => W) a
          (cellAt M.m c - M.dc • ((1 / 2 : ℝ) • dir a)) -
      meanF M.dc (fun z => Real.cos (dotK k1 k2 z + δ)) a (cellAt M.m c + M.dc • ((1 / 2 : ℝ) • dir a)) *
        normF (fun _ => U) (fun _ => W) a (cellAt M.m c + M.dc • ((1 / 2 : ℝ) • dir a)) =
      -(dotK U W (dir a) * Real.sin (A + δ) * Real.sin (M.dc * dotK k1 k2 (dir a))) := fun a => by
    unfold meanF normF
    simp only [dotK_add, dotK_sub, dotK_smul]
    rw [show dotK k1 k2 (cellAt M.m c) = A from rfl,
      show (dir a).1 * U + (dir a).2 * W = dotK U W (dir a) by unfold dotK; ring]
    set y := dotK k1 k2 (dir a)
    rw [show A - M.dc * (1 / 2 * y) - M.dc / 2 * y + δ = A + δ - M.dc * y by ring,
      show A - M.dc * (1 / 2 * y) + M.dc / 2 * y + δ = A + δ by ring,
      show A + M.dc * (1 / 2 * y) - M.dc / 2 * y + δ = A + δ by ring,
      show A + M.dc * (1 / 2 * y) + M.dc / 2 * y + δ = A + δ + M.dc * y by ring, Real.cos_sub, Real.cos_add (A + δ)]
    ring
  have ds : ∀ a b : ℝ, dotK a b (dir 0) = -a ∧ dotK a b (dir 1) = -(a / 2 + √3 / 2 * b) ∧
      dotK a b (dir 2) = a / 2 - √3 / 2 * b := fun a b => by
    refine ⟨by simp [dotK, dir, DX, DY], ?_, ?_⟩ <;> norm_num [dotK, dir, DX, DY] <;> ring
  rw [pr 0, pr 1, pr 2, (ds U W).1, (ds U W).2.1, (ds U W).2.2, (ds k1 k2).1, (ds k1 k2).2.1, (ds k1 k2).2.2,
    mul_neg, mul_neg, Real.sin_neg, Real.sin_neg]
  unfold advSymbol
  ring

/-- the tracer tendency of a layer of uniform thickness -/
theorem trOp_flow (h : Geo2 p.nx p.ny p.dims.nlayers dc m.mesh) (hc : ConnOK p.dims m)
    {prm : Params ℝ} (k2 : 0 ≤ prm.eddy_diff2) (k4 : 0 ≤ prm.eddy_diff4) {x u : Int → ℝ} {H : ℝ} (hH : H ≠ 0)
    (hx : ∀ c, 0 ≤ c → c < p.dims.ncells → x c = H) {k c : Int} (k0 : 0 ≤ k)
    (k1 : k < p.dims.nlayers) (c0 : 0 ≤ c) (c1 : c < p.dims.ncells) (s : Int → ℝ) :
    trOp m (SWModel.ofParams prm) x u s c = -Spec.div m (fun e => Spec.mean m s e * u e) c +
      prm.eddy_diff2 * Spec.div m (Spec.grad m s) c -
      prm.eddy_diff4 * Spec.div m (Spec.grad m (Spec.div m (Spec.grad m s))) c := by
  set sw := SWModel.ofParams prm with hsw
  have e1 : (if sw.en_tdiff then sw.prm.eddy_diff2 else 0) = prm.eddy_diff2 := by
    show (if Scalar.lt (lit 0) prm.eddy_diff2 then prm.eddy_diff2 else 0) = _
    simp only [lit_real, slt_real, Int.cast_zero]
    split_ifs <;> linarith
  have e2 : (if sw.en_thyper then sw.prm.eddy_diff4 else 0) = prm.eddy_diff4 := by
    show (if Scalar.lt (lit 0) prm.eddy_diff4 then prm.eddy_diff4 else 0) = _
    simp only [lit_real, slt_real, Int.cast_zero]
    split_ifs <;> linarith
  have r := trOp_uniform h hc sw (u := fun _ => 0) hH hx (fun _ _ _ => rfl) k0 k1 c0 c1 s
  rw [e1, e2] at r
  have z : Spec.div m (fun e => Spec.mean m x e * Spec.mean m (fun i => s i / x i) e * 0) c = 0 := by
    simp [Spec.div]
  have a : Spec.div m (fun e => Spec.mean m x e * Spec.mean m (fun i => s i / x i) e * u e) c =
      Spec.div m (fun e => Spec.mean m s e * u e) c := div_congr hc (fun e a b => by
    obtain ⟨a0, a1⟩ := hc.coe e a b 0 (by norm_num) (by norm_num)
    obtain ⟨b0, b1⟩ := hc.coe e a b 1 (by norm_num) (by norm_num)
    unfold Spec.mean Spec.cellOf
    beta_reduce
    rw [hx _ a0 a1, hx _ b0 b1]
    field_simp
    ring) c0 c1
  have t : sw.en_thadv = true := rfl
  change Spec.tracerTend m sw x (fun _ => 0) s c = _ at r
  show Spec.tracerTend m sw x u s c = _
  unfold Spec.tracerTend at r ⊢
  rw [if_pos t] at r ⊢
  rw [z] at r
  rw [a]
  linarith

theorem trOp_flow_local (h : Geo2 p.nx p.ny p.dims.nlayers dc m.mesh) (hc : ConnOK p.dims m)
    {prm : Params ℝ} (k2 : 0 ≤ prm.eddy_diff2) (k4 : 0 ≤ prm.eddy_diff4) {x u : Int → ℝ} {H : ℝ} (hH : H ≠ 0)
    (hx : ∀ c, 0 ≤ c → c < p.dims.ncells → x c = H) {k : Int} (k0 : 0 ≤ k)
    (k1 : k < p.dims.nlayers) (g g' : Int → ℝ) (hg : ∀ c, IsCell p.nx p.ny c → g c = g' c) :
    ∀ c, IsCell p.nx p.ny c → trOp m (SWModel.ofParams prm) x u g c = trOp m (SWModel.ofParams prm) x u g' c := by
  rintro c ⟨c0, c1⟩
  rw [trOp_flow h hc k2 k4 hH hx k0 k1 c0 c1, trOp_flow h hc k2 k4 hH hx k0 k1 c0 c1]
  have e : ∀ c, 0 ≤ c → c < p.dims.ncells →
      Spec.div m (Spec.grad m g) c = Spec.div m (Spec.grad m g') c := fun c a b =>
    div_congr hc (fun e a b => grad_congr hc (fun c a b => hg c ⟨a, b⟩) a b) a b
  have e' : Spec.div m (fun e => Spec.mean m g e * u e) c = Spec.div m (fun e => Spec.mean m g' e * u e) c :=
    div_congr hc (fun e a b => by
      obtain ⟨a0, a1⟩ := hc.coe e a b 0 (by norm_num) (by norm_num)
      obtain ⟨b0, b1⟩ := hc.coe e a b 1 (by norm_num) (by norm_num)
      unfold Spec.mean Spec.cellOf
      rw [hg _ ⟨a0, a1⟩, hg _ ⟨b0, b1⟩]) c0 c1
  rw [e c c0 c1, div_congr hc (fun i a b => grad_congr hc e a b) c0 c1, e']

/-- growth rate and frequency of a wave of tracer -/
def trSymbol (prm : Params ℝ) (dc U W k1 k2 : ℝ) : ℂ :=
  -((prm.eddy_diff2 * lapSymbol dc k1 k2 + prm.eddy_diff4 * lapSymbol dc k1 k2 ^ 2 : ℝ) : ℂ) +
    (advSymbol dc U W k1 k2 : ℂ) * Complex.I

section
variable (hv : RunValid p) (hx : 2 ≤ p.nx) (hny : p.ny % 2 = 0) (hdc : 0 < dc) {prm : Params ℝ}
  (hr : Ready p dc prm m) {κx κy : ℝ} (hk : Fits p dc κx κy) (U W : ℝ)
include hv hx hny hdc hr hk

theorem adv_ready (θ : ℝ) {c : Int} (hc : IsCell p.nx p.ny c) :
    Spec.div m (fun e => Spec.mean m (waveH m κx κy θ) e * normalOf m (fun _ => U) (fun _ => W) e) c =
      -(advSymbol dc U W κx κy * Real.sin (dotK κx κy (cellAt m c) - θ)) := by
  obtain ⟨m', hb, hs⟩ := ready_mesh hr
  let M : MeshOf dc (fun _ _ => Unit) := ⟨p, dc, m', (), hv.toValid, hx, hny, hdc, le_rfl, hb⟩
  have := adv_wave M (k1 := κx) (k2 := κy) hk U W (-θ) hc
  unfold waveH
  rw [hs.cellAt, hs.div, hs.mean, hs.normalOf]
  simp only [sub_eq_add_neg]
  exact this

theorem trOp_wave (k2 : 0 ≤ prm.eddy_diff2) (k4 : 0 ≤ prm.eddy_diff4) {k : Int} (k0 : 0 ≤ k)
    (k1 : k < p.dims.nlayers) {x u : Int → ℝ} {H : ℝ} (hH : H ≠ 0)
    (hh : ∀ c, 0 ≤ c → c < p.dims.ncells → x c = H)
    (hu : ∀ e, 0 ≤ e → e < p.dims.nedges → u e = normalOf m (fun _ => U) (fun _ => W) e) (θ : ℝ) {c : Int}
    (hc' : IsCell p.nx p.ny c) :
    trOp m (SWModel.ofParams prm) x u (waveH m κx κy θ) c =
      advSymbol dc U W κx κy * Real.sin (dotK κx κy (cellAt m c) - θ) -
      (prm.eddy_diff2 * lapSymbol dc κx κy + prm.eddy_diff4 * lapSymbol dc κx κy ^ 2) * waveH m κx κy θ c := by
  obtain ⟨hd, hc⟩ := ready_ok hv hr
  have g := Ready.geo2 hr hv.toValid hx (by have := hv.toValid.ny_pos; omega) hdc
  have hf := fun c (hc : IsCell p.nx p.ny c) => lap_ready hv hx hny hdc hr hk θ hc
  set f := waveH m κx κy θ
  set lam := lapSymbol dc κx κy
  have e3 : Spec.div m (Spec.grad m (Spec.div m (Spec.grad m f))) c = lam ^ 2 * f c := by
    rw [div_congr hc (v := fun e => -lam * Spec.grad m f e) (fun e a b => ?_) hc'.1 hc'.2, div_mul', hf c hc']
    · ring
    · rw [grad_congr hc (ψ := fun c => -lam * f c) (fun c a b => hf c ⟨a, b⟩) a b]
      unfold Spec.grad; ring
  rw [trOp_flow g hc k2 k4 hH hh k0 k1 hc'.1 hc'.2, e3, hf c hc',
    div_congr hc (v := fun e => Spec.mean m f e * normalOf m (fun _ => U) (fun _ => W) e)
      (fun e a b => by rw [hu e a b]) hc'.1 hc'.2, adv_ready hv hx hny hdc hr hk U W θ hc']
  ring

/-- **C111.**  A plane wave of tracer in a frozen uniform flow of uniform thickness.  Each step multiplies its complex
amplitude by the value of the stability polynomial of the stepper at `dt` times `trSymbol`: the wave keeps its wave
vector and its background; its amplitude is scaled by the modulus and its phase advances by the argument. -/
theorem C111_wave_in_flow (h5 : prm.disable_h = true) (h6 : prm.disable_vn = true) (k2 : 0 ≤ prm.eddy_diff2)
    (k4 : 0 ≤ prm.eddy_diff4) {l k : Int} (l0 : 0 ≤ l) (l1 : l < p.dims.ntracers) (k0 : 0 ≤ k)
    (k1 : k < p.dims.nlayers) {H : ℝ} (hH : H ≠ 0)
    (hh : ∀ c, 0 ≤ c → c < p.dims.ncells → m.real (.h_cell .state) 0 c k = H)
    (hu : ∀ e, 0 ≤ e → e < p.dims.nedges → m.real (.vn_edge .state) 0 e k =
      U * Real.cos (m.real .angle_edge 0 e 0) + W * Real.sin (m.real .angle_edge 0 e 0))
    {b a θ : ℝ} (ht : ∀ c, 0 ≤ c → c < p.dims.ncells →
      m.real (.tr_cell .state) l c k = b + a * Real.cos (dotK κx κy (cellAt m c) - θ))
    (stp : Stepper) {sched : List (ℝ × ℝ)} {split : Bool} {m1 : Mem ℝ}
    (he : Exec p.dims (stp.ctor p.dims ++
      stp.run p.dims ⟨defaultKernels p.dims.vl, split⟩ (SWModel.ofParams prm) sched) m m1) {A τ : ℝ}
    (hP : (sched.map fun q => aeval (q.2 * trSymbol prm dc U W κx κy : ℂ) (stabPoly stp)).prod =
      A * Complex.exp (τ * Complex.I)) :
    ∀ c, 0 ≤ c → c < p.dims.ncells → m1.real (.tr_cell .state) l c k =
      b + a * A * Real.cos (dotK κx κy (cellAt m c) - (θ + τ)) := by
  intro c c0 c1
  obtain ⟨hd, hc⟩ := ready_ok hv hr
  have g := Ready.geo2 hr hv.toValid hx (by have := hv.toValid.ny_pos; omega) hdc
  obtain ⟨-, -, r3⟩ := frozen_exec h5 h6 hd hc (noHook_ofParams prm) he
  have hu' : ∀ e, 0 ≤ e → e < p.dims.nedges →
      m.real (.vn_edge .state) 0 e k = normalOf m (fun _ => U) (fun _ => W) e := fun e a b => by
    rw [hu e a b]; unfold normalOf normal; ring
  set φ : Int → ℝ := fun c => dotK κx κy (cellAt m c) - θ with hφ
  have dec : ∀ w : ℂ, turned φ w = w.re • waveH m κx κy θ + w.im • waveH m κx κy (θ + Real.pi / 2) := fun w => by
    funext c
    rw [turned_eq]
    show _ = w.re * Real.cos (_ - θ) + w.im * Real.cos (_ - (θ + Real.pi / 2))
    rw [← sub_sub, Real.cos_sub_pi_div_two]
  have wv := fun θ c hc' => trOp_wave hv hx hny hdc hr hk U W k2 k4 k0 k1 hH hh hu' θ (c := c) hc'
  have turn : ∀ w c, IsCell p.nx p.ny c → trOp m (SWModel.ofParams prm) (fun i => m.real (.h_cell .state) 0 i k)
      (fun i => m.real (.vn_edge .state) 0 i k) (turned φ w) c =
      turned φ (trSymbol prm dc U W κx κy * w) c := fun w c hc' => by
    rw [dec w, map_add, map_smul, map_smul]
    show w.re * _ + w.im * _ = _
    rw [wv θ c hc', wv _ c hc', turned_eq]
    unfold trSymbol waveH
    rw [← sub_sub, Real.sin_sub_pi_div_two, Real.cos_sub_pi_div_two]
    simp only [Complex.mul_re, Complex.mul_im, Complex.add_re, Complex.add_im, Complex.neg_re, Complex.neg_im,
      Complex.ofReal_re, Complex.ofReal_im, Complex.I_re, Complex.I_im, hφ]
    ring
  have ker : ∀ c, IsCell p.nx p.ny c → trOp m (SWModel.ofParams prm) (fun i => m.real (.h_cell .state) 0 i k)
      (fun i => m.real (.vn_edge .state) 0 i k) (fun _ => b) c = 0 := by
    have f0 : Fits p dc 0 0 := ⟨⟨0, by simp⟩, 0, by simp⟩
    intro c hc'
    have e := trOp_wave hv hx hny hdc hr f0 U W k2 k4 k0 k1 hH hh hu' 0 (c := c) hc'
    have w0 : (fun _ => b) = b • waveH m 0 0 0 := by funext c; simp [waveH, dotK]
    rw [w0, map_smul, Pi.smul_apply, e]
    simp [advSymbol, lapSymbol]
    norm_num
  rw [r3 l c k l0 l1 c0 c1 k0 k1, fold_turn (S := IsCell p.nx p.ny) (φ := φ) (b := fun _ => b)
    (trOp_flow_local g hc k2 k4 hH hh k0 k1) turn (stabPoly_eval_zero stp) ker sched a _
    (fun c hc => by
      rw [turned_eq, Complex.ofReal_re, Complex.ofReal_im, zero_mul, add_zero]
      exact ht c hc.1 hc.2) c ⟨c0, c1⟩, hP]
  congr 1
  rw [show (A : ℂ) * Complex.exp (τ * Complex.I) * a = ((a * A : ℝ) : ℂ) * Complex.exp (τ * Complex.I) by
    push_cast; ring, turned_smul, Pi.smul_apply, turned_eq, Complex.exp_ofReal_mul_I_re,
    Complex.exp_ofReal_mul_I_im, smul_eq_mul, ← sub_sub, Real.cos_sub _ τ]
  ring

end

/-! ### Speed -/

theorem mul_sin_bounds (x : ℝ) : x ^ 2 - x ^ 4 / 6 ≤ x * Real.sin x ∧ x * Real.sin x ≤ x ^ 2 := by
  rcases le_total 0 x with h | h
  · have a := Real.sin_le h
    have b := Real.sin_ge_sub_cube h
    exact ⟨by nlinarith [mul_le_mul_of_nonneg_left b h], by nlinarith [mul_le_mul_of_nonneg_left a h]⟩
  · have h' : 0 ≤ -x := by linarith
    have a := Real.sin_le h'
    have b := Real.sin_ge_sub_cube h'
    rw [Real.sin_neg] at a b
    exact ⟨by nlinarith [mul_le_mul_of_nonneg_left b h'], by nlinarith [mul_le_mul_of_nonneg_left a h']⟩

/-- **C111.**  A wave travelling with the flow never moves faster than the flow, and lags by at most the fraction
`dc² |k|² / 8`. -/
theorem C111_speed (hdc : 0 < dc) (k1 k2 : ℝ) {s : ℝ} (hs : 0 ≤ s) :
    s * (k1 ^ 2 + k2 ^ 2) * (1 - dc ^ 2 * (k1 ^ 2 + k2 ^ 2) / 8) ≤ advSymbol dc (s * k1) (s * k2) k1 k2 ∧
    advSymbol dc (s * k1) (s * k2) k1 k2 ≤ s * (k1 ^ 2 + k2 ^ 2) := by
  have q3 : √3 ^ 2 = (3 : ℝ) := Real.sq_sqrt (by norm_num)
  have q4 : √3 ^ 4 = (9 : ℝ) := by rw [show (4 : ℕ) = 2 * 2 from rfl, pow_mul, q3]; norm_num
  obtain ⟨a0, a1⟩ := mul_sin_bounds (dc * k1)
  obtain ⟨b0, b1⟩ := mul_sin_bounds (dc * (k1 / 2 + √3 / 2 * k2))
  obtain ⟨c0, c1⟩ := mul_sin_bounds (dc * (k1 / 2 - √3 / 2 * k2))
  have e : advSymbol dc (s * k1) (s * k2) k1 k2 = 2 * s / (3 * dc ^ 2) * (dc * k1 * Real.sin (dc * k1) +
      dc * (k1 / 2 + √3 / 2 * k2) * Real.sin (dc * (k1 / 2 + √3 / 2 * k2)) +
      dc * (k1 / 2 - √3 / 2 * k2) * Real.sin (dc * (k1 / 2 - √3 / 2 * k2))) := by
    unfold advSymbol; field_simp
  have w : 0 ≤ 2 * s / (3 * dc ^ 2) := by positivity
  have s2 : (dc * k1) ^ 2 + (dc * (k1 / 2 + √3 / 2 * k2)) ^ 2 + (dc * (k1 / 2 - √3 / 2 * k2)) ^ 2 =
      3 / 2 * dc ^ 2 * (k1 ^ 2 + k2 ^ 2) := by
    linear_combination (dc ^ 2 * k2 ^ 2 / 2) * q3
  have s4 : (dc * k1) ^ 4 + (dc * (k1 / 2 + √3 / 2 * k2)) ^ 4 + (dc * (k1 / 2 - √3 / 2 * k2)) ^ 4 =
      9 / 8 * dc ^ 4 * (k1 ^ 2 + k2 ^ 2) ^ 2 := by
    linear_combination (dc ^ 4 * k1 ^ 2 * k2 ^ 2 * 3 / 4) * q3 + (dc ^ 4 * k2 ^ 4 / 8) * q4
  rw [e]
  constructor
  · calc _ = 2 * s / (3 * dc ^ 2) * (3 / 2 * dc ^ 2 * (k1 ^ 2 + k2 ^ 2) -
          9 / 8 * dc ^ 4 * (k1 ^ 2 + k2 ^ 2) ^ 2 / 6) := by field_simp; ring
      _ ≤ _ := mul_le_mul_of_nonneg_left (by rw [← s2, ← s4]; linarith) w
  · calc _ ≤ 2 * s / (3 * dc ^ 2) * (3 / 2 * dc ^ 2 * (k1 ^ 2 + k2 ^ 2)) :=
          mul_le_mul_of_nonneg_left (by rw [← s2]; linarith) w
      _ = _ := by field_simp

/-- no wave has a frequency above `4 / 3` of flow speed over spacing -/
theorem advSymbol_le (hdc : 0 < dc) (U W k1 k2 : ℝ) :
    advSymbol dc U W k1 k2 ^ 2 ≤ 16 / 9 * (U ^ 2 + W ^ 2) / dc ^ 2 := by
  have q3 : √3 ^ 2 = (3 : ℝ) := Real.sq_sqrt (by norm_num)
  set v1 := U / 2 + √3 / 2 * W with h1
  set v2 := U / 2 - √3 / 2 * W with h2
  have hU : U = v1 + v2 := by rw [h1, h2]; ring
  have sq : ∀ v x : ℝ, |v * Real.sin x| ≤ |v| := fun v x => by
    rw [abs_mul]; exact mul_le_of_le_one_right (abs_nonneg _) (Real.abs_sin_le_one x)
  set S := U * Real.sin (dc * k1) + v1 * Real.sin (dc * (k1 / 2 + √3 / 2 * k2)) +
    v2 * Real.sin (dc * (k1 / 2 - √3 / 2 * k2)) with hS
  have l1 : |S| ≤ |U| + |v1| + |v2| := by
    have t := abs_add_three (U * Real.sin (dc * k1)) (v1 * Real.sin (dc * (k1 / 2 + √3 / 2 * k2)))
      (v2 * Real.sin (dc * (k1 / 2 - √3 / 2 * k2)))
    linarith [sq U (dc * k1), sq v1 (dc * (k1 / 2 + √3 / 2 * k2)), sq v2 (dc * (k1 / 2 - √3 / 2 * k2))]
  have b0 : U ^ 2 ≤ U ^ 2 + W ^ 2 := by nlinarith [sq_nonneg W]
  have b1 : v1 ^ 2 ≤ U ^ 2 + W ^ 2 := by
    have : U ^ 2 + W ^ 2 - v1 ^ 2 = (√3 / 2 * U - W / 2) ^ 2 := by
      rw [h1]; linear_combination (-(U ^ 2 / 4) - W ^ 2 / 4) * q3
    nlinarith [sq_nonneg (√3 / 2 * U - W / 2)]
  have b2 : v2 ^ 2 ≤ U ^ 2 + W ^ 2 := by
    have : U ^ 2 + W ^ 2 - v2 ^ 2 = (√3 / 2 * U + W / 2) ^ 2 := by
      rw [h2]; linear_combination (-(U ^ 2 / 4) - W ^ 2 / 4) * q3
    nlinarith [sq_nonneg (√3 / 2 * U + W / 2)]
  have l2 : (|U| + |v1| + |v2|) ^ 2 ≤ 4 * (U ^ 2 + W ^ 2) := by
    have d : |U| + |v1| + |v2| = 2 * |U| ∨ |U| + |v1| + |v2| = 2 * |v1| ∨ |U| + |v1| + |v2| = 2 * |v2| := by
      rcases abs_cases U with ⟨a, a'⟩ | ⟨a, a'⟩ <;> rcases abs_cases v1 with ⟨b, b'⟩ | ⟨b, b'⟩ <;>
        rcases abs_cases v2 with ⟨c, c'⟩ | ⟨c, c'⟩ <;> rw [a, b, c] <;>
        first
          | (left; linarith)
          | (right; left; linarith)
          | (right; right; linarith)
    rcases d with d | d | d <;> rw [d, mul_pow, sq_abs] <;> linarith
  have l3 : S ^ 2 ≤ 4 * (U ^ 2 + W ^ 2) := by
    rw [← sq_abs S]
    exact (pow_le_pow_left₀ (abs_nonneg _) l1 2).trans l2
  have e : advSymbol dc U W k1 k2 ^ 2 = 4 / (9 * dc ^ 2) * S ^ 2 := by
    show (2 / (3 * dc) * S) ^ 2 = _
    field_simp; ring
  rw [e]
  calc _ ≤ 4 / (9 * dc ^ 2) * (4 * (U ^ 2 + W ^ 2)) := by gcongr
    _ = _ := by field_simp; ring

/-! ### Stability -/

theorem trSymbol_inviscid {prm : Params ℝ} (k2 : prm.eddy_diff2 = 0) (k4 : prm.eddy_diff4 = 0)
    (dt dc U W κx κy : ℝ) : (dt * trSymbol prm dc U W κx κy : ℂ) =
      ((dt * advSymbol dc U W κx κy : ℝ) : ℂ) * Complex.I := by
  unfold trSymbol
  rw [k2, k4]
  push_cast
  ring

/-- **C111.**  Without diffusion the classical stepper amplifies no wave if the flow crosses at most `3 / √2` cells in a
step: `dt² (U² + W²) ≤ 9 / 2 * dc²`. -/
theorem C111_rk4_courant (hdc : 0 < dc) {prm : Params ℝ} (k2 : prm.eddy_diff2 = 0) (k4 : prm.eddy_diff4 = 0)
    {dt U W : ℝ} (hco : dt ^ 2 * (U ^ 2 + W ^ 2) ≤ 9 / 2 * dc ^ 2) (κx κy : ℝ) :
    ‖aeval (dt * trSymbol prm dc U W κx κy : ℂ) (stabPoly .rk4)‖ ≤ 1 := by
  rw [trSymbol_inviscid k2 k4]
  set y := dt * advSymbol dc U W κx κy with hy
  have y8 : y ^ 2 ≤ 8 := by
    rw [hy, mul_pow]
    calc _ ≤ dt ^ 2 * (16 / 9 * (U ^ 2 + W ^ 2) / dc ^ 2) :=
          mul_le_mul_of_nonneg_left (advSymbol_le hdc U W κx κy) (sq_nonneg dt)
      _ = 16 / 9 * (dt ^ 2 * (U ^ 2 + W ^ 2)) / dc ^ 2 := by ring
      _ ≤ 16 / 9 * (9 / 2 * dc ^ 2) / dc ^ 2 := by gcongr
      _ = 8 := by field_simp; norm_num
  have n := rk4_imag y
  rw [Complex.normSq_eq_norm_sq] at n
  refine abs_le_of_sq_le_sq' (b := 1) ?_ (by norm_num) |>.2
  rw [n]
  have : 0 ≤ y ^ 6 * (8 - y ^ 2) := mul_nonneg (by positivity) (by linarith)
  nlinarith

/-- **C111.**  The forward Euler stepper amplifies every wave that moves, whatever the step. -/
theorem C111_euler_amplifies {prm : Params ℝ} (k2 : prm.eddy_diff2 = 0) (k4 : prm.eddy_diff4 = 0)
    {dt U W κx κy : ℝ} (h0 : dt ≠ 0) (hs : advSymbol dc U W κx κy ≠ 0) :
    1 < ‖aeval (dt * trSymbol prm dc U W κx κy : ℂ) (stabPoly (.lsrk 1))‖ := by
  rw [trSymbol_inviscid k2 k4]
  set y := dt * advSymbol dc U W κx κy with hy
  have y0 : y ≠ 0 := mul_ne_zero h0 hs
  rw [stabPoly_euler, map_add, map_one, aeval_X]
  have n : ‖1 + (y : ℂ) * Complex.I‖ ^ 2 = 1 + y ^ 2 := by
    rw [← Complex.normSq_eq_norm_sq, show (1 : ℂ) = ((1 : ℝ) : ℂ) by simp, Complex.normSq_add_mul_I]; ring
  have : 0 < y ^ 2 := by positivity
  nlinarith [norm_nonneg (1 + (y : ℂ) * Complex.I)]

/-- the corner of the Brillouin zone: a wave that no flow moves -/
theorem adv_corner (hdc : 0 < dc) (U W : ℝ) : advSymbol dc U W (4 * Real.pi / (3 * dc)) 0 = 0 := by
  unfold advSymbol
  rw [show dc * (4 * Real.pi / (3 * dc)) = Real.pi / 3 + Real.pi by field_simp; ring,
    show dc * (4 * Real.pi / (3 * dc) / 2 + √3 / 2 * 0) = Real.pi - Real.pi / 3 by field_simp; ring,
    show dc * (4 * Real.pi / (3 * dc) / 2 - √3 / 2 * 0) = Real.pi - Real.pi / 3 by field_simp; ring,
    Real.sin_add_pi, Real.sin_pi_sub]
  ring

/-- **C111.**  On a mesh whose rows have a multiple of three cells the shortest wave stands still in every uniform flow:
without diffusion any run returns it unchanged. -/
theorem C111_shortest_wave_stuck (hv : RunValid p) (hx : 2 ≤ p.nx) (h3 : p.nx % 3 = 0) (hny : p.ny % 2 = 0)
    (hdc : 0 < dc) {prm : Params ℝ} (hr : Ready p dc prm m) (h5 : prm.disable_h = true) (h6 : prm.disable_vn = true)
    (k2 : prm.eddy_diff2 = 0) (k4 : prm.eddy_diff4 = 0) {l k : Int} (l0 : 0 ≤ l) (l1 : l < p.dims.ntracers)
    (k0 : 0 ≤ k) (k1 : k < p.dims.nlayers) {H : ℝ} (hH : H ≠ 0)
    (hh : ∀ c, 0 ≤ c → c < p.dims.ncells → m.real (.h_cell .state) 0 c k = H) {U W : ℝ}
    (hu : ∀ e, 0 ≤ e → e < p.dims.nedges → m.real (.vn_edge .state) 0 e k =
      U * Real.cos (m.real .angle_edge 0 e 0) + W * Real.sin (m.real .angle_edge 0 e 0))
    {b a θ : ℝ} (ht : ∀ c, 0 ≤ c → c < p.dims.ncells →
      m.real (.tr_cell .state) l c k = b + a * Real.cos (dotK (4 * Real.pi / (3 * dc)) 0 (cellAt m c) - θ))
    (stp : Stepper) {sched : List (ℝ × ℝ)} {split : Bool} {m1 : Mem ℝ}
    (he : Exec p.dims (stp.ctor p.dims ++
      stp.run p.dims ⟨defaultKernels p.dims.vl, split⟩ (SWModel.ofParams prm) sched) m m1) :
    ∀ c, 0 ≤ c → c < p.dims.ncells → m1.real (.tr_cell .state) l c k = m.real (.tr_cell .state) l c k := by
  intro c c0 c1
  have fits : Fits p dc (4 * Real.pi / (3 * dc)) 0 := by
    refine ⟨⟨2 * (p.nx / 3), ?_⟩, 0, by simp⟩
    have : ((p.nx / 3 : Int) : ℝ) = (p.nx : ℝ) / 3 := by
      rw [Int.cast_div (by omega) (by norm_num)]; norm_num
    show 4 * Real.pi / (3 * dc) * ((p.nx : ℝ) * dc) = _
    push_cast
    rw [this]
    field_simp
    ring
  have one : (sched.map fun q => aeval (q.2 * trSymbol prm dc U W (4 * Real.pi / (3 * dc)) 0 : ℂ) (stabPoly stp)).prod =
      (1 : ℝ) * Complex.exp ((0 : ℝ) * Complex.I) := by
    have : ∀ q ∈ sched.map fun q => aeval (q.2 * trSymbol prm dc U W (4 * Real.pi / (3 * dc)) 0 : ℂ) (stabPoly stp),
        q = 1 := by
      intro z hz
      obtain ⟨q, -, rfl⟩ := List.mem_map.1 hz
      rw [trSymbol_inviscid k2 k4, adv_corner hdc]
      simpa using stabPoly_zero stp
    rw [List.prod_eq_one this]
    simp
  rw [C111_wave_in_flow hv hx hny hdc hr fits U W h5 h6 k2.ge k4.ge l0 l1 k0 k1 hH hh hu ht stp he one c c0 c1,
    ht c c0 c1]
  simp

/-- the shortest wave and a flow across the rows on a mesh of 36 cells, three steps of different sizes; the flow does
move the longest wave along the rows -/
example (stp : Stepper) : ∃ (prm : Params ℝ) (m m1 : Mem ℝ) (sched : List (ℝ × ℝ)),
    RunValid p66 ∧ 2 ≤ p66.nx ∧ p66.nx % 3 = 0 ∧ p66.ny % 2 = 0 ∧ prm.disable_h = true ∧ prm.disable_vn = true ∧
    prm.eddy_diff2 = 0 ∧ prm.eddy_diff4 = 0 ∧ (0 : Int) ≤ 2 ∧ 2 < p66.dims.nlayers ∧ Ready p66 1 prm m ∧
    (∀ c, 0 ≤ c → c < p66.dims.ncells → m.real (.h_cell .state) 0 c 2 = 5) ∧
    (∀ e, 0 ≤ e → e < p66.dims.nedges → m.real (.vn_edge .state) 0 e 2 =
      1 * Real.cos (m.real .angle_edge 0 e 0) + 2 * Real.sin (m.real .angle_edge 0 e 0)) ∧
    (∀ c, 0 ≤ c → c < p66.dims.ncells →
      m.real (.tr_cell .state) 0 c 2 = 3 + 1 * Real.cos (dotK (4 * Real.pi / (3 * 1)) 0 (cellAt m c) - 1)) ∧
    Fits p66 1 (Real.pi / 3) 0 ∧ advSymbol 1 1 2 (Real.pi / 3) 0 ≠ 0 ∧
    ((1 : ℝ) / 2) ^ 2 * (1 ^ 2 + 2 ^ 2) ≤ 9 / 2 * 1 ^ 2 ∧ (∀ q ∈ sched, q.2 ≤ 1 / 2 ∧ q.2 ≠ 0) ∧
    (∃ A τ : ℝ, (sched.map fun q => aeval (q.2 * trSymbol prm 1 1 2 (Real.pi / 3) 0 : ℂ) (stabPoly stp)).prod =
      A * Complex.exp (τ * Complex.I)) ∧
    Exec p66.dims (stp.ctor p66.dims ++ stp.run p66.dims
      ⟨defaultKernels p66.dims.vl, false⟩ (SWModel.ofParams prm) sched) m m1 := by
  obtain ⟨prm, hprm⟩ : ∃ q : Params ℝ, q = ⟨0, 1, 0, 0, 0, 0, true, true⟩ := ⟨_, rfl⟩
  obtain ⟨m0, hr0, -, -⟩ := exists_ready p66_run.toValid 1 prm zeroFld zeroFld
  obtain ⟨sched, hsch⟩ : ∃ s : List (ℝ × ℝ), s = [(0, 1 / 2), (1, 1 / 4), (3, 1 / 3)] := ⟨_, rfl⟩
  obtain ⟨m, m1, hr, hx, he⟩ := exists_newRun p66_run 1 prm (noHook_ofParams prm) false stp sched
    ⟨fun _ _ => 5, fun e _ => 1 * Real.cos (m0.real .angle_edge 0 e 0) + 2 * Real.sin (m0.real .angle_edge 0 e 0),
      fun _ c _ => 3 + 1 * Real.cos (dotK (4 * Real.pi / (3 * 1)) 0 (cellAt m0 c) - 1)⟩
  have g0 := (hr0.hex p66_run.toValid).1
  have g1 := (hr.hex p66_run.toValid).1
  have hl : p66.dims.nlayers = p46.dims.nlayers := rfl
  have px : periodX p66.nx (1 : ℝ) = 6 := by
    show ((6 : Int) : ℝ) * 1 = 6
    norm_num
  set Z := (sched.map fun q => aeval (q.2 * trSymbol prm 1 1 2 (Real.pi / 3) 0 : ℂ) (stabPoly stp)).prod
  refine ⟨prm, m, m1, sched, p66_run, by simp [p66], by simp [p66], by simp [p66],
    by rw [hprm], by rw [hprm], by rw [hprm], by rw [hprm], by norm_num,
    by rw [hl, p46_layers]; norm_num, hr, fun c _ _ => congrFun (congrFun (congrArg Fld.h hx) c) 2,
    fun e e0 e1 => ?_, fun c c0 c1 => ?_, ⟨⟨1, by rw [px]; push_cast; ring⟩, 0, by simp⟩, ?_, by norm_num, ?_,
    ⟨‖Z‖, Z.arg, (Complex.norm_mul_exp_arg_mul_I Z).symm⟩, he⟩
  · rw [show m.real (.vn_edge .state) 0 e 2 = 1 * Real.cos (m0.real .angle_edge 0 e 0) +
      2 * Real.sin (m0.real .angle_edge 0 e 0) from congrFun (congrFun (congrArg Fld.vn hx) e) 2,
      g0.angle_edge e e0 e1, g1.angle_edge e e0 e1]
  · rw [show m.real (.tr_cell .state) 0 c 2 = 3 + 1 * Real.cos (dotK (4 * Real.pi / (3 * 1)) 0 (cellAt m0 c) - 1) from
      congrFun (congrFun (congrFun (congrArg Fld.tr hx) 0) c) 2]
    unfold cellAt
    rw [g0.x_cell c ⟨c0, c1⟩, g0.y_cell c ⟨c0, c1⟩, g1.x_cell c ⟨c0, c1⟩, g1.y_cell c ⟨c0, c1⟩]
  · unfold advSymbol
    rw [show (1 : ℝ) * (Real.pi / 3) = Real.pi / 3 by ring,
      show (1 : ℝ) * (Real.pi / 3 / 2 + √3 / 2 * 0) = Real.pi / 6 by ring,
      show (1 : ℝ) * (Real.pi / 3 / 2 - √3 / 2 * 0) = Real.pi / 6 by ring, Real.sin_pi_div_three,
      Real.sin_pi_div_six]
    have : (0 : ℝ) < √3 := by positivity
    nlinarith
  · rw [hsch]; intro q hq
    simp only [List.mem_cons, List.not_mem_nil, or_false] at hq
    rcases hq with rfl | rfl | rfl <;> norm_num

end Props
end
end Omega
