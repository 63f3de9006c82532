import Verif.Props.Positivity

/-!
# C123: bounds of tracers with the fourth-order steppers

In a prescribed flow a step of any of the steppers is a convex combination of repeated one-stage steps of a fraction of
its size, so it keeps concentrations within their bounds if these do.
-/

set_option linter.unusedVariables false
set_option linter.unusedSectionVars false

namespace Omega
noncomputable section
namespace Props

open Prog Model Refine Hex Polynomial

variable {p : MeshParams} {dc : ℝ} {m : Mem ℝ}

/-- the one-stage steps that a step of the stepper is worth when it has to keep bounds -/
def boundSteps : Stepper → ℝ
  | .lsrk n => if n = 5 then 3 / 2 else 1
  | .rk4 => 1

/-- Only one and five stages are supported. -/
theorem stabPoly_other {n : ℕ} (h1 : n ≠ 1) (h5 : n ≠ 5) : stabPoly (.lsrk n) = 1 := by
  have hb : ∀ i, (lsrkCoef n : Coef ℝ).b i = 0 := fun i => by
    unfold lsrkCoef
    simp [h1, h5]
  have : ∀ (L : List ℕ) (q : ℝ[X] × ℝ[X]), q.2 = 1 →
      (L.foldl (fun (q : ℝ[X] × ℝ[X]) i => (C ((lsrkCoef n).a i) * q.1 + X * q.2,
        q.2 + C ((lsrkCoef n).b i) * (C ((lsrkCoef n).a i) * q.1 + X * q.2))) q).2 = 1 := by
    intro L
    induction L with
    | nil => exact fun q h => h
    | cons i L ih =>
      intro q h
      exact ih _ (by simp [h, hb])
  exact this (List.range n) (0, 1) rfl

/-- Every stepper is a convex combination of powers of a one-stage step. -/
theorem stab_convex (stp : Stepper) : ∃ w : ℕ → ℝ, (∀ j, 0 ≤ w j) ∧ ∑ j ∈ Finset.range 6, w j = 1 ∧
    (stabPoly stp).comp (C (boundSteps stp) * (X - 1)) = ∑ j ∈ Finset.range 6, C (w j) * X ^ j ∧
    (stp = .rk4 ∨ stp = .lsrk 1 ∨ stp = .lsrk 5 → 0 < w 1) := by
  have fin : ∀ (a0 a1 a2 a3 a4 a5 : ℝ), 0 ≤ a0 → 0 ≤ a1 → 0 ≤ a2 → 0 ≤ a3 → 0 ≤ a4 → 0 ≤ a5 →
      (stp = .rk4 ∨ stp = .lsrk 1 ∨ stp = .lsrk 5 → 0 < a1) → a0 + a1 + a2 + a3 + a4 + a5 = 1 → (∀ z : ℝ, (stabPoly stp).eval (boundSteps stp * (z - 1)) =
        a0 + a1 * z + a2 * z ^ 2 + a3 * z ^ 3 + a4 * z ^ 4 + a5 * z ^ 5) →
      ∃ w : ℕ → ℝ, (∀ j, 0 ≤ w j) ∧ ∑ j ∈ Finset.range 6, w j = 1 ∧
      (stabPoly stp).comp (C (boundSteps stp) * (X - 1)) = ∑ j ∈ Finset.range 6, C (w j) * X ^ j ∧
      (stp = .rk4 ∨ stp = .lsrk 1 ∨ stp = .lsrk 5 → 0 < w 1) := by
    intro a0 a1 a2 a3 a4 a5 h0 h1 h2 h3 h4 h5 hp hs he
    refine ⟨fun j => match j with | 0 => a0 | 1 => a1 | 2 => a2 | 3 => a3 | 4 => a4 | 5 => a5 | _ => 0, fun j => ?_, ?_,
      Polynomial.funext fun z => ?_, hp⟩
    · rcases j with _ | _ | _ | _ | _ | _ | j <;> simp [*]
    · simp [Finset.sum_range_succ, hs]
    · simp [Finset.sum_range_succ, eval_comp, he]
  cases stp with
  | rk4 =>
    refine fin (3 / 8) (1 / 3) (1 / 4) 0 (1 / 24) 0 (by norm_num) (by norm_num) (by norm_num) (by norm_num)
      (by norm_num) (by norm_num) (by norm_num) (by norm_num) fun z => ?_
    rw [rk4_eval]; unfold boundSteps; ring
  | lsrk n =>
    by_cases n1 : n = 1
    · subst n1
      refine fin 0 1 0 0 0 0 (by norm_num) (by norm_num) (by norm_num) (by norm_num)
        (by norm_num) (by norm_num) (by norm_num) (by norm_num) fun z => ?_
      rw [stabPoly_euler]; simp [boundSteps]
    by_cases n5 : n = 5
    · subst n5
      obtain ⟨c1, c2, c3, c4, c5, k1, k2, k3, k4, k5, he⟩ := lsrk5_eval
      rw [abs_le] at k1 k2 k3 k4 k5
      have r : boundSteps (.lsrk 5) = 3 / 2 := by simp [boundSteps]
      refine fin (1 - 3 / 2 * c1 + 9 / 4 * c2 - 27 / 8 * c3 + 81 / 16 * c4 - 243 / 32 * c5)
        (3 / 2 * c1 - 9 / 2 * c2 + 81 / 8 * c3 - 81 / 4 * c4 + 1215 / 32 * c5)
        (9 / 4 * c2 - 81 / 8 * c3 + 243 / 8 * c4 - 1215 / 16 * c5)
        (27 / 8 * c3 - 81 / 4 * c4 + 1215 / 16 * c5) (81 / 16 * c4 - 1215 / 32 * c5) (243 / 32 * c5)
        ?_ ?_ ?_ ?_ ?_ ?_ (fun _ => ?_) (by ring) fun z => ?_
      · norm_num at *; linarith
      · norm_num at *; linarith
      · norm_num at *; linarith
      · norm_num at *; linarith
      · norm_num at *; linarith
      · norm_num at *; linarith
      · norm_num at *; linarith
      · rw [he, r]; ring
    · refine fin 1 0 0 0 0 0 (by norm_num) (by norm_num) (by norm_num) (by norm_num)
        (by norm_num) (by norm_num) (by simp [n1, n5]) (by norm_num) fun z => ?_
      rw [stabPoly_other n1 n5]; simp

/-- A set that a one-stage step keeps and that is convex is kept by all steppers. -/
theorem stab_keeps (stp : Stepper) {L : Module.End ℝ (Int → ℝ)} {K : Set (Int → ℝ)} (hK : Convex ℝ K)
    (h : ∀ f ∈ K, f + L f ∈ K) {f : Int → ℝ} (hf : f ∈ K) :
    aeval (boundSteps stp • L) (stabPoly stp) f ∈ K := by
  obtain ⟨w, w0, w1, hw, -⟩ := stab_convex stp
  have e : boundSteps stp • L = aeval (1 + L) (C (boundSteps stp) * (X - 1)) := by
    simp [Algebra.smul_def]
  rw [e, ← aeval_comp, hw, map_sum, LinearMap.sum_apply]
  have pw : ∀ j : ℕ, ((1 + L) ^ j) f ∈ K := by
    intro j
    induction j with
    | zero => simpa using hf
    | succ j ih =>
      rw [pow_succ']
      exact h _ ih
  have e' : ∀ j, aeval (1 + L) (C (w j) * X ^ j) f = w j • ((1 + L) ^ j) f := fun j => by
    rw [map_mul, aeval_C, map_pow, aeval_X, Module.End.mul_apply, Module.algebraMap_end_apply]
  rw [Finset.sum_congr rfl fun j _ => e' j]
  exact hK.sum_mem (fun j _ => w0 j) w1 fun j _ => pw j

/-- A one-stage step in a prescribed flow without divergence of mass. -/
theorem flow_bounds (g : Geo2 p.nx p.ny p.dims.nlayers dc m.mesh) (hcn : ConnOK p.dims m) {prm : Params ℝ}
    (h4 : prm.eddy_diff4 ≤ 0) {k : Int} (k0 : 0 ≤ k) (k1 : k < p.dims.nlayers) {V hlo hhi dt : ℝ} {x u : Int → ℝ}
    (hu : ∀ e, 0 ≤ e → e < p.dims.nedges → |u e| ≤ V) (hP : V * dc ≤ 2 * prm.eddy_diff2) (hl : 0 < hlo)
    (hb : ∀ c, 0 ≤ c → c < p.dims.ncells → hlo ≤ x c ∧ x c ≤ hhi)
    (hD : ∀ c, 0 ≤ c → c < p.dims.ncells → Spec.div m (fun e => Spec.mean m x e * u e) c = 0)
    (hdt : 0 ≤ dt) (hcfl : 4 * dt * hhi * (prm.eddy_diff2 + V * dc / 2) ≤ hlo * dc ^ 2) {lo hi : ℝ} {s : Int → ℝ}
    (hq : ∀ c, 0 ≤ c → c < p.dims.ncells → lo * x c ≤ s c ∧ s c ≤ hi * x c) {c : Int} (c0 : 0 ≤ c)
    (c1 : c < p.dims.ncells) :
    lo * x c ≤ s c + dt * trOp m (SWModel.ofParams prm) x u s c ∧
      s c + dt * trOp m (SWModel.ofParams prm) x u s c ≤ hi * x c := by
  have hdc := g.dc_pos
  have hc : IsCell p.nx p.ny c := ⟨c0, c1⟩
  have a1 := thick_nbrs g prm x u hc
  have a0 : Spec.thicknessTend m (SWModel.ofParams prm) x u c = 0 := by
    unfold Spec.thicknessTend
    rw [if_pos (show (SWModel.ofParams prm).en_hadv = true from rfl), hD c c0 c1, neg_zero]
  rw [a0] at a1
  show _ ≤ s c + dt * Spec.tracerTend m _ x u s c ∧ s c + dt * Spec.tracerTend m _ x u s c ≤ _
  have a3 := tracer_nbrs g hcn h4 x u s k0 k1 hc
  have κ0 : 0 ≤ prm.eddy_diff2 := by
    have : 0 ≤ V := (abs_nonneg _).trans (hu (E p.nx p.ny c 0)
      (E_range g.hnx hc 0 (by norm_num) (by norm_num)).1 (E_range g.hnx hc 0 (by norm_num) (by norm_num)).2)
    nlinarith
  rw [max_eq_left κ0] at a3
  set κ := prm.eddy_diff2 with hκ
  set n : ℕ → Int := fun j => across p.nx p.ny c j with hn
  have nC : ∀ j : ℕ, IsCell p.nx p.ny (n j) := fun j => across_isCell g.hnx hc j
  have xpos : ∀ i, IsCell p.nx p.ny i → 0 < x i := fun i hi => hl.trans_le (hb i hi.1 hi.2).1
  set b : ℕ → ℝ := fun j => outSg j * u (E p.nx p.ny c j) with hbd
  have bV : ∀ j : ℕ, j < 6 → |b j| ≤ V := fun j hj => by
    have r := E_range g.hnx hc (j : Int) (by positivity) (by omega)
    rw [hbd]; simp only [abs_mul, outSg_abs, one_mul]
    exact hu _ r.1 r.2
  have V0 : 0 ≤ V := (abs_nonneg _).trans (bV 0 (by norm_num))
  set w : ℕ → ℝ := fun j => dt * (2 / (3 * dc)) * ((x c + x (n j)) / 2) * (κ / dc - b j / 2) with hw
  set w' : ℕ → ℝ := fun j => dt * (2 / (3 * dc)) * ((x c + x (n j)) / 2) * (κ / dc + b j / 2) with hw'
  have xm : ∀ j : ℕ, 0 < (x c + x (n j)) / 2 ∧ (x c + x (n j)) / 2 ≤ hhi := fun j => by
    have := xpos c hc; have := xpos _ (nC j)
    have := (hb c c0 c1).2; have := (hb _ (nC j).1 (nC j).2).2
    exact ⟨by linarith, by linarith⟩
  have κV : V / 2 ≤ κ / dc := by rw [div_le_div_iff₀ (by norm_num) hdc]; linarith
  have w0 : ∀ j ∈ Finset.range 6, 0 ≤ w j := fun j hj => by
    have := abs_le.1 (bV j (Finset.mem_range.1 hj))
    have := (xm j).1
    have : 0 ≤ κ / dc - b j / 2 := by linarith
    rw [hw]; positivity
  have w1 : ∀ j ∈ Finset.range 6, w' j ≤ dt * (2 / (3 * dc)) * hhi * (κ / dc + V / 2) := fun j hj => by
    have := abs_le.1 (bV j (Finset.mem_range.1 hj))
    have h1 := (xm j).1
    rw [hw']
    have : 0 ≤ κ / dc + b j / 2 := by linarith
    have : 0 ≤ hhi := (xm j).1.le.trans (xm j).2
    apply mul_le_mul _ _ ‹_› (by positivity)
    · exact mul_le_mul_of_nonneg_left (xm j).2 (by positivity)
    · linarith
  have ws : ∑ j ∈ Finset.range 6, w' j ≤ x c := by
    have := Finset.sum_le_card_nsmul _ _ _ w1
    rw [Finset.card_range, nsmul_eq_mul] at this
    refine this.trans (le_trans ?_ (hb c c0 c1).1)
    have e : ((6 : ℕ) : ℝ) * (dt * (2 / (3 * dc)) * hhi * (κ / dc + V / 2)) =
        4 * dt * hhi * (κ + V * dc / 2) / dc ^ 2 := by
      push_cast; field_simp; ring
    rw [e, div_le_iff₀ (by positivity)]
    exact hcfl
  have E1 : x c = (x c - ∑ j ∈ Finset.range 6, w' j) + ∑ j ∈ Finset.range 6, w j := by
    have : ∑ j ∈ Finset.range 6, w j - ∑ j ∈ Finset.range 6, w' j = dt * 0 := by
      rw [a1, ← Finset.sum_sub_distrib, Finset.mul_sum, Finset.mul_sum]
      refine Finset.sum_congr rfl fun j _ => ?_
      simp only [hw, hw', hbd, hn]; ring
    linarith
  have E2 : s c + dt * Spec.tracerTend m (SWModel.ofParams prm) x u s c =
      (x c - ∑ j ∈ Finset.range 6, w' j) * (s c / x c) + ∑ j ∈ Finset.range 6, w j * (s (n j) / x (n j)) := by
    have e : s c = x c * (s c / x c) := by have := (xpos c hc).ne'; field_simp
    have : dt * Spec.tracerTend m (SWModel.ofParams prm) x u s c =
        ∑ j ∈ Finset.range 6, w j * (s (n j) / x (n j)) - (∑ j ∈ Finset.range 6, w' j) * (s c / x c) := by
      rw [a3, Finset.sum_mul, ← Finset.sum_sub_distrib, Finset.mul_sum, Finset.mul_sum]
      refine Finset.sum_congr rfl fun j _ => ?_
      simp only [hw, hw', hbd, hn]; ring
    rw [this, sub_mul, ← e]; ring
  have q : ∀ i, IsCell p.nx p.ny i → lo ≤ s i / x i ∧ s i / x i ≤ hi := fun i hi => by
    have := hq i hi.1 hi.2
    exact ⟨by rw [le_div_iff₀ (xpos i hi)]; exact this.1, by rw [div_le_iff₀ (xpos i hi)]; exact this.2⟩
  have W0 : 0 ≤ x c - ∑ j ∈ Finset.range 6, w' j := by linarith
  rw [E2]
  constructor
  · calc lo * x c = lo * (x c - ∑ j ∈ Finset.range 6, w' j) + ∑ j ∈ Finset.range 6, lo * w j := by
          rw [← Finset.mul_sum, ← mul_add, ← E1]
      _ ≤ _ := add_le_add (by rw [mul_comm]; exact mul_le_mul_of_nonneg_left (q c hc).1 W0)
        (Finset.sum_le_sum fun j hj => by
          rw [mul_comm]; exact mul_le_mul_of_nonneg_left (q _ (nC j)).1 (w0 j hj))
  · calc _ ≤ hi * (x c - ∑ j ∈ Finset.range 6, w' j) + ∑ j ∈ Finset.range 6, hi * w j :=
          add_le_add (by rw [mul_comm hi]; exact mul_le_mul_of_nonneg_left (q c hc).2 W0)
            (Finset.sum_le_sum fun j hj => by
              rw [mul_comm hi]; exact mul_le_mul_of_nonneg_left (q _ (nC j)).2 (w0 j hj))
      _ = hi * x c := by rw [← Finset.mul_sum, ← mul_add, ← E1]

/-- Any number of steps of any stepper in a prescribed flow without divergence of mass: if the cell Peclet number is at
most two on every edge and every step is at most `boundSteps` times as long as a one-stage step may be, concentrations
between two bounds stay between them. -/
theorem C123_tracer_bounds (hv : RunValid p) (hx : 2 ≤ p.nx) (hy : 2 ≤ p.ny) (hdc : 0 < dc)
    {prm : Params ℝ} (hr : Ready p dc prm m) (h5 : prm.disable_h = true) (h6 : prm.disable_vn = true)
    (h4 : prm.eddy_diff4 ≤ 0) {k : Int} (k0 : 0 ≤ k) (k1 : k < p.dims.nlayers) {V hlo hhi : ℝ}
    (hu : ∀ e, 0 ≤ e → e < p.dims.nedges → |m.real (.vn_edge .state) 0 e k| ≤ V)
    (hP : V * dc ≤ 2 * prm.eddy_diff2) (hl : 0 < hlo)
    (hb : ∀ c, 0 ≤ c → c < p.dims.ncells →
      hlo ≤ m.real (.h_cell .state) 0 c k ∧ m.real (.h_cell .state) 0 c k ≤ hhi)
    (hD : ∀ c, 0 ≤ c → c < p.dims.ncells → Spec.div m (fun e => Spec.mean m
      (fun i => m.real (.h_cell .state) 0 i k) e * m.real (.vn_edge .state) 0 e k) c = 0)
    (stp : Stepper) {sched : List (ℝ × ℝ)} (hs : ∀ q ∈ sched, 0 ≤ q.2 ∧
      4 * q.2 * hhi * (prm.eddy_diff2 + V * dc / 2) ≤ boundSteps stp * (hlo * dc ^ 2)) {split : Bool}
    {m1 : Mem ℝ} (he : Exec p.dims (stp.ctor p.dims ++ stp.run p.dims
      ⟨defaultKernels p.dims.vl, split⟩ (SWModel.ofParams prm) sched) m m1)
    {l : Int} (l0 : 0 ≤ l) (l1 : l < p.dims.ntracers) {lo hi : ℝ}
    (hq : ∀ c, 0 ≤ c → c < p.dims.ncells →
      lo * m.real (.h_cell .state) 0 c k ≤ m.real (.tr_cell .state) l c k ∧
        m.real (.tr_cell .state) l c k ≤ hi * m.real (.h_cell .state) 0 c k) :
    ∀ c, 0 ≤ c → c < p.dims.ncells →
      lo * m1.real (.h_cell .state) 0 c k ≤ m1.real (.tr_cell .state) l c k ∧
        m1.real (.tr_cell .state) l c k ≤ hi * m1.real (.h_cell .state) 0 c k := by
  obtain ⟨hd, hcn⟩ := ready_ok hv hr
  have g := Ready.geo2 hr hv.toValid hx hy hdc
  obtain ⟨r1, -, r3⟩ := frozen_exec (sw := SWModel.ofParams prm) h5 h6 hd hcn (noHook_ofParams prm) he
  set x := fun i => m.real (.h_cell .state) 0 i k with hxd
  set u := fun i => m.real (.vn_edge .state) 0 i k with hud
  let K : Set (Int → ℝ) := {f | ∀ c, 0 ≤ c → c < p.dims.ncells → lo * x c ≤ f c ∧ f c ≤ hi * x c}
  have hK : Convex ℝ K := by
    intro f hf f' hf' a b a0 b0 ab c c0 c1
    have h1 := hf c c0 c1
    have h2 := hf' c c0 c1
    show lo * x c ≤ a * f c + b * f' c ∧ a * f c + b * f' c ≤ hi * x c
    obtain rfl : b = 1 - a := by linarith
    constructor <;> nlinarith
  have rp : 0 < boundSteps stp := by
    cases stp with
    | rk4 => simp [boundSteps]
    | lsrk n => simp only [boundSteps]; split_ifs <;> norm_num
  have key : ∀ (S : List (ℝ × ℝ)) (f : Int → ℝ), (∀ q ∈ S, 0 ≤ q.2 ∧
      4 * q.2 * hhi * (prm.eddy_diff2 + V * dc / 2) ≤ boundSteps stp * (hlo * dc ^ 2)) → f ∈ K →
      S.foldl (fun f q => aeval (q.2 • trOp m (SWModel.ofParams prm) x u) (stabPoly stp) f) f ∈ K := by
    intro S
    induction S with
    | nil => exact fun f _ h => h
    | cons a S ih =>
      intro f ha hf
      refine ih _ (fun q hq => ha q (List.mem_cons_of_mem _ hq)) ?_
      obtain ⟨a0, a1⟩ := ha a List.mem_cons_self
      have e : a.2 • trOp m (SWModel.ofParams prm) x u =
          boundSteps stp • ((a.2 / boundSteps stp) • trOp m (SWModel.ofParams prm) x u) := by
        rw [smul_smul, mul_div_cancel₀ _ rp.ne']
      beta_reduce
      rw [e]
      refine stab_keeps stp hK (fun f hf c c0 c1 => ?_) hf
      refine flow_bounds g hcn h4 k0 k1 hu hP hl hb hD (div_nonneg a0 rp.le) ?_ hf c0 c1
      rw [show 4 * (a.2 / boundSteps stp) * hhi * (prm.eddy_diff2 + V * dc / 2) =
        4 * a.2 * hhi * (prm.eddy_diff2 + V * dc / 2) / boundSteps stp by ring, div_le_iff₀ rp]
      linarith
  intro c c0 c1
  rw [r1 c k c0 c1 k0 k1, r3 l c k l0 l1 c0 c1 k0 k1]
  exact key sched _ hs hq c c0 c1

/-! ### Hyperdiffusion -/

/-- a tracer in one cell only -/
def spike (i : Int) : ℝ := if i = 0 then 1 else 0

theorem two_apart (hx : 4 ≤ p.nx) (hy : 2 ≤ p.ny) (hev : p.ny % 2 = 0) :
    IsCell p.nx p.ny 2 ∧ across p.nx p.ny 2 0 = 1 ∧ across p.nx p.ny 1 0 = 0 ∧
      ∀ j : ℕ, j < 6 → across p.nx p.ny 2 j ≠ 0 := by
  have n2 : 4 * 2 ≤ p.nx * p.ny := by nlinarith
  have h2 : IsCell p.nx p.ny 2 := ⟨by norm_num, by omega⟩
  have h1 : IsCell p.nx p.ny 1 := ⟨by norm_num, by omega⟩
  have e2 : (2 : Int) = cid p.nx 2 0 := by simp [cid]
  have e1 : (1 : Int) = cid p.nx 1 0 := by simp [cid]
  refine ⟨h2, ?_, ?_, fun j hj => ?_⟩
  · rw [across_nb (by omega) hev h2 (by norm_num) (by norm_num), e2, nb_cid (by norm_num) (by omega)]
    simp [nbI, nbR, mx, cid]
  · rw [across_nb (by omega) hev h1 (by norm_num) (by norm_num), e1, nb_cid (by norm_num) (by omega)]
    simp [nbI, nbR, mx, cid]
  · rw [across_nb (by omega) hev h2 (by positivity) (by omega), e2, nb_cid (by norm_num) (by omega)]
    intro h
    have r := nbI_range (nx := p.nx) (j := (j : Int)) (r := 0) (i := 2) (by norm_num) (by omega)
    obtain ⟨a, b⟩ := cid_inj (nx := p.nx) r.1 r.2 le_rfl (by omega) (h.trans (by simp [cid] : (0 : Int) = cid p.nx 0 0))
    simp only [nbI, nbR, mx, px] at a b
    split_ifs at a b <;> omega

/-- Hyperdiffusion takes from the cell two cells away, whatever the diffusion. -/
theorem hyper_spike (g : Geo2 p.nx p.ny p.dims.nlayers dc m.mesh) (hcn : ConnOK p.dims m) (hx : 4 ≤ p.nx)
    (hy : 2 ≤ p.ny) (hev : p.ny % 2 = 0) {prm : Params ℝ} (h4 : 0 < prm.eddy_diff4) {k : Int} (k0 : 0 ≤ k)
    (k1 : k < p.dims.nlayers) : trOp m (SWModel.ofParams prm) (fun _ => 1) (fun _ => 0) spike 2 < 0 := by
  obtain ⟨h2, a1, a0, an⟩ := two_apart hx hy hev
  have hdc := g.dc_pos
  have f4 : (SWModel.ofParams prm).en_thyper = true := by
    show Scalar.lt (lit 0) prm.eddy_diff4 = true
    simp [Scalar.lt, lit, h4]
  rw [trOp_rest g hcn _ _ _ _ (fun _ _ _ => rfl) k0 k1 h2.1 h2.2, if_pos f4]
  set G := Spec.div m fun e => Spec.mean m (fun _ => 1) e * Spec.grad m (fun i => spike i / 1) e with hG
  have val : ∀ c, IsCell p.nx p.ny c → G c = 2 / (3 * dc ^ 2) * ∑ j ∈ Finset.range 6,
      (spike (across p.nx p.ny c j) - spike c) := fun c hc => by
    rw [hG, diff_nbrs g _ _ hc]
    congr 1
    exact Finset.sum_congr rfl fun j _ => by ring
  have s0 : ∀ i, 0 ≤ spike i := fun i => by unfold spike; split_ifs <;> norm_num
  have sn : ∀ j : ℕ, j < 6 → spike (across p.nx p.ny 2 j) = 0 := fun j hj => if_neg (an j hj)
  have G2 : G 2 = 0 := by
    rw [val 2 h2, Finset.sum_eq_zero, mul_zero]
    intro j hj
    rw [sn j (Finset.mem_range.1 hj)]
    simp [spike]
  have Gn : ∀ j ∈ Finset.range 6, 0 ≤ G (across p.nx p.ny 2 j) := fun j hj => by
    rw [val _ (across_isCell g.hnx h2 j), sn j (Finset.mem_range.1 hj)]
    refine mul_nonneg (by positivity) (Finset.sum_nonneg fun i _ => ?_)
    rw [sub_zero]
    exact s0 _
  have G1 : 0 < G 1 := by
    have h1 : IsCell p.nx p.ny 1 := a1 ▸ across_isCell g.hnx h2 0
    rw [val 1 h1]
    refine mul_pos (by positivity) (Finset.sum_pos' (fun i _ => ?_) ⟨0, by simp, ?_⟩)
    · have := s0 (across p.nx p.ny 1 i)
      simp only [spike] at this ⊢
      simpa using this
    · rw [Nat.cast_zero, a0]
      simp [spike]
  have L : Spec.div m (Spec.grad m G) 2 = 2 / (3 * dc ^ 2) * ∑ j ∈ Finset.range 6, (G (across p.nx p.ny 2 j) - G 2) := by
    rw [div_congr hcn (v := fun e => Spec.mean m (fun _ => 1) e * Spec.grad m G e)
      (fun e _ _ => by simp [Spec.mean]) h2.1 h2.2, diff_nbrs g _ _ h2]
    congr 1
    exact Finset.sum_congr rfl fun j _ => by ring
  have Lp : 0 < Spec.div m (Spec.grad m G) 2 := by
    rw [L, G2]
    refine mul_pos (by positivity) (Finset.sum_pos' (fun j hj => ?_) ⟨0, by simp, ?_⟩)
    · rw [sub_zero]; exact Gn j hj
    · rw [Nat.cast_zero, a1, sub_zero]; exact G1
  rw [G2, mul_zero, zero_sub]
  have : 0 < (SWModel.ofParams prm).prm.eddy_diff4 := h4
  nlinarith [mul_pos this Lp]

/-- the supported steppers as polynomials -/
theorem stab_expand {stp : Stepper} (hs : stp = .rk4 ∨ stp = .lsrk 1 ∨ stp = .lsrk 5) :
    ∃ c1 c2 c3 c4 c5 : ℝ, 0 < c1 ∧
      stabPoly stp = 1 + C c1 * X + C c2 * X ^ 2 + C c3 * X ^ 3 + C c4 * X ^ 4 + C c5 * X ^ 5 := by
  rcases hs with rfl | rfl | rfl
  · refine ⟨1, 1 / 2, 1 / 6, 1 / 24, 0, one_pos, Polynomial.funext fun z => ?_⟩
    rw [rk4_eval]; simp; ring
  · exact ⟨1, 0, 0, 0, 0, one_pos, by rw [stabPoly_euler]; simp⟩
  · obtain ⟨c1, c2, c3, c4, c5, k1, -, -, -, -, he⟩ := lsrk5_eval
    rw [abs_le] at k1
    exact ⟨c1, c2, c3, c4, c5, by norm_num at k1; linarith, Polynomial.funext fun z => by rw [he]; simp⟩

/-- Hyperdiffusion does not keep the bounds, whatever the diffusion: in a fluid at rest a tracer with concentration one
in one cell and zero elsewhere becomes negative in one step, for every sufficiently small step of the supported steppers
and for every step of the one-stage stepper. -/
theorem C123_hyperdiffusion_undershoots (hv : RunValid p) (hx : 4 ≤ p.nx) (hy : 2 ≤ p.ny) (hev : p.ny % 2 = 0)
    (hdc : 0 < dc) {prm : Params ℝ} (h5 : prm.disable_h = true) (h6 : prm.disable_vn = true)
    (h4 : 0 < prm.eddy_diff4) {k : Int} (k0 : 0 ≤ k) (k1 : k < p.dims.nlayers) {l : Int} (l0 : 0 ≤ l)
    (l1 : l < p.dims.ntracers) {stp : Stepper} (hs : stp = .rk4 ∨ stp = .lsrk 1 ∨ stp = .lsrk 5) (hr : Ready p dc prm m)
    (hh : ∀ c, m.real (.h_cell .state) 0 c k = 1) (hu : ∀ e, m.real (.vn_edge .state) 0 e k = 0)
    (ht : ∀ c, m.real (.tr_cell .state) l c k = if c = 0 then 1 else 0) :
    ∃ τ : ℝ, 0 < τ ∧ ∀ (t dt : ℝ) (split : Bool) (m1 : Mem ℝ), 0 < dt → (dt < τ ∨ stp = .lsrk 1) →
      Exec p.dims (stp.ctor p.dims ++ stp.run p.dims ⟨defaultKernels p.dims.vl, split⟩
        (SWModel.ofParams prm) [(t, dt)]) m m1 →
      m1.real (.tr_cell .state) l 2 k < 0 := by
  obtain ⟨hd, hcn⟩ := ready_ok hv hr
  have g := Ready.geo2 hr hv.toValid (by omega) hy hdc
  have h2 := (two_apart hx hy hev).1
  have neg := hyper_spike g hcn hx hy hev h4 k0 k1
  set L := trOp m (SWModel.ofParams prm) (fun _ => 1) (fun _ => 0) with hL
  obtain ⟨c1, c2, c3, c4, c5, cp, hP⟩ := stab_expand hs
  set r : ℝ → ℝ := fun dt => c1 * L spike 2 + dt * (c2 * (L ^ 2) spike 2 + dt * (c3 * (L ^ 3) spike 2 +
    dt * (c4 * (L ^ 4) spike 2 + dt * (c5 * (L ^ 5) spike 2)))) with hrd
  have r0 : r 0 < 0 := by
    rw [hrd]; simp only [zero_mul, add_zero]
    nlinarith
  have rc : Continuous r := by rw [hrd]; fun_prop
  obtain ⟨τ, τ0, hτ⟩ := Metric.eventually_nhds_iff.1 (rc.continuousAt.eventually_lt continuousAt_const r0)
  have val : ∀ dt : ℝ, aeval (dt • L) (stabPoly stp) spike 2 = dt * r dt := fun dt => by
    rw [hP, hrd]
    simp only [map_add, map_one, map_mul, aeval_C, map_pow, aeval_X, LinearMap.add_apply, Module.End.mul_apply,
      Module.algebraMap_end_apply, Module.End.one_apply, smul_pow, LinearMap.smul_apply, Pi.add_apply, Pi.smul_apply,
      smul_eq_mul]
    have : spike 2 = 0 := by simp [spike]
    rw [this]
    ring
  refine ⟨τ, τ0, fun t dt split m1 dt0 hdt he => ?_⟩
  obtain ⟨-, -, r3⟩ := frozen_exec (sw := SWModel.ofParams prm) h5 h6 hd hcn (noHook_ofParams prm) he
  rw [r3 l 2 k l0 l1 h2.1 h2.2 k0 k1, show (fun i => m.real (.h_cell .state) 0 i k) = fun _ => 1 from funext hh,
    show (fun i => m.real (.vn_edge .state) 0 i k) = fun _ => 0 from funext hu,
    show (fun i => m.real (.tr_cell .state) l i k) = spike from funext ht]
  simp only [List.foldl_cons, List.foldl_nil]
  rcases hdt with hdt | e1
  · rw [val]
    have := hτ (y := dt) (by rw [Real.dist_eq, sub_zero, abs_of_pos dt0]; exact hdt)
    nlinarith
  · rw [e1, stabPoly_euler]
    have : spike 2 = 0 := by simp [spike]
    show (aeval (dt • L) (1 + X : ℝ[X])) spike 2 < 0
    simp only [map_add, map_one, aeval_X, LinearMap.add_apply, Module.End.one_apply, LinearMap.smul_apply, Pi.add_apply,
      Pi.smul_apply, smul_eq_mul, this]
    nlinarith

/-! ### Examples -/

/-- Peclet number two, three steps of different sizes: concentrations between 1 and 2 stay there. -/
example (f0 g : ℝ) (stp : Stepper) (split : Bool) : ∃ m m1 : Mem ℝ,
    Ready p46t 1 ⟨f0, g, 0, 0, 1, 0, true, true⟩ m ∧
    (∀ e, m.real (.vn_edge .state) 0 e 0 = 2) ∧
    (∀ c, m.real (.tr_cell .state) 0 c 0 = if c = 3 then 2 else 1) ∧
    Exec p46t.dims (stp.ctor p46t.dims ++ stp.run p46t.dims
      ⟨defaultKernels p46t.dims.vl, split⟩ (SWModel.ofParams ⟨f0, g, 0, 0, 1, 0, true, true⟩)
      [(0, 1 / 8), (1, 1 / 10), (2, 1 / 8)]) m m1 ∧
    ∀ c, 0 ≤ c → c < p46t.dims.ncells →
      1 * m1.real (.h_cell .state) 0 c 0 ≤ m1.real (.tr_cell .state) 0 c 0 ∧
        m1.real (.tr_cell .state) 0 c 0 ≤ 2 * m1.real (.h_cell .state) 0 c 0 := by
  obtain ⟨m, hr, hx, -⟩ := exists_ready p46t_run.toValid (1 : ℝ) ⟨f0, g, 0, 0, 1, 0, true, true⟩
    ⟨fun _ _ => 1, fun _ _ => 2, fun _ c _ => if c = 3 then 2 else 1⟩ zeroFld
  have H : ∀ c k, m.real (.h_cell .state) 0 c k = 1 := fun c k => congrFun (congrFun (congrArg Fld.h hx) c) k
  have U : ∀ c k, m.real (.vn_edge .state) 0 c k = 2 := fun c k => congrFun (congrFun (congrArg Fld.vn hx) c) k
  have T : ∀ c k, m.real (.tr_cell .state) 0 c k = if c = 3 then 2 else 1 := fun c k =>
    congrFun (congrFun (congrFun (congrArg Fld.tr hx) 0) c) k
  have gg := Ready.geo2 hr p46t_run.toValid (by decide) (by decide) one_pos
  have b1 : 1 ≤ boundSteps stp := by
    cases stp with
    | rk4 => simp [boundSteps]
    | lsrk n => simp only [boundSteps]; split_ifs <;> norm_num
  obtain ⟨m1, he⟩ := run_exists p46t_run hr stp [(0, 1 / 8), (1, 1 / 10), (2, 1 / 8)] split
  refine ⟨m, m1, hr, fun e => U e 0, fun c => T c 0, he, ?_⟩
  refine C123_tracer_bounds p46t_run (by decide) (by decide) one_pos hr rfl rfl le_rfl le_rfl p46t_layers (V := 2)
    (hlo := 1) (hhi := 1) (fun e _ _ => by rw [U]; norm_num) (by norm_num) one_pos
    (fun c _ _ => by rw [H]; exact ⟨le_rfl, le_rfl⟩) (fun c c0 c1 => ?_) stp (fun q hq => ?_) he le_rfl (by decide)
    fun c _ _ => ?_
  · rw [show (fun e => Spec.mean m (fun i => m.real (.h_cell .state) 0 i 0) e * m.real (.vn_edge .state) 0 e 0) =
      fun _ => 2 from funext fun e => by simp only [Spec.mean, H, U]; norm_num, spec_div gg _ ⟨c0, c1⟩, Dv_sum]
    simp [Finset.sum_range_succ, outSg]
  · simp only [List.mem_cons, List.not_mem_nil, or_false] at hq
    rcases hq with rfl | rfl | rfl <;> norm_num <;> linarith
  · rw [H, T]
    split_ifs <;> norm_num

/-- the default stepper with strong diffusion and weak hyperdiffusion -/
example : ∃ m : Mem ℝ, Ready p46t 1 ⟨0, 1, 0, 0, 10, 1 / 10, true, true⟩ m ∧
    ∃ τ : ℝ, 0 < τ ∧ ∀ (t dt : ℝ) (split : Bool) (m1 : Mem ℝ), 0 < dt → (dt < τ ∨ Stepper.rk4 = .lsrk 1) →
      Exec p46t.dims (Stepper.rk4.ctor p46t.dims ++ Stepper.rk4.run p46t.dims ⟨defaultKernels p46t.dims.vl, split⟩
        (SWModel.ofParams ⟨0, 1, 0, 0, 10, 1 / 10, true, true⟩) [(t, dt)]) m m1 →
      m1.real (.tr_cell .state) 0 2 0 < 0 := by
  obtain ⟨m, hr, hx, -⟩ := exists_ready p46t_run.toValid (1 : ℝ) ⟨0, 1, 0, 0, 10, 1 / 10, true, true⟩
    ⟨fun _ _ => 1, fun _ _ => 0, fun _ c _ => if c = 0 then 1 else 0⟩ zeroFld
  exact ⟨m, hr, C123_hyperdiffusion_undershoots p46t_run (by decide) (by decide) (by decide) one_pos rfl rfl
    (by norm_num) le_rfl p46t_layers le_rfl (by decide) (.inl rfl) hr
    (fun c => congrFun (congrFun (congrArg Fld.h hx) c) 0) (fun c => congrFun (congrFun (congrArg Fld.vn hx) c) 0)
    fun c => congrFun (congrFun (congrFun (congrArg Fld.tr hx) 0) c) 0⟩

end Props
end
end Omega
