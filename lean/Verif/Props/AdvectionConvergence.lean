import Verif.Props.AdvectionOp
import Verif.Props.SpaceTime

/-!
# C73: tracer advection converges

The tracers of a run in a prescribed flow converge to the solution of the advection equation, with
second order in the spacing and fourth order in the time step.
-/

set_option linter.unusedVariables false
set_option linter.unusedSectionVars false

namespace Omega
noncomputable section
namespace Props

open Prog Model Refine Hex Taylor Jets Polynomial

/-- flow and concentration at one time, with bounds -/
structure AdvData (B : ℝ) (p : MeshParams) (dc : ℝ) : Type where
  H : ℝ × ℝ → ℝ
  U : ℝ × ℝ → ℝ
  W : ℝ × ℝ → ℝ
  q : ℝ × ℝ → ℝ
  hH : Bounded 3 (periodX p.nx dc) (periodY p.ny dc) B H
  hU : Bounded 3 (periodX p.nx dc) (periodY p.ny dc) B U
  hW : Bounded 3 (periodX p.nx dc) (periodY p.ny dc) B W
  hq : Bounded 3 (periodX p.nx dc) (periodY p.ny dc) B q

theorem Bounded.le {n : ℕ} {P Q B : ℝ} {φ : ℝ × ℝ → ℝ} (h : Bounded n P Q B φ) (z : ℝ × ℝ) :
    |φ z| ≤ B := by
  have := h.bound 0 (Nat.zero_le _) z
  rwa [norm_iteratedFDeriv_zero] at this

theorem Bounded.fderiv_le {n : ℕ} {P Q B : ℝ} {φ : ℝ × ℝ → ℝ} (h : Bounded (n + 1) P Q B φ)
    (z : ℝ × ℝ) {v : ℝ × ℝ} (hv : ‖v‖ ≤ 1) : |fderiv ℝ φ z v| ≤ B := by
  have := h.bound 1 (by omega) z
  rw [norm_iteratedFDeriv_one] at this
  have k := (fderiv ℝ φ z).le_opNorm v
  rw [Real.norm_eq_abs] at k
  refine k.trans ((mul_le_mul this hv (norm_nonneg _) ((norm_nonneg _).trans this)).trans_eq (mul_one _))

theorem Bounded.diff {n : ℕ} {P Q B : ℝ} {φ : ℝ × ℝ → ℝ} (h : Bounded (n + 1) P Q B φ) :
    Differentiable ℝ φ := h.smooth.differentiable (by exact_mod_cast Nat.succ_ne_zero n)

/-- the divergence of a bounded flux -/
theorem divAt_le {n : ℕ} {P Q B : ℝ} {H U W : ℝ × ℝ → ℝ} (hH : Bounded (n + 1) P Q B H)
    (hU : Bounded (n + 1) P Q B U) (hW : Bounded (n + 1) P Q B W) (z : ℝ × ℝ) :
    |divAt (fun w => H w * U w) (fun w => H w * W w) z| ≤ 4 * B ^ 2 := by
  have n1 : ‖((1, 0) : ℝ × ℝ)‖ ≤ 1 := by simp [Prod.norm_def]
  have n2 : ‖((0, 1) : ℝ × ℝ)‖ ≤ 1 := by simp [Prod.norm_def]
  have B0 := hH.nonneg
  have k : ∀ {a b : ℝ}, |a| ≤ B → |b| ≤ B → |a * b| ≤ B ^ 2 := fun ha hb => by
    rw [abs_mul, sq]; exact mul_le_mul ha hb (abs_nonneg _) B0
  unfold divAt
  rw [fderiv_mul2 hH.diff hU.diff, fderiv_mul2 hH.diff hW.diff]
  have a1 := abs_le.1 (k (hH.le z) (hU.fderiv_le z n1))
  have a2 := abs_le.1 (k (hU.le z) (hH.fderiv_le z n1))
  have a3 := abs_le.1 (k (hH.le z) (hW.fderiv_le z n2))
  have a4 := abs_le.1 (k (hW.le z) (hH.fderiv_le z n2))
  rw [abs_le]
  constructor <;> linarith [a1.1, a1.2, a2.1, a2.2, a3.1, a3.2, a4.1, a4.2]

/-- a schedule with equal steps -/
theorem foldl_iterate {V : Type} [AddCommGroup V] [Module ℝ V] {A : Module.End ℝ V} {dt : ℝ} {r : ℝ[X]}
    {F : V → V} (hF : ∀ f, aeval (dt • A) r f = F f) (sched : List (ℝ × ℝ)) (hs : ∀ a ∈ sched, a.2 = dt)
    (f : V) : sched.foldl (fun f a => aeval (a.2 • A) r f) f = F^[sched.length] f := by
  induction sched generalizing f with
  | nil => rfl
  | cons a L ih =>
    rw [List.foldl_cons, List.length_cons, Function.iterate_succ_apply,
      ih (fun b hb => hs b (List.mem_cons_of_mem _ hb)), hs a List.mem_cons_self, hF]

/-- the `i`-th time derivative is a bounded solution -/
theorem iter_solution {P Q B Te : ℝ} {H U W : ℝ × ℝ → ℝ} (hH : Bounded 3 P Q B H) (hU : Bounded 3 P Q B U)
    (hW : Bounded 3 P Q B W) {q : ℝ × (ℝ × ℝ) → ℝ} (hq : BoundedIn 8 P Q B Te q) (ha : Advected H U W q)
    (i : ℕ) (hi : i ≤ 5) : BoundedIn (8 - i) P Q B Te (dTime^[i] q) ∧ Advected H U W (dTime^[i] q) := by
  induction i with
  | zero => exact ⟨hq, ha⟩
  | succ i ih =>
    obtain ⟨h1, h2⟩ := ih (by omega)
    rw [Function.iterate_succ_apply', show 8 - (i + 1) = 7 - i by omega]
    rw [show 8 - i = (7 - i) + 1 by omega] at h1
    refine ⟨h1.dTime, h2.dTime hH.diff hU.diff hW.diff ?_⟩
    exact h1.smooth.of_le (by exact_mod_cast (by omega : 2 ≤ 7 - i + 1))

/-- The error of the numerical solution in a prescribed flow. -/
theorem advection_core (D B Te : ℝ) {η : ℝ} (hη : 0 < η) :
    ∃ K : ℝ, 0 ≤ K ∧ ∀ (stp : Stepper) (prm : Params ℝ) (p : MeshParams) (dc dt : ℝ) (m m' : Mem ℝ) (sched : List (ℝ × ℝ)) (x u y : Int → ℝ)
        (H U W : ℝ × ℝ → ℝ) (q : ℝ × (ℝ × ℝ) → ℝ),
      FourthOrder stp → prm.eddy_diff2 ≤ 0 → prm.eddy_diff4 ≤ 0 → RunValid p → 2 ≤ p.nx → p.ny % 2 = 0 → 0 < dc → dc ≤ D →
      Bounded 3 (periodX p.nx dc) (periodY p.ny dc) B H →
      Bounded 3 (periodX p.nx dc) (periodY p.ny dc) B U →
      Bounded 3 (periodX p.nx dc) (periodY p.ny dc) B W → (∀ z, η ≤ H z) →
      BoundedIn 8 (periodX p.nx dc) (periodY p.ny dc) B Te q → Advected H U W q →
      Built p dc m' → SameMesh m m' → ConnOK p.dims m → Geo2 p.nx p.ny p.dims.nlayers dc m.mesh →
      (∀ c, 0 ≤ c → c < p.dims.ncells → x c = H (cellAt m c)) →
      (∀ e, 0 ≤ e → e < p.dims.nedges → u e = normalOf m U W e) →
      (∀ c, 0 ≤ c → c < p.dims.ncells → y c = H (cellAt m c) * q (0, cellAt m c)) →
      0 ≤ dt → (∀ a ∈ sched, a.2 = dt) → sched.length ≤ 10 ^ 18 → sched.length * dt ≤ Te →
      (∀ e, 0 ≤ e → e < p.dims.nedges →
        dt * (Spec.mean m (fun c => H (cellAt m c)) e * |normalOf m U W e|) ≤
          dc * √(H (cellAt m (Spec.cellOf m e 0)) * H (cellAt m (Spec.cellOf m e 1)))) →
      √((∑ c ∈ Spec.cells p.dims, (sched.foldl (fun f a =>
          aeval (a.2 • trOp m (SWModel.ofParams prm) x u) (stabPoly stp) f) y c -
          H (cellAt m c) * q (sched.length * dt, cellAt m c)) ^ 2) / p.dims.ncells) ≤
        K * (dc ^ 2 + dt ^ 4 + defect stp) := by
  by_cases hB : 0 ≤ B
  swap
  · exact ⟨0, le_rfl, fun stp prm p dc dt m m' sched x u y H U W q _ _ _ _ _ _ _ _ h => absurd h.nonneg hB⟩
  let T := AdvData B
  have fH : Smooth 3 (fun M : MeshOf D T => M.tag.H) := smooth_of_bounded hB fun M => M.tag.hH
  have fU : Smooth 3 (fun M : MeshOf D T => M.tag.U) := smooth_of_bounded hB fun M => M.tag.hU
  have fW : Smooth 3 (fun M : MeshOf D T => M.tag.W) := smooth_of_bounded hB fun M => M.tag.hW
  have fq : Smooth 3 (fun M : MeshOf D T => M.tag.q) := smooth_of_bounded hB fun M => M.tag.hq
  obtain ⟨K1, k1, o1⟩ := mass_flux_order fH fU fW
  obtain ⟨K3, k3, o3⟩ := tracer_flux_order fH fq fU fW
  set Δ : ℝ := (K1 * D ^ 2 + 4 * B ^ 2) / η with hΔ
  have Δ0 : 0 ≤ Δ := by positivity
  by_cases Te0 : 0 ≤ Te
  swap
  · refine ⟨0, le_rfl, fun stp prm p dc dt m m' sched x u y H U W q _ _ _ _ _ _ _ _ _ _ _ _ _ _ _ _ _ _ _ _ _ t0 _ _ hTe =>
      absurd (le_trans ?_ hTe) Te0⟩
    positivity
  have g0 := Lax.gain_nonneg Te0 Δ0
  refine ⟨√B * (Lax.gain Te Δ * ((K3 + B * B) / √η)), by positivity, ?_⟩
  intro stp prm p dc dt m m' sched x u y H U W q hstp hk2 hk4 hv hnx hny hdc hD bH bU bW hpos bq hadv hb hs hc geo
    hh hu ht t0 hsched hN hTe hcfl
  obtain ⟨c1, c2, c3, c4, c5, hco, hstab⟩ := fourth_order hstp
  have κ0 := defect_nonneg stp
  set N := sched.length with hNdef
  let Mq : ∀ q, Bounded 3 (periodX p.nx dc) (periodY p.ny dc) B q → MeshOf D T := fun q bq =>
    ⟨p, dc, m', ⟨H, U, W, q, bH, bU, bW, bq⟩, hv.toValid, hnx, hny, hdc, hD, hb⟩
  let M : MeshOf D T := Mq (fun _ => 0) (Bounded.zero _ _ _ hB)
  have fl : ∀ x : ℝ, x ≤ 0 → Scalar.lt (lit 0 : ℝ) x = false := fun x hx => by
    rw [← Bool.not_eq_true, slt_real]; simpa using hx
  have hsw : AdvOnly (SWModel.ofParams prm) := ⟨rfl, fl _ hk2, fl _ hk4⟩
  have cell : ∀ {c}, c ∈ Spec.cells p.dims → 0 ≤ c ∧ c < p.dims.ncells := fun h => Finset.mem_Ico.1 h
  have edge : ∀ {e}, e ∈ Spec.edges p.dims → 0 ≤ e ∧ e < p.dims.nedges := fun h => Finset.mem_Ico.1 h
  have xH : ∀ c ∈ Spec.cells p.dims, x c = H (cellAt m c) := fun c hc => hh c (cell hc).1 (cell hc).2
  have xη : ∀ c ∈ Spec.cells p.dims, η ≤ x c := fun c hc => by rw [xH c hc]; exact hpos _
  have x0 : ∀ c ∈ Spec.cells p.dims, 0 < x c := fun c hc => hη.trans_le (xη c hc)
  have xB : ∀ c ∈ Spec.cells p.dims, 0 < x c ∧ x c ≤ B := fun c hc => ⟨x0 c hc, by
    rw [xH c hc]; exact (le_abs_self _).trans (bH.le _)⟩
  -- the mass flux
  have flux : ∀ e, 0 ≤ e → e < p.dims.nedges → Spec.mean m x e * u e =
      Spec.mean m' (fun c => H (cellAt m' c)) e * normalOf m' U W e := fun e h0 h1 => by
    rw [mean_congr hc hh h0 h1, hs.mean, ← hs.cellAt, ← hs.normalOf]
    exact congrArg _ (hu e h0 h1)
  have dF : ∀ c ∈ Spec.cells p.dims, |Spec.div m (fun e => Spec.mean m x e * u e) c| ≤ Δ * x c := by
    intro c hcc
    obtain ⟨h0, h1⟩ := cell hcc
    rw [div_congr hc flux h0 h1, hs.div]
    have a1 := o1 ⟨M, c, h0, h1⟩
    have a2 := divAt_le bH bU bW (cellAt m' c)
    have d2 : dc ^ 2 ≤ D ^ 2 := pow_le_pow_left₀ hdc.le hD 2
    have a3 : |Spec.div m' (fun e => Spec.mean m' (fun c => H (cellAt m' c)) e * normalOf m' U W e) c| ≤
        K1 * D ^ 2 + 4 * B ^ 2 := by
      have : K1 * dc ^ 2 ≤ K1 * D ^ 2 := mul_le_mul_of_nonneg_left d2 k1
      refine le_trans ?_ (add_le_add (a1.trans this) a2)
      refine le_trans (le_of_eq (congrArg abs ?_)) (abs_add_le _ _)
      exact (sub_add_cancel _ _).symm
    refine a3.trans ?_
    rw [hΔ, div_mul_eq_mul_div, le_div_iff₀ hη]
    exact mul_le_mul_of_nonneg_left (xη c hcc) (by positivity)
  have cfl : ∀ e ∈ Spec.edges p.dims, dt * (Spec.mean m x e * |u e|) ≤
      dc * √(x (Spec.cellOf m e 0) * x (Spec.cellOf m e 1)) := fun e hee => by
    obtain ⟨h0, h1⟩ := edge hee
    have a := hc.coe e h0 h1 0 (by omega) (by omega)
    have b := hc.coe e h0 h1 1 (by omega) (by omega)
    rw [mean_congr hc hh h0 h1, hu e h0 h1, show x (Spec.cellOf m e 0) = _ from hh _ a.1 a.2,
      show x (Spec.cellOf m e 1) = _ from hh _ b.1 b.2]
    exact hcfl e h0 h1
  -- the exact solution and its time derivatives
  set s : ℕ → ℕ → Int → ℝ := fun n i c => H (cellAt m c) * dTime^[i] q (n * dt, cellAt m c) with hsd
  have sol := iter_solution bH bU bW bq hadv
  have tn : ∀ n, n ≤ N → 0 ≤ (n : ℝ) * dt ∧ (n : ℝ) * dt ≤ Te := fun n hn =>
    ⟨by positivity, le_trans (mul_le_mul_of_nonneg_right (by exact_mod_cast hn) t0) hTe⟩
  set S := √((Spec.cells p.dims).card : ℝ) with hS
  have S0 : 0 ≤ S := Real.sqrt_nonneg _
  have hA : ∀ n, n < N → ∀ i, i ≤ 4 → ‖scaled p.dims x (trOp m (SWModel.ofParams prm) x u (s n i) - s n (i + 1))‖ ≤
      K3 * dc ^ 2 / √η * S := by
    intro n hn i hi
    refine scaled_le _ hη xη (by positivity) fun c hcc => ?_
    obtain ⟨h0, h1⟩ := cell hcc
    obtain ⟨b8, hsol⟩ := sol i (by omega)
    have bs := (b8.mono (by omega : 3 ≤ 8 - i)).slice (tn n hn.le).1 (tn n hn.le).2
    have a := o3 ⟨Mq _ bs, c, h0, h1⟩
    have eq := hsol (n * dt) (cellAt m c)
    have dq : Differentiable ℝ (dTime^[i] q) := b8.smooth.differentiable
      (by exact_mod_cast (by omega : 8 - i ≠ 0))
    rw [(hasDerivAt_time dq _ _).deriv, ← Function.iterate_succ_apply' dTime i q, rhsS, zero_mul, add_zero] at eq
    rw [Pi.sub_apply, trOp_adv hsw, show s n (i + 1) c = _ from eq, ← abs_neg, neg_sub_neg, ← neg_sub, neg_neg]
    rw [div_congr hc (v := fun e => Spec.mean m' (fun c => H (cellAt m' c)) e *
      Spec.mean m' (fun c => dTime^[i] q (n * dt, cellAt m' c)) e * normalOf m' U W e) ?_ h0 h1, hs.div, hs.cellAt]
    · exact a
    · intro e e0 e1
      rw [mul_right_comm, flux e e0 e1, mul_right_comm]
      congr 2
      rw [hs.mean, ← hs.mean]
      refine mean_congr hc (fun c c0 c1 => ?_) e0 e1
      have := xH c (Finset.mem_Ico.2 ⟨c0, c1⟩)
      have := (hη.trans_le (hpos (cellAt m c))).ne'
      rw [← hs.cellAt, hsd]
      beta_reduce
      rw [xH c (Finset.mem_Ico.2 ⟨c0, c1⟩)]
      field_simp
  have prod : ∀ {a b C : ℝ}, |a| ≤ B → |b| ≤ C → |a * b| ≤ B * C := fun ha hb => by
    rw [abs_mul]; exact mul_le_mul ha hb (abs_nonneg _) hB
  have hM : ∀ n, n ≤ N → ∀ i, i ≤ 5 → ‖scaled p.dims x (s n i)‖ ≤ B * B / √η * S := by
    intro n hn i hi
    refine scaled_le _ hη xη (by positivity) fun c hcc => ?_
    exact prod (bH.le _) ((sol i hi).1.le (tn n hn).1 (tn n hn).2 _)
  have hT : ∀ n, n < N → ‖scaled p.dims x (s (n + 1) 0 - (s n 0 + dt • s n 1 + (dt ^ 2 / 2) • s n 2 +
      (dt ^ 3 / 6) • s n 3 + (dt ^ 4 / 24) • s n 4))‖ ≤ B * B / √η * S * dt ^ 5 := by
    intro n hn
    have e : B * B / √η * S * dt ^ 5 = B * (B * dt ^ 5) / √η * S := by ring
    rw [e]
    refine scaled_le _ hη xη (by positivity) fun c hcc => ?_
    have tay := taylor_five (g := fun i t => dTime^[i] q (t, cellAt m c)) (a := n * dt) (b := (n + 1 : ℕ) * dt)
      (M := B) (fun i hi t => by
        rw [Function.iterate_succ_apply']
        exact hasDerivAt_time ((sol i (by omega)).1.smooth.differentiable
          (by exact_mod_cast (by omega : 8 - i ≠ 0))) t _)
      (fun t h1 h2 => (sol 5 le_rfl).1.le ((tn n hn.le).1.trans h1) (h2.trans (tn (n + 1) hn).2) _)
      (by push_cast; nlinarith)
    have e1 : ((n + 1 : ℕ) : ℝ) * dt - n * dt = dt := by push_cast; ring
    rw [e1] at tay
    refine le_trans (le_of_eq (congrArg abs ?_)) (prod (bH.le (cellAt m c)) tay)
    simp only [hsd, Pi.sub_apply, Pi.add_apply, Pi.smul_apply, smul_eq_mul]
    ring
  have h0 : scaled p.dims x (y - s 0 0) = 0 := by
    rw [map_sub, sub_eq_zero]
    refine scaled_congr _ _ fun c hcc => ?_
    rw [ht c (cell hcc).1 (cell hcc).2, hsd]
    simp
  have main := Lax.overall (T := scaled p.dims x) (A := trOp m (SWModel.ofParams prm) x u) t0 Δ0
    (trOp_norm geo hsw x0 Δ0 dF t0 cfl) (trOp_skew_le geo hsw x0 Δ0 dF t0) hco hN hTe hA hM hT h0
    (by positivity)
  have card : ((Spec.cells p.dims).card : ℝ) = p.dims.ncells := by
    have : (0 : Int) ≤ p.dims.ncells := mul_nonneg (by omega) (by have := hv.ny_pos; omega)
    unfold Spec.cells
    rw [Int.card_Ico, sub_zero]
    exact_mod_cast Int.toNat_of_nonneg this
  have val : ∑ c ∈ Spec.cells p.dims, (sched.foldl (fun f a =>
      aeval (a.2 • trOp m (SWModel.ofParams prm) x u) (stabPoly stp) f) y c - H (cellAt m c) * q (N * dt, cellAt m c)) ^ 2 = ∑ c ∈ Spec.cells p.dims,
      ((Lax.stab c1 c2 c3 c4 c5 (dt • trOp m (SWModel.ofParams prm) x u))^[N]
        y - s N 0) c ^ 2 := by
    refine Finset.sum_congr rfl fun c hcc => ?_
    rw [foldl_iterate (hstab _) sched hsched]
    rfl
  rw [val, ← card]
  have sq := le_scaled p.dims xB ((Lax.stab c1 c2 c3 c4 c5 (dt • trOp m (SWModel.ofParams prm) x u))^[N]
        y - s N 0)
  set X := ‖scaled p.dims x ((Lax.stab c1 c2 c3 c4 c5 (dt • trOp m (SWModel.ofParams prm) x u))^[N]
        y - s N 0)‖ with hX
  have n0 : (0 : ℝ) < (Spec.cells p.dims).card := by
    rw [card]
    exact_mod_cast mul_pos (by omega : 0 < p.nx) (by have := hv.ny_pos; omega : 0 < p.ny)
  have XS : X ≤ Lax.gain Te Δ * ((K3 + B * B) / √η) * (dc ^ 2 + dt ^ 4 + defect stp) * S := by
    refine main.trans ?_
    rw [mul_assoc (Lax.gain Te Δ * _), mul_assoc (Lax.gain Te Δ) _ (_ * S)]
    refine mul_le_mul_of_nonneg_left ?_ g0
    have e1 : K3 * dc ^ 2 / √η * S + B * B / √η * S * dt ^ 4 + B * B / √η * S * defect stp =
        (K3 * dc ^ 2 + B * B * dt ^ 4 + B * B * defect stp) * (S / √η) := by ring
    have e2 : (K3 + B * B) / √η * ((dc ^ 2 + dt ^ 4 + defect stp) * S) =
        (K3 * dc ^ 2 + B * B * dt ^ 4 + B * B * defect stp +
          (B * B * dc ^ 2 + K3 * dt ^ 4 + K3 * defect stp)) * (S / √η) := by ring
    rw [e1, e2]
    refine mul_le_mul_of_nonneg_right ?_ (by positivity)
    have : 0 ≤ B * B * dc ^ 2 + K3 * dt ^ 4 + K3 * defect stp := by positivity
    linarith
  have X2 := pow_le_pow_left₀ (norm_nonneg _) XS 2
  rw [Real.sqrt_le_iff]
  refine ⟨by positivity, ?_⟩
  rw [div_le_iff₀ n0]
  refine sq.trans ((mul_le_mul_of_nonneg_left X2 hB).trans_eq ?_)
  have s2 := Real.sq_sqrt n0.le
  have b2 := Real.sq_sqrt hB
  rw [← hS] at s2
  rw [← s2]
  linear_combination -(Lax.gain Te Δ * ((K3 + B * B) / √η) * (dc ^ 2 + dt ^ 4 + defect stp) * S) ^ 2 * b2

/-- For any bounds there is a constant such that, on every mesh with a spacing of at most `D` and for
every flow `(H, U, W)` and solution `q` of the advection equation within the bounds, the following holds
for a run of either fourth-order stepper with thickness and velocity held fixed, no diffusion, and steps
of size `dt` up to a time of at most `Te`: if the Courant number is at most one on every edge, then the
root mean square over the cells of the difference between the tracer and `h q` at the final time is at
most that constant times the sum of the squared spacing, the fourth power of the time step and, for the
low-storage stepper, `1e-20` (its coefficients are rounded). -/
theorem C73_advection_converges (D B Te : ℝ) {η : ℝ} (hη : 0 < η) :
    ∃ K : ℝ, ∀ (stp : Stepper) (prm : Params ℝ) (p : MeshParams) (dc dt : ℝ) (m m1 : Mem ℝ) (split : Bool) (sched : List (ℝ × ℝ)) (l k : Int)
        (H U W : ℝ × ℝ → ℝ) (q : ℝ × (ℝ × ℝ) → ℝ),
      FourthOrder stp → prm.eddy_diff2 ≤ 0 → prm.eddy_diff4 ≤ 0 → prm.disable_h = true → prm.disable_vn = true →
      RunValid p → 2 ≤ p.nx → p.ny % 2 = 0 → 0 < dc → dc ≤ D →
      Bounded 3 (periodX p.nx dc) (periodY p.ny dc) B H →
      Bounded 3 (periodX p.nx dc) (periodY p.ny dc) B U →
      Bounded 3 (periodX p.nx dc) (periodY p.ny dc) B W → (∀ z, η ≤ H z) →
      BoundedIn 8 (periodX p.nx dc) (periodY p.ny dc) B Te q → Advected H U W q →
      Ready p dc prm m → 0 ≤ k → k < p.dims.nlayers → 0 ≤ l → l < p.dims.ntracers →
      (∀ c, 0 ≤ c → c < p.dims.ncells → m.real (.h_cell .state) 0 c k = H (cellAt m c)) →
      (∀ e, 0 ≤ e → e < p.dims.nedges → m.real (.vn_edge .state) 0 e k = normalOf m U W e) →
      (∀ c, 0 ≤ c → c < p.dims.ncells →
        m.real (.tr_cell .state) l c k = H (cellAt m c) * q (0, cellAt m c)) →
      0 ≤ dt → (∀ a ∈ sched, a.2 = dt) → sched.length ≤ 10 ^ 18 → sched.length * dt ≤ Te →
      (∀ e, 0 ≤ e → e < p.dims.nedges →
        dt * (Spec.mean m (fun c => H (cellAt m c)) e * |normalOf m U W e|) ≤
          dc * √(H (cellAt m (Spec.cellOf m e 0)) * H (cellAt m (Spec.cellOf m e 1)))) →
      Exec p.dims (stp.ctor p.dims ++ stp.run p.dims ⟨defaultKernels p.dims.vl, split⟩
        (SWModel.ofParams prm) sched) m m1 →
      √((∑ c ∈ Spec.cells p.dims, (m1.real (.tr_cell .state) l c k -
          H (cellAt m c) * q (sched.length * dt, cellAt m c)) ^ 2) / p.dims.ncells) ≤
        K * (dc ^ 2 + dt ^ 4 + defect stp) := by
  obtain ⟨K, -, hK⟩ := advection_core D B Te hη
  refine ⟨K, ?_⟩
  intro stp prm p dc dt m m1 split sched l k H U W q hstp hk2 hk4 hdh hdv hv hnx hny hdc hD bH bU bW hpos bq hadv hr hk0 hk1' hl0 hl1
    hh hu ht t0 hsched hN hTe hcfl he
  obtain ⟨m', hb, hs⟩ := ready_mesh hr
  obtain ⟨hd, hc⟩ := ready_ok hv hr
  have := hK stp prm p dc dt m m' sched (fun i => m.real (.h_cell .state) 0 i k)
    (fun i => m.real (.vn_edge .state) 0 i k) (fun i => m.real (.tr_cell .state) l i k) H U W q hstp hk2 hk4 hv hnx hny
    hdc hD bH bU bW hpos bq hadv hb hs hc
    (Ready.geo2 hr hv.toValid hnx (by have := hv.ny_pos; omega) hdc) hh hu ht t0 hsched hN hTe hcfl
  obtain ⟨-, -, fin⟩ := frozen_exec hdh hdv hd hc (noHook_ofParams prm) he
  refine le_trans (le_of_eq ?_) this
  congr 2
  refine Finset.sum_congr rfl fun c hcc => ?_
  rw [fin l c k hl0 hl1 (Finset.mem_Ico.1 hcc).1 (Finset.mem_Ico.1 hcc).2 hk0 hk1']

/-- meshes of one domain refined up to a thousandfold, a thickness between 1 and 3, a uniform oblique flow,
a tracer that moves with it, steps of a sixth of the spacing up to a fixed time -/
example (dc : ℝ) (hdc : 0 < dc) : ∃ (B P Q : ℝ) (H U W : ℝ × ℝ → ℝ) (q : ℝ × (ℝ × ℝ) → ℝ) (prm : Params ℝ),
    prm.eddy_diff2 ≤ 0 ∧ prm.eddy_diff4 ≤ 0 ∧ prm.disable_h = true ∧ prm.disable_vn = true ∧
    FourthOrder .rk4 ∧ FourthOrder (.lsrk 5) ∧
    Bounded 3 P Q B H ∧ Bounded 3 P Q B U ∧ Bounded 3 P Q B W ∧ BoundedIn 8 P Q B dc q ∧ Advected H U W q ∧
    (∀ z, 1 ≤ H z) ∧ H (0, 0) ≠ H (P / 4, Q / 4) ∧ q (0, (0, 0)) ≠ q (0, (P / 4, Q / 4)) ∧
    ∀ n : ℕ, 1 ≤ n → n ≤ 1000 → RunValid (pRef n) ∧ 2 ≤ (pRef n).nx ∧ (pRef n).ny % 2 = 0 ∧ 0 < dc / n ∧
      dc / n ≤ dc ∧ periodX (pRef n).nx (dc / n) = P ∧ periodY (pRef n).ny (dc / n) = Q ∧
      0 < (pRef n).dims.nlayers ∧ 0 < (pRef n).dims.ntracers ∧
      ∀ stp : Stepper, ∃ (sched : List (ℝ × ℝ)) (m m1 : Mem ℝ), sched.length ≤ 10 ^ 18 ∧
      (∀ a ∈ sched, a.2 = dc / n / 6) ∧ sched.length * (dc / n / 6) = dc ∧ Ready (pRef n) (dc / n) prm m ∧
      (∀ c k, 0 ≤ c → c < (pRef n).dims.ncells → m.real (.h_cell .state) 0 c k = H (cellAt m c)) ∧
      (∀ e k, 0 ≤ e → e < (pRef n).dims.nedges → m.real (.vn_edge .state) 0 e k = normalOf m U W e) ∧
      (∀ l c k, 0 ≤ c → c < (pRef n).dims.ncells →
        m.real (.tr_cell .state) l c k = H (cellAt m c) * q (0, cellAt m c)) ∧
      (∀ e, 0 ≤ e → e < (pRef n).dims.nedges →
        dc / n / 6 * (Spec.mean m (fun c => H (cellAt m c)) e * |normalOf m U W e|) ≤
          dc / n * √(H (cellAt m (Spec.cellOf m e 0)) * H (cellAt m (Spec.cellOf m e 1)))) ∧
      Exec (pRef n).dims (stp.ctor (pRef n).dims ++ stp.run (pRef n).dims
        ⟨defaultKernels (pRef n).dims.vl, true⟩ (SWModel.ofParams prm) sched) m m1 := by
  obtain ⟨hP, hQ⟩ := periods_pos (dc := dc) p46_valid hdc
  set P := (periodX p46.nx dc : ℝ) with hPd
  set Q := (periodY p46.ny dc : ℝ) with hQd
  have wp := wave_periodic hP hQ 0 0
  set H : ℝ × ℝ → ℝ := fun z => 2 + wave P Q 0 0 z with hH
  have range : ∀ z, 1 ≤ H z ∧ H z ≤ 3 := fun z => by
    have a := Real.neg_one_le_sin (2 * Real.pi * z.1 / P + 0)
    have b := Real.sin_le_one (2 * Real.pi * z.1 / P + 0)
    have c := Real.neg_one_le_sin (2 * Real.pi * z.2 / Q + 0)
    have d := Real.sin_le_one (2 * Real.pi * z.2 / Q + 0)
    simp only [hH, wave]
    constructor <;> nlinarith
  have H0 : ∀ z, H z ≠ 0 := fun z => by have := (range z).1; positivity
  have sH : ∀ {k : ℕ}, ContDiff ℝ k H := contDiff_const.add (wave_smooth P Q 0 0)
  have pH : Periodic2 P Q H := ⟨fun x y => by simp only [hH, wp.1], fun x y => by simp only [hH, wp.2]⟩
  set q : ℝ × (ℝ × ℝ) → ℝ := fun x => wave P Q 0 0 (x.2.1 - 1 * x.1, x.2.2 - 1 * x.1) / H x.2 with hq
  have sq : ContDiff ℝ (8 : ℕ) q := by
    refine ContDiff.div ?_ (sH.comp contDiff_snd) fun x => H0 _
    exact (wave_smooth P Q 0 0).comp (by fun_prop)
  have pq : ∀ t, Periodic2 P Q fun z => q (t, z) := fun t => by
    refine ⟨fun x y => ?_, fun x y => ?_⟩
    · simp only [hq]
      rw [show x + P - 1 * t = x - 1 * t + P by ring, wp.1, pH.1]
    · simp only [hq]
      rw [show y + Q - 1 * t = y - 1 * t + Q by ring, wp.2, pH.2]
  obtain ⟨B1, hB1⟩ := Bounded.exists (n := 3) hP hQ sH pH
  obtain ⟨B2, hB2⟩ := Bounded.exists (n := 3) (φ := fun _ => (1 : ℝ)) hP hQ contDiff_const
    ⟨fun _ _ => rfl, fun _ _ => rfl⟩
  obtain ⟨B3, hB3⟩ := BoundedIn.exists (n := 8) hP hQ dc sq pq
  have n1 := hB1.nonneg
  have n2 := hB2.nonneg
  have n3 : 0 ≤ B3 := (abs_nonneg _).trans (hB3.le le_rfl hdc.le 0)
  have e0 : wave P Q 0 0 (0, 0) = 0 := by simp [wave]
  have e1 : wave P Q 0 0 (P / 4, Q / 4) = 1 := by
    unfold wave
    rw [show 2 * Real.pi * (P / 4) / P + 0 = Real.pi / 2 by field_simp; ring,
      show 2 * Real.pi * (Q / 4) / Q + 0 = Real.pi / 2 by field_simp; ring]
    simp
  refine ⟨B1 + B2 + B3, P, Q, H, fun _ => 1, fun _ => 1, q, ⟨0, 0, 0, 0, 0, 0, true, true⟩, le_rfl, le_rfl, rfl, rfl, Or.inl rfl,
    Or.inr rfl, hB1.mono (by linarith), hB2.mono (by linarith), hB2.mono (by linarith),
    hB3.raise (by linarith), advected_translation H0 ((wave_smooth P Q 0 0 (n := 1)).differentiable (by norm_num)) 1 1,
    fun z => (range z).1, ?_, ?_, fun n hn hm => ?_⟩
  · simp only [hH, e0, e1]; norm_num
  · simp only [hq, hH, mul_zero, sub_zero, e0, e1]; norm_num
  have hn1 : (1 : ℝ) ≤ n := by exact_mod_cast hn
  have hn0 : (0 : ℝ) < n := by linarith
  have hl : (pRef n).dims.nlayers = p46.dims.nlayers := rfl
  have hv := pRef_run hn hm
  refine ⟨hv, by simp [pRef]; omega, by simp [pRef]; omega, by positivity,
    div_le_self hdc.le hn1, ?_, ?_, by rw [hl, p46_layers]; norm_num, by simp [pRef, MeshParams.dims],
    fun stp => ?_⟩
  · rw [hPd]; simp only [periodX, pRef, p46, lit_real]; push_cast; field_simp
  · rw [hQd]; simp only [periodY, pRef, p46, lit_real]; push_cast; field_simp
  obtain ⟨m, -, hr, s1, s2, s3, -⟩ := exists_sampled hv (dc / n) (⟨0, 0, 0, 0, 0, 0, true, true⟩) true 0 H (fun _ => 1) (fun _ => 1)
    (fun z => H z * q (0, z))
  obtain ⟨hd, hc⟩ := ready_ok hv hr
  obtain ⟨m1, he, -⟩ := ((C40_safe_deterministic hd hc (noHook_ofParams (⟨0, 0, 0, 0, 0, 0, true, true⟩)) true).2.2 stp
    (List.replicate (6 * n) (0, dc / n / 6))).2
  refine ⟨List.replicate (6 * n) (0, dc / n / 6), m, m1, by rw [List.length_replicate]; omega,
    fun a ha => by rw [List.eq_of_mem_replicate ha], by rw [List.length_replicate]; push_cast; field_simp,
    hr, s1, s2, s3, fun e _ _ => ?_, he⟩
  have a1 := range (cellAt m (Spec.cellOf m e 0))
  have a2 := range (cellAt m (Spec.cellOf m e 1))
  have r1 : 1 ≤ √(H (cellAt m (Spec.cellOf m e 0)) * H (cellAt m (Spec.cellOf m e 1))) :=
    Real.one_le_sqrt.2 (by nlinarith)
  have r2 : |normalOf m (fun _ => 1) (fun _ => 1) e| ≤ 2 := by
    unfold normalOf normal
    have c1 := Real.abs_cos_le_one (m.real .angle_edge 0 e 0)
    have c2 := Real.abs_sin_le_one (m.real .angle_edge 0 e 0)
    simp only [mul_one]
    refine (abs_add_le _ _).trans ?_
    linarith
  have r3 : 0 ≤ Spec.mean m (fun c => H (cellAt m c)) e ∧ Spec.mean m (fun c => H (cellAt m c)) e ≤ 3 := by
    unfold Spec.mean
    constructor <;> linarith
  have d0 : 0 < dc / n := by positivity
  have : Spec.mean m (fun c => H (cellAt m c)) e * |normalOf m (fun _ => 1) (fun _ => 1) e| ≤ 3 * 2 :=
    mul_le_mul r3.2 r2 (abs_nonneg _) (by norm_num)
  nlinarith

end Props
end
end Omega
