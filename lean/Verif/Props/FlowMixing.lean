import Verif.Props.TracerConvex
import Verif.Props.Modes

/-!
# C128: prescribed flow with diffusion mixes a tracer completely

C127 says that no convex measure of a tracer increases.  Strictly below the limits on the Peclet number and on the step,
the difference between the largest and the smallest concentration tends to zero at a fixed rate.
-/

set_option linter.unusedVariables false
set_option linter.unusedSectionVars false

namespace Omega
noncomputable section
namespace Props

open Prog Model Refine Hex Polynomial

section

variable {nx ny : Int} {P : Module.End ℝ (Int → ℝ)} {η : ℝ}

/-- A linear map that gives every cell at least a fraction `η` of what the cell itself and each of its neighbours had. -/
def Spreads (nx ny : Int) (P : Module.End ℝ (Int → ℝ)) (η : ℝ) : Prop :=
  ∀ s : Int → ℝ, (∀ c, IsCell nx ny c → 0 ≤ s c) → ∀ c, IsCell nx ny c →
    η * s c ≤ P s c ∧ ∀ j : Int, 0 ≤ j → j < 6 → η * s (nb nx ny j c) ≤ P s c

theorem Spreads.nonneg (h : Spreads nx ny P η) (h0 : 0 < η) {s : Int → ℝ} (hs : ∀ c, IsCell nx ny c → 0 ≤ s c)
    (n : ℕ) : ∀ c, IsCell nx ny c → 0 ≤ (P ^ n) s c := by
  induction n with
  | zero => simpa using hs
  | succ n ih =>
    intro c hc
    rw [pow_succ']
    exact (mul_nonneg h0.le (ih c hc)).trans (h _ ih c hc).1

/-- After enough applications every cell has got a fraction of what cell 0 had. -/
theorem Spreads.reach (h : Spreads nx ny P η) (h0 : 0 < η) (hnx : 1 ≤ nx) (hny : 1 ≤ ny) (hev : ny % 2 = 0) :
    ∃ N : ℕ, 0 < N ∧ ∃ θ : ℝ, 0 < θ ∧ ∀ s : Int → ℝ, (∀ c, IsCell nx ny c → 0 ≤ s c) →
      ∀ c, IsCell nx ny c → θ * s 0 ≤ (P ^ N) s c := by
  classical
  let R : ℕ → ℝ → Int → Prop := fun n θ c => ∀ s : Int → ℝ, (∀ c, IsCell nx ny c → 0 ≤ s c) → θ * s 0 ≤ (P ^ n) s c
  have z : IsCell nx ny 0 := ⟨le_rfl, by positivity⟩
  have next : ∀ {n θ c}, IsCell nx ny c → R n θ c → R (n + 1) (η * θ) c := fun {n θ c} hc hR s hs => by
    rw [pow_succ', mul_assoc]
    exact (mul_le_mul_of_nonneg_left (hR s hs) h0.le).trans (h _ (h.nonneg h0 hs n) c hc).1
  let S : Int → Prop := fun c => ∃ n : ℕ, ∃ θ : ℝ, 0 < θ ∧ R n θ c
  have stepS : ∀ c, IsCell nx ny c → ∀ j : Int, 0 ≤ j → j < 6 → S (nb nx ny j c) → S c := by
    rintro c hc j j0 j6 ⟨n, θ, θ0, hR⟩
    refine ⟨n + 1, η * θ, mul_pos h0 θ0, fun s hs => ?_⟩
    rw [pow_succ', mul_assoc]
    exact (mul_le_mul_of_nonneg_left (hR s hs) h0.le).trans ((h _ (h.nonneg h0 hs n) c hc).2 j j0 j6)
  have stepS' : ∀ c, IsCell nx ny c → ∀ j : Int, 0 ≤ j → j < 6 → (S (nb nx ny j c) ↔ S c) := fun c hc j j0 j6 =>
    ⟨stepS c hc j j0 j6, fun hS => stepS _ (nb_isCell hnx hc) ((j + 3) % 6) (by omega) (by omega)
      (by rw [nb_nb hnx hev hc j0 j6]; exact hS)⟩
  have all : ∀ c, IsCell nx ny c → S c := by
    have := const_of_nb hnx hny (f := fun c => if S c then (1 : ℝ) else 0)
      (fun c hc => by simp only [stepS' c hc 0 le_rfl (by norm_num)])
      (fun c hc => by simp only [stepS' c hc 2 (by norm_num) (by norm_num)])
    intro c hc
    have e := this c hc
    have S0 : S 0 := ⟨0, 1, one_pos, fun s _ => by simp⟩
    simp only [S0, if_true] at e
    by_contra hn
    simp [hn] at e
  have ev : ∀ c ∈ Finset.Ico 0 (nx * ny), ∀ᶠ N in Filter.atTop, ∃ θ : ℝ, 0 < θ ∧ R N θ c := fun c hc => by
    have hc' : IsCell nx ny c := Finset.mem_Ico.mp hc
    obtain ⟨n, θ, θ0, hR⟩ := all c hc'
    refine Filter.eventually_atTop.mpr ⟨n, fun N hN => ?_⟩
    induction N, hN using Nat.le_induction with
    | base => exact ⟨θ, θ0, hR⟩
    | succ N _ ih =>
      obtain ⟨θ', t0, hR'⟩ := ih
      exact ⟨_, mul_pos h0 t0, next hc' hR'⟩
  obtain ⟨N, hN, N0⟩ := (((Filter.eventually_all_finset _).mpr ev).and (Filter.eventually_gt_atTop 0)).exists
  have ev2 : ∀ c ∈ Finset.Ico 0 (nx * ny), ∀ᶠ θ in nhdsWithin (0 : ℝ) (Set.Ioi 0), R N θ c := fun c hc => by
    obtain ⟨θ, θ0, hR⟩ := hN c hc
    filter_upwards [Ioo_mem_nhdsGT θ0] with t ht s hs
    exact (mul_le_mul_of_nonneg_right ht.2.le (hs 0 z)).trans (hR s hs)
  obtain ⟨θ, hθ, θ0⟩ := (((Filter.eventually_all_finset _).mpr ev2).and (eventually_mem_nhdsWithin)).exists
  exact ⟨N, N0, θ, θ0, fun s hs c hc => hθ c (Finset.mem_Ico.mpr hc) s hs⟩

/-- Such a map that keeps the uniform concentration brings concentrations together. -/
theorem Spreads.contract (h : Spreads nx ny P η) (h0 : 0 < η) (hnx : 1 ≤ nx) (hny : 1 ≤ ny) (hev : ny % 2 = 0)
    {x : Int → ℝ} {hlo hhi : ℝ} (hl : 0 < hlo) (hx : ∀ c, IsCell nx ny c → hlo ≤ x c ∧ x c ≤ hhi)
    (hP : ∀ n : ℕ, ∀ c, IsCell nx ny c → (P ^ n) x c = x c) :
    ∃ N : ℕ, 0 < N ∧ ∃ θ : ℝ, 0 < θ ∧ θ ≤ 1 ∧ ∀ (lo hi : ℝ) (s : Int → ℝ),
      (∀ c, IsCell nx ny c → lo * x c ≤ s c ∧ s c ≤ hi * x c) → ∀ n : ℕ, ∃ lo' hi' : ℝ,
        (∀ c, IsCell nx ny c → lo' * x c ≤ (P ^ n) s c ∧ (P ^ n) s c ≤ hi' * x c) ∧
        hi' - lo' ≤ (1 - θ) ^ (n / N) * (hi - lo) := by
  obtain ⟨N, N0, θ', t0, H⟩ := h.reach h0 hnx hny hev
  have z : IsCell nx ny 0 := ⟨le_rfl, by positivity⟩
  have hh : 0 < hhi := hl.trans_le ((hx 0 z).1.trans (hx 0 z).2)
  set θ := min 1 (θ' * hlo / (2 * hhi)) with hθ
  have θ0 : 0 < θ := lt_min one_pos (by positivity)
  have θ1 : θ ≤ 1 := min_le_left _ _
  have θ2 : θ * (2 * hhi) ≤ θ' * hlo := by
    rw [← le_div_iff₀ (by positivity)]; exact min_le_right _ _
  have sub : ∀ (n : ℕ) (a b : ℝ) (s : Int → ℝ) (c : Int), IsCell nx ny c →
      (P ^ n) (a • s + b • x) c = a * (P ^ n) s c + b * x c := fun n a b s c hc => by
    rw [map_add, map_smul, map_smul]
    simp only [Pi.add_apply, Pi.smul_apply, smul_eq_mul, hP n c hc]
  have keep : ∀ (n : ℕ) (lo hi : ℝ) (s : Int → ℝ), (∀ c, IsCell nx ny c → lo * x c ≤ s c ∧ s c ≤ hi * x c) →
      ∀ c, IsCell nx ny c → lo * x c ≤ (P ^ n) s c ∧ (P ^ n) s c ≤ hi * x c := fun n lo hi s hs c hc => by
    have a := h.nonneg h0 (s := (1 : ℝ) • s + (-lo) • x) (fun i hi => by
      have := (hs i hi).1
      simp only [Pi.add_apply, Pi.smul_apply, smul_eq_mul]; linarith) n c hc
    have b := h.nonneg h0 (s := (-1 : ℝ) • s + hi • x) (fun i hi => by
      have := (hs i hi).2
      simp only [Pi.add_apply, Pi.smul_apply, smul_eq_mul]; linarith) n c hc
    rw [sub n _ _ _ c hc] at a b
    constructor <;> linarith
  have block : ∀ (lo hi : ℝ) (s : Int → ℝ), (∀ c, IsCell nx ny c → lo * x c ≤ s c ∧ s c ≤ hi * x c) →
      ∃ lo' hi' : ℝ, (∀ c, IsCell nx ny c → lo' * x c ≤ (P ^ N) s c ∧ (P ^ N) s c ≤ hi' * x c) ∧
        hi' - lo' ≤ (1 - θ) * (hi - lo) := by
    intro lo hi s hs
    have x0 : 0 < x 0 := hl.trans_le (hx 0 z).1
    have D : 0 ≤ hi - lo := by
      have := (hs 0 z).1.trans (hs 0 z).2
      have := le_of_mul_le_mul_right this x0
      linarith
    have K := keep N lo hi s hs
    have big : ∀ {y : ℝ} {c : Int}, IsCell nx ny c → (hi - lo) / 2 * x 0 ≤ y → θ * (hi - lo) * x c ≤ θ' * y :=
      fun {y c} hc hy => by
        have e1 : θ' * ((hi - lo) / 2 * x 0) ≤ θ' * y := mul_le_mul_of_nonneg_left hy t0.le
        have e2 : θ' * ((hi - lo) / 2 * hlo) ≤ θ' * ((hi - lo) / 2 * x 0) :=
          mul_le_mul_of_nonneg_left (mul_le_mul_of_nonneg_left (hx 0 z).1 (by linarith)) t0.le
        have e3 : θ * (hi - lo) * x c ≤ θ * (hi - lo) * hhi :=
          mul_le_mul_of_nonneg_left (hx c hc).2 (mul_nonneg θ0.le D)
        have e4 := mul_le_mul_of_nonneg_left θ2 (show 0 ≤ (hi - lo) / 2 by linarith)
        calc _ ≤ θ * (hi - lo) * hhi := e3
          _ = (hi - lo) / 2 * (θ * (2 * hhi)) := by ring
          _ ≤ (hi - lo) / 2 * (θ' * hlo) := e4
          _ = θ' * ((hi - lo) / 2 * hlo) := by ring
          _ ≤ _ := e2.trans e1
    rcases le_total ((lo + hi) / 2 * x 0) (s 0) with hm | hm
    · refine ⟨lo + θ * (hi - lo), hi, fun c hc => ⟨?_, (K c hc).2⟩, by linarith⟩
      have a := H ((1 : ℝ) • s + (-lo) • x) (fun i hi => by
        have := (hs i hi).1
        simp only [Pi.add_apply, Pi.smul_apply, smul_eq_mul]; linarith) c hc
      rw [sub N _ _ _ c hc] at a
      have b := big (y := ((1 : ℝ) • s + (-lo) • x) 0) hc (by
        simp only [Pi.add_apply, Pi.smul_apply, smul_eq_mul]; linarith)
      linarith
    · refine ⟨lo, hi - θ * (hi - lo), fun c hc => ⟨(K c hc).1, ?_⟩, by linarith⟩
      have a := H ((-1 : ℝ) • s + hi • x) (fun i hi => by
        have := (hs i hi).2
        simp only [Pi.add_apply, Pi.smul_apply, smul_eq_mul]; linarith) c hc
      rw [sub N _ _ _ c hc] at a
      have b := big (y := ((-1 : ℝ) • s + hi • x) 0) hc (by
        simp only [Pi.add_apply, Pi.smul_apply, smul_eq_mul]; linarith)
      linarith
  have blocks : ∀ (q : ℕ) (lo hi : ℝ) (s : Int → ℝ), (∀ c, IsCell nx ny c → lo * x c ≤ s c ∧ s c ≤ hi * x c) →
      ∃ lo' hi' : ℝ, (∀ c, IsCell nx ny c → lo' * x c ≤ ((P ^ N) ^ q) s c ∧ ((P ^ N) ^ q) s c ≤ hi' * x c) ∧
        hi' - lo' ≤ (1 - θ) ^ q * (hi - lo) := by
    intro q
    induction q with
    | zero => exact fun lo hi s hs => ⟨lo, hi, by simpa using hs, by simp⟩
    | succ q ih =>
      intro lo hi s hs
      obtain ⟨lo1, hi1, b1, d1⟩ := block lo hi s hs
      obtain ⟨lo2, hi2, b2, d2⟩ := ih lo1 hi1 _ b1
      refine ⟨lo2, hi2, fun c hc => ?_, d2.trans ?_⟩
      · rw [pow_succ]; exact b2 c hc
      · rw [pow_succ, mul_assoc]
        exact mul_le_mul_of_nonneg_left d1 (pow_nonneg (by linarith) _)
  refine ⟨N, N0, θ, θ0, θ1, fun lo hi s hs n => ?_⟩
  obtain ⟨lo', hi', b, d⟩ := blocks (n / N) lo hi _ (keep (n % N) lo hi s hs)
  refine ⟨lo', hi', fun c hc => ?_, d⟩
  have e : (P ^ n) s = ((P ^ N) ^ (n / N)) ((P ^ (n % N)) s) := by
    rw [← Module.End.mul_apply, ← pow_mul, ← pow_add, Nat.div_add_mod]
  rw [e]
  exact b c hc

end

/-- A step of a stepper whose one-stage steps spread spreads. -/
theorem stab_spreads {nx ny : Int} {stp : Stepper} (hst : stp = .rk4 ∨ stp = .lsrk 1 ∨ stp = .lsrk 5)
    {L : Module.End ℝ (Int → ℝ)} {η : ℝ} (h0 : 0 < η) (h : Spreads nx ny (1 + L) η) :
    ∃ η' : ℝ, 0 < η' ∧ Spreads nx ny (aeval (boundSteps stp • L) (stabPoly stp)) η' := by
  obtain ⟨w, w0, -, hw, wp⟩ := stab_convex stp
  refine ⟨w 1 * η, mul_pos (wp hst) h0, fun s hs c hc => ?_⟩
  have e : boundSteps stp • L = aeval (1 + L) (C (boundSteps stp) * (X - 1)) := by
    simp [Algebra.smul_def]
  have e' : ∀ j, aeval (1 + L) (C (w j) * X ^ j) s = w j • ((1 + L) ^ j) s := fun j => by
    rw [map_mul, aeval_C, map_pow, aeval_X, Module.End.mul_apply, Module.algebraMap_end_apply]
  have low : w 1 * (1 + L) s c ≤ aeval (boundSteps stp • L) (stabPoly stp) s c := by
    rw [e, ← aeval_comp, hw, map_sum, LinearMap.sum_apply, Finset.sum_congr rfl fun j _ => e' j, Finset.sum_apply]
    have := Finset.single_le_sum (f := fun j => (w j • ((1 + L) ^ j) s) c) (s := Finset.range 6)
      (fun j _ => mul_nonneg (w0 j) (h.nonneg h0 hs j c hc)) (Finset.mem_range.mpr (show 1 < 6 by norm_num))
    simpa using this
  obtain ⟨a, b⟩ := h s hs c hc
  refine ⟨le_trans ?_ low, fun j j0 j6 => le_trans ?_ low⟩
  · rw [mul_assoc]; exact mul_le_mul_of_nonneg_left a (w0 1)
  · rw [mul_assoc]; exact mul_le_mul_of_nonneg_left (b j j0 j6) (w0 1)

variable {p : MeshParams} {dc : ℝ} {m : Mem ℝ}

/-- A one-stage step in a prescribed flow strictly below the limits. -/
theorem flow_spreads (g : Geo2 p.nx p.ny p.dims.nlayers dc m.mesh) (hcn : ConnOK p.dims m) (hy : 1 ≤ p.ny)
    (hev : p.ny % 2 = 0) {prm : Params ℝ} (h4 : prm.eddy_diff4 ≤ 0) {k : Int} (k0 : 0 ≤ k) (k1 : k < p.dims.nlayers) {V hlo hhi dt : ℝ}
    {x u : Int → ℝ} (hu : ∀ e, 0 ≤ e → e < p.dims.nedges → |u e| ≤ V) (hP : V * dc < 2 * prm.eddy_diff2) (hl : 0 < hlo)
    (hb : ∀ c, 0 ≤ c → c < p.dims.ncells → hlo ≤ x c ∧ x c ≤ hhi)
    (hdt : 0 < dt) (hcfl : 4 * dt * hhi * (prm.eddy_diff2 + V * dc / 2) < hlo * dc ^ 2) :
    ∃ η : ℝ, 0 < η ∧ Spreads p.nx p.ny (1 + dt • trOp m (SWModel.ofParams prm) x u) η := by
  have hdc := g.dc_pos
  set κ := prm.eddy_diff2 with hκ
  have z : IsCell p.nx p.ny 0 := ⟨le_rfl, by have := g.hnx; positivity⟩
  have hh : 0 < hhi := hl.trans_le ((hb 0 z.1 z.2).1.trans (hb 0 z.1 z.2).2)
  have κV : V / 2 < κ / dc := by rw [div_lt_div_iff₀ (by norm_num) hdc]; linarith
  set α := dt * (2 / (3 * dc)) * hlo * (κ / dc - V / 2) with hα
  set β := hlo - 4 * dt * hhi * (κ + V * dc / 2) / dc ^ 2 with hβ
  have α0 : 0 < α := by
    have : 0 < κ / dc - V / 2 := by linarith
    rw [hα]; positivity
  have β0 : 0 < β := by
    rw [hβ, sub_pos, div_lt_iff₀ (by positivity)]; exact hcfl
  refine ⟨min α β / hhi, div_pos (lt_min α0 β0) hh, fun s hs c hc => ?_⟩
  obtain ⟨c0, c1⟩ := hc
  have hc : IsCell p.nx p.ny c := ⟨c0, c1⟩
  change min α β / hhi * s c ≤ s c + dt * Spec.tracerTend m _ x u s c ∧
    ∀ j : Int, 0 ≤ j → j < 6 → min α β / hhi * s (nb p.nx p.ny j c) ≤ s c + dt * Spec.tracerTend m _ x u s c
  have a3 := tracer_nbrs g hcn h4 x u s k0 k1 hc
  set n : ℕ → Int := fun j => across p.nx p.ny c j with hn
  have nC : ∀ j : ℕ, IsCell p.nx p.ny (n j) := fun j => across_isCell g.hnx hc j
  have xpos : ∀ i, IsCell p.nx p.ny i → 0 < x i := fun i hi => hl.trans_le (hb i hi.1 hi.2).1
  set b : ℕ → ℝ := fun j => outSg j * u (E p.nx p.ny c j) with hbd
  have bV : ∀ j : ℕ, j < 6 → |b j| ≤ V := fun j hj => by
    have r := E_range g.hnx hc (j : Int) (by positivity) (by omega)
    rw [hbd]; simp only [abs_mul, outSg_abs, one_mul]
    exact hu _ r.1 r.2
  have V0 : 0 ≤ V := (abs_nonneg _).trans (bV 0 (by norm_num))
  have κ0 : 0 ≤ κ := by nlinarith
  rw [max_eq_left κ0] at a3
  set w : ℕ → ℝ := fun j => dt * (2 / (3 * dc)) * ((x c + x (n j)) / 2) * (κ / dc - b j / 2) with hw
  set w' : ℕ → ℝ := fun j => dt * (2 / (3 * dc)) * ((x c + x (n j)) / 2) * (κ / dc + b j / 2) with hw'
  have xm : ∀ j : ℕ, hlo ≤ (x c + x (n j)) / 2 ∧ (x c + x (n j)) / 2 ≤ hhi := fun j => by
    have := hb c c0 c1; have := hb _ (nC j).1 (nC j).2
    exact ⟨by linarith, by linarith⟩
  have w0 : ∀ j ∈ Finset.range 6, α ≤ w j := fun j hj => by
    have := abs_le.1 (bV j (Finset.mem_range.1 hj))
    rw [hw, hα]
    have h1 : 0 ≤ κ / dc - V / 2 := by linarith
    have h2 : 0 ≤ (x c + x (n j)) / 2 := hl.le.trans (xm j).1
    apply mul_le_mul _ _ h1 (by positivity)
    · exact mul_le_mul_of_nonneg_left (xm j).1 (by positivity)
    · linarith
  have w1 : ∀ j ∈ Finset.range 6, w' j ≤ dt * (2 / (3 * dc)) * hhi * (κ / dc + V / 2) := fun j hj => by
    have := abs_le.1 (bV j (Finset.mem_range.1 hj))
    rw [hw']
    have h1 : 0 ≤ κ / dc + b j / 2 := by linarith
    apply mul_le_mul _ _ h1 (by positivity)
    · exact mul_le_mul_of_nonneg_left (xm j).2 (by positivity)
    · linarith
  have ws : β ≤ x c - ∑ j ∈ Finset.range 6, w' j := by
    have := Finset.sum_le_card_nsmul _ _ _ w1
    rw [Finset.card_range, nsmul_eq_mul] at this
    have e : ((6 : ℕ) : ℝ) * (dt * (2 / (3 * dc)) * hhi * (κ / dc + V / 2)) =
        4 * dt * hhi * (κ + V * dc / 2) / dc ^ 2 := by
      push_cast; field_simp; ring
    rw [e] at this
    have := (hb c c0 c1).1
    rw [hβ]; linarith
  have E2 : s c + dt * Spec.tracerTend m (SWModel.ofParams prm) x u s c =
      (x c - ∑ j ∈ Finset.range 6, w' j) * (s c / x c) + ∑ j ∈ Finset.range 6, w j * (s (n j) / x (n j)) := by
    have e : s c = x c * (s c / x c) := by have := (xpos c hc).ne'; field_simp
    have : dt * Spec.tracerTend m (SWModel.ofParams prm) x u s c =
        ∑ j ∈ Finset.range 6, w j * (s (n j) / x (n j)) - (∑ j ∈ Finset.range 6, w' j) * (s c / x c) := by
      rw [a3, Finset.sum_mul, ← Finset.sum_sub_distrib, Finset.mul_sum, Finset.mul_sum]
      refine Finset.sum_congr rfl fun j _ => ?_
      simp only [hw, hw', hbd, hn]; ring
    rw [this, sub_mul, ← e]; ring
  have frac : ∀ {i : Int} {v : ℝ}, IsCell p.nx p.ny i → min α β ≤ v → min α β / hhi * s i ≤ v * (s i / x i) :=
    fun {i v} hi hv => by
      have si := hs i hi
      have mp : 0 < min α β := lt_min α0 β0
      rw [div_mul_eq_mul_div, mul_div_assoc]
      refine mul_le_mul hv ?_ (div_nonneg si hh.le) (mp.le.trans hv)
      exact div_le_div_of_nonneg_left si (xpos i hi) (hb i hi.1 hi.2).2
  have pos : ∀ j ∈ Finset.range 6, 0 ≤ w j * (s (n j) / x (n j)) := fun j hj =>
    mul_nonneg (α0.le.trans (w0 j hj)) (div_nonneg (hs _ (nC j)) (xpos _ (nC j)).le)
  have self := frac hc ((min_le_right _ _).trans ws)
  rw [E2]
  refine ⟨self.trans (le_add_of_nonneg_right (Finset.sum_nonneg pos)), fun j j0 j6 => ?_⟩
  lift j to ℕ using j0
  have jm : j ∈ Finset.range 6 := Finset.mem_range.mpr (by omega)
  rw [← across_nb g.hnx hev hc (by positivity) j6]
  refine ((frac (nC j) ((min_le_left _ _).trans (w0 j jm))).trans (Finset.single_le_sum pos jm)).trans
    (le_add_of_nonneg_left (mul_nonneg (β0.le.trans ws) (div_nonneg (hs c hc) (xpos c hc).le)))

/-- steps of equal length -/
theorem foldOp_pow (L : Module.End ℝ (Int → ℝ)) (stp : Stepper) {dt : ℝ} {S : List (ℝ × ℝ)} (hS : ∀ q ∈ S, q.2 = dt)
    (f : Int → ℝ) : foldOp L stp S f = (aeval (dt • L) (stabPoly stp) ^ S.length) f := by
  unfold foldOp
  induction S generalizing f with
  | nil => rfl
  | cons q S ih =>
    rw [List.foldl_cons, ih (fun q' hq' => hS q' (List.mem_cons_of_mem _ hq')), hS q List.mem_cons_self,
      List.length_cons, pow_succ, Module.End.mul_apply]

/-- Prescribed flow without divergence of mass, with a cell Peclet number below two: there are a number of steps `N` and
a fraction `θ` such that with every `N` further steps the difference of any concentration from the uniform concentration
with the same content gets the factor `1 - θ`, whatever the tracer and the length of the run. -/
theorem C128_flow_mixes (hv : RunValid p) (hx : 2 ≤ p.nx) (hy : 2 ≤ p.ny) (hev : p.ny % 2 = 0) (hdc : 0 < dc)
    {prm : Params ℝ} (hr : Ready p dc prm m) {k : Int} {V hlo hhi dt : ℝ} {stp : Stepper}
    (hst : stp = .rk4 ∨ stp = .lsrk 1 ∨ stp = .lsrk 5)
    (F : MixingFlow p dc prm m k V hlo hhi stp [(0, dt)]) (hP : V * dc < 2 * prm.eddy_diff2) (hdt : 0 < dt)
    (hcfl : 4 * dt * hhi * (prm.eddy_diff2 + V * dc / 2) < boundSteps stp * (hlo * dc ^ 2)) :
    ∃ N : ℕ, 0 < N ∧ ∃ θ : ℝ, 0 < θ ∧ θ ≤ 1 ∧ ∀ (l : Int) (sched : List (ℝ × ℝ)) (split : Bool) (m1 : Mem ℝ),
      0 ≤ l → l < p.dims.ntracers → (∀ q ∈ sched, q.2 = dt) →
      Exec p.dims (stp.ctor p.dims ++ stp.run p.dims ⟨defaultKernels p.dims.vl, split⟩
        (SWModel.ofParams prm) sched) m m1 →
      ∀ lo hi : ℝ, (∀ c, 0 ≤ c → c < p.dims.ncells →
        lo ≤ m.real (.tr_cell .state) l c k / m.real (.h_cell .state) 0 c k ∧
        m.real (.tr_cell .state) l c k / m.real (.h_cell .state) 0 c k ≤ hi) →
      ∀ c, 0 ≤ c → c < p.dims.ncells →
        |m1.real (.tr_cell .state) l c k / m1.real (.h_cell .state) 0 c k -
          (∑ c ∈ Spec.cells p.dims, Spec.areaC m c * m.real (.tr_cell .state) l c k) /
            ∑ c ∈ Spec.cells p.dims, Spec.areaC m c * m.real (.h_cell .state) 0 c k| ≤
          (1 - θ) ^ (sched.length / N) * (hi - lo) := by
  obtain ⟨hd, hcn⟩ := ready_ok hv hr
  have g := Ready.geo2 hr hv.toValid hx hy hdc
  have rp := boundSteps_pos stp
  set x := fun i => m.real (.h_cell .state) 0 i k with hxd
  set u := fun i => m.real (.vn_edge .state) 0 i k with hud
  set L := trOp m (SWModel.ofParams prm) x u with hL
  have xp : ∀ c, 0 ≤ c → c < p.dims.ncells → 0 < x c := fun c c0 c1 => F.pos.trans_le (F.thickness c c0 c1).1
  obtain ⟨η, η0, hη⟩ := flow_spreads g hcn (by omega) hev F.no_hyper F.layer.1 F.layer.2 F.speed hP F.pos F.thickness
    (div_pos hdt rp) (by
      rw [show 4 * (dt / boundSteps stp) * hhi * (prm.eddy_diff2 + V * dc / 2) =
        4 * dt * hhi * (prm.eddy_diff2 + V * dc / 2) / boundSteps stp by ring, div_lt_iff₀ rp]
      linarith)
  obtain ⟨η', η1, hη'⟩ := stab_spreads hst η0 hη
  rw [smul_smul, mul_div_cancel₀ _ rp.ne', ← hL] at hη'
  set P := aeval (dt • L) (stabPoly stp) with hPd
  have one : ∀ {K : Set (Int → ℝ)}, Convex ℝ K → (∀ dt, OneStep p dc prm m x u dt → ∀ f ∈ K, f + dt • L f ∈ K) →
      ∀ n : ℕ, ∀ f ∈ K, (P ^ n) f ∈ K := by
    intro K hK hs n
    induction n with
    | zero => exact fun f hf => hf
    | succ n ih =>
      intro f hf
      rw [pow_succ, Module.End.mul_apply]
      exact ih _ (F.keeps g hcn hK hs hf)
  have hPx : ∀ n : ℕ, ∀ c, IsCell p.nx p.ny c → (P ^ n) x c = x c := by
    intro n
    have := one (K := {f | ∀ c, IsCell p.nx p.ny c → f c = x c})
      (fun f hf f' hf' a b _ _ ab c hc => by
        simp only [Pi.add_apply, Pi.smul_apply, smul_eq_mul, hf c hc, hf' c hc, ← add_mul, ab, one_mul])
      (fun dt H f hf c hc => by
        have := H.keeps (lo := 1) (hi := 1) (s := f) (fun i i0 i1 => by rw [hf i ⟨i0, i1⟩]; simp) c hc.1 hc.2
        exact le_antisymm (by simpa using this.2) (by simpa using this.1)) n x (fun _ _ => rfl)
    exact this
  have cons : ∀ (n : ℕ) (f : Int → ℝ), ∑ c ∈ Spec.cells p.dims, Spec.areaC m c * (P ^ n) f c =
      ∑ c ∈ Spec.cells p.dims, Spec.areaC m c * f c := by
    intro n f
    refine one (K := {f' | ∑ c ∈ Spec.cells p.dims, Spec.areaC m c * f' c =
      ∑ c ∈ Spec.cells p.dims, Spec.areaC m c * f c}) ?_ ?_ n f rfl
    · intro f1 h1 f2 h2 a b _ _ ab
      simp only [Set.mem_ofPred_eq, Pi.add_apply, Pi.smul_apply, smul_eq_mul, mul_add, Finset.sum_add_distrib,
        mul_left_comm _ a, mul_left_comm _ b, ← Finset.mul_sum] at h1 h2 ⊢
      rw [h1, h2, ← add_mul, ab, one_mul]
    · intro dt _ f1 h1
      have := sum_tracer g (SWModel.ofParams prm) x u f1
      simp only [Set.mem_ofPred_eq, Pi.add_apply, Pi.smul_apply, smul_eq_mul, mul_add, Finset.sum_add_distrib,
        mul_left_comm _ dt, ← Finset.mul_sum] at h1 ⊢
      rw [h1, show ∑ i ∈ Spec.cells p.dims, Spec.areaC m i * L f1 i = 0 from this, mul_zero, add_zero]
  obtain ⟨N, N0, θ, θ0, θ1, H⟩ := hη'.contract η1 g.hnx (by omega) hev F.pos (fun c hc => F.thickness c hc.1 hc.2) hPx
  refine ⟨N, N0, θ, θ0, θ1, fun l sched split m1 l0 l1 hsd he lo hi hq c c0 c1 => ?_⟩
  obtain ⟨r1, -, r3⟩ := frozen_exec (sw := SWModel.ofParams prm) F.frozen_h F.frozen_vn hd hcn (noHook_ofParams prm) he
  obtain ⟨lo', hi', b, d⟩ := H lo hi (fun i => m.real (.tr_cell .state) l i k) (fun i hi' => by
    have := hq i hi'.1 hi'.2
    rw [le_div_iff₀ (xp i hi'.1 hi'.2), div_le_iff₀ (xp i hi'.1 hi'.2)] at this
    exact this) sched.length
  have val : m1.real (.tr_cell .state) l c k = (P ^ sched.length) (fun i => m.real (.tr_cell .state) l i k) c := by
    rw [r3 l c k l0 l1 c0 c1 F.layer.1 F.layer.2, ← foldOp_pow L stp hsd]; rfl
  have ar : ∀ i ∈ Spec.cells p.dims, 0 < Spec.areaC m i := fun i hi =>
    areaC_pos g.toGeo (Finset.mem_Ico.1 hi).1 (Finset.mem_Ico.1 hi).2
  have M0 : 0 < ∑ c ∈ Spec.cells p.dims, Spec.areaC m c * x c :=
    Finset.sum_pos (fun i hi => mul_pos (ar i hi) (xp i (Finset.mem_Ico.1 hi).1 (Finset.mem_Ico.1 hi).2))
      ⟨c, Finset.mem_Ico.mpr ⟨c0, c1⟩⟩
  have tot := cons sched.length (fun i => m.real (.tr_cell .state) l i k)
  have m0 : lo' ≤ (∑ c ∈ Spec.cells p.dims, Spec.areaC m c * m.real (.tr_cell .state) l c k) /
      ∑ c ∈ Spec.cells p.dims, Spec.areaC m c * x c := by
    rw [le_div_iff₀ M0, ← tot, Finset.mul_sum]
    refine Finset.sum_le_sum fun i hi => ?_
    rw [mul_left_comm]
    exact mul_le_mul_of_nonneg_left (b i (Finset.mem_Ico.1 hi)).1 (ar i hi).le
  have m2 : (∑ c ∈ Spec.cells p.dims, Spec.areaC m c * m.real (.tr_cell .state) l c k) /
      ∑ c ∈ Spec.cells p.dims, Spec.areaC m c * x c ≤ hi' := by
    rw [div_le_iff₀ M0, ← tot, Finset.mul_sum]
    refine Finset.sum_le_sum fun i hi => ?_
    rw [mul_left_comm]
    exact mul_le_mul_of_nonneg_left (b i (Finset.mem_Ico.1 hi)).2 (ar i hi).le
  have bc := b c ⟨c0, c1⟩
  rw [← val, ← le_div_iff₀ (xp c c0 c1), ← div_le_iff₀ (xp c c0 c1)] at bc
  rw [r1 c k c0 c1 F.layer.1 F.layer.2]
  exact (abs_sub_le_iff.2 ⟨by linarith [bc.2], by linarith [bc.1]⟩).trans d

/-- Hence a tracer is mixed completely: after enough steps its concentration is in every cell as close as desired to the
uniform concentration with the same content. -/
theorem C128_limit (hv : RunValid p) (hx : 2 ≤ p.nx) (hy : 2 ≤ p.ny) (hev : p.ny % 2 = 0) (hdc : 0 < dc)
    {prm : Params ℝ} (hr : Ready p dc prm m) {k : Int} {V hlo hhi dt : ℝ} {stp : Stepper}
    (hst : stp = .rk4 ∨ stp = .lsrk 1 ∨ stp = .lsrk 5)
    (F : MixingFlow p dc prm m k V hlo hhi stp [(0, dt)]) (hP : V * dc < 2 * prm.eddy_diff2) (hdt : 0 < dt)
    (hcfl : 4 * dt * hhi * (prm.eddy_diff2 + V * dc / 2) < boundSteps stp * (hlo * dc ^ 2))
    {l : Int} (l0 : 0 ≤ l) (l1 : l < p.dims.ntracers) {ε : ℝ} (hε : 0 < ε) :
    ∃ M : ℕ, ∀ (sched : List (ℝ × ℝ)) (split : Bool) (m1 : Mem ℝ), M ≤ sched.length → (∀ q ∈ sched, q.2 = dt) →
      Exec p.dims (stp.ctor p.dims ++ stp.run p.dims ⟨defaultKernels p.dims.vl, split⟩
        (SWModel.ofParams prm) sched) m m1 →
      ∀ c, 0 ≤ c → c < p.dims.ncells →
        |m1.real (.tr_cell .state) l c k / m1.real (.h_cell .state) 0 c k -
          (∑ c ∈ Spec.cells p.dims, Spec.areaC m c * m.real (.tr_cell .state) l c k) /
            ∑ c ∈ Spec.cells p.dims, Spec.areaC m c * m.real (.h_cell .state) 0 c k| < ε := by
  obtain ⟨N, N0, θ, θ0, θ1, H⟩ := C128_flow_mixes hv hx hy hev hdc hr hst F hP hdt hcfl
  set D := ∑ i ∈ Spec.cells p.dims, |m.real (.tr_cell .state) l i k / m.real (.h_cell .state) 0 i k| with hD
  have t := (tendsto_pow_atTop_nhds_zero_of_lt_one (show 0 ≤ 1 - θ by linarith) (by linarith)).mul_const (D - -D)
  rw [zero_mul] at t
  obtain ⟨q, hq⟩ := Filter.eventually_atTop.1 (t.eventually_lt_const hε)
  refine ⟨N * q, fun sched split m1 hM hs he c c0 c1 => ?_⟩
  refine (H l sched split m1 l0 l1 hs he (-D) D (fun i i0 i1 => ?_) c c0 c1).trans_lt
    (hq _ ((Nat.le_div_iff_mul_le N0).2 (by rwa [mul_comm])))
  exact abs_le.1 (Finset.single_le_sum
    (f := fun i => |m.real (.tr_cell .state) l i k / m.real (.h_cell .state) 0 i k|) (fun _ _ => abs_nonneg _)
    (Finset.mem_Ico.mpr ⟨i0, i1⟩ : i ∈ Spec.cells p.dims))

/-- A spot in a uniform flow at cell Peclet number one, for every supported stepper. -/
example (f0 g : ℝ) (stp : Stepper) (hst : stp = .rk4 ∨ stp = .lsrk 1 ∨ stp = .lsrk 5) (split : Bool) {ε : ℝ}
    (hε : 0 < ε) : ∃ m : Mem ℝ, Ready p46t 1 ⟨f0, g, 0, 0, 1, 0, true, true⟩ m ∧
    (∀ c k, m.real (.vn_edge .state) 0 c k = 1) ∧
    (∀ c, m.real (.tr_cell .state) 0 c 0 = if c = 3 then 2 else 0) ∧
    ∃ M : ℕ, ∃ m1, Exec p46t.dims (stp.ctor p46t.dims ++ stp.run p46t.dims
      ⟨defaultKernels p46t.dims.vl, split⟩ (SWModel.ofParams ⟨f0, g, 0, 0, 1, 0, true, true⟩)
      (List.replicate M (0, 1 / 8))) m m1 ∧
    ∀ c, 0 ≤ c → c < p46t.dims.ncells → |m1.real (.tr_cell .state) 0 c 0 / m1.real (.h_cell .state) 0 c 0 -
      (∑ c ∈ Spec.cells p46t.dims, Spec.areaC m c * m.real (.tr_cell .state) 0 c 0) /
        ∑ c ∈ Spec.cells p46t.dims, Spec.areaC m c * m.real (.h_cell .state) 0 c 0| < ε := by
  obtain ⟨m, hr, hx, -⟩ := exists_ready p46t_run.toValid (1 : ℝ) ⟨f0, g, 0, 0, 1, 0, true, true⟩
    ⟨fun _ _ => 1, fun _ _ => 1, fun _ c _ => if c = 3 then 2 else 0⟩ zeroFld
  have H : ∀ c k, m.real (.h_cell .state) 0 c k = 1 := fun c k => congrFun (congrFun (congrArg Fld.h hx) c) k
  have U : ∀ c k, m.real (.vn_edge .state) 0 c k = 1 := fun c k => congrFun (congrFun (congrArg Fld.vn hx) c) k
  have T : ∀ c k, m.real (.tr_cell .state) 0 c k = if c = 3 then 2 else 0 := fun c k =>
    congrFun (congrFun (congrFun (congrArg Fld.tr hx) 0) c) k
  have gg := Ready.geo2 hr p46t_run.toValid (by decide) (by decide) one_pos
  have b1 : 1 ≤ boundSteps stp := by
    cases stp with
    | rk4 => simp [boundSteps]
    | lsrk n => simp only [boundSteps]; split_ifs <;> norm_num
  have F : MixingFlow p46t 1 ⟨f0, g, 0, 0, 1, 0, true, true⟩ m 0 1 1 1 stp [(0, 1 / 8)] := by
    refine ⟨rfl, rfl, le_rfl, ⟨le_rfl, p46t_layers⟩, fun e _ _ => by rw [U]; norm_num, by norm_num, one_pos,
      fun c _ _ => by rw [H]; exact ⟨le_rfl, le_rfl⟩, fun c c0 c1 => ?_, fun q hq => ?_⟩
    · rw [show (fun e => Spec.mean m (fun i => m.real (.h_cell .state) 0 i 0) e * m.real (.vn_edge .state) 0 e 0) =
        fun _ => 1 from funext fun e => by simp only [Spec.mean, H, U]; norm_num, spec_div gg _ ⟨c0, c1⟩, Dv_sum]
      simp [Finset.sum_range_succ, outSg]
    · simp only [List.mem_cons, List.not_mem_nil, or_false] at hq
      subst hq
      norm_num; linarith
  obtain ⟨M, hM⟩ := C128_limit p46t_run (by decide) (by decide) (by decide) one_pos hr hst F (by norm_num) (by norm_num)
    (by norm_num; linarith) (l := 0) le_rfl (by decide) hε
  obtain ⟨m1, he⟩ := run_exists p46t_run hr stp (List.replicate M (0, 1 / 8)) split
  exact ⟨m, hr, U, fun c => T c 0, M, m1, he, hM _ split m1 (by simp) (fun q hq => by rw [(List.mem_replicate.1 hq).2]) he⟩

end Props
end
end Omega
