import Verif.Props.ConsistencyEdge

/-!
# C71, the potential vorticity flux
-/

set_option linter.unusedVariables false
set_option linter.unusedSectionVars false

namespace Omega
namespace Jets
variable {ι κ : Type*}

/-- dividing an odd pair by the spacing -/
theorem J3.odd_div {δ : Spacing ι} {f g c0 c1 : ι → ℝ} (h : J3 δ f g c0 c1) (h0 : ∀ i, c0 i = 0) :
    ∃ d1, J2 δ (fun i => f i / δ.val i) (fun i => -(g i / δ.val i)) c1 d1 := by
  obtain ⟨b0, b1, c2, r, s, b2, br, bs, hf, hg⟩ := h
  refine ⟨c2, b1, b2, r, s, br, bs, fun i => ?_, fun i => ?_⟩
  · have := (δ.pos i).ne'
    beta_reduce; rw [hf, h0]; field_simp; ring
  · have := (δ.pos i).ne'
    beta_reduce; rw [hg, h0]; field_simp; ring

theorem Ord.comp {δ : Spacing ι} {δ' : Spacing κ} {n : ℕ} {f : ι → ℝ} (h : Ord δ n f) (k : κ → ι)
    (hk : ∀ i, δ.val (k i) = δ'.val i) : Ord δ' n (fun i => f (k i)) := by
  obtain ⟨K, k0, hK⟩ := h
  exact ⟨K, k0, fun i => by rw [← hk]; exact hK _⟩

end Jets

noncomputable section
namespace Props

open Prog Model Refine Hex Taylor Jets

variable {P Q D : ℝ} {T : MeshParams → ℝ → Type}

theorem fderiv_normF {U W : ℝ × ℝ → ℝ} (hU : Differentiable ℝ U) (hW : Differentiable ℝ W) (a : Int)
    (z v : ℝ × ℝ) : fderiv ℝ (normF U W a) z v =
      -((dir a).1 * fderiv ℝ U z v + (dir a).2 * fderiv ℝ W z v) := by
  have h := (((hU z).hasFDerivAt.const_mul (dir a).1).add ((hW z).hasFDerivAt.const_mul (dir a).2)).neg
  have : fderiv ℝ (normF U W a) z = _ := h.fderiv
  rw [this]
  simp

theorem kite_norm (i : EdgeIx D T) {s : Int} (hs : s = 0 ∨ s = 1 ∨ s = 2) :
    ‖kiteV s - spokeV i.a‖ ≤ 3 := by
  have h1 : ‖kiteV s‖ ≤ 2 := by
    have a := norm_spokeV (a := 0) (by simp)
    have b := norm_spokeV (a := 2) (by simp)
    have c := norm_dir1 (j := 0) (by omega) (by omega)
    have d := norm_dir1 (j := 2) (by omega) (by omega)
    have hh : ∀ w : ℝ × ℝ, ‖(1 / 2 : ℝ) • w‖ = ‖w‖ / 2 := fun w => by rw [norm_smul]; norm_num; ring
    rcases hs with rfl | rfl | rfl
    · have := norm_sub_le (spokeV 0) ((1 / 2 : ℝ) • dir 0)
      rw [hh] at this
      show ‖spokeV 0 - (1 / 2 : ℝ) • dir 0‖ ≤ 2
      linarith
    · have := norm_sub_le (spokeV 2) ((1 / 2 : ℝ) • dir 2)
      rw [hh] at this
      show ‖spokeV 2 - (1 / 2 : ℝ) • dir 2‖ ≤ 2
      linarith
    · have := norm_add_le (spokeV 0) ((1 / 2 : ℝ) • dir 0)
      rw [hh] at this
      show ‖spokeV 0 + (1 / 2 : ℝ) • dir 0‖ ≤ 2
      linarith
  have h2 := norm_spokeV i.a_cases
  have := norm_sub_le (kiteV s) (spokeV i.a)
  linarith

/-- The potential vorticity averaged to the edges is second-order accurate. -/
theorem pv_order (f0 : ℝ) {H U W : MeshOf D T → ℝ × ℝ → ℝ} (hH : Smooth 3 H) (hU : Smooth 3 U)
    (hW : Smooth 3 W) {η : ℝ} (e0 : 0 < η) (hη : ∀ M z, η ≤ H M z) :
    Ord (dcE : Spacing (EdgeIx D T)) 2 (fun i => Spec.vmean i.m (fun v =>
        (Spec.curl i.m (normalOf i.m (U i.M) (W i.M)) v + f0) / Spec.kiteMean i.m (fun c => H i.M (cellAt i.m c)) v) i.e -
      (curlAt (U i.M) (W i.M) i.x + f0) / H i.M i.x) := by
  have t : ∀ j : Int, j = 0 ∨ j = 1 ∨ j = 2 → J3 (dcE : Spacing (EdgeIx D T))
      (fun i => normF (U i.M) (W i.M) j (i.x + i.dc • (spokeV j - spokeV i.a)))
      (fun i => normF (U i.M) (W i.M) j (i.x - i.dc • (spokeV j - spokeV i.a)))
      (fun i => normF (U i.M) (W i.M) j i.x)
      (fun i => fderiv ℝ (normF (U i.M) (W i.M) j) i.x (spokeV j - spokeV i.a)) := by
    intro j hj
    refine J3.taylor (dcE : Spacing (EdgeIx D T)) (smooth_normF hU hW j).edges (fun i => i.x)
      (fun i => spokeV j - spokeV i.a) (c := 2) (fun i => ?_)
    have a := norm_spokeV hj
    have b := norm_spokeV i.a_cases
    have := norm_sub_le (spokeV j) (spokeV i.a)
    linarith
  have k : ∀ s : Int, s = 0 ∨ s = 1 ∨ s = 2 → J2 (dcE : Spacing (EdgeIx D T))
      (fun i => H i.M (i.x + i.dc • (kiteV s - spokeV i.a)))
      (fun i => H i.M (i.x - i.dc • (kiteV s - spokeV i.a))) (fun i => H i.M i.x)
      (fun i => fderiv ℝ (H i.M) i.x (kiteV s - spokeV i.a)) := fun s hs =>
    (J3.taylor (dcE : Spacing (EdgeIx D T)) hH.edges (fun i => i.x)
      (fun i => kiteV s - spokeV i.a) (c := 3) (fun i => kite_norm i hs)).toJ2
  have N := ((t 0 (by simp)).add (t 2 (by simp))).add ((t 1 (by simp)).smul (fun _ => -1) (Bdd.const _))
  obtain ⟨d1, N⟩ := N.odd_div (fun i => by
    unfold normF dir
    norm_num [DX, DY]
    ring)
  have N := (N.smul (fun _ => 4 / √3) (Bdd.const _)).add (J2.const (fun _ => f0) (Bdd.const _))
  have D := (((k 0 (by simp)).add (k 1 (by simp))).add (k 2 (by simp))).smul (fun _ => 1 / 3) (Bdd.const _)
  have q := (N.div D e0 (fun i => by have := hη i.M i.x; linarith)
    (fun i => by
      have a := hη i.M (i.x + i.dc • (kiteV 0 - spokeV i.a))
      have b := hη i.M (i.x + i.dc • (kiteV 1 - spokeV i.a))
      have c := hη i.M (i.x + i.dc • (kiteV 2 - spokeV i.a))
      linarith)
    (fun i => by
      have a := hη i.M (i.x - i.dc • (kiteV 0 - spokeV i.a))
      have b := hη i.M (i.x - i.dc • (kiteV 1 - spokeV i.a))
      have c := hη i.M (i.x - i.dc • (kiteV 2 - spokeV i.a))
      linarith)).mean
  refine q.congr fun i => ?_
  have hd : (dcE.val i : ℝ) = i.dc := rfl
  rw [vmean_edge i.toMeshOf (fun σ => per_pvF i.dc f0 (hH.per i.M) (hU.per i.M) (hW.per i.M) σ)
    (fun v h0 h1 => pv_vertex i.toMeshOf f0 (hH.per i.M) (hU.per i.M) (hW.per i.M) h0 h1) i.lo i.hi]
  show (pvF i.dc f0 (H i.M) (U i.M) (W i.M) 1 (i.x - i.dc • spokeV i.a) + pvF i.dc f0 (H i.M) (U i.M) (W i.M) (-1) (i.x + i.dc • spokeV i.a)) / 2
    - _ = _
  have hw := w_pos
  have hs : √3 ^ 2 = 3 := Real.sq_sqrt (by norm_num)
  have hi := i.pos
  congr 1
  · congr 1
    unfold pvF
    have a1 : ∀ w, i.x - i.dc • spokeV i.a + (1 * i.dc) • w = i.x + i.dc • (w - spokeV i.a) := fun w => by
      rw [one_mul, smul_sub]; abel
    have a2 : ∀ w, i.x + i.dc • spokeV i.a + (-1 * i.dc) • w = i.x - i.dc • (w - spokeV i.a) := fun w => by
      rw [neg_one_mul, neg_smul, smul_sub]; abel
    simp only [a1, a2]
    congr 1
    · congr 1
      · rw [hd]; field_simp; ring
      · ring
    · congr 1
      · rw [hd]; field_simp; ring
      · ring
  · congr 1
    · congr 1
      simp only [fderiv_normF (hU.diff (by omega) i.M) (hW.diff (by omega) i.M)]
      unfold curlAt
      have hL : ∀ (f : ℝ × ℝ →L[ℝ] ℝ) (v : ℝ × ℝ), f v = v.1 * f (1, 0) + v.2 * f (0, 1) :=
        fun f v => lin_pt f v.1 v.2
      rw [hL (fderiv ℝ (U i.M) i.x) (spokeV 0 - _), hL (fderiv ℝ (U i.M) i.x) (spokeV 2 - _),
        hL (fderiv ℝ (U i.M) i.x) (spokeV 1 - _), hL (fderiv ℝ (W i.M) i.x) (spokeV 0 - _),
        hL (fderiv ℝ (W i.M) i.x) (spokeV 2 - _), hL (fderiv ℝ (W i.M) i.x) (spokeV 1 - _)]
      generalize spokeV i.a = w
      unfold spokeV dir
      norm_num [DX, DY]
      field_simp
      ring_nf
      simp only [show √3 ^ 3 = √3 ^ 2 * √3 by ring, hs]
      ring
    · ring

theorem smooth_curl {n : ℕ} {U W : MeshOf D T → ℝ × ℝ → ℝ} (hU : Smooth (n + 1) U) (hW : Smooth (n + 1) W) :
    Smooth n (fun M => curlAt (U M) (W M)) := by
  have c := (hW.fderiv (1, 0)).add ((hU.fderiv (0, 1)).cmul (-1))
  have e : (fun M z => fderiv ℝ (W M) z (1, 0) + -1 * fderiv ℝ (U M) z (0, 1)) =
      fun M => curlAt (U M) (W M) := by
    funext M z; unfold curlAt; ring
  rwa [e] at c

/-- Means of a cell function on edges. -/
theorem mean_order {H : MeshOf D T → ℝ × ℝ → ℝ} (hH : Smooth 3 H) :
    Ord (dcE : Spacing (EdgeIx D T)) 2 (fun i => Spec.mean i.m (fun c => H i.M (cellAt i.m c)) i.e - H i.M i.x) := by
  have t := (J3.taylor (dcE : Spacing (EdgeIx D T)) hH.edges
    (fun i => i.x) (fun i => (1 / 2 : ℝ) • dir i.a) (c := 1) (fun i => by
      have := i.norm_dir
      rw [norm_smul]; norm_num; linarith)).toJ2.mean
  refine t.congr fun i => ?_
  rw [mean_edge i.toMeshOf (hH.per i.M) i.lo i.hi]
  show meanF i.dc (H i.M) i.a i.x - _ = (H i.M (i.x + i.dc • (1 / 2 : ℝ) • dir i.a) +
    H i.M (i.x - i.dc • (1 / 2 : ℝ) • dir i.a)) / 2 - _
  unfold meanF
  simp only [smul_smul, mul_one_div]

/-- Reconstructed tangential components. -/
theorem tang_order {U W : MeshOf D T → ℝ × ℝ → ℝ} (hU : Smooth 2 U) (hW : Smooth 2 W) :
    Ord (dcE : Spacing (EdgeIx D T)) 2 (fun i => Spec.tang i.m (normalOf i.m (U i.M) (W i.M)) i.e -
      tangentOf i.m (U i.M) (W i.M) i.e) := by
  obtain ⟨B, b0, hB⟩ := hU.bound
  obtain ⟨B', b0', hB'⟩ := hW.bound
  refine ⟨√3 / 2 * (B + B'), by positivity, fun i => ?_⟩
  exact C57_reconstruction_second_order i.valid i.even i.pos i.built
    ⟨hU.smooth i.M, hU.per i.M, fun z => (hB i.M 2 le_rfl z).trans (by linarith)⟩
    ⟨hW.smooth i.M, hW.per i.M, fun z => (hB' i.M 2 le_rfl z).trans (by linarith)⟩ i.e i.lo i.hi

/-- discrete potential vorticity on the edges -/
def qM (f0 : ℝ) (H U W : ℝ × ℝ → ℝ) (m : Mem ℝ) : Int → ℝ := Spec.vmean m (fun v =>
  (Spec.curl m (normalOf m U W) v + f0) / Spec.kiteMean m (fun c => H (cellAt m c)) v)

/-- neighbour of an edge -/
def nbrE (s : ℕ) (hs : s < 10) (i : EdgeIx D T) : EdgeIx D T :=
  { i with
    e := eoe i.p.nx i.p.ny i.e s
    lo := (eoe_range i.valid.nx_pos i.lo i.hi (by omega) (by exact_mod_cast hs)).1
    hi := (eoe_range i.valid.nx_pos i.lo i.hi (by omega) (by exact_mod_cast hs)).2 }

theorem wRaw_le (j t : Int) : |(wRaw j t : ℝ)| ≤ 1 := by
  unfold wRaw
  split_ifs <;> norm_num

theorem pvFlux_congr (M : MeshOf D T) {q q' F F' : Int → ℝ}
    (h : ∀ e, 0 ≤ e → e < M.p.dims.nedges → q e = q' e)
    (h' : ∀ e, 0 ≤ e → e < M.p.dims.nedges → F e = F' e) {e : Int} (h0 : 0 ≤ e)
    (h1 : e < M.p.dims.nedges) : Spec.pvFlux M.m q F e = Spec.pvFlux M.m q' F' e := by
  rw [spec_pvFlux M.geo q F h0 h1, spec_pvFlux M.geo q' F' h0 h1]
  congr 1
  refine Tw_congr M.valid.nx_pos h0 h1 fun e' a b => ?_
  rw [h e h0 h1, h e' a b, h' e' a b]

theorem bdd_normal {U W : EdgeIx D T → ℝ} (hU : Bdd U) (hW : Bdd W) :
    Bdd (fun i : EdgeIx D T => (normal i.m i.e).1 * U i + (normal i.m i.e).2 * W i) ∧
    Bdd (fun i : EdgeIx D T => -(normal i.m i.e).2 * U i + (normal i.m i.e).1 * W i) := by
  have h : ∀ i : EdgeIx D T, ‖normal i.m i.e‖ ≤ 1 := fun i => by
    rw [normal_eq i.valid i.built i.lo i.hi, norm_neg]; exact i.norm_dir
  have a : Bdd (fun i : EdgeIx D T => (normal i.m i.e).1) :=
    ⟨1, zero_le_one, fun i => (norm_fst_le (normal i.m i.e)).trans (h i)⟩
  have b : Bdd (fun i : EdgeIx D T => (normal i.m i.e).2) :=
    ⟨1, zero_le_one, fun i => (norm_snd_le (normal i.m i.e)).trans (h i)⟩
  constructor <;> bdd

/-- The flux of potential vorticity. -/
theorem pvflux_order (f0 : ℝ) {H U W : MeshOf D T → ℝ × ℝ → ℝ} (hH : Smooth 3 H) (hU : Smooth 3 U)
    (hW : Smooth 3 W) {η : ℝ} (e0 : 0 < η) (hη : ∀ M z, η ≤ H M z) :
    Ord (dcE : Spacing (EdgeIx D T)) 2 (fun i =>
      Spec.pvFlux i.m (qM f0 (H i.M) (U i.M) (W i.M) i.m) (fun e => Spec.mean i.m (fun c => H i.M (cellAt i.m c)) e *
        normalOf i.m (U i.M) (W i.M) e) i.e -
      tangentOf i.m (fun z => (curlAt (U i.M) (W i.M) z + f0) * U i.M z) (fun z => (curlAt (U i.M) (W i.M) z + f0) * W i.M z) i.e) := by
  have bv : ∀ {φ : MeshOf D T → ℝ × ℝ → ℝ} {n : ℕ}, Smooth n φ → Bdd (fun i : EdgeIx D T => φ i.M i.x) :=
    fun h => bdd_val h.edges _
  have hA : Smooth 2 (fun M z => curlAt (U M) (W M) z + f0) :=
    (smooth_curl hU hW).add (Smooth.const f0)
  set A : MeshOf D T → ℝ × ℝ → ℝ := fun M z => curlAt (U M) (W M) z + f0 with hAd
  -- exact counterparts
  set Ft : MeshOf D T → Int → ℝ := fun M e => H M (edgeAt M.m e) * normalOf M.m (U M) (W M) e with hFt
  set qt : MeshOf D T → Int → ℝ := fun M e => A M (edgeAt M.m e) / H M (edgeAt M.m e) with hqt
  have bN : Bdd (fun i : EdgeIx D T => normalOf i.m (U i.M) (W i.M) i.e) := (bdd_normal (bv hU) (bv hW)).1
  have bF : Bdd (fun i : EdgeIx D T => Ft i.M i.e) := (bv hH).mul bN
  have bq : Bdd (fun i : EdgeIx D T => qt i.M i.e) := by
    have := (bv hA).mul (Bdd.inv e0 fun i : EdgeIx D T => hη i.M i.x)
    simpa only [hqt, div_eq_mul_inv, EdgeIx.x] using this
  have oF : Ord (dcE : Spacing (EdgeIx D T)) 2 (fun i =>
      Spec.mean i.m (fun c => H i.M (cellAt i.m c)) i.e * normalOf i.m (U i.M) (W i.M) i.e - Ft i.M i.e) :=
    ((mean_order hH).mulb bN).congr fun i => by simp only [hFt, EdgeIx.x]; ring
  have oq : Ord (dcE : Spacing (EdgeIx D T)) 2 (fun i => qM f0 (H i.M) (U i.M) (W i.M) i.m i.e - qt i.M i.e) :=
    pv_order f0 hH hU hW e0 hη
  have term : ∀ s ∈ Finset.range 10, Ord (dcE : Spacing (EdgeIx D T)) 2 (fun i =>
      wRaw (i.e % 3) ((s : ℤ) % 5) *
      ((Spec.mean i.m (fun c => H i.M (cellAt i.m c)) (eoe i.p.nx i.p.ny i.e s) *
        normalOf i.m (U i.M) (W i.M) (eoe i.p.nx i.p.ny i.e s)) *
          ((qM f0 (H i.M) (U i.M) (W i.M) i.m i.e + qM f0 (H i.M) (U i.M) (W i.M) i.m (eoe i.p.nx i.p.ny i.e s)) / 2) -
        Ft i.M (eoe i.p.nx i.p.ny i.e s) *
          ((qt i.M i.e + qt i.M (eoe i.p.nx i.p.ny i.e s)) / 2))) := by
    intro s hs
    have hs : s < 10 := Finset.mem_range.1 hs
    refine Ord.bmul ⟨1, zero_le_one, fun i => wRaw_le _ _⟩ ?_
    refine Ord.mul_sub (oF.comp (δ' := dcE) (nbrE s hs) fun _ => rfl) ?_ (bF.comp (nbrE s hs))
      ((bq.add (bq.comp (nbrE s hs))).div_const 2)
    refine ((oq.add (oq.comp (δ' := dcE) (nbrE s hs) fun _ => rfl)).cmul (1 / 2)).congr fun i => ?_
    simp only [nbrE]
    ring
  have S := (Ord.sum term).cmul (1 / √3)
  have T1 := (tang_order ((hH.mono (by omega : 2 ≤ 3)).mul (hU.mono (by omega)))
    ((hH.mono (by omega : 2 ≤ 3)).mul (hW.mono (by omega)))).bmul (bq.mul (Bdd.const (1 / 2)))
  have T2 := (tang_order (hA.mul (hU.mono (by omega : 2 ≤ 3))) (hA.mul (hW.mono (by omega)))).cmul (1 / 2)
  refine ((S.add T1).add T2).congr fun i => ?_
  have hHne := (e0.trans_le (hη i.M (edgeAt i.m i.e))).ne'
  rw [spec_pvFlux i.geo _ _ i.lo i.hi, spec_tang i.geo _ i.lo i.hi, spec_tang i.geo _ i.lo i.hi]
  unfold Tn Tw
  have n1 : ∀ e, normalOf i.m (fun z => H i.M z * U i.M z) (fun z => H i.M z * W i.M z) e = Ft i.M e := fun e => by
    simp only [hFt, normalOf]; ring
  have n2 : ∀ e, normalOf i.m (fun z => A i.M z * U i.M z) (fun z => A i.M z * W i.M z) e = Ft i.M e * qt i.M e := fun e => by
    have := (e0.trans_le (hη i.M (edgeAt i.m e))).ne'
    simp only [hFt, hqt, normalOf]; field_simp
  have t1 : qt i.M i.e * tangentOf i.m (fun z => H i.M z * U i.M z) (fun z => H i.M z * W i.M z) i.e =
      tangentOf i.m (fun z => A i.M z * U i.M z) (fun z => A i.M z * W i.M z) i.e := by
    simp only [hqt, tangentOf]; field_simp
  simp only [n1, n2]
  have key : (∑ s ∈ Finset.range 10, wRaw (i.e % 3) ((s : ℤ) % 5) *
      (Ft i.M (eoe i.p.nx i.p.ny i.e s) * ((qt i.M i.e + qt i.M (eoe i.p.nx i.p.ny i.e s)) / 2))) =
      1 / 2 * qt i.M i.e * (∑ s ∈ Finset.range 10, wRaw (i.e % 3) ((s : ℤ) % 5) *
        Ft i.M (eoe i.p.nx i.p.ny i.e s)) +
      1 / 2 * (∑ s ∈ Finset.range 10, wRaw (i.e % 3) ((s : ℤ) % 5) *
        (Ft i.M (eoe i.p.nx i.p.ny i.e s) * qt i.M (eoe i.p.nx i.p.ny i.e s))) := by
    rw [Finset.mul_sum, Finset.mul_sum, ← Finset.sum_add_distrib]
    exact Finset.sum_congr rfl fun s _ => by ring
  simp only [mul_sub, Finset.sum_sub_distrib]
  rw [key]
  linear_combination (1 / 2 : ℝ) * t1

end Props
end
end Omega
