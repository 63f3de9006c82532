import Verif.Refine.KernelOps
import Verif.Model.KernelsSimd

/-!
# The vector kernels compute the functions `simdF`
-/

set_option linter.unusedSectionVars false
set_option linter.unusedVariables false

namespace Omega
namespace Refine

open Prog Model

variable {R : Type} [Scalar R]

namespace SFn

variable (M : Mesh R)

/-- `vorticity_aux.hpp:48-52` -/
def nrv (h vn : Int → R) (v : Int) : R := Fn.rvort M vn v * (lit 1 / Fn.hvert M h v)
/-- `pv_flux_edge.hpp:31-48` -/
def pv (nrv nf hf vn : Int → R) (e : Int) : R :=
  foldI (M.neoe e) (lit 0) fun j s =>
    s + M.woe e j * hf (M.eoe e j) * vn (M.eoe e j) *
      (half * (nrv e + nf e + nrv (M.eoe e j) + nf (M.eoe e j)))
/-- `vel_diff_edge.hpp:47-57` -/
def vdiff (visc : R) (k : Int) (div rv : Int → R) (e : Int) : R :=
  visc * M.sdel2 e * M.mask e k *
    ((div (M.coe e 1) - div (M.coe e 0)) * (lit 1 / M.dc e) -
      (rv (M.voe e 1) - rv (M.voe e 0)) * (lit 1 / M.dv e))
/-- `tracer_hadv_cell.hpp:30-52` -/
def thadv (v ntr hf : Int → R) (c : Int) : R :=
  foldI (M.neoc c) (lit 0) fun j s =>
    s - M.dv (M.eoc c j) * (lit 1 / M.areaCell c) * M.signC c j * hf (M.eoc c j) *
      (half * (ntr (M.coe (M.eoc c j) 0) + ntr (M.coe (M.eoc c j) 1))) * v (M.eoc c j)
/-- `tracer_diff_cell.hpp:33-53` -/
def tdiff (eddy2 : R) (ntr hm : Int → R) (c : Int) : R :=
  foldI (M.neoc c) (lit 0) fun j s =>
    s + eddy2 * (lit 1 / M.areaCell c) * M.dv (M.eoc c j) * M.signC c j *
      M.sdel2 (M.eoc c j) * hm (M.eoc c j) *
      ((ntr (M.coe (M.eoc c j) 1) - ntr (M.coe (M.eoc c j) 0)) * (lit 1 / M.dc (M.eoc c j)))

end SFn

/-- The functions of the `OMEGA_KOKKOS_SIMD` build. -/
def simdF : Fns R where
  ke := Fn.ke
  div := Fn.div
  hmean := Fn.hmean
  ntr := Fn.ntr
  rvort := Fn.rvort
  nrv := SFn.nrv
  npv := Fn.npv
  vedge := Fn.vedge
  hadv := Fn.hadv
  pv := SFn.pv
  keG := Fn.keG
  sshG := Fn.sshG
  vdiff := SFn.vdiff
  del2 := Fn.del2
  del2rv := fun M _ u0 v => Fn.rvort M u0 v
  del2div := Fn.del2div
  vhyper := Fn.vhyper
  thadv := SFn.thadv
  tdiff := SFn.tdiff
  tdel2 := Fn.tdel2
  thyper := Fn.thyper

theorem simdF_local : (simdF : Fns R).Local where
  ke := scalarF_local.ke
  div := scalarF_local.div
  hmean := scalarF_local.hmean
  ntr := @(scalarF_local (R := R)).ntr
  rvort := scalarF_local.rvort
  nrv := by
    intro d M x y x' y' hM h h' v h0 h1
    simp only [simdF, SFn.nrv]
    rw [hvert_local hM h v h0 h1, rvort_local hM h' v h0 h1]
  npv := scalarF_local.npv
  vedge := scalarF_local.vedge
  hadv := scalarF_local.hadv
  pv := by
    intro d M x1 y1 x2 y2 x3 y3 x4 y4 hM g1 g2 g3 g4 e h0 h1
    refine foldI_congr _ _ _ _ fun j h2 h3 s => ?_
    rw [g1 e h0 h1, g2 e h0 h1, eoe_eq hM g1 h0 h1 h2 h3, eoe_eq hM g2 h0 h1 h2 h3,
      eoe_eq hM g3 h0 h1 h2 h3, eoe_eq hM g4 h0 h1 h2 h3]
  keG := scalarF_local.keG
  sshG := scalarF_local.sshG
  vdiff := by
    intro d M g k x y x' y' hM g1 g2 e h0 h1
    simp only [simdF, SFn.vdiff]
    rw [coe_eq hM g1 h0 h1 (s := 0) (by omega) (by omega),
      coe_eq hM g1 h0 h1 (s := 1) (by omega) (by omega),
      voe_eq hM g2 h0 h1 (s := 0) (by omega) (by omega),
      voe_eq hM g2 h0 h1 (s := 1) (by omega) (by omega)]
  del2 := scalarF_local.del2
  del2rv := by
    intro d M x y x' y' hM h h' v h0 h1
    exact rvort_local hM h' v h0 h1
  del2div := scalarF_local.del2div
  vhyper := scalarF_local.vhyper
  thadv := by
    intro d M x1 y1 x2 y2 x3 y3 hM g1 g2 g3 c h0 h1
    refine foldI_congr _ _ _ _ fun j h2 h3 s => ?_
    have he := hM.eoc c h0 h1 j h2 h3
    rw [eoc_eq hM g1 h0 h1 h2 h3, eoc_eq hM g3 h0 h1 h2 h3,
      coe_eq hM g2 he.1 he.2 (s := 0) (by omega) (by omega),
      coe_eq hM g2 he.1 he.2 (s := 1) (by omega) (by omega)]
  tdiff := by
    intro d M g x y x' y' hM g1 g2 c h0 h1
    refine foldI_congr _ _ _ _ fun j h2 h3 s => ?_
    have he := hM.eoc c h0 h1 j h2 h3
    rw [eoc_eq hM g2 h0 h1 h2 h3,
      coe_eq hM g1 he.1 he.2 (s := 0) (by omega) (by omega),
      coe_eq hM g1 he.1 he.2 (s := 1) (by omega) (by omega)]
  tdel2 := scalarF_local.tdel2
  thyper := scalarF_local.thyper

/-! ### Rules for vector loads, vector stores and loops over vectors -/

section

variable {d : Dims} {m M : Mem R} {A : RArr → Bool} {perm : Loc → Perm} {P : Region}

theorem wp_vld2 {vl k i : Int} (hvl : 0 ≤ vl) {a : RArr}
    (hb : ∀ x, 0 ≤ x → x < vl → a.InB d 0 i (k + x))
    (hr : ∀ x, 0 ≤ x → x < vl → perm (.real a 0 i (k + x)) ≠ .none)
    {Q : (Int → R) → Mem R → Prop}
    (h : ∀ v, (∀ x, 0 ≤ x → x < vl → v x = M.real a 0 i (k + x)) → Q v M) :
    Wp d perm (Simd.vld2 vl a i k) M Q := by
  refine wp_lset hvl (fun x _ => M.real a 0 i (k + x)) ?_ h
  intro x v h0 h1 _
  exact wp_bind (wp_rd2 (hb x h0 h1) (hr x h0 h1) (wp_pure' ⟨rfl, rfl⟩))

theorem wp_vld3 {vl k l i : Int} (hvl : 0 ≤ vl) {a : RArr}
    (hb : ∀ x, 0 ≤ x → x < vl → a.InB d l i (k + x))
    (hr : ∀ x, 0 ≤ x → x < vl → perm (.real a l i (k + x)) ≠ .none)
    {Q : (Int → R) → Mem R → Prop}
    (h : ∀ v, (∀ x, 0 ≤ x → x < vl → v x = M.real a l i (k + x)) → Q v M) :
    Wp d perm (Simd.vld3 vl a l i k) M Q := by
  refine wp_lset hvl (fun x _ => M.real a l i (k + x)) ?_ h
  intro x v h0 h1 _
  exact wp_bind (wp_rd3 (hb x h0 h1) (hr x h0 h1) (wp_pure' ⟨rfl, rfl⟩))

theorem gp_vld2 {vl k i : Int} (hvl : 0 ≤ vl) (hp : Good perm A P) (hM : Agree A M m) {a : RArr}
    (hA : A a = false) (hb : ∀ x, 0 ≤ x → x < vl → a.InB d 0 i (k + x))
    {Q : (Int → R) → Mem R → Prop}
    (h : ∀ v, (∀ x, 0 ≤ x → x < vl → v x = m.real a 0 i (k + x)) → Q v M) :
    Wp d perm (Simd.vld2 vl a i k) M Q :=
  wp_vld2 hvl hb (fun _ _ _ => hp.real _ hA _ _ _) (by rw [hM.real _ hA]; exact h)

theorem gp_vld3 {vl k l i : Int} (hvl : 0 ≤ vl) (hp : Good perm A P) (hM : Agree A M m) {a : RArr}
    (hA : A a = false) (hb : ∀ x, 0 ≤ x → x < vl → a.InB d l i (k + x))
    {Q : (Int → R) → Mem R → Prop}
    (h : ∀ v, (∀ x, 0 ≤ x → x < vl → v x = m.real a l i (k + x)) → Q v M) :
    Wp d perm (Simd.vld3 vl a l i k) M Q :=
  wp_vld3 hvl hb (fun _ _ _ => hp.real _ hA _ _ _) (by rw [hM.real _ hA]; exact h)

/-- Loop over the neighbours of a row accumulating in vector registers. -/
theorem wp_vloop {σ : Type} {n vl : Int} (hn : 0 ≤ n) {s0 : σ}
    {body : Int → (Int → σ) → Prog R (Int → σ)} (T : Int → Int → σ → σ)
    (hs : ∀ j acc, 0 ≤ j → j < n → Wp d perm (body j acc) M
      (fun a' M' => (∀ x, 0 ≤ x → x < vl → a' x = T j x (acc x)) ∧ M' = M))
    {Q : (Int → σ) → Mem R → Prop}
    (hq : ∀ acc, (∀ x, 0 ≤ x → x < vl → acc x = foldI n s0 (fun j s => T j x s)) → Q acc M) :
    Wp d perm (forI n (fun _ => s0) body) M Q := by
  refine wp_forI hn (fun i a M' => M' = M ∧ ∀ x, 0 ≤ x → x < vl →
    a x = foldI i s0 (fun j s => T j x s)) ⟨rfl, fun _ _ _ => rfl⟩ ?_ ?_
  · rintro j a M' h0 h1 ⟨rfl, ha⟩
    refine wp_mono (hs j a h0 h1) ?_
    rintro a' M'' ⟨h, rfl⟩
    refine ⟨rfl, fun x h2 h3 => ?_⟩
    rw [h x h2 h3, ha x h2 h3, foldI_succ j h0]
  · rintro a M' ⟨rfl, ha⟩
    exact hq a ha

theorem upd_eff_congr {a : RArr} {g g' : Int → Int → Int → R → R}
    (h : ∀ l i k, P a l i k → g l i k (M.real a l i k) = g' l i k (M.real a l i k)) :
    M.upd P (eff a g) = M.upd P (eff a g') := by
  refine Mem.ext' rfl ?_
  funext b l i k
  by_cases hP : P b l i k
  · rw [Mem.upd_on hP, Mem.upd_on hP]
    by_cases hb : b = a
    · subst hb; rw [eff_same, eff_same, h l i k hP]
    · rw [eff_ne hb, eff_ne hb]
  · rw [Mem.upd_off hP, Mem.upd_off hP]

theorem wp_vst {vl k l i : Int} (hvl : 0 ≤ vl) {a : RArr} (hM : Agree A M m)
    (hP : ∀ a l i k', P a l i k' → A a = true ∧ k ≤ k' ∧ k' < k + vl)
    (own : ∀ x, 0 ≤ x → x < vl → P a l i (k + x)) {v : Int → R} (g : Int → Int → Int → R → R)
    (hg : ∀ l' i' k' w, P a l' i' k' → ¬ (l' = l ∧ i' = i) → g l' i' k' w = w)
    (hv : ∀ x, 0 ≤ x → x < vl → v x = g l i (k + x) (M.real a l i (k + x)))
    {Q : Unit → Mem R → Prop} {body : Int → Unit → Prog R Unit}
    (hbody : ∀ x, 0 ≤ x → x < vl → ∀ (M1 : Mem R) (Q : Unit → Mem R → Prop),
      Q () (M1.setR a l i (k + x) (v x)) → Wp d perm (body x ()) M1 Q)
    (hq : Q () (M.upd P (eff a g))) :
    Wp d perm (forI vl () body) M Q := by
  refine wp_mono (wp_lanes_gen (P := P) (kstart := k)
    (G := eff a fun l' i' k' w => if l' = l ∧ i' = i then v (k' - k) else w) hvl hM hP ?_) ?_
  · intro x h0 h1 M1 _
    refine hbody x h0 h1 M1 _ (setR_upd_row ⟨own x h0 h1, rfl⟩ _ ?_ ?_)
    · rintro l' i' k' w ⟨hr, rfl⟩ hne
      rw [if_neg]
      rintro ⟨rfl, rfl⟩
      exact hne ⟨rfl, rfl, rfl⟩
    · rw [if_pos ⟨rfl, rfl⟩]; congr 1; omega
  · rintro - M' rfl
    have : M.upd P (eff a fun l' i' k' w => if l' = l ∧ i' = i then v (k' - k) else w) =
        M.upd P (eff a g) := by
      refine upd_eff_congr ?_
      intro l' i' k' hr
      by_cases hl : l' = l ∧ i' = i
      · rw [if_pos hl]
        obtain ⟨rfl, rfl⟩ := hl
        have := hP _ _ _ _ hr
        rw [hv (k' - k) (by omega) (by omega)]
        rw [show k + (k' - k) = k' by omega]
      · rw [if_neg hl, hg _ _ _ _ hr hl]
    rw [this]; exact hq

end

section

variable {d : Dims} {m M : Mem R} {A : RArr → Bool} {perm : Loc → Perm}

/-- in a (row, chunk) launch, a rank-2 view's part is one row -/
theorem reg2_row {i kc : Int} {a : RArr} {n l' i' k' : Int} (hext : a.ext d = (1, n, d.nlayers))
    (h : Reg d A (own2 d.vl) (i, kc, 0) a l' i' k') : l' = 0 ∧ i' = i := by
  obtain ⟨-, h2, h3⟩ := h
  simp only [own2, Prod.mk.injEq] at h3
  rw [RArr.InB, hext] at h2
  exact ⟨by have := h2.1; dsimp only at this; omega, h3.1⟩

theorem reg3_row {l i kc : Int} {a : RArr} {l' i' k' : Int}
    (h : Reg d A (own3 d.vl) (l, i, kc) a l' i' k') : l' = l ∧ i' = i := by
  obtain ⟨-, -, h3⟩ := h
  simp only [own3, Prod.mk.injEq] at h3
  exact ⟨h3.1, h3.2.1⟩

/-- vector store to the launch's own rank-2 part -/
theorem st2 (C : Ctx d m A) {i kc n : Int}
    (hp : Good perm A (Reg d A (own2 d.vl) (i, kc, 0))) (hM : Agree A M m) {a : RArr}
    (hA : A a = true) (hext : a.ext d = (1, n, d.nlayers)) (hi : 0 ≤ i ∧ i < n)
    (hkc : 0 ≤ kc ∧ kc < d.nlayersVec) {v : Int → R} (g : Int → Int → Int → R → R)
    (hv : ∀ x, 0 ≤ x → x < d.vl → v x = g 0 i (kc * d.vl + x) (M.real a 0 i (kc * d.vl + x)))
    {Q : Unit → Mem R → Prop}
    (hq : Q () (M.upd (Reg d A (own2 d.vl) (i, kc, 0)) (eff a g))) :
    Wp d perm (Simd.vst2 d.vl a i (kc * d.vl) v) M Q := by
  have own : ∀ x, 0 ≤ x → x < d.vl → Reg d A (own2 d.vl) (i, kc, 0) a 0 i (kc * d.vl + x) :=
    fun x h0 h1 => ((only2 C.dims hA hext hi hkc ⟨h0, h1⟩ 0 i _).2 ⟨rfl, rfl, rfl⟩).1
  refine wp_vst (P := Reg d A (own2 d.vl) (i, kc, 0)) C.dims.vl_pos.le hM (fun a l i k h => reg2_range C.dims h) own g ?_ hv ?_ hq
  · intro l' i' k' w hr hne
    exact absurd (reg2_row hext hr) hne
  · intro x h0 h1 M1 Q h
    exact wp_wr2 (own x h0 h1).2.1 (hp.own _ _ _ _ (own x h0 h1)) h

/-- vector store to the launch's own rank-3 part -/
theorem st3 (C : Ctx d m A) {l i kc n : Int}
    (hp : Good perm A (Reg d A (own3 d.vl) (l, i, kc))) (hM : Agree A M m) {a : RArr}
    (hA : A a = true) (hext : a.ext d = (d.ntracers, n, d.nlayers)) (hl : 0 ≤ l ∧ l < d.ntracers)
    (hi : 0 ≤ i ∧ i < n)
    (hkc : 0 ≤ kc ∧ kc < d.nlayersVec) {v : Int → R} (g : Int → Int → Int → R → R)
    (hv : ∀ x, 0 ≤ x → x < d.vl → v x = g l i (kc * d.vl + x) (M.real a l i (kc * d.vl + x)))
    {Q : Unit → Mem R → Prop}
    (hq : Q () (M.upd (Reg d A (own3 d.vl) (l, i, kc)) (eff a g))) :
    Wp d perm (Simd.vst3 d.vl a l i (kc * d.vl) v) M Q := by
  have own : ∀ x, 0 ≤ x → x < d.vl → Reg d A (own3 d.vl) (l, i, kc) a l i (kc * d.vl + x) :=
    fun x h0 h1 => ((only3 C.dims hA hext hl hi hkc ⟨h0, h1⟩ l i _).2 ⟨rfl, rfl, rfl⟩).1
  refine wp_vst (P := Reg d A (own3 d.vl) (l, i, kc)) C.dims.vl_pos.le hM (fun a l i k h => reg3_range C.dims h) own g ?_ hv ?_ hq
  · intro l' i' k' w hr hne
    exact absurd (reg3_row hr) hne
  · intro x h0 h1 M1 Q h
    exact wp_wr3 (own x h0 h1).2.1 (hp.own _ _ _ _ (own x h0 h1)) h

/-- vector load of the launch's own rank-2 part -/
theorem ld2own (C : Ctx d m A) {i kc n : Int}
    (hp : Good perm A (Reg d A (own2 d.vl) (i, kc, 0))) {a : RArr}
    (hA : A a = true) (hext : a.ext d = (1, n, d.nlayers)) (hi : 0 ≤ i ∧ i < n)
    (hkc : 0 ≤ kc ∧ kc < d.nlayersVec) {Q : (Int → R) → Mem R → Prop}
    (h : ∀ v, (∀ x, 0 ≤ x → x < d.vl → v x = M.real a 0 i (kc * d.vl + x)) → Q v M) :
    Wp d perm (Simd.vld2 d.vl a i (kc * d.vl)) M Q := by
  have own : ∀ x, 0 ≤ x → x < d.vl → Reg d A (own2 d.vl) (i, kc, 0) a 0 i (kc * d.vl + x) :=
    fun x h0 h1 => ((only2 C.dims hA hext hi hkc ⟨h0, h1⟩ 0 i _).2 ⟨rfl, rfl, rfl⟩).1
  exact wp_vld2 C.dims.vl_pos.le (fun x h0 h1 => (own x h0 h1).2.1)
    (fun x h0 h1 => by rw [hp.own _ _ _ _ (own x h0 h1)]; decide) h

/-- vector load of the launch's own rank-3 part -/
theorem ld3own (C : Ctx d m A) {l i kc n : Int}
    (hp : Good perm A (Reg d A (own3 d.vl) (l, i, kc))) {a : RArr}
    (hA : A a = true) (hext : a.ext d = (d.ntracers, n, d.nlayers)) (hl : 0 ≤ l ∧ l < d.ntracers)
    (hi : 0 ≤ i ∧ i < n)
    (hkc : 0 ≤ kc ∧ kc < d.nlayersVec) {Q : (Int → R) → Mem R → Prop}
    (h : ∀ v, (∀ x, 0 ≤ x → x < d.vl → v x = M.real a l i (kc * d.vl + x)) → Q v M) :
    Wp d perm (Simd.vld3 d.vl a l i (kc * d.vl)) M Q := by
  have own : ∀ x, 0 ≤ x → x < d.vl → Reg d A (own3 d.vl) (l, i, kc) a l i (kc * d.vl + x) :=
    fun x h0 h1 => ((only3 C.dims hA hext hl hi hkc ⟨h0, h1⟩ l i _).2 ⟨rfl, rfl, rfl⟩).1
  exact wp_vld3 C.dims.vl_pos.le (fun x h0 h1 => (own x h0 h1).2.1)
    (fun x h0 h1 => by rw [hp.own _ _ _ _ (own x h0 h1)]; decide) h

theorem agree_reg {own : Int → Int → Int → Idx} {x : Idx} {G : Effect R} (hM : Agree A M m) :
    Agree A (M.upd (Reg d A own x) G) m := hM.upd G fun _ _ _ _ h => h.1

end

set_option hygiene false in
/-- step over a vector load from a view the launch does not write -/
macro "vd0" : tactic => `(tactic| first
  | refine wp_bind (gp_vld2 C.dims.vl_pos.le hp hM (by first | assumption | exact C.mesh _ rfl)
      (fun x h0 h1 => by have hk := C.dims.lane hkc.1 hkc.2 h0 h1; inb) ?_)
  | refine wp_bind (gp_vld3 C.dims.vl_pos.le hp hM (by first | assumption | exact C.mesh _ rfl)
      (fun x h0 h1 => by have hk := C.dims.lane hkc.1 hkc.2 h0 h1; inb) ?_))

set_option hygiene false in
/-- `vd0`, naming the register and what it holds -/
macro "vd" v:ident h:ident : tactic => `(tactic| (vd0; intro $v $h))

section Simd

variable {d : Dims}

theorem v_hadv {m : Mem R} {A : RArr → Bool} {tend v h : RArr} {i kc : Int} (C : Ctx d m A)
    (at' : A tend = true) (av : A v = false) (ah : A h = false)
    (et : CArr d tend) (ev : EArr d v) (eh : EArr d h)
    (hi : 0 ≤ i ∧ i < d.ncells) (hkc : 0 ≤ kc ∧ kc < d.nlayersVec) :
    Op d m A (own2 d.vl) (i, kc, 0) (Simd.thickness_hadv_cell d.vl d.vl tend v h i kc)
      (eff tend fun _ i k t => t + Fn.hadv m.mesh (m.sl v 0 k) (m.sl h 0 k) i) := by
  intro M hM perm hp
  have hn := C.conn.neoc i hi.1 hi.2
  kst
  ld; ld
  refine wp_bind (wp_vloop (vl := d.vl) hn.1 (fun j x s => s - m.mesh.dv (m.mesh.eoc i j) *
      (lit 1 / m.mesh.areaCell i) * m.mesh.signC i j * m.sl h 0 (kc * d.vl + x) (m.mesh.eoc i j) *
      m.sl v 0 (kc * d.vl + x) (m.mesh.eoc i j)) ?_ ?_)
  · intro j acc h0 h1
    have he := C.conn.eoc i hi.1 hi.2 j h0 h1
    ld
    vd v1 e1
    vd v2 e2
    ld; ld
    exact wp_pure' ⟨fun x h0 h1 => by simp only [e1 x h0 h1, e2 x h0 h1]; rfl, rfl⟩
  · intro acc hacc
    refine wp_bind (ld2own C hp at' et hi hkc ?_)
    intro t ht
    refine st2 C hp hM at' et hi hkc _ (fun x h0 h1 => ?_) rfl
    rw [ht x h0 h1, hacc x h0 h1]; rfl

theorem v_kinetic {m : Mem R} {A : RArr → Bool} {vn : RArr} {i kc : Int} (C : Ctx d m A)
    (a1 : A .vel_div_cell = true) (a2 : A .ke_cell = true) (av : A vn = false)
    (ev : EArr d vn)
    (hi : 0 ≤ i ∧ i < d.ncells) (hkc : 0 ≤ kc ∧ kc < d.nlayersVec) :
    Op d m A (own2 d.vl) (i, kc, 0) (Simd.compute_kinetic_cell d.vl d.vl vn i kc)
      (eff2 .vel_div_cell (fun _ i k _ => Fn.div m.mesh (m.sl vn 0 k) i)
        .ke_cell (fun _ i k _ => Fn.ke m.mesh (m.sl vn 0 k) i)) := by
  intro M hM perm hp
  have hn := C.conn.neoc i hi.1 hi.2
  kst
  ld; ld
  refine wp_bind (wp_vloop (vl := d.vl) hn.1 (fun j x s => (s.1 + lit 1 / m.mesh.areaCell i * (m.mesh.dv (m.mesh.eoc i j) * m.mesh.dc (m.mesh.eoc i j)) * m.sl vn 0 (kc * d.vl + x) (m.mesh.eoc i j) *
      m.sl vn 0 (kc * d.vl + x) (m.mesh.eoc i j) * quarter,
      s.2 + lit 1 / m.mesh.areaCell i * m.mesh.dv (m.mesh.eoc i j) * m.mesh.signC i j *
      m.sl vn 0 (kc * d.vl + x) (m.mesh.eoc i j))) ?_ ?_)
  · intro j acc h0 h1
    have he := C.conn.eoc i hi.1 hi.2 j h0 h1
    ld; ld; ld
    vd v1 e1
    ld; ld
    exact wp_pure' ⟨fun x h0 h1 => by simp only [e1 x h0 h1]; rfl, rfl⟩
  · intro acc hacc
    have h1' : ∀ x, 0 ≤ x → x < d.vl → acc x = (foldI (m.int .nedges_on_cell i 0) (lit 0) (fun j s => s + lit 1 / m.mesh.areaCell i * (m.mesh.dv (m.mesh.eoc i j) * m.mesh.dc (m.mesh.eoc i j)) * m.sl vn 0 (kc * d.vl + x) (m.mesh.eoc i j) *
      m.sl vn 0 (kc * d.vl + x) (m.mesh.eoc i j) * quarter), foldI (m.int .nedges_on_cell i 0) (lit 0) (fun j s => s + lit 1 / m.mesh.areaCell i * m.mesh.dv (m.mesh.eoc i j) * m.mesh.signC i j *
      m.sl vn 0 (kc * d.vl + x) (m.mesh.eoc i j))) := by
      intro x h0 h1
      rw [hacc x h0 h1, foldI_pair _ _ _ (fun j s => s + lit 1 / m.mesh.areaCell i * (m.mesh.dv (m.mesh.eoc i j) * m.mesh.dc (m.mesh.eoc i j)) * m.sl vn 0 (kc * d.vl + x) (m.mesh.eoc i j) *
      m.sl vn 0 (kc * d.vl + x) (m.mesh.eoc i j) * quarter) (fun j s => s + lit 1 / m.mesh.areaCell i * m.mesh.dv (m.mesh.eoc i j) * m.mesh.signC i j *
      m.sl vn 0 (kc * d.vl + x) (m.mesh.eoc i j)) hn.1]
    refine wp_bind (st2 C hp hM (a := .vel_div_cell) a1 rfl hi hkc
      (fun _ i k _ => Fn.div m.mesh (m.sl vn 0 k) i) (fun x h0 h1 => ?_) ?_)
    · rw [h1' x h0 h1]; rfl
    refine st2 C hp (agree_reg hM) (a := .ke_cell) a2 rfl hi hkc
      (fun _ i k _ => Fn.ke m.mesh (m.sl vn 0 k) i) (fun x h0 h1 => ?_) ?_
    · rw [h1' x h0 h1]; rfl
    · rw [Mem.upd_upd]; rfl

theorem v_thickness {m : Mem R} {A : RArr → Bool} {h : RArr} {i kc : Int} (C : Ctx d m A)
    (a1 : A .mean_h_edge = true) (a2 : A .flux_h_edge = true) (ah : A h = false)
    (eh : CArr d h)
    (hi : 0 ≤ i ∧ i < d.nedges) (hkc : 0 ≤ kc ∧ kc < d.nlayersVec) :
    Op d m A (own2 d.vl) (i, kc, 0) (Simd.compute_thickness_edge d.vl d.vl h i kc)
      (eff2 .mean_h_edge (fun _ i k _ => Fn.hmean m.mesh (m.sl h 0 k) i)
        .flux_h_edge (fun _ i k _ => Fn.hmean m.mesh (m.sl h 0 k) i)) := by
  intro M hM perm hp
  have hc0 := C.conn.coe i hi.1 hi.2 0 (by omega) (by omega)
  have hc1 := C.conn.coe i hi.1 hi.2 1 (by omega) (by omega)
  kst
  ld; ld
  vd v1 e1
  vd v2 e2
  refine wp_bind (st2 C hp hM (a := .mean_h_edge) a1 rfl hi hkc
    (fun _ i k _ => Fn.hmean m.mesh (m.sl h 0 k) i) (fun x h0 h1 => ?_) ?_)
  · rw [e1 x h0 h1, e2 x h0 h1]; rfl
  refine st2 C hp (agree_reg hM) (a := .flux_h_edge) a2 rfl hi hkc
    (fun _ i k _ => Fn.hmean m.mesh (m.sl h 0 k) i) (fun x h0 h1 => ?_) ?_
  · rw [e1 x h0 h1, e2 x h0 h1]; rfl
  · rw [Mem.upd_upd]; rfl

theorem v_normTracer {m : Mem R} {A : RArr → Bool} {tr h : RArr} {l : Int} {i kc : Int} (C : Ctx d m A)
    (a1 : A .norm_tr_cell = true) (at' : A tr = false) (ah : A h = false)
    (et : TArr d tr) (eh : CArr d h)
    (hl : 0 ≤ l ∧ l < d.ntracers) (hi : 0 ≤ i ∧ i < d.ncells) (hkc : 0 ≤ kc ∧ kc < d.nlayersVec) :
    Op d m A (own2 d.vl) (i, kc, 0) (Simd.compute_norm_tracer_cell d.vl d.vl tr h l i kc)
      (eff .norm_tr_cell
        (fun l' i k v => if l' = l then Fn.ntr (m.sl tr l' k) (m.sl h 0 k) i else v)) := by
  intro M hM perm hp
  unfold Simd.compute_norm_tracer_cell
  rw [show (imul d.vl kc : Prog R Int) = imul kc d.vl by unfold imul; rw [mul_comm]]
  kst
  vd v1 e1
  vd v2 e2
  have own : ∀ x, 0 ≤ x → x < d.vl →
      Reg d A (own2 d.vl) (i, kc, 0) .norm_tr_cell l i (kc * d.vl + x) := by
    intro x h0 h1
    have hk := C.dims.lane hkc.1 hkc.2 h0 h1
    exact ⟨a1, by inb, by
      simp only [own2]; rw [(chunk_iff C.dims.vl_pos).2 (show kc * d.vl ≤ kc * d.vl + x ∧
        kc * d.vl + x < kc * d.vl + d.vl by omega)]⟩
  refine wp_vst (P := Reg d A (own2 d.vl) (i, kc, 0)) C.dims.vl_pos.le hM
    (fun a l i k h => reg2_range C.dims h) own (v := fun x => v1 x * (lit 1 / v2 x)) _ ?_ ?_ ?_ rfl
  · intro l' i' k' w hr hne
    rw [if_neg]
    rintro rfl
    have := hr.2.2
    simp only [own2, Prod.mk.injEq] at this
    exact hne ⟨rfl, this.1⟩
  · intro x h0 h1
    rw [if_pos rfl, e1 x h0 h1, e2 x h0 h1]; rfl
  · intro x h0 h1 M1 Q hq
    exact wp_wr3 (own x h0 h1).2.1 (hp.own _ _ _ _ (own x h0 h1)) hq

theorem v_vortVertex {m : Mem R} {A : RArr → Bool} {h vn f : RArr} {i kc : Int} (C : Ctx d m A)
    (a1 : A .rvort_vertex = true) (a2 : A .norm_rvort_vertex = true)
    (a3 : A .norm_pvort_vertex = true) (ah : A h = false) (av : A vn = false) (af : A f = false)
    (eh : CArr d h) (ev : EArr d vn) (ef : f.ext d = (1, d.nvertices, 1))
    (hi : 0 ≤ i ∧ i < d.nvertices) (hkc : 0 ≤ kc ∧ kc < d.nlayersVec) :
    Op d m A (own2 d.vl) (i, kc, 0) (Simd.compute_vort_vertex d.vl d.vl h vn f i kc)
      (eff3 .rvort_vertex (fun _ i k _ => Fn.rvort m.mesh (m.sl vn 0 k) i)
        .norm_rvort_vertex (fun _ i k _ => SFn.nrv m.mesh (m.sl h 0 k) (m.sl vn 0 k) i)
        .norm_pvort_vertex (fun _ i k _ => Fn.npv m.mesh (m.sl h 0 k) (m.sl f 0 0) i)) := by
  intro M hM perm hp
  kst
  ld
  refine wp_bind (wp_vloop (vl := d.vl) (by omega) (fun j x s => (s.1 + m.mesh.dc (m.mesh.eov i j) * (lit 1 / m.mesh.areaTri i) * m.mesh.signV i j *
      m.sl vn 0 (kc * d.vl + x) (m.mesh.eov i j),
      s.2 + m.mesh.kite i j * (lit 1 / m.mesh.areaTri i) * m.sl h 0 (kc * d.vl + x) (m.mesh.cov i j))) ?_ ?_)
  · intro j acc h0 h1
    have he := C.conn.eov i hi.1 hi.2 j h0 h1
    have hc := C.conn.cov i hi.1 hi.2 j h0 h1
    ld; ld
    vd v1 e1
    vd v2 e2
    ld; ld; ld
    exact wp_pure' ⟨fun x h0 h1 => by simp only [e1 x h0 h1, e2 x h0 h1]; rfl, rfl⟩
  · intro acc hacc
    have h1' : ∀ x, 0 ≤ x → x < d.vl → acc x = (foldI 3 (lit 0) (fun j s => s + m.mesh.dc (m.mesh.eov i j) * (lit 1 / m.mesh.areaTri i) * m.mesh.signV i j *
      m.sl vn 0 (kc * d.vl + x) (m.mesh.eov i j)), foldI 3 (lit 0) (fun j s => s + m.mesh.kite i j * (lit 1 / m.mesh.areaTri i) * m.sl h 0 (kc * d.vl + x) (m.mesh.cov i j))) := by
      intro x h0 h1
      rw [hacc x h0 h1, foldI_pair _ _ _ (fun j s => s + m.mesh.dc (m.mesh.eov i j) * (lit 1 / m.mesh.areaTri i) * m.mesh.signV i j *
      m.sl vn 0 (kc * d.vl + x) (m.mesh.eov i j)) (fun j s => s + m.mesh.kite i j * (lit 1 / m.mesh.areaTri i) * m.sl h 0 (kc * d.vl + x) (m.mesh.cov i j)) (by omega)]
    have hr : ∀ x, 0 ≤ x → x < d.vl → (acc x).1 = Fn.rvort m.mesh (m.sl vn 0 (kc * d.vl + x)) i :=
      fun x h0 h1 => by rw [h1' x h0 h1]; rfl
    have hh : ∀ x, 0 ≤ x → x < d.vl → (acc x).2 = Fn.hvert m.mesh (m.sl h 0 (kc * d.vl + x)) i :=
      fun x h0 h1 => by rw [h1' x h0 h1]; rfl
    refine wp_bind (st2 C hp hM (a := .rvort_vertex) a1 rfl hi hkc
      (fun _ i k _ => Fn.rvort m.mesh (m.sl vn 0 k) i) (fun x h0 h1 => hr x h0 h1) ?_)
    refine wp_bind (st2 C hp (agree_reg hM) (a := .norm_rvort_vertex) a2 rfl hi hkc
      (fun _ i k _ => SFn.nrv m.mesh (m.sl h 0 k) (m.sl vn 0 k) i) (fun x h0 h1 => ?_) ?_)
    · dsimp only; rw [hr x h0 h1, hh x h0 h1]; rfl
    refine wp_bind (gp_rd1 hp (agree_reg (agree_reg hM)) af (by inb) ?_)
    refine st2 C hp (agree_reg (agree_reg hM)) (a := .norm_pvort_vertex) a3 rfl hi hkc
      (fun _ i k _ => Fn.npv m.mesh (m.sl h 0 k) (m.sl f 0 0) i) (fun x h0 h1 => ?_) ?_
    · dsimp only; rw [hh x h0 h1]; rfl
    · rw [Mem.upd_upd, Mem.upd_upd]; rfl

theorem v_vortEdge {m : Mem R} {A : RArr → Bool} {i kc : Int} (C : Ctx d m A)
    (a1 : A .norm_rvort_edge = true) (a2 : A .norm_pvort_edge = true)
    (ar : A .norm_rvort_vertex = false) (ap : A .norm_pvort_vertex = false)
    (hi : 0 ≤ i ∧ i < d.nedges) (hkc : 0 ≤ kc ∧ kc < d.nlayersVec) :
    Op d m A (own2 d.vl) (i, kc, 0) (Simd.compute_vort_edge d.vl d.vl i kc)
      (eff2 .norm_rvort_edge (fun _ i k _ => Fn.vedge m.mesh (m.sl .norm_rvort_vertex 0 k) i)
        .norm_pvort_edge (fun _ i k _ => Fn.vedge m.mesh (m.sl .norm_pvort_vertex 0 k) i)) := by
  intro M hM perm hp
  have hv0 := C.conn.voe i hi.1 hi.2 0 (by omega) (by omega)
  have hv1 := C.conn.voe i hi.1 hi.2 1 (by omega) (by omega)
  kst
  ld; ld
  vd v1 e1
  vd v2 e2
  vd v3 e3
  vd v4 e4
  refine wp_bind (st2 C hp hM (a := .norm_rvort_edge) a1 rfl hi hkc
    (fun _ i k _ => Fn.vedge m.mesh (m.sl .norm_rvort_vertex 0 k) i) (fun x h0 h1 => ?_) ?_)
  · rw [e1 x h0 h1, e2 x h0 h1]; rfl
  refine st2 C hp (agree_reg hM) (a := .norm_pvort_edge) a2 rfl hi hkc
    (fun _ i k _ => Fn.vedge m.mesh (m.sl .norm_pvort_vertex 0 k) i) (fun x h0 h1 => ?_) ?_
  · rw [e3 x h0 h1, e4 x h0 h1]; rfl
  · rw [Mem.upd_upd]; rfl

theorem v_pvFlux {m : Mem R} {A : RArr → Bool} {tend nrv nf hf vn : RArr} {i kc : Int} (C : Ctx d m A)
    (at' : A tend = true) (a1 : A nrv = false) (a2 : A nf = false)
    (a3 : A hf = false) (a4 : A vn = false) (et : EArr d tend) (e1 : EArr d nrv) (e2 : EArr d nf)
    (e3 : EArr d hf) (e4 : EArr d vn)
    (hi : 0 ≤ i ∧ i < d.nedges) (hkc : 0 ≤ kc ∧ kc < d.nlayersVec) :
    Op d m A (own2 d.vl) (i, kc, 0) (Simd.pv_flux_edge d.vl d.vl tend nrv nf hf vn i kc)
      (eff tend fun _ i k t =>
        t + SFn.pv m.mesh (m.sl nrv 0 k) (m.sl nf 0 k) (m.sl hf 0 k) (m.sl vn 0 k) i) := by
  intro M hM perm hp
  have hn := C.conn.neoe i hi.1 hi.2
  kst
  vd v1 e1
  vd v2 e2
  ld
  refine wp_bind (wp_vloop (vl := d.vl) hn.1 (fun j x s => s + m.mesh.woe i j * m.sl hf 0 (kc * d.vl + x) (m.mesh.eoe i j) *
      m.sl vn 0 (kc * d.vl + x) (m.mesh.eoe i j) * (half * (m.sl nrv 0 (kc * d.vl + x) i + m.sl nf 0 (kc * d.vl + x) i +
      m.sl nrv 0 (kc * d.vl + x) (m.mesh.eoe i j) + m.sl nf 0 (kc * d.vl + x) (m.mesh.eoe i j)))) ?_ ?_)
  · intro j acc h0 h1
    have he := C.conn.eoe i hi.1 hi.2 j h0 h1
    ld
    vd v3 e3
    vd v4 e4
    vd v5 e5
    vd v6 e6
    ld
    exact wp_pure' ⟨fun x h0 h1 => by
      simp only [e1 x h0 h1, e2 x h0 h1, e3 x h0 h1, e4 x h0 h1, e5 x h0 h1, e6 x h0 h1]; rfl, rfl⟩
  · intro acc hacc
    refine wp_bind (ld2own C hp at' et hi hkc ?_)
    intro t ht
    refine st2 C hp hM at' et hi hkc _ (fun x h0 h1 => ?_) rfl
    rw [ht x h0 h1, hacc x h0 h1]; rfl

theorem v_keGrad {m : Mem R} {A : RArr → Bool} {tend ke : RArr} {i kc : Int} (C : Ctx d m A)
    (at' : A tend = true) (a1 : A ke = false) (et : EArr d tend) (e1 : CArr d ke)
    (hi : 0 ≤ i ∧ i < d.nedges) (hkc : 0 ≤ kc ∧ kc < d.nlayersVec) :
    Op d m A (own2 d.vl) (i, kc, 0) (Simd.ke_grad_edge d.vl d.vl tend ke i kc)
      (eff tend fun _ i k t => t - Fn.keG m.mesh (m.sl ke 0 k) i) := by
  intro M hM perm hp
  have hc0 := C.conn.coe i hi.1 hi.2 0 (by omega) (by omega)
  have hc1 := C.conn.coe i hi.1 hi.2 1 (by omega) (by omega)
  kst
  ld; ld; ld
  vd v1 e1
  vd v2 e2
  refine wp_bind (ld2own C hp at' et hi hkc ?_)
  intro t ht
  refine st2 C hp hM at' et hi hkc _ (fun x h0 h1 => ?_) rfl
  rw [ht x h0 h1, e1 x h0 h1, e2 x h0 h1]; rfl

theorem v_sshGrad {m : Mem R} {A : RArr → Bool} {grav : R} {tend h : RArr} {i kc : Int} (C : Ctx d m A)
    (at' : A tend = true) (a1 : A h = false) (et : EArr d tend) (e1 : CArr d h)
    (hi : 0 ≤ i ∧ i < d.nedges) (hkc : 0 ≤ kc ∧ kc < d.nlayersVec) :
    Op d m A (own2 d.vl) (i, kc, 0) (Simd.ssh_grad_edge d.vl d.vl grav tend h i kc)
      (eff tend fun _ i k t => t - Fn.sshG m.mesh grav (m.sl h 0 k) i) := by
  intro M hM perm hp
  have hc0 := C.conn.coe i hi.1 hi.2 0 (by omega) (by omega)
  have hc1 := C.conn.coe i hi.1 hi.2 1 (by omega) (by omega)
  kst
  ld; ld; ld
  vd v1 e1
  vd v2 e2
  refine wp_bind (ld2own C hp at' et hi hkc ?_)
  intro t ht
  refine st2 C hp hM at' et hi hkc _ (fun x h0 h1 => ?_) rfl
  rw [ht x h0 h1, e1 x h0 h1, e2 x h0 h1]; rfl

theorem v_velDiff {m : Mem R} {A : RArr → Bool} {visc : R} {tend div rv : RArr} {i kc : Int} (C : Ctx d m A)
    (at' : A tend = true) (a1 : A div = false) (a2 : A rv = false)
    (et : EArr d tend) (e1 : CArr d div) (e2 : VArr d rv)
    (hi : 0 ≤ i ∧ i < d.nedges) (hkc : 0 ≤ kc ∧ kc < d.nlayersVec) :
    Op d m A (own2 d.vl) (i, kc, 0) (Simd.vel_diff_edge d.vl d.vl visc tend div rv i kc)
      (eff tend fun _ i k t => t + SFn.vdiff m.mesh visc k (m.sl div 0 k) (m.sl rv 0 k) i) := by
  intro M hM perm hp
  have hc0 := C.conn.coe i hi.1 hi.2 0 (by omega) (by omega)
  have hc1 := C.conn.coe i hi.1 hi.2 1 (by omega) (by omega)
  have hv0 := C.conn.voe i hi.1 hi.2 0 (by omega) (by omega)
  have hv1 := C.conn.voe i hi.1 hi.2 1 (by omega) (by omega)
  kst
  ld; ld; ld; ld; ld; ld
  vd v1 e1
  vd v2 e2
  vd v3 e3
  vd v4 e4
  vd v5 e5
  refine wp_bind (ld2own C hp at' et hi hkc ?_)
  intro t ht
  ld
  refine st2 C hp hM at' et hi hkc _ (fun x h0 h1 => ?_) rfl
  dsimp only
  rw [ht x h0 h1, e1 x h0 h1, e2 x h0 h1, e3 x h0 h1, e4 x h0 h1, e5 x h0 h1]; rfl

theorem v_velHyper {m : Mem R} {A : RArr → Bool} {visc4 : R} {tend : RArr} {i kc : Int} (C : Ctx d m A)
    (at' : A tend = true) (a1 : A .vel_del2_div_cell = false)
    (a2 : A .vel_del2_rvort_vertex = false) (et : EArr d tend)
    (hi : 0 ≤ i ∧ i < d.nedges) (hkc : 0 ≤ kc ∧ kc < d.nlayersVec) :
    Op d m A (own2 d.vl) (i, kc, 0) (Simd.vel_hyperdiff_edge d.vl d.vl visc4 tend i kc)
      (eff tend fun _ i k t => t - Fn.vhyper m.mesh visc4 k (m.sl .vel_del2_div_cell 0 k)
        (m.sl .vel_del2_rvort_vertex 0 k) i) := by
  intro M hM perm hp
  have hc0 := C.conn.coe i hi.1 hi.2 0 (by omega) (by omega)
  have hc1 := C.conn.coe i hi.1 hi.2 1 (by omega) (by omega)
  have hv0 := C.conn.voe i hi.1 hi.2 0 (by omega) (by omega)
  have hv1 := C.conn.voe i hi.1 hi.2 1 (by omega) (by omega)
  kst
  ld; ld; ld; ld; ld; ld
  vd v1 e1
  vd v2 e2
  vd v3 e3
  vd v4 e4
  vd v5 e5
  refine wp_bind (ld2own C hp at' et hi hkc ?_)
  intro t ht
  ld
  refine st2 C hp hM at' et hi hkc _ (fun x h0 h1 => ?_) rfl
  dsimp only
  rw [ht x h0 h1, e1 x h0 h1, e2 x h0 h1, e3 x h0 h1, e4 x h0 h1, e5 x h0 h1]; rfl

theorem v_velDel2 {m : Mem R} {A : RArr → Bool} {div rv : RArr} {i kc : Int} (C : Ctx d m A)
    (at' : A .vel_del2_edge = true) (a1 : A div = false) (a2 : A rv = false)
    (e1 : CArr d div) (e2 : VArr d rv)
    (hi : 0 ≤ i ∧ i < d.nedges) (hkc : 0 ≤ kc ∧ kc < d.nlayersVec) :
    Op d m A (own2 d.vl) (i, kc, 0) (Simd.compute_vel_del2 d.vl d.vl div rv i kc)
      (eff .vel_del2_edge fun _ i k _ => Fn.del2 m.mesh (m.sl div 0 k) (m.sl rv 0 k) i) := by
  intro M hM perm hp
  have hc0 := C.conn.coe i hi.1 hi.2 0 (by omega) (by omega)
  have hc1 := C.conn.coe i hi.1 hi.2 1 (by omega) (by omega)
  have hv0 := C.conn.voe i hi.1 hi.2 0 (by omega) (by omega)
  have hv1 := C.conn.voe i hi.1 hi.2 1 (by omega) (by omega)
  kst
  ld; ld; ld; ld; ld; ld; ld
  vd v1 e1
  vd v2 e2
  vd v3 e3
  vd v4 e4
  refine st2 C hp hM (a := .vel_del2_edge) at' rfl hi hkc _ (fun x h0 h1 => ?_) rfl
  rw [e1 x h0 h1, e2 x h0 h1, e3 x h0 h1, e4 x h0 h1]; rfl

theorem v_velDel2Rvort {m : Mem R} {A : RArr → Bool} {i kc : Int} (C : Ctx d m A)
    (at' : A .vel_del2_rvort_vertex = true) (a1 : A .vel_del2_edge = false)
    (hi : 0 ≤ i ∧ i < d.nvertices) (hkc : 0 ≤ kc ∧ kc < d.nlayersVec) :
    Op d m A (own2 d.vl) (i, kc, 0) (Simd.compute_vel_del2_rvort d.vl d.vl i kc)
      (eff .vel_del2_rvort_vertex fun _ i k _ => Fn.rvort m.mesh (m.sl .vel_del2_edge 0 (k / d.vl * d.vl)) i) := by
  intro M hM perm hp
  have hk0 := C.dims.lane hkc.1 hkc.2 (le_refl 0) C.dims.vl_pos
  kst
  ld
  refine wp_bind (wp_vloop (vl := d.vl) (by omega) (fun j x s => s + m.mesh.dc (m.mesh.eov i j) * (lit 1 / m.mesh.areaTri i) * m.mesh.signV i j *
      m.sl .vel_del2_edge 0 (kc * d.vl) (m.mesh.eov i j)) ?_ ?_)
  · intro j acc h0 h1
    have he := C.conn.eov i hi.1 hi.2 j h0 h1
    ld
    vd v1 e1
    ld; ld; ld
    exact wp_pure' ⟨fun x h0 h1 => rfl, rfl⟩
  · intro acc hacc
    refine st2 C hp hM (a := .vel_del2_rvort_vertex) at' rfl hi hkc _ (fun x h0 h1 => ?_) rfl
    rw [hacc x h0 h1, ksplit C.dims h0 h1]; rfl

theorem v_velDel2Div {m : Mem R} {A : RArr → Bool} {i kc : Int} (C : Ctx d m A)
    (at' : A .vel_del2_div_cell = true) (a1 : A .vel_del2_edge = false)
    (hi : 0 ≤ i ∧ i < d.ncells) (hkc : 0 ≤ kc ∧ kc < d.nlayersVec) :
    Op d m A (own2 d.vl) (i, kc, 0) (Simd.compute_vel_del2_div d.vl d.vl i kc)
      (eff .vel_del2_div_cell fun _ i k _ => Fn.del2div m.mesh (m.sl .vel_del2_edge 0 k) i) := by
  intro M hM perm hp
  have hn := C.conn.neoc i hi.1 hi.2
  kst
  ld; ld
  refine wp_bind (wp_vloop (vl := d.vl) hn.1 (fun j x s => s + m.mesh.dv (m.mesh.eoc i j) *
      (lit 1 / m.mesh.areaCell i) * m.mesh.signC i j * m.sl .vel_del2_edge 0 (kc * d.vl + x) (m.mesh.eoc i j)) ?_ ?_)
  · intro j acc h0 h1
    have he := C.conn.eoc i hi.1 hi.2 j h0 h1
    ld
    vd v1 e1
    ld; ld
    exact wp_pure' ⟨fun x h0 h1 => by simp only [e1 x h0 h1]; rfl, rfl⟩
  · intro acc hacc
    refine st2 C hp hM (a := .vel_del2_div_cell) at' rfl hi hkc _ (fun x h0 h1 => ?_) rfl
    rw [hacc x h0 h1]; rfl

theorem v_trHadv {m : Mem R} {A : RArr → Bool} {tend v ntr hf : RArr} {l : Int} {i kc : Int} (C : Ctx d m A)
    (at' : A tend = true) (a1 : A v = false) (a2 : A ntr = false) (a3 : A hf = false)
    (et : TArr d tend) (e1 : EArr d v) (e2 : TArr d ntr) (e3 : EArr d hf)
    (hl : 0 ≤ l ∧ l < d.ntracers) (hi : 0 ≤ i ∧ i < d.ncells) (hkc : 0 ≤ kc ∧ kc < d.nlayersVec) :
    Op d m A (own3 d.vl) (l, i, kc) (Simd.tracer_hadv_cell d.vl d.vl tend v ntr hf l i kc)
      (eff tend fun l i k t =>
        t + SFn.thadv m.mesh (m.sl v 0 k) (m.sl ntr l k) (m.sl hf 0 k) i) := by
  intro M hM perm hp
  have hn := C.conn.neoc i hi.1 hi.2
  kst
  ld; ld
  refine wp_bind (wp_vloop (vl := d.vl) hn.1 (fun j x s => s - m.mesh.dv (m.mesh.eoc i j) * (lit 1 / m.mesh.areaCell i) * m.mesh.signC i j * m.sl hf 0 (kc * d.vl + x) (m.mesh.eoc i j) *
      (half * (m.sl ntr l (kc * d.vl + x) (m.mesh.coe (m.mesh.eoc i j) 0) +
      m.sl ntr l (kc * d.vl + x) (m.mesh.coe (m.mesh.eoc i j) 1))) * m.sl v 0 (kc * d.vl + x) (m.mesh.eoc i j)) ?_ ?_)
  · intro j acc h0 h1
    have he := C.conn.eoc i hi.1 hi.2 j h0 h1
    have hc0 := C.conn.coe _ he.1 he.2 0 (by omega) (by omega)
    have hc1 := C.conn.coe _ he.1 he.2 1 (by omega) (by omega)
    ld; ld; ld
    refine wp_bind (gp_vld3 C.dims.vl_pos.le hp hM a2
      (fun x h0 h1 => inbT e2 hl hc0 (C.dims.lane hkc.1 hkc.2 h0 h1)) ?_)
    intro v1 q1
    refine wp_bind (gp_vld3 C.dims.vl_pos.le hp hM a2
      (fun x h0 h1 => inbT e2 hl hc1 (C.dims.lane hkc.1 hkc.2 h0 h1)) ?_)
    intro v2 q2
    vd v3 q3
    vd v4 q4
    ld; ld
    exact wp_pure' ⟨fun x h0 h1 => by
      simp only [q1 x h0 h1, q2 x h0 h1, q3 x h0 h1, q4 x h0 h1]; rfl, rfl⟩
  · intro acc hacc
    refine wp_bind (ld3own C hp at' et hl hi hkc ?_)
    intro t ht
    refine st3 C hp hM at' et hl hi hkc _ (fun x h0 h1 => ?_) rfl
    rw [ht x h0 h1, hacc x h0 h1]; rfl

theorem v_trDiff {m : Mem R} {A : RArr → Bool} {eddy2 : R} {tend ntr hm : RArr} {l : Int} {i kc : Int} (C : Ctx d m A)
    (at' : A tend = true) (a2 : A ntr = false) (a3 : A hm = false)
    (et : TArr d tend) (e2 : TArr d ntr) (e3 : EArr d hm)
    (hl : 0 ≤ l ∧ l < d.ntracers) (hi : 0 ≤ i ∧ i < d.ncells) (hkc : 0 ≤ kc ∧ kc < d.nlayersVec) :
    Op d m A (own3 d.vl) (l, i, kc) (Simd.tracer_diff_cell d.vl d.vl eddy2 tend ntr hm l i kc)
      (eff tend fun l i k t =>
        t + SFn.tdiff m.mesh eddy2 (m.sl ntr l k) (m.sl hm 0 k) i) := by
  intro M hM perm hp
  have hn := C.conn.neoc i hi.1 hi.2
  kst
  ld; ld
  refine wp_bind (wp_vloop (vl := d.vl) hn.1 (fun j x s => s + eddy2 * (lit 1 / m.mesh.areaCell i) * m.mesh.dv (m.mesh.eoc i j) * m.mesh.signC i j *
      m.mesh.sdel2 (m.mesh.eoc i j) * m.sl hm 0 (kc * d.vl + x) (m.mesh.eoc i j) *
      ((m.sl ntr l (kc * d.vl + x) (m.mesh.coe (m.mesh.eoc i j) 1) -
      m.sl ntr l (kc * d.vl + x) (m.mesh.coe (m.mesh.eoc i j) 0)) * (lit 1 / m.mesh.dc (m.mesh.eoc i j)))) ?_ ?_)
  · intro j acc h0 h1
    have he := C.conn.eoc i hi.1 hi.2 j h0 h1
    have hc0 := C.conn.coe _ he.1 he.2 0 (by omega) (by omega)
    have hc1 := C.conn.coe _ he.1 he.2 1 (by omega) (by omega)
    ld; ld; ld; ld
    refine wp_bind (gp_vld3 C.dims.vl_pos.le hp hM a2
      (fun x h0 h1 => inbT e2 hl hc0 (C.dims.lane hkc.1 hkc.2 h0 h1)) ?_)
    intro v1 q1
    refine wp_bind (gp_vld3 C.dims.vl_pos.le hp hM a2
      (fun x h0 h1 => inbT e2 hl hc1 (C.dims.lane hkc.1 hkc.2 h0 h1)) ?_)
    intro v2 q2
    vd v3 q3
    ld; ld; ld
    exact wp_pure' ⟨fun x h0 h1 => by
      simp only [q1 x h0 h1, q2 x h0 h1, q3 x h0 h1]; rfl, rfl⟩
  · intro acc hacc
    refine wp_bind (ld3own C hp at' et hl hi hkc ?_)
    intro t ht
    refine st3 C hp hM at' et hl hi hkc _ (fun x h0 h1 => ?_) rfl
    rw [ht x h0 h1, hacc x h0 h1]; rfl

theorem v_trDel2 {m : Mem R} {A : RArr → Bool} {ntr hm : RArr} {l : Int} {i kc : Int} (C : Ctx d m A)
    (at' : A .tracer_del2_cell = true) (a2 : A ntr = false) (a3 : A hm = false)
    (e2 : TArr d ntr) (e3 : EArr d hm)
    (hl : 0 ≤ l ∧ l < d.ntracers) (hi : 0 ≤ i ∧ i < d.ncells) (hkc : 0 ≤ kc ∧ kc < d.nlayersVec) :
    Op d m A (own3 d.vl) (l, i, kc) (Simd.compute_tracer_del2 d.vl d.vl ntr hm l i kc)
      (eff .tracer_del2_cell fun l i k _ => Fn.tdel2 m.mesh (m.sl ntr l k) (m.sl hm 0 k) i) := by
  intro M hM perm hp
  have hn := C.conn.neoc i hi.1 hi.2
  kst
  ld; ld
  refine wp_bind (wp_vloop (vl := d.vl) hn.1 (fun j x s => s + m.mesh.dv (m.mesh.eoc i j) * (lit 1 / m.mesh.areaCell i) * m.mesh.signC i j *
      m.sl hm 0 (kc * d.vl + x) (m.mesh.eoc i j) *
      ((m.sl ntr l (kc * d.vl + x) (m.mesh.coe (m.mesh.eoc i j) 1) -
      m.sl ntr l (kc * d.vl + x) (m.mesh.coe (m.mesh.eoc i j) 0)) * (lit 1 / m.mesh.dc (m.mesh.eoc i j)))) ?_ ?_)
  · intro j acc h0 h1
    have he := C.conn.eoc i hi.1 hi.2 j h0 h1
    have hc0 := C.conn.coe _ he.1 he.2 0 (by omega) (by omega)
    have hc1 := C.conn.coe _ he.1 he.2 1 (by omega) (by omega)
    ld; ld; ld; ld
    refine wp_bind (gp_vld3 C.dims.vl_pos.le hp hM a2
      (fun x h0 h1 => inbT e2 hl hc0 (C.dims.lane hkc.1 hkc.2 h0 h1)) ?_)
    intro v1 q1
    refine wp_bind (gp_vld3 C.dims.vl_pos.le hp hM a2
      (fun x h0 h1 => inbT e2 hl hc1 (C.dims.lane hkc.1 hkc.2 h0 h1)) ?_)
    intro v2 q2
    vd v3 q3
    ld; ld
    exact wp_pure' ⟨fun x h0 h1 => by
      simp only [q1 x h0 h1, q2 x h0 h1, q3 x h0 h1]; rfl, rfl⟩
  · intro acc hacc
    refine st3 C hp hM (a := .tracer_del2_cell) at' rfl hl hi hkc _ (fun x h0 h1 => ?_) rfl
    rw [hacc x h0 h1]; rfl

theorem v_trHyper {m : Mem R} {A : RArr → Bool} {eddy4 : R} {tend del2 : RArr} {l : Int} {i kc : Int} (C : Ctx d m A)
    (at' : A tend = true) (a2 : A del2 = false) (et : TArr d tend) (e2 : TArr d del2)
    (hl : 0 ≤ l ∧ l < d.ntracers) (hi : 0 ≤ i ∧ i < d.ncells) (hkc : 0 ≤ kc ∧ kc < d.nlayersVec) :
    Op d m A (own3 d.vl) (l, i, kc) (Simd.tracer_hyperdiff_cell d.vl d.vl eddy4 tend del2 l i kc)
      (eff tend fun l i k t => t + Fn.thyper m.mesh eddy4 (m.sl del2 l k) i) := by
  intro M hM perm hp
  have hn := C.conn.neoc i hi.1 hi.2
  kst
  ld; ld
  refine wp_bind (wp_vloop (vl := d.vl) hn.1 (fun j x s => s - eddy4 * (lit 1 / m.mesh.areaCell i) * m.mesh.dv (m.mesh.eoc i j) * m.mesh.signC i j *
      m.mesh.sdel4 (m.mesh.eoc i j) *
      ((m.sl del2 l (kc * d.vl + x) (m.mesh.coe (m.mesh.eoc i j) 1) -
      m.sl del2 l (kc * d.vl + x) (m.mesh.coe (m.mesh.eoc i j) 0)) * (lit 1 / m.mesh.dc (m.mesh.eoc i j)))) ?_ ?_)
  · intro j acc h0 h1
    have he := C.conn.eoc i hi.1 hi.2 j h0 h1
    have hc0 := C.conn.coe _ he.1 he.2 0 (by omega) (by omega)
    have hc1 := C.conn.coe _ he.1 he.2 1 (by omega) (by omega)
    ld; ld; ld; ld
    refine wp_bind (gp_vld3 C.dims.vl_pos.le hp hM a2
      (fun x h0 h1 => inbT e2 hl hc0 (C.dims.lane hkc.1 hkc.2 h0 h1)) ?_)
    intro v1 q1
    refine wp_bind (gp_vld3 C.dims.vl_pos.le hp hM a2
      (fun x h0 h1 => inbT e2 hl hc1 (C.dims.lane hkc.1 hkc.2 h0 h1)) ?_)
    intro v2 q2
    ld; ld; ld
    exact wp_pure' ⟨fun x h0 h1 => by simp only [q1 x h0 h1, q2 x h0 h1]; rfl, rfl⟩
  · intro acc hacc
    refine wp_bind (ld3own C hp at' et hl hi hkc ?_)
    intro t ht
    refine st3 C hp hM at' et hl hi hkc _ (fun x h0 h1 => ?_) rfl
    rw [ht x h0 h1, hacc x h0 h1]; rfl

/-- The `OMEGA_KOKKOS_SIMD` build, with registers of `vector_length` lanes, computes `simdF`. -/
theorem simd_refines : Kernels.Refines d (simdKernels d.vl d.vl) (simdF : Fns R) where
  kinetic := v_kinetic
  thickness := v_thickness
  normTracer := v_normTracer
  vortVertex := v_vortVertex
  vortEdge := v_vortEdge
  hadv := v_hadv
  pvFlux := v_pvFlux
  keGrad := v_keGrad
  sshGrad := v_sshGrad
  velDiff := v_velDiff
  velDel2 := v_velDel2
  velDel2Rvort := v_velDel2Rvort
  velDel2Div := v_velDel2Div
  velHyper := v_velHyper
  trHadv := v_trHadv
  trDiff := v_trDiff
  trDel2 := v_trDel2
  trHyper := v_trHyper

end Simd

end Refine
end Omega
