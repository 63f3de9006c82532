import Verif.Kokkos.Rows
import Verif.Model.ShallowWater

/-!
# Loop nests of the kernels
-/

set_option linter.unusedSectionVars false
set_option linter.unusedVariables false

namespace Omega
namespace Refine

open Prog Model

variable {R : Type} [Scalar R]

/-- Sizes produced by the mesh constructor (see `C01_padding`): whole chunks of at least one lane,
addressable with `int`. -/
structure DimsOK (d : Dims) : Prop where
  vl_pos : 0 < d.vl
  vec_nonneg : 0 ≤ d.nlayersVec
  chunks : d.nlayers = d.nlayersVec * d.vl
  fits : d.nlayers ≤ 2147483647
  tr_nonneg : 0 ≤ d.ntracers

/-- Connectivity tables whose entries are valid indices. -/
structure ConnOK (d : Dims) (m : Mem R) : Prop where
  neoc : ∀ c, 0 ≤ c → c < d.ncells →
    0 ≤ m.int .nedges_on_cell c 0 ∧ m.int .nedges_on_cell c 0 ≤ 6
  eoc : ∀ c, 0 ≤ c → c < d.ncells → ∀ j, 0 ≤ j → j < m.int .nedges_on_cell c 0 →
    0 ≤ m.int .edges_on_cell c j ∧ m.int .edges_on_cell c j < d.nedges
  coe : ∀ e, 0 ≤ e → e < d.nedges → ∀ s, 0 ≤ s → s < 2 →
    0 ≤ m.int .cells_on_edge e s ∧ m.int .cells_on_edge e s < d.ncells
  voe : ∀ e, 0 ≤ e → e < d.nedges → ∀ s, 0 ≤ s → s < 2 →
    0 ≤ m.int .vertices_on_edge e s ∧ m.int .vertices_on_edge e s < d.nvertices
  eov : ∀ v, 0 ≤ v → v < d.nvertices → ∀ s, 0 ≤ s → s < 3 →
    0 ≤ m.int .edges_on_vertex v s ∧ m.int .edges_on_vertex v s < d.nedges
  cov : ∀ v, 0 ≤ v → v < d.nvertices → ∀ s, 0 ≤ s → s < 3 →
    0 ≤ m.int .cells_on_vertex v s ∧ m.int .cells_on_vertex v s < d.ncells
  neoe : ∀ e, 0 ≤ e → e < d.nedges →
    0 ≤ m.int .nedges_on_edge e 0 ∧ m.int .nedges_on_edge e 0 ≤ 12
  eoe : ∀ e, 0 ≤ e → e < d.nedges → ∀ j, 0 ≤ j → j < m.int .nedges_on_edge e 0 →
    0 ≤ m.int .edges_on_edge e j ∧ m.int .edges_on_edge e j < d.nedges

theorem ConnOK.congr {d : Dims} {m m' : Mem R} (h : ConnOK d m) (hi : m'.int = m.int) :
    ConnOK d m' := by
  constructor <;> rw [hi]
  exacts [h.neoc, h.eoc, h.coe, h.voe, h.eov, h.cov, h.neoe, h.eoe]

/-- owner of an element in a launch over (row, chunk) -/
def own2 (vl : Int) : Int → Int → Int → Idx := fun _ i k => (i, k / vl, 0)
/-- owner of an element in a launch over (tracer, row, chunk) -/
def own3 (vl : Int) : Int → Int → Int → Idx := fun l i k => (l, i, k / vl)
/-- owner of an element in an elementwise launch over (row, layer) -/
def own2e : Int → Int → Int → Idx := fun _ i k => (i, k, 0)
/-- owner of an element in an elementwise launch over (tracer, row, layer) -/
def own3e : Int → Int → Int → Idx := fun l i k => (l, i, k)

theorem chunk_iff {vl k kc : Int} (h : 0 < vl) : k / vl = kc ↔ kc * vl ≤ k ∧ k < kc * vl + vl := by
  constructor
  · rintro rfl
    have h1 := Int.ediv_mul_le k (ne_of_gt h)
    have h2 := Int.lt_ediv_add_one_mul_self k h
    constructor
    · exact h1
    · calc k < (k / vl + 1) * vl := h2
        _ = k / vl * vl + vl := by ring
  · rintro ⟨h1, h2⟩
    have : k = (k - kc * vl) + kc * vl := by ring
    rw [this, Int.add_mul_ediv_right _ _ (ne_of_gt h)]
    rw [Int.ediv_eq_zero_of_lt (by omega) (by omega)]
    ring

section

variable {d : Dims} (hd : DimsOK d)
include hd

theorem DimsOK.lane {kc kvec : Int} (h0 : 0 ≤ kc) (h1 : kc < d.nlayersVec) (h2 : 0 ≤ kvec)
    (h3 : kvec < d.vl) : 0 ≤ kc * d.vl + kvec ∧ kc * d.vl + kvec < d.nlayers := by
  have hv := hd.vl_pos
  have a : 0 ≤ kc * d.vl := mul_nonneg h0 hv.le
  have b : (kc + 1) * d.vl ≤ d.nlayersVec * d.vl := mul_le_mul_of_nonneg_right (by omega) hv.le
  rw [hd.chunks]
  have : (kc + 1) * d.vl = kc * d.vl + d.vl := by ring
  omega

theorem DimsOK.chunk_lt {k : Int} (h0 : 0 ≤ k) (h1 : k < d.nlayers) :
    0 ≤ k / d.vl ∧ k / d.vl < d.nlayersVec := by
  have hv := hd.vl_pos
  refine ⟨Int.ediv_nonneg h0 hv.le, Int.ediv_lt_of_lt_mul hv ?_⟩
  rw [← hd.chunks]; exact h1

theorem DimsOK.start {kc : Int} (h0 : 0 ≤ kc) (h1 : kc < d.nlayersVec) : InInt (kc * d.vl) := by
  have := hd.lane h0 h1 (le_refl 0) hd.vl_pos
  have := hd.fits
  unfold InInt; omega

theorem DimsOK.lane_int {kc kvec : Int} (h0 : 0 ≤ kc) (h1 : kc < d.nlayersVec) (h2 : 0 ≤ kvec)
    (h3 : kvec < d.vl) : InInt (kc * d.vl + kvec) := by
  have := hd.lane h0 h1 h2 h3
  have := hd.fits
  unfold InInt; omega

end

/-! ### Loop rules -/

section

variable {d : Dims} {perm : Loc → Perm} {M : Mem R}

/-- A lane loop over a local array. -/
theorem wp_lset {σ : Type} {vl : Int} (hvl : 0 ≤ vl) {acc : Int → σ}
    {body : Int → (Int → σ) → Prog R (Int → σ)} (f : Int → σ → σ)
    (hs : ∀ kvec a, 0 ≤ kvec → kvec < vl → (a kvec = acc kvec) →
      Wp d perm (body kvec a) M (fun a' M' => a' = lset a kvec (f kvec (acc kvec)) ∧ M' = M))
    {Q : (Int → σ) → Mem R → Prop}
    (hq : ∀ a, (∀ x, 0 ≤ x → x < vl → a x = f x (acc x)) → Q a M) :
    Wp d perm (forI vl acc body) M Q := by
  refine wp_forI hvl (fun i a M' => M' = M ∧ (∀ x, 0 ≤ x → x < i → a x = f x (acc x)) ∧
    ∀ x, i ≤ x → a x = acc x) ⟨rfl, fun x h0 h1 => by omega, fun _ _ => rfl⟩ ?_ ?_
  · rintro i a M' h0 h1 ⟨rfl, ha, hb⟩
    refine wp_mono (hs i a h0 h1 (hb i (le_refl i))) ?_
    rintro a' M'' ⟨rfl, rfl⟩
    refine ⟨rfl, fun x h2 h3 => ?_, fun x h2 => ?_⟩
    · by_cases e : x = i
      · subst e; simp [lset]
      · simp only [lset, e, if_false]; exact ha x h2 (by omega)
    · have e : x ≠ i := by omega
      simp only [lset, e, if_false]; exact hb x (by omega)
  · rintro a M' ⟨rfl, ha, -⟩
    exact hq a ha

theorem wp_forJK {σ β : Type} {n vl : Int} (hn : 0 ≤ n) (hvl : 0 ≤ vl) {s0 : σ}
    {pre : Int → Prog R β} {term : Int → β → Int → σ → Prog R σ}
    (preV : Int → β) (termV : Int → Int → σ → σ)
    (hpre : ∀ j, 0 ≤ j → j < n → Wp d perm (pre j) M (fun b M' => b = preV j ∧ M' = M))
    (hterm : ∀ j kvec s, 0 ≤ j → j < n → 0 ≤ kvec → kvec < vl →
      Wp d perm (term j (preV j) kvec s) M (fun s' M' => s' = termV j kvec s ∧ M' = M))
    {Q : (Int → σ) → Mem R → Prop}
    (hq : ∀ acc, (∀ x, 0 ≤ x → x < vl → acc x = foldI n s0 (fun j s => termV j x s)) → Q acc M) :
    Wp d perm (forJK n vl s0 pre term) M Q := by
  refine wp_forI hn (fun i a M' => M' = M ∧ ∀ x, 0 ≤ x → x < vl →
    a x = foldI i s0 (fun j s => termV j x s)) ⟨rfl, fun _ _ _ => rfl⟩ ?_ ?_
  · rintro j a M' h0 h1 ⟨rfl, ha⟩
    refine wp_bind (wp_mono (hpre j h0 h1) ?_)
    rintro b M'' ⟨rfl, rfl⟩
    refine wp_lset hvl (fun x s => termV j x s) ?_ ?_
    · intro kvec a' h2 h3 h4
      refine wp_bind (wp_mono (hterm j kvec (a' kvec) h0 h1 h2 h3) ?_)
      rintro s' M'' ⟨rfl, rfl⟩
      exact wp_pure' ⟨by rw [h4], rfl⟩
    · intro a' h
      refine ⟨rfl, fun x h2 h3 => ?_⟩
      rw [h x h2 h3, ha x h2 h3, foldI_succ j h0]
  · rintro a M' ⟨rfl, ha⟩
    exact hq a ha

theorem wp_lanesL {vl kstart : Int} (hvl : 0 ≤ vl)
    (hint : ∀ kvec, 0 ≤ kvec → kvec < vl → InInt (kstart + kvec))
    {body : Int → Prog R R} (V : Int → R)
    (hb : ∀ kvec, 0 ≤ kvec → kvec < vl →
      Wp d perm (body (kstart + kvec)) M (fun v M' => v = V (kstart + kvec) ∧ M' = M))
    {Q : (Int → R) → Mem R → Prop}
    (hq : ∀ acc, (∀ x, 0 ≤ x → x < vl → acc x = V (kstart + x)) → Q acc M) :
    Wp d perm (lanesL vl kstart body) M Q := by
  refine wp_lset hvl (fun x _ => V (kstart + x)) ?_ hq
  intro kvec a h0 h1 _
  refine wp_bind (wp_iadd (hint kvec h0 h1) (wp_bind (wp_mono (hb kvec h0 h1) ?_)))
  rintro v M' ⟨rfl, rfl⟩
  exact wp_pure' ⟨rfl, rfl⟩

/-- Slice of a region at one layer. -/
def AtK (P : Region) (k : Int) : Region := fun a l i k' => P a l i k' ∧ k' = k

/-- A lane loop that stores, generic form. -/
theorem wp_lanes_gen {m : Mem R} {A : RArr → Bool} {P : Region} {G : Effect R} {vl kstart : Int}
    (hvl : 0 ≤ vl) (hM : Agree A M m)
    (hP : ∀ a l i k, P a l i k → A a = true ∧ kstart ≤ k ∧ k < kstart + vl)
    {body : Int → Unit → Prog R Unit}
    (hb : ∀ kvec, 0 ≤ kvec → kvec < vl → ∀ M1, Agree A M1 m →
      Wp d perm (body kvec ()) M1 (fun _ M' => M' = M1.upd (AtK P (kstart + kvec)) G)) :
    Wp d perm (forI vl () body) M (fun _ M' => M' = M.upd P G) := by
  refine wp_forI hvl (fun i _ M' => M' = M.upd (fun a l i' k => P a l i' k ∧ k < kstart + i) G)
    ?_ ?_ ?_
  · symm
    apply Mem.upd_none
    rintro a l i k ⟨h1, h2⟩
    have := hP a l i k h1
    omega
  · rintro j - M' h0 h1 rfl
    refine wp_mono (hb j h0 h1 _ (hM.upd G fun a l i k h => (hP a l i k h.1).1)) ?_
    rintro - M' rfl
    refine Mem.ext' rfl ?_
    funext a l i k
    by_cases h : P a l i k
    · rcases lt_trichotomy k (kstart + j) with hk | hk | hk
      · rw [Mem.upd_off (by unfold AtK; omega), Mem.upd_on ⟨h, hk⟩, Mem.upd_on ⟨h, by omega⟩]
      · rw [Mem.upd_on ⟨h, hk⟩, Mem.upd_off (by omega), Mem.upd_on ⟨h, by omega⟩]
      · rw [Mem.upd_off (by unfold AtK; omega), Mem.upd_off (by omega), Mem.upd_off (by omega)]
    · rw [Mem.upd_off (fun h' => h h'.1), Mem.upd_off (fun h' => h h'.1),
        Mem.upd_off (fun h' => h h'.1)]
  · rintro - M' rfl
    apply Mem.upd_congr
    · intro a l i k
      constructor
      · exact fun h => h.1
      · exact fun h => ⟨h, (hP a l i k h).2.2⟩
    · intros; rfl

theorem wp_lanes {m : Mem R} {A : RArr → Bool} {P : Region} {G : Effect R} {vl kstart : Int}
    (hvl : 0 ≤ vl) (hint : ∀ kvec, 0 ≤ kvec → kvec < vl → InInt (kstart + kvec))
    (hM : Agree A M m)
    (hP : ∀ a l i k, P a l i k → A a = true ∧ kstart ≤ k ∧ k < kstart + vl)
    {body : Int → Int → Prog R Unit}
    (hb : ∀ kvec, 0 ≤ kvec → kvec < vl → ∀ M1, Agree A M1 m →
      Wp d perm (body kvec (kstart + kvec)) M1
        (fun _ M' => M' = M1.upd (AtK P (kstart + kvec)) G)) :
    Wp d perm (lanes vl kstart body) M (fun _ M' => M' = M.upd P G) :=
  wp_lanes_gen hvl hM hP fun kvec h0 h1 M1 h =>
    wp_bind (wp_iadd (hint kvec h0 h1) (hb kvec h0 h1 M1 h))

end

/-! ### Effects on single views -/

/-- the effect `g` on view `a`, nothing elsewhere -/
def eff (a : RArr) (g : Int → Int → Int → R → R) : Effect R :=
  fun b l i k v => if b = a then g l i k v else v

theorem eff_same (a : RArr) (g : Int → Int → Int → R → R) (l i k : Int) (v : R) :
    eff a g a l i k v = g l i k v := if_pos rfl
theorem eff_ne {a b : RArr} (h : b ≠ a) (g : Int → Int → Int → R → R) (l i k : Int) (v : R) :
    eff a g b l i k v = v := if_neg h

/-- the location `(a, l, i, k)` is the only one of view `a` in the region -/
def Only (P : Region) (a : RArr) (l i k : Int) : Prop :=
  ∀ l' i' k', P a l' i' k' ↔ l' = l ∧ i' = i ∧ k' = k

theorem setR_upd1 {M : Mem R} {P : Region} {a : RArr} {l i k : Int} {v : R}
    (h : Only P a l i k) (g : Int → Int → Int → R → R) (hv : v = g l i k (M.real a l i k)) :
    M.setR a l i k v = M.upd P (eff a g) := by
  refine Mem.ext' rfl ?_
  funext b l' i' k'
  simp only [Mem.setR]
  by_cases hb : b = a
  · subst hb
    by_cases hl : l' = l ∧ i' = i ∧ k' = k
    · rw [if_pos ⟨rfl, hl⟩, Mem.upd_on ((h l' i' k').2 hl), eff_same]
      obtain ⟨rfl, rfl, rfl⟩ := hl; exact hv
    · rw [if_neg (fun x => hl x.2), Mem.upd_off fun x => hl ((h l' i' k').1 x)]
  · rw [if_neg (fun x => hb x.1)]
    by_cases hP : P b l' i' k'
    · rw [Mem.upd_on hP, eff_ne hb]
    · rw [Mem.upd_off hP]

/-- effect on two views -/
def eff2 (a1 : RArr) (g1 : Int → Int → Int → R → R) (a2 : RArr) (g2 : Int → Int → Int → R → R) :
    Effect R := fun b l i k v => eff a2 g2 b l i k (eff a1 g1 b l i k v)

theorem setR_upd2 {M : Mem R} {P : Region} {a1 a2 : RArr} {l i k : Int} {v1 v2 : R}
    (hne : a2 ≠ a1) (h1 : Only P a1 l i k) (h2 : Only P a2 l i k)
    (g1 g2 : Int → Int → Int → R → R) (hv1 : v1 = g1 l i k (M.real a1 l i k))
    (hv2 : v2 = g2 l i k (M.real a2 l i k)) :
    (M.setR a1 l i k v1).setR a2 l i k v2 = M.upd P (eff2 a1 g1 a2 g2) := by
  rw [setR_upd1 h1 g1 hv1, setR_upd1 h2 g2, Mem.upd_upd]
  · rfl
  · rw [hv2]; congr 1
    by_cases hP : P a2 l i k
    · rw [Mem.upd_on hP, eff_ne hne]
    · rw [Mem.upd_off hP]

/-- effect on three views -/
def eff3 (a1 : RArr) (g1 : Int → Int → Int → R → R) (a2 : RArr) (g2 : Int → Int → Int → R → R)
    (a3 : RArr) (g3 : Int → Int → Int → R → R) :
    Effect R := fun b l i k v => eff a3 g3 b l i k (eff2 a1 g1 a2 g2 b l i k v)

theorem setR_upd3 {M : Mem R} {P : Region} {a1 a2 a3 : RArr} {l i k : Int} {v1 v2 v3 : R}
    (hne : a2 ≠ a1) (hne1 : a3 ≠ a1) (hne2 : a3 ≠ a2)
    (h1 : Only P a1 l i k) (h2 : Only P a2 l i k) (h3 : Only P a3 l i k)
    (g1 g2 g3 : Int → Int → Int → R → R) (hv1 : v1 = g1 l i k (M.real a1 l i k))
    (hv2 : v2 = g2 l i k (M.real a2 l i k)) (hv3 : v3 = g3 l i k (M.real a3 l i k)) :
    ((M.setR a1 l i k v1).setR a2 l i k v2).setR a3 l i k v3 =
      M.upd P (eff3 a1 g1 a2 g2 a3 g3) := by
  rw [setR_upd2 hne h1 h2 g1 g2 hv1 hv2, setR_upd1 h3 g3, Mem.upd_upd]
  · rfl
  · rw [hv3]; congr 1
    by_cases hP : P a3 l i k
    · rw [Mem.upd_on hP]; simp only [eff2]; rw [eff_ne hne1, eff_ne hne2]
    · rw [Mem.upd_off hP]

/-! ### Regions of the launches -/

section

variable {d : Dims} (hd : DimsOK d) {A : RArr → Bool}
include hd

theorem reg2_range {i kc : Int} {a : RArr} {l i' k : Int}
    (h : Reg d A (own2 d.vl) (i, kc, 0) a l i' k) :
    A a = true ∧ kc * d.vl ≤ k ∧ k < kc * d.vl + d.vl := by
  obtain ⟨h1, h2, h3⟩ := h
  simp only [own2, Prod.mk.injEq] at h3
  exact ⟨h1, (chunk_iff hd.vl_pos).1 h3.2.1⟩

theorem reg3_range {l i kc : Int} {a : RArr} {l' i' k : Int}
    (h : Reg d A (own3 d.vl) (l, i, kc) a l' i' k) :
    A a = true ∧ kc * d.vl ≤ k ∧ k < kc * d.vl + d.vl := by
  obtain ⟨h1, h2, h3⟩ := h
  simp only [own3, Prod.mk.injEq] at h3
  exact ⟨h1, (chunk_iff hd.vl_pos).1 h3.2.2⟩

/-- In a (row, chunk) launch, lane `kvec` of a rank-2 view is one location. -/
theorem only2 {a : RArr} {n i kc kvec : Int} (hA : A a = true) (hext : a.ext d = (1, n, d.nlayers))
    (hi : 0 ≤ i ∧ i < n) (hkc : 0 ≤ kc ∧ kc < d.nlayersVec) (hkv : 0 ≤ kvec ∧ kvec < d.vl) :
    Only (AtK (Reg d A (own2 d.vl) (i, kc, 0)) (kc * d.vl + kvec)) a 0 i (kc * d.vl + kvec) := by
  intro l' i' k'
  have hl := hd.lane hkc.1 hkc.2 hkv.1 hkv.2
  simp only [AtK, Reg, own2, RArr.InB, hext, Prod.mk.injEq, and_true]
  constructor
  · rintro ⟨⟨-, h, rfl, -⟩, rfl⟩
    exact ⟨by omega, rfl, rfl⟩
  · rintro ⟨rfl, rfl, rfl⟩
    exact ⟨⟨hA, ⟨by omega, hi, hl⟩, rfl, (chunk_iff hd.vl_pos).2 (by omega)⟩, rfl⟩

/-- In a (tracer, row, chunk) launch, lane `kvec` of a rank-3 view is one location. -/
theorem only3 {a : RArr} {n l i kc kvec : Int} (hA : A a = true)
    (hext : a.ext d = (d.ntracers, n, d.nlayers)) (hlt : 0 ≤ l ∧ l < d.ntracers)
    (hi : 0 ≤ i ∧ i < n) (hkc : 0 ≤ kc ∧ kc < d.nlayersVec) (hkv : 0 ≤ kvec ∧ kvec < d.vl) :
    Only (AtK (Reg d A (own3 d.vl) (l, i, kc)) (kc * d.vl + kvec)) a l i (kc * d.vl + kvec) := by
  intro l' i' k'
  have hl := hd.lane hkc.1 hkc.2 hkv.1 hkv.2
  simp only [AtK, Reg, own3, RArr.InB, hext, Prod.mk.injEq]
  constructor
  · rintro ⟨⟨-, h, rfl, rfl, -⟩, rfl⟩
    exact ⟨rfl, rfl, rfl⟩
  · rintro ⟨rfl, rfl, rfl⟩
    exact ⟨⟨hA, ⟨hlt, hi, hl⟩, rfl, rfl, (chunk_iff hd.vl_pos).2 (by omega)⟩, rfl⟩

end

end Refine
end Omega
