import Verif.Refine.Fn

/-!
# Each kernel updates its own part of its output views with the values of `Fns`
-/

set_option linter.unusedSectionVars false
set_option linter.unusedVariables false

namespace Omega
namespace Refine

open Prog Model

variable {R : Type} [Scalar R]

/-- Setting of a launch that writes the views `A`: valid sizes and connectivity; the mesh is not
written. -/
structure Ctx (d : Dims) (m : Mem R) (A : RArr → Bool) : Prop where
  dims : DimsOK d
  conn : ConnOK d m
  mesh : ∀ b, isMeshR b = true → A b = false

/-- a rank-2 view over cells -/
abbrev CArr (d : Dims) (a : RArr) : Prop := a.ext d = (1, d.ncells, d.nlayers)
/-- a rank-2 view over edges -/
abbrev EArr (d : Dims) (a : RArr) : Prop := a.ext d = (1, d.nedges, d.nlayers)
/-- a rank-2 view over vertices -/
abbrev VArr (d : Dims) (a : RArr) : Prop := a.ext d = (1, d.nvertices, d.nlayers)
/-- a rank-3 view over tracers and cells -/
abbrev TArr (d : Dims) (a : RArr) : Prop := a.ext d = (d.ntracers, d.ncells, d.nlayers)

/-- The kernels `K` compute the functions `F`. -/
structure Kernels.Refines (d : Dims) (K : Kernels R) (F : Fns R) : Prop where
  kinetic : ∀ {m : Mem R} {A vn i kc}, Ctx d m A → A .vel_div_cell = true → A .ke_cell = true →
    A vn = false → EArr d vn → (0 ≤ i ∧ i < d.ncells) → (0 ≤ kc ∧ kc < d.nlayersVec) →
    Op d m A (own2 d.vl) (i, kc, 0) (K.kinetic vn i kc)
      (eff2 .vel_div_cell (fun _ i k _ => F.div m.mesh (m.sl vn 0 k) i)
        .ke_cell (fun _ i k _ => F.ke m.mesh (m.sl vn 0 k) i))
  thickness : ∀ {m : Mem R} {A h i kc}, Ctx d m A → A .mean_h_edge = true →
    A .flux_h_edge = true → A h = false → CArr d h → (0 ≤ i ∧ i < d.nedges) →
    (0 ≤ kc ∧ kc < d.nlayersVec) →
    Op d m A (own2 d.vl) (i, kc, 0) (K.thickness h i kc)
      (eff2 .mean_h_edge (fun _ i k _ => F.hmean m.mesh (m.sl h 0 k) i)
        .flux_h_edge (fun _ i k _ => F.hmean m.mesh (m.sl h 0 k) i))
  normTracer : ∀ {m : Mem R} {A tr h l i kc}, Ctx d m A → A .norm_tr_cell = true →
    A tr = false → A h = false → TArr d tr → CArr d h → (0 ≤ l ∧ l < d.ntracers) →
    (0 ≤ i ∧ i < d.ncells) → (0 ≤ kc ∧ kc < d.nlayersVec) →
    Op d m A (own2 d.vl) (i, kc, 0) (K.normTracer tr h l i kc)
      (eff .norm_tr_cell
        (fun l' i k v => if l' = l then F.ntr (m.sl tr l' k) (m.sl h 0 k) i else v))
  vortVertex : ∀ {m : Mem R} {A h vn f i kc}, Ctx d m A → A .rvort_vertex = true →
    A .norm_rvort_vertex = true → A .norm_pvort_vertex = true → A h = false → A vn = false →
    A f = false → CArr d h → EArr d vn → f.ext d = (1, d.nvertices, 1) →
    (0 ≤ i ∧ i < d.nvertices) → (0 ≤ kc ∧ kc < d.nlayersVec) →
    Op d m A (own2 d.vl) (i, kc, 0) (K.vortVertex h vn f i kc)
      (eff3 .rvort_vertex (fun _ i k _ => F.rvort m.mesh (m.sl vn 0 k) i)
        .norm_rvort_vertex (fun _ i k _ => F.nrv m.mesh (m.sl h 0 k) (m.sl vn 0 k) i)
        .norm_pvort_vertex (fun _ i k _ => F.npv m.mesh (m.sl h 0 k) (m.sl f 0 0) i))
  vortEdge : ∀ {m : Mem R} {A i kc}, Ctx d m A → A .norm_rvort_edge = true →
    A .norm_pvort_edge = true → A .norm_rvort_vertex = false → A .norm_pvort_vertex = false →
    (0 ≤ i ∧ i < d.nedges) → (0 ≤ kc ∧ kc < d.nlayersVec) →
    Op d m A (own2 d.vl) (i, kc, 0) (K.vortEdge i kc)
      (eff2 .norm_rvort_edge (fun _ i k _ => F.vedge m.mesh (m.sl .norm_rvort_vertex 0 k) i)
        .norm_pvort_edge (fun _ i k _ => F.vedge m.mesh (m.sl .norm_pvort_vertex 0 k) i))
  hadv : ∀ {m : Mem R} {A tend v h i kc}, Ctx d m A → A tend = true → A v = false →
    A h = false → CArr d tend → EArr d v → EArr d h → (0 ≤ i ∧ i < d.ncells) →
    (0 ≤ kc ∧ kc < d.nlayersVec) →
    Op d m A (own2 d.vl) (i, kc, 0) (K.hadv tend v h i kc)
      (eff tend fun _ i k t => t + F.hadv m.mesh (m.sl v 0 k) (m.sl h 0 k) i)
  pvFlux : ∀ {m : Mem R} {A tend nrv nf hf vn i kc}, Ctx d m A → A tend = true →
    A nrv = false → A nf = false → A hf = false → A vn = false → EArr d tend → EArr d nrv →
    EArr d nf → EArr d hf → EArr d vn → (0 ≤ i ∧ i < d.nedges) → (0 ≤ kc ∧ kc < d.nlayersVec) →
    Op d m A (own2 d.vl) (i, kc, 0) (K.pvFlux tend nrv nf hf vn i kc)
      (eff tend fun _ i k t =>
        t + F.pv m.mesh (m.sl nrv 0 k) (m.sl nf 0 k) (m.sl hf 0 k) (m.sl vn 0 k) i)
  keGrad : ∀ {m : Mem R} {A tend ke i kc}, Ctx d m A → A tend = true → A ke = false →
    EArr d tend → CArr d ke → (0 ≤ i ∧ i < d.nedges) → (0 ≤ kc ∧ kc < d.nlayersVec) →
    Op d m A (own2 d.vl) (i, kc, 0) (K.keGrad tend ke i kc)
      (eff tend fun _ i k t => t - F.keG m.mesh (m.sl ke 0 k) i)
  sshGrad : ∀ {m : Mem R} {A grav tend h i kc}, Ctx d m A → A tend = true → A h = false →
    EArr d tend → CArr d h → (0 ≤ i ∧ i < d.nedges) → (0 ≤ kc ∧ kc < d.nlayersVec) →
    Op d m A (own2 d.vl) (i, kc, 0) (K.sshGrad grav tend h i kc)
      (eff tend fun _ i k t => t - F.sshG m.mesh grav (m.sl h 0 k) i)
  velDiff : ∀ {m : Mem R} {A visc tend div rv i kc}, Ctx d m A → A tend = true →
    A div = false → A rv = false → EArr d tend → CArr d div → VArr d rv →
    (0 ≤ i ∧ i < d.nedges) → (0 ≤ kc ∧ kc < d.nlayersVec) →
    Op d m A (own2 d.vl) (i, kc, 0) (K.velDiff visc tend div rv i kc)
      (eff tend fun _ i k t => t + F.vdiff m.mesh visc k (m.sl div 0 k) (m.sl rv 0 k) i)
  velDel2 : ∀ {m : Mem R} {A div rv i kc}, Ctx d m A → A .vel_del2_edge = true →
    A div = false → A rv = false → CArr d div → VArr d rv → (0 ≤ i ∧ i < d.nedges) →
    (0 ≤ kc ∧ kc < d.nlayersVec) →
    Op d m A (own2 d.vl) (i, kc, 0) (K.velDel2 div rv i kc)
      (eff .vel_del2_edge fun _ i k _ => F.del2 m.mesh (m.sl div 0 k) (m.sl rv 0 k) i)
  velDel2Rvort : ∀ {m : Mem R} {A i kc}, Ctx d m A → A .vel_del2_rvort_vertex = true →
    A .vel_del2_edge = false → (0 ≤ i ∧ i < d.nvertices) → (0 ≤ kc ∧ kc < d.nlayersVec) →
    Op d m A (own2 d.vl) (i, kc, 0) (K.velDel2Rvort i kc)
      (eff .vel_del2_rvort_vertex fun _ i k _ =>
        F.del2rv m.mesh (m.sl .vel_del2_edge 0 k) (m.sl .vel_del2_edge 0 (k / d.vl * d.vl)) i)
  velDel2Div : ∀ {m : Mem R} {A i kc}, Ctx d m A → A .vel_del2_div_cell = true →
    A .vel_del2_edge = false → (0 ≤ i ∧ i < d.ncells) → (0 ≤ kc ∧ kc < d.nlayersVec) →
    Op d m A (own2 d.vl) (i, kc, 0) (K.velDel2Div i kc)
      (eff .vel_del2_div_cell fun _ i k _ => F.del2div m.mesh (m.sl .vel_del2_edge 0 k) i)
  velHyper : ∀ {m : Mem R} {A visc4 tend i kc}, Ctx d m A → A tend = true →
    A .vel_del2_div_cell = false → A .vel_del2_rvort_vertex = false → EArr d tend →
    (0 ≤ i ∧ i < d.nedges) → (0 ≤ kc ∧ kc < d.nlayersVec) →
    Op d m A (own2 d.vl) (i, kc, 0) (K.velHyper visc4 tend i kc)
      (eff tend fun _ i k t => t - F.vhyper m.mesh visc4 k (m.sl .vel_del2_div_cell 0 k)
        (m.sl .vel_del2_rvort_vertex 0 k) i)
  trHadv : ∀ {m : Mem R} {A tend v ntr hf l i kc}, Ctx d m A → A tend = true → A v = false →
    A ntr = false → A hf = false → TArr d tend → EArr d v → TArr d ntr → EArr d hf →
    (0 ≤ l ∧ l < d.ntracers) → (0 ≤ i ∧ i < d.ncells) → (0 ≤ kc ∧ kc < d.nlayersVec) →
    Op d m A (own3 d.vl) (l, i, kc) (K.trHadv tend v ntr hf l i kc)
      (eff tend fun l i k t => t + F.thadv m.mesh (m.sl v 0 k) (m.sl ntr l k) (m.sl hf 0 k) i)
  trDiff : ∀ {m : Mem R} {A eddy2 tend ntr hm l i kc}, Ctx d m A → A tend = true →
    A ntr = false → A hm = false → TArr d tend → TArr d ntr → EArr d hm →
    (0 ≤ l ∧ l < d.ntracers) → (0 ≤ i ∧ i < d.ncells) → (0 ≤ kc ∧ kc < d.nlayersVec) →
    Op d m A (own3 d.vl) (l, i, kc) (K.trDiff eddy2 tend ntr hm l i kc)
      (eff tend fun l i k t => t + F.tdiff m.mesh eddy2 (m.sl ntr l k) (m.sl hm 0 k) i)
  trDel2 : ∀ {m : Mem R} {A ntr hm l i kc}, Ctx d m A → A .tracer_del2_cell = true →
    A ntr = false → A hm = false → TArr d ntr → EArr d hm →
    (0 ≤ l ∧ l < d.ntracers) → (0 ≤ i ∧ i < d.ncells) → (0 ≤ kc ∧ kc < d.nlayersVec) →
    Op d m A (own3 d.vl) (l, i, kc) (K.trDel2 ntr hm l i kc)
      (eff .tracer_del2_cell fun l i k _ => F.tdel2 m.mesh (m.sl ntr l k) (m.sl hm 0 k) i)
  trHyper : ∀ {m : Mem R} {A eddy4 tend del2 l i kc}, Ctx d m A → A tend = true →
    A del2 = false → TArr d tend → TArr d del2 →
    (0 ≤ l ∧ l < d.ntracers) → (0 ≤ i ∧ i < d.ncells) → (0 ≤ kc ∧ kc < d.nlayersVec) →
    Op d m A (own3 d.vl) (l, i, kc) (K.trHyper eddy4 tend del2 l i kc)
      (eff tend fun l i k t => t + F.thyper m.mesh eddy4 (m.sl del2 l k) i)

/-! ### Proof steps -/

theorem inbE {d : Dims} {a : RArr} {n i k : Int} (h : a.ext d = (1, n, d.nlayers))
    (hi : 0 ≤ i ∧ i < n) (hk : 0 ≤ k ∧ k < d.nlayers) : a.InB d 0 i k := by
  rw [RArr.InB, h]; exact ⟨by simp, hi, hk⟩
theorem inbT {d : Dims} {a : RArr} {n l i k : Int} (h : a.ext d = (d.ntracers, n, d.nlayers))
    (hl : 0 ≤ l ∧ l < d.ntracers) (hi : 0 ≤ i ∧ i < n) (hk : 0 ≤ k ∧ k < d.nlayers) :
    a.InB d l i k := by
  rw [RArr.InB, h]; exact ⟨hl, hi, hk⟩
theorem inb1 {d : Dims} {a : RArr} {n i : Int} (h : a.ext d = (1, n, 1))
    (hi : 0 ≤ i ∧ i < n) : a.InB d 0 i 0 := by
  rw [RArr.InB, h]; exact ⟨by simp, hi, by simp⟩

set_option hygiene false in
/-- close an in-bounds goal -/
macro "inb" : tactic => `(tactic| first
  | exact inbE (by assumption) (by first | omega | (dsimp only; omega)) (by first | omega | (dsimp only; omega))
  | exact inbT (by assumption) (by first | omega | (dsimp only; omega)) (by first | omega | (dsimp only; omega)) (by first | omega | (dsimp only; omega))
  | exact inb1 (by assumption) (by first | omega | (dsimp only; omega))
  | (dsimp only [IArr.InB, IArr.ext, RArr.InB, RArr.ext, maxedges]; omega))

set_option hygiene false in
/-- step over a load from a view the launch does not write -/
macro "ld" : tactic => `(tactic| first
  | exact wp_pure' ⟨rfl, rfl⟩
  | exact gp_rdI2 hp hM (by inb) ⟨rfl, rfl⟩
  | refine wp_bind (gp_rdI2 hp hM (by inb) ?_)
  | refine wp_bind (gp_rdI1 hp hM (by inb) ?_)
  | refine wp_bind (gp_rd1 hp hM (by first | assumption | exact C.mesh _ rfl) (by inb) ?_)
  | refine wp_bind (gp_rd2 hp hM (by first | assumption | exact C.mesh _ rfl) (by inb) ?_)
  | refine wp_bind (gp_rd3 hp hM (by first | assumption | exact C.mesh _ rfl) (by inb) ?_)
  | refine wp_bind (wp_iadd (by assumption) ?_))

section

variable {d : Dims} {m M : Mem R} {A : RArr → Bool} {perm : Loc → Perm}

/-- load of the kernel's own element -/
theorem own_rd2 {P : Region} {a : RArr} {i k : Int} {Q : R → Mem R → Prop} (hp : Good perm A P)
    (ho : Only (AtK P k) a 0 i k) (hb : a.InB d 0 i k) (h : Q (M.real a 0 i k) M) :
    Wp d perm (rd2 a i k) M Q :=
  wp_rd2 hb (by rw [hp.own _ _ _ _ ((ho 0 i k).2 ⟨rfl, rfl, rfl⟩).1]; decide) h
theorem own_rd3 {P : Region} {a : RArr} {l i k : Int} {Q : R → Mem R → Prop} (hp : Good perm A P)
    (ho : Only (AtK P k) a l i k) (hb : a.InB d l i k) (h : Q (M.real a l i k) M) :
    Wp d perm (rd3 a l i k) M Q :=
  wp_rd3 hb (by rw [hp.own _ _ _ _ ((ho l i k).2 ⟨rfl, rfl, rfl⟩).1]; decide) h
/-- store to the kernel's own element -/
theorem own_wr2 {P : Region} {a : RArr} {i k : Int} {v : R} {Q : Unit → Mem R → Prop}
    (hp : Good perm A P) (ho : Only (AtK P k) a 0 i k) (hb : a.InB d 0 i k)
    (h : Q () (M.setR a 0 i k v)) : Wp d perm (wr2 a i k v) M Q :=
  wp_wr2 hb (hp.own _ _ _ _ ((ho 0 i k).2 ⟨rfl, rfl, rfl⟩).1) h
theorem own_wr3 {P : Region} {a : RArr} {l i k : Int} {v : R} {Q : Unit → Mem R → Prop}
    (hp : Good perm A P) (ho : Only (AtK P k) a l i k) (hb : a.InB d l i k)
    (h : Q () (M.setR a l i k v)) : Wp d perm (wr3 a l i k v) M Q :=
  wp_wr3 hb (hp.own _ _ _ _ ((ho l i k).2 ⟨rfl, rfl, rfl⟩).1) h

theorem agree_setR {a : RArr} {l i k : Int} {v : R} (hM : Agree A M m) (ha : A a = true) :
    Agree A (M.setR a l i k v) m where
  int := hM.int
  real b hb := by
    rw [← hM.real b hb]
    funext l' i' k'
    simp only [Mem.setR]
    rw [if_neg]
    rintro ⟨rfl, -⟩
    rw [ha] at hb; exact Bool.noConfusion hb

theorem ksplit (hd : DimsOK d) {kc x : Int} (h0 : 0 ≤ x) (h1 : x < d.vl) :
    (kc * d.vl + x) / d.vl * d.vl = kc * d.vl := by
  rw [(chunk_iff hd.vl_pos).2 (show kc * d.vl ≤ kc * d.vl + x ∧ kc * d.vl + x < kc * d.vl + d.vl by
    omega)]

end

theorem foldI_pair {σ τ : Type} (n : Int) (s : σ) (t : τ) (f : Int → σ → σ) (g : Int → τ → τ)
    (hn : 0 ≤ n) :
    foldI n (s, t) (fun j p => (f j p.1, g j p.2)) = (foldI n s f, foldI n t g) := by
  obtain ⟨k, rfl⟩ : ∃ k : Nat, n = k := ⟨n.toNat, by omega⟩
  clear hn
  induction k with
  | zero => rfl
  | succ k ih => push_cast; rw [foldI_nat_succ, foldI_nat_succ, foldI_nat_succ, ih]

theorem setR_upd_row {M : Mem R} {P : Region} {a : RArr} {l i k : Int} {v : R}
    (hP : P a l i k) (g : Int → Int → Int → R → R)
    (hg : ∀ l' i' k' w, P a l' i' k' → ¬ (l' = l ∧ i' = i ∧ k' = k) → g l' i' k' w = w)
    (hv : v = g l i k (M.real a l i k)) : M.setR a l i k v = M.upd P (eff a g) := by
  refine Mem.ext' rfl ?_
  funext b l' i' k'
  simp only [Mem.setR]
  by_cases hb : b = a
  · subst hb
    by_cases hl : l' = l ∧ i' = i ∧ k' = k
    · rw [if_pos ⟨rfl, hl⟩]
      obtain ⟨rfl, rfl, rfl⟩ := hl
      rw [Mem.upd_on hP, eff_same]; exact hv
    · rw [if_neg (fun x => hl x.2)]
      by_cases hP' : P b l' i' k'
      · rw [Mem.upd_on hP', eff_same, hg _ _ _ _ hP' hl]
      · rw [Mem.upd_off hP']
  · rw [if_neg (fun x => hb x.1)]
    by_cases hP' : P b l' i' k'
    · rw [Mem.upd_on hP', eff_ne hb]
    · rw [Mem.upd_off hP']

set_option hygiene false in
/-- `kstart = kchunk * vector_length` -/
macro "kst" : tactic => `(tactic| refine wp_bind (wp_imul (C.dims.start hkc.1 hkc.2) ?_))

set_option hygiene false in
/-- enter a storing lane loop of a (row, chunk) launch -/
macro "lns2" : tactic => `(tactic| (
  refine wp_lanes C.dims.vl_pos.le (fun x h0 h1 => C.dims.lane_int hkc.1 hkc.2 h0 h1) hM
      (fun a l i k hr => reg2_range C.dims hr) ?_
  intro x h0 h1 M hM
  have hk := C.dims.lane hkc.1 hkc.2 h0 h1))

set_option hygiene false in
/-- enter a storing lane loop of a (tracer, row, chunk) launch -/
macro "lns3" : tactic => `(tactic| (
  refine wp_lanes C.dims.vl_pos.le (fun x h0 h1 => C.dims.lane_int hkc.1 hkc.2 h0 h1) hM
      (fun a l i k hr => reg3_range C.dims hr) ?_
  intro x h0 h1 M hM
  have hk := C.dims.lane hkc.1 hkc.2 h0 h1))

section Default

variable {d : Dims}

theorem d_hadv {m : Mem R} {A : RArr → Bool} {tend v h : RArr} {i kc : Int} (C : Ctx d m A)
    (at' : A tend = true) (av : A v = false) (ah : A h = false)
    (et : CArr d tend) (ev : EArr d v) (eh : EArr d h)
    (hi : 0 ≤ i ∧ i < d.ncells) (hkc : 0 ≤ kc ∧ kc < d.nlayersVec) :
    Op d m A (own2 d.vl) (i, kc, 0) (thickness_hadv_cell d.vl tend v h i kc)
      (eff tend fun _ i k t => t + Fn.hadv m.mesh (m.sl v 0 k) (m.sl h 0 k) i) := by
  intro M hM perm hp
  have hn := C.conn.neoc i hi.1 hi.2
  kst
  ld; ld
  refine wp_bind (wp_forJK hn.1 C.dims.vl_pos.le
    (fun j => m.int .edges_on_cell i j) (fun j x s => s - m.mesh.dv (m.mesh.eoc i j) *
      (lit 1 / m.mesh.areaCell i) * m.mesh.signC i j * m.sl h 0 (kc * d.vl + x) (m.mesh.eoc i j) *
      m.sl v 0 (kc * d.vl + x) (m.mesh.eoc i j)) ?_ ?_ ?_)
  · intro j h0 h1
    ld
  · intro j x s h0 h1 h2 h3
    have hk := C.dims.lane hkc.1 hkc.2 h2 h3
    have hki := C.dims.lane_int hkc.1 hkc.2 h2 h3
    have he := C.conn.eoc i hi.1 hi.2 j h0 h1
    ld; ld; ld; ld; ld; ld
  · intro acc hacc
    lns2
    have ho := only2 C.dims at' et hi hkc ⟨h0, h1⟩
    refine wp_bind (own_rd2 hp ho (by inb) ?_)
    refine own_wr2 hp ho (by inb) (setR_upd1 ho _ ?_)
    rw [hacc x h0 h1]; rfl

theorem d_kinetic {m : Mem R} {A : RArr → Bool} {vn : RArr} {i kc : Int} (C : Ctx d m A)
    (a1 : A .vel_div_cell = true) (a2 : A .ke_cell = true) (av : A vn = false)
    (ev : EArr d vn)
    (hi : 0 ≤ i ∧ i < d.ncells) (hkc : 0 ≤ kc ∧ kc < d.nlayersVec) :
    Op d m A (own2 d.vl) (i, kc, 0) (compute_kinetic_cell d.vl vn i kc)
      (eff2 .vel_div_cell (fun _ i k _ => Fn.div m.mesh (m.sl vn 0 k) i)
        .ke_cell (fun _ i k _ => Fn.ke m.mesh (m.sl vn 0 k) i)) := by
  intro M hM perm hp
  have hn := C.conn.neoc i hi.1 hi.2
  kst
  ld; ld
  refine wp_bind (wp_forJK hn.1 C.dims.vl_pos.le
    (fun j => (m.int .edges_on_cell i j, m.mesh.dv (m.mesh.eoc i j) * m.mesh.dc (m.mesh.eoc i j))) (fun j x s => (s.1 + lit 1 / m.mesh.areaCell i * (m.mesh.dv (m.mesh.eoc i j) * m.mesh.dc (m.mesh.eoc i j)) * m.sl vn 0 (kc * d.vl + x) (m.mesh.eoc i j) *
      m.sl vn 0 (kc * d.vl + x) (m.mesh.eoc i j) * quarter,
      s.2 + lit 1 / m.mesh.areaCell i * m.mesh.dv (m.mesh.eoc i j) * m.mesh.signC i j * m.sl vn 0 (kc * d.vl + x) (m.mesh.eoc i j))) ?_ ?_ ?_)
  · intro j h0 h1
    have he := C.conn.eoc i hi.1 hi.2 j h0 h1
    ld; ld; ld; ld
  · intro j x s h0 h1 h2 h3
    have hk := C.dims.lane hkc.1 hkc.2 h2 h3
    have hki := C.dims.lane_int hkc.1 hkc.2 h2 h3
    have he := C.conn.eoc i hi.1 hi.2 j h0 h1
    ld; ld; ld; ld; ld; ld; ld
  · intro acc hacc
    lns2
    have ho1 := only2 C.dims (a := .vel_div_cell) a1 rfl hi hkc ⟨h0, h1⟩
    have ho2 := only2 C.dims (a := .ke_cell) a2 rfl hi hkc ⟨h0, h1⟩
    refine wp_bind (own_wr2 hp ho1 (by inb) ?_)
    refine own_wr2 hp ho2 (by inb) (setR_upd2 (by decide) ho1 ho2 _ _ ?_ ?_)
    · rw [hacc x h0 h1, foldI_pair _ _ _
        (fun j s => s + lit 1 / m.mesh.areaCell i * (m.mesh.dv (m.mesh.eoc i j) *
          m.mesh.dc (m.mesh.eoc i j)) * m.sl vn 0 (kc * d.vl + x) (m.mesh.eoc i j) *
          m.sl vn 0 (kc * d.vl + x) (m.mesh.eoc i j) * quarter)
        (fun j s => s + lit 1 / m.mesh.areaCell i * m.mesh.dv (m.mesh.eoc i j) *
          m.mesh.signC i j * m.sl vn 0 (kc * d.vl + x) (m.mesh.eoc i j)) hn.1]; rfl
    · rw [hacc x h0 h1, foldI_pair _ _ _
        (fun j s => s + lit 1 / m.mesh.areaCell i * (m.mesh.dv (m.mesh.eoc i j) *
          m.mesh.dc (m.mesh.eoc i j)) * m.sl vn 0 (kc * d.vl + x) (m.mesh.eoc i j) *
          m.sl vn 0 (kc * d.vl + x) (m.mesh.eoc i j) * quarter)
        (fun j s => s + lit 1 / m.mesh.areaCell i * m.mesh.dv (m.mesh.eoc i j) *
          m.mesh.signC i j * m.sl vn 0 (kc * d.vl + x) (m.mesh.eoc i j)) hn.1]; rfl

theorem d_thickness {m : Mem R} {A : RArr → Bool} {h : RArr} {i kc : Int} (C : Ctx d m A)
    (a1 : A .mean_h_edge = true) (a2 : A .flux_h_edge = true) (ah : A h = false)
    (eh : CArr d h)
    (hi : 0 ≤ i ∧ i < d.nedges) (hkc : 0 ≤ kc ∧ kc < d.nlayersVec) :
    Op d m A (own2 d.vl) (i, kc, 0) (compute_thickness_edge d.vl h i kc)
      (eff2 .mean_h_edge (fun _ i k _ => Fn.hmean m.mesh (m.sl h 0 k) i)
        .flux_h_edge (fun _ i k _ => Fn.hmean m.mesh (m.sl h 0 k) i)) := by
  intro M hM perm hp
  have hc0 := C.conn.coe i hi.1 hi.2 0 (by omega) (by omega)
  have hc1 := C.conn.coe i hi.1 hi.2 1 (by omega) (by omega)
  kst
  ld; ld
  refine wp_bind (wp_lanesL C.dims.vl_pos.le
    (fun x h0 h1 => C.dims.lane_int hkc.1 hkc.2 h0 h1)
    (fun k => Fn.hmean m.mesh (m.sl h 0 k) i) ?_ ?_)
  · intro x h0 h1
    have hk := C.dims.lane hkc.1 hkc.2 h0 h1
    ld; ld; ld
  · intro acc hacc
    lns2
    have ho1 := only2 C.dims (a := .mean_h_edge) a1 rfl hi hkc ⟨h0, h1⟩
    have ho2 := only2 C.dims (a := .flux_h_edge) a2 rfl hi hkc ⟨h0, h1⟩
    refine wp_bind (own_wr2 hp ho1 (by inb) ?_)
    refine own_wr2 hp ho2 (by inb) (setR_upd2 (by decide) ho1 ho2 _ _ ?_ ?_)
    · rw [hacc x h0 h1]
    · rw [hacc x h0 h1]

theorem d_normTracer {m : Mem R} {A : RArr → Bool} {tr h : RArr} {l : Int} {i kc : Int} (C : Ctx d m A)
    (a1 : A .norm_tr_cell = true) (at' : A tr = false) (ah : A h = false)
    (et : TArr d tr) (eh : CArr d h)
    (hl : 0 ≤ l ∧ l < d.ntracers) (hi : 0 ≤ i ∧ i < d.ncells) (hkc : 0 ≤ kc ∧ kc < d.nlayersVec) :
    Op d m A (own2 d.vl) (i, kc, 0) (compute_norm_tracer_cell d.vl tr h l i kc)
      (eff .norm_tr_cell
        (fun l' i k v => if l' = l then Fn.ntr (m.sl tr l' k) (m.sl h 0 k) i else v)) := by
  intro M hM perm hp
  unfold compute_norm_tracer_cell
  rw [show (imul d.vl kc : Prog R Int) = imul kc d.vl by unfold imul; rw [mul_comm]]
  kst
  refine wp_bind (wp_lanesL C.dims.vl_pos.le
    (fun x h0 h1 => C.dims.lane_int hkc.1 hkc.2 h0 h1)
    (fun k => Fn.ntr (m.sl tr l k) (m.sl h 0 k) i) ?_ ?_)
  · intro x h0 h1
    have hk := C.dims.lane hkc.1 hkc.2 h0 h1
    ld; ld; ld
  · intro acc hacc
    lns2
    have hr : Reg d A (own2 d.vl) (i, kc, 0) .norm_tr_cell l i (kc * d.vl + x) :=
      ⟨a1, by inb, by
        simp only [own2]; rw [(chunk_iff C.dims.vl_pos).2 (show kc * d.vl ≤ kc * d.vl + x ∧
          kc * d.vl + x < kc * d.vl + d.vl by omega)]⟩
    refine wp_wr3 (by inb) (hp.own _ _ _ _ hr) (setR_upd_row ⟨hr, rfl⟩ _ ?_ ?_)
    · rintro l' i' k' w ⟨hr', rfl⟩ hne
      rw [if_neg]
      rintro rfl
      have := hr'.2.2
      simp only [own2, Prod.mk.injEq] at this
      exact hne ⟨rfl, this.1, rfl⟩
    · rw [if_pos rfl, hacc x h0 h1]

theorem d_vortVertex {m : Mem R} {A : RArr → Bool} {h vn f : RArr} {i kc : Int} (C : Ctx d m A)
    (a1 : A .rvort_vertex = true) (a2 : A .norm_rvort_vertex = true)
    (a3 : A .norm_pvort_vertex = true) (ah : A h = false) (av : A vn = false) (af : A f = false)
    (eh : CArr d h) (ev : EArr d vn) (ef : f.ext d = (1, d.nvertices, 1))
    (hi : 0 ≤ i ∧ i < d.nvertices) (hkc : 0 ≤ kc ∧ kc < d.nlayersVec) :
    Op d m A (own2 d.vl) (i, kc, 0) (compute_vort_vertex d.vl h vn f i kc)
      (eff3 .rvort_vertex (fun _ i k _ => Fn.rvort m.mesh (m.sl vn 0 k) i)
        .norm_rvort_vertex (fun _ i k _ => Fn.nrv m.mesh (m.sl h 0 k) (m.sl vn 0 k) i)
        .norm_pvort_vertex (fun _ i k _ => Fn.npv m.mesh (m.sl h 0 k) (m.sl f 0 0) i)) := by
  intro M hM perm hp
  kst
  ld
  refine wp_bind (wp_forJK (by omega) C.dims.vl_pos.le
    (fun j => (m.int .edges_on_vertex i j, m.int .cells_on_vertex i j))
    (fun j x s => (s.1 + m.mesh.dc (m.mesh.eov i j) * (lit 1 / m.mesh.areaTri i) * m.mesh.signV i j * m.sl vn 0 (kc * d.vl + x) (m.mesh.eov i j),
      s.2 + m.mesh.kite i j * (lit 1 / m.mesh.areaTri i) * m.sl h 0 (kc * d.vl + x) (m.mesh.cov i j))) ?_ ?_ ?_)
  · intro j h0 h1
    ld; ld; ld
  · intro j x s h0 h1 h2 h3
    have hk := C.dims.lane hkc.1 hkc.2 h2 h3
    have hki := C.dims.lane_int hkc.1 hkc.2 h2 h3
    have he := C.conn.eov i hi.1 hi.2 j h0 h1
    have hc := C.conn.cov i hi.1 hi.2 j h0 h1
    ld; ld; ld; ld; ld; ld; ld
  · intro acc hacc
    lns2
    have ho1 := only2 C.dims (a := .rvort_vertex) a1 rfl hi hkc ⟨h0, h1⟩
    have ho2 := only2 C.dims (a := .norm_rvort_vertex) a2 rfl hi hkc ⟨h0, h1⟩
    have ho3 := only2 C.dims (a := .norm_pvort_vertex) a3 rfl hi hkc ⟨h0, h1⟩
    have hv : acc x = (Fn.rvort m.mesh (m.sl vn 0 (kc * d.vl + x)) i, Fn.hvert m.mesh (m.sl h 0 (kc * d.vl + x)) i) := by
      rw [hacc x h0 h1, foldI_pair _ _ _
      (fun j s => s + m.mesh.dc (m.mesh.eov i j) * (lit 1 / m.mesh.areaTri i) * m.mesh.signV i j *
        m.sl vn 0 (kc * d.vl + x) (m.mesh.eov i j))
      (fun j s => s + m.mesh.kite i j * (lit 1 / m.mesh.areaTri i) *
        m.sl h 0 (kc * d.vl + x) (m.mesh.cov i j)) (by omega)]; rfl
    refine wp_bind (own_wr2 hp ho1 (by inb) ?_)
    refine wp_bind (own_wr2 hp ho2 (by inb) ?_)
    refine wp_bind (gp_rd1 hp (agree_setR (agree_setR hM a1) a2) af (by inb) ?_)
    refine own_wr2 hp ho3 (by inb)
      (setR_upd3 (by decide) (by decide) (by decide) ho1 ho2 ho3 _ _ _ ?_ ?_ ?_)
    · rw [hv]
    · rw [hv]; rfl
    · rw [hv]; rfl

theorem d_vortEdge {m : Mem R} {A : RArr → Bool} {i kc : Int} (C : Ctx d m A)
    (a1 : A .norm_rvort_edge = true) (a2 : A .norm_pvort_edge = true)
    (ar : A .norm_rvort_vertex = false) (ap : A .norm_pvort_vertex = false)
    (hi : 0 ≤ i ∧ i < d.nedges) (hkc : 0 ≤ kc ∧ kc < d.nlayersVec) :
    Op d m A (own2 d.vl) (i, kc, 0) (compute_vort_edge d.vl i kc)
      (eff2 .norm_rvort_edge (fun _ i k _ => Fn.vedge m.mesh (m.sl .norm_rvort_vertex 0 k) i)
        .norm_pvort_edge (fun _ i k _ => Fn.vedge m.mesh (m.sl .norm_pvort_vertex 0 k) i)) := by
  intro M hM perm hp
  have hv0 := C.conn.voe i hi.1 hi.2 0 (by omega) (by omega)
  have hv1 := C.conn.voe i hi.1 hi.2 1 (by omega) (by omega)
  kst
  ld; ld
  lns2
  have ho1 := only2 C.dims (a := .norm_rvort_edge) a1 rfl hi hkc ⟨h0, h1⟩
  have ho2 := only2 C.dims (a := .norm_pvort_edge) a2 rfl hi hkc ⟨h0, h1⟩
  ld; ld
  refine wp_bind (own_wr2 hp ho1 (by inb) ?_)
  refine wp_bind (gp_rd2 hp (agree_setR hM a1) ap (by inb) ?_)
  refine wp_bind (gp_rd2 hp (agree_setR hM a1) ap (by inb) ?_)
  exact own_wr2 hp ho2 (by inb) (setR_upd2 (by decide) ho1 ho2 _ _ rfl rfl)

theorem d_pvFlux {m : Mem R} {A : RArr → Bool} {tend nrv nf hf vn : RArr} {i kc : Int} (C : Ctx d m A)
    (at' : A tend = true) (a1 : A nrv = false) (a2 : A nf = false)
    (a3 : A hf = false) (a4 : A vn = false) (et : EArr d tend) (e1 : EArr d nrv) (e2 : EArr d nf)
    (e3 : EArr d hf) (e4 : EArr d vn)
    (hi : 0 ≤ i ∧ i < d.nedges) (hkc : 0 ≤ kc ∧ kc < d.nlayersVec) :
    Op d m A (own2 d.vl) (i, kc, 0) (pv_flux_edge d.vl tend nrv nf hf vn i kc)
      (eff tend fun _ i k t =>
        t + Fn.pv m.mesh (m.sl nrv 0 k) (m.sl nf 0 k) (m.sl hf 0 k) (m.sl vn 0 k) i) := by
  intro M hM perm hp
  have hn := C.conn.neoe i hi.1 hi.2
  kst
  ld
  refine wp_bind (wp_forJK hn.1 C.dims.vl_pos.le
    (fun j => m.int .edges_on_edge i j)
    (fun j x s => s + m.mesh.woe i j * m.sl hf 0 (kc * d.vl + x) (m.mesh.eoe i j) *
      m.sl vn 0 (kc * d.vl + x) (m.mesh.eoe i j) * ((m.sl nrv 0 (kc * d.vl + x) i + m.sl nf 0 (kc * d.vl + x) i +
      m.sl nrv 0 (kc * d.vl + x) (m.mesh.eoe i j) + m.sl nf 0 (kc * d.vl + x) (m.mesh.eoe i j)) * half)) ?_ ?_ ?_)
  · intro j h0 h1
    ld
  · intro j x s h0 h1 h2 h3
    have hk := C.dims.lane hkc.1 hkc.2 h2 h3
    have hki := C.dims.lane_int hkc.1 hkc.2 h2 h3
    have he := C.conn.eoe i hi.1 hi.2 j h0 h1
    ld; ld; ld; ld; ld; ld; ld; ld; ld
  · intro acc hacc
    lns2
    have ho := only2 C.dims at' et hi hkc ⟨h0, h1⟩
    refine wp_bind (own_rd2 hp ho (by inb) ?_)
    refine own_wr2 hp ho (by inb) (setR_upd1 ho _ ?_)
    rw [hacc x h0 h1]; rfl

theorem d_keGrad {m : Mem R} {A : RArr → Bool} {tend ke : RArr} {i kc : Int} (C : Ctx d m A)
    (at' : A tend = true) (a1 : A ke = false) (et : EArr d tend) (e1 : CArr d ke)
    (hi : 0 ≤ i ∧ i < d.nedges) (hkc : 0 ≤ kc ∧ kc < d.nlayersVec) :
    Op d m A (own2 d.vl) (i, kc, 0) (ke_grad_edge d.vl tend ke i kc)
      (eff tend fun _ i k t => t - Fn.keG m.mesh (m.sl ke 0 k) i) := by
  intro M hM perm hp
  have hc0 := C.conn.coe i hi.1 hi.2 0 (by omega) (by omega)
  have hc1 := C.conn.coe i hi.1 hi.2 1 (by omega) (by omega)
  kst
  ld; ld; ld
  lns2
  have ho := only2 C.dims at' et hi hkc ⟨h0, h1⟩
  refine wp_bind (own_rd2 hp ho (by inb) ?_)
  ld; ld
  exact own_wr2 hp ho (by inb) (setR_upd1 ho _ rfl)

theorem d_sshGrad {m : Mem R} {A : RArr → Bool} {grav : R} {tend h : RArr} {i kc : Int} (C : Ctx d m A)
    (at' : A tend = true) (a1 : A h = false) (et : EArr d tend) (e1 : CArr d h)
    (hi : 0 ≤ i ∧ i < d.nedges) (hkc : 0 ≤ kc ∧ kc < d.nlayersVec) :
    Op d m A (own2 d.vl) (i, kc, 0) (ssh_grad_edge d.vl grav tend h i kc)
      (eff tend fun _ i k t => t - Fn.sshG m.mesh grav (m.sl h 0 k) i) := by
  intro M hM perm hp
  have hc0 := C.conn.coe i hi.1 hi.2 0 (by omega) (by omega)
  have hc1 := C.conn.coe i hi.1 hi.2 1 (by omega) (by omega)
  kst
  ld; ld; ld
  lns2
  have ho := only2 C.dims at' et hi hkc ⟨h0, h1⟩
  refine wp_bind (own_rd2 hp ho (by inb) ?_)
  ld; ld
  exact own_wr2 hp ho (by inb) (setR_upd1 ho _ rfl)

theorem d_velDiff {m : Mem R} {A : RArr → Bool} {visc : R} {tend div rv : RArr} {i kc : Int} (C : Ctx d m A)
    (at' : A tend = true) (a1 : A div = false) (a2 : A rv = false)
    (et : EArr d tend) (e1 : CArr d div) (e2 : VArr d rv)
    (hi : 0 ≤ i ∧ i < d.nedges) (hkc : 0 ≤ kc ∧ kc < d.nlayersVec) :
    Op d m A (own2 d.vl) (i, kc, 0) (vel_diff_edge d.vl visc tend div rv i kc)
      (eff tend fun _ i k t => t + Fn.vdiff m.mesh visc k (m.sl div 0 k) (m.sl rv 0 k) i) := by
  intro M hM perm hp
  have hc0 := C.conn.coe i hi.1 hi.2 0 (by omega) (by omega)
  have hc1 := C.conn.coe i hi.1 hi.2 1 (by omega) (by omega)
  have hv0 := C.conn.voe i hi.1 hi.2 0 (by omega) (by omega)
  have hv1 := C.conn.voe i hi.1 hi.2 1 (by omega) (by omega)
  kst
  ld; ld; ld; ld; ld; ld
  lns2
  have ho := only2 C.dims at' et hi hkc ⟨h0, h1⟩
  ld; ld; ld; ld
  refine wp_bind (own_rd2 hp ho (by inb) ?_)
  ld; ld
  exact own_wr2 hp ho (by inb) (setR_upd1 ho _ rfl)

theorem d_velDel2 {m : Mem R} {A : RArr → Bool} {div rv : RArr} {i kc : Int} (C : Ctx d m A)
    (at' : A .vel_del2_edge = true) (a1 : A div = false) (a2 : A rv = false)
    (e1 : CArr d div) (e2 : VArr d rv)
    (hi : 0 ≤ i ∧ i < d.nedges) (hkc : 0 ≤ kc ∧ kc < d.nlayersVec) :
    Op d m A (own2 d.vl) (i, kc, 0) (compute_vel_del2 d.vl div rv i kc)
      (eff .vel_del2_edge fun _ i k _ => Fn.del2 m.mesh (m.sl div 0 k) (m.sl rv 0 k) i) := by
  intro M hM perm hp
  have hc0 := C.conn.coe i hi.1 hi.2 0 (by omega) (by omega)
  have hc1 := C.conn.coe i hi.1 hi.2 1 (by omega) (by omega)
  have hv0 := C.conn.voe i hi.1 hi.2 0 (by omega) (by omega)
  have hv1 := C.conn.voe i hi.1 hi.2 1 (by omega) (by omega)
  kst
  ld; ld; ld; ld; ld; ld
  lns2
  have ho := only2 C.dims (a := .vel_del2_edge) at' rfl hi hkc ⟨h0, h1⟩
  ld; ld; ld; ld
  exact own_wr2 hp ho (by inb) (setR_upd1 ho _ rfl)

theorem d_velHyper {m : Mem R} {A : RArr → Bool} {visc4 : R} {tend : RArr} {i kc : Int} (C : Ctx d m A)
    (at' : A tend = true) (a1 : A .vel_del2_div_cell = false)
    (a2 : A .vel_del2_rvort_vertex = false) (et : EArr d tend)
    (hi : 0 ≤ i ∧ i < d.nedges) (hkc : 0 ≤ kc ∧ kc < d.nlayersVec) :
    Op d m A (own2 d.vl) (i, kc, 0) (vel_hyperdiff_edge d.vl visc4 tend i kc)
      (eff tend fun _ i k t => t - Fn.vhyper m.mesh visc4 k (m.sl .vel_del2_div_cell 0 k)
        (m.sl .vel_del2_rvort_vertex 0 k) i) := by
  intro M hM perm hp
  have hc0 := C.conn.coe i hi.1 hi.2 0 (by omega) (by omega)
  have hc1 := C.conn.coe i hi.1 hi.2 1 (by omega) (by omega)
  have hv0 := C.conn.voe i hi.1 hi.2 0 (by omega) (by omega)
  have hv1 := C.conn.voe i hi.1 hi.2 1 (by omega) (by omega)
  kst
  ld; ld; ld; ld; ld; ld
  lns2
  have ho := only2 C.dims at' et hi hkc ⟨h0, h1⟩
  ld; ld; ld; ld
  refine wp_bind (own_rd2 hp ho (by inb) ?_)
  ld; ld
  exact own_wr2 hp ho (by inb) (setR_upd1 ho _ rfl)

theorem d_velDel2Rvort {m : Mem R} {A : RArr → Bool} {i kc : Int} (C : Ctx d m A)
    (at' : A .vel_del2_rvort_vertex = true) (a1 : A .vel_del2_edge = false)
    (hi : 0 ≤ i ∧ i < d.nvertices) (hkc : 0 ≤ kc ∧ kc < d.nlayersVec) :
    Op d m A (own2 d.vl) (i, kc, 0) (compute_vel_del2_rvort d.vl i kc)
      (eff .vel_del2_rvort_vertex fun _ i k _ => Fn.rvort m.mesh (m.sl .vel_del2_edge 0 k) i) := by
  intro M hM perm hp
  kst
  ld
  refine wp_bind (wp_forJK (by omega) C.dims.vl_pos.le
    (fun j => m.int .edges_on_vertex i j)
    (fun j x s => s + m.mesh.dc (m.mesh.eov i j) * (lit 1 / m.mesh.areaTri i) * m.mesh.signV i j *
      m.sl .vel_del2_edge 0 (kc * d.vl + x) (m.mesh.eov i j)) ?_ ?_ ?_)
  · intro j h0 h1
    ld
  · intro j x s h0 h1 h2 h3
    have hk := C.dims.lane hkc.1 hkc.2 h2 h3
    have hki := C.dims.lane_int hkc.1 hkc.2 h2 h3
    have he := C.conn.eov i hi.1 hi.2 j h0 h1
    ld; ld; ld; ld; ld
  · intro acc hacc
    lns2
    have ho := only2 C.dims (a := .vel_del2_rvort_vertex) at' rfl hi hkc ⟨h0, h1⟩
    refine own_wr2 hp ho (by inb) (setR_upd1 ho _ ?_)
    rw [hacc x h0 h1]; rfl

theorem d_velDel2Div {m : Mem R} {A : RArr → Bool} {i kc : Int} (C : Ctx d m A)
    (at' : A .vel_del2_div_cell = true) (a1 : A .vel_del2_edge = false)
    (hi : 0 ≤ i ∧ i < d.ncells) (hkc : 0 ≤ kc ∧ kc < d.nlayersVec) :
    Op d m A (own2 d.vl) (i, kc, 0) (compute_vel_del2_div d.vl i kc)
      (eff .vel_del2_div_cell fun _ i k _ => Fn.del2div m.mesh (m.sl .vel_del2_edge 0 k) i) := by
  intro M hM perm hp
  have hn := C.conn.neoc i hi.1 hi.2
  kst
  ld; ld
  refine wp_bind (wp_forJK hn.1 C.dims.vl_pos.le
    (fun j => m.int .edges_on_cell i j) (fun j x s => s + m.mesh.dv (m.mesh.eoc i j) *
      (lit 1 / m.mesh.areaCell i) * m.mesh.signC i j * m.sl .vel_del2_edge 0 (kc * d.vl + x) (m.mesh.eoc i j)) ?_ ?_ ?_)
  · intro j h0 h1
    ld
  · intro j x s h0 h1 h2 h3
    have hk := C.dims.lane hkc.1 hkc.2 h2 h3
    have hki := C.dims.lane_int hkc.1 hkc.2 h2 h3
    have he := C.conn.eoc i hi.1 hi.2 j h0 h1
    ld; ld; ld; ld; ld
  · intro acc hacc
    lns2
    have ho := only2 C.dims (a := .vel_del2_div_cell) at' rfl hi hkc ⟨h0, h1⟩
    refine own_wr2 hp ho (by inb) (setR_upd1 ho _ ?_)
    rw [hacc x h0 h1]; rfl

theorem d_trHadv {m : Mem R} {A : RArr → Bool} {tend v ntr hf : RArr} {l : Int} {i kc : Int} (C : Ctx d m A)
    (at' : A tend = true) (a1 : A v = false) (a2 : A ntr = false) (a3 : A hf = false)
    (et : TArr d tend) (e1 : EArr d v) (e2 : TArr d ntr) (e3 : EArr d hf)
    (hl : 0 ≤ l ∧ l < d.ntracers) (hi : 0 ≤ i ∧ i < d.ncells) (hkc : 0 ≤ kc ∧ kc < d.nlayersVec) :
    Op d m A (own3 d.vl) (l, i, kc) (tracer_hadv_cell d.vl tend v ntr hf l i kc)
      (eff tend fun l i k t =>
        t + Fn.thadv m.mesh (m.sl v 0 k) (m.sl ntr l k) (m.sl hf 0 k) i) := by
  intro M hM perm hp
  have hn := C.conn.neoc i hi.1 hi.2
  kst
  ld; ld
  refine wp_bind (wp_forJK hn.1 C.dims.vl_pos.le
    (fun j => (m.int .edges_on_cell i j, m.mesh.coe (m.mesh.eoc i j) 0, m.mesh.coe (m.mesh.eoc i j) 1)) (fun j x s => s - m.mesh.dv (m.mesh.eoc i j) * (lit 1 / m.mesh.areaCell i) * m.mesh.signC i j * m.sl hf 0 (kc * d.vl + x) (m.mesh.eoc i j) *
      ((m.sl ntr l (kc * d.vl + x) (m.mesh.coe (m.mesh.eoc i j) 0) +
      m.sl ntr l (kc * d.vl + x) (m.mesh.coe (m.mesh.eoc i j) 1)) * half) * m.sl v 0 (kc * d.vl + x) (m.mesh.eoc i j)) ?_ ?_ ?_)
  · intro j h0 h1
    have he := C.conn.eoc i hi.1 hi.2 j h0 h1
    have hc0 := C.conn.coe _ he.1 he.2 0 (by omega) (by omega)
    have hc1 := C.conn.coe _ he.1 he.2 1 (by omega) (by omega)
    ld; ld; ld; ld
  · intro j x s h0 h1 h2 h3
    have hk := C.dims.lane hkc.1 hkc.2 h2 h3
    have hki := C.dims.lane_int hkc.1 hkc.2 h2 h3
    have he := C.conn.eoc i hi.1 hi.2 j h0 h1
    have hc0 := C.conn.coe _ he.1 he.2 0 (by omega) (by omega)
    have hc1 := C.conn.coe _ he.1 he.2 1 (by omega) (by omega)
    ld
    refine wp_bind (gp_rd3 hp hM a2 (inbT e2 hl hc0 hk) ?_)
    refine wp_bind (gp_rd3 hp hM a2 (inbT e2 hl hc1 hk) ?_)
    ld; ld; ld; ld; ld
  · intro acc hacc
    lns3
    have ho := only3 C.dims at' et hl hi hkc ⟨h0, h1⟩
    refine wp_bind (own_rd3 hp ho (by inb) ?_)
    refine own_wr3 hp ho (by inb) (setR_upd1 ho _ ?_)
    rw [hacc x h0 h1]; rfl

theorem d_trDiff {m : Mem R} {A : RArr → Bool} {eddy2 : R} {tend ntr hm : RArr} {l : Int} {i kc : Int} (C : Ctx d m A)
    (at' : A tend = true) (a2 : A ntr = false) (a3 : A hm = false)
    (et : TArr d tend) (e2 : TArr d ntr) (e3 : EArr d hm)
    (hl : 0 ≤ l ∧ l < d.ntracers) (hi : 0 ≤ i ∧ i < d.ncells) (hkc : 0 ≤ kc ∧ kc < d.nlayersVec) :
    Op d m A (own3 d.vl) (l, i, kc) (tracer_diff_cell d.vl eddy2 tend ntr hm l i kc)
      (eff tend fun l i k t =>
        t + Fn.tdiff m.mesh eddy2 (m.sl ntr l k) (m.sl hm 0 k) i) := by
  intro M hM perm hp
  have hn := C.conn.neoc i hi.1 hi.2
  kst
  ld; ld
  refine wp_bind (wp_forJK hn.1 C.dims.vl_pos.le
    (fun j => (m.int .edges_on_cell i j, m.mesh.coe (m.mesh.eoc i j) 0, m.mesh.coe (m.mesh.eoc i j) 1,
      lit 1 / m.mesh.dc (m.mesh.eoc i j))) (fun j x s => s + eddy2 * (lit 1 / m.mesh.areaCell i) * m.mesh.dv (m.mesh.eoc i j) * m.mesh.signC i j *
      m.sl hm 0 (kc * d.vl + x) (m.mesh.eoc i j) * m.mesh.sdel2 (m.mesh.eoc i j) *
      ((m.sl ntr l (kc * d.vl + x) (m.mesh.coe (m.mesh.eoc i j) 1) -
      m.sl ntr l (kc * d.vl + x) (m.mesh.coe (m.mesh.eoc i j) 0)) * (lit 1 / m.mesh.dc (m.mesh.eoc i j)))) ?_ ?_ ?_)
  · intro j h0 h1
    have he := C.conn.eoc i hi.1 hi.2 j h0 h1
    ld; ld; ld; ld; ld
  · intro j x s h0 h1 h2 h3
    have hk := C.dims.lane hkc.1 hkc.2 h2 h3
    have hki := C.dims.lane_int hkc.1 hkc.2 h2 h3
    have he := C.conn.eoc i hi.1 hi.2 j h0 h1
    have hc0 := C.conn.coe _ he.1 he.2 0 (by omega) (by omega)
    have hc1 := C.conn.coe _ he.1 he.2 1 (by omega) (by omega)
    ld
    refine wp_bind (gp_rd3 hp hM a2 (inbT e2 hl hc1 hk) ?_)
    refine wp_bind (gp_rd3 hp hM a2 (inbT e2 hl hc0 hk) ?_)
    ld; ld; ld; ld; ld
  · intro acc hacc
    lns3
    have ho := only3 C.dims at' et hl hi hkc ⟨h0, h1⟩
    refine wp_bind (own_rd3 hp ho (by inb) ?_)
    refine own_wr3 hp ho (by inb) (setR_upd1 ho _ ?_)
    rw [hacc x h0 h1]; rfl

theorem d_trDel2 {m : Mem R} {A : RArr → Bool} {ntr hm : RArr} {l : Int} {i kc : Int} (C : Ctx d m A)
    (at' : A .tracer_del2_cell = true) (a2 : A ntr = false) (a3 : A hm = false)
    (e2 : TArr d ntr) (e3 : EArr d hm)
    (hl : 0 ≤ l ∧ l < d.ntracers) (hi : 0 ≤ i ∧ i < d.ncells) (hkc : 0 ≤ kc ∧ kc < d.nlayersVec) :
    Op d m A (own3 d.vl) (l, i, kc) (compute_tracer_del2 d.vl ntr hm l i kc)
      (eff .tracer_del2_cell fun l i k _ => Fn.tdel2 m.mesh (m.sl ntr l k) (m.sl hm 0 k) i) := by
  intro M hM perm hp
  have hn := C.conn.neoc i hi.1 hi.2
  kst
  ld; ld
  refine wp_bind (wp_forJK hn.1 C.dims.vl_pos.le
    (fun j => (m.int .edges_on_cell i j, m.mesh.coe (m.mesh.eoc i j) 0, m.mesh.coe (m.mesh.eoc i j) 1,
      lit 1 / m.mesh.dc (m.mesh.eoc i j))) (fun j x s => s + m.mesh.dv (m.mesh.eoc i j) * (lit 1 / m.mesh.areaCell i) * m.mesh.signC i j *
      m.sl hm 0 (kc * d.vl + x) (m.mesh.eoc i j) *
      ((m.sl ntr l (kc * d.vl + x) (m.mesh.coe (m.mesh.eoc i j) 1) -
      m.sl ntr l (kc * d.vl + x) (m.mesh.coe (m.mesh.eoc i j) 0)) * (lit 1 / m.mesh.dc (m.mesh.eoc i j)))) ?_ ?_ ?_)
  · intro j h0 h1
    have he := C.conn.eoc i hi.1 hi.2 j h0 h1
    ld; ld; ld; ld; ld
  · intro j x s h0 h1 h2 h3
    have hk := C.dims.lane hkc.1 hkc.2 h2 h3
    have hki := C.dims.lane_int hkc.1 hkc.2 h2 h3
    have he := C.conn.eoc i hi.1 hi.2 j h0 h1
    have hc0 := C.conn.coe _ he.1 he.2 0 (by omega) (by omega)
    have hc1 := C.conn.coe _ he.1 he.2 1 (by omega) (by omega)
    ld
    refine wp_bind (gp_rd3 hp hM a2 (inbT e2 hl hc1 hk) ?_)
    refine wp_bind (gp_rd3 hp hM a2 (inbT e2 hl hc0 hk) ?_)
    ld; ld; ld; ld
  · intro acc hacc
    lns3
    have ho := only3 C.dims (a := .tracer_del2_cell) at' rfl hl hi hkc ⟨h0, h1⟩
    refine own_wr3 hp ho (by inb) (setR_upd1 ho _ ?_)
    rw [hacc x h0 h1]; rfl

theorem d_trHyper {m : Mem R} {A : RArr → Bool} {eddy4 : R} {tend del2 : RArr} {l : Int} {i kc : Int} (C : Ctx d m A)
    (at' : A tend = true) (a2 : A del2 = false) (et : TArr d tend) (e2 : TArr d del2)
    (hl : 0 ≤ l ∧ l < d.ntracers) (hi : 0 ≤ i ∧ i < d.ncells) (hkc : 0 ≤ kc ∧ kc < d.nlayersVec) :
    Op d m A (own3 d.vl) (l, i, kc) (tracer_hyperdiff_cell d.vl eddy4 tend del2 l i kc)
      (eff tend fun l i k t => t + Fn.thyper m.mesh eddy4 (m.sl del2 l k) i) := by
  intro M hM perm hp
  have hn := C.conn.neoc i hi.1 hi.2
  kst
  ld; ld
  refine wp_bind (wp_forJK hn.1 C.dims.vl_pos.le
    (fun j => (m.int .edges_on_cell i j, m.mesh.coe (m.mesh.eoc i j) 0, m.mesh.coe (m.mesh.eoc i j) 1,
      lit 1 / m.mesh.dc (m.mesh.eoc i j))) (fun j x s => s - eddy4 * (lit 1 / m.mesh.areaCell i) * m.mesh.dv (m.mesh.eoc i j) * m.mesh.signC i j *
      m.mesh.sdel4 (m.mesh.eoc i j) *
      ((m.sl del2 l (kc * d.vl + x) (m.mesh.coe (m.mesh.eoc i j) 1) -
      m.sl del2 l (kc * d.vl + x) (m.mesh.coe (m.mesh.eoc i j) 0)) * (lit 1 / m.mesh.dc (m.mesh.eoc i j)))) ?_ ?_ ?_)
  · intro j h0 h1
    have he := C.conn.eoc i hi.1 hi.2 j h0 h1
    ld; ld; ld; ld; ld
  · intro j x s h0 h1 h2 h3
    have hk := C.dims.lane hkc.1 hkc.2 h2 h3
    have hki := C.dims.lane_int hkc.1 hkc.2 h2 h3
    have he := C.conn.eoc i hi.1 hi.2 j h0 h1
    have hc0 := C.conn.coe _ he.1 he.2 0 (by omega) (by omega)
    have hc1 := C.conn.coe _ he.1 he.2 1 (by omega) (by omega)
    ld
    refine wp_bind (gp_rd3 hp hM a2 (inbT e2 hl hc1 hk) ?_)
    refine wp_bind (gp_rd3 hp hM a2 (inbT e2 hl hc0 hk) ?_)
    ld; ld; ld; ld
  · intro acc hacc
    lns3
    have ho := only3 C.dims at' et hl hi hkc ⟨h0, h1⟩
    refine wp_bind (own_rd3 hp ho (by inb) ?_)
    refine own_wr3 hp ho (by inb) (setR_upd1 ho _ ?_)
    rw [hacc x h0 h1]; rfl

/-- The default build computes `scalarF`. -/
theorem default_refines : Kernels.Refines d (defaultKernels d.vl) (scalarF : Fns R) where
  kinetic := d_kinetic
  thickness := d_thickness
  normTracer := d_normTracer
  vortVertex := d_vortVertex
  vortEdge := d_vortEdge
  hadv := d_hadv
  pvFlux := d_pvFlux
  keGrad := d_keGrad
  sshGrad := d_sshGrad
  velDiff := d_velDiff
  velDel2 := d_velDel2
  velDel2Rvort := d_velDel2Rvort
  velDel2Div := d_velDel2Div
  velHyper := d_velHyper
  trHadv := d_trHadv
  trDiff := d_trDiff
  trDel2 := d_trDel2
  trHyper := d_trHyper

end Default

end Refine
end Omega
