import Verif.Refine.KernelOps

/-!
# `compute_tendency` as a function of the state

`Sys.tend` is the tendency of a state as a function; `compute_tendency_runs` says that
`ShallowWaterModel::compute_tendency` is safe and race free and computes it, for both values of
`OMEGA_NO_INNER_IF` with the same final memory.
-/

set_option linter.unusedSectionVars false
set_option linter.unusedVariables false

namespace Omega
namespace Refine

open Prog Model

variable {R : Type} [Scalar R]

/-! ### Views by role -/

/-- views recomputed by `compute_tendency` -/
def isAux : RArr → Bool
  | .mean_h_edge | .flux_h_edge | .rvort_vertex | .norm_rvort_vertex | .norm_pvort_vertex
  | .norm_rvort_edge | .norm_pvort_edge | .ke_cell | .vel_div_cell | .norm_tr_cell
  | .vel_del2_edge | .vel_del2_rvort_vertex | .vel_del2_div_cell | .tracer_del2_cell => true
  | _ => false

/-- the views of one `ShallowWaterState` -/
def inState (s : StateId) : RArr → Bool
  | .h_cell s' | .vn_edge s' | .tr_cell s' => decide (s' = s)
  | _ => false

/-- views of any state -/
def isState : RArr → Bool
  | .h_cell _ | .vn_edge _ | .tr_cell _ => true
  | _ => false

/-- auxiliary or state views; the others are constant during a run -/
def isDyn (b : RArr) : Bool := isAux b || isState b

/-- Same mesh and Coriolis views. -/
abbrev Static (m' m : Mem R) : Prop := Agree isDyn m' m

theorem isDyn_mesh {b : RArr} (h : isMeshR b = true) : isDyn b = false := by
  cases b <;> first | rfl | simp [isMeshR] at h

theorem Static.mesh {m' m : Mem R} (h : Static m' m) : m'.mesh = m.mesh :=
  mesh_congr h.int fun b hb => h.real b (isDyn_mesh hb)

/-- Contents of one `ShallowWaterState`. -/
structure Fld (R : Type) where
  h : Int → Int → R
  vn : Int → Int → R
  tr : Int → Int → Int → R

/-- The fields of a state in memory. -/
def _root_.Omega.Mem.fld (m : Mem R) (s : StateId) : Fld R where
  h c k := m.real (.h_cell s) 0 c k
  vn e k := m.real (.vn_edge s) 0 e k
  tr l c k := m.real (.tr_cell s) l c k

/-- Same contents at every valid index. -/
structure EqFld (d : Dims) (x y : Fld R) : Prop where
  h : ∀ c k, 0 ≤ c → c < d.ncells → 0 ≤ k → k < d.nlayers → x.h c k = y.h c k
  vn : ∀ e k, 0 ≤ e → e < d.nedges → 0 ≤ k → k < d.nlayers → x.vn e k = y.vn e k
  tr : ∀ l c k, 0 ≤ l → l < d.ntracers → 0 ≤ c → c < d.ncells → 0 ≤ k → k < d.nlayers →
    x.tr l c k = y.tr l c k

theorem EqFld.refl (d : Dims) (x : Fld R) : EqFld d x x :=
  ⟨fun _ _ _ _ _ _ => rfl, fun _ _ _ _ _ _ => rfl, fun _ _ _ _ _ _ _ _ _ => rfl⟩
theorem EqFld.symm {d : Dims} {x y : Fld R} (h : EqFld d x y) : EqFld d y x :=
  ⟨fun c k a b e f => (h.h c k a b e f).symm, fun c k a b e f => (h.vn c k a b e f).symm,
    fun l c k a b e f g i => (h.tr l c k a b e f g i).symm⟩
theorem EqFld.trans {d : Dims} {x y z : Fld R} (h : EqFld d x y) (h' : EqFld d y z) :
    EqFld d x z :=
  ⟨fun c k a b e f => (h.h c k a b e f).trans (h'.h c k a b e f),
    fun c k a b e f => (h.vn c k a b e f).trans (h'.vn c k a b e f),
    fun l c k a b e f g i => (h.tr l c k a b e f g i).trans (h'.tr l c k a b e f g i)⟩

theorem fld_congr {m m' : Mem R} {s : StateId} (h : ∀ b, inState s b = true → m'.real b = m.real b) :
    m'.fld s = m.fld s := by
  simp only [Mem.fld, h (.h_cell s) (by simp [inState]), h (.vn_edge s) (by simp [inState]),
    h (.tr_cell s) (by simp [inState])]

/-! ### The functional system -/

/-- `additional_tendency` as functions of time, row, layer and previous tendency. -/
structure HookFn (R : Type) where
  h : R → Int → Int → R → R
  vn : R → Int → Int → R → R

/-- Functional counterpart of a configured model on a mesh. -/
structure Sys (R : Type) where
  F : Fns R
  vl : Int
  M : Mesh R
  f : Int → R
  sw : SWModel R
  H : HookFn R

namespace Sys

variable (S : Sys R) (s : Fld R)

/-- layer `k` of the thickness -/
def hk (k : Int) : Int → R := fun c => s.h c k
/-- layer `k` of the velocity -/
def vk (k : Int) : Int → R := fun e => s.vn e k
/-- layer `k` of tracer `l` -/
def tk (l k : Int) : Int → R := fun c => s.tr l c k

/-- edge thickness -/
def flux (k : Int) : Int → R := S.F.hmean S.M (hk s k)
/-- relative vorticity -/
def rv (k : Int) : Int → R := S.F.rvort S.M (vk s k)
/-- normalised relative vorticity on vertices -/
def nrvV (k : Int) : Int → R := S.F.nrv S.M (hk s k) (vk s k)
/-- normalised planetary vorticity on vertices -/
def npvV (k : Int) : Int → R := S.F.npv S.M (hk s k) S.f
/-- normalised relative vorticity on edges -/
def nrvE (k : Int) : Int → R := S.F.vedge S.M (S.nrvV s k)
/-- normalised planetary vorticity on edges -/
def npvE (k : Int) : Int → R := S.F.vedge S.M (S.npvV s k)
/-- kinetic energy -/
def keC (k : Int) : Int → R := S.F.ke S.M (vk s k)
/-- divergence -/
def divC (k : Int) : Int → R := S.F.div S.M (vk s k)
/-- tracer concentration -/
def ntrC (l k : Int) : Int → R := S.F.ntr (tk s l k) (hk s k)
/-- vector Laplacian -/
def d2E (k : Int) : Int → R := S.F.del2 S.M (S.divC s k) (S.rv s k)
/-- its curl -/
def d2V (k : Int) : Int → R := S.F.del2rv S.M (S.d2E s k) (S.d2E s (k / S.vl * S.vl))
/-- its divergence -/
def d2C (k : Int) : Int → R := S.F.del2div S.M (S.d2E s k)
/-- tracer Laplacian -/
def t2C (l k : Int) : Int → R := S.F.tdel2 S.M (S.ntrC s l k) (S.flux s k)

/-- starting value of a tendency -/
def start (mode : AddMode) (old : R) : R := if decide (mode = .replace) = true then lit 0 else old

/-- Thickness tendency from the terms. -/
def termsH (mode : AddMode) (old : R) (c k : Int) : R :=
  (fun t => if S.sw.en_hadv = true then t + S.F.hadv S.M (vk s k) (S.flux s k) c else t)
    (start mode old)

/-- Velocity tendency from the terms, in the order of the code. -/
def termsVn (mode : AddMode) (old : R) (e k : Int) : R :=
  (fun t => if S.sw.en_vhyper = true then
      t - S.F.vhyper S.M S.sw.prm.visc_del4 k (S.d2C s k) (S.d2V s k) e else t)
  ((fun t => if S.sw.en_vdiff = true then
      t + S.F.vdiff S.M S.sw.prm.visc_del2 k (S.divC s k) (S.rv s k) e else t)
  ((fun t => if S.sw.en_ssh = true then t - S.F.sshG S.M S.sw.prm.grav (hk s k) e else t)
  ((fun t => if S.sw.en_ke = true then t - S.F.keG S.M (S.keC s k) e else t)
  ((fun t => if S.sw.en_pv = true then
      t + S.F.pv S.M (S.nrvE s k) (S.npvE s k) (S.flux s k) (vk s k) e else t)
    (start mode old)))))

/-- Tracer tendency from the terms, in the order of the code. -/
def termsTr (mode : AddMode) (old : R) (l c k : Int) : R :=
  (fun t => if S.sw.en_thyper = true then
      t + S.F.thyper S.M S.sw.prm.eddy_diff4 (S.t2C s l k) c else t)
  ((fun t => if S.sw.en_tdiff = true then
      t + S.F.tdiff S.M S.sw.prm.eddy_diff2 (S.ntrC s l k) (S.flux s k) c else t)
  ((fun t => if S.sw.en_thadv = true then
      t + S.F.thadv S.M (vk s k) (S.ntrC s l k) (S.flux s k) c else t)
    (start mode old)))

/-- The tendency computed by `compute_tendency` from the previous contents `old` of the tendency. -/
def tend (mode : AddMode) (t : R) (old s : Fld R) : Fld R where
  h c k := S.H.h t c k
    (if S.sw.prm.disable_h = true then old.h c k else S.termsH s mode (old.h c k) c k)
  vn e k := S.H.vn t e k
    (if S.sw.prm.disable_vn = true then old.vn e k else S.termsVn s mode (old.vn e k) e k)
  tr l c k := S.termsTr s mode (old.tr l c k) l c k

end Sys

/-- views of thickness and velocity of one state -/
def hvOf (s : StateId) (b : RArr) : Bool := decide (b = .h_cell s) || decide (b = .vn_edge s)

/-- the effect of the hook -/
def hookEff (H : HookFn R) (t : R) (tn : StateId) : Effect R :=
  eff2 (.h_cell tn) (fun _ c k v => H.h t c k v) (.vn_edge tn) (fun _ e k v => H.vn t e k v)

/-- `additional_tendency` applies `H` to the thickness and velocity tendencies. -/
def HookOK (d : Dims) (sw : SWModel R) (H : HookFn R) (m : Mem R) : Prop :=
  ∀ m', Static m' m → ∀ t tn st, st ≠ tn →
    Runs d (sw.hook t tn st) m' (m'.upd (RegA d (hvOf tn)) (hookEff H t tn))

/-- The default `additional_tendency` does nothing. -/
def noHook : HookFn R := ⟨fun _ _ _ v => v, fun _ _ _ v => v⟩

theorem hookOK_default (d : Dims) (prm : Params R) (m : Mem R) :
    HookOK d (SWModel.ofParams prm) noHook m := by
  intro m' _ t tn st _
  have : m'.upd (RegA d (hvOf tn)) (hookEff noHook t tn) = m' := by
    conv_rhs => rw [← Mem.upd_id m' (RegA d (hvOf tn))]
    apply Mem.upd_congr (fun _ _ _ _ => Iff.rfl)
    intro a l i k v _
    simp [hookEff, eff2, eff, noHook]
  rw [this]
  exact Runs.nil m'

/-- Memory and build match the functional system `S`. -/
structure Setup (d : Dims) (K : Kernels R) (S : Sys R) (m : Mem R) : Prop where
  dims : DimsOK d
  conn : ConnOK d m
  ref : Kernels.Refines d K S.F
  loc : S.F.Local
  vl : S.vl = d.vl
  mesh : m.mesh = S.M
  f : m.sl .f_vertex 0 0 = S.f
  hook : HookOK d S.sw S.H m

theorem Setup.static {d : Dims} {K : Kernels R} {S : Sys R} {m m' : Mem R} (h : Setup d K S m)
    (hs : Static m' m) : Setup d K S m' where
  dims := h.dims
  conn := h.conn.congr hs.int
  ref := h.ref
  loc := h.loc
  vl := h.vl
  mesh := by rw [hs.mesh, h.mesh]
  f := by rw [← h.f]; unfold Mem.sl; rw [hs.real .f_vertex rfl]
  hook := fun m'' hs' => h.hook m'' (hs'.trans hs)

theorem Setup.ok {d : Dims} {K : Kernels R} {S : Sys R} {m : Mem R} (h : Setup d K S m) :
    MeshOK d S.M := h.mesh ▸ h.conn.mesh

/-! ### Launches -/

section

variable {d : Dims} {m : Mem R} {A : RArr → Bool} {own : Int → Int → Int → Idx} {x : Idx}

/-- the tracer loop of the cell launch -/
theorem Op.forI {a : RArr} {n : Int} (hn : 0 ≤ n) {p : Int → Prog R Unit}
    {g : Int → Int → Int → R}
    (h : ∀ l, 0 ≤ l → l < n → Op d m A own x (p l)
      (eff a fun l' i k v => if l' = l then g l' i k else v)) :
    Op d m A own x (Prog.forI n () fun l _ => p l)
      (eff a fun l' i k v => if 0 ≤ l' ∧ l' < n then g l' i k else v) := by
  intro M hM perm hp
  refine wp_forI hn (fun j _ M' => M' = M.upd (Reg d A own x)
    (eff a fun l' i k v => if 0 ≤ l' ∧ l' < j then g l' i k else v)) ?_ ?_ ?_
  · conv_lhs => rw [← Mem.upd_id M (Reg d A own x)]
    apply Mem.upd_congr (fun _ _ _ _ => Iff.rfl)
    intro b l i k v _
    dsimp only [eff]
    by_cases hb : b = a
    · rw [if_pos hb, if_neg (by omega)]
    · rw [if_neg hb]
  · rintro l - M' h0 h1 rfl
    refine wp_mono (h l h0 h1 _ (hM.upd _ fun _ _ _ _ h => h.1) perm hp) ?_
    rintro - M'' rfl
    rw [Mem.upd_upd]
    apply Mem.upd_congr (fun _ _ _ _ => Iff.rfl)
    intro b l' i k v _
    dsimp only [eff]
    by_cases hb : b = a
    · rw [if_pos hb, if_pos hb, if_pos hb]
      by_cases hl : l' = l
      · rw [if_pos hl, if_pos (by omega)]
      · by_cases hl' : 0 ≤ l' ∧ l' < l
        · rw [if_neg hl, if_pos hl', if_pos (by omega)]
        · rw [if_neg hl, if_neg hl', if_neg (by omega)]
    · rw [if_neg hb, if_neg hb, if_neg hb]
  · rintro - M' rfl; rfl

/-- A launch over rows and chunks. -/
theorem par2_runs {n : Int} {body : Int → Int → Prog R Unit} {G : Effect R} (hd : DimsOK d)
    (hA : ∀ a l i k, A a = true → a.InB d l i k → (0 ≤ i ∧ i < n) ∧ (0 ≤ k ∧ k < d.nlayers))
    (h : ∀ i kc, (0 ≤ i ∧ i < n) → (0 ≤ kc ∧ kc < d.nlayersVec) →
      Op d m A (own2 d.vl) (i, kc, 0) (body i kc) G) :
    (par2 n d.nlayersVec body).Runs d m (m.upd (RegA d A) G) := by
  refine Cmd.runs_op (own2 d.vl) ?_ ?_
  · intro a l i k ha hb
    have := hA a l i k ha hb
    exact ⟨this.1, hd.chunk_lt this.2.1 this.2.2, by simp [par2, own2]⟩
  · rintro ⟨i, kc, z⟩ ⟨h1, h2, h3⟩
    have hz : z = 0 := by simp only [par2] at h3; omega
    subst hz
    exact h i kc h1 h2

/-- A launch over tracers, rows and chunks. -/
theorem par3_runs {n : Int} {body : Int → Int → Int → Prog R Unit} {G : Effect R} (hd : DimsOK d)
    (hA : ∀ a l i k, A a = true → a.InB d l i k →
      (0 ≤ l ∧ l < d.ntracers) ∧ (0 ≤ i ∧ i < n) ∧ (0 ≤ k ∧ k < d.nlayers))
    (h : ∀ l i kc, (0 ≤ l ∧ l < d.ntracers) → (0 ≤ i ∧ i < n) → (0 ≤ kc ∧ kc < d.nlayersVec) →
      Op d m A (own3 d.vl) (l, i, kc) (body l i kc) G) :
    (par3 d.ntracers n d.nlayersVec body).Runs d m (m.upd (RegA d A) G) := by
  refine Cmd.runs_op (own3 d.vl) ?_ ?_
  · intro a l i k ha hb
    have := hA a l i k ha hb
    exact ⟨this.1, this.2.1, hd.chunk_lt this.2.2.1 this.2.2.2⟩
  · rintro ⟨l, i, kc⟩ ⟨h1, h2, h3⟩
    exact h l i kc h1 h2 h3

/-- Guarded terms of a launch and their combined effect. -/
inductive Terms {ι : Type} (d : Dims) (m : Mem R) (A : RArr → Bool)
    (own : Int → Int → Int → Idx) (dom : ι → Prop) (ix : ι → Idx) :
    List (Bool × (ι → Prog R Unit)) → Effect R → Prop
  | nil : Terms d m A own dom ix [] (fun _ _ _ _ v => v)
  | cons {b : Bool} {p : ι → Prog R Unit} {ts : List (Bool × (ι → Prog R Unit))} {g G : Effect R} :
      (b = true → ∀ y, dom y → Op d m A own (ix y) (p y) g) →
      Terms d m A own dom ix ts G →
      Terms d m A own dom ix ((b, p) :: ts)
        (fun a l i k v => G a l i k (if b = true then g a l i k v else v))

theorem Terms.of_agree {ι : Type} {dom : ι → Prop} {ix : ι → Idx}
    {ts : List (Bool × (ι → Prog R Unit))} {G : Effect R} {m' : Mem R}
    (h : Terms d m A own dom ix ts G) (hm : Agree A m' m) : Terms d m' A own dom ix ts G := by
  induction h with
  | nil => exact .nil
  | cons h1 _ ih => exact .cons (fun hb y hy => (h1 hb y hy).of_agree hm) ih

theorem Terms.fused {ι : Type} {dom : ι → Prop} {ix : ι → Idx}
    {ts : List (Bool × (ι → Prog R Unit))} {G : Effect R}
    (h : Terms d m A own dom ix ts G) {y : ι} (hy : dom y) :
    Op d m A own (ix y) (seqTerms (ts.map fun t => (t.1, t.2 y))) G := by
  induction h with
  | nil => exact Op.skip
  | @cons b p ts g G h1 _ ih =>
    simp only [List.map_cons, seqTerms]
    refine (Op.seq (G := fun a l i k v => if b = true then g a l i k v else v) ?_ ih)
    cases hb : b with
    | true => simpa [whenP] using h1 hb y hy
    | false => simpa [whenP] using Op.skip

/-- Separate launches of the enabled terms have the combined effect. -/
theorem Terms.split {ι : Type} {dom : ι → Prop} {ix : ι → Idx}
    {ts : List (Bool × (ι → Prog R Unit))} {G : Effect R}
    (h : Terms d m A own dom ix ts G) (L : (ι → Prog R Unit) → Cmd R)
    (hL : ∀ (m' : Mem R) p g, Agree A m' m → (∀ y, dom y → Op d m' A own (ix y) (p y) g) →
      (L p).Runs d m' (m'.upd (RegA d A) g)) :
    ∀ m', Agree A m' m →
      Runs d ((ts.filter (·.1)).map fun t => L t.2) m' (m'.upd (RegA d A) G) := by
  induction h with
  | nil =>
    intro m' _
    rw [Mem.upd_id]; exact Runs.nil m'
  | @cons b p ts g G h1 h2 ih =>
    intro m' hm'
    cases hb : b with
    | true =>
      have hr := hL m' p g hm' fun y hy => (h1 hb y hy).of_agree hm'
      have := Runs.cons hr (ih (m'.upd (RegA d A) g) (hm'.upd _ fun _ _ _ _ h => h.1))
      rw [Mem.upd_upd] at this
      simpa [List.filter] using this
    | false =>
      simpa [List.filter] using ih m' hm'

theorem launch2_runs {n : Int} {ts : List (Bool × (Int → Int → Prog R Unit))} {G : Effect R}
    (hd : DimsOK d)
    (hA : ∀ a l i k, A a = true → a.InB d l i k → (0 ≤ i ∧ i < n) ∧ (0 ≤ k ∧ k < d.nlayers))
    (h : Terms d m A (own2 d.vl)
      (fun y : Int × Int => (0 ≤ y.1 ∧ y.1 < n) ∧ (0 ≤ y.2 ∧ y.2 < d.nlayersVec))
      (fun y => (y.1, y.2, 0)) (ts.map fun t => (t.1, fun y => t.2 y.1 y.2)) G) (split : Bool) :
    Runs d (launchTerms2 split n d.nlayersVec ts) m (m.upd (RegA d A) G) := by
  cases split with
  | false =>
    refine Runs.single (par2_runs hd hA ?_)
    intro i kc hi hk
    have := h.fused (y := (i, kc)) ⟨hi, hk⟩
    simpa [List.map_map, Function.comp_def] using this
  | true =>
    have := h.split (fun p => par2 n d.nlayersVec fun i k => p (i, k)) ?_ m (Agree.refl A m)
    · simpa [launchTerms2, List.filter_map, List.map_map, Function.comp_def] using this
    · intro m' p g _ hp
      exact par2_runs hd hA fun i kc hi hk => hp (i, kc) ⟨hi, hk⟩

theorem launch3_runs {n : Int} {ts : List (Bool × (Int → Int → Int → Prog R Unit))} {G : Effect R}
    (hd : DimsOK d)
    (hA : ∀ a l i k, A a = true → a.InB d l i k →
      (0 ≤ l ∧ l < d.ntracers) ∧ (0 ≤ i ∧ i < n) ∧ (0 ≤ k ∧ k < d.nlayers))
    (h : Terms d m A (own3 d.vl)
      (fun y : Int × Int × Int => (0 ≤ y.1 ∧ y.1 < d.ntracers) ∧ (0 ≤ y.2.1 ∧ y.2.1 < n) ∧
        (0 ≤ y.2.2 ∧ y.2.2 < d.nlayersVec))
      (fun y => y) (ts.map fun t => (t.1, fun y => t.2 y.1 y.2.1 y.2.2)) G) (split : Bool) :
    Runs d (launchTerms3 split d.ntracers n d.nlayersVec ts) m (m.upd (RegA d A) G) := by
  cases split with
  | false =>
    refine Runs.single (par3_runs hd hA ?_)
    intro l i kc hl hi hk
    have := h.fused (y := (l, i, kc)) ⟨hl, hi, hk⟩
    simpa [List.map_map, Function.comp_def] using this
  | true =>
    have := h.split (fun p => par3 d.ntracers n d.nlayersVec fun l i k => p (l, i, k)) ?_ m
      (Agree.refl A m)
    · simpa [launchTerms3, List.filter_map, List.map_map, Function.comp_def] using this
    · intro m' p g _ hp
      exact par3_runs hd hA fun l i kc hl hi hk => hp (l, i, kc) ⟨hl, hi, hk⟩

/-- the zeroing loops -/
theorem zero2_op {a : RArr} {n i kc : Int} (hd : DimsOK d) (hA : A a = true)
    (hext : a.ext d = (1, n, d.nlayers)) (hi : 0 ≤ i ∧ i < n)
    (hkc : 0 ≤ kc ∧ kc < d.nlayersVec) :
    Op d m A (own2 d.vl) (i, kc, 0) (zero2 d.vl a i kc) (eff a fun _ _ _ _ => lit 0) := by
  intro M hM perm hp
  refine wp_lanes_gen (kstart := kc * d.vl) hd.vl_pos.le hM
    (fun a l i k hr => reg2_range hd hr) ?_
  intro x h0 h1 M1 hM1
  have hk := hd.lane hkc.1 hkc.2 h0 h1
  have ho := only2 hd hA hext hi hkc ⟨h0, h1⟩
  refine wp_bind (wp_imul (hd.start hkc.1 hkc.2) ?_)
  refine wp_bind (wp_iadd (hd.lane_int hkc.1 hkc.2 h0 h1) ?_)
  exact own_wr2 hp ho (inbE hext hi hk) (setR_upd1 ho _ rfl)

theorem zero3_op {a : RArr} {n l i kc : Int} (hd : DimsOK d) (hA : A a = true)
    (hext : a.ext d = (d.ntracers, n, d.nlayers)) (hl : 0 ≤ l ∧ l < d.ntracers)
    (hi : 0 ≤ i ∧ i < n) (hkc : 0 ≤ kc ∧ kc < d.nlayersVec) :
    Op d m A (own3 d.vl) (l, i, kc) (zero3 d.vl a l i kc) (eff a fun _ _ _ _ => lit 0) := by
  intro M hM perm hp
  refine wp_lanes_gen (kstart := kc * d.vl) hd.vl_pos.le hM
    (fun a l i k hr => reg3_range hd hr) ?_
  intro x h0 h1 M1 hM1
  have hk := hd.lane hkc.1 hkc.2 h0 h1
  have ho := only3 hd hA hext hl hi hkc ⟨h0, h1⟩
  refine wp_bind (wp_imul (hd.start hkc.1 hkc.2) ?_)
  refine wp_bind (wp_iadd (hd.lane_int hkc.1 hkc.2 h0 h1) ?_)
  exact own_wr3 hp ho (inbT hext hl hi hk) (setR_upd1 ho _ rfl)

end

/-! ### Auxiliary state -/

/-- The auxiliary views needed by the tendency terms hold the functions of the state `s`. -/
structure AuxOK (d : Dims) (S : Sys R) (s : Fld R) (m : Mem R) : Prop where
  mean : ∀ k, 0 ≤ k → k < d.nlayers → EqOn d.nedges (m.sl .mean_h_edge 0 k) (S.flux s k)
  flux : ∀ k, 0 ≤ k → k < d.nlayers → EqOn d.nedges (m.sl .flux_h_edge 0 k) (S.flux s k)
  rv : ∀ k, 0 ≤ k → k < d.nlayers → EqOn d.nvertices (m.sl .rvort_vertex 0 k) (S.rv s k)
  nrvV : ∀ k, 0 ≤ k → k < d.nlayers → EqOn d.nvertices (m.sl .norm_rvort_vertex 0 k) (S.nrvV s k)
  npvV : ∀ k, 0 ≤ k → k < d.nlayers → EqOn d.nvertices (m.sl .norm_pvort_vertex 0 k) (S.npvV s k)
  nrvE : ∀ k, 0 ≤ k → k < d.nlayers → EqOn d.nedges (m.sl .norm_rvort_edge 0 k) (S.nrvE s k)
  npvE : ∀ k, 0 ≤ k → k < d.nlayers → EqOn d.nedges (m.sl .norm_pvort_edge 0 k) (S.npvE s k)
  ke : ∀ k, 0 ≤ k → k < d.nlayers → EqOn d.ncells (m.sl .ke_cell 0 k) (S.keC s k)
  div : ∀ k, 0 ≤ k → k < d.nlayers → EqOn d.ncells (m.sl .vel_div_cell 0 k) (S.divC s k)
  ntr : ∀ l k, 0 ≤ l → l < d.ntracers → 0 ≤ k → k < d.nlayers →
    EqOn d.ncells (m.sl .norm_tr_cell l k) (S.ntrC s l k)

/-- views of the vertex launch -/
def auxV : RArr → Bool
  | .rvort_vertex | .norm_rvort_vertex | .norm_pvort_vertex => true
  | _ => false
/-- views of the cell launch -/
def auxC : RArr → Bool
  | .ke_cell | .vel_div_cell | .norm_tr_cell => true
  | _ => false
/-- views of the edge launch -/
def auxE : RArr → Bool
  | .mean_h_edge | .flux_h_edge | .norm_rvort_edge | .norm_pvort_edge => true
  | _ => false
/-- views of `aux_compute` -/
def auxAll (b : RArr) : Bool := auxV b || auxC b || auxE b

theorem auxV_sub {b : RArr} (h : auxV b = true) : auxAll b = true := by simp [auxAll, h]
theorem auxC_sub {b : RArr} (h : auxC b = true) : auxAll b = true := by simp [auxAll, h]
theorem auxE_sub {b : RArr} (h : auxE b = true) : auxAll b = true := by simp [auxAll, h]
theorem auxAll_aux {b : RArr} (h : auxAll b = true) : isAux b = true := by
  cases b <;> first | rfl | simp [auxAll, auxV, auxC, auxE] at h
theorem isAux_dyn {b : RArr} (h : isAux b = true) : isDyn b = true := by simp [isDyn, h]

theorem ctx_of {d : Dims} {m : Mem R} {A : RArr → Bool} (hd : DimsOK d) (hc : ConnOK d m)
    (hA : ∀ b, A b = true → isDyn b = true) : Ctx d m A where
  dims := hd
  conn := hc
  mesh b hb := by
    cases h : A b with
    | false => rfl
    | true => have := hA b h; rw [isDyn_mesh hb] at this; exact this.symm

section

variable {d : Dims} {K : Kernels R} {S : Sys R} {m : Mem R}

theorem inE {a : RArr} {n l i k : Int} (he : a.ext d = (1, n, d.nlayers)) (h : a.InB d l i k) :
    (0 ≤ i ∧ i < n) ∧ (0 ≤ k ∧ k < d.nlayers) := by
  rw [RArr.InB, he] at h; exact ⟨h.2.1, h.2.2⟩
theorem inT {a : RArr} {n l i k : Int} (he : a.ext d = (d.ntracers, n, d.nlayers))
    (h : a.InB d l i k) : (0 ≤ l ∧ l < d.ntracers) ∧ (0 ≤ i ∧ i < n) ∧ (0 ≤ k ∧ k < d.nlayers) := by
  rw [RArr.InB, he] at h; exact h

/-- `ShallowWaterAuxiliaryState::compute` is safe and fills the auxiliary views. -/
theorem aux_compute_runs (hS : Setup d K S m) (st : StateId) :
    ∃ m', Runs d (aux_compute d K st) m m' ∧ Agree auxAll m' m ∧ AuxOK d S (m.fld st) m' := by
  have hd := hS.dims
  -- vertex launch
  have c1 : Ctx d m auxV := ctx_of hd hS.conn fun b h => isAux_dyn (auxAll_aux (auxV_sub h))
  have r1 := par2_runs (A := auxV) (n := d.nvertices) hd (by
      intro a l i k ha hb
      cases a <;> simp only [auxV, Bool.false_eq_true] at ha <;> exact inE rfl hb)
    (fun i kc hi hk => hS.ref.vortVertex (f := .f_vertex) (h := .h_cell st) (vn := .vn_edge st) c1
      rfl rfl rfl rfl rfl rfl rfl rfl rfl hi hk)
  generalize hm1 : m.upd (RegA d auxV) _ = m1 at r1
  have ag1 : Agree auxV m1 m := by rw [← hm1]; exact (Agree.refl _ m).upd _ fun _ _ _ _ h => h.1
  have v1 : ∀ i k, 0 ≤ i → i < d.nvertices → 0 ≤ k → k < d.nlayers →
      m1.real .rvort_vertex 0 i k = S.rv (m.fld st) k i ∧
      m1.real .norm_rvort_vertex 0 i k = S.nrvV (m.fld st) k i ∧
      m1.real .norm_pvort_vertex 0 i k = S.npvV (m.fld st) k i := by
    intro i k h0 h1 h2 h3
    rw [← hm1, Mem.upd_on (P := RegA d auxV) ⟨rfl, inbE rfl ⟨h0, h1⟩ ⟨h2, h3⟩⟩,
      Mem.upd_on (P := RegA d auxV) ⟨rfl, inbE rfl ⟨h0, h1⟩ ⟨h2, h3⟩⟩,
      Mem.upd_on (P := RegA d auxV) ⟨rfl, inbE rfl ⟨h0, h1⟩ ⟨h2, h3⟩⟩]
    simp only [eff3, eff2, eff, if_true, reduceCtorEq, if_false, hS.mesh, hS.f]
    exact ⟨rfl, rfl, rfl⟩
  -- cell launch
  have s1 : Static m1 m := ag1.mono fun b h => isAux_dyn (auxAll_aux (auxV_sub h))
  have hS1 := hS.static s1
  have f1 : m1.fld st = m.fld st := fld_congr fun b hb => ag1.real b (by
    cases b <;> first | rfl | simp [inState] at hb)
  have c2 : Ctx d m1 auxC := ctx_of hd hS1.conn fun b h => isAux_dyn (auxAll_aux (auxC_sub h))
  have r2 := par2_runs (A := auxC) (n := d.ncells) hd (by
      intro a l i k ha hb
      cases a <;> simp only [auxC, Bool.false_eq_true] at ha <;>
        first | exact inE rfl hb | exact (inT rfl hb).2)
    (body := auxCellBody K d.ntracers st)
    (fun i kc hi hk => Op.seq
      (hS1.ref.kinetic (vn := .vn_edge st) c2 rfl rfl rfl rfl hi hk)
      (Op.forI (g := fun l' i k => S.F.ntr (m1.sl (.tr_cell st) l' k) (m1.sl (.h_cell st) 0 k) i)
        hd.tr_nonneg fun l h0 h1 =>
        hS1.ref.normTracer (tr := .tr_cell st) (h := .h_cell st) c2 rfl rfl rfl rfl rfl ⟨h0, h1⟩
          hi hk))
  generalize hm2 : m1.upd (RegA d auxC) _ = m2 at r2
  have ag2 : Agree auxC m2 m1 := by rw [← hm2]; exact (Agree.refl _ m1).upd _ fun _ _ _ _ h => h.1
  have v2 : ∀ i k, 0 ≤ i → i < d.ncells → 0 ≤ k → k < d.nlayers →
      m2.real .ke_cell 0 i k = S.keC (m.fld st) k i ∧
      m2.real .vel_div_cell 0 i k = S.divC (m.fld st) k i := by
    intro i k h0 h1 h2 h3
    rw [← hm2, Mem.upd_on (P := RegA d auxC) ⟨rfl, inbE rfl ⟨h0, h1⟩ ⟨h2, h3⟩⟩,
      Mem.upd_on (P := RegA d auxC) ⟨rfl, inbE rfl ⟨h0, h1⟩ ⟨h2, h3⟩⟩]
    simp only [eff2, eff, if_true, reduceCtorEq, if_false, hS1.mesh, ← f1]
    exact ⟨rfl, rfl⟩
  have v2t : ∀ l i k, 0 ≤ l → l < d.ntracers → 0 ≤ i → i < d.ncells → 0 ≤ k → k < d.nlayers →
      m2.real .norm_tr_cell l i k = S.ntrC (m.fld st) l k i := by
    intro l i k g0 g1 h0 h1 h2 h3
    rw [← hm2, Mem.upd_on (P := RegA d auxC) ⟨rfl, inbT rfl ⟨g0, g1⟩ ⟨h0, h1⟩ ⟨h2, h3⟩⟩]
    simp only [eff2, eff, if_true, reduceCtorEq, if_false, hS1.mesh, ← f1]
    rw [if_pos ⟨g0, g1⟩]
    rfl
  -- edge launch
  have s2 : Static m2 m1 := ag2.mono fun b h => isAux_dyn (auxAll_aux (auxC_sub h))
  have hS2 := hS1.static s2
  have f2 : m2.fld st = m1.fld st := fld_congr fun b hb => ag2.real b (by
    cases b <;> first | rfl | simp [inState] at hb)
  have c3 : Ctx d m2 auxE := ctx_of hd hS2.conn fun b h => isAux_dyn (auxAll_aux (auxE_sub h))
  have r3 := par2_runs (A := auxE) (n := d.nedges) hd (by
      intro a l i k ha hb
      cases a <;> simp only [auxE, Bool.false_eq_true] at ha <;> exact inE rfl hb)
    (body := auxEdgeBody K st)
    (fun i kc hi hk => Op.seq
      (hS2.ref.thickness (h := .h_cell st) c3 rfl rfl rfl rfl hi hk)
      (hS2.ref.vortEdge c3 rfl rfl rfl rfl hi hk))
  generalize hm3 : m2.upd (RegA d auxE) _ = m3 at r3
  have ag3 : Agree auxE m3 m2 := by rw [← hm3]; exact (Agree.refl _ m2).upd _ fun _ _ _ _ h => h.1
  have v3 : ∀ i k, 0 ≤ i → i < d.nedges → 0 ≤ k → k < d.nlayers →
      m3.real .mean_h_edge 0 i k = S.flux (m.fld st) k i ∧
      m3.real .flux_h_edge 0 i k = S.flux (m.fld st) k i ∧
      m3.real .norm_rvort_edge 0 i k = S.F.vedge S.M (m2.sl .norm_rvort_vertex 0 k) i ∧
      m3.real .norm_pvort_edge 0 i k = S.F.vedge S.M (m2.sl .norm_pvort_vertex 0 k) i := by
    intro i k h0 h1 h2 h3
    rw [← hm3, Mem.upd_on (P := RegA d auxE) ⟨rfl, inbE rfl ⟨h0, h1⟩ ⟨h2, h3⟩⟩,
      Mem.upd_on (P := RegA d auxE) ⟨rfl, inbE rfl ⟨h0, h1⟩ ⟨h2, h3⟩⟩,
      Mem.upd_on (P := RegA d auxE) ⟨rfl, inbE rfl ⟨h0, h1⟩ ⟨h2, h3⟩⟩,
      Mem.upd_on (P := RegA d auxE) ⟨rfl, inbE rfl ⟨h0, h1⟩ ⟨h2, h3⟩⟩]
    simp only [eff2, eff, if_true, reduceCtorEq, if_false, hS2.mesh, ← f1, ← f2]
    refine ⟨?_, ?_, ?_, ?_⟩ <;> trivial
  have hA3 : ∀ b, auxE b = false → m3.real b = m2.real b := ag3.real
  have hA2 : ∀ b, auxC b = false → m2.real b = m1.real b := ag2.real
  have w1 : ∀ k, 0 ≤ k → k < d.nlayers →
      EqOn d.nvertices (m2.sl .norm_rvort_vertex 0 k) (S.nrvV (m.fld st) k) := by
    intro k h2 h3 i h0 h1
    rw [← (v1 i k h0 h1 h2 h3).2.1]; unfold Mem.sl; rw [hA2 _ rfl]
  have w2 : ∀ k, 0 ≤ k → k < d.nlayers →
      EqOn d.nvertices (m2.sl .norm_pvort_vertex 0 k) (S.npvV (m.fld st) k) := by
    intro k h2 h3 i h0 h1
    rw [← (v1 i k h0 h1 h2 h3).2.2]; unfold Mem.sl; rw [hA2 _ rfl]
  refine ⟨m3, Runs.cons r1 (Runs.cons r2 (Runs.single r3)), ?_, ?_⟩
  · exact (ag3.mono fun _ h => auxE_sub h).trans ((ag2.mono fun _ h => auxC_sub h).trans
      (ag1.mono fun _ h => auxV_sub h))
  · constructor
    · intro k h2 h3 i h0 h1; exact (v3 i k h0 h1 h2 h3).1
    · intro k h2 h3 i h0 h1; exact (v3 i k h0 h1 h2 h3).2.1
    · intro k h2 h3 i h0 h1
      rw [← (v1 i k h0 h1 h2 h3).1]; unfold Mem.sl; rw [hA3 _ rfl, hA2 _ rfl]
    · intro k h2 h3 i h0 h1
      rw [← w1 k h2 h3 i h0 h1]; unfold Mem.sl; rw [hA3 _ rfl]
    · intro k h2 h3 i h0 h1
      rw [← w2 k h2 h3 i h0 h1]; unfold Mem.sl; rw [hA3 _ rfl]
    · intro k h2 h3 i h0 h1
      exact (v3 i k h0 h1 h2 h3).2.2.1.trans (hS.loc.vedge hS.ok (w1 k h2 h3) i h0 h1)
    · intro k h2 h3 i h0 h1
      exact (v3 i k h0 h1 h2 h3).2.2.2.trans (hS.loc.vedge hS.ok (w2 k h2 h3) i h0 h1)
    · intro k h2 h3 i h0 h1
      rw [← (v2 i k h0 h1 h2 h3).1]; unfold Mem.sl; rw [hA3 _ rfl]
    · intro k h2 h3 i h0 h1
      rw [← (v2 i k h0 h1 h2 h3).2]; unfold Mem.sl; rw [hA3 _ rfl]
    · intro l k g0 g1 h2 h3 i h0 h1
      rw [← v2t l i k g0 g1 h0 h1 h2 h3]; unfold Mem.sl; rw [hA3 _ rfl]

/-! ### Tendency launches -/

theorem AuxOK.of_agree {s : Fld R} {m' : Mem R} {A : RArr → Bool} (h : AuxOK d S s m)
    (ha : Agree A m' m) (hA : ∀ b, auxAll b = true → A b = false) : AuxOK d S s m' := by
  have e : ∀ b l k, auxAll b = true → m'.sl b l k = m.sl b l k := by
    intro b l k hb; unfold Mem.sl; rw [ha.real b (hA b hb)]
  constructor
  · intro k h2 h3; rw [e _ _ _ rfl]; exact h.mean k h2 h3
  · intro k h2 h3; rw [e _ _ _ rfl]; exact h.flux k h2 h3
  · intro k h2 h3; rw [e _ _ _ rfl]; exact h.rv k h2 h3
  · intro k h2 h3; rw [e _ _ _ rfl]; exact h.nrvV k h2 h3
  · intro k h2 h3; rw [e _ _ _ rfl]; exact h.npvV k h2 h3
  · intro k h2 h3; rw [e _ _ _ rfl]; exact h.nrvE k h2 h3
  · intro k h2 h3; rw [e _ _ _ rfl]; exact h.npvE k h2 h3
  · intro k h2 h3; rw [e _ _ _ rfl]; exact h.ke k h2 h3
  · intro k h2 h3; rw [e _ _ _ rfl]; exact h.div k h2 h3
  · intro l k g0 g1 h2 h3; rw [e _ _ _ rfl]; exact h.ntr l k g0 g1 h2 h3

/-- a single view -/
def only (a : RArr) (b : RArr) : Bool := decide (b = a)

theorem only_self (a : RArr) : only a a = true := by simp [only]
theorem only_ne {a b : RArr} (h : b ≠ a) : only a b = false := by simp [only, h]
theorem only_eq {a b : RArr} (h : only a b = true) : b = a := by simpa [only] using h

theorem state_dyn {a b : RArr} (ha : isState a = true) (h : only a b = true) : isDyn b = true := by
  rw [only_eq h]; simp [isDyn, ha]

theorem h_tendency_runs (hS : Setup d K S m) {s : Fld R} (ha : AuxOK d S s m) (mode : AddMode)
    {tn st : StateId} (hne : st ≠ tn) (hst : m.fld st = s) :
    ∃ m', (∀ split, Runs d (compute_h_tendency d ⟨K, split⟩ S.sw mode tn st) m m') ∧
      Agree (only (.h_cell tn)) m' m ∧
      ∀ c k, 0 ≤ c → c < d.ncells → 0 ≤ k → k < d.nlayers →
        m'.real (.h_cell tn) 0 c k = S.termsH s mode (m.real (.h_cell tn) 0 c k) c k := by
  have hd := hS.dims
  have C : Ctx d m (only (.h_cell tn)) := ctx_of hd hS.conn fun b h => state_dyn rfl h
  have r := launch2_runs (A := only (.h_cell tn)) (n := d.ncells)
    (ts := hTerms d ⟨K, true⟩ S.sw mode tn st) hd (by
      intro a l i k h1 h2; rw [only_eq h1] at h2; exact inE rfl h2)
    (.cons (g := eff (.h_cell tn) fun _ _ _ _ => lit 0)
        (fun _ y hy => zero2_op hd (only_self _) rfl hy.1 hy.2)
      (.cons (fun _ y hy => hS.ref.hadv (tend := .h_cell tn) (v := .vn_edge st) (h := .flux_h_edge)
        C (only_self _) (only_ne (by simp)) (only_ne (by simp)) rfl rfl rfl hy.1 hy.2) .nil))
  refine ⟨_, fun split => r split, (Agree.refl _ m).upd _ fun _ _ _ _ h => h.1, ?_⟩
  intro c k h0 h1 h2 h3
  rw [Mem.upd_on (P := RegA d (only (.h_cell tn)))
    ⟨only_self _, inbE rfl ⟨h0, h1⟩ ⟨h2, h3⟩⟩]
  have e := hS.loc.hadv (x := m.sl (.vn_edge st) 0 k) (y := Sys.vk s k) hS.ok
    (by rw [← hst]; exact EqOn.refl _ _) (ha.flux k h2 h3) c h0 h1
  simp only [eff, if_true, hS.mesh, e]
  rfl

/-- views of the hyperviscosity launches -/
def hyp : RArr → Bool
  | .vel_del2_edge | .vel_del2_rvort_vertex | .vel_del2_div_cell => true
  | _ => false

theorem hyp_aux {b : RArr} (h : hyp b = true) : isAux b = true := by
  cases b <;> first | rfl | simp [hyp] at h

theorem hyperPre_runs (hS : Setup d K S m) {s : Fld R} (ha : AuxOK d S s m) :
    ∃ m', Runs d (hyperPre d K) m m' ∧ Agree hyp m' m ∧
      (∀ k, 0 ≤ k → k < d.nlayers →
        EqOn d.nvertices (m'.sl .vel_del2_rvort_vertex 0 k) (S.d2V s k)) ∧
      (∀ k, 0 ≤ k → k < d.nlayers →
        EqOn d.ncells (m'.sl .vel_del2_div_cell 0 k) (S.d2C s k)) := by
  have hd := hS.dims
  have sub1 : ∀ b, only .vel_del2_edge b = true → hyp b = true := fun b h => by
    rw [only_eq h]; rfl
  have sub2 : ∀ b, only .vel_del2_rvort_vertex b = true → hyp b = true := fun b h => by
    rw [only_eq h]; rfl
  have sub3 : ∀ b, only .vel_del2_div_cell b = true → hyp b = true := fun b h => by
    rw [only_eq h]; rfl
  have c1 : Ctx d m (only .vel_del2_edge) :=
    ctx_of hd hS.conn fun b h => isAux_dyn (hyp_aux (sub1 b h))
  have r1 := par2_runs (A := only .vel_del2_edge) (n := d.nedges) hd (by
      intro a l i k h1 h2; rw [only_eq h1] at h2; exact inE rfl h2)
    (fun i kc hi hk => hS.ref.velDel2 (div := .vel_div_cell) (rv := .rvort_vertex) c1
      (only_self _) (only_ne (by decide)) (only_ne (by decide)) rfl rfl hi hk)
  generalize hm1 : m.upd (RegA d (only .vel_del2_edge)) _ = m1 at r1
  have ag1 : Agree (only .vel_del2_edge) m1 m := by
    rw [← hm1]; exact (Agree.refl _ m).upd _ fun _ _ _ _ h => h.1
  have v1 : ∀ k, 0 ≤ k → k < d.nlayers → EqOn d.nedges (m1.sl .vel_del2_edge 0 k) (S.d2E s k) := by
    intro k h2 h3 i h0 h1
    have e := hS.loc.del2 hS.ok (ha.div k h2 h3) (ha.rv k h2 h3) i h0 h1
    unfold Mem.sl
    rw [← hm1, Mem.upd_on (P := RegA d (only .vel_del2_edge))
      ⟨only_self _, inbE rfl ⟨h0, h1⟩ ⟨h2, h3⟩⟩]
    simp only [eff, if_true, hS.mesh, e]
    rfl
  have hS1 := hS.static (ag1.mono fun b h => isAux_dyn (hyp_aux (sub1 b h)))
  have c2 : Ctx d m1 (only .vel_del2_rvort_vertex) :=
    ctx_of hd hS1.conn fun b h => isAux_dyn (hyp_aux (sub2 b h))
  have r2 := par2_runs (A := only .vel_del2_rvort_vertex) (n := d.nvertices) hd (by
      intro a l i k h1 h2; rw [only_eq h1] at h2; exact inE rfl h2)
    (fun i kc hi hk => hS1.ref.velDel2Rvort c2 (only_self _) (only_ne (by decide)) hi hk)
  generalize hm2 : m1.upd (RegA d (only .vel_del2_rvort_vertex)) _ = m2 at r2
  have ag2 : Agree (only .vel_del2_rvort_vertex) m2 m1 := by
    rw [← hm2]; exact (Agree.refl _ m1).upd _ fun _ _ _ _ h => h.1
  have v2 : ∀ k, 0 ≤ k → k < d.nlayers →
      EqOn d.nvertices (m2.sl .vel_del2_rvort_vertex 0 k) (S.d2V s k) := by
    intro k h2 h3 i h0 h1
    have hks := hd.chunk_lt h2 h3
    have hk0 := hd.lane hks.1 hks.2 (le_refl 0) hd.vl_pos
    rw [add_zero] at hk0
    have e := hS1.loc.del2rv hS1.ok (v1 k h2 h3) (v1 _ hk0.1 hk0.2) i h0 h1
    unfold Mem.sl
    rw [← hm2, Mem.upd_on (P := RegA d (only .vel_del2_rvort_vertex))
      ⟨only_self _, inbE rfl ⟨h0, h1⟩ ⟨h2, h3⟩⟩]
    simp only [eff, if_true, hS1.mesh, e]
    simp only [Sys.d2V, hS.vl]
  have hS2 := hS1.static (ag2.mono fun b h => isAux_dyn (hyp_aux (sub2 b h)))
  have c3 : Ctx d m2 (only .vel_del2_div_cell) :=
    ctx_of hd hS2.conn fun b h => isAux_dyn (hyp_aux (sub3 b h))
  have r3 := par2_runs (A := only .vel_del2_div_cell) (n := d.ncells) hd (by
      intro a l i k h1 h2; rw [only_eq h1] at h2; exact inE rfl h2)
    (fun i kc hi hk => hS2.ref.velDel2Div c3 (only_self _) (only_ne (by decide)) hi hk)
  generalize hm3 : m2.upd (RegA d (only .vel_del2_div_cell)) _ = m3 at r3
  have ag3 : Agree (only .vel_del2_div_cell) m3 m2 := by
    rw [← hm3]; exact (Agree.refl _ m2).upd _ fun _ _ _ _ h => h.1
  refine ⟨m3, Runs.cons r1 (Runs.cons r2 (Runs.single r3)), ?_, ?_, ?_⟩
  · exact (ag3.mono sub3).trans ((ag2.mono sub2).trans (ag1.mono sub1))
  · intro k h2 h3 i h0 h1
    rw [← v2 k h2 h3 i h0 h1]; unfold Mem.sl; rw [ag3.real _ (only_ne (by decide))]
  · intro k h2 h3 i h0 h1
    have w : EqOn d.nedges (m2.sl .vel_del2_edge 0 k) (S.d2E s k) := by
      intro j g0 g1
      rw [← v1 k h2 h3 j g0 g1]; unfold Mem.sl; rw [ag2.real _ (only_ne (by decide))]
    have e := hS2.loc.del2div hS2.ok w i h0 h1
    unfold Mem.sl
    rw [← hm3, Mem.upd_on (P := RegA d (only .vel_del2_div_cell))
      ⟨only_self _, inbE rfl ⟨h0, h1⟩ ⟨h2, h3⟩⟩]
    simp only [eff, if_true, hS2.mesh, e]
    rfl

/-- views written by `compute_vn_tendency` -/
def vnSet (tn : StateId) (b : RArr) : Bool := hyp b || only (.vn_edge tn) b

theorem vn_tendency_runs (hS : Setup d K S m) {s : Fld R} (ha : AuxOK d S s m) (mode : AddMode)
    {tn st : StateId} (hne : st ≠ tn) (hst : m.fld st = s) :
    ∃ m', (∀ split, Runs d (compute_vn_tendency d ⟨K, split⟩ S.sw mode tn st) m m') ∧
      Agree (vnSet tn) m' m ∧
      ∀ e k, 0 ≤ e → e < d.nedges → 0 ≤ k → k < d.nlayers →
        m'.real (.vn_edge tn) 0 e k = S.termsVn s mode (m.real (.vn_edge tn) 0 e k) e k := by
  have hd := hS.dims
  obtain ⟨m1, r1, ag1, hv, hc⟩ : ∃ m1, Runs d (if S.sw.en_vhyper then hyperPre d K else []) m m1 ∧
      Agree hyp m1 m ∧
      (S.sw.en_vhyper = true → ∀ k, 0 ≤ k → k < d.nlayers →
        EqOn d.nvertices (m1.sl .vel_del2_rvort_vertex 0 k) (S.d2V s k)) ∧
      (S.sw.en_vhyper = true → ∀ k, 0 ≤ k → k < d.nlayers →
        EqOn d.ncells (m1.sl .vel_del2_div_cell 0 k) (S.d2C s k)) := by
    cases hb : S.sw.en_vhyper with
    | true =>
      obtain ⟨m1, r, ag, h1, h2⟩ := hyperPre_runs hS ha
      exact ⟨m1, by simpa using r, ag, fun _ => h1, fun _ => h2⟩
    | false => exact ⟨m, by simpa using Runs.nil m, Agree.refl _ _, by simp, by simp⟩
  have hS1 := hS.static (ag1.mono fun b h => isAux_dyn (hyp_aux h))
  have ha1 : AuxOK d S s m1 := ha.of_agree ag1 (by
    intro b hb; cases b <;> first | rfl | simp [auxAll, auxV, auxC, auxE] at hb)
  have hst1 : m1.fld st = s := by
    rw [← hst]; exact fld_congr fun b hb => ag1.real b (by
      cases b <;> first | rfl | simp [inState] at hb)
  have C : Ctx d m1 (only (.vn_edge tn)) := ctx_of hd hS1.conn fun b h => state_dyn rfl h
  have hvn : only (.vn_edge tn) (.vn_edge st) = false := only_ne (by simpa using hne)
  have r := launch2_runs (A := only (.vn_edge tn)) (n := d.nedges)
    (ts := vnTerms d ⟨K, true⟩ S.sw mode tn st) hd (by
      intro a l i k h1 h2; rw [only_eq h1] at h2; exact inE rfl h2)
    (.cons (g := eff (.vn_edge tn) fun _ _ _ _ => lit 0)
        (fun _ y hy => zero2_op hd (only_self _) rfl hy.1 hy.2)
      (.cons (fun _ y hy => hS1.ref.pvFlux (tend := .vn_edge tn) (nrv := .norm_rvort_edge)
        (nf := .norm_pvort_edge) (hf := .flux_h_edge) (vn := .vn_edge st)
        C (only_self _) (only_ne (by simp)) (only_ne (by simp)) (only_ne (by simp)) hvn
        rfl rfl rfl rfl rfl hy.1 hy.2)
      (.cons (fun _ y hy => hS1.ref.keGrad (tend := .vn_edge tn) (ke := .ke_cell)
        C (only_self _) (only_ne (by simp)) rfl rfl hy.1 hy.2)
      (.cons (fun _ y hy => hS1.ref.sshGrad (tend := .vn_edge tn) (h := .h_cell st)
        C (only_self _) (only_ne (by simp)) rfl rfl hy.1 hy.2)
      (.cons (fun _ y hy => hS1.ref.velDiff (tend := .vn_edge tn) (div := .vel_div_cell)
        (rv := .rvort_vertex) C (only_self _) (only_ne (by simp)) (only_ne (by simp)) rfl rfl rfl
        hy.1 hy.2)
      (.cons (fun _ y hy => hS1.ref.velHyper (tend := .vn_edge tn)
        C (only_self _) (only_ne (by simp)) (only_ne (by simp)) rfl hy.1 hy.2) .nil))))))
  refine ⟨_, fun split => Runs.append r1 (r split),
    (Agree.upd (ag1.mono ?_) _ ?_), ?_⟩
  · intro b h; simp [vnSet, h]
  · rintro a l i k ⟨h, -⟩; simp [vnSet, h]
  intro e k h0 h1 h2 h3
  rw [Mem.upd_on (P := RegA d (only (.vn_edge tn)))
    ⟨only_self _, inbE rfl ⟨h0, h1⟩ ⟨h2, h3⟩⟩]
  rw [← ag1.real (.vn_edge tn) rfl]
  have evn : EqOn d.nedges (m1.sl (.vn_edge st) 0 k) (Sys.vk s k) := by
    rw [← hst1]; exact EqOn.refl _ _
  have e1 := hS.loc.pv hS.ok (ha1.nrvE k h2 h3) (ha1.npvE k h2 h3) (ha1.flux k h2 h3) evn e h0 h1
  have e2 := hS.loc.keG hS.ok (ha1.ke k h2 h3) e h0 h1
  have e3 := hS.loc.sshG (g := S.sw.prm.grav) (x := m1.sl (.h_cell st) 0 k) (y := Sys.hk s k) hS.ok
    (by rw [← hst1]; exact EqOn.refl _ _) e h0 h1
  have e4 := hS.loc.vdiff (g := S.sw.prm.visc_del2) (k := k) hS.ok (ha1.div k h2 h3)
    (ha1.rv k h2 h3) e h0 h1
  have e5 : S.sw.en_vhyper = true → _ := fun hb =>
    hS.loc.vhyper (g := S.sw.prm.visc_del4) (k := k) hS.ok (hc hb k h2 h3) (hv hb k h2 h3) e h0 h1
  simp only [eff, if_true, hS1.mesh, e1, e2, e3, e4]
  cases hb : S.sw.en_vhyper with
  | true => rw [e5 hb]; simp only [Sys.termsVn, hb]; rfl
  | false => simp only [Sys.termsVn, hb]; rfl

/-- views written by `compute_tr_tendency` -/
def trSet (tn : StateId) (b : RArr) : Bool := only .tracer_del2_cell b || only (.tr_cell tn) b

theorem tr_tendency_runs (hS : Setup d K S m) {s : Fld R} (ha : AuxOK d S s m) (mode : AddMode)
    {tn st : StateId} (hne : st ≠ tn) (hst : m.fld st = s) :
    ∃ m', (∀ split, Runs d (compute_tr_tendency d ⟨K, split⟩ S.sw mode tn st) m m') ∧
      Agree (trSet tn) m' m ∧
      ∀ l c k, 0 ≤ l → l < d.ntracers → 0 ≤ c → c < d.ncells → 0 ≤ k → k < d.nlayers →
        m'.real (.tr_cell tn) l c k = S.termsTr s mode (m.real (.tr_cell tn) l c k) l c k := by
  have hd := hS.dims
  have sub : ∀ b, only .tracer_del2_cell b = true → isAux b = true := fun b h => by
    rw [only_eq h]; rfl
  obtain ⟨m1, r1, ag1, ht⟩ : ∃ m1, Runs d (if S.sw.en_thyper then
        [par3 d.ntracers d.ncells d.nlayersVec (K.trDel2 .norm_tr_cell .flux_h_edge)] else []) m m1 ∧
      Agree (only .tracer_del2_cell) m1 m ∧
      (S.sw.en_thyper = true → ∀ l k, 0 ≤ l → l < d.ntracers → 0 ≤ k → k < d.nlayers →
        EqOn d.ncells (m1.sl .tracer_del2_cell l k) (S.t2C s l k)) := by
    cases hb : S.sw.en_thyper with
    | true =>
      have C : Ctx d m (only .tracer_del2_cell) :=
        ctx_of hd hS.conn fun b h => isAux_dyn (sub b h)
      have r1 := par3_runs (A := only .tracer_del2_cell) (n := d.ncells) hd (by
          intro a l i k h1 h2; rw [only_eq h1] at h2; exact inT rfl h2)
        (fun l i kc hl hi hk => hS.ref.trDel2 (ntr := .norm_tr_cell) (hm := .flux_h_edge) C
          (only_self _) (only_ne (by decide)) (only_ne (by decide)) rfl rfl hl hi hk)
      refine ⟨_, Runs.single r1, (Agree.refl _ m).upd _ fun _ _ _ _ h => h.1, ?_⟩
      intro _ l k g0 g1 h2 h3 i h0 h1
      have e := hS.loc.tdel2 hS.ok (ha.ntr l k g0 g1 h2 h3) (ha.flux k h2 h3) i h0 h1
      simp only [Mem.sl]
      rw [Mem.upd_on (P := RegA d (only .tracer_del2_cell))
        ⟨only_self _, inbT rfl ⟨g0, g1⟩ ⟨h0, h1⟩ ⟨h2, h3⟩⟩]
      simp only [eff, if_true, hS.mesh]
      exact e
    | false => exact ⟨m, by simpa using Runs.nil m, Agree.refl _ _, by simp⟩
  have hS1 := hS.static (ag1.mono fun b h => isAux_dyn (sub b h))
  have ha1 : AuxOK d S s m1 := ha.of_agree ag1 (by
    intro b hb; cases b <;> first | rfl | simp [auxAll, auxV, auxC, auxE] at hb)
  have hst1 : m1.fld st = s := by
    rw [← hst]; exact fld_congr fun b hb => ag1.real b (by
      cases b <;> first | rfl | simp [inState] at hb)
  have C : Ctx d m1 (only (.tr_cell tn)) := ctx_of hd hS1.conn fun b h => state_dyn rfl h
  have r := launch3_runs (A := only (.tr_cell tn)) (n := d.ncells)
    (ts := trTerms d ⟨K, true⟩ S.sw mode tn st) hd (by
      intro a l i k h1 h2; rw [only_eq h1] at h2; exact inT rfl h2)
    (.cons (g := eff (.tr_cell tn) fun _ _ _ _ => lit 0)
        (fun _ y hy => zero3_op hd (only_self _) rfl hy.1 hy.2.1 hy.2.2)
      (.cons (fun _ y hy => hS1.ref.trHadv (tend := .tr_cell tn) (v := .vn_edge st)
        (ntr := .norm_tr_cell) (hf := .mean_h_edge)
        C (only_self _) (only_ne (by simp)) (only_ne (by simp)) (only_ne (by simp))
        rfl rfl rfl rfl hy.1 hy.2.1 hy.2.2)
      (.cons (fun _ y hy => hS1.ref.trDiff (tend := .tr_cell tn) (ntr := .norm_tr_cell)
        (hm := .flux_h_edge) C (only_self _) (only_ne (by simp)) (only_ne (by simp)) rfl rfl rfl
        hy.1 hy.2.1 hy.2.2)
      (.cons (fun _ y hy => hS1.ref.trHyper (tend := .tr_cell tn) (del2 := .tracer_del2_cell)
        C (only_self _) (only_ne (by simp)) rfl rfl hy.1 hy.2.1 hy.2.2) .nil))))
  refine ⟨_, fun split => Runs.append r1 (r split), (Agree.upd (ag1.mono ?_) _ ?_), ?_⟩
  · intro b h; simp [trSet, h]
  · rintro a l i k ⟨h, -⟩; simp [trSet, h]
  intro l c k g0 g1 h0 h1 h2 h3
  rw [Mem.upd_on (P := RegA d (only (.tr_cell tn)))
    ⟨only_self _, inbT rfl ⟨g0, g1⟩ ⟨h0, h1⟩ ⟨h2, h3⟩⟩]
  rw [← ag1.real (.tr_cell tn) rfl]
  have evn : EqOn d.nedges (m1.sl (.vn_edge st) 0 k) (Sys.vk s k) := by
    rw [← hst1]; exact EqOn.refl _ _
  have e1 := hS.loc.thadv hS.ok evn (ha1.ntr l k g0 g1 h2 h3) (ha1.mean k h2 h3) c h0 h1
  have e2 := hS.loc.tdiff (g := S.sw.prm.eddy_diff2) hS.ok (ha1.ntr l k g0 g1 h2 h3)
    (ha1.flux k h2 h3) c h0 h1
  have e3 : S.sw.en_thyper = true → _ := fun hb =>
    hS.loc.thyper (g := S.sw.prm.eddy_diff4) hS.ok (ht hb l k g0 g1 h2 h3) c h0 h1
  simp only [eff, if_true, hS1.mesh, e1, e2]
  cases hb : S.sw.en_thyper with
  | true => rw [e3 hb]; simp only [Sys.termsTr, hb]; rfl
  | false => simp only [Sys.termsTr, hb]; rfl

/-- views written by `compute_tendency` -/
def tendSet (tn : StateId) (b : RArr) : Bool := isAux b || inState tn b

theorem compute_tendency_runs (hS : Setup d K S m) (mode : AddMode) {tn st : StateId}
    (hne : st ≠ tn) (t : R) :
    ∃ m', (∀ split, Runs d (compute_tendency d ⟨K, split⟩ S.sw mode tn st t) m m') ∧
      Agree (tendSet tn) m' m ∧
      EqFld d (m'.fld tn) (S.tend mode t (m.fld tn) (m.fld st)) := by
  obtain ⟨m1, r1, ag1, ha1⟩ := aux_compute_runs hS st
  have hS1 := hS.static (ag1.mono fun b h => isAux_dyn (auxAll_aux h))
  have e1 : ∀ b, isState b = true → m1.real b = m.real b := fun b hb => ag1.real b (by
    cases b <;> first | rfl | simp [isState] at hb)
  have hst1 : m1.fld st = m.fld st := fld_congr fun b hb => e1 b (by
    cases b <;> first | rfl | simp [inState] at hb)
  -- thickness
  obtain ⟨m2, r2, ag2, v2⟩ : ∃ m2, (∀ split, Runs d (if S.sw.prm.disable_h then [] else
      compute_h_tendency d ⟨K, split⟩ S.sw mode tn st) m1 m2) ∧ Agree (only (.h_cell tn)) m2 m1 ∧
      ∀ c k, 0 ≤ c → c < d.ncells → 0 ≤ k → k < d.nlayers →
        m2.real (.h_cell tn) 0 c k = if S.sw.prm.disable_h = true then m1.real (.h_cell tn) 0 c k
          else S.termsH (m.fld st) mode (m1.real (.h_cell tn) 0 c k) c k := by
    cases hb : S.sw.prm.disable_h with
    | true =>
      exact ⟨m1, fun _ => by simpa using Runs.nil m1, Agree.refl _ _, fun _ _ _ _ _ _ => by simp⟩
    | false =>
      obtain ⟨m2, r, ag, v⟩ := h_tendency_runs hS1 ha1 mode hne hst1
      exact ⟨m2, fun sp => by simpa using r sp, ag, fun c k h0 h1 h2 h3 => by
        simpa using v c k h0 h1 h2 h3⟩
  have hS2 := hS1.static (ag2.mono fun b h => state_dyn rfl h)
  have ha2 := ha1.of_agree ag2 (by
    intro b hb; cases b <;> first | rfl | simp [auxAll, auxV, auxC, auxE] at hb)
  have hst2 : m2.fld st = m.fld st := by
    rw [← hst1]; exact fld_congr fun b hb => ag2.real b (by
      cases b <;> first
        | rfl
        | (simp [inState] at hb; done)
        | (simp only [inState, decide_eq_true_eq] at hb; subst hb
           exact only_ne (by simpa using hne)))
  -- velocity
  obtain ⟨m3, r3, ag3, v3⟩ : ∃ m3, (∀ split, Runs d (if S.sw.prm.disable_vn then [] else
      compute_vn_tendency d ⟨K, split⟩ S.sw mode tn st) m2 m3) ∧ Agree (vnSet tn) m3 m2 ∧
      ∀ c k, 0 ≤ c → c < d.nedges → 0 ≤ k → k < d.nlayers →
        m3.real (.vn_edge tn) 0 c k = if S.sw.prm.disable_vn = true then
          m2.real (.vn_edge tn) 0 c k
          else S.termsVn (m.fld st) mode (m2.real (.vn_edge tn) 0 c k) c k := by
    cases hb : S.sw.prm.disable_vn with
    | true =>
      exact ⟨m2, fun _ => by simpa using Runs.nil m2, Agree.refl _ _, fun _ _ _ _ _ _ => by simp⟩
    | false =>
      obtain ⟨m3, r, ag, v⟩ := vn_tendency_runs hS2 ha2 mode hne hst2
      exact ⟨m3, fun sp => by simpa using r sp, ag, fun c k h0 h1 h2 h3 => by
        simpa using v c k h0 h1 h2 h3⟩
  have vnd : ∀ b, vnSet tn b = true → isDyn b = true := by
    intro b h
    simp only [vnSet, Bool.or_eq_true] at h
    rcases h with h | h
    · exact isAux_dyn (hyp_aux h)
    · exact state_dyn rfl h
  have hS3 := hS2.static (ag3.mono vnd)
  have ha3 := ha2.of_agree ag3 (by
    intro b hb; cases b <;> first | rfl | simp [auxAll, auxV, auxC, auxE] at hb)
  have hst3 : m3.fld st = m.fld st := by
    rw [← hst2]; exact fld_congr fun b hb => ag3.real b (by
      cases b <;> first
        | rfl
        | (simp [inState] at hb; done)
        | (simp only [inState, decide_eq_true_eq] at hb; subst hb
           simp [vnSet, hyp, only]; done)
        | (simp only [inState, decide_eq_true_eq] at hb; subst hb
           simpa [vnSet, hyp, only] using hne))
  -- tracers
  obtain ⟨m4, r4, ag4, v4⟩ : ∃ m4, (∀ split, Runs d (if 0 < d.ntracers then
      compute_tr_tendency d ⟨K, split⟩ S.sw mode tn st else []) m3 m4) ∧ Agree (trSet tn) m4 m3 ∧
      ∀ l c k, 0 ≤ l → l < d.ntracers → 0 ≤ c → c < d.ncells → 0 ≤ k → k < d.nlayers →
        m4.real (.tr_cell tn) l c k =
          S.termsTr (m.fld st) mode (m3.real (.tr_cell tn) l c k) l c k := by
    by_cases hb : 0 < d.ntracers
    · obtain ⟨m4, r, ag, v⟩ := tr_tendency_runs hS3 ha3 mode hne hst3
      exact ⟨m4, fun sp => by simpa [hb] using r sp, ag, v⟩
    · exact ⟨m3, fun _ => by simpa [hb] using Runs.nil m3, Agree.refl _ _,
        fun l c k h0 h1 => by omega⟩
  have trd : ∀ b, trSet tn b = true → isDyn b = true := by
    intro b h
    simp only [trSet, Bool.or_eq_true] at h
    rcases h with h | h
    · rw [only_eq h]; rfl
    · exact state_dyn rfl h
  have hS4 := hS3.static (ag4.mono trd)
  -- hook
  have r5 := hS4.hook m4 (Agree.refl _ _) t tn st hne
  have s1 : ∀ b, auxAll b = true → tendSet tn b = true := fun b h => by
    simp [tendSet, auxAll_aux h]
  have s2 : ∀ b, only (.h_cell tn) b = true → tendSet tn b = true := fun b h => by
    rw [only_eq h]; simp [tendSet, inState]
  have s3 : ∀ b, vnSet tn b = true → tendSet tn b = true := fun b h => by
    simp only [vnSet, Bool.or_eq_true] at h
    rcases h with h | h
    · simp [tendSet, hyp_aux h]
    · rw [only_eq h]; simp [tendSet, inState]
  have s4 : ∀ b, trSet tn b = true → tendSet tn b = true := fun b h => by
    simp only [trSet, Bool.or_eq_true] at h
    rcases h with h | h
    · rw [only_eq h]; rfl
    · rw [only_eq h]; simp [tendSet, inState]
  have s5 : ∀ b, hvOf tn b = true → tendSet tn b = true := fun b h => by
    simp only [hvOf, Bool.or_eq_true, decide_eq_true_eq] at h
    rcases h with rfl | rfl <;> simp [tendSet, inState]
  refine ⟨_, fun split => Runs.append r1 (Runs.append (r2 split) (Runs.append (r3 split)
    (Runs.append (r4 split) r5))), ?_, ?_⟩
  · exact ((ag4.mono s4).trans ((ag3.mono s3).trans ((ag2.mono s2).trans (ag1.mono s1)))).upd _
      fun a l i k h => s5 a h.1
  · constructor
    · intro c k h0 h1 h2 h3
      simp only [Mem.fld]
      rw [Mem.upd_on (P := RegA d (hvOf tn)) ⟨by simp [hvOf], inbE rfl ⟨h0, h1⟩ ⟨h2, h3⟩⟩]
      simp only [hookEff, eff2, eff, if_true, reduceCtorEq, if_false]
      rw [ag4.real (.h_cell tn) (by simp [trSet, only]),
        ag3.real (.h_cell tn) (by simp [vnSet, hyp, only]), v2 c k h0 h1 h2 h3, e1 (.h_cell tn) rfl]
      rfl
    · intro c k h0 h1 h2 h3
      simp only [Mem.fld]
      rw [Mem.upd_on (P := RegA d (hvOf tn)) ⟨by simp [hvOf], inbE rfl ⟨h0, h1⟩ ⟨h2, h3⟩⟩]
      simp only [hookEff, eff2, eff, if_true, reduceCtorEq, if_false]
      rw [ag4.real (.vn_edge tn) (by simp [trSet, only]), v3 c k h0 h1 h2 h3,
        ag2.real (.vn_edge tn) (by simp [only]), e1 (.vn_edge tn) rfl]
      rfl
    · intro l c k g0 g1 h0 h1 h2 h3
      simp only [Mem.fld]
      rw [Mem.upd_off (by rintro ⟨h, -⟩; simp [hvOf] at h), v4 l c k g0 g1 h0 h1 h2 h3,
        ag3.real (.tr_cell tn) (by simp [vnSet, hyp, only]),
        ag2.real (.tr_cell tn) (by simp [only]), e1 (.tr_cell tn) rfl]
      rfl

end

end Refine
end Omega
