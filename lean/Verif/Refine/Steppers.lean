import Verif.Refine.Tendency

/-!
# Time steppers as functions of the state
-/

set_option linter.unusedSectionVars false
set_option linter.unusedVariables false

namespace Omega
namespace Refine

open Prog Model

variable {R : Type} [Scalar R]

/-! ### Locality of the tendency -/

section

variable {d : Dims} {S : Sys R} {s s' : Fld R}

theorem EqFld.hk (h : EqFld d s s') {k : Int} (h0 : 0 ≤ k) (h1 : k < d.nlayers) :
    EqOn d.ncells (Sys.hk s k) (Sys.hk s' k) := fun c g0 g1 => h.h c k g0 g1 h0 h1
theorem EqFld.vk (h : EqFld d s s') {k : Int} (h0 : 0 ≤ k) (h1 : k < d.nlayers) :
    EqOn d.nedges (Sys.vk s k) (Sys.vk s' k) := fun c g0 g1 => h.vn c k g0 g1 h0 h1
theorem EqFld.tk (h : EqFld d s s') {l k : Int} (l0 : 0 ≤ l) (l1 : l < d.ntracers) (h0 : 0 ≤ k)
    (h1 : k < d.nlayers) : EqOn d.ncells (Sys.tk s l k) (Sys.tk s' l k) :=
  fun c g0 g1 => h.tr l c k l0 l1 g0 g1 h0 h1

/-- What is needed of the sizes, the mesh and the build for `Sys.tend` to look only at valid
indices. -/
structure SysOK (d : Dims) (S : Sys R) : Prop where
  dims : DimsOK d
  loc : S.F.Local
  ok : MeshOK d S.M
  vl : S.vl = d.vl

theorem Setup.sys {K : Kernels R} {m : Mem R} (h : Setup d K S m) : SysOK d S :=
  ⟨h.dims, h.loc, h.ok, h.vl⟩

variable (hS : SysOK d S) (h : EqFld d s s')
include hS h

theorem flux_local {k : Int} (h0 : 0 ≤ k) (h1 : k < d.nlayers) :
    EqOn d.nedges (S.flux s k) (S.flux s' k) := hS.loc.hmean hS.ok (h.hk h0 h1)
theorem rv_local {k : Int} (h0 : 0 ≤ k) (h1 : k < d.nlayers) :
    EqOn d.nvertices (S.rv s k) (S.rv s' k) := hS.loc.rvort hS.ok (h.vk h0 h1)
theorem nrvE_local {k : Int} (h0 : 0 ≤ k) (h1 : k < d.nlayers) :
    EqOn d.nedges (S.nrvE s k) (S.nrvE s' k) :=
  hS.loc.vedge hS.ok (hS.loc.nrv hS.ok (h.hk h0 h1) (h.vk h0 h1))
theorem npvE_local {k : Int} (h0 : 0 ≤ k) (h1 : k < d.nlayers) :
    EqOn d.nedges (S.npvE s k) (S.npvE s' k) :=
  hS.loc.vedge hS.ok (hS.loc.npv hS.ok (h.hk h0 h1) (EqOn.refl _ _))
theorem keC_local {k : Int} (h0 : 0 ≤ k) (h1 : k < d.nlayers) :
    EqOn d.ncells (S.keC s k) (S.keC s' k) := hS.loc.ke hS.ok (h.vk h0 h1)
theorem divC_local {k : Int} (h0 : 0 ≤ k) (h1 : k < d.nlayers) :
    EqOn d.ncells (S.divC s k) (S.divC s' k) := hS.loc.div hS.ok (h.vk h0 h1)
theorem ntrC_local {l k : Int} (l0 : 0 ≤ l) (l1 : l < d.ntracers) (h0 : 0 ≤ k)
    (h1 : k < d.nlayers) : EqOn d.ncells (S.ntrC s l k) (S.ntrC s' l k) :=
  hS.loc.ntr (h.tk l0 l1 h0 h1) (h.hk h0 h1)
theorem d2E_local {k : Int} (h0 : 0 ≤ k) (h1 : k < d.nlayers) :
    EqOn d.nedges (S.d2E s k) (S.d2E s' k) :=
  hS.loc.del2 hS.ok (divC_local hS h h0 h1) (rv_local hS h h0 h1)
theorem d2V_local {k : Int} (h0 : 0 ≤ k) (h1 : k < d.nlayers) :
    EqOn d.nvertices (S.d2V s k) (S.d2V s' k) := by
  have hks := hS.dims.chunk_lt h0 h1
  have hk0 := hS.dims.lane hks.1 hks.2 (le_refl 0) hS.dims.vl_pos
  rw [add_zero, ← hS.vl] at hk0
  exact hS.loc.del2rv hS.ok (d2E_local hS h h0 h1) (d2E_local hS h hk0.1 hk0.2)
theorem d2C_local {k : Int} (h0 : 0 ≤ k) (h1 : k < d.nlayers) :
    EqOn d.ncells (S.d2C s k) (S.d2C s' k) := hS.loc.del2div hS.ok (d2E_local hS h h0 h1)
theorem t2C_local {l k : Int} (l0 : 0 ≤ l) (l1 : l < d.ntracers) (h0 : 0 ≤ k)
    (h1 : k < d.nlayers) : EqOn d.ncells (S.t2C s l k) (S.t2C s' l k) :=
  hS.loc.tdel2 hS.ok (ntrC_local hS h l0 l1 h0 h1) (flux_local hS h h0 h1)

theorem tend_local (mode : AddMode) (t : R) {o o' : Fld R} (ho : EqFld d o o') :
    EqFld d (S.tend mode t o s) (S.tend mode t o' s') := by
  constructor
  · intro c k g0 g1 h0 h1
    have e := hS.loc.hadv hS.ok (h.vk h0 h1) (flux_local hS h h0 h1) c g0 g1
    simp only [Sys.tend, Sys.termsH, ho.h c k g0 g1 h0 h1, e]
  · intro c k g0 g1 h0 h1
    have e1 := hS.loc.pv hS.ok (nrvE_local hS h h0 h1) (npvE_local hS h h0 h1)
      (flux_local hS h h0 h1) (h.vk h0 h1) c g0 g1
    have e2 := hS.loc.keG hS.ok (keC_local hS h h0 h1) c g0 g1
    have e3 := hS.loc.sshG (g := S.sw.prm.grav) hS.ok (h.hk h0 h1) c g0 g1
    have e4 := hS.loc.vdiff (g := S.sw.prm.visc_del2) (k := k) hS.ok (divC_local hS h h0 h1)
      (rv_local hS h h0 h1) c g0 g1
    have e5 := hS.loc.vhyper (g := S.sw.prm.visc_del4) (k := k) hS.ok (d2C_local hS h h0 h1)
      (d2V_local hS h h0 h1) c g0 g1
    simp only [Sys.tend, Sys.termsVn, ho.vn c k g0 g1 h0 h1, e1, e2, e3, e4, e5]
  · intro l c k l0 l1 g0 g1 h0 h1
    have e1 := hS.loc.thadv hS.ok (h.vk h0 h1) (ntrC_local hS h l0 l1 h0 h1)
      (flux_local hS h h0 h1) c g0 g1
    have e2 := hS.loc.tdiff (g := S.sw.prm.eddy_diff2) hS.ok (ntrC_local hS h l0 l1 h0 h1)
      (flux_local hS h h0 h1) c g0 g1
    have e3 := hS.loc.thyper (g := S.sw.prm.eddy_diff4) hS.ok (t2C_local hS h l0 l1 h0 h1) c g0 g1
    simp only [Sys.tend, Sys.termsTr, ho.tr l c k l0 l1 g0 g1 h0 h1, e1, e2, e3]

end

/-! ### Functional steppers -/

/-- apply a function to every value -/
def Fld.map (f : R → R) (x : Fld R) : Fld R :=
  ⟨fun c k => f (x.h c k), fun e k => f (x.vn e k), fun l c k => f (x.tr l c k)⟩
/-- combine two fields -/
def Fld.zip (f : R → R → R) (x y : Fld R) : Fld R :=
  ⟨fun c k => f (x.h c k) (y.h c k), fun e k => f (x.vn e k) (y.vn e k),
    fun l c k => f (x.tr l c k) (y.tr l c k)⟩

theorem EqFld.map {d : Dims} {x y : Fld R} (h : EqFld d x y) (f : R → R) :
    EqFld d (x.map f) (y.map f) :=
  ⟨fun c k a b e g => congrArg f (h.h c k a b e g), fun c k a b e g => congrArg f (h.vn c k a b e g),
    fun l c k a b e g i j => congrArg f (h.tr l c k a b e g i j)⟩
theorem EqFld.zip {d : Dims} {x y x' y' : Fld R} (h : EqFld d x y) (h' : EqFld d x' y')
    (f : R → R → R) : EqFld d (x.zip f x') (y.zip f y') :=
  ⟨fun c k a b e g => congrArg₂ f (h.h c k a b e g) (h'.h c k a b e g),
    fun c k a b e g => congrArg₂ f (h.vn c k a b e g) (h'.vn c k a b e g),
    fun l c k a b e g i j => congrArg₂ f (h.tr l c k a b e g i j) (h'.tr l c k a b e g i j)⟩

/-- `x + c * y` -/
def Fld.axpy (x : Fld R) (c : R) (y : Fld R) : Fld R := x.zip (fun v w => v + c * w) y

theorem EqFld.axpy {d : Dims} {x y x' y' : Fld R} (h : EqFld d x y) (c : R)
    (h' : EqFld d x' y') : EqFld d (x.axpy c x') (y.axpy c y') := h.zip h' _

namespace Sys

variable (S : Sys R)

/-- one low-storage stage on (tendency, state) -/
def lsrkStage (C : Coef R) (t dt : R) (stage : Nat) (p : Fld R × Fld R) : Fld R × Fld R :=
  let tn := S.tend .increment (t + C.c stage * dt) (p.1.map (fun v => v * C.a stage)) p.2
  (tn, p.2.axpy (dt * C.b stage) tn)

/-- a low-storage step on (tendency, state) -/
def lsrkStep (nstages : Nat) (t dt : R) (p : Fld R × Fld R) : Fld R × Fld R :=
  (List.range nstages).foldl (fun p i => S.lsrkStage (lsrkCoef nstages) t dt i p) p

/-- one stage of the classical step on (tendency, state), given the old state -/
def rk4Stage (C : Coef R) (t dt : R) (old : Fld R) (stage : Nat) (p : Fld R × Fld R) :
    Fld R × Fld R :=
  (if stage < 3 then
      S.tend .replace (t + C.c stage * dt) p.1 (old.axpy (dt * C.a stage) p.1) else p.1,
    p.2.axpy (dt * C.b stage) p.1)

/-- a classical step on (tendency, state) -/
def rk4Step (t dt : R) (p : Fld R × Fld R) : Fld R × Fld R :=
  (List.range 4).foldl (fun q i => S.rk4Stage rk4Coef t dt p.2 i q)
    (S.tend .replace t p.1 p.2, p.2)

end Sys

/-! ### Elementwise launches -/

section

variable {d : Dims} {m : Mem R}

/-- An elementwise launch over a view. -/
theorem elem_runs {c : Cmd R} {a : RArr} (own : Int → Int → Int → Idx)
    (g : Int → Int → Int → R → R)
    (hdom : ∀ l i k, a.InB d l i k → c.Dom (own l i k))
    (hx : ∀ x, c.Dom x → ∃ l i k, a.InB d l i k ∧ own l i k = x ∧
      (∀ l' i' k', a.InB d l' i' k' → own l' i' k' = x → l' = l ∧ i' = i ∧ k' = k) ∧
      ∀ M perm, Agree (only a) M m → perm (.real a l i k) = .rw →
        (∀ b, b ≠ a → ∀ l i k, perm (.real b l i k) ≠ .none) →
        Wp d perm (c.body x) M (fun _ M' => M' = M.setR a l i k (g l i k (M.real a l i k)))) :
    c.Runs d m (m.upd (RegA d (only a)) (eff a g)) := by
  refine Cmd.runs_op own ?_ ?_
  · intro b l i k hb hin
    rw [only_eq hb] at hin
    exact hdom l i k hin
  · intro x hdx M hM perm hp
    obtain ⟨l, i, k, hin, ho, huniq, hw⟩ := hx x hdx
    have hreg : Reg d (only a) own x a l i k := ⟨only_self a, hin, ho⟩
    refine wp_mono (hw M perm hM (hp.own _ _ _ _ hreg) fun b hb => hp.real b (only_ne hb)) ?_
    rintro - M' rfl
    refine setR_upd1 ?_ g rfl
    intro l' i' k'
    constructor
    · rintro ⟨h1, h2, h3⟩; exact huniq l' i' k' h2 h3
    · rintro ⟨rfl, rfl, rfl⟩; exact hreg

theorem par2e_runs {a : RArr} {n : Int} {body : Int → Int → Prog R Unit}
    (hext : a.ext d = (1, n, d.nlayers)) (g : Int → Int → Int → R → R)
    (hw : ∀ i k, a.InB d 0 i k → ∀ M perm, Agree (only a) M m → perm (.real a 0 i k) = .rw →
        (∀ b, b ≠ a → ∀ l i k, perm (.real b l i k) ≠ .none) →
        Wp d perm (body i k) M (fun _ M' => M' = M.setR a 0 i k (g 0 i k (M.real a 0 i k)))) :
    (par2 n d.nlayers body).Runs d m (m.upd (RegA d (only a)) (eff a g)) := by
  refine elem_runs own2e g ?_ ?_
  · intro l i k hin
    rw [RArr.InB, hext] at hin
    exact ⟨hin.2.1, hin.2.2, by simp [par2, own2e]⟩
  · rintro ⟨i, k, z⟩ ⟨h1, h2, h3⟩
    have hz : z = 0 := by simp only [par2] at h3; omega
    subst hz
    have hin : a.InB d 0 i k := by rw [RArr.InB, hext]; exact ⟨by simp, h1, h2⟩
    refine ⟨0, i, k, hin, rfl, ?_, hw i k hin⟩
    intro l' i' k' hin' he
    rw [RArr.InB, hext] at hin'
    simp only [own2e, Prod.mk.injEq] at he
    exact ⟨by omega, he.1, he.2.1⟩

theorem par3e_runs {a : RArr} {n0 n1 n2 : Int} {body : Int → Int → Int → Prog R Unit}
    (hext : a.ext d = (n0, n1, n2)) (g : Int → Int → Int → R → R)
    (hw : ∀ l i k, a.InB d l i k → ∀ M perm, Agree (only a) M m → perm (.real a l i k) = .rw →
        (∀ b, b ≠ a → ∀ l i k, perm (.real b l i k) ≠ .none) →
        Wp d perm (body l i k) M (fun _ M' => M' = M.setR a l i k (g l i k (M.real a l i k)))) :
    (par3 n0 n1 n2 body).Runs d m (m.upd (RegA d (only a)) (eff a g)) := by
  refine elem_runs own3e g ?_ ?_
  · intro l i k hin
    rw [RArr.InB, hext] at hin
    exact hin
  · rintro ⟨l, i, k⟩ hdom
    have hin : a.InB d l i k := by rw [RArr.InB, hext]; exact hdom
    refine ⟨l, i, k, hin, rfl, ?_, hw l i k hin⟩
    intro l' i' k' hin' he
    simpa [own3e] using he

theorem ne_of_rw {p : Perm} (h : p = .rw) : p ≠ .none := by rw [h]; decide

theorem map2_runs {a : RArr} {n : Int} (hext : a.ext d = (1, n, d.nlayers)) (g : R → R) :
    (map2 d n a g).Runs d m (m.upd (RegA d (only a)) (eff a fun _ _ _ v => g v)) :=
  par2e_runs hext _ fun i k hb M perm hM hp hro =>
    wp_bind (wp_rd2 hb (ne_of_rw hp) (wp_wr2 hb hp rfl))

theorem map3_runs {a : RArr} (hext : a.ext d = (d.ntracers, d.ncells, d.nlayers)) (g : R → R) :
    (map3 d a g).Runs d m (m.upd (RegA d (only a)) (eff a fun _ _ _ v => g v)) :=
  par3e_runs hext _ fun l i k hb M perm hM hp hro =>
    wp_bind (wp_rd3 hb (ne_of_rw hp) (wp_wr3 hb hp rfl))

theorem zip2_runs {a b : RArr} {n : Int} (hext : a.ext d = (1, n, d.nlayers))
    (hb : b.ext d = (1, n, d.nlayers)) (hne : b ≠ a) (g : R → R → R) :
    (zip2 d n a b g).Runs d m
      (m.upd (RegA d (only a)) (eff a fun l i k v => g v (m.real b l i k))) :=
  par2e_runs hext _ fun i k hin M perm hM hp hro =>
    wp_bind (wp_rd2 hin (ne_of_rw hp) (wp_bind (wp_rd2
      (by rw [RArr.InB, hb]; rw [RArr.InB, hext] at hin; exact hin) (hro b hne _ _ _)
      (wp_wr2 hin hp (by rw [← hM.real b (only_ne hne)])))))

theorem zip3_runs {a b : RArr} (hext : a.ext d = (d.ntracers, d.ncells, d.nlayers))
    (hb : b.ext d = (d.ntracers, d.ncells, d.nlayers)) (hne : b ≠ a) (g : R → R → R) :
    (zip3 d a b g).Runs d m
      (m.upd (RegA d (only a)) (eff a fun l i k v => g v (m.real b l i k))) :=
  par3e_runs hext _ fun l i k hin M perm hM hp hro =>
    wp_bind (wp_rd3 hin (ne_of_rw hp) (wp_bind (wp_rd3
      (by rw [RArr.InB, hb]; rw [RArr.InB, hext] at hin; exact hin) (hro b hne _ _ _)
      (wp_wr3 hin hp (by rw [← hM.real b (only_ne hne)])))))

theorem put2_runs {a b c : RArr} {n : Int} (hext : a.ext d = (1, n, d.nlayers))
    (hb : b.ext d = (1, n, d.nlayers)) (hc : c.ext d = (1, n, d.nlayers)) (hne : b ≠ a)
    (hne' : c ≠ a) (g : R → R → R) :
    (put2 d n a b c g).Runs d m
      (m.upd (RegA d (only a)) (eff a fun l i k v => g (m.real b l i k) (m.real c l i k))) :=
  par2e_runs hext _ fun i k hin M perm hM hp hro =>
    wp_bind (wp_rd2 (by rw [RArr.InB, hb]; rw [RArr.InB, hext] at hin; exact hin)
      (hro b hne _ _ _) (wp_bind (wp_rd2
      (by rw [RArr.InB, hc]; rw [RArr.InB, hext] at hin; exact hin) (hro c hne' _ _ _)
      (wp_wr2 hin hp (by rw [← hM.real b (only_ne hne), ← hM.real c (only_ne hne')])))))

theorem put3_runs {a b c : RArr} (hext : a.ext d = (d.ntracers, d.ncells, d.nlayers))
    (hb : b.ext d = (d.ntracers, d.ncells, d.nlayers))
    (hc : c.ext d = (d.ntracers, d.ncells, d.nlayers)) (hne : b ≠ a) (hne' : c ≠ a)
    (g : R → R → R) :
    (put3 d a b c g).Runs d m
      (m.upd (RegA d (only a)) (eff a fun l i k v => g (m.real b l i k) (m.real c l i k))) :=
  par3e_runs hext _ fun l i k hin M perm hM hp hro =>
    wp_bind (wp_rd3 (by rw [RArr.InB, hb]; rw [RArr.InB, hext] at hin; exact hin)
      (hro b hne _ _ _) (wp_bind (wp_rd3
      (by rw [RArr.InB, hc]; rw [RArr.InB, hext] at hin; exact hin) (hro c hne' _ _ _)
      (wp_wr3 hin hp (by rw [← hM.real b (only_ne hne), ← hM.real c (only_ne hne')])))))

theorem copy_runs {a b : RArr} (hext : b.ext d = a.ext d) (hne : b ≠ a) :
    (copyR d a b).Runs d m
      (m.upd (RegA d (only a)) (eff a fun l i k _ => m.real b l i k)) :=
  par3e_runs rfl _ fun l i k hin M perm hM hp hro =>
    wp_bind (wp_rd3 (by rw [RArr.InB, hext]; exact hin) (hro b hne _ _ _)
      (wp_wr3 hin hp (by rw [← hM.real b (only_ne hne)])))

theorem fill_runs {a : RArr} (v : R) :
    (fillR d a v).Runs d m (m.upd (RegA d (only a)) (eff a fun _ _ _ _ => v)) :=
  par3e_runs rfl _ fun l i k hin M perm hM hp hro => wp_wr3 hin hp rfl

/-- Values after an update of one view. -/
theorem upd_only_on {a : RArr} {g : Int → Int → Int → R → R} {l i k : Int} (h : a.InB d l i k) :
    (m.upd (RegA d (only a)) (eff a g)).real a l i k = g l i k (m.real a l i k) := by
  rw [Mem.upd_on (P := RegA d (only a)) ⟨only_self a, h⟩, eff_same]
theorem upd_only_off {a b : RArr} {g : Int → Int → Int → R → R} (h : b ≠ a) :
    (m.upd (RegA d (only a)) (eff a g)).real b = m.real b := by
  funext l i k
  rw [Mem.upd_off]
  rintro ⟨h1, -⟩
  exact h (only_eq h1)

/-- The three launches that update the views of state `s`. -/
theorem state3_runs {s : StateId} {c1 c2 : Cmd R} {c3 : Cmd R}
    {g1 g2 g3 : Mem R → Int → Int → Int → R → R}
    (h1 : ∀ m : Mem R, c1.Runs d m (m.upd (RegA d (only (.h_cell s))) (eff (.h_cell s) (g1 m))))
    (h2 : ∀ m : Mem R, c2.Runs d m (m.upd (RegA d (only (.vn_edge s))) (eff (.vn_edge s) (g2 m))))
    (h3 : ∀ m : Mem R, c3.Runs d m (m.upd (RegA d (only (.tr_cell s))) (eff (.tr_cell s) (g3 m))))
    (e2 : ∀ m' : Mem R, Agree (inState s) m' m → g2 m' = g2 m)
    (e3 : ∀ m' : Mem R, Agree (inState s) m' m → g3 m' = g3 m) :
    ∃ m', Runs d ([c1, c2] ++ if 0 < d.ntracers then [c3] else []) m m' ∧
      Agree (inState s) m' m ∧
      EqFld d (m'.fld s) ⟨fun c k => g1 m 0 c k (m.real (.h_cell s) 0 c k),
        fun e k => g2 m 0 e k (m.real (.vn_edge s) 0 e k),
        fun l c k => g3 m l c k (m.real (.tr_cell s) l c k)⟩ := by
  have sub : ∀ a, inState s a = true → ∀ b, only a b = true → inState s b = true := fun a ha b hb => by
    rw [only_eq hb]; exact ha
  have hh : inState s (.h_cell s) = true := by simp [inState]
  have hv : inState s (.vn_edge s) = true := by simp [inState]
  have ht : inState s (.tr_cell s) = true := by simp [inState]
  have a1 : Agree (inState s) (m.upd (RegA d (only (.h_cell s))) (eff (.h_cell s) (g1 m))) m :=
    (Agree.refl _ m).upd _ fun a l i k h => sub _ hh _ h.1
  generalize hm1 : m.upd (RegA d (only (.h_cell s))) (eff (.h_cell s) (g1 m)) = m1 at a1
  have a2 : Agree (inState s) (m1.upd (RegA d (only (.vn_edge s))) (eff (.vn_edge s) (g2 m1))) m :=
    a1.upd _ fun a l i k h => sub _ hv _ h.1
  generalize hm2 : m1.upd (RegA d (only (.vn_edge s))) (eff (.vn_edge s) (g2 m1)) = m2 at a2
  have r12 : Runs d [c1, c2] m m2 := by
    refine Runs.cons (h1 m) ?_
    rw [hm1, ← hm2]; exact Runs.single (h2 m1)
  have vh : ∀ c k, 0 ≤ c → c < d.ncells → 0 ≤ k → k < d.nlayers →
      m2.real (.h_cell s) 0 c k = g1 m 0 c k (m.real (.h_cell s) 0 c k) := by
    intro c k g0 g1' h0 h1'
    rw [← hm2, upd_only_off (by simp), ← hm1, upd_only_on (inbE rfl ⟨g0, g1'⟩ ⟨h0, h1'⟩)]
  have vv : ∀ c k, 0 ≤ c → c < d.nedges → 0 ≤ k → k < d.nlayers →
      m2.real (.vn_edge s) 0 c k = g2 m 0 c k (m.real (.vn_edge s) 0 c k) := by
    intro c k g0 g1' h0 h1'
    rw [← hm2, upd_only_on (inbE rfl ⟨g0, g1'⟩ ⟨h0, h1'⟩), e2 m1 a1, ← hm1,
      upd_only_off (by simp)]
  by_cases hn : 0 < d.ntracers
  · rw [if_pos hn]
    refine ⟨_, Runs.append r12 (Runs.single (h3 m2)), a2.upd _ fun a l i k h => sub _ ht _ h.1, ?_⟩
    constructor
    · intro c k g0 g1' h0 h1'
      simp only [Mem.fld]
      rw [upd_only_off (by simp)]; exact vh c k g0 g1' h0 h1'
    · intro c k g0 g1' h0 h1'
      simp only [Mem.fld]
      rw [upd_only_off (by simp)]; exact vv c k g0 g1' h0 h1'
    · intro l c k l0 l1 g0 g1' h0 h1'
      simp only [Mem.fld]
      rw [upd_only_on (inbT rfl ⟨l0, l1⟩ ⟨g0, g1'⟩ ⟨h0, h1'⟩), e3 m2 a2, ← hm2,
        upd_only_off (by simp), ← hm1, upd_only_off (by simp)]
  · rw [if_neg hn]
    exact ⟨m2, by simpa using r12, a2, vh, vv, fun l c k l0 l1 => by omega⟩

end

/-! ### The steppers -/

section

variable {d : Dims} {K : Kernels R} {S : Sys R} {m : Mem R}

/-- views written by a low-storage step -/
def lsrkSet (b : RArr) : Bool := isAux b || inState .tend b || inState .state b

theorem inState_dyn {s : StateId} {b : RArr} (h : inState s b = true) : isDyn b = true := by
  cases b <;> first | rfl | simp [inState] at h
theorem lsrkSet_dyn {b : RArr} (h : lsrkSet b = true) : isDyn b = true := by
  simp only [lsrkSet, Bool.or_eq_true] at h
  rcases h with (h | h) | h
  · exact isAux_dyn h
  · exact inState_dyn h
  · exact inState_dyn h
theorem tendSet_dyn {s : StateId} {b : RArr} (h : tendSet s b = true) : isDyn b = true := by
  simp only [tendSet, Bool.or_eq_true] at h
  rcases h with h | h
  · exact isAux_dyn h
  · exact inState_dyn h

theorem inState_disj {s s' : StateId} (hne : s' ≠ s) {b : RArr} (h : inState s b = true) :
    inState s' b = false := by
  cases b <;> simp_all [inState] <;> exact fun e => hne e.symm
theorem inState_aux {s : StateId} {b : RArr} (h : inState s b = true) : isAux b = false := by
  cases b <;> first | rfl | simp [inState] at h
theorem tendSet_disj {s s' : StateId} (hne : s' ≠ s) {b : RArr} (h : inState s b = true) :
    tendSet s' b = false := by
  simp [tendSet, inState_aux h, inState_disj hne h]

theorem lsrk_stage_runs (hS : Setup d K S m) (C : Coef R) (t dt : R) (stage : Nat) :
    ∃ m', (∀ split, Runs d (lsrk_stage d ⟨K, split⟩ S.sw C t dt stage) m m') ∧
      Agree lsrkSet m' m ∧
      EqFld d (m'.fld .tend) (S.lsrkStage C t dt stage (m.fld .tend, m.fld .state)).1 ∧
      EqFld d (m'.fld .state) (S.lsrkStage C t dt stage (m.fld .tend, m.fld .state)).2 := by
  obtain ⟨m1, r1, ag1, v1⟩ := state3_runs (m := m) (s := .tend)
    (g1 := fun _ _ _ _ v => v * C.a stage) (g2 := fun _ _ _ _ v => v * C.a stage)
    (g3 := fun _ _ _ _ v => v * C.a stage)
    (fun m => map2_runs (n := d.ncells) rfl (fun v => v * C.a stage))
    (fun m => map2_runs (n := d.nedges) rfl (fun v => v * C.a stage))
    (fun m => map3_runs rfl (fun v => v * C.a stage)) (fun _ _ => rfl) (fun _ _ => rfl)
  have hS1 := hS.static (ag1.mono fun b h => inState_dyn h)
  have f1 : m1.fld .state = m.fld .state := fld_congr fun b hb =>
    ag1.real b (inState_disj (by decide) hb)
  obtain ⟨m2, r2, ag2, v2⟩ := compute_tendency_runs hS1 .increment (tn := .tend) (st := .state)
    (by decide) (t + C.c stage * dt)
  rw [f1] at v2
  have f2 : m2.fld .state = m.fld .state := by
    rw [← f1]; exact fld_congr fun b hb => ag2.real b (tendSet_disj (by decide) hb)
  have v2' := v2.trans (tend_local hS.sys (EqFld.refl d (m.fld .state)) .increment
    (t + C.c stage * dt) v1)
  obtain ⟨m3, r3, ag3, v3⟩ := state3_runs (m := m2) (s := .state)
    (g1 := fun m l i k v => v + dt * C.b stage * m.real (.h_cell .tend) l i k)
    (g2 := fun m l i k v => v + dt * C.b stage * m.real (.vn_edge .tend) l i k)
    (g3 := fun m l i k v => v + dt * C.b stage * m.real (.tr_cell .tend) l i k)
    (fun m => zip2_runs (n := d.ncells) rfl rfl (by simp) (fun v w => v + dt * C.b stage * w))
    (fun m => zip2_runs (n := d.nedges) rfl rfl (by simp) (fun v w => v + dt * C.b stage * w))
    (fun m => zip3_runs rfl rfl (by simp) (fun v w => v + dt * C.b stage * w))
    (fun m' h => by rw [h.real (.vn_edge .tend) (by decide)])
    (fun m' h => by rw [h.real (.tr_cell .tend) (by decide)])
  have f3 : m3.fld .tend = m2.fld .tend := fld_congr fun b hb =>
    ag3.real b (inState_disj (by decide) hb)
  refine ⟨m3, fun split => ?_, ?_, ?_, ?_⟩
  · have := Runs.append (Runs.append r1 (r2 split)) r3
    unfold lsrk_stage
    simpa only [List.append_assoc] using this
  · refine (ag3.mono ?_).trans ((ag2.mono ?_).trans (ag1.mono ?_))
    · intro b h; simp [lsrkSet, h]
    · intro b h; simp only [tendSet, Bool.or_eq_true] at h; rcases h with h | h <;> simp [lsrkSet, h]
    · intro b h; simp [lsrkSet, h]
  · rw [f3]; exact v2'
  · refine v3.trans ?_
    have e : EqFld d (m2.fld .state) (m.fld .state) := by rw [f2]; exact EqFld.refl _ _
    exact e.axpy (dt * C.b stage) v2'

theorem lsrkStage_local (hS : SysOK d S) (C : Coef R) (t dt : R) (stage : Nat)
    {p q : Fld R × Fld R} (h1 : EqFld d p.1 q.1) (h2 : EqFld d p.2 q.2) :
    EqFld d (S.lsrkStage C t dt stage p).1 (S.lsrkStage C t dt stage q).1 ∧
    EqFld d (S.lsrkStage C t dt stage p).2 (S.lsrkStage C t dt stage q).2 := by
  have := tend_local hS h2 .increment (t + C.c stage * dt) (h1.map fun v => v * C.a stage)
  exact ⟨this, h2.axpy (dt * C.b stage) this⟩

theorem lsrk_stages_runs (hS : Setup d K S m) (C : Coef R) (t dt : R) (L : List Nat)
    (p : Fld R × Fld R) (h1 : EqFld d (m.fld .tend) p.1) (h2 : EqFld d (m.fld .state) p.2) :
    ∃ m', (∀ split, Runs d (L.flatMap (lsrk_stage d ⟨K, split⟩ S.sw C t dt)) m m') ∧
      Agree lsrkSet m' m ∧
      EqFld d (m'.fld .tend) (L.foldl (fun p i => S.lsrkStage C t dt i p) p).1 ∧
      EqFld d (m'.fld .state) (L.foldl (fun p i => S.lsrkStage C t dt i p) p).2 := by
  induction L generalizing m p with
  | nil => exact ⟨m, fun _ => Runs.nil m, Agree.refl _ _, h1, h2⟩
  | cons i L ih =>
    obtain ⟨m1, r1, ag1, v1, w1⟩ := lsrk_stage_runs hS C t dt i
    have hl := lsrkStage_local hS.sys C t dt i (p := (m.fld .tend, m.fld .state)) (q := p) h1 h2
    obtain ⟨m2, r2, ag2, v2, w2⟩ := ih (hS.static (ag1.mono fun _ h => lsrkSet_dyn h))
      (S.lsrkStage C t dt i p) (v1.trans hl.1) (w1.trans hl.2)
    exact ⟨m2, fun split => Runs.append (r1 split) (r2 split), ag2.trans ag1, v2, w2⟩

/-- `LSRKStepper::do_step` is safe and race free and computes `Sys.lsrkStep`. -/
theorem lsrk_step_runs (hS : Setup d K S m) (nstages : Nat) (t dt : R) :
    ∃ m', (∀ split, Runs d (lsrk_step d ⟨K, split⟩ S.sw nstages t dt) m m') ∧
      Agree lsrkSet m' m ∧
      EqFld d (m'.fld .tend) (S.lsrkStep nstages t dt (m.fld .tend, m.fld .state)).1 ∧
      EqFld d (m'.fld .state) (S.lsrkStep nstages t dt (m.fld .tend, m.fld .state)).2 :=
  lsrk_stages_runs hS _ t dt _ _ (EqFld.refl _ _) (EqFld.refl _ _)

/-- views written by a classical step -/
def rk4Set (b : RArr) : Bool := isDyn b

theorem rk4_stage_runs (hS : Setup d K S m) (C : Coef R) (t dt : R) (stage : Nat) :
    ∃ m', (∀ split, Runs d (rk4_stage d ⟨K, split⟩ S.sw C t dt stage) m m') ∧
      Agree rk4Set m' m ∧ m'.fld .old = m.fld .old ∧
      EqFld d (m'.fld .tend)
        (S.rk4Stage C t dt (m.fld .old) stage (m.fld .tend, m.fld .state)).1 ∧
      EqFld d (m'.fld .state)
        (S.rk4Stage C t dt (m.fld .old) stage (m.fld .tend, m.fld .state)).2 := by
  obtain ⟨m1, r1, ag1, v1⟩ := state3_runs (m := m) (s := .state)
    (g1 := fun m l i k v => v + dt * C.b stage * m.real (.h_cell .tend) l i k)
    (g2 := fun m l i k v => v + dt * C.b stage * m.real (.vn_edge .tend) l i k)
    (g3 := fun m l i k v => v + dt * C.b stage * m.real (.tr_cell .tend) l i k)
    (fun m => zip2_runs (n := d.ncells) rfl rfl (by simp) (fun v w => v + dt * C.b stage * w))
    (fun m => zip2_runs (n := d.nedges) rfl rfl (by simp) (fun v w => v + dt * C.b stage * w))
    (fun m => zip3_runs rfl rfl (by simp) (fun v w => v + dt * C.b stage * w))
    (fun m' h => by rw [h.real (.vn_edge .tend) (by decide)])
    (fun m' h => by rw [h.real (.tr_cell .tend) (by decide)])
  have hS1 := hS.static (ag1.mono fun b h => inState_dyn h)
  have t1 : m1.fld .tend = m.fld .tend := fld_congr fun b hb =>
    ag1.real b (inState_disj (by decide) hb)
  have o1 : m1.fld .old = m.fld .old := fld_congr fun b hb =>
    ag1.real b (inState_disj (by decide) hb)
  by_cases hst : stage < 3
  · obtain ⟨m2, r2, ag2, v2⟩ := state3_runs (m := m1) (s := .provis)
      (g1 := fun m l i k _ => m.real (.h_cell .old) l i k +
        dt * C.a stage * m.real (.h_cell .tend) l i k)
      (g2 := fun m l i k _ => m.real (.vn_edge .old) l i k +
        dt * C.a stage * m.real (.vn_edge .tend) l i k)
      (g3 := fun m l i k _ => m.real (.tr_cell .old) l i k +
        dt * C.a stage * m.real (.tr_cell .tend) l i k)
      (fun m => put2_runs (n := d.ncells) rfl rfl rfl (by simp) (by simp)
        (fun v w => v + dt * C.a stage * w))
      (fun m => put2_runs (n := d.nedges) rfl rfl rfl (by simp) (by simp)
        (fun v w => v + dt * C.a stage * w))
      (fun m => put3_runs rfl rfl rfl (by simp) (by simp) (fun v w => v + dt * C.a stage * w))
      (fun m' h => by rw [h.real (.vn_edge .tend) (by decide), h.real (.vn_edge .old) (by decide)])
      (fun m' h => by rw [h.real (.tr_cell .tend) (by decide), h.real (.tr_cell .old) (by decide)])
    have hS2 := hS1.static (ag2.mono fun b h => inState_dyn h)
    have t2 : m2.fld .tend = m1.fld .tend := fld_congr fun b hb =>
      ag2.real b (inState_disj (by decide) hb)
    have o2 : m2.fld .old = m1.fld .old := fld_congr fun b hb =>
      ag2.real b (inState_disj (by decide) hb)
    have u2 : m2.fld .state = m1.fld .state := fld_congr fun b hb =>
      ag2.real b (inState_disj (by decide) hb)
    obtain ⟨m3, r3, ag3, v3⟩ := compute_tendency_runs hS2 .replace (tn := .tend) (st := .provis)
      (by decide) (t + C.c stage * dt)
    have o3 : m3.fld .old = m2.fld .old := fld_congr fun b hb =>
      ag3.real b (tendSet_disj (by decide) hb)
    have u3 : m3.fld .state = m2.fld .state := fld_congr fun b hb =>
      ag3.real b (tendSet_disj (by decide) hb)
    refine ⟨m3, fun split => ?_, ?_, ?_, ?_, ?_⟩
    · have := Runs.append r1 (Runs.append r2 (r3 split))
      unfold rk4_stage rk4_provis rk4_accumulate
      rw [if_pos hst]
      exact this
    · exact (ag3.mono fun _ h => tendSet_dyn h).trans ((ag2.mono fun _ h => inState_dyn h).trans
        (ag1.mono fun _ h => inState_dyn h))
    · rw [o3, o2, o1]
    · refine v3.trans ?_
      simp only [Sys.rk4Stage, hst, if_true]
      rw [t2, t1]
      have e : EqFld d (m2.fld .provis) ((m.fld .old).axpy (dt * C.a stage) (m.fld .tend)) := by
        refine v2.trans ?_
        rw [← o1, ← t1]
        exact EqFld.refl _ _
      exact tend_local hS.sys e .replace (t + C.c stage * dt) (EqFld.refl _ _)
    · rw [u3, u2]; exact v1
  · refine ⟨m1, fun split => ?_, ag1.mono fun _ h => inState_dyn h, o1, ?_, v1⟩
    · unfold rk4_stage rk4_accumulate
      rw [if_neg hst, List.append_nil]
      exact r1
    · simp only [Sys.rk4Stage, hst, if_false]
      rw [t1]; exact EqFld.refl _ _

theorem rk4Stage_local (hS : SysOK d S) (C : Coef R) (t dt : R) (stage : Nat) {o o' : Fld R}
    {p q : Fld R × Fld R} (ho : EqFld d o o') (h1 : EqFld d p.1 q.1) (h2 : EqFld d p.2 q.2) :
    EqFld d (S.rk4Stage C t dt o stage p).1 (S.rk4Stage C t dt o' stage q).1 ∧
    EqFld d (S.rk4Stage C t dt o stage p).2 (S.rk4Stage C t dt o' stage q).2 := by
  refine ⟨?_, h2.axpy (dt * C.b stage) h1⟩
  simp only [Sys.rk4Stage]
  split_ifs
  · exact tend_local hS (ho.axpy _ h1) .replace _ h1
  · exact h1

theorem rk4_stages_runs (hS : Setup d K S m) (C : Coef R) (t dt : R) (L : List Nat)
    (o : Fld R) (p : Fld R × Fld R) (h0 : EqFld d (m.fld .old) o)
    (h1 : EqFld d (m.fld .tend) p.1) (h2 : EqFld d (m.fld .state) p.2) :
    ∃ m', (∀ split, Runs d (L.flatMap (rk4_stage d ⟨K, split⟩ S.sw C t dt)) m m') ∧
      Agree rk4Set m' m ∧
      EqFld d (m'.fld .tend) (L.foldl (fun p i => S.rk4Stage C t dt o i p) p).1 ∧
      EqFld d (m'.fld .state) (L.foldl (fun p i => S.rk4Stage C t dt o i p) p).2 := by
  induction L generalizing m p with
  | nil => exact ⟨m, fun _ => Runs.nil m, Agree.refl _ _, h1, h2⟩
  | cons i L ih =>
    obtain ⟨m1, r1, ag1, o1, v1, w1⟩ := rk4_stage_runs hS C t dt i
    have hl := rk4Stage_local hS.sys C t dt i (p := (m.fld .tend, m.fld .state)) (q := p) h0 h1 h2
    obtain ⟨m2, r2, ag2, v2, w2⟩ := ih (hS.static ag1)
      (S.rk4Stage C t dt o i p) (o1 ▸ h0) (v1.trans hl.1) (w1.trans hl.2)
    exact ⟨m2, fun split => Runs.append (r1 split) (r2 split), ag2.trans ag1, v2, w2⟩

theorem rk4_copy_runs (d : Dims) (m : Mem R) :
    ∃ m3, Runs d [copyR d (.h_cell .old) (.h_cell .state),
      copyR d (.vn_edge .old) (.vn_edge .state), copyR d (.tr_cell .old) (.tr_cell .state)] m m3 ∧
      Agree (inState .old) m3 m ∧ EqFld d (m3.fld .old) (m.fld .state) := by
  have c1 := copy_runs (d := d) (m := m) (a := .h_cell .old) (b := .h_cell .state) rfl (by simp)
  have g1 : Agree (inState .old) (m.upd (RegA d (only (.h_cell .old))) (eff (.h_cell .old)
      fun l i k _ => m.real (.h_cell .state) l i k)) m :=
    (Agree.refl _ m).upd _ fun a l i k h => by rw [only_eq h.1]; decide
  generalize hm1 : m.upd (RegA d (only (.h_cell .old))) _ = m1 at c1 g1
  have c2 := copy_runs (d := d) (m := m1) (a := .vn_edge .old) (b := .vn_edge .state) rfl (by simp)
  have g2 : Agree (inState .old) (m1.upd (RegA d (only (.vn_edge .old))) (eff (.vn_edge .old)
      fun l i k _ => m1.real (.vn_edge .state) l i k)) m :=
    g1.upd _ fun a l i k h => by rw [only_eq h.1]; decide
  generalize hm2 : m1.upd (RegA d (only (.vn_edge .old))) _ = m2 at c2 g2
  have c3 := copy_runs (d := d) (m := m2) (a := .tr_cell .old) (b := .tr_cell .state) rfl (by simp)
  have g3 : Agree (inState .old) (m2.upd (RegA d (only (.tr_cell .old))) (eff (.tr_cell .old)
      fun l i k _ => m2.real (.tr_cell .state) l i k)) m :=
    g2.upd _ fun a l i k h => by rw [only_eq h.1]; decide
  generalize hm3 : m2.upd (RegA d (only (.tr_cell .old))) _ = m3 at c3 g3
  have rc : Runs d [copyR d (.h_cell .old) (.h_cell .state),
      copyR d (.vn_edge .old) (.vn_edge .state), copyR d (.tr_cell .old) (.tr_cell .state)] m m3 :=
    Runs.cons c1 (Runs.cons c2 (Runs.single c3))
  have vo : EqFld d (m3.fld .old) (m.fld .state) := by
    constructor
    · intro c k a b e f
      simp only [Mem.fld]
      rw [← hm3, upd_only_off (by simp), ← hm2, upd_only_off (by simp), ← hm1,
        upd_only_on (inbE rfl ⟨a, b⟩ ⟨e, f⟩)]
    · intro c k a b e f
      simp only [Mem.fld]
      rw [← hm3, upd_only_off (by simp), ← hm2, upd_only_on (inbE rfl ⟨a, b⟩ ⟨e, f⟩), ← hm1,
        upd_only_off (by simp)]
    · intro l c k l0 l1 a b e f
      simp only [Mem.fld]
      rw [← hm3, upd_only_on (inbT rfl ⟨l0, l1⟩ ⟨a, b⟩ ⟨e, f⟩), ← hm2, upd_only_off (by simp),
        ← hm1, upd_only_off (by simp)]
  exact ⟨m3, rc, g3, vo⟩

/-- `RK4Stepper::do_step` is safe and race free and computes `Sys.rk4Step`. -/
theorem rk4_step_runs (hS : Setup d K S m) (t dt : R) :
    ∃ m', (∀ split, Runs d (rk4_step d ⟨K, split⟩ S.sw t dt) m m') ∧
      Agree rk4Set m' m ∧
      EqFld d (m'.fld .tend) (S.rk4Step t dt (m.fld .tend, m.fld .state)).1 ∧
      EqFld d (m'.fld .state) (S.rk4Step t dt (m.fld .tend, m.fld .state)).2 := by
  obtain ⟨m3, rc, g3, vo⟩ := rk4_copy_runs d m
  have st3 : m3.fld .state = m.fld .state := fld_congr fun b hb =>
    g3.real b (inState_disj (by decide) hb)
  have tn3 : m3.fld .tend = m.fld .tend := fld_congr fun b hb =>
    g3.real b (inState_disj (by decide) hb)
  have hS3 := hS.static (g3.mono fun b h => inState_dyn h)
  obtain ⟨m4, r4, g4, v4⟩ := compute_tendency_runs hS3 .replace (tn := .tend) (st := .state)
    (by decide) t
  rw [st3, tn3] at v4
  have st4 : m4.fld .state = m3.fld .state := fld_congr fun b hb =>
    g4.real b (tendSet_disj (by decide) hb)
  have o4 : m4.fld .old = m3.fld .old := fld_congr fun b hb =>
    g4.real b (tendSet_disj (by decide) hb)
  have hS4 := hS3.static (g4.mono fun b h => tendSet_dyn h)
  obtain ⟨m5, r5, g5, v5, w5⟩ := rk4_stages_runs hS4 rk4Coef t dt (List.range 4) (m.fld .state)
    (S.tend .replace t (m.fld .tend) (m.fld .state), m.fld .state) (o4 ▸ vo) v4
    (by rw [st4, st3]; exact EqFld.refl _ _)
  refine ⟨m5, fun split => ?_, ?_, v5, w5⟩
  · exact Runs.append (Runs.append rc (r4 split)) (r5 split)
  · exact g5.trans ((g4.mono fun _ h => tendSet_dyn h).trans (g3.mono fun _ h => inState_dyn h))

end

end Refine
end Omega
