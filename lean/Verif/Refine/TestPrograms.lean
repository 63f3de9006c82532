import Verif.Model.TestPrograms
import Verif.Refine.Ready
import Verif.Refine.Diagnostics

/-!
# What the test programs compute
-/

set_option linter.unusedSectionVars false
set_option linter.unusedVariables false

namespace Omega
namespace Refine

open Prog Model

variable {R : Type} [Scalar R] {d : Dims} {m : Mem R}

theorem setR_setR (M : Mem R) (a : RArr) (l i k : Int) (v w : R) :
    (M.setR a l i k v).setR a l i k w = M.setR a l i k w := by
  refine Mem.ext' rfl ?_
  funext b l' i' k'
  simp only [Mem.setR]
  split_ifs <;> rfl

theorem setR_same (M : Mem R) (a : RArr) (l i k : Int) (v : R) :
    (M.setR a l i k v).real a l i k = v := by simp [Mem.setR]

theorem setR_other (M : Mem R) {a b : RArr} (h : b ≠ a) (l i k : Int) (v : R) :
    (M.setR a l i k v).real b = M.real b := by
  funext l' i' k'
  simp [Mem.setR, h]

/-- three views -/
def among3 (a b c : RArr) (x : RArr) : Bool := decide (x = a) || decide (x = b) || decide (x = c)
/-- two views -/
def among2 (a b : RArr) (x : RArr) : Bool := decide (x = a) || decide (x = b)

/-- A launch over elements and layers whose iterations store to two or three views. -/
theorem par2x_runs {A : RArr → Bool} {n : Int} {body : Int → Int → Prog R Unit}
    (hext : ∀ a, A a = true → a.ext d = (1, n, d.nlayers)) (G : Effect R)
    (hw : ∀ i k, 0 ≤ i → i < n → 0 ≤ k → k < d.nlayers → ∀ M perm, Agree A M m →
      (∀ a, A a = true → perm (.real a 0 i k) = .rw) →
      (∀ b, A b = false → ∀ l i k, perm (.real b l i k) ≠ .none) →
        Wp d perm (body i k) M (fun _ M' => M'.int = M.int ∧
          (∀ a, A a = true → M'.real a 0 i k = G a 0 i k (M.real a 0 i k)) ∧
          ∀ a l' i' k', (A a = true → ¬ (l' = 0 ∧ i' = i ∧ k' = k)) →
            M'.real a l' i' k' = M.real a l' i' k')) :
    (par2 n d.nlayers body).Runs d m (m.upd (RegA d A) G) := by
  refine Cmd.runs_op own2e ?_ ?_
  · intro a l i k ha hin
    rw [RArr.InB, hext a ha] at hin
    exact ⟨hin.2.1, hin.2.2, by simp [par2, own2e]⟩
  · rintro ⟨i, k, z⟩ ⟨⟨i0, i1⟩, ⟨k0, k1⟩, h3⟩ M hM perm hp
    have hz : z = 0 := by simp only [par2] at h3; omega
    subst hz
    have hreg : ∀ a l' i' k', Reg d A own2e (i, k, 0) a l' i' k' ↔
        A a = true ∧ l' = 0 ∧ i' = i ∧ k' = k := by
      intro a l' i' k'
      constructor
      · rintro ⟨ha, hin, ho⟩
        rw [RArr.InB, hext a ha] at hin
        simp only [own2e, Prod.mk.injEq] at ho
        exact ⟨ha, by have := hin.1; simp only at this; omega, ho.1, ho.2.1⟩
      · rintro ⟨ha, rfl, rfl, rfl⟩
        refine ⟨ha, ?_, rfl⟩
        rw [RArr.InB, hext a ha]
        exact ⟨by simp, ⟨i0, i1⟩, ⟨k0, k1⟩⟩
    refine wp_mono (hw i k i0 i1 k0 k1 M perm hM
      (fun a ha => hp.own a 0 i k ((hreg a 0 i k).2 ⟨ha, rfl, rfl, rfl⟩)) hp.real) ?_
    rintro - M' ⟨h1, h2, h3⟩
    refine Mem.ext' h1 ?_
    funext a l' i' k'
    by_cases h : Reg d A own2e (i, k, 0) a l' i' k'
    · rw [Mem.upd_on h]
      obtain ⟨ha, rfl, rfl, rfl⟩ := (hreg a l' i' k').1 h
      exact h2 a ha
    · rw [Mem.upd_off h]
      exact h3 a l' i' k' fun ha e => h ((hreg a l' i' k').2 ⟨ha, e⟩)

/-- The same over elements. -/
theorem par1x_runs {A : RArr → Bool} {n : Int} {body : Int → Prog R Unit}
    (hext : ∀ a, A a = true → a.ext d = (1, n, 1)) (G : Effect R)
    (hw : ∀ i, 0 ≤ i → i < n → ∀ M perm, Agree A M m →
      (∀ a, A a = true → perm (.real a 0 i 0) = .rw) →
      (∀ b, A b = false → ∀ l i k, perm (.real b l i k) ≠ .none) →
      (∀ b i j, perm (.int b i j) ≠ .none) →
        Wp d perm (body i) M (fun _ M' => M'.int = M.int ∧
          (∀ a, A a = true → M'.real a 0 i 0 = G a 0 i 0 (M.real a 0 i 0)) ∧
          ∀ a l' i' k', (A a = true → ¬ (l' = 0 ∧ i' = i ∧ k' = 0)) →
            M'.real a l' i' k' = M.real a l' i' k')) :
    (par1 n body).Runs d m (m.upd (RegA d A) G) := by
  refine Cmd.runs_op own2e ?_ ?_
  · intro a l i k ha hin
    rw [RArr.InB, hext a ha] at hin
    exact ⟨hin.2.1, by have := hin.2.2; simp only [par1, own2e] at this ⊢; omega,
      by simp [par1, own2e]⟩
  · rintro ⟨i, k, z⟩ ⟨⟨i0, i1⟩, hk, h3⟩ M hM perm hp
    have hz : z = 0 := by simp only [par1] at h3; omega
    have hk0 : k = 0 := by simp only [par1] at hk; omega
    subst hz hk0
    have hreg : ∀ a l' i' k', Reg d A own2e (i, 0, 0) a l' i' k' ↔
        A a = true ∧ l' = 0 ∧ i' = i ∧ k' = 0 := by
      intro a l' i' k'
      constructor
      · rintro ⟨ha, hin, ho⟩
        rw [RArr.InB, hext a ha] at hin
        simp only [own2e, Prod.mk.injEq] at ho
        exact ⟨ha, by have := hin.1; simp only at this; omega, ho.1, ho.2.1⟩
      · rintro ⟨ha, rfl, rfl, rfl⟩
        refine ⟨ha, ?_, rfl⟩
        rw [RArr.InB, hext a ha]
        exact ⟨by simp, ⟨i0, i1⟩, by simp⟩
    refine wp_mono (hw i i0 i1 M perm hM
      (fun a ha => hp.own a 0 i 0 ((hreg a 0 i 0).2 ⟨ha, rfl, rfl, rfl⟩)) hp.real hp.int) ?_
    rintro - M' ⟨h1, h2, h3⟩
    refine Mem.ext' h1 ?_
    funext a l' i' k'
    by_cases h : Reg d A own2e (i, 0, 0) a l' i' k'
    · rw [Mem.upd_on h]
      obtain ⟨ha, rfl, rfl, rfl⟩ := (hreg a l' i' k').1 h
      exact h2 a ha
    · rw [Mem.upd_off h]
      exact h3 a l' i' k' fun ha e => h ((hreg a l' i' k').2 ⟨ha, e⟩)

/-! ### Initial states -/

theorem init_h_runs (d : Dims) (h : R → R → R) (m : Mem R) :
    ∃ m', (init_h d h).Runs d m m' ∧ Agree (only (.h_cell .state)) m' m ∧
      ∀ c k, 0 ≤ c → c < d.ncells → 0 ≤ k → k < d.nlayers →
        m'.real (.h_cell .state) 0 c k = h (m.real .x_cell 0 c 0) (m.real .y_cell 0 c 0) := by
  refine ⟨_, par2e_runs rfl (fun _ c _ _ => h (m.real .x_cell 0 c 0) (m.real .y_cell 0 c 0)) ?_,
    (Agree.refl _ m).upd _ fun _ _ _ _ h => h.1, ?_⟩
  · intro i k hin M perm hM hp hro
    have hb : ∀ a : RArr, a.ext d = (1, d.ncells, 1) → a.InB d 0 i 0 := fun a ha => by
      rw [RArr.InB, ha]; exact ⟨by simp, hin.2.1, by simp⟩
    refine wp_bind (wp_rd1 (hb _ rfl) (hro _ (by simp) _ _ _) (wp_bind (wp_rd1 (hb _ rfl)
      (hro _ (by simp) _ _ _) (wp_wr2 hin hp ?_))))
    rw [hM.real .x_cell rfl, hM.real .y_cell rfl]
  · intro c k c0 c1 k0 k1
    rw [upd_only_on (inbE rfl ⟨c0, c1⟩ ⟨k0, k1⟩)]

theorem init_vn_runs (d : Dims) (vx vy : R → R → R) (m : Mem R) :
    ∃ m', (init_vn d vx vy).Runs d m m' ∧ Agree (only (.vn_edge .state)) m' m ∧
      ∀ e k, 0 ≤ e → e < d.nedges → 0 ≤ k → k < d.nlayers →
        m'.real (.vn_edge .state) 0 e k =
          Scalar.cos (m.real .angle_edge 0 e 0) * vx (m.real .x_edge 0 e 0) (m.real .y_edge 0 e 0) +
          Scalar.sin (m.real .angle_edge 0 e 0) * vy (m.real .x_edge 0 e 0) (m.real .y_edge 0 e 0) := by
  refine ⟨_, par2e_runs rfl (fun _ e _ _ =>
    Scalar.cos (m.real .angle_edge 0 e 0) * vx (m.real .x_edge 0 e 0) (m.real .y_edge 0 e 0) +
    Scalar.sin (m.real .angle_edge 0 e 0) * vy (m.real .x_edge 0 e 0) (m.real .y_edge 0 e 0)) ?_,
    (Agree.refl _ m).upd _ fun _ _ _ _ h => h.1, ?_⟩
  · intro i k hin M perm hM hp hro
    have hb : ∀ a : RArr, a.ext d = (1, d.nedges, 1) → a.InB d 0 i 0 := fun a ha => by
      rw [RArr.InB, ha]; exact ⟨by simp, hin.2.1, by simp⟩
    refine wp_bind (wp_rd1 (hb _ rfl) (hro _ (by simp) _ _ _) (wp_bind (wp_rd1 (hb _ rfl)
      (hro _ (by simp) _ _ _) (wp_bind (wp_rd1 (hb _ rfl) (hro _ (by simp) _ _ _)
      (wp_bind (wp_rd1 (hb _ rfl) (hro _ (by simp) _ _ _) (wp_wr2 hin hp ?_))))))))
    rw [hM.real .x_edge rfl, hM.real .y_edge rfl, hM.real .angle_edge rfl]
  · intro c k c0 c1 k0 k1
    rw [upd_only_on (inbE rfl ⟨c0, c1⟩ ⟨k0, k1⟩)]

theorem init_tr_runs (d : Dims) (v : R) (m : Mem R) :
    ∃ m', Runs d (init_tr d v) m m' ∧ Agree (only (.tr_cell .state)) m' m ∧
      ∀ l c k, 0 ≤ l → l < d.ntracers → 0 ≤ c → c < d.ncells → 0 ≤ k → k < d.nlayers →
        m'.real (.tr_cell .state) l c k = v := by
  unfold init_tr
  by_cases hn : 0 < d.ntracers
  · rw [if_pos hn]
    refine ⟨_, Runs.single (par3e_runs (a := .tr_cell .state) rfl (fun _ _ _ _ => v) ?_),
      (Agree.refl _ m).upd _ fun _ _ _ _ h => h.1, ?_⟩
    · intro l i k hin M perm hM hp hro
      exact wp_wr3 hin hp rfl
    · intro l c k l0 l1 c0 c1 k0 k1
      rw [upd_only_on (inbT rfl ⟨l0, l1⟩ ⟨c0, c1⟩ ⟨k0, k1⟩)]
  · rw [if_neg hn]
    exact ⟨m, Runs.nil m, Agree.refl _ _, fun l _ _ l0 l1 => absurd (lt_of_le_of_lt l0 l1) hn⟩

theorem init_h_exact_runs (d : Dims) (h : R → R → R → R) (te : R) (m : Mem R) :
    ∃ m', (init_h_exact d h te).Runs d m m' ∧
      Agree (among2 (.h_cell .state) (.test .hexact_cell)) m' m ∧
      ∀ c k, 0 ≤ c → c < d.ncells → 0 ≤ k → k < d.nlayers →
        m'.real (.h_cell .state) 0 c k =
          h (m.real .x_cell 0 c 0) (m.real .y_cell 0 c 0) (lit 0) ∧
        m'.real (.test .hexact_cell) 0 c k =
          h (m.real .x_cell 0 c 0) (m.real .y_cell 0 c 0) te := by
  refine ⟨_, par2x_runs (A := among2 (.h_cell .state) (.test .hexact_cell)) ?_ (fun a _ c _ _ =>
      h (m.real .x_cell 0 c 0) (m.real .y_cell 0 c 0) (if a = .h_cell .state then lit 0 else te)) ?_,
    (Agree.refl _ m).upd _ fun _ _ _ _ h => h.1, ?_⟩
  · intro a ha
    simp only [among2, Bool.or_eq_true, decide_eq_true_eq] at ha
    rcases ha with rfl | rfl <;> rfl
  · intro i k i0 i1 k0 k1 M perm hM hrw hro
    have hb : ∀ a : RArr, a.ext d = (1, d.ncells, 1) → a.InB d 0 i 0 := fun a ha => by
      rw [RArr.InB, ha]; exact ⟨by simp, ⟨i0, i1⟩, by simp⟩
    refine wp_bind (wp_rd1 (hb _ rfl) (hro _ rfl _ _ _) (wp_bind (wp_rd1 (hb _ rfl)
      (hro _ rfl _ _ _) (wp_bind (wp_wr2 (inbE rfl ⟨i0, i1⟩ ⟨k0, k1⟩) (hrw _ rfl)
      (wp_wr2 (inbE rfl ⟨i0, i1⟩ ⟨k0, k1⟩) (hrw _ rfl) ⟨rfl, ?_, ?_⟩))))))
    · intro a ha
      simp only [among2, Bool.or_eq_true, decide_eq_true_eq] at ha
      rcases ha with rfl | rfl
      · rw [setR_other _ (by simp), setR_same, hM.real .x_cell rfl, hM.real .y_cell rfl]; rfl
      · rw [setR_same, hM.real .x_cell rfl, hM.real .y_cell rfl]; rfl
    · intro a l' i' k' hn
      simp only [Mem.setR]
      rw [if_neg, if_neg]
      · rintro ⟨rfl, e⟩; exact hn rfl e
      · rintro ⟨rfl, e⟩; exact hn rfl e
  · intro c k c0 c1 k0 k1
    constructor
    · rw [Mem.upd_on (P := RegA d _) ⟨rfl, inbE rfl ⟨c0, c1⟩ ⟨k0, k1⟩⟩]; rfl
    · rw [Mem.upd_on (P := RegA d _) ⟨rfl, inbE rfl ⟨c0, c1⟩ ⟨k0, k1⟩⟩]; rfl

theorem init_h_and_tr_runs (hnt : d.ntracers = 1) (T : TracerTest R) (te : R) (m : Mem R) :
    ∃ m', (init_h_and_tr d T te).Runs d m m' ∧
      Agree (among3 (.h_cell .state) (.tr_cell .state) (.test .tr_exact_cell)) m' m ∧
      ∀ c k, 0 ≤ c → c < d.ncells → 0 ≤ k → k < d.nlayers →
        m'.real (.h_cell .state) 0 c k =
          T.h (m.real .x_cell 0 c 0) (m.real .y_cell 0 c 0) (lit 0) ∧
        m'.real (.tr_cell .state) 0 c k =
          T.tr (m.real .x_cell 0 c 0) (m.real .y_cell 0 c 0) (lit 0) ∧
        m'.real (.test .tr_exact_cell) 0 c k =
          T.tr (m.real .x_cell 0 c 0) (m.real .y_cell 0 c 0) te := by
  have hext : ∀ a, among3 (.h_cell .state) (.tr_cell .state) (.test .tr_exact_cell) a = true →
      a.ext d = (1, d.ncells, d.nlayers) := by
    intro a ha
    simp only [among3, Bool.or_eq_true, decide_eq_true_eq] at ha
    rcases ha with (rfl | rfl) | rfl
    · rfl
    · rw [← hnt]; rfl
    · rw [← hnt]; rfl
  refine ⟨_, par2x_runs (A := among3 (.h_cell .state) (.tr_cell .state) (.test .tr_exact_cell)) hext
      (fun a _ c _ _ => if a = .h_cell .state then
        T.h (m.real .x_cell 0 c 0) (m.real .y_cell 0 c 0) (lit 0)
        else T.tr (m.real .x_cell 0 c 0) (m.real .y_cell 0 c 0)
          (if a = .tr_cell .state then lit 0 else te)) ?_,
    (Agree.refl _ m).upd _ fun _ _ _ _ h => h.1, ?_⟩
  · intro i k i0 i1 k0 k1 M perm hM hrw hro
    have hb : ∀ a : RArr, a.ext d = (1, d.ncells, 1) → a.InB d 0 i 0 := fun a ha => by
      rw [RArr.InB, ha]; exact ⟨by simp, ⟨i0, i1⟩, by simp⟩
    have h2 : ∀ a, among3 (.h_cell .state) (.tr_cell .state) (.test .tr_exact_cell) a = true →
        a.InB d 0 i k := fun a ha => by
      rw [RArr.InB, hext a ha]; exact ⟨by simp, ⟨i0, i1⟩, ⟨k0, k1⟩⟩
    refine wp_bind (wp_rd1 (hb _ rfl) (hro _ rfl _ _ _) (wp_bind (wp_rd1 (hb _ rfl)
      (hro _ rfl _ _ _) (wp_bind (wp_wr2 (h2 _ rfl) (hrw _ rfl)
      (wp_bind (wp_wr3 (h2 _ rfl) (hrw _ rfl)
      (wp_wr3 (h2 _ rfl) (hrw _ rfl) ⟨rfl, ?_, ?_⟩))))))))
    · intro a ha
      simp only [among3, Bool.or_eq_true, decide_eq_true_eq] at ha
      rcases ha with (rfl | rfl) | rfl
      · rw [setR_other _ (by simp), setR_other _ (by simp), setR_same, hM.real .x_cell rfl,
          hM.real .y_cell rfl]; rfl
      · rw [setR_other _ (by simp), setR_same, hM.real .x_cell rfl, hM.real .y_cell rfl]; rfl
      · rw [setR_same, hM.real .x_cell rfl, hM.real .y_cell rfl]; rfl
    · intro a l' i' k' hn
      simp only [Mem.setR]
      rw [if_neg, if_neg, if_neg]
      all_goals rintro ⟨rfl, e⟩; exact hn rfl e
  · intro c k c0 c1 k0 k1
    have h2 : ∀ a, among3 (.h_cell .state) (.tr_cell .state) (.test .tr_exact_cell) a = true →
        a.InB d 0 c k := fun a ha => by
      rw [RArr.InB, hext a ha]; exact ⟨by simp, ⟨c0, c1⟩, ⟨k0, k1⟩⟩
    refine ⟨?_, ?_, ?_⟩ <;> (rw [Mem.upd_on (P := RegA d _) ⟨rfl, h2 _ rfl⟩]; rfl)

/-! ### Whole programs -/

variable {p : MeshParams} {dc : R} {prm : Params R}

/-- mesh, model, state and stepper -/
theorem base_runs (hv : RunValid p) (dc : R) (prm : Params R) (stp : Stepper) (m0 : Mem R) :
    ∃ m, Runs p.dims (compute_mesh_arrays p dc ++ sw_model_ctor p.dims prm ++
        allocState p.dims .state ++ stp.ctor p.dims) m0 m ∧
      Ready p dc prm m ∧ EqFld p.dims (m.fld .state) zeroFld ∧
      EqFld p.dims (m.fld .tend) zeroFld := by
  have r1 := compute_mesh_arrays_runs hv.toValid dc m0
  obtain ⟨m2, r2, -⟩ := sw_ctor_runs p.dims prm (meshMem p dc m0)
  obtain ⟨m3, r3, a3, v3⟩ := alloc_runs p.dims .state m2
  obtain ⟨m4, r4, a4, f4, v4⟩ := ctor_runs p.dims stp m3
  refine ⟨m4, Runs.append (Runs.append (Runs.append r1 r2) r3) r4, ?_, ?_, v4⟩
  · exact ⟨_, m2, Props.built_meshMem hv.toValid dc m0, r2.exec,
      a4.trans (a3.mono fun _ h => inState_dyn h)⟩
  · rw [f4]; exact v3

/-- the views written by the model and the tests after construction -/
def isWork (b : RArr) : Bool := isDyn b || match b with | .test _ => true | _ => false

theorem isWork_dyn {b : RArr} (h : isDyn b = true) : isWork b = true := by simp [isWork, h]

theorem isWork_mesh {b : RArr} (h : isMeshR b = true) : isWork b = false := by
  cases b <;> first | rfl | simp [isMeshR] at h

/-- Mesh and Coriolis arrays stay as constructed. -/
theorem ready_work (hv : RunValid p) {m m' : Mem R} (h : Ready p dc prm m)
    (ha : Agree isWork m' m) : IsHexMesh p dc m' ∧ ConnOK p.dims m' ∧
      ∀ v, 0 ≤ v → v < p.dims.nvertices → m'.real .f_vertex 0 v 0 = prm.f0 := by
  obtain ⟨h1, h2, -⟩ := h.hex hv.toValid
  have h3 := h1.agree ha.int fun b hb => ha.real b (isWork_mesh hb)
  exact ⟨h3, conn_of_hex hv.toValid h3, fun v v0 v1 => by rw [ha.real .f_vertex rfl]; exact h2 v v0 v1⟩

/-- The mesh arrays are those of a constructed mesh. -/
theorem ready_work_mesh {m m' : Mem R} (h : Ready p dc prm m) (ha : Agree isWork m' m) :
    ∃ mb, Props.Built p dc mb ∧ m'.int = mb.int ∧ ∀ b, isMeshR b = true → m'.real b = mb.real b := by
  obtain ⟨m1, m2, hb, he, hs⟩ := h
  obtain ⟨m3, hr, ha', -, -⟩ := sw_ctor_runs p.dims prm m1
  obtain rfl := (hr.2 m2).1 he
  exact ⟨m1, hb, ha.int.trans (hs.int.trans ha'.int), fun b hb => (ha.real b (isWork_mesh hb)).trans
    ((hs.real b (isDyn_mesh hb)).trans (ha'.real b (isMeshR_f hb)))⟩

/-- the velocity component stored by `init_vn` -/
def vnInit (p : MeshParams) (dc : R) (vx vy : R → R → R) (e : Int) : R :=
  Scalar.cos (angE e) * vx (xE p.nx dc e) (yE p.nx dc e) +
    Scalar.sin (angE e) * vy (xE p.nx dc e) (yE p.nx dc e)

/-- the initial state of a tracer test -/
def tracerInit (p : MeshParams) (dc : R) (T : TracerTest R) : Fld R where
  h c _ := T.h (xC p.nx dc c) (yC p.nx dc c) (lit 0)
  vn e _ := vnInit p dc (fun x y => T.vx x y (lit 0)) (fun x y => T.vy x y (lit 0)) e
  tr _ c _ := T.tr (xC p.nx dc c) (yC p.nx dc c) (lit 0)

/-- What a tracer test computes: safely, and with one possible result. -/
theorem tracer_run_runs (hv : RunValid p) (hnt : p.ntracers = 1) (dc : R) (prm : Params R)
    (T : TracerTest R) (stp : Stepper) (te : R) (sched : List (R × R)) (m0 : Mem R) :
    ∃ m, (∀ split, Runs p.dims (tracer_run p dc prm ⟨defaultKernels p.dims.vl, split⟩ T stp te sched)
        m0 m) ∧ IsHexMesh p dc m ∧ (ConnOK p.dims m ∧
        (∀ v, 0 ≤ v → v < p.dims.nvertices → m.real .f_vertex 0 v 0 = prm.f0) ∧
        ∃ mb, Props.Built p dc mb ∧ m.int = mb.int ∧ ∀ b, isMeshR b = true → m.real b = mb.real b) ∧
      (∀ c k, 0 ≤ c → c < p.dims.ncells → 0 ≤ k → k < p.dims.nlayers →
        m.real (.test .tr_exact_cell) 0 c k = T.tr (xC p.nx dc c) (yC p.nx dc c) te) ∧
      EqFld p.dims (m.fld .state)
        ((genSys p.dims (SWModel.ofParams prm) noHook m).run stp sched
          (zeroFld, tracerInit p dc T)).2 := by
  obtain ⟨m1, r1, b1, s1, t1⟩ := base_runs hv dc prm stp m0
  have r2 := fill_runs (d := p.dims) (m := m1) (a := .test .tr_exact_cell) (lit 0)
  set m2 := m1.upd (RegA p.dims (only (.test .tr_exact_cell)))
    (eff (.test .tr_exact_cell) fun _ _ _ _ => (lit 0 : R)) with hm2
  have a2 : Agree (only (.test .tr_exact_cell)) m2 m1 :=
    (Agree.refl _ m1).upd _ fun _ _ _ _ h => h.1
  obtain ⟨m3, r3, a3, v3⟩ := init_h_and_tr_runs (d := p.dims) hnt T te m2
  obtain ⟨m4, r4, a4, v4⟩ := init_vn_runs p.dims (fun x y => T.vx x y (lit 0))
    (fun x y => T.vy x y (lit 0)) m3
  have w2 : Agree isWork m2 m1 := a2.mono fun b hb => by rw [only_eq hb]; rfl
  have w3 : Agree isWork m3 m2 := a3.mono fun b hb => by
    simp only [among3, Bool.or_eq_true, decide_eq_true_eq] at hb
    rcases hb with (rfl | rfl) | rfl <;> rfl
  have w4 : Agree isWork m4 m3 := a4.mono fun b hb => by rw [only_eq hb]; rfl
  have w41 := w4.trans (w3.trans w2)
  obtain ⟨hm4, hc4, -⟩ := ready_work hv b1 w41
  have hS := genSetup hv.dims hc4 (hookOK_noHook (noHook_ofParams prm) p.dims m4)
  obtain ⟨m5, r5, a5, -, v5⟩ := run_runs hS stp sched
  have cell : ∀ c, 0 ≤ c → c < p.dims.ncells → m2.real .x_cell 0 c 0 = xC p.nx dc c ∧
      m2.real .y_cell 0 c 0 = yC p.nx dc c := fun c c0 c1 => by
    have e := (ready_work hv b1 w2).1
    exact ⟨e.x_cell c ⟨c0, c1⟩, e.y_cell c ⟨c0, c1⟩⟩
  refine ⟨m5, fun split => ?_, ?_, ?_, ?_, ?_⟩
  · have := Runs.append (Runs.append (Runs.append r1 (Runs.single r2))
      (Runs.cons r3 (Runs.single r4))) (r5 split)
    exact this
  · exact (ready_work hv b1 ((a5.mono fun _ h => isWork_dyn h).trans w41)).1
  · have w := (a5.mono fun _ h => isWork_dyn h).trans w41
    exact ⟨(ready_work hv b1 w).2.1, (ready_work hv b1 w).2.2, ready_work_mesh b1 w⟩
  · intro c k c0 c1 k0 k1
    rw [a5.real _ rfl, a4.real _ rfl, (v3 c k c0 c1 k0 k1).2.2, (cell c c0 c1).1, (cell c c0 c1).2]
  · rw [genSys_static a5]
    refine v5.trans (run_local hS.sys stp sched ⟨?_, ?_⟩).2
    · have : m4.fld .tend = m1.fld .tend := fld_congr fun b hb => by
        rw [a4.real b, a3.real b, a2.real b]
        all_goals (cases b <;> simp [inState, only, among3] at hb ⊢ <;> subst hb <;> simp)
      show EqFld _ (m4.fld .tend) _
      rw [this]; exact t1
    · constructor
      · intro c k c0 c1 k0 k1
        show m4.real _ 0 c k = _
        rw [a4.real _ rfl, (v3 c k c0 c1 k0 k1).1, (cell c c0 c1).1, (cell c c0 c1).2]
        rfl
      · intro e k e0 e1 k0 k1
        show m4.real _ 0 e k = _
        have hh := (ready_work hv b1 (w3.trans w2)).1
        rw [v4 e k e0 e1 k0 k1, hh.x_edge e e0 e1, hh.y_edge e e0 e1, hh.angle_edge e e0 e1]
        rfl
      · intro l c k l0 l1 c0 c1 k0 k1
        have : l = 0 := by
          have : p.dims.ntracers = 1 := hnt
          omega
        subst this
        show m4.real _ 0 c k = _
        rw [a4.real _ rfl, (v3 c k c0 c1 k0 k1).2.1, (cell c c0 c1).1, (cell c c0 c1).2]
        rfl

/-- Safe, with one possible result. -/
theorem Runs.safe_unique {cs : List (Cmd R)} {m m' : Mem R} (h : Runs d cs m m') :
    Safe d cs m ∧ ∃! m', Exec d cs m m' := ⟨h.1, m', h.exec, fun y hy => (h.2 y).1 hy⟩

/-- What the nonlinear test computes. -/
theorem nonlinear_run_runs (hv : RunValid p) (dc : R) (sw : SWModel R) (fh fx fy : R → R → R → R)
    (h : R → R → R → R) (vx vy : R → R → R) (stp : Stepper) (te : R) (sched : List (R × R))
    (m0 : Mem R) :
    ∃ m, (∀ split, Runs p.dims (nonlinear_run p dc (sw.forced p.dims fh fx fy)
        ⟨defaultKernels p.dims.vl, split⟩ h vx vy stp te sched) m0 m) ∧
      IsHexMesh p dc m ∧ (ConnOK p.dims m ∧
        ∀ v, 0 ≤ v → v < p.dims.nvertices → m.real .f_vertex 0 v 0 = sw.prm.f0) ∧
      (∀ c k, 0 ≤ c → c < p.dims.ncells → 0 ≤ k → k < p.dims.nlayers →
        m.real (.test .hexact_cell) 0 c k = h (xC p.nx dc c) (yC p.nx dc c) te) ∧
      EqFld p.dims (m.fld .state)
        ((genSys p.dims (sw.forced p.dims fh fx fy) (forceFn fh fx fy m) m).run stp sched
          (zeroFld, ⟨fun c _ => h (xC p.nx dc c) (yC p.nx dc c) (lit 0),
            fun e _ => vnInit p dc vx vy e, fun _ _ _ => lit 0⟩)).2 := by
  obtain ⟨m1, r1, b1, s1, t1⟩ := base_runs hv dc sw.prm stp m0
  have r2 := fill_runs (d := p.dims) (m := m1) (a := .test .hexact_cell) (lit 0)
  set m2 := m1.upd (RegA p.dims (only (.test .hexact_cell)))
    (eff (.test .hexact_cell) fun _ _ _ _ => (lit 0 : R)) with hm2
  have a2 : Agree (only (.test .hexact_cell)) m2 m1 :=
    (Agree.refl _ m1).upd _ fun _ _ _ _ h => h.1
  obtain ⟨m3, r3, a3, v3⟩ := init_h_exact_runs p.dims h te m2
  obtain ⟨m4, r4, a4, v4⟩ := init_vn_runs p.dims vx vy m3
  have w2 : Agree isWork m2 m1 := a2.mono fun b hb => by rw [only_eq hb]; rfl
  have w3 : Agree isWork m3 m2 := a3.mono fun b hb => by
    simp only [among2, Bool.or_eq_true, decide_eq_true_eq] at hb
    rcases hb with rfl | rfl <;> rfl
  have w4 : Agree isWork m4 m3 := a4.mono fun b hb => by rw [only_eq hb]; rfl
  have w41 := w4.trans (w3.trans w2)
  obtain ⟨hm4, hc4, -⟩ := ready_work hv b1 w41
  have hS := genSetup hv.dims hc4 (hookOK_forced p.dims sw fh fx fy m4)
  obtain ⟨m5, r5, a5, -, v5⟩ := run_runs hS stp sched
  have cell : ∀ c, 0 ≤ c → c < p.dims.ncells → m2.real .x_cell 0 c 0 = xC p.nx dc c ∧
      m2.real .y_cell 0 c 0 = yC p.nx dc c := fun c c0 c1 => by
    have e := (ready_work hv b1 w2).1
    exact ⟨e.x_cell c ⟨c0, c1⟩, e.y_cell c ⟨c0, c1⟩⟩
  refine ⟨m5, fun split => ?_, ?_, ?_, ?_, ?_⟩
  · have := Runs.append (Runs.append (Runs.append r1 (Runs.single r2))
      (Runs.cons r3 (Runs.single r4))) (r5 split)
    exact this
  · exact (ready_work hv b1 ((a5.mono fun _ h => isWork_dyn h).trans w41)).1
  · exact (ready_work hv b1 ((a5.mono fun _ h => isWork_dyn h).trans w41)).2
  · intro c k c0 c1 k0 k1
    rw [a5.real _ rfl, a4.real _ rfl, (v3 c k c0 c1 k0 k1).2, (cell c c0 c1).1, (cell c c0 c1).2]
  · have e : forceFn fh fx fy m5 = forceFn fh fx fy m4 := by
      unfold forceFn
      rw [a5.real .x_cell rfl, a5.real .y_cell rfl, a5.real .x_edge rfl, a5.real .y_edge rfl,
        a5.real .angle_edge rfl]
    rw [genSys_static a5, e]
    refine v5.trans (run_local hS.sys stp sched ⟨?_, ?_⟩).2
    · have : m4.fld .tend = m1.fld .tend := fld_congr fun b hb => by
        rw [a4.real b, a3.real b, a2.real b]
        all_goals (cases b <;> simp [inState, only, among2] at hb ⊢ <;> subst hb <;> simp)
      show EqFld _ (m4.fld .tend) _
      rw [this]; exact t1
    · constructor
      · intro c k c0 c1 k0 k1
        show m4.real _ 0 c k = _
        rw [a4.real _ rfl, (v3 c k c0 c1 k0 k1).1, (cell c c0 c1).1, (cell c c0 c1).2]
      · intro e k e0 e1 k0 k1
        show m4.real _ 0 e k = _
        have hh := (ready_work hv b1 (w3.trans w2)).1
        rw [v4 e k e0 e1 k0 k1, hh.x_edge e e0 e1, hh.y_edge e e0 e1, hh.angle_edge e e0 e1]
        rfl
      · intro l c k l0 l1 c0 c1 k0 k1
        show m4.real _ l c k = _
        rw [a4.real _ rfl, a3.real _ rfl, a2.real _ rfl]
        exact s1.tr l c k l0 l1 c0 c1 k0 k1

/-- The state in which `double_vortex.cpp` computes its first integrals. -/
theorem vortex_init_runs (hv : RunValid p) (dc : R) (prm : Params R) (h vx vy : R → R → R)
    (stp : Stepper) (m0 : Mem R) :
    ∃ m, Runs p.dims (vortex_init p dc prm h vx vy stp) m0 m ∧ Ready p dc prm m ∧
      EqFld p.dims (m.fld .tend) zeroFld ∧
      EqFld p.dims (m.fld .state) ⟨fun c _ => h (xC p.nx dc c) (yC p.nx dc c),
        fun e _ => vnInit p dc vx vy e, fun _ _ _ => lit 0⟩ := by
  obtain ⟨m1, r1, b1, s1, t1⟩ := base_runs hv dc prm stp m0
  obtain ⟨m3, r3, a3, v3⟩ := init_h_runs p.dims h m1
  obtain ⟨m4, r4, a4, v4⟩ := init_vn_runs p.dims vx vy m3
  have w3 : Static m3 m1 := a3.mono fun b hb => by rw [only_eq hb]; rfl
  have w4 : Static m4 m3 := a4.mono fun b hb => by rw [only_eq hb]; rfl
  refine ⟨m4, Runs.append r1 (Runs.cons r3 (Runs.single r4)), b1.static (w4.trans w3), ?_, ?_⟩
  · have : m4.fld .tend = m1.fld .tend := fld_congr fun b hb => by
      rw [a4.real b, a3.real b]
      all_goals (cases b <;> simp [inState, only] at hb ⊢ <;> subst hb <;> simp)
    rw [this]; exact t1
  · have e1 := (b1.hex hv.toValid).1
    have e3 := ((b1.static w3).hex hv.toValid).1
    constructor
    · intro c k c0 c1 k0 k1
      show m4.real _ 0 c k = _
      rw [a4.real _ rfl, v3 c k c0 c1 k0 k1, e1.x_cell c ⟨c0, c1⟩, e1.y_cell c ⟨c0, c1⟩]
    · intro e k g0 g1 k0 k1
      show m4.real _ 0 e k = _
      rw [v4 e k g0 g1 k0 k1, e3.x_edge e g0 g1, e3.y_edge e g0 g1, e3.angle_edge e g0 g1]
      rfl
    · intro l c k l0 l1 c0 c1 k0 k1
      show m4.real _ l c k = _
      rw [a4.real _ rfl, a3.real _ rfl]
      exact s1.tr l c k l0 l1 c0 c1 k0 k1

/-- the initial state of the benchmark -/
def benchInit (p : MeshParams) (dc : R) (h vx vy : R → R → R) : Fld R :=
  ⟨fun c _ => h (xC p.nx dc c) (yC p.nx dc c), fun e _ => vnInit p dc vx vy e,
    fun _ _ _ => lit 1000⟩

/-- the steps of the benchmark -/
def benchSched (nsteps : Nat) (dt : R) : List (R × R) :=
  (lit 0, dt) :: (List.range nsteps).map fun step : Nat => (lit ((step : Int) + 1) * dt, dt)

/-- What the benchmark computes. -/
theorem benchmark_run_runs (hv : RunValid p) (dc : R) (prm : Params R) (h vx vy : R → R → R)
    (nsteps : Nat) (dt : R) (m0 : Mem R) :
    ∃ m, (∀ split, Runs p.dims (benchmark_run p dc prm ⟨defaultKernels p.dims.vl, split⟩ h vx vy
        nsteps dt) m0 m) ∧ Ready p dc prm m ∧
      EqFld p.dims (m.fld .state) ((genSys p.dims (SWModel.ofParams prm) noHook m).run
        (.lsrk (if nsteps = 1 then 1 else 5)) (benchSched nsteps dt)
        (zeroFld, benchInit p dc h vx vy)).2 := by
  obtain ⟨m1, r1, b1, s1, t1⟩ := base_runs hv dc prm (.lsrk (if nsteps = 1 then 1 else 5)) m0
  obtain ⟨m2, r2, a2, v2⟩ := init_h_runs p.dims h m1
  obtain ⟨m3, r3, a3, v3⟩ := init_tr_runs p.dims (lit 1000) m2
  obtain ⟨m4, r4, a4, v4⟩ := init_vn_runs p.dims vx vy m3
  have w2 : Static m2 m1 := a2.mono fun b hb => by rw [only_eq hb]; rfl
  have w3 : Static m3 m2 := a3.mono fun b hb => by rw [only_eq hb]; rfl
  have w4 : Static m4 m3 := a4.mono fun b hb => by rw [only_eq hb]; rfl
  have b4 := b1.static (w4.trans (w3.trans w2))
  have hc4 := conn_of_hex hv.toValid (b4.hex hv.toValid).1
  have hS := genSetup hv.dims hc4 (hookOK_noHook (noHook_ofParams prm) p.dims m4)
  obtain ⟨m5, r5, a5, -, v5⟩ := run_runs hS (.lsrk (if nsteps = 1 then 1 else 5))
    (benchSched nsteps dt)
  refine ⟨m5, fun split => ?_, b4.static a5, ?_⟩
  · exact Runs.append (Runs.append (Runs.append (Runs.append r1 (Runs.single r2)) r3)
      (Runs.single r4)) (r5 split)
  · rw [genSys_static a5]
    refine v5.trans (run_local hS.sys _ _ ⟨?_, ?_⟩).2
    · have : m4.fld .tend = m1.fld .tend := fld_congr fun b hb => by
        rw [a4.real b, a3.real b, a2.real b]
        all_goals (cases b <;> simp [inState, only] at hb ⊢ <;> subst hb <;> simp)
      show EqFld _ (m4.fld .tend) _
      rw [this]; exact t1
    · have e1 := (b1.hex hv.toValid).1
      have e3 := ((b1.static (w3.trans w2)).hex hv.toValid).1
      constructor
      · intro c k c0 c1 k0 k1
        show m4.real _ 0 c k = _
        rw [a4.real _ rfl, a3.real _ rfl, v2 c k c0 c1 k0 k1, e1.x_cell c ⟨c0, c1⟩,
          e1.y_cell c ⟨c0, c1⟩]
        rfl
      · intro e k g0 g1 k0 k1
        show m4.real _ 0 e k = _
        rw [v4 e k g0 g1 k0 k1, e3.x_edge e g0 g1, e3.y_edge e g0 g1, e3.angle_edge e g0 g1]
        rfl
      · intro l c k l0 l1 c0 c1 k0 k1
        show m4.real _ l c k = _
        rw [a4.real _ rfl, v3 l c k l0 l1 c0 c1 k0 k1]
        rfl

/-! ### The error norms -/

theorem wp_tracer_error {d : Dims} {m : Mem R} (hnt : d.ntracers = 1) {c k : Int} (c0 : 0 ≤ c)
    (c1 : c < d.ncells) (k0 : 0 ≤ k) (k1 : k < d.nlayers) (a : R) :
    Wp d (fun _ => .ro) (tracer_error_body c k a) m (fun r m' => r = a +
      (m.real (.test .tr_exact_cell) 0 c k - m.real (.tr_cell .state) 0 c k) *
      (m.real (.test .tr_exact_cell) 0 c k - m.real (.tr_cell .state) 0 c k) ∧ m' = m) :=
  wp_bind (wp_rd3 (inbT rfl (by omega) ⟨c0, c1⟩ ⟨k0, k1⟩) (by simp) (wp_bind
    (wp_rd3 (inbT rfl (by omega) ⟨c0, c1⟩ ⟨k0, k1⟩) (by simp) (wp_pure' ⟨rfl, rfl⟩))))

theorem wp_nonlinear_error {d : Dims} {m : Mem R} {c k : Int} (c0 : 0 ≤ c)
    (c1 : c < d.ncells) (k0 : 0 ≤ k) (k1 : k < d.nlayers) (a : R) :
    Wp d (fun _ => .ro) (nonlinear_error_body c k a) m (fun r m' => r = a +
      (m.real (.test .hexact_cell) 0 c k - m.real (.h_cell .state) 0 c k) *
      (m.real (.test .hexact_cell) 0 c k - m.real (.h_cell .state) 0 c k) ∧ m' = m) :=
  wp_bind (wp_rd2 (inbE rfl ⟨c0, c1⟩ ⟨k0, k1⟩) (by simp) (wp_bind
    (wp_rd2 (inbE rfl ⟨c0, c1⟩ ⟨k0, k1⟩) (by simp) (wp_pure' ⟨rfl, rfl⟩))))

/-- In exact arithmetic a sum over a two-dimensional range has one possible result. -/
theorem reduces2_real {d : Dims} {body : Int → Int → ℝ → Prog ℝ ℝ} {m : Mem ℝ} {g : Int → Int → ℝ}
    {n0 n1 : Int} (h0 : 0 ≤ n0) (h1 : 0 ≤ n1)
    (h : ∀ i k a, 0 ≤ i → i < n0 → 0 ≤ k → k < n1 →
      Wp d (fun _ => .ro) (body i k a) m (fun r m' => r = a + g i k ∧ m' = m)) (v : ℝ) :
    Reduces2 d n0 n1 body m v ↔
      v = ∑ i ∈ Finset.Ico 0 n0, ∑ k ∈ Finset.Ico 0 n1, g i k := by
  unfold Reduces2
  have key : ∀ i, 0 ≤ i → i < n0 * n1 → 0 ≤ i / n1 ∧ i / n1 < n0 ∧ 0 ≤ i % n1 ∧ i % n1 < n1 := by
    intro i i0 i1
    have hn : 0 < n1 := by
      rcases h1.lt_or_eq with h | h
      · exact h
      · rw [← h, mul_zero] at i1; omega
    exact ⟨Int.ediv_nonneg i0 h1, (Int.ediv_lt_iff_lt_mul hn).2 i1, Int.emod_nonneg _ hn.ne',
      Int.emod_lt_of_pos _ hn⟩
  rw [reduces_real (g := fun i => g (i / n1) (i % n1)) fun i a i0 i1 => by
    obtain ⟨q0, q1, q2, q3⟩ := key i i0 i1
    exact h _ _ a q0 q1 q2 q3]
  have : ∑ i ∈ Finset.range (n0 * n1).toNat, g ((i : Int) / n1) ((i : Int) % n1) =
      ∑ i ∈ Finset.Ico 0 n0, ∑ k ∈ Finset.Ico 0 n1, g i k := by
    rw [← Finset.sum_product']
    refine Finset.sum_nbij' (fun i => ((i : Int) / n1, (i : Int) % n1))
      (fun q => (q.1 * n1 + q.2).toNat) ?_ ?_ ?_ ?_ ?_
    · intro i hi
      rw [Finset.mem_range] at hi
      obtain ⟨q0, q1, q2, q3⟩ := key i (by positivity) (by omega)
      simp only [Finset.mem_product, Finset.mem_Ico]
      exact ⟨⟨q0, q1⟩, q2, q3⟩
    · rintro ⟨i, k⟩ hq
      simp only [Finset.mem_product, Finset.mem_Ico] at hq
      rw [Finset.mem_range]
      have : i * n1 + k < n0 * n1 := by nlinarith [hq.1.2, hq.2.2]
      have : 0 ≤ i * n1 + k := by nlinarith [hq.1.1, hq.2.1]
      simp only
      omega
    · intro i hi
      simp only [Int.ediv_mul_add_emod, Int.toNat_natCast]
    · rintro ⟨i, k⟩ hq
      simp only [Finset.mem_product, Finset.mem_Ico] at hq
      have : 0 ≤ i * n1 + k := by nlinarith [hq.1.1, hq.2.1]
      have hn : 0 < n1 := by omega
      simp only [Int.toNat_of_nonneg this]
      rw [add_comm, Int.add_mul_ediv_right _ _ hn.ne', Int.add_mul_emod_self_right,
        Int.ediv_eq_zero_of_lt hq.2.1 hq.2.2, Int.emod_eq_of_lt hq.2.1 hq.2.2]
      simp
    · intro i hi; rfl
  rw [this]

end Refine
end Omega
