import Verif.Refine.TestPrograms

/-!
# What the operator convergence test computes

The launches of `test/operator_convergence.cpp` leave the absolute error of one discrete operator in one
view, and the maximum reduction returns its largest element.
-/

set_option linter.unusedVariables false
set_option linter.unusedSectionVars false

namespace Omega
namespace Refine

open Prog Model

variable {R : Type} [Scalar R] {d : Dims} {m : Mem R}

/-- views local to the test -/
def isTest : RArr → Bool
  | .test _ => true
  | _ => false

/-- permissions of a launch that stores one element per view of `A` and iteration -/
structure Perm1 (A : RArr → Bool) (perm : Loc → Perm) (i : Int) : Prop where
  rw : ∀ a, A a = true → perm (.real a 0 i 0) = .rw
  ro : ∀ b, A b = false → ∀ l i k, perm (.real b l i k) ≠ .none
  int : ∀ b i j, perm (.int b i j) ≠ .none

/-- the two views of an error launch -/
abbrev pair (a b : TestArr) : RArr → Bool := among2 (.test a) (.test b)

theorem pair_eq {a b : TestArr} {x : RArr} (h : pair a b x = true) : x = .test a ∨ x = .test b := by
  simpa [pair, among2] using h

/-- A launch that ends in the stores of an error launch. -/
theorem err_launch {a b : TestArr} (hab : a ≠ b) {n : Int} (ha : a.ext d = (1, n, 1))
    (hb : b.ext d = (1, n, 1)) (V W : Int → R) {body : Int → Prog R Unit}
    (hw : ∀ i, 0 ≤ i → i < n → ∀ M perm, Agree (pair a b) M m → Perm1 (pair a b) perm i →
      Wp d perm (body i) M (fun _ M' =>
        M' = (M.setR (.test a) 0 i 0 (V i)).setR (.test b) 0 i 0 (absS (W i - V i)))) :
    ∃ m', (par1 n body).Runs d m m' ∧ Agree isTest m' m ∧
      ∀ i, 0 ≤ i → i < n → m'.real (.test b) 0 i 0 = absS (W i - V i) := by
  have hext : ∀ x, pair a b x = true → x.ext d = (1, n, 1) := by
    intro x hx
    rcases pair_eq hx with rfl | rfl
    · exact ha
    · exact hb
  refine ⟨_, par1x_runs (A := pair a b) hext
    (fun x _ i _ _ => if x = .test a then V i else absS (W i - V i)) ?_,
    (Agree.refl _ m).upd _ fun x _ _ _ h => ?_, ?_⟩
  · intro i i0 i1 M perm hM h1 h2 h3
    refine wp_mono (hw i i0 i1 M perm hM ⟨h1, h2, h3⟩) ?_
    rintro - M' rfl
    refine ⟨rfl, ?_, ?_⟩
    · intro x hx
      rcases pair_eq hx with rfl | rfl
      · rw [setR_other _ (by simpa using hab), setR_same, if_pos rfl]
      · rw [setR_same, if_neg (by simpa using hab.symm)]
    · intro x l' i' k' hn
      simp only [Mem.setR]
      rw [if_neg, if_neg]
      all_goals rintro ⟨rfl, e⟩; exact hn (by simp [pair, among2]) e
  · rcases pair_eq h.1 with rfl | rfl <;> rfl
  · intro i i0 i1
    have hin : (RArr.test b).InB d 0 i 0 := by
      rw [RArr.InB, show (RArr.test b).ext d = (1, n, 1) from hb]
      exact ⟨by simp, ⟨i0, i1⟩, by simp⟩
    rw [Mem.upd_on (P := RegA d (pair a b)) ⟨by simp [pair, among2], hin⟩,
      if_neg (by simpa using hab.symm)]

/-- The stores that end an error launch. -/
theorem wp_err_tail {a b : TestArr} (hab : a ≠ b) {perm : Loc → Perm} {i : Int}
    (ha : (RArr.test a).InB d 0 i 0) (hb : (RArr.test b).InB d 0 i 0) (hp : Perm1 (pair a b) perm i)
    {W V : R} {M M0 : Mem R} (hV : M = M0.setR (.test a) 0 i 0 V) :
    Wp d perm (do
      wr1 (.test b) i W
      let g ← rd1 (.test a) i
      let e ← rd1 (.test b) i
      wr1 (.test b) i (e - g)
      let e ← rd1 (.test b) i
      wr1 (.test b) i (absS e)) M
      (fun _ M' => M' = (M0.setR (.test a) 0 i 0 V).setR (.test b) 0 i 0 (absS (W - V))) := by
  have pa := hp.rw (.test a) (by simp [pair, among2])
  have pb := hp.rw (.test b) (by simp [pair, among2])
  refine wp_bind (wp_wr1 hb pb (wp_bind (wp_rd1 ha (by simp [pa]) (wp_bind (wp_rd1 hb (by simp [pb])
    (wp_bind (wp_wr1 hb pb (wp_bind (wp_rd1 hb (by simp [pb]) (wp_wr1 hb pb ?_))))))))))
  subst hV
  simp only [setR_setR, setR_same]
  rw [setR_other _ (show RArr.test a ≠ .test b by simpa using hab), setR_same]

section

variable {A : RArr → Bool} {M : Mem R} {perm : Loc → Perm} {i0 : Int} {β : Type}

theorem q_rd1 (hp : Perm1 A perm i0) (hM : Agree A M m) {a : RArr} (ha : A a = false) {i : Int}
    (hb : a.InB d 0 i 0) {Q : R → Mem R → Prop} (h : Q (m.real a 0 i 0) M) :
    Wp d perm (rd1 a i) M Q := wp_rd1 hb (hp.ro a ha _ _ _) (by rw [hM.real a ha]; exact h)

theorem q_rd2 (hp : Perm1 A perm i0) (hM : Agree A M m) {a : RArr} (ha : A a = false) {i k : Int}
    (hb : a.InB d 0 i k) {Q : R → Mem R → Prop} (h : Q (m.real a 0 i k) M) :
    Wp d perm (rd2 a i k) M Q := wp_rd2 hb (hp.ro a ha _ _ _) (by rw [hM.real a ha]; exact h)

theorem q_rdI1 (hp : Perm1 A perm i0) (hM : Agree A M m) {a : IArr} {i : Int}
    (hb : a.InB d i 0) {Q : Int → Mem R → Prop} (h : Q (m.int a i 0) M) :
    Wp d perm (rdI1 a i) M Q := wp_rdI1 hb (hp.int a _ _) (by rw [hM.int]; exact h)

theorem q_rdI2 (hp : Perm1 A perm i0) (hM : Agree A M m) {a : IArr} {i j : Int}
    (hb : a.InB d i j) {Q : Int → Mem R → Prop} (h : Q (m.int a i j) M) :
    Wp d perm (rdI2 a i j) M Q := wp_rdI2 hb (hp.int a _ _) (by rw [hM.int]; exact h)

end

/-- storing one of the views of the launch leaves the others in agreement -/
theorem agree_set {A : RArr → Bool} {M : Mem R} {a : RArr} (h : Agree A M m) (ha : A a = true)
    (l i k : Int) (v : R) : Agree A (M.setR a l i k v) m := by
  refine ⟨h.1, fun b hb => ?_⟩
  rw [setR_other _ (fun e => by rw [e, ha] at hb; exact absurd hb (by simp))]
  exact h.2 b hb

macro "ib" : tactic => `(tactic| (dsimp only [IArr.InB, IArr.ext, RArr.InB, RArr.ext, TestArr.ext, maxedges]; omega))

set_option hygiene false in
/-- step over a load from a view the launch does not write -/
macro "qd" : tactic => `(tactic| first
  | exact wp_pure' ⟨rfl, rfl⟩
  | refine wp_bind (q_rdI2 hp hM (by ib) ?_)
  | refine wp_bind (q_rdI1 hp hM (by ib) ?_)
  | refine wp_bind (q_rd1 hp hM (by rfl) (by ib) ?_)
  | refine wp_bind (q_rd2 hp hM (by rfl) (by ib) ?_))

/-! ### The four functions -/

/-- allocation of a view -/
theorem fill_test (a : TestArr) (v : R) (m : Mem R) :
    ∃ m', (fillR d (.test a) v).Runs d m m' ∧ Agree isTest m' m :=
  ⟨_, fill_runs v, (Agree.refl _ m).upd _ fun x _ _ _ h => by rw [only_eq h.1]; rfl⟩

/-- three allocations -/
theorem alloc_test (a b c : TestArr) (v : R) (m : Mem R) :
    ∃ m', Runs d [fillR d (.test a) v, fillR d (.test b) v, fillR d (.test c) v] m m' ∧
      Agree isTest m' m := by
  obtain ⟨m1, r1, h1⟩ := fill_test (d := d) a v m
  obtain ⟨m2, r2, h2⟩ := fill_test (d := d) b v m1
  obtain ⟨m3, r3, h3⟩ := fill_test (d := d) c v m2
  exact ⟨m3, Runs.cons r1 (Runs.cons r2 (Runs.single r3)), h3.trans (h2.trans h1)⟩

/-- a launch storing one view -/
theorem one_launch {a : TestArr} {n : Int} (ha : a.ext d = (1, n, 1)) (V : Int → R)
    {body : Int → Prog R Unit}
    (hw : ∀ i, 0 ≤ i → i < n → ∀ M perm, Agree (only (.test a)) M m → Perm1 (only (.test a)) perm i →
      Wp d perm (body i) M (fun _ M' => M' = M.setR (.test a) 0 i 0 (V i))) :
    ∃ m', (par1 n body).Runs d m m' ∧ Agree isTest m' m ∧
      ∀ i, 0 ≤ i → i < n → m'.real (.test a) 0 i 0 = V i := by
  have hext : ∀ x, only (.test a) x = true → x.ext d = (1, n, 1) := by
    intro x hx; rw [only_eq hx]; exact ha
  refine ⟨_, par1x_runs (A := only (.test a)) hext (fun x _ i _ _ => V i) ?_,
    (Agree.refl _ m).upd _ fun x _ _ _ h => by rw [only_eq h.1]; rfl, ?_⟩
  · intro i i0 i1 M perm hM h1 h2 h3
    refine wp_mono (hw i i0 i1 M perm hM ⟨h1, h2, h3⟩) ?_
    rintro - M' rfl
    refine ⟨rfl, ?_, ?_⟩
    · intro x hx
      rw [only_eq hx, setR_same]
    · intro x l' i' k' hn
      simp only [Mem.setR]
      rw [if_neg]
      rintro ⟨rfl, e⟩; exact hn (only_self _) e
  · intro i i0 i1
    have hin : (RArr.test a).InB d 0 i 0 := by
      rw [RArr.InB, show (RArr.test a).ext d = (1, n, 1) from ha]
      exact ⟨by simp, ⟨i0, i1⟩, by simp⟩
    rw [Mem.upd_on (P := RegA d (only (.test a))) ⟨only_self _, hin⟩]

section

variable (m) (Lx Ly : R)

/-- normal and tangential components of the vector field of the test at an edge -/
def testN (e : Int) : R :=
  Scalar.cos (m.real .angle_edge 0 e 0) *
    (Model.wave Scalar.sin (m.real .x_edge 0 e 0) Lx * Model.wave Scalar.cos (m.real .y_edge 0 e 0) Ly) +
  Scalar.sin (m.real .angle_edge 0 e 0) *
    (Model.wave Scalar.cos (m.real .x_edge 0 e 0) Lx * Model.wave Scalar.sin (m.real .y_edge 0 e 0) Ly)
@[inherit_doc testN]
def testT (e : Int) : R :=
  -Scalar.sin (m.real .angle_edge 0 e 0) *
    (Model.wave Scalar.sin (m.real .x_edge 0 e 0) Lx * Model.wave Scalar.cos (m.real .y_edge 0 e 0) Ly) +
  Scalar.cos (m.real .angle_edge 0 e 0) *
    (Model.wave Scalar.cos (m.real .x_edge 0 e 0) Lx * Model.wave Scalar.sin (m.real .y_edge 0 e 0) Ly)
/-- the scalar field of the test at a cell -/
def testS (c : Int) : R :=
  Model.wave Scalar.sin (m.real .x_cell 0 c 0) Lx * Model.wave Scalar.sin (m.real .y_cell 0 c 0) Ly

/-- "error_gradient": discrete and exact value at an edge -/
def gradD (e : Int) : R :=
  (testS m Lx Ly (m.int .cells_on_edge e 1) - testS m Lx Ly (m.int .cells_on_edge e 0)) /
    m.real .dc_edge 0 e 0
@[inherit_doc gradD]
def gradX (e : Int) : R :=
  Scalar.cos (m.real .angle_edge 0 e 0) * (lit 2 * Scalar.pi / Lx *
    Model.wave Scalar.cos (m.real .x_edge 0 e 0) Lx * Model.wave Scalar.sin (m.real .y_edge 0 e 0) Ly) +
  Scalar.sin (m.real .angle_edge 0 e 0) * (lit 2 * Scalar.pi / Ly *
    Model.wave Scalar.sin (m.real .x_edge 0 e 0) Lx * Model.wave Scalar.cos (m.real .y_edge 0 e 0) Ly)
/-- "error_divergence" -/
def divD (c : Int) : R :=
  foldI (m.int .nedges_on_cell c 0) (lit 0) (fun j s =>
    s + m.real .dv_edge 0 (m.int .edges_on_cell c j) 0 * m.real .edge_sign_on_cell 0 c j *
      testN m Lx Ly (m.int .edges_on_cell c j)) / m.real .area_cell 0 c 0
@[inherit_doc divD]
def divX (c : Int) : R :=
  lit 2 * Scalar.pi * (lit 1 / Lx + lit 1 / Ly) * Model.wave Scalar.cos (m.real .x_cell 0 c 0) Lx *
    Model.wave Scalar.cos (m.real .y_cell 0 c 0) Ly
/-- "error_curl" -/
def curlD (v : Int) : R :=
  foldI 3 (lit 0) (fun j s =>
    s + m.real .dc_edge 0 (m.int .edges_on_vertex v j) 0 * m.real .edge_sign_on_vertex 0 v j *
      testN m Lx Ly (m.int .edges_on_vertex v j)) / m.real .area_triangle 0 v 0
@[inherit_doc curlD]
def curlX (v : Int) : R :=
  lit 2 * Scalar.pi * (lit (-1) / Lx + lit 1 / Ly) * Model.wave Scalar.sin (m.real .x_vertex 0 v 0) Lx *
    Model.wave Scalar.sin (m.real .y_vertex 0 v 0) Ly
/-- "error_reconstruction" -/
def reconD (e : Int) : R :=
  foldI (m.int .nedges_on_edge e 0) (lit 0) (fun j s =>
    s + m.real .weights_on_edge 0 e j * testN m Lx Ly (m.int .edges_on_edge e j))

end

variable (Lx Ly : R)

theorem foldI_congr {σ : Type} {f g : Int → σ → σ} {n : Int}
    (h : ∀ j s, 0 ≤ j → j < n → f j s = g j s) (s : σ) : foldI n s f = foldI n s g := by
  rcases le_or_gt n 0 with hn | hn
  · have : n.toNat = 0 := by omega
    simp [foldI, this, foldFrom]
  · have key : ∀ k : ℕ, (k : Int) ≤ n → foldI k s f = foldI k s g := by
      intro k
      induction k with
      | zero => intro _; rfl
      | succ k ih =>
        intro hk
        push_cast at hk ⊢
        rw [foldI_succ _ (by omega), foldI_succ _ (by omega), ih (by omega), h _ _ (by omega) (by omega)]
    have := key n.toNat (by omega)
    rwa [Int.toNat_of_nonneg hn.le] at this

theorem gradient_runs (hc : ConnOK d m) :
    ∃ m', Runs d (gradient_launches d Lx Ly) m m' ∧ Agree isTest m' m ∧
      ∀ e, 0 ≤ e → e < d.nedges →
        m'.real (.test .exact_grad_field) 0 e 0 = absS (gradX m Lx Ly e - gradD m Lx Ly e) := by
  obtain ⟨m1, r1, a1⟩ := alloc_test (d := d) .input_cell .grad_field .exact_grad_field (lit 0) m
  obtain ⟨m2, r2, a2, v2⟩ := one_launch (m := m1) (d := d) (a := .input_cell) (n := d.ncells) rfl
    (testS m1 Lx Ly) (body := fun icell => do
      let x ← rd1 .x_cell icell
      let y ← rd1 .y_cell icell
      wr1 (.test .input_cell) icell
        (Model.wave Scalar.sin x Lx * Model.wave Scalar.sin y Ly)) (by
      intro i i0 i1 M perm hM hp
      qd; qd
      exact wp_wr1 (by ib) (hp.rw _ (only_self _)) rfl)
  have a12 := a2.trans a1
  have hc2 : ConnOK d m2 := hc.congr a12.int
  obtain ⟨m3, r3, a3, v3⟩ := err_launch (m := m2) (d := d) (a := .grad_field) (b := .exact_grad_field)
    (by simp) (n := d.nedges) rfl rfl (fun e => (m2.real (.test .input_cell) 0 (m2.int .cells_on_edge e 1) 0 -
      m2.real (.test .input_cell) 0 (m2.int .cells_on_edge e 0) 0) / m2.real .dc_edge 0 e 0)
    (gradX m2 Lx Ly) (body := fun iedge => do
      let icell0 ← rdI2 .cells_on_edge iedge 0
      let icell1 ← rdI2 .cells_on_edge iedge 1
      let f1 ← rd1 (.test .input_cell) icell1
      let f0 ← rd1 (.test .input_cell) icell0
      let dc ← rd1 .dc_edge iedge
      wr1 (.test .grad_field) iedge ((f1 - f0) / dc)
      let a ← rd1 .angle_edge iedge
      let nx := Scalar.cos a
      let b ← rd1 .angle_edge iedge
      let ny := Scalar.sin b
      let x ← rd1 .x_edge iedge
      let y ← rd1 .y_edge iedge
      let grad_x := lit 2 * Scalar.pi / Lx * Model.wave Scalar.cos x Lx * Model.wave Scalar.sin y Ly
      let grad_y := lit 2 * Scalar.pi / Ly * Model.wave Scalar.sin x Lx * Model.wave Scalar.cos y Ly
      wr1 (.test .exact_grad_field) iedge (nx * grad_x + ny * grad_y)
      let g ← rd1 (.test .grad_field) iedge
      let e ← rd1 (.test .exact_grad_field) iedge
      wr1 (.test .exact_grad_field) iedge (e - g)
      let e ← rd1 (.test .exact_grad_field) iedge
      wr1 (.test .exact_grad_field) iedge (absS e)) (by
      intro i i0 i1 M perm hM hp
      have hk0 := hc2.coe i i0 i1 0 (by omega) (by omega)
      have hk1 := hc2.coe i i0 i1 1 (by omega) (by omega)
      qd; qd; qd; qd; qd
      refine wp_bind (wp_wr1 (by ib) (hp.rw _ rfl) ?_)
      have hM0 := hM
      replace hM := agree_set hM (a := .test .grad_field) rfl 0 i 0
        ((m2.real (.test .input_cell) 0 (m2.int .cells_on_edge i 1) 0 -
          m2.real (.test .input_cell) 0 (m2.int .cells_on_edge i 0) 0) / m2.real .dc_edge 0 i 0)
      qd; qd; qd; qd
      exact wp_err_tail (by simp) (by ib) (by ib) hp rfl)
  have a123 := a3.trans a12
  refine ⟨m3, Runs.append r1 (Runs.cons r2 (Runs.single r3)), a123, ?_⟩
  intro e e0 e1
  have hk0 := hc2.coe e e0 e1 0 (by omega) (by omega)
  have hk1 := hc2.coe e e0 e1 1 (by omega) (by omega)
  rw [v3 e e0 e1, v2 _ hk0.1 hk0.2, v2 _ hk1.1 hk1.2]
  simp only [gradX, gradD, testS, a12.int, a12.real .angle_edge rfl, a12.real .x_edge rfl,
    a12.real .y_edge rfl, a12.real .dc_edge rfl, a1.real .x_cell rfl, a1.real .y_cell rfl]

theorem input_runs (m : Mem R) :
    ∃ m', (input_launch d Lx Ly).Runs d m m' ∧ Agree isTest m' m ∧
      ∀ e, 0 ≤ e → e < d.nedges → m'.real (.test .input_edge) 0 e 0 = testN m Lx Ly e :=
  one_launch (m := m) (d := d) (a := .input_edge) (n := d.nedges) rfl (testN m Lx Ly) (by
      intro i i0 i1 M perm hM hp
      qd; qd; qd; qd
      exact wp_wr1 (by ib) (hp.rw _ (only_self _)) rfl)

theorem divergence_runs (hc : ConnOK d m) :
    ∃ m', Runs d (divergence_launches d Lx Ly) m m' ∧ Agree isTest m' m ∧
      ∀ c, 0 ≤ c → c < d.ncells →
        m'.real (.test .exact_div_field) 0 c 0 = absS (divX m Lx Ly c - divD m Lx Ly c) := by
  obtain ⟨m1, r1, a1⟩ := alloc_test (d := d) .input_edge .div_field .exact_div_field (lit 0) m
  obtain ⟨m2, r2, a2, v2⟩ := input_runs (d := d) Lx Ly m1
  have a12 := a2.trans a1
  have hc2 : ConnOK d m2 := hc.congr a12.int
  obtain ⟨m3, r3, a3, v3⟩ := err_launch (m := m2) (d := d) (a := .div_field) (b := .exact_div_field)
    (by simp) (n := d.ncells) rfl rfl (fun c => foldI (m2.int .nedges_on_cell c 0) (lit 0) (fun j s =>
      s + m2.real .dv_edge 0 (m2.int .edges_on_cell c j) 0 * m2.real .edge_sign_on_cell 0 c j *
        m2.real (.test .input_edge) 0 (m2.int .edges_on_cell c j) 0) / m2.real .area_cell 0 c 0)
    (divX m2 Lx Ly) (body := fun icell => do
      let n ← rdI1 .nedges_on_cell icell
      let accum ← forI n (lit 0) fun j accum => do
        let jedge ← rdI2 .edges_on_cell icell j
        let dv ← rd1 .dv_edge jedge
        let sg ← rd2 .edge_sign_on_cell icell j
        let v ← rd1 (.test .input_edge) jedge
        pure (accum + dv * sg * v)
      let area ← rd1 .area_cell icell
      wr1 (.test .div_field) icell (accum / area)
      let x ← rd1 .x_cell icell
      let y ← rd1 .y_cell icell
      wr1 (.test .exact_div_field) icell (lit 2 * Scalar.pi * (lit 1 / Lx + lit 1 / Ly) *
        Model.wave Scalar.cos x Lx * Model.wave Scalar.cos y Ly)
      let g ← rd1 (.test .div_field) icell
      let e ← rd1 (.test .exact_div_field) icell
      wr1 (.test .exact_div_field) icell (e - g)
      let e ← rd1 (.test .exact_div_field) icell
      wr1 (.test .exact_div_field) icell (absS e)) (by
      intro i i0 i1 M perm hM hp
      have hn := hc2.neoc i i0 i1
      qd
      refine wp_bind (wp_forI_read hn.1 (fun j s => s + m2.real .dv_edge 0 (m2.int .edges_on_cell i j) 0 *
        m2.real .edge_sign_on_cell 0 i j *
        m2.real (.test .input_edge) 0 (m2.int .edges_on_cell i j) 0) ?_ ?_)
      · intro j s h0 h1
        have he := hc2.eoc i i0 i1 j h0 h1
        qd; qd; qd; qd; qd
      qd
      refine wp_bind (wp_wr1 (by ib) (hp.rw _ rfl) ?_)
      replace hM := agree_set hM (a := .test .div_field) rfl 0 i 0
        (foldI (m2.int .nedges_on_cell i 0) (lit 0) (fun j s =>
      s + m2.real .dv_edge 0 (m2.int .edges_on_cell i j) 0 * m2.real .edge_sign_on_cell 0 i j *
        m2.real (.test .input_edge) 0 (m2.int .edges_on_cell i j) 0) / m2.real .area_cell 0 i 0)
      qd; qd
      exact wp_err_tail (by simp) (by ib) (by ib) hp rfl)
  refine ⟨m3, Runs.append r1 (Runs.cons r2 (Runs.single r3)), a3.trans a12, ?_⟩
  intro c c0 c1
  rw [v3 c c0 c1, foldI_congr (fun j s j0 j1 => by
    have he := hc2.eoc c c0 c1 j j0 j1
    rw [v2 _ he.1 he.2])]
  simp only [divX, divD, testN, a12.int, a12.real .area_cell rfl, a12.real .dv_edge rfl,
    a12.real .edge_sign_on_cell rfl, a12.real .x_cell rfl, a12.real .y_cell rfl,
    a1.real .angle_edge rfl, a1.real .x_edge rfl, a1.real .y_edge rfl]

theorem curl_runs (hc : ConnOK d m) :
    ∃ m', Runs d (curl_launches d Lx Ly) m m' ∧ Agree isTest m' m ∧
      ∀ v, 0 ≤ v → v < d.nvertices →
        m'.real (.test .exact_curl_field) 0 v 0 = absS (curlX m Lx Ly v - curlD m Lx Ly v) := by
  obtain ⟨m1, r1, a1⟩ := alloc_test (d := d) .input_edge .curl_field .exact_curl_field (lit 0) m
  obtain ⟨m2, r2, a2, v2⟩ := input_runs (d := d) Lx Ly m1
  have a12 := a2.trans a1
  have hc2 : ConnOK d m2 := hc.congr a12.int
  obtain ⟨m3, r3, a3, v3⟩ := err_launch (m := m2) (d := d) (a := .curl_field) (b := .exact_curl_field)
    (by simp) (n := d.nvertices) rfl rfl (fun v => foldI 3 (lit 0) (fun j s =>
      s + m2.real .dc_edge 0 (m2.int .edges_on_vertex v j) 0 * m2.real .edge_sign_on_vertex 0 v j *
        m2.real (.test .input_edge) 0 (m2.int .edges_on_vertex v j) 0) / m2.real .area_triangle 0 v 0)
    (curlX m2 Lx Ly) (body := fun ivertex => do
      let accum ← forI 3 (lit 0) fun j accum => do
        let jedge ← rdI2 .edges_on_vertex ivertex j
        let dc ← rd1 .dc_edge jedge
        let sg ← rd2 .edge_sign_on_vertex ivertex j
        let v ← rd1 (.test .input_edge) jedge
        pure (accum + dc * sg * v)
      let area ← rd1 .area_triangle ivertex
      wr1 (.test .curl_field) ivertex (accum / area)
      let x ← rd1 .x_vertex ivertex
      let y ← rd1 .y_vertex ivertex
      wr1 (.test .exact_curl_field) ivertex (lit 2 * Scalar.pi * (lit (-1) / Lx + lit 1 / Ly) *
        Model.wave Scalar.sin x Lx * Model.wave Scalar.sin y Ly)
      let g ← rd1 (.test .curl_field) ivertex
      let e ← rd1 (.test .exact_curl_field) ivertex
      wr1 (.test .exact_curl_field) ivertex (e - g)
      let e ← rd1 (.test .exact_curl_field) ivertex
      wr1 (.test .exact_curl_field) ivertex (absS e)) (by
      intro i i0 i1 M perm hM hp
      refine wp_bind (wp_forI_read (by omega) (fun j s => s + m2.real .dc_edge 0 (m2.int .edges_on_vertex i j) 0 *
        m2.real .edge_sign_on_vertex 0 i j *
        m2.real (.test .input_edge) 0 (m2.int .edges_on_vertex i j) 0) ?_ ?_)
      · intro j s h0 h1
        have he := hc2.eov i i0 i1 j h0 h1
        qd; qd; qd; qd; qd
      qd
      refine wp_bind (wp_wr1 (by ib) (hp.rw _ rfl) ?_)
      replace hM := agree_set hM (a := .test .curl_field) rfl 0 i 0
        (foldI 3 (lit 0) (fun j s =>
      s + m2.real .dc_edge 0 (m2.int .edges_on_vertex i j) 0 * m2.real .edge_sign_on_vertex 0 i j *
        m2.real (.test .input_edge) 0 (m2.int .edges_on_vertex i j) 0) / m2.real .area_triangle 0 i 0)
      qd; qd
      exact wp_err_tail (by simp) (by ib) (by ib) hp rfl)
  refine ⟨m3, Runs.append r1 (Runs.cons r2 (Runs.single r3)), a3.trans a12, ?_⟩
  intro c c0 c1
  rw [v3 c c0 c1, foldI_congr (fun j s j0 j1 => by
    have he := hc2.eov c c0 c1 j j0 j1
    rw [v2 _ he.1 he.2])]
  simp only [curlX, curlD, testN, a12.int, a12.real .area_triangle rfl, a12.real .dc_edge rfl,
    a12.real .edge_sign_on_vertex rfl, a12.real .x_vertex rfl, a12.real .y_vertex rfl,
    a1.real .angle_edge rfl, a1.real .x_edge rfl, a1.real .y_edge rfl]

theorem reconstruction_runs (hc : ConnOK d m) :
    ∃ m', Runs d (reconstruction_launches d Lx Ly) m m' ∧ Agree isTest m' m ∧
      ∀ e, 0 ≤ e → e < d.nedges →
        m'.real (.test .exact_recon_field) 0 e 0 = absS (testT m Lx Ly e - reconD m Lx Ly e) := by
  obtain ⟨m1, r1, a1⟩ := alloc_test (d := d) .input_edge .recon_field .exact_recon_field (lit 0) m
  obtain ⟨m2, r2, a2, v2, w2⟩ : ∃ m2, Cmd.Runs d (par1 d.nedges fun iedge => do
      let a ← rd1 .angle_edge iedge
      let nx := Scalar.cos a
      let b ← rd1 .angle_edge iedge
      let ny := Scalar.sin b
      let tx := -ny
      let ty := nx
      let x ← rd1 .x_edge iedge
      let y ← rd1 .y_edge iedge
      let v_x := Model.wave Scalar.sin x Lx * Model.wave Scalar.cos y Ly
      let v_y := Model.wave Scalar.cos x Lx * Model.wave Scalar.sin y Ly
      wr1 (.test .input_edge) iedge (nx * v_x + ny * v_y)
      wr1 (.test .exact_recon_field) iedge (tx * v_x + ty * v_y)) m1 m2 ∧ Agree isTest m2 m1 ∧
      (∀ e, 0 ≤ e → e < d.nedges → m2.real (.test .input_edge) 0 e 0 = testN m1 Lx Ly e) ∧
      ∀ e, 0 ≤ e → e < d.nedges → m2.real (.test .exact_recon_field) 0 e 0 = testT m1 Lx Ly e := by
    have hext : ∀ x, pair .input_edge .exact_recon_field x = true → x.ext d = (1, d.nedges, 1) := by
      intro x hx
      rcases pair_eq hx with rfl | rfl <;> rfl
    refine ⟨_, par1x_runs (A := pair .input_edge .exact_recon_field) hext
      (fun x _ i _ _ => if x = .test .input_edge then testN m1 Lx Ly i else testT m1 Lx Ly i) ?_,
      (Agree.refl _ m1).upd _ fun x _ _ _ h => ?_, ?_, ?_⟩
    · intro i i0 i1 M perm hM h1 h2 h3
      have hp : Perm1 (pair .input_edge .exact_recon_field) perm i := ⟨h1, h2, h3⟩
      qd; qd; qd; qd
      refine wp_bind (wp_wr1 (by ib) (hp.rw _ rfl) (wp_wr1 (by ib) (hp.rw _ rfl) ⟨rfl, ?_, ?_⟩))
      · intro x hx
        rcases pair_eq hx with rfl | rfl
        · rw [setR_other _ (by simp), setR_same, if_pos rfl]; rfl
        · rw [setR_same, if_neg (by simp)]; rfl
      · intro x l' i' k' hn
        simp only [Mem.setR]
        rw [if_neg, if_neg]
        all_goals rintro ⟨rfl, e⟩; exact hn (by simp [pair, among2]) e
    · rcases pair_eq h.1 with rfl | rfl <;> rfl
    · intro i i0 i1
      rw [Mem.upd_on (P := RegA d (pair .input_edge .exact_recon_field)) ⟨rfl, by ib⟩, if_pos rfl]
    · intro i i0 i1
      rw [Mem.upd_on (P := RegA d (pair .input_edge .exact_recon_field)) ⟨rfl, by ib⟩,
        if_neg (by simp)]
  have a12 := a2.trans a1
  have hc2 : ConnOK d m2 := hc.congr a12.int
  have hext : ∀ x, pair .recon_field .exact_recon_field x = true → x.ext d = (1, d.nedges, 1) := by
    intro x hx
    rcases pair_eq hx with rfl | rfl <;> rfl
  let V : Int → R := fun e => foldI (m2.int .nedges_on_edge e 0) (lit 0) (fun j s =>
      s + m2.real .weights_on_edge 0 e j * m2.real (.test .input_edge) 0 (m2.int .edges_on_edge e j) 0)
  obtain ⟨m3, r3, a3, v3⟩ : ∃ m3, Cmd.Runs d (par1 d.nedges fun iedge => do
      let n ← rdI1 .nedges_on_edge iedge
      let accum ← forI n (lit 0) fun j accum => do
        let iedge2 ← rdI2 .edges_on_edge iedge j
        let w ← rd2 .weights_on_edge iedge j
        let v ← rd1 (.test .input_edge) iedge2
        pure (accum + w * v)
      wr1 (.test .recon_field) iedge accum
      let g ← rd1 (.test .recon_field) iedge
      let e ← rd1 (.test .exact_recon_field) iedge
      wr1 (.test .exact_recon_field) iedge (e - g)
      let e ← rd1 (.test .exact_recon_field) iedge
      wr1 (.test .exact_recon_field) iedge (absS e)) m2 m3 ∧ Agree isTest m3 m2 ∧
      ∀ e, 0 ≤ e → e < d.nedges → m3.real (.test .exact_recon_field) 0 e 0 =
        absS (m2.real (.test .exact_recon_field) 0 e 0 - V e) := by
    refine ⟨_, par1x_runs (A := pair .recon_field .exact_recon_field) hext
      (fun x _ i _ o => if x = .test .recon_field then V i else absS (o - V i)) ?_,
      (Agree.refl _ m2).upd _ fun x _ _ _ h => ?_, ?_⟩
    · intro i i0 i1 M perm hM h1 h2 h3
      have hp : Perm1 (pair .recon_field .exact_recon_field) perm i := ⟨h1, h2, h3⟩
      have hn := hc2.neoe i i0 i1
      have pa := hp.rw (.test .recon_field) rfl
      have pb := hp.rw (.test .exact_recon_field) rfl
      qd
      refine wp_bind (wp_forI_read hn.1 (fun j s => s + m2.real .weights_on_edge 0 i j *
        m2.real (.test .input_edge) 0 (m2.int .edges_on_edge i j) 0) ?_ ?_)
      · intro j s h0 h1
        have he := hc2.eoe i i0 i1 j h0 h1
        qd; qd; qd; qd
      refine wp_bind (wp_wr1 (by ib) pa (wp_bind (wp_rd1 (by ib) (by simp [pa])
        (wp_bind (wp_rd1 (by ib) (by simp [pb]) (wp_bind (wp_wr1 (by ib) pb
        (wp_bind (wp_rd1 (by ib) (by simp [pb]) (wp_wr1 (by ib) pb ⟨rfl, ?_, ?_⟩))))))))))
      · intro x hx
        simp only [setR_setR, setR_same]
        rcases pair_eq hx with rfl | rfl
        · rw [setR_other _ (by simp), setR_same, if_pos rfl]
        · rw [setR_same, if_neg (by simp), setR_other _ (by simp)]
      · intro x l' i' k' hn
        simp only [Mem.setR]
        rw [if_neg, if_neg, if_neg]
        all_goals rintro ⟨rfl, e⟩; exact hn (by simp [pair, among2]) e
    · rcases pair_eq h.1 with rfl | rfl <;> rfl
    · intro i i0 i1
      rw [Mem.upd_on (P := RegA d (pair .recon_field .exact_recon_field)) ⟨rfl, by ib⟩,
        if_neg (by simp)]
  refine ⟨m3, Runs.append r1 (Runs.cons r2 (Runs.single r3)), a3.trans a12, ?_⟩
  intro c c0 c1
  rw [v3 c c0 c1, w2 c c0 c1]
  simp only [V]
  rw [foldI_congr (fun j s j0 j1 => by
    have he := hc2.eoe c c0 c1 j j0 j1
    rw [v2 _ he.1 he.2])]
  simp only [reconD, testN, testT, a12.int, a12.real .weights_on_edge rfl,
    a1.real .angle_edge rfl, a1.real .x_edge rfl, a1.real .y_edge rfl]

/-! ### Maximum reductions -/

theorem wp_max {a : TestArr} {n : Int} (ha : a.ext d = (1, n, 1)) {i : Int} (i0 : 0 ≤ i) (i1 : i < n)
    (acc : R) : Wp d (fun _ => .ro) (max_body a i acc) m
      (fun r m' => r = maxS (m.real (.test a) 0 i 0) acc ∧ m' = m) :=
  wp_bind (wp_rd1 (by rw [RArr.InB, show (RArr.test a).ext d = (1, n, 1) from ha]
                      exact ⟨by simp, ⟨i0, i1⟩, by simp⟩) (by simp) (wp_pure' ⟨rfl, rfl⟩))

/-- `v` is the largest of `u` and the values `g` takes on the list -/
def Largest (g : Int → ℝ) (u : ℝ) (is : List Int) (v : ℝ) : Prop :=
  u ≤ v ∧ (∀ i ∈ is, g i ≤ v) ∧ (v = u ∨ ∃ i ∈ is, v = g i)

theorem largest_foldl (g : Int → ℝ) (u : ℝ) : ∀ (is js : List Int) (a : ℝ), Largest g u js a →
    Largest g u (js ++ is) (is.foldl (fun a i => maxS (g i) a) a)
  | [], js, a, h => by simpa using h
  | i :: is, js, a, h => by
    have := largest_foldl g u is (js ++ [i]) (maxS (g i) a) ?_
    · simpa using this
    · rw [maxS_real]
      obtain ⟨h1, h2, h3⟩ := h
      refine ⟨h1.trans (le_max_right _ _), ?_, ?_⟩
      · intro k hk
        rcases List.mem_append.1 hk with hk | hk
        · exact (h2 k hk).trans (le_max_right _ _)
        · rw [List.mem_singleton.1 hk]; exact le_max_left _ _
      · rcases max_choice (g i) a with h | h
        · exact .inr ⟨i, by simp, h⟩
        · rw [h]
          rcases h3 with h3 | ⟨k, hk, h3⟩
          · exact .inl h3
          · exact .inr ⟨k, by simp [hk], h3⟩

theorem evalWith_max {d : Dims} {m : Mem ℝ} {body : Int → ℝ → Prog ℝ ℝ} {g : Int → ℝ} {n : Int}
    (u : ℝ)
    (h : ∀ i a, 0 ≤ i → i < n → Wp d (fun _ => .ro) (body i a) m (fun r m' => r = maxS (g i) a ∧ m' = m)) :
    ∀ T : RTree, (∀ i ∈ T.idx, 0 ≤ i ∧ i < n) → ∃ v,
      T.evalWith d u (fun dest src => if Scalar.lt dest src then src else dest) body m = some v ∧
      Largest g u T.idx v := by
  intro T
  induction T with
  | leaf is =>
    intro hT
    refine ⟨_, leafEval_eq (f := fun i a => maxS (g i) a) h is hT u, ?_⟩
    simpa [RTree.idx] using largest_foldl g u is [] u ⟨le_rfl, by simp, .inl rfl⟩
  | node l r ihl ihr =>
    intro hT
    obtain ⟨x, hx, x1, x2, x3⟩ := ihl fun i hi => hT i (by simp [RTree.idx, hi])
    obtain ⟨y, hy, y1, y2, y3⟩ := ihr fun i hi => hT i (by simp [RTree.idx, hi])
    refine ⟨max x y, ?_, x1.trans (le_max_left _ _), ?_, ?_⟩
    · rw [RTree.evalWith, hx, hy]
      simp only [slt_real]
      by_cases hxy : x < y
      · simp [hxy, max_eq_right hxy.le]
      · simp [hxy, max_eq_left (not_lt.1 hxy)]
    · intro i hi
      rcases List.mem_append.1 hi with hi | hi
      · exact (x2 i hi).trans (le_max_left _ _)
      · exact (y2 i hi).trans (le_max_right _ _)
    · rcases max_choice x y with h | h <;> rw [h]
      · rcases x3 with h3 | ⟨k, hk, h3⟩
        · exact .inl h3
        · exact .inr ⟨k, by simp [RTree.idx, hk], h3⟩
      · rcases y3 with h3 | ⟨k, hk, h3⟩
        · exact .inl h3
        · exact .inr ⟨k, by simp [RTree.idx, hk], h3⟩

/-- In exact arithmetic a maximum reduction over at least one element, none of them below the identity
of the reducer, has one possible result: the largest element. -/
theorem reducesMax_real {d : Dims} {m : Mem ℝ} {body : Int → ℝ → Prog ℝ ℝ} {g : Int → ℝ} {n : Int}
    {u : ℝ} (hn : 0 < n) (hu : ∀ i, 0 ≤ i → i < n → u ≤ g i)
    (h : ∀ i a, 0 ≤ i → i < n → Wp d (fun _ => .ro) (body i a) m (fun r m' => r = maxS (g i) a ∧ m' = m))
    (v : ℝ) : ReducesMax d u n body m v ↔ IsGreatest (g '' Set.Ico 0 n) v := by
  have key : ∀ T : RTree, T.Covers n → ∀ w, Largest g u T.idx w → IsGreatest (g '' Set.Ico 0 n) w := by
    rintro T hT w ⟨h1, h2, h3⟩
    have hmem : ∀ i, i ∈ T.idx ↔ 0 ≤ i ∧ i < n := fun i =>
      ⟨hT.mem i, fun hi => hT.mem_iff.2 (List.mem_map.2 ⟨i.toNat, List.mem_range.2 (by omega),
        by simp; omega⟩)⟩
    have hub : w ∈ upperBounds (g '' Set.Ico 0 n) := by
      rintro _ ⟨i, hi, rfl⟩
      exact h2 i ((hmem i).2 hi)
    refine ⟨?_, hub⟩
    rcases h3 with h3 | ⟨k, hk, h3⟩
    · refine ⟨0, ⟨le_rfl, hn⟩, le_antisymm (h2 0 ((hmem 0).2 ⟨le_rfl, hn⟩)) ?_⟩
      rw [h3]; exact hu 0 le_rfl hn
    · exact ⟨k, (hmem k).1 hk, h3.symm⟩
  constructor
  · rintro ⟨T, hT, hv⟩
    obtain ⟨w, hw, hl⟩ := evalWith_max u h T hT.mem
    rw [hw] at hv
    rw [← Option.some.inj hv]
    exact key T hT w hl
  · intro hv
    have hT : (RTree.leaf ((List.range n.toNat).map Int.ofNat)).Covers n := List.Perm.refl _
    obtain ⟨w, hw, hl⟩ := evalWith_max u h _ hT.mem
    refine ⟨_, hT, ?_⟩
    rw [hw, (key _ hT w hl).unique hv]

@[simp] theorem absS_real (x : ℝ) : absS x = |x| := by
  simp only [absS, slt_real, lit_real, Int.cast_zero]
  by_cases h : x < 0
  · simp [h, abs_of_neg h]
  · simp [h, abs_of_nonneg (not_lt.1 h)]

end Refine
end Omega
