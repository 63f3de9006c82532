import Verif.Kokkos.Launch

/-!
# Launches whose iterations update disjoint regions of real views

`Op d m A own x p G`: iteration `x`, running program `p`, updates exactly its own part of the views
`A`, replacing each old value by `G` of it; `G` depends only on the contents `m` of the other views.
Such programs compose, and a launch of them is safe and applies `G` everywhere.
-/

namespace Omega

open Prog

variable {R : Type}

/-- A set of locations of real views. -/
abbrev Region := RArr → Int → Int → Int → Prop
/-- A location-wise replacement of values. -/
abbrev Effect (R : Type) := RArr → Int → Int → Int → R → R

open Classical in
/-- Apply `G` to the values in a region. -/
noncomputable def Mem.upd (M : Mem R) (P : Region) (G : Effect R) : Mem R where
  int := M.int
  real a l i k := if P a l i k then G a l i k (M.real a l i k) else M.real a l i k

@[simp] theorem Mem.upd_int (M : Mem R) (P : Region) (G : Effect R) : (M.upd P G).int = M.int := rfl

theorem Mem.upd_on {M : Mem R} {P : Region} {G : Effect R} {a : RArr} {l i k : Int}
    (h : P a l i k) : (M.upd P G).real a l i k = G a l i k (M.real a l i k) := by
  simp [Mem.upd, h]

theorem Mem.upd_off {M : Mem R} {P : Region} {G : Effect R} {a : RArr} {l i k : Int}
    (h : ¬ P a l i k) : (M.upd P G).real a l i k = M.real a l i k := by
  simp [Mem.upd, h]

theorem Mem.upd_congr {M : Mem R} {P P' : Region} {G G' : Effect R}
    (hP : ∀ a l i k, P a l i k ↔ P' a l i k)
    (hG : ∀ a l i k v, P a l i k → G a l i k v = G' a l i k v) : M.upd P G = M.upd P' G' := by
  refine Mem.ext' rfl ?_
  funext a l i k
  by_cases h : P a l i k
  · rw [Mem.upd_on h, Mem.upd_on ((hP a l i k).1 h), hG a l i k _ h]
  · rw [Mem.upd_off h, Mem.upd_off fun h' => h ((hP a l i k).2 h')]

theorem Mem.upd_upd (M : Mem R) (P : Region) (G G' : Effect R) :
    (M.upd P G).upd P G' = M.upd P (fun a l i k v => G' a l i k (G a l i k v)) := by
  refine Mem.ext' rfl ?_
  funext a l i k
  by_cases h : P a l i k
  · rw [Mem.upd_on h, Mem.upd_on h, Mem.upd_on h]
  · rw [Mem.upd_off h, Mem.upd_off h, Mem.upd_off h]

theorem Mem.upd_id (M : Mem R) (P : Region) : M.upd P (fun _ _ _ _ v => v) = M := by
  refine Mem.ext' rfl ?_
  funext a l i k
  by_cases h : P a l i k
  · rw [Mem.upd_on h]
  · rw [Mem.upd_off h]

theorem Mem.upd_none (M : Mem R) {P : Region} (G : Effect R) (h : ∀ a l i k, ¬ P a l i k) :
    M.upd P G = M := by
  refine Mem.ext' rfl ?_
  funext a l i k
  rw [Mem.upd_off (h a l i k)]

/-- Two memories hold the same contents off the views `A`. -/
structure Agree (A : RArr → Bool) (M m : Mem R) : Prop where
  int : M.int = m.int
  real : ∀ b, A b = false → M.real b = m.real b

theorem Agree.refl (A : RArr → Bool) (m : Mem R) : Agree A m m := ⟨rfl, fun _ _ => rfl⟩

theorem Agree.trans {A : RArr → Bool} {m1 m2 m3 : Mem R} (h : Agree A m1 m2) (h' : Agree A m2 m3) :
    Agree A m1 m3 := ⟨h.int.trans h'.int, fun b hb => (h.real b hb).trans (h'.real b hb)⟩

theorem Agree.symm {A : RArr → Bool} {m1 m2 : Mem R} (h : Agree A m1 m2) : Agree A m2 m1 :=
  ⟨h.int.symm, fun b hb => (h.real b hb).symm⟩

theorem Agree.upd {A : RArr → Bool} {M m : Mem R} (h : Agree A M m) {P : Region} (G : Effect R)
    (hP : ∀ a l i k, P a l i k → A a = true) : Agree A (M.upd P G) m where
  int := h.int
  real b hb := by
    rw [← h.real b hb]
    funext l i k
    rw [Mem.upd_off]
    intro h'
    rw [hP _ _ _ _ h'] at hb
    exact Bool.noConfusion hb

theorem Agree.mono {A B : RArr → Bool} {M m : Mem R} (h : Agree A M m)
    (hAB : ∀ a, A a = true → B a = true) : Agree B M m where
  int := h.int
  real b hb := h.real b (by
    cases hA : A b
    · rfl
    · rw [hAB b hA] at hb; exact hb)

/-- The part of the views `A` owned by iteration `x`. -/
def Reg (d : Dims) (A : RArr → Bool) (own : Int → Int → Int → Idx) (x : Idx) : Region :=
  fun a l i k => A a = true ∧ a.InB d l i k ∧ own l i k = x

/-- All of the views `A`. -/
def RegA (d : Dims) (A : RArr → Bool) : Region := fun a l i k => A a = true ∧ a.InB d l i k

/-- Permissions sufficient for iteration `x`. -/
structure Good (perm : Loc → Perm) (A : RArr → Bool) (P : Region) : Prop where
  int : ∀ a i j, perm (.int a i j) ≠ .none
  real : ∀ a, A a = false → ∀ l i k, perm (.real a l i k) ≠ .none
  own : ∀ a l i k, P a l i k → perm (.real a l i k) = .rw

/-- Iteration `x` running `p` applies `G` to its own part of the views `A`. -/
def Op (d : Dims) (m : Mem R) (A : RArr → Bool) (own : Int → Int → Int → Idx) (x : Idx)
    (p : Prog R Unit) (G : Effect R) : Prop :=
  ∀ M, Agree A M m → ∀ perm, Good perm A (Reg d A own x) →
    Wp d perm p M (fun _ M' => M' = M.upd (Reg d A own x) G)

section

variable {d : Dims} {m : Mem R} {A : RArr → Bool} {own : Int → Int → Int → Idx} {x : Idx}
  {p q : Prog R Unit} {G G' : Effect R}

theorem Op.of_agree {m' : Mem R} (h : Op d m A own x p G) (hm : Agree A m' m) :
    Op d m' A own x p G := fun M hM perm hp => h M (hM.trans hm) perm hp

theorem Op.seq (h : Op d m A own x p G) (h' : Op d m A own x q G') :
    Op d m A own x (p >>= fun _ => q) (fun a l i k v => G' a l i k (G a l i k v)) := by
  intro M hM perm hp
  refine wp_bind (wp_mono (h M hM perm hp) ?_)
  rintro - M1 rfl
  refine wp_mono (h' _ (hM.upd G fun _ _ _ _ h => h.1) perm hp) ?_
  rintro - M2 rfl
  exact Mem.upd_upd M _ G G'

theorem Op.skip : Op d m A own x (Pure.pure ()) (fun _ _ _ _ v => v) := by
  intro M hM perm hp
  exact wp_pure' (Mem.upd_id M _).symm

theorem Op.congr (h : Op d m A own x p G)
    (hG : ∀ a l i k v, Reg d A own x a l i k → G a l i k v = G' a l i k v) :
    Op d m A own x p G' := by
  intro M hM perm hp
  refine wp_mono (h M hM perm hp) ?_
  rintro - M' rfl
  exact Mem.upd_congr (fun _ _ _ _ => Iff.rfl) hG

open Classical in
/-- A launch of such iterations is safe and applies `G` to all of the views `A`, under every
interleaving. -/
theorem Cmd.runs_op {c : Cmd R} (own : Int → Int → Int → Idx)
    (hdom : ∀ a l i k, A a = true → a.InB d l i k → c.Dom (own l i k))
    (h : ∀ x, c.Dom x → Op d m A own x (c.body x) G) :
    c.Runs d m (m.upd (RegA d A) G) := by
  have key : m.upd (RegA d A) G = m.patch
      (fun loc => match loc with | .real a l i k => decide (RegA d A a l i k) | .int _ _ _ => false)
      (m.upd (RegA d A) G) := by
    apply Mem.ext'
    · funext a i j; simp [Mem.patch]
    · funext a l i k
      by_cases h : RegA d A a l i k
      · simp [Mem.patch, h]
      · simp [Mem.patch, h, Mem.upd_off h]
  rw [key]
  refine Cmd.runs_patch _ (fun loc => match loc with
    | .real _ l i k => own l i k | .int _ _ _ => (0, 0, 0)) _ ?_ ?_
  · rintro (⟨a, i, j⟩ | ⟨a, l, i, k⟩) hP
    · simp at hP
    · have hP' := of_decide_eq_true hP
      exact hdom a l i k hP'.1 hP'.2
  · intro x hx
    apply run_of_wp
    refine wp_mono (h x hx m (Agree.refl A m) _ ⟨?_, ?_, ?_⟩) ?_
    · intro a i j; simp [ownPerm]
    · intro a ha l i k
      apply ownPerm_off
      exact decide_eq_false (fun h => by rw [h.1] at ha; exact Bool.noConfusion ha)
    · rintro a l i k ⟨h1, h2, h3⟩
      exact ownPerm_own _ ⟨decide_eq_true ⟨h1, h2⟩, h3⟩
    · rintro - M' rfl
      apply Mem.ext'
      · funext a i j; simp [Mem.patch]
      · funext a l i k
        simp only [Mem.patch_real, Bool.and_eq_true, decide_eq_true_eq]
        by_cases h : Reg d A own x a l i k
        · rw [Mem.upd_on h, if_pos ⟨⟨h.1, h.2.1⟩, h.2.2⟩, Mem.upd_on (P := RegA d A) ⟨h.1, h.2.1⟩]
        · rw [Mem.upd_off h, if_neg]
          rintro ⟨⟨h1, h2⟩, h3⟩
          exact h ⟨h1, h2, h3⟩

end

/-! ### Reading views that the launch does not write -/

section Reads

variable {d : Dims} {m M : Mem R} {A : RArr → Bool} {P : Region} {perm : Loc → Perm}
  (hp : Good perm A P) (hM : Agree A M m)
include hp hM

theorem gp_rdI1 {a : IArr} {i : Int} {Q : Int → Mem R → Prop} (hb : a.InB d i 0)
    (h : Q (m.int a i 0) M) : Wp d perm (rdI1 a i) M Q :=
  wp_rdI1 hb (hp.int _ _ _) (by rw [hM.int]; exact h)
theorem gp_rdI2 {a : IArr} {i j : Int} {Q : Int → Mem R → Prop} (hb : a.InB d i j)
    (h : Q (m.int a i j) M) : Wp d perm (rdI2 a i j) M Q :=
  wp_rdI2 hb (hp.int _ _ _) (by rw [hM.int]; exact h)
theorem gp_rd1 {a : RArr} {i : Int} {Q : R → Mem R → Prop} (hA : A a = false) (hb : a.InB d 0 i 0)
    (h : Q (m.real a 0 i 0) M) : Wp d perm (rd1 a i) M Q :=
  wp_rd1 hb (hp.real _ hA _ _ _) (by rw [hM.real _ hA]; exact h)
theorem gp_rd2 {a : RArr} {i k : Int} {Q : R → Mem R → Prop} (hA : A a = false)
    (hb : a.InB d 0 i k) (h : Q (m.real a 0 i k) M) : Wp d perm (rd2 a i k) M Q :=
  wp_rd2 hb (hp.real _ hA _ _ _) (by rw [hM.real _ hA]; exact h)
theorem gp_rd3 {a : RArr} {l i k : Int} {Q : R → Mem R → Prop} (hA : A a = false)
    (hb : a.InB d l i k) (h : Q (m.real a l i k) M) : Wp d perm (rd3 a l i k) M Q :=
  wp_rd3 hb (hp.real _ hA _ _ _) (by rw [hM.real _ hA]; exact h)

end Reads

end Omega
