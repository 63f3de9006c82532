import Verif.Kokkos.Par

/-!
# Launches with an owner function

Every launch of the code writes a set `P` of locations, each location being written by exactly one
iteration `owner loc`.
-/

namespace Omega

open Prog

variable {R : Type}

/-- Replace the contents of `m` by those of `T` at the locations in `P`. -/
def Mem.patch (m : Mem R) (P : Loc → Bool) (T : Mem R) : Mem R where
  int a i j := if P (.int a i j) then T.int a i j else m.int a i j
  real a l i k := if P (.real a l i k) then T.real a l i k else m.real a l i k

theorem Mem.patch_at (m : Mem R) (P : Loc → Bool) (T : Mem R) {x : Loc} (h : P x = true) :
    (m.patch P T).EqAt T x := by
  cases x <;> simp [Mem.EqAt, Mem.patch, h]

theorem Mem.patch_off (m : Mem R) (P : Loc → Bool) (T : Mem R) {x : Loc} (h : P x = false) :
    (m.patch P T).EqAt m x := by
  cases x <;> simp [Mem.EqAt, Mem.patch, h]

@[simp] theorem Mem.patch_int (m : Mem R) (P : Loc → Bool) (T : Mem R) (a : IArr) (i j : Int) :
    (m.patch P T).int a i j = if P (.int a i j) then T.int a i j else m.int a i j := rfl
@[simp] theorem Mem.patch_real (m : Mem R) (P : Loc → Bool) (T : Mem R) (a : RArr) (l i k : Int) :
    (m.patch P T).real a l i k = if P (.real a l i k) then T.real a l i k else m.real a l i k := rfl

theorem Mem.patch_congr {m : Mem R} {P P' : Loc → Bool} {T : Mem R} (h : ∀ x, P x = P' x) :
    m.patch P T = m.patch P' T := by
  rw [show P = P' from funext h]

/-- Permissions of iteration `x` in a launch writing `P` with owner function `owner`. -/
def ownPerm (P : Loc → Bool) (owner : Loc → Idx) (x : Idx) (loc : Loc) : Perm :=
  if P loc then (if owner loc = x then .rw else .none) else .ro

/-- If each location of `P` is owned by one iteration and every iteration alone stores `T` at
exactly its own locations (touching only them and locations outside `P`), then the launch is
safe and stores `T` at `P` under every interleaving. -/
theorem Cmd.runs_patch {d : Dims} {c : Cmd R} {m : Mem R} (P : Loc → Bool) (owner : Loc → Idx)
    (T : Mem R) (hdom : ∀ loc, P loc = true → c.Dom (owner loc))
    (hsolo : ∀ x, c.Dom x → run d (ownPerm P owner x) (c.body x) m =
      some ((), m.patch (fun loc => P loc && decide (owner loc = x)) T)) :
    c.Runs d m (m.patch P T) := by
  have hperm : ∀ x, permOf (fun x loc => P loc && decide (owner loc = x)) (fun loc => !P loc) x =
      ownPerm P owner x := by
    intro x; funext loc
    simp only [permOf, ownPerm]
    by_cases h : P loc = true <;> simp [h]
  refine Cmd.runs_of_solo (fun x loc => P loc && decide (owner loc = x)) (fun loc => !P loc)
    ?_ ?_ (fun x => m.patch (fun loc => P loc && decide (owner loc = x)) T) ?_ ?_ ?_
  · intro x y loc _ _ hne h
    simp only [Bool.and_eq_true, decide_eq_true_eq] at h
    simp only [Bool.and_eq_false_iff, decide_eq_false_iff_not]
    right; rintro rfl; exact hne h.2.symm
  · intro x loc _ h
    simp only [Bool.and_eq_true, decide_eq_true_eq] at h
    simp [h.1]
  · intro x hx; rw [hperm]; exact hsolo x hx
  · intro x loc _ h
    have h' := h
    simp only [Bool.and_eq_true, decide_eq_true_eq] at h'
    exact (Mem.patch_at m P T h'.1).trans (Mem.patch_at m _ T h).symm
  · intro loc h
    cases hP : P loc with
    | false => exact Mem.patch_off m P T hP
    | true =>
      have := h (owner loc) (hdom loc hP)
      simp [hP] at this

/-- Solo obligations from weakest preconditions. -/
theorem run_of_wp {d : Dims} {perm : Loc → Perm} {p : Prog R Unit} {m m' : Mem R}
    (h : Wp d perm p m (fun _ m'' => m'' = m')) : run d perm p m = some ((), m') := by
  obtain ⟨a, m'', h1, rfl⟩ := h
  exact h1

/-! ### Building up the final contents write by write -/

section Build

variable {d : Dims} {perm : Loc → Perm} {own : Loc → Prop} {T m M : Mem R} {W : Loc → Prop}

open Classical in
/-- The memory during an iteration owning `own`: the locations `W` have received their final
contents `T`, the rest is still `m`. -/
def PInv (own : Loc → Prop) (T m : Mem R) (W : Loc → Prop) (M : Mem R) : Prop :=
  M = m.patch (fun l => decide (W l)) T ∧ ∀ l, W l → own l

/-- add a location -/
def Ins (x : Loc) (W : Loc → Prop) : Loc → Prop := fun l => l = x ∨ W l

theorem PInv.start : PInv own T m (fun _ => False) m :=
  ⟨by simp [Mem.patch], fun _ h => h.elim⟩

open Classical in
theorem PInv.setI (hI : PInv own T m W M) {a : IArr} {i j v : Int} (ho : own (.int a i j))
    (hv : T.int a i j = v) : PInv own T m (Ins (.int a i j) W) (M.setI a i j v) := by
  refine ⟨?_, ?_⟩
  · obtain ⟨rfl, -⟩ := hI
    apply Mem.ext'
    · funext b i' j'
      simp only [Mem.setI, Mem.patch_int, decide_eq_true_eq, Ins, Loc.int.injEq]
      by_cases h : b = a ∧ i' = i ∧ j' = j
      · obtain ⟨rfl, rfl, rfl⟩ := h; simp [hv]
      · simp [h]
    · funext b l' i' k'
      simp [Mem.setI, Ins]
  · rintro l (rfl | h)
    · exact ho
    · exact hI.2 l h

open Classical in
theorem PInv.setR (hI : PInv own T m W M) {a : RArr} {l i k : Int} {v : R}
    (ho : own (.real a l i k)) (hv : T.real a l i k = v) :
    PInv own T m (Ins (.real a l i k) W) (M.setR a l i k v) := by
  refine ⟨?_, ?_⟩
  · obtain ⟨rfl, -⟩ := hI
    apply Mem.ext'
    · funext b i' j'
      simp [Mem.setR, Ins]
    · funext b l' i' k'
      simp only [Mem.setR, Mem.patch_real, decide_eq_true_eq, Ins, Loc.real.injEq]
      by_cases h : b = a ∧ l' = l ∧ i' = i ∧ k' = k
      · obtain ⟨rfl, rfl, rfl, rfl⟩ := h; simp [hv]
      · simp [h]
  · rintro l (rfl | h)
    · exact ho
    · exact hI.2 l h

open Classical in
theorem PInv.int_on (hI : PInv own T m W M) {a : IArr} {i j : Int} (hw : W (.int a i j)) :
    M.int a i j = T.int a i j := by rw [hI.1]; simp [hw]
open Classical in
theorem PInv.real_on (hI : PInv own T m W M) {a : RArr} {l i k : Int} (hw : W (.real a l i k)) :
    M.real a l i k = T.real a l i k := by rw [hI.1]; simp [hw]
open Classical in
theorem PInv.int_off (hI : PInv own T m W M) {a : IArr} {i j : Int} (hw : ¬ W (.int a i j)) :
    M.int a i j = m.int a i j := by rw [hI.1]; simp [hw]
open Classical in
theorem PInv.real_off (hI : PInv own T m W M) {a : RArr} {l i k : Int} (hw : ¬ W (.real a l i k)) :
    M.real a l i k = m.real a l i k := by rw [hI.1]; simp [hw]

variable (hperm : ∀ l, own l → perm l = .rw)
include hperm

theorem wp_pwrI1 (hI : PInv own T m W M) {a : IArr} {i v : Int} (hb : a.InB d i 0)
    (ho : own (.int a i 0)) (hv : T.int a i 0 = v) :
    Wp d perm (wrI1 a i v) M (fun _ M' => PInv own T m (Ins (.int a i 0) W) M') :=
  wp_wrI1 hb (hperm _ ho) (hI.setI ho hv)
theorem wp_pwrI2 (hI : PInv own T m W M) {a : IArr} {i j v : Int} (hb : a.InB d i j)
    (ho : own (.int a i j)) (hv : T.int a i j = v) :
    Wp d perm (wrI2 a i j v) M (fun _ M' => PInv own T m (Ins (.int a i j) W) M') :=
  wp_wrI2 hb (hperm _ ho) (hI.setI ho hv)
theorem wp_pwr1 (hI : PInv own T m W M) {a : RArr} {i : Int} {v : R} (hb : a.InB d 0 i 0)
    (ho : own (.real a 0 i 0)) (hv : T.real a 0 i 0 = v) :
    Wp d perm (wr1 a i v) M (fun _ M' => PInv own T m (Ins (.real a 0 i 0) W) M') :=
  wp_wr1 hb (hperm _ ho) (hI.setR ho hv)
theorem wp_pwr2 (hI : PInv own T m W M) {a : RArr} {i k : Int} {v : R} (hb : a.InB d 0 i k)
    (ho : own (.real a 0 i k)) (hv : T.real a 0 i k = v) :
    Wp d perm (wr2 a i k v) M (fun _ M' => PInv own T m (Ins (.real a 0 i k) W) M') :=
  wp_wr2 hb (hperm _ ho) (hI.setR ho hv)
theorem wp_pwr3 (hI : PInv own T m W M) {a : RArr} {l i k : Int} {v : R} (hb : a.InB d l i k)
    (ho : own (.real a l i k)) (hv : T.real a l i k = v) :
    Wp d perm (wr3 a l i k v) M (fun _ M' => PInv own T m (Ins (.real a l i k) W) M') :=
  wp_wr3 hb (hperm _ ho) (hI.setR ho hv)

end Build

open Classical in
/-- `Cmd.runs_patch` with the solo obligation in terms of `PInv`. -/
theorem Cmd.runs_pinv {d : Dims} {c : Cmd R} {m : Mem R} (P : Loc → Bool) (owner : Loc → Idx)
    (T : Mem R) (hdom : ∀ loc, P loc = true → c.Dom (owner loc))
    (hsolo : ∀ x, c.Dom x → Wp d (ownPerm P owner x) (c.body x) m fun _ M =>
      ∃ W, PInv (fun l => P l = true ∧ owner l = x) T m W M ∧
        ∀ l, P l = true → owner l = x → W l) :
    c.Runs d m (m.patch P T) := by
  refine Cmd.runs_patch P owner T hdom fun x hx => run_of_wp (wp_mono (hsolo x hx) ?_)
  rintro - M ⟨W, hI, hW⟩
  rw [hI.1]
  apply Mem.patch_congr
  intro l
  by_cases h : W l
  · rw [decide_eq_true h]
    have := hI.2 l h
    simp [this.1, this.2]
  · rw [decide_eq_false h]
    symm
    simp only [Bool.and_eq_false_iff, decide_eq_false_iff_not]
    by_cases hP : P l = true
    · right; exact fun e => h (hW l hP e)
    · left; simpa using hP

theorem ownPerm_own {P : Loc → Bool} {owner : Loc → Idx} {x : Idx} (l : Loc)
    (h : P l = true ∧ owner l = x) : ownPerm P owner x l = .rw := by
  simp [ownPerm, h.1, h.2]

theorem ownPerm_own_ne {P : Loc → Bool} {owner : Loc → Idx} {x : Idx} {l : Loc}
    (h : P l = true ∧ owner l = x) : ownPerm P owner x l ≠ .none := by
  rw [ownPerm_own l h]; simp

theorem ownPerm_off {P : Loc → Bool} {owner : Loc → Idx} {x : Idx} {l : Loc}
    (h : P l = false) : ownPerm P owner x l ≠ .none := by
  simp [ownPerm, h]

end Omega
