import Verif.Lib.Scalar
import Mathlib.Algebra.BigOperators.Intervals
import Mathlib.Algebra.BigOperators.Ring.Finset
import Mathlib.Tactic.Ring

/-!
# Counted loops as folds
-/

namespace Omega

/-- `for (Int j = j0; j < j0 + n; ++j) s = f(j, s)` as a pure fold. -/
def foldFrom {σ : Type} (f : Int → σ → σ) : Nat → Int → σ → σ
  | 0, _, s => s
  | n + 1, j, s => foldFrom f n (j + 1) (f j s)

/-- `for (Int j = 0; j < n; ++j) s = f(j, s)` as a pure fold (no iteration when `n ≤ 0`). -/
def foldI {σ : Type} (n : Int) (s : σ) (f : Int → σ → σ) : σ := foldFrom f n.toNat 0 s

theorem foldFrom_succ_last {σ : Type} (f : Int → σ → σ) (n : Nat) (j : Int) (s : σ) :
    foldFrom f (n + 1) j s = f (j + n) (foldFrom f n j s) := by
  induction n generalizing j s with
  | zero => simp [foldFrom]
  | succ n ih =>
    rw [foldFrom, ih (j + 1) (f j s)]
    simp only [foldFrom]
    congr 1
    push_cast; ring

theorem foldI_zero {σ : Type} (s : σ) (f : Int → σ → σ) : foldI 0 s f = s := rfl

theorem foldI_succ {σ : Type} (n : Int) (hn : 0 ≤ n) (s : σ) (f : Int → σ → σ) :
    foldI (n + 1) s f = f n (foldI n s f) := by
  unfold foldI
  have h : (n + 1).toNat = n.toNat + 1 := by omega
  rw [h, foldFrom_succ_last]
  congr 1
  omega

theorem foldI_nat_succ {σ : Type} (n : Nat) (s : σ) (f : Int → σ → σ) :
    foldI ((n : Int) + 1) s f = f n (foldI n s f) := foldI_succ _ (by omega) _ _

theorem foldI_congr {σ : Type} (n : Int) (s : σ) (f g : Int → σ → σ)
    (h : ∀ j, 0 ≤ j → j < n → ∀ a, f j a = g j a) : foldI n s f = foldI n s g := by
  rcases le_or_gt n 0 with hn | hn
  · have : n.toNat = 0 := by omega
    simp [foldI, this, foldFrom]
  · obtain ⟨k, rfl⟩ : ∃ k : Nat, n = k := ⟨n.toNat, by omega⟩
    clear hn
    induction k with
    | zero => rfl
    | succ k ih =>
      push_cast
      rw [foldI_nat_succ, foldI_nat_succ, ih (fun j h0 h1 => h j h0 (by push_cast; omega))]
      exact h k (by omega) (by push_cast; omega) _

/-- A fold over functions that acts pointwise is the pointwise fold. -/
theorem foldI_pointwise {κ σ : Type} (n : Int) (s : κ → σ) (f : Int → κ → σ → σ) (x : κ) :
    foldI n s (fun j a y => f j y (a y)) x = foldI n (s x) (fun j a => f j x a) := by
  unfold foldI
  generalize n.toNat = k
  generalize (0 : Int) = j
  induction k generalizing j s with
  | zero => rfl
  | succ k ih => simp only [foldFrom]; rw [ih]

/-- Accumulating additions in exact arithmetic is a sum. -/
theorem foldI_add (n : Nat) (s : ℝ) (g : Int → ℝ) :
    foldI (n : Int) s (fun j a => a + g j) = s + ∑ j ∈ Finset.range n, g j := by
  induction n with
  | zero => simp [foldI_zero]
  | succ n ih =>
    push_cast
    rw [foldI_nat_succ, ih, Finset.sum_range_succ]; ring

theorem foldI_sub (n : Nat) (s : ℝ) (g : Int → ℝ) :
    foldI (n : Int) s (fun j a => a - g j) = s - ∑ j ∈ Finset.range n, g j := by
  induction n with
  | zero => simp [foldI_zero]
  | succ n ih =>
    push_cast
    rw [foldI_nat_succ, ih, Finset.sum_range_succ]; ring

theorem foldI_sum (n : Int) (g : Int → ℝ) :
    foldI n (lit 0) (fun j a => a + g j) = ∑ j ∈ Finset.range n.toNat, g j := by
  have := foldI_add n.toNat (lit 0) g
  unfold foldI at this ⊢
  rw [Int.toNat_natCast] at this
  rw [this]; simp

theorem foldI_diff (n : Int) (g : Int → ℝ) :
    foldI n (lit 0) (fun j a => a - g j) = -∑ j ∈ Finset.range n.toNat, g j := by
  have := foldI_sub n.toNat (lit 0) g
  unfold foldI at this ⊢
  rw [Int.toNat_natCast] at this
  rw [this]; simp

end Omega
