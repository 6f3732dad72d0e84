import Mathlib.Data.Matrix.Basic
import Mathlib.Data.Matrix.Mul
import Mathlib.LinearAlgebra.Matrix.Trace
import Mathlib.LinearAlgebra.Matrix.Block
import Mathlib.LinearAlgebra.Matrix.NonsingularInverse
import Mathlib.LinearAlgebra.Matrix.SchurComplement
import Mathlib.LinearAlgebra.Matrix.ToLinearEquiv
import Mathlib.Data.Real.Basic
import Mathlib.LinearAlgebra.Matrix.DotProduct
import Mathlib.Algebra.Order.BigOperators.Ring.Finset
import Mathlib.Tactic.Ring
import Mathlib.Tactic.Linarith
import Mathlib.Tactic.Module
import Mathlib.Tactic.NoncommRing

/-!
# Frobenius inner product of real matrices

Helper lemmas for the matrix manifolds. Matrices are indexed by arbitrary finite types; column-major storage is the subject of `Verif.Elem.Layout`.
-/

set_option linter.unusedSectionVars false
set_option linter.unusedVariables false

namespace Verif.Mat

open Matrix

variable {m n p q : Type*} [Fintype m] [Fintype n] [Fintype p] [Fintype q] [DecidableEq m] [DecidableEq n] [DecidableEq p] [DecidableEq q]

/-- Frobenius inner product: `Element::DotProduct` of two real matrices of one shape. -/
def frob (A B : Matrix n p ℝ) : ℝ := ∑ i, ∑ j, A i j * B i j

theorem frob_eq_trace (A B : Matrix n p ℝ) : frob A B = trace (Aᵀ * B) := by
  simp only [frob, trace, diag, mul_apply, transpose_apply]
  rw [Finset.sum_comm]

theorem frob_comm (A B : Matrix n p ℝ) : frob A B = frob B A := by
  simp only [frob, mul_comm]

theorem frob_transpose (A B : Matrix n p ℝ) : frob Aᵀ Bᵀ = frob A B := by
  simp only [frob, transpose_apply]; rw [Finset.sum_comm]

theorem frob_mul_left (A : Matrix n m ℝ) (B : Matrix m p ℝ) (C : Matrix n p ℝ) : frob (A * B) C = frob B (Aᵀ * C) := by
  simp only [frob_eq_trace, transpose_mul, Matrix.mul_assoc]

theorem frob_mul_left' (A : Matrix n m ℝ) (B : Matrix m p ℝ) (C : Matrix n p ℝ) : frob C (A * B) = frob (Aᵀ * C) B := by
  rw [frob_comm, frob_mul_left, frob_comm]

theorem frob_mul_right (A : Matrix n m ℝ) (B : Matrix m p ℝ) (C : Matrix n p ℝ) : frob (A * B) C = frob A (C * Bᵀ) := by
  rw [frob_eq_trace, frob_eq_trace, transpose_mul, Matrix.mul_assoc, trace_mul_comm, Matrix.mul_assoc]

theorem frob_mul_right' (A : Matrix n m ℝ) (B : Matrix m p ℝ) (C : Matrix n p ℝ) : frob C (A * B) = frob (C * Bᵀ) A := by
  rw [frob_comm, frob_mul_right, frob_comm]

theorem frob_add_left (A B C : Matrix n p ℝ) : frob (A + B) C = frob A C + frob B C := by
  simp only [frob, Matrix.add_apply, add_mul, Finset.sum_add_distrib]

theorem frob_add_right (A B C : Matrix n p ℝ) : frob A (B + C) = frob A B + frob A C := by
  rw [frob_comm, frob_add_left, frob_comm B, frob_comm C]

theorem frob_smul_left (c : ℝ) (A B : Matrix n p ℝ) : frob (c • A) B = c * frob A B := by
  simp only [frob, Matrix.smul_apply, smul_eq_mul, mul_assoc, Finset.mul_sum]

theorem frob_smul_right (c : ℝ) (A B : Matrix n p ℝ) : frob A (c • B) = c * frob A B := by
  rw [frob_comm, frob_smul_left, frob_comm]

theorem frob_neg_left (A B : Matrix n p ℝ) : frob (-A) B = -frob A B := by
  simp only [frob, Matrix.neg_apply, neg_mul, Finset.sum_neg_distrib]

theorem frob_neg_right (A B : Matrix n p ℝ) : frob A (-B) = -frob A B := by
  rw [frob_comm, frob_neg_left, frob_comm]

theorem frob_sub_left (A B C : Matrix n p ℝ) : frob (A - B) C = frob A C - frob B C := by
  rw [sub_eq_add_neg, frob_add_left, frob_neg_left, sub_eq_add_neg]

theorem frob_sub_right (A B C : Matrix n p ℝ) : frob A (B - C) = frob A B - frob A C := by
  rw [sub_eq_add_neg, frob_add_right, frob_neg_right, sub_eq_add_neg]

@[simp] theorem frob_zero_left (A : Matrix n p ℝ) : frob 0 A = 0 := by simp [frob]
@[simp] theorem frob_zero_right (A : Matrix n p ℝ) : frob A 0 = 0 := by simp [frob]

theorem frob_self_nonneg (A : Matrix n p ℝ) : 0 ≤ frob A A :=
  Finset.sum_nonneg fun i _ => Finset.sum_nonneg fun j _ => mul_self_nonneg _

theorem frob_self_eq_zero {A : Matrix n p ℝ} : frob A A = 0 ↔ A = 0 := by
  constructor
  · intro h
    ext i j
    have h1 := (Finset.sum_eq_zero_iff_of_nonneg (fun i _ => Finset.sum_nonneg fun j _ => mul_self_nonneg (A i j))).mp h i (Finset.mem_univ i)
    have h2 := (Finset.sum_eq_zero_iff_of_nonneg (fun j _ => mul_self_nonneg (A i j))).mp h1 j (Finset.mem_univ j)
    exact mul_self_eq_zero.mp h2
  · rintro rfl; simp

/-- Symmetric and skew matrices are orthogonal. -/
theorem frob_sym_skew {S K : Matrix p p ℝ} (hS : Sᵀ = S) (hK : Kᵀ = -K) : frob S K = 0 := by
  have h := frob_transpose S K
  rw [hS, hK, frob_neg_right] at h
  linarith

theorem frob_skew_sym {S K : Matrix p p ℝ} (hS : Sᵀ = S) (hK : Kᵀ = -K) : frob K S = 0 := by rw [frob_comm]; exact frob_sym_skew hS hK

/-- Two matrices with equal inner products against everything are equal. -/
theorem frob_ext {A B : Matrix n p ℝ} (h : ∀ C, frob A C = frob B C) : A = B := by
  have : frob (A - B) (A - B) = 0 := by rw [frob_sub_left, h]; ring
  exact sub_eq_zero.mp (frob_self_eq_zero.mp this)

/-- `I - W` is invertible for skew `W`. -/
theorem skew_det_ne_zero {W : Matrix n n ℝ} (hW : Wᵀ = -W) : (1 - W).det ≠ 0 := by
  intro h
  obtain ⟨v, hv, h0⟩ := Matrix.exists_mulVec_eq_zero_iff.mpr h
  have h1 : v = W *ᵥ v := by
    rw [sub_mulVec, one_mulVec, sub_eq_zero] at h0; exact h0
  have h2 : v ⬝ᵥ (W *ᵥ v) = -(v ⬝ᵥ (W *ᵥ v)) := by
    calc v ⬝ᵥ (W *ᵥ v) = (v ᵥ* W) ⬝ᵥ v := dotProduct_mulVec _ _ _
      _ = (Wᵀ *ᵥ v) ⬝ᵥ v := by rw [mulVec_transpose]
      _ = -((W *ᵥ v) ⬝ᵥ v) := by rw [hW, neg_mulVec, neg_dotProduct]
      _ = -(v ⬝ᵥ (W *ᵥ v)) := by rw [dotProduct_comm]
  have h3 : v ⬝ᵥ v = 0 := by
    have : v ⬝ᵥ v = v ⬝ᵥ (W *ᵥ v) := by rw [← h1]
    linarith
  exact hv (dotProduct_self_eq_zero.mp h3)

theorem isUnit_det_of_ne {A : Matrix n n ℝ} (h : A.det ≠ 0) : IsUnit A.det := isUnit_iff_ne_zero.mpr h

/-- `1 + AᵀA` is invertible. -/
theorem one_add_gram_det_ne_zero (A : Matrix n p ℝ) : (1 + Aᵀ * A).det ≠ 0 := by
  intro h
  obtain ⟨v, hv, h0⟩ := Matrix.exists_mulVec_eq_zero_iff.mpr h
  have h1 : v ⬝ᵥ v + (A *ᵥ v) ⬝ᵥ (A *ᵥ v) = 0 := by
    have h2 : v ⬝ᵥ ((1 + Aᵀ * A) *ᵥ v) = 0 := by rw [h0, dotProduct_zero]
    rw [add_mulVec, one_mulVec, dotProduct_add, ← mulVec_mulVec] at h2
    rw [← h2, dotProduct_mulVec v Aᵀ, vecMul_transpose]
  have h3 : 0 ≤ (A *ᵥ v) ⬝ᵥ (A *ᵥ v) := Finset.sum_nonneg fun i _ => mul_self_nonneg _
  have h4 : 0 ≤ v ⬝ᵥ v := Finset.sum_nonneg fun i _ => mul_self_nonneg _
  exact hv (dotProduct_self_eq_zero.mp (by linarith))

end Verif.Mat
