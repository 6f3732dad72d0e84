import Verif.Manifold.Mat
import Mathlib.Analysis.RCLike.Basic
import Mathlib.LinearAlgebra.Matrix.ConjTranspose
import Mathlib.LinearAlgebra.Matrix.NonsingularInverse
import Mathlib.Data.Matrix.Diagonal

/-!
# Real inner product of real or complex matrices

`ip A B = Re tr(Aᴴ B)`: `Element::DotProduct` of real matrices, and of complex matrices (the buffer of real and imaginary parts).
-/

set_option linter.unusedSectionVars false

namespace Verif.CMat

open Matrix

variable {𝕜 : Type*} [RCLike 𝕜]
variable {m n p : Type*} [Fintype m] [Fintype n] [Fintype p] [DecidableEq m] [DecidableEq n] [DecidableEq p]

/-- `Element::DotProduct`, Element.cpp (`dot_` on the whole buffer): the sum over the entries of the products of the real parts plus the products of the imaginary parts. -/
noncomputable def ip (A B : Matrix m n 𝕜) : ℝ := ∑ i, ∑ j, (RCLike.re (A i j) * RCLike.re (B i j) + RCLike.im (A i j) * RCLike.im (B i j))

theorem ip_eq_trace (A B : Matrix m n 𝕜) : ip A B = RCLike.re (trace (Aᴴ * B)) := by
  simp only [ip, trace, Matrix.diag_apply, Matrix.mul_apply, conjTranspose_apply, map_sum]
  rw [Finset.sum_comm]
  refine Finset.sum_congr rfl fun i _ => Finset.sum_congr rfl fun j _ => ?_
  simp only [RCLike.star_def, RCLike.mul_re, RCLike.conj_re, RCLike.conj_im]
  ring

theorem ip_real (A B : Matrix m n ℝ) : ip A B = Verif.Mat.frob A B := by
  simp [ip, Verif.Mat.frob]

theorem ip_comm (A B : Matrix m n 𝕜) : ip A B = ip B A := by
  simp only [ip]
  exact Finset.sum_congr rfl fun i _ => Finset.sum_congr rfl fun j _ => by ring

theorem ip_conjTranspose (A B : Matrix m n 𝕜) : ip Aᴴ Bᴴ = ip A B := by
  simp only [ip, conjTranspose_apply, RCLike.star_def, RCLike.conj_re, RCLike.conj_im]
  rw [Finset.sum_comm]
  exact Finset.sum_congr rfl fun i _ => Finset.sum_congr rfl fun j _ => by ring

theorem ip_mul_left (A : Matrix n m 𝕜) (B : Matrix m p 𝕜) (C : Matrix n p 𝕜) : ip (A * B) C = ip B (Aᴴ * C) := by
  simp only [ip_eq_trace, conjTranspose_mul, Matrix.mul_assoc]

theorem ip_mul_left' (A : Matrix n m 𝕜) (B : Matrix m p 𝕜) (C : Matrix n p 𝕜) : ip C (A * B) = ip (Aᴴ * C) B := by
  rw [ip_comm, ip_mul_left, ip_comm]

theorem ip_mul_right (A : Matrix n m 𝕜) (B : Matrix m p 𝕜) (C : Matrix n p 𝕜) : ip (A * B) C = ip A (C * Bᴴ) := by
  rw [ip_eq_trace, ip_eq_trace, conjTranspose_mul, Matrix.mul_assoc, trace_mul_comm, Matrix.mul_assoc]

theorem ip_mul_right' (A : Matrix n m 𝕜) (B : Matrix m p 𝕜) (C : Matrix n p 𝕜) : ip C (A * B) = ip (C * Bᴴ) A := by
  rw [ip_comm, ip_mul_right, ip_comm]

theorem ip_add_left (A B C : Matrix n p 𝕜) : ip (A + B) C = ip A C + ip B C := by
  simp only [ip_eq_trace, conjTranspose_add, Matrix.add_mul, trace_add, map_add]

theorem ip_add_right (A B C : Matrix n p 𝕜) : ip A (B + C) = ip A B + ip A C := by
  simp only [ip_eq_trace, Matrix.mul_add, trace_add, map_add]

theorem ip_sub_left (A B C : Matrix n p 𝕜) : ip (A - B) C = ip A C - ip B C := by
  simp only [ip_eq_trace, conjTranspose_sub, Matrix.sub_mul, trace_sub, map_sub]

theorem ip_sub_right (A B C : Matrix n p 𝕜) : ip A (B - C) = ip A B - ip A C := by
  simp only [ip_eq_trace, Matrix.mul_sub, trace_sub, map_sub]

theorem ip_neg_left (A C : Matrix n p 𝕜) : ip (-A) C = -ip A C := by
  simp only [ip_eq_trace, conjTranspose_neg, Matrix.neg_mul, trace_neg, map_neg]

@[simp] theorem ip_zero_left (A : Matrix n p 𝕜) : ip 0 A = 0 := by simp [ip]
@[simp] theorem ip_zero_right (A : Matrix n p 𝕜) : ip A 0 = 0 := by simp [ip]

theorem ip_smul_left (c : ℝ) (A B : Matrix n p 𝕜) : ip ((c : 𝕜) • A) B = c * ip A B := by
  simp only [ip, Matrix.smul_apply, smul_eq_mul, RCLike.re_ofReal_mul, RCLike.im_ofReal_mul, Finset.mul_sum]
  exact Finset.sum_congr rfl fun i _ => Finset.sum_congr rfl fun j _ => by ring

theorem ip_smul_right (c : ℝ) (A B : Matrix n p 𝕜) : ip A ((c : 𝕜) • B) = c * ip A B := by
  rw [ip_comm, ip_smul_left, ip_comm]

theorem ip_self_nonneg (A : Matrix n p 𝕜) : 0 ≤ ip A A :=
  Finset.sum_nonneg fun i _ => Finset.sum_nonneg fun j _ => add_nonneg (mul_self_nonneg _) (mul_self_nonneg _)

theorem ip_self_eq_zero {A : Matrix n p 𝕜} : ip A A = 0 ↔ A = 0 := by
  constructor
  · intro h
    ext i j
    have h1 := (Finset.sum_eq_zero_iff_of_nonneg fun i _ => Finset.sum_nonneg fun j _ => add_nonneg (mul_self_nonneg _) (mul_self_nonneg _)).mp h i (Finset.mem_univ i)
    have h2 := (Finset.sum_eq_zero_iff_of_nonneg fun j _ => add_nonneg (mul_self_nonneg _) (mul_self_nonneg _)).mp h1 j (Finset.mem_univ j)
    have a := mul_self_nonneg (RCLike.re (A i j)); have b := mul_self_nonneg (RCLike.im (A i j))
    apply RCLike.ext
    · simpa using mul_self_eq_zero.mp (le_antisymm (by linarith) a)
    · simpa using mul_self_eq_zero.mp (le_antisymm (by linarith) b)
  · rintro rfl; simp

/-- Equality from the inner products. -/
theorem ip_ext {A B : Matrix n p 𝕜} (h : ∀ C, ip A C = ip B C) : A = B := by
  have := h (A - B)
  rw [← sub_eq_zero, ← ip_sub_left, ip_self_eq_zero] at this
  exact sub_eq_zero.mp this

end Verif.CMat
