import Verif.Manifold.Mat
import Mathlib.Analysis.Calculus.Deriv.Basic
import Mathlib.Analysis.Calculus.Deriv.Add
import Mathlib.Analysis.Calculus.Deriv.Mul
import Mathlib.Analysis.Calculus.Deriv.Star
import Mathlib.Analysis.Complex.Basic
import Mathlib.Analysis.Complex.RealDeriv
import Mathlib.Data.Matrix.Diagonal
import Mathlib.LinearAlgebra.Matrix.ConjTranspose

/-!
# Derivatives of curves of matrices

`ED γ ξ t`: the curve of matrices `γ` has, entry by entry, the derivative `ξ` at `t`. Entries are real or complex.
-/

set_option linter.unusedSectionVars false
set_option linter.unusedVariables false

namespace Verif.Curve

open Matrix Verif.Mat

variable {𝕜 : Type*} [RCLike 𝕜]
variable {m n p q : Type*} [Fintype m] [Fintype n] [Fintype p] [Fintype q] [DecidableEq m] [DecidableEq n] [DecidableEq p] [DecidableEq q]

/-- Entrywise derivative of a curve of matrices. -/
def ED (γ : ℝ → Matrix m n 𝕜) (ξ : Matrix m n 𝕜) (t : ℝ) : Prop := ∀ i j, HasDerivAt (fun s => γ s i j) (ξ i j) t

theorem ED.const (A : Matrix m n 𝕜) (t : ℝ) : ED (fun _ => A) 0 t := fun _ _ => hasDerivAt_const _ _

theorem ED.add {γ δ : ℝ → Matrix m n 𝕜} {ξ η : Matrix m n 𝕜} {t : ℝ} (h : ED γ ξ t) (k : ED δ η t) : ED (fun s => γ s + δ s) (ξ + η) t := fun i j => (h i j).add (k i j)

theorem ED.sub {γ δ : ℝ → Matrix m n 𝕜} {ξ η : Matrix m n 𝕜} {t : ℝ} (h : ED γ ξ t) (k : ED δ η t) : ED (fun s => γ s - δ s) (ξ - η) t := fun i j => (h i j).sub (k i j)

theorem ED.smul {γ : ℝ → Matrix m n 𝕜} {ξ : Matrix m n 𝕜} {t : ℝ} (c : 𝕜) (h : ED γ ξ t) : ED (fun s => c • γ s) (c • ξ) t := fun i j => (h i j).const_mul c

theorem ED.transpose {γ : ℝ → Matrix m n 𝕜} {ξ : Matrix m n 𝕜} {t : ℝ} (h : ED γ ξ t) : ED (fun s => (γ s)ᵀ) ξᵀ t := fun i j => h j i

theorem ED.conjTranspose {γ : ℝ → Matrix m n 𝕜} {ξ : Matrix m n 𝕜} {t : ℝ} (h : ED γ ξ t) : ED (fun s => (γ s)ᴴ) ξᴴ t := fun i j => (h j i).star

theorem ED.mul {γ : ℝ → Matrix m n 𝕜} {δ : ℝ → Matrix n p 𝕜} {ξ : Matrix m n 𝕜} {η : Matrix n p 𝕜} {t : ℝ} (h : ED γ ξ t) (k : ED δ η t) :
    ED (fun s => γ s * δ s) (ξ * δ t + γ t * η) t := by
  intro i j
  simp only [Matrix.mul_apply, Matrix.add_apply, ← Finset.sum_add_distrib]
  exact HasDerivAt.fun_sum fun l _ => (h i l).mul (k l j)

theorem ED.const_mul {δ : ℝ → Matrix n p 𝕜} {η : Matrix n p 𝕜} {t : ℝ} (A : Matrix m n 𝕜) (k : ED δ η t) : ED (fun s => A * δ s) (A * η) t := by
  have := (ED.const A t).mul k
  rwa [Matrix.zero_mul, zero_add] at this

theorem ED.mul_const {γ : ℝ → Matrix m n 𝕜} {ξ : Matrix m n 𝕜} {t : ℝ} (h : ED γ ξ t) (A : Matrix n p 𝕜) : ED (fun s => γ s * A) (ξ * A) t := by
  have := h.mul (ED.const A t)
  rwa [Matrix.mul_zero, add_zero] at this

theorem ED.frob {γ δ : ℝ → Matrix m n ℝ} {ξ η : Matrix m n ℝ} {t : ℝ} (h : ED γ ξ t) (k : ED δ η t) :
    HasDerivAt (fun s => frob (γ s) (δ s)) (frob ξ (δ t) + frob (γ t) η) t := by
  unfold Verif.Mat.frob
  rw [← Finset.sum_add_distrib]
  refine HasDerivAt.fun_sum fun i _ => ?_
  rw [← Finset.sum_add_distrib]
  exact HasDerivAt.fun_sum fun j _ => (h i j).mul (k i j)

theorem ED.congr {γ : ℝ → Matrix m n 𝕜} {ξ ξ' : Matrix m n 𝕜} {t : ℝ} (h : ED γ ξ t) (e : ξ = ξ') : ED γ ξ' t := e ▸ h

theorem ED.unique {γ : ℝ → Matrix m n 𝕜} {ξ ξ' : Matrix m n 𝕜} {t : ℝ} (h : ED γ ξ t) (h' : ED γ ξ' t) : ξ = ξ' := by
  ext i j
  exact (h i j).unique (h' i j)

/-- Lines are curves. -/
theorem ED.line (x η : Matrix m n 𝕜) (t : ℝ) : ED (fun s => x + (s : 𝕜) • η) η t := by
  intro i j
  have h1 : HasDerivAt (fun s : ℝ => (s : 𝕜)) 1 t := by
    have := (RCLike.ofRealCLM (K := 𝕜)).hasDerivAt (x := t)
    simpa using this
  have := (h1.mul_const (η i j)).const_add (x i j)
  show HasDerivAt (fun s : ℝ => x i j + (s : 𝕜) * η i j) (η i j) t
  simpa only [one_mul] using this

/-- The real inner product of complex matrices, the sum over the stored numbers (`Element::DotProduct`). -/
noncomputable def rfrob (A B : Matrix m n ℂ) : ℝ := ∑ i, ∑ j, (star (A i j) * B i j).re

theorem ED.rfrob {γ δ : ℝ → Matrix m n ℂ} {ξ η : Matrix m n ℂ} {t : ℝ} (h : ED γ ξ t) (k : ED δ η t) :
    HasDerivAt (fun s => rfrob (γ s) (δ s)) (rfrob ξ (δ t) + rfrob (γ t) η) t := by
  unfold Verif.Curve.rfrob
  rw [← Finset.sum_add_distrib]
  refine HasDerivAt.fun_sum fun i _ => ?_
  rw [← Finset.sum_add_distrib]
  refine HasDerivAt.fun_sum fun j _ => ?_
  have := ((h i j).star.mul (k i j))
  rw [← Complex.add_re]
  exact (Complex.reCLM.hasFDerivAt.comp_hasDerivAt t this)

theorem rfrob_eq_trace (A B : Matrix m n ℂ) : rfrob A B = (trace (Aᴴ * B)).re := by
  simp only [rfrob, trace, diag_apply, mul_apply, conjTranspose_apply, Complex.re_sum]
  rw [Finset.sum_comm]

theorem rfrob_comm (A B : Matrix m n ℂ) : rfrob A B = rfrob B A := by
  unfold rfrob
  refine Finset.sum_congr rfl fun i _ => Finset.sum_congr rfl fun j _ => ?_
  simp only [Complex.star_def, Complex.mul_re, Complex.conj_re, Complex.conj_im]
  ring

theorem rfrob_mul_left (A : Matrix m n ℂ) (B : Matrix n p ℂ) (C : Matrix m p ℂ) : rfrob (A * B) C = rfrob B (Aᴴ * C) := by
  rw [rfrob_eq_trace, rfrob_eq_trace, conjTranspose_mul, Matrix.mul_assoc]

theorem rfrob_mul_right (A : Matrix m n ℂ) (B : Matrix n p ℂ) (C : Matrix m p ℂ) : rfrob (A * B) C = rfrob A (C * Bᴴ) := by
  rw [rfrob_eq_trace, rfrob_eq_trace, conjTranspose_mul, Matrix.mul_assoc, trace_mul_comm, Matrix.mul_assoc]

theorem rfrob_add_left (A B C : Matrix m n ℂ) : rfrob (A + B) C = rfrob A C + rfrob B C := by
  simp only [rfrob_eq_trace, conjTranspose_add, Matrix.add_mul, trace_add, Complex.add_re]

theorem rfrob_add_right (A B C : Matrix m n ℂ) : rfrob A (B + C) = rfrob A B + rfrob A C := by
  simp only [rfrob_eq_trace, Matrix.mul_add, trace_add, Complex.add_re]

theorem rfrob_smul_left (c : ℝ) (A B : Matrix m n ℂ) : rfrob ((c : ℂ) • A) B = c * rfrob A B := by
  simp [rfrob_eq_trace, conjTranspose_smul]

theorem rfrob_zero_left (A : Matrix m n ℂ) : rfrob 0 A = 0 := by simp [rfrob]

end Verif.Curve
