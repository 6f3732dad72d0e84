import Verif.Problem.Curve
import Mathlib.LinearAlgebra.Matrix.NonsingularInverse
import Mathlib.Analysis.Calculus.Deriv.Inv
import Mathlib.Analysis.Calculus.Deriv.Mul

/-!
# The derivative of the inverse of a matrix curve
-/

set_option linter.unusedSectionVars false

namespace Verif.Curve

open Matrix

variable {𝕜 : Type*} [RCLike 𝕜] {r : Type*} [Fintype r] [DecidableEq r]

theorem det_differentiable {A : ℝ → Matrix r r 𝕜} {A' : Matrix r r 𝕜} {t : ℝ} (h : ED A A' t) : DifferentiableAt ℝ (fun s => (A s).det) t := by
  simp only [det_apply]
  refine DifferentiableAt.fun_sum fun σ _ => ?_
  refine DifferentiableAt.const_smul ?_ _
  exact DifferentiableAt.fun_finsetProd fun i _ => (h (σ i) i).differentiableAt

theorem ED.updateRow {A : ℝ → Matrix r r 𝕜} {A' : Matrix r r 𝕜} {t : ℝ} (h : ED A A' t) (j : r) (v : r → 𝕜) :
    ED (fun s => (A s).updateRow j v) (A'.updateRow j 0) t := by
  intro i k
  by_cases e : i = j
  · subst e; simpa using hasDerivAt_const t (v k)
  · simpa [Matrix.updateRow_apply, e] using h i k

/-- `(A⁻¹)' = -A⁻¹ A' A⁻¹`. -/
theorem ED.inv {A : ℝ → Matrix r r 𝕜} {A' : Matrix r r 𝕜} {t : ℝ} (h : ED A A' t) (hu : ∀ s, IsUnit (A s).det) :
    ED (fun s => (A s)⁻¹) (-((A t)⁻¹ * A' * (A t)⁻¹)) t := by
  have hd : ∀ i j, DifferentiableAt ℝ (fun s => (A s)⁻¹ i j) t := by
    intro i j
    have e : (fun s => (A s)⁻¹ i j) = fun s => ((A s).det)⁻¹ * ((A s).updateRow j (Pi.single i 1)).det := by
      funext s
      rw [inv_def, Matrix.smul_apply, adjugate_apply, smul_eq_mul, Ring.inverse_eq_inv']
    rw [e]
    exact ((det_differentiable h).inv (hu t).ne_zero).mul (det_differentiable (h.updateRow _ _))
  obtain ⟨K, hK⟩ : ∃ K, ED (fun s => (A s)⁻¹) K t := ⟨fun i j => deriv (fun s => (A s)⁻¹ i j) t, fun i j => (hd i j).hasDerivAt⟩
  have a := hK.mul h
  have b : ED (fun s => (A s)⁻¹ * A s) 0 t := by
    have : (fun s => (A s)⁻¹ * A s) = fun _ => 1 := funext fun s => nonsing_inv_mul _ (hu s)
    rw [this]; exact ED.const _ _
  have c := a.unique b
  refine hK.congr ?_
  have d := congrArg (· * (A t)⁻¹) (eq_neg_of_add_eq_zero_left c)
  simp only [Matrix.mul_assoc, mul_nonsing_inv _ (hu t), Matrix.mul_one, Matrix.neg_mul] at d
  rw [d, Matrix.mul_assoc]

end Verif.Curve
