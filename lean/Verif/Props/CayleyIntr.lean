import Verif.Props.Intrinsic
import Verif.Props.StiefelDiff

/-!
# C186: the slope of the Wolfe conditions with the Cayley retraction and intrinsic vectors
-/

namespace Verif.Stiefel

open Matrix Verif.Mat Verif.Intr

section

variable {n p : Type*} [Fintype n] [DecidableEq n] [Fintype p] [DecidableEq p]

/-- The differentiated retraction is tangent at the retracted point. -/
theorem diffCayley_tangent {x η ξ : Matrix n p ℝ} (hx : xᵀ * x = 1) (hη : IsTangent x η) : IsTangent (cayleyRetraction x η) (diffCayley x η ξ) := by
  have hA : IsUnit (1 - (1 / 2 : ℝ) • cayW x η).det := isUnit_det_of_ne (skew_det_ne_zero (half_skew x η))
  have h := (C36_cayley_retraction hx hη).2.1
  rw [← cayW_eq] at h
  have hsk := cayW_skew x η
  rw [diffCayley_eq hx hη]
  set y := cayleyRetraction x η
  set W := cayW x η
  have hy : yᵀ = ((1 / 2 : ℝ) • (x + y))ᵀ * (1 - (1 / 2 : ℝ) • W) := by
    have e : y = (1 - (1 / 2 : ℝ) • W)ᵀ * ((1 / 2 : ℝ) • (x + y)) := by
      rw [transpose_sub, transpose_one, transpose_smul, hsk, Matrix.sub_mul, Matrix.one_mul, smul_neg, Matrix.neg_mul, Matrix.smul_mul, Matrix.mul_smul]
      have h' : W * (x + y) = (2 : ℝ) • (y - x) := by rw [h, smul_smul]; norm_num
      rw [h']
      module
    have e' := congrArg transpose e
    rwa [transpose_mul, transpose_transpose] at e'
  have hk : yᵀ * ((1 - (1 / 2 : ℝ) • W)⁻¹ * (y - x)) = (1 / 4 : ℝ) • ((x + y)ᵀ * (W * (x + y))) := by
    rw [hy, Matrix.mul_assoc, ← Matrix.mul_assoc (1 - (1 / 2 : ℝ) • W), mul_nonsing_inv _ hA, Matrix.one_mul, h, transpose_smul, Matrix.smul_mul, Matrix.mul_smul, smul_smul]
    norm_num
  unfold IsTangent
  rw [Matrix.mul_smul, hk, transpose_smul, transpose_smul, transpose_mul, transpose_mul, transpose_transpose, hsk, Matrix.mul_assoc, Matrix.neg_mul, Matrix.mul_neg, smul_neg, smul_neg]

end

/-- The slope `dh` computes with intrinsic vectors (SolversSMLS.cpp:471-479): the product of the coordinates of the gradient `g` at `y` with the result of `DiffCayleyRetraction`, whose coordinates are
taken with the factorisation `Qx Rx` of `x` (Stiefel.cpp:854-855). The scalar factor, applied to the coordinates in the code, is part of `diffCayley`. -/
noncomputable def intrSlope {n p : Nat} (Qx : Matrix (Fin n) (Fin n) ℝ) (Rx : Matrix (Fin n) (Fin p) ℝ) (Qy : Matrix (Fin n) (Fin n) ℝ) (Ry : Matrix (Fin n) (Fin p) ℝ)
    (x η ξ g : Matrix (Fin n) (Fin p) ℝ) : ℝ := dot (stiefelIntr Qy Ry g) (stiefelIntr Qx Rx (diffCayley x η ξ))

/-- **C186, part.** The slope would be the one with extrinsic vectors, the derivative of the objective along the retraction, if the coordinates were taken with a factorisation of the retracted point. -/
theorem C186_slope_partial {n p : Nat} (hp : p ≤ n) {x η : Matrix (Fin n) (Fin p) ℝ} (hx : xᵀ * x = 1) (hη : IsTangent x η) {Q : Matrix (Fin n) (Fin n) ℝ} {R : Matrix (Fin n) (Fin p) ℝ}
    (h : IsQR (cayleyRetraction x η) Q R) (ξ : Matrix (Fin n) (Fin p) ℝ) {g : Matrix (Fin n) (Fin p) ℝ} (hg : IsTangent (cayleyRetraction x η) g) :
    intrSlope Q R Q R x η ξ g = frob g (diffCayley x η ξ) :=
  C37_stiefel_isometry hp h (C36_cayley_retraction hx hη).1 hg (diffCayley_tangent hx hη)

/-- A point of the circle, a step to another one, that point, and the direction there. -/
noncomputable def cirX : Matrix (Fin 2) (Fin 1) ℝ := !![3 / 5; -4 / 5]
noncomputable def cirEta : Matrix (Fin 2) (Fin 1) ℝ := !![32 / 15; 8 / 5]
noncomputable def cirY : Matrix (Fin 2) (Fin 1) ℝ := !![3 / 5; 4 / 5]
noncomputable def cirG : Matrix (Fin 2) (Fin 1) ℝ := !![-4 / 5; 3 / 5]
/-- The Householder factors of `cirX` and `cirY`, with the signs `geqrf` chooses. -/
noncomputable def cirQx : Matrix (Fin 2) (Fin 2) ℝ := !![-3 / 5, 4 / 5; 4 / 5, 3 / 5]
noncomputable def cirQy : Matrix (Fin 2) (Fin 2) ℝ := !![-3 / 5, -4 / 5; -4 / 5, 3 / 5]
def cirR : Matrix (Fin 2) (Fin 1) ℝ := !![-1; 0]

theorem cir_xeta : cirXᵀ * cirEta = 0 := by
  ext i j; fin_cases i; fin_cases j
  simp [cirX, cirEta, Matrix.mul_apply, Fin.sum_univ_two]; norm_num

theorem cir_etaeta : cirEtaᵀ * cirEta = !![64 / 9] := by
  ext i j; fin_cases i; fin_cases j
  simp [cirEta, Matrix.mul_apply, Fin.sum_univ_two]; norm_num

theorem cir_mk2 : mk2 cirX cirEta = fromBlocks 0 1 !![-64 / 9] 0 := by
  unfold mk2
  rw [cir_xeta, cir_etaeta]
  ext i j
  rcases i with i | i <;> rcases j with j | j <;> fin_cases i <;> fin_cases j <;> simp
  norm_num

theorem cir_inv : (lup cirX cirEta)⁻¹ = fromBlocks !![9 / 25] !![9 / 50] !![-32 / 25] !![9 / 25] := by
  apply Matrix.inv_eq_right_inv
  unfold lup
  rw [cir_mk2]
  ext i j
  rcases i with i | i <;> rcases j with j | j <;> fin_cases i <;> fin_cases j <;> simp [Matrix.mul_apply, Matrix.sub_apply, Matrix.one_apply] <;> norm_num

theorem cir_mk3 : mk3 cirX cirEta = fromRows !![9 / 25] !![-32 / 25] := by
  unfold mk3
  rw [cir_inv, cir_xeta]
  ext i j
  rcases i with i | i <;> fin_cases i <;> fin_cases j <;> simp [Matrix.mul_apply]

theorem cir_y : cayleyRetraction cirX cirEta = cirY := by
  unfold cayleyRetraction cayU
  rw [cir_mk3, cir_xeta]
  ext i j
  fin_cases i <;> fin_cases j <;> simp [Matrix.mul_apply, cirX, cirEta, cirY] <;> norm_num

theorem cir_diff : diffCayley cirX cirEta cirEta = !![-96 / 125; 72 / 125] := by
  have h0 : frob cirEta cirEta / frob cirEta cirEta = 1 := div_self (by simp [frob, cirEta, Fin.sum_univ_two]; norm_num)
  unfold diffCayley cayU
  simp only
  rw [h0, cir_mk3, cir_xeta, cir_mk2, cir_inv, Real.sqrt_one, one_smul]
  ext i j
  fin_cases i <;> fin_cases j <;> simp [Matrix.mul_apply, cirX, cirEta] <;> norm_num

/-- **C186, negation.** On the circle: the objective increases along the retraction where the line search has arrived, and the slope the code computes there with intrinsic vectors is negative. -/
theorem C186_wrong_sign :
    cirXᵀ * cirX = 1 ∧ IsTangent cirX cirEta ∧ IsQR cirX cirQx cirR ∧ IsQR (cayleyRetraction cirX cirEta) cirQy cirR ∧ IsTangent (cayleyRetraction cirX cirEta) cirG ∧
    frob cirG (diffCayley cirX cirEta cirEta) = 24 / 25 ∧ intrSlope cirQx cirR cirQy cirR cirX cirEta cirEta cirG = -168 / 625 := by
  refine ⟨?_, ?_, ⟨?_, ?_, ?_⟩, ⟨?_, ?_, ?_⟩, ?_, ?_, ?_⟩
  · ext i j; fin_cases i; fin_cases j; simp [cirX, Matrix.mul_apply, Fin.sum_univ_two]; norm_num
  · unfold IsTangent; rw [cir_xeta]; simp
  · ext i j; fin_cases i <;> fin_cases j <;> simp [cirQx, Matrix.mul_apply, Fin.sum_univ_two] <;> norm_num
  · intro i j h; fin_cases i <;> fin_cases j <;> simp_all [cirR]
  · ext i j; fin_cases i <;> fin_cases j <;> simp [cirQx, cirR, cirX, Matrix.mul_apply, Fin.sum_univ_two] <;> norm_num
  · ext i j; fin_cases i <;> fin_cases j <;> simp [cirQy, Matrix.mul_apply, Fin.sum_univ_two] <;> norm_num
  · intro i j h; fin_cases i <;> fin_cases j <;> simp_all [cirR]
  · rw [cir_y]; ext i j; fin_cases i <;> fin_cases j <;> simp [cirQy, cirR, cirY, Matrix.mul_apply, Fin.sum_univ_two] <;> norm_num
  · rw [cir_y]; unfold IsTangent; ext i j; fin_cases i; fin_cases j; simp [cirY, cirG, Matrix.mul_apply, Fin.sum_univ_two]; norm_num
  · rw [cir_diff]; simp [frob, cirG, Fin.sum_univ_two]; norm_num
  · unfold intrSlope
    rw [cir_diff]
    simp [dot, stiefelIntr, skewIntr, pairs, rest, flat, scaleRows, rowSigns, cirQx, cirQy, cirG, Matrix.mul_apply, Fin.sum_univ_two, List.range_succ]
    norm_num

/-- With the factorisation of the retracted point the slope in this case is right. -/
example : intrSlope cirQy cirR cirQy cirR cirX cirEta cirEta cirG = 24 / 25 := by
  obtain ⟨hx, hη, -, h, hg, e, -⟩ := C186_wrong_sign
  rw [C186_slope_partial (by norm_num) hx hη h cirEta hg, e]

end Verif.Stiefel
