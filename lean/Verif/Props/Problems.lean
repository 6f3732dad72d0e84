import Verif.Problem.Problems
import Verif.Props.Stiefel
import Mathlib.Analysis.Calculus.Deriv.MeanValue
import Mathlib.Analysis.Calculus.Deriv.Abs
import Mathlib.Analysis.Convex.Combination
import Mathlib.Analysis.Calculus.LocalExtr.Basic
import Mathlib.Tactic.FieldSimp

/-!
# Gradients and Hessians of the example problems (C52), convex hulls (C51), derivatives by differences (C74)
-/

set_option linter.unusedSectionVars false
set_option linter.unusedVariables false

namespace Verif.Problem

open Matrix Verif.Mat Verif.Curve

/-- Specification: a space of points with an inner product and a notion of the velocity of a curve. -/
structure Geo (X : Type*) where
  ip : X → X → ℝ
  HasD : (ℝ → X) → X → ℝ → Prop

variable {m n p q : Type*} [Fintype m] [Fintype n] [Fintype p] [Fintype q] [DecidableEq m] [DecidableEq n] [DecidableEq p] [DecidableEq q]

/-- Real matrices. -/
def matGeo (m n : Type*) [Fintype m] [Fintype n] : Geo (Matrix m n ℝ) := ⟨frob, fun γ ξ t => ∀ i j, HasDerivAt (fun s => γ s i j) (ξ i j) t⟩

/-- Complex matrices with the real inner product. -/
noncomputable def cmatGeo (m n : Type*) [Fintype m] [Fintype n] : Geo (Matrix m n ℂ) := ⟨fun A B => ∑ i, ∑ j, (star (A i j) * B i j).re, fun γ ξ t => ∀ i j, HasDerivAt (fun s => γ s i j) (ξ i j) t⟩

/-- Vectors. -/
def vecGeo (ι : Type*) [Fintype ι] : Geo (ι → ℝ) := ⟨fun a b => ∑ i, a i * b i, fun γ ξ t => ∀ i, HasDerivAt (fun s => γ s i) (ξ i) t⟩

/-- Pairs. -/
def prodGeo {X Y : Type*} (S : Geo X) (T : Geo Y) : Geo (X × Y) := ⟨fun a b => S.ip a.1 b.1 + T.ip a.2 b.2, fun γ ξ t => S.HasD (fun s => (γ s).1) ξ.1 t ∧ T.HasD (fun s => (γ s).2) ξ.2 t⟩

/-- Inner product spaces. -/
def innerGeo (E : Type*) [NormedAddCommGroup E] [InnerProductSpace ℝ E] : Geo E := ⟨fun a b => inner ℝ a b, fun γ ξ t => HasDerivAt γ ξ t⟩

/-- The coded Euclidean gradient is the gradient of the cost `φ`: along every differentiable curve the derivative of the cost is the inner product of the gradient and the velocity. Fields are those left by `f` at the same
point. -/
def GradOf {X F : Type*} (S : Geo X) (P : Prob X F) (φ : X → ℝ) : Prop :=
  ∀ γ ξ t, S.HasD γ ξ t → HasDerivAt (fun s => φ (γ s)) (S.ip (P.eucGrad (γ t) (P.f (γ t)).2) ξ) t

/-- The coded Euclidean gradient is the gradient of the coded cost. -/
def IsGrad {X F : Type*} (S : Geo X) (P : Prob X F) : Prop := GradOf S P fun x => (P.f x).1

/-- The coded action of the Euclidean Hessian is the derivative of the coded gradient along every differentiable curve. -/
def IsHess {X F : Type*} (S : Geo X) (P : Prob X F) : Prop :=
  ∀ γ ξ t, S.HasD γ ξ t → S.HasD (fun s => P.eucGrad (γ s) (P.f (γ s)).2) (P.eucHess (γ t) (P.f (γ t)).2 ξ) t

theorem colScale_eq {𝕜 : Type*} [CommRing 𝕜] (D : p → 𝕜) (M : Matrix n p 𝕜) : colScale D M = M * diagonal D := by
  ext i j; simp [colScale]

/-- **C52.** Brockett cost; the matrix must be symmetric for the gradient. -/
theorem C52_brockett {B : Matrix n n ℝ} (hB : Bᵀ = B) (D : p → ℝ) : IsGrad (matGeo n p) (stieBrockett B D) ∧ IsHess (matGeo n p) (stieBrockett B D) := by
  refine ⟨fun γ ξ t h => ?_, fun γ ξ t h => ?_⟩
  · have h : ED γ ξ t := h
    have := h.frob ((h.const_mul B).mul_const (diagonal D))
    simp only [stieBrockett, colScale_eq, matGeo]
    refine HasDerivAt.congr_deriv this (Eq.symm ?_)
    rw [frob_mul_right' (B * ξ), diagonal_transpose, frob_mul_left' B, hB, ← Matrix.mul_assoc, frob_comm ξ, frob_smul_left]
    ring
  · have h : ED γ ξ t := h
    have := ((h.const_mul B).mul_const (diagonal D)).smul (2 : ℝ)
    simp only [stieBrockett, colScale_eq, matGeo]
    rw [← Matrix.smul_mul] at this
    exact this

/-- **C52.** Quadratic cost. -/
theorem C52_quadratic {A : Matrix n n ℝ} (hA : Aᵀ = A) : IsGrad (matGeo n p) (eucQuadratic A) ∧ IsHess (matGeo n p) (eucQuadratic A) := by
  refine ⟨fun γ ξ t h => ?_, fun γ ξ t h => ?_⟩
  · have h : ED γ ξ t := h
    have := (h.frob (h.const_mul A)).const_mul (0.5 : ℝ)
    simp only [eucQuadratic, matGeo]
    refine HasDerivAt.congr_deriv this (Eq.symm ?_)
    rw [frob_mul_left' A ξ, hA, frob_comm ξ]
    ring
  · have h : ED γ ξ t := h
    exact h.const_mul A

/-- **C52.** Rayleigh quotient on the Grassmann manifold. -/
theorem C52_rayleigh {B : Matrix n n ℝ} (hB : Bᵀ = B) : IsGrad (matGeo n p) (grassRQ B) ∧ IsHess (matGeo n p) (grassRQ B) := by
  refine ⟨fun γ ξ t h => ?_, fun γ ξ t h => ?_⟩
  · have h : ED γ ξ t := h
    have := ((h.const_mul B).frob h).div_const (2 : ℝ)
    simp only [grassRQ, matGeo]
    refine HasDerivAt.congr_deriv this (Eq.symm ?_)
    rw [frob_mul_left B ξ, hB, frob_comm ξ]
    ring
  · have h : ED γ ξ t := h
    exact h.const_mul B

/-- A symmetric matrix is needed: for the cost `x ↦ xᵀ A x / 2` with a matrix that is not symmetric the coded gradient is wrong. -/
theorem C52_quadratic_needs_symmetric : ∃ A : Matrix (Fin 2) (Fin 2) ℝ, ¬ IsGrad (matGeo (Fin 2) (Fin 1)) (eucQuadratic A) := by
  refine ⟨!![0, 1; 0, 0], fun h => ?_⟩
  have h1 := h (fun s => !![1; 0] + s • !![0; 1]) !![0; 1] 0 (ED.line (𝕜 := ℝ) _ _ 0)
  have h2 : HasDerivAt (fun s : ℝ => ((eucQuadratic !![0, 1; 0, 0]).f (!![1; 0] + s • !![0; 1] : Matrix (Fin 2) (Fin 1) ℝ)).1) 0.5 0 := by
    have e : (fun s : ℝ => ((eucQuadratic !![0, 1; 0, 0]).f (!![1; 0] + s • !![0; 1] : Matrix (Fin 2) (Fin 1) ℝ)).1) = fun s => 0.5 * s := by
      funext s
      simp [eucQuadratic, frob, Fin.sum_univ_two]
    rw [e]
    simpa using (hasDerivAt_id (0 : ℝ)).const_mul (0.5 : ℝ)
  have h3 := h1.unique h2
  simp [eucQuadratic, frob, Fin.sum_univ_two, matGeo] at h3
  norm_num at h3

/-- **C52.** Sparse principal components: the gradient and the Hessian belong to the smooth part; the cost is the smooth part plus `λ` times the sum of the absolute values. -/
theorem C52_spca (B : Matrix m n ℝ) (lambda : ℝ) :
    (∀ x : Matrix n p ℝ, ((stieSPCA B lambda).f x).1 = -frob (B * x) (B * x) + lambda * ∑ i, ∑ j, |x i j|) ∧
      GradOf (matGeo n p) (stieSPCA B lambda) (fun x => -frob (B * x) (B * x)) ∧ IsHess (matGeo n p) (stieSPCA B lambda) := by
  refine ⟨fun x => ?_, fun γ ξ t h => ?_, fun γ ξ t h => ?_⟩
  · simp only [stieSPCA, Finset.mul_sum]
  · have h : ED γ ξ t := h
    have := ((h.const_mul B).frob (h.const_mul B)).neg
    simp only [stieSPCA, matGeo]
    refine HasDerivAt.congr_deriv this (Eq.symm ?_)
    rw [frob_smul_left, frob_mul_left Bᵀ, transpose_transpose, frob_comm (B * ξ)]
    ring
  · have h : ED γ ξ t := h
    exact ((h.const_mul B).const_mul Bᵀ).smul (-2 : ℝ)

/-- **C52.** Lyapunov equation. -/
theorem C52_lyapunov {A M : Matrix n n ℝ} (hA : Aᵀ = A) (hM : Mᵀ = M) (C : Matrix n q ℝ) :
    IsGrad (matGeo n p) (sfrqLyapunov A M C) ∧ IsHess (matGeo n p) (sfrqLyapunov A M C) := by
  refine ⟨fun γ ξ t h => ?_, fun γ ξ t h => ?_⟩
  · have h : ED γ ξ t := h
    have := ((h.transpose.mul (h.const_mul A)).frob (h.transpose.mul (h.const_mul M))).sub ((h.const_mul Cᵀ).frob (h.const_mul Cᵀ))
    simp only [sfrqLyapunov, matGeo]
    refine HasDerivAt.congr_deriv this (Eq.symm ?_)
    have sA : ((γ t)ᵀ * (A * γ t))ᵀ = (γ t)ᵀ * (A * γ t) := by rw [transpose_mul, transpose_mul, transpose_transpose, hA, Matrix.mul_assoc]
    have sM : ((γ t)ᵀ * (M * γ t))ᵀ = (γ t)ᵀ * (M * γ t) := by rw [transpose_mul, transpose_mul, transpose_transpose, hM, Matrix.mul_assoc]
    generalize hYA : (γ t)ᵀ * (A * γ t) = YA at *
    generalize hYM : (γ t)ᵀ * (M * γ t) = YM at *
    have g1 : ∀ (Z : Matrix n p ℝ) (Y : Matrix p p ℝ), Yᵀ = Y → frob (ξᵀ * Z) Y = frob (Z * Y) ξ := by
      intro Z Y hY
      rw [frob_mul_right, show Y * Zᵀ = (Z * Y)ᵀ by rw [transpose_mul, hY], frob_transpose, frob_comm]
    have g2 : ∀ (Z : Matrix n n ℝ) (Y : Matrix p p ℝ), Zᵀ = Z → frob ((γ t)ᵀ * (Z * ξ)) Y = frob (Z * γ t * Y) ξ := by
      intro Z Y hZ
      rw [frob_mul_left, transpose_transpose, frob_mul_left, hZ, ← Matrix.mul_assoc, frob_comm]
    have e1 : frob (ξᵀ * (A * γ t)) YM = frob (A * γ t * YM) ξ := g1 _ _ sM
    have e2 : frob ((γ t)ᵀ * (A * ξ)) YM = frob (A * γ t * YM) ξ := g2 _ _ hA
    have e3 : frob YA (ξᵀ * (M * γ t)) = frob (M * γ t * YA) ξ := by rw [frob_comm]; exact g1 _ _ sA
    have e4 : frob YA ((γ t)ᵀ * (M * ξ)) = frob (M * γ t * YA) ξ := by rw [frob_comm]; exact g2 _ _ hM
    have e5 : frob (Cᵀ * ξ) (Cᵀ * γ t) = frob (C * (Cᵀ * γ t)) ξ := by
      rw [frob_mul_left, transpose_transpose, frob_comm]
    simp only [frob_add_left, frob_add_right, frob_smul_left, e1, e2, e3, e4, e5, frob_comm (Cᵀ * γ t)]
    ring
  · have h : ED γ ξ t := h
    have hAY := h.const_mul A
    have hMY := h.const_mul M
    have hYA := h.transpose.mul hAY
    have hYM := h.transpose.mul hMY
    have hC := (h.const_mul Cᵀ).const_mul C
    have := ((hMY.mul hYA).smul (2 : ℝ)).add ((hC.smul (-2 : ℝ)).add ((hAY.mul hYM).smul (2 : ℝ)))
    simp only [sfrqLyapunov, matGeo]
    refine ED.congr this ?_
    have e1 : ((γ t)ᵀ * (M * ξ))ᵀ = ξᵀ * (M * γ t) := by rw [transpose_mul, transpose_mul, transpose_transpose, hM, Matrix.mul_assoc]
    have e2 : ((γ t)ᵀ * (A * ξ))ᵀ = ξᵀ * (A * γ t) := by rw [transpose_mul, transpose_mul, transpose_transpose, hA, Matrix.mul_assoc]
    rw [e1, e2]
    simp only [Matrix.mul_add, smul_add]
    abel

/-- **C52.** Sum of three Brockett costs on a product. -/
theorem C52_prod_brockett {B1 B2 : Matrix n n ℝ} {B3 : Matrix m m ℝ} (h1 : B1ᵀ = B1) (h2 : B2ᵀ = B2) (h3 : B3ᵀ = B3) (D1 D2 : p → ℝ) (D3 : q → ℝ) :
    IsGrad (prodGeo (matGeo n p) (prodGeo (matGeo n p) (matGeo m q))) (prodStieSumBrockett B1 B2 B3 D1 D2 D3) ∧
      IsHess (prodGeo (matGeo n p) (prodGeo (matGeo n p) (matGeo m q))) (prodStieSumBrockett B1 B2 B3 D1 D2 D3) := by
  refine ⟨fun γ ξ t h => ?_, fun γ ξ t h => ?_⟩
  · obtain ⟨a, b, c⟩ := h
    have := ((C52_brockett h1 D1).1 _ _ _ a).add ((C52_brockett h2 D2).1 _ _ _ b) |>.add ((C52_brockett h3 D3).1 _ _ _ c)
    exact HasDerivAt.congr_deriv this (add_assoc _ _ _)
  · obtain ⟨a, b, c⟩ := h
    exact ⟨(C52_brockett h1 D1).2 _ _ _ a, (C52_brockett h2 D2).2 _ _ _ b, (C52_brockett h3 D3).2 _ _ _ c⟩

theorem applyW_frob {W : Matrix (m × n) (m × n) ℝ} (hW : Wᵀ = W) (X Y : Matrix m n ℝ) : frob X (applyW W Y) = frob (applyW W X) Y := by
  have e : ∀ a b, W a b = W b a := fun a b => congrFun (congrFun hW b) a |>.symm ▸ rfl
  unfold frob applyW
  simp only [Finset.mul_sum, Finset.sum_mul]
  have l : ∑ i, ∑ j, ∑ k, ∑ l, X i j * (W (i, j) (k, l) * Y k l) = ∑ a : m × n, ∑ b : m × n, X a.1 a.2 * (W a b * Y b.1 b.2) := by simp only [Fintype.sum_prod_type]
  have r : ∑ i, ∑ j, ∑ k, ∑ l, W (i, j) (k, l) * X k l * Y i j = ∑ b : m × n, ∑ a : m × n, W b a * X a.1 a.2 * Y b.1 b.2 := by simp only [Fintype.sum_prod_type]
  rw [l, r, Finset.sum_comm]
  refine Finset.sum_congr rfl fun a _ => Finset.sum_congr rfl fun b _ => ?_
  rw [e a b]; ring

theorem applyW_ED (W : Matrix (m × n) (m × n) ℝ) {γ : ℝ → Matrix m n ℝ} {ξ : Matrix m n ℝ} {t : ℝ} (h : ED γ ξ t) : ED (fun s => applyW W (γ s)) (applyW W ξ) t :=
  fun i j => HasDerivAt.fun_sum fun k _ => HasDerivAt.fun_sum fun l _ => (h k l).const_mul _

/-- **C52.** Weighted approximation by a matrix of fixed rank. -/
theorem C52_weighted {W : Matrix (m × n) (m × n) ℝ} (hW : Wᵀ = W) (A : Matrix m n ℝ) : IsGrad (matGeo m n) (frankEWeightApprox A W) ∧ IsHess (matGeo m n) (frankEWeightApprox A W) := by
  refine ⟨fun γ ξ t h => ?_, fun γ ξ t h => ?_⟩
  · have h : ED γ ξ t := h
    have k : ED (fun s => (-1 : ℝ) • A + γ s) ξ t := ((ED.const ((-1 : ℝ) • A) t).add h).congr (zero_add _)
    have := k.frob (applyW_ED W k)
    simp only [frankEWeightApprox, matGeo]
    refine HasDerivAt.congr_deriv this (Eq.symm ?_)
    rw [applyW_frob hW (_ + γ t), frob_comm ξ, frob_smul_left]
    ring
  · have h : ED γ ξ t := h
    have k : ED (fun s => (-1 : ℝ) • A + γ s) ξ t := ((ED.const ((-1 : ℝ) • A) t).add h).congr (zero_add _)
    exact (applyW_ED W k).smul (2 : ℝ)

/-- **C52.** Sparse approximation by a matrix of fixed rank: smooth part. -/
theorem C52_sparse_approx (A : Matrix m n ℝ) (lambda : ℝ) :
    (∀ x, ((frankESparseApprox A lambda).f x).1 = frob (x - A) (x - A) + lambda * ∑ i, ∑ j, |x i j|) ∧
      GradOf (matGeo m n) (frankESparseApprox A lambda) (fun x => frob (x - A) (x - A)) ∧ IsHess (matGeo m n) (frankESparseApprox A lambda) := by
  have e : ∀ x : Matrix m n ℝ, (-1 : ℝ) • A + x = x - A := by intro x; rw [neg_one_smul]; abel
  refine ⟨fun x => ?_, fun γ ξ t h => ?_, fun γ ξ t h => ?_⟩
  · simp only [frankESparseApprox, Finset.mul_sum, e]
  · have h : ED γ ξ t := h
    have k : ED (fun s => γ s - A) ξ t := (h.sub (ED.const A t)).congr (sub_zero _)
    have := k.frob k
    simp only [frankESparseApprox, matGeo, e]
    refine HasDerivAt.congr_deriv this (Eq.symm ?_)
    rw [frob_comm ξ, frob_smul_left]
    ring
  · have h : ED γ ξ t := h
    have k : ED (fun s => (-1 : ℝ) • A + γ s) ξ t := ((ED.const ((-1 : ℝ) • A) t).add h).congr (zero_add _)
    exact k.smul (2 : ℝ)

section completion
variable {z : Type*} [Fintype z] (ir : z → m) (jc : z → n)

theorem frob_sparse (v : z → ℝ) (X : Matrix m n ℝ) : frob (sparse ir jc v) X = ∑ l, v l * X (ir l) (jc l) := by
  unfold frob sparse
  simp only [Finset.sum_mul]
  have : ∑ i, ∑ j, ∑ l, (if ir l = i ∧ jc l = j then v l else 0) * X i j = ∑ a : m × n, ∑ l, (if ir l = a.1 ∧ jc l = a.2 then v l else 0) * X a.1 a.2 := by simp only [Fintype.sum_prod_type]
  rw [this, Finset.sum_comm]
  refine Finset.sum_congr rfl fun l _ => ?_
  rw [Finset.sum_eq_single (ir l, jc l)]
  · simp
  · intro a _ ha
    rw [if_neg (fun h => ha (Prod.ext h.1.symm h.2.symm)), zero_mul]
  · intro h; exact absurd (Finset.mem_univ _) h

theorem sparse_ED {v : ℝ → z → ℝ} {w : z → ℝ} {t : ℝ} (h : ∀ l, HasDerivAt (fun s => v s l) (w l) t) : ED (fun s => sparse ir jc (v s)) (sparse ir jc w) t := by
  intro i j
  refine HasDerivAt.fun_sum fun l _ => ?_
  by_cases c : ir l = i ∧ jc l = j
  · simpa only [if_pos c] using h l
  · simpa only [if_neg c] using hasDerivAt_const t (0 : ℝ)

theorem proj_D {G : ℝ → Matrix m p ℝ} {H : ℝ → Matrix n p ℝ} {ξ : Matrix m p ℝ} {η : Matrix n p ℝ} {t : ℝ} (hG : ED G ξ t) (hH : ED H η t) (l : z) :
    HasDerivAt (fun s => projecOmega ir jc (G s) (H s) l) (projecOmega ir jc ξ (H t) l + projecOmega ir jc (G t) η l) t := by
  unfold projecOmega
  rw [← Finset.sum_add_distrib]
  exact HasDerivAt.fun_sum fun j _ => (hG _ _).mul (hH _ _)

/-- **C52.** Matrix completion. Repeated sample positions are allowed. -/
theorem C52_completion (vals : z → ℝ) : IsGrad (prodGeo (matGeo m p) (matGeo n p)) (frankQ2FMatCompletion ir jc vals) ∧
    IsHess (prodGeo (matGeo m p) (matGeo n p)) (frankQ2FMatCompletion ir jc vals) := by
  have hP : ∀ (γ : ℝ → Matrix m p ℝ × Matrix n p ℝ) (ξ : Matrix m p ℝ × Matrix n p ℝ) (t : ℝ), ED (fun s => (γ s).1) ξ.1 t → ED (fun s => (γ s).2) ξ.2 t → ∀ l,
      HasDerivAt (fun s => -1 * vals l + projecOmega ir jc (γ s).1 (γ s).2 l) (projecOmega ir jc ξ.1 (γ t).2 l + projecOmega ir jc (γ t).1 ξ.2 l) t :=
    fun γ ξ t a b l => (proj_D ir jc a b l).const_add _
  refine ⟨fun γ ξ t h => ?_, fun γ ξ t h => ?_⟩
  · obtain ⟨a, b⟩ := h
    have k := hP γ ξ t a b
    have := (HasDerivAt.fun_sum (u := Finset.univ) fun l _ => (k l).mul (k l)).const_mul (0.5 : ℝ)
    simp only [frankQ2FMatCompletion, prodGeo, matGeo]
    refine HasDerivAt.congr_deriv this (Eq.symm ?_)
    rw [frob_mul_right, ← frob_transpose _ ξ.2, transpose_transpose, frob_mul_left, transpose_transpose, frob_sparse, frob_sparse, ← Finset.sum_add_distrib, Finset.mul_sum]
    refine Finset.sum_congr rfl fun l _ => ?_
    simp only [Matrix.mul_apply, transpose_apply, projecOmega]
    ring
  · obtain ⟨a, b⟩ := h
    have k := hP γ ξ t a b
    have a : ED (fun s => (γ s).1) ξ.1 t := a
    have b : ED (fun s => (γ s).2) ξ.2 t := b
    have hs := sparse_ED ir jc k
    have e : sparse ir jc (fun l => 1 * projecOmega ir jc ξ.1 (γ t).2 l + projecOmega ir jc (γ t).1 ξ.2 l) = sparse ir jc fun l => projecOmega ir jc ξ.1 (γ t).2 l + projecOmega ir jc (γ t).1 ξ.2 l := by
      simp only [one_mul]
    simp only [frankQ2FMatCompletion, prodGeo, matGeo, e]
    refine ⟨hs.mul b, ?_⟩
    have := (a.transpose.mul hs).transpose
    refine ED.congr this ?_
    rw [add_comm]

end completion

section hull
variable {E : Type*} [NormedAddCommGroup E] [InnerProductSpace ℝ E] {k : Nat}

theorem combine_eq (W : Fin k → E) (c : Fin k → ℝ) : combine W c = ∑ i, c i • W i := by
  unfold combine
  have key : ∀ (l : List (Fin k)) (a : E), l.foldl (fun s i => c i • W i + s) a = (l.map fun i => c i • W i).sum + a := by
    intro l
    induction l with
    | nil => intro a; simp
    | cons i l ih => intro a; rw [List.foldl_cons, ih]; simp only [List.map_cons, List.sum_cons]; abel
  rw [key, add_zero, Fin.sum_univ_def]

/-- **C52.** Minimum-norm problem on the sphere, for the identity and for every symmetric operator. -/
theorem C52_convex_hull (W : Fin k → E) (P : E →L[ℝ] E) (hP : ∀ u v, inner ℝ (P u) v = (inner ℝ u (P v) : ℝ)) :
    IsGrad (vecGeo (Fin k)) (sphereConvexHull W P) ∧ IsHess (vecGeo (Fin k)) (sphereConvexHull W P) := by
  have hu : ∀ (γ : ℝ → Fin k → ℝ) (ξ : Fin k → ℝ) (t : ℝ), (∀ i, HasDerivAt (fun s => γ s i) (ξ i) t) → HasDerivAt (fun s => ∑ i, (γ s i * γ s i) • W i) (∑ i, (2 * γ t i * ξ i) • W i) t := by
    intro γ ξ t h
    refine HasDerivAt.fun_sum fun i _ => ?_
    have := ((h i).mul (h i)).smul_const (W i)
    refine HasDerivAt.congr_deriv this ?_
    congr 1; ring
  refine ⟨fun γ ξ t h => ?_, fun γ ξ t h => ?_⟩
  · have k := hu γ ξ t h
    have := k.inner ℝ (P.hasFDerivAt.comp_hasDerivAt t k)
    simp only [sphereConvexHull, combine_eq, vecGeo]
    refine HasDerivAt.congr_deriv this (Eq.symm ?_)
    simp only [Function.comp]
    rw [← hP, real_inner_comm _ (P _), ← two_mul, sum_inner, Finset.mul_sum]
    refine Finset.sum_congr rfl fun i _ => ?_
    rw [inner_smul_left]
    simp only [conj_trivial]
    ring
  · have k := hu γ ξ t h
    have kP := P.hasFDerivAt.comp_hasDerivAt t k
    simp only [sphereConvexHull, combine_eq, vecGeo]
    intro i
    have := ((h i).const_mul 4).mul ((hasDerivAt_const t (W i)).inner ℝ kP)
    refine HasDerivAt.congr_deriv this (Eq.symm ?_)
    simp only [Function.comp, inner_zero_left, add_zero]
    have e : P (∑ i, (2 * γ t i * ξ i) • W i) = (2 : ℝ) • P (∑ i, (γ t i * ξ i) • W i) := by
      rw [← map_smul, Finset.smul_sum]
      simp only [smul_smul, mul_assoc]
    rw [e, inner_smul_right]
    ring

/-- **C52.** Rayleigh quotient of a Hessian on the unit sphere of a tangent space. -/
theorem C52_tangent_rayleigh (H : E →L[ℝ] E) (hH : ∀ u v, inner ℝ (H u) v = (inner ℝ u (H v) : ℝ)) (ismin : Bool) :
    IsGrad (innerGeo E) (sphereTxRQ H ismin) ∧ IsHess (innerGeo E) (sphereTxRQ H ismin) := by
  refine ⟨fun γ ξ t h => ?_, fun γ ξ t h => ?_⟩
  · have h : HasDerivAt γ ξ t := h
    have := (H.hasFDerivAt.comp_hasDerivAt t h).inner ℝ h
    cases ismin
    · simp only [sphereTxRQ, innerGeo, Bool.false_eq_true, if_false]
      refine HasDerivAt.congr_deriv this.neg (Eq.symm ?_)
      simp only [Function.comp]
      rw [hH ξ, real_inner_comm (H (γ t)) ξ, inner_smul_left]
      simp only [conj_trivial]
      ring
    · simp only [sphereTxRQ, innerGeo, if_true]
      refine HasDerivAt.congr_deriv this (Eq.symm ?_)
      simp only [Function.comp]
      rw [hH ξ, real_inner_comm (H (γ t)) ξ, inner_smul_left]
      simp only [conj_trivial]
      ring
  · have h : HasDerivAt γ ξ t := h
    have := H.hasFDerivAt.comp_hasDerivAt t h
    cases ismin
    · simp only [sphereTxRQ, innerGeo, Bool.false_eq_true, if_false]
      exact this.const_smul (-2 : ℝ)
    · simp only [sphereTxRQ, innerGeo, if_true]
      exact this.const_smul (2 : ℝ)

/-! ### C51 -/

/-- **C51.** The vector left by an evaluation at a point of the unit sphere is a convex combination of the given vectors; the value returned is its squared norm (in the operator's inner product). -/
theorem C51_in_hull (W : Fin k → E) (P : E → E) {x : Fin k → ℝ} (hx : ∑ i, x i * x i = 1) :
    ((sphereConvexHull W P).f x).2.1 ∈ convexHull ℝ (Set.range W) ∧
      ((sphereConvexHull W P).f x).1 = inner ℝ ((sphereConvexHull W P).f x).2.1 (P ((sphereConvexHull W P).f x).2.1) := by
  refine ⟨?_, rfl⟩
  show combine W (fun i => x i * x i) ∈ _
  rw [combine_eq]
  exact (convex_convexHull ℝ (Set.range W)).sum_mem (fun i _ => mul_self_nonneg _) hx fun i _ => subset_convexHull ℝ _ ⟨i, rfl⟩

/-- **C51.** A minimiser over the unit sphere gives the vector of the convex hull of minimal norm. -/
theorem C51_minimal (W : Fin k → E) (P : E → E) {x : Fin k → ℝ} (hx : ∑ i, x i * x i = 1)
    (hmin : ∀ y : Fin k → ℝ, ∑ i, y i * y i = 1 → ((sphereConvexHull W P).f x).1 ≤ ((sphereConvexHull W P).f y).1) :
    ∀ v ∈ convexHull ℝ (Set.range W), inner ℝ ((sphereConvexHull W P).f x).2.1 (P ((sphereConvexHull W P).f x).2.1) ≤ (inner ℝ v (P v) : ℝ) := by
  intro v hv
  have hsub : convexHull ℝ (Set.range W) ⊆ {v | ∃ w : Fin k → ℝ, (∀ i, 0 ≤ w i) ∧ ∑ i, w i = 1 ∧ v = ∑ i, w i • W i} := by
    refine convexHull_min ?_ ?_
    · rintro _ ⟨i, rfl⟩
      exact ⟨Pi.single i 1, fun j => by by_cases h : j = i <;> simp [h], by simp, by simp [Pi.single_apply]⟩
    · rintro _ ⟨w, hw, hs, rfl⟩ _ ⟨w', hw', hs', rfl⟩ a b ha hb hab
      refine ⟨fun i => a * w i + b * w' i, fun i => add_nonneg (mul_nonneg ha (hw i)) (mul_nonneg hb (hw' i)), ?_, ?_⟩
      · rw [Finset.sum_add_distrib, ← Finset.mul_sum, ← Finset.mul_sum, hs, hs', mul_one, mul_one, hab]
      · rw [Finset.smul_sum, Finset.smul_sum, ← Finset.sum_add_distrib]
        refine Finset.sum_congr rfl fun i _ => ?_
        rw [add_smul, smul_smul, smul_smul]
  obtain ⟨w, hw, hs, rfl⟩ := hsub hv
  have hsq : ∀ i, Real.sqrt (w i) * Real.sqrt (w i) = w i := fun i => Real.mul_self_sqrt (hw i)
  have := hmin (fun i => Real.sqrt (w i)) (by simp only [hsq]; exact hs)
  simpa only [sphereConvexHull, combine_eq, hsq] using this

end hull

section sparsest

theorem abs_ite (a : ℝ) : (if a < 0 then -a else a) = |a| := by
  split
  · rename_i h; rw [abs_of_neg h]
  · rename_i h; rw [abs_of_nonneg (not_lt.mp h)]

theorem grad_pair (Q : Matrix m n ℝ) (s : m → ℝ) (v : n → ℝ) : ∑ i, Qᵀ.mulVec s i * v i = ∑ k, s k * Q.mulVec v k := by
  simp only [mulVec, dotProduct, transpose_apply, Finset.sum_mul, Finset.mul_sum]
  rw [Finset.sum_comm]
  refine Finset.sum_congr rfl fun a _ => Finset.sum_congr rfl fun b _ => by ring

/-- **C52.** Sparsest vector: the coded gradient is a subgradient of the coded (convex) cost at every point. -/
theorem C52_sparsest_subgradient (Q : Matrix m n ℝ) (x y : n → ℝ) :
    ((sphereSparsestVector Q).f x).1 + ∑ i, (sphereSparsestVector Q).eucGrad x ((sphereSparsestVector Q).f x).2 i * (y i - x i) ≤ ((sphereSparsestVector Q).f y).1 := by
  simp only [sphereSparsestVector, abs_ite]
  have e := grad_pair Q (fun i => if Q.mulVec x i < 0 then -1 else 1) (y - x)
  simp only [Pi.sub_apply] at e
  rw [e, mulVec_sub, ← Finset.sum_add_distrib]
  refine Finset.sum_le_sum fun i _ => ?_
  simp only [Pi.sub_apply]
  split
  · rename_i h
    rw [abs_of_neg h]
    have := neg_abs_le (Q.mulVec y i)
    linarith
  · rename_i h
    rw [abs_of_nonneg (not_lt.mp h)]
    have := le_abs_self (Q.mulVec y i)
    linarith

theorem mulVec_D (Q : Matrix m n ℝ) {γ : ℝ → n → ℝ} {ξ : n → ℝ} {t : ℝ} (h : ∀ i, HasDerivAt (fun s => γ s i) (ξ i) t) (k : m) : HasDerivAt (fun s => Q.mulVec (γ s) k) (Q.mulVec ξ k) t := by
  simp only [mulVec, dotProduct]
  exact HasDerivAt.fun_sum fun j _ => (h j).const_mul _

/-- **C52.** Where no entry of `Qx` vanishes the coded gradient is the gradient, and the gradient is locally constant: along every curve its derivative is zero, while the coded action of the Hessian returns its argument. The
coded Hessian is wrong for every nonzero direction. -/
theorem C52_sparsest_hessian_wrong (Q : Matrix m n ℝ) (γ : ℝ → n → ℝ) (ξ : n → ℝ) (t : ℝ) (h : (vecGeo n).HasD γ ξ t) (hne : ∀ i, Q.mulVec (γ t) i ≠ 0) :
    HasDerivAt (fun s => ((sphereSparsestVector Q).f (γ s)).1) ((vecGeo n).ip ((sphereSparsestVector Q).eucGrad (γ t) ((sphereSparsestVector Q).f (γ t)).2) ξ) t ∧
      (vecGeo n).HasD (fun s => (sphereSparsestVector Q).eucGrad (γ s) ((sphereSparsestVector Q).f (γ s)).2) 0 t ∧
      (sphereSparsestVector Q).eucHess (γ t) ((sphereSparsestVector Q).f (γ t)).2 ξ = ξ := by
  have hq := mulVec_D Q h
  refine ⟨?_, ?_, rfl⟩
  · simp only [sphereSparsestVector, abs_ite, vecGeo]
    rw [grad_pair]
    refine HasDerivAt.fun_sum fun i _ => ?_
    rcases lt_or_gt_of_ne (hne i) with hl | hl
    · rw [if_pos hl]
      exact (hasDerivAt_abs_neg hl).comp t (hq i)
    · rw [if_neg (not_lt.mpr hl.le)]
      exact (hasDerivAt_abs_pos hl).comp t (hq i)
  · intro i
    have h0 : ∀ k, HasDerivAt (fun s => if Q.mulVec (γ s) k < 0 then (-1 : ℝ) else 1) 0 t := by
      intro k
      have hc := (hq k).continuousAt
      have h0 : HasDerivAt (fun _ : ℝ => if Q.mulVec (γ t) k < 0 then (-1 : ℝ) else 1) 0 t := hasDerivAt_const _ _
      refine h0.congr_of_eventuallyEq ?_
      rcases lt_or_gt_of_ne (hne k) with hl | hl
      · filter_upwards [hc.eventually (gt_mem_nhds hl)] with s hs
        rw [if_pos hs, if_pos hl]
      · filter_upwards [hc.eventually (lt_mem_nhds hl)] with s hs
        rw [if_neg (not_lt.mpr (le_of_lt hs)), if_neg (not_lt.mpr hl.le)]
    have := mulVec_D Qᵀ h0 i
    refine HasDerivAt.congr_deriv this ?_
    exact congrFun (mulVec_zero Qᵀ) i

end sparsest

section complex

/-- **C52.** Brockett cost on the complex Stiefel manifold; the matrix is Hermitian and the diagonal real. -/
theorem C52_complex_brockett {B : Matrix n n ℂ} (hB : Bᴴ = B) {D : p → ℂ} (hD : ∀ j, star (D j) = D j) : IsGrad (cmatGeo n p) (cStieBrockett B D) ∧ IsHess (cmatGeo n p) (cStieBrockett B D) := by
  have hd : (diagonal D)ᴴ = diagonal D := by
    rw [diagonal_conjTranspose]; congr 1; funext j; exact hD j
  refine ⟨fun γ ξ t h => ?_, fun γ ξ t h => ?_⟩
  · have h : ED γ ξ t := h
    have := h.rfrob ((h.const_mul B).mul_const (diagonal D))
    simp only [cStieBrockett, colScale_eq]
    refine HasDerivAt.congr_deriv this (Eq.symm ?_)
    show rfrob ((2 : ℂ) • (B * γ t * diagonal D)) ξ = _
    have e2 : (2 : ℂ) = ((2 : ℝ) : ℂ) := by norm_num
    rw [rfrob_comm (γ t), rfrob_mul_right, hd, rfrob_mul_left, hB, ← Matrix.mul_assoc, e2, rfrob_smul_left, rfrob_comm ξ]
    ring
  · have h : ED γ ξ t := h
    have := ((h.const_mul B).mul_const (diagonal D)).smul (2 : ℂ)
    simp only [cStieBrockett, colScale_eq]
    rw [← Matrix.smul_mul] at this
    exact this

variable {l : Type*} [Fintype l]

theorem prForward_ED (F : Matrix n n ℂ) (masks : l → n → ℂ) (sqn : ℝ) {γ : ℝ → Matrix n p ℂ} {ξ : Matrix n p ℂ} {t : ℝ} (h : ED γ ξ t) :
    ED (fun s => prForward F masks sqn (γ s)) (prForward F masks sqn ξ) t := by
  intro i j
  simp only [prForward, mulVec, dotProduct]
  refine HasDerivAt.fun_sum fun k _ => ?_
  exact (((h k j).const_mul _).div_const _).const_mul _

theorem prBackward_ED (F : Matrix n n ℂ) (masks : l → n → ℂ) (sqn : ℝ) {γ : ℝ → Matrix (l × n) p ℂ} {ξ : Matrix (l × n) p ℂ} {t : ℝ} (h : ED γ ξ t) :
    ED (fun s => prBackward F masks sqn (γ s)) (prBackward F masks sqn ξ) t := by
  intro k j
  simp only [prBackward, mulVec, dotProduct]
  refine HasDerivAt.fun_sum fun i _ => ?_
  refine ((HasDerivAt.fun_sum fun k' _ => ?_).const_mul _).mul_const _
  exact (h (i, k') j).const_mul _

/-- The back transform is the adjoint of the forward transform. -/
theorem pr_adjoint (F : Matrix n n ℂ) (masks : l → n → ℂ) (sqn : ℝ) (x : Matrix n p ℂ) (v : Matrix (l × n) p ℂ) :
    rfrob (prForward F masks sqn x) v = rfrob x (prBackward F masks sqn v) := by
  unfold rfrob
  simp only [← Complex.re_sum]
  congr 1
  simp only [prForward, prBackward, mulVec, dotProduct, conjTranspose_apply, star_sum, star_mul', star_div₀, Finset.sum_mul, Finset.mul_sum, Fintype.sum_prod_type]
  have hs : star (sqn : ℂ) = sqn := by simp
  -- sums over mask, row, column, inner index
  have lhs : ∑ i : l, ∑ k : n, ∑ j : p, ∑ k' : n, star (F k k') * (star (masks i k') * star (x k' j) / star (sqn : ℂ)) * v (i, k) j =
      ∑ k' : n, ∑ j : p, ∑ i : l, ∑ k : n, star (F k k') * (star (masks i k') * star (x k' j) / star (sqn : ℂ)) * v (i, k) j := by
    have : ∀ g : l → n → p → n → ℂ, ∑ i, ∑ k, ∑ j, ∑ k', g i k j k' = ∑ k', ∑ j, ∑ i, ∑ k, g i k j k' := by
      intro g
      calc ∑ i, ∑ k, ∑ j, ∑ k', g i k j k' = ∑ a : l × n, ∑ b : p × n, g a.1 a.2 b.1 b.2 := by simp only [Fintype.sum_prod_type]
        _ = ∑ b : p × n, ∑ a : l × n, g a.1 a.2 b.1 b.2 := Finset.sum_comm
        _ = ∑ j, ∑ k', ∑ i, ∑ k, g i k j k' := by simp only [Fintype.sum_prod_type]
        _ = _ := Finset.sum_comm
    exact this _
  rw [lhs]
  refine Finset.sum_congr rfl fun k' _ => Finset.sum_congr rfl fun j _ => Finset.sum_congr rfl fun i _ => Finset.sum_congr rfl fun k _ => ?_
  rw [hs]
  ring

/-- **C52.** Phase retrieval with masks; `F` is the matrix of the forward Fourier transform, any matrix in the statement. -/
theorem C52_phase_retrieval (F : Matrix n n ℂ) (masks : l → n → ℂ) (b : l × n → ℝ) (kappa sqn : ℝ) :
    IsGrad (cmatGeo n p) (phaseRetrieval F masks b kappa sqn) ∧ IsHess (cmatGeo n p) (phaseRetrieval F masks b kappa sqn) := by
  have hsq : ∀ z : ℂ, z.re * z.re + z.im * z.im = (star z * z).re := by intro z; simp [Complex.mul_re]
  have hcD : ∀ (γ : ℝ → Matrix n p ℂ) (ξ : Matrix n p ℂ) (t : ℝ), ED γ ξ t → ∀ i, HasDerivAt (fun s => ∑ j, (star (prForward F masks sqn (γ s) i j) * prForward F masks sqn (γ s) i j).re - b i)
      (2 * ∑ j, (star (prForward F masks sqn ξ i j) * prForward F masks sqn (γ t) i j).re) t := by
    intro γ ξ t h i
    refine HasDerivAt.sub_const _ ?_
    rw [Finset.mul_sum]
    refine HasDerivAt.fun_sum fun j _ => ?_
    have hz := prForward_ED F masks sqn h i j
    have := Complex.reCLM.hasFDerivAt.comp_hasDerivAt t (hz.star.mul hz)
    refine HasDerivAt.congr_deriv this ?_
    simp only [Complex.reCLM_apply, Complex.add_re, Complex.mul_re, Complex.star_def, Complex.conj_re, Complex.conj_im]
    ring
  refine ⟨fun γ ξ t h => ?_, fun γ ξ t h => ?_⟩
  · have h : ED γ ξ t := h
    have hc := hcD γ ξ t h
    have h1 := (HasDerivAt.fun_sum (u := Finset.univ) fun i _ => (hc i).mul (hc i)).div_const (∑ i, b i * b i)
    have key : ∀ G : l × n → ℝ, rfrob (((4 / ∑ i, b i * b i : ℝ) : ℂ) • prBackward F masks sqn (rowScale (fun i => (G i : ℂ)) (prForward F masks sqn (γ t)))) ξ =
        (∑ i, 2 * G i * (2 * ∑ j, (star (prForward F masks sqn ξ i j) * prForward F masks sqn (γ t) i j).re)) / ∑ i, b i * b i := by
      intro G
      rw [rfrob_smul_left, rfrob_comm, ← pr_adjoint, rfrob, Finset.mul_sum, Finset.sum_div]
      refine Finset.sum_congr rfl fun i _ => ?_
      simp only [rowScale, Finset.mul_sum, Finset.sum_div]
      refine Finset.sum_congr rfl fun j _ => ?_
      simp only [Complex.mul_re, Complex.mul_im, Complex.star_def, Complex.conj_re, Complex.conj_im, Complex.ofReal_re, Complex.ofReal_im]
      ring
    simp only [phaseRetrieval, hsq]
    by_cases hk : kappa = 0
    · simp only [hk, if_true, ne_eq, not_true_eq_false, if_false]
      refine HasDerivAt.congr_deriv h1 (Eq.symm ?_)
      refine (key _).trans ?_
      congr 1
      refine Finset.sum_congr rfl fun i _ => by ring
    · simp only [hk, if_false, ne_eq, not_false_eq_true, if_true]
      refine HasDerivAt.congr_deriv (h1.add ((h.rfrob h).const_mul kappa)) (Eq.symm ?_)
      refine (rfrob_add_left _ _ _).trans ?_
      rw [key, rfrob_smul_left, rfrob_comm ξ, add_comm]
      congr 1
      · congr 1
        refine Finset.sum_congr rfl fun i _ => by ring
      · ring
  · have h : ED γ ξ t := h
    have hc := hcD γ ξ t h
    have hz := prForward_ED F masks sqn h
    have hr : ED (fun s => rowScale (fun i => ((∑ j, (star (prForward F masks sqn (γ s) i j) * prForward F masks sqn (γ s) i j).re - b i : ℝ) : ℂ)) (prForward F masks sqn (γ s)))
        (rowScale (fun i => ((2 * ∑ j, (star (prForward F masks sqn ξ i j) * prForward F masks sqn (γ t) i j).re : ℝ) : ℂ)) (prForward F masks sqn (γ t)) +
          rowScale (fun i => ((∑ j, (star (prForward F masks sqn (γ t) i j) * prForward F masks sqn (γ t) i j).re - b i : ℝ) : ℂ)) (prForward F masks sqn ξ)) t := by
      intro i j
      have := (hc i).ofReal_comp.mul (hz i j)
      exact this
    have hb := (prBackward_ED F masks sqn hr).smul ((4 / ∑ i, b i * b i : ℝ) : ℂ)
    simp only [phaseRetrieval, hsq]
    by_cases hk : kappa = 0
    · simp only [hk, ne_eq, not_true_eq_false, if_false, mul_zero, Complex.ofReal_zero, zero_smul, zero_add]
      exact hb
    · simp only [hk, ne_eq, not_false_eq_true, if_true]
      exact (h.smul ((2 * kappa : ℝ) : ℂ)).add hb

end complex

/-! ### The Riemannian gradient of a problem on the Stiefel manifold -/

/-- **C52, C66.** For every problem with exact Euclidean gradient, along every curve on the Stiefel manifold the derivative of the cost is the metric of `RieGrad` and the velocity, for both metrics. -/
theorem C52_on_stiefel {F : Type*} {P : Prob (Matrix n p ℝ) F} (hP : IsGrad (matGeo n p) P) (γ : ℝ → Matrix n p ℝ) (ξ : Matrix n p ℝ) (t : ℝ) (hγ : ∀ s, (γ s)ᵀ * γ s = 1) (h : (matGeo n p).HasD γ ξ t) :
    HasDerivAt (fun s => (P.f (γ s)).1) (frob (Stiefel.proj (γ t) (P.eucGrad (γ t) (P.f (γ t)).2)) ξ) t ∧
      HasDerivAt (fun s => (P.f (γ s)).1) (Stiefel.canonMetric (γ t) (Stiefel.canonGrad (γ t) (P.eucGrad (γ t) (P.f (γ t)).2)) ξ) t := by
  have ht : Stiefel.IsTangent (γ t) ξ := by
    have h : ED γ ξ t := h
    have h1 := h.transpose.mul h
    simp only [hγ] at h1
    have h2 := h1.unique (ED.const 1 t)
    unfold Stiefel.IsTangent
    rw [transpose_mul, transpose_transpose]
    exact eq_neg_of_add_eq_zero_left h2
  have := hP γ ξ t h
  exact ⟨HasDerivAt.congr_deriv this ((Stiefel.C66_stiefel_gradient (hγ t) _).2.1 ξ ht).symm, HasDerivAt.congr_deriv this ((Stiefel.C66_canonical_gradient (hγ t) _).2 ξ ht).symm⟩

/-- Hypotheses of the statements above. -/
example : ∃ (B : Matrix (Fin 2) (Fin 2) ℝ) (γ : ℝ → Matrix (Fin 2) (Fin 1) ℝ), Bᵀ = B ∧ B ≠ 0 ∧ ∀ s, (γ s)ᵀ * γ s = 1 := by
  refine ⟨!![2, 1; 1, 3], fun _ => !![1; 0], ?_, ?_, ?_⟩
  · ext i j; fin_cases i <;> fin_cases j <;> rfl
  · intro h; have := congrFun (congrFun h 0) 0; simp at this
  · intro s; ext i j; fin_cases i; fin_cases j; simp [Matrix.mul_apply, Fin.sum_univ_two]

/-! ### C74: derivatives by differences -/

section numeric
variable {ι : Type*} [Fintype ι] [DecidableEq ι]

/-- **C74.** Forward differences: if the partial derivative varies by at most `M` times the distance, the error of an entry is at most `M` times the step. -/
theorem C74_gradient_error (f : (ι → ℝ) → ℝ) {eps : ℝ} (he : 0 < eps) (x : ι → ℝ) (i : ι) (d : ℝ → ℝ) (M : ℝ) (hd : ∀ s ∈ Set.Icc 0 eps, HasDerivAt (fun s => f (Function.update x i (x i + s))) (d s) s)
    (hM : ∀ s ∈ Set.Icc 0 eps, |d s - d 0| ≤ M * s) : |numGrad f eps x i - d 0| ≤ M * eps := by
  have hM0 : 0 ≤ M := by
    have := hM eps ⟨he.le, le_refl _⟩
    exact nonneg_of_mul_nonneg_left (le_trans (abs_nonneg _) this) he
  obtain ⟨c, hc, hcd⟩ := exists_hasDerivAt_eq_slope (fun s => f (Function.update x i (x i + s))) d he
    (fun s hs => (hd s hs).continuousAt.continuousWithinAt) (fun s hs => hd s ⟨hs.1.le, hs.2.le⟩)
  simp only [add_zero, sub_zero, Function.update_eq_self] at hcd
  unfold numGrad
  rw [← hcd]
  exact (hM c ⟨hc.1.le, hc.2.le⟩).trans (mul_le_mul_of_nonneg_left hc.2.le hM0)

/-- Quadratic functions. -/
noncomputable def quad (A : Matrix ι ι ℝ) (b : ι → ℝ) (x : ι → ℝ) : ℝ := (∑ i, x i * A.mulVec x i) / 2 + ∑ i, b i * x i

/-- Their gradient. -/
def quadGrad (A : Matrix ι ι ℝ) (b : ι → ℝ) (x : ι → ℝ) : ι → ℝ := fun i => A.mulVec x i + b i

/-- **C74.** For quadratic functions the error of the forward difference is half the step times the diagonal entry of the Hessian. -/
theorem C74_gradient_quadratic {A : Matrix ι ι ℝ} (hA : Aᵀ = A) (b : ι → ℝ) {eps : ℝ} (he : eps ≠ 0) (x : ι → ℝ) (i : ι) :
    numGrad (quad A b) eps x i = quadGrad A b x i + eps / 2 * A i i := by
  have hu : Function.update x i (x i + eps) = x + eps • Pi.single i 1 := by
    funext j
    by_cases h : j = i
    · subst h; simp
    · simp [h]
  have hs : ∀ (v : ι → ℝ), ∑ j, v j * (Pi.single i (1 : ℝ) : ι → ℝ) j = v i := by intro v; simp [Pi.single_apply]
  have hs' : ∀ (v : ι → ℝ), ∑ j, (Pi.single i (1 : ℝ) : ι → ℝ) j * v j = v i := by intro v; simp [Pi.single_apply]
  have hAi : ∀ k, A.mulVec (Pi.single i (1 : ℝ)) k = A k i := by intro k; simp [mulVec, dotProduct, Pi.single_apply]
  have hsym : ∀ k, A k i = A i k := fun k => congrFun (congrFun hA i) k
  have hAx : ∑ k, x k * A k i = A.mulVec x i := by
    simp only [mulVec, dotProduct]
    refine Finset.sum_congr rfl fun k _ => by rw [hsym]; ring
  have e : quad A b (x + eps • Pi.single i 1) = quad A b x + eps * (A.mulVec x i + b i) + eps * eps / 2 * A i i := by
    unfold quad
    simp only [mulVec_add, mulVec_smul, Pi.add_apply, Pi.smul_apply, smul_eq_mul, mul_add, add_mul, Finset.sum_add_distrib]
    have e1 : ∑ k, x k * (eps * A.mulVec (Pi.single i (1 : ℝ)) k) = eps * A.mulVec x i := by
      rw [← hAx, Finset.mul_sum]
      refine Finset.sum_congr rfl fun k _ => by rw [hAi]; ring
    have e2 : ∑ k, eps * (Pi.single i (1 : ℝ) : ι → ℝ) k * A.mulVec x k = eps * A.mulVec x i := by
      rw [← hs' (A.mulVec x), Finset.mul_sum]
      refine Finset.sum_congr rfl fun k _ => by ring
    have e3 : ∑ k, eps * (Pi.single i (1 : ℝ) : ι → ℝ) k * (eps * A.mulVec (Pi.single i (1 : ℝ)) k) = eps * eps * A i i := by
      rw [← hAi i, ← hs' (A.mulVec (Pi.single i (1 : ℝ))), Finset.mul_sum]
      refine Finset.sum_congr rfl fun k _ => by ring
    have e4 : ∑ k, b k * (eps * (Pi.single i (1 : ℝ) : ι → ℝ) k) = eps * b i := by
      rw [← hs b, Finset.mul_sum]
      refine Finset.sum_congr rfl fun k _ => by ring
    rw [e1, e2, e3, e4]
    ring
  unfold numGrad quadGrad
  rw [hu, e]
  field_simp
  ring

/-- **C74.** The difference quotient of the gradient is exact for functions with affine gradient, when both gradients come from the same code; for a zero direction the code divides by zero. -/
theorem C74_hessian_quadratic (A : Matrix ι ι ℝ) (b : ι → ℝ) {c nrm : ℝ} (hc : c ≠ 0) (x etax : ι → ℝ) :
    (nrm ≠ 0 → numHess (quadGrad A b) (quadGrad A b x) c nrm x etax = some (A.mulVec etax)) ∧ (nrm = 0 → numHess (quadGrad A b) (quadGrad A b x) c nrm x etax = none) := by
  refine ⟨fun h => ?_, fun h => if_pos h⟩
  unfold numHess
  rw [if_neg h]
  simp only [Option.some.injEq]
  funext i
  have hf : c / nrm ≠ 0 := div_ne_zero hc h
  simp only [quadGrad, one_smul, mulVec_add, mulVec_smul, Pi.add_apply, Pi.smul_apply, smul_eq_mul]
  field_simp
  ring

/-- **C74.** General case: if along the segment the derivative of an entry of the gradient varies by at most `K` times the parameter, the error of the entry is at most `K` times the step. -/
theorem C74_hessian_error (g : (ι → ℝ) → ι → ℝ) {c nrm : ℝ} (hc : 0 < c) (hn : 0 < nrm) (x etax : ι → ℝ) (i : ι) (d : ℝ → ℝ) (K : ℝ)
    (hd : ∀ s ∈ Set.Icc 0 (c / nrm), HasDerivAt (fun s => g (x + s • etax) i) (d s) s) (hK : ∀ s ∈ Set.Icc 0 (c / nrm), |d s - d 0| ≤ K * s) :
    ∃ r, numHess g (g x) c nrm x etax = some r ∧ |r i - d 0| ≤ K * (c / nrm) := by
  have hf : 0 < c / nrm := div_pos hc hn
  refine ⟨_, if_neg hn.ne', ?_⟩
  have hK0 : 0 ≤ K := nonneg_of_mul_nonneg_left (le_trans (abs_nonneg _) (hK _ ⟨hf.le, le_refl _⟩)) hf
  obtain ⟨s, hs, hsd⟩ := exists_hasDerivAt_eq_slope (fun s => g (x + s • etax) i) d hf (fun s hs => (hd s hs).continuousAt.continuousWithinAt) (fun s hs => hd s ⟨hs.1.le, hs.2.le⟩)
  have e : ((1 / (c / nrm)) • g (1 • (c / nrm) • etax + x) + (-1 / (c / nrm)) • g x) i = d s := by
    rw [hsd]
    simp only [Pi.add_apply, Pi.smul_apply, smul_eq_mul, one_smul, zero_smul, sub_zero, add_comm x, zero_add]
    ring
  rw [e]
  exact (hK s ⟨hs.1.le, hs.2.le⟩).trans (mul_le_mul_of_nonneg_left hs.2.le hK0)

/-- **C74 fails** for problems that define their own gradient: with numerical derivatives requested, `RieGrad` stores the forward difference in the field `"EGrad"` (Problem.cpp:87-91) while `Problem::EucHessianEta` calls
the overriding `EucGrad` at the other point (Problem.cpp:154). For quadratic functions the result is off by the diagonal of the Hessian times `eps * |etax| / (2 c)`; with the constants `1e-8` and `1e-5` of the code this is
`|etax| / 2000` times the diagonal, whatever the direction. -/
theorem C74_hessian_mixed_wrong {A : Matrix ι ι ℝ} (hA : Aᵀ = A) (b : ι → ℝ) {c eps nrm : ℝ} (hc : c ≠ 0) (he : eps ≠ 0) (hn : nrm ≠ 0) (x etax : ι → ℝ) :
    numHess (quadGrad A b) (numGrad (quad A b) eps x) c nrm x etax = some fun i => A.mulVec etax i - eps * nrm / (2 * c) * A i i := by
  unfold numHess
  rw [if_neg hn]
  simp only [Option.some.injEq]
  funext i
  simp only [Pi.add_apply, Pi.smul_apply, smul_eq_mul, one_smul, C74_gradient_quadratic hA b he x i]
  simp only [quadGrad, mulVec_add, mulVec_smul, Pi.add_apply, Pi.smul_apply, smul_eq_mul]
  field_simp
  ring

/-- The case of the constants of the code. -/
example : (1e-8 : ℝ) * 1 / (2 * 1e-5) = 1 / 2000 := by norm_num

end numeric

end Verif.Problem
