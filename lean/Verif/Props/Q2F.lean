import Verif.Manifold.Q2F
import Verif.Problem.CurveInv
import Mathlib.Tactic.Module
import Mathlib.LinearAlgebra.Matrix.Rank

/-!
# Fixed-rank matrices in two-factor form: properties C76, C62, C64, C66

Properties of the quotient geometry, for real and complex matrices.
-/

set_option linter.unusedSectionVars false
set_option linter.unusedVariables false
set_option linter.unusedSimpArgs false

namespace Verif.Q2F

open Matrix Verif.CMat Verif.Curve

variable {𝕜 : Type*} [RCLike 𝕜]
variable {m n r : Type*} [Fintype m] [Fintype n] [Fintype r] [DecidableEq m] [DecidableEq n] [DecidableEq r]

/-! ## Specification -/

/-- A point: both factors have linearly independent columns. -/
structure IsPt (x : Pair 𝕜 m n r) : Prop where
  G : IsUnit (x.Gᴴ * x.G).det
  H : IsUnit (x.Hᴴ * x.H).det

/-- The fields "_L" are factors of the Gram matrices. -/
structure Chol (x : Pair 𝕜 m n r) (LG LH : Matrix r r 𝕜) : Prop where
  G : LG * LGᴴ = x.Gᴴ * x.G
  H : LH * LHᴴ = x.Hᴴ * x.H

/-- The matrix a point represents. -/
def mat (x : Pair 𝕜 m n r) : Matrix m n 𝕜 := x.G * x.Hᴴ

/-- The change of the represented matrix along a direction. -/
def rep (x η : Pair 𝕜 m n r) : Matrix m n 𝕜 := η.G * x.Hᴴ + x.G * η.Hᴴ

/-- Horizontal pairs. -/
def IsHor (x η : Pair 𝕜 m n r) : Prop := x.Gᴴ * η.G * (x.Hᴴ * x.H) = x.Gᴴ * x.G * (η.Hᴴ * x.H)

/-- Orthogonal projector onto the column space. -/
noncomputable def colP {k : Type*} [Fintype k] (A : Matrix k r 𝕜) : Matrix k k 𝕜 := A * (Aᴴ * A)⁻¹ * Aᴴ

/-- Orthogonal projection of matrices onto the tangent space of the fixed-rank matrices at the represented matrix. -/
noncomputable def tanP (x : Pair 𝕜 m n r) (A : Matrix m n 𝕜) : Matrix m n 𝕜 := colP x.G * A + A * colP x.H - colP x.G * A * colP x.H

/-! ## Auxiliary lemmas -/

theorem sol_eq {k : Type*} {L S : Matrix r r 𝕜} (h : L * Lᴴ = S) (B : Matrix r k 𝕜) : sol L B = S⁻¹ * B := by
  rw [sol, ← h, Matrix.mul_inv_rev, Matrix.mul_assoc]

theorem gram_inv_herm {k : Type*} [Fintype k] (A : Matrix k r 𝕜) : ((Aᴴ * A)⁻¹)ᴴ = (Aᴴ * A)⁻¹ := by
  rw [conjTranspose_nonsing_inv, conjTranspose_mul, conjTranspose_conjTranspose]

theorem colP_herm {k : Type*} [Fintype k] (A : Matrix k r 𝕜) : (colP A)ᴴ = colP A := by
  simp only [colP, conjTranspose_mul, conjTranspose_conjTranspose, gram_inv_herm, Matrix.mul_assoc]

theorem colP_mul {k : Type*} [Fintype k] {A : Matrix k r 𝕜} (h : IsUnit (Aᴴ * A).det) : colP A * A = A := by
  rw [colP, Matrix.mul_assoc, Matrix.mul_assoc, nonsing_inv_mul _ h, Matrix.mul_one]

theorem mul_colP {k : Type*} [Fintype k] {A : Matrix k r 𝕜} (h : IsUnit (Aᴴ * A).det) : Aᴴ * colP A = Aᴴ := by
  rw [colP, ← Matrix.mul_assoc, ← Matrix.mul_assoc, mul_nonsing_inv _ h, Matrix.one_mul]

theorem colP_idem {k : Type*} [Fintype k] {A : Matrix k r 𝕜} (h : IsUnit (Aᴴ * A).det) : colP A * colP A = colP A := by
  have : colP A * colP A = A * (Aᴴ * A)⁻¹ * (Aᴴ * colP A) := by simp only [colP, Matrix.mul_assoc]
  rw [this, mul_colP h, colP]

/-- The coefficient matrix of the projection. -/
theorem two_smul_half {a b : Type*} (A : Matrix a b 𝕜) : ((1 / 2 : ℝ) : 𝕜) • A + ((1 / 2 : ℝ) : 𝕜) • A = A := by
  rw [← add_smul, ← RCLike.ofReal_add]
  norm_num

theorem half_star : star ((1 / 2 : ℝ) : 𝕜) = ((1 / 2 : ℝ) : 𝕜) := by
  rw [RCLike.star_def, RCLike.conj_ofReal]

/-! ## C76 -/

/-- **C76 (metric).** The metric is the inner product of the changes of the represented matrix. -/
theorem C76_metric (x η ξ : Pair 𝕜 m n r) : metric x η ξ = ip (rep x η) (rep x ξ) := by
  unfold metric rep
  rw [ip_add_left, ip_add_right, ip_add_right]
  have e1 : ip (η.G * x.Hᴴ) (ξ.G * x.Hᴴ) = ip (x.Hᴴ * x.H) (η.Gᴴ * ξ.G) := by
    rw [ip_mul_left, ip_mul_right, Matrix.mul_assoc]
  have e2 : ip (x.G * η.Hᴴ) (x.G * ξ.Hᴴ) = ip (x.Gᴴ * x.G) (ξ.Hᴴ * η.H) := by
    rw [ip_mul_left, ip_comm, ← Matrix.mul_assoc, ip_mul_right, ← ip_conjTranspose]
    simp only [conjTranspose_mul, conjTranspose_conjTranspose]
  have e3 : ip (η.G * x.Hᴴ) (x.G * ξ.Hᴴ) = ip (ξ.Hᴴ * x.H) (x.Gᴴ * η.G) := by
    rw [ip_mul_left', ← Matrix.mul_assoc, ip_mul_right, ip_comm]
    simp only [conjTranspose_conjTranspose]
  have e4 : ip (x.G * η.Hᴴ) (ξ.G * x.Hᴴ) = ip (x.Hᴴ * η.H) (ξ.Gᴴ * x.G) := by
    rw [ip_mul_left, ← Matrix.mul_assoc, ip_mul_right', ← ip_conjTranspose]
    simp only [conjTranspose_mul, conjTranspose_conjTranspose]
  rw [e1, e2, e3, e4]
  ring

/-- **C76 (vertical directions).** A direction leaves the represented matrix unchanged to first order exactly when it comes from a change of factors `(G, H) ↦ (G M, H M⁻ᴴ)`. -/
theorem C76_vertical {x : Pair 𝕜 m n r} (h : IsPt x) (η : Pair 𝕜 m n r) : rep x η = 0 ↔ ∃ Λ : Matrix r r 𝕜, η.G = x.G * Λ ∧ η.H = -(x.H * Λᴴ) := by
  constructor
  · intro h0
    unfold rep at h0
    have a : η.G = -(x.G * (η.Hᴴ * x.H * (x.Hᴴ * x.H)⁻¹)) := by
      have := congrArg (· * (x.H * (x.Hᴴ * x.H)⁻¹)) (eq_neg_of_add_eq_zero_left h0)
      simp only [Matrix.mul_assoc, Matrix.neg_mul] at this
      rw [← Matrix.mul_assoc x.Hᴴ x.H, mul_nonsing_inv _ h.H, Matrix.mul_one] at this
      rw [this]; simp only [Matrix.mul_assoc]
    have b : η.Hᴴ = η.Hᴴ * x.H * (x.Hᴴ * x.H)⁻¹ * x.Hᴴ := by
      have e := eq_neg_of_add_eq_zero_right h0
      rw [a, Matrix.neg_mul, neg_neg, Matrix.mul_assoc] at e
      have := congrArg (fun M => (x.Gᴴ * x.G)⁻¹ * (x.Gᴴ * M)) e
      simpa only [← Matrix.mul_assoc x.Gᴴ x.G, ← Matrix.mul_assoc (x.Gᴴ * x.G)⁻¹ (x.Gᴴ * x.G), nonsing_inv_mul _ h.G, Matrix.one_mul] using this
    refine ⟨-(η.Hᴴ * x.H * (x.Hᴴ * x.H)⁻¹), ?_, ?_⟩
    · rw [Matrix.mul_neg]; exact a
    · have := congrArg conjTranspose b
      rw [conjTranspose_conjTranspose, conjTranspose_mul, conjTranspose_conjTranspose] at this
      rw [conjTranspose_neg, Matrix.mul_neg, neg_neg]
      exact this
  · rintro ⟨Λ, h1, h2⟩
    rw [rep, h1, h2, conjTranspose_neg, conjTranspose_mul, conjTranspose_conjTranspose, Matrix.mul_neg, Matrix.mul_assoc, add_neg_cancel]

/-- **C76 (uniqueness).** A horizontal pair that leaves the represented matrix unchanged is zero; hence the metric is positive definite on horizontal pairs. -/
theorem C76_horizontal_unique {x : Pair 𝕜 m n r} (h : IsPt x) {η : Pair 𝕜 m n r} (hh : IsHor x η) (h0 : rep x η = 0) : η.G = 0 ∧ η.H = 0 := by
  obtain ⟨Λ, h1, h2⟩ := (C76_vertical h η).mp h0
  have e : x.Gᴴ * x.G * (Λ * (x.Hᴴ * x.H)) = x.Gᴴ * x.G * (-(Λ * (x.Hᴴ * x.H))) := by
    have := hh
    rw [IsHor, h1, h2] at this
    simpa only [conjTranspose_neg, conjTranspose_mul, conjTranspose_conjTranspose, Matrix.neg_mul, Matrix.mul_assoc] using this
  have e2 : Λ * (x.Hᴴ * x.H) = 0 := by
    have := congrArg (fun M => (x.Gᴴ * x.G)⁻¹ * M) e
    simp only [← Matrix.mul_assoc (x.Gᴴ * x.G)⁻¹ (x.Gᴴ * x.G), nonsing_inv_mul _ h.G, Matrix.one_mul] at this
    ext i j
    have := congrFun (congrFun this i) j
    rw [Matrix.neg_apply] at this
    exact self_eq_neg.mp this
  have e3 : Λ = 0 := by
    have := congrArg (· * (x.Hᴴ * x.H)⁻¹) e2
    simpa only [Matrix.mul_assoc _ (x.Hᴴ * x.H), mul_nonsing_inv _ h.H, Matrix.mul_one, Matrix.zero_mul] using this
  rw [h1, h2, e3]
  simp

theorem C76_metric_pos {x : Pair 𝕜 m n r} (h : IsPt x) {η : Pair 𝕜 m n r} (hh : IsHor x η) : 0 ≤ metric x η η ∧ (metric x η η = 0 → η.G = 0 ∧ η.H = 0) := by
  rw [C76_metric]
  exact ⟨ip_self_nonneg _, fun h0 => C76_horizontal_unique h hh (ip_self_eq_zero.mp h0)⟩

theorem proj_eq {x : Pair 𝕜 m n r} {LG LH : Matrix r r 𝕜} (hL : Chol x LG LH) (η : Pair 𝕜 m n r) :
    ∃ Λ, Λ + Λ = η.Hᴴ * x.H * (x.Hᴴ * x.H)⁻¹ - (x.Gᴴ * x.G)⁻¹ * (x.Gᴴ * η.G) ∧ proj LG LH x η = ⟨η.G + x.G * Λ, η.H - x.H * Λᴴ⟩ := by
  refine ⟨_, ?_, rfl⟩
  rw [two_smul_half, sol_eq hL.H, sol_eq hL.G, conjTranspose_mul, conjTranspose_mul, conjTranspose_conjTranspose, gram_inv_herm]

/-- **C76 (projection).** The projection is horizontal, represents the same change of the matrix, and fixes horizontal pairs. -/
theorem C76_projection {x : Pair 𝕜 m n r} (h : IsPt x) {LG LH : Matrix r r 𝕜} (hL : Chol x LG LH) (η : Pair 𝕜 m n r) :
    IsHor x (proj LG LH x η) ∧ rep x (proj LG LH x η) = rep x η ∧ (IsHor x η → proj LG LH x η = η) := by
  obtain ⟨Λ, hΛ, e⟩ := proj_eq hL η
  have h1 : IsHor x (proj LG LH x η) := by
    have k := congrArg (fun M => x.Gᴴ * x.G * M * (x.Hᴴ * x.H)) hΛ
    simp only [Matrix.mul_add, Matrix.add_mul, Matrix.mul_sub, Matrix.sub_mul] at k
    rw [Matrix.mul_assoc _ (η.Hᴴ * x.H * _), Matrix.mul_assoc (η.Hᴴ * x.H), nonsing_inv_mul _ h.H, Matrix.mul_one, ← Matrix.mul_assoc (x.Gᴴ * x.G) (x.Gᴴ * x.G)⁻¹,
      mul_nonsing_inv _ h.G, Matrix.one_mul] at k
    rw [IsHor, e]
    simp only [conjTranspose_sub, conjTranspose_mul, conjTranspose_conjTranspose, Matrix.mul_add, Matrix.add_mul, Matrix.mul_sub, Matrix.sub_mul]
    have k2 : x.Gᴴ * (x.G * Λ) * (x.Hᴴ * x.H) + x.Gᴴ * x.G * (Λ * x.Hᴴ * x.H) = x.Gᴴ * x.G * (η.Hᴴ * x.H) - x.Gᴴ * η.G * (x.Hᴴ * x.H) := by
      rw [← k]; simp only [Matrix.mul_assoc]
    have := congrArg (fun M => x.Gᴴ * η.G * (x.Hᴴ * x.H) + M - x.Gᴴ * x.G * (Λ * x.Hᴴ * x.H)) k2
    calc _ = x.Gᴴ * η.G * (x.Hᴴ * x.H) + (x.Gᴴ * (x.G * Λ) * (x.Hᴴ * x.H) + x.Gᴴ * x.G * (Λ * x.Hᴴ * x.H)) - x.Gᴴ * x.G * (Λ * x.Hᴴ * x.H) := by abel
      _ = _ := this
      _ = _ := by abel
  have h2 : rep x (proj LG LH x η) = rep x η := by
    rw [e]
    simp only [rep, conjTranspose_sub, conjTranspose_mul, conjTranspose_conjTranspose, Matrix.add_mul, Matrix.mul_sub, Matrix.mul_assoc]
    abel
  refine ⟨h1, h2, fun hh => ?_⟩
  have hz : IsHor x ⟨(proj LG LH x η).G - η.G, (proj LG LH x η).H - η.H⟩ := by
    unfold IsHor at *
    simp only [conjTranspose_sub, Matrix.mul_sub, Matrix.sub_mul, h1, hh]
  have hr : rep x ⟨(proj LG LH x η).G - η.G, (proj LG LH x η).H - η.H⟩ = 0 := by
    unfold rep at *
    simp only [conjTranspose_sub, Matrix.mul_sub, Matrix.sub_mul]
    have := sub_eq_zero.mpr h2
    rw [← this]; abel
  obtain ⟨a, b⟩ := C76_horizontal_unique h hz hr
  have a' := sub_eq_zero.mp a
  have b' := sub_eq_zero.mp b
  cases hp : proj LG LH x η
  cases η
  simp only [hp] at a' b'
  rw [a', b']

/-! ## C66 -/

theorem grad_eq {x : Pair 𝕜 m n r} {LG LH : Matrix r r 𝕜} (hL : Chol x LG LH) (g : Pair 𝕜 m n r) :
    grad LG LH x g = ⟨g.G * (x.Hᴴ * x.H)⁻¹ - ((1 / 2 : ℝ) : 𝕜) • (colP x.G * (g.G * (x.Hᴴ * x.H)⁻¹)),
      g.H * (x.Gᴴ * x.G)⁻¹ - ((1 / 2 : ℝ) : 𝕜) • (colP x.H * (g.H * (x.Gᴴ * x.G)⁻¹))⟩ := by
  unfold grad
  simp only [sol_eq hL.H, sol_eq hL.G, conjTranspose_mul, conjTranspose_conjTranspose, gram_inv_herm, colP, Matrix.mul_assoc, Matrix.smul_mul]

/-- **C66 (two factors).** If the Euclidean gradient is the one of a cost that depends on the represented matrix only (it annihilates the vertical directions), the Riemannian gradient
is horizontal and represents the derivative: its inner product with every direction is the Euclidean one. -/
theorem C66_two_factor_gradient {x : Pair 𝕜 m n r} (h : IsPt x) {LG LH : Matrix r r 𝕜} (hL : Chol x LG LH) {g : Pair 𝕜 m n r}
    (hg : ∀ Λ : Matrix r r 𝕜, ip g.G (x.G * Λ) + ip g.H (-(x.H * Λᴴ)) = 0) :
    IsHor x (grad LG LH x g) ∧ ∀ ξ, metric x (grad LG LH x g) ξ = ip g.G ξ.G + ip g.H ξ.H := by
  have hc : x.Gᴴ * g.G = g.Hᴴ * x.H := by
    refine ip_ext fun Λ => ?_
    have := hg Λ
    rw [← Matrix.mul_neg, ip_mul_left', ip_mul_left', ← ip_conjTranspose (x.Hᴴ * g.H)] at this
    simp only [conjTranspose_neg, conjTranspose_mul, conjTranspose_conjTranspose] at this
    rw [ip_comm (g.Hᴴ * x.H), ip_neg_left, ip_comm Λ] at this
    linarith
  have hG : x.Gᴴ * (grad LG LH x g).G = ((1 / 2 : ℝ) : 𝕜) • (x.Gᴴ * g.G * (x.Hᴴ * x.H)⁻¹) := by
    rw [grad_eq hL]
    simp only [Matrix.mul_sub, Matrix.mul_smul]
    rw [← Matrix.mul_assoc, ← Matrix.mul_assoc x.Gᴴ (colP x.G), mul_colP h.G, ← Matrix.mul_assoc]
    nth_rewrite 1 [← two_smul_half (x.Gᴴ * g.G * (x.Hᴴ * x.H)⁻¹)]
    abel
  have hH : x.Hᴴ * (grad LG LH x g).H = ((1 / 2 : ℝ) : 𝕜) • (x.Hᴴ * g.H * (x.Gᴴ * x.G)⁻¹) := by
    rw [grad_eq hL]
    simp only [Matrix.mul_sub, Matrix.mul_smul]
    rw [← Matrix.mul_assoc, ← Matrix.mul_assoc x.Hᴴ (colP x.H), mul_colP h.H, ← Matrix.mul_assoc]
    nth_rewrite 1 [← two_smul_half (x.Hᴴ * g.H * (x.Gᴴ * x.G)⁻¹)]
    abel
  have hH' : (grad LG LH x g).Hᴴ * x.H = ((1 / 2 : ℝ) : 𝕜) • ((x.Gᴴ * x.G)⁻¹ * (g.Hᴴ * x.H)) := by
    have := congrArg conjTranspose hH
    simpa only [conjTranspose_mul, conjTranspose_smul, conjTranspose_conjTranspose, half_star, gram_inv_herm] using this
  have hhor : IsHor x (grad LG LH x g) := by
    rw [IsHor, hG, hH', Matrix.smul_mul, Matrix.mul_smul, Matrix.mul_assoc, nonsing_inv_mul _ h.H, Matrix.mul_one, ← Matrix.mul_assoc (x.Gᴴ * x.G), mul_nonsing_inv _ h.G, Matrix.one_mul, hc]
  refine ⟨hhor, fun ξ => ?_⟩
  have e1 : rep x (grad LG LH x g) * x.H = g.G := by
    rw [rep, Matrix.add_mul, Matrix.mul_assoc, Matrix.mul_assoc, hH', ← hc, grad_eq hL]
    simp only [Matrix.sub_mul, Matrix.smul_mul, Matrix.mul_smul]
    rw [Matrix.mul_assoc (colP x.G), Matrix.mul_assoc g.G, nonsing_inv_mul _ h.H, Matrix.mul_one]
    have : x.G * ((x.Gᴴ * x.G)⁻¹ * (x.Gᴴ * g.G)) = colP x.G * g.G := by simp only [colP, Matrix.mul_assoc]
    rw [this]
    abel
  have e2 : (rep x (grad LG LH x g))ᴴ * x.G = g.H := by
    have hG' : (grad LG LH x g).Gᴴ * x.G = ((1 / 2 : ℝ) : 𝕜) • ((x.Hᴴ * x.H)⁻¹ * (g.Gᴴ * x.G)) := by
      have := congrArg conjTranspose hG
      simpa only [conjTranspose_mul, conjTranspose_smul, conjTranspose_conjTranspose, half_star, gram_inv_herm] using this
    have hc' : x.Hᴴ * g.H = g.Gᴴ * x.G := by
      have := congrArg conjTranspose hc
      simpa only [conjTranspose_mul, conjTranspose_conjTranspose] using this.symm
    rw [rep, conjTranspose_add, conjTranspose_mul, conjTranspose_mul, conjTranspose_conjTranspose, conjTranspose_conjTranspose, Matrix.add_mul, Matrix.mul_assoc, Matrix.mul_assoc, hG', ← hc',
      grad_eq hL]
    simp only [Matrix.sub_mul, Matrix.smul_mul, Matrix.mul_smul]
    rw [Matrix.mul_assoc (colP x.H), Matrix.mul_assoc g.H, nonsing_inv_mul _ h.G, Matrix.mul_one]
    have : x.H * ((x.Hᴴ * x.H)⁻¹ * (x.Hᴴ * g.H)) = colP x.H * g.H := by simp only [colP, Matrix.mul_assoc]
    rw [this]
    abel
  rw [C76_metric]
  conv_lhs => rw [show rep x ξ = ξ.G * x.Hᴴ + x.G * ξ.Hᴴ from rfl]
  rw [ip_add_right, ip_mul_right', conjTranspose_conjTranspose, e1, ip_mul_left', ← ip_conjTranspose (x.Gᴴ * _)]
  simp only [conjTranspose_mul, conjTranspose_conjTranspose]
  rw [e2]

/-- **C66 (two factors, matrix form).** For a cost with derivative `E` with respect to the represented matrix, the Euclidean gradient is `(E H, Eᴴ G)` and the Riemannian gradient
represents the projection of `E` onto the tangent space. -/
theorem C66_two_factor_rep {x : Pair 𝕜 m n r} (h : IsPt x) {LG LH : Matrix r r 𝕜} (hL : Chol x LG LH) (E : Matrix m n 𝕜) :
    rep x (grad LG LH x ⟨E * x.H, Eᴴ * x.G⟩) = tanP x E := by
  rw [grad_eq hL, rep, tanP]
  simp only [conjTranspose_sub, conjTranspose_smul, conjTranspose_mul, conjTranspose_conjTranspose, half_star, gram_inv_herm, colP_herm, Matrix.sub_mul, Matrix.mul_sub,
    Matrix.smul_mul, Matrix.mul_smul]
  have a : E * x.H * (x.Hᴴ * x.H)⁻¹ * x.Hᴴ = E * colP x.H := by simp only [colP, Matrix.mul_assoc]
  have b : x.G * ((x.Gᴴ * x.G)⁻¹ * (x.Gᴴ * E)) = colP x.G * E := by simp only [colP, Matrix.mul_assoc]
  have c : x.G * ((x.Gᴴ * x.G)⁻¹ * (x.Gᴴ * E) * colP x.H) = colP x.G * E * colP x.H := by simp only [colP, Matrix.mul_assoc]
  rw [Matrix.mul_assoc (colP x.G), a, b, c, ← Matrix.mul_assoc (colP x.G)]
  conv_rhs => rw [← two_smul_half (colP x.G * E * colP x.H)]
  abel

/-- **C76 (tangent space).** The matrices represented by horizontal pairs are exactly those without a component between the orthogonal complements of the column and row spaces. -/
theorem C76_tangent_space {x : Pair 𝕜 m n r} (h : IsPt x) {LG LH : Matrix r r 𝕜} (hL : Chol x LG LH) (A : Matrix m n 𝕜) :
    (∃ η, IsHor x η ∧ rep x η = A) ↔ (1 - colP x.G) * A * (1 - colP x.H) = 0 := by
  have e : (1 - colP x.G) * A * (1 - colP x.H) = A - tanP x A := by
    simp only [tanP, Matrix.sub_mul, Matrix.mul_sub, Matrix.one_mul, Matrix.mul_one]
    abel
  constructor
  · rintro ⟨η, -, rfl⟩
    have a : (1 - colP x.G) * x.G = 0 := by rw [Matrix.sub_mul, Matrix.one_mul, colP_mul h.G, sub_self]
    have b : x.Hᴴ * (1 - colP x.H) = 0 := by rw [Matrix.mul_sub, Matrix.mul_one, mul_colP h.H, sub_self]
    rw [rep, Matrix.mul_add, Matrix.add_mul, ← Matrix.mul_assoc, Matrix.mul_assoc _ x.Hᴴ, b, ← Matrix.mul_assoc _ x.G, a]
    simp
  · intro h0
    refine ⟨proj LG LH x (grad LG LH x ⟨A * x.H, Aᴴ * x.G⟩), (C76_projection h hL _).1, ?_⟩
    rw [(C76_projection h hL _).2.1, C66_two_factor_rep h hL]
    rw [e] at h0
    exact (sub_eq_zero.mp h0).symm

/-! ## C62 -/

/-- **C62 (two factors).** For all directions, `DiffRetraction` is horizontal at the new point and represents the velocity of the represented matrix along `t ↦ R(η + t ξ)`. -/
theorem C62_two_factor_diff (x η ξ : Pair 𝕜 m n r) (hy : IsPt (retract x η)) {LG LH : Matrix r r 𝕜} (hL : Chol (retract x η) LG LH) :
    IsHor (retract x η) (diffRetract LG LH (retract x η) ξ) ∧
    ED (fun t : ℝ => mat (retract x ⟨η.G + (t : 𝕜) • ξ.G, η.H + (t : 𝕜) • ξ.H⟩)) (rep (retract x η) (diffRetract LG LH (retract x η) ξ)) 0 := by
  obtain ⟨h1, h2, _⟩ := C76_projection hy hL ξ
  refine ⟨h1, ?_⟩
  rw [diffRetract, h2]
  have a := (ED.line (x.G + η.G) ξ.G 0).mul (ED.line (x.H + η.H) ξ.H 0).conjTranspose
  have e : (fun t : ℝ => mat (retract x ⟨η.G + (t : 𝕜) • ξ.G, η.H + (t : 𝕜) • ξ.H⟩)) = fun t : ℝ => (x.G + η.G + (t : 𝕜) • ξ.G) * (x.H + η.H + (t : 𝕜) • ξ.H)ᴴ := by
    funext t; simp only [mat, retract, add_assoc]
  rw [e]
  refine a.congr ?_
  simp [rep, retract]

/-! ## C64 -/

/-- Derivative of the projector onto the column space. -/
theorem ED.colP {k : Type*} [Fintype k] [DecidableEq k] {A : ℝ → Matrix k r 𝕜} {A' : Matrix k r 𝕜} (h : ED A A' 0) (hu : ∀ t, IsUnit ((A t)ᴴ * A t).det) :
    ED (fun t => Q2F.colP (A t)) ((1 - Q2F.colP (A 0)) * A' * (((A 0)ᴴ * A 0)⁻¹ * (A 0)ᴴ) + A 0 * ((A 0)ᴴ * A 0)⁻¹ * (A'ᴴ * (1 - Q2F.colP (A 0)))) 0 := by
  have hg : ED (fun t => (A t)ᴴ * A t) (A'ᴴ * A 0 + (A 0)ᴴ * A') 0 := h.conjTranspose.mul h
  have hi := hg.inv hu
  have := (h.mul hi).mul h.conjTranspose
  refine this.congr ?_
  simp only [Q2F.colP, Matrix.mul_sub, Matrix.sub_mul, Matrix.mul_add, Matrix.add_mul, Matrix.mul_neg, Matrix.neg_mul, Matrix.one_mul, Matrix.mul_one, Matrix.mul_assoc]
  abel

theorem hess_rep {x : Pair 𝕜 m n r} (h : IsPt x) {LG LH : Matrix r r 𝕜} (hL : Chol x LG LH) (η : Pair 𝕜 m n r) (E E' : Matrix m n 𝕜) :
    rep x (hess LG LH x ⟨E * x.H, Eᴴ * x.G⟩ η ⟨E' * x.H + E * η.H, E'ᴴ * x.G + Eᴴ * η.G⟩) =
      tanP x E' + (1 - colP x.G) * E * (1 - colP x.H) * η.H * (x.Hᴴ * x.H)⁻¹ * x.Hᴴ +
        x.G * (x.Gᴴ * x.G)⁻¹ * η.Gᴴ * (1 - colP x.G) * E * (1 - colP x.H) := by
  unfold hess
  rw [(C76_projection h hL _).2.1]
  have hh : ((1 / 2 : ℝ) : 𝕜) = 1 / 2 := by push_cast; rfl
  have hs : star (1 / 2 : 𝕜) = 1 / 2 := by rw [← hh]; exact half_star
  simp only [sol_eq hL.H, sol_eq hL.G, hh, rep, tanP, colP, conjTranspose_mul, conjTranspose_add, conjTranspose_sub, conjTranspose_smul, conjTranspose_conjTranspose, gram_inv_herm, hs,
    Matrix.mul_add, Matrix.add_mul, Matrix.mul_sub, Matrix.sub_mul, Matrix.smul_mul, Matrix.mul_smul, Matrix.one_mul, Matrix.mul_one, Matrix.mul_assoc]
  module

theorem tanP_add (x : Pair 𝕜 m n r) (A B : Matrix m n 𝕜) : tanP x (A + B) = tanP x A + tanP x B := by
  simp only [tanP, Matrix.add_mul, Matrix.mul_add]
  abel

theorem tanP_left {x : Pair 𝕜 m n r} (h : IsPt x) (A : Matrix m n 𝕜) : tanP x (A * (1 - colP x.H)) = colP x.G * A * (1 - colP x.H) := by
  have z : A * (1 - colP x.H) * colP x.H = 0 := by rw [Matrix.mul_assoc, Matrix.sub_mul, Matrix.one_mul, colP_idem h.H, sub_self, Matrix.mul_zero]
  rw [tanP, z, Matrix.mul_assoc (colP x.G), z, Matrix.mul_zero, add_zero, sub_zero, Matrix.mul_assoc]

theorem tanP_right {x : Pair 𝕜 m n r} (h : IsPt x) (A : Matrix m n 𝕜) : tanP x ((1 - colP x.G) * A) = (1 - colP x.G) * (A * colP x.H) := by
  have z : colP x.G * ((1 - colP x.G) * A) = 0 := by rw [← Matrix.mul_assoc, Matrix.mul_sub, Matrix.mul_one, colP_idem h.G, sub_self, Matrix.zero_mul]
  rw [tanP, z, Matrix.zero_mul, zero_add, sub_zero, Matrix.mul_assoc]

theorem tanP_idem {x : Pair 𝕜 m n r} (h : IsPt x) (A : Matrix m n 𝕜) : tanP x (tanP x A) = tanP x A := by
  have e : tanP x A = colP x.G * A * (1 - colP x.H) + A * colP x.H := by
    simp only [tanP, Matrix.mul_sub, Matrix.mul_one]; abel
  have k : tanP x (A * colP x.H) = A * colP x.H := by
    rw [tanP, Matrix.mul_assoc A, colP_idem h.H, Matrix.mul_assoc (colP x.G), Matrix.mul_assoc A, colP_idem h.H]
    abel
  rw [e, tanP_add, tanP_left h, k, ← Matrix.mul_assoc, colP_idem h.G]

/-- Tangential part of the derivative of the projected field. -/
theorem tanP_deriv {η : Pair 𝕜 m n r} {γ : ℝ → Pair 𝕜 m n r} {E : ℝ → Matrix m n 𝕜} {E' : Matrix m n 𝕜} (hγ : ∀ t, IsPt (γ t))
    (hG : ED (fun t => (γ t).G) η.G 0) (hH : ED (fun t => (γ t).H) η.H 0) (hE : ED E E' 0) :
    ∃ W, ED (fun t => tanP (γ t) (E t)) W 0 ∧ tanP (γ 0) W = tanP (γ 0) E' +
      (1 - colP (γ 0).G) * E 0 * (1 - colP (γ 0).H) * η.H * ((γ 0).Hᴴ * (γ 0).H)⁻¹ * (γ 0).Hᴴ +
        (γ 0).G * ((γ 0).Gᴴ * (γ 0).G)⁻¹ * η.Gᴴ * (1 - colP (γ 0).G) * E 0 * (1 - colP (γ 0).H) := by
  have h : IsPt (γ 0) := hγ 0
  have dG := ED.colP hG fun t => (hγ t).G
  have dH := ED.colP hH fun t => (hγ t).H
  have d := ((dG.mul hE).add (hE.mul dH)).sub ((dG.mul hE).mul dH)
  refine ⟨_, d, ?_⟩
  generalize hA : (1 - colP (γ 0).G) * η.G * (((γ 0).Gᴴ * (γ 0).G)⁻¹ * (γ 0).Gᴴ) + (γ 0).G * ((γ 0).Gᴴ * (γ 0).G)⁻¹ * (η.Gᴴ * (1 - colP (γ 0).G)) = P'
  generalize hB : (1 - colP (γ 0).H) * η.H * (((γ 0).Hᴴ * (γ 0).H)⁻¹ * (γ 0).Hᴴ) + (γ 0).H * ((γ 0).Hᴴ * (γ 0).H)⁻¹ * (η.Hᴴ * (1 - colP (γ 0).H)) = Q'
  have key : P' * E 0 + colP (γ 0).G * E' + (E' * colP (γ 0).H + E 0 * Q') - ((P' * E 0 + colP (γ 0).G * E') * colP (γ 0).H + colP (γ 0).G * E 0 * Q') =
      tanP (γ 0) E' + (1 - colP (γ 0).G) * (E 0 * Q') + P' * E 0 * (1 - colP (γ 0).H) := by
    simp only [tanP, Matrix.sub_mul, Matrix.mul_sub, Matrix.add_mul, Matrix.one_mul, Matrix.mul_one, Matrix.mul_assoc]
    abel
  rw [key, tanP_add, tanP_add, tanP_idem h, tanP_left h, tanP_right h]
  have zG : colP (γ 0).G * (1 - colP (γ 0).G) = 0 := by rw [Matrix.mul_sub, Matrix.mul_one, colP_idem h.G, sub_self]
  have zH : (1 - colP (γ 0).H) * colP (γ 0).H = 0 := by rw [Matrix.sub_mul, Matrix.one_mul, colP_idem h.H, sub_self]
  have a : colP (γ 0).G * P' = (γ 0).G * ((γ 0).Gᴴ * (γ 0).G)⁻¹ * (η.Gᴴ * (1 - colP (γ 0).G)) := by
    have z2 : colP (γ 0).G * ((1 - colP (γ 0).G) * η.G * (((γ 0).Gᴴ * (γ 0).G)⁻¹ * (γ 0).Gᴴ)) = 0 := by
      rw [Matrix.mul_assoc, ← Matrix.mul_assoc, zG, Matrix.zero_mul]
    rw [← hA, Matrix.mul_add, z2, zero_add, Matrix.mul_assoc (γ 0).G, ← Matrix.mul_assoc (colP _), colP_mul h.G]
  have b : Q' * colP (γ 0).H = (1 - colP (γ 0).H) * η.H * (((γ 0).Hᴴ * (γ 0).H)⁻¹ * (γ 0).Hᴴ) := by
    rw [← hB, Matrix.add_mul, Matrix.mul_assoc _ (η.Hᴴ * _), Matrix.mul_assoc η.Hᴴ, zH, Matrix.mul_zero, Matrix.mul_zero, add_zero, Matrix.mul_assoc _ _ (colP _), Matrix.mul_assoc _ (γ 0).Hᴴ,
      mul_colP h.H]
  rw [← Matrix.mul_assoc (colP (γ 0).G), a, Matrix.mul_assoc (E 0), b]
  simp only [Matrix.mul_assoc]

/-- **C64 (two factors).** Take a differentiable curve of points with velocity `η` and ambient gradients `E(t)` along it. If `eg` is the Euclidean gradient `(E H, Eᴴ G)` at the point
and `exix` its derivative along the curve, the coded Hessian is horizontal and represents the tangential part of the derivative of the Riemannian gradient field. -/
theorem C64_two_factor_hessian {x η eg exix : Pair 𝕜 m n r} {LG LH : Matrix r r 𝕜} {γ : ℝ → Pair 𝕜 m n r} {E : ℝ → Matrix m n 𝕜} {E' : Matrix m n 𝕜} (hγ : ∀ t, IsPt (γ t))
    (h0 : γ 0 = x) (hL : Chol x LG LH) (hG : ED (fun t => (γ t).G) η.G 0) (hH : ED (fun t => (γ t).H) η.H 0) (hE : ED E E' 0)
    (heg : eg = ⟨E 0 * x.H, (E 0)ᴴ * x.G⟩) (hxG : ED (fun t => E t * (γ t).H) exix.G 0) (hxH : ED (fun t => (E t)ᴴ * (γ t).G) exix.H 0) :
    IsHor x (hess LG LH x eg η exix) ∧ ∃ W, ED (fun t => tanP (γ t) (E t)) W 0 ∧ rep x (hess LG LH x eg η exix) = tanP x W := by
  have h : IsPt x := h0 ▸ hγ 0
  subst h0
  refine ⟨(C76_projection h hL _).1, ?_⟩
  have e1 : exix.G = E' * (γ 0).H + E 0 * η.H := hxG.unique (hE.mul hH)
  have e2 : exix.H = E'ᴴ * (γ 0).G + (E 0)ᴴ * η.G := hxH.unique (hE.conjTranspose.mul hG)
  have e3 : exix = ⟨E' * (γ 0).H + E 0 * η.H, E'ᴴ * (γ 0).G + (E 0)ᴴ * η.G⟩ := by rw [← e1, ← e2]
  obtain ⟨W, dW, hW⟩ := tanP_deriv hγ hG hH hE
  exact ⟨W, dW, by rw [heg, e3, hess_rep h hL, hW]⟩

/-- The bilinear form of the Hessian formula. -/
theorem hess_ip {x : Pair 𝕜 m n r} (h : IsPt x) (E A : Matrix m n 𝕜) (ζ ζ' : Pair 𝕜 m n r) :
    ip (tanP x A + (1 - colP x.G) * E * (1 - colP x.H) * ζ.H * (x.Hᴴ * x.H)⁻¹ * x.Hᴴ +
        x.G * (x.Gᴴ * x.G)⁻¹ * ζ.Gᴴ * (1 - colP x.G) * E * (1 - colP x.H)) (rep x ζ') =
      ip A (rep x ζ') + (ip ((1 - colP x.G) * E * (1 - colP x.H)) (ζ'.G * ζ.Hᴴ) + ip ((1 - colP x.G) * E * (1 - colP x.H)) (ζ.G * ζ'.Hᴴ)) := by
  set N := (1 - colP x.G) * E * (1 - colP x.H) with hN
  have nG : x.Gᴴ * N = 0 := by
    have z : x.Gᴴ * (1 - colP x.G) = 0 := by rw [Matrix.mul_sub, Matrix.mul_one, mul_colP h.G, sub_self]
    rw [hN, ← Matrix.mul_assoc, ← Matrix.mul_assoc, z, Matrix.zero_mul, Matrix.zero_mul]
  have nH : N * x.H = 0 := by
    have z : (1 - colP x.H) * x.H = 0 := by rw [Matrix.sub_mul, Matrix.one_mul, colP_mul h.H, sub_self]
    rw [hN, Matrix.mul_assoc, z, Matrix.mul_zero]
  rw [ip_add_left, ip_add_left, add_assoc]
  congr 1
  · have t : tanP x (rep x ζ') = rep x ζ' := by
      rw [tanP, rep, Matrix.mul_add, Matrix.add_mul, Matrix.add_mul, ← Matrix.mul_assoc (colP x.G) x.G, colP_mul h.G, Matrix.mul_assoc ζ'.G, mul_colP h.H, ← Matrix.mul_assoc (colP x.G),
        Matrix.mul_assoc _ x.Hᴴ, mul_colP h.H]
      abel
    have adj : ∀ A B : Matrix m n 𝕜, ip (tanP x A) B = ip A (tanP x B) := by
      intro A B
      simp only [tanP, ip_add_left, ip_sub_left, ip_add_right, ip_sub_right]
      rw [ip_mul_left, ip_mul_right, ip_mul_right, ip_mul_left, colP_herm, colP_herm, Matrix.mul_assoc]
    rw [adj, t]
  · congr 1
    · have e : (1 - colP x.G) * E * (1 - colP x.H) * ζ.H * (x.Hᴴ * x.H)⁻¹ * x.Hᴴ = N * (ζ.H * ((x.Hᴴ * x.H)⁻¹ * x.Hᴴ)) := by simp only [hN, Matrix.mul_assoc]
      rw [e, rep, ip_add_right, ip_mul_right, ip_mul_right N]
      have z : ip N (x.G * ζ'.Hᴴ * (ζ.H * ((x.Hᴴ * x.H)⁻¹ * x.Hᴴ))ᴴ) = 0 := by
        rw [Matrix.mul_assoc, ip_mul_left', nG, ip_zero_left]
      rw [z, add_zero]
      simp only [conjTranspose_mul, conjTranspose_conjTranspose, gram_inv_herm]
      rw [Matrix.mul_assoc ζ'.G, ← Matrix.mul_assoc x.Hᴴ, ← Matrix.mul_assoc x.Hᴴ, mul_nonsing_inv _ h.H, Matrix.one_mul]
    · have e : x.G * (x.Gᴴ * x.G)⁻¹ * ζ.Gᴴ * (1 - colP x.G) * E * (1 - colP x.H) = (x.G * (x.Gᴴ * x.G)⁻¹ * ζ.Gᴴ) * N := by simp only [hN, Matrix.mul_assoc]
      rw [e, rep, ip_add_right, ip_mul_left, ip_mul_left _ N]
      have z : ip N ((x.G * (x.Gᴴ * x.G)⁻¹ * ζ.Gᴴ)ᴴ * (ζ'.G * x.Hᴴ)) = 0 := by
        rw [← Matrix.mul_assoc, ip_mul_right', conjTranspose_conjTranspose, nH, ip_zero_left]
      rw [z, zero_add]
      simp only [conjTranspose_mul, conjTranspose_conjTranspose, gram_inv_herm]
      rw [Matrix.mul_assoc ζ.G, Matrix.mul_assoc _ x.Gᴴ, ← Matrix.mul_assoc x.Gᴴ x.G, ← Matrix.mul_assoc _ (x.Gᴴ * x.G), nonsing_inv_mul _ h.G, Matrix.one_mul]
/-- **C64 (two factors, symmetry).** If the Hessian of the cost as a function of the represented matrix is symmetric, so is the coded Riemannian Hessian. -/
theorem C64_two_factor_symmetric {x : Pair 𝕜 m n r} (h : IsPt x) {LG LH : Matrix r r 𝕜} (hL : Chol x LG LH) (E : Matrix m n 𝕜) (H : Matrix m n 𝕜 → Matrix m n 𝕜)
    (hH : ∀ A B, ip (H A) B = ip A (H B)) (η ξ : Pair 𝕜 m n r) :
    metric x (hess LG LH x ⟨E * x.H, Eᴴ * x.G⟩ η ⟨H (rep x η) * x.H + E * η.H, (H (rep x η))ᴴ * x.G + Eᴴ * η.G⟩) ξ =
    metric x η (hess LG LH x ⟨E * x.H, Eᴴ * x.G⟩ ξ ⟨H (rep x ξ) * x.H + E * ξ.H, (H (rep x ξ))ᴴ * x.G + Eᴴ * ξ.G⟩) := by
  have half : ∀ ζ ζ' : Pair 𝕜 m n r, ip (rep x (hess LG LH x ⟨E * x.H, Eᴴ * x.G⟩ ζ ⟨H (rep x ζ) * x.H + E * ζ.H, (H (rep x ζ))ᴴ * x.G + Eᴴ * ζ.G⟩)) (rep x ζ') =
      ip (H (rep x ζ)) (rep x ζ') + (ip ((1 - colP x.G) * E * (1 - colP x.H)) (ζ'.G * ζ.Hᴴ) + ip ((1 - colP x.G) * E * (1 - colP x.H)) (ζ.G * ζ'.Hᴴ)) := by
    intro ζ ζ'
    rw [hess_rep h hL, hess_ip h]
  rw [C76_metric, C76_metric, ip_comm (rep x η), half η ξ, half ξ η, hH, ip_comm (rep x η)]
  ring

/-! ## C44 -/

/-- **C44 (two factors), negation.** At every point there is a direction, horizontal, whose retraction represents the zero matrix. -/
theorem C44_two_factor_rank_drops {x : Pair 𝕜 m n r} : ∃ η, IsHor x η ∧ mat (retract x η) = 0 := by
  refine ⟨⟨-x.G, -x.H⟩, ?_, by simp [mat, retract]⟩
  simp [IsHor]

/-- **C44 (two factors), proved part.** When the Gram matrices of the new factors are invertible the represented matrix has rank `r`. Missing: see `C44_two_factor_rank_drops`. -/
theorem C44_two_factor_rank_partial {x η : Pair 𝕜 m n r} (hy : IsPt (retract x η)) : (mat (retract x η)).rank = Fintype.card r := by
  set y := retract x η
  apply le_antisymm
  · exact (rank_mul_le_left _ _).trans (rank_le_card_width _)
  · have e : y.Gᴴ * y.G * (y.Hᴴ * y.H) = y.Gᴴ * mat y * y.H := by simp only [mat, Matrix.mul_assoc]
    have hu : IsUnit (y.Gᴴ * y.G * (y.Hᴴ * y.H)) := by
      rw [isUnit_iff_isUnit_det, det_mul]; exact hy.G.mul hy.H
    rw [← rank_of_isUnit _ hu, e]
    exact (rank_mul_le_left _ _).trans (rank_mul_le_right _ _)

/-! ## Concrete instances -/

/-- A point with `1 × 1` factors. -/
def exX : Pair ℝ (Fin 2) (Fin 2) (Fin 1) := ⟨!![1; 0], !![2; 0]⟩

theorem exX_isPt : IsPt exX := by
  constructor <;> simp [exX, Matrix.mul_apply]

theorem exX_chol : Chol exX !![1] !![2] := by
  constructor <;> (ext i j; fin_cases i; fin_cases j; simp [exX, Matrix.mul_apply, dotProduct, Matrix.vecMul])

example (η : Pair ℝ (Fin 2) (Fin 2) (Fin 1)) : rep exX (proj !![1] !![2] exX η) = rep exX η := (C76_projection exX_isPt exX_chol η).2.1
example : ∃ η, IsHor exX η ∧ rep exX η = !![3, 4; 5, 0] := by
  refine (C76_tangent_space exX_isPt exX_chol _).mpr ?_
  ext i j; fin_cases i <;> fin_cases j <;> simp [exX, colP, Matrix.mul_apply, Matrix.inv_def, dotProduct, Matrix.vecMul]

end Verif.Q2F
