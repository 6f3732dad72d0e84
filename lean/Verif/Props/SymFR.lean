import Verif.Manifold.SymFR
import Verif.Props.Q2F

/-!
# Symmetric fixed-rank matrices: properties C80, C62, C64, C66, C44

Properties of the quotient geometry, for real and complex matrices.
-/

set_option linter.unusedSectionVars false
set_option linter.unusedVariables false
set_option linter.unusedSimpArgs false

namespace Verif.SymFR

open Matrix Verif.CMat Verif.Curve

variable {𝕜 : Type*} [RCLike 𝕜]
variable {n p : Type*} [Fintype n] [Fintype p] [DecidableEq n] [DecidableEq p]

/-! ## Specification -/

/-- A point: linearly independent columns. -/
def IsPt (x : Matrix n p 𝕜) : Prop := IsUnit (xᴴ * x).det

/-- The matrix a point represents. -/
def mat (x : Matrix n p 𝕜) : Matrix n n 𝕜 := x * xᴴ

/-- The change of the represented matrix along a direction. -/
def rep (x η : Matrix n p 𝕜) : Matrix n n 𝕜 := η * xᴴ + x * ηᴴ

/-- Horizontal vectors of a metric: orthogonal to the directions `x Ω`, `Ω` skew, along which the represented matrix does not change. -/
def IsHor (g : Matrix n p 𝕜 → Matrix n p 𝕜 → Matrix n p 𝕜 → ℝ) (x η : Matrix n p 𝕜) : Prop := ∀ Ω : Matrix p p 𝕜, Ωᴴ = -Ω → g x (x * Ω) η = 0

/-- The Euclidean gradient of a function of the represented matrix: it vanishes along `x Ω`. -/
def Inv (x E : Matrix n p 𝕜) : Prop := ∀ Ω : Matrix p p 𝕜, Ωᴴ = -Ω → ip E (x * Ω) = 0

/-- `syl` solves Sylvester equations with the matrix `S` (Property C68). -/
def IsSyl (syl : Matrix p p 𝕜 → Matrix p p 𝕜 → Matrix p p 𝕜 → Matrix p p 𝕜) (S : Matrix p p 𝕜) : Prop := ∀ C, S * syl S S C + syl S S C * S = C

/-- Covariant derivative of the metric `g` (Koszul formula with constant fields): `v` is the derivative along `η` of a field with value `z` and derivative `dz`. -/
def IsCov (g : Matrix n p 𝕜 → Matrix n p 𝕜 → Matrix n p 𝕜 → ℝ) (x η z dz v : Matrix n p 𝕜) : Prop := ∀ l : Matrix n p 𝕜, ∃ d₁ d₂ d₃ : ℝ,
  HasDerivAt (fun t : ℝ => g (x + (t : 𝕜) • η) z l) d₁ 0 ∧ HasDerivAt (fun t : ℝ => g (x + (t : 𝕜) • z) η l) d₂ 0 ∧
  HasDerivAt (fun t : ℝ => g (x + (t : 𝕜) • l) η z) d₃ 0 ∧ 2 * g x v l = 2 * g x dz l + d₁ + d₂ - d₃

/-! ## Auxiliary lemmas -/

theorem gram_herm (x : Matrix n p 𝕜) : (xᴴ * x)ᴴ = xᴴ * x := by rw [conjTranspose_mul, conjTranspose_conjTranspose]

theorem skew_orth {M : Matrix p p 𝕜} : (∀ Ω : Matrix p p 𝕜, Ωᴴ = -Ω → ip Ω M = 0) ↔ Mᴴ = M := by
  constructor
  · intro h
    have hk : (M - Mᴴ)ᴴ = -(M - Mᴴ) := by rw [conjTranspose_sub, conjTranspose_conjTranspose]; abel
    have h1 := h _ hk
    have h2 : ip (M - Mᴴ) Mᴴ = 0 := by
      rw [← ip_conjTranspose, conjTranspose_conjTranspose, hk, ip_neg_left, h1, neg_zero]
    have h3 : ip (M - Mᴴ) (M - Mᴴ) = 0 := by rw [ip_sub_right, h1, h2, sub_zero]
    exact (sub_eq_zero.mp (ip_self_eq_zero.mp h3)).symm
  · intro h Ω hΩ
    have : ip Ω M = -ip Ω M := by
      conv_lhs => rw [← ip_conjTranspose, hΩ, h, ip_neg_left]
    linarith

theorem cancel_left {x : Matrix n p 𝕜} (h : IsPt x) {q : Type*} {A : Matrix p q 𝕜} (e : x * A = 0) : A = 0 := by
  have : xᴴ * x * A = 0 := by rw [Matrix.mul_assoc, e, Matrix.mul_zero]
  rw [← Matrix.one_mul A, ← nonsing_inv_mul _ h, Matrix.mul_assoc, this, Matrix.mul_zero]

theorem cancel_both {x : Matrix n p 𝕜} (h : IsPt x) {A : Matrix p p 𝕜} (e : x * A * xᴴ = 0) : A = 0 := by
  have h1 : A * xᴴ = 0 := cancel_left h (by rw [← Matrix.mul_assoc, e])
  have h2 : x * Aᴴ = 0 := by rw [← conjTranspose_conjTranspose x, ← conjTranspose_mul, h1, conjTranspose_zero]
  have := cancel_left h h2
  rw [← conjTranspose_conjTranspose A, this, conjTranspose_zero]

theorem metricH_vert (x η : Matrix n p 𝕜) (Ω : Matrix p p 𝕜) : metricH x (x * Ω) η = ip Ω (xᴴ * η * (xᴴ * x)) := by
  rw [metricH, conjTranspose_mul, Matrix.mul_assoc, ip_mul_left', conjTranspose_conjTranspose, ip_mul_right, gram_herm]

theorem hor_H {x : Matrix n p 𝕜} (η : Matrix n p 𝕜) : IsHor metricH x η ↔ (xᴴ * η * (xᴴ * x))ᴴ = xᴴ * η * (xᴴ * x) := by
  rw [← skew_orth]
  simp only [IsHor, metricH_vert]

/-- Horizontal vectors by their coefficient matrix. -/
theorem hor_iff {x : Matrix n p 𝕜} (h : IsPt x) (η : Matrix n p 𝕜) :
    IsHor metricH x η ↔ ((xᴴ * x)⁻¹ * (xᴴ * η))ᴴ = (xᴴ * x)⁻¹ * (xᴴ * η) := by
  rw [hor_H]
  have e : xᴴ * η * (xᴴ * x) = (xᴴ * x) * ((xᴴ * x)⁻¹ * (xᴴ * η)) * (xᴴ * x) := by
    rw [← Matrix.mul_assoc (xᴴ * x), mul_nonsing_inv _ h, Matrix.one_mul]
  set S := xᴴ * x with hS
  set W := S⁻¹ * (xᴴ * η) with hW
  have hs : Sᴴ = S := gram_herm x
  rw [e]
  constructor
  · intro k
    rw [conjTranspose_mul (S * W), conjTranspose_mul S W, hs] at k
    have k1 : S⁻¹ * (S * (Wᴴ * S)) * S⁻¹ = S⁻¹ * (S * W * S) * S⁻¹ := by rw [k]
    rw [← Matrix.mul_assoc, nonsing_inv_mul _ h, Matrix.one_mul, Matrix.mul_assoc Wᴴ, mul_nonsing_inv _ h, Matrix.mul_one, Matrix.mul_assoc S, ← Matrix.mul_assoc S⁻¹, nonsing_inv_mul _ h,
      Matrix.one_mul, Matrix.mul_assoc W, mul_nonsing_inv _ h, Matrix.mul_one] at k1
    exact k1
  · intro k
    rw [conjTranspose_mul (S * W), conjTranspose_mul S W, hs, k, Matrix.mul_assoc S W S]

theorem hor_Q (x η : Matrix n p 𝕜) : IsHor metricQ x η ↔ (xᴴ * η)ᴴ = xᴴ * η := by
  rw [← skew_orth]
  simp only [IsHor, metricQ, ip_mul_left]

theorem inv_iff (x E : Matrix n p 𝕜) : Inv x E ↔ (xᴴ * E)ᴴ = xᴴ * E := by
  rw [← skew_orth]
  have e : ∀ Ω : Matrix p p 𝕜, ip Ω (xᴴ * E) = ip E (x * Ω) := fun Ω => by rw [ip_comm E, ip_mul_left]
  simp only [Inv, e]

theorem half_add (A : Matrix p p 𝕜) : A - ((1 / 2 : ℝ) : 𝕜) • (A - Aᴴ) = ((1 / 2 : ℝ) : 𝕜) • (A + Aᴴ) := by
  have := Q2F.two_smul_half A
  rw [smul_sub, smul_add]
  nth_rewrite 1 [← this]
  abel

theorem half_skew (A : Matrix p p 𝕜) : (((1 / 2 : ℝ) : 𝕜) • (A - Aᴴ))ᴴ = -(((1 / 2 : ℝ) : 𝕜) • (A - Aᴴ)) := by
  rw [conjTranspose_smul, Q2F.half_star, conjTranspose_sub, conjTranspose_conjTranspose, ← smul_neg]
  congr 1; abel

/-- Vertical vectors do not change the represented matrix. -/
theorem rep_vert (x : Matrix n p 𝕜) {Ω : Matrix p p 𝕜} (hΩ : Ωᴴ = -Ω) : rep x (x * Ω) = 0 := by
  rw [rep, conjTranspose_mul, hΩ, Matrix.neg_mul, Matrix.mul_neg, Matrix.mul_assoc, add_neg_cancel]

theorem rep_sub (x η ξ : Matrix n p 𝕜) : rep x (η - ξ) = rep x η - rep x ξ := by
  simp only [rep, Matrix.sub_mul, conjTranspose_sub, Matrix.mul_sub]; abel

/-! ## C80 -/

/-- **C80.** The first metric is the inner product of the represented changes. -/
theorem C80_metric (x η ξ : Matrix n p 𝕜) : metricE x η ξ = ip (rep x η) (rep x ξ) := by
  have a : ip (η * xᴴ) (ξ * xᴴ) = ip (xᴴ * x) (ηᴴ * ξ) := by
    rw [ip_mul_left, ← Matrix.mul_assoc, ip_mul_right', conjTranspose_conjTranspose]
  have b : ip (x * ηᴴ) (x * ξᴴ) = ip (η * xᴴ) (ξ * xᴴ) := by
    rw [← ip_conjTranspose]; simp only [conjTranspose_mul, conjTranspose_conjTranspose]
  have c : ip (η * xᴴ) (x * ξᴴ) = ip (ηᴴ * x) (xᴴ * ξ) := by
    rw [ip_mul_left, ← Matrix.mul_assoc, ip_mul_right', conjTranspose_conjTranspose, ip_comm]
  have d : ip (x * ηᴴ) (ξ * xᴴ) = ip (η * xᴴ) (x * ξᴴ) := by
    rw [← ip_conjTranspose]; simp only [conjTranspose_mul, conjTranspose_conjTranspose]
  rw [rep, rep, ip_add_left, ip_add_right, ip_add_right, a, b, c, d, c, a, metricE]
  ring

/-- **C80.** At a point, the directions along which the represented matrix does not change are exactly `x Ω` with `Ω` skew. -/
theorem C80_vertical {x : Matrix n p 𝕜} (h : IsPt x) (η : Matrix n p 𝕜) : rep x η = 0 ↔ ∃ Ω : Matrix p p 𝕜, Ωᴴ = -Ω ∧ η = x * Ω := by
  constructor
  · intro e
    have e1 : η * xᴴ = -(x * ηᴴ) := eq_neg_of_add_eq_zero_left e
    have e2 : η = x * -(ηᴴ * x * (xᴴ * x)⁻¹) := by
      have : η * xᴴ * (x * (xᴴ * x)⁻¹) = η := by rw [Matrix.mul_assoc, ← Matrix.mul_assoc xᴴ, mul_nonsing_inv _ h, Matrix.mul_one]
      rw [e1] at this
      rw [Matrix.mul_neg, ← Matrix.mul_assoc, ← Matrix.mul_assoc]
      rw [Matrix.neg_mul, ← Matrix.mul_assoc] at this
      exact this.symm
    set Ω := -(ηᴴ * x * (xᴴ * x)⁻¹) with hΩ
    refine ⟨Ω, ?_, e2⟩
    have : x * (Ω + Ωᴴ) * xᴴ = 0 := by
      rw [rep] at e
      nth_rewrite 1 [e2] at e
      rw [e2, conjTranspose_mul, ← Matrix.mul_assoc, ← Matrix.add_mul, ← Matrix.mul_add] at e
      exact e
    have := cancel_both h this
    exact eq_neg_of_add_eq_zero_right this
  · rintro ⟨Ω, hΩ, rfl⟩
    exact rep_vert x hΩ

/-- **C80.** `Projection` for the first and the third kind of metric: the result is horizontal, represents the same change, has the same first metric against every direction; horizontal
vectors are fixed; the projection is symmetric for the metric. -/
theorem C80_projection {x : Matrix n p 𝕜} (h : IsPt x) (η : Matrix n p 𝕜) :
    IsHor metricH x (proj x η) ∧ rep x (proj x η) = rep x η ∧ (∀ ξ, metricE x (proj x η) ξ = metricE x η ξ) ∧
    (IsHor metricH x η → proj x η = η) ∧ proj x (proj x η) = proj x η ∧ (∀ ξ, metricH x (proj x η) ξ = metricH x η (proj x ξ)) := by
  have hor : ∀ η : Matrix n p 𝕜, IsHor metricH x (proj x η) := by
    intro η
    rw [hor_iff h]
    have e : (xᴴ * x)⁻¹ * (xᴴ * proj x η) = ((1 / 2 : ℝ) : 𝕜) • ((xᴴ * x)⁻¹ * (xᴴ * η) + ((xᴴ * x)⁻¹ * (xᴴ * η))ᴴ) := by
      rw [← half_add, proj, Matrix.mul_sub, Matrix.mul_sub, ← Matrix.mul_assoc xᴴ x, ← Matrix.mul_assoc _ (xᴴ * x), nonsing_inv_mul _ h, Matrix.one_mul]
    rw [e, conjTranspose_smul, Q2F.half_star, conjTranspose_add, conjTranspose_conjTranspose, add_comm]
  have r : rep x (proj x η) = rep x η := by
    rw [proj, rep_sub, rep_vert x (half_skew _), sub_zero]
  have fix : ∀ η : Matrix n p 𝕜, IsHor metricH x η → proj x η = η := by
    intro η k
    rw [hor_iff h] at k
    rw [proj, k, sub_self, smul_zero, Matrix.mul_zero, sub_zero]
  have half : ∀ η ξ : Matrix n p 𝕜, metricH x η (proj x ξ) = metricH x (proj x η) (proj x ξ) := by
    intro η ξ
    have := hor ξ _ (half_skew ((xᴴ * x)⁻¹ * (xᴴ * η)))
    have e : metricH x (proj x η) (proj x ξ) = metricH x η (proj x ξ) - metricH x (x * (((1 / 2 : ℝ) : 𝕜) • ((xᴴ * x)⁻¹ * (xᴴ * η) - ((xᴴ * x)⁻¹ * (xᴴ * η))ᴴ))) (proj x ξ) := by
      conv_lhs => rw [metricH, proj]
      simp only [metricH, conjTranspose_sub, Matrix.sub_mul, ip_sub_right]
    rw [e, this, sub_zero]
  have sy : ∀ η ξ : Matrix n p 𝕜, metricH x η ξ = metricH x ξ η := by
    intro η ξ
    rw [metricH, metricH, ← ip_conjTranspose]
    simp only [conjTranspose_mul, conjTranspose_conjTranspose]
  refine ⟨hor η, r, fun ξ => by rw [C80_metric, C80_metric, r], fix η, fix _ (hor η), fun ξ => ?_⟩
  rw [half η ξ, sy, half ξ η, sy]

/-- **C80.** A horizontal vector that represents no change is zero; hence the first metric is positive definite on horizontal vectors. -/
theorem C80_horizontal_unique {x : Matrix n p 𝕜} (h : IsPt x) {η : Matrix n p 𝕜} (hh : IsHor metricH x η) (h0 : rep x η = 0) : η = 0 := by
  obtain ⟨Ω, hΩ, rfl⟩ := (C80_vertical h η).mp h0
  rw [hor_iff h, ← Matrix.mul_assoc xᴴ, ← Matrix.mul_assoc _ (xᴴ * x), nonsing_inv_mul _ h, Matrix.one_mul, hΩ] at hh
  have : (2 : 𝕜) • Ω = 0 := by rw [two_smul]; nth_rewrite 1 [← hh]; exact neg_add_cancel Ω
  rw [(smul_eq_zero.mp this).resolve_left two_ne_zero, Matrix.mul_zero]

theorem C80_metric_pos {x : Matrix n p 𝕜} (h : IsPt x) {η : Matrix n p 𝕜} (hh : IsHor metricH x η) : 0 ≤ metricE x η η ∧ (metricE x η η = 0 → η = 0) := by
  rw [C80_metric]
  exact ⟨ip_self_nonneg _, fun e => C80_horizontal_unique h hh (ip_self_eq_zero.mp e)⟩

theorem metricH_eq (x η ξ : Matrix n p 𝕜) : metricH x η ξ = ip (η * xᴴ) (ξ * xᴴ) := by
  rw [ip_mul_left, ← Matrix.mul_assoc, ip_mul_right', conjTranspose_conjTranspose, metricH]

/-- **C80.** The metric HGZ is positive definite. -/
theorem C80_metric_pos_hgz {x : Matrix n p 𝕜} (h : IsPt x) (η : Matrix n p 𝕜) : 0 ≤ metricH x η η ∧ (metricH x η η = 0 → η = 0) := by
  rw [metricH_eq]
  refine ⟨ip_self_nonneg _, fun e => ?_⟩
  have e1 := ip_self_eq_zero.mp e
  have e2 : x * ηᴴ = 0 := by rw [← conjTranspose_conjTranspose x, ← conjTranspose_mul, e1, conjTranspose_zero]
  rw [← conjTranspose_conjTranspose η, cancel_left h e2, conjTranspose_zero]

/-- Solutions of the Sylvester equation with the Gram matrix of a point are unique. -/
theorem syl_unique {x : Matrix n p 𝕜} (h : IsPt x) {T : Matrix p p 𝕜} (e : xᴴ * x * T + T * (xᴴ * x) = 0) : T = 0 := by
  have e1 : ip T (xᴴ * x * T) + ip T (T * (xᴴ * x)) = 0 := by rw [← ip_add_right, e, ip_zero_right]
  have e2 : ip T (xᴴ * x * T) = ip (x * T) (x * T) := by rw [ip_mul_left, Matrix.mul_assoc]
  have e3 : ip T (T * (xᴴ * x)) = ip (T * xᴴ) (T * xᴴ) := by rw [ip_mul_right, conjTranspose_conjTranspose, Matrix.mul_assoc]
  rw [e2, e3] at e1
  have p1 := ip_self_nonneg (x * T)
  have p2 := ip_self_nonneg (T * xᴴ)
  exact cancel_left h (ip_self_eq_zero.mp (by linarith))

theorem syl_skew {x : Matrix n p 𝕜} (h : IsPt x) {syl : Matrix p p 𝕜 → Matrix p p 𝕜 → Matrix p p 𝕜 → Matrix p p 𝕜} (hs : IsSyl syl (xᴴ * x)) {C : Matrix p p 𝕜} (hC : Cᴴ = -C) :
    (syl (xᴴ * x) (xᴴ * x) C)ᴴ = -syl (xᴴ * x) (xᴴ * x) C := by
  have e := hs C
  have e' := congrArg conjTranspose e
  set X := syl (xᴴ * x) (xᴴ * x) C
  rw [conjTranspose_add, conjTranspose_mul (xᴴ * x), conjTranspose_mul X, gram_herm, hC] at e'
  have : xᴴ * x * (X + Xᴴ) + (X + Xᴴ) * (xᴴ * x) = 0 := by
    have : xᴴ * x * (X + Xᴴ) + (X + Xᴴ) * (xᴴ * x) = (xᴴ * x * X + X * (xᴴ * x)) + (Xᴴ * (xᴴ * x) + xᴴ * x * Xᴴ) := by
      rw [Matrix.mul_add, Matrix.add_mul]; abel
    rw [this, e, e', add_neg_cancel]
  exact eq_neg_of_add_eq_zero_right (syl_unique h this)

/-- **C80.** `Projection` for the metric QEUC: horizontal, represents the same change, fixes horizontal vectors, idempotent, symmetric. -/
theorem C80_projection_qeuc {x : Matrix n p 𝕜} (h : IsPt x) {syl : Matrix p p 𝕜 → Matrix p p 𝕜 → Matrix p p 𝕜 → Matrix p p 𝕜} (hs : IsSyl syl (xᴴ * x)) (η : Matrix n p 𝕜) :
    IsHor metricQ x (projQ syl x η) ∧ rep x (projQ syl x η) = rep x η ∧ (IsHor metricQ x η → projQ syl x η = η) ∧
    projQ syl x (projQ syl x η) = projQ syl x η ∧ (∀ ξ, metricQ x (projQ syl x η) ξ = metricQ x η (projQ syl x ξ)) := by
  have hsk : ∀ η : Matrix n p 𝕜, (xᴴ * η - (xᴴ * η)ᴴ)ᴴ = -(xᴴ * η - (xᴴ * η)ᴴ) := by
    intro η; rw [conjTranspose_sub, conjTranspose_conjTranspose]; abel
  have hor : ∀ η : Matrix n p 𝕜, IsHor metricQ x (projQ syl x η) := by
    intro η
    rw [hor_Q]
    have e := hs (xᴴ * η - (xᴴ * η)ᴴ)
    have k := syl_skew h hs (hsk η)
    rw [projQ]
    set X := syl (xᴴ * x) (xᴴ * x) (xᴴ * η - (xᴴ * η)ᴴ)
    rw [Matrix.mul_sub, conjTranspose_sub, ← Matrix.mul_assoc, conjTranspose_mul (xᴴ * x), gram_herm, k, Matrix.neg_mul, sub_neg_eq_add]
    have e2 : xᴴ * η = (xᴴ * η)ᴴ + (xᴴ * x * X + X * (xᴴ * x)) := by rw [e]; abel
    nth_rewrite 2 [e2]
    abel
  have fix : ∀ η : Matrix n p 𝕜, IsHor metricQ x η → projQ syl x η = η := by
    intro η k
    rw [hor_Q] at k
    have e := hs 0
    rw [projQ, k, sub_self, syl_unique h e, Matrix.mul_zero, sub_zero]
  have half : ∀ η ξ : Matrix n p 𝕜, metricQ x η (projQ syl x ξ) = metricQ x (projQ syl x η) (projQ syl x ξ) := by
    intro η ξ
    have := hor ξ _ (syl_skew h hs (hsk η))
    have e : metricQ x (projQ syl x η) (projQ syl x ξ) = metricQ x η (projQ syl x ξ) - metricQ x (x * syl (xᴴ * x) (xᴴ * x) (xᴴ * η - (xᴴ * η)ᴴ)) (projQ syl x ξ) := by
      conv_lhs => rw [metricQ, projQ]
      simp only [metricQ, ip_sub_left]
    rw [e, this, sub_zero]
  refine ⟨hor η, ?_, fix η, fix _ (hor η), fun ξ => ?_⟩
  · rw [projQ, rep_sub, rep_vert x (syl_skew h hs (hsk η)), sub_zero]
  · rw [half η ξ, metricQ, ip_comm, ← metricQ, half ξ η, metricQ, metricQ, ip_comm]

/-- **C80.** Points `x U` with `U` unitary represent the same matrix, and the metrics do not depend on which of them is used. -/
theorem C80_invariant (x η ξ : Matrix n p 𝕜) {U : Matrix p p 𝕜} (hU : U * Uᴴ = 1) : mat (x * U) = mat x ∧ rep (x * U) (η * U) = rep x η ∧
    metricE (x * U) (η * U) (ξ * U) = metricE x η ξ ∧ metricH (x * U) (η * U) (ξ * U) = metricH x η ξ ∧ metricQ (x * U) (η * U) (ξ * U) = metricQ x η ξ := by
  have k : ∀ a b : Matrix n p 𝕜, a * U * (b * U)ᴴ = a * bᴴ := by
    intro a b
    rw [conjTranspose_mul, Matrix.mul_assoc, ← Matrix.mul_assoc U, hU, Matrix.one_mul]
  have r : ∀ a b : Matrix n p 𝕜, rep (a * U) (b * U) = rep a b := by intro a b; rw [rep, k, k, rep]
  refine ⟨k x x, r x η, by rw [C80_metric, C80_metric, r, r], by rw [metricH_eq, metricH_eq, k, k], ?_⟩
  rw [metricQ, metricQ, ip_mul_right, Matrix.mul_assoc, hU, Matrix.mul_one]

/-! ## C66 -/

theorem herm_mul_rep {x A ξ : Matrix n p 𝕜} (B : Matrix n n 𝕜) (hB : Bᴴ = B) : ip B (rep x ξ) = 2 * ip (B * x) ξ := by
  have a : ip B (ξ * xᴴ) = ip (B * x) ξ := by rw [ip_mul_right', conjTranspose_conjTranspose]
  have b : ip B (x * ξᴴ) = ip (B * x) ξ := by
    rw [← ip_conjTranspose, hB, conjTranspose_mul, conjTranspose_conjTranspose, a]
  rw [rep, ip_add_right, a, b]; ring

theorem rep_herm (x η : Matrix n p 𝕜) : (rep x η)ᴴ = rep x η := by
  simp only [rep, conjTranspose_add, conjTranspose_mul, conjTranspose_conjTranspose]; abel

/-- **C66 (symmetric fixed rank, EUC).** For the gradient of a function of the represented matrix: the returned vector is horizontal and its metric with every direction is the
directional derivative. -/
theorem C66_sym_gradient_euc {x : Matrix n p 𝕜} (h : IsPt x) {E : Matrix n p 𝕜} (hE : Inv x E) :
    IsHor metricH x (gradE x E) ∧ ∀ ξ, metricE x (gradE x E) ξ = ip E ξ := by
  rw [inv_iff] at hE
  have hi : ((xᴴ * x)⁻¹)ᴴ = (xᴴ * x)⁻¹ := Q2F.gram_inv_herm x
  have hh : ((1 / 2 : ℝ) : 𝕜) = 1 / 2 := by push_cast; rfl
  have hst : star (1 / 2 : 𝕜) = 1 / 2 := by rw [← hh]; exact Q2F.half_star
  have e0 : xᴴ * gradE x E = (1 / 4 : 𝕜) • (xᴴ * E * (xᴴ * x)⁻¹) := by
    simp only [gradE, hh, Matrix.mul_sub, Matrix.mul_smul, Matrix.smul_mul]
    rw [← Matrix.mul_assoc xᴴ x, ← Matrix.mul_assoc (xᴴ * x), mul_nonsing_inv _ h, Matrix.one_mul, Matrix.mul_assoc]
    module
  constructor
  · rw [hor_iff h, e0]
    simp only [Matrix.mul_smul, conjTranspose_smul, conjTranspose_mul, hi]
    rw [← conjTranspose_mul, hE, Matrix.mul_assoc]
    congr 1
    simp
  · intro ξ
    rw [C80_metric, herm_mul_rep (A := 0) _ (rep_herm x _)]
    have e1 : rep x (gradE x E) * x = (1 / 2 : 𝕜) • E := by
      rw [rep, Matrix.add_mul, Matrix.mul_assoc, Matrix.mul_assoc x, show (gradE x E)ᴴ * x = (xᴴ * gradE x E)ᴴ by rw [conjTranspose_mul, conjTranspose_conjTranspose], e0]
      simp only [gradE, hh, Matrix.sub_mul, Matrix.smul_mul, conjTranspose_smul, conjTranspose_mul, hi, conjTranspose_conjTranspose, Matrix.mul_smul]
      rw [Matrix.mul_assoc E, nonsing_inv_mul _ h, Matrix.mul_one]
      have z : x * ((xᴴ * x)⁻¹ * (xᴴ * (E * (xᴴ * x)⁻¹))) * (xᴴ * x) = x * ((xᴴ * x)⁻¹ * (xᴴ * E)) := by
        simp only [Matrix.mul_assoc]
        rw [nonsing_inv_mul _ h, Matrix.mul_one]
      have y : Eᴴ * x = xᴴ * E := by rw [← hE, conjTranspose_mul, conjTranspose_conjTranspose]
      rw [z, y]
      have : star (1 / 4 : 𝕜) = 1 / 4 := by
        have := congrArg₂ (· * ·) hst hst
        simp only [← star_mul'] at this
        norm_num at this ⊢
      rw [this]
      module
    rw [e1, ← hh, ip_smul_left]
    ring

/-- **C66 (EUC, represented).** If `E = 2 F x` with `F` Hermitian, the ambient gradient, the returned vector represents the tangential part of `F`. -/
theorem C66_sym_rep {x : Matrix n p 𝕜} (h : IsPt x) {F : Matrix n n 𝕜} (hF : Fᴴ = F) :
    Inv x ((2 : 𝕜) • (F * x)) ∧ rep x (gradE x ((2 : 𝕜) • (F * x))) = Q2F.tanP ⟨x, x⟩ F := by
  have hi : ((xᴴ * x)⁻¹)ᴴ = (xᴴ * x)⁻¹ := Q2F.gram_inv_herm x
  have hh : ((1 / 2 : ℝ) : 𝕜) = 1 / 2 := by push_cast; rfl
  have hst : star (1 / 2 : 𝕜) = 1 / 2 := by rw [← hh]; exact Q2F.half_star
  have h2 : star (2 : 𝕜) = 2 := by simp
  constructor
  · rw [inv_iff]
    simp only [Matrix.mul_smul, conjTranspose_smul, conjTranspose_mul, conjTranspose_conjTranspose, hF, h2, Matrix.mul_assoc]
  · simp only [rep, gradE, hh, Q2F.tanP, Q2F.colP, conjTranspose_sub, conjTranspose_smul, conjTranspose_mul, conjTranspose_conjTranspose, hi, hF, hst, h2, Matrix.sub_mul, Matrix.mul_sub, Matrix.smul_mul,
      Matrix.mul_smul, Matrix.mul_assoc]
    module

/-- **C66 (HGZ).** -/
theorem C66_sym_gradient_hgz {x : Matrix n p 𝕜} (h : IsPt x) {E : Matrix n p 𝕜} :
    (∀ ξ, metricH x (gradH x E) ξ = ip E ξ) ∧ (Inv x E → IsHor metricH x (gradH x E)) := by
  have hi : ((xᴴ * x)⁻¹)ᴴ = (xᴴ * x)⁻¹ := Q2F.gram_inv_herm x
  constructor
  · intro ξ
    rw [metricH, gradH, ip_mul_left', conjTranspose_conjTranspose, Matrix.mul_assoc, nonsing_inv_mul _ h, Matrix.mul_one]
  · intro hE
    rw [inv_iff] at hE
    rw [hor_iff h, gradH]
    have y : Eᴴ * x = xᴴ * E := by rw [← hE, conjTranspose_mul, conjTranspose_conjTranspose]
    simp only [conjTranspose_mul, conjTranspose_conjTranspose, hi, Matrix.mul_assoc]
    rw [← Matrix.mul_assoc Eᴴ, y, Matrix.mul_assoc]

/-- **C66 (QEUC).** -/
theorem C66_sym_gradient_qeuc {x : Matrix n p 𝕜} (h : IsPt x) {syl : Matrix p p 𝕜 → Matrix p p 𝕜 → Matrix p p 𝕜 → Matrix p p 𝕜} (hs : IsSyl syl (xᴴ * x)) (E : Matrix n p 𝕜) :
    IsHor metricQ x (gradQ syl x E) ∧ (∀ ξ, IsHor metricQ x ξ → metricQ x (gradQ syl x E) ξ = ip E ξ) ∧ (Inv x E → gradQ syl x E = E) := by
  obtain ⟨h1, h2, h3, h4, h5⟩ := C80_projection_qeuc h hs E
  refine ⟨h1, fun ξ hξ => ?_, fun hE => h3 ?_⟩
  · rw [gradQ, h5, (C80_projection_qeuc h hs ξ).2.2.1 hξ, metricQ]
  · rw [hor_Q, ← inv_iff]; exact hE

/-! ## C64 -/

theorem hessE_rep {x : Matrix n p 𝕜} (h : IsPt x) (η : Matrix n p 𝕜) {F F' : Matrix n n 𝕜} (hF : Fᴴ = F) (hF' : F'ᴴ = F') :
    rep x (hessE x ((2 : 𝕜) • (F * x)) η ((2 : 𝕜) • (F' * x + F * η))) = Q2F.tanP ⟨x, x⟩ F' +
      (1 - Q2F.colP x) * F * (1 - Q2F.colP x) * η * (xᴴ * x)⁻¹ * xᴴ + x * (xᴴ * x)⁻¹ * ηᴴ * (1 - Q2F.colP x) * F * (1 - Q2F.colP x) := by
  have hi : ((xᴴ * x)⁻¹)ᴴ = (xᴴ * x)⁻¹ := Q2F.gram_inv_herm x
  have hh : ((1 / 2 : ℝ) : 𝕜) = 1 / 2 := by push_cast; rfl
  have hst : star (1 / 2 : 𝕜) = 1 / 2 := by rw [← hh]; exact Q2F.half_star
  have h2 : star (2 : 𝕜) = 2 := by simp
  unfold hessE
  rw [(C80_projection h _).2.1]
  simp only [hh, rep, Q2F.tanP, Q2F.colP, conjTranspose_mul, conjTranspose_add, conjTranspose_sub, conjTranspose_smul, conjTranspose_conjTranspose, hi, hst, h2, hF, hF',
    Matrix.mul_add, Matrix.add_mul, Matrix.mul_sub, Matrix.sub_mul, Matrix.smul_mul, Matrix.mul_smul, Matrix.one_mul, Matrix.mul_one, Matrix.mul_assoc, smul_add, smul_sub]
  module

/-- **C64 (symmetric fixed rank, EUC).** Along a curve of points with velocity `η`, with Hermitian ambient gradients `F(t)`: the coded Hessian is horizontal and represents the
tangential part of the derivative of the Riemannian gradient field. -/
theorem C64_sym_hessian_euc {x η eg exix : Matrix n p 𝕜} {γ : ℝ → Matrix n p 𝕜} {F : ℝ → Matrix n n 𝕜} {F' : Matrix n n 𝕜} (hγ : ∀ t, IsPt (γ t)) (h0 : γ 0 = x)
    (dγ : ED γ η 0) (dF : ED F F' 0) (hF : ∀ t, (F t)ᴴ = F t) (heg : eg = (2 : 𝕜) • (F 0 * x)) (hx : ED (fun t => (2 : 𝕜) • (F t * γ t)) exix 0) :
    IsHor metricH x (hessE x eg η exix) ∧ ∃ W, ED (fun t => Q2F.tanP ⟨γ t, γ t⟩ (F t)) W 0 ∧ rep x (hessE x eg η exix) = Q2F.tanP ⟨x, x⟩ W := by
  have h : IsPt x := h0 ▸ hγ 0
  subst h0
  refine ⟨(C80_projection h _).1, ?_⟩
  have hF' : F'ᴴ = F' := by
    have := dF.conjTranspose
    simp only [hF] at this
    exact this.unique dF
  have e1 : exix = (2 : 𝕜) • (F' * γ 0 + F 0 * η) := hx.unique ((dF.mul dγ).smul 2)
  obtain ⟨W, dW, hW⟩ := Q2F.tanP_deriv (η := ⟨η, η⟩) (γ := fun t => (⟨γ t, γ t⟩ : Q2F.Pair 𝕜 n n p)) (fun t => ⟨hγ t, hγ t⟩) dγ dγ dF
  exact ⟨W, dW, by rw [heg, e1, hessE_rep h η (hF 0) hF', hW]⟩

/-- **C64 (EUC, symmetry).** If the Hessian of the cost as a function of the represented matrix is symmetric, so is the coded one. -/
theorem C64_sym_symmetric_euc {x : Matrix n p 𝕜} (h : IsPt x) {F : Matrix n n 𝕜} (hF : Fᴴ = F) (H : Matrix n n 𝕜 → Matrix n n 𝕜) (hH : ∀ A B, ip (H A) B = ip A (H B))
    (hHh : ∀ A, Aᴴ = A → (H A)ᴴ = H A) (η ξ : Matrix n p 𝕜) :
    metricE x (hessE x ((2 : 𝕜) • (F * x)) η ((2 : 𝕜) • (H (rep x η) * x + F * η))) ξ =
    metricE x η (hessE x ((2 : 𝕜) • (F * x)) ξ ((2 : 𝕜) • (H (rep x ξ) * x + F * ξ))) := by
  have hr : ∀ ζ : Matrix n p 𝕜, rep x ζ = Q2F.rep ⟨x, x⟩ (⟨ζ, ζ⟩ : Q2F.Pair 𝕜 n n p) := fun ζ => rfl
  have half : ∀ ζ ζ' : Matrix n p 𝕜, ip (rep x (hessE x ((2 : 𝕜) • (F * x)) ζ ((2 : 𝕜) • (H (rep x ζ) * x + F * ζ)))) (rep x ζ') =
      ip (H (rep x ζ)) (rep x ζ') + (ip ((1 - Q2F.colP x) * F * (1 - Q2F.colP x)) (ζ' * ζᴴ) + ip ((1 - Q2F.colP x) * F * (1 - Q2F.colP x)) (ζ * ζ'ᴴ)) := by
    intro ζ ζ'
    rw [hessE_rep h ζ hF (hHh _ (rep_herm x ζ)), hr ζ']
    exact Q2F.hess_ip (x := ⟨x, x⟩) ⟨h, h⟩ F (H (rep x ζ)) ⟨ζ, ζ⟩ ⟨ζ', ζ'⟩
  rw [C80_metric, C80_metric, ip_comm (rep x η), half η ξ, half ξ η, hH, ip_comm (rep x η)]
  ring

theorem _root_.Verif.Curve.ED.ip {m q : Type*} [Fintype m] [Fintype q] [DecidableEq m] [DecidableEq q] {γ δ : ℝ → Matrix m q 𝕜} {ξ η : Matrix m q 𝕜} {t : ℝ} (h : ED γ ξ t) (k : ED δ η t) :
    HasDerivAt (fun s => Verif.CMat.ip (γ s) (δ s)) (Verif.CMat.ip ξ (δ t) + Verif.CMat.ip (γ t) η) t := by
  have re : ∀ {f : ℝ → 𝕜} {f' : 𝕜}, HasDerivAt f f' t → HasDerivAt (fun s => RCLike.re (f s)) (RCLike.re f') t := by
    intro f f' hf
    exact (RCLike.reCLM (K := 𝕜)).hasFDerivAt.comp_hasDerivAt t hf
  have im : ∀ {f : ℝ → 𝕜} {f' : 𝕜}, HasDerivAt f f' t → HasDerivAt (fun s => RCLike.im (f s)) (RCLike.im f') t := by
    intro f f' hf
    exact (RCLike.imCLM (K := 𝕜)).hasFDerivAt.comp_hasDerivAt t hf
  unfold Verif.CMat.ip
  rw [← Finset.sum_add_distrib]
  refine HasDerivAt.fun_sum fun i _ => ?_
  rw [← Finset.sum_add_distrib]
  refine HasDerivAt.fun_sum fun j _ => ?_
  have := ((re (h i j)).mul (re (k i j))).add ((im (h i j)).mul (im (k i j)))
  exact this.congr_deriv (by ring)

/-- Derivative of the metric HGZ with respect to the point. -/
theorem metricH_deriv (x c a b : Matrix n p 𝕜) : HasDerivAt (fun t : ℝ => metricH (x + (t : 𝕜) • c) a b) (ip (cᴴ * x + xᴴ * c) (aᴴ * b)) 0 := by
  have l := ED.line x c 0
  have := (l.conjTranspose.mul l).ip (ED.const (aᴴ * b) 0)
  simp only [RCLike.ofReal_zero, zero_smul, add_zero, ip_zero_right] at this
  exact this

/-- **C64 (HGZ).** Along a curve of points with velocity `η` and Euclidean gradients `E(t)`: the coded Hessian is the horizontal part of the covariant derivative (of the metric HGZ)
of the Riemannian gradient field. -/
theorem C64_sym_hessian_hgz {x η exix : Matrix n p 𝕜} {γ E : ℝ → Matrix n p 𝕜} (hγ : ∀ t, IsPt (γ t)) (h0 : γ 0 = x) (dγ : ED γ η 0) (dE : ED E exix 0) :
    ∃ dz v, ED (fun t => gradH (γ t) (E t)) dz 0 ∧ IsCov metricH x η (gradH x (E 0)) dz v ∧ hessH x (E 0) η exix = proj x v ∧ IsHor metricH x (hessH x (E 0) η exix) := by
  have h : IsPt x := h0 ▸ hγ 0
  subst h0
  have hi := (dγ.conjTranspose.mul dγ).inv hγ
  have d := dE.mul hi
  have hh : ((1 / 2 : ℝ) : 𝕜) = 1 / 2 := by push_cast; rfl
  set x := γ 0 with hx
  set g := gradH x (E 0) with hg
  refine ⟨_, (exix - (1 / 2 : 𝕜) • (g * (ηᴴ * x + xᴴ * η)) + (1 / 2 : 𝕜) • (η * (gᴴ * x + xᴴ * g)) - (1 / 2 : 𝕜) • (x * (ηᴴ * g + gᴴ * η))) * (xᴴ * x)⁻¹, d, ?_, ?_, ?_⟩
  · intro l
    refine ⟨_, _, _, metricH_deriv x η g l, metricH_deriv x g η l, metricH_deriv x l η g, ?_⟩
    have gi : ((xᴴ * x)⁻¹)ᴴ = (xᴴ * x)⁻¹ := Q2F.gram_inv_herm x
    have m1 : ∀ a : Matrix n p 𝕜, metricH x (a * (xᴴ * x)⁻¹) l = ip a l := by
      intro a
      rw [metricH, ip_mul_left', conjTranspose_conjTranspose, Matrix.mul_assoc, nonsing_inv_mul _ h, Matrix.mul_one]
    have m2 : ∀ (s : Matrix p p 𝕜) (a : Matrix n p 𝕜), sᴴ = s → ip s (aᴴ * l) = ip (a * s) l := by
      intro s a hs
      rw [ip_mul_left', conjTranspose_conjTranspose]
    have sk : ∀ a b : Matrix n p 𝕜, (aᴴ * b + bᴴ * a)ᴴ = aᴴ * b + bᴴ * a := by
      intro a b
      simp only [conjTranspose_add, conjTranspose_mul, conjTranspose_conjTranspose]; abel
    have t1 : ip (ηᴴ * x + xᴴ * η) (gᴴ * l) = ip (g * (ηᴴ * x + xᴴ * η)) l := m2 _ _ (sk η x)
    have t2 : ip (gᴴ * x + xᴴ * g) (ηᴴ * l) = ip (η * (gᴴ * x + xᴴ * g)) l := m2 _ _ (sk g x)
    have t3 : ip (lᴴ * x + xᴴ * l) (ηᴴ * g) = ip (x * (ηᴴ * g + gᴴ * η)) l := by
      have a1 : ip (lᴴ * x) (ηᴴ * g) = ip (x * (gᴴ * η)) l := by
        rw [← ip_conjTranspose]
        simp only [conjTranspose_mul, conjTranspose_conjTranspose]
        rw [ip_mul_left, conjTranspose_conjTranspose, ip_comm]
      have a2 : ip (xᴴ * l) (ηᴴ * g) = ip (x * (ηᴴ * g)) l := by rw [ip_mul_left, conjTranspose_conjTranspose, ip_comm]
      rw [ip_add_left, a1, a2, ← ip_add_left, ← Matrix.mul_add, add_comm]
    rw [t1, t2, t3, m1]
    have dz : exix * (xᴴ * x)⁻¹ + E 0 * -((xᴴ * x)⁻¹ * (ηᴴ * x + xᴴ * η) * (xᴴ * x)⁻¹) = (exix - g * (ηᴴ * x + xᴴ * η)) * (xᴴ * x)⁻¹ := by
      rw [hg, gradH, Matrix.sub_mul, Matrix.mul_neg, ← sub_eq_add_neg]
      simp only [Matrix.mul_assoc]
    have hd := congrArg (fun q => metricH x q l) dz
    simp only [m1] at hd
    rw [← hx] at *
    rw [hd, ← hh]
    simp only [ip_add_left, ip_sub_left, ip_smul_left]
    ring
  · unfold hessH
    refine congrArg (fun q => proj x (q * (xᴴ * x)⁻¹)) ?_
    simp only [hh, hg, gradH, conjTranspose_mul, conjTranspose_conjTranspose, Matrix.mul_add, smul_add]
    abel
  · exact (C80_projection h _).1

/-- **C64 (QEUC).** The coded Hessian is the horizontal part of the covariant derivative of the gradient field. -/
theorem C64_sym_hessian_qeuc {x η exix : Matrix n p 𝕜} {γ E : ℝ → Matrix n p 𝕜} {syl : Matrix p p 𝕜 → Matrix p p 𝕜 → Matrix p p 𝕜 → Matrix p p 𝕜} (hγ : ∀ t, IsPt (γ t)) (h0 : γ 0 = x)
    (hs : ∀ t, IsSyl syl ((γ t)ᴴ * γ t)) (hE : ∀ t, Inv (γ t) (E t)) (dγ : ED γ η 0) (dE : ED E exix 0) :
    ∃ dz v, ED (fun t => gradQ syl (γ t) (E t)) dz 0 ∧ IsCov metricQ x η (gradQ syl x (E 0)) dz v ∧ hessQ syl x exix = projQ syl x v ∧ IsHor metricQ x (hessQ syl x exix) := by
  subst h0
  refine ⟨exix, exix, ?_, ?_, rfl, (C80_projection_qeuc (hγ 0) (hs 0) _).1⟩
  · have : (fun t => gradQ syl (γ t) (E t)) = E := by
      funext t; exact (C66_sym_gradient_qeuc (hγ t) (hs t) (E t)).2.2 (hE t)
    rw [this]; exact dE
  · intro l
    refine ⟨0, 0, 0, hasDerivAt_const _ _, hasDerivAt_const _ _, hasDerivAt_const _ _, by ring⟩

/-! ## C62 -/

/-- **C62 (symmetric fixed rank, extrinsic retraction).** `DiffRetraction` is horizontal at the new point and represents the velocity of the represented matrix along `t ↦ R(η + t ξ)`. -/
theorem C62_sym_diff (x η ξ : Matrix n p 𝕜) (hy : IsPt (retract x η)) : IsHor metricH (retract x η) (diffRetract (retract x η) ξ) ∧
    ED (fun t : ℝ => mat (retract x (η + (t : 𝕜) • ξ))) (rep (retract x η) (diffRetract (retract x η) ξ)) 0 := by
  obtain ⟨h1, h2, _⟩ := C80_projection hy ξ
  refine ⟨h1, ?_⟩
  rw [diffRetract, h2]
  have a := (ED.line (x + η) ξ 0).mul (ED.line (x + η) ξ 0).conjTranspose
  have e : (fun t : ℝ => mat (retract x (η + (t : 𝕜) • ξ))) = fun t : ℝ => (x + η + (t : 𝕜) • ξ) * (x + η + (t : 𝕜) • ξ)ᴴ := by
    funext t; simp only [mat, retract, add_assoc]
  rw [e]
  refine a.congr ?_
  simp [rep, retract]

theorem C62_sym_diff_qeuc (x η ξ : Matrix n p 𝕜) (hy : IsPt (retract x η)) {syl : Matrix p p 𝕜 → Matrix p p 𝕜 → Matrix p p 𝕜 → Matrix p p 𝕜}
    (hs : IsSyl syl ((retract x η)ᴴ * retract x η)) : IsHor metricQ (retract x η) (diffRetractQ syl (retract x η) ξ) ∧
    ED (fun t : ℝ => mat (retract x (η + (t : 𝕜) • ξ))) (rep (retract x η) (diffRetractQ syl (retract x η) ξ)) 0 := by
  obtain ⟨h1, h2, _⟩ := C80_projection_qeuc hy hs ξ
  refine ⟨h1, ?_⟩
  rw [diffRetractQ, h2, ← (C80_projection hy ξ).2.1]
  exact (C62_sym_diff x η ξ hy).2

/-! ## A concrete case: the point `(1, 1)ᵀ` -/

/-- The point `(1, 1)ᵀ`. -/
def xOne : Matrix (Fin 2) (Fin 1) ℝ := fun _ _ => 1

/-- Solution of scalar Sylvester equations. -/
noncomputable def sylOne (A _B C : Matrix (Fin 1) (Fin 1) ℝ) : Matrix (Fin 1) (Fin 1) ℝ := fun i j => C i j / (2 * A i j)

theorem xOne_gram : xOneᴴ * xOne = (2 : ℝ) • 1 := by
  ext i j
  rw [Subsingleton.elim i 0, Subsingleton.elim j 0]
  simp [Matrix.mul_apply, xOne]

theorem xOne_pt : IsPt xOne := by
  unfold IsPt
  rw [xOne_gram, det_fin_one]
  simp

theorem sylOne_ok : IsSyl sylOne (xOneᴴ * xOne) := by
  intro C
  rw [xOne_gram]
  ext i j
  rw [Subsingleton.elim i 0, Subsingleton.elim j 0]
  simp [Matrix.add_apply, sylOne]
  ring

/-- Every direction is horizontal for rank one over the reals. -/
theorem xOne_hor (η : Matrix (Fin 2) (Fin 1) ℝ) : IsHor metricH xOne η := by
  rw [hor_iff xOne_pt]
  ext i j
  rw [Subsingleton.elim i 0, Subsingleton.elim j 0]
  simp

example (η : Matrix (Fin 2) (Fin 1) ℝ) : proj xOne η = η := (C80_projection xOne_pt η).2.2.2.1 (xOne_hor η)
example (η : Matrix (Fin 2) (Fin 1) ℝ) (h : metricE xOne η η = 0) : η = 0 := (C80_metric_pos xOne_pt (xOne_hor η)).2 h
example (η : Matrix (Fin 2) (Fin 1) ℝ) : rep xOne (projQ sylOne xOne η) = rep xOne η := (C80_projection_qeuc xOne_pt sylOne_ok η).2.1
example (ξ : Matrix (Fin 2) (Fin 1) ℝ) : metricE xOne (gradE xOne ((2 : ℝ) • ((1 : Matrix (Fin 2) (Fin 2) ℝ) * xOne))) ξ = ip ((2 : ℝ) • ((1 : Matrix (Fin 2) (Fin 2) ℝ) * xOne)) ξ :=
  (C66_sym_gradient_euc xOne_pt (C66_sym_rep xOne_pt (F := 1) (by simp)).1).2 ξ
example (η ξ : Matrix (Fin 2) (Fin 1) ℝ) : metricE xOne (hessE xOne ((2 : ℝ) • ((1 : Matrix (Fin 2) (Fin 2) ℝ) * xOne)) η ((2 : ℝ) • (rep xOne η * xOne + (1 : Matrix (Fin 2) (Fin 2) ℝ) * η))) ξ =
    metricE xOne η (hessE xOne ((2 : ℝ) • ((1 : Matrix (Fin 2) (Fin 2) ℝ) * xOne)) ξ ((2 : ℝ) • (rep xOne ξ * xOne + (1 : Matrix (Fin 2) (Fin 2) ℝ) * ξ))) :=
  C64_sym_symmetric_euc xOne_pt (F := 1) (by simp) id (fun _ _ => rfl) (fun _ h => h) η ξ
example (ξ : Matrix (Fin 2) (Fin 1) ℝ) : ED (fun t : ℝ => mat (retract xOne (0 + (t : ℝ) • ξ))) (rep (retract xOne 0) (diffRetract (retract xOne 0) ξ)) 0 :=
  (C62_sym_diff xOne 0 ξ (by rw [retract, add_zero]; exact xOne_pt)).2

end Verif.SymFR
