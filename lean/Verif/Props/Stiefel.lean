import Verif.Manifold.Stiefel

/-!
# C35, C36, C63, C64, C66, C67: Stiefel and Grassmann manifolds
-/

set_option linter.unusedVariables false
set_option linter.unusedSectionVars false

namespace Verif.Stiefel

open Matrix Verif.Mat

variable {n p : Type*} [Fintype n] [Fintype p] [DecidableEq n] [DecidableEq p]

/-- Specification: tangent vectors of the Stiefel manifold at `x`. -/
def IsTangent (x η : Matrix n p ℝ) : Prop := (xᵀ * η)ᵀ = -(xᵀ * η)

/-- Specification: horizontal vectors of the Grassmann manifold at `x`. -/
def IsHorizontal (x η : Matrix n p ℝ) : Prop := xᵀ * η = 0

theorem sym_transpose (A : Matrix p p ℝ) : (sym A)ᵀ = sym A := by
  simp only [sym, transpose_smul, transpose_add, transpose_transpose, add_comm]

theorem sym_of_skew {A : Matrix p p ℝ} (h : Aᵀ = -A) : sym A = 0 := by
  simp [sym, h]

theorem sub_sym_skew (A : Matrix p p ℝ) : (A - sym A)ᵀ = -(A - sym A) := by
  simp only [sym, transpose_sub, transpose_smul, transpose_add, transpose_transpose]
  module

/-- `A` against a symmetric matrix only sees its symmetric part. -/
theorem frob_sym (A S : Matrix p p ℝ) (hS : Sᵀ = S) : frob (sym A) S = frob A S := by
  have h := frob_skew_sym hS (sub_sym_skew A)
  rw [frob_sub_left] at h
  linarith

theorem frob_sym_right (A S : Matrix p p ℝ) (hS : Sᵀ = S) : frob S (sym A) = frob S A := by
  rw [frob_comm, frob_sym A S hS, frob_comm]

theorem frob_sym_adj (A B : Matrix p p ℝ) : frob (sym A) B = frob A (sym B) := by
  have h1 := frob_sym_skew (sym_transpose A) (sub_sym_skew B)
  have h2 := frob_skew_sym (sym_transpose B) (sub_sym_skew A)
  rw [frob_sub_right] at h1
  rw [frob_sub_left] at h2
  linarith

/-! ## C35 -/

/-- **C35.** The Stiefel projection returns tangent matrices, fixes tangent matrices, is idempotent and self-adjoint, and its residual is orthogonal to all tangent matrices. -/
theorem C35_stiefel_projection {x : Matrix n p ℝ} (hx : xᵀ * x = 1) (η ξ : Matrix n p ℝ) :
    IsTangent x (proj x η) ∧ (IsTangent x η → proj x η = η) ∧ proj x (proj x η) = proj x η ∧
      frob (proj x η) ξ = frob η (proj x ξ) ∧ (IsTangent x ξ → frob (η - proj x η) ξ = 0) := by
  have h1 : ∀ v, IsTangent x (proj x v) := by
    intro v
    unfold IsTangent proj
    rw [Matrix.mul_sub, ← Matrix.mul_assoc, hx, Matrix.one_mul, sub_sym_skew]
  have h2 : ∀ v, IsTangent x v → proj x v = v := by
    intro v hv
    rw [proj, sym_of_skew hv, Matrix.mul_zero, sub_zero]
  refine ⟨h1 η, h2 η, h2 _ (h1 η), ?_, ?_⟩
  · rw [proj, proj, frob_sub_left, frob_sub_right, frob_mul_left, frob_mul_left' x, frob_sym_adj]
  · intro h
    rw [proj, sub_sub_cancel, frob_mul_left]
    exact frob_sym_skew (sym_transpose _) h

/-- **C35.** The Grassmann projection, likewise, onto the horizontal space. -/
theorem C35_grassmann_projection {x : Matrix n p ℝ} (hx : xᵀ * x = 1) (η ξ : Matrix n p ℝ) :
    IsHorizontal x (gProj x η) ∧ (IsHorizontal x η → gProj x η = η) ∧ gProj x (gProj x η) = gProj x η ∧
      frob (gProj x η) ξ = frob η (gProj x ξ) ∧ (IsHorizontal x ξ → frob (η - gProj x η) ξ = 0) := by
  have h1 : ∀ v, IsHorizontal x (gProj x v) := by
    intro v
    unfold IsHorizontal gProj
    rw [Matrix.mul_sub, ← Matrix.mul_assoc, hx, Matrix.one_mul, sub_self]
  have h2 : ∀ v, IsHorizontal x v → gProj x v = v := by
    intro v hv
    rw [gProj, hv, Matrix.mul_zero, sub_zero]
  refine ⟨h1 η, h2 η, h2 _ (h1 η), ?_, ?_⟩
  · rw [gProj, gProj, frob_sub_left, frob_sub_right, frob_mul_left, frob_mul_left' x]
  · intro h
    rw [gProj, sub_sub_cancel, frob_mul_left, h, frob_zero_right]

/-! ## C66: the Riemannian gradient represents the differential -/

/-- **C66.** With the Euclidean metric: the gradient is tangent and `⟨grad, ξ⟩ = ⟨egrad, ξ⟩` for every tangent `ξ`; it is the only such vector. -/
theorem C66_stiefel_gradient {x : Matrix n p ℝ} (hx : xᵀ * x = 1) (g : Matrix n p ℝ) :
    IsTangent x (proj x g) ∧ (∀ ξ, IsTangent x ξ → frob (proj x g) ξ = frob g ξ) ∧
      ∀ h, IsTangent x h → (∀ ξ, IsTangent x ξ → frob h ξ = frob g ξ) → h = proj x g := by
  have h1 : ∀ ξ, IsTangent x ξ → frob (proj x g) ξ = frob g ξ := by
    intro ξ hξ
    rw [(C35_stiefel_projection hx g ξ).2.2.2.1, (C35_stiefel_projection hx ξ ξ).2.1 hξ]
  refine ⟨(C35_stiefel_projection hx g g).1, h1, ?_⟩
  intro h ht hh
  have hd : IsTangent x (h - proj x g) := by
    have := (C35_stiefel_projection hx g g).1
    unfold IsTangent at ht this ⊢
    rw [Matrix.mul_sub, transpose_sub, ht, this]; abel
  have : frob (h - proj x g) (h - proj x g) = 0 := by rw [frob_sub_left, hh _ hd, h1 _ hd, sub_self]
  exact sub_eq_zero.mp (frob_self_eq_zero.mp this)

/-- **C66.** With the canonical metric: the gradient is tangent and represents the differential. -/
theorem C66_canonical_gradient {x : Matrix n p ℝ} (hx : xᵀ * x = 1) (g : Matrix n p ℝ) :
    IsTangent x (canonGrad x g) ∧ ∀ ξ, IsTangent x ξ → canonMetric x (canonGrad x g) ξ = frob g ξ := by
  constructor
  · unfold IsTangent canonGrad
    rw [Matrix.mul_sub, ← Matrix.mul_assoc, hx, Matrix.one_mul, transpose_sub, transpose_mul, transpose_mul, transpose_transpose, transpose_transpose]
    abel
  · intro ξ hξ
    have e1 : ξᵀ * x = -(xᵀ * ξ) := by rw [← hξ, transpose_mul, transpose_transpose]
    have e2 : (canonGrad x g)ᵀ * x = gᵀ * x - xᵀ * g := by
      rw [canonGrad, transpose_sub, transpose_mul, transpose_mul, transpose_transpose, Matrix.sub_mul, Matrix.mul_assoc, hx, Matrix.mul_one]
    rw [canonMetric, e1, e2, canonGrad, frob_sub_left, frob_mul_left, frob_neg_right, frob_sub_left]
    have e3 : frob (gᵀ * x) (xᵀ * ξ) = -frob (xᵀ * g) (xᵀ * ξ) := by
      rw [← frob_transpose, transpose_mul, transpose_transpose, hξ, frob_neg_right]
    rw [e3]; ring

/-- **C66.** Grassmann: the gradient is horizontal and represents the differential on horizontal vectors. -/
theorem C66_grassmann_gradient {x : Matrix n p ℝ} (hx : xᵀ * x = 1) (g : Matrix n p ℝ) :
    IsHorizontal x (gProj x g) ∧ ∀ ξ, IsHorizontal x ξ → frob (gProj x g) ξ = frob g ξ := by
  refine ⟨(C35_grassmann_projection hx g g).1, fun ξ hξ => ?_⟩
  rw [(C35_grassmann_projection hx g ξ).2.2.2.1, (C35_grassmann_projection hx ξ ξ).2.1 hξ]

/-! ## C64: Hessians -/

/-- **C64.** Euclidean metric: tangent, and self-adjoint for every symmetric Euclidean Hessian. -/
theorem C64_stiefel_hessian_symmetric {x : Matrix n p ℝ} (hx : xᵀ * x = 1) (G : Matrix n p ℝ) (H : Matrix n p ℝ → Matrix n p ℝ)
    (hH : ∀ a b, frob (H a) b = frob a (H b)) {η ξ : Matrix n p ℝ} (hη : IsTangent x η) (hξ : IsTangent x ξ) :
    frob (hess x G η (H η)) ξ = frob η (hess x G ξ (H ξ)) ∧ IsTangent x (hess x G η (H η)) := by
  refine ⟨?_, (C35_stiefel_projection hx _ ξ).1⟩
  rw [hess, hess, (C35_stiefel_projection hx _ ξ).2.2.2.1, (C35_stiefel_projection hx ξ ξ).2.1 hξ, ← (C35_stiefel_projection hx η _).2.2.2.1,
    (C35_stiefel_projection hx η η).2.1 hη, frob_sub_left, frob_sub_right, hH, frob_mul_right, sym_transpose]

/-- **C64.** Grassmann: self-adjoint for every symmetric Euclidean Hessian when the objective only depends on the column space (its differential vanishes on `x K`, `K` skew). -/
theorem C64_grassmann_hessian_symmetric {x : Matrix n p ℝ} (hx : xᵀ * x = 1) (G : Matrix n p ℝ) (hG : ∀ K : Matrix p p ℝ, Kᵀ = -K → frob G (x * K) = 0)
    (H : Matrix n p ℝ → Matrix n p ℝ) (hH : ∀ a b, frob (H a) b = frob a (H b)) {η ξ : Matrix n p ℝ} (hη : IsHorizontal x η) (hξ : IsHorizontal x ξ) :
    frob (gHess x G η (H η)) ξ = frob η (gHess x G ξ (H ξ)) ∧ IsHorizontal x (gHess x G η (H η)) := by
  have hs : (xᵀ * G)ᵀ = xᵀ * G := by
    have hk : (xᵀ * G - (xᵀ * G)ᵀ)ᵀ = -(xᵀ * G - (xᵀ * G)ᵀ) := by
      rw [transpose_sub, transpose_transpose]; abel
    have h0 := hG _ hk
    rw [frob_mul_left'] at h0
    have h1 : frob (xᵀ * G)ᵀ (xᵀ * G - (xᵀ * G)ᵀ) = 0 := by
      have := frob_transpose (xᵀ * G) (xᵀ * G - (xᵀ * G)ᵀ)
      rw [hk, frob_neg_right, h0] at this
      linarith
    have h2 : frob (xᵀ * G - (xᵀ * G)ᵀ) (xᵀ * G - (xᵀ * G)ᵀ) = 0 := by rw [frob_sub_left, h0, h1, sub_self]
    exact (sub_eq_zero.mp (frob_self_eq_zero.mp h2)).symm
  refine ⟨?_, (C35_grassmann_projection hx _ ξ).1⟩
  rw [gHess, gHess, (C35_grassmann_projection hx _ ξ).2.2.2.1, (C35_grassmann_projection hx ξ ξ).2.1 hξ, ← (C35_grassmann_projection hx η _).2.2.2.1,
    (C35_grassmann_projection hx η η).2.1 hη, frob_sub_left, frob_sub_right, hH, frob_mul_right, hs]

/-- The formula in the comment for the canonical metric is tangent. -/
theorem C64_canonical_comment_tangent {x : Matrix n p ℝ} (hx : xᵀ * x = 1) (G E : Matrix n p ℝ) {η : Matrix n p ℝ} (hη : IsTangent x η) :
    IsTangent x (canonHessComment x G η E) := by
  have e : ηᵀ * x = -(xᵀ * η) := by rw [← hη, transpose_mul, transpose_transpose]
  have e2 : xᵀ * canonHessComment x G η E = (xᵀ * E - (xᵀ * E)ᵀ) - (1 / 2 : ℝ) • (Gᵀ * η - (Gᵀ * η)ᵀ)
      - (1 / 2 : ℝ) • ((xᵀ * η) * (xᵀ * G)ᵀ + (xᵀ * G) * (xᵀ * η)) := by
    simp only [canonHessComment, Matrix.mul_sub, Matrix.mul_smul, ← Matrix.mul_assoc, hx, Matrix.one_mul, transpose_mul, transpose_transpose]
    rw [Matrix.mul_assoc _ ηᵀ x, e, Matrix.mul_neg]
    simp only [Matrix.mul_assoc, sub_self, smul_zero, sub_zero, sub_neg_eq_add]
  unfold IsTangent
  rw [e2]
  simp only [transpose_sub, transpose_add, transpose_smul, transpose_mul, transpose_transpose]
  have e3 : ηᵀ * x * (Gᵀ * x) = -(xᵀ * η * (Gᵀ * x)) := by rw [e, Matrix.neg_mul]
  have e4 : xᵀ * G * (ηᵀ * x) = -(xᵀ * G * (xᵀ * η)) := by rw [e, Matrix.mul_neg]
  rw [e3, e4]
  module

/-- The statements differ from the comment by `½ η Gᵀx + G ηᵀx`. -/
theorem canonHess_eq (x G η E : Matrix n p ℝ) : canonHess x G η E = canonHessComment x G η E - ((1 / 2 : ℝ) • (η * (Gᵀ * x)) + G * (ηᵀ * x)) := by
  simp only [canonHess, canonHessComment, transpose_smul, transpose_mul, transpose_transpose, Matrix.smul_mul, Matrix.mul_smul, Matrix.mul_assoc,
    Matrix.mul_sub, smul_sub]
  module

/-- **C64 (finding).** With the canonical metric the statements of `EucHvToHv` need not return a tangent vector: `x = I`, `η = [[0,1],[-1,0]]`, `G = diag(1,0)`, zero
Euclidean Hessian. (No parameter set selects the canonical metric; a derived class can.) -/
theorem C64_canonical_hessian_not_tangent :
    ∃ x G η E : Matrix (Fin 2) (Fin 2) ℝ, xᵀ * x = 1 ∧ IsTangent x η ∧ ¬ IsTangent x (canonHess x G η E) := by
  refine ⟨1, !![1, 0; 0, 0], !![0, 1; -1, 0], 0, by simp, ?_, ?_⟩
  · unfold IsTangent
    ext i j
    fin_cases i <;> fin_cases j <;> simp
  · intro h
    have ht := C64_canonical_comment_tangent (x := (1 : Matrix (Fin 2) (Fin 2) ℝ)) (by simp) !![1, 0; 0, 0] 0 (η := !![0, 1; -1, 0]) (by
      unfold IsTangent
      ext i j
      fin_cases i <;> fin_cases j <;> simp)
    rw [canonHess_eq] at h
    unfold IsTangent at h ht
    rw [Matrix.mul_sub, transpose_sub, ht] at h
    have h0 := congrFun (congrFun h 0) 1
    simp only [transpose_one, Matrix.one_mul, Matrix.mul_one, Matrix.sub_apply, Matrix.neg_apply, transpose_apply, Matrix.add_apply, Matrix.smul_apply,
      Matrix.mul_apply, Fin.sum_univ_two, Matrix.of_apply, Matrix.cons_val', Matrix.cons_val_zero, Matrix.cons_val_one, smul_eq_mul] at h0
    norm_num at h0
    linarith

/-! ## C36: qf retraction -/

section qf

variable {k : ℕ}

/-- Specification: upper triangular. -/
def IsUpper (R : Matrix (Fin k) (Fin k) ℝ) : Prop := ∀ i j, j < i → R i j = 0

theorem signs_mul_self (R : Matrix (Fin k) (Fin k) ℝ) (i : Fin k) : signs R i * signs R i = 1 := by
  unfold signs; split <;> norm_num

theorem scaleCols_eq (s : Fin k → ℝ) (A : Matrix n (Fin k) ℝ) : scaleCols s A = A * diagonal s := by
  ext i j
  rw [mul_diagonal, mul_comm]; rfl

theorem signs_diag (R : Matrix (Fin k) (Fin k) ℝ) : diagonal (signs R) * diagonal (signs R) = 1 := by
  rw [diagonal_mul_diagonal]
  simp only [signs_mul_self]
  exact diagonal_one

theorem det_upper {R : Matrix (Fin k) (Fin k) ℝ} (hR : IsUpper R) : R.det = ∏ i, R i i :=
  det_of_isUpperTriangular (fun i j h => hR i j h)

theorem inv_upper {R : Matrix (Fin k) (Fin k) ℝ} (hR : IsUpper R) (hd : R.det ≠ 0) : IsUpper R⁻¹ := by
  have := Matrix.invertibleOfIsUnitDet R (isUnit_det_of_ne hd)
  exact fun i j h => blockTriangular_inv_of_blockTriangular (b := id) (M := R) (fun i j h => hR i j h) h

theorem mul_upper {R S : Matrix (Fin k) (Fin k) ℝ} (hR : IsUpper R) (hS : IsUpper S) : IsUpper (R * S) :=
  fun i j h => BlockTriangular.mul (b := id) (fun i j h => hR i j h) (fun i j h => hS i j h) h

/-- Uniqueness of the factorisation with positive diagonal: this is what makes "the" qf factor. -/
theorem qf_unique {y₁ y₂ : Matrix n (Fin k) ℝ} {R₁ R₂ : Matrix (Fin k) (Fin k) ℝ} (h1 : y₁ᵀ * y₁ = 1) (h2 : y₂ᵀ * y₂ = 1) (hR1 : IsUpper R₁) (hR2 : IsUpper R₂)
    (p1 : ∀ i, 0 < R₁ i i) (p2 : ∀ i, 0 < R₂ i i) (h : y₁ * R₁ = y₂ * R₂) : y₁ = y₂ ∧ R₁ = R₂ := by
  have d1 : R₁.det ≠ 0 := by rw [det_upper hR1]; exact Finset.prod_ne_zero_iff.mpr fun i _ => (p1 i).ne'
  have d2 : R₂.det ≠ 0 := by rw [det_upper hR2]; exact Finset.prod_ne_zero_iff.mpr fun i _ => (p2 i).ne'
  have u1 := isUnit_det_of_ne d1
  have u2 := isUnit_det_of_ne d2
  set S := R₂ * R₁⁻¹ with hS
  have hyS : y₁ = y₂ * S := by
    rw [hS, ← Matrix.mul_assoc, ← h, Matrix.mul_assoc, mul_nonsing_inv _ u1, Matrix.mul_one]
  have hSS : Sᵀ * S = 1 := by
    rw [hyS, transpose_mul, Matrix.mul_assoc, ← Matrix.mul_assoc y₂ᵀ, h2, Matrix.one_mul] at h1
    exact h1
  have hSU : IsUpper S := mul_upper hR2 (inv_upper hR1 d1)
  have hST : Sᵀ = R₁ * R₂⁻¹ := by
    have e : S * (R₁ * R₂⁻¹) = 1 := by
      rw [hS, Matrix.mul_assoc, ← Matrix.mul_assoc R₁⁻¹, nonsing_inv_mul _ u1, Matrix.one_mul, mul_nonsing_inv _ u2]
    calc Sᵀ = Sᵀ * (S * (R₁ * R₂⁻¹)) := by rw [e, Matrix.mul_one]
      _ = R₁ * R₂⁻¹ := by rw [← Matrix.mul_assoc, hSS, Matrix.one_mul]
  have hSL : ∀ i j, i < j → S i j = 0 := by
    intro i j hij
    have : IsUpper Sᵀ := by rw [hST]; exact mul_upper hR1 (inv_upper hR2 d2)
    exact this j i hij
  have hSd : ∀ i j, i ≠ j → S i j = 0 := by
    intro i j hij
    rcases lt_or_gt_of_ne hij with h | h
    · exact hSL i j h
    · exact hSU i j h
  have hSR : S * R₁ = R₂ := by rw [hS, Matrix.mul_assoc, nonsing_inv_mul _ u1, Matrix.mul_one]
  have hS1 : ∀ i, S i i = 1 := by
    intro i
    have e1 : S i i * R₁ i i = R₂ i i := by
      rw [← hSR, mul_apply, Finset.sum_eq_single i (fun j _ hj => by rw [hSd i j hj.symm, zero_mul]) (fun h => absurd (Finset.mem_univ i) h)]
    have e2 : S i i * S i i = 1 := by
      have := congrFun (congrFun hSS i) i
      rw [mul_apply, Finset.sum_eq_single i (fun j _ hj => by rw [hSd j i hj, mul_zero]) (fun h => absurd (Finset.mem_univ i) h), one_apply_eq] at this
      exact this
    have e3 : 0 < S i i := by
      have : 0 < S i i * R₁ i i := by rw [e1]; exact p2 i
      exact pos_of_mul_pos_left this (p1 i).le
    nlinarith
  have hSone : S = 1 := by
    ext i j
    by_cases h : i = j
    · subst h; rw [hS1, one_apply_eq]
    · rw [hSd i j h, one_apply_ne h]
  refine ⟨by rw [hyS, hSone, Matrix.mul_one], ?_⟩
  rw [← hSR, hSone, Matrix.one_mul]

/-- The Gram matrix of `x + η`. -/
theorem gram_add {x η : Matrix n p ℝ} (hx : xᵀ * x = 1) (hη : IsTangent x η) : (x + η)ᵀ * (x + η) = 1 + ηᵀ * η := by
  have e : ηᵀ * x = -(xᵀ * η) := by rw [← hη, transpose_mul, transpose_transpose]
  rw [transpose_add, Matrix.add_mul, Matrix.mul_add, Matrix.mul_add, hx, e]
  abel

/-- **C36 (qf).** Given a QR factorisation of `x + η` (any signs on the diagonal of `R`), the retraction has orthonormal columns, and is the unique orthonormal factor of
`x + η` whose triangular factor has a positive diagonal. -/
theorem C36_qf_retraction {x η Q : Matrix n (Fin k) ℝ} {R : Matrix (Fin k) (Fin k) ℝ} (hx : xᵀ * x = 1) (hη : IsTangent x η)
    (hQ : Qᵀ * Q = 1) (hR : IsUpper R) (hQR : Q * R = x + η) :
    (qfRetraction Q R)ᵀ * qfRetraction Q R = 1 ∧
    (∃ R', IsUpper R' ∧ (∀ i, 0 < R' i i) ∧ qfRetraction Q R * R' = x + η ∧ R' = diagonal (signs R) * R) ∧
    ∀ y R', yᵀ * y = 1 → IsUpper R' → (∀ i, 0 < R' i i) → y * R' = x + η → y = qfRetraction Q R := by
  have horth : (qfRetraction Q R)ᵀ * qfRetraction Q R = 1 := by
    rw [qfRetraction, scaleCols_eq, transpose_mul, diagonal_transpose, Matrix.mul_assoc, ← Matrix.mul_assoc Qᵀ, hQ, Matrix.one_mul, signs_diag]
  have hRR : Rᵀ * R = 1 + ηᵀ * η := by
    rw [← gram_add hx hη, ← hQR, transpose_mul, Matrix.mul_assoc, ← Matrix.mul_assoc Qᵀ, hQ, Matrix.one_mul]
  have hdet : R.det ≠ 0 := by
    intro h0
    apply one_add_gram_det_ne_zero η
    rw [← hRR, det_mul, h0, mul_zero]
  have hdiag : ∀ i, R i i ≠ 0 := by
    intro i h0
    apply hdet
    rw [det_upper hR]
    exact Finset.prod_eq_zero (Finset.mem_univ i) h0
  have hpos : ∀ i, 0 < (diagonal (signs R) * R) i i := by
    intro i
    rw [diagonal_mul]
    unfold signs
    split
    · rename_i h; linarith
    · rename_i h
      rw [one_mul]
      exact lt_of_le_of_ne (not_lt.mp h) (hdiag i).symm
  have hup : IsUpper (diagonal (signs R) * R) := by
    intro i j hij
    rw [diagonal_mul, hR i j hij, mul_zero]
  have hfac : qfRetraction Q R * (diagonal (signs R) * R) = x + η := by
    rw [qfRetraction, scaleCols_eq, Matrix.mul_assoc, ← Matrix.mul_assoc (diagonal _), signs_diag, Matrix.one_mul, hQR]
  refine ⟨horth, ⟨_, hup, hpos, hfac, rfl⟩, ?_⟩
  intro y R' hy hR' hp h
  exact (qf_unique hy horth hR' hup hp hpos (h.trans hfac.symm)).1

/-- **C36 (qf).** The zero tangent vector is mapped to `x`. -/
theorem C36_qf_zero {x Q : Matrix n (Fin k) ℝ} {R : Matrix (Fin k) (Fin k) ℝ} (hx : xᵀ * x = 1)
    (hQ : Qᵀ * Q = 1) (hR : IsUpper R) (hQR : Q * R = x + 0) : qfRetraction Q R = x := by
  have hz : IsTangent x 0 := by simp [IsTangent]
  refine ((C36_qf_retraction hx hz hQ hR hQR).2.2 x 1 hx ?_ ?_ ?_).symm
  · intro i j hij
    exact one_apply_ne (ne_of_gt hij)
  · intro i; rw [one_apply_eq]; exact one_pos
  · rw [Matrix.mul_one, add_zero]

/-! ## C63: the cotangent vector of the qf retraction -/

/-- The adjoint of the correction on matrices `A` that are skew. -/
theorem frob_correction {A M : Matrix (Fin k) (Fin k) ℝ} (hA : Aᵀ = -A) : frob A (qfCorrection M) = frob (flipUpper A) M := by
  have hA' : ∀ i j, A j i = -A i j := fun i j => by
    have := congrFun (congrFun hA i) j
    simpa using this
  have hsplit : frob A (qfCorrection M) - frob (flipUpper A) M
      = ∑ i, ∑ j, (if i < j then A j i * M j i else 0) - ∑ i, ∑ j, (if j < i then A i j * M i j else 0) := by
    simp only [frob, ← Finset.sum_sub_distrib]
    refine Finset.sum_congr rfl fun i _ => Finset.sum_congr rfl fun j _ => ?_
    unfold qfCorrection flipUpper
    rcases lt_trichotomy i j with h | h | h
    · rw [if_neg h.ne, if_pos h, if_pos h.le, if_pos h, if_neg (not_lt.mpr h.le), hA' i j]; ring
    · subst h
      simp
    · rw [if_neg h.ne', if_neg (not_lt.mpr h.le), if_neg (not_le.mpr h), if_neg (not_lt.mpr h.le), if_pos h]; ring
  have : ∑ i, ∑ j, (if i < j then A j i * M j i else 0) = ∑ i : Fin k, ∑ j, (if j < i then A i j * M i j else 0) := by
    rw [Finset.sum_comm]
  rw [this, sub_self] at hsplit
  exact sub_eq_zero.mp hsplit

theorem frob_scaleCols (s : Fin k → ℝ) (A B : Matrix n (Fin k) ℝ) : frob (scaleCols s A) B = frob A (scaleCols s B) := by
  simp only [frob, scaleCols]
  refine Finset.sum_congr rfl fun i _ => Finset.sum_congr rfl fun j _ => ?_
  ring

/-- **C63 (qf, Stiefel).** `⟨ζ, DR[ξ]⟩ = ⟨C, ξ⟩` for tangent `ζ` at `y` and tangent `ξ` at `x`; the vector `C` is tangent. -/
theorem C63_qf_cotangent_adjoint {x y ζ ξ : Matrix n (Fin k) ℝ} {R : Matrix (Fin k) (Fin k) ℝ} (hx : xᵀ * x = 1) (hζ : IsTangent y ζ) (hξ : IsTangent x ξ) :
    frob ζ (diffQf y R ξ) = frob (qfCoTangent x y R ζ) ξ ∧ IsTangent x (qfCoTangent x y R ζ) := by
  refine ⟨?_, (C35_stiefel_projection hx _ ξ).1⟩
  rw [qfCoTangent, (C35_stiefel_projection hx _ ξ).2.2.2.1, (C35_stiefel_projection hx ξ ξ).2.1 hξ]
  simp only [diffQf, qfCoTangentAmbient]
  rw [frob_add_right, frob_mul_left', frob_correction hζ, frob_mul_left', transpose_transpose, ← frob_add_left, ← frob_scaleCols, frob_mul_right']

/-- **C63 (qf, Grassmann).** The differentiated retraction followed by the horizontal projection (which is what the intrinsic representation keeps). -/
theorem C63_grassmann_cotangent_adjoint {x y ζ ξ : Matrix n (Fin k) ℝ} {R : Matrix (Fin k) (Fin k) ℝ} (hx : xᵀ * x = 1) (hy : yᵀ * y = 1) (hζ : IsHorizontal y ζ)
    (hξ : IsHorizontal x ξ) : frob ζ (gProj y (diffQf y R ξ)) = frob (gCoTangent x y R ζ) ξ ∧ IsHorizontal x (gCoTangent x y R ζ) := by
  have hζ' : IsTangent y ζ := by
    unfold IsTangent; rw [hζ]; simp
  refine ⟨?_, (C35_grassmann_projection hx _ ξ).1⟩
  rw [← (C35_grassmann_projection hy ζ _).2.2.2.1, (C35_grassmann_projection hy ζ ζ).2.1 hζ]
  rw [gCoTangent, (C35_grassmann_projection hx _ ξ).2.2.2.1, (C35_grassmann_projection hx ξ ξ).2.1 hξ]
  simp only [diffQf, qfCoTangentAmbient]
  rw [frob_add_right, frob_mul_left', frob_correction hζ', frob_mul_left', transpose_transpose, ← frob_add_left, ← frob_scaleCols, frob_mul_right']

end qf

/-! ## C36: polar retraction -/

/-- `diag` quadratic form: a matrix `Vᵀ diag(s) V` with positive `s` plus the identity is invertible. -/
theorem one_add_svd_det_ne_zero {s : p → ℝ} {Vt : Matrix p p ℝ} (hs : ∀ i, 0 ≤ s i) : (1 + Vtᵀ * diagonal s * Vt).det ≠ 0 := by
  have e : Vtᵀ * diagonal s * Vt = (diagonal (fun i => √(s i)) * Vt)ᵀ * (diagonal (fun i => √(s i)) * Vt) := by
    rw [transpose_mul, diagonal_transpose, Matrix.mul_assoc, Matrix.mul_assoc, ← Matrix.mul_assoc (diagonal _) (diagonal _), diagonal_mul_diagonal]
    simp only [Real.mul_self_sqrt (hs _)]
  rw [e]
  exact one_add_gram_det_ne_zero _

/-- **C36 (polar).** Given an economy singular value decomposition of `x + η`, the retraction has orthonormal columns, is the orthonormal factor of a polar decomposition
of `x + η`, and the zero tangent vector is mapped to `x`. -/
theorem C36_polar_retraction {x η U : Matrix n p ℝ} {s : p → ℝ} {Vt : Matrix p p ℝ} (hx : xᵀ * x = 1) (hU : Uᵀ * U = 1) (hV : Vtᵀ * Vt = 1)
    (hs : ∀ i, 0 ≤ s i) (hsvd : U * diagonal s * Vt = x + η) :
    (polarRetraction U Vt)ᵀ * polarRetraction U Vt = 1 ∧ polarRetraction U Vt * (Vtᵀ * diagonal s * Vt) = x + η ∧ (η = 0 → polarRetraction U Vt = x) := by
  have hV' : Vt * Vtᵀ = 1 := mul_eq_one_comm.mp hV
  have h1 : (polarRetraction U Vt)ᵀ * polarRetraction U Vt = 1 := by
    rw [polarRetraction, transpose_mul, Matrix.mul_assoc, ← Matrix.mul_assoc Uᵀ, hU, Matrix.one_mul, hV]
  have h2 : polarRetraction U Vt * (Vtᵀ * diagonal s * Vt) = x + η := by
    rw [polarRetraction, Matrix.mul_assoc Vtᵀ, Matrix.mul_assoc U, ← Matrix.mul_assoc Vt, hV', Matrix.one_mul, ← Matrix.mul_assoc, hsvd]
  refine ⟨h1, h2, ?_⟩
  rintro rfl
  rw [add_zero] at h2
  set P := Vtᵀ * diagonal s * Vt with hP
  have hPt : Pᵀ = P := by rw [hP, transpose_mul, transpose_mul, transpose_transpose, diagonal_transpose, Matrix.mul_assoc]
  have hPP : P * P = 1 := by
    have : xᵀ * x = P * P := by
      rw [← h2, transpose_mul, Matrix.mul_assoc, ← Matrix.mul_assoc _ (polarRetraction U Vt), h1, Matrix.one_mul, hPt]
    rw [← this, hx]
  have hP1 : P = 1 := by
    have e : (1 + P) * (P - 1) = 0 := by
      rw [Matrix.add_mul, Matrix.one_mul, Matrix.mul_sub, hPP, Matrix.mul_one]; abel
    have hu := isUnit_det_of_ne (one_add_svd_det_ne_zero (s := s) (Vt := Vt) hs)
    have : P - 1 = (1 + P)⁻¹ * ((1 + P) * (P - 1)) := by rw [← Matrix.mul_assoc, nonsing_inv_mul _ hu, Matrix.one_mul]
    rw [e, Matrix.mul_zero] at this
    exact sub_eq_zero.mp this
  rw [hP1, Matrix.mul_one] at h2
  exact h2

/-! ## C36, C46: Cayley retraction and transport -/

/-- The skew matrix `W = U Vᵀ` behind the Cayley retraction. -/
noncomputable def cayW (x η : Matrix n p ℝ) : Matrix n n ℝ := cayU x η * (cayV x η)ᵀ

theorem cayW_eq (x η : Matrix n p ℝ) : cayW x η = (η - x * ((1 / 2 : ℝ) • (xᵀ * η))) * xᵀ - x * (η - x * ((1 / 2 : ℝ) • (xᵀ * η)))ᵀ := by
  rw [cayW, cayU, cayV, transpose_fromCols, fromCols_mul_fromRows, transpose_neg, Matrix.mul_neg]
  abel

theorem cayW_skew (x η : Matrix n p ℝ) : (cayW x η)ᵀ = -cayW x η := by
  rw [cayW_eq, transpose_sub, transpose_mul, transpose_mul, transpose_transpose, transpose_transpose]
  abel

theorem mk2_eq {x η : Matrix n p ℝ} (hx : xᵀ * x = 1) (hη : IsTangent x η) : mk2 x η = (cayV x η)ᵀ * cayU x η := by
  simp only [mk2, cayU, cayV]
  rw [transpose_fromCols, fromRows_mul_fromCols, hx]
  have e : ηᵀ * x = -(xᵀ * η) := by rw [← hη, transpose_mul, transpose_transpose]
  have h1 : xᵀ * (η - x * ((1 / 2 : ℝ) • (xᵀ * η))) = (1 / 2 : ℝ) • (xᵀ * η) := by
    rw [Matrix.mul_sub, ← Matrix.mul_assoc, hx, Matrix.one_mul]; module
  congr 1
  · exact h1.symm
  · simp only [transpose_neg, transpose_sub, transpose_mul, transpose_smul, transpose_transpose, Matrix.neg_mul, Matrix.sub_mul, Matrix.mul_sub, Matrix.smul_mul,
      Matrix.mul_smul]
    rw [Matrix.mul_assoc (ηᵀ * x) xᵀ, Matrix.mul_assoc (ηᵀ * x) xᵀ, ← Matrix.mul_assoc xᵀ x, hx, Matrix.one_mul, ← Matrix.mul_assoc ηᵀ x]
    module
  · have h2 := congrArg transpose h1
    rw [transpose_mul, transpose_transpose] at h2
    rw [transpose_neg, Matrix.neg_mul, h2]

theorem lup_eq {x η : Matrix n p ℝ} (hx : xᵀ * x = 1) (hη : IsTangent x η) : lup x η = 1 - (1 / 2 : ℝ) • ((cayV x η)ᵀ * cayU x η) := by
  rw [lup, mk2_eq hx hη]

theorem half_skew (x η : Matrix n p ℝ) : ((1 / 2 : ℝ) • cayW x η)ᵀ = -((1 / 2 : ℝ) • cayW x η) := by
  rw [transpose_smul, cayW_skew, smul_neg]

/-- **C36 (Cayley).** The linear system of the Cayley retraction is always solvable. -/
theorem C36_cayley_system_solvable {x η : Matrix n p ℝ} (hx : xᵀ * x = 1) (hη : IsTangent x η) : (lup x η).det ≠ 0 := by
  rw [lup_eq hx hη, ← Matrix.mul_smul, det_one_sub_mul_comm, Matrix.smul_mul]
  exact skew_det_ne_zero (half_skew x η)

/-- The orthogonal matrix `(I − W/2)⁻¹ (I + W/2)` as the code applies it. -/
noncomputable def cayT (x η : Matrix n p ℝ) : Matrix n n ℝ := 1 + cayU x η * ((lup x η)⁻¹ * (cayV x η)ᵀ)

theorem cayT_mul {x η : Matrix n p ℝ} (hx : xᵀ * x = 1) (hη : IsTangent x η) :
    (1 - (1 / 2 : ℝ) • cayW x η) * cayT x η = 1 + (1 / 2 : ℝ) • cayW x η := by
  have hu := isUnit_det_of_ne (C36_cayley_system_solvable hx hη)
  have e : (1 - (1 / 2 : ℝ) • cayW x η) * cayU x η = cayU x η * lup x η := by
    rw [lup_eq hx hη, cayW, Matrix.sub_mul, Matrix.mul_sub, Matrix.one_mul, Matrix.mul_one, Matrix.smul_mul, Matrix.mul_smul, Matrix.mul_assoc]
  rw [cayT, Matrix.mul_add, Matrix.mul_one, ← Matrix.mul_assoc, e, Matrix.mul_assoc, ← Matrix.mul_assoc (lup x η), mul_nonsing_inv _ hu, Matrix.one_mul, ← cayW]
  module

theorem cayT_orthogonal {x η : Matrix n p ℝ} (hx : xᵀ * x = 1) (hη : IsTangent x η) : (cayT x η)ᵀ * cayT x η = 1 := by
  set A := 1 - (1 / 2 : ℝ) • cayW x η with hA
  have hAt : Aᵀ = 1 + (1 / 2 : ℝ) • cayW x η := by
    rw [hA, transpose_sub, transpose_one, half_skew]; abel
  have hu : IsUnit A.det := isUnit_det_of_ne (skew_det_ne_zero (half_skew x η))
  have hut : IsUnit Aᵀ.det := by rw [det_transpose]; exact hu
  have h1 : A * cayT x η = Aᵀ := by rw [cayT_mul hx hη, hAt]
  have hcomm : Aᵀ * A = A * Aᵀ := by
    rw [hAt, hA]
    simp only [Matrix.mul_sub, Matrix.mul_add, Matrix.sub_mul, Matrix.add_mul, Matrix.one_mul, Matrix.mul_one]
    abel
  have h2 : cayT x η * A = Aᵀ := by
    have : cayT x η = A⁻¹ * Aᵀ := by rw [← h1, ← Matrix.mul_assoc, nonsing_inv_mul _ hu, Matrix.one_mul]
    rw [this, Matrix.mul_assoc, hcomm, ← Matrix.mul_assoc, nonsing_inv_mul _ hu, Matrix.one_mul]
  have h3 : Aᵀ * (cayT x η)ᵀ = A := by
    rw [← transpose_mul, h2, transpose_transpose]
  have h4 : Aᵀ * ((cayT x η)ᵀ * cayT x η) = Aᵀ := by rw [← Matrix.mul_assoc, h3, h1]
  calc (cayT x η)ᵀ * cayT x η = (Aᵀ)⁻¹ * (Aᵀ * ((cayT x η)ᵀ * cayT x η)) := by rw [← Matrix.mul_assoc, nonsing_inv_mul _ hut, Matrix.one_mul]
    _ = 1 := by rw [h4, nonsing_inv_mul _ hut]

theorem mk1_eq {x η : Matrix n p ℝ} (hx : xᵀ * x = 1) (hη : IsTangent x η) :
    fromRows 1 (-((1 / 2 : ℝ) • (xᵀ * η))ᵀ) = (cayV x η)ᵀ * x := by
  have h1 : xᵀ * (η - x * ((1 / 2 : ℝ) • (xᵀ * η))) = (1 / 2 : ℝ) • (xᵀ * η) := by
    rw [Matrix.mul_sub, ← Matrix.mul_assoc, hx, Matrix.one_mul]; module
  have h2 := congrArg transpose h1
  rw [transpose_mul, transpose_transpose] at h2
  rw [cayV, transpose_fromCols, fromRows_mul, hx, transpose_neg, Matrix.neg_mul, h2]

theorem cayley_eq {x η : Matrix n p ℝ} (hx : xᵀ * x = 1) (hη : IsTangent x η) : cayleyRetraction x η = cayT x η * x := by
  rw [cayleyRetraction, mk3, mk1_eq hx hη, cayT, Matrix.add_mul, Matrix.one_mul, Matrix.mul_assoc, Matrix.mul_assoc]

/-- **C36 (Cayley).** The result has orthonormal columns, satisfies the defining equation `y − x = W (x + y)/2` with `W = u xᵀ − x uᵀ`, and the zero tangent vector is mapped
to `x`. -/
theorem C36_cayley_retraction {x η : Matrix n p ℝ} (hx : xᵀ * x = 1) (hη : IsTangent x η) :
    (cayleyRetraction x η)ᵀ * cayleyRetraction x η = 1 ∧
    cayleyRetraction x η - x = (1 / 2 : ℝ) • (((η - x * ((1 / 2 : ℝ) • (xᵀ * η))) * xᵀ - x * (η - x * ((1 / 2 : ℝ) • (xᵀ * η)))ᵀ) * (x + cayleyRetraction x η)) ∧
    (η = 0 → cayleyRetraction x η = x) := by
  have hT := cayT_mul hx hη
  refine ⟨?_, ?_, ?_⟩
  · rw [cayley_eq hx hη, transpose_mul, Matrix.mul_assoc, ← Matrix.mul_assoc _ (cayT x η), cayT_orthogonal hx hη, Matrix.one_mul, hx]
  · rw [← cayW_eq, cayley_eq hx hη]
    have := congrArg (· * x) hT
    simp only [Matrix.sub_mul, Matrix.add_mul, Matrix.one_mul, Matrix.smul_mul] at this
    rw [Matrix.mul_add, smul_add]
    have e : cayT x η * x = x + (1 / 2 : ℝ) • (cayW x η * x) + (1 / 2 : ℝ) • (cayW x η * cayT x η * x) := by
      rw [← this]; abel
    rw [Matrix.mul_assoc] at e
    nth_rewrite 1 [e]
    abel
  · rintro rfl
    have hW : cayW x 0 = 0 := by rw [cayW_eq]; simp
    rw [hW, smul_zero, sub_zero, Matrix.one_mul, add_zero] at hT
    rw [cayley_eq hx hη, hT, Matrix.one_mul]

theorem cayleyTransport_eq (x η ξ : Matrix n p ℝ) : cayleyTransport x η ξ = cayT x η * ξ := by
  rw [cayleyTransport, cayT, Matrix.add_mul, Matrix.one_mul, Matrix.mul_assoc, Matrix.mul_assoc]

theorem cayleyInvTransport_eq {x η : Matrix n p ℝ} (ξ : Matrix n p ℝ) : cayleyInvTransport x η ξ = (cayT x η)ᵀ * ξ := by
  rw [cayleyInvTransport, cayT, transpose_add, transpose_one, transpose_mul, transpose_mul, transpose_transpose, transpose_nonsing_inv, Matrix.add_mul,
    Matrix.one_mul, Matrix.mul_assoc, Matrix.mul_assoc]

/-- **C46 (Cayley).** The Cayley transport preserves inner products, takes tangent vectors at `x` to tangent vectors at `y`, and the inverse transport undoes it (both ways). -/
theorem C46_cayley_transport {x η : Matrix n p ℝ} (hx : xᵀ * x = 1) (hη : IsTangent x η) (ξ ζ : Matrix n p ℝ) :
    frob (cayleyTransport x η ξ) (cayleyTransport x η ζ) = frob ξ ζ ∧
    (IsTangent x ξ → IsTangent (cayleyRetraction x η) (cayleyTransport x η ξ)) ∧
    cayleyInvTransport x η (cayleyTransport x η ξ) = ξ ∧ cayleyTransport x η (cayleyInvTransport x η ξ) = ξ := by
  have ho := cayT_orthogonal hx hη
  refine ⟨?_, ?_, ?_, ?_⟩
  · rw [cayleyTransport_eq, cayleyTransport_eq, frob_mul_left, ← Matrix.mul_assoc, ho, Matrix.one_mul]
  · intro h
    unfold IsTangent at h ⊢
    have e : (cayT x η * x)ᵀ * (cayT x η * ξ) = xᵀ * ξ := by
      rw [transpose_mul, Matrix.mul_assoc xᵀ, ← Matrix.mul_assoc _ (cayT x η), ho, Matrix.one_mul]
    rw [cayleyTransport_eq, cayley_eq hx hη, e, h]
  · rw [cayleyInvTransport_eq, cayleyTransport_eq, ← Matrix.mul_assoc, ho, Matrix.one_mul]
  · rw [cayleyInvTransport_eq, cayleyTransport_eq, ← Matrix.mul_assoc, mul_eq_one_comm.mp ho, Matrix.one_mul]

/-! ## Non-vacuity -/

/-- The point `e₁` of the circle, as a `2 × 1` matrix. -/
def exX : Matrix (Fin 2) (Fin 1) ℝ := !![1; 0]
/-- A tangent vector at it. -/
noncomputable def exEta : Matrix (Fin 2) (Fin 1) ℝ := !![0; 3 / 4]

theorem exX_orth : exXᵀ * exX = 1 := by
  ext i j; fin_cases i; fin_cases j; simp [exX, Matrix.mul_apply, Fin.sum_univ_two]

theorem exEta_tangent : IsTangent exX exEta := by
  unfold IsTangent
  ext i j; fin_cases i; fin_cases j; simp [exX, exEta, Matrix.mul_apply, Fin.sum_univ_two]

/-- A factorisation with a negative diagonal entry: the sign is corrected. -/
example : qfRetraction (!![-(4 / 5); -(3 / 5)] : Matrix (Fin 2) (Fin 1) ℝ) !![-(5 / 4)] 0 0 = 4 / 5 ∧
    (qfRetraction (!![-(4 / 5); -(3 / 5)] : Matrix (Fin 2) (Fin 1) ℝ) !![-(5 / 4)])ᵀ * qfRetraction !![-(4 / 5); -(3 / 5)] !![-(5 / 4)] = 1 := by
  constructor
  · simp [qfRetraction, scaleCols, signs]
  · refine (C36_qf_retraction exX_orth exEta_tangent ?_ ?_ ?_).1
    · ext i j; fin_cases i; fin_cases j
      simp [Matrix.mul_apply, Fin.sum_univ_two]; norm_num
    · intro i j h
      fin_cases i; fin_cases j; exact absurd h (lt_irrefl _)
    · ext i j; fin_cases i <;> fin_cases j <;> simp [exX, exEta, Matrix.mul_apply] <;> norm_num

/-- A singular value decomposition. -/
example : (polarRetraction (!![4 / 5; 3 / 5] : Matrix (Fin 2) (Fin 1) ℝ) 1)ᵀ * polarRetraction !![4 / 5; 3 / 5] 1 = 1 := by
  refine (C36_polar_retraction (s := fun _ => 5 / 4) (η := exEta) exX_orth ?_ (by simp) (fun _ => by norm_num) ?_).1
  · ext i j; fin_cases i; fin_cases j
    simp [Matrix.mul_apply, Fin.sum_univ_two]; norm_num
  · ext i j; fin_cases i <;> fin_cases j <;> simp [exX, exEta] <;> norm_num

/-- The Cayley retraction moves `e₁`. -/
example : (cayleyRetraction exX exEta)ᵀ * cayleyRetraction exX exEta = 1 ∧ cayleyRetraction exX exEta ≠ exX := by
  refine ⟨(C36_cayley_retraction exX_orth exEta_tangent).1, fun h => ?_⟩
  have h1 := (C36_cayley_retraction exX_orth exEta_tangent).2.1
  have e : exXᵀ * exEta = 0 := by
    ext i j; fin_cases i; fin_cases j; simp [exX, exEta, Matrix.mul_apply, Fin.sum_univ_two]
  rw [h, sub_self, e, smul_zero, Matrix.mul_zero, sub_zero] at h1
  have h2 := congrFun (congrFun h1 1) 0
  simp only [Matrix.zero_apply, Matrix.smul_apply, Matrix.mul_apply, Matrix.sub_apply, Matrix.add_apply, transpose_apply, Fin.sum_univ_two, smul_eq_mul,
    Fin.sum_univ_one, exX, exEta, Matrix.of_apply, Matrix.cons_val', Matrix.cons_val_zero, Matrix.cons_val_one] at h2
  norm_num at h2

end Verif.Stiefel
