import Verif.Manifold.CStiefel
import Mathlib.LinearAlgebra.Matrix.PosDef
import Mathlib.LinearAlgebra.Matrix.Block
import Mathlib.Analysis.Complex.Order
import Mathlib.Analysis.Calculus.Deriv.Mul
import Mathlib.Analysis.Calculus.Deriv.Inv
import Mathlib.Analysis.Calculus.Deriv.Add
import Mathlib.Analysis.Calculus.Deriv.Comp
import Mathlib.Analysis.Calculus.Deriv.Pow
import Mathlib.Analysis.Calculus.Deriv.Star
import Mathlib.Analysis.SpecialFunctions.Sqrt
import Mathlib.Analysis.Complex.RealDeriv
import Mathlib.Tactic.FieldSimp

/-!
# C88: the complex Stiefel manifold
-/

set_option linter.unusedVariables false
set_option linter.unusedSectionVars false

namespace Verif.CStiefel

open Matrix Verif.CMat

variable {n p : Type*} [Fintype n] [Fintype p] [DecidableEq n] [DecidableEq p]

/-- Specification: tangent vectors of the complex Stiefel manifold at `x`. -/
def IsTangent (x η : Matrix n p ℂ) : Prop := (xᴴ * η)ᴴ = -(xᴴ * η)

theorem isUnit_det_of_ne {A : Matrix p p ℂ} (h : A.det ≠ 0) : IsUnit A.det := isUnit_iff_ne_zero.mpr h

theorem ip_rsmul_left (c : ℝ) (A B : Matrix n p ℂ) : ip (c • A) B = c * ip A B := by
  have : c • A = (c : ℂ) • A := by ext i j; simp
  rw [this]; exact ip_smul_left c A B

theorem ip_rsmul_right (c : ℝ) (A B : Matrix n p ℂ) : ip A (c • B) = c * ip A B := by rw [ip_comm, ip_rsmul_left, ip_comm]

theorem ip_neg_right (A C : Matrix n p ℂ) : ip A (-C) = -ip A C := by rw [ip_comm, ip_neg_left, ip_comm]

theorem conj_rsmul (c : ℝ) (A : Matrix n p ℂ) : (c • A)ᴴ = c • Aᴴ := by
  ext i j; simp [conjTranspose_apply]

theorem ip_herm_skew {S K : Matrix p p ℂ} (hS : Sᴴ = S) (hK : Kᴴ = -K) : ip S K = 0 := by
  have := ip_conjTranspose S K
  rw [hS, hK, ip_neg_right] at this
  linarith

theorem ip_skew_herm {S K : Matrix p p ℂ} (hS : Sᴴ = S) (hK : Kᴴ = -K) : ip K S = 0 := by rw [ip_comm, ip_herm_skew hS hK]

theorem sym_herm (A : Matrix p p ℂ) : (sym A)ᴴ = sym A := by
  simp only [sym, conj_rsmul, conjTranspose_add, conjTranspose_conjTranspose, add_comm]

theorem sym_of_skew {A : Matrix p p ℂ} (h : Aᴴ = -A) : sym A = 0 := by simp [sym, h]

theorem sub_sym_skew (A : Matrix p p ℂ) : (A - sym A)ᴴ = -(A - sym A) := by
  simp only [sym, conjTranspose_sub, conj_rsmul, conjTranspose_add, conjTranspose_conjTranspose]
  module

theorem ip_sym_adj (A B : Matrix p p ℂ) : ip (sym A) B = ip A (sym B) := by
  have h1 := ip_herm_skew (sym_herm A) (sub_sym_skew B)
  have h2 := ip_skew_herm (sym_herm B) (sub_sym_skew A)
  rw [ip_sub_right] at h1
  rw [ip_sub_left] at h2
  linarith

/-! ## Projection, gradients, Hessian -/

/-- **C88 (projection).** It returns tangent matrices, fixes tangent matrices, is idempotent and self-adjoint, and its residual is orthogonal to all tangent matrices. -/
theorem C88_projection {x : Matrix n p ℂ} (hx : xᴴ * x = 1) (η ξ : Matrix n p ℂ) :
    IsTangent x (proj x η) ∧ (IsTangent x η → proj x η = η) ∧ proj x (proj x η) = proj x η ∧
      ip (proj x η) ξ = ip η (proj x ξ) ∧ (IsTangent x ξ → ip (η - proj x η) ξ = 0) := by
  have h1 : ∀ v, IsTangent x (proj x v) := by
    intro v
    unfold IsTangent proj
    rw [Matrix.mul_sub, ← Matrix.mul_assoc, hx, Matrix.one_mul, sub_sym_skew]
  have h2 : ∀ v, IsTangent x v → proj x v = v := by
    intro v hv
    rw [proj, sym_of_skew hv, Matrix.mul_zero, sub_zero]
  refine ⟨h1 η, h2 η, h2 _ (h1 η), ?_, ?_⟩
  · rw [proj, proj, ip_sub_left, ip_sub_right, ip_mul_left, ip_mul_left' x, ip_sym_adj]
  · intro h
    rw [proj, sub_sub_cancel, ip_mul_left]
    exact ip_herm_skew (sym_herm _) h

/-- **C88 (gradient, Euclidean metric).** The result is tangent and represents the differential on tangent vectors; it is the only such vector. -/
theorem C88_gradient {x : Matrix n p ℂ} (hx : xᴴ * x = 1) (g : Matrix n p ℂ) :
    IsTangent x (proj x g) ∧ (∀ ξ, IsTangent x ξ → ip (proj x g) ξ = ip g ξ) ∧
      ∀ h, IsTangent x h → (∀ ξ, IsTangent x ξ → ip h ξ = ip g ξ) → h = proj x g := by
  have h1 : ∀ ξ, IsTangent x ξ → ip (proj x g) ξ = ip g ξ := by
    intro ξ hξ
    rw [(C88_projection hx g ξ).2.2.2.1, (C88_projection hx ξ ξ).2.1 hξ]
  refine ⟨(C88_projection hx g g).1, h1, ?_⟩
  intro h ht hh
  have hd : IsTangent x (h - proj x g) := by
    have := (C88_projection hx g g).1
    unfold IsTangent at ht this ⊢
    rw [Matrix.mul_sub, conjTranspose_sub, ht, this]; abel
  have : ip (h - proj x g) (h - proj x g) = 0 := by rw [ip_sub_left, hh _ hd, h1 _ hd, sub_self]
  exact sub_eq_zero.mp (ip_self_eq_zero.mp this)

theorem tangent_eq {x η : Matrix n p ℂ} (h : IsTangent x η) : ηᴴ * x = -(xᴴ * η) := by
  rw [← h, conjTranspose_mul, conjTranspose_conjTranspose]

/-- **C88 (gradient, canonical metric).** The result is tangent and represents the differential. -/
theorem C88_canonical_gradient {x : Matrix n p ℂ} (hx : xᴴ * x = 1) (g : Matrix n p ℂ) :
    IsTangent x (canonGrad x g) ∧ ∀ ξ, IsTangent x ξ → canonMetric x (canonGrad x g) ξ = ip g ξ := by
  constructor
  · unfold IsTangent canonGrad
    rw [Matrix.mul_sub, ← Matrix.mul_assoc, hx, Matrix.one_mul, conjTranspose_sub, conjTranspose_mul, conjTranspose_mul, conjTranspose_conjTranspose,
      conjTranspose_conjTranspose]
    abel
  · intro ξ hξ
    have e2 : (canonGrad x g)ᴴ * x = gᴴ * x - xᴴ * g := by
      rw [canonGrad, conjTranspose_sub, conjTranspose_mul, conjTranspose_mul, conjTranspose_conjTranspose, Matrix.sub_mul, Matrix.mul_assoc, hx, Matrix.mul_one]
    rw [canonMetric, tangent_eq hξ, e2, canonGrad, ip_sub_left, ip_mul_left, ip_neg_right, ip_sub_left]
    have e3 : ip (gᴴ * x) (xᴴ * ξ) = -ip (xᴴ * g) (xᴴ * ξ) := by
      rw [← ip_conjTranspose, conjTranspose_mul, conjTranspose_conjTranspose, hξ, ip_neg_right]
    rw [e3]; ring

/-- **C88 (Hessian, Euclidean metric).** The result is tangent, and self-adjoint for every symmetric Euclidean Hessian. -/
theorem C88_hessian {x : Matrix n p ℂ} (hx : xᴴ * x = 1) (G : Matrix n p ℂ) (H : Matrix n p ℂ → Matrix n p ℂ)
    (hH : ∀ a b, ip (H a) b = ip a (H b)) {η ξ : Matrix n p ℂ} (hη : IsTangent x η) (hξ : IsTangent x ξ) :
    ip (hess x G η (H η)) ξ = ip η (hess x G ξ (H ξ)) ∧ IsTangent x (hess x G η (H η)) := by
  refine ⟨?_, (C88_projection hx _ ξ).1⟩
  rw [hess, hess, (C88_projection hx _ ξ).2.2.2.1, (C88_projection hx ξ ξ).2.1 hξ, ← (C88_projection hx η _).2.2.2.1,
    (C88_projection hx η η).2.1 hη, ip_sub_left, ip_sub_right, hH, ip_mul_right, sym_herm]

/-- **C88 (Hessian, Euclidean metric).** The result is the projection of the derivative of the gradient: `D(proj_x G(x))[η]` for a Euclidean gradient with value `G` and derivative `E`
along `η` is `E - η sym(xᴴG) - x D`, with `D` Hermitian, and `hess` is its tangent part. -/
theorem C88_hessian_is_covariant_derivative {x : Matrix n p ℂ} (hx : xᴴ * x = 1) (G η E : Matrix n p ℂ) :
    hess x G η E = proj x (E - η * sym (xᴴ * G) - x * sym (ηᴴ * G + xᴴ * E)) := by
  have hz : ∀ S : Matrix p p ℂ, Sᴴ = S → proj x (x * S) = 0 := by
    intro S hS
    rw [proj, ← Matrix.mul_assoc, hx, Matrix.one_mul, sym, hS, ← two_smul ℝ S, smul_smul]
    norm_num
  have hsub : ∀ a b : Matrix n p ℂ, proj x (a - b) = proj x a - proj x b := by
    intro a b
    simp only [proj, sym, Matrix.mul_sub, conjTranspose_sub, Matrix.mul_add, smul_sub, smul_add, Matrix.mul_smul]
    abel
  rw [hsub (E - η * sym (xᴴ * G)), hz _ (sym_herm _), sub_zero, hess]

/-! ## qf retraction -/

section qf

variable {k : ℕ}

/-- Specification: upper triangular. -/
def IsUpper (R : Matrix (Fin k) (Fin k) ℂ) : Prop := ∀ i j, j < i → R i j = 0

/-- Specification: the diagonal entries are positive real numbers. -/
def PosDiag (R : Matrix (Fin k) (Fin k) ℂ) : Prop := ∀ i, (R i i).im = 0 ∧ 0 < (R i i).re

/-- Signs as complex numbers. -/
noncomputable def csigns (R : Matrix (Fin k) (Fin k) ℂ) (i : Fin k) : ℂ := (signs R i : ℂ)

theorem signs_mul_self (R : Matrix (Fin k) (Fin k) ℂ) (i : Fin k) : signs R i * signs R i = 1 := by
  unfold signs; split <;> norm_num

theorem scaleCols_eq (R : Matrix (Fin k) (Fin k) ℂ) (A : Matrix n (Fin k) ℂ) : scaleCols (signs R) A = A * diagonal (csigns R) := by
  ext i j
  rw [mul_diagonal, mul_comm]; rfl

theorem signs_diag (R : Matrix (Fin k) (Fin k) ℂ) : diagonal (csigns R) * diagonal (csigns R) = 1 := by
  rw [diagonal_mul_diagonal, ← diagonal_one]
  congr 1
  funext i
  rw [csigns, ← Complex.ofReal_mul, signs_mul_self, Complex.ofReal_one]

theorem signs_conj (R : Matrix (Fin k) (Fin k) ℂ) : (diagonal (csigns R))ᴴ = diagonal (csigns R) := by
  rw [diagonal_conjTranspose]
  congr 1
  funext i
  simp [csigns]

theorem det_upper {R : Matrix (Fin k) (Fin k) ℂ} (hR : IsUpper R) : R.det = ∏ i, R i i :=
  det_of_isUpperTriangular (fun i j h => hR i j h)

theorem inv_upper {R : Matrix (Fin k) (Fin k) ℂ} (hR : IsUpper R) (hd : R.det ≠ 0) : IsUpper R⁻¹ := by
  have := Matrix.invertibleOfIsUnitDet R (isUnit_det_of_ne hd)
  exact fun i j h => blockTriangular_inv_of_blockTriangular (b := id) (M := R) (fun i j h => hR i j h) h

theorem mul_upper {R S : Matrix (Fin k) (Fin k) ℂ} (hR : IsUpper R) (hS : IsUpper S) : IsUpper (R * S) :=
  fun i j h => BlockTriangular.mul (b := id) (fun i j h => hR i j h) (fun i j h => hS i j h) h

theorem det_of_posDiag {R : Matrix (Fin k) (Fin k) ℂ} (hR : IsUpper R) (hp : PosDiag R) : R.det ≠ 0 := by
  rw [det_upper hR]
  refine Finset.prod_ne_zero_iff.mpr fun i _ h => ?_
  have := (hp i).2
  rw [h] at this
  simp at this

/-- Uniqueness of the factorisation with positive diagonal. -/
theorem qf_unique {y₁ y₂ : Matrix n (Fin k) ℂ} {R₁ R₂ : Matrix (Fin k) (Fin k) ℂ} (h1 : y₁ᴴ * y₁ = 1) (h2 : y₂ᴴ * y₂ = 1) (hR1 : IsUpper R₁) (hR2 : IsUpper R₂)
    (p1 : PosDiag R₁) (p2 : PosDiag R₂) (h : y₁ * R₁ = y₂ * R₂) : y₁ = y₂ ∧ R₁ = R₂ := by
  have d1 := det_of_posDiag hR1 p1
  have d2 := det_of_posDiag hR2 p2
  have u1 := isUnit_det_of_ne d1
  have u2 := isUnit_det_of_ne d2
  set S := R₂ * R₁⁻¹ with hS
  have hyS : y₁ = y₂ * S := by
    rw [hS, ← Matrix.mul_assoc, ← h, Matrix.mul_assoc, mul_nonsing_inv _ u1, Matrix.mul_one]
  have hSS : Sᴴ * S = 1 := by
    rw [hyS, conjTranspose_mul, Matrix.mul_assoc, ← Matrix.mul_assoc y₂ᴴ, h2, Matrix.one_mul] at h1
    exact h1
  have hSU : IsUpper S := mul_upper hR2 (inv_upper hR1 d1)
  have hST : Sᴴ = R₁ * R₂⁻¹ := by
    have e : S * (R₁ * R₂⁻¹) = 1 := by
      rw [hS, Matrix.mul_assoc, ← Matrix.mul_assoc R₁⁻¹, nonsing_inv_mul _ u1, Matrix.one_mul, mul_nonsing_inv _ u2]
    calc Sᴴ = Sᴴ * (S * (R₁ * R₂⁻¹)) := by rw [e, Matrix.mul_one]
      _ = R₁ * R₂⁻¹ := by rw [← Matrix.mul_assoc, hSS, Matrix.one_mul]
  have hSd : ∀ i j, i ≠ j → S i j = 0 := by
    intro i j hij
    rcases lt_or_gt_of_ne hij with h | h
    · have hu : IsUpper Sᴴ := by rw [hST]; exact mul_upper hR1 (inv_upper hR2 d2)
      have := hu j i h
      rw [conjTranspose_apply] at this
      exact star_eq_zero.mp this
    · exact hSU i j h
  have hSR : S * R₁ = R₂ := by rw [hS, Matrix.mul_assoc, nonsing_inv_mul _ u1, Matrix.mul_one]
  have hS1 : ∀ i, S i i = 1 := by
    intro i
    have e1 : S i i * R₁ i i = R₂ i i := by
      rw [← hSR, mul_apply, Finset.sum_eq_single i (fun j _ hj => by rw [hSd i j hj.symm, zero_mul]) (fun h => absurd (Finset.mem_univ i) h)]
    have e2 : star (S i i) * S i i = 1 := by
      have := congrFun (congrFun hSS i) i
      rw [mul_apply, Finset.sum_eq_single i (fun j _ hj => by rw [hSd j i hj, mul_zero]) (fun h => absurd (Finset.mem_univ i) h), one_apply_eq] at this
      exact this
    obtain ⟨a1, b1⟩ := p1 i
    obtain ⟨a2, b2⟩ := p2 i
    have er := congrArg Complex.re e1
    have ei := congrArg Complex.im e1
    have e2r := congrArg Complex.re e2
    simp only [Complex.mul_re, Complex.mul_im, a1, a2, mul_zero, sub_zero, zero_add] at er ei
    simp only [Complex.star_def, Complex.mul_re, Complex.conj_re, Complex.conj_im, Complex.one_re] at e2r
    have him : (S i i).im = 0 := (mul_eq_zero.mp ei).resolve_right b1.ne'
    have hre : 0 < (S i i).re := by
      have : 0 < (S i i).re * (R₁ i i).re := by rw [er]; exact b2
      exact pos_of_mul_pos_left this b1.le
    rw [him] at e2r
    apply Complex.ext
    · rw [Complex.one_re]; nlinarith
    · rw [him, Complex.one_im]
  have hSone : S = 1 := by
    ext i j
    by_cases h : i = j
    · subst h; rw [hS1, one_apply_eq]
    · rw [hSd i j h, one_apply_ne h]
  refine ⟨by rw [hyS, hSone, Matrix.mul_one], ?_⟩
  rw [← hSR, hSone, Matrix.one_mul]

/-- The Gram matrix of `x + η`. -/
theorem gram_add {x η : Matrix n p ℂ} (hx : xᴴ * x = 1) (hη : IsTangent x η) : (x + η)ᴴ * (x + η) = 1 + ηᴴ * η := by
  rw [conjTranspose_add, Matrix.add_mul, Matrix.mul_add, Matrix.mul_add, hx, tangent_eq hη]
  abel

open ComplexOrder in
theorem one_add_gram_det_ne_zero (A : Matrix n p ℂ) : (1 + Aᴴ * A).det ≠ 0 :=
  ((isUnit_iff_isUnit_det _).mp (PosDef.isUnit ((PosDef.one (n := p) (R := ℂ)).add_posSemidef (posSemidef_conjTranspose_mul_self A)))).ne_zero

/-- **C88 (qf).** Given a QR factorisation of `x + η` with real diagonal (any signs), the retraction has orthonormal columns, and is the unique orthonormal factor of `x + η` whose triangular
factor has a positive diagonal. -/
theorem C88_qf_retraction {x η Q : Matrix n (Fin k) ℂ} {R : Matrix (Fin k) (Fin k) ℂ} (hx : xᴴ * x = 1) (hη : IsTangent x η)
    (hQ : Qᴴ * Q = 1) (hR : IsUpper R) (hre : ∀ i, (R i i).im = 0) (hQR : Q * R = x + η) :
    (qfRetraction Q R)ᴴ * qfRetraction Q R = 1 ∧
    (∃ R', IsUpper R' ∧ PosDiag R' ∧ qfRetraction Q R * R' = x + η ∧ R' = diagonal (csigns R) * R) ∧
    ∀ y R', yᴴ * y = 1 → IsUpper R' → PosDiag R' → y * R' = x + η → y = qfRetraction Q R := by
  have horth : (qfRetraction Q R)ᴴ * qfRetraction Q R = 1 := by
    rw [qfRetraction, scaleCols_eq, conjTranspose_mul, signs_conj, Matrix.mul_assoc, ← Matrix.mul_assoc Qᴴ, hQ, Matrix.one_mul, signs_diag]
  have hRR : Rᴴ * R = 1 + ηᴴ * η := by
    rw [← gram_add hx hη, ← hQR, conjTranspose_mul, Matrix.mul_assoc, ← Matrix.mul_assoc Qᴴ, hQ, Matrix.one_mul]
  have hdet : R.det ≠ 0 := by
    intro h0
    apply one_add_gram_det_ne_zero η
    rw [← hRR, det_mul, h0, mul_zero]
  have hdiag : ∀ i, (R i i).re ≠ 0 := by
    intro i h0
    apply hdet
    rw [det_upper hR]
    exact Finset.prod_eq_zero (Finset.mem_univ i) (Complex.ext h0 (hre i))
  have hpos : PosDiag (diagonal (csigns R) * R) := by
    intro i
    rw [diagonal_mul, csigns, Complex.im_ofReal_mul, Complex.re_ofReal_mul, hre i, mul_zero]
    refine ⟨rfl, ?_⟩
    unfold signs
    split
    · rename_i h; linarith
    · rename_i h
      rw [one_mul]
      exact lt_of_le_of_ne (not_lt.mp h) (hdiag i).symm
  have hup : IsUpper (diagonal (csigns R) * R) := by
    intro i j hij
    rw [diagonal_mul, hR i j hij, mul_zero]
  have hfac : qfRetraction Q R * (diagonal (csigns R) * R) = x + η := by
    rw [qfRetraction, scaleCols_eq, Matrix.mul_assoc, ← Matrix.mul_assoc (diagonal _), signs_diag, Matrix.one_mul, hQR]
  refine ⟨horth, ⟨_, hup, hpos, hfac, rfl⟩, ?_⟩
  intro y R' hy hR' hp h
  exact (qf_unique hy horth hR' hup hp hpos (h.trans hfac.symm)).1

/-- **C88 (qf).** The zero tangent vector is mapped to `x`. -/
theorem C88_qf_zero {x Q : Matrix n (Fin k) ℂ} {R : Matrix (Fin k) (Fin k) ℂ} (hx : xᴴ * x = 1)
    (hQ : Qᴴ * Q = 1) (hR : IsUpper R) (hre : ∀ i, (R i i).im = 0) (hQR : Q * R = x + 0) : qfRetraction Q R = x := by
  have hz : IsTangent x 0 := by simp [IsTangent]
  refine ((C88_qf_retraction hx hz hQ hR hre hQR).2.2 x 1 hx ?_ ?_ ?_).symm
  · intro i j hij
    exact one_apply_ne (ne_of_gt hij)
  · intro i; rw [one_apply_eq]; simp
  · rw [Matrix.mul_one, add_zero]

/-- The factors of a curve of full-rank matrices are differentiable, whatever way they were computed. -/
theorem qf_differentiable {A y : ℝ → Matrix n (Fin k) ℂ} {R : ℝ → Matrix (Fin k) (Fin k) ℂ} (hy : ∀ t, (y t)ᴴ * y t = 1) (hR : ∀ t, IsUpper (R t))
    (hp : ∀ t, PosDiag (R t)) (h : ∀ t, y t * R t = A t) {t₀ : ℝ} (hA : ∀ i j, DifferentiableAt ℝ (fun t => A t i j) t₀) :
    ∀ (j : Fin k) (l : n), DifferentiableAt ℝ (fun t => y t l j) t₀ := by
  have hRA : ∀ t, R t = (y t)ᴴ * A t := fun t => by rw [← h t, ← Matrix.mul_assoc, hy, Matrix.one_mul]
  intro j
  induction j using WellFoundedLT.induction with
  | ind j ih =>
    have dR : ∀ i, i < j → DifferentiableAt ℝ (fun t => R t i j) t₀ := by
      intro i hi
      have e : (fun t => R t i j) = fun t => ∑ l, star (y t l i) * A t l j := by
        funext t; rw [hRA t, mul_apply]; rfl
      rw [e]
      exact DifferentiableAt.fun_sum fun l _ => (ih i hi l).star.mul (hA l j)
    set v : ℝ → n → ℂ := fun t l => A t l j - ∑ i ∈ Finset.univ.filter (· < j), y t l i * R t i j with hv
    have hvy : ∀ t l, v t l = y t l j * R t j j := by
      intro t l
      have e : A t l j = ∑ i, y t l i * R t i j := by rw [← h t, mul_apply]
      simp only [hv]
      rw [e, ← Finset.sum_filter_add_sum_filter_not Finset.univ (· < j), add_sub_cancel_left, Finset.sum_eq_single j]
      · intro b hb hbj
        have := not_lt.mp (Finset.mem_filter.mp hb).2
        rw [hR t b j (lt_of_le_of_ne this hbj.symm), mul_zero]
      · intro hb
        exact absurd (Finset.mem_filter.mpr ⟨Finset.mem_univ j, lt_irrefl j⟩) hb
    have dv : ∀ l, DifferentiableAt ℝ (fun t => v t l) t₀ := by
      intro l
      refine (hA l j).sub (DifferentiableAt.fun_sum fun i hi => ?_)
      have hi' := (Finset.mem_filter.mp hi).2
      exact (ih i hi' l).mul (dR i hi')
    have hRre : ∀ t, R t j j = ((R t j j).re : ℂ) := fun t => Complex.ext (by simp) (by simp [(hp t j).1])
    have hnorm : ∀ t, ∑ l, ((v t l).re * (v t l).re + (v t l).im * (v t l).im) = (R t j j).re * (R t j j).re := by
      intro t
      have e : ∑ l, star (y t l j) * y t l j = 1 := by
        have := congrFun (congrFun (hy t) j) j
        rw [mul_apply, one_apply_eq] at this
        exact this
      have e2 := congrArg Complex.re e
      rw [Complex.re_sum, Complex.one_re] at e2
      calc ∑ l, ((v t l).re * (v t l).re + (v t l).im * (v t l).im) = ∑ l, ((R t j j).re * (R t j j).re) * (star (y t l j) * y t l j).re := by
            refine Finset.sum_congr rfl fun l _ => ?_
            rw [hvy, hRre t]
            simp only [Complex.star_def, Complex.mul_re, Complex.mul_im, Complex.conj_re, Complex.conj_im, Complex.ofReal_re, Complex.ofReal_im]
            ring
        _ = _ := by rw [← Finset.mul_sum, e2, mul_one]
    have dre : ∀ l, DifferentiableAt ℝ (fun t => (v t l).re) t₀ := fun l => (Complex.reCLM.differentiableAt (x := v t₀ l)).comp t₀ (dv l)
    have dim : ∀ l, DifferentiableAt ℝ (fun t => (v t l).im) t₀ := fun l => (Complex.imCLM.differentiableAt (x := v t₀ l)).comp t₀ (dv l)
    have hRjj : (fun t => (R t j j).re) = fun t => √(∑ l, ((v t l).re * (v t l).re + (v t l).im * (v t l).im)) := by
      funext t; rw [hnorm, Real.sqrt_mul_self (hp t j).2.le]
    have dRre : DifferentiableAt ℝ (fun t => (R t j j).re) t₀ := by
      rw [hRjj]
      refine DifferentiableAt.sqrt (DifferentiableAt.fun_sum fun l _ => ((dre l).mul (dre l)).add ((dim l).mul (dim l))) ?_
      rw [hnorm]
      exact mul_ne_zero (hp t₀ j).2.ne' (hp t₀ j).2.ne'
    have dRjj : DifferentiableAt ℝ (fun t => R t j j) t₀ := by
      have e : (fun t => R t j j) = fun t => (((R t j j).re : ℝ) : ℂ) := funext hRre
      rw [e]
      exact (Complex.ofRealCLM.differentiableAt (x := (R t₀ j j).re)).comp t₀ dRre
    have hne : ∀ t, R t j j ≠ 0 := fun t h0 => by
      have := (hp t j).2
      rw [h0] at this; simp at this
    intro l
    have e : (fun t => y t l j) = fun t => v t l / R t j j := by
      funext t; rw [hvy, mul_div_cancel_right₀ _ (hne t)]
    rw [e]
    exact (dv l).div dRjj (hne t₀)

/-- An upper triangular `B` with real diagonal and `M - B` skew-Hermitian is minus the correction of the code. -/
theorem correction_unique {M B : Matrix (Fin k) (Fin k) ℂ} (hB : IsUpper B) (hre : ∀ i, (B i i).im = 0) (hs : (M - B)ᴴ = -(M - B)) : qfCorrection M = -B := by
  have hs' : ∀ i j, star (M j i - B j i) = -(M i j - B i j) := fun i j => by
    have := congrFun (congrFun hs i) j
    rw [conjTranspose_apply] at this
    exact this
  ext i j
  unfold qfCorrection
  rw [Matrix.neg_apply]
  rcases lt_trichotomy i j with h | h | h
  · rw [if_neg h.ne, if_pos h]
    have := hs' i j
    rw [hB j i h, sub_zero] at this
    have r := congrArg Complex.re this
    have m := congrArg Complex.im this
    simp only [Complex.star_def, Complex.conj_re, Complex.conj_im, Complex.neg_re, Complex.neg_im, Complex.sub_re, Complex.sub_im] at r m
    apply Complex.ext <;> simp only [Complex.neg_re, Complex.neg_im] <;> linarith
  · subst h
    rw [if_pos rfl]
    have := congrArg Complex.re (hs' i i)
    simp only [Complex.star_def, Complex.conj_re, Complex.neg_re, Complex.sub_re] at this
    apply Complex.ext
    · simp only [Complex.neg_re]; linarith
    · simp only [Complex.neg_im, hre i, neg_zero]
  · rw [if_neg h.ne', if_neg (not_lt.mpr h.le), hB i j h, neg_zero]

/-- Entrywise derivative of a product. -/
theorem hasDerivAt_mul_entry {m q : Type*} [Fintype m] {A : ℝ → Matrix n m ℂ} {B : ℝ → Matrix m q ℂ} {A' : Matrix n m ℂ} {B' : Matrix m q ℂ} {t₀ : ℝ}
    (hA : ∀ i j, HasDerivAt (fun t => A t i j) (A' i j) t₀) (hB : ∀ i j, HasDerivAt (fun t => B t i j) (B' i j) t₀) (i : n) (j : q) :
    HasDerivAt (fun t => (A t * B t) i j) ((A' * B t₀ + A t₀ * B') i j) t₀ := by
  simp only [mul_apply, Matrix.add_apply, ← Finset.sum_add_distrib]
  exact HasDerivAt.fun_sum fun l _ => (hA i l).mul (hB l j)

theorem line_deriv (x η ξ : Matrix n p ℂ) (i : n) (j : p) : HasDerivAt (fun t : ℝ => (x + (η + t • ξ)) i j) (ξ i j) 0 := by
  have h := ((((hasDerivAt_id (0 : ℝ)).smul_const (ξ i j)).const_add (η i j)).const_add (x i j))
  simp only [one_smul] at h
  exact h

/-- **C88 (differentiated qf retraction).** For tangent `η`, `ξ` and any QR factorisations (real diagonal) of `x + η + t ξ`, the retracted point is differentiable in `t` and its velocity at
`0` is the result of `DiffqfRetraction`. -/
theorem C88_qf_diff_retraction {x η ξ : Matrix n (Fin k) ℂ} (hx : xᴴ * x = 1) (hη : IsTangent x η) (hξ : IsTangent x ξ) (Q : ℝ → Matrix n (Fin k) ℂ)
    (R : ℝ → Matrix (Fin k) (Fin k) ℂ) (hQ : ∀ t, (Q t)ᴴ * Q t = 1) (hR : ∀ t, IsUpper (R t)) (hre : ∀ t i, (R t i i).im = 0)
    (hQR : ∀ t, Q t * R t = x + (η + t • ξ)) (i : n) (j : Fin k) :
    HasDerivAt (fun t => qfRetraction (Q t) (R t) i j) (diffQf (qfRetraction (Q 0) (R 0)) (R 0) ξ i j) 0 := by
  have htan : ∀ t : ℝ, IsTangent x (η + t • ξ) := by
    intro t
    unfold IsTangent at *
    rw [Matrix.mul_add, Matrix.mul_smul, conjTranspose_add, conj_rsmul, hη, hξ]; module
  have hfac := fun t => C88_qf_retraction hx (htan t) (hQ t) (hR t) (hre t) (hQR t)
  set y := fun t => qfRetraction (Q t) (R t) with hy
  set S := fun t => diagonal (csigns (R t)) * R t with hS
  have hyy : ∀ t, (y t)ᴴ * y t = 1 := fun t => (hfac t).1
  have hSu : ∀ t, IsUpper (S t) := fun t => by
    obtain ⟨R', h1, h2, h3, h4⟩ := (hfac t).2.1
    rw [h4] at h1; exact h1
  have hSp : ∀ t, PosDiag (S t) := fun t => by
    obtain ⟨R', h1, h2, h3, h4⟩ := (hfac t).2.1
    rw [h4] at h2; exact h2
  have hySA : ∀ t, y t * S t = x + (η + t • ξ) := fun t => by
    obtain ⟨R', h1, h2, h3, h4⟩ := (hfac t).2.1
    rw [h4] at h3; exact h3
  have hA' := line_deriv x η ξ
  have dy := qf_differentiable hyy hSu hSp hySA (fun i j => (hA' i j).differentiableAt)
  set y' : Matrix n (Fin k) ℂ := fun l j => deriv (fun t => y t l j) 0 with hy'
  have hdy : ∀ l j, HasDerivAt (fun t => y t l j) (y' l j) 0 := fun l j => (dy j l).hasDerivAt
  have hdyc : ∀ l j, HasDerivAt (fun t => (y t)ᴴ l j) (y'ᴴ l j) 0 := fun l j => (hdy j l).star
  have hSA : ∀ t, S t = (y t)ᴴ * (x + (η + t • ξ)) := fun t => by rw [← hySA t, ← Matrix.mul_assoc, hyy, Matrix.one_mul]
  set S' : Matrix (Fin k) (Fin k) ℂ := y'ᴴ * (x + (η + (0 : ℝ) • ξ)) + (y 0)ᴴ * ξ with hS'
  have hdS : ∀ l j, HasDerivAt (fun t => S t l j) (S' l j) 0 := by
    intro l j
    have := hasDerivAt_mul_entry (A := fun t => (y t)ᴴ) (A' := y'ᴴ) (B := fun t => x + (η + t • ξ)) (B' := ξ) (t₀ := 0) hdyc hA' l j
    simp only [← hSA] at this
    exact this
  have hS'u : IsUpper S' := by
    intro l j hlj
    have h1 := hdS l j
    have e : (fun t => S t l j) = fun _ => (0 : ℂ) := by funext t; exact hSu t l j hlj
    rw [e] at h1
    exact h1.unique (hasDerivAt_const 0 (0 : ℂ))
  have hS're : ∀ l, (S' l l).im = 0 := by
    intro l
    have h1 : HasDerivAt (fun t => (S t l l).im) (S' l l).im 0 := Complex.imCLM.hasFDerivAt.comp_hasDerivAt (0 : ℝ) (hdS l l)
    have e : (fun t => (S t l l).im) = fun _ => (0 : ℝ) := by funext t; exact (hSp t l).1
    rw [e] at h1
    exact h1.unique (hasDerivAt_const 0 (0 : ℝ))
  have eqA : y' * S 0 + y 0 * S' = ξ := by
    ext l j
    have h1 := hasDerivAt_mul_entry (A := y) (B := S) hdy hdS l j
    simp only [hySA] at h1
    exact h1.unique (hA' l j)
  have eqO : y'ᴴ * y 0 + (y 0)ᴴ * y' = 0 := by
    ext l j
    have h1 := hasDerivAt_mul_entry (A := fun t => (y t)ᴴ) (A' := y'ᴴ) (B := y) (t₀ := 0) hdyc hdy l j
    simp only [hyy] at h1
    exact h1.unique (hasDerivAt_const 0 _)
  have hSdet : (S 0).det ≠ 0 := det_of_posDiag (hSu 0) (hSp 0)
  have hSun := isUnit_det_of_ne hSdet
  have hSinv : (S 0)⁻¹ = (R 0)⁻¹ * diagonal (csigns (R 0)) := by
    have hd : (diagonal (csigns (R 0)))⁻¹ = diagonal (csigns (R 0)) := inv_eq_right_inv (signs_diag _)
    simp only [hS]
    rw [Matrix.mul_inv_rev, hd]
  set Z := scaleCols (signs (R 0)) (ξ * (R 0)⁻¹) with hZ
  have hZS : Z = ξ * (S 0)⁻¹ := by rw [hZ, scaleCols_eq, hSinv, Matrix.mul_assoc]
  set B := S' * (S 0)⁻¹ with hB
  have hy'eq : y' = Z - y 0 * B := by
    have h1 := congrArg (· * (S 0)⁻¹) eqA
    simp only [Matrix.add_mul] at h1
    rw [Matrix.mul_assoc, mul_nonsing_inv _ hSun, Matrix.mul_one, ← hZS, Matrix.mul_assoc, ← hB] at h1
    rw [← h1]; abel
  have hBu : IsUpper B := mul_upper hS'u (inv_upper (hSu 0) hSdet)
  have hBre : ∀ l, (B l l).im = 0 := by
    intro l
    have e1 : B * S 0 = S' := by rw [hB, Matrix.mul_assoc, nonsing_inv_mul _ hSun, Matrix.mul_one]
    have e2 : B l l * S 0 l l = S' l l := by
      rw [← e1, mul_apply, Finset.sum_eq_single l]
      · intro b _ hbl
        rcases lt_or_gt_of_ne hbl with h | h
        · rw [hBu l b h, zero_mul]
        · rw [hSu 0 b l h, mul_zero]
      · intro h; exact absurd (Finset.mem_univ l) h
    have e3 := congrArg Complex.im e2
    rw [Complex.mul_im, (hSp 0 l).1, hS're l, mul_zero, zero_add] at e3
    exact (mul_eq_zero.mp e3).resolve_right (hSp 0 l).2.ne'
  have hM : (y 0)ᴴ * y' = (y 0)ᴴ * Z - B := by
    rw [hy'eq, Matrix.mul_sub, ← Matrix.mul_assoc, hyy, Matrix.one_mul]
  have hsk : ((y 0)ᴴ * Z - B)ᴴ = -((y 0)ᴴ * Z - B) := by
    rw [← hM, conjTranspose_mul, conjTranspose_conjTranspose]
    exact eq_neg_of_add_eq_zero_left eqO
  have hfin : diffQf (y 0) (R 0) ξ = y' := by
    simp only [diffQf]
    rw [← hZ, correction_unique hBu hBre hsk, Matrix.mul_neg, hy'eq, sub_eq_add_neg]
  rw [hfin]
  exact hdy i j

end qf

/-! ## Polar retraction -/

/-- `Vtᴴ diag(s) Vt`. -/
def spd (s : p → ℝ) (Vt : Matrix p p ℂ) : Matrix p p ℂ := Vtᴴ * diagonal (fun i => (s i : ℂ)) * Vt

theorem diag_conj (s : p → ℝ) : (diagonal (fun i => (s i : ℂ)))ᴴ = diagonal (fun i => (s i : ℂ)) := by
  rw [diagonal_conjTranspose]
  congr 1
  funext i
  simp

theorem spd_gram {s : p → ℝ} (hs : ∀ i, 0 ≤ s i) (Vt : Matrix p p ℂ) :
    spd s Vt = (diagonal (fun i => ((√(s i) : ℝ) : ℂ)) * Vt)ᴴ * (diagonal (fun i => ((√(s i) : ℝ) : ℂ)) * Vt) := by
  rw [spd, conjTranspose_mul, diag_conj (fun i => √(s i)), Matrix.mul_assoc, Matrix.mul_assoc, ← Matrix.mul_assoc (diagonal _) (diagonal _), diagonal_mul_diagonal]
  simp only [← Complex.ofReal_mul, Real.mul_self_sqrt (hs _)]

theorem spd_mul {s r : p → ℝ} {Vt : Matrix p p ℂ} (hV : Vtᴴ * Vt = 1) : spd s Vt * spd r Vt = spd (fun i => s i * r i) Vt := by
  have hV' : Vt * Vtᴴ = 1 := mul_eq_one_comm.mp hV
  simp only [spd]
  calc Vtᴴ * diagonal (fun i => (s i : ℂ)) * Vt * (Vtᴴ * diagonal (fun i => (r i : ℂ)) * Vt)
      = Vtᴴ * diagonal (fun i => (s i : ℂ)) * (Vt * Vtᴴ) * diagonal (fun i => (r i : ℂ)) * Vt := by simp only [Matrix.mul_assoc]
    _ = _ := by
      rw [hV', Matrix.mul_one, Matrix.mul_assoc Vtᴴ, diagonal_mul_diagonal]
      simp only [← Complex.ofReal_mul]

theorem spd_one {Vt : Matrix p p ℂ} (hV : Vtᴴ * Vt = 1) : spd (fun _ => 1) Vt = 1 := by
  rw [spd]; simp [hV]

theorem spd_herm (s : p → ℝ) (Vt : Matrix p p ℂ) : (spd s Vt)ᴴ = spd s Vt := by
  simp only [spd, conjTranspose_mul, conjTranspose_conjTranspose, diag_conj, Matrix.mul_assoc]

theorem spd_gram_det {s : p → ℝ} (hs : ∀ i, 0 < s i) {Vt : Matrix p p ℂ} (hV : Vtᴴ * Vt = 1) : (diagonal (fun i => ((√(s i) : ℝ) : ℂ)) * Vt).det ≠ 0 := by
  rw [det_mul, det_diagonal]
  refine mul_ne_zero (Finset.prod_ne_zero_iff.mpr fun i _ => Complex.ofReal_ne_zero.mpr (Real.sqrt_pos.mpr (hs i)).ne') ?_
  intro h
  have := congrArg Matrix.det hV
  rw [det_mul, h, mul_zero, det_one] at this
  exact zero_ne_one this

/-- Positive definite square roots are unique. -/
theorem sqrt_unique {A B C D : Matrix p p ℂ} (hA : A = Cᴴ * C) (hB : B = Dᴴ * D) (hC : C.det ≠ 0) (h : A * A = B * B) : A = B := by
  set E := A - B with hE
  have e : A * E + E * B = 0 := by
    rw [hE, Matrix.mul_sub, Matrix.sub_mul, h]; abel
  have h1 : ip E (A * E) + ip E (E * B) = 0 := by rw [← ip_add_right, e, ip_zero_right]
  have h2 : ip E (A * E) = ip (C * E) (C * E) := by rw [hA, ip_mul_left, Matrix.mul_assoc]
  have h3 : ip E (E * B) = ip (E * Dᴴ) (E * Dᴴ) := by
    rw [hB, ip_mul_right, conjTranspose_conjTranspose, Matrix.mul_assoc]
  have h4 : ip (C * E) (C * E) = 0 := by
    rw [h2, h3] at h1
    linarith [ip_self_nonneg (C * E), ip_self_nonneg (E * Dᴴ)]
  have h5 : C * E = 0 := ip_self_eq_zero.mp h4
  have h6 : E = 0 := by
    have := congrArg (C⁻¹ * ·) h5
    simp only [Matrix.mul_zero] at this
    rwa [← Matrix.mul_assoc, nonsing_inv_mul _ (isUnit_det_of_ne hC), Matrix.one_mul] at this
  exact sub_eq_zero.mp h6

/-- The facts about an economy singular value decomposition of `x + η`. -/
theorem svd_facts {x η U : Matrix n p ℂ} {s : p → ℝ} {Vt : Matrix p p ℂ} (hx : xᴴ * x = 1) (hη : IsTangent x η) (hU : Uᴴ * U = 1) (hV : Vtᴴ * Vt = 1)
    (hs : ∀ i, 0 ≤ s i) (hsvd : U * diagonal (fun i => (s i : ℂ)) * Vt = x + η) :
    spd s Vt * spd s Vt = 1 + ηᴴ * η ∧ ηᴴ * η = spd (fun i => s i * s i - 1) Vt ∧ (∀ i, 1 ≤ s i * s i) ∧ (∀ i, 0 < s i) := by
  have hV' : Vt * Vtᴴ = 1 := mul_eq_one_comm.mp hV
  have h1 : spd s Vt * spd s Vt = 1 + ηᴴ * η := by
    rw [← gram_add hx hη, ← hsvd, spd_mul hV, spd]
    simp only [conjTranspose_mul, diag_conj, Matrix.mul_assoc]
    rw [← Matrix.mul_assoc Uᴴ, hU, Matrix.one_mul, ← Matrix.mul_assoc (diagonal _) (diagonal _), diagonal_mul_diagonal]
    simp only [← Complex.ofReal_mul]
  have h2 : ηᴴ * η = spd (fun i => s i * s i - 1) Vt := by
    have e : spd (fun i => s i * s i - 1) Vt = spd (fun i => s i * s i) Vt - spd (fun _ => 1) Vt := by
      rw [spd, spd, spd, ← Matrix.sub_mul, ← Matrix.mul_sub, diagonal_sub]
      simp only [Complex.ofReal_sub]
    rw [e, ← spd_mul hV, h1, spd_one hV]; abel
  have h3 : ∀ i, 1 ≤ s i * s i := by
    intro i
    have e : (η * Vtᴴ)ᴴ * (η * Vtᴴ) = diagonal (fun i => ((s i * s i - 1 : ℝ) : ℂ)) := by
      rw [conjTranspose_mul, conjTranspose_conjTranspose, Matrix.mul_assoc, ← Matrix.mul_assoc ηᴴ, h2, spd]
      simp only [Matrix.mul_assoc]
      rw [hV', Matrix.mul_one, ← Matrix.mul_assoc, hV', Matrix.one_mul]
    have e2 := congrArg Complex.re (congrFun (congrFun e i) i)
    rw [diagonal_apply_eq, mul_apply, Complex.re_sum, Complex.ofReal_re] at e2
    have : 0 ≤ ∑ l, ((η * Vtᴴ)ᴴ i l * (η * Vtᴴ) l i).re := Finset.sum_nonneg fun l _ => by
      rw [conjTranspose_apply, Complex.star_def, Complex.mul_re, Complex.conj_re, Complex.conj_im]
      nlinarith [mul_self_nonneg ((η * Vtᴴ) l i).re, mul_self_nonneg ((η * Vtᴴ) l i).im]
    linarith
  refine ⟨h1, h2, h3, fun i => lt_of_le_of_ne (hs i) fun h => ?_⟩
  have := h3 i
  rw [← h] at this
  norm_num at this

/-- **C88 (polar).** Given an economy singular value decomposition of `x + η`, the retraction has orthonormal columns and is the orthonormal factor of a polar decomposition of `x + η`; it is
the only such matrix, so it does not depend on the decomposition used; the zero tangent vector is mapped to `x`. -/
theorem C88_polar_retraction {x η U : Matrix n p ℂ} {s : p → ℝ} {Vt : Matrix p p ℂ} (hx : xᴴ * x = 1) (hη : IsTangent x η) (hU : Uᴴ * U = 1) (hV : Vtᴴ * Vt = 1)
    (hs : ∀ i, 0 ≤ s i) (hsvd : U * diagonal (fun i => (s i : ℂ)) * Vt = x + η) :
    (polarRetraction U Vt)ᴴ * polarRetraction U Vt = 1 ∧ (∃ C : Matrix p p ℂ, polarRetraction U Vt * (Cᴴ * C) = x + η) ∧
    (∀ (y : Matrix n p ℂ) (C : Matrix p p ℂ), yᴴ * y = 1 → y * (Cᴴ * C) = x + η → y = polarRetraction U Vt) ∧ (η = 0 → polarRetraction U Vt = x) := by
  have hV' : Vt * Vtᴴ = 1 := mul_eq_one_comm.mp hV
  have h1 : (polarRetraction U Vt)ᴴ * polarRetraction U Vt = 1 := by
    rw [polarRetraction, conjTranspose_mul, Matrix.mul_assoc, ← Matrix.mul_assoc Uᴴ, hU, Matrix.one_mul, hV]
  have h2 : polarRetraction U Vt * spd s Vt = x + η := by
    rw [polarRetraction, spd, Matrix.mul_assoc Vtᴴ, Matrix.mul_assoc U, ← Matrix.mul_assoc Vt, hV', Matrix.one_mul, ← Matrix.mul_assoc, hsvd]
  obtain ⟨k1, k2, k3, k4⟩ := svd_facts hx hη hU hV hs hsvd
  have hun : ∀ (y : Matrix n p ℂ) (C : Matrix p p ℂ), yᴴ * y = 1 → y * (Cᴴ * C) = x + η → y = polarRetraction U Vt := by
    intro y C hy hyP
    have hdet := spd_gram_det k4 hV
    have e : spd s Vt = Cᴴ * C := by
      refine sqrt_unique (spd_gram hs Vt) rfl hdet ?_
      rw [k1, ← gram_add hx hη, ← hyP, conjTranspose_mul, Matrix.mul_assoc, ← Matrix.mul_assoc yᴴ, hy, Matrix.one_mul, conjTranspose_mul, conjTranspose_conjTranspose]
    have hu : IsUnit (spd s Vt).det := by
      rw [spd_gram hs, det_mul, det_conjTranspose]; exact isUnit_iff_ne_zero.mpr (mul_ne_zero (star_ne_zero.mpr hdet) hdet)
    have e2 : y * spd s Vt = polarRetraction U Vt * spd s Vt := by rw [e, hyP, ← e]; exact h2.symm
    have := congrArg (· * (spd s Vt)⁻¹) e2
    simpa only [Matrix.mul_assoc, mul_nonsing_inv _ hu, Matrix.mul_one] using this
  refine ⟨h1, ⟨_, by rw [← spd_gram hs]; exact h2⟩, hun, ?_⟩
  rintro rfl
  exact (hun x 1 hx (by simp)).symm

theorem ratio_sqrt {η ξ : Matrix n p ℂ} {c : ℝ} (hc : 0 ≤ c) (h0 : η ≠ 0) (hξ : ξ = c • η) : √(ip ξ ξ / ip η η) = c := by
  have hn : ip η η ≠ 0 := fun h => h0 (ip_self_eq_zero.mp h)
  rw [hξ, ip_rsmul_left, ip_rsmul_right, ← mul_assoc, mul_div_assoc, div_self hn, mul_one, Real.sqrt_mul_self hc]

/-- **C88 (differentiated polar retraction).** For a nonzero tangent `η`, `ξ = c η` with `c ≥ 0` and any economy singular value decompositions of `x + η + t ξ`, the velocity of
`t ↦ R(η + t ξ)` at `0` is the result of `DiffPolarRetraction`. -/
theorem C88_polar_diff_retraction {x η ξ : Matrix n p ℂ} {c : ℝ} (hx : xᴴ * x = 1) (hη : IsTangent x η) (h0 : η ≠ 0) (hc : 0 ≤ c) (hξ : ξ = c • η)
    (U : ℝ → Matrix n p ℂ) (s : ℝ → p → ℝ) (Vt : ℝ → Matrix p p ℂ) (hU : ∀ t, (U t)ᴴ * U t = 1) (hV : ∀ t, (Vt t)ᴴ * Vt t = 1) (hs : ∀ t i, 0 ≤ s t i)
    (hsvd : ∀ t, U t * diagonal (fun i => (s t i : ℂ)) * Vt t = x + (η + t • ξ)) (i : n) (j : p) :
    HasDerivAt (fun t => polarRetraction (U t) (Vt t) i j) (diffPolar (polarRetraction (U 0) (Vt 0)) (s 0) (Vt 0) η ξ i j) 0 := by
  have hV' : Vt 0 * (Vt 0)ᴴ = 1 := mul_eq_one_comm.mp (hV 0)
  have hsvd0 : U 0 * diagonal (fun i => (s 0 i : ℂ)) * Vt 0 = x + η := by rw [hsvd 0, zero_smul, add_zero]
  obtain ⟨h1, h2, h3, h4⟩ := svd_facts hx hη (hU 0) (hV 0) (hs 0) hsvd0
  set σ := s 0 with hσ
  set V := Vt 0 with hVdef
  have hVV : Vᴴ * V = 1 := hV 0
  set q : ℝ → p → ℝ := fun t l => 1 + (1 + t * c) ^ 2 * (σ l * σ l - 1) with hq
  have hqpos : ∀ t l, 0 < q t l := by
    intro t l
    have := h3 l
    simp only [hq]
    nlinarith [sq_nonneg (1 + t * c), mul_nonneg (sq_nonneg (1 + t * c)) (sub_nonneg.mpr this)]
  set r : ℝ → p → ℝ := fun t l => √(q t l) with hr
  have hrpos : ∀ t l, 0 < r t l := fun t l => Real.sqrt_pos.mpr (hqpos t l)
  have hray : ∀ t : ℝ, η + t • ξ = (1 + t * c) • η := fun t => by rw [hξ, add_smul, one_smul, mul_smul]
  have htan : ∀ t : ℝ, IsTangent x (η + t • ξ) := by
    intro t; rw [hray]; unfold IsTangent at *; rw [Matrix.mul_smul, conj_rsmul, hη, smul_neg]
  have hspd : ∀ (d : p → ℝ) a b, spd d V a b = ∑ l, star (V l a) * (d l : ℂ) * V l b := by
    intro d a b
    rw [spd, mul_apply]
    simp only [mul_diagonal, conjTranspose_apply]
  have hrr : ∀ t, spd (r t) V * spd (r t) V = 1 + (η + t • ξ)ᴴ * (η + t • ξ) := by
    intro t
    rw [spd_mul hVV, hray, conj_rsmul, Matrix.smul_mul, Matrix.mul_smul, smul_smul, h2]
    have e : (fun l => r t l * r t l) = fun l => 1 + (1 + t * c) ^ 2 * (σ l * σ l - 1) := by
      funext l; simp only [hr]; rw [Real.mul_self_sqrt (hqpos t l).le]
    rw [e, ← spd_one hVV]
    ext a b
    rw [Matrix.add_apply, Matrix.smul_apply, hspd, hspd, hspd, Finset.smul_sum, ← Finset.sum_add_distrib]
    refine Finset.sum_congr rfl fun l _ => ?_
    rw [Complex.real_smul]
    push_cast
    ring
  have hyt : ∀ t, polarRetraction (U t) (Vt t) = (x + (η + t • ξ)) * spd (fun l => 1 / r t l) V := by
    intro t
    obtain ⟨k1, k2, k3, k4⟩ := svd_facts hx (htan t) (hU t) (hV t) (hs t) (hsvd t)
    have hVt' : Vt t * (Vt t)ᴴ = 1 := mul_eq_one_comm.mp (hV t)
    have hP : polarRetraction (U t) (Vt t) * spd (s t) (Vt t) = x + (η + t • ξ) := by
      rw [polarRetraction, spd, Matrix.mul_assoc (Vt t)ᴴ, Matrix.mul_assoc (U t), ← Matrix.mul_assoc (Vt t), hVt', Matrix.one_mul, ← Matrix.mul_assoc, hsvd]
    have e : spd (s t) (Vt t) = spd (r t) V :=
      sqrt_unique (spd_gram (hs t) _) (spd_gram (fun l => (hrpos t l).le) _) (spd_gram_det k4 (hV t)) (by rw [k1, hrr])
    rw [← hP, e, Matrix.mul_assoc, spd_mul hVV]
    have e3 : (fun l => r t l * (1 / r t l)) = fun _ => 1 := by
      funext l; exact mul_one_div_cancel (hrpos t l).ne'
    rw [e3, spd_one hVV, Matrix.mul_one]
  have hr0 : ∀ l, r 0 l = σ l := by
    intro l
    simp only [hr, hq]
    rw [show (1 : ℝ) + (1 + 0 * c) ^ 2 * (σ l * σ l - 1) = σ l * σ l by ring, Real.sqrt_mul_self (h4 l).le]
  have dq : ∀ l, HasDerivAt (fun t => q t l) (2 * c * (σ l * σ l - 1)) 0 := by
    intro l
    have hin : HasDerivAt (fun t : ℝ => 1 + t * c) c 0 := by simpa using ((hasDerivAt_id (0 : ℝ)).mul_const c).const_add 1
    have := ((hin.pow 2).mul_const (σ l * σ l - 1)).const_add 1
    refine this.congr_deriv ?_
    simp
  have dr : ∀ l, HasDerivAt (fun t => 1 / r t l) (-(c * (σ l * σ l - 1)) / (σ l * σ l * σ l)) 0 := by
    intro l
    have hd := ((dq l).sqrt (hqpos 0 l).ne').inv (Real.sqrt_pos.mpr (hqpos 0 l)).ne'
    have e : (fun t => 1 / r t l) = (fun t => √(q t l))⁻¹ := by funext t; simp [hr]
    rw [e]
    have hp := (h4 l).ne'
    have e2 : √(q 0 l) = σ l := hr0 l
    rw [e2] at hd
    refine hd.congr_deriv ?_
    field_simp
  set dS : Matrix p p ℂ := spd (fun l => -(c * (σ l * σ l - 1)) / (σ l * σ l * σ l)) V with hdS
  have hdSpd : ∀ a b, HasDerivAt (fun t => spd (fun l => 1 / r t l) V a b) (dS a b) 0 := by
    intro a b
    simp only [hdS, hspd]
    exact HasDerivAt.fun_sum fun l _ => (((dr l).ofReal_comp).const_mul (star (V l a))).mul_const (V l b)
  have hmain := hasDerivAt_mul_entry (line_deriv x η ξ) hdSpd i j
  simp only [← hyt] at hmain
  refine hmain.congr_deriv (congrFun (congrFun ?_ i) j)
  simp only [diffPolar]
  rw [ratio_sqrt hc h0 hξ]
  have et : η * Vᴴ * diagonal (fun l => (1 : ℂ) / (σ l : ℂ)) * V = η * spd (fun l => 1 / σ l) V := by
    simp only [spd, Matrix.mul_assoc, Complex.ofReal_div, Complex.ofReal_one]
  rw [et]
  have e0 : (fun l => 1 / r 0 l) = fun l => 1 / σ l := by funext l; rw [hr0]
  rw [e0, zero_smul, add_zero, hξ, Matrix.smul_mul]
  have hP0 : x + η = polarRetraction (U 0) V * spd σ V := by
    rw [polarRetraction, spd, Matrix.mul_assoc Vᴴ, Matrix.mul_assoc (U 0), ← Matrix.mul_assoc V, hV', Matrix.one_mul, ← Matrix.mul_assoc, hsvd0]
  congr 1
  rw [hP0, Matrix.mul_assoc, hdS, spd_mul hVV, conjTranspose_mul, spd_herm, Matrix.mul_assoc (spd _ V), ← Matrix.mul_assoc ηᴴ, h2, spd_mul hVV, spd_mul hVV, ← Matrix.mul_smul]
  congr 1
  ext a b
  rw [Matrix.smul_apply, hspd, hspd, Finset.smul_sum]
  refine Finset.sum_congr rfl fun l _ => ?_
  have hp : (σ l : ℂ) ≠ 0 := Complex.ofReal_ne_zero.mpr (h4 l).ne'
  rw [Complex.real_smul]
  push_cast
  field_simp

end Verif.CStiefel
