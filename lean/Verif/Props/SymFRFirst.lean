import Verif.Props.SymFRRetr
import Verif.Props.FirstOrder
import Mathlib.LinearAlgebra.Matrix.PosDef
import Mathlib.Algebra.Order.Chebyshev

/-!
# C77, C81: the spectral retraction of symmetric fixed-rank matrices is a first-order retraction and a metric projection
-/

set_option linter.unusedSectionVars false
set_option linter.unusedVariables false
set_option linter.unusedSimpArgs false

namespace Verif.SymFR

open Matrix Verif.CMat Verif.Curve
open scoped ComplexOrder

variable {𝕜 : Type*} [RCLike 𝕜]
variable {n p : Type*} [Fintype n] [Fintype p] [DecidableEq n] [DecidableEq p]

theorem sq_split (x η : Matrix n p 𝕜) : mat x + rep x η = (x + η) * (x + η)ᴴ - η * ηᴴ := by
  simp only [mat, rep, conjTranspose_add, Matrix.mul_add, Matrix.add_mul]
  abel

/-- The eigenvalues, read off in the basis of eigenvectors. -/
theorem diag_split {q : Type*} [Fintype q] [DecidableEq q] {U : Matrix n q 𝕜} {w : q → ℝ} {x η : Matrix n p 𝕜} (hU : Uᴴ * U = 1)
    (e : mat x + rep x η = U * diagonal (fun i => ((w i : ℝ) : 𝕜)) * Uᴴ) :
    diagonal (fun i => ((w i : ℝ) : 𝕜)) + (ηᴴ * U)ᴴ * (ηᴴ * U) = ((x + η)ᴴ * U)ᴴ * ((x + η)ᴴ * U) := by
  have e1 : diagonal (fun i => ((w i : ℝ) : 𝕜)) = Uᴴ * (mat x + rep x η) * U := by
    rw [e]
    simp only [Matrix.mul_assoc]
    rw [hU, Matrix.mul_one, ← Matrix.mul_assoc, hU, Matrix.one_mul]
  rw [e1, sq_split]
  simp only [conjTranspose_mul, conjTranspose_conjTranspose, Matrix.mul_sub, Matrix.sub_mul, Matrix.mul_assoc]
  abel

theorem gram_diag {q r : Type*} [Fintype q] [Fintype r] (G : Matrix r q 𝕜) (i : q) : (Gᴴ * G) i i = ((∑ k, ‖G k i‖ ^ 2 : ℝ) : 𝕜) := by
  rw [Matrix.mul_apply, RCLike.ofReal_sum]
  refine Finset.sum_congr rfl fun k _ => ?_
  rw [conjTranspose_apply, RCLike.star_def, RCLike.conj_mul, RCLike.ofReal_pow]

theorem ip_norm {q r : Type*} [Fintype q] [Fintype r] (G : Matrix r q 𝕜) : ip G G = ∑ i, ∑ j, ‖G i j‖ ^ 2 := by
  unfold ip
  refine Finset.sum_congr rfl fun i _ => Finset.sum_congr rfl fun j _ => ?_
  rw [← RCLike.normSq_eq_def', RCLike.normSq_apply]

/-- Contraction by a matrix with orthonormal columns does not increase the norm. -/
theorem ip_contract {q : Type*} [Fintype q] [DecidableEq q] {U : Matrix n q 𝕜} (hU : Uᴴ * U = 1) (η : Matrix n p 𝕜) : ip (ηᴴ * U) (ηᴴ * U) ≤ ip η η := by
  have h0 := ip_self_nonneg (η - U * (Uᴴ * η))
  have e1 : ip (U * (Uᴴ * η)) (U * (Uᴴ * η)) = ip (Uᴴ * η) (Uᴴ * η) := by rw [ip_mul_left, ← Matrix.mul_assoc, hU, Matrix.one_mul]
  have e2 : ip η (U * (Uᴴ * η)) = ip (Uᴴ * η) (Uᴴ * η) := by rw [ip_mul_left']
  have e3 : ip (ηᴴ * U) (ηᴴ * U) = ip (Uᴴ * η) (Uᴴ * η) := by
    rw [← ip_conjTranspose, conjTranspose_mul, conjTranspose_conjTranspose]
  rw [ip_sub_left, ip_sub_right, ip_sub_right, ip_comm (U * (Uᴴ * η)) η, e1, e2] at h0
  rw [e3]
  linarith

/-- The eigenvalues that the truncation drops are not positive, and of second order. -/
theorem low_bounds {U : Matrix n (p ⊕ p) 𝕜} {w : p ⊕ p → ℝ} {x η : Matrix n p 𝕜} (hU : Uᴴ * U = 1) (e : mat x + rep x η = U * diagonal (fun i => ((w i : ℝ) : 𝕜)) * Uᴴ)
    (hw : ∀ i j, w (Sum.inl i) ≤ w (Sum.inr j)) (i : p) : w (Sum.inl i) ≤ 0 ∧ -ip η η ≤ w (Sum.inl i) := by
  have ed := diag_split hU e
  constructor
  · by_contra hpos
    push Not at hpos
    set f : Option p → p ⊕ p := fun o => o.elim (Sum.inl i) Sum.inr with hf
    have hinj : Function.Injective f := by
      intro a b hab
      cases a <;> cases b <;> simp_all
    have es := congrArg (fun M => M.submatrix f f) ed
    have e1 : (diagonal (fun i => ((w i : ℝ) : 𝕜)) + (ηᴴ * U)ᴴ * (ηᴴ * U)).submatrix f f =
        diagonal (fun o => ((w (f o) : ℝ) : 𝕜)) + ((ηᴴ * U).submatrix id f)ᴴ * ((ηᴴ * U).submatrix id f) := by
      have : (diagonal (fun i => ((w i : ℝ) : 𝕜))).submatrix f f = diagonal (fun o => ((w (f o) : ℝ) : 𝕜)) := submatrix_diagonal _ _ hinj
      rw [← this]
      rfl
    have e2 : (((x + η)ᴴ * U)ᴴ * ((x + η)ᴴ * U)).submatrix f f = (((x + η)ᴴ * U).submatrix id f)ᴴ * (((x + η)ᴴ * U).submatrix id f) := rfl
    rw [e1, e2] at es
    have hpd : (diagonal (fun o => ((w (f o) : ℝ) : 𝕜)) + ((ηᴴ * U).submatrix id f)ᴴ * ((ηᴴ * U).submatrix id f)).PosDef := by
      refine PosDef.add_posSemidef (PosDef.diagonal fun o => ?_) (posSemidef_conjTranspose_mul_self _)
      rw [RCLike.ofReal_pos]
      cases o with
      | none => exact hpos
      | some j => exact hpos.trans_le (hw i j)
    have hr := rank_of_isUnit _ hpd.isUnit
    rw [es, Fintype.card_option] at hr
    have := (rank_mul_le_right (((x + η)ᴴ * U).submatrix id f)ᴴ (((x + η)ᴴ * U).submatrix id f)).trans (rank_le_card_height _)
    omega
  · have h := congrFun (congrFun ed (Sum.inl i)) (Sum.inl i)
    rw [Matrix.add_apply, diagonal_apply_eq, gram_diag, gram_diag, ← RCLike.ofReal_add, RCLike.ofReal_inj] at h
    have h1 : ∑ k, ‖(ηᴴ * U) k (Sum.inl i)‖ ^ 2 ≤ ip η η := by
      refine le_trans ?_ (ip_contract hU η)
      rw [ip_norm]
      exact Finset.sum_le_sum fun k _ => Finset.single_le_sum (f := fun j => ‖(ηᴴ * U) k j‖ ^ 2) (fun _ _ => by positivity) (Finset.mem_univ (Sum.inl i))
    have h2 : 0 ≤ ∑ k, ‖((x + η)ᴴ * U) k (Sum.inl i)‖ ^ 2 := Finset.sum_nonneg fun _ _ => by positivity
    linarith

/-- **C81 (metric projection).** The matrix represented by the result of the retraction with intrinsic vectors is a nearest positive semidefinite matrix to `x xᴴ + η xᴴ + x ηᴴ`: no `z zᴴ`, of any
rank, is closer. -/
theorem C81_nearest {q : Type*} [Fintype q] [DecidableEq q] {lp : Lapack 𝕜 n p} {x η y : Matrix n p 𝕜} (ok : OkAt lp x η) (hy : retractProj lp x η = some y) (z : Matrix n q 𝕜) :
    ip (mat x + rep x η - mat y) (mat x + rep x η - mat y) ≤ ip (mat x + rep x η - z * zᴴ) (mat x + rep x η - z * zᴴ) := by
  obtain ⟨U, w, hU, e, hw, hpos, hm, _⟩ := C80_retraction ok hy
  have hlow := low_bounds hU e hw
  set A := mat x + rep x η
  set D := U * diagonal (Sum.elim (fun i => ((w (Sum.inl i) : ℝ) : 𝕜)) 0) * Uᴴ with hD
  have e1 : A - mat y = D := by
    rw [e, hm, hD, ← Matrix.sub_mul, ← Matrix.mul_sub]
    congr 2
    ext a b
    by_cases hab : a = b
    · subst hab
      cases a <;> simp
    · simp [diagonal_apply_ne _ hab]
  have e2 : A - z * zᴴ = D - (z * zᴴ - mat y) := by rw [← e1]; abel
  have h1 : ip D (z * zᴴ) ≤ 0 := by
    have : ip D (z * zᴴ) = ip (diagonal (Sum.elim (fun i => ((w (Sum.inl i) : ℝ) : 𝕜)) 0)) ((Uᴴ * z) * (Uᴴ * z)ᴴ) := by
      rw [hD, ip_mul_right, ip_mul_left, conjTranspose_conjTranspose, conjTranspose_mul, conjTranspose_conjTranspose]
      simp only [Matrix.mul_assoc]
    rw [this]
    have e3 : (diagonal (Sum.elim (fun i => ((w (Sum.inl i) : ℝ) : 𝕜)) 0) : Matrix (p ⊕ p) (p ⊕ p) 𝕜) = diagonal fun k => ((Sum.elim (fun i => w (Sum.inl i)) (fun _ => 0) k : ℝ) : 𝕜) := by
      congr 1
      funext k
      cases k <;> simp
    rw [e3, ip_diagonal]
    refine Finset.sum_nonpos fun k _ => ?_
    have hnn : 0 ≤ RCLike.re (((Uᴴ * z) * (Uᴴ * z)ᴴ) k k) := by
      have := gram_diag (Uᴴ * z)ᴴ k
      rw [conjTranspose_conjTranspose] at this
      rw [this, RCLike.ofReal_re]
      exact Finset.sum_nonneg fun _ _ => by positivity
    cases k with
    | inl i => exact mul_nonpos_of_nonpos_of_nonneg (hlow i).1 hnn
    | inr j => simp
  have h2 : ip D (mat y) = 0 := by
    rw [hD, hm, ip_mul_right, conjTranspose_conjTranspose, Matrix.mul_assoc _ Uᴴ U, hU, Matrix.mul_one, ip_mul_left, ← Matrix.mul_assoc, hU, Matrix.one_mul]
    unfold ip
    refine Finset.sum_eq_zero fun a _ => Finset.sum_eq_zero fun b _ => ?_
    by_cases hab : a = b
    · subst hab
      cases a <;> simp
    · simp [diagonal_apply_ne _ hab]
  have h3 := ip_self_nonneg (z * zᴴ - mat y)
  rw [e1, e2, ip_sub_left D, ip_sub_right D, ip_comm (z * zᴴ - mat y) (D - _), ip_sub_left D (z * zᴴ - mat y) (z * zᴴ - mat y), ip_sub_right D (z * zᴴ), h2]
  linarith

/-- The factorisations used by the retraction diagonalise `x xᴴ + η xᴴ + x ηᴴ` in a basis whose span contains the columns of `x`. -/
theorem spectral {lp : Lapack 𝕜 n p} {x η : Matrix n p 𝕜} (ok : OkAt lp x η) (hnp : 2 * Fintype.card p ≤ Fintype.card n) :
    ∃ (U : Matrix n (p ⊕ p) 𝕜) (w : p ⊕ p → ℝ), Uᴴ * U = 1 ∧ mat x + rep x η = U * diagonal (fun i => ((w i : ℝ) : 𝕜)) * Uᴴ ∧ (∀ i j, w (Sum.inl i) ≤ w (Sum.inr j)) ∧
      U * (Uᴴ * x) = x ∧ ((∀ j, 0 ≤ w (Sum.inr j)) → ∃ y, retractProj lp x η = some y) := by
  obtain ⟨hQ, hQR⟩ := ok.qr
  have hE := ok.eig _ rfl
  refine ⟨lp.qrQ (cols x η) * lp.evec (lp.qrR (cols x η) * zmat (coef x η) * (lp.qrR (cols x η))ᴴ), lp.eval (lp.qrR (cols x η) * zmat (coef x η) * (lp.qrR (cols x η))ᴴ), ?_, ?_, hE.2.2, ?_, ?_⟩
  · rw [conjTranspose_mul, Matrix.mul_assoc, ← Matrix.mul_assoc (lp.qrQ (cols x η))ᴴ, hQ, Matrix.one_mul, hE.1]
  · rw [← cols_z]
    have e1 : cols x η * zmat (coef x η) * (cols x η)ᴴ = lp.qrQ (cols x η) * (lp.qrR (cols x η) * zmat (coef x η) * (lp.qrR (cols x η))ᴴ) * (lp.qrQ (cols x η))ᴴ := by
      have : ∀ A B C : Matrix n (p ⊕ p) 𝕜, ∀ R Z : Matrix (p ⊕ p) (p ⊕ p) 𝕜, B * R = A → A * Z * Aᴴ = B * (R * Z * Rᴴ) * Bᴴ := by
        intro A B C R Z h
        rw [← h]
        simp only [conjTranspose_mul, Matrix.mul_assoc]
      exact this _ _ 0 _ _ hQR
    rw [e1]
    conv_lhs => rw [eig_eq hE]
    simp only [conjTranspose_mul, Matrix.mul_assoc]
  · have hV' := mul_eq_one_comm.mp hE.1
    have e1 : x = cols x η * fromRows (1 : Matrix p p 𝕜) 0 := by rw [cols, fromCols_mul_fromRows, Matrix.mul_one, Matrix.mul_zero, add_zero]
    have e2 : x = lp.qrQ (cols x η) * (lp.qrR (cols x η) * fromRows (1 : Matrix p p 𝕜) 0) := by rw [← Matrix.mul_assoc, hQR, ← e1]
    have : ∀ (Q : Matrix n (p ⊕ p) 𝕜) (V : Matrix (p ⊕ p) (p ⊕ p) 𝕜) (B : Matrix (p ⊕ p) p 𝕜), Qᴴ * Q = 1 → V * Vᴴ = 1 → x = Q * B → Q * V * ((Q * V)ᴴ * x) = x := by
      intro Q V B hQ hV h
      rw [h, conjTranspose_mul]
      simp only [Matrix.mul_assoc]
      rw [← Matrix.mul_assoc Qᴴ, hQ, Matrix.one_mul, ← Matrix.mul_assoc V, hV, Matrix.one_mul]
    exact this _ _ _ hQ hV' e2
  · intro hw
    unfold retractProj
    rw [if_neg (by omega)]
    change ∃ y, (if ∃ i, lp.eval (lp.qrR (cols x η) * zmat (coef x η) * (lp.qrR (cols x η))ᴴ) (Sum.inr i) < 0 then none else some _) = some y
    rw [if_neg (by push Not; exact hw)]
    exact ⟨_, rfl⟩

theorem dot_self {r : Type*} [Fintype r] (v : r → 𝕜) : star v ⬝ᵥ v = ((∑ i, ‖v i‖ ^ 2 : ℝ) : 𝕜) := by
  rw [RCLike.ofReal_sum, dotProduct]
  refine Finset.sum_congr rfl fun i _ => ?_
  rw [Pi.star_apply, RCLike.star_def, RCLike.conj_mul, RCLike.ofReal_pow]

theorem gram_le {q : Type*} [Fintype q] (M : Matrix p q 𝕜) : ((((ip M M : ℝ) : 𝕜) • (1 : Matrix p p 𝕜)) - M * Mᴴ).PosSemidef := by
  refine PosSemidef.of_dotProduct_mulVec_nonneg ?_ fun z => ?_
  · refine IsHermitian.sub ?_ (isHermitian_mul_conjTranspose_self M)
    rw [IsHermitian, conjTranspose_smul, conjTranspose_one, RCLike.star_def, RCLike.conj_ofReal]
  · have e1 : star z ⬝ᵥ ((((ip M M : ℝ) : 𝕜) • (1 : Matrix p p 𝕜)) - M * Mᴴ) *ᵥ z = ((ip M M * ∑ i, ‖z i‖ ^ 2 - ∑ k, ‖(Mᴴ *ᵥ z) k‖ ^ 2 : ℝ) : 𝕜) := by
      have n2 : star z ⬝ᵥ (M * Mᴴ) *ᵥ z = star (Mᴴ *ᵥ z) ⬝ᵥ (Mᴴ *ᵥ z) := by
        rw [← mulVec_mulVec, dotProduct_mulVec, star_mulVec, conjTranspose_conjTranspose]
      rw [sub_mulVec, dotProduct_sub, smul_mulVec, one_mulVec, dotProduct_smul, dot_self, n2, dot_self, smul_eq_mul, ← RCLike.ofReal_mul, ← RCLike.ofReal_sub]
    rw [e1, RCLike.ofReal_nonneg, sub_nonneg, ip_norm, Finset.sum_comm, Finset.sum_mul]
    refine Finset.sum_le_sum fun k _ => ?_
    have h1 : ‖(Mᴴ *ᵥ z) k‖ ≤ ∑ i, ‖M i k‖ * ‖z i‖ := by
      refine (norm_sum_le _ _).trans (Finset.sum_le_sum fun i _ => ?_)
      rw [norm_mul]
      change ‖star (M i k)‖ * _ ≤ _
      rw [norm_star]
    calc ‖(Mᴴ *ᵥ z) k‖ ^ 2 ≤ (∑ i, ‖M i k‖ * ‖z i‖) ^ 2 := pow_le_pow_left₀ (norm_nonneg _) h1 2
      _ ≤ (∑ i, ‖M i k‖ ^ 2) * ∑ i, ‖z i‖ ^ 2 := Finset.sum_mul_sq_le_sq_mul_sq _ _ _

/-- Close to the identity a Hermitian matrix is positive definite. -/
theorem near_one (M : Matrix p p 𝕜) {t : ℝ} (ht : 4 * t ^ 2 * ip M M < 1) : (1 + (t : 𝕜) • (M + Mᴴ)).PosDef := by
  have e : 1 + (t : 𝕜) • (M + Mᴴ) = ((1 / 2 : ℝ) : 𝕜) • ((1 + ((2 * t : ℝ) : 𝕜) • M) * (1 + ((2 * t : ℝ) : 𝕜) • M)ᴴ) +
      (((2 * t ^ 2 : ℝ) : 𝕜) • ((((ip M M : ℝ) : 𝕜) • (1 : Matrix p p 𝕜)) - M * Mᴴ) + (((1 - 4 * t ^ 2 * ip M M) / 2 : ℝ) : 𝕜) • (1 : Matrix p p 𝕜)) := by
    simp only [conjTranspose_add, conjTranspose_one, conjTranspose_smul, RCLike.star_def, RCLike.conj_ofReal, Matrix.mul_add, Matrix.add_mul, Matrix.mul_one, Matrix.one_mul, Matrix.smul_mul, Matrix.mul_smul,
      smul_smul, ← RCLike.ofReal_mul, smul_add, smul_sub]
    push_cast
    module
  rw [e]
  refine PosDef.posSemidef_add ?_ (PosDef.posSemidef_add ?_ ?_)
  · exact (posSemidef_self_mul_conjTranspose _).smul (RCLike.ofReal_nonneg.mpr (by norm_num))
  · exact (gram_le M).smul (RCLike.ofReal_nonneg.mpr (by positivity))
  · exact PosDef.one.smul (RCLike.ofReal_pos.mpr (by linarith))

/-- The bound on the step length below which the retraction is defined: `4 t² ‖(xᴴx)⁻¹ xᴴ ξ‖² < 1`. -/
theorem defined {lp : Lapack 𝕜 n p} {x η : Matrix n p 𝕜} (hx : IsPt x) (hnp : 2 * Fintype.card p ≤ Fintype.card n) (ok : OkAt lp x η) (hη : 4 * ip (coef x η) (coef x η) < 1) :
    ∃ y, retractProj lp x η = some y := by
  obtain ⟨U, w, hU, e, hw, hUx, hd⟩ := spectral ok hnp
  refine hd fun j => ?_
  by_contra hneg
  push Not at hneg
  set X := Uᴴ * x with hX
  set G := xᴴ * x with hG
  have hGh : Gᴴ = G := by rw [hG, conjTranspose_mul, conjTranspose_conjTranspose]
  set M := coef x η with hM
  have hGM : G * M = xᴴ * η := by rw [hM, coef, ← Matrix.mul_assoc, mul_nonsing_inv _ hx, Matrix.one_mul]
  have hMG : Mᴴ * G = ηᴴ * x := by
    have := congrArg conjTranspose hGM
    rwa [conjTranspose_mul, hGh, conjTranspose_mul, conjTranspose_conjTranspose] at this
  have e1 : xᴴ * (mat x + rep x η) * x = G * (1 + (M + Mᴴ)) * Gᴴ := by
    rw [hGh]
    simp only [mat, rep, Matrix.mul_add, Matrix.add_mul, Matrix.mul_one, Matrix.mul_assoc]
    rw [hMG, ← Matrix.mul_assoc xᴴ x, ← Matrix.mul_assoc G M, hGM, ← Matrix.mul_assoc xᴴ x (ηᴴ * x), ← Matrix.mul_assoc xᴴ η]
  have e2 : xᴴ * (mat x + rep x η) * x = Xᴴ * diagonal (fun i => ((w i : ℝ) : 𝕜)) * X := by
    rw [e, hX, conjTranspose_mul, conjTranspose_conjTranspose]
    simp only [Matrix.mul_assoc]
  have hGu : IsUnit G := (isUnit_iff_isUnit_det _).mpr hx
  have hpd : (G * (1 + (M + Mᴴ)) * Gᴴ).PosDef := by
    refine PosDef.mul_mul_conjTranspose_same ?_ ?_
    · have := near_one M (t := 1) (by simpa using hη)
      simpa using this
    · exact Matrix.vecMul_injective_iff_isUnit.mpr hGu
  -- split the eigenvalues
  have e3 : Xᴴ * diagonal (fun i => ((w i : ℝ) : 𝕜)) * X = (X.submatrix (fun k : {k : p // k ≠ j} => Sum.inr k.1) id)ᴴ * (diagonal (fun k : {k : p // k ≠ j} => ((w (Sum.inr k.1) : ℝ) : 𝕜)) *
      X.submatrix (fun k : {k : p // k ≠ j} => Sum.inr k.1) id) -
      (X.submatrix (fun o : Option p => o.elim (Sum.inr j) Sum.inl) id)ᴴ * diagonal (fun o : Option p => ((-w (o.elim (Sum.inr j) Sum.inl) : ℝ) : 𝕜)) * X.submatrix (fun o : Option p => o.elim (Sum.inr j) Sum.inl) id := by
    ext a b
    rw [Matrix.sub_apply, Matrix.mul_assoc, Matrix.mul_assoc, Matrix.mul_apply, Matrix.mul_apply, Matrix.mul_apply, Fintype.sum_sum_type, Fintype.sum_option]
    simp only [diagonal_mul, conjTranspose_apply, submatrix_apply, id, Option.elim]
    rw [← Finset.sum_subtype (s := Finset.univ.erase j) (p := fun k => k ≠ j) (by simp) (fun k => star (X (Sum.inr k) a) * (((w (Sum.inr k) : ℝ) : 𝕜) * X (Sum.inr k) b)),
      ← Finset.add_sum_erase Finset.univ (fun k => star (X (Sum.inr k) a) * (((w (Sum.inr k) : ℝ) : 𝕜) * X (Sum.inr k) b)) (Finset.mem_univ j)]
    simp only [RCLike.ofReal_neg, neg_mul, mul_neg, Finset.sum_neg_distrib]
    ring
  rw [← e1, e2, e3] at hpd
  have hps : ((X.submatrix (fun o : Option p => o.elim (Sum.inr j) Sum.inl) id)ᴴ * diagonal (fun o : Option p => ((-w (o.elim (Sum.inr j) Sum.inl) : ℝ) : 𝕜)) *
      X.submatrix (fun o : Option p => o.elim (Sum.inr j) Sum.inl) id).PosSemidef := by
    refine PosSemidef.conjTranspose_mul_mul_same (PosSemidef.diagonal fun o => RCLike.ofReal_nonneg.mpr ?_) _
    cases o with
    | none => simpa using hneg.le
    | some i => simpa using (hw i j).trans hneg.le
  have hsum := hpd.add_posSemidef hps
  rw [sub_add_cancel] at hsum
  have hr := rank_of_isUnit _ hsum.isUnit
  have := (rank_mul_le_right (X.submatrix (fun k : {k : p // k ≠ j} => Sum.inr k.1) id)ᴴ (diagonal (fun k : {k : p // k ≠ j} => ((w (Sum.inr k.1) : ℝ) : 𝕜)) *
      X.submatrix (fun k : {k : p // k ≠ j} => Sum.inr k.1) id)).trans (rank_le_card_height _)
  rw [hr, Fintype.card_subtype_compl, Fintype.card_subtype_eq] at this
  have : 0 < Fintype.card p := Fintype.card_pos_iff.mpr ⟨j⟩
  omega

/-- **C77 (symmetric fixed rank, intrinsic vectors).** For every direction the retraction is defined near the origin, returns `x` at the origin, and the represented matrix leaves with velocity
`ξ xᴴ + x ξᴴ`. -/
theorem C77_sym_spectral {lp : Lapack 𝕜 n p} {x : Matrix n p 𝕜} (hx : IsPt x) (hnp : 2 * Fintype.card p ≤ Fintype.card n) (ξ : Matrix n p 𝕜) {ε : ℝ} (hε : 0 < ε)
    (ok : ∀ t : ℝ, |t| ≤ ε → OkAt lp x ((t : 𝕜) • ξ)) :
    retractProj lp x (((0 : ℝ) : 𝕜) • ξ) = some x ∧ (∃ δ : ℝ, 0 < δ ∧ ∀ t : ℝ, |t| ≤ δ → ∃ y, retractProj lp x ((t : 𝕜) • ξ) = some y) ∧
      ED (fun t : ℝ => mat ((retractProj lp x ((t : 𝕜) • ξ)).getD 0)) (rep x ξ) 0 := by
  have hδ : ∃ δ : ℝ, 0 < δ ∧ ∀ t : ℝ, |t| ≤ δ → ∃ y, retractProj lp x ((t : 𝕜) • ξ) = some y := by
    set c := ip (coef x ξ) (coef x ξ) with hc
    have hc0 : 0 ≤ c := ip_self_nonneg _
    refine ⟨min ε (1 / (2 * (c + 1))), lt_min hε (by positivity), fun t ht' => defined hx hnp (ok t (ht'.trans (min_le_left _ _))) ?_⟩
    have ht : |t| ≤ 1 / (2 * (c + 1)) := ht'.trans (min_le_right _ _)
    have e : coef x ((t : 𝕜) • ξ) = (t : 𝕜) • coef x ξ := by simp only [coef, Matrix.mul_smul]
    rw [e, ip_smul_left, ip_smul_right, ← hc]
    have h1 : t * t ≤ (1 / (2 * (c + 1))) * (1 / (2 * (c + 1))) := by
      rw [← abs_mul_abs_self t]
      exact mul_le_mul ht ht (abs_nonneg _) (by positivity)
    have h2 : 4 * (t * (t * c)) ≤ 4 * ((1 / (2 * (c + 1))) * (1 / (2 * (c + 1)))) * c := by
      have := mul_le_mul_of_nonneg_right h1 hc0
      linarith
    refine lt_of_le_of_lt h2 ?_
    have e3 : 4 * ((1 / (2 * (c + 1))) * (1 / (2 * (c + 1)))) * c = c / ((c + 1) * (c + 1)) := by
      field_simp
      ring
    rw [e3, div_lt_one (by positivity)]
    nlinarith
  refine ⟨?_, hδ, ?_⟩
  · have := ok 0 (by rw [abs_zero]; exact hε.le)
    rw [RCLike.ofReal_zero, zero_smul] at this ⊢
    exact C80_retraction_zero hx hnp this
  obtain ⟨δ', hδ0', hδ'⟩ := hδ
  obtain ⟨δ, hδ0, hδ, hle⟩ : ∃ δ : ℝ, 0 < δ ∧ (∀ t : ℝ, |t| ≤ δ → ∃ y, retractProj lp x ((t : 𝕜) • ξ) = some y) ∧ δ ≤ ε :=
    ⟨min δ' ε, lt_min hδ0' hε, fun t ht => hδ' t (ht.trans (min_le_left _ _)), min_le_right _ _⟩
  refine ED.of_sq (x := mat x) (fun _ _ => Fintype.card p * ip ξ ξ) hδ0 fun t ht a b => ?_
  obtain ⟨y, hy⟩ := hδ t ht
  obtain ⟨U, w, hU, e, hw, _, hm, _⟩ := C80_retraction (ok t (ht.trans hle)) hy
  have hlow := low_bounds hU e hw
  have er : rep x ((t : 𝕜) • ξ) = (t : 𝕜) • rep x ξ := by
    simp only [rep, conjTranspose_smul, RCLike.star_def, RCLike.conj_ofReal, Matrix.smul_mul, Matrix.mul_smul, smul_add]
  have e1 : mat y - mat x - (t : 𝕜) • rep x ξ = -(U * (diagonal (Sum.elim (fun i => ((w (Sum.inl i) : ℝ) : 𝕜)) 0) * Uᴴ)) := by
    have : mat y - mat x - (t : 𝕜) • rep x ξ = mat y - (mat x + rep x ((t : 𝕜) • ξ)) := by rw [er]; abel
    rw [this, e, hm, ← Matrix.sub_mul, ← Matrix.mul_sub, Matrix.mul_assoc, ← Matrix.mul_neg, ← Matrix.neg_mul]
    congr 2
    ext c d
    by_cases hcd : c = d
    · subst hcd
      cases c <;> simp
    · simp [diagonal_apply_ne _ hcd]
  have hent : ∀ (a : n) (k : p ⊕ p), ‖U a k‖ ≤ 1 := by
    intro a k
    have h := congrFun (congrFun hU k) k
    rw [gram_diag, one_apply_eq, ← RCLike.ofReal_one, RCLike.ofReal_inj] at h
    have : ‖U a k‖ ^ 2 ≤ 1 := by
      rw [← h]
      exact Finset.single_le_sum (f := fun a => ‖U a k‖ ^ 2) (fun _ _ => by positivity) (Finset.mem_univ a)
    nlinarith [norm_nonneg (U a k)]
  simp only [hy, Option.getD_some]
  rw [e1, Matrix.neg_apply, norm_neg, Matrix.mul_apply, Fintype.sum_sum_type]
  simp only [diagonal_mul, Sum.elim_inl, Sum.elim_inr, Pi.zero_apply, zero_mul, mul_zero, Finset.sum_const_zero, add_zero]
  refine (norm_sum_le _ _).trans ?_
  have hb : ∀ i ∈ (Finset.univ : Finset p), ‖U a (Sum.inl i) * (((w (Sum.inl i) : ℝ) : 𝕜) * Uᴴ (Sum.inl i) b)‖ ≤ ip ξ ξ * t ^ 2 := by
    intro i _
    rw [norm_mul, norm_mul, conjTranspose_apply, norm_star, RCLike.norm_ofReal]
    obtain ⟨l1, l2⟩ := hlow i
    rw [ip_smul_left, ip_smul_right] at l2
    have h3 : |w (Sum.inl i)| ≤ ip ξ ξ * t ^ 2 := by
      rw [abs_of_nonpos l1]
      linarith
    calc ‖U a (Sum.inl i)‖ * (|w (Sum.inl i)| * ‖U b (Sum.inl i)‖) ≤ 1 * (|w (Sum.inl i)| * 1) :=
          mul_le_mul (hent _ _) (mul_le_mul_of_nonneg_left (hent _ _) (abs_nonneg _)) (by positivity) zero_le_one
      _ ≤ ip ξ ξ * t ^ 2 := by rw [one_mul, mul_one]; exact h3
  refine (Finset.sum_le_card_nsmul _ _ _ hb).trans ?_
  rw [Finset.card_univ, nsmul_eq_mul]
  linarith

example : ED (fun t : ℝ => mat ((retractProj lpEx xEx (t • xEx)).getD 0)) (rep xEx xEx) 0 :=
  (C77_sym_spectral (ε := 1 / 4) xEx_pt (by simp) xEx (by norm_num) fun t ht => xEx_ok (c := t) (by have := (abs_le.mp ht).1; linarith)).2.2

example (z : Matrix (Fin 1 ⊕ Fin 1) (Fin 2) ℝ) : ip (mat xEx + rep xEx ((4 : ℝ) • xEx) - mat ((3 : ℝ) • xEx)) (mat xEx + rep xEx ((4 : ℝ) • xEx) - mat ((3 : ℝ) • xEx)) ≤
    ip (mat xEx + rep xEx ((4 : ℝ) • xEx) - z * zᴴ) (mat xEx + rep xEx ((4 : ℝ) • xEx) - z * zᴴ) :=
  C81_nearest (xEx_ok (c := 4) (by norm_num)) (C80_retraction_ray (c := 4) (d := 3) xEx_pt (by norm_num) (by norm_num) (by simp) (xEx_ok (by norm_num))) z

end Verif.SymFR
