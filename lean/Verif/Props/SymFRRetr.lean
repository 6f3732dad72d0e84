import Verif.Props.SymFR
import Mathlib.Tactic.FinCases

/-!
# Retraction of the symmetric fixed-rank manifold with intrinsic vectors: properties C80, C44, C62
-/

set_option linter.unusedSectionVars false
set_option linter.unusedVariables false
set_option linter.unusedSimpArgs false

namespace Verif.SymFR

open Matrix Verif.CMat Verif.Curve
open scoped ComplexOrder

variable {𝕜 : Type*} [RCLike 𝕜]
variable {n p : Type*} [Fintype n] [Fintype p] [DecidableEq n] [DecidableEq p]

/-! ## Specification -/

/-- The coefficient and the normal part of a direction. -/
noncomputable def coef (x η : Matrix n p 𝕜) : Matrix p p 𝕜 := (xᴴ * x)⁻¹ * (xᴴ * η)

/-- The matrix `[x Yp]`. -/
noncomputable def cols (x η : Matrix n p 𝕜) : Matrix n (p ⊕ p) 𝕜 := fromCols x (η - x * coef x η)

/-- `A = Q R` with orthonormal columns. -/
def IsQR (A Q : Matrix n (p ⊕ p) 𝕜) (R : Matrix (p ⊕ p) (p ⊕ p) 𝕜) : Prop := Qᴴ * Q = 1 ∧ Q * R = A

/-- Spectral decomposition, the `p` largest eigenvalues last. -/
def IsEig (Z V : Matrix (p ⊕ p) (p ⊕ p) 𝕜) (w : p ⊕ p → ℝ) : Prop :=
  Vᴴ * V = 1 ∧ Z * V = V * diagonal (fun i => ((w i : ℝ) : 𝕜)) ∧ ∀ i j, w (Sum.inl i) ≤ w (Sum.inr j)

/-- Singular value decomposition. -/
def IsSVD (A U Vt : Matrix p p 𝕜) : Prop := ∃ σ : p → ℝ, (∀ i, 0 ≤ σ i) ∧ Uᴴ * U = 1 ∧ Vt * Vtᴴ = 1 ∧ A = U * diagonal (fun i => ((σ i : ℝ) : 𝕜)) * Vt

/-- The last `p` columns. -/
def lastCols (V : Matrix (p ⊕ p) (p ⊕ p) 𝕜) : Matrix (p ⊕ p) p 𝕜 := fun i j => V i (Sum.inr j)

/-- LAPACK returns correct factorisations for the matrices it is given by `Retraction`. -/
structure OkAt (lp : Lapack 𝕜 n p) (x η : Matrix n p 𝕜) : Prop where
  qr : IsQR (cols x η) (lp.qrQ (cols x η)) (lp.qrR (cols x η))
  eig : ∀ Z, Z = lp.qrR (cols x η) * zmat (coef x η) * (lp.qrR (cols x η))ᴴ → IsEig Z (lp.evec Z) (lp.eval Z)
  svd : ∀ Z T, Z = lp.qrR (cols x η) * zmat (coef x η) * (lp.qrR (cols x η))ᴴ →
    T = lp.qrQ (cols x η) * (lastCols (lp.evec Z) * diagonal fun i => ((√(lp.eval Z (Sum.inr i)) : ℝ) : 𝕜)) →
    IsSVD (xᴴ * T) (lp.svdU (xᴴ * T)) (lp.svdVt (xᴴ * T))

/-! ## Auxiliary lemmas -/

theorem cols_z (x η : Matrix n p 𝕜) : cols x η * zmat (coef x η) * (cols x η)ᴴ = mat x + rep x η := by
  rw [cols, zmat, conjTranspose_fromCols_eq_fromRows_conjTranspose, fromCols_mul_fromBlocks, fromCols_mul_fromRows]
  simp only [mat, rep, Matrix.mul_add, Matrix.add_mul, Matrix.mul_one, Matrix.mul_zero, Matrix.one_mul, conjTranspose_sub, conjTranspose_mul, Matrix.mul_sub, Matrix.sub_mul, Matrix.mul_assoc, add_zero]
  abel

theorem zmat_herm (S : Matrix p p 𝕜) : (zmat S)ᴴ = zmat S := by
  rw [zmat, fromBlocks_conjTranspose]
  simp only [conjTranspose_add, conjTranspose_one, conjTranspose_conjTranspose, conjTranspose_zero]
  congr 1
  abel

theorem trunc (V : Matrix (p ⊕ p) (p ⊕ p) 𝕜) (a : p → 𝕜) :
    lastCols V * diagonal a * (lastCols V)ᴴ = V * diagonal (Sum.elim 0 a) * Vᴴ := by
  ext i j
  rw [Matrix.mul_apply, Matrix.mul_apply, Fintype.sum_sum_type]
  simp only [lastCols, mul_diagonal, conjTranspose_apply, Sum.elim_inl, Sum.elim_inr, Pi.zero_apply, mul_zero, zero_mul, Finset.sum_const_zero, zero_add]

theorem re_diag_le {W : Matrix p p 𝕜} (hW : W * Wᴴ = 1) (i : p) : RCLike.re (W i i) ≤ 1 := by
  have h := congrFun (congrFun hW i) i
  rw [Matrix.mul_apply, one_apply_eq] at h
  have h2 : ∑ j, ‖W i j‖ ^ 2 = 1 := by
    have := congrArg RCLike.re h
    rw [map_sum, RCLike.one_re] at this
    rw [← this]
    refine Finset.sum_congr rfl fun j _ => ?_
    rw [conjTranspose_apply, RCLike.star_def, RCLike.mul_conj, ← RCLike.ofReal_pow, RCLike.ofReal_re]
  have h3 : ‖W i i‖ ^ 2 ≤ 1 := by
    rw [← h2]
    exact Finset.single_le_sum (f := fun j => ‖W i j‖ ^ 2) (fun j _ => by positivity) (Finset.mem_univ i)
  have h4 : ‖W i i‖ ≤ 1 := by nlinarith [norm_nonneg (W i i)]
  exact (RCLike.re_le_norm _).trans h4

theorem ip_diagonal (σ : p → ℝ) (W : Matrix p p 𝕜) : ip (diagonal fun i => ((σ i : ℝ) : 𝕜)) W = ∑ i, σ i * RCLike.re (W i i) := by
  unfold ip
  refine Finset.sum_congr rfl fun i _ => ?_
  rw [Finset.sum_eq_single i]
  · simp
  · intro j _ hj
    simp [diagonal_apply_ne _ (Ne.symm hj)]
  · simp

/-- Among the representatives of a matrix, the one whose product with `x` is `U Σ Uᴴ` is the closest to `x`. -/
theorem aligned {x y : Matrix n p 𝕜} {U : Matrix p p 𝕜} {σ : p → ℝ} (hσ : ∀ i, 0 ≤ σ i) (hU : Uᴴ * U = 1) (e : xᴴ * y = U * diagonal (fun i => ((σ i : ℝ) : 𝕜)) * Uᴴ)
    {O : Matrix p p 𝕜} (hO : O * Oᴴ = 1) : ip (x - y) (x - y) ≤ ip (x - y * O) (x - y * O) := by
  have hd : (diagonal fun i => ((σ i : ℝ) : 𝕜))ᴴ = diagonal fun i => ((σ i : ℝ) : 𝕜) := by
    rw [diagonal_conjTranspose]
    congr 1
    funext i
    simp [RCLike.star_def]
  have key : ∀ O : Matrix p p 𝕜, ip x (y * O) = ∑ i, σ i * RCLike.re ((Uᴴ * O * U) i i) := by
    intro O
    rw [ip_mul_left', ← ip_diagonal]
    have : yᴴ * x = U * diagonal (fun i => ((σ i : ℝ) : 𝕜)) * Uᴴ := by
      have := congrArg conjTranspose e
      rw [conjTranspose_mul, conjTranspose_conjTranspose] at this
      rw [this]
      simp only [conjTranspose_mul, conjTranspose_conjTranspose, hd, Matrix.mul_assoc]
    rw [this, ip_mul_right, conjTranspose_conjTranspose, ip_mul_left, Matrix.mul_assoc]
  have h1 : ip x y = ∑ i, σ i := by
    have := key 1
    rw [Matrix.mul_one, Matrix.mul_one, hU] at this
    rw [this]
    exact Finset.sum_congr rfl fun i _ => by rw [one_apply_eq, RCLike.one_re, mul_one]
  have hU' : U * Uᴴ = 1 := mul_eq_one_comm.mp hU
  have hW : (Uᴴ * O * U) * (Uᴴ * O * U)ᴴ = 1 := by
    have : (Uᴴ * O * U) * (Uᴴ * O * U)ᴴ = Uᴴ * (O * (U * Uᴴ) * Oᴴ) * U := by
      simp only [conjTranspose_mul, conjTranspose_conjTranspose, Matrix.mul_assoc]
    rw [this, hU', Matrix.mul_one, hO, Matrix.mul_one, hU]
  have h2 : ip x (y * O) ≤ ip x y := by
    rw [key, h1]
    exact Finset.sum_le_sum fun i _ => mul_le_of_le_one_right (hσ i) (re_diag_le hW i)
  have h3 : ip (y * O) (y * O) = ip y y := by rw [ip_mul_right, Matrix.mul_assoc, hO, Matrix.mul_one]
  rw [ip_sub_left, ip_sub_right, ip_sub_right, ip_sub_left, ip_sub_right, ip_sub_right, h3, ip_comm y x, ip_comm (y * O) x]
  linarith

theorem eig_eq {Z V : Matrix (p ⊕ p) (p ⊕ p) 𝕜} {w : p ⊕ p → ℝ} (h : IsEig Z V w) : Z = V * diagonal (fun i => ((w i : ℝ) : 𝕜)) * Vᴴ := by
  rw [← h.2.1, Matrix.mul_assoc, mul_eq_one_comm.mp h.1, Matrix.mul_one]

/-- **C80 (retraction with intrinsic vectors).** Given correct factorisations, a result `y` represents the spectral truncation of `x xᴴ + η xᴴ + x ηᴴ` to the `p` largest eigenvalues,
which are non-negative; and `y` is the representative closest to `x`. -/
theorem C80_retraction {lp : Lapack 𝕜 n p} {x η y : Matrix n p 𝕜} (ok : OkAt lp x η) (hy : retractProj lp x η = some y) :
    ∃ (U : Matrix n (p ⊕ p) 𝕜) (w : p ⊕ p → ℝ), Uᴴ * U = 1 ∧ mat x + rep x η = U * diagonal (fun i => ((w i : ℝ) : 𝕜)) * Uᴴ ∧ (∀ i j, w (Sum.inl i) ≤ w (Sum.inr j)) ∧
      (∀ j, 0 ≤ w (Sum.inr j)) ∧ mat y = U * diagonal (Sum.elim 0 fun j => ((w (Sum.inr j) : ℝ) : 𝕜)) * Uᴴ ∧
      ∀ O : Matrix p p 𝕜, O * Oᴴ = 1 → ip (x - y) (x - y) ≤ ip (x - y * O) (x - y * O) := by
  unfold retractProj at hy
  split at hy
  · cases hy
  change (if ∃ i, lp.eval (lp.qrR (cols x η) * zmat (coef x η) * (lp.qrR (cols x η))ᴴ) (Sum.inr i) < 0 then none else
    some (lp.qrQ (cols x η) * (lastCols (lp.evec (lp.qrR (cols x η) * zmat (coef x η) * (lp.qrR (cols x η))ᴴ)) *
      diagonal fun i => ((√(lp.eval (lp.qrR (cols x η) * zmat (coef x η) * (lp.qrR (cols x η))ᴴ) (Sum.inr i)) : ℝ) : 𝕜)) * _)) = _ at hy
  obtain ⟨hQ, hQR⟩ := ok.qr
  have hE := ok.eig _ rfl
  have hS := ok.svd _ _ rfl rfl
  set Q := lp.qrQ (cols x η)
  set R := lp.qrR (cols x η)
  set Z := R * zmat (coef x η) * Rᴴ
  set V := lp.evec Z
  set w := lp.eval Z
  set T := Q * (lastCols V * diagonal fun i => ((√(w (Sum.inr i)) : ℝ) : 𝕜)) with hT
  split at hy
  · cases hy
  rename_i hneg
  have hw : ∀ j, 0 ≤ w (Sum.inr j) := fun j => not_lt.mp fun hj => hneg ⟨j, hj⟩
  obtain ⟨σ, hσ, hU, hV, hA⟩ := hS
  have hyT : y = T * ((lp.svdVt (xᴴ * T))ᴴ * (lp.svdU (xᴴ * T))ᴴ) := (Option.some.inj hy).symm
  have hU' := mul_eq_one_comm.mp hU
  have hV' := mul_eq_one_comm.mp hV
  refine ⟨Q * V, w, ?_, ?_, hE.2.2, hw, ?_, ?_⟩
  · rw [conjTranspose_mul, Matrix.mul_assoc, ← Matrix.mul_assoc Qᴴ, hQ, Matrix.one_mul, hE.1]
  · rw [← cols_z]
    have e1 : cols x η * zmat (coef x η) * (cols x η)ᴴ = Q * Z * Qᴴ := by
      rw [← hQR]
      simp only [Z, conjTranspose_mul, Matrix.mul_assoc]
    rw [e1, eig_eq hE]
    simp only [conjTranspose_mul, Matrix.mul_assoc]
  · have e1 : mat y = T * Tᴴ := by
      have : mat y = T * ((lp.svdVt (xᴴ * T))ᴴ * (((lp.svdU (xᴴ * T))ᴴ * lp.svdU (xᴴ * T)) * lp.svdVt (xᴴ * T))) * Tᴴ := by
        rw [mat]
        conv_lhs => rw [hyT]
        simp only [conjTranspose_mul, conjTranspose_conjTranspose, Matrix.mul_assoc]
      rw [this, hU, Matrix.one_mul, hV', Matrix.mul_one]
    have hd : (diagonal fun i : p => ((√(w (Sum.inr i)) : ℝ) : 𝕜)) * (diagonal fun i : p => ((√(w (Sum.inr i)) : ℝ) : 𝕜))ᴴ = diagonal fun i : p => ((w (Sum.inr i) : ℝ) : 𝕜) := by
      rw [diagonal_conjTranspose, diagonal_mul_diagonal]
      congr 1
      funext i
      simp only [Pi.star_apply, RCLike.star_def, RCLike.conj_ofReal]
      rw [← RCLike.ofReal_mul, Real.mul_self_sqrt (hw i)]
    rw [e1, conjTranspose_mul Q V]
    have e2 : T * Tᴴ = Q * (lastCols V * (diagonal fun i : p => ((w (Sum.inr i) : ℝ) : 𝕜)) *
        (lastCols V)ᴴ) * Qᴴ := by
      rw [hT, ← hd]
      simp only [conjTranspose_mul, Matrix.mul_assoc]
    rw [e2, trunc]
    simp only [Matrix.mul_assoc]
  · intro O hO
    refine aligned hσ hU ?_ hO
    have hfin : ∀ A B : Matrix p p 𝕜, B * Bᴴ = 1 → xᴴ * T = A * diagonal (fun i => ((σ i : ℝ) : 𝕜)) * B → xᴴ * (T * (Bᴴ * Aᴴ)) = A * diagonal (fun i => ((σ i : ℝ) : 𝕜)) * Aᴴ := by
      intro A B hB hT'
      rw [← Matrix.mul_assoc, hT']
      simp only [Matrix.mul_assoc]
      rw [← Matrix.mul_assoc B, hB, Matrix.one_mul]
    rw [hyT]
    exact hfin _ _ hV hA

/-- A truncation of a positive semidefinite matrix of rank at most `p` drops nothing. -/
theorem trunc_psd {U : Matrix n (p ⊕ p) 𝕜} {w : p ⊕ p → ℝ} {z : Matrix n p 𝕜} (hU : Uᴴ * U = 1) (e : z * zᴴ = U * diagonal (fun i => ((w i : ℝ) : 𝕜)) * Uᴴ)
    (hw : ∀ i j, w (Sum.inl i) ≤ w (Sum.inr j)) : (∀ i, 0 ≤ w i) ∧ ∀ i, w (Sum.inl i) = 0 := by
  have ed : diagonal (fun i => ((w i : ℝ) : 𝕜)) = (Uᴴ * z) * (Uᴴ * z)ᴴ := by
    have : (Uᴴ * z) * (Uᴴ * z)ᴴ = Uᴴ * (z * zᴴ) * U := by
      simp only [conjTranspose_mul, conjTranspose_conjTranspose, Matrix.mul_assoc]
    rw [this, e]
    simp only [Matrix.mul_assoc]
    rw [hU, Matrix.mul_one, ← Matrix.mul_assoc, hU, Matrix.one_mul]
  have nn : ∀ i, 0 ≤ w i := by
    intro i
    have h := congrFun (congrFun ed i) i
    rw [diagonal_apply_eq, Matrix.mul_apply] at h
    have := congrArg RCLike.re h
    rw [RCLike.ofReal_re, map_sum] at this
    rw [this]
    refine Finset.sum_nonneg fun j _ => ?_
    rw [conjTranspose_apply, RCLike.star_def, RCLike.mul_conj, ← RCLike.ofReal_pow, RCLike.ofReal_re]
    positivity
  refine ⟨nn, fun i => ?_⟩
  by_contra hne
  have hpos : 0 < w (Sum.inl i) := lt_of_le_of_ne (nn _) (Ne.symm hne)
  have hr : (diagonal (fun i => ((w i : ℝ) : 𝕜))).rank ≤ Fintype.card p := by
    rw [ed]
    exact (rank_mul_le_right _ _).trans (rank_le_card_height _)
  rw [rank_diagonal] at hr
  have hinj : Fintype.card (Option p) ≤ Fintype.card {k : p ⊕ p // ((w k : ℝ) : 𝕜) ≠ 0} := by
    refine Fintype.card_le_of_injective (fun o => o.elim ⟨Sum.inl i, by simpa using hne⟩ fun j => ⟨Sum.inr j, by simpa using (hpos.trans_le (hw i j)).ne'⟩) ?_
    intro a b hab
    cases a <;> cases b <;> simp_all
  rw [Fintype.card_option] at hinj
  omega

/-- Two representatives of a matrix differ by a unitary factor. -/
theorem rep_unitary {z y : Matrix n p 𝕜} (hz : IsPt z) (e : y * yᴴ = z * zᴴ) : ∃ O : Matrix p p 𝕜, O * Oᴴ = 1 ∧ y = z * O := by
  have hi : ((zᴴ * z)⁻¹)ᴴ = (zᴴ * z)⁻¹ := Q2F.gram_inv_herm z
  refine ⟨(zᴴ * z)⁻¹ * (zᴴ * y), ?_, ?_⟩
  · have : (zᴴ * z)⁻¹ * (zᴴ * y) * ((zᴴ * z)⁻¹ * (zᴴ * y))ᴴ = (zᴴ * z)⁻¹ * (zᴴ * (y * yᴴ) * z) * (zᴴ * z)⁻¹ := by
      simp only [conjTranspose_mul, conjTranspose_conjTranspose, hi, Matrix.mul_assoc]
    rw [this, e]
    have : (zᴴ * z)⁻¹ * (zᴴ * (z * zᴴ) * z) * (zᴴ * z)⁻¹ = ((zᴴ * z)⁻¹ * (zᴴ * z)) * ((zᴴ * z) * (zᴴ * z)⁻¹) := by simp only [Matrix.mul_assoc]
    rw [this, nonsing_inv_mul _ hz, mul_nonsing_inv _ hz, Matrix.one_mul]
  · have h0 : ((1 - Q2F.colP z) * y) * ((1 - Q2F.colP z) * y)ᴴ = 0 := by
      have : ((1 - Q2F.colP z) * y) * ((1 - Q2F.colP z) * y)ᴴ = ((1 - Q2F.colP z) * (y * yᴴ)) * (1 - Q2F.colP z)ᴴ := by simp only [conjTranspose_mul, Matrix.mul_assoc]
      rw [this, e, ← Matrix.mul_assoc, Matrix.sub_mul, Matrix.one_mul, Q2F.colP_mul hz, sub_self, Matrix.zero_mul, Matrix.zero_mul]
    have h1 : (1 - Q2F.colP z) * y = 0 := by
      have : ip ((1 - Q2F.colP z) * y)ᴴ ((1 - Q2F.colP z) * y)ᴴ = 0 := by rw [ip_eq_trace, conjTranspose_conjTranspose, h0, trace_zero, map_zero]
      rw [ip_conjTranspose] at this
      exact ip_self_eq_zero.mp this
    rw [Matrix.sub_mul, Matrix.one_mul, sub_eq_zero] at h1
    rw [← Matrix.mul_assoc, ← Matrix.mul_assoc, ← Q2F.colP, ← h1]

/-- **C80 (retraction along a ray).** For directions `c x` with `1 + 2c = d² ≥ 0` the retraction with intrinsic vectors is defined and returns `d x`. -/
theorem C80_retraction_ray {lp : Lapack 𝕜 n p} {x : Matrix n p 𝕜} (hx : IsPt x) {c d : ℝ} (hcd : 1 + 2 * c = d * d) (hd : 0 ≤ d) (hnp : 2 * Fintype.card p ≤ Fintype.card n)
    (ok : OkAt lp x ((c : 𝕜) • x)) : retractProj lp x ((c : 𝕜) • x) = some ((d : 𝕜) • x) := by
  have hM : mat x + rep x ((c : 𝕜) • x) = ((d : 𝕜) • x) * ((d : 𝕜) • x)ᴴ := by
    simp only [mat, rep, conjTranspose_smul, Matrix.smul_mul, Matrix.mul_smul, RCLike.star_def, RCLike.conj_ofReal, smul_smul]
    rw [← RCLike.ofReal_mul, ← hcd]
    push_cast
    module
  obtain ⟨y, hy⟩ : ∃ y, retractProj lp x ((c : 𝕜) • x) = some y := by
    unfold retractProj
    rw [if_neg (by omega)]
    change ∃ y, (if ∃ i, lp.eval (lp.qrR (cols x ((c : 𝕜) • x)) * zmat (coef x ((c : 𝕜) • x)) * (lp.qrR (cols x ((c : 𝕜) • x)))ᴴ) (Sum.inr i) < 0 then none else some _) = some y
    have hE := ok.eig _ rfl
    obtain ⟨hQ, hQR⟩ := ok.qr
    set Q := lp.qrQ (cols x ((c : 𝕜) • x))
    set R := lp.qrR (cols x ((c : 𝕜) • x))
    set Z := R * zmat (coef x ((c : 𝕜) • x)) * Rᴴ
    have hU : (Q * lp.evec Z)ᴴ * (Q * lp.evec Z) = 1 := by rw [conjTranspose_mul, Matrix.mul_assoc, ← Matrix.mul_assoc Qᴴ, hQ, Matrix.one_mul, hE.1]
    have e : ((d : 𝕜) • x) * ((d : 𝕜) • x)ᴴ = (Q * lp.evec Z) * diagonal (fun i => ((lp.eval Z i : ℝ) : 𝕜)) * (Q * lp.evec Z)ᴴ := by
      rw [← hM, ← cols_z]
      have e1 : cols x ((c : 𝕜) • x) * zmat (coef x ((c : 𝕜) • x)) * (cols x ((c : 𝕜) • x))ᴴ = Q * Z * Qᴴ := by
        rw [← hQR]
        simp only [Z, conjTranspose_mul, Matrix.mul_assoc]
      rw [e1]
      conv_lhs => rw [eig_eq hE]
      simp only [conjTranspose_mul, Matrix.mul_assoc]
    have nn := (trunc_psd hU e hE.2.2).1
    rw [if_neg]
    · exact ⟨_, rfl⟩
    · rintro ⟨i, hi⟩
      exact absurd (nn (Sum.inr i)) (not_le.mpr hi)
  rw [hy]
  obtain ⟨U, w, hU, hMw, hord, hw, hmy, hal⟩ := C80_retraction ok hy
  rw [hM] at hMw
  have h0 := (trunc_psd hU hMw hord).2
  have hyy : y * yᴴ = ((d : 𝕜) • x) * ((d : 𝕜) • x)ᴴ := by
    have : (Sum.elim (0 : p → 𝕜) fun j : p => ((w (Sum.inr j) : ℝ) : 𝕜)) = fun i => ((w i : ℝ) : 𝕜) := by
      funext i
      cases i with
      | inl i => simp [h0 i]
      | inr i => rfl
    rw [hMw, ← this]
    exact hmy
  congr 1
  by_cases hd0 : d = 0
  · subst hd0
    have : ip yᴴ yᴴ = 0 := by rw [ip_eq_trace, conjTranspose_conjTranspose, hyy]; simp
    rw [ip_conjTranspose] at this
    rw [ip_self_eq_zero.mp this]
    simp
  · have hdp : 0 < d := lt_of_le_of_ne hd (Ne.symm hd0)
    have e1 : y * yᴴ = ((d : 𝕜) • x) * ((d : 𝕜) • x)ᴴ := hyy
    have hdu : (d : 𝕜) ≠ 0 := by simpa using hd0
    have hxd : IsPt ((d : 𝕜) • x) := by
      unfold IsPt at hx ⊢
      rw [conjTranspose_smul, Matrix.smul_mul, Matrix.mul_smul, smul_smul, det_smul]
      refine IsUnit.mul (IsUnit.pow _ (isUnit_iff_ne_zero.mpr (mul_ne_zero ?_ hdu))) hx
      simpa using hdu
    obtain ⟨O, hO, rfl⟩ := rep_unitary hxd e1
    have hO' : Oᴴ * O = 1 := mul_eq_one_comm.mp hO
    have hle := hal Oᴴ (by rw [conjTranspose_conjTranspose]; exact hO')
    rw [Matrix.mul_assoc, hO, Matrix.mul_one] at hle
    have n1 : ip (x * O) (x * O) = ip x x := by rw [ip_mul_right, Matrix.mul_assoc, hO, Matrix.mul_one]
    simp only [Matrix.smul_mul, ip_sub_left, ip_sub_right, ip_smul_left, ip_smul_right, n1, ip_comm (x * O) x] at hle
    have hge : ip x x ≤ ip x (x * O) := by nlinarith
    have hz : ip (x - x * O) (x - x * O) = 0 := by
      refine le_antisymm ?_ (ip_self_nonneg _)
      simp only [ip_sub_left, ip_sub_right, n1, ip_comm (x * O) x]
      linarith
    have := sub_eq_zero.mp (ip_self_eq_zero.mp hz)
    rw [Matrix.smul_mul, ← this]

/-- **C80.** At the zero vector the retraction returns the point. -/
theorem C80_retraction_zero {lp : Lapack 𝕜 n p} {x : Matrix n p 𝕜} (hx : IsPt x) (hnp : 2 * Fintype.card p ≤ Fintype.card n) (ok : OkAt lp x 0) : retractProj lp x 0 = some x := by
  have := C80_retraction_ray (c := 0) (d := 1) hx (by norm_num) (by norm_num) hnp (by simpa using ok)
  simpa using this

/-- **C80, negation.** When the matrix has fewer than `2p` rows the retraction with intrinsic vectors reads outside the eigenvalue array, whatever the point and direction. -/
theorem C80_retraction_small (lp : Lapack 𝕜 n p) (hnp : Fintype.card n < 2 * Fintype.card p) (x η : Matrix n p 𝕜) : retractProj lp x η = none := by
  unfold retractProj; rw [if_pos hnp]

/-! ## C44 -/

/-- **C44 (symmetric fixed rank), negation.** At every point there are horizontal directions along which the extrinsic and the intrinsic retraction return the zero matrix. -/
theorem C44_sym_rank_drops {lp : Lapack 𝕜 n p} {x : Matrix n p 𝕜} (hx : IsPt x) (hnp : 2 * Fintype.card p ≤ Fintype.card n) (ok : OkAt lp x (((-1 / 2 : ℝ) : 𝕜) • x)) :
    (IsHor metricH x (-x) ∧ mat (retract x (-x)) = 0) ∧ IsHor metricH x (((-1 / 2 : ℝ) : 𝕜) • x) ∧ retractProj lp x (((-1 / 2 : ℝ) : 𝕜) • x) = some 0 := by
  have hor : ∀ c : ℝ, IsHor metricH x ((c : 𝕜) • x) := by
    intro c
    rw [hor_iff hx, Matrix.mul_smul, Matrix.mul_smul, nonsing_inv_mul _ hx]
    simp
  refine ⟨⟨?_, by simp [mat, retract]⟩, hor _, ?_⟩
  · have := hor (-1)
    simpa using this
  · have := C80_retraction_ray (c := -1 / 2) (d := 0) hx (by norm_num) (by norm_num) hnp ok
    rw [this]
    simp

/-- **C44 (partial).** If the new factor has independent columns, the represented matrix has rank `p`. -/
theorem C44_sym_rank_partial {y : Matrix n p 𝕜} (hy : IsPt y) : (mat y).rank = Fintype.card p := by
  have h1 : y.rank = Fintype.card p := by
    have : (yᴴ * y).rank = Fintype.card p := rank_of_isUnit _ ((Matrix.isUnit_iff_isUnit_det _).mpr hy)
    rw [← this, rank_conjTranspose_mul_self]
  rw [mat, rank_self_mul_conjTranspose, h1]

/-! ## C62 -/

/-- **C62 (symmetric fixed rank, intrinsic vectors), negation.** `DiffRetraction` is not the derivative of the retraction that is used: at every point `x`, at the direction `(3/2) x`
and along `x`, the represented velocity is `2 x xᴴ` and the returned vector represents `4 x xᴴ`. -/
theorem C62_sym_intrinsic_fails [Nonempty p] {lp : Lapack 𝕜 n p} {x : Matrix n p 𝕜} (hx : IsPt x) (hnp : 2 * Fintype.card p ≤ Fintype.card n)
    (ok : ∀ t : ℝ, -2 ≤ t → OkAt lp x (((3 / 2 + t : ℝ) : 𝕜) • x)) :
    ∃ Y : ℝ → Matrix n p 𝕜, (∀ t : ℝ, -2 ≤ t → retractProj lp x (((3 / 2 + t : ℝ) : 𝕜) • x) = some (Y t)) ∧ ED (fun t => mat (Y t)) ((2 : 𝕜) • mat x) 0 ∧
      rep (Y 0) (diffRetract (Y 0) x) = (4 : 𝕜) • mat x ∧ ¬ ED (fun t => mat (Y t)) (rep (Y 0) (diffRetract (Y 0) x)) 0 := by
  have h4 : √(4 + 2 * 0 : ℝ) = 2 := by
    rw [show (4 + 2 * 0 : ℝ) = 2 ^ 2 by norm_num]; exact Real.sqrt_sq (by norm_num)
  have hY0 : ((√(4 + 2 * 0 : ℝ) : ℝ) : 𝕜) • x = (2 : 𝕜) • x := by rw [h4, RCLike.ofReal_ofNat]
  have d1 : ED (fun t : ℝ => mat (((√(4 + 2 * t) : ℝ) : 𝕜) • x)) ((2 : 𝕜) • mat x) 0 := by
    have l := ED.line ((4 : 𝕜) • mat x) ((2 : 𝕜) • mat x) 0
    intro i j
    refine (l i j).congr_of_eventuallyEq ?_
    filter_upwards [Ioo_mem_nhds (show (-1 : ℝ) < 0 by norm_num) (show (0 : ℝ) < 1 by norm_num)] with t ht
    have hs : mat (((√(4 + 2 * t) : ℝ) : 𝕜) • x) = ((4 + 2 * t : ℝ) : 𝕜) • mat x := by
      simp only [mat, conjTranspose_smul, Matrix.smul_mul, Matrix.mul_smul, RCLike.star_def, RCLike.conj_ofReal, smul_smul]
      rw [← RCLike.ofReal_mul, Real.mul_self_sqrt (by linarith [ht.1])]
    rw [hs]
    simp only [Matrix.smul_apply, Matrix.add_apply, smul_eq_mul]
    push_cast
    ring
  have hpt : IsPt ((2 : 𝕜) • x) := by
    unfold IsPt at hx ⊢
    rw [conjTranspose_smul, Matrix.smul_mul, Matrix.mul_smul, smul_smul, det_smul]
    refine IsUnit.mul (IsUnit.pow _ (isUnit_iff_ne_zero.mpr ?_)) hx
    simp
  have d2 : rep (((√(4 + 2 * 0 : ℝ) : ℝ) : 𝕜) • x) (diffRetract (((√(4 + 2 * 0 : ℝ) : ℝ) : 𝕜) • x) x) = (4 : 𝕜) • mat x := by
    rw [hY0, diffRetract, (C80_projection hpt x).2.1]
    simp only [rep, mat, conjTranspose_smul, Matrix.mul_smul, Matrix.smul_mul]
    rw [show star (2 : 𝕜) = 2 by simp]
    module
  refine ⟨fun t => ((√(4 + 2 * t) : ℝ) : 𝕜) • x, fun t ht => ?_, d1, d2, fun h => ?_⟩
  · refine C80_retraction_ray hx ?_ (Real.sqrt_nonneg _) hnp (ok t ht)
    rw [Real.mul_self_sqrt (by linarith)]
    ring
  · have e := (h.congr d2).unique d1
    have : (2 : 𝕜) • mat x = 0 := by
      have : (4 : 𝕜) • mat x - (2 : 𝕜) • mat x = 0 := by rw [e, sub_self]
      rw [← this]; module
    have hm : mat x = 0 := (smul_eq_zero.mp this).resolve_left two_ne_zero
    have hx0 : xᴴ = 0 := by
      have h2 : ip xᴴ xᴴ = 0 := by rw [ip_eq_trace, conjTranspose_conjTranspose]; unfold mat at hm; rw [hm, trace_zero, map_zero]
      exact ip_self_eq_zero.mp h2
    have : IsUnit (0 : Matrix p p 𝕜).det := by
      unfold IsPt at hx
      rwa [hx0, Matrix.zero_mul] at hx
    rw [det_zero] at this
    · exact not_isUnit_zero this

/-! ## A concrete case -/

/-- Factorisations of the matrices met at the point below. -/
def lpEx : Lapack ℝ (Fin 1 ⊕ Fin 1) (Fin 1) where
  qrQ _ := 1
  qrR A := A
  eval Z := Sum.elim (fun i => Z (Sum.inr i) (Sum.inr i)) (fun i => Z (Sum.inl i) (Sum.inl i))
  evec _ := fromBlocks 0 1 1 0
  svdU _ := 1
  svdVt _ := 1

/-- The point `(1, 0)ᵀ`. -/
def xEx : Matrix (Fin 1 ⊕ Fin 1) (Fin 1) ℝ := fromRows 1 0

theorem xEx_gram : xExᴴ * xEx = 1 := by
  rw [xEx, conjTranspose_fromRows_eq_fromCols_conjTranspose, fromCols_mul_fromRows]
  simp

theorem xEx_pt : IsPt xEx := by
  unfold IsPt
  rw [xEx_gram]
  simp

theorem xEx_ok {c : ℝ} (hc : 0 ≤ 1 + 2 * c) : OkAt lpEx xEx (((c : ℝ) : ℝ) • xEx) := by
  have e1 : coef xEx (c • xEx) = c • 1 := by rw [coef, Matrix.mul_smul, xEx_gram]; simp
  have e2 : cols xEx (c • xEx) = fromBlocks 1 0 0 0 := by
    rw [cols, e1]
    simp only [Matrix.mul_smul, Matrix.mul_one, sub_self]
    ext (i | i) (j | j) <;> simp [xEx]
  have e3 : cols xEx (c • xEx) * zmat (coef xEx (c • xEx)) * (cols xEx (c • xEx))ᴴ = fromBlocks ((1 + 2 * c) • 1) 0 0 0 := by
    rw [e1, e2, zmat, fromBlocks_conjTranspose, fromBlocks_multiply, fromBlocks_multiply]
    ext (i | i) (j | j) <;> simp [Subsingleton.elim i j]
    ring
  have hT : lpEx.qrQ (cols xEx (c • xEx)) * (lastCols (lpEx.evec (fromBlocks ((1 + 2 * c) • 1) 0 0 0)) *
      diagonal fun i => ((√(lpEx.eval (fromBlocks ((1 + 2 * c) • 1) 0 0 0) (Sum.inr i)) : ℝ) : ℝ)) = √(1 + 2 * c) • xEx := by
    ext (i | i) j <;> simp [lpEx, lastCols, xEx, Subsingleton.elim i j]
  refine ⟨⟨?_, ?_⟩, ?_, ?_⟩
  · simp [lpEx]
  · simp [lpEx]
  · intro Z hZ
    rw [show lpEx.qrR = id from rfl, id, e3] at hZ
    subst hZ
    refine ⟨?_, ?_, ?_⟩
    · simp [lpEx, fromBlocks_transpose, fromBlocks_multiply, fromBlocks_one]
    · ext (i | i) (j | j) <;> simp [lpEx, Matrix.mul_apply, diagonal_apply, Subsingleton.elim i 0, Subsingleton.elim j 0]
    · intro i j
      simpa [lpEx] using hc
  · intro Z T hZ hT'
    rw [show lpEx.qrR = id from rfl, id, e3] at hZ
    subst hZ
    have hT' : T = √(1 + 2 * c) • xEx := hT'.trans hT
    subst hT'
    refine ⟨fun _ => √(1 + 2 * c), fun _ => Real.sqrt_nonneg _, by simp [lpEx], by simp [lpEx], ?_⟩
    rw [Matrix.mul_smul, xEx_gram]
    ext i j
    simp [lpEx, Subsingleton.elim i j]

/-- The retraction of `4 x` is `3 x`, that of `-x/2` is zero, and `DiffRetraction` is wrong there. -/
example : retractProj lpEx xEx ((4 : ℝ) • xEx) = some ((3 : ℝ) • xEx) :=
  C80_retraction_ray (c := 4) (d := 3) xEx_pt (by norm_num) (by norm_num) (by simp) (xEx_ok (by norm_num))

example : retractProj lpEx xEx (((-1 / 2 : ℝ) : ℝ) • xEx) = some 0 := (C44_sym_rank_drops xEx_pt (by simp) (xEx_ok (by norm_num))).2.2

example : ∃ Y : ℝ → Matrix (Fin 1 ⊕ Fin 1) (Fin 1) ℝ, (∀ t : ℝ, -2 ≤ t → retractProj lpEx xEx ((3 / 2 + t) • xEx) = some (Y t)) ∧
    ¬ ED (fun t => mat (Y t)) (rep (Y 0) (diffRetract (Y 0) xEx)) 0 := by
  obtain ⟨Y, h1, -, -, h4⟩ := C62_sym_intrinsic_fails (lp := lpEx) xEx_pt (by simp) fun t ht => xEx_ok (c := 3 / 2 + t) (by linarith)
  exact ⟨Y, h1, h4⟩

end Verif.SymFR
