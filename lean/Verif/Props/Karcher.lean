import Verif.Problem.Karcher
import Verif.Problem.Spectral
import Verif.Problem.CurveInv
import Verif.Props.MatFun
import Verif.Props.Problems
import Mathlib.Analysis.Matrix.LDL
import Mathlib.Analysis.SpecialFunctions.Log.Deriv

/-!
# C98: cost, gradient and Hessian of the Karcher mean problem

The points are curves in the positive definite matrices; the other problems have their statements in
`Verif.Props.Problems`.
-/

set_option linter.unusedSectionVars false
set_option linter.unusedVariables false

open Matrix Verif.Mat Verif.Curve Verif.Problem Verif.MatFun Verif.Spectral

open scoped ComplexOrder

namespace Verif.Karcher

variable {N K : ℕ} {F : Type}

/-! ## Specification -/

/-- What LAPACK documents about the routines. -/
structure Ok (lp : Lapack N F) : Prop where
  chol_lower : ∀ S : Matrix (Fin N) (Fin N) ℝ, S.PosDef → ∀ i j, i < j → lp.chol S i j = 0
  chol_eq : ∀ S : Matrix (Fin N) (Fin N) ℝ, S.PosDef → lp.chol S * (lp.chol S)ᵀ = S
  trtrs : TrtrsOk lp.trtrs
  syev : SyevOk lp.syev
  getrs : GetrsOk lp.getrf lp.getrs

/-- A lower triangular factor of a positive definite matrix. -/
def IsFactor (L : Matrix (Fin N) (Fin N) ℝ) : Prop := (∀ i j, i < j → L i j = 0) ∧ ∀ i, L i i ≠ 0

/-- `D` is the logarithm of the point relative to the data matrix `L Lᵀ`: symmetric with `L (exp D) Lᵀ = x`. -/
def IsRelLog (L x D : Matrix (Fin N) (Fin N) ℝ) : Prop := Dᵀ = D ∧ L * NormedSpace.exp D * Lᵀ = x

/-! ## Helper lemmas -/

theorem lower_eq {L : Matrix (Fin N) (Fin N) ℝ} (h : ∀ i j, i < j → L i j = 0) : lower L = L := by
  ext i j
  by_cases hij : j ≤ i
  · simp [lower, hij]
  · simp [lower, hij, h i j (not_le.mp hij)]

theorem factor_unit {L : Matrix (Fin N) (Fin N) ℝ} (h : IsFactor L) : IsUnit L.det := by
  have := lower_det L h.2
  rwa [lower_eq h.1] at this

theorem tri_N {lp : Lapack N F} (ok : Ok lp) {L : Matrix (Fin N) (Fin N) ℝ} (h : IsFactor L) (B : Matrix (Fin N) (Fin N) ℝ) :
    triLinSol lp.trtrs .N L B = L⁻¹ * B := by
  refine (((C94_triangular ok.trtrs .N L B).1 h.2 _).mp ?_).symm
  rw [lower_eq h.1]
  show L * (L⁻¹ * B) = B
  rw [← Matrix.mul_assoc, mul_nonsing_inv _ (factor_unit h), Matrix.one_mul]

theorem tri_T {lp : Lapack N F} (ok : Ok lp) {L : Matrix (Fin N) (Fin N) ℝ} (h : IsFactor L) (B : Matrix (Fin N) (Fin N) ℝ) :
    triLinSol lp.trtrs .T L B = (L⁻¹)ᵀ * B := by
  refine (((C94_triangular ok.trtrs .T L B).1 h.2 _).mp ?_).symm
  rw [lower_eq h.1]
  show Lᵀ * ((L⁻¹)ᵀ * B) = B
  rw [← Matrix.mul_assoc, ← transpose_mul, nonsing_inv_mul _ (factor_unit h), transpose_one, Matrix.one_mul]

theorem posDef_symm {x : Matrix (Fin N) (Fin N) ℝ} (h : x.PosDef) : xᵀ = x := by
  have := h.isHermitian
  rwa [IsHermitian, conjTranspose_eq_transpose_of_trivial] at this

theorem posDef_unit {x : Matrix (Fin N) (Fin N) ℝ} (h : x.PosDef) : IsUnit x.det := h.det_pos.ne'.isUnit

theorem half {x : Matrix (Fin N) (Fin N) ℝ} (h : x.PosDef) : (1 / 2 : ℝ) • (x + xᵀ) = x := by
  rw [posDef_symm h]; ext i j; simp; ring

/-- The relative matrix `L⁻¹ x L⁻ᵀ`. -/
noncomputable def rel (L x : Matrix (Fin N) (Fin N) ℝ) : Matrix (Fin N) (Fin N) ℝ := L⁻¹ * x * (L⁻¹)ᵀ

theorem rel_posDef {L x : Matrix (Fin N) (Fin N) ℝ} (hL : IsUnit L.det) (h : x.PosDef) : (rel L x).PosDef := by
  have := h.mul_mul_conjTranspose_same (B := L⁻¹) (by
    refine Matrix.vecMul_injective_of_isUnit ?_
    exact (Matrix.isUnit_iff_isUnit_det _).mpr ((isUnit_nonsing_inv_det_iff).mpr hL))
  rwa [conjTranspose_eq_transpose_of_trivial] at this

theorem chol_factor {lp : Lapack N F} (ok : Ok lp) {x : Matrix (Fin N) (Fin N) ℝ} (h : x.PosDef) : IsFactor (lp.chol x) := by
  refine ⟨ok.chol_lower x h, fun i hi => ?_⟩
  have h1 : (lp.chol x).det = ∏ i, lp.chol x i i := by
    rw [det_of_isLowerTriangular]
    intro i j hij
    exact ok.chol_lower x h _ _ hij
  have h2 : x.det = 0 := by
    have h0 : (∏ i, lp.chol x i i) = 0 := Finset.prod_eq_zero (Finset.mem_univ i) hi
    rw [← ok.chol_eq x h, det_mul, h1, h0, zero_mul]
  exact h.det_pos.ne' h2

theorem fields {lp : Lapack N F} (ok : Ok lp) {Ls : Fin K → Matrix (Fin N) (Fin N) ℝ} (hLs : ∀ i, IsFactor (Ls i))
    {x : Matrix (Fin N) (Fin N) ℝ} (h : x.PosDef) :
    (f lp Ls x).2.L = lp.chol x ∧
    ∀ i, ((f lp Ls x).2.vec i)ᵀ * (f lp Ls x).2.vec i = 1 ∧ spec id ((f lp Ls x).2.val i) ((f lp Ls x).2.vec i) = rel (Ls i) x ∧
      (∀ j, 0 < (f lp Ls x).2.val i j) ∧ (f lp Ls x).2.logs i = spec Real.log ((f lp Ls x).2.val i) ((f lp Ls x).2.vec i) := by
  have hL : (f lp Ls x).2.L = lp.chol x := by simp only [f]; rw [half h]
  refine ⟨hL, fun i => ?_⟩
  have hw : whitened lp (Ls i) (lp.chol x) = rel (Ls i) x := by
    simp only [whitened, tri_N ok (hLs i), rel, transpose_mul]
    conv_rhs => rw [← ok.chol_eq x h]
    simp only [Matrix.mul_assoc]
  have hM := rel_posDef (factor_unit (hLs i)) h
  have he := ok.syev .L (rel (Ls i) x)
  rw [herm_of_isHermitian .L hM.isHermitian] at he
  have hpos := (eig_posDef he).mp hM
  have hn : ¬ ∃ j, (lp.syev .L (rel (Ls i) x)).vals j ≤ 0 := fun ⟨j, hj⟩ => absurd hj (not_le.mpr (hpos j))
  have e1 : (f lp Ls x).2.vec i = (lp.syev .L (rel (Ls i) x)).vecs := by
    simp only [f]; rw [half h, hw]; simp [logSym, eigenDecomSym]
  have e2 : (f lp Ls x).2.val i = (lp.syev .L (rel (Ls i) x)).vals := by
    simp only [f]; rw [half h, hw]; simp [logSym, eigenDecomSym]
  have e3 : (f lp Ls x).2.logs i = scaleCols (fun j => Real.log ((lp.syev .L (rel (Ls i) x)).vals j)) (lp.syev .L (rel (Ls i) x)).vecs *
      (lp.syev .L (rel (Ls i) x)).vecsᴴ := by
    simp only [f]; rw [half h, hw]; simp [logSym, eigenDecomSym, hn]
  rw [e1, e2, e3]
  refine ⟨?_, ?_, hpos, ?_⟩
  · have := he.unit; rwa [conjTranspose_eq_transpose_of_trivial] at this
  · have := he.eq; rw [conjTranspose_eq_transpose_of_trivial] at this; exact this
  · rw [scaleCols_eq, conjTranspose_eq_transpose_of_trivial]; rfl

theorem grad_eq {lp : Lapack N F} (ok : Ok lp) {Ls : Fin K → Matrix (Fin N) (Fin N) ℝ} (hLs : ∀ i, IsFactor (Ls i))
    {x : Matrix (Fin N) (Fin N) ℝ} (h : x.PosDef) :
    eucGrad lp Ls (f lp Ls x).2 = (1 / (K : ℝ)) • ((∑ i, (Ls i)⁻¹ᵀ * ((f lp Ls x).2.logs i * (Ls i)ᵀ)) * x⁻¹) := by
  have hc := chol_factor ok h
  have hx : x⁻¹ = ((lp.chol x)⁻¹)ᵀ * (lp.chol x)⁻¹ := by
    conv_lhs => rw [← ok.chol_eq x h]
    rw [Matrix.mul_inv_rev, transpose_nonsing_inv]
  simp only [eucGrad]
  rw [(fields ok hLs h).1, tri_N ok hc, tri_T ok hc]
  simp only [fun i => tri_T ok (hLs i)]
  rw [transpose_mul, transpose_mul, transpose_transpose, transpose_transpose, hx, Matrix.mul_assoc]

theorem table_eq {w : Fin N → ℝ} (hw : ∀ j, 0 < w j) (j k : Fin N) : table w j k = dslope Real.log (w j) (w k) := by
  by_cases e : w j = w k
  · simp only [table, of_apply, e, if_true, dslope_same, Real.deriv_log, one_div]
  · rw [dslope_of_ne _ (Ne.symm e), slope_def_field]
    simp only [table, of_apply, e, if_false]
    rw [← neg_sub (Real.log (w k)), ← neg_sub (w k), neg_div_neg_eq]

/-- Derivative of the logarithms along a curve. -/
theorem logs_deriv {lp : Lapack N F} (ok : Ok lp) {Ls : Fin K → Matrix (Fin N) (Fin N) ℝ} (hLs : ∀ i, IsFactor (Ls i))
    {γ : ℝ → Matrix (Fin N) (Fin N) ℝ} {ξ : Matrix (Fin N) (Fin N) ℝ} {t : ℝ} (hγ : ∀ s, (γ s).PosDef) (h : ED γ ξ t) (i : Fin K) :
    ED (fun s => (f lp Ls (γ s)).2.logs i) ((f lp Ls (γ t)).2.vec i * (of fun j k => (((f lp Ls (γ t)).2.vec i)ᵀ * rel (Ls i) ξ *
      (f lp Ls (γ t)).2.vec i) j k * table ((f lp Ls (γ t)).2.val i) j k) * ((f lp Ls (γ t)).2.vec i)ᵀ) t := by
  have hf := fun s => (fields ok hLs (hγ s)).2 i
  have hA : ED (fun s => rel (Ls i) (γ s)) (rel (Ls i) ξ) t := (h.const_mul _).mul_const _
  have := spec_deriv (fun s => (hf s).1) (fun s => (hf s).2.1) hA Real.log
    (fun j => (Real.differentiableAt_log ((hf t).2.2.1 j).ne'))
  have e : (fun s => (f lp Ls (γ s)).2.logs i) = fun s => spec Real.log ((f lp Ls (γ s)).2.val i) ((f lp Ls (γ s)).2.vec i) :=
    funext fun s => (hf s).2.2.2
  rw [e]
  refine this.congr ?_
  congr 2
  ext j k
  simp only [of_apply, table_eq (hf t).2.2.1, mul_comm]

theorem ED_sum {ι : Type*} [Fintype ι] {g : ι → ℝ → Matrix (Fin N) (Fin N) ℝ} {g' : ι → Matrix (Fin N) (Fin N) ℝ} {t : ℝ}
    (h : ∀ i, ED (g i) (g' i) t) : ED (fun s => ∑ i, g i s) (∑ i, g' i) t := by
  intro a b
  simp only [Matrix.sum_apply]
  exact HasDerivAt.fun_sum fun i _ => h i a b

theorem inv_eq_rel {L x : Matrix (Fin N) (Fin N) ℝ} (hL : IsUnit L.det) : x⁻¹ = (L⁻¹)ᵀ * (rel L x)⁻¹ * L⁻¹ := by
  have e : x = L * rel L x * Lᵀ := by
    have : L * (L⁻¹ * x * (L⁻¹)ᵀ) * Lᵀ = (L * L⁻¹) * x * (L * L⁻¹)ᵀ := by simp only [Matrix.mul_assoc, transpose_mul]
    rw [rel, this, mul_nonsing_inv _ hL, transpose_one, Matrix.one_mul, Matrix.mul_one]
  conv_lhs => rw [e]
  rw [Matrix.mul_inv_rev, Matrix.mul_inv_rev, transpose_nonsing_inv, Matrix.mul_assoc]

theorem spec_mul {d : Fin N → ℝ} {V : Matrix (Fin N) (Fin N) ℝ} (hV : Vᵀ * V = 1) (a b : ℝ → ℝ) :
    spec a d V * spec b d V = spec (fun s => a s * b s) d V := by
  unfold spec
  calc V * diagonal (fun i => a (d i)) * Vᵀ * (V * diagonal (fun i => b (d i)) * Vᵀ)
      = V * (diagonal (fun i => a (d i)) * (Vᵀ * V) * diagonal (fun i => b (d i))) * Vᵀ := by simp only [Matrix.mul_assoc]
    _ = _ := by rw [hV, Matrix.mul_one, diagonal_mul_diagonal]

theorem spec_transpose (a : ℝ → ℝ) (d : Fin N → ℝ) (V : Matrix (Fin N) (Fin N) ℝ) : (spec a d V)ᵀ = spec a d V := by
  simp only [spec, transpose_mul, transpose_transpose, diagonal_transpose, Matrix.mul_assoc]

theorem spec_inv {d : Fin N → ℝ} {V : Matrix (Fin N) (Fin N) ℝ} (hV : Vᵀ * V = 1) (hd : ∀ j, 0 < d j) :
    (spec id d V)⁻¹ = spec (fun s => s⁻¹) d V := by
  refine inv_eq_left_inv ?_
  rw [spec_mul hV]
  have : diagonal (fun i => (d i)⁻¹ * id (d i)) = (1 : Matrix (Fin N) (Fin N) ℝ) := by
    rw [← diagonal_one]; congr 1; funext i; simp [(hd i).ne']
  simp only [spec, this, Matrix.mul_one]
  exact mul_eq_one_comm.mp hV

/-- One summand of the gradient. -/
theorem grad_term {lp : Lapack N F} (ok : Ok lp) {Ls : Fin K → Matrix (Fin N) (Fin N) ℝ} (hLs : ∀ i, IsFactor (Ls i))
    {x : Matrix (Fin N) (Fin N) ℝ} (h : x.PosDef) (i : Fin K) :
    (Ls i)⁻¹ᵀ * ((f lp Ls x).2.logs i * (Ls i)ᵀ) * x⁻¹ =
      (Ls i)⁻¹ᵀ * spec (fun s => Real.log s * s⁻¹) ((f lp Ls x).2.val i) ((f lp Ls x).2.vec i) * (Ls i)⁻¹ := by
  obtain ⟨hV, hM, hp, hl⟩ := (fields ok hLs h).2 i
  have hu := factor_unit (hLs i)
  rw [inv_eq_rel (x := x) hu, ← hM, spec_inv hV hp, hl, ← spec_mul hV]
  generalize spec Real.log ((f lp Ls x).2.val i) ((f lp Ls x).2.vec i) = P
  generalize spec (fun s => s⁻¹) ((f lp Ls x).2.val i) ((f lp Ls x).2.vec i) = Q
  have : (Ls i)ᵀ * ((Ls i)⁻¹)ᵀ = 1 := by rw [← transpose_mul, nonsing_inv_mul _ hu, transpose_one]
  calc ((Ls i)⁻¹)ᵀ * (P * (Ls i)ᵀ) * (((Ls i)⁻¹)ᵀ * Q * (Ls i)⁻¹)
      = ((Ls i)⁻¹)ᵀ * P * ((Ls i)ᵀ * ((Ls i)⁻¹)ᵀ) * Q * (Ls i)⁻¹ := by simp only [Matrix.mul_assoc]
    _ = _ := by rw [this, Matrix.mul_one]; simp only [Matrix.mul_assoc]

theorem relLog {lp : Lapack N F} (ok : Ok lp) {Ls : Fin K → Matrix (Fin N) (Fin N) ℝ} (hLs : ∀ i, IsFactor (Ls i))
    {x : Matrix (Fin N) (Fin N) ℝ} (h : x.PosDef) (i : Fin K) (D : Matrix (Fin N) (Fin N) ℝ) :
    IsRelLog (Ls i) x D ↔ D = (f lp Ls x).2.logs i := by
  obtain ⟨hV, hM, hp, hl⟩ := (fields ok hLs h).2 i
  have hu := factor_unit (hLs i)
  have hx : Ls i * rel (Ls i) x * (Ls i)ᵀ = x := by
    have : Ls i * ((Ls i)⁻¹ * x * ((Ls i)⁻¹)ᵀ) * (Ls i)ᵀ = (Ls i * (Ls i)⁻¹) * x * (Ls i * (Ls i)⁻¹)ᵀ := by
      simp only [Matrix.mul_assoc, transpose_mul]
    rw [rel, this, mul_nonsing_inv _ hu, transpose_one, Matrix.one_mul, Matrix.mul_one]
  have he : NormedSpace.exp ((f lp Ls x).2.logs i) = rel (Ls i) x := by
    have h1 := exp_spectral (𝕜 := ℝ) (V := (f lp Ls x).2.vec i) (by rw [conjTranspose_eq_transpose_of_trivial]; exact hV)
      (fun j => Real.log ((f lp Ls x).2.val i j))
    rw [conjTranspose_eq_transpose_of_trivial] at h1
    rw [hl, ← hM]
    refine Eq.trans ?_ (h1.trans ?_)
    · rfl
    · simp only [spec, RCLike.ofReal_real_eq_id, id_eq, Real.exp_log (hp _)]
  have hs : ((f lp Ls x).2.logs i)ᵀ = (f lp Ls x).2.logs i := by rw [hl, spec_transpose]
  refine ⟨fun ⟨h1, h2⟩ => ?_, fun e => e ▸ ⟨hs, by rw [he, hx]⟩⟩
  have h3 : NormedSpace.exp D = rel (Ls i) x := by
    have h4 := congrArg (rel (Ls i)) h2
    rw [← h4, rel]
    have : (Ls i)⁻¹ * (Ls i * NormedSpace.exp D * (Ls i)ᵀ) * ((Ls i)⁻¹)ᵀ = ((Ls i)⁻¹ * Ls i) * NormedSpace.exp D * ((Ls i)⁻¹ * Ls i)ᵀ := by
      simp only [Matrix.mul_assoc, transpose_mul]
    rw [this, nonsing_inv_mul _ hu, transpose_one, Matrix.one_mul, Matrix.mul_one]
  refine exp_inj ?_ ?_ (h3.trans he.symm)
  · rw [IsHermitian, conjTranspose_eq_transpose_of_trivial]; exact h1
  · rw [IsHermitian, conjTranspose_eq_transpose_of_trivial]; exact hs

/-! ## C98 -/

/-- The cost at a positive definite point is the mean of the squared lengths of the logarithms relative to the data matrices, halved; the relative
logarithms exist and are unique, and the cost vanishes exactly when the point equals all data matrices (`K ≥ 1`; without data the code divides
by zero). -/
theorem C98_cost {lp : Lapack N F} (ok : Ok lp) {Ls : Fin K → Matrix (Fin N) (Fin N) ℝ} (hLs : ∀ i, IsFactor (Ls i)) (hK : 0 < K)
    {x : Matrix (Fin N) (Fin N) ℝ} (h : x.PosDef) :
    (∀ i, ∃! D, IsRelLog (Ls i) x D) ∧
    (∀ D : Fin K → Matrix (Fin N) (Fin N) ℝ, (∀ i, IsRelLog (Ls i) x (D i)) → ((karcher lp Ls).f x).1 = (∑ i, frob (D i) (D i)) / (2 * K)) ∧
    (0 ≤ ((karcher lp Ls).f x).1) ∧ (((karcher lp Ls).f x).1 = 0 ↔ ∀ i, x = Ls i * (Ls i)ᵀ) := by
  have hv : ((karcher lp Ls).f x).1 = (∑ i, frob ((f lp Ls x).2.logs i) ((f lp Ls x).2.logs i)) / (2 * K) := rfl
  have hK' : (0 : ℝ) < 2 * K := by positivity
  refine ⟨fun i => ⟨_, (relLog ok hLs h i _).mpr rfl, fun D hD => (relLog ok hLs h i D).mp hD⟩, fun D hD => ?_, ?_, ?_⟩
  · rw [hv]; simp only [fun i => (relLog ok hLs h i (D i)).mp (hD i)]
  · rw [hv]; exact div_nonneg (Finset.sum_nonneg fun i _ => frob_self_nonneg _) hK'.le
  · rw [hv, div_eq_zero_iff, or_iff_left hK'.ne', Finset.sum_eq_zero_iff_of_nonneg fun i _ => frob_self_nonneg _]
    refine ⟨fun h0 i => ?_, fun hx i _ => ?_⟩
    · have h1 := (relLog ok hLs h i _).mpr rfl
      rw [frob_self_eq_zero.mp (h0 i (Finset.mem_univ i))] at h1
      have h2 := h1.2
      rw [NormedSpace.exp_zero, Matrix.mul_one] at h2
      exact h2.symm
    · rw [← (relLog ok hLs h i 0).mp ⟨transpose_zero, by rw [NormedSpace.exp_zero, Matrix.mul_one]; exact (hx i).symm⟩, frob_zero_left]

/-- The coded gradient is the gradient of the coded cost along every differentiable curve of positive definite matrices, and it is symmetric. -/
theorem C98_gradient {lp : Lapack N F} (ok : Ok lp) {Ls : Fin K → Matrix (Fin N) (Fin N) ℝ} (hLs : ∀ i, IsFactor (Ls i))
    {γ : ℝ → Matrix (Fin N) (Fin N) ℝ} {ξ : Matrix (Fin N) (Fin N) ℝ} {t : ℝ} (hγ : ∀ s, (γ s).PosDef) (h : ED γ ξ t) :
    HasDerivAt (fun s => ((karcher lp Ls).f (γ s)).1) (frob ((karcher lp Ls).eucGrad (γ t) ((karcher lp Ls).f (γ t)).2) ξ) t ∧
    ((karcher lp Ls).eucGrad (γ t) ((karcher lp Ls).f (γ t)).2)ᵀ = (karcher lp Ls).eucGrad (γ t) ((karcher lp Ls).f (γ t)).2 := by
  have hg : (karcher lp Ls).eucGrad (γ t) ((karcher lp Ls).f (γ t)).2 = (1 / (K : ℝ)) • ∑ i, (Ls i)⁻¹ᵀ *
      spec (fun s => Real.log s * s⁻¹) ((f lp Ls (γ t)).2.val i) ((f lp Ls (γ t)).2.vec i) * (Ls i)⁻¹ := by
    show eucGrad lp Ls (f lp Ls (γ t)).2 = _
    rw [grad_eq ok hLs (hγ t), Finset.sum_mul]
    simp only [grad_term ok hLs (hγ t)]
  refine ⟨?_, ?_⟩
  · have hd := HasDerivAt.fun_sum (u := Finset.univ) fun i _ => (logs_deriv ok hLs hγ h i).frob (logs_deriv ok hLs hγ h i)
    refine (hd.div_const (2 * K)).congr_deriv ?_
    rw [hg, frob_smul_left]
    have hs : ∀ (g : Fin K → Matrix (Fin N) (Fin N) ℝ), frob (∑ i, g i) ξ = ∑ i, frob (g i) ξ := by
      intro g
      refine map_sum (AddMonoidHom.mk' (fun A => frob A ξ) fun A B => frob_add_left A B ξ) g Finset.univ
    rw [hs, Finset.mul_sum, Finset.sum_div]
    refine Finset.sum_congr rfl fun i _ => ?_
    obtain ⟨hV, hM, hp, hl⟩ := (fields ok hLs (hγ t)).2 i
    rw [hl]
    generalize (f lp Ls (γ t)).2.val i = w at *
    generalize (f lp Ls (γ t)).2.vec i = V at *
    have hD : ∀ (a : Fin N → ℝ) (B : Matrix (Fin N) (Fin N) ℝ), frob (diagonal a) B = ∑ j, a j * B j j := by
      intro a B
      simp only [frob]
      refine Finset.sum_congr rfl fun j _ => ?_
      rw [Finset.sum_eq_single j]
      · rw [diagonal_apply_eq]
      · intro b _ hb; rw [diagonal_apply_ne _ (Ne.symm hb), zero_mul]
      · simp
    have h1 : ∀ B : Matrix (Fin N) (Fin N) ℝ, frob (spec Real.log w V) (V * B * Vᵀ) = ∑ j, Real.log (w j) * B j j := by
      intro B
      rw [spec, frob_mul_right, transpose_transpose, frob_mul_left, show Vᵀ * (V * B * Vᵀ * V) = (Vᵀ * V) * B * (Vᵀ * V) by simp only [Matrix.mul_assoc],
        hV, Matrix.one_mul, Matrix.mul_one, hD]
    rw [frob_comm (V * _ * Vᵀ), h1]
    have h2 : frob ((Ls i)⁻¹ᵀ * spec (fun s => Real.log s * s⁻¹) w V * (Ls i)⁻¹) ξ = ∑ j, Real.log (w j) * (w j)⁻¹ * (Vᵀ * rel (Ls i) ξ * V) j j := by
      rw [frob_mul_right, frob_mul_left, transpose_transpose, ← Matrix.mul_assoc, show (Ls i)⁻¹ * ξ * ((Ls i)⁻¹)ᵀ = rel (Ls i) ξ from rfl,
        spec, frob_mul_right, transpose_transpose, frob_mul_left, ← Matrix.mul_assoc, hD]
    rw [h2]
    have h3 : ∀ j, table w j j = (w j)⁻¹ := by intro j; simp [table]
    simp only [of_apply, h3]
    have h4 : ∀ j, Real.log (w j) * ((Vᵀ * rel (Ls i) ξ * V) j j * (w j)⁻¹) = Real.log (w j) * (w j)⁻¹ * (Vᵀ * rel (Ls i) ξ * V) j j := by
      intro j; ring
    simp only [h4]
    ring
  · rw [hg, transpose_smul, transpose_sum]
    congr 1
    refine Finset.sum_congr rfl fun i _ => ?_
    rw [transpose_mul, transpose_mul, spec_transpose, transpose_transpose, Matrix.mul_assoc]

/-- The coded action of the Hessian is the derivative of the coded gradient along every differentiable curve of positive definite matrices. -/
theorem C98_hessian {lp : Lapack N F} (ok : Ok lp) {Ls : Fin K → Matrix (Fin N) (Fin N) ℝ} (hLs : ∀ i, IsFactor (Ls i))
    {γ : ℝ → Matrix (Fin N) (Fin N) ℝ} {ξ : Matrix (Fin N) (Fin N) ℝ} {t : ℝ} (hγ : ∀ s, (γ s).PosDef) (h : ED γ ξ t) :
    ED (fun s => (karcher lp Ls).eucGrad (γ s) ((karcher lp Ls).f (γ s)).2) ((karcher lp Ls).eucHess (γ t) ((karcher lp Ls).f (γ t)).2 ξ) t := by
  have e : (fun s => (karcher lp Ls).eucGrad (γ s) ((karcher lp Ls).f (γ s)).2) =
      fun s => (1 / (K : ℝ)) • ((∑ i, (Ls i)⁻¹ᵀ * ((f lp Ls (γ s)).2.logs i * (Ls i)ᵀ)) * (γ s)⁻¹) := funext fun s => grad_eq ok hLs (hγ s)
  rw [e]
  have hi := h.inv fun s => posDef_unit (hγ s)
  have hsum := ED_sum fun i : Fin K => ((logs_deriv ok hLs hγ h i).mul_const (Ls i)ᵀ).const_mul (Ls i)⁻¹ᵀ
  refine ((hsum.mul hi).smul (1 / (K : ℝ))).congr ?_
  show _ = eucHess lp Ls (γ t) (f lp Ls (γ t)).2 (eucGrad lp Ls (f lp Ls (γ t)).2) ξ
  have hu := posDef_unit (hγ t)
  unfold eucHess
  refine ((C94_divisions.1 lp.getrf lp.getrs ok.getrs (γ t) hu).2 _ _).mp ?_
  rw [Matrix.smul_mul, Matrix.add_mul, Matrix.mul_assoc _ (γ t)⁻¹, nonsing_inv_mul _ hu, Matrix.mul_one, Matrix.mul_neg, Matrix.neg_mul,
    ← Matrix.mul_assoc, ← Matrix.mul_assoc, Matrix.mul_assoc _ (γ t)⁻¹ (γ t), nonsing_inv_mul _ hu, Matrix.mul_one, smul_add, smul_neg,
    ← sub_eq_add_neg]
  congr 1
  · congr 1
    refine Finset.sum_congr rfl fun i _ => ?_
    simp only [tri_N ok (hLs i), tri_T ok (hLs i)]
    have : (Ls i)⁻¹ * ((Ls i)⁻¹ * ξᵀ)ᵀ = rel (Ls i) ξ := by
      rw [transpose_mul, transpose_transpose, rel, Matrix.mul_assoc]
    rw [this]
    simp only [Matrix.mul_assoc]
  · rw [grad_eq ok hLs (hγ t), Matrix.smul_mul]

/-! ## Concrete cases -/

/-- Every positive definite matrix has a Cholesky factor. -/
theorem chol_exists {S : Matrix (Fin N) (Fin N) ℝ} (h : S.PosDef) : ∃ L : Matrix (Fin N) (Fin N) ℝ, (∀ i j, i < j → L i j = 0) ∧ L * Lᵀ = S := by
  have hd : ∀ i, 0 ≤ LDL.diagEntries h i := by
    have h1 : (LDL.diag h).PosSemidef := by
      rw [LDL.diag_eq_lowerInv_conj h]
      exact h.posSemidef.mul_mul_conjTranspose_same _
    intro i
    have := h1.diag_nonneg (i := i)
    simpa [LDL.diag] using this
  refine ⟨LDL.lower h * diagonal fun i => √(LDL.diagEntries h i), fun i j hij => ?_, ?_⟩
  · have h1 : BlockTriangular (LDL.lowerInv h) OrderDual.toDual := fun a b hab => LDL.lowerInv_triangular h hab
    have h2 := blockTriangular_inv_of_blockTriangular h1
    have h3 : LDL.lower h i j = 0 := h2 hij
    rw [mul_diagonal, h3, zero_mul]
  · rw [transpose_mul, diagonal_transpose, Matrix.mul_assoc, ← Matrix.mul_assoc (diagonal _), diagonal_mul_diagonal]
    conv_rhs => rw [← LDL.lower_conj_diag h]
    simp only [LDL.diag, conjTranspose_eq_transpose_of_trivial, Matrix.mul_assoc, fun i => Real.mul_self_sqrt (hd i)]

open Classical in
/-- Routines that meet the specification exist, for every size. -/
theorem ok_exists (N : ℕ) : ∃ lp : Lapack N (Matrix (Fin N) (Fin N) ℝ), Ok lp := by
  obtain ⟨syev, h1⟩ := syev_exists (𝕜 := ℝ) N
  obtain ⟨getrs, h2⟩ := getrs_exists (𝕜 := ℝ) N N
  obtain ⟨trtrs, h3⟩ := trtrs_exists (𝕜 := ℝ) N N
  refine ⟨⟨fun S => if h : S.PosDef then (chol_exists h).choose else 0, trtrs, syev, id, getrs⟩, ⟨fun S h => ?_, fun S h => ?_, h3, h1, h2⟩⟩
  · simpa only [h, dif_pos] using (chol_exists h).choose_spec.1
  · simpa only [h, dif_pos] using (chol_exists h).choose_spec.2

/-- Two data matrices of order two that do not commute, and the exponential curve `diag(e^s, 1)` through the identity. -/
example : ∃ lp : Lapack 2 (Matrix (Fin 2) (Fin 2) ℝ), HasDerivAt (fun s : ℝ => ((karcher lp ![!![1, 0; 1, 1], !![2, 0; 0, 1]]).f (!![Real.exp s, 0; 0, 1])).1)
    (frob ((karcher lp ![!![1, 0; 1, 1], !![2, 0; 0, 1]]).eucGrad !![Real.exp 0, 0; 0, 1]
      ((karcher lp ![!![1, 0; 1, 1], !![2, 0; 0, 1]]).f !![Real.exp 0, 0; 0, 1]).2) !![Real.exp 0, 0; 0, 0]) 0 := by
  obtain ⟨lp, ok⟩ := ok_exists 2
  refine ⟨lp, (C98_gradient ok (γ := fun s => !![Real.exp s, 0; 0, 1]) (ξ := !![Real.exp 0, 0; 0, 0]) ?_ ?_ ?_).1⟩
  · intro i
    fin_cases i <;> refine ⟨fun a b hab => ?_, fun a => ?_⟩
    · fin_cases a <;> fin_cases b <;> simp at hab ⊢
    · fin_cases a <;> simp
    · fin_cases a <;> fin_cases b <;> simp at hab ⊢
    · fin_cases a <;> simp
  · intro s
    have : !![Real.exp s, 0; 0, 1] = diagonal ![Real.exp s, 1] := by ext i j; fin_cases i <;> fin_cases j <;> simp
    rw [this, posDef_diagonal_iff]
    intro i; fin_cases i <;> simp [Real.exp_pos]
  · intro i j
    fin_cases i <;> fin_cases j <;> simp [hasDerivAt_const]
    simpa using Real.hasDerivAt_exp 0

end Verif.Karcher
