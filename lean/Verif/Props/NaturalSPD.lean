import Verif.Props.NaturalTRMat
import Verif.Props.NaturalRay
import Verif.Props.SPD
import Verif.Props.Karcher
import Verif.Solver.ObjectSPD

/-!
# Runs on the positive definite matrices are affine invariant (C136)

Replacing every matrix `x` by `A x Aᵀ`, and the objective accordingly, does not change the run of a solver.
-/

set_option linter.unusedSectionVars false

namespace Verif.Obj

open Matrix Verif.Mat Verif.SPD Verif.Intr Verif.Curve

variable {n : ℕ}

/-! ## Specification -/

/-- Lower triangular with positive diagonal. -/
def IsLowerPos (L : Matrix (Fin n) (Fin n) ℝ) : Prop := (∀ i j, i < j → L i j = 0) ∧ ∀ i, 0 < L i i

/-- Specification of `potrf`. -/
def IsCholesky (chol : Matrix (Fin n) (Fin n) ℝ → Matrix (Fin n) (Fin n) ℝ) : Prop := ∀ x, Spd x → IsLowerPos (chol x) ∧ x = chol x * (chol x)ᵀ

/-- `G` is the gradient of `f` on the positive definite matrices: a symmetric matrix that gives the derivative along every differentiable curve. -/
def IsSPDGrad (f : Matrix (Fin n) (Fin n) ℝ → ℝ) (G : Matrix (Fin n) (Fin n) ℝ → Matrix (Fin n) (Fin n) ℝ) : Prop :=
  ∀ γ ξ, (∀ s, Spd (γ s)) → ED γ ξ 0 → (G (γ 0))ᵀ = G (γ 0) ∧ HasDerivAt (fun s => f (γ s)) (frob (G (γ 0)) ξ) 0

/-- `H` is the derivative of `G` along every differentiable curve of positive definite matrices. -/
def IsSPDHess (G : Matrix (Fin n) (Fin n) ℝ → Matrix (Fin n) (Fin n) ℝ) (H : Matrix (Fin n) (Fin n) ℝ → Matrix (Fin n) (Fin n) ℝ → Matrix (Fin n) (Fin n) ℝ) : Prop :=
  ∀ γ ξ, (∀ s, Spd (γ s)) → ED γ ξ 0 → ED (fun s => G (γ s)) (H (γ 0) ξ) 0

/-- The point `x'` is the congruent of `x`. -/
def Congr (A x x' : Matrix (Fin n) (Fin n) ℝ) : Prop := Spd x ∧ x' = A * x * Aᵀ

/-- The coordinates `c` and `c'` belong to a symmetric matrix and its congruent. -/
def CongrIntr (chol : Matrix (Fin n) (Fin n) ℝ → Matrix (Fin n) (Fin n) ℝ) (A x x' : Matrix (Fin n) (Fin n) ℝ) (c c' : List ℝ) : Prop :=
  ∃ v, vᵀ = v ∧ c = spdIntrAF (chol x) v ∧ c' = spdIntrAF (chol x') (A * v * Aᵀ)

/-! ## Helper lemmas -/

theorem IsLowerPos.det {L : Matrix (Fin n) (Fin n) ℝ} (h : IsLowerPos L) : L.det ≠ 0 := by
  rw [det_of_isLowerTriangular]
  · exact Finset.prod_ne_zero_iff.mpr fun i _ => (h.2 i).ne'
  · intro i j hij
    exact h.1 _ _ hij

theorem IsCholesky.chol {chol : Matrix (Fin n) (Fin n) ℝ → Matrix (Fin n) (Fin n) ℝ} (h : IsCholesky chol) {x : Matrix (Fin n) (Fin n) ℝ} (hx : Spd x) : IsChol x (chol x) :=
  ⟨(h x hx).1.det, (h x hx).2⟩

/-- The Cholesky factor is unique. -/
theorem lowerPos_unique {L M : Matrix (Fin n) (Fin n) ℝ} (hL : IsLowerPos L) (hM : IsLowerPos M) (h : L * Lᵀ = M * Mᵀ) : L = M := by
  have uM := isUnit_iff_ne_zero.mpr hM.det
  have m1 : M⁻¹ * M = 1 := nonsing_inv_mul M uM
  have m2 : Mᵀ * (M⁻¹)ᵀ = 1 := by rw [← transpose_mul, m1, transpose_one]
  have m3 : (M⁻¹)ᵀ * Mᵀ = 1 := by rw [← transpose_mul, mul_nonsing_inv M uM, transpose_one]
  have e := Stiefel.qf_unique (n := Fin n) (y₁ := (1 : Matrix (Fin n) (Fin n) ℝ)) (y₂ := Lᵀ * (M⁻¹)ᵀ) (R₁ := Lᵀ) (R₂ := Mᵀ) (by simp) ?_ (fun i j hij => hL.1 j i hij) (fun i j hij => hM.1 j i hij) hL.2 hM.2 ?_
  · have := congrArg transpose e.2
    simpa using this
  · rw [transpose_mul, transpose_transpose, transpose_transpose]
    calc M⁻¹ * L * (Lᵀ * (M⁻¹)ᵀ) = M⁻¹ * (L * Lᵀ) * (M⁻¹)ᵀ := by simp only [Matrix.mul_assoc]
      _ = M⁻¹ * M * (Mᵀ * (M⁻¹)ᵀ) := by rw [h]; simp only [Matrix.mul_assoc]
      _ = 1 := by rw [m1, m2, Matrix.one_mul]
  · rw [Matrix.one_mul, Matrix.mul_assoc, m3, Matrix.mul_one]

theorem spd_congr {A x : Matrix (Fin n) (Fin n) ℝ} (hA : A.det ≠ 0) (hx : Spd x) : Spd (A * x * Aᵀ) := by
  refine ⟨by simp only [transpose_mul, transpose_transpose, hx.1, Matrix.mul_assoc], fun v hv => ?_⟩
  have e : v ⬝ᵥ (A * x * Aᵀ) *ᵥ v = (Aᵀ *ᵥ v) ⬝ᵥ x *ᵥ (Aᵀ *ᵥ v) := by
    rw [Matrix.mul_assoc, ← mulVec_mulVec, ← mulVec_mulVec, dotProduct_mulVec, ← mulVec_transpose]
  rw [e]
  refine hx.2 _ fun h0 => hv ?_
  have hu : IsUnit Aᵀ.det := by rw [det_transpose]; exact isUnit_iff_ne_zero.mpr hA
  have := congrArg (fun w => (Aᵀ)⁻¹ *ᵥ w) h0
  simpa [mulVec_mulVec, nonsing_inv_mul _ hu] using this

theorem spd_unit {x : Matrix (Fin n) (Fin n) ℝ} (hx : Spd x) : IsUnit x.det := by
  rw [isUnit_iff_ne_zero]
  intro h0
  obtain ⟨v, hv, hv0⟩ := exists_mulVec_eq_zero_iff.mpr h0
  have := hx.2 v hv
  rw [hv0, dotProduct_zero] at this
  exact lt_irrefl _ this

theorem sym_congr {A v : Matrix (Fin n) (Fin n) ℝ} (hv : vᵀ = v) : (A * v * Aᵀ)ᵀ = A * v * Aᵀ := by
  simp only [transpose_mul, transpose_transpose, hv, Matrix.mul_assoc]

theorem congr_inv {A x : Matrix (Fin n) (Fin n) ℝ} : (A * x * Aᵀ)⁻¹ = (A⁻¹)ᵀ * x⁻¹ * A⁻¹ := by
  rw [Matrix.mul_inv_rev, Matrix.mul_inv_rev, transpose_nonsing_inv, ← Matrix.mul_assoc]

variable {A : Matrix (Fin n) (Fin n) ℝ}

theorem inv_cancel (hA : A.det ≠ 0) (M : Matrix (Fin n) (Fin n) ℝ) : A⁻¹ * (A * M) = M := by
  rw [← Matrix.mul_assoc, nonsing_inv_mul A (isUnit_iff_ne_zero.mpr hA), Matrix.one_mul]

theorem inv_cancel' (hA : A.det ≠ 0) (M : Matrix (Fin n) (Fin n) ℝ) : A * (A⁻¹ * M) = M := by
  rw [← Matrix.mul_assoc, mul_nonsing_inv A (isUnit_iff_ne_zero.mpr hA), Matrix.one_mul]

theorem tinv_cancel (hA : A.det ≠ 0) (M : Matrix (Fin n) (Fin n) ℝ) : Aᵀ * ((A⁻¹)ᵀ * M) = M := by
  rw [← Matrix.mul_assoc, ← transpose_mul, nonsing_inv_mul A (isUnit_iff_ne_zero.mpr hA), transpose_one, Matrix.one_mul]

theorem metric_congr (hA : A.det ≠ 0) (x v w : Matrix (Fin n) (Fin n) ℝ) : metricAF (A * x * Aᵀ) (A * v * Aᵀ) (A * w * Aᵀ) = metricAF x v w := by
  unfold metricAF
  rw [congr_inv]
  have e : (A⁻¹)ᵀ * x⁻¹ * A⁻¹ * (A * v * Aᵀ) * ((A⁻¹)ᵀ * x⁻¹ * A⁻¹) = (A⁻¹)ᵀ * (x⁻¹ * v * x⁻¹) * A⁻¹ := by
    simp only [Matrix.mul_assoc, inv_cancel hA, tinv_cancel hA]
  rw [e, frob_mul_right, frob_mul_left, transpose_transpose]
  congr 1
  simp only [Matrix.mul_assoc, inv_cancel hA]
  rw [← transpose_mul, nonsing_inv_mul A (isUnit_iff_ne_zero.mpr hA), transpose_one, Matrix.mul_one]

theorem secOrd_congr {chol : Matrix (Fin n) (Fin n) ℝ → Matrix (Fin n) (Fin n) ℝ} (hc : IsCholesky chol) (hA : A.det ≠ 0) {x v : Matrix (Fin n) (Fin n) ℝ} (hx : Spd x) (hv : vᵀ = v) :
    Spd (secOrd (chol x) x v) ∧ secOrd (chol (A * x * Aᵀ)) (A * x * Aᵀ) (A * v * Aᵀ) = A * secOrd (chol x) x v * Aᵀ := by
  have h1 := C38_second_order (hc.chol hx) hv
  have h2 := C38_second_order (hc.chol (spd_congr hA hx)) (sym_congr (A := A) hv)
  refine ⟨h1.1, ?_⟩
  rw [h2.2.1, h1.2.1, congr_inv]
  have e : A * v * Aᵀ * ((A⁻¹)ᵀ * x⁻¹ * A⁻¹) * (A * v * Aᵀ) = A * (v * x⁻¹ * v) * Aᵀ := by
    simp only [Matrix.mul_assoc, inv_cancel hA, tinv_cancel hA]
  rw [e, Matrix.mul_add, Matrix.mul_add, Matrix.add_mul, Matrix.add_mul, Matrix.mul_smul, Matrix.smul_mul]

/-- A curve of positive definite matrices through `x` with direction `v`. -/
theorem exists_curve {chol : Matrix (Fin n) (Fin n) ℝ → Matrix (Fin n) (Fin n) ℝ} (hc : IsCholesky chol) {x v : Matrix (Fin n) (Fin n) ℝ} (hx : Spd x) (hv : vᵀ = v) :
    ∃ γ : ℝ → Matrix (Fin n) (Fin n) ℝ, (∀ s, Spd (γ s)) ∧ γ 0 = x ∧ ED γ v 0 := by
  refine ⟨fun s => secOrd (chol x) x (s • v), fun s => (C38_second_order (hc.chol hx) (by rw [transpose_smul, hv])).1, ?_, ?_⟩
  · show secOrd (chol x) x ((0 : ℝ) • v) = x
    rw [zero_smul]
    exact (C38_second_order (hc.chol hx) hv).2.2
  · intro i j
    have h := C62_spd_second_order (hc.chol hx) (transpose_zero : (0 : Matrix (Fin n) (Fin n) ℝ)ᵀ = 0) hv i j
    have e1 : diffSecOrd (chol x) 0 v i j = v i j := by
      simp only [diffSecOrd]
      rw [Matrix.mul_zero, transpose_zero, Matrix.zero_mul, symInPlace_eq]
      simp [Stiefel.sym]
    rw [e1] at h
    simpa only [zero_add] using h

theorem ED_congr {γ : ℝ → Matrix (Fin n) (Fin n) ℝ} {v : Matrix (Fin n) (Fin n) ℝ} (h : ED γ v 0) : ED (fun s => A * γ s * Aᵀ) (A * v * Aᵀ) 0 := (h.const_mul A).mul_const Aᵀ

/-- A symmetric matrix is determined by its products with symmetric matrices. -/
theorem sym_ext {M N : Matrix (Fin n) (Fin n) ℝ} (hM : Mᵀ = M) (hN : Nᵀ = N) (h : ∀ v : Matrix (Fin n) (Fin n) ℝ, vᵀ = v → frob M v = frob N v) : M = N := by
  have h1 := h (M - N) (by rw [transpose_sub, hM, hN])
  have h2 : frob (M - N) (M - N) = 0 := by rw [frob_sub_left, h1, sub_self]
  exact sub_eq_zero.mp (frob_self_eq_zero.mp h2)

variable {chol : Matrix (Fin n) (Fin n) ℝ → Matrix (Fin n) (Fin n) ℝ} {f f' : Matrix (Fin n) (Fin n) ℝ → ℝ} {G G' : Matrix (Fin n) (Fin n) ℝ → Matrix (Fin n) (Fin n) ℝ}
  {H H' : Matrix (Fin n) (Fin n) ℝ → Matrix (Fin n) (Fin n) ℝ → Matrix (Fin n) (Fin n) ℝ}

theorem IsSPDGrad.sym (hc : IsCholesky chol) (h : IsSPDGrad f G) {x : Matrix (Fin n) (Fin n) ℝ} (hx : Spd x) : (G x)ᵀ = G x := by
  obtain ⟨γ, h1, h2, h3⟩ := exists_curve hc hx (transpose_zero)
  have := (h γ 0 h1 h3).1
  rwa [h2] at this

/-- The gradient of the transformed objective. -/
theorem egrad_congr (hc : IsCholesky chol) (hA : A.det ≠ 0) (hG : IsSPDGrad f G) (hG' : IsSPDGrad f' G') (hf : ∀ x, Spd x → f' (A * x * Aᵀ) = f x) {x : Matrix (Fin n) (Fin n) ℝ}
    (hx : Spd x) : Aᵀ * G' (A * x * Aᵀ) * A = G x := by
  have s1 := hG.sym hc hx
  have s2 := hG'.sym hc (spd_congr hA hx)
  refine sym_ext (by rw [transpose_mul, transpose_mul, transpose_transpose, s2, ← Matrix.mul_assoc]) s1 fun v hv => ?_
  obtain ⟨γ, h1, h2, h3⟩ := exists_curve hc hx hv
  have d1 := (hG γ v h1 h3).2
  have d2 := (hG' (fun s => A * γ s * Aᵀ) _ (fun s => spd_congr hA (h1 s)) (ED_congr h3)).2
  have e : (fun s => f' (A * γ s * Aᵀ)) = fun s => f (γ s) := funext fun s => hf _ (h1 s)
  rw [e] at d2
  have := d2.unique d1
  simp only [h2] at this
  rw [← this, frob_mul_right, frob_mul_left, transpose_transpose, Matrix.mul_assoc A v]

theorem egrad_congr' (hc : IsCholesky chol) (hA : A.det ≠ 0) (hG : IsSPDGrad f G) (hG' : IsSPDGrad f' G') (hf : ∀ x, Spd x → f' (A * x * Aᵀ) = f x) {x : Matrix (Fin n) (Fin n) ℝ}
    (hx : Spd x) : G' (A * x * Aᵀ) = (A⁻¹)ᵀ * G x * A⁻¹ := by
  rw [← egrad_congr hc hA hG hG' hf hx]
  have : (A⁻¹)ᵀ * (Aᵀ * G' (A * x * Aᵀ) * A) * A⁻¹ = (A * A⁻¹)ᵀ * G' (A * x * Aᵀ) * (A * A⁻¹) := by simp only [transpose_mul, Matrix.mul_assoc]
  rw [this, mul_nonsing_inv A (isUnit_iff_ne_zero.mpr hA), transpose_one, Matrix.one_mul, Matrix.mul_one]

theorem grad_congr (hc : IsCholesky chol) (hA : A.det ≠ 0) (hG : IsSPDGrad f G) (hG' : IsSPDGrad f' G') (hf : ∀ x, Spd x → f' (A * x * Aᵀ) = f x) {x : Matrix (Fin n) (Fin n) ℝ}
    (hx : Spd x) : (gradAF x (G x))ᵀ = gradAF x (G x) ∧ gradAF (A * x * Aᵀ) (G' (A * x * Aᵀ)) = A * gradAF x (G x) * Aᵀ := by
  refine ⟨((C66_spd_gradient_partial (hc.chol hx) _).2).mpr (hG.sym hc hx), ?_⟩
  rw [egrad_congr' hc hA hG hG' hf hx]
  unfold gradAF
  rw [(spd_congr hA hx).1, hx.1]
  simp only [Matrix.mul_assoc, inv_cancel hA, tinv_cancel hA]

theorem ehess_congr (hc : IsCholesky chol) (hA : A.det ≠ 0) (hG : IsSPDGrad f G) (hG' : IsSPDGrad f' G') (hH : IsSPDHess G H) (hH' : IsSPDHess G' H') (hf : ∀ x, Spd x → f' (A * x * Aᵀ) = f x)
    {x v : Matrix (Fin n) (Fin n) ℝ} (hx : Spd x) (hv : vᵀ = v) : (H x v)ᵀ = H x v ∧ H' (A * x * Aᵀ) (A * v * Aᵀ) = (A⁻¹)ᵀ * H x v * A⁻¹ := by
  obtain ⟨γ, h1, h2, h3⟩ := exists_curve hc hx hv
  have d1 := hH γ v h1 h3
  have d2 := hH' (fun s => A * γ s * Aᵀ) _ (fun s => spd_congr hA (h1 s)) (ED_congr h3)
  have e : (fun s => G' (A * γ s * Aᵀ)) = fun s => (A⁻¹)ᵀ * G (γ s) * A⁻¹ := funext fun s => egrad_congr' hc hA hG hG' hf (h1 s)
  simp only [h2] at d1 d2
  refine ⟨?_, ?_⟩
  · have d3 := d1.transpose
    have e2 : (fun s => (G (γ s))ᵀ) = fun s => G (γ s) := funext fun s => hG.sym hc (h1 s)
    rw [e2] at d3
    exact d3.unique d1
  · rw [e] at d2
    exact d2.unique ((d1.const_mul _).mul_const _)

theorem hessAF_congr (hc : IsCholesky chol) (hA : A.det ≠ 0) (hG : IsSPDGrad f G) (hG' : IsSPDGrad f' G') (hH : IsSPDHess G H) (hH' : IsSPDHess G' H') (hf : ∀ x, Spd x → f' (A * x * Aᵀ) = f x)
    {x v : Matrix (Fin n) (Fin n) ℝ} (hx : Spd x) (hv : vᵀ = v) :
    (hessAF x (G x) v (H x v))ᵀ = hessAF x (G x) v (H x v) ∧
    hessAF (A * x * Aᵀ) (G' (A * x * Aᵀ)) (A * v * Aᵀ) (H' (A * x * Aᵀ) (A * v * Aᵀ)) = A * hessAF x (G x) v (H x v) * Aᵀ := by
  obtain ⟨s, e⟩ := ehess_congr hc hA hG hG' hH hH' hf hx hv
  refine ⟨?_, ?_⟩
  · simp only [hessAF, transpose_add, transpose_smul, transpose_mul, transpose_transpose, s, hx.1, Matrix.mul_assoc]
    congr 2
    rw [add_comm]
  · rw [e, egrad_congr' hc hA hG hG' hf hx]
    simp only [hessAF]
    have e1 : A * x * Aᵀ * ((A⁻¹)ᵀ * G x * A⁻¹) * (A * v * Aᵀ) = A * (x * G x * v) * Aᵀ := by
      simp only [Matrix.mul_assoc, inv_cancel hA, tinv_cancel hA]
    have e2 : A * x * Aᵀ * ((A⁻¹)ᵀ * H x v * A⁻¹) * (A * x * Aᵀ) = A * (x * H x v * x) * Aᵀ := by
      simp only [Matrix.mul_assoc, inv_cancel hA, tinv_cancel hA]
    rw [e1, e2]
    have e3 : (A * (x * G x * v) * Aᵀ)ᵀ = A * (x * G x * v)ᵀ * Aᵀ := by simp only [transpose_mul, transpose_transpose, Matrix.mul_assoc]
    rw [e3, Matrix.mul_add, Matrix.add_mul, Matrix.mul_smul, Matrix.smul_mul, Matrix.mul_add, Matrix.add_mul]

theorem diffSecOrd_eq {x L η ξ : Matrix (Fin n) (Fin n) ℝ} (h : IsChol x L) (hη : ηᵀ = η) (hξ : ξᵀ = ξ) :
    diffSecOrd L η ξ = (1 / 2 : ℝ) • (η * x⁻¹ * ξ + ξ * x⁻¹ * η) + ξ := by
  simp only [diffSecOrd]
  rw [symInPlace_eq]
  have : (L⁻¹ * η)ᵀ * (L⁻¹ * ξ) = η * x⁻¹ * ξ := by rw [transpose_mul, hη, h.inv]; simp only [Matrix.mul_assoc]
  rw [this]
  simp only [Stiefel.sym, transpose_mul, hη, hξ, transpose_nonsing_inv, h.sym, Matrix.mul_assoc]

theorem diffSecOrd_congr (hc : IsCholesky chol) (hA : A.det ≠ 0) {x v w : Matrix (Fin n) (Fin n) ℝ} (hx : Spd x) (hv : vᵀ = v) (hw : wᵀ = w) :
    diffSecOrd (chol (A * x * Aᵀ)) (A * v * Aᵀ) (A * w * Aᵀ) = A * diffSecOrd (chol x) v w * Aᵀ := by
  rw [diffSecOrd_eq (hc.chol hx) hv hw, diffSecOrd_eq (hc.chol (spd_congr hA hx)) (sym_congr hv) (sym_congr hw), congr_inv]
  have e : ∀ v w : Matrix (Fin n) (Fin n) ℝ, A * v * Aᵀ * ((A⁻¹)ᵀ * x⁻¹ * A⁻¹) * (A * w * Aᵀ) = A * (v * x⁻¹ * w) * Aᵀ := fun v w => by
    simp only [Matrix.mul_assoc, inv_cancel hA, tinv_cancel hA]
  rw [e, e, Matrix.mul_add, Matrix.add_mul, Matrix.mul_smul, Matrix.smul_mul, Matrix.mul_add, Matrix.add_mul]

theorem symIntr_flat_lin (a b : ℝ) (v w : Matrix (Fin n) (Fin n) ℝ) :
    symIntr n (flat (a • v + b • w)) = List.zipWith (fun s t => a * s + b * t) (symIntr n (flat v)) (symIntr n (flat w)) := by
  unfold symIntr
  rw [List.zipWith_append (by rw [List.length_map, List.length_map]), zip_map, zip_map]
  simp only [flat_lin]
  congr 1
  refine List.map_congr_left fun q _ => ?_
  ring

theorem spdIntrAF_lin (L : Matrix (Fin n) (Fin n) ℝ) (a b : ℝ) (v w : Matrix (Fin n) (Fin n) ℝ) :
    spdIntrAF L (a • v + b • w) = List.zipWith (fun s t => a * s + b * t) (spdIntrAF L v) (spdIntrAF L w) := by
  unfold spdIntrAF
  rw [← symIntr_flat_lin]
  congr 2
  rw [Matrix.mul_add, Matrix.mul_smul, Matrix.mul_smul, transpose_add, transpose_smul, transpose_smul, Matrix.mul_add, Matrix.mul_smul, Matrix.mul_smul]

theorem spdIntrAF_axpy (L : Matrix (Fin n) (Fin n) ℝ) (a : ℝ) (v w : Matrix (Fin n) (Fin n) ℝ) :
    spdIntrAF L (a • v + w) = List.zipWith (fun s t => a * s + t) (spdIntrAF L v) (spdIntrAF L w) := by
  have h := spdIntrAF_lin L a 1 v w
  rw [one_smul] at h
  rw [h]
  simp only [one_mul]

theorem spdIntrAF_smul (L : Matrix (Fin n) (Fin n) ℝ) (a : ℝ) (v : Matrix (Fin n) (Fin n) ℝ) : spdIntrAF L (a • v) = (spdIntrAF L v).map (a * ·) := by
  have h := spdIntrAF_lin L a 0 v v
  rw [zero_smul, add_zero, zip_self] at h
  rw [h]
  refine List.map_congr_left fun q _ => ?_
  ring

theorem sym_lin (a b : ℝ) {v w : Matrix (Fin n) (Fin n) ℝ} (hv : vᵀ = v) (hw : wᵀ = w) : (a • v + b • w)ᵀ = a • v + b • w := by
  rw [transpose_add, transpose_smul, transpose_smul, hv, hw]

theorem sym_smul (a : ℝ) {v : Matrix (Fin n) (Fin n) ℝ} (hv : vᵀ = v) : (a • v)ᵀ = a • v := by rw [transpose_smul, hv]

theorem congr_lin (a b : ℝ) (v w : Matrix (Fin n) (Fin n) ℝ) : A * (a • v + b • w) * Aᵀ = a • (A * v * Aᵀ) + b • (A * w * Aᵀ) := by
  rw [Matrix.mul_add, Matrix.add_mul, Matrix.mul_smul, Matrix.mul_smul, Matrix.smul_mul, Matrix.smul_mul]

theorem congr_smul (a : ℝ) (v : Matrix (Fin n) (Fin n) ℝ) : A * (a • v) * Aᵀ = a • (A * v * Aᵀ) := by rw [Matrix.mul_smul, Matrix.smul_mul]

theorem extr_intr (hc : IsCholesky chol) (junk : ℕ → ℝ) {x v : Matrix (Fin n) (Fin n) ℝ} (hx : Spd x) (hv : vᵀ = v) : spdExtrAF junk (chol x) (spdIntrAF (chol x) v) = v :=
  (C37_spd_af (hc.chol hx).det (hc.chol hx).eq junk).1 v hv

theorem dot_intr (hc : IsCholesky chol) {x v w : Matrix (Fin n) (Fin n) ℝ} (hx : Spd x) (hv : vᵀ = v) (hw : wᵀ = w) :
    dot (spdIntrAF (chol x) v) (spdIntrAF (chol x) w) = metricAF x v w := by
  rw [(C37_spd_af (hc.chol hx).det (hc.chol hx).eq (fun _ => 0)).2.2 v w hv hw, metricAF, frob_eq_trace]
  have hxi : (x⁻¹)ᵀ = x⁻¹ := by rw [transpose_nonsing_inv, hx.1]
  simp only [transpose_mul, hv, hxi, Matrix.mul_assoc]

/-! ## Correspondences -/

/-- Coordinates and matrices. -/
theorem spd_corr (junk : ℕ → ℝ) (hc : IsCholesky chol) (f : Matrix (Fin n) (Fin n) ℝ → ℝ) (hG : ∀ x, Spd x → (G x)ᵀ = G x) :
    Corr (spdExtrEnv junk chol f G) (spdIntrEnv junk chol f G) (fun x x' => Spd x ∧ x' = x) (fun x _ v c => vᵀ = v ∧ c = spdIntrAF (chol x) v) where
  lit := rfl
  lt := rfl
  le := rfl
  eq := rfl
  sqrt := rfl
  abs := rfl
  finite := rfl
  inf := rfl
  eps := rfl
  f := by rintro _ x ⟨_, rfl⟩; rfl
  grad := by
    rintro _ x ⟨hx, rfl⟩
    exact ⟨((C66_spd_gradient_partial (hc.chol hx) _).2).mpr (hG _ hx), rfl⟩
  precond := fun _ _ _ _ _ h => h
  metric := by
    rintro _ x v _ w _ ⟨hx, rfl⟩ ⟨hv, rfl⟩ ⟨hw, rfl⟩
    exact dot_intr hc hx hv hw
  retr := by
    rintro _ x v _ ⟨hx, rfl⟩ ⟨hv, rfl⟩
    refine ⟨(C38_second_order (hc.chol hx) hv).1, ?_⟩
    show secOrd _ _ (spdExtrAF junk (chol x) (spdIntrAF (chol x) v)) = _
    rw [extr_intr hc junk hx hv]
    rfl
  smul := by
    rintro _ x a v _ ⟨hx, rfl⟩ ⟨hv, rfl⟩
    exact ⟨sym_smul a hv, (spdIntrAF_smul _ _ _).symm⟩
  lin := by
    rintro _ x a b v _ w _ ⟨hx, rfl⟩ ⟨hv, rfl⟩ ⟨hw, rfl⟩
    exact ⟨sym_lin a b hv hw, (spdIntrAF_lin _ _ _ _ _).symm⟩

theorem spd_trans (junk : ℕ → ℝ) (hc : IsCholesky chol) (f : Matrix (Fin n) (Fin n) ℝ → ℝ) (G : Matrix (Fin n) (Fin n) ℝ → Matrix (Fin n) (Fin n) ℝ) :
    TransCorr (spdExtrEnv junk chol f G) (spdIntrEnv junk chol f G) (fun x x' => Spd x ∧ x' = x) (fun x _ v c => vᵀ = v ∧ c = spdIntrAF (chol x) v) := by
  rintro _ x v _ w _ ⟨hx, rfl⟩ ⟨hv, rfl⟩ ⟨hw, rfl⟩
  have hy := (C38_second_order (hc.chol hx) hv).1
  have h := (C37_spd_af (hc.chol hy).det (hc.chol hy).eq junk).2.1 (spdIntrAF (chol x) w) (C37_spd_dim _ _).1
  exact ⟨h.2, h.1.symm⟩

/-- The slope in coordinates. -/
theorem slope_intr (junk : ℕ → ℝ) (hc : IsCholesky chol) (f : Matrix (Fin n) (Fin n) ℝ → ℝ) (hG : ∀ x, Spd x → (G x)ᵀ = G x) {x v w : Matrix (Fin n) (Fin n) ℝ} (hx : Spd x) (hv : vᵀ = v)
    (hw : wᵀ = w) :
    (spdIntrEnv junk chol f G).metric ((spdIntrEnv junk chol f G).retr x (spdIntrAF (chol x) v))
        ((spdIntrEnv junk chol f G).grad ((spdIntrEnv junk chol f G).retr x (spdIntrAF (chol x) v)))
        ((spdIntrEnv junk chol f G).dretr x (spdIntrAF (chol x) v) ((spdIntrEnv junk chol f G).retr x (spdIntrAF (chol x) v)) (spdIntrAF (chol x) w)) =
      metricAF (secOrd (chol x) x v) (gradAF (secOrd (chol x) x v) (G (secOrd (chol x) x v))) (diffSecOrd (chol x) v w) := by
  have hy := (C38_second_order (hc.chol hx) hv).1
  have e : (spdIntrEnv junk chol f G).retr x (spdIntrAF (chol x) v) = secOrd (chol x) x v := by
    show secOrd (chol x) x (spdExtrAF junk (chol x) (spdIntrAF (chol x) v)) = _
    rw [extr_intr hc junk hx hv]
  rw [e]
  show dot (spdIntrAF (chol (secOrd (chol x) x v)) (gradAF (secOrd (chol x) x v) (G (secOrd (chol x) x v)))) (spdIntrAF (chol (secOrd (chol x) x v))
    (diffSecOrd (chol x) (spdExtrAF junk (chol x) (spdIntrAF (chol x) v)) (spdExtrAF junk (chol x) (spdIntrAF (chol x) w)))) = _
  rw [extr_intr hc junk hx hv, extr_intr hc junk hx hw]
  exact dot_intr hc hy (((C66_spd_gradient_partial (hc.chol hy) _).2).mpr (hG _ hy)) (C62_spd_tangent hw)

theorem spd_slope (junk : ℕ → ℝ) (hc : IsCholesky chol) (f : Matrix (Fin n) (Fin n) ℝ → ℝ) (hG : ∀ x, Spd x → (G x)ᵀ = G x) :
    SlopeCorr (spdExtrEnv junk chol f G) (spdIntrEnv junk chol f G) (fun x x' => Spd x ∧ x' = x) (fun x _ v c => vᵀ = v ∧ c = spdIntrAF (chol x) v) := by
  rintro _ x v _ w _ ⟨hx, rfl⟩ ⟨hv, rfl⟩ ⟨hw, rfl⟩
  exact slope_intr junk hc f hG hx hv hw

/-- Correspondences over the reals. -/
theorem realEnv_corr {X E X' E' : Type*} {f : X → ℝ} {g : X → E} {m : X → E → E → ℝ} {r : X → E → X} {d t : X → E → X → E → E} {s : ℝ → E → E} {l : ℝ → E → ℝ → E → E}
    {f' : X' → ℝ} {g' : X' → E'} {m' : X' → E' → E' → ℝ} {r' : X' → E' → X'} {d' t' : X' → E' → X' → E' → E'} {s' : ℝ → E' → E'} {l' : ℝ → E' → ℝ → E' → E'}
    {RX : X → X' → Prop} {RE : X → X' → E → E' → Prop} (hf : ∀ x x', RX x x' → f' x' = f x) (hg : ∀ x x', RX x x' → RE x x' (g x) (g' x'))
    (hm : ∀ x x' v v' w w', RX x x' → RE x x' v v' → RE x x' w w' → m' x' v' w' = m x v w) (hr : ∀ x x' v v', RX x x' → RE x x' v v' → RX (r x v) (r' x' v'))
    (hs : ∀ x x' c v v', RX x x' → RE x x' v v' → RE x x' (s c v) (s' c v'))
    (hl : ∀ x x' a b v v' w w', RX x x' → RE x x' v v' → RE x x' w w' → RE x x' (l a v b w) (l' a v' b w')) : Corr (realEnv f g m r d t s l) (realEnv f' g' m' r' d' t' s' l') RX RE where
  lit := rfl
  lt := rfl
  le := rfl
  eq := rfl
  sqrt := rfl
  abs := rfl
  finite := rfl
  inf := rfl
  eps := rfl
  f := hf
  grad := hg
  precond := fun _ _ _ _ _ h => h
  metric := hm
  retr := hr
  smul := hs
  lin := hl

/-- Congruence, in coordinates. -/
theorem affine_corr (junk : ℕ → ℝ) (hc : IsCholesky chol) (hA : A.det ≠ 0) (hG : IsSPDGrad f G) (hG' : IsSPDGrad f' G') (hf : ∀ x, Spd x → f' (A * x * Aᵀ) = f x) :
    Corr (spdIntrEnv junk chol f G) (spdIntrEnv junk chol f' G') (Congr A) (CongrIntr chol A) := by
  refine realEnv_corr ?_ ?_ ?_ ?_ ?_ ?_
  · rintro x _ ⟨hx, rfl⟩; exact hf x hx
  · rintro x _ ⟨hx, rfl⟩
    obtain ⟨h1, h2⟩ := grad_congr hc hA hG hG' hf hx
    exact ⟨gradAF x (G x), h1, rfl, by rw [h2]⟩
  · rintro x _ _ _ _ _ ⟨hx, rfl⟩ ⟨v, hv, rfl, rfl⟩ ⟨w, hw, rfl, rfl⟩
    rw [dot_intr hc hx hv hw, dot_intr hc (spd_congr hA hx) (sym_congr hv) (sym_congr hw), metric_congr hA]
  · rintro x _ _ _ ⟨hx, rfl⟩ ⟨v, hv, rfl, rfl⟩
    obtain ⟨h1, h2⟩ := secOrd_congr hc hA hx hv
    rw [extr_intr hc junk hx hv, extr_intr hc junk (spd_congr hA hx) (sym_congr hv)]
    exact ⟨h1, h2⟩
  · rintro x _ a _ _ ⟨hx, rfl⟩ ⟨v, hv, rfl, rfl⟩
    exact ⟨a • v, sym_smul a hv, (spdIntrAF_smul _ _ _).symm, by rw [congr_smul, spdIntrAF_smul]⟩
  · rintro x _ a b _ _ _ _ ⟨hx, rfl⟩ ⟨v, hv, rfl, rfl⟩ ⟨w, hw, rfl, rfl⟩
    exact ⟨a • v + b • w, sym_lin a b hv hw, (spdIntrAF_lin _ _ _ _ _).symm, by rw [congr_lin, spdIntrAF_lin]⟩

theorem affine_slope (junk : ℕ → ℝ) (hc : IsCholesky chol) (hA : A.det ≠ 0) (hG : IsSPDGrad f G) (hG' : IsSPDGrad f' G') (hf : ∀ x, Spd x → f' (A * x * Aᵀ) = f x) :
    SlopeCorr (spdIntrEnv junk chol f G) (spdIntrEnv junk chol f' G') (Congr A) (CongrIntr chol A) := by
  rintro x _ _ _ _ _ ⟨hx, rfl⟩ ⟨v, hv, rfl, rfl⟩ ⟨w, hw, rfl, rfl⟩
  have hx' := spd_congr hA hx
  obtain ⟨h1, h2⟩ := secOrd_congr hc hA hx hv
  obtain ⟨h3, h4⟩ := grad_congr hc hA hG hG' hf h1
  rw [slope_intr junk hc f (fun _ h => hG.sym hc h) hx hv hw, slope_intr junk hc f' (fun _ h => hG'.sym hc h) hx' (sym_congr hv) (sym_congr hw), h2, h4, diffSecOrd_congr hc hA hx hv hw, metric_congr hA]

theorem affineTR_corr (junk : ℕ → ℝ) (hc : IsCholesky chol) (hA : A.det ≠ 0) (hG : IsSPDGrad f G) (hG' : IsSPDGrad f' G') (hf : ∀ x, Spd x → f' (A * x * Aᵀ) = f x) (pw : ℝ → ℝ) :
    TRCorr (spdIntrTR junk chol f G pw) (spdIntrTR junk chol f' G' pw) (Congr A) (CongrIntr chol A) where
  toCorr := affine_corr junk hc hA hG hG' hf
  powtheta := rfl
  axpy := by
    rintro x _ a _ _ _ _ ⟨hx, rfl⟩ ⟨v, hv, rfl, rfl⟩ ⟨w, hw, rfl, rfl⟩
    refine ⟨a • v + w, by rw [transpose_add, transpose_smul, hv, hw], (spdIntrAF_axpy _ _ _ _).symm, ?_⟩
    show List.zipWith (fun s t => a * s + t) (spdIntrAF (chol (A * x * Aᵀ)) (A * v * Aᵀ)) (spdIntrAF (chol (A * x * Aᵀ)) (A * w * Aᵀ)) = _
    rw [Matrix.mul_add, Matrix.add_mul, congr_smul, spdIntrAF_axpy]
  proj := fun _ _ _ _ _ h => h

theorem affine_hess (junk : ℕ → ℝ) (hc : IsCholesky chol) (hA : A.det ≠ 0) (hG : IsSPDGrad f G) (hG' : IsSPDGrad f' G') (hH : IsSPDHess G H) (hH' : IsSPDHess G' H')
    (hf : ∀ x, Spd x → f' (A * x * Aᵀ) = f x) (x x' : Matrix (Fin n) (Fin n) ℝ) (c c' : List ℝ) (hX : Congr A x x') (hE : CongrIntr chol A x x' c c') :
    CongrIntr chol A x x' (spdIntrHess junk chol G H x c) (spdIntrHess junk chol G' H' x' c') := by
  obtain ⟨hx, rfl⟩ := hX
  obtain ⟨v, hv, rfl, rfl⟩ := hE
  obtain ⟨h1, h2⟩ := hessAF_congr hc hA hG hG' hH hH' hf hx hv
  refine ⟨hessAF x (G x) v (H x v), h1, ?_, ?_⟩
  · simp only [spdIntrHess]
    rw [extr_intr hc junk hx hv]
  · simp only [spdIntrHess]
    rw [extr_intr hc junk (spd_congr hA hx) (sym_congr hv), h2]

/-! ## Triangular congruences leave the coordinates alone -/

/-- The factor of a congruent matrix. -/
theorem chol_congr (hc : IsCholesky chol) (hA : IsLowerPos A) {x : Matrix (Fin n) (Fin n) ℝ} (hx : Spd x) : chol (A * x * Aᵀ) = A * chol x := by
  have h1 := hc x hx
  have h2 := hc _ (spd_congr hA.det hx)
  refine lowerPos_unique h2.1 ⟨fun i j hij => ?_, fun i => ?_⟩ ?_
  · rw [mul_apply]
    refine Finset.sum_eq_zero fun k _ => ?_
    rcases lt_or_ge i k with h | h
    · rw [hA.1 i k h, zero_mul]
    · rw [h1.1.1 k j (lt_of_le_of_lt h hij), mul_zero]
  · rw [mul_apply, Finset.sum_eq_single i]
    · exact mul_pos (hA.2 i) (h1.1.2 i)
    · intro k _ hk
      rcases lt_or_gt_of_ne hk with h | h
      · rw [h1.1.1 k i h, mul_zero]
      · rw [hA.1 i k h, zero_mul]
    · intro h
      exact absurd (Finset.mem_univ i) h
  · rw [← h2.2, transpose_mul]
    conv_lhs => rw [h1.2]
    simp only [Matrix.mul_assoc]

theorem intr_congr (hA : A.det ≠ 0) (L : Matrix (Fin n) (Fin n) ℝ) {v : Matrix (Fin n) (Fin n) ℝ} : spdIntrAF (A * L) (A * v * Aᵀ) = spdIntrAF L v := by
  unfold spdIntrAF
  congr 2
  rw [Matrix.mul_inv_rev]
  simp only [transpose_mul, transpose_transpose, Matrix.mul_assoc, inv_cancel hA]

theorem extr_congr (junk : ℕ → ℝ) (L : Matrix (Fin n) (Fin n) ℝ) (c : List ℝ) : spdExtrAF junk (A * L) c = A * spdExtrAF junk L c * Aᵀ := by
  unfold spdExtrAF
  simp only [transpose_mul, Matrix.mul_assoc]

/-- Triangular congruences, in coordinates: the coordinates are equal. -/
theorem lower_corr (junk : ℕ → ℝ) (hc : IsCholesky chol) (hA : IsLowerPos A) (hG : IsSPDGrad f G) (hG' : IsSPDGrad f' G') (hf : ∀ x, Spd x → f' (A * x * Aᵀ) = f x) :
    Corr (spdIntrEnv junk chol f G) (spdIntrEnv junk chol f' G') (Congr A) (fun _ _ c c' => c.length = n * (n + 1) / 2 ∧ c' = c) := by
  refine realEnv_corr ?_ ?_ ?_ ?_ ?_ ?_
  · rintro x _ ⟨hx, rfl⟩; exact hf x hx
  · rintro x _ ⟨hx, rfl⟩
    refine ⟨(C37_spd_dim _ _).1, ?_⟩
    rw [chol_congr hc hA hx, (grad_congr hc hA.det hG hG' hf hx).2, intr_congr hA.det]
  · rintro x _ v _ w _ ⟨hx, rfl⟩ ⟨_, rfl⟩ ⟨_, rfl⟩
    rfl
  · rintro x _ v _ ⟨hx, rfl⟩ ⟨hl, rfl⟩
    have hs := ((C37_spd_af (hc.chol hx).det (hc.chol hx).eq junk).2.1 _ hl).2
    obtain ⟨h1, h2⟩ := secOrd_congr hc hA.det hx hs
    refine ⟨h1, ?_⟩
    rw [← h2, chol_congr hc hA hx, extr_congr]
  · rintro x _ a v _ ⟨hx, rfl⟩ ⟨hl, rfl⟩
    exact ⟨by rw [List.length_map, hl], rfl⟩
  · rintro x _ a b v _ w _ ⟨hx, rfl⟩ ⟨hl, rfl⟩ ⟨hw, rfl⟩
    exact ⟨by rw [List.length_zipWith, hl, hw, min_self], rfl⟩

theorem lower_trans (junk : ℕ → ℝ) (chol : Matrix (Fin n) (Fin n) ℝ → Matrix (Fin n) (Fin n) ℝ) (f f' : Matrix (Fin n) (Fin n) ℝ → ℝ) (G G' : Matrix (Fin n) (Fin n) ℝ → Matrix (Fin n) (Fin n) ℝ)
    (A : Matrix (Fin n) (Fin n) ℝ) :
    TransCorr (spdIntrEnv junk chol f G) (spdIntrEnv junk chol f' G') (Congr A) (fun _ _ c c' => c.length = n * (n + 1) / 2 ∧ c' = c) := fun _ _ _ _ _ _ _ _ h => h

theorem lower_anywhere (junk : ℕ → ℝ) (chol : Matrix (Fin n) (Fin n) ℝ → Matrix (Fin n) (Fin n) ℝ) (f f' : Matrix (Fin n) (Fin n) ℝ → ℝ) (G G' : Matrix (Fin n) (Fin n) ℝ → Matrix (Fin n) (Fin n) ℝ)
    (A : Matrix (Fin n) (Fin n) ℝ) :
    MetricAnywhere (spdIntrEnv junk chol f G) (spdIntrEnv junk chol f' G') (Congr A) (fun _ _ c c' => c.length = n * (n + 1) / 2 ∧ c' = c) := by
  rintro _ _ _ _ v _ w _ _ _ ⟨_, h⟩ ⟨_, h'⟩
  rw [h, h']
  rfl

theorem lower_op (junk : ℕ → ℝ) (chol : Matrix (Fin n) (Fin n) ℝ → Matrix (Fin n) (Fin n) ℝ) (f f' : Matrix (Fin n) (Fin n) ℝ → ℝ) (G G' : Matrix (Fin n) (Fin n) ℝ → Matrix (Fin n) (Fin n) ℝ)
    (A : Matrix (Fin n) (Fin n) ℝ) (pm : ℝ → ℝ) (cvx : Bool) (nu : ℝ) :
    OpCorr (spdIntrEnv junk chol f G) (spdIntrEnv junk chol f' G') (Congr A) (fun _ _ c c' => c.length = n * (n + 1) / 2 ∧ c' = c) (spdOp pm cvx nu (n * (n + 1) / 2))
      (spdOp pm cvx nu (n * (n + 1) / 2)) (fun _ _ H H' => H' = H) where
  app := by
    rintro _ _ H _ v _ _ rfl ⟨_, rfl⟩
    exact ⟨List.length_ofFn, rfl⟩
  tran := fun _ _ _ _ _ _ _ _ h => h
  rank1 := by
    rintro _ _ H _ c u _ v _ _ rfl ⟨_, rfl⟩ ⟨_, rfl⟩
    rfl
  scaledId := fun _ _ _ _ _ _ _ => rfl
  beta := fun _ _ _ _ _ _ => rfl
  powmu := rfl
  isconvex := rfl
  nu := rfl

theorem lowerTR_corr (junk : ℕ → ℝ) (hc : IsCholesky chol) (hA : IsLowerPos A) (hG : IsSPDGrad f G) (hG' : IsSPDGrad f' G') (hf : ∀ x, Spd x → f' (A * x * Aᵀ) = f x) (pw : ℝ → ℝ) :
    TRCorr (spdIntrTR junk chol f G pw) (spdIntrTR junk chol f' G' pw) (Congr A) (fun _ _ c c' => c.length = n * (n + 1) / 2 ∧ c' = c) where
  toCorr := lower_corr junk hc hA hG hG' hf
  powtheta := rfl
  axpy := by
    rintro x _ a v _ w _ ⟨hx, rfl⟩ ⟨hl, rfl⟩ ⟨hw, rfl⟩
    exact ⟨by show (List.zipWith _ _ _).length = _; rw [List.length_zipWith, hl, hw, min_self], rfl⟩
  proj := fun _ _ _ _ _ h => h

theorem lower_sr1 (junk : ℕ → ℝ) (chol : Matrix (Fin n) (Fin n) ℝ → Matrix (Fin n) (Fin n) ℝ) (f f' : Matrix (Fin n) (Fin n) ℝ → ℝ) (G G' : Matrix (Fin n) (Fin n) ℝ → Matrix (Fin n) (Fin n) ℝ)
    (A : Matrix (Fin n) (Fin n) ℝ) (pw pm : ℝ → ℝ) (cvx : Bool) (nu : ℝ) :
    SR1Corr (spdIntrTR junk chol f G pw) (spdIntrTR junk chol f' G' pw) (Congr A) (fun _ _ c c' => c.length = n * (n + 1) / 2 ∧ c' = c) (fun _ _ H H' => H' = H)
      (spdOp pm cvx nu (n * (n + 1) / 2)) (spdOp pm cvx nu (n * (n + 1) / 2)) (fun _ _ _ w => w) (fun _ _ _ w => w) where
  app := (lower_op junk chol f f' G G' A pm cvx nu).app
  scaledId := fun _ _ _ _ _ _ _ => rfl
  rank1 := (lower_op junk chol f f' G G' A pm cvx nu).rank1
  tran := fun _ _ _ _ _ _ _ _ h => h
  inv := fun _ _ _ _ _ _ _ _ h => h

/-! ## The theorems -/

/-- **C136 (steepest descent).** Let `f'(A x Aᵀ) = f(x)` for an invertible `A`. A run of steepest descent for `f'` from `A x₀ Aᵀ` passes through the congruents of the points of the run for `f` from
`x₀`, with the same numbers. -/
theorem C136_rsd_affine (junk : ℕ → ℝ) (hc : IsCholesky chol) (hA : A.det ≠ 0) (hG : IsSPDGrad f G) (hG' : IsSPDGrad f' G') (hf : ∀ x, Spd x → f' (A * x * Aᵀ) = f x)
    {cfg : Cfg ℝ (Matrix (Fin n) (Fin n) ℝ) (List ℝ)} {stop' : StopKind ℝ (Matrix (Fin n) (Fin n) ℝ)} (hb : cfg.initType ≠ .bb) (hs : cfg.search = .armijo) (hst : StopCorr (Congr A) cfg.stop stop')
    (m N : ℕ) (o o' : Obj ℝ (Matrix (Fin n) (Fin n) ℝ) (List ℝ) Unit) (hx : Congr A o.x1 o'.x1) (hx2 : Congr A o.x2 o'.x2) (hB : o'.preBBs = o.preBBs)
    (hlen : o'.lengthSeries = o.lengthSeries) (hcnt : o'.cnt = o.cnt) :
    SameRuns (Congr A) (CongrIntr chol A) (run (spdIntrEnv junk chol f G) cfg (rsd (spdIntrEnv junk chol f G)) m N o)
      (run (spdIntrEnv junk chol f' G') (reCfg cfg stop') (rsd (spdIntrEnv junk chol f' G')) m N o') :=
  C130_rsd (affine_corr junk hc hA hG hG' hf) (Or.inl hb) hs hst m N o o' hx hx2 hB hlen hcnt

/-- **C136 (trust-region Newton).** -/
theorem C136_rtrnewton_affine (junk : ℕ → ℝ) (hc : IsCholesky chol) (hA : A.det ≠ 0) (hG : IsSPDGrad f G) (hG' : IsSPDGrad f' G') (hH : IsSPDHess G H) (hH' : IsSPDHess G' H')
    (hf : ∀ x, Spd x → f' (A * x * Aᵀ) = f x) (pw : ℝ → ℝ) {cfg : TRCfg ℝ (Matrix (Fin n) (Fin n) ℝ)} {stop' : StopKind ℝ (Matrix (Fin n) (Fin n) ℝ)} (hst : StopCorr (Congr A) cfg.stop stop') (N : ℕ)
    {o o' : TRObj ℝ (Matrix (Fin n) (Fin n) ℝ) (List ℝ) Unit} (h0 : SameStart (Congr A) o o') :
    OptRel (SameTR (Congr A) (CongrIntr chol A)) (trRun (spdIntrTR junk chol f G pw) cfg (rtr (spdIntrTR junk chol f G pw) (spdIntrHess junk chol G H)) N o)
      (trRun (spdIntrTR junk chol f' G' pw) (reTRCfg cfg stop') (rtr (spdIntrTR junk chol f' G' pw) (spdIntrHess junk chol G' H')) N o') :=
  C134_rtr (affineTR_corr junk hc hA hG hG' hf pw) (affine_hess junk hc hA hG hG' hH hH' hf) hst N h0

/-- **C136 (line searches).** Every search sees the same function of the step. -/
theorem C136_ray_affine (junk : ℕ → ℝ) (hc : IsCholesky chol) (hA : A.det ≠ 0) (hG : IsSPDGrad f G) (hG' : IsSPDGrad f' G') (hf : ∀ x, Spd x → f' (A * x * Aᵀ) = f x)
    {i i' : SearchIn ℝ (Matrix (Fin n) (Fin n) ℝ) (List ℝ)} (hi : SameInput (Congr A) (CongrIntr chol A) i i') :
    rayOf (spdIntrEnv junk chol f' G') i' = rayOf (spdIntrEnv junk chol f G) i :=
  C135_ray (affine_corr junk hc hA hG hG' hf) (affine_slope junk hc hA hG hG' hf) hi

/-- **C136 (conjugate gradients, triangular congruence).** If `A` is lower triangular with positive diagonal the coordinates of all vectors are equal, and the transports agree. -/
theorem C136_rcg_triangular (junk : ℕ → ℝ) (hc : IsCholesky chol) (hA : IsLowerPos A) (hG : IsSPDGrad f G) (hG' : IsSPDGrad f' G') (hf : ∀ x, Spd x → f' (A * x * Aᵀ) = f x)
    {cfg : Cfg ℝ (Matrix (Fin n) (Fin n) ℝ) (List ℝ)} {stop' : StopKind ℝ (Matrix (Fin n) (Fin n) ℝ)} (hs : cfg.search = .armijo) (hst : StopCorr (Congr A) cfg.stop stop') (kind : CGKind)
    (m N : ℕ) (o o' : Obj ℝ (Matrix (Fin n) (Fin n) ℝ) (List ℝ) (CGOwn ℝ (List ℝ))) (hx : Congr A o.x1 o'.x1) (hx2 : Congr A o.x2 o'.x2) (hB : o'.preBBs = o.preBBs)
    (hlen : o'.lengthSeries = o.lengthSeries) (hcnt : o'.cnt = o.cnt) :
    SameRuns (Congr A) (fun _ _ c c' => c.length = n * (n + 1) / 2 ∧ c' = c) (run (spdIntrEnv junk chol f G) cfg (rcg (spdIntrEnv junk chol f G) kind) m N o)
      (run (spdIntrEnv junk chol f' G') (reCfg cfg stop') (rcg (spdIntrEnv junk chol f' G') kind) m N o') :=
  C130_rcg (lower_corr junk hc hA hG hG' hf) (lower_trans junk chol f f' G G' A) (Or.inr ⟨lower_trans junk chol f f' G G' A, lower_anywhere junk chol f f' G G' A⟩) hs hst kind m N o o' hx hx2 hB
    hlen hcnt

/-- **C136 (BFGS, triangular congruence).** -/
theorem C136_rbfgs_triangular (junk : ℕ → ℝ) (hc : IsCholesky chol) (hA : IsLowerPos A) (hG : IsSPDGrad f G) (hG' : IsSPDGrad f' G') (hf : ∀ x, Spd x → f' (A * x * Aᵀ) = f x)
    (pm : ℝ → ℝ) (cvx : Bool) (nu : ℝ) {cfg : Cfg ℝ (Matrix (Fin n) (Fin n) ℝ) (List ℝ)} {stop' : StopKind ℝ (Matrix (Fin n) (Fin n) ℝ)} (hs : cfg.search = .armijo)
    (hst : StopCorr (Congr A) cfg.stop stop') (m N : ℕ) (o o' : Obj ℝ (Matrix (Fin n) (Fin n) ℝ) (List ℝ) (BFGSOwn ℝ (List ℝ) (Matrix (Fin (n * (n + 1) / 2)) (Fin (n * (n + 1) / 2)) ℝ)))
    (hx : Congr A o.x1 o'.x1) (hx2 : Congr A o.x2 o'.x2) (hH : o'.own.H = o.own.H) (hB : o'.preBBs = o.preBBs) (hlen : o'.lengthSeries = o.lengthSeries) (hcnt : o'.cnt = o.cnt) :
    SameRuns (Congr A) (fun _ _ c c' => c.length = n * (n + 1) / 2 ∧ c' = c)
      (run (spdIntrEnv junk chol f G) cfg (rbfgs (spdIntrEnv junk chol f G) (spdOp pm cvx nu (n * (n + 1) / 2))) m N o)
      (run (spdIntrEnv junk chol f' G') (reCfg cfg stop') (rbfgs (spdIntrEnv junk chol f' G') (spdOp pm cvx nu (n * (n + 1) / 2))) m N o') :=
  C130_rbfgs (lower_corr junk hc hA hG hG' hf) (lower_trans junk chol f f' G G' A) (lower_op junk chol f f' G G' A pm cvx nu)
    (Or.inr ⟨lower_trans junk chol f f' G G' A, lower_anywhere junk chol f f' G G' A⟩) hs hst m N o o' hx hx2 (fun _ _ _ => hH) hB hlen hcnt

/-- **C136 (trust regions with the symmetric rank-one update, triangular congruence).** -/
theorem C136_rtrsr1_triangular (junk : ℕ → ℝ) (hc : IsCholesky chol) (hA : IsLowerPos A) (hG : IsSPDGrad f G) (hG' : IsSPDGrad f' G') (hf : ∀ x, Spd x → f' (A * x * Aᵀ) = f x)
    (pw pm : ℝ → ℝ) (cvx : Bool) (nu : ℝ) {cfg : TRCfg ℝ (Matrix (Fin n) (Fin n) ℝ)} {stop' : StopKind ℝ (Matrix (Fin n) (Fin n) ℝ)} (hst : StopCorr (Congr A) cfg.stop stop') (N : ℕ)
    {o o' : TRObj ℝ (Matrix (Fin n) (Fin n) ℝ) (List ℝ) (SR1Own ℝ (List ℝ) (Matrix (Fin (n * (n + 1) / 2)) (Fin (n * (n + 1) / 2)) ℝ))} (h0 : SameStart (Congr A) o o') (hB : o'.own.B = o.own.B) :
    OptRel (fun a b => SameTR (Congr A) (fun _ _ c c' => c.length = n * (n + 1) / 2 ∧ c' = c) a b ∧ b.own.B = a.own.B)
      (trRun (spdIntrTR junk chol f G pw) cfg (rtrsr1 (spdIntrTR junk chol f G pw) (spdOp pm cvx nu (n * (n + 1) / 2)) fun _ _ _ w => w) N o)
      (trRun (spdIntrTR junk chol f' G' pw) (reTRCfg cfg stop') (rtrsr1 (spdIntrTR junk chol f' G' pw) (spdOp pm cvx nu (n * (n + 1) / 2)) fun _ _ _ w => w) N o') :=
  C134_rtrsr1 (lowerTR_corr junk hc hA hG hG' hf pw) (lower_sr1 junk chol f f' G G' A pw pm cvx nu) hst N h0 hB

/-- **C136 (coordinates or matrices).** Steepest descent and conjugate gradients with intrinsic vectors pass through the same points, with the same numbers, as with extrinsic ones. -/
theorem C136_intrinsic (junk : ℕ → ℝ) (hc : IsCholesky chol) (f : Matrix (Fin n) (Fin n) ℝ → ℝ) (hG : ∀ x, Spd x → (G x)ᵀ = G x)
    {cfg : Cfg ℝ (Matrix (Fin n) (Fin n) ℝ) (Matrix (Fin n) (Fin n) ℝ)} {stop' : StopKind ℝ (Matrix (Fin n) (Fin n) ℝ)} (hb : cfg.initType ≠ .bb) (hs : cfg.search = .armijo)
    (hst : StopCorr (fun x x' => Spd x ∧ x' = x) cfg.stop stop') (kind : CGKind) (m N : ℕ) (o : Obj ℝ (Matrix (Fin n) (Fin n) ℝ) (Matrix (Fin n) (Fin n) ℝ) (CGOwn ℝ (Matrix (Fin n) (Fin n) ℝ)))
    (o' : Obj ℝ (Matrix (Fin n) (Fin n) ℝ) (List ℝ) (CGOwn ℝ (List ℝ))) (hx : Spd o.x1 ∧ o'.x1 = o.x1) (hx2 : Spd o.x2 ∧ o'.x2 = o.x2) (hB : o'.preBBs = o.preBBs)
    (hlen : o'.lengthSeries = o.lengthSeries) (hcnt : o'.cnt = o.cnt) :
    SameRuns (fun x x' => Spd x ∧ x' = x) (fun x _ v c => vᵀ = v ∧ c = spdIntrAF (chol x) v) (run (spdExtrEnv junk chol f G) cfg (rcg (spdExtrEnv junk chol f G) kind) m N o)
      (run (spdIntrEnv junk chol f G) (reCfg cfg stop') (rcg (spdIntrEnv junk chol f G) kind) m N o') :=
  C130_rcg (spd_corr junk hc f hG) (spd_trans junk hc f G) (Or.inl hb) hs hst kind m N o o' hx hx2 hB hlen hcnt

/-- **C136 (slopes).** The slope a line search reads is the derivative of the function it reads, at every step. -/
theorem C136_slope (junk : ℕ → ℝ) (hc : IsCholesky chol) (hG : IsSPDGrad f G) (i : SearchIn ℝ (Matrix (Fin n) (Fin n) ℝ) (Matrix (Fin n) (Fin n) ℝ)) (hx : Spd i.x1) (hv : i.eta1ᵀ = i.eta1) (t : ℝ) :
    HasDerivAt (rayOf (spdExtrEnv junk chol f G) i).phi ((rayOf (spdExtrEnv junk chol f G) i).der t) t := by
  have hy : ∀ s : ℝ, Spd (secOrd (chol i.x1) i.x1 (t • i.eta1 + s • i.eta1)) := fun s => (C38_second_order (hc.chol hx) (by rw [transpose_add, transpose_smul, transpose_smul, hv])).1
  have hd := (hG (fun s => secOrd (chol i.x1) i.x1 (t • i.eta1 + s • i.eta1)) _ hy fun a b => C62_spd_second_order (hc.chol hx) (sym_smul t hv) hv a b).2
  have e0 : t • i.eta1 + (0 : ℝ) • i.eta1 = t • i.eta1 := by rw [zero_smul, add_zero]
  simp only [e0] at hd
  have hy0 := hy 0
  rw [e0] at hy0
  have e : (rayOf (spdExtrEnv junk chol f G) i).der t = frob (G (secOrd (chol i.x1) i.x1 (t • i.eta1))) (diffSecOrd (chol i.x1) (t • i.eta1) i.eta1) :=
    (C66_spd_gradient_partial (hc.chol hy0) _).1 _
  rw [e]
  have h2 := HasDerivAt.comp_sub_const t t (by rw [sub_self]; exact hd)
  refine h2.congr_of_eventuallyEq (Filter.Eventually.of_forall fun s => ?_)
  show f (secOrd (chol i.x1) i.x1 (s • i.eta1)) = f (secOrd (chol i.x1) i.x1 (t • i.eta1 + (s - t) • i.eta1))
  rw [← add_smul, add_sub_cancel]

/-- The search in coordinates reads the same function. -/
theorem C136_ray_intrinsic (junk : ℕ → ℝ) (hc : IsCholesky chol) (f : Matrix (Fin n) (Fin n) ℝ → ℝ) (hG : ∀ x, Spd x → (G x)ᵀ = G x)
    {i : SearchIn ℝ (Matrix (Fin n) (Fin n) ℝ) (Matrix (Fin n) (Fin n) ℝ)} {i' : SearchIn ℝ (Matrix (Fin n) (Fin n) ℝ) (List ℝ)}
    (hi : SameInput (fun x x' => Spd x ∧ x' = x) (fun x _ v c => vᵀ = v ∧ c = spdIntrAF (chol x) v) i i') :
    rayOf (spdIntrEnv junk chol f G) i' = rayOf (spdExtrEnv junk chol f G) i :=
  C135_ray (spd_corr junk hc f hG) (spd_slope junk hc f hG) hi

/-- **C136 (transport).** The vector transport is not affine invariant: the restriction to triangular matrices in the theorems on conjugate gradients and BFGS is necessary already for matrices of order
two. The matrix `A` exchanges the two coordinates. -/
theorem C136_transport_not_affine (junk : ℕ → ℝ) {chol : Matrix (Fin 2) (Fin 2) ℝ → Matrix (Fin 2) (Fin 2) ℝ} (hc : IsCholesky chol) :
    ∃ A x η v : Matrix (Fin 2) (Fin 2) ℝ, A * Aᵀ = 1 ∧ Spd x ∧ ηᵀ = η ∧ vᵀ = v ∧
      let y := secOrd (chol x) x η
      paraTransport junk (chol (A * x * Aᵀ)) (chol (A * y * Aᵀ)) (A * v * Aᵀ) ≠ A * paraTransport junk (chol x) (chol y) v * Aᵀ := by
  have h1 : Spd (1 : Matrix (Fin 2) (Fin 2) ℝ) := by
    refine ⟨transpose_one, fun v hv => ?_⟩
    rw [one_mulVec]
    exact lt_of_le_of_ne (Finset.sum_nonneg fun i _ => mul_self_nonneg _) fun e => hv (dotProduct_self_eq_zero.mp e.symm)
  have hM : IsLowerPos (1 : Matrix (Fin 2) (Fin 2) ℝ) := ⟨fun i j h => one_apply_ne h.ne, fun i => by rw [one_apply_eq]; exact one_pos⟩
  have c1 : chol 1 = 1 := lowerPos_unique (hc _ h1).1 hM (by rw [← (hc _ h1).2, transpose_one, Matrix.mul_one])
  have hy : Spd (!![3 / 2, 1; 1, 3 / 2] : Matrix (Fin 2) (Fin 2) ℝ) := by
    refine ⟨by ext i j; fin_cases i <;> fin_cases j <;> rfl, fun v hv => ?_⟩
    have : v ⬝ᵥ !![3 / 2, 1; 1, 3 / 2] *ᵥ v = (v 0 ^ 2 + v 1 ^ 2) / 2 + (v 0 + v 1) ^ 2 := by
      simp [dotProduct, mulVec, Fin.sum_univ_two]; ring
    rw [this]
    by_contra hle
    have h0 : v 0 = 0 := by nlinarith [sq_nonneg (v 0), sq_nonneg (v 1), sq_nonneg (v 0 + v 1)]
    have h2 : v 1 = 0 := by nlinarith [sq_nonneg (v 0), sq_nonneg (v 1), sq_nonneg (v 0 + v 1)]
    exact hv (by funext i; fin_cases i <;> assumption)
  have ea : !![0, 1; 1, 0] * (1 : Matrix (Fin 2) (Fin 2) ℝ) * !![0, 1; 1, 0]ᵀ = 1 := by
    ext i j; fin_cases i <;> fin_cases j <;> simp [Matrix.mul_apply, Fin.sum_univ_two]
  have eb : !![0, 1; 1, 0] * (!![3 / 2, 1; 1, 3 / 2] : Matrix (Fin 2) (Fin 2) ℝ) * !![0, 1; 1, 0]ᵀ = !![3 / 2, 1; 1, 3 / 2] := by
    ext i j; fin_cases i <;> fin_cases j <;> simp [Matrix.mul_apply, Fin.sum_univ_two]
  have ev : !![0, 1; 1, 0] * (!![1, 0; 0, 0] : Matrix (Fin 2) (Fin 2) ℝ) * !![0, 1; 1, 0]ᵀ = !![0, 0; 0, 1] := by
    ext i j; fin_cases i <;> fin_cases j <;> simp [Matrix.mul_apply, Fin.sum_univ_two]
  have ey : secOrd (chol 1) 1 !![0, 1; 1, 0] = (!![3 / 2, 1; 1, 3 / 2] : Matrix (Fin 2) (Fin 2) ℝ) := by
    rw [c1]
    ext i j; fin_cases i <;> fin_cases j <;> simp [secOrd, Matrix.mul_apply, Fin.sum_univ_two] <;> norm_num
  refine ⟨!![0, 1; 1, 0], 1, !![0, 1; 1, 0], !![1, 0; 0, 0], by rwa [Matrix.mul_one] at ea, h1, by ext i j; fin_cases i <;> fin_cases j <;> rfl, by ext i j; fin_cases i <;> fin_cases j <;> rfl,
    fun h => ?_⟩
  rw [ey, ea, eb, ev, paraTransport_eq (hc.chol h1) (by ext i j; fin_cases i <;> fin_cases j <;> rfl), paraTransport_eq (hc.chol h1) (by ext i j; fin_cases i <;> fin_cases j <;> rfl), c1, inv_one,
    transpose_one, Matrix.one_mul, Matrix.one_mul, Matrix.mul_one, Matrix.mul_one] at h
  obtain ⟨⟨hl, hp⟩, he⟩ := hc _ hy
  have z := hl 0 1 (by decide)
  have e1 := congrFun (congrFun he 0) 1
  have ew : ∀ M : Matrix (Fin 2) (Fin 2) ℝ, ((!![0, 1; 1, 0] : Matrix (Fin 2) (Fin 2) ℝ) * M * (!![0, 1; 1, 0] : Matrix (Fin 2) (Fin 2) ℝ)ᵀ) 0 0 = M 1 1 := fun M => by simp [Matrix.mul_apply, Fin.sum_univ_two, vecMul, dotProduct]
  have e2 := congrFun (congrFun h 0) 0
  rw [ew] at e2
  generalize chol !![3 / 2, 1; 1, 3 / 2] = L at *
  simp [Matrix.mul_apply, Fin.sum_univ_two, z] at e1 e2
  rw [e2, mul_zero] at e1
  exact one_ne_zero e1

/-! ## The Karcher mean -/

theorem spd_iff {x : Matrix (Fin n) (Fin n) ℝ} : Spd x ↔ x.PosDef := by
  rw [posDef_iff_dotProduct_mulVec, IsHermitian, conjTranspose_eq_transpose_of_trivial]
  unfold Spd
  simp only [star_trivial]

open Karcher in
/-- The cost of the Karcher mean problem does not change when the data and the point are replaced by their congruents. -/
theorem karcher_congr {K : ℕ} {F : Type} {lp : Lapack n F} (ok : Ok lp) {Ls Ls' : Fin K → Matrix (Fin n) (Fin n) ℝ} (hLs : ∀ i, IsFactor (Ls i)) (hLs' : ∀ i, IsFactor (Ls' i)) (hK : 0 < K)
    (hA : A.det ≠ 0) (hd : ∀ i, Ls' i * (Ls' i)ᵀ = A * (Ls i * (Ls i)ᵀ) * Aᵀ) {x : Matrix (Fin n) (Fin n) ℝ} (hx : Spd x) :
    ((karcher lp Ls').f (A * x * Aᵀ)).1 = ((karcher lp Ls).f x).1 := by
  have hx' := spd_congr hA hx
  have h1 := C98_cost ok hLs hK (spd_iff.mp hx)
  have h2 := C98_cost ok hLs' hK (spd_iff.mp hx')
  choose D hD _ using h1.1
  have key : ∀ i, ((Ls' i)⁻¹ * A * Ls i) * ((Ls' i)⁻¹ * A * Ls i)ᵀ = 1 := by
    intro i
    have u := factor_unit (hLs' i)
    have : ((Ls' i)⁻¹ * A * Ls i) * ((Ls' i)⁻¹ * A * Ls i)ᵀ = (Ls' i)⁻¹ * (A * (Ls i * (Ls i)ᵀ) * Aᵀ) * ((Ls' i)⁻¹)ᵀ := by
      simp only [transpose_mul, Matrix.mul_assoc]
    rw [this, ← hd i, ← Matrix.mul_assoc, nonsing_inv_mul _ u, Matrix.one_mul, ← transpose_mul, nonsing_inv_mul _ u, transpose_one]
  have hO : ∀ i, IsRelLog (Ls' i) (A * x * Aᵀ) (((Ls' i)⁻¹ * A * Ls i) * D i * ((Ls' i)⁻¹ * A * Ls i)ᵀ) := by
    intro i
    have u := factor_unit (hLs' i)
    refine ⟨sym_congr (hD i).1, ?_⟩
    have hl : Ls' i * ((Ls' i)⁻¹ * A * Ls i) = A * Ls i := by rw [Matrix.mul_assoc ((Ls' i)⁻¹), ← Matrix.mul_assoc, mul_nonsing_inv _ u, Matrix.one_mul]
    have hk := key i
    generalize (Ls' i)⁻¹ * A * Ls i = O at hl hk
    have hi : O⁻¹ = Oᵀ := inv_eq_right_inv hk
    rw [← hi, exp_conj _ _ ((Matrix.isUnit_iff_isUnit_det _).mpr (isUnit_det_of_right_inverse hk)), hi]
    have e1 : Ls' i * (O * NormedSpace.exp (D i) * Oᵀ) * (Ls' i)ᵀ = (Ls' i * O) * NormedSpace.exp (D i) * (Ls' i * O)ᵀ := by
      rw [transpose_mul]; simp only [Matrix.mul_assoc]
    rw [e1, hl, ← (hD i).2, transpose_mul]
    simp only [Matrix.mul_assoc]
  rw [h1.2.1 D hD, h2.2.1 _ hO]
  congr 1
  refine Finset.sum_congr rfl fun i _ => ?_
  have hk := key i
  generalize (Ls' i)⁻¹ * A * Ls i = O at hk
  have hk' : Oᵀ * O = 1 := mul_eq_one_comm.mp hk
  rw [frob_mul_right, frob_mul_left, transpose_transpose]
  congr 1
  calc Oᵀ * (O * D i * Oᵀ * O) = (Oᵀ * O) * D i * (Oᵀ * O) := by simp only [Matrix.mul_assoc]
    _ = D i := by rw [hk', Matrix.one_mul, Matrix.mul_one]

open Karcher in
theorem karcher_grad {K : ℕ} {F : Type} {lp : Lapack n F} (ok : Ok lp) {Ls : Fin K → Matrix (Fin n) (Fin n) ℝ} (hLs : ∀ i, IsFactor (Ls i)) :
    IsSPDGrad (fun x => ((karcher lp Ls).f x).1) (fun x => (karcher lp Ls).eucGrad x ((karcher lp Ls).f x).2) := fun γ ξ hγ h => by
  have := C98_gradient ok hLs (fun s => spd_iff.mp (hγ s)) h
  exact ⟨this.2, this.1⟩

open Karcher in
theorem karcher_hess {K : ℕ} {F : Type} {lp : Lapack n F} (ok : Ok lp) {Ls : Fin K → Matrix (Fin n) (Fin n) ℝ} (hLs : ∀ i, IsFactor (Ls i)) :
    IsSPDHess (fun x => (karcher lp Ls).eucGrad x ((karcher lp Ls).f x).2) (fun x v => (karcher lp Ls).eucHess x ((karcher lp Ls).f x).2 v) := fun γ ξ hγ h =>
  C98_hessian ok hLs (fun s => spd_iff.mp (hγ s)) h

open Karcher in
/-- **C136 (Karcher mean, trust-region Newton).** Runs for the data `A Sᵢ Aᵀ` from `A x₀ Aᵀ` pass through the congruents of the points of the run for the data `Sᵢ` from `x₀`: the computed mean of congruent
data is the congruent of the computed mean, after any number of iterations and with any tolerance. -/
theorem C136_karcher_rtrnewton (junk : ℕ → ℝ) (hc : IsCholesky chol) (hA : A.det ≠ 0) {K : ℕ} {F : Type} {lp : Lapack n F} (ok : Ok lp) {Ls Ls' : Fin K → Matrix (Fin n) (Fin n) ℝ}
    (hLs : ∀ i, IsFactor (Ls i)) (hLs' : ∀ i, IsFactor (Ls' i)) (hK : 0 < K) (hd : ∀ i, Ls' i * (Ls' i)ᵀ = A * (Ls i * (Ls i)ᵀ) * Aᵀ) (pw : ℝ → ℝ) {cfg : TRCfg ℝ (Matrix (Fin n) (Fin n) ℝ)}
    {stop' : StopKind ℝ (Matrix (Fin n) (Fin n) ℝ)} (hst : StopCorr (Congr A) cfg.stop stop') (N : ℕ) {o o' : TRObj ℝ (Matrix (Fin n) (Fin n) ℝ) (List ℝ) Unit} (h0 : SameStart (Congr A) o o') :
    let P := karcher lp Ls
    let P' := karcher lp Ls'
    OptRel (SameTR (Congr A) (CongrIntr chol A))
      (trRun (spdIntrTR junk chol (fun x => (P.f x).1) (fun x => P.eucGrad x (P.f x).2) pw) cfg
        (rtr (spdIntrTR junk chol (fun x => (P.f x).1) (fun x => P.eucGrad x (P.f x).2) pw) (spdIntrHess junk chol (fun x => P.eucGrad x (P.f x).2) fun x v => P.eucHess x (P.f x).2 v)) N o)
      (trRun (spdIntrTR junk chol (fun x => (P'.f x).1) (fun x => P'.eucGrad x (P'.f x).2) pw) (reTRCfg cfg stop')
        (rtr (spdIntrTR junk chol (fun x => (P'.f x).1) (fun x => P'.eucGrad x (P'.f x).2) pw) (spdIntrHess junk chol (fun x => P'.eucGrad x (P'.f x).2) fun x v => P'.eucHess x (P'.f x).2 v)) N o') :=
  C136_rtrnewton_affine junk hc hA (karcher_grad ok hLs) (karcher_grad ok hLs') (karcher_hess ok hLs) (karcher_hess ok hLs') (fun _ hx => karcher_congr ok hLs hLs' hK hA hd hx) pw hst N h0

open Karcher in
/-- **C136 (Karcher mean, steepest descent).** -/
theorem C136_karcher_rsd (junk : ℕ → ℝ) (hc : IsCholesky chol) (hA : A.det ≠ 0) {K : ℕ} {F : Type} {lp : Lapack n F} (ok : Ok lp) {Ls Ls' : Fin K → Matrix (Fin n) (Fin n) ℝ}
    (hLs : ∀ i, IsFactor (Ls i)) (hLs' : ∀ i, IsFactor (Ls' i)) (hK : 0 < K) (hd : ∀ i, Ls' i * (Ls' i)ᵀ = A * (Ls i * (Ls i)ᵀ) * Aᵀ)
    {cfg : Cfg ℝ (Matrix (Fin n) (Fin n) ℝ) (List ℝ)} {stop' : StopKind ℝ (Matrix (Fin n) (Fin n) ℝ)} (hb : cfg.initType ≠ .bb) (hs : cfg.search = .armijo) (hst : StopCorr (Congr A) cfg.stop stop')
    (m N : ℕ) (o o' : Obj ℝ (Matrix (Fin n) (Fin n) ℝ) (List ℝ) Unit) (hx : Congr A o.x1 o'.x1) (hx2 : Congr A o.x2 o'.x2) (hB : o'.preBBs = o.preBBs)
    (hlen : o'.lengthSeries = o.lengthSeries) (hcnt : o'.cnt = o.cnt) :
    let e := spdIntrEnv junk chol (fun x => ((karcher lp Ls).f x).1) fun x => (karcher lp Ls).eucGrad x ((karcher lp Ls).f x).2
    let e' := spdIntrEnv junk chol (fun x => ((karcher lp Ls').f x).1) fun x => (karcher lp Ls').eucGrad x ((karcher lp Ls').f x).2
    SameRuns (Congr A) (CongrIntr chol A) (run e cfg (rsd e) m N o) (run e' (reCfg cfg stop') (rsd e') m N o') :=
  C136_rsd_affine junk hc hA (karcher_grad ok hLs) (karcher_grad ok hLs') (fun _ hx => karcher_congr ok hLs hLs' hK hA hd hx) hb hs hst m N o o' hx hx2 hB hlen hcnt

/-! ## Concrete cases -/

/-- Cholesky factors exist, for every size. -/
theorem exists_cholesky (n : ℕ) : ∃ chol : Matrix (Fin n) (Fin n) ℝ → Matrix (Fin n) (Fin n) ℝ, IsCholesky chol := by
  have h : ∀ x : Matrix (Fin n) (Fin n) ℝ, ∃ L, Spd x → IsLowerPos L ∧ x = L * Lᵀ := by
    intro x
    by_cases hx : Spd x
    · obtain ⟨L, h1, h2⟩ := Karcher.chol_exists (spd_iff.mp hx)
      have hdet : L.det = ∏ i, L i i := det_of_isLowerTriangular _ (fun i j hij => h1 _ _ hij)
      have hne : ∀ i, L i i ≠ 0 := by
        have : L.det ≠ 0 := by
          intro h0
          have := spd_unit hx
          rw [← h2, det_mul, h0, zero_mul] at this
          exact not_isUnit_zero this
        rw [hdet] at this
        exact fun i => Finset.prod_ne_zero_iff.mp this i (Finset.mem_univ i)
      refine ⟨L * diagonal fun i => (SignType.sign (L i i) : ℝ), fun _ => ⟨⟨fun i j hij => by rw [mul_diagonal, h1 i j hij, zero_mul], fun i => ?_⟩, ?_⟩⟩
      · rw [mul_diagonal, mul_comm, sign_mul_self]
        exact abs_pos.mpr (hne i)
      · have e : (diagonal fun i => (SignType.sign (L i i) : ℝ)) * (diagonal fun i => (SignType.sign (L i i) : ℝ)) = 1 := by
          rw [diagonal_mul_diagonal, ← diagonal_one]
          congr 1; funext i
          rcases lt_or_gt_of_ne (hne i) with h | h
          · simp [sign_neg h]
          · simp [sign_pos h]
        rw [transpose_mul, diagonal_transpose, Matrix.mul_assoc, ← Matrix.mul_assoc (diagonal _), e, Matrix.one_mul, h2]
    · exact ⟨0, fun h => absurd h hx⟩
  choose chol hc using h
  exact ⟨chol, fun x hx => hc x hx⟩

open Karcher in
/-- Two data matrices of order two and their congruents by the matrix that exchanges the coordinates, the run of trust-region Newton from the identity. -/
example (N : ℕ) (pw : ℝ → ℝ) (cfg : TRCfg ℝ (Matrix (Fin 2) (Fin 2) ℝ)) (hcfg : cfg.stop = .gradF) (o : TRObj ℝ (Matrix (Fin 2) (Fin 2) ℝ) (List ℝ) Unit) (ho : o.x1 = 1) (ho2 : o.x2 = 1) :
    ∃ (chol : Matrix (Fin 2) (Fin 2) ℝ → Matrix (Fin 2) (Fin 2) ℝ) (lp : Lapack 2 (Matrix (Fin 2) (Fin 2) ℝ)) (Ls' : Fin 2 → Matrix (Fin 2) (Fin 2) ℝ),
      (∀ i, IsFactor (Ls' i)) ∧ Ls' 0 * (Ls' 0)ᵀ = !![2, 1; 1, 1] ∧
      let P := karcher lp ![!![1, 0; 1, 1], 1]
      let P' := karcher lp Ls'
      OptRel (SameTR (Congr !![0, 1; 1, 0]) (CongrIntr chol !![0, 1; 1, 0]))
        (trRun (spdIntrTR (fun _ => 0) chol (fun x => (P.f x).1) (fun x => P.eucGrad x (P.f x).2) pw) cfg
          (rtr (spdIntrTR (fun _ => 0) chol (fun x => (P.f x).1) (fun x => P.eucGrad x (P.f x).2) pw)
            (spdIntrHess (fun _ => 0) chol (fun x => P.eucGrad x (P.f x).2) fun x v => P.eucHess x (P.f x).2 v)) N o)
        (trRun (spdIntrTR (fun _ => 0) chol (fun x => (P'.f x).1) (fun x => P'.eucGrad x (P'.f x).2) pw) (reTRCfg cfg .gradF)
          (rtr (spdIntrTR (fun _ => 0) chol (fun x => (P'.f x).1) (fun x => P'.eucGrad x (P'.f x).2) pw)
            (spdIntrHess (fun _ => 0) chol (fun x => P'.eucGrad x (P'.f x).2) fun x v => P'.eucHess x (P'.f x).2 v)) N o) := by
  obtain ⟨chol, hc⟩ := exists_cholesky 2
  obtain ⟨lp, ok⟩ := ok_exists 2
  have hL : ∀ i, IsFactor ((![!![1, 0; 1, 1], 1] : Fin 2 → Matrix (Fin 2) (Fin 2) ℝ) i) := by
    intro i
    fin_cases i
    · refine ⟨fun a b hab => ?_, fun a => ?_⟩
      · fin_cases a <;> fin_cases b <;> simp at hab ⊢
      · fin_cases a <;> simp
    · exact ⟨fun a b hab => one_apply_ne hab.ne, fun a => by show (1 : Matrix (Fin 2) (Fin 2) ℝ) a a ≠ 0; rw [one_apply_eq]; exact one_ne_zero⟩
  have hA : (!![0, 1; 1, 0] : Matrix (Fin 2) (Fin 2) ℝ).det ≠ 0 := by simp [det_fin_two]
  have hS : ∀ i, Spd ((![!![1, 0; 1, 1], 1] : Fin 2 → Matrix (Fin 2) (Fin 2) ℝ) i * ((![!![1, 0; 1, 1], 1] : Fin 2 → Matrix (Fin 2) (Fin 2) ℝ) i)ᵀ) := fun i =>
    (⟨(factor_unit (hL i)).ne_zero, rfl⟩ : IsChol _ _).spd
  have hF : ∀ i, IsFactor (chol (!![0, 1; 1, 0] * ((![!![1, 0; 1, 1], 1] : Fin 2 → Matrix (Fin 2) (Fin 2) ℝ) i * ((![!![1, 0; 1, 1], 1] : Fin 2 → Matrix (Fin 2) (Fin 2) ℝ) i)ᵀ) * !![0, 1; 1, 0]ᵀ)) :=
    fun i => ⟨(hc _ (spd_congr hA (hS i))).1.1, fun j => ((hc _ (spd_congr hA (hS i))).1.2 j).ne'⟩
  have h1 : Spd (1 : Matrix (Fin 2) (Fin 2) ℝ) := (⟨by simp, by simp⟩ : IsChol 1 1).spd
  have he : Congr !![0, 1; 1, 0] (1 : Matrix (Fin 2) (Fin 2) ℝ) 1 := ⟨h1, by ext i j; fin_cases i <;> fin_cases j <;> simp [Matrix.mul_apply, vecMul, dotProduct, Fin.sum_univ_two]⟩
  refine ⟨chol, lp, _, hF, ?_, C136_karcher_rtrnewton (fun _ => 0) hc hA ok hL hF (by norm_num) (fun i => ((hc _ (spd_congr hA (hS i))).2).symm) pw ?_ N ?_⟩
  · rw [← (hc _ (spd_congr hA (hS 0))).2]
    ext i j; fin_cases i <;> fin_cases j <;> simp [Matrix.mul_apply, vecMul, dotProduct, Fin.sum_univ_two] <;> norm_num
  · rw [hcfg]; trivial
  · exact ⟨by rw [ho]; exact he, by rw [ho2]; exact he, rfl, rfl, rfl, rfl, rfl⟩

end Verif.Obj
