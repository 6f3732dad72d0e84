import Verif.Manifold.FixedRank
import Verif.Props.StiefelDiff
import Verif.Problem.Curve
import Mathlib.Analysis.SpecialFunctions.ExpDeriv

/-!
# Fixed-rank matrices, embedded geometry: properties C44, C45, C62, C64, C66
-/

set_option linter.unusedSectionVars false
set_option linter.unusedVariables false
set_option linter.unusedSimpArgs false

namespace Verif.FixedRank

open Matrix Verif.Mat Verif.Curve

variable {m n r : Type*} [Fintype m] [Fintype n] [Fintype r] [DecidableEq m] [DecidableEq n] [DecidableEq r]

/-! ## Specification -/

/-- A point: orthonormal outer factors, invertible core, and the matrix is their product. -/
structure IsPt (x : Pt m n r) : Prop where
  U : x.Uᵀ * x.U = 1
  V : x.Vᵀ * x.V = 1
  D : IsUnit x.D.det
  mat : x.mat = x.U * x.D * x.Vᵀ

/-- A tangent vector: the fields satisfy the gauge conditions and the matrix is the one they represent. -/
structure IsTan (x : Pt m n r) (η : Vec m n r) : Prop where
  U : x.Uᵀ * η.dU = 0
  V : x.Vᵀ * η.dV = 0
  mat : η.mat = x.U * x.D * η.dVᵀ + x.U * η.dD * x.Vᵀ + η.dU * x.D * x.Vᵀ

theorem IsPt.DT {x : Pt m n r} (h : IsPt x) : IsUnit x.Dᵀ.det := by rw [det_transpose]; exact h.D

theorem trans_zero {a b c : Type*} [Fintype a] {A : Matrix a b ℝ} {B : Matrix a c ℝ} (h : Aᵀ * B = 0) : Bᵀ * A = 0 := by
  have := congrArg Matrix.transpose h
  simpa using this

/-- Rank of a point. -/
theorem rank_outer {U : Matrix m r ℝ} {V : Matrix n r ℝ} (hU : Uᵀ * U = 1) (hV : Vᵀ * V = 1) (D : Matrix r r ℝ) : (U * D * Vᵀ).rank = D.rank := by
  apply le_antisymm
  · exact (rank_mul_le_left _ _).trans (rank_mul_le_right _ _)
  · have e : D = Uᵀ * (U * D * Vᵀ) * V := by
      rw [Matrix.mul_assoc, Matrix.mul_assoc (U * D), hV, Matrix.mul_one, ← Matrix.mul_assoc, hU, Matrix.one_mul]
    calc D.rank = (Uᵀ * (U * D * Vᵀ) * V).rank := congrArg _ e
      _ ≤ (Uᵀ * (U * D * Vᵀ)).rank := rank_mul_le_left _ _
      _ ≤ _ := rank_mul_le_right _ _

/-! ## C45 -/

/-- **C45 (metric).** The metric of tangent vectors is the Frobenius product of the matrices they represent. -/
theorem C45_metric {x : Pt m n r} (h : IsPt x) {η ξ : Vec m n r} (hη : IsTan x η) (hξ : IsTan x ξ) : metric x η ξ = frob η.mat ξ.mat := by
  have left : ∀ (A B : Matrix r n ℝ), frob (x.U * A) (x.U * B) = frob A B := by
    intro A B; rw [frob_mul_left, ← Matrix.mul_assoc, h.U, Matrix.one_mul]
  have right : ∀ (A B : Matrix m r ℝ), frob (A * x.Vᵀ) (B * x.Vᵀ) = frob A B := by
    intro A B; rw [frob_mul_right, transpose_transpose, Matrix.mul_assoc, h.V, Matrix.mul_one]
  have right' : ∀ (A B : Matrix r r ℝ), frob (A * x.Vᵀ) (B * x.Vᵀ) = frob A B := by
    intro A B; rw [frob_mul_right, transpose_transpose, Matrix.mul_assoc, h.V, Matrix.mul_one]
  have e : ∀ ζ : Vec m n r, IsTan x ζ → ζ.mat = x.U * (x.D * ζ.dVᵀ + ζ.dD * x.Vᵀ) + ζ.dU * x.D * x.Vᵀ := by
    intro ζ hζ; rw [hζ.mat]; simp only [Matrix.mul_add, Matrix.mul_assoc]
  have c1 : ∀ (A : Matrix r n ℝ) (ζ : Vec m n r), IsTan x ζ → frob (x.U * A) (ζ.dU * x.D * x.Vᵀ) = 0 := by
    intro A ζ hζ
    rw [frob_mul_left, Matrix.mul_assoc, ← Matrix.mul_assoc, hζ.U, Matrix.zero_mul, frob_zero_right]
  have c2 : ∀ ζ ζ' : Vec m n r, IsTan x ζ → frob (x.D * ζ.dVᵀ) (ζ'.dD * x.Vᵀ) = 0 := by
    intro ζ ζ' hζ
    rw [frob_mul_right', transpose_transpose, Matrix.mul_assoc, trans_zero hζ.V, Matrix.mul_zero, frob_zero_left]
  rw [e η hη, e ξ hξ]
  rw [frob_add_left, frob_add_right, frob_add_right, c1 _ ξ hξ]
  rw [frob_comm (η.dU * x.D * x.Vᵀ) (x.U * _), c1 _ η hη, right, left]
  simp only [frob_add_left, frob_add_right]
  rw [c2 η ξ hη, frob_comm (η.dD * x.Vᵀ), c2 ξ η hξ, right']
  unfold metric
  have e3 : frob (η.dV * x.Dᵀ) (ξ.dV * x.Dᵀ) = frob (x.D * η.dVᵀ) (x.D * ξ.dVᵀ) := by
    rw [← frob_transpose]; simp only [transpose_mul, transpose_transpose]
  rw [e3]; ring

/-- **C45 (linear operations).** The linear operations return tangent vectors, and act on the represented matrices as the corresponding linear combinations. -/
theorem C45_linear {x : Pt m n r} {η ξ : Vec m n r} (hη : IsTan x η) (hξ : IsTan x ξ) (c d : ℝ) :
    (IsTan x (scalarTimes c η) ∧ (scalarTimes c η).mat = c • η.mat) ∧ (IsTan x (scalarAdd c η ξ) ∧ (scalarAdd c η ξ).mat = c • η.mat + ξ.mat) ∧
    (IsTan x (linComb c η d ξ) ∧ (linComb c η d ξ).mat = c • η.mat + d • ξ.mat) := by
  have gen : ∀ c d : ℝ, IsTan x (linComb c η d ξ) := by
    intro c d
    refine ⟨?_, ?_, ?_⟩
    · simp [linComb, Matrix.mul_add, hη.U, hξ.U]
    · simp [linComb, Matrix.mul_add, hη.V, hξ.V]
    · simp only [linComb, hη.mat, hξ.mat, transpose_add, transpose_smul, Matrix.mul_add, Matrix.add_mul, Matrix.mul_smul, Matrix.smul_mul, smul_add]
      abel
  refine ⟨⟨?_, rfl⟩, ⟨?_, add_comm _ _⟩, gen c d, add_comm _ _⟩
  · refine ⟨?_, ?_, ?_⟩
    · simp [scalarTimes, hη.U]
    · simp [scalarTimes, hη.V]
    · simp only [scalarTimes, hη.mat, transpose_smul, Matrix.mul_smul, Matrix.smul_mul, smul_add]
  · have := gen c 1
    have e : linComb c η 1 ξ = scalarAdd c η ξ := by simp [linComb, scalarAdd]
    rwa [e] at this

theorem proj_mat {x : Pt m n r} (h : IsPt x) (A : Matrix m n ℝ) :
    (proj x A).mat = x.U * x.Uᵀ * A + A * (x.V * x.Vᵀ) - x.U * x.Uᵀ * A * (x.V * x.Vᵀ) := by
  simp only [proj, assemble]
  have e1 : x.U * x.D * ((Aᵀ * x.U - x.V * (x.Uᵀ * (A * x.V))ᵀ) * x.Dᵀ⁻¹)ᵀ = x.U * (x.Uᵀ * A - x.Uᵀ * (A * x.V) * x.Vᵀ) := by
    rw [transpose_mul, transpose_nonsing_inv, transpose_transpose, Matrix.mul_assoc x.U, ← Matrix.mul_assoc x.D, mul_nonsing_inv _ h.D, Matrix.one_mul]
    simp only [transpose_sub, transpose_mul, transpose_transpose, Matrix.mul_assoc]
  have e2 : (A * x.V - x.U * (x.Uᵀ * (A * x.V))) * x.D⁻¹ * x.D * x.Vᵀ = (A * x.V - x.U * (x.Uᵀ * (A * x.V))) * x.Vᵀ := by
    rw [Matrix.mul_assoc _ x.D⁻¹, nonsing_inv_mul _ h.D, Matrix.mul_one]
  rw [e1, e2]
  simp only [Matrix.mul_sub, Matrix.sub_mul, Matrix.mul_assoc]
  abel

theorem proj_tan {x : Pt m n r} (h : IsPt x) (A : Matrix m n ℝ) : IsTan x (proj x A) := by
  refine ⟨?_, ?_, rfl⟩
  · simp only [proj]
    rw [← Matrix.mul_assoc, Matrix.mul_sub, ← Matrix.mul_assoc x.Uᵀ x.U, h.U, Matrix.one_mul, sub_self, Matrix.zero_mul]
  · simp only [proj]
    rw [← Matrix.mul_assoc, Matrix.mul_sub, ← Matrix.mul_assoc x.Vᵀ x.V, h.V, Matrix.one_mul]
    simp only [transpose_mul, transpose_transpose, Matrix.mul_assoc, sub_self, Matrix.zero_mul]

/-- **C45 (projection).** For every matrix the projection is a tangent vector, the remainder is Frobenius-orthogonal to every tangent vector, and tangent vectors are fixed, fields
included. -/
theorem C45_projection {x : Pt m n r} (h : IsPt x) (A : Matrix m n ℝ) :
    IsTan x (proj x A) ∧ (∀ ξ, IsTan x ξ → frob (A - (proj x A).mat) ξ.mat = 0) ∧ (∀ η, IsTan x η → proj x η.mat = η) := by
  refine ⟨proj_tan h A, fun ξ hξ => ?_, fun η hη => ?_⟩
  · have hU : x.Uᵀ * (A - (proj x A).mat) = 0 := by
      rw [proj_mat h, Matrix.mul_sub, Matrix.mul_sub, Matrix.mul_add]
      simp only [← Matrix.mul_assoc, h.U, Matrix.one_mul]
      abel
    have hV : (A - (proj x A).mat) * x.V = 0 := by
      rw [proj_mat h, Matrix.sub_mul, Matrix.sub_mul, Matrix.add_mul]
      simp only [Matrix.mul_assoc, h.V, Matrix.mul_one]
      abel
    have z : ∀ B : Matrix r n ℝ, frob (A - (proj x A).mat) (x.U * B) = 0 := by intro B; rw [frob_mul_left', hU, frob_zero_left]
    have z' : ∀ B : Matrix m r ℝ, frob (A - (proj x A).mat) (B * x.Vᵀ) = 0 := by intro B; rw [frob_mul_right', transpose_transpose, hV, frob_zero_left]
    rw [hξ.mat, frob_add_right, frob_add_right, Matrix.mul_assoc x.U, z, z', z']
    simp
  · have e1 : η.mat * x.V = x.U * η.dD + η.dU * x.D := by
      rw [hη.mat]
      simp only [Matrix.add_mul, Matrix.mul_assoc, h.V, trans_zero hη.V, Matrix.mul_zero, Matrix.mul_one, zero_add]
    have e2 : x.Uᵀ * (η.mat * x.V) = η.dD := by
      rw [e1, Matrix.mul_add, ← Matrix.mul_assoc, ← Matrix.mul_assoc, h.U, hη.U, Matrix.one_mul, Matrix.zero_mul, add_zero]
    have e3 : η.matᵀ * x.U = η.dV * x.Dᵀ + x.V * η.dDᵀ := by
      rw [hη.mat]
      simp only [transpose_add, transpose_mul, transpose_transpose, Matrix.add_mul, Matrix.mul_assoc, h.U, trans_zero hη.U, Matrix.mul_zero, Matrix.mul_one, add_zero]
    have d1 : (η.mat * x.V - x.U * (x.Uᵀ * (η.mat * x.V))) * x.D⁻¹ = η.dU := by
      rw [e2, e1, add_sub_cancel_left, Matrix.mul_assoc, mul_nonsing_inv _ h.D, Matrix.mul_one]
    have d2 : (η.matᵀ * x.U - x.V * (x.Uᵀ * (η.mat * x.V))ᵀ) * x.Dᵀ⁻¹ = η.dV := by
      rw [e2, e3, add_sub_cancel_right, Matrix.mul_assoc, mul_nonsing_inv _ h.DT, Matrix.mul_one]
    unfold proj
    simp only []
    rw [d1, d2, e2]
    unfold assemble
    rw [← hη.mat]

/-- **C45 (tangent space).** The matrices represented by tangent vectors are exactly those without a component between the two orthogonal complements. -/
theorem C45_tangent_space {x : Pt m n r} (h : IsPt x) (A : Matrix m n ℝ) :
    (∃ η, IsTan x η ∧ η.mat = A) ↔ (1 - x.U * x.Uᵀ) * A * (1 - x.V * x.Vᵀ) = 0 := by
  have e : (1 - x.U * x.Uᵀ) * A * (1 - x.V * x.Vᵀ) = A - (proj x A).mat := by
    rw [proj_mat h]
    simp only [Matrix.sub_mul, Matrix.mul_sub, Matrix.one_mul, Matrix.mul_one]
    abel
  rw [e]
  constructor
  · rintro ⟨η, hη, rfl⟩
    rw [(C45_projection h η.mat).2.2 η hη, sub_self]
  · intro hA
    exact ⟨proj x A, proj_tan h A, (sub_eq_zero.mp hA).symm⟩

/-! ## C66 -/

/-- **C66 (fixed rank).** The Riemannian gradient represents the Euclidean derivative on tangent vectors. -/
theorem C66_fixed_rank_gradient {x : Pt m n r} (h : IsPt x) (g : Matrix m n ℝ) :
    IsTan x (proj x g) ∧ ∀ ξ, IsTan x ξ → metric x (proj x g) ξ = frob g ξ.mat := by
  obtain ⟨h1, h2, _⟩ := C45_projection h g
  refine ⟨h1, fun ξ hξ => ?_⟩
  rw [C45_metric h h1 hξ]
  have := h2 ξ hξ
  rw [frob_sub_left] at this
  linarith

/-! ## C64 -/

/-- The curve of points `U(t) D(t) V(t)ᵀ` passes through `x` at time 0 with velocity `η`. -/
structure Through (x : Pt m n r) (η : Vec m n r) (γ : ℝ → Pt m n r) : Prop where
  pt : ∀ t, IsPt (γ t)
  at0 : γ 0 = x
  velU : ∃ U', ED (fun t => (γ t).U) U' 0
  velV : ∃ V', ED (fun t => (γ t).V) V' 0
  velD : ∃ D', ED (fun t => (γ t).D) D' 0
  vel : ED (fun t => (γ t).mat) η.mat 0

theorem hess_tan {x : Pt m n r} (h : IsPt x) (G : Matrix m n ℝ) (η : Vec m n r) (E : Matrix m n ℝ) : IsTan x (hess x G η E) := by
  have hp := proj_tan h E
  refine ⟨?_, ?_, rfl⟩
  · simp only [hess]
    rw [Matrix.mul_add, hp.U, zero_add, ← Matrix.mul_assoc, Matrix.mul_sub, ← Matrix.mul_assoc x.Uᵀ x.U, h.U, Matrix.one_mul, sub_self, Matrix.zero_mul]
  · simp only [hess]
    rw [Matrix.mul_add, hp.V, zero_add, ← Matrix.mul_assoc, Matrix.mul_sub, ← Matrix.mul_assoc x.Vᵀ x.V, h.V, Matrix.one_mul, sub_self, Matrix.zero_mul]

theorem hess_mat {x : Pt m n r} (h : IsPt x) (G : Matrix m n ℝ) (η : Vec m n r) (E : Matrix m n ℝ) :
    (hess x G η E).mat = (proj x E).mat + x.U * (η.dUᵀ * G * (1 - x.V * x.Vᵀ)) + (1 - x.U * x.Uᵀ) * G * η.dV * x.Vᵀ := by
  have e : (hess x G η E).mat = assemble x ((proj x E).dU + (G * η.dV - x.U * (x.Uᵀ * (G * η.dV))) * x.D⁻¹) (proj x E).dD
      ((proj x E).dV + (Gᵀ * η.dU - x.V * (x.Vᵀ * (Gᵀ * η.dU))) * x.Dᵀ⁻¹) := rfl
  have e0 : (proj x E).mat = assemble x (proj x E).dU (proj x E).dD (proj x E).dV := rfl
  rw [e, e0]
  simp only [assemble]
  have e1 : x.U * x.D * ((Gᵀ * η.dU - x.V * (x.Vᵀ * (Gᵀ * η.dU))) * x.Dᵀ⁻¹)ᵀ = x.U * (η.dUᵀ * G * (1 - x.V * x.Vᵀ)) := by
    rw [transpose_mul, transpose_nonsing_inv, transpose_transpose, Matrix.mul_assoc x.U, ← Matrix.mul_assoc x.D, mul_nonsing_inv _ h.D, Matrix.one_mul]
    simp only [transpose_sub, transpose_mul, transpose_transpose, Matrix.mul_assoc, Matrix.mul_sub, Matrix.mul_one]
  have e2 : (G * η.dV - x.U * (x.Uᵀ * (G * η.dV))) * x.D⁻¹ * x.D * x.Vᵀ = (1 - x.U * x.Uᵀ) * G * η.dV * x.Vᵀ := by
    rw [Matrix.mul_assoc _ x.D⁻¹, nonsing_inv_mul _ h.D, Matrix.mul_one]
    simp only [Matrix.sub_mul, Matrix.one_mul, Matrix.mul_assoc]
  rw [transpose_add, Matrix.mul_add, Matrix.add_mul, Matrix.add_mul, e1, e2]
  abel

/-- **C64 (fixed rank).** Along every differentiable curve of points with velocity `η`, if the Euclidean gradients `G(t)` have derivative `E`, the coded Hessian is the tangential
part of the derivative of the Riemannian gradient field: the covariant derivative. -/
theorem C64_fixed_rank_hessian {x : Pt m n r} {η : Vec m n r} (hη : IsTan x η) {γ : ℝ → Pt m n r} (hγ : Through x η γ) {G : ℝ → Matrix m n ℝ} {E : Matrix m n ℝ}
    (hG : ED G E 0) : ∃ W, ED (fun t => (proj (γ t) (G t)).mat) W 0 ∧ (hess x (G 0) η E).mat = (proj x W).mat ∧ IsTan x (hess x (G 0) η E) := by
  have h : IsPt x := hγ.at0 ▸ hγ.pt 0
  obtain ⟨U', hU'⟩ := hγ.velU
  obtain ⟨V', hV'⟩ := hγ.velV
  obtain ⟨D', hD'⟩ := hγ.velD
  have e0U : (γ 0).U = x.U := by rw [hγ.at0]
  have e0V : (γ 0).V = x.V := by rw [hγ.at0]
  have e0D : (γ 0).D = x.D := by rw [hγ.at0]
  -- derivatives of the constraints
  have cU : U'ᵀ * x.U + x.Uᵀ * U' = 0 := by
    have a := hU'.transpose.mul hU'
    have b : ED (fun t => (γ t).Uᵀ * (γ t).U) 0 0 := by
      have : (fun t => (γ t).Uᵀ * (γ t).U) = fun _ => 1 := funext fun t => (hγ.pt t).U
      rw [this]; exact ED.const _ _
    have := a.unique b
    rwa [e0U] at this
  have cV : V'ᵀ * x.V + x.Vᵀ * V' = 0 := by
    have a := hV'.transpose.mul hV'
    have b : ED (fun t => (γ t).Vᵀ * (γ t).V) 0 0 := by
      have : (fun t => (γ t).Vᵀ * (γ t).V) = fun _ => 1 := funext fun t => (hγ.pt t).V
      rw [this]; exact ED.const _ _
    have := a.unique b
    rwa [e0V] at this
  have vel : U' * x.D * x.Vᵀ + x.U * D' * x.Vᵀ + x.U * x.D * V'ᵀ = η.mat := by
    have a := (hU'.mul hD').mul hV'.transpose
    have b : ED (fun t => (γ t).U * (γ t).D * (γ t).Vᵀ) η.mat 0 := by
      have : (fun t => (γ t).U * (γ t).D * (γ t).Vᵀ) = fun t => (γ t).mat := funext fun t => (hγ.pt t).mat.symm
      rw [this]; exact hγ.vel
    have := a.unique b
    rw [e0U, e0V, e0D] at this
    rw [← this, Matrix.add_mul]
  -- horizontal parts of the factor velocities
  have hUp : (1 - x.U * x.Uᵀ) * U' = η.dU := by
    have a := congrArg (fun M => (1 - x.U * x.Uᵀ) * M * x.V) vel
    have z : (1 - x.U * x.Uᵀ) * x.U = 0 := by rw [Matrix.sub_mul, Matrix.one_mul, Matrix.mul_assoc, h.U, Matrix.mul_one, sub_self]
    have y : (1 - x.U * x.Uᵀ) * η.dU = η.dU := by rw [Matrix.sub_mul, Matrix.one_mul, Matrix.mul_assoc, hη.U, Matrix.mul_zero, sub_zero]
    simp only [hη.mat, Matrix.mul_add, Matrix.add_mul, ← Matrix.mul_assoc, z, y, Matrix.zero_mul, add_zero, zero_add] at a
    rw [Matrix.mul_assoc _ x.Vᵀ, Matrix.mul_assoc _ x.Vᵀ, h.V, Matrix.mul_one, Matrix.mul_one] at a
    have := congrArg (· * x.D⁻¹) a
    simpa only [Matrix.mul_assoc, mul_nonsing_inv _ h.D, Matrix.mul_one] using this
  have hVp : (1 - x.V * x.Vᵀ) * V' = η.dV := by
    have a := congrArg (fun M => ((x.Uᵀ * M * (1 - x.V * x.Vᵀ))ᵀ)) vel
    have z : x.Vᵀ * (1 - x.V * x.Vᵀ) = 0 := by rw [Matrix.mul_sub, Matrix.mul_one, ← Matrix.mul_assoc, h.V, Matrix.one_mul, sub_self]
    have y : η.dVᵀ * (1 - x.V * x.Vᵀ) = η.dVᵀ := by rw [Matrix.mul_sub, Matrix.mul_one, ← Matrix.mul_assoc, trans_zero hη.V, Matrix.zero_mul, sub_zero]
    have w : (1 - x.V * x.Vᵀ)ᵀ = 1 - x.V * x.Vᵀ := by simp
    simp only [hη.mat, Matrix.mul_add, Matrix.add_mul, Matrix.mul_assoc, z, y, Matrix.mul_zero, add_zero, zero_add] at a
    rw [← Matrix.mul_assoc x.Uᵀ, ← Matrix.mul_assoc x.Uᵀ, h.U, Matrix.one_mul, Matrix.one_mul] at a
    simp only [transpose_mul, transpose_transpose, w] at a
    have := congrArg (· * x.Dᵀ⁻¹) a
    simpa only [Matrix.mul_assoc, mul_nonsing_inv _ h.DT, Matrix.mul_one] using this
  -- projectors
  have hPU : ED (fun t => (γ t).U * (γ t).Uᵀ) (η.dU * x.Uᵀ + x.U * η.dUᵀ) 0 := by
    refine (hU'.mul hU'.transpose).congr ?_
    rw [e0U, ← hUp]
    have k : U'ᵀ * x.U = -(x.Uᵀ * U') := eq_neg_of_add_eq_zero_left cU
    simp only [transpose_mul, transpose_sub, transpose_transpose, transpose_one, Matrix.mul_sub, Matrix.sub_mul, Matrix.one_mul, Matrix.mul_one]
    rw [← Matrix.mul_assoc U'ᵀ x.U, k]
    simp only [Matrix.neg_mul, Matrix.mul_neg, Matrix.mul_assoc]
    abel
  have hPV : ED (fun t => (γ t).V * (γ t).Vᵀ) (η.dV * x.Vᵀ + x.V * η.dVᵀ) 0 := by
    refine (hV'.mul hV'.transpose).congr ?_
    rw [e0V, ← hVp]
    have k : V'ᵀ * x.V = -(x.Vᵀ * V') := eq_neg_of_add_eq_zero_left cV
    simp only [transpose_mul, transpose_sub, transpose_transpose, transpose_one, Matrix.mul_sub, Matrix.sub_mul, Matrix.one_mul, Matrix.mul_one]
    rw [← Matrix.mul_assoc V'ᵀ x.V, k]
    simp only [Matrix.neg_mul, Matrix.mul_neg, Matrix.mul_assoc]
    abel
  have hfun : (fun t => (proj (γ t) (G t)).mat) =
      fun t => (γ t).U * (γ t).Uᵀ * G t + G t * ((γ t).V * (γ t).Vᵀ) - (γ t).U * (γ t).Uᵀ * G t * ((γ t).V * (γ t).Vᵀ) := funext fun t => proj_mat (hγ.pt t) (G t)
  have hd := ((hPU.mul hG).add (hG.mul hPV)).sub ((hPU.mul hG).mul hPV)
  rw [hfun]
  refine ⟨_, hd, ?_, hess_tan h _ _ _⟩
  rw [e0U, e0V]
  have hQ : (1 - x.V * x.Vᵀ) * (x.V * x.Vᵀ) = 0 := by
    rw [Matrix.sub_mul, Matrix.one_mul, ← Matrix.mul_assoc, Matrix.mul_assoc x.V, h.V, Matrix.mul_one, sub_self]
  have hP : x.U * x.Uᵀ * (1 - x.U * x.Uᵀ) = 0 := by
    rw [Matrix.mul_sub, Matrix.mul_one, ← Matrix.mul_assoc, Matrix.mul_assoc x.U, h.U, Matrix.mul_one, sub_self]
  have key : (η.dU * x.Uᵀ + x.U * η.dUᵀ) * G 0 + x.U * x.Uᵀ * E + (E * (x.V * x.Vᵀ) + G 0 * (η.dV * x.Vᵀ + x.V * η.dVᵀ)) -
      (((η.dU * x.Uᵀ + x.U * η.dUᵀ) * G 0 + x.U * x.Uᵀ * E) * (x.V * x.Vᵀ) + x.U * x.Uᵀ * G 0 * (η.dV * x.Vᵀ + x.V * η.dVᵀ)) =
      (proj x E).mat + (η.dU * x.Uᵀ + x.U * η.dUᵀ) * G 0 * (1 - x.V * x.Vᵀ) + (1 - x.U * x.Uᵀ) * G 0 * (η.dV * x.Vᵀ + x.V * η.dVᵀ) := by
    rw [proj_mat h]
    generalize η.dU * x.Uᵀ + x.U * η.dUᵀ = P'
    generalize η.dV * x.Vᵀ + x.V * η.dVᵀ = Q'
    simp only [Matrix.sub_mul, Matrix.mul_sub, Matrix.add_mul, Matrix.one_mul, Matrix.mul_one]
    abel
  rw [key, hess_mat h]
  have add : ∀ A B : Matrix m n ℝ, (proj x (A + B)).mat = (proj x A).mat + (proj x B).mat := by
    intro A B
    simp only [proj_mat h, Matrix.add_mul, Matrix.mul_add]
    abel
  rw [add, add, (C45_projection h 0).2.2 _ (proj_tan h E)]
  congr 1
  · congr 1
    rw [proj_mat h, Matrix.mul_assoc _ (1 - x.V * x.Vᵀ) (x.V * x.Vᵀ), hQ, Matrix.mul_zero, Matrix.mul_assoc (x.U * x.Uᵀ), Matrix.mul_assoc _ (1 - x.V * x.Vᵀ) (x.V * x.Vᵀ), hQ,
      Matrix.mul_zero, Matrix.mul_zero, add_zero, sub_zero, ← Matrix.mul_assoc (x.U * x.Uᵀ) _ (1 - x.V * x.Vᵀ), ← Matrix.mul_assoc (x.U * x.Uᵀ) _ (G 0)]
    have : x.U * x.Uᵀ * (η.dU * x.Uᵀ + x.U * η.dUᵀ) = x.U * η.dUᵀ := by
      rw [Matrix.mul_assoc, Matrix.mul_add, ← Matrix.mul_assoc x.Uᵀ, hη.U, ← Matrix.mul_assoc x.Uᵀ, h.U, Matrix.zero_mul, zero_add, Matrix.one_mul]
    rw [this]
    simp only [Matrix.mul_assoc]
  · rw [proj_mat h, ← Matrix.mul_assoc (x.U * x.Uᵀ) _ (η.dV * x.Vᵀ + x.V * η.dVᵀ), ← Matrix.mul_assoc (x.U * x.Uᵀ) _ (G 0), hP, Matrix.zero_mul, Matrix.zero_mul, Matrix.zero_mul,
      zero_add, sub_zero]
    have : (η.dV * x.Vᵀ + x.V * η.dVᵀ) * (x.V * x.Vᵀ) = η.dV * x.Vᵀ := by
      rw [← Matrix.mul_assoc, Matrix.add_mul, Matrix.mul_assoc η.dV, h.V, Matrix.mul_assoc x.V, trans_zero hη.V, Matrix.mul_zero, add_zero, Matrix.mul_one]
    rw [Matrix.mul_assoc _ _ (x.V * x.Vᵀ), this, Matrix.mul_assoc _ _ x.Vᵀ]

/-- **C64 (fixed rank, symmetry).** If the Euclidean Hessian is symmetric, so is the coded Riemannian Hessian on tangent vectors. -/
theorem C64_fixed_rank_symmetric {x : Pt m n r} (h : IsPt x) (G : Matrix m n ℝ) (H : Matrix m n ℝ → Matrix m n ℝ) (hH : ∀ A B, frob (H A) B = frob A (H B)) {η ξ : Vec m n r}
    (hη : IsTan x η) (hξ : IsTan x ξ) : metric x (hess x G η (H η.mat)) ξ = metric x η (hess x G ξ (H ξ.mat)) := by
  have half : ∀ ζ ζ' : Vec m n r, IsTan x ζ → IsTan x ζ' → frob (hess x G ζ (H ζ.mat)).mat ζ'.mat = frob (H ζ.mat) ζ'.mat + (frob (G * ζ'.dV * x.Dᵀ) ζ.dU * 1 +
      frob (G * ζ.dV * x.Dᵀ) ζ'.dU) := by
    intro ζ ζ' hζ hζ'
    have p := C45_projection h (H ζ.mat)
    have q := p.2.1 ζ' hζ'
    rw [frob_sub_left, sub_eq_zero] at q
    rw [hess_mat h, frob_add_left, frob_add_left, ← q, add_assoc]
    congr 1
    have z1 : x.Uᵀ * ζ'.mat * (1 - x.V * x.Vᵀ) = x.D * ζ'.dVᵀ := by
      have z : x.Vᵀ * (1 - x.V * x.Vᵀ) = 0 := by rw [Matrix.mul_sub, Matrix.mul_one, ← Matrix.mul_assoc, h.V, Matrix.one_mul, sub_self]
      have y : ζ'.dVᵀ * (1 - x.V * x.Vᵀ) = ζ'.dVᵀ := by rw [Matrix.mul_sub, Matrix.mul_one, ← Matrix.mul_assoc, trans_zero hζ'.V, Matrix.zero_mul, sub_zero]
      rw [hζ'.mat]
      simp only [Matrix.mul_add, Matrix.add_mul, Matrix.mul_assoc, z, y, Matrix.mul_zero, add_zero]
      rw [← Matrix.mul_assoc x.Uᵀ, h.U, Matrix.one_mul]
    have z2 : (1 - x.U * x.Uᵀ) * ζ'.mat * x.V = ζ'.dU * x.D := by
      have z : (1 - x.U * x.Uᵀ) * x.U = 0 := by rw [Matrix.sub_mul, Matrix.one_mul, Matrix.mul_assoc, h.U, Matrix.mul_one, sub_self]
      have y : (1 - x.U * x.Uᵀ) * ζ'.dU = ζ'.dU := by rw [Matrix.sub_mul, Matrix.one_mul, Matrix.mul_assoc, hζ'.U, Matrix.mul_zero, sub_zero]
      rw [hζ'.mat]
      simp only [Matrix.mul_add, Matrix.add_mul, ← Matrix.mul_assoc, z, y, Matrix.zero_mul, zero_add]
      rw [Matrix.mul_assoc _ x.Vᵀ, h.V, Matrix.mul_one]
    have sQ : (1 - x.V * x.Vᵀ)ᵀ = 1 - x.V * x.Vᵀ := by simp
    have sP : (1 - x.U * x.Uᵀ)ᵀ = 1 - x.U * x.Uᵀ := by simp
    congr 1
    · rw [frob_mul_left, frob_mul_right, sQ, z1, frob_mul_left, transpose_transpose, mul_one, frob_mul_right, transpose_transpose, frob_mul_right]
      simp only [Matrix.mul_assoc]
    · rw [frob_mul_right, transpose_transpose, Matrix.mul_assoc, frob_mul_left, sP, ← Matrix.mul_assoc, z2, frob_mul_right']
  rw [C45_metric h (hess_tan h _ _ _) hξ, C45_metric h hη (hess_tan h _ _ _), frob_comm η.mat, half η ξ hη hξ, half ξ η hξ hη, hH, frob_comm]
  ring

/-! ## C44 -/

/-- The factorisations behind one orthonormal factor of the retraction: `M = Q R`, `R = RU diag(s) RVt`. -/
structure Fac (M Q : Matrix m r ℝ) (RU : Matrix r r ℝ) (s : r → ℝ) (RVt : Matrix r r ℝ) : Prop where
  hQ : Qᵀ * Q = 1
  hRU : RUᵀ * RU = 1
  hRVt : RVtᵀ * RVt = 1
  hs : ∀ i, 0 ≤ s i
  eq : Q * (RU * diagonal s * RVt) = M

theorem Fac.ortho {M Q : Matrix m r ℝ} {RU RVt : Matrix r r ℝ} {s : r → ℝ} (h : Fac M Q RU s RVt) : (Q * RU)ᵀ * (Q * RU) = 1 := by
  rw [transpose_mul, Matrix.mul_assoc, ← Matrix.mul_assoc Qᵀ, h.hQ, Matrix.one_mul, h.hRU]

theorem Fac.svd {M Q : Matrix m r ℝ} {RU RVt : Matrix r r ℝ} {s : r → ℝ} (h : Fac M Q RU s RVt) : Q * RU * diagonal s * RVt = M := by
  rw [← h.eq]; simp only [Matrix.mul_assoc]

theorem orthFactor_polar (Q : Matrix m r ℝ) (RU RVt : Matrix r r ℝ) : orthFactor Q RU RVt = Stiefel.polarRetraction (Q * RU) RVt := by
  rw [orthFactor, Stiefel.polarRetraction, Matrix.mul_assoc]

theorem isTangent_of {U dU : Matrix m r ℝ} (h : Uᵀ * dU = 0) : Stiefel.IsTangent U dU := by
  unfold Stiefel.IsTangent
  rw [h]; simp

/-- **C44, proved part.** The retraction returns orthonormal factors, polar factors of `U + dU` and `V + dV`; the matrix has the rank of the new core, and it is a point again when the
core is invertible; retracting zero returns the point. Missing: the code does not ensure that the new core is invertible, see `C44_rank_drops`. -/
theorem C44_rank_partial {x : Pt m n r} (h : IsPt x) {η : Vec m n r} (hη : IsTan x η) {Q : Matrix m r ℝ} {RU RVt : Matrix r r ℝ} {s : r → ℝ} {Q' : Matrix n r ℝ}
    {RU' RVt' : Matrix r r ℝ} {s' : r → ℝ} (hf : Fac (x.U + η.dU) Q RU s RVt) (hf' : Fac (x.V + η.dV) Q' RU' s' RVt') :
    let y := retract x η (orthFactor Q RU RVt) (orthFactor Q' RU' RVt')
    y.Uᵀ * y.U = 1 ∧ y.Vᵀ * y.V = 1 ∧ y.mat = y.U * y.D * y.Vᵀ ∧ (∃ C, y.U * (Cᵀ * C) = x.U + η.dU) ∧ (∃ C, y.V * (Cᵀ * C) = x.V + η.dV) ∧ y.mat.rank = (x.D + η.dD).rank ∧
    (IsUnit (x.D + η.dD).det → IsPt y ∧ y.mat.rank = x.mat.rank) ∧ (η.dU = 0 → η.dD = 0 → η.dV = 0 → y = x) := by
  intro y
  have a := Stiefel.C36_polar_retraction h.U hf.ortho hf.hRVt hf.hs hf.svd
  have b := Stiefel.C36_polar_retraction h.V hf'.ortho hf'.hRVt hf'.hs hf'.svd
  rw [← orthFactor_polar] at a b
  have hr : y.mat.rank = (x.D + η.dD).rank := rank_outer a.1 b.1 _
  refine ⟨a.1, b.1, rfl, ⟨diagonal (fun i => √(s i)) * RVt, ?_⟩, ⟨diagonal (fun i => √(s' i)) * RVt', ?_⟩, hr, fun hd => ⟨⟨a.1, b.1, hd, rfl⟩, ?_⟩, fun h1 h2 h3 => ?_⟩
  · rw [← a.2.1]
    have e : (fun i => √(s i) * √(s i)) = s := funext fun i => Real.mul_self_sqrt (hf.hs i)
    rw [transpose_mul, diagonal_transpose, Matrix.mul_assoc, ← Matrix.mul_assoc (diagonal _) (diagonal _), diagonal_mul_diagonal, e, ← Matrix.mul_assoc RVtᵀ]
    rfl
  · rw [← b.2.1]
    have e : (fun i => √(s' i) * √(s' i)) = s' := funext fun i => Real.mul_self_sqrt (hf'.hs i)
    rw [transpose_mul, diagonal_transpose, Matrix.mul_assoc, ← Matrix.mul_assoc (diagonal _) (diagonal _), diagonal_mul_diagonal, e, ← Matrix.mul_assoc RVt'ᵀ]
    rfl
  · rw [hr, h.mat, rank_outer h.U h.V, rank_of_isUnit _ ((isUnit_iff_isUnit_det _).mpr hd), rank_of_isUnit _ ((isUnit_iff_isUnit_det _).mpr h.D)]
  · show Pt.mk _ _ _ _ = x
    rw [a.2.2 h1, b.2.2 h3, h2, add_zero, ← h.mat]

/-- **C44, negation.** At every point there is a tangent vector whose retraction has smaller rank: it is the zero matrix. -/
theorem C44_rank_drops [Nonempty r] {x : Pt m n r} (h : IsPt x) :
    ∃ η, IsTan x η ∧ ∀ Uy Vy, (retract x η Uy Vy).mat = 0 ∧ (retract x η Uy Vy).mat.rank < x.mat.rank := by
  refine ⟨⟨-x.mat, 0, -x.D, 0⟩, ⟨by simp, by simp, by simp [h.mat]⟩, fun Uy Vy => ?_⟩
  have e : (retract x ⟨-x.mat, 0, -x.D, 0⟩ Uy Vy).mat = 0 := by simp [retract]
  rw [e, rank_zero, h.mat, rank_outer h.U h.V, rank_of_isUnit _ ((isUnit_iff_isUnit_det _).mpr h.D)]
  exact ⟨rfl, Fintype.card_pos⟩

/-! ## C62 -/

theorem diffFactor_eq {Uy : Matrix m r ℝ} {s : r → ℝ} {Vt : Matrix r r ℝ} {dη dξ : Matrix m r ℝ} (h0 : dη ≠ 0) :
    diffFactor Uy s Vt dη dξ = some (Stiefel.diffPolar Uy s Vt dη dξ) := by
  have : frob dη dη ≠ 0 := fun h => h0 (frob_self_eq_zero.mp h)
  rw [diffFactor, if_neg this, Stiefel.diffPolar]
  simp only [neg_smul, sub_eq_add_neg, smul_add, smul_neg]

/-- **C62 (fixed rank), proved part.** For `ξ = c η` with `c ≥ 0`, a tangent `η` whose two outer components are nonzero, and any factorisations along the ray, the result of
`DiffRetraction` is defined and is the velocity of `t ↦ R(η + t ξ)` at 0, component by component and for the matrix. Missing: other directions are not implemented; `c < 0` and zero
components are wrong (`C62_fixed_rank_nan`). -/
theorem C62_fixed_rank_partial {x : Pt m n r} (h : IsPt x) {η : Vec m n r} (hη : IsTan x η) (hU0 : η.dU ≠ 0) (hV0 : η.dV ≠ 0) {c : ℝ} (hc : 0 ≤ c)
    (Q : ℝ → Matrix m r ℝ) (RU RVt : ℝ → Matrix r r ℝ) (s : ℝ → r → ℝ) (Q' : ℝ → Matrix n r ℝ) (RU' RVt' : ℝ → Matrix r r ℝ) (s' : ℝ → r → ℝ)
    (hf : ∀ t, Fac (x.U + (η.dU + t • (c • η.dU))) (Q t) (RU t) (s t) (RVt t)) (hf' : ∀ t, Fac (x.V + (η.dV + t • (c • η.dV))) (Q' t) (RU' t) (s' t) (RVt' t)) :
    let y := fun t => retract x (scalarAdd t (scalarTimes c η) η) (orthFactor (Q t) (RU t) (RVt t)) (orthFactor (Q' t) (RU' t) (RVt' t))
    ∃ ζ, diffRetract (y 0) (s 0) (RVt 0) (s' 0) (RVt' 0) η (scalarTimes c η) = some ζ ∧
      ED (fun t => (y t).U) ζ.dU 0 ∧ ED (fun t => (y t).D) ζ.dD 0 ∧ ED (fun t => (y t).V) ζ.dV 0 ∧ ED (fun t => (y t).mat) ζ.mat 0 := by
  intro y
  have e1 : diffFactor (y 0).U (s 0) (RVt 0) η.dU (scalarTimes c η).dU = some (Stiefel.diffPolar (y 0).U (s 0) (RVt 0) η.dU (c • η.dU)) := diffFactor_eq hU0
  have e2 : diffFactor (y 0).V (s' 0) (RVt' 0) η.dV (scalarTimes c η).dV = some (Stiefel.diffPolar (y 0).V (s' 0) (RVt' 0) η.dV (c • η.dV)) := diffFactor_eq hV0
  have dU : ED (fun t => (y t).U) (Stiefel.diffPolar (y 0).U (s 0) (RVt 0) η.dU (c • η.dU)) 0 := by
    intro i j
    have := Stiefel.C62_polar_diff_retraction h.U (isTangent_of hη.U) hU0 hc rfl (fun t => Q t * RU t) s RVt (fun t => (hf t).ortho) (fun t => (hf t).hRVt) (fun t => (hf t).hs)
      (fun t => (hf t).svd) i j
    simp only [← orthFactor_polar] at this
    exact this
  have dV : ED (fun t => (y t).V) (Stiefel.diffPolar (y 0).V (s' 0) (RVt' 0) η.dV (c • η.dV)) 0 := by
    intro i j
    have := Stiefel.C62_polar_diff_retraction h.V (isTangent_of hη.V) hV0 hc rfl (fun t => Q' t * RU' t) s' RVt' (fun t => (hf' t).ortho) (fun t => (hf' t).hRVt) (fun t => (hf' t).hs)
      (fun t => (hf' t).svd) i j
    simp only [← orthFactor_polar] at this
    exact this
  have dD : ED (fun t => (y t).D) (c • η.dD) 0 := by
    have : (fun t => (y t).D) = fun t => (x.D + η.dD) + t • (c • η.dD) := by
      funext t
      show x.D + (η.dD + t • (c • η.dD)) = _
      rw [add_assoc]
    rw [this]
    exact ED.line _ _ _
  refine ⟨_, by rw [diffRetract, e1, e2]; rfl, dU, dD, dV, ?_⟩
  refine ((dU.mul dD).mul dV.transpose).congr ?_
  simp only [assemble, scalarTimes, Matrix.add_mul]
  abel

/-- **C62 (fixed rank), negation.** Whenever one of the outer components of the step is zero, `DiffRetraction` returns NaN, although the retraction is differentiable: for a pure core
step the factors are constant. -/
theorem C62_fixed_rank_nan {x : Pt m n r} (h : IsPt x) {η : Vec m n r} (h0 : η.dU = 0) (y : Pt m n r) (sU : r → ℝ) (VtU : Matrix r r ℝ) (sV : r → ℝ) (VtV : Matrix r r ℝ) (c : ℝ) :
    diffRetract y sU VtU sV VtV η (scalarTimes c η) = none ∧
    ∀ (t : ℝ) (Q : Matrix m r ℝ) (RU RVt : Matrix r r ℝ) (s : r → ℝ), Fac (x.U + (scalarAdd t (scalarTimes c η) η).dU) Q RU s RVt → orthFactor Q RU RVt = x.U := by
  refine ⟨by rw [diffRetract, diffFactor, h0, if_pos (frob_zero_left _)]; rfl, fun t Q RU RVt s hf => ?_⟩
  have a := Stiefel.C36_polar_retraction h.U hf.ortho hf.hRVt hf.hs hf.svd
  rw [orthFactor_polar]
  exact a.2.2 (by simp [scalarAdd, scalarTimes, h0])

/-! ## Concrete instances -/

/-- A rank-one `2 × 2` point. -/
def exPt : Pt (Fin 2) (Fin 2) (Fin 1) := ⟨!![2, 0; 0, 0], !![1; 0], !![2], !![1; 0]⟩
/-- A tangent vector with all three components nonzero. -/
def exVec : Vec (Fin 2) (Fin 2) (Fin 1) := ⟨!![5, 6; 2, 0], !![0; 1], !![5], !![0; 3]⟩

theorem exPt_isPt : IsPt exPt := by
  refine ⟨?_, ?_, ?_, ?_⟩
  · ext i j; fin_cases i; fin_cases j; simp [exPt, Matrix.mul_apply]
  · ext i j; fin_cases i; fin_cases j; simp [exPt, Matrix.mul_apply]
  · simp [exPt]
  · ext i j; fin_cases i <;> fin_cases j <;> simp [exPt, Matrix.mul_apply]

theorem exVec_isTan : IsTan exPt exVec := by
  refine ⟨?_, ?_, ?_⟩
  · ext i j; fin_cases i; fin_cases j; simp [exPt, exVec, Matrix.mul_apply]
  · ext i j; fin_cases i; fin_cases j; simp [exPt, exVec, Matrix.mul_apply]
  · ext i j; fin_cases i <;> fin_cases j <;> simp [exPt, exVec, Matrix.mul_apply, Matrix.vecMul, dotProduct] <;> norm_num

example : metric exPt exVec exVec = frob exVec.mat exVec.mat := C45_metric exPt_isPt exVec_isTan exVec_isTan
example : proj exPt exVec.mat = exVec := (C45_projection exPt_isPt exVec.mat).2.2 _ exVec_isTan
example : ∃ η, IsTan exPt η ∧ ∀ Uy Vy, (retract exPt η Uy Vy).mat = 0 ∧ (retract exPt η Uy Vy).mat.rank < exPt.mat.rank := C44_rank_drops exPt_isPt
example : exVec.dU ≠ 0 ∧ exVec.dV ≠ 0 := by
  constructor
  · intro h; have := congrFun (congrFun h 1) 0; simp [exVec] at this
  · intro h; have := congrFun (congrFun h 1) 0; simp [exVec] at this

/-- A curve of points through `exPt`. -/
example : Through exPt ⟨exPt.mat, 0, exPt.D, 0⟩ (fun t => ⟨Real.exp t • exPt.mat, exPt.U, Real.exp t • exPt.D, exPt.V⟩) := by
  have h := exPt_isPt
  have e : ∀ {a b : Type} (M : Matrix a b ℝ), ED (fun t => Real.exp t • M) M 0 := by
    intro a b M i j
    have := (Real.hasDerivAt_exp 0).mul_const (M i j)
    rw [Real.exp_zero, one_mul] at this
    exact this
  refine ⟨fun t => ⟨h.U, h.V, ?_, ?_⟩, by simp, ⟨0, ED.const _ _⟩, ⟨0, ED.const _ _⟩, ⟨_, e _⟩, e _⟩
  · simp [exPt]
  · simp only [h.mat, Matrix.mul_smul, Matrix.smul_mul]

end Verif.FixedRank
