import Verif.Manifold.Intrinsic
import Verif.Manifold.Stiefel
import Mathlib.Analysis.Complex.Exponential

/-!
# The manifold of symmetric positive definite matrices

Model of `Manifolds/SPDManifold.cpp`. The Cholesky factor `x.Field("_L")` and the eigendecompositions obtained from LAPACK (`syev`) are parameters; the theorems assume
their specification (`x = L Lᵀ`, `S = V diag(λ) Vᵀ` with `Vᵀ V = 1`). `TriangleLinSol` by `L` is multiplication by `L⁻¹`. Entries are real numbers.
-/

set_option linter.unusedVariables false

namespace Verif.SPD

open Matrix Verif.Elem Verif.Intr

variable {n : Nat}

/-- `SPDManifold::ExtrProjection`, SPDManifold.cpp:93-108: the assignments in program order; `e` is the buffer of the copy `inetax`. The second assignment of the inner
loop reads the entry just written, so it writes the same value. -/
noncomputable def projWrites (n : Nat) (e : Nat → ℝ) : List (Nat × ℝ) :=
  forN n fun i => (i + i * n, e (i + i * n)) :: forRange (i + 1) (n - 1) fun j =>
    [(i + j * n, (e (i + j * n) + e (j + i * n)) * (1 / 2)), (j + i * n, (e (i + j * n) + e (j + i * n)) * (1 / 2))]

/-- `SPDManifold::ExtrProjection`, SPDManifold.cpp:93-108; `junk` is the content of the memory obtained for the result. -/
noncomputable def proj (junk : Nat → ℝ) (η : Matrix (Fin n) (Fin n) ℝ) : Matrix (Fin n) (Fin n) ℝ := unflat n n (writeAll junk (projWrites n (flat η)))

/-- Body of the in-place symmetrisation loops, SPDManifold.cpp:211-222 and 287-294, for the pair `(i, j)`, `i < j`. -/
noncomputable def symStep (n : Nat) (b : Nat → ℝ) (q : Nat × Nat) : Nat → ℝ :=
  let v := (b (q.2 + q.1 * n) + b (q.1 + q.2 * n)) * (1 / 2)
  Function.update (Function.update b (q.2 + q.1 * n) v) (q.1 + q.2 * n) v

/-- The in-place symmetrisation loops, SPDManifold.cpp:211-222 and 287-294. -/
noncomputable def symLoop (n : Nat) (b : Nat → ℝ) : Nat → ℝ := (pairs n).foldl (symStep n) b

/-- The symmetrisation of a matrix object in place. -/
noncomputable def symInPlace (A : Matrix (Fin n) (Fin n) ℝ) : Matrix (Fin n) (Fin n) ℝ := unflat n n (symLoop n (flat A))

/-- `SPDManifold::Metric`, SPDManifold.cpp:58-71, extrinsic approach with the affine invariant metric: `((x % η) / x).DotProduct(ξ)`. -/
noncomputable def metricAF (x η ξ : Matrix (Fin n) (Fin n) ℝ) : ℝ := Mat.frob (x⁻¹ * η * x⁻¹) ξ

/-- `SPDManifold::Metric`, SPDManifold.cpp:58-71, extrinsic approach with the Euclidean metric. -/
def metricEuc (η ξ : Matrix (Fin n) (Fin n) ℝ) : ℝ := Mat.frob η ξ

/-- `SPDManifold::SecOrdRetraction`, SPDManifold.cpp:237-261, after the conversion of `etax` to the extrinsic representation. -/
noncomputable def secOrd (L x η : Matrix (Fin n) (Fin n) ℝ) : Matrix (Fin n) (Fin n) ℝ :=
  let LiE := L⁻¹ * η
  (1 / 2 : ℝ) • (LiEᵀ * LiE) + η + x

/-- `SPDManifold::DiffSecOrdRetraction`, SPDManifold.cpp:263-318, extrinsic result (the fields `beta`, `betaTReta` are not modelled here). -/
noncomputable def diffSecOrd (L η ξ : Matrix (Fin n) (Fin n) ℝ) : Matrix (Fin n) (Fin n) ℝ :=
  let LiE := L⁻¹ * η
  let LiX := L⁻¹ * ξ
  symInPlace (LiEᵀ * LiX) + ξ

/-- `Element::ExpSym`, Element.cpp:965-986, real branch: `V diag(exp λ) Vᵀ` from the eigendecomposition. -/
noncomputable def expSym (V : Matrix (Fin n) (Fin n) ℝ) (lam : Fin n → ℝ) : Matrix (Fin n) (Fin n) ℝ := V * diagonal (fun i => Real.exp (lam i)) * Vᵀ

/-- The argument of `ExpSym` in `ExpRetraction`: `L⁻¹ (L⁻¹ η)ᵀ`, SPDManifold.cpp:206-207. -/
noncomputable def whitened (L η : Matrix (Fin n) (Fin n) ℝ) : Matrix (Fin n) (Fin n) ℝ := L⁻¹ * (L⁻¹ * η)ᵀ

/-- `SPDManifold::ExpRetraction`, SPDManifold.cpp:194-229; `V`, `lam` are the eigenvectors and eigenvalues of `whitened L η`. -/
noncomputable def expRetr (L V : Matrix (Fin n) (Fin n) ℝ) (lam : Fin n → ℝ) : Matrix (Fin n) (Fin n) ℝ := symInPlace (L * expSym V lam * Lᵀ)

/-- `AlphaABaddBetaThis` (`gemm`): `this := alpha A B + beta this`. -/
def gemm (alpha : ℝ) (A B : Matrix (Fin n) (Fin n) ℝ) (beta : ℝ) (C : Matrix (Fin n) (Fin n) ℝ) : Matrix (Fin n) (Fin n) ℝ := alpha • (A * B) + beta • C

/-- The matrix `tmp` of `SPDManifold::ParallelTranslation`, SPDManifold.cpp:502-505; `V`, `lam` come from the eigendecomposition of `0.5 * whitened L η`.
`E.TriangleLinSol(L, T).GetTranspose()` is `((Lᵀ)⁻¹ E)ᵀ`. -/
noncomputable def ptFactor (L V : Matrix (Fin n) (Fin n) ℝ) (lam : Fin n → ℝ) : Matrix (Fin n) (Fin n) ℝ := L * ((Lᵀ)⁻¹ * expSym V lam)ᵀ

/-- `SPDManifold::ParallelTranslation`, SPDManifold.cpp:484-509: the two `gemm` calls as written, the first one with factor `0`; `r0` is the previous content of the
result. -/
noncomputable def parTran (L η V : Matrix (Fin n) (Fin n) ℝ) (lam : Fin n → ℝ) (ξ r0 : Matrix (Fin n) (Fin n) ℝ) : Matrix (Fin n) (Fin n) ℝ :=
  let LiE := L⁻¹ * η
  let tmp := ptFactor L V lam
  let LiE := gemm 0 tmp ξ 0 LiE
  gemm 1 LiE tmpᵀ 0 r0

/-- `SPDManifold::VectorTransportParallelization`, SPDManifold.cpp:511-520, extrinsic approach, affine invariant metric; `Lx`, `Ly` are the Cholesky factors of `x`, `y`. -/
noncomputable def paraTransport (junk : Nat → ℝ) (Lx Ly ξ : Matrix (Fin n) (Fin n) ℝ) : Matrix (Fin n) (Fin n) ℝ := spdExtrAF junk Ly (spdIntrAF Lx ξ)

/-- The matrix decomposed by `SPDManifold::DistAF`, SPDManifold.cpp:443-444: `(L₁⁻¹ L₂) (L₁⁻¹ L₂)ᵀ`. -/
noncomputable def distArg (L1 L2 : Matrix (Fin n) (Fin n) ℝ) : Matrix (Fin n) (Fin n) ℝ := (L1⁻¹ * L2) * (L1⁻¹ * L2)ᵀ

/-- `SPDManifold::DistAF`, SPDManifold.cpp:431-448: the Frobenius norm of the vector of eigenvalues `lam` of `distArg`. -/
noncomputable def distAF (lam : Fin n → ℝ) : ℝ := Real.sqrt (∑ i, lam i * lam i)

/-- `SPDManifold::DistEuc`, SPDManifold.cpp:570-573. -/
noncomputable def distEuc (x1 x2 : Matrix (Fin n) (Fin n) ℝ) : ℝ := Real.sqrt (Mat.frob (x1 - x2) (x1 - x2))

/-- `SPDManifold::EucGradToGradAF`, SPDManifold.cpp:340-356. -/
def gradAF (x g : Matrix (Fin n) (Fin n) ℝ) : Matrix (Fin n) (Fin n) ℝ := xᵀ * g * x

/-- `SPDManifold::EucGradToGradEuc`, SPDManifold.cpp:450-464. -/
def gradEuc (g : Matrix (Fin n) (Fin n) ℝ) : Matrix (Fin n) (Fin n) ℝ := g

/-- `SPDManifold::EucHvToHvAF`, SPDManifold.cpp:358-363: `E` is the Euclidean Hessian applied to `η`, `G` the stored Euclidean gradient. -/
noncomputable def hessAF (x G η E : Matrix (Fin n) (Fin n) ℝ) : Matrix (Fin n) (Fin n) ℝ :=
  let tmp := x * G * η
  x * E * x + (1 / 2 : ℝ) • (tmp + tmpᵀ)

end Verif.SPD
