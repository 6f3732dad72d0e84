import Verif.Manifold.Mat
import Mathlib.Analysis.Real.Sqrt
import Mathlib.Data.Matrix.ColumnRowPartitioned

/-!
# Stiefel and Grassmann manifolds

Functions of `Manifolds/Stiefel.cpp` and `Manifolds/Grassmann.cpp` on extrinsic (`n × p`) representations. LAPACK factorisations (QR, SVD, LU, Sylvester
solver) are arguments; their mathematical specifications are hypotheses of the theorems. `AlphaABaddBetaThis(a, A, tA, B, tB, b)` is `a·op(A)·op(B) + b·this`.
The intrinsic representation is in `Verif.Manifold.Intrinsic`.
-/

namespace Verif.Stiefel

open Matrix Verif.Mat

variable {n p : Type*} [Fintype n] [Fintype p] [DecidableEq n] [DecidableEq p]

/-- `(tmp + tmp.GetTranspose()) / 2`, Stiefel.cpp:128. -/
noncomputable def sym (A : Matrix p p ℝ) : Matrix p p ℝ := (1 / 2 : ℝ) • (A + Aᵀ)

/-- `Stiefel::ExtrProjection`, Stiefel.cpp:125-132. -/
noncomputable def proj (x η : Matrix n p ℝ) : Matrix n p ℝ := η - x * sym (xᵀ * η)

/-- `Grassmann::ExtrProjection`, Grassmann.cpp:42-49. -/
def gProj (x η : Matrix n p ℝ) : Matrix n p ℝ := η - x * (xᵀ * η)

/-- `Stiefel::Metric` with the canonical metric, Stiefel.cpp:93-98. -/
noncomputable def canonMetric (x η ξ : Matrix n p ℝ) : ℝ := frob η ξ - (1 / 2) * frob (ηᵀ * x) (ξᵀ * x)

/-- `Stiefel::EucGradToGrad` with the canonical metric, Stiefel.cpp:331-336. With the Euclidean metric it is `proj`. -/
def canonGrad (x g : Matrix n p ℝ) : Matrix n p ℝ := g - x * (gᵀ * x)

/-- `Stiefel::EucHvToHv` with the Euclidean metric, Stiefel.cpp:342-348; `G` is the Euclidean gradient, `E` the action of the Euclidean Hessian on `η`. -/
noncomputable def hess (x G η E : Matrix n p ℝ) : Matrix n p ℝ := proj x (E - η * sym (xᵀ * G))

/-- `Grassmann::EucHvToHv`, Grassmann.cpp:204-210. -/
def gHess (x G η E : Matrix n p ℝ) : Matrix n p ℝ := gProj x (E - η * (xᵀ * G))

/-- `Stiefel::EucHvToHv` with the canonical metric, Stiefel.cpp:349-369, statement by statement. -/
noncomputable def canonHess (x G η E : Matrix n p ℝ) : Matrix n p ℝ :=
  let tmp := Gᵀ * η
  let tmp2 := xᵀ * G
  let r := E - x * (Eᵀ * x)
  let r := r - x * ((1 / 2 : ℝ) • (tmp - tmpᵀ))
  let r := r - η * (Gᵀ * x)
  let tmp3 := (1 / 2 : ℝ) • (ηᵀ * x)
  let r := r - G * tmp3
  let r := r - (1 / 2 : ℝ) • (η * tmp2)
  r + x * (tmp3ᵀ * tmp2)

/-- The formula of the comment in Stiefel.cpp:354-355 (not what the statements compute). -/
noncomputable def canonHessComment (x G η E : Matrix n p ℝ) : Matrix n p ℝ :=
  E - x * (Eᵀ * x) - (1 / 2 : ℝ) • (x * (Gᵀ * η - (Gᵀ * η)ᵀ)) - (1 / 2 : ℝ) • (η * (Gᵀ * x) - G * (ηᵀ * x))
    - (1 / 2 : ℝ) • (η * (xᵀ * G) - x * (xᵀ * η) * (xᵀ * G))

/-! ### qf retraction; the columns are ordered -/

section qf

variable {k : ℕ}

/-- The signs applied to the columns: `-1` where the diagonal entry of `R` is negative, Stiefel.cpp:454-460. -/
noncomputable def signs (R : Matrix (Fin k) (Fin k) ℝ) (i : Fin k) : ℝ := if R i i < 0 then -1 else 1

/-- `scal_` applied to each column. -/
def scaleCols (s : Fin k → ℝ) (A : Matrix n (Fin k) ℝ) : Matrix n (Fin k) ℝ := fun i j => s j * A i j

/-- `Stiefel::qfRetraction`, Stiefel.cpp:440-466, and `Grassmann::Retraction`, Grassmann.cpp:51-77, given the factors `Q`, `R` of `x + η`. -/
noncomputable def qfRetraction (Q : Matrix n (Fin k) ℝ) (R : Matrix (Fin k) (Fin k) ℝ) : Matrix n (Fin k) ℝ := scaleCols (signs R) Q

/-- The correction `YtVRinv` after the double loop, Stiefel.cpp:528-537. -/
def qfCorrection (M : Matrix (Fin k) (Fin k) ℝ) : Matrix (Fin k) (Fin k) ℝ :=
  fun i j => if i = j then -M i j else if i < j then -M j i - M i j else 0

/-- `Stiefel::DiffqfRetraction`, Stiefel.cpp:508-539 (extrinsic part). The triangular solve `X R = ξ` (`trsm`, side R, upper) is `ξ R⁻¹`; `R` is the upper triangle of the
field `_HHR` of `y`. -/
noncomputable def diffQf (y : Matrix n (Fin k) ℝ) (R : Matrix (Fin k) (Fin k) ℝ) (ξ : Matrix n (Fin k) ℝ) : Matrix n (Fin k) ℝ :=
  let Z := scaleCols (signs R) (ξ * R⁻¹)
  Z + y * qfCorrection (yᵀ * Z)

/-- The sign flip of the upper triangle, Stiefel.cpp:477-485. -/
def flipUpper (A : Matrix (Fin k) (Fin k) ℝ) : Matrix (Fin k) (Fin k) ℝ := fun i j => if i ≤ j then -A i j else A i j

/-- `Stiefel::qfcoTangentVector` before the projection, Stiefel.cpp:476-497; `trsm` with side R, upper, transposed is right multiplication by `R⁻ᵀ`. -/
noncomputable def qfCoTangentAmbient (y : Matrix n (Fin k) ℝ) (R : Matrix (Fin k) (Fin k) ℝ) (ζ : Matrix n (Fin k) ℝ) : Matrix n (Fin k) ℝ :=
  let e := ζ + y * flipUpper (yᵀ * ζ)
  scaleCols (signs R) e * (R⁻¹)ᵀ

/-- `Stiefel::qfcoTangentVector`, Stiefel.cpp:468-506. -/
noncomputable def qfCoTangent (x y : Matrix n (Fin k) ℝ) (R : Matrix (Fin k) (Fin k) ℝ) (ζ : Matrix n (Fin k) ℝ) : Matrix n (Fin k) ℝ :=
  proj x (qfCoTangentAmbient y R ζ)

/-- `Grassmann::coTangentVector`, Grassmann.cpp:135-173. -/
noncomputable def gCoTangent (x y : Matrix n (Fin k) ℝ) (R : Matrix (Fin k) (Fin k) ℝ) (ζ : Matrix n (Fin k) ℝ) : Matrix n (Fin k) ℝ :=
  gProj x (qfCoTangentAmbient y R ζ)

end qf

/-! ### Polar retraction -/

/-- `Stiefel::PolarRetraction`, Stiefel.cpp:564-579, given the economy SVD `x + η = U diag(s) Vt`. -/
def polarRetraction (U : Matrix n p ℝ) (Vt : Matrix p p ℝ) : Matrix n p ℝ := U * Vt

/-- `Stiefel::InvPolarRetraction`, Stiefel.cpp:581-590, given the solution `S` of the Sylvester equation. -/
def invPolar (x y : Matrix n p ℝ) (S : Matrix p p ℝ) : Matrix n p ℝ := y * S - x

/-- `Element::SYL`, Element.cpp:1427-1470 (real branch): from Schur factors `A = Qa Sa Qaᵀ`, `B = Qb Sb Qbᵀ`, and the pair `(R, L, scale)` returned by `tgsyl_` for the
coefficients `(Sa, -Sb, I, I)` and right-hand sides `(Qaᵀ C Qb, 0)`, the result is `Qa R Qbᵀ / scale`. -/
noncomputable def syl (Qa Qb R : Matrix p p ℝ) (scale : ℝ) : Matrix p p ℝ := (1 / scale) • (Qa * R * Qbᵀ)

/-- `Stiefel::DiffPolarRetraction` for `ξ` in the direction of `η`, Stiefel.cpp:598-616 (extrinsic part); `1 / S` is entrywise. -/
noncomputable def diffPolar (y : Matrix n p ℝ) (s : p → ℝ) (Vt : Matrix p p ℝ) (η ξ : Matrix n p ℝ) : Matrix n p ℝ :=
  let alpha := √(frob ξ ξ / frob η η)
  let tmp := (η * Vtᵀ) * diagonal (fun i => 1 / s i) * Vt
  alpha • tmp + (-alpha) • (y * (tmpᵀ * tmp))

/-! ### Cayley retraction and transport -/

/-- `Mk2`, Stiefel.cpp:743-768, the `2p × 2p` matrix, block by block. -/
noncomputable def mk2 (x η : Matrix n p ℝ) : Matrix (p ⊕ p) (p ⊕ p) ℝ :=
  let a := (1 / 2 : ℝ) • (xᵀ * η)
  fromBlocks a 1 ((3 : ℝ) • (aᵀ * a) - ηᵀ * η) (-aᵀ)

/-- `U`, Stiefel.cpp:794-797: `[η − x·Mk2₁₁, x]`. -/
noncomputable def cayU (x η : Matrix n p ℝ) : Matrix n (p ⊕ p) ℝ := fromCols (η - x * ((1 / 2 : ℝ) • (xᵀ * η))) x

/-- `V`, Stiefel.cpp:894-898: the halves of `U` exchanged, the second negated. -/
noncomputable def cayV (x η : Matrix n p ℝ) : Matrix n (p ⊕ p) ℝ := fromCols x (-(η - x * ((1 / 2 : ℝ) • (xᵀ * η))))

/-- The matrix factored by `getrf_`, `I − ½ Mk2`, Stiefel.cpp:769-783. -/
noncomputable def lup (x η : Matrix n p ℝ) : Matrix (p ⊕ p) (p ⊕ p) ℝ := 1 - (1 / 2 : ℝ) • mk2 x η

/-- `Mk3`, Stiefel.cpp:784-789: the solution for the right half of `Mk2`. -/
noncomputable def mk3 (x η : Matrix n p ℝ) : Matrix (p ⊕ p) p ℝ := (lup x η)⁻¹ * fromRows 1 (-((1 / 2 : ℝ) • (xᵀ * η))ᵀ)

/-- `Stiefel::CayleyRetraction`, Stiefel.cpp:725-808. -/
noncomputable def cayleyRetraction (x η : Matrix n p ℝ) : Matrix n p ℝ := x + cayU x η * mk3 x η

/-- `Stiefel::DiffCayleyRetraction` for `ξ` in the direction of `η`, Stiefel.cpp:816-861 (extrinsic part). -/
noncomputable def diffCayley (x η ξ : Matrix n p ℝ) : Matrix n p ℝ :=
  let m23 := mk2 x η * mk3 x η
  let tmp := fromRows 1 (-((1 / 2 : ℝ) • (xᵀ * η))ᵀ) + (1 / 2 : ℝ) • m23
  √(frob ξ ξ / frob η η) • (cayU x η * (tmp + (1 / 2 : ℝ) • ((lup x η)⁻¹ * m23)))

/-- `Stiefel::CayleyVectorTransport`, Stiefel.cpp:883-922. -/
noncomputable def cayleyTransport (x η ξ : Matrix n p ℝ) : Matrix n p ℝ := ξ + cayU x η * ((lup x η)⁻¹ * ((cayV x η)ᵀ * ξ))

/-- `Stiefel::CayleyInverseVectorTransport`, Stiefel.cpp:924-963; `getrs_` with `T` solves with the transposed matrix. -/
noncomputable def cayleyInvTransport (x η ξ : Matrix n p ℝ) : Matrix n p ℝ := ξ + cayV x η * (((lup x η)ᵀ)⁻¹ * ((cayU x η)ᵀ * ξ))

end Verif.Stiefel
