import Verif.Manifold.Mat
import Mathlib.LinearAlgebra.Matrix.Rank
import Mathlib.Analysis.Real.Sqrt

/-!
# Fixed-rank matrices, embedded geometry

`Manifolds/FixedRankE.cpp`. A point is the matrix `U D Vᵀ` together with its attached factors; a tangent vector is a matrix together with the attached triple `dU`, `dD`, `dV`.
Exact real arithmetic. `A / D` (Element.cpp:391-417, LU and `getrs` with the transposed system) is `A D⁻¹`; a singular `D` is outside the specification of LAPACK.
QR and SVD enter by their factors. Sizes are arbitrary finite index types.
-/

set_option linter.unusedSectionVars false

namespace Verif.FixedRank

open Matrix Verif.Mat

variable {m n r : Type*} [Fintype m] [Fintype n] [Fintype r] [DecidableEq m] [DecidableEq n] [DecidableEq r]

/-- A point with its fields "U", "D", "V". -/
structure Pt (m n r : Type*) where
  mat : Matrix m n ℝ
  U : Matrix m r ℝ
  D : Matrix r r ℝ
  V : Matrix n r ℝ

/-- A tangent vector with its fields "dU", "dD", "dV". -/
structure Vec (m n r : Type*) where
  mat : Matrix m n ℝ
  dU : Matrix m r ℝ
  dD : Matrix r r ℝ
  dV : Matrix n r ℝ

/-- `U * D * dVᵀ + U * dD * Vᵀ + dU * D * Vᵀ`, the expression of FixedRankE.cpp:222, 270, 301. -/
def assemble (x : Pt m n r) (dU : Matrix m r ℝ) (dD : Matrix r r ℝ) (dV : Matrix n r ℝ) : Matrix m n ℝ :=
  x.U * x.D * dVᵀ + x.U * dD * x.Vᵀ + dU * x.D * x.Vᵀ

/-- `FixedRankE::Metric`, FixedRankE.cpp:28-36. -/
def metric (x : Pt m n r) (η ξ : Vec m n r) : ℝ :=
  frob (η.dU * x.D) (ξ.dU * x.D) + frob (η.dV * x.Dᵀ) (ξ.dV * x.Dᵀ) + frob η.dD ξ.dD

/-- `FixedRankE::ScalarTimesVector`, FixedRankE.cpp:63-73. -/
def scalarTimes (c : ℝ) (η : Vec m n r) : Vec m n r := ⟨c • η.mat, c • η.dU, c • η.dD, c • η.dV⟩

/-- `FixedRankE::ScalarVectorAddVector`, FixedRankE.cpp:75-89: `c η + ξ`. -/
def scalarAdd (c : ℝ) (η ξ : Vec m n r) : Vec m n r := ⟨ξ.mat + c • η.mat, ξ.dU + c • η.dU, ξ.dD + c • η.dD, ξ.dV + c • η.dV⟩

/-- `FixedRankE::VectorLinearCombination`, FixedRankE.cpp:91-115, for vectors that carry their fields. -/
def linComb (c : ℝ) (η : Vec m n r) (d : ℝ) (ξ : Vec m n r) : Vec m n r :=
  ⟨d • ξ.mat + c • η.mat, d • ξ.dU + c • η.dU, d • ξ.dD + c • η.dD, d • ξ.dV + c • η.dV⟩

/-- `FixedRankE::ExtrProjection`, FixedRankE.cpp:262-275. -/
noncomputable def proj (x : Pt m n r) (A : Matrix m n ℝ) : Vec m n r :=
  let MV := A * x.V
  let dD := x.Uᵀ * MV
  let dU := (MV - x.U * dD) * x.D⁻¹
  let dV := (Aᵀ * x.U - x.V * dDᵀ) * (x.Dᵀ)⁻¹
  ⟨assemble x dU dD dV, dU, dD, dV⟩

/-- One orthonormal factor of the retraction, FixedRankE.cpp:171-175: from `U + dU = Q R` and `R = RU diag(s) RVt`, the product `Q (RU RVt)`. -/
def orthFactor (Q : Matrix m r ℝ) (RU RVt : Matrix r r ℝ) : Matrix m r ℝ := Q * (RU * RVt)

/-- `FixedRankE::Retraction`, FixedRankE.cpp:166-199, given the two orthonormal factors. -/
def retract (x : Pt m n r) (η : Vec m n r) (Uy : Matrix m r ℝ) (Vy : Matrix n r ℝ) : Pt m n r :=
  ⟨Uy * (x.D + η.dD) * Vyᵀ, Uy, x.D + η.dD, Vy⟩

/-- The derivative of one factor, FixedRankE.cpp:209-214 (also 216-221). `s`, `Vt` are the fields "_S", "_Vt" of the new factor. `none` is NaN: `sqrt(0 / 0)`
(or an infinite factor) when `dη = 0`. -/
noncomputable def diffFactor (Uy : Matrix m r ℝ) (s : r → ℝ) (Vt : Matrix r r ℝ) (dη dξ : Matrix m r ℝ) : Option (Matrix m r ℝ) :=
  if frob dη dη = 0 then none
  else
    let alpha := √(frob dξ dξ / frob dη dη)
    let tmp := dη * Vtᵀ * diagonal (fun i => 1 / s i) * Vt
    some (alpha • (tmp - Uy * (tmpᵀ * tmp)))

/-- `FixedRankE::DiffRetraction` for `ξ` in the direction of `η`, FixedRankE.cpp:201-226. -/
noncomputable def diffRetract (y : Pt m n r) (sU : r → ℝ) (VtU : Matrix r r ℝ) (sV : r → ℝ) (VtV : Matrix r r ℝ) (η ξ : Vec m n r) : Option (Vec m n r) :=
  (diffFactor y.U sU VtU η.dU ξ.dU).bind fun r1 => (diffFactor y.V sV VtV η.dV ξ.dV).map fun r2 => ⟨assemble y r1 ξ.dD r2, r1, ξ.dD, r2⟩

/-- `FixedRankE::EucHvToHv`, FixedRankE.cpp:287-305; `G` is the field "EGrad". -/
noncomputable def hess (x : Pt m n r) (G : Matrix m n ℝ) (η : Vec m n r) (E : Matrix m n ℝ) : Vec m n r :=
  let p := proj x E
  let MdV := G * η.dV
  let MTdU := Gᵀ * η.dU
  let dU := p.dU + (MdV - x.U * (x.Uᵀ * MdV)) * x.D⁻¹
  let dV := p.dV + (MTdU - x.V * (x.Vᵀ * MTdU)) * (x.Dᵀ)⁻¹
  ⟨assemble x dU p.dD dV, dU, p.dD, dV⟩

end Verif.FixedRank
