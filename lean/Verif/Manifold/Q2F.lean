import Verif.Manifold.CMat

/-!
# Fixed-rank matrices in two-factor form, FixedRankQ2F.cpp and CFixedRankQ2F.cpp

Points and extrinsic tangent vectors are pairs `(G, H)`; `𝕜` is `ℝ` (FixedRankQ2F) or `ℂ` (CFixedRankQ2F; `GLOBAL::C` and `GetTranspose` of complex matrices are the conjugate
transpose). The point represents the matrix `G Hᴴ`. The fields "_L" are the Cholesky factors of `GᴴG` and `HᴴH` (LAPACK `potrf_`): parameters `LG`, `LH`. The real arithmetic is
exact. The intrinsic branches convert with `ObtainExtr`/`ObtainIntr`, modelled in `Verif.Manifold.Q2FIntr`.
-/

set_option linter.unusedSectionVars false

namespace Verif.Q2F

open Matrix Verif.CMat

variable {𝕜 : Type*} [RCLike 𝕜]
variable {m n r : Type*} [Fintype m] [Fintype n] [Fintype r] [DecidableEq m] [DecidableEq n] [DecidableEq r]

/-- A pair of factors: `ProductManifold` of two `Euclidean`, FixedRankQ2F.cpp:7-20, CFixedRankQ2F.cpp:8-22. -/
structure Pair (𝕜 m n r : Type*) where
  G : Matrix m r 𝕜
  H : Matrix n r 𝕜

/-- Two calls of `TriangleLinSol`, with `L` and then with its (conjugate) transpose. -/
noncomputable def sol {k : Type*} (L : Matrix r r 𝕜) (B : Matrix r k 𝕜) : Matrix r k 𝕜 := (Lᴴ)⁻¹ * (L⁻¹ * B)

/-- `ExtrProjection`, FixedRankQ2F.cpp:53-78, CFixedRankQ2F.cpp:57-83. -/
noncomputable def proj (LG LH : Matrix r r 𝕜) (x η : Pair 𝕜 m n r) : Pair 𝕜 m n r :=
  let tmp1 := sol LH (x.Hᴴ * η.H)
  let tmp2 := sol LG (x.Gᴴ * η.G)
  let Lambda := ((1 / 2 : ℝ) : 𝕜) • (tmp1ᴴ - tmp2)
  ⟨η.G + x.G * Lambda, η.H - x.H * Lambdaᴴ⟩

/-- `Metric` (extrinsic), FixedRankQ2F.cpp:80-102, CFixedRankQ2F.cpp:85-107. -/
noncomputable def metric (x η ξ : Pair 𝕜 m n r) : ℝ :=
  ip (x.Gᴴ * x.G) (ξ.Hᴴ * η.H) + ip (x.Hᴴ * x.H) (η.Gᴴ * ξ.G) + ip (x.Hᴴ * η.H) (ξ.Gᴴ * x.G) + ip (ξ.Hᴴ * x.H) (x.Gᴴ * η.G)

/-- `Retraction` (extrinsic), FixedRankQ2F.cpp:378-393 with `Euclidean::Retraction` for both factors. -/
def retract (x η : Pair 𝕜 m n r) : Pair 𝕜 m n r := ⟨x.G + η.G, x.H + η.H⟩

/-- `DiffRetraction` (extrinsic part), FixedRankQ2F.cpp:458-486; `LG`, `LH` belong to the new point. -/
noncomputable def diffRetract (LG LH : Matrix r r 𝕜) (y ξ : Pair 𝕜 m n r) : Pair 𝕜 m n r := proj LG LH y ξ

/-- `EucGradToGrad`, FixedRankQ2F.cpp:488-528, CFixedRankQ2F.cpp:515-565. -/
noncomputable def grad (LG LH : Matrix r r 𝕜) (x egf : Pair 𝕜 m n r) : Pair 𝕜 m n r :=
  let tmpG := (sol LH egf.Gᴴ)ᴴ
  let tmpH := (sol LG egf.Hᴴ)ᴴ
  ⟨tmpG - ((1 / 2 : ℝ) : 𝕜) • x.G * sol LG (x.Gᴴ * tmpG), tmpH - ((1 / 2 : ℝ) : 𝕜) • x.H * sol LH (x.Hᴴ * tmpH)⟩

/-- `EucHvToHv`, FixedRankQ2F.cpp:530-575, CFixedRankQ2F.cpp:567-607; `eg` is the field "EGrad". -/
noncomputable def hess (LG LH : Matrix r r 𝕜) (x eg η exix : Pair 𝕜 m n r) : Pair 𝕜 m n r :=
  let h : 𝕜 := ((1 / 2 : ℝ) : 𝕜)
  let tmpG0 := (sol LH exix.Gᴴ)ᴴ
  let tmpG := tmpG0 - h • x.G * sol LG (x.Gᴴ * tmpG0)
  let tmpH0 := (sol LG exix.Hᴴ)ᴴ
  let tmpH := tmpH0 - h • x.H * sol LH (x.Hᴴ * tmpH0)
  let tmp1 := eg.G * sol LH (sol LH (η.Hᴴ * x.H))ᴴ
  let tmp1 := x.G * sol LG (x.Gᴴ * tmp1) - tmp1
  let tmp1 := tmp1 - h • x.G * sol LG (sol LH (η.Hᴴ * eg.H))ᴴ
  let tmp2 := eg.H * sol LG (sol LG (η.Gᴴ * x.G))ᴴ
  let tmp2 := x.H * sol LH (x.Hᴴ * tmp2) - tmp2
  let tmp2 := tmp2 - h • x.H * sol LH (sol LG (η.Gᴴ * eg.G))ᴴ
  proj LG LH x ⟨tmpG + tmp1, tmpH + tmp2⟩

end Verif.Q2F
