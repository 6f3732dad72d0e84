import Verif.Manifold.Q2F
import Mathlib.Data.Matrix.ColumnRowPartitioned
import Mathlib.Data.Real.Sqrt

/-!
# `ProjRetraction` of the two-factor form, FixedRankQ2F.cpp:398-456 and CFixedRankQ2F.cpp:426-486

`𝕜` is `ℝ` or `ℂ`. The arithmetic is exact; the vector is the extrinsic one (`ObtainExtr`, called when `IsIntrApproach`, is modelled in `Verif.Manifold.Q2FIntr`). The index `r ⊕ r` stands for the `2r`
columns, `Sum.inl` for the first `r` of them.
-/

set_option linter.unusedSectionVars false

namespace Verif.Q2F

open Matrix

variable {𝕜 : Type*} [RCLike 𝕜]
variable {m n r : Type*} [Fintype m] [Fintype n] [Fintype r] [DecidableEq m] [DecidableEq n] [DecidableEq r]

/-- The factorisations `ProjRetraction` asks LAPACK for: `QRDecom` of the two matrices with `2r` columns (FixedRankQ2F.cpp:434, Element.cpp:1135-1218) and `SVDDecom` of the `2r × 2r` matrix (FixedRankQ2F.cpp:439,
Element.cpp:1271-1345). -/
structure ProjLapack (𝕜 m n r : Type*) where
  qm : Matrix m (r ⊕ r) 𝕜 → Matrix m (r ⊕ r) 𝕜
  rm : Matrix m (r ⊕ r) 𝕜 → Matrix (r ⊕ r) (r ⊕ r) 𝕜
  qn : Matrix n (r ⊕ r) 𝕜 → Matrix n (r ⊕ r) 𝕜
  rn : Matrix n (r ⊕ r) 𝕜 → Matrix (r ⊕ r) (r ⊕ r) 𝕜
  u : Matrix (r ⊕ r) (r ⊕ r) 𝕜 → Matrix (r ⊕ r) (r ⊕ r) 𝕜
  s : Matrix (r ⊕ r) (r ⊕ r) 𝕜 → r ⊕ r → ℝ
  vt : Matrix (r ⊕ r) (r ⊕ r) 𝕜 → Matrix (r ⊕ r) (r ⊕ r) 𝕜

/-- The sparse matrix `SM`, FixedRankQ2F.cpp:421-432, CFixedRankQ2F.cpp:449-460: ones at `(i, i)`, `(i, i + r)` and `(i + r, i)`. -/
def projMid : Matrix (r ⊕ r) (r ⊕ r) 𝕜 := fromBlocks 1 1 1 0

/-- The first `r` columns, `GetSubmatrix(0, 2 * r - 1, 0, r - 1)`, FixedRankQ2F.cpp:449-450. -/
def firstCols (A : Matrix (r ⊕ r) (r ⊕ r) 𝕜) : Matrix (r ⊕ r) r 𝕜 := of fun i j => A i (Sum.inl j)

/-- `ProjRetraction`, FixedRankQ2F.cpp:398-456, CFixedRankQ2F.cpp:426-486. `QRDecom` returns `min(m, 2r)` and `min(n, 2r)` columns, so with fewer than `2r` rows the array `_S` has fewer than `2r` entries and
the loop over `2 * r` of them (lines 442-446, 470-474) writes behind it: `none`. -/
noncomputable def projRetract (lp : ProjLapack 𝕜 m n r) (x η : Pair 𝕜 m n r) : Option (Pair 𝕜 m n r) :=
  if Fintype.card m < 2 * Fintype.card r ∨ Fintype.card n < 2 * Fintype.card r then none else
  let tmp1 := fromCols x.G η.G
  let tmp2 := fromCols x.H η.H
  let M := lp.rm tmp1 * projMid * (lp.rn tmp2)ᴴ
  let S : r → 𝕜 := fun i => ((√(lp.s M (Sum.inl i)) : ℝ) : 𝕜)
  some ⟨lp.qm tmp1 * firstCols (lp.u M) * diagonal S, lp.qn tmp2 * firstCols ((lp.vt M)ᴴ) * diagonal S⟩

end Verif.Q2F
