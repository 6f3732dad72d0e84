import Verif.Manifold.CMat
import Mathlib.Analysis.Real.Sqrt
import Mathlib.Data.Matrix.ColumnRowPartitioned

/-!
# Symmetric and Hermitian fixed-rank matrices by the quotient representation, SymFixedRankQ.cpp and CSymFixedRankQ.cpp

A point is an `n × p` matrix `x` that represents `x xᴴ`; `𝕜` is `ℝ` (SymFixedRankQ) or `ℂ` (CSymFixedRankQ: `GLOBAL::C` and `GetTranspose` of complex matrices are the conjugate
transpose; there is no third metric). `A / B` of the library is `A B⁻¹`, `A % B` is `A⁻¹ B`. The real arithmetic is exact. Functions with an intrinsic branch are modelled on
extrinsic vectors; the conversions are in `Verif.Manifold.SymFRIntr`.
-/

set_option linter.unusedSectionVars false

namespace Verif.SymFR

open Matrix Verif.CMat

variable {𝕜 : Type*} [RCLike 𝕜]
variable {n p : Type*} [Fintype n] [Fintype p] [DecidableEq n] [DecidableEq p]

/-- `Metric` for SFRANKQEUC, SymFixedRankQ.cpp:131-140, CSymFixedRankQ.cpp:113-123. -/
noncomputable def metricE (x η ξ : Matrix n p 𝕜) : ℝ := 2 * (ip (ηᴴ * x) (xᴴ * ξ) + ip (xᴴ * x) (ηᴴ * ξ))

/-- `Metric` for SFRANKQQEUC, SymFixedRankQ.cpp:142-145: the dot product. -/
noncomputable def metricQ (_x η ξ : Matrix n p 𝕜) : ℝ := ip η ξ

/-- `Metric` for SFRANKQHGZ, SymFixedRankQ.cpp:147-152, CSymFixedRankQ.cpp:125-130. -/
noncomputable def metricH (x η ξ : Matrix n p 𝕜) : ℝ := ip (xᴴ * x) (ηᴴ * ξ)

/-- `ExtrProjectionEUCorHGZ`, SymFixedRankQ.cpp:190-200, CSymFixedRankQ.cpp:144-154. -/
noncomputable def proj (x η : Matrix n p 𝕜) : Matrix n p 𝕜 :=
  let XTX := xᴴ * x
  let XTV := XTX⁻¹ * (xᴴ * η)
  η - x * (((1 / 2 : ℝ) : 𝕜) • (XTV - XTVᴴ))

/-- `ExtrProjectionQEUC`, SymFixedRankQ.cpp:178-188; `syl A B C` is `C.SYL(A, B)`. -/
noncomputable def projQ (syl : Matrix p p 𝕜 → Matrix p p 𝕜 → Matrix p p 𝕜 → Matrix p p 𝕜) (x η : Matrix n p 𝕜) : Matrix n p 𝕜 :=
  let XTX := xᴴ * x
  let XTV := xᴴ * η
  η - x * syl XTX XTX (XTV - XTVᴴ)

/-- `EucGradToGradEUC`, SymFixedRankQ.cpp:412-417, CSymFixedRankQ.cpp:354-360. -/
noncomputable def gradE (x egf : Matrix n p 𝕜) : Matrix n p 𝕜 :=
  let XTX := xᴴ * x
  let result := ((1 / 2 : ℝ) : 𝕜) • (egf * XTX⁻¹)
  let tmp1 := xᴴ * result
  let tmp1 := XTX⁻¹ * tmp1
  result - ((1 / 2 : ℝ) : 𝕜) • (x * tmp1)

/-- `EucGradToGradHGZ`, SymFixedRankQ.cpp:769-771, CSymFixedRankQ.cpp:405-407. -/
noncomputable def gradH (x egf : Matrix n p 𝕜) : Matrix n p 𝕜 := egf * (xᴴ * x)⁻¹

/-- `EucGradToGradQEUC`, SymFixedRankQ.cpp:573-586. -/
noncomputable def gradQ (syl : Matrix p p 𝕜 → Matrix p p 𝕜 → Matrix p p 𝕜 → Matrix p p 𝕜) (x egf : Matrix n p 𝕜) : Matrix n p 𝕜 := projQ syl x egf

/-- `EucHvToHvEUC`, SymFixedRankQ.cpp:420-445, CSymFixedRankQ.cpp:364-390; `egf` is the field "EGrad". -/
noncomputable def hessE (x egf η exix : Matrix n p 𝕜) : Matrix n p 𝕜 :=
  let h : 𝕜 := ((1 / 2 : ℝ) : 𝕜)
  let XTX := xᴴ * x
  let EGYYinv := egf * XTX⁻¹
  let xTEGYYinv := xᴴ * EGYYinv
  let YYinvYTEGYYinv := XTX⁻¹ * xTEGYYinv
  let EtaTEGYYinv := ηᴴ * EGYYinv
  let YTeta := xᴴ * η
  let YTxix := xᴴ * exix
  let YYinvYTEH := XTX⁻¹ * YTxix
  let result := exix
  let result := result - h • (x * YYinvYTEH)
  let result := result - h • (x * EtaTEGYYinvᴴ)
  let result := result - EGYYinv * YTeta
  let xTEGYYinv := YYinvYTEGYYinv * YTeta
  let result := result + x * xTEGYYinv
  let EGYYinv := h • (result * XTX⁻¹)
  proj x EGYYinv

/-- `EucHvToHvHGZ`, SymFixedRankQ.cpp:774-794, CSymFixedRankQ.cpp:411-432. -/
noncomputable def hessH (x egf η exix : Matrix n p 𝕜) : Matrix n p 𝕜 :=
  let h : 𝕜 := ((1 / 2 : ℝ) : 𝕜)
  let XTX := xᴴ * x
  let EGYYinv := egf * XTX⁻¹
  let YTEGYYinv := xᴴ * EGYYinv
  let EtaTEGYYinv := ηᴴ * EGYYinv
  let EtaTY := ηᴴ * x
  let result := exix
  let result := result - h • (EGYYinv * EtaTYᴴ)
  let result := result - h • (x * EtaTEGYYinvᴴ)
  let result := result + h • (η * YTEGYYinv)
  let result := result - h • (x * EtaTEGYYinv)
  let result := result + h • (η * YTEGYYinvᴴ)
  let result := result - h • (EGYYinv * EtaTY)
  let EGYYinv := result * XTX⁻¹
  proj x EGYYinv

/-- `EucHvToHvQEUC`, SymFixedRankQ.cpp:588-591. -/
noncomputable def hessQ (syl : Matrix p p 𝕜 → Matrix p p 𝕜 → Matrix p p 𝕜 → Matrix p p 𝕜) (x exix : Matrix n p 𝕜) : Matrix n p 𝕜 := projQ syl x exix

/-- `Retraction`, extrinsic branch, SymFixedRankQ.cpp:334, CSymFixedRankQ.cpp:282: `Manifold::Retraction` adds. -/
def retract (x η : Matrix n p 𝕜) : Matrix n p 𝕜 := x + η

/-- `DiffRetraction`, the returned vector before the conversion to coordinates, SymFixedRankQ.cpp:340-349, CSymFixedRankQ.cpp:288-297. -/
noncomputable def diffRetract (y ξ : Matrix n p 𝕜) : Matrix n p 𝕜 := proj y ξ

/-- `DiffRetraction` for the third metric. -/
noncomputable def diffRetractQ (syl : Matrix p p 𝕜 → Matrix p p 𝕜 → Matrix p p 𝕜 → Matrix p p 𝕜) (y ξ : Matrix n p 𝕜) : Matrix n p 𝕜 := projQ syl y ξ

/-- The factorisations `Retraction` asks LAPACK for: `QRDecom` of `[x Yp]`, `EigenDecomSym` (eigenvalues in ascending order; `eval` and `evec` are the last `p` of them) and `SVDDecom`.
The `p` largest eigenvalues are those with index `Sum.inr`. -/
structure Lapack (𝕜 n p : Type*) where
  qrQ : Matrix n (p ⊕ p) 𝕜 → Matrix n (p ⊕ p) 𝕜
  qrR : Matrix n (p ⊕ p) 𝕜 → Matrix (p ⊕ p) (p ⊕ p) 𝕜
  eval : Matrix (p ⊕ p) (p ⊕ p) 𝕜 → p ⊕ p → ℝ
  evec : Matrix (p ⊕ p) (p ⊕ p) 𝕜 → Matrix (p ⊕ p) (p ⊕ p) 𝕜
  svdU : Matrix p p 𝕜 → Matrix p p 𝕜
  svdVt : Matrix p p 𝕜 → Matrix p p 𝕜

/-- The matrix `Z` of SymFixedRankQ.cpp:314-319 before the multiplications by `R`. -/
def zmat (S : Matrix p p 𝕜) : Matrix (p ⊕ p) (p ⊕ p) 𝕜 := fromBlocks (1 + S + Sᴴ) 1 1 0

/-- `Retraction`, intrinsic branch on the extrinsic vector, SymFixedRankQ.cpp:298-332, CSymFixedRankQ.cpp:247-280. `QRDecom` returns `min(n, 2p)` columns; with `n < 2p` the matrix
of the eigenvalue problem is `n × n` and `GetSubmatrix(p, 2p-1, …)` leaves it: `none`. A negative eigenvalue among the `p` largest has no square root: `none` (NaN). -/
noncomputable def retractProj (lp : Lapack 𝕜 n p) (x η : Matrix n p 𝕜) : Option (Matrix n p 𝕜) :=
  if Fintype.card n < 2 * Fintype.card p then none else
  let S := (xᴴ * x)⁻¹ * (xᴴ * η)
  let Yp := η - x * S
  let YYp := fromCols x Yp
  let R := lp.qrR YYp
  let Z := R * zmat S * Rᴴ
  let w : p → ℝ := fun i => lp.eval Z (Sum.inr i)
  if ∃ i, w i < 0 then none else
  let ZU : Matrix (p ⊕ p) p 𝕜 := fun i j => lp.evec Z i (Sum.inr j)
  let ZUD := ZU * diagonal fun i => ((√(w i) : ℝ) : 𝕜)
  let Yp := lp.qrQ YYp * ZUD
  let XtY := xᴴ * Yp
  some (Yp * ((lp.svdVt XtY)ᴴ * (lp.svdU XtY)ᴴ))

end Verif.SymFR
