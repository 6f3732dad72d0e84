import Verif.Problem.Curve
import Mathlib.Analysis.InnerProductSpace.Basic
import Mathlib.Analysis.InnerProductSpace.Calculus
import Mathlib.Analysis.Calculus.ContDiff.Basic

/-!
# Cost functions of the example problems

Functions of `Problems/*.cpp`. Matrices are indexed by finite types; `AlphaABaddBetaThis(a, A, tA, B, tB, b)` is `a·op(A)·op(B) + b·this`, `DotProduct` the sum of the products of the
stored numbers. A problem's `f` leaves data in the fields of its argument (`x.AddToFields`); `EucGrad` and `EucHessianEta` read them (`x.Field`). That fields belong to the point they were computed at is C06. Exact
arithmetic. `SPDKarcherMean` is in `Verif.Problem.Karcher`, `CFRankQ2FBlindDecon2D` in `Verif.Problem.BlindDecon`; the interfaces in `Verif.Iface`.
-/

set_option linter.unusedSectionVars false

namespace Verif.Problem

open Matrix Verif.Mat Verif.Curve

/-- `Problem`, Problem.h:30-112, as the solvers use it: `f` returns the cost and the fields it leaves at the point; `EucGrad` and `EucHessianEta` get the point and its fields. -/
structure Prob (X F : Type*) where
  f : X → ℝ × F
  eucGrad : X → F → X
  eucHess : X → F → X → X

variable {m n p q : Type*} [Fintype m] [Fintype n] [Fintype p] [Fintype q] [DecidableEq m] [DecidableEq n] [DecidableEq p] [DecidableEq q]

/-- `D.DiagTimesM(M, GLOBAL::R)`, Element.cpp:1559-1609: column `j` of `M` times entry `j` of `D`. -/
def colScale {𝕜 : Type*} [Mul 𝕜] (D : p → 𝕜) (M : Matrix n p 𝕜) : Matrix n p 𝕜 := fun i j => M i j * D j

/-- `cD.DiagTimesM(M, GLOBAL::L)`: row `i` of `M` times entry `i` of `cD`. -/
def rowScale {𝕜 : Type*} [Mul 𝕜] (D : n → 𝕜) (M : Matrix n p 𝕜) : Matrix n p 𝕜 := fun i j => D i * M i j

/-- `StieBrockett`, StieBrockett.cpp:21-41; the field is `"BxD"`. -/
def stieBrockett (B : Matrix n n ℝ) (D : p → ℝ) : Prob (Matrix n p ℝ) (Matrix n p ℝ) where
  f x :=
    let BxD := B * x
    let BxD := colScale D BxD
    (frob x BxD, BxD)
  eucGrad _ BxD := (2 : ℝ) • BxD
  eucHess _ _ etax := colScale D ((2 : ℝ) • (B * etax))

/-- `EucQuadratic`, EucQuadratic.cpp:17-35; the field is `"Ax"`; points are columns. -/
noncomputable def eucQuadratic (A : Matrix n n ℝ) : Prob (Matrix n p ℝ) (Matrix n p ℝ) where
  f x :=
    let Ax := A * x
    (0.5 * frob x Ax, Ax)
  eucGrad _ Ax := Ax
  eucHess _ _ etax := A * etax

/-- `GrassRQ`, GrassRQ.cpp:19-37; the field is `"Bx"`. -/
noncomputable def grassRQ (B : Matrix n n ℝ) : Prob (Matrix n p ℝ) (Matrix n p ℝ) where
  f x :=
    let Bx := B * x
    (frob Bx x / 2, Bx)
  eucGrad _ Bx := Bx
  eucHess _ _ etax := B * etax

/-- `StieSPCA`, StieSPCA.cpp:38-68; the field is `"Bx"`. The loop over the `n * p` entries is the sum over all entries. -/
noncomputable def stieSPCA (B : Matrix m n ℝ) (lambda : ℝ) : Prob (Matrix n p ℝ) (Matrix m p ℝ) where
  f x :=
    let Bx := B * x
    (-frob Bx Bx + ∑ i, ∑ j, lambda * |x i j|, Bx)
  eucGrad _ Bx := (-2 : ℝ) • (Bᵀ * Bx)
  eucHess _ _ etax := (-2 : ℝ) • (Bᵀ * (B * etax))

/-- The fields of `SFRQLyapunov`, SFRQLyapunov.cpp:29-33. -/
structure LyapFields (n p q : Type*) where
  AY : Matrix n p ℝ
  MY : Matrix n p ℝ
  CTY : Matrix q p ℝ
  YTAY : Matrix p p ℝ
  YTMY : Matrix p p ℝ

/-- `SFRQLyapunov`, SFRQLyapunov.cpp:21-64; the sparse products are the dense products by C50. -/
def sfrqLyapunov (A M : Matrix n n ℝ) (C : Matrix n q ℝ) : Prob (Matrix n p ℝ) (LyapFields n p q) where
  f x :=
    let AY := A * x
    let MY := M * x
    let CTY := Cᵀ * x
    let YTAY := xᵀ * AY
    let YTMY := xᵀ * MY
    (frob YTAY YTMY - frob CTY CTY, ⟨AY, MY, CTY, YTAY, YTMY⟩)
  eucGrad _ F :=
    let result := (2 : ℝ) • (F.AY * F.YTMY)
    let result := (-2 : ℝ) • (C * F.CTY) + result
    (2 : ℝ) • (F.MY * F.YTAY) + result
  eucHess x F etax :=
    let Meta := M * etax
    let YTMeta := xᵀ * Meta
    let Aeta := A * etax
    let YTAeta := xᵀ * Aeta
    let result := (2 : ℝ) • (Aeta * F.YTMY)
    let result := (2 : ℝ) • (Meta * F.YTAY) + result
    let result := (2 : ℝ) • (F.AY * YTMetaᵀ) + result
    let result := (2 : ℝ) • (F.MY * YTAetaᵀ) + result
    let result := (2 : ℝ) • (F.AY * YTMeta) + result
    let result := (2 : ℝ) • (F.MY * YTAeta) + result
    let tmp := Cᵀ * etax
    (-2 : ℝ) • (C * tmp) + result

/-- `ProdStieSumBrockett`, ProdStieSumBrockett.cpp:28-69; three Brockett costs on the components. `ScalarTimesVector` acts on all numbers of the product. -/
def prodStieSumBrockett (B1 B2 : Matrix n n ℝ) (B3 : Matrix m m ℝ) (D1 D2 : p → ℝ) (D3 : q → ℝ) :
    Prob (Matrix n p ℝ × Matrix n p ℝ × Matrix m q ℝ) (Matrix n p ℝ × Matrix n p ℝ × Matrix m q ℝ) where
  f x :=
    let B1x1D1 := colScale D1 (B1 * x.1)
    let result := frob x.1 B1x1D1
    let B2x2D2 := colScale D2 (B2 * x.2.1)
    let result := result + frob x.2.1 B2x2D2
    let B3x3D3 := colScale D3 (B3 * x.2.2)
    let result := result + frob x.2.2 B3x3D3
    (result, (B1x1D1, B2x2D2, B3x3D3))
  eucGrad _ F := ((2 : ℝ) • F.1, (2 : ℝ) • F.2.1, (2 : ℝ) • F.2.2)
  eucHess _ _ e := (colScale D1 ((2 : ℝ) • (B1 * e.1)), colScale D2 ((2 : ℝ) • (B2 * e.2.1)), colScale D3 ((2 : ℝ) • (B3 * e.2.2)))

/-- `(W * vec(X)).Reshape(m, n)`; `W` has a row and a column for every entry of a matrix. -/
def applyW (W : Matrix (m × n) (m × n) ℝ) (X : Matrix m n ℝ) : Matrix m n ℝ := fun i j => ∑ k, ∑ l, W (i, j) (k, l) * X k l

/-- `FRankEWeightApprox`, FRankEWeightApprox.cpp:22-44; the fields are `"xmA"`, `"WxmA"`. -/
def frankEWeightApprox (A : Matrix m n ℝ) (W : Matrix (m × n) (m × n) ℝ) : Prob (Matrix m n ℝ) (Matrix m n ℝ × Matrix m n ℝ) where
  f x :=
    let xmA := (-1 : ℝ) • A + x
    let WxmA := applyW W xmA
    (frob xmA WxmA, (xmA, WxmA))
  eucGrad _ F := (2 : ℝ) • F.2
  eucHess _ _ etax := (2 : ℝ) • applyW W etax

/-- `FRankESparseApprox`, FRankESparseApprox.cpp:24-47; the field is `"xmA"`. -/
noncomputable def frankESparseApprox (A : Matrix m n ℝ) (lambda : ℝ) : Prob (Matrix m n ℝ) (Matrix m n ℝ) where
  f x :=
    let xmA := (-1 : ℝ) • A + x
    (frob xmA xmA + ∑ i, ∑ j, lambda * |x i j|, xmA)
  eucGrad _ xmA := (2 : ℝ) • xmA
  eucHess _ _ etax := (2 : ℝ) • etax

/-- `FRankQ2FMatCompletion::ProjecOmegaGHT`, FRankQ2FMatCompletion.cpp:23-35; `ir`, `jc` give the row and the column of sample `l`. -/
def projecOmega {z : Type*} (ir : z → m) (jc : z → n) (G : Matrix m p ℝ) (H : Matrix n p ℝ) : z → ℝ := fun l => ∑ j, G (ir l) j * H (jc l) j

/-- The matrix a `SparseMatrix(m, n, ir, jc, vals, nz)` acts as, by C50: repeated positions are summed. -/
def sparse {z : Type*} [Fintype z] (ir : z → m) (jc : z → n) (v : z → ℝ) : Matrix m n ℝ := fun i j => ∑ l, if ir l = i ∧ jc l = j then v l else 0

/-- `FRankQ2FMatCompletion`, FRankQ2FMatCompletion.cpp:37-94; the field is `"PGHTmA"`. -/
noncomputable def frankQ2FMatCompletion {z : Type*} [Fintype z] (ir : z → m) (jc : z → n) (vals : z → ℝ) : Prob (Matrix m p ℝ × Matrix n p ℝ) (z → ℝ) where
  f x :=
    let PGHTmA := fun l => -1 * vals l + projecOmega ir jc x.1 x.2 l
    (0.5 * ∑ l, PGHTmA l * PGHTmA l, PGHTmA)
  eucGrad x PGHTmA :=
    let SM := sparse ir jc PGHTmA
    (SM * x.2, (x.1ᵀ * SM)ᵀ)
  eucHess x PGHTmA e :=
    let SM1 := sparse ir jc PGHTmA
    let tmp1 := projecOmega ir jc e.1 x.2
    let tmp2 := projecOmega ir jc x.1 e.2
    let SM2 := sparse ir jc fun l => 1 * tmp1 l + tmp2 l
    (SM2 * x.2 + SM1 * e.2, (x.1ᵀ * SM2 + e.1ᵀ * SM1)ᵀ)

section hull
variable {E : Type*} [NormedAddCommGroup E] [InnerProductSpace ℝ E] {k : Nat}

/-- The loop `Wxsq = c[i] * W[i] + Wxsq`, SphereConvexHull.cpp:28-31, 72-75. -/
def combine (W : Fin k → E) (c : Fin k → ℝ) : E := (List.finRange k).foldl (fun s i => c i • W i + s) 0

/-- `SphereConvexHull`, SphereConvexHull.cpp:21-92; `W` the vectors, `P` the operator `Hv` (the identity for a null pointer); the fields are `"Wxsq"`, `"PWxsq"`. -/
noncomputable def sphereConvexHull (W : Fin k → E) (P : E → E) : Prob (Fin k → ℝ) (E × E) where
  f x :=
    let Wxsq := combine W fun i => x i * x i
    let PWxsq := P Wxsq
    (inner ℝ Wxsq PWxsq, (Wxsq, PWxsq))
  eucGrad x F := fun i => 4 * x i * inner ℝ (W i) F.2
  eucHess x F etax :=
    let result := fun i => 4 * etax i * inner ℝ (W i) F.2
    let Wxeta := combine W fun i => x i * etax i
    let PWxeta := P Wxeta
    fun i => result i + 8 * x i * inner ℝ (W i) PWxeta

/-- `SphereTxRQ`, SphereTxRQ.cpp:71-101: `E` is the tangent space at `root` with its metric, `H` the action of the Hessian of the other problem at `root`; the field is `"Hx"`. -/
noncomputable def sphereTxRQ (H : E → E) (ismin : Bool) : Prob E E where
  f x :=
    let Hx := H x
    let result := inner ℝ Hx x
    (if ismin then result else -result, Hx)
  eucGrad _ Hx := if ismin then (2 : ℝ) • Hx else (-2 : ℝ) • Hx
  eucHess _ _ etax := if ismin then (2 : ℝ) • H etax else (-2 : ℝ) • H etax

end hull

/-- `SphereSparsestVector`, SphereSparsestVector.cpp:19-49; points are columns; the field is `"signQx"`. -/
noncomputable def sphereSparsestVector (Q : Matrix m n ℝ) : Prob (n → ℝ) (m → ℝ) where
  f x :=
    let Qx := Q.mulVec x
    (∑ i, if Qx i < 0 then -Qx i else Qx i, fun i => if Qx i < 0 then -1 else 1)
  eucGrad _ signQx := Qᵀ.mulVec signQx
  eucHess _ _ etax := etax

/-- `CStieBrockett`, CStieBrockett.cpp:20-41; the field is `"BxD"`. -/
noncomputable def cStieBrockett (B : Matrix n n ℂ) (D : p → ℂ) : Prob (Matrix n p ℂ) (Matrix n p ℂ) where
  f x :=
    let BxD := B * x
    let BxD := colScale D BxD
    (rfrob x BxD, BxD)
  eucGrad _ BxD := (2 : ℂ) • BxD
  eucHess _ _ etax := colScale D ((2 : ℂ) • (B * etax))

/-- `Z * x`, CSFRQPhaseRetrieval.cpp:40-58, 156-171: row `(i, k)` of the result is row `k` of the forward Fourier transform of mask `i` times `x`, over `sqn`. `F` is the matrix of the forward transform. -/
noncomputable def prForward {l : Type*} (F : Matrix n n ℂ) (masks : l → n → ℂ) (sqn : ℝ) (x : Matrix n p ℂ) : Matrix (l × n) p ℂ :=
  fun ik j => (F.mulVec fun k => masks ik.1 k * x k j / (sqn : ℂ)) ik.2

/-- The back transform and the sum over the masks, CSFRQPhaseRetrieval.cpp:117-134, 178-194. The unnormalised backward transform is the conjugate transpose of the forward one. -/
noncomputable def prBackward {l : Type*} [Fintype l] (F : Matrix n n ℂ) (masks : l → n → ℂ) (sqn : ℝ) (v : Matrix (l × n) p ℂ) : Matrix n p ℂ :=
  fun k j => ∑ i, (1 / (sqn : ℂ)) * (Fᴴ.mulVec fun k' => v (i, k') j) k * star (masks i k)

/-- `CSFRQPhaseRetrieval`, CSFRQPhaseRetrieval.cpp:26-198; the fields are `"cD"`, `"ZY"`. -/
noncomputable def phaseRetrieval {l : Type*} [Fintype l] (F : Matrix n n ℂ) (masks : l → n → ℂ) (b : l × n → ℝ) (kappa sqn : ℝ) : Prob (Matrix n p ℂ) ((l × n → ℝ) × Matrix (l × n) p ℂ) where
  f x :=
    let ZY := prForward F masks sqn x
    let cD := fun i => ∑ j, ((ZY i j).re * (ZY i j).re + (ZY i j).im * (ZY i j).im) - b i
    let result := (∑ i, cD i * cD i) / ∑ i, b i * b i
    (if kappa = 0 then result else result + kappa * rfrob x x, (cD, ZY))
  eucGrad x G :=
    let DZY := rowScale (fun i => (G.1 i : ℂ)) G.2
    let result := prBackward F masks sqn DZY
    let result := ((4 / ∑ i, b i * b i : ℝ) : ℂ) • result
    if kappa ≠ 0 then ((2 * kappa : ℝ) : ℂ) • x + result else result
  eucHess _ G etax :=
    let Zetax := prForward F masks sqn etax
    let cdD := fun i => 2 * ∑ j, (star (Zetax i j) * G.2 i j).re
    let d := rowScale (fun i => (cdD i : ℂ)) G.2 + rowScale (fun i => (G.1 i : ℂ)) Zetax
    let result := prBackward F masks sqn d
    let result := ((4 / ∑ i, b i * b i : ℝ) : ℂ) • result
    ((2 * kappa : ℝ) : ℂ) • etax + result

/-! ### Derivatives by differences -/

/-- `Problem::EucGrad`, Problem.cpp:107-137: forward differences with step `eps`; all entries of `x_eps` other than `i` are those of `x` in iteration `i`. -/
noncomputable def numGrad {ι : Type*} [DecidableEq ι] (f : (ι → ℝ) → ℝ) (eps : ℝ) (x : ι → ℝ) : ι → ℝ :=
  fun i => (f (Function.update x i (x i + eps)) - f x) / eps

/-- `Problem::EucHessianEta`, Problem.cpp:139-160: `gy` is the virtual `EucGrad`, `gx` the field `"EGrad"` of `x`, `normetax` the norm of `etax`; `c` is `1e-5`; `none` for the division by zero. -/
noncomputable def numHess {ι : Type*} (g : (ι → ℝ) → ι → ℝ) (gx : ι → ℝ) (c normetax : ℝ) (x etax : ι → ℝ) : Option (ι → ℝ) :=
  if normetax = 0 then none
  else
    let factor := c / normetax
    let y := 1 • (factor • etax) + x
    some ((1 / factor) • g y + (-1 / factor) • gx)

end Verif.Problem
