import Mathlib.Analysis.Normed.Algebra.MatrixExponential
import Mathlib.Analysis.RCLike.Basic
import Mathlib.Analysis.SpecialFunctions.Log.Basic
import Mathlib.LinearAlgebra.Matrix.NonsingularInverse
import Verif.Elem.Dense

/-!
# Matrix functions and linear solvers of `Element`

Model of the wrappers in Manifolds/Element.cpp that call a LAPACK factorisation and combine its
factors: `operator%`, `operator/`, `TriangleLinSol`, `SYL`, `EigenDecomSym`, `ExpSym`, `LogSym`,
`GetOrth`, and of the entrywise `GetAbs`, `GetSqrt`.

Simplifications, everywhere in this file.  Entries are exact real or complex numbers (`𝕜` is `ℝ` or
`ℂ`).  LAPACK routines are parameters; what is assumed about their outputs is stated where a theorem uses
it.  `GetTranspose` of the code is the transpose of a real and the conjugate transpose of a
complex matrix (`Verif.Elem.Layout`), written `ᴴ` here for both.
-/

open Matrix

namespace Verif.MatFun

variable {𝕜 : Type*} [RCLike 𝕜] {n m k : Type*} [Fintype n] [DecidableEq n] [Fintype m] [DecidableEq m]
  [Fintype k] [DecidableEq k]

/-- The character arguments `"N"`, `"T"`, `"C"` of LAPACK (Others/def.h, `GLOBAL::N`, `T`, `C`). -/
inductive Op | N | T | C
  deriving DecidableEq

/-- The matrix meant by such an argument. -/
def Op.app : Op → Matrix n n 𝕜 → Matrix n n 𝕜
  | .N, A => A
  | .T, A => Aᵀ
  | .C, A => Aᴴ

/-! ## Linear systems -/

/-- `operator%(left, right)`, Element.cpp:442-487: `getrf` of `left`, then `getrs` with `"N"` on a copy of
`right`.  `info` is ignored by the code.  `F` stands for the contents of the two fields `_LU`, `_P`. -/
def solveLeft {F : Type*} (getrf : Matrix n n 𝕜 → F) (getrs : Op → F → Matrix n m 𝕜 → Matrix n m 𝕜)
    (left : Matrix n n 𝕜) (right : Matrix n m 𝕜) : Matrix n m 𝕜 :=
  getrs .N (getrf left) right

/-- `operator/(left, right)`, Element.cpp:391-440: `getrf` of `right`, the transposed system is solved for
the transposed `left` and the solution is transposed back.  The real branch passes `"T"`
(415), the complex branch `"C"` (435). -/
def solveRight {F : Type*} (t : Op) (getrf : Matrix n n 𝕜 → F)
    (getrs : Op → F → Matrix n m 𝕜 → Matrix n m 𝕜) (left : Matrix m n 𝕜) (right : Matrix n n 𝕜) :
    Matrix m n 𝕜 :=
  (getrs t (getrf right) leftᴴ)ᴴ

/-- The real branch of `operator/` (Element.cpp:396-419). -/
noncomputable def slashR {F : Type*} (getrf : Matrix n n ℝ → F) (getrs : Op → F → Matrix n m ℝ → Matrix n m ℝ) :
    Matrix m n ℝ → Matrix n n ℝ → Matrix m n ℝ := solveRight .T getrf getrs

/-- The complex branch of `operator/` (Element.cpp:421-439). -/
noncomputable def slashC {F : Type*} (getrf : Matrix n n ℂ → F) (getrs : Op → F → Matrix n m ℂ → Matrix n m ℂ) :
    Matrix m n ℂ → Matrix n n ℂ → Matrix m n ℂ := solveRight .C getrf getrs

/-- The part of a square array that `trtrs` with `"L"`, `"N"` reads. -/
def lower {N : ℕ} (L : Matrix (Fin N) (Fin N) 𝕜) : Matrix (Fin N) (Fin N) 𝕜 :=
  of fun i j => if j ≤ i then L i j else 0

open Classical in
/-- `TriangleLinSol(L, trans)`, Element.cpp:850-885.  `trtrs` looks for a zero on the diagonal first
and then returns with the right-hand side untouched; the code prints a message and returns that. -/
noncomputable def triLinSol {N : ℕ} (trtrs : Op → Matrix (Fin N) (Fin N) 𝕜 → Matrix (Fin N) m 𝕜 →
    Matrix (Fin N) m 𝕜) (t : Op) (L : Matrix (Fin N) (Fin N) 𝕜) (B : Matrix (Fin N) m 𝕜) :
    Matrix (Fin N) m 𝕜 :=
  if ∃ i, L i i = 0 then B else trtrs t (lower L) B

/-- What `gees` leaves in the fields `_SchurForm`, `_SchurVec` (Element.cpp:1341-1425). -/
structure Schur (n : Type*) (𝕜 : Type*) where
  form : Matrix n n 𝕜
  vec : Matrix n n 𝕜

/-- Results of `tgsyl`: `C` overwritten by `R`, `F` by `L`, and the scale. -/
structure Tgsyl (n m : Type*) (𝕜 : Type*) where
  R : Matrix n m 𝕜
  L : Matrix n m 𝕜
  scale : ℝ

/-- `SYL(A, B)`, Element.cpp:1427-1511, called on the right-hand side `C`: Schur forms of `A` and `B`,
`C` in Schur coordinates, `tgsyl` with the negated second form, identities and a zero right-hand side,
then back and divided by the scale.  Real and complex branches do the same. -/
noncomputable def syl (tgsyl : Matrix n n 𝕜 → Matrix m m 𝕜 → Matrix n m 𝕜 → Matrix n n 𝕜 →
    Matrix m m 𝕜 → Matrix n m 𝕜 → Tgsyl n m 𝕜) (SA : Schur n 𝕜) (SB : Schur m 𝕜)
    (C : Matrix n m 𝕜) : Matrix n m 𝕜 :=
  let C' := SA.vecᴴ * C * SB.vec
  let r := tgsyl SA.form ((-1 : 𝕜) • SB.form) C' 1 1 0
  ((r.scale : 𝕜)⁻¹) • (SA.vec * r.R * SB.vecᴴ)

/-! ## Eigenvalue decomposition with its cache, exponential and logarithm -/

/-- `"U"` or `"L"`. -/
inductive Tri | U | L
  deriving DecidableEq

/-- Output of `syev`/`heev`. -/
structure Eig (n : Type*) (𝕜 : Type*) where
  vals : n → ℝ
  vecs : Matrix n n 𝕜

/-- An element with the fields that the routines below consult: `_EigVal`, `_EigVec` and the pair
`_LU`, `_P` (always added together, Element.cpp:792-793). -/
structure El (n : Type*) (𝕜 : Type*) (F : Type*) where
  mat : Matrix n n 𝕜
  eigVal : Option (n → ℝ) := none
  eigVec : Option (Matrix n n 𝕜) := none
  lu : Option F := none

variable {F : Type*}

/-- `EigenDecomSym(JobZ, UorL)`, Element.cpp:887-963; `jobV` is `JobZ = "V"`. -/
def eigenDecomSym (syev : Tri → Matrix n n 𝕜 → Eig n 𝕜) (jobV : Bool) (u : Tri) (x : El n 𝕜 F) :
    El n 𝕜 F :=
  if x.eigVal.isSome && !jobV then x
  else if x.eigVal.isSome && x.eigVec.isSome then x
  else
    let e := syev u x.mat
    { x with eigVal := some e.vals, eigVec := if jobV then some e.vecs else x.eigVec }

/-- The loop of `scal_` calls: column `i` multiplied by `a i` (Element.cpp:980-984, 1000-1005). -/
def scaleCols (a : n → ℝ) (V : Matrix m n 𝕜) : Matrix m n 𝕜 := of fun i j => (a j : 𝕜) * V i j

/-- `ExpSym(UorL)`, Element.cpp:965-1008.  `none`: a field is missing (assertion in `Field`). -/
noncomputable def expSym (syev : Tri → Matrix n n 𝕜 → Eig n 𝕜) (u : Tri) (x : El n 𝕜 F) :
    El n 𝕜 F × Option (Matrix n n 𝕜) :=
  let y := eigenDecomSym syev true u x
  match y.eigVec, y.eigVal with
  | some V, some w => (y, some (scaleCols (fun i => Real.exp (w i)) V * Vᴴ))
  | _, _ => (y, none)

open Classical in
/-- `LogSym(UorL)`, Element.cpp:1010-1062: the loop over the eigenvalues leaves with a copy of the
receiver at the first one that is not positive. -/
noncomputable def logSym (syev : Tri → Matrix n n 𝕜 → Eig n 𝕜) (u : Tri) (x : El n 𝕜 F) :
    El n 𝕜 F × Option (Matrix n n 𝕜) :=
  let y := eigenDecomSym syev true u x
  match y.eigVec, y.eigVal with
  | some V, some w =>
    (y, some (if ∃ i, w i ≤ 0 then y.mat else scaleCols (fun i => Real.log (w i)) V * Vᴴ))
  | _, _ => (y, none)

/-- `LUdecom()`, Element.cpp:772-813. -/
def luDecom (getrf : Matrix n n 𝕜 → F) (x : El n 𝕜 F) : El n 𝕜 F :=
  if x.lu.isSome then x else { x with lu := some (getrf x.mat) }

/-- Calls a program can make on one element; `write` is any access for writing, which removes the
fields first (SmartSpace/Element `ObtainWrite*Data`, see property C06 for the accesses that do not). -/
inductive Call (n : Type*) (𝕜 : Type*)
  | eig (jobV : Bool) (u : Tri)
  | exp (u : Tri)
  | log (u : Tri)
  | lu
  | write (M : Matrix n n 𝕜)

/-- Effect of one call on the element. -/
noncomputable def step (syev : Tri → Matrix n n 𝕜 → Eig n 𝕜) (getrf : Matrix n n 𝕜 → F)
    (x : El n 𝕜 F) : Call n 𝕜 → El n 𝕜 F
  | .eig j u => eigenDecomSym syev j u x
  | .exp u => (expSym syev u x).1
  | .log u => (logSym syev u x).1
  | .lu => luDecom getrf x
  | .write M => { mat := M }

/-- A sequence of calls. -/
noncomputable def runCalls (syev : Tri → Matrix n n 𝕜 → Eig n 𝕜) (getrf : Matrix n n 𝕜 → F)
    (x : El n 𝕜 F) (cs : List (Call n 𝕜)) : El n 𝕜 F :=
  cs.foldl (step syev getrf) x

/-! ## Orthonormal factor and entrywise functions -/

/-- `GetOrth()`, Element.cpp:1927-1934: product of the outer factors of the thin singular value
decomposition. -/
def getOrth (U : Matrix m k 𝕜) (Vt : Matrix k n 𝕜) : Matrix m n 𝕜 := U * Vt

/-- `GetAbs()`, Element.cpp:1907-1915: every stored real number, so real and imaginary parts
separately. -/
def getAbs (x : Dense.El) : Dense.El := { x with get := fun i => if i < x.len then |x.get i| else x.get i }

open Classical in
/-- `GetSqrt()`, Element.cpp:1917-1925; `none`: some stored number is negative and the result contains
a NaN. -/
noncomputable def getSqrt (x : Dense.El) : Option Dense.El :=
  if ∃ i < x.len, x.get i < 0 then none
  else some { x with get := fun i => if i < x.len then √(x.get i) else x.get i }

end Verif.MatFun
