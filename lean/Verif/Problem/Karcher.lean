import Verif.Problem.Problems
import Verif.Elem.MatFun

/-!
# Karcher mean of positive definite matrices

Model of Problems/SPDKarcherMean.cpp.  The data are lower triangular factors `Ls i` (the matrices whose mean is wanted are
`Ls i * (Ls i)ᵀ`).  `chol`, `trtrs`, `syev`, `getrf`/`getrs` stand for the LAPACK routines behind `CholDecom`, `TriangleLinSol`, `LogSym` and
`operator/`.  Exact arithmetic; the memory of the product element `SharedLXL` is the subject of C09.
-/

namespace Verif.Karcher

open Matrix Verif.Mat Verif.Problem Verif.MatFun

variable {N K : ℕ}

/-- The LAPACK routines used by the problem. -/
structure Lapack (N : ℕ) (F : Type) where
  chol : Matrix (Fin N) (Fin N) ℝ → Matrix (Fin N) (Fin N) ℝ
  trtrs : Op → Matrix (Fin N) (Fin N) ℝ → Matrix (Fin N) (Fin N) ℝ → Matrix (Fin N) (Fin N) ℝ
  syev : Tri → Matrix (Fin N) (Fin N) ℝ → Eig (Fin N) ℝ
  getrf : Matrix (Fin N) (Fin N) ℝ → F
  getrs : Op → F → Matrix (Fin N) (Fin N) ℝ → Matrix (Fin N) (Fin N) ℝ

/-- The fields left at the point: `"_L"`, `"logLXL"` and in each component of it `"_EigVec"`, `"_EigVal"` (SPDKarcherMean.cpp:27, 41-42, 46). -/
structure Fields (N K : ℕ) where
  L : Matrix (Fin N) (Fin N) ℝ
  logs : Fin K → Matrix (Fin N) (Fin N) ℝ
  vec : Fin K → Matrix (Fin N) (Fin N) ℝ
  val : Fin K → Fin N → ℝ

variable {F : Type}

/-- `tmp2` of SPDKarcherMean.cpp:38-39: `Ls_i \ L`, times its transpose. -/
noncomputable def whitened (lp : Lapack N F) (Li L : Matrix (Fin N) (Fin N) ℝ) : Matrix (Fin N) (Fin N) ℝ :=
  let tmp1 := triLinSol lp.trtrs .N Li L
  tmp1 * tmp1ᵀ

/-- `SPDKarcherMean::f`, SPDKarcherMean.cpp:19-49, at a point without the field `"_L"`.  `getD 0` is never used: `LogSym` always finds its
fields (`Verif.MatFun.eig_fields`). -/
noncomputable def f (lp : Lapack N F) (Ls : Fin K → Matrix (Fin N) (Fin N) ℝ) (x : Matrix (Fin N) (Fin N) ℝ) : ℝ × Fields N K :=
  let L := lp.chol ((1 / 2 : ℝ) • (x + xᵀ))
  let el : Fin K → El (Fin N) ℝ Unit := fun i => { mat := whitened lp (Ls i) L }
  let lg := fun i => logSym lp.syev .L (el i)
  let logs := fun i => (lg i).2.getD 0
  ((∑ i, frob (logs i) (logs i)) / (2 * K), ⟨L, logs, fun i => (lg i).1.eigVec.getD 0, fun i => (lg i).1.eigVal.getD 0⟩)

/-- `SPDKarcherMean::EucGrad`, SPDKarcherMean.cpp:51-64. -/
noncomputable def eucGrad (lp : Lapack N F) (Ls : Fin K → Matrix (Fin N) (Fin N) ℝ) (fd : Fields N K) : Matrix (Fin N) (Fin N) ℝ :=
  let S := ∑ i, triLinSol lp.trtrs .T (Ls i) (fd.logs i * (Ls i)ᵀ)
  (1 / (K : ℝ)) • (triLinSol lp.trtrs .T fd.L (triLinSol lp.trtrs .N fd.L Sᵀ))ᵀ

open Classical in
/-- The table `Z` of SPDKarcherMean.cpp:84-86. -/
noncomputable def table (w : Fin N → ℝ) : Matrix (Fin N) (Fin N) ℝ :=
  of fun j k => if w j = w k then 1 / w j else (Real.log (w j) - Real.log (w k)) / (w j - w k)

/-- `SPDKarcherMean::EucHessianEta`, SPDKarcherMean.cpp:66-96; `egrad` is the field `"EGrad"`, the result of `EucGrad` at the point
(SPDManifold::EucGradToGrad). -/
noncomputable def eucHess (lp : Lapack N F) (Ls : Fin K → Matrix (Fin N) (Fin N) ℝ) (x : Matrix (Fin N) (Fin N) ℝ) (fd : Fields N K)
    (egrad etax : Matrix (Fin N) (Fin N) ℝ) : Matrix (Fin N) (Fin N) ℝ :=
  let S := ∑ i,
    let tmp := (triLinSol lp.trtrs .N (Ls i) etaxᵀ)ᵀ
    let Dir := triLinSol lp.trtrs .N (Ls i) tmp
    let U := fd.vec i
    let H := Uᵀ * Dir * U
    let tmp2 := U * (of (fun j k => H j k * table (fd.val i) j k) * Uᵀ)
    triLinSol lp.trtrs .T (Ls i) tmp2 * (Ls i)ᵀ
  slashR lp.getrf lp.getrs ((1 / (K : ℝ)) • S - egrad * etax) x

/-- The problem in the form the solvers use. -/
noncomputable def karcher (lp : Lapack N F) (Ls : Fin K → Matrix (Fin N) (Fin N) ℝ) : Prob (Matrix (Fin N) (Fin N) ℝ) (Fields N K) where
  f := f lp Ls
  eucGrad _ fd := eucGrad lp Ls fd
  eucHess x fd etax := eucHess lp Ls x fd (eucGrad lp Ls fd) etax

end Verif.Karcher
