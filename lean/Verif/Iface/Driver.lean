/-
The drivers behind the Matlab and Julia interfaces: choosing solver and manifold by name, passing
parameters, and packing the result for Julia (/repo/test/DriverMexProb.h, DriverJuliaProb.cpp,
/repo/Julia/BeginROPTLIB.jl, /repo/Matlab/DriverOPT.m).
-/
import Mathlib.Data.List.Basic
import Mathlib.Data.Int.Notation
import Mathlib.Logic.Function.Basic
import Mathlib.Tactic.TypeStar

namespace Verif.Driver

/-- A constructed manifold: the class and the arguments of the constructor, in order. -/
structure Mani where
  cls : String
  args : List ℕ
  deriving DecidableEq

/-- `GetAManifold` (DriverMexProb.h:411-472; DriverJuliaProb.cpp:629-690; the two are the same
text): `none` for the null pointer. -/
def getAManifold (name : String) (n m p : ℕ) : Option Mani :=
  if name = "CFixedRankQ2F" then some ⟨"CFixedRankQ2F", [m, n, p]⟩
  else if name = "CStiefel" then some ⟨"CStiefel", [n, p]⟩
  else if name = "CSymFixedRankQ" then some ⟨"CSymFixedRankQ", [n, p]⟩
  else if name = "Euclidean" then some ⟨"Euclidean", [m, n]⟩
  else if name = "FixedRankE" then some ⟨"FixedRankE", [m, n, p]⟩
  else if name = "FixedRankQ2F" then some ⟨"FixedRankE", [m, n, p]⟩
  else if name = "Grassmann" then some ⟨"Grassmann", [n, p]⟩
  else if name = "SPDManifold" then some ⟨"SPDManifold", [n]⟩
  else if name = "Sphere" then some ⟨"Sphere", [n]⟩
  else if name = "Stiefel" then some ⟨"Stiefel", [n, p]⟩
  else if name = "SymFixedRankQ" then some ⟨"SymFixedRankQ", [n, p]⟩
  else none

/-- One entry of `ManiParams`: name, sizes, multiplicity and parameter set (Julia: −1 stands for
"default"). -/
structure Spec where
  name : String
  n : ℕ
  m : ℕ
  p : ℕ
  mult : ℕ
  paramSet : ℤ
  deriving DecidableEq

/-- A factor as the driver sets it up: the manifold and the value of "ParamSet" handed to
`SetParams`, `none` when the key is absent. -/
structure Factor where
  mani : Mani
  paramSet : Option ℤ
  deriving DecidableEq

/-- Outcome of parsing: `true` with the factors, `false`, or a call through a null pointer. -/
inductive Parsed
  | done (l : List Factor)
  | failed
  | nullCall
  deriving DecidableEq

/-- The loop of `ParseManiParams` for Julia (DriverJuliaProb.cpp:591-627): `params` is
declared outside the loop and an entry −1 leaves it alone; `SetParams` is called before the test for
the null pointer. -/
def parseJulia (params : Option ℤ) : List Spec → Parsed
  | [] => .done []
  | s :: t =>
    let params' := if s.paramSet ≠ -1 then some s.paramSet else params
    match getAManifold s.name s.n s.m s.p with
    | none => .nullCall
    | some M =>
      match parseJulia params' t with
      | .done l => .done (⟨M, params'⟩ :: l)
      | r => r

/-- The loop of `ParseManiParams` for Matlab (DriverMexProb.h:374-409): the key is overwritten for every
entry. -/
def parseMex : List Spec → Parsed
  | [] => .done []
  | s :: t =>
    match getAManifold s.name s.n s.m s.p with
    | none => .nullCall
    | some M =>
      match parseMex t with
      | .done l => .done (⟨M, some s.paramSet⟩ :: l)
      | r => r

/-- `powsinterval`: running sums of the multiplicities, starting with zero
(DriverMexProb.h:384-385, DriverJuliaProb.cpp:604-605). -/
def powsInterval (start : ℕ) : List Spec → List ℕ
  | [] => [start]
  | s :: t => start :: powsInterval (start + s.mult) t

/-- The solver class chosen for a method name (`ParseSolverParamsAndOptimizing`,
DriverMexProb.h:184-267, DriverJuliaProb.cpp:350-433). -/
def solverFor (name : String) : String :=
  if name = "RSD" then "RSD"
  else if name = "RNewton" then "RNewton"
  else if name = "RCG" then "RCG"
  else if name = "RBroydenFamily" then "RBroydenFamily"
  else if name = "RWRBFGS" then "RWRBFGS"
  else if name = "RBFGS" then "RBFGS"
  else if name = "RBFGSSub" then "RBFGSSub"
  else if name = "LRBFGSSub" then "LRBFGSSub"
  else if name = "RGS" then "RGS"
  else if name = "LRBFGS" then "LRBFGS"
  else if name = "RTRSD" then "RTRSD"
  else if name = "RTRNewton" then "RTRNewton"
  else if name = "RTRSR1" then "RTRSR1"
  else if name = "LRTRSR1" then "LRTRSR1"
  else if name = "ManPG" then "ManPG"
  else if name = "AManPG" then "AManPG"
  else "LRBFGS"

/-- The separators of `strtok` (DriverJuliaProb.cpp:75, 85). -/
def isSep (c : Char) : Bool := c = ' ' || c = ',' || c = '.' || c = '-'

/-- Repeated `strtok` (DriverJuliaProb.cpp:75-87): the maximal runs of characters that are no separators.  `cur` is the run being
read, reversed. -/
def tokens (cur : List Char) : List Char → List (List Char)
  | [] => if cur = [] then [] else [cur.reverse]
  | c :: t =>
    if isSep c then (if cur = [] then tokens [] t else cur.reverse :: tokens [] t)
    else tokens (c :: cur) t

/-- The names of the manifolds (DriverJuliaProb.cpp:71-87): the first `numoftypes`
tokens; `none` is undefined behaviour: the string does not fit the buffer of 1000 characters, there
is no room for a first name, or a null pointer is printed because there are fewer tokens. -/
def maniNames (s : List Char) (numoftypes : ℕ) : Option (List (List Char)) :=
  if 1000 ≤ s.length ∨ numoftypes = 0 ∨ (tokens [] s).length < numoftypes then none
  else some ((tokens [] s).take numoftypes)

/-! ### Parameters of the solver from Julia -/

/-- BeginROPTLIB.jl:125-172: the order in which the fields of `SolverParams` are written
into `Sparamsvals` (positions 1 to 46 of a one-based array). -/
def juliaOrder : List String :=
  ["IsCheckParams", "IsCheckGradHess", "Stop_Criterion", "Tolerance", "Diffx", "NumExtraGF",
   "TimeBound", "Min_Iteration", "Max_Iteration", "OutputGap", "Verbose", "isconvex", "nu", "mu",
   "LengthSY", "lambdaLower", "lambdaUpper", "LineSearch_LS", "IsPureLSInput", "LS_alpha",
   "LS_beta", "Minstepsize", "Maxstepsize", "LS_ratio1", "LS_ratio2", "Initstepsize", "Accuracy",
   "Finalstepsize", "Num_pre_funs", "InitSteptype", "Acceptence_Rho", "Shrinked_tau",
   "Magnified_tau", "minimum_Delta", "maximum_Delta", "useRand", "Max_Inner_Iter",
   "Min_Inner_Iter", "theta", "kappa", "initial_Delta", "Eps", "Theta_eps", "Min_Eps", "Del",
   "Theta_del"]

/-- DriverJuliaProb.cpp:25-70: `Sparams->name = paramsvalues[i]`. -/
def cppSlots : List (String × ℕ) :=
  [("IsCheckParams", 0), ("IsCheckGradHess", 1), ("Stop_Criterion", 2), ("Tolerance", 3),
   ("Diffx", 4), ("NumExtraGF", 5), ("TimeBound", 6), ("Min_Iteration", 7), ("Max_Iteration", 8),
   ("OutputGap", 9), ("Verbose", 10), ("isconvex", 11), ("nu", 12), ("mu", 13), ("LengthSY", 14),
   ("lambdaLower", 15), ("lambdaUpper", 16), ("LineSearch_LS", 17), ("IsPureLSInput", 18),
   ("LS_alpha", 19), ("LS_beta", 20), ("Minstepsize", 21), ("Maxstepsize", 22), ("LS_ratio1", 23),
   ("LS_ratio2", 24), ("Initstepsize", 25), ("Accuracy", 26), ("Finalstepsize", 27),
   ("Num_pre_funs", 28), ("InitSteptype", 29), ("Acceptence_Rho", 30), ("Shrinked_tau", 31),
   ("Magnified_tau", 32), ("minimum_Delta", 33), ("maximum_Delta", 34), ("useRand", 35),
   ("Max_Inner_Iter", 36), ("Min_Inner_Iter", 37), ("theta", 38), ("kappa", 39),
   ("initial_Delta", 40), ("Eps", 41), ("Theta_eps", 42), ("Min_Eps", 43), ("Del", 44),
   ("Theta_del", 45)]

/-- The fields of `struct SolverParams` in the C++ header that are of type `long int`
(DriverJuliaProb.h:79-132): assigning a double truncates. -/
def cppInts : List String :=
  ["IsCheckParams", "IsCheckGradHess", "Stop_Criterion", "NumExtraGF", "TimeBound",
   "Min_Iteration", "Max_Iteration", "OutputGap", "Verbose", "isconvex", "LengthSY",
   "LineSearch_LS", "IsPureLSInput", "Num_pre_funs", "InitSteptype", "useRand", "Max_Inner_Iter",
   "Min_Inner_Iter"]

/-- DriverJuliaProb.cpp:257-345 (`ParseSolverParamsAndOptimizing`): the names put into the parameter map when
their value is not −1. -/
def cppInserts : List String :=
  ["Stop_Criterion", "Tolerance", "Diffx", "NumExtraGF", "TimeBound", "Min_Iteration",
   "Max_Iteration", "OutputGap", "Verbose", "isconvex", "nu", "mu", "LengthSY", "lambdaLower",
   "lambdaUpper", "LineSearch_LS", "IsPureLSInput", "LS_alpha", "LS_beta", "Minstepsize",
   "Maxstepsize", "LS_ratio1", "LS_ratio2", "Initstepsize", "Accuracy", "Finalstepsize",
   "Num_pre_funs", "InitSteptype", "Acceptence_Rho", "Shrinked_tau", "Magnified_tau",
   "minimum_Delta", "maximum_Delta", "useRand", "Max_Inner_Iter", "Min_Inner_Iter", "theta",
   "kappa", "initial_Delta", "Eps", "Theta_eps", "Min_Eps", "Del", "Theta_del"]

/-- The array Julia passes, for parameter values `v`. -/
def juliaVals {K : Type*} (v : String → K) : List K := juliaOrder.map v

/-- The value the C++ struct holds for a name after the assignments; `none` if the name is not
assigned or the index is out of bounds.  `trunc` is the conversion from double to `long int`. -/
def cppStruct {K : Type*} (trunc : K → K) (vals : List K) (name : String) : Option K :=
  (cppSlots.find? (fun q => q.1 == name)).bind fun q =>
    (vals[q.2]?).map fun x => if name ∈ cppInts then trunc x else x

/-- The parameter map handed to `SetParams`; `m1` is the value −1. -/
def cppParams {K : Type*} [DecidableEq K] (trunc : K → K) (m1 : K) (vals : List K)
    (name : String) : Option K :=
  if name ∈ cppInserts then
    (cppStruct trunc vals name).bind fun x => if x = m1 then none else some x
  else none

/-! ### The result for Julia -/

/-- What a run returns: final iterate, final value, gradient norm, relative gradient norm, iteration
count, the counters, computing time, the three recorded series and the four extreme eigenvalues. -/
structure Result (K : Type*) where
  x : List K
  fv : K
  gfv : K
  gfgf0 : K
  iter : K
  nf : K
  ng : K
  nR : K
  nV : K
  nVp : K
  nH : K
  time : K
  funs : List K
  times : List K
  grads : List K
  eigs : List K
  deriving DecidableEq

/-- An array allocated with `new double[N]`: `none` where nothing was written yet. -/
abbrev Mem (K : Type*) := ℕ → Option K

/-- Write consecutive entries from position `s` on; `none` for a write outside the array. -/
def putSeg {K : Type*} (N s : ℕ) : List K → Mem K → Option (Mem K)
  | [], M => some M
  | v :: t, M => if s < N then putSeg N (s + 1) t (Function.update M s (some v)) else none

/-- Write several such pieces. -/
def putAll {K : Type*} (N : ℕ) : List (ℕ × List K) → Mem K → Option (Mem K)
  | [], M => some M
  | (s, l) :: t, M => (putSeg N s l M).bind (putAll N t)

/-- DriverJuliaProb.cpp:522: the length of the array. -/
def packLen {K : Type*} (r : Result K) : ℕ := 1 + r.x.length + 11 + 3 * r.funs.length + 4

/-- The assignments of DriverJuliaProb.cpp:524-585 in order (`ofNat` converts the length to a
number); the loops over the series run over the number of recorded function values. -/
def packSegs {K : Type*} (ofNat : ℕ → K) (r : Result K) : List (ℕ × List K) :=
  let lx := r.x.length
  let ls := r.funs.length
  [(0, [ofNat (packLen r)]), (1, r.x), (lx + 1, [r.fv]), (lx + 2, [r.gfv]), (lx + 3, [r.gfgf0]),
   (lx + 4, [r.iter]), (lx + 5, [r.nf]), (lx + 6, [r.ng]), (lx + 7, [r.nR]), (lx + 8, [r.nV]),
   (lx + 9, [r.nVp]), (lx + 10, [r.nH]), (lx + 11, [r.time]), (lx + 12, r.funs),
   (lx + 12 + ls, r.times), (lx + 12 + 2 * ls, r.grads), (lx + 12 + 3 * ls, r.eigs)]

/-- The array returned to Julia. -/
def pack {K : Type*} (ofNat : ℕ → K) (r : Result K) : Option (Mem K) :=
  putAll (packLen r) (packSegs ofNat r) (fun _ => none)

/-- The entries `a, ..., b` of a one-based array (Julia's `view(A, a:b)`); `none` if one of them was
never written. -/
def view {K : Type*} (M : Mem K) (a b : ℕ) : Option (List K) :=
  (List.range' (a - 1) (b + 1 - a)).mapM M

/-- BeginROPTLIB.jl:184-219, for a real start of length `lx0` and the total length `len` found in the
first entry; `none` also stands for the error of `convert(Int64, ·)` for a number of series entries
that is no integer. -/
def unpack {K : Type*} (lx0 len : ℕ) (M : Mem K) : Option (Result K) :=
  if (len - lx0 - 16) % 3 ≠ 0 then none
  else do
    let ls := (len - lx0 - 16) / 3
    let x ← view M 2 (lx0 + 1)
    let fv ← M (lx0 + 1)
    let gfv ← M (lx0 + 2)
    let gfgf0 ← M (lx0 + 3)
    let iter ← M (lx0 + 4)
    let nf ← M (lx0 + 5)
    let ng ← M (lx0 + 6)
    let nR ← M (lx0 + 7)
    let nV ← M (lx0 + 8)
    let nVp ← M (lx0 + 9)
    let nH ← M (lx0 + 10)
    let time ← M (lx0 + 11)
    let funs ← view M (lx0 + 12 + 1) (lx0 + 12 + ls)
    let times ← view M (lx0 + 12 + ls + 1) (lx0 + 12 + 2 * ls)
    let grads ← view M (lx0 + 12 + 2 * ls + 1) (lx0 + 12 + 3 * ls)
    let eigs ← view M (lx0 + 12 + 3 * ls + 1) (lx0 + 12 + 3 * ls + 4)
    pure ⟨x, fv, gfv, gfgf0, iter, nf, ng, nR, nV, nVp, nH, time, funs, times, grads, eigs⟩

end Verif.Driver
