import Mathlib.Algebra.Order.Field.Basic
import Mathlib.Data.Rat.Floor
import Mathlib.Tactic.Linarith

/-!
# Stopping tests, initial step sizes and named parameters

Models of `SolversSM::IsStopped` (`Solvers/SolversSM.cpp:54-73`), the final safeguard of
`SolversSMLS::InitialStepSize` (`Solvers/SolversSMLS.cpp:199-305`) and the `SetParams` functions.
-/

namespace Verif.Solver

/-! ## Stopping tests -/

section stop
variable {K : Type} [Field K] [LinearOrder K]

/-- `StopCritSM`, `Solvers/SolversSM.h:29`; `other` is any other integer value. -/
inductive Crit where
  | funRel | gradF | gradF0 | other
  deriving DecidableEq

/-- The data read by the stopping test. `callback` is the result of the user's function, if one has
been installed. -/
structure StopIn (K : Type) where
  elapsed : K
  timeBound : K
  callback : Option Bool
  crit : Crit
  tol : K
  iter : Nat
  f1 : K
  f2 : K
  ngf0 : K
  ngf2 : K

/-- `a / b < c` in IEEE arithmetic for `a, b >= 0` and finite `c`: when `b = 0` the quotient is NaN or
plus infinity and the comparison is false. -/
def quotLt (a b c : K) : Bool := if b = 0 then false else decide (a / b < c)

/-- `SolversSM::IsStopped`, `Solvers/SolversSM.cpp:54-73`. -/
def isStopped (s : StopIn K) : Bool :=
  if s.timeBound < s.elapsed then true
  else match s.callback with
    | some b => b
    | none => match s.crit with
      | .funRel => decide (|(s.f1 - s.f2) / (|s.f1| + 1)| < s.tol) && decide (0 < s.iter)
      | .gradF => decide (s.ngf2 < s.tol)
      | .gradF0 => quotLt s.ngf2 s.ngf0 s.tol
      | .other => true

end stop

/-! ## Initial step -/

/-- A floating point value: NaN, an infinity or a number. -/
inductive Ext (K : Type) where
  | nan | ninf | pinf | fin (v : K)

/-- `<` of floating point values: false as soon as a NaN is involved. -/
def Ext.lt {K : Type} [LinearOrder K] : Ext K → Ext K → Bool
  | .nan, _ => false
  | _, .nan => false
  | .ninf, .ninf => false
  | .ninf, _ => true
  | .pinf, _ => false
  | .fin _, .ninf => false
  | .fin _, .pinf => true
  | .fin a, .fin b => decide (a < b)

/-- `x / 100`. -/
def Ext.div100 {K : Type} [Field K] : Ext K → Ext K
  | .fin v => .fin (v / 100)
  | x => x

/-- `a / b` for numbers `a`, `b >= 0`. -/
def divExt {K : Type} [Field K] [LinearOrder K] (a b : K) : Ext K :=
  if b = 0 then (if a = 0 then .nan else if 0 < a then .pinf else .ninf) else .fin (a / b)

/-- `InitialStepSize`, `SolversSMLS.cpp:199-305`. `quad` is `quadintstepsize` and `cand` the step computed
by the selected rule (`InitSteptype`), both arbitrary floating point values; the safeguard of
lines 301-302 and the choice for the first iteration are exact. -/
def initialStep {K : Type} [Field K] [LinearOrder K] (iter : Nat) (initStep ngf1 eps : K)
    (quad cand : Ext K) : Ext K :=
  if iter = 0 then .fin initStep
  else
    let s := if Ext.lt cand quad.div100 then quad else cand
    if Ext.lt s (.fin eps) then divExt initStep ngf1 else s

/-! ## Named parameters -/

/-- How a value is stored: as it is, truncated to an integer, or as a truth value. -/
inductive Cast where
  | real | int | bool
  deriving DecidableEq

/-- Conversion of a `realdp` to `integer` in C++: truncation towards zero. -/
def trunc (v : Rat) : Int := if 0 ≤ v then ⌊v⌋ else ⌈v⌉

def Cast.apply : Cast → Rat → Rat
  | .real, v => v
  | .int, v => trunc v
  | .bool, v => if trunc v = 0 then 0 else 1

/-- One `SetParams` function: its recognised names with the conversion applied. -/
abbrev Table := List (String × Cast)

/-- Parameter values by name. -/
abbrev Store := String → Rat

/-- The body of the loop of a `SetParams` function: an if/else-if chain over the recognised names. -/
def setOne (T : Table) (st : Store) (kv : String × Rat) : Store :=
  match T.find? (fun e => e.1 == kv.1) with
  | some e => fun n => if n = kv.1 then e.2.apply kv.2 else st n
  | none => st

/-- One `SetParams` function: a loop over the map. -/
def setTable (T : Table) (params : List (String × Rat)) (st : Store) : Store :=
  params.foldl (setOne T) st

/-- `SetParams` of a derived class: each class of the chain, base class first, loops over the map. -/
def setParams (chain : List Table) (params : List (String × Rat)) (st : Store) : Store :=
  chain.foldl (fun st T => setTable T params st) st

/-- `Solvers::SetParams`, `Solvers/Solvers.cpp:108-143`. -/
def tSolvers : Table := [("Tolerance", .real), ("TimeBound", .real), ("Max_Iteration", .int),
  ("Min_Iteration", .int), ("OutputGap", .int), ("Verbose", .int)]

/-- `SolversSM::SetParams`, `Solvers/SolversSM.cpp:115-131`. -/
def tSM : Table := [("Stop_Criterion", .int), ("Accuracy", .real)]

/-- `SolversSMLS::SetParams`, `Solvers/SolversSMLS.cpp:810-892`. -/
def tSMLS : Table := [("LineSearch_LS", .int), ("LS_alpha", .real), ("LS_beta", .real),
  ("Minstepsize", .real), ("Maxstepsize", .real), ("LS_ratio1", .real), ("LS_ratio2", .real),
  ("Initstepsize", .real), ("Finalstepsize", .real), ("Num_pre_funs", .int),
  ("InitSteptype", .int), ("IsPureLSInput", .bool), ("PreFunsAccuracy", .real),
  ("Num_pre_BB", .int), ("BBratio", .real)]

/-- `SolversSMTR::SetParams`, `Solvers/SolversSMTR.cpp:344-405`. -/
def tSMTR : Table := [("Acceptence_Rho", .real), ("Shrinked_tau", .real), ("Magnified_tau", .real),
  ("minimum_Delta", .real), ("maximum_Delta", .real), ("useRand", .bool), ("Max_Inner_Iter", .int),
  ("Min_Inner_Iter", .int), ("theta", .real), ("kappa", .real), ("initial_Delta", .real)]

/-- `SolversNSM::SetParams`, `Solvers/SolversNSM.cpp:43-54`. -/
def tNSM : Table := [("Stop_Criterion", .int)]

/-- `SolversNSMPGLS::SetParams`, `Solvers/SolversNSMPGLS.cpp:105-131`. Three real parameters are cast
to `integer`. -/
def tNSMPGLS : Table := [("RPGLSVariant", .int), ("LS_ratio", .int), ("LS_alpha", .int),
  ("Minstepsize", .int)]

/-- `RBFGS::SetParams` (`Solvers/RBFGS.cpp:56-78`), the same for `RWRBFGS`, `RBroydenFamily`. -/
def tRBFGS : Table := [("isconvex", .bool), ("nu", .real), ("mu", .real)]

/-- `LRBFGS::SetParams`, `Solvers/LRBFGS.cpp:41-72`. -/
def tLRBFGS : Table := [("isconvex", .bool), ("LengthSY", .int), ("LMrestart", .int), ("nu", .real),
  ("mu", .real)]

/-- `RNewton::SetParams`, `Solvers/RNewton.cpp:172-206`. -/
def tRNewton : Table := [("useRand", .bool), ("Max_Inner_Iter", .int), ("Min_Inner_Iter", .int),
  ("theta", .real), ("kappa", .real)]

/-- `AManPG::SetParams`, `Solvers/AManPG.cpp:254-265`. -/
def tAManPG : Table := [("SGIterGap", .int)]

/-- The class chains, base class first. -/
def chainRBFGS : List Table := [tSolvers, tSM, tSMLS, tRBFGS]
def chainLRBFGS : List Table := [tSolvers, tSM, tSMLS, tLRBFGS]
def chainRNewton : List Table := [tSolvers, tSM, tSMLS, tRNewton]
def chainTR : List Table := [tSolvers, tSM, tSMTR]
def chainManPG : List Table := [tSolvers, tNSM, tNSMPGLS]
def chainAManPG : List Table := [tSolvers, tNSM, tNSMPGLS, tAManPG]

end Verif.Solver
