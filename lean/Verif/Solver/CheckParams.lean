import Verif.Solver.Control

/-!
# What `CheckParams` prints

Model of the `CheckParams` functions of the solver classes. Each of them calls the function of its base class and
then prints one line per parameter: the name, the value and "YES" or "NO". A parameter of an enumeration type is
printed by its name, which is looked up in an array of strings with the value as the index, whether or not the
value is in range.

Simplifications: parameter values are rational numbers kept by name (`Store`), integer and enumeration parameters
hold integers, Booleans hold 0 or 1; NaN does not occur. The layout of the output, the headings and the printed
values are left out. A line is labelled with the name under which the parameter is set; the code prints
"RPGVariant" for "RPGLSVariant" and "Magnified tau" for "Magnified_tau".
-/

namespace Verif.Solver

/-- One line of the report: the parameter, the length of the array of names it indexes (if any), the verdict, and
whether the line is printed. -/
structure CLine where
  name : String
  names : Option Nat := none
  ok : Store → Bool := fun _ => true
  shown : Store → Bool := fun _ => true

/-- Printing one line: `none` when the array of names is read outside its bounds (undefined behaviour). -/
def CLine.print (l : CLine) (st : Store) : Option (List (String × Bool)) :=
  if l.shown st then
    match l.names with
    | none => some [(l.name, l.ok st)]
    | some k => if 0 ≤ st l.name ∧ st l.name < k then some [(l.name, l.ok st)] else none
  else some []

/-- Printing lines one after the other; `none` as soon as one of them reads outside its array. -/
def report : List CLine → Store → Option (List (String × Bool))
  | [], _ => some []
  | l :: ls, st => (l.print st).bind fun a => (report ls st).map fun b => a ++ b

/-- A line for an enumeration parameter with `k` names, tested against the same `k`. -/
def enumLine (n : String) (k : Nat) : CLine :=
  { name := n, names := some k, ok := fun st => decide (0 ≤ st n ∧ st n < k) }

/-- `Solvers::CheckParams`, `Solvers/Solvers.cpp:8-27`. -/
def lSolvers : List CLine := [
  { name := "Tolerance", ok := fun st => decide (0 < st "Tolerance") },
  { name := "TimeBound", ok := fun st => decide (0 < st "TimeBound") },
  { name := "OutputGap", ok := fun st => decide (0 < st "OutputGap") },
  { name := "Max_Iteration",
    ok := fun st => decide (0 < st "Max_Iteration" ∧ st "Min_Iteration" ≤ st "Max_Iteration") },
  { name := "Min_Iteration",
    ok := fun st => decide (0 ≤ st "Min_Iteration" ∧ st "Min_Iteration" ≤ st "Max_Iteration") },
  enumLine "Verbose" 4]

/-- `SolversSM::CheckParams`, `Solvers/SolversSM.cpp:75-87`. -/
def lSM : List CLine := lSolvers ++ [
  enumLine "Stop_Criterion" 3,
  { name := "Accuracy", ok := fun st => decide (0 ≤ st "Accuracy" ∧ st "Accuracy" ≤ 1) }]

/-- `SolversSMLS::CheckParams`, `Solvers/SolversSMLS.cpp:566-611`. The user-supplied line search is number 4. -/
def lSMLS : List CLine := lSM ++ [
  enumLine "LineSearch_LS" 5,
  enumLine "InitSteptype" 5,
  { name := "LS_alpha", ok := fun st => decide (0 < st "LS_alpha" ∧ st "LS_alpha" < 1 / 2) },
  { name := "LS_beta", ok := fun st => decide (st "LS_alpha" < st "LS_beta" ∧ st "LS_beta" < 1) },
  { name := "LS_ratio1", ok := fun st => decide (0 < st "LS_ratio1" ∧ st "LS_ratio1" ≤ st "LS_ratio2") },
  { name := "LS_ratio2", ok := fun st => decide (st "LS_ratio1" ≤ st "LS_ratio2" ∧ st "LS_ratio2" < 1) },
  { name := "Initstepsize", ok := fun st => decide (0 < st "Initstepsize") },
  { name := "Finalstepsize" },
  { name := "Minstepsize", ok := fun st => decide (0 < st "Minstepsize" ∧ st "Minstepsize" ≤ st "Maxstepsize") },
  { name := "Maxstepsize", ok := fun st => decide (0 < st "Maxstepsize" ∧ st "Minstepsize" ≤ st "Maxstepsize") },
  { name := "Num_pre_funs", ok := fun st => decide (1 ≤ st "Num_pre_funs") },
  { name := "Num_pre_BB", ok := fun st => decide (0 ≤ st "Num_pre_BB") },
  { name := "BBratio", ok := fun st => decide ((0 ≤ st "BBratio" ∧ st "BBratio" ≤ 1) ∨ st "BBratio" = -1) },
  { name := "PreFunsAccuracy", ok := fun st => decide (0 ≤ st "PreFunsAccuracy") },
  { name := "IsPureLSInput", shown := fun st => decide (st "LineSearch_LS" = 4) }]

/-- `SolversSMTR::CheckParams`, `Solvers/SolversSMTR.cpp:266-297`. -/
def lSMTR : List CLine := lSM ++ [
  { name := "initial_Delta", ok := fun st => decide (0 < st "initial_Delta") },
  { name := "Acceptence_Rho", ok := fun st => decide (0 < st "Acceptence_Rho" ∧ st "Acceptence_Rho" < 1 / 4) },
  { name := "Shrinked_tau", ok := fun st => decide (0 < st "Shrinked_tau" ∧ st "Shrinked_tau" < 1) },
  { name := "Magnified_tau", ok := fun st => decide (1 < st "Magnified_tau") },
  { name := "minimum_Delta",
    ok := fun st => decide (0 < st "minimum_Delta" ∧ st "minimum_Delta" ≤ st "maximum_Delta") },
  { name := "maximum_Delta",
    ok := fun st => decide (0 < st "maximum_Delta" ∧ st "minimum_Delta" ≤ st "maximum_Delta") },
  { name := "Min_Inner_Iter",
    ok := fun st => decide (0 ≤ st "Min_Inner_Iter" ∧ st "Min_Inner_Iter" ≤ st "Max_Inner_Iter") },
  { name := "Max_Inner_Iter",
    ok := fun st => decide (0 ≤ st "Max_Inner_Iter" ∧ st "Min_Inner_Iter" ≤ st "Max_Inner_Iter") },
  { name := "theta", ok := fun st => decide (0 ≤ st "theta") },
  { name := "kappa", ok := fun st => decide (0 < st "kappa" ∧ st "kappa" < 1) },
  { name := "useRand" }]

/-- `SolversNSM::CheckParams`, `Solvers/SolversNSM.cpp:17-27`. -/
def lNSM : List CLine := lSolvers ++ [enumLine "Stop_Criterion" 3]

/-- `SolversNSMSub::CheckParams` (`Solvers/SolversNSMSub.cpp:63-74`) followed by `SolversNSMSubLS::CheckParams`
(`Solvers/SolversNSMSubLS.cpp:197-227`). -/
def lNSMSubLS : List CLine := lNSM ++ [
  { name := "Diffx", ok := fun st => decide (0 < st "Diffx") },
  { name := "NumExtraGF", ok := fun st => decide (0 < st "NumExtraGF") },
  { name := "Eps", ok := fun st => decide (0 < st "Eps") },
  { name := "Theta_eps", ok := fun st => decide (0 < st "Theta_eps" ∧ st "Theta_eps" < 1) },
  { name := "Min_Eps", ok := fun st => decide (0 < st "Min_Eps" ∧ st "Min_Eps" < 1) },
  { name := "Del", ok := fun st => decide (0 < st "Del") },
  { name := "Theta_del", ok := fun st => decide (0 < st "Theta_del" ∧ st "Theta_del" < 1) },
  { name := "LS_alpha", ok := fun st => decide (0 < st "LS_alpha" ∧ st "LS_alpha" < 1) },
  { name := "LS_beta", ok := fun st => decide (0 < st "LS_beta" ∧ st "LS_beta" < 1) },
  { name := "Minstepsize", ok := fun st => decide (0 < st "Minstepsize" ∧ st "Minstepsize" ≤ 1) },
  { name := "Maxstepsize", ok := fun st => decide (1 ≤ st "Maxstepsize") },
  { name := "lambdaLower", ok := fun st => decide (0 < st "lambdaLower" ∧ st "lambdaLower" < 1) },
  { name := "lambdaUpper", ok := fun st => decide (1 < st "lambdaUpper") }]

/-- `SolversNSMPGLS::CheckParams`, `Solvers/SolversNSMPGLS.cpp:41-60`. -/
def lNSMPGLS : List CLine := lNSM ++ [
  enumLine "RPGLSVariant" 2,
  { name := "Minstepsize", ok := fun st => decide (0 < st "Minstepsize" ∧ st "Minstepsize" ≤ 1) },
  { name := "LS_ratio", ok := fun st => decide (0 < st "LS_ratio" ∧ st "LS_ratio" < 1) },
  { name := "LS_alpha", ok := fun st => decide (0 < st "LS_alpha" ∧ st "LS_alpha" < 1) }]

/-- The lines for `nu`, `mu` and `isconvex`: `RBroydenFamily.cpp:81-96`, `RWRBFGS.cpp:80-95`, `RBFGS.cpp:82-97`,
and the first three of `LRBFGS.cpp:93-114`. -/
def lQN : List CLine := [
  { name := "nu", ok := fun st => decide (0 ≤ st "nu" ∧ st "nu" < 1) },
  { name := "mu", ok := fun st => decide (0 ≤ st "mu") },
  { name := "isconvex" }]

/-- The lines for the memory: `LRBFGS.cpp:93-114`, `LRTRSR1.cpp:424-436`. -/
def lMem : List CLine := [
  { name := "LengthSY", ok := fun st => decide (0 ≤ st "LengthSY") },
  { name := "LMrestart" }]

/-- The line of `RCG::CheckParams`, `Solvers/RCG.cpp:42-52`: the test is `RCGmethod <= RCGMETHODSLENGTH` with six
names in the array. -/
def lRCG : List CLine := [
  { name := "RCGmethod", names := some 6, ok := fun st => decide (0 ≤ st "RCGmethod" ∧ st "RCGmethod" ≤ 6) }]

/-- The lines of `RNewton::CheckParams`, `Solvers/RNewton.cpp:38-56`: the status for `kappa` is printed again for
`useRand`. -/
def lRNewton : List CLine := [
  { name := "Min_Inner_Iter",
    ok := fun st => decide (0 ≤ st "Min_Inner_Iter" ∧ st "Min_Inner_Iter" ≤ st "Max_Inner_Iter") },
  { name := "Max_Inner_Iter",
    ok := fun st => decide (0 ≤ st "Max_Inner_Iter" ∧ st "Min_Inner_Iter" ≤ st "Max_Inner_Iter") },
  { name := "theta", ok := fun st => decide (1 ≤ st "theta") },
  { name := "kappa", ok := fun st => decide (0 < st "kappa" ∧ st "kappa" < 1) },
  { name := "useRand", ok := fun st => decide (0 < st "kappa" ∧ st "kappa" < 1) }]

/-- The solver classes. `RTR` stands for `RTRSD`, `RTRNewton` and `RTRSR1`, `RBFGS` for `RBFGS`, `RWRBFGS` and
`RBroydenFamily`, `RSub` for `RGS` and `RBFGSSub`: these have the same lines. -/
inductive Cls where
  | RSD | RCG | RNewton | RBFGS | LRBFGS | RTR | LRTRSR1 | RSub | LRBFGSSub | ManPG | AManPG
  deriving DecidableEq

/-- The lines of the class, base classes first. `LRBFGSSub::CheckParams` is `Solvers/LRBFGSSub.cpp:104-115`,
`AManPG::CheckParams` is `Solvers/AManPG.cpp:38-49`; `RSD`, `RTRSD`, `RTRNewton`, `RTRSR1`, `RGS`, `RBFGSSub` and
`ManPG` have no function of their own. -/
def Cls.lines : Cls → List CLine
  | .RSD => lSMLS
  | .RCG => lSMLS ++ lRCG
  | .RNewton => lSMLS ++ lRNewton
  | .RBFGS => lSMLS ++ lQN
  | .LRBFGS => lSMLS ++ lQN ++ lMem
  | .RTR => lSMTR
  | .LRTRSR1 => lSMTR ++ lMem
  | .RSub => lNSMSubLS
  | .LRBFGSSub => lNSMSubLS ++ [{ name := "LengthSY", ok := fun st => decide (0 ≤ st "LengthSY") }]
  | .ManPG => lNSMPGLS
  | .AManPG => lNSMPGLS ++ [{ name := "SGIterGap", ok := fun st => decide (0 < st "SGIterGap") }]

/-- `CheckParams` of an object of the class: the verdicts in the order printed, or undefined behaviour. -/
def checkParams (c : Cls) (st : Store) : Option (List (String × Bool)) := report c.lines st

/-- Assignments made after those that led to `st`. -/
def over : List (String × Rat) → Store → Store
  | [], st, n => st n
  | (k, v) :: rest, st, n => if k = n then v else over rest st n

/-- `Solvers::SetDefaultParams`, `Solvers/Solvers.cpp:53-64`. Decimal
constants are taken exactly, `epsilon` is `2^-52`, members not assigned are zero. -/
def dSolvers : Store := over [("TimeBound", 60 * 60 * 24 * 365), ("Tolerance", 1 / 10 ^ 6),
  ("Max_Iteration", 500), ("Min_Iteration", 0), ("OutputGap", 1), ("Verbose", 2)] (fun _ => 0)

/-- `SolversSM::SetDefaultParams`, `Solvers/SolversSM.cpp:96-101`. -/
def dSM : Store := over [("Stop_Criterion", 2), ("Accuracy", 1 / 10 ^ 6)] dSolvers

/-- `SolversSMLS::SetDefaultParams`, `Solvers/SolversSMLS.cpp:655-673`. -/
def dSMLS : Store := over [("LineSearch_LS", 0), ("Num_pre_funs", 1), ("LS_alpha", 1 / 10 ^ 4),
  ("LS_beta", 999 / 1000), ("Minstepsize", 1 / 2 ^ 52), ("Maxstepsize", 10 ^ 10), ("LS_ratio1", 1 / 10),
  ("LS_ratio2", 9 / 10), ("Initstepsize", 1), ("Finalstepsize", -1), ("Num_pre_BB", 0), ("BBratio", 1),
  ("PreFunsAccuracy", 10 ^ 6), ("IsPureLSInput", 0)] dSM

/-- `SolversSMTR::SetDefaultParams`, `Solvers/SolversSMTR.cpp:314-329`. -/
def dSMTR : Store := over [("Acceptence_Rho", 1 / 10), ("Shrinked_tau", 1 / 4), ("Magnified_tau", 2),
  ("minimum_Delta", 1 / 2 ^ 52), ("maximum_Delta", 10000), ("useRand", 0), ("Max_Inner_Iter", 1000),
  ("Min_Inner_Iter", 0), ("theta", 1), ("kappa", 1 / 10), ("initial_Delta", 1)] dSM

/-- `SolversNSM::SetDefaultParams`, `Solvers/SolversNSM.cpp:29-33`. -/
def dNSM : Store := over [("Stop_Criterion", 2)] dSolvers

/-- `SolversNSMSub::SetDefaultParams` and `SetProbX` (`Solvers/SolversNSMSub.cpp:83-106`: `NumExtraGF` is the
dimension `d` of the domain), `SolversNSMSubLS::SetDefaultParams` (`Solvers/SolversNSMSubLS.cpp:169-183`). -/
def dNSMSubLS (d : Nat) : Store := over [("Theta_eps", 1 / 100), ("Theta_del", 1 / 100), ("Eps", 1),
  ("Min_Eps", 1 / 10 ^ 6), ("Del", 1), ("LS_alpha", 1 / 10 ^ 4), ("LS_beta", 999 / 1000),
  ("Minstepsize", 2 / 10 ^ 16), ("Maxstepsize", 1000), ("lambdaLower", 1 / 10 ^ 7), ("lambdaUpper", 10 ^ 7),
  ("Diffx", 1 / 10 ^ 6), ("NumExtraGF", d)] dNSM

/-- `SolversNSMPGLS::SetDefaultParams`, `Solvers/SolversNSMPGLS.cpp:22-36`. -/
def dNSMPGLS : Store := over [("Minstepsize", 2 / 100), ("LS_ratio", 1 / 2), ("LS_alpha", 1 / 10 ^ 4),
  ("Tolerance", 1 / 10 ^ 4), ("RPGLSVariant", 1)] dNSM

/-- The parameters of a new object of the class on a domain of dimension `d`: `RSD.cpp:19-23`, `RCG.cpp:19-25`,
`RNewton.cpp:18-27`, `RBFGS.cpp:45-52`, `LRBFGS.cpp:22-37`, `RTRNewton.cpp:19-22`, `LRTRSR1.cpp:21-39`,
`RGS.cpp:12-15`, `LRBFGSSub.cpp:39-49`, `ManPG.cpp:16-20`, `AManPG.cpp:30-35`. -/
def Cls.defaults (d : Nat) : Cls → Store
  | .RSD => over [("InitSteptype", 1)] dSMLS
  | .RCG => over [("RCGmethod", 2), ("InitSteptype", 1)] dSMLS
  | .RNewton => over [("theta", 1), ("kappa", 1 / 10), ("Min_Inner_Iter", 0), ("Max_Inner_Iter", 1000),
      ("useRand", 0), ("InitSteptype", 3)] dSMLS
  | .RBFGS => over [("isconvex", 0), ("nu", 1 / 10 ^ 4), ("mu", 1), ("InitSteptype", 3)] dSMLS
  | .LRBFGS => over [("isconvex", 0), ("nu", 1 / 10 ^ 4), ("mu", 1), ("LengthSY", 4), ("LMrestart", 0),
      ("InitSteptype", 3)] dSMLS
  | .RTR => dSMTR
  | .LRTRSR1 => over [("theta", 1 / 10), ("kappa", 1 / 10), ("LengthSY", 4), ("LMrestart", 1)] dSMTR
  | .RSub => dNSMSubLS d
  | .LRBFGSSub => over [("LengthSY", 4)] (dNSMSubLS d)
  | .ManPG => dNSMPGLS
  | .AManPG => over [("RPGLSVariant", 0), ("SGIterGap", 5)] dNSMPGLS

end Verif.Solver
