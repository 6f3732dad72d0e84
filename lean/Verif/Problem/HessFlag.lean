/-!
# The flag `UseHess` of a problem and the field `"EGrad"` of its points

The action of the Hessian at a point is computed from the Euclidean gradient at that point, which is not passed as an argument: the evaluation of the gradient leaves it in the field `"EGrad"` of the point, but only if the problem's flag `UseHess` is set. The flag belongs to the problem, and solvers set or clear it when they are constructed or given a new start (`SetProbX`), not when they are run.

Simplifications: points, tangent vectors and Euclidean gradients are elements of one type `E` (in the library all are `Element`s); nothing but the solvers and the calls listed in `Ev` touches the flag; a candidate produced by `Retraction` carries no field `"EGrad"` (the result of a retraction is written through `NewMemoryOnWrite`/`CopyOnWrite`, which remove the fields).
-/

namespace Verif.HessFlag

/-- A point with its field `"EGrad"`, if there. -/
structure Var (E : Type) where
  val : E
  egrad : Option E

/-- How the action of the Hessian is computed: `Problem::RieHessianEta` (Problem.cpp:97-106) followed by `EucHvToHv` of the manifold. -/
inductive Hess (E : Type)
  /-- from the point and the direction only: `Euclidean::EucHvToHv` (Euclidean.cpp:148-152) with an `EucHessianEta` of the user -/
  | free (h : E → E → E)
  /-- with the field `"EGrad"`: `EucHvToHv` of the other manifolds (e.g. Stiefel.cpp:337-358), or the finite difference `Problem::EucHessianEta` (Problem.cpp:155-156) -/
  | needs (h : E → E → E → E)

/-- The functions of a problem on a manifold: `f`, `EucGrad`, the conversion of the Euclidean gradient (`EucGradToGrad`, `ObtainIntr`), the Hessian. -/
structure Prob (E R : Type) where
  f : E → R
  egrad : E → E
  conv : E → E → E
  hess : Hess E

/-- With or without assertions (`NDEBUG`). -/
inductive Build
  | debug
  | release
deriving DecidableEq

/-- `Element::Field("EGrad")`, Element.cpp:2800-2814: if the name is missing, a message, then `assert(false)` (`none`); without assertions the element itself is returned. -/
def field {E : Type} (b : Build) (x : Var E) : Option E :=
  match x.egrad with
  | some g => some g
  | none =>
    match b with
    | .debug => none
    | .release => some x.val

/-- `Problem::Grad`, Problem.cpp:61-95, with the `EucGradToGrad` of the manifolds (Stiefel.cpp:315-335, Euclidean.cpp:139-146, ...): the point afterwards and the gradient. `AddToFields` (Element.cpp:2770-2783) replaces a former entry. -/
def grad {E R : Type} (P : Prob E R) (use : Bool) (x : Var E) : Var E × E :=
  (if use then { x with egrad := some (P.egrad x.val) } else x, P.conv x.val (P.egrad x.val))

/-- `Problem::HessianEta`, Problem.cpp:72-82. -/
def hessEta {E R : Type} (P : Prob E R) (b : Build) (x : Var E) (eta : E) : Option E :=
  match P.hess with
  | .free h => some (h x.val eta)
  | .needs h => (field b x).map fun g => h x.val g eta

/-- What a method asks for next. -/
inductive Act (E : Type)
  /-- the action of the Hessian at the iterate (RTRNewton.cpp:25-28, RNewton.cpp:98,124) -/
  | hess (eta : E)
  /-- the value at a trial point, which is dropped -/
  | trial (v : E)
  /-- value and gradient at a point, which becomes the iterate (SolversSMTR.cpp:305, 86-90; SolversSMLS.cpp:389,473) -/
  | accept (v : E)
  | stop

/-- What it is told. -/
inductive Reply (E R : Type)
  | grad (r : R) (g : E)
  | hess (h : E)
  | value (r : R)
deriving DecidableEq

inductive Status
  | running
  | finished
  | aborted
deriving DecidableEq

/-- A run: iterate, everything the method has been told, how it stands. -/
structure Result (X E R : Type) where
  x : X
  log : List (Reply E R)
  status : Status

/-- At most `n` requests of a run; `m` is the method: from what it has been told to the next request. -/
def drive {E R : Type} (P : Prob E R) (b : Build) (use : Bool) (m : List (Reply E R) → Act E) :
    Nat → Var E → List (Reply E R) → Result (Var E) E R
  | 0, x, log => ⟨x, log, .running⟩
  | n + 1, x, log =>
    match m log with
    | .stop => ⟨x, log, .finished⟩
    | .trial v => drive P b use m n x (log ++ [.value (P.f v)])
    | .accept v =>
      let r := grad P use ⟨v, none⟩
      drive P b use m n r.1 (log ++ [.grad (P.f v) r.2])
    | .hess eta =>
      match hessEta P b x eta with
      | none => ⟨x, log, .aborted⟩
      | some h => drive P b use m n x (log ++ [.hess h])

/-- `Run`, SolversSMTR.cpp:7-100, SolversSMLS.cpp:7-140: value and gradient at the start (SolversSMTR.cpp:15-17, SolversSMLS.cpp:19-21), then the loop. -/
def run {E R : Type} (P : Prob E R) (b : Build) (use : Bool) (m : List (Reply E R) → Act E) (n : Nat)
    (x0 : Var E) : Result (Var E) E R :=
  let r := grad P use x0
  drive P b use m n r.1 [.grad (P.f x0.val) r.2]

/-- The solver classes. -/
inductive Kind
  | RSD | RNewton | RCG | RBroydenFamily | RWRBFGS | RBFGS | LRBFGS
  | RTRSD | RTRNewton | RTRSR1 | LRTRSR1
  | RBFGSSub | LRBFGSSub | RGS | ManPG | AManPG
deriving DecidableEq

/-- What `SetProbX` of the class passes to `SetUseHess`: `true` in RNewton.cpp:15 and RTRNewton.cpp:16, `false` in RSD.cpp:16, RCG.cpp:16, RBroydenFamily.cpp:38, RWRBFGS.cpp:38, RBFGS.cpp:40, LRBFGS.cpp:16, RTRSD.cpp:16, RTRSR1.cpp:39, LRTRSR1.cpp:16, RBFGSSub.cpp:39, LRBFGSSub.cpp:34, SolversNSMSubLS.cpp:163, SolversNSMPGLS.cpp:16. -/
def Kind.setsHess : Kind → Bool
  | .RNewton => true
  | .RTRNewton => true
  | _ => false

/-- What a program does with one problem. -/
inductive Ev (E : Type)
  /-- a solver object is constructed (the constructors call `SetProbX`) -/
  | construct (k : Kind) (x0 : Var E)
  /-- `SetProbX` of the `j`-th object -/
  | reset (j : Nat) (x0 : Var E)
  /-- `Problem::CheckGradHessian` (Problem.cpp:7-10) or `MinMaxEigValHess` (SphereTxRQ.cpp:49-50), both on a copy of the point given -/
  | derivatives
  /-- `Problem::SetUseHess`, Problem.cpp:199-202 -/
  | setUseHess (u : Bool)
  /-- `Run` of the `j`-th object -/
  | run (j : Nat)

/-- The flag of the problem, the solver objects with their iterate `x1`, and the outcomes of the runs so far. -/
structure World (E R : Type) where
  use : Bool
  objs : List (Kind × Var E)
  outs : List (Nat × List (Reply E R) × Status)

/-- The effect of an event. `meth k v`: the method of class `k` started at `v`; `n`: bound on its requests. -/
def Ev.step {E R : Type} (P : Prob E R) (b : Build) (meth : Kind → E → List (Reply E R) → Act E) (n : Nat)
    (w : World E R) : Ev E → World E R
  | .construct k x0 => { w with use := k.setsHess, objs := w.objs ++ [(k, x0)] }
  | .reset j x0 =>
    match w.objs[j]? with
    | none => w
    | some (k, _) => { w with use := k.setsHess, objs := w.objs.set j (k, x0) }
  | .derivatives => { w with use := true }
  | .setUseHess u => { w with use := u }
  | .run j =>
    match w.objs[j]? with
    | none => w
    | some (k, x) =>
      let r := HessFlag.run P b w.use (meth k x.val) n x
      { w with objs := w.objs.set j (k, r.x), outs := w.outs ++ [(j, r.log, r.status)] }

/-- A whole program. -/
def session {E R : Type} (P : Prob E R) (b : Build) (meth : Kind → E → List (Reply E R) → Act E) (n : Nat)
    (w : World E R) (evs : List (Ev E)) : World E R :=
  evs.foldl (Ev.step P b meth n) w

end Verif.HessFlag
