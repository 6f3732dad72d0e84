import Mathlib.Data.List.Basic
import Mathlib.Logic.Function.Basic
import Mathlib.Tactic.TypeStar

/-!
# `juliaProblem`: cost, gradient and Hessian given by functions of a Julia user

`Problems/juliaProblem.cpp`. The data of a variable and of its field "Tmp" are handed to Julia without a copy (`jl_ptr_to_array_1d(…, 0)`), so the model keeps the blocks of memory that variables share.
Simplifications: numbers are of an arbitrary type; garbage collection is not modelled (the arrays are not rooted; a collection during the call is outside the model); printing is left out.
-/

namespace Verif.Julia

/-- What a Julia function can return in a place of its tuple: a `Float64`, an array of them, or something else. -/
inductive JVal (K : Type*)
  | float (v : K)
  | arr (l : List K)
  | other

/-- A call of a function of the user: the contents of its first two arguments (the point, `Tmp`) after the call, and the returned tuple; `none`: the function has thrown, `jl_call` returns a null pointer. -/
structure Reply (K : Type*) where
  x : List K
  tmp : List K
  ret : Option (List (JVal K))

/-- Functions of the user; the gradient and the Hessian may be missing (`jl_gf`, `jl_Hess` null). -/
structure Handles (K : Type*) where
  f : List K → List K → Reply K
  grad : Option (List K → List K → Reply K)
  hess : Option (List K → List K → List K → Reply K)

/-- Memory blocks (`SharedSpace`) with their contents. -/
structure World (K : Type*) where
  mem : Nat → List K
  next : Nat

/-- A variable: its block and that of its field "Tmp". -/
structure Var where
  buf : Nat
  tmp : Option Nat

/-- Outcome: undefined behaviour (a null pointer or a wrong type is read), the program is ended, or a value with the memory and the variable after the call. `numerical`: the numerical derivative of the base class is used. -/
inductive Out (K A : Type*)
  | ub
  | exit
  | numerical
  | ok (a : A) (w : World K) (x : Var)

variable {K : Type*}

/-- Contents of the array handed over for `Tmp`: lines 24-32. -/
def World.tmpOf (w : World K) (x : Var) : List K :=
  match x.tmp with
  | none => []
  | some b => w.mem b

/-- The memory after the call: Julia writes to the blocks themselves. -/
def World.after (w : World K) (x : Var) (r : Reply K) : World K :=
  match x.tmp with
  | none => { w with mem := Function.update w.mem x.buf r.x }
  | some b => { w with mem := Function.update (Function.update w.mem x.buf r.x) b r.tmp }

/-- A new block with the returned array becomes the field "Tmp": lines 54-58. -/
def World.setTmp (w : World K) (x : Var) (t : List K) : World K × Var := ({ mem := Function.update w.mem w.next t, next := w.next + 1 }, { x with tmp := some w.next })

/-- `juliaProblem::f`, juliaProblem.cpp:19-64. -/
def callF (H : Handles K) (w : World K) (x : Var) : Out K K :=
  let r := H.f (w.mem x.buf) (w.tmpOf x)
  let w1 := w.after x r
  match r.ret with
  | some (.float v :: .arr t :: _) => .ok v (w1.setTmp x t).1 (w1.setTmp x t).2
  | _ => .ub

/-- Lines 103-110 and 153-160: `Tmp` is replaced only by a non-empty array. -/
def keepTmp (w : World K) (x : Var) (t : List K) : World K × Var := if t.length ≠ 0 then w.setTmp x t else (w, x)

/-- `juliaProblem::EucGrad`, juliaProblem.cpp:66-112; `len` is the length of `result`. -/
def callGrad (H : Handles K) (len : Nat) (w : World K) (x : Var) : Out K (List K) :=
  match H.grad with
  | none => .numerical
  | some g =>
    let r := g (w.mem x.buf) (w.tmpOf x)
    let w1 := w.after x r
    match r.ret with
    | some (.arr v :: .arr t :: _) => if v.length ≠ len then .exit else .ok v (keepTmp w1 x t).1 (keepTmp w1 x t).2
    | _ => .ub

/-- `juliaProblem::EucHessianEta`, juliaProblem.cpp:114-162. The length is compared with that of `etax`, the copy reads as many entries as `result` has. -/
def callHess (H : Handles K) (len : Nat) (eta : List K) (w : World K) (x : Var) : Out K (List K) :=
  match H.hess with
  | none => .numerical
  | some h =>
    let r := h (w.mem x.buf) (w.tmpOf x) eta
    let w1 := w.after x r
    match r.ret with
    | some (.arr v :: .arr t :: _) =>
      if v.length ≠ eta.length then .exit
      else if v.length < len then .ub
      else .ok (v.take len) (keepTmp w1 x t).1 (keepTmp w1 x t).2
    | _ => .ub

/-- A call of the solver on one variable. -/
inductive Op (K : Type*)
  | f
  | grad
  | hess (eta : List K)

/-- What the solver gets. -/
inductive Res (K : Type*)
  | value (v : K)
  | vector (l : List K)
  | numerical

/-- One call, with results of length `len`. -/
def step (H : Handles K) (len : Nat) (w : World K) (x : Var) : Op K → Out K (Res K)
  | .f => match callF H w x with
    | .ub => .ub
    | .exit => .exit
    | .numerical => .numerical
    | .ok v w x => .ok (.value v) w x
  | .grad => match callGrad H len w x with
    | .ub => .ub
    | .exit => .exit
    | .numerical => .ok .numerical w x
    | .ok v w x => .ok (.vector v) w x
  | .hess eta => match callHess H len eta w x with
    | .ub => .ub
    | .exit => .exit
    | .numerical => .ok .numerical w x
    | .ok v w x => .ok (.vector v) w x

/-- A sequence of calls on one variable; `none` if one of them does not return. -/
def calls (H : Handles K) (len : Nat) : List (Op K) → World K → Var → Option (List (Res K) × World K × Var)
  | [], w, x => some ([], w, x)
  | o :: l, w, x =>
    match step H len w x o with
    | .ok r w x => (calls H len l w x).map fun q => (r :: q.1, q.2)
    | _ => none

end Verif.Julia
