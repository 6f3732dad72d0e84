import Mathlib.Data.Real.Basic
import Mathlib.Tactic.TypeStar

/-!
# `mexProblem::PreConditioner`: a preconditioner given by a Matlab function

`Problems/mexProblem.cpp:79-113`. The conversion to and from Matlab arrays is that of `Verif/Iface/Mex.lean`; here it is left out (it does not change the numbers), and so are the fields of `x` that the function of the user returns.
-/

namespace Verif.Mex

/-- A tangent vector as the solver holds it: by its coordinates (`IsIntrinsic`) or by the numbers of the ambient space. -/
inductive Rep (M : Type*)
  | coords (c : List ℝ)
  | full (η : M)

/-- `mexProblem::PreConditioner`, mexProblem.cpp:79-113, and `Problem::PreConditioner`, Problem.cpp:178-183, when there is no function handle. `extr` and `intr` are `ObtainExtr` and `ObtainIntr` of the domain at the point, `intrinsic` is
`GetIsIntrinsic()`. `none`: the vector is not in the representation of the domain (its memory is read beyond its end, or in part). -/
def preCond {M : Type*} (handle : Option (M → M)) (intrinsic : Bool) (extr : List ℝ → M) (intr : M → List ℝ) (eta : Rep M) : Option (Rep M) :=
  match handle with
  | none => some eta
  | some P =>
    match intrinsic, eta with
    | true, .coords c => some (.coords (intr (P (extr c))))
    | false, .full η => some (.full (P η))
    | _, _ => none

end Verif.Mex
