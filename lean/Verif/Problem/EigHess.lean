import Mathlib.Analysis.InnerProductSpace.Basic

/-!
# Extreme eigenvalues of the Hessian, and the check of derivatives

Model of `Problem::MinMaxEigValHess` (Problems/Problem.cpp:56-59), which minimises (and maximises) the Rayleigh quotient of the Hessian over the unit sphere of the tangent space
(Problems/SphereTxRQ.cpp, Manifolds/SphereTx.cpp), and of `Problem::CheckGradHessian` (Problems/Problem.cpp:6-54).

`V` is the tangent space at the point with the metric of the manifold; `H` is the action of the Hessian of the problem. The vectors that occur are tangent vectors, on which
`mani->Projection` is the identity, so it is left out of `ExtrProjection`. Numbers are exact.
-/

namespace Verif.EigHess

variable {V : Type*} [NormedAddCommGroup V] [InnerProductSpace ℝ V]

/-- `SphereTxRQ::f`, SphereTxRQ.cpp:72-79. -/
noncomputable def rq (H : V → V) (ismin : Bool) (x : V) : ℝ :=
  let result := inner ℝ (H x) x
  if ismin then result else -result

/-- `SphereTxRQ::EucGrad`, SphereTxRQ.cpp:81-92; the field `"Hx"` holds `H x`. -/
noncomputable def egrad (H : V → V) (ismin : Bool) (x : V) : V := if ismin then (2 : ℝ) • H x else (-2 : ℝ) • H x

/-- `SphereTxRQ::EucHessianEta`, SphereTxRQ.cpp:94-102. -/
noncomputable def ehess (H : V → V) (ismin : Bool) (η : V) : V := if ismin then (2 : ℝ) • H η else (-2 : ℝ) • H η

/-- `SphereTx::ExtrProjection`, SphereTx.cpp:55-60. -/
noncomputable def proj (x η : V) : V := (-(inner ℝ x η)) • x + η

/-- `SphereTx::EucGradToGrad` of the above, SphereTx.cpp:150-157. -/
noncomputable def grad (H : V → V) (ismin : Bool) (x : V) : V := proj x (egrad H ismin x)

/-- `SphereTx::EucHvToHv` of the above, SphereTx.cpp:159-165; the field `"EGrad"` holds the Euclidean gradient. -/
noncomputable def hess (H : V → V) (ismin : Bool) (x η : V) : V :=
  proj x ((1 : ℝ) • ehess H ismin η + (-(inner ℝ (egrad H ismin x) x)) • η)

/-- The number that is stored for a final iterate `x` of the solver, SphereTxRQ.cpp:23, 37. -/
noncomputable def reported (H : V → V) (ismin : Bool) (x : V) : ℝ := if ismin then rq H ismin x else -rq H ismin x

/-- Whether a warning is printed for the final iterate `x` of a run from `x0`, SphereTxRQ.cpp:19-22, 33-36. -/
noncomputable def warns (H : V → V) (ismin : Bool) (x0 x : V) : Prop := ‖grad H ismin x‖ / ‖grad H ismin x0‖ > 1e-6

/-! ## `CheckGradHessian` -/

/-- The vectors `xi` of the loop, Problem.cpp:22-24, 41: scaled to length 100, then halved. -/
noncomputable def xi (g : V) : Nat → V
  | 0 => (100 / ‖g‖) • g
  | i + 1 => (0.5 : ℝ) • xi g i

/-- The first ratio printed in lines 38-40. `fR` is `f` after the retraction at `x`, `fx` is `f(x)`, `g` is what `Grad` returns. -/
noncomputable def ratio1 (fR : V → ℝ) (fx : ℝ) (g : V) (i : Nat) : ℝ := (fR (xi g i) - fx) / inner ℝ g (xi g i)

/-- The second ratio printed in lines 38-40; `H` is what `HessianEta` returns. -/
noncomputable def ratio2 (fR : V → ℝ) (fx : ℝ) (g : V) (H : V → V) (i : Nat) : ℝ :=
  (fR (xi g i) - fx - inner ℝ g (xi g i)) / (0.5 * inner ℝ (xi g i) (H (xi g i)))

end Verif.EigHess
