import Verif.Problem.EigHess
import Verif.Props.Sphere
import Verif.Props.EigHess
import Verif.Solver.TrustRegion

/-!
# The runs of `MinMaxEigValHess`

Model of `MinMaxEigValHessian` (Problems/SphereTxRQ.cpp:6-40): `RTRNewton` on the unit sphere of a tangent space (`Manifolds/SphereTx.cpp`) for the Rayleigh quotient of the Hessian. Tangent
vectors of the sphere at `x` are the vectors orthogonal to `x`. Exact arithmetic.
-/

namespace Verif.EigHess

open scoped RealInnerProductSpace

variable {V : Type} [NormedAddCommGroup V] [InnerProductSpace ℝ V]

/-- Points of `SphereTx`. -/
abbrev Unit (V : Type) [NormedAddCommGroup V] := {x : V // ‖x‖ = 1}

/-- Tangent space of `SphereTx`. -/
noncomputable abbrev Tan (x : Unit V) : Type := ↥((ℝ ∙ (x : V))ᗮ : Submodule ℝ V)

theorem mem_tan {x : Unit V} {v : V} : v ∈ ((ℝ ∙ (x : V))ᗮ : Submodule ℝ V) ↔ ⟪(x : V), v⟫ = 0 := Submodule.mem_orthogonal_singleton_iff_inner_right

theorem proj_mem (x : Unit V) (v : V) : proj (x : V) v ∈ ((ℝ ∙ (x : V))ᗮ : Submodule ℝ V) := by
  rw [mem_tan, proj, inner_add_right, real_inner_smul_right, real_inner_self_eq_norm_sq, x.2]
  ring

/-- `SphereTx::Retraction` (SphereTx.cpp:77-88) on tangent vectors; `eps` is the machine epsilon. -/
noncomputable def sphereRetr {eps : ℝ} (he : 0 < eps) (he1 : eps < 1) (x : Unit V) (v : Tan x) : Unit V :=
  ⟨(Verif.Sphere.txRetraction eps (x : V) (v : V)).getD 0, by
    obtain ⟨y, h1, h2, -⟩ := Verif.Sphere.C33_guarded_retraction_unit he he1 x.2 (mem_tan.mp v.2)
    rw [h1]; exact h2⟩

/-- `Problem::HessianEta` of `SphereTxRQ` (extrinsic vectors) as an operator on the tangent space. -/
noncomputable def sphereHess (H : V →ₗ[ℝ] V) (ismin : Bool) (x : Unit V) : Tan x →ₗ[ℝ] Tan x where
  toFun v := ⟨hess H ismin x v, proj_mem x _⟩
  map_add' u v := by
    ext
    simp only [hess, proj, ehess_eq, Submodule.coe_add, map_add, smul_add, inner_add_right, neg_add, add_smul]
    abel
  map_smul' a v := by
    ext
    simp only [hess, proj, ehess_eq, Submodule.coe_smul, map_smul, smul_add, inner_add_right, RingHom.id_apply, real_inner_smul_right, one_smul]
    module

/-- The run of lines 10-17 (`ismin`) and 26-33 of SphereTxRQ.cpp: `RTRNewton` with the relative gradient test (the default, SolversSM.cpp:68, 99), tolerance `tol`, from the unit vector `x0`, which
`RandominManifold` supplies. -/
noncomputable def eigProb {eps : ℝ} (he : 0 < eps) (he1 : eps < 1) (H : V →ₗ[ℝ] V) (ismin : Bool) (x0 : Unit V) (theta kappa : ℝ) (maxInner : ℕ) (tol : ℝ) : Verif.TR.Prob (Unit V) Tan where
  f x := rq H ismin x
  g x := ⟨grad H ismin x, proj_mem x _⟩
  H := sphereHess H ismin
  P _ := LinearMap.id
  retr := sphereRetr he he1
  x0 := x0
  theta := theta
  kappa := kappa
  minInner := 0
  maxInner := maxInner
  stopped0 := Classical.propDecidable (‖grad H ismin x0‖ / ‖grad H ismin x0‖ < tol) |>.decide
  stopped _ _ x := Classical.propDecidable (‖grad H ismin x‖ / ‖grad H ismin x0‖ < tol) |>.decide

end Verif.EigHess
