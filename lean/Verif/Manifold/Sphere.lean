import Mathlib.Analysis.InnerProductSpace.LinearMap
import Mathlib.Analysis.SpecialFunctions.Trigonometric.Basic

/-!
# The unit sphere and the locking-condition transport

Models of `Manifolds/Sphere.cpp`, `Manifolds/SphereTx.cpp` and of the transport with Householder reflections in `Manifolds/Manifold.cpp:699-857`.
The ambient space is any real inner product space; `Metric` is its inner product (`Manifold::Metric`, Manifold.cpp:11-17, and the metric of the tangent space at
`root` for `SphereTx`, SphereTx.cpp:45-48). Real arithmetic; a division by zero gives `none` (NaN).
-/

namespace Verif.Sphere

open scoped RealInnerProductSpace

variable {E : Type*} [NormedAddCommGroup E] [InnerProductSpace ℝ E]

/-- `a / b`, NaN (or an infinity that becomes NaN in the products that follow) when `b = 0`. -/
noncomputable def fdiv (a b : ℝ) : Option ℝ := if b = 0 then none else some (a / b)

/-- `Stiefel::ExtrProjection` with `p = 1` (Stiefel.cpp:123-130): `tmp = xᵀ eta; tmp = (tmp + tmp)/2; result = eta - x tmp`. -/
noncomputable def proj (x η : E) : E := η - ((⟪x, η⟫ + ⟪x, η⟫) / 2) • x

/-- `Sphere::ExpRetraction` (Sphere.cpp:58-64). -/
noncomputable def expRetraction (x η : E) : Option E :=
  let n := √⟪η, η⟫
  (fdiv (Real.sin n) n).bind fun c =>
    let r := c • η + Real.cos n • x
    (fdiv 1 (√⟪r, r⟫)).map fun s => s • r

/-- `SphereTx::Retraction` (SphereTx.cpp:77-88); `eps` is the machine epsilon. -/
noncomputable def txRetraction (eps : ℝ) (x η : E) : Option E :=
  let n := √⟪η, η⟫
  (if n < eps then some (Real.cos n • x) else (fdiv (Real.sin n) n).map fun c => c • η + Real.cos n • x).bind fun r =>
    (fdiv 1 (√⟪r, r⟫)).map fun s => s • r

/-- `Sphere::ExpDiffRetraction` (Sphere.cpp:78-84): the vector returned. -/
noncomputable def expDiffRetraction (x η ξ : E) : Option E :=
  let d := ⟪η, ξ⟫
  let n := √⟪η, η⟫
  (fdiv (-Real.sin n * d) n).bind fun a =>
  (fdiv (Real.sin n) n).bind fun b =>
  (fdiv ((Real.cos n - b) * d) n).bind fun c' =>
  (fdiv c' n).map fun c => c • η + (b • ξ + a • x)

/-- `Sphere::ExpcoTangentVector` (Sphere.cpp:66-76) with the extrinsic projection. -/
noncomputable def expCoTangent (x η ξy : E) : Option E :=
  let sx := ⟪x, ξy⟫
  let se := ⟪ξy, η⟫
  let n := √⟪η, η⟫
  (fdiv (Real.sin n) n).bind fun a =>
  (fdiv (se * Real.cos n) n).bind fun b =>
  (fdiv (se * Real.sin n) n).bind fun c' =>
  (fdiv c' n).bind fun c =>
  (fdiv (b - sx * Real.sin n - c) n).map fun d => proj x (d • η + a • ξy)

/-- `Sphere::ExpVectorTransport` (Sphere.cpp:106-113), `SphereTx::VectorTransport` (SphereTx.cpp:129-134). -/
noncomputable def transport (x y ξ : E) : Option E :=
  let z := x + y
  (fdiv (-2 * ⟪ξ, y⟫) ⟪z, z⟫).map fun c => ξ + c • z

/-- `Sphere::ExpInverseVectorTransport` (Sphere.cpp:115-122), `SphereTx::InverseVectorTransport` (SphereTx.cpp:136-141). -/
noncomputable def invTransport (x y ξ : E) : Option E :=
  let z := x + y
  (fdiv (-2 * ⟪ξ, x⟫) ⟪z, z⟫).map fun c => ξ + c • z

/-- `Sphere::ExpHInvTran` (Sphere.cpp:124-149) on the whole space: `H + c (H (x + y)) xᵀ` with `c = -2 / |x + y|²`. -/
noncomputable def hInvTran (x y : E) (H : E →ₗ[ℝ] E) : Option (E →ₗ[ℝ] E) :=
  let z := x + y
  (fdiv (-2) ⟪z, z⟫).map fun c => H + c • ((innerₛₗ ℝ x).smulRight (H z))

/-- `Sphere::ExpTranH` (Sphere.cpp:151-175) on the whole space: `H + c (x + y) (Hᵀ y)ᵀ`; the functional `v ↦ ⟪y, H v⟫` is `(Hᵀ y)ᵀ`. -/
noncomputable def tranH (x y : E) (H : E →ₗ[ℝ] E) : Option (E →ₗ[ℝ] E) :=
  let z := x + y
  (fdiv (-2) ⟪z, z⟫).map fun c => H + c • (((innerₛₗ ℝ y).comp H).smulRight z)

/-- `Sphere::ExpTranHInvTran` (Sphere.cpp:177-181). -/
noncomputable def tranHInvTran (x y : E) (H : E →ₗ[ℝ] E) : Option (E →ₗ[ℝ] E) := (hInvTran x y H).bind (tranH x y)

/-- `SphereTx::EucHvToHv` (SphereTx.cpp:158-165) and the Stiefel formula for `p = 1` (Stiefel.cpp:330-340): `P_x (Hη - ⟪g, x⟫ η)`. -/
noncomputable def hessian (x g η Hη : E) : E := proj x (Hη - ⟪g, x⟫ • η)

/-! ## The locking condition -/

/-- `Manifold::Obtainnu1nu2forLC` (Manifold.cpp:699-724) once `betaTReta` (`z`) is known: `T` is the transport without reflections. The result is `nu1, nu2, tau1, tau2`. -/
noncomputable def lcVectors (T : E → E) (η z : E) : Option (E × E × ℝ × ℝ) :=
  (fdiv ⟪η, η⟫ ⟪T η, T η⟫).bind fun q =>
    let e := √q • T η
    let ν1 := (2 : ℝ) • e
    let ν2 := (-1 : ℝ) • z + (-1 : ℝ) • e
    (fdiv 2 ⟪ν1, ν1⟫).bind fun τ1 => (fdiv 2 ⟪ν2, ν2⟫).map fun τ2 => (ν1, ν2, τ1, τ2)

/-- `v - (τ ⟪v, ν⟫) ν`, the two lines `temp = -Metric(v, nu); v = v + temp * tau * nu`. -/
noncomputable def reflect (ν : E) (τ : ℝ) (v : E) : E := v + (-⟪v, ν⟫ * τ) • ν

/-- `Manifold::LCVectorTransport` (Manifold.cpp:726-744). -/
noncomputable def lcTransport (T : E → E) (η z ξ : E) : Option E :=
  (lcVectors T η z).bind fun q =>
    (fdiv ⟪ξ, ξ⟫ ⟪T ξ, T ξ⟫).map fun r => reflect q.2.1 q.2.2.2 (reflect q.1 q.2.2.1 (√r • T ξ))

/-- `Manifold::LCInverseVectorTransport` (Manifold.cpp:746-764); `Tinv` is the inverse transport without reflections. -/
noncomputable def lcInvTransport (T Tinv : E → E) (η z ζ : E) : Option E :=
  (lcVectors T η z).map fun q => Tinv (reflect q.1 q.2.2.1 (reflect q.2.1 q.2.2.2 ζ))

/-- Multiplication of an operator by `I - τ ν νᵀ` from the right: `larfx_` with side `r`. -/
noncomputable def rightReflect (ν : E) (τ : ℝ) (H : E →ₗ[ℝ] E) : E →ₗ[ℝ] E := H + (-τ) • ((innerₛₗ ℝ ν).smulRight (H ν))

/-- Multiplication of an operator by `I - τ ν νᵀ` from the left: `larfx_` with side `l`. -/
noncomputable def leftReflect (ν : E) (τ : ℝ) (H : E →ₗ[ℝ] E) : E →ₗ[ℝ] E := H + (-τ) • (((innerₛₗ ℝ ν).comp H).smulRight ν)

/-- `Manifold::LCTranHInvTran` (Manifold.cpp:823-857): four `larfx_` calls; `baseOp` is `TranHInvTran` without reflections. -/
noncomputable def lcTranHInvTran (T : E → E) (η z : E) (baseOp : E →ₗ[ℝ] E) : Option (E →ₗ[ℝ] E) :=
  (lcVectors T η z).map fun q =>
    leftReflect q.2.1 q.2.2.2 (leftReflect q.1 q.2.2.1 (rightReflect q.2.1 q.2.2.2 (rightReflect q.1 q.2.2.1 baseOp)))

/-! ## Aliasing in the vector helpers -/

/-- A memory of vectors; arguments of the helpers are addresses, so that two of them may be the same object. -/
abbrev Store (E : Type*) := Nat → E

/-- `Manifold::ScalarTimesVector` (Manifold.cpp:70-78): `*result = etax; result->ScalarTimesThis(s)`. -/
noncomputable def scalarTimesVector (m : Store E) (s : ℝ) (a r : Nat) : Store E :=
  let m := Function.update m r (m a)
  Function.update m r (s • m r)

/-- `Manifold::ScalarVectorAddVector` (Manifold.cpp:80-88): `*result = xix; result->AlphaXaddThis(s, etax)`. -/
noncomputable def scalarVectorAddVector (m : Store E) (s : ℝ) (a b r : Nat) : Store E :=
  let m := Function.update m r (m b)
  Function.update m r (s • m a + m r)

/-- `Manifold::VectorLinearCombination` (Manifold.cpp:90-100): `*result = xix; result->ScalarTimesThis(s2); result->AlphaXaddThis(s1, etax)`. -/
noncomputable def vectorLinearCombination (m : Store E) (s1 : ℝ) (a : Nat) (s2 : ℝ) (b r : Nat) : Store E :=
  let m := Function.update m r (m b)
  let m := Function.update m r (s2 • m r)
  Function.update m r (s1 • m a + m r)

end Verif.Sphere
