import Mathlib.Analysis.InnerProductSpace.LinearMap
import Mathlib.Analysis.SpecialFunctions.Pow.Real

/-!
# Quasi-Newton updates

Models of `RBFGS::UpdateDataRBFGS` (`Solvers/RBFGS.cpp:135-162`), `RWRBFGS::UpdateDataRWRBFGS`
(`Solvers/RWRBFGS.cpp:130-163`), `RBroydenFamily::UpdateDataRBroydenFamily`
(`Solvers/RBroydenFamily.cpp:133-172`) and `RTRSR1::UpdateDataRTRSR1` (`Solvers/RTRSR1.cpp:75-103`).

All tangent spaces are represented by one real inner product space `E` of arbitrary dimension (this is
what the intrinsic representation of the library does); a vector transport is a linear isometry `T` of
`E`. Arithmetic is exact. A division by zero in the rank-one coefficients gives the outcome `none`.
-/

namespace Verif.QN

open scoped RealInnerProductSpace Classical

variable {E : Type*} [NormedAddCommGroup E] [InnerProductSpace ℝ E]

/-- `Manifold::HaddScaledRank1OPE`, `Manifolds/Manifold.cpp:232-249`: `H + c a b^T`. -/
noncomputable def addRank1 (H : E →ₗ[ℝ] E) (c : ℝ) (a b : E) : E →ₗ[ℝ] E :=
  H + c • (innerₗ E b).smulRight a

/-- `Manifold::TranHInvTran`: `T H T^{-1}`. -/
noncomputable def tranH (T : E ≃ₗᵢ[ℝ] E) (H : E →ₗ[ℝ] E) : E →ₗ[ℝ] E :=
  T.toLinearEquiv.toLinearMap ∘ₗ H ∘ₗ T.symm.toLinearEquiv.toLinearMap

/-- Constants of the cautious update rule. `eps` is the machine epsilon. -/
structure Cautious where
  nu : ℝ
  mu : ℝ
  eps : ℝ
  isconvex : Bool

/-- The test guarding every update, `RBFGS.cpp:147-148` and the same two lines in `RWRBFGS.cpp`,
`RBroydenFamily.cpp` and `LRBFGS.cpp:188-189`. A quotient with denominator zero is NaN or infinite here
only when the comparison is false: `s = 0` gives `0/0`, `ngf0 = 0` gives `0/0` or infinity. -/
def acceptPair (c : Cautious) (ngf2 ngf0 inpss inpsy : ℝ) : Prop :=
  (inpss ≠ 0 ∧ c.nu * ngf2 ^ c.mu ≤ inpsy / inpss) ∧
  ((ngf0 ≠ 0 ∧ ngf2 / ngf0 < 1 / 1000) ∨ (c.eps < inpss ∧ c.eps < inpsy))

/-- The three rank-one corrections of `RBFGS.cpp:150-155` (also `RWRBFGS.cpp:147-151`). -/
noncomputable def bfgsThree (H : E →ₗ[ℝ] E) (s y : E) (inpsy : ℝ) : E →ₗ[ℝ] E :=
  let Hy := H y
  let H1 := addRank1 H (-1 / inpsy) s Hy
  let Hy1 := H1 y
  let H2 := addRank1 H1 (-1 / inpsy) Hy1 s
  addRank1 H2 (1 / inpsy) s s

/-- The data of one call of `UpdateData`: `eta2` is the step, `gf1, gf2` the two gradients, `ngf2` the
stored gradient norm (see `runStep` for what it is), `iter` the iteration number. -/
structure Call (E : Type*) [NormedAddCommGroup E] [InnerProductSpace ℝ E] where
  T : E ≃ₗᵢ[ℝ] E
  eta2 : E
  gf1 : E
  gf2 : E
  beta : ℝ
  ngf2 : ℝ
  ngf0 : ℝ
  iter : Nat

/-- `s` of `RBFGS.cpp:137`. -/
noncomputable def Call.s (p : Call E) : E := p.T p.eta2
/-- `y` of `RBFGS.cpp:138-140`. -/
noncomputable def Call.y (p : Call E) : E := (1 / p.beta) • p.gf2 - p.T p.gf1

/-- `RBFGS::UpdateDataRBFGS`, `RBFGS.cpp:135-162`. -/
noncomputable def rbfgs (c : Cautious) (p : Call E) (H : E →ₗ[ℝ] E) : Option (E →ₗ[ℝ] E) :=
  let s := p.s
  let y := p.y
  let inpsy := ⟪s, y⟫
  let H1 := if c.isconvex = true ∧ p.iter = 1 ∧ 0 < inpsy then (inpsy / ⟪y, y⟫) • LinearMap.id else H
  let H2 := tranH p.T H1
  if acceptPair c p.ngf2 p.ngf0 ⟪s, s⟫ inpsy then
    if inpsy = 0 then none else some (bfgsThree H2 s y inpsy)
  else some H2

/-- `RWRBFGS::UpdateDataRWRBFGS`, `RWRBFGS.cpp:130-163`; `cot` is the cotangent vector of
`coTangentVector(x1, eta2, x2, gf2)`. Everything happens in the old tangent space, then the operator is
transported. -/
noncomputable def rwrbfgs (c : Cautious) (p : Call E) (cot : E) (H : E →ₗ[ℝ] E) :
    Option (E →ₗ[ℝ] E) :=
  let s := p.eta2
  let y := cot - p.gf1
  let inpsy := ⟪s, y⟫
  let H1 := if c.isconvex = true ∧ p.iter = 1 ∧ 0 < inpsy then (inpsy / ⟪y, y⟫) • LinearMap.id else H
  if acceptPair c p.ngf2 p.ngf0 ⟪s, s⟫ inpsy then
    if inpsy = 0 then none else some (tranH p.T (bfgsThree H1 s y inpsy))
  else some (tranH p.T H1)

/-- The three rank-one corrections of `RBroydenFamily.cpp:152-159` with parameter `phic`. -/
noncomputable def broydenThree (H : E →ₗ[ℝ] E) (s y : E) (inpsy phic : ℝ) : E →ₗ[ℝ] E :=
  let Hy := H y
  let yHy := ⟪y, Hy⟫
  let u := (1 / inpsy) • s + (-1 / yHy) • Hy
  let H1 := addRank1 H (-1 / yHy) Hy Hy
  let H2 := addRank1 H1 (1 / inpsy) s s
  addRank1 H2 (phic * yHy) u u

/-- `RBroydenFamily::UpdateDataRBroydenFamily`, `RBroydenFamily.cpp:133-172`. `phic` is the value returned
by the virtual function `Phi` (1 in the library). -/
noncomputable def rbroyden (c : Cautious) (phic : ℝ) (p : Call E) (H : E →ₗ[ℝ] E) :
    Option (E →ₗ[ℝ] E) :=
  let s := p.s
  let y := p.y
  let inpsy := ⟪s, y⟫
  let H1 := if c.isconvex = true ∧ p.iter = 1 ∧ 0 < inpsy then (inpsy / ⟪y, y⟫) • LinearMap.id else H
  let H2 := tranH p.T H1
  if acceptPair c p.ngf2 p.ngf0 ⟪s, s⟫ inpsy then
    if inpsy = 0 ∨ ⟪y, H2 y⟫ = 0 then none else some (broydenThree H2 s y inpsy phic)
  else some H2

/-- `GetSearchDir` of the three solvers (`RBFGS.cpp:98-102`, `RWRBFGS.cpp:96-100`,
`RBroydenFamily.cpp:97-101`): `-H gf1`. There is no safeguard. -/
noncomputable def qnDir (H : E →ₗ[ℝ] E) (gf1 : E) : E := -H gf1

/-! ## Runs -/

/-- What the environment supplies in one iteration: step size, transport, scaling `Beta`, new gradient. -/
structure IterIn (E : Type*) [NormedAddCommGroup E] [InnerProductSpace ℝ E] where
  T : E ≃ₗᵢ[ℝ] E
  t : ℝ
  beta : ℝ
  gf2 : E

/-- The state between iterations. -/
structure QNState (E : Type*) [NormedAddCommGroup E] [InnerProductSpace ℝ E] where
  H : E →ₗ[ℝ] E
  gf1 : E
  iter : Nat

/-- One pass of the loop of `SolversSMLS::Run` (`SolversSMLS.cpp:46-140`) reduced to the operator: direction,
step, `iter++`, `UpdateData`. `UpdateData` runs before `ngf2` is recomputed (`SolversSMLS.cpp:103-106`),
so the gradient norm it sees is the one of the point the step started from. -/
noncomputable def runStep (upd : Call E → (E →ₗ[ℝ] E) → Option (E →ₗ[ℝ] E)) (ngf0 : ℝ) (i : IterIn E)
    (st : QNState E) : Option (QNState E) :=
  (upd { T := i.T, eta2 := i.t • qnDir st.H st.gf1, gf1 := st.gf1, gf2 := i.gf2, beta := i.beta,
         ngf2 := ‖st.gf1‖, ngf0 := ngf0, iter := st.iter + 1 } st.H).map
    fun H => { H := H, gf1 := i.gf2, iter := st.iter + 1 }

/-- A run: `none` as soon as an update divides by zero. -/
noncomputable def runQN (upd : Call E → (E →ₗ[ℝ] E) → Option (E →ₗ[ℝ] E)) (ngf0 : ℝ) :
    List (IterIn E) → QNState E → Option (QNState E)
  | [], st => some st
  | i :: is, st => (runStep upd ngf0 i st).bind (runQN upd ngf0 is)

/-! ## SR1 -/

/-- `RTRSR1::UpdateDataRTRSR1`, `RTRSR1.cpp:75-103`. `s` is the step, `y` the difference of gradients in the
old tangent space, `Heta2 = B s` was computed by the caller with the old `B`
(`SolversSMTR.cpp:51`). In the pass with `iter == 1` the operator is replaced by a multiple of the identity
although `zeta` has already been computed. `ngf2`/`ngf0` as in the test of line 94. The result `none` is
a division by zero. -/
noncomputable def rtrsr1 (eps ngf2 ngf0 : ℝ) (iter : Nat) (s y : E) (B : E →ₗ[ℝ] E) :
    Option (E →ₗ[ℝ] E) :=
  let zeta := y - B s
  let den := ⟪s, zeta⟫
  if iter = 1 ∧ ⟪s, y⟫ = 0 then none
  else
    let B1 := if iter = 1 then (⟪y, y⟫ / ⟪s, y⟫) • LinearMap.id else B
    if eps * ⟪s, s⟫ * ⟪zeta, zeta⟫ ≤ den * den ∧
        (eps ≤ ⟪zeta, zeta⟫ ∨ (ngf0 ≠ 0 ∧ ngf2 / ngf0 < 1 / 1000)) then
      if den = 0 then none else some (addRank1 B1 (1 / den) zeta zeta)
    else some B1

end Verif.QN
