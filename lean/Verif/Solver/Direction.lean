import Mathlib.Analysis.InnerProductSpace.LinearMap

/-!
# Search directions of the steepest descent and conjugate gradient solvers

Models of `RSD::GetSearchDir` (`Solvers/RSD.cpp:26-35`), `RCG::GetSearchDir` and `RCG::UpdateData`
(`Solvers/RCG.cpp:73-147`). Vectors live in an arbitrary real inner product space. A floating point value
that is NaN or infinite because of a division by zero is `none`; comparisons with it are false
(for plus infinity only the comparison `> 0.1` occurs and is treated separately).
-/

namespace Verif.Dir

open scoped RealInnerProductSpace Classical

variable {E : Type*} [NormedAddCommGroup E] [InnerProductSpace ℝ E]

/-- `a / b` as a number, `none` if it is not one. -/
noncomputable def quot (a b : ℝ) : Option ℝ := if b = 0 then none else some (a / b)

/-- The test `Metric(x1, eta1, gf1) / ngf1 / ngf1 >= -sqrt(eps)` (`RSD.cpp:30`, `RCG.cpp:75, 80`) with
`c = sqrt(eps)`. False when the gradient is zero (NaN). -/
def notDescent (c : ℝ) (eta g : E) : Prop := ‖g‖ ≠ 0 ∧ -c ≤ ⟪eta, g⟫ / ‖g‖ / ‖g‖

/-- `RSD::GetSearchDir`, `RSD.cpp:26-35`; `P` is the preconditioner. -/
noncomputable def rsdDir (c : ℝ) (P : E → E) (g : E) : E :=
  let eta := -P g
  if notDescent c eta g then -g else eta

/-- `RCG::GetSearchDir`, `RCG.cpp:73-86`. `eta1` is the candidate left by `UpdateData`; `none` is a vector of
NaNs, for which the test is false. -/
noncomputable def rcgDir (c : ℝ) (P : E → E) (iter : Nat) (eta1 : Option E) (g : E) : Option E :=
  if iter = 0 ∨ (∃ e, eta1 = some e ∧ notDescent c e g) then
    let eta := -P g
    some (if notDescent c eta g then -g else eta)
  else eta1

/-- `RCGmethods`; `other` is any other integer. -/
inductive Method where
  | fletcherReeves | polakRibiere | hestenesStiefel | frPr | daiYuan | hagerZhang | other
  deriving DecidableEq

/-- The switch of `RCG.cpp:100-143`: `sigma` from the two gradients `g1, g2`, their preconditioned versions
`Pg1, Pg2`, and the transported old gradient and direction `Tg1, Td`. -/
noncomputable def rcgSigma (m : Method) (g1 g2 Pg1 Pg2 Tg1 Td : E) : Option ℝ :=
  match m with
  | .fletcherReeves => quot ⟪g2, Pg2⟫ ⟪g1, Pg1⟫
  | .polakRibiere => (quot ⟪Pg2, g2 - Tg1⟫ ⟪g1, Pg1⟫).map fun s => if s < 0 then 0 else s
  | .hestenesStiefel => quot ⟪Pg2, g2 - Tg1⟫ ⟪g2 - Tg1, Td⟫
  | .frPr =>
    (quot ⟪g2, Pg2⟫ ⟪g1, Pg1⟫).bind fun fr =>
      (quot ⟪Pg2, g2 - Tg1⟫ ⟪g1, Pg1⟫).map fun pr =>
        if pr < -fr then -fr else if fr < pr then fr else pr
  | .daiYuan => quot ⟪g2, Pg2⟫ ⟪g2 - Tg1, Td⟫
  | .hagerZhang =>
    let y := g2 - Tg1
    let yp := ⟪y, Td⟫
    (quot (2 * ⟪y, y⟫) yp).bind fun a => quot ⟪y - a • Td, Pg2⟫ yp
  | .other => some 0

/-- The restart test of `RCG.cpp:93`: `|<g2, T g1>| / <g1, g1> > 0.1`. With `g1 = 0` the quotient is infinite
(true) or NaN (false). -/
def rcgRestart (g1 g2 Tg1 : E) : Prop :=
  if ⟪g1, g1⟫ = 0 then ⟪g2, Tg1⟫ ≠ 0 else 1 / 10 < |⟪g2, Tg1⟫| / ⟪g1, g1⟫

/-- `RCG::UpdateData`, `RCG.cpp:88-147`: the candidate for the next direction. -/
noncomputable def rcgUpdate (m : Method) (g1 g2 Pg1 Pg2 Tg1 Td : E) : Option E :=
  let sigma := if rcgRestart g1 g2 Tg1 then some 0 else rcgSigma m g1 g2 Pg1 Pg2 Tg1 Td
  sigma.map fun s => if s = 0 then -g2 else -g2 + s • Td

end Verif.Dir
