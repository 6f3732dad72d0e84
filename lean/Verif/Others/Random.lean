import Mathlib.Analysis.SpecialFunctions.Log.Basic
import Mathlib.Analysis.SpecialFunctions.Trigonometric.Basic
import Mathlib.Analysis.Real.Sqrt

/-!
# Random numbers

Model of Others/randgen.cpp and of `SmartSpace::RandUnform`, `RandGaussian` (Manifolds/SmartSpace.cpp:64-77). The values `rand() / RAND_MAX` are a sequence `u` of numbers in `[0, 1]`; a
function that consumes some of them returns the position of the next one. Exact arithmetic; the constant of randgen.cpp:23 is `2π`.
-/

namespace Verif.Random

open Real

/-- `genrandreal`, randgen.cpp:11-14. -/
def genReal (u : Nat → ℝ) (p : Nat) : ℝ × Nat := (u p, p + 1)

/-- The formula of randgen.cpp:22-24. -/
noncomputable def boxMuller (a b : ℝ) : ℝ := √(-2 * log (1 - a)) * cos ((1 - b) * (2 * π))

/-- `genrandnormal`, randgen.cpp:16-25. The loop of lines 20-21 draws again while the number is one; `none`: the fuel ran out. -/
noncomputable def genNormal (u : Nat → ℝ) : Nat → Nat → Option (ℝ × Nat)
  | 0, _ => none
  | f + 1, p =>
    let t := genReal u p
    if t.1 = 1 then genNormal u f t.2
    else
      let s := genReal u t.2
      some (boxMuller t.1 s.1, s.2)

/-- `RandUnform(start, end)`, SmartSpace.cpp:64-70: the entries and the next position. -/
noncomputable def randUniform (u : Nat → ℝ) (start stop : ℝ) : Nat → Nat → List ℝ × Nat
  | 0, p => ([], p)
  | n + 1, p =>
    let t := genReal u p
    let r := randUniform u start stop n t.2
    ((t.1 * (stop - start) + start) :: r.1, r.2)

/-- `RandGaussian(mean, variance)`, SmartSpace.cpp:72-77. -/
noncomputable def randGaussian (u : Nat → ℝ) (f : Nat) (mean variance : ℝ) : Nat → Nat → Option (List ℝ × Nat)
  | 0, p => some ([], p)
  | n + 1, p =>
    match genNormal u f p with
    | none => none
    | some t =>
      match randGaussian u f mean variance n t.2 with
      | none => none
      | some r => some (((t.1 + mean) * variance) :: r.1, r.2)

end Verif.Random
