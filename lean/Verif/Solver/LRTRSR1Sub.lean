import Mathlib.LinearAlgebra.Matrix.NonsingularInverse
import Mathlib.Analysis.Real.Sqrt
import Mathlib.Data.Fintype.Option
import Mathlib.Algebra.BigOperators.Field

/-!
# The trust-region subproblem solver of LRTRSR1

`LRTRSR1::tCG_TR`, `ComputeSBySMW`, `PhiBar_fg`, `LocalNewton` (Solvers/LRTRSR1.cpp:91-410), with `n` the length of the gradient and `k` the number of stored pairs. Arithmetic is exact; divisions by
zero, square roots of negative numbers and accesses outside the arrays are the outcome `none`. The arrays of length `k + 1` (`Lambda`, `a_j`) are indexed by `Option (Fin k)`, with `none` for index `k`.
The projection at the end (line 265) is the identity for the representations the method is meant for.
-/

namespace Verif.LSR1

open Matrix
open scoped Classical

variable {n k : ℕ}

/-- `tolLocalNewton`, `eps_tol`, LRTRSR1.cpp:103, 323, 382. -/
noncomputable def tol : ℝ := 1 / 10 ^ 10

/-- What the factorisations return: `Psi = QR` and the eigenvalue decomposition `R PMGQ⁻¹ Rᵀ = U diag(D) Uᵀ`, LRTRSR1.cpp:132-134. -/
structure Fac (n k : ℕ) where
  Q : Matrix (Fin n) (Fin k) ℝ
  R : Matrix (Fin k) (Fin k) ℝ
  U : Matrix (Fin k) (Fin k) ℝ
  D : Fin k → ℝ

/-- `P_parallel`, LRTRSR1.cpp:136. -/
def Fac.P (F : Fac n k) : Matrix (Fin n) (Fin k) ℝ := F.Q * F.U

/-- `g_parallel`, LRTRSR1.cpp:140. -/
def Fac.gp (F : Fac n k) (g : Fin n → ℝ) : Fin k → ℝ := F.Pᵀ *ᵥ g

/-- Small numbers are replaced by zero, LRTRSR1.cpp:150-152. -/
noncomputable def chop (x : ℝ) : ℝ := if |x| ≤ tol then 0 else x

/-- `Lambda`, LRTRSR1.cpp:143-152. -/
noncomputable def Fac.lam (F : Fac n k) (gamma : ℝ) : Option (Fin k) → ℝ
  | some i => chop (F.D i + gamma)
  | none => chop gamma

/-- `lambda_min`, LRTRSR1.cpp:154-157. -/
noncomputable def Fac.lmin (F : Fac n k) (gamma : ℝ) : ℝ := Finset.univ.inf' ⟨none, Finset.mem_univ _⟩ (F.lam gamma)

/-- The squared length of the component of the gradient orthogonal to `P_parallel`, LRTRSR1.cpp:158. -/
def Fac.perp2 (F : Fac n k) (g : Fin n → ℝ) : ℝ := g ⬝ᵥ g - F.gp g ⬝ᵥ F.gp g

/-- `a_j`, LRTRSR1.cpp:158-169. -/
noncomputable def Fac.a (F : Fac n k) (g : Fin n → ℝ) : Option (Fin k) → ℝ
  | some i => F.gp g i
  | none => if √(F.perp2 g) * √(F.perp2 g) < tol then 0 else √(F.perp2 g)

/-- `tmpv`, LRTRSR1.cpp:170-173. -/
noncomputable def tmpv (lam a : Option (Fin k) → ℝ) : ℝ := √(∑ i, a i * a i / lam i / lam i)

/-- `PhiBar_fg`, LRTRSR1.cpp:317-369 (the overload 371-410 returns the first component). `none`: the value is `1/0`, that is infinite. -/
noncomputable def phi (Delta : ℝ) (lam a : Option (Fin k) → ℝ) (x : ℝ) : Option (ℝ × ℝ) :=
  if ∃ i, |a i| < tol ∨ |lam i + x| < tol then
    if ∃ i, tol < |a i| ∧ |lam i + x| < tol then some (-1 / Delta, 1 / tol)
    else
      let r := √(∑ i, if tol < |a i| ∧ tol < |lam i + x| then a i * a i / (lam i + x) / (lam i + x) else 0)
      if r = 0 then none
      else some (1 / r - 1 / Delta, (∑ i, if tol < |a i| ∧ tol < |lam i + x| then a i * a i / (lam i + x) / (lam i + x) / (lam i + x) else 0) / r / r / r)
  else
    let r := √(∑ i, a i / (lam i + x) * (a i / (lam i + x)))
    if r = 0 then none
    else some (1 / r - 1 / Delta, (∑ i, a i * a i / (lam i + x) / (lam i + x) / (lam i + x)) / r / r / r)

/-- `LocalNewton`, LRTRSR1.cpp:412-424, with at most the given number of iterations; `epsM` is the machine epsilon. -/
noncomputable def newton (epsM Delta : ℝ) (lam a : Option (Fin k) → ℝ) : ℕ → ℝ → Option ℝ
  | 0, x => some x
  | m + 1, x =>
    match phi Delta lam a x with
    | none => none
    | some (f, g) => if |f| ≤ epsM then some x else if g = 0 then none else newton epsM Delta lam a m (x - f / g)

/-- The matrix `vw`, LRTRSR1.cpp:276-277. -/
def vw (F : Fac n k) (M : Matrix (Fin k) (Fin k) ℝ) (tau : ℝ) : Matrix (Fin k) (Fin k) ℝ := tau • (F.Rᵀ * F.R) + (tau * tau) • M

/-- The rank test, LRTRSR1.cpp:280-292, on the diagonal of the triangular factor: the smallest modulus is less than `100 epsM` times the largest, or the largest is zero. -/
def Deficient (epsM : ℝ) (h : Fin k → ℝ) : Prop := (∀ i, h i = 0) ∨ ∃ i j, (∀ l, |h i| ≤ |h l| ∧ |h l| ≤ |h j|) ∧ |h i| / |h j| < 100 * epsM

/-- `ComputeSBySMW`, LRTRSR1.cpp:271-315; `hhr` gives the diagonal of the triangular factor of the Householder decomposition. Without stored pairs the rank test is vacuously positive, with the same
result as lines 312-314. -/
noncomputable def smw (epsM : ℝ) (hhr : Matrix (Fin k) (Fin k) ℝ → Fin k → ℝ) (F : Fac n k) (M : Matrix (Fin k) (Fin k) ℝ) (Psi : Matrix (Fin n) (Fin k) ℝ) (g : Fin n → ℝ) (tau : ℝ) :
    Option (Fin n → ℝ) :=
  if tau = 0 then none
  else if Deficient epsM (hhr (vw F M tau)) then some ((-1 / tau) • g)
  else some (Psi *ᵥ ((vw F M tau)⁻¹ *ᵥ (Psiᵀ *ᵥ g)) + (-1 / tau) • g)

/-- What the method reports in `tCGstatusSM`. -/
inductive St | min | negcurv | exc
deriving DecidableEq

/-- `sigmaHat`, LRTRSR1.cpp:249-254. -/
noncomputable def sigmaHat (Delta : ℝ) (lam a : Option (Fin k) → ℝ) : ℝ := max 0 (Finset.univ.sup' ⟨none, Finset.mem_univ _⟩ fun i => a i / Delta - lam i)

/-- Where the Newton iteration starts, LRTRSR1.cpp:243-259. -/
noncomputable def start (Delta lmin : ℝ) (lam a : Option (Fin k) → ℝ) : ℝ :=
  if 0 < lmin then 0 else if -lmin < sigmaHat Delta lam a then sigmaHat Delta lam a else -lmin

/-- The direction added in the hard case when the smallest eigenvalue is not the first one, LRTRSR1.cpp:222-232: column `i` of `P Pᵀ`, plus one in position `i`. -/
def zdir (P : Matrix (Fin n) (Fin k) ℝ) (i : Fin n) : Fin n → ℝ := fun j => (P *ᵥ fun l => P i l) j + if j = i then 1 else 0

/-- The index at which the loop 222-232 stops: the first one below `k` whose direction is long enough, or `k - 1`. -/
noncomputable def zidx (P : Matrix (Fin n) (Fin k) ℝ) : Option (Fin n) :=
  ((List.finRange n).filter fun i : Fin n => decide (i.val < k)).find? fun i => i.val + 1 = k ∨ tol < √(zdir P i ⬝ᵥ zdir P i)

/-- The step of the hard case before a direction of negative curvature is added, LRTRSR1.cpp:189-211. -/
noncomputable def hardP (F : Fac n k) (gamma : ℝ) (g : Fin n → ℝ) (lam a : Option (Fin k) → ℝ) (sigma : ℝ) : Fin n → ℝ :=
  let v : Fin k → ℝ := fun i => if tol < |lam (some i) + sigma| then a (some i) / (lam (some i) + sigma) else 0
  let p0 : Fin n → ℝ := -(F.P *ᵥ v)
  if tol < |gamma + sigma| then (1 / (gamma + sigma)) • (F.P *ᵥ F.gp g - g) + p0 else p0

/-- The hard case, LRTRSR1.cpp:189-239. With two or more stored pairs the assignment in line 218 makes `zstar` an `n × k` array, which line 236 adds to an array of length `n`. Without stored pairs the call
in line 207 has an invalid leading dimension. -/
noncomputable def hard (F : Fac n k) (gamma Delta : ℝ) (g : Fin n → ℝ) (lam a : Option (Fin k) → ℝ) (lmin : ℝ) : Option (Fin n → ℝ) :=
  let p := hardP F gamma g lam a (-lmin)
  if k = 0 then none
  else if lmin < 0 then
    if Delta * Delta - p ⬝ᵥ p < 0 then none
    else
      let alpha := √(Delta * Delta - p ⬝ᵥ p)
      if ∃ i : Fin k, (i : ℕ) = 0 ∧ |lmin - lam (some i)| < tol then
        if h : k = 1 then some ((alpha / √(∑ j, F.P j ⟨0, by omega⟩ * F.P j ⟨0, by omega⟩)) • (fun j => F.P j ⟨0, by omega⟩) + p) else none
      else
        match zidx F.P with
        | none => none
        | some i => some ((alpha / √(zdir F.P i ⬝ᵥ zdir F.P i)) • zdir F.P i + p)
  else some p

/-- `PhiBar_fg(x, ...) > 0`: an infinite value is positive. -/
noncomputable def phiPos (Delta : ℝ) (lam a : Option (Fin k) → ℝ) (x : ℝ) : Prop :=
  match phi Delta lam a x with
  | none => True
  | some (f, _) => 0 < f

/-- `tCG_TR`, LRTRSR1.cpp:91-269. With more pairs than coordinates the factors have `n` columns only, and the loops of length `k` read outside them. -/
noncomputable def tcg (epsM : ℝ) (hhr : Matrix (Fin k) (Fin k) ℝ → Fin k → ℝ) (F : Fac n k) (M : Matrix (Fin k) (Fin k) ℝ) (Psi : Matrix (Fin n) (Fin k) ℝ) (gamma Delta : ℝ) (g : Fin n → ℝ) :
    Option (St × (Fin n → ℝ)) :=
  let lam := F.lam gamma
  let a := F.a g
  let lmin := F.lmin gamma
  if n < k then none
  else if 0 < lmin ∧ tmpv lam a ≤ Delta then (smw epsM hhr F M Psi g gamma).map fun e => (.min, e)
  else if lmin ≤ 0 ∧ phiPos Delta lam a (-lmin) then (hard F gamma Delta g lam a lmin).map fun e => (.negcurv, e)
  else
    match newton epsM Delta lam a 10 (start Delta lmin lam a) with
    | none => none
    | some s => (smw epsM hhr F M Psi g (gamma + s)).map fun e => (.exc, e)

end Verif.LSR1
