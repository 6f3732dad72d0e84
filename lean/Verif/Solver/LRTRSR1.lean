import Verif.Elem.Array
import Mathlib.Analysis.InnerProductSpace.LinearMap
import Mathlib.Analysis.Real.Sqrt

/-!
# Limited-memory Riemannian SR1 trust-region solver: memory and Hessian approximation

`LRTRSR1::UpdateDataLRTRSR1`, `LRTRSR1::Acceptence`, `LRTRSR1::HvLRTRSR1` and the first lines of `LRTRSR1::tCG_TR` (Solvers/LRTRSR1.cpp). All tangent spaces are represented by one real inner
product space (as with intrinsic vectors), a vector transport by a linear isometry of it. Arithmetic is exact; a division by zero is the outcome `none`.
-/

namespace Verif.LSR1

open scoped RealInnerProductSpace Classical
open Verif.Elem

variable {E : Type*} [NormedAddCommGroup E] [InnerProductSpace ℝ E]

/-- The members of the solver: the buffers `S`, `Y`, the arrays `SS`, `SY` (column-major with `LengthSY` rows), `Currentlength`, `beginidx`, `gamma`, `isupdated`, LRTRSR1.h. -/
structure Mem (E : Type*) where
  S : Nat → E
  Y : Nat → E
  SS : Nat → ℝ
  SY : Nat → ℝ
  cur : Nat
  beg : Nat
  gamma : ℝ
  isupd : Bool

/-- In-place moves `a[d] = a[s]`, in order. -/
def moves (a : Nat → ℝ) (l : List (Nat × Nat)) : Nat → ℝ := l.foldl (fun a q => Function.update a q.1 (a q.2)) a

/-- The moves of lines 565-572. -/
def shifts (L : Nat) : List (Nat × Nat) := (List.range (L - 1)).flatMap fun i => (List.range (L - 1)).map fun j => (i + j * L, i + 1 + (j + 1) * L)

/-- Storing an accepted pair, LRTRSR1.cpp:539-586 (`LengthSY = L`). -/
noncomputable def push (L : Nat) (restart : Bool) (s y : E) (m0 : Mem E) : Mem E :=
  let m := if restart = true ∧ L ≤ m0.cur then { m0 with cur := 0 } else m0
  if m.cur < L then
    let c := m.cur
    let S := Function.update m.S c s
    let Y := Function.update m.Y c y
    { m with
      S := S, Y := Y, cur := c + 1
      SS := writeAll m.SS ([(c + c * L, ⟪S c, S c⟫)] ++ forN c fun i => [(c + i * L, ⟪S c, S i⟫), (i + c * L, ⟪S c, S i⟫)])
      SY := writeAll m.SY ([(c + c * L, ⟪S c, Y c⟫)] ++ forN c fun i => [(c + i * L, ⟪S c, Y i⟫), (i + c * L, ⟪S c, Y i⟫)]) }
  else if 0 < L then
    let b := m.beg
    let S := Function.update m.S b s
    let Y := Function.update m.Y b y
    { m with
      S := S, Y := Y, beg := (b + 1) % L
      SS := writeAll (moves m.SS (shifts L)) ([(L * L - 1, ⟪S b, S b⟫)] ++
        forN (L - 1) fun i => [(i + (L - 1) * L, ⟪S ((i + b + 1) % L), S b⟫), (L - 1 + i * L, ⟪S ((i + b + 1) % L), S b⟫)])
      SY := writeAll (moves m.SY (shifts L)) ([(L * L - 1, ⟪S b, Y b⟫)] ++
        forN (L - 1) fun i => [(i + (L - 1) * L, ⟪Y ((i + b + 1) % L), S b⟫), (L - 1 + i * L, ⟪Y ((i + b + 1) % L), S b⟫)]) }
  else m

/-- `UpdateDataLRTRSR1`, LRTRSR1.cpp:508-593. `s` is the step, `y` the difference of gradients (lines 514-516), `Heta2` the image of the step computed by the caller, `eps` the machine epsilon;
`ngf0` is positive. -/
noncomputable def update (eps : ℝ) (L : Nat) (restart : Bool) (iter : Nat) (ngf2 ngf0 : ℝ) (s y Heta2 : E) (m : Mem E) : Option (Mem E) :=
  if iter = 0 ∧ ⟪s, y⟫ = 0 then none
  else
    let g := if iter = 0 then ⟪y, y⟫ / ⟪s, y⟫ else m.gamma
    let h := if iter = 0 then g • s else Heta2
    let zeta := y - h
    if eps * ⟪s, s⟫ * ⟪zeta, zeta⟫ ≤ ⟪s, zeta⟫ * ⟪s, zeta⟫ ∧ (eps ≤ ⟪zeta, zeta⟫ ∨ ngf2 / ngf0 < 1 / 1000) ∧ (iter ≠ 0 ∨ √eps < |g - ⟪s, y⟫ / ⟪s, s⟫|) then
      if m.isupd = true ∧ ⟪s, y⟫ = 0 then none
      else some { push L restart s y { m with gamma := if m.isupd = true then ⟪y, y⟫ / ⟪s, y⟫ else g } with isupd := true }
    else some { m with gamma := g, isupd := false }

/-- `Acceptence`, LRTRSR1.cpp:447-454: the stored vectors are transported. -/
def accept (T : E → E) (m : Mem E) : Mem E :=
  { m with S := fun i => if i < m.cur then T (m.S i) else m.S i, Y := fun i => if i < m.cur then T (m.Y i) else m.Y i }

/-- `YMGS[i]`, LRTRSR1.cpp:109-114. -/
def ymgs (L : Nat) (m : Mem E) (i : Nat) : E := m.Y ((i + m.beg) % L) - m.gamma • m.S ((i + m.beg) % L)

/-- Entry `(i, j)` of `PMGQ`, LRTRSR1.cpp:116-122. -/
def pmgq (L : Nat) (m : Mem E) (i j : Nat) : ℝ := m.SY (i + j * L) - m.gamma * m.SS (i + j * L)

/-- What `PMGQ % v` returns (`gesv`): a solution of the linear system with right-hand side `v`, LRTRSR1.cpp:490-496. -/
def IsSol (L : Nat) (m : Mem E) (v u : Nat → ℝ) : Prop := ∀ i < m.cur, ∑ j ∈ Finset.range m.cur, pmgq L m i j * u j = v i

/-- `HvLRTRSR1`, LRTRSR1.cpp:481-506, with the solution `v2` of the linear system. -/
def hv (L : Nat) (m : Mem E) (v2 : Nat → ℝ) (eta : E) : E := (List.range m.cur).foldl (fun r i => r + v2 i • ymgs L m i) (m.gamma • eta)

/-- The right-hand side of the linear system, LRTRSR1.cpp:487-488. -/
noncomputable def rhs (L : Nat) (m : Mem E) (eta : E) (i : Nat) : ℝ := ⟪ymgs L m i, eta⟫

end Verif.LSR1
