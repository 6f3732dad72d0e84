import Verif.Elem.Array
import Mathlib.Analysis.InnerProductSpace.Basic

/-!
# The proximal mapping on a tangent space

Model of `ProxW` and `CalJW` of the sparse problems (`Problems/StieSPCA.cpp`, `Problems/FRankESparseApprox.cpp`) and of the semismooth Newton method of
`Manifold::TangentSpaceProximalMap` with its conjugate gradient solver (`Manifolds/Manifold.cpp:859-1015`). Exact arithmetic.
-/

set_option linter.unusedVariables false

namespace Verif.Prox

open Verif.Elem

section arrays
variable {K : Type} [Field K] [LinearOrder K]

/-- One entry of `ProxW`, StieSPCA.cpp:128, FRankESparseApprox.cpp:74. -/
def soft (lam w x : K) : K := (if x + lam / w < 0 then x + lam / w else 0) + (if x - lam / w > 0 then x - lam / w else 0)

/-- `ProxW`, StieSPCA.cpp:113-132, FRankESparseApprox.cpp:58-78: `N` is the length of `x`, `nblock` the length of the weight, `res0` the previous content of the result. -/
def proxW (lam : K) (N nblock : Nat) (x W res0 : Nat → K) : Nat → K :=
  writeAll res0 (forN nblock fun i => forN (N / nblock) fun j => [(j + i * (N / nblock), soft lam (W i) (x (j + i * (N / nblock))))])

/-- `CalJW`, StieSPCA.cpp:134-154, FRankESparseApprox.cpp:80-100. -/
def calJW (lam : K) (N nblock : Nat) (x eta W res0 : Nat → K) : Nat → K :=
  writeAll res0 (forN nblock fun i => forN (N / nblock) fun j =>
    [(j + i * (N / nblock), if |x (j + i * (N / nblock))| * W i > lam then eta (j + i * (N / nblock)) else 0)])

/-- The loop of `scal_` calls in `ComputeBLambda` and `GLdW`, Manifold.cpp:966-971, 994-999. -/
def scaleBlocks (N nblock : Nat) (W u : Nat → K) : Nat → K :=
  writeAll u (forN nblock fun i => forN (N / nblock) fun j => [(j + i * (N / nblock), 1 / W i * u (j + i * (N / nblock)))])

/-- `ComputeBLambda`, Manifold.cpp:957-974; `Aadj` is `calAadj`, i.e. `ObtainNorVerExtr(x, ·)`. -/
def computeBLambda (Aadj : (Nat → K) → Nat → K) (N nblock : Nat) (x W gfx d : Nat → K) : Nat → K :=
  let r := fun k => gfx k - Aadj d k
  let r := scaleBlocks N nblock W r
  fun k => x k - r k

/-- `EW`, Manifold.cpp:976-982; `A` is `calA`, i.e. `ObtainNorVerIntr(x, ·)`; the vector receiving the result of `ProxW` is a copy of `BLambda`. -/
def eW (A : (Nat → K) → Nat → K) (lam : K) (N nblock : Nat) (x W BLambda : Nat → K) : Nat → K :=
  A fun k => proxW lam N nblock BLambda W BLambda k - x k

/-- `GLdW`, Manifold.cpp:984-1002; the vector receiving the result of `CalJW` is a copy of `x`. -/
def gLdW (A Aadj : (Nat → K) → Nat → K) (lam : K) (N nblock : Nat) (x W BLambda d : Nat → K) : Nat → K :=
  A (scaleBlocks N nblock W (calJW lam N nblock BLambda (Aadj d) W x))

end arrays

/-! ### The conjugate gradient loop -/

section cg
variable {E : Type*} [NormedAddCommGroup E] [InnerProductSpace ℝ E]

/-- State of `myCG`: the iterate `*result`, `r`, `p`, `*CGiter`. -/
structure CG (E : Type*) where
  x : E
  r : E
  p : E
  it : Nat

open RealInnerProductSpace in
/-- Body of the loop of `myCG`, Manifold.cpp:945-952. `Op v` is `GLdW(v) + mu v`. -/
noncomputable def CG.step (Op : E → E) (s : CG E) : CG E :=
  let Ap := Op s.p
  let rr0 := ⟪s.r, s.r⟫
  let alpha := rr0 / ⟪s.p, Ap⟫
  let x := s.x + alpha • s.p
  let r := s.r - alpha • Ap
  let beta := ⟪r, r⟫ / rr0
  ⟨x, r, r + beta • s.p, s.it + 1⟩

/-- Initialisation of `myCG`, Manifold.cpp:938-942: `nb` is the negative right-hand side. -/
noncomputable def CG.init (Op : E → E) (nb x0 : E) : CG E :=
  let r := -1 • Op x0 + -1 • nb
  ⟨x0, r, r, 0⟩

/-- The loop condition, Manifold.cpp:943. -/
noncomputable def CG.continues (tau lamF : ℝ) (maxiter : Nat) (s : CG E) : Prop := ‖s.r‖ > tau * (if lamF * ‖s.x‖ < 1 then lamF * ‖s.x‖ else 1) ∧ s.it < maxiter

open Classical in
/-- The loop of `myCG`, Manifold.cpp:943-953. The counter bounds the number of passes, so `maxiter` passes are enough. -/
noncomputable def CG.loop (Op : E → E) (tau lamF : ℝ) (maxiter : Nat) : Nat → CG E → CG E
  | 0, s => s
  | f + 1, s => if s.continues tau lamF maxiter then CG.loop Op tau lamF maxiter f (s.step Op) else s

/-- `Manifold::myCG`, Manifold.cpp:933-955. -/
noncomputable def myCG (Op : E → E) (nb x0 : E) (tau lamF : ℝ) (maxiter : Nat) : CG E := CG.loop Op tau lamF maxiter maxiter (CG.init Op nb x0)

end cg

/-! ### The semismooth Newton loop -/

section newton
variable {Z V K : Type} [Field K] [LinearOrder K]

/-- The parts of `TangentSpaceProximalMap` that depend on the problem. -/
structure NewtonEnv (Z V K : Type) where
  /-- `ComputeBLambda` at a dual vector -/
  bl : Z → V
  /-- `EW` -/
  F : V → Z
  /-- Frobenius norm -/
  nrm : Z → K
  /-- `myCG`: from `BLambda`, `Fz`, `nFz` and the previous direction -/
  dir : V → Z → K → Z → Z
  /-- `z + alpha d` -/
  move : Z → K → Z → Z

/-- State of the outer loop. -/
structure NewtonSt (Z V K : Type) where
  z : Z
  fz : Z
  nfz : K
  d : Z
  bl : V
  iter : Nat
  early : Bool

/-- A trial: `SMu`, `BLambda`, `Fu`, `nFu`. -/
structure Trial (Z V K : Type) where
  u : Z
  bl : V
  fu : Z
  nfu : K

/-- The trial with the step `alpha`, Manifold.cpp:900-903 and 910-913. -/
def NewtonEnv.trial (E : NewtonEnv Z V K) (z d : Z) (alpha : K) : Trial Z V K :=
  let u := E.move z alpha d
  let b := E.bl u
  let fu := E.F b
  ⟨u, b, fu, E.nrm fu⟩

/-- The backtracking loop, Manifold.cpp:905-915: the first argument is `maxSMbtiter - SMbtiter`; returns the last trial, its step, and what is left of the counter. -/
def NewtonEnv.backtrack (E : NewtonEnv Z V K) (z d : Z) (nfz : K) : Nat → K → Trial Z V K → Trial Z V K × K × Nat
  | 0, a, t => (t, a, 0)
  | k + 1, a, t =>
    if t.nfu * t.nfu > nfz * nfz * (1 - 1 / 1000 * a) then E.backtrack z d nfz k (a * (1 / 2)) (E.trial z d (a * (1 / 2))) else (t, a, k + 1)

/-- One pass of the outer loop, Manifold.cpp:895-925; `maxSMbtiter = 10`. -/
def NewtonEnv.pass (E : NewtonEnv Z V K) (s : NewtonSt Z V K) : NewtonSt Z V K :=
  let d := E.dir s.bl s.fz s.nfz s.d
  let r := E.backtrack s.z d s.nfz 10 1 (E.trial s.z d 1)
  let t := r.1
  if r.2.2 = 0 ∧ s.iter ≠ 0 then { s with d := d, bl := t.bl, early := true }
  else ⟨t.u, t.fu, t.nfu, d, t.bl, s.iter + 1, false⟩

/-- The outer loop, Manifold.cpp:893-926; `SMmaxiter = 100`; first argument: passes left. -/
def NewtonEnv.loop (E : NewtonEnv Z V K) (tol : K) : Nat → NewtonSt Z V K → NewtonSt Z V K
  | 0, s => s
  | f + 1, s => if s.nfz * s.nfz > tol then (let s' := E.pass s; if s'.early then s' else E.loop tol f s') else s

/-- `Manifold::TangentSpaceProximalMap` up to the evaluation of the direction, Manifold.cpp:859-927; `d0` is the zero vector, Manifold.cpp:888. -/
def NewtonEnv.run (E : NewtonEnv Z V K) (tol : K) (z0 d0 : Z) : NewtonSt Z V K :=
  let b := E.bl z0
  let fz := E.F b
  E.loop tol 100 ⟨z0, fz, E.nrm fz, d0, b, 0, false⟩

end newton

end Verif.Prox
