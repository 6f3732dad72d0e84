import Verif.Problem.Problems

/-!
# The weights that the sparse problems hand to the proximal-gradient solvers

`StieSPCA::PreConditioner` and `FRankESparseApprox::PreConditioner` do not precondition a vector: they return the weights of the quadratic term of the subproblem (`Manifold.cpp:860-861, 876-878`). Exact arithmetic.
-/

namespace Verif.SPCA

open Matrix Verif.Mat

variable {m n p : ℕ}

/-- The weights returned: one for every entry of the point, one for every column, a single one, or the single zero of the branch that prints a warning. -/
inductive Weights (n p : ℕ)
  | full (W : Matrix (Fin n) (Fin p) ℝ)
  | cols (w : Fin p → ℝ)
  | one (L : ℝ)
  | unsupported

/-- The squared norms of the columns, StieSPCA.cpp:19-22 (`colnormB`) and 74 (`w1`). -/
def colSq {k : ℕ} (A : Matrix (Fin m) (Fin k) ℝ) (j : Fin k) : ℝ := ∑ i, A i j * A i j

/-- `(a > 0.1) ? a : 0.1`, StieSPCA.cpp:80, 92. -/
noncomputable def floor01 (a : ℝ) : ℝ := if a > 1 / 10 then a else 1 / 10

/-- StieSPCA.cpp:24-27: `L` from the first entry of the field "_S" of the singular value decomposition of `B`. -/
noncomputable def lipschitz (s0 : ℝ) : ℝ := s0 * s0 * 2

/-- `StieSPCA::PreConditioner`, StieSPCA.cpp:65-111. The branches are tested in this order; the length of `x` is `n * p`. -/
noncomputable def weights (B : Matrix (Fin m) (Fin n) ℝ) (s0 : ℝ) (lengthW : ℕ) (x : Matrix (Fin n) (Fin p) ℝ) : Weights n p :=
  if lengthW = n * p then .full fun i j => floor01 ((colSq (B * x) j - colSq B i) * 2)
  else if lengthW = p then .cols fun j => floor01 ((colSq (B * x) j - 1) * 2)
  else if lengthW = 1 then .one (lipschitz s0)
  else .unsupported

/-- The weight applied to the entry `(i, j)`, position `i + j n` of the array, by the loops over blocks (Manifold.cpp:962-971, StieSPCA.cpp:119-130): `Weight[k / (length / nblock)]`. The result was multiplied by `adavalue` (Manifold.cpp:878). -/
def Weights.entry (ada : ℝ) : Weights n p → Fin n → Fin p → ℝ
  | .full W, i, j => ada * W i j
  | .cols w, _, j => ada * w j
  | .one L, _, _ => ada * L
  | .unsupported, _, _ => ada * 0

/-- `FRankESparseApprox::PreConditioner`, FRankESparseApprox.cpp:13, 49-56: the single weight `L = 2`, for every `lengthW`. -/
def weightsFR : Weights n p := .one 2

/-- Number of weights, `Weight.Getlength()`. -/
def Weights.count : Weights n p → ℕ
  | .full _ => n * p
  | .cols _ => p
  | .one _ => 1
  | .unsupported => 1

/-- `x.Getlength() / nblock`, Manifold.cpp:962-963: an integer division, `none` when the divisor is zero (the program is ended by a signal). -/
def blockSize (len nblock : ℕ) : Option ℕ := if nblock = 0 then none else some (len / nblock)

/-- Length of the weights `TangentSpaceProximalMap` works with, Manifold.cpp:876-877: `PreConditioner(x, Weight, &Weight)` with the default constructed `Weight` of length zero. `none`: the problem does not override `PreConditioner`,
then `*result = eta` assigns `Weight` to itself (Problem.cpp:178-183). -/
def weightLength (W : Option (Weights n p)) : ℕ :=
  match W with
  | none => 0
  | some W => W.count

end Verif.SPCA
