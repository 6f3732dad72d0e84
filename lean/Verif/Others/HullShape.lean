import Verif.Elem.Dense

/-!
# Shapes of the vectors in the convex hull subproblem

`SphereConvexHull` (`Problems/SphereConvexHull.cpp`) adds up multiples of the given vectors in an element with one column and as many rows as the first vector. Elements are those of
`Verif.Elem.Dense`; a failed assertion is `none`. The case without operator (`Hv == nullptr`), used by `RGS`, is modelled; fields are not: `EucGrad` is given the sum computed by `f`.
-/

namespace Verif.Dense

/-- The loop of `f`, lines 24-30: `Wxsq(W[0].Getrow())` set to zeros, then `Wxsq = xsqPtr[i] * W[i] + Wxsq`. -/
noncomputable def hullSum (junk : Nat → ℝ) (W : Nat → El) (a : Nat → ℝ) : Nat → Option El
  | 0 => some (mk false (W 0).row 1 1 fun _ => 0)
  | i + 1 => (hullSum junk W a i).bind fun acc => add (smulR junk (a i) (W i)) acc

/-- `SphereConvexHull::f`, lines 20-44, for `m` vectors; `x` is a real column of length `m`, whose Hadamard product with itself has the entries `x i * x i`. -/
noncomputable def hullF (junk : Nat → ℝ) (W : Nat → El) (m : Nat) (x : Nat → ℝ) : Option ℝ :=
  (hullSum junk W (fun i => x i * x i) m).bind fun s => dotProduct s s

/-- Entry `i` of `SphereConvexHull::EucGrad`, lines 46-57. -/
noncomputable def hullGrad (junk : Nat → ℝ) (W : Nat → El) (m : Nat) (x : Nat → ℝ) (i : Nat) : Option ℝ :=
  (hullSum junk W (fun i => x i * x i) m).bind fun s => (dotProduct (W i) s).map fun d => 4 * x i * d

end Verif.Dense
