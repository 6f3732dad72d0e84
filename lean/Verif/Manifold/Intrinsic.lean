import Verif.Elem.Array
import Verif.Manifold.Mat
import Mathlib.Analysis.Real.Sqrt

/-!
# Intrinsic coordinates of tangent vectors

`Stiefel::ObtainIntrHHR`, `ObtainExtrHHR`, `ObtainNorVerIntr`, `ObtainNorVerExtr` (Stiefel.cpp:390-438, 644-723), `Grassmann::ObtainIntr`, `ObtainExtr`
(Grassmann.cpp:212-254), `SPDManifold::ObtainIntrAF`, `ObtainExtrAF`, `ObtainIntrEuc`, `ObtainExtrEuc` (SPDManifold.cpp:364-429, 519-565).

Buffers are functions from flat indices (column-major, leading dimension `n`); `resultptr[idx] = …; idx++` appends to a list. `r2` is `√2`, arithmetic is exact. The
Householder factor `Q` (`HHRMtp` multiplies by it or its transpose) and the triangle `R` stored in the field `_HHR` are arguments; their relation `x = Q R` is a hypothesis of
the theorems.
-/

namespace Verif.Intr

open Verif.Elem

/-- `for (i = 0; i < p; i++) for (j = i + 1; j < p; j++)`: the pairs `(i, j)` in loop order. -/
def pairs (p : Nat) : List (Nat × Nat) := (List.range p).flatMap fun i => (List.range (p - (i + 1))).map fun d => (i, i + 1 + d)

/-- `for (i = 0; i < p; i++) for (j = p; j < n; j++)`: the pairs `(i, j)` in loop order. -/
def rest (n p : Nat) : List (Nat × Nat) := (List.range p).flatMap fun i => (List.range (n - p)).map fun d => (i, p + d)

/-- `r2` of the code. -/
noncomputable def r2 : ℝ := √2

/-- The loops of `ObtainIntrHHR`, Stiefel.cpp:662-681. -/
noncomputable def skewIntr (n p : Nat) (t : Nat → ℝ) : List ℝ :=
  (pairs p).map (fun q => r2 * (t (q.2 + q.1 * n) - t (q.1 + q.2 * n)) / 2) ++ (rest n p).map (fun q => t (q.2 + q.1 * n))

/-- The loops of `ObtainExtrHHR`, Stiefel.cpp:693-712. The zeros on the diagonal are written first here; in the code they are interleaved with the writes of the same
loop, which go to other places. `c` is the buffer of the intrinsic vector; the counter `idx` of the pair number `k` is `k`. -/
noncomputable def skewExtrWrites (n p : Nat) (c : Nat → ℝ) : List (Nat × ℝ) :=
  (forN p fun i => [(i + i * n, 0)]) ++
  ((pairs p).zipIdx.flatMap fun qk => [(qk.1.2 + qk.1.1 * n, c qk.2 / r2), (qk.1.1 + qk.1.2 * n, -(c qk.2 / r2))]) ++
  (((rest n p).zipIdx (pairs p).length).map fun qk => (qk.1.2 + qk.1.1 * n, c qk.2))

/-- The copies of `Grassmann::ObtainIntr`, Grassmann.cpp:223-227. -/
def restIntr (n p : Nat) (t : Nat → ℝ) : List ℝ := (rest n p).map fun q => t (q.2 + q.1 * n)

/-- The loops of `Grassmann::ObtainExtr`, Grassmann.cpp:240-248 (the writes to different columns go to different places). -/
def restExtrWrites (n p : Nat) (c : Nat → ℝ) : List (Nat × ℝ) :=
  (forN p fun i => forN p fun j => [(j + i * n, 0)]) ++ ((rest n p).zipIdx.map fun qk => (qk.1.2 + qk.1.1 * n, c qk.2))

/-- The loops of `ObtainIntrAF` and `ObtainIntrEuc`, SPDManifold.cpp:377-392, 522-538. -/
noncomputable def symIntr (n : Nat) (t : Nat → ℝ) : List ℝ :=
  (List.range n).map (fun i => t (i + i * n)) ++ (pairs n).map fun q => t (q.2 + q.1 * n) * r2

/-- The loops of `ObtainNorVerIntr`, Stiefel.cpp:399-412. -/
noncomputable def norIntr (p : Nat) (t : Nat → ℝ) : List ℝ :=
  (List.range p).map (fun i => t (i + i * p)) ++ (pairs p).map fun q => (t (q.1 + q.2 * p) + t (q.2 + q.1 * p)) / r2

/-- The loops of `ObtainExtrAF`, `ObtainExtrEuc`, SPDManifold.cpp:407-423, 548-564, and of `ObtainNorVerExtr`, Stiefel.cpp:423-435 (where the two writes of a pair are
exchanged and have the same value). -/
noncomputable def symExtrWrites (n : Nat) (c : Nat → ℝ) : List (Nat × ℝ) :=
  ((List.range n).zipIdx.map fun ik => (ik.1 + ik.1 * n, c ik.2)) ++
  ((pairs n).zipIdx n).flatMap fun qk => [(qk.1.2 + qk.1.1 * n, c qk.2 / r2), (qk.1.1 + qk.1.2 * n, c qk.2 / r2)]

/-! ### The functions on matrices -/

/-- Column-major buffer of a matrix. -/
def flat {n p : Nat} (A : Matrix (Fin n) (Fin p) ℝ) (k : Nat) : ℝ := if h : k % n < n ∧ k / n < p then A ⟨k % n, h.1⟩ ⟨k / n, h.2⟩ else 0

/-- The matrix in a column-major buffer. -/
def unflat (n p : Nat) (b : Nat → ℝ) : Matrix (Fin n) (Fin p) ℝ := fun i j => b (i + j * n)

/-- The buffer of an intrinsic vector. -/
def buf (l : List ℝ) (k : Nat) : ℝ := l.getD k 0

/-- The signs of the loops Stiefel.cpp:653-657, 715-719: `-1` for the rows `i < p` where the diagonal entry of `R` is negative. -/
noncomputable def rowSigns {n p : Nat} (R : Matrix (Fin n) (Fin p) ℝ) (i : Fin n) : ℝ :=
  if h : i.1 < p then (if R i ⟨i.1, h⟩ < 0 then -1 else 1) else 1

/-- `scal_` on the rows. -/
def scaleRows {n p : Nat} (s : Fin n → ℝ) (A : Matrix (Fin n) (Fin p) ℝ) : Matrix (Fin n) (Fin p) ℝ := fun i j => s i * A i j

open Matrix in
/-- `Stiefel::ObtainIntrHHR`, Stiefel.cpp:644-682. -/
noncomputable def stiefelIntr {n p : Nat} (Q : Matrix (Fin n) (Fin n) ℝ) (R : Matrix (Fin n) (Fin p) ℝ) (η : Matrix (Fin n) (Fin p) ℝ) : List ℝ :=
  skewIntr n p (flat (scaleRows (rowSigns R) (Qᵀ * η)))

/-- `Stiefel::ObtainExtrHHR`, Stiefel.cpp:684-723; `junk` is the content of the memory obtained. -/
noncomputable def stiefelExtr {n p : Nat} (junk : Nat → ℝ) (Q : Matrix (Fin n) (Fin n) ℝ) (R : Matrix (Fin n) (Fin p) ℝ) (c : List ℝ) :
    Matrix (Fin n) (Fin p) ℝ := Q * scaleRows (rowSigns R) (unflat n p (writeAll junk (skewExtrWrites n p (buf c))))

open Matrix in
/-- `Grassmann::ObtainIntr`, Grassmann.cpp:212-230. -/
noncomputable def grassIntr {n p : Nat} (Q : Matrix (Fin n) (Fin n) ℝ) (η : Matrix (Fin n) (Fin p) ℝ) : List ℝ := restIntr n p (flat (Qᵀ * η))

/-- `Grassmann::ObtainExtr`, Grassmann.cpp:232-254. -/
noncomputable def grassExtr {n p : Nat} (junk : Nat → ℝ) (Q : Matrix (Fin n) (Fin n) ℝ) (c : List ℝ) : Matrix (Fin n) (Fin p) ℝ :=
  Q * unflat n p (writeAll junk (restExtrWrites n p (buf c)))

open Matrix in
/-- `Stiefel::ObtainNorVerIntr`, Stiefel.cpp:390-414. -/
noncomputable def normalIntr {n p : Nat} (x η : Matrix (Fin n) (Fin p) ℝ) : List ℝ := norIntr p (flat (xᵀ * η))

/-- `Stiefel::ObtainNorVerExtr`, Stiefel.cpp:416-438. -/
noncomputable def normalExtr {n p : Nat} (junk : Nat → ℝ) (x : Matrix (Fin n) (Fin p) ℝ) (c : List ℝ) : Matrix (Fin n) (Fin p) ℝ :=
  x * unflat p p (writeAll junk (symExtrWrites p (buf c)))

/-- `SPDManifold::ObtainIntrEuc`, SPDManifold.cpp:522-543. -/
noncomputable def spdIntrEuc {n : Nat} (η : Matrix (Fin n) (Fin n) ℝ) : List ℝ := symIntr n (flat η)

/-- `SPDManifold::ObtainExtrEuc`, SPDManifold.cpp:545-568. -/
noncomputable def spdExtrEuc {n : Nat} (junk : Nat → ℝ) (c : List ℝ) : Matrix (Fin n) (Fin n) ℝ := unflat n n (writeAll junk (symExtrWrites n (buf c)))

open Matrix in
/-- `SPDManifold::ObtainIntrAF`, SPDManifold.cpp:365-395: `L⁻¹ (L⁻¹ η)ᵀ` for the Cholesky factor `L` (two triangular solves). -/
noncomputable def spdIntrAF {n : Nat} (L : Matrix (Fin n) (Fin n) ℝ) (η : Matrix (Fin n) (Fin n) ℝ) : List ℝ := symIntr n (flat (L⁻¹ * (L⁻¹ * η)ᵀ))

open Matrix in
/-- `SPDManifold::ObtainExtrAF`, SPDManifold.cpp:397-429. -/
noncomputable def spdExtrAF {n : Nat} (junk : Nat → ℝ) (L : Matrix (Fin n) (Fin n) ℝ) (c : List ℝ) : Matrix (Fin n) (Fin n) ℝ :=
  (L * unflat n n (writeAll junk (symExtrWrites n (buf c)))) * Lᵀ

/-- `DotProduct` of two intrinsic vectors (`Manifold::Metric` with the intrinsic approach). -/
def dot (c d : List ℝ) : ℝ := (List.zipWith (· * ·) c d).sum

end Verif.Intr
