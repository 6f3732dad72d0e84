import Verif.Manifold.Q2F
import Verif.Manifold.Intrinsic

/-!
# Intrinsic coordinates and vector transport of the two-factor fixed-rank manifold, FixedRankQ2F.cpp:103-359

`QG`, `QH` are the orthogonal matrices of the Householder factorisations (applied by `ormqr_`), `RG`, `RH` the contents of the fields "_HHR": the upper triangle is the triangular
factor, what is stored below the diagonal (the reflectors) is arbitrary. Loops over buffers are modelled entry by entry.
-/

namespace Verif.Q2F

open Matrix Verif.Elem Verif.Intr

/-- `for (i = 0; i < r; i++) for (j = 0; j < r; j++)`. -/
def square (r : Nat) : List (Nat × Nat) := (List.range r).flatMap fun i => (List.range r).map fun j => (i, j)

/-- The loops that fill `LG` and `LH`, FixedRankQ2F.cpp:129-146, 160-177, 274-289, 301-315. Row `j`, column `i`. -/
noncomputable def lowL {m r : Nat} (R : Matrix (Fin m) (Fin r) ℝ) : Matrix (Fin r) (Fin r) ℝ := fun j i =>
  if j < i then 0 else flat R (i + m * j) * (if flat R (i + m * i) ≥ 0 then 1 else -1)

/-- The copies of `ObtainIntr`, FixedRankQ2F.cpp:186-211: `tG`, `tH` are the buffers `GtmpLHptr`, `HtmpLGptr`. -/
def intrLoops (m n r : Nat) (tG tH : Nat → ℝ) : List ℝ :=
  (square r).map (fun q => tG (q.2 + q.1 * m) + tH (q.1 + q.2 * n)) ++
    ((rest m r).map (fun q => tG (q.2 + q.1 * m)) ++ (rest n r).map (fun q => tH (q.2 + q.1 * n)))

/-- `FixedRankQ2F::ObtainIntr`, FixedRankQ2F.cpp:103-214. -/
noncomputable def intr {m n r : Nat} (QG : Matrix (Fin m) (Fin m) ℝ) (RG : Matrix (Fin m) (Fin r) ℝ) (QH : Matrix (Fin n) (Fin n) ℝ) (RH : Matrix (Fin n) (Fin r) ℝ)
    (η : Pair ℝ (Fin m) (Fin n) (Fin r)) : List ℝ :=
  intrLoops m n r (flat (scaleRows (rowSigns RG) (QGᵀ * η.G) * lowL RH)) (flat (scaleRows (rowSigns RH) (QHᵀ * η.H) * lowL RG))

/-- The writes to the buffer of `etaxG`, FixedRankQ2F.cpp:237-254. -/
noncomputable def writesG (m r : Nat) (c : Nat → ℝ) : List (Nat × ℝ) :=
  (square r).zipIdx.map (fun w => (w.1.2 + w.1.1 * m, c w.2 / 2)) ++ ((rest m r).zipIdx).map (fun w => (w.1.2 + w.1.1 * m, c ((square r).length + w.2)))

/-- The writes to the buffer of `etaxH`, FixedRankQ2F.cpp:237-262. -/
noncomputable def writesH (m n r : Nat) (c : Nat → ℝ) : List (Nat × ℝ) :=
  (square r).zipIdx.map (fun w => (w.1.1 + w.1.2 * n, c w.2 / 2)) ++
    ((rest n r).zipIdx).map (fun w => (w.1.2 + w.1.1 * n, c ((square r).length + (rest m r).length + w.2)))

/-- `FixedRankQ2F::ObtainExtr`, FixedRankQ2F.cpp:216-322; `jG`, `jH` are the contents of the memory obtained. `B.GetTranspose().TriangleLinSol(L, T).GetTranspose()` is `B L⁻¹`. -/
noncomputable def extr {m n r : Nat} (jG jH : Nat → ℝ) (QG : Matrix (Fin m) (Fin m) ℝ) (RG : Matrix (Fin m) (Fin r) ℝ) (QH : Matrix (Fin n) (Fin n) ℝ)
    (RH : Matrix (Fin n) (Fin r) ℝ) (c : List ℝ) : Pair ℝ (Fin m) (Fin n) (Fin r) :=
  ⟨((lowL RH)ᵀ⁻¹ * (QG * scaleRows (rowSigns RG) (unflat m r (writeAll jG (writesG m r (buf c)))))ᵀ)ᵀ,
   ((lowL RG)ᵀ⁻¹ * (QH * scaleRows (rowSigns RH) (unflat n r (writeAll jH (writesH m n r (buf c)))))ᵀ)ᵀ⟩

/-- The Householder data of the two factors of a point. -/
structure Hou (m n r : Nat) where
  QG : Matrix (Fin m) (Fin m) ℝ
  RG : Matrix (Fin m) (Fin r) ℝ
  QH : Matrix (Fin n) (Fin n) ℝ
  RH : Matrix (Fin n) (Fin r) ℝ

/-- `FixedRankQ2F::VectorTransport`, extrinsic branch, FixedRankQ2F.cpp:331-344. -/
noncomputable def transport {m n r : Nat} (jG jH : Nat → ℝ) (hx hy : Hou m n r) (ξ : Pair ℝ (Fin m) (Fin n) (Fin r)) : Pair ℝ (Fin m) (Fin n) (Fin r) :=
  extr jG jH hy.QG hy.RG hy.QH hy.RH (intr hx.QG hx.RG hx.QH hx.RH ξ)

/-- `FixedRankQ2F::InverseVectorTransport`, extrinsic branch, FixedRankQ2F.cpp:346-359: both conversions use `x`. -/
noncomputable def invTransport {m n r : Nat} (jG jH : Nat → ℝ) (hx _hy : Hou m n r) (ξ : Pair ℝ (Fin m) (Fin n) (Fin r)) : Pair ℝ (Fin m) (Fin n) (Fin r) :=
  extr jG jH hx.QG hx.RG hx.QH hx.RH (intr hx.QG hx.RG hx.QH hx.RH ξ)

end Verif.Q2F
