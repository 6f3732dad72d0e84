import Verif.Manifold.SymFR
import Verif.Manifold.Q2FIntr

/-!
# Intrinsic coordinates and vector transport of the symmetric fixed-rank manifold, SymFixedRankQ.cpp:447-571, 796-931

`Q` is the orthogonal matrix of the Householder factorisation of the point (applied by `HHRMtp`), `R` the content of the field "_HHR": the upper triangle is the triangular factor,
what is stored below the diagonal is arbitrary. `Verif.Q2F.lowL R` is the matrix `L` of SymFixedRankQ.cpp:463-477, 541-555, 812-826, 888-902 (row `j`, column `i`). `A / L` is `A L⁻¹`.
Loops over buffers are modelled entry by entry. Real matrices only.
-/

namespace Verif.SymFR

open Matrix Verif.Elem Verif.Intr Verif.Q2F

/-- The Householder data of a point. -/
structure Hou1 (n p : Nat) where
  Q : Matrix (Fin n) (Fin n) ℝ
  R : Matrix (Fin n) (Fin p) ℝ

/-- The three loops of `ObtainIntrEUC`, SymFixedRankQ.cpp:486-507; `t` is the buffer `tmpptr`. -/
noncomputable def intrLoopsE (n p : Nat) (t : Nat → ℝ) : List ℝ :=
  (List.range p).map (fun i => 2 * t (i + i * n)) ++
    ((pairs p).map (fun q => 2 * r2 * t (q.2 + q.1 * n)) ++ (rest n p).map (fun q => r2 * t (q.2 + q.1 * n)))

/-- The three loops of `ObtainIntrHGZ`, SymFixedRankQ.cpp:834-855. -/
noncomputable def intrLoopsH (n p : Nat) (t : Nat → ℝ) : List ℝ :=
  (List.range p).map (fun i => t (i + i * n)) ++
    ((pairs p).map (fun q => r2 * t (q.2 + q.1 * n)) ++ (rest n p).map (fun q => t (q.2 + q.1 * n)))

/-- The matrix `tmp` of `ObtainIntrEUC` and `ObtainIntrHGZ`: `Qᵀ η`, rows with a negative diagonal entry negated, times `L`; SymFixedRankQ.cpp:454-479, 803-827. -/
noncomputable def tmpL {n p : Nat} (h : Hou1 n p) (η : Matrix (Fin n) (Fin p) ℝ) : Matrix (Fin n) (Fin p) ℝ :=
  scaleRows (rowSigns h.R) (h.Qᵀ * η) * lowL h.R

/-- `ObtainIntrEUC`, SymFixedRankQ.cpp:447-509. -/
noncomputable def intrE {n p : Nat} (h : Hou1 n p) (η : Matrix (Fin n) (Fin p) ℝ) : List ℝ := intrLoopsE n p (flat (tmpL h η))

/-- `ObtainIntrHGZ`, SymFixedRankQ.cpp:796-857. -/
noncomputable def intrH {n p : Nat} (h : Hou1 n p) (η : Matrix (Fin n) (Fin p) ℝ) : List ℝ := intrLoopsH n p (flat (tmpL h η))

/-- The writes of `ObtainExtrEUC`, SymFixedRankQ.cpp:523-547; `c` is the buffer of coordinates. -/
noncomputable def writesE (n p : Nat) (c : Nat → ℝ) : List (Nat × ℝ) :=
  (List.range p).map (fun i => (i + i * n, c i / 2)) ++
    ((pairs p).zipIdx.flatMap (fun w => [(w.1.2 + w.1.1 * n, c (p + w.2) / r2 / 2), (w.1.1 + w.1.2 * n, c (p + w.2) / r2 / 2)]) ++
      (rest n p).zipIdx.map (fun w => (w.1.2 + w.1.1 * n, c (p + (pairs p).length + w.2) / r2)))

/-- The writes of `ObtainExtrHGZ`, SymFixedRankQ.cpp:871-894. -/
noncomputable def writesH (n p : Nat) (c : Nat → ℝ) : List (Nat × ℝ) :=
  (List.range p).map (fun i => (i + i * n, c i)) ++
    ((pairs p).zipIdx.flatMap (fun w => [(w.1.2 + w.1.1 * n, c (p + w.2) / r2), (w.1.1 + w.1.2 * n, c (p + w.2) / r2)]) ++
      (rest n p).zipIdx.map (fun w => (w.1.2 + w.1.1 * n, c (p + (pairs p).length + w.2))))

/-- What `ObtainExtrEUC` and `ObtainExtrHGZ` do with the filled buffer: row signs, division by `L`, multiplication by `Q`; SymFixedRankQ.cpp:549-570, 895-917. -/
noncomputable def backL {n p : Nat} (h : Hou1 n p) (b : Nat → ℝ) : Matrix (Fin n) (Fin p) ℝ :=
  h.Q * (scaleRows (rowSigns h.R) (unflat n p b) * (lowL h.R)⁻¹)

/-- `ObtainExtrEUC`, SymFixedRankQ.cpp:511-571; `junk` is the content of the memory obtained. -/
noncomputable def extrE {n p : Nat} (junk : Nat → ℝ) (h : Hou1 n p) (c : List ℝ) : Matrix (Fin n) (Fin p) ℝ := backL h (writeAll junk (writesE n p (buf c)))

/-- `ObtainExtrHGZ`, SymFixedRankQ.cpp:859-918. -/
noncomputable def extrH {n p : Nat} (junk : Nat → ℝ) (h : Hou1 n p) (c : List ℝ) : Matrix (Fin n) (Fin p) ℝ := backL h (writeAll junk (writesH n p (buf c)))

/-- `VectorTransport` for SFRANKQPARALLELIZATION, intrinsic vectors, SymFixedRankQ.cpp:236-241 and Manifold.cpp (the coordinates are copied), as a map of extrinsic vectors. -/
noncomputable def transE {n p : Nat} (junk : Nat → ℝ) (hx hy : Hou1 n p) (ξ : Matrix (Fin n) (Fin p) ℝ) : Matrix (Fin n) (Fin p) ℝ := extrE junk hy (intrE hx ξ)

/-- The same for SFRANKQHGZ. -/
noncomputable def transH {n p : Nat} (junk : Nat → ℝ) (hx hy : Hou1 n p) (ξ : Matrix (Fin n) (Fin p) ℝ) : Matrix (Fin n) (Fin p) ℝ := extrH junk hy (intrH hx ξ)

/-- `VectorTransportProj`, intrinsic branch, SymFixedRankQ.cpp:920-926, metric SFRANKQEUC: the vector is read at `y` without a projection. -/
noncomputable def transProjE {n p : Nat} (junk : Nat → ℝ) (hx hy : Hou1 n p) (c : List ℝ) : List ℝ := intrE hy (extrE junk hx c)

/-- The same for SFRANKQHGZ. -/
noncomputable def transProjH {n p : Nat} (junk : Nat → ℝ) (hx hy : Hou1 n p) (c : List ℝ) : List ℝ := intrH hy (extrH junk hx c)

/-- `VectorTransportProj`, extrinsic branch, SymFixedRankQ.cpp:928. -/
noncomputable def transProj {n p : Nat} (y ξ : Matrix (Fin n) (Fin p) ℝ) : Matrix (Fin n) (Fin p) ℝ := proj y ξ

end Verif.SymFR
