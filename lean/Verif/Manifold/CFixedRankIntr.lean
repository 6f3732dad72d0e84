import Verif.Manifold.CStiefel
import Verif.Manifold.Q2FIntr
import Verif.Manifold.SymFR

/-!
# Intrinsic coordinates of the complex fixed-rank manifolds, CSymFixedRankQ.cpp:435-745 and CFixedRankQ2F.cpp:108-386

`Q` is the unitary matrix of the Householder factorisation of a factor (applied by `HHRMtp`), `R` the content of the field "_HHR": the upper triangle is the triangular factor, what is stored
below the diagonal is arbitrary. `A / L` and `A.GetTranspose().TriangleLinSol(L, C).GetTranspose()` are `A L⁻¹`. Buffers hold real and imaginary parts one after the other; the loops are
modelled as lists of writes of real numbers.
-/

namespace Verif.CFixed

open Matrix Verif.Elem
open Verif.Intr (pairs rest r2 buf)
open Verif.Q2F (square Pair)
open Verif.CStiefel (flat unflat rowSigns scaleRows)

/-- The loops that fill `L`, CSymFixedRankQ.cpp:453-471, 548-565, 600-617, 698-715, CFixedRankQ2F.cpp:137-151, 172-187, 293-305, 319-331. Row `j`, column `i`. -/
noncomputable def lowL {m r : Nat} (R : Matrix (Fin m) (Fin r) ℂ) : Matrix (Fin r) (Fin r) ℂ := fun j i =>
  if j < i then 0 else (starRingEnd ℂ) (flat R (i + m * j)) * (if (flat R (i + m * i)).re < 0 then -1 else 1)

/-- The Householder data of one factor. -/
structure Hou (m r : Nat) where
  Q : Matrix (Fin m) (Fin m) ℂ
  R : Matrix (Fin m) (Fin r) ℂ

/-- `HHRMtp(…, C, L)`, the row signs, times a triangular matrix: CSymFixedRankQ.cpp:442-472, 589-619, CFixedRankQ2F.cpp:124-195. -/
noncomputable def blkOf {m r : Nat} (h : Hou m r) (L : Matrix (Fin r) (Fin r) ℂ) (η : Matrix (Fin m) (Fin r) ℂ) : Matrix (Fin m) (Fin r) ℂ :=
  scaleRows (rowSigns h.R) (h.Qᴴ * η) * L

/-- The way back from a filled buffer: CSymFixedRankQ.cpp:566-576, 716-727, CFixedRankQ2F.cpp:280-340 (there the triangular system is solved last; rows and columns commute). -/
noncomputable def backOf {m r : Nat} (h : Hou m r) (L : Matrix (Fin r) (Fin r) ℂ) (b : Nat → ℝ) : Matrix (Fin m) (Fin r) ℂ :=
  h.Q * scaleRows (rowSigns h.R) (unflat m r b * L⁻¹)

/-! ### Hermitian fixed rank -/

/-- The loops of `ObtainIntrEUC`, CSymFixedRankQ.cpp:477-503. -/
noncomputable def intrLoopsE (n p : Nat) (t : Nat → ℂ) : List ℝ :=
  (List.range p).map (fun i => 2 * (t (i + i * n)).re) ++
    (pairs p).flatMap (fun q => [2 * r2 * (t (q.2 + q.1 * n)).re, 2 * r2 * (t (q.2 + q.1 * n)).im]) ++
    (rest n p).flatMap (fun q => [r2 * (t (q.2 + q.1 * n)).re, r2 * (t (q.2 + q.1 * n)).im])

/-- The loops of `ObtainIntrHGZ`, CSymFixedRankQ.cpp:625-651. -/
noncomputable def intrLoopsH (n p : Nat) (t : Nat → ℂ) : List ℝ :=
  (List.range p).map (fun i => (t (i + i * n)).re) ++
    (pairs p).flatMap (fun q => [r2 * (t (q.2 + q.1 * n)).re, r2 * (t (q.2 + q.1 * n)).im]) ++
    (rest n p).flatMap (fun q => [(t (q.2 + q.1 * n)).re, (t (q.2 + q.1 * n)).im])

/-- `ObtainIntrEUC`, CSymFixedRankQ.cpp:435-505. -/
noncomputable def intrE {n p : Nat} (h : Hou n p) (η : Matrix (Fin n) (Fin p) ℂ) : List ℝ := intrLoopsE n p (flat (blkOf h (lowL h.R) η))

/-- `ObtainIntrHGZ`, CSymFixedRankQ.cpp:582-653. -/
noncomputable def intrH {n p : Nat} (h : Hou n p) (η : Matrix (Fin n) (Fin p) ℂ) : List ℝ := intrLoopsH n p (flat (blkOf h (lowL h.R) η))

/-- The writes of `ObtainExtrEUC`, CSymFixedRankQ.cpp:519-547. -/
noncomputable def writesE (n p : Nat) (c : Nat → ℝ) : List (Nat × ℝ) :=
  (List.range p).flatMap (fun i => [(2 * (i + i * n), c i / 2), (2 * (i + i * n) + 1, 0)]) ++
    (pairs p).zipIdx.flatMap (fun w => [(2 * (w.1.2 + w.1.1 * n), c (p + 2 * w.2) / r2 / 2), (2 * (w.1.1 + w.1.2 * n), c (p + 2 * w.2) / r2 / 2),
      (2 * (w.1.2 + w.1.1 * n) + 1, c (p + 2 * w.2 + 1) / r2 / 2), (2 * (w.1.1 + w.1.2 * n) + 1, -c (p + 2 * w.2 + 1) / r2 / 2)]) ++
    (rest n p).zipIdx.flatMap (fun w => [(2 * (w.1.2 + w.1.1 * n), c (p + 2 * (pairs p).length + 2 * w.2) / r2),
      (2 * (w.1.2 + w.1.1 * n) + 1, c (p + 2 * (pairs p).length + 2 * w.2 + 1) / r2)])

/-- The writes of `ObtainExtrHGZ`, CSymFixedRankQ.cpp:667-695. -/
noncomputable def writesH (n p : Nat) (c : Nat → ℝ) : List (Nat × ℝ) :=
  (List.range p).flatMap (fun i => [(2 * (i + i * n), c i), (2 * (i + i * n) + 1, 0)]) ++
    (pairs p).zipIdx.flatMap (fun w => [(2 * (w.1.2 + w.1.1 * n), c (p + 2 * w.2) / r2), (2 * (w.1.1 + w.1.2 * n), c (p + 2 * w.2) / r2),
      (2 * (w.1.2 + w.1.1 * n) + 1, c (p + 2 * w.2 + 1) / r2), (2 * (w.1.1 + w.1.2 * n) + 1, -c (p + 2 * w.2 + 1) / r2)]) ++
    (rest n p).zipIdx.flatMap (fun w => [(2 * (w.1.2 + w.1.1 * n), c (p + 2 * (pairs p).length + 2 * w.2)),
      (2 * (w.1.2 + w.1.1 * n) + 1, c (p + 2 * (pairs p).length + 2 * w.2 + 1))])

/-- `ObtainExtrEUC`, CSymFixedRankQ.cpp:507-579; `junk` is the content of the memory obtained. -/
noncomputable def extrE {n p : Nat} (junk : Nat → ℝ) (h : Hou n p) (c : List ℝ) : Matrix (Fin n) (Fin p) ℂ := backOf h (lowL h.R) (writeAll junk (writesE n p (buf c)))

/-- `ObtainExtrHGZ`, CSymFixedRankQ.cpp:655-728. -/
noncomputable def extrH {n p : Nat} (junk : Nat → ℝ) (h : Hou n p) (c : List ℝ) : Matrix (Fin n) (Fin p) ℂ := backOf h (lowL h.R) (writeAll junk (writesH n p (buf c)))

/-- `VectorTransport` for CSFRANKQPARALLELIZATION, CSymFixedRankQ.cpp:186-191 and Manifold.cpp (the coordinates are copied), as a map of extrinsic vectors. -/
noncomputable def transE {n p : Nat} (junk : Nat → ℝ) (hx hy : Hou n p) (ξ : Matrix (Fin n) (Fin p) ℂ) : Matrix (Fin n) (Fin p) ℂ := extrE junk hy (intrE hx ξ)

/-- The same for CSFRANKQHGZ. -/
noncomputable def transH {n p : Nat} (junk : Nat → ℝ) (hx hy : Hou n p) (ξ : Matrix (Fin n) (Fin p) ℂ) : Matrix (Fin n) (Fin p) ℂ := extrH junk hy (intrH hx ξ)

/-- `VectorTransportProj`, intrinsic branch, CSymFixedRankQ.cpp:733-737, for CSFRANKQEUC: no projection. -/
noncomputable def transProjE {n p : Nat} (junk : Nat → ℝ) (hx hy : Hou n p) (c : List ℝ) : List ℝ := intrE hy (extrE junk hx c)

/-- The same for CSFRANKQHGZ. -/
noncomputable def transProjH {n p : Nat} (junk : Nat → ℝ) (hx hy : Hou n p) (c : List ℝ) : List ℝ := intrH hy (extrH junk hx c)

/-- `VectorTransportProj`, extrinsic branch, CSymFixedRankQ.cpp:739. -/
noncomputable def transProj {n p : Nat} (y ξ : Matrix (Fin n) (Fin p) ℂ) : Matrix (Fin n) (Fin p) ℂ := SymFR.proj y ξ

/-! ### Two factors -/

/-- The loops of `ObtainIntr`, CFixedRankQ2F.cpp:196-229. -/
noncomputable def intrLoops2 (m n r : Nat) (tG tH : Nat → ℂ) : List ℝ :=
  (square r).flatMap (fun q => [(tG (q.2 + q.1 * m)).re + (tH (q.1 + q.2 * n)).re, (tG (q.2 + q.1 * m)).im - (tH (q.1 + q.2 * n)).im]) ++
    (rest m r).flatMap (fun q => [(tG (q.2 + q.1 * m)).re, (tG (q.2 + q.1 * m)).im]) ++
    (rest n r).flatMap (fun q => [(tH (q.2 + q.1 * n)).re, (tH (q.2 + q.1 * n)).im])

/-- `CFixedRankQ2F::ObtainIntr`, CFixedRankQ2F.cpp:108-230. -/
noncomputable def intr2 {m n r : Nat} (hG : Hou m r) (hH : Hou n r) (η : Pair ℂ (Fin m) (Fin n) (Fin r)) : List ℝ :=
  intrLoops2 m n r (flat (blkOf hG (lowL hH.R) η.G)) (flat (blkOf hH (lowL hG.R) η.H))

/-- The writes to the buffer of `etaxG`, CFixedRankQ2F.cpp:252-271. -/
noncomputable def writesG (m r : Nat) (c : Nat → ℝ) : List (Nat × ℝ) :=
  (square r).zipIdx.flatMap (fun w => [(2 * (w.1.2 + w.1.1 * m), c (2 * w.2) / 2), (2 * (w.1.2 + w.1.1 * m) + 1, c (2 * w.2 + 1) / 2)]) ++
    (rest m r).zipIdx.flatMap (fun w => [(2 * (w.1.2 + w.1.1 * m), c (2 * (square r).length + 2 * w.2)), (2 * (w.1.2 + w.1.1 * m) + 1, c (2 * (square r).length + 2 * w.2 + 1))])

/-- The writes to the buffer of `etaxH`, CFixedRankQ2F.cpp:252-281. -/
noncomputable def writesH2 (m n r : Nat) (c : Nat → ℝ) : List (Nat × ℝ) :=
  (square r).zipIdx.flatMap (fun w => [(2 * (w.1.1 + w.1.2 * n), c (2 * w.2) / 2), (2 * (w.1.1 + w.1.2 * n) + 1, -(c (2 * w.2 + 1) / 2))]) ++
    (rest n r).zipIdx.flatMap (fun w => [(2 * (w.1.2 + w.1.1 * n), c (2 * (square r).length + 2 * (rest m r).length + 2 * w.2)),
      (2 * (w.1.2 + w.1.1 * n) + 1, c (2 * (square r).length + 2 * (rest m r).length + 2 * w.2 + 1))])

/-- `CFixedRankQ2F::ObtainExtr`, CFixedRankQ2F.cpp:232-349; `jG`, `jH` are the contents of the memory obtained. -/
noncomputable def extr2 {m n r : Nat} (jG jH : Nat → ℝ) (hG : Hou m r) (hH : Hou n r) (c : List ℝ) : Pair ℂ (Fin m) (Fin n) (Fin r) :=
  ⟨backOf hG (lowL hH.R) (writeAll jG (writesG m r (buf c))), backOf hH (lowL hG.R) (writeAll jH (writesH2 m n r (buf c)))⟩

/-- `CFixedRankQ2F::VectorTransport`, extrinsic branch, CFixedRankQ2F.cpp:358-371. -/
noncomputable def trans2 {m n r : Nat} (jG jH : Nat → ℝ) (xG : Hou m r) (xH : Hou n r) (yG : Hou m r) (yH : Hou n r) (ξ : Pair ℂ (Fin m) (Fin n) (Fin r)) : Pair ℂ (Fin m) (Fin n) (Fin r) :=
  extr2 jG jH yG yH (intr2 xG xH ξ)

/-- `CFixedRankQ2F::InverseVectorTransport`, extrinsic branch, CFixedRankQ2F.cpp:373-386: both conversions use `x`. -/
noncomputable def invTrans2 {m n r : Nat} (jG jH : Nat → ℝ) (xG : Hou m r) (xH : Hou n r) (_yG : Hou m r) (_yH : Hou n r) (ξ : Pair ℂ (Fin m) (Fin n) (Fin r)) :
    Pair ℂ (Fin m) (Fin n) (Fin r) := extr2 jG jH xG xH (intr2 xG xH ξ)

end Verif.CFixed
