import Mathlib.Data.Int.Basic
import Mathlib.Tactic.Ring

/-!
# Dimensions set by the constructors of the manifolds

`integer` is modelled by `ℤ` without overflow; all divisions in these expressions are exact.
-/

namespace Verif.Dims

/-- What a constructor sets: `IntrinsicDim` (returned by `GetIntrDim`, Manifold.h:59), `ExtrinsicDim` (`GetExtrDim`) and the number of real entries of `EMPTYINTR`. -/
structure Dims where
  intr : ℤ
  extr : ℤ
  len : ℤ

/-- `Stiefel::Stiefel`, Stiefel.cpp:18-22. -/
def stiefel (n p : ℤ) : Dims := ⟨n * p - p * (p + 1) / 2, n * p, n * p - p * (p + 1) / 2⟩

/-- `CStiefel::CStiefel`, CStiefel.cpp:18-22. -/
def cstiefel (n p : ℤ) : Dims := ⟨2 * n * p - p * p, 2 * n * p, 2 * n * p - p * p⟩

/-- `Grassmann::Grassmann`, Grassmann.cpp:15-19. -/
def grassmann (n p : ℤ) : Dims := ⟨(n - p) * p, n * p, (n - p) * p⟩

/-- `SPDManifold::SPDManifold`, SPDManifold.cpp:13-19. -/
def spd (n : ℤ) : Dims := ⟨n * (n + 1) / 2, n * n, n * (n + 1) / 2⟩

/-- `FixedRankE::FixedRankE`, FixedRankE.cpp:14-21. -/
def fixedRankE (m n r : ℤ) : Dims := ⟨(m - r) * r + r * r + (n - r) * r, n * m, (m - r) * r + r * r + (n - r) * r⟩

/-- `SymFixedRankQ::SymFixedRankQ`, SymFixedRankQ.cpp:14-19. -/
def symFixedRankQ (r c : ℤ) : Dims := ⟨r * c - c * (c - 1) / 2, r * c, r * c - c * (c - 1) / 2⟩

/-- `CSymFixedRankQ::CSymFixedRankQ`, CSymFixedRankQ.cpp:14-19. -/
def csymFixedRankQ (r c : ℤ) : Dims := ⟨2 * r * c - c * c, 2 * r * c, 2 * r * c - c * c⟩

/-- `Euclidean::Euclidean`, Euclidean.cpp:7-88, real and complex. -/
def euclidean (r c n : ℤ) : Bool → Dims
  | false => ⟨n * r * c, n * r * c, n * r * c⟩
  | true => ⟨2 * n * r * c, 2 * n * r * c, 2 * n * r * c⟩

/-- The loop of `MultiManifolds::MultiManifolds`, MultiManifolds.cpp:23-30 (and 74-81): factors with their powers. The length is that of `EMPTYINTR` (lines 38-50) when every factor uses
intrinsic vectors. -/
def multi : List (ℤ × Dims) → Dims :=
  List.foldl (fun a q => ⟨a.intr + q.1 * q.2.intr, a.extr + q.1 * q.2.extr, a.len + q.1 * q.2.len⟩) ⟨0, 0, 0⟩

/-- `FixedRankQ2F::FixedRankQ2F`, FixedRankQ2F.cpp:6-19: the constructor of the product of two Euclidean spaces, then only `EMPTYINTR` is replaced. -/
def fixedRankQ2F (m n r : ℤ) : Dims := { multi [(1, euclidean m r 1 false), (1, euclidean n r 1 false)] with len := (m + n - r) * r }

/-- `CFixedRankQ2F::CFixedRankQ2F`, CFixedRankQ2F.cpp:6-22. -/
def cfixedRankQ2F (m n r : ℤ) : Dims := ⟨2 * (m + n - r) * r, 2 * (m + n) * r, 2 * (m + n - r) * r⟩

end Verif.Dims
