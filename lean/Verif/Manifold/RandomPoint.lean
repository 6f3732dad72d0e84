import Verif.Others.Random
import Verif.Elem.Decomp

/-!
# Random points

Model of the functions `RandominManifold` of the manifolds. Random numbers come from the sequence of `Verif.Random`; every function returns the point and the next position, `none` if a loop of
`genrandnormal` has not ended. Entries are exact; LAPACK routines are parameters (`Verif.Decomp`).
-/

open Matrix

namespace Verif.RandomPoint

open Verif.Random Verif.Decomp Verif.Dense

/-- The memory of a new element of `len` numbers after `RandGaussian()`, SmartSpace.cpp:72-77 with the default arguments of SmartSpace.h:46. -/
noncomputable def fill (u : Nat → ℝ) (f len : Nat) (pos : Nat) : Option ((Nat → ℝ) × Nat) :=
  (randGaussian u f 0 1 len pos).map fun r => (fun k => r.1.getD k 0, r.2)

/-- `Stiefel::RandominManifold`, Stiefel.cpp:103-109, and `Grassmann::RandominManifold`, Grassmann.cpp:26-32: the field `_Q`. -/
noncomputable def stiefel (L : Lapack ℝ) (jq jr : Nat → ℝ) (n p : Nat) (u : Nat → ℝ) (f pos : Nat) : Option (Matrix (Fin n) (Fin (min n p)) ℝ × Nat) :=
  match fill u f (n * p) pos with
  | none => none
  | some (a, pos) => (qrDecom L jq jr (Elt.new n p a)).qr.map fun q => (view n (min n p) n q.1, pos)

/-- `CStiefel::RandominManifold`, CStiefel.cpp:94-100: two numbers for each entry. -/
noncomputable def cstiefel (L : Lapack ℂ) (jq jr : Nat → ℂ) (n p : Nat) (u : Nat → ℝ) (f pos : Nat) : Option (Matrix (Fin n) (Fin (min n p)) ℂ × Nat) :=
  match fill u f (2 * (n * p)) pos with
  | none => none
  | some (a, pos) => (qrDecom L jq jr (Elt.new n p (cx a))).qr.map fun q => (view n (min n p) n q.1, pos)

/-- `SPDManifold::RandominManifold`, SPDManifold.cpp:73-77. -/
noncomputable def spd (n : Nat) (u : Nat → ℝ) (f pos : Nat) : Option (Matrix (Fin n) (Fin n) ℝ × Nat) :=
  match fill u f (n * n) pos with
  | none => none
  | some (a, pos) => some (view n n n a * (view n n n a)ᵀ, pos)

/-- `GetOrth`, Element.cpp:1927-1934: the product of the fields `_U` and `_Vt`. -/
noncomputable def getOrth (L : Lapack ℝ) (m n : Nat) (a : Nat → ℝ) : Option (Matrix (Fin m) (Fin n) ℝ) :=
  (svdDecom L false (Elt.new m n a)).svd.map fun s => view m (min m n) m s.1 * view (min m n) n (min m n) s.2.2

/-- A point of the fixed-rank manifold with its fields. -/
structure FR (m n r : Nat) where
  x : Matrix (Fin m) (Fin n) ℝ
  U : Matrix (Fin m) (Fin r) ℝ
  D : Matrix (Fin r) (Fin r) ℝ
  V : Matrix (Fin n) (Fin r) ℝ

/-- `FixedRankE::RandominManifold`, FixedRankE.cpp:38-55. -/
noncomputable def fixedRankE (L : Lapack ℝ) (m n r : Nat) (u : Nat → ℝ) (f pos : Nat) : Option (FR m n r × Nat) :=
  match fill u f (m * r) pos with
  | none => none
  | some (a, pos) =>
    match getOrth L m r a, fill u f (n * r) pos with
    | some U, some (b, pos) =>
      match getOrth L n r b, fill u f (r * r) pos with
      | some V, some (d, pos) => some (⟨U * view r r r d * Vᵀ, U, view r r r d, V⟩, pos)
      | _, _ => none
    | _, _ => none

/-- `SymFixedRankQ::RandominManifold`, SymFixedRankQ.cpp:99-103. `Euclidean::RandominManifold`, Euclidean.cpp:112-117, is the same for a real matrix. -/
noncomputable def symFixedRankQ (n p : Nat) (u : Nat → ℝ) (f pos : Nat) : Option (Matrix (Fin n) (Fin p) ℝ × Nat) :=
  (fill u f (n * p) pos).map fun r => (view n p n r.1, r.2)

/-- `CSymFixedRankQ::RandominManifold`, CSymFixedRankQ.cpp:81-85. -/
noncomputable def csymFixedRankQ (n p : Nat) (u : Nat → ℝ) (f pos : Nat) : Option (Matrix (Fin n) (Fin p) ℂ × Nat) :=
  (fill u f (2 * (n * p)) pos).map fun r => (view n p n (cx r.1), r.2)

/-- `FixedRankQ2F::RandominManifold`, FixedRankQ2F.cpp:30-34: the two factors are adjacent in memory. -/
noncomputable def fixedRankQ2F (m n r : Nat) (u : Nat → ℝ) (f pos : Nat) : Option ((Matrix (Fin m) (Fin r) ℝ × Matrix (Fin n) (Fin r) ℝ) × Nat) :=
  (fill u f (m * r + n * r) pos).map fun a => ((view m r m a.1, view n r n fun k => a.1 (m * r + k)), a.2)

/-- `CFixedRankQ2F::RandominManifold`, CFixedRankQ2F.cpp:33-37. -/
noncomputable def cfixedRankQ2F (m n r : Nat) (u : Nat → ℝ) (f pos : Nat) : Option ((Matrix (Fin m) (Fin r) ℂ × Matrix (Fin n) (Fin r) ℂ) × Nat) :=
  (fill u f (2 * (m * r) + 2 * (n * r)) pos).map fun a => ((view m r m (cx a.1), view n r n (cx fun k => a.1 (2 * (m * r) + k))), a.2)

/-- `SphereTx::RandominManifold`, SphereTx.cpp:35-43: `proj` and `metric` are those of the underlying manifold at the root. `none` also stands for the division by zero. -/
noncomputable def sphereTx (d : Nat) (proj : (Fin d → ℝ) → (Fin d → ℝ)) (metric : (Fin d → ℝ) → (Fin d → ℝ) → ℝ) (u : Nat → ℝ) (f pos : Nat) : Option ((Fin d → ℝ) × Nat) :=
  match fill u f d pos with
  | none => none
  | some (a, pos) =>
    let y := proj fun i => a i
    let nrm := √(metric y y)
    if nrm = 0 then none else some ((1 / nrm) • y, pos)

/-- `MultiManifolds::RandominManifold`, MultiManifolds.cpp:115-127: the components one after the other. -/
noncomputable def product {X : Type} (u : Nat → ℝ) (f : Nat) : List ((Nat → ℝ) → Nat → Nat → Option (X × Nat)) → Nat → Option (List X × Nat)
  | [], pos => some ([], pos)
  | g :: gs, pos =>
    match g u f pos with
    | none => none
    | some (x, pos) => (product u f gs pos).map fun r => (x :: r.1, r.2)

end Verif.RandomPoint
