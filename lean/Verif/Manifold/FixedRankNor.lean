import Verif.Elem.Decomp

/-!
# Normal vectors of the fixed-rank manifold

Model of `FixedRankE::ObtainNorVerIntr` and `ObtainNorVerExtr` (Manifolds/FixedRankE.cpp:116-165). The factors `U` and `V` of a point are elements that may carry the fields `_HHR` and `_tau`
(`Verif.Decomp.Elt`); `L` are the LAPACK routines. Buffers are functions from flat indices, new memory (`junk`) is arbitrary. `none`: a field that is read does not exist (a failed assert in
`Element::Field`, Element.cpp:2806-2811) or the sizes do not fit.
-/

open Matrix Verif.Elem

namespace Verif.FixedRankNor

open Verif.Decomp

/-- The fields `U` and `V` of a point. -/
structure Pt where
  U : Elt ℝ
  V : Elt ℝ

/-- The loops of lines 124-130: the lower right block of `M`. -/
def block (m n r : Nat) (junk : Nat → ℝ) (M : Nat → ℝ) : Nat → ℝ :=
  writeAll junk (forN (n - r) fun i => forN (m - r) fun j => [(j + i * (m - r), M (j + r + (i + r) * m))])

/-- The loops of lines 138-147. -/
def pad (m n r : Nat) (junk : Nat → ℝ) (K : Nat → ℝ) : Nat → ℝ :=
  writeAll junk (forN n fun i => forN m fun j => [(j + i * m, if i < r ∨ j < r then 0 else K (j - r + (i - r) * (m - r)))])

/-- A matrix as a buffer. -/
def flat {m n : Nat} (M : Matrix (Fin m) (Fin n) ℝ) : Nat → ℝ := fun p =>
  if h : p % m < m ∧ p / m < n then M ⟨p % m, h.1⟩ ⟨p / m, h.2⟩ else 0

/-- `ObtainNorVerIntr`, lines 116-132. -/
noncomputable def norIntr (m n r : Nat) (junk : Nat → ℝ) (x : Pt) (E : Matrix (Fin m) (Fin n) ℝ) : Option (Nat → ℝ) :=
  match x.U.house with
  | none => none
  | some FU =>
    match hhrMtp false x.U.m x.U.n FU .L .T m n E with
    | none => none
    | some M =>
      match x.V.house with
      | none => none
      | some FV =>
        match hhrMtp false x.V.m x.V.n FV .R .N m n M with
        | none => none
        | some M => some (block m n r junk (flat M))

/-- `ObtainNorVerExtr`, lines 134-165, with the point as it is afterwards. -/
noncomputable def norExtr (L : Lapack ℝ) (m n r : Nat) (junk : Nat → ℝ) (x : Pt) (K : Nat → ℝ) : Option (Matrix (Fin m) (Fin n) ℝ × Pt) :=
  let x : Pt := ⟨hhrDecom L x.U, hhrDecom L x.V⟩
  match x.U.house, x.V.house with
  | some FU, some FV =>
    match hhrMtp false x.U.m x.U.n FU .L .N m n (view m n m (pad m n r junk K)) with
    | none => none
    | some M =>
      match hhrMtp false x.V.m x.V.n FV .R .T m n M with
      | none => none
      | some M => some (M, x)
  | _, _ => none

end Verif.FixedRankNor
