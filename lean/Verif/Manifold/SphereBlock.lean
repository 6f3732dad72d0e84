import Verif.Elem.Array
import Mathlib.Algebra.Field.Defs
import Mathlib.Algebra.BigOperators.Intervals
import Mathlib.Data.Finset.Range

/-!
# Transporting one block of an operator (sphere as a factor of a product manifold)

`Manifolds/Sphere.cpp:123-172`, `ExpHInvTran` and `ExpTranH`, at the level of the arrays handed to the BLAS. The operator is `ell × ell`, column major; the
factor occupies the indices `start … start + length − 1`. Reads and writes are checked against the lengths of the buffers; an access outside gives `none`
(undefined behaviour). The scalar `-2 / |x+y|²` is a parameter `s`. `*result = Hx` makes a copy, so `result` does not alias `Hx`.
-/

namespace Verif.SphereBlock

open Verif.Elem

variable {K : Type} [Field K]

/-- A buffer: its length and its entries. -/
structure Buf (K : Type) where
  len : Nat
  at_ : Nat → K

/-- BLAS `ger`: `A(i,j) += alpha u_i v_j` for `i < m`, `j < n`, `A` starting at `off` with leading dimension `lda`; all reads and writes must be in bounds.
The entries written are distinct when `m ≤ lda`, so a sequence of independent writes. -/
def ger (m n : Nat) (alpha : K) (u v : Buf K) (A : Buf K) (off lda : Nat) : Option (Buf K) :=
  if (m ≤ u.len ∨ n = 0) ∧ (n ≤ v.len ∨ m = 0) ∧ (m = 0 ∨ n = 0 ∨ off + (m - 1) + (n - 1) * lda < A.len) then
    some ⟨A.len, writeAll A.at_ (forN n fun j => forN m fun i => [(off + i + j * lda, A.at_ (off + i + j * lda) + alpha * u.at_ i * v.at_ j)])⟩
  else none

/-- BLAS `gemv('N', m, n, 1, A + off, lda, v, 0, out)`. -/
def gemvN (m n : Nat) (A : Buf K) (off lda : Nat) (v : Buf K) : Option (Buf K) :=
  if (n ≤ v.len ∨ m = 0) ∧ (m = 0 ∨ n = 0 ∨ off + (m - 1) + (n - 1) * lda < A.len) then
    some ⟨m, fun i => ∑ j ∈ Finset.range n, A.at_ (off + i + j * lda) * v.at_ j⟩
  else none

/-- BLAS `gemv('T', m, n, 1, A + off, lda, v, 0, out)`. -/
def gemvT (m n : Nat) (A : Buf K) (off lda : Nat) (v : Buf K) : Option (Buf K) :=
  if (m ≤ v.len ∨ n = 0) ∧ (m = 0 ∨ n = 0 ∨ off + (m - 1) + (n - 1) * lda < A.len) then
    some ⟨n, fun j => ∑ i ∈ Finset.range m, A.at_ (off + i + j * lda) * v.at_ i⟩
  else none

/-- `Sphere::ExpHInvTran`, Sphere.cpp:123-147. `H` has `ell*ell` entries, `x` and `xpy = x + y` have `length = etax.Getlength()` entries. Note the first two
arguments of `ger_`: `length` rows, `ell` columns. -/
def expHInvTran (ell length start : Nat) (s : K) (H x xpy : Buf K) : Option (Buf K) :=
  (gemvN ell length H (start * ell) ell xpy).bind fun hxpy => ger length ell s hxpy x H (start * ell) ell

/-- `Sphere::ExpTranH`, Sphere.cpp:149-172. -/
def expTranH (ell length start : Nat) (s : K) (H y xpy : Buf K) : Option (Buf K) :=
  (gemvT length ell H start ell y).bind fun hty => ger length ell s xpy hty H start ell

end Verif.SphereBlock
