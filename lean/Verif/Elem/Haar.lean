import Verif.Elem.Array
import Mathlib.Algebra.Field.Basic

/-!
# The Haar wavelet transform of a complex matrix

Model of `Element::GetHaarFWT` and `Element::GetInvHaarFWT` (`Manifolds/Element.cpp:2004-2156`). The buffer of an `n1 x n2` complex matrix is a function from
flat indices to pairs (real part, imaginary part). `r2` stands for the computed `sqrt(2.0)`; arithmetic is exact. Every `while` loop gets a bound on its number
of passes that is never reached (`topLoop_spec`, `C12` theorems hold for the bounds used here).
-/

namespace Verif.Elem

variable {K : Type} [Field K]

/-- A complex number. -/
abbrev Cplx (K : Type) := K × K

/-- `((a.r + b.r) / r2, (a.i + b.i) / r2)`. -/
def avg (r2 : K) (a b : Cplx K) : Cplx K := ((a.1 + b.1) / r2, (a.2 + b.2) / r2)

/-- `((a.r - b.r) / r2, (a.i - b.i) / r2)`. -/
def dif (r2 : K) (a b : Cplx K) : Cplx K := ((a.1 - b.1) / r2, (a.2 - b.2) / r2)

/-- `k = 1; while (k * 2 <= n) k = k * 2;` (`Element.cpp:2024-2028`, `2051-2055`). -/
def topLoop (n : Nat) : Nat → Nat → Nat
  | 0, k => k
  | f + 1, k => if k * 2 ≤ n then topLoop n f (k * 2) else k

/-- Both work arrays. -/
structure Work (K : Type) where
  vv : Nat → Cplx K
  tmp : Nat → Cplx K

/-- One pass over the first dimension of the forward transform (`Element.cpp:2033-2050`). -/
def fwdRows (r2 : K) (n1 n2 k : Nat) (s : Work K) : Work K :=
  let tmp := writeAll s.tmp (forN n2 fun j => forN k fun i =>
    [(i + j * n1, avg r2 (s.vv (2 * i + j * n1)) (s.vv (2 * i + 1 + j * n1))),
     (k + i + j * n1, dif r2 (s.vv (2 * i + j * n1)) (s.vv (2 * i + 1 + j * n1)))])
  ⟨writeAll s.vv (forN n2 fun j => forN (2 * k) fun i => [(i + j * n1, tmp (i + j * n1))]), tmp⟩

/-- `while (1 < k) { k = k / 2; ... }` over the first dimension (`Element.cpp:2029-2050`). -/
def fwdRowsLoop (r2 : K) (n1 n2 : Nat) : Nat → Nat → Work K → Work K
  | 0, _, s => s
  | f + 1, k, s => if 1 < k then fwdRowsLoop r2 n1 n2 f (k / 2) (fwdRows r2 n1 n2 (k / 2) s) else s

/-- One pass over the second dimension of the forward transform (`Element.cpp:2060-2078`). -/
def fwdCols (r2 : K) (n1 k : Nat) (s : Work K) : Work K :=
  let tmp := writeAll s.tmp (forN k fun j => forN n1 fun i =>
    [(i + j * n1, avg r2 (s.vv (i + 2 * j * n1)) (s.vv (i + (2 * j + 1) * n1))),
     (i + (k + j) * n1, dif r2 (s.vv (i + 2 * j * n1)) (s.vv (i + (2 * j + 1) * n1)))])
  ⟨writeAll s.vv (forN (2 * k) fun j => forN n1 fun i => [(i + j * n1, tmp (i + j * n1))]), tmp⟩

/-- `while (1 < k) { k = k / 2; ... }` over the second dimension (`Element.cpp:2056-2078`). -/
def fwdColsLoop (r2 : K) (n1 : Nat) : Nat → Nat → Work K → Work K
  | 0, _, s => s
  | f + 1, k, s => if 1 < k then fwdColsLoop r2 n1 f (k / 2) (fwdCols r2 n1 (k / 2) s) else s

/-- `GetHaarFWT` (`Element.cpp:2004-2082`); `tmp` starts as a copy of the data. -/
def haar (r2 : K) (n1 n2 : Nat) (v : Nat → Cplx K) : Nat → Cplx K :=
  let s := fwdRowsLoop r2 n1 n2 n1 (topLoop n1 n1 1) ⟨v, v⟩
  (fwdColsLoop r2 n1 n2 (topLoop n2 n2 1) s).vv

/-- One pass over the second dimension of the inverse transform (`Element.cpp:2108-2127`). -/
def invCols (r2 : K) (n1 k : Nat) (s : Work K) : Work K :=
  let tmp := writeAll s.tmp (forN k fun j => forN n1 fun i =>
    [(i + (2 * j) * n1, avg r2 (s.vv (i + j * n1)) (s.vv (i + (k + j) * n1))),
     (i + (2 * j + 1) * n1, dif r2 (s.vv (i + j * n1)) (s.vv (i + (k + j) * n1)))])
  ⟨writeAll s.vv (forN (2 * k) fun j => forN n1 fun i => [(i + j * n1, tmp (i + j * n1))]), tmp⟩

/-- `while (k * 2 <= n2) { ...; k = k * 2; }` (`Element.cpp:2106-2129`). -/
def invColsLoop (r2 : K) (n1 n2 : Nat) : Nat → Nat → Work K → Work K
  | 0, _, s => s
  | f + 1, k, s => if k * 2 ≤ n2 then invColsLoop r2 n1 n2 f (k * 2) (invCols r2 n1 k s) else s

/-- One pass over the first dimension of the inverse transform (`Element.cpp:2134-2151`). -/
def invRows (r2 : K) (n1 n2 k : Nat) (s : Work K) : Work K :=
  let tmp := writeAll s.tmp (forN n2 fun j => forN k fun i =>
    [(2 * i + j * n1, avg r2 (s.vv (i + j * n1)) (s.vv (k + i + j * n1))),
     (2 * i + 1 + j * n1, dif r2 (s.vv (i + j * n1)) (s.vv (k + i + j * n1)))])
  ⟨writeAll s.vv (forN n2 fun j => forN (2 * k) fun i => [(i + j * n1, tmp (i + j * n1))]), tmp⟩

/-- `while (k * 2 <= n1) { ...; k = k * 2; }` (`Element.cpp:2131-2153`). -/
def invRowsLoop (r2 : K) (n1 n2 : Nat) : Nat → Nat → Work K → Work K
  | 0, _, s => s
  | f + 1, k, s => if k * 2 ≤ n1 then invRowsLoop r2 n1 n2 f (k * 2) (invRows r2 n1 n2 k s) else s

/-- `GetInvHaarFWT` (`Element.cpp:2084-2156`). -/
def invHaar (r2 : K) (n1 n2 : Nat) (v : Nat → Cplx K) : Nat → Cplx K :=
  (invRowsLoop r2 n1 n2 n1 1 (invColsLoop r2 n1 n2 n2 1 ⟨v, v⟩)).vv

end Verif.Elem
