import Verif.Elem.Layout

/-!
# Where the pivots of an LU decomposition are stored

`LUdecom` (`Manifolds/Element.cpp:772-808`) has no integer array: it makes an `Element P(k)` of `k` numbers of type `realdp`, casts its memory to `integer *` and lets `getrf`
write `k` pivots there; `operator/` and `operator%` (lines 405, 426, 456, 476) cast it back. Memory is modelled byte by byte.
-/

namespace Verif.Elem

/-- The choice in `Others/def.h:13`. -/
inductive Precision | single | double
  deriving DecidableEq

/-- The ways the library is built: as a MATLAB mex file, on 64-bit Windows, elsewhere. -/
inductive Platform | mex | win64 | other
  deriving DecidableEq

/-- `sizeof(realdp)`, `Others/def.h:29-35`. -/
def sizeReal : Precision → Nat
  | .single => 4
  | .double => 8

/-- `sizeof(integer)`: `ptrdiff_t` in a mex file (`Others/BlasLapackCppWrapper.h:14-20`, eight bytes on the 64-bit systems MATLAB runs on); otherwise `cwrapper/lapack/f2c.h:10-16`:
`int`, or `long int` for double precision on 64-bit Windows, where it has four bytes. -/
def sizeInt : Platform → Nat
  | .mex => 8
  | .win64 => 4
  | .other => 4

/-- The bytes that `getrf` writes: pivot `i` at `Pptr + i`; `byte v j` is the byte `j` of the integer `v`. -/
def pivotWrites {B : Type} (byte : Int → Nat → B) (si k : Nat) (piv : Nat → Int) : List (Nat × B) :=
  forN k fun i => forN si fun j => [(j + i * si, byte (piv i) j)]

open scoped Classical in
/-- The memory of the field `_P` after `LUdecom`; `none`: bytes outside of it are written (undefined behaviour). -/
noncomputable def storePivots {B : Type} (byte : Int → Nat → B) (junk : Nat → B) (p : Precision) (pl : Platform) (k : Nat) (piv : Nat → Int) : Option (Nat → B) :=
  if ∀ w ∈ pivotWrites byte (sizeInt pl) k piv, w.1 < k * sizeReal p then some (writeAll junk (pivotWrites byte (sizeInt pl) k piv)) else none

end Verif.Elem
