import Verif.Elem.Layout

/-!
# Transposition and blocks of arrays with several slices

`Element(r, l, n)` (`Manifolds/Element.cpp:2313-2330`) has three dimensions; `GetTranspose` and `SubmatrixAssignment` (`Element.cpp:2232-2289`) accept such arrays: no
assertion looks at `size[2]`. Their loops are those of `Verif.Elem.Layout`.
-/

namespace Verif.Elem

variable {V : Type}

/-- An array of `num` slices; the buffer of `mat` continues after the first slice. -/
structure Arr3 (V : Type) where
  mat : Mat V
  num : Nat

/-- `Getlength()`. -/
def Arr3.length (x : Arr3 V) : Nat := x.mat.s0 * x.mat.s1 * x.num

/-- Entry in row `i`, column `j` of slice `k` (real arrays). -/
def Arr3.entry (x : Arr3 V) (i j k : Nat) : V := x.mat.get (i + j * x.mat.s0 + k * (x.mat.s0 * x.mat.s1))

/-- `GetTranspose`, real branch (`Element.cpp:2265-2273`): `Element result(size[1], size[0])` has one slice, and the loops run over the first slice. -/
def transpose3 (junk : Nat → V) (x : Arr3 V) : Arr3 V := ⟨transpose junk x.mat, 1⟩

/-- `GetTranspose`, complex branch (`Element.cpp:2275-2289`): `Element result(n, m, 1, "complex")`. -/
def transpose3C [Neg V] (junk : Nat → V) (x : Arr3 V) : Arr3 V := ⟨transposeC junk x.mat, 1⟩

/-- `SubmatrixAssignment`, real branch (`Element.cpp:2232-2249`): the dimensions of the receiver stay. -/
def assign3 (junk : Nat → V) (shared : Bool) (x : Arr3 V) (mat : Mat V) (rs re cs ce : Nat) : Arr3 V :=
  ⟨assignBlock junk shared x.mat mat rs re cs ce, x.num⟩

end Verif.Elem
