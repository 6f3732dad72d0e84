import Verif.Elem.Array

/-!
# Transposition and blocks of matrices

Model of `Manifolds/Element.cpp:2202-2289` (`GetSubmatrix`, `SubmatrixAssignment`, `GetTranspose`) for matrices (`num = 1`).

An array of dimensions `s0 x s1` is stored column by column; complex matrices store real and imaginary parts next to each other, so that `s0` is twice the
number of rows (constructors, lines 2308-2330). New memory has arbitrary contents, the parameter `junk`.
-/

namespace Verif.Elem

variable {V : Type}

/-- An array with its stored dimensions `size[0]`, `size[1]`. -/
structure Mat (V : Type) where
  s0 : Nat
  s1 : Nat
  get : Nat → V

/-- Entry of a real matrix in row `i`, column `j` (column-major storage). -/
def Mat.entry (x : Mat V) (i j : Nat) : V := x.get (i + j * x.s0)

/-- Real part of an entry of a complex matrix. -/
def Mat.re (x : Mat V) (i j : Nat) : V := x.get (2 * i + j * x.s0)

/-- Imaginary part of an entry of a complex matrix. -/
def Mat.im (x : Mat V) (i j : Nat) : V := x.get (2 * i + 1 + j * x.s0)

/-- The writes of the real branch of `GetTranspose` (`Element.cpp:2269-2271`). -/
def transposeWrites (x : Mat V) : List (Nat × V) :=
  forN x.s0 fun i => forN x.s1 fun j => [(j + i * x.s1, x.get (i + j * x.s0))]

/-- `GetTranspose`, real branch (`Element.cpp:2265-2273`). -/
def transpose (junk : Nat → V) (x : Mat V) : Mat V := ⟨x.s1, x.s0, writeAll junk (transposeWrites x)⟩

/-- The writes of the complex branch of `GetTranspose` (`Element.cpp:2279-2286`); `m = size[0] / 2`, `n = size[1]`. -/
def transposeCWrites [Neg V] (x : Mat V) : List (Nat × V) :=
  forN x.s1 fun i => forN (x.s0 / 2) fun j =>
    [(2 * i + 2 * j * x.s1, x.get (2 * j + i * 2 * (x.s0 / 2))),
     (2 * i + 1 + 2 * j * x.s1, - x.get (2 * j + 1 + i * 2 * (x.s0 / 2)))]

/-- `GetTranspose`, complex branch (`Element.cpp:2275-2289`); `Element result(n, m, 1, "complex")` has stored dimensions `2n x m`. -/
def transposeC [Neg V] (junk : Nat → V) (x : Mat V) : Mat V := ⟨x.s1 * 2, x.s0 / 2, writeAll junk (transposeCWrites x)⟩

/-- `GetSubmatrix`, real branch (`Element.cpp:2205-2217`). -/
def submatrixWrites (x : Mat V) (rs re cs ce : Nat) : List (Nat × V) :=
  forRange cs ce fun j => forRange rs re fun i => [((i - rs) + (j - cs) * (re + 1 - rs), x.get (i + j * x.s0))]

/-- `GetSubmatrix`, real branch. -/
def submatrix (junk : Nat → V) (x : Mat V) (rs re cs ce : Nat) : Mat V :=
  ⟨re + 1 - rs, ce + 1 - cs, writeAll junk (submatrixWrites x rs re cs ce)⟩

/-- `GetSubmatrix`, complex branch (`Element.cpp:2219-2229`). -/
def submatrixCWrites (x : Mat V) (rs re cs ce : Nat) : List (Nat × V) :=
  forRange cs ce fun j => forRange rs re fun i =>
    [(2 * (i - rs) + (j - cs) * (re + 1 - rs) * 2, x.get (2 * i + j * x.s0)),
     (2 * (i - rs) + 1 + (j - cs) * (re + 1 - rs) * 2, x.get (2 * i + 1 + j * x.s0))]

/-- `GetSubmatrix`, complex branch. -/
def submatrixC (junk : Nat → V) (x : Mat V) (rs re cs ce : Nat) : Mat V :=
  ⟨(re + 1 - rs) * 2, ce + 1 - cs, writeAll junk (submatrixCWrites x rs re cs ce)⟩

/-- `SubmatrixAssignment`, real branch (`Element.cpp:2239-2249`); `matrow = mat.Getrow()`. -/
def assignWrites (x mat : Mat V) (rs re cs ce : Nat) : List (Nat × V) :=
  forRange cs ce fun j => forRange rs re fun i => [(i + j * x.s0, mat.get (i - rs + (j - cs) * mat.s0))]

/-- `SubmatrixAssignment` (`Element.cpp:2232-2260`). `NewMemoryOnWrite` keeps the memory of an unshared object and gives a shared one fresh memory with
arbitrary contents. -/
def assignBlock (junk : Nat → V) (shared : Bool) (x mat : Mat V) (rs re cs ce : Nat) : Mat V :=
  ⟨x.s0, x.s1, writeAll (if shared then junk else x.get) (assignWrites x mat rs re cs ce)⟩

/-- `SubmatrixAssignment`, complex branch (`Element.cpp:2251-2258`); `matrow = mat.Getrow() = size[0] / 2`. -/
def assignCWrites (x mat : Mat V) (rs re cs ce : Nat) : List (Nat × V) :=
  forRange cs ce fun j => forRange rs re fun i =>
    [(2 * i + j * x.s0, mat.get (2 * (i - rs) + (j - cs) * (mat.s0 / 2) * 2)),
     (2 * i + 1 + j * x.s0, mat.get (2 * (i - rs) + 1 + (j - cs) * (mat.s0 / 2) * 2))]

/-- `SubmatrixAssignment`, complex branch. -/
def assignBlockC (junk : Nat → V) (shared : Bool) (x mat : Mat V) (rs re cs ce : Nat) : Mat V :=
  ⟨x.s0, x.s1, writeAll (if shared then junk else x.get) (assignCWrites x mat rs re cs ce)⟩

end Verif.Elem
