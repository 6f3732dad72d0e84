import Verif.Elem.Array
import Mathlib.Analysis.Complex.Basic
import Mathlib.Analysis.Real.Sqrt

/-!
# Haar wavelet transforms

`Element::GetHaarFWT`, `Element::GetInvHaarFWT` (Element.cpp:2004-2163), the routines `haarFWT_1d`, `haarFWT_1d_inverse`, `haarFWT_2d`, `haarFWT_2d_inverse` (Others/wavelet/wavelet.cpp).

A complex number of the code (two reals, treated alike) is one entry of an array. Arithmetic is exact. Memory beyond the array is modelled (the functions on `Nat`), so that accesses out of bounds
would be visible.
-/

namespace Verif.Wavelet

open Verif.Elem

/-- `realdp r2 = sqrt(2.0)`, Element.cpp:2012. -/
noncomputable def r2 : ℂ := ((√2 : ℝ) : ℂ)

/-- `while (k * 2 <= n) k = k * 2`, Element.cpp:2023-2026; the first argument bounds the number of passes. -/
def dbl (n : Nat) : Nat → Nat → Nat
  | 0, k => k
  | f + 1, k => if k * 2 ≤ n then dbl n f (k * 2) else k

/-- The two arrays of the functions: the data and the work space. -/
structure St where
  vv : Nat → ℂ
  tmp : Nat → ℂ

/-- One pass of `haarFWT_1d` with `j` already halved, wavelet.cpp:19-30. -/
noncomputable def step1 (j : Nat) (s : St) : St :=
  let t := writeAll s.tmp (forN j fun i => [(i, (s.vv (2 * i) + s.vv (2 * i + 1)) / r2), (i + j, (s.vv (2 * i) - s.vv (2 * i + 1)) / r2)])
  ⟨writeAll s.vv (forN (2 * j) fun i => [(i, t i)]), t⟩

/-- `while (1 < j)`, wavelet.cpp:16-31. -/
noncomputable def down1 : Nat → Nat → St → St
  | 0, _, s => s
  | f + 1, j, s => if 1 < j then down1 f (j / 2) (step1 (j / 2) s) else s

/-- `haarFWT_1d`, wavelet.cpp:3-36. -/
noncomputable def haar1 (n : Nat) (junk v : Nat → ℂ) : Nat → ℂ :=
  (down1 n (dbl n n 1) ⟨v, writeAll junk (forN n fun i => [(i, 0)])⟩).vv

/-- One pass of `haarFWT_1d_inverse`, wavelet.cpp:48-59. -/
noncomputable def istep1 (j : Nat) (s : St) : St :=
  let t := writeAll s.tmp (forN j fun i => [(2 * i, (s.vv i + s.vv (i + j)) / r2), (2 * i + 1, (s.vv i - s.vv (i + j)) / r2)])
  ⟨writeAll s.vv (forN (j * 2) fun i => [(i, t i)]), t⟩

/-- `while (j * 2 <= n)`, wavelet.cpp:46-61. -/
noncomputable def up1 (n : Nat) : Nat → Nat → St → St
  | 0, _, s => s
  | f + 1, j, s => if j * 2 ≤ n then up1 n f (j * 2) (istep1 j s) else s

/-- `haarFWT_1d_inverse`, wavelet.cpp:38-66. -/
noncomputable def ihaar1 (n : Nat) (junk v : Nat → ℂ) : Nat → ℂ := (up1 n n 1 ⟨v, writeAll junk (forN n fun i => [(i, 0)])⟩).vv

/-- One pass over the columns, Element.cpp:2031-2048 (wavelet.cpp:87-104). -/
noncomputable def colStep (n1 n2 k : Nat) (s : St) : St :=
  let t := writeAll s.tmp (forN n2 fun j => forN k fun i =>
    [(i + j * n1, (s.vv (2 * i + j * n1) + s.vv (2 * i + 1 + j * n1)) / r2), (k + i + j * n1, (s.vv (2 * i + j * n1) - s.vv (2 * i + 1 + j * n1)) / r2)])
  ⟨writeAll s.vv (forN n2 fun j => forN (2 * k) fun i => [(i + j * n1, t (i + j * n1))]), t⟩

/-- The loop over the levels of the columns, Element.cpp:2027-2049. -/
noncomputable def downCols (n1 n2 : Nat) : Nat → Nat → St → St
  | 0, _, s => s
  | f + 1, k, s => if 1 < k then downCols n1 n2 f (k / 2) (colStep n1 n2 (k / 2) s) else s

/-- One pass over the rows, Element.cpp:2059-2077 (wavelet.cpp:115-133). -/
noncomputable def rowStep (n1 _n2 k : Nat) (s : St) : St :=
  let t := writeAll s.tmp (forN k fun j => forN n1 fun i =>
    [(i + j * n1, (s.vv (i + 2 * j * n1) + s.vv (i + (2 * j + 1) * n1)) / r2), (i + (k + j) * n1, (s.vv (i + 2 * j * n1) - s.vv (i + (2 * j + 1) * n1)) / r2)])
  ⟨writeAll s.vv (forN (2 * k) fun j => forN n1 fun i => [(i + j * n1, t (i + j * n1))]), t⟩

/-- The loop over the levels of the rows, Element.cpp:2055-2078. -/
noncomputable def downRows (n1 n2 : Nat) : Nat → Nat → St → St
  | 0, _, s => s
  | f + 1, k, s => if 1 < k then downRows n1 n2 f (k / 2) (rowStep n1 n2 (k / 2) s) else s

/-- `Element::GetHaarFWT`, Element.cpp:2004-2082, and `haarFWT_2d`, wavelet.cpp:68-136: `n1` rows, `n2` columns, column-major. -/
noncomputable def haar (n1 n2 : Nat) (junk v : Nat → ℂ) : Nat → ℂ :=
  (downRows n1 n2 n2 (dbl n2 n2 1) (downCols n1 n2 n1 (dbl n1 n1 1) ⟨v, writeAll junk (forN (n1 * n2) fun i => [(i, v i)])⟩)).vv

/-- One pass of the inverse over the rows, Element.cpp:2106-2124 (wavelet.cpp:155-173). -/
noncomputable def irowStep (n1 _n2 k : Nat) (s : St) : St :=
  let t := writeAll s.tmp (forN k fun j => forN n1 fun i =>
    [(i + (2 * j) * n1, (s.vv (i + j * n1) + s.vv (i + (k + j) * n1)) / r2), (i + (2 * j + 1) * n1, (s.vv (i + j * n1) - s.vv (i + (k + j) * n1)) / r2)])
  ⟨writeAll s.vv (forN (2 * k) fun j => forN n1 fun i => [(i + j * n1, t (i + j * n1))]), t⟩

/-- The loop over the levels of the rows, Element.cpp:2104-2126. -/
noncomputable def upRows (n1 n2 : Nat) : Nat → Nat → St → St
  | 0, _, s => s
  | f + 1, k, s => if k * 2 ≤ n2 then upRows n1 n2 f (k * 2) (irowStep n1 n2 k s) else s

/-- One pass of the inverse over the columns, Element.cpp:2131-2149 (wavelet.cpp:180-198). -/
noncomputable def icolStep (n1 n2 k : Nat) (s : St) : St :=
  let t := writeAll s.tmp (forN n2 fun j => forN k fun i =>
    [(2 * i + j * n1, (s.vv (i + j * n1) + s.vv (k + i + j * n1)) / r2), (2 * i + 1 + j * n1, (s.vv (i + j * n1) - s.vv (k + i + j * n1)) / r2)])
  ⟨writeAll s.vv (forN n2 fun j => forN (2 * k) fun i => [(i + j * n1, t (i + j * n1))]), t⟩

/-- The loop over the levels of the columns, Element.cpp:2129-2151. -/
noncomputable def upCols (n1 n2 : Nat) : Nat → Nat → St → St
  | 0, _, s => s
  | f + 1, k, s => if k * 2 ≤ n1 then upCols n1 n2 f (k * 2) (icolStep n1 n2 k s) else s

/-- `Element::GetInvHaarFWT`, Element.cpp:2084-2155, and `haarFWT_2d_inverse`, wavelet.cpp:138-202. -/
noncomputable def ihaar (n1 n2 : Nat) (junk v : Nat → ℂ) : Nat → ℂ :=
  (upCols n1 n2 n1 1 (upRows n1 n2 n2 1 ⟨v, writeAll junk (forN n2 fun j => forN n1 fun i => [(i + j * n1, v (i + j * n1))])⟩)).vv

end Verif.Wavelet
