import Verif.Elem.Array
import Mathlib.Data.Complex.Basic
import Mathlib.Data.Complex.BigOperators
import Mathlib.Analysis.Real.Sqrt

/-!
# Arithmetic of dense elements

Model of the arithmetic of `Manifolds/Element.cpp` on the stored numbers. An element has the stored dimensions `size[0..2]`, the flag `iscomplex` and a
buffer of real numbers. A complex element stores real and imaginary parts next to each other and `size[0]` is twice the number of rows (constructors,
lines 2313-2380). New memory has arbitrary contents (`junk`). A failed `assert` is the outcome `none`; so is a division by zero (the code would produce
infinities or NaN). Sharing of buffers and attached fields are the subject of `Verif.Mem` and `Verif.Elem.Fields`.

Loops that update a buffer in place are modelled by the sequence of states of the buffer (`loop`).
-/

namespace Verif.Dense

open Verif.Elem

/-- An element: `iscomplex`, `size[0]`, `size[1]`, `size[2]`, `Space`. -/
structure El where
  cplx : Bool
  s0 : Nat
  s1 : Nat
  s2 : Nat
  get : Nat → ℝ

namespace El

/-- `Getrow`, Element.h. -/
def row (x : El) : Nat := if x.cplx then x.s0 / 2 else x.s0
/-- `Getcol`, Element.h. -/
def col (x : El) : Nat := x.s1
/-- `Getnum`, Element.h. -/
def num (x : El) : Nat := x.s2
/-- `Getlength`. -/
def len (x : El) : Nat := x.s0 * x.s1 * x.s2

end El

/-- The constructors (lines 2313-2380) store `2 r` for complex elements. -/
def mk (cplx : Bool) (r c n : Nat) (a : Nat → ℝ) : El := ⟨cplx, if cplx then 2 * r else r, c, n, a⟩

/-- `for (i = 0; i < n; i++) body(i)` on a buffer. -/
def loop (n : Nat) (body : Nat → (Nat → ℝ) → (Nat → ℝ)) (a : Nat → ℝ) : Nat → ℝ := (List.range n).foldl (fun a i => body i a) a

/-- BLAS `scal`: `n` entries from `start` on with stride `inc` are multiplied by `alpha`. -/
noncomputable def scal (n : Nat) (alpha : ℝ) (start inc : Nat) : (Nat → ℝ) → (Nat → ℝ) :=
  loop n fun i a => Function.update a (start + i * inc) (alpha * a (start + i * inc))

/-- BLAS `axpy` with strides 1. -/
noncomputable def axpy (n : Nat) (alpha : ℝ) (x : Nat → ℝ) : (Nat → ℝ) → (Nat → ℝ) := loop n fun i a => Function.update a i (alpha * x i + a i)

/-- BLAS `dot` with strides 1. -/
noncomputable def dot (n : Nat) (x y : Nat → ℝ) : ℝ := ∑ i ∈ Finset.range n, x i * y i

/-- A pair of numbers at `2 p`, `2 p + 1`, read as a complex number: the cast `(realdpcomplex *)`. -/
def cx (a : Nat → ℝ) (p : Nat) : ℂ := ⟨a (2 * p), a (2 * p + 1)⟩

/-- Writing a complex number at position `p` of a buffer read as `realdpcomplex *`. -/
def setcx (a : Nat → ℝ) (p : Nat) (z : ℂ) : Nat → ℝ := Function.update (Function.update a (2 * p) z.re) (2 * p + 1) z.im

/-- Complex BLAS `axpy`, strides 1. -/
noncomputable def caxpy (n : Nat) (alpha : ℂ) (x : Nat → ℝ) : (Nat → ℝ) → (Nat → ℝ) := loop n fun i a => setcx a i (alpha * cx x i + cx a i)

/-- Complex BLAS `scal`, stride 1. -/
noncomputable def cscal (n : Nat) (alpha : ℂ) : (Nat → ℝ) → (Nat → ℝ) := loop n fun i a => setcx a i (alpha * cx a i)

/-- The `trans` arguments of `gemm`. -/
inductive Tr
  | N | T | C
  deriving DecidableEq

/-- Real `gemm`; `T` and `C` mean the same. -/
noncomputable def gemm (ta tb : Tr) (m n k : Nat) (alpha : ℝ) (A : Nat → ℝ) (lda : Nat) (B : Nat → ℝ) (ldb : Nat) (beta : ℝ) (ldc : Nat) (C : Nat → ℝ) : Nat → ℝ :=
  writeAll C (forN n fun j => forN m fun i => [(i + j * ldc,
    alpha * (∑ l ∈ Finset.range k, (if ta = .N then A (i + l * lda) else A (l + i * lda)) * (if tb = .N then B (l + j * ldb) else B (j + l * ldb))) + beta * C (i + j * ldc))])

/-- Entry of `op(A)` for a complex buffer. -/
def opc (t : Tr) (A : Nat → ℝ) (lda i l : Nat) : ℂ :=
  match t with
  | .N => cx A (i + l * lda)
  | .T => cx A (l + i * lda)
  | .C => (starRingEnd ℂ) (cx A (l + i * lda))

/-- Complex `gemm`. -/
noncomputable def cgemm (ta tb : Tr) (m n k : Nat) (alpha : ℂ) (A : Nat → ℝ) (lda : Nat) (B : Nat → ℝ) (ldb : Nat) (beta : ℂ) (ldc : Nat) (C : Nat → ℝ) : Nat → ℝ :=
  let v : Nat → Nat → ℂ := fun i j => alpha * (∑ l ∈ Finset.range k, opc ta A lda i l * opc tb B ldb l j) + beta * cx C (i + j * ldc)
  writeAll C (forN n fun j => forN m fun i => [(2 * (i + j * ldc), (v i j).re), (2 * (i + j * ldc) + 1, (v i j).im)])

/-! ## Operators -/

/-- `operator+(Element, Element)`, lines 144-154. -/
noncomputable def add (l r : El) : Option El := if l.len = r.len then some { r with get := axpy l.len 1 l.get r.get } else none

/-- `operator-(Element, Element)`, lines 223-233. -/
noncomputable def sub (l r : El) : Option El := if l.len = r.len then some { l with get := axpy l.len (-1) r.get l.get } else none

/-- A loop that overwrites every entry of `result(x)`; `ObtainWriteEntireData` returns memory with arbitrary contents if the buffer is shared. -/
noncomputable def mapR (junk : Nat → ℝ) (x : El) (f : ℝ → ℝ) : El := { x with get := writeAll junk (forN x.len fun i => [(i, f (x.get i))]) }

/-- `for (i = 0; i < length; i++, i++)` writing the entries `i` and `i + 1` of new memory. -/
noncomputable def mapC (junk : Nat → ℝ) (x : El) (f g : ℝ → ℝ → ℝ) : El :=
  { x with get := writeAll junk (forN ((x.len + 1) / 2) fun q => [(2 * q, f (x.get (2 * q)) (x.get (2 * q + 1))), (2 * q + 1, g (x.get (2 * q)) (x.get (2 * q + 1)))]) }

/-- `operator+(Element, realdp)`, lines 156-166, and `operator+(realdp, Element)`, lines 183-193. -/
noncomputable def addR (junk : Nat → ℝ) (x : El) (c : ℝ) : Option El := if x.cplx then none else some (mapR junk x fun v => v + c)

/-- `operator+(Element, realdpcomplex)`, lines 168-181, and `operator+(realdpcomplex, Element)`, lines 195-208. -/
noncomputable def addC (junk : Nat → ℝ) (x : El) (c : ℂ) : Option El := if x.cplx then some (mapC junk x (fun a _ => a + c.re) (fun _ b => b + c.im)) else none

/-- `operator-(Element, realdp)`, lines 235-245. -/
noncomputable def subR (junk : Nat → ℝ) (x : El) (c : ℝ) : Option El := if x.cplx then none else some (mapR junk x fun v => v - c)

/-- `operator-(Element, realdpcomplex)`, lines 247-260. -/
noncomputable def subC (junk : Nat → ℝ) (x : El) (c : ℂ) : Option El := if x.cplx then some (mapC junk x (fun a _ => a - c.re) (fun _ b => b - c.im)) else none

/-- `operator-(realdp, Element)`, lines 262-272. -/
noncomputable def rsub (junk : Nat → ℝ) (c : ℝ) (x : El) : Option El := if x.cplx then none else some (mapR junk x fun v => c - v)

/-- `operator-(realdpcomplex, Element)`, lines 274-287. -/
noncomputable def csub (junk : Nat → ℝ) (c : ℂ) (x : El) : Option El := if x.cplx then some (mapC junk x (fun a _ => c.re - a) (fun _ b => c.im - b)) else none

/-- `operator*(realdp, Element)`, lines 335-345, and `operator*(Element, realdp)`, lines 363-373. -/
noncomputable def smulR (junk : Nat → ℝ) (c : ℝ) (x : El) : El := mapR junk x fun v => c * v

/-- `operator*(realdpcomplex, Element)`, lines 347-361, and `operator*(Element, realdpcomplex)`, lines 375-389. -/
noncomputable def smulC (junk : Nat → ℝ) (c : ℂ) (x : El) : Option El :=
  if x.cplx then some (mapC junk x (fun a b => c.re * a - c.im * b) (fun a b => c.re * b + c.im * a)) else none

/-- `operator/(Element, realdp)`, lines 477-487. -/
noncomputable def divR (junk : Nat → ℝ) (x : El) (c : ℝ) : Option El := if c = 0 then none else some (mapR junk x fun v => v / c)

/-- `operator/(Element, realdpcomplex)`, lines 489-504. -/
noncomputable def divC (junk : Nat → ℝ) (x : El) (c : ℂ) : Option El :=
  let t := c.re * c.re + c.im * c.im
  if x.cplx = false ∨ t = 0 then none else some (mapC junk x (fun a b => (c.re * a + c.im * b) / t) (fun a b => (c.re * b - c.im * a) / t))

/-- `operator/(realdp, Element)`, lines 506-517. -/
noncomputable def rdiv (junk : Nat → ℝ) (c : ℝ) (x : El) : Option El := if x.cplx ∨ ∃ i < x.len, x.get i = 0 then none else some (mapR junk x fun v => c / v)

/-- `operator/(realdpcomplex, Element)`, lines 519-535. -/
noncomputable def cdiv (junk : Nat → ℝ) (c : ℂ) (x : El) : Option El :=
  if x.cplx = false ∨ ∃ q < x.len / 2, x.get (2 * q) * x.get (2 * q) + x.get (2 * q + 1) * x.get (2 * q + 1) = 0 then none
  else some (mapC junk x (fun a b => (c.re * a + c.im * b) / (a * a + b * b)) (fun a b => (-c.re * b + c.im * a) / (a * a + b * b)))

/-- `operator*(Element, Element)`, lines 300-333. Only `size[0]` and `size[1]` are looked at. -/
noncomputable def mul (junk : Nat → ℝ) (l r : El) : Option El :=
  if l.cplx = r.cplx then
    if l.cplx then
      let m1 := l.s0 / 2
      let m2 := r.s0 / 2
      if l.s1 = m2 then some (mk true m1 r.s1 1 (cgemm .N .N m1 r.s1 l.s1 1 l.get m1 r.get m2 0 m1 junk)) else none
    else if l.s1 = r.s0 then some (mk false l.s0 r.s1 1 (gemm .N .N l.s0 r.s1 l.s1 1 l.get l.s0 r.get r.s0 0 l.s0 junk)) else none
  else none

/-- The comparison operators. -/
inductive Rel
  | eq | gt | ge | lt | le
  deriving DecidableEq

/-- `value op mat[i]` as written in the overloads `operator op(realdp, Element)`, lines 537-716. -/
def relVM : Rel → ℝ → ℝ → Prop
  | .eq, v, m => v = m
  | .gt, v, m => v > m
  | .ge, v, m => v ≥ m
  | .lt, v, m => v < m
  | .le, v, m => v ≤ m

/-- The comparison written in the overloads `operator op(Element, realdp)`, lines 547-727. -/
def relMV : Rel → ℝ → ℝ → Prop
  | .eq, v, m => v = m
  | .gt, v, m => v < m
  | .ge, v, m => v ≤ m
  | .lt, v, m => v > m
  | .le, v, m => v ≥ m

open Classical in
/-- `operator op(realdp, Element)`. -/
noncomputable def cmpVM (junk : Nat → ℝ) (r : Rel) (v : ℝ) (x : El) : El := mapR junk x fun m => if relVM r v m then 1 else 0

open Classical in
/-- `operator op(Element, realdp)`. -/
noncomputable def cmpMV (junk : Nat → ℝ) (r : Rel) (x : El) (v : ℝ) : El := mapR junk x fun m => if relMV r v m then 1 else 0

open Classical in
/-- `operator op(Element, Element)`, lines 557-570 and the corresponding ones. -/
noncomputable def cmpMM (junk : Nat → ℝ) (r : Rel) (x y : El) : Option El :=
  if x.len = y.len then some { x with get := writeAll junk (forN x.len fun i => [(i, if relVM r (x.get i) (y.get i) then 1 else 0)]) } else none

/-! ## Methods -/

/-- The body of the complex loops of `GetDiagTimesM` and `GetHadamardProduct`: entry `p` is multiplied by the pair `(sr, si)`, `re` and `im` being computed before
either is stored. -/
noncomputable def mulPair (p : Nat) (sr si : ℝ) (a : Nat → ℝ) : Nat → ℝ :=
  let re := a (2 * p) * sr - a (2 * p + 1) * si
  let im := a (2 * p) * si + a (2 * p + 1) * sr
  Function.update (Function.update a (2 * p) re) (2 * p + 1) im

/-- `GetDiagTimesM` and `DiagTimesM`, lines 1506-1609; `left` is `side == "L"`. The index `2 * i + j * 2 * n` is `2 * (i + j * n)`. -/
noncomputable def diagTimes (left : Bool) (d M : El) : Option El :=
  let n := M.row
  let m := M.col
  if M.cplx = d.cplx then
    if left then
      if d.len = M.s0 then
        if d.cplx then some { M with get := loop n (fun i => loop m fun j => mulPair (i + j * n) (d.get (2 * i)) (d.get (2 * i + 1))) M.get }
        else some { M with get := loop n (fun i => scal m (d.get i) i n) M.get }
      else none
    else if d.cplx then
      if d.len = 2 * M.s1 then some { M with get := loop m (fun j => loop n fun i => mulPair (i + j * n) (d.get (2 * j)) (d.get (2 * j + 1))) M.get } else none
    else if d.len = M.s1 then some { M with get := loop m (fun i => scal n (d.get i) (i * n) 1) M.get } else none
  else none

/-- Real `ger` with strides 1 and leading dimension `m`. -/
noncomputable def ger (m n : Nat) (alpha : ℝ) (u v : Nat → ℝ) : (Nat → ℝ) → (Nat → ℝ) :=
  loop n fun j => loop m fun i a => Function.update a (i + j * m) (a (i + j * m) + alpha * u i * v j)

/-- Complex `ger_`, BlasLapackCppWrapper.cpp:190-205: `geru`, no conjugation. -/
noncomputable def geru (m n : Nat) (alpha : ℂ) (u v : Nat → ℝ) : (Nat → ℝ) → (Nat → ℝ) :=
  loop n fun j => loop m fun i a => setcx a (i + j * m) (cx a (i + j * m) + alpha * cx u i * cx v j)

/-- The size checks of `GetHaddRankone` and `HaddRankone`. -/
def rankOneOk (x u v : El) : Prop := (u.col = 1 ∧ u.num = 1 ∧ u.row = x.row) ∧ (v.col = 1 ∧ v.num = 1 ∧ v.row = x.col)

open Classical in
/-- `GetHaddRankone(realdp, …)`, lines 1833-1846, and `HaddRankone(realdp, …)`, lines 1611-1623. The flag `iscomplex` is not looked at. -/
noncomputable def rankOne (x : El) (c : ℝ) (u v : El) : Option El :=
  if rankOneOk x u v then some { x with get := ger x.row x.col c u.get v.get x.get } else none

open Classical in
/-- `GetHaddRankone(realdpcomplex, …)`, lines 1848-1863, and `HaddRankone(realdpcomplex, …)`, lines 1625-1639. -/
noncomputable def rankOneC (x : El) (c : ℂ) (u v : El) : Option El :=
  if rankOneOk x u v ∧ x.cplx ∧ u.cplx ∧ v.cplx then some { x with get := geru x.row x.col c u.get v.get x.get } else none

/-- `AlphaXaddThis(realdp, …)`, lines 1641-1648. -/
noncomputable def axpyThis (this : El) (alpha : ℝ) (x : El) : Option El := if this.len = x.len then some { this with get := axpy this.len alpha x.get this.get } else none

/-- `AlphaXaddThis(realdpcomplex, …)`, lines 1650-1658. -/
noncomputable def axpyThisC (this : El) (alpha : ℂ) (x : El) : Option El :=
  if this.len = x.len ∧ x.cplx then some { this with get := caxpy (this.len / 2) alpha x.get this.get } else none

/-- `ScalarTimesThis(realdp)`, lines 1660-1665. -/
noncomputable def scalThis (this : El) (alpha : ℝ) : El := { this with get := scal this.len alpha 0 1 this.get }

/-- `ScalarTimesThis(realdpcomplex)`, lines 1667-1673; nothing is checked. -/
noncomputable def scalThisC (this : El) (alpha : ℂ) : El := { this with get := cscal (this.len / 2) alpha this.get }

/-- `AlphaABaddBetaThis(realdpcomplex, …)`, lines 1719-1749. `this`, `A`, `B` are different objects (`gemm` must not be called with an output that is also an input). -/
noncomputable def abThisC (this : El) (alpha : ℂ) (A : El) (ta : Tr) (B : El) (tb : Tr) (beta : ℂ) : Option El :=
  if A.cplx ∧ B.cplx then
    let k := if ta = .N then A.col else A.row
    let row := if ta = .N then A.row else A.col
    let col := if tb = .N then B.col else B.row
    if k = (if tb = .N then B.row else B.col) then
      if this.row * this.col = row * col then some { this with get := cgemm ta tb row col k alpha A.get A.row B.get B.row beta row this.get } else none
    else none
  else none

/-- `AlphaABaddBetaThis(realdp, …)`, lines 1675-1717. The second test reads `A.Getiscomplex() && A.Getiscomplex()`. -/
noncomputable def abThis (this : El) (alpha : ℝ) (A : El) (ta : Tr) (B : El) (tb : Tr) (beta : ℝ) : Option El :=
  if A.cplx = false ∧ B.cplx = false then
    let k := if ta = .N then A.col else A.row
    let row := if ta = .N then A.row else A.col
    let col := if tb = .N then B.col else B.row
    if k = (if tb = .N then B.row else B.col) then
      if this.row * this.col = row * col then some { this with get := gemm ta tb row col k alpha A.get A.row B.get B.row beta row this.get } else none
    else none
  else if A.cplx ∧ A.cplx then abThisC this (alpha : ℂ) A ta B tb (beta : ℂ)
  else none

/-- `DotProduct`, lines 1751-1762. -/
noncomputable def dotProduct (x y : El) : Option ℝ := if x.len = y.len then some (dot x.len x.get y.get) else none

/-- `Fnorm`, lines 2488-2494. -/
noncomputable def fnorm (x : El) : ℝ := √(dot x.len x.get x.get)

/-- `GetHadamardProduct`, lines 1764-1784: `result(M)` is updated in place. -/
noncomputable def hadamard (x M : El) : Option El :=
  if x.len = M.len ∧ x.cplx = M.cplx then
    if x.cplx then
      some { M with get := loop ((x.len + 1) / 2) (fun q a =>
        let re := a (2 * q) * x.get (2 * q) - a (2 * q + 1) * x.get (2 * q + 1)
        let im := a (2 * q + 1) * x.get (2 * q) + a (2 * q) * x.get (2 * q + 1)
        Function.update (Function.update a (2 * q) re) (2 * q + 1) im) M.get }
    else some { M with get := loop x.len (fun i a => Function.update a i (a i * x.get i)) M.get }
  else none

/-- `GetHadamardDivision`, lines 1786-1808: `result(*this)` is updated in place. -/
noncomputable def hadamardDiv (x M : El) : Option El :=
  if x.len = M.len ∧ x.cplx = M.cplx then
    if x.cplx then
      if ∃ q < x.len / 2, M.get (2 * q) * M.get (2 * q) + M.get (2 * q + 1) * M.get (2 * q + 1) = 0 then none
      else some { x with get := loop ((x.len + 1) / 2) (fun q a =>
        let de := M.get (2 * q) * M.get (2 * q) + M.get (2 * q + 1) * M.get (2 * q + 1)
        let re := (a (2 * q) * M.get (2 * q) + a (2 * q + 1) * M.get (2 * q + 1)) / de
        let im := (a (2 * q + 1) * M.get (2 * q) - a (2 * q) * M.get (2 * q + 1)) / de
        Function.update (Function.update a (2 * q) re) (2 * q + 1) im) x.get }
    else if ∃ i < x.len, M.get i = 0 then none
    else some { x with get := loop x.len (fun i a => Function.update a i (a i / M.get i)) x.get }
  else none

/-- `GetMax(Element)`, lines 1865-1874. -/
noncomputable def getMax (junk : Nat → ℝ) (x u : El) : Option El :=
  if u.len = x.len ∧ x.cplx = false ∧ u.cplx = false then some { x with get := writeAll junk (forN x.len fun i => [(i, if u.get i < x.get i then x.get i else u.get i)]) } else none

/-- `GetMin(Element)`, lines 1876-1885. -/
noncomputable def getMin (junk : Nat → ℝ) (x u : El) : Option El :=
  if u.len = x.len ∧ x.cplx = false ∧ u.cplx = false then some { x with get := writeAll junk (forN x.len fun i => [(i, if u.get i > x.get i then x.get i else u.get i)]) } else none

/-- `GetMax(realdp)`, lines 1887-1895. -/
noncomputable def getMaxR (junk : Nat → ℝ) (x : El) (v : ℝ) : El := mapR junk x fun a => if v < a then a else v

/-- `GetMin(realdp)`, lines 1897-1905. -/
noncomputable def getMinR (junk : Nat → ℝ) (x : El) (v : ℝ) : El := mapR junk x fun a => if v > a then a else v

/-- `GetAbs`, lines 1907-1915. -/
noncomputable def getAbs (junk : Nat → ℝ) (x : El) : El := mapR junk x fun a => |a|

/-- `GetSqrt`, lines 1917-1925. -/
noncomputable def getSqrt (junk : Nat → ℝ) (x : El) : Option El := if ∃ i < x.len, x.get i < 0 then none else some (mapR junk x fun a => √a)

/-- `GetConj`, lines 1936-1944, and `Conj`, lines 1946-1953. -/
noncomputable def conj (x : El) : Option El := if x.cplx then some { x with get := scal (x.len / 2) (-1) 1 2 x.get } else none

/-- `GetColNormsSquare`, lines 2496-2510. -/
noncomputable def colNormsSq (junk : Nat → ℝ) (x : El) : El :=
  mk false 1 x.col 1 (writeAll junk (forN x.col fun i => [(i, dot x.s0 (fun p => x.get (p + i * x.s0)) (fun p => x.get (p + i * x.s0)))]))

/-- `GetColDotProducts`, lines 2512-2527. -/
noncomputable def colDots (junk : Nat → ℝ) (x M : El) : Option El :=
  if x.row = M.row ∧ x.col = M.col ∧ M.cplx = x.cplx then
    some (mk false 1 x.col 1 (writeAll junk (forN x.col fun i => [(i, dot x.s0 (fun p => x.get (p + i * x.s0)) (fun p => M.get (p + i * x.s0)))])))
  else none

/-- `GetRealToComplex`, lines 2529-2541. -/
noncomputable def realToComplex (junk : Nat → ℝ) (x : El) : Option El :=
  if x.cplx then none
  else some (mk true x.row x.col x.num (writeAll (writeAll junk (forN (2 * x.row * x.col * x.num) fun i => [(i, 0)])) (forN x.len fun i => [(2 * i, x.get i)])))

/-- `GetRealInComplex`, lines 2543-2553. -/
noncomputable def realInComplex (junk : Nat → ℝ) (x : El) : Option El :=
  if x.cplx then some (mk true x.row x.col x.num (writeAll junk (forN (x.len / 2) fun i => [(i, x.get (i * 2))]))) else none

/-- `GetImagInComplex`, lines 2555-2565. -/
noncomputable def imagInComplex (junk : Nat → ℝ) (x : El) : Option El :=
  if x.cplx then some (mk true x.row x.col x.num (writeAll junk (forN (x.len / 2) fun i => [(i, x.get (i * 2 + 1))]))) else none

/-- `SetToIdentity`, lines 2567-2579. -/
noncomputable def setToIdentity (junk : Nat → ℝ) (x : El) : El :=
  let mn := if x.row < x.col then x.row else x.col
  let z := writeAll junk (forN x.len fun i => [(i, 0)])
  { x with get := writeAll z (forN mn fun i => [(if x.cplx then 2 * i + i * x.s0 else i + i * x.s0, 1)]) }

/-- `ScaledIdOPE`, lines 2854-2872 (`ls = 3` always). The stored dimensions are compared. The memory is kept if it is not shared and arbitrary otherwise (`a0`). -/
noncomputable def scaledId (a0 : Nat → ℝ) (x : El) (c : ℝ) : El :=
  if x.s0 ≠ x.s1 then x
  else { x with get := writeAll a0 (forN x.s0 fun i => (i + i * x.s0, c) :: forRange (i + 1) (x.s0 - 1) fun j => [(i + j * x.s0, 0), (j + i * x.s0, 0)]) }

/-- The loop that turns `N` real numbers into complex ones in place, from the last to the first: `EigenDecomSym`, lines 951-955, and `SVDDecom`, lines 1329-1333. -/
noncomputable def expand : Nat → (Nat → ℝ) → (Nat → ℝ)
  | 0, a => a
  | i + 1, a =>
    let a := Function.update a (2 * i + 1) 0
    expand i (Function.update a (2 * i) (a i))

/-- The matrix handed to `potrf` by `CholDecom`, lines 818-827 (real) and 842-849 (complex). -/
noncomputable def cholInput (junk : Nat → ℝ) (x : El) : El :=
  if x.cplx then
    let k := x.s0 / 2
    { x with get := writeAll junk (forN k fun i => forN k fun j => [(2 * j + i * 2 * k, if j ≥ i then x.get (2 * j + i * 2 * k) else 0),
      (2 * j + 1 + i * 2 * k, if j ≥ i then x.get (2 * j + 1 + i * 2 * k) else 0)]) }
  else
    let k := x.s0
    { x with get := writeAll junk (forN k fun i => forN k fun j => [(j + i * k, if j ≥ i then x.get (j + i * k) else 0)]) }

/-- The factor `R` extracted by `QRDecom` from the output of `geqp3`, lines 1144-1163 (real) and 1184-1207 (complex). -/
noncomputable def qrR (junk : Nat → ℝ) (h : El) : El :=
  let m := h.row
  let n := h.col
  let mn := if m < n then m else n
  if h.cplx then
    mk true mn n 1 (writeAll junk (forN n fun i => forN mn fun j => if j ≤ i then
      [(2 * j + i * 2 * mn, h.get (2 * j + i * 2 * m)), (2 * j + 1 + i * 2 * mn, h.get (2 * j + 1 + i * 2 * m))]
      else [(2 * j + 2 * i * mn, 0), (2 * j + 1 + 2 * i * mn, 0)]))
  else mk false mn n 1 (writeAll junk (forN n fun i => forN mn fun j => if j ≤ i then [(j + i * mn, h.get (j + i * m))] else [(j + i * mn, 0)]))

end Verif.Dense
