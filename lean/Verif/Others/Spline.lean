import Mathlib.Algebra.Order.Field.Basic
import Mathlib.Order.Interval.Finset.Nat
import Mathlib.Algebra.Order.Floor.Ring

/-!
# Cubic splines

Model of `Others/Spline.cpp`. The work arrays of the code are slices of one allocation, so the memory is one function from addresses and the arrays are base addresses
into it; overlapping slices are therefore modelled. Entries are elements of a linearly ordered field (exact arithmetic); `eps` is `numeric_limits<realdp>::epsilon()`.
-/

set_option linter.unusedVariables false

namespace Verif.Spline

variable {K : Type*} [Field K] [LinearOrder K]

/-- The pointers `d`, `ud`, `ld`, `vec`, `s`. -/
structure Ptrs where
  d : Nat
  ud : Nat
  ld : Nat
  vec : Nat
  s : Nat

/-- Assignment to one address. -/
def set (m : Nat → K) (a : Nat) (v : K) : Nat → K := Function.update m a v

/-! ### `SolveTridiagonalSystem` -/

/-- Body of the elimination loop, Spline.cpp:203-209. A zero pivot gives infinities or NaN in the code; here division by zero gives `0`. This makes no difference to the
reported success: a zero pivot is never changed afterwards and the substitution loop then reports failure. -/
def elimStep (P : Ptrs) (m : Nat → K) (i : Nat) : Nat → K :=
  let coef := -m (P.ld + i) / m (P.d + i)
  let m := set m (P.ld + i) (m (P.ld + i) + m (P.d + i) * coef)
  let m := set m (P.d + (i + 1)) (m (P.d + (i + 1)) + m (P.ud + i) * coef)
  set m (P.vec + (i + 1)) (m (P.vec + (i + 1)) + m (P.vec + i) * coef)

/-- The elimination loop, Spline.cpp:203-209: `i = 0, …, k - 1`. -/
def elim (P : Ptrs) (m : Nat → K) : Nat → Nat → K
  | 0 => m
  | k + 1 => elimStep P (elim P m k) k

/-- The substitution loop, Spline.cpp:216-224: processes the indices `k - 1, …, 0`; `none` when a pivot is too small. -/
def backSub (P : Ptrs) (eps : K) : Nat → (Nat → K) → Option (Nat → K)
  | 0, m => some m
  | k + 1, m =>
    if |m (P.d + k)| < eps then none
    else backSub P eps k (set m (P.s + k) ((m (P.vec + k) - m (P.s + (k + 1)) * m (P.ud + k)) / m (P.d + k)))

/-- `Spline::SolveTridiagonalSystem`, Spline.cpp:199-226; `none` is the return value 0. -/
def solveTri (P : Ptrs) (eps : K) (n : Nat) (m : Nat → K) : Option (Nat → K) :=
  let m := elim P m (n - 1)
  if |m (P.d + (n - 1))| < eps then none
  else backSub P eps (n - 1) (set m (P.s + (n - 1)) (m (P.vec + (n - 1)) / m (P.d + (n - 1))))

/-! ### `SolvePeriodicSystem` -/

/-- State of the elimination: memory, the separate array `last_column`, the variable `temp`. -/
structure PerState (K : Type*) where
  m : Nat → K
  lc : Nat → K
  temp : K

/-- Body of the loop Spline.cpp:236-247. Division by zero: see `solvePer`. -/
def perStep (P : Ptrs) (nn : Nat) (st : PerState K) (i : Nat) : PerState K :=
  let m := st.m
  let coef := -m (P.ld + (i + 1)) / m (P.d + i)
  let m := set m (P.d + (i + 1)) (m (P.d + (i + 1)) + m (P.ud + i) * coef)
  let lc := Function.update st.lc (i + 1) (st.lc i * coef)
  let m := set m (P.vec + (i + 1)) (m (P.vec + (i + 1)) + m (P.vec + i) * coef)
  let coef := -st.temp / m (P.d + i)
  let temp := m (P.ud + i) * coef
  let m := set m (P.d + (nn - 1)) (m (P.d + (nn - 1)) + lc i * coef)
  let m := set m (P.vec + (nn - 1)) (m (P.vec + (nn - 1)) + m (P.vec + i) * coef)
  ⟨m, lc, temp⟩

/-- The loop Spline.cpp:236-247: `i = 0, …, k - 1`. -/
def perElim (P : Ptrs) (nn : Nat) (st : PerState K) : Nat → PerState K
  | 0 => st
  | k + 1 => perStep P nn (perElim P nn st k) k

/-- The block `i = nn - 3`, Spline.cpp:250-259. -/
def perBlock1 (P : Ptrs) (nn : Nat) (st : PerState K) : Nat → K :=
  let m := st.m
  let i := nn - 3
  let coef := -m (P.ld + (i + 1)) / m (P.d + i)
  let m := set m (P.d + (i + 1)) (m (P.d + (i + 1)) + m (P.ud + i) * coef)
  let m := set m (P.ud + (nn - 2)) (m (P.ud + (nn - 2)) + st.lc i * coef)
  let m := set m (P.vec + (i + 1)) (m (P.vec + (i + 1)) + m (P.vec + i) * coef)
  let coef := -st.temp / m (P.d + i)
  let m := set m (P.ld + (nn - 1)) (m (P.ld + (nn - 1)) + m (P.ud + i) * coef)
  let m := set m (P.d + (nn - 1)) (m (P.d + (nn - 1)) + st.lc i * coef)
  set m (P.vec + (nn - 1)) (m (P.vec + (nn - 1)) + m (P.vec + i) * coef)

/-- The block `i = nn - 2`, Spline.cpp:262-265. -/
def perBlock2 (P : Ptrs) (nn : Nat) (m : Nat → K) : Nat → K :=
  let i := nn - 2
  let coef := -m (P.ld + (i + 1)) / m (P.d + i)
  let m := set m (P.d + (i + 1)) (m (P.d + (i + 1)) + m (P.ud + i) * coef)
  set m (P.vec + (i + 1)) (m (P.vec + (i + 1)) + m (P.vec + i) * coef)

/-- The substitution loop Spline.cpp:275-283, processing `i = k, …, 1`. -/
def perBack (P : Ptrs) (eps : K) (nn : Nat) (lc : Nat → K) : Nat → (Nat → K) → Option (Nat → K)
  | 0, m => some m
  | k + 1, m =>
    if |m (P.d + k)| < eps then none
    else perBack P eps nn lc k (set m (P.s + (k + 1)) ((m (P.vec + k) - m (P.s + nn) * lc k - m (P.s + (k + 2)) * m (P.ud + k)) / m (P.d + k)))

/-- The elimination part of `SolvePeriodicSystem`, Spline.cpp:230-265; `lc0` is the content of the memory obtained for `last_column`. -/
def perForward (P : Ptrs) (nn : Nat) (lc0 m : Nat → K) : PerState K :=
  let st := perElim P nn ⟨m, Function.update lc0 0 (m (P.ld + 0)), m (P.ud + (nn - 1))⟩ (nn - 3)
  ⟨perBlock2 P nn (perBlock1 P nn st), st.lc, st.temp⟩

/-- Outcome of `SolvePeriodicSystem`. `nan` is a reported success with NaN in the output: the pivot `d[nn - 2]` is used as a divisor (Spline.cpp:263, 274) without being
tested; when it is zero the coefficient is infinite or NaN, so `d[nn - 1]` and `vec[nn - 1]` are infinite or NaN, their quotient `s[nn]` is NaN, and no comparison
with a NaN reports failure. -/
inductive PerResult (K : Type*) where
  | fail
  | nan
  | ok (m : Nat → K)

/-- `Spline::SolvePeriodicSystem`, Spline.cpp:228-288 (`nn ≥ 3`; for smaller `nn` the code indexes with negative numbers). Division by zero at the pivots
`d[0], …, d[nn - 3]` gives `0` here; this makes no difference to the reported success, because those pivots are tested at the end. -/
def solvePer (P : Ptrs) (eps : K) (nn : Nat) (lc0 m : Nat → K) : PerResult K :=
  let st := perForward P nn lc0 m
  let m := st.m
  if m (P.d + (nn - 2)) = 0 then
    -- the tests of `d[nn - 3], …, d[0]` can still report failure
    match perBack P eps nn st.lc (nn - 2) m with
    | none => .fail
    | some _ => .nan
  else
    let m := set m (P.s + nn) (m (P.vec + (nn - 1)) / m (P.d + (nn - 1)))
    if |m (P.d + (nn - 1))| < eps then .fail
    else
      let m := set m (P.s + (nn - 1)) ((m (P.vec + (nn - 2)) - m (P.s + nn) * m (P.ud + (nn - 2))) / m (P.d + (nn - 2)))
      match perBack P eps nn st.lc (nn - 2) m with
      | none => .fail
      | some m => .ok (set m (P.s + 0) (m (P.s + nn)))

/-! ### The splines -/

/-- The slices of the allocation in `SplineSlopes` and `SplineUniformSlopes`, Spline.cpp:109-113, 156-160. -/
def slopesPtrs (n : Nat) : Ptrs := ⟨0, n, n + (n - 1), n + (n - 1) + (n - 1), n + (n - 1) + (n - 1) + n⟩

/-- The slices of the allocation in `SplinePeriodic` and `SplineUniformPeriodic`, Spline.cpp:12-16, 57-61 (`nn = n - 1`). -/
def periodicPtrs (nn : Nat) : Ptrs := ⟨0, nn, nn + (nn - 1), nn + (nn - 1) + (nn - 1), nn + (nn - 1) + (nn - 1) + nn⟩

/-- Body of the loop Spline.cpp:162-168, for the index `i`. -/
def slopesRow (P : Ptrs) (X Y : Nat → K) (m : Nat → K) (i : Nat) : Nat → K :=
  let m := set m (P.ld + (i - 1)) ((X i - X (i - 1)) / (X (i + 1) - X (i - 1)))
  let m := set m (P.d + i) 2
  let m := set m (P.ud + i) ((X (i + 1) - X i) / (X (i + 1) - X (i - 1)))
  set m (P.vec + i) (6 / (X (i + 1) - X (i - 1)) * ((Y (i + 1) - Y i) / (X (i + 1) - X i) - (Y i - Y (i - 1)) / (X i - X (i - 1))))

/-- The loop Spline.cpp:162-168: `i = 1, …, k`. -/
def slopesRows (P : Ptrs) (X Y : Nat → K) (m : Nat → K) : Nat → Nat → K
  | 0 => m
  | k + 1 => slopesRow P X Y (slopesRows P X Y m k) (k + 1)

/-- The system set up by `SplineSlopes`, Spline.cpp:156-178. `nn = n - 1`. -/
def slopesSystem (P : Ptrs) (X Y : Nat → K) (n : Nat) (m : Nat → K) : Nat → K :=
  let nn := n - 1
  let m := slopesRows P X Y m (nn - 1)
  let first := (Y 1 - Y 0) / (X 1 - X 0)
  let m := set m (P.d + 0) ((X 1 - X 0) / 3)
  let m := set m (P.ud + 0) ((X 1 - X 0) / 6)
  let m := set m (P.vec + 0) ((Y 1 - Y 0) / (X 1 - X 0) - first)
  let first := (Y nn - Y (nn - 1)) / (X nn - X (nn - 1))
  let m := set m (P.d + nn) ((X nn - X (nn - 1)) / 3)
  let m := set m (P.ld + (nn - 1)) ((X nn - X (nn - 1)) / 6)
  set m (P.vec + nn) (first - (Y nn - Y (nn - 1)) / (X nn - X (nn - 1)))

/-- The four coefficients of one piece: `coefs[0 * nn + i]`, …, `coefs[3 * nn + i]`. -/
structure Piece (K : Type*) where
  a : K
  b : K
  c : K
  e : K

/-- The coefficients from the second derivatives, Spline.cpp:186-193 and 91-98. -/
def piece (X Y s : Nat → K) (i : Nat) : Piece K :=
  let h := X (i + 1) - X i
  ⟨(s (i + 1) - s i) / 6 / h, s i / 2, -s i * h / 2 + (Y (i + 1) - Y i) / h - h * (s (i + 1) - s i) / 6,
    s i * h * h / 6 + (Y i - s i * h * h / 6)⟩

/-- The coefficients for equidistant breaks, Spline.cpp:140-146 and 40-46. -/
def pieceUniform (h : K) (Y s : Nat → K) (i : Nat) : Piece K :=
  ⟨(s (i + 1) - s i) / 6 / h, s i / 2, -s i * h / 2 + (Y (i + 1) - Y i) / h - h * (s (i + 1) - s i) / 6, Y i⟩

/-- `Spline::SplineSlopes`, Spline.cpp:151-197; `none` when the system is reported unsolvable; `m0` is the content of the memory obtained. -/
def splineSlopes (eps : K) (X Y : Nat → K) (n : Nat) (m0 : Nat → K) : Option (Nat → Piece K) :=
  let P := slopesPtrs n
  (solveTri P eps n (slopesSystem P X Y n m0)).map fun m => piece X Y fun i => m (P.s + i)

/-- Body of the loop Spline.cpp:116-122. -/
def uniformSlopesRow (P : Ptrs) (h : K) (Y : Nat → K) (m : Nat → K) (i : Nat) : Nat → K :=
  let m := set m (P.ld + (i - 1)) (1 / 2)
  let m := set m (P.d + i) 2
  let m := set m (P.ud + i) (1 / 2)
  set m (P.vec + i) (3 / h * ((Y (i + 1) - Y i) / h - (Y i - Y (i - 1)) / h))

/-- The loop Spline.cpp:116-122: `i = 1, …, k`. -/
def uniformSlopesRows (P : Ptrs) (h : K) (Y : Nat → K) (m : Nat → K) : Nat → Nat → K
  | 0 => m
  | k + 1 => uniformSlopesRow P h Y (uniformSlopesRows P h Y m k) (k + 1)

/-- The system set up by `SplineUniformSlopes`, Spline.cpp:109-132. -/
def uniformSlopesSystem (P : Ptrs) (h : K) (Y : Nat → K) (n : Nat) (m : Nat → K) : Nat → K :=
  let nn := n - 1
  let m := uniformSlopesRows P h Y m (nn - 1)
  let first := (Y 1 - Y 0) / h
  let m := set m (P.d + 0) (h / 3)
  let m := set m (P.ud + 0) (h / 6)
  let m := set m (P.vec + 0) ((Y 1 - Y 0) / h - first)
  let first := (Y nn - Y (nn - 1)) / h
  let m := set m (P.d + nn) (h / 3)
  let m := set m (P.ld + (nn - 1)) (h / 6)
  set m (P.vec + nn) (first - (Y nn - Y (nn - 1)) / h)

/-- `Spline::SplineUniformSlopes`, Spline.cpp:104-149. -/
def splineUniformSlopes (eps h : K) (Y : Nat → K) (n : Nat) (m0 : Nat → K) : Option (Nat → Piece K) :=
  let P := slopesPtrs n
  (solveTri P eps n (uniformSlopesSystem P h Y n m0)).map fun m => pieceUniform h Y fun i => m (P.s + i)

/-- Body of the loop Spline.cpp:22-31 of `SplineUniformPeriodic`: the four assignments in program order. -/
def uniformPeriodicRow (P : Ptrs) (h : K) (Y : Nat → K) (nn : Nat) (m : Nat → K) (i : Nat) : Nat → K :=
  let m := set m (P.ld + i) (1 / 2)
  let m := set m (P.d + i) 2
  let m := set m (P.ud + i) (1 / 2)
  if i = nn - 1 then set m (P.vec + i) (3 / h * ((Y 1 - Y (i + 1)) / h - (Y (i + 1) - Y i) / h))
  else set m (P.vec + i) (3 / h * ((Y (i + 2) - Y (i + 1)) / h - (Y (i + 1) - Y i) / h))

/-- The loop Spline.cpp:22-31: `i = 0, …, k - 1`. -/
def uniformPeriodicRows (P : Ptrs) (h : K) (Y : Nat → K) (nn : Nat) (m : Nat → K) : Nat → Nat → K
  | 0 => m
  | k + 1 => uniformPeriodicRow P h Y nn (uniformPeriodicRows P h Y nn m k) k

/-- `Spline::SplineUniformPeriodic`, Spline.cpp:7-49, with the slices as parameter (the code uses `periodicPtrs`). -/
def splineUniformPeriodic (P : Ptrs) (eps h : K) (Y : Nat → K) (nn : Nat) (lc0 m0 : Nat → K) : PerResult K × (Nat → Piece K) :=
  match solvePer P eps nn lc0 (uniformPeriodicRows P h Y nn m0 nn) with
  | .ok m => (.ok m, pieceUniform h Y fun i => set m (P.s + 0) (m (P.s + nn)) (P.s + i))
  | r => (r, pieceUniform h Y fun _ => 0)

/-- Body of the loop Spline.cpp:66-82 of `SplinePeriodic`. -/
def periodicRow (P : Ptrs) (X Y : Nat → K) (nn : Nat) (m : Nat → K) (i : Nat) : Nat → K :=
  if i = nn - 1 then
    let w := X 1 - X 0 + X (i + 1) - X i
    let m := set m (P.ld + i) ((X (i + 1) - X i) / w)
    let m := set m (P.d + i) 2
    let m := set m (P.ud + i) ((X 1 - X 0) / w)
    set m (P.vec + i) (6 / w * ((Y 1 - Y 0) / (X 1 - X 0) - (Y (i + 1) - Y i) / (X (i + 1) - X i)))
  else
    let m := set m (P.ld + i) ((X (i + 1) - X i) / (X (i + 2) - X i))
    let m := set m (P.d + i) 2
    let m := set m (P.ud + i) ((X (i + 2) - X (i + 1)) / (X (i + 2) - X i))
    set m (P.vec + i) (6 / (X (i + 2) - X i) * ((Y (i + 2) - Y (i + 1)) / (X (i + 2) - X (i + 1)) - (Y (i + 1) - Y i) / (X (i + 1) - X i)))

/-- The loop Spline.cpp:66-82. -/
def periodicRows (P : Ptrs) (X Y : Nat → K) (nn : Nat) (m : Nat → K) : Nat → Nat → K
  | 0 => m
  | k + 1 => periodicRow P X Y nn (periodicRows P X Y nn m k) k

/-- `Spline::SplinePeriodic`, Spline.cpp:51-102. -/
def splinePeriodic (P : Ptrs) (eps : K) (X Y : Nat → K) (nn : Nat) (lc0 m0 : Nat → K) : PerResult K × (Nat → Piece K) :=
  match solvePer P eps nn lc0 (periodicRows P X Y nn m0 nn) with
  | .ok m => (.ok m, piece X Y fun i => set m (P.s + 0) (m (P.s + nn)) (P.s + i))
  | r => (r, piece X Y fun _ => 0)

/-! ### Evaluation -/

/-- `((a t + b) t + c) t + e`, Spline.cpp:302. -/
def Piece.val (q : Piece K) (t : K) : K := ((q.a * t + q.b) * t + q.c) * t + q.e

/-- `FirstDeri` and the evaluation Spline.cpp:322-332, 361. -/
def Piece.deri1 (q : Piece K) (t : K) : K := (q.a * 3 * t + q.b * 2) * t + q.c

/-- `SecondDeri` and the evaluation Spline.cpp:365-374, 402. -/
def Piece.deri2 (q : Piece K) (t : K) : K := q.a * 6 * t + q.b * 2

/-- The loop `while (i < N && t - (breaks[i] - breaks[0]) >= -eps) i++`, Spline.cpp:296-297; first argument: iterations left. -/
def scan (eps : K) (X : Nat → K) (t : K) : Nat → Nat → Nat
  | 0, i => i
  | f + 1, i => if t - (X i - X 0) ≥ -eps then scan eps X t f (i + 1) else i

/-- The index after `i--` and the two clamps, Spline.cpp:298-300 (`nn = N - 1`). Natural subtraction is the clamp at `0`. -/
def interval (eps : K) (X : Nat → K) (N : Nat) (t : K) : Nat :=
  let i := scan eps X t N 0 - 1
  if N - 1 - 1 < i then N - 1 - 1 else i

/-- `Spline::ValSpline`, Spline.cpp:290-304. -/
def valSpline (eps : K) (q : Nat → Piece K) (X : Nat → K) (N : Nat) (t : K) : K := (q (interval eps X N t)).val (t - X (interval eps X N t))

/-- `Spline::ValFirstDeri`, Spline.cpp:348-363. -/
def valFirstDeri (eps : K) (q : Nat → Piece K) (X : Nat → K) (N : Nat) (t : K) : K := (q (interval eps X N t)).deri1 (t - X (interval eps X N t))

/-- `Spline::ValSecondDeri`, Spline.cpp:390-404. -/
def valSecondDeri (eps : K) (q : Nat → Piece K) (X : Nat → K) (N : Nat) (t : K) : K := (q (interval eps X N t)).deri2 (t - X (interval eps X N t))

/-! ### Evaluation on equidistant breaks -/

/-- `static_cast<integer>(x)`: rounding towards zero (the range of the integer type is not modelled). -/
def truncInt [FloorRing K] (x : K) : Int := if 0 ≤ x then ⌊x⌋ else ⌈x⌉

/-- The loop `while (t - i * h >= -eps) i++`, Spline.cpp:312-313, 339-340, 381-382; `none` when it has not ended after the given number of tests. -/
def scanU (eps h t : K) : Nat → Int → Option Int
  | 0, _ => none
  | f + 1, i => if t - i * h ≥ -eps then scanU eps h t f (i + 1) else some i

/-- The index after `i--` and the two clamps, Spline.cpp:311-316. -/
def intervalU [FloorRing K] (eps h : K) (N : Nat) (t : K) (fuel : Nat) : Option Nat :=
  (scanU eps h t fuel (truncInt (t / h))).map fun i =>
    let i := i - 1
    let i := if i < 0 then 0 else i
    (if i > (N : Int) - 1 - 1 then (N : Int) - 1 - 1 else i).toNat

/-- `Spline::ValSplineUniform`, Spline.cpp:306-320. -/
def valSplineUniform [FloorRing K] (eps h : K) (q : Nat → Piece K) (N : Nat) (t : K) (fuel : Nat) : Option K :=
  (intervalU eps h N t fuel).map fun i => (q i).val (t - i * h)

/-- `Spline::ValFirstDeriUniform`, Spline.cpp:334-346. -/
def valFirstDeriUniform [FloorRing K] (eps h : K) (q : Nat → Piece K) (N : Nat) (t : K) (fuel : Nat) : Option K :=
  (intervalU eps h N t fuel).map fun i => (q i).deri1 (t - i * h)

/-- `Spline::ValSecondDeriUniform`, Spline.cpp:376-388. -/
def valSecondDeriUniform [FloorRing K] (eps h : K) (q : Nat → Piece K) (N : Nat) (t : K) (fuel : Nat) : Option K :=
  (intervalU eps h N t fuel).map fun i => (q i).deri2 (t - i * h)

end Verif.Spline
