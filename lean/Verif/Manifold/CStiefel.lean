import Verif.Manifold.CMat
import Verif.Manifold.Intrinsic
import Verif.Elem.Dense
import Mathlib.Analysis.Real.Sqrt
import Mathlib.Analysis.Complex.Basic

/-!
# Complex Stiefel manifold

Functions of `Manifolds/CStiefel.cpp` on extrinsic (`n × p` complex) representations and the intrinsic coordinates. `GetTranspose` of a complex element is the conjugate
transpose (Element.cpp:2275-2288), `DotProduct` is `Verif.CMat.ip`, the arithmetic is exact. LAPACK factorisations are arguments; their specifications are hypotheses of the theorems.
-/

namespace Verif.CStiefel

open Matrix Verif.CMat

variable {n p : Type*} [Fintype n] [Fintype p] [DecidableEq n] [DecidableEq p]

/-- `(tmp + tmp.GetTranspose()) / 2`, CStiefel.cpp:119. -/
noncomputable def sym (A : Matrix p p ℂ) : Matrix p p ℂ := (1 / 2 : ℝ) • (A + Aᴴ)

/-- `CStiefel::ExtrProjection`, CStiefel.cpp:116-124. -/
noncomputable def proj (x η : Matrix n p ℂ) : Matrix n p ℂ := η - x * sym (xᴴ * η)

/-- `CStiefel::Metric` with the canonical metric, CStiefel.cpp:84-89. -/
noncomputable def canonMetric (x η ξ : Matrix n p ℂ) : ℝ := ip η ξ - (1 / 2) * ip (ηᴴ * x) (ξᴴ * x)

/-- `CStiefel::EucGradToGrad` with the canonical metric, CStiefel.cpp:291-295. With the Euclidean metric it is `proj`. -/
def canonGrad (x g : Matrix n p ℂ) : Matrix n p ℂ := g - x * (gᴴ * x)

/-- `CStiefel::EucHvToHv` with the Euclidean metric, CStiefel.cpp:298-307; `G` is the Euclidean gradient, `E` the action of the Euclidean Hessian on `η`. -/
noncomputable def hess (x G η E : Matrix n p ℂ) : Matrix n p ℂ := proj x (E - η * sym (xᴴ * G))

/-! ### qf retraction; the columns are ordered -/

section qf

variable {k : ℕ}

/-- The signs applied to the columns: `-1` where the real part of the diagonal entry of `R` is negative, CStiefel.cpp:431-437. -/
noncomputable def signs (R : Matrix (Fin k) (Fin k) ℂ) (i : Fin k) : ℝ := if (R i i).re < 0 then -1 else 1

/-- `scal_` applied to each column. -/
noncomputable def scaleCols (s : Fin k → ℝ) (A : Matrix n (Fin k) ℂ) : Matrix n (Fin k) ℂ := fun i j => (s j : ℂ) * A i j

/-- `CStiefel::qfRetraction`, CStiefel.cpp:416-442, given the factors `Q`, `R` of `x + η`. -/
noncomputable def qfRetraction (Q : Matrix n (Fin k) ℂ) (R : Matrix (Fin k) (Fin k) ℂ) : Matrix n (Fin k) ℂ := scaleCols (signs R) Q

/-- The correction `YtVRinv` after the double loop, CStiefel.cpp:470-483: the entries below the diagonal are read before they are set to zero. -/
def qfCorrection (M : Matrix (Fin k) (Fin k) ℂ) : Matrix (Fin k) (Fin k) ℂ :=
  fun i j => if i = j then ⟨-(M i j).re, 0⟩ else if i < j then ⟨-(M j i).re - (M i j).re, (M j i).im - (M i j).im⟩ else 0

/-- `CStiefel::DiffqfRetraction`, CStiefel.cpp:450-489 (extrinsic part). The triangular solve `X R = ξ` (`trsm`, side R, upper) is `ξ R⁻¹`; `R` is the upper triangle of the
field `_HHR` of `y`. -/
noncomputable def diffQf (y : Matrix n (Fin k) ℂ) (R : Matrix (Fin k) (Fin k) ℂ) (ξ : Matrix n (Fin k) ℂ) : Matrix n (Fin k) ℂ :=
  let Z := scaleCols (signs R) (ξ * R⁻¹)
  Z + y * qfCorrection (yᴴ * Z)

end qf

/-! ### Polar retraction -/

/-- `CStiefel::PolarRetraction`, CStiefel.cpp:509-524, given the economy SVD `x + η = U diag(s) Vt`. -/
def polarRetraction (U : Matrix n p ℂ) (Vt : Matrix p p ℂ) : Matrix n p ℂ := U * Vt

/-- `CStiefel::DiffPolarRetraction` for `ξ` in the direction of `η`, CStiefel.cpp:545-560 (extrinsic part); `S = ZONE / S` is entrywise on the complex copy of the singular values. -/
noncomputable def diffPolar (y : Matrix n p ℂ) (s : p → ℝ) (Vt : Matrix p p ℂ) (η ξ : Matrix n p ℂ) : Matrix n p ℂ :=
  let alpha := √(ip ξ ξ / ip η η)
  let tmp := (η * Vtᴴ) * diagonal (fun i => (1 : ℂ) / (s i : ℂ)) * Vt
  alpha • tmp + (-alpha) • (y * (tmpᴴ * tmp))

/-! ### Coordinates -/

open Verif.Elem Verif.Intr

section coords

variable {n p : ℕ}

/-- The loops of `ObtainIntrHHR`, CStiefel.cpp:604-634; `t` is the buffer `tmpptr` of complex numbers with leading dimension `n`. -/
noncomputable def skewIntr (n p : Nat) (t : Nat → ℂ) : List ℝ :=
  (List.range p).map (fun i => (t (i + i * n)).im) ++
  (pairs p).flatMap (fun q => [r2 * ((t (q.2 + q.1 * n)).re - (t (q.1 + q.2 * n)).re) / 2, r2 * ((t (q.2 + q.1 * n)).im + (t (q.1 + q.2 * n)).im) / 2]) ++
  (rest n p).flatMap (fun q => [(t (q.2 + q.1 * n)).re, (t (q.2 + q.1 * n)).im])

/-- The loops of `ObtainExtrHHR`, CStiefel.cpp:644-678, as writes of real numbers: the real part of the complex number at position `a` is the real number at `2 a`, the imaginary part the one
at `2 a + 1`. `c` is the buffer of the intrinsic vector; `idx` is `p + 2 k` at the pair number `k`, and `p + 2 (pairs) + 2 k` at the number `k` of the last loop. -/
noncomputable def skewExtrWrites (n p : Nat) (c : Nat → ℝ) : List (Nat × ℝ) :=
  ((List.range p).flatMap fun i => [(2 * (i + i * n) + 1, c i), (2 * (i + i * n), 0)]) ++
  ((pairs p).zipIdx.flatMap fun qk => [(2 * (qk.1.2 + qk.1.1 * n), c (p + 2 * qk.2) / r2), (2 * (qk.1.1 + qk.1.2 * n), -(c (p + 2 * qk.2) / r2)),
    (2 * (qk.1.2 + qk.1.1 * n) + 1, c (p + 2 * qk.2 + 1) / r2), (2 * (qk.1.1 + qk.1.2 * n) + 1, c (p + 2 * qk.2 + 1) / r2)]) ++
  ((rest n p).zipIdx.flatMap fun qk => [(2 * (qk.1.2 + qk.1.1 * n), c (p + 2 * (pairs p).length + 2 * qk.2)), (2 * (qk.1.2 + qk.1.1 * n) + 1, c (p + 2 * (pairs p).length + 2 * qk.2 + 1))])

/-- The loops of `ObtainNorVerIntr`, CStiefel.cpp:354-378. -/
noncomputable def norIntr (p : Nat) (t : Nat → ℂ) : List ℝ :=
  (List.range p).map (fun i => (t (i + i * p)).re) ++ (pairs p).map (fun q => ((t (q.1 + q.2 * p)).re + (t (q.2 + q.1 * p)).re) / r2) ++
  (pairs p).map (fun q => ((t (q.1 + q.2 * p)).im - (t (q.2 + q.1 * p)).im) / r2)

/-- The loops of `ObtainNorVerExtr`, CStiefel.cpp:386-411, as writes of real numbers. The imaginary parts of the diagonal are not written. -/
noncomputable def norExtrWrites (p : Nat) (c : Nat → ℝ) : List (Nat × ℝ) :=
  ((List.range p).map fun i => (2 * (i + i * p), c i)) ++
  ((pairs p).zipIdx.flatMap fun qk => [(2 * (qk.1.1 + qk.1.2 * p), c (p + qk.2) / r2), (2 * (qk.1.2 + qk.1.1 * p), c (p + qk.2) / r2)]) ++
  ((pairs p).zipIdx.flatMap fun qk => [(2 * (qk.1.1 + qk.1.2 * p) + 1, c (p + (pairs p).length + qk.2) / r2), (2 * (qk.1.2 + qk.1.1 * p) + 1, -(c (p + (pairs p).length + qk.2) / r2))])

/-- Column-major buffer of a complex matrix. -/
def flat (A : Matrix (Fin n) (Fin p) ℂ) (k : Nat) : ℂ := if h : k % n < n ∧ k / n < p then A ⟨k % n, h.1⟩ ⟨k / n, h.2⟩ else 0

/-- The complex matrix in a column-major buffer of real numbers. -/
def unflat (n p : Nat) (b : Nat → ℝ) : Matrix (Fin n) (Fin p) ℂ := fun i j => Dense.cx b (i + j * n)

/-- The signs of the loops CStiefel.cpp:599-603, 682-686. -/
noncomputable def rowSigns (R : Matrix (Fin n) (Fin p) ℂ) (i : Fin n) : ℝ :=
  if h : i.1 < p then (if (R i ⟨i.1, h⟩).re < 0 then -1 else 1) else 1

/-- `scal_` on the rows. -/
noncomputable def scaleRows (s : Fin n → ℝ) (A : Matrix (Fin n) (Fin p) ℂ) : Matrix (Fin n) (Fin p) ℂ := fun i j => (s i : ℂ) * A i j

/-- `CStiefel::ObtainIntrHHR`, CStiefel.cpp:589-636; `Q` is the Householder factor (`HHRMtp` multiplies by it or by its conjugate transpose), `R` the triangle stored in `_HHR`. -/
noncomputable def cIntr (Q : Matrix (Fin n) (Fin n) ℂ) (R η : Matrix (Fin n) (Fin p) ℂ) : List ℝ := skewIntr n p (flat (scaleRows (rowSigns R) (Qᴴ * η)))

/-- `CStiefel::ObtainExtrHHR`, CStiefel.cpp:638-690; `junk` is the content of the memory obtained. -/
noncomputable def cExtr (junk : Nat → ℝ) (Q : Matrix (Fin n) (Fin n) ℂ) (R : Matrix (Fin n) (Fin p) ℂ) (c : List ℝ) : Matrix (Fin n) (Fin p) ℂ :=
  Q * scaleRows (rowSigns R) (unflat n p (writeAll junk (skewExtrWrites n p (buf c))))

/-- `CStiefel::ObtainNorVerIntr`, CStiefel.cpp:349-380. -/
noncomputable def normalIntr (x η : Matrix (Fin n) (Fin p) ℂ) : List ℝ := norIntr p (flat (xᴴ * η))

/-- `CStiefel::ObtainNorVerExtr`, CStiefel.cpp:382-414. -/
noncomputable def normalExtr (junk : Nat → ℝ) (x : Matrix (Fin n) (Fin p) ℂ) (c : List ℝ) : Matrix (Fin n) (Fin p) ℂ := x * unflat p p (writeAll junk (norExtrWrites p (buf c)))

end coords

/-! ### Two calls with a real receiver -/

/-- `Vector tmp3(p, p); … tmp3.AlphaABaddBetaThis(1, exix, GLOBAL::C, x, GLOBAL::N, 0)`, CStiefel.cpp:314-316 (`EucHvToHv` with the canonical metric): the receiver is a real `p × p` element. -/
noncomputable def hvReceiver (p : ℕ) (junk : Nat → ℝ) (exix x : Dense.El) : Option Dense.El := Dense.abThis (Dense.mk false p p 1 junk) 1 exix .C x .N 0

/-- `Vector A(p, p); A.AlphaABaddBetaThis(1, x, GLOBAL::C, y, GLOBAL::N, 0)`, CStiefel.cpp:528 (`InvPolarRetraction`): likewise. -/
noncomputable def invPolarReceiver (p : ℕ) (junk : Nat → ℝ) (x y : Dense.El) : Option Dense.El := Dense.abThis (Dense.mk false p p 1 junk) 1 x .C y .N 0

end Verif.CStiefel
