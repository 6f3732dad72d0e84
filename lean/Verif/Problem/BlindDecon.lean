import Verif.Others.Wavelet
import Mathlib.Analysis.SpecialFunctions.Complex.Circle

/-!
# Blind deconvolution

Model of Problems/CFRankQ2FBlindDecon2D.cpp and of `Element::GetFFT2D` (Element.cpp:1956-1978).

A complex number of the code is one entry; arrays are functions on `Nat`. Arithmetic is exact. The sparse matrices are given by their entries (`Verif.Sparse` shows that the products with them are the matrix
products). `FFTW` computes the sums of its documentation. The rank `r` is one: for more columns `Reshape(n1, n2)` fails (Element.cpp:1820). The fields stored by `f` are passed as values. `none`: memory outside `V` is read.
-/

namespace Verif.BlindDecon

open Finset Verif.Wavelet

/-- One term of the transform of FFTW, sign `s`; positions are column-major in an `n1 × n2` matrix, the code exchanges the dimensions for FFTW (Element.cpp:1964-1972). -/
noncomputable def kernel (s : ℝ) (n1 n2 p q : Nat) : ℂ :=
  Complex.exp ((s * 2 * Real.pi * (((p % n1 : Nat) : ℝ) * ((q % n1 : Nat) : ℝ) / n1 + ((p / n1 : Nat) : ℝ) * ((q / n1 : Nat) : ℝ) / n2) : ℝ) * Complex.I)

/-- `GetFFT2D`, Element.cpp:1956-1978: `s = -1` is `FFTW_FORWARD`, `s = 1` is `FFTW_BACKWARD`; neither is normalised. -/
noncomputable def fft (s : ℝ) (n1 n2 : Nat) (v : Nat → ℂ) : Nat → ℂ := fun p => ∑ q ∈ range (n1 * n2), kernel s n1 n2 p q * v q

/-- `A * x` with an `m × n` matrix, Element.cpp:719-743. -/
noncomputable def mulVec (n : Nat) (A : Nat → Nat → ℂ) (x : Nat → ℂ) : Nat → ℂ := fun q => ∑ k ∈ range n, A q k * x k

/-- `(w.GetTranspose() * A).GetTranspose()`: `GetTranspose` of a complex element also conjugates (Element.cpp:2275-2288). -/
noncomputable def adjVec (m : Nat) (A : Nat → Nat → ℂ) (w : Nat → ℂ) : Nat → ℂ := fun k => (starRingEnd ℂ) (∑ q ∈ range m, (starRingEnd ℂ) (w q) * A q k)

/-- The data of the problem, lines 8-26: `B` has `kU`, `C` has `kV` columns. `junk` is the contents of new memory of the wavelet transforms. -/
structure Prob where
  n1 : Nat
  n2 : Nat
  kU : Nat
  kV : Nat
  y : Nat → ℂ
  B : Nat → Nat → ℂ
  C : Nat → Nat → ℂ
  rho : ℝ
  d : ℝ
  mu : ℝ
  junk : Nat → ℂ

namespace Prob

variable (P : Prob)

/-- Line 16. -/
def L : Nat := P.n1 * P.n2

/-- `FBU`, line 36. -/
noncomputable def fbu (U : Nat → ℂ) : Nat → ℂ := fft (-1) P.n1 P.n2 (mulVec P.kU P.B U)

/-- `FCV`, line 36. -/
noncomputable def fcv (V : Nat → ℂ) : Nat → ℂ := fft 1 P.n1 P.n2 (ihaar P.L 1 P.junk (mulVec P.kV P.C V))

/-- `ymdiagBXC`, lines 42-46. -/
noncomputable def res (b c : Nat → ℂ) : Nat → ℂ := fun i => ⟨(P.y i).re - ((b i).re * (c i).re + (b i).im * (c i).im), (P.y i).im - ((b i).im * (c i).re - (b i).re * (c i).im)⟩

/-- `DotProduct` of a complex element with itself. -/
noncomputable def sq (n : Nat) (v : Nat → ℂ) : ℝ := ∑ i ∈ range n, ((v i).re * (v i).re + (v i).im * (v i).im)

/-- `tmp`, line 51. -/
noncomputable def tmp : ℝ := P.L / 8 / P.d / P.d / P.mu / P.mu

/-- `rownorm2FBU[i]`, lines 55-59, one column. -/
noncomputable def rowNorm (b : Nat → ℂ) (i : Nat) : ℝ := (b i).re * (b i).re + (b i).im * (b i).im

/-- `rownorm2FBU[L]`, lines 60-62: `L` complex numbers of `V` are read. -/
noncomputable def vNorm (V : Nat → ℂ) : Option ℝ := if P.L ≤ P.kV then some (sq P.L V) else none

/-- `(t < 0) ? 0 : t`, lines 67, 104, 112, where `t = tmp * rownorm2FBU[i] * rownorm2FBU[L] - 1`. -/
noncomputable def excess (b : Nat → ℂ) (w : ℝ) (i : Nat) : ℝ := if P.tmp * rowNorm b i * w - 1 < 0 then 0 else P.tmp * rowNorm b i * w - 1

/-- `f`, lines 33-80. -/
noncomputable def f (U V : Nat → ℂ) : Option ℝ :=
  let b := P.fbu U
  let c := P.fcv V
  let r := P.res b c
  if P.rho = 0 then some (sq P.L r + 0)
  else match P.vNorm V with
    | none => none
    | some w => some (sq P.L r + ∑ i ∈ range P.L, P.rho * P.excess b w i * P.excess b w i)

/-- The part of the gradient from the data, line 90. -/
noncomputable def dataU (b c : Nat → ℂ) : Nat → ℂ := fun k => (-2) * adjVec P.L P.B (fft 1 P.n1 P.n2 fun i => P.res b c i * c i) k

/-- Line 92. -/
noncomputable def dataV (b c : Nat → ℂ) : Nat → ℂ := fun k => (-2) * adjVec P.L P.C (haar P.L 1 P.junk (fft (-1) P.n1 P.n2 fun i => (starRingEnd ℂ) (P.res b c i) * b i)) k

/-- `EucGrad`, lines 82-120. -/
noncomputable def eucGrad (U V : Nat → ℂ) : Option ((Nat → ℂ) × (Nat → ℂ)) :=
  let b := P.fbu U
  let c := P.fcv V
  if P.rho = 0 then some (P.dataU b c, P.dataV b c)
  else match P.vNorm V with
    | none => none
    | some w =>
      let coef := fun i => 2 * P.tmp * P.rho * 2 * P.excess b w i * w
      let coef2 := ∑ i ∈ range P.L, 2 * P.tmp * P.rho * rowNorm b i * 2 * P.excess b w i
      some (fun k => P.dataU b c k + adjVec P.L P.B (fft 1 P.n1 P.n2 fun i => (coef i : ℂ) * b i) k, fun k => P.dataV b c k + (coef2 : ℂ) * V k)

/-- `EucHessianEta`, lines 122-144. -/
noncomputable def eucHess (U V dU dV : Nat → ℂ) : (Nat → ℂ) × (Nat → ℂ) :=
  let b := P.fbu U
  let c := P.fcv V
  let r := P.res b c
  let db := P.fbu dU
  let dc := P.fcv dV
  let g := fun i => b i * (starRingEnd ℂ) (dc i) + db i * (starRingEnd ℂ) (c i)
  (fun k => 2 * adjVec P.L P.B (fft 1 P.n1 P.n2 fun i => g i * c i) k + (-2) * adjVec P.L P.B (fft 1 P.n1 P.n2 fun i => r i * dc i) k,
    fun k => 2 * adjVec P.L P.C (haar P.L 1 P.junk (fft (-1) P.n1 P.n2 fun i => (starRingEnd ℂ) (g i) * b i)) k +
      (-2) * adjVec P.L P.C (haar P.L 1 P.junk (fft (-1) P.n1 P.n2 fun i => (starRingEnd ℂ) (r i) * db i)) k)

end Prob

end Verif.BlindDecon
