import Verif.Problem.BlindDecon

/-!
# The two-dimensional Fourier transform

Model of `Element::GetFFT2D` and `Element::FFT2D` (Manifolds/Element.cpp:1955-2002). FFTW is not part of the repository: `fftwPlan2d` states the sums its manual documents for `fftw_plan_dft_2d`,
for row-major arrays. Arithmetic is exact; a complex number is one entry. The result array differs from the input array (`result.ObtainWriteEntireData()` of a fresh copy).
-/

namespace Verif.FFT

open Finset

/-- `fftw_plan_dft_2d(n0, n1, in, out, sign)` followed by `fftw_execute`: arrays are row-major, `n0` rows of `n1` entries; position `p` of the output is row `p / n1`, column `p % n1`. -/
noncomputable def fftwPlan2d (s : ℝ) (n0 n1 : ℕ) (X : ℕ → ℂ) : ℕ → ℂ := fun p =>
  ∑ j0 ∈ range n0, ∑ j1 ∈ range n1,
    X (j0 * n1 + j1) * Complex.exp ((s * (2 * Real.pi * (((p / n1 : ℕ) : ℝ) * j0 / n0 + ((p % n1 : ℕ) : ℝ) * j1 / n1)) : ℝ) * Complex.I)

/-- `GetFFT2D`, Element.cpp:1956-1978: rows and columns exchanged (1966-1975). `s = -1` is `FFTW_FORWARD`, `s = 1` is `FFTW_BACKWARD`. -/
noncomputable def getFFT2D (s : ℝ) (n1 n2 : ℕ) (v : ℕ → ℂ) : ℕ → ℂ := fftwPlan2d s n2 n1 v

end Verif.FFT
