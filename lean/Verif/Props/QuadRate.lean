import Verif.Props.QuadLQN
import Mathlib.Analysis.InnerProductSpace.Spectrum
import Mathlib.LinearAlgebra.Eigenspace.Minpoly
import Mathlib.Analysis.SpecialFunctions.Trigonometric.Chebyshev.RootsExtrema
import Mathlib.Algebra.Polynomial.Inductions

/-!
# C176: how fast the conjugate gradient solver and steepest descent are on quadratic functions
-/

namespace Verif.QuadCG

open Verif.Dir
open scoped RealInnerProductSpace Classical
open Polynomial (aeval eval natDegree)

variable {E : Type*} [NormedAddCommGroup E] [InnerProductSpace ℝ E]

/-- The iterates of `RSD` (`RSD.cpp:26-35` in the loop `SolversSMLS.cpp:7-170`) with the same exact steps. -/
noncomputable def Setup.sdIterate (s : Setup E) : Nat → E
  | 0 => s.x0
  | k + 1 =>
    let x := s.sdIterate k
    let d := rsdDir s.c s.P (s.grad x)
    x + exactStep s.A (s.grad x) d • d

theorem rsdDir_id (c : ℝ) (P : E → E) (hP : ∀ v, P v = v) (g : E) : rsdDir c P g = -g := by
  unfold rsdDir
  simp only [hP, ite_self]

/-! ### Krylov spaces -/

section
variable {A : E →ₗ[ℝ] E} {b x0 : E}

/-- Span of the first directions. -/
noncomputable def dirs (A : E →ₗ[ℝ] E) (b x0 : E) (k : Nat) : Submodule ℝ E :=
  Submodule.span ℝ ((fun i => (linearCG A b x0 i).p) '' Set.Iio k)

theorem dirs_mono {j k : Nat} (h : j ≤ k) : dirs A b x0 j ≤ dirs A b x0 k :=
  Submodule.span_mono (Set.image_mono (Set.Iio_subset_Iio h))

theorem p_mem {j k : Nat} (h : j < k) : (linearCG A b x0 j).p ∈ dirs A b x0 k :=
  Submodule.subset_span ⟨j, h, rfl⟩

theorem r_mem (j : Nat) : (linearCG A b x0 j).r ∈ dirs A b x0 (j + 1) := by
  cases j with
  | zero => exact p_mem (Nat.lt_succ_self 0)
  | succ j =>
    have e : (linearCG A b x0 (j + 1)).r = (linearCG A b x0 (j + 1)).p - be A b x0 j • (linearCG A b x0 j).p := by
      rw [p_succ]; abel
    rw [e]
    exact Submodule.sub_mem _ (p_mem (by omega)) (Submodule.smul_mem _ _ (p_mem (by omega)))

theorem map_mem (hA : SPD A) (k : Nat) (v : E) (h : v ∈ dirs A b x0 k) : A v ∈ dirs A b x0 (k + 1) := by
  unfold dirs at h
  induction h using Submodule.span_induction with
  | mem v hv =>
    obtain ⟨i, hi, rfl⟩ := hv
    have hi : i < k := hi
    by_cases h0 : al A b x0 i = 0
    · simp only [al_zero hA (inv_all hA i) h0, map_zero, Submodule.zero_mem]
    · have e : A (linearCG A b x0 i).p = (al A b x0 i)⁻¹ • ((linearCG A b x0 i).r - (linearCG A b x0 (i + 1)).r) := by
        rw [r_succ, sub_sub_cancel, inv_smul_smul₀ h0]
      show A (linearCG A b x0 i).p ∈ _
      rw [e]
      exact Submodule.smul_mem _ _ (Submodule.sub_mem _ (dirs_mono (by omega) (r_mem i)) (dirs_mono (by omega) (r_mem (i + 1))))
  | zero => rw [map_zero]; exact Submodule.zero_mem _
  | add u v _ _ hu hv => rw [map_add]; exact Submodule.add_mem _ hu hv
  | smul c v _ hv => rw [map_smul]; exact Submodule.smul_mem _ _ hv

theorem pow_mem (hA : SPD A) (j : Nat) : (A ^ j) (b - A x0) ∈ dirs A b x0 (j + 1) := by
  induction j with
  | zero => exact r_mem 0
  | succ j ih =>
    rw [pow_succ']
    exact map_mem hA _ _ ih

theorem aeval_mem (hA : SPD A) (k : Nat) (q : Polynomial ℝ) (hq : q = 0 ∨ natDegree q < k) :
    aeval A q (b - A x0) ∈ dirs A b x0 k := by
  rcases hq with rfl | hq
  · simp
  · rw [Polynomial.aeval_eq_sum_range' hq, LinearMap.sum_apply]
    refine Submodule.sum_mem _ fun i hi => ?_
    rw [LinearMap.smul_apply]
    exact Submodule.smul_mem _ _ (dirs_mono (by have := Finset.mem_range.mp hi; omega) (pow_mem hA i))

theorem x_mem (k : Nat) : (linearCG A b x0 k).x - x0 ∈ dirs A b x0 k := by
  induction k with
  | zero => show x0 - x0 ∈ _; rw [sub_self]; exact Submodule.zero_mem _
  | succ k ih =>
    rw [x_succ, add_sub_right_comm]
    exact Submodule.add_mem _ (dirs_mono (by omega) ih) (Submodule.smul_mem _ _ (p_mem (by omega)))

theorem r_orth (hA : SPD A) (k : Nat) (v : E) (h : v ∈ dirs A b x0 k) : ⟪(linearCG A b x0 k).r, v⟫ = 0 := by
  unfold dirs at h
  induction h using Submodule.span_induction with
  | mem v hv => obtain ⟨i, hi, rfl⟩ := hv; exact (inv_all hA k).r_p i hi
  | zero => exact inner_zero_right _
  | add u v _ _ hu hv => rw [inner_add_right, hu, hv, add_zero]
  | smul c v _ hv => rw [inner_smul_right, hv, mul_zero]

theorem quad_nonneg (hA : SPD A) (v : E) : 0 ≤ ⟪v, A v⟫ := by
  by_cases h : v = 0
  · rw [h, inner_zero_left]
  · exact (hA.2 v h).le

theorem cost_sub (hA : SPD A) {z : E} (hz : A z = b) (v : E) : cost A b (z + v) - cost A b z = ⟪v, A v⟫ / 2 := by
  rw [cost_add A hA, hz, sub_self, inner_zero_left]; ring

theorem cg_optimal (hA : SPD A) {z : E} (hz : A z = b) (k : Nat) (q : Polynomial ℝ) (hq : natDegree q ≤ k)
    (h0 : eval 0 q = 1) :
    cost A b (linearCG A b x0 k).x - cost A b z ≤ ⟪aeval A q (x0 - z), A (aeval A q (x0 - z))⟫ / 2 := by
  have e : aeval A q (x0 - z) = (x0 - z) - aeval A q.divX (b - A x0) := by
    have h1 : aeval A q = aeval A q.divX * A + 1 := by
      conv_lhs => rw [← Polynomial.divX_mul_X_add q]
      rw [Polynomial.coeff_zero_eq_eval_zero, h0]
      simp
    rw [h1, LinearMap.add_apply, Module.End.mul_apply, map_sub, hz, Module.End.one_apply,
      show b - A x0 = -(A x0 - b) by abel, map_neg]
    abel
  have hm : aeval A q.divX (b - A x0) ∈ dirs A b x0 k := by
    refine aeval_mem hA k _ ?_
    rcases Nat.eq_zero_or_pos (natDegree q) with h | h
    · left
      rw [Polynomial.eq_C_of_natDegree_eq_zero h, Polynomial.divX_C]
    · right
      rw [Polynomial.natDegree_divX_eq_natDegree_tsub_one]; omega
  have hw : -(aeval A q.divX (b - A x0)) - ((linearCG A b x0 k).x - x0) ∈ dirs A b x0 k :=
    Submodule.sub_mem _ (Submodule.neg_mem _ hm) (x_mem k)
  have hy : z + aeval A q (x0 - z)
      = (linearCG A b x0 k).x + (-(aeval A q.divX (b - A x0)) - ((linearCG A b x0 k).x - x0)) := by
    rw [e]; abel
  have ho := r_orth hA k _ hw
  rw [← cost_sub hA hz, hy, cost_add A hA]
  rw [residual, ← neg_sub, inner_neg_left, neg_eq_zero] at ho
  rw [ho]
  have := quad_nonneg hA (-(aeval A q.divX (b - A x0)) - ((linearCG A b x0 k).x - x0))
  linarith
end

/-! ### Spectral decomposition -/

section
variable [FiniteDimensional ℝ E] {A : E →ₗ[ℝ] E}

theorem spectral (hA : SPD A) (q : Polynomial ℝ) (c : ℝ) (hc : ∀ μ v, v ≠ 0 → A v = μ • v → eval μ q ^ 2 ≤ c) (v : E) :
    ⟪aeval A q v, A (aeval A q v)⟫ ≤ c * ⟪v, A v⟫ := by
  have hS : A.IsSymmetric := hA.1
  let u := hS.eigenvectorBasis (rfl : Module.finrank ℝ E = _)
  let l := hS.eigenvalues (rfl : Module.finrank ℝ E = _)
  have hAu : ∀ i, A (u i) = l i • u i := fun i => hS.apply_eigenvectorBasis rfl i
  have hu : ∀ i, u i ≠ 0 := fun i => u.orthonormal.ne_zero i
  have hl : ∀ i, 0 < l i := by
    intro i
    have h := hA.2 (u i) (hu i)
    rw [hAu, inner_smul_right, real_inner_self_eq_norm_sq, u.orthonormal.1 i] at h
    linarith
  have hrA : ∀ w i, u.repr (A w) i = l i * u.repr w i := fun w i => hS.eigenvectorBasis_apply_self_apply rfl w i
  have hq : ∀ w i, u.repr (aeval A q w) i = eval (l i) q * u.repr w i := by
    intro w i
    clear hc
    induction q using Polynomial.induction_on' with
    | add p q hp hq => simp only [map_add, LinearMap.add_apply, PiLp.add_apply, Polynomial.eval_add] at *
                       rw [add_mul, ← hp, ← hq]
    | monomial n a =>
      rw [Polynomial.aeval_monomial, Polynomial.eval_monomial]
      have hp : u.repr ((A ^ n) w) i = l i ^ n * u.repr w i := by
        induction n with
        | zero => simp
        | succ n ih => rw [pow_succ', Module.End.mul_apply, hrA, ih, pow_succ']; ring
      rw [Module.End.mul_apply, Module.algebraMap_end_apply, map_smul, PiLp.smul_apply, smul_eq_mul, hp]; ring
  have hin : ∀ w, ⟪w, A w⟫ = ∑ i, l i * u.repr w i ^ 2 := by
    intro w
    rw [← u.repr.inner_map_map, PiLp.inner_apply]
    refine Finset.sum_congr rfl fun i _ => ?_
    rw [hrA]
    simp only [RCLike.inner_apply, conj_trivial]
    ring
  rw [hin, hin, Finset.mul_sum]
  refine Finset.sum_le_sum fun i _ => ?_
  rw [hq]
  have h1 := hc (l i) (u i) (hu i) (hAu i)
  have h2 : 0 ≤ l i * u.repr v i ^ 2 := mul_nonneg (hl i).le (sq_nonneg _)
  nlinarith [mul_le_mul_of_nonneg_right h1 h2]
end

/-! ### Chebyshev polynomials -/

theorem cheb_large (w : ℝ) (hw : 0 < w) (k : Nat) :
    eval ((w + w⁻¹) / 2) (Polynomial.Chebyshev.T ℝ k) = (w ^ k + (w⁻¹) ^ k) / 2 := by
  induction k using Nat.strong_induction_on with
  | _ k ih =>
    match k with
    | 0 => simp
    | 1 => simp
    | k + 2 =>
      have h0 := ih k (by omega)
      have h1 := ih (k + 1) (by omega)
      push_cast at h1 ⊢
      rw [Polynomial.Chebyshev.T_add_two, Polynomial.eval_sub, Polynomial.eval_mul, h0, h1]
      simp only [Polynomial.eval_mul, Polynomial.eval_ofNat, Polynomial.eval_X]
      have : w * w⁻¹ = 1 := mul_inv_cancel₀ hw.ne'
      have e1 : w ^ (k + 1) * w⁻¹ = w ^ k := by rw [pow_succ, mul_assoc, this, mul_one]
      have e2 : (w⁻¹) ^ (k + 1) * w = (w⁻¹) ^ k := by rw [pow_succ, mul_assoc, mul_comm w⁻¹ w, this, mul_one]
      have e3 : w ^ (k + 2) = w ^ (k + 1) * w := pow_succ _ _
      have e4 : (w⁻¹) ^ (k + 2) = (w⁻¹) ^ (k + 1) * w⁻¹ := pow_succ _ _
      rw [e3, e4]
      linear_combination (e1 + e2) / 2

/-- The polynomial of degree `k` that is one at zero and small between the bounds. -/
theorem cheb_exists {m M : ℝ} (hm : 0 < m) (hmM : m < M) (k : Nat) :
    ∃ q : Polynomial ℝ, natDegree q ≤ k ∧ eval 0 q = 1 ∧ ∀ t, m ≤ t → t ≤ M →
      eval t q ^ 2 ≤ 4 * ((√(M / m) - 1) / (√(M / m) + 1)) ^ (2 * k) := by
  set κ := √(M / m) with hκ
  have h1 : 1 < M / m := (one_lt_div hm).mpr hmM
  have hκ1 : 1 < κ := by rw [hκ]; exact Real.lt_sqrt_of_sq_lt (by simpa using h1)
  have hκ2 : κ ^ 2 = M / m := Real.sq_sqrt (by linarith)
  have hM : M = κ ^ 2 * m := by rw [hκ2]; field_simp
  have hd : 0 < M - m := by linarith
  set w := (κ + 1) / (κ - 1) with hw
  have hκm : 0 < κ - 1 := by linarith
  have hκp : 0 < κ + 1 := by linarith
  have hw0 : 0 < w := div_pos hκp hκm
  have hσ : (M + m) / (M - m) = (w + w⁻¹) / 2 := by
    rw [hw, inv_div, hM, div_add_div _ _ hκm.ne' hκp.ne', div_div, div_eq_div_iff (by rw [← hM]; exact hd.ne') (by positivity)]
    ring
  set T := Polynomial.Chebyshev.T ℝ k with hT
  set τ := eval ((M + m) / (M - m)) T with hτ
  have hτ2 : w ^ k / 2 ≤ τ := by
    rw [hτ, hσ, cheb_large w hw0]
    have : 0 ≤ (w⁻¹) ^ k := by positivity
    linarith
  have hτ0 : 0 < τ := lt_of_lt_of_le (by positivity) hτ2
  refine ⟨Polynomial.C τ⁻¹ * T.comp (Polynomial.C ((M + m) / (M - m)) - Polynomial.C (2 / (M - m)) * Polynomial.X), ?_, ?_, ?_⟩
  · refine (Polynomial.natDegree_C_mul_le _ _).trans ?_
    rw [Polynomial.natDegree_comp, hT, Polynomial.Chebyshev.natDegree_T, Int.natAbs_natCast]
    have : natDegree (Polynomial.C ((M + m) / (M - m)) - Polynomial.C (2 / (M - m)) * Polynomial.X) ≤ 1 := by
      refine (Polynomial.natDegree_sub_le _ _).trans ?_
      rw [Polynomial.natDegree_C]
      exact max_le (by omega) ((Polynomial.natDegree_C_mul_le _ _).trans Polynomial.natDegree_X_le)
    calc k * _ ≤ k * 1 := Nat.mul_le_mul_left k this
      _ = k := Nat.mul_one k
  · simp only [Polynomial.eval_mul, Polynomial.eval_C, Polynomial.eval_comp, Polynomial.eval_sub, Polynomial.eval_X, mul_zero, sub_zero]
    rw [← hτ]
    exact inv_mul_cancel₀ hτ0.ne'
  · intro t ht1 ht2
    simp only [Polynomial.eval_mul, Polynomial.eval_C, Polynomial.eval_comp, Polynomial.eval_sub, Polynomial.eval_X]
    have habs : |(M + m) / (M - m) - 2 / (M - m) * t| ≤ 1 := by
      have e : (M + m) / (M - m) - 2 / (M - m) * t = (M + m - 2 * t) / (M - m) := by ring
      rw [e, abs_div, abs_of_pos hd, div_le_one hd, abs_le]
      constructor <;> linarith
    have hT1 := Polynomial.Chebyshev.abs_eval_T_real_le_one (k : ℤ) habs
    rw [← hT] at hT1
    have hsq : eval ((M + m) / (M - m) - 2 / (M - m) * t) T ^ 2 ≤ 1 := (sq_le_one_iff_abs_le_one _).mpr hT1
    have hρ : (κ - 1) / (κ + 1) = w⁻¹ := by rw [hw, inv_div]
    have hτi : τ⁻¹ ≤ 2 * (w⁻¹) ^ k := by
      rw [inv_pow, ← div_eq_mul_inv, inv_le_comm₀ hτ0 (by positivity), inv_div]
      exact hτ2
    have hτi2 : τ⁻¹ ^ 2 ≤ (2 * (w⁻¹) ^ k) ^ 2 := pow_le_pow_left₀ (by positivity) hτi 2
    rw [hρ, mul_pow]
    calc τ⁻¹ ^ 2 * _ ≤ τ⁻¹ ^ 2 * 1 := mul_le_mul_of_nonneg_left hsq (by positivity)
      _ ≤ (2 * (w⁻¹) ^ k) ^ 2 := by rw [mul_one]; exact hτi2
      _ = 4 * (w⁻¹) ^ (2 * k) := by rw [mul_pow, ← pow_mul, mul_comm k 2]; norm_num

theorem cg_rate [FiniteDimensional ℝ E] {A : E →ₗ[ℝ] E} {b x0 z : E} (hA : SPD A) (hz : A z = b) (k : Nat) {m M : ℝ} (h0 : 0 < m)
    (hmM : m < M) (hlo : ∀ v, m * ‖v‖ ^ 2 ≤ ⟪v, A v⟫) (hhi : ∀ v, ⟪v, A v⟫ ≤ M * ‖v‖ ^ 2) :
    cost A b (linearCG A b x0 k).x - cost A b z
      ≤ 4 * ((√(M / m) - 1) / (√(M / m) + 1)) ^ (2 * k) * (cost A b x0 - cost A b z) := by
  obtain ⟨q, hq, hq0, hb⟩ := cheb_exists h0 hmM k
  have hle := cg_optimal (x0 := x0) hA hz k q hq hq0
  have hs := spectral hA q _ (fun μ v hv hμ => by
    have hn : 0 < ‖v‖ ^ 2 := by have := norm_pos_iff.mpr hv; positivity
    have e : ⟪v, A v⟫ = μ * ‖v‖ ^ 2 := by rw [hμ, inner_smul_right, real_inner_self_eq_norm_sq]
    refine hb μ ?_ ?_
    · have := hlo v; rw [e] at this; exact le_of_mul_le_mul_right this hn
    · have := hhi v; rw [e] at this; exact le_of_mul_le_mul_right this hn) (x0 - z)
  have h3 := cost_sub hA hz (x0 - z)
  rw [add_sub_cancel] at h3
  rw [h3]
  linarith

/-! ### C176 -/

/-- **C176.** As long as it has not ended, the run has after `k` passes the least cost among all points `z + q(A)(x0 - z)` with `q` a polynomial of
degree at most `k` that is one at zero, where `z` is the solution. -/
theorem C176_optimal (s : Setup E) (hA : SPD s.A) (hc : s.c < 1) (hP : ∀ v, s.P v = v) (hm : s.m ≠ .other) (k : Nat)
    (h : Running s k) (z : E) (hz : s.A z = s.b) (q : Polynomial ℝ) (hq : natDegree q ≤ k) (h0 : eval 0 q = 1) :
    ∃ x, s.iterate k = some x ∧ cost s.A s.b x ≤ cost s.A s.b (z + aeval s.A q (s.x0 - z)) := by
  refine ⟨_, C165_linear_cg s hA hc hP hm k h, ?_⟩
  have h1 := cg_optimal (x0 := s.x0) hA hz k q hq h0
  have h2 := cost_sub hA hz (aeval s.A q (s.x0 - z))
  linarith

/-- **C176.** The run ends after at most as many passes as the Hessian has distinct eigenvalues. -/
theorem C176_distinct [FiniteDimensional ℝ E] (s : Setup E) (hA : SPD s.A) (hc : s.c < 1) (hP : ∀ v, s.P v = v)
    (hm : s.m ≠ .other) (L : Finset ℝ) (hL : ∀ μ v, v ≠ 0 → s.A v = μ • v → μ ∈ L) :
    ∃ k, k ≤ L.card ∧ ∃ x, s.iterate k = some x ∧ s.A x = s.b := by
  obtain ⟨k, -, ⟨x, hx, hxb⟩, hbefore⟩ := C165_ends s hA hc hP hm
  refine ⟨k, ?_, x, hx, hxb⟩
  by_contra hlt
  push Not at hlt
  have hrun : Running s L.card := by
    intro j hj y hy
    obtain ⟨y', hy', hne⟩ := hbefore j (by omega)
    rw [hy] at hy'
    obtain rfl := Option.some.inj hy'
    exact hne
  set q : Polynomial ℝ := ∏ μ ∈ L, (1 - Polynomial.C μ⁻¹ * Polynomial.X) with hq
  have hdeg : natDegree q ≤ L.card := by
    rw [hq]
    refine (Polynomial.natDegree_prod_le _ _).trans ?_
    rw [Finset.card_eq_sum_ones]
    refine Finset.sum_le_sum fun μ _ => ?_
    refine (Polynomial.natDegree_sub_le _ _).trans ?_
    rw [Polynomial.natDegree_one]
    exact max_le (by omega) ((Polynomial.natDegree_C_mul_le _ _).trans Polynomial.natDegree_X_le)
  have h0 : eval 0 q = 1 := by simp [hq, Polynomial.eval_prod]
  obtain ⟨y, hy, hle⟩ := C176_optimal s hA hc hP hm _ hrun x hxb q hdeg h0
  obtain ⟨y', hy', hne⟩ := hbefore _ hlt
  rw [hy] at hy'
  obtain rfl := Option.some.inj hy'
  have hs := spectral hA q 0 (fun μ v hv hμ => by
    have hμ0 : μ ≠ 0 := by
      rintro rfl
      have := hA.2 v hv
      rw [hμ, zero_smul, inner_zero_right] at this
      exact lt_irrefl _ this
    have : eval μ q = 0 := by
      rw [hq, Polynomial.eval_prod]
      refine Finset.prod_eq_zero (hL μ v hv hμ) ?_
      simp [inv_mul_cancel₀ hμ0]
    rw [this]; norm_num) (s.x0 - x)
  have h2 := cost_sub hA hxb (aeval s.A q (s.x0 - x))
  have hyx : y ≠ x := fun e => hne (e ▸ hxb)
  have := C165_minimiser s.A hA s.b x hxb y hyx
  linarith

/-- **C176.** With curvatures between `m` and `M`, after `k` passes the distance of the cost from its least value has fallen by the factor
`4 ((√κ - 1) / (√κ + 1))^(2k)` at least, `κ = M / m`. -/
theorem C176_rate [FiniteDimensional ℝ E] (s : Setup E) (hA : SPD s.A) (hc : s.c < 1) (hP : ∀ v, s.P v = v)
    (hm : s.m ≠ .other) (k : Nat) (h : Running s k) (z : E) (hz : s.A z = s.b) (m M : ℝ) (h0 : 0 < m) (hmM : m < M)
    (hlo : ∀ v, m * ‖v‖ ^ 2 ≤ ⟪v, s.A v⟫) (hhi : ∀ v, ⟪v, s.A v⟫ ≤ M * ‖v‖ ^ 2) :
    ∃ x, s.iterate k = some x ∧ cost s.A s.b x - cost s.A s.b z
      ≤ 4 * ((√(M / m) - 1) / (√(M / m) + 1)) ^ (2 * k) * (cost s.A s.b s.x0 - cost s.A s.b z) := by
  exact ⟨_, C165_linear_cg s hA hc hP hm k h, cg_rate hA hz k h0 hmM hlo hhi⟩

/-- **C176.** The same holds of RBFGS and of RBroydenFamily with parameter one, while the cautious test passes. -/
theorem C176_rbfgs [FiniteDimensional ℝ E] {A : E →ₗ[ℝ] E} {b x0 z : E} (hA : SPD A) (hz : A z = b) (c : Verif.QN.Cautious)
    (upd : Verif.QN.Call E → (E →ₗ[ℝ] E) → Option (E →ₗ[ℝ] E)) (hupd : upd = Verif.QN.rbfgs c ∨ upd = Verif.QN.rbroyden c 1) (k : Nat)
    (hacc : ∀ j, j < k → Verif.QuadQN.Accepts c A b x0 j) (m M : ℝ) (h0 : 0 < m) (hmM : m < M)
    (hlo : ∀ v, m * ‖v‖ ^ 2 ≤ ⟪v, A v⟫) (hhi : ∀ v, ⟪v, A v⟫ ≤ M * ‖v‖ ^ 2) :
    ∃ x, (Verif.QuadQN.state upd A b x0 k).map Prod.fst = some x ∧ cost A b x - cost A b z
      ≤ 4 * ((√(M / m) - 1) / (√(M / m) + 1)) ^ (2 * k) * (cost A b x0 - cost A b z) :=
  ⟨_, Verif.QuadQN.C169_is_cg hA c upd hupd k hacc, cg_rate hA hz k h0 hmM hlo hhi⟩

/-- **C176.** And of LRBFGS with room for one pair at least. -/
theorem C176_lrbfgs [FiniteDimensional ℝ E] {A : E →ₗ[ℝ] E} {b x0 z : E} (hA : SPD A) (hz : A z = b) (c : Verif.QuadLQN.Cfg)
    (hcap : 0 < c.cap) (junk : Nat → ℝ) (k : Nat) (hacc : ∀ j, j < k → Verif.QuadQN.Accepts c.cau A b x0 j) (m M : ℝ) (h0 : 0 < m)
    (hmM : m < M) (hlo : ∀ v, m * ‖v‖ ^ 2 ≤ ⟪v, A v⟫) (hhi : ∀ v, ⟪v, A v⟫ ≤ M * ‖v‖ ^ 2) :
    ∃ x, (Verif.QuadLQN.state c junk A b x0 k).map Prod.fst = some x ∧ cost A b x - cost A b z
      ≤ 4 * ((√(M / m) - 1) / (√(M / m) + 1)) ^ (2 * k) * (cost A b x0 - cost A b z) :=
  ⟨_, Verif.QuadLQN.C172_is_cg hA c hcap junk k hacc, cg_rate hA hz k h0 hmM hlo hhi⟩

/-- **C176.** So `(√κ + 1) / 4 * log (4 / ε)` passes, or an earlier end, reduce it by the factor `ε`. -/
theorem C176_passes [FiniteDimensional ℝ E] (s : Setup E) (hA : SPD s.A) (hc : s.c < 1) (hP : ∀ v, s.P v = v)
    (hm : s.m ≠ .other) (k : Nat) (h : Running s k) (z : E) (hz : s.A z = s.b) (m M : ℝ) (h0 : 0 < m) (hmM : m < M)
    (hlo : ∀ v, m * ‖v‖ ^ 2 ≤ ⟪v, s.A v⟫) (hhi : ∀ v, ⟪v, s.A v⟫ ≤ M * ‖v‖ ^ 2) (ε : ℝ) (hε : 0 < ε)
    (hk : (√(M / m) + 1) / 4 * Real.log (4 / ε) ≤ k) :
    ∃ x, s.iterate k = some x ∧ cost s.A s.b x - cost s.A s.b z ≤ ε * (cost s.A s.b s.x0 - cost s.A s.b z) := by
  obtain ⟨x, hx, hle⟩ := C176_rate s hA hc hP hm k h z hz m M h0 hmM hlo hhi
  refine ⟨x, hx, hle.trans (mul_le_mul_of_nonneg_right ?_ ?_)⟩
  · set κ := √(M / m)
    have hκ1 : 1 < κ := Real.lt_sqrt_of_sq_lt (by rw [one_pow]; exact (one_lt_div h0).mpr hmM)
    have hκp : 0 < κ + 1 := by linarith
    have e : (κ - 1) / (κ + 1) = -(2 / (κ + 1)) + 1 := by field_simp; ring
    have hexp : (κ - 1) / (κ + 1) ≤ Real.exp (-(2 / (κ + 1))) := by rw [e]; exact Real.add_one_le_exp _
    have hpow : ((κ - 1) / (κ + 1)) ^ (2 * k) ≤ Real.exp (-(2 / (κ + 1))) ^ (2 * k) :=
      pow_le_pow_left₀ (div_nonneg (by linarith) hκp.le) hexp _
    rw [← Real.exp_nat_mul] at hpow
    have hlog : ((2 * k : ℕ) : ℝ) * (-(2 / (κ + 1))) ≤ -Real.log (4 / ε) := by
      have h1 : Real.log (4 / ε) ≤ 4 * k / (κ + 1) := by
        rw [le_div_iff₀ hκp]
        linarith
      have h2 : ((2 * k : ℕ) : ℝ) * (-(2 / (κ + 1))) = -(4 * k / (κ + 1)) := by push_cast; ring
      rw [h2]; linarith
    have h4 : Real.exp (-Real.log (4 / ε)) = ε / 4 := by
      rw [Real.exp_neg, Real.exp_log (by positivity), inv_div]
    have := hpow.trans (Real.exp_le_exp.mpr hlog)
    rw [h4] at this
    linarith
  · have h3 := cost_sub hA hz (s.x0 - z)
    rw [add_sub_cancel] at h3
    rw [h3]
    have := quad_nonneg hA (s.x0 - z)
    linarith

/-- **C176.** Every pass of steepest descent with exact steps reduces the distance of the cost from its least value by the factor
`((M - m) / (M + m))^2` at least. -/
theorem C176_steepest [FiniteDimensional ℝ E] (s : Setup E) (hA : SPD s.A) (hP : ∀ v, s.P v = v) (z : E) (hz : s.A z = s.b)
    (m M : ℝ) (h0 : 0 < m) (hmM : m ≤ M) (hlo : ∀ v, m * ‖v‖ ^ 2 ≤ ⟪v, s.A v⟫) (hhi : ∀ v, ⟪v, s.A v⟫ ≤ M * ‖v‖ ^ 2) (k : Nat) :
    cost s.A s.b (s.sdIterate k) - cost s.A s.b z
      ≤ ((M - m) / (M + m)) ^ (2 * k) * (cost s.A s.b s.x0 - cost s.A s.b z) := by
  induction k with
  | zero => simp [Setup.sdIterate]
  | succ k ih =>
    set x := s.sdIterate k with hxd
    have hMm : 0 < M + m := by linarith
    have hstep : cost s.A s.b (s.sdIterate (k + 1)) ≤ cost s.A s.b (x + (2 / (M + m)) • -(s.grad x)) := by
      show cost s.A s.b (x + exactStep s.A (s.grad x) (rsdDir s.c s.P (s.grad x)) • rsdDir s.c s.P (s.grad x)) ≤ _
      rw [rsdDir_id _ _ hP]
      by_cases hg : s.grad x = 0
      · simp [hg]
      · by_cases ht : 2 / (M + m) = exactStep s.A (s.grad x) (-(s.grad x))
        · rw [ht]
        · exact (C165_exact_step s.A hA s.b x (-(s.grad x)) (neg_ne_zero.mpr hg) _ ht).le
    set q : Polynomial ℝ := 1 - Polynomial.C (2 / (M + m)) * Polynomial.X with hq
    have hx : x + (2 / (M + m)) • -(s.grad x) = z + aeval s.A q (x - z) := by
      have : aeval s.A q (x - z) = (x - z) - (2 / (M + m)) • s.A (x - z) := by
        simp [hq, Module.algebraMap_end_apply]
      rw [this, map_sub, hz, smul_neg]
      unfold Setup.grad
      abel
    have hs := spectral hA q (((M - m) / (M + m)) ^ 2) (fun μ v hv hμ => by
      have hn : 0 < ‖v‖ ^ 2 := by have := norm_pos_iff.mpr hv; positivity
      have e : ⟪v, s.A v⟫ = μ * ‖v‖ ^ 2 := by rw [hμ, inner_smul_right, real_inner_self_eq_norm_sq]
      have l1 : m ≤ μ := by have := hlo v; rw [e] at this; exact le_of_mul_le_mul_right this hn
      have l2 : μ ≤ M := by have := hhi v; rw [e] at this; exact le_of_mul_le_mul_right this hn
      have e2 : eval μ q = (M + m - 2 * μ) / (M + m) := by
        simp only [hq, Polynomial.eval_sub, Polynomial.eval_one, Polynomial.eval_mul, Polynomial.eval_C, Polynomial.eval_X]
        field_simp
      rw [e2, div_pow, div_pow]
      refine div_le_div_of_nonneg_right ?_ (by positivity)
      exact sq_le_sq' (by linarith) (by linarith)) (x - z)
    have h2 := cost_sub hA hz (aeval s.A q (x - z))
    have h3 := cost_sub hA hz (x - z)
    rw [add_sub_cancel] at h3
    rw [hx] at hstep
    have hr : 0 ≤ ((M - m) / (M + m)) ^ 2 := sq_nonneg _
    calc cost s.A s.b (s.sdIterate (k + 1)) - cost s.A s.b z
        ≤ ((M - m) / (M + m)) ^ 2 * (cost s.A s.b x - cost s.A s.b z) := by rw [h3]; linarith
      _ ≤ ((M - m) / (M + m)) ^ 2 * (((M - m) / (M + m)) ^ (2 * k) * (cost s.A s.b s.x0 - cost s.A s.b z)) :=
        mul_le_mul_of_nonneg_left ih hr
      _ = _ := by rw [show 2 * (k + 1) = 2 + 2 * k by ring, pow_add]; ring

/-- Two curvatures. -/
noncomputable def diagA (m M : ℝ) : EuclideanSpace ℝ (Fin 2) →ₗ[ℝ] EuclideanSpace ℝ (Fin 2) where
  toFun v := !₂[m * v 0, M * v 1]
  map_add' u v := by ext i; fin_cases i <;> simp <;> ring
  map_smul' r v := by ext i; fin_cases i <;> simp <;> ring

theorem diagA_inner (m M : ℝ) (u v : EuclideanSpace ℝ (Fin 2)) : ⟪u, diagA m M v⟫ = m * (u 0 * v 0) + M * (u 1 * v 1) := by
  simp [diagA, PiLp.inner_apply, Fin.sum_univ_two]; ring

theorem diagA_norm (v : EuclideanSpace ℝ (Fin 2)) : ‖v‖ ^ 2 = v 0 * v 0 + v 1 * v 1 := by
  rw [← real_inner_self_eq_norm_sq, PiLp.inner_apply, Fin.sum_univ_two]
  simp [pow_two]

theorem diagA_spd {m M : ℝ} (hm : 0 < m) (hM : 0 < M) : SPD (diagA m M) := by
  refine ⟨fun u v => ?_, fun v hv => ?_⟩
  · rw [real_inner_comm, diagA_inner, diagA_inner]; ring
  · rw [diagA_inner]
    have h : 0 < ‖v‖ ^ 2 := by have := norm_pos_iff.mpr hv; positivity
    rw [diagA_norm] at h
    have h0 := mul_self_nonneg (v 0)
    have h1 := mul_self_nonneg (v 1)
    rcases h0.lt_or_eq with h2 | h2
    · nlinarith [mul_pos hm h2, mul_nonneg hM.le h1]
    · have : 0 < v 1 * v 1 := by linarith
      nlinarith [mul_pos hM this, mul_nonneg hm.le h0]

/-- A run from the point `(M, m)`. -/
noncomputable def zigzag (m M c : ℝ) (me : Method) : Setup (EuclideanSpace ℝ (Fin 2)) := ⟨diagA m M, 0, c, fun v => v, me, !₂[M, m]⟩

theorem zigzag_iterate {m M : ℝ} (hm : 0 < m) (hM : 0 < M) (c : ℝ) (me : Method) (k : Nat) :
    (zigzag m M c me).sdIterate k = ((M - m) / (M + m)) ^ k • !₂[M, (-1) ^ k * m] := by
  have hMm : 0 < M + m := by linarith
  induction k with
  | zero => simp [Setup.sdIterate, zigzag]
  | succ k ih =>
    show (zigzag m M c me).sdIterate k + exactStep (diagA m M) ((zigzag m M c me).grad ((zigzag m M c me).sdIterate k))
      (rsdDir c (fun v => v) ((zigzag m M c me).grad ((zigzag m M c me).sdIterate k))) •
      (rsdDir c (fun v => v) ((zigzag m M c me).grad ((zigzag m M c me).sdIterate k))) = _
    rw [rsdDir_id c _ (fun _ => rfl), ih]
    set ρ := (M - m) / (M + m) with hρ
    have hg : (zigzag m M c me).grad (ρ ^ k • !₂[M, (-1) ^ k * m]) = (ρ ^ k * (m * M)) • !₂[1, (-1) ^ k] := by
      ext i; fin_cases i <;> simp [Setup.grad, zigzag, diagA] <;> ring
    have hs : ((-1 : ℝ) ^ k) * (-1) ^ k = 1 := by rw [← mul_pow]; norm_num
    rw [hg]
    by_cases h0 : ρ ^ k = 0
    · rw [pow_succ, h0]; simp
    · have hp : ρ ^ k * (m * M) ≠ 0 := mul_ne_zero h0 (mul_pos hm hM).ne'
      have hst : exactStep (diagA m M) ((ρ ^ k * (m * M)) • !₂[1, (-1) ^ k]) (-((ρ ^ k * (m * M)) • !₂[1, (-1) ^ k])) = 2 / (M + m) := by
        unfold exactStep
        rw [diagA_inner, inner_neg_right, neg_neg, real_inner_self_eq_norm_sq, diagA_norm]
        simp only [PiLp.neg_apply, PiLp.smul_apply, smul_eq_mul, Matrix.cons_val_zero, Matrix.cons_val_one]
        have e1 : ρ ^ k * (m * M) * 1 * (ρ ^ k * (m * M) * 1) + ρ ^ k * (m * M) * (-1) ^ k * (ρ ^ k * (m * M) * (-1) ^ k)
            = (ρ ^ k * (m * M)) ^ 2 * 2 := by linear_combination (ρ ^ k * (m * M)) ^ 2 * hs
        have e2 : m * (-(ρ ^ k * (m * M) * 1) * -(ρ ^ k * (m * M) * 1)) + M * (-(ρ ^ k * (m * M) * (-1) ^ k) * -(ρ ^ k * (m * M) * (-1) ^ k))
            = (ρ ^ k * (m * M)) ^ 2 * (M + m) := by linear_combination M * (ρ ^ k * (m * M)) ^ 2 * hs
        rw [e1, e2, mul_div_mul_left _ _ (pow_ne_zero 2 hp)]
      rw [hst]
      ext i; fin_cases i
      · simp [pow_succ, hρ]; field_simp; ring
      · simp [pow_succ, hρ]; field_simp; ring

/-- **C176.** The factor of steepest descent is attained in every pass, for any two curvatures: RCG is through after two passes,
RSD never. -/
theorem C176_steepest_sharp {m M : ℝ} (hm : 0 < m) (hM : m < M) (c : ℝ) (me : Method) (k : Nat) :
    SPD (zigzag m M c me).A ∧
    (∀ v, m * ‖v‖ ^ 2 ≤ ⟪v, (zigzag m M c me).A v⟫) ∧ (∀ v, ⟪v, (zigzag m M c me).A v⟫ ≤ M * ‖v‖ ^ 2) ∧
    cost (zigzag m M c me).A (zigzag m M c me).b ((zigzag m M c me).sdIterate k)
      = ((M - m) / (M + m)) ^ (2 * k) * cost (zigzag m M c me).A (zigzag m M c me).b (zigzag m M c me).x0 ∧
    (zigzag m M c me).A ((zigzag m M c me).sdIterate k) ≠ (zigzag m M c me).b := by
  have hM0 : 0 < M := by linarith
  refine ⟨diagA_spd hm hM0, fun v => ?_, fun v => ?_, ?_, ?_⟩
  · rw [show (zigzag m M c me).A = diagA m M from rfl, diagA_inner, diagA_norm]
    nlinarith [mul_self_nonneg (v 1)]
  · rw [show (zigzag m M c me).A = diagA m M from rfl, diagA_inner, diagA_norm]
    nlinarith [mul_self_nonneg (v 0)]
  · rw [zigzag_iterate hm hM0]
    have hs : ((-1 : ℝ) ^ k) * (-1) ^ k = 1 := by rw [← mul_pow]; norm_num
    unfold cost
    rw [show (zigzag m M c me).A = diagA m M from rfl, show (zigzag m M c me).b = 0 from rfl,
      show (zigzag m M c me).x0 = !₂[M, m] from rfl, diagA_inner, diagA_inner]
    simp only [inner_zero_left, sub_zero, PiLp.smul_apply, smul_eq_mul, Matrix.cons_val_zero, Matrix.cons_val_one]
    have : ((M - m) / (M + m)) ^ (2 * k) = ((M - m) / (M + m)) ^ k * ((M - m) / (M + m)) ^ k := by rw [two_mul, pow_add]
    rw [this]
    linear_combination (((M - m) / (M + m)) ^ k) ^ 2 * M * m ^ 2 / 2 * hs
  · rw [zigzag_iterate hm hM0]
    intro h
    have h1 := congrArg (fun v : EuclideanSpace ℝ (Fin 2) => v 0) h
    simp [zigzag, diagA] at h1
    rcases h1 with h1 | h1 | h1
    · rcases h1.1 with h2 | h2 <;> linarith
    · exact hm.ne' h1
    · exact hM0.ne' h1

/-- The conjugate gradient solver on the same problem: two distinct curvatures, two passes. -/
example (m M c : ℝ) (hm : 0 < m) (hM : m < M) (hc : c < 1) (me : Method) (hme : me ≠ .other) :
    ∃ k, k ≤ 2 ∧ ∃ x, (zigzag m M c me).iterate k = some x ∧ (zigzag m M c me).A x = (zigzag m M c me).b := by
  obtain ⟨k, hk, h⟩ := C176_distinct (zigzag m M c me) (diagA_spd hm (by linarith)) hc (fun _ => rfl) hme {m, M} (by
    intro μ v hv h
    have h0 := congrArg (fun v : EuclideanSpace ℝ (Fin 2) => v 0) h
    have h1 := congrArg (fun v : EuclideanSpace ℝ (Fin 2) => v 1) h
    simp [zigzag, diagA] at h0 h1
    by_contra hn
    simp only [Finset.mem_insert, Finset.mem_singleton, not_or] at hn
    refine hv (PiLp.ext fun i => ?_)
    fin_cases i
    · exact h0.resolve_left (fun e => hn.1 e.symm)
    · exact h1.resolve_left (fun e => hn.2 e.symm))
  exact ⟨k, hk.trans Finset.card_le_two, h⟩

theorem zigzag_running {m M : ℝ} (hm : 0 < m) (hM : 0 < M) (c : ℝ) (me : Method) : Running (zigzag m M c me) 1 := by
  intro j hj x hx h
  obtain rfl : j = 0 := by omega
  obtain rfl := Option.some.inj hx
  have h0 := congrArg (fun v : EuclideanSpace ℝ (Fin 2) => v 0) h
  simp [zigzag, diagA, hm.ne', hM.ne'] at h0

/-- Condition number four: the first pass divides the distance by nine fourths at least. -/
example (c : ℝ) (hc : c < 1) (me : Method) (hme : me ≠ .other) :
    ∃ x, (zigzag 1 4 c me).iterate 1 = some x ∧ cost (zigzag 1 4 c me).A (zigzag 1 4 c me).b x - cost (zigzag 1 4 c me).A (zigzag 1 4 c me).b 0
      ≤ 4 / 9 * (cost (zigzag 1 4 c me).A (zigzag 1 4 c me).b (zigzag 1 4 c me).x0 - cost (zigzag 1 4 c me).A (zigzag 1 4 c me).b 0) := by
  obtain ⟨-, h2, h3, -⟩ := C176_steepest_sharp (m := 1) (M := 4) (by norm_num) (by norm_num) c me 0
  obtain ⟨x, hx, h⟩ := C176_rate (zigzag 1 4 c me) (diagA_spd (by norm_num) (by norm_num)) hc (fun _ => rfl) hme 1
    (zigzag_running (by norm_num) (by norm_num) c me) 0 (map_zero _) 1 4 (by norm_num) (by norm_num) h2 h3
  refine ⟨x, hx, ?_⟩
  rw [show √((4 : ℝ) / 1) = 2 by rw [show (4 : ℝ) / 1 = 2 ^ 2 by norm_num]; exact Real.sqrt_sq (by norm_num)] at h
  norm_num at h ⊢
  exact h

end Verif.QuadCG
