import Verif.Problem.EigHess
import Mathlib.Analysis.InnerProductSpace.Spectrum
import Mathlib.Analysis.Calculus.Deriv.Slope
import Mathlib.Analysis.Calculus.Deriv.Comp
import Mathlib.Analysis.Calculus.Deriv.Mul
import Mathlib.Analysis.SpecificLimits.Basic
import Mathlib.Tactic.LinearCombination

/-!
# C110: extreme eigenvalues of the Hessian. C111: what `CheckGradHessian` tests
-/

namespace Verif.EigHess

variable {V : Type*} [NormedAddCommGroup V] [InnerProductSpace ℝ V]

/-! ## C110 -/

/-- The operator whose smallest eigenvalue is sought. -/
noncomputable def sgn (H : V →ₗ[ℝ] V) (ismin : Bool) : V →ₗ[ℝ] V := if ismin then H else -H

theorem rq_eq (H : V →ₗ[ℝ] V) (b : Bool) (x : V) : rq H b x = inner ℝ (sgn H b x) x := by
  cases b <;> simp [rq, sgn]

theorem egrad_eq (H : V →ₗ[ℝ] V) (b : Bool) (x : V) : egrad H b x = (2 : ℝ) • sgn H b x := by
  cases b <;> simp [egrad, sgn]

theorem ehess_eq (H : V →ₗ[ℝ] V) (b : Bool) (x : V) : ehess H b x = (2 : ℝ) • sgn H b x := by
  cases b <;> simp [ehess, sgn]

theorem sgn_sym {H : V →ₗ[ℝ] V} (hH : H.IsSymmetric) (b : Bool) : (sgn H b).IsSymmetric := by
  cases b
  · intro x y
    simp only [sgn, Bool.false_eq_true, if_false, LinearMap.neg_apply, inner_neg_left, inner_neg_right, hH x y]
  · exact hH

theorem grad_eq (H : V →ₗ[ℝ] V) (b : Bool) (x : V) : grad H b x = (2 : ℝ) • (sgn H b x - rq H b x • x) := by
  rw [grad, egrad_eq, rq_eq, proj, real_inner_smul_right, real_inner_comm]
  module

theorem hess_inner (H : V →ₗ[ℝ] V) (b : Bool) (x : V) {η : V} (hη : inner ℝ x η = 0) :
    inner ℝ (hess H b x η) η = 2 * (inner ℝ (sgn H b η) η - rq H b x * ‖η‖ ^ 2) := by
  rw [hess, proj, inner_add_left, real_inner_smul_left, hη, mul_zero, zero_add, inner_add_left, one_smul, real_inner_smul_left, ehess_eq, real_inner_smul_left, egrad_eq, real_inner_smul_left,
    ← rq_eq H b x, real_inner_self_eq_norm_sq]
  ring

/-- **C110.** The gradient vanishes exactly at the eigenvectors of the Hessian, and the number reported is then their eigenvalue. -/
theorem C110_first_order (H : V →ₗ[ℝ] V) (b : Bool) (x : V) : grad H b x = 0 ↔ H x = reported H b x • x := by
  rw [grad_eq, smul_eq_zero, or_iff_right two_ne_zero, sub_eq_zero]
  cases b
  · simp only [sgn, reported, rq, Bool.false_eq_true, if_false, LinearMap.neg_apply, neg_neg, neg_smul, neg_inj]
  · simp only [sgn, reported, rq, if_true]

/-- **C110.** The points at which the gradient vanishes and the Hessian on the sphere is positive semidefinite are exactly the global minimisers of the Rayleigh quotient: there are no other local minima. -/
theorem C110_second_order {H : V →ₗ[ℝ] V} (hH : H.IsSymmetric) (b : Bool) {x : V} (hx : ‖x‖ = 1) :
    (grad H b x = 0 ∧ ∀ η, inner ℝ x η = 0 → 0 ≤ inner ℝ (hess H b x η) η) ↔ ∀ v, ‖v‖ = 1 → rq H b x ≤ rq H b v := by
  have hS := sgn_sym hH b
  have hxx : inner ℝ x x = (1 : ℝ) := by rw [real_inner_self_eq_norm_sq, hx, one_pow]
  constructor
  · rintro ⟨h1, h2⟩ v hv
    rw [grad_eq, smul_eq_zero, or_iff_right two_ne_zero, sub_eq_zero] at h1
    have hη : inner ℝ x (v - inner ℝ x v • x) = 0 := by rw [inner_sub_right, real_inner_smul_right, hxx, mul_one, sub_self]
    have h3 := h2 _ hη
    rw [hess_inner H b x hη] at h3
    generalize he : v - inner ℝ x v • x = η at *
    have hv' : v = inner ℝ x v • x + η := by rw [← he]; abel
    generalize inner ℝ x v = a at *
    have n1 : ‖v‖ ^ 2 = a ^ 2 + ‖η‖ ^ 2 := by
      rw [hv', ← real_inner_self_eq_norm_sq, inner_add_left, inner_add_right, inner_add_right, real_inner_smul_left, real_inner_smul_left, real_inner_smul_right, real_inner_smul_right, hxx, hη,
        real_inner_comm, hη, real_inner_self_eq_norm_sq]
      ring
    have n2 : rq H b v = a ^ 2 * rq H b x + inner ℝ (sgn H b η) η := by
      rw [rq_eq H b v, hv', map_add, map_smul, h1, inner_add_left, inner_add_right, inner_add_right]
      simp only [real_inner_smul_left, real_inner_smul_right, hxx, hη, hS η x, h1, real_inner_comm x η]
      ring
    rw [hv, one_pow] at n1
    rw [n2]
    have e : rq H b x = a ^ 2 * rq H b x + rq H b x * ‖η‖ ^ 2 := by
      rw [mul_comm (rq H b x) (‖η‖ ^ 2), ← add_mul, ← n1, one_mul]
    linarith
  · intro h
    have hall : ∀ v, rq H b x * ‖v‖ ^ 2 ≤ inner ℝ (sgn H b v) v := by
      intro v
      by_cases h0 : v = 0
      · simp [h0]
      · have hn : ‖v‖ ≠ 0 := norm_ne_zero_iff.mpr h0
        have h1 := h ((‖v‖)⁻¹ • v) (by rw [norm_smul, norm_inv, norm_norm, inv_mul_cancel₀ hn])
        rw [rq_eq H b (_ • v), map_smul, real_inner_smul_left, real_inner_smul_right] at h1
        have h2 := mul_le_mul_of_nonneg_right h1 (sq_nonneg ‖v‖)
        have e : (‖v‖⁻¹ * (‖v‖⁻¹ * inner ℝ (sgn H b v) v)) * ‖v‖ ^ 2 = inner ℝ (sgn H b v) v := by field_simp
        linarith
    constructor
    · rw [grad_eq, smul_eq_zero, or_iff_right two_ne_zero]
      set d := sgn H b x - rq H b x • x with hd
      have hdd : inner ℝ (sgn H b x) d - rq H b x * inner ℝ x d = ‖d‖ ^ 2 := by
        rw [← real_inner_self_eq_norm_sq d, ← real_inner_smul_left, ← inner_sub_left, ← hd]
      have key : ∀ t : ℝ, 0 ≤ 2 * t * ‖d‖ ^ 2 + t ^ 2 * (inner ℝ (sgn H b d) d - rq H b x * ‖d‖ ^ 2) := by
        intro t
        have h1 := hall (x + t • d)
        have n1 : ‖x + t • d‖ ^ 2 = 1 + 2 * t * inner ℝ x d + t ^ 2 * ‖d‖ ^ 2 := by
          rw [← real_inner_self_eq_norm_sq, inner_add_left, inner_add_right, inner_add_right, real_inner_smul_left, real_inner_smul_left, real_inner_smul_right, real_inner_smul_right, hxx,
            real_inner_comm x d, real_inner_self_eq_norm_sq]
          ring
        have n2 : inner ℝ (sgn H b (x + t • d)) (x + t • d) = rq H b x + 2 * t * inner ℝ (sgn H b x) d + t ^ 2 * inner ℝ (sgn H b d) d := by
          rw [map_add, map_smul, inner_add_left, inner_add_right, inner_add_right, ← rq_eq]
          simp only [real_inner_smul_left, real_inner_smul_right]
          rw [hS d x, real_inner_comm (sgn H b x) d]
          ring
        rw [n1, n2] at h1
        have e : 2 * t * ‖d‖ ^ 2 = 2 * t * inner ℝ (sgn H b x) d - 2 * t * (rq H b x * inner ℝ x d) := by rw [← hdd]; ring
        rw [e]
        linarith
      by_contra hne
      have hpos : 0 < ‖d‖ ^ 2 := by positivity
      set c := inner ℝ (sgn H b d) d - rq H b x * ‖d‖ ^ 2
      have hc0 : 0 ≤ c := by have := hall d; simp only [c]; linarith
      have h1 := key (-(‖d‖ ^ 2 / (c + 1)))
      have h2 : (-(‖d‖ ^ 2 / (c + 1))) ^ 2 * c ≤ ‖d‖ ^ 2 / (c + 1) * ‖d‖ ^ 2 := by
        rw [neg_sq, pow_two (‖d‖ ^ 2 / (c + 1)), mul_assoc]
        refine mul_le_mul_of_nonneg_left ?_ (by positivity)
        rw [div_mul_eq_mul_div, div_le_iff₀ (by linarith)]
        nlinarith
      have h3 : 0 < ‖d‖ ^ 2 / (c + 1) * ‖d‖ ^ 2 := by positivity
      nlinarith
    · intro η hη
      rw [hess_inner H b x hη]
      have := hall η
      linarith

/-- **C110.** The number reported for any unit vector is within half the norm of the gradient of some eigenvalue. -/
theorem C110_accuracy [FiniteDimensional ℝ V] {H : V →ₗ[ℝ] V} (hH : H.IsSymmetric) (b : Bool) {x : V} (hx : ‖x‖ = 1) :
    ∃ μ : ℝ, ∃ v, v ≠ 0 ∧ H v = μ • v ∧ |μ - reported H b x| ≤ ‖grad H b x‖ / 2 := by
  have hg : ‖grad H b x‖ / 2 = ‖H x - reported H b x • x‖ := by
    rw [grad_eq, norm_smul]
    cases b
    · simp only [sgn, reported, rq, Bool.false_eq_true, if_false, LinearMap.neg_apply, neg_neg, neg_smul]
      rw [show -H x - -(inner ℝ (H x) x • x) = -(H x - inner ℝ (H x) x • x) by abel, norm_neg]
      norm_num
    · simp only [sgn, reported, rq, if_true]
      norm_num
  rw [hg]
  generalize reported H b x = l
  set B := hH.eigenvectorBasis rfl
  have hco : ∀ i, inner ℝ (B i) (H x - l • x) = (hH.eigenvalues rfl i - l) * inner ℝ (B i) x := by
    intro i
    rw [inner_sub_right, ← hH (B i) x, hH.apply_eigenvectorBasis, real_inner_smul_left, real_inner_smul_right]
    simp only [RCLike.ofReal_real_eq_id, id]
    ring
  by_contra hcon
  push Not at hcon
  have hi : ∀ i, ‖H x - l • x‖ < |hH.eigenvalues rfl i - l| := by
    intro i
    refine hcon (hH.eigenvalues rfl i) (B i) ?_ ?_
    · have := B.orthonormal.1 i
      intro h0
      rw [h0, norm_zero] at this
      exact zero_ne_one this
    · exact hH.apply_eigenvectorBasis rfl i
  have s1 : ∑ i, inner ℝ (B i) x ^ 2 = 1 := by
    have := B.sum_sq_norm_inner_right x
    rw [hx, one_pow] at this
    rw [← this]
    exact Finset.sum_congr rfl fun i _ => by rw [Real.norm_eq_abs, sq_abs]
  have s2 : ∑ i, ((hH.eigenvalues rfl i - l) * inner ℝ (B i) x) ^ 2 = ‖H x - l • x‖ ^ 2 := by
    have := B.sum_sq_norm_inner_right (H x - l • x)
    rw [← this]
    exact Finset.sum_congr rfl fun i _ => by rw [Real.norm_eq_abs, sq_abs, hco]
  have hne : ∃ i, inner ℝ (B i) x ≠ 0 := by
    by_contra h0
    push Not at h0
    rw [Finset.sum_eq_zero fun i _ => by rw [h0 i]; simp] at s1
    exact zero_ne_one s1
  obtain ⟨k, hk⟩ := hne
  have hlt : ‖H x - l • x‖ ^ 2 * ∑ i, inner ℝ (B i) x ^ 2 < ∑ i, ((hH.eigenvalues rfl i - l) * inner ℝ (B i) x) ^ 2 := by
    rw [Finset.mul_sum]
    have hsq : ∀ i, ‖H x - l • x‖ ^ 2 < (hH.eigenvalues rfl i - l) ^ 2 := fun i => by
      rw [← sq_abs (hH.eigenvalues rfl i - l)]
      exact pow_lt_pow_left₀ (hi i) (norm_nonneg _) two_ne_zero
    refine Finset.sum_lt_sum (fun i _ => ?_) ⟨k, Finset.mem_univ k, ?_⟩
    · rw [mul_pow]
      exact mul_le_mul_of_nonneg_right (hsq i).le (sq_nonneg _)
    · rw [mul_pow]
      exact mul_lt_mul_of_pos_right (hsq k) (by positivity)
  rw [s1, s2, mul_one] at hlt
  exact lt_irrefl _ hlt

/-- The diagonal operator `diag(1, 2)` of the plane. -/
noncomputable def exH : EuclideanSpace ℝ (Fin 2) →ₗ[ℝ] EuclideanSpace ℝ (Fin 2) where
  toFun v := !₂[v 0, 2 * v 1]
  map_add' v w := by
    ext i
    fin_cases i <;> simp [mul_add]
  map_smul' c v := by
    ext i
    fin_cases i <;> simp
    ring

theorem exH_sym : exH.IsSymmetric := by
  intro v w
  simp [exH, EuclideanSpace.inner_eq_star_dotProduct, dotProduct, Fin.sum_univ_two]
  ring

theorem ex_unit : ‖(!₂[0, 1] : EuclideanSpace ℝ (Fin 2))‖ = 1 := by
  rw [EuclideanSpace.norm_eq]
  simp

/-- **C110.** The warning tests the first-order condition only: a run that ends at the eigenvector of another eigenvalue is reported as the smallest eigenvalue without a warning. -/
theorem C110_warning_misses : exH.IsSymmetric ∧ (∀ x0, ¬ warns exH true x0 !₂[0, 1]) ∧ reported exH true !₂[0, 1] = 2 ∧ ∃ v, ‖v‖ = 1 ∧ exH v = (1 : ℝ) • v := by
  have hr : reported exH true !₂[0, 1] = 2 := by
    simp [reported, rq, exH, EuclideanSpace.inner_eq_star_dotProduct, dotProduct, Fin.sum_univ_two]
  have hg : grad exH true !₂[0, 1] = 0 := by
    rw [C110_first_order, hr]
    ext i
    fin_cases i <;> simp [exH]
  refine ⟨exH_sym, fun x0 => ?_, hr, !₂[1, 0], ?_, ?_⟩
  · simp only [warns]
    rw [show grad (⇑exH) true !₂[0, 1] = 0 from hg, norm_zero, zero_div]
    norm_num
  · rw [EuclideanSpace.norm_eq]
    simp
  · ext i
    fin_cases i <;> simp [exH]

/-- Its hypotheses hold for this operator, at its true minimiser as well. -/
example : grad exH true !₂[1, 0] = 0 ∧ (∀ v, ‖v‖ = 1 → rq exH true !₂[1, 0] ≤ rq exH true v) := by
  have hx : ‖(!₂[1, 0] : EuclideanSpace ℝ (Fin 2))‖ = 1 := by
    rw [EuclideanSpace.norm_eq]
    simp
  have h : ∀ v, ‖v‖ = 1 → rq exH true !₂[1, 0] ≤ rq exH true v := by
    intro v hv
    have h1 : ‖v‖ ^ 2 = v 0 * v 0 + v 1 * v 1 := by
      rw [EuclideanSpace.norm_sq_eq, Fin.sum_univ_two]
      simp [pow_two]
    have h2 : rq exH true v = v 0 * v 0 + 2 * (v 1 * v 1) := by
      simp [rq, exH, EuclideanSpace.inner_eq_star_dotProduct, dotProduct, Fin.sum_univ_two]
      ring
    have h3 : rq exH true !₂[1, 0] = 1 := by
      rw [rq, if_pos rfl, EuclideanSpace.inner_eq_star_dotProduct]
      simp [exH, dotProduct, Fin.sum_univ_two]
    rw [h3, h2]
    rw [hv, one_pow] at h1
    nlinarith [mul_self_nonneg (v 1)]
  exact ⟨((C110_second_order exH_sym true hx).mpr h).1, h⟩

/-! ## C111 -/

theorem xi_eq (g : V) (i : Nat) : xi g i = (100 / ‖g‖ * (1 / 2) ^ i) • g := by
  induction i with
  | zero => simp [xi]
  | succ i ih =>
    rw [xi, ih, smul_smul]
    congr 1
    rw [pow_succ]
    norm_num
    ring

/-- The lengths of the steps relative to the gradient: positive and tending to zero. -/
noncomputable def step (g : V) (i : Nat) : ℝ := 100 / ‖g‖ * (1 / 2) ^ i

omit [InnerProductSpace ℝ V] in
theorem step_pos {g : V} (hg : g ≠ 0) (i : Nat) : 0 < step g i := by
  have : 0 < ‖g‖ := norm_pos_iff.mpr hg
  unfold step
  positivity

omit [InnerProductSpace ℝ V] in
theorem step_tendsto (g : V) : Filter.Tendsto (step g) Filter.atTop (nhds 0) := by
  have h := (tendsto_pow_atTop_nhds_zero_of_lt_one (r := (1 / 2 : ℝ)) (by norm_num) (by norm_num)).const_mul (100 / ‖g‖)
  rw [mul_zero] at h
  exact h

omit [InnerProductSpace ℝ V] in
theorem step_tendsto' {g : V} (hg : g ≠ 0) : Filter.Tendsto (step g) Filter.atTop (nhdsWithin 0 {0}ᶜ) :=
  tendsto_nhdsWithin_iff.mpr ⟨step_tendsto g, Filter.Eventually.of_forall fun i => (step_pos hg i).ne'⟩

/-- **C111.** Let `G` be the gradient of the cost after the retraction (derivatives along lines suffice). The first ratio tends to `⟨G, g⟩ / ⟨g, g⟩`, whatever vector `g ≠ 0` the problem returns as gradient. -/
theorem C111_first {fR : V → ℝ} {fx : ℝ} (h0 : fR 0 = fx) {G : V} (hG : ∀ v, HasDerivAt (fun t : ℝ => fR (t • v)) (inner ℝ G v) 0) {g : V} (hg : g ≠ 0) :
    Filter.Tendsto (ratio1 fR fx g) Filter.atTop (nhds (inner ℝ G g / inner ℝ g g)) := by
  have hd := hG g
  rw [hasDerivAt_iff_tendsto_slope] at hd
  have h2 := (hd.comp (step_tendsto' hg)).div_const (inner ℝ g g)
  refine h2.congr fun i => ?_
  have hs := (step_pos hg i).ne'
  have hgg : inner ℝ g g ≠ (0 : ℝ) := inner_self_ne_zero.mpr hg
  rw [Function.comp, slope_def_field, ratio1, xi_eq, ← h0]
  change (fR (step g i • g) - fR ((0 : ℝ) • g)) / (step g i - 0) / inner ℝ g g = (fR (step g i • g) - fR 0) / inner ℝ g (step g i • g)
  rw [zero_smul, sub_zero, real_inner_smul_right, div_div]

/-- **C111.** So the test passes exactly if the error of the gradient is orthogonal to the gradient returned; in particular it passes for the right gradient. -/
theorem C111_first_iff {fR : V → ℝ} {fx : ℝ} (h0 : fR 0 = fx) {G : V} (hG : ∀ v, HasDerivAt (fun t : ℝ => fR (t • v)) (inner ℝ G v) 0) {g : V} (hg : g ≠ 0) :
    Filter.Tendsto (ratio1 fR fx g) Filter.atTop (nhds 1) ↔ inner ℝ (G - g) g = (0 : ℝ) := by
  have hgg : inner ℝ g g ≠ (0 : ℝ) := inner_self_ne_zero.mpr hg
  have h := C111_first h0 hG hg
  rw [inner_sub_left, sub_eq_zero]
  constructor
  · intro h1
    have := tendsto_nhds_unique h h1
    rwa [div_eq_one_iff_eq hgg] at this
  · intro h1
    rwa [h1, div_self hgg] at h

/-- **C111.** With a second-order expansion of the cost after the retraction and a gradient that passes the first test, the second ratio tends to the quotient of the quadratic forms of the
true Hessian `B` and of the returned `H` at the gradient. -/
theorem C111_second {fR : V → ℝ} {fx : ℝ} {G g : V} {B H : V →ₗ[ℝ] V}
    (hB : (fun v => fR v - fx - inner ℝ G v - 1 / 2 * inner ℝ (B v) v) =o[nhds 0] fun v => ‖v‖ ^ 2) (hg : g ≠ 0) (hGg : inner ℝ (G - g) g = (0 : ℝ)) (hH : inner ℝ g (H g) ≠ (0 : ℝ)) :
    Filter.Tendsto (ratio2 fR fx g H) Filter.atTop (nhds (inner ℝ (B g) g / inner ℝ g (H g))) := by
  have hGg' : inner ℝ G g = (inner ℝ g g : ℝ) := by rwa [inner_sub_left, sub_eq_zero] at hGg
  have ht : Filter.Tendsto (fun i => step g i • g) Filter.atTop (nhds 0) := by
    have := (step_tendsto g).smul_const g
    rwa [zero_smul] at this
  have h1 := hB.comp_tendsto ht
  have h2 : Filter.Tendsto (fun i => (fR (step g i • g) - fx - inner ℝ G (step g i • g) - 1 / 2 * inner ℝ (B (step g i • g)) (step g i • g)) / ‖step g i • g‖ ^ 2) Filter.atTop (nhds 0) :=
    h1.tendsto_div_nhds_zero
  have hn : ‖g‖ ≠ 0 := norm_ne_zero_iff.mpr hg
  have h3 := ((h2.mul_const (‖g‖ ^ 2 / (1 / 2 * inner ℝ g (H g)))).add_const (inner ℝ (B g) g / inner ℝ g (H g)))
  rw [zero_mul, zero_add] at h3
  refine h3.congr fun i => ?_
  have hs := (step_pos hg i).ne'
  rw [ratio2, xi_eq]
  change _ = (fR (step g i • g) - fx - inner ℝ g (step g i • g)) / (0.5 * inner ℝ (step g i • g) (H (step g i • g)))
  simp only [map_smul, real_inner_smul_left, real_inner_smul_right, hGg', norm_smul, Real.norm_eq_abs, mul_pow, sq_abs]
  norm_num
  field_simp
  ring

/-- **C111.** Hence the second test passes exactly if the two quadratic forms agree at the gradient. -/
theorem C111_second_iff {fR : V → ℝ} {fx : ℝ} {G g : V} {B H : V →ₗ[ℝ] V}
    (hB : (fun v => fR v - fx - inner ℝ G v - 1 / 2 * inner ℝ (B v) v) =o[nhds 0] fun v => ‖v‖ ^ 2) (hg : g ≠ 0) (hGg : inner ℝ (G - g) g = (0 : ℝ)) (hH : inner ℝ g (H g) ≠ (0 : ℝ)) :
    Filter.Tendsto (ratio2 fR fx g H) Filter.atTop (nhds 1) ↔ inner ℝ (B g) g = (inner ℝ (H g) g : ℝ) := by
  have h := C111_second hB hg hGg hH
  rw [real_inner_comm (H g) g] at h hH
  constructor
  · intro h1
    have := tendsto_nhds_unique h h1
    rwa [div_eq_one_iff_eq hH] at this
  · intro h1
    rwa [h1, div_self hH] at h

/-- **C111.** A wrong gradient and a wrong Hessian that pass: `f(x, y) = x + y + x² + y²/2` at the origin with the gradient `(1, 0)` and the Hessian `diag(2, 2)`. -/
theorem C111_accepts_wrong : ∃ (fR : EuclideanSpace ℝ (Fin 2) → ℝ) (G g : EuclideanSpace ℝ (Fin 2)) (B H : EuclideanSpace ℝ (Fin 2) →ₗ[ℝ] EuclideanSpace ℝ (Fin 2)),
    (∀ v, fR v = inner ℝ G v + 1 / 2 * inner ℝ (B v) v) ∧ g ≠ G ∧ H ≠ B ∧
      Filter.Tendsto (ratio1 fR 0 g) Filter.atTop (nhds 1) ∧ Filter.Tendsto (ratio2 fR 0 g H) Filter.atTop (nhds 1) := by
  let B : EuclideanSpace ℝ (Fin 2) →ₗ[ℝ] EuclideanSpace ℝ (Fin 2) := (3 : ℝ) • LinearMap.id - exH
  let H : EuclideanSpace ℝ (Fin 2) →ₗ[ℝ] EuclideanSpace ℝ (Fin 2) := (2 : ℝ) • LinearMap.id
  have hGg : inner ℝ ((!₂[1, 1] : EuclideanSpace ℝ (Fin 2)) - !₂[1, 0]) !₂[1, 0] = (0 : ℝ) := by
    simp [EuclideanSpace.inner_eq_star_dotProduct, dotProduct, Fin.sum_univ_two]
  have hg : (!₂[1, 0] : EuclideanSpace ℝ (Fin 2)) ≠ 0 := by
    intro h
    have := congrFun (congrArg WithLp.ofLp h) 0
    simp at this
  have hH : inner ℝ (!₂[1, 0] : EuclideanSpace ℝ (Fin 2)) (H !₂[1, 0]) = (2 : ℝ) := by
    rw [EuclideanSpace.inner_eq_star_dotProduct]
    simp [H, dotProduct, Fin.sum_univ_two]
  have hB : inner ℝ (B !₂[1, 0]) (!₂[1, 0] : EuclideanSpace ℝ (Fin 2)) = (2 : ℝ) := by
    rw [EuclideanSpace.inner_eq_star_dotProduct]
    simp [B, exH, dotProduct, Fin.sum_univ_two]
    norm_num
  refine ⟨fun v => inner ℝ !₂[1, 1] v + 1 / 2 * inner ℝ (B v) v, !₂[1, 1], !₂[1, 0], B, H, fun v => rfl, ?_, ?_, ?_, ?_⟩
  · intro h
    have := congrFun (congrArg WithLp.ofLp h) 1
    simp at this
  · intro h
    have := congrFun (congrArg WithLp.ofLp (congrArg (fun L : EuclideanSpace ℝ (Fin 2) →ₗ[ℝ] EuclideanSpace ℝ (Fin 2) => L !₂[0, 1]) h)) 1
    simp [B, H, exH] at this
    norm_num at this
  · refine (C111_first_iff (by simp) ?_ hg).mpr hGg
    intro v
    have h1 : HasDerivAt (fun t : ℝ => t * inner ℝ (!₂[1, 1] : EuclideanSpace ℝ (Fin 2)) v + 1 / 2 * (t * t * inner ℝ (B v) v))
        (1 * inner ℝ (!₂[1, 1] : EuclideanSpace ℝ (Fin 2)) v + 1 / 2 * ((1 * 0 + 0 * 1) * inner ℝ (B v) v)) 0 :=
      ((hasDerivAt_id (0 : ℝ)).mul_const _).add ((((hasDerivAt_id (0 : ℝ)).mul (hasDerivAt_id 0)).mul_const _).const_mul _)
    have e : 1 * inner ℝ (!₂[1, 1] : EuclideanSpace ℝ (Fin 2)) v + 1 / 2 * ((1 * 0 + 0 * 1) * inner ℝ (B v) v) = inner ℝ (!₂[1, 1] : EuclideanSpace ℝ (Fin 2)) v := by ring
    rw [e] at h1
    refine h1.congr_of_eventuallyEq (Filter.Eventually.of_forall fun t => ?_)
    simp only [map_smul, real_inner_smul_left, real_inner_smul_right]
    ring
  · refine (C111_second_iff (G := !₂[1, 1]) (B := B) ?_ hg hGg (by rw [hH]; norm_num)).mpr ?_
    · simp only [sub_zero, add_sub_cancel_left, sub_self]
      exact Asymptotics.isLittleO_zero _ _
    · rw [hB, real_inner_comm, hH]

end Verif.EigHess
