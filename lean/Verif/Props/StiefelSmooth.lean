import Verif.Props.NaturalMat
import Mathlib.Analysis.InnerProductSpace.PiL2
import Mathlib.Analysis.Calculus.Deriv.MeanValue

/-!
# The qf retraction is a second order perturbation of the step, uniformly on the Stiefel manifold (C131)
-/

set_option linter.unusedSectionVars false

namespace Verif.Obj

open Matrix Verif.Mat Verif.Stiefel Verif.Intr

variable {n p : ℕ}

/-! ## Frobenius norm -/

section

variable {a b c : Type*} [Fintype a] [Fintype b] [Fintype c] [DecidableEq a] [DecidableEq b] [DecidableEq c]

/-- Frobenius norm. -/
noncomputable def nF (A : Matrix a b ℝ) : ℝ := √(frob A A)

theorem nF_nonneg (A : Matrix a b ℝ) : 0 ≤ nF A := Real.sqrt_nonneg _

theorem nF_sq (A : Matrix a b ℝ) : nF A ^ 2 = frob A A := Real.sq_sqrt (frob_self_nonneg A)

theorem frob_cs (A B : Matrix a b ℝ) : |frob A B| ≤ nF A * nF B := by
  have h : frob A B ^ 2 ≤ frob A A * frob B B := by
    have e : ∀ X Y : Matrix a b ℝ, frob X Y = ∑ q : a × b, X q.1 q.2 * Y q.1 q.2 := fun X Y => by
      rw [Fintype.sum_prod_type]; rfl
    rw [e, e, e]
    have := Finset.sum_mul_sq_le_sq_mul_sq Finset.univ (fun q : a × b => A q.1 q.2) (fun q => B q.1 q.2)
    simpa only [sq] using this
  rw [← Real.sqrt_sq_eq_abs, nF, nF, ← Real.sqrt_mul (frob_self_nonneg A)]
  exact Real.sqrt_le_sqrt h

theorem nF_add (A B : Matrix a b ℝ) : nF (A + B) ≤ nF A + nF B := by
  have h := frob_cs A B
  refine abs_le_of_sq_le_sq' ?_ (add_nonneg (nF_nonneg _) (nF_nonneg _)) |>.2
  rw [nF_sq, frob_add_left, frob_add_right, frob_add_right, frob_comm B A]
  have := le_abs_self (frob A B)
  nlinarith [nF_sq A, nF_sq B]

theorem nF_smul (t : ℝ) (A : Matrix a b ℝ) : nF (t • A) = |t| * nF A := by
  rw [nF, frob_smul_left, frob_smul_right, ← mul_assoc, Real.sqrt_mul (mul_self_nonneg t), Real.sqrt_mul_self_eq_abs, nF]

theorem nF_neg (A : Matrix a b ℝ) : nF (-A) = nF A := by rw [nF, frob_neg_left, frob_neg_right, neg_neg, nF]

theorem nF_sub (A B : Matrix a b ℝ) : nF (A - B) ≤ nF A + nF B := by
  have := nF_add A (-B); rwa [nF_neg, ← sub_eq_add_neg] at this

theorem nF_transpose (A : Matrix a b ℝ) : nF Aᵀ = nF A := by rw [nF, frob_transpose, nF]

theorem nF_mul (A : Matrix a b ℝ) (B : Matrix b c ℝ) : nF (A * B) ≤ nF A * nF B := by
  rw [nF, nF, nF, ← Real.sqrt_mul (frob_self_nonneg A)]
  refine Real.sqrt_le_sqrt ?_
  have e : frob A A * frob B B = ∑ i, ∑ k, (∑ j, A i j * A i j) * (∑ j, B j k * B j k) := by
    rw [frob, frob, Finset.sum_mul]
    refine Finset.sum_congr rfl fun i _ => ?_
    rw [Finset.sum_comm (f := fun j k => B j k * B j k), Finset.mul_sum]
  rw [e]
  refine Finset.sum_le_sum fun i _ => Finset.sum_le_sum fun k _ => ?_
  rw [mul_apply]
  have := Finset.sum_mul_sq_le_sq_mul_sq Finset.univ (fun j => A i j) (fun j => B j k)
  simpa only [sq] using this

/-- Multiplication by orthonormal columns does not change the norm. -/
theorem nF_orth_mul {y : Matrix a b ℝ} (hy : yᵀ * y = 1) (U : Matrix b c ℝ) : nF (y * U) = nF U := by
  rw [nF, frob_mul_left, ← Matrix.mul_assoc, hy, Matrix.one_mul, nF]

theorem nF_orth {y : Matrix a b ℝ} (hy : yᵀ * y = 1) : nF y ^ 2 = Fintype.card b := by
  rw [nF_sq, frob_eq_trace, hy, trace_one]

end

/-! ## Triangular factors -/

/-- The triangle of `x + η` deviates from the identity by at most the length of `η`, and by at most twice its square. -/
theorem upper_bounds {v : Matrix (Fin n) (Fin p) ℝ} {R : Matrix (Fin p) (Fin p) ℝ} (hR : IsUpper R) (hpos : ∀ i, 0 < R i i) (hg : Rᵀ * R = 1 + vᵀ * v) :
    nF (R - 1) ≤ nF v ∧ nF (R - 1) ≤ 2 * nF v ^ 2 := by
  have hdet : R.det ≠ 0 := by rw [det_upper hR]; exact Finset.prod_ne_zero_iff.2 fun i _ => (hpos i).ne'
  -- the diagonal is at least one
  have hd : ∀ i, 1 ≤ R i i := by
    intro i
    have hu := inv_upper hR hdet
    have hRM : R * R⁻¹ = 1 := mul_nonsing_inv _ (isUnit_det_of_ne hdet)
    have h1 : R i i * R⁻¹ i i = 1 := by
      have := congrFun (congrFun hRM i) i
      rw [mul_apply, one_apply_eq, Finset.sum_eq_single i] at this
      · exact this
      · intro k _ hk
        rcases lt_or_gt_of_ne hk with h | h
        · rw [hR i k h, zero_mul]
        · rw [hu k i h, mul_zero]
      · intro h; exact absurd (Finset.mem_univ _) h
    have h2 : (R⁻¹)ᵀ * R⁻¹ + (v * R⁻¹)ᵀ * (v * R⁻¹) = 1 := by
      have e : (R⁻¹)ᵀ * R⁻¹ + (v * R⁻¹)ᵀ * (v * R⁻¹) = (R⁻¹)ᵀ * (1 + vᵀ * v) * R⁻¹ := by
        rw [transpose_mul, Matrix.mul_add, Matrix.add_mul, Matrix.mul_one]; simp only [Matrix.mul_assoc]
      rw [e, ← hg, Matrix.mul_assoc, Matrix.mul_assoc, hRM, Matrix.mul_one, ← transpose_mul, hRM, transpose_one]
    have h3 := congrFun (congrFun h2 i) i
    rw [Matrix.add_apply, mul_apply, mul_apply, one_apply_eq] at h3
    simp only [transpose_apply] at h3
    have h4 : R⁻¹ i i * R⁻¹ i i ≤ ∑ j, R⁻¹ j i * R⁻¹ j i := Finset.single_le_sum (f := fun j => R⁻¹ j i * R⁻¹ j i) (fun j _ => mul_self_nonneg _) (Finset.mem_univ i)
    have h5 : 0 ≤ ∑ j, (v * R⁻¹) j i * (v * R⁻¹) j i := Finset.sum_nonneg fun j _ => mul_self_nonneg _
    have h6 : R⁻¹ i i * R⁻¹ i i ≤ 1 := by linarith
    have hp := hpos i
    by_contra hlt
    rw [not_le] at hlt
    have h7 : 0 < R⁻¹ i i := by
      by_contra hn
      rw [not_lt] at hn
      nlinarith
    have h8 : R⁻¹ i i ≤ 1 := by nlinarith
    nlinarith
  -- the trace of the Gram matrix
  have hfr : frob R R = p + frob v v := by
    rw [frob_eq_trace, hg, trace_add, trace_one, Fintype.card_fin, ← frob_eq_trace]
  have htr : (p : ℝ) ≤ frob R 1 := by
    rw [frob_comm, frob_eq_trace, transpose_one, Matrix.one_mul, trace]
    calc (p : ℝ) = ∑ _i : Fin p, (1 : ℝ) := by simp
      _ ≤ _ := Finset.sum_le_sum fun i _ => hd i
  have h1 : frob (R - 1) (R - 1) ≤ frob v v := by
    rw [frob_sub_left, frob_sub_right, frob_sub_right, hfr, frob_comm 1 R]
    have : frob (1 : Matrix (Fin p) (Fin p) ℝ) 1 = p := by rw [frob_eq_trace, transpose_one, Matrix.one_mul, trace_one, Fintype.card_fin]
    rw [this]; linarith
  have hn1 : nF (R - 1) ≤ nF v := Real.sqrt_le_sqrt h1
  refine ⟨hn1, ?_⟩
  have hU : IsUpper (R - 1) := by
    intro i j h
    rw [Matrix.sub_apply, hR i j h, one_apply_ne (ne_of_gt h), sub_zero]
  have heq : (R - 1) + (R - 1)ᵀ = vᵀ * v - (R - 1)ᵀ * (R - 1) := by
    have : vᵀ * v = Rᵀ * R - 1 := by rw [hg]; abel
    rw [this, transpose_sub, transpose_one]; noncomm_ring
  generalize R - 1 = U at *
  have h2 : nF U ≤ nF (U + Uᵀ) := by
    refine Real.sqrt_le_sqrt ?_
    rw [frob_add_left, frob_add_right, frob_add_right, frob_transpose, frob_comm Uᵀ U]
    have : 0 ≤ frob U Uᵀ := by
      refine Finset.sum_nonneg fun i _ => Finset.sum_nonneg fun j _ => ?_
      rw [transpose_apply]
      rcases lt_trichotomy i j with h | h | h
      · rw [hU j i h, mul_zero]
      · rw [h]; exact mul_self_nonneg _
      · rw [hU i j h, zero_mul]
    have := frob_self_nonneg U
    linarith
  calc nF U ≤ nF (vᵀ * v - Uᵀ * U) := by rw [← heq]; exact h2
    _ ≤ nF (vᵀ * v) + nF (Uᵀ * U) := nF_sub _ _
    _ ≤ nF v * nF v + nF U * nF U := by
      have a1 := nF_mul vᵀ v
      have a2 := nF_mul Uᵀ U
      rw [nF_transpose] at a1 a2
      linarith
    _ ≤ 2 * nF v ^ 2 := by
      have := mul_le_mul hn1 hn1 (nF_nonneg _) (nF_nonneg _)
      linarith

/-- **C131, retraction.** For every orthonormal `x` and every tangent step of any length, the retracted point differs from `x + η` by at most twice the squared length of the step, and from `x` by at
most twice its length. -/
theorem C131_qf_second_order (hp : p ≤ n) {hhr : Matrix (Fin n) (Fin p) ℝ → Frame n p} (hh : IsHHR hhr) {x η : Matrix (Fin n) (Fin p) ℝ} (hx : xᵀ * x = 1) (hη : IsTangent x η) :
    nF (qfPoint hp (hhr (x + η)) - (x + η)) ≤ 2 * nF η ^ 2 ∧ nF (qfPoint hp (hhr (x + η)) - x) ≤ 2 * nF η := by
  obtain ⟨h1, ⟨R, h2, h3, h4⟩, _⟩ := qfPoint_spec hp hh hx hη
  generalize qfPoint hp (hhr (x + η)) = y at *
  have hg : Rᵀ * R = 1 + ηᵀ * η := by
    rw [← gram_add hx hη, ← h4, transpose_mul, Matrix.mul_assoc, ← Matrix.mul_assoc yᵀ, h1, Matrix.one_mul]
  obtain ⟨b1, b2⟩ := upper_bounds h2 h3 hg
  have e : y - (x + η) = -(y * (R - 1)) := by rw [← h4, Matrix.mul_sub, Matrix.mul_one]; abel
  have en : nF (y - (x + η)) = nF (R - 1) := by rw [e, nF_neg, nF_orth_mul h1]
  refine ⟨by rw [en]; exact b2, ?_⟩
  have e2 : y - x = (y - (x + η)) + η := by abel
  rw [e2]
  refine (nF_add _ _).trans ?_
  rw [en]; linarith

/-! ## Objectives -/

/-- The Euclidean gradient is Lipschitz. -/
def EucLipschitz (G : Matrix (Fin n) (Fin p) ℝ → Matrix (Fin n) (Fin p) ℝ) (L : ℝ) : Prop := ∀ x y, nF (G x - G y) ≤ L * nF (x - y)

theorem euc_taylor {f : Matrix (Fin n) (Fin p) ℝ → ℝ} {G : Matrix (Fin n) (Fin p) ℝ → Matrix (Fin n) (Fin p) ℝ} {L : ℝ} (hG : IsEucGrad f G) (hL : EucLipschitz G L) (x d : Matrix (Fin n) (Fin p) ℝ) :
    |f (x + d) - f x - frob (G x) d| ≤ L * nF d ^ 2 := by
  have hder : ∀ t : ℝ, HasDerivAt (fun s : ℝ => f (x + s • d)) (frob (G (x + t • d)) d) t := by
    intro t
    have h := hG (x + t • d) d
    have hs : HasDerivAt (fun s : ℝ => s - t) 1 t := (hasDerivAt_id t).sub_const t
    have h' : HasDerivAt (fun s : ℝ => f (x + t • d + s • d)) (frob (G (x + t • d)) d) (t - t) := by rw [sub_self]; exact h
    have h2 := HasDerivAt.comp (h₂ := fun s : ℝ => f (x + t • d + s • d)) (h := fun s : ℝ => s - t) t h' hs
    rw [mul_one] at h2
    refine h2.congr_of_eventuallyEq (Filter.Eventually.of_forall fun s => ?_)
    show f (x + s • d) = f (x + t • d + (s - t) • d)
    congr 1
    module
  obtain ⟨t, ht, he⟩ := exists_hasDerivAt_eq_slope (fun s : ℝ => f (x + s • d)) (fun t => frob (G (x + t • d)) d) zero_lt_one
    (fun t _ => (hder t).continuousAt.continuousWithinAt) (fun t _ => hder t)
  have he : frob (G (x + t • d)) d = f (x + d) - f x := by
    rw [he]; simp
  rw [← he, ← frob_sub_left]
  refine (frob_cs _ _).trans ?_
  have h1 := hL (x + t • d) x
  rw [add_sub_cancel_left, nF_smul, abs_of_pos ht.1] at h1
  have h0 := nF_nonneg d
  have hL0 : 0 ≤ L * nF d := by
    have := (nF_nonneg _).trans (hL (x + d) x)
    rwa [add_sub_cancel_left] at this
  calc _ ≤ (L * (t * nF d)) * nF d := mul_le_mul_of_nonneg_right h1 h0
    _ = t * (L * nF d * nF d) := by ring
    _ ≤ 1 * (L * nF d * nF d) := mul_le_mul_of_nonneg_right ht.2.le (mul_nonneg hL0 h0)
    _ = _ := by ring

/-- Bound of the Euclidean gradient on the manifold, from its norm at one point. -/
noncomputable def gradMax (p : ℕ) (L g0 : ℝ) : ℝ := g0 + 2 * L * √p

theorem orth_dist {x y : Matrix (Fin n) (Fin p) ℝ} (hx : xᵀ * x = 1) (hy : yᵀ * y = 1) : nF (y - x) ≤ 2 * √p := by
  have e : ∀ {z : Matrix (Fin n) (Fin p) ℝ}, zᵀ * z = 1 → nF z = √p := by
    intro z hz
    have := nF_orth hz
    rw [Fintype.card_fin] at this
    rw [← this, Real.sqrt_sq (nF_nonneg _)]
  have := nF_sub y x
  rw [e hx, e hy] at this
  linarith

theorem grad_max {G : Matrix (Fin n) (Fin p) ℝ → Matrix (Fin n) (Fin p) ℝ} {L : ℝ} (hL0 : 0 ≤ L) (hL : EucLipschitz G L) {x y : Matrix (Fin n) (Fin p) ℝ} (hx : xᵀ * x = 1) (hy : yᵀ * y = 1) :
    nF (G y) ≤ gradMax p L (nF (G x)) := by
  have h := nF_add (G x) (G y - G x)
  rw [add_sub_cancel] at h
  have h2 := (hL y x).trans (mul_le_mul_of_nonneg_left (orth_dist hx hy) hL0)
  unfold gradMax
  linarith

/-- **C131, expansion.** Along the retraction the objective agrees with its linear model up to a multiple of the squared length of the step, uniformly in the point and in the step. -/
theorem C131_qf_taylor (hp : p ≤ n) {hhr : Matrix (Fin n) (Fin p) ℝ → Frame n p} (hh : IsHHR hhr) {f : Matrix (Fin n) (Fin p) ℝ → ℝ} {G : Matrix (Fin n) (Fin p) ℝ → Matrix (Fin n) (Fin p) ℝ}
    {L g : ℝ} (hG : IsEucGrad f G) (hL0 : 0 ≤ L) (hL : EucLipschitz G L) {x η : Matrix (Fin n) (Fin p) ℝ} (hx : xᵀ * x = 1) (hη : IsTangent x η) (hg : nF (G x) ≤ g) :
    |f (qfPoint hp (hhr (x + η))) - f x - frob (G x) η| ≤ (2 * g + 4 * L) * nF η ^ 2 := by
  obtain ⟨b1, b2⟩ := C131_qf_second_order hp hh hx hη
  generalize qfPoint hp (hhr (x + η)) = y at *
  have h1 := euc_taylor hG hL x (y - x)
  rw [add_sub_cancel] at h1
  have h2 : |frob (G x) (y - (x + η))| ≤ g * (2 * nF η ^ 2) :=
    (frob_cs _ _).trans (mul_le_mul hg b1 (nF_nonneg _) ((nF_nonneg _).trans hg))
  have h3 : L * nF (y - x) ^ 2 ≤ L * (2 * nF η) ^ 2 := mul_le_mul_of_nonneg_left (pow_le_pow_left₀ (nF_nonneg _) b2 2) hL0
  have e : f y - f x - frob (G x) η = (f y - f x - frob (G x) (y - x)) + frob (G x) (y - (x + η)) := by
    simp only [frob_sub_right, frob_add_right]; ring
  rw [e]
  refine (abs_add_le _ _).trans ?_
  nlinarith

/-- The objective is bounded below on the manifold. -/
theorem orth_below {f : Matrix (Fin n) (Fin p) ℝ → ℝ} {G : Matrix (Fin n) (Fin p) ℝ → Matrix (Fin n) (Fin p) ℝ} {L : ℝ} (hG : IsEucGrad f G) (hL0 : 0 ≤ L) (hL : EucLipschitz G L)
    {x y : Matrix (Fin n) (Fin p) ℝ} (hx : xᵀ * x = 1) (hy : yᵀ * y = 1) : f x - (2 * √p * nF (G x) + 4 * p * L) ≤ f y := by
  have h1 := euc_taylor hG hL x (y - x)
  rw [add_sub_cancel] at h1
  have hd := orth_dist hx hy
  have h2 : |frob (G x) (y - x)| ≤ nF (G x) * (2 * √p) := (frob_cs _ _).trans (mul_le_mul_of_nonneg_left hd (nF_nonneg _))
  have h3 : L * nF (y - x) ^ 2 ≤ L * (2 * √p) ^ 2 := mul_le_mul_of_nonneg_left (pow_le_pow_left₀ (nF_nonneg _) hd 2) hL0
  rw [mul_pow, Real.sq_sqrt (Nat.cast_nonneg p)] at h3
  have h4 := abs_le.1 h1
  have h5 := abs_le.1 h2
  linarith [h4.1, h5.1]

end Verif.Obj
