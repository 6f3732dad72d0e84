import Verif.Problem.Curve
import Mathlib.Analysis.Calculus.DSlope
import Mathlib.LinearAlgebra.Matrix.NonsingularInverse
import Mathlib.Topology.Algebra.Order.Field

/-!
# Derivative of a function of a symmetric matrix

`spec f d V` is `V diag(f(d)) Vᵀ`.  For a curve of symmetric matrices the derivative of `spec f` is given by the divided differences of `f`
(Daleckii and Krein); nothing is assumed about how the eigenvectors move.
-/

set_option linter.unusedSectionVars false

namespace Verif.Spectral

open Matrix Verif.Curve Filter Topology

variable {n : Type*} [Fintype n] [DecidableEq n]

/-- `V diag(f(d)) Vᵀ`. -/
def spec (f : ℝ → ℝ) (d : n → ℝ) (V : Matrix n n ℝ) : Matrix n n ℝ := V * diagonal (fun i => f (d i)) * Vᵀ

theorem entry_le_one {V : Matrix n n ℝ} (h : Vᵀ * V = 1) (i j : n) : |V i j| ≤ 1 := by
  have h1 := congrFun (congrFun h j) j
  rw [Matrix.mul_apply, one_apply_eq] at h1
  simp only [transpose_apply] at h1
  have h2 : V i j * V i j ≤ ∑ k, V k j * V k j := Finset.single_le_sum (f := fun k => V k j * V k j) (fun k _ => mul_self_nonneg _) (Finset.mem_univ i)
  rw [h1] at h2
  rw [abs_le]
  constructor <;> nlinarith

/-- In the mixed bases the difference of two functions of symmetric matrices has entries `(f(e_j) - f(d_i)) (VᵀW)_ij`. -/
theorem mixed (f : ℝ → ℝ) {d e : n → ℝ} {V W : Matrix n n ℝ} (hV : Vᵀ * V = 1) (hW : Wᵀ * W = 1) (i j : n) :
    (Vᵀ * (spec f e W - spec f d V) * W) i j = (Vᵀ * W) i j * (f (e j) - f (d i)) := by
  have h1 : Vᵀ * (spec f e W - spec f d V) * W =
      (Vᵀ * W) * diagonal (fun i => f (e i)) - diagonal (fun i => f (d i)) * (Vᵀ * W) := by
    rw [Matrix.mul_sub, Matrix.sub_mul]
    congr 1
    · rw [spec]
      calc Vᵀ * (W * diagonal (fun i => f (e i)) * Wᵀ) * W = (Vᵀ * W) * diagonal (fun i => f (e i)) * (Wᵀ * W) := by simp only [Matrix.mul_assoc]
        _ = _ := by rw [hW, Matrix.mul_one]
    · rw [spec]
      calc Vᵀ * (V * diagonal (fun i => f (d i)) * Vᵀ) * W = (Vᵀ * V) * diagonal (fun i => f (d i)) * (Vᵀ * W) := by simp only [Matrix.mul_assoc]
        _ = _ := by rw [hV, Matrix.one_mul]
  rw [h1, Matrix.sub_apply, mul_diagonal, diagonal_mul]
  ring

/-- A function that is continuous at the eigenvalues of the limit is a continuous function of symmetric matrices. -/
theorem spec_tendsto {ι : Type*} {l : Filter ι} {A : ι → Matrix n n ℝ} {d : n → ℝ} {V : Matrix n n ℝ} {e : ι → n → ℝ} {W : ι → Matrix n n ℝ}
    (hV : Vᵀ * V = 1) (hW : ∀ s, (W s)ᵀ * W s = 1) (hA : ∀ s, spec id (e s) (W s) = A s)
    (hlim : ∀ i j, Tendsto (fun s => A s i j) l (𝓝 (spec id d V i j))) (g : ℝ → ℝ) (hg : ∀ i, ContinuousAt g (d i)) (a b : n) :
    Tendsto (fun s => spec g (e s) (W s) a b) l (𝓝 (spec g d V a b)) := by
  have hV' : V * Vᵀ = 1 := mul_eq_one_comm.mp hV
  have hW' : ∀ s, W s * (W s)ᵀ = 1 := fun s => mul_eq_one_comm.mp (hW s)
  -- mixed basis matrices
  have hM : ∀ s, (Vᵀ * W s)ᵀ * (Vᵀ * W s) = 1 := by
    intro s
    rw [transpose_mul, transpose_transpose]
    calc (W s)ᵀ * V * (Vᵀ * W s) = (W s)ᵀ * (V * Vᵀ) * W s := by simp only [Matrix.mul_assoc]
      _ = 1 := by rw [hV', Matrix.mul_one, hW]
  have hM1 : ∀ s i j, |(Vᵀ * W s) i j| ≤ 1 := fun s i j => entry_le_one (hM s) i j
  set c : ℝ := (Fintype.card n : ℝ) with hc
  -- the perturbation in the mixed bases tends to zero
  have hN : ∀ η > 0, ∀ᶠ s in l, ∀ i j, |(Vᵀ * W s) i j * (e s j - d i)| ≤ η := by
    intro η hη
    have h1 : ∀ᶠ s in l, ∀ i j, |(A s - spec id d V) i j| < η / (c * c + 1) := by
      rw [eventually_all]; intro i
      rw [eventually_all]; intro j
      have h2 := (hlim i j).sub_const (spec id d V i j)
      rw [sub_self] at h2
      have h3 := h2.abs
      rw [abs_zero] at h3
      exact h3.eventually_lt_const (by positivity)
    filter_upwards [h1] with s hs i j
    have h4 := mixed id (d := d) (e := e s) hV (hW s) i j
    rw [hA] at h4
    simp only [id] at h4
    rw [← h4, Matrix.mul_apply]
    have hb : ∀ k, |(Vᵀ * (A s - spec id d V)) i k| ≤ c * (η / (c * c + 1)) := by
      intro k
      rw [Matrix.mul_apply]
      refine (Finset.abs_sum_le_sum_abs _ _).trans ?_
      calc ∑ x, |Vᵀ i x * (A s - spec id d V) x k| ≤ ∑ _x : n, η / (c * c + 1) := Finset.sum_le_sum fun x _ => by
            rw [abs_mul]
            have ha := entry_le_one hV x i
            rw [← transpose_apply V] at ha
            calc _ ≤ 1 * (η / (c * c + 1)) := mul_le_mul ha (hs x k).le (abs_nonneg _) zero_le_one
              _ = _ := one_mul _
        _ = _ := by simp [hc]
    refine (Finset.abs_sum_le_sum_abs _ _).trans ?_
    calc ∑ x, |(Vᵀ * (A s - spec id d V)) i x * W s x j| ≤ ∑ _x : n, c * (η / (c * c + 1)) := Finset.sum_le_sum fun x _ => by
          rw [abs_mul]
          calc _ ≤ c * (η / (c * c + 1)) * 1 := mul_le_mul (hb x) (entry_le_one (hW s) x j) (abs_nonneg _) (by positivity)
            _ = _ := mul_one _
      _ = (c * c) / (c * c + 1) * η := by simp [hc]; ring
      _ ≤ 1 * η := by
          refine mul_le_mul_of_nonneg_right ?_ hη.le
          rw [div_le_one (by positivity)]
          linarith
      _ = η := one_mul _
  -- the entries of the difference tend to zero
  have hK : ∀ i j, Tendsto (fun s => (Vᵀ * W s) i j * (g (e s j) - g (d i))) l (𝓝 0) := by
    intro i j
    rw [Metric.tendsto_nhds]
    intro ε hε
    obtain ⟨δ, hδ, hgδ⟩ : ∃ δ > 0, ∀ k x, |x - d k| < δ → |g x - g (d k)| < ε := by
      have h1 : ∀ k, ∃ δ > 0, ∀ x, |x - d k| < δ → |g x - g (d k)| < ε := by
        intro k
        obtain ⟨δ, hδ, h⟩ := Metric.continuousAt_iff.mp (hg k) ε hε
        exact ⟨δ, hδ, fun x hx => by simpa [Real.dist_eq] using h (by simpa [Real.dist_eq] using hx)⟩
      choose δ hδ hh using h1
      by_cases hne : Nonempty n
      · refine ⟨Finset.univ.inf' Finset.univ_nonempty δ, ?_, fun k x hx => hh k x (hx.trans_le (Finset.inf'_le _ (Finset.mem_univ k)))⟩
        rw [gt_iff_lt, Finset.lt_inf'_iff]
        exact fun k _ => hδ k
      · exact ⟨1, one_pos, fun k => absurd ⟨k⟩ hne⟩
    -- bound on the values of `g`
    obtain ⟨B, hB0, hB⟩ : ∃ B > 0, ∀ k, |g (d k)| ≤ B := by
      refine ⟨∑ k, |g (d k)| + 1, ?_, fun k => ?_⟩
      · have : 0 ≤ ∑ k, |g (d k)| := Finset.sum_nonneg fun k _ => abs_nonneg _
        linarith
      · have : |g (d k)| ≤ ∑ k, |g (d k)| := Finset.single_le_sum (f := fun k => |g (d k)|) (fun k _ => abs_nonneg _) (Finset.mem_univ k)
        linarith
    set η := min (δ / (c + 1)) (ε * δ / (2 * (2 * B + ε))) with hη
    have hη0 : 0 < η := lt_min (by positivity) (by positivity)
    filter_upwards [hN η hη0] with s hs
    rw [Real.dist_eq, sub_zero]
    -- an eigenvalue of the limit near the moving one
    have hfar : ∀ k, δ ≤ |e s j - d k| → |(Vᵀ * W s) k j| ≤ η / δ := by
      intro k hk
      have h1 := hs k j
      rw [abs_mul] at h1
      rw [le_div_iff₀ hδ]
      exact (mul_le_mul_of_nonneg_left hk (abs_nonneg _)).trans h1
    obtain ⟨k0, hk0⟩ : ∃ k, |e s j - d k| < δ := by
      by_contra hcon
      push Not at hcon
      have h1 := congrFun (congrFun (hM s) j) j
      rw [Matrix.mul_apply, one_apply_eq] at h1
      have h2 : ∑ k, (Vᵀ * W s)ᵀ j k * (Vᵀ * W s) k j ≤ ∑ _k : n, (η / δ) * 1 := Finset.sum_le_sum fun k _ => by
        rw [transpose_apply]
        have h3 := hfar k (hcon k)
        calc (Vᵀ * W s) k j * (Vᵀ * W s) k j ≤ |(Vᵀ * W s) k j| * |(Vᵀ * W s) k j| := by rw [← abs_mul]; exact le_abs_self _
          _ ≤ (η / δ) * 1 := mul_le_mul h3 (hM1 s k j) (abs_nonneg _) (by positivity)
      rw [h1] at h2
      simp only [mul_one, Finset.sum_const, Finset.card_univ, nsmul_eq_mul] at h2
      have h4 : η / δ ≤ 1 / (c + 1) := by
        rw [div_le_iff₀ hδ]
        calc η ≤ δ / (c + 1) := min_le_left _ _
          _ = _ := by ring
      have hc0 : 0 ≤ c := Nat.cast_nonneg _
      have h5 : c * (η / δ) ≤ c * (1 / (c + 1)) := mul_le_mul_of_nonneg_left h4 hc0
      have h6 : c * (1 / (c + 1)) < 1 := by
        rw [mul_one_div, div_lt_one (by positivity)]
        linarith
      linarith
    have hge : |g (e s j)| ≤ B + ε := by
      have h1 := hgδ k0 _ hk0
      have h2 := hB k0
      calc |g (e s j)| = |(g (e s j) - g (d k0)) + g (d k0)| := by ring_nf
        _ ≤ |g (e s j) - g (d k0)| + |g (d k0)| := abs_add_le _ _
        _ ≤ B + ε := by linarith
    rw [abs_mul]
    by_cases hn : |e s j - d i| < δ
    · calc _ ≤ 1 * |g (e s j) - g (d i)| := mul_le_mul_of_nonneg_right (hM1 s i j) (abs_nonneg _)
        _ < ε := by rw [one_mul]; exact hgδ i _ hn
    · have h1 := hfar i (not_lt.mp hn)
      have h2 : |g (e s j) - g (d i)| ≤ 2 * B + ε := by
        have := abs_sub (g (e s j)) (g (d i))
        have := hB i
        linarith
      have h3 : η / δ ≤ ε / (2 * (2 * B + ε)) := by
        rw [div_le_iff₀ hδ]
        calc η ≤ ε * δ / (2 * (2 * B + ε)) := min_le_right _ _
          _ = _ := by ring
      calc _ ≤ ε / (2 * (2 * B + ε)) * (2 * B + ε) := mul_le_mul (h1.trans h3) h2 (abs_nonneg _) (by positivity)
        _ = ε / 2 := by field_simp
        _ < ε := by linarith
  -- back to the fixed basis
  have hdiff : ∀ s, spec g (e s) (W s) a b = spec g d V a b +
      ∑ i, ∑ j, V a i * ((Vᵀ * W s) i j * (g (e s j) - g (d i))) * W s b j := by
    intro s
    have h1 : spec g (e s) (W s) - spec g d V = V * (Vᵀ * (spec g (e s) (W s) - spec g d V) * W s) * (W s)ᵀ := by
      calc spec g (e s) (W s) - spec g d V = (V * Vᵀ) * (spec g (e s) (W s) - spec g d V) * (W s * (W s)ᵀ) := by
            rw [hV', hW', Matrix.one_mul, Matrix.mul_one]
        _ = _ := by simp only [Matrix.mul_assoc]
    have h2 := congrFun (congrFun h1 a) b
    rw [Matrix.sub_apply, Matrix.mul_apply] at h2
    rw [← sub_eq_iff_eq_add', h2, Finset.sum_comm]
    refine Finset.sum_congr rfl fun j _ => ?_
    rw [Matrix.mul_apply, Finset.sum_mul]
    refine Finset.sum_congr rfl fun i _ => ?_
    rw [mixed g hV (hW s), transpose_apply]
  have hz : Tendsto (fun s => ∑ i, ∑ j, V a i * ((Vᵀ * W s) i j * (g (e s j) - g (d i))) * W s b j) l (𝓝 0) := by
    rw [← Finset.sum_const_zero (s := (Finset.univ : Finset n))]
    refine tendsto_finsetSum _ fun i _ => ?_
    rw [← Finset.sum_const_zero (s := (Finset.univ : Finset n))]
    refine tendsto_finsetSum _ fun j _ => ?_
    have h1 := (hK i j).const_mul (V a i)
    rw [mul_zero] at h1
    refine squeeze_zero_norm (fun s => ?_) (tendsto_zero_iff_norm_tendsto_zero.mp h1)
    rw [norm_mul]
    calc _ ≤ ‖V a i * ((Vᵀ * W s) i j * (g (e s j) - g (d i)))‖ * 1 :=
          mul_le_mul_of_nonneg_left (by rw [Real.norm_eq_abs]; exact entry_le_one (hW s) b j) (norm_nonneg _)
      _ = _ := mul_one _
  have := hz.const_add (spec g d V a b)
  rw [add_zero] at this
  exact this.congr fun s => (hdiff s).symm

theorem hasDerivAt_mul_of_zero {a G : ℝ → ℝ} {a' t : ℝ} (ha : HasDerivAt a a' t) (h0 : a t = 0) (hG : ContinuousAt G t) :
    HasDerivAt (fun s => a s * G s) (a' * G t) t := by
  rw [hasDerivAt_iff_tendsto_slope] at ha ⊢
  have h1 : Tendsto G (𝓝[≠] t) (𝓝 (G t)) := hG.tendsto.mono_left nhdsWithin_le_nhds
  refine (ha.mul h1).congr fun s => ?_
  rw [slope_def_field, slope_def_field, h0]
  ring

/-- **Derivative of a function of a symmetric matrix.** -/
theorem spec_deriv {A : ℝ → Matrix n n ℝ} {E : Matrix n n ℝ} {t : ℝ} {d : ℝ → n → ℝ} {V : ℝ → Matrix n n ℝ} (hV : ∀ s, (V s)ᵀ * V s = 1)
    (hA : ∀ s, spec id (d s) (V s) = A s) (hE : ED A E t) (f : ℝ → ℝ) (hf : ∀ i, DifferentiableAt ℝ f (d t i)) :
    ED (fun s => spec f (d s) (V s)) (V t * (of fun i j => dslope f (d t i) (d t j) * ((V t)ᵀ * E * V t) i j) * (V t)ᵀ) t := by
  have hV' : ∀ s, V s * (V s)ᵀ = 1 := fun s => mul_eq_one_comm.mp (hV s)
  set g : n → ℝ → ℝ := fun i => dslope f (d t i) with hg
  have hgc : ∀ i k, ContinuousAt (g i) (d t k) := by
    intro i k
    by_cases h : d t k = d t i
    · rw [h]; exact continuousAt_dslope_same.mpr (hf i)
    · exact (continuousAt_dslope_of_ne h).mpr (hf k).continuousAt
  have hlim : ∀ i j, Tendsto (fun s => A s i j) (𝓝 t) (𝓝 (spec id (d t) (V t) i j)) := by
    intro i j
    rw [hA]
    exact (hE i j).continuousAt.tendsto
  have hG : ∀ i a b, ContinuousAt (fun s => spec (g i) (d s) (V s) a b) t := fun i a b =>
    spec_tendsto (hV t) hV hA hlim (g i) (hgc i) a b
  -- rows of the difference in the eigenbasis at `t`
  have hrow : ∀ s i b, ((V t)ᵀ * (spec f (d s) (V s) - spec f (d t) (V t))) i b =
      ∑ a, ((V t)ᵀ * (A s - A t)) i a * spec (g i) (d s) (V s) a b := by
    intro s i b
    have h1 : ∀ j, ((V t)ᵀ * (spec f (d s) (V s) - spec f (d t) (V t)) * V s) i j = ((V t)ᵀ * (A s - A t) * V s) i j * g i (d s j) := by
      intro j
      rw [mixed f (hV t) (hV s), ← hA s, ← hA t, mixed id (hV t) (hV s), hg]
      have := sub_smul_dslope f (d t i) (d s j)
      rw [smul_eq_mul] at this
      simp only [id]
      rw [← this]
      ring
    have h2 : (V t)ᵀ * (spec f (d s) (V s) - spec f (d t) (V t)) =
        ((V t)ᵀ * (spec f (d s) (V s) - spec f (d t) (V t)) * V s) * (V s)ᵀ := by
      rw [Matrix.mul_assoc, hV', Matrix.mul_one]
    have h3 : ∀ a, spec (g i) (d s) (V s) a b = ∑ j, V s a j * (g i (d s j) * V s b j) := by
      intro a
      rw [spec, Matrix.mul_apply]
      refine Finset.sum_congr rfl fun j _ => ?_
      rw [mul_diagonal, transpose_apply]
      ring
    rw [h2, Matrix.mul_apply]
    calc ∑ j, ((V t)ᵀ * (spec f (d s) (V s) - spec f (d t) (V t)) * V s) i j * (V s)ᵀ j b
        = ∑ j, ∑ a, ((V t)ᵀ * (A s - A t)) i a * (V s a j * (g i (d s j) * V s b j)) := by
          refine Finset.sum_congr rfl fun j _ => ?_
          rw [h1, Matrix.mul_apply, Finset.sum_mul, Finset.sum_mul]
          refine Finset.sum_congr rfl fun a _ => ?_
          rw [transpose_apply (V s)]
          ring
      _ = _ := by
          rw [Finset.sum_comm]
          refine Finset.sum_congr rfl fun a _ => ?_
          rw [h3, Finset.mul_sum]
  -- derivative of the rows
  have hrd : ED (fun s => (V t)ᵀ * (spec f (d s) (V s) - spec f (d t) (V t)))
      ((of fun i j => g i (d t j) * ((V t)ᵀ * E * V t) i j) * (V t)ᵀ) t := by
    intro i b
    have hA0 : ED (fun s => (V t)ᵀ * (A s - A t)) ((V t)ᵀ * E) t := by
      have := (hE.sub (ED.const (A t) t)).const_mul (V t)ᵀ
      rwa [sub_zero] at this
    have h1 : HasDerivAt (fun s => ∑ a, ((V t)ᵀ * (A s - A t)) i a * spec (g i) (d s) (V s) a b)
        (∑ a, ((V t)ᵀ * E) i a * spec (g i) (d t) (V t) a b) t :=
      HasDerivAt.fun_sum fun a _ => hasDerivAt_mul_of_zero (hA0 i a) (by simp) (hG i a b)
    have h2 : (fun s => ((V t)ᵀ * (spec f (d s) (V s) - spec f (d t) (V t))) i b) =
        fun s => ∑ a, ((V t)ᵀ * (A s - A t)) i a * spec (g i) (d s) (V s) a b := funext fun s => hrow s i b
    rw [h2]
    refine h1.congr_deriv ?_
    rw [← Matrix.mul_apply, spec, ← Matrix.mul_assoc, ← Matrix.mul_assoc, Matrix.mul_apply, Matrix.mul_apply]
    refine Finset.sum_congr rfl fun j _ => ?_
    rw [mul_diagonal, of_apply]
    ring
  have h5 := hrd.const_mul (V t)
  have h6 := h5.add (ED.const (spec f (d t) (V t)) t)
  rw [add_zero, ← Matrix.mul_assoc] at h6
  have h7 : (fun s => V t * ((V t)ᵀ * (spec f (d s) (V s) - spec f (d t) (V t))) + spec f (d t) (V t)) = fun s => spec f (d s) (V s) := by
    funext s
    rw [← Matrix.mul_assoc, hV', Matrix.one_mul, sub_add_cancel]
  rw [h7] at h6
  exact h6

end Verif.Spectral
