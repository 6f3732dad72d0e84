import Verif.Solver.TangentProx
import Verif.Props.Intrinsic
import Mathlib.Tactic.Linarith
import Mathlib.Tactic.Positivity
import Mathlib.Tactic.FieldSimp
import Mathlib.Tactic.LinearCombination
import Mathlib.Analysis.Calculus.Deriv.Basic
import Mathlib.Analysis.Calculus.Deriv.Add
import Mathlib.Analysis.Calculus.Deriv.Mul
import Mathlib.LinearAlgebra.Dimension.Finite
import Mathlib.LinearAlgebra.FiniteDimensional.Basic
import Mathlib.Analysis.InnerProductSpace.Orthonormal
import Mathlib.Analysis.InnerProductSpace.Symmetric
import Mathlib.Analysis.InnerProductSpace.PiL2

/-!
# Soft thresholding, the tangent-space proximal mapping, its Newton and conjugate gradient loops (C53, C72, C73)
-/

set_option linter.unusedSectionVars false
set_option linter.unusedVariables false

namespace Verif.Prox

open Verif.Elem

/-! ### C53: soft thresholding -/

section soft
variable {K : Type} [Field K] [LinearOrder K] [IsStrictOrderedRing K]

theorem soft_cases {lam w x : K} (hl : 0 ≤ lam) (hw : 0 < w) :
    (x < -(lam / w) ∧ soft lam w x = x + lam / w) ∨ (|x| ≤ lam / w ∧ soft lam w x = 0) ∨ (lam / w < x ∧ soft lam w x = x - lam / w) := by
  have hq : 0 ≤ lam / w := div_nonneg hl hw.le
  unfold soft
  rcases lt_trichotomy (x + lam / w) 0 with h | h | h
  · left; rw [if_pos h, if_neg (by linarith)]; exact ⟨by linarith, add_zero _⟩
  · right; left; rw [if_neg (by linarith), if_neg (by linarith)]; exact ⟨abs_le.mpr ⟨by linarith, by linarith⟩, add_zero _⟩
  · rw [if_neg (by linarith)]
    by_cases h' : x - lam / w > 0
    · right; right; rw [if_pos h']; exact ⟨by linarith, zero_add _⟩
    · right; left; rw [if_neg h']; exact ⟨abs_le.mpr ⟨by linarith, by linarith⟩, add_zero _⟩

/-- C53: the coded value minimises `lam |y| + w / 2 (y - x)²`, and every other point is worse by at least `w / 2` times the squared distance; so the minimiser is unique. -/
theorem C53_prox {lam w : K} (hl : 0 ≤ lam) (hw : 0 < w) (x y : K) :
    lam * |soft lam w x| + w / 2 * (soft lam w x - x) ^ 2 + w / 2 * (y - soft lam w x) ^ 2 ≤ lam * |y| + w / 2 * (y - x) ^ 2 := by
  have hq : w * (lam / w) = lam := mul_div_cancel₀ _ hw.ne'
  have hy1 := le_abs_self y
  have hy2 := neg_abs_le y
  rcases soft_cases (x := x) hl hw with ⟨h, e⟩ | ⟨h, e⟩ | ⟨h, e⟩
  · rw [e]
    rw [abs_of_neg (by linarith : x + lam / w < 0)]
    have : lam * (-y) ≤ lam * |y| := mul_le_mul_of_nonneg_left (by linarith) hl
    set c := lam / w
    have e2 : lam * -(x + c) + w / 2 * (x + c - x) ^ 2 + w / 2 * (y - (x + c)) ^ 2 = lam * (-y) + w / 2 * (y - x) ^ 2 := by
      rw [← hq]; ring
    linarith
  · rw [e]
    have e2 : lam * |(0 : K)| + w / 2 * (0 - x) ^ 2 + w / 2 * (y - 0) ^ 2 = w * (x * y) + w / 2 * (y - x) ^ 2 := by rw [abs_zero]; ring
    rw [e2]
    have h1 : x * y ≤ |x| * |y| := by rw [← abs_mul]; exact le_abs_self _
    have h2 : |x| * |y| ≤ lam / w * |y| := mul_le_mul_of_nonneg_right h (abs_nonneg y)
    have h3 : w * (x * y) ≤ w * (lam / w * |y|) := mul_le_mul_of_nonneg_left (le_trans h1 h2) hw.le
    rw [← mul_assoc w (lam / w), hq] at h3
    linarith
  · rw [e]
    rw [abs_of_pos (by linarith : 0 < x - lam / w)]
    have : lam * y ≤ lam * |y| := mul_le_mul_of_nonneg_left hy1 hl
    set c := lam / w
    have e2 : lam * (x - c) + w / 2 * (x - c - x) ^ 2 + w / 2 * (y - (x - c)) ^ 2 = lam * y + w / 2 * (y - x) ^ 2 := by
      rw [← hq]; ring
    linarith

/-- C53: uniqueness of the minimiser. -/
theorem C53_prox_unique {lam w : K} (hl : 0 ≤ lam) (hw : 0 < w) (x y : K) (hy : ∀ z, lam * |y| + w / 2 * (y - x) ^ 2 ≤ lam * |z| + w / 2 * (z - x) ^ 2) : y = soft lam w x := by
  have h1 := C53_prox hl hw x y
  have h2 := hy (soft lam w x)
  have h3 : w / 2 * (y - soft lam w x) ^ 2 ≤ 0 := by linarith
  have h4 : (y - soft lam w x) ^ 2 ≤ 0 := by
    by_contra hc
    have : 0 < w / 2 * (y - soft lam w x) ^ 2 := mul_pos (by linarith) (not_le.mp hc)
    linarith
  have h5 : (y - soft lam w x) ^ 2 = 0 := le_antisymm h4 (sq_nonneg _)
  exact sub_eq_zero.mp (pow_eq_zero_iff (two_ne_zero) |>.mp h5)

/-- C53: soft thresholding is firmly nonexpansive. -/
theorem C53_firm {lam w : K} (hl : 0 ≤ lam) (hw : 0 < w) (x y : K) : (soft lam w x - soft lam w y) ^ 2 ≤ (soft lam w x - soft lam w y) * (x - y) := by
  have a := C53_prox hl hw x (soft lam w y)
  have b := C53_prox hl hw y (soft lam w x)
  set p := soft lam w x
  set q := soft lam w y
  have : w * ((p - q) ^ 2) ≤ w * ((p - q) * (x - y)) := by linarith
  exact le_of_mul_le_mul_left this hw

/-- C53: soft thresholding is 1-Lipschitz. -/
theorem C53_lipschitz {lam w : K} (hl : 0 ≤ lam) (hw : 0 < w) (x y : K) : |soft lam w x - soft lam w y| ≤ |x - y| := by
  have h := C53_firm hl hw x y
  by_cases e : soft lam w x - soft lam w y = 0
  · rw [e, abs_zero]; exact abs_nonneg _
  · have hp : 0 < |soft lam w x - soft lam w y| := abs_pos.mpr e
    have h2 : |soft lam w x - soft lam w y| * |soft lam w x - soft lam w y| ≤ |soft lam w x - soft lam w y| * |x - y| := by
      rw [abs_mul_abs_self, ← abs_mul, ← sq]; exact le_trans h (le_abs_self _)
    exact le_of_mul_le_mul_left h2 hp

/-- Hypotheses of the statements above: threshold 1/2 with a value beyond it, and one inside. -/
example : soft (1 : ℚ) 2 (-3) = -5 / 2 ∧ soft (1 : ℚ) 2 (1 / 4) = 0 ∧ soft (1 : ℚ) 2 3 = 5 / 2 := by unfold soft; norm_num

end soft

/-- C53: off the two kinks, the entry of `CalJW` is the derivative of the entry of `ProxW`. -/
theorem C53_jacobian {lam w : ℝ} (hl : 0 ≤ lam) (hw : 0 < w) {x : ℝ} (hx : |x| * w ≠ lam) (eta : ℝ) :
    HasDerivAt (fun t : ℝ => soft lam w (x + t * eta)) (if |x| * w > lam then eta else 0) 0 := by
  have hq : 0 ≤ lam / w := div_nonneg hl hw.le
  have hlin : HasDerivAt (fun t : ℝ => x + t * eta) eta 0 := by
    have := ((hasDerivAt_id' (0 : ℝ)).mul_const eta).const_add x
    simpa using this
  have hcont : ContinuousAt (fun t : ℝ => x + t * eta) 0 := hlin.continuousAt
  have h0 : x + (0 : ℝ) * eta = x := by ring
  rcases lt_or_gt_of_ne hx with h | h
  · rw [if_neg (not_lt.mpr h.le)]
    have hx' : |x| < lam / w := by rw [lt_div_iff₀ hw]; exact h
    have ev : (fun t : ℝ => soft lam w (x + t * eta)) =ᶠ[nhds 0] fun _ => 0 := by
      have : ∀ᶠ t : ℝ in nhds 0, |x + t * eta| < lam / w := by
        have hc : ContinuousAt (fun t : ℝ => |x + t * eta|) 0 := hcont.abs
        exact hc.eventually_lt continuousAt_const (by simpa using hx')
      filter_upwards [this] with t ht
      obtain ⟨h1, h2⟩ := abs_lt.mp ht
      unfold soft
      rw [if_neg (by linarith), if_neg (by linarith), add_zero]
    exact (hasDerivAt_const (0 : ℝ) (0 : ℝ)).congr_of_eventuallyEq ev
  · rw [if_pos h]
    have hx' : lam / w < |x| := by rw [div_lt_iff₀ hw]; exact h
    rcases le_total 0 x with hs | hs
    · rw [abs_of_nonneg hs] at hx'
      have ev : (fun t : ℝ => soft lam w (x + t * eta)) =ᶠ[nhds 0] fun t => x + t * eta - lam / w := by
        have : ∀ᶠ t : ℝ in nhds 0, lam / w < x + t * eta := continuousAt_const.eventually_lt hcont (by simpa using hx')
        filter_upwards [this] with t ht
        unfold soft
        rw [if_neg (by linarith), if_pos (by linarith), zero_add]
      exact (hlin.sub_const _).congr_of_eventuallyEq ev
    · rw [abs_of_nonpos hs] at hx'
      have ev : (fun t : ℝ => soft lam w (x + t * eta)) =ᶠ[nhds 0] fun t => x + t * eta + lam / w := by
        have : ∀ᶠ t : ℝ in nhds 0, x + t * eta < -(lam / w) := hcont.eventually_lt continuousAt_const (by simp only [h0]; linarith)
        filter_upwards [this] with t ht
        unfold soft
        rw [if_pos (by linarith), if_neg (by linarith), add_zero]
      exact (hlin.add_const _).congr_of_eventuallyEq ev

/-! ### Reading the block loops -/

section blocks
variable {K : Type} [Field K] [LinearOrder K] [IsStrictOrderedRing K]

theorem block_read (u : Nat → K) (nb bs : Nat) (g : Nat → Nat → K) {k : Nat} (hk : k < bs * nb) :
    writeAll u (forN nb fun i => forN bs fun j => [(j + i * bs, g i (j + i * bs))]) k = g (k / bs) k := by
  obtain ⟨j, hj, i, hi, rfl⟩ := colMajor_surj hk
  have hdiv : (j + i * bs) / bs = i := by
    rw [Nat.add_mul_div_right _ _ (by omega), Nat.div_eq_of_lt hj, zero_add]
  rw [hdiv]
  refine writeAll_of_mem _ _ _ _ ?_ ?_
  · rw [mem_forN]; refine ⟨i, hi, ?_⟩
    rw [mem_forN]; exact ⟨j, hj, by simp⟩
  · intro y hy
    rw [mem_forN] at hy
    obtain ⟨i', hi', hy⟩ := hy
    rw [mem_forN] at hy
    obtain ⟨j', hj', hy⟩ := hy
    simp only [List.mem_singleton, Prod.mk.injEq] at hy
    obtain ⟨e1, e2⟩ := hy
    obtain ⟨rfl, rfl⟩ := colMajor_inj hj hj' e1
    exact e2

variable {lam : K} {N nb : Nat} {x W : Nat → K}

/-- The weight of an entry. -/
def wt (N nb : Nat) (W : Nat → K) (k : Nat) : K := W (k / (N / nb))

theorem proxW_read (hd : nb ∣ N) (res0 : Nat → K) {k : Nat} (hk : k < N) : proxW lam N nb x W res0 k = soft lam (wt N nb W k) (x k) :=
  block_read res0 nb (N / nb) (fun i k => soft lam (W i) (x k)) (by rw [Nat.div_mul_cancel hd]; exact hk)

theorem calJW_read (hd : nb ∣ N) (eta res0 : Nat → K) {k : Nat} (hk : k < N) : calJW lam N nb x eta W res0 k = if |x k| * wt N nb W k > lam then eta k else 0 :=
  block_read res0 nb (N / nb) (fun i k => if |x k| * W i > lam then eta k else 0) (by rw [Nat.div_mul_cancel hd]; exact hk)

theorem scaleBlocks_read (hd : nb ∣ N) (u : Nat → K) {k : Nat} (hk : k < N) : scaleBlocks N nb W u k = 1 / wt N nb W k * u k :=
  block_read u nb (N / nb) (fun i k => 1 / W i * u k) (by rw [Nat.div_mul_cancel hd]; exact hk)

theorem wt_pos (hd : nb ∣ N) (hW : ∀ i < nb, 0 < W i) {k : Nat} (hk : k < N) : 0 < wt N nb W k := by
  refine hW _ ?_
  have : 0 < N / nb := Nat.div_pos_iff.mpr ⟨Nat.pos_of_dvd_of_pos hd (by omega), Nat.le_of_dvd (by omega) hd⟩
  rw [Nat.div_lt_iff_lt_mul this, Nat.mul_comm, Nat.div_mul_cancel hd]
  exact hk

/-- C53 for the whole vector: when the number of weights divides the length, every entry of the result is the proximal point of the corresponding entry with the weight of its block. -/
theorem C53_vector (hl : 0 ≤ lam) (hd : nb ∣ N) (hW : ∀ i < nb, 0 < W i) (res0 y : Nat → K) :
    ∑ k ∈ Finset.range N, (lam * |proxW lam N nb x W res0 k| + wt N nb W k / 2 * (proxW lam N nb x W res0 k - x k) ^ 2 + wt N nb W k / 2 * (y k - proxW lam N nb x W res0 k) ^ 2) ≤
    ∑ k ∈ Finset.range N, (lam * |y k| + wt N nb W k / 2 * (y k - x k) ^ 2) := by
  refine Finset.sum_le_sum fun k hk => ?_
  have hk := Finset.mem_range.mp hk
  rw [proxW_read hd _ hk]
  exact C53_prox hl (wt_pos hd hW hk) _ _

/-! ### C72: a zero of the Newton residual gives the exact proximal direction -/

/-- The subproblem of the proximal gradient methods: linear term, weighted square, and the one-norm at the shifted point. -/
def subObj (lam : K) (N nb : Nat) (x W g D : Nat → K) : K :=
  ∑ k ∈ Finset.range N, (g k * D k + wt N nb W k / 2 * D k ^ 2 + lam * |x k + D k|)

/-- C72: if the Newton residual vanishes at a dual vector, then the direction `ProxW(BLambda) - x` satisfies the tangency constraint and is the minimiser of the subproblem among all
directions satisfying it, every other one being worse by half its weighted squared distance. `A` and `Aadj` need only be adjoint. -/
theorem C72_zero_residual_is_minimiser (hl : 0 ≤ lam) (hd : nb ∣ N) (hW : ∀ i < nb, 0 < W i) {A Aadj : (Nat → K) → Nat → K} {dim : Nat}
    (hadj : ∀ u v : Nat → K, ∑ k ∈ Finset.range dim, A u k * v k = ∑ k ∈ Finset.range N, u k * Aadj v k) {g z : Nat → K}
    (hz : ∀ k < dim, eW A lam N nb x W (computeBLambda Aadj N nb x W g z) k = 0) :
    let B := computeBLambda Aadj N nb x W g z
    let D := fun k => proxW lam N nb B W B k - x k
    (∀ k < dim, A D k = 0) ∧ ∀ D' : Nat → K, (∀ k < dim, A D' k = 0) →
      subObj lam N nb x W g D + ∑ k ∈ Finset.range N, wt N nb W k / 2 * (D' k - D k) ^ 2 ≤ subObj lam N nb x W g D' := by
  intro B D
  have hAD : ∀ k < dim, A D k = 0 := hz
  refine ⟨hAD, fun D' hD' => ?_⟩
  have hz0 : ∀ u : Nat → K, (∀ k < dim, A u k = 0) → ∑ k ∈ Finset.range N, u k * Aadj z k = 0 := by
    intro u hu
    rw [← hadj u z]
    exact Finset.sum_eq_zero fun k hk => by rw [hu k (Finset.mem_range.mp hk), zero_mul]
  have hB : ∀ k < N, wt N nb W k * (B k - x k) = -(g k - Aadj z k) := by
    intro k hk
    have : B k = x k - scaleBlocks N nb W (fun k => g k - Aadj z k) k := rfl
    rw [this, scaleBlocks_read hd _ hk]
    have := (wt_pos hd hW hk).ne'
    field_simp
    ring
  have key : ∀ k ∈ Finset.range N, g k * D k + wt N nb W k / 2 * D k ^ 2 + lam * |x k + D k| + wt N nb W k / 2 * (D' k - D k) ^ 2 ≤
      g k * D' k + wt N nb W k / 2 * D' k ^ 2 + lam * |x k + D' k| - D' k * Aadj z k + D k * Aadj z k := by
    intro k hk
    have hk := Finset.mem_range.mp hk
    have hp : proxW lam N nb B W B k = x k + D k := by simp [D]
    have h := C53_prox hl (wt_pos hd hW hk) (B k) (x k + D' k)
    rw [← proxW_read hd B hk, hp] at h
    have hb := hB k hk
    set w := wt N nb W k
    have e1 : w / 2 * (x k + D k - B k) ^ 2 = w / 2 * D k ^ 2 - D k * (w * (B k - x k)) + w / 2 * (B k - x k) ^ 2 := by ring
    have e2 : w / 2 * (x k + D' k - B k) ^ 2 = w / 2 * D' k ^ 2 - D' k * (w * (B k - x k)) + w / 2 * (B k - x k) ^ 2 := by ring
    rw [e1, e2, hb] at h
    have e3 : x k + D' k - (x k + D k) = D' k - D k := by ring
    rw [e3] at h
    linarith
  have hs := Finset.sum_le_sum key
  have a1 := hz0 D hAD
  have a2 := hz0 D' hD'
  unfold subObj
  rw [← Finset.sum_add_distrib]
  refine le_trans hs (le_of_eq ?_)
  rw [Finset.sum_add_distrib, Finset.sum_sub_distrib, a1, a2]
  ring

/-- Hypotheses of `C72_zero_residual_is_minimiser`: two entries, the constraint that they sum to zero, one weight; the dual vector `3` is a zero of the residual, with a
direction that is not zero. -/
example : let A : (Nat → ℚ) → Nat → ℚ := fun u _ => u 0 + u 1
    let Aadj : (Nat → ℚ) → Nat → ℚ := fun v _ => v 0
    let g : Nat → ℚ := fun k => if k = 0 then -4 else 8
    let x : Nat → ℚ := fun k => if k = 0 then 1 else 3
    (∀ u v : Nat → ℚ, ∑ k ∈ Finset.range 1, A u k * v k = ∑ k ∈ Finset.range 2, u k * Aadj v k) ∧
    (∃ z, (∀ k < 1, eW A 1 2 1 x (fun _ => 2) (computeBLambda Aadj 2 1 x (fun _ => 2) g z) k = 0) ∧
      proxW 1 2 1 (computeBLambda Aadj 2 1 x (fun _ => 2) g z) (fun _ => 2) x 0 - x 0 ≠ 0) := by
  intro A Aadj g x
  refine ⟨fun u v => ?_, fun _ => 3, ?_, ?_⟩
  · simp [A, Aadj, Finset.sum_range_succ]; ring
  · decide +kernel
  · decide +kernel

/-- C73: the operator of the inner conjugate gradient method is symmetric. -/
theorem C73_operator_symmetric (hd : nb ∣ N) {A Aadj : (Nat → K) → Nat → K} {dim : Nat}
    (hadj : ∀ u v : Nat → K, ∑ k ∈ Finset.range dim, A u k * v k = ∑ k ∈ Finset.range N, u k * Aadj v k) (B d e : Nat → K) :
    ∑ k ∈ Finset.range dim, gLdW A Aadj lam N nb x W B d k * e k = ∑ k ∈ Finset.range dim, gLdW A Aadj lam N nb x W B e k * d k := by
  unfold gLdW
  rw [hadj, hadj]
  refine Finset.sum_congr rfl fun k hk => ?_
  have hk := Finset.mem_range.mp hk
  rw [scaleBlocks_read hd _ hk, scaleBlocks_read hd _ hk, calJW_read hd _ _ hk, calJW_read hd _ _ hk]
  split <;> ring

/-- C73: the operator of the inner conjugate gradient method is positive semidefinite. -/
theorem C73_operator_nonneg (hd : nb ∣ N) (hW : ∀ i < nb, 0 < W i) {A Aadj : (Nat → K) → Nat → K} {dim : Nat}
    (hadj : ∀ u v : Nat → K, ∑ k ∈ Finset.range dim, A u k * v k = ∑ k ∈ Finset.range N, u k * Aadj v k) (B d : Nat → K) :
    0 ≤ ∑ k ∈ Finset.range dim, gLdW A Aadj lam N nb x W B d k * d k := by
  unfold gLdW
  rw [hadj]
  refine Finset.sum_nonneg fun k hk => ?_
  have hk := Finset.mem_range.mp hk
  rw [scaleBlocks_read hd _ hk, calJW_read hd _ _ hk]
  have := wt_pos hd hW hk
  split
  · have : 1 / wt N nb W k * Aadj d k * Aadj d k = 1 / wt N nb W k * (Aadj d k) ^ 2 := by ring
    rw [this]; positivity
  · simp

end blocks

/-! ### C72 on the Stiefel manifold -/

section stiefel
open Matrix Verif.Mat Verif.Intr

variable {n p : Nat}

theorem norIntr_symm (M : Matrix (Fin p) (Fin p) ℝ) : norIntr p (flat M) = norIntr p (flat ((1 / 2 : ℝ) • (M + Mᵀ))) := by
  have hf : ∀ {i j : Nat}, i < p → j < p → flat ((1 / 2 : ℝ) • (M + Mᵀ)) (i + j * p) = 1 / 2 * (flat M (i + j * p) + flat M (j + i * p)) := by
    intro i j hi hj
    rw [flat_apply _ hi hj, flat_apply _ hi hj, flat_apply _ hj hi]
    simp [Matrix.add_apply, Matrix.smul_apply]
  unfold norIntr
  congr 1
  · refine List.map_congr_left fun i hi => ?_
    have := List.mem_range.mp hi
    rw [hf this this]; ring
  · refine List.map_congr_left ?_
    rintro ⟨i, j⟩ hq
    have hij := mem_pairs.mp hq
    simp only []
    rw [hf (by omega) hij.2, hf hij.2 (by omega)]
    congr 1; ring

/-- C72: the two conversions of normal vectors are adjoint, also on vectors that are not normal. -/
theorem C72_normal_adjoint (x η : Matrix (Fin n) (Fin p) ℝ) (junk : Nat → ℝ) {c : List ℝ} (hc : c.length = p * (p + 1) / 2) :
    dot (normalIntr x η) c = frob η (normalExtr junk x c) := by
  set M := xᵀ * η with hM
  set T := unflat p p (writeAll junk (symExtrWrites p (buf c))) with hT
  have hTs : Tᵀ = T := sym_extr_sym junk (buf c)
  have hS : ((1 / 2 : ℝ) • (M + Mᵀ))ᵀ = (1 / 2 : ℝ) • (M + Mᵀ) := by
    rw [transpose_smul, transpose_add, transpose_transpose, add_comm]
  have e1 : normalIntr x η = symIntr p (flat ((1 / 2 : ℝ) • (M + Mᵀ))) := by
    unfold normalIntr; rw [norIntr_symm, nor_eq_sym hS]
  have e2 : c = symIntr p (flat T) := (sym_intr_extr junk c hc).symm
  have e3 : frob η (normalExtr junk x c) = frob M T := by
    unfold normalExtr; rw [frob_mul_left']
  rw [e3, e1]
  conv_lhs => rw [e2]
  rw [sym_isometry hS hTs, frob_smul_left, frob_add_left]
  have : frob Mᵀ T = frob M T := by
    conv_lhs => rw [← hTs]
    exact frob_transpose M T
  rw [this]; ring

/-- C72: the normal coordinates of a vector vanish exactly when it is tangent. -/
theorem C72_normal_kernel (x η : Matrix (Fin n) (Fin p) ℝ) : (∀ v ∈ normalIntr x η, v = 0) ↔ (xᵀ * η)ᵀ = -(xᵀ * η) := by
  set M := xᵀ * η with hM
  have hS : ((1 / 2 : ℝ) • (M + Mᵀ))ᵀ = (1 / 2 : ℝ) • (M + Mᵀ) := by
    rw [transpose_smul, transpose_add, transpose_transpose, add_comm]
  have e1 : normalIntr x η = symIntr p (flat ((1 / 2 : ℝ) • (M + Mᵀ))) := by
    unfold normalIntr; rw [norIntr_symm, nor_eq_sym hS]
  constructor
  · intro h
    have h0 : frob ((1 / 2 : ℝ) • (M + Mᵀ)) ((1 / 2 : ℝ) • (M + Mᵀ)) = 0 := by
      rw [← sym_isometry hS hS, ← e1]
      unfold dot
      rw [List.zipWith_self]
      refine List.sum_eq_zero ?_
      intro v hv
      obtain ⟨w, hw, rfl⟩ := List.mem_map.mp hv
      rw [h w hw, mul_zero]
    have h1 := frob_self_eq_zero.mp h0
    have h2 : M + Mᵀ = 0 := by
      have := congrArg (fun A => (2 : ℝ) • A) h1
      simpa [smul_smul] using this
    rw [add_comm] at h2
    exact eq_neg_of_add_eq_zero_left h2
  · intro h v hv
    have h1 : (1 / 2 : ℝ) • (M + Mᵀ) = 0 := by rw [h, add_neg_cancel, smul_zero]
    rw [e1, h1] at hv
    have hz : ∀ k, flat (0 : Matrix (Fin p) (Fin p) ℝ) k = 0 := by intro k; unfold flat; split <;> rfl
    unfold symIntr at hv
    rcases List.mem_append.mp hv with hv | hv
    · obtain ⟨i, _, rfl⟩ := List.mem_map.mp hv; exact hz _
    · obtain ⟨q, _, rfl⟩ := List.mem_map.mp hv; rw [hz, zero_mul]

theorem dot_range {c d : List ℝ} {m : Nat} (hc : c.length = m) (hd : d.length = m) : dot c d = ∑ k ∈ Finset.range m, buf c k * buf d k := by
  have e : ∀ {l : List ℝ}, l.length = m → l = (List.range m).map (buf l) := by
    intro l hl
    refine List.ext_getElem (by simp [hl]) fun k h1 h2 => ?_
    simp [buf, h1]
  conv_lhs => rw [e hc, e hd]
  rw [dot_map, sum_range_list]

theorem sum_flat (u : Nat → ℝ) (M : Matrix (Fin n) (Fin p) ℝ) : ∑ k ∈ Finset.range (n * p), u k * flat M k = frob (unflat n p u) M := by
  rw [frob_range]
  have h1 : ∀ j ∈ Finset.range p, ∑ i ∈ Finset.range n, flat (unflat n p u) (i + j * n) * flat M (i + j * n) = ∑ i ∈ Finset.range n, u (i + j * n) * flat M (i + j * n) := by
    intro j hj
    refine Finset.sum_congr rfl fun i hi => ?_
    rw [flat_unflat _ (Finset.mem_range.mp hi) (Finset.mem_range.mp hj)]
  rw [Finset.sum_congr rfl h1]
  clear h1
  have : ∀ (g : Nat → ℝ) (q : Nat), ∑ k ∈ Finset.range (n * q), g k = ∑ j ∈ Finset.range q, ∑ i ∈ Finset.range n, g (i + j * n) := by
    intro g q
    induction q with
    | zero => simp
    | succ q ih =>
      rw [Nat.mul_succ, Finset.sum_range_add, ih, Finset.sum_range_succ]
      congr 1
      refine Finset.sum_congr rfl fun i _ => ?_
      congr 1; rw [Nat.mul_comm]; omega
  exact this (fun k => u k * flat M k) p

/-- The list of the first entries of a buffer. -/
def firstN (m : Nat) (v : Nat → ℝ) : List ℝ := (List.range m).map v

theorem normalIntr_length (x η : Matrix (Fin n) (Fin p) ℝ) : (normalIntr x η).length = p * (p + 1) / 2 := by
  unfold normalIntr norIntr
  simp [length_sym]

/-- C72 on the Stiefel manifold, with the normal conversions of the code: at a zero of the coded residual the direction is tangent and is the unique minimiser of the subproblem over
the tangent space at `x`. -/
theorem C72_stiefel {lam : ℝ} (hl : 0 ≤ lam) {nb : Nat} (hd : nb ∣ n * p) {W : Nat → ℝ} (hW : ∀ i < nb, 0 < W i) (x : Matrix (Fin n) (Fin p) ℝ) (junk : Nat → ℝ) {g z : Nat → ℝ}
    (hz : ∀ k < p * (p + 1) / 2, eW (fun u => buf (normalIntr x (unflat n p u))) lam (n * p) nb (flat x) W
      (computeBLambda (fun v => flat (normalExtr junk x (firstN (p * (p + 1) / 2) v))) (n * p) nb (flat x) W g z) k = 0) :
    let B := computeBLambda (fun v => flat (normalExtr junk x (firstN (p * (p + 1) / 2) v))) (n * p) nb (flat x) W g z
    let D := fun k => proxW lam (n * p) nb B W B k - flat x k
    (xᵀ * unflat n p D)ᵀ = -(xᵀ * unflat n p D) ∧ ∀ D' : Nat → ℝ, (xᵀ * unflat n p D')ᵀ = -(xᵀ * unflat n p D') →
      subObj lam (n * p) nb (flat x) W g D + ∑ k ∈ Finset.range (n * p), wt (n * p) nb W k / 2 * (D' k - D k) ^ 2 ≤ subObj lam (n * p) nb (flat x) W g D' := by
  intro B D
  have hadj : ∀ u v : Nat → ℝ, ∑ k ∈ Finset.range (p * (p + 1) / 2), buf (normalIntr x (unflat n p u)) k * v k =
      ∑ k ∈ Finset.range (n * p), u k * flat (normalExtr junk x (firstN (p * (p + 1) / 2) v)) k := by
    intro u v
    rw [sum_flat, ← C72_normal_adjoint x (unflat n p u) junk (by simp [firstN]), dot_range (normalIntr_length x _) (by simp [firstN] : (firstN (p * (p + 1) / 2) v).length = p * (p + 1) / 2)]
    refine Finset.sum_congr rfl fun k hk => ?_
    have hk := Finset.mem_range.mp hk
    congr 1
    simp [firstN, buf, hk]
  have hker : ∀ u : Nat → ℝ, (∀ k < p * (p + 1) / 2, buf (normalIntr x (unflat n p u)) k = 0) ↔ (xᵀ * unflat n p u)ᵀ = -(xᵀ * unflat n p u) := by
    intro u
    rw [← C72_normal_kernel]
    constructor
    · intro h v hv
      obtain ⟨k, hk, rfl⟩ := List.getElem_of_mem hv
      have := h k (by rw [← normalIntr_length x (unflat n p u)]; exact hk)
      simpa [buf, hk] using this
    · intro h k hk
      rw [← normalIntr_length x (unflat n p u)] at hk
      simp only [buf, List.getD_eq_getElem?_getD, List.getElem?_eq_getElem hk, Option.getD_some]
      exact h _ (List.getElem_mem hk)
  obtain ⟨h1, h2⟩ := C72_zero_residual_is_minimiser hl hd hW hadj hz
  exact ⟨(hker D).mp h1, fun D' hD' => h2 D' ((hker D').mpr hD')⟩

end stiefel

/-! ### C73: the conjugate gradient method -/

section cg
open RealInnerProductSpace

variable {E : Type*} [NormedAddCommGroup E] [InnerProductSpace ℝ E]

/-- The iterates. -/
noncomputable def cgIter (Op : E → E) (nb x0 : E) (k : Nat) : CG E := (CG.step Op)^[k] (CG.init Op nb x0)

theorem cgIter_succ (Op : E → E) (nb x0 : E) (k : Nat) : cgIter Op nb x0 (k + 1) = (cgIter Op nb x0 k).step Op := by
  unfold cgIter; rw [Function.iterate_succ_apply']

theorem cgIter_it (Op : E → E) (nb x0 : E) (k : Nat) : (cgIter Op nb x0 k).it = k := by
  induction k with
  | zero => rfl
  | succ k ih => rw [cgIter_succ]; show (cgIter Op nb x0 k).it + 1 = _; rw [ih]

/-- The recursively updated residual is the true residual. -/
theorem cg_residual (Op : E →ₗ[ℝ] E) (nb x0 : E) (k : Nat) : (cgIter Op nb x0 k).r = -(Op (cgIter Op nb x0 k).x + nb) := by
  induction k with
  | zero => show -1 • Op x0 + -1 • nb = -(Op x0 + nb); simp [add_comm]
  | succ k ih =>
    rw [cgIter_succ]
    simp only [CG.step]
    rw [map_add, map_smul, ih]
    module

/-- The orthogonality relations up to step `k`. -/
structure CGInv (Op : E → E) (nb x0 : E) (k : Nat) : Prop where
  rp : ∀ j < k, ⟪(cgIter Op nb x0 k).r, (cgIter Op nb x0 j).p⟫ = 0
  ap : ∀ j < k, ⟪Op (cgIter Op nb x0 k).p, (cgIter Op nb x0 j).p⟫ = 0
  self : ⟪(cgIter Op nb x0 k).r, (cgIter Op nb x0 k).p⟫ = ⟪(cgIter Op nb x0 k).r, (cgIter Op nb x0 k).r⟫
  rr : ∀ j < k, ⟪(cgIter Op nb x0 k).r, (cgIter Op nb x0 j).r⟫ = 0

theorem cg_inv (Op : E →ₗ[ℝ] E) (hsym : ∀ u v, ⟪Op u, v⟫ = ⟪u, Op v⟫) (hpos : ∀ u, u ≠ 0 → 0 < ⟪u, Op u⟫) (nb x0 : E) :
    ∀ k, (∀ i < k, (cgIter Op nb x0 i).r ≠ 0) → CGInv Op nb x0 k := by
  intro k
  induction k using Nat.strong_induction_on with
  | _ k IH =>
    intro hne
    rcases k with _ | k
    · exact ⟨fun j h => absurd h (by omega), fun j h => absurd h (by omega), rfl, fun j h => absurd h (by omega)⟩
    · have I : ∀ j ≤ k, CGInv Op nb x0 j := fun j hj => IH j (by omega) fun i hi => hne i (by omega)
      set r := fun j => (cgIter Op nb x0 j).r with hr
      set p := fun j => (cgIter Op nb x0 j).p with hp
      set a := fun j => ⟪r j, r j⟫ / ⟪p j, Op (p j)⟫ with ha
      have hr1 : ∀ j, r (j + 1) = r j - a j • Op (p j) := by intro j; simp only [hr, cgIter_succ]; rfl
      have hp1 : ∀ j, p (j + 1) = r (j + 1) + (⟪r (j + 1), r (j + 1)⟫ / ⟪r j, r j⟫) • p j := by intro j; simp only [hr, hp, cgIter_succ]; rfl
      have rrpos : ∀ j ≤ k, 0 < ⟪r j, r j⟫ := fun j hj => by
        have := hne j (by omega)
        exact real_inner_self_pos.mpr this
      have ppos : ∀ j ≤ k, 0 < ⟪p j, Op (p j)⟫ := fun j hj => by
        refine hpos _ fun h => ?_
        have := (I j hj).self
        have h0 : (cgIter (⇑Op) nb x0 j).p = 0 := h
        rw [h0, inner_zero_right] at this
        exact absurd this (rrpos j hj).ne
      have apos : ∀ j ≤ k, a j ≠ 0 := fun j hj => (div_pos (rrpos j hj) (ppos j hj)).ne'
      have hAp : ∀ j ≤ k, Op (p j) = (a j)⁻¹ • (r j - r (j + 1)) := by
        intro j hj
        rw [hr1 j, sub_sub_cancel, smul_smul, inv_mul_cancel₀ (apos j hj), one_smul]
      have RP : ∀ j < k + 1, ⟪r (k + 1), p j⟫ = 0 := by
        intro j hj
        rw [hr1 k, inner_sub_left, inner_smul_left]
        rcases Nat.lt_succ_iff_lt_or_eq.mp hj with h | h
        · have h1 : ⟪r k, p j⟫ = 0 := (I k (le_refl k)).rp j h
          have h2 : ⟪Op (p k), p j⟫ = 0 := (I k (le_refl k)).ap j h
          rw [h1, h2, mul_zero, sub_zero]
        · subst h
          have h1 : ⟪r j, p j⟫ = ⟪r j, r j⟫ := (I j (le_refl j)).self
          rw [h1, hsym, conj_trivial]
          simp only [ha]
          rw [div_mul_cancel₀ _ (ppos j (le_refl j)).ne', sub_self]
      have RR : ∀ j < k + 1, ⟪r (k + 1), r j⟫ = 0 := by
        intro j hj
        rcases j with _ | j
        · exact RP 0 hj
        · have e : r (j + 1) = p (j + 1) - (⟪r (j + 1), r (j + 1)⟫ / ⟪r j, r j⟫) • p j := by rw [hp1 j]; abel
          rw [e, inner_sub_right, inner_smul_right, RP (j + 1) hj, RP j (by omega), mul_zero, sub_zero]
      refine ⟨RP, ?_, ?_, RR⟩
      · intro j hj
        show ⟪Op (p (k + 1)), p j⟫ = 0
        rw [hsym]
        rcases Nat.lt_succ_iff_lt_or_eq.mp hj with h | h
        · rw [hp1 k, inner_add_left, inner_smul_left]
          have h2 : ⟪p k, Op (p j)⟫ = 0 := by rw [← hsym]; exact (I k (le_refl k)).ap j h
          rw [h2, mul_zero, add_zero, hAp j (by omega), inner_smul_right, inner_sub_right, RR j hj, RR (j + 1) (by omega), sub_zero, mul_zero]
        · subst h
          rw [hp1 j, inner_add_left, inner_smul_left, conj_trivial]
          have e1 : ⟪r (j + 1), Op (p j)⟫ = -((a j)⁻¹ * ⟪r (j + 1), r (j + 1)⟫) := by
            rw [hAp j (le_refl j), inner_smul_right, inner_sub_right, RR j hj]; ring
          rw [e1]
          have h1 := (rrpos j (le_refl j)).ne'
          have h2 := (ppos j (le_refl j)).ne'
          simp only [ha]
          rw [inv_div]
          field_simp
          ring
      · show ⟪r (k + 1), p (k + 1)⟫ = ⟪r (k + 1), r (k + 1)⟫
        rw [hp1 k, inner_add_right, inner_smul_right, RP k (by omega), mul_zero, add_zero]

theorem cg_stays (Op : E → E) (nb x0 : E) {k : Nat} (h : (cgIter Op nb x0 k).r = 0) : ∀ j, k ≤ j → (cgIter Op nb x0 j).r = 0 := by
  intro j hj
  induction j, hj using Nat.le_induction with
  | base => exact h
  | succ j _ ih =>
    rw [cgIter_succ]
    simp only [CG.step]
    rw [ih, inner_zero_left, zero_div, zero_smul, sub_zero]

/-- In finite dimension the residual vanishes after at most as many steps as the dimension. -/
theorem cg_finite [FiniteDimensional ℝ E] (Op : E →ₗ[ℝ] E) (hsym : ∀ u v, ⟪Op u, v⟫ = ⟪u, Op v⟫) (hpos : ∀ u, u ≠ 0 → 0 < ⟪u, Op u⟫) (nb x0 : E) {k : Nat}
    (hk : Module.finrank ℝ E ≤ k) : (cgIter Op nb x0 k).r = 0 := by
  by_contra hc
  have hne : ∀ i ≤ k, (cgIter Op nb x0 i).r ≠ 0 := fun i hi h => hc (cg_stays Op nb x0 h k hi)
  have hli : LinearIndependent ℝ fun i : Fin (k + 1) => (cgIter Op nb x0 i).r := by
    refine linearIndependent_of_ne_zero_of_inner_eq_zero (fun i => hne i (by omega)) ?_
    intro i j hij
    rcases lt_or_gt_of_ne (fun h => hij (Fin.ext h) : (i : Nat) ≠ j) with h | h
    · show ⟪(cgIter Op nb x0 i).r, (cgIter Op nb x0 j).r⟫ = 0
      rw [real_inner_comm]
      exact (cg_inv Op hsym hpos nb x0 j fun l hl => hne l (by omega)).rr i h
    · exact (cg_inv Op hsym hpos nb x0 i fun l hl => hne l (by omega)).rr j h
  have := hli.fintype_card_le_finrank
  rw [Fintype.card_fin] at this
  omega

theorem cg_loop (Op : E → E) (nb x0 : E) (tau lamF : ℝ) (maxiter : Nat) : ∀ f k, k + f = maxiter →
    ∃ j, j ≤ maxiter ∧ CG.loop Op tau lamF maxiter f (cgIter Op nb x0 k) = cgIter Op nb x0 j ∧ ¬ (cgIter Op nb x0 j).continues tau lamF maxiter := by
  intro f
  induction f with
  | zero =>
    intro k hk
    refine ⟨k, by omega, rfl, fun h => ?_⟩
    have := h.2
    rw [cgIter_it] at this
    omega
  | succ f ih =>
    intro k hk
    rw [CG.loop]
    split
    · rw [← cgIter_succ]; exact ih (k + 1) (by omega)
    · rename_i h; exact ⟨k, by omega, rfl, h⟩

/-- C73: the vector returned by the inner conjugate gradient method has the reported residual; either the residual test holds or the iteration limit was reached; and if the
limit is at least the dimension (and the operator is symmetric and positive definite) the residual test always holds. -/
theorem C73_cg [FiniteDimensional ℝ E] (Op : E →ₗ[ℝ] E) (hsym : ∀ u v, ⟪Op u, v⟫ = ⟪u, Op v⟫) (hpos : ∀ u, u ≠ 0 → 0 < ⟪u, Op u⟫) (nb x0 : E) {tau lamF : ℝ} (ht : 0 ≤ tau) (hl : 0 ≤ lamF)
    (maxiter : Nat) :
    let s := myCG Op nb x0 tau lamF maxiter
    s.it ≤ maxiter ∧ (‖Op s.x + nb‖ ≤ tau * min (lamF * ‖s.x‖) 1 ∨ s.it = maxiter) ∧ (Module.finrank ℝ E ≤ maxiter → ‖Op s.x + nb‖ ≤ tau * min (lamF * ‖s.x‖) 1) := by
  intro s
  obtain ⟨j, hj, hs, hnc⟩ := cg_loop Op nb x0 tau lamF maxiter maxiter 0 (by omega)
  have es : s = cgIter Op nb x0 j := hs
  have hmin : ∀ b : ℝ, (if b < 1 then b else 1) = min b 1 := by
    intro b
    split
    · rename_i h; rw [min_eq_left h.le]
    · rename_i h; rw [min_eq_right (not_lt.mp h)]
  have hres := cg_residual Op nb x0 j
  have hnorm : ‖(cgIter Op nb x0 j).r‖ = ‖Op (cgIter Op nb x0 j).x + nb‖ := by rw [hres, norm_neg]
  have hor : ‖Op (cgIter Op nb x0 j).x + nb‖ ≤ tau * min (lamF * ‖(cgIter Op nb x0 j).x‖) 1 ∨ j = maxiter := by
    unfold CG.continues at hnc
    rw [cgIter_it, hmin, hnorm] at hnc
    by_cases h : j = maxiter
    · right; exact h
    · left
      by_contra hc
      exact hnc ⟨not_le.mp hc, by omega⟩
  rw [es]
  refine ⟨by rw [cgIter_it]; exact hj, by rw [cgIter_it]; exact hor, fun hdim => ?_⟩
  rcases hor with h | h
  · exact h
  · have h0 := cg_finite Op hsym hpos nb x0 (k := j) (by omega)
    rw [← hnorm, h0, norm_zero]
    exact mul_nonneg ht (le_min (mul_nonneg hl (norm_nonneg _)) zero_le_one)

/-- Hypotheses of `C73_cg`: the operator `v ↦ 2 v` on the line. -/
example : ∃ Op : ℝ →ₗ[ℝ] ℝ, (∀ u v, ⟪Op u, v⟫ = ⟪u, Op v⟫) ∧ (∀ u, u ≠ 0 → 0 < ⟪u, Op u⟫) ∧ (cgIter Op (-6) 0 1).x = 3 := by
  refine ⟨2 • LinearMap.id, fun u v => ?_, fun u hu => ?_, ?_⟩
  · simp; ring
  · simp only [LinearMap.smul_apply, LinearMap.id_apply, inner_smul_right_eq_smul]
    have := real_inner_self_pos.mpr hu
    simp only [nsmul_eq_mul] at *
    push_cast
    linarith
  · rw [cgIter_succ]
    simp [CG.step, cgIter, CG.init]
    norm_num

/-- A coordinate vector as a buffer. -/
def toBuf {dim : Nat} (v : EuclideanSpace ℝ (Fin dim)) : Nat → ℝ := fun k => if h : k < dim then v ⟨k, h⟩ else 0

/-- The operator of the inner conjugate gradient method, `GLdW(v) + mu v`, on coordinate vectors. -/
noncomputable def newtonOp (A Aadj : (Nat → ℝ) → Nat → ℝ) (lam mu : ℝ) (N nb dim : Nat) (x W B : Nat → ℝ) (v : EuclideanSpace ℝ (Fin dim)) : EuclideanSpace ℝ (Fin dim) :=
  WithLp.toLp 2 fun j : Fin dim => gLdW A Aadj lam N nb x W B (toBuf v) j + mu * v j

/-- C73: the operator used by the Newton loop is linear, symmetric and, for a positive shift, positive definite, so that `C73_cg` applies to it: the inner method with iteration
limit at least the dimension solves the Newton system to its tolerance. -/
theorem C73_newton_system {lam mu : ℝ} (hmu : 0 < mu) {N nb dim : Nat} (hd : nb ∣ N) {x W : Nat → ℝ} (hW : ∀ i < nb, 0 < W i) {A Aadj : (Nat → ℝ) → Nat → ℝ}
    (hadj : ∀ u v : Nat → ℝ, ∑ k ∈ Finset.range dim, A u k * v k = ∑ k ∈ Finset.range N, u k * Aadj v k) (B : Nat → ℝ) :
    (∀ u v, newtonOp A Aadj lam mu N nb dim x W B (u + v) = newtonOp A Aadj lam mu N nb dim x W B u + newtonOp A Aadj lam mu N nb dim x W B v) ∧
    (∀ (c : ℝ) v, newtonOp A Aadj lam mu N nb dim x W B (c • v) = c • newtonOp A Aadj lam mu N nb dim x W B v) ∧
    (∀ nb' x0 tau lamF, 0 ≤ tau → 0 ≤ lamF → ∀ maxiter,
      let s := myCG (newtonOp A Aadj lam mu N nb dim x W B) nb' x0 tau lamF maxiter
      (‖newtonOp A Aadj lam mu N nb dim x W B s.x + nb'‖ ≤ tau * min (lamF * ‖s.x‖) 1 ∨ s.it = maxiter) ∧
      (dim ≤ maxiter → ‖newtonOp A Aadj lam mu N nb dim x W B s.x + nb'‖ ≤ tau * min (lamF * ‖s.x‖) 1)) := by
  have hA : ∀ (u : Nat → ℝ) (j : Nat), j < dim → A u j = ∑ k ∈ Finset.range N, u k * Aadj (Pi.single j 1) k := by
    intro u j hj
    rw [← hadj u (Pi.single j 1), Finset.sum_eq_single j]
    · simp
    · intro b _ hb; simp [Pi.single_apply, hb]
    · intro h; exact absurd (Finset.mem_range.mpr hj) h
  have hB : ∀ (v : Nat → ℝ) (k : Nat), k < N → Aadj v k = ∑ j ∈ Finset.range dim, A (Pi.single k 1) j * v j := by
    intro v k hk
    rw [hadj (Pi.single k 1) v, Finset.sum_eq_single k]
    · simp
    · intro b _ hb; simp [Pi.single_apply, hb]
    · intro h; exact absurd (Finset.mem_range.mpr hk) h
  -- the operator as a double sum
  have hG : ∀ (v : Nat → ℝ) (j : Nat), j < dim → gLdW A Aadj lam N nb x W B v j =
      ∑ k ∈ Finset.range N, 1 / wt N nb W k * (if |B k| * wt N nb W k > lam then Aadj v k else 0) * Aadj (Pi.single j 1) k := by
    intro v j hj
    unfold gLdW
    rw [hA _ j hj]
    refine Finset.sum_congr rfl fun k hk => ?_
    have hk := Finset.mem_range.mp hk
    rw [scaleBlocks_read hd _ hk, calJW_read hd _ _ hk]
  have hadd : ∀ u v : EuclideanSpace ℝ (Fin dim), ∀ k < N, Aadj (toBuf (u + v)) k = Aadj (toBuf u) k + Aadj (toBuf v) k := by
    intro u v k hk
    rw [hB _ k hk, hB _ k hk, hB _ k hk, ← Finset.sum_add_distrib]
    refine Finset.sum_congr rfl fun j hj => ?_
    have hj := Finset.mem_range.mp hj
    simp [toBuf, hj]; ring
  have hsmul : ∀ (c : ℝ) (v : EuclideanSpace ℝ (Fin dim)), ∀ k < N, Aadj (toBuf (c • v)) k = c * Aadj (toBuf v) k := by
    intro c v k hk
    rw [hB _ k hk, hB _ k hk, Finset.mul_sum]
    refine Finset.sum_congr rfl fun j hj => ?_
    have hj := Finset.mem_range.mp hj
    simp [toBuf, hj]; ring
  have L1 : ∀ u v, newtonOp A Aadj lam mu N nb dim x W B (u + v) = newtonOp A Aadj lam mu N nb dim x W B u + newtonOp A Aadj lam mu N nb dim x W B v := by
    intro u v
    ext j
    simp only [newtonOp, PiLp.add_apply]
    rw [hG _ j j.2, hG _ j j.2, hG _ j j.2]
    have : ∀ k ∈ Finset.range N, 1 / wt N nb W k * (if |B k| * wt N nb W k > lam then Aadj (toBuf (u + v)) k else 0) * Aadj (Pi.single (j : Nat) 1) k =
        1 / wt N nb W k * (if |B k| * wt N nb W k > lam then Aadj (toBuf u) k else 0) * Aadj (Pi.single (j : Nat) 1) k +
        1 / wt N nb W k * (if |B k| * wt N nb W k > lam then Aadj (toBuf v) k else 0) * Aadj (Pi.single (j : Nat) 1) k := by
      intro k hk
      rw [hadd u v k (Finset.mem_range.mp hk)]
      split <;> ring
    rw [Finset.sum_congr rfl this, Finset.sum_add_distrib]
    ring
  have L2 : ∀ (c : ℝ) v, newtonOp A Aadj lam mu N nb dim x W B (c • v) = c • newtonOp A Aadj lam mu N nb dim x W B v := by
    intro c v
    ext j
    simp only [newtonOp, PiLp.smul_apply, smul_eq_mul]
    rw [hG _ j j.2, hG _ j j.2, mul_add, Finset.mul_sum]
    congr 1
    · refine Finset.sum_congr rfl fun k hk => ?_
      rw [hsmul c v k (Finset.mem_range.mp hk)]
      split <;> ring
    · ring
  have hin : ∀ u v : EuclideanSpace ℝ (Fin dim), ⟪newtonOp A Aadj lam mu N nb dim x W B u, v⟫ =
      ∑ k ∈ Finset.range dim, gLdW A Aadj lam N nb x W B (toBuf u) k * toBuf v k + mu * ⟪u, v⟫ := by
    intro u v
    rw [PiLp.inner_apply, PiLp.inner_apply, Finset.sum_range, Finset.mul_sum, ← Finset.sum_add_distrib]
    refine Finset.sum_congr rfl fun j _ => ?_
    simp only [newtonOp, RCLike.inner_apply, conj_trivial]
    have : toBuf v j = v j := by simp [toBuf]
    rw [this]; ring
  have hsym : ∀ u v, ⟪newtonOp A Aadj lam mu N nb dim x W B u, v⟫ = ⟪u, newtonOp A Aadj lam mu N nb dim x W B v⟫ := by
    intro u v
    rw [real_inner_comm _ u, hin, hin, C73_operator_symmetric hd hadj, real_inner_comm]
  have hpos : ∀ u, u ≠ 0 → 0 < ⟪u, newtonOp A Aadj lam mu N nb dim x W B u⟫ := by
    intro u hu
    rw [real_inner_comm, hin]
    have h1 := C73_operator_nonneg (lam := lam) (x := x) hd hW hadj B (toBuf u)
    have h2 := mul_pos hmu (real_inner_self_pos.mpr hu)
    linarith
  refine ⟨L1, L2, fun nb' x0 tau lamF ht hl maxiter => ?_⟩
  have h := C73_cg (⟨⟨newtonOp A Aadj lam mu N nb dim x W B, L1⟩, L2⟩ : EuclideanSpace ℝ (Fin dim) →ₗ[ℝ] EuclideanSpace ℝ (Fin dim)) hsym hpos nb' x0 ht hl maxiter
  rw [finrank_euclideanSpace_fin] at h
  exact ⟨h.2.1, h.2.2⟩

end cg

/-! ### C72: the Newton loop -/

section newton
variable {Z V K : Type} [Field K] [LinearOrder K] [IsStrictOrderedRing K]

/-- The data kept with the dual vector belong to it. -/
def NewtonSt.Consistent (E : NewtonEnv Z V K) (s : NewtonSt Z V K) : Prop := s.bl = E.bl s.z ∧ s.fz = E.F s.bl ∧ s.nfz = E.nrm s.fz

theorem backtrack_trial (E : NewtonEnv Z V K) (z d : Z) (nfz : K) : ∀ k a, ∃ a', (E.backtrack z d nfz k a (E.trial z d a)).1 = E.trial z d a' ∧
    (E.backtrack z d nfz k a (E.trial z d a)).2.1 = a' ∧
    ((E.backtrack z d nfz k a (E.trial z d a)).2.2 ≠ 0 → (E.trial z d a').nfu * (E.trial z d a').nfu ≤ nfz * nfz * (1 - 1 / 1000 * a')) ∧ (0 < a → 0 < a') := by
  intro k
  induction k with
  | zero => intro a; exact ⟨a, rfl, rfl, fun h => absurd rfl h, id⟩
  | succ k ih =>
    intro a
    rw [NewtonEnv.backtrack]
    split
    · obtain ⟨a', h1, h2, h3, h4⟩ := ih (a * (1 / 2))
      exact ⟨a', h1, h2, h3, fun h => h4 (by positivity)⟩
    · rename_i h
      exact ⟨a, rfl, rfl, fun _ => not_lt.mp h, id⟩

theorem pass_spec (E : NewtonEnv Z V K) (s : NewtonSt Z V K) :
    ((E.pass s).early = true → (E.pass s).z = s.z ∧ (E.pass s).fz = s.fz ∧ (E.pass s).nfz = s.nfz ∧ (E.pass s).iter = s.iter ∧ s.iter ≠ 0 ∧ ∃ a > 0, (E.pass s).bl = E.bl (E.move s.z a (E.pass s).d)) ∧
    ((E.pass s).early = false → (E.pass s).Consistent E ∧ (E.pass s).iter = s.iter + 1 ∧
      ∃ a > 0, (E.pass s).z = E.move s.z a (E.pass s).d ∧ (s.iter ≠ 0 → (E.pass s).nfz * (E.pass s).nfz ≤ s.nfz * s.nfz * (1 - 1 / 1000 * a))) := by
  obtain ⟨a, h1, h2, h3, h4⟩ := backtrack_trial E s.z (E.dir s.bl s.fz s.nfz s.d) s.nfz 10 1
  unfold NewtonEnv.pass
  simp only
  rw [h1]
  have ha : 0 < a := h4 one_pos
  split
  · rename_i h
    refine ⟨fun _ => ⟨rfl, rfl, rfl, rfl, h.2, a, ha, rfl⟩, fun h => absurd h (by simp)⟩
  · rename_i h
    refine ⟨fun h => absurd h (by simp), fun _ => ⟨⟨rfl, rfl, rfl⟩, rfl, a, ha, rfl, fun hi => ?_⟩⟩
    exact h3 fun h0 => h ⟨h0, hi⟩

/-- C72: the Newton loop makes at most 100 passes; if it does not stop early, the point used for the direction belongs to the returned dual vector, and either the squared residual
norm there is within the tolerance or all passes were used. -/
theorem C72_newton_exit (E : NewtonEnv Z V K) (tol : K) (z0 d0 : Z) :
    (E.run tol z0 d0).iter ≤ 100 ∧ ((E.run tol z0 d0).early = false → (E.run tol z0 d0).Consistent E ∧
      (E.nrm (E.F (E.bl (E.run tol z0 d0).z)) * E.nrm (E.F (E.bl (E.run tol z0 d0).z)) ≤ tol ∨ (E.run tol z0 d0).iter = 100)) := by
  have key : ∀ f (s : NewtonSt Z V K), s.iter + f = 100 → s.Consistent E → s.early = false →
      (E.loop tol f s).iter ≤ 100 ∧ ((E.loop tol f s).early = false → (E.loop tol f s).Consistent E ∧ ((E.loop tol f s).nfz * (E.loop tol f s).nfz ≤ tol ∨ (E.loop tol f s).iter = 100)) := by
    intro f
    induction f with
    | zero => intro s hs hc he; exact ⟨by rw [NewtonEnv.loop]; omega, fun _ => ⟨hc, Or.inr (by rw [NewtonEnv.loop]; omega)⟩⟩
    | succ f ih =>
      intro s hs hc he
      rw [NewtonEnv.loop]
      split
      · obtain ⟨p1, p2⟩ := pass_spec E s
        simp only
        split
        · rename_i h
          obtain ⟨_, _, _, h4, _⟩ := p1 h
          exact ⟨by omega, fun h' => absurd h' (by rw [h]; simp)⟩
        · rename_i h
          have h := Bool.eq_false_iff.mpr h
          obtain ⟨c1, c2, _⟩ := p2 h
          exact ih _ (by omega) c1 h
      · rename_i h
        exact ⟨by omega, fun _ => ⟨hc, Or.inl (not_lt.mp h)⟩⟩
  obtain ⟨h1, h2⟩ := key 100 ⟨z0, E.F (E.bl z0), E.nrm (E.F (E.bl z0)), d0, E.bl z0, 0, false⟩ rfl ⟨rfl, rfl, rfl⟩ rfl
  refine ⟨h1, fun he => ?_⟩
  obtain ⟨c, h⟩ := h2 he
  refine ⟨c, ?_⟩
  obtain ⟨e1, e2, e3⟩ := c
  rw [e3, e2, e1] at h
  exact h

/-- C72: from the second pass on, the residual norm decreases by a definite factor in every pass that does not stop the loop. -/
theorem C72_newton_decrease (E : NewtonEnv Z V K) (s : NewtonSt Z V K) (hs : s.iter ≠ 0) (he : (E.pass s).early = false) :
    ∃ a > 0, (E.pass s).nfz * (E.pass s).nfz ≤ s.nfz * s.nfz * (1 - 1 / 1000 * a) := by
  obtain ⟨_, _, a, ha, _, h⟩ := (pass_spec E s).2 he
  exact ⟨a, ha, h hs⟩

end newton

/-- The data returned after an early stop do not belong together: the direction is computed from the rejected trial, while the dual vector handed back as the next starting value is the
one before it. One-dimensional instance: the residual `1` at `0`, `1 / 2` at `1`, and growing beyond `1`, with unit steps. -/
theorem C72_newton_early_inconsistent : ∃ (E : NewtonEnv ℚ ℚ ℚ) (tol : ℚ), (E.run tol 0 0).early = true ∧ ¬ (E.run tol 0 0).Consistent E := by
  refine ⟨⟨id, fun v => if v = 0 then 1 else if v = 1 then 1 / 2 else 1, id, fun _ _ _ _ => 1, fun z a d => z + a * d⟩, 0, by decide +kernel, ?_⟩
  unfold NewtonSt.Consistent
  decide +kernel

end Verif.Prox
