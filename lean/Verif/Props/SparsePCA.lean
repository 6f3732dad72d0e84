import Verif.Problem.SparsePCA
import Verif.Props.PGRun
import Verif.Props.StiefelSmooth
import Verif.Props.StiefelDiff
import Mathlib.Algebra.Order.Chebyshev
import Mathlib.Analysis.Matrix.Spectrum

/-!
# C157: sparse principal components with `ManPG` on the Stiefel manifold
-/

set_option linter.unusedSectionVars false
set_option linter.unusedVariables false

namespace Verif.SPCA

open Matrix Verif.Mat Verif.Stiefel Verif.Obj

variable {m n p : ℕ}

/-! ## Specification -/

/-- The one-norm of the entries. -/
def l1 (A : Matrix (Fin n) (Fin p) ℝ) : ℝ := ∑ i, ∑ j, |A i j|

/-- The cost of sparse principal component analysis. -/
def cost (B : Matrix (Fin m) (Fin n) ℝ) (lam : ℝ) (x : Matrix (Fin n) (Fin p) ℝ) : ℝ := -frob (B * x) (B * x) + lam * l1 x

/-- `y` is the polar retraction of the tangent vector `v` at `x`: orthonormal columns, and `x + v` is `y` times a matrix `Vᵀ diag(s) V` with `s ≥ 0` and `V` orthogonal. -/
def IsPolar (x v y : Matrix (Fin n) (Fin p) ℝ) : Prop := yᵀ * y = 1 ∧ ∃ (s : Fin p → ℝ) (V : Matrix (Fin p) (Fin p) ℝ), Vᵀ * V = 1 ∧ (∀ i, 0 ≤ s i) ∧ y * spd s V = x + v

/-- `s0` bounds the action of `B`. -/
def Bounds (B : Matrix (Fin m) (Fin n) ℝ) (s0 : ℝ) : Prop := ∀ {k : ℕ} (M : Matrix (Fin n) (Fin k) ℝ), nF (B * M) ≤ s0 * nF M

/-- The objective of the subproblem with weights `W`: linear term, half the weighted square, change of the sparse term. -/
noncomputable def model (lam : ℝ) (W : Fin n → Fin p → ℝ) (x g v : Matrix (Fin n) (Fin p) ℝ) : ℝ := frob g v + (∑ i, ∑ j, W i j * v i j ^ 2) / 2 + lam * (l1 (x + v) - l1 x)

/-- `v` solves the subproblem over the tangent space. -/
def Solves (lam : ℝ) (W : Fin n → Fin p → ℝ) (x g v : Matrix (Fin n) (Fin p) ℝ) : Prop := IsTangent x v ∧ ∀ u, IsTangent x u → model lam W x g v ≤ model lam W x g u

/-! ## The weights -/

/-- **C157, weights.** Every weight per entry or per column is at least 0.1; a single weight is positive unless `B` has singular values zero only; the unsupported lengths give the weight zero, by which the solver divides. -/
theorem C157_weights (B : Matrix (Fin m) (Fin n) ℝ) (s0 : ℝ) (lengthW : ℕ) (x : Matrix (Fin n) (Fin p) ℝ) {ada : ℝ} (ha : 0 < ada) (i : Fin n) (j : Fin p) :
    (lengthW = n * p ∨ lengthW = p → ada / 10 ≤ (weights B s0 lengthW x).entry ada i j) ∧
    (lengthW ≠ n * p → lengthW ≠ p → lengthW = 1 → (weights B s0 lengthW x).entry ada i j = ada * (2 * s0 ^ 2)) ∧
    (lengthW ≠ n * p → lengthW ≠ p → lengthW ≠ 1 → (weights B s0 lengthW x).entry ada i j = 0) := by
  have hf : ∀ a, 1 / 10 ≤ floor01 a := fun a => by unfold floor01; split <;> linarith
  refine ⟨fun h => ?_, fun h1 h2 h3 => ?_, fun h1 h2 h3 => ?_⟩
  · unfold weights
    by_cases h1 : lengthW = n * p
    · rw [if_pos h1]
      have := mul_le_mul_of_nonneg_left (hf ((colSq (B * x) j - colSq B i) * 2)) ha.le
      show ada / 10 ≤ ada * _
      linarith
    · rw [if_neg h1, if_pos (h.resolve_left h1)]
      have := mul_le_mul_of_nonneg_left (hf ((colSq (B * x) j - 1) * 2)) ha.le
      show ada / 10 ≤ ada * _
      linarith
  · unfold weights
    rw [if_neg h1, if_neg h2, if_pos h3]
    show ada * (s0 * s0 * 2) = _
    ring
  · unfold weights
    rw [if_neg h1, if_neg h2, if_neg h3]
    exact mul_zero _

/-- **C157, problems without weights.** For every problem that does not override `PreConditioner` the first proximal mapping of a run divides an integer by zero. With the shipped problems the blocks are defined and cover the array. -/
theorem C157_no_weights (len : ℕ) : blockSize len (weightLength (none : Option (Weights n p))) = none := rfl

theorem C157_blocks (W : Weights n p) (hn : 0 < n) (hp : 0 < p) : ∃ b, blockSize (n * p) (weightLength (some W)) = some b ∧ b * W.count = n * p := by
  have hnp : 0 < n * p := Nat.mul_pos hn hp
  have hc : W.count ∣ n * p ∧ W.count ≠ 0 := by
    cases W with
    | full _ => exact ⟨dvd_rfl, hnp.ne'⟩
    | cols _ => exact ⟨Dvd.intro_left n rfl, hp.ne'⟩
    | one _ => exact ⟨one_dvd _, one_ne_zero⟩
    | unsupported => exact ⟨one_dvd _, one_ne_zero⟩
  exact ⟨n * p / W.count, if_neg hc.2, Nat.div_mul_cancel hc.1⟩

/-! ## The largest singular value -/

theorem nF_le_of_sq {a b : ℕ} {A : Matrix (Fin a) (Fin b) ℝ} {c : ℝ} (hc : 0 ≤ c) (h : frob A A ≤ c ^ 2) : nF A ≤ c := by
  rw [nF]; exact (Real.sqrt_le_sqrt h).trans (Real.sqrt_sq hc).le

/-- **C157, Lipschitz constant.** The first singular value bounds the action of `B`, whatever decomposition `SVDDecom` returned, as long as the singular values are in descending order. -/
theorem C157_bounds {k : ℕ} {B : Matrix (Fin m) (Fin n) ℝ} {U : Matrix (Fin m) (Fin (k + 1)) ℝ} {s : Fin (k + 1) → ℝ} {Vt : Matrix (Fin (k + 1)) (Fin n) ℝ} (hU : Uᵀ * U = 1) (hV : Vt * Vtᵀ = 1)
    (hs : ∀ i, 0 ≤ s i) (hd : Antitone s) (hB : U * diagonal s * Vt = B) : Bounds B (s 0) := by
  intro l M
  have h0 := hs 0
  have e1 : nF (B * M) = nF (diagonal s * (Vt * M)) := by
    rw [← hB, Matrix.mul_assoc, Matrix.mul_assoc, nF_orth_mul hU]
  have h1 : nF (diagonal s * (Vt * M)) ≤ s 0 * nF (Vt * M) := by
    apply nF_le_of_sq (mul_nonneg h0 (nF_nonneg _))
    rw [mul_pow, nF_sq]
    simp only [frob, Finset.mul_sum, diagonal_mul]
    refine Finset.sum_le_sum fun i _ => Finset.sum_le_sum fun j _ => ?_
    have h2 : s i ≤ s 0 := hd (Fin.zero_le i)
    have h3 : s i ^ 2 ≤ s 0 ^ 2 := pow_le_pow_left₀ (hs i) h2 2
    have h4 := mul_le_mul_of_nonneg_right h3 (mul_self_nonneg ((Vt * M) i j))
    calc s i * (Vt * M) i j * (s i * (Vt * M) i j) = s i ^ 2 * ((Vt * M) i j * (Vt * M) i j) := by ring
      _ ≤ _ := h4
  have h5 : nF (Vt * M) ≤ nF M := by
    apply nF_le_of_sq (nF_nonneg _)
    rw [nF_sq]
    have h6 : 0 ≤ frob (M - Vtᵀ * (Vt * M)) (M - Vtᵀ * (Vt * M)) := frob_self_nonneg _
    have e2 : frob (Vtᵀ * (Vt * M)) (Vtᵀ * (Vt * M)) = frob (Vt * M) (Vt * M) := by
      rw [frob_mul_left, transpose_transpose, ← Matrix.mul_assoc, ← Matrix.mul_assoc, hV, Matrix.one_mul]
    have e3 : frob M (Vtᵀ * (Vt * M)) = frob (Vt * M) (Vt * M) := by
      rw [frob_mul_left', transpose_transpose]
    rw [frob_sub_left, frob_sub_right, frob_sub_right, e2, frob_comm (Vtᵀ * (Vt * M)) M, e3] at h6
    linarith
  rw [e1]
  exact h1.trans (mul_le_mul_of_nonneg_left h5 h0)

/-! ## The polar retraction -/

theorem polar_gram {x v y : Matrix (Fin n) (Fin p) ℝ} (hx : xᵀ * x = 1) (hv : IsTangent x v) : (x + v)ᵀ * (x + v) = 1 + vᵀ * v := by
  have h : vᵀ * x = -(xᵀ * v) := by
    have : (xᵀ * v)ᵀ = vᵀ * x := by rw [transpose_mul, transpose_transpose]
    rw [← this]; exact hv
  rw [transpose_add, Matrix.add_mul, Matrix.mul_add, Matrix.mul_add, hx, h]
  abel

theorem spd_tr (s : Fin p → ℝ) (V : Matrix (Fin p) (Fin p) ℝ) : (spd s V)ᵀ = spd s V := by
  unfold spd
  rw [transpose_mul, transpose_mul, transpose_transpose, diagonal_transpose, Matrix.mul_assoc]

theorem spd_frob {s r : Fin p → ℝ} {V : Matrix (Fin p) (Fin p) ℝ} (hV : Vᵀ * V = 1) : frob (spd s V) (spd r V) = ∑ i, s i * r i := by
  have hV' : V * Vᵀ = 1 := mul_eq_one_comm.mp hV
  rw [frob_eq_trace, spd_tr, spd_mul hV, spd, trace_mul_comm, ← Matrix.mul_assoc, hV', Matrix.one_mul, trace_diagonal]

/-- **C157, second order.** The polar retraction differs from the straight step by at most half the square of its length. -/
theorem C157_polar_second_order {x v y : Matrix (Fin n) (Fin p) ℝ} (hx : xᵀ * x = 1) (hv : IsTangent x v) (hy : IsPolar x v y) : nF (y - (x + v)) ≤ nF v ^ 2 / 2 := by
  obtain ⟨hyo, s, V, hV, hs, e⟩ := hy
  have hV' : V * Vᵀ = 1 := mul_eq_one_comm.mp hV
  have e1 : y - (x + v) = y * (1 - spd s V) := by rw [Matrix.mul_sub, Matrix.mul_one, e]
  have e2 : (1 : Matrix (Fin p) (Fin p) ℝ) - spd s V = spd (fun i => 1 - s i) V := by
    rw [← spd_one hV]
    unfold spd
    rw [← Matrix.sub_mul, ← Matrix.mul_sub, diagonal_sub]
  have e3 : vᵀ * v = spd (fun i => s i ^ 2 - 1) V := by
    have h1 := polar_gram (y := y) hx hv
    rw [← e, transpose_mul, spd_tr, Matrix.mul_assoc, ← Matrix.mul_assoc yᵀ, hyo, Matrix.one_mul, spd_mul hV] at h1
    have h2 : vᵀ * v = spd (fun i => s i * s i) V - 1 := by rw [h1]; abel
    rw [h2, ← spd_one hV]
    unfold spd
    rw [← Matrix.sub_mul, ← Matrix.mul_sub, diagonal_sub]
    simp only [sq]
  have h1 : ∀ i, 1 ≤ s i := by
    intro i
    have h2 : V * (vᵀ * v) * Vᵀ = diagonal fun i => s i ^ 2 - 1 := by
      rw [e3, spd, Matrix.mul_assoc, Matrix.mul_assoc, hV', Matrix.mul_one, ← Matrix.mul_assoc, hV', Matrix.one_mul]
    have h3 : (V * (vᵀ * v) * Vᵀ) i i = ∑ l, (v * Vᵀ) l i * (v * Vᵀ) l i := by
      rw [show V * (vᵀ * v) * Vᵀ = (v * Vᵀ)ᵀ * (v * Vᵀ) by rw [transpose_mul, transpose_transpose]; simp only [Matrix.mul_assoc]]
      rw [Matrix.mul_apply]
      rfl
    rw [h2, diagonal_apply_eq] at h3
    have h4 : 0 ≤ s i ^ 2 - 1 := by rw [h3]; exact Finset.sum_nonneg fun l _ => mul_self_nonneg _
    nlinarith [hs i]
  have h2 : nF (vᵀ * v) ≤ nF v ^ 2 := by
    have := nF_mul vᵀ v
    rw [nF_transpose] at this
    nlinarith
  rw [e1, nF_orth_mul hyo, e2]
  have h3 : nF (spd (fun i => 1 - s i) V) ≤ nF (vᵀ * v) / 2 := by
    apply nF_le_of_sq (by linarith [nF_nonneg (vᵀ * v)])
    rw [div_pow, nF_sq, e3, spd_frob hV, spd_frob hV, le_div_iff₀ (by norm_num), Finset.sum_mul]
    refine Finset.sum_le_sum fun i _ => ?_
    have := h1 i
    have h5 : (s i ^ 2 - 1) * (s i ^ 2 - 1) = (1 - s i) * (1 - s i) * (s i + 1) ^ 2 := by ring
    rw [h5]
    exact mul_le_mul_of_nonneg_left (by nlinarith) (mul_self_nonneg _)
  linarith

/-- **C157, smooth part.** Along the polar retraction the smooth part lies below its linear model plus half of `2 s0²` times the square of the step: the single weight of the code is exactly this curvature. -/
theorem C157_smooth {B : Matrix (Fin m) (Fin n) ℝ} {s0 : ℝ} (h0 : 0 ≤ s0) (hB : Bounds B s0) {x v y : Matrix (Fin n) (Fin p) ℝ} (hx : xᵀ * x = 1) (hv : IsTangent x v) (hy : IsPolar x v y) :
    -frob (B * y) (B * y) ≤ -frob (B * x) (B * x) + frob ((-2 : ℝ) • (Bᵀ * (B * x))) v + lipschitz s0 / 2 * nF v ^ 2 := by
  obtain ⟨hyo, s, V, hV, hs, e⟩ := hy
  have e1 : spd s V * spd s V = 1 + vᵀ * v := by
    have h1 := polar_gram (y := y) hx hv
    rwa [← e, transpose_mul, spd_tr, Matrix.mul_assoc, ← Matrix.mul_assoc yᵀ, hyo, Matrix.one_mul] at h1
  have e2 : frob (B * (x + v)) (B * (x + v)) = frob (B * y) (B * y) + frob (B * (y * vᵀ)) (B * (y * vᵀ)) := by
    rw [← e, ← Matrix.mul_assoc, frob_mul_right, spd_tr, Matrix.mul_assoc, e1, Matrix.mul_add, Matrix.mul_one, frob_add_right]
    congr 1
    rw [← Matrix.mul_assoc B y vᵀ, frob_mul_right (B * y) vᵀ, transpose_transpose]
    simp only [Matrix.mul_assoc]
  have e3 : frob (B * (x + v)) (B * (x + v)) = frob (B * x) (B * x) + 2 * frob (Bᵀ * (B * x)) v + frob (B * v) (B * v) := by
    rw [Matrix.mul_add, frob_add_left, frob_add_right, frob_add_right, frob_comm (B * v) (B * x), frob_mul_left' B v (B * x)]
    ring
  have h1 : frob (B * (y * vᵀ)) (B * (y * vᵀ)) ≤ s0 ^ 2 * nF v ^ 2 := by
    have h2 := hB (y * vᵀ)
    rw [nF_orth_mul hyo, nF_transpose] at h2
    rw [← nF_sq, ← mul_pow]
    exact pow_le_pow_left₀ (nF_nonneg _) h2 2
  have h2 := frob_self_nonneg (B * v)
  rw [frob_smul_left]
  unfold lipschitz
  nlinarith

theorem l1_le (A : Matrix (Fin n) (Fin p) ℝ) : l1 A ≤ √(n * p) * nF A := by
  have h : l1 A ^ 2 ≤ n * p * frob A A := by
    unfold l1 frob
    rw [← Finset.sum_product', ← Finset.sum_product']
    have h1 := sq_sum_le_card_mul_sum_sq (s := (Finset.univ : Finset (Fin n)) ×ˢ (Finset.univ : Finset (Fin p))) (f := fun q => |A q.1 q.2|)
    simp only [Finset.card_product, Finset.card_univ, Fintype.card_fin, sq_abs, Nat.cast_mul] at h1
    simpa only [← sq] using h1
  rw [nF, ← Real.sqrt_mul (by positivity)]
  exact Real.le_sqrt_of_sq_le h

theorem l1_add (A C : Matrix (Fin n) (Fin p) ℝ) : l1 (A + C) ≤ l1 A + l1 C := by
  unfold l1
  rw [← Finset.sum_add_distrib]
  refine Finset.sum_le_sum fun i _ => ?_
  rw [← Finset.sum_add_distrib]
  exact Finset.sum_le_sum fun j _ => abs_add_le _ _

/-- The curvature of the cost along the polar retraction. -/
noncomputable def curvature (n p : ℕ) (lam s0 : ℝ) : ℝ := lipschitz s0 + lam * √(n * p)

/-- **C157, upper model.** The cost along the polar retraction lies below the linear model of the smooth part plus the sparse term at the straight step plus half of `2 s0² + lambda √(np)` times the square of the step. -/
theorem C157_upper {B : Matrix (Fin m) (Fin n) ℝ} {s0 lam : ℝ} (h0 : 0 ≤ s0) (hl : 0 ≤ lam) (hB : Bounds B s0) {x v y : Matrix (Fin n) (Fin p) ℝ} (hx : xᵀ * x = 1) (hv : IsTangent x v) (hy : IsPolar x v y) :
    cost B lam y ≤ cost B lam x + frob ((-2 : ℝ) • (Bᵀ * (B * x))) v + lam * (l1 (x + v) - l1 x) + curvature n p lam s0 / 2 * nF v ^ 2 := by
  have h1 := C157_smooth h0 hB hx hv hy
  have h2 := C157_polar_second_order hx hv hy
  have h3 : l1 y ≤ l1 (x + v) + √(n * p) * (nF v ^ 2 / 2) := by
    have h4 := l1_add (x + v) (y - (x + v))
    rw [add_sub_cancel] at h4
    have h5 := (l1_le (y - (x + v))).trans (mul_le_mul_of_nonneg_left h2 (Real.sqrt_nonneg _))
    linarith
  have h6 := mul_le_mul_of_nonneg_left h3 hl
  unfold cost curvature
  nlinarith

/-- **C157, lower model.** On the other side the cost is at least the same model minus half of the same curvature times the square of the step. -/
theorem C157_lower {B : Matrix (Fin m) (Fin n) ℝ} {s0 lam : ℝ} (h0 : 0 ≤ s0) (hl : 0 ≤ lam) (hB : Bounds B s0) {x v y : Matrix (Fin n) (Fin p) ℝ} (hx : xᵀ * x = 1) (hv : IsTangent x v) (hy : IsPolar x v y) :
    cost B lam x + frob ((-2 : ℝ) • (Bᵀ * (B * x))) v + lam * (l1 (x + v) - l1 x) - curvature n p lam s0 / 2 * nF v ^ 2 ≤ cost B lam y := by
  have h2 := C157_polar_second_order hx hv hy
  have h3 : l1 (x + v) ≤ l1 y + √(n * p) * (nF v ^ 2 / 2) := by
    have h4 := l1_add y (-(y - (x + v)))
    have h5 := (l1_le (-(y - (x + v)))).trans (mul_le_mul_of_nonneg_left ((nF_neg _).le.trans h2) (Real.sqrt_nonneg _))
    have e : y + -(y - (x + v)) = x + v := by abel
    rw [e] at h4
    linarith
  have h6 := mul_le_mul_of_nonneg_left h3 hl
  obtain ⟨hyo, s, V, hV, hs, e⟩ := hy
  have e1 : spd s V * spd s V = 1 + vᵀ * v := by
    have h1 := polar_gram (y := y) hx hv
    rwa [← e, transpose_mul, spd_tr, Matrix.mul_assoc, ← Matrix.mul_assoc yᵀ, hyo, Matrix.one_mul] at h1
  have e2 : frob (B * (x + v)) (B * (x + v)) = frob (B * y) (B * y) + frob (B * (y * vᵀ)) (B * (y * vᵀ)) := by
    rw [← e, ← Matrix.mul_assoc, frob_mul_right, spd_tr, Matrix.mul_assoc, e1, Matrix.mul_add, Matrix.mul_one, frob_add_right]
    congr 1
    rw [← Matrix.mul_assoc B y vᵀ, frob_mul_right (B * y) vᵀ, transpose_transpose]
    simp only [Matrix.mul_assoc]
  have e3 : frob (B * (x + v)) (B * (x + v)) = frob (B * x) (B * x) + 2 * frob (Bᵀ * (B * x)) v + frob (B * v) (B * v) := by
    rw [Matrix.mul_add, frob_add_left, frob_add_right, frob_add_right, frob_comm (B * v) (B * x), frob_mul_left' B v (B * x)]
    ring
  have h7 : frob (B * v) (B * v) ≤ s0 ^ 2 * nF v ^ 2 := by
    rw [← nF_sq, ← mul_pow]
    exact pow_le_pow_left₀ (nF_nonneg _) (hB v) 2
  have h8 := frob_self_nonneg (B * (y * vᵀ))
  rw [frob_smul_left]
  unfold cost curvature lipschitz
  nlinarith

/-! ## The subproblem -/

/-- The weighted inner product. -/
def wip (W : Fin n → Fin p → ℝ) (u v : Matrix (Fin n) (Fin p) ℝ) : ℝ := ∑ i, ∑ j, W i j * (u i j * v i j)

theorem wip_self (W : Fin n → Fin p → ℝ) (v : Matrix (Fin n) (Fin p) ℝ) : ∑ i, ∑ j, W i j * v i j ^ 2 = wip W v v := by simp only [wip, sq]

theorem wip_lower {W : Fin n → Fin p → ℝ} {w : ℝ} (hW : ∀ i j, w ≤ W i j) (v : Matrix (Fin n) (Fin p) ℝ) : w * nF v ^ 2 ≤ wip W v v := by
  rw [nF_sq, wip, frob, Finset.mul_sum]
  refine Finset.sum_le_sum fun i _ => ?_
  rw [Finset.mul_sum]
  exact Finset.sum_le_sum fun j _ => mul_le_mul_of_nonneg_right (hW i j) (mul_self_nonneg _)

theorem wip_comb (W : Fin n → Fin p → ℝ) (d e : Matrix (Fin n) (Fin p) ℝ) (t : ℝ) : wip W (d + t • e) (d + t • e) = wip W d d + 2 * t * wip W d e + t ^ 2 * wip W e e := by
  simp only [wip, Finset.mul_sum, ← Finset.sum_add_distrib]
  refine Finset.sum_congr rfl fun i _ => Finset.sum_congr rfl fun j _ => ?_
  simp only [Matrix.add_apply, Matrix.smul_apply, smul_eq_mul]
  ring

theorem l1_convex (a b : Matrix (Fin n) (Fin p) ℝ) {t : ℝ} (h0 : 0 ≤ t) (h1 : t ≤ 1) : l1 (a + t • (b - a)) ≤ (1 - t) * l1 a + t * l1 b := by
  simp only [l1, Finset.mul_sum, ← Finset.sum_add_distrib]
  refine Finset.sum_le_sum fun i _ => Finset.sum_le_sum fun j _ => ?_
  have : (a + t • (b - a)) i j = (1 - t) * a i j + t * b i j := by
    simp only [Matrix.add_apply, Matrix.smul_apply, Matrix.sub_apply, smul_eq_mul]; ring
  rw [this]
  refine (abs_add_le _ _).trans ?_
  rw [abs_mul, abs_mul, abs_of_nonneg h0, abs_of_nonneg (by linarith : 0 ≤ 1 - t)]

theorem tangent_comb {x u v : Matrix (Fin n) (Fin p) ℝ} (hu : IsTangent x u) (hv : IsTangent x v) (t : ℝ) : IsTangent x (u + t • v) := by
  unfold IsTangent at *
  rw [Matrix.mul_add, Matrix.mul_smul, transpose_add, transpose_smul, hu, hv, smul_neg]
  abel

theorem tangent_zero (x : Matrix (Fin n) (Fin p) ℝ) : IsTangent x (0 : Matrix (Fin n) (Fin p) ℝ) := by unfold IsTangent; simp

theorem tangent_smul {x v : Matrix (Fin n) (Fin p) ℝ} (hv : IsTangent x v) (t : ℝ) : IsTangent x (t • v) := by
  have := tangent_comb (tangent_zero x) hv t
  rwa [zero_add] at this

theorem l1_nonneg (A : Matrix (Fin n) (Fin p) ℝ) : 0 ≤ l1 A := Finset.sum_nonneg fun _ _ => Finset.sum_nonneg fun _ _ => abs_nonneg _

/-- A quantity that is at most every small positive multiple of a constant is not positive. -/
theorem le_zero_of_small {a c : ℝ} (h : ∀ t : ℝ, 0 < t → t ≤ 1 → a ≤ t * c) : a ≤ 0 := by
  by_contra hcon
  push Not at hcon
  have h1 := h (min 1 (a / (2 * (|c| + 1)))) (lt_min one_pos (by positivity)) (min_le_left _ _)
  have h2 : min 1 (a / (2 * (|c| + 1))) ≤ a / (2 * (|c| + 1)) := min_le_right _ _
  have h3 : 0 < min 1 (a / (2 * (|c| + 1))) := lt_min one_pos (by positivity)
  have h4 : min 1 (a / (2 * (|c| + 1))) * c ≤ a / (2 * (|c| + 1)) * (|c| + 1) :=
    mul_le_mul h2 (by linarith [le_abs_self c]) (le_of_lt (by linarith) |> fun (_ : (0:ℝ) ≤ 1) => by
      by_contra hc
      push Not at hc
      have := mul_neg_of_pos_of_neg h3 hc
      linarith) (by positivity)
  have h5 : a / (2 * (|c| + 1)) * (|c| + 1) = a / 2 := by field_simp
  linarith

/-- The optimality condition of the subproblem. -/
theorem solves_variational {lam : ℝ} (hl : 0 ≤ lam) {W : Fin n → Fin p → ℝ} {x g d u : Matrix (Fin n) (Fin p) ℝ} (hd : Solves lam W x g d) (hu : IsTangent x u) :
    frob g d + lam * (l1 (x + d) - l1 x) + wip W d d ≤ frob g u + lam * (l1 (x + u) - l1 x) + wip W d u := by
  have key : ∀ t : ℝ, 0 < t → t ≤ 1 → (frob g d + lam * l1 (x + d) + wip W d d) - (frob g u + lam * l1 (x + u) + wip W d u) ≤ t * (wip W (u - d) (u - d) / 2) := by
    intro t h0 h1
    have hud : IsTangent x (u - d) := by
      have := tangent_comb hu hd.1 (-1)
      rwa [neg_one_smul, ← sub_eq_add_neg] at this
    have h2 := hd.2 _ (tangent_comb hd.1 hud t)
    unfold model at h2
    rw [wip_self, wip_self, wip_comb, frob_add_right, frob_smul_right, frob_sub_right] at h2
    have h3 : l1 (x + (d + t • (u - d))) ≤ (1 - t) * l1 (x + d) + t * l1 (x + u) := by
      have h4 := l1_convex (x + d) (x + u) h0.le h1
      have e : x + (d + t • (u - d)) = x + d + t • (x + u - (x + d)) := by
        rw [show x + u - (x + d) = u - d by abel]; abel
      rw [e]; exact h4
    have h4 := mul_le_mul_of_nonneg_left h3 hl
    have e5 : wip W d (u - d) = wip W d u - wip W d d := by
      simp only [wip, ← Finset.sum_sub_distrib]
      refine Finset.sum_congr rfl fun i _ => Finset.sum_congr rfl fun j _ => ?_
      rw [Matrix.sub_apply]; ring
    rw [e5] at h2
    have h6 : t * ((frob g d + lam * l1 (x + d) + wip W d d) - (frob g u + lam * l1 (x + u) + wip W d u)) ≤ t * (t * (wip W (u - d) (u - d) / 2)) := by nlinarith
    exact le_of_mul_le_mul_left h6 h0
  have := le_zero_of_small key
  linarith

/-- The decrease of the model at the solution. -/
theorem solves_decrease {lam : ℝ} (hl : 0 ≤ lam) {W : Fin n → Fin p → ℝ} {x g d : Matrix (Fin n) (Fin p) ℝ} (hd : Solves lam W x g d) : frob g d + lam * (l1 (x + d) - l1 x) ≤ -wip W d d := by
  have h := solves_variational hl hd (tangent_zero x)
  have e : wip W d 0 = 0 := by simp [wip]
  rw [e, frob_zero_right, add_zero x] at h
  linarith

/-- **C157, stationary points.** The direction is zero exactly at the points where no tangent vector decreases the linear model of the smooth part plus the sparse term; this does not depend on the weights. -/
theorem C157_stationary {lam : ℝ} (hl : 0 ≤ lam) {W : Fin n → Fin p → ℝ} (hW : ∀ i j, 0 ≤ W i j) {x g : Matrix (Fin n) (Fin p) ℝ} :
    Solves lam W x g 0 ↔ ∀ u, IsTangent x u → 0 ≤ frob g u + lam * (l1 (x + u) - l1 x) := by
  constructor
  · intro h u hu
    have h2 := solves_variational hl h hu
    have e1 : wip W 0 0 = 0 := by simp [wip]
    have e2 : wip W 0 u = 0 := by simp [wip]
    rw [e1, e2, frob_zero_right, add_zero x] at h2
    linarith
  · intro h
    refine ⟨tangent_zero x, fun u hu => ?_⟩
    have h2 := h u hu
    have h3 := wip_lower (w := 0) hW u
    unfold model
    rw [wip_self, wip_self, frob_zero_right, add_zero x]
    have e1 : wip W 0 0 = 0 := by simp [wip]
    rw [e1]
    linarith

/-- **C157, subproblem.** With positive weights the subproblem has a solution at every point, and only one. -/
theorem C157_subproblem {lam w : ℝ} (hl : 0 ≤ lam) (hw : 0 < w) {W : Fin n → Fin p → ℝ} (hW : ∀ i j, w ≤ W i j) (x g : Matrix (Fin n) (Fin p) ℝ) : ∃! d, Solves lam W x g d := by
  have hmod : ∀ v : Matrix (Fin n) (Fin p) ℝ, nF v * (w / 2 * nF v - nF g - lam * √(n * p)) ≤ model lam W x g v := by
    intro v
    have h1 : -(nF g * nF v) ≤ frob g v := (abs_le.mp (frob_cs g v)).1
    have h2 := wip_lower hW v
    have h3 : l1 x ≤ l1 (x + v) + √(n * p) * nF v := by
      have h4 := l1_add (x + v) (-v)
      rw [add_neg_cancel_right] at h4
      have h5 := l1_le (-v)
      rw [nF_neg] at h5
      linarith
    have h4 := mul_le_mul_of_nonneg_left h3 hl
    unfold model
    rw [wip_self]
    nlinarith
  set R := 2 * (nF g + lam * √(n * p)) / w with hR
  have hR0 : 0 ≤ R := by
    have := nF_nonneg g
    have := mul_nonneg hl (Real.sqrt_nonneg (n * p : ℝ))
    rw [hR]; positivity
  have hbig : ∀ v : Matrix (Fin n) (Fin p) ℝ, R < nF v → 0 < model lam W x g v := by
    intro v hv
    refine lt_of_lt_of_le ?_ (hmod v)
    refine mul_pos (lt_of_le_of_lt hR0 hv) ?_
    rw [hR, div_lt_iff₀ hw] at hv
    linarith
  have hentry : ∀ (v : Matrix (Fin n) (Fin p) ℝ) i j, |v i j| ≤ nF v := by
    intro v i j
    rw [nF]
    refine Real.le_sqrt_of_sq_le ?_
    rw [sq_abs, frob]
    have h1 : v i j * v i j ≤ ∑ j, v i j * v i j := Finset.single_le_sum (f := fun j => v i j * v i j) (fun _ _ => mul_self_nonneg _) (Finset.mem_univ j)
    have h2 : ∑ j, v i j * v i j ≤ ∑ i, ∑ j, v i j * v i j := Finset.single_le_sum (f := fun i => ∑ j, v i j * v i j) (fun _ _ => Finset.sum_nonneg fun _ _ => mul_self_nonneg _) (Finset.mem_univ i)
    rw [sq]; exact h1.trans h2
  let box : Set (Matrix (Fin n) (Fin p) ℝ) := Set.pi Set.univ fun _ => Set.pi Set.univ fun _ => Set.Icc (-R) R
  have hbox : IsCompact box := isCompact_univ_pi fun _ => isCompact_univ_pi fun _ => isCompact_Icc
  have hclosed : IsClosed {v : Matrix (Fin n) (Fin p) ℝ | IsTangent x v} := by
    have : {v : Matrix (Fin n) (Fin p) ℝ | IsTangent x v} = {v | (xᵀ * v)ᵀ + xᵀ * v = 0} := by
      ext v; simp only [IsTangent, Set.mem_setOf_eq, eq_neg_iff_add_eq_zero]
    rw [this]
    exact isClosed_eq (by fun_prop) continuous_const
  have hK : IsCompact (box ∩ {v | IsTangent x v}) := hbox.inter_right hclosed
  have hcont : Continuous (model lam W x g) := by
    unfold model frob l1
    simp only [Matrix.add_apply]
    fun_prop
  have h0 : (0 : Matrix (Fin n) (Fin p) ℝ) ∈ box ∩ {v | IsTangent x v} := ⟨fun i _ j _ => ⟨neg_nonpos.mpr hR0, hR0⟩, tangent_zero x⟩
  obtain ⟨d, hd, hmin⟩ := hK.exists_isMinOn ⟨0, h0⟩ hcont.continuousOn
  have hm0 : model lam W x g 0 = 0 := by
    unfold model
    rw [frob_zero_right, add_zero x]
    simp
  have hS : Solves lam W x g d := by
    refine ⟨hd.2, fun u hu => ?_⟩
    by_cases hb : u ∈ box
    · exact hmin ⟨hb, hu⟩
    · have h1 : model lam W x g d ≤ 0 := hm0 ▸ hmin h0
      have h2 : R < nF u := by
        by_contra hcon
        push Not at hcon
        exact hb fun i _ j _ => abs_le.mp ((hentry u i j).trans hcon)
      exact h1.trans (hbig u h2).le
  refine ⟨d, hS, fun e he => ?_⟩
  have h1 := solves_variational hl hS he.1
  have h2 := solves_variational hl he hS.1
  have e1 : wip W e d = wip W d e := by simp only [wip, mul_comm (e _ _)]
  rw [e1] at h2
  have h3 := wip_comb W e d (-1)
  rw [e1] at h3
  have h4 := wip_lower hW (e + (-1 : ℝ) • d)
  have h5 : nF (e + (-1 : ℝ) • d) ^ 2 ≤ 0 := by nlinarith
  rw [nF_sq] at h5
  have h6 := frob_self_eq_zero.mp (le_antisymm h5 (frob_self_nonneg _))
  rw [neg_one_smul, ← sub_eq_add_neg, sub_eq_zero] at h6
  exact h6

/-! ## The run -/

/-- Points of the Stiefel manifold. -/
abbrev Pt (n p : ℕ) : Type := {x : Matrix (Fin n) (Fin p) ℝ // xᵀ * x = 1}

/-- The environment evaluates sparse principal component analysis on the Stiefel manifold with the polar retraction, the Euclidean metric and the extrinsic representation; the subproblem with the weights of the problem times `ada` is solved exactly,
whatever the accuracies and the starting dual vector. -/
structure Runs (env : PGEnv ℝ (Pt n p) (Matrix (Fin n) (Fin p) ℝ)) (B : Matrix (Fin m) (Fin n) ℝ) (lam s0 : ℝ) (lengthW : ℕ) (ada : ℝ) : Prop where
  f : ∀ x, env.f x = ((Verif.Problem.stieSPCA B lam).f x.1).1
  grad : ∀ x, env.grad x = proj x.1 ((Verif.Problem.stieSPCA B lam).eucGrad x.1 ((Verif.Problem.stieSPCA B lam).f x.1).2)
  retr : ∀ x v, IsTangent x.1 v → IsPolar x.1 v (env.retr x v).1
  smul : ∀ (t : ℝ) v, env.smul t v = t • v
  metric : ∀ x u v, env.metric x u v = frob u v
  sqrt : ∀ a, env.sqrt a = Real.sqrt a
  finite : ∀ v, env.finite v = true
  total : ∀ x g a tol l d, env.prox x g a tol l d ≠ none
  prox : ∀ x tol l d eta r, env.prox x (env.grad x) ada tol l d = some (eta, r) → Solves lam ((weights B s0 lengthW x.1).entry ada) x.1 (env.grad x) eta

theorem cost_eq (B : Matrix (Fin m) (Fin n) ℝ) (lam : ℝ) (x : Matrix (Fin n) (Fin p) ℝ) : ((Verif.Problem.stieSPCA B lam).f x).1 = cost B lam x := by
  simp only [Verif.Problem.stieSPCA, cost, l1, Finset.mul_sum]

theorem grad_tangent {x G v : Matrix (Fin n) (Fin p) ℝ} (hv : IsTangent x v) : frob (proj x G) v = frob G v := by
  unfold proj
  rw [frob_sub_left, frob_mul_left]
  have h : frob (sym (xᵀ * G)) (xᵀ * v) = 0 := frob_sym_skew (by unfold sym; rw [transpose_smul, transpose_add, transpose_transpose, add_comm]) hv
  rw [h, sub_zero]

theorem cost_lower {B : Matrix (Fin m) (Fin n) ℝ} {s0 lam : ℝ} (h0 : 0 ≤ s0) (hl : 0 ≤ lam) (hB : Bounds B s0) {x : Matrix (Fin n) (Fin p) ℝ} (hx : xᵀ * x = 1) : -(lipschitz s0 / 2 * p) ≤ cost B lam x := by
  have h1 := pow_le_pow_left₀ (nF_nonneg _) (hB x) 2
  rw [mul_pow, nF_sq, nF_orth hx, Fintype.card_fin] at h1
  have h2 := mul_nonneg hl (l1_nonneg x)
  unfold cost lipschitz
  linarith

theorem slope_lower {B : Matrix (Fin m) (Fin n) ℝ} {s0 : ℝ} (h0 : 0 ≤ s0) (hB : Bounds B s0) {x v : Matrix (Fin n) (Fin p) ℝ} (hx : xᵀ * x = 1) : -frob ((-2 : ℝ) • (Bᵀ * (B * x))) v ≤ lipschitz s0 * √p * nF v := by
  have e : frob (Bᵀ * (B * x)) v = frob (B * x) (B * v) := by rw [frob_mul_left, transpose_transpose]
  have h1 : frob (B * x) (B * v) ≤ nF (B * x) * nF (B * v) := (le_abs_self _).trans (frob_cs _ _)
  have h2 : nF (B * x) * nF (B * v) ≤ (s0 * nF x) * (s0 * nF v) := mul_le_mul (hB x) (hB v) (nF_nonneg _) (mul_nonneg h0 (nF_nonneg _))
  have h3 : nF x = √p := by
    have := nF_orth hx
    rw [Fintype.card_fin] at this
    rw [← this, Real.sqrt_sq (nF_nonneg _)]
  rw [frob_smul_left, e]
  rw [h3] at h2
  unfold lipschitz
  nlinarith

/-- **C157, progress.** Weights of at least `w`, with `2 w` above the curvature of the cost, have the properties that `C151_converges` asks for. -/
theorem C157_gains {env : PGEnv ℝ (Pt n p) (Matrix (Fin n) (Fin p) ℝ)} {cfg : PGCfg ℝ (Pt n p)} {B : Matrix (Fin m) (Fin n) ℝ} {lam s0 ada w thr : ℝ} {lengthW : ℕ} (D : Runs env B lam s0 lengthW ada) (h0 : 0 ≤ s0) (hl : 0 ≤ lam)
    (hB : Bounds B s0) (hw : ∀ (x : Pt n p) i j, w ≤ (weights B s0 lengthW x.1).entry ada i j) (hc : curvature n p lam s0 ≤ 2 * w) (ha : 0 ≤ cfg.alpha) (hthr : 0 < thr)
    (hfloor : cfg.alpha * (lipschitz s0 * √p) ≤ (w - curvature n p lam s0 / 2) * thr) (x0 : Pt n p) : Gains env cfg x0 ada (w - curvature n p lam s0 / 2) thr where
  total := D.total
  gain x tol l d eta r hp t t0 t1 := by
    have S := D.prox _ _ _ _ _ _ hp
    unfold curve
    rw [D.f, D.f, cost_eq, cost_eq, D.smul, D.metric]
    have ht := tangent_smul S.1 t
    have h1 := C157_upper h0 hl hB x.2 ht (D.retr x _ ht)
    have h2 := solves_decrease hl S
    rw [D.grad, grad_tangent S.1] at h2
    have e1 : (Verif.Problem.stieSPCA B lam).eucGrad x.1 ((Verif.Problem.stieSPCA B lam).f x.1).2 = (-2 : ℝ) • (Bᵀ * (B * x.1)) := rfl
    rw [e1] at h2
    have h3 := wip_lower (hw x) eta
    have h4 : l1 (x.1 + t • eta) ≤ (1 - t) * l1 x.1 + t * l1 (x.1 + eta) := by
      have := l1_convex x.1 (x.1 + eta) t0 t1
      rwa [add_sub_cancel_left] at this
    have h5 := mul_le_mul_of_nonneg_left h4 hl
    rw [frob_smul_right, nF_smul, mul_pow, sq_abs] at h1
    rw [nF_sq] at h1 h3
    have hq := frob_self_nonneg eta
    have hcc : 0 ≤ curvature n p lam s0 := by
      unfold curvature lipschitz
      have := mul_nonneg hl (Real.sqrt_nonneg ((n : ℝ) * p))
      nlinarith [mul_self_nonneg s0]
    have h6 : t ^ 2 ≤ t := by nlinarith
    have h7 : curvature n p lam s0 / 2 * (t ^ 2 * frob eta eta) ≤ curvature n p lam s0 / 2 * (t * frob eta eta) :=
      mul_le_mul_of_nonneg_left (mul_le_mul_of_nonneg_right h6 hq) (by linarith)
    have h8 : t * (frob ((-2 : ℝ) • (Bᵀ * (B * x.1))) eta + lam * (l1 (x.1 + eta) - l1 x.1)) ≤ t * (-(w * frob eta eta)) := mul_le_mul_of_nonneg_left (by linarith) t0
    nlinarith
  accept x tol l d eta r hx hp hd := by
    have S := D.prox _ _ _ _ _ _ hp
    rw [D.metric, D.sqrt] at hd
    rw [D.metric, D.metric, D.grad, grad_tangent S.1]
    have h1 := slope_lower h0 hB (v := eta) x.2
    have e1 : (Verif.Problem.stieSPCA B lam).eucGrad x.1 ((Verif.Problem.stieSPCA B lam).f x.1).2 = (-2 : ℝ) • (Bᵀ * (B * x.1)) := rfl
    rw [e1]
    have hd' : thr ≤ nF eta := hd
    have h2 := mul_le_mul_of_nonneg_left h1 ha
    have h3 := mul_le_mul_of_nonneg_right hfloor (nF_nonneg eta)
    have hg : 0 ≤ w - curvature n p lam s0 / 2 := by linarith
    have h4 := mul_le_mul_of_nonneg_left (mul_le_mul_of_nonneg_right hd' (nF_nonneg eta)) hg
    rw [← nF_sq, sq]
    nlinarith
  long x u h := by
    rw [D.metric, D.sqrt] at h
    rw [D.metric, ← nF_sq, sq]
    exact mul_self_le_mul_self hthr.le h
  nonneg x u := by rw [D.metric]; exact frob_self_nonneg u
  const x y u v := by rw [D.metric, D.metric]
  finite := D.finite
  pos := by linarith

/-- **C157, convergence.** A run of `ManPG` (regular variant, `NSM_DIR_F`) on sparse principal component analysis over the Stiefel manifold, with the polar retraction, whatever the object did before: if the weights times `adavalue` are at least
`w` and `w` exceeds half of `2 s0² + lambda √(np)` by `kappa`, the run ends with a reported direction shorter than the tolerance; the value is not above the initial one; every iteration but the last has gained `kappa Tolerance²`. The reported
norm is that of the solution of the subproblem at the returned point or at the one before it. -/
theorem C157_converges {env : PGEnv ℝ (Pt n p) (Matrix (Fin n) (Fin p) ℝ)} {cfg : PGCfg ℝ (Pt n p)} {B : Matrix (Fin m) (Fin n) ℝ} {lam s0 w kappa thr : ℝ} {lengthW : ℕ} (X0 : env.toEnv.Exact) (o : PGObj ℝ (Pt n p) (Matrix (Fin n) (Fin p) ℝ))
    (D : Runs env B lam s0 lengthW o.kept.ada) (h0 : 0 ≤ s0) (hl : 0 ≤ lam) (hB : Bounds B s0) (hw : ∀ (x : Pt n p) i j, w ≤ (weights B s0 lengthW x.1).entry o.kept.ada i j)
    (hk : 0 < kappa) (hc : (2 * s0 ^ 2 + lam * √(n * p)) / 2 + kappa = w) (ha : 0 ≤ cfg.alpha) (hthr : 0 < thr) (hthr1 : thr ≤ 1) (hfloor : cfg.alpha * (2 * s0 ^ 2 * √p) ≤ kappa * thr)
    (hstop : cfg.stop = .gradF) (htol : cfg.tol = thr) (had : cfg.adaptive = false) (hmin : cfg.minIter = 0) (hr0 : 0 ≤ cfg.ratio) (hr1 : cfg.ratio < 1) (hm : 0 < cfg.minstep)
    (hmax : cost B lam o.x1.1 + s0 ^ 2 * p < cfg.maxIter * (kappa * (thr * thr))) :
    ∃ n0, ∀ N, n0 ≤ N → ∃ o', pgRun env cfg N o = .done o' ∧ o'.f1 = cost B lam o'.x1.1 ∧ o'.f1 ≤ cost B lam o.x1.1 ∧ (o'.iter - 1) * (kappa * (thr * thr)) ≤ cost B lam o.x1.1 - o'.f1 ∧ o'.ndir1 < thr ∧
      ∃ (x : Pt n p) (eta : Matrix (Fin n) (Fin p) ℝ), Solves lam ((weights B s0 lengthW x.1).entry o.kept.ada) x.1 (proj x.1 ((-2 : ℝ) • (Bᵀ * (B * x.1)))) eta ∧ nF eta = o'.ndir1 ∧
        (o'.x1 = x ∨ ∃ t : ℝ, 0 ≤ t ∧ t ≤ 1 ∧ IsPolar x.1 (t • eta) o'.x1.1) := by
  have ec : curvature n p lam s0 = 2 * s0 ^ 2 + lam * √(n * p) := by unfold curvature lipschitz; ring
  have eL : lipschitz s0 = 2 * s0 ^ 2 := by unfold lipschitz; ring
  have ek : w - curvature n p lam s0 / 2 = kappa := by rw [ec]; linarith
  have G := C157_gains (cfg := cfg) (thr := thr) D h0 hl hB hw (by rw [ec]; linarith) ha hthr (by rw [ek, eL]; exact hfloor) o.x1
  rw [ek] at G
  have hf : ∀ x, env.f x = cost B lam x.1 := fun x => by rw [D.f, cost_eq]
  obtain ⟨n0, hn⟩ := C151_converges X0 (Fmin := -(s0 ^ 2 * p)) o G hthr hthr1 hstop htol had hmin hr0 hr1 hm
    (fun x => by rw [hf]; have := cost_lower (lam := lam) h0 hl hB x.2; rw [eL] at this; linarith) (by rw [hf]; linarith)
  refine ⟨n0, fun N hN => ?_⟩
  obtain ⟨o', e, e1, e2, e3, e4, x, tol, l, d, eta, r, hp, hnd, hx⟩ := hn N hN
  rw [hf] at e1 e2 e3
  rw [hf] at e2 e3
  have S := D.prox _ _ _ _ _ _ hp
  refine ⟨o', e, e1, by rw [e1]; exact e2, by rw [e1]; exact e3, e4, x, eta, ?_, ?_, ?_⟩
  · have := D.grad x
    rw [this] at S
    exact S
  · rw [hnd, D.sqrt, D.metric]; rfl
  · rcases hx with hx | ⟨t, t0, t1, hx⟩
    · exact Or.inl hx
    · refine Or.inr ⟨t, t0, t1, ?_⟩
      have := D.retr x (t • eta) (tangent_smul S.1 t)
      rw [hx]
      unfold curve
      rw [D.smul]
      exact this

/-- **C157, retraction.** What the code computes from an economy singular value decomposition of `x + v` is the polar retraction of the specification. -/
theorem C157_retraction {x v U : Matrix (Fin n) (Fin p) ℝ} {s : Fin p → ℝ} {Vt : Matrix (Fin p) (Fin p) ℝ} (hx : xᵀ * x = 1) (hU : Uᵀ * U = 1) (hV : Vtᵀ * Vt = 1) (hs : ∀ i, 0 ≤ s i) (h : U * diagonal s * Vt = x + v) :
    IsPolar x v (Verif.Stiefel.polarRetraction U Vt) := by
  obtain ⟨h1, h2, -⟩ := Verif.Stiefel.C36_polar_retraction hx hU hV hs h
  exact ⟨h1, s, Vt, hV, hs, h2⟩

/-! ## What a short direction says -/

theorem wip_le {W : Fin n → Fin p → ℝ} {wmax : ℝ} (h0 : ∀ i j, 0 ≤ W i j) (hW : ∀ i j, W i j ≤ wmax) (hm : 0 ≤ wmax) (u v : Matrix (Fin n) (Fin p) ℝ) : wip W u v ≤ wmax * (nF u * nF v) := by
  let a : Matrix (Fin n) (Fin p) ℝ := fun i j => |u i j|
  let b : Matrix (Fin n) (Fin p) ℝ := fun i j => |v i j|
  have ea : nF a = nF u := by simp only [nF, frob, a, abs_mul_abs_self]
  have eb : nF b = nF v := by simp only [nF, frob, b, abs_mul_abs_self]
  have h1 : wip W u v ≤ wmax * frob a b := by
    simp only [wip, frob, Finset.mul_sum]
    refine Finset.sum_le_sum fun i _ => Finset.sum_le_sum fun j _ => ?_
    have h2 : u i j * v i j ≤ |u i j| * |v i j| := by rw [← abs_mul]; exact le_abs_self _
    have h3 : 0 ≤ |u i j| * |v i j| := by positivity
    exact (mul_le_mul_of_nonneg_left h2 (h0 i j)).trans (mul_le_mul_of_nonneg_right (hW i j) h3)
  have h2 : frob a b ≤ nF a * nF b := (le_abs_self _).trans (frob_cs a b)
  rw [ea, eb] at h2
  exact h1.trans (mul_le_mul_of_nonneg_left h2 hm)

/-- **C157, accuracy.** Where the solution of the subproblem is short, the cost cannot be decreased much: along every retraction it falls by at most a multiple of that length, linear in the step, plus half the curvature times the square of the step. -/
theorem C157_accuracy {B : Matrix (Fin m) (Fin n) ℝ} {s0 lam wmax : ℝ} (h0 : 0 ≤ s0) (hl : 0 ≤ lam) (hB : Bounds B s0) {W : Fin n → Fin p → ℝ} (hW0 : ∀ i j, 0 ≤ W i j) (hW : ∀ i j, W i j ≤ wmax) (hm : 0 ≤ wmax)
    {x d v y : Matrix (Fin n) (Fin p) ℝ} (hx : xᵀ * x = 1) (hd : Solves lam W x (proj x ((-2 : ℝ) • (Bᵀ * (B * x)))) d) (hv : IsTangent x v) (hy : IsPolar x v y) :
    cost B lam x - (2 * s0 ^ 2 * √p + lam * √(n * p) + wmax * nF v) * nF d - (2 * s0 ^ 2 + lam * √(n * p)) / 2 * nF v ^ 2 ≤ cost B lam y := by
  have h1 := C157_lower h0 hl hB hx hv hy
  have h2 := solves_variational hl hd hv
  rw [grad_tangent hd.1, grad_tangent hv] at h2
  have h3 := wip_le hW0 hW hm d v
  have h4 := slope_lower h0 hB (v := d) hx
  have h5 := wip_lower (w := 0) hW0 d
  have h6 : l1 x ≤ l1 (x + d) + √(n * p) * nF d := by
    have h7 := l1_add (x + d) (-d)
    rw [add_neg_cancel_right] at h7
    have h8 := l1_le (-d)
    rw [nF_neg] at h8
    linarith
  have h7 := mul_le_mul_of_nonneg_left h6 hl
  have ec : curvature n p lam s0 = 2 * s0 ^ 2 + lam * √(n * p) := by unfold curvature lipschitz; ring
  have eL : lipschitz s0 = 2 * s0 ^ 2 := by unfold lipschitz; ring
  rw [ec] at h1
  rw [eL] at h4
  nlinarith

/-- **C157, exact stationarity.** Where the subproblem has the solution zero, the cost is at least its value minus half the curvature times the square of the step, along every retraction. -/
theorem C157_first_order {B : Matrix (Fin m) (Fin n) ℝ} {s0 lam : ℝ} (h0 : 0 ≤ s0) (hl : 0 ≤ lam) (hB : Bounds B s0) {W : Fin n → Fin p → ℝ} (hW : ∀ i j, 0 ≤ W i j) {x v y : Matrix (Fin n) (Fin p) ℝ} (hx : xᵀ * x = 1)
    (hd : Solves lam W x (proj x ((-2 : ℝ) • (Bᵀ * (B * x)))) 0) (hv : IsTangent x v) (hy : IsPolar x v y) : cost B lam x - (2 * s0 ^ 2 + lam * √(n * p)) / 2 * nF v ^ 2 ≤ cost B lam y := by
  have h1 := C157_lower h0 hl hB hx hv hy
  have h2 := (C157_stationary hl hW).mp hd v hv
  rw [grad_tangent hv] at h2
  have ec : curvature n p lam s0 = 2 * s0 ^ 2 + lam * √(n * p) := by unfold curvature lipschitz; ring
  rw [ec] at h1
  linarith

/-! ## The environment of the problem exists -/

/-- Every tangent step has a polar retraction. -/
theorem polar_exists {x v : Matrix (Fin n) (Fin p) ℝ} (hx : xᵀ * x = 1) (hv : IsTangent x v) : ∃ y, IsPolar x v y := by
  have hA : (1 + vᵀ * v : Matrix (Fin p) (Fin p) ℝ).IsHermitian := by
    rw [IsHermitian, conjTranspose_eq_transpose_of_trivial, transpose_add, transpose_one, transpose_mul, transpose_transpose]
  obtain ⟨V, d, hV, e⟩ : ∃ (V : Matrix (Fin p) (Fin p) ℝ) (d : Fin p → ℝ), Vᵀ * V = 1 ∧ spd d V = 1 + vᵀ * v := by
    refine ⟨(hA.eigenvectorUnitary : Matrix (Fin p) (Fin p) ℝ)ᵀ, hA.eigenvalues, ?_, ?_⟩
    · have h := (Unitary.mem_iff.mp hA.eigenvectorUnitary.2).2
      rw [star_eq_conjTranspose, conjTranspose_eq_transpose_of_trivial] at h
      rw [transpose_transpose]; exact h
    · conv_rhs => rw [hA.spectral_theorem, Unitary.conjStarAlgAut_apply, star_eq_conjTranspose, conjTranspose_eq_transpose_of_trivial]
      rw [spd, transpose_transpose]
      rfl
  have hV' : V * Vᵀ = 1 := mul_eq_one_comm.mp hV
  have hd : ∀ i, 0 < d i := by
    intro i
    have h2 : V * (1 + vᵀ * v) * Vᵀ = diagonal d := by
      rw [← e, spd, Matrix.mul_assoc, Matrix.mul_assoc, hV', Matrix.mul_one, ← Matrix.mul_assoc, hV', Matrix.one_mul]
    have h3 : V * (1 + vᵀ * v) * Vᵀ = 1 + (v * Vᵀ)ᵀ * (v * Vᵀ) := by
      rw [Matrix.mul_add, Matrix.add_mul, Matrix.mul_one, hV', transpose_mul, transpose_transpose]; simp only [Matrix.mul_assoc]
    have h4 : (V * (1 + vᵀ * v) * Vᵀ : Matrix (Fin p) (Fin p) ℝ) i i = 1 + ∑ l, (v * Vᵀ) l i * (v * Vᵀ) l i := by
      rw [h3, Matrix.add_apply, Matrix.one_apply_eq, Matrix.mul_apply]; rfl
    rw [h2, diagonal_apply_eq] at h4
    rw [h4]
    have : 0 ≤ ∑ l, (v * Vᵀ) l i * (v * Vᵀ) l i := Finset.sum_nonneg fun l _ => mul_self_nonneg _
    linarith
  refine ⟨(x + v) * spd (fun i => 1 / √(d i)) V, ?_, fun i => √(d i), V, hV, fun i => Real.sqrt_nonneg _, ?_⟩
  · rw [transpose_mul, spd_tr, Matrix.mul_assoc, ← Matrix.mul_assoc (x + v)ᵀ, polar_gram (y := x) hx hv, ← e, spd_mul hV, spd_mul hV, ← spd_one hV]
    congr 1
    funext i
    have h1 := Real.sqrt_pos.mpr (hd i)
    have h2 := Real.mul_self_sqrt (hd i).le
    field_simp
    rw [sq]; exact h2.symm
  · rw [Matrix.mul_assoc, spd_mul hV]
    have : spd (fun i => 1 / √(d i) * √(d i)) V = 1 := by
      rw [← spd_one hV]
      congr 1
      funext i
      have h1 := Real.sqrt_pos.mpr (hd i)
      field_simp
    rw [this, Matrix.mul_one]

open Classical in
/-- Sparse principal component analysis on the Stiefel manifold, with exactly solved subproblems. -/
noncomputable def spcaEnv (B : Matrix (Fin m) (Fin n) ℝ) (lam s0 : ℝ) (lengthW : ℕ) : PGEnv ℝ (Pt n p) (Matrix (Fin n) (Fin p) ℝ) where
  lit a b := (a : ℝ) / b
  lt a b := decide (a < b)
  le a b := decide (a ≤ b)
  eq a b := decide (a = b)
  sqrt := Real.sqrt
  abs a := |a|
  finite _ := true
  inf := 0
  eps := 1 / 2 ^ 52
  f x := ((Verif.Problem.stieSPCA B lam).f x.1).1
  grad x := proj x.1 ((Verif.Problem.stieSPCA B lam).eucGrad x.1 ((Verif.Problem.stieSPCA B lam).f x.1).2)
  precond _ v := v
  metric _ u v := frob u v
  retr x v := if h : IsTangent x.1 v then ⟨(polar_exists x.2 h).choose, (polar_exists x.2 h).choose_spec.1⟩ else x
  dretr _ _ _ v := v
  transport _ _ _ v := v
  smul a v := a • v
  lin a u b v := a • u + b • v
  dimNor := p * (p + 1) / 2
  prox x g a _ _ d := some (if h : ∃ e, Solves lam ((weights B s0 lengthW x.1).entry a) x.1 g e then h.choose else 0, d, 1, 1)

/-- **C157, existence.** The hypotheses of `C157_converges` about the environment hold for this one, for every problem with a positive weight. -/
theorem C157_runs {B : Matrix (Fin m) (Fin n) ℝ} {lam s0 ada w : ℝ} {lengthW : ℕ} (hl : 0 ≤ lam) (hw0 : 0 < w) (hw : ∀ (x : Pt n p) i j, w ≤ (weights B s0 lengthW x.1).entry ada i j) :
    Runs (spcaEnv (p := p) B lam s0 lengthW) B lam s0 lengthW ada ∧ (spcaEnv (p := p) B lam s0 lengthW).toEnv.Exact := by
  classical
  refine ⟨⟨fun _ => rfl, fun _ => rfl, fun x v hv => ?_, fun _ _ => rfl, fun _ _ _ => rfl, fun _ => rfl, fun _ => rfl, fun _ _ _ _ _ _ h => ?_, fun x tol l d eta r h => ?_⟩, ⟨fun _ _ => ?_, fun _ _ => ?_, fun _ _ => ?_, fun _ _ => rfl, fun _ => rfl⟩⟩
  · show IsPolar x.1 v (dite (IsTangent x.1 v) _ _ : Pt n p).1
    rw [dif_pos hv]
    exact (polar_exists x.2 hv).choose_spec
  · simp [spcaEnv] at h
  · have hs := (C157_subproblem hl hw0 (hw x) x.1 (proj x.1 ((Verif.Problem.stieSPCA B lam).eucGrad x.1 ((Verif.Problem.stieSPCA B lam).f x.1).2))).exists
    simp only [spcaEnv, Option.some.injEq, Prod.mk.injEq] at h
    rw [← h.1]
    change Solves _ _ _ _ (dite _ _ _)
    rw [dif_pos hs]
    exact hs.choose_spec
  all_goals simp [spcaEnv]

/-- **C157, one weight.** With the single weight of the code (`lengthW = 1`) and the initial `adavalue = 1` it is enough that `lambda √(np)` is less than `2 s0²`. -/
theorem C157_one_weight {cfg : PGCfg ℝ (Pt n p)} {B : Matrix (Fin m) (Fin n) ℝ} {lam s0 thr : ℝ} (o : PGObj ℝ (Pt n p) (Matrix (Fin n) (Fin p) ℝ)) (hp : 1 < p) (hn : 0 < n) (h0 : 0 < s0) (hl : 0 ≤ lam) (hB : Bounds B s0)
    (hsmall : lam * √(n * p) < 2 * s0 ^ 2) (hada : o.kept.ada = 1) (ha : 0 ≤ cfg.alpha) (hthr : 0 < thr) (hthr1 : thr ≤ 1) (hfloor : cfg.alpha * (4 * s0 ^ 2 * √p) ≤ (2 * s0 ^ 2 - lam * √(n * p)) * thr)
    (hstop : cfg.stop = .gradF) (htol : cfg.tol = thr) (had : cfg.adaptive = false) (hmin : cfg.minIter = 0) (hr0 : 0 ≤ cfg.ratio) (hr1 : cfg.ratio < 1) (hm : 0 < cfg.minstep)
    (hmax : cost B lam o.x1.1 + s0 ^ 2 * p < cfg.maxIter * ((2 * s0 ^ 2 - lam * √(n * p)) / 2 * (thr * thr))) :
    ∃ n0, ∀ N, n0 ≤ N → ∃ o', pgRun (spcaEnv B lam s0 1) cfg N o = .done o' ∧ o'.f1 = cost B lam o'.x1.1 ∧ o'.f1 ≤ cost B lam o.x1.1 ∧ o'.ndir1 < thr := by
  have hne : (1 : ℕ) ≠ n * p := by
    intro h
    have := Nat.le_of_dvd one_pos (Dvd.intro_left n h.symm)
    omega
  have hw : ∀ (x : Pt n p) i j, 2 * s0 ^ 2 ≤ (weights B s0 1 x.1).entry o.kept.ada i j := by
    intro x i j
    rw [((C157_weights B s0 1 x.1 (by rw [hada]; exact one_pos) i j).2.1 hne (by omega) rfl), hada, one_mul]
  obtain ⟨D, X0⟩ := C157_runs (p := p) (B := B) (lam := lam) hl (by positivity) hw
  obtain ⟨n0, hN⟩ := C157_converges X0 o D h0.le hl hB hw (kappa := (2 * s0 ^ 2 - lam * √(n * p)) / 2) (by linarith) (by ring) ha hthr hthr1 (by nlinarith) hstop htol had hmin hr0 hr1 hm hmax
  exact ⟨n0, fun N h => by obtain ⟨o', e, e1, e2, -, e3, -⟩ := hN N h; exact ⟨o', e, e1, e2, e3⟩⟩

/-! ## Instances -/

/-- Hypotheses of `C157_bounds` and of `C157_one_weight`: the diagonal matrix with entries 2, 1 and two components, `lambda = 1`. -/
theorem bounds_diag : Bounds (diagonal ![2, 1] : Matrix (Fin 2) (Fin 2) ℝ) 2 := by
  intro l M
  have h := C157_bounds (k := 1) (B := (diagonal ![2, 1] : Matrix (Fin 2) (Fin 2) ℝ)) (U := 1) (s := ![2, 1]) (Vt := 1) (by simp) (by simp) (fun i => by fin_cases i <;> simp) (fun i j hij => by fin_cases i <;> fin_cases j <;> simp_all) (by simp) M
  simpa using h

example (o : PGObj ℝ (Pt 2 2) (Matrix (Fin 2) (Fin 2) ℝ)) (hada : o.kept.ada = 1) (N : ℕ) (hN : cost (diagonal ![2, 1] : Matrix (Fin 2) (Fin 2) ℝ) 1 o.x1.1 + 8 < N * (3 / 10000)) :
    ∃ n0, ∀ M, n0 ≤ M → ∃ o', pgRun (spcaEnv (diagonal ![2, 1] : Matrix (Fin 2) (Fin 2) ℝ) 1 2 1) ⟨N, 0, 1 / 100, 1 / 10000, 1 / 2, 1 / 1000, false, .gradF⟩ M o = .done o' ∧ o'.f1 = cost (diagonal ![2, 1] : Matrix (Fin 2) (Fin 2) ℝ) 1 o'.x1.1 ∧
      o'.f1 ≤ cost (diagonal ![2, 1] : Matrix (Fin 2) (Fin 2) ℝ) 1 o.x1.1 ∧ o'.ndir1 < 1 / 100 := by
  have e4 : √((2 : ℕ) * (2 : ℕ) : ℝ) = 2 := by rw [show ((2 : ℕ) * (2 : ℕ) : ℝ) = 2 ^ 2 by norm_num]; exact Real.sqrt_sq (by norm_num)
  have e2 : √((2 : ℕ) : ℝ) ≤ 2 := by rw [Real.sqrt_le_left (by norm_num)]; norm_num
  refine C157_one_weight o one_lt_two two_pos two_pos zero_le_one bounds_diag ?_ hada ?_ ?_ ?_ ?_ rfl rfl rfl rfl ?_ ?_ ?_ ?_
  · rw [e4]; norm_num
  · show (0 : ℝ) ≤ 1 / 10000; norm_num
  · norm_num
  · norm_num
  · rw [e4]
    show (1 / 10000 : ℝ) * (4 * 2 ^ 2 * √((2 : ℕ) : ℝ)) ≤ _
    generalize √((2 : ℕ) : ℝ) = r at e2 ⊢
    norm_num
    linarith
  · show (0 : ℝ) ≤ 1 / 2; norm_num
  · show (1 / 2 : ℝ) < 1; norm_num
  · show (0 : ℝ) < 1 / 1000; norm_num
  · rw [e4]
    show _ < (N : ℝ) * _
    push_cast
    linarith

/-- The first unit vector of the plane, as a point of the Stiefel manifold with one component. -/
def e1 : Matrix (Fin 2) (Fin 1) ℝ := fun i _ => if i = 0 then 1 else 0

/-- The diagonal matrix with entries 2, 1. -/
def diag21 : Matrix (Fin 2) (Fin 2) ℝ := diagonal ![2, 1]

/-- A stationary point: the first unit vector for `B = diag(2, 1)` and one component; the hypotheses of `C157_first_order` and `C157_accuracy`. -/
example : Solves 1 (fun _ _ => 8) e1 (proj e1 ((-2 : ℝ) • (diag21ᵀ * (diag21 * e1)))) 0 := by
  refine (C157_stationary zero_le_one (fun _ _ => by norm_num)).mpr fun u hu => ?_
  have h0 : u 0 0 = 0 := by
    have := congrFun (congrFun hu 0) 0
    simp [Matrix.mul_apply, Fin.sum_univ_two, e1] at this
    linarith
  rw [grad_tangent hu]
  simp [frob, l1, Fin.sum_univ_two, Matrix.mul_apply, h0, e1, diag21]

/-- Blocks of the weights per column. -/
example : blockSize (3 * 2) (weightLength (some (.cols ![1, 2] : Weights 3 2))) = some 3 := rfl

end Verif.SPCA
