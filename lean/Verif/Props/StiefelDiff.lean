import Verif.Props.Stiefel
import Mathlib.Analysis.Calculus.Deriv.Mul
import Mathlib.Analysis.Calculus.Deriv.Inv
import Mathlib.Analysis.Calculus.Deriv.Add
import Mathlib.Analysis.Calculus.Deriv.Comp
import Mathlib.Analysis.Calculus.Deriv.Slope
import Mathlib.Analysis.Calculus.Deriv.Pow
import Mathlib.Analysis.SpecialFunctions.Sqrt
import Mathlib.Topology.Instances.Matrix
import Mathlib.Tactic.FieldSimp

/-!
# C62, C68: derivatives of the Stiefel retractions, inverse of the polar retraction
-/

set_option linter.unusedVariables false
set_option linter.unusedSectionVars false

namespace Verif.Stiefel

open Matrix Verif.Mat

variable {n p : Type*} [Fintype n] [Fintype p] [DecidableEq n] [DecidableEq p]

/-! ## qf -/

section qf

variable {k : ℕ}

/-- The factors of a curve of full-rank matrices are differentiable, whatever way they were computed. -/
theorem qf_differentiable {A y : ℝ → Matrix n (Fin k) ℝ} {R : ℝ → Matrix (Fin k) (Fin k) ℝ} (hy : ∀ t, (y t)ᵀ * y t = 1) (hR : ∀ t, IsUpper (R t))
    (hp : ∀ t i, 0 < R t i i) (h : ∀ t, y t * R t = A t) {t₀ : ℝ} (hA : ∀ i j, DifferentiableAt ℝ (fun t => A t i j) t₀) :
    ∀ (j : Fin k) (l : n), DifferentiableAt ℝ (fun t => y t l j) t₀ := by
  have hRA : ∀ t, R t = (y t)ᵀ * A t := fun t => by rw [← h t, ← Matrix.mul_assoc, hy, Matrix.one_mul]
  intro j
  induction j using WellFoundedLT.induction with
  | ind j ih =>
    have dR : ∀ i, i < j → DifferentiableAt ℝ (fun t => R t i j) t₀ := by
      intro i hi
      have e : (fun t => R t i j) = fun t => ∑ l, y t l i * A t l j := by
        funext t; rw [hRA t, mul_apply]; rfl
      rw [e]
      exact DifferentiableAt.fun_sum fun l _ => (ih i hi l).mul (hA l j)
    set v : ℝ → n → ℝ := fun t l => A t l j - ∑ i ∈ Finset.univ.filter (· < j), y t l i * R t i j with hv
    have hvy : ∀ t l, v t l = y t l j * R t j j := by
      intro t l
      have e : A t l j = ∑ i, y t l i * R t i j := by rw [← h t, mul_apply]
      have e2 : ∑ i, y t l i * R t i j = y t l j * R t j j + ∑ i ∈ Finset.univ.filter (· < j), y t l i * R t i j := by
        rw [← Finset.sum_filter_add_sum_filter_not Finset.univ (· < j), add_comm]
        congr 1
        rw [Finset.sum_eq_single_of_mem j (by simp)]
        intro i hi hne
        have : j < i := lt_of_le_of_ne (not_lt.mp (Finset.mem_filter.mp hi).2) hne.symm
        rw [hR t i j this, mul_zero]
      simp only [hv, e, e2]; ring
    have dv : ∀ l, DifferentiableAt ℝ (fun t => v t l) t₀ := by
      intro l
      refine (hA l j).sub (DifferentiableAt.fun_sum fun i hi => ?_)
      have hi' := (Finset.mem_filter.mp hi).2
      exact (ih i hi' l).mul (dR i hi')
    have hnorm : ∀ t, ∑ l, v t l * v t l = R t j j * R t j j := by
      intro t
      have e : ∑ l, y t l j * y t l j = 1 := by
        have := congrFun (congrFun (hy t) j) j
        rw [mul_apply, one_apply_eq] at this
        exact this
      calc ∑ l, v t l * v t l = ∑ l, (R t j j * R t j j) * (y t l j * y t l j) := by
            refine Finset.sum_congr rfl fun l _ => ?_
            rw [hvy]; ring
        _ = R t j j * R t j j := by rw [← Finset.mul_sum, e, mul_one]
    have hRjj : (fun t => R t j j) = fun t => √(∑ l, v t l * v t l) := by
      funext t; rw [hnorm, Real.sqrt_mul_self (hp t j).le]
    have dRjj : DifferentiableAt ℝ (fun t => R t j j) t₀ := by
      rw [hRjj]
      refine DifferentiableAt.sqrt (DifferentiableAt.fun_sum fun l _ => (dv l).mul (dv l)) ?_
      rw [hnorm]
      exact mul_ne_zero (hp t₀ j).ne' (hp t₀ j).ne'
    intro l
    have e : (fun t => y t l j) = fun t => v t l / R t j j := by
      funext t; rw [hvy, mul_div_cancel_right₀ _ (hp t j).ne']
    rw [e]
    exact (dv l).div dRjj (hp t₀ j).ne'

/-- An upper triangular `B` with `M - B` skew is minus the correction of the code. -/
theorem correction_unique {M B : Matrix (Fin k) (Fin k) ℝ} (hB : IsUpper B) (hs : (M - B)ᵀ = -(M - B)) : qfCorrection M = -B := by
  have hs' : ∀ i j, M j i - B j i = -(M i j - B i j) := fun i j => by
    have := congrFun (congrFun hs i) j
    simpa using this
  ext i j
  unfold qfCorrection
  rw [Matrix.neg_apply]
  rcases lt_trichotomy i j with h | h | h
  · rw [if_neg h.ne, if_pos h]
    have := hs' i j
    rw [hB j i h] at this
    linarith
  · subst h
    rw [if_pos rfl]
    have := hs' i i
    linarith
  · rw [if_neg h.ne', if_neg (not_lt.mpr h.le), hB i j h, neg_zero]

/-- Entrywise derivative of a product. -/
theorem hasDerivAt_mul_entry {m q : Type*} [Fintype m] {A : ℝ → Matrix n m ℝ} {B : ℝ → Matrix m q ℝ} {A' : Matrix n m ℝ} {B' : Matrix m q ℝ} {t₀ : ℝ}
    (hA : ∀ i j, HasDerivAt (fun t => A t i j) (A' i j) t₀) (hB : ∀ i j, HasDerivAt (fun t => B t i j) (B' i j) t₀) (i : n) (j : q) :
    HasDerivAt (fun t => (A t * B t) i j) ((A' * B t₀ + A t₀ * B') i j) t₀ := by
  simp only [mul_apply, Matrix.add_apply, ← Finset.sum_add_distrib]
  exact HasDerivAt.fun_sum fun l _ => (hA i l).mul (hB l j)

/-- **C62 (qf).** For tangent `η`, `ξ` and any QR factorisations `Q t`, `R t` of `x + η + t ξ`, the retracted point is differentiable in `t` and its velocity at `0` is the
result of `DiffqfRetraction`. Nothing is assumed about how the factorisations depend on `t`. -/
theorem C62_qf_diff_retraction {x η ξ : Matrix n (Fin k) ℝ} (hx : xᵀ * x = 1) (hη : IsTangent x η) (hξ : IsTangent x ξ) (Q : ℝ → Matrix n (Fin k) ℝ)
    (R : ℝ → Matrix (Fin k) (Fin k) ℝ) (hQ : ∀ t, (Q t)ᵀ * Q t = 1) (hR : ∀ t, IsUpper (R t)) (hQR : ∀ t, Q t * R t = x + (η + t • ξ)) (i : n) (j : Fin k) :
    HasDerivAt (fun t => qfRetraction (Q t) (R t) i j) (diffQf (qfRetraction (Q 0) (R 0)) (R 0) ξ i j) 0 := by
  have htan : ∀ t : ℝ, IsTangent x (η + t • ξ) := by
    intro t
    unfold IsTangent at *
    rw [Matrix.mul_add, Matrix.mul_smul, transpose_add, transpose_smul, hη, hξ]; module
  have hfac := fun t => C36_qf_retraction hx (htan t) (hQ t) (hR t) (hQR t)
  set y := fun t => qfRetraction (Q t) (R t) with hy
  set S := fun t => diagonal (signs (R t)) * R t with hS
  have hyy : ∀ t, (y t)ᵀ * y t = 1 := fun t => (hfac t).1
  have hSu : ∀ t, IsUpper (S t) := fun t => by
    obtain ⟨R', h1, h2, h3, h4⟩ := (hfac t).2.1
    rw [h4] at h1; exact h1
  have hSp : ∀ t i, 0 < S t i i := fun t => by
    obtain ⟨R', h1, h2, h3, h4⟩ := (hfac t).2.1
    rw [h4] at h2; exact h2
  have hySA : ∀ t, y t * S t = x + (η + t • ξ) := fun t => by
    obtain ⟨R', h1, h2, h3, h4⟩ := (hfac t).2.1
    rw [h4] at h3; exact h3
  have hA' : ∀ i j, HasDerivAt (fun t : ℝ => (x + (η + t • ξ)) i j) (ξ i j) 0 := by
    intro i j
    simp only [Matrix.add_apply, Matrix.smul_apply, smul_eq_mul]
    have := ((((hasDerivAt_id (0 : ℝ)).mul_const (ξ i j)).const_add (η i j)).const_add (x i j))
    simpa using this
  have dy := qf_differentiable hyy hSu hSp hySA (fun i j => (hA' i j).differentiableAt)
  set y' : Matrix n (Fin k) ℝ := fun l j => deriv (fun t => y t l j) 0 with hy'
  have hdy : ∀ l j, HasDerivAt (fun t => y t l j) (y' l j) 0 := fun l j => (dy j l).hasDerivAt
  have hSA : ∀ t, S t = (y t)ᵀ * (x + (η + t • ξ)) := fun t => by rw [← hySA t, ← Matrix.mul_assoc, hyy, Matrix.one_mul]
  set S' : Matrix (Fin k) (Fin k) ℝ := y'ᵀ * (x + (η + (0 : ℝ) • ξ)) + (y 0)ᵀ * ξ with hS'
  have hdS : ∀ l j, HasDerivAt (fun t => S t l j) (S' l j) 0 := by
    intro l j
    have := hasDerivAt_mul_entry (A := fun t => (y t)ᵀ) (A' := y'ᵀ) (B := fun t => x + (η + t • ξ)) (B' := ξ) (t₀ := 0) (fun i j => hdy j i) hA' l j
    simp only [← hSA] at this
    exact this
  have hS'u : IsUpper S' := by
    intro l j hlj
    have h1 := hdS l j
    have e : (fun t => S t l j) = fun _ => (0 : ℝ) := by funext t; exact hSu t l j hlj
    rw [e] at h1
    exact h1.unique (hasDerivAt_const 0 (0 : ℝ))
  have eqA : y' * S 0 + y 0 * S' = ξ := by
    ext l j
    have h1 := hasDerivAt_mul_entry (A := y) (B := S) hdy hdS l j
    simp only [hySA] at h1
    exact h1.unique (hA' l j)
  have eqO : y'ᵀ * y 0 + (y 0)ᵀ * y' = 0 := by
    ext l j
    have h1 := hasDerivAt_mul_entry (A := fun t => (y t)ᵀ) (A' := y'ᵀ) (B := y) (t₀ := 0) (fun i j => hdy j i) hdy l j
    simp only [hyy] at h1
    exact h1.unique (hasDerivAt_const 0 _)
  have hSdet : (S 0).det ≠ 0 := by
    rw [det_upper (hSu 0)]; exact Finset.prod_ne_zero_iff.mpr fun i _ => (hSp 0 i).ne'
  have hSun := isUnit_det_of_ne hSdet
  have hSinv : (S 0)⁻¹ = (R 0)⁻¹ * diagonal (signs (R 0)) := by
    have hd : (diagonal (signs (R 0)))⁻¹ = diagonal (signs (R 0)) := inv_eq_right_inv (signs_diag _)
    simp only [hS]
    rw [Matrix.mul_inv_rev, hd]
  set Z := scaleCols (signs (R 0)) (ξ * (R 0)⁻¹) with hZ
  have hZS : Z = ξ * (S 0)⁻¹ := by rw [hZ, scaleCols_eq, hSinv, Matrix.mul_assoc]
  set B := S' * (S 0)⁻¹ with hB
  have hy'eq : y' = Z - y 0 * B := by
    have h1 := congrArg (· * (S 0)⁻¹) eqA
    simp only [Matrix.add_mul] at h1
    rw [Matrix.mul_assoc, mul_nonsing_inv _ hSun, Matrix.mul_one, ← hZS, Matrix.mul_assoc, ← hB] at h1
    rw [← h1]; abel
  have hBu : IsUpper B := mul_upper hS'u (inv_upper (hSu 0) hSdet)
  have hM : (y 0)ᵀ * y' = (y 0)ᵀ * Z - B := by
    rw [hy'eq, Matrix.mul_sub, ← Matrix.mul_assoc, hyy, Matrix.one_mul]
  have hsk : ((y 0)ᵀ * Z - B)ᵀ = -((y 0)ᵀ * Z - B) := by
    rw [← hM, transpose_mul, transpose_transpose]
    exact eq_neg_of_add_eq_zero_left eqO
  have hfin : diffQf (y 0) (R 0) ξ = y' := by
    simp only [diffQf]
    rw [← hZ, correction_unique hBu hsk, Matrix.mul_neg, hy'eq, sub_eq_add_neg]
  rw [hfin]
  exact hdy i j

end qf

/-! ## Cayley -/

/-- A function with `f s - f 1 = (s - 1) (c + Σ b_k f_k s)`, all `f_k` bounded by one, is differentiable at `1`. -/
theorem hasDerivAt_of_fixed {m : Type*} [Fintype m] {f : ℝ → m → ℝ} {B : Matrix m m ℝ} {c : m → ℝ} (hb : ∀ s k, |f s k| ≤ 1)
    (hf : ∀ s i, f s i = f 1 i + (s - 1) * (c i + ∑ k, B i k * f s k)) (i : m) : HasDerivAt (fun s => f s i) (c i + ∑ k, B i k * f 1 k) 1 := by
  have hc : ∀ i, ContinuousAt (fun s => f s i) 1 := by
    intro i
    have hbd : ∀ s, |f s i - f 1 i| ≤ |s - 1| * (|c i| + ∑ k, |B i k|) := by
      intro s
      have e : f s i - f 1 i = (s - 1) * (c i + ∑ k, B i k * f s k) := by rw [hf s i]; ring
      rw [e, abs_mul]
      refine mul_le_mul_of_nonneg_left ((abs_add_le _ _).trans ?_) (abs_nonneg _)
      refine add_le_add le_rfl ((Finset.abs_sum_le_sum_abs _ _).trans (Finset.sum_le_sum fun k _ => ?_))
      rw [abs_mul]
      exact mul_le_of_le_one_right (abs_nonneg _) (hb s k)
    rw [ContinuousAt, tendsto_iff_norm_sub_tendsto_zero]
    refine squeeze_zero (fun _ => norm_nonneg _) hbd ?_
    have : Filter.Tendsto (fun s : ℝ => |s - 1| * (|c i| + ∑ k, |B i k|)) (nhds 1) (nhds (|(1 : ℝ) - 1| * (|c i| + ∑ k, |B i k|))) :=
      ((continuous_abs.comp (continuous_id.sub continuous_const)).mul continuous_const).tendsto 1
    simpa using this
  have hg : ContinuousAt (fun s => c i + ∑ k, B i k * f s k) 1 := by
    refine continuousAt_const.add ?_
    exact tendsto_finsetSum _ fun k _ => (continuousAt_const.mul (hc k))
  rw [hasDerivAt_iff_tendsto_slope]
  refine (hg.tendsto.mono_left nhdsWithin_le_nhds).congr' ?_
  filter_upwards [self_mem_nhdsWithin] with s hs
  have hs' : s - 1 ≠ 0 := sub_ne_zero.mpr hs
  rw [slope_def_field, eq_div_iff hs']
  rw [hf s i]; ring

theorem abs_entry_le_one {y : Matrix n p ℝ} (hy : yᵀ * y = 1) (i : n) (j : p) : |y i j| ≤ 1 := by
  have h1 := congrFun (congrFun hy j) j
  rw [mul_apply, one_apply_eq] at h1
  have h2 : y i j * y i j ≤ 1 := by
    rw [← h1]
    exact Finset.single_le_sum (f := fun l => yᵀ j l * y l j) (fun l _ => mul_self_nonneg (y l j)) (Finset.mem_univ i)
  rw [abs_le]
  constructor <;> nlinarith

theorem cayW_smul (x η : Matrix n p ℝ) (s : ℝ) : cayW x (s • η) = s • cayW x η := by
  rw [cayW_eq, cayW_eq]
  simp only [Matrix.mul_smul, Matrix.smul_mul, transpose_sub, transpose_smul, Matrix.sub_mul, Matrix.mul_sub, smul_sub, transpose_mul]
  module

theorem ratio_sqrt {η ξ : Matrix n p ℝ} {c : ℝ} (hc : 0 ≤ c) (h0 : η ≠ 0) (hξ : ξ = c • η) : √(frob ξ ξ / frob η η) = c := by
  have hn : frob η η ≠ 0 := fun h => h0 (frob_self_eq_zero.mp h)
  rw [hξ, frob_smul_left, frob_smul_right, ← mul_assoc, mul_div_assoc, div_self hn, mul_one, Real.sqrt_mul_self hc]

/-- The vector computed by the code without its scalar factor: `(I - W/2)⁻¹ (y - x)`. -/
theorem diffCayley_eq {x η ξ : Matrix n p ℝ} (hx : xᵀ * x = 1) (hη : IsTangent x η) :
    diffCayley x η ξ = √(frob ξ ξ / frob η η) • ((1 - (1 / 2 : ℝ) • cayW x η)⁻¹ * (cayleyRetraction x η - x)) := by
  have hu := isUnit_det_of_ne (C36_cayley_system_solvable hx hη)
  have hA : IsUnit (1 - (1 / 2 : ℝ) • cayW x η).det := isUnit_det_of_ne (skew_det_ne_zero (half_skew x η))
  have e : (1 - (1 / 2 : ℝ) • cayW x η) * cayU x η = cayU x η * lup x η := by
    rw [lup_eq hx hη, cayW, Matrix.sub_mul, Matrix.mul_sub, Matrix.one_mul, Matrix.mul_one, Matrix.smul_mul, Matrix.mul_smul, Matrix.mul_assoc]
  have hl : mk2 x η = (2 : ℝ) • (1 - lup x η) := by rw [lup]; module
  have hM : lup x η * mk3 x η = fromRows 1 (-((1 / 2 : ℝ) • (xᵀ * η))ᵀ) := by
    rw [mk3, ← Matrix.mul_assoc, mul_nonsing_inv _ hu, Matrix.one_mul]
  simp only [diffCayley]
  congr 1
  have e1 : cayleyRetraction x η - x = cayU x η * mk3 x η := by rw [cayleyRetraction]; abel
  have e2 : fromRows 1 (-((1 / 2 : ℝ) • (xᵀ * η))ᵀ) + (1 / 2 : ℝ) • (mk2 x η * mk3 x η) + (1 / 2 : ℝ) • ((lup x η)⁻¹ * (mk2 x η * mk3 x η)) =
      (lup x η)⁻¹ * mk3 x η := by
    rw [← hM, hl, Matrix.smul_mul, Matrix.sub_mul, Matrix.one_mul, Matrix.mul_smul, Matrix.mul_sub, ← Matrix.mul_assoc _ (lup x η), nonsing_inv_mul _ hu, Matrix.one_mul]
    module
  rw [e2, e1]
  have e3 : (1 - (1 / 2 : ℝ) • cayW x η)⁻¹ * cayU x η = cayU x η * (lup x η)⁻¹ := by
    calc (1 - (1 / 2 : ℝ) • cayW x η)⁻¹ * cayU x η
        = (1 - (1 / 2 : ℝ) • cayW x η)⁻¹ * (cayU x η * (lup x η * (lup x η)⁻¹)) := by rw [mul_nonsing_inv _ hu, Matrix.mul_one]
      _ = (1 - (1 / 2 : ℝ) • cayW x η)⁻¹ * ((1 - (1 / 2 : ℝ) • cayW x η) * cayU x η) * (lup x η)⁻¹ := by rw [e]; simp only [Matrix.mul_assoc]
      _ = cayU x η * (lup x η)⁻¹ := by rw [← Matrix.mul_assoc _ _ (cayU x η), nonsing_inv_mul _ hA, Matrix.one_mul]
  rw [← Matrix.mul_assoc, ← Matrix.mul_assoc, e3]

/-- **C62 (Cayley).** For a nonzero tangent `η` and `ξ = c η` with `c ≥ 0`, the velocity of `t ↦ R(η + t ξ)` at `0` is the result of `DiffCayleyRetraction`. -/
theorem C62_cayley_diff_retraction {x η ξ : Matrix n p ℝ} {c : ℝ} (hx : xᵀ * x = 1) (hη : IsTangent x η) (h0 : η ≠ 0) (hc : 0 ≤ c) (hξ : ξ = c • η) (i : n) (j : p) :
    HasDerivAt (fun t : ℝ => cayleyRetraction x (η + t • ξ) i j) (diffCayley x η ξ i j) 0 := by
  have htan : ∀ s : ℝ, IsTangent x (s • η) := by
    intro s; unfold IsTangent at *; rw [Matrix.mul_smul, transpose_smul, hη, smul_neg]
  set y : ℝ → Matrix n p ℝ := fun s => cayleyRetraction x (s • η) with hy
  set W := cayW x η with hW
  set A := 1 - (1 / 2 : ℝ) • W with hA
  have hAu : IsUnit A.det := isUnit_det_of_ne (skew_det_ne_zero (half_skew x η))
  have hdef : ∀ s, y s - x = (s / 2) • (W * (x + y s)) := by
    intro s
    have h := (C36_cayley_retraction hx (htan s)).2.1
    rw [← cayW_eq, cayW_smul] at h
    change cayleyRetraction x (s • η) - x = (s / 2) • (W * (x + cayleyRetraction x (s • η)))
    rw [h, ← hW, Matrix.smul_mul, smul_smul]
    congr 1; ring
  have hstep : ∀ s, y s - y 1 = (s - 1) • ((1 / 2 : ℝ) • (A⁻¹ * (W * (x + y s)))) := by
    intro s
    have h1 : A * (y s - y 1) = ((s - 1) / 2) • (W * (x + y s)) := by
      have hs := hdef s
      have h1 := hdef 1
      have e1 : y s = x + (s / 2) • (W * (x + y s)) := by rw [← hs]; abel
      have e2 : y 1 = x + (1 / 2 : ℝ) • (W * (x + y 1)) := by rw [← h1]; abel
      rw [hA, Matrix.sub_mul, Matrix.one_mul, Matrix.smul_mul, Matrix.mul_sub]
      have e3 : y s - y 1 = (s / 2) • (W * (x + y s)) - (1 / 2 : ℝ) • (W * (x + y 1)) := by
        rw [← hs, ← h1]; abel
      rw [e3]
      simp only [Matrix.mul_add]
      module
    have h2 : A⁻¹ * (A * (y s - y 1)) = A⁻¹ * (((s - 1) / 2) • (W * (x + y s))) := congrArg (A⁻¹ * ·) h1
    rw [← Matrix.mul_assoc, nonsing_inv_mul _ hAu, Matrix.one_mul] at h2
    rw [h2, Matrix.mul_smul, smul_smul]
    congr 1; ring
  have hder : HasDerivAt (fun s => y s i j) (((1 / 2 : ℝ) • (A⁻¹ * (W * (x + y 1)))) i j) 1 := by
    have h := hasDerivAt_of_fixed (f := fun s l => y s l j) (B := (1 / 2 : ℝ) • (A⁻¹ * W)) (c := fun l => ((1 / 2 : ℝ) • (A⁻¹ * W * x)) l j)
      (fun s l => abs_entry_le_one (C36_cayley_retraction hx (htan s)).1 l j) ?_ i
    · convert h using 1
      rw [← mul_apply (M := (1 / 2 : ℝ) • (A⁻¹ * W)) (N := y 1), ← Matrix.add_apply]
      rw [Matrix.smul_mul, ← smul_add, ← Matrix.mul_add, Matrix.mul_assoc]
    · intro s l
      have h := congrFun (congrFun (hstep s) l) j
      rw [Matrix.sub_apply, Matrix.smul_apply, smul_eq_mul] at h
      rw [← mul_apply (M := (1 / 2 : ℝ) • (A⁻¹ * W)) (N := y s), ← Matrix.add_apply, Matrix.smul_mul, ← smul_add, ← Matrix.mul_add, Matrix.mul_assoc, ← h]
      ring
  have hval : diffCayley x η ξ = c • ((1 / 2 : ℝ) • (A⁻¹ * (W * (x + y 1)))) := by
    have e1 : cayleyRetraction x η - x = (1 / 2 : ℝ) • (W * (x + y 1)) := by
      rw [← hdef 1]; simp only [hy, one_smul]
    rw [diffCayley_eq hx hη, ratio_sqrt hc h0 hξ, e1, Matrix.mul_smul]
  have hray : (fun t : ℝ => cayleyRetraction x (η + t • ξ) i j) = fun t => y (1 + t * c) i j := by
    funext t
    simp only [hy, hξ]
    rw [add_smul, one_smul, mul_smul]
  rw [hray, hval, Matrix.smul_apply, smul_eq_mul, mul_comm]
  have hin : HasDerivAt (fun t : ℝ => 1 + t * c) c 0 := by
    simpa using ((hasDerivAt_id (0 : ℝ)).mul_const c).const_add 1
  have hder' : HasDerivAt (fun s => y s i j) (((1 / 2 : ℝ) • (A⁻¹ * (W * (x + y 1)))) i j) (1 + 0 * c) := by simpa using hder
  exact HasDerivAt.comp (h₂ := fun s => y s i j) (h := fun t : ℝ => 1 + t * c) (0 : ℝ) hder' hin

/-! ## Polar -/

/-- Symmetric positive definite square roots are unique. -/
theorem sqrt_unique {A B C D : Matrix p p ℝ} (hA : A = Cᵀ * C) (hB : B = Dᵀ * D) (hC : C.det ≠ 0) (h : A * A = B * B) : A = B := by
  set E := A - B with hE
  have e : A * E + E * B = 0 := by
    rw [hE, Matrix.mul_sub, Matrix.sub_mul, h]; abel
  have h1 : frob E (A * E) + frob E (E * B) = 0 := by rw [← frob_add_right, e, frob_zero_right]
  have h2 : frob E (A * E) = frob (C * E) (C * E) := by rw [hA, frob_mul_left, Matrix.mul_assoc]
  have h3 : frob E (E * B) = frob (E * Dᵀ) (E * Dᵀ) := by
    rw [hB, frob_mul_right, transpose_transpose, Matrix.mul_assoc]
  have h4 : frob (C * E) (C * E) = 0 := by
    rw [h2, h3] at h1
    linarith [frob_self_nonneg (C * E), frob_self_nonneg (E * Dᵀ)]
  have h5 : C * E = 0 := frob_self_eq_zero.mp h4
  have h6 : E = 0 := by
    have := congrArg (C⁻¹ * ·) h5
    simp only [Matrix.mul_zero] at this
    rwa [← Matrix.mul_assoc, nonsing_inv_mul _ (isUnit_det_of_ne hC), Matrix.one_mul] at this
  exact sub_eq_zero.mp h6

/-- `Vtᵀ diag(s) Vt` with `s ≥ 0`. -/
def spd (s : p → ℝ) (Vt : Matrix p p ℝ) : Matrix p p ℝ := Vtᵀ * diagonal s * Vt

theorem spd_gram {s : p → ℝ} (hs : ∀ i, 0 ≤ s i) (Vt : Matrix p p ℝ) :
    spd s Vt = (diagonal (fun i => √(s i)) * Vt)ᵀ * (diagonal (fun i => √(s i)) * Vt) := by
  rw [spd, transpose_mul, diagonal_transpose, Matrix.mul_assoc, Matrix.mul_assoc, ← Matrix.mul_assoc (diagonal _) (diagonal _), diagonal_mul_diagonal]
  simp only [Real.mul_self_sqrt (hs _)]

theorem spd_mul {s r : p → ℝ} {Vt : Matrix p p ℝ} (hV : Vtᵀ * Vt = 1) : spd s Vt * spd r Vt = spd (fun i => s i * r i) Vt := by
  have hV' : Vt * Vtᵀ = 1 := mul_eq_one_comm.mp hV
  simp only [spd]
  calc Vtᵀ * diagonal s * Vt * (Vtᵀ * diagonal r * Vt) = Vtᵀ * diagonal s * (Vt * Vtᵀ) * diagonal r * Vt := by simp only [Matrix.mul_assoc]
    _ = _ := by rw [hV', Matrix.mul_one, Matrix.mul_assoc Vtᵀ, diagonal_mul_diagonal]

theorem spd_one {Vt : Matrix p p ℝ} (hV : Vtᵀ * Vt = 1) : spd (fun _ => 1) Vt = 1 := by
  rw [spd]; simp [hV]

theorem spd_gram_det {s : p → ℝ} (hs : ∀ i, 0 < s i) {Vt : Matrix p p ℝ} (hV : Vtᵀ * Vt = 1) : (diagonal (fun i => √(s i)) * Vt).det ≠ 0 := by
  rw [det_mul, det_diagonal]
  refine mul_ne_zero (Finset.prod_ne_zero_iff.mpr fun i _ => (Real.sqrt_pos.mpr (hs i)).ne') ?_
  intro h
  have := congrArg Matrix.det hV
  rw [det_mul, h, mul_zero, det_one] at this
  exact zero_ne_one this

/-- The facts about an economy singular value decomposition of `x + η`. -/
theorem svd_facts {x η U : Matrix n p ℝ} {s : p → ℝ} {Vt : Matrix p p ℝ} (hx : xᵀ * x = 1) (hη : IsTangent x η) (hU : Uᵀ * U = 1) (hV : Vtᵀ * Vt = 1)
    (hs : ∀ i, 0 ≤ s i) (hsvd : U * diagonal s * Vt = x + η) :
    spd s Vt * spd s Vt = 1 + ηᵀ * η ∧ ηᵀ * η = spd (fun i => s i * s i - 1) Vt ∧ (∀ i, 1 ≤ s i * s i) ∧ (∀ i, 0 < s i) := by
  have hV' : Vt * Vtᵀ = 1 := mul_eq_one_comm.mp hV
  have h1 : spd s Vt * spd s Vt = 1 + ηᵀ * η := by
    rw [← gram_add hx hη, ← hsvd, spd_mul hV, spd]
    simp only [transpose_mul, diagonal_transpose, Matrix.mul_assoc]
    rw [← Matrix.mul_assoc Uᵀ, hU, Matrix.one_mul, ← Matrix.mul_assoc (diagonal s) (diagonal s), diagonal_mul_diagonal]
  have h2 : ηᵀ * η = spd (fun i => s i * s i - 1) Vt := by
    have e : spd (fun i => s i * s i - 1) Vt = spd (fun i => s i * s i) Vt - spd (fun _ => 1) Vt := by
      rw [spd, spd, spd, ← Matrix.sub_mul, ← Matrix.mul_sub, diagonal_sub]
    rw [e, ← spd_mul hV, h1, spd_one hV]; abel
  have h3 : ∀ i, 1 ≤ s i * s i := by
    intro i
    have e : (η * Vtᵀ)ᵀ * (η * Vtᵀ) = diagonal (fun i => s i * s i - 1) := by
      rw [transpose_mul, transpose_transpose, Matrix.mul_assoc, ← Matrix.mul_assoc ηᵀ, h2, spd]
      simp only [Matrix.mul_assoc]
      rw [hV', Matrix.mul_one, ← Matrix.mul_assoc, hV', Matrix.one_mul]
    have e2 := congrFun (congrFun e i) i
    rw [diagonal_apply_eq, mul_apply] at e2
    have : 0 ≤ ∑ l, (η * Vtᵀ)ᵀ i l * (η * Vtᵀ) l i := Finset.sum_nonneg fun l _ => mul_self_nonneg ((η * Vtᵀ) l i)
    linarith
  refine ⟨h1, h2, h3, fun i => lt_of_le_of_ne (hs i) fun h => ?_⟩
  have := h3 i
  rw [← h] at this
  norm_num at this

/-- **C36 (polar), uniqueness.** The polar retraction does not depend on the singular value decomposition used: it is the only matrix with orthonormal columns that differs
from `x + η` by a symmetric positive definite right factor. -/
theorem C36_polar_unique {x η U y : Matrix n p ℝ} {s : p → ℝ} {Vt C : Matrix p p ℝ} (hx : xᵀ * x = 1) (hη : IsTangent x η) (hU : Uᵀ * U = 1) (hV : Vtᵀ * Vt = 1)
    (hs : ∀ i, 0 ≤ s i) (hsvd : U * diagonal s * Vt = x + η) (hy : yᵀ * y = 1) (hyP : y * (Cᵀ * C) = x + η) : y = polarRetraction U Vt := by
  obtain ⟨h1, h2, h3, h4⟩ := svd_facts hx hη hU hV hs hsvd
  have hP := (C36_polar_retraction hx hU hV hs hsvd).2.1
  have hdet := spd_gram_det h4 hV
  have e : spd s Vt = Cᵀ * C := by
    refine sqrt_unique (spd_gram hs Vt) rfl hdet ?_
    rw [h1, ← gram_add hx hη, ← hyP, transpose_mul, Matrix.mul_assoc, ← Matrix.mul_assoc yᵀ, hy, Matrix.one_mul, transpose_mul, transpose_transpose]
  have hu : IsUnit (spd s Vt).det := by
    rw [spd_gram hs, det_mul, det_transpose]; exact isUnit_iff_ne_zero.mpr (mul_ne_zero hdet hdet)
  have e2 : y * spd s Vt = polarRetraction U Vt * spd s Vt := by rw [e, hyP, ← e]; exact hP.symm
  have := congrArg (· * (spd s Vt)⁻¹) e2
  simpa only [Matrix.mul_assoc, mul_nonsing_inv _ hu, Matrix.mul_one] using this

/-- **C62 (polar).** For a nonzero tangent `η`, `ξ = c η` with `c ≥ 0` and any economy singular value decompositions of `x + η + t ξ`, the velocity of `t ↦ R(η + t ξ)` at `0`
is the result of `DiffPolarRetraction`. -/
theorem C62_polar_diff_retraction {x η ξ : Matrix n p ℝ} {c : ℝ} (hx : xᵀ * x = 1) (hη : IsTangent x η) (h0 : η ≠ 0) (hc : 0 ≤ c) (hξ : ξ = c • η)
    (U : ℝ → Matrix n p ℝ) (s : ℝ → p → ℝ) (Vt : ℝ → Matrix p p ℝ) (hU : ∀ t, (U t)ᵀ * U t = 1) (hV : ∀ t, (Vt t)ᵀ * Vt t = 1) (hs : ∀ t i, 0 ≤ s t i)
    (hsvd : ∀ t, U t * diagonal (s t) * Vt t = x + (η + t • ξ)) (i : n) (j : p) :
    HasDerivAt (fun t => polarRetraction (U t) (Vt t) i j) (diffPolar (polarRetraction (U 0) (Vt 0)) (s 0) (Vt 0) η ξ i j) 0 := by
  have hV' : Vt 0 * (Vt 0)ᵀ = 1 := mul_eq_one_comm.mp (hV 0)
  have hsvd0 : U 0 * diagonal (s 0) * Vt 0 = x + η := by rw [hsvd 0, zero_smul, add_zero]
  obtain ⟨h1, h2, h3, h4⟩ := svd_facts hx hη (hU 0) (hV 0) (hs 0) hsvd0
  set σ := s 0 with hσ
  set V := Vt 0 with hVdef
  set y0 := polarRetraction (U 0) V with hy0
  -- the diagonal of the positive factor along the ray
  set q : ℝ → p → ℝ := fun t l => 1 + (1 + t * c) ^ 2 * (σ l * σ l - 1) with hq
  have hqpos : ∀ t l, 0 < q t l := by
    intro t l
    have := h3 l
    simp only [hq]
    nlinarith [sq_nonneg (1 + t * c), mul_nonneg (sq_nonneg (1 + t * c)) (sub_nonneg.mpr this)]
  set r : ℝ → p → ℝ := fun t l => √(q t l) with hr
  have hrpos : ∀ t l, 0 < r t l := fun t l => Real.sqrt_pos.mpr (hqpos t l)
  have hray : ∀ t : ℝ, η + t • ξ = (1 + t * c) • η := fun t => by rw [hξ, add_smul, one_smul, mul_smul]
  have htan : ∀ t : ℝ, IsTangent x (η + t • ξ) := by
    intro t; rw [hray]; unfold IsTangent at *; rw [Matrix.mul_smul, transpose_smul, hη, smul_neg]
  have hrr : ∀ t, spd (r t) V * spd (r t) V = 1 + (η + t • ξ)ᵀ * (η + t • ξ) := by
    intro t
    rw [spd_mul (hV 0), hray, transpose_smul, Matrix.smul_mul, Matrix.mul_smul, smul_smul, h2]
    have e : (fun l => r t l * r t l) = fun l => 1 + (1 + t * c) ^ 2 * (σ l * σ l - 1) := by
      funext l; simp only [hr]; rw [Real.mul_self_sqrt (hqpos t l).le]
    rw [e]
    have e2 : spd (fun l => 1 + (1 + t * c) ^ 2 * (σ l * σ l - 1)) V = spd (fun _ => 1) V + ((1 + t * c) * (1 + t * c)) • spd (fun l => σ l * σ l - 1) V := by
      simp only [spd]
      rw [← Matrix.smul_mul, ← Matrix.mul_smul, ← Matrix.add_mul, ← Matrix.mul_add, ← diagonal_smul, diagonal_add]
      congr 3
      funext l
      simp only [Pi.smul_apply, smul_eq_mul]; ring
    rw [e2, spd_one (hV 0)]
  have hyt : ∀ t, polarRetraction (U t) (Vt t) = (x + (η + t • ξ)) * spd (fun l => 1 / r t l) V := by
    intro t
    obtain ⟨k1, k2, k3, k4⟩ := svd_facts hx (htan t) (hU t) (hV t) (hs t) (hsvd t)
    have hP := (C36_polar_retraction hx (hU t) (hV t) (hs t) (hsvd t)).2.1
    have e : spd (s t) (Vt t) = spd (r t) V :=
      sqrt_unique (spd_gram (hs t) _) (spd_gram (fun l => (hrpos t l).le) _) (spd_gram_det k4 (hV t)) (by rw [k1, hrr])
    rw [← hP]
    change _ = polarRetraction (U t) (Vt t) * spd (s t) (Vt t) * _
    rw [e, Matrix.mul_assoc, spd_mul (hV 0)]
    have e3 : (fun l => r t l * (1 / r t l)) = fun _ => 1 := by
      funext l; exact mul_one_div_cancel (hrpos t l).ne'
    rw [e3, spd_one (hV 0), Matrix.mul_one]
  have hr0 : ∀ l, r 0 l = σ l := by
    intro l
    simp only [hr, hq]
    rw [show (1 : ℝ) + (1 + 0 * c) ^ 2 * (σ l * σ l - 1) = σ l * σ l by ring, Real.sqrt_mul_self (h4 l).le]
  have dq : ∀ l, HasDerivAt (fun t => q t l) (2 * c * (σ l * σ l - 1)) 0 := by
    intro l
    have hin : HasDerivAt (fun t : ℝ => 1 + t * c) c 0 := by simpa using ((hasDerivAt_id (0 : ℝ)).mul_const c).const_add 1
    have := ((hin.pow 2).mul_const (σ l * σ l - 1)).const_add 1
    refine this.congr_deriv ?_
    simp
  have dr : ∀ l, HasDerivAt (fun t => 1 / r t l) (-(c * (σ l * σ l - 1)) / (σ l * σ l * σ l)) 0 := by
    intro l
    have hd := ((dq l).sqrt (hqpos 0 l).ne').inv (Real.sqrt_pos.mpr (hqpos 0 l)).ne'
    have e : (fun t => 1 / r t l) = (fun t => √(q t l))⁻¹ := by funext t; simp [hr]
    rw [e]
    have hp := (h4 l).ne'
    have e2 : √(q 0 l) = σ l := hr0 l
    rw [e2] at hd
    refine hd.congr_deriv ?_
    field_simp
  set dS : Matrix p p ℝ := spd (fun l => -(c * (σ l * σ l - 1)) / (σ l * σ l * σ l)) V with hdS
  have hspd : ∀ (d : p → ℝ) a b, spd d V a b = ∑ l, V l a * d l * V l b := by
    intro d a b
    rw [spd, mul_apply]
    simp only [mul_diagonal, transpose_apply]
  have hdSpd : ∀ a b, HasDerivAt (fun t => spd (fun l => 1 / r t l) V a b) (dS a b) 0 := by
    intro a b
    simp only [hdS, hspd]
    exact HasDerivAt.fun_sum fun l _ => ((dr l).const_mul (V l a)).mul_const (V l b)
  have hdA : ∀ a b, HasDerivAt (fun t : ℝ => (x + (η + t • ξ)) a b) (ξ a b) 0 := by
    intro a b
    simp only [Matrix.add_apply, Matrix.smul_apply, smul_eq_mul]
    have := ((((hasDerivAt_id (0 : ℝ)).mul_const (ξ a b)).const_add (η a b)).const_add (x a b))
    simpa using this
  have hmain := hasDerivAt_mul_entry hdA hdSpd i j
  simp only [← hyt] at hmain
  refine hmain.congr_deriv (congrFun (congrFun ?_ i) j)
  -- the closed form agrees with the code
  simp only [diffPolar]
  rw [ratio_sqrt hc h0 hξ]
  have et : η * Vᵀ * diagonal (fun l => 1 / σ l) * V = η * spd (fun l => 1 / σ l) V := by simp only [spd, Matrix.mul_assoc]
  rw [et]
  have e0 : (fun l => 1 / r 0 l) = fun l => 1 / σ l := by funext l; rw [hr0]
  rw [e0, zero_smul, add_zero, hξ, Matrix.smul_mul]
  symm
  congr 1
  have hsym : ∀ d : p → ℝ, (spd d V)ᵀ = spd d V := by
    intro d; simp only [spd, transpose_mul, transpose_transpose, diagonal_transpose, Matrix.mul_assoc]
  have hy0P : x + η = y0 * spd σ V := ((C36_polar_retraction hx (hU 0) (hV 0) (hs 0) hsvd0).2.1).symm
  rw [hy0P, Matrix.mul_assoc, hdS, spd_mul (hV 0), transpose_mul, hsym, Matrix.mul_assoc (spd _ V), ← Matrix.mul_assoc ηᵀ, h2, spd_mul (hV 0), spd_mul (hV 0), ← Matrix.mul_smul]
  congr 1
  simp only [spd]
  rw [← Matrix.smul_mul, ← Matrix.mul_smul, ← diagonal_smul]
  congr 3
  funext l
  have hp := (h4 l).ne'
  simp only [Pi.smul_apply, smul_eq_mul]
  field_simp

/-! ## C68: the inverse of the polar retraction -/

/-- **C68.** `Element::SYL` solves the Sylvester equation `A X + X B = C`, given the specification of the Schur decomposition and of `tgsyl_`. -/
theorem C68_sylvester_solution {A B C Qa Qb Sa Sb R L : Matrix p p ℝ} {scale : ℝ} (hQa : Qaᵀ * Qa = 1) (hQb : Qbᵀ * Qb = 1) (hA : A = Qa * Sa * Qaᵀ) (hB : B = Qb * Sb * Qbᵀ)
    (hsc : scale ≠ 0) (h1 : Sa * R - L * (-Sb) = scale • (Qaᵀ * C * Qb)) (h2 : (1 : Matrix p p ℝ) * R - L * 1 = scale • (0 : Matrix p p ℝ)) :
    A * syl Qa Qb R scale + syl Qa Qb R scale * B = C := by
  have hQa' : Qa * Qaᵀ = 1 := mul_eq_one_comm.mp hQa
  have hQb' : Qb * Qbᵀ = 1 := mul_eq_one_comm.mp hQb
  have hRL : R = L := by
    rw [Matrix.one_mul, Matrix.mul_one, smul_zero] at h2; exact sub_eq_zero.mp h2
  rw [← hRL, Matrix.mul_neg, sub_neg_eq_add] at h1
  have e1 : A * syl Qa Qb R scale = (1 / scale) • (Qa * (Sa * R) * Qbᵀ) := by
    rw [syl, Matrix.mul_smul, hA]
    congr 1
    calc Qa * Sa * Qaᵀ * (Qa * R * Qbᵀ) = Qa * Sa * (Qaᵀ * Qa) * R * Qbᵀ := by simp only [Matrix.mul_assoc]
      _ = _ := by rw [hQa, Matrix.mul_one]; simp only [Matrix.mul_assoc]
  have e2 : syl Qa Qb R scale * B = (1 / scale) • (Qa * (R * Sb) * Qbᵀ) := by
    rw [syl, Matrix.smul_mul, hB]
    congr 1
    calc Qa * R * Qbᵀ * (Qb * Sb * Qbᵀ) = Qa * R * (Qbᵀ * Qb) * Sb * Qbᵀ := by simp only [Matrix.mul_assoc]
      _ = _ := by rw [hQb, Matrix.mul_one]; simp only [Matrix.mul_assoc]
  rw [e1, e2, ← smul_add, ← Matrix.add_mul, ← Matrix.mul_add, h1, Matrix.mul_smul, Matrix.smul_mul, smul_smul, one_div, inv_mul_cancel₀ hsc, one_smul]
  calc Qa * (Qaᵀ * C * Qb) * Qbᵀ = (Qa * Qaᵀ) * C * (Qb * Qbᵀ) := by simp only [Matrix.mul_assoc]
    _ = C := by rw [hQa', hQb', Matrix.one_mul, Matrix.mul_one]

/-- The Sylvester operator of the inverse polar retraction has trivial kernel. -/
theorem sylvester_injective {M C Ω D : Matrix p p ℝ} (hC : C.det ≠ 0) (hΩ : Ωᵀ = -Ω) (hM : M * (Cᵀ * C) = 1 + Ω) (hD : M * D + D * Mᵀ = 0) : D = 0 := by
  have hCu := isUnit_det_of_ne hC
  have hCtu : IsUnit Cᵀ.det := by rw [det_transpose]; exact hCu
  set F := (Cᵀ)⁻¹ * D * C⁻¹ with hF
  have hDF : D = Cᵀ * F * C := by
    rw [hF]
    calc D = (Cᵀ * (Cᵀ)⁻¹) * D * (C⁻¹ * C) := by rw [mul_nonsing_inv _ hCtu, nonsing_inv_mul _ hCu, Matrix.one_mul, Matrix.mul_one]
      _ = _ := by simp only [Matrix.mul_assoc]
  set K := (C⁻¹)ᵀ * C⁻¹ with hK
  set W := (C⁻¹)ᵀ * Ω * C⁻¹ with hW
  have hCt : (Cᵀ)⁻¹ = (C⁻¹)ᵀ := (transpose_nonsing_inv C).symm
  have hWs : Wᵀ = -W := by
    rw [hW, transpose_mul, transpose_mul, transpose_transpose, hΩ]; simp only [Matrix.neg_mul, Matrix.mul_neg, Matrix.mul_assoc]
  have hKs : Kᵀ = K := by rw [hK, transpose_mul, transpose_transpose]
  have hMC : M * Cᵀ = (1 + Ω) * C⁻¹ := by
    rw [← hM]
    simp only [Matrix.mul_assoc]
    rw [mul_nonsing_inv _ hCu, Matrix.mul_one]
  have hKW : (C⁻¹)ᵀ * (M * Cᵀ) = K + W := by
    rw [hMC, hK, hW, Matrix.add_mul, Matrix.one_mul, Matrix.mul_add, Matrix.mul_assoc]
  have hKW' : C * Mᵀ * C⁻¹ = K - W := by
    have := congrArg transpose hKW
    rw [transpose_mul, transpose_mul, transpose_transpose, transpose_transpose, transpose_add, hKs, hWs, ← sub_eq_add_neg] at this
    exact this
  have heq : (K + W) * F + F * (K - W) = 0 := by
    have h := congrArg (fun Z => (C⁻¹)ᵀ * Z * C⁻¹) hD
    simp only [Matrix.mul_zero, Matrix.zero_mul] at h
    rw [← hKW, ← hKW', ← h, hDF, Matrix.mul_add, Matrix.add_mul]
    congr 1
    · calc (C⁻¹)ᵀ * (M * Cᵀ) * F = (C⁻¹)ᵀ * (M * Cᵀ) * F * (C * C⁻¹) := by rw [mul_nonsing_inv _ hCu, Matrix.mul_one]
        _ = _ := by simp only [Matrix.mul_assoc]
    · calc F * (C * Mᵀ * C⁻¹) = ((C⁻¹)ᵀ * Cᵀ) * F * (C * Mᵀ * C⁻¹) := by rw [← hCt, nonsing_inv_mul _ hCtu, Matrix.one_mul]
        _ = _ := by simp only [Matrix.mul_assoc]
  have h1 : frob F ((K + W) * F) + frob F (F * (K - W)) = 0 := by rw [← frob_add_right, heq, frob_zero_right]
  rw [Matrix.add_mul, Matrix.mul_sub, frob_add_right, frob_sub_right] at h1
  have hz1 : frob F (W * F) = 0 := by
    have e : frob F (W * F) = -frob F (W * F) := by
      nth_rewrite 1 [frob_comm, frob_mul_left, hWs, Matrix.neg_mul, frob_neg_right]; rfl
    linarith
  have hz2 : frob F (F * W) = 0 := by
    have e : frob F (F * W) = -frob F (F * W) := by
      nth_rewrite 1 [frob_comm, frob_mul_right, hWs, Matrix.mul_neg, frob_neg_right]; rfl
    linarith
  have hk1 : frob F (K * F) = frob (C⁻¹ * F) (C⁻¹ * F) := by rw [hK, frob_mul_left (C⁻¹) F, Matrix.mul_assoc]
  have hk2 : frob F (F * K) = frob (F * (C⁻¹)ᵀ) (F * (C⁻¹)ᵀ) := by rw [hK, frob_mul_right F, transpose_transpose, Matrix.mul_assoc F]
  rw [hz1, hz2, hk1, hk2] at h1
  have hz : frob (C⁻¹ * F) (C⁻¹ * F) = 0 := by
    linarith [frob_self_nonneg (C⁻¹ * F), frob_self_nonneg (F * (C⁻¹)ᵀ)]
  have hF0 : F = 0 := by
    have := congrArg (C * ·) (frob_self_eq_zero.mp hz)
    simp only [Matrix.mul_zero] at this
    rwa [← Matrix.mul_assoc, mul_nonsing_inv _ hCu, Matrix.one_mul] at this
  rw [hDF, hF0, Matrix.mul_zero, Matrix.zero_mul]

/-- **C68.** The inverse of the polar retraction recovers the tangent vector: whatever solution of the Sylvester equation is used, `InvPolarRetraction(x, R_x(η)) = η`. -/
theorem C68_inv_polar {x η U : Matrix n p ℝ} {s : p → ℝ} {Vt S : Matrix p p ℝ} (hx : xᵀ * x = 1) (hη : IsTangent x η) (hU : Uᵀ * U = 1) (hV : Vtᵀ * Vt = 1)
    (hs : ∀ i, 0 ≤ s i) (hsvd : U * diagonal s * Vt = x + η)
    (hS : xᵀ * polarRetraction U Vt * S + S * (xᵀ * polarRetraction U Vt)ᵀ = (2 : ℝ) • 1) : invPolar x (polarRetraction U Vt) S = η := by
  obtain ⟨h1, h2, h3, h4⟩ := svd_facts hx hη hU hV hs hsvd
  set y := polarRetraction U Vt with hy
  have hP : y * spd s Vt = x + η := (C36_polar_retraction hx hU hV hs hsvd).2.1
  have hsym : (spd s Vt)ᵀ = spd s Vt := by simp only [spd, transpose_mul, transpose_transpose, diagonal_transpose, Matrix.mul_assoc]
  have hM : xᵀ * y * spd s Vt = 1 + xᵀ * η := by rw [Matrix.mul_assoc, hP, Matrix.mul_add, hx]
  have hPsol : xᵀ * y * spd s Vt + spd s Vt * (xᵀ * y)ᵀ = (2 : ℝ) • 1 := by
    have e : spd s Vt * (xᵀ * y)ᵀ = (xᵀ * y * spd s Vt)ᵀ := by rw [transpose_mul (xᵀ * y), hsym]
    rw [e, hM, transpose_add, transpose_one, hη]; module
  have hd : xᵀ * y * (S - spd s Vt) + (S - spd s Vt) * (xᵀ * y)ᵀ = 0 := by
    rw [Matrix.mul_sub, Matrix.sub_mul]
    rw [← hPsol] at hS
    have := sub_eq_zero.mpr hS
    rw [← this]; abel
  have := sylvester_injective (spd_gram_det h4 hV) hη (by rw [← spd_gram hs]; exact hM) hd
  rw [invPolar, sub_eq_zero.mp this, hP]; abel

/-- **C68.** Conversely, when the Sylvester equation has a symmetric positive definite solution, `InvPolarRetraction(x, y)` is tangent at `x` and its polar retraction is `y`. -/
theorem C68_polar_of_inv {x y U : Matrix n p ℝ} {s : p → ℝ} {Vt S C : Matrix p p ℝ} (hx : xᵀ * x = 1) (hy : yᵀ * y = 1)
    (hS : xᵀ * y * S + S * (xᵀ * y)ᵀ = (2 : ℝ) • 1) (hSC : S = Cᵀ * C) (hU : Uᵀ * U = 1) (hV : Vtᵀ * Vt = 1) (hs : ∀ i, 0 ≤ s i)
    (hsvd : U * diagonal s * Vt = x + invPolar x y S) : IsTangent x (invPolar x y S) ∧ polarRetraction U Vt = y := by
  have hsym : Sᵀ = S := by rw [hSC, transpose_mul, transpose_transpose]
  have ht : IsTangent x (invPolar x y S) := by
    unfold IsTangent
    have e : S * (xᵀ * y)ᵀ = (xᵀ * y * S)ᵀ := by rw [transpose_mul (xᵀ * y), hsym]
    rw [invPolar, Matrix.mul_sub, hx, ← Matrix.mul_assoc, transpose_sub, transpose_one, ← e]
    have : S * (xᵀ * y)ᵀ = (2 : ℝ) • 1 - xᵀ * y * S := by rw [← hS]; abel
    rw [this]; module
  refine ⟨ht, (C36_polar_unique hx ht hU hV hs hsvd hy (C := C) ?_).symm⟩
  rw [← hSC, invPolar]; abel

/-! ## Non-vacuity -/

/-- Any matrix with one column and positive norm has the factors the theorems ask for. -/
theorem one_col_factors (A : ℝ → Matrix (Fin 2) (Fin 1) ℝ) (h : ∀ t, (A t)ᵀ * A t ≠ 0) :
    ∃ (Q : ℝ → Matrix (Fin 2) (Fin 1) ℝ) (r : ℝ → ℝ), (∀ t, (Q t)ᵀ * Q t = 1) ∧ (∀ t, 0 ≤ r t) ∧ ∀ t, Q t * diagonal (fun _ : Fin 1 => r t) = A t := by
  have hf : ∀ t, 0 < frob (A t) (A t) := by
    intro t
    refine lt_of_le_of_ne (frob_self_nonneg _) fun h0 => h t ?_
    rw [frob_self_eq_zero.mp h0.symm, Matrix.mul_zero]
  refine ⟨fun t => (1 / √(frob (A t) (A t))) • A t, fun t => √(frob (A t) (A t)), fun t => ?_, fun t => Real.sqrt_nonneg _, fun t => ?_⟩
  · have e : (A t)ᵀ * A t = frob (A t) (A t) • (1 : Matrix (Fin 1) (Fin 1) ℝ) := by
      ext i j; fin_cases i; fin_cases j
      simp [frob, mul_apply]
    rw [transpose_smul, Matrix.smul_mul, Matrix.mul_smul, e, smul_smul, smul_smul]
    have hs := Real.mul_self_sqrt (hf t).le
    have hp := (Real.sqrt_pos.mpr (hf t)).ne'
    have : 1 / √(frob (A t) (A t)) * (1 / √(frob (A t) (A t)) * frob (A t) (A t)) = 1 := by
      nth_rewrite 3 [← hs]
      field_simp
    rw [mul_assoc, this, one_smul]
  · have hp := (Real.sqrt_pos.mpr (hf t)).ne'
    ext i j; fin_cases j
    simp [mul_apply, Matrix.smul_apply]
    field_simp

theorem ray_gram_ne (t : ℝ) : (exX + (exEta + t • exEta))ᵀ * (exX + (exEta + t • exEta)) ≠ 0 := by
  intro h
  have h2 : IsTangent exX (exEta + t • exEta) := by
    unfold IsTangent; rw [Matrix.mul_add, Matrix.mul_smul, transpose_add, transpose_smul, exEta_tangent]; module
  have := one_add_gram_det_ne_zero (exEta + t • exEta)
  rw [← gram_add exX_orth h2, h] at this
  exact this (by simp)

/-- The hypotheses of the qf and polar statements are met along a ray from `e₁`. -/
example : (∃ (Q : ℝ → Matrix (Fin 2) (Fin 1) ℝ) (R : ℝ → Matrix (Fin 1) (Fin 1) ℝ),
      ∀ i j, HasDerivAt (fun t => qfRetraction (Q t) (R t) i j) (diffQf (qfRetraction (Q 0) (R 0)) (R 0) exEta i j) 0) ∧
    ∃ (U : ℝ → Matrix (Fin 2) (Fin 1) ℝ) (s : ℝ → Fin 1 → ℝ) (Vt : ℝ → Matrix (Fin 1) (Fin 1) ℝ),
      ∀ i j, HasDerivAt (fun t => polarRetraction (U t) (Vt t) i j) (diffPolar (polarRetraction (U 0) (Vt 0)) (s 0) (Vt 0) exEta exEta i j) 0 := by
  obtain ⟨Q, r, h1, h2, h3⟩ := one_col_factors (fun t => exX + (exEta + t • exEta)) ray_gram_ne
  refine ⟨⟨Q, fun t => diagonal fun _ => r t, fun i j => C62_qf_diff_retraction exX_orth exEta_tangent exEta_tangent Q _ h1 ?_ h3 i j⟩,
    ⟨Q, fun t _ => r t, fun _ => 1, fun i j => C62_polar_diff_retraction (c := 1) exX_orth exEta_tangent ?_ zero_le_one (one_smul _ _).symm Q _ _ h1 (fun _ => by simp)
      (fun t _ => h2 t) (fun t => by rw [Matrix.mul_one]; exact h3 t) i j⟩⟩
  · intro t i j h; rw [Subsingleton.elim i j] at h; exact absurd h (lt_irrefl _)
  · intro h
    have := congrFun (congrFun h 1) 0
    simp [exEta] at this

example (i j) : HasDerivAt (fun t : ℝ => cayleyRetraction exX (exEta + t • exEta) i j) (diffCayley exX exEta exEta i j) 0 := by
  refine C62_cayley_diff_retraction (c := 1) exX_orth exEta_tangent ?_ zero_le_one (one_smul _ _).symm i j
  intro h
  have := congrFun (congrFun h 1) 0
  simp [exEta] at this

/-- The Sylvester solution of the example: `x = e₁`, `y = (4/5, 3/5)`, `S = 5/4`, and the recovered tangent vector is `(0, 3/4)`. -/
example : invPolar exX (polarRetraction !![4/5; 3/5] 1) !![5/4] = exEta := by
  refine C68_inv_polar (s := fun _ => 5 / 4) exX_orth exEta_tangent ?_ (by simp) (fun _ => by norm_num) ?_ ?_
  · ext i j; fin_cases i; fin_cases j
    simp [Matrix.mul_apply, Fin.sum_univ_two]; norm_num
  · ext i j; fin_cases i <;> fin_cases j <;> simp [exX, exEta] <;> norm_num
  · ext i j; fin_cases i; fin_cases j
    simp [Matrix.mul_apply, Fin.sum_univ_two, polarRetraction, exX, Matrix.vecMul, dotProduct]; norm_num

end Verif.Stiefel
