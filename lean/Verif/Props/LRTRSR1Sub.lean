import Verif.Solver.LRTRSR1Sub
import Mathlib.Tactic.LinearCombination
import Mathlib.Tactic.Module
import Mathlib.Tactic.FinCases
import Mathlib.Tactic.IntervalCases

/-!
# C85: the trial step of LRTRSR1 solves the trust-region subproblem
-/

set_option linter.unusedSectionVars false
set_option linter.unusedVariables false

namespace Verif.LSR1

open Matrix
open scoped Classical

variable {n k : ℕ}

/-! ## Specification -/

/-- The Hessian approximation in compact form. -/
noncomputable def Bm (gamma : ℝ) (Psi : Matrix (Fin n) (Fin k) ℝ) (M : Matrix (Fin k) (Fin k) ℝ) : Matrix (Fin n) (Fin n) ℝ := gamma • 1 + Psi * M⁻¹ * Psiᵀ

/-- The quadratic model. -/
noncomputable def model (B : Matrix (Fin n) (Fin n) ℝ) (g p : Fin n → ℝ) : ℝ := g ⬝ᵥ p + 1 / 2 * (p ⬝ᵥ (B *ᵥ p))

/-- A solution of the trust-region subproblem. -/
def Solves (B : Matrix (Fin n) (Fin n) ℝ) (g : Fin n → ℝ) (Delta : ℝ) (eta : Fin n → ℝ) : Prop :=
  eta ⬝ᵥ eta ≤ Delta * Delta ∧ ∀ p, p ⬝ᵥ p ≤ Delta * Delta → model B g eta ≤ model B g p

/-- What the factorisations guarantee. -/
structure IsFac (F : Fac n k) (M : Matrix (Fin k) (Fin k) ℝ) (Psi : Matrix (Fin n) (Fin k) ℝ) : Prop where
  Q : F.Qᵀ * F.Q = 1
  QR : F.Q * F.R = Psi
  U : F.Uᵀ * F.U = 1
  D : F.R * M⁻¹ * F.Rᵀ = F.U * diagonal F.D * F.Uᵀ
  M : IsUnit M.det

/-- What the Householder decomposition guarantees: the product of the diagonal of the triangular factor is the determinant up to sign. -/
def IsHHR (hhr : Matrix (Fin k) (Fin k) ℝ → Fin k → ℝ) : Prop := ∀ A, |∏ i, hhr A i| = |A.det|

/-! ## Linear algebra -/

theorem IsFac.ptp {F : Fac n k} {M : Matrix (Fin k) (Fin k) ℝ} {Psi : Matrix (Fin n) (Fin k) ℝ} (h : IsFac F M Psi) : F.Pᵀ * F.P = 1 := by
  rw [Fac.P, transpose_mul, Matrix.mul_assoc, ← Matrix.mul_assoc F.Qᵀ, h.Q, Matrix.one_mul, h.U]

theorem IsFac.B {F : Fac n k} {M : Matrix (Fin k) (Fin k) ℝ} {Psi : Matrix (Fin n) (Fin k) ℝ} (h : IsFac F M Psi) (gamma : ℝ) : Bm gamma Psi M = gamma • 1 + F.P * diagonal F.D * F.Pᵀ := by
  have e : Psi * M⁻¹ * Psiᵀ = F.Q * (F.R * M⁻¹ * F.Rᵀ) * F.Qᵀ := by
    rw [← h.QR, transpose_mul]; simp only [Matrix.mul_assoc]
  rw [Bm, e, h.D, Fac.P, transpose_mul]
  simp only [Matrix.mul_assoc]

theorem B_mulVec {F : Fac n k} {M : Matrix (Fin k) (Fin k) ℝ} {Psi : Matrix (Fin n) (Fin k) ℝ} (h : IsFac F M Psi) (gamma : ℝ) (x : Fin n → ℝ) :
    Bm gamma Psi M *ᵥ x = gamma • x + F.P *ᵥ fun i => F.D i * F.gp x i := by
  rw [h.B, add_mulVec, smul_mulVec, one_mulVec, ← mulVec_mulVec, ← mulVec_mulVec]
  congr 2
  funext i
  rw [mulVec_diagonal]; rfl

theorem gp_P {F : Fac n k} {M : Matrix (Fin k) (Fin k) ℝ} {Psi : Matrix (Fin n) (Fin k) ℝ} (h : IsFac F M Psi) (c : Fin k → ℝ) : F.gp (F.P *ᵥ c) = c := by
  rw [Fac.gp, mulVec_mulVec, h.ptp, one_mulVec]

theorem dot_P {F : Fac n k} (x : Fin n → ℝ) (c : Fin k → ℝ) : x ⬝ᵥ (F.P *ᵥ c) = F.gp x ⬝ᵥ c := by
  rw [Fac.gp, dotProduct_mulVec, mulVec_transpose]

theorem gp_add (F : Fac n k) (x y : Fin n → ℝ) : F.gp (x + y) = F.gp x + F.gp y := mulVec_add _ _ _
theorem gp_smul (F : Fac n k) (c : ℝ) (x : Fin n → ℝ) : F.gp (c • x) = c • F.gp x := mulVec_smul _ _ _
theorem gp_sub (F : Fac n k) (x y : Fin n → ℝ) : F.gp (x - y) = F.gp x - F.gp y := mulVec_sub _ _ _

/-- Pythagoras. -/
theorem split_dot {F : Fac n k} {M : Matrix (Fin k) (Fin k) ℝ} {Psi : Matrix (Fin n) (Fin k) ℝ} (h : IsFac F M Psi) (x : Fin n → ℝ) :
    x ⬝ᵥ x = F.gp x ⬝ᵥ F.gp x + (x - F.P *ᵥ F.gp x) ⬝ᵥ (x - F.P *ᵥ F.gp x) := by
  rw [sub_dotProduct, dotProduct_sub, dotProduct_sub, dot_P, dotProduct_comm (F.P *ᵥ F.gp x) x, dot_P, dot_P, gp_P h]
  ring

theorem dot_self_nonneg {m : ℕ} (x : Fin m → ℝ) : 0 ≤ x ⬝ᵥ x := Finset.sum_nonneg fun i _ => mul_self_nonneg _

theorem dot_self_zero {m : ℕ} {x : Fin m → ℝ} (h : x ⬝ᵥ x = 0) : x = 0 := by
  funext i
  exact mul_self_eq_zero.mp ((Finset.sum_eq_zero_iff_of_nonneg fun i _ => mul_self_nonneg (x i)).mp h i (Finset.mem_univ i))

theorem perp2_eq {F : Fac n k} {M : Matrix (Fin k) (Fin k) ℝ} {Psi : Matrix (Fin n) (Fin k) ℝ} (h : IsFac F M Psi) (g : Fin n → ℝ) :
    F.perp2 g = (g - F.P *ᵥ F.gp g) ⬝ᵥ (g - F.P *ᵥ F.gp g) := by
  rw [Fac.perp2, split_dot h g]; ring

theorem quad {F : Fac n k} {M : Matrix (Fin k) (Fin k) ℝ} {Psi : Matrix (Fin n) (Fin k) ℝ} (h : IsFac F M Psi) (gamma s : ℝ) (x : Fin n → ℝ) :
    x ⬝ᵥ (Bm gamma Psi M *ᵥ x + s • x) = (∑ i, (F.D i + (gamma + s)) * (F.gp x i * F.gp x i)) + (gamma + s) * ((x - F.P *ᵥ F.gp x) ⬝ᵥ (x - F.P *ᵥ F.gp x)) := by
  rw [B_mulVec h, dotProduct_add, dotProduct_add, dotProduct_smul, dotProduct_smul, dot_P]
  have : (∑ i, (F.D i + (gamma + s)) * (F.gp x i * F.gp x i)) = F.gp x ⬝ᵥ (fun i => F.D i * F.gp x i) + (gamma + s) * (F.gp x ⬝ᵥ F.gp x) := by
    simp only [dotProduct, Finset.mul_sum, ← Finset.sum_add_distrib]
    exact Finset.sum_congr rfl fun i _ => by ring
  rw [this, smul_eq_mul, smul_eq_mul]
  linear_combination (gamma + s) * split_dot h x

/-- The symmetric bilinear form. -/
theorem B_symm {F : Fac n k} {M : Matrix (Fin k) (Fin k) ℝ} {Psi : Matrix (Fin n) (Fin k) ℝ} (h : IsFac F M Psi) (gamma : ℝ) (x y : Fin n → ℝ) :
    x ⬝ᵥ (Bm gamma Psi M *ᵥ y) = y ⬝ᵥ (Bm gamma Psi M *ᵥ x) := by
  rw [B_mulVec h, B_mulVec h, dotProduct_add, dotProduct_add, dotProduct_smul, dotProduct_smul, dot_P, dot_P, dotProduct_comm y x]
  congr 1
  simp only [dotProduct]
  exact Finset.sum_congr rfl fun i _ => by ring

/-- Sufficient conditions for a global minimiser of the model over a ball. -/
theorem global {F : Fac n k} {M : Matrix (Fin k) (Fin k) ℝ} {Psi : Matrix (Fin n) (Fin k) ℝ} (h : IsFac F M Psi) (gamma s : ℝ) (g eta : Fin n → ℝ)
    (he : Bm gamma Psi M *ᵥ eta + s • eta = -g) (hD : ∀ i, 0 ≤ F.D i + (gamma + s)) (ht : 0 ≤ gamma + s) (p : Fin n → ℝ) (hp : s * (p ⬝ᵥ p) ≤ s * (eta ⬝ᵥ eta)) :
    model (Bm gamma Psi M) g eta ≤ model (Bm gamma Psi M) g p := by
  have q := quad h gamma s (p - eta)
  have qn : 0 ≤ (p - eta) ⬝ᵥ (Bm gamma Psi M *ᵥ (p - eta) + s • (p - eta)) := by
    rw [q]
    refine add_nonneg (Finset.sum_nonneg fun i _ => mul_nonneg (hD i) (mul_self_nonneg _)) (mul_nonneg ht (dot_self_nonneg _))
  have e1 : g ⬝ᵥ p = -(p ⬝ᵥ (Bm gamma Psi M *ᵥ eta)) - s * (p ⬝ᵥ eta) := by
    have : p ⬝ᵥ (Bm gamma Psi M *ᵥ eta + s • eta) = -(g ⬝ᵥ p) := by rw [he, dotProduct_neg, dotProduct_comm]
    rw [dotProduct_add, dotProduct_smul, smul_eq_mul] at this
    linarith
  have e2 : g ⬝ᵥ eta = -(eta ⬝ᵥ (Bm gamma Psi M *ᵥ eta)) - s * (eta ⬝ᵥ eta) := by
    have : eta ⬝ᵥ (Bm gamma Psi M *ᵥ eta + s • eta) = -(g ⬝ᵥ eta) := by rw [he, dotProduct_neg, dotProduct_comm]
    rw [dotProduct_add, dotProduct_smul, smul_eq_mul] at this
    linarith
  rw [mulVec_sub, smul_sub] at qn
  simp only [dotProduct_add, dotProduct_sub, sub_dotProduct, dotProduct_smul, smul_eq_mul] at qn
  have sy := B_symm h gamma eta p
  have sd := dotProduct_comm eta p
  unfold model
  rw [e1, e2]
  rw [sy, sd] at qn
  linarith

/-- The length of a solution of the shifted system. -/
theorem sol_norm {F : Fac n k} {M : Matrix (Fin k) (Fin k) ℝ} {Psi : Matrix (Fin n) (Fin k) ℝ} (h : IsFac F M Psi) (gamma s : ℝ) (g eta : Fin n → ℝ)
    (he : Bm gamma Psi M *ᵥ eta + s • eta = -g) (hD : ∀ i, F.D i + gamma + s ≠ 0) (ht : gamma + s ≠ 0) :
    eta ⬝ᵥ eta = (∑ i, F.gp g i * F.gp g i / (F.D i + gamma + s) / (F.D i + gamma + s)) + F.perp2 g / (gamma + s) / (gamma + s) := by
  have hg : F.gp g = fun i => -((F.D i + gamma + s) * F.gp eta i) := by
    have : F.gp (-g) = -F.gp g := mulVec_neg _ _
    rw [← he, B_mulVec h, gp_add, gp_add, gp_smul, gp_smul, gp_P h] at this
    funext i
    have := congrFun this i
    simp only [Pi.add_apply, Pi.smul_apply, Pi.neg_apply, smul_eq_mul] at this
    linarith
  have hp : g - F.P *ᵥ F.gp g = -((gamma + s) • (eta - F.P *ᵥ F.gp eta)) := by
    have e : F.P *ᵥ F.gp g = -(F.P *ᵥ (fun i => F.D i * F.gp eta i)) - (gamma + s) • (F.P *ᵥ F.gp eta) := by
      rw [hg, ← mulVec_neg, ← mulVec_smul, ← mulVec_sub]
      congr 1
      funext i
      simp only [Pi.sub_apply, Pi.neg_apply, Pi.smul_apply, smul_eq_mul]
      ring
    have e2 : g = -(gamma • eta + F.P *ᵥ (fun i => F.D i * F.gp eta i) + s • eta) := by rw [← B_mulVec h, he, neg_neg]
    rw [e]
    nth_rewrite 1 [e2]
    module
  rw [perp2_eq h, hp, split_dot h eta]
  congr 1
  · simp only [dotProduct]
    refine Finset.sum_congr rfl fun i _ => ?_
    rw [hg]
    have := hD i
    field_simp
  · simp only [neg_dotProduct, dotProduct_neg, smul_dotProduct, dotProduct_smul, smul_eq_mul]
    field_simp

/-- The Sherman-Morrison-Woodbury formula of the code. -/
theorem smw_spec {F : Fac n k} {M : Matrix (Fin k) (Fin k) ℝ} {Psi : Matrix (Fin n) (Fin k) ℝ} (h : IsFac F M Psi) {hhr : Matrix (Fin k) (Fin k) ℝ → Fin k → ℝ} (hh : IsHHR hhr)
    (epsM : ℝ) (hpos : 0 < epsM) (g eta : Fin n → ℝ) (gamma s : ℝ) (hd : k ≠ 0 → ¬ Deficient epsM (hhr (vw F M (gamma + s)))) (e : smw epsM hhr F M Psi g (gamma + s) = some eta) :
    gamma + s ≠ 0 ∧ Bm gamma Psi M *ᵥ eta + s • eta = -g := by
  have hB : ∀ x, Bm gamma Psi M *ᵥ x = gamma • x + Psi *ᵥ (M⁻¹ *ᵥ (Psiᵀ *ᵥ x)) := by
    intro x; rw [Bm, add_mulVec, smul_mulVec, one_mulVec, ← mulVec_mulVec, ← mulVec_mulVec]
  rcases Nat.eq_zero_or_pos k with hk | hk
  · subst hk
    have h0 : ∀ c : Fin 0 → ℝ, Psi *ᵥ c = 0 := fun c => by funext j; simp [mulVec, dotProduct]
    have ht : gamma + s ≠ 0 := fun ht => by simp [smw, ht] at e
    refine ⟨ht, ?_⟩
    have : eta = (-1 / (gamma + s)) • g := by
      unfold smw at e
      rw [if_neg ht, if_pos (.inl fun i => i.elim0)] at e
      exact (Option.some.inj e).symm
    rw [hB, h0, add_zero, this, ← add_smul, smul_smul, mul_div_cancel₀ _ ht, neg_one_smul]
  have hd := hd hk.ne'
  unfold smw at e
  split_ifs at e with ht
  refine ⟨ht, ?_⟩
  obtain rfl := Option.some.inj e
  set t := gamma + s with htd
  have hdet : IsUnit (vw F M t).det := by
    rw [isUnit_iff_ne_zero]
    intro h0
    have hp := hh (vw F M t)
    rw [h0, abs_zero, abs_eq_zero, Finset.prod_eq_zero_iff] at hp
    obtain ⟨i, _, hi⟩ := hp
    apply hd
    by_cases hall : ∀ i, hhr (vw F M t) i = 0
    · exact .inl hall
    · push Not at hall
      obtain ⟨j0, hj0⟩ := hall
      obtain ⟨j, _, hj⟩ := Finset.exists_max_image Finset.univ (fun l => |hhr (vw F M t) l|) ⟨i, Finset.mem_univ _⟩
      refine .inr ⟨i, j, fun l => ⟨by rw [hi, abs_zero]; exact abs_nonneg _, hj l (Finset.mem_univ _)⟩, ?_⟩
      rw [hi, abs_zero, zero_div]; positivity
  have hRR : Psiᵀ * Psi = F.Rᵀ * F.R := by
    rw [← h.QR, transpose_mul, Matrix.mul_assoc, ← Matrix.mul_assoc F.Qᵀ, h.Q, Matrix.one_mul]
  set w := (vw F M t)⁻¹ *ᵥ (Psiᵀ *ᵥ g) with hw
  have hvw : (vw F M t) *ᵥ w = Psiᵀ *ᵥ g := by rw [hw, mulVec_mulVec, mul_nonsing_inv _ hdet, one_mulVec]
  have hvw2 : t • (Psiᵀ *ᵥ (Psi *ᵥ w)) + (t * t) • (M *ᵥ w) = Psiᵀ *ᵥ g := by
    rw [← hvw, vw, ← hRR, add_mulVec, smul_mulVec, smul_mulVec, mulVec_mulVec]
  have hMw : M⁻¹ *ᵥ (Psiᵀ *ᵥ g) = t • (M⁻¹ *ᵥ (Psiᵀ *ᵥ (Psi *ᵥ w))) + (t * t) • w := by
    rw [← hvw2, mulVec_add, mulVec_smul, mulVec_smul, mulVec_mulVec _ M⁻¹ M, nonsing_inv_mul _ h.M, one_mulVec]
  rw [hB]
  simp only [mulVec_add, mulVec_smul, hMw]
  have : s = t - gamma := by rw [htd]; ring
  rw [this]
  have ht1 : -1 / t * t = -1 := by field_simp
  have ht2 : -1 / t * (t * t) = -t := by field_simp
  simp only [smul_add, smul_smul, ht1, ht2, sub_smul]
  have ht3 : (t - gamma) * (-1 / t) = -1 - gamma * (-1 / t) := by field_simp; ring
  rw [ht3]
  module

/-! ## The secular equation -/

theorem tol_pos : 0 < tol := by unfold tol; norm_num

/-- The squared length of the solution of the shifted system in eigencoordinates. -/
noncomputable def nrm2 (lam a : Option (Fin k) → ℝ) (x : ℝ) : ℝ := ∑ i, a i * a i / (lam i + x) / (lam i + x)

noncomputable def cub (lam a : Option (Fin k) → ℝ) (x : ℝ) : ℝ := ∑ i, a i * a i / (lam i + x) / (lam i + x) / (lam i + x)

theorem nrm2_nonneg (lam a : Option (Fin k) → ℝ) (x : ℝ) : 0 ≤ nrm2 lam a x := Finset.sum_nonneg fun i _ => by
  rw [div_div]; exact div_nonneg (mul_self_nonneg _) (mul_self_nonneg _)

theorem phi_eq (Delta : ℝ) (lam a : Option (Fin k) → ℝ) (x : ℝ) (ha : ∀ i, a i = 0 ∨ tol < |a i|) (hx : ∀ i, tol < lam i + x) (hn : nrm2 lam a x ≠ 0) :
    phi Delta lam a x = some (1 / √(nrm2 lam a x) - 1 / Delta, cub lam a x / √(nrm2 lam a x) / √(nrm2 lam a x) / √(nrm2 lam a x)) := by
  have ht : ∀ i, tol < |lam i + x| := fun i => (hx i).trans_le (le_abs_self _)
  have hr : √(nrm2 lam a x) ≠ 0 := by rw [Real.sqrt_ne_zero (nrm2_nonneg _ _ _)]; exact hn
  unfold phi
  split_ifs with h1 h2
  · obtain ⟨i, _, hi⟩ := h2; exact absurd hi (ht i).not_gt
  · have e1 : ∀ i, (if tol < |a i| ∧ tol < |lam i + x| then a i * a i / (lam i + x) / (lam i + x) else 0) = a i * a i / (lam i + x) / (lam i + x) := by
      intro i
      rcases ha i with h | h
      · simp [h]
      · rw [if_pos ⟨h, ht i⟩]
    have e2 : ∀ i, (if tol < |a i| ∧ tol < |lam i + x| then a i * a i / (lam i + x) / (lam i + x) / (lam i + x) else 0) = a i * a i / (lam i + x) / (lam i + x) / (lam i + x) := by
      intro i
      rcases ha i with h | h
      · simp [h]
      · rw [if_pos ⟨h, ht i⟩]
    simp only [e1, e2]
    exact if_neg hr
  · have e1 : ∀ i, a i / (lam i + x) * (a i / (lam i + x)) = a i * a i / (lam i + x) / (lam i + x) := fun i => by rw [div_mul_div_comm, div_div]
    simp only [e1]
    exact if_neg hr

/-- Concavity: one Newton step for `1 / √(nrm2)` from the left does not pass the root. -/
theorem nrm2_step (lam a : Option (Fin k) → ℝ) (x d : ℝ) (hx : ∀ i, 0 < lam i + x) (hd : 0 ≤ d) :
    nrm2 lam a x * (nrm2 lam a x * nrm2 lam a x) ≤ nrm2 lam a (x + d) * ((nrm2 lam a x + d * cub lam a x) * (nrm2 lam a x + d * cub lam a x)) := by
  set W := nrm2 lam a x with hW
  rcases (nrm2_nonneg lam a x).eq_or_lt with h0 | h0
  · rw [hW, ← h0, zero_mul]
    exact mul_nonneg (nrm2_nonneg _ _ _) (mul_self_nonneg _)
  · have hc : 0 ≤ cub lam a x := Finset.sum_nonneg fun i _ => by
      have := hx i; have := mul_self_nonneg (a i); positivity
    have hW0 : W ≠ 0 := h0.ne'
    set m := d * cub lam a x / W with hm
    have hm0 : 0 ≤ m := by positivity
    have key : ∀ i, a i * a i / (lam i + x) / (lam i + x) * (1 / (1 + m) ^ 2 - 2 * (d / (lam i + x) - m) / (1 + m) ^ 3) ≤ a i * a i / (lam i + (x + d)) / (lam i + (x + d)) := by
      intro i
      have ht := hx i
      have hu : 0 ≤ d / (lam i + x) := by positivity
      have e : a i * a i / (lam i + (x + d)) / (lam i + (x + d)) = a i * a i / (lam i + x) / (lam i + x) * (1 / (1 + d / (lam i + x)) ^ 2) := by
        have : lam i + (x + d) = (lam i + x) * (1 + d / (lam i + x)) := by field_simp; ring
        rw [this]; field_simp
      rw [e]
      refine mul_le_mul_of_nonneg_left ?_ (by have := mul_self_nonneg (a i); positivity)
      generalize d / (lam i + x) = u at hu
      rw [← sub_nonneg]
      have : 1 / (1 + u) ^ 2 - (1 / (1 + m) ^ 2 - 2 * (u - m) / (1 + m) ^ 3) = (u - m) ^ 2 * ((1 + m) + 2 * (1 + u)) / ((1 + u) ^ 2 * (1 + m) ^ 3) := by
        field_simp; ring
      rw [this]; positivity
    have hsum := Finset.sum_le_sum fun i (_ : i ∈ Finset.univ) => key i
    have hl : ∑ i, a i * a i / (lam i + x) / (lam i + x) * (1 / (1 + m) ^ 2 - 2 * (d / (lam i + x) - m) / (1 + m) ^ 3) = W / (1 + m) ^ 2 := by
      have e : ∀ i, a i * a i / (lam i + x) / (lam i + x) * (1 / (1 + m) ^ 2 - 2 * (d / (lam i + x) - m) / (1 + m) ^ 3) =
          (1 / (1 + m) ^ 2 + 2 * m / (1 + m) ^ 3) * (a i * a i / (lam i + x) / (lam i + x)) - 2 * d / (1 + m) ^ 3 * (a i * a i / (lam i + x) / (lam i + x) / (lam i + x)) := by
        intro i; have := hx i; field_simp; ring
      rw [Finset.sum_congr rfl fun i _ => e i, Finset.sum_sub_distrib, ← Finset.mul_sum, ← Finset.mul_sum]
      change (1 / (1 + m) ^ 2 + 2 * m / (1 + m) ^ 3) * W - 2 * d / (1 + m) ^ 3 * cub lam a x = _
      have : d * cub lam a x = m * W := by rw [hm]; field_simp
      have : 2 * d / (1 + m) ^ 3 * cub lam a x = 2 * (m * W) / (1 + m) ^ 3 := by rw [← this]; ring
      rw [this]; field_simp; ring
    rw [hl] at hsum
    change W / (1 + m) ^ 2 ≤ nrm2 lam a (x + d) at hsum
    have e : W + d * cub lam a x = W * (1 + m) := by rw [hm]; field_simp
    rw [e]
    rw [div_le_iff₀ (by positivity)] at hsum
    have := mul_le_mul_of_nonneg_right hsum (mul_self_nonneg W)
    calc W * (W * W) ≤ nrm2 lam a (x + d) * (1 + m) ^ 2 * (W * W) := this
      _ = _ := by ring

theorem newton_left (epsM Delta : ℝ) (hD : 0 < Delta) (lam a : Option (Fin k) → ℝ) (ha : ∀ i, a i = 0 ∨ tol < |a i|) (N : ℕ) : ∀ (x s : ℝ), (∀ i, tol < lam i + x) →
    Delta * Delta ≤ nrm2 lam a x → newton epsM Delta lam a N x = some s → x ≤ s ∧ Delta * Delta ≤ nrm2 lam a s := by
  induction N with
  | zero => intro x s _ h e; obtain rfl := Option.some.inj e; exact ⟨le_rfl, h⟩
  | succ N ih =>
    intro x s hx h e
    have hW : 0 < nrm2 lam a x := lt_of_lt_of_le (by positivity) h
    rw [newton, phi_eq Delta lam a x ha hx hW.ne'] at e
    simp only at e
    split_ifs at e with h1 h2
    · obtain rfl := Option.some.inj e; exact ⟨le_rfl, h⟩
    · set r := √(nrm2 lam a x) with hr
      have hr0 : 0 < r := Real.sqrt_pos.mpr hW
      have hrr : r * r = nrm2 lam a x := Real.mul_self_sqrt hW.le
      have hrD : Delta ≤ r := by rw [hr]; exact Real.le_sqrt_of_sq_le (by rw [sq]; exact h)
      have hc0 : 0 ≤ cub lam a x := Finset.sum_nonneg fun i _ => by
        have := tol_pos.trans (hx i); have := mul_self_nonneg (a i); positivity
      have hc : 0 < cub lam a x := lt_of_le_of_ne hc0 fun h => h2 (by rw [← h]; simp)
      have hstep : x - (1 / r - 1 / Delta) / (cub lam a x / r / r / r) = x + (1 / Delta - 1 / r) * (r * (r * r)) / cub lam a x := by field_simp; ring
      rw [hstep] at e
      set d := (1 / Delta - 1 / r) * (r * (r * r)) / cub lam a x with hd
      have hd0 : 0 ≤ d := by
        have : 0 ≤ 1 / Delta - 1 / r := sub_nonneg.mpr (one_div_le_one_div_of_le hD hrD)
        positivity
      have hn := nrm2_step lam a x d (fun i => tol_pos.trans (hx i)) hd0
      have he : nrm2 lam a x + d * cub lam a x = r * (r * r) / Delta := by rw [← hrr, hd]; field_simp; ring
      rw [he, ← hrr] at hn
      have hn2 : Delta * Delta ≤ nrm2 lam a (x + d) := by
        have h6 : 0 < r * r * (r * r * (r * r)) := by positivity
        have : r * r * (r * r * (r * r)) * (Delta * Delta) ≤ nrm2 lam a (x + d) * (r * r * (r * r * (r * r))) := by
          calc r * r * (r * r * (r * r)) * (Delta * Delta) ≤ nrm2 lam a (x + d) * (r * (r * r) / Delta * (r * (r * r) / Delta)) * (Delta * Delta) := mul_le_mul_of_nonneg_right hn (mul_self_nonneg _)
            _ = _ := by field_simp
        nlinarith
      obtain ⟨i1, i2⟩ := ih (x + d) s (fun i => by have := hx i; linarith) hn2 e
      exact ⟨by linarith, i2⟩

theorem start_left {lam a : Option (Fin k) → ℝ} {Delta lmin : ℝ} (hD : 0 < Delta) (hmin : ∀ i, lmin ≤ lam i) (hatt : ∃ i, lam i = lmin) (hA : ¬ (0 < lmin ∧ tmpv lam a ≤ Delta))
    (hgap : ∀ i, tol < lam i + start Delta lmin lam a) : 0 ≤ start Delta lmin lam a ∧ Delta * Delta ≤ nrm2 lam a (start Delta lmin lam a) := by
  unfold start at hgap ⊢
  split_ifs at hgap ⊢ with h1 h2
  · refine ⟨le_rfl, ?_⟩
    have : Delta < tmpv lam a := not_le.mp fun h => hA ⟨h1, h⟩
    rw [tmpv, Real.lt_sqrt hD.le, sq] at this
    simpa [nrm2] using this.le
  · have hs : 0 ≤ sigmaHat Delta lam a := le_max_left _ _
    refine ⟨hs, ?_⟩
    obtain ⟨i, _, hi⟩ := Finset.exists_mem_eq_sup' (⟨none, Finset.mem_univ _⟩ : (Finset.univ : Finset (Option (Fin k))).Nonempty) fun i => a i / Delta - lam i
    have hne : sigmaHat Delta lam a = a i / Delta - lam i := by
      unfold sigmaHat
      rw [hi]
      refine max_eq_right ?_
      by_contra hneg
      unfold sigmaHat at h2
      rw [hi, max_eq_left (le_of_not_ge hneg)] at h2
      linarith
    have hpos : lam i + sigmaHat Delta lam a = a i / Delta := by rw [hne]; ring
    have hgi := tol_pos.trans (hgap i)
    rw [hpos] at hgi
    have hai : 0 < a i := by
      have := mul_pos hgi hD
      rwa [div_mul_cancel₀ _ hD.ne'] at this
    have : a i * a i / (lam i + sigmaHat Delta lam a) / (lam i + sigmaHat Delta lam a) = Delta * Delta := by
      rw [hpos]; field_simp
    rw [← this]
    exact Finset.single_le_sum (f := fun i => a i * a i / (lam i + sigmaHat Delta lam a) / (lam i + sigmaHat Delta lam a))
      (fun j _ => by rw [div_div]; exact div_nonneg (mul_self_nonneg _) (mul_self_nonneg _)) (Finset.mem_univ i)
  · obtain ⟨i, hi⟩ := hatt
    have := hgap i
    rw [hi] at this
    linarith [tol_pos]

/-! ## Theorems -/

/-- No quantity of the problem is so small that the method replaces it by zero, except zeros. -/
structure Regular (F : Fac n k) (gamma : ℝ) (g : Fin n → ℝ) : Prop where
  eig : ∀ i, F.D i + gamma = 0 ∨ tol < |F.D i + gamma|
  gam : gamma = 0 ∨ tol < |gamma|
  comp : ∀ i, F.gp g i = 0 ∨ tol < |F.gp g i|
  perp : F.perp2 g = 0 ∨ tol ≤ F.perp2 g

theorem chop_eq {x : ℝ} (h : x = 0 ∨ tol < |x|) : chop x = x := by
  unfold chop
  split_ifs with h1
  · rcases h with h | h
    · exact h.symm
    · exact absurd h h1.not_gt
  · rfl

theorem Regular.lam_some {F : Fac n k} {gamma : ℝ} {g : Fin n → ℝ} (h : Regular F gamma g) (i : Fin k) : F.lam gamma (some i) = F.D i + gamma := chop_eq (h.eig i)
theorem Regular.lam_none {F : Fac n k} {gamma : ℝ} {g : Fin n → ℝ} (h : Regular F gamma g) : F.lam gamma none = gamma := chop_eq h.gam

theorem perp2_nonneg {F : Fac n k} {M : Matrix (Fin k) (Fin k) ℝ} {Psi : Matrix (Fin n) (Fin k) ℝ} (h : IsFac F M Psi) (g : Fin n → ℝ) : 0 ≤ F.perp2 g := by
  rw [perp2_eq h]; exact dot_self_nonneg _

theorem a_none_sq {F : Fac n k} {M : Matrix (Fin k) (Fin k) ℝ} {Psi : Matrix (Fin n) (Fin k) ℝ} (h : IsFac F M Psi) {g : Fin n → ℝ} (hp : F.perp2 g = 0 ∨ tol ≤ F.perp2 g) :
    F.a g none * F.a g none = F.perp2 g := by
  have hs := Real.mul_self_sqrt (perp2_nonneg h g)
  simp only [Fac.a]
  split_ifs with h1
  · rw [hs] at h1
    rcases hp with h | h
    · rw [h, mul_zero]
    · exact absurd h1 h.not_gt
  · exact hs

theorem a_reg {F : Fac n k} {M : Matrix (Fin k) (Fin k) ℝ} {Psi : Matrix (Fin n) (Fin k) ℝ} (h : IsFac F M Psi) {gamma : ℝ} {g : Fin n → ℝ} (hr : Regular F gamma g) (i : Option (Fin k)) :
    F.a g i = 0 ∨ tol < |F.a g i| := by
  cases i with
  | some i => exact hr.comp i
  | none =>
    have e := a_none_sq h hr.perp
    rcases hr.perp with hp | hp
    · rw [hp] at e; exact .inl (mul_self_eq_zero.mp e)
    · right
      rw [← e] at hp
      by_contra hle
      have h1 : |F.a g none| ≤ tol := not_lt.mp hle
      have h2 : F.a g none * F.a g none ≤ tol * tol := by rw [← abs_mul_abs_self]; exact mul_le_mul h1 h1 (abs_nonneg _) tol_pos.le
      have : tol * tol < tol := by unfold tol; norm_num
      linarith

theorem lmin_le (F : Fac n k) (gamma : ℝ) (i : Option (Fin k)) : F.lmin gamma ≤ F.lam gamma i := Finset.inf'_le _ (Finset.mem_univ i)
theorem lmin_att (F : Fac n k) (gamma : ℝ) : ∃ i, F.lam gamma i = F.lmin gamma := by
  obtain ⟨i, _, hi⟩ := Finset.exists_mem_eq_inf' (⟨none, Finset.mem_univ _⟩ : (Finset.univ : Finset (Option (Fin k))).Nonempty) (F.lam gamma)
  exact ⟨i, hi.symm⟩

theorem sol_nrm2 {F : Fac n k} {M : Matrix (Fin k) (Fin k) ℝ} {Psi : Matrix (Fin n) (Fin k) ℝ} (h : IsFac F M Psi) {gamma : ℝ} {g eta : Fin n → ℝ}
    (hl : ∀ i, F.lam gamma (some i) = F.D i + gamma) (hl' : F.lam gamma none = gamma) (hp : F.perp2 g = 0 ∨ tol ≤ F.perp2 g) (s : ℝ)
    (he : Bm gamma Psi M *ᵥ eta + s • eta = -g) (hpos : ∀ i, F.lam gamma i + s ≠ 0) : eta ⬝ᵥ eta = nrm2 (F.lam gamma) (F.a g) s := by
  rw [sol_norm h gamma s g eta he (fun i => by rw [← hl i]; exact hpos _) (by have := hpos none; rwa [hl'] at this), nrm2, Fintype.sum_option, a_none_sq h hp, hl', add_comm]
  congr 1
  exact Finset.sum_congr rfl fun i _ => by rw [hl i]; rfl

/-- **C85 (interior steps).** When the method reports an interior minimum, its step solves the subproblem: no vector in the region, indeed no vector at all, has a lower model value, and the step stays
in the region. Missing from the full property: the rank test must not replace the step, and the component of the gradient outside the span must not be so small that the method drops it. -/
theorem C85_interior_partial {F : Fac n k} {M : Matrix (Fin k) (Fin k) ℝ} {Psi : Matrix (Fin n) (Fin k) ℝ} (h : IsFac F M Psi) {hhr : Matrix (Fin k) (Fin k) ℝ → Fin k → ℝ} (hh : IsHHR hhr)
    (epsM : ℝ) (he : 0 < epsM) (gamma Delta : ℝ) (hD : 0 < Delta) (g eta : Fin n → ℝ) (hd : k ≠ 0 → ¬ Deficient epsM (hhr (vw F M gamma)))
    (e : tcg epsM hhr F M Psi gamma Delta g = some (.min, eta)) :
    (∀ p, model (Bm gamma Psi M) g eta ≤ model (Bm gamma Psi M) g p) ∧ (F.perp2 g = 0 ∨ tol ≤ F.perp2 g → Solves (Bm gamma Psi M) g Delta eta) := by
  unfold tcg at e
  simp only at e
  split_ifs at e with h0 h1 h2
  · obtain ⟨e', he', hee⟩ := Option.map_eq_some_iff.mp e
    obtain rfl : e' = eta := by simpa using hee
    have hlp : ∀ i, 0 < F.lam gamma i := fun i => h1.1.trans_le (lmin_le F gamma i)
    have hch : ∀ x : ℝ, 0 < chop x → chop x = x := fun x hx => by
      unfold chop at hx ⊢
      split_ifs at hx ⊢ with hc
      · exact absurd hx (lt_irrefl _)
      · rfl
    have hl : ∀ i, F.lam gamma (some i) = F.D i + gamma := fun i => hch _ (hlp (some i))
    have hl' : F.lam gamma none = gamma := hch _ (hlp none)
    have hg : 0 < gamma := by rw [← hl']; exact hlp none
    obtain ⟨_, hs⟩ := smw_spec h hh epsM he g e' gamma 0 (by rw [add_zero]; exact hd) (by rw [add_zero]; exact he')
    have hmin : ∀ p, model (Bm gamma Psi M) g e' ≤ model (Bm gamma Psi M) g p := fun p =>
      global h gamma 0 g e' hs (fun i => by rw [add_zero, ← hl i]; exact (hlp _).le) (by rw [add_zero]; exact hg.le) p (by simp)
    refine ⟨hmin, fun hp => ⟨?_, fun p _ => hmin p⟩⟩
    rw [sol_nrm2 h hl hl' hp 0 hs fun i => by rw [add_zero]; exact (hlp i).ne']
    have := h1.2
    rw [tmpv, Real.sqrt_le_left hD.le, sq] at this
    simpa [nrm2] using this
  · obtain ⟨e', he', hee⟩ := Option.map_eq_some_iff.mp e
    simp at hee
  · revert e
    cases newton epsM Delta (F.lam gamma) (F.a g) 10 (start Delta (F.lmin gamma) (F.lam gamma) (F.a g)) with
    | none => simp
    | some s => simp

/-- **C85 (boundary steps).** When the method reports a step that leaves the region, the step is the global minimiser of the model over the ball whose radius is the length of the step; that length is at
least the radius of the region, and differs from it by no more than the tolerance if the scalar iteration ended because of its stopping test. Missing from the full property: the scalar iteration must
start away from the pole, nothing may be dropped as small, and the rank test must not replace the step; the iteration may end at its limit of ten steps with a step that is too long. -/
theorem C85_boundary_partial {F : Fac n k} {M : Matrix (Fin k) (Fin k) ℝ} {Psi : Matrix (Fin n) (Fin k) ℝ} (h : IsFac F M Psi) {hhr : Matrix (Fin k) (Fin k) ℝ → Fin k → ℝ} (hh : IsHHR hhr)
    (epsM : ℝ) (he : 0 < epsM) (gamma Delta : ℝ) (hD : 0 < Delta) (g eta : Fin n → ℝ) (hr : Regular F gamma g)
    (hgap : ∀ i, tol < F.lam gamma i + start Delta (F.lmin gamma) (F.lam gamma) (F.a g)) 
    (hd : ∀ s, newton epsM Delta (F.lam gamma) (F.a g) 10 (start Delta (F.lmin gamma) (F.lam gamma) (F.a g)) = some s → k ≠ 0 → ¬ Deficient epsM (hhr (vw F M (gamma + s))))
    (e : tcg epsM hhr F M Psi gamma Delta g = some (.exc, eta)) :
    Delta ≤ √(eta ⬝ᵥ eta) ∧ (∀ p, p ⬝ᵥ p ≤ eta ⬝ᵥ eta → model (Bm gamma Psi M) g eta ≤ model (Bm gamma Psi M) g p) ∧
      ∃ s, newton epsM Delta (F.lam gamma) (F.a g) 10 (start Delta (F.lmin gamma) (F.lam gamma) (F.a g)) = some s ∧
        ((∀ f, phi Delta (F.lam gamma) (F.a g) s = some f → |f.1| ≤ epsM) → 1 / Delta - 1 / √(eta ⬝ᵥ eta) ≤ epsM) := by
  unfold tcg at e
  simp only at e
  split_ifs at e with h0 h1 h2
  · obtain ⟨e', he', hee⟩ := Option.map_eq_some_iff.mp e
    simp at hee
  · obtain ⟨e', he', hee⟩ := Option.map_eq_some_iff.mp e
    simp at hee
  · cases hn : newton epsM Delta (F.lam gamma) (F.a g) 10 (start Delta (F.lmin gamma) (F.lam gamma) (F.a g)) with
    | none => rw [hn] at e; simp at e
    | some s =>
      rw [hn] at e
      obtain ⟨e', he', hee⟩ := Option.map_eq_some_iff.mp e
      obtain rfl : e' = eta := by simpa using hee
      obtain ⟨st0, st1⟩ := start_left hD (lmin_le F gamma) (lmin_att F gamma) h1 hgap
      have ha := fun i => a_reg h hr i
      obtain ⟨n1, n2⟩ := newton_left epsM Delta hD _ _ ha 10 _ _ hgap st1 hn
      have hpos : ∀ i, tol < F.lam gamma i + s := fun i => by have := hgap i; linarith
      have hpos0 : ∀ i, 0 < F.lam gamma i + s := fun i => tol_pos.trans (hpos i)
      obtain ⟨_, hs⟩ := smw_spec h hh epsM he g e' gamma s (hd s hn) he'
      have hN := sol_nrm2 h (fun i => hr.lam_some i) hr.lam_none hr.perp s hs fun i => (hpos0 i).ne'
      refine ⟨?_, ?_, s, rfl, ?_⟩
      · rw [hN]; exact Real.le_sqrt_of_sq_le (by rw [sq]; exact n2)
      · intro p hp
        refine global h gamma s g e' hs (fun i => ?_) ?_ p (mul_le_mul_of_nonneg_left hp (by linarith))
        · have := hpos0 (some i); rw [hr.lam_some] at this; linarith
        · have := hpos0 none; rw [hr.lam_none] at this; linarith
      · intro hf
        have hne : nrm2 (F.lam gamma) (F.a g) s ≠ 0 := (lt_of_lt_of_le (by positivity) n2).ne'
        have := hf _ (phi_eq Delta _ _ s ha hpos hne)
        rw [hN]
        simp only at this
        have := (abs_le.mp this).1
        linarith

/-- The step of the hard case before the direction of negative curvature is added. -/
theorem hard_p {F : Fac n k} {M : Matrix (Fin k) (Fin k) ℝ} {Psi : Matrix (Fin n) (Fin k) ℝ} (h : IsFac F M Psi) {gamma Delta : ℝ} (hD : 0 < Delta) {g : Fin n → ℝ} (hr : Regular F gamma g) (s : ℝ)
    (hatt : ∃ i, F.lam gamma i + s = 0) (hsep : ∀ i, F.lam gamma i + s = 0 ∨ tol < |F.lam gamma i + s|) (hphi : phiPos Delta (F.lam gamma) (F.a g) s) (v : Fin k → ℝ)
    (hv : v = fun i => if tol < |F.lam gamma (some i) + s| then F.a g (some i) / (F.lam gamma (some i) + s) else 0) (p : Fin n → ℝ)
    (hp' : p = hardP F gamma g (F.lam gamma) (F.a g) s) :
    Bm gamma Psi M *ᵥ p + s • p = -g ∧ p ⬝ᵥ p ≤ Delta * Delta ∧ F.gp p = -v := by
  have hp : p = if tol < |gamma + s| then (1 / (gamma + s)) • (F.P *ᵥ F.gp g - g) + -(F.P *ᵥ v) else -(F.P *ᵥ v) := by rw [hp', hv]; rfl
  have ha := fun i => a_reg h hr i
  have hzero : ∀ i, F.lam gamma i + s = 0 → F.a g i = 0 := by
    intro i hi
    rcases ha i with h1 | h1
    · exact h1
    · exfalso
      have h2 : |F.lam gamma i + s| < tol := by rw [hi, abs_zero]; exact tol_pos
      have e : phi Delta (F.lam gamma) (F.a g) s = some (-1 / Delta, 1 / tol) := by
        unfold phi; rw [if_pos ⟨i, .inr h2⟩, if_pos ⟨i, h1, h2⟩]
      unfold phiPos at hphi
      rw [e] at hphi
      simp only at hphi
      have : 0 < 1 / Delta := by positivity
      rw [neg_div] at hphi
      linarith
  have hvi : ∀ i, (F.D i + gamma + s) * v i = F.gp g i := by
    intro i
    rw [hv]
    have hl := hr.lam_some i
    rcases hsep (some i) with h1 | h1
    · have := hzero (some i) h1
      simp only [h1, abs_zero, tol_pos.not_gt, if_false, mul_zero]
      exact this.symm
    · simp only [h1, if_true]
      rw [← hl, mul_div_cancel₀]
      · rfl
      · intro h0; rw [h0, abs_zero] at h1; exact absurd h1 tol_pos.not_gt
  have hgp : F.gp p = -v := by
    rw [hp]
    split_ifs
    · rw [gp_add, gp_smul, gp_sub, gp_P h, sub_self, smul_zero, zero_add, ← mulVec_neg, gp_P h]
    · rw [← mulVec_neg, gp_P h]
  have hlin : F.P *ᵥ F.gp g = (gamma + s) • (F.P *ᵥ v) + F.P *ᵥ (fun i => F.D i * v i) := by
    rw [← mulVec_smul, ← mulVec_add]
    congr 1
    funext i
    rw [← hvi i]
    simp only [Pi.add_apply, Pi.smul_apply, smul_eq_mul]; ring
  have hDv : F.P *ᵥ (fun i => F.D i * F.gp p i) = -(F.P *ᵥ (fun i => F.D i * v i)) := by
    rw [hgp, ← mulVec_neg]; congr 1; funext i; simp
  have hsys : Bm gamma Psi M *ᵥ p + s • p = -g := by
    rw [B_mulVec h, hDv]
    have : gamma • p + -(F.P *ᵥ fun i => F.D i * v i) + s • p = (gamma + s) • p - F.P *ᵥ (fun i => F.D i * v i) := by module
    rw [this, hp]
    split_ifs with ht
    · have ht0 : gamma + s ≠ 0 := fun h0 => by rw [h0, abs_zero] at ht; exact absurd ht tol_pos.not_gt
      rw [smul_add, smul_smul, mul_one_div_cancel ht0, one_smul, hlin]; module
    · have ht0 : gamma + s = 0 := by
        have := hsep none; rw [hr.lam_none] at this; exact this.resolve_right ht
      have h0 := hzero none (by rw [hr.lam_none]; exact ht0)
      have hp0 := a_none_sq h hr.perp
      rw [h0, mul_zero, perp2_eq h] at hp0
      have hg : g = F.P *ᵥ F.gp g := sub_eq_zero.mp (dot_self_zero hp0.symm)
      rw [hg, hlin]; module
  refine ⟨hsys, ?_, hgp⟩
  have hpp : p - F.P *ᵥ F.gp p = if tol < |gamma + s| then (1 / (gamma + s)) • (F.P *ᵥ F.gp g - g) else 0 := by
    rw [hgp, mulVec_neg, hp]
    split_ifs <;> simp
  have hr2 : p ⬝ᵥ p = ∑ i, if tol < |F.a g i| ∧ tol < |F.lam gamma i + s| then F.a g i * F.a g i / (F.lam gamma i + s) / (F.lam gamma i + s) else 0 := by
    rw [split_dot h p, hpp, hgp, Fintype.sum_option, add_comm]
    congr 1
    · rw [hr.lam_none]
      split_ifs with h1 h2 h2
      · rw [a_none_sq h hr.perp, perp2_eq h, smul_dotProduct, dotProduct_smul, smul_eq_mul, smul_eq_mul,
          show F.P *ᵥ F.gp g - g = -(g - F.P *ᵥ F.gp g) by abel, neg_dotProduct, dotProduct_neg, neg_neg]
        field_simp
      · have := (ha none).resolve_right fun h3 => h2 ⟨h3, h1⟩
        have hp0 := a_none_sq h hr.perp
        rw [this, mul_zero, perp2_eq h] at hp0
        rw [smul_dotProduct, dotProduct_smul, show F.P *ᵥ F.gp g - g = -(g - F.P *ᵥ F.gp g) by abel, neg_dotProduct, dotProduct_neg, neg_neg, ← hp0]; simp
      · exact absurd h2.2 h1
      · simp
    · rw [neg_dotProduct, dotProduct_neg, neg_neg]
      simp only [dotProduct]
      refine Finset.sum_congr rfl fun i _ => ?_
      rw [hv]
      simp only
      split_ifs with h1 h2 h2
      · rw [div_mul_div_comm, div_div]
      · have := (ha (some i)).resolve_right fun h3 => h2 ⟨h3, h1⟩
        rw [this]; simp
      · exact absurd h2.2 h1
      · simp
  have hsum : 0 ≤ ∑ i, if tol < |F.a g i| ∧ tol < |F.lam gamma i + s| then F.a g i * F.a g i / (F.lam gamma i + s) / (F.lam gamma i + s) else 0 :=
    Finset.sum_nonneg fun i _ => by
      split_ifs
      · rw [div_div]; exact div_nonneg (mul_self_nonneg _) (mul_self_nonneg _)
      · exact le_rfl
  obtain ⟨i0, hi0⟩ := hatt
  unfold phiPos phi at hphi
  rw [if_pos ⟨i0, .inr (by rw [hi0, abs_zero]; exact tol_pos)⟩] at hphi
  have hno : ¬ ∃ i, tol < |F.a g i| ∧ |F.lam gamma i + s| < tol := by
    rintro ⟨i, h1, h2⟩
    rcases hsep i with h3 | h3
    · rw [hzero i h3, abs_zero] at h1; exact absurd h1 tol_pos.not_gt
    · exact absurd h2 h3.not_gt
  rw [if_neg hno, ← hr2] at hphi
  rw [← hr2] at hsum
  simp only at hphi
  by_cases hz : √(p ⬝ᵥ p) = 0
  · rw [Real.sqrt_eq_zero hsum] at hz
    rw [hz]; positivity
  · rw [if_neg hz] at hphi
    simp only at hphi
    have hpos : 0 < √(p ⬝ᵥ p) := lt_of_le_of_ne (Real.sqrt_nonneg _) (Ne.symm hz)
    have : √(p ⬝ᵥ p) < Delta := by
      have := sub_pos.mp hphi
      rwa [one_div_lt_one_div hD hpos] at this
    have := (Real.sqrt_lt' hD).mp this
    rw [sq] at this
    exact this.le

/-- **C85 (hard case).** In the hard case the step solves the subproblem when the approximation is singular but not indefinite, and when there is one stored pair whose eigenvalue is the smallest one.
Missing from the full property: all other hard cases, see `C85_fails_hard`, `C85_hard_undefined`. -/
theorem C85_hard_partial {F : Fac n k} {M : Matrix (Fin k) (Fin k) ℝ} {Psi : Matrix (Fin n) (Fin k) ℝ} (h : IsFac F M Psi) (hhr : Matrix (Fin k) (Fin k) ℝ → Fin k → ℝ) (epsM gamma Delta : ℝ)
    (hD : 0 < Delta) (g eta : Fin n → ℝ) (hr : Regular F gamma g) (hsep : ∀ i, F.lam gamma i - F.lmin gamma = 0 ∨ tol < |F.lam gamma i - F.lmin gamma|)
    (hcase : F.lmin gamma = 0 ∨ k = 1 ∧ ∀ i, F.D i + gamma = F.lmin gamma) (e : tcg epsM hhr F M Psi gamma Delta g = some (.negcurv, eta)) : Solves (Bm gamma Psi M) g Delta eta := by
  unfold tcg at e
  simp only at e
  split_ifs at e with h0 h1 h2
  · obtain ⟨e', he', hee⟩ := Option.map_eq_some_iff.mp e
    simp at hee
  · obtain ⟨e', he', hee⟩ := Option.map_eq_some_iff.mp e
    obtain rfl : e' = eta := by simpa using hee
    obtain ⟨i0, hi0⟩ := lmin_att F gamma
    obtain ⟨p1, p2, p3⟩ := hard_p h hD hr (-F.lmin gamma) ⟨i0, by rw [hi0]; ring⟩ (fun i => by rw [← sub_eq_add_neg]; exact hsep i) h2.2 _ rfl _ rfl
    have hs0 : 0 ≤ -F.lmin gamma := by linarith [h2.1]
    have hDs : ∀ i, 0 ≤ F.D i + (gamma + -F.lmin gamma) := fun i => by have := lmin_le F gamma (some i); rw [hr.lam_some] at this; linarith
    have hgs : 0 ≤ gamma + -F.lmin gamma := by have := lmin_le F gamma none; rw [hr.lam_none] at this; linarith
    unfold hard at he'
    simp only at he'
    split_ifs at he' with k0 l0 dn c1 c2
    · obtain rfl := Option.some.inj he'
      clear he' e hee
      subst c2
      set p := hardP F gamma g (F.lam gamma) (F.a g) (-F.lmin gamma) with hp
      have hlam0 : F.D 0 + gamma = F.lmin gamma := by
        rcases hcase with hc | hc
        · exact absurd hc l0.ne
        · exact hc.2 0
      have hunit : ∑ j, F.P j 0 * F.P j 0 = 1 := by
        have := congrFun (congrFun h.ptp 0) 0
        simpa [Matrix.mul_apply] using this
      have hcol : (fun j => F.P j 0) = F.P *ᵥ fun _ => 1 := by funext j; simp [mulVec, dotProduct]
      have hv0 : F.gp p 0 = 0 := by
        rw [p3, Pi.neg_apply, hr.lam_some, hlam0]
        simp [tol_pos.not_gt]
      have halpha : √(Delta * Delta - p ⬝ᵥ p) * √(Delta * Delta - p ⬝ᵥ p) = Delta * Delta - p ⬝ᵥ p := Real.mul_self_sqrt (not_lt.mp dn)
      set al := √(Delta * Delta - p ⬝ᵥ p) with hal
      have heta : (al / √(∑ j, F.P j ⟨0, by omega⟩ * F.P j ⟨0, by omega⟩)) • (fun j => F.P j ⟨0, by omega⟩) + p = al • (F.P *ᵥ fun _ => 1) + p := by
        have : (⟨0, by omega⟩ : Fin 1) = 0 := rfl
        rw [this, hunit, Real.sqrt_one, div_one, hcol]
      rw [heta]
      have hcp : p ⬝ᵥ (F.P *ᵥ fun _ => 1) = 0 := by rw [dot_P]; simp [dotProduct, hv0]
      have hcc : (F.P *ᵥ fun _ => (1 : ℝ)) ⬝ᵥ (F.P *ᵥ fun _ => 1) = 1 := by rw [dot_P, gp_P h]; simp [dotProduct]
      have hnorm : (al • (F.P *ᵥ fun _ => 1) + p) ⬝ᵥ (al • (F.P *ᵥ fun _ => 1) + p) = Delta * Delta := by
        simp only [add_dotProduct, dotProduct_add, smul_dotProduct, dotProduct_smul, smul_eq_mul, hcp, hcc, dotProduct_comm _ p]
        linear_combination halpha
      refine ⟨hnorm.le, fun q hq => ?_⟩
      refine global h gamma (-F.lmin gamma) g _ ?_ hDs hgs q (mul_le_mul_of_nonneg_left (by rw [hnorm]; exact hq) hs0)
      have : Bm gamma Psi M *ᵥ (F.P *ᵥ fun _ => 1) = (F.lmin gamma) • (F.P *ᵥ fun _ => 1) := by
        rw [B_mulVec h, gp_P h, ← mulVec_smul, ← mulVec_smul, ← mulVec_add]
        congr 1
        funext i
        have : i = 0 := Subsingleton.elim _ _
        subst this
        simp only [Pi.add_apply, Pi.smul_apply, smul_eq_mul, mul_one]
        linarith
      rw [mulVec_add, mulVec_smul, this, ← p1]
      module
    · exfalso
      apply c1
      rcases hcase with hc | hc
      · exact absurd hc l0.ne
      · refine ⟨⟨0, by omega⟩, rfl, ?_⟩
        rw [hr.lam_some, hc.2, sub_self, abs_zero]; exact tol_pos
    · obtain rfl := Option.some.inj he'
      refine ⟨p2, fun q hq => ?_⟩
      have : F.lmin gamma = 0 := le_antisymm h2.1 (not_lt.mp l0)
      exact global h gamma (-F.lmin gamma) g _ p1 hDs hgs q (by rw [this]; simp)
  · revert e
    cases newton epsM Delta (F.lam gamma) (F.a g) 10 (start Delta (F.lmin gamma) (F.lam gamma) (F.a g)) with
    | none => simp
    | some s => simp

/-- **C85 fails (undefined).** With two or more stored pairs, whenever the hard case arises for an indefinite approximation whose smallest eigenvalue comes first (the eigenvalues are sorted, so whenever
it is not `gamma`), the method combines arrays of different sizes. -/
theorem C85_hard_undefined (F : Fac n k) (M : Matrix (Fin k) (Fin k) ℝ) (Psi : Matrix (Fin n) (Fin k) ℝ) (hhr : Matrix (Fin k) (Fin k) ℝ → Fin k → ℝ) (epsM gamma Delta : ℝ) (g : Fin n → ℝ) (hk : 2 ≤ k)
    (hneg : F.lmin gamma < 0) (hfirst : F.lam gamma (some ⟨0, by omega⟩) = F.lmin gamma) (hphi : phiPos Delta (F.lam gamma) (F.a g) (-F.lmin gamma)) :
    tcg epsM hhr F M Psi gamma Delta g = none := by
  unfold tcg
  simp only
  split_ifs with h0 h1 h2
  · rfl
  · exact absurd h1.1 hneg.not_gt
  · rw [Option.map_eq_none_iff]
    unfold hard
    simp only
    rw [if_neg (by omega), if_pos hneg]
    split_ifs with d1 d2 d3
    · rfl
    · omega
    · rfl
    · exact absurd ⟨⟨0, by omega⟩, rfl, by rw [hfirst, sub_self, abs_zero]; exact tol_pos⟩ d2
  · exact absurd ⟨hneg.le, hphi⟩ h2

/-! ## Counterexamples -/

/-- Two variables, one stored pair: `Psi = e₁`, so that the approximation is `gamma I + D e₁ e₁ᵀ`. -/
def F1 (D : ℝ) : Fac 2 1 := ⟨!![1; 0], !![1], !![1], ![D]⟩

theorem F1_isFac {D : ℝ} (hD : D ≠ 0) : IsFac (F1 D) !![1 / D] !![1; 0] := by
  have hinv : (!![1 / D] : Matrix (Fin 1) (Fin 1) ℝ)⁻¹ = !![D] := by
    refine inv_eq_right_inv ?_
    ext i j; fin_cases i; fin_cases j; simp [Matrix.mul_apply, hD]
  refine ⟨?_, ?_, ?_, ?_, ?_⟩
  · ext i j; fin_cases i; fin_cases j; simp [F1, Matrix.mul_apply]
  · ext i j; fin_cases i <;> fin_cases j <;> simp [F1, Matrix.mul_apply]
  · ext i j; fin_cases i; fin_cases j; simp [F1, Matrix.mul_apply]
  · rw [hinv]; ext i j; fin_cases i; fin_cases j; simp [F1, Matrix.mul_apply, vecMul, dotProduct]
  · simp [hD]

theorem F1_B {D : ℝ} (hD : D ≠ 0) (gamma : ℝ) (x : Fin 2 → ℝ) : Bm gamma !![1; 0] !![1 / D] *ᵥ x = ![(gamma + D) * x 0, gamma * x 1] := by
  rw [B_mulVec (F1_isFac hD)]
  funext i
  fin_cases i
  · simp [F1, Fac.P, Fac.gp, mulVec, dotProduct]; ring
  · simp [F1, Fac.P, Fac.gp, mulVec, dotProduct]

theorem F1_P (D : ℝ) : (F1 D).P = !![1; 0] := by
  ext i j; fin_cases i <;> fin_cases j <;> simp [F1, Fac.P, Matrix.mul_apply]

theorem F1_gp (D : ℝ) (x : Fin 2 → ℝ) : (F1 D).gp x = ![x 0] := by
  funext i; fin_cases i; simp [Fac.gp, F1_P, mulVec, dotProduct]

theorem tol_lt_one : tol < 1 := by unfold tol; norm_num

theorem chop_big {x : ℝ} (h : 1 ≤ |x|) : chop x = x := chop_eq (.inr (tol_lt_one.trans_le h))

theorem F1_tcg (c : ℝ) (hc : c = 1 ∨ c = -1) (hhr : Matrix (Fin 1) (Fin 1) ℝ → Fin 1 → ℝ) (epsM : ℝ) :
    tcg epsM hhr (F1 2) !![1 / 2] !![1; 0] (-1) 1 ![c, 0] = some (.negcurv, ![√3 / 2 - c / 2, 0]) := by
  have hcc : c * c = 1 := by rcases hc with rfl | rfl <;> norm_num
  have hca : |c| = 1 := by rcases hc with rfl | rfl <;> norm_num
  have l0 : (F1 2).lam (-1) (some 0) = 1 := by
    simp only [Fac.lam, F1]; rw [show (![(2 : ℝ)] 0 + -1) = 1 by norm_num]; exact chop_big (by norm_num)
  have l1 : (F1 2).lam (-1) none = -1 := by simp only [Fac.lam]; exact chop_big (by norm_num)
  have a0 : (F1 2).a ![c, 0] (some 0) = c := by simp [Fac.a, F1_gp]
  have hp : (F1 2).perp2 ![c, 0] = 0 := by simp [Fac.perp2, F1_gp, dotProduct, Fin.sum_univ_two]
  have a1 : (F1 2).a ![c, 0] none = 0 := by simp [Fac.a, hp]
  have hl : (F1 2).lmin (-1) = -1 := by
    refine le_antisymm ((lmin_le _ _ none).trans l1.le) (Finset.le_inf' _ _ fun i _ => ?_)
    cases i with
    | none => exact l1.ge
    | some i => obtain rfl : i = 0 := Subsingleton.elim _ _; rw [l0]; norm_num
  have hphi : phiPos 1 ((F1 2).lam (-1)) ((F1 2).a ![c, 0]) 1 := by
    unfold phiPos phi
    rw [if_pos ⟨none, .inl (by rw [a1, abs_zero]; exact tol_pos)⟩, if_neg]
    · have hs : (∑ i, if tol < |(F1 2).a ![c, 0] i| ∧ tol < |(F1 2).lam (-1) i + 1| then (F1 2).a ![c, 0] i * (F1 2).a ![c, 0] i / ((F1 2).lam (-1) i + 1) / ((F1 2).lam (-1) i + 1) else 0) = 1 / 4 := by
        rw [Fintype.sum_option, Fin.sum_univ_one, a1, abs_zero, if_neg (fun h => tol_pos.not_gt h.1), a0, l0, hca,
          if_pos ⟨tol_lt_one, by norm_num; exact tol_lt_one.trans (by norm_num)⟩, hcc]
        norm_num
      simp only [hs]
      have : √(1 / 4 : ℝ) = 1 / 2 := by rw [show (1 / 4 : ℝ) = (1 / 2) * (1 / 2) by norm_num, Real.sqrt_mul_self (by norm_num)]
      rw [this, if_neg (by norm_num)]
      norm_num
    · rintro ⟨i, h1, h2⟩
      cases i with
      | none => rw [a1, abs_zero] at h1; exact tol_pos.not_gt h1
      | some i =>
        obtain rfl : i = 0 := Subsingleton.elim _ _
        rw [l0] at h2
        have := tol_lt_one
        rw [abs_of_pos (by norm_num)] at h2
        linarith
  have hP : hardP (F1 2) (-1) ![c, 0] ((F1 2).lam (-1)) ((F1 2).a ![c, 0]) 1 = ![-(c / 2), 0] := by
    unfold hardP
    simp only
    rw [if_neg (by rw [neg_add_cancel, abs_zero]; exact tol_pos.not_gt)]
    funext j
    have h2 : tol < |(1 : ℝ) + 1| := by rw [abs_of_pos (by norm_num)]; exact tol_lt_one.trans (by norm_num)
    fin_cases j
    · simp [F1_P, dotProduct, l0, a0, h2]; ring
    · simp [F1_P, dotProduct, l0, a0, h2]
  have hz : zdir (F1 2).P 0 = ![2, 0] := by
    funext j; fin_cases j <;> simp [zdir, F1_P, mulVec, dotProduct]; norm_num
  have hi : zidx (F1 2).P = some 0 := by
    simp [zidx, List.finRange_succ]
  unfold tcg
  simp only
  rw [hl, neg_neg, if_neg (by norm_num), if_neg (by rintro ⟨h, _⟩; norm_num at h), if_pos ⟨by norm_num, hphi⟩]
  unfold hard
  simp only
  rw [neg_neg, hP, if_neg (by norm_num), if_pos (by norm_num)]
  have hd : (1 : ℝ) * 1 - ![-(c / 2), 0] ⬝ᵥ ![-(c / 2), 0] = 3 / 4 := by
    simp [dotProduct, Fin.sum_univ_two]; linear_combination -1 / 4 * hcc
  rw [hd, if_neg (by norm_num), if_neg]
  · rw [hi]
    simp only [hz]
    have h4 : √(![2, 0] ⬝ᵥ ![(2 : ℝ), 0]) = 2 := by
      simp only [dotProduct, Fin.sum_univ_two, cons_val_zero, cons_val_one]
      rw [show (2 : ℝ) * 2 + 0 * 0 = 2 * 2 by norm_num, Real.sqrt_mul_self (by norm_num)]
    have h3 : √(3 / 4 : ℝ) = √3 / 2 := by
      rw [Real.sqrt_div (by norm_num), show (4 : ℝ) = 2 * 2 by norm_num, Real.sqrt_mul_self (by norm_num)]
    rw [h4, h3]
    simp only [Option.map_some, Option.some.injEq, Prod.mk.injEq, true_and]
    funext j; fin_cases j <;> simp; ring
  · rintro ⟨i, _, h⟩
    obtain rfl : i = 0 := Subsingleton.elim _ _
    rw [l0] at h
    have := tol_lt_one
    rw [abs_of_neg (by norm_num)] at h
    linarith

theorem sqrt3 : 1 < √3 := by
  rw [Real.lt_sqrt (by norm_num)]; norm_num

/-- **C85 fails (hard case, uphill).** Approximation `diag(1, -1)`, gradient `e₁`, radius one: the step the method returns in the hard case has a larger model value than staying at the current iterate.
Its direction of negative curvature is `(I + P Pᵀ) e₁` instead of `(I - P Pᵀ) eᵢ`. -/
theorem C85_fails_hard (hhr : Matrix (Fin 1) (Fin 1) ℝ → Fin 1 → ℝ) (epsM : ℝ) :
    IsFac (F1 2) !![1 / 2] !![1; 0] ∧ ∃ eta, tcg epsM hhr (F1 2) !![1 / 2] !![1; 0] (-1) 1 ![1, 0] = some (.negcurv, eta) ∧
      model (Bm (-1) !![1; 0] !![1 / 2]) ![1, 0] 0 < model (Bm (-1) !![1; 0] !![1 / 2]) ![1, 0] eta ∧ ¬ Solves (Bm (-1) !![1; 0] !![1 / 2]) ![1, 0] 1 eta := by
  have hlt : model (Bm (-1) !![1; 0] !![1 / 2]) ![1, 0] 0 < model (Bm (-1) !![1; 0] !![1 / 2]) ![1, 0] ![√3 / 2 - 1 / 2, 0] := by
    unfold model
    rw [F1_B two_ne_zero, F1_B two_ne_zero]
    simp only [dotProduct, Fin.sum_univ_two, cons_val_zero, cons_val_one, Pi.zero_apply, mul_zero, zero_mul, add_zero]
    nlinarith [sqrt3]
  refine ⟨F1_isFac two_ne_zero, _, F1_tcg 1 (.inl rfl) hhr epsM, hlt, fun h => ?_⟩
  exact absurd (h.2 0 (by simp)) hlt.not_ge

/-- **C85 fails (hard case, outside).** With the opposite gradient the step is longer than the radius of the region. -/
theorem C85_fails_hard_long (hhr : Matrix (Fin 1) (Fin 1) ℝ → Fin 1 → ℝ) (epsM : ℝ) :
    IsFac (F1 2) !![1 / 2] !![1; 0] ∧ ∃ eta, tcg epsM hhr (F1 2) !![1 / 2] !![1; 0] (-1) 1 ![-1, 0] = some (.negcurv, eta) ∧ 1 < √(eta ⬝ᵥ eta) := by
  refine ⟨F1_isFac two_ne_zero, _, F1_tcg (-1) (.inr rfl) hhr epsM, ?_⟩
  rw [Real.lt_sqrt (by norm_num)]
  simp only [dotProduct, Fin.sum_univ_two, cons_val_zero, cons_val_one]
  nlinarith [sqrt3]

/-- One variable, nothing stored. -/
def F0 : Fac 1 0 := ⟨0, 0, 0, 0⟩

/-- **C85 fails (interior steps, outside).** One variable, no stored pair, `gamma = 10⁻⁶`, gradient `5 · 10⁻⁶`, radius one: the method reports an interior minimum and returns a step of length five. Gradients
shorter than `10⁻⁵` are treated as zero when the length of the step is tested. -/
theorem C85_fails_interior (hhr : Matrix (Fin 0) (Fin 0) ℝ → Fin 0 → ℝ) (epsM : ℝ) :
    IsFac F0 0 0 ∧ tcg epsM hhr F0 0 0 (1 / 10 ^ 6) 1 ![5 / 10 ^ 6] = some (.min, ![-5]) := by
  refine ⟨⟨by ext i; exact i.elim0, by ext i j; exact j.elim0, by ext i; exact i.elim0, by ext i; exact i.elim0, by simp⟩, ?_⟩
  have l1 : F0.lam (1 / 10 ^ 6) none = 1 / 10 ^ 6 := by
    simp only [Fac.lam]; refine chop_eq (.inr ?_); unfold tol; rw [abs_of_pos (by norm_num)]; norm_num
  have hl : F0.lmin (1 / 10 ^ 6) = 1 / 10 ^ 6 := by
    obtain ⟨i, hi⟩ := lmin_att F0 (1 / 10 ^ 6)
    cases i with
    | none => rw [← hi, l1]
    | some i => exact i.elim0
  have hp : F0.perp2 ![5 / 10 ^ 6] = 25 / 10 ^ 12 := by simp [Fac.perp2, dotProduct]; norm_num
  have a1 : F0.a ![5 / 10 ^ 6] none = 0 := by
    simp only [Fac.a, hp]
    rw [if_pos]
    rw [Real.mul_self_sqrt (by norm_num)]; unfold tol; norm_num
  have ht : tmpv (F0.lam (1 / 10 ^ 6)) (F0.a ![5 / 10 ^ 6]) = 0 := by
    unfold tmpv
    rw [Fintype.sum_option, a1]
    simp
  unfold tcg
  simp only
  rw [hl, ht, if_neg (by norm_num), if_pos ⟨by norm_num, by norm_num⟩]
  unfold smw
  rw [if_neg (by norm_num), if_pos (.inl fun i => i.elim0)]
  simp only [Option.map_some, Option.some.injEq, Prod.mk.injEq, true_and]
  funext j; fin_cases j; norm_num

/-! ## Cases meeting the hypotheses -/

theorem newton_total (epsM Delta : ℝ) (hD : 0 < Delta) (lam a : Option (Fin k) → ℝ) (ha : ∀ i, a i = 0 ∨ tol < |a i|) (N : ℕ) : ∀ (x : ℝ), (∀ i, tol < lam i + x) →
    Delta * Delta ≤ nrm2 lam a x → ∃ s, newton epsM Delta lam a N x = some s := by
  induction N with
  | zero => intro x _ _; exact ⟨x, rfl⟩
  | succ N ih =>
    intro x hx h
    have hW : 0 < nrm2 lam a x := lt_of_lt_of_le (by positivity) h
    have hr0 : 0 < √(nrm2 lam a x) := Real.sqrt_pos.mpr hW
    have hc : 0 < cub lam a x := by
      have hterm : ∀ i, 0 ≤ a i * a i / (lam i + x) / (lam i + x) / (lam i + x) := fun i => by
        have := tol_pos.trans (hx i); have := mul_self_nonneg (a i); positivity
      obtain ⟨i, -, hi⟩ := Finset.exists_ne_zero_of_sum_ne_zero hW.ne'
      have hi' : a i * a i / (lam i + x) / (lam i + x) / (lam i + x) ≠ 0 := div_ne_zero hi (tol_pos.trans (hx i)).ne'
      exact lt_of_lt_of_le (lt_of_le_of_ne (hterm i) (Ne.symm hi')) (Finset.single_le_sum (f := fun i => a i * a i / (lam i + x) / (lam i + x) / (lam i + x)) (fun j _ => hterm j) (Finset.mem_univ i))
    by_cases h1 : |1 / √(nrm2 lam a x) - 1 / Delta| ≤ epsM
    · exact ⟨x, by rw [newton, phi_eq Delta lam a x ha hx hW.ne']; simp only; rw [if_pos h1]⟩
    · have hg : cub lam a x / √(nrm2 lam a x) / √(nrm2 lam a x) / √(nrm2 lam a x) ≠ 0 := by positivity
      have e : ∀ m, newton epsM Delta lam a (m + 1) x =
          newton epsM Delta lam a m (x - (1 / √(nrm2 lam a x) - 1 / Delta) / (cub lam a x / √(nrm2 lam a x) / √(nrm2 lam a x) / √(nrm2 lam a x))) := by
        intro m
        rw [newton, phi_eq Delta lam a x ha hx hW.ne']; simp only; rw [if_neg h1, if_neg hg]
      obtain ⟨l1, l2⟩ := newton_left epsM Delta hD lam a ha 1 x _ hx h (e 0)
      rw [e]
      exact ih _ (fun i => lt_of_lt_of_le (hx i) (by linarith)) l2

/-- The triangular factor of a matrix with one entry. -/
def hhr1 (A : Matrix (Fin 1) (Fin 1) ℝ) (_ : Fin 1) : ℝ := A 0 0

/-- Interior step: approximation `diag(2, 1)`, gradient `(1, 1)`, radius two. -/
example : IsFac (F1 1) !![1 / 1] !![1; 0] ∧ IsHHR hhr1 ∧ ¬ Deficient (1 / 1000) (hhr1 (vw (F1 1) !![1 / 1] 1)) ∧
    ∃ eta, tcg (1 / 1000) hhr1 (F1 1) !![1 / 1] !![1; 0] 1 2 ![1, 1] = some (.min, eta) := by
  have hvw : ∀ i, hhr1 (vw (F1 1) !![1 / 1] 1) i = 2 := fun i => by simp [hhr1, vw, F1, Matrix.mul_apply]; norm_num
  have hdef : ¬ Deficient (1 / 1000) (hhr1 (vw (F1 1) !![1 / 1] 1)) := by
    rintro (h | ⟨i, j, _, h⟩)
    · have := h 0; rw [hvw] at this; norm_num at this
    · rw [hvw, hvw] at h; norm_num at h
  refine ⟨F1_isFac one_ne_zero, fun A => by simp [hhr1], hdef, ?_⟩
  have l0 : (F1 1).lam 1 (some 0) = 2 := by
    simp only [Fac.lam, F1]; rw [show (![(1 : ℝ)] 0 + 1) = 2 by norm_num]; exact chop_big (by norm_num)
  have l1 : (F1 1).lam 1 none = 1 := by simp only [Fac.lam]; exact chop_big (by norm_num)
  have a0 : (F1 1).a ![1, 1] (some 0) = 1 := by simp [Fac.a, F1_gp]
  have hp : (F1 1).perp2 ![1, 1] = 1 := by simp [Fac.perp2, F1_gp, dotProduct]
  have a1 : (F1 1).a ![1, 1] none = 1 := by simp [Fac.a, hp, tol_lt_one.le]
  have hl : 0 < (F1 1).lmin 1 := by
    refine (Finset.lt_inf'_iff _).mpr fun i _ => ?_
    cases i with
    | none => rw [l1]; norm_num
    | some i => obtain rfl : i = 0 := Subsingleton.elim _ _; rw [l0]; norm_num
  have ht : tmpv ((F1 1).lam 1) ((F1 1).a ![1, 1]) ≤ 2 := by
    unfold tmpv
    rw [Real.sqrt_le_left (by norm_num), Fintype.sum_option, Fin.sum_univ_one, a0, a1, l0, l1]; norm_num
  unfold tcg
  simp only
  rw [if_neg (by norm_num), if_pos ⟨hl, ht⟩]
  unfold smw
  rw [if_neg one_ne_zero, if_neg hdef]
  exact ⟨_, rfl⟩

/-- Boundary step: one variable, nothing stored, `gamma = 1`, gradient one, radius one half. -/
example (hhr : Matrix (Fin 0) (Fin 0) ℝ → Fin 0 → ℝ) : IsFac F0 0 0 ∧ Regular F0 1 ![1] ∧ (∀ i, tol < F0.lam 1 i + start (1 / 2) (F0.lmin 1) (F0.lam 1) (F0.a ![1])) ∧
    ∃ eta, tcg (1 / 1000) hhr F0 0 0 1 (1 / 2) ![1] = some (.exc, eta) := by
  have l1 : F0.lam 1 none = 1 := by simp only [Fac.lam]; exact chop_big (by norm_num)
  have hl : F0.lmin 1 = 1 := by
    obtain ⟨i, hi⟩ := lmin_att F0 1
    cases i with
    | none => rw [← hi, l1]
    | some i => exact i.elim0
  have hp : F0.perp2 ![1] = 1 := by simp [Fac.perp2, dotProduct]
  have a1 : F0.a ![1] none = 1 := by simp [Fac.a, hp, tol_lt_one.le]
  have hst : start (1 / 2) (F0.lmin 1) (F0.lam 1) (F0.a ![1]) = 0 := by unfold start; rw [hl, if_pos one_pos]
  have hfac : IsFac F0 0 0 := ⟨by ext i; exact i.elim0, by ext i j; exact j.elim0, by ext i; exact i.elim0, by ext i; exact i.elim0, by simp⟩
  have hreg : Regular F0 1 ![1] := ⟨fun i => i.elim0, .inr (by rw [abs_one]; exact tol_lt_one), fun i => i.elim0, .inr (by rw [hp]; exact tol_lt_one.le)⟩
  have hgap : ∀ i, tol < F0.lam 1 i + start (1 / 2) (F0.lmin 1) (F0.lam 1) (F0.a ![1]) := by
    intro i
    rw [hst]
    cases i with
    | none => rw [l1, add_zero]; exact tol_lt_one
    | some i => exact i.elim0
  have ht : tmpv (F0.lam 1) (F0.a ![1]) = 1 := by
    unfold tmpv; rw [Fintype.sum_option, a1, l1]; simp
  have hA : ¬ (0 < F0.lmin 1 ∧ tmpv (F0.lam 1) (F0.a ![1]) ≤ 1 / 2) := by rw [ht]; norm_num
  obtain ⟨st0, st1⟩ := start_left (by norm_num : (0 : ℝ) < 1 / 2) (lmin_le F0 1) (lmin_att F0 1) hA hgap
  obtain ⟨s, hs⟩ := newton_total (1 / 1000) (1 / 2) (by norm_num) _ _ (fun i => a_reg hfac hreg i) 10 _ hgap st1
  have hs0 := (newton_left (1 / 1000) (1 / 2) (by norm_num) _ _ (fun i => a_reg hfac hreg i) 10 _ _ hgap st1 hs).1
  refine ⟨hfac, hreg, hgap, ?_⟩
  unfold tcg
  simp only
  rw [if_neg (by norm_num), if_neg hA, if_neg (by rw [hl]; norm_num), hs]
  simp only
  unfold smw
  rw [if_neg (by linarith), if_pos (.inl fun i => i.elim0)]
  exact ⟨_, rfl⟩

/-- Hard case: approximation `diag(-1, 1)`, gradient `e₂`, radius one, one stored pair. -/
example (hhr : Matrix (Fin 1) (Fin 1) ℝ → Fin 1 → ℝ) (epsM : ℝ) : IsFac (F1 (-2)) !![1 / (-2)] !![1; 0] ∧ Regular (F1 (-2)) 1 ![0, 1] ∧
    (∀ i, (F1 (-2)).lam 1 i - (F1 (-2)).lmin 1 = 0 ∨ tol < |(F1 (-2)).lam 1 i - (F1 (-2)).lmin 1|) ∧ (∀ i, (F1 (-2)).D i + 1 = (F1 (-2)).lmin 1) ∧
    ∃ eta, tcg epsM hhr (F1 (-2)) !![1 / (-2)] !![1; 0] 1 1 ![0, 1] = some (.negcurv, eta) := by
  have hp : (F1 (-2)).perp2 ![0, 1] = 1 := by simp [Fac.perp2, F1_gp, dotProduct]
  have hreg : Regular (F1 (-2)) 1 ![0, 1] := by
    refine ⟨fun i => .inr ?_, .inr (by rw [abs_one]; exact tol_lt_one), fun i => .inl ?_, .inr (by rw [hp]; exact tol_lt_one.le)⟩
    · obtain rfl : i = 0 := Subsingleton.elim _ _
      simp only [F1, cons_val_fin_one]; rw [abs_of_neg (by norm_num)]; norm_num; exact tol_lt_one
    · obtain rfl : i = 0 := Subsingleton.elim _ _
      simp [F1_gp]
  have l0 : (F1 (-2)).lam 1 (some 0) = -1 := by rw [hreg.lam_some]; simp [F1]; norm_num
  have l1 : (F1 (-2)).lam 1 none = 1 := hreg.lam_none
  have a0 : (F1 (-2)).a ![0, 1] (some 0) = 0 := by simp [Fac.a, F1_gp]
  have a1 : (F1 (-2)).a ![0, 1] none = 1 := by simp [Fac.a, hp, tol_lt_one.le]
  have hl : (F1 (-2)).lmin 1 = -1 := by
    refine le_antisymm ((lmin_le _ _ (some 0)).trans l0.le) (Finset.le_inf' _ _ fun i _ => ?_)
    cases i with
    | none => rw [l1]; norm_num
    | some i => obtain rfl : i = 0 := Subsingleton.elim _ _; exact l0.ge
  have hphi : phiPos 1 ((F1 (-2)).lam 1) ((F1 (-2)).a ![0, 1]) 1 := by
    unfold phiPos phi
    rw [if_pos ⟨some 0, .inl (by rw [a0, abs_zero]; exact tol_pos)⟩, if_neg]
    · have hs : (∑ i, if tol < |(F1 (-2)).a ![0, 1] i| ∧ tol < |(F1 (-2)).lam 1 i + 1| then (F1 (-2)).a ![0, 1] i * (F1 (-2)).a ![0, 1] i / ((F1 (-2)).lam 1 i + 1) / ((F1 (-2)).lam 1 i + 1) else 0) = 1 / 4 := by
        rw [Fintype.sum_option, Fin.sum_univ_one, a0, abs_zero, if_neg (fun h => tol_pos.not_gt h.1) (c := tol < 0 ∧ _), a1, l1, abs_one,
          if_pos ⟨tol_lt_one, by norm_num; exact tol_lt_one.trans (by norm_num)⟩]
        norm_num
      simp only [hs]
      have : √(1 / 4 : ℝ) = 1 / 2 := by rw [show (1 / 4 : ℝ) = (1 / 2) * (1 / 2) by norm_num, Real.sqrt_mul_self (by norm_num)]
      rw [this, if_neg (by norm_num)]
      norm_num
    · rintro ⟨i, h1, h2⟩
      cases i with
      | none =>
        rw [l1] at h2
        have := tol_lt_one
        rw [abs_of_pos (by norm_num)] at h2
        linarith
      | some i => obtain rfl : i = 0 := Subsingleton.elim _ _; rw [a0, abs_zero] at h1; exact tol_pos.not_gt h1
  have hsep : ∀ i, (F1 (-2)).lam 1 i - (F1 (-2)).lmin 1 = 0 ∨ tol < |(F1 (-2)).lam 1 i - (F1 (-2)).lmin 1| := by
    intro i
    rw [hl]
    cases i with
    | none => right; rw [l1]; norm_num; exact tol_lt_one.trans (by norm_num)
    | some i => left; obtain rfl : i = 0 := Subsingleton.elim _ _; rw [l0]; norm_num
  have hfac := F1_isFac (show (-2 : ℝ) ≠ 0 by norm_num)
  refine ⟨hfac, hreg, hsep, fun i => ?_, ?_⟩
  · obtain rfl : i = 0 := Subsingleton.elim _ _
    rw [← hreg.lam_some, l0, hl]
  obtain ⟨_, p2, _⟩ := hard_p hfac one_pos hreg 1 ⟨some 0, by rw [l0]; norm_num⟩ (fun i => by have := hsep i; rwa [hl, sub_neg_eq_add] at this) hphi _ rfl _ rfl
  unfold tcg
  simp only
  rw [hl, neg_neg, if_neg (by norm_num), if_neg (by rintro ⟨h, _⟩; norm_num at h), if_pos ⟨by norm_num, hphi⟩]
  unfold hard
  simp only
  rw [neg_neg, if_neg (by norm_num), if_pos (by norm_num), if_neg (by linarith), if_pos ⟨0, rfl, by rw [l0, sub_self, abs_zero]; exact tol_pos⟩]
  simp

end Verif.LSR1
