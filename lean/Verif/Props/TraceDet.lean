import Verif.Props.QuasiNewton
import Mathlib.LinearAlgebra.Transvection.Basic
import Mathlib.Analysis.InnerProductSpace.Trace
import Mathlib.Analysis.SpecialFunctions.Log.Basic
import Mathlib.Analysis.Complex.ExponentialBounds

/-!
# Trace and determinant of BFGS operators

Helper lemmas for C114: the function "trace of the inverse plus logarithm of the determinant" of an operator, how the BFGS update changes it, and how it bounds the operator.
-/

set_option linter.unusedSectionVars false
set_option linter.unusedVariables false

namespace Verif.QN

open scoped RealInnerProductSpace

variable {E : Type*} [NormedAddCommGroup E] [InnerProductSpace ℝ E] [FiniteDimensional ℝ E]

/-- A positive definite operator and its inverse. -/
structure InvPair (H B : E →ₗ[ℝ] E) : Prop where
  spd : IsSPD H
  left : ∀ v, B (H v) = v
  right : ∀ v, H (B v) = v

/-- Trace of the inverse plus logarithm of the determinant. -/
noncomputable def pot (H B : E →ₗ[ℝ] E) : ℝ := LinearMap.trace ℝ E B + Real.log (LinearMap.det H)

theorem InvPair.spdB {H B : E →ₗ[ℝ] E} (h : InvPair H B) : IsSPD B := by
  constructor
  · intro u v
    have := h.spd.1 (B u) (B v)
    rw [h.right, h.right] at this
    exact this.symm
  · intro v hv
    have h0 : B v ≠ 0 := fun h0 => hv (by rw [← h.right v, h0, map_zero])
    have := h.spd.2 _ h0
    rwa [h.right, real_inner_comm] at this

theorem IsSPD.det_pos {B : E →ₗ[ℝ] E} (h : IsSPD B) : 0 < LinearMap.det B := by
  have hs : B.IsSymmetric := fun u v => h.1 u v
  rw [hs.det_eq_prod_eigenvalues rfl]
  refine Finset.prod_pos fun i _ => ?_
  have hne : hs.eigenvectorBasis rfl i ≠ 0 := by
    intro h0
    have := (hs.eigenvectorBasis rfl).norm_eq_one i
    rw [h0, norm_zero] at this
    exact zero_ne_one this
  have h1 := h.2 _ hne
  rw [hs.apply_eigenvectorBasis, inner_smul_left, real_inner_self_eq_norm_sq, (hs.eigenvectorBasis rfl).norm_eq_one] at h1
  simpa using h1

theorem InvPair.det_mul {H B : E →ₗ[ℝ] E} (h : InvPair H B) : LinearMap.det B * LinearMap.det H = 1 := by
  rw [← LinearMap.det_comp]
  have : B ∘ₗ H = LinearMap.id := LinearMap.ext h.left
  rw [this, LinearMap.det_id]

theorem sub_log_ge {x : ℝ} (hx : 0 < x) : 1 ≤ x - Real.log x := by
  have := Real.log_le_sub_one_of_pos hx
  linarith

theorem half_le_sub_log {x : ℝ} (hx : 0 < x) : x / 2 ≤ x - Real.log x := by
  have h := Real.log_le_sub_one_of_pos (half_pos hx)
  rw [Real.log_div hx.ne' two_ne_zero] at h
  have := Real.log_two_lt_d9
  linarith

/-- The function in terms of the eigenvalues of the inverse. -/
theorem InvPair.pot_eq {H B : E →ₗ[ℝ] E} (h : InvPair H B) :
    ∃ (b : OrthonormalBasis (Fin (Module.finrank ℝ E)) ℝ E) (l : Fin (Module.finrank ℝ E) → ℝ), (∀ i, B (b i) = l i • b i) ∧ (∀ i, 0 < l i) ∧
      pot H B = ∑ i, (l i - Real.log (l i)) := by
  have hs : B.IsSymmetric := fun u v => h.spdB.1 u v
  have hpos : ∀ i, 0 < hs.eigenvalues rfl i := by
    intro i
    have hne : hs.eigenvectorBasis rfl i ≠ 0 := by
      intro h0
      have := (hs.eigenvectorBasis rfl).norm_eq_one i
      rw [h0, norm_zero] at this
      exact zero_ne_one this
    have h1 := h.spdB.2 _ hne
    rw [hs.apply_eigenvectorBasis, inner_smul_left, real_inner_self_eq_norm_sq, (hs.eigenvectorBasis rfl).norm_eq_one] at h1
    simpa using h1
  refine ⟨hs.eigenvectorBasis rfl, hs.eigenvalues rfl, fun i => hs.apply_eigenvectorBasis rfl i, hpos, ?_⟩
  have hd : Real.log (LinearMap.det H) = -Real.log (LinearMap.det B) := by
    have : LinearMap.det H = (LinearMap.det B)⁻¹ := eq_inv_of_mul_eq_one_right h.det_mul
    rw [this, Real.log_inv]
  rw [pot, hd, hs.trace_eq_sum_eigenvalues, hs.det_eq_prod_eigenvalues rfl]
  have hl : Real.log (∏ i, hs.eigenvalues rfl i) = ∑ i, Real.log (hs.eigenvalues rfl i) := Real.log_prod (fun i _ => (hpos i).ne')
  rw [Finset.sum_sub_distrib, ← hl, sub_eq_add_neg]
  rfl

theorem InvPair.pot_nonneg {H B : E →ₗ[ℝ] E} (h : InvPair H B) : 0 ≤ pot H B := by
  obtain ⟨b, l, -, hl, e⟩ := h.pot_eq
  rw [e]
  exact Finset.sum_nonneg fun i _ => zero_le_one.trans (sub_log_ge (hl i))

/-- The function bounds the quadratic form of the inverse from both sides. -/
theorem InvPair.bounds {H B : E →ₗ[ℝ] E} (h : InvPair H B) {Φ : ℝ} (hΦ : pot H B ≤ Φ) (v : E) :
    Real.exp (-Φ) * ‖v‖ ^ 2 ≤ ⟪B v, v⟫ ∧ ⟪B v, v⟫ ≤ 2 * Φ * ‖v‖ ^ 2 := by
  obtain ⟨b, l, hb, hl, e⟩ := h.pot_eq
  have hone : ∀ i, l i - Real.log (l i) ≤ Φ := by
    intro i
    have h1 : l i - Real.log (l i) ≤ ∑ j, (l j - Real.log (l j)) :=
      Finset.single_le_sum (f := fun j => l j - Real.log (l j)) (fun j _ => zero_le_one.trans (sub_log_ge (hl j))) (Finset.mem_univ i)
    linarith
  have hlo : ∀ i, Real.exp (-Φ) ≤ l i := by
    intro i
    rw [← Real.exp_log (hl i)]
    apply Real.exp_le_exp.mpr
    linarith [hone i, hl i]
  have hhi : ∀ i, l i ≤ 2 * Φ := by
    intro i
    linarith [hone i, half_le_sub_log (hl i)]
  have hv : ⟪B v, v⟫ = ∑ i, l i * ⟪b i, v⟫ ^ 2 := by
    rw [← b.sum_inner_mul_inner (B v) v]
    refine Finset.sum_congr rfl fun i _ => ?_
    rw [h.spdB.1, hb, inner_smul_right, real_inner_comm]
    ring
  have hn : ‖v‖ ^ 2 = ∑ i, ⟪b i, v⟫ ^ 2 := by
    rw [← real_inner_self_eq_norm_sq, ← b.sum_inner_mul_inner v v]
    refine Finset.sum_congr rfl fun i _ => ?_
    rw [real_inner_comm]; ring
  rw [hv, hn, Finset.mul_sum, Finset.mul_sum]
  exact ⟨Finset.sum_le_sum fun i _ => mul_le_mul_of_nonneg_right (hlo i) (sq_nonneg _), Finset.sum_le_sum fun i _ => mul_le_mul_of_nonneg_right (hhi i) (sq_nonneg _)⟩

/-! ## How the operations of the solver change it -/

theorem InvPair.tran {H B : E →ₗ[ℝ] E} (h : InvPair H B) (T : E ≃ₗᵢ[ℝ] E) : InvPair (tranH T H) (tranH T B) where
  spd := tranH_spd h.spd
  left v := by rw [tranH_apply, tranH_apply, T.symm_apply_apply, h.left, T.apply_symm_apply]
  right v := by rw [tranH_apply, tranH_apply, T.symm_apply_apply, h.right, T.apply_symm_apply]

theorem pot_tran (H B : E →ₗ[ℝ] E) (T : E ≃ₗᵢ[ℝ] E) : pot (tranH T H) (tranH T B) = pot H B := by
  unfold pot
  congr 1
  · exact LinearMap.trace_conj' B T.toLinearEquiv
  · congr 1
    exact LinearMap.det_conj H T.toLinearEquiv

theorem invPair_scaled {c : ℝ} (hc : 0 < c) : InvPair (c • LinearMap.id : E →ₗ[ℝ] E) ((1 / c) • LinearMap.id) where
  spd := scaledId_spd hc
  left v := by simp [smul_smul, hc.ne']
  right v := by simp [smul_smul, hc.ne']

theorem pot_scaled {c : ℝ} (hc : 0 < c) : pot (c • LinearMap.id : E →ₗ[ℝ] E) ((1 / c) • LinearMap.id) = Module.finrank ℝ E * (1 / c + Real.log c) := by
  unfold pot
  rw [map_smul, LinearMap.trace_id, LinearMap.det_smul, LinearMap.det_id, mul_one, Real.log_pow]
  simp only [smul_eq_mul]
  ring

/-- The inverse of the BFGS update. -/
noncomputable def bfgsInv (B : E →ₗ[ℝ] E) (s y : E) : E →ₗ[ℝ] E := addRank1 (addRank1 B (-1 / ⟪B s, s⟫) (B s) (B s)) (1 / ⟪s, y⟫) y y

theorem InvPair.bfgs {H B : E →ₗ[ℝ] E} (h : InvPair H B) {s y : E} (hsy : 0 < ⟪s, y⟫) : InvPair (bfgsThree H s y ⟪s, y⟫) (bfgsInv B s y) := by
  have hs0 : s ≠ 0 := by rintro rfl; simp at hsy
  have hBs : 0 < ⟪B s, s⟫ := h.spdB.2 s hs0
  have hspd := C23_bfgs_update_spd h.spd hsy
  have happ : ∀ v, bfgsInv B s y v = B v + (-1 / ⟪B s, s⟫ * ⟪B s, v⟫) • B s + (1 / ⟪s, y⟫ * ⟪y, v⟫) • y := by
    intro v; rw [bfgsInv, addRank1_apply, addRank1_apply]
  have hleft : ∀ v, bfgsInv B s y (bfgsThree H s y ⟪s, y⟫ v) = v := by
    intro v
    have hsec : bfgsInv B s y s = y := by
      rw [happ, show -1 / ⟪B s, s⟫ * ⟪B s, s⟫ = -1 by field_simp, real_inner_comm s y, show 1 / ⟪s, y⟫ * ⟪s, y⟫ = 1 by field_simp]
      module
    rw [C23_bfgs_formula h.spd.1]
    set w := v - (1 / ⟪s, y⟫ * ⟪s, v⟫) • y with hw
    have hsw : ⟪s, w⟫ = 0 := by
      rw [hw, inner_sub_right, inner_smul_right]; field_simp; ring
    have hHw : bfgsInv B s y (H w) = w + (1 / ⟪s, y⟫ * ⟪y, H w⟫) • y := by
      rw [happ, h.left, h.spdB.1 s (H w), h.left, hsw]
      simp
    simp only
    rw [map_add, map_sub, map_smul, map_smul, hsec, hHw, hw]
    module
  refine ⟨hspd, hleft, ?_⟩
  have hc : bfgsInv B s y * bfgsThree H s y ⟪s, y⟫ = 1 := LinearMap.ext hleft
  rw [mul_eq_one_comm] at hc
  intro v
  exact LinearMap.congr_fun hc v

theorem trace_addRank1 (H : E →ₗ[ℝ] E) (c : ℝ) (a b : E) : LinearMap.trace ℝ E (addRank1 H c a b) = LinearMap.trace ℝ E H + c * ⟪b, a⟫ := by
  rw [addRank1, map_add, map_smul, LinearMap.trace_smulRight]; rfl

theorem InvPair.bfgs_det {H B : E →ₗ[ℝ] E} (h : InvPair H B) {s y : E} (hsy : 0 < ⟪s, y⟫) :
    LinearMap.det (bfgsThree H s y ⟪s, y⟫) = LinearMap.det H * (⟪B s, s⟫ / ⟪s, y⟫) := by
  have hs0 : s ≠ 0 := by rintro rfl; simp at hsy
  have hBs : 0 < ⟪B s, s⟫ := h.spdB.2 s hs0
  set θ := 1 / √(⟪s, y⟫ * ⟪B s, s⟫) with hθ
  have hθ2 : θ ^ 2 = 1 / (⟪s, y⟫ * ⟪B s, s⟫) := by
    rw [hθ, div_pow, one_pow, Real.sq_sqrt (by positivity)]
  set p := (-(1 / ⟪s, y⟫)) • y + θ • B s with hp
  have hps : ⟪p, s⟫ = -1 + θ * ⟪B s, s⟫ := by
    rw [hp, inner_add_left, inner_smul_left, inner_smul_left, real_inner_comm s y]
    simp only [conj_trivial]
    have : 1 / ⟪s, y⟫ * ⟪s, y⟫ = 1 := by field_simp
    linarith
  have hfac : bfgsThree H s y ⟪s, y⟫ = LinearMap.transvection (innerₗ E p) s ∘ₗ H ∘ₗ LinearMap.transvection (innerₗ E s) p := by
    ext v
    rw [C23_bfgs_formula h.spd.1]
    simp only [LinearMap.comp_apply, LinearMap.transvection.apply, innerₗ_apply_apply, map_add, map_smul]
    have hHp : H p = (-(1 / ⟪s, y⟫)) • H y + θ • s := by rw [hp, map_add, map_smul, map_smul, h.right]
    have hpv : ∀ u, ⟪p, H u⟫ = -(1 / ⟪s, y⟫) * ⟪y, H u⟫ + θ * ⟪s, u⟫ := by
      intro u
      rw [hp, inner_add_left, inner_smul_left, inner_smul_left, h.spdB.1 s (H u), h.left]
      simp
    have hpp : ⟪p, H p⟫ = 1 / ⟪s, y⟫ ^ 2 * ⟪y, H y⟫ - 2 * θ + 1 / ⟪s, y⟫ := by
      have e1 : ⟪s, p⟫ = -1 + θ * ⟪B s, s⟫ := by rw [real_inner_comm]; exact hps
      have e2 : ⟪y, H p⟫ = -(1 / ⟪s, y⟫) * ⟪y, H y⟫ + θ * ⟪s, y⟫ := by
        rw [hHp, inner_add_right, inner_smul_right, inner_smul_right, real_inner_comm s y]
      rw [hpv, e1, e2]
      have e3 : θ * (θ * ⟪B s, s⟫) = 1 / ⟪s, y⟫ := by
        rw [← mul_assoc, ← pow_two, hθ2]; field_simp
      have e4 : -(1 / ⟪s, y⟫) * (-(1 / ⟪s, y⟫) * ⟪y, H y⟫ + θ * ⟪s, y⟫) = 1 / ⟪s, y⟫ ^ 2 * ⟪y, H y⟫ - θ := by
        field_simp; ring
      rw [e4, mul_add, e3]; ring
    rw [hpp, hpv v, hHp]
    simp only [map_sub, map_smul, inner_sub_right, inner_smul_right]
    match_scalars <;> (try field_simp) <;> ring
  rw [hfac, LinearMap.det_comp, LinearMap.det_comp, LinearMap.transvection.det, LinearMap.transvection.det]
  simp only [innerₗ_apply_apply]
  rw [real_inner_comm p s, hps]
  have e : (1 + (-1 + θ * ⟪B s, s⟫)) * (LinearMap.det H * (1 + (-1 + θ * ⟪B s, s⟫))) = LinearMap.det H * (θ ^ 2 * ⟪B s, s⟫ ^ 2) := by ring
  rw [e, hθ2]
  congr 1
  field_simp

/-- The BFGS update changes the function by an explicit amount. -/
theorem InvPair.pot_bfgs {H B : E →ₗ[ℝ] E} (h : InvPair H B) {s y : E} (hsy : 0 < ⟪s, y⟫) :
    pot (bfgsThree H s y ⟪s, y⟫) (bfgsInv B s y) = pot H B - ‖B s‖ ^ 2 / ⟪B s, s⟫ + ‖y‖ ^ 2 / ⟪s, y⟫ + Real.log (⟪B s, s⟫ / ⟪s, y⟫) := by
  have hs0 : s ≠ 0 := by rintro rfl; simp at hsy
  have hBs : 0 < ⟪B s, s⟫ := h.spdB.2 s hs0
  unfold pot
  rw [h.bfgs_det hsy, Real.log_mul h.spd.det_pos.ne' (div_pos hBs hsy).ne', bfgsInv, trace_addRank1, trace_addRank1, real_inner_self_eq_norm_sq, real_inner_self_eq_norm_sq]
  ring

end Verif.QN
