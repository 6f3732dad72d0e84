import Verif.Manifold.Sphere
import Mathlib.Analysis.InnerProductSpace.Calculus
import Mathlib.Analysis.InnerProductSpace.PiL2
import Mathlib.Analysis.SpecialFunctions.Trigonometric.Deriv
import Mathlib.Tactic.LinearCombination
import Mathlib.Tactic.FieldSimp
import Mathlib.Tactic.Module

/-!
# C33, C34, C41, C42, C62, C63: sphere, locking transport, vector helpers
-/

set_option linter.unusedVariables false
set_option linter.unusedSectionVars false

namespace Verif.Sphere

open scoped RealInnerProductSpace

variable {E : Type*} [NormedAddCommGroup E] [InnerProductSpace ℝ E]

theorem fdiv_of_ne {a b : ℝ} (h : b ≠ 0) : fdiv a b = some (a / b) := if_neg h
theorem fdiv_zero (a : ℝ) : fdiv a 0 = none := if_pos rfl

theorem sqrt_inner (v : E) : √⟪v, v⟫ = ‖v‖ := by rw [real_inner_self_eq_norm_sq, Real.sqrt_sq (norm_nonneg v)]

/-- On the tangent space the curve of the exponential map. -/
noncomputable def expo (x η : E) : E := (Real.sin ‖η‖ / ‖η‖) • η + Real.cos ‖η‖ • x

theorem expo_inner {x η : E} (hx : ‖x‖ = 1) (ht : ⟪x, η⟫ = 0) (hη : η ≠ 0) : ⟪expo x η, expo x η⟫ = 1 := by
  have hn : ‖η‖ ≠ 0 := norm_ne_zero_iff.mpr hη
  have h1 : ⟪η, x⟫ = 0 := by rw [real_inner_comm]; exact ht
  have hxx : ⟪x, x⟫ = 1 := by rw [real_inner_self_eq_norm_sq, hx]; norm_num
  have hee := real_inner_self_eq_norm_sq η
  simp only [expo, inner_add_left, inner_add_right, real_inner_smul_left, real_inner_smul_right, ht, h1, hxx, hee]
  have h2 := Real.sin_sq_add_cos_sq ‖η‖
  field_simp
  linear_combination ‖η‖ * h2

theorem expRetraction_eq {x η : E} (hx : ‖x‖ = 1) (ht : ⟪x, η⟫ = 0) (hη : η ≠ 0) : expRetraction x η = some (expo x η) := by
  have hn : ‖η‖ ≠ 0 := norm_ne_zero_iff.mpr hη
  have h := expo_inner hx ht hη
  unfold expo at h
  simp only [expRetraction, sqrt_inner, fdiv_of_ne hn, Option.bind_some]
  rw [← sqrt_inner (_ + _), h]
  simp [fdiv, expo]

/-! ## C33 -/

/-- **C33 (partial).** For a unit vector `x` and a nonzero tangent vector the exponential retraction returns a unit vector, the point
`cos |η| x + sin |η| / |η| η`. For `η = 0` it does not return `x`: `C33_zero_tangent_gives_nan`. -/
theorem C33_retraction_unit_partial {x η : E} (hx : ‖x‖ = 1) (ht : ⟪x, η⟫ = 0) (hη : η ≠ 0) :
    ∃ y, expRetraction x η = some y ∧ ‖y‖ = 1 ∧ y = (Real.sin ‖η‖ / ‖η‖) • η + Real.cos ‖η‖ • x := by
  refine ⟨expo x η, expRetraction_eq hx ht hη, ?_, rfl⟩
  rw [← sqrt_inner, expo_inner hx ht hη, Real.sqrt_one]

/-- Whatever `x` and `η` are, a numeric result is a unit vector. -/
theorem C33_retraction_result_unit {x η y : E} (h : expRetraction x η = some y) : ‖y‖ = 1 := by
  unfold expRetraction at h
  simp only [sqrt_inner] at h
  by_cases hn : ‖η‖ = 0
  · rw [hn, fdiv_zero] at h; cases h
  · rw [fdiv_of_ne hn, Option.bind_some] at h
    by_cases hr : ‖(Real.sin ‖η‖ / ‖η‖) • η + Real.cos ‖η‖ • x‖ = 0
    · rw [hr, fdiv_zero] at h; cases h
    · rw [fdiv_of_ne hr, Option.map_some, Option.some.injEq] at h
      rw [← h, norm_smul, Real.norm_of_nonneg (by positivity)]
      field_simp

/-- **C33 (finding).** `Sphere` with the exponential map (parameter set 2) returns NaN for the zero tangent vector: `sin(0)/0`. -/
theorem C33_zero_tangent_gives_nan (x : E) : expRetraction x 0 = none := by
  simp [expRetraction, fdiv]

/-- `SphereTx` guards the division: every tangent vector gives a unit vector, a tangent vector shorter than machine epsilon gives `x` itself. -/
theorem C33_guarded_retraction_unit {eps : ℝ} (he : 0 < eps) (he1 : eps < 1) {x η : E} (hx : ‖x‖ = 1) (ht : ⟪x, η⟫ = 0) :
    ∃ y, txRetraction eps x η = some y ∧ ‖y‖ = 1 ∧ (‖η‖ < eps → y = x) ∧ (η = 0 → y = x) ∧ (eps ≤ ‖η‖ → expRetraction x η = some y) := by
  unfold txRetraction
  simp only [sqrt_inner]
  by_cases h : ‖η‖ < eps
  · have hc : 0 < Real.cos ‖η‖ := by
      apply Real.cos_pos_of_mem_Ioo
      have := Real.two_le_pi
      constructor
      · have := norm_nonneg η; linarith
      · linarith
    have hne : ‖Real.cos ‖η‖ • x‖ ≠ 0 := by
      rw [norm_smul, hx, mul_one, Real.norm_of_nonneg hc.le]; exact hc.ne'
    rw [if_pos h, Option.bind_some, fdiv_of_ne hne, Option.map_some]
    have hxe : (1 / ‖Real.cos ‖η‖ • x‖) • Real.cos ‖η‖ • x = x := by
      rw [norm_smul, hx, mul_one, Real.norm_of_nonneg hc.le, smul_smul]
      rw [one_div, inv_mul_cancel₀ hc.ne', one_smul]
    exact ⟨x, by rw [hxe], hx, fun _ => rfl, fun _ => rfl, fun h' => absurd h (not_lt.mpr h')⟩
  · have hη : η ≠ 0 := by
      rintro rfl
      rw [norm_zero] at h; exact h he
    have hn : ‖η‖ ≠ 0 := norm_ne_zero_iff.mpr hη
    have h1 := expo_inner hx ht hη
    unfold expo at h1
    rw [if_neg h, fdiv_of_ne hn, Option.map_some, Option.bind_some, ← sqrt_inner (_ + _), h1, Real.sqrt_one, fdiv_of_ne one_ne_zero]
    refine ⟨expo x η, by simp [expo], ?_, fun h' => absurd h' h, fun h' => absurd h' hη, fun _ => expRetraction_eq hx ht hη⟩
    rw [← sqrt_inner, expo_inner hx ht hη, Real.sqrt_one]

/-- **C33.** The projection returns tangent vectors, fixes tangent vectors (hence is idempotent), is self-adjoint, and its residual is orthogonal to every tangent vector. -/
theorem C33_projection {x : E} (hx : ‖x‖ = 1) (η ξ : E) :
    ⟪x, proj x η⟫ = 0 ∧ (⟪x, η⟫ = 0 → proj x η = η) ∧ proj x (proj x η) = proj x η ∧ ⟪proj x η, ξ⟫ = ⟪η, proj x ξ⟫ ∧
      (⟪x, ξ⟫ = 0 → ⟪η - proj x η, ξ⟫ = 0) := by
  have hxx : ⟪x, x⟫ = 1 := by rw [real_inner_self_eq_norm_sq, hx]; norm_num
  have h0 : ∀ v, ⟪x, proj x v⟫ = 0 := by
    intro v
    simp only [proj, inner_sub_right, real_inner_smul_right, hxx]; ring
  have hfix : ∀ v, ⟪x, v⟫ = 0 → proj x v = v := by
    intro v hv
    simp [proj, hv]
  refine ⟨h0 η, hfix η, hfix _ (h0 η), ?_, ?_⟩
  · simp only [proj, inner_sub_left, inner_sub_right, real_inner_smul_left, real_inner_smul_right]
    rw [real_inner_comm η x]; ring
  · intro h
    simp only [proj, sub_sub_cancel, real_inner_smul_left, h, mul_zero]

/-! ## C34 -/

theorem sum_inner {x y : E} (hx : ‖x‖ = 1) (hy : ‖y‖ = 1) : ⟪x + y, x + y⟫ = 2 * (1 + ⟪x, y⟫) := by
  simp only [inner_add_left, inner_add_right, real_inner_self_eq_norm_sq, hx, hy, real_inner_comm y x]; ring

theorem sum_ne {x y : E} (h : y ≠ -x) : ⟪x + y, x + y⟫ ≠ 0 := by
  rw [inner_self_ne_zero]
  intro e
  exact h (eq_neg_of_add_eq_zero_right e)

theorem transport_eq {x y : E} (h : y ≠ -x) (ξ : E) : transport x y ξ = some (ξ + (-2 * ⟪ξ, y⟫ / ⟪x + y, x + y⟫) • (x + y)) := by
  simp only [transport, fdiv_of_ne (sum_ne h), Option.map_some]

theorem invTransport_eq {x y : E} (h : y ≠ -x) (ξ : E) : invTransport x y ξ = some (ξ + (-2 * ⟪ξ, x⟫ / ⟪x + y, x + y⟫) • (x + y)) := by
  simp only [invTransport, fdiv_of_ne (sum_ne h), Option.map_some]

/-- **C34.** The transport takes tangent vectors at `x` to tangent vectors at `y`. -/
theorem C34_transport_tangent {x y ξ v : E} (hx : ‖x‖ = 1) (hy : ‖y‖ = 1) (hne : y ≠ -x) (ht : ⟪x, ξ⟫ = 0) (h : transport x y ξ = some v) : ⟪y, v⟫ = 0 := by
  rw [transport_eq hne, Option.some.injEq] at h
  have hs := sum_ne hne
  rw [sum_inner hx hy] at h hs
  have hs' : 1 + ⟪x, y⟫ ≠ 0 := fun e => hs (by rw [e, mul_zero])
  rw [← h]
  simp only [inner_add_right, real_inner_smul_right, real_inner_self_eq_norm_sq, hy, real_inner_comm x y, real_inner_comm ξ y]
  field_simp
  ring

/-- **C34.** The transport preserves inner products of tangent vectors. -/
theorem C34_transport_isometry {x y ξ ζ v w : E} (hx : ‖x‖ = 1) (hy : ‖y‖ = 1) (hne : y ≠ -x) (hξ : ⟪x, ξ⟫ = 0) (hζ : ⟪x, ζ⟫ = 0)
    (h : transport x y ξ = some v) (h' : transport x y ζ = some w) : ⟪v, w⟫ = ⟪ξ, ζ⟫ := by
  rw [transport_eq hne, Option.some.injEq] at h h'
  have hs := sum_ne hne
  rw [sum_inner hx hy] at h h' hs
  have hs' : 1 + ⟪x, y⟫ ≠ 0 := fun e => hs (by rw [e, mul_zero])
  rw [← h, ← h']
  have h1 : ⟪ξ, x⟫ = 0 := by rw [real_inner_comm]; exact hξ
  simp only [inner_add_left, inner_add_right, real_inner_smul_left, real_inner_smul_right, real_inner_self_eq_norm_sq, hx, hy, h1, hζ, real_inner_comm x y,
    real_inner_comm ζ y]
  rw [real_inner_comm y ζ]
  field_simp
  ring

/-- **C34.** The inverse transport undoes the transport of tangent vectors, and conversely. -/
theorem C34_inverse_transport {x y : E} (hx : ‖x‖ = 1) (hy : ‖y‖ = 1) (hne : y ≠ -x) (ξ : E) :
    (⟪x, ξ⟫ = 0 → (transport x y ξ).bind (invTransport x y) = some ξ) ∧ (⟪y, ξ⟫ = 0 → (invTransport x y ξ).bind (transport x y) = some ξ) := by
  have hs := sum_ne hne
  have hs2 := hs
  rw [sum_inner hx hy] at hs2
  have hs' : 1 + ⟪x, y⟫ ≠ 0 := fun e => hs2 (by rw [e, mul_zero])
  constructor
  · intro ht
    have h1 : ⟪ξ, x⟫ = 0 := by rw [real_inner_comm]; exact ht
    rw [transport_eq hne, Option.bind_some, invTransport_eq hne, Option.some.injEq, add_assoc, ← add_smul]
    have : (-2 * ⟪ξ, y⟫ / ⟪x + y, x + y⟫ + -2 * ⟪ξ + (-2 * ⟪ξ, y⟫ / ⟪x + y, x + y⟫) • (x + y), x⟫ / ⟪x + y, x + y⟫) = 0 := by
      rw [sum_inner hx hy]
      simp only [inner_add_left, real_inner_smul_left, real_inner_self_eq_norm_sq, hx, h1, real_inner_comm x y]
      field_simp
      ring
    rw [this, zero_smul, add_zero]
  · intro ht
    have h1 : ⟪ξ, y⟫ = 0 := by rw [real_inner_comm]; exact ht
    rw [invTransport_eq hne, Option.bind_some, transport_eq hne, Option.some.injEq, add_assoc, ← add_smul]
    have : (-2 * ⟪ξ, x⟫ / ⟪x + y, x + y⟫ + -2 * ⟪ξ + (-2 * ⟪ξ, x⟫ / ⟪x + y, x + y⟫) • (x + y), y⟫ / ⟪x + y, x + y⟫) = 0 := by
      rw [sum_inner hx hy]
      simp only [inner_add_left, real_inner_smul_left, real_inner_self_eq_norm_sq, hy, h1]
      field_simp
      ring
    rw [this, zero_smul, add_zero]

/-- **C34.** The operator versions: the transported operator applied to `v` is the transport of the operator applied to the inverse transport of `v`. -/
theorem C34_operator_transport {x y : E} (hne : y ≠ -x) (H : E →ₗ[ℝ] E) :
    ∃ A B C : E →ₗ[ℝ] E, hInvTran x y H = some A ∧ tranH x y H = some B ∧ tranHInvTran x y H = some C ∧
      (∀ v, some (A v) = (invTransport x y v).map H) ∧ (∀ v, some (B v) = transport x y (H v)) ∧
      ∀ v, some (C v) = (invTransport x y v).bind (fun u => transport x y (H u)) := by
  have hs := sum_ne hne
  have e1 : ∀ K : E →ₗ[ℝ] E, ∀ v, (K + (-2 / ⟪x + y, x + y⟫) • ((innerₛₗ ℝ x).smulRight (K (x + y)))) v = K (v + (-2 * ⟪v, x⟫ / ⟪x + y, x + y⟫) • (x + y)) := by
    intro K v
    simp only [LinearMap.add_apply, LinearMap.smul_apply, LinearMap.smulRight_apply, innerₛₗ_apply_apply, map_add, map_smul, smul_smul]
    rw [real_inner_comm v x, div_mul_eq_mul_div]
  have e2 : ∀ K : E →ₗ[ℝ] E, ∀ v, (K + (-2 / ⟪x + y, x + y⟫) • (((innerₛₗ ℝ y).comp K).smulRight (x + y))) v = K v + (-2 * ⟪K v, y⟫ / ⟪x + y, x + y⟫) • (x + y) := by
    intro K v
    simp only [LinearMap.add_apply, LinearMap.smul_apply, LinearMap.smulRight_apply, LinearMap.comp_apply, innerₛₗ_apply_apply, smul_smul]
    rw [real_inner_comm (K v) y, div_mul_eq_mul_div]
  have hA : hInvTran x y H = some (H + (-2 / ⟪x + y, x + y⟫) • ((innerₛₗ ℝ x).smulRight (H (x + y)))) := by
    simp only [hInvTran, fdiv_of_ne hs, Option.map_some]
  have hB : ∀ K, tranH x y K = some (K + (-2 / ⟪x + y, x + y⟫) • (((innerₛₗ ℝ y).comp K).smulRight (x + y))) := by
    intro K
    simp only [tranH, fdiv_of_ne hs, Option.map_some]
  refine ⟨_, _, _, hA, hB H, by rw [tranHInvTran, hA, Option.bind_some, hB], ?_, ?_, ?_⟩
  · intro v
    rw [e1, invTransport_eq hne, Option.map_some]
  · intro v
    rw [e2, transport_eq hne]
  · intro v
    rw [e2, invTransport_eq hne, Option.bind_some, transport_eq hne, e1]

theorem expDiff_eq {x η ξ : E} (hη : η ≠ 0) : expDiffRetraction x η ξ =
    some (((Real.cos ‖η‖ - Real.sin ‖η‖ / ‖η‖) * ⟪η, ξ⟫ / ‖η‖ / ‖η‖) • η + ((Real.sin ‖η‖ / ‖η‖) • ξ + (-Real.sin ‖η‖ * ⟪η, ξ⟫ / ‖η‖) • x)) := by
  have hn : ‖η‖ ≠ 0 := norm_ne_zero_iff.mpr hη
  simp only [expDiffRetraction, sqrt_inner, fdiv_of_ne hn, Option.bind_some, Option.map_some]

/-- The transport along `η` carries `η` to the velocity of the exponential curve: the locking condition holds with factor 1. -/
theorem C34_transport_locks {x η y : E} (hx : ‖x‖ = 1) (ht : ⟪x, η⟫ = 0) (hη : η ≠ 0) (hy : expRetraction x η = some y) (hc : Real.cos ‖η‖ ≠ -1) :
    transport x y η = expDiffRetraction x η η := by
  rw [expRetraction_eq hx ht hη, Option.some.injEq] at hy
  subst hy
  have hn : ‖η‖ ≠ 0 := norm_ne_zero_iff.mpr hη
  have h1 : ⟪η, x⟫ = 0 := by rw [real_inner_comm]; exact ht
  have hxy : ⟪x, expo x η⟫ = Real.cos ‖η‖ := by
    simp only [expo, inner_add_right, real_inner_smul_right, ht, real_inner_self_eq_norm_sq, hx]; ring
  have hηy : ⟪η, expo x η⟫ = Real.sin ‖η‖ * ‖η‖ := by
    simp only [expo, inner_add_right, real_inner_smul_right, h1, real_inner_self_eq_norm_sq]
    field_simp; ring
  have hny : ‖expo x η‖ = 1 := by rw [← sqrt_inner, expo_inner hx ht hη, Real.sqrt_one]
  have hne : expo x η ≠ -x := by
    intro e
    apply hc
    rw [← hxy, e, inner_neg_right, real_inner_self_eq_norm_sq, hx]; norm_num
  have hc' : 1 + Real.cos ‖η‖ ≠ 0 := fun e => hc (by linarith)
  rw [transport_eq hne, sum_inner hx hny, hxy, hηy]
  rw [expDiff_eq hη, Option.some.injEq, real_inner_self_eq_norm_sq]
  have h2 := Real.sin_sq_add_cos_sq ‖η‖
  have e1 : -2 * (Real.sin ‖η‖ * ‖η‖) / (2 * (1 + Real.cos ‖η‖)) * (1 + Real.cos ‖η‖) = -Real.sin ‖η‖ * ‖η‖ := by field_simp
  have e2 : -2 * (Real.sin ‖η‖ * ‖η‖) / (2 * (1 + Real.cos ‖η‖)) * (Real.sin ‖η‖ / ‖η‖) = Real.cos ‖η‖ - 1 := by
    field_simp
    linear_combination (-1 : ℝ) * h2
  have e3 : (Real.cos ‖η‖ - Real.sin ‖η‖ / ‖η‖) * ‖η‖ ^ 2 / ‖η‖ / ‖η‖ = Real.cos ‖η‖ - Real.sin ‖η‖ / ‖η‖ := by field_simp
  have e4 : -Real.sin ‖η‖ * ‖η‖ ^ 2 / ‖η‖ = -Real.sin ‖η‖ * ‖η‖ := by field_simp
  have e5 : (-2 * (Real.sin ‖η‖ * ‖η‖) / (2 * (1 + Real.cos ‖η‖))) • (x + expo x η)
      = (-2 * (Real.sin ‖η‖ * ‖η‖) / (2 * (1 + Real.cos ‖η‖)) * (1 + Real.cos ‖η‖)) • x
        + (-2 * (Real.sin ‖η‖ * ‖η‖) / (2 * (1 + Real.cos ‖η‖)) * (Real.sin ‖η‖ / ‖η‖)) • η := by
    simp only [expo]; module
  rw [e3, e4, e5, e1, e2]
  module

/-! ## C62, C63 -/

/-- **C62.** The differentiated retraction is the derivative of the retraction: along every tangent direction `ξ` the curve `t ↦ R_x(η + t ξ)` has velocity
`DiffRetraction(x, η, ξ)` at `t = 0`. -/
theorem C62_sphere_diff_retraction {x η ξ : E} (hx : ‖x‖ = 1) (hη : ⟪x, η⟫ = 0) (hξ : ⟪x, ξ⟫ = 0) (hne : η ≠ 0) :
    ∃ d, expDiffRetraction x η ξ = some d ∧ HasDerivAt (fun t : ℝ => (expRetraction x (η + t • ξ)).getD 0) d 0 := by
  refine ⟨_, expDiff_eq hne, ?_⟩
  have hn : ‖η‖ ≠ 0 := norm_ne_zero_iff.mpr hne
  have hline : HasDerivAt (fun t : ℝ => η + t • ξ) ξ 0 := by
    simpa using ((hasDerivAt_id (0 : ℝ)).smul_const ξ).const_add η
  have hnorm : HasDerivAt (fun t : ℝ => ‖η + t • ξ‖) (⟪η, ξ⟫ / ‖η‖) 0 := by
    have hsq : HasDerivAt (fun t : ℝ => ‖η + t • ξ‖ ^ 2) (2 * ⟪η, ξ⟫) 0 := by
      have := hline.norm_sq
      simpa using this
    have hs := hsq.sqrt (by simpa using hn)
    have e : (fun t : ℝ => √(‖η + t • ξ‖ ^ 2)) = fun t : ℝ => ‖η + t • ξ‖ := by
      funext t; exact Real.sqrt_sq (norm_nonneg _)
    rw [e] at hs
    convert hs using 1
    simp only [zero_smul, add_zero, Real.sqrt_sq (norm_nonneg η)]
    field_simp
  have hn0 : ‖η + (0 : ℝ) • ξ‖ = ‖η‖ := by simp
  have hcos : HasDerivAt (fun t : ℝ => Real.cos ‖η + t • ξ‖) (-Real.sin ‖η‖ * (⟪η, ξ⟫ / ‖η‖)) 0 := by
    have := hnorm.cos
    rwa [hn0] at this
  have hsin : HasDerivAt (fun t : ℝ => Real.sin ‖η + t • ξ‖) (Real.cos ‖η‖ * (⟪η, ξ⟫ / ‖η‖)) 0 := by
    have := hnorm.sin
    rwa [hn0] at this
  have hq : HasDerivAt (fun t : ℝ => Real.sin ‖η + t • ξ‖ / ‖η + t • ξ‖)
      ((Real.cos ‖η‖ * (⟪η, ξ⟫ / ‖η‖) * ‖η‖ - Real.sin ‖η‖ * (⟪η, ξ⟫ / ‖η‖)) / ‖η‖ ^ 2) 0 := by
    have := hsin.div hnorm (by rw [hn0]; exact hn)
    rwa [hn0] at this
  have hfun : HasDerivAt (fun t : ℝ => expo x (η + t • ξ))
      ((Real.sin ‖η‖ / ‖η‖) • ξ + ((Real.cos ‖η‖ * (⟪η, ξ⟫ / ‖η‖) * ‖η‖ - Real.sin ‖η‖ * (⟪η, ξ⟫ / ‖η‖)) / ‖η‖ ^ 2) • η
        + (-Real.sin ‖η‖ * (⟪η, ξ⟫ / ‖η‖)) • x) 0 := by
    have h1 := hq.smul hline
    have h2 := hcos.smul_const x
    have h3 := h1.add h2
    simp only [zero_smul, add_zero] at h3
    exact h3
  have hev : (fun t : ℝ => (expRetraction x (η + t • ξ)).getD 0) =ᶠ[nhds 0] fun t : ℝ => expo x (η + t • ξ) := by
    have hcont : ContinuousAt (fun t : ℝ => η + t • ξ) 0 := hline.continuousAt
    have : ∀ᶠ t in nhds (0 : ℝ), η + t • ξ ≠ 0 := hcont.eventually_ne (by simpa using hne)
    filter_upwards [this] with t ht
    rw [expRetraction_eq hx (by rw [inner_add_right, real_inner_smul_right, hη, hξ]; ring) ht, Option.getD_some]
  refine (hfun.congr_of_eventuallyEq hev).congr_deriv ?_
  have e1 : (Real.cos ‖η‖ * (⟪η, ξ⟫ / ‖η‖) * ‖η‖ - Real.sin ‖η‖ * (⟪η, ξ⟫ / ‖η‖)) / ‖η‖ ^ 2 = (Real.cos ‖η‖ - Real.sin ‖η‖ / ‖η‖) * ⟪η, ξ⟫ / ‖η‖ / ‖η‖ := by
    field_simp
  rw [e1, mul_div_assoc (-Real.sin ‖η‖)]
  module

/-- **C63.** The cotangent vector represents the adjoint of the differentiated retraction: `⟪ξ_y, DR[ξ]⟫ = ⟪C, ξ⟫` for all tangent `ξ`. -/
theorem C63_sphere_cotangent_adjoint {x η ξy ξ c d : E} (hx : ‖x‖ = 1) (hξ : ⟪x, ξ⟫ = 0) (hne : η ≠ 0)
    (hc : expCoTangent x η ξy = some c) (hd : expDiffRetraction x η ξ = some d) : ⟪ξy, d⟫ = ⟪c, ξ⟫ := by
  have hn : ‖η‖ ≠ 0 := norm_ne_zero_iff.mpr hne
  rw [expDiff_eq hne, Option.some.injEq] at hd
  simp only [expCoTangent, sqrt_inner, fdiv_of_ne hn, Option.bind_some, Option.map_some, Option.some.injEq] at hc
  rw [← hc, ← hd, (C33_projection hx _ ξ).2.2.2.1, (C33_projection hx ξ ξ).2.1 hξ]
  simp only [inner_add_left, inner_add_right, real_inner_smul_left, real_inner_smul_right]
  rw [real_inner_comm ξy x]
  field_simp
  ring

/-- **C64.** The Riemannian Hessian action on the sphere is self-adjoint on the tangent space for every symmetric Euclidean Hessian, and tangent. -/
theorem C64_sphere_hessian_symmetric {x g : E} (hx : ‖x‖ = 1) (H : E →ₗ[ℝ] E) (hH : H.IsSymmetric) {η ξ : E} (hη : ⟪x, η⟫ = 0) (hξ : ⟪x, ξ⟫ = 0) :
    ⟪hessian x g η (H η), ξ⟫ = ⟪η, hessian x g ξ (H ξ)⟫ ∧ ⟪x, hessian x g η (H η)⟫ = 0 := by
  refine ⟨?_, (C33_projection hx _ ξ).1⟩
  unfold hessian
  rw [(C33_projection hx _ ξ).2.2.2.1, (C33_projection hx ξ ξ).2.1 hξ, ← (C33_projection hx η _).2.2.2.1, (C33_projection hx η ξ).2.1 hη]
  simp only [inner_sub_left, inner_sub_right, real_inner_smul_left, real_inner_smul_right]
  rw [hH η ξ]

/-! ## C41 -/

theorem reflect_inner {ν : E} {τ : ℝ} (hν : ⟪ν, ν⟫ ≠ 0) (hτ : τ = 2 / ⟪ν, ν⟫) (v w : E) : ⟪reflect ν τ v, reflect ν τ w⟫ = ⟪v, w⟫ := by
  subst hτ
  simp only [reflect, inner_add_left, inner_add_right, real_inner_smul_left, real_inner_smul_right]
  rw [real_inner_comm w ν]
  field_simp
  ring

theorem reflect_reflect {ν : E} {τ : ℝ} (hν : ⟪ν, ν⟫ ≠ 0) (hτ : τ = 2 / ⟪ν, ν⟫) (v : E) : reflect ν τ (reflect ν τ v) = v := by
  subst hτ
  simp only [reflect, inner_add_left, real_inner_smul_left]
  rw [add_assoc, ← add_smul]
  have : (-⟪v, ν⟫ * (2 / ⟪ν, ν⟫) + -(⟪v, ν⟫ + -⟪v, ν⟫ * (2 / ⟪ν, ν⟫) * ⟪ν, ν⟫) * (2 / ⟪ν, ν⟫)) = 0 := by
    field_simp
    ring
  rw [this, zero_smul, add_zero]

/-- What a numeric outcome of the preparation says. -/
theorem lcVectors_some {T : E → E} {η z ν1 ν2 : E} {τ1 τ2 : ℝ} (h : lcVectors T η z = some (ν1, ν2, τ1, τ2)) :
    T η ≠ 0 ∧ ν1 = (2 : ℝ) • √(⟪η, η⟫ / ⟪T η, T η⟫) • T η ∧ ν2 = (-1 : ℝ) • z + (-1 : ℝ) • √(⟪η, η⟫ / ⟪T η, T η⟫) • T η ∧
      ⟪ν1, ν1⟫ ≠ 0 ∧ ⟪ν2, ν2⟫ ≠ 0 ∧ τ1 = 2 / ⟪ν1, ν1⟫ ∧ τ2 = 2 / ⟪ν2, ν2⟫ := by
  unfold lcVectors at h
  by_cases h0 : ⟪T η, T η⟫ = 0
  · rw [h0, fdiv_zero] at h; cases h
  rw [fdiv_of_ne h0, Option.bind_some] at h
  simp only [] at h
  by_cases h1 : ⟪(2 : ℝ) • √(⟪η, η⟫ / ⟪T η, T η⟫) • T η, (2 : ℝ) • √(⟪η, η⟫ / ⟪T η, T η⟫) • T η⟫ = 0
  · rw [h1, fdiv_zero] at h; cases h
  rw [fdiv_of_ne h1, Option.bind_some] at h
  by_cases h2 : ⟪(-1 : ℝ) • z + (-1 : ℝ) • √(⟪η, η⟫ / ⟪T η, T η⟫) • T η, (-1 : ℝ) • z + (-1 : ℝ) • √(⟪η, η⟫ / ⟪T η, T η⟫) • T η⟫ = 0
  · rw [h2, fdiv_zero] at h; cases h
  rw [fdiv_of_ne h2, Option.map_some, Option.some.injEq, Prod.mk.injEq, Prod.mk.injEq, Prod.mk.injEq] at h
  obtain ⟨e1, e2, e3, e4⟩ := h
  subst e1 e2 e3 e4
  exact ⟨inner_self_ne_zero.mp h0, rfl, rfl, h1, h2, rfl, rfl⟩

theorem scaled_inner {T : E → E} {ξ : E} (h : ⟪T ξ, T ξ⟫ ≠ 0) : ⟪√(⟪ξ, ξ⟫ / ⟪T ξ, T ξ⟫) • T ξ, √(⟪ξ, ξ⟫ / ⟪T ξ, T ξ⟫) • T ξ⟫ = ⟪ξ, ξ⟫ := by
  rw [real_inner_smul_left, real_inner_smul_right, ← mul_assoc, Real.mul_self_sqrt (div_nonneg real_inner_self_nonneg real_inner_self_nonneg)]
  field_simp

theorem lcTransport_some {T : E → E} {η z ξ v : E} (h : lcTransport T η z ξ = some v) :
    ∃ ν1 ν2 τ1 τ2, lcVectors T η z = some (ν1, ν2, τ1, τ2) ∧ ⟪T ξ, T ξ⟫ ≠ 0 ∧ v = reflect ν2 τ2 (reflect ν1 τ1 (√(⟪ξ, ξ⟫ / ⟪T ξ, T ξ⟫) • T ξ)) := by
  unfold lcTransport at h
  match hq : lcVectors T η z, h with
  | some (ν1, ν2, τ1, τ2), h =>
    simp only [Option.bind_some] at h
    by_cases h0 : ⟪T ξ, T ξ⟫ = 0
    · rw [h0, fdiv_zero] at h; cases h
    · rw [fdiv_of_ne h0, Option.map_some, Option.some.injEq] at h
      exact ⟨ν1, ν2, τ1, τ2, rfl, h0, h.symm⟩

/-- **C41.** Whatever the underlying transport `T` is, a numeric result has the norm of the argument. -/
theorem C41_norm_preserved {T : E → E} {η z ξ v : E} (h : lcTransport T η z ξ = some v) : ⟪v, v⟫ = ⟪ξ, ξ⟫ := by
  obtain ⟨ν1, ν2, τ1, τ2, hq, h0, rfl⟩ := lcTransport_some h
  obtain ⟨_, _, _, h1, h2, e1, e2⟩ := lcVectors_some hq
  rw [reflect_inner h2 e2, reflect_inner h1 e1, scaled_inner h0]

/-- **C41.** The transport carries the search direction `η` to `z`, the scaled derivative of the retraction, provided `z` has the length of `η` (as `DiffRetraction`
arranges) and the reflectors do not vanish. `T` need not be isometric. -/
theorem C41_locking {T : E → E} {η z v : E} (hz : ⟪z, z⟫ = ⟪η, η⟫) (h : lcTransport T η z η = some v) : v = z := by
  obtain ⟨ν1, ν2, τ1, τ2, hq, h0, rfl⟩ := lcTransport_some h
  obtain ⟨_, hν1, hν2, h1, h2, e1, e2⟩ := lcVectors_some hq
  set e := √(⟪η, η⟫ / ⟪T η, T η⟫) • T η with he
  have hee : ⟪e, e⟫ = ⟪z, z⟫ := by rw [hz, he, scaled_inner h0]
  have r1 : reflect ν1 τ1 e = -e := by
    subst hν1 e1
    simp only [real_inner_smul_left, real_inner_smul_right] at h1
    have hne : ⟪e, e⟫ ≠ 0 := fun e0 => h1 (by rw [e0]; ring)
    simp only [reflect, real_inner_smul_left, real_inner_smul_right, smul_smul]
    have : -(2 * ⟪e, e⟫) * (2 / (2 * (2 * ⟪e, e⟫))) * 2 = -2 := by field_simp
    rw [this]; module
  have h22 : ⟪ν2, ν2⟫ = 2 * (⟪e, e⟫ + ⟪e, z⟫) := by
    subst hν2
    simp only [inner_add_left, inner_add_right, real_inner_smul_left, real_inner_smul_right, hee, real_inner_comm e z]; ring
  have h2e : ⟪-e, ν2⟫ = ⟪e, e⟫ + ⟪e, z⟫ := by
    subst hν2
    simp only [inner_neg_left, inner_add_right, real_inner_smul_right]; ring
  rw [r1, reflect, h2e, e2, h22]
  rw [h22] at h2
  have hne : ⟪e, e⟫ + ⟪e, z⟫ ≠ 0 := fun e0 => h2 (by rw [e0, mul_zero])
  have : -(⟪e, e⟫ + ⟪e, z⟫) * (2 / (2 * (⟪e, e⟫ + ⟪e, z⟫))) = -1 := by field_simp
  rw [this, hν2]; module

/-- **C41.** If the underlying transport preserves the inner products of `ξ` and `ζ`, so does the transport. -/
theorem C41_isometry {T : E → E} {η z ξ ζ v w : E} (hT : ∀ a ∈ ({ξ, ζ} : Set E), ∀ b ∈ ({ξ, ζ} : Set E), ⟪T a, T b⟫ = ⟪a, b⟫)
    (h : lcTransport T η z ξ = some v) (h' : lcTransport T η z ζ = some w) : ⟪v, w⟫ = ⟪ξ, ζ⟫ := by
  obtain ⟨ν1, ν2, τ1, τ2, hq, h0, rfl⟩ := lcTransport_some h
  obtain ⟨ν1', ν2', τ1', τ2', hq', h0', rfl⟩ := lcTransport_some h'
  rw [hq, Option.some.injEq, Prod.mk.injEq, Prod.mk.injEq, Prod.mk.injEq] at hq'
  obtain ⟨a1, a2, a3, a4⟩ := hq'
  subst a1 a2 a3 a4
  obtain ⟨_, _, _, h1, h2, e1, e2⟩ := lcVectors_some hq
  rw [reflect_inner h2 e2, reflect_inner h1 e1]
  have k1 := hT ξ (by simp) ξ (by simp)
  have k2 := hT ζ (by simp) ζ (by simp)
  rw [k1] at h0 ⊢
  rw [k2] at h0' ⊢
  rw [div_self h0, div_self h0', Real.sqrt_one, one_smul, one_smul, hT ξ (by simp) ζ (by simp)]

/-- **C41.** The inverse transport undoes the transport of a vector whose norm the underlying transport preserves. -/
theorem C41_inverse {T Tinv : E → E} {η z ξ v : E} (hT : ⟪T ξ, T ξ⟫ = ⟪ξ, ξ⟫) (hi : Tinv (T ξ) = ξ) (h : lcTransport T η z ξ = some v) :
    lcInvTransport T Tinv η z v = some ξ := by
  obtain ⟨ν1, ν2, τ1, τ2, hq, h0, rfl⟩ := lcTransport_some h
  obtain ⟨_, _, _, h1, h2, e1, e2⟩ := lcVectors_some hq
  rw [lcInvTransport, hq, Option.map_some, reflect_reflect h2 e2, reflect_reflect h1 e1]
  rw [hT] at h0 ⊢
  rw [div_self h0, Real.sqrt_one, one_smul, hi]

/-- **C41.** The transported operator: `LCTranHInvTran` equals transport ∘ H ∘ inverse transport, for a linear isometric base transport `T` with inverse `Tinv`. -/
theorem C41_operator_transport (T Tinv H : E →ₗ[ℝ] E) (hT : ∀ v, ⟪T v, T v⟫ = ⟪v, v⟫) {η z : E} {G : E →ₗ[ℝ] E}
    (h : lcTranHInvTran T η z (T ∘ₗ H ∘ₗ Tinv) = some G) (v : E) :
    ∃ u, lcInvTransport T Tinv η z v = some u ∧ (H u ≠ 0 → lcTransport T η z (H u) = some (G v)) ∧ (H u = 0 → G v = 0) := by
  unfold lcTranHInvTran at h
  match hq : lcVectors T η z, h with
  | some (ν1, ν2, τ1, τ2), h =>
    rw [Option.map_some, Option.some.injEq] at h
    refine ⟨Tinv (reflect ν1 τ1 (reflect ν2 τ2 v)), by rw [lcInvTransport, hq, Option.map_some], ?_⟩
    have hr : ∀ (ν : E) (τ : ℝ) (K : E →ₗ[ℝ] E) (u : E), rightReflect ν τ K u = K (reflect ν τ u) := by
      intro ν τ K u
      simp only [rightReflect, reflect, LinearMap.add_apply, LinearMap.smul_apply, LinearMap.smulRight_apply, innerₛₗ_apply_apply, map_add, map_smul, smul_smul]
      rw [real_inner_comm u ν, neg_mul, neg_mul, mul_comm τ]
    have hl : ∀ (ν : E) (τ : ℝ) (K : E →ₗ[ℝ] E) (u : E), leftReflect ν τ K u = reflect ν τ (K u) := by
      intro ν τ K u
      simp only [leftReflect, reflect, LinearMap.add_apply, LinearMap.smul_apply, LinearMap.smulRight_apply, LinearMap.comp_apply, innerₛₗ_apply_apply, smul_smul]
      rw [real_inner_comm (K u) ν, neg_mul, neg_mul, mul_comm τ]
    have hG : G v = reflect ν2 τ2 (reflect ν1 τ1 (T (H (Tinv (reflect ν1 τ1 (reflect ν2 τ2 v)))))) := by
      rw [← h]
      simp only [hl, hr, LinearMap.comp_apply]
    constructor
    · intro hne
      have h0 : ⟪H (Tinv (reflect ν1 τ1 (reflect ν2 τ2 v))), H (Tinv (reflect ν1 τ1 (reflect ν2 τ2 v)))⟫ ≠ 0 := inner_self_ne_zero.mpr hne
      have h1 := h0
      rw [← hT] at h1
      rw [lcTransport, hq, Option.bind_some, fdiv_of_ne h1, Option.map_some, hT, div_self h0, Real.sqrt_one, one_smul, hG]
    · intro h0
      rw [hG, h0, map_zero]
      simp [reflect]

/-- **C41 (finding).** The zero vector is transported to NaN (`0/0` in the rescaling, Manifold.cpp:733). -/
theorem C41_zero_vector_gives_nan {T : E → E} (hT : T 0 = 0) (η z : E) : lcTransport T η z 0 = none := by
  unfold lcTransport
  cases lcVectors T η z with
  | none => rfl
  | some q => simp [hT, fdiv]

/-- **C41 (finding).** If the derivative of the retraction points opposite to the transported direction the second reflector vanishes and the result is NaN. -/
theorem C41_opposite_directions_give_nan {T : E → E} {η : E} (ξ : E) : lcTransport T η (-(√(⟪η, η⟫ / ⟪T η, T η⟫) • T η)) ξ = none := by
  unfold lcTransport
  have : lcVectors T η (-(√(⟪η, η⟫ / ⟪T η, T η⟫) • T η)) = none := by
    unfold lcVectors
    by_cases h0 : ⟪T η, T η⟫ = 0
    · rw [h0, fdiv_zero]; rfl
    rw [fdiv_of_ne h0, Option.bind_some]
    simp only []
    by_cases h1 : ⟪(2 : ℝ) • √(⟪η, η⟫ / ⟪T η, T η⟫) • T η, (2 : ℝ) • √(⟪η, η⟫ / ⟪T η, T η⟫) • T η⟫ = 0
    · rw [h1, fdiv_zero]; rfl
    rw [fdiv_of_ne h1, Option.bind_some]
    have : ((-1 : ℝ) • -(√(⟪η, η⟫ / ⟪T η, T η⟫) • T η) + (-1 : ℝ) • √(⟪η, η⟫ / ⟪T η, T η⟫) • T η) = 0 := by module
    rw [this, inner_zero_left, fdiv_zero]; rfl
  rw [this]; rfl

/-! ## C42 -/

/-- **C42 (partial).** The helpers compute the specified vector and touch nothing else when the result object is not the first operand (it may be the second). -/
theorem C42_helpers_partial (m : Store E) (s s1 s2 : ℝ) (a b r : Nat) (hr : r ≠ a) :
    scalarVectorAddVector m s a b r = Function.update m r (s • m a + m b) ∧
    vectorLinearCombination m s1 a s2 b r = Function.update m r (s1 • m a + s2 • m b) := by
  constructor
  · simp only [scalarVectorAddVector, Function.update_self, Function.update_of_ne hr.symm, Function.update_idem]
  · simp only [vectorLinearCombination, Function.update_self, Function.update_of_ne hr.symm, Function.update_idem]

/-- `ScalarTimesVector` is right for every aliasing pattern. -/
theorem C42_scalar_times_vector (m : Store E) (s : ℝ) (a r : Nat) : scalarTimesVector m s a r = Function.update m r (s • m a) := by
  simp only [scalarTimesVector, Function.update_self, Function.update_idem]

/-- **C42 (finding).** When the result object is the first operand its value is lost before it is used: the helpers return `(1 + s) xix` and `(1 + s1) s2 xix`. -/
theorem C42_first_operand_aliased (m : Store E) (s s1 s2 : ℝ) (a b : Nat) :
    scalarVectorAddVector m s a b a a = (1 + s) • m b ∧ vectorLinearCombination m s1 a s2 b a a = ((1 + s1) * s2) • m b := by
  simp only [scalarVectorAddVector, vectorLinearCombination, Function.update_self]
  constructor <;> module

/-! ## Non-vacuity -/

noncomputable section Examples

/-- Coordinates in the plane. -/
abbrev P2 := EuclideanSpace ℝ (Fin 2)

def ex : P2 := EuclideanSpace.single 0 1
def ey : P2 := EuclideanSpace.single 1 1

theorem ex_norm : ‖ex‖ = 1 := by simp [ex]
theorem ey_norm : ‖ey‖ = 1 := by simp [ey]
theorem ex_ey : ⟪ex, ey⟫ = 0 := by simp [ex, ey, EuclideanSpace.inner_single_left]
theorem ey_ne : ey ≠ 0 := by rw [← norm_ne_zero_iff, ey_norm]; norm_num
theorem ey_ne_neg : ey ≠ -ex := by
  intro e
  have h := ex_ey
  rw [e, inner_neg_right, real_inner_self_eq_norm_sq, ex_norm] at h
  norm_num at h

/-- A unit vector and a nonzero tangent vector. -/
example : ∃ y, expRetraction ex ey = some y ∧ ‖y‖ = 1 := by
  obtain ⟨y, h1, h2, _⟩ := C33_retraction_unit_partial ex_norm ex_ey ey_ne
  exact ⟨y, h1, h2⟩

/-- Transport from `e₁` to `e₂` along the quarter circle. -/
example : (transport ex ey ey).bind (invTransport ex ey) = some ey := (C34_inverse_transport ex_norm ey_norm ey_ne_neg ey).1 ex_ey

/-- A locking transport that is numeric: `T = id`, `η = e₁`, `z = e₂`. -/
example : ∃ v, lcTransport (fun v : P2 => v) ex ey ex = some v ∧ v = ey := by
  have hxx : ⟪ex, ex⟫ = 1 := by rw [real_inner_self_eq_norm_sq, ex_norm]; norm_num
  have hyy : ⟪ey, ey⟫ = 1 := by rw [real_inner_self_eq_norm_sq, ey_norm]; norm_num
  have hyx : ⟪ey, ex⟫ = 0 := by rw [real_inner_comm]; exact ex_ey
  have : ∃ v, lcTransport (fun v : P2 => v) ex ey ex = some v := by
    simp only [lcTransport, lcVectors, hxx, fdiv_of_ne (one_ne_zero), Option.bind_some, div_one, Real.sqrt_one, one_smul]
    rw [fdiv_of_ne (by simp only [real_inner_smul_left, real_inner_smul_right, hxx]; norm_num), Option.bind_some,
      fdiv_of_ne (by simp only [inner_add_left, inner_add_right, real_inner_smul_left, real_inner_smul_right, hxx, hyy, ex_ey, hyx]; norm_num)]
    exact ⟨_, rfl⟩
  obtain ⟨v, hv⟩ := this
  exact ⟨v, hv, C41_locking (by rw [hxx, hyy]) hv⟩

end Examples

end Verif.Sphere
