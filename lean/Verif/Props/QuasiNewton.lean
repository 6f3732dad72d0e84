import Verif.Solver.QuasiNewton
import Mathlib.Tactic.LinearCombination
import Mathlib.Tactic.Module

/-!
# Quasi-Newton updates: C23 (BFGS and Broyden family), C27 (SR1), part of C18
-/

set_option linter.unusedSectionVars false

namespace Verif.QN

open scoped RealInnerProductSpace Classical

variable {E : Type*} [NormedAddCommGroup E] [InnerProductSpace ℝ E]

/-! ## Specification -/

/-- Symmetric operator. -/
def IsSym (H : E →ₗ[ℝ] E) : Prop := ∀ u v, ⟪H u, v⟫ = ⟪u, H v⟫

/-- Symmetric positive definite operator. -/
def IsSPD (H : E →ₗ[ℝ] E) : Prop := IsSym H ∧ ∀ v, v ≠ 0 → 0 < ⟪H v, v⟫

/-! ## Helper lemmas -/

theorem addRank1_apply (H : E →ₗ[ℝ] E) (c : ℝ) (a b v : E) :
    addRank1 H c a b v = H v + (c * ⟪b, v⟫) • a := by
  simp [addRank1, smul_smul]

theorem tranH_apply (T : E ≃ₗᵢ[ℝ] E) (H : E →ₗ[ℝ] E) (v : E) : tranH T H v = T (H (T.symm v)) := rfl

theorem inner_T_left (T : E ≃ₗᵢ[ℝ] E) (u v : E) : ⟪T u, v⟫ = ⟪u, T.symm v⟫ := by
  conv_lhs => rw [← T.apply_symm_apply v]
  exact T.inner_map_map _ _

theorem tranH_sym {T : E ≃ₗᵢ[ℝ] E} {H : E →ₗ[ℝ] E} (h : IsSym H) : IsSym (tranH T H) := by
  intro u v
  rw [tranH_apply, tranH_apply, inner_T_left, h, ← real_inner_comm u (T _), inner_T_left T,
    real_inner_comm]

theorem tranH_spd {T : E ≃ₗᵢ[ℝ] E} {H : E →ₗ[ℝ] E} (h : IsSPD H) : IsSPD (tranH T H) := by
  refine ⟨tranH_sym h.1, fun v hv => ?_⟩
  rw [tranH_apply, inner_T_left]
  apply h.2
  simpa using hv

theorem scaledId_spd {c : ℝ} (hc : 0 < c) : IsSPD (c • LinearMap.id : E →ₗ[ℝ] E) := by
  refine ⟨fun u v => ?_, fun v hv => ?_⟩
  · simp [inner_smul_left, inner_smul_right]
  · simp only [LinearMap.smul_apply, LinearMap.id_apply, inner_smul_left, real_inner_self_eq_norm_sq]
    have : 0 < ‖v‖ := norm_pos_iff.mpr hv
    simp only [conj_trivial]
    positivity

theorem addRank1_sym {H : E →ₗ[ℝ] E} (h : IsSym H) (c : ℝ) (a : E) : IsSym (addRank1 H c a a) := by
  intro u v
  rw [addRank1_apply, addRank1_apply, inner_add_left, inner_add_right, inner_smul_left,
    inner_smul_right, h, real_inner_comm a u]
  simp only [conj_trivial]
  ring_nf

/-! ## BFGS -/

/-- C23: the update computed by three rank-one corrections is the BFGS formula
`(I - rho s y^T) H (I - rho y s^T) + rho s s^T` with `rho = 1/<s,y>`. -/
theorem C23_bfgs_formula {H : E →ₗ[ℝ] E} (h : IsSym H) (s y v : E) :
    bfgsThree H s y ⟪s, y⟫ v =
      (let w := v - (1 / ⟪s, y⟫ * ⟪s, v⟫) • y
       H w - (1 / ⟪s, y⟫ * ⟪y, H w⟫) • s + (1 / ⟪s, y⟫ * ⟪s, v⟫) • s) := by
  simp only [bfgsThree, addRank1_apply, map_sub, map_smul, inner_sub_right, inner_smul_right, h y v, h y y]
  module

/-- C23: for every symmetric positive definite operator and every pair with positive curvature the
update is symmetric positive definite. -/
theorem C23_bfgs_update_spd {H : E →ₗ[ℝ] E} (h : IsSPD H) {s y : E} (hsy : 0 < ⟪s, y⟫) :
    IsSPD (bfgsThree H s y ⟪s, y⟫) := by
  have key : ∀ u v, ⟪bfgsThree H s y ⟪s, y⟫ u, v⟫ =
      ⟪H (u - (1 / ⟪s, y⟫ * ⟪s, u⟫) • y), v - (1 / ⟪s, y⟫ * ⟪s, v⟫) • y⟫ +
        1 / ⟪s, y⟫ * ⟪s, u⟫ * ⟪s, v⟫ := by
    intro u v
    rw [C23_bfgs_formula h.1]
    simp only [inner_add_left, inner_sub_left, inner_sub_right, inner_smul_left, inner_smul_right,
      conj_trivial, map_sub, map_smul, real_inner_comm v s, real_inner_comm (H u) y,
      real_inner_comm (H y) y]
    ring
  constructor
  · intro u v
    rw [key, ← real_inner_comm u, key, h.1, real_inner_comm]
    ring
  · intro v hv
    rw [key]
    set w := v - (1 / ⟪s, y⟫ * ⟪s, v⟫) • y with hw
    by_cases hw0 : w = 0
    · have hvy : v = (1 / ⟪s, y⟫ * ⟪s, v⟫) • y := sub_eq_zero.mp hw0
      have ha : ⟪s, v⟫ ≠ 0 := by
        intro h0
        rw [h0] at hvy
        simp at hvy
        exact hv hvy
      rw [hw0]
      simp only [map_zero, inner_zero_left, zero_add]
      have : 0 < ⟪s, v⟫ ^ 2 := by positivity
      rw [mul_assoc, ← pow_two]
      positivity
    · have h1 := h.2 w hw0
      have h2 : 0 ≤ 1 / ⟪s, y⟫ * ⟪s, v⟫ * ⟪s, v⟫ := by
        rw [mul_assoc, ← pow_two]; positivity
      linarith

/-- C23: secant equation `H' y = s`. -/
theorem C23_bfgs_secant {H : E →ₗ[ℝ] E} (h : IsSym H) {s y : E} (hsy : ⟪s, y⟫ ≠ 0) :
    bfgsThree H s y ⟪s, y⟫ y = s := by
  rw [C23_bfgs_formula h]
  simp [hsy]

/-- C23 (Broyden family): the update is symmetric positive definite for every value `phic >= 0` of the
family parameter. -/
theorem C23_broyden_update_spd {H : E →ₗ[ℝ] E} (h : IsSPD H) {s y : E} (hsy : 0 < ⟪s, y⟫)
    {phic : ℝ} (hphi : 0 ≤ phic) : IsSPD (broydenThree H s y ⟪s, y⟫ phic) := by
  have hy : y ≠ 0 := by rintro rfl; simp at hsy
  have hyHy : 0 < ⟪y, H y⟫ := by rw [← h.1]; exact h.2 y hy
  constructor
  · exact addRank1_sym (addRank1_sym (addRank1_sym h.1 _ _) _ _) _ _
  · intro v hv
    set c := ⟪H y, v⟫ / ⟪y, H y⟫ with hc
    set u := (1 / ⟪s, y⟫) • s + (-1 / ⟪y, H y⟫) • H y with hu
    have e : ⟪broydenThree H s y ⟪s, y⟫ phic v, v⟫ =
        ⟪H (v - c • y), v - c • y⟫ + 1 / ⟪s, y⟫ * ⟪s, v⟫ ^ 2 + phic * ⟪y, H y⟫ * ⟪u, v⟫ ^ 2 := by
      have e1 : ⟪H v, y⟫ = ⟪H y, v⟫ := by rw [h.1, real_inner_comm]
      have e2 : ⟪H y, y⟫ = ⟪y, H y⟫ := real_inner_comm _ _
      have e3 : c * ⟪y, H y⟫ = ⟪H y, v⟫ := by rw [hc]; field_simp
      simp only [broydenThree, addRank1_apply, inner_add_left, inner_smul_left, conj_trivial,
        map_sub, map_smul, inner_sub_left, inner_sub_right, inner_smul_right, e1, e2, ← hu]
      have e4 : -1 / ⟪y, H y⟫ * ⟪H y, v⟫ * ⟪H y, v⟫ = - c * ⟪H y, v⟫ := by rw [hc]; ring
      rw [e4]
      linear_combination (-c) * e3
    rw [e]
    have h3 : 0 ≤ phic * ⟪y, H y⟫ * ⟪u, v⟫ ^ 2 := by positivity
    by_cases hw0 : v - c • y = 0
    · have hvy : v = c • y := sub_eq_zero.mp hw0
      have hc0 : c ≠ 0 := by
        intro h0
        rw [h0, zero_smul] at hvy
        exact hv hvy
      have ha : ⟪s, v⟫ ≠ 0 := by
        rw [hvy, inner_smul_right]
        exact mul_ne_zero hc0 hsy.ne'
      rw [hw0]
      simp only [map_zero, inner_zero_left, zero_add]
      have : 0 < 1 / ⟪s, y⟫ * ⟪s, v⟫ ^ 2 := by positivity
      linarith
    · have h1 := h.2 _ hw0
      have h2 : 0 ≤ 1 / ⟪s, y⟫ * ⟪s, v⟫ ^ 2 := by positivity
      linarith

/-- C23 (Broyden family): secant equation for every value of the parameter. -/
theorem C23_broyden_secant {H : E →ₗ[ℝ] E} {s y : E} (hsy : ⟪s, y⟫ ≠ 0) (hyHy : ⟪y, H y⟫ ≠ 0)
    (phic : ℝ) : broydenThree H s y ⟪s, y⟫ phic y = s := by
  have e2 : ⟪H y, y⟫ = ⟪y, H y⟫ := real_inner_comm _ _
  simp only [broydenThree, addRank1_apply, inner_add_left, inner_smul_left, conj_trivial, e2]
  have e3 : -1 / ⟪y, H y⟫ * ⟪y, H y⟫ = -1 := by field_simp
  have e4 : 1 / ⟪s, y⟫ * ⟪s, y⟫ = 1 := by field_simp
  rw [e3, e4]
  simp

/-- C23 (Broyden family): with the value returned by the library's `Phi` the update is the BFGS one. -/
theorem C23_broyden_default_is_bfgs {H : E →ₗ[ℝ] E} (h : IsSym H) {s y : E} (hsy : ⟪s, y⟫ ≠ 0)
    (hyHy : ⟪y, H y⟫ ≠ 0) : broydenThree H s y ⟪s, y⟫ 1 = bfgsThree H s y ⟪s, y⟫ := by
  ext v
  have e1 : ⟪H y, v⟫ = ⟪y, H v⟫ := h y v
  have e2 : ⟪H y, y⟫ = ⟪y, H y⟫ := real_inner_comm _ _
  simp only [bfgsThree, broydenThree, addRank1_apply, inner_add_left, inner_smul_left,
    conj_trivial, e1, e2]
  match_scalars
  · ring
  · field_simp
    ring
  · field_simp
    ring

/-! ## The update functions -/

theorem accept_curvature {c : Cautious} {ngf2 ngf0 inpss inpsy : ℝ} (hnu : 0 < c.nu)
    (hg : 0 < ngf2) (hss : 0 ≤ inpss) (h : acceptPair c ngf2 ngf0 inpss inpsy) : 0 < inpsy := by
  obtain ⟨⟨h0, h1⟩, -⟩ := h
  have hpos : 0 < c.nu * ngf2 ^ c.mu := mul_pos hnu (Real.rpow_pos_of_pos hg _)
  have hss' : 0 < inpss := lt_of_le_of_ne hss (Ne.symm h0)
  by_contra hcon
  have := div_nonpos_of_nonpos_of_nonneg (not_lt.mp hcon) hss'.le
  linarith

theorem rescale_spd {c : Cautious} {it : Nat} {H : E →ₗ[ℝ] E} (h : IsSPD H) (s y : E) :
    IsSPD (if c.isconvex = true ∧ it = 1 ∧ 0 < ⟪s, y⟫ then (⟪s, y⟫ / ⟪y, y⟫) • LinearMap.id else H) := by
  split
  · rename_i hc
    apply scaledId_spd
    have hy : y ≠ 0 := by rintro rfl; simp at hc
    have : 0 < ⟪y, y⟫ := by
      rw [real_inner_self_eq_norm_sq]
      have := norm_pos_iff.mpr hy
      positivity
    exact div_pos hc.2.2 this
  · exact h

/-- C23: for every call of the BFGS update with a symmetric positive definite operator, `nu > 0` and a
nonzero stored gradient norm: no division by zero, the result is symmetric positive definite, and it is
either the transported (possibly rescaled) operator or satisfies the secant equation. -/
theorem C23_rbfgs_call (c : Cautious) (p : Call E) (H : E →ₗ[ℝ] E) (h : IsSPD H) (hnu : 0 < c.nu)
    (hg : 0 < p.ngf2) :
    ∃ H', rbfgs c p H = some H' ∧ IsSPD H' ∧
      (acceptPair c p.ngf2 p.ngf0 ⟪p.s, p.s⟫ ⟪p.s, p.y⟫ → H' p.y = p.s) ∧
      (¬ acceptPair c p.ngf2 p.ngf0 ⟪p.s, p.s⟫ ⟪p.s, p.y⟫ → ¬ (c.isconvex = true ∧ p.iter = 1) →
        ∀ v, H' v = p.T (H (p.T.symm v))) := by
  unfold rbfgs
  dsimp only
  have hr : IsSPD _ := rescale_spd (c := c) (it := p.iter) h p.s p.y
  set H1 := if c.isconvex = true ∧ p.iter = 1 ∧ 0 < ⟪p.s, p.y⟫ then
    (⟪p.s, p.y⟫ / ⟪p.y, p.y⟫) • LinearMap.id else H with hH1
  by_cases ha : acceptPair c p.ngf2 p.ngf0 ⟪p.s, p.s⟫ ⟪p.s, p.y⟫
  · have hpos := accept_curvature hnu hg real_inner_self_nonneg ha
    rw [if_pos ha, if_neg hpos.ne']
    exact ⟨_, rfl, C23_bfgs_update_spd (tranH_spd hr) hpos,
      fun _ => C23_bfgs_secant (tranH_spd hr).1 hpos.ne', fun hn => absurd ha hn⟩
  · rw [if_neg ha]
    refine ⟨_, rfl, tranH_spd hr, fun hn => absurd hn ha, fun _ hc v => ?_⟩
    rw [tranH_apply, hH1, if_neg (fun hh => hc ⟨hh.1, hh.2.1⟩)]

/-- C23 for the Ring-Wirth variant. -/
theorem C23_rwrbfgs_call (c : Cautious) (p : Call E) (cot : E) (H : E →ₗ[ℝ] E) (h : IsSPD H)
    (hnu : 0 < c.nu) (hg : 0 < p.ngf2) : ∃ H', rwrbfgs c p cot H = some H' ∧ IsSPD H' ∧
      (acceptPair c p.ngf2 p.ngf0 ⟪p.eta2, p.eta2⟫ ⟪p.eta2, cot - p.gf1⟫ →
        H' (p.T (cot - p.gf1)) = p.T p.eta2) := by
  unfold rwrbfgs
  dsimp only
  have hr : IsSPD _ := rescale_spd (c := c) (it := p.iter) h p.eta2 (cot - p.gf1)
  by_cases ha : acceptPair c p.ngf2 p.ngf0 ⟪p.eta2, p.eta2⟫ ⟪p.eta2, cot - p.gf1⟫
  · have hpos := accept_curvature hnu hg real_inner_self_nonneg ha
    rw [if_pos ha, if_neg hpos.ne']
    refine ⟨_, rfl, tranH_spd (C23_bfgs_update_spd hr hpos), fun _ => ?_⟩
    rw [tranH_apply, LinearIsometryEquiv.symm_apply_apply, C23_bfgs_secant hr.1 hpos.ne']
  · rw [if_neg ha]
    exact ⟨_, rfl, tranH_spd hr, fun hn => absurd hn ha⟩

/-- C23 for the Broyden family with any nonnegative `Phi`. -/
theorem C23_rbroyden_call (c : Cautious) (phic : ℝ) (hphi : 0 ≤ phic) (p : Call E) (H : E →ₗ[ℝ] E)
    (h : IsSPD H) (hnu : 0 < c.nu) (hg : 0 < p.ngf2) :
    ∃ H', rbroyden c phic p H = some H' ∧ IsSPD H' ∧
      (acceptPair c p.ngf2 p.ngf0 ⟪p.s, p.s⟫ ⟪p.s, p.y⟫ → H' p.y = p.s) := by
  unfold rbroyden
  dsimp only
  have hr : IsSPD _ := rescale_spd (c := c) (it := p.iter) h p.s p.y
  by_cases ha : acceptPair c p.ngf2 p.ngf0 ⟪p.s, p.s⟫ ⟪p.s, p.y⟫
  · have hpos := accept_curvature hnu hg real_inner_self_nonneg ha
    have hy : p.y ≠ 0 := by intro h0; rw [h0] at hpos; simp at hpos
    have ht := tranH_spd (T := p.T) hr
    have hyHy := ht.2 _ hy
    rw [real_inner_comm] at hyHy
    rw [if_pos ha, if_neg (not_or.mpr ⟨hpos.ne', hyHy.ne'⟩)]
    exact ⟨_, rfl, C23_broyden_update_spd ht hpos hphi,
      fun _ => C23_broyden_secant hpos.ne' hyHy.ne' phic⟩
  · rw [if_neg ha]
    exact ⟨_, rfl, tranH_spd hr, fun hn => absurd hn ha⟩

/-! ## Whole runs -/

/-- With a zero gradient the step is zero and the pair is rejected. -/
theorem reject_zero_step (c : Cautious) (ngf2 ngf0 sy : ℝ) : ¬ acceptPair c ngf2 ngf0 0 sy := by
  intro h
  exact h.1.1 rfl

/-- C23: for every run of RBFGS (`nu > 0`, isometric transports), whatever step sizes, gradients and
scalings occur, no update divides by zero and the operator is symmetric positive definite after every
iteration. -/
theorem C23_rbfgs_run (c : Cautious) (hnu : 0 < c.nu) (ngf0 : ℝ) (ins : List (IterIn E))
    (st : QNState E) (h : IsSPD st.H) :
    ∃ st', runQN (rbfgs c) ngf0 ins st = some st' ∧ IsSPD st'.H ∧
      st'.iter = st.iter + ins.length := by
  induction ins generalizing st with
  | nil => exact ⟨st, rfl, h, rfl⟩
  | cons i is ih =>
    set p : Call E := ⟨i.T, i.t • qnDir st.H st.gf1, st.gf1, i.gf2, i.beta, ‖st.gf1‖, ngf0,
      st.iter + 1⟩ with hp
    have hstep : ∃ H', rbfgs c p st.H = some H' ∧ IsSPD H' := by
      by_cases hg : st.gf1 = 0
      · have hs : p.s = 0 := by simp [Call.s, hp, qnDir, hg]
        have hr : IsSPD _ := rescale_spd (c := c) (it := p.iter) h p.s p.y
        refine ⟨_, ?_, tranH_spd (T := p.T) hr⟩
        unfold rbfgs
        dsimp only
        rw [if_neg]
        rw [hs, inner_zero_left]
        exact reject_zero_step _ _ _ _
      · obtain ⟨H', h1, h2, -⟩ := C23_rbfgs_call c p st.H h hnu (norm_pos_iff.mpr hg)
        exact ⟨H', h1, h2⟩
    obtain ⟨H', h1, h2⟩ := hstep
    obtain ⟨st', h3, h4, h5⟩ := ih { H := H', gf1 := i.gf2, iter := st.iter + 1 } h2
    refine ⟨st', ?_, h4, ?_⟩
    · rw [runQN, runStep, h1]
      exact h3
    · rw [h5]; simp; omega

/-- C18 for RBFGS: in every state reached by a run the search direction is a descent direction as long as
the gradient is nonzero. -/
theorem C18_rbfgs_descent (c : Cautious) (hnu : 0 < c.nu) (ngf0 : ℝ) (ins : List (IterIn E))
    (st st' : QNState E) (h : IsSPD st.H) (hr : runQN (rbfgs c) ngf0 ins st = some st')
    (hg : st'.gf1 ≠ 0) : ⟪qnDir st'.H st'.gf1, st'.gf1⟫ < 0 := by
  obtain ⟨st'', h1, h2, -⟩ := C23_rbfgs_run c hnu ngf0 ins st h
  rw [hr] at h1
  obtain rfl := Option.some.inj h1
  rw [qnDir, inner_neg_left]
  linarith [h2.2 _ hg]

/-- C23, the boundary: with `nu = 0` (accepted by `CheckParams`) the guard lets a pair with zero curvature
through once the gradient is small, and the update divides by zero. -/
theorem C23_zero_nu_divides_by_zero :
    ∃ (c : Cautious) (p : Call ℝ), c.nu = 0 ∧ 0 < c.eps ∧ 0 < p.ngf2 ∧
      rbfgs c p LinearMap.id = none := by
  refine ⟨⟨0, 1, 1 / 2, false⟩, ⟨LinearIsometryEquiv.refl ℝ ℝ, 1, 1 / 10000, 1 / 10000, 1, 1 / 10000, 1, 2⟩,
    rfl, by norm_num, by norm_num, ?_⟩
  have hs : (⟨LinearIsometryEquiv.refl ℝ ℝ, 1, 1 / 10000, 1 / 10000, 1, 1 / 10000, 1, 2⟩ : Call ℝ).s
    = 1 := by simp [Call.s]
  have hy : (⟨LinearIsometryEquiv.refl ℝ ℝ, 1, 1 / 10000, 1 / 10000, 1, 1 / 10000, 1, 2⟩ : Call ℝ).y
    = 0 := by simp [Call.y]
  unfold rbfgs
  simp only [hs, hy, inner_zero_right]
  rw [if_pos, if_pos trivial]
  refine ⟨⟨by simp, by simp⟩, Or.inl ⟨by norm_num, by norm_num⟩⟩

/-- A concrete run meeting the hypotheses of the run theorems: identity start, one quadratic step in the
real line, accepted by the guard. -/
example : ∃ st', runQN (rbfgs ⟨1 / 10000, 1, 1 / 1000, true⟩) 2
    [⟨LinearIsometryEquiv.refl ℝ ℝ, 1 / 4, 1, 1⟩] ⟨LinearMap.id, (2 : ℝ), 0⟩ = some st' ∧
    st'.H (-1) = -(1 / 2) := by
  set p : Call ℝ := ⟨LinearIsometryEquiv.refl ℝ ℝ, (1 / 4 : ℝ) • qnDir LinearMap.id (2 : ℝ), 2, 1, 1,
    ‖(2 : ℝ)‖, 2, 1⟩ with hp
  have hs : p.s = -(1 / 2) := by simp [hp, Call.s, qnDir]; norm_num
  have hy : p.y = -1 := by simp [hp, Call.y]; norm_num
  have hid : IsSPD (LinearMap.id : ℝ →ₗ[ℝ] ℝ) := by
    have := scaledId_spd (E := ℝ) one_pos
    rwa [one_smul] at this
  obtain ⟨H', h1, -, h3, -⟩ := C23_rbfgs_call ⟨1 / 10000, 1, 1 / 1000, true⟩ p LinearMap.id hid
    (by norm_num) (by simp [hp])
  refine ⟨⟨H', 1, 1⟩, ?_, ?_⟩
  · simp only [runQN, runStep]
    rw [← hp, h1]
    rfl
  · have := h3 (by rw [hs, hy]; refine ⟨⟨by simp, ?_⟩, Or.inr ?_⟩ <;> simp [hp] <;> norm_num)
    rw [hs, hy] at this
    exact this

/-! ## SR1 -/

/-- C27: whenever the SR1 update is applied to a symmetric operator the result is symmetric. -/
theorem C27_sr1_symmetric (eps ngf2 ngf0 : ℝ) (iter : Nat) (s y : E) (B B' : E →ₗ[ℝ] E)
    (h : IsSym B) (hr : rtrsr1 eps ngf2 ngf0 iter s y B = some B') : IsSym B' := by
  unfold rtrsr1 at hr
  dsimp only at hr
  have h1 : IsSym (if iter = 1 then (⟪y, y⟫ / ⟪s, y⟫) • LinearMap.id else B) := by
    split
    · intro u v
      simp [inner_smul_left, inner_smul_right]
    · exact h
  split at hr
  · cases hr
  · split at hr
    · split at hr
      · cases hr
      · injection hr with hr
        rw [← hr]
        exact addRank1_sym h1 _ _
    · injection hr with hr
      rw [← hr]
      exact h1

/-- C27 (partial): in every iteration but the second (`iter == 1`) an applied SR1 update satisfies the
secant equation `B' s = y`; a skipped one leaves the operator unchanged. -/
theorem C27_sr1_secant_partial (eps ngf2 ngf0 : ℝ) (iter : Nat) (s y : E) (B B' : E →ₗ[ℝ] E)
    (hi : iter ≠ 1) (hr : rtrsr1 eps ngf2 ngf0 iter s y B = some B') : B' s = y ∨ B' = B := by
  unfold rtrsr1 at hr
  dsimp only at hr
  rw [if_neg (fun h => hi h.1), if_neg hi] at hr
  split at hr
  · split at hr
    · cases hr
    · rename_i hden
      injection hr with hr
      left
      rw [← hr, addRank1_apply, real_inner_comm s]
      rw [one_div_mul_cancel hden]
      simp
  · injection hr with hr
    right; exact hr.symm

/-- C27 violated in the iteration with `iter == 1`: the operator is reset to a multiple of the identity
after the correction was computed from the old operator, and the secant equation fails. -/
theorem C27_sr1_secant_fails_at_reset :
    ∃ (s y : ℝ) (B B' : ℝ →ₗ[ℝ] ℝ), IsSym B ∧
      rtrsr1 (1 / 1000) 1 1 1 s y B = some B' ∧ B' ≠ B ∧ B' s ≠ y := by
  refine ⟨1, 2, LinearMap.id, addRank1 ((⟪(2 : ℝ), 2⟫ / ⟪(1 : ℝ), 2⟫) • LinearMap.id) (1 / 1) 1 1,
    fun u v => rfl, ?_, ?_, ?_⟩
  · have hz : (2 : ℝ) - LinearMap.id (R := ℝ) (1 : ℝ) = 1 := by simp; norm_num
    unfold rtrsr1
    dsimp only
    rw [hz, if_neg (by simp), if_pos rfl, if_pos, if_neg (by simp)]
    · simp
    · simp; norm_num
  · intro h
    have := congrArg (fun f => f (1 : ℝ)) h
    simp [addRank1_apply] at this
  · simp [addRank1_apply]; norm_num

/-- C27, second violation: close to convergence an exact secant pair (`y = B s`) passes the guard and the
update divides by zero. -/
theorem C27_sr1_divides_by_zero (eps ngf2 ngf0 : ℝ) (iter : Nat) (s : E) (B : E →ₗ[ℝ] E)
    (hi : iter ≠ 1) (h0 : ngf0 ≠ 0) (hsmall : ngf2 / ngf0 < 1 / 1000) :
    rtrsr1 eps ngf2 ngf0 iter s (B s) B = none := by
  unfold rtrsr1
  simp only [sub_self, inner_zero_right, mul_zero]
  rw [if_neg (fun h => hi h.1), if_pos ⟨le_refl _, Or.inr ⟨h0, hsmall⟩⟩, if_pos trivial]

/-- A concrete SR1 update meeting the hypotheses of the secant theorem. -/
example : ∃ B', rtrsr1 (1 / 1000) 1 1 0 (1 : ℝ) 2 LinearMap.id = some B' ∧ B' 1 = 2 := by
  have hz : (2 : ℝ) - LinearMap.id (R := ℝ) (1 : ℝ) = 1 := by simp; norm_num
  refine ⟨addRank1 LinearMap.id (1 / ⟪(1 : ℝ), 1⟫) 1 1, ?_, ?_⟩
  · unfold rtrsr1
    dsimp only
    rw [hz, if_neg (by simp), if_pos, if_neg (by simp)]
    · simp
    · simp; norm_num
  · simp [addRank1_apply]; norm_num

end Verif.QN
