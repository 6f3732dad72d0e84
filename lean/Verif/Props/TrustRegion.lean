import Verif.Solver.TrustRegionLemmas
import Verif.Props.TRRun

/-!
# C21, C22: truncated conjugate gradients
-/

set_option linter.unusedSectionVars false
set_option linter.unusedVariables false

namespace Verif.TR

open scoped RealInnerProductSpace Classical
open Verif.QN (IsSym IsSPD)
open Verif.TRRun (Status)

variable {E : Type*} [NormedAddCommGroup E] [InnerProductSpace ℝ E]

section
variable {L : Local E} {M : E →ₗ[ℝ] E}

/-- What a result of the inner loop must satisfy, relative to the state it was started from. -/
structure Good (L : Local E) (M : E →ₗ[ℝ] E) (s : CG E) (n : Nat) (eta : E) (st : Status) : Prop where
  inside : ⟪eta, M eta⟫ ≤ L.Delta * L.Delta
  le : model L.g L.H eta ≤ model L.g L.H s.eta
  strict : 0 < n → model L.g L.H eta < model L.g L.H s.eta
  cauchy : 0 < n → ∀ t : ℝ, 0 ≤ t → ePeNew s t ≤ L.Delta * L.Delta →
    model L.g L.H eta ≤ model L.g L.H (s.eta + t • s.delta)
  no_error : st ≠ .error
  boundary : st = .negCurv ∨ st = .excRegion → ⟪eta, M eta⟫ = L.Delta * L.Delta
  converged : st = .lCon ∨ st = .sCon → ‖L.g + L.H eta‖ ≤ L.tol

theorem tcg_good (hH : IsSym L.H) (hP : IsSPD L.P) (hM : Inverse L.P M) :
    ∀ (n j : Nat) (K : Submodule ℝ E) (s : CG E), CGInv L M K s → s.modelv = model L.g L.H s.eta →
      s.ePe < L.Delta * L.Delta → (s.r = 0 → s.delta = 0) →
      ∀ eta st, tcg L n j s = some (eta, st) → Good L M s n eta st := by
  intro n
  induction n with
  | zero =>
    intro j K s h hmv hin hr0 eta st hres
    simp only [tcg, Option.some.injEq, Prod.mk.injEq] at hres
    obtain ⟨rfl, rfl⟩ := hres
    refine ⟨?_, le_refl _, by simp, by simp, by simp, by simp, by simp⟩
    rw [← h.ePe_eq]; exact hin.le
  | succ n ih =>
    intro j K s h hmv hin hr0 eta st hres
    have hMs := hM.sym hP.1
    simp only [tcg] at hres
    by_cases hr : s.r = 0
    · have hd := hr0 hr
      have hdP : s.dPd = 0 := by rw [h.dPd_eq, hd]; simp
      rw [if_pos (by left; rw [hd]; simp)] at hres
      unfold tau at hres
      rw [if_pos (Or.inl hdP)] at hres
      simp at hres
    have hz := h.zr_pos hP hr
    have hdP := h.dPd_pos hM hP hr
    set D := ⟪s.delta, L.H s.delta⟫ with hD
    set alpha := s.zr / D with halpha
    by_cases hexit : D ≤ 0 ∨ L.Delta * L.Delta ≤ ePeNew s alpha
    · rw [if_pos hexit] at hres
      obtain ⟨t, ht, htpos, hbd⟩ := tau_spec hdP hin
      have htp := htpos h.ePd_nonneg
      rw [ht] at hres
      simp only [Option.map_some, Option.some.injEq, Prod.mk.injEq] at hres
      obtain ⟨rfl, rfl⟩ := hres
      have hnorm := h.norm_along hMs t
      have htD : t * D ≤ s.zr := by
        by_cases hDpos : D ≤ 0
        · nlinarith
        · push Not at hDpos
          have hge : L.Delta * L.Delta ≤ ePeNew s alpha := hexit.resolve_left (not_le.mpr hDpos)
          have hapos : 0 < alpha := div_pos hz hDpos
          have : t ≤ alpha := by
            by_contra hc
            push Not at hc
            have := ePeNew_strict hdP h.ePd_nonneg hapos.le hc
            linarith
          calc t * D ≤ alpha * D := mul_le_mul_of_nonneg_right this hDpos.le
            _ = s.zr := div_mul_cancel₀ _ hDpos.ne'
      have hstrict : model L.g L.H (s.eta + t • s.delta) < model L.g L.H s.eta := by
        rw [h.model_along hH]
        nlinarith
      refine ⟨by rw [hnorm, hbd], hstrict.le, fun _ => hstrict, ?_, by split <;> simp, fun _ => by rw [hnorm, hbd], ?_⟩
      · intro _ u hu hfeas
        have hut : u ≤ t := by
          by_contra hc
          push Not at hc
          have := ePeNew_strict hdP h.ePd_nonneg htp.le hc
          linarith
        rw [h.model_along hH, h.model_along hH, ← hD]
        have h1 : (t - u) * (s.zr - 1 / 2 * (t + u) * D) ≥ 0 := by
          apply mul_nonneg (by linarith)
          by_cases hD0 : 0 ≤ D
          · nlinarith
          · push Not at hD0
            nlinarith
        nlinarith
      · split <;> simp
    · rw [if_neg hexit] at hres
      push Not at hexit
      obtain ⟨hDpos, hinside⟩ := hexit
      have haD : alpha * D = s.zr := div_mul_cancel₀ _ hDpos.ne'
      have hapos : 0 < alpha := div_pos hz hDpos
      have hmv1 : (cgMove L s alpha).modelv = model L.g L.H (s.eta + alpha • s.delta) := by
        simp only [cgMove, model, h.Heta_eq, map_add, map_smul]
      have hlt : model L.g L.H (s.eta + alpha • s.delta) < model L.g L.H s.eta := by
        rw [h.model_along hH]
        nlinarith
      rw [if_neg (by rw [hmv1, hmv]; exact not_le.mpr hlt)] at hres
      have hcauchy : ∀ u : ℝ, model L.g L.H (s.eta + alpha • s.delta) ≤ model L.g L.H (s.eta + u • s.delta) := by
        intro u
        rw [h.model_along hH, h.model_along hH, ← hD]
        nlinarith [mul_nonneg hDpos.le (mul_self_nonneg (alpha - u))]
      have hr1 : (cgMove L s alpha).r = L.g + L.H (s.eta + alpha • s.delta) := by
        show s.r + alpha • L.H s.delta = _
        rw [h.r_eq, map_add, map_smul, add_assoc]
      have hnorm := h.norm_along hMs alpha
      by_cases hconv : L.minInner ≤ j ∧ ‖(cgMove L s alpha).r‖ ≤ L.tol
      · rw [if_pos hconv] at hres
        simp only [Option.some.injEq, Prod.mk.injEq] at hres
        obtain ⟨rfl, rfl⟩ := hres
        have hst : L.conv = .lCon ∨ L.conv = .sCon := by unfold Local.conv; split <;> simp
        refine ⟨?_, hlt.le, fun _ => hlt, fun _ u _ _ => hcauchy u, ?_, ?_, ?_⟩
        · show ⟪s.eta + alpha • s.delta, M (s.eta + alpha • s.delta)⟫ ≤ _
          rw [hnorm]; exact hinside.le
        · rcases hst with e | e <;> rw [e] <;> simp
        · rcases hst with e | e <;> rw [e] <;> simp
        · intro _
          have := hconv.2
          rw [hr1] at this
          exact this
      · rw [if_neg hconv, if_neg hz.ne'] at hres
        have hinv := h.step hH hP hM hDpos hz (cgMove L s alpha).modelv
        simp only [← hD, ← halpha] at hinv
        have hgood := ih (j + 1) _ _ hinv hmv1 hinside ?_ eta st hres
        · have hle : model L.g L.H eta ≤ model L.g L.H (s.eta + alpha • s.delta) := hgood.le
          exact ⟨hgood.inside, le_trans hle hlt.le, fun _ => lt_of_le_of_lt hle hlt,
            fun _ u _ _ => le_trans hle (hcauchy u), hgood.no_error, hgood.boundary, hgood.converged⟩
        · intro hr0'
          have hr0'' : (cgMove L s alpha).r = 0 := hr0'
          show (⟪L.P (cgMove L s alpha).r, (cgMove L s alpha).r⟫ / s.zr) • s.delta - L.P (cgMove L s alpha).r = 0
          rw [hr0'']
          simp

/-- **C21.** Every result of the truncated conjugate gradient solver, for every symmetric Hessian operator, every
symmetric positive definite preconditioner (with inverse `M`), every nonzero gradient, positive radius, parameters and iteration cap:
the step is inside the trust region, the quadratic model strictly decreases (at least one pass), at least as much as at any
feasible multiple of the preconditioned steepest-descent direction (Cauchy decrease), the status "model increased" never
occurs, the statuses "negative curvature" and "exceeded region" mean that the step is on the boundary, and the two
"converged" statuses mean that the residual of the Newton equation meets the tolerance. -/
theorem C21_tcg_step (hH : IsSym L.H) (hP : IsSPD L.P) (hM : Inverse L.P M) (hDelta : 0 < L.Delta) (hg : L.g ≠ 0)
    {maxInner : Nat} {eta : E} {st : Status} (h : tCG L maxInner = some (eta, st)) :
    ⟪eta, M eta⟫ ≤ L.Delta * L.Delta ∧
    ⟪eta, L.g⟫ + 1 / 2 * ⟪eta, L.H eta⟫ ≤ 0 ∧
    (0 < maxInner → ⟪eta, L.g⟫ + 1 / 2 * ⟪eta, L.H eta⟫ < 0) ∧
    (0 < maxInner → ∀ t : ℝ, 0 ≤ t → ⟪t • -L.P L.g, M (t • -L.P L.g)⟫ ≤ L.Delta * L.Delta →
      ⟪eta, L.g⟫ + 1 / 2 * ⟪eta, L.H eta⟫ ≤
        ⟪t • -L.P L.g, L.g⟫ + 1 / 2 * ⟪t • -L.P L.g, L.H (t • -L.P L.g)⟫) ∧
    st ≠ .error ∧
    (st = .negCurv ∨ st = .excRegion → ⟪eta, M eta⟫ = L.Delta * L.Delta) ∧
    (st = .lCon ∨ st = .sCon → ‖L.g + L.H eta‖ ≤ L.tol) := by
  have hinv := start_inv L M hM
  have hgood := tcg_good hH hP hM maxInner 0 ⊥ L.start hinv (by simp [Local.start, model])
    (by simp only [Local.start]; positivity) (by intro h0; exact absurd h0 hg) eta st h
  have e0 : model L.g L.H L.start.eta = 0 := by simp [Local.start, model]
  refine ⟨hgood.inside, ?_, ?_, ?_, hgood.no_error, hgood.boundary, hgood.converged⟩
  · have := hgood.le; rw [e0] at this; exact this
  · intro hn
    have := hgood.strict hn; rw [e0] at this; exact this
  · intro hn t ht hfeas
    have h1 := hinv.norm_along (hM.sym hP.1) t
    have h2 : L.start.eta + t • L.start.delta = t • -L.P L.g := by simp [Local.start]
    rw [h2] at h1
    have := hgood.cauchy hn t ht (by rw [← h1]; exact hfeas)
    rw [h2] at this
    exact this

/-- **C21 (meaning of convergence).** A "converged" status means that the residual of the Newton equation was reduced both below the fraction
`kappa` of the gradient norm and below its power `1 + theta`. -/
theorem C21_converged_residual (hH : IsSym L.H) (hP : IsSPD L.P) (hM : Inverse L.P M) (hDelta : 0 < L.Delta) (hg : L.g ≠ 0)
    {maxInner : Nat} {eta : E} {st : Status} (h : tCG L maxInner = some (eta, st)) (hst : st = .lCon ∨ st = .sCon) :
    ‖L.g + L.H eta‖ ≤ L.kappa * ‖L.g‖ ∧ ‖L.g + L.H eta‖ ≤ ‖L.g‖ ^ (1 + L.theta) := by
  have h1 := (C21_tcg_step hH hP hM hDelta hg h).2.2.2.2.2.2 hst
  have hpos : 0 < ‖L.g‖ := norm_pos_iff.mpr hg
  have hpow : ‖L.g‖ ^ (1 + L.theta) = ‖L.g‖ * ‖L.g‖ ^ L.theta := by
    rw [Real.rpow_add hpos, Real.rpow_one]
  unfold Local.tol at h1
  simp only [] at h1
  rw [hpow]
  split at h1
  · rename_i hlt
    exact ⟨le_trans h1 (by rw [mul_comm]; exact mul_le_mul_of_nonneg_right hlt.le hpos.le), h1⟩
  · rename_i hge
    exact ⟨by rw [mul_comm]; exact h1, le_trans h1 (mul_le_mul_of_nonneg_left (not_lt.mp hge) hpos.le)⟩

/-- **C21, without preconditioner** (the default): the norm of the step is at most the radius. -/
theorem C21_tcg_norm_le_radius (hH : IsSym L.H) (hP : L.P = LinearMap.id) (hDelta : 0 < L.Delta) (hg : L.g ≠ 0)
    {maxInner : Nat} {eta : E} {st : Status} (h : tCG L maxInner = some (eta, st)) : ‖eta‖ ≤ L.Delta := by
  have hspd : IsSPD L.P := by
    rw [hP]
    refine ⟨fun u v => rfl, fun v hv => ?_⟩
    simp only [LinearMap.id_coe, id_eq]
    exact real_inner_self_pos.mpr hv
  have hinv : Inverse L.P (LinearMap.id : E →ₗ[ℝ] E) := by
    rw [hP]; exact ⟨fun _ => rfl, fun _ => rfl⟩
  have := (C21_tcg_step hH hspd hinv hDelta hg h).1
  simp only [LinearMap.id_coe, id_eq, real_inner_self_eq_norm_mul_norm] at this
  exact (mul_self_le_mul_self_iff (norm_nonneg _) hDelta.le).mpr this

/-- The inner loop does not break down when `Min_Inner_Iter = 0`. -/
theorem tcg_some (hH : IsSym L.H) (hP : IsSPD L.P) (hM : Inverse L.P M) (hmin : L.minInner = 0) (htol : 0 ≤ L.tol) :
    ∀ (n j : Nat) (K : Submodule ℝ E) (s : CG E), CGInv L M K s → s.modelv = model L.g L.H s.eta →
      s.ePe < L.Delta * L.Delta → s.r ≠ 0 → ∃ r, tcg L n j s = some r := by
  intro n
  induction n with
  | zero => intro j K s _ _ _ _; exact ⟨_, rfl⟩
  | succ n ih =>
    intro j K s h hmv hin hr
    have hz := h.zr_pos hP hr
    have hdP := h.dPd_pos hM hP hr
    simp only [tcg]
    by_cases hexit : ⟪s.delta, L.H s.delta⟫ ≤ 0 ∨ L.Delta * L.Delta ≤ ePeNew s (s.zr / ⟪s.delta, L.H s.delta⟫)
    · rw [if_pos hexit]
      obtain ⟨t, ht, _, _⟩ := tau_spec hdP hin
      rw [ht]
      exact ⟨_, rfl⟩
    · rw [if_neg hexit]
      push Not at hexit
      obtain ⟨hDpos, hinside⟩ := hexit
      split
      · exact ⟨_, rfl⟩
      · split
        · exact ⟨_, rfl⟩
        · rename_i hconv
          rw [if_neg hz.ne']
          have hinv := h.step hH hP hM hDpos hz (cgMove L s (s.zr / ⟪s.delta, L.H s.delta⟫)).modelv
          refine ih (j + 1) _ _ hinv ?_ hinside ?_
          · simp only [cgMove, cgDir, model, h.Heta_eq, map_add, map_smul]
          · intro hr0
            apply hconv
            refine ⟨by omega, ?_⟩
            have : (cgMove L s (s.zr / ⟪s.delta, L.H s.delta⟫)).r = 0 := hr0
            rw [this, norm_zero]
            exact htol

/-- **C21 (no breakdown).** With `Min_Inner_Iter = 0` (the default) and `kappa >= 0` the solver always returns a step for a nonzero
gradient: no division by zero and no square root of a negative number, for all operators and iteration caps. -/
theorem C21_tcg_no_breakdown (hH : IsSym L.H) (hP : IsSPD L.P) (hM : Inverse L.P M) (hDelta : 0 < L.Delta) (hg : L.g ≠ 0)
    (hmin : L.minInner = 0) (hk : 0 ≤ L.kappa) (maxInner : Nat) : ∃ r, tCG L maxInner = some r := by
  refine tcg_some hH hP hM hmin ?_ maxInner 0 ⊥ L.start (start_inv L M hM) (by simp [Local.start, model])
    (by simp only [Local.start]; positivity) hg
  unfold Local.tol
  simp only []
  apply mul_nonneg (norm_nonneg _)
  split
  · exact Real.rpow_nonneg (norm_nonneg _) _
  · exact hk

/-- **C21 (finding).** `Min_Inner_Iter >= 1` breaks the solver exactly when it works best: if the first conjugate gradient step
solves the Newton equation (here with the identity as Hessian and preconditioner and the solution inside the region) the second pass
divides zero by zero. -/
theorem C21_min_inner_iter_breaks_down (L : Local E) (hH : L.H = LinearMap.id) (hP : L.P = LinearMap.id)
    (hg : L.g ≠ 0) (hin : ‖L.g‖ < L.Delta) (hmin : 1 ≤ L.minInner) (n : Nat) : tCG L (n + 2) = none := by
  have hgg : 0 < ⟪L.g, L.g⟫ := real_inner_self_pos.mpr hg
  have hD0 : 0 ≤ L.Delta := le_trans (norm_nonneg _) hin.le
  have hlt : ⟪L.g, L.g⟫ < L.Delta * L.Delta := by
    rw [real_inner_self_eq_norm_mul_norm]
    exact mul_self_lt_mul_self (norm_nonneg _) hin
  have hz : L.start.zr = ⟪L.g, L.g⟫ := by simp [Local.start, hP]
  have hdHd : ⟪L.start.delta, L.H L.start.delta⟫ = ⟪L.g, L.g⟫ := by simp [Local.start, hP, hH]
  have hal : L.start.zr / ⟪L.start.delta, L.H L.start.delta⟫ = 1 := by rw [hz, hdHd]; exact div_self hgg.ne'
  unfold tCG
  simp only [tcg]
  rw [hal, if_neg, if_neg, if_neg, if_neg (by rw [hz]; exact hgg.ne')]
  · have hr1 : (cgMove L L.start 1).r = 0 := by simp [cgMove, Local.start, hP, hH]
    have hd : (cgDir L (cgMove L L.start 1) 1 (ePeNew L.start 1)).delta = 0 := by simp [cgDir, hr1]
    have hdP : (cgDir L (cgMove L L.start 1) 1 (ePeNew L.start 1)).dPd = 0 := by simp [cgDir, hr1]
    rw [if_pos (by left; rw [hd]; simp)]
    unfold tau
    rw [if_pos (Or.inl hdP)]
    rfl
  · omega
  · simp only [cgMove, Local.start, hP, hH]
    simp only [LinearMap.id_coe, id_eq, one_smul, zero_add, inner_neg_left, inner_neg_right, neg_neg]
    linarith
  · rw [hdHd]
    push Not
    refine ⟨hgg, ?_⟩
    simp only [ePeNew, Local.start, hP, LinearMap.id_coe, id_eq]
    linarith

/-- A case meeting the hypotheses of the C21 theorems: the real line, an indefinite (negative) Hessian, radius 1. -/
example : ∃ (L : Local ℝ), IsSym L.H ∧ L.P = LinearMap.id ∧ 0 < L.Delta ∧ L.g ≠ 0 ∧ L.minInner = 0 ∧ 0 ≤ L.kappa ∧
    ⟪(1 : ℝ), L.H 1⟫ < 0 :=
  ⟨⟨1, -LinearMap.id, LinearMap.id, 1, 1, 1 / 10, 0⟩, by
    refine ⟨?_, rfl, by norm_num, by norm_num, rfl, by norm_num, by simp⟩
    intro u v
    simp⟩

/-- **C21 (finding).** At a stationary point the solver returns no step: its first pass divides zero by zero. -/
theorem C21_zero_gradient_breaks_down (L : Local E) (hg : L.g = 0) (n : Nat) : tCG L (n + 1) = none := by
  unfold tCG
  simp only [tcg]
  have hd : L.start.delta = 0 := by simp [Local.start, hg]
  have hdP : L.start.dPd = 0 := by simp [Local.start, hg]
  have ht : tau L.Delta L.start = none := by unfold tau; rw [if_pos (Or.inl hdP)]
  rw [if_pos (by left; rw [hd]; simp), ht]
  rfl

/-! ## C20 for the trust-region Newton solver -/

/-- **C20 (partial), whole solver.** The trust-region Newton solver with its truncated conjugate gradient inner solver, for every
manifold problem whose Hessian operators are symmetric and whose preconditioners are symmetric positive definite, every
retraction, radius parameters, stopping test and iteration cap: the objective never increases along the iterates and strictly
decreases whenever the iterate moves, as long as the accuracy branch was not active at an earlier iterate. -/
theorem C20_rtr_iterates_decrease_partial {X : Type} {T : X → Type} [∀ x, NormedAddCommGroup (T x)]
    [∀ x, InnerProductSpace ℝ (T x)] (p : Prob X T) (C : TRRun.Cfg ℝ) {s : TRRun.St ℝ X}
    (h : TRRun.Reaches C p.env s) (hH : ∀ x, IsSym (p.H x)) (hP : ∀ x, IsSPD (p.P x))
    (hM : ∀ x, ∃ M, Inverse (p.P x) M) (hinner : 0 < p.maxInner) (hrho : 0 ≤ C.acceptRho)
    (hi : 0 < C.initialDelta) (hmax : 0 < C.maximumDelta) (hsh : 0 < C.shrinked) (hmg : 0 < C.magnified)
    (hna : ∀ x ∈ s.xs.tail, TRRun.accurate C ‖p.g p.x0‖ ‖p.g x‖ = false) :
    s.xs.Pairwise (fun new old => new = old ∨ p.f new < p.f old) := by
  refine TRRun.C20_iterates_decrease_partial h hrho hi hmax hsh hmg ?_ hna
  intro k x D hD hfin
  obtain ⟨M, hM⟩ := hM x
  simp only [Prob.env, Prob.cand] at hfin ⊢
  match hr : tCG (p.local x D) p.maxInner with
  | none => rw [hr] at hfin; simp at hfin
  | some (eta, st) =>
    have hg : (p.local x D).g ≠ 0 := by
      intro h0
      obtain ⟨n, hn⟩ := Nat.exists_eq_succ_of_ne_zero hinner.ne'
      rw [hn, C21_zero_gradient_breaks_down _ h0 n] at hr
      simp at hr
    have := (C21_tcg_step (L := p.local x D) (hH x) (hP x) hM hD hg hr).2.2.1 hinner
    simp only [inner_add_right, inner_smul_right]
    exact this

/-! ## C22: Newton-CG directions -/

/-- Along the loop of the Newton solver the iterate stays a nonpositive multiple direction of the gradient and the search direction
a descent direction; with `strict` once a step has been made. -/
theorem tcgLS_descent (hH : IsSym L.H) (hP : IsSPD L.P) (hM : Inverse L.P M) {eps : ℝ} :
    ∀ (n j : Nat) (K : Submodule ℝ E) (s : CG E), CGInv L M K s → (s.r = 0 → s.delta = 0) →
      ⟪s.eta, L.g⟫ ≤ 0 → (0 < j → ⟪s.eta, L.g⟫ < 0) → (j = 0 → ⟪s.delta, L.g⟫ < 0) → (s.r ≠ 0 → ⟪s.delta, L.g⟫ < 0) →
      ∀ eta delta i st, tcgLS L eps n j s = some (eta, delta, i, st) →
        (i = 0 → ⟪delta, L.g⟫ < 0) ∧ (i ≠ 0 → ⟪eta, L.g⟫ < 0) := by
  intro n
  induction n with
  | zero =>
    intro j K s h hr0 h1 h2 h3 h3' eta delta i st hres
    simp only [tcgLS, Option.some.injEq, Prod.mk.injEq] at hres
    obtain ⟨rfl, rfl, rfl, rfl⟩ := hres
    exact ⟨h3, fun hi => h2 (Nat.pos_of_ne_zero hi)⟩
  | succ n ih =>
    intro j K s h hr0 h1 h2 h3 h3' eta delta i st hres
    simp only [tcgLS] at hres
    split at hres
    · simp only [Option.some.injEq, Prod.mk.injEq] at hres
      obtain ⟨rfl, rfl, rfl, rfl⟩ := hres
      exact ⟨h3, fun hi => h2 (Nat.pos_of_ne_zero hi)⟩
    · rename_i hd
      push Not at hd
      have hr : s.r ≠ 0 := by
        intro h0
        rw [hr0 h0] at hd
        simp at hd
      have hz := h.zr_pos hP hr
      have hapos : 0 < s.zr / ⟪s.delta, L.H s.delta⟫ := div_pos hz hd
      have hdg := h3' hr
      have heta : ⟪s.eta + (s.zr / ⟪s.delta, L.H s.delta⟫) • s.delta, L.g⟫ < 0 := by
        rw [inner_add_left, inner_smul_left]
        simp only [conj_trivial]
        nlinarith [mul_neg_of_pos_of_neg hapos hdg]
      split at hres
      · simp only [Option.some.injEq, Prod.mk.injEq] at hres
        obtain ⟨rfl, rfl, rfl, rfl⟩ := hres
        exact ⟨h3, fun _ => heta⟩
      · split at hres
        · simp only [Option.some.injEq, Prod.mk.injEq] at hres
          obtain ⟨rfl, rfl, rfl, rfl⟩ := hres
          exact ⟨h3, fun _ => heta⟩
        · rw [if_neg hz.ne'] at hres
          have hinv := h.step hH hP hM hd hz
            (⟪s.eta + (s.zr / ⟪s.delta, L.H s.delta⟫) • s.delta, L.g⟫ +
              1 / 2 * ⟪s.eta + (s.zr / ⟪s.delta, L.H s.delta⟫) • s.delta, (0 : E)⟫)
          simp only [] at hinv
          refine ih (j + 1) _ _ hinv ?_ heta.le (fun _ => heta) (fun h0 => absurd h0 (Nat.succ_ne_zero j)) ?_ eta delta i
            st hres
          · intro hr0'
            have hr0'' : s.r + (s.zr / ⟪s.delta, L.H s.delta⟫) • L.H s.delta = 0 := hr0'
            simp only [cgDir, cgMove, hr0'']
            simp
          · intro hrn
            have hrd := hinv.r_delta
            have hzp := hinv.zr_pos hP hrn
            -- <r', delta'> = <g, delta'> + <H eta', delta'>, and H delta' is orthogonal to eta'
            have hre := hinv.r_eq
            have hc := hinv.conj _ hinv.eta_mem
            rw [hre, inner_add_left, hH, ← real_inner_comm] at hrd
            have hcc : ⟪(cgDir L { cgMove L s (s.zr / ⟪s.delta, L.H s.delta⟫) with
                modelv := ⟪s.eta + (s.zr / ⟪s.delta, L.H s.delta⟫) • s.delta, L.g⟫ +
                  1 / 2 * ⟪s.eta + (s.zr / ⟪s.delta, L.H s.delta⟫) • s.delta, (0 : E)⟫ }
                (s.zr / ⟪s.delta, L.H s.delta⟫) (ePeNew s (s.zr / ⟪s.delta, L.H s.delta⟫))).eta,
                L.H (cgDir L { cgMove L s (s.zr / ⟪s.delta, L.H s.delta⟫) with
                modelv := ⟪s.eta + (s.zr / ⟪s.delta, L.H s.delta⟫) • s.delta, L.g⟫ +
                  1 / 2 * ⟪s.eta + (s.zr / ⟪s.delta, L.H s.delta⟫) • s.delta, (0 : E)⟫ }
                (s.zr / ⟪s.delta, L.H s.delta⟫) (ePeNew s (s.zr / ⟪s.delta, L.H s.delta⟫))).delta⟫ = 0 := by
              rw [real_inner_comm]; exact hc
            linarith

/-- **C22.** Whenever the Newton solver's inner loop returns a direction it is a descent direction, for every symmetric (also
indefinite) Hessian, every symmetric positive definite preconditioner, every nonzero gradient, all parameters and iteration caps.
(In particular with an iteration cap of zero.) -/
theorem C22_newton_direction_descent (hH : IsSym L.H) (hP : IsSPD L.P) (hM : Inverse L.P M) (hg : L.g ≠ 0) {eps : ℝ}
    {maxInner : Nat} {eta : E} (h : newtonDir L eps maxInner = some eta) : ⟪eta, L.g⟫ < 0 := by
  unfold newtonDir at h
  match hr : tcgLS L eps maxInner 0 L.start with
  | none => rw [hr] at h; simp at h
  | some (e, d, i, st) =>
    rw [hr] at h
    simp only [Option.map_some, Option.some.injEq] at h
    have hd : ⟪L.start.delta, L.g⟫ < 0 := by
      simp only [Local.start, inner_neg_left]
      have := hP.2 _ hg
      linarith
    obtain ⟨h1, h2⟩ := tcgLS_descent hH hP hM maxInner 0 ⊥ L.start (start_inv L M hM) (fun h0 => absurd h0 hg)
      (by simp [Local.start]) (by simp) (fun _ => hd) (fun _ => hd) e d i st hr
    by_cases hi : i = 0
    · rw [if_pos hi] at h
      rw [← h]; exact h1 hi
    · rw [if_neg hi] at h
      rw [← h]; exact h2 hi

/-- **C22 (finding): a converged first step is thrown away.** When the Hessian is a positive multiple of the identity, the first
conjugate gradient step is the exact Newton step `-g/c`; the loop then stops in its first pass and the code replaces the
step by `-g`. (`eps`: the step must not be negligible.) -/
theorem C22_first_newton_step_discarded (L : Local E) {c eps : ℝ} (hc : 0 < c) (hH : L.H = c • LinearMap.id)
    (hP : L.P = LinearMap.id) (hg : L.g ≠ 0) (hmin : L.minInner = 0) (hk : 0 ≤ L.kappa) (hmv : eps < ⟪L.g, L.g⟫ / c)
    (n : Nat) :
    newtonDir L eps (n + 1) = some (-L.g) ∧
      L.g + L.H ((-1 / c) • L.g) = 0 ∧ (c ≠ 1 → L.g + L.H (-L.g) ≠ 0) := by
  have hgg : 0 < ⟪L.g, L.g⟫ := real_inner_self_pos.mpr hg
  refine ⟨?_, ?_, ?_⟩
  · have hz : L.start.zr = ⟪L.g, L.g⟫ := by simp [Local.start, hP]
    have hdHd : ⟪L.start.delta, L.H L.start.delta⟫ = c * ⟪L.g, L.g⟫ := by
      simp [Local.start, hP, hH, inner_smul_right]
    have hal : L.start.zr / ⟪L.start.delta, L.H L.start.delta⟫ = 1 / c := by
      rw [hz, hdHd]
      field_simp
    unfold newtonDir
    simp only [tcgLS]
    rw [hal, hdHd, if_neg (not_le.mpr (mul_pos hc hgg)), if_neg, if_pos]
    · simp [Local.start, hP]
    · refine ⟨by omega, ?_⟩
      have hr1 : (cgMove L L.start (1 / c)).r = 0 := by
        simp [cgMove, Local.start, hP, hH, smul_smul, hc.ne']
      show ‖(cgMove L L.start (1 / c)).r‖ ≤ L.tol
      rw [hr1, norm_zero]
      unfold Local.tol
      simp only []
      apply mul_nonneg (norm_nonneg _)
      split
      · exact Real.rpow_nonneg (norm_nonneg _) _
      · exact hk
    · have h1 : ⟪L.start.eta + (1 / c) • L.start.delta, L.g⟫ = -(⟪L.g, L.g⟫ / c) := by
        simp [Local.start, hP, inner_smul_left]
        field_simp
      have hpos : 0 < ⟪L.g, L.g⟫ / c := div_pos hgg hc
      rw [inner_zero_right, mul_zero, add_zero, h1]
      push Not
      refine ⟨?_, by linarith⟩
      show -(⟪L.g, L.g⟫ / c) < 0
      linarith
  · rw [hH]
    simp only [LinearMap.smul_apply, LinearMap.id_coe, id_eq, smul_smul]
    have : c * (-1 / c) = -1 := by field_simp
    rw [this]
    simp
  · intro hc1 h0
    apply hc1
    rw [hH] at h0
    simp only [LinearMap.smul_apply, LinearMap.id_coe, id_eq] at h0
    have h1 : (1 - c) • L.g = 0 := by rw [sub_smul, one_smul]; rw [smul_neg, ← sub_eq_add_neg] at h0; exact h0
    rcases smul_eq_zero.mp h1 with h | h
    · linarith
    · exact absurd h hg

/-- A case meeting the hypotheses of the C22 theorems. -/
example : ∃ (L : Local ℝ) (eps : ℝ), L.H = (2 : ℝ) • LinearMap.id ∧ L.P = LinearMap.id ∧ L.g ≠ 0 ∧ L.minInner = 0 ∧
    0 ≤ L.kappa ∧ eps < ⟪L.g, L.g⟫ / 2 :=
  ⟨⟨1, (2 : ℝ) • LinearMap.id, LinearMap.id, 1, 1, 1 / 10, 0⟩, 1 / 1000, rfl, rfl, by norm_num, rfl, by norm_num,
    by simp; norm_num⟩

end

end Verif.TR
