import Verif.Problem.EigRun
import Verif.Props.TRConverge
import Mathlib.Analysis.SpecialFunctions.Trigonometric.Bounds
import Mathlib.Analysis.Complex.Basic
import Mathlib.Analysis.InnerProductSpace.Basic

/-!
# C132: what `MinMaxEigValHess` computes
-/

set_option linter.unusedSectionVars false

namespace Verif.TR

open scoped RealInnerProductSpace

variable {X : Type} {T : X → Type} [∀ x, NormedAddCommGroup (T x)] [∀ x, InnerProductSpace ℝ (T x)]

/-- The step of the inner solver is not short: at least a third of the radius or of the gradient norm divided by the bound of the Hessian. -/
theorem step_not_short {p : Prob X T} {bnd gam : ℝ} (S : NewtonSetting p bnd gam) (hb : 0 < bnd) (hgam : 0 ≤ gam) (hlow : ∀ x v, -(bnd * ‖v‖ ^ 2) ≤ ⟪v, p.H x v⟫) {x : X} {D : ℝ} (hD : 0 < D)
    (hg : p.g x ≠ 0) {eta : T x} {st : TRRun.Status} (h : tCG (p.local x D) p.maxInner = some (eta, st)) : min D (‖p.g x‖ / bnd) ≤ 3 * ‖eta‖ := by
  have h1 := (newton_cand S hb hgam hD hg).2.1
  have hc : (p.cand x D).mval = ⟪eta, p.g x⟫ + 1 / 2 * ⟪eta, p.H x eta⟫ := by
    unfold Prob.cand; rw [h]
    simp only [inner_add_right, real_inner_smul_right]
  rw [hc] at h1
  have hgp : 0 < ‖p.g x‖ := norm_pos_iff.mpr hg
  set r := min D (‖p.g x‖ / bnd) with hr
  have hr0 : 0 < r := lt_min hD (by positivity)
  have hrb : r * bnd ≤ ‖p.g x‖ := by
    have := min_le_right D (‖p.g x‖ / bnd)
    rwa [← hr, le_div_iff₀ hb] at this
  by_contra hcon
  push Not at hcon
  have h2 : -(‖eta‖ * ‖p.g x‖) ≤ ⟪eta, p.g x⟫ := by
    have := abs_le.mp (abs_real_inner_le_norm eta (p.g x)); linarith
  have h3 := hlow x eta
  have h4 : ‖eta‖ * ‖p.g x‖ ≤ 1 / 3 * r * ‖p.g x‖ := mul_le_mul_of_nonneg_right (by linarith) hgp.le
  have h5 : bnd * ‖eta‖ ^ 2 ≤ 1 / 9 * r * ‖p.g x‖ := by
    have e : ‖eta‖ ^ 2 ≤ (1 / 3 * r) ^ 2 := pow_le_pow_left₀ (norm_nonneg _) (by linarith) 2
    nlinarith [mul_le_mul_of_nonneg_left e hb.le, mul_le_mul_of_nonneg_left hrb hr0.le]
  nlinarith [mul_pos hr0 hgp]

/-- A retraction that differs from `R` on vectors shorter than `eps` only gives the same candidates. -/
theorem guarded_cand {p : Prob X T} {R : ∀ x, T x → X} {bnd gam eps : ℝ} (S : NewtonSetting { p with retr := R } bnd gam) (hb : 0 < bnd) (hgam : 0 ≤ gam)
    (hlow : ∀ x v, -(bnd * ‖v‖ ^ 2) ≤ ⟪v, p.H x v⟫) (hR : ∀ x v, eps ≤ ‖v‖ → p.retr x v = R x v) {x : X} {D : ℝ} (hD : 0 < D) (hg : p.g x ≠ 0) (heps : 3 * eps ≤ min D (‖p.g x‖ / bnd)) :
    p.cand x D = ({ p with retr := R } : Prob X T).cand x D := by
  have e : ({ p with retr := R } : Prob X T).local x D = p.local x D := rfl
  cases h : tCG (p.local x D) p.maxInner with
  | none => unfold Prob.cand; rw [e, h]
  | some r =>
    obtain ⟨eta, st⟩ := r
    have hl := step_not_short S hb hgam hlow hD hg (x := x) h
    have hl2 : eps ≤ ‖eta‖ := by
      have : min D (‖p.g x‖ / bnd) ≤ 3 * ‖eta‖ := hl
      linarith
    unfold Prob.cand
    rw [e, h]
    simp only
    rw [hR x eta hl2]

/-- **C132.** Trust-region Newton runs converge also when the retraction does not move along vectors shorter than `eps`, provided `eps` is at most a third of the least radius and of the least
Newton step. -/
theorem C132_guarded_newton_converges (p : Prob X T) (R : ∀ x, T x → X) (C : TRRun.Cfg ℝ) {fmin bnd gam thr eps : ℝ} (S : NewtonSetting { p with retr := R } bnd gam)
    (hlow : ∀ x v, -(bnd * ‖v‖ ^ 2) ≤ ⟪v, p.H x v⟫) (hR : ∀ x v, eps ≤ ‖v‖ → p.retr x v = R x v) (heps : 3 * eps ≤ min (TRRun.leastRadius C (1 / 2) bnd gam thr) (thr / bnd))
    (hbelow : ∀ x, fmin ≤ p.f x) (hb : 0 < bnd) (hgam : 0 < gam) (hthr : 0 < thr)
    (hs0 : p.stopped0 = true ↔ ‖p.g p.x0‖ < thr) (hs : ∀ k x y, p.stopped k x y = true ↔ ‖p.g y‖ < thr)
    (hacc : C.accuracy * (‖p.g p.x0‖ + C.tolerance) ≤ thr) (htol : 0 < C.tolerance)
    (hrho0 : 0 ≤ C.acceptRho) (hrho : C.acceptRho < 1 / 4) (hinit : 0 < C.initialDelta) (hmaxD : 0 < C.maximumDelta)
    (hshr : 0 < C.shrinked) (hshr1 : C.shrinked ≤ 1) (hmag : 1 ≤ C.magnified)
    (hsmall : C.minimumDelta ≤ C.shrinked * TRRun.goodRadius (1 / 2) bnd gam thr) (hmin : C.minIter = 0) (hgap : C.outputGap ≠ 0)
    (N i j : ℕ) (hN : p.f p.x0 - fmin < N * TRRun.trGain C (1 / 2) bnd gam thr)
    (hj : C.magnified * C.shrinked ^ j ≤ 1) (hi : C.initialDelta * C.shrinked ^ i < TRRun.leastRadius C (1 / 2) bnd gam thr)
    (hmax : (1 + j) * N + i ≤ C.maxIter) :
    ∃ s, TRRun.run C p.env (C.maxIter + 1) = .finished s ∧ ‖p.g s.x1‖ < thr ∧ s.iter ≤ (1 + j) * N + i ∧ s.f1 = p.f s.x1 ∧ s.f1 ≤ p.f p.x0 := by
  have hne : ∀ x, thr ≤ ‖p.g x‖ → p.g x ≠ 0 := fun x hx => norm_pos_iff.mp (lt_of_lt_of_le hthr hx)
  have hcand : ∀ x D, 0 < D → TRRun.leastRadius C (1 / 2) bnd gam thr ≤ D → thr ≤ ‖p.g x‖ → p.cand x D = ({ p with retr := R } : Prob X T).cand x D := fun x D hD hl hx =>
    guarded_cand S hb hgam.le hlow hR hD (hne x hx) (heps.trans (min_le_min hl (div_le_div_of_nonneg_right hx hb.le)))
  have hS : TRRun.Setting C p.env fmin (1 / 2) bnd gam thr :=
    { below := hbelow
      cauchy := fun k x D hD hl hx => by
        show (p.cand x D).mval ≤ _
        rw [hcand x D hD hl hx]; exact (newton_cand S hb hgam.le hD (hne x hx)).2.1
      model := fun k x D hD hl hx => by
        show |p.f (p.cand x D).x2 - p.f x - (p.cand x D).mval| ≤ _
        rw [hcand x D hD hl hx]; exact (newton_cand S hb hgam.le hD (hne x hx)).2.2
      finite := fun k x D hD hl hx => by
        show (p.cand x D).finite = true
        rw [hcand x D hD hl hx]; exact (newton_cand S hb hgam.le hD (hne x hx)).1
      kappos := by norm_num
      bndpos := hb, gampos := hgam, thrpos := hthr
      stop0 := fun h => hs0.mpr h
      stop := fun k x y h => (hs k x y).mpr h
      acc := hacc
      sum := by show 0 < ‖p.g p.x0‖ + C.tolerance; have := norm_nonneg (p.g p.x0); linarith
      rho0 := hrho0, rho := hrho, init := hinit, max := hmaxD, shr := hshr, mag := hmag, small := hsmall, min0 := hmin, gap := hgap }
  exact rtr_of_setting p hS hs0 hs N i j hN hj hi hshr1 hmax

end Verif.TR

namespace Verif.EigHess

open scoped RealInnerProductSpace
open Verif.QN (IsSym IsSPD)

variable {V : Type} [NormedAddCommGroup V] [InnerProductSpace ℝ V]

/-! ## The Rayleigh quotient along the exponential map -/

theorem sin_lin (s : ℝ) (hs : 0 ≤ s) : |Real.sin s - s| ≤ 2 * s ^ 2 := by
  rcases hs.eq_or_lt with h | h
  · rw [← h]; simp
  · rw [abs_sub_comm, abs_of_nonneg (by linarith [Real.sin_le hs])]
    by_cases h1 : s ≤ 1
    · have := Real.sin_gt_sub_cube h
      nlinarith [mul_nonneg (sq_nonneg s) (by linarith : 0 ≤ 1 - s)]
    · push Not at h1
      have := Real.neg_one_le_sin s
      nlinarith

theorem rq_norm (H : V →ₗ[ℝ] V) (ismin : Bool) {b : ℝ} (hb : ∀ v, ‖H v‖ ≤ b * ‖v‖) (v : V) : ‖sgn H ismin v‖ ≤ b * ‖v‖ := by
  cases ismin
  · simp only [sgn, Bool.false_eq_true, if_false, LinearMap.neg_apply, norm_neg]; exact hb v
  · exact hb v

theorem sgn_quad {A : V →ₗ[ℝ] V} {b : ℝ} (hb : ∀ v, ‖A v‖ ≤ b * ‖v‖) (u v : V) : |⟪A u, v⟫| ≤ b * (‖u‖ * ‖v‖) :=
  (abs_real_inner_le_norm _ _).trans (by rw [← mul_assoc]; exact mul_le_mul_of_nonneg_right (hb u) (norm_nonneg _))

/-- The exponential map. -/
noncomputable def sphereExp (x : Unit V) (v : Tan x) : Unit V :=
  ⟨Verif.Sphere.expo (x : V) (v : V), by
    by_cases h : (v : V) = 0
    · rw [h]; simp [Verif.Sphere.expo, x.2]
    · rw [norm_eq_sqrt_real_inner, Verif.Sphere.expo_inner x.2 (mem_tan.mp v.2) h, Real.sqrt_one]⟩

theorem sphereRetr_eq {eps : ℝ} (he : 0 < eps) (he1 : eps < 1) (x : Unit V) (v : Tan x) (h : eps ≤ ‖v‖) : sphereRetr he he1 x v = sphereExp x v := by
  have hv : (v : V) ≠ 0 := by
    intro h0
    have : ‖(v : V)‖ = 0 := by rw [h0, norm_zero]
    have h2 : eps ≤ ‖(v : V)‖ := h
    linarith
  obtain ⟨y, h1, h2, -, -, h5⟩ := Verif.Sphere.C33_guarded_retraction_unit he he1 x.2 (mem_tan.mp v.2)
  have h6 := h5 h
  rw [Verif.Sphere.expRetraction_eq x.2 (mem_tan.mp v.2) hv, Option.some.injEq] at h6
  ext
  simp only [sphereRetr, sphereExp, h1, Option.getD_some]
  exact h6.symm

theorem rq_taylor {H : V →ₗ[ℝ] V} (hH : H.IsSymmetric) (ismin : Bool) {b : ℝ} (hb : ∀ v, ‖H v‖ ≤ b * ‖v‖) (x : Unit V) (v : Tan x) :
    |rq H ismin (sphereExp x v) - rq H ismin x - (⟪(v : V), grad H ismin x⟫ + 1 / 2 * ⟪(v : V), hess H ismin x v⟫)| ≤ 10 * b * ‖(v : V)‖ ^ 2 := by
  by_cases h0 : v = 0
  · subst h0; simp [sphereExp, Verif.Sphere.expo]
  have hx : ⟪(x : V), (x : V)⟫ = 1 := by rw [real_inner_self_eq_norm_sq, x.2]; norm_num
  have ht := mem_tan.mp v.2
  have hv : (v : V) ≠ 0 := by simpa using h0
  have ht0 : 0 < ‖(v : V)‖ := norm_pos_iff.mpr hv
  have hA := rq_norm H ismin hb
  have hS := sgn_sym hH ismin
  rw [real_inner_comm (hess H ismin x v), hess_inner H ismin x ht, grad_eq, rq_eq, rq_eq]
  simp only [sphereExp, Verif.Sphere.expo]
  set A := sgn H ismin
  set u : V := (v : V)
  set y : V := (x : V)
  set t := ‖u‖
  have hyn : ‖y‖ = 1 := x.2
  have e1 : ⟪A u, y⟫ = ⟪A y, u⟫ := by rw [hS u y, real_inner_comm]
  have b1 := sgn_quad hA y y
  have b2 := sgn_quad hA u u
  have b3 := sgn_quad hA y u
  rw [hyn] at b1 b3
  simp only [map_add, map_smul, inner_add_left, inner_add_right, inner_sub_right, real_inner_smul_left, real_inner_smul_right, e1, real_inner_comm (A y) u, real_inner_comm y u, ht]
  set q := ⟪A y, y⟫
  set w := ⟪A u, u⟫
  set m := ⟪A y, u⟫
  have hs1 : Real.sin t ^ 2 ≤ t ^ 2 := by
    rw [sq_le_sq, abs_of_pos ht0]; exact Real.abs_sin_le_abs.trans_eq (abs_of_pos ht0)
  have hcs := Real.sin_sq_add_cos_sq t
  have h2 := sin_lin (2 * t) (by linarith)
  rw [Real.sin_two_mul] at h2
  set k := Real.sin t / t with hk
  have hkt : k * t = Real.sin t := div_mul_cancel₀ _ ht0.ne'
  have hk1 : k ^ 2 ≤ 1 := by
    rw [hk, div_pow, div_le_one (by positivity)]; exact hs1
  have h3 : |2 * (k * Real.cos t - 1)| ≤ 8 * t := by
    have e : 2 * Real.sin t * Real.cos t - 2 * t = 2 * (k * Real.cos t - 1) * t := by rw [← hkt]; ring
    rw [e, abs_mul, abs_of_pos ht0] at h2
    have : |2 * (k * Real.cos t - 1)| * t ≤ (8 * t) * t := by linarith
    exact le_of_mul_le_mul_right this ht0
  have b0 : 0 ≤ b := by have := (abs_nonneg q).trans b1; linarith
  calc _ = |(k ^ 2 - 1) * w + 2 * (k * Real.cos t - 1) * m + (t ^ 2 - Real.sin t ^ 2) * q| := by
        congr 1; linear_combination q * hcs
    _ ≤ |(k ^ 2 - 1) * w| + |2 * (k * Real.cos t - 1) * m| + |(t ^ 2 - Real.sin t ^ 2) * q| := abs_add_three _ _ _
    _ ≤ b * t ^ 2 + 8 * b * t ^ 2 + b * t ^ 2 := by
        refine add_le_add (add_le_add ?_ ?_) ?_
        · rw [abs_mul, abs_sub_comm, abs_of_nonneg (by linarith : 0 ≤ 1 - k ^ 2)]
          calc (1 - k ^ 2) * |w| ≤ 1 * |w| := mul_le_mul_of_nonneg_right (by nlinarith [sq_nonneg k]) (abs_nonneg _)
            _ ≤ b * t ^ 2 := by rw [one_mul, sq]; exact b2
        · rw [abs_mul]
          calc _ ≤ 8 * t * (b * (1 * t)) := mul_le_mul h3 b3 (abs_nonneg _) (by linarith)
            _ = 8 * b * t ^ 2 := by ring
        · rw [abs_mul, abs_of_nonneg (by linarith : 0 ≤ t ^ 2 - Real.sin t ^ 2)]
          calc _ ≤ t ^ 2 * (b * (1 * 1)) := mul_le_mul (by nlinarith [sq_nonneg (Real.sin t)]) b1 (abs_nonneg _) (sq_nonneg _)
            _ = b * t ^ 2 := by ring
    _ = _ := by ring

theorem hess_inner2 (H : V →ₗ[ℝ] V) (ismin : Bool) (x u : V) {v : V} (hv : ⟪x, v⟫ = 0) : ⟪hess H ismin x u, v⟫ = 2 * (⟪sgn H ismin u, v⟫ - rq H ismin x * ⟪u, v⟫) := by
  rw [hess, proj, inner_add_left, real_inner_smul_left, hv, mul_zero, zero_add, inner_add_left, one_smul, real_inner_smul_left, ehess_eq, real_inner_smul_left, egrad_eq, real_inner_smul_left,
    ← rq_eq H ismin x]
  ring

theorem rq_bound {H : V →ₗ[ℝ] V} (ismin : Bool) {b : ℝ} (hb : ∀ v, ‖H v‖ ≤ b * ‖v‖) (x : Unit V) : |rq H ismin x| ≤ b := by
  rw [rq_eq]
  have := sgn_quad (rq_norm H ismin hb) x x
  rw [x.2] at this
  linarith

/-- The gradient of the Rayleigh quotient is at most twice the norm of the operator. -/
theorem grad_bound {H : V →ₗ[ℝ] V} (ismin : Bool) {b : ℝ} (hb : ∀ v, ‖H v‖ ≤ b * ‖v‖) (x : Unit V) : ‖grad H ismin x‖ ≤ 2 * b := by
  have h1 := rq_norm H ismin hb x
  rw [x.2, mul_one] at h1
  rw [grad_eq, norm_smul, Real.norm_of_nonneg (by norm_num)]
  refine mul_le_mul_of_nonneg_left (le_trans ?_ h1) (by norm_num)
  have e : ‖sgn H ismin x - rq H ismin x • (x : V)‖ ^ 2 = ‖sgn H ismin x‖ ^ 2 - rq H ismin x ^ 2 := by
    rw [norm_sub_sq_real, real_inner_smul_right, ← rq_eq, norm_smul, x.2, mul_one, Real.norm_eq_abs, sq_abs]
    ring
  exact le_of_sq_le_sq (by rw [e]; linarith [sq_nonneg (rq H ismin x)]) (norm_nonneg _)

variable {H : V →ₗ[ℝ] V} {b eps : ℝ}

theorem hess_bound (ismin : Bool) (hb : ∀ v, ‖H v‖ ≤ b * ‖v‖) (x : Unit V) (v : Tan x) : |⟪(v : V), hess H ismin x v⟫| ≤ 4 * b * ‖(v : V)‖ ^ 2 := by
  rw [real_inner_comm, hess_inner H ismin x (mem_tan.mp v.2), abs_mul, abs_of_pos two_pos]
  have h1 := sgn_quad (rq_norm H ismin hb) (v : V) v
  have h2 := rq_bound ismin hb x
  have h3 : |rq H ismin x * ‖(v : V)‖ ^ 2| ≤ b * ‖(v : V)‖ ^ 2 := by
    rw [abs_mul, abs_of_nonneg (sq_nonneg ‖(v : V)‖)]; exact mul_le_mul_of_nonneg_right h2 (sq_nonneg _)
  have := abs_sub (⟪sgn H ismin (v : V), (v : V)⟫) (rq H ismin x * ‖(v : V)‖ ^ 2)
  nlinarith

/-- The run of `MinMaxEigValHess`, with the exponential map in place of the guarded one, satisfies the hypotheses of the convergence theorem. -/
theorem eig_setting (hH : H.IsSymmetric) (hb : ∀ v, ‖H v‖ ≤ b * ‖v‖) (he : 0 < eps) (he1 : eps < 1) (ismin : Bool) (x0 : Unit V) {theta kappa tol : ℝ} {maxInner : ℕ} (hk : 0 ≤ kappa) (hm : 0 < maxInner) :
    TR.NewtonSetting { eigProb he he1 H ismin x0 theta kappa maxInner tol with retr := sphereExp } (4 * b) (10 * b) where
  sym x u v := by
    show ⟪hess H ismin x u, (v : V)⟫ = ⟪(u : V), hess H ismin x v⟫
    rw [hess_inner2 H ismin x u (mem_tan.mp v.2), real_inner_comm (hess H ismin x v), hess_inner2 H ismin x v (mem_tan.mp u.2), sgn_sym hH ismin (u : V) v, real_inner_comm (u : V) (v : V),
      real_inner_comm (sgn H ismin v)]
  bounded x v := (le_abs_self _).trans (hess_bound ismin hb x v)
  noPrec _ := rfl
  taylor x v := rq_taylor hH ismin hb x v
  inner := hm
  min0 := rfl
  kappa := hk

/-- Default parameters of the trust-region solvers (SolversSMTR.cpp:315-328), with tolerance and iteration limit as arguments; the smallest radius is the machine epsilon. -/
noncomputable def eigCfg (eps tol : ℝ) (N : ℕ) : TRRun.Cfg ℝ where
  maxIter := N
  minIter := 0
  outputGap := 1
  record := true
  initialDelta := 1
  maximumDelta := 10000
  minimumDelta := eps
  magnified := 2
  shrinked := 1 / 4
  acceptRho := 1 / 10
  accuracy := 0
  tolerance := tol
  sqeps := 1 / 10 ^ 8

/-- `μ` is an eigenvalue of the Hessian. -/
def IsEig (H : V →ₗ[ℝ] V) (μ : ℝ) : Prop := ∃ v, v ≠ 0 ∧ H v = μ • v

/-- **C132.** For every symmetric Hessian and every start that is not an eigenvector, the run of `MinMaxEigValHess` with default parameters ends by its gradient test if the iteration limit allows `2 N + i` iterations; the number
it reports is then within half the tolerance (relative to the gradient at the start) of an eigenvalue, is the final function value, no worse than the Rayleigh quotient of the start, and no warning is printed. The
machine epsilon must be small compared with the relative size of the gradient at the start. -/
theorem C132_eigenvalue_run [FiniteDimensional ℝ V] (hH : H.IsSymmetric) (hb0 : 0 < b) (hb : ∀ v, ‖H v‖ ≤ b * ‖v‖) (he : 0 < eps) (he1 : eps < 1) (ismin : Bool) (x0 : Unit V) (hg0 : grad H ismin x0 ≠ 0)
    {theta kappa tol : ℝ} {maxInner : ℕ} (hk : 0 ≤ kappa) (hm : 0 < maxInner) (htol : 0 < tol) (htol1 : tol ≤ 1) (heps : 960 * b * eps ≤ tol * ‖grad H ismin x0‖) (N i Max : ℕ)
    (hN : 5120 * b ^ 2 < N * (tol * ‖grad H ismin x0‖) ^ 2) (hi : 320 * b * (1 / 4) ^ i < tol * ‖grad H ismin x0‖) (hmax : 2 * N + i ≤ Max) :
    ∃ s, TRRun.run (eigCfg eps tol Max) (eigProb he he1 H ismin x0 theta kappa maxInner tol).env (Max + 1) = .finished s ∧
      (∃ μ, IsEig H μ ∧ |μ - reported H ismin s.x1| ≤ tol * ‖grad H ismin x0‖ / 2) ∧ s.f1 = rq H ismin s.x1 ∧ rq H ismin s.x1 ≤ rq H ismin x0 ∧ (tol ≤ 1e-6 → ¬ warns H ismin x0 s.x1) := by
  have hgp : 0 < ‖grad H ismin x0‖ := norm_pos_iff.mpr hg0
  have hgb := grad_bound ismin hb x0
  set thr := tol * ‖grad H ismin x0‖ with hthr
  have hthrp : 0 < thr := by positivity
  have hthr2 : thr ≤ 2 * b := by
    calc thr ≤ 1 * ‖grad H ismin x0‖ := mul_le_mul_of_nonneg_right htol1 hgp.le
      _ ≤ 2 * b := by linarith
  have hgood : TRRun.goodRadius (1 / 2) (4 * b) (10 * b) thr = thr / (80 * b) := by
    unfold TRRun.goodRadius
    rw [show 1 / 2 * thr / (4 * (10 * b)) = thr / (80 * b) by field_simp; ring]
    exact min_eq_right (div_le_div_of_nonneg_left hthrp.le (by positivity) (by linarith))
  have hleast : TRRun.leastRadius (eigCfg eps tol Max) (1 / 2) (4 * b) (10 * b) thr = thr / (320 * b) := by
    unfold TRRun.leastRadius
    rw [hgood]
    simp only [eigCfg]
    rw [show 1 / 4 * (thr / (80 * b)) = thr / (320 * b) by field_simp; ring, min_eq_left (by norm_num : (1 : ℝ) ≤ 10000)]
    exact min_eq_right (by rw [div_le_one (by positivity)]; linarith)
  have hgain : TRRun.trGain (eigCfg eps tol Max) (1 / 2) (4 * b) (10 * b) thr = thr ^ 2 / (2560 * b) := by
    unfold TRRun.trGain
    rw [hleast, min_eq_left (div_le_div_of_nonneg_left hthrp.le (by positivity) (by linarith))]
    field_simp; ring
  have hstop : ∀ x, ‖grad H ismin x‖ / ‖grad H ismin x0‖ < tol ↔ ‖grad H ismin x‖ < thr := fun x => by rw [div_lt_iff₀ hgp]
  obtain ⟨s, e1, e2, -, e4, e5⟩ := TR.C132_guarded_newton_converges (eigProb he he1 H ismin x0 theta kappa maxInner tol) sphereExp (eigCfg eps tol Max) (fmin := -b) (thr := thr) (eps := eps)
    (eig_setting hH hb he he1 ismin x0 hk hm) (fun x v => by have := (abs_le.mp (hess_bound ismin hb x v)).1; exact this) (sphereRetr_eq he he1)
    (by
      rw [hleast, min_eq_left (div_le_div_of_nonneg_left hthrp.le (by positivity) (by linarith)), le_div_iff₀ (by positivity)]
      linarith)
    (fun x => (abs_le.mp (rq_bound ismin hb x)).1) (by positivity) (by positivity) hthrp
    (by simp only [eigProb, decide_eq_true_eq]; exact hstop x0) (fun _ _ y => by simp only [eigProb, decide_eq_true_eq]; exact hstop y)
    (by simp [eigCfg, hthrp.le]) htol (by norm_num [eigCfg]) (by norm_num [eigCfg]) (by norm_num [eigCfg]) (by norm_num [eigCfg]) (by norm_num [eigCfg]) (by norm_num [eigCfg]) (by norm_num [eigCfg])
    (by
      rw [hgood]
      show eps ≤ 1 / 4 * (thr / (80 * b))
      rw [show 1 / 4 * (thr / (80 * b)) = thr / (320 * b) by field_simp; ring, le_div_iff₀ (by positivity)]
      nlinarith [mul_pos hb0 he])
    rfl (by norm_num [eigCfg]) N i 1
    (by
      rw [hgain, ← mul_div_assoc, lt_div_iff₀ (by positivity)]
      have := (abs_le.mp (rq_bound ismin hb x0)).2
      show (rq H ismin x0 - -b) * (2560 * b) < _
      nlinarith)
    (by norm_num [eigCfg])
    (by
      rw [hleast, lt_div_iff₀ (by positivity)]
      show 1 * (1 / 4) ^ i * (320 * b) < thr
      linarith)
    (by simpa [eigCfg] using hmax)
  have e2' : ‖grad H ismin s.x1‖ < thr := e2
  obtain ⟨μ, v, hv, hv2, hv3⟩ := C110_accuracy hH ismin s.x1.2
  refine ⟨s, e1, ⟨μ, ⟨v, hv, hv2⟩, by linarith⟩, e4, by rw [e4] at e5; exact e5, fun ht => ?_⟩
  unfold warns
  rw [not_lt]
  exact (((hstop s.x1).mpr e2').le).trans ht

/-- **C132, the smallest eigenvalue.** If all other eigenvalues lie on the far side of the Rayleigh quotient of the start by more than the tolerance, the number reported approximates the smallest (largest) eigenvalue. -/
theorem C132_smallest [FiniteDimensional ℝ V] (hH : H.IsSymmetric) (hb0 : 0 < b) (hb : ∀ v, ‖H v‖ ≤ b * ‖v‖) (he : 0 < eps) (he1 : eps < 1) (ismin : Bool) (x0 : Unit V) (hg0 : grad H ismin x0 ≠ 0)
    {theta kappa tol lam : ℝ} {maxInner : ℕ} (hk : 0 ≤ kappa) (hm : 0 < maxInner) (htol : 0 < tol) (htol1 : tol ≤ 1) (heps : 960 * b * eps ≤ tol * ‖grad H ismin x0‖) (N i Max : ℕ)
    (hN : 5120 * b ^ 2 < N * (tol * ‖grad H ismin x0‖) ^ 2) (hi : 320 * b * (1 / 4) ^ i < tol * ‖grad H ismin x0‖) (hmax : 2 * N + i ≤ Max)
    (hgapE : ∀ ν, IsEig H ν → ν ≠ lam → if ismin then reported H ismin x0 + tol * ‖grad H ismin x0‖ / 2 < ν else ν < reported H ismin x0 - tol * ‖grad H ismin x0‖ / 2) :
    ∃ s, TRRun.run (eigCfg eps tol Max) (eigProb he he1 H ismin x0 theta kappa maxInner tol).env (Max + 1) = .finished s ∧ |lam - reported H ismin s.x1| ≤ tol * ‖grad H ismin x0‖ / 2 := by
  obtain ⟨s, e1, ⟨μ, hμ, e2⟩, -, e4, -⟩ := C132_eigenvalue_run hH hb0 hb he he1 ismin x0 hg0 (theta := theta) hk hm htol htol1 heps N i Max hN hi hmax
  refine ⟨s, e1, ?_⟩
  by_cases h : μ = lam
  · rw [← h]; exact e2
  · exfalso
    have h2 := hgapE μ hμ h
    cases ismin
    · simp only [reported, Bool.false_eq_true, if_false] at *
      have := (abs_le.mp e2).1
      linarith
    · simp only [reported, if_true] at *
      have := (abs_le.mp e2).2
      linarith

/-! ### A concrete case: the reflection of the plane, with eigenvalues `1` and `-1` -/

/-- Complex conjugation as an operator on the plane. -/
noncomputable def mirror : ℂ →ₗ[ℝ] ℂ := Complex.conjAe.toLinearMap

theorem mirror_sym : mirror.IsSymmetric := by
  intro z w
  simp [mirror, Complex.inner]

theorem mirror_norm (z : ℂ) : ‖mirror z‖ ≤ 1 * ‖z‖ := by simp [mirror]

theorem mirror_eig {μ : ℝ} (h : IsEig mirror μ) : μ = 1 ∨ μ = -1 := by
  obtain ⟨v, hv, h⟩ := h
  have h2 := congrArg (fun z => ‖z‖) h
  simp only [mirror, norm_smul, AlgEquiv.toLinearMap_apply, Complex.conjAe_coe, Complex.norm_conj, Real.norm_eq_abs] at h2
  have h3 : |μ| = 1 := by
    have : 0 < ‖v‖ := norm_pos_iff.mpr hv
    nlinarith
  exact (abs_eq one_pos.le).mp h3

/-- The start `(3 + 4i)/5`, with Rayleigh quotient `-7/25`. -/
noncomputable def mirrorStart : Unit ℂ := ⟨⟨3 / 5, 4 / 5⟩, by rw [Complex.norm_def, Complex.normSq_mk]; norm_num⟩

theorem mirror_grad : grad mirror true mirrorStart ≠ 0 := by
  intro h
  have := congrArg Complex.re h
  simp [grad, proj, egrad, mirror, mirrorStart, Complex.inner] at this
  norm_num at this

example : ∃ (eps : ℝ) (he : 0 < eps) (he1 : eps < 1) (Max : ℕ), ∃ s,
    TRRun.run (eigCfg eps (1 / 10 ^ 6) Max) (eigProb he he1 mirror true mirrorStart 1 (1 / 10) 1000 (1 / 10 ^ 6)).env (Max + 1) = .finished s ∧ |-1 - reported mirror true s.x1| ≤ 1 / 10 ^ 6 := by
  have hgp : 0 < ‖grad mirror true mirrorStart‖ := norm_pos_iff.mpr mirror_grad
  have hg2 := grad_bound true mirror_norm mirrorStart
  generalize hG : ‖grad mirror true mirrorStart‖ = g at *
  obtain ⟨N, hN⟩ := exists_nat_gt (5120 * 1 ^ 2 / (1 / 10 ^ 6 * g) ^ 2)
  rw [div_lt_iff₀ (by positivity)] at hN
  obtain ⟨i, hi⟩ := exists_pow_lt_of_lt_one (show 0 < 1 / 10 ^ 6 * g / 320 by positivity) (show (1 / 4 : ℝ) < 1 by norm_num)
  refine ⟨1 / 10 ^ 6 * g / 960, by positivity, by linarith, 2 * N + i, ?_⟩
  obtain ⟨s, e1, e2⟩ := C132_smallest mirror_sym one_pos mirror_norm (eps := 1 / 10 ^ 6 * g / 960) (by positivity) (by linarith) true mirrorStart mirror_grad (theta := 1) (kappa := 1 / 10) (tol := 1 / 10 ^ 6) (lam := -1)
    (maxInner := 1000) (by norm_num) (by norm_num) (by norm_num) (by norm_num) (by rw [hG]; linarith) N i (2 * N + i) (by rw [hG]; exact hN) (by rw [hG]; linarith) le_rfl (by
      intro ν hν hne
      have h1 := (mirror_eig hν).resolve_right hne
      rw [hG, h1]
      have : reported mirror true mirrorStart = -7 / 25 := by
        simp [reported, rq, mirror, mirrorStart, Complex.inner]; norm_num
      rw [this]
      simp only [if_true]
      linarith)
  refine ⟨s, e1, e2.trans ?_⟩
  rw [hG]; linarith

end Verif.EigHess
