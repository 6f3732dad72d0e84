import Mathlib.Analysis.PSeries
import Verif.Solver.CGRun
import Verif.Props.Direction
import Verif.Props.LRConverge

/-!
# C116: conjugate gradient runs with the strong Wolfe search reach the requested gradient norm
-/

set_option linter.unusedSectionVars false
set_option linter.unusedVariables false

namespace Verif.Solver

open scoped RealInnerProductSpace Classical

open Verif.Dir

variable {X E : Type} [NormedAddCommGroup E] [InnerProductSpace ℝ E]

/-! ## Specification -/

/-- Against the gradient at the new point, the transported direction is not steeper than the differentiated retraction (equality if they agree on the direction of the step, as for parallel transport along geodesics). -/
def SlopeTransport (G : Geo X E) : Prop :=
  ∀ x d (t : ℝ), 0 < t → |⟪G.grad (G.retr x (t • d)), G.T x (t • d) d⟫| ≤ |⟪G.grad (G.retr x (t • d)), G.dretr x (t • d) d⟫|

/-- No preconditioner. -/
def NoPrecond (G : Geo X E) : Prop := ∀ x u, G.P x u = u

/-- Hypotheses of C116. -/
structure CGWolfe (G : Geo X E) (m : Method) (c : ℝ) (C : LSCfg) (O : Oracle X E) (ub : E) (x0 : X) (fmin L thr : ℝ) : Prop where
  below : ∀ x, fmin ≤ G.f x
  ray : RayLipschitz G L
  slope : SlopeTransport G
  pre : NoPrecond G
  Lpos : 0 < L
  dir : O.dir = cgDirection G m c ub
  init : ∀ p, 0 < O.init p
  kind : C.kind = .strongWolfe
  alpha : 0 < C.ls.alpha
  beta : C.ls.beta < 1
  r1 : 0 < C.ls.r1
  r12 : C.ls.r1 ≤ C.ls.r2
  r2 : C.ls.r2 < 1
  maxPos : 0 < C.ls.maxStep
  nocall : O.callback = none
  thresh : Threshold C ‖G.grad x0‖ thr
  thrpos : 0 < thr
  acc : C.accuracy * (‖G.grad x0‖ + C.tol) ≤ thr
  tolpos : 0 < C.tol
  min0 : C.run.minIter = 0
  gap : C.run.record = true → 0 < C.run.outputGap

/-- Lower bound of the squared slope per length of the `k`-th direction for methods with `|σ|` at most the one of Fletcher and Reeves. -/
noncomputable def frWeight (beta thr : ℝ) (k : ℕ) : ℝ := ((1 - 2 * beta) / (1 - beta)) ^ 2 * ((1 - beta) / (1 + beta)) * thr ^ 2 / (k + 1)

/-- The same for Dai and Yuan. -/
noncomputable def dyWeight (thr : ℝ) (k : ℕ) : ℝ := thr ^ 2 / (k + 1)

/-! ## The next direction -/

theorem rsdDir_spec {c : ℝ} (P : E → E) (g : E) : rsdDir c P g = -g ∨ (rsdDir c P g = -P g ∧ ¬ notDescent c (-P g) g) := by
  unfold rsdDir
  by_cases h : notDescent c (-P g) g
  · left; simp only [if_pos h]
  · right; simp only [if_neg h]; exact ⟨trivial, h⟩

theorem cg_first (G : Geo X E) (m : Method) (c : ℝ) (x : X) (u : ℝ) : cgDir G m c [(x, u)] = some (rsdDir c (G.P x) (G.grad x)) := by
  rw [cgDir, rcgDir, if_pos (Or.inl rfl), rsdDir]

/-- The direction after a step is the one of steepest descent or a conjugate one that passed the test. -/
theorem cg_next (G : Geo X E) (m : Method) (c : ℝ) {x1 x2 : X} {u t : ℝ} {p : Past X} {d : E} (h : cgDir G m c ((x1, u) :: p) = some d)
    (hs : (rcgSigma m (G.grad x1) (G.grad x2) (G.P x1 (G.grad x1)) (G.P x2 (G.grad x2)) (G.T x1 (t • d) (G.grad x1)) (G.T x1 (t • d) d)).isSome) :
    ∃ d2, cgDir G m c ((x2, t) :: (x1, u) :: p) = some d2 ∧ (d2 = rsdDir c (G.P x2) (G.grad x2) ∨ (¬ notDescent c d2 (G.grad x2) ∧
      ∃ s, (s = 0 ∨ rcgSigma m (G.grad x1) (G.grad x2) (G.P x1 (G.grad x1)) (G.P x2 (G.grad x2)) (G.T x1 (t • d) (G.grad x1)) (G.T x1 (t • d) d) = some s) ∧
        d2 = -G.grad x2 + s • G.T x1 (t • d) d)) := by
  obtain ⟨sg, hsg⟩ := Option.isSome_iff_exists.mp hs
  rw [cgDir, h]
  simp only
  -- the candidate
  have hc : ∃ s, (s = 0 ∨ rcgSigma m (G.grad x1) (G.grad x2) (G.P x1 (G.grad x1)) (G.P x2 (G.grad x2)) (G.T x1 (t • d) (G.grad x1)) (G.T x1 (t • d) d) = some s) ∧
      rcgUpdate m (G.grad x1) (G.grad x2) (G.P x1 (G.grad x1)) (G.P x2 (G.grad x2)) (G.T x1 (t • d) (G.grad x1)) (G.T x1 (t • d) d) = some (-G.grad x2 + s • G.T x1 (t • d) d) := by
    unfold rcgUpdate
    by_cases hr : rcgRestart (G.grad x1) (G.grad x2) (G.T x1 (t • d) (G.grad x1))
    · refine ⟨0, Or.inl rfl, ?_⟩
      simp [if_pos hr]
    · refine ⟨sg, Or.inr hsg, ?_⟩
      simp only [if_neg hr, hsg, Option.map_some]
      by_cases h0 : sg = 0
      · simp [h0]
      · simp [if_neg h0]
  obtain ⟨s, h1, h2⟩ := hc
  rw [h2, rcgDir]
  by_cases hn : notDescent c (-G.grad x2 + s • G.T x1 (t • d) d) (G.grad x2)
  · rw [if_pos (Or.inr ⟨_, rfl, hn⟩)]
    exact ⟨_, rfl, Or.inl rfl⟩
  · rw [if_neg]
    · exact ⟨_, rfl, Or.inr ⟨hn, s, h1, rfl⟩⟩
    · rintro (h3 | ⟨e, h3, h4⟩)
      · exact absurd h3 (Nat.succ_ne_zero _)
      · injection h3 with h3; subst h3; exact hn h4

/-- Without preconditioner both cases have the same form. -/
theorem cg_next_id (G : Geo X E) (hP : NoPrecond G) (m : Method) (c : ℝ) {x1 x2 : X} {u t : ℝ} {p : Past X} {d : E} (h : cgDir G m c ((x1, u) :: p) = some d)
    (hs : (rcgSigma m (G.grad x1) (G.grad x2) (G.grad x1) (G.grad x2) (G.T x1 (t • d) (G.grad x1)) (G.T x1 (t • d) d)).isSome) :
    ∃ s, cgDir G m c ((x2, t) :: (x1, u) :: p) = some (-G.grad x2 + s • G.T x1 (t • d) d) ∧
      (s = 0 ∨ rcgSigma m (G.grad x1) (G.grad x2) (G.grad x1) (G.grad x2) (G.T x1 (t • d) (G.grad x1)) (G.T x1 (t • d) d) = some s) := by
  have hn := cg_next G m c (x2 := x2) (t := t) h (by rw [hP, hP]; exact hs)
  rw [hP, hP] at hn
  obtain ⟨d2, e1, e2 | ⟨-, s, e2, e3⟩⟩ := hn
  · refine ⟨0, ?_, Or.inl rfl⟩
    rw [e1, e2]
    rcases rsdDir_spec (c := c) (G.P x2) (G.grad x2) with k | ⟨k, -⟩
    · rw [k]; simp
    · rw [k, hP]; simp
  · exact ⟨s, by rw [e1, e3], e2⟩

theorem cg_first_id (G : Geo X E) (hP : NoPrecond G) (m : Method) (c : ℝ) (x : X) (u : ℝ) : cgDir G m c [(x, u)] = some (-G.grad x) := by
  rw [cg_first]
  rcases rsdDir_spec (c := c) (G.P x) (G.grad x) with k | ⟨k, -⟩
  · rw [k]
  · rw [k, hP]

/-! ## What is known about the directions -/

/-- The current direction exists and, if the gradient is not small, is as good as the method guarantees. -/
def CGGood (G : Geo X E) (m : Method) (c thr : ℝ) (I : ℕ → E → E → Prop) (p : Past X) : Prop :=
  ∃ x u q d, p = (x, u) :: q ∧ cgDir G m c p = some d ∧ (thr ≤ ‖G.grad x‖ → I q.length (G.grad x) d)

/-- Fletcher and Reeves: slope relative to the squared gradient, and growth of the length. -/
def frInv (beta thr : ℝ) (k : ℕ) (g d : E) : Prop :=
  -(1 / (1 - beta)) * ‖g‖ ^ 2 ≤ ⟪g, d⟫ ∧ ⟪g, d⟫ ≤ -((1 - 2 * beta) / (1 - beta)) * ‖g‖ ^ 2 ∧ ‖d‖ ^ 2 * thr ^ 2 ≤ (1 + beta) / (1 - beta) * (k + 1) * ‖g‖ ^ 4

/-- Dai and Yuan. -/
def dyInv (thr : ℝ) (k : ℕ) (g d : E) : Prop := ⟪g, d⟫ < 0 ∧ ‖d‖ ^ 2 * thr ^ 2 ≤ (k + 1) * ⟪g, d⟫ ^ 2

theorem fr_neg {beta thr : ℝ} (hb0 : 0 ≤ beta) (hb : beta < 1 / 2) (ht : 0 < thr) (k : ℕ) {g : E} (hg : thr ≤ ‖g‖) : frInv beta thr k g (-g) := by
  have h1 : 0 < 1 - beta := by linarith
  rw [frInv, inner_neg_right, real_inner_self_eq_norm_sq, norm_neg]
  have hsq := sq_nonneg ‖g‖
  refine ⟨?_, ?_, ?_⟩
  · have : 1 ≤ 1 / (1 - beta) := by rw [le_div_iff₀ h1]; linarith
    nlinarith
  · have : (1 - 2 * beta) / (1 - beta) ≤ 1 := by rw [div_le_one h1]; linarith
    nlinarith
  · have h2 : 1 ≤ (1 + beta) / (1 - beta) := by rw [le_div_iff₀ h1]; linarith
    have h3 : thr ^ 2 ≤ ‖g‖ ^ 2 := pow_le_pow_left₀ ht.le hg 2
    have h4 : (1 : ℝ) ≤ (1 + beta) / (1 - beta) * (k + 1) := by
      have : (0 : ℝ) ≤ k := Nat.cast_nonneg k
      nlinarith
    calc ‖g‖ ^ 2 * thr ^ 2 ≤ ‖g‖ ^ 2 * ‖g‖ ^ 2 := mul_le_mul_of_nonneg_left h3 hsq
      _ = 1 * ‖g‖ ^ 4 := by ring
      _ ≤ _ := mul_le_mul_of_nonneg_right h4 (by positivity)

theorem dy_neg {thr : ℝ} (ht : 0 < thr) (k : ℕ) {g : E} (hg : thr ≤ ‖g‖) : dyInv thr k g (-g) := by
  have hgp : 0 < ‖g‖ := lt_of_lt_of_le ht hg
  rw [dyInv, inner_neg_right, real_inner_self_eq_norm_sq, norm_neg]
  refine ⟨by have : 0 < ‖g‖ ^ 2 := by positivity
             linarith, ?_⟩
  have h3 : thr ^ 2 ≤ ‖g‖ ^ 2 := pow_le_pow_left₀ ht.le hg 2
  have : (0 : ℝ) ≤ k := Nat.cast_nonneg k
  have h5 : 0 ≤ k * (-‖g‖ ^ 2) ^ 2 := by positivity
  calc ‖g‖ ^ 2 * thr ^ 2 ≤ ‖g‖ ^ 2 * ‖g‖ ^ 2 := mul_le_mul_of_nonneg_left h3 (sq_nonneg _)
    _ = (-‖g‖ ^ 2) ^ 2 := by ring
    _ ≤ _ := by linarith

/-- One step of a method whose `σ` is at most the one of Fletcher and Reeves. `e` is the transported direction, `a` its product with the new gradient. -/
theorem fr_step {beta thr s : ℝ} (hb0 : 0 ≤ beta) (hb : beta < 1 / 2) (ht : 0 < thr) {k : ℕ} {g1 g2 d e : E} (hI : frInv beta thr k g1 d) (hg1 : thr ≤ ‖g1‖) (hg2 : thr ≤ ‖g2‖) (he : ‖e‖ = ‖d‖)
    (hw : |⟪g2, e⟫| ≤ -beta * ⟪g1, d⟫) (hs : |s| ≤ ‖g2‖ ^ 2 / ‖g1‖ ^ 2) : frInv beta thr (k + 1) g2 (-g2 + s • e) := by
  obtain ⟨i1, i2, i3⟩ := hI
  have h1 : 0 < 1 - beta := by linarith
  have p1 : 0 < ‖g1‖ := lt_of_lt_of_le ht hg1
  have p2 : 0 < ‖g2‖ := lt_of_lt_of_le ht hg2
  -- the mixed term
  have hmix : |s * ⟪g2, e⟫| ≤ beta / (1 - beta) * ‖g2‖ ^ 2 := by
    rw [abs_mul]
    have q1 : |⟪g2, e⟫| ≤ beta * (1 / (1 - beta) * ‖g1‖ ^ 2) := hw.trans (by nlinarith)
    calc |s| * |⟪g2, e⟫| ≤ ‖g2‖ ^ 2 / ‖g1‖ ^ 2 * (beta * (1 / (1 - beta) * ‖g1‖ ^ 2)) := mul_le_mul hs q1 (abs_nonneg _) (by positivity)
      _ = _ := by field_simp
  obtain ⟨m1, m2⟩ := abs_le.mp hmix
  have hin : ⟪g2, -g2 + s • e⟫ = -‖g2‖ ^ 2 + s * ⟪g2, e⟫ := by
    rw [inner_add_right, inner_neg_right, inner_smul_right, real_inner_self_eq_norm_sq]
  refine ⟨?_, ?_, ?_⟩
  · rw [hin]
    have : -(1 / (1 - beta)) * ‖g2‖ ^ 2 = -‖g2‖ ^ 2 - beta / (1 - beta) * ‖g2‖ ^ 2 := by field_simp; ring
    linarith
  · rw [hin]
    have : -((1 - 2 * beta) / (1 - beta)) * ‖g2‖ ^ 2 = -‖g2‖ ^ 2 + beta / (1 - beta) * ‖g2‖ ^ 2 := by field_simp; ring
    linarith
  · have hn : ‖-g2 + s • e‖ ^ 2 = ‖g2‖ ^ 2 - 2 * (s * ⟪g2, e⟫) + s ^ 2 * ‖d‖ ^ 2 := by
      rw [norm_add_sq_real, norm_neg, inner_neg_left, inner_smul_right, norm_smul, mul_pow, Real.norm_eq_abs, sq_abs, he]; ring
    have hs2 : s ^ 2 ≤ (‖g2‖ ^ 2 / ‖g1‖ ^ 2) ^ 2 := by rw [← sq_abs]; exact pow_le_pow_left₀ (abs_nonneg _) hs 2
    have q3 : s ^ 2 * (‖d‖ ^ 2 * thr ^ 2) ≤ (1 + beta) / (1 - beta) * (k + 1) * ‖g2‖ ^ 4 := by
      calc s ^ 2 * (‖d‖ ^ 2 * thr ^ 2) ≤ (‖g2‖ ^ 2 / ‖g1‖ ^ 2) ^ 2 * ((1 + beta) / (1 - beta) * (k + 1) * ‖g1‖ ^ 4) := mul_le_mul hs2 i3 (by positivity) (by positivity)
        _ = _ := by field_simp
    have q4 : (‖g2‖ ^ 2 - 2 * (s * ⟪g2, e⟫)) * thr ^ 2 ≤ (1 + beta) / (1 - beta) * ‖g2‖ ^ 4 := by
      have e1 : ‖g2‖ ^ 2 - 2 * (s * ⟪g2, e⟫) ≤ (1 + beta) / (1 - beta) * ‖g2‖ ^ 2 := by
        have : (1 + beta) / (1 - beta) * ‖g2‖ ^ 2 = ‖g2‖ ^ 2 + 2 * (beta / (1 - beta) * ‖g2‖ ^ 2) := by field_simp; ring
        linarith
      have e2 : thr ^ 2 ≤ ‖g2‖ ^ 2 := pow_le_pow_left₀ ht.le hg2 2
      calc _ ≤ (1 + beta) / (1 - beta) * ‖g2‖ ^ 2 * thr ^ 2 := mul_le_mul_of_nonneg_right e1 (sq_nonneg _)
        _ ≤ (1 + beta) / (1 - beta) * ‖g2‖ ^ 2 * ‖g2‖ ^ 2 := mul_le_mul_of_nonneg_left e2 (by positivity)
        _ = _ := by ring
    rw [hn]
    push_cast
    nlinarith

/-- One step of Dai and Yuan. -/
theorem dy_step {beta thr s yd : ℝ} (hb : beta < 1) (ht : 0 < thr) {k : ℕ} {g1 g2 d e : E} (hI : dyInv thr k g1 d) (hg2 : thr ≤ ‖g2‖) (he : ‖e‖ = ‖d‖)
    (hw : |⟪g2, e⟫| ≤ -beta * ⟪g1, d⟫) (hyd : yd = ⟪g2, e⟫ - ⟪g1, d⟫) (hs : s = ‖g2‖ ^ 2 / yd) : dyInv thr (k + 1) g2 (-g2 + s • e) := by
  obtain ⟨i1, i2⟩ := hI
  have p2 : 0 < ‖g2‖ := lt_of_lt_of_le ht hg2
  have hyp : 0 < yd := by
    have := neg_le_of_abs_le hw
    rw [hyd]; nlinarith
  have hs0 : 0 < s := by rw [hs]; positivity
  have hsyd : s * yd = ‖g2‖ ^ 2 := by rw [hs]; field_simp
  have hin : ⟪g2, -g2 + s • e⟫ = s * ⟪g1, d⟫ := by
    rw [inner_add_right, inner_neg_right, inner_smul_right, real_inner_self_eq_norm_sq, ← hsyd, hyd]; ring
  refine ⟨by rw [hin]; exact mul_neg_of_pos_of_neg hs0 i1, ?_⟩
  have hn : ‖-g2 + s • e‖ ^ 2 = s ^ 2 * ‖d‖ ^ 2 - 2 * (s * ⟪g1, d⟫) - ‖g2‖ ^ 2 := by
    have h1 : ‖-g2 + s • e‖ ^ 2 = ‖g2‖ ^ 2 - 2 * (s * ⟪g2, e⟫) + s ^ 2 * ‖d‖ ^ 2 := by
      rw [norm_add_sq_real, norm_neg, inner_neg_left, inner_smul_right, norm_smul, mul_pow, Real.norm_eq_abs, sq_abs, he]; ring
    have h2 : s * ⟪g2, e⟫ = ‖g2‖ ^ 2 + s * ⟪g1, d⟫ := by rw [← hsyd, hyd]; ring
    rw [h1, h2]; ring
  rw [hin, hn]
  have e2 : thr ^ 2 ≤ ‖g2‖ ^ 2 := pow_le_pow_left₀ ht.le hg2 2
  set v := s * ⟪g1, d⟫ with hv
  have q1 : s ^ 2 * (‖d‖ ^ 2 * thr ^ 2) ≤ s ^ 2 * ((k + 1) * ⟪g1, d⟫ ^ 2) := mul_le_mul_of_nonneg_left i2 (sq_nonneg _)
  have q2 : s ^ 2 * ((k + 1) * ⟪g1, d⟫ ^ 2) = (k + 1) * v ^ 2 := by rw [hv]; ring
  have q3 : (-2 * v - ‖g2‖ ^ 2) * thr ^ 2 ≤ v ^ 2 := by
    have e3 : (-2 * v - ‖g2‖ ^ 2) * ‖g2‖ ^ 2 ≤ v ^ 2 := by nlinarith [sq_nonneg (v + ‖g2‖ ^ 2)]
    rcases le_or_gt (-2 * v - ‖g2‖ ^ 2) 0 with h | h
    · exact (mul_nonpos_of_nonpos_of_nonneg h (sq_nonneg _)).trans (sq_nonneg _)
    · exact (mul_le_mul_of_nonneg_left e2 h.le).trans e3
  push_cast
  nlinarith

/-! ## Runs -/

section runs

variable {G : Geo X E} {m : Method} {c : ℝ} {C : LSCfg} {O : Oracle X E} {ub : E} {x0 : X} {fmin L thr : ℝ}

/-- The run, from what the method guarantees. -/
theorem CGWolfe.run (S : CGWolfe G m c C O ub x0 fmin L thr) {w : ℕ → ℝ} (hw : ∀ k, 0 < w k) {I : ℕ → E → E → Prop}
    (hI : ∀ k g d, thr ≤ ‖g‖ → I k g d → ⟪g, d⟫ < 0 ∧ w k ≤ (⟪g, d⟫ / ‖d‖) ^ 2) (h0 : ∀ g, thr ≤ ‖g‖ → I 0 g (-g))
    (hstep : ∀ k g1 g2 d Tg1 e, I k g1 d → thr ≤ ‖g1‖ → ‖e‖ = ‖d‖ → ⟪Tg1, e⟫ = ⟪g1, d⟫ → |⟪g2, e⟫| ≤ -C.ls.beta * ⟪g1, d⟫ →
      (rcgSigma m g1 g2 g1 g2 Tg1 e).isSome ∧ (thr ≤ ‖g2‖ → ∀ s, (s = 0 ∨ rcgSigma m g1 g2 g1 g2 Tg1 e = some s) → I (k + 1) g2 (-g2 + s • e)))
    (hN : G.f x0 - fmin < C.ls.alpha * (1 - C.ls.beta) / L * ∑ k ∈ Finset.range C.run.maxIter, w k) :
    ∃ s, lsRun G.land C O x0 (C.run.maxIter + 1) = .finished s ∧
      (s.rs.ok = true → s.rs.f1 = G.f s.x ∧ (O.timeUp s.rs.iter = true ∨ ‖G.grad s.x‖ < thr) ∧ (cgDir G m c s.past).isSome) ∧
      C.ls.alpha * (1 - C.ls.beta) / L * ∑ k ∈ Finset.range (s.rs.iter - 1), w k ≤ G.f x0 - fmin := by
  have hdir : ∀ {x t past}, CGGood G m c thr I ((x, t) :: past) → ∃ d, cgDir G m c ((x, t) :: past) = some d ∧ O.dir ((x, t) :: past) = d ∧ (thr ≤ ‖G.grad x‖ → I past.length (G.grad x) d) := by
    rintro x t past ⟨x', u, q, d, e, e1, e2⟩
    simp only [List.cons.injEq, Prod.mk.injEq] at e
    obtain ⟨⟨rfl, rfl⟩, rfl⟩ := e
    exact ⟨d, e1, by rw [S.dir, cgDirection, e1]; rfl, e2⟩
  have R : ZReach G.land C O (fun _ d => ‖d‖) (CGGood G m c thr I) x0 fmin L thr w :=
    { below := S.below, lips := S.ray
      dirs := by
        intro x t past h hg
        obtain ⟨d, e1, e2, e3⟩ := hdir h
        obtain ⟨k1, k2⟩ := hI _ _ _ hg (e3 hg)
        rw [e2]
        refine ⟨k1.le, ?_, k2⟩
        show 0 < ‖d‖
        rw [norm_pos_iff]; intro h0; rw [h0, inner_zero_right] at k1; exact lt_irrefl _ k1
      init := fun x t past _ _ => S.init _
      good0 := ⟨x0, 0, [], _, rfl, cg_first_id G S.pre m c x0 0, fun h => h0 _ h⟩
      goodS := by
        intro x u past t h hg ht _ hcurv
        obtain ⟨d, e1, e2, e3⟩ := hdir h
        rw [e2] at hcurv ⊢
        have hcv : |⟪G.grad (G.retr x (t • d)), G.T x (t • d) d⟫| ≤ -C.ls.beta * ⟪G.grad x, d⟫ := (S.slope x d t ht).trans hcurv
        obtain ⟨k1, k2⟩ := hstep past.length (G.grad x) (G.grad (G.retr x (t • d))) d (G.T x (t • d) (G.grad x)) (G.T x (t • d) d) (e3 hg) hg (LinearIsometryEquiv.norm_map _ _)
          (LinearIsometryEquiv.inner_map_map _ _ _) hcv
        obtain ⟨s, n1, n2⟩ := cg_next_id G S.pre m c e1 k1
        exact ⟨_, _, _, _, rfl, n1, fun h2 => k2 h2 s n2⟩
      Lpos := S.Lpos, wpos := hw, kind := S.kind, alpha := S.alpha, beta := S.beta, r1 := S.r1, r12 := S.r12, r2 := S.r2, maxPos := S.maxPos, nocall := S.nocall
      thresh := S.thresh, thrpos := S.thrpos, acc := S.acc, tolpos := S.tolpos, g0 := norm_nonneg _, min0 := S.min0, gap := S.gap }
  obtain ⟨s, e1, e2, e3⟩ := wolfe_run_z R hN
  refine ⟨s, e1, fun hok => ?_, e3⟩
  obtain ⟨k1, k2, -, -, _, _, _, d, _, k3, -⟩ := e2 hok
  exact ⟨k1, k2, by rw [k3]; rfl⟩

/-! ## C116 -/

/-- **C116, Fletcher and Reeves.** A run of `RCG` with the method of Fletcher and Reeves, with the one that clips Polak and Ribière by it, or with an unknown method number, with the strong Wolfe search and
`0 ≤ LS_beta < 1/2`, on an objective that is bounded below and has a Lipschitz slope along rays, ends; unless a search failed it ends by its gradient test or the time limit. The number of iterations
is bounded (the weights add up to infinity) and no direction is NaN. Nothing is assumed about convexity. -/
theorem C116_fletcher_reeves (S : CGWolfe G m c C O ub x0 fmin L thr) (hm : m = .fletcherReeves ∨ m = .frPr ∨ m = .other) (hb0 : 0 ≤ C.ls.beta) (hb : C.ls.beta < 1 / 2)
    (hN : G.f x0 - fmin < C.ls.alpha * (1 - C.ls.beta) / L * ∑ k ∈ Finset.range C.run.maxIter, frWeight C.ls.beta thr k) :
    ∃ s, lsRun G.land C O x0 (C.run.maxIter + 1) = .finished s ∧
      (s.rs.ok = true → s.rs.f1 = G.f s.x ∧ (O.timeUp s.rs.iter = true ∨ ‖G.grad s.x‖ < thr) ∧ (cgDir G m c s.past).isSome) ∧
      C.ls.alpha * (1 - C.ls.beta) / L * ∑ k ∈ Finset.range (s.rs.iter - 1), frWeight C.ls.beta thr k ≤ G.f x0 - fmin := by
  have ht := S.thrpos
  set b := C.ls.beta with hbd
  have p1 : 0 < 1 - b := by linarith
  have p2 : 0 < 1 - 2 * b := by linarith
  have p3 : 0 < 1 + b := by linarith
  refine S.run (I := frInv b thr) (fun k => by unfold frWeight; positivity) ?_ (fun g hg => fr_neg hb0 hb ht 0 hg) ?_ hN
  · rintro k g d hg ⟨-, i2, i3⟩
    have hgp : 0 < ‖g‖ := lt_of_lt_of_le ht hg
    have hc0 : 0 < (1 - 2 * b) / (1 - b) := by positivity
    have hneg : ⟪g, d⟫ < 0 := by
      have : 0 < (1 - 2 * b) / (1 - b) * ‖g‖ ^ 2 := by positivity
      linarith
    have hdn : 0 < ‖d‖ := by rw [norm_pos_iff]; intro h0; rw [h0, inner_zero_right] at hneg; exact lt_irrefl _ hneg
    refine ⟨hneg, ?_⟩
    have q1 : ((1 - 2 * b) / (1 - b) * ‖g‖ ^ 2) ^ 2 ≤ ⟪g, d⟫ ^ 2 := by
      rw [← neg_sq ⟪g, d⟫]; exact pow_le_pow_left₀ (by positivity) (by linarith) 2
    rw [div_pow, le_div_iff₀ (by positivity)]
    refine le_trans ?_ q1
    rw [frWeight]
    have hk : (0 : ℝ) < (k : ℝ) + 1 := by positivity
    calc ((1 - 2 * b) / (1 - b)) ^ 2 * ((1 - b) / (1 + b)) * thr ^ 2 / (k + 1) * ‖d‖ ^ 2 = ((1 - 2 * b) / (1 - b)) ^ 2 * ((1 - b) / (1 + b)) / (k + 1) * (‖d‖ ^ 2 * thr ^ 2) := by ring
      _ ≤ ((1 - 2 * b) / (1 - b)) ^ 2 * ((1 - b) / (1 + b)) / (k + 1) * ((1 + b) / (1 - b) * (k + 1) * ‖g‖ ^ 4) := mul_le_mul_of_nonneg_left i3 (by positivity)
      _ = ((1 - 2 * b) / (1 - b) * ‖g‖ ^ 2) ^ 2 := by field_simp
  · intro k g1 g2 d Tg1 e hI hg1 he hT hcv
    have hgp : 0 < ‖g1‖ := lt_of_lt_of_le ht hg1
    have hne : ¬ ⟪g1, g1⟫ = 0 := by rw [real_inner_self_eq_norm_sq]; positivity
    have hfr : rcgSigma .fletcherReeves g1 g2 g1 g2 Tg1 e = some (‖g2‖ ^ 2 / ‖g1‖ ^ 2) := by
      rw [rcgSigma, quot, if_neg hne, real_inner_self_eq_norm_sq, real_inner_self_eq_norm_sq]
    have hsome : (rcgSigma m g1 g2 g1 g2 Tg1 e).isSome := by
      rcases hm with rfl | rfl | rfl
      · rw [hfr]; rfl
      · simp only [rcgSigma, quot, if_neg hne, Option.bind_some, Option.map_some]; rfl
      · rfl
    refine ⟨hsome, fun hg2 s hs => fr_step hb0 hb ht hI hg1 hg2 he hcv ?_⟩
    have hnn : 0 ≤ ‖g2‖ ^ 2 / ‖g1‖ ^ 2 := by positivity
    rcases hs with rfl | hs
    · rw [abs_zero]; exact hnn
    · rcases hm with rfl | rfl | rfl
      · rw [hfr] at hs; injection hs with hs; rw [← hs, abs_of_nonneg hnn]
      · exact C55_frpr_between _ _ _ _ _ _ _ _ hfr hnn hs
      · simp only [rcgSigma, Option.some.injEq] at hs; rw [← hs, abs_zero]; exact hnn

/-- **C116, Dai and Yuan.** The same for the method of Dai and Yuan and any `LS_beta < 1`. -/
theorem C116_dai_yuan (S : CGWolfe G .daiYuan c C O ub x0 fmin L thr)
    (hN : G.f x0 - fmin < C.ls.alpha * (1 - C.ls.beta) / L * ∑ k ∈ Finset.range C.run.maxIter, dyWeight thr k) :
    ∃ s, lsRun G.land C O x0 (C.run.maxIter + 1) = .finished s ∧
      (s.rs.ok = true → s.rs.f1 = G.f s.x ∧ (O.timeUp s.rs.iter = true ∨ ‖G.grad s.x‖ < thr) ∧ (cgDir G .daiYuan c s.past).isSome) ∧
      C.ls.alpha * (1 - C.ls.beta) / L * ∑ k ∈ Finset.range (s.rs.iter - 1), dyWeight thr k ≤ G.f x0 - fmin := by
  have ht := S.thrpos
  refine S.run (I := dyInv thr) (fun k => by unfold dyWeight; positivity) ?_ (fun g hg => dy_neg ht 0 hg) ?_ hN
  · rintro k g d hg ⟨i1, i2⟩
    have hdn : 0 < ‖d‖ := by rw [norm_pos_iff]; intro h0; rw [h0, inner_zero_right] at i1; exact lt_irrefl _ i1
    refine ⟨i1, ?_⟩
    have hk : (0 : ℝ) < (k : ℝ) + 1 := by positivity
    rw [div_pow, le_div_iff₀ (by positivity), dyWeight, div_mul_eq_mul_div, div_le_iff₀ hk]
    linarith
  · intro k g1 g2 d Tg1 e hI hg1 he hT hcv
    have hyd : ⟪g2 - Tg1, e⟫ = ⟪g2, e⟫ - ⟪g1, d⟫ := by rw [inner_sub_left, hT]
    have hyp : 0 < ⟪g2 - Tg1, e⟫ := by
      have := neg_le_of_abs_le hcv
      have := hI.1
      have := S.beta
      rw [hyd]; nlinarith
    have hs1 : rcgSigma .daiYuan g1 g2 g1 g2 Tg1 e = some (‖g2‖ ^ 2 / ⟪g2 - Tg1, e⟫) := by
      rw [rcgSigma, quot, if_neg hyp.ne', real_inner_self_eq_norm_sq]
    refine ⟨by rw [hs1]; rfl, fun hg2 s hs => ?_⟩
    rcases hs with rfl | hs
    · simpa using dy_neg ht (k + 1) hg2
    · rw [hs1] at hs; injection hs with hs
      exact dy_step S.beta ht hI hg2 he hcv hyd hs.symm

end runs

/-- The bounds on the number of iterations can be met: the weights add up to infinity. -/
theorem C116_weights_diverge {beta thr a B : ℝ} (hb0 : 0 ≤ beta) (hb : beta < 1 / 2) (ht : 0 < thr) (ha : 0 < a) :
    (∃ n : ℕ, B < a * ∑ k ∈ Finset.range n, frWeight beta thr k) ∧ ∃ n : ℕ, B < a * ∑ k ∈ Finset.range n, dyWeight thr k := by
  have key : ∀ K : ℝ, 0 < K → ∃ n : ℕ, B < a * ∑ k ∈ Finset.range n, K / ((k : ℝ) + 1) := by
    intro K hK
    obtain ⟨n, hn⟩ := (Real.tendsto_sum_range_one_div_nat_succ_atTop.eventually_gt_atTop (B / (a * K))).exists
    refine ⟨n, ?_⟩
    rw [div_lt_iff₀ (by positivity)] at hn
    have : ∑ k ∈ Finset.range n, K / ((k : ℝ) + 1) = K * ∑ k ∈ Finset.range n, 1 / ((k : ℝ) + 1) := by
      rw [Finset.mul_sum]; exact Finset.sum_congr rfl fun _ _ => by ring
    rw [this]; linarith
  have p1 : 0 < 1 - beta := by linarith
  have p2 : 0 < 1 - 2 * beta := by linarith
  have p3 : 0 < 1 + beta := by linarith
  exact ⟨key (((1 - 2 * beta) / (1 - beta)) ^ 2 * ((1 - beta) / (1 + beta)) * thr ^ 2) (by positivity), key (thr ^ 2) (by positivity)⟩

/-! ### A concrete run: `2x²` -/

noncomputable def quadCGCfg (n : ℕ) : LSCfg := { quadCfg 0 n with kind := .strongWolfe, ls := { (quadCfg 0 n).ls with beta := 1 / 10 } }

noncomputable def quadCGOracle (m : Method) : Oracle ℝ ℝ := { quadOracle 1 with dir := cgDirection quadGeo m (1 / 10 ^ 8) 0, init := fun _ => 1 }

theorem quad_cgWolfe (m : Method) (n : ℕ) : CGWolfe quadGeo m (1 / 10 ^ 8) (quadCGCfg n) (quadCGOracle m) 0 1 0 4 (4 / 10 ^ 6) where
  below x := by simp only [quadGeo]; positivity
  ray x d t ht := by
    simp only [quadGeo, RCLike.inner_apply, Real.norm_eq_abs, sq_abs, conj_trivial, smul_eq_mul]
    apply le_of_eq; ring
  slope x d t ht := le_rfl
  pre x u := rfl
  Lpos := by norm_num
  dir := rfl
  init _ := one_pos
  kind := rfl
  alpha := by norm_num [quadCfg, quadCGCfg]
  beta := by norm_num [quadCfg, quadCGCfg]
  r1 := by norm_num [quadCfg, quadCGCfg]
  r12 := by norm_num [quadCfg, quadCGCfg]
  r2 := by norm_num [quadCfg, quadCGCfg]
  maxPos := by norm_num [quadCfg, quadCGCfg]
  nocall := rfl
  thresh := Or.inr ⟨rfl, by norm_num [quadGeo], by norm_num [quadGeo, quadCfg, quadCGCfg]⟩
  thrpos := by norm_num
  acc := by simp only [quadCfg, quadCGCfg, zero_mul]; positivity
  tolpos := by norm_num [quadCfg, quadCGCfg]
  min0 := rfl
  gap h := by simp [quadCfg, quadCGCfg] at h

example : (∃ n s, lsRun quadGeo.land (quadCGCfg n) (quadCGOracle .frPr) 1 (n + 1) = .finished s) ∧ ∃ n s, lsRun quadGeo.land (quadCGCfg n) (quadCGOracle .daiYuan) 1 (n + 1) = .finished s := by
  obtain ⟨⟨n1, h1⟩, n2, h2⟩ := C116_weights_diverge (beta := 1 / 10) (thr := 4 / 10 ^ 6) (a := 1 / 10000 * (1 - 1 / 10) / 4) (B := quadGeo.f 1 - 0) (by norm_num) (by norm_num) (by norm_num) (by norm_num)
  obtain ⟨s1, e1, -⟩ := C116_fletcher_reeves (quad_cgWolfe .frPr n1) (Or.inr (Or.inl rfl)) (by norm_num [quadCGCfg]) (by norm_num [quadCGCfg]) h1
  obtain ⟨s2, e2, -⟩ := C116_dai_yuan (quad_cgWolfe .daiYuan n2) h2
  exact ⟨⟨n1, s1, e1⟩, n2, s2, e2⟩

end Verif.Solver
