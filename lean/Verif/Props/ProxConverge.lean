import Verif.Props.ProxGrad
import Mathlib.Analysis.InnerProductSpace.Basic
import Mathlib.Tactic.Positivity
import Mathlib.Tactic.FieldSimp

/-!
# C128: proximal-gradient runs with the weight above the curvature, and the accuracy they cannot go beyond
-/

set_option linter.unusedSectionVars false
set_option linter.unusedVariables false

open scoped RealInnerProductSpace

namespace Verif.PG

variable {X E : Type} [NormedAddCommGroup E] [InnerProductSpace ℝ E]

/-! ## Specification -/

/-- A composite problem as `ManPG::Run` sees it (`ManPG.cpp:57-139`), with exactly solved subproblems and the variant `LSPG_REGULAR`, in which the weight is not changed during the run: `F` the whole objective (`Prob->f`),
`grad` the gradient of its smooth part, `dh x v` the change of the other part from `x` to `x + v`, `Q x v` the square of the weighted length of `v` (`Manifold.cpp:859-861`), `dir x` the direction (`eta1`). -/
structure PGProb (X E : Type) where
  F : X → ℝ
  grad : X → E
  retr : X → E → X
  dh : X → E → ℝ
  Q : X → E → ℝ
  dir : X → E

/-- The environment of `ManPG::Run` for this problem; the test is `NSM_DIR_F` with tolerance `thr`, or `NSM_DIR_F_0` with `thr` the product of the tolerance and the first norm (`SolversNSM.cpp:91-110`). It is evaluated after
the step, with the norm of the direction that was just used. Before the loop `ndir1 / ndir0` is `1 / 0` and the test fails. -/
noncomputable def PGProb.env (P : PGProb X E) (x0 : X) (thr : ℝ) : Env ℝ X where
  x0 := x0
  f := P.F
  finite := fun _ => true
  slope := fun _ x _ _ => ⟪P.grad x, P.dir x⟫
  path := fun _ x _ _ t => P.retr x (t • P.dir x)
  stopped := fun _ x _ => decide (‖P.dir x‖ < thr)
  stopped0 := false

/-- `v` solves the subproblem at `x`: least value of the linear term, half the weighted square and the other part, over the tangent space. -/
def PGProb.Solves (P : PGProb X E) (x : X) (v : E) : Prop := ∀ u, ⟪P.grad x, v⟫ + P.Q x v / 2 + P.dh x v ≤ ⟪P.grad x, u⟫ + P.Q x u / 2 + P.dh x u

/-- Hypotheses of C128: exact subproblems; the other part is convex along rays; the weight is at least `w`; the objective has the composite upper model with curvature at most `w`; bounded below; the gradient of the smooth
part is bounded by `g` on the level set of the start. -/
structure PGSetting (P : PGProb X E) (x0 : X) (Fmin w g : ℝ) : Prop where
  solves : ∀ x, P.Solves x (P.dir x)
  convex : ∀ x v t, 0 ≤ t → t ≤ 1 → P.dh x (t • v) ≤ t * P.dh x v
  quad : ∀ x v (t : ℝ), P.Q x (t • v) = t ^ 2 * P.Q x v
  weight : ∀ x v, w * ‖v‖ ^ 2 ≤ P.Q x v
  upper : ∀ x v, P.F (P.retr x v) ≤ P.F x + ⟪P.grad x, v⟫ + P.dh x v + w / 2 * ‖v‖ ^ 2
  below : ∀ x, Fmin ≤ P.F x
  bound : ∀ x, P.F x ≤ P.F x0 → ‖P.grad x‖ ≤ g
  wpos : 0 < w

/-! ## The subproblem -/

/-- The subproblem at its solution: the model decrease is at least the weighted square. -/
theorem solves_descent {P : PGProb X E} {x : X} {d : E} (hs : P.Solves x d) (hc : ∀ t, 0 ≤ t → t ≤ 1 → P.dh x (t • d) ≤ t * P.dh x d) (hq : ∀ t : ℝ, P.Q x (t • d) = t ^ 2 * P.Q x d)
    (hq0 : 0 ≤ P.Q x d) : ⟪P.grad x, d⟫ + P.dh x d ≤ -P.Q x d := by
  have key : ∀ t : ℝ, 0 ≤ t → t < 1 → ⟪P.grad x, d⟫ + P.dh x d + (1 + t) / 2 * P.Q x d ≤ 0 := by
    intro t h0 h1
    have h2 := hs (t • d)
    rw [hq, real_inner_smul_right] at h2
    have h3 := hc t h0 h1.le
    have h4 : (1 - t) * (⟪P.grad x, d⟫ + P.dh x d + (1 + t) / 2 * P.Q x d) ≤ 0 := by
      have e : (1 - t) * (⟪P.grad x, d⟫ + P.dh x d + (1 + t) / 2 * P.Q x d) = (⟪P.grad x, d⟫ + P.Q x d / 2 + P.dh x d) - (t * ⟪P.grad x, d⟫ + t ^ 2 * P.Q x d / 2 + t * P.dh x d) := by ring
      rw [e]; linarith
    by_contra hcon
    push Not at hcon
    have := mul_pos (sub_pos.mpr h1) hcon
    linarith
  by_contra hcon
  push Not at hcon
  rcases hq0.eq_or_lt with h0 | h0
  · have := key 0 le_rfl one_pos
    rw [← h0] at this hcon
    linarith
  · set a := ⟪P.grad x, d⟫ + P.dh x d with ha
    have hpos : 0 < a + P.Q x d := by linarith
    have h1 := key (max 0 (1 - (a + P.Q x d) / P.Q x d)) (le_max_left _ _) (max_lt one_pos (by have := div_pos hpos h0; linarith))
    have h2 : 1 - (a + P.Q x d) / P.Q x d ≤ max 0 (1 - (a + P.Q x d) / P.Q x d) := le_max_right _ _
    have h3 := mul_le_mul_of_nonneg_right h2 h0.le
    have h4 : (1 - (a + P.Q x d) / P.Q x d) * P.Q x d = P.Q x d - (a + P.Q x d) := by field_simp
    rw [h4] at h3
    linarith

/-- Every step not longer than the whole direction decreases the objective, whatever the line search tests. -/
theorem PGSetting.decrease {P : PGProb X E} {x0 : X} {Fmin w g : ℝ} (S : PGSetting P x0 Fmin w g) (x : X) {t : ℝ} (h0 : 0 ≤ t) (h1 : t ≤ 1) :
    P.F (P.retr x (t • P.dir x)) ≤ P.F x - t * (w / 2 * ‖P.dir x‖ ^ 2) := by
  have hw := S.weight x (P.dir x)
  have hq0 : 0 ≤ P.Q x (P.dir x) := le_trans (mul_nonneg S.wpos.le (sq_nonneg _)) hw
  have h2 := solves_descent (S.solves x) (S.convex x _) (S.quad x _) hq0
  have h3 := S.upper x (t • P.dir x)
  have h4 := S.convex x (P.dir x) t h0 h1
  rw [real_inner_smul_right, norm_smul, mul_pow, Real.norm_eq_abs, sq_abs] at h3
  have h5 : t * (⟪P.grad x, P.dir x⟫ + P.dh x (P.dir x)) ≤ t * (-P.Q x (P.dir x)) := mul_le_mul_of_nonneg_left h2 h0
  have h6 : t * (w * ‖P.dir x‖ ^ 2) ≤ t * P.Q x (P.dir x) := mul_le_mul_of_nonneg_left hw h0
  have h7 : t ^ 2 * (w / 2 * ‖P.dir x‖ ^ 2) ≤ t * (w / 2 * ‖P.dir x‖ ^ 2) := by
    apply mul_le_mul_of_nonneg_right _ (mul_nonneg (by linarith [S.wpos]) (sq_nonneg _))
    nlinarith
  have e1 : t * (⟪P.grad x, P.dir x⟫ + P.dh x (P.dir x)) = t * ⟪P.grad x, P.dir x⟫ + t * P.dh x (P.dir x) := by ring
  have e2 : w / 2 * (t ^ 2 * ‖P.dir x‖ ^ 2) = t ^ 2 * (w / 2 * ‖P.dir x‖ ^ 2) := by ring
  have e3 : t * (w * ‖P.dir x‖ ^ 2) = 2 * (t * (w / 2 * ‖P.dir x‖ ^ 2)) := by ring
  rw [e1] at h5
  rw [e2] at h3
  rw [e3] at h6
  linarith

/-- A direction longer than `2 alpha g / w` passes the line search at once. -/
theorem PGSetting.accepts {P : PGProb X E} {x0 : X} {Fmin w g thr : ℝ} (S : PGSetting P x0 Fmin w g) {C : LSCfg ℝ} (ha : 0 ≤ C.alpha) (hfloor : 2 * C.alpha * g ≤ w * thr) {x : X} (hx : P.F x ≤ P.F x0)
    (hd : thr ≤ ‖P.dir x‖) (n : ℕ) : armijo C (fun t => P.F (P.retr x (t • P.dir x))) (P.F x) ⟪P.grad x, P.dir x⟫ (n + 1) 1 = some ⟨true, 1, 1⟩ := by
  have h1 := S.decrease x zero_le_one le_rfl
  have h2 := S.bound x hx
  have h3 : -(‖P.grad x‖ * ‖P.dir x‖) ≤ ⟪P.grad x, P.dir x⟫ := (abs_le.mp (abs_real_inner_le_norm _ _)).1
  have hn := norm_nonneg (P.dir x)
  have h4 : ‖P.grad x‖ * ‖P.dir x‖ ≤ g * ‖P.dir x‖ := mul_le_mul_of_nonneg_right h2 hn
  have h5 : C.alpha * (-⟪P.grad x, P.dir x⟫) ≤ C.alpha * (g * ‖P.dir x‖) := mul_le_mul_of_nonneg_left (by linarith) ha
  have h6 : 2 * C.alpha * g * ‖P.dir x‖ ≤ w * ‖P.dir x‖ * ‖P.dir x‖ :=
    mul_le_mul_of_nonneg_right (hfloor.trans (mul_le_mul_of_nonneg_left hd S.wpos.le)) hn
  simp only [armijo]
  rw [if_neg]
  push Not
  have e1 : 2 * C.alpha * g * ‖P.dir x‖ = 2 * (C.alpha * (g * ‖P.dir x‖)) := by ring
  have e2 : w * ‖P.dir x‖ * ‖P.dir x‖ = 2 * (w / 2 * ‖P.dir x‖ ^ 2) := by ring
  have e3 : -C.alpha * ⟪P.grad x, P.dir x⟫ * 1 = C.alpha * (-⟪P.grad x, P.dir x⟫) := by ring
  rw [e1, e2] at h6
  rw [e3]
  linarith

/-! ## The run -/

/-- How a finished run ended. -/
theorem loop_end {K X : Type} [Field K] [LinearOrder K] {C : Cfg K} {E : Env K X} {lsFuel : ℕ} : ∀ (n : ℕ) (s s' : St K X), Reaches C E lsFuel s → loop C E lsFuel n s = .finished s' →
    Reaches C E lsFuel s' ∧ (s'.continues C = false ∨ pass C E lsFuel s' = .stop s') := by
  intro n
  induction n with
  | zero => intro s s' _ h; simp [loop] at h
  | succ n ih =>
    intro s s' hr h
    simp only [loop] at h
    by_cases hc : s.continues C = true
    · rw [if_pos hc] at h
      cases hp : pass C E lsFuel s with
      | running => rw [hp] at h; simp at h
      | outOfBounds => rw [hp] at h; simp at h
      | divByZero => rw [hp] at h; simp at h
      | stop s1 =>
        rw [hp] at h
        simp only [Outcome.finished.injEq] at h
        subst h
        have : s1 = s := by
          unfold pass at hp
          split at hp
          · simp at hp
          · simp only [] at hp
            split at hp
            · split at hp
              · simp only [Pass.stop.injEq] at hp; exact hp.symm
              · simp at hp
            · split at hp
              · simp only [Pass.stop.injEq] at hp; exact hp.symm
              · unfold record at hp
                split at hp
                · split at hp
                  · simp at hp
                  · split at hp <;> simp at hp
                · simp at hp
        rw [this] at hp ⊢
        exact ⟨hr, Or.inr hp⟩
      | next s1 =>
        rw [hp] at h
        exact ih s1 s' (Reaches.step hr hc hp) h
    · rw [if_neg hc] at h
      simp only [Outcome.finished.injEq] at h
      subst h
      exact ⟨hr, Or.inl (by simpa using hc)⟩

theorem armijo_step_le {C : LSCfg ℝ} (h0 : 0 ≤ C.ratio) (h1 : C.ratio ≤ 1) (phi : ℝ → ℝ) (f1 slope : ℝ) :
    ∀ (n : ℕ) (t : ℝ) (r : LSRes ℝ), 0 ≤ t → armijo C phi f1 slope n t = some r → r.trial ≤ t ∧ 0 ≤ r.trial := by
  intro n
  induction n with
  | zero => intro t r _ h; simp [armijo] at h
  | succ n ih =>
    intro t r ht h
    simp only [armijo] at h
    split at h
    · split at h
      · simp only [Option.some.injEq] at h
        rw [← h]; exact ⟨le_rfl, ht⟩
      · have h2 := ih _ _ (mul_nonneg ht h0) h
        exact ⟨h2.1.trans (by nlinarith), h2.2⟩
    · simp only [Option.some.injEq] at h
      rw [← h]; exact ⟨le_rfl, ht⟩

/-- What holds at the head of the loop: no increase, and every iteration but the one that stopped the run gained `w / 2 * thr ^ 2`. -/
structure PGInv (P : PGProb X E) (x0 : X) (w thr : ℝ) (s : St ℝ X) : Prop where
  val : s.f1 = P.F s.x1
  level : P.F s.x1 ≤ P.F x0
  run : s.isstop = false → s.iter * (w / 2 * thr ^ 2) ≤ P.F x0 - P.F s.x1
  stop : s.isstop = true → ∃ (k : ℕ) (x : X) (t : ℝ) (r : List X), s.iter = k + 1 ∧ k * (w / 2 * thr ^ 2) ≤ P.F x0 - P.F s.x1 ∧ s.xs = s.x1 :: x :: r ∧ ‖P.dir x‖ < thr ∧
    0 ≤ t ∧ t ≤ 1 ∧ s.x1 = P.retr x (t • P.dir x)

theorem reaches_pg {P : PGProb X E} {x0 : X} {Fmin w g thr : ℝ} (S : PGSetting P x0 Fmin w g) {C : Cfg ℝ} (hmin : C.minIter = 0) (ha : 0 ≤ C.alpha) (h0 : 0 ≤ C.ratio) (h1 : C.ratio < 1)
    (hft : 0 ≤ C.fTol) (hfl : 0 ≤ C.fLam) (hthr : 0 ≤ thr) (hfloor : 2 * C.alpha * g ≤ w * thr) {n : ℕ} {s : St ℝ X} (h : Reaches C (P.env x0 thr) (n + 1) s) : PGInv P x0 w thr s := by
  induction h with
  | init =>
    refine ⟨rfl, le_rfl, fun _ => ?_, fun h => ?_⟩
    · show ((0 : ℕ) : ℝ) * _ ≤ P.F x0 - P.F x0
      simp
    · simp [St.init, PGProb.env] at h
  | @step s s' hr hc hp ih =>
    obtain ⟨-, -, -, hhead⟩ := reaches_inv hr hft hfl
    have hns : s.isstop = false := by
      unfold St.continues at hc
      rw [hmin] at hc
      simp only [not_lt_zero, decide_false, Bool.or_false, Bool.and_eq_true, Bool.not_eq_true'] at hc
      exact hc.1
    rcases pass_next hp with ⟨e, -⟩ | ⟨r, e1, e2, e3, e4, e5, -, -, -, e6, e7⟩
    · subst e
      exact ⟨ih.val, ih.level, ih.run, ih.stop⟩
    · have hb := armijo_step_le h0 h1.le _ _ _ _ _ _ zero_le_one e1
      have e4' : s'.x1 = P.retr s.x1 (r.trial • P.dir s.x1) := e4
      have hdec := S.decrease s.x1 hb.2 hb.1
      rw [← e4'] at hdec
      have hnn : 0 ≤ r.trial * (w / 2 * ‖P.dir s.x1‖ ^ 2) := mul_nonneg hb.2 (mul_nonneg (by linarith [S.wpos]) (sq_nonneg _))
      have hrun := ih.run hns
      refine ⟨e5, by linarith [ih.level], fun hf => ?_, fun ht => ?_⟩
      · rw [e7] at hf
        have hd : thr ≤ ‖P.dir s.x1‖ := by
          by_contra hcon
          push Not at hcon
          rw [show (P.env x0 thr).stopped (s.iter + 1) s.x1 s'.x1 = decide (‖P.dir s.x1‖ < thr) from rfl] at hf
          simp [hcon] at hf
        have hacc := S.accepts (C := C.toLSCfg) ha hfloor ih.level hd n
        rw [ih.val] at e1
        have e1' : armijo C.toLSCfg (fun t => P.F (P.retr s.x1 (t • P.dir s.x1))) (P.F s.x1) ⟪P.grad s.x1, P.dir s.x1⟫ (n + 1) 1 = some r := e1
        rw [hacc] at e1'
        simp only [Option.some.injEq] at e1'
        rw [← e1', one_mul] at hdec
        have hsq : thr ^ 2 ≤ ‖P.dir s.x1‖ ^ 2 := pow_le_pow_left₀ hthr hd 2
        have hgain : w / 2 * thr ^ 2 ≤ w / 2 * ‖P.dir s.x1‖ ^ 2 := mul_le_mul_of_nonneg_left hsq (by linarith [S.wpos])
        rw [e3]; push_cast
        linarith
      · rw [e7] at ht
        have hd : ‖P.dir s.x1‖ < thr := by
          rw [show (P.env x0 thr).stopped (s.iter + 1) s.x1 s'.x1 = decide (‖P.dir s.x1‖ < thr) from rfl] at ht
          simpa using ht
        cases hx : s.xs with
        | nil => rw [hx] at hhead; simp at hhead
        | cons y ys =>
          rw [hx] at hhead e6
          simp only [List.head?_cons, Option.some.injEq] at hhead
          subst hhead
          exact ⟨s.iter, s.x1, r.trial, ys, e3, by linarith, e6, hd, hb.2, hb.1, e4'⟩

/-- **C128.** A run of `ManPG` (regular variant) with exactly solved subproblems, whose weight is at least the curvature of the objective, ends with a direction shorter than `thr`: either the direction of the last step was
(then the test stopped the run) or the direction at the returned point is (then the line search gave up), provided `thr` is at least `2 alpha g / w`. The objective never increases, the iterations before the last gain
`w / 2 * thr ^ 2` each, and no iteration limit above `(F(x0) - Fmin) / (w / 2 * thr ^ 2)` is reached. -/
theorem C128_manpg_converges {P : PGProb X E} {x0 : X} {Fmin w g thr : ℝ} (S : PGSetting P x0 Fmin w g) {C : Cfg ℝ} (hmin : C.minIter = 0) (hgap : C.outputGap ≠ 0) {N : ℕ} (hF : Floors C N)
    (ha : 0 ≤ C.alpha) (h0 : 0 ≤ C.ratio) (h1 : C.ratio < 1) (hms : 0 < C.minStep) (hthr : 0 ≤ thr) (hfloor : 2 * C.alpha * g ≤ w * thr) (hmax : P.F x0 - Fmin < C.maxIter * (w / 2 * thr ^ 2)) :
    ∃ lsFuel s, run C (P.env x0 thr) lsFuel (C.maxIter + N + 1) = .finished s ∧ s.f1 = P.F s.x1 ∧ P.F s.x1 ≤ P.F x0 ∧ ((s.iter : ℝ) - 1) * (w / 2 * thr ^ 2) ≤ P.F x0 - P.F s.x1 ∧
      (‖P.dir s.x1‖ < thr ∨ ∃ (x : X) (t : ℝ) (r : List X), s.xs = s.x1 :: x :: r ∧ ‖P.dir x‖ < thr ∧ 0 ≤ t ∧ t ≤ 1 ∧ s.x1 = P.retr x (t • P.dir x)) := by
  obtain ⟨n0, hn0⟩ := C54_terminates C.toLSCfg h0 h1 hms
  obtain ⟨n, rfl⟩ : ∃ n, n0 = n + 1 := by
    cases n0 with
    | zero => obtain ⟨r, hr⟩ := hn0 (fun _ => 0) 0 0; simp [armijo] at hr
    | succ n => exact ⟨n, rfl⟩
  obtain ⟨s, e, hi, -⟩ := loop_finishes (E := P.env x0 thr) (by omega) hgap hF hn0 (C.maxIter + N + 1) _ Reaches.init (by simp [St.init])
  obtain ⟨hr, hend⟩ := loop_end _ _ _ Reaches.init e
  have I := reaches_pg S hmin ha h0 h1 hF.tolNonneg hF.lamNonneg hthr hfloor hr
  have hgain : 0 ≤ w / 2 * thr ^ 2 := mul_nonneg (by linarith [S.wpos]) (sq_nonneg _)
  refine ⟨n + 1, s, e, I.val, I.level, ?_, ?_⟩
  · cases hst : s.isstop with
    | false => have := I.run hst; linarith
    | true =>
      obtain ⟨k, x, t, r, e1, e2, -⟩ := I.stop hst
      rw [e1]; push_cast
      linarith
  · cases hst : s.isstop with
    | true =>
      obtain ⟨k, x, t, r, e1, e2, e3, e4, e5, e6, e7⟩ := I.stop hst
      exact Or.inr ⟨x, t, r, e3, e4, e5, e6, e7⟩
    | false =>
      left
      rcases hend with hc | hp
      · exfalso
        unfold St.continues at hc
        rw [hst, hmin] at hc
        simp only [Bool.not_false, Bool.true_and, not_lt_zero, decide_false, Bool.or_false, decide_eq_false_iff_not, not_lt] at hc
        have h2 := I.run hst
        have h3 := S.below s.x1
        have h4 : (C.maxIter : ℝ) ≤ s.iter := by exact_mod_cast hc
        have h5 := mul_le_mul_of_nonneg_right h4 hgain
        linarith
      · by_contra hcon
        push Not at hcon
        have hacc := S.accepts (C := C.toLSCfg) ha hfloor I.level hcon n
        unfold pass at hp
        rw [I.val, show armijo C.toLSCfg ((P.env x0 thr).phi s.iter s.x1 s.tol s.lam) (P.F s.x1) ((P.env x0 thr).slope s.iter s.x1 s.tol s.lam) (n + 1) 1 = some ⟨true, 1, 1⟩ from hacc] at hp
        simp only [Bool.not_true, Bool.false_eq_true, if_false] at hp
        rw [if_neg (by simp [PGProb.env])] at hp
        unfold record at hp
        repeat' split at hp
        all_goals simp at hp

/-! ## The accuracy that cannot be reached -/

theorem armijo_fails {C : LSCfg ℝ} (h0 : 0 ≤ C.ratio) (h1 : C.ratio < 1) (hm : 0 < C.minStep) {phi : ℝ → ℝ} {f1 slope : ℝ} (hbad : ∀ t, 0 < t → t ≤ 1 → f1 - phi t < -C.alpha * slope * t) {n : ℕ} {r : LSRes ℝ}
    (h : armijo C phi f1 slope n 1 = some r) : r.ok = false := by
  cases hok : r.ok with
  | false => rfl
  | true =>
    obtain ⟨e1, e2, e3⟩ := C54_success C phi f1 slope n 1 r h hok
    have hb := armijo_step_le h0 h1.le phi f1 slope n 1 r zero_le_one h
    rw [e2] at hb
    have hpos : 0 < r.step := by
      rcases e3 with e3 | e3
      · rw [e3]; exact one_pos
      · linarith
    exact absurd (hbad r.step hpos hb.1) (not_lt.mpr e1)

/-- A run whose search fails at the start, however accurately the subproblem is solved, ends there: no iteration is made, the stopping test is never evaluated. -/
theorem C128_stalls {X : Type} {C : Cfg ℝ} {E : Env ℝ X} (hmin : C.minIter = 0) (hmax : 0 < C.maxIter) (hgap : C.outputGap ≠ 0) {N : ℕ} (hF : Floors C N) (h0 : 0 ≤ C.ratio) (h1 : C.ratio < 1) (hms : 0 < C.minStep)
    (hstop : E.stopped0 = false) (hbad : ∀ tol lam t, 0 < t → t ≤ 1 → E.f E.x0 - E.phi 0 E.x0 tol lam t < -C.alpha * E.slope 0 E.x0 tol lam * t) :
    ∃ lsFuel s, run C E lsFuel (C.maxIter + N + 1) = .finished s ∧ s.iter = 0 ∧ s.x1 = E.x0 ∧ s.isstop = false ∧ s.tol = C.fTol ∧ s.lam = C.fLam := by
  obtain ⟨n, hn⟩ := C54_terminates C.toLSCfg h0 h1 hms
  have inv : ∀ s, Reaches C E n s → s.iter = 0 ∧ s.x1 = E.x0 ∧ s.isstop = false := by
    intro s hr
    induction hr with
    | init => exact ⟨rfl, rfl, hstop⟩
    | @step s s' hr hc hp ih =>
      obtain ⟨i1, i2, i3⟩ := ih
      obtain ⟨-, -, hv, -⟩ := reaches_inv hr hF.tolNonneg hF.lamNonneg
      rcases pass_next hp with ⟨e, -⟩ | ⟨r, e1, e2, -⟩
      · subst e; exact ⟨i1, i2, i3⟩
      · rw [hv, i1, i2] at e1
        rw [armijo_fails h0 h1 hms (hbad s.tol s.lam) e1] at e2
        simp at e2
  obtain ⟨s, e, -, -⟩ := loop_finishes (E := E) (by omega) hgap hF hn (C.maxIter + N + 1) _ Reaches.init (by simp [St.init])
  obtain ⟨hr, hend⟩ := loop_end _ _ _ Reaches.init e
  obtain ⟨i1, i2, i3⟩ := inv s hr
  obtain ⟨-, -, hv, -⟩ := reaches_inv hr hF.tolNonneg hF.lamNonneg
  refine ⟨n, s, e, i1, i2, i3, ?_⟩
  rcases hend with hc | hp
  · exfalso
    unfold St.continues at hc
    rw [i3, i1] at hc
    simp [hmax.ne'] at hc
  · obtain ⟨r, hr'⟩ := hn (E.phi s.iter s.x1 s.tol s.lam) s.f1 (E.slope s.iter s.x1 s.tol s.lam)
    unfold pass at hp
    rw [hr'] at hp
    rw [hv, i1, i2] at hr'
    have hok := armijo_fails h0 h1 hms (hbad s.tol s.lam) hr'
    simp only [hok, Bool.not_false, if_true] at hp
    split at hp
    · rename_i hcc
      rw [hcc.1, hcc.2, hF.cTol, hF.cLam]
      exact ⟨rfl, rfl⟩
    · simp at hp

/-! ## Sparse principal components on the circle -/

/-- Points of the unit circle. -/
abbrev Circ : Type := {z : ℝ × ℝ // z.1 ^ 2 + z.2 ^ 2 = 1}

/-- The smooth part `-zᵀ A z` with `A = (p q; q r)`. -/
def circQuad (p q r : ℝ) (a b : ℝ) : ℝ := -(p * a ^ 2 + 2 * q * (a * b) + r * b ^ 2)

/-- `(-b, a)` spans the tangent space; half the negative derivative of the smooth part along it. -/
def circC (p q r : ℝ) (a b : ℝ) : ℝ := q * (a ^ 2 - b ^ 2) + (r - p) * (a * b)

/-- The retraction: normalised sum. -/
noncomputable def circRetr (z : Circ) (s : ℝ) : Circ :=
  ⟨((z.1.1 - s * z.1.2) / √(1 + s ^ 2), (z.1.2 + s * z.1.1) / √(1 + s ^ 2)), by
    have hz := z.2
    have h : (0 : ℝ) < 1 + s ^ 2 := by positivity
    have h2 : √(1 + s ^ 2) ^ 2 = 1 + s ^ 2 := Real.sq_sqrt h.le
    show ((z.1.1 - s * z.1.2) / √(1 + s ^ 2)) ^ 2 + ((z.1.2 + s * z.1.1) / √(1 + s ^ 2)) ^ 2 = 1
    rw [div_pow, div_pow, h2, ← add_div, div_eq_one_iff_eq h.ne']
    linear_combination (1 + s ^ 2) * hz⟩

/-- The subproblem in the coordinate `s` of the tangent vector. -/
noncomputable def circModel (p q r lam w : ℝ) (z : Circ) (s : ℝ) : ℝ :=
  s * (-2 * circC p q r z.1.1 z.1.2) + w * s ^ 2 / 2 + lam * (|z.1.1 - s * z.1.2| + |z.1.2 + s * z.1.1| - |z.1.1| - |z.1.2|)

open Filter in
theorem circ_exists {p q r lam w : ℝ} (hl : 0 ≤ lam) (hw : 0 < w) (z : Circ) : ∃ s, ∀ u, circModel p q r lam w z s ≤ circModel p q r lam w z u := by
  have hc : Continuous (circModel p q r lam w z) := by unfold circModel; fun_prop
  refine hc.exists_forall_le ?_
  set g := -2 * circC p q r z.1.1 z.1.2 with hg
  have h1 : Tendsto (fun s : ℝ => ‖s‖ + (-((|g| + 1) ^ 2 / (2 * w)) - lam * (|z.1.1| + |z.1.2|))) (cocompact ℝ) atTop := tendsto_atTop_add_const_right _ _ tendsto_norm_cocompact_atTop
  refine tendsto_atTop_mono ?_ h1
  intro s
  have h2 : 0 ≤ w / 2 * (|s| - (|g| + 1) / w) ^ 2 := by positivity
  have h3 : w / 2 * (|s| - (|g| + 1) / w) ^ 2 = w * s ^ 2 / 2 - (|g| + 1) * |s| + (|g| + 1) ^ 2 / (2 * w) := by
    rw [← sq_abs s]; field_simp; ring
  have h4 : -(|s| * |g|) ≤ s * g := by rw [← abs_mul]; exact neg_abs_le _
  have h5 : 0 ≤ lam * (|z.1.1 - s * z.1.2| + |z.1.2 + s * z.1.1|) := mul_nonneg hl (by positivity)
  have h6 : circModel p q r lam w z s = s * g + w * s ^ 2 / 2 + (lam * (|z.1.1 - s * z.1.2| + |z.1.2 + s * z.1.1|) - lam * (|z.1.1| + |z.1.2|)) := by
    unfold circModel; rw [← hg]; ring
  rw [h6, Real.norm_eq_abs]
  linarith

/-- Sparse principal component analysis on the circle with exact subproblems (`StieSPCA.cpp`, with the matrix `A = Bᵀ B` and one weight). -/
noncomputable def circProb (p q r lam w : ℝ) (hl : 0 ≤ lam) (hw : 0 < w) : PGProb Circ ℝ where
  F z := circQuad p q r z.1.1 z.1.2 + lam * (|z.1.1| + |z.1.2|)
  grad z := -2 * circC p q r z.1.1 z.1.2
  retr := circRetr
  dh z s := lam * (|z.1.1 - s * z.1.2| + |z.1.2 + s * z.1.1| - |z.1.1| - |z.1.2|)
  Q _ s := w * s ^ 2
  dir z := (circ_exists (p := p) (q := q) (r := r) hl hw z).choose

theorem circ_solves {p q r lam w : ℝ} (hl : 0 ≤ lam) (hw : 0 < w) (z : Circ) (u : ℝ) : circModel p q r lam w z ((circProb p q r lam w hl hw).dir z) ≤ circModel p q r lam w z u :=
  (circ_exists (p := p) (q := q) (r := r) hl hw z).choose_spec u

theorem circ_bounds (z : Circ) : z.1.1 ^ 2 ≤ 1 ∧ z.1.2 ^ 2 ≤ 1 ∧ |z.1.1 ^ 2 - z.1.2 ^ 2| ≤ 1 ∧ |z.1.1 * z.1.2| ≤ 1 / 2 := by
  have hz := z.2
  have h1 := sq_nonneg z.1.1
  have h2 := sq_nonneg z.1.2
  refine ⟨by linarith, by linarith, abs_le.mpr ⟨by linarith, by linarith⟩, abs_le.mpr ⟨?_, ?_⟩⟩
  · nlinarith [sq_nonneg (z.1.1 + z.1.2)]
  · nlinarith [sq_nonneg (z.1.1 - z.1.2)]

theorem circC_le (p q r : ℝ) (z : Circ) : |circC p q r z.1.1 z.1.2| ≤ |q| + |p - r| / 2 := by
  obtain ⟨-, -, h1, h2⟩ := circ_bounds z
  unfold circC
  refine (abs_add_le _ _).trans ?_
  rw [abs_mul, abs_mul, abs_sub_comm r p]
  have h3 := mul_le_mul_of_nonneg_left h1 (abs_nonneg q)
  have h4 := mul_le_mul_of_nonneg_left h2 (abs_nonneg (p - r))
  linarith

/-- The smooth part along the retraction. -/
theorem circ_smooth (p q r : ℝ) {z : Circ} (s : ℝ) : circQuad p q r (circRetr z s).1.1 (circRetr z s).1.2 ≤
    circQuad p q r z.1.1 z.1.2 + s * (-2 * circC p q r z.1.1 z.1.2) + (3 * |q| + 3 / 2 * |p - r|) * s ^ 2 := by
  have h : (0 : ℝ) < 1 + s ^ 2 := by positivity
  have h2 : √(1 + s ^ 2) ^ 2 = 1 + s ^ 2 := Real.sq_sqrt h.le
  have hz := z.2
  obtain ⟨-, -, hb1, hb2⟩ := circ_bounds z
  set a := z.1.1 with ha
  set b := z.1.2 with hb
  set c := circC p q r a b with hc
  have hcle : |c| ≤ |q| + |p - r| / 2 := circC_le p q r z
  set k := (p - r) * (a ^ 2 - b ^ 2) + 4 * q * (a * b) with hk
  have hkle : k ≤ |p - r| + 2 * |q| := by
    have h3 : (p - r) * (a ^ 2 - b ^ 2) ≤ |p - r| * 1 := (le_abs_self _).trans (by rw [abs_mul]; exact mul_le_mul_of_nonneg_left hb1 (abs_nonneg _))
    have h4 : q * (a * b) ≤ |q| * (1 / 2) := (le_abs_self _).trans (by rw [abs_mul]; exact mul_le_mul_of_nonneg_left hb2 (abs_nonneg _))
    rw [hk]; linarith
  have e1 : circQuad p q r (circRetr z s).1.1 (circRetr z s).1.2 * (1 + s ^ 2) = circQuad p q r a b - 2 * s * c + s ^ 2 * (circQuad p q r a b + k) := by
    show circQuad p q r ((a - s * b) / √(1 + s ^ 2)) ((b + s * a) / √(1 + s ^ 2)) * (1 + s ^ 2) = _
    have : circQuad p q r ((a - s * b) / √(1 + s ^ 2)) ((b + s * a) / √(1 + s ^ 2)) * (1 + s ^ 2) = circQuad p q r (a - s * b) (b + s * a) := by
      unfold circQuad
      rw [div_pow, div_pow, div_mul_div_comm, ← sq, h2]
      field_simp
    rw [this, hk, hc]
    unfold circQuad circC
    ring
  have hB : |c| + k ≤ 3 * |q| + 3 / 2 * |p - r| := by linarith
  have hB2 : |c| ≤ 3 * |q| + 3 / 2 * |p - r| := by
    have := abs_nonneg q; have := abs_nonneg (p - r); linarith
  set B := 3 * |q| + 3 / 2 * |p - r| with hBdef
  have h5 : 0 ≤ s ^ 2 * (B - k - 2 * c * s + B * s ^ 2) := by
    apply mul_nonneg (sq_nonneg _)
    have h6 : 2 * c * s ≤ |c| * (1 + s ^ 2) := by
      have h7 : c * s ≤ |c| * |s| := (le_abs_self _).trans (abs_mul _ _).le
      have h8 : 2 * |s| ≤ 1 + s ^ 2 := by
        have := sq_nonneg (1 - |s|)
        have h9 := sq_abs s
        nlinarith
      have := mul_le_mul_of_nonneg_left h8 (abs_nonneg c)
      linarith
    have h10 : |c| * s ^ 2 ≤ B * s ^ 2 := mul_le_mul_of_nonneg_right hB2 (sq_nonneg _)
    linarith
  have e2 : (circQuad p q r a b + s * (-2 * c) + B * s ^ 2) * (1 + s ^ 2) - circQuad p q r (circRetr z s).1.1 (circRetr z s).1.2 * (1 + s ^ 2) = s ^ 2 * (B - k - 2 * c * s + B * s ^ 2) := by
    rw [e1]; ring
  have h11 : circQuad p q r (circRetr z s).1.1 (circRetr z s).1.2 * (1 + s ^ 2) ≤ (circQuad p q r a b + s * (-2 * c) + B * s ^ 2) * (1 + s ^ 2) := by linarith
  exact le_of_mul_le_mul_right h11 h

/-- The problem on the circle meets the hypotheses of C128 for every matrix, every sparsity parameter and every weight that is large enough. -/
theorem circ_setting {p q r lam w : ℝ} (hl : 0 ≤ lam) (hw : 0 < w) (hbig : 6 * |q| + 3 * |p - r| ≤ w) (x0 : Circ) :
    PGSetting (circProb p q r lam w hl hw) x0 (-(|p| + |q| + |r|)) w (2 * |q| + |p - r|) where
  solves z u := by
    have h := circ_solves (p := p) (q := q) (r := r) hl hw z u
    unfold circModel at h
    simp only [RCLike.inner_apply, conj_trivial]
    exact h
  convex z v t h0 h1 := by
    show lam * (|z.1.1 - t * v * z.1.2| + |z.1.2 + t * v * z.1.1| - |z.1.1| - |z.1.2|) ≤ t * (lam * (|z.1.1 - v * z.1.2| + |z.1.2 + v * z.1.1| - |z.1.1| - |z.1.2|))
    have key : ∀ a b : ℝ, |a + t * b| ≤ (1 - t) * |a| + t * |a + b| := by
      intro a b
      have : a + t * b = (1 - t) * a + t * (a + b) := by ring
      rw [this]
      refine (abs_add_le _ _).trans ?_
      rw [abs_mul, abs_mul, abs_of_nonneg h0, abs_of_nonneg (by linarith : 0 ≤ 1 - t)]
    have k1 := key z.1.1 (-(v * z.1.2))
    have k2 := key z.1.2 (v * z.1.1)
    have e1 : z.1.1 + t * (-(v * z.1.2)) = z.1.1 - t * v * z.1.2 := by ring
    have e2 : z.1.2 + t * (v * z.1.1) = z.1.2 + t * v * z.1.1 := by ring
    have e3 : z.1.1 + -(v * z.1.2) = z.1.1 - v * z.1.2 := by ring
    rw [e1, e3] at k1
    rw [e2] at k2
    have := mul_le_mul_of_nonneg_left (add_le_add k1 k2) hl
    linarith
  quad z v t := by simp only [circProb, smul_eq_mul]; ring
  weight z v := by simp only [circProb, Real.norm_eq_abs, sq_abs]; exact le_rfl
  upper z s := by
    have h1 := circ_smooth p q r (z := z) s
    have h2 : 1 ≤ √(1 + s ^ 2) := by rw [Real.one_le_sqrt]; nlinarith [sq_nonneg s]
    have key : ∀ a : ℝ, |a / √(1 + s ^ 2)| ≤ |a| := by
      intro a
      rw [abs_div, abs_of_pos (by linarith : 0 < √(1 + s ^ 2))]
      exact div_le_self (abs_nonneg _) h2
    have h3 := mul_le_mul_of_nonneg_left (add_le_add (key (z.1.1 - s * z.1.2)) (key (z.1.2 + s * z.1.1))) hl
    have h4 : (3 * |q| + 3 / 2 * |p - r|) * s ^ 2 ≤ w / 2 * s ^ 2 := mul_le_mul_of_nonneg_right (by linarith) (sq_nonneg _)
    simp only [circProb, RCLike.inner_apply, conj_trivial, Real.norm_eq_abs, sq_abs]
    have h5 : lam * (|(circRetr z s).1.1| + |(circRetr z s).1.2|) ≤ lam * (|z.1.1 - s * z.1.2| + |z.1.2 + s * z.1.1|) := h3
    linarith
  below z := by
    obtain ⟨h1, h2, -, h3⟩ := circ_bounds z
    have k1 : p * z.1.1 ^ 2 ≤ |p| * 1 := (mul_le_mul_of_nonneg_right (le_abs_self p) (sq_nonneg _)).trans (mul_le_mul_of_nonneg_left h1 (abs_nonneg _))
    have k2 : r * z.1.2 ^ 2 ≤ |r| * 1 := (mul_le_mul_of_nonneg_right (le_abs_self r) (sq_nonneg _)).trans (mul_le_mul_of_nonneg_left h2 (abs_nonneg _))
    have k3 : q * (z.1.1 * z.1.2) ≤ |q| * (1 / 2) := (le_abs_self _).trans (by rw [abs_mul]; exact mul_le_mul_of_nonneg_left h3 (abs_nonneg _))
    have k4 : 0 ≤ lam * (|z.1.1| + |z.1.2|) := mul_nonneg hl (by positivity)
    simp only [circProb, circQuad]
    linarith
  bound z _ := by
    have h := circC_le p q r z
    simp only [circProb, Real.norm_eq_abs, abs_mul]
    norm_num
    linarith
  wpos := hw

/-- The default parameters of the solver (`SolversNSMPGLS.cpp:21-38`), with `n` iterations. -/
noncomputable def pgCfg (n : ℕ) : Cfg ℝ :=
  { alpha := 1 / 10000, ratio := 1 / 2, minStep := 1 / 50, maxIter := n, minIter := 0, outputGap := 1, record := true
    tol0 := 1 / 10 ^ 10, lam0 := 1 / 5, fTol := 1 / 10 ^ 24, fLam := 1 / 10 ^ 10, cTol := 1 / 10 ^ 24
    cLam := 1 / 10 ^ 10, gap := 5 }

theorem pg_floors (n : ℕ) : Floors (pgCfg n) 10 := by
  constructor <;> norm_num [pgCfg]

/-- C128 applied: from every point of the circle, for every matrix. -/
example {p q r lam w : ℝ} (hl : 0 ≤ lam) (hw : 0 < w) (hbig : 6 * |q| + 3 * |p - r| ≤ w) (x0 : Circ) {thr : ℝ} (hthr : 0 < thr) (hfloor : 2 * (1 / 10000) * (2 * |q| + |p - r|) ≤ w * thr) :
    ∃ n lsFuel s, run (pgCfg n) ((circProb p q r lam w hl hw).env x0 thr) lsFuel (n + 10 + 1) = .finished s ∧ s.f1 ≤ (circProb p q r lam w hl hw).F x0 := by
  have S := circ_setting (p := p) (q := q) (r := r) hl hw hbig x0
  have hg : 0 < w / 2 * thr ^ 2 := by positivity
  obtain ⟨n, hn⟩ := exists_nat_gt (((circProb p q r lam w hl hw).F x0 - -(|p| + |q| + |r|)) / (w / 2 * thr ^ 2))
  rw [div_lt_iff₀ hg] at hn
  obtain ⟨f, s, e, h1, h2, -⟩ := C128_manpg_converges (C := pgCfg n) S rfl (by norm_num [pgCfg]) (pg_floors n) (by norm_num [pgCfg]) (by norm_num [pgCfg]) (by norm_num [pgCfg]) (by norm_num [pgCfg]) hthr.le hfloor hn
  exact ⟨n, f, s, e, h1 ▸ h2⟩

/-! ### The start from which the solver does not move -/

/-- The entries of the matrix: in the basis `z = (4/5, 3/5)` and `(-3/5, 4/5)` it is `(3 c; c 1)` with `2 c = 1/5 + 1/100000`. -/
noncomputable def stallC : ℝ := 20001 / 200000
noncomputable def stallP : ℝ := (57 - 24 * stallC) / 25
noncomputable def stallQ : ℝ := (24 + 7 * stallC) / 25
noncomputable def stallR : ℝ := (43 + 24 * stallC) / 25

noncomputable def stallZ : Circ := ⟨(4 / 5, 3 / 5), by norm_num⟩

noncomputable def stallProb : PGProb Circ ℝ := circProb stallP stallQ stallR 1 10 zero_le_one (by norm_num)

theorem stall_c : circC stallP stallQ stallR (4 / 5) (3 / 5) = stallC := by unfold circC stallP stallQ stallR stallC; norm_num

/-- The solution of the subproblem. -/
theorem stall_dir : stallProb.dir stallZ = 1 / 10 ^ 6 := by
  have h := circ_solves (p := stallP) (q := stallQ) (r := stallR) zero_le_one (by norm_num : (0 : ℝ) < 10) stallZ (1 / 10 ^ 6)
  set d := stallProb.dir stallZ with hd
  have hd' : (circProb stallP stallQ stallR 1 10 zero_le_one (by norm_num)).dir stallZ = d := rfl
  rw [hd'] at h
  have e : ∀ s, circModel stallP stallQ stallR 1 10 stallZ s = s * (-2 * stallC) + 10 * s ^ 2 / 2 + (|4 / 5 - s * (3 / 5)| + |3 / 5 + s * (4 / 5)| - 7 / 5) := by
    intro s
    unfold circModel
    show s * (-2 * circC stallP stallQ stallR (4 / 5) (3 / 5)) + _ + 1 * (|4 / 5 - s * (3 / 5)| + |3 / 5 + s * (4 / 5)| - |4 / 5| - |3 / 5|) = _
    rw [stall_c, abs_of_pos (by norm_num : (0 : ℝ) < 4 / 5), abs_of_pos (by norm_num : (0 : ℝ) < 3 / 5)]
    ring
  rw [e, e, abs_of_pos (by norm_num : (0 : ℝ) < 4 / 5 - 1 / 10 ^ 6 * (3 / 5)), abs_of_pos (by norm_num : (0 : ℝ) < 3 / 5 + 1 / 10 ^ 6 * (4 / 5))] at h
  have h1 := le_abs_self (4 / 5 - d * (3 / 5))
  have h2 := le_abs_self (3 / 5 + d * (4 / 5))
  unfold stallC at h
  have h3 : (d - 1 / 10 ^ 6) ^ 2 ≤ 0 := by nlinarith
  have h4 := pow_eq_zero_iff (two_ne_zero) |>.mp (le_antisymm h3 (sq_nonneg _))
  linarith

/-- The decrease along the direction is too small for the test. -/
theorem stall_bad {t : ℝ} (h0 : 0 < t) (h1 : t ≤ 1) : stallProb.F stallZ - stallProb.F (stallProb.retr stallZ (t • stallProb.dir stallZ)) < -(1 / 10000) * ⟪stallProb.grad stallZ, stallProb.dir stallZ⟫ * t := by
  rw [stall_dir]
  set s := t * (1 / 10 ^ 6) with hs
  have s0 : 0 < s := by positivity
  have s1 : s ≤ 1 / 10 ^ 6 := by rw [hs]; linarith
  have h : (0 : ℝ) < 1 + s ^ 2 := by positivity
  have hq : √(1 + s ^ 2) ^ 2 = 1 + s ^ 2 := Real.sq_sqrt h.le
  have hq1 : 1 ≤ √(1 + s ^ 2) := by rw [Real.one_le_sqrt]; nlinarith [sq_nonneg s]
  have hq2 : √(1 + s ^ 2) ≤ 1 + s ^ 2 / 2 := by rw [Real.sqrt_le_left (by positivity)]; nlinarith [sq_nonneg (s ^ 2)]
  have eF : stallProb.F stallZ = -3 + 7 / 5 := by
    show circQuad stallP stallQ stallR (4 / 5) (3 / 5) + 1 * (|4 / 5| + |3 / 5|) = _
    rw [abs_of_pos (by norm_num : (0 : ℝ) < 4 / 5), abs_of_pos (by norm_num : (0 : ℝ) < 3 / 5)]
    unfold circQuad stallP stallQ stallR stallC; norm_num
  have eS : ⟪stallProb.grad stallZ, (1 / 10 ^ 6 : ℝ)⟫ = -(2 * stallC) * (1 / 10 ^ 6) := by
    show ⟪-2 * circC stallP stallQ stallR (4 / 5) (3 / 5), (1 / 10 ^ 6 : ℝ)⟫ = _
    rw [stall_c]; simp only [RCLike.inner_apply, conj_trivial]; ring
  have eR : stallProb.F (stallProb.retr stallZ (t • (1 / 10 ^ 6 : ℝ))) = -(3 + 2 * stallC * s + s ^ 2) / (1 + s ^ 2) + (7 / 5 + s / 5) / √(1 + s ^ 2) := by
    show circQuad stallP stallQ stallR ((4 / 5 - s * (3 / 5)) / √(1 + s ^ 2)) ((3 / 5 + s * (4 / 5)) / √(1 + s ^ 2)) + 1 * (|(4 / 5 - s * (3 / 5)) / √(1 + s ^ 2)| + |(3 / 5 + s * (4 / 5)) / √(1 + s ^ 2)|) = _
    have p1 : 0 < 4 / 5 - s * (3 / 5) := by nlinarith
    have p2 : 0 < 3 / 5 + s * (4 / 5) := by positivity
    have p3 : 0 < √(1 + s ^ 2) := by linarith
    rw [abs_of_pos (div_pos p1 p3), abs_of_pos (div_pos p2 p3)]
    unfold circQuad
    rw [div_pow, div_pow, div_mul_div_comm, ← sq, hq]
    unfold stallP stallQ stallR
    field_simp
    ring
  rw [eF, eS, eR]
  have k1 : -(3 + 2 * stallC * s + s ^ 2) / (1 + s ^ 2) ≥ -3 - 2 * stallC * s + s ^ 2 := by
    rw [ge_iff_le, le_div_iff₀ h]
    unfold stallC
    have : s ^ 2 * s ^ 2 ≤ s ^ 2 * 1 := mul_le_mul_of_nonneg_left (by nlinarith) (sq_nonneg s)
    have : 0 ≤ s ^ 3 := by positivity
    nlinarith
  have k2 : (7 / 5 + s / 5) / √(1 + s ^ 2) ≥ (7 / 5 + s / 5) * (1 - s ^ 2 / 2) := by
    rw [ge_iff_le, le_div_iff₀ (by linarith)]
    have : (1 - s ^ 2 / 2) * √(1 + s ^ 2) ≤ 1 := by
      have hpos : 0 ≤ 1 - s ^ 2 / 2 := by nlinarith
      have := mul_le_mul_of_nonneg_left hq2 hpos
      nlinarith [sq_nonneg (s ^ 2)]
    have h7 : 0 ≤ 7 / 5 + s / 5 := by positivity
    have := mul_le_mul_of_nonneg_left this h7
    linarith
  have k3 : (7 / 5 + s / 5) * (1 - s ^ 2 / 2) ≥ 7 / 5 + s / 5 - s ^ 2 := by
    have : s * s ^ 2 ≤ 1 * s ^ 2 := mul_le_mul_of_nonneg_right (by linarith) (sq_nonneg s)
    nlinarith
  have k4 : -(1 / 10000) * (-(2 * stallC) * (1 / 10 ^ 6)) * t = 1 / 10000 * (2 * stallC) * s := by rw [hs]; ring
  rw [k4]
  unfold stallC at k1 ⊢
  linarith

/-- **C128, the bound on the accuracy is needed.** On the circle, with the default parameters, an exactly solved subproblem and a weight above the curvature, the solver makes no iteration from a point at which the direction
leads downhill and is longer than any tolerance below `10⁻⁶`: the test compares the decrease of the whole objective with the slope of its smooth part, which is twenty thousand times the slope of the whole. -/
theorem C128_floor_needed (n : ℕ) (hn : 0 < n) (thr : ℝ) : ∃ lsFuel s, run (pgCfg n) (stallProb.env stallZ thr) lsFuel (n + 10 + 1) = .finished s ∧ s.iter = 0 ∧ s.x1 = stallZ ∧ ‖stallProb.dir s.x1‖ = 1 / 10 ^ 6 ∧
    stallProb.F (stallProb.retr s.x1 (stallProb.dir s.x1)) < stallProb.F s.x1 := by
  obtain ⟨f, s, e, h1, h2, -⟩ := C128_stalls (C := pgCfg n) (E := stallProb.env stallZ thr) rfl hn (by norm_num [pgCfg]) (pg_floors n) (by norm_num [pgCfg]) (by norm_num [pgCfg]) (by norm_num [pgCfg]) rfl
    (fun _ _ t h0 h1 => stall_bad h0 h1)
  have h2' : s.x1 = stallZ := h2
  refine ⟨f, s, e, h1, h2', ?_, ?_⟩
  · rw [h2', stall_dir]; norm_num
  · have S := circ_setting (p := stallP) (q := stallQ) (r := stallR) (w := 10) zero_le_one (by norm_num) (by
      unfold stallP stallQ stallR stallC; norm_num [abs_of_pos]) stallZ
    have hd := S.decrease s.x1 zero_le_one le_rfl
    rw [one_smul] at hd
    have hd' : stallProb.F (stallProb.retr s.x1 (stallProb.dir s.x1)) ≤ stallProb.F s.x1 - 1 * (10 / 2 * ‖stallProb.dir s.x1‖ ^ 2) := hd
    rw [h2', stall_dir] at hd' ⊢
    norm_num at hd' ⊢
    linarith

end Verif.PG
