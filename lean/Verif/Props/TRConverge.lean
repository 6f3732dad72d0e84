import Verif.Props.TrustRegion
import Mathlib.Tactic.Positivity
import Mathlib.Tactic.FieldSimp
import Mathlib.Algebra.Order.Archimedean.Real.Basic

/-!
# C101: trust-region runs reach the requested gradient norm
-/

set_option linter.unusedSectionVars false
set_option linter.unusedVariables false

namespace Verif.TRRun

variable {X : Type}

/-! ## Specification -/

/-- The candidates for radii of at least `low` have at least a fraction `kap` of the Cauchy decrease of the model, at points with gradient norm at least `thr`. -/
def CauchyDecrease (E : Env ℝ X) (low kap bnd thr : ℝ) : Prop :=
  ∀ k x D, 0 < D → low ≤ D → thr ≤ E.ngf x → (E.cand k x D).mval ≤ -(kap * E.ngf x * min D (E.ngf x / bnd))

/-- For radii of at least `low` the model is accurate to second order in the radius, at points with gradient norm at least `thr`. -/
def ModelError (E : Env ℝ X) (low gam thr : ℝ) : Prop :=
  ∀ k x D, 0 < D → low ≤ D → thr ≤ E.ngf x → |E.f (E.cand k x D).x2 - E.f x - (E.cand k x D).mval| ≤ gam * D ^ 2

/-- Radius below which the ratio is at least 3/4. -/
noncomputable def goodRadius (kap bnd gam thr : ℝ) : ℝ := min (thr / bnd) (kap * thr / (4 * gam))

/-- The radius never falls below this value. -/
noncomputable def leastRadius (C : Cfg ℝ) (kap bnd gam thr : ℝ) : ℝ :=
  min (min C.initialDelta C.maximumDelta) (C.shrinked * goodRadius kap bnd gam thr)

/-- Decrease of the objective in a pass with a ratio of at least 1/4. -/
noncomputable def trGain (C : Cfg ℝ) (kap bnd gam thr : ℝ) : ℝ :=
  1 / 4 * (kap * thr * min (leastRadius C kap bnd gam thr) (thr / bnd))

/-- Hypotheses of C101, collected. -/
structure Setting (C : Cfg ℝ) (E : Env ℝ X) (fmin kap bnd gam thr : ℝ) : Prop where
  below : ∀ x, fmin ≤ E.f x
  cauchy : CauchyDecrease E (leastRadius C kap bnd gam thr) kap bnd thr
  model : ModelError E (leastRadius C kap bnd gam thr) gam thr
  finite : ∀ k x D, 0 < D → leastRadius C kap bnd gam thr ≤ D → thr ≤ E.ngf x → (E.cand k x D).finite = true
  kappos : 0 < kap
  bndpos : 0 < bnd
  gampos : 0 < gam
  thrpos : 0 < thr
  stop0 : E.ngf E.x0 < thr → E.stopped0 = true
  stop : ∀ k x y, E.ngf y < thr → E.stopped k x y = true
  acc : C.accuracy * (E.ngf E.x0 + C.tolerance) ≤ thr
  sum : 0 < E.ngf E.x0 + C.tolerance
  rho0 : 0 ≤ C.acceptRho
  rho : C.acceptRho < 1 / 4
  init : 0 < C.initialDelta
  max : 0 < C.maximumDelta
  shr : 0 < C.shrinked
  mag : 1 ≤ C.magnified
  small : C.minimumDelta ≤ C.shrinked * goodRadius kap bnd gam thr
  min0 : C.minIter = 0
  gap : C.outputGap ≠ 0

variable {C : Cfg ℝ} {E : Env ℝ X} {fmin kap bnd gam thr : ℝ}

theorem Setting.good_pos (S : Setting C E fmin kap bnd gam thr) : 0 < goodRadius kap bnd gam thr := by
  have h1 := S.kappos; have h2 := S.bndpos; have h3 := S.gampos; have h4 := S.thrpos
  unfold goodRadius
  exact lt_min (by positivity) (by positivity)

theorem Setting.least_pos (S : Setting C E fmin kap bnd gam thr) : 0 < leastRadius C kap bnd gam thr :=
  lt_min (lt_min S.init S.max) (mul_pos S.shr S.good_pos)

theorem Setting.gain_pos (S : Setting C E fmin kap bnd gam thr) : 0 < trGain C kap bnd gam thr := by
  have h1 := S.kappos; have h2 := S.bndpos; have h4 := S.thrpos
  have : 0 < min (leastRadius C kap bnd gam thr) (thr / bnd) := lt_min S.least_pos (by positivity)
  unfold trGain
  positivity

/-- The two kinds of passes: a ratio of at least 1/4 with a decrease of at least `trGain`, or a shrunk radius and no increase. -/
theorem step_kinds (S : Setting C E fmin kap bnd gam thr) {s s' : St ℝ X} (hp : pass C E s = .next s') (hf : s.f1 = E.f s.x1)
    (hn : s.ngf1 = E.ngf s.x1) (hg : thr ≤ E.ngf s.x1) (hD : leastRadius C kap bnd gam thr ≤ s.Delta) :
    leastRadius C kap bnd gam thr ≤ s'.Delta ∧
    ((s'.f1 ≤ s.f1 - trGain C kap bnd gam thr ∧ s'.Delta ≤ s.Delta * C.magnified) ∨
      (s'.f1 ≤ s.f1 ∧ s'.Delta = s.Delta * C.shrinked)) := by
  have hDp : 0 < s.Delta := lt_of_lt_of_le S.least_pos hD
  have hk := S.kappos
  have hb := S.bndpos
  have hgam := S.gampos
  have ht := S.thrpos
  have hgp : 0 < E.ngf s.x1 := lt_of_lt_of_le ht hg
  set c := E.cand s.iter s.x1 s.Delta with hc
  have h1 := S.cauchy s.iter s.x1 s.Delta hDp hD hg
  have h2 := S.model s.iter s.x1 s.Delta hDp hD hg
  rw [← hc] at h1 h2
  have hmin0 : 0 < min s.Delta (E.ngf s.x1 / bnd) := lt_min hDp (by positivity)
  have hm : c.mval < 0 := by
    have : 0 < kap * E.ngf s.x1 * min s.Delta (E.ngf s.x1 / bnd) := by positivity
    linarith
  have hna : accurate C (E.ngf E.x0) s.ngf1 = false := by
    unfold accurate
    rw [decide_eq_false_iff_not, not_lt, le_div_iff₀ S.sum, hn]
    exact S.acc.trans hg
  obtain ⟨D, hDr, hw⟩ := pass_next hp
  rw [← hc, hna] at hDr hw
  set v := (s.f1 - E.f c.x2) / (-c.mval) with hv
  have hr : ratio s.f1 (E.f c.x2) c = .num v := by
    unfold ratio; rw [if_neg hm.ne]
  rw [hr] at hDr hw
  have hDelta : s'.Delta = D := by
    rcases hw with ⟨_, hw⟩ | ⟨_, hw⟩
    · exact (writeHist_next hw).2.2.2.2.2.2.1
    · exact (writeHist_next hw).2.2.2.2.2.2.1
  have hf1 : (accepts C (.num v) c.status false s.f1 (E.f c.x2) = true ∧ s'.f1 = E.f c.x2) ∨
      (accepts C (.num v) c.status false s.f1 (E.f c.x2) = false ∧ s'.f1 = s.f1) := by
    rcases hw with ⟨ha, hw⟩ | ⟨ha, hw⟩
    · exact Or.inl ⟨ha, (writeHist_next hw).2.2.2.1⟩
    · exact Or.inr ⟨ha, (writeHist_next hw).2.2.2.1⟩
  have hvm : s.f1 - E.f c.x2 = v * (-c.mval) := by
    rw [hv, div_mul_cancel₀]; linarith
  have hleast : leastRadius C kap bnd gam thr ≤ C.maximumDelta := (min_le_left _ _).trans (min_le_right _ _)
  rw [hDelta]
  by_cases hv4 : v < 1 / 4
  · -- a poor ratio: the radius is large
    have hbig : goodRadius kap bnd gam thr < s.Delta := by
      by_contra hcon
      push Not at hcon
      have e1 : s.Delta ≤ thr / bnd := hcon.trans (min_le_left _ _)
      have e2 : s.Delta ≤ kap * thr / (4 * gam) := hcon.trans (min_le_right _ _)
      have e3 : min s.Delta (E.ngf s.x1 / bnd) = s.Delta :=
        min_eq_left (e1.trans (div_le_div_of_nonneg_right hg hb.le))
      rw [e3] at h1
      rw [le_div_iff₀ (by positivity)] at e2
      have e4 : kap * thr * s.Delta ≤ -c.mval := by
        have : kap * thr * s.Delta ≤ kap * E.ngf s.x1 * s.Delta :=
          mul_le_mul_of_nonneg_right (mul_le_mul_of_nonneg_left hg hk.le) hDp.le
        linarith
      have e5 : gam * s.Delta ^ 2 ≤ 1 / 4 * (-c.mval) := by nlinarith
      have e6 := (abs_le.mp h2).2
      rw [← hf] at e6
      have e7 : v * (-c.mval) < 1 / 4 * (-c.mval) := mul_lt_mul_of_pos_right hv4 (by linarith)
      linarith
    have hsh : C.shrinked * goodRadius kap bnd gam thr ≤ s.Delta * C.shrinked := by
      rw [mul_comm]; exact mul_le_mul_of_nonneg_right hbig.le S.shr.le
    have hnot : ¬ (3 / 4 : ℝ) < v := by intro h; linarith
    unfold radius at hDr
    simp only [Ratio.gt, Ratio.lt, hnot, hv4, decide_true, decide_false, Bool.not_false, Bool.and_self, if_true, Bool.false_eq_true,
      if_false] at hDr
    rw [if_neg (not_lt.mpr (S.small.trans hsh)), Option.some.injEq] at hDr
    refine ⟨by rw [← hDr]; exact (min_le_right _ _).trans hsh, Or.inr ⟨?_, hDr.symm⟩⟩
    rcases hf1 with ⟨ha, e⟩ | ⟨_, e⟩
    · rw [e]
      unfold accepts at ha
      simp only [Ratio.gt, Bool.false_and, Bool.or_false, Bool.or_eq_true, Bool.and_eq_true, decide_eq_true_eq] at ha
      rcases ha with ha | ⟨_, ha⟩
      · have : 0 ≤ v * (-c.mval) := mul_nonneg (S.rho0.trans ha.le) (by linarith)
        linarith
      · exact ha.le
    · rw [e]
  · -- a ratio of at least 1/4
    push Not at hv4
    have hlt : C.acceptRho < v := lt_of_lt_of_le S.rho hv4
    have hacc : s'.f1 = E.f c.x2 := by
      rcases hf1 with ⟨_, e⟩ | ⟨ha, _⟩
      · exact e
      · unfold accepts at ha
        simp [Ratio.gt, hlt] at ha
    have hgain : s'.f1 ≤ s.f1 - trGain C kap bnd gam thr := by
      have e1 : min (leastRadius C kap bnd gam thr) (thr / bnd) ≤ min s.Delta (E.ngf s.x1 / bnd) :=
        min_le_min hD (div_le_div_of_nonneg_right hg hb.le)
      have e0 : 0 < min (leastRadius C kap bnd gam thr) (thr / bnd) := lt_min S.least_pos (by positivity)
      have e2 : kap * thr * min (leastRadius C kap bnd gam thr) (thr / bnd) ≤ kap * E.ngf s.x1 * min s.Delta (E.ngf s.x1 / bnd) :=
        mul_le_mul (mul_le_mul_of_nonneg_left hg hk.le) e1 e0.le (by positivity)
      have e3 : 1 / 4 * (-c.mval) ≤ v * (-c.mval) := mul_le_mul_of_nonneg_right hv4 (by linarith)
      rw [hacc]
      unfold trGain
      linarith
    have hmg : s.Delta ≤ s.Delta * C.magnified := le_mul_of_one_le_right hDp.le S.mag
    have hnl : (Ratio.num v).lt (1 / 4) = false := by simp only [Ratio.lt, decide_eq_false_iff_not, not_lt]; exact hv4
    unfold radius at hDr
    rw [hnl] at hDr
    simp only [Bool.false_and, Bool.false_eq_true, if_false] at hDr
    by_cases h34 : (Ratio.num v).gt (3 / 4) = true
    · rw [if_pos h34, Option.some.injEq] at hDr
      by_cases hst : c.status = .excRegion ∨ c.status = .negCurv ∨ c.status = .maxIter
      · rw [if_pos hst] at hDr
        by_cases hx : C.maximumDelta < s.Delta * C.magnified
        · rw [if_pos hx] at hDr
          exact ⟨by rw [← hDr]; exact hleast, Or.inl ⟨hgain, by rw [← hDr]; exact hx.le⟩⟩
        · rw [if_neg hx] at hDr
          exact ⟨by rw [← hDr]; exact hD.trans hmg, Or.inl ⟨hgain, by rw [← hDr]⟩⟩
      · rw [if_neg hst] at hDr
        by_cases hx : C.maximumDelta < s.Delta
        · rw [if_pos hx] at hDr
          exact ⟨by rw [← hDr]; exact hleast, Or.inl ⟨hgain, by rw [← hDr]; exact hx.le.trans hmg⟩⟩
        · rw [if_neg hx] at hDr
          exact ⟨by rw [← hDr]; exact hD, Or.inl ⟨hgain, by rw [← hDr]; exact hmg⟩⟩
    · rw [if_neg h34, Option.some.injEq] at hDr
      exact ⟨by rw [← hDr]; exact hD, Or.inl ⟨hgain, by rw [← hDr]; exact hmg⟩⟩

/-- Passes do not end the loop in this setting. -/
theorem pass_is_next (S : Setting C E fmin kap bnd gam thr) {s : St ℝ X} (hr : Reaches C E s) (hc : s.continues C = true)
    (hg : thr ≤ E.ngf s.x1) (hD : leastRadius C kap bnd gam thr ≤ s.Delta) : ∃ s', pass C E s = .next s' := by
  have hDp : 0 < s.Delta := lt_of_lt_of_le S.least_pos hD
  have hk := S.kappos
  have hb := S.bndpos
  have hgam := S.gampos
  have ht := S.thrpos
  have hgp : 0 < E.ngf s.x1 := lt_of_lt_of_le ht hg
  obtain ⟨hf, hn, _⟩ := reaches_basic hr
  rcases pass_safe (by rw [S.min0]; exact Nat.zero_le _) S.gap hr hc with ⟨s', h, _⟩ | ⟨s', h, _⟩
  · exact ⟨s', h⟩
  exfalso
  set c := E.cand s.iter s.x1 s.Delta with hc'
  have hfin : c.finite = true := S.finite _ _ _ hDp hD hg
  have h1 := S.cauchy s.iter s.x1 s.Delta hDp hD hg
  have h2 := S.model s.iter s.x1 s.Delta hDp hD hg
  rw [← hc'] at h1 h2
  have hmin0 : 0 < min s.Delta (E.ngf s.x1 / bnd) := lt_min hDp (by positivity)
  have hm : c.mval < 0 := by
    have : 0 < kap * E.ngf s.x1 * min s.Delta (E.ngf s.x1 / bnd) := by positivity
    linarith
  unfold pass at h
  simp only [← hc', hfin, Bool.not_true, Bool.false_eq_true, if_false] at h
  cases hrad : radius C (ratio s.f1 (E.f c.x2) c) c.status (accurate C (E.ngf E.x0) s.ngf1) s.Delta with
  | some D =>
    rw [hrad] at h
    simp only at h
    split at h <;> · unfold St.writeHist at h; split at h <;> (try split at h) <;> (try split at h) <;> simp at h
  | none =>
    set v := (s.f1 - E.f c.x2) / (-c.mval) with hv
    have hr' : ratio s.f1 (E.f c.x2) c = .num v := by
      unfold ratio; rw [if_neg hm.ne]
    rw [hr'] at hrad
    have hvm : s.f1 - E.f c.x2 = v * (-c.mval) := by
      rw [hv, div_mul_cancel₀]; linarith
    unfold radius at hrad
    by_cases h34 : (Ratio.num v).gt (3 / 4) = true
    · rw [if_pos h34] at hrad; cases hrad
    · rw [if_neg h34] at hrad
      by_cases hlt : ((Ratio.num v).lt (1 / 4) && !accurate C (E.ngf E.x0) s.ngf1) = true
      · rw [if_pos hlt] at hrad
        have hv4 : v < 1 / 4 := by
          simp only [Ratio.lt, Bool.and_eq_true, decide_eq_true_eq] at hlt
          exact hlt.1
        simp only at hrad
        split at hrad
        · rename_i hsm
          apply absurd hsm
          rw [not_lt]
          refine S.small.trans ?_
          rw [mul_comm]
          refine mul_le_mul_of_nonneg_right ?_ S.shr.le
          by_contra hcon
          push Not at hcon
          have e1 : s.Delta ≤ thr / bnd := hcon.le.trans (min_le_left _ _)
          have e2 : s.Delta ≤ kap * thr / (4 * gam) := hcon.le.trans (min_le_right _ _)
          have e3 : min s.Delta (E.ngf s.x1 / bnd) = s.Delta :=
            min_eq_left (e1.trans (div_le_div_of_nonneg_right hg hb.le))
          rw [e3] at h1
          rw [le_div_iff₀ (by positivity)] at e2
          have e4 : kap * thr * s.Delta ≤ -c.mval := by
            have : kap * thr * s.Delta ≤ kap * E.ngf s.x1 * s.Delta :=
              mul_le_mul_of_nonneg_right (mul_le_mul_of_nonneg_left hg hk.le) hDp.le
            linarith
          have e5 : gam * s.Delta ^ 2 ≤ 1 / 4 * (-c.mval) := by nlinarith
          have e6 := (abs_le.mp h2).2
          rw [← hf] at e6
          have e7 : v * (-c.mval) < 1 / 4 * (-c.mval) := mul_lt_mul_of_pos_right hv4 (by linarith)
          linarith
        · cases hrad
      · rw [if_neg hlt] at hrad; cases hrad

/-- Counting: `S` passes with a gain, `U` with a shrunk radius. -/
theorem counts (S : Setting C E fmin kap bnd gam thr) {s : St ℝ X} (h : Reaches C E s) :
    (s.isstop = false → thr ≤ E.ngf s.x1) ∧ leastRadius C kap bnd gam thr ≤ s.Delta ∧
    ∃ a b : ℕ, s.iter = a + b ∧ a * trGain C kap bnd gam thr ≤ E.f E.x0 - E.f s.x1 ∧
      s.Delta ≤ C.initialDelta * C.magnified ^ a * C.shrinked ^ b := by
  induction h with
  | init =>
    refine ⟨fun h => ?_, (min_le_left _ _).trans (min_le_left _ _), 0, 0, rfl, by simp [St.init], by simp [St.init]⟩
    by_contra hc
    rw [not_le] at hc
    have := S.stop0 hc
    simp [St.init, this] at h
  | @step s s' hr hc hp ih =>
    obtain ⟨i1, i2, a, b, i3, i4, i5⟩ := ih
    have hst : s.isstop = false := by
      unfold St.continues at hc
      rw [S.min0] at hc
      simp only [Nat.not_lt_zero, decide_false, Bool.or_false, Bool.and_eq_true, Bool.not_eq_true'] at hc
      exact hc.1
    obtain ⟨hf, hn, _⟩ := reaches_basic hr
    obtain ⟨hf', hn', _⟩ := reaches_basic (Reaches.step hr hc hp)
    have hg := i1 hst
    obtain ⟨k1, k2⟩ := step_kinds S hp hf hn hg i2
    have hiter : s'.iter = s.iter + 1 := by
      obtain ⟨D, _, ⟨_, hw⟩ | ⟨_, hw⟩⟩ := pass_next hp
      · rw [(writeHist_next hw).1]; rfl
      · rw [(writeHist_next hw).1]; rfl
    have hstop : s'.isstop = false → thr ≤ E.ngf s'.x1 := by
      intro hs'
      obtain ⟨D, _, ⟨_, hw⟩ | ⟨_, hw⟩⟩ := pass_next hp
      · obtain ⟨e1, e2, e3, _⟩ := writeHist_next hw
        rw [e3]
        rw [e2] at hs'
        by_contra hcon
        rw [not_le] at hcon
        have := S.stop s.iter s.x1 _ hcon
        simp only [St.accept] at hs' this
        rw [this] at hs'
        cases hs'
      · obtain ⟨e1, e2, e3, _⟩ := writeHist_next hw
        rw [e3]
        exact hg
    have hm0 : 0 < C.magnified := lt_of_lt_of_le one_pos S.mag
    refine ⟨hstop, k1, ?_⟩
    rw [hf, hf'] at k2
    rcases k2 with ⟨q1, q2⟩ | ⟨q1, q2⟩
    · refine ⟨a + 1, b, by omega, ?_, ?_⟩
      · push_cast; linarith
      · refine q2.trans ?_
        rw [pow_succ]
        calc s.Delta * C.magnified ≤ (C.initialDelta * C.magnified ^ a * C.shrinked ^ b) * C.magnified := mul_le_mul_of_nonneg_right i5 hm0.le
          _ = _ := by ring
    · refine ⟨a, b + 1, by omega, by linarith, ?_⟩
      rw [q2, pow_succ]
      calc s.Delta * C.shrinked ≤ (C.initialDelta * C.magnified ^ a * C.shrinked ^ b) * C.shrinked := mul_le_mul_of_nonneg_right i5 S.shr.le
        _ = _ := by ring

/-- In this setting a run ends only at the loop test. -/
theorem finished_at_test (S : Setting C E fmin kap bnd gam thr) :
    ∀ (n : ℕ) (s t : St ℝ X), Reaches C E s → loop C E n s = .finished t → Reaches C E t ∧ t.continues C = false := by
  intro n
  induction n with
  | zero => intro s t _ h; simp [loop] at h
  | succ n ih =>
    intro s t hs h
    simp only [loop] at h
    by_cases hc : s.continues C = true
    · rw [if_pos hc] at h
      have hst : s.isstop = false := by
        unfold St.continues at hc
        rw [S.min0] at hc
        simp only [Nat.not_lt_zero, decide_false, Bool.or_false, Bool.and_eq_true, Bool.not_eq_true'] at hc
        exact hc.1
      obtain ⟨i1, i2, _⟩ := counts S hs
      obtain ⟨s', hp⟩ := pass_is_next S hs hc (i1 hst) i2
      rw [hp] at h
      exact ih s' t (Reaches.step hs hc hp) h
    · rw [if_neg hc, Outcome.finished.injEq] at h
      subst h
      exact ⟨hs, by simpa using hc⟩

/-- **C101.** A trust-region run with Cauchy decrease and a model of second order accuracy on an objective that is bounded below ends by its stopping
test within `(1 + j) N + i` iterations, where `N` bounds the number of passes with a ratio of at least 1/4 (`f(x0) - fmin < N * trGain`), `j` shrinkings undo one
magnification and `i` shrinkings bring the initial radius below the least one. -/
theorem C101_tr_converges (S : Setting C E fmin kap bnd gam thr) (N i j : ℕ) (hN : E.f E.x0 - fmin < N * trGain C kap bnd gam thr)
    (hj : C.magnified * C.shrinked ^ j ≤ 1) (hi : C.initialDelta * C.shrinked ^ i < leastRadius C kap bnd gam thr) (hs1 : C.shrinked ≤ 1)
    (hmax : (1 + j) * N + i ≤ C.maxIter) :
    ∃ s, run C E (C.maxIter + 1) = .finished s ∧ s.isstop = true ∧ s.iter ≤ (1 + j) * N + i ∧ s.f1 = E.f s.x1 ∧ s.f1 ≤ E.f E.x0 := by
  obtain ⟨s, hrun, _⟩ := C13_tr_run_finishes (E := E) (by rw [S.min0]; exact Nat.zero_le _) S.gap (C.maxIter + 1) le_rfl
  obtain ⟨hr, hc⟩ := finished_at_test S _ _ _ Reaches.init hrun
  obtain ⟨_, i2, a, b, i3, i4, i5⟩ := counts S hr
  have hg := S.gain_pos
  have ha : a < N := by
    have h1 := S.below s.x1
    have : (a : ℝ) * trGain C kap bnd gam thr < N * trGain C kap bnd gam thr := by linarith
    exact_mod_cast lt_of_mul_lt_mul_right this hg.le
  have hm0 : 0 < C.magnified := lt_of_lt_of_le one_pos S.mag
  have hb : b < j * a + i := by
    by_contra hcon
    push Not at hcon
    have h1 : C.shrinked ^ b ≤ C.shrinked ^ (j * a + i) := pow_le_pow_of_le_one S.shr.le hs1 hcon
    have h2 : C.magnified ^ a * C.shrinked ^ (j * a + i) ≤ C.shrinked ^ i := by
      rw [pow_add, pow_mul, ← mul_assoc, ← mul_pow]
      refine mul_le_of_le_one_left (pow_nonneg S.shr.le _) (pow_le_one₀ (by have := S.shr; positivity) hj)
    have h3 : C.initialDelta * C.magnified ^ a * C.shrinked ^ b ≤ C.initialDelta * C.shrinked ^ i := by
      rw [mul_assoc]
      refine mul_le_mul_of_nonneg_left ?_ S.init.le
      exact (mul_le_mul_of_nonneg_left h1 (pow_nonneg hm0.le _)).trans h2
    linarith
  have hbound : s.iter < (1 + j) * N + i := by
    rw [i3]
    have : j * a ≤ j * N := Nat.mul_le_mul_left _ ha.le
    have : (1 + j) * N = N + j * N := by ring
    omega
  refine ⟨s, hrun, ?_, hbound.le, (reaches_basic hr).1, ?_⟩
  · unfold St.continues at hc
    rw [S.min0] at hc
    have hlt : s.iter < C.maxIter := by omega
    simpa [hlt] using hc
  · rw [(reaches_basic hr).1]
    have : 0 ≤ (a : ℝ) * trGain C kap bnd gam thr := by positivity
    linarith

end Verif.TRRun

namespace Verif.TR

open scoped RealInnerProductSpace
open Verif.QN (IsSym IsSPD)

variable {X : Type} {T : X → Type} [∀ x, NormedAddCommGroup (T x)] [∀ x, InnerProductSpace ℝ (T x)]

/-- Hypotheses on the problem for C101: a bounded symmetric Hessian operator, no preconditioner, and a second order expansion of the objective along the
retraction with an error of at most `gam` times the squared length. -/
structure NewtonSetting (p : Prob X T) (bnd gam : ℝ) : Prop where
  sym : ∀ x, IsSym (p.H x)
  bounded : ∀ x v, ⟪v, p.H x v⟫ ≤ bnd * ‖v‖ ^ 2
  noPrec : ∀ x, p.P x = LinearMap.id
  taylor : ∀ x v, |p.f (p.retr x v) - p.f x - (⟪v, p.g x⟫ + 1 / 2 * ⟪v, p.H x v⟫)| ≤ gam * ‖v‖ ^ 2
  inner : 0 < p.maxInner
  min0 : p.minInner = 0
  kappa : 0 ≤ p.kappa

theorem id_spd (E : Type*) [NormedAddCommGroup E] [InnerProductSpace ℝ E] : IsSPD (LinearMap.id : E →ₗ[ℝ] E) :=
  ⟨fun u v => rfl, fun v hv => by simp only [LinearMap.id_coe, id_eq]; exact real_inner_self_pos.mpr hv⟩

/-- What the inner solver guarantees without preconditioner: half the Cauchy decrease, a step inside the region, and a result. -/
theorem newton_cand {p : Prob X T} {bnd gam : ℝ} (S : NewtonSetting p bnd gam) (hb : 0 < bnd) (hgam : 0 ≤ gam) {x : X} {D : ℝ} (hD : 0 < D) (hg : p.g x ≠ 0) :
    (p.cand x D).finite = true ∧ (p.cand x D).mval ≤ -(1 / 2 * ‖p.g x‖ * min D (‖p.g x‖ / bnd)) ∧
      |p.f (p.cand x D).x2 - p.f x - (p.cand x D).mval| ≤ gam * D ^ 2 := by
  have hspd : IsSPD (p.local x D).P := by
    show IsSPD (p.P x); rw [S.noPrec]; exact id_spd _
  have hinv : Inverse (p.local x D).P (LinearMap.id : T x →ₗ[ℝ] T x) := by
    show Inverse (p.P x) _; rw [S.noPrec]; exact ⟨fun _ => rfl, fun _ => rfl⟩
  obtain ⟨⟨eta, st⟩, hr⟩ := C21_tcg_no_breakdown (L := p.local x D) (S.sym x) hspd hinv hD hg S.min0 S.kappa p.maxInner
  have hstep := C21_tcg_step (L := p.local x D) (S.sym x) hspd hinv hD hg hr
  have hnorm := C21_tcg_norm_le_radius (L := p.local x D) (S.sym x) (S.noPrec x) hD hg hr
  have hcand : p.cand x D = ⟨p.retr x eta, ⟪eta, p.g x + (1 / 2 : ℝ) • p.H x eta⟫, st, true, .nan⟩ := by
    unfold Prob.cand; rw [hr]
  have hmv : ⟪eta, p.g x + (1 / 2 : ℝ) • p.H x eta⟫ = ⟪eta, p.g x⟫ + 1 / 2 * ⟪eta, p.H x eta⟫ := by
    rw [inner_add_right, inner_smul_right]
  rw [hcand]
  refine ⟨rfl, ?_, ?_⟩
  · show ⟪eta, p.g x + (1 / 2 : ℝ) • p.H x eta⟫ ≤ _
    rw [hmv]
    have hgp : 0 < ‖p.g x‖ := norm_pos_iff.mpr hg
    set m := min D (‖p.g x‖ / bnd) with hm
    have hm0 : 0 < m := lt_min hD (by positivity)
    have hmD : m ≤ D := min_le_left _ _
    have hmb : m * bnd ≤ ‖p.g x‖ := by
      have := min_le_right D (‖p.g x‖ / bnd)
      rwa [← hm, le_div_iff₀ hb] at this
    have hPg : (p.local x D).P (p.local x D).g = p.g x := by
      show p.P x (p.g x) = p.g x; rw [S.noPrec]; rfl
    have hc := hstep.2.2.2.1 S.inner (m / ‖p.g x‖) (by positivity)
    rw [hPg] at hc
    have hfeas : ⟪(m / ‖p.g x‖) • -p.g x, (LinearMap.id : T x →ₗ[ℝ] T x) ((m / ‖p.g x‖) • -p.g x)⟫ ≤ (p.local x D).Delta * (p.local x D).Delta := by
      rw [LinearMap.id_apply, real_inner_self_eq_norm_mul_norm, norm_smul, norm_neg, Real.norm_of_nonneg (by positivity), div_mul_cancel₀ _ hgp.ne']
      exact mul_le_mul hmD hmD hm0.le hD.le
    have hc := hc hfeas
    have e1 : ⟪(m / ‖p.g x‖) • -p.g x, (p.local x D).g⟫ = -(m * ‖p.g x‖) := by
      show ⟪(m / ‖p.g x‖) • -p.g x, p.g x⟫ = _
      rw [real_inner_smul_left, inner_neg_left, real_inner_self_eq_norm_mul_norm]
      field_simp
    have e2 : ⟪(m / ‖p.g x‖) • -p.g x, (p.local x D).H ((m / ‖p.g x‖) • -p.g x)⟫ ≤ bnd * m ^ 2 := by
      refine (S.bounded x _).trans ?_
      rw [norm_smul, norm_neg, Real.norm_of_nonneg (by positivity), div_mul_cancel₀ _ hgp.ne']
    rw [e1] at hc
    have hc' : ⟪eta, p.g x⟫ + 1 / 2 * ⟪eta, p.H x eta⟫ ≤ -(m * ‖p.g x‖) + 1 / 2 * ⟪(m / ‖p.g x‖) • -p.g x, (p.local x D).H ((m / ‖p.g x‖) • -p.g x)⟫ := hc
    nlinarith
  · show |p.f (p.retr x eta) - p.f x - ⟪eta, p.g x + (1 / 2 : ℝ) • p.H x eta⟫| ≤ _
    rw [hmv]
    refine (S.taylor x eta).trans ?_
    exact mul_le_mul_of_nonneg_left (pow_le_pow_left₀ (norm_nonneg _) hnorm 2) hgam

/-- In the setting of `C101_tr_converges` the final iterate of the trust-region Newton solver satisfies the gradient test. -/
theorem rtr_of_setting (p : Prob X T) {C : TRRun.Cfg ℝ} {fmin kap bnd gam thr : ℝ} (hS : TRRun.Setting C p.env fmin kap bnd gam thr)
    (hs0 : p.stopped0 = true ↔ ‖p.g p.x0‖ < thr) (hs : ∀ k x y, p.stopped k x y = true ↔ ‖p.g y‖ < thr)
    (N i j : ℕ) (hN : p.f p.x0 - fmin < N * TRRun.trGain C kap bnd gam thr) (hj : C.magnified * C.shrinked ^ j ≤ 1)
    (hi : C.initialDelta * C.shrinked ^ i < TRRun.leastRadius C kap bnd gam thr) (hshr1 : C.shrinked ≤ 1) (hmax : (1 + j) * N + i ≤ C.maxIter) :
    ∃ s, TRRun.run C p.env (C.maxIter + 1) = .finished s ∧ ‖p.g s.x1‖ < thr ∧ s.iter ≤ (1 + j) * N + i ∧ s.f1 = p.f s.x1 ∧ s.f1 ≤ p.f p.x0 := by
  obtain ⟨s, h1, h2, h3, h4, h5⟩ := TRRun.C101_tr_converges hS N i j hN hj hi hshr1 hmax
  refine ⟨s, h1, ?_, h3, h4, h5⟩
  obtain ⟨hr, _⟩ := TRRun.finished_at_test hS _ _ _ TRRun.Reaches.init h1
  -- the stopping flag describes the current iterate
  have key : ∀ {t : TRRun.St ℝ X}, TRRun.Reaches C p.env t → t.isstop = true → ‖p.g t.x1‖ < thr := by
    intro t ht
    induction ht with
    | init =>
      intro h
      exact hs0.mp h
    | step _ _ hp ih =>
      intro h
      obtain ⟨D, _, ⟨_, hw⟩ | ⟨_, hw⟩⟩ := TRRun.pass_next hp
      · obtain ⟨_, e2, e3, _⟩ := TRRun.writeHist_next hw
        rw [e3]; rw [e2] at h
        exact (hs _ _ _).mp h
      · obtain ⟨_, e2, e3, _⟩ := TRRun.writeHist_next hw
        rw [e3]; rw [e2] at h
        exact ih h
  exact key hr h2

/-- **C101, the trust-region Newton solver.** For every manifold problem with bounded Hessian operators and a second order expansion along the retraction, the solver with
its truncated conjugate gradient inner solver reaches a gradient norm below `thr` (or another reason for which its stopping test holds) within the number of iterations of `C101_tr_converges`. -/
theorem C101_rtr_newton_converges (p : Prob X T) (C : TRRun.Cfg ℝ) {fmin bnd gam thr : ℝ} (S : NewtonSetting p bnd gam)
    (hbelow : ∀ x, fmin ≤ p.f x) (hb : 0 < bnd) (hgam : 0 < gam) (hthr : 0 < thr)
    (hs0 : p.stopped0 = true ↔ ‖p.g p.x0‖ < thr) (hs : ∀ k x y, p.stopped k x y = true ↔ ‖p.g y‖ < thr)
    (hacc : C.accuracy * (‖p.g p.x0‖ + C.tolerance) ≤ thr) (htol : 0 < C.tolerance)
    (hrho0 : 0 ≤ C.acceptRho) (hrho : C.acceptRho < 1 / 4) (hinit : 0 < C.initialDelta) (hmaxD : 0 < C.maximumDelta)
    (hshr : 0 < C.shrinked) (hshr1 : C.shrinked ≤ 1) (hmag : 1 ≤ C.magnified)
    (hsmall : C.minimumDelta ≤ C.shrinked * TRRun.goodRadius (1 / 2) bnd gam thr) (hmin : C.minIter = 0) (hgap : C.outputGap ≠ 0)
    (N i j : ℕ) (hN : p.f p.x0 - fmin < N * TRRun.trGain C (1 / 2) bnd gam thr)
    (hj : C.magnified * C.shrinked ^ j ≤ 1) (hi : C.initialDelta * C.shrinked ^ i < TRRun.leastRadius C (1 / 2) bnd gam thr)
    (hmax : (1 + j) * N + i ≤ C.maxIter) :
    ∃ s, TRRun.run C p.env (C.maxIter + 1) = .finished s ∧ ‖p.g s.x1‖ < thr ∧ s.iter ≤ (1 + j) * N + i ∧ s.f1 = p.f s.x1 ∧ s.f1 ≤ p.f p.x0 := by
  have hne : ∀ x, thr ≤ ‖p.g x‖ → p.g x ≠ 0 := fun x hx => norm_pos_iff.mp (lt_of_lt_of_le hthr hx)
  have hS : TRRun.Setting C p.env fmin (1 / 2) bnd gam thr :=
    { below := hbelow
      cauchy := fun k x D hD _ hx => (newton_cand S hb hgam.le hD (hne x hx)).2.1
      model := fun k x D hD _ hx => (newton_cand S hb hgam.le hD (hne x hx)).2.2
      finite := fun k x D hD _ hx => (newton_cand S hb hgam.le hD (hne x hx)).1
      kappos := by norm_num
      bndpos := hb, gampos := hgam, thrpos := hthr
      stop0 := fun h => hs0.mpr h
      stop := fun k x y h => (hs k x y).mpr h
      acc := hacc
      sum := by show 0 < ‖p.g p.x0‖ + C.tolerance; have := norm_nonneg (p.g p.x0); linarith
      rho0 := hrho0, rho := hrho, init := hinit, max := hmaxD, shr := hshr, mag := hmag, small := hsmall, min0 := hmin, gap := hgap }
  exact rtr_of_setting p hS hs0 hs N i j hN hj hi hshr1 hmax

/-! ### A concrete case: `f(x) = x²` on the line, whose Hessian is exact -/

/-- The objective `x²` with exact Hessian; `thr` is the gradient norm at which the run stops. -/
noncomputable def lineProb (thr : ℝ) : Prob ℝ (fun _ => ℝ) where
  f x := x ^ 2
  g x := 2 * x
  H _ := (2 : ℝ) • LinearMap.id
  P _ := LinearMap.id
  retr x v := x + v
  x0 := 1
  theta := 1
  kappa := 1 / 10
  minInner := 0
  maxInner := 5
  stopped0 := Classical.propDecidable (‖(2 : ℝ) * 1‖ < thr) |>.decide
  stopped _ _ y := Classical.propDecidable (‖(2 : ℝ) * y‖ < thr) |>.decide

theorem line_setting (thr : ℝ) : NewtonSetting (lineProb thr) 2 1 where
  sym x u v := by
    simp only [lineProb, LinearMap.smul_apply, LinearMap.id_apply, real_inner_smul_left, real_inner_smul_right]
  bounded x v := by
    simp only [lineProb, LinearMap.smul_apply, LinearMap.id_apply, real_inner_smul_right]
    rw [real_inner_self_eq_norm_sq]
  noPrec _ := rfl
  taylor x v := by
    have : (lineProb thr).f ((lineProb thr).retr x v) - (lineProb thr).f x - (⟪v, (lineProb thr).g x⟫ + 1 / 2 * ⟪v, (lineProb thr).H x v⟫) = 0 := by
      simp [lineProb]
      ring
    rw [this]
    simp
    positivity
  inner := by norm_num [lineProb]
  min0 := rfl
  kappa := by norm_num [lineProb]

/-- C101 applied with the default factors 2 and 1/4 for the radius. -/
example : ∃ (C : TRRun.Cfg ℝ) (s : TRRun.St ℝ ℝ), TRRun.run C (lineProb (1 / 1000)).env (C.maxIter + 1) = .finished s ∧ ‖(2 : ℝ) * s.x1‖ < 1 / 1000 := by
  let C : ℕ → TRRun.Cfg ℝ := fun n =>
    { maxIter := n, minIter := 0, outputGap := 1, record := true, initialDelta := 1, maximumDelta := 1000, minimumDelta := 0
      magnified := 2, shrinked := 1 / 4, acceptRho := 1 / 10, accuracy := 0, tolerance := 1 / 1000, sqeps := 1 / 10 ^ 8 }
  have hgood : TRRun.goodRadius (1 / 2) 2 1 (1 / 1000) = 1 / 8000 := by unfold TRRun.goodRadius; norm_num
  have hleast : ∀ n, TRRun.leastRadius (C n) (1 / 2) 2 1 (1 / 1000) = 1 / 32000 := by
    intro n; unfold TRRun.leastRadius; rw [hgood]; norm_num [C]
  have hgain : ∀ n, TRRun.trGain (C n) (1 / 2) 2 1 (1 / 1000) = 1 / 4 * (1 / 2 * (1 / 1000) * (1 / 32000)) := by
    intro n; unfold TRRun.trGain; rw [hleast]; norm_num
  obtain ⟨N, hN⟩ := exists_nat_gt ((1 : ℝ) / (1 / 4 * (1 / 2 * (1 / 1000) * (1 / 32000))))
  rw [div_lt_iff₀ (by norm_num)] at hN
  obtain ⟨s, h1, h2, _⟩ := C101_rtr_newton_converges (lineProb (1 / 1000)) (C ((1 + 1) * N + 8)) (fmin := 0) (thr := 1 / 1000) (line_setting _)
    (fun x => sq_nonneg x) (by norm_num) (by norm_num) (by norm_num)
    (by simp [lineProb]) (fun k x y => by simp [lineProb]) (by simp [C]) (by norm_num [C]) (by norm_num [C]) (by norm_num [C]) (by norm_num [C])
    (by norm_num [C]) (by norm_num [C]) (by norm_num [C]) (by norm_num [C]) (by rw [hgood]; norm_num [C]) rfl (by norm_num [C]) N 8 1
    (by rw [hgain]; simpa [lineProb] using hN) (by norm_num [C]) (by rw [hleast]; norm_num [C]) le_rfl
  exact ⟨_, s, h1, h2⟩

end Verif.TR
