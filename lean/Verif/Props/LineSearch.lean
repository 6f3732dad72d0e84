import Verif.Solver.WolfeLemmas

/-!
# Line searches: C14, C15, C17, C56

The specification side uses only: the objective along the ray `phi`, its slope `der`, the value
`f0` at the current iterate, the initial slope, and the observable results of a search (the
status, the step, the step whose point/value are stored, and the step whose gradient is stored).
-/

set_option linter.unusedSectionVars false

namespace Verif.Solver

variable {K : Type} [Field K] [LinearOrder K] [IsStrictOrderedRing K]

/-- The reference value of the nonmonotone test: the greatest of the current value and of the
stored earlier values (all but the oldest stored one, at most `n`). -/
def IsReference (n : Nat) (f0 : K) (pre : List K) (ref : K) : Prop :=
  IsGreatest {v | v = f0 ∨ v ∈ pre.dropLast.take n} ref

/-- C14: if the Armijo search reports success the stored point is the one of the accepted step,
the stored value and gradient belong to it, and it satisfies the sufficient decrease inequality
with respect to the reference value. For all objectives, parameters and interpolation formulas. -/
theorem C14_armijo_sufficient_decrease (P : LSParams K) (φ : Ray K) (I : Interp K) (pre : List K)
    (fuel : Nat) (s0 r : Search K) (ref : K)
    (h : armijo P φ I pre fuel s0 = some r) (hs : r.status = .success)
    (href : IsReference P.numPre φ.f0 pre ref) :
    r.pt = r.step ∧ r.f2 = φ.phi r.step ∧ r.gradAt = some r.step ∧
      φ.phi r.step ≤ ref + P.alpha * r.step * φ.slope := by
  have heq : ref = maxPref P.numPre φ.f0 pre := IsGreatest.unique href (maxPref_isGreatest _ _ _)
  rcases armijo_outcome P φ I pre fuel s0 r h with ⟨_, h2, h3, h4⟩ | ⟨h1, _⟩
  · refine ⟨h2.1, h2.2, h3, ?_⟩
    rw [← h2.2, heq]
    have := not_lt.mp h4
    nlinarith
  · rw [hs] at h1; cases h1

/-- C14: with a descent direction the accepted value never exceeds the reference value, and is
strictly smaller when `alpha > 0`. -/
theorem C14_armijo_no_increase (P : LSParams K) (φ : Ray K) (I : Interp K) (pre : List K)
    (fuel : Nat) (s0 r : Search K) (ref : K)
    (h : armijo P φ I pre fuel s0 = some r) (hs : r.status = .success)
    (href : IsReference P.numPre φ.f0 pre ref)
    (ha : 0 < P.alpha) (hsl : φ.slope < 0) (hr1 : 0 < P.r1) (hr2 : P.r2 ≤ 1) (hr11 : P.r1 ≤ 1)
    (hp : 0 < s0.step) : φ.phi r.step < ref := by
  have h1 := C14_armijo_sufficient_decrease P φ I pre fuel s0 r ref h hs href
  have hpos : 0 < r.step := by
    unfold armijo at h
    simp only at h
    split at h
    · rw [Option.map_eq_some_iff] at h
      obtain ⟨a, ha', rfl⟩ := h
      exact (backtrack_bounds _ _ _ _ _ _ ha' hr1 hr11 hp).1
    · rename_i hlt
      have h12 : P.r1 ≤ P.r2 := (not_le.mp hlt).le
      rw [Option.map_eq_some_iff] at h
      obtain ⟨a, ha', rfl⟩ := h
      exact (polyLoop_bounds _ _ _ _ _ _ _ _ _ ha' hr1 h12 hr2
        (armijoFirst_pos _ _ _ _ _ h12 hr1 hp)).1
  have : P.alpha * r.step * φ.slope < 0 := by
    have := mul_pos ha hpos
    nlinarith
  linarith [h1.2.2.2]

/-- C15: the Armijo search ends. With reduction factor `rho` (`LS_ratio1` for plain backtracking,
`LS_ratio2` for the interpolating variant) at most `n + 2` trials are made when
`t0 * rho^n < Minstepsize`. -/
theorem C15_armijo_terminates_within (P : LSParams K) (φ : Ray K) (I : Interp K) (pre : List K)
    (s0 : Search K) (n : Nat)
    (hr1 : 0 < P.r1) (hr2 : P.r2 ≤ 1) (hr11 : P.r1 ≤ 1) (hp : 0 < s0.step)
    (hn : s0.step * (max P.r1 P.r2) ^ n < P.minStep) :
    (armijo P φ I pre (n + 1) s0).isSome := by
  unfold armijo
  simp only
  split
  · rename_i h21
    rw [max_eq_left h21] at hn
    rw [Option.isSome_map]
    exact backtrack_total _ _ _ _ _ hn hr1 hr11 hp
  · rename_i hlt
    have h12 : P.r1 ≤ P.r2 := (not_le.mp hlt).le
    rw [max_eq_right h12] at hn
    rw [Option.isSome_map]
    obtain ⟨b1, _, b3⟩ := armijoFirst_bounds P φ I (maxPref P.numPre φ.f0 pre)
      (evalH φ { s0 with status := .success }) h12 hr1 hr2 hp
    refine polyLoop_total _ _ _ _ _ _ _ _ ?_ hr1 h12 hr2 b1
    exact lt_of_le_of_lt (mul_le_mul_of_nonneg_right b3 (pow_nonneg (hr1.le.trans h12) n)) hn

/-- C15: for every objective and every choice of ratios in (0,1) and positive minimum step the Armijo
search returns. -/
theorem C15_armijo_terminates [Archimedean K] (P : LSParams K) (φ : Ray K) (I : Interp K)
    (pre : List K) (s0 : Search K)
    (hr1 : 0 < P.r1) (hr11 : P.r1 < 1) (hr2 : P.r2 < 1) (hm : 0 < P.minStep) (hp : 0 < s0.step) :
    ∃ fuel r, armijo P φ I pre fuel s0 = some r := by
  obtain ⟨n, hn⟩ := exists_pow_mul_lt s0.step P.minStep (max P.r1 P.r2) hm (max_lt hr11 hr2)
  have := C15_armijo_terminates_within P φ I pre s0 n hr1 hr2.le hr11.le hp hn
  obtain ⟨r, hr⟩ := Option.isSome_iff_exists.mp this
  exact ⟨_, r, hr⟩

/-- C15: the accepted step is positive, never larger than the initial step, and not below the
smaller of `Minstepsize` and `LS_ratio1` times the initial step; otherwise the minimum-step status is
reported. -/
theorem C15_armijo_step_bounds_partial (P : LSParams K) (φ : Ray K) (I : Interp K) (pre : List K)
    (fuel : Nat) (s0 r : Search K) (h : armijo P φ I pre fuel s0 = some r)
    (hr1 : 0 < P.r1) (hr11 : P.r1 ≤ 1) (hr2 : P.r2 ≤ 1) (hp : 0 < s0.step) :
    0 < r.step ∧ r.step ≤ s0.step ∧
      ((r.status = .success ∧ min P.minStep (P.r1 * s0.step) ≤ r.step) ∨
        (r.status = .minStepSize ∧ r.step < P.minStep)) := by
  have hout := armijo_outcome P φ I pre fuel s0 r h
  have hr1s : P.r1 * s0.step ≤ s0.step := by nlinarith
  unfold armijo at h
  simp only at h
  split at h
  · rw [Option.map_eq_some_iff] at h
    obtain ⟨a, ha', rfl⟩ := h
    obtain ⟨b1, b2, b3⟩ := backtrack_bounds _ _ _ _ _ _ ha' hr1 hr11 hp
    refine ⟨b1, b2, ?_⟩
    rcases hout with ⟨o1, _⟩ | o1
    · left
      refine ⟨o1, ?_⟩
      rcases b3 o1 rfl with b | b
      · change _ ≤ a.step
        rw [b]; exact (min_le_right _ _).trans hr1s
      · exact (min_le_left _ _).trans b
    · exact Or.inr o1
  · rename_i hlt
    have h12 : P.r1 ≤ P.r2 := (not_le.mp hlt).le
    have hr2s : P.r2 * s0.step ≤ s0.step := by nlinarith
    rw [Option.map_eq_some_iff] at h
    obtain ⟨a, ha', rfl⟩ := h
    obtain ⟨c1, c2, c3⟩ := armijoFirst_bounds P φ I (maxPref P.numPre φ.f0 pre)
      (evalH φ { s0 with status := .success }) h12 hr1 hr2 hp
    have hst := armijoFirst_status P φ I (maxPref P.numPre φ.f0 pre)
      (evalH φ { s0 with status := .success })
    obtain ⟨b1, b2, b3⟩ := polyLoop_bounds _ _ _ _ _ _ _ _ _ ha' hr1 h12 hr2 c1
    refine ⟨b1, b2.trans c3, ?_⟩
    rcases hout with ⟨o1, _⟩ | o1
    · left
      refine ⟨o1, ?_⟩
      rcases b3 (Eq.trans o1 hst.symm) hst with b | b
      · change _ ≤ a.step
        rw [b]; exact (min_le_right _ _).trans c2
      · exact (min_le_left _ _).trans b
    · exact Or.inr o1

/-- C15: no false failure. If every step in `(0, δ]` has sufficient decrease and the minimum step is
at most `LS_ratio1 * δ` then the Armijo search reports success. -/
theorem C15_armijo_finds_step (P : LSParams K) (φ : Ray K) (I : Interp K) (pre : List K)
    (fuel : Nat) (s0 r : Search K) (h : armijo P φ I pre fuel s0 = some r) (δ : K)
    (hδ : ∀ t, 0 < t → t ≤ δ → φ.phi t ≤ φ.f0 + P.alpha * t * φ.slope)
    (hmin : P.minStep ≤ P.r1 * δ)
    (hr1 : 0 < P.r1) (hp : 0 < s0.step) : r.status = .success := by
  have hδ' : ∀ t, 0 < t → t ≤ δ →
      ¬ maxPref P.numPre φ.f0 pre - φ.phi t < -P.alpha * φ.slope * t := by
    intro t ht htd hc
    have h1 := hδ t ht htd
    have h2 := maxPref_ge P.numPre φ.f0 pre
    nlinarith
  unfold armijo at h
  simp only at h
  split at h
  · rw [Option.map_eq_some_iff] at h
    obtain ⟨a, ha', rfl⟩ := h
    change a.status = .success
    exact backtrack_finds _ _ _ δ _ _ _ ha' (evalH_fresh _ _) hδ' hmin hr1 hp rfl
  · rename_i hlt
    have h12 : P.r1 ≤ P.r2 := (not_le.mp hlt).le
    rw [Option.map_eq_some_iff] at h
    obtain ⟨a, ha', rfl⟩ := h
    change a.status = .success
    exact polyLoop_finds _ _ _ _ δ _ _ _ _ _ ha' (armijoFirst_fresh _ _ _ _ _ (evalH_fresh _ _))
      hδ' hmin hr1 h12 (armijoFirst_pos _ _ _ _ _ h12 hr1 hp) (armijoFirst_status _ _ _ _ _)

/-! ## Strong Wolfe -/

/-- C17: if the strong Wolfe search (including its zoom phase) reports success then the accepted
step satisfies the strong Wolfe conditions, and point, value and gradient all belong to it. -/
theorem C17_strong_wolfe_success (P : LSParams K) (φ : Ray K) (I : Interp K) (fuel : Nat)
    (s0 r : Search K) (h : strongWolfe P φ I fuel s0 = some r) (hs : r.status = .success) :
    r.pt = r.step ∧ r.f2 = φ.phi r.step ∧ r.gradAt = some r.step ∧
      φ.phi r.step ≤ φ.f0 + P.alpha * r.step * φ.slope ∧
      |φ.der r.step| ≤ -P.beta * φ.slope := by
  obtain ⟨a, b, _, d, e⟩ := strongWolfeLoop_success P φ I fuel 0 none φ.slope _ r h hs
  exact ⟨a.1, a.2, b, d, e⟩

/-- C17: the maximum-step status of the strong Wolfe search is only reported at the maximum step, which
then has sufficient decrease. -/
theorem C17_strong_wolfe_max_step (P : LSParams K) (φ : Ray K) (I : Interp K) (fuel : Nat)
    (s0 r : Search K) (h : strongWolfe P φ I fuel s0 = some r) (hs : r.status = .maxStepSize) :
    r.pt = r.step ∧ r.f2 = φ.phi r.step ∧ r.gradAt = some r.step ∧ r.step = P.maxStep ∧
      φ.phi r.step ≤ φ.f0 + P.alpha * r.step * φ.slope := by
  obtain ⟨a, b, c, d⟩ := strongWolfeLoop_max P φ I fuel 0 none φ.slope _ r h hs rfl
  exact ⟨a.1, a.2, b, c, d⟩

/-- C17: the strong Wolfe search returns for every objective. -/
theorem C17_strong_wolfe_terminates [Archimedean K] (P : LSParams K) (φ : Ray K) (I : Interp K)
    (s0 : Search K) (hp : 0 < s0.step) :
    ∃ fuel r, strongWolfe P φ I fuel s0 = some r := by
  obtain ⟨n, hn⟩ := pow_unbounded_of_one_lt (P.maxStep / s0.step) (show (1 : K) < 11 / 10 by norm_num)
  rw [div_lt_iff₀ hp] at hn
  have := strongWolfeLoop_total P φ I n 0 none φ.slope { s0 with status := .success } hp
    (by rw [mul_comm]; exact hn.le)
  obtain ⟨r, hr⟩ := Option.isSome_iff_exists.mp this
  exact ⟨_, r, hr⟩

/-! ## Weak Wolfe -/

/-- C17 (weak variant, partial): if the Wolfe search reports success with a step other than its initial
trial then the step has sufficient decrease, point, value and gradient belong to it, and either the
curvature condition holds or the step was reached by eleven doublings through steps that all have
sufficient decrease and a too negative slope. The full claim (both Wolfe conditions for every
success) is false: see `C17_weak_wolfe_success_without_decrease` and
`C17_weak_wolfe_success_without_curvature`. -/
theorem C17_weak_wolfe_success_partial (P : LSParams K) (φ : Ray K) (I : Interp K) (fuel : Nat)
    (s0 r : Search K) (h : wolfe P φ I fuel s0 = some r) (hs : r.status = .success)
    (hp : 0 < s0.step) (hne : r.step ≠ s0.step) :
    r.pt = r.step ∧ r.f2 = φ.phi r.step ∧ r.gradAt = some r.step ∧
      φ.phi r.step ≤ φ.f0 + P.alpha * r.step * φ.slope ∧
      (P.beta * φ.slope ≤ φ.der r.step ∨
        ∃ t, 0 < t ∧ r.step = 2 ^ 11 * t ∧ ∀ i ≤ 11,
          φ.phi (2 ^ i * t) ≤ φ.f0 + P.alpha * (2 ^ i * t) * φ.slope ∧
          φ.der (2 ^ i * t) < P.beta * φ.slope) := by
  rcases wolfeLoop_success P φ I s0.step fuel 0 0 _ r h hs hp with ⟨a, b, c⟩ | ⟨a, _⟩
  · refine ⟨a.1.1, a.1.2, a.2.1, b, ?_⟩
    rcases c with c | c
    · exact Or.inl (not_lt.mp c)
    · exact Or.inr c
  · exact absurd a hne

/-- C17 (weak variant, partial): the same conclusion for a success at the initial trial, provided the
initial trial itself has sufficient decrease. -/
theorem C17_weak_wolfe_initial_partial (P : LSParams K) (φ : Ray K) (I : Interp K) (fuel : Nat)
    (s0 r : Search K) (h : wolfe P φ I fuel s0 = some r) (hs : r.status = .success)
    (hp : 0 < s0.step) (hd : φ.phi s0.step ≤ φ.f0 + P.alpha * s0.step * φ.slope) :
    r.f2 = φ.phi r.step ∧ r.gradAt = some r.step ∧
      φ.phi r.step ≤ φ.f0 + P.alpha * r.step * φ.slope := by
  rcases wolfeLoop_success P φ I s0.step fuel 0 0 _ r h hs hp with ⟨a, b, _⟩ | ⟨a, _, c⟩
  · exact ⟨a.1.2, a.2.1, b⟩
  · exfalso; apply c; unfold Decr; rw [a]; exact hd

/-- C17: the weak Wolfe search returns for every objective with a descent direction when
`LS_alpha <= 1/2`; the first reduction uses the quadratic formula of the code, every later
reduction at least halves the step. -/
theorem C17_weak_wolfe_terminates [Archimedean K] (P : LSParams K) (φ : Ray K) (I : Interp K)
    (s0 : Search K) (hp : 0 < s0.step) (hm : 0 < P.minStep) (ha : P.alpha ≤ 1 / 2)
    (hsl : φ.slope < 0)
    (hq : ∀ f2 a b, I.wolfeStep s0.step f2 a b =
      -φ.slope * s0.step * s0.step / 2 / (f2 - φ.f0 - φ.slope * s0.step)) :
    ∃ fuel r, wolfe P φ I fuel s0 = some r := by
  obtain ⟨n, hn⟩ := exists_pow_mul_lt s0.step P.minStep (1 / 2) hm (by norm_num)
  suffices h : (wolfe P φ I (n + 2) s0).isSome by
    obtain ⟨r, hr⟩ := Option.isSome_iff_exists.mp h
    exact ⟨_, r, hr⟩
  unfold wolfe
  rw [wolfeLoop]
  dsimp only
  split
  · rename_i hv
    split
    · rfl
    · have hlt : wolfeReduce I s0.step s0.step (φ.phi s0.step) 0 0 < s0.step := by
        apply wolfeReduce_first _ _ _ _ _ hp
        rw [hq]
        exact quad_lt P.alpha φ.slope s0.step (φ.phi s0.step) φ.f0 ha hsl hp hv
      apply wolfeLoop_total_aux
      · exact wolfeReduce_pos _ _ _ _ _ _ hp
      · exact hlt
      · refine le_trans ?_ hn.le
        exact mul_le_mul_of_nonneg_right hlt.le (pow_nonneg (by norm_num) n)
  · rfl

/-! ## Witnesses -/

/-- Default parameters of the code (`SolversSMLS.cpp:655-680`), as rationals. -/
def defaultParams : LSParams Rat :=
  { alpha := 1 / 10000, beta := 999 / 1000, r1 := 1 / 10, r2 := 9 / 10,
    minStep := 1 / 4503599627370496, maxStep := 10000000000, numPre := 1 }

/-- The rational interpolation formulas of the code (`quad` 346, `zoom` 528, `extend` 508,
`wolfeIncr` 736, first `wolfeStep` 779); the cubic ones, which contain a square root, return NaN; with one
value equal to `numeric_limits::max()` the zoom formula is zero up to rounding. -/
def codeInterp (φ : Ray Rat) : Interp Rat where
  quad t f2 := some (-φ.slope * t * t / 2 / (f2 - φ.f0 - φ.slope * t))
  cubic _ _ _ _ := none
  zoom xlo xhi flo fhi slo := match flo, fhi with
    | some flo, some fhi =>
      some (-slo * (xhi - xlo) * (xhi - xlo) / 2 / (fhi - (flo + slo * (xhi - xlo))))
    | _, _ => some 0
  extend t f2 := some (-φ.slope * t * t / 2 / (f2 - φ.f0 - φ.slope * t))
  wolfeIncr ns d flo fhi := -ns * d * d / 2 / (fhi - (flo + ns * d))
  wolfeStep t f2 _ _ := -φ.slope * t * t / 2 / (f2 - φ.f0 - φ.slope * t)

/-- The objective `4t⁴ - 3t² - t` along a ray, with its exact derivative. -/
def quarticRay : Ray Rat :=
  { f0 := 0, slope := -1, phi := fun t => 4 * t ^ 4 - 3 * t ^ 2 - t,
    der := fun t => 16 * t ^ 3 - 6 * t - 1 }

/-- The objective `-t` along a ray. -/
def linearRay : Ray Rat := { f0 := 0, slope := -1, phi := fun t => -t, der := fun _ => -1 }

/-- C17/C56 violated by the weak Wolfe search: on the smooth function `4t⁴-3t²-t` with default
parameters and initial step 1 it reports success at step 1, where the value equals the starting
value (no decrease), and the stored gradient is the one at step 1/2. -/
theorem C17_weak_wolfe_success_without_decrease :
    ∃ r : Search Rat, wolfe defaultParams quarticRay (codeInterp quarticRay) 5
        (Search.start 1 0 0) = some r ∧
      r.status = .success ∧ r.step = 1 ∧ quarticRay.phi r.step = quarticRay.f0 ∧
      ¬ (quarticRay.phi r.step ≤
          quarticRay.f0 + defaultParams.alpha * r.step * quarticRay.slope) ∧
      r.gradAt = some (1 / 2) := by
  have h : (wolfe defaultParams quarticRay (codeInterp quarticRay) 5 (Search.start 1 0 0)).map
      (fun r => (r.status, r.step, r.gradAt)) = some (.success, 1, some (1 / 2)) := by
    decide +kernel
  rw [Option.map_eq_some_iff] at h
  obtain ⟨r, hr, he⟩ := h
  simp only [Prod.mk.injEq] at he
  refine ⟨r, hr, he.1, he.2.1, ?_, ?_, he.2.2⟩
  · rw [he.2.1]; norm_num [quarticRay]
  · rw [he.2.1]; norm_num [quarticRay, defaultParams]

/-- C17 violated by the weak Wolfe search: on the linear function `-t` it reports success at
`2^11` although the slope there is below `LS_beta * initialslope`. -/
theorem C17_weak_wolfe_success_without_curvature :
    ∃ r : Search Rat, wolfe defaultParams linearRay (codeInterp linearRay) 5
        (Search.start 1 0 0) = some r ∧
      r.status = .success ∧ r.step = 2 ^ 11 ∧
      linearRay.der r.step < defaultParams.beta * linearRay.slope := by
  have h : (wolfe defaultParams linearRay (codeInterp linearRay) 5 (Search.start 1 0 0)).map
      (fun r => (r.status, r.step)) = some (.success, 2 ^ 11) := by
    decide +kernel
  rw [Option.map_eq_some_iff] at h
  obtain ⟨r, hr, he⟩ := h
  simp only [Prod.mk.injEq] at he
  exact ⟨r, hr, he.1, he.2, by norm_num [linearRay, defaultParams]⟩

/-- The objective `6t² - t` along a ray. -/
def parabolaRay : Ray Rat :=
  { f0 := 0, slope := -1, phi := fun t => 6 * t ^ 2 - t, der := fun t => 12 * t - 1 }

/-- C15, the part that fails: with `Minstepsize = 1/2` the interpolating Armijo search accepts the
step `1/10` and reports success, because the first interpolated step is not compared with the
minimum step. -/
theorem C15_success_below_minimum_step :
    ∃ r : Search Rat, armijo { defaultParams with minStep := 1 / 2 } parabolaRay
        (codeInterp parabolaRay) [] 5 (Search.start 1 0 0) = some r ∧
      r.status = .success ∧ r.step < 1 / 2 := by
  have h : (armijo { defaultParams with minStep := 1 / 2 } parabolaRay
        (codeInterp parabolaRay) [] 5 (Search.start 1 0 0)).map
      (fun r => (r.status, r.step)) = some (.success, 1 / 10) := by
    decide +kernel
  rw [Option.map_eq_some_iff] at h
  obtain ⟨r, hr, he⟩ := h
  simp only [Prod.mk.injEq] at he
  exact ⟨r, hr, he.1, by rw [he.2]; norm_num⟩

/-- C56, failing searches: a strong Wolfe search that gives up in its zoom phase leaves a step size
that is not the step of the stored point and a gradient of neither. -/
theorem C56_strong_wolfe_failure_is_inconsistent :
    ∃ (P : LSParams Rat) (φ : Ray Rat) (r : Search Rat),
      strongWolfe P φ (codeInterp φ) 5 (Search.start 1 0 0) = some r ∧
      r.status = .lsError ∧ r.pt ≠ r.step ∧ r.gradAt = none := by
  let φ : Ray Rat := { f0 := 0, slope := -1, phi := fun _ => 1, der := fun _ => 0 }
  have h : (strongWolfe defaultParams φ (codeInterp φ) 5 (Search.start 1 0 0)).map
      (fun r => (r.status, decide (r.pt ≠ r.step), r.gradAt)) = some (.lsError, true, none) := by
    decide +kernel
  rw [Option.map_eq_some_iff] at h
  obtain ⟨r, hr, he⟩ := h
  simp only [Prod.mk.injEq, decide_eq_true_eq] at he
  exact ⟨_, φ, r, hr, he.1, he.2.1, he.2.2⟩

/-! ## Concrete cases meeting the hypotheses -/

/-- Backtracking (ratios equal) on `6t² - t` from step 1: two reductions by 1/4, success. -/
example : (armijo { defaultParams with r1 := 1 / 4, r2 := 1 / 4 } parabolaRay
      (codeInterp parabolaRay) [7] 5 (Search.start 1 0 0)).map
    (fun r => (r.status, r.step, r.f2, r.gradAt)) =
    some (.success, 1 / 16, 6 / 256 - 1 / 16, some (1 / 16)) := by decide +kernel

/-- A reference value that is not the current value: window of three, oldest stored one excluded. -/
example : IsReference 3 (1 : Rat) [2, 5, 4, 9] 5 := by
  have h := maxPref_isGreatest 3 (1 : Rat) [2, 5, 4, 9]
  have e : maxPref 3 (1 : Rat) [2, 5, 4, 9] = 5 := by decide +kernel
  rw [e] at h; exact h

/-- A search that runs into the minimum step: the stored point is the previous, rejected, one. -/
example : (armijo { defaultParams with r1 := 1 / 2, r2 := 1 / 2, minStep := 1 / 3 }
      { f0 := 0, slope := -1, phi := fun t => t, der := fun _ => 1 }
      (codeInterp parabolaRay) [] 5 (Search.start 1 0 0)).map
    (fun r => (r.status, r.step, r.pt)) = some (.minStepSize, 1 / 4, 1 / 2) := by decide +kernel

/-- Strong Wolfe success through the zoom phase. -/
example : (strongWolfe { defaultParams with beta := 3 / 10 } parabolaRay (codeInterp parabolaRay) 5
      (Search.start 1 0 0)).map
    (fun r => (r.status, r.gradAt == some r.step)) = some (.success, true) := by decide +kernel

/-- Strong Wolfe at the maximum step. -/
example : (strongWolfe { defaultParams with maxStep := 3 } linearRay (codeInterp linearRay) 20
      (Search.start 1 0 0)).map (fun r => (r.status, r.step)) =
    some (.maxStepSize, 3) := by decide +kernel

/-- Weak Wolfe success at a step other than the initial one. -/
example : (wolfe defaultParams parabolaRay (codeInterp parabolaRay) 5 (Search.start 1 0 0)).map
    (fun r => (r.status, r.step, r.gradAt)) = some (.success, 1 / 12, some (1 / 12)) := by
  decide +kernel

/-- The hypothesis of `C15_armijo_finds_step` for `6t² - t`: all steps up to 1/10. -/
example : ∀ t : Rat, 0 < t → t ≤ 1 / 10 →
    parabolaRay.phi t ≤ parabolaRay.f0 + defaultParams.alpha * t * parabolaRay.slope := by
  intro t h0 h1
  simp only [parabolaRay, defaultParams]
  nlinarith

/-- The hypothesis of `C17_weak_wolfe_terminates` about the first reduction holds by definition for
the code's formula. -/
example (a b f2 : Rat) : (codeInterp parabolaRay).wolfeStep 1 f2 a b =
    -parabolaRay.slope * 1 * 1 / 2 / (f2 - parabolaRay.f0 - parabolaRay.slope * 1) := rfl

end Verif.Solver
