import Verif.Solver.ObjectRefine
import Mathlib.Analysis.SpecialFunctions.Pow.Real
import Mathlib.Analysis.Calculus.Deriv.Pow
import Mathlib.Analysis.Calculus.Deriv.Mul
import Mathlib.Analysis.Calculus.Deriv.Add
import Verif.Solver.ObjectSearch
import Mathlib.Tactic.FieldSimp
import Mathlib.Tactic.Ring
import Mathlib.Tactic.LinearCombination

/-!
# C156: the interpolated trial steps minimise the interpolating polynomials

When a trial step of the Armijo or of the Wolfe search fails, the next one is computed by interpolation: from the
value and the slope at 0 and the last one or two trial values. The formulas in the code give the minimiser of the
interpolating parabola or a minimiser of the interpolating cubic, whatever the data; the step is then kept within a
fraction of the last one.
-/

namespace Verif.Obj

variable {X E M : Type} {env : Env ℝ X E}

/-- The cubic with value `f0` and slope `s` at 0. -/
def cubicPoly (f0 s b a t : ℝ) : ℝ := f0 + s * t + b * t ^ 2 + a * t ^ 3

theorem cubicPoly_deriv (f0 s b a t : ℝ) : deriv (cubicPoly f0 s b a) t = s + 2 * b * t + 3 * a * t ^ 2 := by
  have h : HasDerivAt (cubicPoly f0 s b a) (s * 1 + b * (2 * t ^ 1 * 1) + a * (3 * t ^ 2 * 1)) t := by
    have h1 := (hasDerivAt_id t)
    have := (((hasDerivAt_const t f0).add (h1.const_mul s)).add ((h1.pow 2).const_mul b)).add ((h1.pow 3).const_mul a)
    refine (this.congr_deriv ?_).congr_of_eventuallyEq (Filter.Eventually.of_forall fun x => ?_)
    · simp
    · simp [cubicPoly]
  rw [h.deriv]; ring

/-- The root of the derivative that the code takes. -/
theorem cubic_root {s b a : ℝ} (ha : a ≠ 0) (hd : 0 ≤ b ^ 2 - 3 * a * s) :
    let t := (-b + Real.sqrt (b ^ 2 - 3 * a * s)) / (3 * a)
    s + 2 * b * t + 3 * a * t ^ 2 = 0 ∧ 2 * b + 6 * a * t = 2 * Real.sqrt (b ^ 2 - 3 * a * s) := by
  intro t
  have hs := Real.sq_sqrt hd
  have ht : 3 * a * t = -b + Real.sqrt (b ^ 2 - 3 * a * s) := by
    simp only [t]; field_simp
  refine ⟨?_, by linear_combination 2 * ht⟩
  have h3 : (3 * a) * (s + 2 * b * t + 3 * a * t ^ 2) = 0 := by
    have : (3 * a * t) ^ 2 = (-b + Real.sqrt (b ^ 2 - 3 * a * s)) ^ 2 := by rw [ht]
    linear_combination this + 2 * b * ht + hs
  rcases mul_eq_zero.mp h3 with h | h
  · exact absurd h (by positivity)
  · exact h

/-- A point where the derivative of the cubic vanishes: the values within a distance given by the second derivative are
not smaller. -/
theorem cubic_localMin {f0 s b a t : ℝ} (h1 : s + 2 * b * t + 3 * a * t ^ 2 = 0) (u : ℝ)
    (hu : |a| * |u - t| ≤ b + 3 * a * t) : cubicPoly f0 s b a t ≤ cubicPoly f0 s b a u := by
  have e : cubicPoly f0 s b a u - cubicPoly f0 s b a t = (u - t) ^ 2 * ((b + 3 * a * t) + a * (u - t)) := by
    unfold cubicPoly; linear_combination (u - t) * h1
  have h3 : -(|a| * |u - t|) ≤ a * (u - t) := by rw [← abs_mul]; exact neg_abs_le _
  have : 0 ≤ (u - t) ^ 2 * ((b + 3 * a * t) + a * (u - t)) := mul_nonneg (sq_nonneg _) (by linarith)
  linarith

theorem lits (X0 : env.Exact) : env.lit 1 1 = 1 ∧ env.lit (-1) 1 = -1 ∧ env.lit 3 1 = 3 ∧ env.lit 2 1 = 2 ∧
    env.lit 0 1 = 0 ∧ env.lit 1 2 = 1 / 2 ∧ env.lit 1 100 = 1 / 100 := by
  simp only [X0.lit]; norm_num

/-- The coefficients the Armijo search computes are those of the interpolating cubic. -/
theorem armijo_coeffs {pre pre2 f2 f2pre f1 s a b : ℝ} (h1 : pre ≠ 0) (h2 : pre2 ≠ 0) (hne : pre ≠ pre2)
    (hi : cubicPoly f1 s b a pre = f2) (hi2 : cubicPoly f1 s b a pre2 = f2pre) :
    (1 / pre / pre * (f2 - f1 - s * pre) + -1 / pre2 / pre2 * (f2pre - f1 - s * pre2)) / (pre - pre2) = a ∧
    (-pre2 / pre / pre * (f2 - f1 - s * pre) + pre / pre2 / pre2 * (f2pre - f1 - s * pre2)) / (pre - pre2) = b := by
  have hc : pre - pre2 ≠ 0 := sub_ne_zero.mpr hne
  subst hi; subst hi2
  unfold cubicPoly
  constructor <;> rw [div_eq_iff hc] <;> field_simp <;> ring

theorem cubicStep_eq (X0 : env.Exact) (hq : ∀ v, 0 ≤ v → env.sqrt v = Real.sqrt v) {pre pre2 f2 f2pre f1 s a b : ℝ}
    (h1 : pre ≠ 0) (h2 : pre2 ≠ 0) (hne : pre ≠ pre2) (hi : cubicPoly f1 s b a pre = f2)
    (hi2 : cubicPoly f1 s b a pre2 = f2pre) (hd : 0 ≤ b ^ 2 - 3 * a * s) :
    cubicStep env pre pre2 f2pre f2 f1 s = (-b + Real.sqrt (b ^ 2 - 3 * a * s)) / (3 * a) := by
  obtain ⟨l1, l2, l3, -, -, -, -⟩ := lits X0
  obtain ⟨ca, cb⟩ := armijo_coeffs h1 h2 hne hi hi2
  simp only [cubicStep, l1, l2, l3, ca, cb]
  rw [hq _ (by linarith [hd, sq b]), div_div, sq]

/-- **C156, Armijo search, later trials**: let the cubic with the value and slope at 0 take the last two trial values.
If its derivative has a root, the interpolated step is a root, and the cubic has a minimum there: its value is not
larger than at any point within an explicit distance. -/
theorem C156_cubic (X0 : env.Exact) (hq : ∀ v, 0 ≤ v → env.sqrt v = Real.sqrt v) {pre pre2 f2 f2pre f1 s a b : ℝ}
    (h1 : pre ≠ 0) (h2 : pre2 ≠ 0) (hne : pre ≠ pre2) (hi : cubicPoly f1 s b a pre = f2)
    (hi2 : cubicPoly f1 s b a pre2 = f2pre) (ha : a ≠ 0) (hd : 0 ≤ b ^ 2 - 3 * a * s) :
    deriv (cubicPoly f1 s b a) (cubicStep env pre pre2 f2pre f2 f1 s) = 0 ∧
    ∀ u, |a| * |u - cubicStep env pre pre2 f2pre f2 f1 s| ≤ Real.sqrt (b ^ 2 - 3 * a * s) →
      cubicPoly f1 s b a (cubicStep env pre pre2 f2pre f2 f1 s) ≤ cubicPoly f1 s b a u := by
  rw [cubicStep_eq X0 hq h1 h2 hne hi hi2 hd, cubicPoly_deriv]
  obtain ⟨r1, r2⟩ := cubic_root ha hd
  exact ⟨r1, fun u hu => cubic_localMin r1 u (by linarith)⟩

/-- **C156, descent directions**: if the slope is negative and the leading coefficient positive, the interpolated step is
positive and minimises the cubic over all steps that are not negative. -/
theorem C156_cubic_global (X0 : env.Exact) (hq : ∀ v, 0 ≤ v → env.sqrt v = Real.sqrt v)
    {pre pre2 f2 f2pre f1 s a b : ℝ} (h1 : pre ≠ 0) (h2 : pre2 ≠ 0) (hne : pre ≠ pre2)
    (hi : cubicPoly f1 s b a pre = f2) (hi2 : cubicPoly f1 s b a pre2 = f2pre) (ha : 0 < a) (hs : s < 0) :
    0 < cubicStep env pre pre2 f2pre f2 f1 s ∧
    ∀ u, 0 ≤ u → cubicPoly f1 s b a (cubicStep env pre pre2 f2pre f2 f1 s) ≤ cubicPoly f1 s b a u := by
  have hneg : 0 < -(3 * a * s) := by nlinarith [mul_pos ha (neg_pos.mpr hs)]
  have hd : 0 < b ^ 2 - 3 * a * s := by nlinarith [sq_nonneg b]
  rw [cubicStep_eq X0 hq h1 h2 hne hi hi2 hd.le]
  obtain ⟨r1, r2⟩ := cubic_root ha.ne' hd.le
  set t := (-b + Real.sqrt (b ^ 2 - 3 * a * s)) / (3 * a) with ht
  have hsq : |b| < Real.sqrt (b ^ 2 - 3 * a * s) := by
    rw [← Real.sqrt_sq_eq_abs]; exact Real.sqrt_lt_sqrt (sq_nonneg _) (by linarith)
  have htp : 0 < t := div_pos (by linarith [le_abs_self b]) (by positivity)
  refine ⟨htp, fun u hu => ?_⟩
  have e : cubicPoly f1 s b a u - cubicPoly f1 s b a t = (u - t) ^ 2 * ((b + 3 * a * t) + a * (u - t)) := by
    unfold cubicPoly; linear_combination (u - t) * r1
  have h3 : 0 ≤ (b + 3 * a * t) + a * (u - t) := by
    have : 0 ≤ b + 2 * a * t := by
      have h4 : 0 < t * (2 * b + 3 * a * t) := by nlinarith
      have h5 : 0 < 2 * b + 3 * a * t := (pos_iff_pos_of_mul_pos h4).mp htp
      nlinarith [mul_pos ha htp]
    nlinarith [mul_nonneg ha.le hu]
  have := mul_nonneg (sq_nonneg (u - t)) h3
  linarith

/-- **C156, first interpolation** of the Armijo and of the Wolfe search: the formula gives the minimiser of the parabola with
the value and slope at 0 and the trial value, if that parabola is strictly convex. -/
theorem C156_parabola {f0 s c L f2 : ℝ} (hL : L ≠ 0) (hi : cubicPoly f0 s c 0 L = f2) (hc : 0 < c) :
    -s * L * L / 2 / (f2 - f0 - s * L) = -s / (2 * c) ∧
    ∀ u, cubicPoly f0 s c 0 (-s * L * L / 2 / (f2 - f0 - s * L)) ≤ cubicPoly f0 s c 0 u := by
  have e : f2 - f0 - s * L = c * L ^ 2 := by rw [← hi]; unfold cubicPoly; ring
  have e2 : -s * L * L / 2 / (f2 - f0 - s * L) = -s / (2 * c) := by rw [e]; field_simp
  refine ⟨e2, fun u => ?_⟩
  rw [e2]
  have : cubicPoly f0 s c 0 u - cubicPoly f0 s c 0 (-s / (2 * c)) = c * (u + s / (2 * c)) ^ 2 := by
    unfold cubicPoly; field_simp; ring
  nlinarith [mul_nonneg hc.le (sq_nonneg (u + s / (2 * c)))]

/-- **C156, first interpolation after a failed test**: with a negative slope and `α < 1` the parabola is strictly
convex, and its minimiser lies between 0 and the fraction `1 / (2 (1 - α))` of the failed step. -/
theorem C156_parabola_range {f0 s α L f2 : ℝ} (hL : 0 < L) (hs : s < 0) (hα : α < 1)
    (hfail : f0 - f2 < -α * s * L) :
    0 < f2 - f0 - s * L ∧ 0 < -s * L * L / 2 / (f2 - f0 - s * L) ∧
      -s * L * L / 2 / (f2 - f0 - s * L) < L / (2 * (1 - α)) := by
  have hsL : 0 < -(s * L) := by nlinarith [mul_pos (neg_pos.mpr hs) hL]
  have h1 : (1 - α) * -(s * L) < f2 - f0 - s * L := by nlinarith
  have h0 : 0 < f2 - f0 - s * L := lt_trans (mul_pos (by linarith) hsL) h1
  refine ⟨h0, by apply div_pos _ h0; nlinarith [mul_pos hsL hL], ?_⟩
  rw [div_lt_div_iff₀ h0 (by linarith)]
  nlinarith [mul_lt_mul_of_pos_left h1 hL]

/-- **C156, Wolfe search, first trial**: after the initial step fails, the next step is the minimiser of the parabola, but at least
one hundredth of the step. -/
theorem C156_wolfe_first (X0 : env.Exact) (o : Obj ℝ X E M) (pre fpre : ℝ) (he : o.stepsize = o.initiallength)
    {c : ℝ} (hL : o.stepsize ≠ 0) (hc : 0 < c) (hi : cubicPoly o.f1 o.initialslope c 0 o.stepsize = o.f2) :
    wBack env pre fpre o = max (o.stepsize / 100) (-o.initialslope / (2 * c)) := by
  obtain ⟨-, -, -, l2, -, -, l100⟩ := lits X0
  have hp := (C156_parabola hL hi hc).1
  simp only [wBack, X0.eq, X0.le, l2, l100, he, decide_true, if_true]
  rw [he] at hp
  rw [hp, show (1 : ℝ) / 100 * o.initiallength = o.initiallength / 100 by ring, max_comm, max_def]
  simp only [decide_eq_true_eq]

/-- **C156, Wolfe search, later trials**: with `a`, `b` the coefficients of the cubic through the last two trial values, the next
step is between one hundredth and one half of the last one, and as close as that permits to: a root of the derivative
of the cubic, if it has one and `|a| ≥ 1e-10`; its inflection point, if the derivative has no root; the stationary point
of its quadratic part, if `|a| < 1e-10`. -/
theorem C156_wolfe (X0 : env.Exact) (hq : ∀ v, 0 ≤ v → env.sqrt v = Real.sqrt v) (o : Obj ℝ X E M) {pre fpre a b : ℝ}
    (hne0 : o.stepsize ≠ o.initiallength) (h1 : 0 < o.stepsize) (h2 : pre ≠ 0) (hne : o.stepsize ≠ pre)
    (hi : cubicPoly o.f1 o.initialslope b a o.stepsize = o.f2) (hi2 : cubicPoly o.f1 o.initialslope b a pre = fpre) :
    ∃ t, wBack env pre fpre o = max (o.stepsize / 100) (min (o.stepsize / 2) t) ∧
      (1 / 10 ^ 10 ≤ |a| → 0 ≤ b ^ 2 - 3 * a * o.initialslope →
        deriv (cubicPoly o.f1 o.initialslope b a) t = 0 ∧
        ∀ u, |a| * |u - t| ≤ Real.sqrt (b ^ 2 - 3 * a * o.initialslope) →
          cubicPoly o.f1 o.initialslope b a t ≤ cubicPoly o.f1 o.initialslope b a u) ∧
      (1 / 10 ^ 10 ≤ |a| → b ^ 2 - 3 * a * o.initialslope < 0 → 2 * b + 6 * a * t = 0) ∧
      (|a| < 1 / 10 ^ 10 → b ≠ 0 → o.initialslope + 2 * b * t = 0) := by
  obtain ⟨l1, -, l3, l2, l0, l12, l100⟩ := lits X0
  have le10 : env.lit 1 10000000000 = 1 / 10 ^ 10 := by rw [X0.lit]; norm_num
  have hc : o.stepsize - pre ≠ 0 := sub_ne_zero.mpr hne
  set s := o.initialslope with hs
  set T := o.stepsize with hT
  have ca : 1 / T / T * ((o.f2 - o.f1 - T * s) / (T - pre)) - 1 / pre / pre * ((fpre - o.f1 - pre * s) / (T - pre)) = a := by
    rw [← hi, ← hi2]; unfold cubicPoly; field_simp; ring
  have cb : -pre * (1 / T / T) * ((o.f2 - o.f1 - T * s) / (T - pre)) +
      T * (1 / pre / pre) * ((fpre - o.f1 - pre * s) / (T - pre)) = b := by
    rw [← hi, ← hi2]; unfold cubicPoly; field_simp; ring
  refine ⟨if |a| < 1 / 10 ^ 10 then -s / 2 / b else (-b + Real.sqrt (max 0 (b ^ 2 - 3 * a * s))) / (3 * a), ?_, ?_, ?_, ?_⟩
  · simp only [wBack, X0.eq, X0.le, X0.lt, X0.abs, l1, l2, l3, l0, l12, l100, le10, ← hs, ← hT, hne0, decide_false,
      Bool.false_eq_true, if_false, ca, cb, decide_eq_true_eq]
    have hdisc : (if b * b - 3 * a * s < 0 then 0 else b * b - 3 * a * s) = max 0 (b ^ 2 - 3 * a * s) := by
      rw [max_def, ← sq]
      by_cases h : b ^ 2 - 3 * a * s < 0
      · simp [h, not_le.mpr h]
      · simp [h, not_lt.mp h]
    rw [hdisc, hq _ (le_max_left _ _), div_div (-b + _)]
    generalize (if |a| < 1 / 10 ^ 10 then -s / 2 / b else (-b + Real.sqrt (max 0 (b ^ 2 - 3 * a * s))) / (3 * a)) = t
    rw [show (1 : ℝ) / 2 * T = T / 2 by ring, show (1 : ℝ) / 100 * T = T / 100 by ring]
    have hmin : (if T / 2 < t then T / 2 else t) = min (T / 2) t := by
      rw [min_def]
      rcases lt_trichotomy (T / 2) t with h | h | h
      · simp [h, h.le]
      · simp [h]
      · simp [h.le.not_gt, not_le.mpr h]
    rw [hmin, max_comm, max_def]
  · intro ha hd
    have ha0 : a ≠ 0 := by rintro rfl; norm_num at ha
    rw [if_neg (not_lt.mpr ha), max_eq_right hd, cubicPoly_deriv]
    obtain ⟨r1, r2⟩ := cubic_root ha0 hd
    exact ⟨r1, fun u hu => cubic_localMin r1 u (by linarith)⟩
  · intro ha hd
    have ha0 : a ≠ 0 := by rintro rfl; norm_num at ha
    rw [if_neg (not_lt.mpr ha), max_eq_left hd.le, Real.sqrt_zero]
    field_simp; ring
  · intro ha hb
    rw [if_pos ha]
    field_simp; ring

/-- **C156, quadratic objectives**: if the objective along the search direction is a strictly convex parabola whose minimiser lies
between `LS_ratio1` and `LS_ratio2` times the initial step, and the initial step fails the monotone test with `LS_alpha ≤ 1/2`, the
Armijo search succeeds with the second trial, at the minimiser: no step gives a smaller value. -/
theorem C156_quadratic (X0 : env.Exact) (cfg : Cfg ℝ X E) (o : Obj ℝ X E M) {c : ℝ} (hr : cfg.ratio1 < cfg.ratio2)
    (hpre : (o.preFuns.dropLast).take cfg.numPreFuns = []) (hα : cfg.alpha ≤ 1 / 2) (hc : 0 < c)
    (hL : 0 < o.stepsize)
    (hf : ∀ t, env.f (env.retr o.x1 (env.smul t o.eta1)) = cubicPoly o.f1 o.initialslope c 0 t)
    (hlo : cfg.ratio1 * o.stepsize ≤ -o.initialslope / (2 * c)) (hhi : -o.initialslope / (2 * c) ≤ cfg.ratio2 * o.stepsize)
    (hfail : o.f1 - cubicPoly o.f1 o.initialslope c 0 o.stepsize < -cfg.alpha * o.initialslope * o.stepsize) (n : Nat) :
    ∃ r, armijo env cfg (n + 1) o = some r ∧ r.status = .success ∧ r.stepsize = -o.initialslope / (2 * c) ∧
      r.f2 = env.f r.x2 ∧ (∀ t, r.f2 ≤ env.f (env.retr o.x1 (env.smul t o.eta1))) ∧ r.cnt.nf = o.cnt.nf + 2 := by
  obtain ⟨-, -, -, l2, -, -, -⟩ := lits X0
  obtain ⟨p1, p2⟩ := C156_parabola (f0 := o.f1) (s := o.initialslope) hL.ne' rfl hc
  have hclamp : clampStep env cfg (-o.initialslope / (2 * c)) o.stepsize = -o.initialslope / (2 * c) := by
    simp only [clampStep, X0.lt, decide_eq_true_eq]
    have e : (if -o.initialslope / (2 * c) < cfg.ratio2 * o.stepsize then -o.initialslope / (2 * c)
        else cfg.ratio2 * o.stepsize) = -o.initialslope / (2 * c) := by
      by_cases h : -o.initialslope / (2 * c) < cfg.ratio2 * o.stepsize
      · rw [if_pos h]
      · rw [if_neg h]; exact le_antisymm (not_lt.mp h) hhi
    rw [e]
    by_cases h : cfg.ratio1 * o.stepsize < -o.initialslope / (2 * c)
    · rw [if_pos h]
    · rw [if_neg h]; exact le_antisymm hlo (not_lt.mp h)
  have hpass : ¬ (o.f1 - cubicPoly o.f1 o.initialslope c 0 (-o.initialslope / (2 * c)) <
      -cfg.alpha * o.initialslope * (-o.initialslope / (2 * c))) := by
    have e : o.f1 - cubicPoly o.f1 o.initialslope c 0 (-o.initialslope / (2 * c)) = 1 / 2 * (o.initialslope ^ 2 / (2 * c)) := by
      unfold cubicPoly; field_simp; ring
    have e2 : -cfg.alpha * o.initialslope * (-o.initialslope / (2 * c)) = cfg.alpha * (o.initialslope ^ 2 / (2 * c)) := by
      field_simp
    rw [e, e2, not_lt]
    exact mul_le_mul_of_nonneg_right hα (by positivity)
  unfold armijo
  simp only [X0.le, not_le.mpr hr, decide_false, Bool.false_eq_true, if_false, maxpref, h, hpre, List.foldl_nil,
    armijoFails, X0.lt, hf, hfail, decide_true, if_true, l2, p1, hclamp, interpLoop, hpass]
  refine ⟨_, rfl, rfl, rfl, ?_, ?_, rfl⟩
  · simp [gradX2, hf]
  · intro t
    have := p2 t
    rw [p1] at this
    simpa [gradX2] using this

/-! ## Examples -/

/-- The real line with the cost `f`. -/
noncomputable def interpEnv (f : ℝ → ℝ) : Env ℝ ℝ ℝ where
  lit n d := (n : ℝ) / (d : ℝ)
  lt a b := decide (a < b)
  le a b := decide (a ≤ b)
  eq a b := decide (a = b)
  sqrt := Real.sqrt
  abs a := |a|
  finite _ := true
  inf := 0
  eps := 1 / 2 ^ 52
  f := f
  grad := deriv f
  precond _ v := v
  metric _ u v := u * v
  retr x v := x + v
  dretr _ _ _ v := v
  transport _ _ _ v := v
  smul a v := a * v
  lin a u b v := a * u + b * v

theorem interpEnv_exact (f : ℝ → ℝ) : (interpEnv f).Exact := by constructor <;> intros <;> rfl

/-- The cubic `1 - 2 t - t² + 3 t³` seen at the steps 1 and 2: the next trial is a root of its derivative and minimises it over
the steps that are not negative. -/
example : 0 < cubicStep (interpEnv id) 1 2 17 1 1 (-2) ∧
    ∀ u, 0 ≤ u → cubicPoly 1 (-2) (-1) 3 (cubicStep (interpEnv id) 1 2 17 1 1 (-2)) ≤ cubicPoly 1 (-2) (-1) 3 u :=
  C156_cubic_global (interpEnv_exact _) (fun _ _ => rfl) (by norm_num) (by norm_num) (by norm_num)
    (by norm_num [cubicPoly]) (by norm_num [cubicPoly]) (by norm_num) (by norm_num)

/-- A failed step of length 1 with value 3, from value 1 and slope -2: the parabola `1 - 2 t + 4 t²` has its minimum at 1/4. -/
example : -(-2) * 1 * 1 / 2 / (3 - 1 - (-2) * 1) = (1 / 4 : ℝ) := by norm_num

noncomputable def interpCfg : Cfg ℝ ℝ ℝ where
  initstep := 1
  maxIter := 10
  minIter := 0
  tol := 1
  accuracy := 0
  finalstep := -1
  alpha := 1 / 10
  ratio1 := 1 / 10
  ratio2 := 9 / 10
  minstep := 1 / 1000
  numPreFuns := 1
  preFunsAcc := 1
  numPreBB := 0
  bbRatio := 1
  initType := .one
  search := .armijo
  stop := .gradF

/-- The cost `1 - 2 t + 4 t²` along the direction 1 from 0, initial step 1. -/
noncomputable def interpObj : Obj ℝ ℝ ℝ Unit where
  x1 := 0
  x2 := 0
  f1 := 1
  f2 := 0
  gf1 := -2
  gf2 := 0
  eta1 := 1
  eta2 := 0
  ngf0 := 2
  ngf1 := 2
  ngf2 := 0
  stepsize := 1
  initiallength := 1
  initialslope := -2
  initialslopepre := -2
  newslope := 0
  iter := 0
  preFuns := []
  preBBs := []
  status := .success
  series := []
  lengthSeries := 0
  cnt := ⟨0, 0, 0, 0, 0⟩
  own := ()

/-- The search succeeds at 1/4 with two evaluations of the cost. -/
example : ∃ r, armijo (interpEnv fun x => 1 - 2 * x + 4 * x ^ 2) interpCfg 1 interpObj = some r ∧ r.stepsize = 1 / 4 ∧
    r.cnt.nf = 2 := by
  obtain ⟨r, h1, -, h3, -, -, h6⟩ := C156_quadratic (interpEnv_exact fun x => 1 - 2 * x + 4 * x ^ 2) interpCfg interpObj (c := 4)
    (by norm_num [interpCfg]) (by simp [interpObj]) (by norm_num [interpCfg]) (by norm_num) (by norm_num [interpObj])
    (by intro t; simp only [interpEnv, interpObj, cubicPoly]; ring) (by norm_num [interpCfg, interpObj])
    (by norm_num [interpCfg, interpObj]) (by norm_num [interpCfg, interpObj, cubicPoly]) 0
  exact ⟨r, h1, by rw [h3]; norm_num [interpObj], by rw [h6]; rfl⟩

/-- The Wolfe search after the failed initial step 1: the next step is 1/4. -/
example : wBack (interpEnv id) 0 0 { interpObj with f2 := 3 } = 1 / 4 := by
  rw [C156_wolfe_first (interpEnv_exact _) _ _ _ rfl (c := 4) (by norm_num [interpObj]) (by norm_num)
    (by norm_num [interpObj, cubicPoly])]
  norm_num [interpObj]

/-- A later trial of the Wolfe search: the cubic of the first example with the initial step 4. -/
example : ∃ t, wBack (interpEnv id) 2 17 { interpObj with f2 := 1, initiallength := 4 } = max (1 / 100) (min (1 / 2) t) ∧
    deriv (cubicPoly 1 (-2) (-1) 3) t = 0 := by
  obtain ⟨t, h1, h2, -⟩ := C156_wolfe (interpEnv_exact id) (fun _ _ => rfl) { interpObj with f2 := 1, initiallength := 4 }
    (pre := 2) (fpre := 17) (a := 3) (b := -1) (by norm_num [interpObj]) (by norm_num [interpObj]) (by norm_num)
    (by norm_num [interpObj]) (by norm_num [interpObj, cubicPoly]) (by norm_num [interpObj, cubicPoly])
  exact ⟨t, by simpa [interpObj] using h1, (h2 (by norm_num) (by norm_num [interpObj])).1⟩

end Verif.Obj
