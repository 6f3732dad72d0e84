import Verif.Props.PGRun

/-!
# C158: the adaptive weights of ManPG (`LSPG_ADALIPSCHITZ`, the default)
-/

set_option linter.unusedSectionVars false
set_option linter.unusedVariables false

namespace Verif.Obj

variable {K : Type} {X E : Type*} [Field K] [LinearOrder K] [IsStrictOrderedRing K]
variable {env : PGEnv K X E} {cfg : PGCfg K X}

/-! ## The factor stays in (0, 1] -/

theorem pgAda_range (X0 : env.toEnv.Exact) (b : Bool) {a : K} (h0 : 0 < a) (h1 : a ≤ 1) : 0 < pgAda env cfg b a ∧ pgAda env cfg b a ≤ 1 := by
  have e : env.lit 101 100 = 101 / 100 := by rw [X0.lit]; norm_num
  have e1 : env.lit 1 1 = 1 := by rw [X0.lit]; norm_num
  unfold pgAda
  rw [e, e1, X0.lt]
  by_cases hc : cfg.adaptive = true
  · rw [if_pos hc]
    by_cases hb : b = true
    · rw [if_pos hb]
      exact ⟨by positivity, by rw [div_le_one (by norm_num)]; linarith⟩
    · rw [if_neg hb]
      by_cases hl : a * (101 / 100) < 1
      · rw [if_pos (decide_eq_true hl)]; exact ⟨by positivity, hl.le⟩
      · rw [if_neg (by simpa using hl)]; exact ⟨one_pos, le_rfl⟩
  · rw [if_neg hc]; exact ⟨h0, h1⟩

/-- What a pass does to the factor. -/
theorem pgPass_ada (n : Nat) (st : Bool) (o : PGObj K X E) :
    (∀ s, pgPass env cfg n st o = .leave s → s.kept.ada = o.kept.ada ∨ ∃ b, s.kept.ada = pgAda env cfg b o.kept.ada) ∧
    ∀ c s, pgPass env cfg n st o = .next c s → s.kept.ada = o.kept.ada ∨ ∃ b, s.kept.ada = pgAda env cfg b o.kept.ada := by
  unfold pgPass
  cases hp : env.prox o.x1 o.gf1 o.kept.ada o.kept.smTol o.kept.smLam (pgDual env o.kept) with
  | none => exact ⟨fun _ h => by simp at h, fun _ _ h => by simp at h⟩
  | some r =>
    obtain ⟨e, d, i, c⟩ := r
    simp only
    cases hs : pgBacktrack env cfg o.x1 o.f1 (env.metric o.x1 o.gf1 e) e n (pgTrial env o.x1 e (env.lit 1 1) 0) with
    | none => exact ⟨fun _ h => by simp at h, fun _ _ h => by simp at h⟩
    | some s =>
      simp only
      by_cases hok : (!s.ok) = true
      · rw [if_pos hok]
        split
        · exact ⟨fun _ h => by obtain rfl := PGPass.leave.inj h; exact .inl rfl, fun _ _ h => by simp at h⟩
        · exact ⟨fun _ h => by simp at h, fun _ _ h => by obtain ⟨-, rfl⟩ := PGPass.next.inj h; exact .inl rfl⟩
      · rw [if_neg hok]
        split
        · exact ⟨fun _ h => by obtain rfl := PGPass.leave.inj h; exact .inr ⟨_, rfl⟩, fun _ _ h => by simp at h⟩
        · exact ⟨fun _ h => by simp at h, fun _ _ h => by obtain ⟨-, rfl⟩ := PGPass.next.inj h; exact .inr ⟨_, rfl⟩⟩

/-- **C158, range.** A run leaves the factor on the weights in (0, 1] if it was there before: the weights of the subproblem are never above those the problem supplies. -/
theorem C158_range (X0 : env.toEnv.Exact) (n : Nat) (o r : PGObj K X E) (h0 : 0 < o.kept.ada) (h1 : o.kept.ada ≤ 1) (h : pgRun env cfg n o = .done r) : 0 < r.kept.ada ∧ r.kept.ada ≤ 1 := by
  have key : ∀ n st (o r : PGObj K X E), 0 < o.kept.ada → o.kept.ada ≤ 1 → pgLoop env cfg n st o = .done r → 0 < r.kept.ada ∧ r.kept.ada ≤ 1 := by
    intro n
    induction n with
    | zero => intro st o r _ _ h; simp [pgLoop] at h
    | succ n ih =>
      intro st o r h0 h1 h
      unfold pgLoop at h
      split at h
      · have hp := pgPass_ada (env := env) (cfg := cfg) (n + 1) st o
        split at h
        · simp at h
        · simp at h
        · next s hs =>
          obtain rfl := PGOut.done.inj h
          rcases hp.1 _ hs with e | ⟨b, e⟩
          · show 0 < s.kept.ada ∧ s.kept.ada ≤ 1
            rw [e]; exact ⟨h0, h1⟩
          · show 0 < s.kept.ada ∧ s.kept.ada ≤ 1
            rw [e]; exact pgAda_range X0 b h0 h1
        · next c s hs =>
          rcases hp.2 _ _ hs with e | ⟨b, e⟩
          · exact ih _ _ _ (by rw [e]; exact h0) (by rw [e]; exact h1) h
          · have := pgAda_range (cfg := cfg) X0 b h0 h1
            exact ih _ _ _ (by rw [e]; exact this.1) (by rw [e]; exact this.2) h
      · obtain rfl := PGOut.done.inj h; exact ⟨h0, h1⟩
  unfold pgRun at h
  exact key _ _ (pgPrologue env o) _ h0 h1 h

/-! ## A pass with a full step -/

/-- The object after a pass whose full step is accepted. -/
theorem pgPass_full (X0 : env.toEnv.Exact) (n : Nat) (st : Bool) (o : PGObj K X E) {eta : E} {d : List K} {i c : Nat} (hprox : env.prox o.x1 o.gf1 o.kept.ada o.kept.smTol o.kept.smLam (pgDual env o.kept) = some (eta, d, i, c))
    (hacc : o.f1 - env.f (curve env o.x1 eta 1) ≥ -cfg.alpha * env.metric o.x1 o.gf1 eta) (hfin : ∀ a, env.finite a = true) (had : cfg.adaptive = true) (hstop : cfg.stop = .gradF)
    (htol : cfg.tol ≤ env.sqrt (env.metric o.x2 eta eta)) :
    ∃ o', pgPass env cfg (n + 1) st o = .next false o' ∧ o'.x1 = curve env o.x1 eta 1 ∧ o'.f1 = env.f (curve env o.x1 eta 1) ∧ o'.gf1 = env.grad (curve env o.x1 eta 1) ∧ o'.iter = o.iter + 1 ∧ o'.kept.ada = o.kept.ada / (101 / 100) ∧
      o'.series = (env.f (curve env o.x1 eta 1), env.sqrt (env.metric o.x2 eta eta), 1) :: o.series := by
  have e : env.lit 101 100 = 101 / 100 := by rw [X0.lit]; norm_num
  have e1 : env.lit 1 1 = 1 := by rw [X0.lit]; norm_num
  have hb : pgBacktrack env cfg o.x1 o.f1 (env.metric o.x1 o.gf1 eta) eta (n + 1) (pgTrial env o.x1 eta (env.lit 1 1) 0) = some (pgTrial env o.x1 eta 1 0) := by
    rw [e1]
    unfold pgBacktrack
    rw [if_neg]
    rw [X0.lt]
    simp only [pgTrial, mul_one, decide_eq_true_eq, not_lt]
    exact hacc
  unfold pgPass
  rw [hprox]
  simp only [hb]
  simp only [pgTrial, Bool.not_true, Bool.false_eq_true, if_false, hfin, e1, X0.eq, decide_true, pgAda, had, if_true, e]
  have key : ∀ {b : Bool} {s : PGObj K X E} (P : PGObj K X E → Prop), b = false → P s → ∃ o', PGPass.next b s = PGPass.next false o' ∧ P o' := fun P h1 h2 => ⟨_, by rw [h1], h2⟩
  apply key
  · unfold pgStopped
    rw [hstop]
    simp only [X0.lt]
    simpa using htol
  · exact ⟨rfl, rfl, rfl, rfl, rfl, rfl⟩

/-! ## A run that raises the cost -/

/-- The convex function `e² / 2` for `|e| ≤ 1`, `|e| - 1/2` beyond. -/
noncomputable def huber (e : ℝ) : ℝ := if |e| ≤ 1 then e * e / 2 else |e| - 1 / 2

/-- Its derivative. -/
noncomputable def clamp1 (e : ℝ) : ℝ := max (-1) (min 1 e)

/-- Soft thresholding. -/
noncomputable def soft (z t : ℝ) : ℝ := if t < z then z - t else if z < -t then z + t else 0

/-- The composite cost `huber (x - 1000) - 100 x + 100 |x|` on the line: a smooth part whose gradient has the Lipschitz constant 1 and a multiple of the absolute value. The problem supplies the weight 1; subproblems are solved exactly. -/
noncomputable def adaEnv : PGEnv ℝ ℝ ℝ where
  lit n d := (n : ℝ) / d
  lt a b := decide (a < b)
  le a b := decide (a ≤ b)
  eq a b := decide (a = b)
  sqrt := Real.sqrt
  abs a := |a|
  finite _ := true
  inf := 0
  eps := 1 / 2 ^ 52
  f x := huber (x - 1000) - 100 * x + 100 * |x|
  grad x := clamp1 (x - 1000) - 100
  precond _ v := v
  metric _ u v := u * v
  retr x v := x + v
  dretr _ _ _ v := v
  transport _ _ _ v := v
  smul a v := a * v
  lin a u b v := a * u + b * v
  dimNor := 0
  prox x g a _ _ d := some (soft (x - g / a) (100 / a) - x, d, 1, 1)

theorem exact_ada : adaEnv.toEnv.Exact where
  lt _ _ := rfl
  le _ _ := rfl
  eq _ _ := rfl
  lit _ _ := rfl
  abs _ := rfl

/-- The supplied weight 1 is large enough: it is a Lipschitz constant of the gradient of the smooth part, which lies below its quadratic models. -/
theorem C158_weight_fits (x y : ℝ) : |clamp1 x - clamp1 y| ≤ |x - y| ∧ huber y ≤ huber x + clamp1 x * (y - x) + 1 / 2 * (y - x) ^ 2 := by
  constructor
  · have h1 := abs_max_sub_max_le_abs (min 1 x) (min 1 y) (-1)
    have h2 := abs_min_sub_min_le_max 1 x 1 y
    simp only [sub_self, abs_zero] at h2
    rw [max_eq_right (abs_nonneg _)] at h2
    unfold clamp1
    rw [max_comm (-1), max_comm (-1)]
    exact h1.trans h2
  · unfold huber clamp1
    split_ifs with hy hx hx
    · rw [abs_le] at hx
      rw [min_eq_right hx.2, max_eq_right hx.1]
      nlinarith
    · rw [abs_le] at hy
      rcases lt_abs.mp (not_le.mp hx) with h | h
      · rw [min_eq_left h.le, max_eq_right (by norm_num), abs_of_pos (by linarith)]
        nlinarith [sq_nonneg (x - 1), mul_nonneg (sub_nonneg.mpr h.le) (sub_nonneg.mpr hy.2)]
      · rw [min_eq_right (by linarith), max_eq_left (by linarith), abs_of_neg (by linarith)]
        nlinarith [sq_nonneg (x + 1)]
    · rw [abs_le] at hx
      rw [min_eq_right hx.2, max_eq_right hx.1]
      rcases abs_cases y with ⟨h, _⟩ | ⟨h, _⟩ <;> rw [h]
      · nlinarith [sq_nonneg (y - 1)]
      · nlinarith [sq_nonneg (y + 1)]
    · rcases lt_abs.mp (not_le.mp hx) with h | h
      · rw [min_eq_left h.le, max_eq_right (by norm_num), abs_of_pos (show 0 < x by linarith)]
        rcases abs_cases y with ⟨h', _⟩ | ⟨h', _⟩ <;> rw [h']
        · nlinarith [sq_nonneg (y - x)]
        · nlinarith [sq_nonneg (y - x + 2)]
      · rw [min_eq_right (by linarith), max_eq_left (by linarith), abs_of_neg (show x < 0 by linarith)]
        rcases abs_cases y with ⟨h', _⟩ | ⟨h', _⟩ <;> rw [h']
        · nlinarith [sq_nonneg (y - x - 2)]
        · nlinarith [sq_nonneg (y - x)]

/-- The subproblem of the instance is solved exactly. -/
theorem C158_solved (x g a : ℝ) (ha : 0 < a) (u : ℝ) :
    let eta := soft (x - g / a) (100 / a) - x
    g * eta + a / 2 * eta ^ 2 + 100 * |x + eta| ≤ g * u + a / 2 * u ^ 2 + 100 * |x + u| := by
  intro eta
  have hy : x + eta = soft (x - g / a) (100 / a) := by simp only [eta]; ring
  obtain ⟨q, hq1, hq2, hq3⟩ : ∃ q : ℝ, |q| ≤ 100 ∧ q * (x + eta) = 100 * |x + eta| ∧ g + a * eta + q = 0 := by
    rw [hy]
    have e : a * (g / a) = g := by field_simp
    have e' : a * (100 / a) = 100 := by field_simp
    have ht : 0 < 100 / a := by positivity
    simp only [eta]
    unfold soft
    split_ifs with h1 h2
    · refine ⟨100, by norm_num, ?_, ?_⟩
      · rw [abs_of_pos (by linarith)]
      · linear_combination -e - e'
    · refine ⟨-100, by norm_num, ?_, ?_⟩
      · rw [abs_of_neg (by linarith)]; ring
      · linear_combination -e + e'
    · refine ⟨a * x - g, ?_, by simp, by ring⟩
      have e2 : a * x - g = a * (x - g / a) := by rw [mul_sub, e]
      rw [e2, abs_le]
      constructor
      · have := mul_le_mul_of_nonneg_left (not_lt.mp h2) ha.le; linarith
      · have := mul_le_mul_of_nonneg_left (not_lt.mp h1) ha.le; linarith
  have h1 : q * (x + u) ≤ 100 * |x + u| := (le_abs_self _).trans (by rw [abs_mul]; exact mul_le_mul_of_nonneg_right hq1 (abs_nonneg _))
  have hg : g = -(a * eta) - q := by linarith
  have h2 := mul_nonneg ha.le (sq_nonneg (u - eta))
  rw [← hq2, hg]
  nlinarith

/-- The default parameters (`SolversNSMPGLS.cpp:21-40`, `Solvers.cpp:55-64`) with `Max_Iteration` set to `m`. -/
noncomputable def adaCfg (m : Nat) : PGCfg ℝ ℝ := ⟨m, 0, 1 / 10000, 1 / 10000, 1 / 2, 2 / 100, true, .gradF⟩

/-- Distance to the minimiser 1000 after `k` full steps from 1101.2. -/
noncomputable def adaDist (k : Nat) : ℝ := 101.2 - 100 * ((101 / 100) ^ k - 1)

theorem adaDist_succ (k : Nat) : adaDist (k + 1) = adaDist k - (101 / 100) ^ k := by unfold adaDist; rw [pow_succ]; ring

theorem huber_mono {a b : ℝ} (h0 : 0 ≤ a) (h : a ≤ b) : huber a ≤ huber b := by
  unfold huber
  rw [abs_of_nonneg h0, abs_of_nonneg (h0.trans h)]
  split_ifs with h1 h2 h2
  · nlinarith
  · nlinarith
  · linarith
  · linarith

/-- State of the run after `k` full steps. -/
structure AdaAt (k : Nat) (o : PGObj ℝ ℝ ℝ) : Prop where
  x1 : o.x1 = 1000 + adaDist k
  f1 : o.f1 = adaEnv.f o.x1
  gf1 : o.gf1 = adaEnv.grad o.x1
  iter : o.iter = k
  ada : o.kept.ada = 1 / (101 / 100) ^ k
  head : ∃ d t l, o.series = (o.f1, d, t) :: l

theorem adaDist_lower {k : Nat} (hk : k ≤ 70) : 1 / 2 < adaDist k := by
  have h1 : ((101 : ℝ) / 100) ^ k ≤ (101 / 100) ^ 70 := pow_le_pow_right₀ (by norm_num) hk
  have h2 : ((101 : ℝ) / 100) ^ 70 < 2.0068 := by norm_num
  unfold adaDist
  linarith

theorem adaDist_far {k : Nat} (hk : k < 70) : 1 < adaDist k := by
  have h1 : ((101 : ℝ) / 100) ^ k ≤ (101 / 100) ^ 69 := pow_le_pow_right₀ (by norm_num) (by omega)
  have h2 : ((101 : ℝ) / 100) ^ 69 < 2 := by norm_num
  unfold adaDist
  linarith

theorem ada_value {e : ℝ} (h : -1000 < e) : adaEnv.f (1000 + e) = huber e := by
  show huber (1000 + e - 1000) - 100 * (1000 + e) + 100 * |1000 + e| = huber e
  rw [abs_of_pos (by linarith), add_sub_cancel_left]; ring

theorem ada_sqrt (x u : ℝ) : adaEnv.sqrt (adaEnv.metric x u u) = |u| := Real.sqrt_mul_self_eq_abs u

/-- A pass in the linear part. -/
theorem ada_step {m k n : Nat} (hk : k < 70) (st : Bool) {o : PGObj ℝ ℝ ℝ} (h : AdaAt k o) : ∃ o', pgPass adaEnv (adaCfg m) (n + 1) st o = .next false o' ∧ AdaAt (k + 1) o' := by
  set p : ℝ := (101 / 100) ^ k with hp
  have hp1 : 1 ≤ p := one_le_pow₀ (by norm_num)
  have hp2 : p ≤ 3 := by
    have h1 : p ≤ (101 / 100) ^ 70 := pow_le_pow_right₀ (by norm_num) hk.le
    have h2 : ((101 : ℝ) / 100) ^ 70 < 3 := by norm_num
    linarith
  have hd := adaDist_far hk
  have hg : adaEnv.grad o.x1 = -99 := by
    show clamp1 (o.x1 - 1000) - 100 = -99
    rw [h.x1, add_sub_cancel_left, clamp1, min_eq_left hd.le, max_eq_right (by norm_num)]; norm_num
  have hprox : adaEnv.prox o.x1 o.gf1 o.kept.ada o.kept.smTol o.kept.smLam (pgDual adaEnv o.kept) = some (-p, pgDual adaEnv o.kept, 1, 1) := by
    show some (soft (o.x1 - o.gf1 / o.kept.ada) (100 / o.kept.ada) - o.x1, _, 1, 1) = _
    rw [h.gf1, hg, h.ada, ← hp]
    have e1 : (-99 : ℝ) / (1 / p) = -99 * p := by field_simp
    have e2 : (100 : ℝ) / (1 / p) = 100 * p := by field_simp
    rw [e1, e2, soft, if_pos (by rw [h.x1]; linarith)]
    have : o.x1 - -99 * p - 100 * p - o.x1 = -p := by ring
    rw [this]
  have hc : curve adaEnv o.x1 (-p) 1 = 1000 + adaDist (k + 1) := by
    show o.x1 + 1 * (-p) = _
    rw [h.x1, adaDist_succ]; ring
  have hl := adaDist_lower (show k + 1 ≤ 70 by omega)
  have hle : adaDist (k + 1) ≤ adaDist k := by rw [adaDist_succ, ← hp]; linarith
  obtain ⟨o', e, e1, e2, e3, e4, e5, e6⟩ := pgPass_full (cfg := adaCfg m) exact_ada n st o hprox (by
      rw [hc, h.f1, h.x1, ada_value (by linarith), ada_value (by linarith), h.gf1, hg]
      have h1 := huber_mono (by linarith) hle
      show huber (adaDist k) - huber (adaDist (k + 1)) ≥ -(1 / 10000 : ℝ) * (-99 * -p)
      nlinarith) (fun _ => rfl) rfl rfl (by
      rw [ada_sqrt, abs_neg, abs_of_pos (by linarith)]
      show (1 / 10000 : ℝ) ≤ p
      linarith)
  refine ⟨o', e, ⟨by rw [e1, hc], by rw [e2, e1], by rw [e3, e1], by rw [e4, h.iter], ?_, _, _, _, by rw [e6, e2]⟩⟩
  rw [e5, h.ada, pow_succ]
  field_simp

theorem ada_reach (m n : Nat) (o : PGObj ℝ ℝ ℝ) (h0 : AdaAt 0 o) : ∀ k, k ≤ 70 → k ≤ m → ∃ o', AdaAt k o' ∧ pgLoop adaEnv (adaCfg m) (n + 70) false o = pgLoop adaEnv (adaCfg m) (n + (70 - k)) false o' := by
  intro k
  induction k with
  | zero => intro _ _; exact ⟨o, h0, rfl⟩
  | succ k ih =>
    intro hk hm
    obtain ⟨o1, h1, e1⟩ := ih (by omega) (by omega)
    obtain ⟨o2, e2, h2⟩ := ada_step (m := m) (n := n + (70 - (k + 1))) (show k < 70 by omega) false h1
    refine ⟨o2, h2, e1.trans ?_⟩
    rw [show n + (70 - k) = n + (70 - (k + 1)) + 1 by omega, pgLoop, if_pos]
    · rw [e2]
    · rw [h1.iter]
      simp only [Bool.not_false, Bool.true_and, Bool.or_eq_true, decide_eq_true_eq]
      exact .inl (by show k < m; omega)

/-- The pass from `AdaAt k`-like states near the minimiser: with a factor below 1/2 the full step overshoots and is accepted, because the acceptance test uses the slope of the smooth part alone. -/
theorem ada_overshoot {m n : Nat} (st : Bool) {o : PGObj ℝ ℝ ℝ} {e p : ℝ} (he : 1 / 2 < e) (he1 : e ≤ 53 / 100) (hp : 2 < p) (hp1 : p < 2.0068) (hx : o.x1 = 1000 + e) (hf : o.f1 = adaEnv.f o.x1) (hg : o.gf1 = adaEnv.grad o.x1) (ha : o.kept.ada = 1 / p) :
    ∃ o', pgPass adaEnv (adaCfg m) (n + 1) st o = .next false o' ∧ o'.iter = o.iter + 1 ∧ o'.x1 = 1000 + e * (1 - p) ∧ o'.f1 = adaEnv.f o'.x1 ∧ o'.f1 = (e * (1 - p)) ^ 2 / 2 ∧ o.f1 = e ^ 2 / 2 ∧ o.f1 < o'.f1 ∧
      ∃ d, o'.series = (o'.f1, d, 1) :: o.series := by
  have hg' : adaEnv.grad o.x1 = e - 100 := by
    show clamp1 (o.x1 - 1000) - 100 = _
    rw [hx, add_sub_cancel_left, clamp1, min_eq_right (by linarith), max_eq_right (by linarith)]
  have hprox : adaEnv.prox o.x1 o.gf1 o.kept.ada o.kept.smTol o.kept.smLam (pgDual adaEnv o.kept) = some (-(e * p), pgDual adaEnv o.kept, 1, 1) := by
    show some (soft (o.x1 - o.gf1 / o.kept.ada) (100 / o.kept.ada) - o.x1, _, 1, 1) = _
    rw [hg, hg', ha]
    have e1 : (e - 100) / (1 / p) = (e - 100) * p := by field_simp
    have e2 : (100 : ℝ) / (1 / p) = 100 * p := by field_simp
    rw [e1, e2, soft, if_pos (by rw [hx]; nlinarith)]
    have : o.x1 - (e - 100) * p - 100 * p - o.x1 = -(e * p) := by ring
    rw [this]
  have hc : curve adaEnv o.x1 (-(e * p)) 1 = 1000 + e * (1 - p) := by
    show o.x1 + 1 * (-(e * p)) = _
    rw [hx]; ring
  have b1 : -1 ≤ e * (1 - p) := by nlinarith
  have b2 : e * (1 - p) ≤ 1 := by nlinarith
  have v1 : adaEnv.f (1000 + e) = e ^ 2 / 2 := by
    rw [ada_value (by linarith), huber, if_pos (by rw [abs_le]; constructor <;> linarith)]; ring
  have v2 : adaEnv.f (1000 + e * (1 - p)) = (e * (1 - p)) ^ 2 / 2 := by
    rw [ada_value (by linarith), huber, if_pos (by rw [abs_le]; exact ⟨b1, b2⟩)]; ring
  have hsq : (1 - p) ^ 2 < 1.0137 := by nlinarith
  have hsq' : 1 < (1 - p) ^ 2 := by nlinarith
  have hee : e ^ 2 < 0.29 := by nlinarith
  have hpe : 1 < e * p := by nlinarith
  obtain ⟨o', h, e1, e2, e3, e4, e5, e6⟩ := pgPass_full (cfg := adaCfg m) exact_ada n st o hprox (by
      rw [hc, hf, hx, v1, v2, hg, hg']
      show e ^ 2 / 2 - (e * (1 - p)) ^ 2 / 2 ≥ -(1 / 10000 : ℝ) * ((e - 100) * -(e * p))
      rw [mul_pow]
      have h1 : e ^ 2 * ((1 - p) ^ 2 - 1) ≤ 0.29 * 0.0137 := mul_le_mul hee.le (by linarith) (by linarith) (by norm_num)
      have h2 : 99 ≤ (100 - e) * (e * p) := by nlinarith
      nlinarith) (fun _ => rfl) rfl rfl (by
      rw [ada_sqrt, abs_neg, abs_of_pos (by linarith)]
      show (1 / 10000 : ℝ) ≤ e * p
      linarith)
  have f1 : o.f1 = e ^ 2 / 2 := by rw [hf, hx, v1]
  have f2 : o'.f1 = (e * (1 - p)) ^ 2 / 2 := by rw [e2, hc, v2]
  refine ⟨o', h, e4, by rw [e1, hc], by rw [e2, e1], f2, f1, ?_, _, by rw [e6, e2]⟩
  rw [f1, f2, mul_pow]
  have : 0 < e ^ 2 := by positivity
  nlinarith

/-- **C158, negation.** "A ManPG run never raises the cost" is false for the default parameters, although the weight the problem supplies is a Lipschitz constant of the gradient (`C158_weight_fits`) and the subproblems are solved exactly
(`C158_solved`): each of the first 70 full steps divides the weight by 1.01; then it is below half the curvature, and the 71st full step is accepted although it raises the cost. -/
theorem C158_raises (n : Nat) (o : PGObj ℝ ℝ ℝ) (hx : o.x1 = 1101.2) (ha : o.kept.ada = 1) :
    ∃ o', pgRun adaEnv (adaCfg 71) (n + 72) o = .done o' ∧ o'.iter = 71 ∧ o'.f1 = adaEnv.f o'.x1 ∧ ∃ f d d' t l, o'.series = (o'.f1, d, 1) :: (f, d', t) :: l ∧ f < o'.f1 := by
  have h0 : AdaAt 0 (pgPrologue adaEnv o) := ⟨by show o.x1 = _; rw [hx, adaDist]; norm_num, rfl, rfl, rfl, by show o.kept.ada = _; rw [ha]; norm_num, _, _, _, rfl⟩
  have hs0 : pgStopped adaEnv (adaCfg 71) (pgPrologue adaEnv o) = false := by
    unfold pgStopped
    show decide (((1 : ℕ) : ℝ) / (1 : ℕ) < 1 / 10000) = false
    rw [decide_eq_false_iff_not]; norm_num
  obtain ⟨o1, h1, e1⟩ := ada_reach 71 (n + 2) _ h0 70 le_rfl (by omega)
  have hp : ((101 : ℝ) / 100) ^ 70 < 2.0068 := by norm_num
  have hp' : (2.0067 : ℝ) < (101 / 100) ^ 70 := by norm_num
  obtain ⟨o', e, i1, i2, i3, i4, i5, i6, d, i7⟩ := ada_overshoot (m := 71) (n := n + 1) false (o := o1) (e := adaDist 70) (p := (101 / 100) ^ 70) (adaDist_lower le_rfl) (by unfold adaDist; linarith) (by linarith) hp h1.x1 h1.f1 h1.gf1 h1.ada
  obtain ⟨d', t, l, hh⟩ := h1.head
  refine ⟨{ o' with lengthSeries := o'.iter + 1 }, ?_, by rw [i1, h1.iter], i3, o1.f1, d, d', t, l, by rw [← hh]; exact i7, i6⟩
  unfold pgRun
  simp only [hs0]
  rw [show n + 72 = n + 2 + 70 by rfl, e1, show n + 2 + (70 - 70) = n + 1 + 1 by rfl, pgLoop, if_pos (by rw [h1.iter]; rfl), e]
  simp only
  rw [pgLoop, if_neg]
  rw [i1, h1.iter]
  show ¬(!false && decide (71 < 71) || decide (71 < 0)) = true
  decide

/-- **C158, negation.** The factor is neither reset by `Run` nor by `SetProbX`: after 70 full steps the next run of the object can return a point that is worse than its initial point. -/
theorem C158_worse (n : Nat) (o : PGObj ℝ ℝ ℝ) (hx : o.x1 = 1000.52) (ha : o.kept.ada = 1 / (101 / 100) ^ 70) :
    ∃ o', pgRun adaEnv (adaCfg 1) (n + 2) o = .done o' ∧ o'.iter = 1 ∧ o'.f1 = adaEnv.f o'.x1 ∧ adaEnv.f o.x1 < o'.f1 := by
  have hs0 : pgStopped adaEnv (adaCfg 1) (pgPrologue adaEnv o) = false := by
    unfold pgStopped
    show decide (((1 : ℕ) : ℝ) / (1 : ℕ) < 1 / 10000) = false
    rw [decide_eq_false_iff_not]; norm_num
  obtain ⟨o', e, e1, e2, e3, e4, e5, e6, -⟩ := ada_overshoot (m := 1) (n := n + 1) false (o := pgPrologue adaEnv o) (e := 0.52) (p := (101 / 100) ^ 70) (by norm_num) (by norm_num) (by norm_num) (by norm_num) (by show o.x1 = _; rw [hx]; norm_num) rfl rfl ha
  refine ⟨{ o' with lengthSeries := o'.iter + 1 }, ?_, e1, e3, e6⟩
  unfold pgRun
  simp only [hs0]
  rw [pgLoop, if_pos (by rfl), e]
  simp only
  rw [pgLoop, if_neg]
  rw [e1]
  simp [pgPrologue, adaCfg]

/-- The hypotheses of `C158_worse` are met by an object that comes from the constructor, has made 70 full steps and got a new initial point by `SetProbX`. -/
example (junk : PGObj ℝ ℝ ℝ) : ∃ o, (∃ o1, (∃ n, pgRun adaEnv (adaCfg 70) n (pgNew adaEnv 0 1101.2 junk) = .done o1) ∧ o = pgSetProbX 0 1000.52 o1) ∧ o.x1 = 1000.52 ∧ o.kept.ada = 1 / (101 / 100) ^ 70 := by
  have h0 : AdaAt 0 (pgPrologue adaEnv (pgNew adaEnv 0 1101.2 junk)) := by
    refine ⟨?_, rfl, rfl, rfl, ?_, _, _, _, rfl⟩
    · show (1101.2 : ℝ) = _; rw [adaDist]; norm_num
    · show ((1 : ℕ) : ℝ) / (1 : ℕ) = _; norm_num
  obtain ⟨o1, h1, e1⟩ := ada_reach 70 1 _ h0 70 le_rfl le_rfl
  refine ⟨_, ⟨{ o1 with lengthSeries := o1.iter + 1 }, ⟨71, ?_⟩, rfl⟩, rfl, h1.ada⟩
  have hs0 : pgStopped adaEnv (adaCfg 70) (pgPrologue adaEnv (pgNew adaEnv 0 1101.2 junk)) = false := by
    unfold pgStopped
    show decide (((1 : ℕ) : ℝ) / (1 : ℕ) < 1 / 10000) = false
    rw [decide_eq_false_iff_not]; norm_num
  unfold pgRun
  simp only [hs0]
  rw [show 71 = 1 + 70 by rfl, e1, show 1 + (70 - 70) = 0 + 1 by rfl, pgLoop, if_neg]
  rw [h1.iter]
  simp [adaCfg]

/-- The hypotheses of `C158_raises` are met by a new object. -/
example (junk : PGObj ℝ ℝ ℝ) : (pgNew adaEnv 0 1101.2 junk).x1 = 1101.2 ∧ (pgNew adaEnv 0 1101.2 junk).kept.ada = 1 := ⟨rfl, by show ((1 : ℕ) : ℝ) / (1 : ℕ) = 1; norm_num⟩

end Verif.Obj
