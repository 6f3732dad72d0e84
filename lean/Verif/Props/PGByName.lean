import Verif.Props.PGAdaptive
import Verif.Props.Control

/-!
# C161: ManPG after its line-search parameters were passed by name
-/

set_option linter.unusedSectionVars false
set_option linter.unusedVariables false

namespace Verif.Obj

variable {K : Type} {X E : Type*} [Field K] [LinearOrder K] [IsStrictOrderedRing K]
variable {env : PGEnv K X E} {cfg : PGCfg K X}

/-! ## The search with the ratio 0 -/

/-- With the ratio 0 the search accepts the full step, gives up, or accepts the step 0 and stays. -/
theorem pgBacktrack_zero (X0 : env.toEnv.Exact) (hR : ∀ x v, env.retr x (env.smul 0 v) = x) (hr : cfg.ratio = 0) {x1 : X} {slope : K} {eta : E} {n : Nat} {s : PGSearch K X E}
    (h : pgBacktrack env cfg x1 (env.f x1) slope eta n (pgTrial env x1 eta (env.lit 1 1) 0) = some s) :
    (s.ok = true ∧ s.x2 = curve env x1 eta 1 ∧ s.f2 = env.f (curve env x1 eta 1) ∧ ¬ env.f x1 - env.f (curve env x1 eta 1) < -cfg.alpha * slope) ∨ s.ok = false ∨
    (s.ok = true ∧ s.x2 = x1 ∧ s.f2 = env.f x1 ∧ ¬ (0 : K) < cfg.minstep) := by
  have e1 : env.lit 1 1 = 1 := by rw [X0.lit]; norm_num
  rw [e1] at h
  cases n with
  | zero => simp [pgBacktrack] at h
  | succ n =>
    rw [pgBacktrack, X0.lt] at h
    by_cases hc : env.f x1 - env.f (curve env x1 eta 1) < -cfg.alpha * slope
    · rw [if_pos (by simpa [pgTrial, curve] using hc)] at h
      simp only [hr, mul_zero, X0.lt] at h
      by_cases hm : (0 : K) < cfg.minstep
      · rw [if_pos (by simpa using hm)] at h
        obtain rfl := Option.some.inj h
        exact .inr (.inl rfl)
      · rw [if_neg (by simpa using hm)] at h
        cases n with
        | zero => simp [pgBacktrack] at h
        | succ n =>
          rw [pgBacktrack, X0.lt, if_neg (by simp [pgTrial, hR])] at h
          obtain rfl := Option.some.inj h
          exact .inr (.inr ⟨rfl, by simp [pgTrial, hR], by simp [pgTrial, hR], hm⟩)
    · rw [if_neg (by simpa [pgTrial, curve] using hc)] at h
      obtain rfl := Option.some.inj h
      exact .inl ⟨rfl, rfl, rfl, hc⟩

/-- What holds at the head of the loop. -/
def Synced (env : PGEnv K X E) (o : PGObj K X E) : Prop := o.f1 = env.f o.x1 ∧ o.gf1 = env.grad o.x1

/-- A pass, with the ratio 0: the full step or nothing. -/
theorem pgPass_zero (X0 : env.toEnv.Exact) (hR : ∀ x v, env.retr x (env.smul 0 v) = x) (hr : cfg.ratio = 0) (n : Nat) (st : Bool) (o : PGObj K X E) (ho : Synced env o) :
    (∀ s, pgPass env cfg n st o = .leave s → s.x1 = o.x1) ∧
    ∀ c s, pgPass env cfg n st o = .next c s → Synced env s ∧ (s.x1 = o.x1 ∨
      ∃ eta d i k, env.prox o.x1 o.gf1 o.kept.ada o.kept.smTol o.kept.smLam (pgDual env o.kept) = some (eta, d, i, k) ∧ s.x1 = curve env o.x1 eta 1 ∧
        ¬ env.f o.x1 - env.f (curve env o.x1 eta 1) < -cfg.alpha * env.metric o.x1 (env.grad o.x1) eta) := by
  unfold pgPass
  cases hp : env.prox o.x1 o.gf1 o.kept.ada o.kept.smTol o.kept.smLam (pgDual env o.kept) with
  | none => exact ⟨fun _ h => by simp at h, fun _ _ h => by simp at h⟩
  | some r =>
    obtain ⟨e, d, i, c⟩ := r
    simp only
    cases hs : pgBacktrack env cfg o.x1 o.f1 (env.metric o.x1 o.gf1 e) e n (pgTrial env o.x1 e (env.lit 1 1) 0) with
    | none => exact ⟨fun _ h => by simp at h, fun _ _ h => by simp at h⟩
    | some s =>
      rw [ho.1] at hs
      have hz := pgBacktrack_zero X0 hR hr hs
      simp only
      by_cases hok : (!s.ok) = true
      · rw [if_pos hok]
        split
        · exact ⟨fun _ h => by obtain rfl := PGPass.leave.inj h; rfl, fun _ _ h => by simp at h⟩
        · refine ⟨fun _ h => by simp at h, fun _ _ h => ?_⟩
          obtain ⟨-, rfl⟩ := PGPass.next.inj h
          exact ⟨ho, .inl rfl⟩
      · rw [if_neg hok]
        split
        · exact ⟨fun _ h => by obtain rfl := PGPass.leave.inj h; rfl, fun _ _ h => by simp at h⟩
        · refine ⟨fun _ h => by simp at h, fun _ _ h => ?_⟩
          obtain ⟨-, rfl⟩ := PGPass.next.inj h
          rcases hz with ⟨-, h1, h2, h3⟩ | h1 | ⟨-, h1, h2, -⟩
          · refine ⟨⟨by show s.f2 = env.f s.x2; rw [h1, h2], rfl⟩, .inr ⟨e, d, i, c, rfl, h1, ?_⟩⟩
            rw [← ho.2]; exact h3
          · simp [h1] at hok
          · exact ⟨⟨by show s.f2 = env.f s.x2; rw [h1, h2], rfl⟩, .inl h1⟩

/-! ## The theorems -/

/-- **C161, full step or nothing.** Whatever the problem, the variant and the other parameters: with the ratio 0 every iterate of a run is the one before or its full proximal step. `r` reaches the next iterate. -/
theorem C161_full_or_nothing (X0 : env.toEnv.Exact) (hR : ∀ x v, env.retr x (env.smul 0 v) = x) (hr : cfg.ratio = 0) (n : Nat) (o r : PGObj K X E) (h : pgRun env cfg n o = .done r) :
    Relation.ReflTransGen (fun x y => y = x ∨ ∃ ada tol lam d0 eta d i k, env.prox x (env.grad x) ada tol lam d0 = some (eta, d, i, k) ∧ y = env.retr x (env.smul 1 eta)) o.x1 r.x1 := by
  have key : ∀ n st (o r : PGObj K X E), Synced env o → pgLoop env cfg n st o = .done r →
      Relation.ReflTransGen (fun x y => y = x ∨ ∃ ada tol lam d0 eta d i k, env.prox x (env.grad x) ada tol lam d0 = some (eta, d, i, k) ∧ y = env.retr x (env.smul 1 eta)) o.x1 r.x1 := by
    intro n
    induction n with
    | zero => intro st o r _ h; simp [pgLoop] at h
    | succ n ih =>
      intro st o r ho h
      unfold pgLoop at h
      split at h
      · have hp := pgPass_zero X0 hR hr (n + 1) st o ho
        split at h
        · simp at h
        · simp at h
        · next s hs =>
          obtain rfl := PGOut.done.inj h
          show Relation.ReflTransGen _ o.x1 s.x1
          rw [hp.1 _ hs]
        · next c s hs =>
          obtain ⟨h1, h2⟩ := hp.2 _ _ hs
          refine .head ?_ (ih _ _ _ h1 h)
          rcases h2 with h2 | ⟨eta, d, i, k, h2, h3, -⟩
          · exact .inl h2
          · rw [ho.2] at h2
            exact .inr ⟨_, _, _, _, eta, d, i, k, h2, h3⟩
      · obtain rfl := PGOut.done.inj h; exact .refl
  unfold pgRun at h
  exact key _ _ (pgPrologue env o) _ ⟨rfl, rfl⟩ h

/-- **C161, stuck.** If the full step from the initial point is not good enough, for no accuracy of the subproblem and no factor in (0, 1], every run that ends returns the initial point, however many iterations it may make. -/
theorem C161_stuck (X0 : env.toEnv.Exact) (hR : ∀ x v, env.retr x (env.smul 0 v) = x) (hr : cfg.ratio = 0) (n : Nat) (o r : PGObj K X E) (h0 : 0 < o.kept.ada) (h1 : o.kept.ada ≤ 1)
    (hbad : ∀ ada tol lam d0 eta d i k, 0 < ada → ada ≤ 1 → env.prox o.x1 (env.grad o.x1) ada tol lam d0 = some (eta, d, i, k) →
      env.f o.x1 - env.f (env.retr o.x1 (env.smul 1 eta)) < -cfg.alpha * env.metric o.x1 (env.grad o.x1) eta)
    (h : pgRun env cfg n o = .done r) : r.x1 = o.x1 := by
  generalize hx : o.x1 = x at hbad
  have key : ∀ n st (o r : PGObj K X E), Synced env o → o.x1 = x → 0 < o.kept.ada → o.kept.ada ≤ 1 → pgLoop env cfg n st o = .done r → r.x1 = x := by
    intro n
    induction n with
    | zero => intro st o r _ _ _ _ h; simp [pgLoop] at h
    | succ n ih =>
      intro st o r ho hx h0 h1 h
      unfold pgLoop at h
      split at h
      · have hp := pgPass_zero X0 hR hr (n + 1) st o ho
        have ha := pgPass_ada (env := env) (cfg := cfg) (n + 1) st o
        split at h
        · simp at h
        · simp at h
        · next s hs =>
          obtain rfl := PGOut.done.inj h
          exact (hp.1 _ hs).trans hx
        · next c s hs =>
          obtain ⟨g1, g2⟩ := hp.2 _ _ hs
          have g3 : 0 < s.kept.ada ∧ s.kept.ada ≤ 1 := by
            rcases ha.2 _ _ hs with e | ⟨b, e⟩
            · rw [e]; exact ⟨h0, h1⟩
            · rw [e]; exact pgAda_range X0 b h0 h1
          rcases g2 with g2 | ⟨eta, d, i, k, g2, -, g4⟩
          · exact ih _ _ _ g1 (g2.trans hx) g3.1 g3.2 h
          · exfalso
            rw [ho.2, hx] at g2
            rw [hx] at g4
            exact g4 (hbad _ _ _ _ _ _ _ _ h0 h1 g2)
      · obtain rfl := PGOut.done.inj h; exact hx
  unfold pgRun at h
  exact key _ _ (pgPrologue env o) _ ⟨rfl, rfl⟩ hx h0 h1 h

/-- The members of the solver that hold the three parameters, read from the table of parameters. -/
noncomputable def byName {X : Type*} (base : PGCfg ℝ X) (st : Solver.Store) : PGCfg ℝ X :=
  { base with alpha := (st "LS_alpha" : ℝ), ratio := (st "LS_ratio" : ℝ), minstep := (st "Minstepsize" : ℝ) }

/-- **C161, by name.** Every admissible value of the ratio that is passed by name makes the ratio 0. -/
theorem C161_ratio {X : Type*} (base : PGCfg ℝ X) (params : List (String × Rat)) (st : Solver.Store) (hd : (params.map (·.1)).Nodup) (v : Rat) (h0 : 0 < v) (h1 : v < 1) (hv : Solver.lookupParam params "LS_ratio" = some v) :
    (byName base (Solver.setParams Solver.chainManPG params st)).ratio = 0 := by
  have := (Solver.C29_proximal_parameters_truncated params st hd "LS_ratio" (by simp) v h0.le h1 hv).1
  simp [byName, this]

/-! ## The default values, passed by name -/

/-- The cost `2 x²` on the line. Its gradient has the Lipschitz constant 4, the problem supplies the weight 1, and the subproblem is solved exactly. -/
noncomputable def parEnv : PGEnv ℝ ℝ ℝ :=
  { adaEnv with f := fun x => 2 * x ^ 2, grad := fun x => 4 * x, prox := fun _ g a _ _ d => some (-(g / a), d, 1, 1) }

theorem exact_par : parEnv.toEnv.Exact where
  lt _ _ := rfl
  le _ _ := rfl
  eq _ _ := rfl
  lit _ _ := rfl
  abs _ := rfl

/-- The three names with the default values of `SolversNSMPGLS.cpp:25-27`. -/
def defaultsByName : List (String × Rat) := [("LS_ratio", 1 / 2), ("LS_alpha", 1 / 10000), ("Minstepsize", 2 / 100)]

/-- Without passing anything, one iteration finds the minimiser from any point, with the step 1/4. -/
theorem C161_defaults (n : Nat) (x : ℝ) (hx : x ≠ 0) (o : PGObj ℝ ℝ ℝ) (ho : o.x1 = x) (ha : o.kept.ada = 1) :
    ∃ r, pgRun parEnv (adaCfg 1) (n + 3) o = .done r ∧ r.x1 = 0 ∧ r.f1 = 0 ∧ r.stepsize = 1 / 4 := by
  have hx2 : 0 < x ^ 2 := by positivity
  have hs0 : pgStopped parEnv (adaCfg 1) (pgPrologue parEnv o) = false := by
    unfold pgStopped
    show decide (((1 : ℕ) : ℝ) / (1 : ℕ) < 1 / 10000) = false
    rw [decide_eq_false_iff_not]; norm_num
  have hb : pgBacktrack parEnv (adaCfg 1) x (2 * x ^ 2) (4 * x * (-(4 * x / 1))) (-(4 * x / 1)) (n + 3) (pgTrial parEnv x (-(4 * x / 1)) (parEnv.lit 1 1) 0) = some (pgTrial parEnv x (-(4 * x / 1)) (1 / 4) 2) := by
    have e1 : parEnv.lit 1 1 = 1 := by rw [exact_par.lit]; norm_num
    have f : ∀ t k, (pgTrial parEnv x (-(4 * x / 1)) t k).f2 = 2 * (x + t * -(4 * x / 1)) ^ 2 := fun _ _ => rfl
    have st : ∀ t k, (pgTrial parEnv x (-(4 * x / 1)) t k).step = t := fun _ _ => rfl
    have tr : ∀ t k, (pgTrial parEnv x (-(4 * x / 1)) t k).trials = k + 1 := fun _ _ => rfl
    rw [e1, pgBacktrack, exact_par.lt, f, st, if_pos (decide_eq_true (by simp only [adaCfg]; nlinarith))]
    simp only [exact_par.lt]
    rw [if_neg (fun h => absurd (of_decide_eq_true h) (by simp only [adaCfg]; norm_num)), pgBacktrack, exact_par.lt, f, st, if_pos (decide_eq_true (by simp only [adaCfg]; nlinarith))]
    simp only [exact_par.lt]
    rw [if_neg (fun h => absurd (of_decide_eq_true h) (by simp only [adaCfg]; norm_num)), tr, tr, show (1 * (adaCfg 1).ratio * (adaCfg 1).ratio) = 1 / 4 by simp only [adaCfg]; norm_num, pgBacktrack, exact_par.lt, f, st,
      if_neg (fun h => absurd (of_decide_eq_true h) (not_lt.mpr (by simp only [adaCfg]; nlinarith)))]
  have hp : ∃ st r, pgPass parEnv (adaCfg 1) (n + 3) false (pgPrologue parEnv o) = .next st r ∧ r.iter = 1 ∧ r.x1 = 0 ∧ r.f1 = 0 ∧ r.stepsize = 1 / 4 := by
    unfold pgPass
    have hprox : parEnv.prox (pgPrologue parEnv o).x1 (pgPrologue parEnv o).gf1 (pgPrologue parEnv o).kept.ada (pgPrologue parEnv o).kept.smTol (pgPrologue parEnv o).kept.smLam (pgDual parEnv (pgPrologue parEnv o).kept)
        = some (-(4 * x / 1), pgDual parEnv o.kept, 1, 1) := by
      show some (-(4 * o.x1 / o.kept.ada), _, 1, 1) = _
      rw [ho, ha]; rfl
    rw [hprox]
    simp only
    have e2 : pgBacktrack parEnv (adaCfg 1) (pgPrologue parEnv o).x1 (pgPrologue parEnv o).f1 (parEnv.metric (pgPrologue parEnv o).x1 (pgPrologue parEnv o).gf1 (-(4 * x / 1))) (-(4 * x / 1)) (n + 3) (pgTrial parEnv (pgPrologue parEnv o).x1 (-(4 * x / 1)) (parEnv.lit 1 1) 0)
        = some (pgTrial parEnv x (-(4 * x / 1)) (1 / 4) 2) := by
      show pgBacktrack parEnv (adaCfg 1) o.x1 (2 * o.x1 ^ 2) (4 * o.x1 * (-(4 * x / 1))) (-(4 * x / 1)) (n + 3) (pgTrial parEnv o.x1 (-(4 * x / 1)) (parEnv.lit 1 1) 0) = _
      rw [ho]; exact hb
    rw [e2]
    refine ⟨_, _, rfl, rfl, ?_, ?_, rfl⟩
    · show x + 1 / 4 * -(4 * x / 1) = 0; ring
    · show 2 * (x + 1 / 4 * -(4 * x / 1)) ^ 2 = 0; ring
  obtain ⟨st, r, h1, h2, h3, h4, h5⟩ := hp
  refine ⟨{ r with lengthSeries := r.iter + 1 }, ?_, h3, h4, h5⟩
  unfold pgRun
  simp only [hs0]
  rw [pgLoop, if_pos (by rfl), h1]
  simp only
  rw [pgLoop, if_neg]
  rw [h2]
  simp [adaCfg]

/-- **C161, negation.** With the same values passed by name, every run that ends returns the initial point, however many iterations it may make. -/
theorem C161_defaults_by_name (m n : Nat) (x : ℝ) (hx : x ≠ 0) (st : Solver.Store) (o r : PGObj ℝ ℝ ℝ) (ho : o.x1 = x) (ha : o.kept.ada = 1)
    (h : pgRun parEnv (byName (adaCfg m) (Solver.setParams Solver.chainManPG defaultsByName st)) n o = .done r) : r.x1 = x := by
  have hx2 : 0 < x ^ 2 := by positivity
  have hal : (byName (adaCfg m) (Solver.setParams Solver.chainManPG defaultsByName st)).alpha = 0 := by
    have := (Solver.C29_proximal_parameters_truncated defaultsByName st (by decide) "LS_alpha" (by simp) (1 / 10000) (by norm_num) (by norm_num) (by decide +kernel)).1
    simp [byName, this]
  have hr := C161_ratio (adaCfg m) defaultsByName st (by decide) (1 / 2) (by norm_num) (by norm_num) (by decide +kernel)
  rw [← ho]
  refine C161_stuck exact_par (fun x v => by show x + 0 * v = x; ring) hr n o r (by rw [ha]; exact one_pos) ha.le ?_ h
  intro a tol lam d0 eta d i k h0 h1 hp
  obtain ⟨rfl, -⟩ := Prod.mk.inj (Option.some.inj hp)
  rw [hal, ho]
  show 2 * x ^ 2 - 2 * (x + 1 * -(4 * x / a)) ^ 2 < -0 * (4 * x * -(4 * x / a))
  have e : 2 * x ^ 2 - 2 * (x + 1 * -(4 * x / a)) ^ 2 = 16 * x ^ 2 / a ^ 2 * (a - 2) := by field_simp; ring
  rw [e]
  have : 0 < 16 * x ^ 2 / a ^ 2 := by positivity
  nlinarith

/-- Such runs end: from 1 with one iteration allowed, which is counted and recorded as a successful one with the step 0. -/
theorem C161_ends (n : Nat) (st : Solver.Store) (o : PGObj ℝ ℝ ℝ) (ho : o.x1 = 1) (ha : o.kept.ada = 1) :
    ∃ r, pgRun parEnv (byName (adaCfg 1) (Solver.setParams Solver.chainManPG defaultsByName st)) (n + 2) o = .done r ∧ r.iter = 1 ∧ r.success = true ∧ r.stepsize = 0 ∧ r.x1 = 1 := by
  obtain ⟨hal, hr, hm⟩ : (byName (adaCfg 1) (Solver.setParams Solver.chainManPG defaultsByName st)).alpha = 0 ∧ (byName (adaCfg 1) (Solver.setParams Solver.chainManPG defaultsByName st)).ratio = 0 ∧
      (byName (adaCfg 1) (Solver.setParams Solver.chainManPG defaultsByName st)).minstep = 0 := by
    have h1 := (Solver.C29_proximal_parameters_truncated defaultsByName st (by decide) "LS_alpha" (by simp) (1 / 10000) (by norm_num) (by norm_num) (by decide +kernel)).1
    have h2 := (Solver.C29_proximal_parameters_truncated defaultsByName st (by decide) "LS_ratio" (by simp) (1 / 2) (by norm_num) (by norm_num) (by decide +kernel)).1
    have h3 := (Solver.C29_proximal_parameters_truncated defaultsByName st (by decide) "Minstepsize" (by simp) (2 / 100) (by norm_num) (by norm_num) (by decide +kernel)).1
    simp [byName, h1, h2, h3]
  obtain ⟨cfg, hcfg⟩ : ∃ c, c = byName (adaCfg 1) (Solver.setParams Solver.chainManPG defaultsByName st) := ⟨_, rfl⟩
  have hstop : cfg.stop = .gradF := by rw [hcfg]; rfl
  have htol : cfg.tol = 1 / 10000 := by rw [hcfg]; rfl
  have hmax : cfg.maxIter = 1 := by rw [hcfg]; rfl
  have hmin : cfg.minIter = 0 := by rw [hcfg]; rfl
  rw [← hcfg] at hal hr hm ⊢
  have hs0 : pgStopped parEnv cfg (pgPrologue parEnv o) = false := by
    unfold pgStopped
    rw [hstop, htol]
    show decide (((1 : ℕ) : ℝ) / (1 : ℕ) < 1 / 10000) = false
    rw [decide_eq_false_iff_not]; norm_num
  have hb : pgBacktrack parEnv cfg 1 (2 * 1 ^ 2) (4 * 1 * (-(4 * 1 / 1))) (-(4 * 1 / 1)) (n + 2) (pgTrial parEnv 1 (-(4 * 1 / 1)) (parEnv.lit 1 1) 0) = some (pgTrial parEnv 1 (-(4 * 1 / 1)) 0 1) := by
    have e1 : parEnv.lit 1 1 = 1 := by rw [exact_par.lit]; norm_num
    have f : ∀ t k, (pgTrial parEnv 1 (-(4 * 1 / 1)) t k).f2 = 2 * (1 + t * -(4 * 1 / 1)) ^ 2 := fun _ _ => rfl
    have st : ∀ t k, (pgTrial parEnv 1 (-(4 * 1 / 1)) t k).step = t := fun _ _ => rfl
    have tr : ∀ t k, (pgTrial parEnv 1 (-(4 * 1 / 1)) t k).trials = k + 1 := fun _ _ => rfl
    rw [e1, pgBacktrack, exact_par.lt, f, st, hal, hr, hm, if_pos (decide_eq_true (by norm_num))]
    simp only [exact_par.lt]
    rw [if_neg (fun h => absurd (of_decide_eq_true h) (by norm_num)), tr, mul_zero, pgBacktrack, exact_par.lt, f, st, hal, if_neg (fun h => absurd (of_decide_eq_true h) (by norm_num))]
  have hp : ∃ st r, pgPass parEnv cfg (n + 2) false (pgPrologue parEnv o) = .next st r ∧ r.iter = 1 ∧ r.success = true ∧ r.stepsize = 0 ∧ r.x1 = 1 := by
    unfold pgPass
    have hprox : parEnv.prox (pgPrologue parEnv o).x1 (pgPrologue parEnv o).gf1 (pgPrologue parEnv o).kept.ada (pgPrologue parEnv o).kept.smTol (pgPrologue parEnv o).kept.smLam (pgDual parEnv (pgPrologue parEnv o).kept)
        = some (-(4 * 1 / 1), pgDual parEnv o.kept, 1, 1) := by
      show some (-(4 * o.x1 / o.kept.ada), _, 1, 1) = _
      rw [ho, ha]; rfl
    rw [hprox]
    simp only
    have e2 : pgBacktrack parEnv cfg (pgPrologue parEnv o).x1 (pgPrologue parEnv o).f1 (parEnv.metric (pgPrologue parEnv o).x1 (pgPrologue parEnv o).gf1 (-(4 * 1 / 1))) (-(4 * 1 / 1)) (n + 2) (pgTrial parEnv (pgPrologue parEnv o).x1 (-(4 * 1 / 1)) (parEnv.lit 1 1) 0)
        = some (pgTrial parEnv 1 (-(4 * 1 / 1)) 0 1) := by
      show pgBacktrack parEnv cfg o.x1 (2 * o.x1 ^ 2) (4 * o.x1 * (-(4 * 1 / 1))) (-(4 * 1 / 1)) (n + 2) (pgTrial parEnv o.x1 (-(4 * 1 / 1)) (parEnv.lit 1 1) 0) = _
      rw [ho]; exact hb
    rw [e2]
    refine ⟨_, _, rfl, rfl, rfl, rfl, ?_⟩
    show (1 : ℝ) + 0 * -(4 * 1 / 1) = 1; ring
  obtain ⟨st', r, h1, h2, h3, h4, h5⟩ := hp
  refine ⟨{ r with lengthSeries := r.iter + 1 }, ?_, h2, h3, h4, h5⟩
  unfold pgRun
  simp only [hs0]
  rw [pgLoop, if_pos (by rw [hmax, hmin]; rfl), h1]
  simp only
  rw [pgLoop, if_neg]
  rw [h2, hmax, hmin]
  simp

/-- The hypotheses on the object are met by a new one. -/
example (junk : PGObj ℝ ℝ ℝ) : (pgNew parEnv 0 1 junk).x1 = 1 ∧ (pgNew parEnv 0 1 junk).kept.ada = 1 := ⟨rfl, by show ((1 : ℕ) : ℝ) / (1 : ℕ) = 1; norm_num⟩

/-- `C161_full_or_nothing` for the run of `C161_ends`. -/
example (r : PGObj ℝ ℝ ℝ) (junk : PGObj ℝ ℝ ℝ) (st : Solver.Store) (h : pgRun parEnv (byName (adaCfg 1) (Solver.setParams Solver.chainManPG defaultsByName st)) 2 (pgNew parEnv 0 1 junk) = .done r) := 
  C161_full_or_nothing exact_par (fun x v => by show x + 0 * v = x; ring) (C161_ratio (adaCfg 1) defaultsByName st (by decide) (1 / 2) (by norm_num) (by norm_num) (by decide +kernel)) 2 _ r h

end Verif.Obj
