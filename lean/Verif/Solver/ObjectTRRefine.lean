import Verif.Solver.ObjectTR
import Verif.Solver.ObjectRefine
import Verif.Solver.TrustRegion
import Verif.Props.TrustRegion

/-!
# The trust-region object refines the trust-region algorithm

`Verif.Solver.ObjectTR` follows the members of the solver object; `Verif.Solver.TrustRegion` and `Verif.Solver.TRRun` state the
algorithm over tangent spaces. Here the first is shown to compute the second, for any way `φ` of storing tangent vectors (as vectors of
a larger space or as coordinates).
-/

set_option linter.unusedSectionVars false

namespace Verif.Obj

open scoped RealInnerProductSpace

variable {X : Type} {E : Type} {T : X → Type} [∀ x, NormedAddCommGroup (T x)] [∀ x, InnerProductSpace ℝ (T x)]

/-- The operations of the environment act on stored tangent vectors as those of the problem `p` act on tangent vectors, in real
arithmetic; the solver object has the parameters of `p`. -/
structure Stores (env : TREnv ℝ X E) (cfg : TRCfg ℝ X) (H : X → E → E) (p : TR.Prob X T) (φ : ∀ x, T x → E) : Prop where
  exact : env.toEnv.Exact
  sqrt : ∀ a, env.sqrt a = Real.sqrt a
  finite : ∀ a, env.finite a = true
  pow : ∀ a, env.powtheta a = a ^ p.theta
  f : ∀ x, env.f x = p.f x
  grad : ∀ x, env.grad x = φ x (p.g x)
  retr : ∀ x v, env.retr x (φ x v) = p.retr x v
  metric : ∀ x u v, env.metric x (φ x u) (φ x v) = ⟪u, v⟫
  smul : ∀ x c v, env.smul c (φ x v) = φ x (c • v)
  axpy : ∀ x c u v, env.axpy c (φ x u) (φ x v) = φ x (c • u + v)
  proj : ∀ x v, env.proj x (φ x v) = φ x v
  precond : ∀ x v, env.precond x (φ x v) = φ x (p.P x v)
  hess : ∀ x v, H x (φ x v) = φ x (p.H x v)
  kappa : cfg.kappa = p.kappa
  minInner : cfg.minInner = p.minInner
  maxInner : cfg.maxInner = p.maxInner
  rand : cfg.useRand = false

/-- The names of the inner solver's outcomes in the two descriptions. -/
def tstatusOf : TRRun.Status → TStatus
  | .negCurv => .negCurv
  | .excRegion => .excRegion
  | .min => .minDec
  | .lCon => .lcon
  | .sCon => .scon
  | .maxIter => .maxIter
  | .error => .error

/-- Stored variables of the inner loop. -/
def store (φ : ∀ x, T x → E) (x : X) (s : TR.CG (T x)) : TCG ℝ E :=
  ⟨φ x s.eta, φ x s.Heta, φ x s.r, φ x s.delta, s.ePe, s.ePd, s.dPd, s.zr, s.modelv⟩

variable {env : TREnv ℝ X E} {cfg : TRCfg ℝ X} {H : X → E → E} {p : TR.Prob X T} {φ : ∀ x, T x → E}

theorem Stores.lit_zero (S : Stores env cfg H p φ) : env.lit 0 1 = 0 := by rw [S.exact.lit]; norm_num
theorem Stores.lit_one (S : Stores env cfg H p φ) : env.lit 1 1 = 1 := by rw [S.exact.lit]; norm_num
theorem Stores.lit_two (S : Stores env cfg H p φ) : env.lit 2 1 = 2 := by rw [S.exact.lit]; norm_num
theorem Stores.lit_half (S : Stores env cfg H p φ) : env.lit 1 2 = 1 / 2 := by rw [S.exact.lit]; norm_num
theorem Stores.lit_neg (S : Stores env cfg H p φ) : env.lit (-1) 1 = -1 := by rw [S.exact.lit]; norm_num
theorem Stores.lit_75 (S : Stores env cfg H p φ) : env.lit 75 100 = 3 / 4 := by rw [S.exact.lit]; norm_num
theorem Stores.lit_25 (S : Stores env cfg H p φ) : env.lit 25 100 = 1 / 4 := by rw [S.exact.lit]; norm_num

theorem Stores.norm (S : Stores env cfg H p φ) (x : X) (v : T x) : env.sqrt (env.metric x (φ x v) (φ x v)) = ‖v‖ := by
  rw [S.metric, S.sqrt, real_inner_self_eq_norm_sq, Real.sqrt_sq (norm_nonneg v)]

theorem tcgLoop_refines (S : Stores env cfg H p φ) (x : X) (D : ℝ) :
    ∀ (n j : Nat) (s : TR.CG (T x)) (eta : T x) (st : TRRun.Status), TR.tcg (p.local x D) n j s = some (eta, st) →
      (tcgLoop env cfg (H x) x (φ x (p.g x)) D ‖p.g x‖ n j (store φ x s)).1 = φ x eta ∧
      (tcgLoop env cfg (H x) x (φ x (p.g x)) D ‖p.g x‖ n j (store φ x s)).2.1 = tstatusOf st := by
  intro n
  induction n with
  | zero =>
    intro j s eta st h
    simp only [TR.tcg, Option.some.injEq, Prod.mk.injEq] at h
    obtain ⟨rfl, rfl⟩ := h
    exact ⟨rfl, rfl⟩
  | succ n ih =>
    intro j s eta st h
    have hH : H x (φ x s.delta) = φ x (p.H x s.delta) := S.hess x _
    simp only [TR.tcg] at h
    simp only [tcgLoop, store, hH, S.metric, S.lit_zero, S.lit_two, S.lit_half, S.lit_neg, S.exact.le, S.exact.lt, S.sqrt, S.axpy, S.smul,
      S.proj, S.precond, S.pow, S.kappa, S.minInner]
    have hE : s.ePe + 2 * (s.zr / ⟪s.delta, p.H x s.delta⟫) * s.ePd + s.zr / ⟪s.delta, p.H x s.delta⟫ * (s.zr / ⟪s.delta, p.H x s.delta⟫) * s.dPd
        = TR.ePeNew s (s.zr / ⟪s.delta, (p.local x D).H s.delta⟫) := rfl
    rw [hE]
    by_cases hexit : ⟪s.delta, (p.local x D).H s.delta⟫ ≤ 0 ∨
        (p.local x D).Delta * (p.local x D).Delta ≤ TR.ePeNew s (s.zr / ⟪s.delta, (p.local x D).H s.delta⟫)
    · rw [if_pos hexit] at h
      have hexit' : (decide (⟪s.delta, p.H x s.delta⟫ ≤ 0) || decide (D * D ≤ TR.ePeNew s (s.zr / ⟪s.delta, (p.local x D).H s.delta⟫))) = true := by
        rw [Bool.or_eq_true, decide_eq_true_iff, decide_eq_true_iff]; exact hexit
      rw [if_pos hexit']
      unfold TR.tau at h
      simp only [] at h
      by_cases hn : s.dPd = 0 ∨ s.ePd * s.ePd + s.dPd * ((p.local x D).Delta * (p.local x D).Delta - s.ePe) < 0
      · rw [if_pos hn] at h
        simp at h
      · rw [if_neg hn] at h
        simp only [Option.map_some, Option.some.injEq, Prod.mk.injEq] at h
        obtain ⟨rfl, rfl⟩ := h
        refine ⟨?_, ?_⟩
        · rw [add_comm]; rfl
        · by_cases hneg : ⟪s.delta, p.H x s.delta⟫ < 0
          · have h2 : ⟪s.delta, (p.local x D).H s.delta⟫ < 0 := hneg
            rw [if_pos h2]
            simp [hneg, tstatusOf]
          · have h2 : ¬ ⟪s.delta, (p.local x D).H s.delta⟫ < 0 := hneg
            rw [if_neg h2]
            simp [hneg, tstatusOf]
    · rw [if_neg hexit] at h
      have hexit' : ¬ (decide (⟪s.delta, p.H x s.delta⟫ ≤ 0) || decide (D * D ≤ TR.ePeNew s (s.zr / ⟪s.delta, (p.local x D).H s.delta⟫))) = true := by
        intro hc
        rw [Bool.or_eq_true, decide_eq_true_iff, decide_eq_true_iff] at hc
        exact hexit hc
      rw [if_neg hexit']
      have e1 : (s.zr / ⟪s.delta, p.H x s.delta⟫) • s.delta + s.eta = (TR.cgMove (p.local x D) s (s.zr / ⟪s.delta, (p.local x D).H s.delta⟫)).eta := by
        rw [add_comm]; rfl
      have e2 : (s.zr / ⟪s.delta, p.H x s.delta⟫) • p.H x s.delta + s.Heta = (TR.cgMove (p.local x D) s (s.zr / ⟪s.delta, (p.local x D).H s.delta⟫)).Heta := by
        rw [add_comm]; rfl
      have e3 : (s.zr / ⟪s.delta, p.H x s.delta⟫) • p.H x s.delta + s.r = (TR.cgMove (p.local x D) s (s.zr / ⟪s.delta, (p.local x D).H s.delta⟫)).r := by
        rw [add_comm]; rfl
      rw [e1, e2, e3]
      have e4 : ⟪(TR.cgMove (p.local x D) s (s.zr / ⟪s.delta, (p.local x D).H s.delta⟫)).eta, p.g x⟫ +
          1 / 2 * ⟪(TR.cgMove (p.local x D) s (s.zr / ⟪s.delta, (p.local x D).H s.delta⟫)).eta, (TR.cgMove (p.local x D) s (s.zr / ⟪s.delta, (p.local x D).H s.delta⟫)).Heta⟫
          = (TR.cgMove (p.local x D) s (s.zr / ⟪s.delta, (p.local x D).H s.delta⟫)).modelv := rfl
      rw [e4]
      by_cases hm : s.modelv ≤ (TR.cgMove (p.local x D) s (s.zr / ⟪s.delta, (p.local x D).H s.delta⟫)).modelv
      · rw [if_pos hm] at h
        rw [if_pos (decide_eq_true hm)]
        simp only [Option.some.injEq, Prod.mk.injEq] at h
        obtain ⟨rfl, rfl⟩ := h
        exact ⟨rfl, rfl⟩
      · rw [if_neg hm] at h
        rw [if_neg (by simpa using hm)]
        have hnr : √⟪(TR.cgMove (p.local x D) s (s.zr / ⟪s.delta, (p.local x D).H s.delta⟫)).r, (TR.cgMove (p.local x D) s (s.zr / ⟪s.delta, (p.local x D).H s.delta⟫)).r⟫
            = ‖(TR.cgMove (p.local x D) s (s.zr / ⟪s.delta, (p.local x D).H s.delta⟫)).r‖ := by
          rw [real_inner_self_eq_norm_sq, Real.sqrt_sq (norm_nonneg _)]
        rw [hnr]
        have htol : (‖p.g x‖ * if decide (‖p.g x‖ ^ p.theta < p.kappa) = true then ‖p.g x‖ ^ p.theta else p.kappa) = (p.local x D).tol := by
          unfold TR.Local.tol TR.Prob.local
          simp only [decide_eq_true_eq]
        rw [htol]
        by_cases hc : (p.local x D).minInner ≤ j ∧ ‖(TR.cgMove (p.local x D) s (s.zr / ⟪s.delta, (p.local x D).H s.delta⟫)).r‖ ≤ (p.local x D).tol
        · rw [if_pos hc] at h
          have hc' : (decide (p.minInner ≤ j) && decide (‖(TR.cgMove (p.local x D) s (s.zr / ⟪s.delta, (p.local x D).H s.delta⟫)).r‖ ≤ (p.local x D).tol)) = true := by
            rw [Bool.and_eq_true, decide_eq_true_iff, decide_eq_true_iff]; exact hc
          rw [if_pos hc']
          simp only [Option.some.injEq, Prod.mk.injEq] at h
          obtain ⟨rfl, rfl⟩ := h
          refine ⟨rfl, ?_⟩
          unfold TR.Local.conv TR.Prob.local
          simp only [decide_eq_true_eq]
          by_cases hk : p.kappa < ‖p.g x‖ ^ p.theta
          · rw [if_pos hk, if_pos hk]; rfl
          · rw [if_neg hk, if_neg hk]; rfl
        · rw [if_neg hc] at h
          have hc' : ¬ (decide (p.minInner ≤ j) && decide (‖(TR.cgMove (p.local x D) s (s.zr / ⟪s.delta, (p.local x D).H s.delta⟫)).r‖ ≤ (p.local x D).tol)) = true := by
            intro h'
            rw [Bool.and_eq_true, decide_eq_true_iff, decide_eq_true_iff] at h'
            exact hc h'
          rw [if_neg hc']
          split at h
          · simp at h
          · have hstep := ih (j + 1) _ eta st h
            have e5 : (-1 : ℝ) • p.P x (TR.cgMove (p.local x D) s (s.zr / ⟪s.delta, (p.local x D).H s.delta⟫)).r +
                (⟪p.P x (TR.cgMove (p.local x D) s (s.zr / ⟪s.delta, (p.local x D).H s.delta⟫)).r, (TR.cgMove (p.local x D) s (s.zr / ⟪s.delta, (p.local x D).H s.delta⟫)).r⟫ / s.zr) • s.delta =
              (TR.cgDir (p.local x D) (TR.cgMove (p.local x D) s (s.zr / ⟪s.delta, (p.local x D).H s.delta⟫)) (s.zr / ⟪s.delta, (p.local x D).H s.delta⟫)
                (TR.ePeNew s (s.zr / ⟪s.delta, (p.local x D).H s.delta⟫))).delta := by
              rw [neg_one_smul, neg_add_eq_sub]
              rfl
            rw [e5]
            exact hstep

/-- `tCG_TR` called with the zero vector computes the step of the algorithm whenever that is defined. -/
theorem tcg_refines (S : Stores env cfg H p φ) (x : X) (D : ℝ) {eta : T x} {st : TRRun.Status}
    (h : TR.tCG (p.local x D) p.maxInner = some (eta, st)) :
    (tcg env cfg (H x) x (φ x (p.g x)) (φ x 0) D).1 = φ x eta ∧ (tcg env cfg (H x) x (φ x (p.g x)) (φ x 0) D).2.1 = tstatusOf st := by
  unfold TR.tCG at h
  have := tcgLoop_refines S x D p.maxInner 0 _ eta st h
  have hs : store φ x (p.local x D).start = ⟨φ x 0, φ x 0, φ x (p.g x), φ x (-p.P x (p.g x)), 0, 0, ⟪p.P x (p.g x), p.g x⟫, ⟪p.P x (p.g x), p.g x⟫, 0⟩ := rfl
  rw [hs] at this
  simp only [tcg, S.rand, S.lit_zero, S.lit_one, S.lit_neg, S.smul, S.precond, S.metric, S.maxInner, Bool.false_eq_true, if_false, one_smul, neg_smul,
    S.sqrt, real_inner_self_eq_norm_sq, Real.sqrt_sq (norm_nonneg (p.g x))]
  exact this

/-- The parameters of the outer loop. -/
noncomputable def outerCfg (env : TREnv ℝ X E) (cfg : TRCfg ℝ X) : TRRun.Cfg ℝ where
  maxIter := cfg.maxIter
  minIter := cfg.minIter
  outputGap := 1
  record := true
  initialDelta := cfg.initDelta
  maximumDelta := cfg.maxDelta
  minimumDelta := cfg.minDelta
  magnified := cfg.magnify
  shrinked := cfg.shrink
  acceptRho := cfg.acceptRho
  accuracy := cfg.accuracy
  tolerance := cfg.tol
  sqeps := env.sqrt env.eps

/-- The predefined stopping criteria as tests on consecutive iterates, `SolversSM.cpp:53-73`. -/
noncomputable def stopOf (cfg : TRCfg ℝ X) (p : TR.Prob X T) (k : Nat) (x y : X) : Bool :=
  match cfg.stop with
  | .user _ => false
  | .funRel => decide (|(p.f x - p.f y) / (|p.f x| + 1)| < cfg.tol) && decide (k > 0)
  | .gradF => decide (‖p.g y‖ < cfg.tol)
  | .gradF0 => decide (‖p.g y‖ / ‖p.g p.x0‖ < cfg.tol)

/-- A predefined criterion is used, and `p` tests it. -/
structure StopsAs (cfg : TRCfg ℝ X) (p : TR.Prob X T) : Prop where
  builtin : ∀ q, cfg.stop ≠ .user q
  start : p.stopped0 = stopOf cfg p 0 p.x0 p.x0
  next : ∀ k x y, p.stopped k x y = stopOf cfg p k x y

/-- Symmetric Hessians, symmetric positive definite preconditioners with an inverse, and inner parameters with which the inner solver
does not break down. -/
structure Regular (p : TR.Prob X T) : Prop where
  sym : ∀ x, QN.IsSym (p.H x)
  spd : ∀ x, QN.IsSPD (p.P x)
  inv : ∀ x, ∃ M, TR.Inverse (p.P x) M
  inner : 0 < p.maxInner
  min0 : p.minInner = 0
  kappa : 0 ≤ p.kappa

variable {M : Type}

theorem radius_refines (S : Stores env cfg H p φ) (o : TRObj ℝ X E M) (st : TRRun.Status) (hst : o.tcg = tstatusOf st) :
    TRRun.radius (outerCfg env cfg) (.num o.rho) st (TRRun.accurate (outerCfg env cfg) o.ngf0 o.ngf1) o.Delta =
      if (trRadius env cfg o).2 then none else some (trRadius env cfg o).1 := by
  have hedge : (o.tcg = .excRegion ∨ o.tcg = .negCurv ∨ o.tcg = .maxIter) ↔ (st = .excRegion ∨ st = .negCurv ∨ st = .maxIter) := by
    rw [hst]; cases st <;> simp [tstatusOf]
  unfold TRRun.radius trRadius TRRun.accurate
  simp only [TRRun.Ratio.gt, TRRun.Ratio.lt, S.exact.lt, S.exact.le, S.lit_75, S.lit_25, hedge, outerCfg, decide_eq_true_eq]
  by_cases h1 : 3 / 4 < o.rho
  · simp only [if_pos h1, Bool.false_eq_true, if_false]; rfl
  · simp only [if_neg h1]
    rw [one_div]
    by_cases h2 : o.rho < 4⁻¹
    · by_cases h3 : o.ngf1 / (o.ngf0 + cfg.tol) < cfg.accuracy
      · simp [h2, h3, not_le.mpr h3]
      · simp [h2, h3, not_lt.mp h3]; rfl
    · simp [h2]

theorem accepts_refines (S : Stores env cfg H p φ) (o : TRObj ℝ X E M) (st : TRRun.Status) (hst : o.tcg = tstatusOf st) :
    TRRun.accepts (outerCfg env cfg) (.num o.rho) st (TRRun.accurate (outerCfg env cfg) o.ngf0 o.ngf1) o.f1 o.f2 = trAccepts env cfg o := by
  have hconv : (o.tcg = .minDec ∨ o.tcg = .lcon ∨ o.tcg = .scon) ↔ (st = .min ∨ st = .lCon ∨ st = .sCon) := by
    rw [hst]; cases st <;> simp [tstatusOf]
  unfold TRRun.accepts trAccepts TRRun.accurate
  simp only [TRRun.Ratio.gt, S.exact.lt, S.exact.abs, S.lit_one, hconv, outerCfg]
  congr!

/-- The members of the object hold the state of the outer loop. -/
structure TRMatches (env : TREnv ℝ X E) (cfg : TRCfg ℝ X) (p : TR.Prob X T) (o : TRObj ℝ X E M) (s : TRRun.St ℝ X) : Prop where
  x1 : o.x1 = s.x1
  f1 : o.f1 = s.f1
  f2 : o.f2 = s.f2
  ngf0 : o.ngf0 = ‖p.g p.x0‖
  ngf1 : o.ngf1 = s.ngf1
  ngf2 : o.ngf2 = s.ngf2
  Delta : o.Delta = s.Delta
  iter : o.iter = s.iter
  grad : o.gf1 = env.grad o.x1
  fun_ : s.funSeries = (o.series.map fun e => some e.1) ++ List.replicate (cfg.maxIter - o.iter) none
  grd : s.gradSeries = (o.series.map fun e => some e.2) ++ List.replicate (cfg.maxIter - o.iter) none
  len : o.series.length = o.iter + 1

/-- The two runs end in the same way. -/
inductive SameEnd (env : TREnv ℝ X E) (cfg : TRCfg ℝ X) (p : TR.Prob X T) : Option (TRObj ℝ X E M) → TRRun.Outcome ℝ X → Prop
  | running : SameEnd env cfg p none .running
  | finished {o s} : TRMatches env cfg p o s → SameEnd env cfg p (some o) (.finished s)

theorem Regular.cand (R : Regular p) {x : X} {D : ℝ} (hD : 0 < D) (hg : p.g x ≠ 0) :
    ∃ eta st, TR.tCG (p.local x D) p.maxInner = some (eta, st) ∧
      p.cand x D = ⟨p.retr x eta, ⟪eta, p.g x + (1 / 2 : ℝ) • p.H x eta⟫, st, true, .nan⟩ ∧ ⟪eta, p.g x + (1 / 2 : ℝ) • p.H x eta⟫ < 0 := by
  obtain ⟨M, hM⟩ := R.inv x
  obtain ⟨⟨eta, st⟩, hr⟩ := TR.C21_tcg_no_breakdown (L := p.local x D) (R.sym x) (R.spd x) hM hD hg R.min0 R.kappa p.maxInner
  refine ⟨eta, st, hr, ?_, ?_⟩
  · unfold TR.Prob.cand; rw [hr]
  · have := (TR.C21_tcg_step (L := p.local x D) (R.sym x) (R.spd x) hM hD hg hr).2.2.1 R.inner
    rw [inner_add_right, inner_smul_right]
    exact this

/-- The trial step and the ratio. -/
theorem trTrial_refines (S : Stores env cfg H p φ) (o : TRObj ℝ X E Unit) (hg : o.gf1 = env.grad o.x1) {eta : T o.x1} {st : TRRun.Status}
    (h : TR.tCG (p.local o.x1 o.Delta) p.maxInner = some (eta, st)) :
    let q := trRatio env (rtr env H) (trTrial env cfg (rtr env H) o)
    q.eta2 = φ o.x1 eta ∧ q.tcg = tstatusOf st ∧ q.x2 = p.retr o.x1 eta ∧ q.f2 = p.f (p.retr o.x1 eta) ∧
      q.rho = (o.f1 - p.f (p.retr o.x1 eta)) / (-⟪eta, p.g o.x1 + (1 / 2 : ℝ) • p.H o.x1 eta⟫) ∧ q.Heta2 = φ o.x1 (p.H o.x1 eta) := by
  have ht := tcg_refines S o.x1 o.Delta h
  have hz : env.smul (env.lit 0 1) o.gf1 = φ o.x1 0 := by rw [hg, S.grad, S.smul, S.lit_zero, zero_smul]
  have hg' : o.gf1 = φ o.x1 (p.g o.x1) := by rw [hg, S.grad]
  have e1 : (trTrial env cfg (rtr env H) o).eta2 = φ o.x1 eta := by
    simp only [trTrial, rtr, hz]
    rw [hg']
    exact ht.1
  have e2 : (trTrial env cfg (rtr env H) o).tcg = tstatusOf st := by
    simp only [trTrial, rtr, hz]
    rw [hg']
    exact ht.2
  have e3 : (trTrial env cfg (rtr env H) o).x2 = p.retr o.x1 eta := by
    have : (trTrial env cfg (rtr env H) o).x2 = env.retr o.x1 (trTrial env cfg (rtr env H) o).eta2 := rfl
    rw [this, e1, S.retr]
  have e4 : (trTrial env cfg (rtr env H) o).f2 = p.f (p.retr o.x1 eta) := by
    have : (trTrial env cfg (rtr env H) o).f2 = env.f (trTrial env cfg (rtr env H) o).x2 := rfl
    rw [this, e3, S.f]
  have e5 : (trRatio env (rtr env H) (trTrial env cfg (rtr env H) o)).Heta2 = φ o.x1 (p.H o.x1 eta) := by
    have : (trRatio env (rtr env H) (trTrial env cfg (rtr env H) o)).Heta2 = H o.x1 (trTrial env cfg (rtr env H) o).eta2 := rfl
    rw [this, e1, S.hess]
  refine ⟨e1, e2, e3, e4, ?_, e5⟩
  have : (trRatio env (rtr env H) (trTrial env cfg (rtr env H) o)).rho =
      (o.f1 - (trTrial env cfg (rtr env H) o).f2) / (-env.metric o.x1 (trTrial env cfg (rtr env H) o).eta2
        (env.axpy (env.lit 1 2) (H o.x1 (trTrial env cfg (rtr env H) o).eta2) o.gf1)) := rfl
  rw [this, e4, e1, S.hess, hg', S.axpy, S.metric, S.lit_half, add_comm]

theorem series_set {A : Type} (l : List A) (g : A → Option ℝ) (a : A) (k m : Nat) (hk : l.length = k + 1) (hm : k < m) :
    ((l.map g) ++ List.replicate (m - k) none).set (k + 1) (g a) = ((l ++ [a]).map g) ++ List.replicate (m - (k + 1)) none := by
  have e : m - k = (m - (k + 1)) + 1 := by omega
  rw [e, List.replicate_succ, List.set_append_right _ _ (by simp [hk])]
  simp [hk]

theorem trLoop_refines (S : Stores env cfg H p φ) (R : Regular p) (hst : StopsAs cfg p) (hmin : cfg.minIter = 0)
    (hmax : 0 < cfg.maxDelta) (hsh : 0 < cfg.shrink) (hmg : 0 < cfg.magnify) (hgr : ∀ k x y, p.stopped k x y = false → p.g y ≠ 0) :
    ∀ (n : Nat) (o : TRObj ℝ X E Unit) (s : TRRun.St ℝ X), TRMatches env cfg p o s → 0 < s.Delta → s.f1 = p.f s.x1 → (s.isstop = false → p.g s.x1 ≠ 0) →
      SameEnd env cfg p (trLoop env cfg (rtr env H) n s.isstop o) (TRRun.loop (outerCfg env cfg) p.env n s) := by
  intro n
  induction n with
  | zero => intro o s _ _ _ _; exact .running
  | succ n ih =>
    intro o s m hD hf hg
    have hcont : ((!s.isstop && decide (o.iter < cfg.maxIter)) || decide (o.iter < cfg.minIter)) = s.continues (outerCfg env cfg) := by
      unfold TRRun.St.continues
      simp only [outerCfg, m.iter]
      congr!
    simp only [trLoop, TRRun.loop, hcont]
    by_cases hc : s.continues (outerCfg env cfg) = true
    swap
    · rw [if_neg hc, if_neg hc]; exact .finished m
    rw [if_pos hc, if_pos hc]
    have hci : s.isstop = false ∧ s.iter < cfg.maxIter := by
      unfold TRRun.St.continues at hc
      simpa [outerCfg, hmin] using hc
    obtain ⟨eta, st, ht, hcand, hneg⟩ := R.cand (p := p) (x := o.x1) (D := o.Delta) (by rw [m.Delta]; exact hD) (by rw [m.x1]; exact hg hci.1)
    obtain ⟨q1, q2, q3, q4, q5, q6⟩ := trTrial_refines S o m.grad ht
    rw [S.finite, if_pos rfl]
    have hcand' : p.env.cand s.iter s.x1 s.Delta = ⟨p.retr o.x1 eta, ⟪eta, p.g o.x1 + (1 / 2 : ℝ) • p.H o.x1 eta⟫, st, true, .nan⟩ := by
      rw [← m.x1, ← m.Delta]; exact hcand
    simp only [TRRun.pass, hcand', Bool.not_true, Bool.false_eq_true, if_false]
    have hratio : TRRun.ratio s.f1 (p.env.f (p.retr o.x1 eta)) (⟨p.retr o.x1 eta, ⟪eta, p.g o.x1 + (1 / 2 : ℝ) • p.H o.x1 eta⟫, st, true, .nan⟩ : TRRun.Cand ℝ X)
        = .num (trRatio env (rtr env H) (trTrial env cfg (rtr env H) o)).rho := by
      unfold TRRun.ratio
      rw [if_neg hneg.ne, q5, m.f1]
      rfl
    rw [hratio]
    generalize hq : trRatio env (rtr env H) (trTrial env cfg (rtr env H) o) = q at *
    have k1 : q.x1 = s.x1 := by rw [← hq, ← m.x1]; rfl
    have k2 : q.f1 = s.f1 := by rw [← hq, ← m.f1]; rfl
    have k3 : q.ngf0 = ‖p.g p.x0‖ := by rw [← hq, ← m.ngf0]; rfl
    have k4 : q.ngf1 = s.ngf1 := by rw [← hq, ← m.ngf1]; rfl
    have k5 : q.ngf2 = s.ngf2 := by rw [← hq, ← m.ngf2]; rfl
    have k6 : q.Delta = s.Delta := by rw [← hq, ← m.Delta]; rfl
    have k7 : q.iter = s.iter := by rw [← hq, ← m.iter]; rfl
    have k8 : q.gf1 = env.grad q.x1 := by rw [← hq]; exact m.grad
    have k9 : q.series = o.series := by rw [← hq]; rfl
    have hrad := radius_refines S q st q2
    have hacc := accepts_refines S q st q2
    rw [k3, k4, k6] at hrad
    rw [k3, k4, k2, q4] at hacc
    have hx0 : p.env.ngf p.env.x0 = ‖p.g p.x0‖ := rfl
    have hfe : p.env.f (p.retr o.x1 eta) = p.f (p.retr o.x1 eta) := rfl
    rw [hx0, hrad, hfe, hacc]
    have hlen1 : s.funSeries.length = cfg.maxIter + 1 := by
      have := m.iter
      rw [m.fun_]; simp [m.len]; omega
    have hlen2 : s.gradSeries.length = cfg.maxIter + 1 := by
      have := m.iter
      rw [m.grd]; simp [m.len]; omega
    by_cases hflag : (trRadius env cfg q).2 = true
    · rw [if_pos hflag, if_pos hflag]
      refine .finished ⟨k1, k2, q4, k3, k4, k5, ?_, k7, k8, ?_, ?_, ?_⟩
      · have : (trRadius env cfg q).1 = q.Delta * cfg.shrink := by
          revert hflag
          unfold trRadius
          split
          · intro h; simp at h
          · split
            · intro _; rfl
            · intro h; simp at h
        show (trRadius env cfg q).1 = s.Delta * cfg.shrink
        rw [this, k6]
      · show s.funSeries = (q.series.map fun e => some e.1) ++ List.replicate (cfg.maxIter - q.iter) none
        rw [k9, k7, ← m.iter]; exact m.fun_
      · show s.gradSeries = (q.series.map fun e => some e.2) ++ List.replicate (cfg.maxIter - q.iter) none
        rw [k9, k7, ← m.iter]; exact m.grd
      · show q.series.length = q.iter + 1
        rw [k9, k7, ← m.iter]; exact m.len
    · rw [if_neg hflag, if_neg hflag]
      have hDpos : 0 < (trRadius env cfg q).1 := by
        unfold trRadius
        have hq0 : 0 < q.Delta := by rw [k6]; exact hD
        split
        · have : 0 < if q.tcg = .excRegion ∨ q.tcg = .negCurv ∨ q.tcg = .maxIter then q.Delta * cfg.magnify else q.Delta := by
            split
            · exact mul_pos hq0 hmg
            · exact hq0
          generalize (if q.tcg = .excRegion ∨ q.tcg = .negCurv ∨ q.tcg = .maxIter then q.Delta * cfg.magnify else q.Delta) = w at this
          by_cases hw : env.lt cfg.maxDelta w = true
          · simp only [if_pos hw]; exact hmax
          · simp only [if_neg hw]; exact this
        · split
          · exact mul_pos hq0 hsh
          · exact hq0
      have hta : trAccepts env cfg { q with Delta := (trRadius env cfg q).1 } = trAccepts env cfg q := rfl
      simp only [hta]
      by_cases ha : trAccepts env cfg q = true
      · rw [if_pos ha, if_pos ha]
        have hw : TRRun.St.writeHist (outerCfg env cfg) (s.accept p.env (p.retr o.x1 eta) (trRadius env cfg q).1) =
            .next { s.accept p.env (p.retr o.x1 eta) (trRadius env cfg q).1 with
              funSeries := s.funSeries.set (s.iter + 1) (some (p.f (p.retr o.x1 eta)))
              gradSeries := s.gradSeries.set (s.iter + 1) (some ‖p.g (p.retr o.x1 eta)‖) } := by
          unfold TRRun.St.writeHist TRRun.St.accept
          simp only [outerCfg, if_true, one_ne_zero, if_false]
          rw [if_neg (by rw [hlen1]; omega)]
          rfl
        rw [hw]
        have hngf : env.sqrt (env.metric q.x2 (env.grad q.x2) (env.grad q.x2)) = ‖p.g (p.retr o.x1 eta)‖ := by
          rw [S.grad, S.norm, q3]
        have hstop : trStopped env cfg (trAccept env (rtr env H) { q with Delta := (trRadius env cfg q).1 }) = p.stopped s.iter s.x1 (p.retr o.x1 eta) := by
          rw [hst.next]
          unfold trStopped stopOf
          have hb := hst.builtin
          revert hb
          cases cfg.stop with
          | user u => intro hb; exact absurd rfl (hb u)
          | funRel =>
            intro _
            have hf1 : s.f1 = p.f s.x1 := hf
            simp only [trAccept, S.exact.lt, S.exact.abs, S.lit_one, q4, k7, k2, hf1]
          | gradF =>
            intro _
            simp only [trAccept, rtr, S.exact.lt, hngf]
          | gradF0 =>
            intro _
            simp only [trAccept, rtr, S.exact.lt, hngf, k3]
        rw [hstop]
        refine ih _ { s.accept p.env (p.retr o.x1 eta) (trRadius env cfg q).1 with
              funSeries := s.funSeries.set (s.iter + 1) (some (p.f (p.retr o.x1 eta)))
              gradSeries := s.gradSeries.set (s.iter + 1) (some ‖p.g (p.retr o.x1 eta)‖) } ?_ hDpos rfl (fun h => hgr _ _ _ h)
        refine ⟨q3, q4, q4, k3, hngf, hngf, rfl, by show q.iter + 1 = s.iter + 1; rw [k7], rfl, ?_, ?_, ?_⟩
        · show s.funSeries.set (s.iter + 1) (some (p.f (p.retr o.x1 eta))) = ((q.series ++ [(q.f2, env.sqrt (env.metric q.x2 (env.grad q.x2) (env.grad q.x2)))]).map fun e => some e.1) ++ List.replicate (cfg.maxIter - (q.iter + 1)) none
          rw [k9, hngf, q4, k7, m.fun_, m.iter]
          exact series_set o.series (fun e => some e.1) (p.f (p.retr o.x1 eta), ‖p.g (p.retr o.x1 eta)‖) s.iter cfg.maxIter (by rw [← m.iter]; exact m.len) hci.2
        · show s.gradSeries.set (s.iter + 1) (some ‖p.g (p.retr o.x1 eta)‖) = ((q.series ++ [(q.f2, env.sqrt (env.metric q.x2 (env.grad q.x2) (env.grad q.x2)))]).map fun e => some e.2) ++ List.replicate (cfg.maxIter - (q.iter + 1)) none
          rw [k9, hngf, q4, k7, m.grd, m.iter]
          exact series_set o.series (fun e => some e.2) (p.f (p.retr o.x1 eta), ‖p.g (p.retr o.x1 eta)‖) s.iter cfg.maxIter (by rw [← m.iter]; exact m.len) hci.2
        · show (q.series ++ [_]).length = q.iter + 1 + 1
          rw [k9, k7, List.length_append, m.len, m.iter]; rfl
      · rw [if_neg ha, if_neg ha]
        have hw : TRRun.St.writeHist (outerCfg env cfg) (s.reject p.env (p.retr o.x1 eta) (trRadius env cfg q).1) =
            .next { s.reject p.env (p.retr o.x1 eta) (trRadius env cfg q).1 with
              funSeries := s.funSeries.set (s.iter + 1) (some (p.f (p.retr o.x1 eta)))
              gradSeries := s.gradSeries.set (s.iter + 1) (some s.ngf2) } := by
          unfold TRRun.St.writeHist TRRun.St.reject
          simp only [outerCfg, if_true, one_ne_zero, if_false]
          rw [if_neg (by rw [hlen1]; omega)]
          rfl
        rw [hw]
        refine ih _ { s.reject p.env (p.retr o.x1 eta) (trRadius env cfg q).1 with
              funSeries := s.funSeries.set (s.iter + 1) (some (p.f (p.retr o.x1 eta)))
              gradSeries := s.gradSeries.set (s.iter + 1) (some s.ngf2) } ?_ hDpos hf hg
        refine ⟨k1, k2, q4, k3, k4, k5, rfl, by show q.iter + 1 = s.iter + 1; rw [k7], k8, ?_, ?_, ?_⟩
        · show s.funSeries.set (s.iter + 1) (some (p.f (p.retr o.x1 eta))) = ((q.series ++ [(q.f2, q.ngf2)]).map fun e => some e.1) ++ List.replicate (cfg.maxIter - (q.iter + 1)) none
          rw [k9, k5, q4, k7, m.fun_, m.iter]
          exact series_set o.series (fun e => some e.1) (p.f (p.retr o.x1 eta), s.ngf2) s.iter cfg.maxIter (by rw [← m.iter]; exact m.len) hci.2
        · show s.gradSeries.set (s.iter + 1) (some s.ngf2) = ((q.series ++ [(q.f2, q.ngf2)]).map fun e => some e.2) ++ List.replicate (cfg.maxIter - (q.iter + 1)) none
          rw [k9, k5, q4, k7, m.grd, m.iter]
          exact series_set o.series (fun e => some e.2) (p.f (p.retr o.x1 eta), s.ngf2) s.iter cfg.maxIter (by rw [← m.iter]; exact m.len) hci.2
        · show (q.series ++ [_]).length = q.iter + 1 + 1
          rw [k9, k7, List.length_append, m.len, m.iter]; rfl

/-- While a run goes on the gradient is not zero and the accuracy branch of the acceptance test is not active. -/
structure Guarded (cfg : TRCfg ℝ X) (p : TR.Prob X T) : Prop where
  start : p.stopped0 = false → p.g p.x0 ≠ 0 ∧ cfg.accuracy ≤ ‖p.g p.x0‖ / (‖p.g p.x0‖ + cfg.tol)
  next : ∀ k x y, p.stopped k x y = false → p.g y ≠ 0 ∧ cfg.accuracy ≤ ‖p.g y‖ / (‖p.g p.x0‖ + cfg.tol)

/-- The run of the object and the run of the algorithm end in the same way. -/
theorem trRun_refines (S : Stores env cfg H p φ) (R : Regular p) (hst : StopsAs cfg p) (G : Guarded cfg p) (hmin : cfg.minIter = 0)
    (hinit : 0 < cfg.initDelta) (hmax : 0 < cfg.maxDelta) (hsh : 0 < cfg.shrink) (hmg : 0 < cfg.magnify) (n : Nat) (o : TRObj ℝ X E Unit) (ho : o.x1 = p.x0) :
    SameEnd env cfg p (trRun env cfg (rtr env H) n o) (TRRun.run (outerCfg env cfg) p.env n) := by
  have hn : env.sqrt (env.metric o.x1 (env.grad o.x1) (env.grad o.x1)) = ‖p.g p.x0‖ := by rw [S.grad, S.norm, ho]
  have hm : TRMatches env cfg p (trPrologue env cfg o) (TRRun.St.init (outerCfg env cfg) p.env) := by
    refine ⟨ho, ?_, ?_, hn, hn, hn, rfl, rfl, rfl, ?_, ?_, rfl⟩
    · show env.f o.x1 = p.f p.x0; rw [S.f, ho]
    · show env.f o.x1 = p.f p.x0; rw [S.f, ho]
    · show some (p.f p.x0) :: List.replicate cfg.maxIter none = some (env.f o.x1) :: List.replicate (cfg.maxIter - 0) none
      rw [S.f, ho]; rfl
    · show some ‖p.g p.x0‖ :: List.replicate cfg.maxIter none = some (env.sqrt (env.metric o.x1 (env.grad o.x1) (env.grad o.x1))) :: List.replicate (cfg.maxIter - 0) none
      rw [hn]; rfl
  have hs : trStopped env cfg (trPrologue env cfg o) = (TRRun.St.init (outerCfg env cfg) p.env).isstop := by
    show _ = p.stopped0
    rw [hst.start]
    unfold trStopped stopOf
    have hb := hst.builtin
    revert hb
    cases cfg.stop with
    | user u => intro hb; exact absurd rfl (hb u)
    | funRel =>
      intro _
      simp [trPrologue]
    | gradF =>
      intro _
      simp only [trPrologue, S.exact.lt, hn]
    | gradF0 =>
      intro _
      simp only [trPrologue, S.exact.lt, hn]
  have key := trLoop_refines S R hst hmin hmax hsh hmg (fun k x y h => (G.next k x y h).1) n _ _ hm hinit rfl (fun h => (G.start h).1)
  unfold trRun TRRun.run
  simp only []
  rw [hs]
  revert key
  generalize trLoop env cfg (rtr env H) n (TRRun.St.init (outerCfg env cfg) p.env).isstop (trPrologue env cfg o) = a
  generalize TRRun.loop (outerCfg env cfg) p.env n (TRRun.St.init (outerCfg env cfg) p.env) = b
  intro key
  cases key with
  | running => exact .running
  | finished m => exact .finished ⟨m.x1, m.f1, m.f2, m.ngf0, m.ngf1, m.ngf2, m.Delta, m.iter, m.grad, m.fun_, m.grd, m.len⟩

/-- No iterate that was left is accurate. -/
theorem guarded_tail (G : Guarded cfg p) (hmin : cfg.minIter = 0) {s : TRRun.St ℝ X} (h : TRRun.Reaches (outerCfg env cfg) p.env s) :
    (s.isstop = false → cfg.accuracy ≤ ‖p.g s.x1‖ / (‖p.g p.x0‖ + cfg.tol)) ∧ s.xs.head? = some s.x1 ∧
    ∀ x ∈ s.xs.tail, TRRun.accurate (outerCfg env cfg) ‖p.g p.x0‖ ‖p.g x‖ = false := by
  induction h with
  | init => exact ⟨fun h => (G.start h).2, rfl, by simp [TRRun.St.init]⟩
  | @step s0 s1 _ hc hp ih =>
    have hci : s0.isstop = false := by
      unfold TRRun.St.continues at hc
      have : s0.isstop = false ∧ s0.iter < cfg.maxIter := by simpa [outerCfg, hmin] using hc
      exact this.1
    obtain ⟨i1, i2, i3⟩ := ih
    have hx : ∀ x ∈ s0.xs, TRRun.accurate (outerCfg env cfg) ‖p.g p.x0‖ ‖p.g x‖ = false := by
      intro x hx
      cases hxs : s0.xs with
      | nil => rw [hxs] at hx; simp at hx
      | cons a l =>
        rw [hxs] at hx i2 i3
        simp only [List.head?_cons, Option.some.injEq] at i2
        rcases List.mem_cons.mp hx with rfl | hx
        · unfold TRRun.accurate
          rw [decide_eq_false_iff_not, not_lt, i2]
          exact i1 hci
        · exact i3 x hx
    obtain ⟨D, _, ⟨_, hw⟩ | ⟨_, hw⟩⟩ := TRRun.pass_next hp
    · obtain ⟨_, e2, e3, _, _, _, _, e8, _⟩ := TRRun.writeHist_next hw
      refine ⟨fun h => ?_, ?_, ?_⟩
      · rw [e3]; rw [e2] at h
        exact (G.next _ _ _ h).2
      · rw [e3, e8]; rfl
      · rw [e8]; exact hx
    · obtain ⟨_, e2, e3, _, _, _, _, e8, _⟩ := TRRun.writeHist_next hw
      refine ⟨fun h => ?_, ?_, ?_⟩
      · rw [e3]; rw [e2] at h
        exact i1 h
      · rw [e3, e8]; rfl
      · rw [e8]; exact hx

end Verif.Obj
