import Verif.Solver.ObjectPG
import Verif.Solver.ObjectRefine
import Verif.Props.ObjectPG
import Verif.Props.ProxConverge
import Verif.Props.Refine
import Mathlib.Algebra.Order.Archimedean.Basic
import Mathlib.Algebra.Order.Ring.Pow

/-!
# C151: what a ManPG object keeps, records and returns
-/

set_option linter.unusedSectionVars false
set_option linter.unusedVariables false

namespace Verif.Obj

variable {K : Type} {X E : Type*} [Field K] [LinearOrder K] [IsStrictOrderedRing K]
variable {env : PGEnv K X E} {cfg : PGCfg K X}

/-! ## Specification -/

/-- The point with parameter `t` on the search curve. -/
def curve (env : PGEnv K X E) (x : X) (eta : E) (t : K) : X := env.retr x (env.smul t eta)

/-- The cost at the parameter `t` is not low enough. -/
def TooHigh (env : PGEnv K X E) (cfg : PGCfg K X) (x : X) (eta : E) (t : K) : Prop := env.f x - env.f (curve env x eta t) < -cfg.alpha * env.metric x (env.grad x) eta * t

/-- The history of a run from `x0`, newest first: every entry comes from a direction of the subproblem and the first of the steps 1, `LS_ratio`, `LS_ratio`², … with sufficient decrease, none but the first below `Minstepsize`. `w0` is the weight the run started with: the weights stay positive. -/
inductive Trail (env : PGEnv K X E) (cfg : PGCfg K X) (w0 : K) (x0 : X) : List (K × K × K) → X → Prop
  | start : Trail env cfg w0 x0 [(env.f x0, 0, 0)] x0
  | step {l : List (K × K × K)} {x : X} (eta : E) (j : Nat) (a tol lam : K) (d : List K) (r : List K × Nat × Nat) (z : X) : Trail env cfg w0 x0 l x → env.prox x (env.grad x) a tol lam d = some (eta, r) → (0 < w0 → 0 < a) →
      (∀ i < j, TooHigh env cfg x eta (cfg.ratio ^ i)) → ¬ TooHigh env cfg x eta (cfg.ratio ^ j) → (j = 0 ∨ cfg.minstep ≤ cfg.ratio ^ j) →
      Trail env cfg w0 x0 ((env.f (curve env x eta (cfg.ratio ^ j)), env.sqrt (env.metric z eta eta), cfg.ratio ^ j) :: l) (curve env x eta (cfg.ratio ^ j))

/-- Both accuracies of the subproblem are at the values at which the solver gives up. -/
def AtFloor (k : PGKept K) : Prop := k.smLam = 1 / 10 ^ 10 ∧ k.smTol = 1 / 10 ^ 24

/-! ## The search -/

/-- The state of the search at the step `LS_ratio ^ j`. -/
structure AtTrial (env : PGEnv K X E) (cfg : PGCfg K X) (x : X) (eta : E) (j : Nat) (s : PGSearch K X E) : Prop where
  ok : s.ok = true
  step : s.step = cfg.ratio ^ j
  point : s.x2 = curve env x eta (cfg.ratio ^ j)
  value : s.f2 = env.f s.x2
  before : ∀ i < j, TooHigh env cfg x eta (cfg.ratio ^ i)
  low : j = 0 ∨ cfg.minstep ≤ cfg.ratio ^ j

theorem pgBacktrack_out (X0 : env.toEnv.Exact) (x : X) (eta : E) : ∀ (n j : Nat) (s s' : PGSearch K X E), AtTrial env cfg x eta j s →
    pgBacktrack env cfg x (env.f x) (env.metric x (env.grad x) eta) eta n s = some s' →
    (∃ j', AtTrial env cfg x eta j' s' ∧ ¬ TooHigh env cfg x eta (cfg.ratio ^ j')) ∨
    (s'.ok = false ∧ ∃ j', (∀ i ≤ j', TooHigh env cfg x eta (cfg.ratio ^ i)) ∧ cfg.ratio ^ (j' + 1) < cfg.minstep) := by
  intro n
  induction n with
  | zero => intro j s s' _ h; simp [pgBacktrack] at h
  | succ n ih =>
    intro j s s' hs h
    unfold pgBacktrack at h
    simp only [X0.lt, decide_eq_true_eq] at h
    have htest : (env.f x - s.f2 < -cfg.alpha * env.metric x (env.grad x) eta * s.step) ↔ TooHigh env cfg x eta (cfg.ratio ^ j) := by
      unfold TooHigh; rw [hs.value, hs.point, hs.step]
    by_cases ht : TooHigh env cfg x eta (cfg.ratio ^ j)
    · rw [if_pos (htest.mpr ht)] at h
      have hstep : s.step * cfg.ratio = cfg.ratio ^ (j + 1) := by rw [hs.step, pow_succ]
      have hall : ∀ i < j + 1, TooHigh env cfg x eta (cfg.ratio ^ i) := by
        intro i hi
        rcases Nat.lt_succ_iff_lt_or_eq.mp hi with h | h
        · exact hs.before i h
        · rw [h]; exact ht
      by_cases hm : s.step * cfg.ratio < cfg.minstep
      · rw [if_pos hm] at h
        cases h
        refine Or.inr ⟨rfl, j, fun i hi => hall i (by omega), ?_⟩
        rw [← hstep]; exact hm
      · rw [if_neg hm] at h
        refine ih (j + 1) _ s' ?_ h
        refine ⟨rfl, hstep, ?_, rfl, hall, Or.inr ?_⟩
        · unfold pgTrial curve; rw [hstep]
        · rw [← hstep]; exact not_lt.mp hm
    · rw [if_neg (fun h => ht (htest.mp h))] at h
      cases h
      exact Or.inl ⟨j, hs, ht⟩

theorem pgBacktrack_ends (X0 : env.toEnv.Exact) {J : Nat} (hJ : cfg.ratio ^ (J + 1) < cfg.minstep) (x : X) (f1 slope : K) (eta : E) : ∀ (n j : Nat) (s : PGSearch K X E), s.step = cfg.ratio ^ j → J < n + j →  j ≤ J →
    ∃ s', pgBacktrack env cfg x f1 slope eta n s = some s' := by
  intro n
  induction n with
  | zero => intro j s _ h1 h2; omega
  | succ n ih =>
    intro j s hs hn hj
    unfold pgBacktrack
    simp only [X0.lt, decide_eq_true_eq]
    split
    · have hstep : s.step * cfg.ratio = cfg.ratio ^ (j + 1) := by rw [hs, pow_succ]
      by_cases hm : s.step * cfg.ratio < cfg.minstep
      · rw [if_pos hm]; exact ⟨_, rfl⟩
      · rw [if_neg hm]
        have hne : j ≠ J := by
          intro h
          rw [hstep, h] at hm
          exact hm hJ
        exact ih (j + 1) _ hstep (by omega) (by omega)
    · exact ⟨_, rfl⟩

/-! ## One pass -/

/-- The members that matter are unchanged. -/
structure Same (o o' : PGObj K X E) : Prop where
  x1 : o'.x1 = o.x1
  f1 : o'.f1 = o.f1
  gf1 : o'.gf1 = o.gf1
  series : o'.series = o.series
  iter : o'.iter = o.iter

/-- The first trial. -/
def firstTrial (env : PGEnv K X E) (o : PGObj K X E) (eta : E) : PGSearch K X E := pgTrial env o.x1 eta (env.lit 1 1) 0

theorem pgPass_next {n : Nat} {st st' : Bool} {o o' : PGObj K X E} (h : pgPass env cfg n st o = .next st' o') :
    ∃ eta d i c s, env.prox o.x1 o.gf1 o.kept.ada o.kept.smTol o.kept.smLam (pgDual env o.kept) = some (eta, d, i, c) ∧
      pgBacktrack env cfg o.x1 o.f1 (env.metric o.x1 o.gf1 eta) eta n (firstTrial env o eta) = some s ∧ o'.ndir1 = env.sqrt (env.metric o.x2 eta eta) ∧
      ((s.ok = false ∧ (env.eq o.kept.smLam (env.lit 1 (10 ^ 10)) && env.eq o.kept.smTol (env.lit 1 (10 ^ 24))) = false ∧ st' = st ∧ Same o o' ∧
          o'.kept.smTol = (if env.lt (env.lit 1 (10 ^ 24)) (o.kept.smTol * env.lit 1 100) then o.kept.smTol * env.lit 1 100 else env.lit 1 (10 ^ 24)) ∧
          o'.kept.smLam = (if env.lt (env.lit 1 (10 ^ 10)) (o.kept.smLam * env.lit 1 10) then o.kept.smLam * env.lit 1 10 else env.lit 1 (10 ^ 10)) ∧ o'.kept.ada = o.kept.ada) ∨
        (s.ok = true ∧ env.finite s.f2 = true ∧ o'.x1 = s.x2 ∧ o'.f1 = s.f2 ∧ o'.gf1 = env.grad s.x2 ∧ o'.series = (s.f2, env.sqrt (env.metric o.x2 eta eta), s.step) :: o.series ∧ o'.iter = o.iter + 1 ∧
          o'.kept.smTol = o.kept.smTol ∧ o'.kept.smLam = o.kept.smLam ∧ o'.kept.ada = pgAda env cfg (env.eq s.step (env.lit 1 1)) o.kept.ada ∧
          (cfg.stop = .gradF → st' = env.lt (env.sqrt (env.metric o.x2 eta eta)) cfg.tol))) := by
  unfold pgPass at h
  cases hp : env.prox o.x1 o.gf1 o.kept.ada o.kept.smTol o.kept.smLam (pgDual env o.kept) with
  | none => rw [hp] at h; cases h
  | some p =>
    obtain ⟨eta, d, i, c⟩ := p
    rw [hp] at h
    dsimp only at h
    cases hb : pgBacktrack env cfg o.x1 o.f1 (env.metric o.x1 o.gf1 eta) eta n (firstTrial env o eta) with
    | none => unfold firstTrial at hb; rw [hb] at h; cases h
    | some s =>
      refine ⟨eta, d, i, c, s, rfl, hb, ?_⟩
      unfold firstTrial at hb
      rw [hb] at h
      dsimp only at h
      by_cases hok : s.ok = true
      · rw [hok] at h
        simp only [Bool.not_true, Bool.false_eq_true, if_false] at h
        by_cases hf : env.finite s.f2 = true
        · rw [hf] at h
          simp only [Bool.not_true, Bool.false_eq_true, if_false] at h
          cases h
          refine ⟨rfl, Or.inr ⟨hok, hf, rfl, rfl, rfl, rfl, rfl, rfl, rfl, rfl, ?_⟩⟩
          intro hst
          unfold pgStopped
          rw [hst]
        · simp only [Bool.not_eq_true] at hf
          rw [hf] at h
          simp only [Bool.not_false, if_true] at h
          cases h
      · simp only [Bool.not_eq_true] at hok
        rw [hok] at h
        simp only [Bool.not_false, if_true] at h
        split at h
        · cases h
        · rename_i hne
          cases h
          exact ⟨rfl, Or.inl ⟨hok, by simpa using hne, rfl, ⟨rfl, rfl, rfl, rfl, rfl⟩, rfl, rfl, rfl⟩⟩

theorem pgPass_leave {n : Nat} {st : Bool} {o o' : PGObj K X E} (h : pgPass env cfg n st o = .leave o') :
    ∃ eta d i c s, env.prox o.x1 o.gf1 o.kept.ada o.kept.smTol o.kept.smLam (pgDual env o.kept) = some (eta, d, i, c) ∧
      pgBacktrack env cfg o.x1 o.f1 (env.metric o.x1 o.gf1 eta) eta n (firstTrial env o eta) = some s ∧ o'.ndir1 = env.sqrt (env.metric o.x2 eta eta) ∧ Same o o' ∧ (o'.kept.ada = o.kept.ada ∨ o'.kept.ada = pgAda env cfg (env.eq s.step (env.lit 1 1)) o.kept.ada) ∧
      ((s.ok = false ∧ (env.eq o.kept.smLam (env.lit 1 (10 ^ 10)) && env.eq o.kept.smTol (env.lit 1 (10 ^ 24))) = true) ∨ (s.ok = true ∧ env.finite s.f2 = false)) := by
  unfold pgPass at h
  cases hp : env.prox o.x1 o.gf1 o.kept.ada o.kept.smTol o.kept.smLam (pgDual env o.kept) with
  | none => rw [hp] at h; cases h
  | some p =>
    obtain ⟨eta, d, i, c⟩ := p
    rw [hp] at h
    dsimp only at h
    cases hb : pgBacktrack env cfg o.x1 o.f1 (env.metric o.x1 o.gf1 eta) eta n (firstTrial env o eta) with
    | none => unfold firstTrial at hb; rw [hb] at h; cases h
    | some s =>
      refine ⟨eta, d, i, c, s, rfl, hb, ?_⟩
      unfold firstTrial at hb
      rw [hb] at h
      dsimp only at h
      by_cases hok : s.ok = true
      · rw [hok] at h
        simp only [Bool.not_true, Bool.false_eq_true, if_false] at h
        by_cases hf : env.finite s.f2 = true
        · rw [hf] at h
          simp only [Bool.not_true, Bool.false_eq_true, if_false] at h
          cases h
        · simp only [Bool.not_eq_true] at hf
          rw [hf] at h
          simp only [Bool.not_false, if_true] at h
          cases h
          exact ⟨rfl, ⟨rfl, rfl, rfl, rfl, rfl⟩, Or.inr rfl, Or.inr ⟨hok, hf⟩⟩
      · simp only [Bool.not_eq_true] at hok
        rw [hok] at h
        simp only [Bool.not_false, if_true] at h
        split at h
        · rename_i hfl
          cases h
          exact ⟨rfl, ⟨rfl, rfl, rfl, rfl, rfl⟩, Or.inl rfl, Or.inl ⟨hok, hfl⟩⟩
        · cases h

/-! ## Runs -/

/-- What the members say between two passes. -/
structure Kept (env : PGEnv K X E) (cfg : PGCfg K X) (w0 : K) (x0 : X) (o : PGObj K X E) : Prop where
  value : o.f1 = env.f o.x1
  grad : o.gf1 = env.grad o.x1
  trail : Trail env cfg w0 x0 o.series o.x1
  length : o.series.length = o.iter + 1
  bound : o.iter ≤ max cfg.maxIter cfg.minIter
  weight : 0 < w0 → 0 < o.kept.ada

theorem Kept.same {w0 : K} {x0 : X} {o o' : PGObj K X E} (I : Kept env cfg w0 x0 o) (S : Same o o') (ha : 0 < o.kept.ada → 0 < o'.kept.ada) : Kept env cfg w0 x0 o' :=
  ⟨by rw [S.f1, S.x1]; exact I.value, by rw [S.gf1, S.x1]; exact I.grad, by rw [S.series, S.x1]; exact I.trail, by rw [S.series, S.iter]; exact I.length, by rw [S.iter]; exact I.bound, fun h => ha (I.weight h)⟩

theorem atTrial_first (X0 : env.toEnv.Exact) (o : PGObj K X E) (eta : E) : AtTrial env cfg o.x1 eta 0 (firstTrial env o eta) := by
  have e1 : env.lit 1 1 = 1 := by rw [X0.lit]; norm_num
  refine ⟨rfl, ?_, ?_, rfl, fun i hi => absurd hi (Nat.not_lt_zero i), Or.inl rfl⟩
  · show env.lit 1 1 = cfg.ratio ^ 0
    rw [e1, pow_zero]
  · show env.retr o.x1 (env.smul (env.lit 1 1) eta) = curve env o.x1 eta (cfg.ratio ^ 0)
    rw [e1, pow_zero]; rfl

theorem pgAda_pos (X0 : env.toEnv.Exact) (full : Bool) {a : K} (ha : 0 < a) : 0 < pgAda env cfg full a := by
  have e1 : env.lit 101 100 = 101 / 100 := by rw [X0.lit]; norm_num
  have e2 : env.lit 1 1 = 1 := by rw [X0.lit]; norm_num
  unfold pgAda
  rw [e1, e2]
  split_ifs
  · positivity
  · positivity
  · exact one_pos
  · exact ha

theorem kept_next (X0 : env.toEnv.Exact) {w0 : K} {x0 : X} {n : Nat} {st st' : Bool} {o o' : PGObj K X E} (I : Kept env cfg w0 x0 o)
    (hc : ((!st && decide (o.iter < cfg.maxIter)) || decide (o.iter < cfg.minIter)) = true) (h : pgPass env cfg n st o = .next st' o') : Kept env cfg w0 x0 o' := by
  obtain ⟨eta, d, i, c, s, hp, hb, -, hcase⟩ := pgPass_next h
  rcases hcase with ⟨-, -, -, S, -, -, ea⟩ | ⟨hok, -, e1, e2, e3, e4, e5, -, -, ea, -⟩
  · exact I.same S (by rw [ea]; exact id)
  · rw [I.value, I.grad] at hb
    rcases pgBacktrack_out X0 _ _ _ _ _ _ (atTrial_first X0 o eta) hb with ⟨j, A, hA⟩ | ⟨hno, -⟩
    · refine ⟨by rw [e1, e2, A.value], by rw [e3, e1], ?_, ?_, ?_, fun hw => by rw [ea]; exact pgAda_pos X0 _ (I.weight hw)⟩
      · rw [e4, e1, A.value, A.point, A.step]
        rw [I.grad] at hp
        exact .step eta j _ _ _ _ (d, i, c) _ I.trail hp I.weight A.before hA A.low
      · rw [e4, e5, List.length_cons, I.length]
      · rw [e5]
        simp only [Bool.or_eq_true, Bool.and_eq_true, decide_eq_true_eq] at hc
        rcases hc with hc | hc
        · exact le_max_of_le_left hc.2
        · exact le_max_of_le_right hc
    · rw [hok] at hno; cases hno

theorem kept_loop (X0 : env.toEnv.Exact) {w0 : K} {x0 : X} : ∀ (n : Nat) (st : Bool) (o o' : PGObj K X E), Kept env cfg w0 x0 o → pgLoop env cfg n st o = .done o' → Kept env cfg w0 x0 o' ∧ o'.lengthSeries = o'.series.length := by
  intro n
  induction n with
  | zero => intro st o o' _ h; simp [pgLoop] at h
  | succ n ih =>
    intro st o o' I h
    unfold pgLoop at h
    by_cases hc : ((!st && decide (o.iter < cfg.maxIter)) || decide (o.iter < cfg.minIter)) = true
    · rw [if_pos hc] at h
      cases hp : pgPass env cfg (n + 1) st o with
      | ub => rw [hp] at h; cases h
      | more => rw [hp] at h; cases h
      | leave p =>
        rw [hp] at h
        cases h
        obtain ⟨eta, d, i, c, s, -, -, -, S, ea, -⟩ := pgPass_leave hp
        have I' := I.same S (fun h => by rcases ea with e | e <;> rw [e]; exacts [h, pgAda_pos X0 _ h])
        exact ⟨⟨I'.value, I'.grad, I'.trail, I'.length, I'.bound, I'.weight⟩, I'.length.symm⟩
      | next st' p =>
        rw [hp] at h
        exact ih st' p o' (kept_next X0 I hc hp) h
    · rw [if_neg hc] at h
      cases h
      exact ⟨⟨I.value, I.grad, I.trail, I.length, I.bound, I.weight⟩, I.length.symm⟩

theorem kept_start (X0 : env.toEnv.Exact) (o : PGObj K X E) : Kept env cfg o.kept.ada o.x1 (pgPrologue env o) := by
  have e0 : env.lit 0 1 = 0 := by rw [X0.lit]; norm_num
  refine ⟨rfl, rfl, ?_, rfl, Nat.zero_le _, id⟩
  show Trail env cfg o.kept.ada o.x1 [(env.f o.x1, env.lit 0 1, env.lit 0 1)] o.x1
  rw [e0]
  exact .start

/-- **C151, the members.** After a run of `ManPG` the value and the gradient kept belong to the returned point, and the recorded values are those of a chain of points from the start to the returned point in which every step is the first of
1, `LS_ratio`, `LS_ratio`², … with sufficient decrease along the direction of a subproblem; the number of iterations is within the limits and the recorded length is right. -/
theorem C151_members (X0 : env.toEnv.Exact) (n : Nat) (o o' : PGObj K X E) (h : pgRun env cfg n o = .done o') :
    o'.f1 = env.f o'.x1 ∧ o'.gf1 = env.grad o'.x1 ∧ Trail env cfg o.kept.ada o.x1 o'.series o'.x1 ∧ o'.iter ≤ max cfg.maxIter cfg.minIter ∧ o'.lengthSeries = o'.iter + 1 ∧ o'.series.length = o'.lengthSeries := by
  obtain ⟨I, hl⟩ := kept_loop X0 n _ _ _ (kept_start X0 o) h
  exact ⟨I.value, I.grad, I.trail, I.bound, hl.trans I.length, hl.symm⟩

theorem Trail.head {w0 : K} {x0 x : X} {l : List (K × K × K)} (h : Trail env cfg w0 x0 l x) : ∃ a l', l = (env.f x, a) :: l' := by
  cases h with
  | start => exact ⟨_, _, rfl⟩
  | step => exact ⟨_, _, rfl⟩

/-- **C151, no increase.** If the directions of the subproblems with positive weights never point up the smooth part, the recorded values, oldest last, never increase, and the returned value is the least. -/
theorem C151_monotone (X0 : env.toEnv.Exact) (ha : 0 ≤ cfg.alpha) (hr : 0 ≤ cfg.ratio) (hdown : ∀ x a tol lam d eta r, 0 < a → env.prox x (env.grad x) a tol lam d = some (eta, r) → env.metric x (env.grad x) eta ≤ 0)
    (n : Nat) (o o' : PGObj K X E) (hw : 0 < o.kept.ada) (h : pgRun env cfg n o = .done o') :
    (o'.series.map Prod.fst).Pairwise (· ≤ ·) ∧ (o'.series.map Prod.fst).head? = some o'.f1 ∧ o'.f1 ≤ env.f o.x1 := by
  obtain ⟨h1, -, h3, -⟩ := C151_members X0 n o o' h
  have key : ∀ (l : List (K × K × K)) (x : X), Trail env cfg o.kept.ada o.x1 l x → (l.map Prod.fst).Pairwise (· ≤ ·) ∧ (∀ v ∈ l.map Prod.fst, env.f x ≤ v) ∧ env.f x ≤ env.f o.x1 := by
    intro l x hT
    induction hT with
    | start => exact ⟨by simp, by simp, le_rfl⟩
    | @step l x eta j a tol lam d r z hT hp hpos hb hA hl ih =>
      obtain ⟨i1, i2, i3⟩ := ih
      have hle : env.f (curve env x eta (cfg.ratio ^ j)) ≤ env.f x := by
        unfold TooHigh at hA
        rw [not_lt] at hA
        have hs := hdown x a tol lam d eta r (hpos hw) hp
        have : 0 ≤ -cfg.alpha * env.metric x (env.grad x) eta * cfg.ratio ^ j := mul_nonneg (by nlinarith) (pow_nonneg hr j)
        linarith
      refine ⟨?_, ?_, hle.trans i3⟩
      · rw [List.map_cons, List.pairwise_cons]
        exact ⟨fun v hv => hle.trans (i2 v hv), i1⟩
      · intro v hv
        rw [List.map_cons, List.mem_cons] at hv
        rcases hv with rfl | hv
        · exact le_rfl
        · exact hle.trans (i2 v hv)
  obtain ⟨k1, k2, k3⟩ := key _ _ h3
  refine ⟨k1, ?_, by rw [h1]; exact k3⟩
  obtain ⟨a, l', e⟩ := h3.head
  rw [e, h1]
  rfl

/-! ## Termination -/

/-- After `r` further refinements the accuracies are at their floors. -/
def Left : Nat → PGKept K → Prop
  | 0, k => AtFloor k
  | r + 1, k => k.smTol * (1 / 100) ^ r ≤ 1 / 10 ^ 24 ∧ k.smLam * (1 / 10) ^ r ≤ 1 / 10 ^ 10

theorem max_left {v q fl : K} (hfl : 0 < fl) (hq0 : 0 < q) (hq1 : q ≤ 1) (r : Nat) (h : v * q ^ (r + 1) ≤ fl) : (if fl < v * q then v * q else fl) * q ^ r ≤ fl := by
  split
  · rw [mul_assoc, ← pow_succ']; exact h
  · exact mul_le_of_le_one_right hfl.le (pow_le_one₀ hq0.le hq1)

theorem floor_lits (X0 : env.toEnv.Exact) : env.lit 1 (10 ^ 24) = 1 / 10 ^ 24 ∧ env.lit 1 (10 ^ 10) = 1 / 10 ^ 10 ∧ env.lit 1 100 = 1 / 100 ∧ env.lit 1 10 = 1 / 10 := by
  refine ⟨?_, ?_, ?_, ?_⟩ <;> (rw [X0.lit]; norm_num)

theorem left_refine (X0 : env.toEnv.Exact) {r : Nat} {k k' : PGKept K} (hk : Left r k) (hne : (env.eq k.smLam (env.lit 1 (10 ^ 10)) && env.eq k.smTol (env.lit 1 (10 ^ 24))) = false)
    (h1 : k'.smTol = (if env.lt (env.lit 1 (10 ^ 24)) (k.smTol * env.lit 1 100) then k.smTol * env.lit 1 100 else env.lit 1 (10 ^ 24)))
    (h2 : k'.smLam = (if env.lt (env.lit 1 (10 ^ 10)) (k.smLam * env.lit 1 10) then k.smLam * env.lit 1 10 else env.lit 1 (10 ^ 10))) : ∃ r', r = r' + 1 ∧ Left r' k' := by
  obtain ⟨l1, l2, l3, l4⟩ := floor_lits X0
  rw [l1, l3, X0.lt] at h1
  rw [l2, l4, X0.lt] at h2
  simp only [decide_eq_true_eq] at h1 h2
  rw [l1, l2, X0.eq, X0.eq] at hne
  cases r with
  | zero =>
    exfalso
    rw [show decide (k.smLam = 1 / 10 ^ 10) = true from decide_eq_true hk.1, show decide (k.smTol = 1 / 10 ^ 24) = true from decide_eq_true hk.2] at hne
    cases hne
  | succ r =>
    refine ⟨r, rfl, ?_⟩
    obtain ⟨a, b⟩ := hk
    have p1 : (0 : K) < 1 / 10 ^ 24 := by positivity
    have p2 : (0 : K) < 1 / 10 ^ 10 := by positivity
    cases r with
    | zero =>
      rw [pow_zero, mul_one] at a b
      have q1 : ¬ ((1 : K) / 10 ^ 24 < k.smTol * (1 / 100)) := by
        rw [not_lt]
        have : k.smTol * (1 / 100) ≤ 1 / 10 ^ 24 * (1 / 100) := mul_le_mul_of_nonneg_right a (by norm_num)
        refine this.trans (mul_le_of_le_one_right p1.le (by norm_num))
      have q2 : ¬ ((1 : K) / 10 ^ 10 < k.smLam * (1 / 10)) := by
        rw [not_lt]
        have : k.smLam * (1 / 10) ≤ 1 / 10 ^ 10 * (1 / 10) := mul_le_mul_of_nonneg_right b (by norm_num)
        refine this.trans (mul_le_of_le_one_right p2.le (by norm_num))
      rw [if_neg q1] at h1
      rw [if_neg q2] at h2
      exact ⟨h2, h1⟩
    | succ r =>
      refine ⟨?_, ?_⟩
      · rw [h1]; exact max_left p1 (by norm_num) (by norm_num) r a
      · rw [h2]; exact max_left p2 (by norm_num) (by norm_num) r b

theorem left_same {r : Nat} {k k' : PGKept K} (hk : Left r k) (h1 : k'.smTol = k.smTol) (h2 : k'.smLam = k.smLam) : Left r k' := by
  cases r with
  | zero => exact ⟨by rw [h2]; exact hk.1, by rw [h1]; exact hk.2⟩
  | succ r => exact ⟨by rw [h1]; exact hk.1, by rw [h2]; exact hk.2⟩

theorem loop_done (X0 : env.toEnv.Exact) (hprox : ∀ x g a tol lam d, env.prox x g a tol lam d ≠ none) {J : Nat} (hJ : cfg.ratio ^ (J + 1) < cfg.minstep) :
    ∀ (k r n : Nat) (st : Bool) (o : PGObj K X E), Left r o.kept → (max cfg.maxIter cfg.minIter - o.iter) + r ≤ k → k + J + 2 ≤ n → ∃ o', pgLoop env cfg n st o = .done o' := by
  have e1 : env.lit 1 1 = 1 := by rw [X0.lit]; norm_num
  intro k
  induction k with
  | zero =>
    intro r n st o hL hk hn
    obtain ⟨m, rfl⟩ : ∃ m, n = m + 1 := ⟨n - 1, by omega⟩
    unfold pgLoop
    rw [if_neg]
    · exact ⟨_, rfl⟩
    · simp only [Bool.or_eq_true, Bool.and_eq_true, decide_eq_true_eq]
      omega
  | succ k ih =>
    intro r n st o hL hk hn
    obtain ⟨m, rfl⟩ : ∃ m, n = m + 1 := ⟨n - 1, by omega⟩
    unfold pgLoop
    by_cases hc : ((!st && decide (o.iter < cfg.maxIter)) || decide (o.iter < cfg.minIter)) = true
    swap
    · rw [if_neg hc]; exact ⟨_, rfl⟩
    rw [if_pos hc]
    have hlt : o.iter < max cfg.maxIter cfg.minIter := by
      simp only [Bool.or_eq_true, Bool.and_eq_true, decide_eq_true_eq] at hc
      omega
    cases hp : pgPass env cfg (m + 1) st o with
    | ub =>
      exfalso
      unfold pgPass at hp
      cases hq : env.prox o.x1 o.gf1 o.kept.ada o.kept.smTol o.kept.smLam (pgDual env o.kept) with
      | none => exact hprox _ _ _ _ _ _ hq
      | some p =>
        obtain ⟨eta, d, i, c⟩ := p
        rw [hq] at hp
        dsimp only at hp
        split at hp
        · cases hp
        · repeat' split at hp
          all_goals cases hp
    | more =>
      exfalso
      unfold pgPass at hp
      cases hq : env.prox o.x1 o.gf1 o.kept.ada o.kept.smTol o.kept.smLam (pgDual env o.kept) with
      | none => rw [hq] at hp; cases hp
      | some p =>
        obtain ⟨eta, d, i, c⟩ := p
        rw [hq] at hp
        dsimp only at hp
        obtain ⟨s, hs⟩ := pgBacktrack_ends (cfg := cfg) X0 hJ o.x1 o.f1 (env.metric o.x1 o.gf1 eta) eta (m + 1) 0 (pgTrial env o.x1 eta (env.lit 1 1) 0)
          (by show env.lit 1 1 = cfg.ratio ^ 0; rw [e1, pow_zero]) (by omega) (Nat.zero_le _)
        rw [hs] at hp
        dsimp only at hp
        repeat' split at hp
        all_goals cases hp
    | leave p => exact ⟨_, rfl⟩
    | next st' p =>
      dsimp only
      obtain ⟨eta, d, i, c, s, -, -, -, hcase⟩ := pgPass_next hp
      rcases hcase with ⟨-, hne, -, S, e1, e2, -⟩ | ⟨-, -, -, -, -, -, e5, e6, e7, -⟩
      · obtain ⟨r', rfl, hL'⟩ := left_refine X0 hL hne e1 e2
        exact ih r' m st' p hL' (by rw [S.iter]; omega) (by omega)
      · exact ih r m st' p (left_same hL e6 e7) (by rw [e5]; omega) (by omega)

/-- **C151, termination.** Whatever the cost, the directions and the accuracies the object has kept from earlier runs: a run ends. -/
theorem C151_ends [Archimedean K] (X0 : env.toEnv.Exact) (hprox : ∀ x g a tol lam d, env.prox x g a tol lam d ≠ none) (h0 : 0 ≤ cfg.ratio) (h1 : cfg.ratio < 1) (hm : 0 < cfg.minstep) (o : PGObj K X E) :
    ∃ n0, ∀ n, n0 ≤ n → ∃ o', pgRun env cfg n o = .done o' := by
  obtain ⟨J, hJ⟩ := exists_pow_lt_of_lt_one hm h1
  have hJ1 : cfg.ratio ^ (J + 1) < cfg.minstep := lt_of_le_of_lt (pow_le_pow_of_le_one h0 h1.le (Nat.le_succ J)) hJ
  have gen : ∀ (a fl q : K), 0 < q → q < 1 → 0 < fl → ∃ n, ∀ m, n ≤ m → a * q ^ m ≤ fl := by
    intro a fl q hq0 hq1 hf
    obtain ⟨n, hn⟩ := exists_pow_lt_of_lt_one (div_pos hf (by linarith [abs_nonneg a] : (0 : K) < |a| + 1)) hq1
    refine ⟨n, fun m hm => ?_⟩
    have h1 : q ^ m ≤ q ^ n := pow_le_pow_of_le_one hq0.le hq1.le hm
    have h2 : q ^ m * (|a| + 1) ≤ fl := by
      rw [← le_div_iff₀ (by linarith [abs_nonneg a] : (0 : K) < |a| + 1)]
      exact le_trans h1 hn.le
    have h3 := pow_nonneg hq0.le m
    have h4 := mul_le_mul_of_nonneg_right (le_abs_self a) h3
    nlinarith
  obtain ⟨n1, hn1⟩ := gen o.kept.smTol (1 / 10 ^ 24) (1 / 100) (by norm_num) (by norm_num) (by positivity)
  obtain ⟨n2, hn2⟩ := gen o.kept.smLam (1 / 10 ^ 10) (1 / 10) (by norm_num) (by norm_num) (by positivity)
  have hL : Left (n1 + n2 + 1) (pgPrologue env o).kept := ⟨hn1 _ (Nat.le_add_right ..), hn2 _ (Nat.le_add_left ..)⟩
  refine ⟨(max cfg.maxIter cfg.minIter + (n1 + n2 + 1)) + J + 2, fun n hn => ?_⟩
  exact loop_done X0 hprox hJ1 (max cfg.maxIter cfg.minIter + (n1 + n2 + 1)) (n1 + n2 + 1) n _ (pgPrologue env o) hL (by show max cfg.maxIter cfg.minIter - 0 + _ ≤ _; omega) hn

/-! ## Reaching the tolerance -/

/-- What the directions found with the weight `ada` do when the weight exceeds the curvature (`C128`): every part of a direction decreases the cost, and long directions pass the test of the search. -/
structure Gains (env : PGEnv K X E) (cfg : PGCfg K X) (x0 : X) (ada w thr : K) : Prop where
  total : ∀ x g a tol lam d, env.prox x g a tol lam d ≠ none
  gain : ∀ x tol lam d eta r, env.prox x (env.grad x) ada tol lam d = some (eta, r) → ∀ t, 0 ≤ t → t ≤ 1 → env.f (curve env x eta t) ≤ env.f x - t * (w * env.metric x eta eta)
  accept : ∀ x tol lam d eta r, env.f x ≤ env.f x0 → env.prox x (env.grad x) ada tol lam d = some (eta, r) → thr ≤ env.sqrt (env.metric x eta eta) → -cfg.alpha * env.metric x (env.grad x) eta ≤ w * env.metric x eta eta
  long : ∀ x u, thr ≤ env.sqrt (env.metric x u u) → thr * thr ≤ env.metric x u u
  nonneg : ∀ x u, 0 ≤ env.metric x u u
  const : ∀ x y u v, env.metric x u v = env.metric y u v
  finite : ∀ v, env.finite v = true
  pos : 0 ≤ w

/-- The last direction: found at the returned point or at the point before it, from which a part of it leads to the returned point. -/
def LastDirection (env : PGEnv K X E) (ada : K) (o : PGObj K X E) : Prop :=
  ∃ x tol lam d eta r, env.prox x (env.grad x) ada tol lam d = some (eta, r) ∧ o.ndir1 = env.sqrt (env.metric x eta eta) ∧ (o.x1 = x ∨ ∃ t, 0 ≤ t ∧ t ≤ 1 ∧ o.x1 = curve env x eta t)

/-- The invariant of the passes. -/
structure Progress (env : PGEnv K X E) (cfg : PGCfg K X) (x0 : X) (ada w thr : K) (st : Bool) (o : PGObj K X E) : Prop where
  kept : Kept env cfg ada x0 o
  weight : o.kept.ada = ada
  level : env.f o.x1 ≤ env.f x0
  run : st = false → o.iter * (w * (thr * thr)) ≤ env.f x0 - env.f o.x1
  stop : st = true → 1 ≤ o.iter ∧ (o.iter - 1) * (w * (thr * thr)) ≤ env.f x0 - env.f o.x1 ∧ o.ndir1 < thr ∧ LastDirection env ada o

theorem progress_next (X0 : env.toEnv.Exact) {x0 : X} {ada w thr : K} (G : Gains env cfg x0 ada w thr) (hthr : 0 < thr) (hstop : cfg.stop = .gradF) (htol : cfg.tol = thr) (had : cfg.adaptive = false) (hmin : cfg.minIter = 0)
    (h0 : 0 ≤ cfg.ratio) (h1 : cfg.ratio ≤ 1) {n : Nat} {st st' : Bool} {o o' : PGObj K X E} (I : Progress env cfg x0 ada w thr st o)
    (hc : ((!st && decide (o.iter < cfg.maxIter)) || decide (o.iter < cfg.minIter)) = true) (h : pgPass env cfg n st o = .next st' o') : Progress env cfg x0 ada w thr st' o' := by
  have hK := kept_next X0 I.kept hc h
  have hst : st = false := by
    rw [hmin] at hc
    cases st with
    | false => rfl
    | true => simp at hc
  obtain ⟨eta, d, i, c, s, hp, hb, hnd, hcase⟩ := pgPass_next h
  rw [G.const o.x2 o.x1] at hnd
  rw [I.kept.grad, I.weight] at hp
  rcases hcase with ⟨-, -, e, S, -, -, ea⟩ | ⟨hok, hf, e1, e2, e3, e4, e5, -, -, ea, es⟩
  · subst e
    refine ⟨hK, by rw [ea, I.weight], by rw [S.x1]; exact I.level, fun h => by rw [S.x1, S.iter]; exact I.run h, fun h => ?_⟩
    rw [hst] at h; cases h
  · rw [I.kept.value, I.kept.grad] at hb
    rcases pgBacktrack_out X0 _ _ _ _ _ _ (atTrial_first X0 o eta) hb with ⟨j, A, hA⟩ | ⟨hno, -⟩
    swap
    · rw [hok] at hno; cases hno
    have hpt : o'.x1 = curve env o.x1 eta (cfg.ratio ^ j) := by rw [e1, A.point]
    have ht0 : (0 : K) ≤ cfg.ratio ^ j := pow_nonneg h0 j
    have ht1 : cfg.ratio ^ j ≤ 1 := pow_le_one₀ h0 h1
    have hdec := G.gain _ _ _ _ _ _ hp _ ht0 ht1
    rw [← hpt] at hdec
    have hw : 0 ≤ w * env.metric o.x1 eta eta := mul_nonneg G.pos (G.nonneg _ _)
    have hle : env.f o'.x1 ≤ env.f o.x1 := by
      have := mul_nonneg ht0 hw
      linarith
    have hst' : st' = decide (o'.ndir1 < thr) := by
      rw [es hstop, X0.lt, htol, hnd, G.const o.x2 o.x1]
    have hada : o'.kept.ada = ada := by rw [ea]; unfold pgAda; rw [had, I.weight]; rfl
    have hrun := I.run hst
    refine ⟨hK, hada, hle.trans I.level, fun hf => ?_, fun ht => ?_⟩
    · rw [hst', decide_eq_false_iff_not, not_lt, hnd] at hf
      have hacc := G.accept _ _ _ _ _ _ I.level hp hf
      have hlong := G.long _ _ hf
      -- the first step is accepted
      have hj : j = 0 := by
        by_contra hne
        have := A.before 0 (Nat.pos_of_ne_zero hne)
        unfold TooHigh at this
        rw [pow_zero, mul_one] at this
        have hd1 := G.gain _ _ _ _ _ _ hp 1 zero_le_one le_rfl
        rw [one_mul] at hd1
        linarith
      rw [hj, pow_zero, one_mul] at hdec
      have hg : w * (thr * thr) ≤ w * env.metric o.x1 eta eta := mul_le_mul_of_nonneg_left hlong G.pos
      rw [e5]; push_cast
      linarith
    · rw [hst', decide_eq_true_iff] at ht
      refine ⟨by rw [e5]; omega, ?_, ht, ⟨o.x1, _, _, _, eta, _, hp, hnd, Or.inr ⟨_, ht0, ht1, hpt⟩⟩⟩
      rw [e5]; push_cast
      linarith

theorem progress_loop (X0 : env.toEnv.Exact) {x0 : X} {ada w thr Fmin : K} (G : Gains env cfg x0 ada w thr) (hthr : 0 < thr) (hstop : cfg.stop = .gradF) (htol : cfg.tol = thr) (had : cfg.adaptive = false) (hmin : cfg.minIter = 0)
    (h0 : 0 ≤ cfg.ratio) (h1 : cfg.ratio ≤ 1) (hbelow : ∀ x, Fmin ≤ env.f x) (hmax : env.f x0 - Fmin < cfg.maxIter * (w * (thr * thr))) : ∀ (n : Nat) (st : Bool) (o o' : PGObj K X E), Progress env cfg x0 ada w thr st o →
    pgLoop env cfg n st o = .done o' → env.f o'.x1 ≤ env.f x0 ∧ (o'.iter - 1) * (w * (thr * thr)) ≤ env.f x0 - env.f o'.x1 ∧ o'.ndir1 < thr ∧ LastDirection env ada o' := by
  have hg : 0 ≤ w * (thr * thr) := mul_nonneg G.pos (mul_nonneg hthr.le hthr.le)
  intro n
  induction n with
  | zero => intro st o o' _ h; simp [pgLoop] at h
  | succ n ih =>
    intro st o o' I h
    unfold pgLoop at h
    by_cases hc : ((!st && decide (o.iter < cfg.maxIter)) || decide (o.iter < cfg.minIter)) = true
    · rw [if_pos hc] at h
      cases hp : pgPass env cfg (n + 1) st o with
      | ub => rw [hp] at h; cases h
      | more => rw [hp] at h; cases h
      | leave p =>
        rw [hp] at h
        cases h
        have hst : st = false := by
          rw [hmin] at hc
          cases st with
          | false => rfl
          | true => simp at hc
        obtain ⟨eta, d, i, c, s, hq, hb, hnd, S, -, hcase⟩ := pgPass_leave hp
        rw [G.const o.x2 o.x1] at hnd
        rw [I.kept.grad, I.weight] at hq
        have hrun := I.run hst
        refine ⟨by show env.f p.x1 ≤ _; rw [S.x1]; exact I.level, ?_, ?_, ⟨o.x1, _, _, _, eta, _, hq, hnd, Or.inl S.x1⟩⟩
        · show ((p.iter : K) - 1) * _ ≤ env.f x0 - env.f p.x1
          rw [S.x1, S.iter]
          linarith
        · show p.ndir1 < thr
          rcases hcase with ⟨hok, -⟩ | ⟨-, hfin⟩
          · rw [I.kept.value, I.kept.grad] at hb
            rcases pgBacktrack_out X0 _ _ _ _ _ _ (atTrial_first X0 o eta) hb with ⟨j, A, -⟩ | ⟨-, j, hj, -⟩
            · rw [A.ok] at hok; cases hok
            · by_contra hcon
              rw [not_lt, hnd] at hcon
              have hacc := G.accept _ _ _ _ _ _ I.level hq hcon
              have h2 := hj 0 (Nat.zero_le _)
              unfold TooHigh at h2
              rw [pow_zero, mul_one] at h2
              have hd1 := G.gain _ _ _ _ _ _ hq 1 zero_le_one le_rfl
              rw [one_mul] at hd1
              linarith
          · rw [G.finite] at hfin; cases hfin
      | next st' p =>
        rw [hp] at h
        exact ih st' p o' (progress_next X0 G hthr hstop htol had hmin h0 h1 I hc hp) h
    · rw [if_neg hc] at h
      cases h
      cases st with
      | true =>
        obtain ⟨i1, i2, i3, i4⟩ := I.stop rfl
        exact ⟨I.level, i2, i3, i4⟩
      | false =>
        exfalso
        rw [hmin] at hc
        simp only [Bool.not_false, Bool.true_and, not_lt_zero, decide_false, Bool.or_false, decide_eq_true_eq, not_lt] at hc
        have h2 := I.run rfl
        have h3 := hbelow o.x1
        have h4 : (cfg.maxIter : K) ≤ o.iter := by exact_mod_cast hc
        have h5 := mul_le_mul_of_nonneg_right h4 hg
        linarith

/-- **C151, convergence.** With a fixed weight above the curvature, a metric that does not depend on the point and the criterion `NSM_DIR_F` a run of `ManPG` ends, whatever the object did before, with a reported norm of the direction below the
tolerance; that norm belongs to the direction at the returned point or at the one before it. The value is not above the initial one and every iteration but the last has gained `w * Tolerance²`. -/
theorem C151_converges [Archimedean K] (X0 : env.toEnv.Exact) {w thr Fmin : K} (o : PGObj K X E) (G : Gains env cfg o.x1 o.kept.ada w thr) (hthr : 0 < thr) (hthr1 : thr ≤ 1) (hstop : cfg.stop = .gradF) (htol : cfg.tol = thr)
    (had : cfg.adaptive = false) (hmin : cfg.minIter = 0) (h0 : 0 ≤ cfg.ratio) (h1 : cfg.ratio < 1) (hm : 0 < cfg.minstep) (hbelow : ∀ x, Fmin ≤ env.f x) (hmax : env.f o.x1 - Fmin < cfg.maxIter * (w * (thr * thr))) :
    ∃ n0, ∀ n, n0 ≤ n → ∃ o', pgRun env cfg n o = .done o' ∧ o'.f1 = env.f o'.x1 ∧ env.f o'.x1 ≤ env.f o.x1 ∧ (o'.iter - 1) * (w * (thr * thr)) ≤ env.f o.x1 - env.f o'.x1 ∧ o'.ndir1 < thr ∧
      LastDirection env o.kept.ada o' := by
  obtain ⟨n0, hn0⟩ := C151_ends X0 G.total h0 h1 hm o
  refine ⟨n0, fun n hn => ?_⟩
  obtain ⟨o', e⟩ := hn0 n hn
  refine ⟨o', e, (C151_members X0 n o o' e).1, ?_⟩
  have e1 : env.lit 1 1 = 1 := by rw [X0.lit]; norm_num
  have hs0 : pgStopped env cfg (pgPrologue env o) = false := by
    unfold pgStopped
    rw [hstop]
    show env.lt (env.lit 1 1) cfg.tol = false
    rw [X0.lt, e1, htol]
    exact decide_eq_false (not_lt.mpr hthr1)
  unfold pgRun at e
  dsimp only at e
  rw [hs0] at e
  refine progress_loop X0 G hthr hstop htol had hmin h0 h1.le hbelow hmax n false (pgPrologue env o) o' ?_ e
  refine ⟨kept_start X0 o, rfl, le_rfl, fun _ => ?_, fun h => by cases h⟩
  show ((0 : Nat) : K) * _ ≤ env.f o.x1 - env.f o.x1
  simp

/-! ## Exactly solved composite problems -/

section Composite

variable {V : Type} [NormedAddCommGroup V] [InnerProductSpace ℝ V] {Y : Type}

open scoped RealInnerProductSpace

/-- The environment evaluates the composite problem `P` of `C128`, with the subproblem for the weight `ada` solved exactly, whatever the accuracies and the starting dual vector. -/
structure Evaluates (env : PGEnv ℝ Y V) (P : Verif.PG.PGProb Y V) (ada : ℝ) : Prop where
  f : ∀ x, env.f x = P.F x
  grad : ∀ x, env.grad x = P.grad x
  retr : ∀ x v, env.retr x v = P.retr x v
  smul : ∀ (t : ℝ) v, env.smul t v = t • v
  metric : ∀ x u v, env.metric x u v = ⟪u, v⟫
  sqrt : ∀ a, env.sqrt a = Real.sqrt a
  finite : ∀ v, env.finite v = true
  total : ∀ x g a tol lam d, env.prox x g a tol lam d ≠ none
  dir : ∀ x tol lam d eta r, env.prox x (env.grad x) ada tol lam d = some (eta, r) → eta = P.dir x

/-- **C151, composite problems.** The problems of `C128` have the properties that `C151_converges` asks for: the curvature is at most the weight and `LS_alpha` is small against the tolerance. -/
theorem C151_composite {env : PGEnv ℝ Y V} {cfg : PGCfg ℝ Y} {P : Verif.PG.PGProb Y V} {x0 : Y} {Fmin w g ada thr : ℝ} (D : Evaluates env P ada) (S : Verif.PG.PGSetting P x0 Fmin w g) (ha : 0 ≤ cfg.alpha)
    (hthr : 0 < thr) (hfloor : 2 * cfg.alpha * g ≤ w * thr) : Gains env cfg x0 ada (w / 2) thr where
  total := D.total
  gain x tol lam d eta r hp t h0 h1 := by
    have e := D.dir _ _ _ _ _ _ hp
    have h := S.decrease x h0 h1
    unfold curve
    rw [D.f, D.f, D.retr, D.smul, D.metric, e, real_inner_self_eq_norm_sq]
    exact h
  accept x tol lam d eta r hx hp hd := by
    have e := D.dir _ _ _ _ _ _ hp
    rw [D.metric, D.sqrt, e, real_inner_self_eq_norm_sq, Real.sqrt_sq (norm_nonneg _)] at hd
    rw [D.f, D.f] at hx
    rw [D.metric, D.metric, D.grad, e, real_inner_self_eq_norm_sq]
    have h2 := S.bound x hx
    have h3 : -(‖P.grad x‖ * ‖P.dir x‖) ≤ ⟪P.grad x, P.dir x⟫ := (abs_le.mp (abs_real_inner_le_norm _ _)).1
    have hn := norm_nonneg (P.dir x)
    have h4 : ‖P.grad x‖ * ‖P.dir x‖ ≤ g * ‖P.dir x‖ := mul_le_mul_of_nonneg_right h2 hn
    have h5 : cfg.alpha * (-⟪P.grad x, P.dir x⟫) ≤ cfg.alpha * (g * ‖P.dir x‖) := mul_le_mul_of_nonneg_left (by linarith) ha
    have h6 : 2 * cfg.alpha * g * ‖P.dir x‖ ≤ w * ‖P.dir x‖ * ‖P.dir x‖ := mul_le_mul_of_nonneg_right (hfloor.trans (mul_le_mul_of_nonneg_left hd S.wpos.le)) hn
    nlinarith
  long x u h := by
    rw [D.metric, D.sqrt, real_inner_self_eq_norm_sq, Real.sqrt_sq (norm_nonneg _)] at h
    rw [D.metric, real_inner_self_eq_norm_sq, sq]
    exact mul_self_le_mul_self hthr.le h
  nonneg x u := by rw [D.metric]; exact real_inner_self_nonneg
  const x y u v := by rw [D.metric, D.metric]
  finite := D.finite
  pos := by linarith [S.wpos]

end Composite

/-! ## Where the reported norm is not that of a direction -/

/-- **C151, no step at all.** With `NSM_DIR_F` and a tolerance above one a run ends before any subproblem is solved: the norm is set to one before the loop and compared with the tolerance. -/
theorem C151_no_direction (X0 : env.toEnv.Exact) (hstop : cfg.stop = .gradF) (htol : 1 < cfg.tol) (hmin : cfg.minIter = 0) (n : Nat) (o : PGObj K X E) :
    ∃ o', pgRun env cfg (n + 1) o = .done o' ∧ o'.x1 = o.x1 ∧ o'.iter = 0 ∧ o'.ndir1 = 1 := by
  have e1 : env.lit 1 1 = 1 := by rw [X0.lit]; norm_num
  have hs : pgStopped env cfg (pgPrologue env o) = true := by
    unfold pgStopped
    rw [hstop]
    show env.lt (env.lit 1 1) cfg.tol = true
    rw [X0.lt, e1]
    exact decide_eq_true htol
  refine ⟨{ pgPrologue env o with lengthSeries := 1 }, ?_, rfl, rfl, e1⟩
  unfold pgRun
  dsimp only
  rw [hs]
  unfold pgLoop
  rw [if_neg]
  · rfl
  · rw [hmin]; simp

/-- The half-line of positive numbers with the metric `u v / x²`, the cost `x² / 2` and its gradient in that metric. -/
def pgHalfLine : PGEnv ℚ ℚ ℚ := { pgLine 1 0 with metric := fun x u v => u * v / (x * x), grad := fun x => x * x * x }

/-- **C151, negation.** When the metric depends on the point the reported norm, and with it the stopping test, is that of the direction in the metric of another point: this run ends after two iterations with a reported norm
below the tolerance 1/100, while the norm of that direction at the point where it was found (`x2` after the exchange) is above it. -/
theorem C151_metric_elsewhere :
    (match pgRun pgHalfLine { pgLineCfg false (1 / 1000) 9 with tol := 1 / 100 } 20 (pgLineNew 1 0 1) with
      | .done o => (match pgHalfLine.prox o.x2 (pgHalfLine.grad o.x2) o.kept.ada o.kept.smTol o.kept.smLam [] with
        | some (eta, _) => some (o.iter, o.x2, decide (o.ndir1 < 1 / 100), o.ndir1, pgHalfLine.sqrt (pgHalfLine.metric o.x2 eta eta))
        | none => none)
      | _ => none) = some (2, 1 / 5, true, 4 / 625, 4 / 125) := by
  decide +kernel

/-! ## Instances -/

/-- `x² / 2` on the line, with subproblems that are solved less exactly the larger the second accuracy is. -/
noncomputable def pgParabola : PGEnv ℝ ℝ ℝ where
  lit n d := (n : ℝ) / d
  lt a b := decide (a < b)
  le a b := decide (a ≤ b)
  eq a b := decide (a = b)
  sqrt := Real.sqrt
  abs a := |a|
  finite _ := true
  inf := 0
  eps := 1 / 2 ^ 52
  f x := x * x / 2
  grad x := x
  precond _ v := v
  metric _ u v := u * v
  retr x v := x + v
  dretr _ _ _ v := v
  transport _ _ _ v := v
  smul a v := a * v
  lin a u b v := a * u + b * v
  dimNor := 0
  prox _ g a _ lam d := some (-(1 - max 0 (min lam 1) / 2) * g / a, d, 1, 1)

theorem exact_parabola : pgParabola.toEnv.Exact where
  lt _ _ := rfl
  le _ _ := rfl
  eq _ _ := rfl
  lit _ _ := rfl
  abs _ := rfl

/-- Parameters of the instance. -/
noncomputable def parabolaCfg : PGCfg ℝ ℝ := ⟨2000, 0, 1 / 10, 1 / 10000, 1 / 2, 1 / 1000, false, .gradF⟩

/-- Non-trivial instance of `C151_converges`: from 3, after whatever the object did before. -/
example (o : PGObj ℝ ℝ ℝ) (ho : o.kept.ada = 1) (hx : o.x1 = 3) : ∃ n0, ∀ n, n0 ≤ n → ∃ o', pgRun pgParabola parabolaCfg n o = .done o' ∧ o'.f1 ≤ 9 / 2 ∧ o'.ndir1 < 1 / 10 := by
  have hc : ∀ lam : ℝ, 0 ≤ max 0 (min lam 1) ∧ max 0 (min lam 1) ≤ 1 := fun lam => ⟨le_max_left _ _, max_le zero_le_one (min_le_right _ _)⟩
  have hdir : ∀ (x tol lam : ℝ) d eta r, pgParabola.prox x (pgParabola.grad x) o.kept.ada tol lam d = some (eta, r) → ∃ c : ℝ, 1 / 2 ≤ c ∧ c ≤ 1 ∧ eta = -c * x := by
    intro x tol lam d eta r h
    simp only [pgParabola, Option.some.injEq, Prod.mk.injEq] at h
    obtain ⟨c1, c2⟩ := hc lam
    refine ⟨1 - max 0 (min lam 1) / 2, by linarith, by linarith, ?_⟩
    rw [← h.1, ho, div_one]
  have G : Gains pgParabola parabolaCfg o.x1 o.kept.ada (1 / 2) (1 / 10) := by
    refine ⟨fun _ _ _ _ _ _ h => by simp [pgParabola] at h, ?_, ?_, ?_, fun _ u => mul_self_nonneg u, fun _ _ _ _ => rfl, fun _ => rfl, by norm_num⟩
    · intro x tol lam d eta r h t h0 h1
      obtain ⟨c, c1, c2, rfl⟩ := hdir _ _ _ _ _ _ h
      show (x + t * (-c * x)) * (x + t * (-c * x)) / 2 ≤ x * x / 2 - t * (1 / 2 * (-c * x * (-c * x)))
      have h2 : t * c * (2 - t * c - c) * (x * x) ≥ 0 := by
        have : t * c ≤ 1 := mul_le_one₀ h1 (by linarith) c2
        exact mul_nonneg (mul_nonneg (mul_nonneg h0 (by linarith)) (by linarith)) (mul_self_nonneg x)
      nlinarith
    · intro x tol lam d eta r _ h _
      obtain ⟨c, c1, c2, rfl⟩ := hdir _ _ _ _ _ _ h
      show -(1 / 10000 : ℝ) * (x * (-c * x)) ≤ 1 / 2 * (-c * x * (-c * x))
      have h2 : c * (c / 2 - 1 / 10000) * (x * x) ≥ 0 := mul_nonneg (mul_nonneg (by linarith) (by linarith)) (mul_self_nonneg x)
      nlinarith
    · intro x u h
      have h' : (1 / 10 : ℝ) ≤ Real.sqrt (u * u) := h
      rw [Real.sqrt_mul_self_eq_abs] at h'
      show (1 / 10 : ℝ) * (1 / 10) ≤ u * u
      rw [← abs_mul_abs_self u]
      exact mul_self_le_mul_self (by norm_num) h'
  obtain ⟨n0, hn⟩ := C151_converges (Fmin := 0) exact_parabola o G (by norm_num) (by norm_num) rfl rfl rfl rfl (by show (0 : ℝ) ≤ 1 / 2; norm_num) (by show (1 / 2 : ℝ) < 1; norm_num) (by show (0 : ℝ) < 1 / 1000; norm_num)
    (fun x => div_nonneg (mul_self_nonneg x) (by norm_num)) (by rw [hx]; show (3 : ℝ) * 3 / 2 - 0 < ((2000 : ℕ) : ℝ) * (1 / 2 * (1 / 10 * (1 / 10))); norm_num)
  refine ⟨n0, fun n h => ?_⟩
  obtain ⟨o', e, e1, e2, -, e3, -⟩ := hn n h
  refine ⟨o', e, ?_, e3⟩
  rw [e1]
  refine e2.trans ?_
  rw [hx]
  show (3 : ℝ) * 3 / 2 ≤ 9 / 2
  norm_num

/-- Non-trivial instance of `C151_members` and `C151_monotone`: three iterations with recorded values. -/
example : ∃ o', pgRun (pgLine 1 1) (pgLineCfg true 0 3) 9 (pgLineNew 1 1 1) = .done o' ∧ o'.iter = 3 ∧ (o'.series.map Prod.fst).Pairwise (· ≤ ·) ∧ Trail (pgLine 1 1) (pgLineCfg true 0 3) 1 1 o'.series o'.x1 := by
  have h : (match pgRun (pgLine 1 1) (pgLineCfg true 0 3) 9 (pgLineNew 1 1 1) with | .done r => decide (r.iter = 3 ∧ (r.series.map Prod.fst).Pairwise (· ≤ ·)) | _ => false) = true := by decide +kernel
  cases hr : pgRun (pgLine 1 1) (pgLineCfg true 0 3) 9 (pgLineNew 1 1 1) with
  | ub => rw [hr] at h; cases h
  | more => rw [hr] at h; cases h
  | done r =>
    rw [hr] at h
    simp only [decide_eq_true_eq] at h
    exact ⟨r, rfl, h.1, h.2, (C151_members (exact_line 1) _ _ _ hr).2.2.1⟩

/-- The hypothesis on the directions in `C151_monotone`, for positive weights. -/
example : ∀ x a tol lam d eta r, 0 < a → pgParabola.prox x (pgParabola.grad x) a tol lam d = some (eta, r) → pgParabola.metric x (pgParabola.grad x) eta ≤ 0 := by
  intro x a tol lam d eta r ha h
  simp only [pgParabola, Option.some.injEq, Prod.mk.injEq] at h ⊢
  have h1 : max 0 (min lam 1) ≤ (1 : ℝ) := max_le zero_le_one (min_le_right _ _)
  rw [← h.1]
  have : x * (-(1 - max 0 (min lam 1) / 2) * x / a) = -((1 - max 0 (min lam 1) / 2) * (x * x) / a) := by ring
  rw [this, neg_nonpos]
  exact div_nonneg (mul_nonneg (by linarith) (mul_self_nonneg x)) ha.le

end Verif.Obj
