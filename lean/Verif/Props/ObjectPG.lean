import Verif.Solver.ObjectPG
import Verif.Props.Object

/-!
# Reusing a proximal-gradient solver object (C26, C129)

The arithmetic is arbitrary, so the theorems hold for the machine numbers of the library.
-/

namespace Verif.Obj

set_option linter.unusedSectionVars false

variable {K X E : Type*} [Add K] [Sub K] [Mul K] [Div K] [Neg K]

/-! ## Specification -/

/-- What the caller can read after a run. -/
structure PGOutcome (K X : Type*) where
  x : X
  f : K
  f2 : K
  ndir : K
  ndir0 : K
  iter : Nat
  series : List (K × K × K)
  lengthSeries : Nat

/-- The readable results of an object. -/
def pgOutcome (o : PGObj K X E) : PGOutcome K X := ⟨o.x1, o.f1, o.f2, o.ndir1, o.ndir0, o.iter, o.series, o.lengthSeries⟩

/-- Same results and the same amount of work, or both runs are undefined, or both exceed the allowed number of passes. -/
def SamePGRun (o o' : PGObj K X E) : PGOut K X E → PGOut K X E → Prop
  | .ub, .ub => True
  | .more, .more => True
  | .done s, .done s' => pgOutcome s = pgOutcome s' ∧ s.cnt.nf + o'.cnt.nf = s'.cnt.nf + o.cnt.nf ∧ s.cnt.ng + o'.cnt.ng = s'.cnt.ng + o.cnt.ng ∧
      s.cnt.nR + o'.cnt.nR = s'.cnt.nR + o.cnt.nR ∧ s.cnt.nV + o'.cnt.nV = s'.cnt.nV + o.cnt.nV ∧ s.cnt.sm + o'.cnt.sm = s'.cnt.sm + o.cnt.sm ∧ s.cnt.cg + o'.cnt.cg = s'.cnt.cg + o.cnt.cg
  | _, _ => False

/-- The stopping test does not use the length of the recorded series. -/
def PGStopIgnoresLength (cfg : PGCfg K X) : Prop := ∀ p, cfg.stop = .user p → ∀ x s l l' a c, p x s l a c = p x s l' a c

/-- Solving the subproblem from one or the other dual vector gives the same direction and the same counters, and again related dual vectors: what is needed of the dual vectors two objects start with. -/
structure Alike (env : PGEnv K X E) (R : List K → List K → Prop) : Prop where
  prox : ∀ x g a t l d d', R d d' →
    (env.prox x g a t l d = none ∧ env.prox x g a t l d' = none) ∨
      ∃ e r r' i c, env.prox x g a t l d = some (e, r, i, c) ∧ env.prox x g a t l d' = some (e, r', i, c) ∧ R r r'

/-! ## Members that matter -/

variable {env : PGEnv K X E} {cfg : PGCfg K X} {R : List K → List K → Prop}

/-- Two objects in the middle of a run that will go on alike: `c`, `c'` are the counters at the start. -/
structure Sim (env : PGEnv K X E) (cfg : PGCfg K X) (R : List K → List K → Prop) (c c' : PGCounts) (o o' : PGObj K X E) : Prop where
  x1 : o.x1 = o'.x1
  x2 : o.x2 = o'.x2
  f1 : o.f1 = o'.f1
  f2 : o.f2 = o'.f2
  gf1 : o.gf1 = o'.gf1
  ndir0 : o.ndir0 = o'.ndir0
  ndir1 : o.ndir1 = o'.ndir1
  iter : o.iter = o'.iter
  series : o.series = o'.series
  len : PGStopIgnoresLength cfg ∨ o.lengthSeries = o'.lengthSeries
  ada : o.kept.ada = o'.kept.ada
  smTol : o.kept.smTol = o'.kept.smTol
  smLam : o.kept.smLam = o'.kept.smLam
  dual : R (pgDual env o.kept) (pgDual env o'.kept)
  nf : o.cnt.nf + c'.nf = o'.cnt.nf + c.nf
  ng : o.cnt.ng + c'.ng = o'.cnt.ng + c.ng
  nR : o.cnt.nR + c'.nR = o'.cnt.nR + c.nR
  nV : o.cnt.nV + c'.nV = o'.cnt.nV + c.nV
  sm : o.cnt.sm + c'.sm = o'.cnt.sm + c.sm
  cg : o.cnt.cg + c'.cg = o'.cnt.cg + c.cg

theorem pgStopped_congr {o o' : PGObj K X E} (h1 : o.x2 = o'.x2) (h2 : o.series = o'.series) (h3 : PGStopIgnoresLength cfg ∨ o.lengthSeries = o'.lengthSeries) (h4 : o.ndir1 = o'.ndir1) (h5 : o.ndir0 = o'.ndir0)
    (h6 : o.f1 = o'.f1) (h7 : o.f2 = o'.f2) (h8 : o.iter = o'.iter) : pgStopped env cfg o = pgStopped env cfg o' := by
  unfold pgStopped
  cases hS : cfg.stop with
  | user p =>
    simp only
    rw [h1, h2, h4, h5]
    rcases h3 with h3 | h3
    · exact h3 p hS _ _ _ _ _ _
    · rw [h3]
  | funRel => simp only [h6, h7, h8]
  | gradF => simp only [h4]
  | gradF0 => simp only [h4, h5]

theorem pgPass_sim (hA : Alike env R) {c c' : PGCounts} (n : Nat) (st : Bool) {o o' : PGObj K X E} (h : Sim env cfg R c c' o o') :
    (pgPass env cfg n st o = .ub ∧ pgPass env cfg n st o' = .ub) ∨ (pgPass env cfg n st o = .more ∧ pgPass env cfg n st o' = .more) ∨
      (∃ s s', pgPass env cfg n st o = .leave s ∧ pgPass env cfg n st o' = .leave s' ∧ Sim env cfg R c c' s s') ∨
      ∃ b s s', pgPass env cfg n st o = .next b s ∧ pgPass env cfg n st o' = .next b s' ∧ Sim env cfg R c c' s s' := by
  obtain ⟨a1, a2, a3, a4, a5, a6, a7, a8, a9, a10, a11, a12, a13, a14, a15, a16, a17, a18, a19, a20⟩ := h
  have hp := hA.prox o.x1 o.gf1 o.kept.ada o.kept.smTol o.kept.smLam _ _ a14
  rcases hp with ⟨p1, p2⟩ | ⟨e, r, r', i, k, p1, p2, p3⟩
  · left
    unfold pgPass
    rw [p1, ← a1, ← a5, ← a11, ← a12, ← a13, p2]
    exact ⟨rfl, rfl⟩
  · right
    unfold pgPass
    rw [p1, ← a1, ← a5, ← a11, ← a12, ← a13, p2]
    simp only
    rw [← a3]
    cases hs : pgBacktrack env cfg o.x1 o.f1 (env.metric o.x1 o.gf1 e) e n (pgTrial env o.x1 e (env.lit 1 1) 0) with
    | none => exact Or.inl ⟨rfl, rfl⟩
    | some s =>
      right
      simp only
      by_cases hok : s.ok = true
      · rw [hok]
        simp only [Bool.not_true, Bool.false_eq_true, if_false]
        by_cases hf : env.finite s.f2 = true
        · simp only [hf, Bool.not_true, Bool.false_eq_true, if_false]
          right
          have hst : ∀ (q q' : PGObj K X E), q.x2 = q'.x2 → q.series = q'.series → (PGStopIgnoresLength cfg ∨ q.lengthSeries = q'.lengthSeries) → q.ndir1 = q'.ndir1 → q.ndir0 = q'.ndir0 → q.f1 = q'.f1 →
            q.f2 = q'.f2 → q.iter = q'.iter → pgStopped env cfg q = pgStopped env cfg q' := fun q q' => pgStopped_congr
          refine ⟨_, _, _, rfl, (congrArg (fun b => PGPass.next b _) (hst _ _ ?_ ?_ ?_ ?_ ?_ ?_ ?_ ?_)).symm, ?_⟩
          case refine_3 => exact a10
          case refine_9 => constructor <;> simp only [← a2, ← a6, ← a8, ← a9, ← a11, ← a12, ← a13, a1, a5, pgDual] <;> first | exact a10 | exact p3 | omega
          all_goals simp only [← a2, ← a6, ← a8, ← a9, ← a3]
        · simp only [Bool.not_eq_true] at hf
          simp only [hf, Bool.not_false, if_true]
          left
          refine ⟨_, _, rfl, rfl, ?_⟩
          constructor <;> simp only [← a2, ← a6, ← a8, ← a9, ← a3, ← a11, ← a12, ← a13, a1, a5, pgDual] <;> first | exact a10 | exact p3 | omega
      · simp only [Bool.not_eq_true] at hok
        rw [hok]
        simp only [Bool.not_false, if_true]
        by_cases hc : (env.eq o.kept.smLam (env.lit 1 (10 ^ 10)) && env.eq o.kept.smTol (env.lit 1 (10 ^ 24))) = true
        · rw [if_pos hc, ← a13, ← a12, if_pos hc]
          left
          refine ⟨_, _, rfl, rfl, ?_⟩
          constructor <;> simp only [← a2, ← a6, ← a8, ← a9, ← a3, ← a11, ← a12, ← a13, a1, a5, pgDual] <;> first | exact a10 | exact p3 | omega
        · rw [if_neg hc, ← a13, ← a12, if_neg hc]
          right
          refine ⟨_, _, _, rfl, rfl, ?_⟩
          constructor <;> simp only [← a2, ← a6, ← a8, ← a9, ← a3, ← a11, ← a12, ← a13, a1, a5, pgDual] <;> first | exact a10 | exact p3 | omega

theorem Sim.done {c c' : PGCounts} {o o' : PGObj K X E} {s s' : PGObj K X E} (ho : o.cnt = c) (ho' : o'.cnt = c') (h : Sim env cfg R c c' s s') :
    SamePGRun o o' (.done { s with lengthSeries := s.iter + 1 }) (.done { s' with lengthSeries := s'.iter + 1 }) := by
  subst ho ho'
  refine ⟨?_, h.nf, h.ng, h.nR, h.nV, h.sm, h.cg⟩
  simp only [pgOutcome, h.x1, h.f1, h.f2, h.ndir1, h.ndir0, h.iter, h.series]

theorem pgLoop_sim (hA : Alike env R) {q q' : PGObj K X E} (n : Nat) (st : Bool) {o o' : PGObj K X E} (h : Sim env cfg R q.cnt q'.cnt o o') : SamePGRun q q' (pgLoop env cfg n st o) (pgLoop env cfg n st o') := by
  induction n generalizing st o o' with
  | zero => exact trivial
  | succ n ih =>
    simp only [pgLoop]
    rw [← h.iter]
    by_cases hc : ((!st && decide (o.iter < cfg.maxIter)) || decide (o.iter < cfg.minIter)) = true
    · rw [if_pos hc, if_pos hc]
      rcases pgPass_sim hA (n + 1) st h with ⟨e, e'⟩ | ⟨e, e'⟩ | ⟨s, s', e, e', hs⟩ | ⟨b, s, s', e, e', hs⟩
      · rw [e, e']; exact trivial
      · rw [e, e']; exact trivial
      · rw [e, e']; exact hs.done rfl rfl
      · rw [e, e']; exact ih b hs
    · rw [if_neg hc, if_neg hc, h.iter]
      have := h.done (o := q) (o' := q') rfl rfl
      rw [h.iter] at this
      exact this

/-- **C129.** Two objects at the same point run alike, whatever all their other members hold, if they agree in `adavalue`, `SMtol`, `SMlambda` and start their subproblems from dual vectors that do not make a difference. -/
theorem C129_run_independent (hA : Alike env R) (n : Nat) (o o' : PGObj K X E) (hx : o.x1 = o'.x1) (hx2 : o.x2 = o'.x2) (ha : o.kept.ada = o'.kept.ada) (ht : o.kept.smTol = o'.kept.smTol)
    (hl : o.kept.smLam = o'.kept.smLam) (hd : R (pgDual env o.kept) (pgDual env o'.kept)) (hlen : PGStopIgnoresLength cfg ∨ o.lengthSeries = o'.lengthSeries) :
    SamePGRun o o' (pgRun env cfg n o) (pgRun env cfg n o') := by
  have hsim : Sim env cfg R o.cnt o'.cnt (pgPrologue env o) (pgPrologue env o') := by
    constructor <;> simp only [pgPrologue, hx, hx2, ha, ht, hl]
    all_goals first | exact hlen | exact hd | omega
  unfold pgRun
  simp only
  rw [pgStopped_congr hsim.x2 hsim.series hsim.len hsim.ndir1 hsim.ndir0 hsim.f1 hsim.f2 hsim.iter]
  exact pgLoop_sim hA n _ hsim

/-! ## `SetProbX` on a used object -/

/-- Invariant of the members `Run` keeps, along the loop. -/
theorem pgPass_kept (P : PGKept K → Prop)
    (hP : ∀ k e d i c (x : X) g, P k → env.prox x g k.ada k.smTol k.smLam (pgDual env k) = some (e, d, i, c) → P { k with initD := some d })
    (hada : ∀ b k, P k → P { k with ada := pgAda env cfg b k.ada })
    (hfail : ∀ (x : X) f sl (e : E) n s, pgBacktrack env cfg x f sl e n (pgTrial env x e (env.lit 1 1) 0) = some s → s.ok = true)
    (n : Nat) (st : Bool) (o : PGObj K X E) (h : P o.kept) :
    (∀ s, pgPass env cfg n st o = .leave s → P s.kept) ∧ ∀ b s, pgPass env cfg n st o = .next b s → P s.kept := by
  unfold pgPass
  cases hp : env.prox o.x1 o.gf1 o.kept.ada o.kept.smTol o.kept.smLam (pgDual env o.kept) with
  | none => exact ⟨fun _ h => by simp at h, fun _ _ h => by simp at h⟩
  | some r =>
    obtain ⟨e, d, i, c⟩ := r
    simp only
    cases hs : pgBacktrack env cfg o.x1 o.f1 (env.metric o.x1 o.gf1 e) e n (pgTrial env o.x1 e (env.lit 1 1) 0) with
    | none => exact ⟨fun _ h => by simp at h, fun _ _ h => by simp at h⟩
    | some s =>
      have hok := hfail _ _ _ _ _ _ hs
      have hk := hada (env.eq s.step (env.lit 1 1)) _ (hP _ _ _ _ _ _ _ h hp)
      simp only [hok, Bool.not_true, Bool.false_eq_true, if_false]
      by_cases hf : env.finite s.f2 = true
      · simp only [hf, Bool.not_true, Bool.false_eq_true, if_false]
        refine ⟨fun _ h => by simp at h, fun _ _ h => ?_⟩
        obtain ⟨-, rfl⟩ := PGPass.next.inj h
        exact hk
      · simp only [Bool.not_eq_true] at hf
        simp only [hf, Bool.not_false, if_true]
        refine ⟨fun _ h => ?_, fun _ _ h => by simp at h⟩
        obtain rfl := PGPass.leave.inj h
        exact hk

theorem pgLoop_kept (P : PGKept K → Prop)
    (hP : ∀ k e d i c (x : X) g, P k → env.prox x g k.ada k.smTol k.smLam (pgDual env k) = some (e, d, i, c) → P { k with initD := some d })
    (hada : ∀ b k, P k → P { k with ada := pgAda env cfg b k.ada })
    (hfail : ∀ (x : X) f sl (e : E) n s, pgBacktrack env cfg x f sl e n (pgTrial env x e (env.lit 1 1) 0) = some s → s.ok = true)
    (n : Nat) (st : Bool) (o r : PGObj K X E) (h : P o.kept) (hr : pgLoop env cfg n st o = .done r) : P r.kept := by
  induction n generalizing st o with
  | zero => simp [pgLoop] at hr
  | succ n ih =>
    simp only [pgLoop] at hr
    by_cases hc : ((!st && decide (o.iter < cfg.maxIter)) || decide (o.iter < cfg.minIter)) = true
    · rw [if_pos hc] at hr
      have hk := pgPass_kept P hP hada hfail (n + 1) st o h
      cases hp : pgPass env cfg (n + 1) st o with
      | ub => rw [hp] at hr; cases hr
      | more => rw [hp] at hr; cases hr
      | leave s =>
        rw [hp] at hr
        obtain rfl := PGOut.done.inj hr
        exact hk.1 s hp
      | next b s =>
        rw [hp] at hr
        exact ih b s (hk.2 b s hp) hr
    · rw [if_neg hc] at hr
      obtain rfl := PGOut.done.inj hr
      exact h

/-- The subproblem keeps the length of the dual vector, and its result depends on the start only through the length. -/
structure StartFree (env : PGEnv K X E) : Prop where
  len : ∀ x g a t l d e r i c, env.prox x g a t l d = some (e, r, i, c) → r.length = d.length
  same : ∀ x g a t l (d d' : List K), d.length = d'.length →
    (env.prox x g a t l d).map (fun r => (r.1, r.2.2)) = (env.prox x g a t l d').map fun r => (r.1, r.2.2)

theorem StartFree.alike (h : StartFree env) (m : Nat) : Alike env fun d d' => d.length = m ∧ d'.length = m := by
  refine ⟨fun x g a t l d d' ⟨h1, h2⟩ => ?_⟩
  have hs := h.same x g a t l d d' (h1.trans h2.symm)
  cases hd : env.prox x g a t l d with
  | none =>
    rw [hd] at hs
    cases hd' : env.prox x g a t l d' with
    | none => exact Or.inl ⟨rfl, rfl⟩
    | some r => rw [hd'] at hs; simp at hs
  | some r =>
    rw [hd] at hs
    cases hd' : env.prox x g a t l d' with
    | none => rw [hd'] at hs; simp at hs
    | some r' =>
      rw [hd'] at hs
      obtain ⟨e, q, i, c⟩ := r
      obtain ⟨e', q', i', c'⟩ := r'
      simp only [Option.map_some, Option.some.injEq, Prod.mk.injEq] at hs
      obtain ⟨rfl, rfl, rfl⟩ := hs
      exact Or.inr ⟨e, q, q', i, c, rfl, rfl, (h.len _ _ _ _ _ _ _ _ _ _ hd).trans h1, (h.len _ _ _ _ _ _ _ _ _ _ hd').trans h2⟩

/-- **C129.** With the regular variant: after a run on one problem in which no search failed, `SetProbX` to a second problem whose normal spaces have the same dimension gives the run of a new object, provided the subproblem solver of both problems is insensitive
to the dual vector it starts with. -/
theorem C129_reuse {env' : PGEnv K X E} {cfg' : PGCfg K X} (hlit : env'.lit = env.lit) (hdim : env'.dimNor = env.dimNor) (hreg : cfg.adaptive = false)
    (hfail : ∀ (x : X) f sl (e : E) n s, pgBacktrack env cfg x f sl e n (pgTrial env x e (env.lit 1 1) 0) = some s → s.ok = true)
    (h : StartFree env) (h' : StartFree env') (hlen : PGStopIgnoresLength cfg') (m n : Nat) (empty : E) (x x' : X) (junk junk' r : PGObj K X E)
    (hr : pgRun env cfg m (pgNew env empty x junk) = .done r) :
    SamePGRun (pgSetProbX empty x' r) (pgNew env' empty x' junk') (pgRun env' cfg' n (pgSetProbX empty x' r)) (pgRun env' cfg' n (pgNew env' empty x' junk')) := by
  have hk : r.kept.ada = env.lit 1 1 ∧ r.kept.smTol = env.lit 1 (10 ^ 10) ∧ r.kept.smLam = env.lit 2 10 ∧ (pgDual env r.kept).length = env.dimNor := by
    refine pgLoop_kept (cfg := cfg) (fun k => k.ada = env.lit 1 1 ∧ k.smTol = env.lit 1 (10 ^ 10) ∧ k.smLam = env.lit 2 10 ∧ (pgDual env k).length = env.dimNor) ?_ ?_ hfail m _ _ r ?_ hr
    · intro k e d i c x g ⟨a1, a2, a3, a4⟩ hp
      exact ⟨a1, a2, a3, (h.len _ _ _ _ _ _ _ _ _ _ hp).trans a4⟩
    · intro b k ⟨a1, a2, a3, a4⟩
      refine ⟨?_, a2, a3, a4⟩
      simp only [pgAda, hreg, Bool.false_eq_true, if_false]
      exact a1
    · exact ⟨rfl, rfl, rfl, by simp [pgDual, pgPrologue, pgNew, pgSetProbX]⟩
  obtain ⟨k1, k2, k3, k4⟩ := hk
  refine C129_run_independent (h'.alike env.dimNor) n _ _ rfl rfl ?_ ?_ ?_ ⟨?_, ?_⟩ (Or.inl hlen)
  · simp only [pgSetProbX, pgNew, hlit]; exact k1
  · simp only [pgSetProbX, pgNew, hlit]; exact k2
  · simp only [pgSetProbX, pgNew, hlit]; exact k3
  · simp only [pgSetProbX]
    unfold pgDual at k4 ⊢
    cases hi : r.kept.initD with
    | none => simp [hdim]
    | some d => rw [hi] at k4; exact k4
  · simp [pgDual, pgSetProbX, pgNew, hdim]

/-- **C129, negation.** A used object has a dual vector; if it is shorter than the dimension of the normal spaces of the next problem and the subproblem reads as many entries as that dimension, the next run is undefined whenever it makes a pass. -/
theorem C129_larger_problem_ub (hread : ∀ x g a t l d, d.length < env.dimNor → env.prox x g a t l d = none) (n : Nat) (empty : E) (x : X) (o : PGObj K X E) (d : List K) (hd : o.kept.initD = some d)
    (hlt : d.length < env.dimNor) (hgo : (pgStopped env cfg (pgPrologue env (pgSetProbX empty x o)) = false ∧ 0 < cfg.maxIter) ∨ 0 < cfg.minIter) :
    pgRun env cfg (n + 1) (pgSetProbX empty x o) = .ub := by
  unfold pgRun
  simp only [pgLoop]
  have hc : ((!pgStopped env cfg (pgPrologue env (pgSetProbX empty x o)) && decide ((pgPrologue env (pgSetProbX empty x o)).iter < cfg.maxIter)) ||
      decide ((pgPrologue env (pgSetProbX empty x o)).iter < cfg.minIter)) = true := by
    rcases hgo with ⟨h1, h2⟩ | h2
    · rw [h1]; simp [pgPrologue, h2]
    · simp [pgPrologue, h2]
  rw [if_pos hc]
  have hp : pgPass env cfg (n + 1) (pgStopped env cfg (pgPrologue env (pgSetProbX empty x o))) (pgPrologue env (pgSetProbX empty x o)) = .ub := by
    unfold pgPass
    rw [hread _ _ _ _ _ _ (by simp only [pgDual, pgPrologue, pgSetProbX, hd]; exact hlt)]
  rw [hp]

/-! ## Instances on the line -/

/-- `c / 2 * x ^ 2` on the line with weight `adavalue`, `m` multipliers; the subproblem is solved up to the relative error `SMlambda`. -/
def pgLine (c : ℚ) (m : Nat) : PGEnv ℚ ℚ ℚ where
  toEnv := lineEnv c
  dimNor := m
  prox _ g a _ l d := if d.length < m then none else some (-g / a * (1 - l), d, 1, 1)

/-- Parameters: the regular or the adaptive variant, a smallest step and a maximal number of iterations. -/
def pgLineCfg (adaptive : Bool) (minstep : ℚ) (k : Nat) : PGCfg ℚ ℚ := ⟨k, 0, 1 / 10000, 1 / 10000, 1 / 2, minstep, adaptive, .gradF⟩

/-- A new object. -/
def pgLineNew (c : ℚ) (m : Nat) (x : ℚ) : PGObj ℚ ℚ ℚ := pgNew (pgLine c m) 0 x ⟨7, 7, 7, 7, 7, 7, 7, 7, 7, 7, 7, 7, 7, 7, 7, 7, false, 7, [], 7, ⟨7, 7, 7, 7, 7, 7⟩, ⟨7, 7, 7, none⟩⟩

/-- What is compared below. -/
def pgShow : PGOut ℚ ℚ ℚ → Option (ℚ × Nat)
  | .done o => some (o.x1, o.iter)
  | _ => none

/-- `SetProbX` and `Run` on what an earlier run left. -/
def pgAgain (c : ℚ) (m : Nat) (cfg : PGCfg ℚ ℚ) (n : Nat) (x : ℚ) : PGOut ℚ ℚ ℚ → PGOut ℚ ℚ ℚ
  | .done o => pgRun (pgLine c m) cfg n (pgSetProbX 0 x o)
  | r => r

theorem pgLine_free (c : ℚ) (m : Nat) : StartFree (pgLine c m) := by
  constructor
  · intro x g a t l d e r i k h
    simp only [pgLine] at h
    by_cases hd : d.length < m
    · rw [if_pos hd] at h; cases h
    · rw [if_neg hd] at h
      simp only [Option.some.injEq, Prod.mk.injEq] at h
      rw [h.2.1]
  · intro x g a t l d d' h
    simp only [pgLine, h]
    by_cases hd : d'.length < m
    · rw [if_pos hd, if_pos hd]
    · rw [if_neg hd, if_neg hd]; rfl

theorem pgLine_never_fails (c : ℚ) (m k : Nat) (x f sl e : ℚ) (n : Nat) (s : PGSearch ℚ ℚ ℚ)
    (h : pgBacktrack (pgLine c m) (pgLineCfg false 0 k) x f sl e n (pgTrial (pgLine c m) x e ((pgLine c m).lit 1 1) 0) = some s) : s.ok = true := by
  suffices H : ∀ n (q : PGSearch ℚ ℚ ℚ), q.ok = true → 0 ≤ q.step → pgBacktrack (pgLine c m) (pgLineCfg false 0 k) x f sl e n q = some s → s.ok = true by
    exact H n _ rfl (by simp only [pgTrial, pgLine, lineEnv]; decide +kernel) h
  intro n
  induction n with
  | zero => intro q _ _ h; simp [pgBacktrack] at h
  | succ n ih =>
    intro q hq h0 h
    simp only [pgBacktrack] at h
    by_cases h1 : (pgLine c m).lt (f - q.f2) (-(pgLineCfg false 0 k).alpha * sl * q.step) = true
    · rw [if_pos h1] at h
      have ht : 0 ≤ q.step * (pgLineCfg false 0 k).ratio := Rat.mul_nonneg h0 (show (0 : ℚ) ≤ 1 / 2 by decide +kernel)
      have h2 : ¬(pgLine c m).lt (q.step * (pgLineCfg false 0 k).ratio) (pgLineCfg false 0 k).minstep = true := by
        simp only [pgLine, lineEnv, decide_eq_true_eq]
        exact Rat.not_lt.2 ht
      rw [if_neg h2] at h
      exact ih _ rfl ht h
    · rw [if_neg h1] at h
      obtain rfl := Option.some.inj h
      exact hq

/-- Non-trivial instance of `C129_reuse`: a run of three iterations, then another problem of the same size. -/
example : ∃ r, pgRun (pgLine 1 1) (pgLineCfg false 0 3) 9 (pgLineNew 1 1 1) = .done r ∧ r.iter = 3 ∧ r.kept.initD = some [0] ∧
    SamePGRun (pgSetProbX 0 2 r) (pgLineNew (1 / 2) 1 2) (pgRun (pgLine (1 / 2) 1) (pgLineCfg true 0 3) 9 (pgSetProbX 0 2 r)) (pgRun (pgLine (1 / 2) 1) (pgLineCfg true 0 3) 9 (pgLineNew (1 / 2) 1 2)) ∧
    pgShow (pgRun (pgLine (1 / 2) 1) (pgLineCfg false 0 3) 9 (pgLineNew (1 / 2) 1 2)) = some (54 / 125, 3) := by
  have h : (match pgRun (pgLine 1 1) (pgLineCfg false 0 3) 9 (pgLineNew 1 1 1) with | .done r => decide (r.iter = 3 ∧ r.kept.initD = some [0]) | _ => false) = true := by decide +kernel
  cases hr : pgRun (pgLine 1 1) (pgLineCfg false 0 3) 9 (pgLineNew 1 1 1) with
  | ub => rw [hr] at h; cases h
  | more => rw [hr] at h; cases h
  | done r =>
    rw [hr] at h
    simp only [decide_eq_true_eq] at h
    refine ⟨r, rfl, h.1, h.2, ?_, by decide +kernel⟩
    exact C129_reuse (env := pgLine 1 1) (cfg := pgLineCfg false 0 3) (env' := pgLine (1 / 2) 1) (cfg' := pgLineCfg true 0 3) rfl rfl rfl (fun x f sl e n s => pgLine_never_fails 1 1 3 x f sl e n s) (pgLine_free 1 1) (pgLine_free (1 / 2) 1)
      (fun p hp => by cases hp) 9 9 0 1 2 _ _ r hr

/-- The hypotheses of `C129_larger_problem_ub` after a run on a problem with one multiplier. -/
example : pgShow (pgRun (pgLine 1 1) (pgLineCfg false (1 / 50) 3) 9 (pgLineNew 1 1 1)) = some (1 / 125, 3) := by decide +kernel

/-- **C129, negation.** The run of a used object after `SetProbX` to a problem with more multipliers is undefined; a new object solves that problem. -/
theorem C129_larger_problem :
    (match pgAgain 1 2 (pgLineCfg false (1 / 50) 3) 9 1 (pgRun (pgLine 1 1) (pgLineCfg false (1 / 50) 3) 9 (pgLineNew 1 1 1)) with | .ub => true | _ => false) = true ∧
      pgShow (pgRun (pgLine 1 2) (pgLineCfg false (1 / 50) 3) 9 (pgLineNew 1 2 1)) = some (1 / 125, 3) := by
  constructor <;> decide +kernel

/-- **C129, negation.** The adaptive weight, the default, is carried over: on the same problem from the same point one iteration of a used object ends elsewhere than one iteration of a new object. -/
theorem C129_adaptive_leaks :
    pgShow (pgAgain 1 1 (pgLineCfg true (1 / 50) 1) 9 1 (pgRun (pgLine 1 1) (pgLineCfg true (1 / 50) 1) 9 (pgLineNew 1 1 1))) = some (24 / 125, 1) ∧
      pgShow (pgRun (pgLine 1 1) (pgLineCfg true (1 / 50) 1) 9 (pgLineNew 1 1 1)) = some (1 / 5, 1) := by
  constructor <;> decide +kernel

/-- **C129, negation.** The accuracies are carried over as well: after a run on a steeper problem whose searches failed, the subproblems of the next problem are solved more accurately than by a new object. Regular variant. -/
theorem C129_accuracy_leaks :
    pgShow (pgAgain 1 1 (pgLineCfg false 1 1) 20 1 (pgRun (pgLine 4 1) (pgLineCfg false 1 1) 20 (pgLineNew 4 1 1))) = some (1 / 10 ^ 10, 1) ∧
      pgShow (pgRun (pgLine 1 1) (pgLineCfg false 1 1) 20 (pgLineNew 1 1 1)) = some (1 / 5, 1) := by
  constructor <;> decide +kernel

end Verif.Obj
