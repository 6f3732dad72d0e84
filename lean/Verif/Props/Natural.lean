import Verif.Solver.Object
import Mathlib.Tactic.Set

/-!
# Runs depend on the geometry only, not on how points and vectors are represented (C130)

Two environments with the same arithmetic are compared: points `x`, `x'` represent the same point if `RX x x'`, and tangent vectors `v` at `x`, `v'` at `x'`
represent the same vector if `RE x x' v v'`. Nothing is assumed of the arithmetic.
-/

namespace Verif.Obj

set_option linter.unusedSectionVars false

variable {K X E X' E' : Type*} [Add K] [Sub K] [Mul K] [Div K] [Neg K]

/-! ## Specification -/

/-- The two environments have the same arithmetic and describe the same objective, metric and retraction. -/
structure Corr (env : Env K X E) (env' : Env K X' E') (RX : X → X' → Prop) (RE : X → X' → E → E' → Prop) : Prop where
  lit : env'.lit = env.lit
  lt : env'.lt = env.lt
  le : env'.le = env.le
  eq : env'.eq = env.eq
  sqrt : env'.sqrt = env.sqrt
  abs : env'.abs = env.abs
  finite : env'.finite = env.finite
  inf : env'.inf = env.inf
  eps : env'.eps = env.eps
  f : ∀ x x', RX x x' → env'.f x' = env.f x
  grad : ∀ x x', RX x x' → RE x x' (env.grad x) (env'.grad x')
  precond : ∀ x x' v v', RX x x' → RE x x' v v' → RE x x' (env.precond x v) (env'.precond x' v')
  metric : ∀ x x' v v' w w', RX x x' → RE x x' v v' → RE x x' w w' → env'.metric x' v' w' = env.metric x v w
  retr : ∀ x x' v v', RX x x' → RE x x' v v' → RX (env.retr x v) (env'.retr x' v')
  smul : ∀ x x' c v v', RX x x' → RE x x' v v' → RE x x' (env.smul c v) (env'.smul c v')
  lin : ∀ x x' a b v v' w w', RX x x' → RE x x' v v' → RE x x' w w' → RE x x' (env.lin a v b w) (env'.lin a v' b w')

/-- The vector transports agree as well. -/
def TransCorr (env : Env K X E) (env' : Env K X' E') (RX : X → X' → Prop) (RE : X → X' → E → E' → Prop) : Prop :=
  ∀ x x' v v' w w', RX x x' → RE x x' v v' → RE x x' w w' →
    RE (env.retr x v) (env'.retr x' v') (env.transport x v (env.retr x v) w) (env'.transport x' v' (env'.retr x' v') w')

/-- The metric may be evaluated at a point other than the foot of the vectors (as the Barzilai-Borwein step does). -/
def MetricAnywhere (env : Env K X E) (env' : Env K X' E') (RX : X → X' → Prop) (RE : X → X' → E → E' → Prop) : Prop :=
  ∀ x x' y y' v v' w w', RX x x' → RX y y' → RE y y' v v' → RE y y' w w' → env'.metric x' v' w' = env.metric x v w

/-- The same stopping test; functions given by the user do not distinguish representatives. -/
def StopCorr (RX : X → X' → Prop) : StopKind K X → StopKind K X' → Prop
  | .funRel, .funRel => True
  | .gradF, .gradF => True
  | .gradF0, .gradF0 => True
  | .user p, .user p' => ∀ x x' s l a b, RX x x' → p' x' s l a b = p x s l a b
  | _, _ => False

/-- The same parameters, with the Armijo search, for the other representation. -/
def reCfg (cfg : Cfg K X E) (stop' : StopKind K X') : Cfg K X' E' where
  initstep := cfg.initstep
  maxIter := cfg.maxIter
  minIter := cfg.minIter
  tol := cfg.tol
  accuracy := cfg.accuracy
  finalstep := cfg.finalstep
  alpha := cfg.alpha
  ratio1 := cfg.ratio1
  ratio2 := cfg.ratio2
  minstep := cfg.minstep
  numPreFuns := cfg.numPreFuns
  preFunsAcc := cfg.preFunsAcc
  numPreBB := cfg.numPreBB
  bbRatio := cfg.bbRatio
  initType := cfg.initType
  search := .armijo
  stop := stop'

/-- Related results: the final points represent the same point, the gradients the same vector, and every number a caller can read is the same. -/
structure SameResult {M M' : Type*} (RX : X → X' → Prop) (RE : X → X' → E → E' → Prop) (o : Obj K X E M) (o' : Obj K X' E' M') : Prop where
  x1 : RX o.x1 o'.x1
  x2 : RX o.x2 o'.x2
  gf1 : RE o.x1 o'.x1 o.gf1 o'.gf1
  f1 : o'.f1 = o.f1
  f2 : o'.f2 = o.f2
  ngf0 : o'.ngf0 = o.ngf0
  ngf1 : o'.ngf1 = o.ngf1
  ngf2 : o'.ngf2 = o.ngf2
  iter : o'.iter = o.iter
  status : o'.status = o.status
  series : o'.series = o.series
  lengthSeries : o'.lengthSeries = o.lengthSeries
  cnt : o'.cnt = o.cnt

/-- Results of two runs. -/
def SameRuns {M M' : Type*} (RX : X → X' → Prop) (RE : X → X' → E → E' → Prop) : Option (Obj K X E M) → Option (Obj K X' E' M') → Prop
  | none, none => True
  | some o, some o' => SameResult RX RE o o'
  | _, _ => False

/-! ## Relations between the objects during a run -/

variable {M M' : Type*} {env : Env K X E} {env' : Env K X' E'} {RX : X → X' → Prop} {RE : X → X' → E → E' → Prop} {cfg : Cfg K X E} {stop' : StopKind K X'}

/-- Members that agree from the head of the loop to its end. -/
structure Base (RX : X → X' → Prop) (RE : X → X' → E → E' → Prop) (o : Obj K X E M) (o' : Obj K X' E' M') : Prop where
  x1 : RX o.x1 o'.x1
  gf1 : RE o.x1 o'.x1 o.gf1 o'.gf1
  f1 : o'.f1 = o.f1
  ngf0 : o'.ngf0 = o.ngf0
  ngf1 : o'.ngf1 = o.ngf1
  ngf2 : o'.ngf2 = o.ngf2
  slopepre : o'.initialslopepre = o.initialslopepre
  iter : o'.iter = o.iter
  preFuns : o'.preFuns = o.preFuns
  preBBs : o'.preBBs = o.preBBs
  series : o'.series = o.series
  len : o'.lengthSeries = o.lengthSeries
  cnt : o'.cnt = o.cnt

/-- At the head of the loop. `RH` relates the directions and the members of the derived class once an iteration has been made. -/
structure Head (env : Env K X E) (env' : Env K X' E') (RX : X → X' → Prop) (RE : X → X' → E → E' → Prop) (RH : X → X' → E × M → E' × M' → Prop)
    (R0 : M → M' → Prop) (o : Obj K X E M) (o' : Obj K X' E' M') : Prop extends Base RX RE o o' where
  x2 : RX o.x2 o'.x2
  f2 : o'.f2 = o.f2
  status : o'.status = o.status
  own0 : o.iter = 0 → R0 o.own o'.own
  own : o.iter ≠ 0 → RH o.x1 o'.x1 (o.eta1, o.own) (o'.eta1, o'.own)
  back : o.iter ≠ 0 → o.x1 = env.retr o.x2 o.eta2 ∧ o'.x1 = env'.retr o'.x2 o'.eta2 ∧ RE o.x2 o'.x2 o.eta2 o'.eta2 ∧ RE o.x2 o'.x2 o.gf2 o'.gf2

/-- With a direction. -/
structure Mid (RX : X → X' → Prop) (RE : X → X' → E → E' → Prop) (RS : X → X' → M → M' → Prop) (o : Obj K X E M) (o' : Obj K X' E' M') : Prop extends Base RX RE o o' where
  eta1 : RE o.x1 o'.x1 o.eta1 o'.eta1
  own : RS o.x1 o'.x1 o.own o'.own
  slope : o'.initialslope = o.initialslope
  step : o'.stepsize = o.stepsize
  len0 : o'.initiallength = o.initiallength
  status : o'.status = o.status

/-- With a trial point. -/
structure Tri (env : Env K X E) (env' : Env K X' E') (RX : X → X' → Prop) (RE : X → X' → E → E' → Prop) (RS : X → X' → M → M' → Prop)
    (o : Obj K X E M) (o' : Obj K X' E' M') : Prop extends Mid RX RE RS o o' where
  eta2 : RE o.x1 o'.x1 o.eta2 o'.eta2
  x2 : o.x2 = env.retr o.x1 o.eta2
  x2' : o'.x2 = env'.retr o'.x1 o'.eta2
  f2 : o'.f2 = o.f2

/-- After a search. -/
structure Post (env : Env K X E) (env' : Env K X' E') (RX : X → X' → Prop) (RE : X → X' → E → E' → Prop) (RS : X → X' → M → M' → Prop)
    (o : Obj K X E M) (o' : Obj K X' E' M') : Prop extends Tri env env' RX RE RS o o' where
  gf2 : RE o.x2 o'.x2 o.gf2 o'.gf2

/-- What the functions of the derived class must satisfy. -/
structure HookCorr (env : Env K X E) (env' : Env K X' E') (RX : X → X' → Prop) (RE : X → X' → E → E' → Prop) (hk : Hooks K X E M) (hk' : Hooks K X' E' M')
    (R0 : M → M' → Prop) (RH : X → X' → E × M → E' × M' → Prop) (RS : X → X' → M → M' → Prop) : Prop where
  dir : ∀ o o', Head env env' RX RE RH R0 o o' →
    RE o.x1 o'.x1 (hk.getSearchDir o).1 (hk'.getSearchDir o').1 ∧ RS o.x1 o'.x1 (hk.getSearchDir o).2 (hk'.getSearchDir o').2
  upd : ∀ o o', Post env env' RX RE RS o o' →
    RH o.x2 o'.x2 ((hk.updateData o).1, (hk.updateData o).2.1) ((hk'.updateData o').1, (hk'.updateData o').2.1) ∧ (hk'.updateData o').2.2 = (hk.updateData o).2.2

/-- Relation of optional results. -/
def OptRel {A B : Type*} (P : A → B → Prop) : Option A → Option B → Prop
  | none, none => True
  | some a, some b => P a b
  | _, _ => False

theorem OptRel.map {A B C D : Type*} {P : A → B → Prop} {Q : C → D → Prop} {f : A → C} {g : B → D} {a : Option A} {b : Option B} (h : OptRel P a b) (hf : ∀ x y, P x y → Q (f x) (g y)) :
    OptRel Q (a.map f) (b.map g) := by
  cases a <;> cases b
  · trivial
  · exact h
  · exact h
  · exact hf _ _ h

variable {R0 : M → M' → Prop} {RH : X → X' → E × M → E' × M' → Prop} {RS : X → X' → M → M' → Prop}

theorem Tri.rx2 (hC : Corr env env' RX RE) {o : Obj K X E M} {o' : Obj K X' E' M'} (t : Tri env env' RX RE RS o o') : RX o.x2 o'.x2 := by
  rw [t.x2, t.x2']
  exact hC.retr _ _ _ _ t.x1 t.eta2

theorem h_tri (hC : Corr env env' RX RE) {o : Obj K X E M} {o' : Obj K X' E' M'} (m : Mid RX RE RS o o') : Tri env env' RX RE RS (h env o) (h env' o') := by
  have he : RE o.x1 o'.x1 (env.smul o.stepsize o.eta1) (env'.smul o'.stepsize o'.eta1) := by
    rw [m.step]
    exact hC.smul _ _ _ _ _ m.x1 m.eta1
  exact { x1 := m.x1, gf1 := m.gf1, f1 := m.f1, ngf0 := m.ngf0, ngf1 := m.ngf1, ngf2 := m.ngf2, slopepre := m.slopepre, iter := m.iter, preFuns := m.preFuns, preBBs := m.preBBs, series := m.series, len := m.len
          cnt := by simp only [h, m.cnt]
          eta1 := m.eta1, own := m.own, slope := m.slope, step := m.step, len0 := m.len0, status := m.status
          eta2 := he, x2 := rfl, x2' := rfl, f2 := hC.f _ _ (hC.retr _ _ _ _ m.x1 he) }

theorem gradX2_post (hC : Corr env env' RX RE) {o : Obj K X E M} {o' : Obj K X' E' M'} (m : Tri env env' RX RE RS o o') : Post env env' RX RE RS (gradX2 env o) (gradX2 env' o') :=
  { x1 := m.x1, gf1 := m.gf1, f1 := m.f1, ngf0 := m.ngf0, ngf1 := m.ngf1, ngf2 := m.ngf2, slopepre := m.slopepre, iter := m.iter, preFuns := m.preFuns, preBBs := m.preBBs, series := m.series, len := m.len
    cnt := by simp only [gradX2, m.cnt]
    eta1 := m.eta1, own := m.own, slope := m.slope, step := m.step, len0 := m.len0, status := m.status, eta2 := m.eta2, x2 := m.x2, x2' := m.x2', f2 := m.f2, gf2 := hC.grad _ _ (m.rx2 hC) }

theorem dh_post (hC : Corr env env' RX RE) {o : Obj K X E M} {o' : Obj K X' E' M'} (m : Tri env env' RX RE RS o o') : Post env env' RX RE RS (dh env o) (dh env' o') :=
  { x1 := m.x1, gf1 := m.gf1, f1 := m.f1, ngf0 := m.ngf0, ngf1 := m.ngf1, ngf2 := m.ngf2, slopepre := m.slopepre, iter := m.iter, preFuns := m.preFuns, preBBs := m.preBBs, series := m.series, len := m.len
    cnt := by simp only [dh, m.cnt]
    eta1 := m.eta1, own := m.own, slope := m.slope, step := m.step, len0 := m.len0, status := m.status, eta2 := m.eta2, x2 := m.x2, x2' := m.x2', f2 := m.f2, gf2 := hC.grad _ _ (m.rx2 hC) }

theorem Mid.setStep {o : Obj K X E M} {o' : Obj K X' E' M'} (m : Mid RX RE RS o o') {t t' : K} (ht : t' = t) : Mid RX RE RS { o with stepsize := t } { o' with stepsize := t' } :=
  { x1 := m.x1, gf1 := m.gf1, f1 := m.f1, ngf0 := m.ngf0, ngf1 := m.ngf1, ngf2 := m.ngf2, slopepre := m.slopepre, iter := m.iter, preFuns := m.preFuns, preBBs := m.preBBs, series := m.series, len := m.len
    cnt := m.cnt, eta1 := m.eta1, own := m.own, slope := m.slope, step := ht, len0 := m.len0, status := m.status }

theorem Tri.giveUp {o : Obj K X E M} {o' : Obj K X' E' M'} (m : Tri env env' RX RE RS o o') {t t' : K} (ht : t' = t) (s : Status) :
    Tri env env' RX RE RS { o with stepsize := t, status := s } { o' with stepsize := t', status := s } :=
  { x1 := m.x1, gf1 := m.gf1, f1 := m.f1, ngf0 := m.ngf0, ngf1 := m.ngf1, ngf2 := m.ngf2, slopepre := m.slopepre, iter := m.iter, preFuns := m.preFuns, preBBs := m.preBBs, series := m.series, len := m.len
    cnt := m.cnt, eta1 := m.eta1, own := m.own, slope := m.slope, step := ht, len0 := m.len0, status := rfl, eta2 := m.eta2, x2 := m.x2, x2' := m.x2', f2 := m.f2 }

theorem armijoFails_eq (hC : Corr env env' RX RE) {o : Obj K X E M} {o' : Obj K X' E' M'} (m : Tri env env' RX RE RS o o') (mp : K) :
    armijoFails env' (reCfg cfg stop' : Cfg K X' E') mp o' = armijoFails env cfg mp o := by
  simp only [armijoFails, reCfg, hC.lt, m.f2, m.slope, m.step]

theorem backtrack_rel (hC : Corr env env' RX RE) (mp : K) (n : Nat) {o : Obj K X E M} {o' : Obj K X' E' M'} (m : Tri env env' RX RE RS o o') :
    OptRel (Tri env env' RX RE RS) (backtrack env cfg mp n o) (backtrack env' (reCfg cfg stop') mp n o') := by
  induction n generalizing o o' with
  | zero => trivial
  | succ n ih =>
    simp only [backtrack]
    rw [armijoFails_eq hC m]
    by_cases h1 : armijoFails env cfg mp o = true
    · rw [if_pos h1, if_pos h1]
      have ht : o'.stepsize * (reCfg cfg stop' : Cfg K X' E').ratio1 = o.stepsize * cfg.ratio1 := by rw [m.step]; rfl
      have hlt : env'.lt (o'.stepsize * (reCfg cfg stop' : Cfg K X' E').ratio1) (reCfg cfg stop' : Cfg K X' E').minstep = env.lt (o.stepsize * cfg.ratio1) cfg.minstep := by rw [ht, hC.lt]; rfl
      rw [hlt]
      by_cases h2 : env.lt (o.stepsize * cfg.ratio1) cfg.minstep = true
      · rw [if_pos h2, if_pos h2]
        exact m.giveUp ht .minStep
      · rw [if_neg h2, if_neg h2]
        exact ih (h_tri hC (m.toMid.setStep ht))
    · rw [if_neg h1, if_neg h1]
      exact m

theorem interpLoop_rel (hC : Corr env env' RX RE) (mp : K) (n : Nat) (pre pre2 f2pre : K) {o : Obj K X E M} {o' : Obj K X' E' M'} (m : Tri env env' RX RE RS o o') :
    OptRel (Tri env env' RX RE RS) (interpLoop env cfg mp n pre pre2 f2pre o) (interpLoop env' (reCfg cfg stop') mp n pre pre2 f2pre o') := by
  induction n generalizing o o' pre pre2 f2pre with
  | zero => trivial
  | succ n ih =>
    simp only [interpLoop]
    rw [armijoFails_eq hC m]
    by_cases h1 : armijoFails env cfg mp o = true
    · rw [if_pos h1, if_pos h1]
      have ht : clampStep env' (reCfg cfg stop' : Cfg K X' E') (cubicStep env' pre pre2 f2pre o'.f2 o'.f1 o'.initialslope) pre = clampStep env cfg (cubicStep env pre pre2 f2pre o.f2 o.f1 o.initialslope) pre := by
        simp only [clampStep, cubicStep, hC.lt, hC.lit, hC.sqrt, m.f2, m.f1, m.slope]; rfl
      have hlt : env'.lt (clampStep env' (reCfg cfg stop' : Cfg K X' E') (cubicStep env' pre pre2 f2pre o'.f2 o'.f1 o'.initialslope) pre) (reCfg cfg stop' : Cfg K X' E').minstep =
          env.lt (clampStep env cfg (cubicStep env pre pre2 f2pre o.f2 o.f1 o.initialslope) pre) cfg.minstep := by rw [ht, hC.lt]; rfl
      rw [hlt]
      by_cases h2 : env.lt (clampStep env cfg (cubicStep env pre pre2 f2pre o.f2 o.f1 o.initialslope) pre) cfg.minstep = true
      · rw [if_pos h2, if_pos h2]
        exact m.giveUp ht .minStep
      · rw [if_neg h2, if_neg h2]
        have m2 := h_tri hC (m.toMid.setStep ht)
        have := ih (h env { o with stepsize := clampStep env cfg (cubicStep env pre pre2 f2pre o.f2 o.f1 o.initialslope) pre }).stepsize pre o.f2 m2
        rw [m2.step, m.f2]
        rw [m.f2] at this
        exact this
    · rw [if_neg h1, if_neg h1]
      exact m

theorem armijo_rel (hC : Corr env env' RX RE) (n : Nat) {o : Obj K X E M} {o' : Obj K X' E' M'} (m : Mid RX RE RS o o') :
    OptRel (Post env env' RX RE RS) (armijo env cfg n o) (armijo env' (reCfg cfg stop') n o') := by
  have m0 : Mid RX RE RS { o with status := .success } { o' with status := .success } :=
    { x1 := m.x1, gf1 := m.gf1, f1 := m.f1, ngf0 := m.ngf0, ngf1 := m.ngf1, ngf2 := m.ngf2, slopepre := m.slopepre, iter := m.iter, preFuns := m.preFuns, preBBs := m.preBBs, series := m.series, len := m.len
      cnt := m.cnt, eta1 := m.eta1, own := m.own, slope := m.slope, step := m.step, len0 := m.len0, status := rfl }
  have t := h_tri hC m0
  unfold armijo
  simp only
  set q := h env { o with status := .success } with hq
  set q' := h env' { o' with status := .success } with hq'
  have hmp : maxpref env' (reCfg cfg stop' : Cfg K X' E') q' = maxpref env cfg q := by
    simp only [maxpref, reCfg, hC.lt, t.preFuns, t.f1]
  rw [hmp]
  have hle : env'.le (reCfg cfg stop' : Cfg K X' E').ratio2 (reCfg cfg stop' : Cfg K X' E').ratio1 = env.le cfg.ratio2 cfg.ratio1 := by rw [hC.le]; rfl
  rw [hle]
  by_cases h1 : env.le cfg.ratio2 cfg.ratio1 = true
  · rw [if_pos h1, if_pos h1]
    exact (backtrack_rel hC _ n t).map fun _ _ => dh_post hC
  · rw [if_neg h1, if_neg h1]
    have fin : ∀ a b, Tri env env' RX RE RS a b → Post env env' RX RE RS { gradX2 env a with newslope := env.inf } { gradX2 env' b with newslope := env'.inf } := by
      intro a b hab
      have m := gradX2_post hC hab
      exact { x1 := m.x1, gf1 := m.gf1, f1 := m.f1, ngf0 := m.ngf0, ngf1 := m.ngf1, ngf2 := m.ngf2, slopepre := m.slopepre, iter := m.iter, preFuns := m.preFuns, preBBs := m.preBBs, series := m.series
              len := m.len, cnt := m.cnt, eta1 := m.eta1, own := m.own, slope := m.slope, step := m.step, len0 := m.len0, status := m.status, eta2 := m.eta2, x2 := m.x2, x2' := m.x2', f2 := m.f2, gf2 := m.gf2 }
    rw [armijoFails_eq hC t]
    by_cases h2 : armijoFails env cfg (maxpref env cfg q) q = true
    · rw [if_pos h2, if_pos h2]
      have ht : clampStep env' (reCfg cfg stop' : Cfg K X' E') (-q'.initialslope * q'.stepsize * q'.stepsize / env'.lit 2 1 / (q'.f2 - q'.f1 - q'.initialslope * q'.stepsize)) q'.stepsize =
          clampStep env cfg (-q.initialslope * q.stepsize * q.stepsize / env.lit 2 1 / (q.f2 - q.f1 - q.initialslope * q.stepsize)) q.stepsize := by
        simp only [clampStep, reCfg, hC.lt, hC.lit, t.f2, t.f1, t.slope, t.step]
      have t2 := h_tri hC (t.toMid.setStep ht)
      refine OptRel.map ?_ fin
      have := interpLoop_rel (cfg := cfg) (stop' := stop') hC (maxpref env cfg q) n
        (h env { q with stepsize := clampStep env cfg (-q.initialslope * q.stepsize * q.stepsize / env.lit 2 1 / (q.f2 - q.f1 - q.initialslope * q.stepsize)) q.stepsize }).stepsize q.stepsize q.f2 t2
      rw [t2.step, t.f2, t.step]
      rw [t.f2, t.step] at this
      exact this
    · rw [if_neg h2, if_neg h2]
      refine OptRel.map ?_ fin
      rw [hC.lit, t.step]
      exact interpLoop_rel hC _ n _ _ _ t

theorem search_rel (hC : Corr env env' RX RE) (hs : cfg.search = .armijo) (n : Nat) {o : Obj K X E M} {o' : Obj K X' E' M'} (m : Mid RX RE RS o o') :
    OptRel (Post env env' RX RE RS) (search env cfg n o) (search env' (reCfg cfg stop') n o') := by
  unfold search
  have hlt : env'.lt (o'.ngf1 / (o'.ngf0 + (reCfg cfg stop' : Cfg K X' E').tol)) (reCfg cfg stop' : Cfg K X' E').accuracy = env.lt (o.ngf1 / (o.ngf0 + cfg.tol)) cfg.accuracy := by
    rw [hC.lt, m.ngf1, m.ngf0]; rfl
  rw [hlt]
  by_cases h1 : env.lt (o.ngf1 / (o.ngf0 + cfg.tol)) cfg.accuracy = true
  · rw [if_pos h1, if_pos h1]
    refine gradX2_post hC (h_tri hC (m.setStep ?_))
    simp only [reCfg, hC.lt, hC.lit, m.len0]
  · rw [if_neg h1, if_neg h1, hs]
    exact armijo_rel hC n m

/-! ### The initial step -/

/-- What the rule for the initial step needs. -/
def BBOk (env : Env K X E) (env' : Env K X' E') (RX : X → X' → Prop) (RE : X → X' → E → E' → Prop) (cfg : Cfg K X E) : Prop :=
  cfg.initType ≠ .bb ∨ (TransCorr env env' RX RE ∧ MetricAnywhere env env' RX RE)

theorem bbPair_eq (hC : Corr env env' RX RE) (hT : TransCorr env env' RX RE) (hM : MetricAnywhere env env' RX RE) {o : Obj K X E M} {o' : Obj K X' E' M'} (hx : RX o.x1 o'.x1) (hx2 : RX o.x2 o'.x2)
    (hg : RE o.x1 o'.x1 o.gf1 o'.gf1) (hb : o.x1 = env.retr o.x2 o.eta2 ∧ o'.x1 = env'.retr o'.x2 o'.eta2 ∧ RE o.x2 o'.x2 o.eta2 o'.eta2 ∧ RE o.x2 o'.x2 o.gf2 o'.gf2) : bbPair env' o' = bbPair env o := by
  obtain ⟨b1, b2, b3, b4⟩ := hb
  have hs : RE o.x1 o'.x1 (env.transport o.x2 o.eta2 o.x1 o.eta2) (env'.transport o'.x2 o'.eta2 o'.x1 o'.eta2) := by
    rw [b1, b2]; exact hT _ _ _ _ _ _ hx2 b3 b3
  have hy0 : RE o.x1 o'.x1 (env.transport o.x2 o.eta2 o.x1 o.gf2) (env'.transport o'.x2 o'.eta2 o'.x1 o'.gf2) := by
    rw [b1, b2]; exact hT _ _ _ _ _ _ hx2 b3 b4
  have hy : RE o.x1 o'.x1 (env.lin (env.lit 1 1) o.gf1 (env.lit (-1) 1) (env.transport o.x2 o.eta2 o.x1 o.gf2))
      (env'.lin (env'.lit 1 1) o'.gf1 (env'.lit (-1) 1) (env'.transport o'.x2 o'.eta2 o'.x1 o'.gf2)) := by
    rw [hC.lit]; exact hC.lin _ _ _ _ _ _ _ _ hx hg hy0
  simp only [bbPair]
  rw [hM _ _ _ _ _ _ _ _ hx2 hx hs hs, hM _ _ _ _ _ _ _ _ hx2 hx hs hy, hM _ _ _ _ _ _ _ _ hx2 hx hy hy]

theorem initialStep_rel (hC : Corr env env' RX RE) (hb : BBOk env env' RX RE cfg) {o : Obj K X E M} {o' : Obj K X' E' M'} (hx : RX o.x1 o'.x1) (hx2 : RX o.x2 o'.x2)
    (hg : RE o.x1 o'.x1 o.gf1 o'.gf1) (hback : o.iter ≠ 0 → o.x1 = env.retr o.x2 o.eta2 ∧ o'.x1 = env'.retr o'.x2 o'.eta2 ∧ RE o.x2 o'.x2 o.eta2 o'.eta2 ∧ RE o.x2 o'.x2 o.gf2 o'.gf2)
    (hf : o'.f1 = o.f1) (hp : o'.preFuns = o.preFuns) (hB : o'.preBBs = o.preBBs) (hsl : o'.initialslopepre = o.initialslopepre) (hn : o'.ngf1 = o.ngf1) (hi : o'.iter = o.iter) :
    (initialStepSize env' (reCfg cfg stop' : Cfg K X' E') o').stepsize = (initialStepSize env cfg o).stepsize ∧
      (initialStepSize env' (reCfg cfg stop' : Cfg K X' E') o').preBBs = (initialStepSize env cfg o).preBBs := by
  unfold initialStepSize
  rw [hi]
  by_cases h0 : o.iter = 0
  · rw [if_pos h0, if_pos h0]
    exact ⟨rfl, hB⟩
  · rw [if_neg h0, if_neg h0]
    have hd : decrease env' o' = decrease env o := by simp only [decrease, hp, hf, hC.lit]
    have hq : quadStep env' o' = quadStep env o := by simp only [quadStep, hd, hC.lit, hsl]
    have hc : candidate env' (reCfg cfg stop' : Cfg K X' E') o' = candidate env cfg o := by
      unfold candidate
      have : (reCfg cfg stop' : Cfg K X' E').initType = cfg.initType := rfl
      rw [this]
      cases hT : cfg.initType with
      | quadIntMod => simp only [hd, hC.lit, hC.lt, hsl, hB]
      | one => simp only [hC.lit, hB]
      | quadInt => simp only [hq, hB]
      | bb =>
        rcases hb with hb | ⟨hb, hm⟩
        · exact absurd hT hb
        · simp only [bbPair_eq hC hb hm hx hx2 hg (hback h0), hn, hB, bbPush, bbChoose, hC.lt, hC.eps, hC.lit, hC.eq]; rfl
    simp only [hc, hq, hn, safeguard, hC.lt, hC.lit, hC.eps]
    exact ⟨rfl, trivial⟩

theorem initialStep_base {o : Obj K X E M} : ∃ t l, initialStepSize env cfg o = { o with stepsize := t, preBBs := l } := by
  unfold initialStepSize
  by_cases h0 : o.iter = 0
  · rw [if_pos h0]; exact ⟨cfg.initstep, o.preBBs, rfl⟩
  · rw [if_neg h0]; exact ⟨_, _, rfl⟩

theorem prepare_mid (hC : Corr env env' RX RE) (hb : BBOk env env' RX RE cfg) {hk : Hooks K X E M} {hk' : Hooks K X' E' M'} (hH : HookCorr env env' RX RE hk hk' R0 RH RS) {o : Obj K X E M} {o' : Obj K X' E' M'}
    (m : Head env env' RX RE RH R0 o o') : Mid RX RE RS (prepare env cfg hk o) (prepare env' (reCfg cfg stop') hk' o') := by
  obtain ⟨d1, d2⟩ := hH.dir o o' m
  have hslope : env'.metric o'.x1 o'.gf1 (hk'.getSearchDir o').1 = env.metric o.x1 o.gf1 (hk.getSearchDir o).1 := hC.metric _ _ _ _ _ _ m.x1 m.gf1 d1
  have hs := initialStep_rel (stop' := stop') (cfg := cfg) hC hb
    (o := { o with eta1 := (hk.getSearchDir o).1, own := (hk.getSearchDir o).2, initialslope := env.metric o.x1 o.gf1 (hk.getSearchDir o).1 })
    (o' := { o' with eta1 := (hk'.getSearchDir o').1, own := (hk'.getSearchDir o').2, initialslope := env'.metric o'.x1 o'.gf1 (hk'.getSearchDir o').1 })
    m.x1 m.x2 m.gf1 m.back m.f1 m.preFuns m.preBBs m.slopepre m.ngf1 m.iter
  obtain ⟨t, l, e⟩ := initialStep_base (env := env) (cfg := cfg)
    (o := { o with eta1 := (hk.getSearchDir o).1, own := (hk.getSearchDir o).2, initialslope := env.metric o.x1 o.gf1 (hk.getSearchDir o).1 })
  obtain ⟨t', l', e'⟩ := initialStep_base (env := env') (cfg := (reCfg cfg stop' : Cfg K X' E'))
    (o := { o' with eta1 := (hk'.getSearchDir o').1, own := (hk'.getSearchDir o').2, initialslope := env'.metric o'.x1 o'.gf1 (hk'.getSearchDir o').1 })
  rw [e, e'] at hs
  unfold prepare
  simp only
  rw [e, e']
  exact { x1 := m.x1, gf1 := m.gf1, f1 := m.f1, ngf0 := m.ngf0, ngf1 := m.ngf1, ngf2 := m.ngf2, slopepre := m.slopepre, iter := m.iter, preFuns := m.preFuns, preBBs := hs.2, series := m.series, len := m.len
          cnt := m.cnt, eta1 := d1, own := d2, slope := hslope, step := hs.1, len0 := hs.1, status := m.status }

/-! ### The loop -/

theorem isStopped_eq (hC : Corr env env' RX RE) (hst : StopCorr RX cfg.stop stop') {o : Obj K X E M} {o' : Obj K X' E' M'} (hx : RX o.x2 o'.x2) (h1 : o'.series = o.series) (h2 : o'.lengthSeries = o.lengthSeries)
    (h3 : o'.ngf2 = o.ngf2) (h4 : o'.ngf0 = o.ngf0) (h5 : o'.f1 = o.f1) (h6 : o'.f2 = o.f2) (h7 : o'.iter = o.iter) : isStopped env' (reCfg cfg stop' : Cfg K X' E') o' = isStopped env cfg o := by
  unfold isStopped
  have : (reCfg cfg stop' : Cfg K X' E').stop = stop' := rfl
  rw [this]
  cases hc : cfg.stop <;> cases hc' : stop' <;> rw [hc, hc'] at hst <;> try exact absurd hst id
  · simp only [hC.lt, hC.abs, hC.lit, h5, h6, h7]; rfl
  · simp only [hC.lt, h3]; rfl
  · simp only [hC.lt, h3, h4]; rfl
  · simp only [h1, h2, h3, h4]
    exact hst _ _ _ _ _ _ hx

theorem loop_rel (hC : Corr env env' RX RE) (hb : BBOk env env' RX RE cfg) (hs : cfg.search = .armijo) (hst : StopCorr RX cfg.stop stop') {hk : Hooks K X E M} {hk' : Hooks K X' E' M'}
    (hH : HookCorr env env' RX RE hk hk' R0 RH RS) (m n : Nat) (nonmon isstop : Bool) {o : Obj K X E M} {o' : Obj K X' E' M'} (hh : Head env env' RX RE RH R0 o o') :
    OptRel (SameResult RX RE) ((loop env cfg hk m n nonmon isstop o).map fun o => { o with lengthSeries := o.iter + 1 })
      ((loop env' (reCfg cfg stop') hk' m n nonmon isstop o').map fun o => { o with lengthSeries := o.iter + 1 }) := by
  induction n generalizing nonmon isstop o o' with
  | zero => trivial
  | succ n ih =>
    simp only [loop]
    rw [hh.iter, hh.status]
    have e1 : (reCfg cfg stop' : Cfg K X' E').maxIter = cfg.maxIter := rfl
    have e2 : (reCfg cfg stop' : Cfg K X' E').minIter = cfg.minIter := rfl
    rw [e1, e2]
    by_cases hc : (((!isstop && decide (o.iter < cfg.maxIter)) || decide (o.iter < cfg.minIter)) && decide (o.status = .success)) = true
    · rw [if_pos hc, if_pos hc]
      have hse := search_rel (stop' := stop') hC hs m (prepare_mid (stop' := stop') hC hb hH hh)
      revert hse
      cases search env cfg m (prepare env cfg hk o) with
      | none =>
        cases search env' (reCfg cfg stop') m (prepare env' (reCfg cfg stop') hk' o') with
        | none => intro _; trivial
        | some b => intro h; exact absurd h id
      | some a =>
        cases search env' (reCfg cfg stop') m (prepare env' (reCfg cfg stop') hk' o') with
        | none => intro h; exact absurd h id
        | some b =>
          intro hp
          have hp : Post env env' RX RE RS a b := hp
          simp only
          rw [hp.f2, hC.finite]
          by_cases hf : env.finite a.f2 = true
          · rw [if_pos hf, if_pos hf]
            have hp1 : Post env env' RX RE RS { a with iter := a.iter + 1 } { b with iter := b.iter + 1 } :=
              { x1 := hp.x1, gf1 := hp.gf1, f1 := hp.f1, ngf0 := hp.ngf0, ngf1 := hp.ngf1, ngf2 := hp.ngf2, slopepre := hp.slopepre, iter := by simp only [hp.iter], preFuns := hp.preFuns, preBBs := hp.preBBs
                series := hp.series, len := hp.len, cnt := hp.cnt, eta1 := hp.eta1, own := hp.own, slope := hp.slope, step := hp.step, len0 := hp.len0, status := hp.status, eta2 := hp.eta2, x2 := hp.x2, x2' := hp.x2'
                f2 := hp.f2, gf2 := hp.gf2 }
            obtain ⟨u1, u2⟩ := hH.upd _ _ hp1
            have hx2 : RX a.x2 b.x2 := hp.rx2 hC
            have hng : env'.sqrt (env'.metric b.x2 b.gf2 b.gf2) = env.sqrt (env.metric a.x2 a.gf2 a.gf2) := by rw [hC.sqrt, hC.metric _ _ _ _ _ _ hx2 hp.gf2 hp.gf2]
            have hstop : isStopped env' (reCfg cfg stop' : Cfg K X' E') (afterSearch env' hk' b) = isStopped env cfg (afterSearch env hk a) :=
              isStopped_eq hC hst hx2 hp.series hp.len hng hp.ngf0 hp.f1 hp.f2 (by simp only [afterSearch, hp.iter])
            rw [hstop]
            have hnm : (advance env' (reCfg cfg stop' : Cfg K X' E') nonmon (afterSearch env' hk' b)).1 = (advance env cfg nonmon (afterSearch env hk a)).1 := by
              simp only [advance, afterSearch, hC.le, hng, hp.ngf0]; rfl
            have hpf : (advance env' (reCfg cfg stop' : Cfg K X' E') nonmon (afterSearch env' hk' b)).2.preFuns = (advance env cfg nonmon (afterSearch env hk a)).2.preFuns := by
              simp only [advance, afterSearch, hC.le, hng, hp.ngf0, hp.f1, hp.preFuns]; rfl
            rw [hnm]
            refine ih _ _ ?_
            exact { x1 := hx2, gf1 := hp.gf2, f1 := hp.f2, ngf0 := hp.ngf0, ngf1 := hng, ngf2 := hng, slopepre := hp.slope, iter := by simp only [advance, afterSearch, hp.iter], preFuns := hpf, preBBs := hp.preBBs
                    series := by simp only [advance, afterSearch, hp.series, hp.f2, hng, hp.step]
                    len := hp.len
                    cnt := by
                      show ({ b.cnt with
                        nV := b.cnt.nV + (hk'.updateData { b with iter := b.iter + 1 }).2.2.1
                        nVp := b.cnt.nVp + (hk'.updateData { b with iter := b.iter + 1 }).2.2.2 } : Counts) = _
                      rw [u2, hp.cnt]; rfl
                    x2 := hp.x1, f2 := hp.f2, status := hp.status, own0 := fun h => absurd h (Nat.succ_ne_zero _), own := fun _ => u1, back := fun _ => ⟨hp.x2, hp.x2', hp.eta2, hp.gf1⟩ }
          · rw [if_neg hf, if_neg hf]
            exact { x1 := hp.x1, x2 := hp.rx2 hC, gf1 := hp.gf1, f1 := hp.f1, f2 := hp.f2, ngf0 := hp.ngf0, ngf1 := hp.ngf1, ngf2 := hp.ngf2, iter := hp.iter, status := hp.status, series := hp.series
                    lengthSeries := by simp only [hp.iter], cnt := hp.cnt }
    · rw [if_neg hc, if_neg hc]
      exact { x1 := hh.x1, x2 := hh.x2, gf1 := hh.gf1, f1 := hh.f1, f2 := hh.f2, ngf0 := hh.ngf0, ngf1 := hh.ngf1, ngf2 := hh.ngf2, iter := hh.iter, status := hh.status, series := hh.series
              lengthSeries := by simp only [hh.iter], cnt := hh.cnt }

theorem optRel_same {a : Option (Obj K X E M)} {b : Option (Obj K X' E' M')} (h : OptRel (SameResult RX RE) a b) : SameRuns RX RE a b := by
  cases a <;> cases b <;> exact h

/-- **C130.** For every solver whose own functions respect the correspondence, runs from representatives of the same point return representatives of the same point and the same numbers, iteration by iteration. -/
theorem C130_run_natural (hC : Corr env env' RX RE) (hb : BBOk env env' RX RE cfg) (hs : cfg.search = .armijo) (hst : StopCorr RX cfg.stop stop') {hk : Hooks K X E M} {hk' : Hooks K X' E' M'}
    (hH : HookCorr env env' RX RE hk hk' R0 RH RS) (m n : Nat) (o : Obj K X E M) (o' : Obj K X' E' M') (hx : RX o.x1 o'.x1) (hx2 : RX o.x2 o'.x2) (hown : R0 o.own o'.own)
    (hB : o'.preBBs = o.preBBs) (hlen : o'.lengthSeries = o.lengthSeries) (hcnt : o'.cnt = o.cnt) :
    SameRuns RX RE (run env cfg hk m n o) (run env' (reCfg cfg stop') hk' m n o') := by
  have hg := hC.grad _ _ hx
  have hng : env'.sqrt (env'.metric o'.x1 (env'.grad o'.x1) (env'.grad o'.x1)) = env.sqrt (env.metric o.x1 (env.grad o.x1) (env.grad o.x1)) := by rw [hC.sqrt, hC.metric _ _ _ _ _ _ hx hg hg]
  have hf := hC.f _ _ hx
  have hh : Head env env' RX RE RH R0 (prologue env o) (prologue env' o') :=
    { x1 := hx, gf1 := hg, f1 := hf, ngf0 := hng, ngf1 := hng, ngf2 := hng, slopepre := by simp only [prologue, hC.lit], iter := rfl, preFuns := rfl, preBBs := hB
      series := by simp only [prologue, hf, hng, hC.lit]
      len := hlen, cnt := by simp only [prologue, hcnt], x2 := hx2, f2 := hf, status := rfl, own0 := fun _ => hown, own := fun h => absurd rfl h, back := fun h => absurd rfl h }
  unfold run
  simp only
  rw [isStopped_eq hC hst hh.x2 hh.series hh.len hh.ngf2 hh.ngf0 hh.f1 hh.f2 hh.iter]
  exact optRel_same (loop_rel hC hb hs hst hH m n _ _ hh)

/-! ## The solvers -/

theorem rsd_corr (hC : Corr env env' RX RE) : HookCorr env env' RX RE (rsd env) (rsd env') (fun _ _ => True) (fun _ _ _ _ => True) (fun _ _ _ _ => True) := by
  refine ⟨fun o o' m => ⟨?_, trivial⟩, fun o o' m => ⟨trivial, rfl⟩⟩
  have he : RE o.x1 o'.x1 (env.smul (env.lit (-1) 1) (env.precond o.x1 o.gf1)) (env'.smul (env'.lit (-1) 1) (env'.precond o'.x1 o'.gf1)) := by
    rw [hC.lit]; exact hC.smul _ _ _ _ _ m.x1 (hC.precond _ _ _ _ m.x1 m.gf1)
  have hg : RE o.x1 o'.x1 (env.smul (env.lit (-1) 1) o.gf1) (env'.smul (env'.lit (-1) 1) o'.gf1) := by
    rw [hC.lit]; exact hC.smul _ _ _ _ _ m.x1 m.gf1
  simp only [rsd]
  rw [hC.metric _ _ _ _ _ _ m.x1 he m.gf1, m.ngf1, hC.le, hC.sqrt, hC.eps]
  by_cases h1 : env.le (-env.sqrt env.eps) (env.metric o.x1 (env.smul (env.lit (-1) 1) (env.precond o.x1 o.gf1)) o.gf1 / o.ngf1 / o.ngf1) = true
  · rw [if_pos h1, if_pos h1]; exact hg
  · rw [if_neg h1, if_neg h1]; exact he

/-- **C130 (steepest descent).** RSD, unless it uses the Barzilai-Borwein step, does not transport vectors: no assumption on the transports. -/
theorem C130_rsd (hC : Corr env env' RX RE) (hb : BBOk env env' RX RE cfg) (hs : cfg.search = .armijo) (hst : StopCorr RX cfg.stop stop') (m n : Nat) (o : Obj K X E Unit) (o' : Obj K X' E' Unit)
    (hx : RX o.x1 o'.x1) (hx2 : RX o.x2 o'.x2) (hB : o'.preBBs = o.preBBs) (hlen : o'.lengthSeries = o.lengthSeries) (hcnt : o'.cnt = o.cnt) :
    SameRuns RX RE (run env cfg (rsd env) m n o) (run env' (reCfg cfg stop') (rsd env') m n o') :=
  C130_run_natural hC hb hs hst (rsd_corr hC) m n o o' hx hx2 trivial hB hlen hcnt

theorem cgSigma_corr (hC : Corr env env' RX RE) (hT : TransCorr env env' RX RE) (kind : CGKind) {o : Obj K X E (CGOwn K E)} {o' : Obj K X' E' (CGOwn K E')}
    (m : Post env env' RX RE (fun x x' w w' => RE x x' w.Pgf1 w'.Pgf1) o o') {T P : E} {T' P' : E'} (hTg : RE o.x2 o'.x2 T T') (hP : RE o.x2 o'.x2 P P') :
    (cgSigma env' kind o' T' P').1 = (cgSigma env kind o T P).1 ∧ RE o.x2 o'.x2 (cgSigma env kind o T P).2 (cgSigma env' kind o' T' P').2 := by
  have hx2 := m.rx2 hC
  have hTe : RE o.x2 o'.x2 (env.transport o.x1 o.eta2 o.x2 o.eta1) (env'.transport o'.x1 o'.eta2 o'.x2 o'.eta1) := by
    rw [m.x2, m.x2']; exact hT _ _ _ _ _ _ m.x1 m.eta2 m.eta1
  have hy : RE o.x2 o'.x2 (env.lin (env.lit 1 1) o.gf2 (env.lit (-1) 1) T) (env'.lin (env'.lit 1 1) o'.gf2 (env'.lit (-1) 1) T') := by
    rw [hC.lit]; exact hC.lin _ _ _ _ _ _ _ _ hx2 m.gf2 hTg
  have e1 := hC.metric _ _ _ _ _ _ hx2 m.gf2 hP
  have e2 := hC.metric _ _ _ _ _ _ m.x1 m.gf1 m.own
  have e3 := hC.metric _ _ _ _ _ _ hx2 hP hy
  have e4 := hC.metric _ _ _ _ _ _ hx2 hy hTe
  cases kind
  case fr => simp only [cgSigma]; exact ⟨by rw [e1, e2], hTe⟩
  case pr => simp only [cgSigma]; exact ⟨by rw [e3, e2, hC.lt, hC.lit], hTe⟩
  case hs => simp only [cgSigma]; exact ⟨by rw [e3, e4], hTe⟩
  case frpr => simp only [cgSigma]; exact ⟨by rw [e1, e2, e3, hC.lt], hTe⟩
  case dy => simp only [cgSigma]; exact ⟨by rw [e1, e4], hTe⟩
  case hz =>
    have e5 := hC.metric _ _ _ _ _ _ hx2 hy hy
    simp only [cgSigma]
    refine ⟨?_, hTe⟩
    rw [e4, e5]
    have hz := hC.lin _ _ (env.lit 1 1) (-(env.lit 2 1 * env.metric o.x2 (env.lin (env.lit 1 1) o.gf2 (env.lit (-1) 1) T) (env.lin (env.lit 1 1) o.gf2 (env.lit (-1) 1) T) /
      env.metric o.x2 (env.lin (env.lit 1 1) o.gf2 (env.lit (-1) 1) T) (env.transport o.x1 o.eta2 o.x2 o.eta1))) _ _ _ _ hx2 hy hTe
    have e6 := hC.metric _ _ _ _ _ _ hx2 hz hP
    rw [hC.lit] at e6 ⊢
    rw [e6]

theorem rcg_corr (hC : Corr env env' RX RE) (hT : TransCorr env env' RX RE) (kind : CGKind) :
    HookCorr env env' RX RE (rcg env kind) (rcg env' kind) (fun _ _ => True) (fun x x' w w' => RE x x' w.1 w'.1 ∧ RE x x' w.2.Pgf1 w'.2.Pgf1) (fun x x' w w' => RE x x' w.Pgf1 w'.Pgf1) := by
  constructor
  · intro o o' m
    have hP : RE o.x1 o'.x1 (env.precond o.x1 o.gf1) (env'.precond o'.x1 o'.gf1) := hC.precond _ _ _ _ m.x1 m.gf1
    have he : RE o.x1 o'.x1 (env.smul (env.lit (-1) 1) (env.precond o.x1 o.gf1)) (env'.smul (env'.lit (-1) 1) (env'.precond o'.x1 o'.gf1)) := by
      rw [hC.lit]; exact hC.smul _ _ _ _ _ m.x1 hP
    have hg : RE o.x1 o'.x1 (env.smul (env.lit (-1) 1) o.gf1) (env'.smul (env'.lit (-1) 1) o'.gf1) := by
      rw [hC.lit]; exact hC.smul _ _ _ _ _ m.x1 m.gf1
    have restart : RE o.x1 o'.x1 (if env.le (-env.sqrt env.eps) (env.metric o.x1 (env.smul (env.lit (-1) 1) (env.precond o.x1 o.gf1)) o.gf1 / o.ngf1 / o.ngf1) then env.smul (env.lit (-1) 1) o.gf1
          else env.smul (env.lit (-1) 1) (env.precond o.x1 o.gf1))
        (if env'.le (-env'.sqrt env'.eps) (env'.metric o'.x1 (env'.smul (env'.lit (-1) 1) (env'.precond o'.x1 o'.gf1)) o'.gf1 / o'.ngf1 / o'.ngf1) then env'.smul (env'.lit (-1) 1) o'.gf1
          else env'.smul (env'.lit (-1) 1) (env'.precond o'.x1 o'.gf1)) := by
      rw [hC.metric _ _ _ _ _ _ m.x1 he m.gf1, m.ngf1, hC.le, hC.sqrt, hC.eps]
      by_cases h1 : env.le (-env.sqrt env.eps) (env.metric o.x1 (env.smul (env.lit (-1) 1) (env.precond o.x1 o.gf1)) o.gf1 / o.ngf1 / o.ngf1) = true
      · rw [if_pos h1, if_pos h1]; exact hg
      · rw [if_neg h1, if_neg h1]; exact he
    simp only [rcg]
    by_cases h0 : o.iter = 0
    · have c : (decide (o.iter = 0) || env.le (-env.sqrt env.eps) (env.metric o.x1 o.eta1 o.gf1 / o.ngf1 / o.ngf1)) = true := by simp [h0]
      have c' : (decide (o'.iter = 0) || env'.le (-env'.sqrt env'.eps) (env'.metric o'.x1 o'.eta1 o'.gf1 / o'.ngf1 / o'.ngf1)) = true := by simp [m.iter, h0]
      rw [if_pos c, if_pos c']
      exact ⟨restart, hP⟩
    · obtain ⟨w1, w2⟩ := m.own h0
      have e : (decide (o'.iter = 0) || env'.le (-env'.sqrt env'.eps) (env'.metric o'.x1 o'.eta1 o'.gf1 / o'.ngf1 / o'.ngf1)) =
          (decide (o.iter = 0) || env.le (-env.sqrt env.eps) (env.metric o.x1 o.eta1 o.gf1 / o.ngf1 / o.ngf1)) := by
        rw [m.iter, hC.metric _ _ _ _ _ _ m.x1 w1 m.gf1, m.ngf1, hC.le, hC.sqrt, hC.eps]
      rw [e]
      by_cases c : (decide (o.iter = 0) || env.le (-env.sqrt env.eps) (env.metric o.x1 o.eta1 o.gf1 / o.ngf1 / o.ngf1)) = true
      · rw [if_pos c, if_pos c]
        exact ⟨restart, hP⟩
      · rw [if_neg c, if_neg c]
        exact ⟨w1, w2⟩
  · intro o o' m
    have hx2 := m.rx2 hC
    have hTg : RE o.x2 o'.x2 (env.transport o.x1 o.eta2 o.x2 o.gf1) (env'.transport o'.x1 o'.eta2 o'.x2 o'.gf1) := by
      rw [m.x2, m.x2']; exact hT _ _ _ _ _ _ m.x1 m.eta2 m.gf1
    have hP : RE o.x2 o'.x2 (env.precond o.x2 o.gf2) (env'.precond o'.x2 o'.gf2) := hC.precond _ _ _ _ hx2 m.gf2
    have hg : RE o.x2 o'.x2 (env.smul (env.lit (-1) 1) o.gf2) (env'.smul (env'.lit (-1) 1) o'.gf2) := by
      rw [hC.lit]; exact hC.smul _ _ _ _ _ hx2 m.gf2
    have e : env'.lt (env'.lit 1 10) (env'.abs (env'.metric o'.x2 o'.gf2 (env'.transport o'.x1 o'.eta2 o'.x2 o'.gf1)) / env'.metric o'.x1 o'.gf1 o'.gf1) =
        env.lt (env.lit 1 10) (env.abs (env.metric o.x2 o.gf2 (env.transport o.x1 o.eta2 o.x2 o.gf1)) / env.metric o.x1 o.gf1 o.gf1) := by
      rw [hC.metric _ _ _ _ _ _ hx2 m.gf2 hTg, hC.metric _ _ _ _ _ _ m.x1 m.gf1 m.gf1, hC.lt, hC.lit, hC.abs]
    simp only [rcg]
    rw [e]
    by_cases c : env.lt (env.lit 1 10) (env.abs (env.metric o.x2 o.gf2 (env.transport o.x1 o.eta2 o.x2 o.gf1)) / env.metric o.x1 o.gf1 o.gf1) = true
    · rw [if_pos c, if_pos c]
      exact ⟨⟨hg, hP⟩, rfl⟩
    · rw [if_neg c, if_neg c]
      obtain ⟨s1, s2⟩ := cgSigma_corr hC hT kind m hTg hP
      refine ⟨⟨?_, hP⟩, rfl⟩
      simp only
      rw [s1, hC.eq]
      by_cases c2 : env.eq (cgSigma env kind o (env.transport o.x1 o.eta2 o.x2 o.gf1) (env.precond o.x2 o.gf2)).1 (env.lit 0 1) = true
      · rw [hC.lit, if_pos c2, if_pos c2, ← hC.lit]
        rw [hC.lit] at hg ⊢
        exact hg
      · rw [hC.lit, if_neg c2, if_neg c2]
        exact hC.lin _ _ _ _ _ _ _ _ hx2 m.gf2 s2

/-- **C130 (conjugate gradients).** The six formulas of RCG, when the vector transports correspond. -/
theorem C130_rcg (hC : Corr env env' RX RE) (hT : TransCorr env env' RX RE) (hb : BBOk env env' RX RE cfg) (hs : cfg.search = .armijo) (hst : StopCorr RX cfg.stop stop') (kind : CGKind) (m n : Nat)
    (o : Obj K X E (CGOwn K E)) (o' : Obj K X' E' (CGOwn K E')) (hx : RX o.x1 o'.x1) (hx2 : RX o.x2 o'.x2) (hB : o'.preBBs = o.preBBs) (hlen : o'.lengthSeries = o.lengthSeries) (hcnt : o'.cnt = o.cnt) :
    SameRuns RX RE (run env cfg (rcg env kind) m n o) (run env' (reCfg cfg stop') (rcg env' kind) m n o') :=
  C130_run_natural hC hb hs hst (rcg_corr hC hT kind) m n o o' hx hx2 trivial hB hlen hcnt

/-- The operators of the quasi-Newton solvers correspond: `RL x x' H H'`. -/
structure OpCorr {L L' : Type*} (env : Env K X E) (env' : Env K X' E') (RX : X → X' → Prop) (RE : X → X' → E → E' → Prop) (op : OpEnv K X E L) (op' : OpEnv K X' E' L') (RL : X → X' → L → L' → Prop) : Prop where
  app : ∀ x x' H H' v v', RX x x' → RL x x' H H' → RE x x' v v' → RE x x' (op.app x H v) (op'.app x' H' v')
  tran : ∀ x x' v v' H H', RX x x' → RE x x' v v' → RL x x' H H' → RL (env.retr x v) (env'.retr x' v') (op.tran x v (env.retr x v) H) (op'.tran x' v' (env'.retr x' v') H')
  rank1 : ∀ x x' H H' c u u' v v', RX x x' → RL x x' H H' → RE x x' u u' → RE x x' v v' → RL x x' (op.rank1 x H c u v) (op'.rank1 x' H' c u' v')
  scaledId : ∀ x x' H H' c, RX x x' → RL x x' H H' → RL x x' (op.scaledId H c) (op'.scaledId H' c)
  beta : ∀ x x' v v', RX x x' → RE x x' v v' → op'.beta x' v' = op.beta x v
  powmu : op'.powmu = op.powmu
  isconvex : op'.isconvex = op.isconvex
  nu : op'.nu = op.nu

theorem rbfgs_corr {L L' : Type*} {op : OpEnv K X E L} {op' : OpEnv K X' E' L'} {RL : X → X' → L → L' → Prop} (hC : Corr env env' RX RE) (hT : TransCorr env env' RX RE) (hO : OpCorr env env' RX RE op op' RL) :
    HookCorr env env' RX RE (rbfgs env op) (rbfgs env' op') (fun w w' => ∀ x x', RX x x' → RL x x' w.H w'.H) (fun x x' w w' => RL x x' w.2.H w'.2.H) (fun x x' w w' => RL x x' w.H w'.H) := by
  constructor
  · intro o o' m
    have hH : RL o.x1 o'.x1 o.own.H o'.own.H := by
      by_cases h0 : o.iter = 0
      · exact m.own0 h0 _ _ m.x1
      · exact m.own h0
    refine ⟨?_, hH⟩
    simp only [rbfgs]
    rw [hC.lit]
    exact hC.smul _ _ _ _ _ m.x1 (hO.app _ _ _ _ _ _ m.x1 hH m.gf1)
  · intro o o' m
    have hx2 := m.rx2 hC
    have hTg : RE o.x2 o'.x2 (env.transport o.x1 o.eta2 o.x2 o.gf1) (env'.transport o'.x1 o'.eta2 o'.x2 o'.gf1) := by
      rw [m.x2, m.x2']; exact hT _ _ _ _ _ _ m.x1 m.eta2 m.gf1
    have hsv : RE o.x2 o'.x2 (env.transport o.x1 o.eta2 o.x2 o.eta2) (env'.transport o'.x1 o'.eta2 o'.x2 o'.eta2) := by
      rw [m.x2, m.x2']; exact hT _ _ _ _ _ _ m.x1 m.eta2 m.eta2
    simp only [rbfgs]
    rw [hO.beta _ _ _ _ m.x1 m.eta2, hO.isconvex, hO.nu, hO.powmu, hC.lit, hC.lt, hC.le, hC.eps, m.iter, m.ngf2, m.ngf0]
    generalize op.beta o.x1 o.eta2 = be
    have hy := hC.lin _ _ (env.lit 1 1 / be) (env.lit (-1) 1) _ _ _ _ hx2 m.gf2 hTg
    generalize env.transport o.x1 o.eta2 o.x2 o.eta2 = sv at hsv ⊢
    generalize env'.transport o'.x1 o'.eta2 o'.x2 o'.eta2 = sv' at hsv ⊢
    generalize env.lin (env.lit 1 1 / be) o.gf2 (env.lit (-1) 1) (env.transport o.x1 o.eta2 o.x2 o.gf1) = y at hy ⊢
    generalize env'.lin (env.lit 1 1 / be) o'.gf2 (env.lit (-1) 1) (env'.transport o'.x1 o'.eta2 o'.x2 o'.gf1) = y' at hy ⊢
    rw [hC.metric _ _ _ _ _ _ hx2 hsv hy, hC.metric _ _ _ _ _ _ hx2 hy hy, hC.metric _ _ _ _ _ _ hx2 hsv hsv]
    have hH0 : RL o.x1 o'.x1 (if (op.isconvex && decide (o.iter = 1) && env.lt (env.lit 0 1) (env.metric o.x2 sv y)) = true then op.scaledId o.own.H (env.metric o.x2 sv y / env.metric o.x2 y y) else o.own.H)
        (if (op.isconvex && decide (o.iter = 1) && env.lt (env.lit 0 1) (env.metric o.x2 sv y)) = true then op'.scaledId o'.own.H (env.metric o.x2 sv y / env.metric o.x2 y y) else o'.own.H) := by
      by_cases c : (op.isconvex && decide (o.iter = 1) && env.lt (env.lit 0 1) (env.metric o.x2 sv y)) = true
      · rw [if_pos c, if_pos c]; exact hO.scaledId _ _ _ _ _ m.x1 m.own
      · rw [if_neg c, if_neg c]; exact m.own
    generalize (if (op.isconvex && decide (o.iter = 1) && env.lt (env.lit 0 1) (env.metric o.x2 sv y)) = true then op.scaledId o.own.H (env.metric o.x2 sv y / env.metric o.x2 y y) else o.own.H) = H0 at hH0 ⊢
    generalize (if (op.isconvex && decide (o.iter = 1) && env.lt (env.lit 0 1) (env.metric o.x2 sv y)) = true then op'.scaledId o'.own.H (env.metric o.x2 sv y / env.metric o.x2 y y) else o'.own.H) = H0' at hH0 ⊢
    have hH1 : RL o.x2 o'.x2 (op.tran o.x1 o.eta2 o.x2 H0) (op'.tran o'.x1 o'.eta2 o'.x2 H0') := by
      rw [m.x2, m.x2']; exact hO.tran _ _ _ _ _ _ m.x1 m.eta2 hH0
    generalize op.tran o.x1 o.eta2 o.x2 H0 = H1 at hH1 ⊢
    generalize op'.tran o'.x1 o'.eta2 o'.x2 H0' = H1' at hH1 ⊢
    by_cases c : (env.le (op.nu * op.powmu o.ngf2) (env.metric o.x2 sv y / env.metric o.x2 sv sv) &&
        (env.lt (o.ngf2 / o.ngf0) (env.lit 1 1000) || (env.lt env.eps (env.metric o.x2 sv sv) && env.lt env.eps (env.metric o.x2 sv y)))) = true
    · rw [if_pos c, if_pos c]
      refine ⟨?_, rfl⟩
      have a1 := hO.rank1 _ _ _ _ (env.lit (-1) 1 / env.metric o.x2 sv y) _ _ _ _ hx2 hH1 hsv (hO.app _ _ _ _ _ _ hx2 hH1 hy)
      have a2 := hO.rank1 _ _ _ _ (env.lit (-1) 1 / env.metric o.x2 sv y) _ _ _ _ hx2 a1 (hO.app _ _ _ _ _ _ hx2 a1 hy) hsv
      exact hO.rank1 _ _ _ _ (env.lit 1 1 / env.metric o.x2 sv y) _ _ _ _ hx2 a2 hsv hsv
    · rw [if_neg c, if_neg c]
      exact ⟨hH1, rfl⟩

/-- **C130 (BFGS).** When the transports and the operators correspond. -/
theorem C130_rbfgs {L L' : Type*} {op : OpEnv K X E L} {op' : OpEnv K X' E' L'} {RL : X → X' → L → L' → Prop} (hC : Corr env env' RX RE) (hT : TransCorr env env' RX RE) (hO : OpCorr env env' RX RE op op' RL)
    (hb : BBOk env env' RX RE cfg) (hs : cfg.search = .armijo) (hst : StopCorr RX cfg.stop stop') (m n : Nat) (o : Obj K X E (BFGSOwn K E L)) (o' : Obj K X' E' (BFGSOwn K E' L'))
    (hx : RX o.x1 o'.x1) (hx2 : RX o.x2 o'.x2) (hH : ∀ x x', RX x x' → RL x x' o.own.H o'.own.H) (hB : o'.preBBs = o.preBBs) (hlen : o'.lengthSeries = o.lengthSeries) (hcnt : o'.cnt = o.cnt) :
    SameRuns RX RE (run env cfg (rbfgs env op) m n o) (run env' (reCfg cfg stop') (rbfgs env' op') m n o') :=
  C130_run_natural hC hb hs hst (rbfgs_corr hC hT hO) m n o o' hx hx2 hH hB hlen hcnt

end Verif.Obj
