import Verif.Solver.ObjectRefine
import Verif.Solver.ObjectSearchLemmas
import Verif.Props.LineSearch
import Verif.Props.Report
import Verif.Props.Zoom

/-!
# The guarantees of the line searches hold for the members of the solver (C148)

C14, C15 and C17 speak of the search as a function of the step. Here they are stated for the members `x2`, `f2`, `gf2`, `stepsize` of the object a run leaves behind, for the interpolation formulas of the code,
and for the values a run records.
-/

namespace Verif.Obj

set_option linter.unusedSectionVars false

variable {K : Type} [Field K] [LinearOrder K] [IsStrictOrderedRing K] {X E M : Type*} {env : Env K X E} {cfg : Cfg K X E} {ls : LSCfg K} {hk : Hooks K X E M}

/-! ## Specification -/

/-- The members of `o'` are those of the point at the accepted step along the direction of `o`. -/
structure AtStep (env : Env K X E) (o o' : Obj K X E M) : Prop where
  point : o'.x2 = env.retr o.x1 (env.smul o'.stepsize o.eta1)
  value : o'.f2 = env.f o'.x2
  grad : o'.gf2 = env.grad o'.x2

/-- Sufficient decrease with respect to the current value or one of the remembered ones. -/
def Decreased (cfg : Cfg K X E) (o o' : Obj K X E M) : Prop :=
  ∃ v, (v = o.f1 ∨ v ∈ o.preFuns.dropLast.take cfg.numPreFuns) ∧ o'.f2 ≤ v + cfg.alpha * o'.stepsize * o.initialslope

/-- The derivative of the cost along the direction of `o` at the point of `o'`, as the code computes it. -/
def slopeAt (env : Env K X E) (o o' : Obj K X E M) : K := env.metric o'.x2 o'.gf2 (env.dretr o.x1 (env.smul o'.stepsize o.eta1) o'.x2 o.eta1)

/-- Every value but the first is at most one of the `max 1 w` values before it. -/
def Windowed (w : Nat) (l : List K) : Prop :=
  ∀ i (h : i + 1 < l.length), ∃ j, ∃ hj : j ≤ i, i < j + max 1 w ∧ l[i + 1] ≤ l[j]

/-! ## Searches -/

theorem both_some {A B : Type*} {R : A → B → Prop} {a : Option A} {b : Option B} {x : A} (h : Both R a b) (e : a = some x) : ∃ y, b = some y ∧ R x y := by
  subst e
  match b, h with
  | some y, h => exact ⟨y, rfl, h⟩

theorem both_some' {A B : Type*} {R : A → B → Prop} {a : Option A} {b : Option B} {y : B} (h : Both R a b) (e : b = some y) : ∃ x, a = some x ∧ R x y := by
  subst e
  match a, h with
  | some x, h => exact ⟨x, rfl, h⟩

theorem statusOf_success {s : Solver.Status} (h : statusOf s = .success) : s = .success := by
  cases s <;> simp_all [statusOf, Status.noCurv, Status.maxStep, Status.nonExact, Status.lsError]

theorem statusOf_max {s : Solver.Status} (h : statusOf s = .maxStep) : s = .maxStepSize := by
  cases s <;> simp_all [statusOf, Status.noCurv, Status.maxStep, Status.nonExact, Status.lsError]

/-- What a search state with a current point, value and gradient says about the object. -/
theorem atStep_of {o o' : Obj K X E M} {r : Solver.Search K} (ht : Tracks env o o' r) (h1 : r.pt = r.step) (h2 : r.f2 = (costRay env o).phi r.step) (h3 : r.gradAt = some r.step) : AtStep env o o' := by
  have hx : o'.x2 = pointAt env o r.step := by rw [ht.x2, h1]
  refine ⟨?_, ?_, ?_⟩
  · rw [hx, ht.step]; rfl
  · rw [ht.f2, h2, hx]; rfl
  · rw [ht.grad _ h3, hx]

theorem der_of {o o' : Obj K X E M} {r : Solver.Search K} (ht : Tracks env o o' r) (h1 : r.pt = r.step) (h3 : r.gradAt = some r.step) : (costRay env o).der r.step = slopeAt env o o' := by
  have hx : o'.x2 = pointAt env o r.step := by rw [ht.x2, h1]
  unfold slopeAt
  rw [ht.grad _ h3, hx, ← ht.step]; rfl

/-- **C148, Armijo**: when the search reports success, the point, value and gradient the solver keeps are those of the accepted step, and the value is sufficiently smaller than the current value or one of those
remembered. -/
theorem C148_armijo (hE : env.Exact) {n : Nat} {o o' : Obj K X E M} (h : armijo env cfg n o = some o') (hs : o'.status = .success) : AtStep env o o' ∧ Decreased cfg o o' := by
  obtain ⟨r, hr, ht⟩ := both_some (armijo_refines (cfg := cfg) (ls := ⟨0, 0, 0⟩) hE n o 0 0) h
  have hrs : r.status = .success := statusOf_success (by rw [← ht.status, hs])
  obtain ⟨a, b, c, d⟩ := Solver.C14_armijo_sufficient_decrease _ _ _ _ _ _ _ _ hr hrs (Solver.maxPref_isGreatest _ _ _)
  refine ⟨atStep_of ht a b c, _, (Solver.maxPref_isGreatest cfg.numPreFuns o.f1 o.preFuns).1, ?_⟩
  rw [ht.f2, b, ← ht.step]
  exact d

/-- **C148, Armijo, every search ends.** -/
theorem C148_armijo_ends [Archimedean K] (hE : env.Exact) (o : Obj K X E M) (hr1 : 0 < cfg.ratio1) (hr11 : cfg.ratio1 < 1) (hr2 : cfg.ratio2 < 1) (hm : 0 < cfg.minstep) (hp : 0 < o.stepsize) :
    ∃ n o', armijo env cfg n o = some o' := by
  obtain ⟨n, r, hr⟩ := Solver.C15_armijo_terminates (params cfg ⟨0, 0, 0⟩) (costRay env o) (formulas env ⟨0, 0, 0⟩ o) o.preFuns (Solver.Search.start o.stepsize 0 0) hr1 hr11 hr2 hm hp
  obtain ⟨o', h, -⟩ := both_some' (armijo_refines (cfg := cfg) (ls := ⟨0, 0, 0⟩) hE n o 0 0) hr
  exact ⟨n, o', h⟩

/-- **C148, Armijo, the step found.** -/
theorem C148_armijo_step (hE : env.Exact) {n : Nat} {o o' : Obj K X E M} (h : armijo env cfg n o = some o') (hr1 : 0 < cfg.ratio1) (hr11 : cfg.ratio1 ≤ 1) (hr2 : cfg.ratio2 ≤ 1) (hp : 0 < o.stepsize) :
    0 < o'.stepsize ∧ o'.stepsize ≤ o.stepsize ∧
      ((o'.status = .success ∧ min cfg.minstep (cfg.ratio1 * o.stepsize) ≤ o'.stepsize) ∨ (o'.status = .minStep ∧ o'.stepsize < cfg.minstep)) := by
  obtain ⟨r, hr, ht⟩ := both_some (armijo_refines (cfg := cfg) (ls := ⟨0, 0, 0⟩) hE n o 0 0) h
  have := Solver.C15_armijo_step_bounds_partial _ _ _ _ _ _ _ hr hr1 hr11 hr2 hp
  rw [ht.step] at this
  refine ⟨this.1, this.2.1, this.2.2.imp (fun q => ⟨?_, q.2⟩) (fun q => ⟨?_, q.2⟩)⟩
  · rw [ht.status, q.1]; rfl
  · rw [ht.status, q.1]; rfl

/-- **C148, strong Wolfe**: success means both conditions at the point the solver keeps. -/
theorem C148_strong_wolfe (hE : env.Exact) (hbig : ∀ x, env.f x < ls.big) {n : Nat} {o o' : Obj K X E M} (h : swSearch env cfg ls n o = some o') (hs : o'.status = .success) :
    AtStep env o o' ∧ o'.f2 ≤ o.f1 + cfg.alpha * o'.stepsize * o.initialslope ∧ |slopeAt env o o'| ≤ -ls.beta * o.initialslope := by
  obtain ⟨r, hr, ht⟩ := both_some (swSearch_refines (cfg := cfg) hE hbig n o 0 0) h
  have hrs : r.status = .success := statusOf_success (by rw [← ht.status, hs])
  obtain ⟨a, b, c, d, e⟩ := Solver.C17_strong_wolfe_success _ _ _ _ _ _ hr hrs
  refine ⟨atStep_of ht a b c, ?_, ?_⟩
  · rw [ht.f2, b, ← ht.step]; exact d
  · rw [← der_of ht a c]; exact e

/-- **C148, strong Wolfe, greatest step**: the status for the greatest step is reported at that step, which has sufficient decrease. -/
theorem C148_strong_wolfe_max (hE : env.Exact) (hbig : ∀ x, env.f x < ls.big) {n : Nat} {o o' : Obj K X E M} (h : swSearch env cfg ls n o = some o') (hs : o'.status = .maxStep) :
    AtStep env o o' ∧ o'.stepsize = ls.maxstep ∧ o'.f2 ≤ o.f1 + cfg.alpha * o'.stepsize * o.initialslope := by
  obtain ⟨r, hr, ht⟩ := both_some (swSearch_refines (cfg := cfg) hE hbig n o 0 0) h
  have hrs : r.status = .maxStepSize := statusOf_max (by rw [← ht.status, hs])
  obtain ⟨a, b, c, d, e⟩ := Solver.C17_strong_wolfe_max_step _ _ _ _ _ _ hr hrs
  refine ⟨atStep_of ht a b c, ?_, ?_⟩
  · rw [← ht.step]; exact d
  · rw [ht.f2, b, ← ht.step]; exact e

/-- **C148, strong Wolfe, every search ends.** -/
theorem C148_strong_wolfe_ends [Archimedean K] (hE : env.Exact) (hbig : ∀ x, env.f x < ls.big) (o : Obj K X E M) (hp : 0 < o.stepsize) : ∃ n o', swSearch env cfg ls n o = some o' := by
  obtain ⟨n, r, hr⟩ := Solver.C17_strong_wolfe_terminates (params cfg ls) (costRay env o) (formulas env ls o) (Solver.Search.start o.stepsize 0 0) hp
  obtain ⟨o', h, -⟩ := both_some' (swSearch_refines (cfg := cfg) hE hbig n o 0 0) hr
  exact ⟨n, o', h⟩

/-- **C148, weak Wolfe**: success at a step other than the first trial means sufficient decrease at the point the solver keeps, and the curvature condition unless the step was doubled eleven times. -/
theorem C148_weak_wolfe (hE : env.Exact) {n : Nat} {o o' : Obj K X E M} (hl : o.stepsize = o.initiallength) (h : wSearch env cfg ls n o = some o') (hs : o'.status = .success) (hp : 0 < o.stepsize)
    (hne : o'.stepsize ≠ o.stepsize) :
    AtStep env o o' ∧ o'.f2 ≤ o.f1 + cfg.alpha * o'.stepsize * o.initialslope ∧ (ls.beta * o.initialslope ≤ slopeAt env o o' ∨ ∃ t, 0 < t ∧ o'.stepsize = 2 ^ 11 * t) := by
  obtain ⟨r, hr, ht⟩ := both_some (wSearch_refines (cfg := cfg) (ls := ls) hE n o 0 0 hl) h
  have hrs : r.status = .success := statusOf_success (by rw [← ht.status, hs])
  obtain ⟨a, b, c, d, e⟩ := Solver.C17_weak_wolfe_success_partial _ _ _ _ _ _ hr hrs hp (by rw [ht.step]; exact hne)
  refine ⟨atStep_of ht a b c, ?_, ?_⟩
  · rw [ht.f2, b, ← ht.step]; exact d
  · rw [← der_of ht a c, ← ht.step]
    exact e.imp id fun ⟨t, q1, q2, _⟩ => ⟨t, q1, q2⟩

/-! ## Runs -/

/-- What a run needs of a search. -/
structure Monotone (env : Env K X E) (cfg : Cfg K X E) (S : Obj K X E M → Option (Obj K X E M)) : Prop where
  keeps : ∀ o o', S o = some o' → Keeps o o' ∧ o'.preFuns = o.preFuns
  lower : ∀ o o', S o = some o' → o'.status = .success → 0 < o.stepsize ∨ o.initialslope = 0 → o.initialslope ≤ 0 → ∃ v, (v = o.f1 ∨ v ∈ o.preFuns.dropLast.take cfg.numPreFuns) ∧ o'.f2 ≤ v

theorem monotone_armijo (hE : env.Exact) (ha : 0 ≤ cfg.alpha) (hr1 : 0 < cfg.ratio1) (hr11 : cfg.ratio1 ≤ 1) (hr2 : cfg.ratio2 ≤ 1) (m : Nat) :
    Monotone (M := M) env cfg (armijo env cfg m) := by
  refine ⟨fun o o' h => ?_, fun o o' h hs hp hsl => ?_⟩
  · obtain ⟨r, -, ht⟩ := both_some (armijo_refines (cfg := cfg) (ls := ⟨0, 0, 0⟩) hE m o 0 0) h
    exact ⟨(armijo_out h).1, ht.pre⟩
  · obtain ⟨-, v, hv, hd⟩ := C148_armijo hE h hs
    refine ⟨v, hv, hd.trans ?_⟩
    rcases hp with hp | hp
    · obtain ⟨q, -⟩ := C148_armijo_step hE h hr1 hr11 hr2 hp
      have := mul_nonpos_of_nonneg_of_nonpos (mul_nonneg ha q.le) hsl
      linarith
    · rw [hp, mul_zero, add_zero]

theorem swLoop_pos (hE : env.Exact) (h1 : 0 < cfg.ratio1) (hr : cfg.ratio1 ≤ cfg.ratio2) (h2 : cfg.ratio2 < 1) (hmax : 0 < ls.maxstep) (n : Nat) :
    ∀ (pre fpre spre : K) (o o' : Obj K X E M), 0 ≤ pre → pre ≠ o.stepsize → 0 < o.stepsize → swLoop env cfg ls n pre fpre spre o = some o' → 0 < o'.stepsize := by
  have hO : Ordered env := ⟨hE.lt, hE.le, by simp [hE.lit], by simp [hE.lit]⟩
  induction n with
  | zero => intro _ _ _ _ _ _ _ _ e; simp [swLoop] at e
  | succ n ih =>
    intro pre fpre spre o o' hp0 hne hs e
    unfold swLoop at e
    dsimp only at e
    have e1 : (h env o).stepsize = o.stepsize := rfl
    have e2 : (dh env (h env o)).stepsize = o.stepsize := rfl
    by_cases c1 : (decBad env cfg (h env o) || env.le fpre (h env o).f2) = true
    · rw [if_pos c1] at e
      cases e
      obtain ⟨c, q1, q2, hc⟩ := C140_between (ls := ls) hO h1 hr h2 9 pre o.stepsize fpre (h env o).f2 spre (h env o) hne
      rw [e1, hc]
      nlinarith [mul_pos q1 hs, mul_nonneg hp0 (sub_nonneg.mpr q2.le)]
    rw [if_neg c1] at e
    by_cases c2 : env.le (env.abs (dh env (h env o)).newslope) (-ls.beta * (dh env (h env o)).initialslope) = true
    · rw [if_pos c2] at e; cases e; exact hs
    rw [if_neg c2] at e
    by_cases c3 : env.le (env.lit 0 1) (dh env (h env o)).newslope = true
    · rw [if_pos c3] at e
      cases e
      obtain ⟨c, q1, q2, hc⟩ := C140_between (ls := ls) hO h1 hr h2 9 o.stepsize pre (dh env (h env o)).f2 fpre (dh env (h env o)).newslope (dh env (h env o)) hne.symm
      rw [e2, hc]
      nlinarith [mul_pos hs (sub_pos.mpr q2), mul_nonneg hp0 q1.le]
    rw [if_neg c3] at e
    by_cases c4 : env.eq (dh env (h env o)).stepsize ls.maxstep = true
    · rw [if_pos c4] at e; cases e; exact hs
    rw [if_neg c4] at e
    rw [hE.eq, decide_eq_true_eq, e2] at c4
    have h11 : env.lit 11 10 * o.stepsize > o.stepsize := by
      rw [hE.lit]; norm_num; linarith
    rw [e2] at e
    generalize -(dh env (h env o)).initialslope * o.stepsize * o.stepsize / env.lit 2 1 / ((dh env (h env o)).f2 - (dh env (h env o)).f1 - (dh env (h env o)).initialslope * o.stepsize) = t at e
    have hu : o.stepsize < (if env.lt (env.lit 11 10 * o.stepsize) t = true then t else env.lit 11 10 * o.stepsize) := by
      split_ifs with q
      · rw [hE.lt, decide_eq_true_eq] at q; exact h11.trans q
      · exact h11
    generalize (if env.lt (env.lit 11 10 * o.stepsize) t = true then t else env.lit 11 10 * o.stepsize) = u at *
    refine ih _ _ _ _ _ hs.le ?_ ?_ e
    · show o.stepsize ≠ (if env.lt u ls.maxstep = true then u else ls.maxstep)
      split_ifs
      · exact hu.ne
      · exact c4
    · show 0 < (if env.lt u ls.maxstep = true then u else ls.maxstep)
      split_ifs
      · exact hs.trans hu
      · exact hmax

theorem monotone_strong_wolfe (hE : env.Exact) (hbig : ∀ x, env.f x < ls.big) (ha : 0 ≤ cfg.alpha) (h1 : 0 < cfg.ratio1) (hr : cfg.ratio1 ≤ cfg.ratio2) (h2 : cfg.ratio2 < 1) (hmax : 0 < ls.maxstep)
    (m : Nat) : Monotone (M := M) env cfg (swSearch env cfg ls m) := by
  refine ⟨fun o o' h => ?_, fun o o' h hs hp hsl => ⟨o.f1, Or.inl rfl, ?_⟩⟩
  · obtain ⟨r, -, ht⟩ := both_some (swSearch_refines (cfg := cfg) hE hbig m o 0 0) h
    exact ⟨(swSearch_out h).1, ht.pre⟩
  · obtain ⟨-, hd, -⟩ := C148_strong_wolfe hE hbig h hs
    rcases hp with hp | hp
    · have q : 0 < o'.stepsize := by
        have e0 : env.lit 0 1 = 0 := by simp [hE.lit]
        unfold swSearch at h
        rw [e0] at h
        exact swLoop_pos hE h1 hr h2 hmax m _ _ _ { o with status := .success } _ le_rfl hp.ne hp h
      have := mul_nonpos_of_nonneg_of_nonpos (mul_nonneg ha q.le) hsl
      linarith
    · rw [hp, mul_zero, add_zero] at hd; exact hd

theorem windowed_snoc {w : Nat} {l : List K} {a : K} (hl : Windowed w l) (ha : ∃ j, ∃ hj : j < l.length, l.length ≤ j + max 1 w ∧ a ≤ l[j]) : Windowed w (l ++ [a]) := by
  intro i h
  rw [List.length_append, List.length_singleton] at h
  rcases Nat.lt_or_ge (i + 1) l.length with c | c
  · obtain ⟨j, hj, q1, q2⟩ := hl i c
    refine ⟨j, hj, q1, ?_⟩
    rw [List.getElem_append_left c, List.getElem_append_left (by omega)]
    exact q2
  · obtain ⟨j, hj, q1, q2⟩ := ha
    refine ⟨j, by omega, by omega, ?_⟩
    rw [List.getElem_append_right c, List.getElem_append_left hj]
    simpa using q2

/-- The directions of a solver descend: the slope is not positive, and it vanishes with the gradient. -/
def Descends (env : Env K X E) (hk : Hooks K X E M) : Prop :=
  ∀ o, 0 ≤ o.ngf1 → o.ngf1 = env.sqrt (env.metric o.x1 o.gf1 o.gf1) →
    env.metric o.x1 o.gf1 (hk.getSearchDir o).1 ≤ 0 ∧ (o.ngf1 = 0 → env.metric o.x1 o.gf1 (hk.getSearchDir o).1 = 0)

/-- The invariant at the head of the loop: the remembered values are the most recent recorded ones before the current one. -/
structure WindowInv (env : Env K X E) (w : Nat) (o : Obj K X E M) : Prop where
  good : Windowed w ((if o.status = .success then o.series else o.series.dropLast).map Prod.fst)
  recent : ∃ l, (o.series.map Prod.fst).reverse = o.f1 :: (o.preFuns ++ l)
  short : o.preFuns.length ≤ max 1 w
  norm0 : 0 ≤ o.ngf0
  norm : o.ngf1 = env.sqrt (env.metric o.x1 o.gf1 o.gf1)

theorem prepare_facts (o : Obj K X E M) :
    (prepare env cfg hk o).preFuns = o.preFuns ∧ (prepare env cfg hk o).initialslope = env.metric o.x1 o.gf1 (hk.getSearchDir o).1 ∧ (prepare env cfg hk o).initiallength = (prepare env cfg hk o).stepsize := by
  unfold prepare initialStepSize
  dsimp only
  split_ifs <;> exact ⟨rfl, rfl, rfl⟩

theorem step_pos (hE : env.Exact) (heps : 0 < env.eps) (hi : 0 < cfg.initstep) (o : Obj K X E M) (hn : 0 < o.ngf1) : 0 < (prepare env cfg hk o).stepsize := by
  unfold prepare initialStepSize
  dsimp only
  split_ifs
  · exact hi
  · show 0 < safeguard env cfg _ o.ngf1 _
    generalize (candidate env cfg _).1 = t
    generalize quadStep env _ = q
    unfold safeguard
    dsimp only
    generalize (if env.lt t (q / env.lit 100 1) = true then q else t) = u
    split_ifs with b
    · exact div_pos hi hn
    · rw [hE.lt, decide_eq_true_eq, not_lt] at b; exact heps.trans_le b

theorem prefix_drop {l r : List K} (b : Bool) : ∃ t, l ++ r = (if b then l.dropLast else l) ++ t := by
  cases b
  · exact ⟨r, rfl⟩
  · rcases List.eq_nil_or_concat l with h | ⟨a, x, h⟩
    · subst h; exact ⟨r, rfl⟩
    · subst h; exact ⟨x :: r, by simp⟩

theorem loopWith_window (hE : env.Exact) (heps : 0 < env.eps) (hi : 0 < cfg.initstep) (hsq : ∀ a, 0 ≤ env.sqrt a) (htol : 0 ≤ cfg.tol) (hacc : cfg.accuracy ≤ 0) (hd : Descends env hk)
    {S : Obj K X E M → Option (Obj K X E M)} (hS : Monotone env cfg S) (n : Nat) :
    ∀ (nonmon isstop : Bool) (o o' : Obj K X E M), loopWith env cfg hk S n nonmon isstop o = some o' → WindowInv env cfg.numPreFuns o →
      Windowed cfg.numPreFuns ((if o'.status = .success then o'.series else o'.series.dropLast).map Prod.fst) ∨ Windowed cfg.numPreFuns (o'.series.map Prod.fst) := by
  induction n with
  | zero => intro _ _ _ _ e; simp [loopWith] at e
  | succ n ih =>
    intro nonmon isstop o o' e hI
    unfold loopWith at e
    split_ifs at e with hc
    · have hs : o.status = .success := by
        rw [Bool.and_eq_true, decide_eq_true_eq] at hc; exact hc.2
      obtain ⟨p1, p2, p3, p4, p5, p6, p7, p8⟩ := keeps_prepare (env := env) (cfg := cfg) (hk := hk) o
      obtain ⟨p9, p10, -⟩ := prepare_facts (env := env) (cfg := cfg) (hk := hk) o
      have hn1 : 0 ≤ o.ngf1 := by rw [hI.norm]; exact hsq _
      obtain ⟨d1, d2⟩ := hd o hn1 hI.norm
      have hpos : 0 < (prepare env cfg hk o).stepsize ∨ (prepare env cfg hk o).initialslope = 0 := by
        rcases hn1.eq_or_lt with q | q
        · exact Or.inr (by rw [p10]; exact d2 q.symm)
        · exact Or.inl (step_pos hE heps hi o q)
      rw [← p10] at d1
      generalize prepare env cfg hk o = p at *
      have hfar : ¬ env.lt (p.ngf1 / (p.ngf0 + cfg.tol)) cfg.accuracy = true := by
        rw [hE.lt, decide_eq_true_eq, not_lt, p5, p4]
        exact hacc.trans (div_nonneg hn1 (add_nonneg hI.norm0 htol))
      unfold searchWith at e
      rw [if_neg hfar] at e
      rcases hq : S p with _ | q
      · rw [hq] at e; simp at e
      · rw [hq] at e
        dsimp only at e
        obtain ⟨k, kp⟩ := hS.keeps p q hq
        obtain ⟨l, hl⟩ := hI.recent
        have hgood := hI.good
        rw [if_pos hs] at hgood
        have hser : q.series = o.series := k.series.trans p7
        split_ifs at e
        · refine ih _ _ _ _ e ⟨?_, ?_, ?_, ?_, rfl⟩
          · show Windowed _ ((if q.status = Status.success then q.series ++ [(q.f2, _, q.stepsize)] else (q.series ++ [(q.f2, _, q.stepsize)]).dropLast).map Prod.fst)
            split_ifs with hqs
            · rw [List.map_append, hser]
              refine windowed_snoc hgood ?_
              obtain ⟨v, hv, hle⟩ := hS.lower p q hq hqs hpos d1
              rw [p2, p9] at hv
              have hlen : (o.series.map Prod.fst).length = (o.preFuns ++ l).length + 1 := by rw [← List.length_reverse, hl]; rfl
              -- the value `v` is at position `i` counted from the end
              have key : ∃ i, ∃ hi : i < (o.series.map Prod.fst).reverse.length, i < max 1 cfg.numPreFuns ∧ (o.series.map Prod.fst).reverse[i] = v := by
                rcases hv with rfl | hv
                · refine ⟨0, by rw [hl]; simp, by omega, ?_⟩
                  simp only [hl, List.getElem_cons_zero]
                · obtain ⟨i, hi', hiv⟩ := List.getElem_of_mem (List.mem_of_mem_take hv)
                  have hsh := hI.short
                  rw [List.length_dropLast] at hi'
                  refine ⟨i + 1, by rw [hl]; simp; omega, by omega, ?_⟩
                  simp only [hl, List.getElem_cons_succ]
                  rw [List.getElem_append_left (by omega), ← hiv, List.getElem_dropLast]
              obtain ⟨i, hi1, hi2, hi3⟩ := key
              rw [List.length_reverse] at hi1
              refine ⟨(o.series.map Prod.fst).length - 1 - i, by omega, by omega, ?_⟩
              rw [List.getElem_reverse] at hi3
              rw [hi3]
              exact hle
            · rw [List.dropLast_concat, hser]; exact hgood
          · have : ∃ t, o.f1 :: (o.preFuns ++ l) = (if (decide ((o.f1 :: o.preFuns).length > cfg.numPreFuns) || !(nonmon || env.le (env.sqrt (env.metric q.x2 q.gf2 q.gf2) / (q.ngf0 + cfg.tol)) cfg.preFunsAcc)) &&
                decide ((o.f1 :: o.preFuns).length > 1) then (o.f1 :: o.preFuns).dropLast else o.f1 :: o.preFuns) ++ t := by
              rw [← List.cons_append]; exact prefix_drop _
            obtain ⟨t, ht⟩ := this
            refine ⟨t, ?_⟩
            show ((q.series ++ [(q.f2, _, q.stepsize)]).map Prod.fst).reverse = q.f2 :: ((if (decide ((q.f1 :: q.preFuns).length > cfg.numPreFuns) || !(nonmon || env.le (env.sqrt (env.metric q.x2 q.gf2 q.gf2) / (q.ngf0 + cfg.tol)) cfg.preFunsAcc)) &&
                decide ((q.f1 :: q.preFuns).length > 1) then (q.f1 :: q.preFuns).dropLast else q.f1 :: q.preFuns) ++ t)
            rw [k.f1, kp, p2, p9, ← ht, hser, List.map_append, List.reverse_append, hl]
            rfl
          · show (if (decide ((q.f1 :: q.preFuns).length > cfg.numPreFuns) || !(nonmon || env.le (env.sqrt (env.metric q.x2 q.gf2 q.gf2) / (q.ngf0 + cfg.tol)) cfg.preFunsAcc)) &&
                decide ((q.f1 :: q.preFuns).length > 1) then (q.f1 :: q.preFuns).dropLast else q.f1 :: q.preFuns).length ≤ _
            have hsh := hI.short
            rw [kp, p9]
            split_ifs with c
            · rw [List.length_dropLast]; simpa using hsh
            · rw [Bool.and_eq_true, Bool.or_eq_true, decide_eq_true_eq, decide_eq_true_eq] at c
              rw [List.length_cons] at c ⊢
              by_contra hh
              exact c ⟨Or.inl (by omega), by omega⟩
          · show 0 ≤ q.ngf0
            rw [k.ngf0, p4]; exact hI.norm0
        · cases e
          rw [hser]; exact Or.inr hgood
    · cases e; exact Or.inl hI.good

/-- **C148, runs**: the values a run records obey the window: every value is at most one of the `max 1 Num_pre_funs` values recorded before it, except the last one when the last search failed. For every solver whose
directions descend, every search with sufficient decrease, every initial step rule and every way the run ends. -/
theorem C148_run (hE : env.Exact) (heps : 0 < env.eps) (hi : 0 < cfg.initstep) (hsq : ∀ a, 0 ≤ env.sqrt a) (htol : 0 ≤ cfg.tol) (hacc : cfg.accuracy ≤ 0) (hd : Descends env hk)
    {S : Obj K X E M → Option (Obj K X E M)} (hS : Monotone env cfg S) {n : Nat} {o o' : Obj K X E M} (e : runWith env cfg hk S n o = some o') :
    Windowed cfg.numPreFuns (o'.series.map Prod.fst) ∨ (o'.status ≠ .success ∧ Windowed cfg.numPreFuns (o'.series.dropLast.map Prod.fst)) := by
  unfold runWith at e
  obtain ⟨p, hp, rfl⟩ := Option.map_eq_some_iff.mp e
  have := loopWith_window hE heps hi hsq htol hacc hd hS _ _ _ _ _ hp
    ⟨by intro i h; simp [prologue] at h, ⟨[], rfl⟩, by simp [prologue], hsq _, rfl⟩
  dsimp only
  rcases this with h | h
  · split_ifs at h with hs
    · exact Or.inl h
    · exact Or.inr ⟨hs, h⟩
  · exact Or.inl h

/-- Every value of a windowed list is at most the first one. -/
theorem windowed_first {w : Nat} {l : List K} (hl : Windowed w l) : ∀ i (h : i < l.length), l[i] ≤ l[0]'(by omega) := by
  intro i
  induction i using Nat.strong_induction_on with
  | _ i ih =>
    intro h
    rcases i with _ | i
    · exact le_rfl
    · obtain ⟨j, hj, -, q⟩ := hl i h
      exact q.trans (ih j (by omega) (by omega))

/-- With a window of one the list decreases. -/
theorem windowed_one {w : Nat} (hw : w ≤ 1) {l : List K} (hl : Windowed w l) (i : Nat) (h : i + 1 < l.length) : l[i + 1] ≤ l[i] := by
  obtain ⟨j, hj, q1, q2⟩ := hl i h
  have : j = i := by omega
  subst this
  exact q2

theorem slope_of_angle (hE : env.Exact) (hsq : ∀ a, 0 ≤ env.sqrt a) (hsym : ∀ x u v, env.metric x u v = env.metric x v u) {x : X} {g eta : E} {n : K} (h1 : 0 ≤ n)
    (c : ¬ env.le (-env.sqrt env.eps) (env.metric x eta g / n / n) = true) : env.metric x g eta ≤ 0 ∧ (n = 0 → env.metric x g eta = 0) := by
  rw [hE.le, decide_eq_true_eq, not_le] at c
  have hneg : env.metric x eta g / n / n < 0 := c.trans_le (neg_nonpos.mpr (hsq _))
  rw [hsym] at hneg
  have hne : n ≠ 0 := by rintro q; rw [q] at hneg; simp at hneg
  have hpos : 0 < n := lt_of_le_of_ne h1 hne.symm
  rw [div_div, div_neg_iff] at hneg
  refine ⟨?_, fun q => absurd q hne⟩
  rcases hneg with ⟨_, q⟩ | ⟨q, _⟩
  · exact absurd q (not_lt.mpr (mul_pos hpos hpos).le)
  · exact q.le

theorem windowed_pairwise {w : Nat} (hw : w ≤ 1) {l : List K} (hl : Windowed w l) : l.Pairwise (· ≥ ·) := by
  rw [← List.isChain_iff_pairwise, List.isChain_iff_getElem]
  exact fun i h => windowed_one hw hl i h

/-- What is used of the metric and the square root. -/
structure Euclid (env : Env K X E) : Prop where
  sqrt : ∀ a, 0 ≤ env.sqrt a
  sqrt_zero : ∀ a, 0 ≤ a → env.sqrt a = 0 → a = 0
  sym : ∀ x u v, env.metric x u v = env.metric x v u
  lin : ∀ x a u v, env.metric x u (env.smul a v) = a * env.metric x u v
  nonneg : ∀ x u, 0 ≤ env.metric x u u

theorem slope_of_grad (hE : env.Exact) (hM : Euclid env) {x : X} {g : E} {n : K} (h2 : n = env.sqrt (env.metric x g g)) :
    env.metric x g (env.smul (env.lit (-1) 1) g) ≤ 0 ∧ (n = 0 → env.metric x g (env.smul (env.lit (-1) 1) g) = 0) := by
  have e1 : env.lit (-1) 1 = -1 := by simp [hE.lit]
  have hg : env.metric x g (env.smul (env.lit (-1) 1) g) = -env.metric x g g := by rw [hM.lin, e1]; ring
  rw [hg]
  exact ⟨neg_nonpos.mpr (hM.nonneg _ _), fun q => by rw [hM.sqrt_zero _ (hM.nonneg x g) (by rw [← h2, q]), neg_zero]⟩

/-- The directions of steepest descent descend, with any preconditioner. -/
theorem rsd_descends (hE : env.Exact) (hM : Euclid env) : Descends env (rsd env) := by
  intro o h1 h2
  unfold rsd
  dsimp only
  split_ifs with c
  · exact slope_of_grad hE hM h2
  · exact slope_of_angle hE hM.sqrt hM.sym h1 c

/-- The directions of the conjugate gradient method descend, for every formula, preconditioner and transport. -/
theorem rcg_descends (hE : env.Exact) (hM : Euclid env) (kind : CGKind) : Descends env (rcg env kind) := by
  intro o h1 h2
  unfold rcg
  dsimp only
  split_ifs with c d
  · exact slope_of_grad hE hM h2
  · exact slope_of_angle hE hM.sqrt hM.sym h1 d
  · rw [Bool.or_eq_true, not_or] at c
    exact slope_of_angle hE hM.sqrt hM.sym h1 c.2

/-- **C148, steepest descent and conjugate gradients with the Armijo search, monotone** (`Num_pre_funs ≤ 1`, the default): the recorded values never increase while searches succeed. -/
theorem C148_monotone (hE : env.Exact) (hM : Euclid env) (heps : 0 < env.eps) (hi : 0 < cfg.initstep) (htol : 0 ≤ cfg.tol) (hacc : cfg.accuracy ≤ 0)
    (ha : 0 ≤ cfg.alpha) (hr1 : 0 < cfg.ratio1) (hr11 : cfg.ratio1 ≤ 1) (hr2 : cfg.ratio2 ≤ 1) (hw : cfg.numPreFuns ≤ 1) {m n : Nat} :
    (∀ o o' : Obj K X E Unit, runWith env cfg (rsd env) (armijo env cfg m) n o = some o' → o'.status = .success → (o'.series.map Prod.fst).Pairwise (· ≥ ·)) ∧
    (∀ (kind : CGKind) (o o' : Obj K X E (CGOwn K E)), runWith env cfg (rcg env kind) (armijo env cfg m) n o = some o' → o'.status = .success → (o'.series.map Prod.fst).Pairwise (· ≥ ·)) := by
  constructor
  · intro o o' e hs
    rcases C148_run hE heps hi hM.sqrt htol hacc (rsd_descends hE hM) (monotone_armijo hE ha hr1 hr11 hr2 m) e with q | q
    · exact windowed_pairwise hw q
    · exact absurd hs q.1
  · intro kind o o' e hs
    rcases C148_run hE heps hi hM.sqrt htol hacc (rcg_descends hE hM kind) (monotone_armijo hE ha hr1 hr11 hr2 m) e with q | q
    · exact windowed_pairwise hw q
    · exact absurd hs q.1

/-- **C148, with the strong Wolfe search**: the recorded values never increase. -/
theorem C148_strong_wolfe_monotone (hE : env.Exact) (hM : Euclid env) (heps : 0 < env.eps) (hi : 0 < cfg.initstep) (htol : 0 ≤ cfg.tol) (hacc : cfg.accuracy ≤ 0) (hbig : ∀ x, env.f x < ls.big)
    (ha : 0 ≤ cfg.alpha) (h1 : 0 < cfg.ratio1) (hr : cfg.ratio1 ≤ cfg.ratio2) (h2 : cfg.ratio2 < 1) (hmax : 0 < ls.maxstep) (hw : cfg.numPreFuns ≤ 1) {m n : Nat} (kind : CGKind) (o o' : Obj K X E (CGOwn K E))
    (e : runWith env cfg (rcg env kind) (swSearch env cfg ls m) n o = some o') (hs : o'.status = .success) : (o'.series.map Prod.fst).Pairwise (· ≥ ·) := by
  rcases C148_run hE heps hi hM.sqrt htol hacc (rcg_descends hE hM kind) (monotone_strong_wolfe hE hbig ha h1 hr h2 hmax m) e with q | q
  · exact windowed_pairwise hw q
  · exact absurd hs q.1

/-! ## Instances -/

theorem exact_line (c : ℚ) : (lineEnv c).Exact where
  lt _ _ := rfl
  le _ _ := rfl
  eq _ _ := rfl
  lit n d := Rat.mkRat_eq_div n d
  abs a := by
    show (if a < 0 then -a else a) = |a|
    split_ifs with h
    · exact (abs_of_neg h).symm
    · exact (abs_of_nonneg (not_lt.mp h)).symm

theorem ratRoot_nonneg (a : ℚ) : 0 ≤ ratRoot a := by
  unfold ratRoot
  rw [Rat.mkRat_eq_div]
  positivity

theorem ratRoot_zero (a : ℚ) (h : 0 ≤ a) (hz : ratRoot a = 0) : a = 0 := by
  unfold ratRoot at hz
  rw [Rat.mkRat_eq_div, div_eq_zero_iff] at hz
  rcases hz with q | q
  · have : Nat.sqrt a.num.toNat = 0 := by exact_mod_cast q
    rw [Nat.sqrt_eq_zero] at this
    have h2 := Rat.num_nonneg.mpr h
    exact Rat.num_eq_zero.mp (by omega)
  · have : Nat.sqrt a.den = 0 := by exact_mod_cast q
    rw [Nat.sqrt_eq_zero] at this
    exact absurd this a.den_nz

theorem euclid_line (c : ℚ) : Euclid (lineEnv c) :=
  ⟨ratRoot_nonneg, ratRoot_zero, fun _ u v => mul_comm u v, fun _ a u v => by show u * (a * v) = a * (u * v); ring, fun _ u => mul_self_nonneg u⟩

/-- Instance of `C148_monotone`: steepest descent on `3/2 x²` from 1 with the Barzilai-Borwein step. -/
example : ∃ o', runWith (lineEnv 3) (lineCfg .gradF0 0 3) (rsd (lineEnv 3)) (armijo (lineEnv 3) (lineCfg .gradF0 0 3) 20) 20 (freshObj () 1) = some o' ∧ o'.status = .success ∧ 1 < (o'.series.map Prod.fst).length ∧
    (o'.series.map Prod.fst).Pairwise (· ≥ ·) := by
  have e : (runWith (lineEnv 3) (lineCfg .gradF0 0 3) (rsd (lineEnv 3)) (armijo (lineEnv 3) (lineCfg .gradF0 0 3) 20) 20 (freshObj () 1)).map (fun o => (decide (o.status = .success), decide (1 < (o.series.map Prod.fst).length))) = some (true, true) := by
    decide +kernel
  obtain ⟨o', h1, h2⟩ := Option.map_eq_some_iff.mp e
  simp only [Prod.mk.injEq, decide_eq_true_eq] at h2
  refine ⟨o', h1, h2.1, h2.2, ?_⟩
  refine (C148_monotone (exact_line 3) (euclid_line 3) (by show (0 : ℚ) < mkRat 1 (2 ^ 52); decide +kernel) (by show (0 : ℚ) < 1 / 2; norm_num) (by show (0 : ℚ) ≤ 1 / 1000; norm_num) le_rfl ?_ ?_ ?_ ?_ ?_).1 _ _ h1 h2.1
  · show (0 : ℚ) ≤ 1 / 10; norm_num
  · show (0 : ℚ) < 1 / 4; norm_num
  · show (1 / 4 : ℚ) ≤ 1; norm_num
  · show (1 / 4 : ℚ) ≤ 1; norm_num
  · exact le_rfl

/-- **The exception for the last value is needed**: with a least step of one half the search on `50 x²` from 1 gives up after one reduction; the run records and returns the value of the trial point, which is larger than all
before. -/
theorem C148_failed_search_increases :
    ((runWith (lineEnv 100) { lineCfg .gradF0 0 3 with initstep := 1, minstep := 1 / 2 } (rsd (lineEnv 100)) (armijo (lineEnv 100) { lineCfg .gradF0 0 3 with initstep := 1, minstep := 1 / 2 } 20) 20 (freshObj () 1)).map
      fun o => (decide (o.status = .minStep), o.series.map Prod.fst)) = some (true, [50, 490050]) := by
  decide +kernel

/-- `-1 / (1 + x²)` on the line, a bounded cost. -/
def bellEnv : Env ℚ ℚ ℚ := { lineEnv 1 with f := fun x => -1 / (1 + x * x), grad := fun x => 2 * x / ((1 + x * x) * (1 + x * x)) }

/-- Instance of `C148_strong_wolfe`: a search along the negative gradient of the bounded cost that changes the step and ends with success. -/
example : bellEnv.Exact ∧ (∀ x, bellEnv.f x < repLS.big) ∧
    ((swSearch bellEnv (lineCfg .gradF0 0 3) { repLS with beta := 1 / 2 } 20 { freshObj () 1 with f1 := -1 / 2, gf1 := 1 / 2, eta1 := -1 / 2, initialslope := -1 / 4, stepsize := 1, initiallength := 1 }).map
      fun o => (decide (o.status = .success), decide (o.stepsize = 1))) = some (true, false) := by
  refine ⟨⟨fun _ _ => rfl, fun _ _ => rfl, fun _ _ => rfl, (exact_line 1).lit, (exact_line 1).abs⟩, fun x => ?_, by decide +kernel⟩
  have h1 : -1 / (1 + x * x) < 0 := div_neg_of_neg_of_pos (by norm_num) (by nlinarith [mul_self_nonneg x])
  exact h1.trans (by show (0 : ℚ) < (2 ^ 53 - 1) * 2 ^ 971; decide +kernel)

/-- Instance of `C148_weak_wolfe`: the same search with the weak conditions. -/
example :
    ((wSearch bellEnv (lineCfg .gradF0 0 3) { repLS with beta := 1 / 2 } 20 { freshObj () 1 with f1 := -1 / 2, gf1 := 1 / 2, eta1 := -1 / 2, initialslope := -1 / 4, stepsize := 1, initiallength := 1 }).map
      fun o => (decide (o.status = .success), decide (o.stepsize = 1))) = some (true, false) := by decide +kernel

/-- Instance of `C148_armijo`: a search that halves the step at least once. -/
example :
    ((armijo (lineEnv 3) { lineCfg .gradF0 0 3 with ratio2 := 1 / 2 } 20 { freshObj () 1 with f1 := 3 / 2, gf1 := 3, eta1 := -3, initialslope := -9, stepsize := 1, initiallength := 1 }).map
      fun o => (decide (o.status = .success), decide (o.stepsize < 1))) = some (true, true) := by decide +kernel

end Verif.Obj
