import Verif.Solver.ObjectSearch
import Verif.Solver.LineSearch

/-!
# The searches on the members of the solver object refine the one-dimensional searches

`Verif.Solver.LineSearch` describes the line searches as functions of the cost along the ray and an arbitrary interpolation formula; `Verif.Solver.Object` and `Verif.Solver.ObjectSearch` describe the
same functions of `Solvers/SolversSMLS.cpp` on the members of the object. Here the two are related: in exact arithmetic the second does what the first does, with the formulas of the code.
-/

namespace Verif.Obj

set_option linter.unusedSectionVars false

variable {K : Type} [Field K] [LinearOrder K] {X E M : Type*}

/-- The numbers are computed with exactly. -/
structure Env.Exact (env : Env K X E) : Prop where
  lt : ∀ a b, env.lt a b = decide (a < b)
  le : ∀ a b, env.le a b = decide (a ≤ b)
  eq : ∀ a b, env.eq a b = decide (a = b)
  lit : ∀ (n : Int) (d : Nat), env.lit n d = (n : K) / (d : K)
  abs : ∀ a, env.abs a = |a|

/-- The parameters of both descriptions. -/
def params (cfg : Cfg K X E) (ls : LSCfg K) : Solver.LSParams K := ⟨cfg.alpha, ls.beta, cfg.ratio1, cfg.ratio2, cfg.minstep, ls.maxstep, cfg.numPreFuns⟩

/-- The point at step `t` of the ray the object searches along. -/
def pointAt (env : Env K X E) (o : Obj K X E M) (t : K) : X := env.retr o.x1 (env.smul t o.eta1)

/-- The cost along the ray. -/
def costRay (env : Env K X E) (o : Obj K X E M) : Solver.Ray K where
  f0 := o.f1
  slope := o.initialslope
  phi t := env.f (pointAt env o t)
  der t := env.metric (pointAt env o t) (env.grad (pointAt env o t)) (env.dretr o.x1 (env.smul t o.eta1) (pointAt env o t) o.eta1)

/-- The step from the cubic of `LinesearchWolfe` before the clamps, SolversSMLS.cpp:795-806. -/
def wCubic (env : Env K X E) (o : Obj K X E M) (t f2 pre fpre : K) : K :=
  let n1 := env.lit 1 1 / t / t
  let n2 := env.lit 1 1 / pre / pre
  let n3 := (f2 - o.f1 - t * o.initialslope) / (t - pre)
  let n4 := (fpre - o.f1 - pre * o.initialslope) / (t - pre)
  let a := n1 * n3 - n2 * n4
  let b := -pre * n1 * n3 + t * n2 * n4
  let disc := b * b - env.lit 3 1 * a * o.initialslope
  let disc := if env.lt disc (env.lit 0 1) then env.lit 0 1 else disc
  if env.lt (env.abs a) (env.lit 1 10000000000) then -o.initialslope / env.lit 2 1 / b else (-b + env.sqrt disc) / env.lit 3 1 / a

/-- The interpolation formulas of the code. -/
def formulas (env : Env K X E) (ls : LSCfg K) (o : Obj K X E M) : Solver.Interp K where
  quad t f2 := some (-o.initialslope * t * t / env.lit 2 1 / (f2 - o.f1 - o.initialslope * t))
  cubic t pre2 f2 fpre := some (cubicStep env t pre2 fpre f2 o.f1 o.initialslope)
  zoom xlo xhi fxlo fxhi slo := some (-slo * (xhi - xlo) * (xhi - xlo) / env.lit 2 1 / (fxhi.getD ls.big - (fxlo.getD ls.big + slo * (xhi - xlo))))
  extend t f2 := some (-o.initialslope * t * t / env.lit 2 1 / (f2 - o.f1 - o.initialslope * t))
  wolfeIncr d diff flo fhi := -d * diff * diff / env.lit 2 1 / (fhi - (flo + d * diff))
  wolfeStep t f2 pre fpre := if t = o.initiallength then -o.initialslope * o.initiallength * o.initiallength / env.lit 2 1 / (f2 - o.f1 - o.initialslope * o.initiallength)
    else wCubic env o t f2 pre fpre

/-- The status of both descriptions. -/
def statusOf : Solver.Status → Status
  | .noCurvature => .noCurv
  | .minStepSize => .minStep
  | .maxStepSize => .maxStep
  | .nonExact => .nonExact
  | .lsError => .lsError
  | .success => .success

/-- The object `o`, reached in a search from `o0`, and the search state `s` describe the same situation, except perhaps for the point and the function value. -/
structure Near (env : Env K X E) (o0 o : Obj K X E M) (s : Solver.Search K) : Prop where
  x1 : o.x1 = o0.x1
  f1 : o.f1 = o0.f1
  eta1 : o.eta1 = o0.eta1
  slope0 : o.initialslope = o0.initialslope
  len : o.initiallength = o0.initiallength
  pre : o.preFuns = o0.preFuns
  step : s.step = o.stepsize
  grad : ∀ t, s.gradAt = some t → o.gf2 = env.grad (pointAt env o0 t)
  slope : ∀ d, s.newslope = some d → o.newslope = d
  status : o.status = statusOf s.status

/-- They describe the same situation. -/
structure Tracks (env : Env K X E) (o0 o : Obj K X E M) (s : Solver.Search K) : Prop extends Near env o0 o s where
  eta2 : o.eta2 = env.smul s.pt o0.eta1
  x2 : o.x2 = pointAt env o0 s.pt
  f2 : o.f2 = s.f2

/-- Both searches fail to end within the allowed number of passes, or both end with results that describe the same situation. -/
def Both {A B : Type*} (R : A → B → Prop) : Option A → Option B → Prop
  | none, none => True
  | some a, some b => R a b
  | _, _ => False

theorem Both.map {A B A' B' : Type*} {R : A → B → Prop} {R' : A' → B' → Prop} {f : A → A'} {g : B → B'} (hfg : ∀ a b, R a b → R' (f a) (g b)) :
    ∀ {a : Option A} {b : Option B}, Both R a b → Both R' (a.map f) (b.map g)
  | none, none, _ => trivial
  | some _, some _, h => hfg _ _ h

variable {env : Env K X E} {cfg : Cfg K X E} {ls : LSCfg K} {o0 o : Obj K X E M} {s : Solver.Search K}

theorem near_step (hn : Near env o0 o s) (t : K) : Near env o0 { o with stepsize := t } { s with step := t } :=
  ⟨hn.x1, hn.f1, hn.eta1, hn.slope0, hn.len, hn.pre, rfl, hn.grad, hn.slope, hn.status⟩

theorem tracks_step (hn : Tracks env o0 o s) (t : K) : Tracks env o0 { o with stepsize := t } { s with step := t } :=
  ⟨near_step hn.toNear t, hn.eta2, hn.x2, hn.f2⟩

theorem tracks_status (hn : Tracks env o0 o s) (st : Solver.Status) : Tracks env o0 { o with status := statusOf st } { s with status := st } :=
  ⟨⟨hn.x1, hn.f1, hn.eta1, hn.slope0, hn.len, hn.pre, hn.step, hn.grad, hn.slope, rfl⟩, hn.eta2, hn.x2, hn.f2⟩

theorem near_h (hn : Near env o0 o s) : Tracks env o0 (h env o) (Solver.evalH (costRay env o0) s) := by
  refine ⟨⟨hn.x1, hn.f1, hn.eta1, hn.slope0, hn.len, hn.pre, hn.step, hn.grad, hn.slope, hn.status⟩, ?_, ?_, ?_⟩
  · simp only [h, Solver.evalH, hn.step, hn.eta1]
  · simp only [h, Solver.evalH, hn.step, hn.eta1, hn.x1, pointAt]
  · simp only [h, Solver.evalH, costRay, hn.step, hn.eta1, hn.x1, pointAt]

theorem tracks_dh (hn : Tracks env o0 o s) : Tracks env o0 (dh env o) (Solver.evalDh (costRay env o0) s) := by
  refine ⟨⟨hn.x1, hn.f1, hn.eta1, hn.slope0, hn.len, hn.pre, hn.step, ?_, ?_, hn.status⟩, hn.eta2, hn.x2, hn.f2⟩
  · intro t ht
    simp only [Solver.evalDh, Option.some.injEq] at ht
    subst ht
    simp only [dh, hn.x2]
  · intro d hd
    simp only [Solver.evalDh, Option.some.injEq, costRay] at hd
    subst hd
    simp only [dh, hn.x2, hn.x1, hn.eta1, hn.eta2]

theorem tracks_grad (hn : Tracks env o0 o s) : Tracks env o0 (gradX2 env o) (Solver.evalGrad s) := by
  refine ⟨⟨hn.x1, hn.f1, hn.eta1, hn.slope0, hn.len, hn.pre, hn.step, ?_, hn.slope, hn.status⟩, hn.eta2, hn.x2, hn.f2⟩
  intro t ht
  simp only [Solver.evalGrad, Option.some.injEq] at ht
  subst ht
  simp only [gradX2, hn.x2]

/-! ## Armijo -/

theorem maxpref_list (hE : env.Exact) : ∀ (l : List K) (n : Nat) (m : K), (l.dropLast.take n).foldl (fun a j => if env.lt a j then j else a) m = Solver.maxPref n m l
  | [], 0, _ => rfl
  | [], _ + 1, _ => rfl
  | [_], 0, _ => rfl
  | [_], _ + 1, _ => rfl
  | _ :: _ :: _, 0, _ => rfl
  | a :: b :: l, n + 1, m => by
    have ih := maxpref_list hE (b :: l) n (if m < a then a else m)
    simp only [Solver.maxPref]
    rw [← ih]
    simp only [List.dropLast_cons₂, List.take_succ_cons, List.foldl_cons, hE.lt, decide_eq_true_eq]

theorem armijoFails_iff (hE : env.Exact) (hn : Tracks env o0 o s) (mp : K) :
    (armijoFails env cfg mp o = true) ↔ (mp - s.f2 < -(params cfg ls).alpha * (costRay env o0).slope * s.step) := by
  simp only [armijoFails, hE.lt, decide_eq_true_eq, hn.f2, hn.slope0, hn.step, params, costRay]

theorem backtrack_refines (hE : env.Exact) (mp : K) : ∀ (n : Nat) (o : Obj K X E M) (s : Solver.Search K), Tracks env o0 o s →
    Both (Tracks env o0) (backtrack env cfg mp n o) (Solver.backtrack (params cfg ls) (costRay env o0) mp n s)
  | 0, _, _, _ => trivial
  | n + 1, o, s, hn => by
    unfold backtrack Solver.backtrack
    have e := armijoFails_iff (cfg := cfg) (ls := ls) hE hn mp
    by_cases hf : armijoFails env cfg mp o = true
    · rw [if_pos hf, if_pos (e.mp hf)]
      have e2 : (env.lt (o.stepsize * cfg.ratio1) cfg.minstep = true) ↔ (s.step * (params cfg ls).r1 < (params cfg ls).minStep) := by
        simp only [hE.lt, decide_eq_true_eq, params, hn.step]
      have ht : Tracks env o0 { o with stepsize := o.stepsize * cfg.ratio1 } { s with step := s.step * (params cfg ls).r1 } := by
        have e3 : s.step * (params cfg ls).r1 = o.stepsize * cfg.ratio1 := by simp only [params, hn.step]
        rw [e3]; exact tracks_step hn _
      by_cases hm : env.lt (o.stepsize * cfg.ratio1) cfg.minstep = true
      · dsimp only
        rw [if_pos hm, if_pos (e2.mp hm)]
        exact tracks_status ht .minStepSize
      · dsimp only
        rw [if_neg hm, if_neg (mt e2.mpr hm)]
        exact backtrack_refines hE mp n _ _ (near_h ht.toNear)
    · rw [if_neg hf, if_neg (mt e.mpr hf)]
      exact hn

theorem clamp_eq (hE : env.Exact) (t pre : K) : clampStep env cfg t pre = Solver.clampHiLo ((params cfg ls).r2 * pre) ((params cfg ls).r1 * pre) (some t) := by
  simp only [clampStep, Solver.clampHiLo, hE.lt, decide_eq_true_eq, params, gt_iff_lt]; rfl

theorem interp_refines (hE : env.Exact) (mp : K) : ∀ (n : Nat) (pre2 f2pre : K) (o : Obj K X E M) (s : Solver.Search K), Tracks env o0 o s →
    Both (Tracks env o0) (interpLoop env cfg mp n o.stepsize pre2 f2pre o) (Solver.polyLoop (params cfg ls) (costRay env o0) (formulas env ls o0) mp n pre2 f2pre s)
  | 0, _, _, _, _, _ => trivial
  | n + 1, pre2, f2pre, o, s, hn => by
    unfold interpLoop Solver.polyLoop
    have e := armijoFails_iff (cfg := cfg) (ls := ls) hE hn mp
    by_cases hf : armijoFails env cfg mp o = true
    · rw [if_pos hf, if_pos (e.mp hf)]
      have e3 : Solver.clampHiLo ((params cfg ls).r2 * s.step) ((params cfg ls).r1 * s.step) ((formulas env ls o0).cubic s.step pre2 s.f2 f2pre) =
          clampStep env cfg (cubicStep env o.stepsize pre2 f2pre o.f2 o.f1 o.initialslope) o.stepsize := by
        rw [clamp_eq (ls := ls) hE]
        simp only [formulas, hn.step, hn.f2, hn.f1, hn.slope0]
      simp only [e3]
      have ht := tracks_step hn (clampStep env cfg (cubicStep env o.stepsize pre2 f2pre o.f2 o.f1 o.initialslope) o.stepsize)
      generalize clampStep env cfg (cubicStep env o.stepsize pre2 f2pre o.f2 o.f1 o.initialslope) o.stepsize = t at ht
      have e2 : (env.lt t cfg.minstep = true) ↔ (t < (params cfg ls).minStep) := by simp only [hE.lt, decide_eq_true_eq, params]
      by_cases hm : env.lt t cfg.minstep = true
      · rw [if_pos hm, if_pos (e2.mp hm)]
        exact tracks_status ht .minStepSize
      · rw [if_neg hm, if_neg (mt e2.mpr hm)]
        have := interp_refines hE mp n o.stepsize o.f2 _ _ (near_h ht.toNear)
        rw [← hn.step, hn.f2] at this
        rw [← hn.step, hn.f2]
        exact this
    · rw [if_neg hf, if_neg (mt e.mpr hf)]
      exact hn

/-- The object when a search starts. -/
theorem near_start (o : Obj K X E M) (p q : K) : Near env o { o with status := .success } { Solver.Search.start o.stepsize p q with status := .success } :=
  ⟨rfl, rfl, rfl, rfl, rfl, rfl, rfl, fun t ht => by simp [Solver.Search.start] at ht, fun d hd => by simp [Solver.Search.start] at hd, rfl⟩

theorem armijo_refines (hE : env.Exact) (n : Nat) (o : Obj K X E M) (p q : K) :
    Both (Tracks env o) (armijo env cfg n o) (Solver.armijo (params cfg ls) (costRay env o) (formulas env ls o) o.preFuns n (Solver.Search.start o.stepsize p q)) := by
  unfold armijo Solver.armijo
  have hs := near_h (near_start (env := env) o p q)
  simp only
  generalize Solver.evalH (costRay env o) { Solver.Search.start o.stepsize p q with status := .success } = s at hs
  generalize h env { o with status := Status.success } = r at hs
  have em : maxpref env cfg r = Solver.maxPref (params cfg ls).numPre (costRay env o).f0 o.preFuns := by
    unfold maxpref
    rw [maxpref_list hE, hs.pre, hs.f1]; rfl
  rw [← em]
  generalize maxpref env cfg r = mp
  have e1 : (env.le cfg.ratio2 cfg.ratio1 = true) ↔ ((params cfg ls).r2 ≤ (params cfg ls).r1) := by simp only [hE.le, decide_eq_true_eq, params]
  by_cases hr : env.le cfg.ratio2 cfg.ratio1 = true
  · rw [if_pos hr, if_pos (e1.mp hr)]
    exact Both.map (R := Tracks env o) (R' := Tracks env o) (fun _ _ hab => tracks_dh hab) (backtrack_refines hE mp n r s hs)
  · rw [if_neg hr, if_neg (mt e1.mpr hr)]
    have hmap : ∀ (a : Obj K X E M) (b : Solver.Search K), Tracks env o a b → Tracks env o { gradX2 env a with newslope := env.inf } { Solver.evalGrad b with newslope := none } := by
      intro a b hab
      have hg := tracks_grad hab
      exact ⟨⟨hg.x1, hg.f1, hg.eta1, hg.slope0, hg.len, hg.pre, hg.step, hg.grad, fun d hd => by simp at hd, hg.status⟩, hg.eta2, hg.x2, hg.f2⟩
    refine Both.map hmap ?_
    unfold Solver.armijoFirst
    have e := armijoFails_iff (cfg := cfg) (ls := ls) hE hs mp
    by_cases hf : armijoFails env cfg mp r = true
    · rw [if_pos hf, if_pos (e.mp hf)]
      have e3 : Solver.clampHiLo ((params cfg ls).r2 * s.step) ((params cfg ls).r1 * s.step) ((formulas env ls o).quad s.step s.f2) =
          clampStep env cfg (-r.initialslope * r.stepsize * r.stepsize / env.lit 2 1 / (r.f2 - r.f1 - r.initialslope * r.stepsize)) r.stepsize := by
        rw [clamp_eq (ls := ls) hE]
        simp only [formulas, hs.step, hs.f2, hs.f1, hs.slope0]
      rw [e3]
      have ht := near_h (tracks_step hs (clampStep env cfg (-r.initialslope * r.stepsize * r.stepsize / env.lit 2 1 / (r.f2 - r.f1 - r.initialslope * r.stepsize)) r.stepsize)).toNear
      rw [hs.step, ← hs.f2]
      exact interp_refines hE mp n r.stepsize r.f2 _ _ ht
    · rw [if_neg hf, if_neg (mt e.mpr hf)]
      cases n with
      | zero => trivial
      | succ n =>
        unfold interpLoop Solver.polyLoop
        rw [if_neg hf, if_neg (mt e.mpr hf)]
        exact hs

/-! ## Strong Wolfe -/

theorem decBad_iff (hE : env.Exact) (hn : Tracks env o0 o s) : (decBad env cfg o = true) ↔ Solver.violates (params cfg ls) (costRay env o0) s := by
  simp only [decBad, decLine, Solver.violates, hE.lt, decide_eq_true_eq, hn.f2, hn.f1, hn.slope0, hn.step, params, costRay]

theorem zoomPick_refines (hE : env.Exact) (xlo xhi slo : K) (flo fhi : Option K) :
    zoomPick env cfg xlo xhi (flo.getD ls.big) (fhi.getD ls.big) slo =
      xlo + Solver.clampLoHi ((xhi - xlo) * (params cfg ls).r1) ((xhi - xlo) * (params cfg ls).r2) ((formulas env ls o0).zoom xlo xhi flo fhi slo) := by
  simp only [zoomPick, Solver.clampLoHi, formulas, params, hE.lt, decide_eq_true_eq]; rfl

/-- The comparison with the value at the lower end; `none` is `DBL_MAX`. -/
theorem geOpt_iff (hE : env.Exact) {flo : Option K} {v : K} (hv : v < ls.big) : (env.le (flo.getD ls.big) v = true) ↔ Solver.geOpt v flo = true := by
  cases flo with
  | none => simp only [Option.getD_none, hE.le, decide_eq_true_eq, Solver.geOpt, Bool.false_eq_true, iff_false, not_le]; exact hv
  | some w => simp only [Option.getD_some, hE.le, Solver.geOpt]

theorem zoom_refines (hE : env.Exact) (hbig : ∀ x, env.f x < ls.big) : ∀ (k : Nat) (xlo xhi slo : K) (flo fhi : Option K) (o : Obj K X E M) (s : Solver.Search K), Tracks env o0 o s →
    Tracks env o0 (zoom env cfg ls k xlo xhi (flo.getD ls.big) (fhi.getD ls.big) slo o) (Solver.zoom (params cfg ls) (costRay env o0) (formulas env ls o0) k xlo xhi flo fhi slo s)
  | 0, xlo, xhi, slo, flo, fhi, o, s, hn => by
    unfold zoom Solver.zoom
    rw [zoomPick_refines (o0 := o0) hE]
    dsimp only
    generalize xlo + Solver.clampLoHi ((xhi - xlo) * (params cfg ls).r1) ((xhi - xlo) * (params cfg ls).r2) ((formulas env ls o0).zoom xlo xhi flo fhi slo) = t
    exact tracks_status (tracks_step hn t) .lsError
  | k + 1, xlo, xhi, slo, flo, fhi, o, s, hn => by
    unfold zoom Solver.zoom
    rw [zoomPick_refines (o0 := o0) hE]
    dsimp only
    generalize xlo + Solver.clampLoHi ((xhi - xlo) * (params cfg ls).r1) ((xhi - xlo) * (params cfg ls).r2) ((formulas env ls o0).zoom xlo xhi flo fhi slo) = t
    have ht := near_h (tracks_step hn t).toNear
    have hst : (Solver.evalH (costRay env o0) { s with step := t }).step = t := rfl
    have hv : (h env { o with stepsize := t }).f2 < ls.big := hbig _
    have hpt : (Solver.evalH (costRay env o0) { s with step := t }).pt = (Solver.evalH (costRay env o0) { s with step := t }).step := rfl
    have eo : (h env { o with stepsize := t }).stepsize = t := rfl
    generalize Solver.evalH (costRay env o0) { s with step := t } = s1 at ht hst hpt
    generalize h env { o with stepsize := t } = o1 at ht hv eo
    have ec : ((decBad env cfg o1 || env.le (flo.getD ls.big) o1.f2) = true) ↔ (Solver.violates (params cfg ls) (costRay env o0) s1 ∨ Solver.geOpt s1.f2 flo = true) := by
      rw [Bool.or_eq_true, decBad_iff (ls := ls) hE ht, geOpt_iff hE hv, ht.f2]
    have em : (env.le o1.stepsize cfg.minstep = true) ↔ (s1.step ≤ (params cfg ls).minStep) := by simp only [hE.le, decide_eq_true_eq, params, ht.step]
    by_cases hc : (decBad env cfg o1 || env.le (flo.getD ls.big) o1.f2) = true
    · rw [if_pos hc, if_pos (ec.mp hc)]
      by_cases hm : env.le o1.stepsize cfg.minstep = true
      · rw [if_pos hm, if_pos (em.mp hm)]
        exact tracks_status ht .minStepSize
      · rw [if_neg hm, if_neg (mt em.mpr hm)]
        have := zoom_refines hE hbig k xlo s1.step slo flo (some s1.f2) o1 s1 ht
        rw [Option.getD_some, ← ht.f2, ht.step] at this
        rw [← ht.f2, ht.step]
        exact this
    · rw [if_neg hc, if_neg (mt ec.mpr hc)]
      have hd := tracks_dh ht
      have edh : (dh env o1).newslope = (costRay env o0).der s1.step := by
        rw [← hpt]
        exact hd.slope _ rfl
      have es : (Solver.evalDh (costRay env o0) s1).step = s1.step := rfl
      have ef : (Solver.evalDh (costRay env o0) s1).f2 = s1.f2 := rfl
      generalize Solver.evalDh (costRay env o0) s1 = s2 at hd es ef
      generalize dh env o1 = o2 at hd edh
      have ew : (env.le (env.abs o2.newslope) (-ls.beta * o2.initialslope) = true) ↔ (|(costRay env o0).der s1.step| ≤ -(params cfg ls).beta * (costRay env o0).slope) := by
        simp only [hE.le, hE.abs, decide_eq_true_eq, edh, hd.slope0, params]; rfl
      by_cases hw : env.le (env.abs o2.newslope) (-ls.beta * o2.initialslope) = true
      · rw [if_pos hw, if_pos (ew.mp hw)]; exact hd
      · rw [if_neg hw, if_neg (mt ew.mpr hw)]
        have em2 : (env.le o2.stepsize cfg.minstep = true) ↔ (s2.step ≤ (params cfg ls).minStep) := by simp only [hE.le, decide_eq_true_eq, params, hd.step]
        have eb : (env.le (env.lit 0 1) (o2.newslope * (xhi - xlo)) = true) ↔ (0 ≤ (costRay env o0).der s1.step * (xhi - xlo)) := by
          simp only [hE.le, hE.lit, decide_eq_true_eq, edh, Int.cast_zero, zero_div]
        by_cases hm : env.le o2.stepsize cfg.minstep = true
        · rw [if_pos hm, if_pos (em2.mp hm)]
          exact tracks_status hd .minStepSize
        · rw [if_neg hm, if_neg (mt em2.mpr hm)]
          rw [edh]
          by_cases hb : env.le (env.lit 0 1) (o2.newslope * (xhi - xlo)) = true
          · have hb' := eb.mp hb
            rw [edh] at hb
            rw [if_pos hb, if_pos hb, if_pos hb']
            have := zoom_refines hE hbig k s2.step xlo ((costRay env o0).der s1.step) (some s2.f2) flo o2 s2 hd
            rw [Option.getD_some, ← hd.f2, hd.step] at this
            rw [← hd.f2, hd.step]
            exact this
          · have hb' := mt eb.mpr hb
            rw [edh] at hb
            rw [if_neg hb, if_neg hb, if_neg hb']
            have := zoom_refines hE hbig k s2.step xhi ((costRay env o0).der s1.step) (some s2.f2) fhi o2 s2 hd
            rw [Option.getD_some, ← hd.f2, hd.step] at this
            rw [← hd.f2, hd.step]
            exact this

theorem swLoop_refines (hE : env.Exact) (hbig : ∀ x, env.f x < ls.big) : ∀ (n : Nat) (pre spre : K) (fpre : Option K) (o : Obj K X E M) (s : Solver.Search K), Near env o0 o s →
    Both (Tracks env o0) (swLoop env cfg ls n pre (fpre.getD ls.big) spre o) (Solver.strongWolfeLoop (params cfg ls) (costRay env o0) (formulas env ls o0) n pre fpre spre s)
  | 0, _, _, _, _, _, _ => trivial
  | n + 1, pre, spre, fpre, o, s, hn => by
    unfold swLoop Solver.strongWolfeLoop
    dsimp only
    have ht := near_h hn
    have hst : (Solver.evalH (costRay env o0) s).pt = (Solver.evalH (costRay env o0) s).step := rfl
    have hv : (h env o).f2 < ls.big := hbig _
    generalize Solver.evalH (costRay env o0) s = s1 at ht hst
    generalize h env o = o1 at ht hv
    have ec : ((decBad env cfg o1 || env.le (fpre.getD ls.big) o1.f2) = true) ↔ (Solver.violates (params cfg ls) (costRay env o0) s1 ∨ Solver.geOpt s1.f2 fpre = true) := by
      rw [Bool.or_eq_true, decBad_iff (ls := ls) hE ht, geOpt_iff hE hv, ht.f2]
    by_cases hc : (decBad env cfg o1 || env.le (fpre.getD ls.big) o1.f2) = true
    · rw [if_pos hc, if_pos (ec.mp hc)]
      have := zoom_refines (cfg := cfg) hE hbig 9 pre s1.step spre fpre (some s1.f2) o1 s1 ht
      rw [Option.getD_some, ← ht.f2, ht.step] at this
      rw [← ht.f2, ht.step]
      exact this
    · rw [if_neg hc, if_neg (mt ec.mpr hc)]
      have hd := tracks_dh ht
      have edh : (dh env o1).newslope = (costRay env o0).der s1.step := by
        rw [← hst]
        exact hd.slope _ rfl
      have es : (Solver.evalDh (costRay env o0) s1).step = s1.step := rfl
      generalize Solver.evalDh (costRay env o0) s1 = s2 at hd es
      generalize dh env o1 = o2 at hd edh
      have ew : (env.le (env.abs o2.newslope) (-ls.beta * o2.initialslope) = true) ↔ (|(costRay env o0).der s1.step| ≤ -(params cfg ls).beta * (costRay env o0).slope) := by
        simp only [hE.le, hE.abs, decide_eq_true_eq, edh, hd.slope0, params]; rfl
      by_cases hw : env.le (env.abs o2.newslope) (-ls.beta * o2.initialslope) = true
      · rw [if_pos hw, if_pos (ew.mp hw)]; exact hd
      · rw [if_neg hw, if_neg (mt ew.mpr hw)]
        have eb : (env.le (env.lit 0 1) o2.newslope = true) ↔ (0 ≤ (costRay env o0).der s1.step) := by
          simp only [hE.le, hE.lit, decide_eq_true_eq, edh, Int.cast_zero, zero_div]
        by_cases hb : env.le (env.lit 0 1) o2.newslope = true
        · rw [if_pos hb, if_pos (eb.mp hb)]
          have := zoom_refines (cfg := cfg) hE hbig 9 s2.step pre ((costRay env o0).der s1.step) (some s2.f2) fpre o2 s2 hd
          rw [Option.getD_some, ← hd.f2, hd.step] at this
          rw [← hd.f2, hd.step, edh]
          exact this
        · rw [if_neg hb, if_neg (mt eb.mpr hb)]
          have emx : (env.eq o2.stepsize ls.maxstep = true) ↔ (s2.step = (params cfg ls).maxStep) := by simp only [hE.eq, decide_eq_true_eq, params, hd.step]
          by_cases hm : env.eq o2.stepsize ls.maxstep = true
          · rw [if_pos hm, if_pos (emx.mp hm)]
            exact tracks_status hd .maxStepSize
          · rw [if_neg hm, if_neg (mt emx.mpr hm)]
            have ee : Solver.extendStep (params cfg ls) (formulas env ls o0) s2.step s2.f2 =
                (if env.lt (if env.lt (env.lit 11 10 * o2.stepsize) (-o2.initialslope * o2.stepsize * o2.stepsize / env.lit 2 1 / (o2.f2 - o2.f1 - o2.initialslope * o2.stepsize)) = true
                  then -o2.initialslope * o2.stepsize * o2.stepsize / env.lit 2 1 / (o2.f2 - o2.f1 - o2.initialslope * o2.stepsize) else env.lit 11 10 * o2.stepsize) ls.maxstep = true
                then if env.lt (env.lit 11 10 * o2.stepsize) (-o2.initialslope * o2.stepsize * o2.stepsize / env.lit 2 1 / (o2.f2 - o2.f1 - o2.initialslope * o2.stepsize)) = true
                  then -o2.initialslope * o2.stepsize * o2.stepsize / env.lit 2 1 / (o2.f2 - o2.f1 - o2.initialslope * o2.stepsize) else env.lit 11 10 * o2.stepsize
                else ls.maxstep) := by
              simp only [Solver.extendStep, formulas, params, hE.lt, hE.lit, decide_eq_true_eq, hd.step, hd.f2, hd.f1, hd.slope0]
              norm_num
            rw [ee]
            generalize (if env.lt (if env.lt (env.lit 11 10 * o2.stepsize) (-o2.initialslope * o2.stepsize * o2.stepsize / env.lit 2 1 / (o2.f2 - o2.f1 - o2.initialslope * o2.stepsize)) = true
                  then -o2.initialslope * o2.stepsize * o2.stepsize / env.lit 2 1 / (o2.f2 - o2.f1 - o2.initialslope * o2.stepsize) else env.lit 11 10 * o2.stepsize) ls.maxstep = true
                then if env.lt (env.lit 11 10 * o2.stepsize) (-o2.initialslope * o2.stepsize * o2.stepsize / env.lit 2 1 / (o2.f2 - o2.f1 - o2.initialslope * o2.stepsize)) = true
                  then -o2.initialslope * o2.stepsize * o2.stepsize / env.lit 2 1 / (o2.f2 - o2.f1 - o2.initialslope * o2.stepsize) else env.lit 11 10 * o2.stepsize
                else ls.maxstep) = t
            have := swLoop_refines hE hbig n s2.step ((costRay env o0).der s1.step) (some s2.f2) { o2 with stepsize := t } { s2 with step := t } (near_step hd.toNear t)
            rw [Option.getD_some, ← hd.f2, hd.step, edh] at this
            rw [← hd.f2, hd.step, edh]
            exact this

theorem swSearch_refines (hE : env.Exact) (hbig : ∀ x, env.f x < ls.big) (n : Nat) (o : Obj K X E M) (p q : K) :
    Both (Tracks env o) (swSearch env cfg ls n o) (Solver.strongWolfe (params cfg ls) (costRay env o) (formulas env ls o) n (Solver.Search.start o.stepsize p q)) := by
  have e0 : env.lit 0 1 = 0 := by simp [hE.lit]
  unfold swSearch Solver.strongWolfe
  rw [e0]
  exact swLoop_refines hE hbig n _ _ none _ _ (near_start o p q)

/-! ## Weak Wolfe -/

/-- After the derivative has been computed. -/
structure Slope (env : Env K X E) (o0 o : Obj K X E M) (s : Solver.Search K) : Prop extends Tracks env o0 o s where
  known : s.newslope = some o.newslope

theorem slope_dh (hn : Tracks env o0 o s) : Slope env o0 (dh env o) (Solver.evalDh (costRay env o0) s) :=
  ⟨tracks_dh hn, by rw [(tracks_dh hn).slope _ rfl]; rfl⟩

theorem slope_h (hn : Slope env o0 o s) (t : K) : Slope env o0 (h env { o with stepsize := t }) (Solver.evalH (costRay env o0) { s with step := t }) :=
  ⟨near_h (tracks_step hn.toTracks t).toNear, hn.known⟩

theorem slope_status (hn : Slope env o0 o s) (st : Solver.Status) : Slope env o0 { o with status := statusOf st } { s with status := st } :=
  ⟨tracks_status hn.toTracks st, hn.known⟩

theorem decOk_iff (hE : env.Exact) (hn : Tracks env o0 o s) : (decOk env cfg o = true) ↔ ¬ Solver.violates (params cfg ls) (costRay env o0) s := by
  rw [← decBad_iff (cfg := cfg) hE hn]
  simp only [decOk, decBad, hE.le, hE.lt, decide_eq_true_eq, not_lt]

theorem steep_iff (hE : env.Exact) (hn : Slope env o0 o s) : (steep env ls o = true) ↔ Solver.steep (params cfg ls) (costRay env o0) s := by
  simp only [steep, Solver.steep, hn.known, hE.lt, decide_eq_true_eq, hn.slope0, params, costRay]

theorem wExpand_refines (hE : env.Exact) : ∀ (k : Nat) (pre fpre : K) (o : Obj K X E M) (s : Solver.Search K), Slope env o0 o s →
    (wExpand env cfg ls k pre fpre o).1 = (Solver.doubling (params cfg ls) (costRay env o0) k pre fpre s).1 ∧
    (wExpand env cfg ls k pre fpre o).2.1 = (Solver.doubling (params cfg ls) (costRay env o0) k pre fpre s).2.1 ∧
    Slope env o0 (wExpand env cfg ls k pre fpre o).2.2 (Solver.doubling (params cfg ls) (costRay env o0) k pre fpre s).2.2
  | 0, _, _, _, _, hn => ⟨rfl, rfl, hn⟩
  | k + 1, pre, fpre, o, s, hn => by
    unfold wExpand Solver.doubling
    have ec : ((decOk env cfg o && steep env ls o && env.lt o.stepsize ls.maxstep) = true) ↔
        (¬ Solver.violates (params cfg ls) (costRay env o0) s ∧ Solver.steep (params cfg ls) (costRay env o0) s ∧ s.step < (params cfg ls).maxStep) := by
      rw [Bool.and_eq_true, Bool.and_eq_true, decOk_iff (ls := ls) hE hn.toTracks, steep_iff (cfg := cfg) hE hn, and_assoc]
      simp only [hE.lt, decide_eq_true_eq, hn.step, params]
    by_cases hc : (decOk env cfg o && steep env ls o && env.lt o.stepsize ls.maxstep) = true
    · rw [if_pos hc, if_pos (ec.mp hc)]
      dsimp only
      have e1 : (if 2 * s.step < (params cfg ls).maxStep then 2 * s.step else (params cfg ls).maxStep) =
          (if env.lt (env.lit 2 1 * o.stepsize) ls.maxstep = true then env.lit 2 1 * o.stepsize else ls.maxstep) := by
        simp only [hE.lt, hE.lit, decide_eq_true_eq, hn.step, params]
        norm_num
      rw [e1]
      generalize (if env.lt (env.lit 2 1 * o.stepsize) ls.maxstep = true then env.lit 2 1 * o.stepsize else ls.maxstep) = t
      have ht := slope_h hn t
      generalize Solver.evalH (costRay env o0) { s with step := t } = s1 at ht
      generalize h env { o with stepsize := t } = o1 at ht
      have ed := decOk_iff (cfg := cfg) (ls := ls) hE ht.toTracks
      by_cases hd : decOk env cfg o1 = true
      · rw [if_pos hd, if_neg (ed.mp hd)]
        have := wExpand_refines hE k s.step s.f2 _ _ (slope_dh ht.toTracks)
        rw [hn.step, ← hn.f2] at this
        rw [hn.step, ← hn.f2]
        exact this
      · rw [if_neg hd, if_pos (not_not.mp (mt ed.mpr hd))]
        have := wExpand_refines hE k s.step s.f2 _ _ ht
        rw [hn.step, ← hn.f2] at this
        rw [hn.step, ← hn.f2]
        exact this
    · rw [if_neg hc, if_neg (mt ec.mpr hc)]
      exact ⟨rfl, rfl, hn⟩

theorem wInterp_refines (hE : env.Exact) : ∀ (k : Nat) (lo diff flo fhi : K) (o : Obj K X E M) (s : Solver.Search K), Slope env o0 o s →
    Slope env o0 (wInterp env cfg ls k lo diff flo fhi o) (Solver.bracketing (params cfg ls) (costRay env o0) (formulas env ls o0) k lo diff flo fhi s)
  | 0, _, _, _, _, _, _, hn => hn
  | k + 1, lo, diff, flo, fhi, o, s, hn => by
    unfold wInterp Solver.bracketing
    have ec : (((decBad env cfg o || steep env ls o) && env.le cfg.minstep diff) = true) ↔
        ((Solver.violates (params cfg ls) (costRay env o0) s ∨ Solver.steep (params cfg ls) (costRay env o0) s) ∧ (params cfg ls).minStep ≤ diff) := by
      rw [Bool.and_eq_true, Bool.or_eq_true, decBad_iff (ls := ls) hE hn.toTracks, steep_iff (cfg := cfg) hE hn]
      simp only [hE.le, decide_eq_true_eq, params]
    by_cases hc : ((decBad env cfg o || steep env ls o) && env.le cfg.minstep diff) = true
    · rw [if_pos hc, if_pos (ec.mp hc)]
      dsimp only
      have e1 : (if (formulas env ls o0).wolfeIncr (s.newslope.getD 0) diff flo fhi < 2 / 10 * diff then 2 / 10 * diff else (formulas env ls o0).wolfeIncr (s.newslope.getD 0) diff flo fhi) =
          (if env.lt (-o.newslope * diff * diff / env.lit 2 1 / (fhi - (flo + o.newslope * diff))) (env.lit 2 10 * diff) = true then env.lit 2 10 * diff
            else -o.newslope * diff * diff / env.lit 2 1 / (fhi - (flo + o.newslope * diff))) := by
        have e10 : env.lit 2 10 = 2 / 10 := by rw [hE.lit]; norm_num
        rw [hn.known, e10]
        simp only [formulas, hE.lt, decide_eq_true_eq, Option.getD_some]; rfl
      rw [e1]
      generalize (if env.lt (-o.newslope * diff * diff / env.lit 2 1 / (fhi - (flo + o.newslope * diff))) (env.lit 2 10 * diff) = true then env.lit 2 10 * diff
            else -o.newslope * diff * diff / env.lit 2 1 / (fhi - (flo + o.newslope * diff))) = t
      have ht := slope_h hn (lo + t)
      generalize Solver.evalH (costRay env o0) { s with step := lo + t } = s1 at ht
      generalize h env { o with stepsize := lo + t } = o1 at ht
      have ed := decBad_iff (cfg := cfg) (ls := ls) hE ht.toTracks
      by_cases hd : decBad env cfg o1 = true
      · rw [if_pos hd, if_pos (ed.mp hd), ← ht.f2]
        exact wInterp_refines hE k _ _ _ _ _ _ ht
      · rw [if_neg hd, if_neg (mt ed.mpr hd)]
        have h2 := slope_dh ht.toTracks
        generalize Solver.evalDh (costRay env o0) s1 = s2 at h2
        generalize dh env o1 = o2 at h2
        have es := steep_iff (cfg := cfg) (ls := ls) hE h2
        by_cases hs : steep env ls o2 = true
        · rw [if_pos hs, if_pos (es.mp hs), ← h2.f2, h2.step]
          exact wInterp_refines hE k _ _ _ _ _ _ h2
        · rw [if_neg hs, if_neg (mt es.mpr hs)]
          exact wInterp_refines hE k _ _ _ _ _ _ h2
    · rw [if_neg hc, if_neg (mt ec.mpr hc)]
      exact hn

theorem wFound_refines (hE : env.Exact) (pre fpre : K) (o : Obj K X E M) (s : Solver.Search K) (hn : Tracks env o0 o s) :
    Tracks env o0 (if steep env ls (dh env o) = true then wAfter env cfg ls (wExpand env cfg ls 11 pre fpre (dh env o)).1 (wExpand env cfg ls 11 pre fpre (dh env o)).2.1 (wExpand env cfg ls 11 pre fpre (dh env o)).2.2
        else { dh env o with status := .success })
      (Solver.wolfeFound (params cfg ls) (costRay env o0) (formulas env ls o0) o0.initiallength pre fpre s) := by
  unfold Solver.wolfeFound
  have h1 := slope_dh hn
  generalize Solver.evalDh (costRay env o0) s = s1 at h1
  generalize dh env o = o1 at h1
  have es := steep_iff (cfg := cfg) (ls := ls) hE h1
  dsimp only
  by_cases hs : steep env ls o1 = true
  · rw [if_pos hs, if_pos (es.mp hs)]
    obtain ⟨e1, e2, h2⟩ := wExpand_refines (cfg := cfg) (ls := ls) hE 11 pre fpre o1 s1 h1
    generalize Solver.doubling (params cfg ls) (costRay env o0) 11 pre fpre s1 = d at e1 e2 h2
    obtain ⟨pre', fpre', s2⟩ := d
    dsimp only at e1 e2 h2
    rw [e1, e2]
    generalize (wExpand env cfg ls 11 pre fpre o1).2.2 = o2 at h2
    dsimp only
    unfold wAfter
    have em : (env.le ls.maxstep o2.stepsize = true) ↔ (params cfg ls).maxStep ≤ s2.step := by simp only [hE.le, decide_eq_true_eq, h2.step, params]
    by_cases hm : env.le ls.maxstep o2.stepsize = true
    · rw [if_pos hm, if_pos (em.mp hm)]
      exact tracks_status (tracks_grad h2.toTracks) .maxStepSize
    · rw [if_neg hm, if_neg (mt em.mpr hm)]
      have eb : ((!(env.eq o2.stepsize o2.initiallength) && decBad env cfg o2) = true) ↔ (s2.step ≠ o0.initiallength ∧ Solver.violates (params cfg ls) (costRay env o0) s2) := by
        rw [Bool.and_eq_true, decBad_iff (ls := ls) hE h2.toTracks]
        simp only [hE.eq, Bool.not_eq_true', decide_eq_false_iff_not, h2.step, h2.len, ne_eq]
      by_cases hb : (!(env.eq o2.stepsize o2.initiallength) && decBad env cfg o2) = true
      · rw [if_pos hb, if_pos (eb.mp hb)]
        dsimp only
        have c1 : (if s2.step < pre' then s2.step else pre') = (if env.lt o2.stepsize pre' = true then o2.stepsize else pre') := by simp only [hE.lt, decide_eq_true_eq, h2.step]
        have c2 : (if s2.step < pre' then s2.f2 else fpre') = (if env.lt o2.stepsize pre' = true then o2.f2 else fpre') := by simp only [hE.lt, decide_eq_true_eq, h2.step, h2.f2]
        have c3 : (if s2.step < pre' then fpre' else s2.f2) = (if env.lt o2.stepsize pre' = true then fpre' else o2.f2) := by simp only [hE.lt, decide_eq_true_eq, h2.step, h2.f2]
        have c4 : |pre' - s2.step| = env.abs (pre' - o2.stepsize) := by rw [hE.abs, h2.step]
        rw [c1, c2, c3, c4]
        have h3 := wInterp_refines (cfg := cfg) (ls := ls) hE 11 (if env.lt o2.stepsize pre' = true then o2.stepsize else pre') (env.abs (pre' - o2.stepsize))
          (if env.lt o2.stepsize pre' = true then o2.f2 else fpre') (if env.lt o2.stepsize pre' = true then fpre' else o2.f2) o2 s2 h2
        generalize Solver.bracketing (params cfg ls) (costRay env o0) (formulas env ls o0) 11 (if env.lt o2.stepsize pre' = true then o2.stepsize else pre') (env.abs (pre' - o2.stepsize))
          (if env.lt o2.stepsize pre' = true then o2.f2 else fpre') (if env.lt o2.stepsize pre' = true then fpre' else o2.f2) s2 = s3 at h3
        generalize wInterp env cfg ls 11 (if env.lt o2.stepsize pre' = true then o2.stepsize else pre') (env.abs (pre' - o2.stepsize))
          (if env.lt o2.stepsize pre' = true then o2.f2 else fpre') (if env.lt o2.stepsize pre' = true then fpre' else o2.f2) o2 = o3 at h3
        have es3 := steep_iff (cfg := cfg) (ls := ls) hE h3
        by_cases hs3 : steep env ls o3 = true
        · rw [if_pos hs3, if_pos (es3.mp hs3)]
          exact tracks_status (tracks_dh (near_h h3.toNear)) .noCurvature
        · rw [if_neg hs3, if_neg (mt es3.mpr hs3)]
          exact tracks_status h3.toTracks .success
      · rw [if_neg hb, if_neg (mt eb.mpr hb)]
        exact tracks_status h2.toTracks .success
  · rw [if_neg hs, if_neg (mt es.mpr hs)]
    exact tracks_status h1.toTracks .success

variable [IsStrictOrderedRing K]

theorem wBack_eq (hE : env.Exact) (pre fpre : K) (hn : Tracks env o0 o s) :
    wBack env pre fpre o = Solver.wolfeReduce (formulas env ls o0) o0.initiallength s.step s.f2 pre fpre := by
  have e1 : env.lit 1 2 = 5 / 10 := by rw [hE.lit]; norm_num
  have e2 : env.lit 1 100 = 1 / 100 := by rw [hE.lit]; norm_num
  have ee : (env.eq o.stepsize o.initiallength = true) ↔ s.step = o0.initiallength := by simp only [hE.eq, decide_eq_true_eq, hn.step, hn.len]
  have ew : wCubic env o o.stepsize o.f2 pre fpre = wCubic env o0 s.step s.f2 pre fpre := by simp only [wCubic, hn.f1, hn.slope0, hn.f2, hn.step]
  have eu : wBack env pre fpre o =
      (let t := if env.eq o.stepsize o.initiallength = true then -o.initialslope * o.initiallength * o.initiallength / env.lit 2 1 / (o.f2 - o.f1 - o.initialslope * o.initiallength)
        else if env.lt (env.lit 1 2 * o.stepsize) (wCubic env o o.stepsize o.f2 pre fpre) = true then env.lit 1 2 * o.stepsize else wCubic env o o.stepsize o.f2 pre fpre
       if env.le t (env.lit 1 100 * o.stepsize) = true then env.lit 1 100 * o.stepsize else t) := rfl
  rw [eu, ew, e1, e2, hn.f2, hn.f1, hn.slope0, hn.step, hn.len]
  unfold Solver.wolfeReduce
  rw [hn.step, hn.len] at ee
  simp only [formulas, hE.lt, hE.le, decide_eq_true_eq]
  by_cases hi : env.eq o.stepsize o0.initiallength = true
  · simp only [if_pos hi, if_pos (ee.mp hi)]
  · simp only [if_neg hi, if_neg (mt ee.mpr hi)]

theorem wLoop_refines (hE : env.Exact) : ∀ (n : Nat) (pre fpre : K) (o : Obj K X E M) (s : Solver.Search K), Near env o0 o s →
    Both (Tracks env o0) (wLoop env cfg ls n pre fpre o) (Solver.wolfeLoop (params cfg ls) (costRay env o0) (formulas env ls o0) o0.initiallength n pre fpre s)
  | 0, _, _, _, _, _ => trivial
  | n + 1, pre, fpre, o, s, hn => by
    unfold wLoop Solver.wolfeLoop
    have ht := near_h hn
    dsimp only
    generalize Solver.evalH (costRay env o0) s = s1 at ht
    generalize h env o = o1 at ht
    have ed := decOk_iff (cfg := cfg) (ls := ls) hE ht
    by_cases hd : decOk env cfg o1 = true
    · rw [if_pos hd, if_neg (ed.mp hd)]
      have := wFound_refines (cfg := cfg) (ls := ls) hE pre fpre o1 s1 ht
      by_cases hs : steep env ls (dh env o1) = true
      · rw [if_pos hs] at this ⊢; exact this
      · rw [if_neg hs] at this ⊢; exact this
    · rw [if_neg hd, if_pos (not_not.mp (mt ed.mpr hd))]
      have em : (env.le o1.stepsize cfg.minstep = true) ↔ s1.step ≤ (params cfg ls).minStep := by simp only [hE.le, decide_eq_true_eq, ht.step, params]
      by_cases hm : env.le o1.stepsize cfg.minstep = true
      · rw [if_pos hm, if_pos (em.mp hm)]
        exact tracks_status (tracks_dh (near_h (tracks_step ht cfg.minstep).toNear)) .minStepSize
      · rw [if_neg hm, if_neg (mt em.mpr hm)]
        have := wLoop_refines hE n s1.step s1.f2 _ _ (tracks_step ht (wBack env pre fpre o1)).toNear
        rw [← wBack_eq hE pre fpre ht, ht.step]
        rw [← ht.f2, ht.step] at this
        rw [← ht.f2]
        exact this

theorem wSearch_refines (hE : env.Exact) (n : Nat) (o : Obj K X E M) (p q : K) (hl : o.stepsize = o.initiallength) :
    Both (Tracks env o) (wSearch env cfg ls n o) (Solver.wolfe (params cfg ls) (costRay env o) (formulas env ls o) n (Solver.Search.start o.stepsize p q)) := by
  have e0 : env.lit 0 1 = 0 := by simp [hE.lit]
  unfold wSearch Solver.wolfe
  rw [e0]
  have := wLoop_refines (cfg := cfg) (ls := ls) hE n 0 0 _ _ (near_start o p q)
  rw [hl] at this ⊢
  exact this

end Verif.Obj
