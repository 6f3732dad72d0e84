import Verif.Props.ObjectTR
import Verif.Solver.TrustRegion

/-!
# C173: the option `useRand`
-/

namespace Verif.Obj

variable {K X E M : Type*} [Add K] [Sub K] [Mul K] [Div K] [Neg K]

/-- What arithmetic with zeros the solver relies on: `zero` is the zero vector, which is what a vector scaled by zero
gives. Satisfied by real numbers, and by floating-point numbers up to the sign of zeros. -/
structure ZeroLaws (env : TREnv K X E) (hk : TRHooks K X E M) (zero : E) : Prop where
  scaled : ∀ v, env.smul (env.lit 0 1) v = zero
  one : env.smul (env.lit 1 1) zero = zero
  add : ∀ v, env.axpy (env.lit 1 1) v zero = v
  inner : ∀ x v, env.metric x zero v = env.lit 0 1
  num : env.lit 0 1 + env.lit 1 2 * env.lit 0 1 = env.lit 0 1
  hess : ∀ o, hk.hess o zero = zero

/-- The members the solver classes define do not read the counters. -/
structure IgnoresCounts (hk : TRHooks K X E M) : Prop where
  hess : ∀ o c, hk.hess { o with cnt := c } = hk.hess o
  updateData : ∀ o c, hk.updateData { o with cnt := c } = hk.updateData o
  acceptence : ∀ o c, hk.acceptence { o with cnt := c } = hk.acceptence o

/-- `RTRSD` and `RTRNewton` do not. -/
theorem rtr_ignores (env : TREnv K X E) (H : X → E → E) : IgnoresCounts (rtr env H) :=
  ⟨fun _ _ => rfl, fun _ _ => rfl, fun _ _ => rfl⟩

/-- Neither does `RTRSR1`. -/
theorem rtrsr1_ignores {L : Type*} (env : TREnv K X E) (op : OpEnv K X E L) (invTran : X → E → X → E → E) :
    IgnoresCounts (rtrsr1 env op invTran) :=
  ⟨fun _ _ => rfl, fun _ _ => rfl, fun _ _ => rfl⟩

/-- The object with `k` added to the number of Hessian actions and nothing else changed. -/
def addH (k : Nat) (o : TRObj K X E M) : TRObj K X E M := { o with cnt := { o.cnt with nH := o.cnt.nH + k } }

/-- The parameters with the option set and with it cleared. -/
def withRand (b : Bool) (cfg : TRCfg K X) : TRCfg K X := { cfg with useRand := b }

theorem loop_useRand (env : TREnv K X E) (cfg : TRCfg K X) (b : Bool) (H : E → E) (x1 : X) (gf1 : E) (Delta norm_r0 : K) :
    ∀ (n j : Nat) (t : TCG K E), tcgLoop env (withRand b cfg) H x1 gf1 Delta norm_r0 n j t
      = tcgLoop env cfg H x1 gf1 Delta norm_r0 n j t := by
  intro n
  induction n with
  | zero => intro j t; rfl
  | succ n ih =>
    intro j t
    simp only [tcgLoop, ih]
    rfl

/-- C173, the inner solver: started from the zero vector, it returns the same step, status and number of passes with and
without the option; the option costs one action of the Hessian. -/
theorem C173_inner {env : TREnv K X E} {hk : TRHooks K X E M} {zero : E} (hz : ZeroLaws env hk zero) (cfg : TRCfg K X)
    (o : TRObj K X E M) (x1 : X) (gf1 : E) (Delta : K) :
    tcg env (withRand true cfg) (hk.hess o) x1 gf1 zero Delta =
      (let r := tcg env (withRand false cfg) (hk.hess o) x1 gf1 zero Delta
       (r.1, r.2.1, r.2.2.1, r.2.2.2 + 1)) := by
  simp only [tcg, loop_useRand]
  simp only [withRand, if_true, hz.hess, hz.one, hz.add, hz.inner, hz.num, Bool.false_eq_true, if_false, Nat.add_zero]

/-- The object after lines 36-39, given the outcome of the inner solver. -/
def afterTrial (env : TREnv K X E) (zero : E) (o : TRObj K X E M) (t : E × TStatus × Nat × Nat) : TRObj K X E M :=
  { o with eta1 := zero, eta2 := t.1, tcg := t.2.1, inner := t.2.2.1, x2 := env.retr o.x1 t.1, f2 := env.f (env.retr o.x1 t.1)
           cnt := { o.cnt with nf := o.cnt.nf + 1, nR := o.cnt.nR + 1, nH := o.cnt.nH + t.2.2.2 } }

theorem trial_useRand {env : TREnv K X E} {hk : TRHooks K X E M} {zero : E} (hz : ZeroLaws env hk zero)
    (hi : IgnoresCounts hk) (cfg : TRCfg K X) (k : Nat) (o : TRObj K X E M) :
    trTrial env (withRand true cfg) hk (addH k o) = addH (k + 1) (trTrial env (withRand false cfg) hk o) := by
  have hh : hk.hess { addH k o with eta1 := zero } = hk.hess { o with eta1 := zero } :=
    hi.hess { o with eta1 := zero } _
  have eF : trTrial env (withRand false cfg) hk o = afterTrial env zero o
      (tcg env (withRand false cfg) (hk.hess { o with eta1 := zero }) o.x1 o.gf1 zero o.Delta) := by
    simp only [trTrial, hz.scaled]
    rfl
  have eT : trTrial env (withRand true cfg) hk (addH k o) = afterTrial env zero (addH k o)
      (tcg env (withRand true cfg) (hk.hess { o with eta1 := zero }) o.x1 o.gf1 zero o.Delta) := by
    rw [← hh]
    simp only [trTrial, hz.scaled]
    rfl
  rw [eT, eF, C173_inner hz cfg { o with eta1 := zero }]
  simp only [afterTrial, addH]
  congr 2
  omega

/-- The object after the ratio was computed, given the image of the step. -/
def withRatio (env : TREnv K X E) (o : TRObj K X E M) (h : E) : TRObj K X E M :=
  { o with Heta2 := h, eta1 := env.axpy (env.lit 1 2) h o.gf1
           rho := (o.f1 - o.f2) / (-env.metric o.x1 o.eta2 (env.axpy (env.lit 1 2) h o.gf1)) }

/-- The object after `UpdateData`. -/
def withUpdate (o : TRObj K X E M) (u : E × M × Nat × Nat) : TRObj K X E M :=
  { o with gf2 := u.1, own := u.2.1
           cnt := { o.cnt with nH := o.cnt.nH + 1, ng := o.cnt.ng + u.2.2.1, nV := o.cnt.nV + u.2.2.2 } }

theorem ratio_useRand {env : TREnv K X E} {hk : TRHooks K X E M} (hi : IgnoresCounts hk) (k : Nat)
    (o : TRObj K X E M) : trRatio env hk (addH k o) = addH k (trRatio env hk o) := by
  have e : ∀ o : TRObj K X E M, trRatio env hk o
      = withUpdate (withRatio env o (hk.hess o o.eta2)) (hk.updateData (withRatio env o (hk.hess o o.eta2))) := by
    intro o
    rw [← hi.updateData (withRatio env o (hk.hess o o.eta2)) { o.cnt with nH := o.cnt.nH + 1 }]
    rfl
  have hh : hk.hess (addH k o) = hk.hess o := hi.hess o _
  have hu : hk.updateData (withRatio env (addH k o) (hk.hess o o.eta2)) = hk.updateData (withRatio env o (hk.hess o o.eta2)) :=
    hi.updateData (withRatio env o (hk.hess o o.eta2)) _
  have he : (addH k o).eta2 = o.eta2 := rfl
  rw [e, e o, hh, he, hu]
  simp only [withUpdate, withRatio, addH]
  congr 2
  omega

theorem accept_useRand {env : TREnv K X E} {hk : TRHooks K X E M} (hi : IgnoresCounts hk) (k : Nat)
    (o : TRObj K X E M) : trAccept env hk (addH k o) = addH k (trAccept env hk o) := by
  have hh : hk.acceptence (addH k o) = hk.acceptence o := hi.acceptence o _
  simp only [trAccept, hh]
  rfl

theorem loop_run {env : TREnv K X E} {hk : TRHooks K X E M} {zero : E} (hz : ZeroLaws env hk zero)
    (hi : IgnoresCounts hk) (cfg : TRCfg K X) : ∀ (n : Nat) (isstop : Bool) (k : Nat) (o : TRObj K X E M),
    (trLoop env (withRand false cfg) hk n isstop o = none ∧
      trLoop env (withRand true cfg) hk n isstop (addH k o) = none) ∨
    ∃ o' p, trLoop env (withRand false cfg) hk n isstop o = some o' ∧
      trLoop env (withRand true cfg) hk n isstop (addH k o) = some (addH (k + p) o') ∧
      o'.cnt.nR = o.cnt.nR + p := by
  intro n
  induction n with
  | zero => intro isstop k o; exact Or.inl ⟨rfl, rfl⟩
  | succ n ih =>
    intro isstop k o
    have hc : ∀ b, ((!isstop && decide ((addH k o).iter < (withRand b cfg).maxIter)) ||
        decide ((addH k o).iter < (withRand b cfg).minIter)) =
        ((!isstop && decide (o.iter < cfg.maxIter)) || decide (o.iter < cfg.minIter)) := fun _ => rfl
    have hc' : ((!isstop && decide (o.iter < (withRand false cfg).maxIter)) ||
        decide (o.iter < (withRand false cfg).minIter)) =
        ((!isstop && decide (o.iter < cfg.maxIter)) || decide (o.iter < cfg.minIter)) := rfl
    simp only [trLoop, hc, hc', trial_useRand hz hi]
    by_cases h0 : ((!isstop && decide (o.iter < cfg.maxIter)) || decide (o.iter < cfg.minIter)) = true
    · simp only [h0, if_true]
      set t := trTrial env (withRand false cfg) hk o with ht
      have htR : t.cnt.nR = o.cnt.nR + 1 := rfl
      have hf : (addH (k + 1) t).f2 = t.f2 := rfl
      rw [hf, ratio_useRand hi]
      by_cases h1 : env.finite t.f2 = true
      · simp only [h1, if_true]
        set u := trRatio env hk t with hu
        have huR : u.cnt.nR = t.cnt.nR := rfl
        have hD : trRadius env (withRand true cfg) (addH (k + 1) u) = trRadius env (withRand false cfg) u := rfl
        rw [hD]
        set D := trRadius env (withRand false cfg) u with hDd
        have hw : ({ addH (k + 1) u with Delta := D.1 } : TRObj K X E M) = addH (k + 1) { u with Delta := D.1 } := rfl
        rw [hw]
        set w : TRObj K X E M := { u with Delta := D.1 } with hwd
        have hwR : w.cnt.nR = u.cnt.nR := rfl
        by_cases h2 : D.2 = true
        · simp only [h2, if_true]
          exact Or.inr ⟨w, 1, rfl, rfl, by rw [hwR, huR, htR]⟩
        · simp only [if_neg h2]
          have hacc : trAccepts env (withRand true cfg) (addH (k + 1) w) = trAccepts env (withRand false cfg) w := rfl
          rw [hacc]
          by_cases h3 : trAccepts env (withRand false cfg) w = true
          · simp only [h3, if_true, accept_useRand hi]
            set v := trAccept env hk w with hv
            have hvR : v.cnt.nR = w.cnt.nR := rfl
            have hst : trStopped env (withRand true cfg) (addH (k + 1) v) = trStopped env (withRand false cfg) v := rfl
            have hrec : trRecord (trSwap (addH (k + 1) v)) = addH (k + 1) (trRecord (trSwap v)) := rfl
            rw [hst, hrec]
            rcases ih (trStopped env (withRand false cfg) v) (k + 1) (trRecord (trSwap v)) with h | ⟨o', p, e1, e2, e3⟩
            · exact Or.inl h
            · have hr : (trRecord (trSwap v)).cnt.nR = v.cnt.nR := rfl
              refine Or.inr ⟨o', p + 1, e1, ?_, by omega⟩
              rw [e2, show k + 1 + p = k + (p + 1) by omega]
          · simp only [if_neg h3]
            rcases ih isstop (k + 1) (trRecord { w with iter := w.iter + 1 }) with h | ⟨o', p, e1, e2, e3⟩
            · exact Or.inl h
            · have hr : (trRecord { w with iter := w.iter + 1 }).cnt.nR = w.cnt.nR := rfl
              rw [show k + 1 + p = k + (p + 1) by omega] at e2
              exact Or.inr ⟨o', p + 1, e1, e2, by omega⟩
      · simp only [if_neg h1]
        exact Or.inr ⟨t, 1, rfl, rfl, htR⟩
    · simp only [if_neg h0]
      exact Or.inr ⟨o, 0, rfl, rfl, rfl⟩

/-- C173: a whole run of a trust-region solver with `useRand` ends exactly when the run without it does, and leaves the same
members of the object behind (iterates, values, gradients, radius, history, operator, counters), except that the number
of Hessian actions is larger by the number of retractions of the run, that is by one per iteration. No random vector is
ever used. -/
theorem C173_run {env : TREnv K X E} {hk : TRHooks K X E M} {zero : E} (hz : ZeroLaws env hk zero)
    (hi : IgnoresCounts hk) (cfg : TRCfg K X) (n : Nat) (o : TRObj K X E M) :
    (trRun env (withRand false cfg) hk n o = none ∧ trRun env (withRand true cfg) hk n o = none) ∨
    ∃ o' p, trRun env (withRand false cfg) hk n o = some o' ∧
      trRun env (withRand true cfg) hk n o = some (addH p o') ∧ o'.cnt.nR = o.cnt.nR + p := by
  have hp : trPrologue env (withRand true cfg) o = addH 0 (trPrologue env (withRand false cfg) o) := rfl
  have hs : trStopped env (withRand true cfg) (addH 0 (trPrologue env (withRand false cfg) o))
      = trStopped env (withRand false cfg) (trPrologue env (withRand false cfg) o) := rfl
  simp only [trRun, hp, hs]
  rcases loop_run hz hi cfg n (trStopped env (withRand false cfg) (trPrologue env (withRand false cfg) o)) 0
    (trPrologue env (withRand false cfg) o) with ⟨h1, h2⟩ | ⟨o', p, h1, h2, h3⟩
  · left; rw [h1, h2]; exact ⟨rfl, rfl⟩
  · right
    refine ⟨{ o' with lengthSeries := o'.iter + 1 }, p, by rw [h1]; rfl, ?_, h3⟩
    rw [h2, Nat.zero_add]; rfl

/-- The hypotheses hold for the Newton solver on the line, and the runs are real ones: two iterations, four Hessian actions without the
option and six with it. -/
theorem line_zero (c : ℚ) : ZeroLaws (lineTREnv c) (rtr (lineTREnv c) fun _ v => c * v) 0 :=
  ⟨fun v => by simp [lineTREnv, lineEnv], by simp [lineTREnv, lineEnv], fun v => by
     have : mkRat 1 1 = 1 := by decide +kernel
     simp [lineTREnv, lineEnv, this],
   fun x v => by simp [lineTREnv, lineEnv], by simp [lineTREnv, lineEnv], fun o => by simp [rtr]⟩

example : ((trRun (lineTREnv 4) (withRand false (lineTRCfg 5)) (rtr (lineTREnv 4) fun _ v => 4 * v) 10 (freshTR () 3)).map
      fun o => (o.x1, o.iter, o.cnt.nH)) = some (0, 2, 4) ∧
    ((trRun (lineTREnv 4) (withRand true (lineTRCfg 5)) (rtr (lineTREnv 4) fun _ v => 4 * v) 10 (freshTR () 3)).map
      fun o => (o.x1, o.iter, o.cnt.nH)) = some (0, 2, 6) := by
  constructor <;> decide +kernel

end Verif.Obj

namespace Verif.TR

open scoped RealInnerProductSpace Classical

variable {E : Type*} [NormedAddCommGroup E] [InnerProductSpace ℝ E]

/-- The initialisation of `RNewton::tCG_LS` with the option, `RNewton.cpp:96-120`, from the vector in `eta1`. -/
noncomputable def Local.startRandLS (L : Local E) (eta1 : E) : CG E :=
  let Heta := L.H eta1
  let r := L.g + Heta
  let z := L.P r
  let zr := ⟪z, r⟫
  { eta := eta1, Heta := Heta, r := r, delta := -z, ePe := 0, ePd := 0, dPd := zr, zr := zr
    modelv := ⟪eta1, L.g⟫ + 1 / 2 * ⟪eta1, Heta⟫ }

/-- `RNewton::GetSearchDir` with the option, `RNewton.cpp:62-66`: `eta1` is set to zero times the gradient first. -/
noncomputable def newtonDirRand (L : Local E) (eps : ℝ) (maxInner : Nat) : Option E :=
  (tcgLS L eps maxInner 0 (L.startRandLS ((0 : ℝ) • L.g))).map fun r => if r.2.2.1 = 0 then r.2.1 else r.1

/-- C173: the search direction of `RNewton` does not depend on the option. -/
theorem C173_newton (L : Local E) (eps : ℝ) (maxInner : Nat) : newtonDirRand L eps maxInner = newtonDir L eps maxInner := by
  have : L.startRandLS ((0 : ℝ) • L.g) = L.start := by
    simp [Local.startRandLS, Local.start]
  rw [newtonDirRand, this, newtonDir]

end Verif.TR
