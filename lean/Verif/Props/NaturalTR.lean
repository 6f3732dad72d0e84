import Verif.Solver.ObjectTR
import Verif.Props.Natural

/-!
# Trust-region runs depend on the geometry only (C134)

The counterpart of `C130` for `SolversSMTR::Run`: two environments whose points and vectors represent the same geometry, with Hessian approximations that represent the same
operator, give the same run. Nothing is assumed of the arithmetic.
-/

namespace Verif.Obj

set_option linter.unusedSectionVars false

variable {K X E X' E' : Type*} [Add K] [Sub K] [Mul K] [Div K] [Neg K]

/-! ## Specification -/

/-- `Corr` with the further operations of the trust-region solvers. -/
structure TRCorr (env : TREnv K X E) (env' : TREnv K X' E') (RX : X → X' → Prop) (RE : X → X' → E → E' → Prop) : Prop extends Corr env.toEnv env'.toEnv RX RE where
  powtheta : env'.powtheta = env.powtheta
  axpy : ∀ x x' c v v' w w', RX x x' → RE x x' v v' → RE x x' w w' → RE x x' (env.axpy c v w) (env'.axpy c v' w')
  proj : ∀ x x' v v', RX x x' → RE x x' v v' → RE x x' (env.proj x v) (env'.proj x' v')

/-- The same parameters for the other representation. -/
def reTRCfg (cfg : TRCfg K X) (stop' : StopKind K X') : TRCfg K X' where
  maxIter := cfg.maxIter
  minIter := cfg.minIter
  tol := cfg.tol
  accuracy := cfg.accuracy
  initDelta := cfg.initDelta
  minDelta := cfg.minDelta
  maxDelta := cfg.maxDelta
  acceptRho := cfg.acceptRho
  shrink := cfg.shrink
  magnify := cfg.magnify
  minInner := cfg.minInner
  maxInner := cfg.maxInner
  kappa := cfg.kappa
  useRand := cfg.useRand
  stop := stop'

/-- Related results: the final points represent the same point, the gradients the same vector, and every number a caller can read is the same. -/
structure SameTR {M M' : Type*} (RX : X → X' → Prop) (RE : X → X' → E → E' → Prop) (o : TRObj K X E M) (o' : TRObj K X' E' M') : Prop where
  x1 : RX o.x1 o'.x1
  x2 : RX o.x2 o'.x2
  gf1 : RE o.x1 o'.x1 o.gf1 o'.gf1
  f1 : o'.f1 = o.f1
  f2 : o'.f2 = o.f2
  ngf0 : o'.ngf0 = o.ngf0
  ngf1 : o'.ngf1 = o.ngf1
  ngf2 : o'.ngf2 = o.ngf2
  Delta : o'.Delta = o.Delta
  rho : o'.rho = o.rho
  tcg : o'.tcg = o.tcg
  inner : o'.inner = o.inner
  iter : o'.iter = o.iter
  series : o'.series = o.series
  lengthSeries : o'.lengthSeries = o.lengthSeries
  cnt : o'.cnt = o.cnt

/-! ## Relations between the objects during a run -/

variable {M M' : Type*} {env : TREnv K X E} {env' : TREnv K X' E'} {RX : X → X' → Prop} {RE : X → X' → E → E' → Prop} {cfg : TRCfg K X} {stop' : StopKind K X'}
  {RW : X → X' → M → M' → Prop} {RG : X → X' → E → E' → Prop}

/-- Members that agree throughout the loop; `RW` relates the members of the derived class. -/
structure TRBase (RX : X → X' → Prop) (RE : X → X' → E → E' → Prop) (RW : X → X' → M → M' → Prop) (o : TRObj K X E M) (o' : TRObj K X' E' M') : Prop where
  x1 : RX o.x1 o'.x1
  gf1 : RE o.x1 o'.x1 o.gf1 o'.gf1
  f1 : o'.f1 = o.f1
  ngf0 : o'.ngf0 = o.ngf0
  ngf1 : o'.ngf1 = o.ngf1
  ngf2 : o'.ngf2 = o.ngf2
  Delta : o'.Delta = o.Delta
  rho : o'.rho = o.rho
  tcg : o'.tcg = o.tcg
  inner : o'.inner = o.inner
  iter : o'.iter = o.iter
  series : o'.series = o.series
  len : o'.lengthSeries = o.lengthSeries
  cnt : o'.cnt = o.cnt
  own : RW o.x1 o'.x1 o.own o'.own

/-- At the head of the loop. -/
structure TRHead (RX : X → X' → Prop) (RE : X → X' → E → E' → Prop) (RW : X → X' → M → M' → Prop) (o : TRObj K X E M) (o' : TRObj K X' E' M') : Prop extends TRBase RX RE RW o o' where
  x2 : RX o.x2 o'.x2
  f2 : o'.f2 = o.f2

/-- With a trial point. -/
structure TRMid (env : TREnv K X E) (env' : TREnv K X' E') (RX : X → X' → Prop) (RE : X → X' → E → E' → Prop) (RW : X → X' → M → M' → Prop) (o : TRObj K X E M) (o' : TRObj K X' E' M') :
    Prop extends TRHead RX RE RW o o' where
  eta2 : RE o.x1 o'.x1 o.eta2 o'.eta2
  x2e : o.x2 = env.retr o.x1 o.eta2
  x2e' : o'.x2 = env'.retr o'.x1 o'.eta2

/-- What the functions of the derived class must satisfy; `RG` is what relates the gradients at the trial point after `UpdateData`. -/
structure TRHookCorr (env : TREnv K X E) (env' : TREnv K X' E') (RX : X → X' → Prop) (RE : X → X' → E → E' → Prop) (hk : TRHooks K X E M) (hk' : TRHooks K X' E' M')
    (RW : X → X' → M → M' → Prop) (RG : X → X' → E → E' → Prop) : Prop where
  hess : ∀ o o' v v', TRBase RX RE RW o o' → RE o.x1 o'.x1 v v' → RE o.x1 o'.x1 (hk.hess o v) (hk'.hess o' v')
  upd : ∀ o o', TRMid env env' RX RE RW o o' → RE o.x1 o'.x1 o.Heta2 o'.Heta2 →
    RG o.x2 o'.x2 (hk.updateData o).1 (hk'.updateData o').1 ∧ RW o.x1 o'.x1 (hk.updateData o).2.1 (hk'.updateData o').2.1 ∧ (hk'.updateData o').2.2 = (hk.updateData o).2.2
  acc : ∀ o o', TRMid env env' RX RE RW o o' → RG o.x2 o'.x2 o.gf2 o'.gf2 →
    RE o.x2 o'.x2 (hk.acceptence o).1 (hk'.acceptence o').1 ∧ RW o.x2 o'.x2 (hk.acceptence o).2.1 (hk'.acceptence o').2.1 ∧ (hk'.acceptence o').2.2 = (hk.acceptence o).2.2

/-! ### The inner iteration -/

/-- Local variables of the inner iteration. -/
structure TCGRel (RE : X → X' → E → E' → Prop) (x : X) (x' : X') (t : TCG K E) (t' : TCG K E') : Prop where
  eta : RE x x' t.eta t'.eta
  Heta : RE x x' t.Heta t'.Heta
  r : RE x x' t.r t'.r
  delta : RE x x' t.delta t'.delta
  e_Pe : t'.e_Pe = t.e_Pe
  e_Pd : t'.e_Pd = t.e_Pd
  d_Pd : t'.d_Pd = t.d_Pd
  z_r : t'.z_r = t.z_r
  modelv : t'.modelv = t.modelv

theorem bump_rel {A B S : Type*} {P : A → B → Prop} {a : A × S × Nat × Nat} {b : B × S × Nat × Nat} (h : P a.1 b.1 ∧ b.2 = a.2) :
    P (a.1, a.2.1, a.2.2.1, a.2.2.2 + 1).1 (b.1, b.2.1, b.2.2.1, b.2.2.2 + 1).1 ∧ (b.1, b.2.1, b.2.2.1, b.2.2.2 + 1).2 = (a.1, a.2.1, a.2.2.1, a.2.2.2 + 1).2 :=
  ⟨h.1, by rw [h.2]⟩

theorem tcgLoop_rel (hC : TRCorr env env' RX RE) {H : E → E} {H' : E' → E'} {x : X} {x' : X'} (hx : RX x x') {g : E} {g' : E'} (hg : RE x x' g g')
    (hH : ∀ v v', RE x x' v v' → RE x x' (H v) (H' v')) (D nr : K) (n j : Nat) {t : TCG K E} {t' : TCG K E'} (ht : TCGRel RE x x' t t') :
    RE x x' (tcgLoop env cfg H x g D nr n j t).1 (tcgLoop env' (reTRCfg cfg stop') H' x' g' D nr n j t').1 ∧
      (tcgLoop env' (reTRCfg cfg stop') H' x' g' D nr n j t').2 = (tcgLoop env cfg H x g D nr n j t).2 := by
  induction n generalizing j t t' with
  | zero => exact ⟨ht.eta, rfl⟩
  | succ n ih =>
    simp only [tcgLoop]
    have hHd := hH _ _ ht.delta
    have e1 : env'.metric x' t'.delta (H' t'.delta) = env.metric x t.delta (H t.delta) := hC.metric _ _ _ _ _ _ hx ht.delta hHd
    rw [e1, ht.e_Pe, ht.e_Pd, ht.d_Pd, ht.z_r, ht.modelv, hC.lit, hC.le, hC.lt, hC.sqrt, hC.powtheta]
    by_cases h1 : (env.le (env.metric x t.delta (H t.delta)) (env.lit 0 1) || env.le (D * D) (t.e_Pe + env.lit 2 1 * (t.z_r / env.metric x t.delta (H t.delta)) * t.e_Pd +
        t.z_r / env.metric x t.delta (H t.delta) * (t.z_r / env.metric x t.delta (H t.delta)) * t.d_Pd)) = true
    · rw [if_pos h1, if_pos h1]
      exact ⟨hC.axpy _ _ _ _ _ _ _ hx ht.delta ht.eta, rfl⟩
    · rw [if_neg h1, if_neg h1]
      generalize t.z_r / env.metric x t.delta (H t.delta) = al
      have he := hC.axpy _ _ al _ _ _ _ hx ht.delta ht.eta
      have hHe := hC.axpy _ _ al _ _ _ _ hx hHd ht.Heta
      have hr := hC.proj _ _ _ _ hx (hC.axpy _ _ al _ _ _ _ hx hHd ht.r)
      have hz := hC.precond _ _ _ _ hx hr
      rw [hC.metric _ _ _ _ _ _ hx he hg, hC.metric _ _ _ _ _ _ hx he hHe, hC.metric _ _ _ _ _ _ hx hr hr, hC.metric _ _ _ _ _ _ hx hz hr]
      by_cases h2 : env.le t.modelv (env.metric x (env.axpy al t.delta t.eta) g + env.lit 1 2 * env.metric x (env.axpy al t.delta t.eta) (env.axpy al (H t.delta) t.Heta)) = true
      · rw [if_pos h2, if_pos h2]
        exact ⟨he, rfl⟩
      · rw [if_neg h2, if_neg h2]
        have hmi : decide ((reTRCfg cfg stop' : TRCfg K X').minInner ≤ j) = decide (cfg.minInner ≤ j) := rfl
        have hka : (reTRCfg cfg stop' : TRCfg K X').kappa = cfg.kappa := rfl
        rw [hmi, hka]
        by_cases h3 : (decide (cfg.minInner ≤ j) && env.le (env.sqrt (env.metric x (env.proj x (env.axpy al (H t.delta) t.r)) (env.proj x (env.axpy al (H t.delta) t.r))))
            (nr * if env.lt (env.powtheta nr) cfg.kappa then env.powtheta nr else cfg.kappa)) = true
        · rw [if_pos h3, if_pos h3]
          exact ⟨he, rfl⟩
        · rw [if_neg h3, if_neg h3]
          exact bump_rel (ih (j + 1) ⟨he, hHe, hr, hC.axpy _ _ _ _ _ _ _ hx hz (hC.smul _ _ _ _ _ hx ht.delta), rfl, rfl, rfl, rfl, rfl⟩)

theorem tcg_rel (hC : TRCorr env env' RX RE) {H : E → E} {H' : E' → E'} {x : X} {x' : X'} (hx : RX x x') {g : E} {g' : E'} (hg : RE x x' g g')
    (hH : ∀ v v', RE x x' v v' → RE x x' (H v) (H' v')) {D D' : K} (hD : D' = D) {e : E} {e' : E'} (he : RE x x' e e') :
    RE x x' (tcg env cfg H x g e D).1 (tcg env' (reTRCfg cfg stop') H' x' g' e' D').1 ∧
      (tcg env' (reTRCfg cfg stop') H' x' g' e' D').2 = (tcg env cfg H x g e D).2 := by
  subst hD
  simp only [tcg]
  have hre : (reTRCfg cfg stop' : TRCfg K X').useRand = cfg.useRand := rfl
  have hri : (reTRCfg cfg stop' : TRCfg K X').maxInner = cfg.maxInner := rfl
  rw [hre, hri]
  have hHe := hH _ _ he
  cases hu : cfg.useRand
  · simp only [Bool.false_eq_true, if_false]
    have hz := hC.precond _ _ _ _ hx hg
    rw [hC.lit, hC.sqrt, hC.metric _ _ _ _ _ _ hx hg hg, hC.metric _ _ _ _ _ _ hx hz hg]
    exact tcgLoop_rel hC hx hg hH D' _ cfg.maxInner 0 ⟨he, hC.smul _ _ _ _ _ hx he, hg, hC.smul _ _ _ _ _ hx hz, rfl, rfl, rfl, rfl, rfl⟩
  · simp only [if_true]
    have hr := hC.axpy _ _ (env.lit 1 1) _ _ _ _ hx hg hHe
    have hz := hC.precond _ _ _ _ hx hr
    have hd := hC.smul _ _ (env.lit (-1) 1) _ _ hx hz
    rw [hC.lit, hC.sqrt, hC.metric _ _ _ _ _ _ hx he he, hC.metric _ _ _ _ _ _ hx hr hr, hC.metric _ _ _ _ _ _ hx hz hr, hC.metric _ _ _ _ _ _ hx he hd, hC.metric _ _ _ _ _ _ hx he hg,
      hC.metric _ _ _ _ _ _ hx he hHe]
    exact bump_rel (tcgLoop_rel hC hx hg hH D' _ cfg.maxInner 0 ⟨he, hHe, hr, hd, rfl, rfl, rfl, rfl, rfl⟩)

/-! ### The outer iteration -/

theorem trStopped_eq (hC : TRCorr env env' RX RE) (hs : StopCorr RX cfg.stop stop') {o : TRObj K X E M} {o' : TRObj K X' E' M'} (hx2 : RX o.x2 o'.x2) (h1 : o'.series = o.series)
    (h2 : o'.lengthSeries = o.lengthSeries) (h3 : o'.ngf2 = o.ngf2) (h4 : o'.ngf0 = o.ngf0) (h5 : o'.f1 = o.f1) (h6 : o'.f2 = o.f2) (h7 : o'.iter = o.iter) :
    trStopped env' (reTRCfg cfg stop') o' = trStopped env cfg o := by
  simp only [trStopped, reTRCfg, hC.lt, hC.abs, hC.lit, h1, h2, h3, h4, h5, h6, h7]
  cases hc : cfg.stop <;> cases hc' : stop' <;> rw [hc, hc'] at hs <;> first | exact hs.elim | rfl | exact hs _ _ _ _ _ _ hx2

theorem trPrologue_rel (hC : TRCorr env env' RX RE) {o : TRObj K X E M} {o' : TRObj K X' E' M'} (hx : RX o.x1 o'.x1) (hx2 : RX o.x2 o'.x2) (hl : o'.lengthSeries = o.lengthSeries)
    (hc : o'.cnt = o.cnt) (hr : o'.rho = o.rho) (ht : o'.tcg = o.tcg) (hi : o'.inner = o.inner) (hw : RW o.x1 o'.x1 o.own o'.own) :
    TRHead RX RE RW (trPrologue env cfg o) (trPrologue env' (reTRCfg cfg stop') o') := by
  have hg := hC.grad _ _ hx
  have hf := hC.f _ _ hx
  have hn : env'.sqrt (env'.metric o'.x1 (env'.grad o'.x1) (env'.grad o'.x1)) = env.sqrt (env.metric o.x1 (env.grad o.x1) (env.grad o.x1)) := by
    rw [hC.sqrt, hC.metric _ _ _ _ _ _ hx hg hg]
  exact { x1 := hx, gf1 := hg, f1 := hf, ngf0 := hn, ngf1 := hn, ngf2 := hn, Delta := rfl, rho := hr, tcg := ht, inner := hi, iter := rfl
          series := by simp only [trPrologue, hf, hn]
          len := hl
          cnt := by simp only [trPrologue, hc]
          own := hw, x2 := hx2, f2 := hf }

theorem trTrial_rel {hk : TRHooks K X E M} {hk' : TRHooks K X' E' M'} (hC : TRCorr env env' RX RE) (hH : TRHookCorr env env' RX RE hk hk' RW RG) {o : TRObj K X E M}
    {o' : TRObj K X' E' M'} (m : TRHead RX RE RW o o') : TRMid env env' RX RE RW (trTrial env cfg hk o) (trTrial env' (reTRCfg cfg stop') hk' o') := by
  have he : RE o.x1 o'.x1 (env.smul (env.lit 0 1) o.gf1) (env'.smul (env'.lit 0 1) o'.gf1) := by
    rw [hC.lit]; exact hC.smul _ _ _ _ _ m.x1 m.gf1
  have b : TRBase RX RE RW { o with eta1 := env.smul (env.lit 0 1) o.gf1 } { o' with eta1 := env'.smul (env'.lit 0 1) o'.gf1 } :=
    { x1 := m.x1, gf1 := m.gf1, f1 := m.f1, ngf0 := m.ngf0, ngf1 := m.ngf1, ngf2 := m.ngf2, Delta := m.Delta, rho := m.rho, tcg := m.tcg, inner := m.inner, iter := m.iter
      series := m.series, len := m.len, cnt := m.cnt, own := m.own }
  have t := tcg_rel (cfg := cfg) (stop' := stop') hC m.x1 m.gf1 (fun v v' hv => hH.hess { o with eta1 := env.smul (env.lit 0 1) o.gf1 } { o' with eta1 := env'.smul (env'.lit 0 1) o'.gf1 } v v' b hv) m.Delta he
  simp only [trTrial]
  generalize tcg env cfg (hk.hess { o with eta1 := env.smul (env.lit 0 1) o.gf1 }) o.x1 o.gf1 (env.smul (env.lit 0 1) o.gf1) o.Delta = q at t ⊢
  generalize tcg env' (reTRCfg cfg stop') (hk'.hess { o' with eta1 := env'.smul (env'.lit 0 1) o'.gf1 }) o'.x1 o'.gf1 (env'.smul (env'.lit 0 1) o'.gf1) o'.Delta = q' at t ⊢
  have hx2 := hC.retr _ _ _ _ m.x1 t.1
  exact { x1 := m.x1, gf1 := m.gf1, f1 := m.f1, ngf0 := m.ngf0, ngf1 := m.ngf1, ngf2 := m.ngf2, Delta := m.Delta, rho := m.rho
          tcg := by rw [t.2]
          inner := by rw [t.2]
          iter := m.iter, series := m.series, len := m.len
          cnt := by rw [m.cnt, t.2]
          own := m.own, x2 := hx2, f2 := hC.f _ _ hx2, eta2 := t.1, x2e := rfl, x2e' := rfl }

theorem trRatio_rel {hk : TRHooks K X E M} {hk' : TRHooks K X' E' M'} (hC : TRCorr env env' RX RE) (hH : TRHookCorr env env' RX RE hk hk' RW RG) {o : TRObj K X E M}
    {o' : TRObj K X' E' M'} (m : TRMid env env' RX RE RW o o') :
    TRMid env env' RX RE RW (trRatio env hk o) (trRatio env' hk' o') ∧ RG o.x2 o'.x2 (trRatio env hk o).gf2 (trRatio env' hk' o').gf2 := by
  have hh := hH.hess _ _ _ _ m.toTRBase m.eta2
  have he : RE o.x1 o'.x1 (env.axpy (env.lit 1 2) (hk.hess o o.eta2) o.gf1) (env'.axpy (env'.lit 1 2) (hk'.hess o' o'.eta2) o'.gf1) := by
    rw [hC.lit]; exact hC.axpy _ _ _ _ _ _ _ m.x1 hh m.gf1
  have hrho : (o'.f1 - o'.f2) / (-env'.metric o'.x1 o'.eta2 (env'.axpy (env'.lit 1 2) (hk'.hess o' o'.eta2) o'.gf1)) =
      (o.f1 - o.f2) / (-env.metric o.x1 o.eta2 (env.axpy (env.lit 1 2) (hk.hess o o.eta2) o.gf1)) := by
    rw [hC.metric _ _ _ _ _ _ m.x1 m.eta2 he, m.f1, m.f2]
  have m2 : TRMid env env' RX RE RW
      { o with Heta2 := hk.hess o o.eta2, cnt := { o.cnt with nH := o.cnt.nH + 1 }, eta1 := env.axpy (env.lit 1 2) (hk.hess o o.eta2) o.gf1
               rho := (o.f1 - o.f2) / (-env.metric o.x1 o.eta2 (env.axpy (env.lit 1 2) (hk.hess o o.eta2) o.gf1)) }
      { o' with Heta2 := hk'.hess o' o'.eta2, cnt := { o'.cnt with nH := o'.cnt.nH + 1 }, eta1 := env'.axpy (env'.lit 1 2) (hk'.hess o' o'.eta2) o'.gf1
                rho := (o'.f1 - o'.f2) / (-env'.metric o'.x1 o'.eta2 (env'.axpy (env'.lit 1 2) (hk'.hess o' o'.eta2) o'.gf1)) } :=
    { x1 := m.x1, gf1 := m.gf1, f1 := m.f1, ngf0 := m.ngf0, ngf1 := m.ngf1, ngf2 := m.ngf2, Delta := m.Delta, rho := hrho, tcg := m.tcg, inner := m.inner, iter := m.iter
      series := m.series, len := m.len
      cnt := by simp only [m.cnt]
      own := m.own, x2 := m.x2, f2 := m.f2, eta2 := m.eta2, x2e := m.x2e, x2e' := m.x2e' }
  obtain ⟨u1, u2, u3⟩ := hH.upd _ _ m2 hh
  refine ⟨?_, u1⟩
  exact { x1 := m.x1, gf1 := m.gf1, f1 := m.f1, ngf0 := m.ngf0, ngf1 := m.ngf1, ngf2 := m.ngf2, Delta := m.Delta, rho := hrho, tcg := m.tcg, inner := m.inner, iter := m.iter
          series := m.series, len := m.len
          cnt := by
            simp only [trRatio]
            rw [u3, m.cnt]
          own := u2, x2 := m.x2, f2 := m.f2, eta2 := m.eta2, x2e := m.x2e, x2e' := m.x2e' }

theorem trLoop_rel {hk : TRHooks K X E M} {hk' : TRHooks K X' E' M'} (hC : TRCorr env env' RX RE) (hH : TRHookCorr env env' RX RE hk hk' RW RG) (hs : StopCorr RX cfg.stop stop')
    (n : Nat) (b : Bool) {o : TRObj K X E M} {o' : TRObj K X' E' M'} (m : TRHead RX RE RW o o') :
    OptRel (TRHead RX RE RW) (trLoop env cfg hk n b o) (trLoop env' (reTRCfg cfg stop') hk' n b o') := by
  induction n generalizing b o o' with
  | zero => trivial
  | succ n ih =>
    simp only [trLoop]
    have hmi : (reTRCfg cfg stop' : TRCfg K X').maxIter = cfg.maxIter := rfl
    have hni : (reTRCfg cfg stop' : TRCfg K X').minIter = cfg.minIter := rfl
    rw [m.iter, hmi, hni]
    by_cases h1 : ((!b && decide (o.iter < cfg.maxIter)) || decide (o.iter < cfg.minIter)) = true
    · rw [if_pos h1, if_pos h1]
      have m1 := trTrial_rel (cfg := cfg) (stop' := stop') hC hH m
      generalize trTrial env cfg hk o = q at m1
      generalize trTrial env' (reTRCfg cfg stop') hk' o' = q' at m1
      rw [hC.finite, m1.f2]
      by_cases h2 : env.finite q.f2 = true
      · rw [if_pos h2, if_pos h2]
        obtain ⟨m2, g2⟩ := trRatio_rel hC hH m1
        have gx : RG (trRatio env hk q).x2 (trRatio env' hk' q').x2 (trRatio env hk q).gf2 (trRatio env' hk' q').gf2 := g2
        clear g2
        generalize trRatio env hk q = s at m2 gx
        generalize trRatio env' hk' q' = s' at m2 gx
        have hD : trRadius env' (reTRCfg cfg stop') s' = trRadius env cfg s := by
          simp only [trRadius, reTRCfg, hC.lt, hC.le, hC.lit, m2.rho, m2.tcg, m2.Delta, m2.ngf1, m2.ngf0]
        rw [hD]
        have m3 : TRMid env env' RX RE RW { s with Delta := (trRadius env cfg s).1 } { s' with Delta := (trRadius env cfg s).1 } :=
          { x1 := m2.x1, gf1 := m2.gf1, f1 := m2.f1, ngf0 := m2.ngf0, ngf1 := m2.ngf1, ngf2 := m2.ngf2, Delta := rfl, rho := m2.rho, tcg := m2.tcg, inner := m2.inner, iter := m2.iter
            series := m2.series, len := m2.len, cnt := m2.cnt, own := m2.own, x2 := m2.x2, f2 := m2.f2, eta2 := m2.eta2, x2e := m2.x2e, x2e' := m2.x2e' }
        have gx3 : RG ({ s with Delta := (trRadius env cfg s).1 } : TRObj K X E M).x2 ({ s' with Delta := (trRadius env cfg s).1 } : TRObj K X' E' M').x2
          ({ s with Delta := (trRadius env cfg s).1 } : TRObj K X E M).gf2 ({ s' with Delta := (trRadius env cfg s).1 } : TRObj K X' E' M').gf2 := gx
        by_cases h3 : (trRadius env cfg s).2 = true
        · rw [if_pos h3, if_pos h3]
          exact m3.toTRHead
        · rw [if_neg h3, if_neg h3]
          generalize ({ s with Delta := (trRadius env cfg s).1 } : TRObj K X E M) = a at m3 gx3
          generalize ({ s' with Delta := (trRadius env cfg s).1 } : TRObj K X' E' M') = a' at m3 gx3
          have hA : trAccepts env' (reTRCfg cfg stop') a' = trAccepts env cfg a := by
            simp only [trAccepts, reTRCfg, hC.lt, hC.lit, hC.abs, hC.sqrt, hC.eps, m3.rho, m3.tcg, m3.f1, m3.f2, m3.ngf1, m3.ngf0]
          rw [hA]
          by_cases h4 : trAccepts env cfg a = true
          · rw [if_pos h4, if_pos h4]
            obtain ⟨c1, c2, c3⟩ := hH.acc _ _ m3 gx3
            have hn : (trAccept env' hk' a').ngf2 = (trAccept env hk a).ngf2 := by
              show env'.sqrt (env'.metric a'.x2 _ _) = env.sqrt (env.metric a.x2 _ _)
              rw [hC.sqrt, hC.metric _ _ _ _ _ _ m3.x2 c1 c1]
            rw [trStopped_eq (o := trAccept env hk a) (o' := trAccept env' hk' a') hC hs m3.x2 m3.series m3.len hn m3.ngf0 m3.f1 m3.f2 m3.iter]
            apply ih
            exact { x1 := m3.x2, gf1 := c1, f1 := m3.f2, ngf0 := m3.ngf0, ngf1 := hn, ngf2 := hn, Delta := m3.Delta, rho := m3.rho, tcg := m3.tcg, inner := m3.inner
                    iter := congrArg (· + 1) m3.iter
                    series := by
                      show a'.series ++ [(a'.f2, (trAccept env' hk' a').ngf2)] = a.series ++ [(a.f2, (trAccept env hk a).ngf2)]
                      rw [m3.series, m3.f2, hn]
                    len := m3.len
                    cnt := by simp only [trRecord, trSwap, trAccept, c3, m3.cnt]
                    own := c2, x2 := m3.x1, f2 := m3.f2 }
          · rw [if_neg h4, if_neg h4]
            apply ih
            exact { x1 := m2.x1, gf1 := m2.gf1, f1 := m2.f1, ngf0 := m2.ngf0, ngf1 := m2.ngf1, ngf2 := m2.ngf2, Delta := rfl, rho := m2.rho, tcg := m2.tcg, inner := m2.inner
                    iter := congrArg (· + 1) m2.iter
                    series := by simp only [trRecord, m2.series, m2.f2, m2.ngf2]
                    len := m2.len, cnt := m2.cnt, own := m2.own, x2 := m2.x2, f2 := m2.f2 }
      · rw [if_neg h2, if_neg h2]
        exact m1.toTRHead
    · rw [if_neg h1, if_neg h1]
      exact m

/-! ## Theorems -/

/-- The two initial objects agree on what a run reads. -/
structure SameStart (RX : X → X' → Prop) (o : TRObj K X E M) (o' : TRObj K X' E' M') : Prop where
  x1 : RX o.x1 o'.x1
  x2 : RX o.x2 o'.x2
  len : o'.lengthSeries = o.lengthSeries
  cnt : o'.cnt = o.cnt
  rho : o'.rho = o.rho
  tcg : o'.tcg = o.tcg
  inner : o'.inner = o.inner

theorem C134_run_natural {hk : TRHooks K X E M} {hk' : TRHooks K X' E' M'} (hC : TRCorr env env' RX RE) (hH : TRHookCorr env env' RX RE hk hk' RW RG) (hs : StopCorr RX cfg.stop stop')
    (n : Nat) {o : TRObj K X E M} {o' : TRObj K X' E' M'} (h0 : SameStart RX o o') (hw : RW o.x1 o'.x1 o.own o'.own) :
    OptRel (fun a b => SameTR RX RE a b ∧ RW a.x1 b.x1 a.own b.own) (trRun env cfg hk n o) (trRun env' (reTRCfg cfg stop') hk' n o') := by
  have m := trPrologue_rel (cfg := cfg) (stop' := stop') hC h0.x1 h0.x2 h0.len h0.cnt h0.rho h0.tcg h0.inner hw
  simp only [trRun]
  rw [trStopped_eq hC hs m.x2 m.series m.len m.ngf2 m.ngf0 m.f1 m.f2 m.iter]
  refine (trLoop_rel hC hH hs n _ m).map fun a b h => ⟨?_, h.own⟩
  exact { x1 := h.x1, x2 := h.x2, gf1 := h.gf1, f1 := h.f1, f2 := h.f2, ngf0 := h.ngf0, ngf1 := h.ngf1, ngf2 := h.ngf2, Delta := h.Delta, rho := h.rho, tcg := h.tcg, inner := h.inner
          iter := h.iter, series := h.series, cnt := h.cnt
          lengthSeries := by simp only [h.iter] }

/-- `RTRNewton` and `RTRSD`. -/
theorem C134_rtr (hC : TRCorr env env' RX RE) {H : X → E → E} {H' : X' → E' → E'} (hH : ∀ x x' v v', RX x x' → RE x x' v v' → RE x x' (H x v) (H' x' v'))
    (hs : StopCorr RX cfg.stop stop') (n : Nat) {o : TRObj K X E Unit} {o' : TRObj K X' E' Unit} (h0 : SameStart RX o o') :
    OptRel (SameTR RX RE) (trRun env cfg (rtr env H) n o) (trRun env' (reTRCfg cfg stop') (rtr env' H') n o') := by
  have hk : TRHookCorr env env' RX RE (rtr env H) (rtr env' H') (fun _ _ _ _ => True) (fun _ _ _ _ => True) :=
    { hess := fun o o' v v' b hv => hH _ _ _ _ b.x1 hv
      upd := fun o o' _ _ => ⟨trivial, trivial, rfl⟩
      acc := fun o o' m _ => ⟨hC.grad _ _ m.x2, trivial, rfl⟩ }
  have := C134_run_natural (cfg := cfg) (stop' := stop') hC hk hs n h0 trivial
  revert this
  cases trRun env cfg (rtr env H) n o <;> cases trRun env' (reTRCfg cfg stop') (rtr env' H') n o' <;> intro h
  · trivial
  · exact h
  · exact h
  · exact h.1

/-- `RTRSR1`: the operators of the two representations, and their updates, represent the same operators; the inverse transport represents the same map. -/
structure SR1Corr {L L' : Type*} (env : TREnv K X E) (env' : TREnv K X' E') (RX : X → X' → Prop) (RE : X → X' → E → E' → Prop) (RL : X → X' → L → L' → Prop) (op : OpEnv K X E L)
    (op' : OpEnv K X' E' L') (inv : X → E → X → E → E) (inv' : X' → E' → X' → E' → E') : Prop where
  app : ∀ x x' B B' v v', RX x x' → RL x x' B B' → RE x x' v v' → RE x x' (op.app x B v) (op'.app x' B' v')
  scaledId : ∀ x x' B B' c, RX x x' → RL x x' B B' → RL x x' (op.scaledId B c) (op'.scaledId B' c)
  rank1 : ∀ x x' B B' c v v' w w', RX x x' → RL x x' B B' → RE x x' v v' → RE x x' w w' → RL x x' (op.rank1 x B c v w) (op'.rank1 x' B' c v' w')
  tran : ∀ x x' v v' B B', RX x x' → RE x x' v v' → RL x x' B B' →
    RL (env.retr x v) (env'.retr x' v') (op.tran x v (env.retr x v) B) (op'.tran x' v' (env'.retr x' v') B')
  inv : ∀ x x' v v' w w', RX x x' → RE x x' v v' → RE (env.retr x v) (env'.retr x' v') w w' →
    RE x x' (inv x v (env.retr x v) w) (inv' x' v' (env'.retr x' v') w')

theorem C134_rtrsr1 {L L' : Type*} {RL : X → X' → L → L' → Prop} {op : OpEnv K X E L} {op' : OpEnv K X' E' L'} {inv : X → E → X → E → E} {inv' : X' → E' → X' → E' → E'}
    (hC : TRCorr env env' RX RE) (hO : SR1Corr env env' RX RE RL op op' inv inv') (hs : StopCorr RX cfg.stop stop') (n : Nat)
    {o : TRObj K X E (SR1Own K E L)} {o' : TRObj K X' E' (SR1Own K E' L')} (h0 : SameStart RX o o') (hw : RL o.x1 o'.x1 o.own.B o'.own.B) :
    OptRel (fun a b => SameTR RX RE a b ∧ RL a.x1 b.x1 a.own.B b.own.B) (trRun env cfg (rtrsr1 env op inv) n o) (trRun env' (reTRCfg cfg stop') (rtrsr1 env' op' inv') n o') := by
  have hk : TRHookCorr env env' RX RE (rtrsr1 env op inv) (rtrsr1 env' op' inv') (fun x x' w w' => RL x x' w.B w'.B) RE :=
    { hess := fun o o' v v' b hv => hO.app _ _ _ _ _ _ b.x1 b.own hv
      upd := by
        intro o o' m hHe
        have hg2 := hC.grad _ _ m.x2
        have hgx : RE (env.retr o.x1 o.eta2) (env'.retr o'.x1 o'.eta2) (env.grad o.x2) (env'.grad o'.x2) := by
          rw [← m.x2e, ← m.x2e']; exact hg2
        have hi := hO.inv _ _ _ _ _ _ m.x1 m.eta2 hgx
        rw [← m.x2e, ← m.x2e'] at hi
        have hy : RE o.x1 o'.x1 (env.axpy (env.lit (-1) 1) o.gf1 (inv o.x1 o.eta2 o.x2 (env.grad o.x2))) (env'.axpy (env'.lit (-1) 1) o'.gf1 (inv' o'.x1 o'.eta2 o'.x2 (env'.grad o'.x2))) := by
          rw [hC.lit]; exact hC.axpy _ _ _ _ _ _ _ m.x1 m.gf1 hi
        simp only [rtrsr1]
        generalize env.axpy (env.lit (-1) 1) o.gf1 (inv o.x1 o.eta2 o.x2 (env.grad o.x2)) = y at hy
        generalize env'.axpy (env'.lit (-1) 1) o'.gf1 (inv' o'.x1 o'.eta2 o'.x2 (env'.grad o'.x2)) = y' at hy
        have hz : RE o.x1 o'.x1 (env.axpy (env.lit (-1) 1) o.Heta2 y) (env'.axpy (env'.lit (-1) 1) o'.Heta2 y') := by
          rw [hC.lit]; exact hC.axpy _ _ _ _ _ _ _ m.x1 hHe hy
        generalize env.axpy (env.lit (-1) 1) o.Heta2 y = z at hz
        generalize env'.axpy (env'.lit (-1) 1) o'.Heta2 y' = z' at hz
        have hB : RL o.x1 o'.x1 (if o.iter = 1 then op.scaledId o.own.B (env.metric o.x1 y y / env.metric o.x1 o.eta2 y) else o.own.B)
            (if o.iter = 1 then op'.scaledId o'.own.B (env.metric o.x1 y y / env.metric o.x1 o.eta2 y) else o'.own.B) := by
          by_cases h : o.iter = 1
          · rw [if_pos h, if_pos h]; exact hO.scaledId _ _ _ _ _ m.x1 m.own
          · rw [if_neg h, if_neg h]; exact m.own
        rw [hC.metric _ _ _ _ _ _ m.x1 hy hy, hC.metric _ _ _ _ _ _ m.x1 m.eta2 hy, hC.metric _ _ _ _ _ _ m.x1 m.eta2 hz, hC.metric _ _ _ _ _ _ m.x1 hz hz,
          hC.metric _ _ _ _ _ _ m.x1 m.eta2 m.eta2, m.iter, m.ngf2, m.ngf0, hC.eps, hC.le, hC.lt, hC.lit]
        generalize (if o.iter = 1 then op.scaledId o.own.B (env.metric o.x1 y y / env.metric o.x1 o.eta2 y) else o.own.B) = B at hB
        generalize (if o.iter = 1 then op'.scaledId o'.own.B (env.metric o.x1 y y / env.metric o.x1 o.eta2 y) else o'.own.B) = B' at hB
        by_cases h : (env.le (env.eps * env.metric o.x1 o.eta2 o.eta2 * env.metric o.x1 z z) (env.metric o.x1 o.eta2 z * env.metric o.x1 o.eta2 z) &&
            (env.le env.eps (env.metric o.x1 z z) || env.lt (o.ngf2 / o.ngf0) (env.lit 1 1000))) = true
        · rw [if_pos h, if_pos h]
          exact ⟨hg2, hO.rank1 _ _ _ _ _ _ _ _ _ m.x1 hB hz hz, rfl⟩
        · rw [if_neg h, if_neg h]
          exact ⟨hg2, hB, rfl⟩
      acc := by
        intro o o' m hg
        refine ⟨hg, ?_, rfl⟩
        have := hO.tran _ _ _ _ _ _ m.x1 m.eta2 m.own
        rw [← m.x2e, ← m.x2e'] at this
        exact this }
  exact C134_run_natural (cfg := cfg) (stop' := stop') hC hk hs n h0 hw

end Verif.Obj
