import Verif.Solver.ObjectTRRefine
import Verif.Props.TRConverge

/-!
# C149: the trust-region guarantees at the level of the solver object

Statements about the members `x1`, `f1`, `gf1`, `eta2`, `rho`, `Delta` and the recorded series of a `RTRNewton` or `RTRSD` object.
-/

set_option linter.unusedSectionVars false

namespace Verif.Obj

open scoped RealInnerProductSpace

variable {X : Type} {E : Type} {T : X → Type} [∀ x, NormedAddCommGroup (T x)] [∀ x, InnerProductSpace ℝ (T x)]
variable {env : TREnv ℝ X E} {cfg : TRCfg ℝ X} {H : X → E → E} {p : TR.Prob X T} {φ : ∀ x, T x → E}

/-- The value of the quadratic model at the tangent vector `v`, relative to the cost at `x`. -/
noncomputable def quadratic (p : TR.Prob X T) (x : X) (v : T x) : ℝ := ⟪v, p.g x⟫ + 1 / 2 * ⟪v, p.H x v⟫

/-- The object after the trial step of one pass and the computation of the ratio. -/
noncomputable def tried (env : TREnv ℝ X E) (cfg : TRCfg ℝ X) (H : X → E → E) (o : TRObj ℝ X E Unit) : TRObj ℝ X E Unit :=
  trRatio env (rtr env H) (trTrial env cfg (rtr env H) o)

/-- **C149, the trial step.** Whenever the current gradient is not zero: the member `eta2` holds a tangent vector inside the trust region
(in the metric of the inverse preconditioner) at which the model is lower than at every step along the preconditioned
steepest descent direction within the region; the candidate is the retraction of `eta2`, `f2` its cost, and `rho` the quotient of actual
and predicted decrease; the reported status means what its name says. -/
theorem C149_trial (S : Stores env cfg H p φ) (R : Regular p) (o : TRObj ℝ X E Unit) (hgf : o.gf1 = env.grad o.x1) (hg : p.g o.x1 ≠ 0) (hD : 0 < o.Delta) {M : T o.x1 →ₗ[ℝ] T o.x1} (hM : TR.Inverse (p.P o.x1) M) :
    ∃ v : T o.x1, (tried env cfg H o).eta2 = φ o.x1 v ∧ ⟪v, M v⟫ ≤ o.Delta * o.Delta ∧ quadratic p o.x1 v < 0 ∧
      (∀ t : ℝ, 0 ≤ t → ⟪t • -p.P o.x1 (p.g o.x1), M (t • -p.P o.x1 (p.g o.x1))⟫ ≤ o.Delta * o.Delta → quadratic p o.x1 v ≤ quadratic p o.x1 (t • -p.P o.x1 (p.g o.x1))) ∧
      (tried env cfg H o).x2 = p.retr o.x1 v ∧ (tried env cfg H o).f2 = p.f (p.retr o.x1 v) ∧ (tried env cfg H o).rho = (o.f1 - p.f (p.retr o.x1 v)) / (-quadratic p o.x1 v) ∧
      (tried env cfg H o).tcg ≠ .error ∧
      ((tried env cfg H o).tcg = .negCurv ∨ (tried env cfg H o).tcg = .excRegion → ⟪v, M v⟫ = o.Delta * o.Delta) ∧
      ((tried env cfg H o).tcg = .lcon ∨ (tried env cfg H o).tcg = .scon → ‖p.g o.x1 + p.H o.x1 v‖ ≤ ‖p.g o.x1‖ * min (‖p.g o.x1‖ ^ p.theta) p.kappa) := by
  obtain ⟨eta, st, ht, -, hneg⟩ := R.cand (p := p) (x := o.x1) hD hg
  obtain ⟨q1, q2, q3, q4, q5, -⟩ := trTrial_refines S o hgf ht
  obtain ⟨c1, -, c3, c4, c5, c6, c7⟩ := TR.C21_tcg_step (L := p.local o.x1 o.Delta) (R.sym _) (R.spd _) hM hD hg ht
  have hq : ⟪eta, p.g o.x1 + (1 / 2 : ℝ) • p.H o.x1 eta⟫ = quadratic p o.x1 eta := by
    unfold quadratic; rw [inner_add_right, inner_smul_right]
  refine ⟨eta, q1, c1, c3 R.inner, fun t h0 h1 => c4 R.inner t h0 h1, q3, q4, ?_, ?_, ?_, ?_⟩
  · rw [← hq]; exact q5
  · show (trRatio env (rtr env H) (trTrial env cfg (rtr env H) o)).tcg ≠ .error
    rw [q2]; revert c5; cases st <;> simp [tstatusOf]
  · intro h
    apply c6
    unfold tried at h
    rw [q2] at h; revert h; cases st <;> simp [tstatusOf]
  · intro h
    have : st = .lCon ∨ st = .sCon := by
      unfold tried at h
      rw [q2] at h; revert h; cases st <;> simp [tstatusOf]
    refine le_trans (c7 this) (le_of_eq ?_)
    unfold TR.Local.tol TR.Prob.local
    simp only []
    congr 1
    split
    · rename_i h; exact (min_eq_left h.le).symm
    · rename_i h; exact (min_eq_right (not_lt.mp h)).symm

/-- **C149, without preconditioner**: the length of `eta2`, measured as the solver measures it, is at most the radius. -/
theorem C149_trial_length (S : Stores env cfg H p φ) (R : Regular p) (o : TRObj ℝ X E Unit) (hgf : o.gf1 = env.grad o.x1) (hg : p.g o.x1 ≠ 0) (hD : 0 < o.Delta)
    (hP : p.P o.x1 = LinearMap.id) : env.sqrt (env.metric o.x1 (tried env cfg H o).eta2 (tried env cfg H o).eta2) ≤ o.Delta := by
  obtain ⟨v, h1, h2, -⟩ := C149_trial S R o hgf hg hD (M := LinearMap.id) (by rw [hP]; exact ⟨fun _ => rfl, fun _ => rfl⟩)
  rw [h1, S.norm]
  simp only [LinearMap.id_coe, id_eq, real_inner_self_eq_norm_mul_norm] at h2
  exact (mul_self_le_mul_self_iff (norm_nonneg _) hD.le).mpr h2

/-- What a caller relies on in a returned object. -/
structure Reported (env : TREnv ℝ X E) (cfg : TRCfg ℝ X) (x0 : X) (o : TRObj ℝ X E Unit) : Prop where
  cost : o.f1 = env.f o.x1
  grad : o.gf1 = env.grad o.x1
  norm : o.ngf1 = env.sqrt (env.metric o.x1 (env.grad o.x1) (env.grad o.x1))
  norm0 : o.ngf0 = env.sqrt (env.metric x0 (env.grad x0) (env.grad x0))
  iters : o.iter ≤ cfg.maxIter
  len : o.series.length = o.iter + 1
  first : o.series.head? = some (env.f x0, env.sqrt (env.metric x0 (env.grad x0) (env.grad x0)))
  lower : env.f o.x1 ≤ env.f x0

/-- The first recorded entry stays. -/
theorem trLoop_first {M : Type} (hk : TRHooks ℝ X E M) (e : ℝ × ℝ) : ∀ (n : Nat) (b : Bool) (o r : TRObj ℝ X E M), trLoop env cfg hk n b o = some r → o.series.head? = some e → r.series.head? = some e := by
  intro n
  induction n with
  | zero => intro b o r h; simp [trLoop] at h
  | succ n ih =>
    intro b o r h he
    have happ : ∀ (l : List (ℝ × ℝ)) a, l.head? = some e → (l ++ [a]).head? = some e := by
      intro l a hl
      cases l with
      | nil => simp at hl
      | cons b l => simpa using hl
    simp only [trLoop] at h
    split at h
    · split at h
      · split at h
        · simp only [Option.some.injEq] at h; subst h; exact he
        · split at h
          · exact ih _ _ _ h (happ _ _ he)
          · exact ih _ _ _ h (happ _ _ he)
      · simp only [Option.some.injEq] at h; subst h; exact he
    · simp only [Option.some.injEq] at h; subst h; exact he

/-- **C149, the returned object.** A run of the trust-region object ends, and what it holds belongs together: the cost, the gradient and its
norm are those of the returned point, at most `Max_Iteration` passes were made, one pair of values was recorded per pass
after those of the initial point, and the cost is not above the initial one. -/
theorem C149_run (S : Stores env cfg H p φ) (R : Regular p) (hst : StopsAs cfg p) (G : Guarded cfg p) (hmin : cfg.minIter = 0) (hrho : 0 ≤ cfg.acceptRho)
    (hinit : 0 < cfg.initDelta) (hmax : 0 < cfg.maxDelta) (hsh : 0 < cfg.shrink) (hmg : 0 < cfg.magnify) (n : Nat) (hn : cfg.maxIter + 1 ≤ n)
    (o : TRObj ℝ X E Unit) (ho : o.x1 = p.x0) :
    ∃ r, trRun env cfg (rtr env H) n o = some r ∧ Reported env cfg p.x0 r ∧ r.lengthSeries = r.iter + 1 := by
  obtain ⟨s, hs, hi⟩ := TRRun.C13_tr_run_finishes (C := outerCfg env cfg) (E := p.env) (by show cfg.minIter ≤ cfg.maxIter; rw [hmin]; exact Nat.zero_le _) (by simp [outerCfg]) n hn
  have h := trRun_refines S R hst G hmin hinit hmax hsh hmg n o ho
  rw [hs] at h
  generalize ha : trRun env cfg (rtr env H) n o = a at h
  cases h with
  | @finished r _ m =>
    obtain ⟨t, ht, e1, e2, e3, e4, e5⟩ := TRRun.finished_reaches n _ s TRRun.Reaches.init hs
    have hna := (guarded_tail (env := env) G hmin ht).2.2
    rw [← e4] at hna
    have hm' : ∀ (k : Nat) x D, 0 < D → (p.env.cand k x D).finite = true → (p.env.cand k x D).mval < 0 := by
      intro k x D hD hfin
      by_cases hg : p.g x = 0
      · exfalso
        obtain ⟨m, hm⟩ := Nat.exists_eq_succ_of_ne_zero R.inner.ne'
        have hc : (p.cand x D).finite = true := hfin
        unfold TR.Prob.cand at hc
        rw [hm, TR.C21_zero_gradient_breaks_down (p.local x D) hg m] at hc
        simp at hc
      · obtain ⟨eta, st, -, hc, hneg⟩ := R.cand (p := p) hD hg
        show (p.cand x D).mval < 0
        rw [hc]; exact hneg
    obtain ⟨-, g2, g3, g4, g5⟩ := TRRun.C20_result_partial hs hrho hinit hmax hsh hmg hm' hna
    unfold trRun at ha
    simp only [Option.map_eq_some_iff] at ha
    obtain ⟨r', hr', rfl⟩ := ha
    refine ⟨_, ?_, ⟨?_, m.grad, ?_, ?_, ?_, m.len, ?_, ?_⟩, rfl⟩
    · rfl
    · rw [m.f1, g2, m.x1, S.f]; rfl
    · rw [m.ngf1, g3, m.x1, S.grad, S.norm]; rfl
    · rw [m.ngf0, S.grad, S.norm]
    · rw [m.iter]; exact hi
    · refine trLoop_first (rtr env H) _ n _ _ r' hr' ?_
      show some (env.f o.x1, env.sqrt (env.metric o.x1 (env.grad o.x1) (env.grad o.x1))) = _
      rw [ho]
    · rw [m.x1, S.f, S.f]; exact g5 _ g4

/-- **C149, convergence of the object.** With bounded Hessians, a second order expansion along the retraction, the stopping
criterion on the gradient norm and enough allowed passes, the gradient norm the object reports and that of the point it holds is below the tolerance, after at most `(1 + j) N + i` passes. -/
theorem C149_converges (S : Stores env cfg H p φ) {fmin bnd gam : ℝ} (N : TR.NewtonSetting p bnd gam) (hst : StopsAs cfg p) (hk : cfg.stop = .gradF)
    (hbelow : ∀ x, fmin ≤ p.f x) (hb : 0 < bnd) (hgam : 0 < gam) (htol : 0 < cfg.tol) (hacc : cfg.accuracy * (‖p.g p.x0‖ + cfg.tol) ≤ cfg.tol)
    (hrho0 : 0 ≤ cfg.acceptRho) (hrho : cfg.acceptRho < 1 / 4) (hinit : 0 < cfg.initDelta) (hmaxD : 0 < cfg.maxDelta)
    (hshr : 0 < cfg.shrink) (hshr1 : cfg.shrink ≤ 1) (hmag : 1 ≤ cfg.magnify)
    (hsmall : cfg.minDelta ≤ cfg.shrink * TRRun.goodRadius (1 / 2) bnd gam cfg.tol) (hmin : cfg.minIter = 0)
    (K i j : ℕ) (hK : p.f p.x0 - fmin < K * TRRun.trGain (outerCfg env cfg) (1 / 2) bnd gam cfg.tol)
    (hj : cfg.magnify * cfg.shrink ^ j ≤ 1) (hi : cfg.initDelta * cfg.shrink ^ i < TRRun.leastRadius (outerCfg env cfg) (1 / 2) bnd gam cfg.tol)
    (hmax : (1 + j) * K + i ≤ cfg.maxIter) (o : TRObj ℝ X E Unit) (ho : o.x1 = p.x0) :
    ∃ r, trRun env cfg (rtr env H) (cfg.maxIter + 1) o = some r ∧ r.ngf1 < cfg.tol ∧ r.ngf1 = env.sqrt (env.metric r.x1 (env.grad r.x1) (env.grad r.x1)) ∧
      r.iter ≤ (1 + j) * K + i ∧ env.f r.x1 ≤ env.f p.x0 := by
  have hR : Regular p :=
    { sym := N.sym, spd := fun x => by rw [N.noPrec]; exact TR.id_spd _, inv := fun x => ⟨LinearMap.id, by rw [N.noPrec]; exact ⟨fun _ => rfl, fun _ => rfl⟩⟩
      inner := N.inner, min0 := N.min0, kappa := N.kappa }
  have hs0 : p.stopped0 = true ↔ ‖p.g p.x0‖ < cfg.tol := by rw [hst.start]; unfold stopOf; rw [hk]; simp
  have hsn : ∀ k x y, p.stopped k x y = true ↔ ‖p.g y‖ < cfg.tol := by intro k x y; rw [hst.next]; unfold stopOf; rw [hk]; simp
  have hpos : 0 < ‖p.g p.x0‖ + cfg.tol := by have := norm_nonneg (p.g p.x0); linarith
  have hbig : ∀ y, ¬ ‖p.g y‖ < cfg.tol → p.g y ≠ 0 ∧ cfg.accuracy ≤ ‖p.g y‖ / (‖p.g p.x0‖ + cfg.tol) := by
    intro y hy
    refine ⟨fun h0 => hy (by rw [h0, norm_zero]; exact htol), ?_⟩
    rw [le_div_iff₀ hpos]
    exact le_trans hacc (not_lt.mp hy)
  have G : Guarded cfg p :=
    { start := fun h => hbig _ (fun h' => by rw [hs0.mpr h'] at h; simp at h)
      next := fun k x y h => hbig _ (fun h' => by rw [(hsn k x y).mpr h'] at h; simp at h) }
  obtain ⟨s, h1, h2, h3, h4, h5⟩ := TR.C101_rtr_newton_converges p (outerCfg env cfg) N hbelow hb hgam htol hs0 hsn hacc htol hrho0 hrho hinit hmaxD hshr hshr1 hmag
    hsmall hmin (by simp [outerCfg]) K i j hK hj hi hmax
  have h := trRun_refines S hR hst G hmin hinit hmaxD hshr (lt_of_lt_of_le one_pos hmag) (cfg.maxIter + 1) o ho
  have h1' : TRRun.run (outerCfg env cfg) p.env (cfg.maxIter + 1) = .finished s := h1
  obtain ⟨r, hr, hrep, -⟩ := C149_run S hR hst G hmin hrho0 hinit hmaxD hshr (lt_of_lt_of_le one_pos hmag) (cfg.maxIter + 1) le_rfl o ho
  rw [h1', hr] at h
  cases h with
  | finished m =>
    refine ⟨r, hr, ?_, hrep.norm, ?_, hrep.lower⟩
    · rw [hrep.norm, S.grad, S.norm, m.x1]; exact h2
    · rw [m.iter]; exact h3

/-! ### A concrete case: `x²` on the line, its tangent vectors stored as vectors of the plane -/

/-- Tangent vectors of the line stored as pairs with second component zero. -/
noncomputable def planeEnv (thr : ℝ) : TREnv ℝ ℝ (ℝ × ℝ) where
  lit n d := n / d
  lt a b := decide (a < b)
  le a b := decide (a ≤ b)
  eq a b := decide (a = b)
  sqrt := Real.sqrt
  abs a := |a|
  finite _ := true
  inf := 0
  eps := 1 / 10 ^ 16
  f := (TR.lineProb thr).f
  grad x := (2 * x, 0)
  precond _ v := v
  metric _ u v := u.1 * v.1 + u.2 * v.2
  retr x v := x + v.1
  dretr _ _ _ v := v
  transport _ _ _ v := v
  smul c v := (c * v.1, c * v.2)
  lin a u b v := (a * u.1 + b * v.1, a * u.2 + b * v.2)
  axpy c u v := (c * u.1 + v.1, c * u.2 + v.2)
  proj _ v := (v.1, 0)
  powtheta a := a ^ (1 : ℝ)

noncomputable def planeCfg (n : Nat) : TRCfg ℝ ℝ where
  maxIter := n
  minIter := 0
  tol := 1 / 1000
  accuracy := 0
  initDelta := 1
  minDelta := 0
  maxDelta := 1000
  acceptRho := 1 / 10
  shrink := 1 / 4
  magnify := 2
  minInner := 0
  maxInner := 5
  kappa := 1 / 10
  useRand := false
  stop := .gradF

theorem plane_stores (n : Nat) : Stores (planeEnv (1 / 1000)) (planeCfg n) (fun _ v => (2 * v.1, 2 * v.2)) (TR.lineProb (1 / 1000)) (fun _ v => (v, 0)) where
  exact := ⟨fun _ _ => rfl, fun _ _ => rfl, fun _ _ => rfl, fun _ _ => rfl, fun _ => rfl⟩
  sqrt _ := rfl
  finite _ := rfl
  pow _ := rfl
  f _ := rfl
  grad _ := rfl
  retr _ _ := rfl
  metric x u v := by simp [planeEnv, mul_comm]
  smul x c v := by simp [planeEnv]
  axpy x c u v := by simp [planeEnv]
  proj _ _ := rfl
  precond _ _ := rfl
  hess x v := by simp [TR.lineProb]
  kappa := rfl
  minInner := rfl
  maxInner := rfl
  rand := rfl

theorem plane_stops (n : Nat) : StopsAs (planeCfg n) (TR.lineProb (1 / 1000)) where
  builtin q h := by simp [planeCfg] at h
  start := by
    simp only [TR.lineProb, stopOf, planeCfg]
    congr!
  next k x y := by
    simp only [TR.lineProb, stopOf, planeCfg]
    congr!

/-- C149_converges applied: whatever the object contained before, the run from `1` reports a gradient norm below `1/1000`. -/
example : ∃ n, ∀ o : TRObj ℝ ℝ (ℝ × ℝ) Unit, o.x1 = 1 →
    ∃ r, trRun (planeEnv (1 / 1000)) (planeCfg n) (rtr (planeEnv (1 / 1000)) fun _ v => (2 * v.1, 2 * v.2)) (n + 1) o = some r ∧ r.ngf1 < 1 / 1000 := by
  have hgood : TRRun.goodRadius (1 / 2) 2 1 (1 / 1000) = 1 / 8000 := by unfold TRRun.goodRadius; norm_num
  have hleast : ∀ n, TRRun.leastRadius (outerCfg (planeEnv (1 / 1000)) (planeCfg n)) (1 / 2) 2 1 (1 / 1000) = 1 / 32000 := by
    intro n; unfold TRRun.leastRadius; rw [hgood]; norm_num [outerCfg, planeCfg]
  have hgain : ∀ n, TRRun.trGain (outerCfg (planeEnv (1 / 1000)) (planeCfg n)) (1 / 2) 2 1 (1 / 1000) = 1 / 10 * (1 / 2 * (1 / 1000) * (1 / 32000)) ∨
      TRRun.trGain (outerCfg (planeEnv (1 / 1000)) (planeCfg n)) (1 / 2) 2 1 (1 / 1000) = 1 / 4 * (1 / 2 * (1 / 1000) * (1 / 32000)) := by
    intro n; unfold TRRun.trGain; rw [hleast]; norm_num
  obtain ⟨N, hN⟩ := exists_nat_gt ((1 : ℝ) / (1 / 10 * (1 / 2 * (1 / 1000) * (1 / 32000))))
  rw [div_lt_iff₀ (by norm_num)] at hN
  refine ⟨(1 + 1) * N + 8, fun o ho => ?_⟩
  obtain ⟨r, h1, h2, -⟩ := C149_converges (fmin := 0) (plane_stores ((1 + 1) * N + 8)) (TR.line_setting _) (plane_stops _) rfl (fun x => sq_nonneg x) (by norm_num) (by norm_num)
    (by norm_num [planeCfg]) (by simp [planeCfg]) (by norm_num [planeCfg]) (by norm_num [planeCfg]) (by norm_num [planeCfg]) (by norm_num [planeCfg])
    (by norm_num [planeCfg]) (by norm_num [planeCfg]) (by norm_num [planeCfg]) (by show (0 : ℝ) ≤ 1 / 4 * TRRun.goodRadius (1 / 2) 2 1 (1 / 1000); rw [hgood]; norm_num) rfl N 8 1
    (by
      show (1 : ℝ) ^ 2 - 0 < N * TRRun.trGain (outerCfg (planeEnv (1 / 1000)) (planeCfg _)) (1 / 2) 2 1 (1 / 1000)
      rcases hgain ((1 + 1) * N + 8) with h | h
      · rw [h]; linarith
      · rw [h]; nlinarith [(Nat.cast_nonneg N : (0 : ℝ) ≤ N)])
    (by norm_num [planeCfg]) (by show (1 : ℝ) * (1 / 4) ^ 8 < TRRun.leastRadius (outerCfg (planeEnv (1 / 1000)) (planeCfg _)) (1 / 2) 2 1 (1 / 1000); rw [hleast]; norm_num) le_rfl o ho
  exact ⟨r, h1, h2⟩

theorem plane_regular : Regular (TR.lineProb (1 / 1000)) where
  sym := (TR.line_setting _).sym
  spd x := by rw [(TR.line_setting _).noPrec]; exact TR.id_spd _
  inv x := ⟨LinearMap.id, by rw [(TR.line_setting _).noPrec]; exact ⟨fun _ => rfl, fun _ => rfl⟩⟩
  inner := (TR.line_setting _).inner
  min0 := rfl
  kappa := (TR.line_setting _).kappa

theorem plane_guarded (n : Nat) : Guarded (planeCfg n) (TR.lineProb (1 / 1000)) where
  start h := by
    refine ⟨by norm_num [TR.lineProb], ?_⟩
    show (0 : ℝ) ≤ _
    have : (0 : ℝ) ≤ (planeCfg n).tol := by norm_num [planeCfg]
    positivity
  next k x y h := by
    rw [(plane_stops n).next] at h
    simp only [stopOf, planeCfg] at h
    have h := of_decide_eq_false h
    refine ⟨fun h0 => h (by rw [h0, norm_zero]; norm_num), ?_⟩
    show (0 : ℝ) ≤ _
    have : (0 : ℝ) ≤ (planeCfg n).tol := by norm_num [planeCfg]
    positivity

/-- C149_trial_length and C149_run applied. -/
example (o : TRObj ℝ ℝ (ℝ × ℝ) Unit) :
    (planeEnv (1 / 1000)).sqrt ((planeEnv (1 / 1000)).metric 1 (tried (planeEnv (1 / 1000)) (planeCfg 3) (fun _ v => (2 * v.1, 2 * v.2)) { o with x1 := 1, gf1 := (2 * 1, 0), Delta := 1 / 2 }).eta2
      (tried (planeEnv (1 / 1000)) (planeCfg 3) (fun _ v => (2 * v.1, 2 * v.2)) { o with x1 := 1, gf1 := (2 * 1, 0), Delta := 1 / 2 }).eta2) ≤ 1 / 2 :=
  C149_trial_length (plane_stores 3) plane_regular { o with x1 := 1, gf1 := (2 * 1, 0), Delta := 1 / 2 } rfl (by norm_num [TR.lineProb]) (by norm_num) rfl

example (o : TRObj ℝ ℝ (ℝ × ℝ) Unit) (ho : o.x1 = 1) : ∃ r, trRun (planeEnv (1 / 1000)) (planeCfg 3) (rtr (planeEnv (1 / 1000)) fun _ v => (2 * v.1, 2 * v.2)) 4 o = some r ∧
    Reported (planeEnv (1 / 1000)) (planeCfg 3) 1 r ∧ r.lengthSeries = r.iter + 1 :=
  C149_run (plane_stores 3) plane_regular (plane_stops 3) (plane_guarded 3) rfl (by norm_num [planeCfg]) (by norm_num [planeCfg]) (by norm_num [planeCfg]) (by norm_num [planeCfg])
    (by norm_num [planeCfg]) 4 le_rfl o ho

end Verif.Obj
