import Verif.Props.TRLocal

/-!
# C126: the trust-region Newton solver from an arbitrary start: few iterations far away, superlinear convergence at the end
-/

set_option linter.unusedSectionVars false
set_option linter.unusedVariables false

namespace Verif.TRRun

variable {X : Type} {C : Cfg ℝ} {E : Env ℝ X}

/-- Auxiliary: the environment with the stopping test replaced by `gradient norm below del`. -/
noncomputable def stopAt (E : Env ℝ X) (del : ℝ) : Env ℝ X :=
  { E with stopped0 := decide (E.ngf E.x0 < del), stopped := fun _ _ y => decide (E.ngf y < del) }

/-- A pass counts one iteration. -/
theorem pass_iter {s s' : St ℝ X} (hp : pass C E s = .next s') : s'.iter = s.iter + 1 := by
  obtain ⟨D, _, ⟨_, hw⟩ | ⟨_, hw⟩⟩ := pass_next hp
  · rw [(writeHist_next hw).1]; rfl
  · rw [(writeHist_next hw).1]; rfl

/-- The loop passes through every reached state. -/
theorem loop_from {s : St ℝ X} (h : Reaches C E s) (n : ℕ) : loop C E (s.iter + n) (St.init C E) = loop C E n s := by
  induction h generalizing n with
  | init => simp [St.init]
  | @step s s' hr hc hp ih =>
    rw [pass_iter hp]
    have h1 := ih (n + 1)
    rw [show s.iter + 1 + n = s.iter + (n + 1) by omega, h1, loop, if_pos hc, hp]

/-- More fuel does not change a finished run. -/
theorem loop_mono {t : St ℝ X} : ∀ (n m : ℕ) (s : St ℝ X), n ≤ m → loop C E n s = .finished t → loop C E m s = .finished t := by
  intro n
  induction n with
  | zero => intro m s _ h; simp [loop] at h
  | succ n ih =>
    intro m s hm h
    obtain ⟨m, rfl⟩ : ∃ k, m = k + 1 := ⟨m - 1, by omega⟩
    simp only [loop] at h ⊢
    by_cases hc : s.continues C = true
    · rw [if_pos hc] at h ⊢
      cases hp : pass C E s with
      | outOfBounds => rw [hp] at h; cases h
      | divByZero => rw [hp] at h; cases h
      | stop s' => rw [hp] at h; exact h
      | next s' => rw [hp] at h; exact ih m s' (by omega) h
    · rw [if_neg hc] at h ⊢
      exact h

/-- The history writes do not look at the stopping flag. -/
theorem writeHist_flag {s s' : St ℝ X} (b : Bool) (h : s.writeHist C = .next s') : ({ s with isstop := b } : St ℝ X).writeHist C = .next { s' with isstop := b } := by
  unfold St.writeHist at h ⊢
  by_cases h1 : C.record = true
  · rw [if_pos h1] at h ⊢
    by_cases h2 : C.outputGap = 0
    · rw [if_pos h2] at h; cases h
    · rw [if_neg h2] at h ⊢
      by_cases h3 : s.funSeries.length ≤ s.iter
      · rw [if_pos h3] at h; cases h
      · rw [if_neg h3] at h
        rw [if_neg (by simpa using h3)]
        simp only [Pass.next.injEq] at h
        rw [← h]
  · rw [if_neg h1] at h ⊢
    simp only [Pass.next.injEq] at h
    rw [h]

/-- Auxiliary: a pass in terms of the candidate and the two possible next states. -/
def core {K X : Type} [Field K] [LinearOrder K] (C : Cfg K) (s : St K X) (c : Cand K X) (f2 ngf0 : K) (A R : K → St K X) : Pass K X :=
  if !c.finite then .stop { s with f2 := f2 }
  else
    match radius C (ratio s.f1 f2 c) c.status (accurate C ngf0 s.ngf1) s.Delta with
    | none => .stop { s with f2 := f2, Delta := s.Delta * C.shrinked }
    | some D =>
      if accepts C (ratio s.f1 f2 c) c.status (accurate C ngf0 s.ngf1) s.f1 f2 then (A D).writeHist C else (R D).writeHist C

theorem pass_core {K X : Type} [Field K] [LinearOrder K] (C : Cfg K) (E : Env K X) (s : St K X) : pass C E s = core C s (E.cand s.iter s.x1 s.Delta) (E.f (E.cand s.iter s.x1 s.Delta).x2) (E.ngf E.x0)
    (fun D => s.accept E (E.cand s.iter s.x1 s.Delta).x2 D) (fun D => s.reject E (E.cand s.iter s.x1 s.Delta).x2 D) := by
  unfold pass core
  rfl

/-- Which of the two next states is taken does not depend on them. -/
theorem core_next {s s' : St ℝ X} {c : Cand ℝ X} {f2 ngf0 : ℝ} {A R : ℝ → St ℝ X} (h : core C s c f2 ngf0 A R = .next s') :
    ∃ D, ((A D).writeHist C = .next s' ∧ ∀ A' R', core C s c f2 ngf0 A' R' = (A' D).writeHist C) ∨
      ((R D).writeHist C = .next s' ∧ ∀ A' R', core C s c f2 ngf0 A' R' = (R' D).writeHist C) := by
  unfold core at h ⊢
  by_cases hfin : (!c.finite) = true
  · rw [if_pos hfin] at h; cases h
  rw [if_neg hfin] at h
  cases hrad : radius C (ratio s.f1 f2 c) c.status (accurate C ngf0 s.ngf1) s.Delta with
  | none => rw [hrad] at h; cases h
  | some D =>
    rw [hrad] at h
    simp only at h
    refine ⟨D, ?_⟩
    by_cases hacc : accepts C (ratio s.f1 f2 c) c.status (accurate C ngf0 s.ngf1) s.f1 f2 = true
    · rw [if_pos hacc] at h
      exact Or.inl ⟨h, fun A' R' => by rw [if_neg hfin]; simp only [hacc, if_true]⟩
    · rw [if_neg hacc] at h
      exact Or.inr ⟨h, fun A' R' => by rw [if_neg hfin]; simp only [hacc]; rfl⟩

/-- As long as the gradient norm is at least `del` the run cannot tell the two stopping tests apart. -/
theorem stopAt_sim {thr del : ℝ} (hle : thr ≤ del) (h0 : E.stopped0 = true ↔ E.ngf E.x0 < thr) (hs : ∀ k x y, E.stopped k x y = true ↔ E.ngf y < thr) (hmin : C.minIter = 0)
    {s : St ℝ X} (h : Reaches C (stopAt E del) s) :
    (s.isstop = true ↔ E.ngf s.x1 < del) ∧ Reaches C E { s with isstop := decide (E.ngf s.x1 < thr) } := by
  induction h with
  | init =>
    refine ⟨by simp [St.init, stopAt], ?_⟩
    have : ({ St.init C (stopAt E del) with isstop := decide (E.ngf (St.init C (stopAt E del)).x1 < thr) } : St ℝ X) = St.init C E := by
      have hb : decide (E.ngf (St.init C (stopAt E del)).x1 < thr) = E.stopped0 := by
        rw [Bool.eq_iff_iff, decide_eq_true_eq]; exact h0.symm
      rw [hb]
      rfl
    rw [this]
    exact Reaches.init
  | @step s s' hr hc hp ih =>
    obtain ⟨hflag, hreach⟩ := ih
    have hst : s.isstop = false := by
      unfold St.continues at hc
      rw [hmin] at hc
      simp only [Nat.not_lt_zero, decide_false, Bool.or_false, Bool.and_eq_true, Bool.not_eq_true'] at hc
      exact hc.1
    have hge : del ≤ E.ngf s.x1 := by
      by_contra hcon
      rw [hflag.mpr (not_le.mp hcon)] at hst
      cases hst
    have hsame : ({ s with isstop := decide (E.ngf s.x1 < thr) } : St ℝ X) = s := by
      have : decide (E.ngf s.x1 < thr) = false := by simp; linarith
      rw [this, ← hst]
    rw [hsame] at hreach
    -- the same pass in the original environment
    replace hp : core C s (E.cand s.iter s.x1 s.Delta) (E.f (E.cand s.iter s.x1 s.Delta).x2) (E.ngf E.x0) (fun D => s.accept (stopAt E del) (E.cand s.iter s.x1 s.Delta).x2 D)
      (fun D => s.reject (stopAt E del) (E.cand s.iter s.x1 s.Delta).x2 D) = .next s' := by
      rw [pass_core] at hp
      exact hp
    obtain ⟨D, ⟨hw, hA⟩ | ⟨hw, hA⟩⟩ := core_next hp
    · obtain ⟨e1, e2, e3, _⟩ := writeHist_next hw
      have e3' : s'.x1 = (E.cand s.iter s.x1 s.Delta).x2 := e3
      have e2' : s'.isstop = decide (E.ngf (E.cand s.iter s.x1 s.Delta).x2 < del) := e2
      refine ⟨by rw [e2', e3', decide_eq_true_eq], Reaches.step hreach hc ?_⟩
      rw [pass_core, hA]
      have hw := writeHist_flag (decide (E.ngf s'.x1 < thr)) hw
      rw [← hw]
      congr 1
      have hb : E.stopped s.iter s.x1 (E.cand s.iter s.x1 s.Delta).x2 = decide (E.ngf s'.x1 < thr) := by
        rw [e3', Bool.eq_iff_iff, decide_eq_true_eq]; exact hs _ _ _
      simp only [St.accept, hb]
      rfl
    · obtain ⟨e1, e2, e3, _⟩ := writeHist_next hw
      have e3' : s'.x1 = s.x1 := e3
      have e2' : s'.isstop = s.isstop := e2
      refine ⟨by rw [e2', e3']; exact hflag, Reaches.step hreach hc ?_⟩
      rw [pass_core, hA]
      have hw := writeHist_flag (decide (E.ngf s'.x1 < thr)) hw
      rw [← hw]
      congr 1
      have hb : s.isstop = decide (E.ngf s'.x1 < thr) := by
        rw [e3', hst]; symm; simp; linarith
      simp only [St.reject]
      rw [← hb]
      rfl

end Verif.TRRun

namespace Verif.TR

open scoped RealInnerProductSpace Classical
open Verif.QN (IsSym IsSPD)
open Module (finrank)

variable {X : Type} {T : X → Type} [∀ x, NormedAddCommGroup (T x)] [∀ x, InnerProductSpace ℝ (T x)]

/-- **C126.** The trust-region Newton solver without preconditioner, from an arbitrary start. Far away the objective has a second order expansion with an error `gam ‖v‖²` and bounded Hessian operators;
where the gradient norm is below `del` and the objective not above its initial value, the point lies in a basin `B`. Then the run ends with a gradient norm below `thr` within
`(1 + j) N + i` iterations, which depend on `del` but not on `thr`, plus `J (k + 1) + k` iterations, where `k` is such that `(A rho) ^ ((1 + theta) ^ k) < A thr`: it grows like the logarithm of the logarithm of `1 / thr`. -/
theorem C126_global_then_fast [∀ x, FiniteDimensional ℝ (T x)] (p : Prob X T) (C : TRRun.Cfg ℝ) {B : X → Prop} {fmin bnd gam del thr mu gam3 beta rho : ℝ} (S : NewtonSetting p bnd gam)
    (SB : Basin p (fun _ => LinearMap.id) B mu 1 gam3 beta rho) (hin : ∀ x, ‖p.g x‖ < del → p.f x ≤ p.f p.x0 → B x)
    (hbelow : ∀ x, fmin ≤ p.f x) (hb : 0 < bnd) (hgam : 0 < gam) (hthr : 0 < thr) (hdel : thr ≤ del)
    (hs0 : p.stopped0 = true ↔ ‖p.g p.x0‖ < thr) (hs : ∀ k x y, p.stopped k x y = true ↔ ‖p.g y‖ < thr)
    (hdim : ∀ x, finrank ℝ (T x) ≤ p.maxInner) (ht0 : 0 < p.theta) (ht1 : p.theta ≤ 1) (hrho1 : rho ≤ 1)
    (hacc : C.accuracy * (‖p.g p.x0‖ + C.tolerance) ≤ del) (htol : 0 < C.tolerance)
    (hrho0 : 0 ≤ C.acceptRho) (hrho : C.acceptRho < 1 / 4) (hinit : 0 < C.initialDelta) (hmaxpos : 0 < C.maximumDelta) (hmaxD : rho / mu < C.maximumDelta)
    (hshr : 0 < C.shrinked) (hshr1 : C.shrinked ≤ 1) (hmag : 1 ≤ C.magnified)
    (hsmall : C.minimumDelta ≤ C.shrinked * TRRun.goodRadius (1 / 2) bnd gam del) (hmin : C.minIter = 0) (hgap : C.outputGap ≠ 0)
    (N i j : ℕ) (hN : p.f p.x0 - fmin < N * TRRun.trGain C (1 / 2) bnd gam del)
    (hj : C.magnified * C.shrinked ^ j ≤ 1) (hi : C.initialDelta * C.shrinked ^ i < TRRun.leastRadius C (1 / 2) bnd gam del)
    (k J : ℕ) (hkk : (rateConst beta mu p.theta * rho) ^ ((1 + p.theta) ^ k) < rateConst beta mu p.theta * thr)
    (hJ : rho / mu < TRRun.leastRadius C (1 / 2) bnd gam del * C.magnified ^ J)
    (hmax : (1 + j) * N + i + (J * (k + 1) + k) ≤ C.maxIter) :
    ∃ t, TRRun.run C p.env (C.maxIter + 1) = .finished t ∧ ‖p.g t.x1‖ < thr ∧ t.iter ≤ (1 + j) * N + i + (J * (k + 1) + k) ∧ B t.x1 ∧ p.f t.x1 ≤ p.f p.x0 := by
  have hdelpos : 0 < del := lt_of_lt_of_le hthr hdel
  have hne : ∀ x, del ≤ ‖p.g x‖ → p.g x ≠ 0 := fun x hx => norm_pos_iff.mp (lt_of_lt_of_le hdelpos hx)
  have hS : TRRun.Setting C (TRRun.stopAt p.env del) fmin (1 / 2) bnd gam del :=
    { below := hbelow
      cauchy := fun k x D hD _ hx => (newton_cand S hb hgam.le hD (hne x hx)).2.1
      model := fun k x D hD _ hx => (newton_cand S hb hgam.le hD (hne x hx)).2.2
      finite := fun k x D hD _ hx => (newton_cand S hb hgam.le hD (hne x hx)).1
      kappos := by norm_num
      bndpos := hb, gampos := hgam, thrpos := hdelpos
      stop0 := fun h => by simpa [TRRun.stopAt] using h
      stop := fun k x y h => by simpa [TRRun.stopAt] using h
      acc := hacc
      sum := by show 0 < ‖p.g p.x0‖ + C.tolerance; have := norm_nonneg (p.g p.x0); linarith
      rho0 := hrho0, rho := hrho, init := hinit, max := hmaxpos, shr := hshr, mag := hmag, small := hsmall, min0 := hmin, gap := hgap }
  obtain ⟨s, h1, h2, h3, h4, h5⟩ := TRRun.C101_tr_converges hS N i j hN hj hi hshr1 (by omega)
  obtain ⟨hr, _⟩ := TRRun.finished_at_test hS _ _ _ TRRun.Reaches.init h1
  obtain ⟨hflag, hreach⟩ := TRRun.stopAt_sim (E := p.env) hdel hs0 hs hmin hr
  have hg : ‖p.g s.x1‖ < del := hflag.mp h2
  have hfs : p.f s.x1 ≤ p.f p.x0 := by
    have e : s.f1 = p.f s.x1 := h4
    have h5' : s.f1 ≤ p.f p.x0 := h5
    linarith
  have hB : B s.x1 := hin _ hg hfs
  obtain ⟨_, hDel, _⟩ := TRRun.counts hS hr
  have hDpos : 0 < s.Delta := lt_of_lt_of_le hS.least_pos hDel
  have hmu := SB.mupos
  have hrhomu : 0 ≤ rho / mu := div_nonneg ((norm_nonneg _).trans (SB.small _ hB)) hmu.le
  set s' : TRRun.St ℝ X := { s with isstop := decide (p.env.ngf s.x1 < thr) } with hs'
  obtain ⟨t, a1, a2, a3, a4, a5⟩ := C120_fast (thr := thr) SB S.min0 S.kappa S.inner hdim ht0 ht1 hrho1 hthr hs C (by linarith) hmin hgap hmag hmaxpos
    (by rw [one_mul]; exact pow_lt_pow_left₀ hmaxD hrhomu (by norm_num)) k hkk J (s := s') hreach hB (decide_eq_true_iff) hDpos
    (by
      rw [one_mul]
      refine pow_lt_pow_left₀ (lt_of_lt_of_le hJ ?_) hrhomu (by norm_num)
      exact mul_le_mul_of_nonneg_right hDel (pow_nonneg (by linarith) _)) (by show s.iter + _ ≤ _; omega)
  have hit : s'.iter = s.iter := rfl
  refine ⟨t, ?_, a2, by omega, a4, a5.trans hfs⟩
  have hl := TRRun.loop_from hreach (J * (k + 1) + k + 1)
  rw [a1] at hl
  exact TRRun.loop_mono _ _ _ (by show s'.iter + _ ≤ _; omega) hl

/-- The numbers of iterations in `C126_global_then_fast` exist as soon as shrinking shrinks, magnifying magnifies and `A rho < 1`; the first three do not depend on the final accuracy `thr`. -/
theorem C126_numbers_exist {C : TRRun.Cfg ℝ} {f0 fmin bnd gam del mu beta rho theta : ℝ} (hb : 0 < bnd) (hgam : 0 < gam) (hdel : 0 < del)
    (hinit : 0 < C.initialDelta) (hmaxpos : 0 < C.maximumDelta) (hshr : 0 < C.shrinked) (hshr1 : C.shrinked < 1) (hmag : 1 < C.magnified)
    (hbeta : 0 ≤ beta) (hmu : 0 < mu) (hrho : 0 ≤ rho) (ht : 0 < theta) (hA : rateConst beta mu theta * rho < 1) :
    ∃ N i j J : ℕ, f0 - fmin < N * TRRun.trGain C (1 / 2) bnd gam del ∧ C.magnified * C.shrinked ^ j ≤ 1 ∧
      C.initialDelta * C.shrinked ^ i < TRRun.leastRadius C (1 / 2) bnd gam del ∧ rho / mu < TRRun.leastRadius C (1 / 2) bnd gam del * C.magnified ^ J ∧
      ∀ thr, 0 < thr → ∃ k : ℕ, (rateConst beta mu theta * rho) ^ ((1 + theta) ^ k) < rateConst beta mu theta * thr := by
  have hgood : 0 < TRRun.goodRadius (1 / 2) bnd gam del := by
    unfold TRRun.goodRadius; exact lt_min (by positivity) (by positivity)
  have hleast : 0 < TRRun.leastRadius C (1 / 2) bnd gam del := lt_min (lt_min hinit hmaxpos) (mul_pos hshr hgood)
  have hgain : 0 < TRRun.trGain C (1 / 2) bnd gam del := by
    have : 0 < min (TRRun.leastRadius C (1 / 2) bnd gam del) (del / bnd) := lt_min hleast (by positivity)
    unfold TRRun.trGain
    positivity
  obtain ⟨N, hN⟩ := exists_nat_gt ((f0 - fmin) / TRRun.trGain C (1 / 2) bnd gam del)
  rw [div_lt_iff₀ hgain] at hN
  obtain ⟨i, hi⟩ := exists_pow_lt_of_lt_one (div_pos hleast hinit) hshr1
  rw [lt_div_iff₀ hinit] at hi
  have hm0 : 0 < C.magnified := by linarith
  obtain ⟨j, hj⟩ := exists_pow_lt_of_lt_one (div_pos one_pos hm0) hshr1
  rw [lt_div_iff₀ hm0] at hj
  obtain ⟨J, hJ⟩ := pow_unbounded_of_one_lt (rho / mu / TRRun.leastRadius C (1 / 2) bnd gam del) hmag
  rw [div_lt_iff₀ hleast] at hJ
  have hApos : 0 < rateConst beta mu theta := Real.rpow_pos_of_pos (by positivity) _
  exact ⟨N, i, j, J, hN, by linarith, by linarith, by linarith, fun thr hthr => C120_steps_exist hApos hrho hA ht hthr⟩

/-! ### A concrete case: `f(x) = x²` on the line from 3, with a Hessian operator that is wrong outside the unit interval -/

/-- The objective `x²`; the Hessian operator is 2 in the unit interval and 3 outside. -/
noncomputable def kinkProb (thr : ℝ) : Prob ℝ (fun _ => ℝ) where
  f x := x ^ 2
  g x := 2 * x
  H x := (if |x| ≤ 1 then (2 : ℝ) else 3) • LinearMap.id
  P _ := LinearMap.id
  retr x v := x + v
  x0 := 3
  theta := 1
  kappa := 1 / 10
  minInner := 0
  maxInner := 5
  stopped0 := decide (‖(2 * 3 : ℝ)‖ < thr)
  stopped _ _ y := decide (‖(2 * y : ℝ)‖ < thr)

theorem kink_setting (thr : ℝ) : NewtonSetting (kinkProb thr) 3 1 where
  sym x u v := by
    simp only [kinkProb, LinearMap.smul_apply, LinearMap.id_apply, real_inner_smul_left, real_inner_smul_right]
  bounded x v := by
    simp only [kinkProb, LinearMap.smul_apply, LinearMap.id_apply, real_inner_smul_right]
    rw [real_inner_self_eq_norm_sq]
    refine mul_le_mul_of_nonneg_right ?_ (by positivity)
    by_cases h : |x| ≤ 1
    · rw [if_pos h]; norm_num
    · rw [if_neg h]
  noPrec _ := rfl
  taylor x v := by
    by_cases h : |x| ≤ 1
    · have : (kinkProb thr).f ((kinkProb thr).retr x v) - (kinkProb thr).f x - (⟪v, (kinkProb thr).g x⟫ + 1 / 2 * ⟪v, (kinkProb thr).H x v⟫) = 0 := by
        simp only [kinkProb, LinearMap.smul_apply, LinearMap.id_apply, smul_eq_mul, RCLike.inner_apply, conj_trivial]
        rw [if_pos h]; ring
      rw [this, abs_zero]; positivity
    · have : (kinkProb thr).f ((kinkProb thr).retr x v) - (kinkProb thr).f x - (⟪v, (kinkProb thr).g x⟫ + 1 / 2 * ⟪v, (kinkProb thr).H x v⟫) = -(v ^ 2 / 2) := by
        simp only [kinkProb, LinearMap.smul_apply, LinearMap.id_apply, smul_eq_mul, RCLike.inner_apply, conj_trivial]
        rw [if_neg h]; ring
      rw [this, abs_neg, abs_of_nonneg (by positivity), Real.norm_eq_abs, sq_abs]
      nlinarith [sq_nonneg v]
  inner := by norm_num [kinkProb]
  min0 := rfl
  kappa := by norm_num [kinkProb]

theorem kink_basin (thr : ℝ) : Basin (kinkProb thr) (fun _ => LinearMap.id) (fun x => |x| ≤ 1 / 4) 2 1 0 0 (1 / 2) where
  sym x _ := (kink_setting thr).sym x
  spd x _ := id_spd _
  inv x _ := ⟨fun _ => rfl, fun _ => rfl⟩
  convex x hx v := by
    simp only [kinkProb, LinearMap.smul_apply, LinearMap.id_apply, real_inner_smul_right, real_inner_self_eq_norm_sq]
    rw [if_pos (by linarith)]
  prec x _ v := by simp only [LinearMap.id_apply, real_inner_self_eq_norm_sq, one_mul, le_refl]
  small x hx := by
    simp only [kinkProb, Real.norm_eq_abs, abs_mul]
    rw [abs_of_pos (by norm_num : (0 : ℝ) < 2)]
    linarith
  taylor x hx v hv := by
    have : (kinkProb thr).f ((kinkProb thr).retr x v) - (kinkProb thr).f x - (⟪v, (kinkProb thr).g x⟫ + 1 / 2 * ⟪v, (kinkProb thr).H x v⟫) = 0 := by
      simp only [kinkProb, LinearMap.smul_apply, LinearMap.id_apply, smul_eq_mul, RCLike.inner_apply, conj_trivial]
      rw [if_pos (by linarith)]; ring
    rw [this]; simp
  grad x hx v hv := by
    simp only [kinkProb, LinearMap.smul_apply, LinearMap.id_apply, smul_eq_mul, zero_mul, add_zero]
    rw [if_pos (by linarith), mul_add]
  stay x hx v _ hf := by
    simp only [kinkProb] at hf ⊢
    exact (sq_lt_sq.mp hf).le.trans hx
  mupos := by norm_num
  mpos := by norm_num
  gam0 := le_refl _
  beta0 := le_refl _
  fit := by norm_num

/-- C126 applied: a number `n` of iterations suffices for the far part, whatever the final accuracy. -/
example : ∃ n J : ℕ, ∀ thr : ℝ, 0 < thr → thr ≤ 1 / 2 → ∃ (C : TRRun.Cfg ℝ) (k : ℕ) (t : TRRun.St ℝ ℝ), TRRun.run C (kinkProb thr).env (C.maxIter + 1) = .finished t ∧
    ‖(2 * t.x1 : ℝ)‖ < thr ∧ t.iter ≤ n + (J * (k + 1) + k) ∧ (1 / 2 : ℝ) ^ ((1 + 1 : ℝ) ^ k) < thr := by
  have hA : rateConst 0 2 1 = 1 := by unfold rateConst; norm_num
  let C : ℕ → TRRun.Cfg ℝ := fun n =>
    { maxIter := n, minIter := 0, outputGap := 1, record := true, initialDelta := 1, maximumDelta := 1000, minimumDelta := 0
      magnified := 2, shrinked := 1 / 4, acceptRho := 1 / 10, accuracy := 0, tolerance := 1 / 1000, sqeps := 1 / 10 ^ 8 }
  obtain ⟨N, i, j, J, h1, h2, h3, h4, h5⟩ := C126_numbers_exist (C := C 0) (f0 := 9) (fmin := 0) (bnd := 3) (gam := 1) (del := 1 / 2) (mu := 2) (beta := 0) (rho := 1 / 2) (theta := 1)
    (by norm_num) (by norm_num) (by norm_num) (by norm_num [C]) (by norm_num [C]) (by norm_num [C]) (by norm_num [C]) (by norm_num [C]) le_rfl (by norm_num) (by norm_num) (by norm_num)
    (by rw [hA]; norm_num)
  refine ⟨(1 + j) * N + i, J, fun thr hthr hle => ?_⟩
  obtain ⟨k, hk⟩ := h5 thr hthr
  have hgood : 0 < TRRun.goodRadius (1 / 2) 3 1 (1 / 2) := by unfold TRRun.goodRadius; norm_num
  obtain ⟨t, a1, a2, a3, _⟩ := C126_global_then_fast (kinkProb thr) (C ((1 + j) * N + i + (J * (k + 1) + k))) (fmin := 0) (del := 1 / 2) (thr := thr) (kink_setting thr) (kink_basin thr)
    (fun x hx _ => by
      simp only [kinkProb, Real.norm_eq_abs, abs_mul] at hx
      rw [abs_of_pos (by norm_num : (0 : ℝ) < 2)] at hx
      show |x| ≤ 1 / 4
      linarith)
    (fun x => sq_nonneg x) (by norm_num) (by norm_num) hthr hle (by simp [kinkProb]) (fun k x y => by simp [kinkProb]) (fun x => by simp [kinkProb]) (by norm_num [kinkProb]) (by norm_num [kinkProb])
    (by norm_num) (by simp [C]) (by norm_num [C]) (by norm_num [C]) (by norm_num [C]) (by norm_num [C]) (by norm_num [C]) (by norm_num [C]) (by norm_num [C]) (by norm_num [C]) (by norm_num [C])
    (by show (0 : ℝ) ≤ 1 / 4 * _; positivity) rfl (by norm_num [C]) N i j (by have : (kinkProb thr).f (kinkProb thr).x0 = 9 := by norm_num [kinkProb]
                                                                              rw [this]; exact h1) h2 h3 k J hk h4 le_rfl
  refine ⟨_, k, t, a1, a2, a3, ?_⟩
  rw [hA] at hk
  simpa using hk

end Verif.TR
