import Verif.Solver.ProxGrad
import Mathlib.Algebra.Order.Archimedean.Basic
import Mathlib.Algebra.Order.Ring.Pow
import Mathlib.Tactic.Ring
import Mathlib.Tactic.NormNum

/-!
# C30, C31, C54: proximal-gradient solvers
-/

set_option linter.unusedSectionVars false
set_option linter.unusedVariables false

namespace Verif.PG

variable {K X Y : Type} [Field K] [LinearOrder K] [IsStrictOrderedRing K]

/-! ## C54: the line search -/

/-- **C54.** A successful search satisfies the sufficient-decrease inequality at its final step, the stored point and value belong to that
step, and the step is the initial one or at least `Minstepsize`. -/
theorem C54_success (C : LSCfg K) (phi : K → K) (f1 slope : K) :
    ∀ (n : Nat) (t : K) (r : LSRes K), armijo C phi f1 slope n t = some r → r.ok = true →
      -C.alpha * slope * r.step ≤ f1 - phi r.step ∧ r.trial = r.step ∧ (r.step = t ∨ C.minStep ≤ r.step) := by
  intro n
  induction n with
  | zero => intro t r h; simp [armijo] at h
  | succ n ih =>
    intro t r h hok
    simp only [armijo] at h
    split at h
    · split at h
      · simp only [Option.some.injEq] at h
        subst h
        simp at hok
      · rename_i hge
        obtain ⟨h1, h2, h3⟩ := ih _ _ h hok
        refine ⟨h1, h2, Or.inr ?_⟩
        rcases h3 with h3 | h3
        · rw [h3]; exact not_lt.mp hge
        · exact h3
    · rename_i hn
      simp only [Option.some.injEq] at h
      subst h
      exact ⟨not_lt.mp hn, rfl, Or.inl rfl⟩

/-- **C54 (failure).** A failed search ends with a step below `Minstepsize`, and its last trial violates the inequality. -/
theorem C54_failure (C : LSCfg K) (phi : K → K) (f1 slope : K) :
    ∀ (n : Nat) (t : K) (r : LSRes K), armijo C phi f1 slope n t = some r → r.ok = false →
      r.step < C.minStep ∧ f1 - phi r.trial < -C.alpha * slope * r.trial := by
  intro n
  induction n with
  | zero => intro t r h; simp [armijo] at h
  | succ n ih =>
    intro t r h hok
    simp only [armijo] at h
    split at h
    · rename_i hv
      split at h
      · rename_i hlt
        simp only [Option.some.injEq] at h
        subst h
        exact ⟨hlt, hv⟩
      · exact ih _ _ h hok
    · simp only [Option.some.injEq] at h
      subst h
      simp at hok

/-- **C54 (termination).** The search makes at most `n + 1` trials when `t * ratio^(n+1) < Minstepsize`. -/
theorem C54_terminates_within (C : LSCfg K) (phi : K → K) (f1 slope : K) :
    ∀ (n : Nat) (t : K), t * C.ratio ^ (n + 1) < C.minStep → ∃ r, armijo C phi f1 slope (n + 1) t = some r := by
  intro n
  induction n with
  | zero =>
    intro t h
    simp only [armijo]
    split
    · rw [if_pos (by simpa using h)]
      exact ⟨_, rfl⟩
    · exact ⟨_, rfl⟩
  | succ n ih =>
    intro t h
    rw [armijo]
    split
    · simp only []
      split
      · exact ⟨_, rfl⟩
      · exact ih _ (by rw [mul_assoc, ← pow_succ']; exact h)
    · exact ⟨_, rfl⟩

/-- **C54 (termination).** For `0 < LS_ratio < 1` and `Minstepsize > 0` the search ends, whatever the objective. -/
theorem C54_terminates [Archimedean K] (C : LSCfg K) (h0 : 0 ≤ C.ratio) (h1 : C.ratio < 1) (hm : 0 < C.minStep) :
    ∃ n, ∀ (phi : K → K) (f1 slope : K), ∃ r, armijo C phi f1 slope n 1 = some r := by
  obtain ⟨n, hn⟩ := exists_pow_lt_of_lt_one hm h1
  refine ⟨n + 1, fun phi f1 slope => C54_terminates_within C phi f1 slope n 1 ?_⟩
  rw [one_mul, pow_succ]
  calc C.ratio ^ n * C.ratio ≤ C.ratio ^ n * 1 := mul_le_mul_of_nonneg_left h1.le (pow_nonneg h0 n)
    _ < C.minStep := by rw [mul_one]; exact hn

theorem armijo_step_nonneg (C : LSCfg K) (h0 : 0 ≤ C.ratio) (phi : K → K) (f1 slope : K) :
    ∀ (n : Nat) (t : K) (r : LSRes K), 0 ≤ t → armijo C phi f1 slope n t = some r → 0 ≤ r.step := by
  intro n
  induction n with
  | zero => intro t r _ h; simp [armijo] at h
  | succ n ih =>
    intro t r ht h
    simp only [armijo] at h
    split at h
    · split at h
      · simp only [Option.some.injEq] at h
        subst h
        exact mul_nonneg ht h0
      · exact ih _ _ (mul_nonneg ht h0) h
    · simp only [Option.some.injEq] at h
      subst h
      exact ht

/-- **C54 (no increase, partial).** If the smooth gradient does not point against the direction (`initialslope <= 0`), a successful search does
not increase the objective. For a positive slope, which the code does not exclude, see `C54_success_with_increase`. -/
theorem C54_no_increase_partial (C : LSCfg K) (ha : 0 ≤ C.alpha) (h0 : 0 ≤ C.ratio) (phi : K → K) (f1 slope : K)
    (hs : slope ≤ 0) (n : Nat) (t : K) (ht : 0 ≤ t) (r : LSRes K) (h : armijo C phi f1 slope n t = some r)
    (hok : r.ok = true) : phi r.step ≤ f1 := by
  have h1 := (C54_success C phi f1 slope n t r h hok).1
  have h2 := armijo_step_nonneg C h0 phi f1 slope n t r ht h
  have : 0 ≤ -C.alpha * slope * r.step := by
    apply mul_nonneg _ h2
    nlinarith
  linarith

/-- **C54 (finding).** The decrease test uses the slope of the smooth part only. Whenever it is positive, every objective that grows more
slowly than `LS_alpha * slope * t` is accepted at once, although it increases. -/
theorem C54_success_with_increase (C : LSCfg K) (phi : K → K) (f1 slope : K) (n : Nat)
    (hup : f1 < phi 1) (hle : phi 1 ≤ f1 + C.alpha * slope) :
    armijo C phi f1 slope (n + 1) 1 = some ⟨true, 1, 1⟩ ∧ f1 < phi 1 := by
  refine ⟨?_, hup⟩
  simp only [armijo]
  rw [if_neg]
  push Not
  linarith

/-- Default parameters (`SolversNSMPGLS.cpp:23-25`) and concrete cases for the theorems above. -/
def exLS : LSCfg ℚ := ⟨1 / 10000, 1 / 2, 1 / 50⟩

example : armijo exLS (fun t => 4 * t * t - t) 0 (-1) 7 1 = some ⟨true, 1 / 8, 1 / 8⟩ := by decide +kernel
example : armijo exLS (fun t => t) 0 (-1) 7 1 = some ⟨false, 1 / 64, 1 / 32⟩ := by decide +kernel
example : armijo exLS (fun t => t / 20000) 0 1 7 1 = some ⟨true, 1, 1⟩ := by decide +kernel

/-! ## C30: termination of the proximal-gradient run -/

/-- Loop-head states of `ManPG::Run`. -/
inductive Reaches (C : Cfg K) (E : Env K X) (lsFuel : Nat) : St K X → Prop
  | init : Reaches C E lsFuel (St.init C E)
  | step {s s'} : Reaches C E lsFuel s → s.continues C = true → pass C E lsFuel s = .next s' → Reaches C E lsFuel s'

theorem record_next {C : Cfg K} {iter : Nat} {σ : Type} {s s' : σ} (h : record C iter s = .next s') : s' = s := by
  unfold record at h
  split at h
  · split at h
    · simp at h
    · split at h
      · simp at h
      · simp only [Pass.next.injEq] at h; exact h.symm
  · simp only [Pass.next.injEq] at h; exact h.symm

theorem record_ok {C : Cfg K} {iter : Nat} {σ : Type} {s : σ} (hg : C.outputGap ≠ 0) (hi : iter ≤ C.maxIter) :
    record C iter s = .next s := by
  unfold record
  by_cases hr : C.record = true
  · rw [if_pos hr, if_neg hg, if_neg (by omega)]
  · rw [if_neg hr]

/-- A continuing pass either refines the accuracies or makes an iteration. -/
theorem pass_next {C : Cfg K} {E : Env K X} {lsFuel : Nat} {s s' : St K X} (h : pass C E lsFuel s = .next s') :
    (s' = { s with tol := refineTol C s.tol, lam := refineLam C s.lam, refs := s.refs + 1 } ∧
      ¬ (s.lam = C.cLam ∧ s.tol = C.cTol)) ∨
    (∃ r : LSRes K, armijo C.toLSCfg (E.phi s.iter s.x1 s.tol s.lam) s.f1 (E.slope s.iter s.x1 s.tol s.lam) lsFuel 1 = some r ∧
      r.ok = true ∧
      s'.iter = s.iter + 1 ∧ s'.x1 = E.path s.iter s.x1 s.tol s.lam r.trial ∧ s'.f1 = E.f s'.x1 ∧
      s'.tol = s.tol ∧ s'.lam = s.lam ∧ s'.refs = s.refs ∧ s'.xs = s'.x1 :: s.xs ∧
      s'.isstop = E.stopped (s.iter + 1) s.x1 s'.x1) := by
  unfold pass at h
  split at h
  · simp at h
  · rename_i r hr
    simp only [] at h
    split at h
    · split at h
      · simp at h
      · rename_i hne
        simp only [Pass.next.injEq] at h
        exact Or.inl ⟨h.symm, hne⟩
    · rename_i hok
      split at h
      · simp at h
      · have := record_next h
        subst this
        exact Or.inr ⟨r, hr, by simpa using hok, rfl, rfl, rfl, rfl, rfl, rfl, rfl, rfl⟩

/-- Closed form of the accuracies after `n` refinements. -/
def tolAt (C : Cfg K) (n : Nat) : K := if n = 0 then C.tol0 else max (C.tol0 * (1 / 100) ^ n) C.fTol
def lamAt (C : Cfg K) (n : Nat) : K := if n = 0 then C.lam0 else max (C.lam0 * (1 / 10) ^ n) C.fLam

theorem refine_closed {q : K} (hq0 : 0 ≤ q) (hq1 : q ≤ 1) {a fl : K} (hf : 0 ≤ fl) (n : Nat) :
    let at' : Nat → K := fun n => if n = 0 then a else max (a * q ^ n) fl
    (if fl < at' n * q then at' n * q else fl) = at' (n + 1) := by
  intro at'
  have e : at' (n + 1) = max (a * q ^ (n + 1)) fl := by simp [at']
  have emax : ∀ x : K, (if fl < x then x else fl) = max x fl := by
    intro x
    split
    · rename_i h; exact (max_eq_left h.le).symm
    · rename_i h; exact (max_eq_right (not_lt.mp h)).symm
  rw [emax, e]
  by_cases hn : n = 0
  · subst hn
    simp [at']
  · have e2 : at' n = max (a * q ^ n) fl := by simp [at', hn]
    rw [e2, max_mul_of_nonneg _ _ hq0, max_assoc, max_eq_right (mul_le_of_le_one_right hf hq1), pow_succ, mul_assoc]

theorem reaches_inv {C : Cfg K} {E : Env K X} {lsFuel : Nat} {s : St K X} (h : Reaches C E lsFuel s)
    (hft : 0 ≤ C.fTol) (hfl : 0 ≤ C.fLam) :
    s.tol = tolAt C s.refs ∧ s.lam = lamAt C s.refs ∧ s.f1 = E.f s.x1 ∧ s.xs.head? = some s.x1 := by
  induction h with
  | init => simp [St.init, tolAt, lamAt]
  | step _ _ hp ih =>
    rcases pass_next hp with ⟨rfl, _⟩ | ⟨r, _, _, h1, h2, h3, h4, h5, h6, h7, _⟩
    · obtain ⟨i1, i2, i3, i4⟩ := ih
      refine ⟨?_, ?_, i3, i4⟩
      · show refineTol C _ = tolAt C (_ + 1)
        rw [i1]
        exact refine_closed (by norm_num) (by norm_num) hft _
      · show refineLam C _ = lamAt C (_ + 1)
        rw [i2]
        exact refine_closed (by norm_num) (by norm_num) hfl _
    · rw [h4, h5, h6, h3, h7]
      exact ⟨ih.1, ih.2.1, rfl, rfl⟩

theorem at_floor {C : Cfg K} (hft : 0 ≤ C.fTol) (hfl : 0 ≤ C.fLam) {N : Nat} (hN : 1 ≤ N)
    (ht : C.tol0 * (1 / 100) ^ N ≤ C.fTol) (hl : C.lam0 * (1 / 10) ^ N ≤ C.fLam) {n : Nat} (hn : N ≤ n) :
    tolAt C n = C.fTol ∧ lamAt C n = C.fLam := by
  have gen : ∀ (a fl q : K), 0 ≤ q → q ≤ 1 → 0 ≤ fl → a * q ^ N ≤ fl → max (a * q ^ n) fl = fl := by
    intro a fl q hq0 hq1 hf h
    apply max_eq_right
    obtain ⟨k, rfl⟩ := Nat.exists_eq_add_of_le hn
    rw [pow_add, ← mul_assoc]
    calc a * q ^ N * q ^ k ≤ fl * q ^ k := mul_le_mul_of_nonneg_right h (pow_nonneg hq0 k)
      _ ≤ fl * 1 := mul_le_mul_of_nonneg_left (pow_le_one₀ hq0 hq1) hf
      _ = fl := mul_one _
  unfold tolAt lamAt
  rw [if_neg (by omega), if_neg (by omega)]
  exact ⟨gen _ _ _ (by norm_num) (by norm_num) hft ht, gen _ _ _ (by norm_num) (by norm_num) hfl hl⟩

/-- The precondition of the termination theorems: `N` refinements bring both accuracies to their floors. -/
structure Floors (C : Cfg K) (N : Nat) : Prop where
  one : 1 ≤ N
  tolNonneg : 0 ≤ C.fTol
  lamNonneg : 0 ≤ C.fLam
  tol : C.tol0 * (1 / 100) ^ N ≤ C.fTol
  lam : C.lam0 * (1 / 10) ^ N ≤ C.fLam
  cTol : C.cTol = C.fTol
  cLam : C.cLam = C.fLam

theorem refs_le {C : Cfg K} {E : Env K X} {lsFuel : Nat} {s : St K X} {N : Nat} (hF : Floors C N) (h : Reaches C E lsFuel s) :
    s.refs ≤ N := by
  induction h with
  | init => simp [St.init]
  | @step s0 s1 h0 _ hp ih =>
    rcases pass_next hp with ⟨rfl, hne⟩ | ⟨r, _, _, _, _, _, _, _, h6, _, _⟩
    · show s0.refs + 1 ≤ N
      rcases Nat.lt_or_ge s0.refs N with h | h
      · omega
      · exfalso
        obtain ⟨i1, i2, _, _⟩ := reaches_inv h0 hF.tolNonneg hF.lamNonneg
        obtain ⟨e1, e2⟩ := at_floor hF.tolNonneg hF.lamNonneg hF.one hF.tol hF.lam h
        apply hne
        rw [i1, i2, e1, e2, hF.cTol, hF.cLam]
        exact ⟨rfl, rfl⟩
    · rw [h6]; exact ih

theorem iter_le {C : Cfg K} {E : Env K X} {lsFuel : Nat} {s : St K X} (hm : C.minIter ≤ C.maxIter) (h : Reaches C E lsFuel s) :
    s.iter ≤ C.maxIter := by
  induction h with
  | init => simp [St.init]
  | @step s0 s1 h0 hc hp ih =>
    rcases pass_next hp with ⟨rfl, hne⟩ | ⟨r, _, _, h1, _⟩
    · exact ih
    · rw [h1]
      unfold St.continues at hc
      simp only [Bool.or_eq_true, Bool.and_eq_true, decide_eq_true_eq] at hc
      omega

theorem loop_finishes {C : Cfg K} {E : Env K X} {lsFuel N : Nat} (hm : C.minIter ≤ C.maxIter) (hg : C.outputGap ≠ 0)
    (hF : Floors C N)
    (hls : ∀ (phi : K → K) (f1 slope : K), ∃ r, armijo C.toLSCfg phi f1 slope lsFuel 1 = some r) :
    ∀ (n : Nat) (s : St K X), Reaches C E lsFuel s → C.maxIter + N + 1 ≤ n + s.iter + s.refs →
      ∃ s', loop C E lsFuel n s = .finished s' ∧ s'.iter ≤ C.maxIter ∧ s'.refs ≤ N := by
  intro n
  induction n with
  | zero =>
    intro s hs hn
    have h1 := iter_le hm hs
    have h2 := refs_le hF hs
    omega
  | succ n ih =>
    intro s hs hn
    have h1 := iter_le hm hs
    have h2 := refs_le hF hs
    simp only [loop]
    by_cases hc : s.continues C = true
    · rw [if_pos hc]
      have hlt : s.iter + 1 ≤ C.maxIter := by
        have := hc
        unfold St.continues at this
        simp only [Bool.or_eq_true, Bool.and_eq_true, decide_eq_true_eq] at this
        omega
      have hcases : (∃ s', pass C E lsFuel s = .next s' ∧ s'.iter + s'.refs = s.iter + s.refs + 1) ∨
          pass C E lsFuel s = .stop s := by
        obtain ⟨r, hr⟩ := hls (E.phi s.iter s.x1 s.tol s.lam) s.f1 (E.slope s.iter s.x1 s.tol s.lam)
        unfold pass
        rw [hr]
        simp only []
        split
        · split
          · exact Or.inr rfl
          · exact Or.inl ⟨_, rfl, by simp only []; omega⟩
        · split
          · exact Or.inr rfl
          · rw [record_ok hg hlt]
            exact Or.inl ⟨_, rfl, by simp only []; omega⟩
      rcases hcases with ⟨s', hp, hsum⟩ | hp
      · rw [hp]
        exact ih s' (Reaches.step hs hc hp) (by omega)
      · rw [hp]
        exact ⟨s, rfl, h1, h2⟩
    · rw [if_neg hc]
      exact ⟨s, rfl, h1, h2⟩

/-- **C30.** Every run of the proximal-gradient solver ends: at most `Max_Iteration` iterations and `N` refinements of the subproblem
accuracy are made, where `N` refinements bring the two accuracies to their floors; no history write is out of bounds. For all objectives,
subproblem solutions, retractions and stopping tests. -/
theorem C30_run_finishes [Archimedean K] {C : Cfg K} (hm : C.minIter ≤ C.maxIter) (hg : C.outputGap ≠ 0)
    {N : Nat} (hF : Floors C N) (h0 : 0 ≤ C.ratio) (h1 : C.ratio < 1) (hms : 0 < C.minStep) :
    ∃ lsFuel, ∀ (E : Env K X), ∃ s, run C E lsFuel (C.maxIter + N + 1) = .finished s ∧
      s.iter ≤ C.maxIter ∧ s.refs ≤ N := by
  obtain ⟨n, hn⟩ := C54_terminates C.toLSCfg h0 h1 hms
  exact ⟨n, fun E => loop_finishes hm hg hF hn _ _ Reaches.init (by simp [St.init])⟩

/-- **C30, the hypothesis on the iteration limits is needed**: whenever `Max_Iteration < Min_Iteration` and results are recorded, a run whose
searches all succeed with finite values writes outside its history arrays. -/
theorem C30_min_above_max_overruns {C : Cfg K} {E : Env K X} {lsFuel : Nat} (hmm : C.maxIter < C.minIter)
    (hrec : C.record = true) (hg : C.outputGap ≠ 0) (hfin : ∀ x, E.finite x = true)
    (hok : ∀ k x tol lam, ∃ r, armijo C.toLSCfg (E.phi k x tol lam) (E.f x) (E.slope k x tol lam) lsFuel 1 = some r ∧ r.ok = true) :
    run C E lsFuel (C.maxIter + 1) = .outOfBounds := by
  have main : ∀ n (s : St K X), s.f1 = E.f s.x1 → s.iter + n = C.maxIter → loop C E lsFuel (n + 1) s = .outOfBounds := by
    intro n
    induction n with
    | zero =>
      intro s hf hi
      obtain ⟨r, hr, hrok⟩ := hok s.iter s.x1 s.tol s.lam
      have hc : s.continues C = true := by unfold St.continues; simp; right; omega
      have hp : pass C E lsFuel s = .outOfBounds := by
        unfold pass
        rw [hf, hr]
        simp only [hrok, hfin, Bool.not_true, Bool.false_eq_true, if_false]
        unfold record
        rw [if_pos hrec, if_neg hg, if_pos (by omega)]
      simp only [loop]
      rw [if_pos hc, hp]
    | succ n ih =>
      intro s hf hi
      obtain ⟨r, hr, hrok⟩ := hok s.iter s.x1 s.tol s.lam
      have hc : s.continues C = true := by unfold St.continues; simp; right; omega
      rw [loop]
      rw [if_pos hc]
      unfold pass
      rw [hf, hr]
      simp only [hrok, hfin, Bool.not_true, Bool.false_eq_true, if_false]
      rw [record_ok hg (by omega)]
      exact ih _ rfl (by simp only []; omega)
  exact main _ _ rfl (by simp [St.init])

/-- The number of refinements in `C30_run_finishes` exists for all positive floors. -/
theorem C30_floors_exist [Archimedean K] (C : Cfg K) (ht : 0 < C.fTol) (hl : 0 < C.fLam) (h0 : 0 ≤ C.tol0) (h1 : 0 ≤ C.lam0)
    (hct : C.cTol = C.fTol) (hcl : C.cLam = C.fLam) : ∃ N, Floors C N := by
  have gen : ∀ (a fl q : K), 0 ≤ a → 0 ≤ q → q < 1 → 0 < fl → ∃ n, ∀ m, n ≤ m → a * q ^ m ≤ fl := by
    intro a fl q ha hq0 hq1 hf
    obtain ⟨n, hn⟩ := exists_pow_lt_of_lt_one (div_pos hf (by linarith : (0 : K) < a + 1)) hq1
    refine ⟨n, fun m hm => ?_⟩
    have h1 : q ^ m ≤ q ^ n := pow_le_pow_of_le_one hq0 hq1.le hm
    have h2 : q ^ m * (a + 1) ≤ fl := by
      rw [← le_div_iff₀ (by linarith : (0 : K) < a + 1)]
      exact le_trans h1 hn.le
    have h3 := pow_nonneg hq0 m
    nlinarith
  obtain ⟨n1, hn1⟩ := gen C.tol0 C.fTol (1 / 100) h0 (by norm_num) (by norm_num) ht
  obtain ⟨n2, hn2⟩ := gen C.lam0 C.fLam (1 / 10) h1 (by norm_num) (by norm_num) hl
  exact ⟨n1 + n2 + 1, ⟨by omega, ht.le, hl.le, hn1 _ (by omega), hn2 _ (by omega), hct, hcl⟩⟩

/-- **C30 (no increase, partial).** If the slopes handed to the line searches are never positive, the objective does not increase along the
iterates. Missing: positive slopes, for which the claim is false (`C54_success_with_increase`). -/
theorem C30_iterates_decrease_partial {C : Cfg K} {E : Env K X} {lsFuel : Nat} {s : St K X} (h : Reaches C E lsFuel s)
    (hft : 0 ≤ C.fTol) (hfl : 0 ≤ C.fLam) (ha : 0 ≤ C.alpha) (h0 : 0 ≤ C.ratio)
    (hs : ∀ k x tol lam, E.slope k x tol lam ≤ 0) :
    s.xs.Pairwise (fun new old => E.f new ≤ E.f old) := by
  induction h with
  | init => simp [St.init]
  | @step s0 s1 h0' hc hp ih =>
    obtain ⟨_, _, b1, b2⟩ := reaches_inv h0' hft hfl
    rcases pass_next hp with ⟨rfl, _⟩ | ⟨r, hr, hok, _, h2, h3, _, _, _, h7, _⟩
    · exact ih
    · have hdec := C54_no_increase_partial C.toLSCfg ha h0 _ _ _ (hs _ _ _ _) lsFuel 1 zero_le_one r hr hok
      have htr := (C54_success C.toLSCfg _ _ _ lsFuel 1 r hr hok).2.1
      rw [← htr] at hdec
      have hdec' : E.f s1.x1 ≤ E.f s0.x1 := by
        rw [h2, ← b1]; exact hdec
      rw [h7]
      refine List.pairwise_cons.mpr ⟨?_, ih⟩
      match hxs : s0.xs with
      | [] => simp
      | y :: ys =>
        rw [hxs] at b2 ih
        simp only [List.head?_cons, Option.some.injEq] at b2
        subst b2
        intro x hx
        rcases List.mem_cons.mp hx with hx | hx
        · rw [hx]; exact hdec'
        · exact le_trans hdec' ((List.pairwise_cons.mp ih).1 x hx)

/-- A concrete configuration: default floors, all searches fail (the objective grows along every curve). -/
def exCfg : Cfg ℚ :=
  { alpha := 1 / 10000, ratio := 1 / 2, minStep := 1 / 50, maxIter := 3, minIter := 0, outputGap := 1, record := true
    tol0 := 1 / 10 ^ 10, lam0 := 1 / 5, fTol := 1 / 10 ^ 24, fLam := 1 / 10 ^ 10, cTol := 1 / 10 ^ 24
    cLam := 1 / 10 ^ 10, gap := 5 }

example : Floors exCfg 10 := by
  constructor <;> norm_num [exCfg]

/-! ## C30 in single precision -/

/-- A failed search for every objective value: the curve leads strictly upward and the slope is negative. -/
def AlwaysFails (C : Cfg K) (E : Env K X) (lsFuel : Nat) : Prop :=
  ∀ tol lam : K, ∃ r : LSRes K,
    armijo C.toLSCfg (E.phi 0 E.x0 tol lam) (E.f E.x0) (E.slope 0 E.x0 tol lam) lsFuel 1 = some r ∧ r.ok = false

theorem livelock_aux {C : Cfg K} {E : AEnv K X Y} {lsFuel : Nat} (hgap : C.gap ≠ 0) (hmax : 0 < C.maxIter)
    (h0 : E.stopped0 = false) (hfail : AlwaysFails C E.toEnv lsFuel)
    (hne : ∀ n, ¬ (lamAt C n = C.cLam ∧ tolAt C n = C.cTol)) (hft : 0 ≤ C.fTol) (hfl : 0 ≤ C.fLam) :
    ∀ (n : Nat) (s : ASt K X Y), s.iter = 0 → s.isstop = false → s.x1 = E.x0 → s.f1 = E.f E.x0 →
      s.tol = tolAt C s.refs → s.lam = lamAt C s.refs → aloop C E lsFuel n s = .running := by
  intro n
  induction n with
  | zero => intros; rfl
  | succ n ih =>
    intro s hi hst hx hf ht hl
    simp only [aloop]
    have hc : s.continues C = true := by
      unfold ASt.continues
      rw [hi, hst]
      simp [hmax]
    rw [if_pos hc]
    obtain ⟨r, hr, hok⟩ := hfail s.tol s.lam
    have hp : apass C E lsFuel s =
        .next { s with tol := refineTol C s.tol, lam := refineLam C s.lam, refs := s.refs + 1 } := by
      unfold apass
      rw [if_neg hgap, if_pos (by rw [hi]; exact Nat.zero_mod _), hi, hx, hf, hr]
      simp only [hok]
      simp only [Bool.not_false, if_true]
      rw [if_neg]
      rw [ht, hl]
      exact hne _
    rw [hp]
    simp only []
    refine ih _ hi hst hx hf ?_ ?_
    · show refineTol C s.tol = tolAt C (s.refs + 1)
      rw [ht]
      exact refine_closed (by norm_num) (by norm_num) hft _
    · show refineLam C s.lam = lamAt C (s.refs + 1)
      rw [hl]
      exact refine_closed (by norm_num) (by norm_num) hfl _

/-- **C30 (finding): the accelerated solver never ends in single precision.** When the constants stored as floors differ from those compared
with (`AManPG.cpp:151` compares with double literals; a single precision variable never equals them) a start at which every search fails makes the
solver refine for ever: the run is still going on after any number of passes, and `Max_Iteration` does not help. -/
theorem C30_accelerated_livelock {C : Cfg K} {E : AEnv K X Y} {lsFuel : Nat} (hgap : C.gap ≠ 0) (hmax : 0 < C.maxIter)
    (h0 : E.stopped0 = false) (hfail : AlwaysFails C E.toEnv lsFuel)
    (hne : ∀ n, ¬ (lamAt C n = C.cLam ∧ tolAt C n = C.cTol)) (hft : 0 ≤ C.fTol) (hfl : 0 ≤ C.fLam) (n : Nat) :
    arun C E lsFuel n = .running :=
  livelock_aux hgap hmax h0 hfail hne hft hfl n _ rfl h0 rfl rfl (by simp [ASt.init, tolAt]) (by simp [ASt.init, lamAt])

/-- The configuration of a single precision build: the stored floor `fLam` is the rounding of `10^-10`, here slightly larger. -/
def floatCfg : Cfg ℚ := { exCfg with fLam := 1 / 10 ^ 10 + 1 / 10 ^ 18 }

def upEnv : AEnv ℚ ℚ Unit :=
  { x0 := 0, f := fun x => x, finite := fun _ => true, slope := fun _ _ _ _ => -1, path := fun _ x _ _ t => x + t
    stopped := fun _ _ _ => false, stopped0 := false, restart := fun _ => (), zNext := fun _ z _ _ _ => z
    yNext := fun _ _ _ _ _ => () }

/-- The hypotheses of `C30_accelerated_livelock` can be met. -/
example (n : Nat) : arun floatCfg upEnv 7 n = .running := by
  refine C30_accelerated_livelock (by decide) (by decide) rfl ?_ ?_ (by norm_num [floatCfg, exCfg]) (by norm_num [floatCfg, exCfg]) n
  · intro tol lam
    exact ⟨⟨false, 1 / 64, 1 / 32⟩, by
      show armijo floatCfg.toLSCfg (fun t => (0 : ℚ) + t) 0 (-1) 7 1 = _
      decide +kernel, rfl⟩
  · rintro n ⟨h1, _⟩
    unfold lamAt at h1
    split at h1
    · norm_num [floatCfg, exCfg] at h1
    · have h2 : floatCfg.fLam ≤ max (floatCfg.lam0 * (1 / 10) ^ n) floatCfg.fLam := le_max_right _ _
      rw [h1] at h2
      norm_num [floatCfg, exCfg] at h2

/-! ## C31: the accelerated solver -/

inductive AReaches (C : Cfg K) (E : AEnv K X Y) (lsFuel : Nat) : ASt K X Y → Prop
  | init : AReaches C E lsFuel (ASt.init C E)
  | step {s s'} : AReaches C E lsFuel s → s.continues C = true → apass C E lsFuel s = .next s' → AReaches C E lsFuel s'

/-- Values of the state that a pass determines. -/
structure AKeeps (s s' : ASt K X Y) : Prop where
  x1 : s'.x1 = s.x1
  f1 : s'.f1 = s.f1
  xs : s'.xs = s.xs

theorem accel_next {C : Cfg K} {E : AEnv K X Y} {s s' : ASt K X Y} (h : accel C E s = .next s') :
    AKeeps s s' ∧ s'.iter = s.iter + 1 ∧ s'.fz2 = some (E.f s'.z1) ∧ s'.f2 = s.f2 ∧ s'.hist = s.f2 :: s.hist := by
  unfold accel at h
  have := record_next h
  subst this
  exact ⟨⟨rfl, rfl, rfl⟩, rfl, rfl, rfl, rfl⟩

theorem apass_next {C : Cfg K} {E : AEnv K X Y} {lsFuel : Nat} {s s' : ASt K X Y} (h : apass C E lsFuel s = .next s') :
    (s' = { s with tol := refineTol C s.tol, lam := refineLam C s.lam, refs := s.refs + 1 } ∧ s.iter % C.gap = 0) ∨
    (∃ r : LSRes K, armijo C.toLSCfg (E.phi s.iter s.x1 s.tol s.lam) s.f1 (E.slope s.iter s.x1 s.tol s.lam) lsFuel 1 = some r ∧
      r.ok = true ∧ s.iter % C.gap = 0 ∧
      accel C E (safeguard E s (E.path s.iter s.x1 s.tol s.lam r.trial)) = .next s') ∨
    (s.iter % C.gap ≠ 0 ∧ accel C E s = .next s') := by
  unfold apass at h
  split at h
  · simp at h
  · split at h
    · rename_i hmod
      split at h
      · simp at h
      · rename_i r hr
        simp only [] at h
        split at h
        · split at h
          · simp at h
          · simp only [Pass.next.injEq] at h
            exact Or.inl ⟨h.symm, hmod⟩
        · rename_i hok
          split at h
          · simp at h
          · exact Or.inr (Or.inl ⟨r, hr, by simpa using hok, hmod, h⟩)
    · rename_i hmod
      exact Or.inr (Or.inr ⟨hmod, h⟩)

/-- Bookkeeping of the accelerated run: the stored values belong to the stored points; at iteration 0 the three iterates coincide. -/
theorem areaches_inv {C : Cfg K} {E : AEnv K X Y} {lsFuel : Nat} {s : ASt K X Y} (h : AReaches C E lsFuel s) :
    s.f1 = E.f s.x1 ∧ s.xs.head? = some s.x1 ∧ (s.iter = 0 → s.z1 = s.x1 ∧ s.x1 = E.x0) ∧
      (s.iter ≠ 0 → s.fz2 = some (E.f s.z1)) := by
  induction h with
  | init => simp [ASt.init]
  | @step s0 s1 h0 hc hp ih =>
    obtain ⟨i1, i2, i3, i4⟩ := ih
    rcases apass_next hp with ⟨rfl, _⟩ | ⟨r, _, _, _, ha⟩ | ⟨_, ha⟩
    · exact ⟨i1, i2, i3, i4⟩
    · obtain ⟨⟨k1, k2, k3⟩, k4, k5, k6, k7⟩ := accel_next ha
      rw [k1, k2, k3, k4]
      exact ⟨rfl, rfl, fun h => absurd h (Nat.succ_ne_zero _), fun _ => k5⟩
    · obtain ⟨⟨k1, k2, k3⟩, k4, k5, k6, k7⟩ := accel_next ha
      rw [k1, k2, k3, k4]
      exact ⟨i1, i2, fun h => absurd h (Nat.succ_ne_zero _), fun _ => k5⟩

/-- The new safeguard iterate is at least as good as the candidate of the line search and as the accelerated iterate. -/
theorem safeguard_le {E : AEnv K X Y} {s : ASt K X Y} (x2 : X) (hi : s.iter ≠ 0) (hz : s.fz2 = some (E.f s.z1)) :
    E.f (safeguard E s x2).x1 ≤ E.f x2 ∧ E.f (safeguard E s x2).x1 ≤ E.f s.z1 := by
  unfold safeguard
  rw [hz]
  simp only []
  by_cases h : E.f x2 < E.f s.z1
  · simp [hi, h, h.le]
  · simp [hi, h, not_lt.mp h]

/-- **C31 (partial).** The safeguard iterates of the accelerated solver (the points returned to the user) never increase the objective, for all
accelerated steps, restarts, subproblem solutions and stopping tests, provided the slopes handed to the line search are never positive.
Missing: positive slopes, for which the line search itself may increase (`C54_success_with_increase`). -/
theorem C31_safeguard_decreases_partial {C : Cfg K} {E : AEnv K X Y} {lsFuel : Nat} {s : ASt K X Y} (h : AReaches C E lsFuel s)
    (ha : 0 ≤ C.alpha) (h0 : 0 ≤ C.ratio) (hs : ∀ k x tol lam, E.slope k x tol lam ≤ 0) :
    s.xs.Pairwise (fun new old => E.f new ≤ E.f old) := by
  induction h with
  | init => simp [ASt.init]
  | @step s0 s1 h0' hc hp ih =>
    obtain ⟨i1, i2, i3, i4⟩ := areaches_inv h0'
    rcases apass_next hp with ⟨rfl, _⟩ | ⟨r, hr, hok, _, hacc⟩ | ⟨_, hacc⟩
    · exact ih
    · obtain ⟨⟨k1, k2, k3⟩, k4, k5, k6, k7⟩ := accel_next hacc
      rw [k3]
      have hdec := C54_no_increase_partial C.toLSCfg ha h0 _ _ _ (hs _ _ _ _) lsFuel 1 zero_le_one r hr hok
      have htr := (C54_success C.toLSCfg _ _ _ lsFuel 1 r hr hok).2.1
      rw [← htr, i1] at hdec
      have hle : E.f (safeguard E s0 (E.path s0.iter s0.x1 s0.tol s0.lam r.trial)).x1 ≤ E.f s0.x1 := by
        by_cases hi : s0.iter = 0
        · have hz := (i3 hi).1
          have : (safeguard E s0 (E.path s0.iter s0.x1 s0.tol s0.lam r.trial)).x1 = s0.x1 := by
            unfold safeguard
            split <;> simp [hi, hz]
          rw [this]
        · exact le_trans (safeguard_le _ hi (i4 hi)).1 hdec
      show ((safeguard E s0 (E.path s0.iter s0.x1 s0.tol s0.lam r.trial)).x1 :: s0.xs).Pairwise _
      refine List.pairwise_cons.mpr ⟨?_, ih⟩
      match hxs : s0.xs with
      | [] => simp
      | y :: ys =>
        rw [hxs] at i2 ih
        simp only [List.head?_cons, Option.some.injEq] at i2
        subst i2
        intro x hx
        rcases List.mem_cons.mp hx with hx | hx
        · rw [hx]; exact hle
        · exact le_trans hle ((List.pairwise_cons.mp ih).1 x hx)
    · obtain ⟨⟨k1, k2, k3⟩, k4, k5, k6, k7⟩ := accel_next hacc
      rw [k3]; exact ih

/-- **C31 (finding): short accelerated runs return the starting point.** As long as at most `SGIterGap` iterations have been made the point and value
returned to the user are those of the initial iterate, whatever progress the accelerated iterates made. -/
theorem C31_short_runs_return_start {C : Cfg K} {E : AEnv K X Y} {lsFuel : Nat} {s : ASt K X Y} (h : AReaches C E lsFuel s)
    (hi : s.iter ≤ C.gap) : s.x1 = E.x0 ∧ s.f1 = E.f E.x0 := by
  have hx : s.x1 = E.x0 := by
    induction h with
    | init => rfl
    | @step s0 s1 h0' hc hp ih =>
      obtain ⟨i1, i2, i3, i4⟩ := areaches_inv h0'
      rcases apass_next hp with ⟨rfl, _⟩ | ⟨r, hr, hok, hmod, hacc⟩ | ⟨_, hacc⟩
      · exact ih hi
      · obtain ⟨⟨k1, k2, k3⟩, k4, k5, k6, k7⟩ := accel_next hacc
        rw [k1]
        have k4' : s1.iter = s0.iter + 1 := k4
        have hlt : s0.iter < C.gap := by omega
        have h0 : s0.iter = 0 := by rwa [Nat.mod_eq_of_lt hlt] at hmod
        have hz := i3 h0
        have : (safeguard E s0 (E.path s0.iter s0.x1 s0.tol s0.lam r.trial)).x1 = s0.z1 := by
          unfold safeguard
          split <;> simp [h0]
        rw [this, hz.1, hz.2]
      · obtain ⟨⟨k1, k2, k3⟩, k4, k5, k6, k7⟩ := accel_next hacc
        rw [k1]
        exact ih (by omega)
  exact ⟨hx, by rw [(areaches_inv h).1, hx]⟩

/-- An accelerated run in which the accelerated iterate improves at every iteration. -/
def downEnv : AEnv ℚ ℚ Unit :=
  { x0 := 10, f := fun x => x, finite := fun _ => true, slope := fun _ _ _ _ => -1, path := fun _ x _ _ t => x - t
    stopped := fun _ _ _ => false, stopped0 := false, restart := fun _ => (), zNext := fun _ z _ _ _ => z - 2
    yNext := fun _ _ _ _ _ => () }

def Outcome.state {σ : Type} : Outcome σ → Option σ
  | .finished s => some s
  | _ => none

/-- A concrete case: three iterations, the accelerated iterate went from 10 to 4, the returned point is 10; the recorded values are those of the line
search trial. -/
example : (arun exCfg downEnv 7 10).state.map (fun s => (s.iter, s.x1, s.z1, s.hist)) = some (3, 10, 4, [9, 9, 9, 10]) := by
  decide +kernel

/-- Longer run: the safeguard iterate is updated every `SGIterGap` iterations. -/
example : (arun { exCfg with maxIter := 6 } downEnv 7 10).state.map (fun s => (s.iter, s.x1, s.xs)) =
    some (6, 0, [0, 10, 10]) := by
  decide +kernel

end Verif.PG
