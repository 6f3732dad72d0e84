import Verif.Solver.Subgrad
import Mathlib.Algebra.Order.Archimedean.Basic
import Mathlib.Algebra.Order.Ring.Pow
import Mathlib.Tactic.Ring
import Mathlib.Tactic.NormNum

/-!
# C32, C60: subgradient solvers
-/

set_option linter.unusedSectionVars false
set_option linter.unusedVariables false

namespace Verif.Sub

variable {K : Type} [Field K] [LinearOrder K] [IsStrictOrderedRing K]

/-! ## C32: the outer loop -/

theorem livelock_aux {C : Cfg K} {E : Env K} {fuel k : Nat} {v : K} (hk : k < C.maxIter)
    (hs : ∀ Eps Del prev, E.search k Eps Del prev = some v) (hv : |v| ≤ C.tolerance) (hst : E.stop k v = false) :
    ∀ (n : Nat) (s : St K), s.iter = k → s.ok = true → s.isstop = false → loop C E fuel n s = .running := by
  intro n
  induction n with
  | zero => intros; rfl
  | succ n ih =>
    intro s hi hok hst'
    have hc : s.continues C = true := by
      unfold St.continues
      simp [hi, hk, hok, hst']
    have hp : pass C E fuel s = .running ∨
        ∃ s', pass C E fuel s = .next s' ∧ s'.iter = k ∧ s'.ok = true ∧ s'.isstop = false := by
      unfold pass
      rw [hi, hs]
      simp only []
      rw [if_pos (Or.inr hv)]
      split
      · exact Or.inr ⟨_, rfl, rfl, hok, hst⟩
      · split
        · exact Or.inl rfl
        · exact Or.inr ⟨_, rfl, rfl, hok, hst⟩
    simp only [loop]
    rw [if_pos hc]
    rcases hp with hp | ⟨s', hp, h1, h2, h3⟩
    · rw [hp]
    · rw [hp]
      exact ih s' h1 h2 h3

/-- **C32 is false (livelock).** If at some iterate the search direction is at most the tolerance and the selected stopping test does not hold
there (as with the relative-change test at iteration 0, or a user callback), the solver shrinks its sampling radius for ever: after any number of
passes the run is still going on and the iteration counter has not moved. `Max_Iteration` does not bound it. -/
theorem C32_livelock {C : Cfg K} {E : Env K} {fuel : Nat} {v : K} (hmax : 0 < C.maxIter)
    (hs : ∀ Eps Del prev, E.search 0 Eps Del prev = some v) (hv : |v| ≤ C.tolerance) (hst : E.stop 0 v = false) (n : Nat) :
    run C E fuel n = .running :=
  livelock_aux hmax hs hv hst n _ rfl rfl rfl

/-- **C32 (finding): `ndir1` is read uninitialised.** For the solvers using the base-class direction (RBFGSSub, LRBFGSSub), whenever the gradient at the
start has norm at most the initial `Del` (default 1), the very first pass reads the member `ndir1` before any assignment. -/
theorem C32_first_direction_uninitialised (C : Cfg K) (probe : Nat → K → K → Nat → Probe K) (stop : Nat → K → Bool)
    (ls : Nat → Bool) (hmax : 0 < C.maxIter) (hlen : 0 < C.lenW) (h : (probe 0 C.eps0 C.del0 0).nmin ≤ C.del0)
    (fuel n : Nat) : run C (sampledEnv C.lenW probe stop ls) fuel (n + 1) = .uninitialised := by
  unfold run
  simp only [loop]
  have hc : (St.init C).continues C = true := by
    unfold St.continues
    simp [St.init, hmax]
  rw [if_pos hc]
  obtain ⟨m, hm⟩ := Nat.exists_eq_succ_of_ne_zero hlen.ne'
  have hsd : (sampledEnv C.lenW probe stop ls).search (St.init C).iter (St.init C).Eps (St.init C).Del (St.init C).ndir = none := by
    simp only [sampledEnv, St.init, hm]
    rw [searchDir, if_pos h]
  unfold pass
  rw [hsd]

/-- **C32 (finding): a stale norm is tested.** Later on, when the shortest sampled gradient is at most `Del`, the test that should trigger the shrinking
uses the norm of an earlier direction: it is unchanged by `GetSearchDir`. -/
theorem C32_stale_direction_norm (Del : K) (probe : Nat → Probe K) (n : Nat) (prev : Option K) (h : (probe 0).nmin ≤ Del) :
    searchDir Del probe n 0 prev = prev := by
  cases n with
  | zero => rfl
  | succ n => rw [searchDir, if_pos h]

/-! ### Termination -/

/-- Preconditions for termination: the search always yields a number; a direction of length at most the tolerance makes the stopping test hold; the
length never equals `Del` exactly; no minimum number of iterations is prescribed; and `N1`, `N2` reductions bring `Eps` to its minimum and `Del` below
the tolerance. Each of the first four is needed, see `C32_livelock`, `C32_first_direction_uninitialised`, `C32_livelock_equal_del` and
`C32_livelock_min_iteration`. -/
structure Terminates (C : Cfg K) (E : Env K) (dir : Nat → K → K → Option K → K) (N1 N2 : Nat) : Prop where
  search : ∀ k Eps Del prev, E.search k Eps Del prev = some (dir k Eps Del prev)
  stop : ∀ k Eps Del prev, |dir k Eps Del prev| ≤ C.tolerance → E.stop k (dir k Eps Del prev) = true
  ne : ∀ k Eps Del prev, |dir k Eps Del prev| ≠ Del
  noMin : C.minIter = 0
  thetaE0 : 0 ≤ C.thetaEps
  thetaE1 : C.thetaEps ≤ 1
  minEps : 0 ≤ C.minEps
  eps0 : C.eps0 * C.thetaEps ^ N1 ≤ C.minEps
  thetaD0 : 0 ≤ C.thetaDel
  thetaD1 : C.thetaDel ≤ 1
  del0 : 0 ≤ C.del0
  delN : C.del0 * C.thetaDel ^ N2 ≤ C.tolerance

theorem shrink_bounds {C : Cfg K} (h0 : 0 ≤ C.thetaDel) {Del : K} (hD : 0 ≤ Del) :
    0 ≤ shrink C Del ∧ shrink C Del ≤ Del * C.thetaDel := by
  unfold shrink
  split
  · exact ⟨le_refl _, mul_nonneg hD h0⟩
  · exact ⟨mul_nonneg hD h0, le_refl _⟩

/-- The inner loop does not enlarge `Del`, and reduces it at least once when entered. -/
theorem shrinkLoop_spec {C : Cfg K} {v : K} (h0 : 0 ≤ C.thetaDel) (h1 : C.thetaDel ≤ 1) :
    ∀ (n : Nat) (Del D : K), 0 ≤ Del → shrinkLoop C v n Del = some D → 0 ≤ D ∧ D ≤ Del ∧
      (|v| < Del → D ≤ Del * C.thetaDel) := by
  intro n
  induction n with
  | zero => intro Del D _ h; simp [shrinkLoop] at h
  | succ n ih =>
    intro Del D hD h
    simp only [shrinkLoop] at h
    split at h
    · obtain ⟨hs0, hsle⟩ := shrink_bounds h0 hD
      obtain ⟨i1, i2, i3⟩ := ih _ _ hs0 h
      exact ⟨i1, le_trans i2 (le_trans hsle (mul_le_of_le_one_right hD h1)), fun _ => le_trans i2 hsle⟩
    · rename_i hn
      simp only [Option.some.injEq] at h
      subst h
      exact ⟨hD, le_refl _, fun hc => absurd hc hn⟩

/-- The inner loop ends because of underflow. -/
theorem shrinkLoop_ends {C : Cfg K} (h0 : 0 ≤ C.thetaDel) (v : K) :
    ∀ (m : Nat) (Del : K), 0 ≤ Del → Del * C.thetaDel ^ (m + 1) < C.tiny → ∃ D, shrinkLoop C v (m + 2) Del = some D := by
  have hz : ∀ n, shrinkLoop C v (n + 1) 0 = some 0 := by
    intro n
    rw [shrinkLoop, if_neg (not_lt.mpr (abs_nonneg v))]
  intro m
  induction m with
  | zero =>
    intro Del hD h
    rw [shrinkLoop]
    split
    · have : shrink C Del = 0 := by
        unfold shrink; rw [if_pos (by simpa using h)]
      rw [this]
      exact ⟨_, hz 0⟩
    · exact ⟨_, rfl⟩
  | succ m ih =>
    intro Del hD h
    rw [shrinkLoop]
    split
    · by_cases hu : Del * C.thetaDel < C.tiny
      · have : shrink C Del = 0 := by unfold shrink; rw [if_pos hu]
        rw [this]
        exact ⟨_, hz (m + 1)⟩
      · have : shrink C Del = Del * C.thetaDel := by unfold shrink; rw [if_neg hu]
        rw [this]
        apply ih _ (mul_nonneg hD h0)
        rw [mul_assoc, ← pow_succ']
        exact h
    · exact ⟨_, rfl⟩

theorem fin_aux {C : Cfg K} {E : Env K} {dir : Nat → K → K → Option K → K} {N1 N2 fuel : Nat} (hT : Terminates C E dir N1 N2)
    (hg : C.outputGap ≠ 0) (hfuel : ∀ (v Del : K), 0 ≤ Del → Del ≤ C.del0 → ∃ D, shrinkLoop C v fuel Del = some D) :
    ∀ (n : Nat) (s : St K) (i j : Nat), s.iter ≤ C.maxIter → i ≤ N1 → j ≤ N2 → 0 ≤ s.Del →
      s.Del ≤ C.del0 * C.thetaDel ^ j → s.Eps ≤ max (C.eps0 * C.thetaEps ^ i) C.minEps →
      C.maxIter + N1 + N2 + 2 ≤ n + s.iter + i + j →
      ∃ s', loop C E fuel n s = .finished s' ∧ s'.iter ≤ C.maxIter := by
  intro n
  induction n with
  | zero => intro s i j h1 h2 h3 _ _ _ h; omega
  | succ n ih =>
    intro s i j hi hI hJ hD0 hD hE hn
    simp only [loop]
    by_cases hc : s.continues C = true
    swap
    · rw [if_neg hc]; exact ⟨s, rfl, hi⟩
    rw [if_pos hc]
    have hlt : s.iter < C.maxIter := by
      unfold St.continues at hc
      simp only [Bool.and_eq_true, decide_eq_true_eq] at hc
      exact hc.1.1
    have hDle : s.Del ≤ C.del0 := le_trans hD (mul_le_of_le_one_right hT.del0 (pow_le_one₀ hT.thetaD0 hT.thetaD1))
    have hsb := shrink_bounds hT.thetaD0 hD0
    have hsD : shrink C s.Del ≤ C.del0 * C.thetaDel ^ j :=
      le_trans hsb.2 (le_trans (mul_le_of_le_one_right hD0 hT.thetaD1) hD)
    -- Eps after one reduction
    have hEpsθ : s.Eps * C.thetaEps ≤ max (C.eps0 * C.thetaEps ^ (i + 1)) C.minEps := by
      calc s.Eps * C.thetaEps ≤ max (C.eps0 * C.thetaEps ^ i) C.minEps * C.thetaEps :=
            mul_le_mul_of_nonneg_right hE hT.thetaE0
        _ = max (C.eps0 * C.thetaEps ^ i * C.thetaEps) (C.minEps * C.thetaEps) := max_mul_of_nonneg _ _ hT.thetaE0
        _ ≤ _ := by
          apply max_le_max
          · rw [pow_succ, mul_assoc]
          · exact mul_le_of_le_one_right hT.minEps hT.thetaE1
    have hEps' : shrinkEps C s.Eps ≤ max (C.eps0 * C.thetaEps ^ (i + 1)) C.minEps := by
      unfold shrinkEps
      split
      · exact hEpsθ
      · exact le_max_right _ _
    set v := dir s.iter s.Eps s.Del s.ndir with hv
    have hsearch := hT.search s.iter s.Eps s.Del s.ndir
    obtain ⟨D, hDl⟩ := hfuel v s.Del hD0 hDle
    obtain ⟨hd0, hdle, hdθ⟩ := shrinkLoop_spec hT.thetaD0 hT.thetaD1 fuel s.Del D hD0 hDl
    unfold pass
    rw [hsearch]
    simp only []
    by_cases hsmall : |v| ≤ s.Del ∨ |v| ≤ C.tolerance
    · rw [if_pos hsmall]
      by_cases hEgt : C.minEps < s.Eps
      · -- Eps is reduced: this happens at most N1 times
        have hiN : i < N1 := by
          by_contra hge
          push Not at hge
          have hpow : C.eps0 * C.thetaEps ^ i ≤ C.minEps := by
            have : i = N1 := by omega
            rw [this]; exact hT.eps0
          exact absurd hEgt (not_lt.mpr (le_trans hE (max_le hpow (le_refl _))))
        by_cases hE2 : C.minEps < shrinkEps C s.Eps
        · rw [if_pos hE2]
          exact ih ⟨s.iter, E.stop s.iter v, s.ok, shrinkEps C s.Eps, shrink C s.Del, some v⟩ (i + 1) j hi (by omega) hJ hsb.1 hsD hEps'
            (by simp only []; omega)
        · rw [if_neg hE2, hDl]
          exact ih ⟨s.iter, E.stop s.iter v, s.ok, shrinkEps C s.Eps, D, some v⟩ (i + 1) j hi (by omega) hJ hd0 (le_trans hdle hD) hEps'
            (by simp only []; omega)
      · -- Eps is at its minimum
        push Not at hEgt
        have hmin : shrinkEps C s.Eps = C.minEps := by
          unfold shrinkEps
          rw [if_neg]
          push Not
          by_cases h0 : 0 ≤ s.Eps
          · exact le_trans (mul_le_of_le_one_right h0 hT.thetaE1) hEgt
          · push Not at h0
            exact le_trans (mul_nonpos_of_nonpos_of_nonneg h0.le hT.thetaE0) hT.minEps
        rw [hmin, if_neg (lt_irrefl _), hDl]
        simp only []
        by_cases htol : |v| ≤ C.tolerance
        · -- the stopping test holds: the loop is left
          have hst := hT.stop s.iter s.Eps s.Del s.ndir htol
          obtain ⟨m, hm⟩ : ∃ m, n = m + 1 := ⟨n - 1, by omega⟩
          rw [hm]
          simp only [loop]
          rw [if_neg]
          · exact ⟨_, rfl, hi⟩
          · unfold St.continues
            simp only [hT.noMin, Nat.not_lt_zero]
            have hst2 : E.stop s.iter v = true := hst
            simp only [← hv]
            rw [hst2]
            simp
        · have hlt' : |v| < s.Del :=
            lt_of_le_of_ne (hsmall.resolve_right htol) (hT.ne _ _ _ _)
          push Not at htol
          have hjN : j < N2 := by
            by_contra hge
            push Not at hge
            have : j = N2 := by omega
            rw [this] at hD
            have := hT.delN
            linarith
          refine ih ⟨s.iter, E.stop s.iter v, s.ok, C.minEps, D, some v⟩ i (j + 1) hi hI (by omega) hd0 ?_ (le_max_right _ _)
            (by simp only []; omega)
          show D ≤ _
          calc D ≤ s.Del * C.thetaDel := hdθ hlt'
            _ ≤ C.del0 * C.thetaDel ^ j * C.thetaDel := mul_le_mul_of_nonneg_right hD hT.thetaD0
            _ = _ := by rw [pow_succ, mul_assoc]
    · rw [if_neg hsmall]
      have hgap : (C.record && C.outputGap == 0) = false := by simp [hg]
      rw [hgap]
      simp only [Bool.false_eq_true, if_false]
      exact ih ⟨s.iter + 1, E.stop s.iter v, E.ls s.iter, s.Eps, s.Del, some v⟩ i j hlt hI hJ hD0 hD hE (by simp only []; omega)

/-- **C32 (partial).** Under the preconditions `Terminates`, every run of the subgradient solvers ends after at most
`Max_Iteration + N1 + N2 + 2` passes with at most `Max_Iteration` iterations. -/
theorem C32_terminates_partial [Archimedean K] {C : Cfg K} {E : Env K} {dir : Nat → K → K → Option K → K} {N1 N2 : Nat}
    (hT : Terminates C E dir N1 N2) (hg : C.outputGap ≠ 0) (htiny : 0 < C.tiny) (hth : C.thetaDel < 1) :
    ∃ fuel s, run C E fuel (C.maxIter + N1 + N2 + 2) = .finished s ∧ s.iter ≤ C.maxIter := by
  obtain ⟨m, hm⟩ := exists_pow_lt_of_lt_one (div_pos htiny (by have := hT.del0; linarith : (0 : K) < C.del0 + 1)) hth
  have hm' : C.del0 * C.thetaDel ^ (m + 1) < C.tiny := by
    rw [lt_div_iff₀ (by have := hT.del0; linarith : (0 : K) < C.del0 + 1)] at hm
    have hp := pow_nonneg hT.thetaD0 m
    calc C.del0 * C.thetaDel ^ (m + 1) ≤ C.del0 * C.thetaDel ^ m :=
          mul_le_mul_of_nonneg_left (pow_le_pow_of_le_one hT.thetaD0 hT.thetaD1 (Nat.le_succ m)) hT.del0
      _ ≤ C.thetaDel ^ m * (C.del0 + 1) := by nlinarith
      _ < C.tiny := hm
  refine ⟨m + 2, fin_aux hT hg ?_ _ (St.init C) 0 0 (Nat.zero_le _) (Nat.zero_le _) (Nat.zero_le _) hT.del0
    (by simp [St.init]) (by simp [St.init]) (by simp [St.init])⟩
  intro v Del h0 h1
  apply shrinkLoop_ends hT.thetaD0 v m Del h0
  exact lt_of_le_of_lt (mul_le_mul_of_nonneg_right h1 (pow_nonneg hT.thetaD0 _)) hm'

/-- Default parameters (`SolversNSMSubLS.cpp:160-166`), tolerance `10^-6`. -/
def exCfg : Cfg ℚ :=
  { maxIter := 3, minIter := 0, outputGap := 1, record := true, tolerance := 1 / 10 ^ 6, eps0 := 1, del0 := 1
    minEps := 1 / 10 ^ 6, thetaEps := 1 / 100, thetaDel := 1 / 100, tiny := 1 / 10 ^ 300, lenW := 5 }

/-- A search that halves its direction with every iteration. -/
def exDir : Nat → ℚ → ℚ → Option ℚ → ℚ := fun k _ _ _ => 3 / 2 ^ k

/-- The preconditions of `C32_terminates_partial` can be met (with the stopping test "direction below tolerance", and a direction whose length is
never equal to `Del`). -/
example : ∃ E : Env ℚ, ∃ dir, Terminates exCfg E dir 3 3 := by
  refine ⟨⟨fun k Eps Del prev => some (if Del = 3 then 4 else 3), fun _ v => decide (|v| ≤ exCfg.tolerance), fun _ => true⟩,
    fun k Eps Del prev => if Del = 3 then 4 else 3, ?_⟩
  constructor
  case ne =>
    intro k Eps Del prev
    by_cases h : Del = 3
    · simp [h]
    · simp only [h, if_false]
      intro hc
      apply h
      rw [← hc]
      norm_num
  case search => intros; rfl
  case stop =>
    intro k Eps Del prev h
    simpa using h
  all_goals norm_num [exCfg]

/-- A zero direction at the start with a stopping test that does not hold at iteration 0 (the relative-change criterion): hypotheses of `C32_livelock`. -/
example (n : Nat) : run exCfg ⟨fun _ _ _ _ => some 0, fun k _ => decide (0 < k), fun _ => true⟩ 200 n = .running :=
  C32_livelock (v := 0) (by decide) (fun _ _ _ => rfl) (by norm_num [exCfg]) rfl n

/-- **C32 (finding): livelock when the direction length equals `Del`.** -/
theorem C32_livelock_equal_del {C : Cfg K} {E : Env K} {fuel : Nat} (hk : 0 < C.maxIter) (hf : 0 < fuel)
    (hmin0 : 0 ≤ C.minEps) (hθ0 : 0 ≤ C.thetaEps) (hθ1 : C.thetaEps ≤ 1) (he : C.eps0 = C.minEps)
    (hs : ∀ prev, E.search 0 C.minEps C.del0 prev = some C.del0) (hd : 0 ≤ C.del0) (hst : E.stop 0 C.del0 = false) (n : Nat) :
    run C E fuel n = .running := by
  have main : ∀ (n : Nat) (s : St K), s.iter = 0 → s.ok = true → s.isstop = false → s.Eps = C.minEps → s.Del = C.del0 →
      loop C E fuel n s = .running := by
    intro n
    induction n with
    | zero => intros; rfl
    | succ n ih =>
      intro s h1 h2 h3 h4 h5
      have hc : s.continues C = true := by
        unfold St.continues
        simp [h1, h2, h3, hk]
      simp only [loop]
      rw [if_pos hc]
      have hmin : shrinkEps C C.minEps = C.minEps := by
        unfold shrinkEps
        rw [if_neg (not_lt.mpr (mul_le_of_le_one_right hmin0 hθ1))]
      have hsl : shrinkLoop C C.del0 fuel C.del0 = some C.del0 := by
        obtain ⟨m, rfl⟩ := Nat.exists_eq_succ_of_ne_zero hf.ne'
        rw [shrinkLoop, if_neg (not_lt.mpr (le_abs_self _))]
      have hp : pass C E fuel s = .next ⟨0, false, true, C.minEps, C.del0, some C.del0⟩ := by
        unfold pass
        rw [h1, h4, h5, hs]
        simp only []
        rw [if_pos (Or.inl (le_of_eq (abs_of_nonneg hd))), hmin, if_neg (lt_irrefl _), hsl, hst, h2]
      rw [hp]
      exact ih _ rfl rfl rfl rfl rfl
  exact main n _ rfl rfl rfl he rfl

/-- **C32 (finding): livelock below `Min_Iteration`.** With `Min_Iteration >= 1` a start at a critical point never ends even though the stopping test
holds. -/
theorem C32_livelock_min_iteration {C : Cfg K} {E : Env K} {fuel : Nat} {v : K} (hk : 0 < C.maxIter) (hmin : 0 < C.minIter)
    (hs : ∀ Eps Del prev, E.search 0 Eps Del prev = some v) (hv : |v| ≤ C.tolerance) (n : Nat) : run C E fuel n = .running := by
  have main : ∀ (n : Nat) (s : St K), s.iter = 0 → s.ok = true → loop C E fuel n s = .running := by
    intro n
    induction n with
    | zero => intros; rfl
    | succ n ih =>
      intro s h1 h2
      have hc : s.continues C = true := by
        unfold St.continues
        simp [h1, h2, hk, hmin]
      have hp : pass C E fuel s = .running ∨ ∃ s', pass C E fuel s = .next s' ∧ s'.iter = 0 ∧ s'.ok = true := by
        unfold pass
        rw [h1, hs]
        simp only []
        rw [if_pos (Or.inr hv)]
        split
        · exact Or.inr ⟨_, rfl, rfl, h2⟩
        · split
          · exact Or.inl rfl
          · exact Or.inr ⟨_, rfl, rfl, h2⟩
      simp only [loop]
      rw [if_pos hc]
      rcases hp with hp | ⟨s', hp, e1, e2⟩
      · rw [hp]
      · rw [hp]; exact ih s' e1 e2
  exact main n _ rfl rfl

/-! ## C60: the line search of the subgradient solvers -/

theorem zoom_success {C : LSCfg K} {phi dphi : K → K} {f1 slope : K} :
    ∀ (n : Nat) (a b tr : K) (times : Nat) (r : LSRes K), zoom C phi dphi f1 slope n a b tr times = some r →
      (r.status = .success → r.trial = r.step ∧ phi r.step ≤ f1 + C.alpha * slope * r.step ∧ C.beta * slope ≤ dphi r.step) ∧
      (r.status = .noCurvature → r.trial = r.step ∧ phi r.step ≤ f1 + C.alpha * slope * r.step) ∧
      (r.status = .minStep → r.step < C.minStep) := by
  intro n
  induction n with
  | zero => intro a b tr times r h; simp [zoom] at h
  | succ n ih =>
    intro a b tr times r h
    simp only [zoom] at h
    split at h
    · rename_i hlt
      simp only [Option.some.injEq] at h
      subst h
      simp [hlt]
    · split at h
      · exact ih _ _ _ _ _ h
      · rename_i harm
        have harm' : phi ((a + b) / 2) ≤ f1 + C.alpha * slope * ((a + b) / 2) := by
          have := not_lt.mp harm; linarith
        split at h
        · rename_i hcur
          simp only [Option.some.injEq] at h
          subst h
          simp [harm', hcur]
        · split at h
          · simp only [Option.some.injEq] at h
            subst h
            simp [harm']
          · exact ih _ _ _ _ _ h

theorem wolfeLoop_success {C : LSCfg K} {phi dphi : K → K} {f1 slope : K} {zf : Nat} :
    ∀ (n : Nat) (pre t : K) (r : LSRes K), wolfeLoop C phi dphi f1 slope zf n pre t = some r →
      (r.status = .success → r.step < C.maxStep → r.trial = r.step ∧ phi r.step ≤ f1 + C.alpha * slope * r.step ∧
        C.beta * slope ≤ dphi r.step) := by
  intro n
  induction n with
  | zero => intro pre t r h; simp [wolfeLoop] at h
  | succ n ih =>
    intro pre t r h hst hlt
    simp only [wolfeLoop] at h
    split at h
    · exact (zoom_success zf _ _ _ _ r h).1 hst
    · rename_i harm
      split at h
      · rename_i hcur
        simp only [Option.some.injEq] at h
        subst h
        refine ⟨rfl, ?_, hcur⟩
        have := not_lt.mp harm; simp only []; linarith
      · by_cases hmx : (if 2 * t < C.maxStep then 2 * t else C.maxStep) = C.maxStep
        · rw [if_pos hmx] at h
          simp only [Option.some.injEq] at h
          subst h
          exact absurd hlt (by simp only []; rw [hmx]; exact lt_irrefl _)
        · rw [if_neg hmx] at h
          exact ih _ _ _ h hst hlt

/-- **C60.** When the line search of the subgradient solvers reports success, the stored trial belongs to the final step and satisfies the sufficient-decrease
and the curvature condition. For all objectives, slopes and parameters. -/
theorem C60_success {C : LSCfg K} {phi dphi : K → K} {f1 slope : K} {zf n : Nat} {r : LSRes K}
    (h : wolfeLip C phi dphi f1 slope zf n = some r) (hst : r.status = .success) :
    r.trial = r.step ∧ phi r.step ≤ f1 + C.alpha * slope * r.step ∧ C.beta * slope ≤ dphi r.step ∧
      C.minStep < r.step ∧ r.step < C.maxStep := by
  unfold wolfeLip at h
  match hr : wolfeLoop C phi dphi f1 slope zf n 0 1 with
  | none => rw [hr] at h; simp at h
  | some q =>
    rw [hr] at h
    simp only [Option.map_some, Option.some.injEq] at h
    subst h
    unfold finalStatus at hst ⊢
    simp only [] at hst ⊢
    split at hst
    · simp at hst
    · rename_i hmax
      split at hst
      · simp at hst
      · rename_i hmin
        obtain ⟨h1, h2, h3⟩ := wolfeLoop_success n 0 1 q hr hst (not_le.mp hmax)
        exact ⟨h1, h2, h3, not_le.mp hmin, not_le.mp hmax⟩

/-- **C60 (finding): the reported step at the upper bound is not the step taken.** If the first trial satisfies sufficient decrease but not the curvature
condition and doubling it reaches `Maxstepsize`, the search reports the step `Maxstepsize` although the trial point, value and gradient are those of step 1.
-/
theorem C60_max_step_not_evaluated (C : LSCfg K) (phi dphi : K → K) (f1 slope : K) (zf n : Nat) (h1 : phi 1 ≤ f1 + C.alpha * slope)
    (h2 : dphi 1 < C.beta * slope) (h3 : 1 < C.maxStep) (h4 : C.maxStep ≤ 2) :
    wolfeLip C phi dphi f1 slope zf (n + 1) = some ⟨C.maxStep, 1, .maxStep⟩ := by
  have hstep : (if 2 * (1 : K) < C.maxStep then 2 * 1 else C.maxStep) = C.maxStep := by
    rw [if_neg (by rw [mul_one]; exact not_lt.mpr h4)]
  have hloop : wolfeLoop C phi dphi f1 slope zf (n + 1) 0 1 = some ⟨C.maxStep, 1, .success⟩ := by
    rw [wolfeLoop, if_neg (by rw [mul_one]; push Not; linarith), if_neg (not_le.mpr h2)]
    simp only [hstep, if_true]
  unfold wolfeLip
  rw [hloop]
  simp [finalStatus]

/-- **C60 (finding): a failed search hands over a rejected trial.** For an objective that increases along the direction the search ends with status "minimum
step" and its trial point has a larger objective value; `Run` then makes this point the final iterate (lines 101-106). Default parameters. -/
theorem C60_failed_search_increases :
    ∃ r, wolfeLip (K := ℚ) ⟨1 / 10000, 999 / 1000, 1 / 1000, 1000⟩ (fun t => t) (fun _ => 1) 0 (-1) 20 20 = some r ∧
      r.status = .minStep ∧ 0 < r.trial := by
  refine ⟨⟨1 / 1024, 1 / 512, .minStep⟩, by decide +kernel, rfl, by norm_num⟩

/-- **C60 (finding): the zoom phase need not end.** If its left end is at least `Minstepsize` and every point to the right of it up to the right end violates the
decrease condition, the loop bisects for ever; the counter `times` is tested only when the left end moves. -/
theorem C60_zoom_livelock (C : LSCfg K) (phi dphi : K → K) (f1 slope : K) :
    ∀ (n : Nat) (a b tr : K) (times : Nat), C.minStep ≤ a → a < b →
      (∀ t, a < t → t ≤ b → 0 < phi t - f1 - C.alpha * slope * t) → zoom C phi dphi f1 slope n a b tr times = none := by
  intro n
  induction n with
  | zero => intros; rfl
  | succ n ih =>
    intro a b tr times hmin hab hviol
    have h1 : a < (a + b) / 2 := by linarith
    have h2 : (a + b) / 2 < b := by linarith
    rw [zoom]
    rw [if_neg (not_lt.mpr (le_trans hmin h1.le)), if_pos (hviol _ h1 h2.le)]
    exact ih a ((a + b) / 2) _ _ hmin h1 (fun t ht ht' => hviol t ht (le_trans ht' h2.le))

/-- A run of the whole search that meets those hypotheses: the first step is fine but violates the curvature condition, beyond it the objective jumps (a lower
semicontinuous, nonsmooth objective). -/
theorem C60_search_livelock (zf n : Nat) :
    wolfeLip (K := ℚ) ⟨1 / 10000, 999 / 1000, 1 / 1000, 1000⟩ (fun t => if t ≤ 1 then -t else 5) (fun _ => -1) 0 (-1) zf (n + 2) = none := by
  unfold wolfeLip
  have : wolfeLoop (K := ℚ) ⟨1 / 10000, 999 / 1000, 1 / 1000, 1000⟩ (fun t => if t ≤ 1 then -t else 5) (fun _ => -1) 0 (-1) zf
      (n + 2) 0 1 = none := by
    rw [wolfeLoop, if_neg (by norm_num), if_neg (by norm_num)]
    simp only []
    rw [if_neg (by norm_num), wolfeLoop, if_pos (by norm_num)]
    apply C60_zoom_livelock
    · norm_num
    · norm_num
    · intro t h1 h2
      rw [if_neg (not_le.mpr h1)]
      linarith
  rw [this]
  rfl

/-- A successful search (concrete case for `C60_success`). -/
example : wolfeLip (K := ℚ) ⟨1 / 10000, 999 / 1000, 1 / 1000, 1000⟩ (fun t => 4 * t * t - t) (fun t => 8 * t - 1) 0 (-1) 20 20 =
    some ⟨1 / 8, 1 / 8, .success⟩ := by
  decide +kernel

end Verif.Sub
