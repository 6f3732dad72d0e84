import Verif.Solver.TRRun
import Mathlib.Algebra.Order.Ring.Pow
import Mathlib.Tactic.FieldSimp

/-!
# C13, C19, C20, C59: trust-region runs
-/

set_option linter.unusedSectionVars false
set_option linter.unusedVariables false

namespace Verif.TRRun

variable {K X : Type} [Field K] [LinearOrder K]

/-- The states a run can have at the head of its loop. -/
inductive Reaches (C : Cfg K) (E : Env K X) : St K X → Prop
  | init : Reaches C E (St.init C E)
  | step {s s'} : Reaches C E s → s.continues C = true → pass C E s = .next s' → Reaches C E s'

theorem writeHist_next {C : Cfg K} {s s' : St K X} (h : s.writeHist C = .next s') :
    s'.iter = s.iter ∧ s'.isstop = s.isstop ∧ s'.x1 = s.x1 ∧ s'.f1 = s.f1 ∧ s'.f2 = s.f2 ∧ s'.ngf1 = s.ngf1 ∧
      s'.Delta = s.Delta ∧ s'.xs = s.xs ∧ s'.streak = s.streak ∧
      s'.funSeries.length = s.funSeries.length := by
  unfold St.writeHist at h
  split at h
  · split at h
    · simp at h
    · split at h
      · simp at h
      · simp only [Pass.next.injEq] at h
        subst h
        simp
  · simp only [Pass.next.injEq] at h
    subst h
    simp

/-- What a pass that continues has done. -/
theorem pass_next {C : Cfg K} {E : Env K X} {s s' : St K X} (h : pass C E s = .next s') :
    ∃ D, radius C (ratio s.f1 (E.f (E.cand s.iter s.x1 s.Delta).x2) (E.cand s.iter s.x1 s.Delta))
          (E.cand s.iter s.x1 s.Delta).status (accurate C (E.ngf E.x0) s.ngf1) s.Delta = some D ∧
      ((accepts C (ratio s.f1 (E.f (E.cand s.iter s.x1 s.Delta).x2) (E.cand s.iter s.x1 s.Delta))
          (E.cand s.iter s.x1 s.Delta).status (accurate C (E.ngf E.x0) s.ngf1) s.f1
          (E.f (E.cand s.iter s.x1 s.Delta).x2) = true ∧
        (s.accept E (E.cand s.iter s.x1 s.Delta).x2 D).writeHist C = .next s') ∨
       (accepts C (ratio s.f1 (E.f (E.cand s.iter s.x1 s.Delta).x2) (E.cand s.iter s.x1 s.Delta))
          (E.cand s.iter s.x1 s.Delta).status (accurate C (E.ngf E.x0) s.ngf1) s.f1
          (E.f (E.cand s.iter s.x1 s.Delta).x2) = false ∧
        (s.reject E (E.cand s.iter s.x1 s.Delta).x2 D).writeHist C = .next s')) := by
  unfold pass at h
  simp only [] at h
  split at h
  · simp at h
  · split at h
    · simp at h
    · rename_i D hD
      refine ⟨D, hD, ?_⟩
      split at h
      · rename_i ha; exact Or.inl ⟨ha, h⟩
      · rename_i ha; exact Or.inr ⟨by simpa using ha, h⟩

theorem pass_next_finite {C : Cfg K} {E : Env K X} {s s' : St K X} (h : pass C E s = .next s') :
    (E.cand s.iter s.x1 s.Delta).finite = true := by
  unfold pass at h
  simp only [] at h
  split at h
  · simp at h
  · rename_i hf; simpa using hf

/-- Basic bookkeeping of every run. -/
theorem reaches_basic {C : Cfg K} {E : Env K X} {s : St K X} (h : Reaches C E s) :
    s.f1 = E.f s.x1 ∧ s.ngf1 = E.ngf s.x1 ∧ s.xs.head? = some s.x1 ∧ s.xs.length = s.iter + 1 ∧
      s.funSeries.length = C.maxIter + 1 := by
  induction h with
  | init => simp [St.init]
  | step _ _ hp ih =>
    obtain ⟨h1, h2, h3, h4, h5⟩ := ih
    obtain ⟨D, _, ⟨_, hw⟩ | ⟨_, hw⟩⟩ := pass_next hp
    · obtain ⟨e1, e2, e3, e4, e5, e6, e7, e8, e9, e10⟩ := writeHist_next hw
      rw [e1, e3, e4, e6, e8, e10]
      simp [St.accept, h4, h5]
    · obtain ⟨e1, e2, e3, e4, e5, e6, e7, e8, e9, e10⟩ := writeHist_next hw
      rw [e1, e3, e4, e6, e8, e10]
      simp [St.reject, h1, h2, h4, h5]

/-! ## C13: iteration limits and history bounds -/

theorem iter_le {C : Cfg K} {E : Env K X} {s : St K X} (hm : C.minIter ≤ C.maxIter) (h : Reaches C E s) :
    s.iter ≤ C.maxIter := by
  cases h with
  | init => simp [St.init]
  | @step s0 _ h0 hc hp =>
    have hlt : s0.iter < C.maxIter := by
      unfold St.continues at hc
      simp only [Bool.or_eq_true, Bool.and_eq_true, decide_eq_true_eq] at hc
      omega
    obtain ⟨D, _, ⟨_, hw⟩ | ⟨_, hw⟩⟩ := pass_next hp
    · rw [(writeHist_next hw).1]; simp [St.accept]; omega
    · rw [(writeHist_next hw).1]; simp [St.reject]; omega

theorem pass_safe {C : Cfg K} {E : Env K X} {s : St K X} (hm : C.minIter ≤ C.maxIter) (hg : C.outputGap ≠ 0)
    (h : Reaches C E s) (hc : s.continues C = true) :
    (∃ s', pass C E s = .next s' ∧ s'.iter = s.iter + 1) ∨ ∃ s', pass C E s = .stop s' ∧ s'.iter = s.iter := by
  have hlt : s.iter < C.maxIter := by
    unfold St.continues at hc
    simp only [Bool.or_eq_true, Bool.and_eq_true, decide_eq_true_eq] at hc
    omega
  have hl := (reaches_basic h).2.2.2.2
  have hw : ∀ t : St K X, t.iter = s.iter + 1 → t.funSeries.length = s.funSeries.length →
      ∃ s', t.writeHist C = .next s' ∧ s'.iter = s.iter + 1 := by
    intro t ht hlen
    unfold St.writeHist
    by_cases hrec : C.record = true
    · rw [if_pos hrec, if_neg hg, if_neg (by omega)]
      exact ⟨_, rfl, ht⟩
    · rw [if_neg hrec]
      exact ⟨_, rfl, ht⟩
  unfold pass
  simp only []
  split
  · exact Or.inr ⟨_, rfl, rfl⟩
  · split
    · exact Or.inr ⟨_, rfl, rfl⟩
    · left
      split
      · exact hw _ rfl rfl
      · exact hw _ rfl rfl

theorem loop_finishes {C : Cfg K} {E : Env K X} (hm : C.minIter ≤ C.maxIter) (hg : C.outputGap ≠ 0) :
    ∀ (n : Nat) (s : St K X), Reaches C E s → C.maxIter + 1 ≤ n + s.iter →
      ∃ s', loop C E n s = .finished s' ∧ s'.iter ≤ C.maxIter := by
  intro n
  induction n with
  | zero =>
    intro s hs hn
    have := iter_le hm hs
    omega
  | succ n ih =>
    intro s hs hn
    simp only [loop]
    by_cases hc : s.continues C = true
    · rw [if_pos hc]
      rcases pass_safe hm hg hs hc with ⟨s', hp, hi⟩ | ⟨s', hp, hi⟩
      · rw [hp]
        exact ih s' (Reaches.step hs hc hp) (by omega)
      · rw [hp]
        exact ⟨s', rfl, hi ▸ iter_le hm hs⟩
    · rw [if_neg hc]
      exact ⟨s, rfl, iter_le hm hs⟩

/-- **C13 (trust region).** With `Min_Iteration <= Max_Iteration` and a nonzero output gap every trust-region run ends
after at most `Max_Iteration` iterations, without a write outside the history arrays, whatever the candidates, ratios and
stopping decisions. -/
theorem C13_tr_run_finishes {C : Cfg K} {E : Env K X} (hm : C.minIter ≤ C.maxIter) (hg : C.outputGap ≠ 0)
    (fuel : Nat) (hf : C.maxIter + 1 ≤ fuel) :
    ∃ s, run C E fuel = .finished s ∧ s.iter ≤ C.maxIter :=
  loop_finishes hm hg fuel _ Reaches.init (by simpa [St.init] using hf)

/-! ## C19: the radius -/

section
variable [IsStrictOrderedRing K]

/-- **C19 (partial).** While a run continues the radius lies between the two bounds, provided the initial radius does.
(The initial radius is not clamped, see `C19_initial_radius_not_clamped`.) -/
theorem C19_radius_bounds_partial {C : Cfg K} {E : Env K X} {s : St K X} (h : Reaches C E s)
    (h0 : 0 ≤ C.minimumDelta) (hmin : C.minimumDelta ≤ C.initialDelta) (hmax : C.initialDelta ≤ C.maximumDelta)
    (hsh : 0 ≤ C.shrinked ∧ C.shrinked ≤ 1) (hmg : 1 ≤ C.magnified) :
    C.minimumDelta ≤ s.Delta ∧ s.Delta ≤ C.maximumDelta := by
  induction h with
  | init => exact ⟨hmin, hmax⟩
  | @step s0 s1 _ _ hp ih =>
    obtain ⟨D, hD, hw⟩ := pass_next hp
    have hDelta : s1.Delta = D := by
      rcases hw with ⟨_, hw⟩ | ⟨_, hw⟩
      · exact (writeHist_next hw).2.2.2.2.2.2.1
      · exact (writeHist_next hw).2.2.2.2.2.2.1
    rw [hDelta]
    obtain ⟨i1, i2⟩ := ih
    have hpos : 0 ≤ s0.Delta := le_trans h0 i1
    unfold radius at hD
    split at hD
    · simp only [Option.some.injEq] at hD
      subst hD
      have hge : C.minimumDelta ≤ s0.Delta * C.magnified := le_trans i1 (le_mul_of_one_le_right hpos hmg)
      have hmm := le_trans hmin hmax
      constructor
      · split <;> split <;> assumption
      · split <;> split <;> first | exact le_refl _ | exact not_lt.mp ‹_›
    · split at hD
      · simp only [] at hD
        split at hD
        · simp at hD
        · rename_i hn
          simp only [Option.some.injEq] at hD
          subst hD
          exact ⟨not_lt.mp hn, le_trans (mul_le_of_le_one_right hpos hsh.2) i2⟩
      · simp only [Option.some.injEq] at hD
        subst hD
        exact ⟨i1, i2⟩

/-- **C19 is false without a check of the initial radius**: for every configuration whose initial radius exceeds the
maximum, the first candidate is computed with that radius, and if the first ratio is at most 0.75 and at least 0.25
the next ones too. -/
theorem C19_initial_radius_not_clamped (C : Cfg K) (E : Env K X) (hgt : C.maximumDelta < C.initialDelta) :
    ∃ s, Reaches C E s ∧ C.maximumDelta < s.Delta ∧
      ∀ s', s.continues C = true → pass C E s = .next s' →
        (ratio s.f1 (E.f (E.cand s.iter s.x1 s.Delta).x2) (E.cand s.iter s.x1 s.Delta)).gt (3 / 4) = false →
        (ratio s.f1 (E.f (E.cand s.iter s.x1 s.Delta).x2) (E.cand s.iter s.x1 s.Delta)).lt (1 / 4) = false →
        C.maximumDelta < s'.Delta := by
  refine ⟨St.init C E, Reaches.init, hgt, ?_⟩
  intro s' _ hp hg hl
  obtain ⟨D, hD, hw⟩ := pass_next hp
  have hDelta : s'.Delta = D := by
    rcases hw with ⟨_, hw⟩ | ⟨_, hw⟩
    · exact (writeHist_next hw).2.2.2.2.2.2.1
    · exact (writeHist_next hw).2.2.2.2.2.2.1
  rw [hDelta]
  unfold radius at hD
  rw [hg, hl] at hD
  simp only [Bool.false_eq_true, if_false, Bool.false_and, Option.some.injEq] at hD
  rw [← hD]
  exact hgt

/-- A rejected candidate with a numeric ratio shrinks the radius, unless the accuracy test holds. -/
theorem reject_shrinks {C : Cfg K} {rho : Ratio K} {st : Status} {f1 f2 Delta D : K}
    (hrho : C.acceptRho < 1 / 4) (hnum : ∃ v, rho = .num v)
    (hacc : accepts C rho st false f1 f2 = false) (hD : radius C rho st false Delta = some D) :
    D = Delta * C.shrinked ∧ C.minimumDelta ≤ D := by
  obtain ⟨v, rfl⟩ := hnum
  have hv : v ≤ C.acceptRho := by
    by_contra hc
    unfold accepts at hacc
    simp only [Ratio.gt, Bool.or_eq_false_iff] at hacc
    have := hacc.1.1
    simp only [decide_eq_false_iff_not] at this
    exact this (not_le.mp hc)
  have h1 : v < 1 / 4 := lt_of_le_of_lt hv hrho
  have h2 : ¬ (3 / 4 : K) < v := by
    have : (1 / 4 : K) < 3 / 4 := by norm_num
    exact not_lt.mpr (le_of_lt (lt_trans h1 this))
  unfold radius at hD
  simp only [Ratio.gt, Ratio.lt, h1, h2, decide_true, decide_false, Bool.not_false, Bool.and_self, if_true,
    Bool.false_eq_true, if_false] at hD
  split at hD
  · simp at hD
  · rename_i hn
    simp only [Option.some.injEq] at hD
    subst hD
    exact ⟨rfl, not_lt.mp hn⟩

/-- **C19 (rejections end).** Outside the accuracy branch, with nonzero model values, the radius after `n` consecutive
rejections is at most `Shrinked_tau^n * maximum_Delta`; since it is also at least `minimum_Delta`, the number of consecutive
rejections is bounded by every `N` with `Shrinked_tau^N * maximum_Delta < minimum_Delta`. -/
theorem C19_rejections_bounded {C : Cfg K} {E : Env K X} {s : St K X} (h : Reaches C E s)
    (h0 : 0 ≤ C.minimumDelta) (hmin : C.minimumDelta ≤ C.initialDelta) (hmax : C.initialDelta ≤ C.maximumDelta)
    (hsh : 0 ≤ C.shrinked ∧ C.shrinked ≤ 1) (hmg : 1 ≤ C.magnified) (hrho : C.acceptRho < 1 / 4)
    (hm : ∀ k x D, (E.cand k x D).mval ≠ 0)
    (hna : ∀ x ∈ s.xs.tail, accurate C (E.ngf E.x0) (E.ngf x) = false)
    (N : Nat) (hN : C.shrinked ^ N * C.maximumDelta < C.minimumDelta) : s.streak < N := by
  have key : s.Delta ≤ C.shrinked ^ s.streak * C.maximumDelta := by
    clear hN
    induction h with
    | init => simpa [St.init] using hmax
    | @step s0 s1 h0' _ hp ih =>
      obtain ⟨D, hD, hw⟩ := pass_next hp
      rcases hw with ⟨_, hw⟩ | ⟨hacc, hw⟩
      · obtain ⟨e1, e2, e3, e4, e5, e6, e7, e8, e9, e10⟩ := writeHist_next hw
        have hb := (C19_radius_bounds_partial (Reaches.step h0' ‹_› hp) h0 hmin hmax hsh hmg).2
        rw [e9]
        simpa [St.accept] using hb
      · obtain ⟨e1, e2, e3, e4, e5, e6, e7, e8, e9, e10⟩ := writeHist_next hw
        have hx : s0.x1 ∈ s1.xs.tail := by
          rw [e8]
          simpa [St.reject] using List.mem_of_mem_head? (reaches_basic h0').2.2.1
        rw [(reaches_basic h0').2.1, hna _ hx] at hacc hD
        have hnum : ∃ v, ratio s0.f1 (E.f (E.cand s0.iter s0.x1 s0.Delta).x2) (E.cand s0.iter s0.x1 s0.Delta) =
            .num v := ⟨_, if_neg (hm _ _ _)⟩
        have := (reject_shrinks hrho hnum hacc hD).1
        have ih := ih (fun x hx => hna x (by rw [e8]; exact List.mem_of_mem_tail hx))
        rw [e9, e7]
        simp only [St.reject]
        rw [this, pow_succ]
        calc s0.Delta * C.shrinked ≤ (C.shrinked ^ s0.streak * C.maximumDelta) * C.shrinked :=
              mul_le_mul_of_nonneg_right ih hsh.1
          _ = _ := mul_right_comm _ _ _
  have hge := (C19_radius_bounds_partial h h0 hmin hmax hsh hmg).1
  by_contra hc
  push Not at hc
  have hmax0 : 0 ≤ C.maximumDelta := le_trans h0 (le_trans hmin hmax)
  have : C.shrinked ^ s.streak * C.maximumDelta ≤ C.shrinked ^ N * C.maximumDelta :=
    mul_le_mul_of_nonneg_right (pow_le_pow_of_le_one hsh.1 hsh.2 hc) hmax0
  exact absurd hN (not_lt.mpr (le_trans hge (le_trans key this)))

/-! ## C20: accepted steps decrease the objective -/

/-- Outside the accuracy branch an accepted candidate with negative model value has a smaller objective. -/
theorem accepts_decrease {C : Cfg K} {c : Cand K X} {f1 f2 : K} (hrho : 0 ≤ C.acceptRho) (hm : c.mval < 0)
    (h : accepts C (ratio f1 f2 c) c.status false f1 f2 = true) : f2 < f1 := by
  unfold accepts ratio at h
  rw [if_neg hm.ne] at h
  simp only [Ratio.gt, Bool.or_eq_true, Bool.and_eq_true, decide_eq_true_eq, Bool.false_eq_true, false_and,
    or_false] at h
  rcases h with h | h
  · have h1 : 0 < (f1 - f2) / (-c.mval) := lt_of_le_of_lt hrho h
    have h2 : 0 < -c.mval := neg_pos.mpr hm
    have h3 : 0 < f1 - f2 := by
      by_contra hc
      push Not at hc
      exact absurd h1 (not_lt.mpr (div_nonpos_of_nonpos_of_nonneg hc h2.le))
    linarith
  · exact h.2

/-- The radius stays positive. -/
theorem Delta_pos {C : Cfg K} {E : Env K X} {s : St K X} (h : Reaches C E s) (h0 : 0 < C.initialDelta)
    (h1 : 0 < C.maximumDelta) (h2 : 0 < C.shrinked) (h3 : 0 < C.magnified) : 0 < s.Delta := by
  induction h with
  | init => exact h0
  | @step s0 s1 _ _ hp ih =>
    obtain ⟨D, hD, hw⟩ := pass_next hp
    have hDelta : s1.Delta = D := by
      rcases hw with ⟨_, hw⟩ | ⟨_, hw⟩
      · exact (writeHist_next hw).2.2.2.2.2.2.1
      · exact (writeHist_next hw).2.2.2.2.2.2.1
    rw [hDelta]
    have hm := mul_pos ih h3
    have hs := mul_pos ih h2
    unfold radius at hD
    split at hD
    · simp only [Option.some.injEq] at hD
      subst hD
      split <;> split <;> assumption
    · split at hD
      · simp only [] at hD
        split at hD
        · simp at hD
        · simp only [Option.some.injEq] at hD
          subst hD
          exact hs
      · simp only [Option.some.injEq] at hD
        subst hD
        exact ih

/-- **C20 (partial).** When the model value of every candidate is negative (proved for the truncated conjugate gradient solver in
`C20_rtr_iterates_decrease_partial`) and the accuracy branch was not active
 at any iterate before the current one, any two successive or later iterates of a trust-region run are equal or strictly ordered by the objective: the run
never increases the objective at its iterates. The missing part is the accuracy branch, where the claim is false
(`C20_accuracy_branch_accepts_increase`). -/
theorem C20_iterates_decrease_partial {C : Cfg K} {E : Env K X} {s : St K X} (h : Reaches C E s)
    (hrho : 0 ≤ C.acceptRho) (hi : 0 < C.initialDelta) (hmax : 0 < C.maximumDelta) (hsh : 0 < C.shrinked)
    (hmg : 0 < C.magnified) (hm : ∀ k x D, 0 < D → (E.cand k x D).finite = true → (E.cand k x D).mval < 0)
    (hna : ∀ x ∈ s.xs.tail, accurate C (E.ngf E.x0) (E.ngf x) = false) :
    s.xs.Pairwise (fun new old => new = old ∨ E.f new < E.f old) := by
  induction h with
  | init => simp [St.init]
  | @step s0 s1 h0 hc hp ih =>
    obtain ⟨b1, b2, b3, b4, b5⟩ := reaches_basic h0
    obtain ⟨D, hD, hw⟩ := pass_next hp
    have htail : s1.xs.tail = s0.xs := by
      rcases hw with ⟨_, hw⟩ | ⟨_, hw⟩
      · rw [(writeHist_next hw).2.2.2.2.2.2.2.1]; rfl
      · rw [(writeHist_next hw).2.2.2.2.2.2.2.1]; rfl
    rw [htail] at hna
    have ih := ih (fun x hx => hna x (List.mem_of_mem_tail hx))
    have hall : ∀ x ∈ s0.xs, s0.x1 = x ∨ E.f s0.x1 < E.f x := by
      match hxs : s0.xs with
      | [] => simp
      | y :: ys =>
        rw [hxs] at b3 ih
        simp only [List.head?_cons, Option.some.injEq] at b3
        subst b3
        intro x hx
        rcases List.mem_cons.mp hx with hx | hx
        · exact Or.inl hx.symm
        · exact (List.pairwise_cons.mp ih).1 x hx
    rcases hw with ⟨hacc, hw⟩ | ⟨_, hw⟩
    · obtain ⟨e1, e2, e3, e4, e5, e6, e7, e8, e9, e10⟩ := writeHist_next hw
      rw [e8]
      show (_ :: s0.xs).Pairwise _
      refine List.pairwise_cons.mpr ⟨?_, ih⟩
      rw [b2, hna _ (List.mem_of_mem_head? b3)] at hacc
      have hdec := accepts_decrease hrho
        (hm _ _ _ (Delta_pos h0 hi hmax hsh hmg) (pass_next_finite hp)) hacc
      rw [b1] at hdec
      intro x hx
      right
      rcases hall x hx with e | e
      · rw [← e]; exact hdec
      · exact lt_trans hdec e
    · obtain ⟨e1, e2, e3, e4, e5, e6, e7, e8, e9, e10⟩ := writeHist_next hw
      rw [e8]
      show (s0.x1 :: s0.xs).Pairwise _
      exact List.pairwise_cons.mpr ⟨hall, ih⟩

/-- **C20 (rejection).** A pass that rejects its candidate leaves iterate, objective value, gradient norm and the stop flag
unchanged. -/
theorem C20_rejection_keeps_iterate {C : Cfg K} {E : Env K X} {s s' : St K X} (hp : pass C E s = .next s')
    (hr : accepts C (ratio s.f1 (E.f (E.cand s.iter s.x1 s.Delta).x2) (E.cand s.iter s.x1 s.Delta))
      (E.cand s.iter s.x1 s.Delta).status (accurate C (E.ngf E.x0) s.ngf1) s.f1
      (E.f (E.cand s.iter s.x1 s.Delta).x2) = false) :
    s'.x1 = s.x1 ∧ s'.f1 = s.f1 ∧ s'.ngf1 = s.ngf1 ∧ s'.isstop = s.isstop ∧ s'.iter = s.iter + 1 := by
  obtain ⟨D, hD, hw⟩ := pass_next hp
  rcases hw with ⟨ha, _⟩ | ⟨_, hw⟩
  · rw [hr] at ha; simp at ha
  · obtain ⟨e1, e2, e3, e4, e5, e6, e7, e8, e9, e10⟩ := writeHist_next hw
    exact ⟨e3, e4, e6, e2, e1⟩

/-- Every run ends in a state that agrees, in iterate, value and list of iterates, with a state at the loop head. -/
theorem finished_reaches {C : Cfg K} {E : Env K X} :
    ∀ (n : Nat) (s t : St K X), Reaches C E s → loop C E n s = .finished t →
      ∃ r, Reaches C E r ∧ t.x1 = r.x1 ∧ t.f1 = r.f1 ∧ t.ngf1 = r.ngf1 ∧ t.xs = r.xs ∧ t.iter = r.iter := by
  intro n
  induction n with
  | zero => intro s t _ h; simp [loop] at h
  | succ n ih =>
    intro s t hs h
    simp only [loop] at h
    by_cases hc : s.continues C = true
    · rw [if_pos hc] at h
      cases hp : pass C E s with
      | outOfBounds => simp [hp] at h
      | divByZero => simp [hp] at h
      | stop s' =>
        simp only [hp, Outcome.finished.injEq] at h
        subst h
        refine ⟨s, hs, ?_⟩
        unfold pass at hp
        simp only [] at hp
        split at hp
        · simp only [Pass.stop.injEq] at hp
          subst hp
          simp
        · split at hp
          · simp only [Pass.stop.injEq] at hp
            subst hp
            simp
          · split at hp <;> · unfold St.writeHist at hp; split at hp <;> (try split at hp) <;> (try split at hp) <;> simp at hp
      | next s' =>
        simp only [hp] at h
        exact ih s' t (Reaches.step hs hc hp) h
    · rw [if_neg hc] at h
      simp only [Outcome.finished.injEq] at h
      subst h
      exact ⟨s, hs, rfl, rfl, rfl, rfl, rfl⟩

/-- **C20 (result of a run, partial).** The point a trust-region run returns is the last of its iterates, the reported objective value and
gradient norm are those of this point, and under the hypotheses of `C20_iterates_decrease_partial` the value is the smallest one over all iterates, in
particular at most the starting value. In particular a candidate that was not accepted is never returned, also when the run ends because
of a non-finite objective or a too small radius. -/
theorem C20_result_partial {C : Cfg K} {E : Env K X} {fuel : Nat} {t : St K X} (hrun : run C E fuel = .finished t)
    (hrho : 0 ≤ C.acceptRho) (hi : 0 < C.initialDelta) (hmax : 0 < C.maximumDelta) (hsh : 0 < C.shrinked)
    (hmg : 0 < C.magnified) (hm : ∀ k x D, 0 < D → (E.cand k x D).finite = true → (E.cand k x D).mval < 0)
    (hna : ∀ x ∈ t.xs.tail, accurate C (E.ngf E.x0) (E.ngf x) = false) :
    t.xs.head? = some t.x1 ∧ t.f1 = E.f t.x1 ∧ t.ngf1 = E.ngf t.x1 ∧ E.x0 ∈ t.xs ∧ ∀ x ∈ t.xs, E.f t.x1 ≤ E.f x := by
  obtain ⟨r, hr, h1, h2, h3, h4, h5⟩ := finished_reaches fuel _ t Reaches.init hrun
  clear h5
  obtain ⟨b1, b2, b3, b4, b5⟩ := reaches_basic hr
  have hmem : E.x0 ∈ r.xs := by
    clear h1 h2 h3 h4 b1 b2 b3 b4 b5
    induction hr with
    | init => simp [St.init]
    | step _ _ hp ih =>
      obtain ⟨D, _, ⟨_, hw⟩ | ⟨_, hw⟩⟩ := pass_next hp
      · rw [(writeHist_next hw).2.2.2.2.2.2.2.1]; exact List.mem_cons_of_mem _ ih
      · rw [(writeHist_next hw).2.2.2.2.2.2.2.1]; exact List.mem_cons_of_mem _ ih
  have hpw := C20_iterates_decrease_partial hr hrho hi hmax hsh hmg hm (h4 ▸ hna)
  rw [h1, h2, h3, h4]
  refine ⟨b3, b1, b2, hmem, ?_⟩
  match hxs : r.xs with
  | [] => simp
  | y :: ys =>
    rw [hxs] at b3 hpw
    simp only [List.head?_cons, Option.some.injEq] at b3
    subst b3
    intro x hx
    rcases List.mem_cons.mp hx with hx | hx
    · rw [hx]
    · rcases (List.pairwise_cons.mp hpw).1 x hx with h | h
      · rw [h]
      · exact h.le

/-- **C19 (radius rule).** Over one pass that continues: the radius grows only when the ratio exceeds 3/4 and the inner solver stopped at the
boundary, by negative curvature or at its iteration cap, and then it is multiplied by `Magnified_tau` up to the maximum; it shrinks
only when the ratio is below 1/4 and the accuracy test fails, or to be cut to the maximum; a poor ratio away from the
accuracy region always shrinks it by exactly `Shrinked_tau`. -/
theorem C19_radius_rule {C : Cfg K} {E : Env K X} {s s' : St K X} (hp : pass C E s = .next s')
    (hpos : 0 < s.Delta) (hle : s.Delta ≤ C.maximumDelta) (hsh : C.shrinked < 1) (hmg : 1 ≤ C.magnified) :
    let c := E.cand s.iter s.x1 s.Delta
    let rho := ratio s.f1 (E.f c.x2) c
    let edge := c.status = .excRegion ∨ c.status = .negCurv ∨ c.status = .maxIter
    (s.Delta < s'.Delta → rho.gt (3 / 4) = true ∧ edge) ∧
    (rho.gt (3 / 4) = true → edge → s'.Delta = min (s.Delta * C.magnified) C.maximumDelta) ∧
    (s'.Delta < s.Delta → rho.lt (1 / 4) = true ∧ ¬ s.ngf1 / (E.ngf E.x0 + C.tolerance) < C.accuracy) ∧
    (rho.lt (1 / 4) = true → ¬ s.ngf1 / (E.ngf E.x0 + C.tolerance) < C.accuracy → s'.Delta = s.Delta * C.shrinked) := by
  intro c rho edge
  obtain ⟨D, hD, hw⟩ := pass_next hp
  have hDelta : s'.Delta = D := by
    rcases hw with ⟨_, hw⟩ | ⟨_, hw⟩
    · exact (writeHist_next hw).2.2.2.2.2.2.1
    · exact (writeHist_next hw).2.2.2.2.2.2.1
  rw [hDelta]
  change radius C rho c.status (accurate C (E.ngf E.x0) s.ngf1) s.Delta = some D at hD
  have hexcl : rho.gt (3 / 4) = true → rho.lt (1 / 4) = false := by
    intro h
    cases hr : rho with
    | num v =>
      rw [hr] at h
      simp only [Ratio.gt, Ratio.lt, decide_eq_true_eq, decide_eq_false_iff_not, not_lt] at h ⊢
      have : (1 / 4 : K) < 3 / 4 := by norm_num
      exact (lt_trans this h).le
    | posInf => rfl
    | negInf => rw [hr] at h; simp [Ratio.gt] at h
    | nan => rfl
  have hgrow : s.Delta ≤ s.Delta * C.magnified := le_mul_of_one_le_right hpos.le hmg
  have hshr : s.Delta * C.shrinked < s.Delta := by nlinarith
  unfold radius at hD
  by_cases hg : rho.gt (3 / 4) = true
  · rw [if_pos hg] at hD
    simp only [Option.some.injEq] at hD
    have hl := hexcl hg
    by_cases he : edge
    · have he' : c.status = .excRegion ∨ c.status = .negCurv ∨ c.status = .maxIter := he
      rw [if_pos he'] at hD
      have hDm : D = min (s.Delta * C.magnified) C.maximumDelta := by
        rw [← hD]
        split
        · rename_i h; exact (min_eq_right h.le).symm
        · rename_i h; exact (min_eq_left (not_lt.mp h)).symm
      refine ⟨fun _ => ⟨hg, he⟩, fun _ _ => hDm, fun h => ?_, fun h => by rw [hl] at h; simp at h⟩
      rw [hDm] at h
      exact absurd h (not_lt.mpr (le_min hgrow hle))
    · have he' : ¬ (c.status = .excRegion ∨ c.status = .negCurv ∨ c.status = .maxIter) := he
      rw [if_neg he', if_neg (not_lt.mpr hle)] at hD
      rw [← hD]
      exact ⟨fun h => absurd h (lt_irrefl _), fun _ h => absurd h he, fun h => absurd h (lt_irrefl _),
        fun h => by rw [hl] at h; simp at h⟩
  · rw [if_neg hg] at hD
    by_cases hl : rho.lt (1 / 4) = true
    · by_cases ha : s.ngf1 / (E.ngf E.x0 + C.tolerance) < C.accuracy
      · have hacc : accurate C (E.ngf E.x0) s.ngf1 = true := decide_eq_true ha
        rw [if_neg (by rw [hl, hacc]; decide)] at hD
        simp only [Option.some.injEq] at hD
        rw [← hD]
        exact ⟨fun h => absurd h (lt_irrefl _), fun h => absurd h hg, fun h => absurd h (lt_irrefl _),
          fun _ h => absurd ha h⟩
      · have hacc : accurate C (E.ngf E.x0) s.ngf1 = false := decide_eq_false ha
        rw [if_pos (by rw [hl, hacc]; rfl)] at hD
        simp only [] at hD
        split at hD
        · simp at hD
        · simp only [Option.some.injEq] at hD
          rw [← hD]
          exact ⟨fun h => absurd h (not_lt.mpr hshr.le), fun h => absurd h hg, fun _ => ⟨hl, ha⟩, fun _ _ => rfl⟩
    · rw [if_neg (by rw [Bool.eq_false_iff.mpr hl]; simp)] at hD
      simp only [Option.some.injEq] at hD
      rw [← hD]
      exact ⟨fun h => absurd h (lt_irrefl _), fun h => absurd h hg, fun h => absurd h (lt_irrefl _), fun h => absurd h hl⟩

end

/-! ### Concrete runs over the rationals -/

/-- Final state of a run that ended. -/
def Outcome.state : Outcome K X → Option (St K X)
  | .finished s => some s
  | _ => none

/-- Default-like parameters. -/
def exCfg : Cfg ℚ :=
  { maxIter := 2, minIter := 0, outputGap := 1, record := true, initialDelta := 1, maximumDelta := 10
    minimumDelta := 1 / 1000, magnified := 2, shrinked := 1 / 4, acceptRho := 1 / 10, accuracy := 1 / 1000000
    tolerance := 1 / 1000000, sqeps := 1 / 100000000 }

/-- Integer points, objective `x^2`, gradient norm `|2 x|`, start at 1; the first candidate is bad (7), the second good (0). -/
def exEnv : Env ℚ ℤ :=
  { x0 := 1, f := fun x => (x * x : ℤ), ngf := fun x => (|2 * x| : ℤ)
    cand := fun k _ _ =>
      { x2 := if k = 0 then 7 else 0, mval := -1, status := .excRegion, finite := true, zeroRatio := .nan }
    stopped0 := false, stopped := fun _ _ _ => false }

/-- The hypotheses of `C13_tr_run_finishes`, `C19_radius_bounds_partial` and `C20_iterates_decrease_partial` can be met, and the
run really rejects and accepts. -/
example : exCfg.minIter ≤ exCfg.maxIter ∧ exCfg.outputGap ≠ 0 ∧ (0 : ℚ) ≤ exCfg.minimumDelta ∧
    exCfg.minimumDelta ≤ exCfg.initialDelta ∧ exCfg.initialDelta ≤ exCfg.maximumDelta ∧ 1 ≤ exCfg.magnified ∧
    exCfg.acceptRho < 1 / 4 ∧ exCfg.shrinked ^ 8 * exCfg.maximumDelta < exCfg.minimumDelta ∧
    (run exCfg exEnv 3).state.map (fun s => (s.xs, s.Delta)) = some ([0, 1, 1], 1 / 2) := by
  decide +kernel

/-- The hypotheses of `C20_result_partial` for a concrete run (the accuracy branch becomes active only at its last point). -/
example : (∀ k x D, (exEnv.cand k x D).mval < 0) ∧
    (run exCfg exEnv 3).state.map (fun s => (s.x1, s.f1,
      s.xs.tail.map (fun x => accurate exCfg (exEnv.ngf exEnv.x0) (exEnv.ngf x)))) = some (0, 0, [false, false]) := by
  exact ⟨fun k x D => by simp [exEnv], by decide +kernel⟩

/-- **C20: the recorded history contains rejected trial values.** Although the iterate never gets worse than the starting point
(value 1), entry 1 of the recorded objective history is 49, next to a gradient norm (2) that belongs to a different
point. -/
theorem C20_history_records_rejected_values :
    (run exCfg exEnv 3).state.map (fun s => (s.funSeries, s.gradSeries, s.xs)) =
      some ([some 1, some 49, some 0], [some 2, some 2, some 0], [0, 1, 1]) := by
  decide +kernel

/-- Start with `Accuracy = 1`-like setting: the accuracy branch is active at once. -/
def accCfg : Cfg ℚ := { exCfg with accuracy := 1, maxIter := 1 }

def accEnv : Env ℚ ℤ :=
  { exEnv with
    cand := fun _ _ _ => { x2 := 7, mval := -1, status := .lCon, finite := true, zeroRatio := .nan } }

/-- **C20 is false in the accuracy branch**: a candidate inside the region is accepted although the objective grows from
1 to 49. -/
theorem C20_accuracy_branch_accepts_increase :
    (run accCfg accEnv 3).state.map (fun s => (s.x1, s.f1, s.xs)) = some (7, 49, [7, 1]) := by
  decide +kernel

/-- A run that rejects with the ratio NaN (zero model value, equal objective values): neither accepted nor shrunk. -/
def nanEnv : Env ℚ ℤ :=
  { exEnv with
    cand := fun _ x _ => { x2 := x, mval := 0, status := .excRegion, finite := true, zeroRatio := .nan } }

/-- The hypothesis "nonzero model values" of `C19_rejections_bounded` is needed: with a NaN ratio a rejection leaves the
radius unchanged. -/
theorem C19_nan_ratio_keeps_radius :
    (run exCfg nanEnv 3).state.map (fun s => (s.streak, s.Delta, s.iter)) = some (2, exCfg.initialDelta, 2) := by
  decide +kernel

/-! ## C59: the stopping test (tolerance, time limit, user callback) is honoured -/

/-- A pass that rejects its candidate for every environment: the objective is constant on trial points above the start. -/
def RejectsAll (C : Cfg K) (E : Env K X) : Prop :=
  ∀ s, Reaches C E s → s.continues C = true →
    ∃ s', pass C E s = .next s' ∧
      accepts C (ratio s.f1 (E.f (E.cand s.iter s.x1 s.Delta).x2) (E.cand s.iter s.x1 s.Delta))
        (E.cand s.iter s.x1 s.Delta).status (accurate C (E.ngf E.x0) s.ngf1) s.f1
        (E.f (E.cand s.iter s.x1 s.Delta).x2) = false

theorem loop_rejects [IsStrictOrderedRing K] {C : Cfg K} {E : Env K X} (hm : C.minIter ≤ C.maxIter)
    (hg : C.outputGap ≠ 0) (hrej : RejectsAll C E) :
    ∀ (n : Nat) (s : St K X), Reaches C E s → s.isstop = false → C.maxIter + 1 ≤ n + s.iter →
      ∃ s', loop C E n s = .finished s' ∧ s'.iter = C.maxIter ∧ s'.x1 = s.x1 := by
  intro n
  induction n with
  | zero =>
    intro s hs _ hn
    have := iter_le hm hs
    omega
  | succ n ih =>
    intro s hs hst hn
    have hle := iter_le hm hs
    simp only [loop]
    by_cases hc : s.continues C = true
    · rw [if_pos hc]
      obtain ⟨s', hp, hr⟩ := hrej s hs hc
      obtain ⟨k1, k2, k3, k4, k5⟩ := C20_rejection_keeps_iterate hp hr
      rw [hp]
      obtain ⟨t, ht1, ht2, ht3⟩ := ih s' (Reaches.step hs hc hp) (by rw [k4, hst]) (by omega)
      exact ⟨t, ht1, ht2, by rw [ht3, k1]⟩
    · rw [if_neg hc]
      refine ⟨s, rfl, ?_, rfl⟩
      unfold St.continues at hc
      simp only [hst, Bool.not_false, Bool.true_and, Bool.or_eq_true, decide_eq_true_eq, not_or, not_lt] at hc
      omega

/-- **C59 is false for the trust-region solvers**: whatever the stopping test (tolerance, time limit, user callback) says after
the start, a run whose candidates are all rejected performs all `Max_Iteration` iterations. The test is evaluated only when a
candidate is accepted. -/
theorem C59_tr_stop_test_ignored_on_rejection [IsStrictOrderedRing K] {C : Cfg K} {E : Env K X}
    (hm : C.minIter ≤ C.maxIter) (hg : C.outputGap ≠ 0) (h0 : E.stopped0 = false) (hrej : RejectsAll C E)
    (fuel : Nat) (hf : C.maxIter + 1 ≤ fuel) :
    ∃ s, run C E fuel = .finished s ∧ s.iter = C.maxIter ∧ s.x1 = E.x0 := by
  obtain ⟨s, h1, h2, h3⟩ := loop_rejects hm hg hrej fuel _ Reaches.init (by simpa [St.init] using h0)
    (by simpa [St.init] using hf)
  exact ⟨s, h1, h2, h3⟩

/-- **C59 (trust region, partial).** After an accepted candidate for which the stopping test holds no further pass is made once
`Min_Iteration` is reached. -/
theorem C59_tr_stops_after_accept_partial [IsStrictOrderedRing K] {C : Cfg K} {E : Env K X} {s s' : St K X}
    (hp : pass C E s = .next s')
    (ha : accepts C (ratio s.f1 (E.f (E.cand s.iter s.x1 s.Delta).x2) (E.cand s.iter s.x1 s.Delta))
      (E.cand s.iter s.x1 s.Delta).status (accurate C (E.ngf E.x0) s.ngf1) s.f1
      (E.f (E.cand s.iter s.x1 s.Delta).x2) = true)
    (hst : E.stopped s.iter s.x1 (E.cand s.iter s.x1 s.Delta).x2 = true) (hmin : C.minIter ≤ s.iter + 1) :
    ∀ n, loop C E (n + 1) s' = .finished s' := by
  obtain ⟨D, hD, hw⟩ := pass_next hp
  rcases hw with ⟨_, hw⟩ | ⟨hr, _⟩
  · obtain ⟨e1, e2, e3, e4, e5, e6, e7, e8, e9, e10⟩ := writeHist_next hw
    intro n
    simp only [loop]
    rw [if_neg]
    unfold St.continues
    rw [e1, e2]
    simp only [St.accept, hst, Bool.not_true, Bool.false_and, Bool.false_or, decide_eq_true_eq]
    omega
  · rw [ha] at hr; simp at hr

/-- An environment in which every candidate is rejected although the stopping test always holds. -/
def stubbornEnv : Env ℚ ℤ :=
  { exEnv with
    cand := fun _ _ _ => { x2 := 7, mval := -1, status := .excRegion, finite := true, zeroRatio := .nan }
    stopped := fun _ _ _ => true }

/-- A concrete case: the stopping test always holds, the run still makes both iterations. -/
example : (run exCfg stubbornEnv 5).state.map (fun s => (s.iter, s.x1)) = some (2, 1) := by
  decide +kernel

end Verif.TRRun
