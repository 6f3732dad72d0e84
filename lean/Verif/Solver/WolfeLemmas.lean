import Verif.Solver.ArmijoLemmas

/-! Helper lemmas about the strong and weak Wolfe searches. -/

set_option linter.unusedSectionVars false

namespace Verif.Solver

variable {K : Type} [Field K] [LinearOrder K]

/-- What success of a strong Wolfe search means. -/
def StrongWolfePoint (P : LSParams K) (φ : Ray K) (r : Search K) : Prop :=
  Fresh φ r ∧ r.gradAt = some r.step ∧ r.newslope = some (φ.der r.step) ∧
    φ.phi r.step ≤ φ.f0 + P.alpha * r.step * φ.slope ∧
    |φ.der r.step| ≤ -P.beta * φ.slope

theorem zoom_success (P : LSParams K) (φ : Ray K) (I : Interp K) (k : Nat)
    (xlo xhi : K) (flo fhi : Option K) (slo : K) (s : Search K)
    (h : (zoom P φ I k xlo xhi flo fhi slo s).status = .success) :
    StrongWolfePoint P φ (zoom P φ I k xlo xhi flo fhi slo s) := by
  induction k generalizing xlo xhi flo fhi slo s with
  | zero => simp [zoom] at h
  | succ k ih =>
    rw [zoom] at h ⊢
    dsimp only at h ⊢
    split at h
    · rename_i h1
      rw [if_pos h1]
      split at h
      · cases h
      · rename_i h2; rw [if_neg h2]; exact ih _ _ _ _ _ _ h
    · rename_i h1
      rw [if_neg h1]
      split at h
      · rename_i h2
        rw [if_pos h2]
        refine ⟨⟨rfl, rfl⟩, rfl, rfl, ?_, h2⟩
        have := not_or.mp h1
        exact not_lt.mp this.1
      · rename_i h2
        rw [if_neg h2]
        split at h
        · cases h
        · rename_i h3; rw [if_neg h3]; exact ih _ _ _ _ _ _ h

theorem strongWolfeLoop_success (P : LSParams K) (φ : Ray K) (I : Interp K) (n : Nat)
    (pre : K) (fpre : Option K) (sp : K) (s r : Search K)
    (h : strongWolfeLoop P φ I n pre fpre sp s = some r) (hs : r.status = .success) :
    StrongWolfePoint P φ r := by
  induction n generalizing pre fpre sp s with
  | zero => simp [strongWolfeLoop] at h
  | succ n ih =>
    rw [strongWolfeLoop] at h
    dsimp only at h
    split at h
    · injection h with h; subst h; exact zoom_success _ _ _ _ _ _ _ _ _ _ hs
    · rename_i h1
      split at h
      · rename_i h2
        injection h with h; subst h
        exact ⟨⟨rfl, rfl⟩, rfl, rfl, not_lt.mp (not_or.mp h1).1, h2⟩
      · split at h
        · injection h with h; subst h; exact zoom_success _ _ _ _ _ _ _ _ _ _ hs
        · split at h
          · injection h with h; subst h; cases hs
          · exact ih _ _ _ _ h

/-- Maximum-step status of the strong Wolfe search: the step is the maximum, sufficient decrease
holds, the trial is fresh and the gradient is up to date. -/
theorem strongWolfeLoop_max (P : LSParams K) (φ : Ray K) (I : Interp K) (n : Nat)
    (pre : K) (fpre : Option K) (sp : K) (s r : Search K)
    (h : strongWolfeLoop P φ I n pre fpre sp s = some r) (hs : r.status = .maxStepSize)
    (hst : s.status = .success) :
    Fresh φ r ∧ r.gradAt = some r.step ∧ r.step = P.maxStep ∧
      φ.phi r.step ≤ φ.f0 + P.alpha * r.step * φ.slope := by
  have zoom_max : ∀ k xlo xhi flo fhi slo (s : Search K), s.status = .success →
      (zoom P φ I k xlo xhi flo fhi slo s).status ≠ .maxStepSize := by
    intro k
    induction k with
    | zero => intros; simp [zoom]
    | succ k ih =>
      intro xlo xhi flo fhi slo s hst
      rw [zoom]
      dsimp only
      split
      · split
        · simp
        · apply ih; simpa [evalH] using hst
      · split
        · simp [evalDh, evalH, hst]
        · split
          · simp
          · apply ih; simpa [evalH, evalDh] using hst
  induction n generalizing pre fpre sp s with
  | zero => simp [strongWolfeLoop] at h
  | succ n ih =>
    rw [strongWolfeLoop] at h
    dsimp only at h
    split at h
    · injection h with h; subst h; exact absurd hs (zoom_max _ _ _ _ _ _ _ hst)
    · rename_i h1
      split at h
      · injection h with h; subst h; simp [evalDh, evalH, hst] at hs
      · split at h
        · injection h with h; subst h; exact absurd hs (zoom_max _ _ _ _ _ _ _ hst)
        · split at h
          · rename_i h4
            injection h with h; subst h
            exact ⟨⟨rfl, rfl⟩, rfl, h4, not_lt.mp (not_or.mp h1).1⟩
          · exact ih _ _ _ _ h hst

variable [IsStrictOrderedRing K]

theorem extendStep_bounds (P : LSParams K) (I : Interp K) (t f2 : K) :
    extendStep P I t f2 = P.maxStep ∨
      ((11 / 10) * t ≤ extendStep P I t f2 ∧ extendStep P I t f2 < P.maxStep) := by
  unfold extendStep
  cases I.extend t f2 with
  | none => dsimp only; split <;> simp_all
  | some v =>
    dsimp only
    by_cases h1 : (11 / 10) * t < v
    · rw [if_pos h1]
      split
      · rename_i h; exact Or.inr ⟨h1.le, h⟩
      · exact Or.inl rfl
    · rw [if_neg h1]
      split
      · rename_i h; exact Or.inr ⟨le_refl _, h⟩
      · exact Or.inl rfl

/-- The strong Wolfe loop ends: the step grows by at least the factor 1.1 until it reaches the
maximum. -/
theorem strongWolfeLoop_total (P : LSParams K) (φ : Ray K) (I : Interp K) (n : Nat)
    (pre : K) (fpre : Option K) (sp : K) (s : Search K) (hs : 0 < s.step)
    (hn : P.maxStep ≤ s.step * (11 / 10) ^ n) :
    (strongWolfeLoop P φ I (n + 2) pre fpre sp s).isSome := by
  have atMax : ∀ m pre fpre sp (s : Search K), s.step = P.maxStep →
      (strongWolfeLoop P φ I (m + 1) pre fpre sp s).isSome := by
    intro m pre fpre sp s h
    rw [strongWolfeLoop]
    dsimp only
    split
    · rfl
    · split
      · rfl
      · split
        · rfl
        · rw [if_pos (by simpa [evalH, evalDh] using h)]; rfl
  induction n generalizing pre fpre sp s with
  | zero =>
    rw [strongWolfeLoop]
    dsimp only
    split
    · rfl
    · split
      · rfl
      · split
        · rfl
        · split
          · rfl
          · apply atMax
            simp only [evalH, evalDh]
            rcases extendStep_bounds P I s.step (φ.phi s.step) with h | ⟨h1, h2⟩
            · exact h
            · exfalso; simp at hn; nlinarith
  | succ n ih =>
    rw [strongWolfeLoop]
    dsimp only
    split
    · rfl
    · split
      · rfl
      · split
        · rfl
        · split
          · rfl
          · rcases extendStep_bounds P I s.step (φ.phi s.step) with h | ⟨h1, h2⟩
            · apply atMax
              simpa only [evalH, evalDh] using h
            · apply ih
              · simp only [evalH, evalDh]; linarith
              · simp only [evalH, evalDh]
                refine le_trans hn ?_
                have : (0 : K) ≤ (11 / 10) ^ n := pow_nonneg (by norm_num) n
                calc s.step * (11 / 10) ^ (n + 1) = ((11 / 10) * s.step) * (11 / 10) ^ n := by ring
                  _ ≤ _ := mul_le_mul_of_nonneg_right h1 this

/-! ### Weak Wolfe -/

/-- A trial whose value and (if computed) slope belong to the current step. -/
def Evaluated (φ : Ray K) (s : Search K) : Prop :=
  Fresh φ s ∧ s.gradAt = some s.step ∧ s.newslope = some (φ.der s.step)

/-- Sufficient decrease at step `t`. -/
def Decr (P : LSParams K) (φ : Ray K) (t : K) : Prop :=
  φ.phi t ≤ φ.f0 + P.alpha * t * φ.slope

/-- Slope too negative at step `t`. -/
def Steep (P : LSParams K) (φ : Ray K) (t : K) : Prop := φ.der t < P.beta * φ.slope

theorem not_violates {P : LSParams K} {φ : Ray K} {s : Search K} (hf : Fresh φ s) :
    ¬ violates P φ s ↔ Decr P φ s.step := by
  unfold violates Decr; rw [not_lt, hf.2]

theorem steep_iff {P : LSParams K} {φ : Ray K} {s : Search K} (he : Evaluated φ s) :
    steep P φ s ↔ Steep P φ s.step := by
  unfold steep Steep; rw [he.2.2]

/-- Result of the doubling loop started at a fully evaluated steep point with sufficient
decrease: either it is at a violating point whose slope is the (steep) slope of the previous
step, or it is at a fully evaluated point with sufficient decrease that is not steep, is at the
maximum, or has been reached by doubling `k` times through steep points. -/
theorem doubling_spec (P : LSParams K) (φ : Ray K) (k : Nat) (pre fpre : K) (s : Search K)
    (he : Evaluated φ s) (hd : Decr P φ s.step) (hs : Steep P φ s.step) (hp : 0 < s.step) :
    ∀ pre' fpre' s', doubling P φ k pre fpre s = (pre', fpre', s') →
      s'.status = s.status ∧ Fresh φ s' ∧ 0 < s'.step ∧
      ((violates P φ s' ∧ steep P φ s' ∧ pre' ≤ s'.step) ∨
       (Evaluated φ s' ∧ Decr P φ s'.step ∧
         (¬ Steep P φ s'.step ∨ P.maxStep ≤ s'.step ∨
           (s'.step = 2 ^ k * s.step ∧ ∀ i ≤ k, Decr P φ (2 ^ i * s.step) ∧
              Steep P φ (2 ^ i * s.step))))) := by
  induction k generalizing pre fpre s with
  | zero =>
    intro pre' fpre' s' h
    simp only [doubling, Prod.mk.injEq] at h
    obtain ⟨rfl, rfl, rfl⟩ := h
    refine ⟨rfl, he.1, hp, Or.inr ⟨he, hd, Or.inr (Or.inr ⟨by simp, ?_⟩)⟩⟩
    intro i hi
    obtain rfl : i = 0 := by omega
    simpa using ⟨hd, hs⟩
  | succ k ih =>
    intro pre' fpre' s' h
    rw [doubling] at h
    split at h
    · rename_i hc
      dsimp only at h
      set t := if 2 * s.step < P.maxStep then 2 * s.step else P.maxStep with ht
      have ht0 : s.step ≤ t := by
        rw [ht]; split
        · linarith
        · exact hc.2.2.le
      have htp : 0 < t := lt_of_lt_of_le hp ht0
      by_cases hv : violates P φ (evalH φ { s with step := t })
      · rw [if_pos hv] at h
        have hst : steep P φ (evalH φ { s with step := t }) := by
          have : steep P φ s := hc.2.1
          unfold steep at this ⊢
          simpa [evalH] using this
        have hstop : doubling P φ k s.step s.f2 (evalH φ { s with step := t }) =
            (s.step, s.f2, evalH φ { s with step := t }) := by
          cases k with
          | zero => rfl
          | succ k => rw [doubling]; rw [if_neg]; intro hcon; exact hcon.1 hv
        rw [hstop] at h
        simp only [Prod.mk.injEq] at h
        obtain ⟨rfl, rfl, rfl⟩ := h
        exact ⟨rfl, evalH_fresh _ _, by simpa [evalH] using htp,
          Or.inl ⟨hv, hst, by simpa [evalH] using ht0⟩⟩
      · rw [if_neg hv] at h
        have he2 : Evaluated φ (evalDh φ (evalH φ { s with step := t })) :=
          ⟨⟨rfl, rfl⟩, rfl, rfl⟩
        have hd2 : Decr P φ t := (not_violates (evalH_fresh φ { s with step := t })).mp hv
        by_cases hs2 : Steep P φ t
        · have := ih s.step s.f2 _ he2 (by simpa [evalDh, evalH] using hd2)
            (by simpa [evalDh, evalH] using hs2) (by simpa [evalDh, evalH] using htp) _ _ _ h
          obtain ⟨a, b, c, d⟩ := this
          refine ⟨a, b, c, ?_⟩
          rcases d with d | ⟨d1, d2, d3⟩
          · exact Or.inl d
          · refine Or.inr ⟨d1, d2, ?_⟩
            rcases d3 with d3 | d3 | ⟨d3, d4⟩
            · exact Or.inl d3
            · exact Or.inr (Or.inl d3)
            · simp only [evalDh, evalH] at d3 d4
              by_cases hm : 2 * s.step < P.maxStep
              · rw [if_pos hm] at ht
                right; right
                refine ⟨by rw [d3, ht]; ring, ?_⟩
                intro i hi
                match i with
                | 0 => simpa using ⟨hd, hs⟩
                | i + 1 =>
                  have := d4 i (by omega)
                  rw [ht] at this
                  rwa [show (2 : K) ^ (i + 1) * s.step = 2 ^ i * (2 * s.step) by ring]
              · rw [if_neg hm] at ht
                right; left
                rw [d3, ht]
                have : (1 : K) ≤ 2 ^ k := one_le_pow₀ (by norm_num)
                have hpos : 0 < P.maxStep := ht ▸ htp
                nlinarith
        · have hstop : doubling P φ k s.step s.f2 (evalDh φ (evalH φ { s with step := t })) =
              (s.step, s.f2, evalDh φ (evalH φ { s with step := t })) := by
            cases k with
            | zero => rfl
            | succ k =>
              rw [doubling, if_neg]
              intro hcon; exact hs2 ((steep_iff he2).mp hcon.2.1)
          rw [hstop] at h
          simp only [Prod.mk.injEq] at h
          obtain ⟨rfl, rfl, rfl⟩ := h
          exact ⟨rfl, ⟨rfl, rfl⟩, by simpa [evalDh, evalH] using htp,
            Or.inr ⟨he2, hd2, Or.inl hs2⟩⟩
    · rename_i hc
      simp only [Prod.mk.injEq] at h
      obtain ⟨rfl, rfl, rfl⟩ := h
      refine ⟨rfl, he.1, hp, Or.inr ⟨he, hd, ?_⟩⟩
      have h1 := (not_violates (P := P) he.1).mpr hd
      have h2 := (steep_iff (P := P) he).mpr hs
      right; left
      by_contra hcon
      exact hc ⟨h1, h2, not_le.mp hcon⟩

/-- The bracketing loop: if it ends at a point whose recorded slope is not steep then that point is
a fully evaluated Wolfe point. -/
theorem bracketing_spec (P : LSParams K) (φ : Ray K) (I : Interp K) (k : Nat)
    (lo diff flo fhi : K) (s : Search K)
    (hinv : steep P φ s ∨ (Evaluated φ s ∧ Decr P φ s.step ∧ ¬ Steep P φ s.step)) :
    (bracketing P φ I k lo diff flo fhi s).status = s.status ∧
    (steep P φ (bracketing P φ I k lo diff flo fhi s) ∨
      (Evaluated φ (bracketing P φ I k lo diff flo fhi s) ∧
        Decr P φ (bracketing P φ I k lo diff flo fhi s).step ∧
        ¬ Steep P φ (bracketing P φ I k lo diff flo fhi s).step)) := by
  induction k generalizing lo diff flo fhi s with
  | zero => exact ⟨rfl, hinv⟩
  | succ k ih =>
    rw [bracketing]
    split
    · rename_i hc
      dsimp only
      set incr := if I.wolfeIncr (s.newslope.getD 0) diff flo fhi < (2 / 10) * diff then
        (2 / 10) * diff else I.wolfeIncr (s.newslope.getD 0) diff flo fhi with hincr
      have hsteep : steep P φ s := by
        rcases hinv with h | ⟨h1, h2, h3⟩
        · exact h
        · exfalso
          rcases hc.1 with hv | hv
          · exact (not_violates h1.1).mpr h2 hv
          · exact h3 ((steep_iff h1).mp hv)
      split
      · apply ih
        left
        unfold steep at hsteep ⊢
        simpa [evalH] using hsteep
      · rename_i hv
        have he2 : Evaluated φ (evalDh φ (evalH φ { s with step := lo + incr })) :=
          ⟨⟨rfl, rfl⟩, rfl, rfl⟩
        have hd2 : Decr P φ (lo + incr) := (not_violates (evalH_fresh φ _)).mp hv
        split
        · rename_i hs2
          exact ih _ _ _ _ _ (Or.inl hs2)
        · rename_i hs2
          exact ih _ _ _ _ _ (Or.inr ⟨he2, hd2, fun h => hs2 ((steep_iff he2).mpr h)⟩)
    · exact ⟨rfl, hinv⟩

/-- Outcome of the second half of the weak Wolfe search. -/
theorem wolfeFound_success (P : LSParams K) (φ : Ray K) (I : Interp K) (init pre fpre : K)
    (s : Search K) (hf : Fresh φ s) (hd : Decr P φ s.step) (hp : 0 < s.step)
    (h : (wolfeFound P φ I init pre fpre s).status = .success) :
    (Evaluated φ (wolfeFound P φ I init pre fpre s) ∧
      Decr P φ (wolfeFound P φ I init pre fpre s).step ∧
      (¬ Steep P φ (wolfeFound P φ I init pre fpre s).step ∨
        ∃ t, 0 < t ∧ (wolfeFound P φ I init pre fpre s).step = 2 ^ 11 * t ∧
          ∀ i ≤ 11, Decr P φ (2 ^ i * t) ∧ Steep P φ (2 ^ i * t))) ∨
    ((wolfeFound P φ I init pre fpre s).step = init ∧
      Fresh φ (wolfeFound P φ I init pre fpre s) ∧
      ¬ Decr P φ (wolfeFound P φ I init pre fpre s).step) := by
  have he : Evaluated φ (evalDh φ s) :=
    ⟨hf, by simp [evalDh, hf.1], by simp [evalDh, hf.1]⟩
  unfold wolfeFound at h ⊢
  dsimp only at h ⊢
  by_cases hst : steep P φ (evalDh φ s)
  · simp only [if_pos hst] at h ⊢
    obtain ⟨pre', fpre', s', hdb⟩ : ∃ a b c, doubling P φ 11 pre fpre (evalDh φ s) = (a, b, c) :=
      ⟨_, _, _, rfl⟩
    simp only [hdb] at h ⊢
    obtain ⟨d0, d1, d2, d3⟩ := doubling_spec P φ 11 pre fpre (evalDh φ s) he hd
      ((steep_iff he).mp hst) hp _ _ _ hdb
    by_cases hmax : P.maxStep ≤ s'.step
    · rw [if_pos hmax] at h; cases h
    · rw [if_neg hmax] at h ⊢
      by_cases hb : s'.step ≠ init ∧ violates P φ s'
      · rw [if_pos hb] at h ⊢
        have hsteep' : steep P φ s' := by
          rcases d3 with d3 | ⟨e1, e2, _⟩
          · exact d3.2.1
          · exact absurd hb.2 ((not_violates e1.1).mpr e2)
        set b := bracketing P φ I 11 (if s'.step < pre' then s'.step else pre') |pre' - s'.step|
          (if s'.step < pre' then s'.f2 else fpre') (if s'.step < pre' then fpre' else s'.f2) s'
          with hbdef
        have hbs := bracketing_spec P φ I 11 (if s'.step < pre' then s'.step else pre')
          |pre' - s'.step| (if s'.step < pre' then s'.f2 else fpre')
          (if s'.step < pre' then fpre' else s'.f2) s' (Or.inl hsteep')
        rw [← hbdef] at hbs
        by_cases hsb : steep P φ b
        · rw [if_pos hsb] at h; cases h
        · rw [if_neg hsb]
          rcases hbs.2 with hh | ⟨e1, e2, e3⟩
          · exact absurd hh hsb
          · exact Or.inl ⟨e1, e2, Or.inl e3⟩
      · rw [if_neg hb] at h ⊢
        rcases d3 with ⟨v1, v2, v3⟩ | ⟨e1, e2, e3⟩
        · right
          have : s'.step = init := by
            by_contra hne; exact hb ⟨hne, v1⟩
          refine ⟨this, d1, ?_⟩
          intro hdd; exact (not_violates d1).mpr hdd v1
        · left
          refine ⟨e1, e2, ?_⟩
          rcases e3 with e3 | e3 | ⟨e3, e4⟩
          · exact Or.inl e3
          · exact absurd e3 hmax
          · exact Or.inr ⟨s.step, hp, e3, e4⟩
  · simp only [if_neg hst] at h ⊢
    exact Or.inl ⟨he, hd, Or.inl fun hh => hst ((steep_iff he).mpr hh)⟩

theorem wolfeReduce_pos (I : Interp K) (init t f2 pre fpre : K) (ht : 0 < t) :
    0 < wolfeReduce I init t f2 pre fpre := by
  have : (0 : K) < (1 / 100) * t := by linarith
  unfold wolfeReduce
  dsimp only
  generalize (if t = init then I.wolfeStep t f2 pre fpre else
    if (5 / 10) * t < I.wolfeStep t f2 pre fpre then (5 / 10) * t else I.wolfeStep t f2 pre fpre) = q
  split
  · exact this
  · rename_i h; exact lt_trans this (not_le.mp h)

theorem wolfeReduce_half (I : Interp K) (init t f2 pre fpre : K) (ht : 0 < t) (hne : t ≠ init) :
    wolfeReduce I init t f2 pre fpre ≤ (1 / 2) * t := by
  unfold wolfeReduce
  dsimp only
  rw [if_neg hne]
  by_cases h : (5 / 10) * t < I.wolfeStep t f2 pre fpre
  · rw [if_pos h]; split <;> linarith
  · rw [if_neg h]; split <;> linarith

theorem wolfeReduce_first (I : Interp K) (init f2 pre fpre : K) (ht : 0 < init)
    (hq : I.wolfeStep init f2 pre fpre < init) :
    wolfeReduce I init init f2 pre fpre < init := by
  unfold wolfeReduce
  dsimp only
  rw [if_pos rfl]
  split <;> linarith

/-- The minimiser of the parabola through the first trial, `SolversSMLS.cpp:779`, lies below the
trial when the trial fails the sufficient decrease test with `alpha <= 1/2`. -/
theorem quad_lt (a sl t f2 f0 : K) (ha : a ≤ 1 / 2) (hsl : sl < 0) (ht : 0 < t)
    (hv : f0 + a * t * sl < f2) : -sl * t * t / 2 / (f2 - f0 - sl * t) < t := by
  have h1 : (1 / 2) * (-sl * t) < f2 - f0 - sl * t := by
    have : 0 < -sl * t := by nlinarith
    nlinarith
  have h2 : 0 < -sl * t := by nlinarith
  have h3 : 0 < f2 - f0 - sl * t := by linarith
  rw [div_lt_iff₀ h3]
  nlinarith

theorem wolfeLoop_success (P : LSParams K) (φ : Ray K) (I : Interp K) (init : K) (n : Nat)
    (pre fpre : K) (s r : Search K)
    (h : wolfeLoop P φ I init n pre fpre s = some r) (hs : r.status = .success)
    (hp : 0 < s.step) :
    (Evaluated φ r ∧ Decr P φ r.step ∧
      (¬ Steep P φ r.step ∨ ∃ t, 0 < t ∧ r.step = 2 ^ 11 * t ∧
          ∀ i ≤ 11, Decr P φ (2 ^ i * t) ∧ Steep P φ (2 ^ i * t))) ∨
    (r.step = init ∧ Fresh φ r ∧ ¬ Decr P φ r.step) := by
  induction n generalizing pre fpre s with
  | zero => simp [wolfeLoop] at h
  | succ n ih =>
    rw [wolfeLoop] at h
    dsimp only at h
    split at h
    · split at h
      · injection h with h; subst h; cases hs
      · exact ih _ _ _ h (wolfeReduce_pos _ _ _ _ _ _ hp)
    · rename_i hv
      injection h with h; subst h
      exact wolfeFound_success P φ I init pre fpre _ (evalH_fresh _ _)
        ((not_violates (evalH_fresh _ _)).mp hv) hp hs

/-- The outer weak Wolfe loop ends when every reduction at least halves the step, except the first
one which is only known to return something not above `c` times the step. -/
theorem wolfeLoop_total_aux (P : LSParams K) (φ : Ray K) (I : Interp K) (init : K) (n : Nat)
    (pre fpre : K) (s : Search K) (hp : 0 < s.step) (hi : s.step < init)
    (hn : s.step * (1 / 2) ^ n ≤ P.minStep) :
    (wolfeLoop P φ I init (n + 1) pre fpre s).isSome := by
  induction n generalizing pre fpre s with
  | zero =>
    rw [wolfeLoop]; dsimp only
    have : (evalH φ s).step ≤ P.minStep := by simpa [evalH] using hn
    simp only [if_pos this]
    split <;> rfl
  | succ n ih =>
    rw [wolfeLoop]; dsimp only
    split
    · split
      · rfl
      · have hle : wolfeReduce I init (evalH φ s).step (evalH φ s).f2 pre fpre ≤ (1 / 2) * s.step := by
          exact wolfeReduce_half I init s.step (φ.phi s.step) pre fpre hp hi.ne
        have hpos := wolfeReduce_pos I init (evalH φ s).step (evalH φ s).f2 pre fpre hp
        apply ih
        · exact hpos
        · simp only; linarith
        · simp only
          refine le_trans ?_ hn
          have hq : (0 : K) ≤ (1 / 2) ^ n := pow_nonneg (by norm_num) n
          calc _ ≤ ((1 / 2) * s.step) * (1 / 2) ^ n := mul_le_mul_of_nonneg_right hle hq
            _ = s.step * (1 / 2) ^ (n + 1) := by ring
    · rfl

end Verif.Solver
