import Verif.Solver.Run

/-! Invariants of the main loop of the smooth line-search solvers. -/

namespace Verif.Solver

variable {K : Type}

/-- Invariant: the history is `iter + 1` long, starts with the current value, the arrays have
their declared length and, when recording, hold exactly the history. -/
structure RunInv (C : RunCfg) (s : RunState K) : Prop where
  len : s.hist.length = s.iter + 1
  head : s.hist.head? = some s.f1
  flen : s.funSeries.length = C.maxIter + 1
  ilen : s.initSeries.length = C.maxIter + 1
  fun_eq : C.record = true → s.iter ≤ C.maxIter ∧
    s.funSeries = s.hist.reverse.map some ++ List.replicate (C.maxIter - s.iter) none
  pre_prefix : s.pre <+: s.hist.tail
  pre_len : s.pre.length ≤ max 1 C.numPre

theorem init_inv (C : RunCfg) (E : RunEnv K) (z : K) (l : Nat) :
    RunInv C (RunState.init C E z l) := by
  constructor <;> simp [RunState.init]

theorem pushPre_prefix (n : Nat) (b : Bool) (f : K) (pre h : List K) (hp : pre <+: h) :
    pushPre n b f pre <+: f :: h := by
  unfold pushPre
  have h1 : (f :: pre) <+: (f :: h) := by simpa using hp
  dsimp only
  split
  · exact (List.dropLast_prefix _).trans h1
  · exact h1

theorem pushPre_len (n : Nat) (b : Bool) (f : K) (pre : List K) (hp : pre.length ≤ max 1 n) :
    (pushPre n b f pre).length ≤ max 1 n := by
  unfold pushPre
  dsimp only
  split
  · simp; omega
  · rename_i h
    simp only [List.length_cons, Bool.and_eq_true, Bool.or_eq_true, decide_eq_true_eq, not_and,
      Bool.not_eq_true'] at h
    simp only [List.length_cons]
    by_cases h2 : pre.length + 1 > 1
    · have : ¬ (pre.length + 1 > n) := fun hc => h (Or.inl hc) h2
      omega
    · omega

/-- The possible results of a pass started where the counter is below the array bound. -/
theorem pass_cases (C : RunCfg) (E : RunEnv K) (s : RunState K) (h : RunInv C s)
    (hg : C.record = true → s.iter < C.maxIter ∧ 0 < C.outputGap) :
    (∃ s', pass C E s = .stop s' ∧ (E.trial s.iter s.f1 s.pre).finite = false ∧
        RunInv C s' ∧ s'.iter = s.iter ∧ s'.hist = s.hist ∧
        s'.ok = (E.trial s.iter s.f1 s.pre).ok) ∨
    (∃ s', pass C E s = .next s' ∧ (E.trial s.iter s.f1 s.pre).finite = true ∧
        RunInv C s' ∧ s'.iter = s.iter + 1 ∧
        s'.hist = (E.trial s.iter s.f1 s.pre).f2 :: s.hist ∧
        s'.ok = (E.trial s.iter s.f1 s.pre).ok ∧ s'.isstop = E.stopped (s.iter + 1)) := by
  set t := E.trial s.iter s.f1 s.pre with ht
  have h1 : (C.record && decide (s.initSeries.length ≤ s.iter + 1)) = false := by
    cases hr : C.record
    · rfl
    · have := (hg hr).1; rw [h.ilen]; simp; omega
  have h2 : (C.record && C.outputGap == 0) = false := by
    cases hr : C.record
    · rfl
    · have := (hg hr).2; simp; omega
  have h3 : (C.record && decide (s.funSeries.length ≤ s.iter + 1)) = false := by
    cases hr : C.record
    · rfl
    · have := (hg hr).1; rw [h.flen]; simp; omega
  cases hf : t.finite
  · left
    unfold pass
    simp only [← ht, h1, hf]
    refine ⟨_, rfl, by simp, ?_⟩
    cases hr : C.record
    · refine ⟨?_, rfl, rfl, rfl⟩
      exact ⟨h.len, h.head, h.flen, h.ilen, h.fun_eq, h.pre_prefix, h.pre_len⟩
    · refine ⟨?_, rfl, rfl, rfl⟩
      exact ⟨h.len, h.head, h.flen, by simpa using h.ilen, h.fun_eq, h.pre_prefix, h.pre_len⟩
  · right
    unfold pass
    cases hr : C.record
    · simp only [← ht, hf]
      refine ⟨_, rfl, trivial, ?_, rfl, rfl, rfl, rfl⟩
      refine ⟨by simp [h.len], by simp, h.flen, h.ilen, ?_, ?_, ?_⟩
      · simp [hr]
      · have hh : s.f1 :: s.hist.tail = s.hist := by
          have := h.head
          cases hx : s.hist with
          | nil => rw [hx] at this; simp at this
          | cons a l => rw [hx] at this; simp at this; simp [this]
        have := pushPre_prefix C.numPre (s.nonmono || E.nonmono (s.iter + 1)) s.f1 _ _ h.pre_prefix
        rw [hh] at this
        simpa using this
      · exact pushPre_len _ _ _ _ h.pre_len
    · rw [hr] at h1 h2 h3
      have hlt := (hg hr).1
      simp only [← ht, hf, h1, h2]
      simp only [Bool.true_and] at h1 h2 h3
      simp only [Bool.true_and, h3, Bool.not_true, Bool.false_eq_true, if_false, if_true]
      refine ⟨_, rfl, trivial, ?_, rfl, rfl, rfl, rfl⟩
      obtain ⟨_, hfe⟩ := h.fun_eq hr
      refine ⟨by simp [h.len], by simp, by simpa using h.flen, by simpa using h.ilen, ?_, ?_, ?_⟩
      · intro _
        refine ⟨hlt, ?_⟩
        dsimp only
        rw [hfe]
        have hm : C.maxIter - s.iter = (C.maxIter - (s.iter + 1)) + 1 := by omega
        rw [hm, List.replicate_succ, List.set_append_right _ _ (by simp [h.len])]
        simp [h.len]
      · have hh : s.f1 :: s.hist.tail = s.hist := by
          have := h.head
          cases hx : s.hist with
          | nil => rw [hx] at this; simp at this
          | cons a l => rw [hx] at this; simp at this; simp [this]
        have := pushPre_prefix C.numPre (s.nonmono || E.nonmono (s.iter + 1)) s.f1 _ _ h.pre_prefix
        rw [hh] at this
        simpa using this
      · exact pushPre_len _ _ _ _ h.pre_len

/-- A pass hands the unchanged `lengthSeries` to the stopping test. -/
theorem pass_lengths (C : RunCfg) (E : RunEnv K) (s s' : RunState K)
    (h : pass C E s = .next s' ∨ pass C E s = .stop s') :
    s'.lengthSeries = s.lengthSeries ∧
      (s'.seenLengths = s.seenLengths ∨ s'.seenLengths = s.lengthSeries :: s.seenLengths) := by
  rcases h with h | h <;> unfold pass at h <;> dsimp only at h <;> repeat' split at h
  all_goals first
    | (cases h; done)
    | (cases h; exact ⟨rfl, Or.inr rfl⟩)
    | (cases h; exact ⟨rfl, Or.inl rfl⟩)

/-- Unwrapping of a finished run. -/
theorem run_finished (C : RunCfg) (E : RunEnv K) (z : K) (l n : Nat) (s : RunState K)
    (h : run C E z l n = .finished s) :
    ∃ r, runLoop C E n (RunState.init C E z l) = .finished r ∧
      s = if C.record then { r with lengthSeries := r.iter + 1 } else r := by
  unfold run at h
  cases hr : runLoop C E n (RunState.init C E z l) with
  | finished r => rw [hr] at h; simp only [Outcome.close, Outcome.finished.injEq] at h; exact ⟨r, rfl, h.symm⟩
  | running => rw [hr] at h; simp [Outcome.close] at h
  | outOfBounds => rw [hr] at h; simp [Outcome.close] at h
  | divByZero => rw [hr] at h; simp [Outcome.close] at h

/-- General induction over a run with valid limits: if a predicate holds initially and is preserved
by passes then it holds of the final state. -/
theorem runLoop_finished (C : RunCfg) (E : RunEnv K) (hmm : C.minIter ≤ C.maxIter)
    (hgap : C.record = true → 0 < C.outputGap) (n : Nat) (s : RunState K) (h : RunInv C s)
    (hi : s.iter ≤ C.maxIter) (hn : C.maxIter < s.iter + n) :
    ∃ s', runLoop C E n s = .finished s' ∧ RunInv C s' ∧ s'.iter ≤ C.maxIter := by
  induction n generalizing s with
  | zero => omega
  | succ n ih =>
    rw [runLoop]
    by_cases hc : s.continues C = true
    · rw [if_pos hc]
      have hlt : s.iter < C.maxIter := by
        unfold RunState.continues at hc
        simp only [Bool.and_eq_true, Bool.or_eq_true, decide_eq_true_eq] at hc
        rcases hc.1 with hc | hc
        · exact hc.2
        · omega
      rcases pass_cases C E s h (fun hr => ⟨hlt, hgap hr⟩) with
        ⟨s', e, _, hinv, hit, _⟩ | ⟨s', e, _, hinv, hit, _⟩
      · rw [e]; exact ⟨s', rfl, hinv, by omega⟩
      · rw [e]; exact ih s' hinv (by omega) (by omega)
    · rw [if_neg hc]; exact ⟨s, rfl, h, hi⟩

/-- Invariant rule. -/
theorem runLoop_ind (C : RunCfg) (E : RunEnv K) (hmm : C.minIter ≤ C.maxIter)
    (hgap : C.record = true → 0 < C.outputGap) (p : RunState K → Prop) (q : RunState K → Prop)
    (hnext : ∀ s s', RunInv C s → s.iter < C.maxIter → p s → s.continues C = true →
      pass C E s = .next s' → p s')
    (hstop : ∀ s s', RunInv C s → s.iter < C.maxIter → p s → s.continues C = true →
      pass C E s = .stop s' → q s')
    (hend : ∀ s, RunInv C s → p s → s.continues C = false → q s)
    (n : Nat) (s r : RunState K) (h : RunInv C s) (hp : p s) (hi : s.iter ≤ C.maxIter)
    (hr : runLoop C E n s = .finished r) : q r := by
  induction n generalizing s with
  | zero => simp [runLoop] at hr
  | succ n ih =>
    rw [runLoop] at hr
    by_cases hc : s.continues C = true
    · rw [if_pos hc] at hr
      have hlt : s.iter < C.maxIter := by
        have hc := hc
        unfold RunState.continues at hc
        simp only [Bool.and_eq_true, Bool.or_eq_true, decide_eq_true_eq] at hc
        rcases hc.1 with hc | hc
        · exact hc.2
        · omega
      rcases pass_cases C E s h (fun hr => ⟨hlt, hgap hr⟩) with
        ⟨s', e, _, hinv, hit, _⟩ | ⟨s', e, _, hinv, hit, _⟩
      · rw [e] at hr; injection hr with hr; subst hr; exact hstop s s' h hlt hp hc e
      · rw [e] at hr
        exact ih s' hinv (hnext s s' h hlt hp hc e) (by omega) hr
    · rw [if_neg hc] at hr; injection hr with hr; subst hr
      exact hend s h hp (by simpa using hc)

/-- Invariant rule for complete runs, for final predicates that do not mention `lengthSeries`. -/
theorem run_ind (C : RunCfg) (E : RunEnv K) (hmm : C.minIter ≤ C.maxIter)
    (hgap : C.record = true → 0 < C.outputGap) (p : RunState K → Prop) (q : RunState K → Prop)
    (hnext : ∀ s s', RunInv C s → s.iter < C.maxIter → p s → s.continues C = true →
      pass C E s = .next s' → p s')
    (hstop : ∀ s s', RunInv C s → s.iter < C.maxIter → p s → s.continues C = true →
      pass C E s = .stop s' → q s')
    (hend : ∀ s, RunInv C s → p s → s.continues C = false → q s)
    (hq : ∀ s k, q s → q { s with lengthSeries := k })
    (z : K) (l n : Nat) (r : RunState K) (hp : p (RunState.init C E z l))
    (hr : run C E z l n = .finished r) : q r := by
  obtain ⟨r0, h0, rfl⟩ := run_finished C E z l n r hr
  have := runLoop_ind C E hmm hgap p q hnext hstop hend n _ r0 (init_inv C E z l) hp
    (by simp [RunState.init]) h0
  split
  · exact hq _ _ this
  · exact this

end Verif.Solver
