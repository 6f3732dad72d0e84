import Verif.Solver.RunLemmas
import Verif.Props.LineSearch

/-!
# Runs of the smooth line-search solvers: C13, C16

Specification vocabulary: the recorded array `funSeries`, the list of objective values at the
successive iterates, and the iteration count.
-/

set_option linter.unusedSectionVars false

namespace Verif.Solver

variable {K : Type}

/-- C13: with `Min_Iteration <= Max_Iteration` (and a positive output gap) a run always ends, without any
write outside the history arrays, after at most `Max_Iteration` iterations; when recording, cells
`0..iter` of the history hold the objective values at the successive iterates and the cells after
them are untouched. For every problem, search, stopping test. -/
theorem C13_run_within_limits (C : RunCfg) (E : RunEnv K) (z : K) (l : Nat)
    (hmm : C.minIter ≤ C.maxIter) (hgap : C.record = true → 0 < C.outputGap) :
    ∃ s, run C E z l (C.maxIter + 1) = .finished s ∧ s.iter ≤ C.maxIter ∧
      s.hist.length = s.iter + 1 ∧ s.hist.head? = some s.f1 ∧
      (C.record = true → s.lengthSeries = s.iter + 1 ∧ s.funSeries =
        s.hist.reverse.map some ++ List.replicate (C.maxIter - s.iter) none) := by
  obtain ⟨s, e, h, hi⟩ := runLoop_finished C E hmm hgap (C.maxIter + 1) (RunState.init C E z l)
    (init_inv C E z l) (by simp [RunState.init]) (by simp [RunState.init])
  unfold run
  rw [e]
  cases hr : C.record
  · exact ⟨s, by simp [Outcome.close, hr], hi, h.len, h.head, by simp⟩
  · exact ⟨{ s with lengthSeries := s.iter + 1 }, by simp [Outcome.close, hr], hi, h.len, h.head,
      fun _ => ⟨rfl, (h.fun_eq hr).2⟩⟩

/-- C13: a run ends only for one of the documented reasons: the stopping test fired (and at least
`Min_Iteration` iterations were made), the iteration limit was reached, the last search failed, or a
value was not finite. -/
theorem C13_run_ends_for_a_reason (C : RunCfg) (E : RunEnv K) (z : K) (l : Nat) (n : Nat) (s : RunState K)
    (hmm : C.minIter ≤ C.maxIter) (hgap : C.record = true → 0 < C.outputGap)
    (h : run C E z l n = .finished s) :
    (E.stopped s.iter = true ∧ C.minIter ≤ s.iter) ∨ s.iter = C.maxIter ∨ s.ok = false ∨
      ∃ f pre, (E.trial s.iter f pre).finite = false := by
  refine run_ind C E hmm hgap (fun s => s.isstop = E.stopped s.iter ∧ s.iter ≤ C.maxIter)
    (fun s => (E.stopped s.iter = true ∧ C.minIter ≤ s.iter) ∨ s.iter = C.maxIter ∨
      s.ok = false ∨ ∃ f pre, (E.trial s.iter f pre).finite = false)
    ?_ ?_ ?_ (fun _ _ h => h) z l n s ⟨rfl, Nat.zero_le _⟩ h
  · intro s s' hi hlt _ _ he
    rcases pass_cases C E s hi (fun hr => ⟨hlt, hgap hr⟩) with ⟨t, e, _⟩ | ⟨t, e, _, _, e2, _, _, e3⟩
    · rw [e] at he; cases he
    · rw [e] at he; cases he; exact ⟨by rw [e3, e2], by omega⟩
  · intro s s' hi hlt _ _ he
    rcases pass_cases C E s hi (fun hr => ⟨hlt, hgap hr⟩) with ⟨t, e, e1, _, e2, _⟩ | ⟨t, e, _⟩
    · rw [e] at he; cases he
      right; right; right; exact ⟨s.f1, s.pre, by rw [e2]; exact e1⟩
    · rw [e] at he; cases he
  · intro s _ hp hc
    unfold RunState.continues at hc
    rw [hp.1] at hc
    cases hok : s.ok
    · exact Or.inr (Or.inr (Or.inl rfl))
    · simp only [hok, Bool.and_true, Bool.or_eq_false_iff, Bool.and_eq_false_iff,
        Bool.not_eq_false', decide_eq_false_iff_not, not_lt] at hc
      rcases hc.1 with h1 | h1
      · exact Or.inl ⟨h1, hc.2⟩
      · exact Or.inr (Or.inl (by omega))

/-- C59: a smooth line-search run never continues past a stop request: once `Min_Iteration` iterations are made, every iteration
that is followed by another one was one at which the stopping test (tolerance, time limit, user callback) did not hold. -/
theorem C59_ls_stop_request_honoured (C : RunCfg) (E : RunEnv K) (z : K) (l : Nat) (n : Nat) (s : RunState K)
    (hmm : C.minIter ≤ C.maxIter) (hgap : C.record = true → 0 < C.outputGap)
    (h : run C E z l n = .finished s) (k : Nat) (hk : C.minIter ≤ k) (hlt : k < s.iter) :
    E.stopped k = false := by
  refine run_ind C E hmm hgap
    (fun s => s.isstop = E.stopped s.iter ∧ ∀ k, C.minIter ≤ k → k < s.iter → E.stopped k = false)
    (fun s => ∀ k, C.minIter ≤ k → k < s.iter → E.stopped k = false)
    ?_ ?_ (fun s _ hp _ => hp.2) (fun _ _ h => h) z l n s ⟨rfl, by intro k _ hk; simp [RunState.init] at hk⟩ h k hk hlt
  · intro s s' hi hlt hp hc he
    rcases pass_cases C E s hi (fun hr => ⟨hlt, hgap hr⟩) with ⟨t, e, _⟩ | ⟨t, e, _, _, e2, _, _, e3⟩
    · rw [e] at he; cases he
    · rw [e] at he; cases he
      refine ⟨by rw [e3, e2], ?_⟩
      intro k hk hks
      rcases Nat.lt_or_ge k s.iter with h | h
      · exact hp.2 k hk h
      · have hkeq : k = s.iter := by omega
        subst hkeq
        unfold RunState.continues at hc
        rw [hp.1] at hc
        simp only [Bool.and_eq_true, Bool.or_eq_true, decide_eq_true_eq, Bool.not_eq_true'] at hc
        rcases hc.1 with h1 | h1
        · exact h1.1
        · omega
  · intro s s' hi hlt hp hc he
    rcases pass_cases C E s hi (fun hr => ⟨hlt, hgap hr⟩) with ⟨t, e, e1, e0, e2, _⟩ | ⟨t, e, _⟩
    · rw [e] at he; cases he
      rw [e2]
      exact hp.2
    · rw [e] at he; cases he

/-- C13, the hypothesis is needed: whenever `Max_Iteration < Min_Iteration` and results are recorded, every
run whose searches all succeed writes outside its history arrays. -/
theorem C13_min_above_max_overruns (C : RunCfg) (E : RunEnv K) (z : K) (l : Nat)
    (hmm : C.maxIter < C.minIter) (hrec : C.record = true) (hgap : 0 < C.outputGap)
    (hok : ∀ k f pre, (E.trial k f pre).ok = true ∧ (E.trial k f pre).finite = true) :
    run C E z l (C.maxIter + 1) = .outOfBounds := by
  have main : ∀ n (s : RunState K), RunInv C s → s.ok = true → s.iter + n = C.maxIter →
      runLoop C E (n + 1) s = .outOfBounds := by
    intro n
    induction n with
    | zero =>
      intro s h ho hi
      rw [runLoop, if_pos]
      · have : pass C E s = .outOfBounds := by
          unfold pass
          simp only
          rw [if_pos]
          rw [hrec, h.ilen]; simp; omega
        rw [this]
      · unfold RunState.continues
        rw [ho]; simp; right; omega
    | succ n ih =>
      intro s h ho hi
      rw [runLoop, if_pos]
      · rcases pass_cases C E s h (fun _ => ⟨by omega, hgap⟩) with ⟨t, e, e1, _⟩ |
          ⟨t, e, _, e1, e2, _, e3, _⟩
        · rw [(hok _ _ _).2] at e1; cases e1
        · rw [e]
          exact ih t e1 (by rw [e3]; exact (hok _ _ _).1) (by omega)
      · unfold RunState.continues
        rw [ho]; simp; right; omega
  unfold run
  rw [main C.maxIter _ (init_inv C E z l) rfl (by simp [RunState.init])]
  rfl

/-- C13, the other hypothesis is needed: with `OutputGap = 0` every recorded run that makes a first
finite trial divides by zero. -/
theorem C13_zero_output_gap_divides_by_zero (C : RunCfg) (E : RunEnv K) (z : K) (l : Nat) (n : Nat)
    (hrec : C.record = true) (hgap : C.outputGap = 0) (hmax : 0 < C.maxIter)
    (hns : E.stopped 0 = false) (hf : (E.trial 0 E.finit []).finite = true) :
    run C E z l (n + 1) = .divByZero := by
  unfold run
  rw [runLoop, if_pos]
  · have : pass C E (RunState.init C E z l) = .divByZero := by
      unfold pass
      have hb : ¬ C.maxIter ≤ 0 := by omega
      simp [RunState.init, hrec, hgap, hf, hb]
    rw [this]; rfl
  · simp [RunState.continues, RunState.init, hns, hmax]

/-- C58 (false as documented): the stopping callback receives a length argument meant to be the number
of recorded history entries, but in every run and at every call it receives the value `lengthSeries`
had before the run. -/
theorem C58_callback_length_is_stale (C : RunCfg) (E : RunEnv K) (z : K) (l n : Nat)
    (s : RunState K) (hmm : C.minIter ≤ C.maxIter) (hgap : C.record = true → 0 < C.outputGap)
    (h : run C E z l n = .finished s) : ∀ k ∈ s.seenLengths, k = l := by
  refine run_ind C E hmm hgap (fun s => s.lengthSeries = l ∧ ∀ k ∈ s.seenLengths, k = l)
    (fun s => ∀ k ∈ s.seenLengths, k = l) ?_ ?_ (fun _ _ h _ => h.2) (fun _ _ h => h) z l n s
    (by simp [RunState.init]) h
  · intro s s' _ _ hp _ he
    obtain ⟨e1, e2⟩ := pass_lengths C E s s' (Or.inl he)
    refine ⟨by rw [e1]; exact hp.1, ?_⟩
    rcases e2 with e2 | e2 <;> rw [e2]
    · exact hp.2
    · intro k hk
      rcases List.mem_cons.mp hk with hk | hk
      · rw [hk]; exact hp.1
      · exact hp.2 k hk
  · intro s s' _ _ hp _ he
    obtain ⟨e1, e2⟩ := pass_lengths C E s s' (Or.inr he)
    rcases e2 with e2 | e2 <;> rw [e2]
    · exact hp.2
    · intro k hk
      rcases List.mem_cons.mp hk with hk | hk
      · rw [hk]; exact hp.1
      · exact hp.2 k hk

/-! ## Objective values along a run -/

section values

variable [Field K] [LinearOrder K] [IsStrictOrderedRing K]

/-- The searches of the run are Armijo searches with descent directions: each successful trial is the
result of the modelled Armijo search from the current value with the stored values. -/
def UsesArmijo (C : RunCfg) (E : RunEnv K) (P : LSParams K) : Prop :=
  P.numPre = C.numPre ∧ 0 < P.alpha ∧ 0 < P.r1 ∧ P.r1 ≤ 1 ∧ P.r2 ≤ 1 ∧
  ∀ k f pre, (E.trial k f pre).ok = true → ∃ (φ : Ray K) (I : Interp K) (fuel : Nat)
    (s0 r : Search K), φ.f0 = f ∧ φ.slope < 0 ∧ 0 < s0.step ∧
      armijo P φ I pre fuel s0 = some r ∧ r.status = .success ∧ (E.trial k f pre).f2 = r.f2

/-- Specification of nonmonotone decrease with window `m`: every value but the oldest lies strictly
below one of the (at most) `m` values preceding it. Lists are newest first. -/
def WindowDecrease (m : Nat) (hist : List K) : Prop :=
  ∀ newer v older, hist = newer ++ v :: older → older ≠ [] → ∃ w ∈ older.take m, v < w

theorem WindowDecrease.cons {m : Nat} {h : List K} {v : K} (hh : WindowDecrease m h)
    (hv : h ≠ [] → ∃ w ∈ h.take m, v < w) : WindowDecrease m (v :: h) := by
  intro newer u older e ho
  cases newer with
  | nil => simp at e; obtain ⟨rfl, rfl⟩ := e; exact hv ho
  | cons a newer => simp at e; exact hh newer u older e.2 ho

/-- The value of a successful trial lies below one of the last `max 1 m` values. -/
theorem trial_decreases (C : RunCfg) (E : RunEnv K) (P : LSParams K) (hA : UsesArmijo C E P)
    (s : RunState K) (h : RunInv C s) (hok : (E.trial s.iter s.f1 s.pre).ok = true) :
    ∃ w ∈ s.hist.take (max 1 C.numPre), (E.trial s.iter s.f1 s.pre).f2 < w := by
  obtain ⟨hn, ha, h1, h11, h2, hall⟩ := hA
  obtain ⟨φ, I, fuel, s0, r, hf0, hsl, hp, har, hst, heq⟩ := hall _ _ _ hok
  have href := maxPref_isGreatest P.numPre φ.f0 s.pre
  have hdec := C14_armijo_no_increase P φ I s.pre fuel s0 r _ har hst href ha hsl h1 h2 h11 hp
  have hval := C14_armijo_sufficient_decrease P φ I s.pre fuel s0 r _ har hst href
  refine ⟨maxPref P.numPre φ.f0 s.pre, ?_, by rw [heq, hval.2.1]; exact hdec⟩
  have hh : s.hist = s.f1 :: s.hist.tail := by
    have := h.head
    cases hx : s.hist with
    | nil => rw [hx] at this; simp at this
    | cons a l => rw [hx] at this; simp at this; simp [this]
  obtain ⟨m, hm⟩ : ∃ m, max 1 C.numPre = m + 1 := ⟨max 1 C.numPre - 1, by omega⟩
  rw [hm, hh, List.take_succ_cons]
  rcases maxPref_mem P.numPre φ.f0 s.pre with e | e
  · rw [e, hf0]; simp
  · right
    have hsub : s.pre.dropLast <+: s.hist.tail := (List.dropLast_prefix _).trans h.pre_prefix
    have hlen : s.pre.dropLast.length ≤ m := by
      have := h.pre_len; simp; omega
    have e2 := List.mem_of_mem_take e
    have : s.pre.dropLast = s.hist.tail.take s.pre.dropLast.length :=
      List.prefix_iff_eq_take.mp hsub
    rw [this] at e2
    exact List.take_subset_take_left _ hlen e2

/-- C16 (nonmonotone): along a run that uses the Armijo search with `Num_pre_funs = m`, every new
objective value lies strictly below one of the last `max 1 m` values; the only possible exception is
the very last value, when the last search failed. -/
theorem C16_window_decrease (C : RunCfg) (E : RunEnv K) (P : LSParams K) (z : K) (l : Nat) (n : Nat)
    (s : RunState K) (hA : UsesArmijo C E P)
    (hmm : C.minIter ≤ C.maxIter) (hgap : C.record = true → 0 < C.outputGap)
    (h : run C E z l n = .finished s) :
    (s.ok = true → WindowDecrease (max 1 C.numPre) s.hist) ∧
      (WindowDecrease (max 1 C.numPre) s.hist.tail ∨ WindowDecrease (max 1 C.numPre) s.hist) := by
  refine run_ind C E hmm hgap
    (fun s => (s.ok = true → WindowDecrease (max 1 C.numPre) s.hist) ∧
      (s.ok = false → WindowDecrease (max 1 C.numPre) s.hist.tail))
    (fun s => (s.ok = true → WindowDecrease (max 1 C.numPre) s.hist) ∧
      (WindowDecrease (max 1 C.numPre) s.hist.tail ∨ WindowDecrease (max 1 C.numPre) s.hist))
    ?_ ?_ ?_ (fun _ _ h => h) z l n s ?_ h
  · intro s s' hi hlt hp hc he
    have hok : s.ok = true := by
      unfold RunState.continues at hc; simp at hc; exact hc.2
    rcases pass_cases C E s hi (fun hr => ⟨hlt, hgap hr⟩) with ⟨t, e, _⟩ |
      ⟨t, e, _, _, _, e2, e3, _⟩
    · rw [e] at he; cases he
    · rw [e] at he; cases he
      refine ⟨fun ht => ?_, fun _ => by rw [e2]; exact hp.1 hok⟩
      rw [e2]
      refine (hp.1 hok).cons fun _ => trial_decreases C E P hA s hi (by rw [← e3]; exact ht)
  · intro s s' hi hlt hp hc he
    have hok : s.ok = true := by
      unfold RunState.continues at hc; simp at hc; exact hc.2
    rcases pass_cases C E s hi (fun hr => ⟨hlt, hgap hr⟩) with ⟨t, e, _, _, _, e2, _⟩ | ⟨t, e, _⟩
    · rw [e] at he; cases he
      rw [e2]; exact ⟨fun _ => hp.1 hok, Or.inr (hp.1 hok)⟩
    · rw [e] at he; cases he
  · intro s hi hp _
    refine ⟨hp.1, ?_⟩
    cases hok : s.ok
    · exact Or.inl (hp.2 hok)
    · exact Or.inr (hp.1 hok)
  · refine ⟨fun _ => ?_, fun hc => by simp [RunState.init] at hc⟩
    intro newer v older e ho
    simp [RunState.init] at e
    cases newer with
    | nil => simp at e; exact absurd e.2 ho
    | cons a l => simp at e

/-- A list with window decrease stays below its oldest value. -/
theorem WindowDecrease.le_last {m : Nat} (h : List K) (hh : WindowDecrease m h) (v w : K)
    (hv : v ∈ h) (hw : h.getLast? = some w) : v ≤ w := by
  have main : ∀ n (older : List K) v, older.length = n → v :: older <:+ h →
      (v :: older).getLast? = some w → v ≤ w := by
    intro n
    induction n using Nat.strong_induction_on with
    | _ n ih =>
      intro older v hn hs hl
      by_cases ho : older = []
      · subst ho; simp at hl; exact le_of_eq hl
      · obtain ⟨newer, he⟩ := hs
        obtain ⟨u, hu, hlt⟩ := hh newer v older he.symm ho
        have hu' := List.mem_of_mem_take hu
        obtain ⟨a, b, rfl⟩ := List.append_of_mem hu'
        have hle : u ≤ w := by
          refine ih b.length ?_ b u rfl ?_ ?_
          · rw [← hn]; simp; omega
          · refine ⟨newer ++ v :: a, ?_⟩
            rw [← he]; simp
          · rw [← hl]
            rw [show v :: (a ++ u :: b) = (v :: a) ++ u :: b from rfl, List.getLast?_append_of_ne_nil]
            simp
        exact hlt.le.trans hle
  obtain ⟨a, b, rfl⟩ := List.append_of_mem hv
  refine main b.length b v rfl ⟨a, rfl⟩ ?_
  rw [← hw, List.getLast?_append_of_ne_nil]
  simp

theorem pass_pre (C : RunCfg) (E : RunEnv K) (s s' : RunState K) (h : pass C E s = .next s') :
    s'.nonmono = (s.nonmono || E.nonmono (s.iter + 1)) ∧
      s'.pre = pushPre C.numPre (s.nonmono || E.nonmono (s.iter + 1)) s.f1 s.pre := by
  unfold pass at h
  dsimp only at h
  cases hr : C.record <;> simp only [hr, Bool.false_and, Bool.true_and, Bool.false_eq_true, if_false, if_true] at h <;> repeat' split at h
  all_goals first
    | (cases h; done)
    | (injection h with h; subst h; exact ⟨rfl, rfl⟩)

theorem maxPref_short (n : Nat) (m : K) (pre : List K) (h : pre.length ≤ 1) : maxPref n m pre = m := by
  match n, pre, h with
  | 0, _, _ => rfl
  | _ + 1, [], _ => rfl
  | _ + 1, [_], _ => rfl

/-- C16 (monotone phase): as long as the test that switches the nonmonotone mode on has not fired, the objective values
strictly decrease, whatever `Num_pre_funs` is. -/
theorem C16_monotone_before_switch (C : RunCfg) (E : RunEnv K) (P : LSParams K) (z : K) (l : Nat) (n : Nat)
    (s : RunState K) (hA : UsesArmijo C E P) (hmm : C.minIter ≤ C.maxIter) (hgap : C.record = true → 0 < C.outputGap)
    (hnm : ∀ k, E.nonmono k = false) (h : run C E z l n = .finished s) (hok : s.ok = true) : s.hist.Pairwise (· < ·) := by
  refine List.isChain_iff_pairwise.mp ?_
  refine run_ind C E hmm hgap
    (fun s => s.nonmono = false ∧ s.pre.length ≤ 1 ∧ (s.ok = true → s.hist.IsChain (· < ·)))
    (fun s => s.ok = true → s.hist.IsChain (· < ·)) ?_ ?_ (fun s _ hp _ => hp.2.2) (fun _ _ h => h) z l n s ?_ h hok
  · intro s s' hi hlt hp hc he
    have hok : s.ok = true := by
      unfold RunState.continues at hc; simp at hc; exact hc.2
    obtain ⟨e4, e5⟩ := pass_pre C E s s' he
    rcases pass_cases C E s hi (fun hr => ⟨hlt, hgap hr⟩) with ⟨t, e, _⟩ | ⟨t, e, _, _, _, e2, e3, _⟩
    · rw [e] at he; cases he
    · rw [e] at he; cases he
      rw [hp.1, hnm] at e4 e5
      refine ⟨by simpa using e4, ?_, fun ht => ?_⟩
      · rw [e5]; unfold pushPre
        have hl := hp.2.1
        dsimp only
        split
        · simp; omega
        · rename_i hh
          simp at hh
          simp [hh]
      · rw [e2]
        have hch := hp.2.2 hok
        obtain ⟨hn, ha, h1, h11, h2, hall⟩ := hA
        obtain ⟨φ, I, fuel, s0, r, hf0, hsl, hpos, har, hst, heq⟩ := hall _ _ _ (by rw [← e3]; exact ht)
        have href := maxPref_isGreatest P.numPre φ.f0 s.pre
        have hdec := C14_armijo_no_increase P φ I s.pre fuel s0 r _ har hst href ha hsl h1 h2 h11 hpos
        have hval := C14_armijo_sufficient_decrease P φ I s.pre fuel s0 r _ har hst href
        rw [maxPref_short _ _ _ hp.2.1, hf0, ← hval.2.1, ← heq] at hdec
        have hh := hi.head
        cases hx : s.hist with
        | nil => exact .singleton _
        | cons a l =>
          rw [hx] at hh hch
          simp at hh
          subst hh
          exact .cons_cons hdec hch
  · intro s s' hi hlt hp hc he
    have hok : s.ok = true := by
      unfold RunState.continues at hc; simp at hc; exact hc.2
    rcases pass_cases C E s hi (fun hr => ⟨hlt, hgap hr⟩) with ⟨t, e, _, _, _, e2, _⟩ | ⟨t, e, _⟩
    · rw [e] at he; cases he
      intro _; rw [e2]; exact hp.2.2 hok
    · rw [e] at he; cases he
  · exact ⟨rfl, by simp [RunState.init], fun _ => .singleton _⟩

/-- C16 (monotone): with at most one stored reference value, the objective values along a run whose
searches all succeed strictly decrease. -/
theorem C16_monotone (C : RunCfg) (E : RunEnv K) (P : LSParams K) (z : K) (l : Nat) (n : Nat)
    (s : RunState K) (hA : UsesArmijo C E P)
    (hmm : C.minIter ≤ C.maxIter) (hgap : C.record = true → 0 < C.outputGap)
    (h : run C E z l n = .finished s) (hok : s.ok = true) (h1 : C.numPre ≤ 1) :
    s.hist.Pairwise (· < ·) := by
  have hw := (C16_window_decrease C E P z l n s hA hmm hgap h).1 hok
  rw [max_eq_left h1] at hw
  have : ∀ l : List K, WindowDecrease 1 l → l.IsChain (· < ·) := by
    intro l
    induction l with
    | nil => intro _; exact .nil
    | cons a l ih =>
      intro hl
      have hl' : WindowDecrease 1 l := by
        intro nw v ol e ho
        exact hl (a :: nw) v ol (by rw [e]; rfl) ho
      cases l with
      | nil => exact .singleton _
      | cons b l =>
        obtain ⟨w, hw, hlt⟩ := hl [] a (b :: l) rfl (by simp)
        simp at hw; subst hw
        exact .cons_cons hlt (ih hl')
  exact List.isChain_iff_pairwise.mp (this _ hw)

/-- C16 (nonmonotone): the final value, like every value along a run whose searches all succeed, is at
most the initial value. -/
theorem C16_bounded_by_initial (C : RunCfg) (E : RunEnv K) (P : LSParams K) (z : K) (l : Nat) (n : Nat)
    (s : RunState K) (hA : UsesArmijo C E P)
    (hmm : C.minIter ≤ C.maxIter) (hgap : C.record = true → 0 < C.outputGap)
    (h : run C E z l n = .finished s) (hok : s.ok = true) : ∀ v ∈ s.hist, v ≤ E.finit := by
  have hw := (C16_window_decrease C E P z l n s hA hmm hgap h).1 hok
  have hlast : s.hist.getLast? = some E.finit := by
    refine run_ind C E hmm hgap (fun s => s.hist.getLast? = some E.finit)
      (fun s => s.hist.getLast? = some E.finit) ?_ ?_ (fun _ _ h _ => h) (fun _ _ h => h) z l n s
      (by simp [RunState.init]) h
    · intro s s' hi hlt hp _ he
      rcases pass_cases C E s hi (fun hr => ⟨hlt, hgap hr⟩) with ⟨t, e, _⟩ | ⟨t, e, _, _, _, e2, _⟩
      · rw [e] at he; cases he
      · rw [e] at he; cases he
        rw [e2]
        cases hx : s.hist with
        | nil => rw [hx] at hp; simp at hp
        | cons a l => rw [hx] at hp; simpa using hp
    · intro s s' hi hlt hp _ he
      rcases pass_cases C E s hi (fun hr => ⟨hlt, hgap hr⟩) with ⟨t, e, _, _, _, e2, _⟩ | ⟨t, e, _⟩
      · rw [e] at he; cases he; rw [e2]; exact hp
      · rw [e] at he; cases he
  intro v hv
  exact hw.le_last _ v _ hv hlast

end values

/-! ## Failed searches -/

/-- One-dimensional environment used for the examples: every search is an Armijo search on `φ`, whose
value at the current iterate is taken to be `f`. -/
def armijoEnv (P : LSParams Rat) (f0 : Rat) (φ : Ray Rat) (stop : Nat → Bool) : RunEnv Rat where
  finit := f0
  trial _ f pre := match armijo P { φ with f0 := f, phi := fun t => f + φ.phi t }
      (codeInterp { φ with f0 := f }) pre 60 (Search.start 1 0 0) with
    | some r => { ok := r.status == .success, f2 := r.f2, finite := true, initStep := 1 }
    | none => { ok := false, f2 := f, finite := false, initStep := 1 }
  stopped := stop
  nonmono _ := true

/-- C16, failed searches: when a search runs into the minimum step the run still moves to the rejected
trial point, so the final iterate can be worse than the initial one. Witness: an objective that
increases along the search direction (slope reported as -1, as with an inaccurate gradient). -/
theorem C16_failed_search_accepts_rejected_trial :
    ∃ (C : RunCfg) (E : RunEnv Rat) (s : RunState Rat), C.minIter ≤ C.maxIter ∧
      E = armijoEnv { defaultParams with minStep := 1 / 3 } 0
        { f0 := 0, slope := -1, phi := fun t => t, der := fun _ => 1 } (fun _ => false) ∧
      run C E 0 0 3 = .finished s ∧ s.ok = false ∧ E.finit < s.f1 := by
  let C : RunCfg := { maxIter := 5, minIter := 0, outputGap := 1, numPre := 1, record := true }
  let E := armijoEnv { defaultParams with minStep := 1 / 3 } 0
        { f0 := 0, slope := -1, phi := fun t => t, der := fun _ => 1 } (fun _ => false)
  have h : (match run C E 0 0 3 with
    | .finished s => !s.ok && decide (E.finit < s.f1) | _ => false) = true := by decide +kernel
  generalize hr : run C E 0 0 3 = o at h
  cases o with
  | finished s =>
    simp at h
    exact ⟨C, E, s, by decide, rfl, hr, h.1, h.2⟩
  | running => simp at h
  | outOfBounds => simp at h
  | divByZero => simp at h

/-! ## Concrete cases -/

/-- Descent along `-t` three times. -/
example : (match run { maxIter := 3, minIter := 1, outputGap := 1, numPre := 2, record := true }
      (armijoEnv { defaultParams with numPre := 2 } 0 linearRay (fun _ => false)) 0 0 4 with
    | .finished s => some (s.iter, s.hist, s.funSeries, s.pre) | _ => none) =
    some (3, [-3, -2, -1, 0], [some 0, some (-1), some (-2), some (-3)], [-2, -1]) := by
  decide +kernel

/-- `UsesArmijo` is satisfied by the example environment. -/
example : UsesArmijo { maxIter := 3, minIter := 1, outputGap := 1, numPre := 2, record := true }
    (armijoEnv { defaultParams with numPre := 2 } 0 linearRay (fun _ => false))
    { defaultParams with numPre := 2 } := by
  refine ⟨rfl, by norm_num [defaultParams], by norm_num [defaultParams],
    by norm_num [defaultParams], by norm_num [defaultParams], ?_⟩
  intro k f pre hok
  simp only [armijoEnv] at hok ⊢
  cases ha : armijo { defaultParams with numPre := 2 }
      { linearRay with f0 := f, phi := fun t => f + linearRay.phi t }
      (codeInterp { linearRay with f0 := f }) pre 60 (Search.start 1 0 0) with
  | none => simp only [ha] at hok; simp at hok
  | some r =>
    simp only [ha] at hok ⊢
    refine ⟨_, _, 60, _, r, rfl, by norm_num [linearRay], by norm_num [Search.start], ha, ?_, rfl⟩
    simpa using hok

/-- The overrun with `Max_Iteration = 1 < Min_Iteration = 5`. -/
example : (match run { maxIter := 1, minIter := 5, outputGap := 1, numPre := 1, record := true }
      (armijoEnv defaultParams 0 linearRay (fun _ => true)) 0 0 2 with
    | .outOfBounds => true | _ => false) = true := by decide +kernel

end Verif.Solver
