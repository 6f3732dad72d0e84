import Verif.Solver.Run
import Verif.Solver.TRRun
import Verif.Solver.ProxGrad
import Mathlib.Tactic.NormNum

/-!
# C164: the verbosity level

With `Verbose < ITERRESULT` a run keeps no history (`record = false` in the models). The environment (problem, searches, stopping test) is the same in both runs; a stopping function of the user's that looks at the series is not covered.
-/

namespace Verif.Quiet

/-- What a caller can see of a line-search run apart from the history: number of iterations, stopping flag, status of the last search, value, the stored values, the values at the successive iterates, and the lengths handed to the stopping function. -/
structure Seen (K : Type) where
  iter : Nat
  isstop : Bool
  ok : Bool
  f1 : K
  pre : List K
  nonmono : Bool
  hist : List K
  lengths : List Nat

def seen {K : Type} (s : Solver.RunState K) : Seen K :=
  ⟨s.iter, s.isstop, s.ok, s.f1, s.pre, s.nonmono, s.hist, s.seenLengths⟩

/-! ## Line-search solvers -/

section LS
open Solver

variable {K : Type}

/-- The two states agree up to the history. -/
def Agree (s t : RunState K) : Prop := seen s = seen t ∧ s.lengthSeries = t.lengthSeries

theorem pass_quiet (C : RunCfg) (E : RunEnv K) {s t : RunState K} (h : Agree s t) :
    (∀ s', pass { C with record := true } E s = .next s' → ∃ t', pass { C with record := false } E t = .next t' ∧ Agree s' t') ∧
    (∀ s', pass { C with record := true } E s = .stop s' → ∃ t', pass { C with record := false } E t = .stop t' ∧ Agree s' t') := by
  obtain ⟨hst, hl⟩ := h
  simp only [seen, Seen.mk.injEq] at hst
  obtain ⟨h1, h2, h3, h4, h5, h6, h7, h8⟩ := hst
  simp only [pass, Bool.true_and, Bool.false_and, Bool.false_eq_true, if_false, if_true]
  rw [← h1, ← h4, ← h5]
  by_cases hb : s.initSeries.length ≤ s.iter + 1
  · simp [hb]
  · cases hf : (E.trial s.iter s.f1 s.pre).finite with
    | false =>
      simp only [hb, decide_false, Bool.false_eq_true, if_false, Bool.not_false, if_true]
      refine ⟨fun s' h => (by cases h), fun s' h => ?_⟩
      cases h
      exact ⟨_, rfl, by simp [seen, h1, h2, h4, h5, h6, h7, h8], hl⟩
    | true =>
      simp only [hb, decide_false, Bool.false_eq_true, if_false, Bool.not_true]
      by_cases hg : (C.outputGap == 0) = true
      · simp [hg]
      · by_cases hb2 : s.funSeries.length ≤ s.iter + 1
        · simp [hg, hb2]
        · simp only [hg, hb2, decide_false, Bool.false_eq_true, if_false]
          refine ⟨fun s' h => ?_, fun s' h => (by cases h)⟩
          cases h
          exact ⟨_, rfl, by simp [seen, h6, h7, h8, hl], hl⟩

theorem quiet_defined (C : RunCfg) (E : RunEnv K) (t : RunState K) :
    pass { C with record := false } E t ≠ .outOfBounds ∧ pass { C with record := false } E t ≠ .divByZero := by
  simp only [pass, Bool.false_and, Bool.false_eq_true, if_false]
  cases (E.trial t.iter t.f1 t.pre).finite <;> simp

theorem loop_defined (C : RunCfg) (E : RunEnv K) : ∀ n (t : RunState K),
    runLoop { C with record := false } E n t ≠ .outOfBounds ∧ runLoop { C with record := false } E n t ≠ .divByZero := by
  intro n
  induction n with
  | zero => intro t; simp [runLoop]
  | succ n ih =>
    intro t
    simp only [runLoop]
    by_cases hgo : t.continues { C with record := false } = true
    · rw [if_pos hgo]
      have hd := quiet_defined C E t
      cases hp : pass { C with record := false } E t with
      | outOfBounds => exact absurd hp hd.1
      | divByZero => exact absurd hp hd.2
      | stop s => simp
      | next s => exact ih s
    · rw [if_neg hgo]; simp

theorem loop_quiet (C : RunCfg) (E : RunEnv K) : ∀ n (s t : RunState K), Agree s t →
    (∀ r, runLoop { C with record := true } E n s = .finished r →
      ∃ q, runLoop { C with record := false } E n t = .finished q ∧ Agree r q) ∧
    (runLoop { C with record := true } E n s = .running → runLoop { C with record := false } E n t = .running) := by
  intro n
  induction n with
  | zero => intro s t _; simp [runLoop]
  | succ n ih =>
    intro s t hst
    have hc : t.continues { C with record := false } = s.continues { C with record := true } := by
      have h := hst.1
      simp only [seen, Seen.mk.injEq] at h
      simp only [RunState.continues, h.1, h.2.1, h.2.2.1]
    simp only [runLoop, hc]
    by_cases hgo : s.continues { C with record := true } = true
    · rw [if_pos hgo, if_pos hgo]
      obtain ⟨hn, hs⟩ := pass_quiet C E hst
      cases hp : pass { C with record := true } E s with
      | outOfBounds => simp
      | divByZero => simp
      | stop s' =>
        obtain ⟨t', ht, ha⟩ := hs s' hp
        rw [ht]
        refine ⟨fun r h => ?_, fun h => (by cases h)⟩
        cases h
        exact ⟨t', rfl, ha⟩
      | next s' =>
        obtain ⟨t', ht, ha⟩ := hn s' hp
        rw [ht]
        exact ih s' t' ha
    · rw [if_neg hgo, if_neg hgo]
      refine ⟨fun r h => ?_, fun h => (by cases h)⟩
      cases h
      exact ⟨t, rfl, hst⟩

theorem loop_length (C : RunCfg) (E : RunEnv K) (hC : C.record = false) : ∀ n (s r : RunState K),
    runLoop C E n s = .finished r → r.lengthSeries = s.lengthSeries := by
  intro n
  induction n with
  | zero => intro s r h; cases h
  | succ n ih =>
    intro s r h
    simp only [runLoop] at h
    by_cases hgo : s.continues C = true
    · rw [if_pos hgo] at h
      simp only [pass, hC, Bool.false_and, Bool.false_eq_true, if_false] at h
      cases hf : (E.trial s.iter s.f1 s.pre).finite with
      | false =>
        simp only [hf, Bool.not_false, if_true, Outcome.finished.injEq] at h
        subst h
        rfl
      | true =>
        simp only [hf, Bool.not_true, Bool.false_eq_true, if_false] at h
        have := ih _ _ h
        exact this
    · rw [if_neg hgo] at h
      cases h
      rfl

/-- **C164, line-search solvers.** A run without history visits the same iterates, stops at the same iteration for the same reason and returns the same value as the run with history, if that one does not write outside its arrays or divide by `OutputGap = 0`; it never does either itself; and it leaves `GetlengthSeries` at the number a former run left. -/
theorem C164_linesearch (C : RunCfg) (E : RunEnv K) (zero : K) (len0 fuel : Nat) :
    (∀ r, run { C with record := true } E zero len0 fuel = .finished r →
      ∃ q, run { C with record := false } E zero len0 fuel = .finished q ∧ seen q = seen r ∧ q.lengthSeries = len0 ∧
        r.lengthSeries = r.iter + 1) ∧
    (run { C with record := true } E zero len0 fuel = .running → run { C with record := false } E zero len0 fuel = .running) ∧
    run { C with record := false } E zero len0 fuel ≠ .outOfBounds ∧
    run { C with record := false } E zero len0 fuel ≠ .divByZero := by
  obtain ⟨ha, hb⟩ := loop_quiet C E fuel (RunState.init { C with record := true } E zero len0)
    (RunState.init { C with record := false } E zero len0) ⟨rfl, rfl⟩
  have hd := loop_defined C E fuel (RunState.init { C with record := false } E zero len0)
  have hlen := loop_length { C with record := false } E rfl fuel (RunState.init { C with record := false } E zero len0)
  unfold run
  refine ⟨?_, ?_, ?_⟩
  · intro r hr
    cases hq : runLoop { C with record := true } E fuel (RunState.init { C with record := true } E zero len0) with
    | finished r0 =>
      obtain ⟨q, hq', hs, _⟩ := ha r0 hq
      rw [hq] at hr
      simp only [Outcome.close, if_true, Outcome.finished.injEq] at hr
      subst hr
      refine ⟨q, by rw [hq']; simp [Outcome.close], ?_, hlen q hq', rfl⟩
      simp only [seen, Seen.mk.injEq] at hs ⊢
      simp [hs]
    | _ => rw [hq] at hr; cases hr
  · intro hr
    cases hq : runLoop { C with record := true } E fuel (RunState.init { C with record := true } E zero len0) with
    | running => rw [hb hq]; rfl
    | _ => rw [hq] at hr; cases hr
  · cases hq : runLoop { C with record := false } E fuel (RunState.init { C with record := false } E zero len0) with
    | outOfBounds => exact absurd hq hd.1
    | divByZero => exact absurd hq hd.2
    | _ => simp [Outcome.close]

/-- `GetlengthSeries()` after a sequence of runs of one object (each with its parameters, problem and number of passes made), `none` if one of them is undefined or has not ended. -/
def lengthAfter (zero : K) : Nat → List (RunCfg × RunEnv K × Nat) → Option Nat
  | len, [] => some len
  | len, (C, E, n) :: rest =>
    match run C E zero len n with
    | .finished s => lengthAfter zero s.lengthSeries rest
    | _ => none

/-- **C164**: after any number of quiet runs `GetlengthSeries` still is the number of the last run with history, 0 for a new object; it says nothing about the run just made. -/
theorem C164_stale (zero : K) (runs : List (RunCfg × RunEnv K × Nat)) (hq : ∀ p ∈ runs, p.1.record = false) (len len' : Nat)
    (h : lengthAfter zero len runs = some len') : len' = len := by
  induction runs generalizing len with
  | nil => simp only [lengthAfter, Option.some.injEq] at h; exact h.symm
  | cons p rest ih =>
    obtain ⟨C, E, n⟩ := p
    simp only [lengthAfter] at h
    cases hr : run C E zero len n with
    | finished s =>
      rw [hr] at h
      have hs : s.lengthSeries = len := by
        unfold run at hr
        cases ho : runLoop C E n (RunState.init C E zero len) with
        | finished q =>
          rw [ho] at hr
          have hrec : C.record = false := hq _ List.mem_cons_self
          simp only [Outcome.close, hrec, Bool.false_eq_true, if_false, Solver.Outcome.finished.injEq] at hr
          subst hr
          exact loop_length C E hrec n _ _ ho
        | _ => rw [ho] at hr; cases hr
      have := ih (fun p hp => hq p (List.mem_cons_of_mem _ hp)) s.lengthSeries h
      rw [this, hs]
    | _ => rw [hr] at h; cases h

end LS

/-! ## Trust-region solvers -/

section TR
open TRRun

variable {K X : Type} [Field K] [LinearOrder K]

/-- What a caller can see of a trust-region run apart from the history. -/
structure SeenTR (K X : Type) where
  iter : Nat
  isstop : Bool
  x1 : X
  f1 : K
  f2 : K
  ngf1 : K
  ngf2 : K
  Delta : K
  xs : List X
  streak : Nat

def seenTR (s : TRRun.St K X) : SeenTR K X := ⟨s.iter, s.isstop, s.x1, s.f1, s.f2, s.ngf1, s.ngf2, s.Delta, s.xs, s.streak⟩

theorem hist_quiet (C : TRRun.Cfg K) {s t : TRRun.St K X} (h : seenTR s = seenTR t) :
    (∀ s', s.writeHist { C with record := true } = .next s' →
      ∃ t', t.writeHist { C with record := false } = .next t' ∧ seenTR s' = seenTR t') ∧
    (∀ s', s.writeHist { C with record := true } ≠ .stop s') := by
  simp only [TRRun.St.writeHist, if_true, Bool.false_eq_true, if_false]
  split
  · exact ⟨fun s' h => (by cases h), fun s' h => (by cases h)⟩
  · split
    · exact ⟨fun s' h => (by cases h), fun s' h => (by cases h)⟩
    · refine ⟨fun s' hs => ?_, fun s' h => (by cases h)⟩
      cases hs
      exact ⟨t, rfl, h⟩

theorem pass_quiet_tr (C : TRRun.Cfg K) (E : TRRun.Env K X) {s t : TRRun.St K X} (h : seenTR s = seenTR t) :
    (∀ s', TRRun.pass { C with record := true } E s = .next s' →
      ∃ t', TRRun.pass { C with record := false } E t = .next t' ∧ seenTR s' = seenTR t') ∧
    (∀ s', TRRun.pass { C with record := true } E s = .stop s' →
      ∃ t', TRRun.pass { C with record := false } E t = .stop t' ∧ seenTR s' = seenTR t') := by
  have h' := h
  simp only [seenTR, SeenTR.mk.injEq] at h'
  obtain ⟨h1, h2, h3, h4, h5, h6, h7, h8, h9, h10⟩ := h'
  simp only [TRRun.pass, ← h1, ← h3, ← h4, ← h6, ← h8]
  have hacc : accurate { C with record := false } (E.ngf E.x0) s.ngf1 = accurate { C with record := true } (E.ngf E.x0) s.ngf1 := rfl
  have hrad : ∀ a b c d, radius { C with record := false } a b c d = radius { C with record := true } a b c d := fun _ _ _ _ => rfl
  have hacp : ∀ (a : Ratio K) b c d e, accepts { C with record := false } a b c d e = accepts { C with record := true } a b c d e :=
    fun _ _ _ _ _ => rfl
  rw [hacc, hrad, hacp]
  split
  · refine ⟨fun s' h => (by cases h), fun s' hs => ?_⟩
    cases hs
    exact ⟨_, rfl, by simp [seenTR, h1, h2, h3, h4, h6, h7, h8, h9, h10]⟩
  · split
    · refine ⟨fun s' h => (by cases h), fun s' hs => ?_⟩
      cases hs
      exact ⟨_, rfl, by simp [seenTR, h1, h2, h3, h4, h6, h7, h9, h10]⟩
    · rename_i D _
      split
      · obtain ⟨ha, hb⟩ := hist_quiet C (s := s.accept E (E.cand s.iter s.x1 s.Delta).x2 D)
          (t := t.accept E (E.cand s.iter s.x1 s.Delta).x2 D) (by simp [seenTR, TRRun.St.accept, h1, h3, h9])
        exact ⟨ha, fun s' hs => absurd hs (hb s')⟩
      · obtain ⟨ha, hb⟩ := hist_quiet C (s := s.reject E (E.cand s.iter s.x1 s.Delta).x2 D)
          (t := t.reject E (E.cand s.iter s.x1 s.Delta).x2 D) (by simp [seenTR, TRRun.St.reject, h1, h2, h3, h4, h6, h7, h9, h10])
        exact ⟨ha, fun s' hs => absurd hs (hb s')⟩

theorem quiet_defined_tr (C : TRRun.Cfg K) (E : TRRun.Env K X) (t : TRRun.St K X) :
    TRRun.pass { C with record := false } E t ≠ .outOfBounds ∧ TRRun.pass { C with record := false } E t ≠ .divByZero := by
  simp only [TRRun.pass, TRRun.St.writeHist, Bool.false_eq_true, if_false]
  split
  · simp
  · split
    · simp
    · split <;> simp

/-- **C164, trust-region solvers.** The same: iterates, radii, values, norms and the number of iterations do not depend on the verbosity, unless the run with history writes outside its arrays or divides by zero, which the quiet run never does. -/
theorem C164_trust_region (C : TRRun.Cfg K) (E : TRRun.Env K X) (fuel : Nat) :
    (∀ r, TRRun.run { C with record := true } E fuel = .finished r →
      ∃ q, TRRun.run { C with record := false } E fuel = .finished q ∧ seenTR q = seenTR r) ∧
    (TRRun.run { C with record := true } E fuel = .running → TRRun.run { C with record := false } E fuel = .running) ∧
    TRRun.run { C with record := false } E fuel ≠ .outOfBounds ∧ TRRun.run { C with record := false } E fuel ≠ .divByZero := by
  have key : ∀ n (s t : TRRun.St K X), seenTR s = seenTR t →
      (∀ r, TRRun.loop { C with record := true } E n s = .finished r →
        ∃ q, TRRun.loop { C with record := false } E n t = .finished q ∧ seenTR q = seenTR r) ∧
      (TRRun.loop { C with record := true } E n s = .running → TRRun.loop { C with record := false } E n t = .running) := by
    intro n
    induction n with
    | zero => intro s t _; simp [TRRun.loop]
    | succ n ih =>
      intro s t hst
      have hc : t.continues { C with record := false } = s.continues { C with record := true } := by
        have h := hst
        simp only [seenTR, SeenTR.mk.injEq] at h
        simp only [TRRun.St.continues, h.1, h.2.1]
      simp only [TRRun.loop, hc]
      by_cases hgo : s.continues { C with record := true } = true
      · rw [if_pos hgo, if_pos hgo]
        obtain ⟨hn, hs⟩ := pass_quiet_tr C E hst
        cases hp : TRRun.pass { C with record := true } E s with
        | outOfBounds => simp
        | divByZero => simp
        | stop s' =>
          obtain ⟨t', ht, ha⟩ := hs s' hp
          rw [ht]
          refine ⟨fun r h => ?_, fun h => (by cases h)⟩
          cases h
          exact ⟨t', rfl, ha.symm⟩
        | next s' =>
          obtain ⟨t', ht, ha⟩ := hn s' hp
          rw [ht]
          exact ih s' t' ha
      · rw [if_neg hgo, if_neg hgo]
        refine ⟨fun r h => ?_, fun h => (by cases h)⟩
        cases h
        exact ⟨t, rfl, hst.symm⟩
  have hdef : ∀ n (t : TRRun.St K X), TRRun.loop { C with record := false } E n t ≠ .outOfBounds ∧
      TRRun.loop { C with record := false } E n t ≠ .divByZero := by
    intro n
    induction n with
    | zero => intro t; simp [TRRun.loop]
    | succ n ih =>
      intro t
      simp only [TRRun.loop]
      by_cases hgo : t.continues { C with record := false } = true
      · rw [if_pos hgo]
        have hd := quiet_defined_tr C E t
        cases hp : TRRun.pass { C with record := false } E t with
        | outOfBounds => exact absurd hp hd.1
        | divByZero => exact absurd hp hd.2
        | stop s => simp
        | next s => exact ih s
      · rw [if_neg hgo]; simp
  exact ⟨(key fuel _ _ rfl).1, (key fuel _ _ rfl).2, hdef fuel _⟩

end TR

/-! ## Proximal-gradient solvers -/

section PGs
open PG

variable {K X Y : Type} [Field K] [LinearOrder K]

/-- A run with history that ends or goes on is the run without. -/
def Same {σ : Type} (a b : PG.Outcome σ) : Prop := ∀ o, a = o → (o = .outOfBounds ∨ o = .divByZero) ∨ b = o

theorem record_quiet_pg (C : PG.Cfg K) (i : Nat) {σ : Type} (s : σ) :
    PG.record { C with record := false } i s = .next s ∧
    (PG.record { C with record := true } i s = .next s ∨ PG.record { C with record := true } i s = .outOfBounds ∨
      PG.record { C with record := true } i s = .divByZero) := by
  simp only [PG.record, Bool.false_eq_true, if_false, if_true, true_and]
  split
  · simp
  · split <;> simp

theorem refine_quiet (C : PG.Cfg K) (a : K) :
    refineTol { C with record := false } a = refineTol { C with record := true } a ∧
    refineLam { C with record := false } a = refineLam { C with record := true } a := ⟨rfl, rfl⟩

/-- **C164, ManPG.** -/
theorem C164_manpg (C : PG.Cfg K) (E : PG.Env K X) (lsFuel fuel : Nat) :
    Same (PG.run { C with record := true } E lsFuel fuel) (PG.run { C with record := false } E lsFuel fuel) ∧
    PG.run { C with record := false } E lsFuel fuel ≠ .outOfBounds ∧ PG.run { C with record := false } E lsFuel fuel ≠ .divByZero := by
  have hp : ∀ s : PG.St K X,
      (PG.pass { C with record := true } E lsFuel s = PG.pass { C with record := false } E lsFuel s ∨
        PG.pass { C with record := true } E lsFuel s = .outOfBounds ∨ PG.pass { C with record := true } E lsFuel s = .divByZero) ∧
      PG.pass { C with record := false } E lsFuel s ≠ .outOfBounds ∧ PG.pass { C with record := false } E lsFuel s ≠ .divByZero := by
    intro s
    simp only [PG.pass]
    cases armijo C.toLSCfg (E.phi s.iter s.x1 s.tol s.lam) s.f1 (E.slope s.iter s.x1 s.tol s.lam) lsFuel 1 with
    | none => simp
    | some r =>
      simp only
      split
      · split <;> simp [refine_quiet]
      · split
        · simp
        · obtain ⟨h1, h2⟩ := record_quiet_pg C (s.iter + 1)
            (⟨s.iter + 1, E.stopped (s.iter + 1) s.x1 (E.path s.iter s.x1 s.tol s.lam r.trial), E.path s.iter s.x1 s.tol s.lam r.trial,
              E.f (E.path s.iter s.x1 s.tol s.lam r.trial), s.tol, s.lam, s.refs, E.path s.iter s.x1 s.tol s.lam r.trial :: s.xs⟩ : PG.St K X)
          rw [h1]
          exact ⟨h2, by simp, by simp⟩
  have key : ∀ n (s : PG.St K X), Same (PG.loop { C with record := true } E lsFuel n s) (PG.loop { C with record := false } E lsFuel n s) ∧
      PG.loop { C with record := false } E lsFuel n s ≠ .outOfBounds ∧ PG.loop { C with record := false } E lsFuel n s ≠ .divByZero := by
    intro n
    induction n with
    | zero => intro s; exact ⟨fun o h => Or.inr h, by simp [PG.loop], by simp [PG.loop]⟩
    | succ n ih =>
      intro s
      simp only [PG.loop]
      have hc : s.continues { C with record := false } = s.continues { C with record := true } := rfl
      rw [hc]
      by_cases hgo : s.continues { C with record := true } = true
      · rw [if_pos hgo, if_pos hgo]
        obtain ⟨h1, h2, h3⟩ := hp s
        cases hq : PG.pass { C with record := false } E lsFuel s with
        | outOfBounds => exact absurd hq h2
        | divByZero => exact absurd hq h3
        | running =>
          rcases h1 with h | h | h <;> rw [h]
          · rw [hq]; exact ⟨fun o h => Or.inr h, by simp, by simp⟩
          · exact ⟨fun o h => Or.inl (Or.inl h.symm), by simp, by simp⟩
          · exact ⟨fun o h => Or.inl (Or.inr h.symm), by simp, by simp⟩
        | stop s' =>
          rcases h1 with h | h | h <;> rw [h]
          · rw [hq]; exact ⟨fun o h => Or.inr h, by simp, by simp⟩
          · exact ⟨fun o h => Or.inl (Or.inl h.symm), by simp, by simp⟩
          · exact ⟨fun o h => Or.inl (Or.inr h.symm), by simp, by simp⟩
        | next s' =>
          rcases h1 with h | h | h <;> rw [h]
          · rw [hq]; exact ih s'
          · exact ⟨fun o h => Or.inl (Or.inl h.symm), (ih s').2⟩
          · exact ⟨fun o h => Or.inl (Or.inr h.symm), (ih s').2⟩
      · rw [if_neg hgo, if_neg hgo]
        exact ⟨fun o h => Or.inr h, by simp, by simp⟩
  exact key fuel _

/-- **C164, AManPG** (with `SGIterGap` not zero). -/
theorem C164_amanpg (C : PG.Cfg K) (hg : C.gap ≠ 0) (E : PG.AEnv K X Y) (lsFuel fuel : Nat) :
    Same (PG.arun { C with record := true } E lsFuel fuel) (PG.arun { C with record := false } E lsFuel fuel) ∧
    PG.arun { C with record := false } E lsFuel fuel ≠ .outOfBounds ∧ PG.arun { C with record := false } E lsFuel fuel ≠ .divByZero := by
  have ha : ∀ s : PG.ASt K X Y,
      (PG.accel { C with record := true } E s = PG.accel { C with record := false } E s ∨
        PG.accel { C with record := true } E s = .outOfBounds ∨ PG.accel { C with record := true } E s = .divByZero) ∧
      PG.accel { C with record := false } E s ≠ .outOfBounds ∧ PG.accel { C with record := false } E s ≠ .divByZero := by
    intro s
    simp only [PG.accel]
    obtain ⟨h1, h2⟩ := record_quiet_pg C (s.iter + 1)
      ({ s with
        iter := s.iter + 1, isstop := E.stopped s.iter s.x1 (E.zNext s.iter s.z1 s.y1 s.tol s.lam)
        z1 := E.zNext s.iter s.z1 s.y1 s.tol s.lam, fz2 := some (E.f (E.zNext s.iter s.z1 s.y1 s.tol s.lam))
        y1 := E.yNext s.iter s.z1 s.y1 s.tol s.lam, hist := s.f2 :: s.hist } : PG.ASt K X Y)
    rw [h1]
    exact ⟨h2, by simp, by simp⟩
  have hp : ∀ s : PG.ASt K X Y,
      (PG.apass { C with record := true } E lsFuel s = PG.apass { C with record := false } E lsFuel s ∨
        PG.apass { C with record := true } E lsFuel s = .outOfBounds ∨ PG.apass { C with record := true } E lsFuel s = .divByZero) ∧
      PG.apass { C with record := false } E lsFuel s ≠ .outOfBounds ∧ PG.apass { C with record := false } E lsFuel s ≠ .divByZero := by
    intro s
    simp only [PG.apass, if_neg hg]
    split
    · cases armijo C.toLSCfg (E.phi s.iter s.x1 s.tol s.lam) s.f1 (E.slope s.iter s.x1 s.tol s.lam) lsFuel 1 with
      | none => simp
      | some r =>
        simp only
        split
        · split <;> simp [refine_quiet]
        · split
          · simp
          · exact ha _
    · exact ha s
  have key : ∀ n (s : PG.ASt K X Y), Same (PG.aloop { C with record := true } E lsFuel n s) (PG.aloop { C with record := false } E lsFuel n s) ∧
      PG.aloop { C with record := false } E lsFuel n s ≠ .outOfBounds ∧ PG.aloop { C with record := false } E lsFuel n s ≠ .divByZero := by
    intro n
    induction n with
    | zero => intro s; exact ⟨fun o h => Or.inr h, by simp [PG.aloop], by simp [PG.aloop]⟩
    | succ n ih =>
      intro s
      simp only [PG.aloop]
      have hc : s.continues { C with record := false } = s.continues { C with record := true } := rfl
      rw [hc]
      by_cases hgo : s.continues { C with record := true } = true
      · rw [if_pos hgo, if_pos hgo]
        obtain ⟨h1, h2, h3⟩ := hp s
        cases hq : PG.apass { C with record := false } E lsFuel s with
        | outOfBounds => exact absurd hq h2
        | divByZero => exact absurd hq h3
        | running =>
          rcases h1 with h | h | h <;> rw [h]
          · rw [hq]; exact ⟨fun o h => Or.inr h, by simp, by simp⟩
          · exact ⟨fun o h => Or.inl (Or.inl h.symm), by simp, by simp⟩
          · exact ⟨fun o h => Or.inl (Or.inr h.symm), by simp, by simp⟩
        | stop s' =>
          rcases h1 with h | h | h <;> rw [h]
          · rw [hq]; exact ⟨fun o h => Or.inr h, by simp, by simp⟩
          · exact ⟨fun o h => Or.inl (Or.inl h.symm), by simp, by simp⟩
          · exact ⟨fun o h => Or.inl (Or.inr h.symm), by simp, by simp⟩
        | next s' =>
          rcases h1 with h | h | h <;> rw [h]
          · rw [hq]; exact ih s'
          · exact ⟨fun o h => Or.inl (Or.inl h.symm), (ih s').2⟩
          · exact ⟨fun o h => Or.inl (Or.inr h.symm), (ih s').2⟩
      · rw [if_neg hgo, if_neg hgo]
        exact ⟨fun o h => Or.inr h, by simp, by simp⟩
  exact key fuel _

end PGs

/-! ## Concrete cases -/

/-- Three steps, each halving the value. -/
def exE : Solver.RunEnv Rat := ⟨8, fun _ f _ => ⟨true, f / 2, true, 1⟩, fun k => decide (3 ≤ k), fun _ => false⟩

/-- With history the length is that of the run, without it is the former one (7 here). -/
example : (match Solver.run ⟨10, 0, 1, 0, true⟩ exE 0 7 20 with | .finished s => some (s.iter, s.f1, s.lengthSeries) | _ => none) = some (3, 1, 4) ∧
    (match Solver.run ⟨10, 0, 1, 0, false⟩ exE 0 7 20 with | .finished s => some (s.iter, s.f1, s.lengthSeries) | _ => none) = some (3, 1, 7) := by
  decide +kernel

/-- A recorded run, then two quiet ones of other lengths. -/
example : lengthAfter (0 : Rat) 0 [(⟨10, 0, 1, 0, true⟩, exE, 20), (⟨2, 0, 1, 0, false⟩, exE, 20), (⟨1, 0, 0, 0, false⟩, exE, 20)] = some 4 := by
  decide +kernel

/-- With `OutputGap = 0` only the quiet run is defined. -/
example : (match Solver.run ⟨10, 0, 0, 0, true⟩ exE 0 7 20 with | .divByZero => true | _ => false) = true ∧
    (match Solver.run ⟨10, 0, 0, 0, false⟩ exE 0 7 20 with | .finished _ => true | _ => false) = true := by
  decide +kernel

end Verif.Quiet
