import Verif.Solver.Clock
import Mathlib.Tactic.Linarith
import Mathlib.Tactic.Ring
import Mathlib.Tactic.NormNum
import Mathlib.Algebra.BigOperators.Intervals

/-!
# C162: what the time limit limits, and what the reported times are
-/

namespace Verif.Clock

/-! ## Specification: the true times -/

/-- Microseconds an event takes. -/
def Ev.dur : Ev → Nat
  | .work d => d
  | .start => 0

/-- Microseconds a sequence of events takes. -/
def dur (es : List Ev) : Nat := (es.map Ev.dur).sum

/-- No solver object is run meanwhile. -/
def Quiet (es : List Ev) : Prop := Ev.start ∉ es

/-- Time since the start of the run after `k` complete passes. -/
def spent (pro : List Ev) (body : Nat → Pass) (k : Nat) : Nat :=
  dur pro + ∑ i ∈ Finset.range k, (dur (body i).pre + dur (body i).mid + dur (body i).post)

/-- Time since the start of the run when the stopping test before pass `k` is made. -/
def atCheck (pro : List Ev) (body : Nat → Pass) : Nat → Nat
  | 0 => dur pro
  | k + 1 => spent pro body k + dur (body k).pre

/-- Time since the start of the run when entry `k` of the series of times is recorded. -/
def atRecord (pro : List Ev) (body : Nat → Pass) : Nat → Nat
  | 0 => dur pro
  | k + 1 => spent pro body k + dur (body k).pre + dur (body k).mid

theorem spent_succ (pro : List Ev) (body : Nat → Pass) (k : Nat) : spent pro body (k + 1) = spent pro body k + (dur (body k).pre + dur (body k).mid + dur (body k).post) := by
  unfold spent; rw [Finset.sum_range_succ]; omega

/-! ## The clock -/

theorem execs_now (w : Nat) (es : List Ev) (c : Clk) : (execs w es c).now = c.now + dur es := by
  induction es generalizing c with
  | nil => rfl
  | cons e es ih =>
    show (execs w es (Ev.exec w c e)).now = _
    rw [ih]
    cases e <;> simp [Ev.exec, dur, Ev.dur]; omega

theorem execs_quiet (w : Nat) (es : List Ev) (c : Clk) (h : Quiet es) : (execs w es c).start = c.start := by
  induction es generalizing c with
  | nil => rfl
  | cons e es ih =>
    show (execs w es (Ev.exec w c e)).start = _
    rw [ih _ (fun m => h (List.mem_cons_of_mem _ m))]
    cases e with
    | work d => rfl
    | start => exact absurd List.mem_cons_self h

theorem elapsed_since (w a d : Nat) (c : Clk) (hs : c.start = a % 2 ^ w) (hn : c.now = a + d) : elapsed w c = d % 2 ^ w := by
  unfold elapsed tick
  rw [hs, hn]
  have hp : 0 < 2 ^ w := Nat.two_pow_pos w
  generalize 2 ^ w = N at *
  have h1 := Nat.div_add_mod a N
  have h2 := Nat.mod_lt a hp
  rw [Nat.mod_add_mod]
  have : a + d + (N - a % N) = d + N * (a / N + 1) := by rw [Nat.mul_add, Nat.mul_one]; omega
  rw [this, Nat.add_mul_mod_self_left]

/-- `starttime` holds the time of some moment not before `t0`. -/
def Since (w t0 : Nat) (c : Clk) : Prop := ∃ a, t0 ≤ a ∧ a ≤ c.now ∧ c.start = a % 2 ^ w

theorem Since.execs {w t0 : Nat} {c : Clk} (h : Since w t0 c) (es : List Ev) : Since w t0 (execs w es c) := by
  induction es generalizing c with
  | nil => exact h
  | cons e es ih =>
    refine ih ?_
    obtain ⟨a, h1, h2, h3⟩ := h
    cases e with
    | work d => exact ⟨a, h1, Nat.le_trans h2 (Nat.le_add_right _ _), h3⟩
    | start => exact ⟨c.now, Nat.le_trans h1 h2, Nat.le_refl _, rfl⟩

theorem Since.elapsed_le {w t0 : Nat} {c : Clk} (h : Since w t0 c) : elapsed w c ≤ c.now - t0 := by
  obtain ⟨a, h1, h2, h3⟩ := h
  rw [elapsed_since w a (c.now - a) c h3 (by omega)]
  exact Nat.le_trans (Nat.mod_le _ _) (by omega)

theorem timeUp_iff (P : Par) (c : Clk) : timeUp P c = true ↔ P.bound * 1000000 < elapsed P.w c := by
  unfold timeUp
  rw [decide_eq_true_eq, lt_div_iff₀ (by norm_num)]

theorem timeUp_false (P : Par) (c : Clk) : timeUp P c = false ↔ (elapsed P.w c : Rat) ≤ P.bound * 1000000 := by
  rw [← Bool.not_eq_true, timeUp_iff, not_lt]

/-! ## Runs without inner runs -/

/-- No solver object is run during a run. -/
structure AllQuiet (pro : List Ev) (body : Nat → Pass) : Prop where
  pro : Quiet pro
  pre : ∀ k, Quiet (body k).pre
  mid : ∀ k, Quiet (body k).mid
  post : ∀ k, Quiet (body k).post

/-- State at the head of the loop before pass `k` of a run that started at time `t0`. -/
structure At (P : Par) (pro : List Ev) (body : Nat → Pass) (t0 k : Nat) (s : St) : Prop where
  passes : s.passes = k
  iter : s.iter = k
  start : s.clk.start = t0 % 2 ^ P.w
  now : s.clk.now = t0 + spent pro body k
  stop : (k = 0 ∨ ∃ j, k = j + 1 ∧ (body j).check = true) → s.isstop = false → ((atCheck pro body k % 2 ^ P.w : Nat) : Rat) ≤ P.bound * 1000000
  times : s.times.reverse = (List.range (k + 1)).map (fun i => atRecord pro body i % 2 ^ P.w)

theorem At.next {P : Par} {pro : List Ev} {body : Nat → Pass} {t0 k : Nat} {s : St} (Q : AllQuiet pro body) (hc : ∀ i, (body i).count = true) (h : At P pro body t0 k s) (hl : (body k).leave = false) :
    (pass P (body k) s).2 = false ∧ At P pro body t0 (k + 1) (pass P (body k) s).1 := by
  have e1 : (execs P.w (body k).pre s.clk).start = t0 % 2 ^ P.w := by rw [execs_quiet _ _ _ (Q.pre k), h.start]
  have e2 : (execs P.w (body k).pre s.clk).now = t0 + (spent pro body k + dur (body k).pre) := by rw [execs_now, h.now]; omega
  have e3 := elapsed_since _ _ _ _ e1 e2
  have f1 : (execs P.w (body k).mid (execs P.w (body k).pre s.clk)).start = t0 % 2 ^ P.w := by rw [execs_quiet _ _ _ (Q.mid k), e1]
  have f2 : (execs P.w (body k).mid (execs P.w (body k).pre s.clk)).now = t0 + (spent pro body k + dur (body k).pre + dur (body k).mid) := by rw [execs_now, e2]; omega
  have f3 := elapsed_since _ _ _ _ f1 f2
  unfold pass
  simp only [hl, Bool.false_eq_true, if_false, hc, if_true]
  refine ⟨trivial, ⟨by simp [h.passes], by simp [h.iter], ?_, ?_, ?_, ?_⟩⟩
  · show (execs P.w (body k).post _).start = _
    rw [execs_quiet _ _ _ (Q.post k), f1]
  · show (execs P.w (body k).post _).now = _
    rw [execs_now, f2, spent_succ]; omega
  · rintro (h0 | ⟨j, hj, hch⟩) hs
    · omega
    · obtain rfl : k = j := by omega
      simp only [hch, if_true, Bool.or_eq_false_iff] at hs
      have := (timeUp_false _ _).mp hs.1
      rw [e3] at this
      exact this
  · show (_ :: s.times).reverse = _
    rw [List.reverse_cons, h.times, List.range_succ (n := k + 1), List.map_append, f3]
    rfl

theorem At.first {P : Par} {pro : List Ev} {body : Nat → Pass} (Q : AllQuiet pro body) (first : Bool) (c : Clk) :
    At P pro body c.now 0 ⟨execs P.w pro (Ev.exec P.w c .start), 0, timeUp P (execs P.w pro (Ev.exec P.w c .start)) || first, true, [elapsed P.w (execs P.w pro (Ev.exec P.w c .start))], 0⟩ := by
  have e1 : (execs P.w pro (Ev.exec P.w c .start)).start = c.now % 2 ^ P.w := by rw [execs_quiet _ _ _ Q.pro]; rfl
  have e2 : (execs P.w pro (Ev.exec P.w c .start)).now = c.now + dur pro := by rw [execs_now]; rfl
  have e3 := elapsed_since _ _ _ _ e1 e2
  refine ⟨rfl, rfl, e1, by simp [e2, spent], ?_, by simp [e3, atRecord]⟩
  intro _ hs
  rw [Bool.or_eq_false_iff] at hs
  have := (timeUp_false _ _).mp hs.1
  rw [e3] at this
  exact this

/-- **C162, the limit.** If no other solver runs meanwhile, every iteration (beyond `Min_Iteration`) that follows a stopping test starts only if at that test the time limit had not passed, for as long as the counter has not wrapped around. Line-search solvers make the test in every iteration; trust-region solvers after accepted steps. -/
theorem C162_limit (P : Par) (pro : List Ev) (first : Bool) (body : Nat → Pass) (n : Nat) (c : Clk) (s : St) (Q : AllQuiet pro body) (hc : ∀ i, (body i).count = true) (h : run P pro first body n c = some s)
    (k : Nat) (hm : P.minIter ≤ k) (hk : k < s.passes) (ht : k = 0 ∨ ∃ j, k = j + 1 ∧ (body j).check = true) (hw : atCheck pro body k < 2 ^ P.w) : (atCheck pro body k : Rat) / 1000000 ≤ P.bound := by
  have key : ∀ n k0 (s0 : St), At P pro body c.now k0 s0 → loop P body n s0 = some s → k0 ≤ k → (atCheck pro body k : Rat) ≤ P.bound * 1000000 := by
    intro n
    induction n with
    | zero => intro k0 s0 _ h; simp [loop] at h
    | succ n ih =>
      intro k0 s0 h0 h hle
      rw [loop] at h
      split at h
      · next hg =>
        rcases Nat.eq_or_lt_of_le hle with rfl | hlt
        · simp only [Bool.and_eq_true, Bool.or_eq_true, Bool.not_eq_true', decide_eq_true_eq, h0.iter] at hg
          rcases hg.1 with g | g
          · have := h0.stop ht g.1
            rwa [Nat.mod_eq_of_lt hw] at this
          · omega
        · rw [h0.passes] at h
          cases hl : (body k0).leave with
          | false =>
            obtain ⟨g1, g2⟩ := h0.next Q hc hl
            generalize pass P (body k0) s0 = r at *
            obtain ⟨s1, b⟩ := r
            simp only at g1 g2
            subst g1
            exact ih _ _ g2 h hlt
          | true =>
            simp only [pass, hl, if_true] at h
            obtain rfl := Option.some.inj h
            simp only [h0.passes] at hk
            omega
      · obtain rfl := Option.some.inj h
        rw [h0.passes] at hk; omega
  rw [div_le_iff₀ (by norm_num)]
  exact key n 0 _ (At.first Q first c) h (Nat.zero_le _)

/-- **C162, the end.** If moreover every iteration takes at most `D` and makes the stopping test, the run lasts at most the limit (or the time for the initial evaluation) and two iterations more. -/
theorem C162_deadline (P : Par) (pro : List Ev) (first : Bool) (body : Nat → Pass) (n : Nat) (c : Clk) (s : St) (Q : AllQuiet pro body) (hc : ∀ i, (body i).count = true) (hch : ∀ i, (body i).check = true) (h : run P pro first body n c = some s)
    (hm : P.minIter = 0) (D : Nat) (hD : ∀ i, dur (body i).pre + dur (body i).mid + dur (body i).post ≤ D) (hw : spent pro body s.passes < 2 ^ P.w) :
    ((s.clk.now - c.now : Nat) : Rat) ≤ max (dur pro : Rat) (P.bound * 1000000) + 2 * D := by
  have hnow : s.clk.now ≤ c.now + spent pro body s.passes := by
    have key : ∀ n k0 (s0 : St), At P pro body c.now k0 s0 → loop P body n s0 = some s → s.clk.now ≤ c.now + spent pro body s.passes := by
      intro n
      induction n with
      | zero => intro k0 s0 _ h; simp [loop] at h
      | succ n ih =>
        intro k0 s0 h0 h
        rw [loop] at h
        split at h
        · rw [h0.passes] at h
          cases hl : (body k0).leave with
          | false =>
            obtain ⟨g1, g2⟩ := h0.next Q hc hl
            generalize pass P (body k0) s0 = r at *
            obtain ⟨s1, b⟩ := r
            simp only at g1 g2
            subst g1
            exact ih _ _ g2 h
          | true =>
            simp only [pass, hl, if_true] at h
            obtain rfl := Option.some.inj h
            simp only [h0.passes, execs_now, h0.now, spent_succ]
            omega
        · obtain rfl := Option.some.inj h
          rw [h0.now, h0.passes]
    exact key n 0 _ (At.first Q first c) h
  have hsub : ((s.clk.now - c.now : Nat) : Rat) ≤ spent pro body s.passes := by exact_mod_cast (by omega : s.clk.now - c.now ≤ spent pro body s.passes)
  refine hsub.trans ?_
  have hD0 : (0 : Rat) ≤ D := Nat.cast_nonneg _
  rcases Nat.eq_zero_or_pos s.passes with h0 | hpos
  · rw [h0]
    have : (spent pro body 0 : Rat) = dur pro := by simp [spent]
    rw [this]
    have := le_max_left (dur pro : Rat) (P.bound * 1000000)
    linarith
  · obtain ⟨k, hk⟩ : ∃ k, s.passes = k + 1 := ⟨s.passes - 1, by omega⟩
    rw [hk, spent_succ] at hw
    have hck : atCheck pro body k < 2 ^ P.w ∧ spent pro body k ≤ atCheck pro body k + D := by
      cases k with
      | zero =>
        have : spent pro body 0 = dur pro := by simp [spent]
        simp only [atCheck]; omega
      | succ j =>
        have := hD j
        rw [spent_succ] at hw ⊢
        simp only [atCheck]; omega
    have := C162_limit P pro first body n c s Q hc h k (by omega) (by omega) (by cases k with | zero => exact .inl rfl | succ j => exact .inr ⟨j, rfl, hch j⟩) hck.1
    rw [div_le_iff₀ (by norm_num)] at this
    have h2 : (spent pro body (k + 1) : Rat) ≤ atCheck pro body k + D + D := by
      rw [spent_succ]
      have := hD k
      exact_mod_cast (by omega : spent pro body k + (dur (body k).pre + dur (body k).mid + dur (body k).post) ≤ atCheck pro body k + D + D)
    have := le_max_right (dur pro : Rat) (P.bound * 1000000)
    rw [hk]
    linarith

/-- **C162, the series.** If no other solver runs meanwhile, the recorded times are the true ones and `GetComTime` is the true duration, modulo the range of the counter (microseconds, in a run that is not left by `break`). -/
theorem C162_series (P : Par) (pro : List Ev) (first : Bool) (body : Nat → Pass) (n : Nat) (c : Clk) (s : St) (Q : AllQuiet pro body) (hc : ∀ i, (body i).count = true) (hl : ∀ i, (body i).leave = false) (h : run P pro first body n c = some s) :
    s.times.reverse = (List.range (s.iter + 1)).map (fun i => atRecord pro body i % 2 ^ P.w) ∧ comTime P s = (s.clk.now - c.now) % 2 ^ P.w := by
  have key : ∀ n k0 (s0 : St), At P pro body c.now k0 s0 → loop P body n s0 = some s → ∃ k, At P pro body c.now k s := by
    intro n
    induction n with
    | zero => intro k0 s0 _ h; simp [loop] at h
    | succ n ih =>
      intro k0 s0 h0 h
      rw [loop] at h
      split at h
      · rw [h0.passes] at h
        obtain ⟨g1, g2⟩ := h0.next Q hc (hl k0)
        generalize pass P (body k0) s0 = r at *
        obtain ⟨s1, b⟩ := r
        simp only at g1 g2
        subst g1
        exact ih _ _ g2 h
      · obtain rfl := Option.some.inj h
        exact ⟨k0, h0⟩
  obtain ⟨k, hk⟩ := key n 0 _ (At.first Q first c) h
  refine ⟨by rw [hk.times, hk.iter], ?_⟩
  have := hk.now
  exact elapsed_since _ _ _ _ hk.start (by omega)

/-! ## Any runs -/

/-- **C162, never early.** Whatever else runs meanwhile and whether or not the counter wraps around: the time limit never ends a run early. A run that ends although iterations are left, no other criterion holds, and no search or number failed, has lasted longer than the limit. -/
theorem C162_never_early (P : Par) (pro : List Ev) (body : Nat → Pass) (n : Nat) (c : Clk) (s : St) (hb : ∀ i, (body i).leave = false ∧ (body i).other = false ∧ (body i).ok = true) (h : run P pro false body n c = some s) (hi : s.iter < P.maxIter) :
    P.bound < ((s.clk.now - c.now : Nat) : Rat) / 1000000 := by
  have key : ∀ n (s0 : St), Since P.w c.now s0.clk → c.now ≤ s0.clk.now → s0.ok = true → (s0.isstop = true → P.bound * 1000000 < ((s0.clk.now - c.now : Nat) : Rat)) → loop P body n s0 = some s →
      P.bound * 1000000 < ((s.clk.now - c.now : Nat) : Rat) := by
    intro n
    induction n with
    | zero => intro s0 _ _ _ _ h; simp [loop] at h
    | succ n ih =>
      intro s0 h1 h2 h3 h4 h
      rw [loop] at h
      obtain ⟨b1, b2, b3⟩ := hb s0.passes
      split at h
      · simp only [pass, b1, b2, b3, Bool.false_eq_true, if_false, Bool.or_false] at h
        refine ih _ ?_ ?_ rfl ?_ h
        · exact ((h1.execs _).execs _).execs _
        · simp only [execs_now]; omega
        · simp only
          intro hs
          have hle : s0.clk.now - c.now ≤ (execs P.w (body s0.passes).post (execs P.w (body s0.passes).mid (execs P.w (body s0.passes).pre s0.clk))).now - c.now := by simp only [execs_now]; omega
          have hle' : (execs P.w (body s0.passes).pre s0.clk).now - c.now ≤ (execs P.w (body s0.passes).post (execs P.w (body s0.passes).mid (execs P.w (body s0.passes).pre s0.clk))).now - c.now := by simp only [execs_now]; omega
          split at hs
          · have e1 := (timeUp_iff _ _).mp hs
            have e2 : elapsed P.w (execs P.w (body s0.passes).pre s0.clk) ≤ (execs P.w (body s0.passes).pre s0.clk).now - c.now := (h1.execs _).elapsed_le
            have e3 : (elapsed P.w (execs P.w (body s0.passes).pre s0.clk) : Rat) ≤ _ := Nat.cast_le.mpr (e2.trans hle')
            linarith
          · have e3 : ((s0.clk.now - c.now : Nat) : Rat) ≤ _ := Nat.cast_le.mpr hle
            have := h4 hs
            linarith
      · next hg =>
        obtain rfl := Option.some.inj h
        apply h4
        by_contra hs
        rw [Bool.not_eq_true] at hs
        simp [hs, hi, h3] at hg
  have h1 : Since P.w c.now (execs P.w pro (Ev.exec P.w c .start)) := Since.execs (c := Ev.exec P.w c .start) ⟨c.now, Nat.le_refl _, Nat.le_refl _, rfl⟩ _
  rw [lt_div_iff₀ (by norm_num)]
  refine key n _ h1 ?_ rfl ?_ h
  · show c.now ≤ (execs P.w pro (Ev.exec P.w c .start)).now
    rw [execs_now]; exact Nat.le_add_right _ _
  · simp only [Bool.or_false]
    intro hs
    have e1 := (timeUp_iff _ _).mp hs
    have e3 : (elapsed P.w (execs P.w pro (Ev.exec P.w c .start)) : Rat) ≤ _ := Nat.cast_le.mpr h1.elapsed_le
    linarith

/-- **C162, never too much.** In any run, whatever else runs meanwhile, no recorded time and no `GetComTime` exceeds the true duration of the run. -/
theorem C162_understates (P : Par) (pro : List Ev) (first : Bool) (body : Nat → Pass) (n : Nat) (c : Clk) (s : St) (h : run P pro first body n c = some s) :
    comTime P s ≤ s.clk.now - c.now ∧ ∀ t ∈ s.times, t ≤ s.clk.now - c.now := by
  have key : ∀ n (s0 : St), Since P.w c.now s0.clk → (∀ t ∈ s0.times, t ≤ s0.clk.now - c.now) → loop P body n s0 = some s → comTime P s ≤ s.clk.now - c.now ∧ ∀ t ∈ s.times, t ≤ s.clk.now - c.now := by
    intro n
    induction n with
    | zero => intro s0 _ _ h; simp [loop] at h
    | succ n ih =>
      intro s0 h1 h2 h
      rw [loop] at h
      have g1 := h1.execs (body s0.passes).pre
      have g2 := g1.execs (body s0.passes).mid
      have g3 := g2.execs (body s0.passes).post
      split at h
      · cases hl : (body s0.passes).leave with
        | true =>
          simp only [pass, hl, if_true] at h
          obtain rfl := Option.some.inj h
          refine ⟨g1.elapsed_le, fun t ht => (h2 t ht).trans ?_⟩
          simp only [execs_now]; omega
        | false =>
          simp only [pass, hl, Bool.false_eq_true, if_false] at h
          refine ih _ g3 ?_ h
          intro t ht
          simp only at ht
          have e2 := g2.elapsed_le
          simp only [execs_now] at e2 ⊢
          split at ht
          · rcases List.mem_cons.mp ht with rfl | ht
            · omega
            · have := h2 t ht; omega
          · have := h2 t ht; omega
      · obtain rfl := Option.some.inj h
        exact ⟨h1.elapsed_le, h2⟩
  have h1 : Since P.w c.now (execs P.w pro (Ev.exec P.w c .start)) := Since.execs (c := Ev.exec P.w c .start) ⟨c.now, Nat.le_refl _, Nat.le_refl _, rfl⟩ _
  refine key n _ h1 ?_ h
  intro t ht
  rw [List.mem_singleton.mp ht]
  exact h1.elapsed_le

/-! ## Where the limit is not kept -/

/-- A loop whose passes all count and go on makes `max (Max_Iteration, Min_Iteration)` iterations. -/
theorem loop_full (P : Par) (body : Nat → Pass) (hp : ∀ s : St, s.isstop = false → (pass P (body s.passes) s).2 = false ∧ (pass P (body s.passes) s).1.isstop = false ∧ (pass P (body s.passes) s).1.ok = true ∧ (pass P (body s.passes) s).1.iter = s.iter + 1)
    (n : Nat) (s : St) (hs : s.isstop = false) (ho : s.ok = true) (hi : s.iter ≤ max P.maxIter P.minIter) (hn : max P.maxIter P.minIter < s.iter + n) : ∃ s', loop P body n s = some s' ∧ s'.iter = max P.maxIter P.minIter := by
  induction n generalizing s with
  | zero => omega
  | succ n ih =>
    rw [loop]
    split
    · next hg =>
      obtain ⟨h1, h2, h3, h4⟩ := hp s hs
      generalize pass P (body s.passes) s = r at *
      obtain ⟨s1, b⟩ := r
      simp only at h1 h2 h3 h4
      subst h1
      refine ih s1 h2 h3 ?_ (by omega)
      rw [h4]
      simp only [hs, ho, Bool.not_false, Bool.true_and, Bool.and_true, Bool.or_eq_true, decide_eq_true_eq] at hg
      omega
    · next hg =>
      refine ⟨s, rfl, ?_⟩
      simp only [hs, ho, Bool.not_false, Bool.true_and, Bool.and_true, Bool.or_eq_true, decide_eq_true_eq, not_or, not_lt] at hg
      omega

/-- **C162, negation for trust regions.** The test is only made after accepted steps: a run whose steps are rejected makes all its iterations, whatever the limit and however long they take. -/
theorem C162_rejected (P : Par) (pro : List Ev) (body : Nat → Pass) (n : Nat) (c : Clk) (hb : ∀ i, (body i).leave = false ∧ (body i).check = false ∧ (body i).count = true ∧ (body i).ok = true) (h0 : timeUp P (execs P.w pro (Ev.exec P.w c .start)) = false)
    (hn : max P.maxIter P.minIter < n) : ∃ s, run P pro false body n c = some s ∧ s.iter = max P.maxIter P.minIter := by
  refine loop_full P body ?_ n _ (by simp [h0]) rfl (Nat.zero_le _) (by simpa using hn)
  intro s hs
  obtain ⟨b1, b2, b3, b4⟩ := hb s.passes
  simp [pass, b1, b2, b3, b4, hs]

/-- The test made after an inner run only sees the time since the inner run started. -/
theorem timeUp_inner (P : Par) (es es' : List Ev) (c : Clk) (hq : Quiet es') (hd : (dur es' : Rat) / 1000000 ≤ P.bound) : timeUp P (execs P.w (es ++ .start :: es') c) = false := by
  have e : execs P.w (es ++ .start :: es') c = execs P.w es' (Ev.exec P.w (execs P.w es c) .start) := by simp [execs]
  rw [e, timeUp_false, elapsed_since P.w (execs P.w es c).now (dur es') _ (by rw [execs_quiet _ _ _ hq]; rfl) (by rw [execs_now]; rfl)]
  rw [div_le_iff₀ (by norm_num)] at hd
  refine le_trans ?_ hd
  exact_mod_cast Nat.mod_le _ _

/-- **C162, negation for inner runs.** If in every iteration the problem or the manifold runs a solver object (of its own) and from then to the test less time passes than the limit, the run makes all its iterations, however long they take. -/
theorem C162_inner (P : Par) (pro : List Ev) (body : Nat → Pass) (n : Nat) (c : Clk) (hb : ∀ i, (body i).leave = false ∧ (body i).other = false ∧ (body i).count = true ∧ (body i).ok = true)
    (hin : ∀ i, ∃ es es', (body i).pre = es ++ .start :: es' ∧ Quiet es' ∧ (dur es' : Rat) / 1000000 ≤ P.bound) (h0 : timeUp P (execs P.w pro (Ev.exec P.w c .start)) = false)
    (hn : max P.maxIter P.minIter < n) : ∃ s, run P pro false body n c = some s ∧ s.iter = max P.maxIter P.minIter := by
  refine loop_full P body ?_ n _ (by simp [h0]) rfl (Nat.zero_le _) (by simpa using hn)
  intro s hs
  obtain ⟨b1, b2, b3, b4⟩ := hb s.passes
  obtain ⟨es, es', e1, e2, e3⟩ := hin s.passes
  have := timeUp_inner P es es' s.clk e2 e3
  rw [← e1] at this
  simp [pass, b1, b2, b3, b4, hs, this]

/-- **C162, negation for the subgradient solvers.** Each search direction is found by an inner run, which restarts the clock: unless a single inner run exceeds the limit, a run is never ended by it, however long it takes. -/
theorem C162_subgradient (P : Par) (pro : List Ev) (eps : Bool) (body : Nat → SubPass) (n : Nat) (c : Clk) (hb : ∀ i, (body i).other = false ∧ (body i).small = false ∧ (body i).ok = true)
    (hin : ∀ i, Quiet (body i).inner ∧ (dur (body i).inner : Rat) / 1000000 ≤ P.bound) (hn : P.maxIter < n) : ∃ s, subRun P pro eps body n c = some s ∧ s.iter = P.maxIter := by
  have key : ∀ n (s : SubSt), s.isstop = false → s.ok = true → s.iter ≤ P.maxIter → P.maxIter < s.iter + n → ∃ s', subLoop P body n s = some s' ∧ s'.iter = P.maxIter := by
    intro n
    induction n with
    | zero => intro s _ _ _ _; omega
    | succ n ih =>
      intro s hs ho hi hn
      obtain ⟨b1, b2, b3⟩ := hb s.passes
      obtain ⟨q1, q2⟩ := hin s.passes
      rw [subLoop]
      by_cases hlt : s.iter < P.maxIter
      · rw [if_pos (by simp [hlt, hs, ho])]
        have := timeUp_inner P (body s.passes).before (body s.passes).inner s.clk q1 q2
        have e : execs P.w ((body s.passes).before ++ .start :: (body s.passes).inner) s.clk = execs P.w (body s.passes).inner (Ev.exec P.w (execs P.w (body s.passes).before s.clk) .start) := by simp [execs]
        rw [e] at this
        refine ih _ ?_ ?_ ?_ ?_
        · simp [subPass, b1, b2, this]
        · simp [subPass, b2, b3]
        · simp [subPass, b2]; omega
        · simp [subPass, b2]; omega
      · rw [if_neg (by simp [hlt])]
        exact ⟨s, rfl, by omega⟩
  exact key n _ rfl rfl (Nat.zero_le _) (by simpa using hn)

/-- **C162, negation while the sampling radius is large.** While `Eps > Min_Eps` the verdict of the test, the time limit included, is not looked at. -/
theorem C162_radius (P : Par) (pro : List Ev) (body : Nat → SubPass) (n : Nat) (c : Clk) (hb : ∀ i, (body i).small = false ∧ (body i).ok = true ∧ (body i).epsLarge = true) (hn : P.maxIter < n) : ∃ s, subRun P pro true body n c = some s ∧ s.iter = P.maxIter := by
  have key : ∀ n (s : SubSt), s.epsLarge = true → s.ok = true → s.iter ≤ P.maxIter → P.maxIter < s.iter + n → ∃ s', subLoop P body n s = some s' ∧ s'.iter = P.maxIter := by
    intro n
    induction n with
    | zero => intro s _ _ _ _; omega
    | succ n ih =>
      intro s hs ho hi hn
      obtain ⟨b1, b2, b3⟩ := hb s.passes
      rw [subLoop]
      by_cases hlt : s.iter < P.maxIter
      · rw [if_pos (by simp [hlt, hs, ho])]
        refine ih _ ?_ ?_ ?_ ?_
        · simp [subPass, b1, b3]
        · simp [subPass, b1, b2]
        · simp [subPass, b1]; omega
        · simp [subPass, b1]; omega
      · rw [if_neg (by simp [hlt])]
        exact ⟨s, rfl, by omega⟩
  exact key n _ rfl rfl (Nat.zero_le _) (by simpa using hn)

/-- **C162, wrap-around.** A limit of at least `2^w` microseconds (71.6 minutes on Windows, where `unsigned long` has 32 bits) never ends a run. -/
theorem C162_wrap (P : Par) (c : Clk) (h : (2 ^ P.w : Rat) / 1000000 ≤ P.bound) : timeUp P c = false := by
  rw [timeUp_false]
  rw [div_le_iff₀ (by norm_num)] at h
  refine le_trans ?_ h
  have : elapsed P.w c < 2 ^ P.w := Nat.mod_lt _ (Nat.two_pow_pos _)
  exact_mod_cast this.le

/-! ## Concrete cases -/

/-- A pass of a line search that takes a second for the search and a millisecond for the rest. -/
def plainPass : Pass := ⟨[.work 1000000], false, true, false, [.work 500], true, [.work 500], true⟩

/-- With a limit of 2.5 seconds the run ends after three iterations: the hypotheses of `C162_limit`, `C162_deadline`, `C162_series` and `C162_never_early` are met by this run. -/
example : (run ⟨64, 5 / 2, 100, 0⟩ [.work 100] false (fun _ => plainPass) 200 ⟨77, 0⟩).map (fun s => (s.iter, s.times, s.clk.now - 77)) = some (3, [3002600, 2001600, 1000600, 100], 3003100) := by decide +kernel

example : AllQuiet [.work 100] (fun _ => plainPass) ∧ ∀ i : Nat, ((fun _ => plainPass : Nat → Pass) i).count = true :=
  ⟨⟨by simp [Quiet], fun _ => by simp [Quiet, plainPass], fun _ => by simp [Quiet, plainPass], fun _ => by simp [Quiet, plainPass]⟩, fun _ => rfl⟩

/-- The same when the cost runs a solver for 0.4 seconds: all 100 iterations are made (over 100 seconds with a limit of 2.5 seconds), and `GetComTime` says less than a second. -/
example : (run ⟨64, 5 / 2, 100, 0⟩ [.work 100] false (fun _ => { plainPass with pre := [.work 600000, .start, .work 400000] }) 200 ⟨77, 0⟩).map (fun s => (s.iter, s.clk.now - 77, comTime ⟨64, 5 / 2, 100, 0⟩ s)) = some (100, 100100100, 401000) := by decide +kernel

/-- A series of times that is not monotone: one inner run in the second iteration. -/
theorem C162_not_monotone : ∃ body, (run ⟨64, 1000, 2, 0⟩ [.work 100] false body 3 ⟨0, 0⟩).map (fun s => s.times.reverse) = some [100, 1000600, 500] :=
  ⟨fun k => if k = 1 then { plainPass with pre := [.work 1000000, .start] } else plainPass, by decide +kernel⟩

/-- A case for `C162_subgradient`: 50 iterations of 10 seconds each with a limit of one second. -/
example : (subRun ⟨64, 1, 50, 0⟩ [.work 100] false (fun _ => ⟨[.work 9000000], [.work 1000], false, false, [.work 999000], [], false, true⟩) 60 ⟨0, 0⟩).map (fun s => (s.iter, s.clk.now)) = some (50, 500000100) := by decide +kernel

/-- A case for `C162_radius`: a single inner run exceeds the limit, the radius is large. -/
example : (subRun ⟨64, 1, 50, 0⟩ [.work 100] true (fun _ => ⟨[], [.work 9000000], true, false, [], [], true, true⟩) 60 ⟨0, 0⟩).map (fun s => (s.iter, s.clk.now)) = some (50, 450000100) := by decide +kernel

/-- A case for `C162_wrap`: 32 bits and a limit of two hours. -/
example : (2 ^ 32 : Rat) / 1000000 ≤ 7200 := by norm_num

end Verif.Clock
