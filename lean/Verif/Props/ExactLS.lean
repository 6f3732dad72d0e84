import Verif.Solver.ExactLS
import Mathlib.Algebra.Order.Archimedean.Basic
import Mathlib.Tactic.Ring
import Mathlib.Tactic.FieldSimp
import Mathlib.Tactic.Positivity

/-!
# C102: the exact line search

Theorems about `LinesearchExact` (`Verif.Solver.ExactLS`).
-/

namespace Verif.Solver

set_option linter.unusedSectionVars false

variable {K : Type} [Field K] [LinearOrder K] [IsStrictOrderedRing K]

/-- The trial factor `t` passes the Armijo test of the inner loop. -/
def Accepts (P : ExactPar K) (φ : Ray K) (a1 dir sf1 sgf1 t : K) : Prop :=
  φ.phi (a1 + t * dir) ≤ sf1 + P.alpha * t * sgf1 * dir

/-! ## The inner loop -/

theorem inner_some (P : ExactPar K) (φ : Ray K) (a1 dir sf1 sgf1 : K) :
    ∀ n t, t * P.r1 ^ (n + 2) < P.minstep → ∃ i, exactInner P φ a1 dir sf1 sgf1 (n + 1) t = some i := by
  intro n
  induction n with
  | zero =>
    intro t ht
    unfold exactInner
    by_cases h : φ.phi (a1 + t * dir) > sf1 + P.alpha * t * sgf1 * dir
    · have : t * P.r1 * P.r1 < P.minstep := by have : t * P.r1 * P.r1 = t * P.r1 ^ (0 + 2) := by ring
                                               rw [this]; exact ht
      simp only [if_pos h, if_pos this]; exact ⟨_, rfl⟩
    · simp only [if_neg h]; exact ⟨_, rfl⟩
  | succ n ih =>
    intro t ht
    unfold exactInner
    by_cases h : φ.phi (a1 + t * dir) > sf1 + P.alpha * t * sgf1 * dir
    · by_cases h2 : t * P.r1 * P.r1 < P.minstep
      · simp only [if_pos h, if_pos h2]; exact ⟨_, rfl⟩
      · simp only [if_pos h, if_neg h2]
        refine ih _ ?_
        have : t * P.r1 * P.r1 ^ (n + 2) = t * P.r1 ^ (n + 1 + 2) := by ring
        rw [this]; exact ht
    · simp only [if_neg h]; exact ⟨_, rfl⟩

/-- A factor returned without giving up passes the test; one returned by giving up is between `minstep` and `minstep / LS_ratio1`. -/
theorem inner_spec (P : ExactPar K) (φ : Ray K) (a1 dir sf1 sgf1 : K) (h0 : 0 < P.r1) (h1 : P.r1 < 1) :
    ∀ n t i, 0 < t → t ≤ 1 → exactInner P φ a1 dir sf1 sgf1 n t = some i →
      0 < i.t ∧ i.t ≤ 1 ∧ (i.gaveUp = false → Accepts P φ a1 dir sf1 sgf1 i.t) ∧ (i.gaveUp = true → i.t * P.r1 < P.minstep) := by
  intro n
  induction n with
  | zero => intro t i _ _ h; simp [exactInner] at h
  | succ n ih =>
    intro t i ht ht1 h
    unfold exactInner at h
    have hp : 0 < t * P.r1 := mul_pos ht h0
    have hp1 : t * P.r1 ≤ 1 := by nlinarith
    by_cases hc : φ.phi (a1 + t * dir) > sf1 + P.alpha * t * sgf1 * dir
    · by_cases h2 : t * P.r1 * P.r1 < P.minstep
      · simp only [if_pos hc, if_pos h2, Option.some.injEq] at h
        subst h
        exact ⟨hp, hp1, by simp, fun _ => h2⟩
      · simp only [if_pos hc, if_neg h2] at h
        exact ih _ _ hp hp1 h
    · simp only [if_neg hc, Option.some.injEq] at h
      subst h
      exact ⟨ht, ht1, fun _ => not_lt.mp hc, by simp⟩

/-- If every factor up to `θ` passes the test and `minstep` is small, the loop does not give up and does not go below `LS_ratio1 θ`. -/
theorem inner_accepts (P : ExactPar K) (φ : Ray K) (a1 dir sf1 sgf1 : K) (h0 : 0 < P.r1) {θ : K}
    (hacc : ∀ t, 0 < t → t ≤ θ → Accepts P φ a1 dir sf1 sgf1 t) (hm : P.minstep ≤ P.r1 ^ 2 * θ) :
    ∀ n t i, 0 < t → exactInner P φ a1 dir sf1 sgf1 n t = some i → i.gaveUp = false ∧ (i.t = t ∨ P.r1 * θ < i.t) := by
  intro n
  induction n with
  | zero => intro t i _ h; simp [exactInner] at h
  | succ n ih =>
    intro t i ht h
    unfold exactInner at h
    by_cases hc : φ.phi (a1 + t * dir) > sf1 + P.alpha * t * sgf1 * dir
    · have hθ : θ < t := by
        by_contra hle
        exact absurd (hacc t ht (not_lt.mp hle)) (not_le.mpr hc)
      have hg : P.r1 * θ < t * P.r1 := by rw [mul_comm t]; exact mul_lt_mul_of_pos_left hθ h0
      have h2 : ¬ t * P.r1 * P.r1 < P.minstep := by
        have : P.r1 * (P.r1 * θ) < P.r1 * (t * P.r1) := mul_lt_mul_of_pos_left hg h0
        nlinarith
      simp only [if_pos hc, if_neg h2] at h
      obtain ⟨a, b⟩ := ih _ _ (mul_pos ht h0) h
      refine ⟨a, Or.inr ?_⟩
      rcases b with b | b
      · rw [b]; exact hg
      · exact b
    · simp only [if_neg hc, Option.some.injEq] at h
      subst h
      exact ⟨rfl, Or.inl rfl⟩

/-! ## The outer loop -/

/-- The members describe one and the same trial point. -/
def Consistent (φ : Ray K) (r : Search K) : Prop :=
  r.pt = r.step ∧ r.f2 = φ.phi r.step ∧ r.gradAt = some r.step ∧ r.newslope = some (φ.der r.step)

theorem exactAt_consistent (φ : Ray K) (st : K) (x : Status) : Consistent φ (exactAt φ st x) := ⟨rfl, rfl, rfl, rfl⟩

/-- Case analysis of one pass. -/
theorem exactLoop_succ (P : ExactPar K) (φ : Ray K) (fuel k : Nat) (S : ExactSt K) (last r : Search K × Bool)
    (h : exactLoop P φ fuel (k + 1) S last = some r) :
    ∃ i, exactInner P φ S.a1 (-S.sgf1 / S.B) S.sf1 S.sgf1 fuel 1 = some i ∧
      ((i.gaveUp = true ∧ 1 / 10 < |φ.der (S.a1 + i.t * (-S.sgf1 / S.B)) / φ.slope| ∧
          φ.f0 + P.alpha * (S.a1 + i.t * (-S.sgf1 / S.B)) * P.ngf1 < φ.phi (S.a1 + i.t * (-S.sgf1 / S.B)) ∧
          r = (exactAt φ (S.a1 + i.t * (-S.sgf1 / S.B)) .nonExact, true)) ∨
        ((|i.t * (-S.sgf1 / S.B)| < P.minstep ∨ |φ.der (S.a1 + i.t * (-S.sgf1 / S.B)) / φ.slope| < P.tol) ∧
          r = (exactAt φ (S.a1 + i.t * (-S.sgf1 / S.B)) .success, last.2 || i.gaveUp)) ∨
        (¬ |i.t * (-S.sgf1 / S.B)| < P.minstep ∧ ¬ |φ.der (S.a1 + i.t * (-S.sgf1 / S.B)) / φ.slope| < P.tol ∧
          exactLoop P φ fuel k
            { a1 := S.a1 + i.t * (-S.sgf1 / S.B)
              B := if (φ.der (S.a1 + i.t * (-S.sgf1 / S.B)) - S.sgf1) / (i.t * (-S.sgf1 / S.B)) > 0 then
                  (φ.der (S.a1 + i.t * (-S.sgf1 / S.B)) - S.sgf1) / (i.t * (-S.sgf1 / S.B)) else S.B
              sgf1 := φ.der (S.a1 + i.t * (-S.sgf1 / S.B)), sf1 := φ.phi (S.a1 + i.t * (-S.sgf1 / S.B)) }
            (exactAt φ (S.a1 + i.t * (-S.sgf1 / S.B)) .success, last.2 || i.gaveUp) = some r)) := by
  unfold exactLoop at h
  cases hi : exactInner P φ S.a1 (-S.sgf1 / S.B) S.sf1 S.sgf1 fuel 1 with
  | none => simp [hi] at h
  | some i =>
    refine ⟨i, rfl, ?_⟩
    simp only [hi] at h
    by_cases h1 : i.gaveUp = true ∧ |φ.der (S.a1 + i.t * (-S.sgf1 / S.B)) / φ.slope| > 1 / 10 ∧
        φ.phi (S.a1 + i.t * (-S.sgf1 / S.B)) > φ.f0 + P.alpha * (S.a1 + i.t * (-S.sgf1 / S.B)) * P.ngf1
    · rw [if_pos h1, Option.some.injEq] at h
      exact Or.inl ⟨h1.1, h1.2.1, h1.2.2, h.symm⟩
    · rw [if_neg h1] at h
      by_cases h2 : |i.t * (-S.sgf1 / S.B)| < P.minstep
      · rw [if_pos h2, Option.some.injEq] at h
        exact Or.inr (Or.inl ⟨Or.inl h2, h.symm⟩)
      · rw [if_neg h2] at h
        by_cases h3 : |φ.der (S.a1 + i.t * (-S.sgf1 / S.B)) / φ.slope| < P.tol
        · rw [if_pos h3, Option.some.injEq] at h
          exact Or.inr (Or.inl ⟨Or.inr h3, h.symm⟩)
        · rw [if_neg h3] at h
          exact Or.inr (Or.inr ⟨h2, h3, h⟩)

theorem exactLoop_consistent (P : ExactPar K) (φ : Ray K) (fuel : Nat) :
    ∀ k S last r, (k = 0 → Consistent φ last.1) → exactLoop P φ fuel k S last = some r → Consistent φ r.1 := by
  intro k
  induction k with
  | zero =>
    intro S last r hl h
    simp only [exactLoop, Option.some.injEq] at h
    rw [← h]; exact hl rfl
  | succ k ih =>
    intro S last r _ h
    obtain ⟨i, _, h | h | h⟩ := exactLoop_succ P φ fuel k S last r h
    · rw [h.2.2.2]; exact exactAt_consistent _ _ _
    · rw [h.2]; exact exactAt_consistent _ _ _
    · exact ih _ _ _ (fun _ => exactAt_consistent _ _ _) h.2.2

theorem exactLoop_some (P : ExactPar K) (φ : Ray K) (fuel : Nat)
    (hf : ∀ a1 dir sf1 sgf1, ∃ i, exactInner P φ a1 dir sf1 sgf1 fuel 1 = some i) :
    ∀ k S last, ∃ r, exactLoop P φ fuel k S last = some r := by
  intro k
  induction k with
  | zero => intro S last; exact ⟨_, rfl⟩
  | succ k ih =>
    intro S last
    obtain ⟨i, hi⟩ := hf S.a1 (-S.sgf1 / S.B) S.sf1 S.sgf1
    unfold exactLoop
    simp only [hi]
    split
    · exact ⟨_, rfl⟩
    · split
      · exact ⟨_, rfl⟩
      · split
        · exact ⟨_, rfl⟩
        · exact ih _ _

/-- The ghost only grows. -/
theorem exactLoop_ghost (P : ExactPar K) (φ : Ray K) (fuel : Nat) :
    ∀ k S last r, exactLoop P φ fuel k S last = some r → r.2 = false → last.2 = false := by
  intro k
  induction k with
  | zero =>
    intro S last r h
    simp only [exactLoop, Option.some.injEq] at h
    rw [← h]; exact id
  | succ k ih =>
    intro S last r h hr
    obtain ⟨i, _, h | h | h⟩ := exactLoop_succ P φ fuel k S last r h
    · rw [h.2.2.2] at hr; simp at hr
    · rw [h.2] at hr; simp at hr; exact hr.1
    · have := ih _ _ _ h.2.2 hr
      simp at this; exact this.1

/-- Without giving up, the value never increases from pass to pass. -/
theorem exactLoop_decrease (P : ExactPar K) (φ : Ray K) (fuel : Nat) (h0 : 0 < P.r1) (h1 : P.r1 < 1) (ha : 0 ≤ P.alpha) :
    ∀ k S last r, 0 < S.B → (k = 0 → last.1.f2 ≤ S.sf1) → exactLoop P φ fuel k S last = some r → r.2 = false → r.1.f2 ≤ S.sf1 := by
  intro k
  induction k with
  | zero =>
    intro S last r _ hl h _
    simp only [exactLoop, Option.some.injEq] at h
    rw [← h]; exact hl rfl
  | succ k ih =>
    intro S last r hB _ h hr
    obtain ⟨i, hi, hh⟩ := exactLoop_succ P φ fuel k S last r h
    obtain ⟨ht, _, hacc, _⟩ := inner_spec P φ _ _ _ _ h0 h1 _ _ _ one_pos le_rfl hi
    have hdec : i.gaveUp = false → φ.phi (S.a1 + i.t * (-S.sgf1 / S.B)) ≤ S.sf1 := by
      intro hg
      refine (hacc hg).trans ?_
      have : P.alpha * i.t * S.sgf1 * (-S.sgf1 / S.B) = -(P.alpha * i.t * (S.sgf1 ^ 2 / S.B)) := by ring
      rw [this]
      have : 0 ≤ P.alpha * i.t * (S.sgf1 ^ 2 / S.B) := by positivity
      linarith
    rcases hh with h | h | h
    · rw [h.2.2.2] at hr; simp at hr
    · rw [h.2] at hr ⊢
      simp at hr
      exact hdec hr.2
    · have hg := exactLoop_ghost P φ fuel _ _ _ _ h.2.2 hr
      simp at hg
      refine (ih _ _ _ ?_ (fun _ => le_rfl) h.2.2 hr).trans (hdec hg.2)
      by_cases hy : (φ.der (S.a1 + i.t * (-S.sgf1 / S.B)) - S.sgf1) / (i.t * (-S.sgf1 / S.B)) > 0
      · simp only [if_pos hy]; exact hy
      · simp only [if_neg hy]; exact hB

/-! ## The theorems -/

/-- **C102, termination**: with a reduction factor in `[0, 1)` and a positive threshold one number of trials suffices for the inner searches of all objectives:
the exact line search terminates after at most 20 times that many evaluations, for every objective along the ray and every initial step. -/
theorem C102_terminates [Archimedean K] (P : ExactPar K) (h0 : 0 ≤ P.r1) (h1 : P.r1 < 1) (hm : 0 < P.minstep) :
    ∃ fuel, ∀ (φ : Ray K) (init : K), φ.slope ≠ 0 → init ≠ 0 → ∃ r, exactLS P φ fuel init = some r := by
  obtain ⟨n, hn⟩ := exists_pow_lt_of_lt_one hm h1
  refine ⟨n + 1, fun φ init hs hi => ?_⟩
  have hlt : (1 : K) * P.r1 ^ (n + 2) < P.minstep := by
    rw [one_mul]
    exact lt_of_le_of_lt (pow_le_pow_of_le_one h0 h1.le (by omega)) hn
  obtain ⟨r, hr⟩ := exactLoop_some P φ (n + 1) (fun a b c d => inner_some P φ a b c d n 1 hlt) 20
    ⟨0, |φ.slope / init|, φ.slope, φ.f0⟩ (Search.start init 0 φ.f0, false)
  unfold exactLS
  rw [if_neg (by tauto), hr]
  exact ⟨_, rfl⟩

/-- What `exactLS` returns, in terms of the loop. -/
theorem exactLS_some {P : ExactPar K} {φ : Ray K} {fuel : Nat} {init : K} {r : Search K × Bool} (h : exactLS P φ fuel init = some r) :
    φ.slope ≠ 0 ∧ init ≠ 0 ∧ ∃ r', exactLoop P φ fuel 20 ⟨0, |φ.slope / init|, φ.slope, φ.f0⟩ (Search.start init 0 φ.f0, false) = some r' ∧
      r = (exactClassify P r'.1, r'.2) := by
  unfold exactLS at h
  by_cases hc : φ.slope = 0 ∨ init = 0
  · rw [if_pos hc] at h; cases h
  · rw [if_neg hc] at h
    push Not at hc
    obtain ⟨r', h1, h2⟩ := Option.map_eq_some_iff.mp h
    exact ⟨hc.1, hc.2, r', h1, h2.symm⟩

theorem classify_fields (P : ExactPar K) (r : Search K) :
    (exactClassify P r).step = r.step ∧ (exactClassify P r).pt = r.pt ∧ (exactClassify P r).f2 = r.f2 ∧
      (exactClassify P r).gradAt = r.gradAt ∧ (exactClassify P r).newslope = r.newslope := by
  unfold exactClassify
  by_cases h1 : r.step ≤ P.minStep <;> by_cases h2 : r.step ≥ P.maxStep <;> simp [h1, h2]

theorem classify_success (P : ExactPar K) (r : Search K) :
    (exactClassify P r).status = .success ↔ r.status = .success ∧ P.minStep < r.step ∧ r.step < P.maxStep := by
  unfold exactClassify
  by_cases h1 : r.step ≤ P.minStep <;> by_cases h2 : r.step ≥ P.maxStep <;> simp [h1, h2]
  exact fun _ => ⟨not_le.mp h1, not_le.mp h2⟩

/-- **C102, the state left behind**: however the exact search ends, the trial point, the objective value, the gradient and the slope it leaves behind belong to
the step size it reports; and it reports success only for a step strictly between the two bounds. -/
theorem C102_consistent {P : ExactPar K} {φ : Ray K} {fuel : Nat} {init : K} {r : Search K × Bool} (h : exactLS P φ fuel init = some r) :
    r.1.pt = r.1.step ∧ r.1.f2 = φ.phi r.1.step ∧ r.1.gradAt = some r.1.step ∧ r.1.newslope = some (φ.der r.1.step) ∧
      (r.1.status = .success → P.minStep < r.1.step ∧ r.1.step < P.maxStep) := by
  obtain ⟨_, _, r', h1, rfl⟩ := exactLS_some h
  obtain ⟨a, b, c, d⟩ := exactLoop_consistent P φ fuel _ _ _ _ (fun hk => by omega) h1
  obtain ⟨e1, e2, e3, e4, e5⟩ := classify_fields P r'.1
  refine ⟨by simp only [e1, e2, a], by simp only [e1, e3, b], by simp only [e1, e4, c], by simp only [e1, e5, d], fun hs => ?_⟩
  simp only [e1]
  exact ((classify_success P r'.1).mp hs).2

/-- **C102, no increase (partial)**: as long as no inner backtracking gave up, the value returned is not larger than the value at the current iterate. Missing:
the case in which one gave up, for which the claim is false (`C102_success_may_increase`). -/
theorem C102_no_increase_partial {P : ExactPar K} {φ : Ray K} {fuel : Nat} {init : K} {r : Search K × Bool} (h : exactLS P φ fuel init = some r)
    (h0 : 0 < P.r1) (h1 : P.r1 < 1) (ha : 0 ≤ P.alpha) (hg : r.2 = false) : r.1.f2 ≤ φ.f0 := by
  obtain ⟨hs, hi, r', hr, rfl⟩ := exactLS_some h
  simp only [(classify_fields P r'.1).2.2.1]
  refine exactLoop_decrease P φ fuel h0 h1 ha 20 _ _ _ ?_ (fun hk => by omega) hr hg
  exact abs_pos.mpr (div_ne_zero hs hi)

/-! ## Strongly convex objectives -/

/-- Along the ray the objective has the derivative bounds of a function with second derivative between `m` and `L`. -/
structure Curved (φ : Ray K) (m L : K) : Prop where
  f0 : φ.f0 = φ.phi 0
  slope : φ.slope = φ.der 0
  upper : ∀ a s, φ.phi (a + s) ≤ φ.phi a + φ.der a * s + L / 2 * s ^ 2
  lower : ∀ a s, φ.phi a + φ.der a * s + m / 2 * s ^ 2 ≤ φ.phi (a + s)

theorem Curved.mono {φ : Ray K} {m L : K} (h : Curved φ m L) (a s : K) : m * s ^ 2 ≤ (φ.der (a + s) - φ.der a) * s := by
  have h1 := h.lower a s
  have h2 := h.lower (a + s) (-s)
  rw [add_neg_cancel_right] at h2
  nlinarith

/-- Small factors pass the inner test. -/
theorem Curved.accepts {φ : Ray K} {m L : K} (h : Curved φ m L) {P : ExactPar K} {a1 B b : K} (hL : 0 < L) (hb : 0 < b) (hB : b ≤ B)
    (ha : P.alpha ≤ 1) {t : K} (ht : 0 < t) (hθ : t ≤ 2 * (1 - P.alpha) * b / L) :
    Accepts P φ a1 (-φ.der a1 / B) (φ.phi a1) (φ.der a1) t := by
  have hB0 : 0 < B := lt_of_lt_of_le hb hB
  refine (h.upper a1 _).trans ?_
  rw [le_div_iff₀ hL] at hθ
  have h1 : t * L ≤ 2 * (1 - P.alpha) * B := hθ.trans (by nlinarith)
  have e1 : φ.der a1 * (t * (-φ.der a1 / B)) + L / 2 * (t * (-φ.der a1 / B)) ^ 2 =
      (φ.der a1 ^ 2 * t / B ^ 2) * (t * L / 2 - B) := by field_simp; ring
  have e2 : P.alpha * t * φ.der a1 * (-φ.der a1 / B) = (φ.der a1 ^ 2 * t / B ^ 2) * (-(P.alpha * B)) := by field_simp
  rw [add_assoc, e1, e2]
  have h3 : 0 ≤ φ.der a1 ^ 2 * t / B ^ 2 := by positivity
  have := mul_le_mul_of_nonneg_left (show t * L / 2 - B ≤ -(P.alpha * B) by linarith) h3
  linarith

theorem loop_curved {φ : Ray K} {m L : K} (h : Curved φ m L) {P : ExactPar K} (fuel : Nat) {b : K} (h0 : 0 < P.r1) (hL : 0 < L)
    (hb : 0 < b) (hbm : b ≤ m) (ha : P.alpha ≤ 1) (hm : P.minstep ≤ P.r1 ^ 2 * (2 * (1 - P.alpha) * b / L)) (hmp : 0 < P.minstep) :
    ∀ k S last r, b ≤ S.B → S.sf1 = φ.phi S.a1 → S.sgf1 = φ.der S.a1 → last.2 = false → last.1.status = .success →
      exactLoop P φ fuel k S last = some r → r.2 = false ∧ r.1.status = .success := by
  intro k
  induction k with
  | zero =>
    intro S last r _ _ _ h1 h2 hr
    simp only [exactLoop, Option.some.injEq] at hr
    rw [← hr]; exact ⟨h1, h2⟩
  | succ k ih =>
    intro S last r hB hf hg hl hls hr
    obtain ⟨i, hi, hh⟩ := exactLoop_succ P φ fuel k S last r hr
    have hacc : ∀ t, 0 < t → t ≤ 2 * (1 - P.alpha) * b / L → Accepts P φ S.a1 (-S.sgf1 / S.B) S.sf1 S.sgf1 t := by
      intro t ht hθ
      rw [hf, hg]
      exact h.accepts hL hb hB ha ht hθ
    obtain ⟨hgu, _⟩ := inner_accepts P φ _ _ _ _ h0 hacc hm _ _ _ one_pos hi
    rcases hh with hh | hh | hh
    · rw [hgu] at hh; exact absurd hh.1 (by simp)
    · rw [hh.2]; exact ⟨by simp [hl, hgu], rfl⟩
    · refine ih _ _ _ ?_ rfl rfl (by simp [hl, hgu]) rfl hh.2.2
      have hs0 : i.t * (-S.sgf1 / S.B) ≠ 0 := by
        intro e; rw [e, abs_zero] at hh; exact hh.1 hmp
      have hq : b ≤ (φ.der (S.a1 + i.t * (-S.sgf1 / S.B)) - S.sgf1) / (i.t * (-S.sgf1 / S.B)) := by
        have hmono := h.mono S.a1 (i.t * (-S.sgf1 / S.B))
        rw [← hg] at hmono
        generalize i.t * (-S.sgf1 / S.B) = s at *
        generalize φ.der (S.a1 + s) - S.sgf1 = y at *
        have e : y / s = y * s / s ^ 2 := by field_simp
        rw [e, le_div_iff₀ (by positivity)]
        exact le_trans (by nlinarith [sq_nonneg s]) hmono
      simp only [if_pos (lt_of_lt_of_le hb hq)]
      exact hq

/-- **C102, strongly convex objectives**: if the objective along the ray is strongly convex with bounded curvature and the threshold `100 sqrt(epsilon)` is small compared
with the ratio of the curvatures, no inner search gives up: a search starting with a negative slope ends with a strictly smaller value at a positive step, and its status is
"success" unless the step violates one of the step bounds. -/
theorem C102_strongly_convex {φ : Ray K} {m L : K} (h : Curved φ m L) {P : ExactPar K} {fuel : Nat} {init : K} {r : Search K × Bool}
    (h0 : 0 < P.r1) (h1 : P.r1 < 1) (hm0 : 0 < m) (hL : 0 < L) (ha0 : 0 < P.alpha) (ha : P.alpha ≤ 1) (hs : φ.slope < 0) (hi : 0 < init) (hmp : 0 < P.minstep)
    (hm1 : P.minstep ≤ P.r1 ^ 2 * (2 * (1 - P.alpha) * m / L))
    (hm2 : P.minstep ≤ P.r1 ^ 2 * (2 * (1 - P.alpha) * (-φ.slope / init) / L)) (hr : exactLS P φ fuel init = some r) :
    r.1.f2 < φ.f0 ∧ 0 < r.1.step ∧
      (P.minStep < r.1.step → r.1.step < P.maxStep → r.1.status = .success) := by
  obtain ⟨hs', hi', r', hr', rfl⟩ := exactLS_some hr
  have hB : |φ.slope / init| = -φ.slope / init := by rw [abs_of_neg (div_neg_of_neg_of_pos hs hi), neg_div]
  have hBp : 0 < -φ.slope / init := div_pos (by linarith) hi
  obtain ⟨b, hb, hbm, hbB, hbmin⟩ : ∃ b, 0 < b ∧ b ≤ m ∧ b ≤ -φ.slope / init ∧ P.minstep ≤ P.r1 ^ 2 * (2 * (1 - P.alpha) * b / L) := by
    rcases le_total m (-φ.slope / init) with hle | hle
    · exact ⟨m, hm0, le_rfl, hle, hm1⟩
    · exact ⟨_, hBp, hle, le_rfl, hm2⟩
  rw [hB] at hr'
  obtain ⟨hg, hst⟩ := loop_curved h fuel h0 hL hb hbm ha hbmin hmp 20 _ _ _ hbB h.f0 h.slope rfl rfl hr'
  obtain ⟨i, hin, hh⟩ := exactLoop_succ P φ fuel 19 _ _ _ hr'
  have hdir : -φ.slope / (-φ.slope / init) = init := by
    have : φ.slope ≠ 0 := hs.ne
    field_simp
  simp only [hdir] at hh hin
  obtain ⟨ht, ht1, hacc, _⟩ := inner_spec P φ _ _ _ _ h0 h1 _ _ _ one_pos le_rfl hin
  have hlt : i.gaveUp = false → φ.phi (0 + i.t * init) < φ.f0 := by
    intro hgu
    refine lt_of_le_of_lt (hacc hgu) ?_
    have : 0 < P.alpha * i.t * init * (-φ.slope) := by
      have : 0 < -φ.slope := by linarith
      positivity
    nlinarith
  have hf2 : r'.1.f2 < φ.f0 := by
    rcases hh with hh | hh | hh
    · rw [hh.2.2.2] at hg; exact absurd hg (by simp)
    · have : i.gaveUp = false := by rw [hh.2] at hg; simpa using hg
      rw [hh.2]; exact hlt this
    · have hgu := exactLoop_ghost P φ fuel _ _ _ _ hh.2.2 hg
      simp at hgu
      refine lt_of_le_of_lt (exactLoop_decrease P φ fuel h0 h1 ha0.le 19 _ _ _ ?_ (fun hk => by omega) hh.2.2 hg) (hlt hgu)
      by_cases hy : (φ.der (0 + i.t * init) - φ.slope) / (i.t * init) > 0
      · simp only [if_pos hy]; exact hy
      · simp only [if_neg hy]; exact hBp
  have hcons := exactLoop_consistent P φ fuel _ _ _ _ (fun hk => by omega) hr'
  simp only [(classify_fields P r'.1).2.2.1, (classify_fields P r'.1).1]
  refine ⟨hf2, ?_, fun hlo hhi => (classify_success P r'.1).mpr ⟨hst, hlo, hhi⟩⟩
  by_contra hneg
  have hle := not_lt.mp hneg
  have := h.lower 0 r'.1.step
  rw [zero_add, ← hcons.2.1, ← h.f0, ← h.slope] at this
  nlinarith [sq_nonneg r'.1.step, mul_nonneg_of_nonpos_of_nonpos hs.le hle]

/-! ## Quadratics -/

/-- The objective `f0 + g t + c t^2 / 2` along the ray. -/
def quadRay (f0 g c : K) : Ray K := { f0 := f0, slope := g, phi := fun t => f0 + g * t + c / 2 * t ^ 2, der := fun t => g + c * t }

theorem quadRay_curved (f0 g c : K) : Curved (quadRay f0 g c) c c where
  f0 := by simp [quadRay]
  slope := by simp [quadRay]
  upper a s := by simp only [quadRay]; nlinarith
  lower a s := by simp only [quadRay]; nlinarith

/-- **C102, quadratics**: on a convex quadratic with minimiser `-g / c` the search stops with a slope below the tolerance (relative to the initial slope); unless the very
first trial was already that accurate, it stops exactly at the minimiser. The hypotheses on `minstep` say that it is small compared with the initial step and the minimiser. -/
theorem C102_quadratic {P : ExactPar K} {fuel : Nat} {init f0 g c : K} {r : Search K × Bool} (h0 : 0 < P.r1) (h1 : P.r1 < 1) (hc : 0 < c) (hg : g < 0)
    (hi : 0 < init) (ha : P.alpha ≤ 1 / 2) (ht : 0 < P.tol) (hm0 : P.minstep ≤ init)
    (hm1 : P.minstep ≤ P.r1 ^ 2 * (2 * (1 - P.alpha)))
    (hm2 : P.minstep ≤ P.r1 ^ 2 * (2 * (1 - P.alpha) * (-g / init) / c)) (hm3 : P.minstep ≤ P.r1 * (2 * (1 - P.alpha) * (-g) / c))
    (hr : exactLS P (quadRay f0 g c) fuel init = some r) :
    r.1.step = -g / c ∨ |g + c * r.1.step| < P.tol * |g| := by
  have hq := quadRay_curved f0 g c
  obtain ⟨hs', hi', r', hr', rfl⟩ := exactLS_some hr
  simp only [(classify_fields P r'.1).1]
  have hB : |(quadRay f0 g c).slope / init| = -g / init := by
    show |g / init| = _
    rw [abs_of_neg (div_neg_of_neg_of_pos hg hi), neg_div]
  have hBp : 0 < -g / init := div_pos (by linarith) hi
  have hg0 : g ≠ 0 := hg.ne
  have hc0 : c ≠ 0 := hc.ne'
  rw [hB] at hr'
  -- the first pass
  obtain ⟨i, hin, hh⟩ := exactLoop_succ P _ fuel 19 _ _ _ hr'
  have hdir : -(quadRay f0 g c).slope / (-g / init) = init := by
    show -g / (-g / init) = init
    field_simp
  simp only [hdir] at hh hin
  obtain ⟨hit, _, _, _⟩ := inner_spec P _ _ _ _ _ h0 h1 _ _ _ one_pos le_rfl hin
  have hacc : ∀ t, 0 < t → t ≤ 2 * (1 - P.alpha) * (-g / init) / c →
      Accepts P (quadRay f0 g c) 0 init (quadRay f0 g c).f0 (quadRay f0 g c).slope t := by
    intro t htp hθ
    have := hq.accepts (P := P) (a1 := 0) (B := -g / init) hc hBp le_rfl (by linarith) htp hθ
    rwa [← hq.f0, ← hq.slope, hdir] at this
  obtain ⟨hgu, hlb⟩ := inner_accepts P _ _ _ _ _ h0 hacc hm2 _ _ _ one_pos hin
  have hslen : ¬ |i.t * init| < P.minstep := by
    rw [abs_of_pos (mul_pos hit hi), not_lt]
    rcases hlb with e | e
    · rw [e, one_mul]; exact hm0
    · have := mul_lt_mul_of_pos_right e hi
      have e2 : P.r1 * (2 * (1 - P.alpha) * (-g / init) / c) * init = P.r1 * (2 * (1 - P.alpha) * (-g) / c) := by field_simp
      rw [e2] at this
      linarith
  have small : ∀ st, |(quadRay f0 g c).der st / (quadRay f0 g c).slope| < P.tol → |g + c * st| < P.tol * |g| := by
    intro st h
    have h : |(g + c * st) / g| < P.tol := h
    rwa [abs_div, div_lt_iff₀ (abs_pos.mpr hg0)] at h
  rcases hh with hh | hh | hh
  · rw [hgu] at hh; exact absurd hh.1 (by simp)
  · rcases hh.1 with h | h
    · exact absurd h hslen
    · right
      rw [hh.2]
      exact small _ h
  · -- the second pass starts with the exact curvature
    left
    obtain ⟨_, _, h3⟩ := hh
    have hs0 : i.t * init ≠ 0 := (mul_pos hit hi).ne'
    have hy : ((quadRay f0 g c).der (0 + i.t * init) - (quadRay f0 g c).slope) / (i.t * init) = c := by
      show (g + c * (0 + i.t * init) - g) / (i.t * init) = c
      rw [zero_add, add_sub_cancel_left, mul_div_assoc, div_self hs0, mul_one]
    rw [hy, if_pos hc] at h3
    obtain ⟨j, hjn, hj⟩ := exactLoop_succ P _ fuel 18 _ _ _ h3
    simp only at hjn hj
    have hacc2 : ∀ t, 0 < t → t ≤ 2 * (1 - P.alpha) * c / c →
        Accepts P (quadRay f0 g c) (0 + i.t * init) (-(quadRay f0 g c).der (0 + i.t * init) / c)
          ((quadRay f0 g c).phi (0 + i.t * init)) ((quadRay f0 g c).der (0 + i.t * init)) t :=
      fun t htp hθ => hq.accepts (P := P) hc hc le_rfl (by linarith) htp hθ
    have hθ1 : 2 * (1 - P.alpha) * c / c = 2 * (1 - P.alpha) := by field_simp
    obtain ⟨hgu2, hlb2⟩ := inner_accepts P _ _ _ _ _ h0 hacc2 (by rw [hθ1]; exact hm1) _ _ _ one_pos hjn
    -- `t = 1` passes at once
    have hj1 : j.t = 1 := by
      have hA := hacc2 1 one_pos (by rw [hθ1]; linarith)
      cases fuel with
      | zero => simp [exactInner] at hjn
      | succ n =>
        unfold exactInner at hjn
        rw [if_neg (not_lt.mpr hA)] at hjn
        simp only [Option.some.injEq] at hjn
        rw [← hjn]
    have hst : 0 + i.t * init + j.t * (-(quadRay f0 g c).der (0 + i.t * init) / c) = -g / c := by
      rw [hj1]
      show 0 + i.t * init + 1 * (-(g + c * (0 + i.t * init)) / c) = -g / c
      field_simp; ring
    rw [hst] at hj
    have hz : (quadRay f0 g c).der (-g / c) = 0 := by
      show g + c * (-g / c) = 0
      field_simp; ring
    rcases hj with hj | hj | hj
    · rw [hgu2] at hj; exact absurd hj.1 (by simp)
    · rw [hj.2]; rfl
    · exfalso
      apply hj.2.1
      rw [hz, zero_div, abs_zero]
      exact ht

/-! ## A defect -/

/-- How far the inner loop goes when no factor passes. -/
theorem inner_gives_up (P : ExactPar K) (φ : Ray K) (a1 dir sf1 sgf1 : K) (h0 : 0 < P.r1) {T : K} (hT : T * P.r1 < P.minstep) (hT2 : P.minstep ≤ T) (h1 : P.r1 < 1)
    (hmp : 0 < P.minstep) (hno : ∀ t, T ≤ t → ¬ Accepts P φ a1 dir sf1 sgf1 t) :
    ∀ n, exactInner P φ a1 dir sf1 sgf1 (n + 1) (T / P.r1 ^ (n + 1)) = some ⟨T, true⟩ := by
  have hTp : 0 < T := lt_of_lt_of_le hmp hT2
  have hge : ∀ n : Nat, T ≤ T / P.r1 ^ n := by
    intro n
    rw [le_div_iff₀ (pow_pos h0 n)]
    have := pow_le_one₀ h0.le h1.le (n := n)
    nlinarith
  intro n
  induction n with
  | zero =>
    unfold exactInner
    have hrej : φ.phi (a1 + T / P.r1 ^ (0 + 1) * dir) > sf1 + P.alpha * (T / P.r1 ^ (0 + 1)) * sgf1 * dir := not_le.mp (hno _ (hge 1))
    have e : T / P.r1 ^ (0 + 1) * P.r1 = T := by field_simp; ring
    simp only [if_pos hrej, e, if_pos hT]
  | succ n ih =>
    rw [exactInner]
    have hrej : φ.phi (a1 + T / P.r1 ^ (n + 1 + 1) * dir) > sf1 + P.alpha * (T / P.r1 ^ (n + 1 + 1)) * sgf1 * dir := not_le.mp (hno _ (hge _))
    have e : T / P.r1 ^ (n + 1 + 1) * P.r1 = T / P.r1 ^ (n + 1) := by field_simp; ring
    have h2 : ¬ T / P.r1 ^ (n + 1) * P.r1 < P.minstep := by
      have : T / P.r1 ^ (n + 1) * P.r1 = T / P.r1 ^ n := by field_simp; ring
      rw [this, not_lt]
      exact hT2.trans (hge n)
    simp only [if_pos hrej, e, if_neg h2]
    exact ih

/-- **C102, a defect**: the emergency exit of the inner search compares the new value with `f1 + alpha * step * |grad|`, which is *larger* than `f1` (the slope it should use is
negative). For every choice of the parameters with `T = LS_ratio1^k` the last factor tried, there is a convex quadratic, a steepest-descent ray of it with unit gradient and an
initial step for which the exact line search reports success at a point with a larger value than the current iterate. -/
theorem C102_success_may_increase {P : ExactPar K} (h0 : 0 < P.r1) (h1 : P.r1 < 1) (ha0 : 0 < P.alpha) (hmp : 0 < P.minstep)
    (hn : P.ngf1 = 1) (k : Nat) (hk : P.minstep ≤ P.r1 ^ (k + 1)) (hk' : P.r1 ^ (k + 2) < P.minstep)
    (hmin : P.minStep < P.r1 ^ (k + 2)) (hmax : P.r1 ^ (k + 2) < P.maxStep) :
    ∃ c r, 0 < c ∧ exactLS P (quadRay 0 (-1) c) (k + 1) P.r1 = some r ∧ r.1.status = .success ∧ (quadRay 0 (-1) c).f0 < r.1.f2 := by
  set T := P.r1 ^ (k + 1) with hTdef
  have hTp : 0 < T := pow_pos h0 _
  have hT' : P.r1 ^ (k + 2) = T * P.r1 := by rw [hTdef, ← pow_succ]
  rw [hT'] at hk' hmin hmax
  have hst : 0 < T * P.r1 := mul_pos hTp h0
  set c := 2 * (1 + P.alpha / 2) / (T * P.r1) with hcdef
  have hc : 0 < c := by positivity
  have hval : (quadRay 0 (-1) c).phi (T * P.r1) = P.alpha / 2 * (T * P.r1) := by
    simp only [quadRay, hcdef]
    field_simp; ring
  have hB : |(quadRay (0 : K) (-1) c).slope / P.r1| = 1 / P.r1 := by
    show |(-1 : K) / P.r1| = _
    rw [abs_div, abs_neg, abs_one, abs_of_pos h0]
  have hdir : -(quadRay (0 : K) (-1) c).slope / (1 / P.r1) = P.r1 := by
    show -(-1 : K) / (1 / P.r1) = P.r1
    field_simp
  have hrej : ∀ t, T ≤ t → ¬ Accepts P (quadRay 0 (-1) c) 0 P.r1 0 (-1) t := by
    intro t ht
    unfold Accepts
    rw [not_le]
    show 0 + P.alpha * t * (-1) * P.r1 < 0 + (-1) * (0 + t * P.r1) + c / 2 * (0 + t * P.r1) ^ 2
    have htp : 0 < t * P.r1 := mul_pos (lt_of_lt_of_le hTp ht) h0
    have hge : 1 + P.alpha / 2 ≤ c / 2 * (t * P.r1) := by
      rw [hcdef]
      have : (1 + P.alpha / 2) * (t * P.r1) / (T * P.r1) = 2 * (1 + P.alpha / 2) / (T * P.r1) / 2 * (t * P.r1) := by field_simp
      rw [← this, le_div_iff₀ hst]
      have : T * P.r1 ≤ t * P.r1 := by nlinarith
      nlinarith
    nlinarith
  have hinner : exactInner P (quadRay 0 (-1) c) 0 P.r1 0 (-1) (k + 1) 1 = some ⟨T, true⟩ := by
    have := inner_gives_up P (quadRay 0 (-1) c) 0 P.r1 0 (-1) h0 hk' hk h1 hmp hrej k
    rwa [hTdef, div_self (pow_ne_zero _ h0.ne')] at this
  have hloop : exactLoop P (quadRay 0 (-1) c) (k + 1) 20 ⟨0, 1 / P.r1, -1, 0⟩ (Search.start P.r1 0 0, false) =
      some (exactAt (quadRay 0 (-1) c) (T * P.r1) .success, true) := by
    unfold exactLoop
    have hd : -(-1 : K) / (1 / P.r1) = P.r1 := hdir
    simp only [hd, hinner, zero_add, hval]
    rw [if_neg, if_pos]
    · simp
    · rw [abs_of_pos hst]; exact hk'
    · rintro ⟨_, _, h⟩
      have h : (quadRay (0 : K) (-1) c).f0 + P.alpha * (T * P.r1) * P.ngf1 < P.alpha / 2 * (T * P.r1) := h
      rw [hn] at h
      have h : (0 : K) + P.alpha * (T * P.r1) * 1 < P.alpha / 2 * (T * P.r1) := h
      have : 0 < P.alpha * (T * P.r1) := by positivity
      linarith
  refine ⟨c, (exactClassify P (exactAt (quadRay 0 (-1) c) (T * P.r1) .success), true), hc, ?_, ?_, ?_⟩
  · unfold exactLS
    rw [if_neg, hB]
    · show Option.map _ (exactLoop P (quadRay 0 (-1) c) (k + 1) 20 ⟨0, 1 / P.r1, -1, 0⟩ (Search.start P.r1 0 0, false)) = _
      rw [hloop]; rfl
    · rintro (h | h)
      · exact absurd h (show (-1 : K) ≠ 0 by norm_num)
      · exact h0.ne' h
  · exact (classify_success P _).mpr ⟨rfl, hmin, hmax⟩
  · rw [(classify_fields P _).2.2.1]
    show (0 : K) < (quadRay 0 (-1) c).phi (T * P.r1)
    rw [hval]; positivity

/-! ## Examples -/

/-- Defaults of the library (`SolversSMLS.cpp:655-680`) with `minstep` rounded to `2^-19`. -/
def exactExPar : ExactPar ℚ :=
  { alpha := 1 / 10000, beta := 999 / 1000, r1 := 1 / 2, r2 := 1 / 2, minStep := 1 / 2 ^ 52, maxStep := 1000, numPre := 0
    minstep := 1 / 2 ^ 19, tol := 1 / 10 ^ 6, ngf1 := 1 }

-- the hypotheses of `C102_quadratic`, `C102_strongly_convex` and `C102_success_may_increase` are satisfiable with these parameters
example : ∃ r, exactLS exactExPar (quadRay 3 (-1) 4) 30 1 = some r ∧ (r.1.step = 1 / 4 ∨ |(-1 : ℚ) + 4 * r.1.step| < 1 / 10 ^ 6) := by
  have hsome : ∃ r, exactLS exactExPar (quadRay 3 (-1) 4) 30 1 = some r := by
    obtain ⟨r, hr⟩ := exactLoop_some exactExPar (quadRay 3 (-1) 4) 30
      (fun a b c d => inner_some exactExPar _ a b c d 29 1 (by norm_num [exactExPar])) 20 ⟨0, |(-1 : ℚ) / 1|, -1, 3⟩
      (Search.start 1 0 3, false)
    unfold exactLS
    rw [if_neg (by simp [quadRay])]
    exact ⟨_, by show Option.map _ (exactLoop exactExPar (quadRay 3 (-1) 4) 30 20 ⟨0, |(-1 : ℚ) / 1|, -1, 3⟩ (Search.start 1 0 3, false)) = _
                 rw [hr]; rfl⟩
  obtain ⟨r, hr⟩ := hsome
  refine ⟨r, hr, ?_⟩
  have := C102_quadratic (by norm_num [exactExPar]) (by norm_num [exactExPar]) (by norm_num) (by norm_num) (by norm_num)
    (by norm_num [exactExPar]) (by norm_num [exactExPar]) (by norm_num [exactExPar]) (by norm_num [exactExPar])
    (by norm_num [exactExPar]) (by norm_num [exactExPar]) hr
  rcases this with h | h
  · left; rw [h]; norm_num
  · right; simpa [exactExPar] using h

example : ∃ c r, 0 < c ∧ exactLS exactExPar (quadRay 0 (-1) c) 19 (1 / 2) = some r ∧ r.1.status = .success ∧ (quadRay 0 (-1) c).f0 < r.1.f2 :=
  C102_success_may_increase (P := exactExPar) (by norm_num [exactExPar]) (by norm_num [exactExPar]) (by norm_num [exactExPar])
    (by norm_num [exactExPar]) rfl 18 (by norm_num [exactExPar]) (by norm_num [exactExPar]) (by norm_num [exactExPar]) (by norm_num [exactExPar])

example : Curved (quadRay (3 : ℚ) (-1) 4) 4 4 := quadRay_curved 3 (-1) 4

end Verif.Solver
