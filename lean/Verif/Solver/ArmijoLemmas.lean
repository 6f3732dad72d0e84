import Verif.Solver.LineSearch
import Mathlib.Order.Bounds.Basic
import Mathlib.Tactic.Order
import Mathlib.Algebra.Order.Archimedean.Basic

/-! Helper lemmas about the Armijo search. -/

set_option linter.unusedSectionVars false

namespace Verif.Solver

variable {K : Type} [Field K] [LinearOrder K]

theorem maxPref_ge (n : Nat) (m : K) (l : List K) : m ≤ maxPref n m l := by
  induction n generalizing m l with
  | zero => simp [maxPref]
  | succ n ih =>
    match l with
    | [] => simp [maxPref]
    | [_] => simp [maxPref]
    | a :: b :: rest =>
      simp only [maxPref]
      split
      · rename_i h; exact le_trans (le_of_lt h) (ih _ _)
      · exact ih _ _

theorem maxPref_ge_mem (n : Nat) (m : K) (l : List K) (v : K) (hv : v ∈ l.dropLast.take n) :
    v ≤ maxPref n m l := by
  induction n generalizing m l with
  | zero => simp at hv
  | succ n ih =>
    match l with
    | [] => simp at hv
    | [_] => simp at hv
    | a :: b :: rest =>
      simp only [List.dropLast_cons_cons, List.take_succ_cons, List.mem_cons] at hv
      simp only [maxPref]
      rcases hv with rfl | hv
      · refine le_trans ?_ (maxPref_ge _ _ _)
        split
        · exact le_refl _
        · rename_i h; exact not_lt.mp h
      · exact ih _ _ hv

theorem maxPref_mem (n : Nat) (m : K) (l : List K) :
    maxPref n m l = m ∨ maxPref n m l ∈ l.dropLast.take n := by
  induction n generalizing m l with
  | zero => simp [maxPref]
  | succ n ih =>
    match l with
    | [] => simp [maxPref]
    | [_] => simp [maxPref]
    | a :: b :: rest =>
      simp only [maxPref, List.dropLast_cons_cons, List.take_succ_cons, List.mem_cons]
      split
      · rcases ih a (b :: rest) with h | h
        · right; left; exact h
        · right; right; exact h
      · rcases ih m (b :: rest) with h | h
        · left; exact h
        · right; right; exact h

theorem maxPref_isGreatest (n : Nat) (m : K) (l : List K) :
    IsGreatest {v | v = m ∨ v ∈ l.dropLast.take n} (maxPref n m l) := by
  refine ⟨maxPref_mem n m l, ?_⟩
  rintro v (rfl | hv)
  · exact maxPref_ge _ _ _
  · exact maxPref_ge_mem _ _ _ _ hv

/-- The clamp result is in the allowed interval. -/
theorem clampHiLo_bounds (hi lo : K) (q : Option K) (h : lo ≤ hi) :
    lo ≤ clampHiLo hi lo q ∧ clampHiLo hi lo q ≤ hi := by
  unfold clampHiLo
  cases q with
  | none => dsimp only; split <;> constructor <;> order
  | some v => dsimp only; split <;> split <;> constructor <;> order

/-- Consistency: the trial point, the value and the step agree. -/
def Fresh (φ : Ray K) (s : Search K) : Prop := s.pt = s.step ∧ s.f2 = φ.phi s.step

theorem evalH_fresh (φ : Ray K) (s : Search K) : Fresh φ (evalH φ s) := by
  simp [Fresh, evalH]

theorem backtrack_success (P : LSParams K) (φ : Ray K) (ref : K) (n : Nat) (s r : Search K)
    (h : backtrack P φ ref n s = some r) (hf : Fresh φ s) (hst : s.status = .success) :
    (r.status = .success ∧ Fresh φ r ∧ ¬ ref - r.f2 < -P.alpha * φ.slope * r.step) ∨
    (r.status = .minStepSize ∧ r.step < P.minStep) := by
  induction n generalizing s with
  | zero => simp [backtrack] at h
  | succ n ih =>
    simp only [backtrack] at h
    split at h
    · split at h
      · rename_i h2
        injection h with h; subst h
        right; exact ⟨rfl, h2⟩
      · exact ih _ h (evalH_fresh _ _) hst
    · rename_i h1
      injection h with h; subst h
      left; exact ⟨hst, hf, h1⟩

theorem polyLoop_success (P : LSParams K) (φ : Ray K) (I : Interp K) (ref : K) (n : Nat)
    (p2 fp : K) (s r : Search K)
    (h : polyLoop P φ I ref n p2 fp s = some r) (hf : Fresh φ s) (hst : s.status = .success) :
    (r.status = .success ∧ Fresh φ r ∧ ¬ ref - r.f2 < -P.alpha * φ.slope * r.step) ∨
    (r.status = .minStepSize ∧ r.step < P.minStep) := by
  induction n generalizing s p2 fp with
  | zero => simp [polyLoop] at h
  | succ n ih =>
    simp only [polyLoop] at h
    split at h
    · split at h
      · rename_i h2
        injection h with h; subst h
        right; exact ⟨rfl, h2⟩
      · exact ih _ _ _ h (evalH_fresh _ _) hst
    · rename_i h1
      injection h with h; subst h
      left; exact ⟨hst, hf, h1⟩

theorem armijoFirst_fresh (P : LSParams K) (φ : Ray K) (I : Interp K) (ref : K) (s : Search K)
    (hf : Fresh φ s) : Fresh φ (armijoFirst P φ I ref s) := by
  unfold armijoFirst; split
  · exact evalH_fresh _ _
  · exact hf

theorem armijoFirst_status (P : LSParams K) (φ : Ray K) (I : Interp K) (ref : K) (s : Search K) :
    (armijoFirst P φ I ref s).status = s.status := by
  unfold armijoFirst; split <;> rfl

/-- Outcome of the Armijo search: success with a fresh trial passing the test, or the
minimum-step status. -/
theorem armijo_outcome (P : LSParams K) (φ : Ray K) (I : Interp K) (pre : List K) (n : Nat)
    (s0 r : Search K) (h : armijo P φ I pre n s0 = some r) :
    (r.status = .success ∧ Fresh φ r ∧ r.gradAt = some r.step ∧
      ¬ maxPref P.numPre φ.f0 pre - r.f2 < -P.alpha * φ.slope * r.step) ∨
    (r.status = .minStepSize ∧ r.step < P.minStep) := by
  unfold armijo at h
  simp only at h
  split at h
  · rw [Option.map_eq_some_iff] at h
    obtain ⟨a, ha, rfl⟩ := h
    rcases backtrack_success _ _ _ _ _ _ ha (evalH_fresh _ _) rfl with ⟨h1, h2, h3⟩ | ⟨h1, h2⟩
    · left; exact ⟨h1, h2, by simp [evalDh, h2.1], h3⟩
    · right; exact ⟨h1, h2⟩
  · rw [Option.map_eq_some_iff] at h
    obtain ⟨a, ha, rfl⟩ := h
    have := polyLoop_success _ _ _ _ _ _ _ _ _ ha (armijoFirst_fresh _ _ _ _ _ (evalH_fresh _ _))
      (armijoFirst_status _ _ _ _ _)
    rcases this with ⟨h1, h2, h3⟩ | ⟨h1, h2⟩
    · left; exact ⟨h1, h2, by simp [evalGrad, h2.1], h3⟩
    · right; exact ⟨h1, h2⟩

/-! ### Step bounds -/

variable [IsStrictOrderedRing K]

theorem armijoFirst_bounds (P : LSParams K) (φ : Ray K) (I : Interp K) (ref : K) (s : Search K)
    (h12 : P.r1 ≤ P.r2) (h0 : 0 < P.r1) (h1 : P.r2 ≤ 1) (hs : 0 < s.step) :
    0 < (armijoFirst P φ I ref s).step ∧ P.r1 * s.step ≤ (armijoFirst P φ I ref s).step ∧
      (armijoFirst P φ I ref s).step ≤ s.step := by
  have hb := clampHiLo_bounds (P.r2 * s.step) (P.r1 * s.step) (I.quad s.step s.f2)
      (mul_le_mul_of_nonneg_right h12 hs.le)
  have h2 : P.r2 * s.step ≤ s.step := by nlinarith
  have h3 : P.r1 * s.step ≤ s.step := by nlinarith
  unfold armijoFirst; split
  · exact ⟨lt_of_lt_of_le (mul_pos h0 hs) hb.1, hb.1, hb.2.trans h2⟩
  · exact ⟨hs, h3, le_refl _⟩

theorem armijoFirst_pos (P : LSParams K) (φ : Ray K) (I : Interp K) (ref : K) (s : Search K)
    (h12 : P.r1 ≤ P.r2) (h0 : 0 < P.r1) (hs : 0 < s.step) :
    0 < (armijoFirst P φ I ref s).step := by
  have hb := clampHiLo_bounds (P.r2 * s.step) (P.r1 * s.step) (I.quad s.step s.f2)
      (mul_le_mul_of_nonneg_right h12 hs.le)
  unfold armijoFirst; split
  · exact lt_of_lt_of_le (mul_pos h0 hs) hb.1
  · exact hs

theorem backtrack_bounds (P : LSParams K) (φ : Ray K) (ref : K) (n : Nat) (s r : Search K)
    (h : backtrack P φ ref n s = some r) (h0 : 0 < P.r1) (h1 : P.r1 ≤ 1) (hs : 0 < s.step) :
    0 < r.step ∧ r.step ≤ s.step ∧
      (r.status = s.status → s.status = .success → r.step = s.step ∨ P.minStep ≤ r.step) := by
  induction n generalizing s with
  | zero => simp [backtrack] at h
  | succ n ih =>
    have hp : 0 < s.step * P.r1 := mul_pos hs h0
    have hle : s.step * P.r1 ≤ s.step := by nlinarith
    simp only [backtrack] at h
    split at h
    · split at h
      · injection h with h; subst h
        refine ⟨hp, hle, ?_⟩
        intro ha hb; simp only at ha; rw [hb] at ha; cases ha
      · rename_i hmin
        obtain ⟨a, b, c⟩ := ih _ h (by simpa [evalH] using hp)
        refine ⟨a, le_trans b (by simpa [evalH] using hle), ?_⟩
        intro ha hb
        right
        rcases c (by simpa [evalH] using ha) (by simpa [evalH] using hb) with c | c
        · rw [c]; exact not_lt.mp hmin
        · exact c
    · injection h with h; subst h
      exact ⟨hs, le_refl _, fun _ _ => Or.inl rfl⟩

theorem polyLoop_bounds (P : LSParams K) (φ : Ray K) (I : Interp K) (ref : K) (n : Nat)
    (p2 fp : K) (s r : Search K)
    (h : polyLoop P φ I ref n p2 fp s = some r) (h0 : 0 < P.r1) (h12 : P.r1 ≤ P.r2)
    (h1 : P.r2 ≤ 1) (hs : 0 < s.step) :
    0 < r.step ∧ r.step ≤ s.step ∧
      (r.status = s.status → s.status = .success → r.step = s.step ∨ P.minStep ≤ r.step) := by
  induction n generalizing s p2 fp with
  | zero => simp [polyLoop] at h
  | succ n ih =>
    have hb := clampHiLo_bounds (P.r2 * s.step) (P.r1 * s.step) (I.cubic s.step p2 s.f2 fp)
      (mul_le_mul_of_nonneg_right h12 hs.le)
    set t := clampHiLo (P.r2 * s.step) (P.r1 * s.step) (I.cubic s.step p2 s.f2 fp) with ht
    have hp : 0 < t := lt_of_lt_of_le (mul_pos h0 hs) hb.1
    have hle : t ≤ s.step := le_trans hb.2 (by nlinarith)
    simp only [polyLoop] at h
    split at h
    · split at h
      · injection h with h; subst h
        refine ⟨hp, hle, ?_⟩
        intro ha hb; simp only at ha; rw [hb] at ha; cases ha
      · rename_i hmin
        obtain ⟨a, b, c⟩ := ih _ _ _ h (by simpa [evalH] using hp)
        refine ⟨a, le_trans b (by simpa [evalH] using hle), ?_⟩
        intro ha hb
        right
        rcases c (by simpa [evalH] using ha) (by simpa [evalH] using hb) with c | c
        · rw [c]; exact not_lt.mp hmin
        · exact c
    · injection h with h; subst h
      exact ⟨hs, le_refl _, fun _ _ => Or.inl rfl⟩

/-! ### Termination -/

theorem backtrack_total (P : LSParams K) (φ : Ray K) (ref : K) (n : Nat) (s : Search K)
    (hn : s.step * P.r1 ^ n < P.minStep) (h0 : 0 < P.r1) (h1 : P.r1 ≤ 1) (hs : 0 < s.step) :
    (backtrack P φ ref (n + 1) s).isSome := by
  induction n generalizing s with
  | zero =>
    simp only [backtrack]
    have : s.step * P.r1 < P.minStep := by
      have : s.step * P.r1 ≤ s.step := by nlinarith
      simp at hn; linarith
    simp only [this, if_true]
    split <;> rfl
  | succ n ih =>
    rw [backtrack]
    simp only
    split
    · split
      · rfl
      · apply ih
        · simp only [evalH]; rw [pow_succ] at hn; calc
            s.step * P.r1 * P.r1 ^ n = s.step * (P.r1 ^ n * P.r1) := by ring
            _ < _ := hn
        · simpa [evalH] using mul_pos hs h0
    · rfl

theorem polyLoop_total (P : LSParams K) (φ : Ray K) (I : Interp K) (ref : K) (n : Nat)
    (p2 fp : K) (s : Search K)
    (hn : s.step * P.r2 ^ n < P.minStep) (h0 : 0 < P.r1) (h12 : P.r1 ≤ P.r2)
    (h1 : P.r2 ≤ 1) (hs : 0 < s.step) :
    (polyLoop P φ I ref (n + 1) p2 fp s).isSome := by
  induction n generalizing s p2 fp with
  | zero =>
    have hb := clampHiLo_bounds (P.r2 * s.step) (P.r1 * s.step) (I.cubic s.step p2 s.f2 fp)
      (mul_le_mul_of_nonneg_right h12 hs.le)
    have : clampHiLo (P.r2 * s.step) (P.r1 * s.step) (I.cubic s.step p2 s.f2 fp) < P.minStep := by
      have : P.r2 * s.step ≤ s.step := by nlinarith
      simp at hn; linarith [hb.2]
    simp only [polyLoop, this, if_true]
    split <;> rfl
  | succ n ih =>
    have hb := clampHiLo_bounds (P.r2 * s.step) (P.r1 * s.step) (I.cubic s.step p2 s.f2 fp)
      (mul_le_mul_of_nonneg_right h12 hs.le)
    rw [polyLoop]
    simp only
    split
    · split
      · rfl
      · apply ih
        · simp only [evalH]
          refine lt_of_le_of_lt ?_ hn
          have hr : 0 ≤ P.r2 ^ n := pow_nonneg (le_trans h0.le h12) n
          calc _ ≤ (P.r2 * s.step) * P.r2 ^ n := mul_le_mul_of_nonneg_right hb.2 hr
            _ = s.step * P.r2 ^ (n + 1) := by ring
        · simp only [evalH]; exact lt_of_lt_of_le (mul_pos h0 hs) hb.1
    · rfl

theorem backtrack_mono (P : LSParams K) (φ : Ray K) (ref : K) (n m : Nat) (s r : Search K)
    (h : backtrack P φ ref n s = some r) (hm : n ≤ m) : backtrack P φ ref m s = some r := by
  induction n generalizing s m with
  | zero => simp [backtrack] at h
  | succ n ih =>
    obtain ⟨m, rfl⟩ : ∃ k, m = k + 1 := ⟨m - 1, by omega⟩
    simp only [backtrack] at h ⊢
    split
    · rename_i h1; simp only [h1, if_true] at h
      split
      · rename_i h2; simpa only [h2, if_true] using h
      · rename_i h2; simp only [h2, if_false] at h; exact ih _ _ h (by omega)
    · rename_i h1; simpa only [h1, if_false] using h

theorem polyLoop_mono (P : LSParams K) (φ : Ray K) (I : Interp K) (ref : K) (n m : Nat)
    (p2 fp : K) (s r : Search K)
    (h : polyLoop P φ I ref n p2 fp s = some r) (hm : n ≤ m) :
    polyLoop P φ I ref m p2 fp s = some r := by
  induction n generalizing s m p2 fp with
  | zero => simp [polyLoop] at h
  | succ n ih =>
    obtain ⟨m, rfl⟩ : ∃ k, m = k + 1 := ⟨m - 1, by omega⟩
    simp only [polyLoop] at h ⊢
    split
    · rename_i h1; simp only [h1, if_true] at h
      split
      · rename_i h2; simpa only [h2, if_true] using h
      · rename_i h2; simp only [h2, if_false] at h; exact ih _ _ _ _ h (by omega)
    · rename_i h1; simpa only [h1, if_false] using h

/-! ### No false failure -/

theorem backtrack_finds (P : LSParams K) (φ : Ray K) (ref δ : K) (n : Nat) (s r : Search K)
    (h : backtrack P φ ref n s = some r) (hf : Fresh φ s)
    (hδ : ∀ t, 0 < t → t ≤ δ → ¬ ref - φ.phi t < -P.alpha * φ.slope * t)
    (hmin : P.minStep ≤ P.r1 * δ) (h0 : 0 < P.r1) (hs : 0 < s.step) (hst : s.status = .success) :
    r.status = .success := by
  induction n generalizing s with
  | zero => simp [backtrack] at h
  | succ n ih =>
    simp only [backtrack] at h
    split at h
    · rename_i hv
      have hgt : δ < s.step := by
        by_contra hc
        exact hδ s.step hs (not_lt.mp hc) (by rw [← hf.2]; exact hv)
      split at h
      · rename_i hlt
        exfalso
        have : P.r1 * δ < s.step * P.r1 := by nlinarith
        linarith
      · exact ih _ h (evalH_fresh _ _) (by simpa [evalH] using mul_pos hs h0) hst
    · injection h with h; subst h; exact hst

theorem polyLoop_finds (P : LSParams K) (φ : Ray K) (I : Interp K) (ref δ : K) (n : Nat)
    (p2 fp : K) (s r : Search K)
    (h : polyLoop P φ I ref n p2 fp s = some r) (hf : Fresh φ s)
    (hδ : ∀ t, 0 < t → t ≤ δ → ¬ ref - φ.phi t < -P.alpha * φ.slope * t)
    (hmin : P.minStep ≤ P.r1 * δ) (h0 : 0 < P.r1) (h12 : P.r1 ≤ P.r2) (hs : 0 < s.step)
    (hst : s.status = .success) :
    r.status = .success := by
  induction n generalizing s p2 fp with
  | zero => simp [polyLoop] at h
  | succ n ih =>
    have hb := clampHiLo_bounds (P.r2 * s.step) (P.r1 * s.step) (I.cubic s.step p2 s.f2 fp)
      (mul_le_mul_of_nonneg_right h12 hs.le)
    simp only [polyLoop] at h
    split at h
    · rename_i hv
      have hgt : δ < s.step := by
        by_contra hc
        exact hδ s.step hs (not_lt.mp hc) (by rw [← hf.2]; exact hv)
      split at h
      · rename_i hlt
        exfalso
        have : P.r1 * δ < P.r1 * s.step := by nlinarith
        linarith [hb.1]
      · refine ih _ _ _ h (evalH_fresh _ _) ?_ hst
        simp only [evalH]; exact lt_of_lt_of_le (mul_pos h0 hs) hb.1
    · injection h with h; subst h; exact hst

theorem exists_pow_mul_lt [Archimedean K] (a b r : K) (hb : 0 < b)
    (h1 : r < 1) : ∃ n : Nat, a * r ^ n < b := by
  by_cases ha : a ≤ 0
  · exact ⟨0, by simpa using lt_of_le_of_lt ha hb⟩
  · have ha := not_le.mp ha
    obtain ⟨n, hn⟩ := exists_pow_lt_of_lt_one (div_pos hb ha) h1
    refine ⟨n, ?_⟩
    rw [lt_div_iff₀ ha] at hn
    linarith [mul_comm a (r ^ n)]

end Verif.Solver
