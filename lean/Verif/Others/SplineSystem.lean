import Verif.Others.PeriodicLemmas
import Mathlib.Tactic.Linarith

/-!
# The linear systems set up by the spline routines
-/

set_option linter.unusedSectionVars false
set_option linter.unusedVariables false

namespace Verif.Spline

variable {K : Type*} [Field K] [LinearOrder K] [IsStrictOrderedRing K]

theorem slopesPtrs_sep (n : Nat) : Sep (slopesPtrs n) n (n - 1) (n - 1) n := ⟨by simp [slopesPtrs], by simp [slopesPtrs], by simp [slopesPtrs], by simp [slopesPtrs]⟩

/-- Common form of the rows. -/
def genRow (P : Ptrs) (a b v : Nat → K) (m : Nat → K) (i : Nat) : Nat → K :=
  set (set (set (set m (P.ld + (i - 1)) (a i)) (P.d + i) 2) (P.ud + i) (b i)) (P.vec + i) (v i)

def genRows (P : Ptrs) (a b v : Nat → K) (m : Nat → K) : Nat → Nat → K
  | 0 => m
  | k + 1 => genRow P a b v (genRows P a b v m k) (k + 1)

theorem slopesRows_eq (P : Ptrs) (X Y m : Nat → K) (k : Nat) : slopesRows P X Y m k = genRows P (fun i => (X i - X (i - 1)) / (X (i + 1) - X (i - 1)))
    (fun i => (X (i + 1) - X i) / (X (i + 1) - X (i - 1)))
    (fun i => 6 / (X (i + 1) - X (i - 1)) * ((Y (i + 1) - Y i) / (X (i + 1) - X i) - (Y i - Y (i - 1)) / (X i - X (i - 1)))) m k := by
  induction k with
  | zero => rfl
  | succ k ih => rw [slopesRows, genRows, ih]; rfl

theorem uniformSlopesRows_eq (P : Ptrs) (h : K) (Y m : Nat → K) (k : Nat) : uniformSlopesRows P h Y m k = genRows P (fun _ => 1 / 2) (fun _ => 1 / 2)
    (fun i => 3 / h * ((Y (i + 1) - Y i) / h - (Y i - Y (i - 1)) / h)) m k := by
  induction k with
  | zero => rfl
  | succ k ih => rw [uniformSlopesRows, genRows, ih]; rfl

theorem genRows_read {P : Ptrs} {n : Nat} (hs : Sep P n (n - 1) (n - 1) n) (a b v m : Nat → K) : ∀ k, k + 2 ≤ n → ∀ i, 1 ≤ i → i ≤ k →
    genRows P a b v m k (P.ld + (i - 1)) = a i ∧ genRows P a b v m k (P.d + i) = 2 ∧ genRows P a b v m k (P.ud + i) = b i ∧ genRows P a b v m k (P.vec + i) = v i := by
  intro k
  obtain ⟨h1, h2, h3, h4⟩ := hs
  induction k with
  | zero => intro _ i h h'; omega
  | succ k ih =>
    intro hk i hi hik
    by_cases e : i = k + 1
    · subst e
      simp only [genRows, genRow]
      refine ⟨?_, ?_, ?_, ?_⟩
      · rw [set_ne _ _ (by omega), set_ne _ _ (by omega), set_ne _ _ (by omega), set_eq]
      · rw [set_ne _ _ (by omega), set_ne _ _ (by omega), set_eq]
      · rw [set_ne _ _ (by omega), set_eq]
      · rw [set_eq]
    · obtain ⟨r1, r2, r3, r4⟩ := ih (by omega) i hi (by omega)
      simp only [genRows, genRow]
      refine ⟨?_, ?_, ?_, ?_⟩
      · rw [set_ne _ _ (by omega), set_ne _ _ (by omega), set_ne _ _ (by omega), set_ne _ _ (by omega), r1]
      · rw [set_ne _ _ (by omega), set_ne _ _ (by omega), set_ne _ _ (by omega), set_ne _ _ (by omega), r2]
      · rw [set_ne _ _ (by omega), set_ne _ _ (by omega), set_ne _ _ (by omega), set_ne _ _ (by omega), r3]
      · rw [set_ne _ _ (by omega), set_ne _ _ (by omega), set_ne _ _ (by omega), set_ne _ _ (by omega), r4]

/-- The complete system of the routines with chord end slopes, in a common form. -/
structure IsSlopes (P : Ptrs) (nn : Nat) (a b v : Nat → K) (h0 hl : K) (m : Nat → K) : Prop where
  row : ∀ i, 1 ≤ i → i < nn → m (P.ld + (i - 1)) = a i ∧ m (P.d + i) = 2 ∧ m (P.ud + i) = b i ∧ m (P.vec + i) = v i
  d0 : m (P.d + 0) = h0 / 3
  ud0 : m (P.ud + 0) = h0 / 6
  v0 : m (P.vec + 0) = 0
  dn : m (P.d + nn) = hl / 3
  ldn : m (P.ld + (nn - 1)) = hl / 6
  vn : m (P.vec + nn) = 0

theorem isSlopes_of {P : Ptrs} {n : Nat} (h2n : 2 ≤ n) (hs : Sep P n (n - 1) (n - 1) n) (a b v : Nat → K) (h0 hl x y : K) (m : Nat → K) :
    IsSlopes P (n - 1) a b v h0 hl (set (set (set (set (set (set (genRows P a b v m (n - 1 - 1)) (P.d + 0) (h0 / 3)) (P.ud + 0) (h0 / 6)) (P.vec + 0) (x - x)) (P.d + (n - 1)) (hl / 3))
      (P.ld + (n - 1 - 1)) (hl / 6)) (P.vec + (n - 1)) (y - y)) := by
  have hr := genRows_read hs a b v m (n - 1 - 1)
  obtain ⟨s1, s2, s3, s4⟩ := hs
  refine ⟨?_, ?_, ?_, ?_, ?_, ?_, ?_⟩
  · intro i hi hin
    obtain ⟨r1, r2, r3, r4⟩ := hr (by omega) i hi (by omega)
    refine ⟨?_, ?_, ?_, ?_⟩
    · rw [set_ne _ _ (by omega), set_ne _ _ (by omega), set_ne _ _ (by omega), set_ne _ _ (by omega), set_ne _ _ (by omega), set_ne _ _ (by omega), r1]
    · rw [set_ne _ _ (by omega), set_ne _ _ (by omega), set_ne _ _ (by omega), set_ne _ _ (by omega), set_ne _ _ (by omega), set_ne _ _ (by omega), r2]
    · rw [set_ne _ _ (by omega), set_ne _ _ (by omega), set_ne _ _ (by omega), set_ne _ _ (by omega), set_ne _ _ (by omega), set_ne _ _ (by omega), r3]
    · rw [set_ne _ _ (by omega), set_ne _ _ (by omega), set_ne _ _ (by omega), set_ne _ _ (by omega), set_ne _ _ (by omega), set_ne _ _ (by omega), r4]
  · rw [set_ne _ _ (by omega), set_ne _ _ (by omega), set_ne _ _ (by omega), set_ne _ _ (by omega), set_ne _ _ (by omega), set_eq]
  · rw [set_ne _ _ (by omega), set_ne _ _ (by omega), set_ne _ _ (by omega), set_ne _ _ (by omega), set_eq]
  · rw [set_ne _ _ (by omega), set_ne _ _ (by omega), set_ne _ _ (by omega), set_eq, sub_self]
  · rw [set_ne _ _ (by omega), set_ne _ _ (by omega), set_eq]
  · rw [set_ne _ _ (by omega), set_eq]
  · rw [set_eq, sub_self]

theorem slopesSystem_is {n : Nat} (h2n : 2 ≤ n) (X Y m : Nat → K) :
    IsSlopes (slopesPtrs n) (n - 1) (fun i => (X i - X (i - 1)) / (X (i + 1) - X (i - 1))) (fun i => (X (i + 1) - X i) / (X (i + 1) - X (i - 1)))
    (fun i => 6 / (X (i + 1) - X (i - 1)) * ((Y (i + 1) - Y i) / (X (i + 1) - X i) - (Y i - Y (i - 1)) / (X i - X (i - 1)))) (X 1 - X 0) (X (n - 1) - X (n - 1 - 1))
    (slopesSystem (slopesPtrs n) X Y n m) := by
  have h := isSlopes_of (P := slopesPtrs n) h2n (slopesPtrs_sep n) (fun i => (X i - X (i - 1)) / (X (i + 1) - X (i - 1))) (fun i => (X (i + 1) - X i) / (X (i + 1) - X (i - 1)))
    (fun i => 6 / (X (i + 1) - X (i - 1)) * ((Y (i + 1) - Y i) / (X (i + 1) - X i) - (Y i - Y (i - 1)) / (X i - X (i - 1)))) (X 1 - X 0) (X (n - 1) - X (n - 1 - 1))
    ((Y 1 - Y 0) / (X 1 - X 0)) ((Y (n - 1) - Y (n - 1 - 1)) / (X (n - 1) - X (n - 1 - 1))) m
  rw [← slopesRows_eq] at h
  exact h

theorem uniformSlopesSystem_is {n : Nat} (h2n : 2 ≤ n) (h : K) (Y m : Nat → K) :
    IsSlopes (slopesPtrs n) (n - 1) (fun i => 1 / 2) (fun i => 1 / 2) (fun i => 3 / h * ((Y (i + 1) - Y i) / h - (Y i - Y (i - 1)) / h)) h h
    (uniformSlopesSystem (slopesPtrs n) h Y n m) := by
  have h := isSlopes_of (P := slopesPtrs n) h2n (slopesPtrs_sep n) (fun i => 1 / 2) (fun i => 1 / 2) (fun i => 3 / h * ((Y (i + 1) - Y i) / h - (Y i - Y (i - 1)) / h)) h h
    ((Y 1 - Y 0) / h) ((Y (n - 1) - Y (n - 1 - 1)) / h) m
  rw [← uniformSlopesRows_eq] at h
  exact h

/-! ### Success of the elimination -/

theorem backSub_some {P : Ptrs} (hP : P.d + 0 ≤ P.s) {eps : K} : ∀ (k : Nat) (m : Nat → K), P.d + k ≤ P.s → (∀ j < k, eps ≤ |m (P.d + j)|) → (backSub P eps k m).isSome := by
  intro k
  induction k with
  | zero => intro m _ _; rfl
  | succ k ih =>
    intro m hk hm
    rw [backSub, if_neg (not_lt.mpr (hm k (by omega)))]
    refine ih _ (by omega) fun j hj => ?_
    rw [set_ne _ _ (by omega)]
    exact hm j (by omega)

/-- The elimination succeeds on every system of this form with off-diagonal weights in `[0, 1]` summing to at most `1` and end lengths not too small. -/
theorem solveTri_isSlopes {P : Ptrs} {n : Nat} (h2n : 2 ≤ n) (hs : Sep P n (n - 1) (n - 1) n) {a b v : Nat → K} {h0 hl : K} {m : Nat → K} (H : IsSlopes P (n - 1) a b v h0 hl m)
    (ha : ∀ i, 1 ≤ i → i < n - 1 → 0 ≤ a i ∧ a i ≤ 1) (hb : ∀ i, 1 ≤ i → i < n - 1 → 0 ≤ b i ∧ b i ≤ 1) {eps : K} (he1 : eps ≤ 1) (h00 : 0 < h0) (he0 : eps ≤ h0 / 3) (hll : 0 < hl) (hel : eps ≤ hl / 6) :
    (solveTri P eps n m).isSome := by
  have I := elim_inv hs m (n - 1) (by omega)
  set d : Nat → K := fun i => m (P.d + i) with hd
  set ud : Nat → K := fun i => m (P.ud + i) with hud
  set ld : Nat → K := fun i => m (P.ld + i) with hld
  -- the ratio invariant
  have key : ∀ k, k < n - 1 → 0 < piv d ud ld k ∧ 0 ≤ ud k ∧ ud k ≤ piv d ud ld k ∧ eps ≤ piv d ud ld k := by
    intro k
    induction k with
    | zero =>
      intro _
      have e1 : piv d ud ld 0 = h0 / 3 := H.d0
      have e2 : ud 0 = h0 / 6 := H.ud0
      rw [e1, e2]
      refine ⟨by positivity, by positivity, by linarith, he0⟩
    | succ k ih =>
      intro hk
      obtain ⟨p1, p2, p3, p4⟩ := ih (by omega)
      obtain ⟨r1, r2, r3, r4⟩ := H.row (k + 1) (by omega) hk
      have e1 : d (k + 1) = 2 := r2
      have e2 : ud (k + 1) = b (k + 1) := r3
      have e3 : ld k = a (k + 1) := r1
      have hq : ud k / piv d ud ld k ≤ 1 := (div_le_one p1).mpr p3
      have hq0 : 0 ≤ ud k / piv d ud ld k := div_nonneg p2 p1.le
      obtain ⟨a0, a1⟩ := ha (k + 1) (by omega) hk
      obtain ⟨b0, b1⟩ := hb (k + 1) (by omega) hk
      have ep : piv d ud ld (k + 1) = 2 - a (k + 1) * (ud k / piv d ud ld k) := by
        rw [piv, e1, e3]; ring
      have hle : a (k + 1) * (ud k / piv d ud ld k) ≤ 1 := by
        calc _ ≤ 1 * 1 := mul_le_mul a1 hq hq0 zero_le_one
          _ = 1 := one_mul 1
      rw [ep, e2]
      exact ⟨by linarith, b0, by linarith, by linarith⟩
  have hlast : eps ≤ piv d ud ld (n - 1) := by
    obtain ⟨k, rfl⟩ : ∃ k, n = k + 2 := ⟨n - 2, by omega⟩
    obtain ⟨p1, p2, p3, p4⟩ := key k (by omega)
    have e1 : d (k + 1) = hl / 3 := H.dn
    have e3 : ld k = hl / 6 := H.ldn
    have hq : ud k / piv d ud ld k ≤ 1 := (div_le_one p1).mpr p3
    have ep : piv d ud ld (k + 1) = hl / 3 - hl / 6 * (ud k / piv d ud ld k) := by
      rw [piv, e1, e3]; ring
    show eps ≤ piv d ud ld (k + 1)
    rw [ep]
    have : hl / 6 * (ud k / piv d ud ld k) ≤ hl / 6 * 1 := mul_le_mul_of_nonneg_left hq (by positivity)
    linarith
  obtain ⟨s1, s2, s3, s4⟩ := hs
  unfold solveTri
  simp only
  rw [if_neg]
  · refine backSub_some (by omega) _ _ (by omega) fun j hj => ?_
    rw [set_ne _ _ (by omega), I.piv j (by omega)]
    exact le_trans (key j (by omega)).2.2.2 (le_abs_self _)
  · rw [not_lt, I.piv (n - 1) (le_refl _)]
    exact le_trans hlast (le_abs_self _)

/-! ### The periodic systems -/

def perGenRow (P : Ptrs) (a b v : Nat → K) (m : Nat → K) (i : Nat) : Nat → K :=
  set (set (set (set m (P.ld + i) (a i)) (P.d + i) 2) (P.ud + i) (b i)) (P.vec + i) (v i)

def perGenRows (P : Ptrs) (a b v : Nat → K) (m : Nat → K) : Nat → Nat → K
  | 0 => m
  | k + 1 => perGenRow P a b v (perGenRows P a b v m k) k

theorem perGenRows_read {P : Ptrs} {nn : Nat} (hs : Sep P nn nn nn nn) (a b v m : Nat → K) : ∀ k, k ≤ nn → ∀ i < k,
    perGenRows P a b v m k (P.ld + i) = a i ∧ perGenRows P a b v m k (P.d + i) = 2 ∧ perGenRows P a b v m k (P.ud + i) = b i ∧ perGenRows P a b v m k (P.vec + i) = v i := by
  intro k
  obtain ⟨h1, h2, h3, h4⟩ := hs
  induction k with
  | zero => intro _ i h; omega
  | succ k ih =>
    intro hk i hik
    simp only [perGenRows, perGenRow]
    by_cases e : i = k
    · subst e
      refine ⟨?_, ?_, ?_, ?_⟩
      · rw [set_ne _ _ (by omega), set_ne _ _ (by omega), set_ne _ _ (by omega), set_eq]
      · rw [set_ne _ _ (by omega), set_ne _ _ (by omega), set_eq]
      · rw [set_ne _ _ (by omega), set_eq]
      · rw [set_eq]
    · obtain ⟨r1, r2, r3, r4⟩ := ih (by omega) i (by omega)
      refine ⟨?_, ?_, ?_, ?_⟩
      · rw [set_ne _ _ (by omega), set_ne _ _ (by omega), set_ne _ _ (by omega), set_ne _ _ (by omega), r1]
      · rw [set_ne _ _ (by omega), set_ne _ _ (by omega), set_ne _ _ (by omega), set_ne _ _ (by omega), r2]
      · rw [set_ne _ _ (by omega), set_ne _ _ (by omega), set_ne _ _ (by omega), set_ne _ _ (by omega), r3]
      · rw [set_ne _ _ (by omega), set_ne _ _ (by omega), set_ne _ _ (by omega), set_ne _ _ (by omega), r4]

theorem uniformPeriodicRows_eq (P : Ptrs) (h : K) (Y : Nat → K) (nn : Nat) (m : Nat → K) (k : Nat) : uniformPeriodicRows P h Y nn m k =
    perGenRows P (fun _ => 1 / 2) (fun _ => 1 / 2) (fun i => if i = nn - 1 then 3 / h * ((Y 1 - Y (i + 1)) / h - (Y (i + 1) - Y i) / h)
      else 3 / h * ((Y (i + 2) - Y (i + 1)) / h - (Y (i + 1) - Y i) / h)) m k := by
  induction k with
  | zero => rfl
  | succ k ih =>
    rw [uniformPeriodicRows, perGenRows, ih]
    simp only [uniformPeriodicRow, perGenRow]
    split <;> rfl

theorem periodicRows_eq (P : Ptrs) (X Y : Nat → K) (nn : Nat) (m : Nat → K) (k : Nat) : periodicRows P X Y nn m k =
    perGenRows P (fun i => (X (i + 1) - X i) / (if i = nn - 1 then X 1 - X 0 + X (i + 1) - X i else X (i + 2) - X i))
      (fun i => if i = nn - 1 then (X 1 - X 0) / (X 1 - X 0 + X (i + 1) - X i) else (X (i + 2) - X (i + 1)) / (X (i + 2) - X i))
      (fun i => if i = nn - 1 then 6 / (X 1 - X 0 + X (i + 1) - X i) * ((Y 1 - Y 0) / (X 1 - X 0) - (Y (i + 1) - Y i) / (X (i + 1) - X i))
      else 6 / (X (i + 2) - X i) * ((Y (i + 2) - Y (i + 1)) / (X (i + 2) - X (i + 1)) - (Y (i + 1) - Y i) / (X (i + 1) - X i))) m k := by
  induction k with
  | zero => rfl
  | succ k ih =>
    rw [periodicRows, perGenRows, ih]
    simp only [periodicRow, perGenRow]
    split <;> rfl

theorem uniformPeriodicRows_read {P : Ptrs} {nn : Nat} (hs : Sep P nn nn nn nn) (h : K) (Y m : Nat → K) (i : Nat) (hi : i < nn) :
    uniformPeriodicRows P h Y nn m nn (P.ld + i) = 1 / 2 ∧ uniformPeriodicRows P h Y nn m nn (P.d + i) = 2 ∧ uniformPeriodicRows P h Y nn m nn (P.ud + i) = 1 / 2 ∧
    uniformPeriodicRows P h Y nn m nn (P.vec + i) = if i = nn - 1 then 3 / h * ((Y 1 - Y (i + 1)) / h - (Y (i + 1) - Y i) / h)
      else 3 / h * ((Y (i + 2) - Y (i + 1)) / h - (Y (i + 1) - Y i) / h) := by
  rw [uniformPeriodicRows_eq]
  exact perGenRows_read hs _ _ _ m nn (le_refl nn) i hi

theorem periodicRows_read {P : Ptrs} {nn : Nat} (hs : Sep P nn nn nn nn) (X Y m : Nat → K) (i : Nat) (hi : i < nn) :
    periodicRows P X Y nn m nn (P.ld + i) = (X (i + 1) - X i) / (if i = nn - 1 then X 1 - X 0 + X (i + 1) - X i else X (i + 2) - X i) ∧
    periodicRows P X Y nn m nn (P.d + i) = 2 ∧
    periodicRows P X Y nn m nn (P.ud + i) = (if i = nn - 1 then (X 1 - X 0) / (X 1 - X 0 + X (i + 1) - X i) else (X (i + 2) - X (i + 1)) / (X (i + 2) - X i)) ∧
    periodicRows P X Y nn m nn (P.vec + i) = if i = nn - 1 then 6 / (X 1 - X 0 + X (i + 1) - X i) * ((Y 1 - Y 0) / (X 1 - X 0) - (Y (i + 1) - Y i) / (X (i + 1) - X i))
      else 6 / (X (i + 2) - X i) * ((Y (i + 2) - Y (i + 1)) / (X (i + 2) - X (i + 1)) - (Y (i + 1) - Y i) / (X (i + 1) - X i)) := by
  rw [periodicRows_eq]
  exact perGenRows_read hs _ _ _ m nn (le_refl nn) i hi

end Verif.Spline
