import Verif.Others.Spline
import Mathlib.Tactic.Ring
import Mathlib.Tactic.FieldSimp
import Mathlib.Tactic.Linarith
import Mathlib.Tactic.LinearCombination

/-!
# Elimination lemmas for the spline systems
-/

set_option linter.unusedSectionVars false
set_option linter.unusedVariables false

namespace Verif.Spline

variable {K : Type*} [Field K] [LinearOrder K] [IsStrictOrderedRing K]

theorem set_eq (m : Nat → K) (a : Nat) (v : K) : set m a v a = v := Function.update_self ..
theorem set_ne (m : Nat → K) {a b : Nat} (v : K) (h : b ≠ a) : set m a v b = m b := Function.update_of_ne h ..

/-- The slices do not overlap (in the order used by the code). -/
structure Sep (P : Ptrs) (nd nud nld nv : Nat) : Prop where
  d : P.d + nd ≤ P.ud
  ud : P.ud + nud ≤ P.ld
  ld : P.ld + nld ≤ P.vec
  vec : P.vec + nv ≤ P.s

/-- The pivots of the elimination. -/
def piv (d ud ld : Nat → K) : Nat → K
  | 0 => d 0
  | i + 1 => d (i + 1) + ud i * (-ld i / piv d ud ld i)

/-- The right-hand sides after the elimination. -/
def rhs (d ud ld v : Nat → K) : Nat → K
  | 0 => v 0
  | i + 1 => v (i + 1) + rhs d ud ld v i * (-ld i / piv d ud ld i)

/-- Memory after `k` elimination steps on a system of `n` equations. -/
structure Elim (P : Ptrs) (n : Nat) (m0 m : Nat → K) (k : Nat) : Prop where
  piv : ∀ j ≤ k, m (P.d + j) = piv (fun i => m0 (P.d + i)) (fun i => m0 (P.ud + i)) (fun i => m0 (P.ld + i)) j
  d : ∀ j, k < j → j < n → m (P.d + j) = m0 (P.d + j)
  ud : ∀ j, j < n - 1 → m (P.ud + j) = m0 (P.ud + j)
  ld : ∀ j, k ≤ j → j < n - 1 → m (P.ld + j) = m0 (P.ld + j)
  rhs : ∀ j ≤ k, m (P.vec + j) = rhs (fun i => m0 (P.d + i)) (fun i => m0 (P.ud + i)) (fun i => m0 (P.ld + i)) (fun i => m0 (P.vec + i)) j
  vec : ∀ j, k < j → j < n → m (P.vec + j) = m0 (P.vec + j)

theorem elim_inv {P : Ptrs} {n : Nat} (hs : Sep P n (n - 1) (n - 1) n) (m0 : Nat → K) : ∀ k, k + 1 ≤ n → Elim P n m0 (elim P m0 k) k := by
  intro k
  induction k with
  | zero =>
    intro hk
    refine ⟨?_, ?_, ?_, ?_, ?_, ?_⟩
    · intro j hj; obtain rfl : j = 0 := by omega
      rfl
    · intros; rfl
    · intros; rfl
    · intros; rfl
    · intro j hj; obtain rfl : j = 0 := by omega
      rfl
    · intros; rfl
  | succ k ih =>
    intro hk
    have I := ih (by omega)
    obtain ⟨h1, h2, h3, h4⟩ := hs
    have rd : ∀ j, j < n → elimStep P (elim P m0 k) k (P.d + j) =
        if j = k + 1 then elim P m0 k (P.d + (k + 1)) + elim P m0 k (P.ud + k) * (-elim P m0 k (P.ld + k) / elim P m0 k (P.d + k)) else elim P m0 k (P.d + j) := by
      intro j hj
      simp only [elimStep]
      rw [set_ne _ _ (by omega)]
      split
      · rename_i e; subst e
        rw [set_eq, set_ne _ _ (by omega), set_ne _ _ (by omega)]
      · rw [set_ne _ _ (by omega), set_ne _ _ (by omega)]
    have rv : ∀ j, j < n → elimStep P (elim P m0 k) k (P.vec + j) =
        if j = k + 1 then elim P m0 k (P.vec + (k + 1)) + elim P m0 k (P.vec + k) * (-elim P m0 k (P.ld + k) / elim P m0 k (P.d + k)) else elim P m0 k (P.vec + j) := by
      intro j hj
      simp only [elimStep]
      split
      · rename_i e; subst e
        rw [set_eq, set_ne _ _ (by omega), set_ne _ _ (by omega), set_ne _ _ (by omega), set_ne _ _ (by omega)]
      · rw [set_ne _ _ (by omega), set_ne _ _ (by omega), set_ne _ _ (by omega)]
    have hcd := I.d (k + 1) (by omega) (by omega)
    have hcv := I.vec (k + 1) (by omega) (by omega)
    have hpk := I.piv k (le_refl k)
    have hvk := I.rhs k (le_refl k)
    have huk := I.ud k (by omega)
    have hlk := I.ld k (le_refl k) (by omega)
    refine ⟨?_, ?_, ?_, ?_, ?_, ?_⟩
    · intro j hj
      show elimStep P (elim P m0 k) k (P.d + j) = _
      rw [rd j (by omega)]
      split
      · rename_i e; subst e
        rw [hcd, huk, hlk, hpk]; rfl
      · exact I.piv j (by omega)
    · intro j hj hj'
      show elimStep P (elim P m0 k) k (P.d + j) = _
      rw [rd j (by omega), if_neg (by omega), I.d j (by omega) hj']
    · intro j hj
      show elimStep P (elim P m0 k) k (P.ud + j) = _
      simp only [elimStep]
      rw [set_ne _ _ (by omega), set_ne _ _ (by omega), set_ne _ _ (by omega), I.ud j hj]
    · intro j hj hj'
      show elimStep P (elim P m0 k) k (P.ld + j) = _
      simp only [elimStep]
      rw [set_ne _ _ (by omega), set_ne _ _ (by omega), set_ne _ _ (by omega), I.ld j (by omega) hj']
    · intro j hj
      show elimStep P (elim P m0 k) k (P.vec + j) = _
      rw [rv j (by omega)]
      split
      · rename_i e; subst e
        rw [hcv, hvk, hlk, hpk]; rfl
      · exact I.rhs j (by omega)
    · intro j hj hj'
      show elimStep P (elim P m0 k) k (P.vec + j) = _
      rw [rv j (by omega), if_neg (by omega), I.vec j (by omega) hj']

/-- Substitution: on success every pivot is at least `eps` and the bidiagonal equations hold; nothing below the slice `s` is changed. -/
theorem backSub_spec {P : Ptrs} {n : Nat} (hs : Sep P n (n - 1) (n - 1) n) {eps : K} (he : 0 < eps) :
    ∀ (k : Nat) (m m' : Nat → K), k < n → backSub P eps k m = some m' →
      (∀ a, a < P.s → m' a = m a) ∧ (∀ j, k ≤ j → m' (P.s + j) = m (P.s + j)) ∧
      ∀ j, j < k → m (P.d + j) ≠ 0 ∧ m (P.d + j) * m' (P.s + j) + m (P.ud + j) * m' (P.s + (j + 1)) = m (P.vec + j) := by
  intro k
  obtain ⟨h1, h2, h3, h4⟩ := hs
  induction k with
  | zero =>
    intro m m' hk h
    cases h
    exact ⟨fun _ _ => rfl, fun _ _ => rfl, fun j hj => absurd hj (by omega)⟩
  | succ k ih =>
    intro m m' hk h
    rw [backSub] at h
    split at h
    · exact absurd h (by simp)
    · rename_i hp
      obtain ⟨ha, hb, hc⟩ := ih _ _ (by omega) h
      have hd : m (P.d + k) ≠ 0 := by
        intro e; rw [e, abs_zero] at hp; exact hp he
      refine ⟨fun a h => by rw [ha a h, set_ne _ _ (by omega)], fun j hj => by rw [hb j (by omega), set_ne _ _ (by omega)], fun j hj => ?_⟩
      by_cases hjk : j = k
      · subst hjk
        refine ⟨hd, ?_⟩
        rw [hb j (le_refl j), hb (j + 1) (by omega), set_eq, set_ne _ _ (by omega)]
        field_simp
        ring
      · have := hc j (by omega)
        rw [set_ne _ _ (by omega), set_ne _ _ (by omega), set_ne _ _ (by omega)] at this
        exact this

/-- The bidiagonal equations imply the original ones. -/
theorem elim_sound {n : Nat} {d ud ld v s : Nat → K} (hp : ∀ j < n, piv d ud ld j ≠ 0)
    (hb : ∀ j, j + 1 < n → piv d ud ld j * s j + ud j * s (j + 1) = rhs d ud ld v j) (hl : ∀ j, j + 1 = n → piv d ud ld j * s j = rhs d ud ld v j) :
    ∀ i < n, (if i = 0 then 0 else ld (i - 1) * s (i - 1)) + d i * s i + (if i + 1 < n then ud i * s (i + 1) else 0) = v i := by
  intro i hi
  have row : piv d ud ld i * s i + (if i + 1 < n then ud i * s (i + 1) else 0) = rhs d ud ld v i := by
    split
    · exact hb i (by assumption)
    · rw [add_zero]; exact hl i (by omega)
  rcases i with _ | i
  · simp only [piv, rhs] at row
    rw [if_pos rfl, zero_add]; exact row
  · rw [if_neg (by omega), Nat.add_sub_cancel]
    have hpi := hp i (by omega)
    have hbi := hb i hi
    simp only [piv, rhs] at row
    have hc : -ld i / piv d ud ld i * piv d ud ld i = -ld i := div_mul_cancel₀ _ hpi
    linear_combination row - (-ld i / piv d ud ld i) * hbi + s i * hc

theorem solveTri_spec {P : Ptrs} {n : Nat} (hn : 0 < n) (hs : Sep P n (n - 1) (n - 1) n) {eps : K} (he : 0 < eps) {m0 m : Nat → K} (h : solveTri P eps n m0 = some m) :
    ∀ i < n, (if i = 0 then 0 else m0 (P.ld + (i - 1)) * m (P.s + (i - 1))) + m0 (P.d + i) * m (P.s + i) +
      (if i + 1 < n then m0 (P.ud + i) * m (P.s + (i + 1)) else 0) = m0 (P.vec + i) := by
  have I := elim_inv hs m0 (n - 1) (by omega)
  unfold solveTri at h
  simp only at h
  split at h
  · exact absurd h (by simp)
  · rename_i hlast
    obtain ⟨ha, hb, hc⟩ := backSub_spec hs he (n - 1) _ _ (by omega) h
    obtain ⟨h1, h2, h3, h4⟩ := hs
    have hlast' : elim P m0 (n - 1) (P.d + (n - 1)) ≠ 0 := by intro e; rw [e, abs_zero] at hlast; exact hlast he
    refine elim_sound (n := n) (d := fun i => m0 (P.d + i)) (ud := fun i => m0 (P.ud + i)) (ld := fun i => m0 (P.ld + i)) (v := fun i => m0 (P.vec + i))
      (s := fun i => m (P.s + i)) ?_ ?_ ?_
    · intro j hj
      rw [← I.piv j (by omega)]
      by_cases hjn : j = n - 1
      · rw [hjn]; exact hlast'
      · have := (hc j (by omega)).1
        rwa [set_ne _ _ (by omega)] at this
    · intro j hj
      have := (hc j (by omega)).2
      rw [set_ne _ _ (by omega), set_ne _ _ (by omega), set_ne _ _ (by omega), I.piv j (by omega), I.ud j (by omega), I.rhs j (by omega)] at this
      exact this
    · intro j hj
      obtain rfl : j = n - 1 := by omega
      show _ * m (P.s + (n - 1)) = _
      rw [hb (n - 1) (le_refl _), set_eq, ← I.piv _ (le_refl _), ← I.rhs _ (le_refl _)]
      field_simp

end Verif.Spline
