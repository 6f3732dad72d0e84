import Verif.Others.HullShape
import Verif.Props.Dense

/-!
# C182: the convex hull subproblem accepts real vectors with one column and nothing else
-/

namespace Verif.Dense

variable {junk : Nat → ℝ} {W : Nat → El} {a : Nat → ℝ}

theorem hullSum_some (m : Nat) (h : ∀ i < m, (W i).len = (W 0).row) :
    ∃ g, hullSum junk W a m = some (mk false (W 0).row 1 1 g) ∧ ∀ q < (W 0).row, g q = ∑ i ∈ Finset.range m, a i * (W i).get q := by
  induction m with
  | zero => exact ⟨_, rfl, fun q _ => by simp⟩
  | succ m ih =>
    obtain ⟨g, hg, hq⟩ := ih fun i hi => h i (by omega)
    have hl : (smulR junk (a m) (W m)).len = (W m).len := rfl
    have hl2 : (mk false (W 0).row 1 1 g).len = (W 0).row := by simp [mk, El.len]
    refine ⟨axpy (W m).len 1 (smulR junk (a m) (W m)).get g, ?_, fun q hlt => ?_⟩
    · simp only [hullSum, hg, Option.bind_some, add]
      rw [if_pos (by rw [hl, hl2]; exact h m (by omega))]
      rfl
    · have hlt' : q < (W m).len := by rw [h m (by omega)]; exact hlt
      rw [(axpy_at 1 _ g).1 q hlt', smulR, mapR_get _ _ _ hlt', hq q hlt, Finset.sum_range_succ]
      ring

theorem hullSum_len (m : Nat) (s : El) (h : hullSum junk W a m = some s) : s.len = (W 0).row := by
  induction m generalizing s with
  | zero => simp only [hullSum, Option.some.injEq] at h; subst h; simp [mk, El.len]
  | succ m ih =>
    simp only [hullSum, Option.bind_eq_some_iff, add] at h
    obtain ⟨t, ht, h⟩ := h
    split at h
    · cases h; exact ih t ht
    · cases h

theorem hullSum_none (m i : Nat) (hi : i < m) (h : (W i).len ≠ (W 0).row) : hullSum junk W a m = none := by
  induction m with
  | zero => omega
  | succ m ih =>
    by_cases hlt : i < m
    · simp [hullSum, ih hlt]
    · obtain rfl : i = m := by omega
      cases hs : hullSum junk W a i with
      | none => simp [hullSum, hs]
      | some s =>
        simp only [hullSum, hs, Option.bind_some, add]
        rw [if_neg]
        rw [hullSum_len i s hs]; exact h

/-- **C182.** If every vector has as many numbers as the first one has rows, the value is the squared length of the combination with the squares of `x`, and the gradient entries are
those of the derivative. -/
theorem C182_value (junk : Nat → ℝ) (W : Nat → El) (m : Nat) (x : Nat → ℝ) (h : ∀ i < m, (W i).len = (W 0).row) :
    hullF junk W m x = some (∑ q ∈ Finset.range (W 0).row, (∑ i ∈ Finset.range m, x i ^ 2 * (W i).get q) ^ 2) ∧
    ∀ i < m, hullGrad junk W m x i =
      some (4 * x i * ∑ q ∈ Finset.range (W 0).row, (W i).get q * ∑ j ∈ Finset.range m, x j ^ 2 * (W j).get q) := by
  obtain ⟨g, hg, hq⟩ := hullSum_some (junk := junk) (a := fun i => x i * x i) m h
  have hl2 : (mk false (W 0).row 1 1 g).len = (W 0).row := by simp [mk, El.len]
  refine ⟨?_, fun i hi => ?_⟩
  · simp only [hullF, hg, Option.bind_some, dotProduct, if_true, hl2, dot, Option.some.injEq]
    refine Finset.sum_congr rfl fun q hm => ?_
    have := hq q (Finset.mem_range.mp hm)
    simp only [mk, this, ← pow_two]
  · simp only [hullGrad, hg, Option.bind_some, dotProduct, hl2, h i hi, if_true, dot, Option.map_some, Option.some.injEq]
    congr 1
    refine Finset.sum_congr rfl fun q hm => ?_
    have := hq q (Finset.mem_range.mp hm)
    simp only [mk, this, ← pow_two]

/-- **C182.** If one of the vectors has another number of entries than the first one has rows, the function has no value at any point (a failed assertion), nor has its gradient. -/
theorem C182_refused (junk : Nat → ℝ) (W : Nat → El) (m i : Nat) (hi : i < m) (h : (W i).len ≠ (W 0).row) (x : Nat → ℝ) :
    hullF junk W m x = none ∧ ∀ j, hullGrad junk W m x j = none := by
  simp [hullF, hullGrad, hullSum_none m i hi h]

/-- **C182.** For a positive number of vectors, all made by the constructor with the same `r > 0` rows, `c` columns and `k` slices, the subproblem can be evaluated exactly if they
are real and have one column and one slice. -/
theorem C182_shapes (junk : Nat → ℝ) (cplx : Bool) (r c k : Nat) (hr : 0 < r) (v : Nat → Nat → ℝ) (m : Nat) (hm : 0 < m) (x : Nat → ℝ) :
    (hullF junk (fun i => mk cplx r c k (v i)) m x).isSome = true ↔ cplx = false ∧ c = 1 ∧ k = 1 := by
  have hrow : ∀ i, (mk cplx r c k (v i)).row = r := fun i => row_mk _ _ _ _ _
  have hlen : ∀ i, (mk cplx r c k (v i)).len = (if cplx then 2 * r else r) * c * k := fun i => rfl
  have key : (if cplx then 2 * r else r) * c * k = r ↔ cplx = false ∧ c = 1 ∧ k = 1 := by
    cases cplx with
    | false =>
      simp only [Bool.false_eq_true, if_false, true_and]
      rw [mul_assoc]
      constructor
      · intro e
        have h1 : c * k = 1 := Nat.eq_of_mul_eq_mul_left hr (by omega)
        exact ⟨Nat.eq_one_of_mul_eq_one_right h1, Nat.eq_one_of_mul_eq_one_left h1⟩
      · rintro ⟨rfl, rfl⟩; simp
    | true =>
      simp only [if_true, Bool.true_eq_false, false_and, iff_false]
      intro e
      rw [mul_assoc, mul_comm 2 r, mul_assoc] at e
      have h1 : 2 * (c * k) = 1 := Nat.eq_of_mul_eq_mul_left hr (by omega)
      omega
  rw [← key]
  constructor
  · intro h
    by_contra hne
    rw [(C182_refused junk (fun i => mk cplx r c k (v i)) m 0 hm (by simp only [hrow, hlen]; exact hne) x).1] at h
    cases h
  · intro e
    rw [(C182_value junk (fun i => mk cplx r c k (v i)) m x fun i _ => by simp only [hrow, hlen]; exact e).1]
    rfl

/-- Two columns of length three are accepted; two matrices with three rows and two columns, tangent vectors of a Stiefel manifold, are not. -/
example (junk : Nat → ℝ) (v : Nat → Nat → ℝ) (x : Nat → ℝ) : (hullF junk (fun i => mk false 3 1 1 (v i)) 2 x).isSome = true ∧
    hullF junk (fun i => mk false 3 2 1 (v i)) 2 x = none := by
  refine ⟨(C182_shapes junk false 3 1 1 (by decide) v 2 (by decide) x).mpr ⟨rfl, rfl, rfl⟩, ?_⟩
  rw [← Option.not_isSome_iff_eq_none, C182_shapes junk false 3 2 1 (by decide) v 2 (by decide) x]
  decide

end Verif.Dense
