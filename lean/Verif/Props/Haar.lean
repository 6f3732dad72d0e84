import Verif.Elem.HaarLemmas
import Mathlib.Analysis.Real.Sqrt

/-!
# C12: the Haar wavelet transform

Stated for all dimensions, not only powers of two.
-/

namespace Verif.Elem

variable {K : Type} [Field K]

/-- **C12.** `GetInvHaarFWT(GetHaarFWT(x)) = x`, for all dimensions and all entries. -/
theorem C12_inverse_after_forward {r2 : K} (h : r2 * r2 = 2) (h2 : (2 : K) ≠ 0) (n1 n2 : Nat) (v : Nat → Cplx K) :
    ∀ p < n1 * n2, invHaar r2 n1 n2 (haar r2 n1 n2 v) p = v p := by
  obtain ⟨L1, e1, hL1⟩ := levels_exist n1
  obtain ⟨L2, e2, hL2⟩ := levels_exist n2
  have hA : View n1 n2 v (fun i j => v (i + j * n1)) := fun _ _ _ _ => rfl
  have := invHaar_view (r2 := r2) hL1 hL2 (haar_view (r2 := r2) e1 hL1 e2 hL2 hA)
  intro p hp
  obtain ⟨i, hi, j, hj, rfl⟩ := colMajor_surj hp
  rw [this i hi j hj]
  simp only [GL_FL h h2]

/-- **C12.** `GetHaarFWT(GetInvHaarFWT(x)) = x`. -/
theorem C12_forward_after_inverse {r2 : K} (h : r2 * r2 = 2) (h2 : (2 : K) ≠ 0) (n1 n2 : Nat) (v : Nat → Cplx K) :
    ∀ p < n1 * n2, haar r2 n1 n2 (invHaar r2 n1 n2 v) p = v p := by
  obtain ⟨L1, e1, hL1⟩ := levels_exist n1
  obtain ⟨L2, e2, hL2⟩ := levels_exist n2
  have hA : View n1 n2 v (fun i j => v (i + j * n1)) := fun _ _ _ _ => rfl
  have := haar_view (r2 := r2) e1 hL1 e2 hL2 (invHaar_view (r2 := r2) hL1 hL2 hA)
  intro p hp
  obtain ⟨i, hi, j, hj, rfl⟩ := colMajor_surj hp
  rw [this i hi j hj]
  simp only [FL_GL h h2]

/-- **C12.** The transform preserves the Euclidean norm (sum of squared moduli of all entries). -/
theorem C12_norm_preserved {r2 : K} (h : r2 * r2 = 2) (h2 : (2 : K) ≠ 0) (n1 n2 : Nat) (v : Nat → Cplx K) :
    ∑ p ∈ Finset.range (n1 * n2), ((haar r2 n1 n2 v p).1 ^ 2 + (haar r2 n1 n2 v p).2 ^ 2) =
      ∑ p ∈ Finset.range (n1 * n2), ((v p).1 ^ 2 + (v p).2 ^ 2) := by
  obtain ⟨L1, e1, hL1⟩ := levels_exist n1
  obtain ⟨L2, e2, hL2⟩ := levels_exist n2
  have hA : View n1 n2 v (fun i j => v (i + j * n1)) := fun _ _ _ _ => rfl
  have hv := haar_view (r2 := r2) e1 hL1 e2 hL2 hA
  have hm : ∀ z : Cplx K, z.1 ^ 2 + z.2 ^ 2 = modSq z := fun z => by unfold modSq; ring
  simp only [hm]
  rw [sum_flat, sum_flat]
  calc ∑ j ∈ Finset.range n2, ∑ i ∈ Finset.range n1, modSq (haar r2 n1 n2 v (i + j * n1))
      = ∑ j ∈ Finset.range n2, ∑ i ∈ Finset.range n1, modSq (FL r2 L2 (fun j' => FL r2 L1 (fun i' => v (i' + j' * n1)) i) j) := by
        apply Finset.sum_congr rfl; intro j hj
        apply Finset.sum_congr rfl; intro i hi
        rw [hv i (Finset.mem_range.mp hi) j (Finset.mem_range.mp hj)]
    _ = ∑ i ∈ Finset.range n1, ∑ j ∈ Finset.range n2, modSq (FL r2 L1 (fun i' => v (i' + j * n1)) i) := by
        rw [Finset.sum_comm]
        apply Finset.sum_congr rfl; intro i _
        exact sum_FL h h2 L2 _ hL2.2
    _ = _ := by
        rw [Finset.sum_comm]
        apply Finset.sum_congr rfl; intro j _
        exact sum_FL h h2 L1 _ hL1.2

/-- Real arithmetic meets the hypotheses. -/
example : Real.sqrt 2 * Real.sqrt 2 = 2 ∧ (2 : ℝ) ≠ 0 := ⟨Real.mul_self_sqrt (by norm_num), by norm_num⟩

/-- The transform of a 3 x 2 array (the third row is not part of a block) over any field. -/
example (r2 : K) (v : Nat → Cplx K) :
    (List.range 6).map (haar r2 3 2 v) =
      [avg r2 (avg r2 (v 0) (v 1)) (avg r2 (v 3) (v 4)), avg r2 (dif r2 (v 0) (v 1)) (dif r2 (v 3) (v 4)), avg r2 (v 2) (v 5),
       dif r2 (avg r2 (v 0) (v 1)) (avg r2 (v 3) (v 4)), dif r2 (dif r2 (v 0) (v 1)) (dif r2 (v 3) (v 4)), dif r2 (v 2) (v 5)] := by
  rfl

end Verif.Elem
