import Verif.Others.FFT
import Mathlib.Algebra.Field.GeomSum

/-!
# C115: the Fourier transform of elements
-/

namespace Verif.FFT

open Finset

/-! ## Specification -/

/-- Entry of the one-dimensional transform matrix. -/
noncomputable def dft (s : ℝ) (n a i : ℕ) : ℂ := Complex.exp ((s * (2 * Real.pi * ((a : ℝ) * i / n)) : ℝ) * Complex.I)

/-! ## Lemmas -/

theorem dft_mul (s : ℝ) (n m a i b j : ℕ) :
    Complex.exp ((s * (2 * Real.pi * ((b : ℝ) * j / m + (a : ℝ) * i / n)) : ℝ) * Complex.I) = dft s n a i * dft s m b j := by
  rw [dft, dft, ← Complex.exp_add]
  congr 1
  push_cast
  ring

theorem dft_comm (s : ℝ) (n a i : ℕ) : dft s n a i = dft s n i a := by
  unfold dft; rw [mul_comm (a : ℝ)]

theorem dft_conj (s : ℝ) (n a i : ℕ) : (starRingEnd ℂ) (dft s n a i) = dft (-s) n a i := by
  unfold dft
  rw [← Complex.exp_conj, map_mul, Complex.conj_I, Complex.conj_ofReal]
  congr 1
  push_cast
  ring

/-- Rows of the transform matrix are orthogonal. -/
theorem dft_orth {s : ℝ} (hs : s = 1 ∨ s = -1) {n a b : ℕ} (ha : a < n) (hb : b < n) : ∑ i ∈ range n, dft (-s) n a i * dft s n i b = if a = b then (n : ℂ) else 0 := by
  have hn : (0 : ℝ) < n := by exact_mod_cast (by omega : 0 < n)
  set z : ℂ := Complex.exp ((s * (2 * Real.pi * (((b : ℝ) - a) / n)) : ℝ) * Complex.I) with hz
  have hterm : ∀ i, dft (-s) n a i * dft s n i b = z ^ i := by
    intro i
    rw [hz, ← Complex.exp_nat_mul, dft, dft, ← Complex.exp_add]
    congr 1
    push_cast
    ring
  rw [sum_congr rfl fun i _ => hterm i]
  by_cases hab : a = b
  · subst hab
    have : z = 1 := by rw [hz]; simp
    rw [this, if_pos rfl]
    simp
  · rw [if_neg hab]
    have hzn : z ^ n = 1 := by
      rw [hz, ← Complex.exp_nat_mul, Complex.exp_eq_one_iff]
      rcases hs with rfl | rfl
      · refine ⟨(b : ℤ) - a, ?_⟩
        push_cast
        have : (n : ℂ) ≠ 0 := by exact_mod_cast hn.ne'
        field_simp
      · refine ⟨(a : ℤ) - b, ?_⟩
        push_cast
        have : (n : ℂ) ≠ 0 := by exact_mod_cast hn.ne'
        field_simp
        ring
    have hz1 : z ≠ 1 := by
      intro h
      rw [hz, Complex.exp_eq_one_iff] at h
      obtain ⟨m, hm⟩ := h
      have h2 : (s * (2 * Real.pi * (((b : ℝ) - a) / n)) : ℝ) = m * (2 * Real.pi) := by
        have h3 : ((s * (2 * Real.pi * (((b : ℝ) - a) / n)) : ℝ) : ℂ) * Complex.I = ((m * (2 * Real.pi) : ℝ) : ℂ) * Complex.I := by
          rw [hm]; push_cast; ring
        exact_mod_cast mul_right_cancel₀ Complex.I_ne_zero h3
      have h4 : s * ((b : ℝ) - a) = m * n := by
        have hp := Real.pi_pos
        have h5 : s * (2 * Real.pi * (((b : ℝ) - a) / n)) = 2 * Real.pi / n * (s * ((b : ℝ) - a)) := by ring
        rw [h5] at h2
        have h6 : 2 * Real.pi / n * (s * ((b : ℝ) - a)) = 2 * Real.pi / n * (m * n) := by rw [h2]; field_simp
        exact mul_left_cancel₀ (by positivity) h6
      have hint : (b : ℤ) - a = m * n ∨ (a : ℤ) - b = m * n := by
        rcases hs with rfl | rfl
        · left
          rw [one_mul] at h4
          exact_mod_cast h4
        · right
          have : (a : ℝ) - b = m * n := by linarith
          exact_mod_cast this
      have hd : (n : ℤ) ∣ (b : ℤ) - a := by
        rcases hint with h | h
        · exact ⟨m, by rw [h]; ring⟩
        · exact ⟨-m, by linarith⟩
      have habs : |(b : ℤ) - a| < n := by rw [abs_lt]; constructor <;> omega
      have := Int.eq_zero_of_abs_lt_dvd hd habs
      omega
    rw [geom_sum_eq hz1, hzn]
    simp

/-- Sums over the positions of a column-major matrix. -/
theorem sum_pos (n1 n2 : ℕ) (g : ℕ → ℂ) : ∑ p ∈ range (n1 * n2), g p = ∑ j ∈ range n2, ∑ i ∈ range n1, g (j * n1 + i) := by
  induction n2 with
  | zero => simp
  | succ n ih =>
    rw [Nat.mul_succ, sum_range_add, ih, sum_range_succ]
    congr 1
    exact sum_congr rfl fun i _ => by rw [mul_comm]

/-! ## C115 -/

/-- **C115.** The transform of an element is the two-dimensional transform of the column-major matrix it holds: `F_{n1} X F_{n2}ᵀ` with the unnormalised one-dimensional transform matrices. -/
theorem C115_fft_is_matrix_transform (s : ℝ) {n1 n2 a b : ℕ} (ha : a < n1) (v : ℕ → ℂ) :
    getFFT2D s n1 n2 v (a + b * n1) = ∑ i ∈ range n1, ∑ j ∈ range n2, dft s n1 a i * v (i + j * n1) * dft s n2 b j := by
  have hp : 0 < n1 := by omega
  have h1 : (a + b * n1) / n1 = b := by rw [Nat.add_mul_div_right _ _ hp, Nat.div_eq_of_lt ha, zero_add]
  have h2 : (a + b * n1) % n1 = a := by rw [Nat.add_mul_mod_self_right, Nat.mod_eq_of_lt ha]
  unfold getFFT2D fftwPlan2d
  rw [h1, h2, sum_comm]
  refine sum_congr rfl fun i _ => sum_congr rfl fun j _ => ?_
  rw [dft_mul, add_comm (j * n1)]
  ring

/-- **C115.** A forward followed by a backward transform (or conversely) multiplies every entry by the number of entries. -/
theorem C115_round_trip {s : ℝ} (hs : s = 1 ∨ s = -1) {n1 n2 p : ℕ} (hp : p < n1 * n2) (v : ℕ → ℂ) : getFFT2D (-s) n1 n2 (getFFT2D s n1 n2 v) p = (n1 * n2 : ℕ) * v p := by
  have h1 : 0 < n1 := Nat.pos_of_ne_zero (by rintro rfl; simp at hp)
  obtain ⟨a, b, ha, hb, rfl⟩ : ∃ a b, a < n1 ∧ b < n2 ∧ p = a + b * n1 :=
    ⟨p % n1, p / n1, Nat.mod_lt _ h1, by rw [Nat.div_lt_iff_lt_mul h1, mul_comm]; exact hp, by rw [mul_comm]; exact (Nat.mod_add_div _ _).symm⟩
  rw [C115_fft_is_matrix_transform _ ha]
  have hin : ∀ i ∈ range n1, ∀ j ∈ range n2, dft (-s) n1 a i * getFFT2D s n1 n2 v (i + j * n1) * dft (-s) n2 b j =
      ∑ i' ∈ range n1, ∑ j' ∈ range n2, v (i' + j' * n1) * ((dft (-s) n1 a i * dft s n1 i i') * (dft (-s) n2 b j * dft s n2 j j')) := by
    intro i hi j hj
    rw [C115_fft_is_matrix_transform _ (mem_range.mp hi), mul_sum, sum_mul]
    refine sum_congr rfl fun i' _ => ?_
    rw [mul_sum, sum_mul]
    exact sum_congr rfl fun j' _ => by ring
  rw [sum_congr rfl fun i hi => sum_congr rfl fun j hj => hin i hi j hj]
  have hsw : ∑ i ∈ range n1, ∑ j ∈ range n2, ∑ i' ∈ range n1, ∑ j' ∈ range n2, v (i' + j' * n1) * ((dft (-s) n1 a i * dft s n1 i i') * (dft (-s) n2 b j * dft s n2 j j')) =
      ∑ i' ∈ range n1, ∑ j' ∈ range n2, v (i' + j' * n1) * ((∑ i ∈ range n1, dft (-s) n1 a i * dft s n1 i i') * (∑ j ∈ range n2, dft (-s) n2 b j * dft s n2 j j')) := by
    rw [sum_congr rfl fun i _ => sum_comm, sum_comm]
    refine sum_congr rfl fun i' _ => ?_
    rw [sum_congr rfl fun i _ => sum_comm, sum_comm]
    refine sum_congr rfl fun j' _ => ?_
    rw [sum_mul_sum, mul_sum]
    exact sum_congr rfl fun i _ => by rw [mul_sum]
  rw [hsw]
  have hδ : ∀ i' ∈ range n1, ∀ j' ∈ range n2, v (i' + j' * n1) * ((∑ i ∈ range n1, dft (-s) n1 a i * dft s n1 i i') * (∑ j ∈ range n2, dft (-s) n2 b j * dft s n2 j j')) =
      if i' = a then (if j' = b then v (a + b * n1) * (n1 * n2) else 0) else 0 := by
    intro i' hi j' hj
    rw [dft_orth hs ha (mem_range.mp hi), dft_orth hs hb (mem_range.mp hj)]
    by_cases e1 : i' = a
    · by_cases e2 : j' = b
      · subst e1 e2; simp
      · rw [if_neg e2, if_neg (Ne.symm e2)]; simp
    · rw [if_neg e1, if_neg (Ne.symm e1)]; simp
  rw [sum_congr rfl fun i hi => sum_congr rfl fun j hj => hδ i hi j hj]
  rw [sum_eq_single_of_mem a (mem_range.mpr ha) (fun i _ hi => by simp [hi])]
  simp only [if_true]
  rw [sum_eq_single_of_mem b (mem_range.mpr hb) (fun j _ hj => by simp [hj])]
  simp only [if_true]
  push_cast
  ring

/-- **C115.** The backward transform is the adjoint of the forward one for the complex inner product. -/
theorem C115_adjoint (s : ℝ) (n1 n2 : ℕ) (u v : ℕ → ℂ) :
    ∑ p ∈ range (n1 * n2), (starRingEnd ℂ) (u p) * getFFT2D s n1 n2 v p = ∑ p ∈ range (n1 * n2), (starRingEnd ℂ) (getFFT2D (-s) n1 n2 u p) * v p := by
  rw [sum_pos, sum_pos]
  have hl : ∀ b ∈ range n2, ∀ a ∈ range n1, (starRingEnd ℂ) (u (b * n1 + a)) * getFFT2D s n1 n2 v (b * n1 + a) =
      ∑ i ∈ range n1, ∑ j ∈ range n2, (starRingEnd ℂ) (u (b * n1 + a)) * dft s n1 a i * dft s n2 b j * v (j * n1 + i) := by
    intro b _ a ha
    rw [add_comm (b * n1), C115_fft_is_matrix_transform _ (mem_range.mp ha), mul_sum]
    refine sum_congr rfl fun i _ => ?_
    rw [mul_sum]
    exact sum_congr rfl fun j _ => by rw [add_comm i]; ring
  have hr : ∀ j ∈ range n2, ∀ i ∈ range n1, (starRingEnd ℂ) (getFFT2D (-s) n1 n2 u (j * n1 + i)) * v (j * n1 + i) =
      ∑ a ∈ range n1, ∑ b ∈ range n2, (starRingEnd ℂ) (u (b * n1 + a)) * dft s n1 a i * dft s n2 b j * v (j * n1 + i) := by
    intro j _ i hi
    rw [show getFFT2D (-s) n1 n2 u (j * n1 + i) = getFFT2D (-s) n1 n2 u (i + j * n1) by rw [add_comm], C115_fft_is_matrix_transform _ (mem_range.mp hi), map_sum, sum_mul]
    refine sum_congr rfl fun a _ => ?_
    rw [map_sum, sum_mul]
    refine sum_congr rfl fun b _ => ?_
    rw [map_mul, map_mul, dft_conj, dft_conj, neg_neg, dft_comm s n1 i, dft_comm s n2 j, add_comm a]
    ring
  rw [sum_congr rfl fun b hb => sum_congr rfl fun a ha => hl b hb a ha, sum_congr rfl fun j hj => sum_congr rfl fun i hi => hr j hj i hi]
  -- exchange the two pairs of sums
  have e1 : ∀ F : ℕ → ℕ → ℕ → ℕ → ℂ, ∑ b ∈ range n2, ∑ a ∈ range n1, ∑ i ∈ range n1, ∑ j ∈ range n2, F b a i j = ∑ j ∈ range n2, ∑ i ∈ range n1, ∑ a ∈ range n1, ∑ b ∈ range n2, F b a i j := by
    intro F
    rw [sum_congr rfl fun b _ => sum_congr rfl fun a _ => sum_comm]
    rw [sum_congr rfl fun b _ => sum_comm]
    rw [sum_comm]
    refine sum_congr rfl fun j _ => ?_
    rw [sum_congr rfl fun b _ => sum_comm]
    rw [sum_comm]
    refine sum_congr rfl fun i _ => ?_
    rw [sum_comm]
  exact e1 _

/-- **C115.** Up to the factor `n1 n2` the transform preserves the norm. -/
theorem C115_parseval {s : ℝ} (hs : s = 1 ∨ s = -1) (n1 n2 : ℕ) (v : ℕ → ℂ) :
    ∑ p ∈ range (n1 * n2), Complex.normSq (getFFT2D s n1 n2 v p) = (n1 * n2 : ℕ) * ∑ p ∈ range (n1 * n2), Complex.normSq (v p) := by
  have h := C115_adjoint s n1 n2 (getFFT2D s n1 n2 v) v
  have h2 : ((∑ p ∈ range (n1 * n2), Complex.normSq (getFFT2D s n1 n2 v p) : ℝ) : ℂ) = (((n1 * n2 : ℕ) * ∑ p ∈ range (n1 * n2), Complex.normSq (v p) : ℝ) : ℂ) := by
    rw [Complex.ofReal_mul, Complex.ofReal_sum, Complex.ofReal_sum]
    simp only [Complex.normSq_eq_conj_mul_self]
    rw [h, mul_sum]
    refine sum_congr rfl fun p hp => ?_
    rw [C115_round_trip hs (mem_range.mp hp), map_mul, Complex.conj_natCast]
    push_cast
    ring
  exact_mod_cast h2

/-- **C115.** The transform used by the model of blind deconvolution is this one. -/
theorem C115_blind_deconvolution (s : ℝ) (n1 n2 : ℕ) (v : ℕ → ℂ) : BlindDecon.fft s n1 n2 v = getFFT2D s n1 n2 v := by
  funext p
  rw [BlindDecon.fft, sum_pos]
  unfold getFFT2D fftwPlan2d
  refine sum_congr rfl fun j _ => sum_congr rfl fun i hi => ?_
  have hi := mem_range.mp hi
  have hp : 0 < n1 := by omega
  have h1 : (j * n1 + i) / n1 = j := by rw [add_comm, Nat.add_mul_div_right _ _ hp, Nat.div_eq_of_lt hi, zero_add]
  have h2 : (j * n1 + i) % n1 = i := by rw [add_comm, Nat.add_mul_mod_self_right, Nat.mod_eq_of_lt hi]
  rw [BlindDecon.kernel, h1, h2, mul_comm]
  congr 2
  push_cast
  ring

/-- A `2 × 3` example: round trip. -/
example (v : ℕ → ℂ) : getFFT2D 1 2 3 (getFFT2D (-1) 2 3 v) 4 = 6 * v 4 := by
  have := C115_round_trip (s := -1) (Or.inr rfl) (show 4 < 2 * 3 by norm_num) v
  simpa using this

end Verif.FFT
