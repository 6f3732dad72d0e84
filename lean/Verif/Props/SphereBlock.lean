import Verif.Manifold.SphereBlock
import Mathlib.Data.Rat.Defs
import Mathlib.Tactic.Ring

/-!
# C65: transporting an operator on one factor of a product manifold
-/

set_option linter.unusedVariables false
set_option linter.unusedSectionVars false

namespace Verif.SphereBlock

open Verif.Elem

variable {K : Type} [Field K]

/-- Entry `(i, j)` of an `ell × ell` column-major matrix. -/
def entry (ell : Nat) (A : Buf K) (i j : Nat) : K := A.at_ (i + j * ell)

/-- The entries written by `ger`, for a block that fits in the columns. -/
theorem ger_entry {m n ell r0 c0 : Nat} {alpha : K} {u v A B : Buf K} (hm : r0 + m ≤ ell)
    (h : ger m n alpha u v A (r0 + c0 * ell) ell = some B) {i j : Nat} (hi : i < ell) :
    B.len = A.len ∧ entry ell B i j =
      if r0 ≤ i ∧ i < r0 + m ∧ c0 ≤ j ∧ j < c0 + n then entry ell A i j + alpha * u.at_ (i - r0) * v.at_ (j - c0) else entry ell A i j := by
  unfold ger at h
  split at h
  · cases h
    refine ⟨rfl, ?_⟩
    have key : ∀ i' j', i' < m → r0 + c0 * ell + i' + j' * ell = i + j * ell → i = r0 + i' ∧ j = c0 + j' := by
      intro i' j' h1 h2
      have h3 : i + j * ell = (r0 + i') + (c0 + j') * ell := by rw [← h2, Nat.add_mul]; omega
      exact colMajor_inj hi (by omega) h3
    by_cases hc : r0 ≤ i ∧ i < r0 + m ∧ c0 ≤ j ∧ j < c0 + n
    · rw [if_pos hc]
      obtain ⟨a1, a2, a3, a4⟩ := hc
      have hidx : r0 + c0 * ell + (i - r0) + (j - c0) * ell = i + j * ell := by
        have : (j - c0) * ell + c0 * ell = j * ell := by rw [← Nat.add_mul, Nat.sub_add_cancel a3]
        omega
      apply writeAll_of_mem
      · rw [mem_forN]
        refine ⟨j - c0, by omega, ?_⟩
        rw [mem_forN]
        refine ⟨i - r0, by omega, ?_⟩
        rw [hidx]
        exact List.mem_singleton.mpr rfl
      · intro y hy
        rw [mem_forN] at hy
        obtain ⟨j', h1, hy⟩ := hy
        rw [mem_forN] at hy
        obtain ⟨i', h2, hy⟩ := hy
        rw [List.mem_singleton, Prod.mk.injEq] at hy
        obtain ⟨e1, e2⟩ := key i' j' h2 hy.1.symm
        rw [hy.2, ← hy.1, show i - r0 = i' by omega, show j - c0 = j' by omega]
        rfl
    · rw [if_neg hc]
      apply writeAll_of_not_mem
      intro y hy
      rw [mem_forN] at hy
      obtain ⟨j', h1, hy⟩ := hy
      rw [mem_forN] at hy
      obtain ⟨i', h2, hy⟩ := hy
      rw [List.mem_singleton, Prod.mk.injEq] at hy
      obtain ⟨e1, e2⟩ := key i' j' h2 hy.1.symm
      exact hc ⟨by omega, by omega, by omega, by omega⟩
  · cases h

/-- Index of the last entry of a block. -/
theorem block_last {ell r c : Nat} (hr : r < ell) (hc : c < ell) : r + c * ell < ell * ell := colMajor_lt hr hc

/-- **C65.** The left factor is right for every block: rows `start … start+length−1` become `(I + s (x+y) yᵀ) H`, the other rows stay, and no access is out of bounds. -/
theorem C65_left_block (ell length start : Nat) (s : K) (H y xpy : Buf K) (hH : H.len = ell * ell) (hy : y.len = length) (hx : xpy.len = length)
    (hfit : start + length ≤ ell) :
    ∃ B, expTranH ell length start s H y xpy = some B ∧ B.len = ell * ell ∧ ∀ i j, i < ell → j < ell →
      entry ell B i j = if start ≤ i ∧ i < start + length then
        entry ell H i j + s * xpy.at_ (i - start) * ∑ k ∈ Finset.range length, entry ell H (start + k) j * y.at_ k else entry ell H i j := by
  have hb : length = 0 ∨ ell = 0 ∨ start + (length - 1) + (ell - 1) * ell < H.len := by
    rcases Nat.eq_zero_or_pos length with h | h
    · exact Or.inl h
    · refine Or.inr (Or.inr ?_)
      rw [hH]
      exact block_last (by omega) (by omega)
  have h1 : gemvT length ell H start ell y = some ⟨ell, fun j => ∑ i ∈ Finset.range length, H.at_ (start + i + j * ell) * y.at_ i⟩ := by
    unfold gemvT
    rw [if_pos ⟨Or.inl (by omega), hb⟩]
  have h2 : ∃ B, ger length ell s xpy ⟨ell, fun j => ∑ i ∈ Finset.range length, H.at_ (start + i + j * ell) * y.at_ i⟩ H start ell = some B := by
    unfold ger
    rw [if_pos ⟨Or.inl (by omega), Or.inl (le_refl _), hb⟩]
    exact ⟨_, rfl⟩
  obtain ⟨B, hB⟩ := h2
  refine ⟨B, by rw [expTranH, h1, Option.bind_some, hB], ?_, ?_⟩
  · unfold ger at hB
    split at hB
    · cases hB; exact hH
    · cases hB
  · intro i j hi hj
    have hB' : ger length ell s xpy ⟨ell, fun j => ∑ i ∈ Finset.range length, H.at_ (start + i + j * ell) * y.at_ i⟩ H (start + 0 * ell) ell = some B := by
      rw [Nat.zero_mul, Nat.add_zero]; exact hB
    rw [(ger_entry hfit hB' hi).2]
    by_cases hc : start ≤ i ∧ i < start + length
    · rw [if_pos ⟨hc.1, hc.2, Nat.zero_le _, by omega⟩, if_pos hc]
      rfl
    · rw [if_neg (fun h => hc ⟨h.1, h.2.1⟩), if_neg hc]

/-- **C65 (partial).** When the sphere is the whole manifold (`start = 0`, `length = ell`) the right factor is `H (I + s (x+y) xᵀ)`. For a proper factor see
`C65_right_block_out_of_bounds`. -/
theorem C65_right_whole_partial (ell : Nat) (s : K) (H x xpy : Buf K) (hH : H.len = ell * ell) (hx : x.len = ell) (hxy : xpy.len = ell) :
    ∃ B, expHInvTran ell ell 0 s H x xpy = some B ∧ B.len = ell * ell ∧ ∀ i j, i < ell → j < ell →
      entry ell B i j = entry ell H i j + s * (∑ k ∈ Finset.range ell, entry ell H i k * xpy.at_ k) * x.at_ j := by
  have hb : ell = 0 ∨ ell = 0 ∨ 0 * ell + (ell - 1) + (ell - 1) * ell < H.len := by
    rcases Nat.eq_zero_or_pos ell with h | h
    · exact Or.inl h
    · refine Or.inr (Or.inr ?_)
      rw [hH, Nat.zero_mul, Nat.zero_add]
      exact block_last (by omega) (by omega)
  have h1 : gemvN ell ell H (0 * ell) ell xpy = some ⟨ell, fun i => ∑ j ∈ Finset.range ell, H.at_ (0 * ell + i + j * ell) * xpy.at_ j⟩ := by
    unfold gemvN
    rw [if_pos ⟨Or.inl (by omega), hb⟩]
  have h2 : ∃ B, ger ell ell s ⟨ell, fun i => ∑ j ∈ Finset.range ell, H.at_ (0 * ell + i + j * ell) * xpy.at_ j⟩ x H (0 * ell) ell = some B := by
    unfold ger
    rw [if_pos ⟨Or.inl (le_refl _), Or.inl (by omega), hb⟩]
    exact ⟨_, rfl⟩
  obtain ⟨B, hB⟩ := h2
  refine ⟨B, by rw [expHInvTran, h1, Option.bind_some, hB], ?_, ?_⟩
  · unfold ger at hB
    split at hB
    · cases hB; exact hH
    · cases hB
  · intro i j hi hj
    have hB' : ger ell ell s ⟨ell, fun i => ∑ j ∈ Finset.range ell, H.at_ (0 * ell + i + j * ell) * xpy.at_ j⟩ x H (0 + 0 * ell) ell = some B := by
      rw [Nat.zero_add]; exact hB
    rw [(ger_entry (by omega) hB' hi).2, if_pos ⟨Nat.zero_le _, by omega, Nat.zero_le _, by omega⟩]
    simp only [entry, Nat.zero_mul, Nat.zero_add, Nat.sub_zero]

/-- **C65 (finding).** For a proper, nonempty factor (`0 < length < ell`) the right factor always reads the point outside its buffer: `ger_` is told `ell` columns but `x`
has `length` entries. -/
theorem C65_right_block_out_of_bounds (ell length start : Nat) (s : K) (H x xpy : Buf K) (hx : x.len = length) (h0 : 0 < length) (h1 : length < ell) :
    expHInvTran ell length start s H x xpy = none := by
  unfold expHInvTran
  cases gemvN ell length H (start * ell) ell xpy with
  | none => rfl
  | some v =>
    rw [Option.bind_some, ger, if_neg]
    rintro ⟨_, h, _⟩
    omega

/-- Even if the read outside `x` were harmless, for a factor not at the beginning the write leaves the operator. -/
theorem C65_right_block_writes_outside (ell length start : Nat) (s : K) (H u v : Buf K) (hH : H.len = ell * ell) (h0 : 0 < length) (h1 : 0 < start)
    (hell : 0 < ell) : ger length ell s u v H (start * ell) ell = none := by
  unfold ger
  rw [if_neg]
  rintro ⟨_, _, h⟩
  rcases h with h | h | h
  · omega
  · omega
  · rw [hH] at h
    have h2 : ell ≤ start * ell := Nat.le_mul_of_pos_left _ h1
    have h3 : (ell - 1) * ell = ell * ell - ell := by rw [Nat.sub_mul, Nat.one_mul]
    have h4 : ell ≤ ell * ell := Nat.le_mul_of_pos_left _ hell
    omega

/-- The hypotheses of `C65_left_block` with a proper factor: a circle as the second factor of a five-dimensional product. -/
example : ∃ B, expTranH 5 2 3 (-1 : ℚ) ⟨25, fun i => i⟩ ⟨2, fun i => i⟩ ⟨2, fun i => i + 1⟩ = some B ∧ entry 5 B 4 0 = 4 + (-1) * 2 * 4 := by
  obtain ⟨B, h1, _, h2⟩ := C65_left_block 5 2 3 (-1 : ℚ) ⟨25, fun i => i⟩ ⟨2, fun i => i⟩ ⟨2, fun i => i + 1⟩ rfl rfl rfl (by omega)
  refine ⟨B, h1, ?_⟩
  rw [h2 4 0 (by omega) (by omega)]
  decide +kernel

/-- and with the sphere as the whole manifold. -/
example : ∃ B, expHInvTran 3 3 0 (-1 : ℚ) ⟨9, fun i => i⟩ ⟨3, fun i => i⟩ ⟨3, fun i => i + 1⟩ = some B :=
  (C65_right_whole_partial 3 (-1 : ℚ) ⟨9, fun i => i⟩ ⟨3, fun i => i⟩ ⟨3, fun i => i + 1⟩ rfl rfl rfl).imp fun _ h => h.1

end Verif.SphereBlock
