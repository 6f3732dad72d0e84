import Verif.Elem.Pivots
import Verif.Props.Layout

/-!
# C180: the pivots of an LU decomposition fit in the memory reserved for them, except in a single precision mex file
-/

namespace Verif.Elem

variable {B : Type}

theorem pivots_in_bounds (byte : Int → Nat → B) (piv : Nat → Int) (si sr k : Nat) (hs : 0 < si) (hk : 0 < k) :
    (∀ w ∈ pivotWrites byte si k piv, w.1 < k * sr) ↔ si ≤ sr := by
  constructor
  · intro h
    -- the last byte of the last pivot
    have h1 := h (si - 1 + (k - 1) * si, byte (piv (k - 1)) (si - 1)) (by
      simp only [pivotWrites, mem_forN, List.mem_singleton]
      exact ⟨k - 1, by omega, si - 1, by omega, rfl⟩)
    obtain ⟨n, rfl⟩ : ∃ n, k = n + 1 := ⟨k - 1, by omega⟩
    simp only [Nat.add_sub_cancel] at h1
    by_contra hlt
    have h2 : (n + 1) * sr ≤ (n + 1) * (si - 1) := Nat.mul_le_mul_left _ (by omega)
    have h3 : (n + 1) * (si - 1) ≤ n * si + (si - 1) := by
      rw [Nat.add_mul, Nat.one_mul]
      exact Nat.add_le_add_right (Nat.mul_le_mul_left _ (by omega)) _
    omega
  · intro h w hw
    simp only [pivotWrites, mem_forN, List.mem_singleton] at hw
    obtain ⟨i, hi, j, hj, rfl⟩ := hw
    have h1 : j + i * si < si * k := colMajor_lt hj hi
    have h2 : si * k ≤ k * sr := by rw [Nat.mul_comm]; exact Nat.mul_le_mul_left _ h
    exact Nat.lt_of_lt_of_le h1 h2

/-- **C180.** The decomposition of a nonempty matrix of any order stays within the memory of the pivots exactly if the library is not a mex file in single precision. -/
theorem C180_fits (byte : Int → Nat → B) (junk : Nat → B) (p : Precision) (pl : Platform) (k : Nat) (hk : 0 < k) (piv : Nat → Int) :
    (storePivots byte junk p pl k piv).isSome = true ↔ ¬ (p = .single ∧ pl = .mex) := by
  have hs : 0 < sizeInt pl := by cases pl <;> decide
  have h := pivots_in_bounds byte piv (sizeInt pl) (sizeReal p) k hs hk
  have e : (storePivots byte junk p pl k piv).isSome = true ↔ sizeInt pl ≤ sizeReal p := by
    rw [← h]
    unfold storePivots
    split
    · rename_i hb; simpa using hb
    · rename_i hb; simpa using hb
  rw [e]
  cases p <;> cases pl <;> decide

/-- **C180.** Where they fit, the integers read back are the pivots that were written, whatever the memory held before. -/
theorem C180_read (byte : Int → Nat → B) (junk : Nat → B) (p : Precision) (pl : Platform) (k : Nat) (piv : Nat → Int) (mem : Nat → B)
    (h : storePivots byte junk p pl k piv = some mem) : ∀ i < k, ∀ j < sizeInt pl, mem (j + i * sizeInt pl) = byte (piv i) j := by
  unfold storePivots at h
  split at h
  · cases h
    intro i hi j hj
    refine writeAll_of_mem _ _ _ _ ?_ ?_
    · simp only [pivotWrites, mem_forN, List.mem_singleton]
      exact ⟨i, hi, j, hj, rfl⟩
    · intro y hy
      simp only [pivotWrites, mem_forN, List.mem_singleton, Prod.mk.injEq] at hy
      obtain ⟨i', hi', j', hj', e, rfl⟩ := hy
      obtain ⟨rfl, rfl⟩ := colMajor_inj hj hj' e
      rfl
  · cases h

/-- Double precision on Linux fits, the single precision mex file does not. -/
example (byte : Int → Nat → Nat) (piv : Nat → Int) : (storePivots byte (fun _ => 0) .double .other 3 piv).isSome = true ∧
    storePivots byte (fun _ => 0) .single .mex 1 piv = none := by
  refine ⟨(C180_fits byte _ .double .other 3 (by decide) piv).mpr (by decide), ?_⟩
  rw [← Option.not_isSome_iff_eq_none, C180_fits byte _ .single .mex 1 (by decide) piv]
  decide

end Verif.Elem
