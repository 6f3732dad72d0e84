import Verif.Elem.Slices
import Verif.Props.Layout
import Mathlib.Logic.Nontrivial.Defs

/-!
# C179: the transpose of an array with several slices is that of its first slice
-/

namespace Verif.Elem

variable {V : Type}

/-- Two arrays are equal as far as their buffers go. -/
def Arr3.Same (x y : Arr3 V) : Prop := x.mat.s0 = y.mat.s0 ∧ x.mat.s1 = y.mat.s1 ∧ x.num = y.num ∧ ∀ p < x.length, x.mat.get p = y.mat.get p

/-- **C179.** The transpose has one slice, whose entries are those of the first slice of the array. -/
theorem C179_entries (junk : Nat → V) (x : Arr3 V) :
    (transpose3 junk x).length = x.mat.s1 * x.mat.s0 ∧
      ∀ i < x.mat.s0, ∀ j < x.mat.s1, (transpose3 junk x).entry j i 0 = x.entry i j 0 := by
  refine ⟨by simp [transpose3, Arr3.length, transpose], fun i hi j hj => ?_⟩
  have := (C10_transpose_entries junk x.mat).2.2 i hi j hj
  simpa [transpose3, Arr3.entry, Mat.entry] using this

/-- **C179.** Arrays that agree in the first slice have the same transpose. -/
theorem C179_first_slice (junk junk' : Nat → V) (x y : Arr3 V) (h0 : x.mat.s0 = y.mat.s0) (h1 : x.mat.s1 = y.mat.s1)
    (h : ∀ p < x.mat.s0 * x.mat.s1, x.mat.get p = y.mat.get p) : (transpose3 junk x).Same (transpose3 junk' y) := by
  refine ⟨h1, h0, rfl, fun p hp => ?_⟩
  rw [(C179_entries junk x).1] at hp
  obtain ⟨j, hj, i, hi, rfl⟩ := colMajor_surj hp
  have e1 := (C179_entries junk x).2 i hi j hj
  have e2 := (C179_entries junk' y).2 i (h0 ▸ hi) j (h1 ▸ hj)
  simp only [Arr3.entry, transpose3, transpose, Nat.zero_mul, Nat.add_zero] at e1 e2 ⊢
  rw [← h1, ← h0] at e2
  rw [e1, e2]
  exact h _ (colMajor_lt hi hj)

/-- **C179.** With two slices or more the transpose does not determine the array: some other array of the same shape has the same transpose. -/
theorem C179_loses [Nontrivial V] (junk junk' : Nat → V) (x : Arr3 V) (h0 : 0 < x.mat.s0) (h1 : 0 < x.mat.s1) (hn : 2 ≤ x.num) :
    ∃ y : Arr3 V, y.mat.s0 = x.mat.s0 ∧ y.mat.s1 = x.mat.s1 ∧ y.num = x.num ∧ ¬ x.Same y ∧ (transpose3 junk x).Same (transpose3 junk' y) := by
  obtain ⟨v, hv⟩ := exists_ne (x.mat.get (x.mat.s0 * x.mat.s1))
  refine ⟨⟨⟨x.mat.s0, x.mat.s1, Function.update x.mat.get (x.mat.s0 * x.mat.s1) v⟩, x.num⟩, rfl, rfl, rfl, ?_, ?_⟩
  · rintro ⟨-, -, -, h⟩
    have hpos : 0 < x.mat.s0 * x.mat.s1 := Nat.mul_pos h0 h1
    have := h (x.mat.s0 * x.mat.s1) (by unfold Arr3.length; have := Nat.mul_le_mul_left (x.mat.s0 * x.mat.s1) hn; omega)
    exact hv (this.trans (Function.update_self ..)).symm
  · refine C179_first_slice junk junk' _ _ rfl rfl fun p hp => ?_
    exact (Function.update_of_ne (Nat.ne_of_lt hp) _ _).symm

/-- **C179.** Transposing twice gives back the array exactly when it is a matrix. -/
theorem C179_involution (junk junk' : Nat → V) (x : Arr3 V) : (transpose3 junk' (transpose3 junk x)).Same x ↔ x.num = 1 := by
  refine ⟨fun h => h.2.2.1.symm, fun hn => ?_⟩
  obtain ⟨a, b, c⟩ := C10_transpose_involution junk junk' x.mat
  refine ⟨a, b, hn.symm, fun p hp => c p ?_⟩
  have : (transpose3 junk' (transpose3 junk x)).length = x.mat.s0 * x.mat.s1 := by simp [Arr3.length, transpose3, transpose]
  rwa [this] at hp

/-- **C179.** Complex arrays: the transpose has one slice, the conjugate transpose of the first one. -/
theorem C179_complex [Neg V] (junk : Nat → V) (x : Arr3 V) (m : Nat) (hm : x.mat.s0 = 2 * m) :
    (transpose3C junk x).length = 2 * x.mat.s1 * m ∧
      ∀ i < m, ∀ j < x.mat.s1, (transpose3C junk x).entry (2 * j) i 0 = x.entry (2 * i) j 0 ∧
        (transpose3C junk x).entry (2 * j + 1) i 0 = - x.entry (2 * i + 1) j 0 := by
  obtain ⟨a, b, c⟩ := C10_conj_transpose_entries junk x.mat m hm
  refine ⟨?_, fun i hi j hj => ?_⟩
  · simp only [Arr3.length, transpose3C]
    rw [a, b, Nat.mul_one]
  · have := c i hi j hj
    simpa [transpose3C, Arr3.entry, Mat.re, Mat.im] using this

/-- **C179.** `SubmatrixAssignment` writes to the first slice; the others stay when the receiver owns its memory and are undefined when it shares it. -/
theorem C179_assign (junk : Nat → V) (shared : Bool) (x : Arr3 V) (mat : Mat V) (rs re cs ce : Nat) (hr : re < x.mat.s0) (hc : ce < x.mat.s1)
    (i j k : Nat) (hk : 1 ≤ k) :
    (assign3 junk shared x mat rs re cs ce).entry i j k = if shared then junk (i + j * x.mat.s0 + k * (x.mat.s0 * x.mat.s1)) else x.entry i j k := by
  have hge : x.mat.s0 * x.mat.s1 ≤ i + j * x.mat.s0 + k * (x.mat.s0 * x.mat.s1) :=
    Nat.le_trans (Nat.le_mul_of_pos_left _ hk) (Nat.le_add_left _ _)
  show writeAll (if shared then junk else x.mat.get) (assignWrites x.mat mat rs re cs ce) (i + j * x.mat.s0 + k * (x.mat.s0 * x.mat.s1)) = _
  rw [writeAll_of_not_mem]
  · cases shared <;> rfl
  · intro v hv
    simp only [assignWrites, mem_forRange, List.mem_singleton, Prod.mk.injEq] at hv
    obtain ⟨j', -, hj', i', -, hi', e, -⟩ := hv
    have := colMajor_lt (Nat.lt_of_le_of_lt hi' hr) (Nat.lt_of_le_of_lt hj' hc)
    omega

/-- A `1 x 2 x 2` array: the transpose is `2 x 1`, the last two entries are lost. -/
example : (transpose3 (fun _ => 0) ⟨⟨1, 2, fun p => p + 1⟩, 2⟩).length = 2 ∧
    (List.range 2).map (transpose3 (fun _ => 0) ⟨⟨1, 2, fun p => p + 1⟩, 2⟩).mat.get = [1, 2] := by decide

/-- Hypotheses of `C179_loses`. -/
example : ∃ y : Arr3 Nat, ¬ (⟨⟨1, 2, fun p => p + 1⟩, 2⟩ : Arr3 Nat).Same y ∧
    (transpose3 (fun _ => 0) ⟨⟨1, 2, fun p => p + 1⟩, 2⟩).Same (transpose3 (fun _ => 0) y) := by
  have : Nontrivial Nat := ⟨0, 1, by decide⟩
  obtain ⟨y, -, -, -, h⟩ := C179_loses (fun _ => 0) (fun _ => 0) (⟨⟨1, 2, fun p => p + 1⟩, 2⟩ : Arr3 Nat) (by decide) (by decide) (by decide)
  exact ⟨y, h⟩

/-- Hypotheses of `C179_assign`. -/
example : (assign3 (fun _ => 7) false ⟨⟨1, 2, fun p => p + 1⟩, 2⟩ ⟨1, 1, fun _ => 9⟩ 0 0 1 1).entry 0 1 1 = 4 ∧
    (assign3 (fun _ => 7) true ⟨⟨1, 2, fun p => p + 1⟩, 2⟩ ⟨1, 1, fun _ => 9⟩ 0 0 1 1).entry 0 1 1 = 7 := by
  constructor <;> rw [C179_assign _ _ _ _ _ _ _ _ (by decide) (by decide) _ _ _ (Nat.le_refl 1)] <;> rfl

end Verif.Elem
