import Verif.Elem.Layout
import Mathlib.Algebra.Group.Defs

/-!
# C10, C11: transposition and blocks
-/

set_option linter.unusedVariables false

namespace Verif.Elem

variable {V : Type}

/-! ## C10 -/

/-- **C10.** `GetTranspose` of a real matrix: the shape is swapped and entry `(j,i)` of the result is entry `(i,j)` of the argument, whatever new memory
contains. -/
theorem C10_transpose_entries (junk : Nat → V) (x : Mat V) :
    (transpose junk x).s0 = x.s1 ∧ (transpose junk x).s1 = x.s0 ∧
      ∀ i < x.s0, ∀ j < x.s1, (transpose junk x).entry j i = x.entry i j := by
  refine ⟨rfl, rfl, fun i hi j hj => ?_⟩
  show writeAll junk (transposeWrites x) (j + i * x.s1) = x.get (i + j * x.s0)
  apply writeAll_of_mem
  · simp only [transposeWrites, mem_forN]
    exact ⟨i, hi, j, hj, List.mem_singleton.mpr rfl⟩
  · intro y hy
    simp only [transposeWrites, mem_forN, List.mem_singleton, Prod.mk.injEq] at hy
    obtain ⟨i', hi', j', hj', e, rfl⟩ := hy
    obtain ⟨rfl, rfl⟩ := colMajor_inj hj hj' e
    rfl

/-- **C10.** All writes of `GetTranspose` stay within the buffer of the result. -/
theorem C10_transpose_in_bounds (x : Mat V) : ∀ w ∈ transposeWrites x, w.1 < x.s1 * x.s0 := by
  intro w hw
  simp only [transposeWrites, mem_forN, List.mem_singleton] at hw
  obtain ⟨i, hi, j, hj, rfl⟩ := hw
  exact colMajor_lt hj hi

/-- **C10.** Transposing twice gives back every entry of the buffer. -/
theorem C10_transpose_involution (junk junk' : Nat → V) (x : Mat V) :
    (transpose junk' (transpose junk x)).s0 = x.s0 ∧ (transpose junk' (transpose junk x)).s1 = x.s1 ∧
      ∀ p < x.s0 * x.s1, (transpose junk' (transpose junk x)).get p = x.get p := by
  refine ⟨rfl, rfl, fun p hp => ?_⟩
  obtain ⟨i, hi, j, hj, rfl⟩ := colMajor_surj hp
  have h1 := (C10_transpose_entries junk' (transpose junk x)).2.2 j hj i hi
  have h2 := (C10_transpose_entries junk x).2.2 i hi j hj
  exact h1.trans h2

/-- Column-major indices of a complex matrix: two positions per entry. -/
theorem colMajorC_inj {m i j i' j' b b' : Nat} (hi : i < m) (hi' : i' < m) (hb : b < 2) (hb' : b' < 2)
    (h : 2 * i + b + j * (2 * m) = 2 * i' + b' + j' * (2 * m)) : i = i' ∧ j = j' ∧ b = b' := by
  obtain ⟨h1, h2⟩ := colMajor_inj (m := 2 * m) (i := 2 * i + b) (i' := 2 * i' + b') (by omega) (by omega) h
  exact ⟨by omega, h2, by omega⟩

/-- **C10.** `GetTranspose` of a complex matrix with `m` rows is the conjugate transpose. -/
theorem C10_conj_transpose_entries [Neg V] (junk : Nat → V) (x : Mat V) (m : Nat) (hm : x.s0 = 2 * m) :
    (transposeC junk x).s0 = 2 * x.s1 ∧ (transposeC junk x).s1 = m ∧
      ∀ i < m, ∀ j < x.s1, (transposeC junk x).re j i = x.re i j ∧ (transposeC junk x).im j i = - x.im i j := by
  have hdiv : x.s0 / 2 = m := by omega
  refine ⟨by simp [transposeC, Nat.mul_comm], by simp [transposeC, hdiv], fun i hi j hj => ⟨?_, ?_⟩⟩
  · show writeAll junk (transposeCWrites x) (2 * j + i * (x.s1 * 2)) = x.get (2 * i + j * x.s0)
    apply writeAll_of_mem
    · simp only [transposeCWrites, mem_forN, hdiv]
      refine ⟨j, hj, i, hi, ?_⟩
      rw [hm]
      apply List.mem_cons.mpr; left
      rw [Prod.mk.injEq]
      exact ⟨by congr 1; ac_rfl, by congr 1; ac_rfl⟩
    · intro y hy
      simp only [transposeCWrites, mem_forN, hdiv, List.mem_cons, Prod.mk.injEq, List.not_mem_nil, or_false] at hy
      obtain ⟨j', hj', i', hi', ⟨e, rfl⟩ | ⟨e, rfl⟩⟩ := hy
      · obtain ⟨rfl, rfl, _⟩ := colMajorC_inj (m := x.s1) (b := 0) (b' := 0) hj hj' (by omega) (by omega)
          (j := i) (j' := i') (by rw [show i * (2 * x.s1) = i * (x.s1 * 2) by ac_rfl, show i' * (2 * x.s1) = 2 * i' * x.s1 by ac_rfl]; exact e)
        rw [hm]; congr 1; ac_rfl
      · obtain ⟨_, _, hb⟩ := colMajorC_inj (m := x.s1) (b := 0) (b' := 1) hj hj' (by omega) (by omega)
          (j := i) (j' := i') (by rw [show i * (2 * x.s1) = i * (x.s1 * 2) by ac_rfl, show i' * (2 * x.s1) = 2 * i' * x.s1 by ac_rfl]; exact e)
        omega
  · show writeAll junk (transposeCWrites x) (2 * j + 1 + i * (x.s1 * 2)) = - x.get (2 * i + 1 + j * x.s0)
    apply writeAll_of_mem
    · simp only [transposeCWrites, mem_forN, hdiv]
      refine ⟨j, hj, i, hi, ?_⟩
      rw [hm]
      apply List.mem_cons.mpr; right
      apply List.mem_singleton.mpr
      rw [Prod.mk.injEq]
      exact ⟨by congr 1; ac_rfl, by congr 2; ac_rfl⟩
    · intro y hy
      simp only [transposeCWrites, mem_forN, hdiv, List.mem_cons, Prod.mk.injEq, List.not_mem_nil, or_false] at hy
      obtain ⟨j', hj', i', hi', ⟨e, rfl⟩ | ⟨e, rfl⟩⟩ := hy
      · obtain ⟨_, _, hb⟩ := colMajorC_inj (m := x.s1) (b := 1) (b' := 0) hj hj' (by omega) (by omega)
          (j := i) (j' := i') (by rw [show i * (2 * x.s1) = i * (x.s1 * 2) by ac_rfl, show i' * (2 * x.s1) = 2 * i' * x.s1 by ac_rfl]; exact e)
        omega
      · obtain ⟨rfl, rfl, _⟩ := colMajorC_inj (m := x.s1) (b := 1) (b' := 1) hj hj' (by omega) (by omega)
          (j := i) (j' := i') (by rw [show i * (2 * x.s1) = i * (x.s1 * 2) by ac_rfl, show i' * (2 * x.s1) = 2 * i' * x.s1 by ac_rfl]; exact e)
        rw [hm]; congr 2; ac_rfl

/-- **C10.** All writes of the complex branch stay within the buffer of the result. -/
theorem C10_conj_transpose_in_bounds [Neg V] (x : Mat V) (m : Nat) (hm : x.s0 = 2 * m) :
    ∀ w ∈ transposeCWrites x, w.1 < 2 * x.s1 * m := by
  have hdiv : x.s0 / 2 = m := by omega
  intro w hw
  simp only [transposeCWrites, mem_forN, hdiv, List.mem_cons, List.not_mem_nil, or_false] at hw
  obtain ⟨i, hi, j, hj, rfl | rfl⟩ := hw
  · have := colMajor_lt (m := 2 * x.s1) (n := m) (i := 2 * i) (j := j) (by omega) hj
    show 2 * i + 2 * j * x.s1 < _
    rwa [show 2 * j * x.s1 = j * (2 * x.s1) by ac_rfl]
  · have := colMajor_lt (m := 2 * x.s1) (n := m) (i := 2 * i + 1) (j := j) (by omega) hj
    show 2 * i + 1 + 2 * j * x.s1 < _
    rwa [show 2 * j * x.s1 = j * (2 * x.s1) by ac_rfl]

/-- **C10.** The conjugate transpose is an involution. -/
theorem C10_conj_transpose_involution [InvolutiveNeg V] (junk junk' : Nat → V) (x : Mat V) (m : Nat) (hm : x.s0 = 2 * m) :
    ∀ i < m, ∀ j < x.s1, (transposeC junk' (transposeC junk x)).re i j = x.re i j ∧
      (transposeC junk' (transposeC junk x)).im i j = x.im i j := by
  intro i hi j hj
  obtain ⟨a1, a2, a3⟩ := C10_conj_transpose_entries junk x m hm
  obtain ⟨b1, b2, b3⟩ := C10_conj_transpose_entries junk' (transposeC junk x) x.s1 a1
  have h1 := b3 j hj i (by rw [a2]; exact hi)
  have h2 := a3 i hi j hj
  exact ⟨h1.1.trans h2.1, by rw [h1.2, h2.2, neg_neg]⟩

/-! ## C11 -/

/-- **C11.** `GetSubmatrix` returns exactly the requested block of a real matrix. -/
theorem C11_submatrix_entries (junk : Nat → V) (x : Mat V) (rs re cs ce : Nat) :
    (submatrix junk x rs re cs ce).s0 = re + 1 - rs ∧ (submatrix junk x rs re cs ce).s1 = ce + 1 - cs ∧
      ∀ i j, rs ≤ i → i ≤ re → cs ≤ j → j ≤ ce → (submatrix junk x rs re cs ce).entry (i - rs) (j - cs) = x.entry i j := by
  refine ⟨rfl, rfl, fun i j h1 h2 h3 h4 => ?_⟩
  show writeAll junk (submatrixWrites x rs re cs ce) ((i - rs) + (j - cs) * (re + 1 - rs)) = x.get (i + j * x.s0)
  apply writeAll_of_mem
  · simp only [submatrixWrites, mem_forRange]
    exact ⟨j, h3, h4, i, h1, h2, List.mem_singleton.mpr rfl⟩
  · intro y hy
    simp only [submatrixWrites, mem_forRange, List.mem_singleton, Prod.mk.injEq] at hy
    obtain ⟨j', h3', h4', i', h1', h2', e, rfl⟩ := hy
    obtain ⟨e1, e2⟩ := colMajor_inj (by omega) (by omega) e
    have : i = i' := by omega
    have : j = j' := by omega
    subst_vars; rfl

/-- **C11.** For blocks within the matrix all reads and writes of `GetSubmatrix` are within bounds. -/
theorem C11_submatrix_in_bounds (x : Mat V) (rs re cs ce : Nat) (hr : re < x.s0) (hc : ce < x.s1) :
    (∀ w ∈ submatrixWrites x rs re cs ce, w.1 < (re + 1 - rs) * (ce + 1 - cs)) ∧
      ∀ i j, rs ≤ i → i ≤ re → cs ≤ j → j ≤ ce → i + j * x.s0 < x.s0 * x.s1 := by
  constructor
  · intro w hw
    simp only [submatrixWrites, mem_forRange, List.mem_singleton] at hw
    obtain ⟨j, h3, h4, i, h1, h2, rfl⟩ := hw
    exact colMajor_lt (by omega) (by omega)
  · intro i j _ h2 _ h4
    exact colMajor_lt (by omega) (by omega)

/-- **C11.** Assigning a block and reading it back returns the block, for shared and unshared receivers. -/
theorem C11_assign_then_read (junk junk' : Nat → V) (shared : Bool) (x mat : Mat V) (rs re cs ce : Nat)
    (hr : re < x.s0) (hrow : mat.s0 = re + 1 - rs) :
    ∀ i < re + 1 - rs, ∀ j < ce + 1 - cs,
      (submatrix junk' (assignBlock junk shared x mat rs re cs ce) rs re cs ce).entry i j = mat.entry i j := by
  intro i hi j hj
  have h := (C11_submatrix_entries junk' (assignBlock junk shared x mat rs re cs ce) rs re cs ce).2.2 (rs + i) (cs + j)
    (by omega) (by omega) (by omega) (by omega)
  simp only [Nat.add_sub_cancel_left] at h
  rw [h]
  show writeAll _ (assignWrites x mat rs re cs ce) ((rs + i) + (cs + j) * x.s0) = mat.get (i + j * mat.s0)
  apply writeAll_of_mem
  · simp only [assignWrites, mem_forRange]
    refine ⟨cs + j, by omega, by omega, rs + i, by omega, by omega, ?_⟩
    apply List.mem_singleton.mpr
    rw [Nat.add_sub_cancel_left, Nat.add_sub_cancel_left]
  · intro y hy
    simp only [assignWrites, mem_forRange, List.mem_singleton, Prod.mk.injEq] at hy
    obtain ⟨j', h3', h4', i', h1', h2', e, rfl⟩ := hy
    obtain ⟨e1, e2⟩ := colMajor_inj (m := x.s0) (by omega) (by omega) e
    have a : i' - rs = i := by omega
    have b : j' - cs = j := by omega
    rw [a, b]

/-- **C11.** Assigning a block to an unshared object changes no entry outside the block. (For a shared one see C05.) -/
theorem C11_assign_outside (junk : Nat → V) (x mat : Mat V) (rs re cs ce : Nat) (hr : re < x.s0) :
    ∀ i < x.s0, ∀ j, ¬ (rs ≤ i ∧ i ≤ re ∧ cs ≤ j ∧ j ≤ ce) →
      (assignBlock junk false x mat rs re cs ce).entry i j = x.entry i j := by
  intro i hi j hn
  show writeAll _ (assignWrites x mat rs re cs ce) (i + j * x.s0) = x.get (i + j * x.s0)
  rw [writeAll_of_not_mem]
  · rfl
  · intro y hy
    simp only [assignWrites, mem_forRange, List.mem_singleton, Prod.mk.injEq] at hy
    obtain ⟨j', h3', h4', i', h1', h2', e, rfl⟩ := hy
    obtain ⟨e1, e2⟩ := colMajor_inj (m := x.s0) hi (by omega) e
    subst e1 e2
    exact hn ⟨h1', h2', h3', h4'⟩

/-- **C11.** Reading a block and assigning it back changes nothing (unshared receiver). -/
theorem C11_read_then_assign (junk junk' : Nat → V) (x : Mat V) (rs re cs ce : Nat) (hr : re < x.s0) :
    ∀ p < x.s0 * x.s1, (assignBlock junk false x (submatrix junk' x rs re cs ce) rs re cs ce).get p = x.get p := by
  intro p hp
  obtain ⟨i, hi, j, hj, rfl⟩ := colMajor_surj hp
  by_cases hin : rs ≤ i ∧ i ≤ re ∧ cs ≤ j ∧ j ≤ ce
  · obtain ⟨h1, h2, h3, h4⟩ := hin
    show writeAll _ (assignWrites x (submatrix junk' x rs re cs ce) rs re cs ce) (i + j * x.s0) = x.get (i + j * x.s0)
    apply writeAll_of_mem
    · simp only [assignWrites, mem_forRange]
      refine ⟨j, h3, h4, i, h1, h2, ?_⟩
      apply List.mem_singleton.mpr
      rw [Prod.mk.injEq]
      exact ⟨rfl, ((C11_submatrix_entries junk' x rs re cs ce).2.2 i j h1 h2 h3 h4).symm⟩
    · intro y hy
      simp only [assignWrites, mem_forRange, List.mem_singleton, Prod.mk.injEq] at hy
      obtain ⟨j', h3', h4', i', h1', h2', e, rfl⟩ := hy
      obtain ⟨rfl, rfl⟩ := colMajor_inj (m := x.s0) hi (by omega) e
      exact (C11_submatrix_entries junk' x rs re cs ce).2.2 i j h1 h2 h3 h4
  · exact C11_assign_outside junk x _ rs re cs ce hr i hi j hin

/-- **C11.** `GetSubmatrix` of a complex matrix. -/
theorem C11_submatrixC_entries (junk : Nat → V) (x : Mat V) (rs re cs ce : Nat) :
    ∀ i j, rs ≤ i → i ≤ re → cs ≤ j → j ≤ ce →
      (submatrixC junk x rs re cs ce).re (i - rs) (j - cs) = x.re i j ∧
      (submatrixC junk x rs re cs ce).im (i - rs) (j - cs) = x.im i j := by
  intro i j h1 h2 h3 h4
  have key : ∀ (b b' i' j' : Nat), b < 2 → b' < 2 → rs ≤ i' → i' ≤ re → cs ≤ j' →
      2 * (i - rs) + b + (j - cs) * ((re + 1 - rs) * 2) = 2 * (i' - rs) + b' + (j' - cs) * (re + 1 - rs) * 2 →
      i = i' ∧ j = j' ∧ b = b' := by
    intro b b' i' j' hb hb' h1' h2' h3' e
    obtain ⟨e1, e2, e3⟩ := colMajorC_inj (m := re + 1 - rs) (i := i - rs) (i' := i' - rs) (j := j - cs) (j' := j' - cs) (b := b) (b' := b')
      (by omega) (by omega) hb hb' (by
        rw [Nat.mul_comm 2 (re + 1 - rs), e]
        congr 1
        ac_rfl)
    exact ⟨by omega, by omega, e3⟩
  constructor
  · show writeAll junk (submatrixCWrites x rs re cs ce) (2 * (i - rs) + (j - cs) * ((re + 1 - rs) * 2)) = x.get (2 * i + j * x.s0)
    apply writeAll_of_mem
    · simp only [submatrixCWrites, mem_forRange]
      refine ⟨j, h3, h4, i, h1, h2, List.mem_cons.mpr (Or.inl ?_)⟩
      rw [Nat.mul_assoc]
    · intro y hy
      simp only [submatrixCWrites, mem_forRange, List.mem_cons, Prod.mk.injEq, List.not_mem_nil, or_false] at hy
      obtain ⟨j', h3', h4', i', h1', h2', ⟨e, rfl⟩ | ⟨e, rfl⟩⟩ := hy
      · obtain ⟨rfl, rfl, _⟩ := key 0 0 i' j' (by omega) (by omega) h1' h2' h3' e
        rfl
      · obtain ⟨_, _, hb⟩ := key 0 1 i' j' (by omega) (by omega) h1' h2' h3' e
        omega
  · show writeAll junk (submatrixCWrites x rs re cs ce) (2 * (i - rs) + 1 + (j - cs) * ((re + 1 - rs) * 2)) = x.get (2 * i + 1 + j * x.s0)
    apply writeAll_of_mem
    · simp only [submatrixCWrites, mem_forRange]
      refine ⟨j, h3, h4, i, h1, h2, List.mem_cons.mpr (Or.inr (List.mem_singleton.mpr ?_))⟩
      rw [Nat.mul_assoc]
    · intro y hy
      simp only [submatrixCWrites, mem_forRange, List.mem_cons, Prod.mk.injEq, List.not_mem_nil, or_false] at hy
      obtain ⟨j', h3', h4', i', h1', h2', ⟨e, rfl⟩ | ⟨e, rfl⟩⟩ := hy
      · obtain ⟨_, _, hb⟩ := key 1 0 i' j' (by omega) (by omega) h1' h2' h3' e
        omega
      · obtain ⟨rfl, rfl, _⟩ := key 1 1 i' j' (by omega) (by omega) h1' h2' h3' e
        rfl

/-- **C11.** Assigning a complex block and reading it back returns the block. -/
theorem C11_assignC_then_read (junk junk' : Nat → V) (shared : Bool) (x mat : Mat V) (m rs re cs ce : Nat)
    (hm : x.s0 = 2 * m) (hr : re < m) (hrow : mat.s0 = 2 * (re + 1 - rs)) :
    ∀ i < re + 1 - rs, ∀ j < ce + 1 - cs,
      (submatrixC junk' (assignBlockC junk shared x mat rs re cs ce) rs re cs ce).re i j = mat.re i j ∧
      (submatrixC junk' (assignBlockC junk shared x mat rs re cs ce) rs re cs ce).im i j = mat.im i j := by
  intro i hi j hj
  have h := C11_submatrixC_entries junk' (assignBlockC junk shared x mat rs re cs ce) rs re cs ce (rs + i) (cs + j)
    (by omega) (by omega) (by omega) (by omega)
  simp only [Nat.add_sub_cancel_left] at h
  have hdiv : mat.s0 / 2 = re + 1 - rs := by omega
  have key : ∀ (b b' i' j' : Nat), b < 2 → b' < 2 → rs ≤ i' → i' ≤ re → cs ≤ j' →
      2 * (rs + i) + b + (cs + j) * x.s0 = 2 * i' + b' + j' * x.s0 → rs + i = i' ∧ cs + j = j' ∧ b = b' := by
    intro b b' i' j' hb hb' h1' h2' h3' e
    rw [hm] at e
    exact colMajorC_inj (m := m) (by omega) (by omega) hb hb' e
  constructor
  · rw [h.1]
    show writeAll _ (assignCWrites x mat rs re cs ce) (2 * (rs + i) + (cs + j) * x.s0) = mat.get (2 * i + j * mat.s0)
    apply writeAll_of_mem
    · simp only [assignCWrites, mem_forRange]
      refine ⟨cs + j, by omega, by omega, rs + i, by omega, by omega, List.mem_cons.mpr (Or.inl ?_)⟩
      rw [Nat.add_sub_cancel_left, Nat.add_sub_cancel_left, hdiv, hrow]
      congr 3; ac_rfl
    · intro y hy
      simp only [assignCWrites, mem_forRange, List.mem_cons, Prod.mk.injEq, List.not_mem_nil, or_false] at hy
      obtain ⟨j', h3', h4', i', h1', h2', ⟨e, rfl⟩ | ⟨e, rfl⟩⟩ := hy
      · obtain ⟨rfl, rfl, _⟩ := key 0 0 i' j' (by omega) (by omega) h1' h2' h3' e
        rw [Nat.add_sub_cancel_left, Nat.add_sub_cancel_left, hdiv, hrow]
        congr 2; ac_rfl
      · obtain ⟨_, _, hb⟩ := key 0 1 i' j' (by omega) (by omega) h1' h2' h3' e
        omega
  · rw [h.2]
    show writeAll _ (assignCWrites x mat rs re cs ce) (2 * (rs + i) + 1 + (cs + j) * x.s0) = mat.get (2 * i + 1 + j * mat.s0)
    apply writeAll_of_mem
    · simp only [assignCWrites, mem_forRange]
      refine ⟨cs + j, by omega, by omega, rs + i, by omega, by omega, List.mem_cons.mpr (Or.inr (List.mem_singleton.mpr ?_))⟩
      rw [Nat.add_sub_cancel_left, Nat.add_sub_cancel_left, hdiv, hrow]
      congr 3; ac_rfl
    · intro y hy
      simp only [assignCWrites, mem_forRange, List.mem_cons, Prod.mk.injEq, List.not_mem_nil, or_false] at hy
      obtain ⟨j', h3', h4', i', h1', h2', ⟨e, rfl⟩ | ⟨e, rfl⟩⟩ := hy
      · obtain ⟨_, _, hb⟩ := key 1 0 i' j' (by omega) (by omega) h1' h2' h3' e
        omega
      · obtain ⟨rfl, rfl, _⟩ := key 1 1 i' j' (by omega) (by omega) h1' h2' h3' e
        rw [Nat.add_sub_cancel_left, Nat.add_sub_cancel_left, hdiv, hrow]
        congr 2; ac_rfl

/-! Concrete cases. -/

/-- A 2 x 3 matrix: `[1 3 5; 2 4 6]`. -/
def exMat : Mat Int := ⟨2, 3, fun p => p + 1⟩

example : (List.range 6).map (transpose (fun _ => 0) exMat).get = [1, 3, 5, 2, 4, 6] := by decide

example : (List.range 4).map (submatrix (fun _ => 0) exMat 0 1 1 2).get = [3, 4, 5, 6] := by decide

/-- The hypotheses of `C11_assign_then_read` are met by writing a 1 x 2 block. -/
example : (List.range 6).map (assignBlock (fun _ => 0) false exMat ⟨1, 2, fun p => 10 * p + 10⟩ 1 1 1 2).get = [1, 2, 3, 10, 5, 20] := by decide

/-- A 1 x 2 complex matrix `[1+2i, 3+4i]`. -/
def exC : Mat Int := ⟨2, 2, fun p => p + 1⟩

example : (List.range 4).map (transposeC (fun _ => 0) exC).get = [1, -2, 3, -4] := by decide

end Verif.Elem
