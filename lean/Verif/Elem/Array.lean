import Mathlib.Logic.Function.Basic

/-!
# Loops that fill an array

Most loops of `Manifolds/Element.cpp` read from one buffer and write to another. Such a loop is a sequence of writes `(index, value)` whose values do not
depend on earlier writes; it is modelled by that sequence, applied in order. A buffer is a function from indices to entries; its length is kept apart and
bounds are the subject of theorems about the index sequence.
-/

namespace Verif.Elem

variable {V : Type}

/-- Performs the writes in order; `a[i] = x`. -/
def writeAll (a : Nat → V) : List (Nat × V) → (Nat → V)
  | [] => a
  | (i, x) :: l => writeAll (Function.update a i x) l

/-- `for (i = 0; i < n; i++) body(i)`, the body being a sequence of writes. -/
def forN (n : Nat) (body : Nat → List (Nat × V)) : List (Nat × V) := (List.range n).flatMap body

/-- `for (i = lo; i <= hi; i++) body(i)`. -/
def forRange (lo hi : Nat) (body : Nat → List (Nat × V)) : List (Nat × V) :=
  (List.range (hi + 1 - lo)).flatMap (fun d => body (lo + d))

theorem mem_forN {n : Nat} {body : Nat → List (Nat × V)} {w : Nat × V} : w ∈ forN n body ↔ ∃ i < n, w ∈ body i := by
  simp [forN, List.mem_flatMap]

theorem mem_forRange {lo hi : Nat} {body : Nat → List (Nat × V)} {w : Nat × V} :
    w ∈ forRange lo hi body ↔ ∃ i, lo ≤ i ∧ i ≤ hi ∧ w ∈ body i := by
  simp only [forRange, List.mem_flatMap, List.mem_range]
  constructor
  · rintro ⟨d, h1, h2⟩
    exact ⟨lo + d, by omega, by omega, h2⟩
  · rintro ⟨i, h1, h2, h3⟩
    exact ⟨i - lo, by omega, by rw [Nat.add_sub_cancel' h1]; exact h3⟩

theorem writeAll_of_not_mem (a : Nat → V) (l : List (Nat × V)) (p : Nat) (h : ∀ x, (p, x) ∉ l) : writeAll a l p = a p := by
  induction l generalizing a with
  | nil => rfl
  | cons w l ih =>
    obtain ⟨i, y⟩ := w
    have hne : p ≠ i := by
      intro e
      exact h y (by rw [e]; exact List.mem_cons_self)
    rw [writeAll, ih _ (fun x hx => h x (List.mem_cons_of_mem _ hx)), Function.update_of_ne hne]

theorem writeAll_of_mem (a : Nat → V) (l : List (Nat × V)) (p : Nat) (x : V) (h : (p, x) ∈ l) (hu : ∀ y, (p, y) ∈ l → y = x) :
    writeAll a l p = x := by
  induction l generalizing a with
  | nil => cases h
  | cons w l ih =>
    obtain ⟨i, y⟩ := w
    rw [writeAll]
    by_cases hm : ∃ z, (p, z) ∈ l
    · obtain ⟨z, hz⟩ := hm
      have := hu z (List.mem_cons_of_mem _ hz)
      subst this
      exact ih _ hz (fun y hy => hu y (List.mem_cons_of_mem _ hy))
    · have hm' : ∀ z, (p, z) ∉ l := fun z hz => hm ⟨z, hz⟩
      rw [writeAll_of_not_mem _ _ _ hm']
      rcases List.mem_cons.mp h with h | h
      · cases h
        exact Function.update_self _ _ _
      · exact absurd h (hm' x)

/-- Column-major indices are distinct for distinct positions. -/
theorem colMajor_inj {m i j i' j' : Nat} (hi : i < m) (hi' : i' < m) (h : i + j * m = i' + j' * m) : i = i' ∧ j = j' := by
  have hm : 0 < m := by omega
  have h1 : (i + j * m) % m = i := by rw [Nat.add_mul_mod_self_right]; exact Nat.mod_eq_of_lt hi
  have h2 : (i' + j' * m) % m = i' := by rw [Nat.add_mul_mod_self_right]; exact Nat.mod_eq_of_lt hi'
  have e : i = i' := by rw [← h1, ← h2, h]
  subst e
  refine ⟨rfl, ?_⟩
  have : j * m = j' * m := by omega
  exact Nat.eq_of_mul_eq_mul_right hm this

/-- Column-major indices are in bounds. -/
theorem colMajor_lt {m n i j : Nat} (hi : i < m) (hj : j < n) : i + j * m < m * n := by
  calc i + j * m < m + j * m := by omega
    _ = (j + 1) * m := by rw [Nat.succ_mul, Nat.add_comm]
    _ ≤ n * m := Nat.mul_le_mul_right _ hj
    _ = m * n := Nat.mul_comm _ _

/-- Every index in bounds is the index of a position. -/
theorem colMajor_surj {m n p : Nat} (h : p < m * n) : ∃ i < m, ∃ j < n, p = i + j * m := by
  have hm : 0 < m := by
    rcases Nat.eq_zero_or_pos m with h0 | h0
    · subst h0; simp at h
    · exact h0
  refine ⟨p % m, Nat.mod_lt _ hm, p / m, (Nat.div_lt_iff_lt_mul hm).mpr (by rw [Nat.mul_comm]; exact h), ?_⟩
  rw [Nat.mul_comm]; exact (Nat.mod_add_div p m).symm

end Verif.Elem
