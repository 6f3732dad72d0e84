import Verif.Manifold.CStiefel
import Verif.Manifold.IntrinsicLemmas
import Verif.Props.Intrinsic

/-!
# Lemmas about the loops over complex buffers
-/

set_option linter.unusedSectionVars false
set_option linter.unusedVariables false

namespace Verif.CIntr

open Matrix Verif.Elem Verif.CMat
open Verif.Intr (pairs rest r2 buf dot mem_pairs mem_rest dot_append sum_square sum_rest sum_pairs)
open Verif.CStiefel (flat unflat)
open Verif.Dense (cx)

variable {n p : ℕ}

/-! ### Lists of pairs of numbers -/

theorem length_flat2 {α : Type} (l : List α) (f g : α → ℝ) : (l.flatMap fun q => [f q, g q]).length = 2 * l.length := by
  induction l with
  | nil => rfl
  | cons a l ih => simp only [List.flatMap_cons, List.length_append, ih, List.length_cons, List.length_nil]; omega

theorem getElem?_flat2 {α : Type} (l : List α) (f g : α → ℝ) {k : ℕ} {q : α} (h : l[k]? = some q) :
    (l.flatMap fun q => [f q, g q])[2 * k]? = some (f q) ∧ (l.flatMap fun q => [f q, g q])[2 * k + 1]? = some (g q) := by
  induction l generalizing k with
  | nil => simp at h
  | cons a l ih =>
    rcases k with _ | k
    · simp only [List.getElem?_cons_zero, Option.some.injEq] at h
      subst h
      simp
    · have h' := ih (by simpa using h)
      simp only [List.flatMap_cons, List.cons_append, List.nil_append]
      rw [show 2 * (k + 1) = (2 * k) + 1 + 1 by ring]
      simpa using h'

theorem buf_get {l : List ℝ} {k : ℕ} {v : ℝ} (h : l[k]? = some v) : buf l k = v := by simp [buf, List.getD_eq_getElem?_getD, h]

theorem get_mid {a b c : List ℝ} {k : ℕ} {v : ℝ} (h : b[k]? = some v) : (a ++ b ++ c)[a.length + k]? = some v := by
  have hk : k < b.length := by
    by_contra hc
    rw [List.getElem?_eq_none (not_lt.mp hc)] at h
    simp at h
  rw [List.append_assoc, List.getElem?_append_right (by omega), Nat.add_sub_cancel_left, List.getElem?_append_left hk, h]

theorem get_end {a b c : List ℝ} {k : ℕ} {v : ℝ} (h : c[k]? = some v) : (a ++ b ++ c)[a.length + b.length + k]? = some v := by
  rw [List.getElem?_append_right (by simp), List.length_append, Nat.add_sub_cancel_left, h]

theorem get_start {a b c : List ℝ} {k : ℕ} {v : ℝ} (h : a[k]? = some v) : (a ++ b ++ c)[k]? = some v := by
  have hk : k < a.length := by
    by_contra hc
    rw [List.getElem?_eq_none (not_lt.mp hc)] at h
    simp at h
  rw [List.append_assoc, List.getElem?_append_left hk, h]

/-- A list with the same length and the same buffer. -/
theorem list_ext_buf {l m : List ℝ} (hl : l.length = m.length) (h : ∀ k < m.length, buf l k = buf m k) : l = m := by
  refine List.ext_getElem hl fun k h1 h2 => ?_
  have := h k h2
  simpa [buf, List.getD_eq_getElem?_getD, List.getElem?_eq_getElem h1, List.getElem?_eq_getElem h2] using this

theorem dot_flat2 {α : Type} (l : List α) (f g f' g' : α → ℝ) :
    dot (l.flatMap fun q => [f q, g q]) (l.flatMap fun q => [f' q, g' q]) = (l.map fun q => f q * f' q + g q * g' q).sum := by
  induction l with
  | nil => rfl
  | cons a l ih =>
    rw [List.flatMap_cons, List.flatMap_cons, dot_append (by simp), ih, List.map_cons, List.sum_cons]
    congr 1
    simp [dot]

/-! ### Buffers of complex numbers -/

theorem flat_apply (A : Matrix (Fin n) (Fin p) ℂ) {i j : Nat} (hi : i < n) (hj : j < p) : flat A (i + j * n) = A ⟨i, hi⟩ ⟨j, hj⟩ := by
  have h1 : (i + j * n) % n = i := by rw [Nat.add_mul_mod_self_right]; exact Nat.mod_eq_of_lt hi
  have h2 : (i + j * n) / n = j := by
    rw [Nat.add_mul_div_right _ _ (by omega), Nat.div_eq_of_lt hi, Nat.zero_add]
  unfold flat
  rw [dif_pos ⟨by omega, by omega⟩]
  simp only [h1, h2]

theorem flat_unflat (b : Nat → ℝ) {i j : Nat} (hi : i < n) (hj : j < p) : flat (unflat n p b) (i + j * n) = cx b (i + j * n) := by
  rw [flat_apply _ hi hj]; rfl

/-- The product of the entries of two buffers: real parts plus imaginary parts. -/
def rp (a b : ℂ) : ℝ := a.re * b.re + a.im * b.im

theorem ip_range (A B : Matrix (Fin n) (Fin p) ℂ) : ip A B = ∑ j ∈ Finset.range p, ∑ i ∈ Finset.range n, rp (flat A (i + j * n)) (flat B (i + j * n)) := by
  unfold ip
  rw [Finset.sum_comm, Finset.sum_range]
  refine Finset.sum_congr rfl fun j _ => ?_
  rw [Finset.sum_range]
  refine Finset.sum_congr rfl fun i _ => ?_
  rw [flat_apply A i.2 j.2, flat_apply B i.2 j.2]
  rfl

/-- The inner product split into the square on top and the remaining rows. -/
theorem ip_split (hp : p ≤ n) (A B : Matrix (Fin n) (Fin p) ℂ) :
    ip A B = ∑ i ∈ Finset.range p, rp (flat A (i + i * n)) (flat B (i + i * n)) +
      ((pairs p).map fun q => rp (flat A (q.1 + q.2 * n)) (flat B (q.1 + q.2 * n)) + rp (flat A (q.2 + q.1 * n)) (flat B (q.2 + q.1 * n))).sum +
      ((rest n p).map fun q => rp (flat A (q.2 + q.1 * n)) (flat B (q.2 + q.1 * n))).sum := by
  rw [← sum_square p fun i j => rp (flat A (i + j * n)) (flat B (i + j * n)), Finset.sum_comm, ip_range, sum_rest, ← Finset.sum_add_distrib]
  refine Finset.sum_congr rfl fun j _ => ?_
  rw [Finset.range_eq_Ico, Finset.range_eq_Ico, Finset.sum_Ico_consecutive _ (Nat.zero_le _) hp]

end Verif.CIntr
