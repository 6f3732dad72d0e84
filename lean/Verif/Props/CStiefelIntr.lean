import Verif.Props.CStiefel
import Verif.Manifold.CIntrLemmas
import Verif.Props.Dims
import Verif.Props.Dense
import Mathlib.Tactic.LinearCombination

/-!
# C88, C89: coordinates of the complex Stiefel manifold; C78: its dimension
-/

set_option linter.unusedSectionVars false
set_option linter.unusedVariables false

namespace Verif.CStiefel

open Matrix Verif.Elem Verif.CMat Verif.CIntr
open Verif.Intr (pairs rest r2 r2_ne r2_mul_r2 buf dot mem_pairs mem_rest idx_of_pair idx_of_rest index_exists index_unique nodup_pairs nodup_rest length_rest
  two_mul_length_pairs dot_append dot_map sum_range_list)
open Verif.Dense (cx)

variable {n p : ℕ}

section writes
variable (junk c : Nat → ℝ)

theorem mem_skewExtr {a : Nat} {v : ℝ} : (a, v) ∈ skewExtrWrites n p c ↔
    (∃ i < p, (a = 2 * (i + i * n) + 1 ∧ v = c i) ∨ (a = 2 * (i + i * n) ∧ v = 0)) ∨
    (∃ i j k, (pairs p)[k]? = some (i, j) ∧ ((a = 2 * (j + i * n) ∧ v = c (p + 2 * k) / r2) ∨ (a = 2 * (i + j * n) ∧ v = -(c (p + 2 * k) / r2)) ∨
      (a = 2 * (j + i * n) + 1 ∧ v = c (p + 2 * k + 1) / r2) ∨ (a = 2 * (i + j * n) + 1 ∧ v = c (p + 2 * k + 1) / r2))) ∨
    (∃ i j k, (rest n p)[k]? = some (i, j) ∧ ((a = 2 * (j + i * n) ∧ v = c (p + 2 * (pairs p).length + 2 * k)) ∨
      (a = 2 * (j + i * n) + 1 ∧ v = c (p + 2 * (pairs p).length + 2 * k + 1)))) := by
  simp only [skewExtrWrites, List.mem_append, List.mem_range, List.mem_flatMap, List.mem_cons, List.not_mem_nil, or_false, Prod.mk.injEq, Prod.exists,
    List.mk_mem_zipIdx_iff_getElem?, or_assoc]

theorem skew_diag (hp : p ≤ n) {i : Nat} (hi : i < p) : cx (writeAll junk (skewExtrWrites n p c)) (i + i * n) = ⟨0, c i⟩ := by
  apply Complex.ext
  · refine writeAll_of_mem _ _ _ _ ((mem_skewExtr c).mpr (Or.inl ⟨i, hi, Or.inr ⟨rfl, rfl⟩⟩)) fun v hv => ?_
    rcases (mem_skewExtr c).mp hv with ⟨a, ha, ⟨h, h'⟩ | ⟨h, h'⟩⟩ | ⟨a, b, k, hk, ⟨h, h'⟩ | ⟨h, h'⟩ | ⟨h, h'⟩ | ⟨h, h'⟩⟩ | ⟨a, b, k, hk, ⟨h, h'⟩ | ⟨h, h'⟩⟩
    all_goals try (exfalso; omega)
    · exact h'
    · have := idx_of_pair hk
      have := colMajor_inj (by omega) (by omega) (Nat.eq_of_mul_eq_mul_left two_pos h)
      omega
    · have := idx_of_pair hk
      have := colMajor_inj (by omega) (by omega) (Nat.eq_of_mul_eq_mul_left two_pos h)
      omega
    · have := idx_of_rest hk
      have := colMajor_inj (by omega) (by omega) (Nat.eq_of_mul_eq_mul_left two_pos h)
      omega
  · refine writeAll_of_mem _ _ _ _ ((mem_skewExtr c).mpr (Or.inl ⟨i, hi, Or.inl ⟨rfl, rfl⟩⟩)) fun v hv => ?_
    rcases (mem_skewExtr c).mp hv with ⟨a, ha, ⟨h, h'⟩ | ⟨h, h'⟩⟩ | ⟨a, b, k, hk, ⟨h, h'⟩ | ⟨h, h'⟩ | ⟨h, h'⟩ | ⟨h, h'⟩⟩ | ⟨a, b, k, hk, ⟨h, h'⟩ | ⟨h, h'⟩⟩
    all_goals try (exfalso; omega)
    · have := colMajor_inj (by omega) (by omega) (Nat.eq_of_mul_eq_mul_left two_pos (Nat.add_right_cancel h))
      rw [h', this.1]
    · have := idx_of_pair hk
      have := colMajor_inj (by omega) (by omega) (Nat.eq_of_mul_eq_mul_left two_pos (Nat.add_right_cancel h))
      omega
    · have := idx_of_pair hk
      have := colMajor_inj (by omega) (by omega) (Nat.eq_of_mul_eq_mul_left two_pos (Nat.add_right_cancel h))
      omega
    · have := idx_of_rest hk
      have := colMajor_inj (by omega) (by omega) (Nat.eq_of_mul_eq_mul_left two_pos (Nat.add_right_cancel h))
      omega

/-- Case analysis on the writes to a position `2 (b + a n) + e` with `e ≤ 1`. -/
theorem skew_at (hp : p ≤ n) {a b e : Nat} {v : ℝ} (hb : b < n) (ha : a < p) (he : e ≤ 1) (hv : (2 * (b + a * n) + e, v) ∈ skewExtrWrites n p c) :
    (b = a ∧ v = if e = 1 then c a else 0) ∨
    (∃ k, (pairs p)[k]? = some (a, b) ∧ v = c (p + 2 * k + e) / r2) ∨
    (∃ k, (pairs p)[k]? = some (b, a) ∧ v = if e = 1 then c (p + 2 * k + 1) / r2 else -(c (p + 2 * k) / r2)) ∨
    (∃ k, (rest n p)[k]? = some (a, b) ∧ v = c (p + 2 * (pairs p).length + 2 * k + e)) := by
  rcases (mem_skewExtr c).mp hv with ⟨i, hi, ⟨h, h'⟩ | ⟨h, h'⟩⟩ | ⟨i, j, k, hk, ⟨h, h'⟩ | ⟨h, h'⟩ | ⟨h, h'⟩ | ⟨h, h'⟩⟩ | ⟨i, j, k, hk, ⟨h, h'⟩ | ⟨h, h'⟩⟩
  · obtain rfl : e = 1 := by omega
    obtain ⟨rfl, rfl⟩ := colMajor_inj (by omega) (by omega) (by omega : b + a * n = i + i * n)
    exact Or.inl ⟨rfl, by simpa using h'⟩
  · obtain rfl : e = 0 := by omega
    obtain ⟨rfl, rfl⟩ := colMajor_inj (by omega) (by omega) (by omega : b + a * n = i + i * n)
    exact Or.inl ⟨rfl, by simpa using h'⟩
  · have := idx_of_pair hk
    obtain rfl : e = 0 := by omega
    obtain ⟨rfl, rfl⟩ := colMajor_inj (by omega) (by omega) (by omega : b + a * n = j + i * n)
    exact Or.inr (Or.inl ⟨k, hk, h'⟩)
  · have := idx_of_pair hk
    obtain rfl : e = 0 := by omega
    obtain ⟨rfl, rfl⟩ := colMajor_inj (by omega) (by omega) (by omega : b + a * n = i + j * n)
    exact Or.inr (Or.inr (Or.inl ⟨k, hk, by simpa using h'⟩))
  · have := idx_of_pair hk
    obtain rfl : e = 1 := by omega
    obtain ⟨rfl, rfl⟩ := colMajor_inj (by omega) (by omega) (by omega : b + a * n = j + i * n)
    exact Or.inr (Or.inl ⟨k, hk, h'⟩)
  · have := idx_of_pair hk
    obtain rfl : e = 1 := by omega
    obtain ⟨rfl, rfl⟩ := colMajor_inj (by omega) (by omega) (by omega : b + a * n = i + j * n)
    exact Or.inr (Or.inr (Or.inl ⟨k, hk, by simpa using h'⟩))
  · have := idx_of_rest hk
    obtain rfl : e = 0 := by omega
    obtain ⟨rfl, rfl⟩ := colMajor_inj (by omega) (by omega) (by omega : b + a * n = j + i * n)
    exact Or.inr (Or.inr (Or.inr ⟨k, hk, h'⟩))
  · have := idx_of_rest hk
    obtain rfl : e = 1 := by omega
    obtain ⟨rfl, rfl⟩ := colMajor_inj (by omega) (by omega) (by omega : b + a * n = j + i * n)
    exact Or.inr (Or.inr (Or.inr ⟨k, hk, h'⟩))

theorem skew_lower (hp : p ≤ n) {i j k : Nat} (hk : (pairs p)[k]? = some (i, j)) :
    cx (writeAll junk (skewExtrWrites n p c)) (j + i * n) = ⟨c (p + 2 * k) / r2, c (p + 2 * k + 1) / r2⟩ := by
  have hij := idx_of_pair hk
  have key : ∀ e ≤ 1, ∀ v, (2 * (j + i * n) + e, v) ∈ skewExtrWrites n p c → v = c (p + 2 * k + e) / r2 := by
    intro e he v hv
    rcases skew_at c hp (by omega) (by omega) he hv with ⟨h, _⟩ | ⟨k', hk', h⟩ | ⟨k', hk', h⟩ | ⟨k', hk', h⟩
    · omega
    · rw [h, index_unique (nodup_pairs p) hk' hk]
    · have := idx_of_pair hk'; omega
    · have := idx_of_rest hk'; omega
  apply Complex.ext
  · exact writeAll_of_mem _ _ _ _ ((mem_skewExtr c).mpr (Or.inr (Or.inl ⟨i, j, k, hk, Or.inl ⟨rfl, rfl⟩⟩))) (key 0 (by omega))
  · exact writeAll_of_mem _ _ _ _ ((mem_skewExtr c).mpr (Or.inr (Or.inl ⟨i, j, k, hk, Or.inr (Or.inr (Or.inl ⟨rfl, rfl⟩))⟩))) (key 1 (by omega))

theorem skew_upper (hp : p ≤ n) {i j k : Nat} (hk : (pairs p)[k]? = some (i, j)) :
    cx (writeAll junk (skewExtrWrites n p c)) (i + j * n) = ⟨-(c (p + 2 * k) / r2), c (p + 2 * k + 1) / r2⟩ := by
  have hij := idx_of_pair hk
  have key : ∀ e ≤ 1, ∀ v, (2 * (i + j * n) + e, v) ∈ skewExtrWrites n p c → v = if e = 1 then c (p + 2 * k + 1) / r2 else -(c (p + 2 * k) / r2) := by
    intro e he v hv
    rcases skew_at c hp (by omega) (by omega) he hv with ⟨h, _⟩ | ⟨k', hk', h⟩ | ⟨k', hk', h⟩ | ⟨k', hk', h⟩
    · omega
    · have := idx_of_pair hk'; omega
    · rw [h, index_unique (nodup_pairs p) hk' hk]
    · have := idx_of_rest hk'; omega
  apply Complex.ext
  · exact writeAll_of_mem _ _ _ _ ((mem_skewExtr c).mpr (Or.inr (Or.inl ⟨i, j, k, hk, Or.inr (Or.inl ⟨rfl, rfl⟩)⟩))) (fun v hv => by simpa using key 0 (by omega) v hv)
  · exact writeAll_of_mem _ _ _ _ ((mem_skewExtr c).mpr (Or.inr (Or.inl ⟨i, j, k, hk, Or.inr (Or.inr (Or.inr ⟨rfl, rfl⟩))⟩))) (fun v hv => by simpa using key 1 (by omega) v hv)

theorem skew_rest (hp : p ≤ n) {i j k : Nat} (hk : (rest n p)[k]? = some (i, j)) :
    cx (writeAll junk (skewExtrWrites n p c)) (j + i * n) = ⟨c (p + 2 * (pairs p).length + 2 * k), c (p + 2 * (pairs p).length + 2 * k + 1)⟩ := by
  have hij := idx_of_rest hk
  have key : ∀ e ≤ 1, ∀ v, (2 * (j + i * n) + e, v) ∈ skewExtrWrites n p c → v = c (p + 2 * (pairs p).length + 2 * k + e) := by
    intro e he v hv
    rcases skew_at c hp (by omega) (by omega) he hv with ⟨h, _⟩ | ⟨k', hk', h⟩ | ⟨k', hk', h⟩ | ⟨k', hk', h⟩
    · omega
    · have := idx_of_pair hk'; omega
    · have := idx_of_pair hk'; omega
    · rw [h, index_unique (nodup_rest n p) hk' hk]
  apply Complex.ext
  · exact writeAll_of_mem _ _ _ _ ((mem_skewExtr c).mpr (Or.inr (Or.inr ⟨i, j, k, hk, Or.inl ⟨rfl, rfl⟩⟩))) (key 0 (by omega))
  · exact writeAll_of_mem _ _ _ _ ((mem_skewExtr c).mpr (Or.inr (Or.inr ⟨i, j, k, hk, Or.inr ⟨rfl, rfl⟩⟩))) (key 1 (by omega))

end writes

/-! ### The loops -/

/-- The square on top is skew-Hermitian. -/
def TopSkew (n p : Nat) (t : Nat → ℂ) : Prop := ∀ i j, i < p → j < p → t (i + j * n) = -star (t (j + i * n))

section bufs
variable (t : Nat → ℂ)

theorem length_skew : (skewIntr n p t).length = p + 2 * (pairs p).length + 2 * (rest n p).length := by
  simp only [skewIntr, List.length_append, List.length_map, List.length_range, length_flat2]

theorem buf_diag {i : Nat} (hi : i < p) : buf (skewIntr n p t) i = (t (i + i * n)).im :=
  buf_get (get_start (by simp [List.getElem?_range hi]))

theorem buf_pair {i j k : Nat} (hk : (pairs p)[k]? = some (i, j)) :
    buf (skewIntr n p t) (p + 2 * k) = r2 * ((t (j + i * n)).re - (t (i + j * n)).re) / 2 ∧
    buf (skewIntr n p t) (p + 2 * k + 1) = r2 * ((t (j + i * n)).im + (t (i + j * n)).im) / 2 := by
  have h := getElem?_flat2 (pairs p) (fun q => r2 * ((t (q.2 + q.1 * n)).re - (t (q.1 + q.2 * n)).re) / 2) (fun q => r2 * ((t (q.2 + q.1 * n)).im + (t (q.1 + q.2 * n)).im) / 2) hk
  constructor
  · have := get_mid (a := (List.range p).map (fun i => (t (i + i * n)).im)) (c := (rest n p).flatMap (fun q => [(t (q.2 + q.1 * n)).re, (t (q.2 + q.1 * n)).im])) h.1
    rw [List.length_map, List.length_range] at this
    exact buf_get this
  · have := get_mid (a := (List.range p).map (fun i => (t (i + i * n)).im)) (c := (rest n p).flatMap (fun q => [(t (q.2 + q.1 * n)).re, (t (q.2 + q.1 * n)).im])) h.2
    rw [List.length_map, List.length_range] at this
    exact buf_get this

theorem buf_rest {i j k : Nat} (hk : (rest n p)[k]? = some (i, j)) :
    buf (skewIntr n p t) (p + 2 * (pairs p).length + 2 * k) = (t (j + i * n)).re ∧ buf (skewIntr n p t) (p + 2 * (pairs p).length + 2 * k + 1) = (t (j + i * n)).im := by
  have h := getElem?_flat2 (rest n p) (fun q => (t (q.2 + q.1 * n)).re) (fun q => (t (q.2 + q.1 * n)).im) hk
  constructor
  · have := get_end (a := (List.range p).map (fun i => (t (i + i * n)).im)) (b := (pairs p).flatMap (fun q => [r2 * ((t (q.2 + q.1 * n)).re - (t (q.1 + q.2 * n)).re) / 2,
      r2 * ((t (q.2 + q.1 * n)).im + (t (q.1 + q.2 * n)).im) / 2])) h.1
    rw [List.length_map, List.length_range, length_flat2] at this
    exact buf_get this
  · have := get_end (a := (List.range p).map (fun i => (t (i + i * n)).im)) (b := (pairs p).flatMap (fun q => [r2 * ((t (q.2 + q.1 * n)).re - (t (q.1 + q.2 * n)).re) / 2,
      r2 * ((t (q.2 + q.1 * n)).im + (t (q.1 + q.2 * n)).im) / 2])) h.2
    rw [List.length_map, List.length_range, length_flat2] at this
    exact buf_get this

end bufs

theorem topSkew_re_im {t : Nat → ℂ} (h : TopSkew n p t) {i j : Nat} (hi : i < p) (hj : j < p) :
    (t (i + j * n)).re = -(t (j + i * n)).re ∧ (t (i + j * n)).im = (t (j + i * n)).im := by
  rw [h i j hi hj]; simp

theorem skew_extr_intr (hp : p ≤ n) (junk : Nat → ℝ) (A : Matrix (Fin n) (Fin p) ℂ) (hA : TopSkew n p (flat A)) :
    unflat n p (writeAll junk (skewExtrWrites n p (buf (skewIntr n p (flat A))))) = A := by
  ext ⟨i, hi⟩ ⟨j, hj⟩
  show cx (writeAll junk _) (i + j * n) = _
  rw [← CIntr.flat_apply A hi hj]
  by_cases hip : i < p
  · rcases Nat.lt_trichotomy i j with h | h | h
    · obtain ⟨k, hk⟩ := index_exists (mem_pairs.mpr ⟨h, hj⟩)
      rw [skew_upper _ _ hp hk, (buf_pair _ hk).1, (buf_pair _ hk).2]
      have hs := topSkew_re_im hA hj hip
      rw [hs.1, hs.2]
      apply Complex.ext <;> field_simp [r2_ne] <;> ring
    · subst h
      rw [skew_diag _ _ hp hj, buf_diag _ hip]
      have := (topSkew_re_im hA hj hj).1
      apply Complex.ext
      · simp only []; linarith
      · rfl
    · obtain ⟨k, hk⟩ := index_exists (mem_pairs.mpr ⟨h, hip⟩)
      rw [skew_lower _ _ hp hk, (buf_pair _ hk).1, (buf_pair _ hk).2]
      have hs := topSkew_re_im hA hj hip
      rw [hs.1, hs.2]
      apply Complex.ext <;> field_simp [r2_ne] <;> ring
  · obtain ⟨k, hk⟩ := index_exists (mem_rest.mpr ⟨hj, not_lt.mp hip, hi⟩)
    rw [skew_rest _ _ hp hk, (buf_rest _ hk).1, (buf_rest _ hk).2]

theorem skew_intr_extr (hp : p ≤ n) (junk : Nat → ℝ) (c : List ℝ) (hc : c.length = p + 2 * (pairs p).length + 2 * (rest n p).length) :
    skewIntr n p (flat (unflat n p (writeAll junk (skewExtrWrites n p (buf c))))) = c := by
  refine list_ext_buf (by rw [length_skew, hc]) fun k hk => ?_
  rw [hc] at hk
  by_cases h1 : k < p
  · rw [buf_diag _ h1, CIntr.flat_unflat _ (by omega) h1, skew_diag _ _ hp h1]
  by_cases h2 : k < p + 2 * (pairs p).length
  · have hk' : (k - p) / 2 < (pairs p).length := by omega
    rcases hq : (pairs p)[(k - p) / 2] with ⟨i, j⟩
    have hg : (pairs p)[(k - p) / 2]? = some (i, j) := by rw [List.getElem?_eq_getElem hk', hq]
    have hij := idx_of_pair hg
    have e : k = p + 2 * ((k - p) / 2) ∨ k = p + 2 * ((k - p) / 2) + 1 := by omega
    generalize (k - p) / 2 = m at hg e
    rcases e with rfl | rfl
    · rw [(buf_pair _ hg).1, CIntr.flat_unflat _ (by omega) (by omega), CIntr.flat_unflat _ (by omega) (by omega), skew_lower _ _ hp hg, skew_upper _ _ hp hg]
      field_simp [r2_ne]
      ring
    · rw [(buf_pair _ hg).2, CIntr.flat_unflat _ (by omega) (by omega), CIntr.flat_unflat _ (by omega) (by omega), skew_lower _ _ hp hg, skew_upper _ _ hp hg]
      field_simp [r2_ne]
      ring
  · have hk' : (k - (p + 2 * (pairs p).length)) / 2 < (rest n p).length := by omega
    rcases hq : (rest n p)[(k - (p + 2 * (pairs p).length)) / 2] with ⟨i, j⟩
    have hg : (rest n p)[(k - (p + 2 * (pairs p).length)) / 2]? = some (i, j) := by rw [List.getElem?_eq_getElem hk', hq]
    have hij := idx_of_rest hg
    have e : k = p + 2 * (pairs p).length + 2 * ((k - (p + 2 * (pairs p).length)) / 2) ∨ k = p + 2 * (pairs p).length + 2 * ((k - (p + 2 * (pairs p).length)) / 2) + 1 := by omega
    generalize (k - (p + 2 * (pairs p).length)) / 2 = m at hg e
    rcases e with rfl | rfl
    · rw [(buf_rest _ hg).1, CIntr.flat_unflat _ (by omega) (by omega), skew_rest _ _ hp hg]
    · rw [(buf_rest _ hg).2, CIntr.flat_unflat _ (by omega) (by omega), skew_rest _ _ hp hg]

theorem skew_extr_top (hp : p ≤ n) (junk c : Nat → ℝ) : TopSkew n p (flat (unflat n p (writeAll junk (skewExtrWrites n p c)))) := by
  intro i j hi hj
  rw [CIntr.flat_unflat _ (by omega) hj, CIntr.flat_unflat _ (by omega) hi]
  rcases Nat.lt_trichotomy i j with h | h | h
  · obtain ⟨k, hk⟩ := index_exists (mem_pairs.mpr ⟨h, hj⟩)
    rw [skew_upper _ _ hp hk, skew_lower _ _ hp hk]
    apply Complex.ext <;> simp
  · subst h
    rw [skew_diag _ _ hp hj]
    apply Complex.ext <;> simp
  · obtain ⟨k, hk⟩ := index_exists (mem_pairs.mpr ⟨h, hi⟩)
    rw [skew_upper _ _ hp hk, skew_lower _ _ hp hk]
    apply Complex.ext <;> simp

theorem skew_isometry (hp : p ≤ n) (A B : Matrix (Fin n) (Fin p) ℂ) (hA : TopSkew n p (flat A)) (hB : TopSkew n p (flat B)) :
    dot (skewIntr n p (flat A)) (skewIntr n p (flat B)) = ip A B := by
  rw [ip_split hp, skewIntr, skewIntr, dot_append (by simp only [List.length_append, List.length_map, length_flat2]), dot_append (by simp), dot_map, dot_flat2, dot_flat2,
    sum_range_list]
  congr 1
  congr 1
  · refine Finset.sum_congr rfl fun i hi => ?_
    have hi := Finset.mem_range.mp hi
    have h : (flat A (i + i * n)).re = 0 := by have := (topSkew_re_im hA hi hi).1; linarith
    rw [rp, h]; ring
  · congr 1
    refine List.map_congr_left ?_
    rintro ⟨i, j⟩ hq
    have hij := mem_pairs.mp hq
    have ha := topSkew_re_im hA (by omega : i < p) (by omega : j < p)
    have hb := topSkew_re_im hB (by omega : i < p) (by omega : j < p)
    simp only [rp]
    rw [ha.1, ha.2, hb.1, hb.2]
    have := r2_mul_r2
    linear_combination ((flat A (j + i * n)).re * (flat B (j + i * n)).re + (flat A (j + i * n)).im * (flat B (j + i * n)).im) * this

/-! ### The Householder frame -/

/-- Specification of the factorisation stored in the fields `_HHR`, `_tau` of `x` (`geqrf` of complex matrices): `Q` unitary, `R` upper triangular with real diagonal, `x = Q R`. -/
structure IsQR (x : Matrix (Fin n) (Fin p) ℂ) (Q : Matrix (Fin n) (Fin n) ℂ) (R : Matrix (Fin n) (Fin p) ℂ) : Prop where
  orth : Qᴴ * Q = 1
  upper : ∀ (i : Fin n) (j : Fin p), j.1 < i.1 → R i j = 0
  real : ∀ (i : Fin n) (j : Fin p), j.1 = i.1 → (R i j).im = 0
  eq : x = Q * R

variable {x R : Matrix (Fin n) (Fin p) ℂ} {Q : Matrix (Fin n) (Fin n) ℂ}

theorem IsQR.orth' (h : IsQR x Q R) : Q * Qᴴ = 1 := mul_eq_one_comm.mp h.orth

theorem IsQR.gram (h : IsQR x Q R) : Rᴴ * R = xᴴ * x := by
  rw [h.eq, conjTranspose_mul, Matrix.mul_assoc, ← Matrix.mul_assoc Qᴴ, h.orth, Matrix.one_mul]

/-- The triangle of an orthonormal matrix is diagonal with entries `±1`. -/
theorem qr_diag (hp : p ≤ n) (h : IsQR x Q R) (hx : xᴴ * x = 1) :
    ∀ (i : Nat) (hi : i < p), star (R ⟨i, by omega⟩ ⟨i, hi⟩) * R ⟨i, by omega⟩ ⟨i, hi⟩ = 1 ∧ ∀ j : Fin p, j.1 ≠ i → R ⟨i, by omega⟩ j = 0 := by
  have hg : Rᴴ * R = 1 := h.gram.trans hx
  have key : ∀ (i : Nat) (hi : i < p), (∀ k (hk : k < i), ∀ j : Fin p, j.1 ≠ k → R ⟨k, by omega⟩ j = 0) → ∀ j : Fin p,
      star (R ⟨i, by omega⟩ ⟨i, hi⟩) * R ⟨i, by omega⟩ j = (1 : Matrix (Fin p) (Fin p) ℂ) ⟨i, hi⟩ j := by
    intro i hi ih j
    rw [← hg, mul_apply]
    rw [Finset.sum_eq_single_of_mem (⟨i, by omega⟩ : Fin n) (Finset.mem_univ _)]
    · rfl
    · intro k _ hk
      rw [conjTranspose_apply]
      rcases Nat.lt_trichotomy k.1 i with hlt | heq | hgt
      · rw [ih k.1 hlt ⟨i, hi⟩ (by simp; omega), star_zero, zero_mul]
      · exact absurd (Fin.ext heq) hk
      · rw [h.upper k ⟨i, hi⟩ hgt, star_zero, zero_mul]
  intro i
  induction i using Nat.strong_induction_on with
  | _ i ih =>
    intro hi
    have hk := key i hi (fun k hk j hj => (ih k hk (by omega)).2 j hj)
    have h1 : star (R ⟨i, by omega⟩ ⟨i, hi⟩) * R ⟨i, by omega⟩ ⟨i, hi⟩ = 1 := by rw [hk, one_apply_eq]
    refine ⟨h1, fun j hj => ?_⟩
    have h2 := hk j
    rw [one_apply_ne (by intro e; exact hj (by rw [← e]))] at h2
    rcases mul_eq_zero.mp h2 with h3 | h3
    · rw [h3] at h1; simp at h1
    · exact h3

theorem rowSigns_eq (hp : p ≤ n) (h : IsQR x Q R) (hx : xᴴ * x = 1) (i : Nat) (hi : i < p) : (rowSigns R ⟨i, by omega⟩ : ℂ) = R ⟨i, by omega⟩ ⟨i, hi⟩ := by
  have h1 := congrArg Complex.re (qr_diag hp h hx i hi).1
  have him := h.real ⟨i, by omega⟩ ⟨i, hi⟩ rfl
  simp only [Complex.star_def, Complex.mul_re, Complex.conj_re, Complex.conj_im, Complex.one_re, him, mul_zero, sub_zero] at h1
  unfold rowSigns
  rw [dif_pos hi]
  rcases mul_self_eq_one_iff.mp h1 with e | e
  · apply Complex.ext
    · rw [e]; norm_num
    · rw [him, Complex.ofReal_im]
  · apply Complex.ext
    · rw [e]; norm_num
    · rw [him, Complex.ofReal_im]

theorem rowSigns_mul_self (R : Matrix (Fin n) (Fin p) ℂ) (i : Fin n) : rowSigns R i * rowSigns R i = 1 := by
  unfold rowSigns
  split
  · split <;> norm_num
  · norm_num

theorem scale_scale (R A : Matrix (Fin n) (Fin p) ℂ) : scaleRows (rowSigns R) (scaleRows (rowSigns R) A) = A := by
  ext i j
  simp only [scaleRows]
  rw [← mul_assoc, ← Complex.ofReal_mul, rowSigns_mul_self, Complex.ofReal_one, one_mul]

/-- The top of the transformed vector is `xᴴ η`. -/
theorem top_entry (hp : p ≤ n) (h : IsQR x Q R) (hx : xᴴ * x = 1) (η : Matrix (Fin n) (Fin p) ℂ)
    {i j : Nat} (hi : i < p) (hj : j < p) : flat (scaleRows (rowSigns R) (Qᴴ * η)) (i + j * n) = (xᴴ * η) ⟨i, hi⟩ ⟨j, hj⟩ := by
  rw [CIntr.flat_apply _ (by omega) hj]
  have e : xᴴ * η = Rᴴ * (Qᴴ * η) := by rw [h.eq, conjTranspose_mul, Matrix.mul_assoc]
  rw [e, mul_apply, Finset.sum_eq_single_of_mem (⟨i, by omega⟩ : Fin n) (Finset.mem_univ _)]
  · simp only [scaleRows, conjTranspose_apply]
    rw [← rowSigns_eq hp h hx i hi, Complex.star_def, Complex.conj_ofReal]
  · intro k _ hk
    rw [conjTranspose_apply]
    by_cases hkp : k.1 < p
    · rw [(qr_diag hp h hx k.1 hkp).2 ⟨i, hi⟩ (fun e => hk (Fin.ext e.symm)), star_zero, zero_mul]
    · rw [h.upper k ⟨i, hi⟩ (by simp; omega), star_zero, zero_mul]

theorem top_skew (hp : p ≤ n) (h : IsQR x Q R) (hx : xᴴ * x = 1) {η : Matrix (Fin n) (Fin p) ℂ} :
    IsTangent x η ↔ TopSkew n p (flat (scaleRows (rowSigns R) (Qᴴ * η))) := by
  constructor
  · intro hη i j hi hj
    rw [top_entry hp h hx η hi hj, top_entry hp h hx η hj hi]
    have : (xᴴ * η)ᴴ ⟨i, hi⟩ ⟨j, hj⟩ = (-(xᴴ * η)) ⟨i, hi⟩ ⟨j, hj⟩ := by rw [show (xᴴ * η)ᴴ = -(xᴴ * η) from hη]
    rw [conjTranspose_apply, Matrix.neg_apply] at this
    rw [this, neg_neg]
  · intro hs
    show (xᴴ * η)ᴴ = -(xᴴ * η)
    ext ⟨i, hi⟩ ⟨j, hj⟩
    rw [conjTranspose_apply, Matrix.neg_apply, ← top_entry hp h hx η hi hj, ← top_entry hp h hx η hj hi, hs i j hi hj, neg_neg]

theorem ip_scale (R A B : Matrix (Fin n) (Fin p) ℂ) : ip (scaleRows (rowSigns R) A) (scaleRows (rowSigns R) B) = ip A B := by
  simp only [ip, scaleRows]
  refine Finset.sum_congr rfl fun i _ => Finset.sum_congr rfl fun j _ => ?_
  have e1 : RCLike.re ((rowSigns R i : ℂ) * A i j) = rowSigns R i * (A i j).re := Complex.re_ofReal_mul _ _
  have e2 : RCLike.im ((rowSigns R i : ℂ) * A i j) = rowSigns R i * (A i j).im := Complex.im_ofReal_mul _ _
  have e3 : RCLike.re ((rowSigns R i : ℂ) * B i j) = rowSigns R i * (B i j).re := Complex.re_ofReal_mul _ _
  have e4 : RCLike.im ((rowSigns R i : ℂ) * B i j) = rowSigns R i * (B i j).im := Complex.im_ofReal_mul _ _
  rw [e1, e2, e3, e4]
  show _ = (A i j).re * (B i j).re + (A i j).im * (B i j).im
  linear_combination ((A i j).re * (B i j).re + (A i j).im * (B i j).im) * rowSigns_mul_self R i

theorem ip_orth (hQ : Q * Qᴴ = 1) (A B : Matrix (Fin n) (Fin p) ℂ) : ip (Qᴴ * A) (Qᴴ * B) = ip A B := by
  rw [ip_mul_left, conjTranspose_conjTranspose, ← Matrix.mul_assoc, hQ, Matrix.one_mul]

theorem length_eq (hp : p ≤ n) : p + 2 * (pairs p).length + 2 * (rest n p).length = 2 * n * p - p * p := by
  have h1 := two_mul_length_pairs p
  rw [length_rest]
  obtain ⟨d, rfl⟩ := Nat.exists_eq_add_of_le hp
  rw [Nat.add_sub_cancel_left]
  rcases p with _ | p
  · simp at h1 ⊢; simp [h1]
  · rw [Nat.add_sub_cancel] at h1
    rw [h1]
    have : 2 * (p + 1 + d) * (p + 1) = (p + 1) * (p + 1) + (p + 1 + (p + 1) * p + 2 * ((p + 1) * d)) := by ring
    omega

/-! ### C88 -/

/-- **C88 (extrinsic → intrinsic → extrinsic).** For every point, every Householder factorisation of it, every tangent vector and whatever the memory contained. -/
theorem C88_extr_intr (hp : p ≤ n) (h : IsQR x Q R) (hx : xᴴ * x = 1) {η : Matrix (Fin n) (Fin p) ℂ} (hη : IsTangent x η) (junk : Nat → ℝ) :
    cExtr junk Q R (cIntr Q R η) = η := by
  unfold cExtr cIntr
  rw [skew_extr_intr hp junk _ ((top_skew hp h hx).mp hη), scale_scale, ← Matrix.mul_assoc, h.orth', Matrix.one_mul]

/-- **C88 (intrinsic → extrinsic → intrinsic).** Every coordinate vector of the right length represents a tangent vector and is recovered from it. -/
theorem C88_intr_extr (hp : p ≤ n) (h : IsQR x Q R) (hx : xᴴ * x = 1) (c : List ℝ) (hc : c.length = 2 * n * p - p * p) (junk : Nat → ℝ) :
    cIntr Q R (cExtr junk Q R c) = c ∧ IsTangent x (cExtr junk Q R c) := by
  have e : scaleRows (rowSigns R) (Qᴴ * cExtr junk Q R c) = unflat n p (writeAll junk (skewExtrWrites n p (buf c))) := by
    unfold cExtr
    rw [← Matrix.mul_assoc, h.orth, Matrix.one_mul, scale_scale]
  constructor
  · unfold cIntr
    rw [e, skew_intr_extr hp junk c (hc.trans (length_eq hp).symm)]
  · rw [top_skew hp h hx, e]
    exact skew_extr_top hp junk _

/-- **C88 (isometry).** The inner product of the coordinates is the Euclidean metric of the tangent vectors. -/
theorem C88_isometry (hp : p ≤ n) (h : IsQR x Q R) (hx : xᴴ * x = 1) {η ξ : Matrix (Fin n) (Fin p) ℂ} (hη : IsTangent x η) (hξ : IsTangent x ξ) :
    dot (cIntr Q R η) (cIntr Q R ξ) = ip η ξ := by
  unfold cIntr
  rw [skew_isometry hp _ _ ((top_skew hp h hx).mp hη) ((top_skew hp h hx).mp hξ), ip_scale, ip_orth h.orth']

/-- Tangent space of the complex Stiefel manifold, a real vector space. -/
def tangentSpace (x : Matrix (Fin n) (Fin p) ℂ) : Submodule ℝ (Matrix (Fin n) (Fin p) ℂ) where
  carrier := {η | IsTangent x η}
  add_mem' := by
    intro a b ha hb
    simp only [Set.mem_ofPred_eq, IsTangent] at *
    rw [Matrix.mul_add, conjTranspose_add, ha, hb, neg_add]
  zero_mem' := by simp [IsTangent]
  smul_mem' := by
    intro c a ha
    simp only [Set.mem_ofPred_eq, IsTangent] at *
    rw [Matrix.mul_smul, conj_rsmul, ha, smul_neg]

/-- **C78 (complex Stiefel).** -/
theorem C78_complex_stiefel (hp : p ≤ n) (h : IsQR x Q R) (hx : xᴴ * x = 1) :
    (Module.finrank ℝ (tangentSpace x) : ℤ) = (Dims.cstiefel n p).intr ∧ ∀ η, ((cIntr Q R η).length : ℤ) = (Dims.cstiefel n p).len := by
  have hl : ∀ η, (cIntr Q R η).length = 2 * n * p - p * p := fun η => by rw [cIntr, length_skew, length_eq hp]
  have hcast : ((2 * n * p - p * p : ℕ) : ℤ) = 2 * (n : ℤ) * p - p * p := by
    rw [Nat.cast_sub]
    · push_cast; ring
    · exact Nat.mul_le_mul_right p (by omega)
  refine ⟨?_, fun η => by rw [hl, hcast, Dims.cstiefel]⟩
  rw [Dims.finrank_of_coords (tangentSpace x) (2 * n * p - p * p) ip (cIntr Q R) (cExtr (fun _ => 0) Q R) (fun η _ => hl η)
    (fun c hc => C88_intr_extr hp h hx c hc _) (fun η hη => C88_extr_intr hp h hx hη _) (fun u hu v hv => C88_isometry hp h hx hu hv)
    (fun u u' v => ip_add_left _ _ _) fun c u v => ip_rsmul_left _ _ _, hcast, Dims.cstiefel]

/-! ### C89: the normal space, and two calls with a real receiver -/

/-- Specification: normal vectors of the complex Stiefel manifold at `x`. -/
def IsNormal (x v : Matrix (Fin n) (Fin p) ℂ) : Prop := ∃ S : Matrix (Fin p) (Fin p) ℂ, Sᴴ = S ∧ v = x * S

section normal
variable (junk c : Nat → ℝ)

theorem mem_norExtr {a : Nat} {v : ℝ} : (a, v) ∈ norExtrWrites p c ↔
    (∃ i < p, a = 2 * (i + i * p) ∧ v = c i) ∨
    (∃ i j k, (pairs p)[k]? = some (i, j) ∧ ((a = 2 * (i + j * p) ∧ v = c (p + k) / r2) ∨ (a = 2 * (j + i * p) ∧ v = c (p + k) / r2))) ∨
    (∃ i j k, (pairs p)[k]? = some (i, j) ∧ ((a = 2 * (i + j * p) + 1 ∧ v = c (p + (pairs p).length + k) / r2) ∨
      (a = 2 * (j + i * p) + 1 ∧ v = -(c (p + (pairs p).length + k) / r2)))) := by
  simp only [norExtrWrites, List.mem_append, List.mem_map, List.mem_range, List.mem_flatMap, List.mem_cons, List.not_mem_nil, or_false, Prod.mk.injEq, Prod.exists,
    List.mk_mem_zipIdx_iff_getElem?, or_assoc]
  refine or_congr ⟨?_, ?_⟩ Iff.rfl
  · rintro ⟨i, hi, rfl, rfl⟩; exact ⟨i, hi, rfl, rfl⟩
  · rintro ⟨i, hi, rfl, rfl⟩; exact ⟨i, hi, rfl, rfl⟩

/-- Case analysis on the writes to a position `2 (b + a p) + e` with `e ≤ 1`. -/
theorem nor_at {a b e : Nat} {v : ℝ} (hb : b < p) (ha : a < p) (he : e ≤ 1) (hv : (2 * (b + a * p) + e, v) ∈ norExtrWrites p c) :
    (b = a ∧ e = 0 ∧ v = c a) ∨
    (∃ k, (pairs p)[k]? = some (b, a) ∧ v = if e = 1 then c (p + (pairs p).length + k) / r2 else c (p + k) / r2) ∨
    (∃ k, (pairs p)[k]? = some (a, b) ∧ v = if e = 1 then -(c (p + (pairs p).length + k) / r2) else c (p + k) / r2) := by
  rcases (mem_norExtr c).mp hv with ⟨i, hi, h, h'⟩ | ⟨i, j, k, hk, ⟨h, h'⟩ | ⟨h, h'⟩⟩ | ⟨i, j, k, hk, ⟨h, h'⟩ | ⟨h, h'⟩⟩
  · obtain rfl : e = 0 := by omega
    obtain ⟨rfl, rfl⟩ := colMajor_inj (by omega) (by omega) (by omega : b + a * p = i + i * p)
    exact Or.inl ⟨rfl, rfl, h'⟩
  · have := idx_of_pair hk
    obtain rfl : e = 0 := by omega
    obtain ⟨rfl, rfl⟩ := colMajor_inj (by omega) (by omega) (by omega : b + a * p = i + j * p)
    exact Or.inr (Or.inl ⟨k, hk, by simpa using h'⟩)
  · have := idx_of_pair hk
    obtain rfl : e = 0 := by omega
    obtain ⟨rfl, rfl⟩ := colMajor_inj (by omega) (by omega) (by omega : b + a * p = j + i * p)
    exact Or.inr (Or.inr ⟨k, hk, by simpa using h'⟩)
  · have := idx_of_pair hk
    obtain rfl : e = 1 := by omega
    obtain ⟨rfl, rfl⟩ := colMajor_inj (by omega) (by omega) (by omega : b + a * p = i + j * p)
    exact Or.inr (Or.inl ⟨k, hk, by simpa using h'⟩)
  · have := idx_of_pair hk
    obtain rfl : e = 1 := by omega
    obtain ⟨rfl, rfl⟩ := colMajor_inj (by omega) (by omega) (by omega : b + a * p = j + i * p)
    exact Or.inr (Or.inr ⟨k, hk, by simpa using h'⟩)

theorem nor_diag {i : Nat} (hi : i < p) : cx (writeAll junk (norExtrWrites p c)) (i + i * p) = ⟨c i, junk (2 * (i + i * p) + 1)⟩ := by
  apply Complex.ext
  · refine writeAll_of_mem _ _ _ _ ((mem_norExtr c).mpr (Or.inl ⟨i, hi, rfl, rfl⟩)) fun v hv => ?_
    rcases nor_at c hi hi (e := 0) (by omega) hv with ⟨_, _, h⟩ | ⟨k, hk, _⟩ | ⟨k, hk, _⟩
    · exact h
    · have := idx_of_pair hk; omega
    · have := idx_of_pair hk; omega
  · refine writeAll_of_not_mem _ _ _ fun v hv => ?_
    rcases nor_at c hi hi (e := 1) (by omega) hv with ⟨_, h, _⟩ | ⟨k, hk, _⟩ | ⟨k, hk, _⟩
    · omega
    · have := idx_of_pair hk; omega
    · have := idx_of_pair hk; omega

theorem nor_upper {i j k : Nat} (hk : (pairs p)[k]? = some (i, j)) :
    cx (writeAll junk (norExtrWrites p c)) (i + j * p) = ⟨c (p + k) / r2, c (p + (pairs p).length + k) / r2⟩ := by
  have hij := idx_of_pair hk
  have key : ∀ e ≤ 1, ∀ v, (2 * (i + j * p) + e, v) ∈ norExtrWrites p c → v = if e = 1 then c (p + (pairs p).length + k) / r2 else c (p + k) / r2 := by
    intro e he v hv
    rcases nor_at c (by omega) (by omega) he hv with ⟨h, _⟩ | ⟨k', hk', h⟩ | ⟨k', hk', h⟩
    · omega
    · rw [h, index_unique (nodup_pairs p) hk' hk]
    · have := idx_of_pair hk'; omega
  apply Complex.ext
  · exact writeAll_of_mem _ _ _ _ ((mem_norExtr c).mpr (Or.inr (Or.inl ⟨i, j, k, hk, Or.inl ⟨rfl, rfl⟩⟩))) (fun v hv => by simpa using key 0 (by omega) v hv)
  · exact writeAll_of_mem _ _ _ _ ((mem_norExtr c).mpr (Or.inr (Or.inr ⟨i, j, k, hk, Or.inl ⟨rfl, rfl⟩⟩))) (fun v hv => by simpa using key 1 (by omega) v hv)

theorem nor_lower {i j k : Nat} (hk : (pairs p)[k]? = some (i, j)) :
    cx (writeAll junk (norExtrWrites p c)) (j + i * p) = ⟨c (p + k) / r2, -(c (p + (pairs p).length + k) / r2)⟩ := by
  have hij := idx_of_pair hk
  have key : ∀ e ≤ 1, ∀ v, (2 * (j + i * p) + e, v) ∈ norExtrWrites p c → v = if e = 1 then -(c (p + (pairs p).length + k) / r2) else c (p + k) / r2 := by
    intro e he v hv
    rcases nor_at c (by omega) (by omega) he hv with ⟨h, _⟩ | ⟨k', hk', h⟩ | ⟨k', hk', h⟩
    · omega
    · have := idx_of_pair hk'; omega
    · rw [h, index_unique (nodup_pairs p) hk' hk]
  apply Complex.ext
  · exact writeAll_of_mem _ _ _ _ ((mem_norExtr c).mpr (Or.inr (Or.inl ⟨i, j, k, hk, Or.inr ⟨rfl, rfl⟩⟩))) (fun v hv => by simpa using key 0 (by omega) v hv)
  · exact writeAll_of_mem _ _ _ _ ((mem_norExtr c).mpr (Or.inr (Or.inr ⟨i, j, k, hk, Or.inr ⟨rfl, rfl⟩⟩))) (fun v hv => by simpa using key 1 (by omega) v hv)

end normal

section bufs
variable (t : Nat → ℂ)

theorem length_nor : (norIntr p t).length = p + (pairs p).length + (pairs p).length := by
  simp only [norIntr, List.length_append, List.length_map, List.length_range]

theorem nbuf_diag {i : Nat} (hi : i < p) : buf (norIntr p t) i = (t (i + i * p)).re :=
  buf_get (get_start (by simp [List.getElem?_range hi]))

theorem nbuf_re {i j k : Nat} (hk : (pairs p)[k]? = some (i, j)) : buf (norIntr p t) (p + k) = ((t (i + j * p)).re + (t (j + i * p)).re) / r2 := by
  have := get_mid (a := (List.range p).map (fun i => (t (i + i * p)).re)) (b := (pairs p).map (fun q => ((t (q.1 + q.2 * p)).re + (t (q.2 + q.1 * p)).re) / r2))
    (c := (pairs p).map (fun q => ((t (q.1 + q.2 * p)).im - (t (q.2 + q.1 * p)).im) / r2)) (k := k) (by rw [List.getElem?_map, hk]; rfl)
  rw [List.length_map, List.length_range] at this
  exact buf_get this

theorem nbuf_im {i j k : Nat} (hk : (pairs p)[k]? = some (i, j)) : buf (norIntr p t) (p + (pairs p).length + k) = ((t (i + j * p)).im - (t (j + i * p)).im) / r2 := by
  have := get_end (a := (List.range p).map (fun i => (t (i + i * p)).re)) (b := (pairs p).map (fun q => ((t (q.1 + q.2 * p)).re + (t (q.2 + q.1 * p)).re) / r2))
    (c := (pairs p).map (fun q => ((t (q.1 + q.2 * p)).im - (t (q.2 + q.1 * p)).im) / r2)) (k := k) (by rw [List.getElem?_map, hk]; rfl)
  rw [List.length_map, List.length_range, List.length_map] at this
  exact buf_get this

end bufs

/-- The imaginary parts of the diagonal in the memory obtained. -/
def ImDiagZero (p : Nat) (junk : Nat → ℝ) : Prop := ∀ i < p, junk (2 * (i + i * p) + 1) = 0

theorem herm_re_im {S : Matrix (Fin p) (Fin p) ℂ} (h : Sᴴ = S) {i j : Nat} (hi : i < p) (hj : j < p) :
    (flat S (i + j * p)).re = (flat S (j + i * p)).re ∧ (flat S (i + j * p)).im = -(flat S (j + i * p)).im := by
  rw [CIntr.flat_apply S hi hj, CIntr.flat_apply S hj hi]
  have : Sᴴ ⟨i, hi⟩ ⟨j, hj⟩ = S ⟨i, hi⟩ ⟨j, hj⟩ := by rw [h]
  rw [← this, conjTranspose_apply]
  simp

/-- The matrix built by the loops is Hermitian exactly when the memory had real diagonal entries. -/
theorem nor_extr_herm (junk c : Nat → ℝ) : (unflat p p (writeAll junk (norExtrWrites p c)))ᴴ = unflat p p (writeAll junk (norExtrWrites p c)) ↔ ImDiagZero p junk := by
  constructor
  · intro h i hi
    have := (herm_re_im h hi hi).2
    rw [CIntr.flat_unflat _ hi hi, nor_diag _ _ hi] at this
    simp only [] at this
    linarith
  · intro h
    ext ⟨i, hi⟩ ⟨j, hj⟩
    show star (cx _ (j + i * p)) = cx _ (i + j * p)
    rcases Nat.lt_trichotomy i j with hl | hl | hl
    · obtain ⟨k, hk⟩ := index_exists (mem_pairs.mpr ⟨hl, hj⟩)
      rw [nor_upper _ _ hk, nor_lower _ _ hk]
      apply Complex.ext <;> simp
    · subst hl
      rw [nor_diag _ _ hj, h i hj]
      apply Complex.ext <;> simp
    · obtain ⟨k, hk⟩ := index_exists (mem_pairs.mpr ⟨hl, hi⟩)
      rw [nor_upper _ _ hk, nor_lower _ _ hk]
      apply Complex.ext <;> simp

theorem r2_sq_div (a : ℝ) : (a / r2 + a / r2) / r2 = a := by
  have := r2_mul_r2
  field_simp [r2_ne]
  linear_combination -a * this

/-- **C89 (normal coordinates).** For every point, coordinate vector of length `p²` and whatever the memory contained: the coordinates are recovered from the vector
`ObtainNorVerExtr` returns. -/
theorem C89_normal_intr_extr_partial (hx : xᴴ * x = 1) (c : List ℝ) (hc : c.length = p * p) (junk : Nat → ℝ) : normalIntr x (normalExtr junk x c) = c := by
  unfold normalIntr normalExtr
  rw [← Matrix.mul_assoc, hx, Matrix.one_mul]
  have hlen : c.length = p + (pairs p).length + (pairs p).length := by
    have h1 := two_mul_length_pairs p
    rw [hc]
    rcases p with _ | p
    · simp at h1 ⊢; simp [h1]
    · rw [Nat.add_sub_cancel] at h1
      have : (p + 1) * (p + 1) = p + 1 + (p + 1) * p := by ring
      omega
  refine list_ext_buf (by rw [length_nor, hlen]) fun k hk => ?_
  rw [hlen] at hk
  by_cases h1 : k < p
  · rw [nbuf_diag _ h1, CIntr.flat_unflat _ h1 h1, nor_diag _ _ h1]
  by_cases h2 : k < p + (pairs p).length
  · obtain ⟨m, rfl⟩ := Nat.exists_eq_add_of_le (not_lt.mp h1)
    have hm : m < (pairs p).length := by omega
    rcases hq : (pairs p)[m] with ⟨i, j⟩
    have hg : (pairs p)[m]? = some (i, j) := by rw [List.getElem?_eq_getElem hm, hq]
    have hij := idx_of_pair hg
    rw [nbuf_re _ hg, CIntr.flat_unflat _ (by omega) (by omega), CIntr.flat_unflat _ (by omega) (by omega), nor_lower _ _ hg, nor_upper _ _ hg]
    exact r2_sq_div _
  · obtain ⟨m, rfl⟩ := Nat.exists_eq_add_of_le (not_lt.mp h2)
    have hm : m < (pairs p).length := by omega
    rcases hq : (pairs p)[m] with ⟨i, j⟩
    have hg : (pairs p)[m]? = some (i, j) := by rw [List.getElem?_eq_getElem hm, hq]
    have hij := idx_of_pair hg
    rw [nbuf_im _ hg, CIntr.flat_unflat _ (by omega) (by omega), CIntr.flat_unflat _ (by omega) (by omega), nor_lower _ _ hg, nor_upper _ _ hg]
    simp only [sub_neg_eq_add]
    exact r2_sq_div _

/-- **C89 (normal vectors).** The vector `ObtainNorVerExtr` returns is normal exactly when the memory it obtained contained zeros at the imaginary parts of the diagonal; then a normal
vector is recovered from its coordinates. -/
theorem C89_normal_extr_partial (hx : xᴴ * x = 1) (c : List ℝ) (junk : Nat → ℝ) :
    (IsNormal x (normalExtr junk x c) ↔ ImDiagZero p junk) ∧ ∀ v, IsNormal x v → (normalExtr junk x (normalIntr x v) = v ↔ ImDiagZero p junk) := by
  constructor
  · rw [← nor_extr_herm junk (buf c)]
    constructor
    · rintro ⟨S, hS, h⟩
      have h' := congrArg (fun M => xᴴ * M) h
      simp only [normalExtr] at h'
      rw [← Matrix.mul_assoc, ← Matrix.mul_assoc, hx, Matrix.one_mul, Matrix.one_mul] at h'
      rw [h', hS]
    · intro h
      exact ⟨_, h, rfl⟩
  · rintro v ⟨S, hS, rfl⟩
    unfold normalIntr normalExtr
    have e : xᴴ * (x * S) = S := by rw [← Matrix.mul_assoc, hx, Matrix.one_mul]
    rw [e]
    constructor
    · intro h
      have h' := congrArg (fun M => xᴴ * M) h
      rw [← Matrix.mul_assoc, ← Matrix.mul_assoc, hx, Matrix.one_mul, Matrix.one_mul] at h'
      rw [← nor_extr_herm junk (buf (norIntr p (flat S))), h', hS]
    · intro h
      congr 1
      ext ⟨i, hi⟩ ⟨j, hj⟩
      show cx _ (i + j * p) = _
      rw [← CIntr.flat_apply S hi hj]
      have hs := herm_re_im hS hi hj
      rcases Nat.lt_trichotomy i j with hl | hl | hl
      · obtain ⟨k, hk⟩ := index_exists (mem_pairs.mpr ⟨hl, hj⟩)
        rw [nor_upper _ _ hk, nbuf_re _ hk, nbuf_im _ hk, ← hs.1, show (flat S (j + i * p)).im = -(flat S (i + j * p)).im by rw [hs.2, neg_neg]]
        have := r2_mul_r2
        apply Complex.ext
        · simp only []; field_simp [r2_ne]; linear_combination -(flat S (i + j * p)).re * this
        · simp only []; field_simp [r2_ne]; linear_combination -(flat S (i + j * p)).im * this
      · subst hl
        rw [nor_diag _ _ hj, nbuf_diag _ hj, h i hj]
        apply Complex.ext
        · rfl
        · simp only []; linarith [hs.2]
      · obtain ⟨k, hk⟩ := index_exists (mem_pairs.mpr ⟨hl, hi⟩)
        rw [nor_lower _ _ hk, nbuf_re _ hk, nbuf_im _ hk, hs.2, hs.1]
        have := r2_mul_r2
        apply Complex.ext
        · simp only []; rw [hs.1]; field_simp [r2_ne]; linear_combination -(flat S (j + i * p)).re * this
        · simp only []; rw [hs.2]; field_simp [r2_ne]; linear_combination (flat S (j + i * p)).im * this

/-- **C89 (isometry of the normal coordinates).** -/
theorem C89_normal_isometry_partial (hx : xᴴ * x = 1) {u v : Matrix (Fin n) (Fin p) ℂ} (hu : IsNormal x u) (hv : IsNormal x v) :
    dot (normalIntr x u) (normalIntr x v) = ip u v := by
  obtain ⟨S, hS, rfl⟩ := hu
  obtain ⟨T, hT, rfl⟩ := hv
  unfold normalIntr
  rw [show xᴴ * (x * S) = S by rw [← Matrix.mul_assoc, hx, Matrix.one_mul], show xᴴ * (x * T) = T by rw [← Matrix.mul_assoc, hx, Matrix.one_mul],
    ip_mul_left, ← Matrix.mul_assoc, hx, Matrix.one_mul, ip_split le_rfl, norIntr, norIntr, dot_append (by simp), dot_append (by simp), dot_map, dot_map, dot_map, sum_range_list, add_assoc]
  have hrest : rest p p = [] := by
    apply List.eq_nil_of_length_eq_zero
    rw [length_rest, Nat.sub_self, Nat.mul_zero]
  rw [hrest, List.map_nil, List.sum_nil, add_zero, ← List.sum_map_add]
  congr 1
  · refine Finset.sum_congr rfl fun i hi => ?_
    have hi := Finset.mem_range.mp hi
    have h : (flat S (i + i * p)).im = 0 := by have := (herm_re_im hS hi hi).2; linarith
    rw [rp, h]; ring
  · congr 1
    refine List.map_congr_left ?_
    rintro ⟨i, j⟩ hq
    have hij := mem_pairs.mp hq
    have ha := herm_re_im hS (by omega : i < p) (by omega : j < p)
    have hb := herm_re_im hT (by omega : i < p) (by omega : j < p)
    simp only [rp]
    rw [ha.1, ha.2, hb.1, hb.2]
    have := r2_mul_r2
    field_simp [r2_ne]
    linear_combination (-2 * ((flat S (j + i * p)).re * (flat T (j + i * p)).re + (flat S (j + i * p)).im * (flat T (j + i * p)).im)) * this

/-- **C89, false.** For every point with `p > 0` and every coordinate vector, the result of `ObtainNorVerExtr` depends on what the memory contained, and is not normal for some content. -/
theorem C89_normal_extr_false (hp : 0 < p) (hx : xᴴ * x = 1) (c : List ℝ) :
    (∃ junk junk', normalExtr junk x c ≠ normalExtr junk' x c) ∧ ∃ junk, ¬ IsNormal x (normalExtr junk x c) := by
  have h1 : ¬ IsNormal x (normalExtr (fun _ => 1) x c) := by
    rw [(C89_normal_extr_partial hx c _).1]
    intro h
    exact one_ne_zero (h 0 hp)
  have h0 : IsNormal x (normalExtr (fun _ => 0) x c) := (C89_normal_extr_partial hx c _).1.mpr fun _ _ => rfl
  exact ⟨⟨fun _ => 0, fun _ => 1, fun e => h1 (e ▸ h0)⟩, _, h1⟩

/-- **C89, false.** `EucHvToHv` (canonical metric) and `InvPolarRetraction` compute a complex product in the memory of a real `p × p` element: the call is accepted, the product occupies the
positions up to `2 p² - 1` of an array of length `p²`. For all sizes and all contents. -/
theorem C89_overflow_false (n p : ℕ) (hp : 0 < p) (junk a b : Nat → ℝ) :
    (∃ z, hvReceiver p junk (Dense.mk true n p 1 a) (Dense.mk true n p 1 b) = some z ∧ z.len = p * p ∧
      ∀ i < p, ∀ j < p, cx z.get (i + j * p) = ∑ l ∈ Finset.range n, (starRingEnd ℂ) (cx a (l + i * n)) * cx b (l + j * n)) ∧
    (∃ z, invPolarReceiver p junk (Dense.mk true n p 1 a) (Dense.mk true n p 1 b) = some z ∧ z.len = p * p ∧
      ∀ i < p, ∀ j < p, cx z.get (i + j * p) = ∑ l ∈ Finset.range n, (starRingEnd ℂ) (cx a (l + i * n)) * cx b (l + j * n)) ∧
    ∀ q : Nat → ℝ, q (2 * p * p - 1) = (cx q ((p - 1) + (p - 1) * p)).im ∧ p * p ≤ 2 * p * p - 1 := by
  have key : ∃ z, hvReceiver p junk (Dense.mk true n p 1 a) (Dense.mk true n p 1 b) = some z ∧ z.len = p * p ∧
      ∀ i < p, ∀ j < p, cx z.get (i + j * p) = ∑ l ∈ Finset.range n, (starRingEnd ℂ) (cx a (l + i * n)) * cx b (l + j * n) := by
    have e : (Dense.mk true n p 1 a).row = n := by simp [Dense.mk, Dense.El.row]
    have e' : (Dense.mk true n p 1 b).row = n := by simp [Dense.mk, Dense.El.row]
    refine ⟨{ Dense.mk false p p 1 junk with get := Dense.cgemm .C .N p p n 1 a n b n 0 p junk }, ?_, ?_, ?_⟩
    · simp only [hvReceiver, Dense.abThis, Dense.abThisC]
      rw [if_neg (by simp [Dense.mk]), if_pos (by simp [Dense.mk]), if_pos (by simp [Dense.mk])]
      simp only [reduceCtorEq, if_false, if_true, e, e']
      rw [if_pos (by simp [Dense.mk, Dense.El.row, Dense.El.col])]
      simp [Dense.mk, Dense.El.col]
    · simp [Dense.mk, Dense.El.len]
    · intro i hi j hj
      rw [Dense.cgemm_at _ _ _ _ _ _ _ _ _ hi hj]
      simp [Dense.opc]
  refine ⟨key, key, fun q => ?_⟩
  obtain ⟨p, rfl⟩ := Nat.exists_eq_succ_of_ne_zero hp.ne'
  have e : 2 * (p + 1) * (p + 1) = 2 * (p + p * (p + 1)) + 2 := by ring
  have e' : (p + 1) * (p + 1) = p + p * (p + 1) + 1 := by ring
  constructor
  · show q _ = q (2 * (p + p * (p + 1)) + 1)
    congr 1
    simp only [Nat.succ_eq_add_one]
    omega
  · simp only [Nat.succ_eq_add_one]
    omega

/-! ### Cases meeting the hypotheses -/

/-- The first two columns of the identity, as a complex matrix. -/
noncomputable def exX : Matrix (Fin 3) (Fin 2) ℂ := !![1, 0; 0, 1; 0, 0]

example : IsQR exX 1 exX ∧ exXᴴ * exX = 1 ∧ IsTangent exX !![3 * Complex.I, 2 + Complex.I; -2 + Complex.I, 0; 5, 7 * Complex.I] ∧
    IsNormal exX !![1, 2 + Complex.I; 2 - Complex.I, 4; 0, 0] := by
  refine ⟨⟨by simp, ?_, ?_, by simp⟩, ?_, ?_, !![1, 2 + Complex.I; 2 - Complex.I, 4], ?_, ?_⟩
  · intro i j; fin_cases i <;> fin_cases j <;> simp [exX]
  · intro i j; fin_cases i <;> fin_cases j <;> simp [exX]
  · ext i j; fin_cases i <;> fin_cases j <;> simp [exX, mul_apply, Fin.sum_univ_three]
  · show (exXᴴ * _)ᴴ = -(exXᴴ * _)
    ext i j; fin_cases i <;> fin_cases j <;> simp [exX, mul_apply, Fin.sum_univ_three] <;> ring
  · ext i j; fin_cases i <;> fin_cases j <;> simp [conjTranspose_apply] <;> ring
  · ext i j; fin_cases i <;> fin_cases j <;> simp [exX, mul_apply]

/-- A thin factorisation of `x + η`, a singular value decomposition, and the direction case of the differentiated polar retraction. -/
example : (!![1; 0] : Matrix (Fin 2) (Fin 1) ℂ) + !![0; 0] = (!![-1; 0] : Matrix (Fin 2) (Fin 1) ℂ) * (!![-1] : Matrix (Fin 1) (Fin 1) ℂ) ∧ IsUpper (!![-1] : Matrix (Fin 1) (Fin 1) ℂ) ∧ (!![-1; 0] : Matrix (Fin 2) (Fin 1) ℂ)ᴴ * (!![-1; 0] : Matrix (Fin 2) (Fin 1) ℂ) = 1 ∧
    IsTangent (!![1; 0] : Matrix (Fin 2) (Fin 1) ℂ) !![Complex.I; 3] ∧ (!![2 * Complex.I; 6] : Matrix (Fin 2) (Fin 1) ℂ) = (2 : ℝ) • !![Complex.I; 3] := by
  refine ⟨?_, ?_, ?_, ?_, ?_⟩
  · ext i j; fin_cases i <;> fin_cases j <;> simp
  · intro i j h; fin_cases i; fin_cases j; exact absurd h (lt_irrefl _)
  · ext i j; fin_cases i <;> fin_cases j <;> simp [mul_apply]
  · show (_)ᴴ = -_
    ext i j; fin_cases i <;> fin_cases j <;> simp [mul_apply]
  · ext i j; fin_cases i <;> fin_cases j <;> simp <;> norm_num

/-- The hypotheses of the two statements on differentiated retractions are met along a ray from `e₁`. -/
noncomputable def rayNorm (t : ℝ) : ℝ := √(1 + (3 / 4 * (1 + t)) * (3 / 4 * (1 + t)))

theorem rayNorm_pos (t : ℝ) : 0 < rayNorm t := Real.sqrt_pos.mpr (by nlinarith [mul_self_nonneg (3 / 4 * (1 + t))])

theorem rayNorm_sq (t : ℝ) : rayNorm t * rayNorm t = 1 + (3 / 4 * (1 + t)) * (3 / 4 * (1 + t)) := Real.mul_self_sqrt (by nlinarith [mul_self_nonneg (3 / 4 * (1 + t))])

noncomputable def rayX : Matrix (Fin 2) (Fin 1) ℂ := !![1; 0]
noncomputable def rayEta : Matrix (Fin 2) (Fin 1) ℂ := !![0; (3 / 4 : ℝ) * Complex.I]
noncomputable def rayQ (t : ℝ) : Matrix (Fin 2) (Fin 1) ℂ := !![((1 / rayNorm t : ℝ) : ℂ); ((3 / 4 * (1 + t) / rayNorm t : ℝ) : ℂ) * Complex.I]

theorem rayX_orth : rayXᴴ * rayX = 1 := by
  ext i j; fin_cases i; fin_cases j; simp [rayX, mul_apply, Fin.sum_univ_two]

theorem rayEta_tangent : IsTangent rayX rayEta := by
  show (rayXᴴ * rayEta)ᴴ = -(rayXᴴ * rayEta)
  ext i j; fin_cases i; fin_cases j; simp [rayX, rayEta, mul_apply, Fin.sum_univ_two]

theorem rayQ_orth (t : ℝ) : (rayQ t)ᴴ * rayQ t = 1 := by
  have h := (rayNorm_pos t).ne'
  have h2 := rayNorm_sq t
  ext i j; fin_cases i; fin_cases j
  rw [mul_apply, Fin.sum_univ_two, conjTranspose_apply, conjTranspose_apply]
  apply Complex.ext
  · simp [rayQ]
    field_simp
    linarith
  · simp [rayQ]

theorem rayQ_eq (t : ℝ) : rayQ t * diagonal (fun _ => (rayNorm t : ℂ)) = rayX + (rayEta + t • rayEta) := by
  have h := (rayNorm_pos t).ne'
  ext i j; fin_cases j
  rw [mul_diagonal]
  fin_cases i
  · apply Complex.ext
    · simp [rayQ, rayX, rayEta]
      field_simp
    · simp [rayQ, rayX, rayEta]
  · apply Complex.ext
    · simp [rayQ, rayX, rayEta]
    · simp [rayQ, rayX, rayEta]
      field_simp

example : (∀ i j, HasDerivAt (fun t => qfRetraction (rayQ t) (diagonal fun _ => (rayNorm t : ℂ)) i j) (diffQf (qfRetraction (rayQ 0) (diagonal fun _ => (rayNorm 0 : ℂ))) (diagonal fun _ => (rayNorm 0 : ℂ)) rayEta i j) 0) ∧
    ∀ i j, HasDerivAt (fun t => polarRetraction (rayQ t) 1 i j) (diffPolar (polarRetraction (rayQ 0) 1) (fun _ => rayNorm 0) 1 rayEta rayEta i j) 0 := by
  refine ⟨fun i j => C88_qf_diff_retraction rayX_orth rayEta_tangent rayEta_tangent rayQ _ rayQ_orth ?_ ?_ rayQ_eq i j,
    fun i j => C88_polar_diff_retraction (c := 1) rayX_orth rayEta_tangent ?_ zero_le_one (one_smul _ _).symm rayQ (fun t _ => rayNorm t) (fun _ => 1) rayQ_orth (fun _ => by simp)
      (fun t _ => (rayNorm_pos t).le) (fun t => by rw [Matrix.mul_one]; exact rayQ_eq t) i j⟩
  · intro t i j h; rw [Subsingleton.elim i j] at h; exact absurd h (lt_irrefl _)
  · intro t i; simp
  · intro h
    have := congrArg Complex.im (congrFun (congrFun h 1) 0)
    simp [rayEta] at this

end Verif.CStiefel
